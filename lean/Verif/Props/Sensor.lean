import Verif.Lemmas.Leaf
import Verif.Props.Network
import Verif.Props.Scale
import Verif.Examples.Network

/-!
# Property theorems: soft evidence is an observed leaf (C80)

An array of likelihoods for a variable is nothing but the observation of one more variable, a child of it, whose
table has these likelihoods as a row.
-/

namespace Primo
open Finset
variable {bn bn' : BN}

/-- **C80** If the leaf `c` below `v` shows `y` with probabilities proportional to `l`, then observing `y` gives the
same answers as the likelihoods `l` for `v`, in addition to whatever else is known, also about `v`.  The two
answers may come from different exact methods. -/
theorem C80_sensor (hc : bn.Consistent) (hc' : bn'.Consistent) (hn : bn.NonNeg) (hn' : bn'.NonNeg) {v c : Name}
    {y : Val} {l : List ℚ} (h : Sensor bn bn' v c y l) {ev ev1 : Dict Evidence} (he : LegalEvidence bn ev)
    (hen : NonNegEvidence ev) (he1 : LegalEvidence bn ev1) (hen1 : NonNegEvidence ev1) (hj : Joined bn ev ev1 v l)
    {Q : List Name} (hQ : ∀ u ∈ Q, u ∈ bn.names) {r r' : Factor} (hr : ExactAnswer bn ev1 Q r)
    (hr' : ExactAnswer bn' ((c, .hard y) :: ev) Q r') : SameTable bn.card r r' := by
  have hQ' : ∀ u ∈ Q, u ∈ bn'.names := fun u hu => h.names.mem_iff.2 (List.mem_cons_of_mem _ (hQ u hu))
  have hen' : NonNegEvidence ((c, Evidence.hard y) :: ev) := by
    intro u l' hm
    rcases List.mem_cons.1 hm with e | hm
    · exact absurd (Prod.mk.inj e).2 (by simp)
    · exact hen u l' hm
  obtain ⟨a1, a2⟩ := hr.spec hc hn he1 hen1 hQ
  obtain ⟨b1, b2⟩ := hr'.spec hc' hn' (h.legal hc hc' he) hen' hQ'
  refine ⟨fun u => by rw [a1, b1], fun σ hσ => ?_⟩
  have hσ1 : Legal bn.card Q σ := fun u hu => hσ u ((a1 u).2 hu)
  have hσ2 : Legal bn'.card Q σ := fun u hu => by rw [h.card hc hc' (hQ u hu)]; exact hσ1 u hu
  rw [a2 σ hσ1, b2 σ hσ2, h.posterior hc hc' hn he he1 hen1 hj hQ hσ1]

theorem joined_cons {v : Name} {l : List ℚ} {ev : Dict Evidence} (hv : v ∉ ev.keys) :
    Joined bn ev ((v, .soft l) :: ev) v l := by
  intro u _ i _
  unfold likAt
  by_cases e : u = v
  · subst e
    rw [Dict.get?_eq_none.2 hv, show Dict.get? ((u, Evidence.soft l) :: ev) u = some (.soft l) by simp [Dict.get?]]
    simp [lik]
  · rw [show Dict.get? ((v, Evidence.soft l) :: ev) u = ev.get? u by simp [Dict.get?, Ne.symm e], if_neg e, mul_one]

/-- **C80** in particular an array for a variable without other evidence -/
theorem C80_array (hc : bn.Consistent) (hc' : bn'.Consistent) (hn : bn.NonNeg) (hn' : bn'.NonNeg) {v c : Name}
    {y : Val} {l : List ℚ} (h : Sensor bn bn' v c y l) {ev : Dict Evidence}
    (he : LegalEvidence bn ((v, .soft l) :: ev)) (hen : NonNegEvidence ((v, .soft l) :: ev))
    {Q : List Name} (hQ : ∀ u ∈ Q, u ∈ bn.names) {r r' : Factor} (hr : ExactAnswer bn ((v, .soft l) :: ev) Q r)
    (hr' : ExactAnswer bn' ((c, .hard y) :: ev) Q r') : SameTable bn.card r r' := by
  have hnd := List.nodup_cons.1 he.nodup
  refine C80_sensor hc hc' hn hn' h (ev := ev) ⟨hnd.2, fun p hp => he.mem p (List.mem_cons_of_mem _ hp),
    fun u x hp => he.hard u x (List.mem_cons_of_mem _ hp), fun u x hp => he.soft u x (List.mem_cons_of_mem _ hp)⟩
    (fun u x hp => hen u x (List.mem_cons_of_mem _ hp)) he hen (joined_cons hnd.1) hQ hr hr'

/-- **C80** Such a leaf can always be added, under any new name: for non-negative likelihoods there is a network with
it that is consistent, non-negative and, if the old one was, acyclic and normalised. -/
theorem C80_exists (hc : bn.Consistent) (hn : bn.NonNeg) {v c : Name} (hv : v ∈ bn.names) (hf : c ∉ bn.names)
    {l : List ℚ} (hl : ∀ x ∈ l, 0 ≤ x) : ∃ bn', Sensor bn bn' v c "yes" l ∧ bn'.Consistent ∧ bn'.NonNeg ∧
      (bn.Acyclic → bn'.Acyclic) ∧ (bn.Stochastic → bn'.Stochastic) := by
  have hs0 : 0 ≤ l.sum := List.sum_nonneg hl
  have hs : 0 < 1 / (1 + l.sum) := by positivity
  refine ⟨bn.sense v c (l.map (1 / (1 + l.sum) * ·)), sense_sensor hs l, sense_consistent hc hv hf _,
    sense_nonneg hn ?_, fun ha => sense_acyclic hc hv hf ha _, fun hst => sense_stochastic hc hv hf hst _⟩
  intro x hx
  obtain ⟨z, hz, rfl⟩ := List.mem_map.1 hx
  have h1 : z ≤ l.sum := List.single_le_sum hl z hz
  have h0 := hl z hz
  refine ⟨by positivity, ?_⟩
  rw [one_div, inv_mul_le_iff₀ (by linarith)]
  linarith

/-- **C80** Two leaves below the same variable, both observed, are like the entrywise product of their likelihoods:
independent reports multiply. -/
theorem C80_two_reports {bn'' : BN} (hc : bn.Consistent) (hc' : bn'.Consistent) (hc'' : bn''.Consistent)
    (hn : bn.NonNeg) (hn' : bn'.NonNeg) (hn'' : bn''.NonNeg) {v c c' : Name} {y y' : Val} {l l' l'' : List ℚ}
    (h : Sensor bn bn' v c y l) (h' : Sensor bn' bn'' v c' y' l') (hl0 : ∀ x ∈ l, 0 ≤ x) (hl0' : ∀ x ∈ l', 0 ≤ x)
    (hlen : l.length = bn.card v) (hlen' : l'.length = bn.card v) (hl : l'' = List.zipWith (· * ·) l l')
    {ev : Dict Evidence} (he : LegalEvidence bn ev) (hen : NonNegEvidence ev) (hvk : v ∉ ev.keys)
    {Q : List Name} (hQ : ∀ u ∈ Q, u ∈ bn.names) {r r' : Factor} (hr : ExactAnswer bn ((v, .soft l'') :: ev) Q r)
    (hr' : ExactAnswer bn'' ((c', .hard y') :: (c, .hard y) :: ev) Q r') : SameTable bn.card r r' := by
  have hv := h.mem hc'
  have hv' : v ∈ bn'.names := h'.mem hc''
  have hvc : c ≠ v := by rintro rfl; exact h.fresh hc' hv
  have hlen'' : l''.length = bn.card v := by rw [hl]; simp [hlen, hlen']
  have cons_legal : ∀ {b : BN} {e : Dict Evidence} {l : List ℚ}, LegalEvidence b e → v ∈ b.names → v ∉ e.keys →
      l.length = b.card v → LegalEvidence b ((v, .soft l) :: e) := by
    intro b e l g1 g2 g3 g4
    refine ⟨List.nodup_cons.2 ⟨g3, g1.nodup⟩, fun p hp => ?_, fun u x hp => ?_, fun u x hp => ?_⟩
    · rcases List.mem_cons.1 hp with rfl | hp
      · exact g2
      · exact g1.mem p hp
    · rcases List.mem_cons.1 hp with e | hp
      · exact absurd (Prod.mk.inj e).2 (by simp)
      · exact g1.hard u x hp
    · rcases List.mem_cons.1 hp with e | hp
      · obtain ⟨rfl, e⟩ := Prod.mk.inj e
        cases e; exact g4
      · exact g1.soft u x hp
  have cons_nonneg : ∀ {e : Dict Evidence} {l : List ℚ}, NonNegEvidence e → (∀ x ∈ l, 0 ≤ x) →
      NonNegEvidence ((v, .soft l) :: e) := by
    intro e l g1 g2 u x hp
    rcases List.mem_cons.1 hp with e | hp
    · obtain ⟨-, e⟩ := Prod.mk.inj e
      cases e; exact g2
    · exact g1 u x hp
  have hard_nonneg : NonNegEvidence ((c, Evidence.hard y) :: ev) := by
    intro u l' hm
    rcases List.mem_cons.1 hm with e | hm
    · exact absurd (Prod.mk.inj e).2 (by simp)
    · exact hen u l' hm
  -- an answer of the network with one leaf
  have he1 := h.legal hc hc' he
  have hvk1 : v ∉ Dict.keys ((c, Evidence.hard y) :: ev) := by
    intro hm
    rcases List.mem_cons.1 hm with e | hm
    · exact hvc e.symm
    · exact hvk hm
  have he2 : LegalEvidence bn' ((v, .soft l') :: (c, .hard y) :: ev) :=
    cons_legal he1 hv' hvk1 (by rw [hlen', h.card hc hc' hv])
  have hQ' : ∀ u ∈ Q, u ∈ bn'.names := fun u hu => h.names.mem_iff.2 (List.mem_cons_of_mem _ (hQ u hu))
  have he3 : LegalEvidence bn ((v, .soft l') :: ev) := cons_legal he hv hvk hlen'
  have he4 : LegalEvidence bn ((v, .soft l'') :: ev) := cons_legal he hv hvk hlen''
  have hpos : ∀ x ∈ l'', 0 ≤ x := by
    intro x hx
    rw [hl, List.zipWith_eq_zipWith_take_min] at hx
    rw [List.mem_iff_getElem] at hx
    obtain ⟨i, hi, rfl⟩ := hx
    rw [List.getElem_zipWith]
    exact mul_nonneg (hl0 _ (List.mem_of_mem_take (List.getElem_mem _)))
      (hl0' _ (List.mem_of_mem_take (List.getElem_mem _)))
  have hj : Joined bn ((v, .soft l') :: ev) ((v, .soft l'') :: ev) v l := by
    intro u _ i hi
    unfold likAt
    by_cases e : u = v
    · subst e
      rw [show Dict.get? ((u, Evidence.soft l') :: ev) u = some (.soft l') by simp [Dict.get?],
        show Dict.get? ((u, Evidence.soft l'') :: ev) u = some (.soft l'') by simp [Dict.get?], if_pos rfl, hl]
      show (List.zipWith (· * ·) l l').getD i 0 = l'.getD i 0 * l.getD i 0
      have h1 : i < l.length := by rw [hlen]; exact hi
      have h2 : i < l'.length := by rw [hlen']; exact hi
      rw [List.getD_eq_getElem?_getD, List.getD_eq_getElem?_getD, List.getD_eq_getElem?_getD,
        List.getElem?_eq_getElem h1, List.getElem?_eq_getElem h2,
        List.getElem?_eq_getElem (by rw [List.length_zipWith]; omega), List.getElem_zipWith]
      exact mul_comm _ _
    · rw [show Dict.get? ((v, Evidence.soft l') :: ev) u = ev.get? u by simp [Dict.get?, Ne.symm e],
        show Dict.get? ((v, Evidence.soft l'') :: ev) u = ev.get? u by simp [Dict.get?, Ne.symm e], if_neg e, mul_one]
  obtain ⟨m, hm⟩ := ExactAnswer.exists hc' he2 hQ'
  -- the same with the leaf first
  have he2' := h.legal hc hc' he3
  obtain ⟨m', hm'⟩ := ExactAnswer.exists hc' he2' hQ'
  have s1 := C80_array hc' hc'' hn' hn'' h' he2 (cons_nonneg hard_nonneg hl0') hQ' hm hr'
  have s2 := C80_sensor hc hc' hn hn' h he3 (cons_nonneg hen hl0') he4 (cons_nonneg hen hpos) hj hQ hr hm'
  have hp : List.Perm ((v, Evidence.soft l') :: (c, .hard y) :: ev) ((c, .hard y) :: (v, .soft l') :: ev) :=
    List.Perm.swap _ _ _
  have hen2' : NonNegEvidence ((c, Evidence.hard y) :: (v, .soft l') :: ev) := fun u x hx =>
    cons_nonneg hard_nonneg hl0' u x (hp.mem_iff.2 hx)
  have s3 : SameTable bn'.card m m' := by
    obtain ⟨a1, a2⟩ := hm.spec hc' hn' he2 (cons_nonneg hard_nonneg hl0') hQ'
    obtain ⟨b1, b2⟩ := hm'.spec hc' hn' he2' hen2' hQ'
    refine ⟨fun u => by rw [a1, b1], fun σ hσ => ?_⟩
    have hσ' : Legal bn'.card Q σ := fun u hu => hσ u ((a1 u).2 hu)
    have hw : weight bn' ((v, .soft l') :: (c, .hard y) :: ev) = weight bn' ((c, .hard y) :: (v, .soft l') :: ev) := by
      funext τ
      unfold weight
      rw [(hp.map _).prod_eq]
    rw [a2 σ hσ', b2 σ hσ', posterior, posterior, totalWeight, totalWeight, hw]
  have hmem : ∀ u ∈ m'.variableOrder, u ∈ bn.names := fun u hu => by
    obtain ⟨b1, -⟩ := hm'.spec hc' hn' he2' hen2' hQ'
    exact hQ u ((b1 u).1 hu)
  refine ⟨fun u => by rw [s2.1, ← s3.1, s1.1], fun σ hσ => ?_⟩
  have hσm : Legal bn'.card m.variableOrder σ := fun u hu => by
    have hu' := (s3.1 u).1 hu
    rw [h.card hc hc' (hmem u hu')]
    exact hσ u ((s2.1 u).2 hu')
  rw [s2.2 σ hσ, ← s3.2 σ hσm, s1.2 σ hσm]

/-- **C80** Observations suffice: for every network and evidence there are a network with some more leaves and
evidence without arrays that give the same answers. -/
theorem C80_hard_only (hc : bn.Consistent) (hn : bn.NonNeg) {ev : Dict Evidence} (he : LegalEvidence bn ev)
    (hen : NonNegEvidence ev) : ∃ bn' ev', bn'.Consistent ∧ bn'.NonNeg ∧ (bn.Acyclic → bn'.Acyclic) ∧
      (bn.Stochastic → bn'.Stochastic) ∧ LegalEvidence bn' ev' ∧ AllHard ev' ∧
      (∀ v ∈ bn.names, v ∈ bn'.names ∧ bn'.lab v = bn.lab v) ∧
      ∀ Q, (∀ v ∈ Q, v ∈ bn.names) → ∀ r r', ExactAnswer bn ev Q r → ExactAnswer bn' ev' Q r' →
        SameTable bn.card r r' := by
  suffices key : ∀ k, ∀ (bn : BN) (ev : Dict Evidence), bn.Consistent → bn.NonNeg → LegalEvidence bn ev →
      NonNegEvidence ev → (ev.filter fun p => match p.2 with | .soft _ => true | .hard _ => false).length = k →
      ∃ bn' ev', bn'.Consistent ∧ bn'.NonNeg ∧ (bn.Acyclic → bn'.Acyclic) ∧
        (bn.Stochastic → bn'.Stochastic) ∧ LegalEvidence bn' ev' ∧ AllHard ev' ∧
        (∀ v ∈ bn.names, v ∈ bn'.names ∧ bn'.lab v = bn.lab v) ∧
        ∀ Q, (∀ v ∈ Q, v ∈ bn.names) → ∀ σ, Legal bn.card Q σ → posterior bn' ev' Q σ = posterior bn ev Q σ by
    obtain ⟨bn', ev', h1, h2, h3, h4, h5, h6, h7, h8⟩ := key _ bn ev hc hn he hen rfl
    refine ⟨bn', ev', h1, h2, h3, h4, h5, h6, h7, fun Q hQ r r' hr hr' => ?_⟩
    obtain ⟨a1, a2⟩ := hr.spec hc hn he hen hQ
    obtain ⟨b1, b2⟩ := hr'.spec h1 h2 h5 (fun v l hm => by
      obtain ⟨x, hx⟩ := h6 _ hm
      exact absurd hx (by simp)) fun v hv => (h7 v (hQ v hv)).1
    refine ⟨fun u => by rw [a1, b1], fun σ hσ => ?_⟩
    have hσ1 : Legal bn.card Q σ := fun u hu => hσ u ((a1 u).2 hu)
    have hσ2 : Legal bn'.card Q σ := fun u hu => by
      rw [BN.card, (h7 u (hQ u hu)).2]; exact hσ1 u hu
    rw [a2 σ hσ1, b2 σ hσ2, h8 Q hQ σ hσ1]
  intro k
  induction k with
  | zero =>
    intro bn ev hc hn he hen hk
    refine ⟨bn, ev, hc, hn, id, id, he, fun p hp => ?_, fun v hv => ⟨hv, rfl⟩, fun _ _ _ _ => rfl⟩
    have := List.filter_eq_nil_iff.1 (List.length_eq_zero_iff.1 hk) p hp
    rcases h : p.2 with x | l
    · exact ⟨x, rfl⟩
    · rw [h] at this; simp at this
  | succ k ih =>
    intro bn ev hc hn he hen hk
    have : ∃ p ∈ ev, ∃ l, p.2 = Evidence.soft l := by
      by_contra hcon
      push Not at hcon
      have : (ev.filter fun p => match p.2 with | .soft _ => true | .hard _ => false) = [] := by
        refine List.filter_eq_nil_iff.2 fun p hp => ?_
        rcases h : p.2 with x | l
        · simp
        · exact absurd h (hcon p hp l)
      rw [this] at hk
      simp at hk
    obtain ⟨⟨v, e⟩, hp, l, he'⟩ := this
    have he' : e = .soft l := he'
    subst he'
    obtain ⟨pre, post, rfl⟩ := List.append_of_mem hp
    have hperm : List.Perm (pre ++ (v, Evidence.soft l) :: post) ((v, .soft l) :: (pre ++ post)) :=
      List.perm_middle
    have he2 := he.perm hperm
    have hnd := List.nodup_cons.1 he2.nodup
    have he0 : LegalEvidence bn (pre ++ post) := ⟨hnd.2, fun p hp => he2.mem p (List.mem_cons_of_mem _ hp),
      fun u x hp => he2.hard u x (List.mem_cons_of_mem _ hp), fun u x hp => he2.soft u x (List.mem_cons_of_mem _ hp)⟩
    have hl : ∀ x ∈ l, 0 ≤ x := hen v l hp
    obtain ⟨φ, -, hφ⟩ := exists_fresh bn.names
    obtain ⟨b1, hS, c1, n1, a1, s1⟩ := C80_exists hc hn (he.mem _ hp) (hφ "") hl
    have hen1 : NonNegEvidence ((φ "", Evidence.hard "yes") :: (pre ++ post)) := by
      intro u l' hm
      rcases List.mem_cons.1 hm with e | hm
      · exact absurd (Prod.mk.inj e).2 (by simp)
      · exact hen u l' (hperm.mem_iff.2 (List.mem_cons_of_mem _ hm))
    obtain ⟨bn', ev', h1, h2, h3, h4, h5, h6, h7, h8⟩ := ih b1 ((φ "", .hard "yes") :: (pre ++ post)) c1 n1
      (hS.legal hc c1 he0) hen1 (by
        have := (hperm.filter fun p => match p.2 with | .soft _ => true | .hard _ => false).length_eq
        rw [hk] at this
        simpa [List.filter_cons] using this.symm)
    refine ⟨bn', ev', h1, h2, h3 ∘ a1, h4 ∘ s1, h5, h6, fun u hu => ?_, fun Q hQ σ hσ => ?_⟩
    · have hu1 : u ∈ b1.names := hS.names.mem_iff.2 (List.mem_cons_of_mem _ hu)
      exact ⟨(h7 u hu1).1, by rw [(h7 u hu1).2, hS.lab hc c1 hu]⟩
    · rw [h8 Q (fun u hu => hS.names.mem_iff.2 (List.mem_cons_of_mem _ (hQ u hu))) σ
        (fun u hu => by rw [hS.card hc c1 (hQ u hu)]; exact hσ u hu),
        hS.posterior hc c1 hn he0 he2 (fun u x hx => hen u x (hperm.mem_iff.2 hx)) (joined_cons hnd.1) hQ hσ]
      have hw : weight bn ((v, .soft l) :: (pre ++ post)) = weight bn (pre ++ (v, .soft l) :: post) := by
        funext τ
        unfold weight
        rw [(hperm.map _).prod_eq]
      rw [posterior, posterior, totalWeight, totalWeight, hw]

/-! ## the hypotheses are satisfiable, and the answers can be seen to agree -/

/-- a report about `b` that is a quarter as likely for `x` as for `z` and impossible for `y` -/
example : Sensor Ex.bn (Ex.bn.sense "b" "s" [1 / 5, 0, 4 / 5]) "b" "s" "yes" [1 / 2, 0, 2] := by
  have := sense_sensor (bn := Ex.bn) (v := "b") (c := "s") (s := 2 / 5) (by norm_num) [1 / 2, 0, 2]
  norm_num at this ⊢
  exact this

theorem Ex.ev_legal' : LegalEvidence Ex.bn [("b", .soft [1 / 2, 0, 2]), ("d", .hard "t")] :=
  Ex.ev_legal.perm (List.Perm.swap _ _ _)

theorem Ex.ev_nonneg' : NonNegEvidence [("b", .soft [1 / 2, 0, 2]), ("d", .hard "t")] :=
  fun u l hm => Ex.ev_nonneg u l ((List.Perm.swap _ _ _).mem_iff.1 hm)

example (r r' : Factor) (hr : ExactAnswer Ex.bn [("b", .soft [1 / 2, 0, 2]), ("d", .hard "t")] ["a", "c"] r)
    (hr' : ExactAnswer (Ex.bn.sense "b" "s" [1 / 5, 0, 4 / 5]) [("s", .hard "yes"), ("d", .hard "t")] ["a", "c"] r') :
    SameTable Ex.bn.card r r' := by
  refine C80_array (v := "b") (c := "s") (y := "yes") (l := [1 / 2, 0, 2]) Ex.bn_consistent
    (sense_consistent Ex.bn_consistent (by decide) (by decide) _)
    Ex.bn_nonneg (sense_nonneg Ex.bn_nonneg ?_) ?_ Ex.ev_legal' Ex.ev_nonneg' (by decide) hr hr'
  · intro x hx
    simp only [List.mem_cons, List.not_mem_nil, or_false] at hx
    rcases hx with rfl | rfl | rfl <;> norm_num
  · have := sense_sensor (bn := Ex.bn) (v := "b") (c := "s") (s := 2 / 5) (by norm_num) [1 / 2, 0, 2]
    norm_num at this ⊢
    exact this

example : ∃ bn', Sensor Ex.bn bn' "b" "s" "yes" [1 / 2, 0, 2] ∧ bn'.Consistent ∧ bn'.NonNeg ∧
    (Ex.bn.Acyclic → bn'.Acyclic) ∧ (Ex.bn.Stochastic → bn'.Stochastic) :=
  C80_exists Ex.bn_consistent Ex.bn_nonneg (by decide) (by decide) (by
    intro x hx
    simp only [List.mem_cons, List.not_mem_nil, or_false] at hx
    rcases hx with rfl | rfl | rfl <;> norm_num)

example := C80_hard_only Ex.bn_consistent Ex.bn_nonneg Ex.ev_legal Ex.ev_nonneg

/-- two reports on `b` -/
example (r r' : Factor) (hr : ExactAnswer Ex.bn [("b", .soft [1 / 4, 0, 0]), ("d", .hard "t")] ["a", "c"] r)
    (hr' : ExactAnswer ((Ex.bn.sense "b" "s" [1 / 2, 1, 0]).sense "b" "s2" [1 / 2, 0, 1])
      [("s2", .hard "yes"), ("s", .hard "yes"), ("d", .hard "t")] ["a", "c"] r') : SameTable Ex.bn.card r r' := by
  have h1 : ∀ x ∈ ([1 / 2, 1, 0] : List ℚ), 0 ≤ x ∧ x ≤ 1 := by
    intro x hx
    simp only [List.mem_cons, List.not_mem_nil, or_false] at hx
    rcases hx with rfl | rfl | rfl <;> norm_num
  have h2 : ∀ x ∈ ([1 / 2, 0, 1] : List ℚ), 0 ≤ x ∧ x ≤ 1 := by
    intro x hx
    simp only [List.mem_cons, List.not_mem_nil, or_false] at hx
    rcases hx with rfl | rfl | rfl <;> norm_num
  have s1 := sense_sensor (bn := Ex.bn) (v := "b") (c := "s") (s := 1) (by norm_num) [1 / 2, 1, 0]
  have s2 := sense_sensor (bn := Ex.bn.sense "b" "s" [1 / 2, 1, 0]) (v := "b") (c := "s2") (s := 1) (by norm_num)
    [1 / 2, 0, 1]
  simp only [one_mul, List.map_id'] at s1 s2
  have c1 := sense_consistent (v := "b") (c := "s") Ex.bn_consistent (by decide) (by decide) [1 / 2, 1, 0]
  have he : LegalEvidence Ex.bn [("d", .hard "t")] := by
    refine ⟨by decide, by decide, fun v x h => ?_, fun v l h => ?_⟩
    · simp only [List.mem_cons, List.not_mem_nil, or_false, Prod.mk.injEq, Evidence.hard.injEq] at h
      obtain ⟨rfl, rfl⟩ := h
      decide
    · simp at h
  exact C80_two_reports Ex.bn_consistent c1 (sense_consistent c1 (by decide) (by decide) _) Ex.bn_nonneg
    (sense_nonneg Ex.bn_nonneg h1) (sense_nonneg (sense_nonneg Ex.bn_nonneg h1) h2) s1 s2 (fun x hx => (h1 x hx).1)
    (fun x hx => (h2 x hx).1) (by decide) (by decide) (by decide +kernel) he (fun u l hm => by simp at hm) (by decide)
    (by decide) hr hr'

/-- the two answers, computed: the report on `b` as an array and as an observation -/
example : ((VE.naiveMarginals .insertion Ex.bn ["a"] [("b", .soft [1 / 2, 0, 2]), ("d", .hard "t")]).map fun r => r.potentials.data) =
      ((VE.naiveMarginals .insertion (Ex.bn.sense "b" "s" [1 / 5, 0, 4 / 5]) ["a"]
        [("s", .hard "yes"), ("d", .hard "t")]).map fun r => r.potentials.data) ∧
    ((VE.naiveMarginals .insertion Ex.bn ["a"] [("d", .hard "t")]).map fun r => r.potentials.data) ≠
      ((VE.naiveMarginals .insertion Ex.bn ["a"] [("b", .soft [1 / 2, 0, 2]), ("d", .hard "t")]).map fun r => r.potentials.data) := by
  decide +kernel

/-! ## through the interface -/

open Net in
/-- **C80** A user can do it: after any good history that leaves a usable network, `DiscreteNode(c, vals)`, `add_node`,
`add_edge(v, c)` and `set_cpd(tab)` succeed for every new name `c` and every table of the right shape, keep the history
good and the network usable, and give it the leaf. -/
theorem C80_interface (ops : List Op) (hg : GoodRun ops Net.empty) (hu : (run ops Net.empty).Usable) {v c : Name}
    (hv : v ∈ (run ops Net.empty).view.names) (hc : c ∉ (run ops Net.empty).view.names) {vals : List Val}
    {tab : NDArray} (ht : tab.shape = [vals.length, (run ops Net.empty).view.card v])
    (h0 : ∀ x ∈ tab.data, 0 ≤ x) {y : Val} (hy : y ∈ vals) {l : List ℚ} {q : ℚ} (hq : 0 < q)
    (hrow : ∀ i < (run ops Net.empty).view.card v, tab.get [vals.idxOf y, i] = q * l.getD i 0) :
    let more := leafOps (run ops Net.empty).next v c vals tab
    Quiet more (run ops Net.empty) ∧ GoodRun (ops ++ more) Net.empty ∧ (run (ops ++ more) Net.empty).Usable ∧
      ((run ops Net.empty).view.NonNeg → (run (ops ++ more) Net.empty).view.NonNeg) ∧
      Sensor (run ops Net.empty).view (run (ops ++ more) Net.empty).view v c y l := by
  have h := Inv.empty.run hg
  generalize hs : run ops Net.empty = s at *
  intro more
  rw [view_names h] at hv hc
  obtain ⟨j, hj⟩ := Dict.get?_isSome.2 hv
  obtain ⟨hk, -, -⟩ := hu v j (getNode_ok.2 hj)
  have hlab : s.view.card v = (s.heap j).values.length := by
    rw [BN.card, view_lab h, labels, hj]
  obtain ⟨a1, a2, a3, a4⟩ := leaf_run h hj hk hc (List.ne_nil_of_mem hy) (by rw [ht, hlab])
  have hg' : GoodRun (ops ++ more) Net.empty := goodRun_append.2 ⟨hg, by rw [hs]; exact a2⟩
  have h' := Inv.empty.run hg'
  rw [run_append, hs] at h' ⊢
  have hold : ∀ k i, s.lookup.get? k = some i → (run more s).heap i = s.heap i := by
    intro k i hi
    rw [a4, Function.update_of_ne (h.name k i hi).1.ne]
  have hnew : (run more s).heap s.next = ⟨.discrete, c, vals, [(v, j)], [v], tab, true, false⟩ := by
    rw [a4, Function.update_self]
  have hvc : c ≠ v := by rintro rfl; exact hc hv
  have hcases : ∀ k i, (run more s).lookup.get? k = some i → s.lookup.get? k = some i ∨ (k = c ∧ i = s.next) := by
    intro k i hi
    rw [a3, Dict.get?_append] at hi
    cases hk : s.lookup.get? k with
    | some i' => rw [hk] at hi; exact .inl hi
    | none =>
      rw [hk] at hi
      right
      by_cases e : c = k
      · subst e; simp [Dict.get?] at hi; exact ⟨rfl, hi.symm⟩
      · simp [Dict.get?, e] at hi
  refine ⟨a1, hg', ?_, ?_, leaf_view h hj hc a3 a4 hy hq hrow h'⟩
  · intro k i hi
    rcases hcases k i (getNode_ok.1 hi) with hi | ⟨rfl, rfl⟩
    · rw [hold k i hi]; exact hu k i (getNode_ok.2 hi)
    · rw [hnew]
      exact ⟨by simp, List.ne_nil_of_mem hy, by simpa using hvc⟩
  · intro hn n hm
    obtain ⟨k, i, hi, rfl⟩ := (mem_view h').1 hm
    rcases hcases k i hi with hi | ⟨rfl, rfl⟩
    · have := hn (s.objView i) ((mem_view h).2 ⟨k, i, hi, rfl⟩)
      simpa only [objView, hold k i hi] using this
    · simpa only [objView, hnew] using h0

/-- the network of `Ex.ops` with a report on `b` -/
example : let more := Net.leafOps 5 "b" "s" ["no", "yes"] ⟨[2, 3], [4 / 5, 1, 1 / 5, 1 / 5, 0, 4 / 5], rfl⟩
    Net.Quiet more (Net.run Ex.ops Net.empty) ∧ Net.GoodRun (Ex.ops ++ more) Net.empty ∧
      (Net.run (Ex.ops ++ more) Net.empty).Usable ∧
      ((Net.run Ex.ops Net.empty).view.NonNeg → (Net.run (Ex.ops ++ more) Net.empty).view.NonNeg) ∧
      Sensor (Net.run Ex.ops Net.empty).view (Net.run (Ex.ops ++ more) Net.empty).view "b" "s" "yes" [1 / 2, 0, 2] := by
  have e : (Net.run Ex.ops Net.empty).next = 5 := by decide +kernel
  have := C80_interface Ex.ops Ex.ops_good Ex.net_usable (v := "b") (c := "s") (vals := ["no", "yes"])
    (tab := ⟨[2, 3], [4 / 5, 1, 1 / 5, 1 / 5, 0, 4 / 5], rfl⟩) (y := "yes") (l := [1 / 2, 0, 2]) (q := 2 / 5)
    (by decide +kernel) (by decide +kernel) (by decide +kernel) (by decide +kernel) (by decide) (by norm_num)
    (by decide +kernel)
  rwa [e] at this

end Primo
