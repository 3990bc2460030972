import Verif.Lemmas.ForgetManySoft
import Verif.Props.ForgetMany

/-! # C95: soft-evidence feedback with several transitions forgets weak influences -/

namespace Primo
open JoinTree

/-- **C95**: Two dynamic networks that differ in their first slice only, with the same evidence.  If the arrays that
are carried over after the slices `es₀` differ by the factor `κ`, then all posteriors in the slice after `es` more
slices differ by at most the `n`-th power of the iterated factor, for `n` transitions. -/
theorem C95_forget {d : DBN} {b : BN} (h : d.Ready) (h' : ({ d with b0 := b } : DBN).Ready) {ρ : Name → ℚ}
    (hb : d.Bounded ρ) {es₀ es : List (Dict Evidence)} {e : Dict Evidence} (h₀ : es₀ ≠ [])
    (hs : d.SoftPast (es₀ ++ es ++ [e])) (hs' : ({ d with b0 := b } : DBN).SoftPast (es₀ ++ es ++ [e]))
    {κ : ℚ} (hκ : 1 ≤ κ) (hp : ∀ tr ∈ d.transitions, ∀ l l', (tr.1, l) ∈ d.carried es₀ →
      (tr.1, l') ∈ ({ d with b0 := b } : DBN).carried es₀ → ∃ lo, 0 < lo ∧ ∀ i < d.twoTbn.card tr.1,
        0 ≤ l.getD i 0 ∧ lo * l.getD i 0 ≤ l'.getD i 0 ∧ l'.getD i 0 ≤ κ * lo * l.getD i 0)
    {vs : List Name} {σ : Assign} (hσ : Legal d.twoTbn.card vs σ) :
    posterior d.twoTbn (softened d.twoTbn (overridden (({ d with b0 := b } : DBN).carried (es₀ ++ es)) e)) vs σ ≤
        (d.blur ρ)^[es.length] κ ^ d.transitions.length *
          posterior d.twoTbn (softened d.twoTbn (overridden (d.carried (es₀ ++ es)) e)) vs σ ∧
      posterior d.twoTbn (softened d.twoTbn (overridden (d.carried (es₀ ++ es)) e)) vs σ ≤
        (d.blur ρ)^[es.length] κ ^ d.transitions.length *
          posterior d.twoTbn (softened d.twoTbn (overridden (({ d with b0 := b } : DBN).carried (es₀ ++ es)) e)) vs σ := by
  have h1 : es₀ ++ es ≠ [] := by simp [h₀]
  have mem : ∀ d' : DBN, d'.Ready → ∀ tr ∈ d'.transitions, (tr.1, arrOf (d'.carried es₀) tr.1) ∈ d'.carried es₀ := by
    intro d' hd tr ht
    have hk := d'.carried_keys es₀
    rw [if_neg h₀] at hk
    have := DBN.eq_arrays hd.targets hk
    rw [this]
    refine List.mem_map.2 ⟨tr, ht, ?_⟩
    rw [← this]
  have key := soft_blur h h' hb hκ h₀ hs.init hs'.init fun tr ht => hp tr ht _ _ (mem d h tr ht) (mem _ h' tr ht)
  rw [h.fed_carried h1, h'.fed_carried h1]
  exact (hs.bothFed h h' h1 hs').answers h hb (hb.one_le_iterate hκ _) key hσ

/-- **C95**: whatever the first slices are, if the evidence of the second slice is possible in both networks, then the
arrays differ by at most the factor `reach` from then on. -/
theorem C95_forget_any {d : DBN} {b : BN} (h : d.Ready) (h' : ({ d with b0 := b } : DBN).Ready) {ρ : Name → ℚ}
    (hb : d.Bounded ρ) {e₀ e₁ e : Dict Evidence} {es : List (Dict Evidence)} (hs : d.SoftPast (e₀ :: e₁ :: es ++ [e]))
    (hs' : ({ d with b0 := b } : DBN).SoftPast (e₀ :: e₁ :: es ++ [e])) {σ₀ : Assign}
    (hz : 0 < totalWeight d.twoTbn (softened d.twoTbn (overridden (d.carried [e₀]) e₁)) σ₀)
    (hz' : 0 < totalWeight d.twoTbn (softened d.twoTbn (overridden (({ d with b0 := b } : DBN).carried [e₀]) e₁)) σ₀)
    {vs : List Name} {σ : Assign} (hσ : Legal d.twoTbn.card vs σ) :
    posterior d.twoTbn (softened d.twoTbn (overridden (({ d with b0 := b } : DBN).carried (e₀ :: e₁ :: es)) e)) vs σ ≤
        (d.blur ρ)^[es.length] (d.reach ρ) ^ d.transitions.length *
          posterior d.twoTbn (softened d.twoTbn (overridden (d.carried (e₀ :: e₁ :: es)) e)) vs σ ∧
      posterior d.twoTbn (softened d.twoTbn (overridden (d.carried (e₀ :: e₁ :: es)) e)) vs σ ≤
        (d.blur ρ)^[es.length] (d.reach ρ) ^ d.transitions.length *
          posterior d.twoTbn (softened d.twoTbn (overridden (({ d with b0 := b } : DBN).carried (e₀ :: e₁ :: es)) e))
            vs σ := by
  have h1 : e₀ :: e₁ :: es ≠ [] := by simp
  have key := soft_blur (es₀ := [e₀, e₁]) (es := es) h h' hb hb.one_le_reach (by simp) hs.init hs'.init
    (soft_any_many (es₀ := [e₀]) (e := e₁) h h' hb (by simp)
      (DBN.SoftPast.append (es₀ := [e₀, e₁]) (es := es ++ [e]) hs)
      (DBN.SoftPast.append (es₀ := [e₀, e₁]) (es := es ++ [e]) hs') hz hz')
  rw [h.fed_carried h1, h'.fed_carried h1]
  exact (hs.bothFed h h' h1 hs').answers h hb (hb.one_le_iterate hb.one_le_reach _) key hσ

/-- **C95** for the objects, partial: two `SoftEvidenceExact` objects whose dynamic networks differ in the first slice
only, after histories of allowed calls that entered the same evidence.  Both answer, and the answers differ by at most
the factor stated.  It tends to one if `blur` makes `reach` smaller (C94_blur_vanishes); without such a condition the
answers can stay apart (C93_two_transitions_refuted).  Missing, as in C48: slices whose trees are not exact. -/
theorem C95_start_forgotten_partial {d : DBN} {b : BN} (h : d.Ready) (h' : ({ d with b0 := b } : DBN).Ready)
    {ρ : Name → ℚ} (hb : d.Bounded ρ) {ops ops' : List DynOp} (ho : SoftFairHistory d ⟨[], none⟩ ops)
    (ho' : SoftFairHistory { d with b0 := b } ⟨[], none⟩ ops') {g : Diary} (hg : g = Diary.notes ⟨[], none⟩ ops)
    (hg' : g = Diary.notes ⟨[], none⟩ ops') {s s' : SoftFeedback} (hs : s = .runs ops (.create d))
    (hs' : s' = .runs ops' (.create { d with b0 := b })) {e₀ e₁ e : Dict Evidence} {es : List (Dict Evidence)}
    (hpast : g.past = e₀ :: e₁ :: es) (hnow : g.now = some e) {σ₀ : Assign}
    (hz : 0 < totalWeight d.twoTbn (softened d.twoTbn (overridden (d.carried [e₀]) e₁)) σ₀)
    (hz' : 0 < totalWeight d.twoTbn
      (softened d.twoTbn (overridden (({ d with b0 := b } : DBN).carried [e₀]) e₁)) σ₀) :
    ∀ n ∈ d.twoTbn, ∀ vs, (∀ v ∈ vs, v ∈ n.family) → ∀ so limit so' limit', ∃ r r',
      s.marginals so limit vs = (s, .ok r) ∧ s'.marginals so' limit' vs = (s', .ok r') ∧
      ∀ σ, Legal d.twoTbn.card vs σ →
        r'.eval σ ≤ (d.blur ρ)^[es.length] (d.reach ρ) ^ d.transitions.length * r.eval σ ∧
        r.eval σ ≤ (d.blur ρ)^[es.length] (d.reach ρ) ^ d.transitions.length * r'.eval σ := by
  obtain ⟨-, -, -, -, a5, -⟩ := C48_soft_feedback_partial h.soft ho hg hs
  obtain ⟨-, -, -, -, b5, -⟩ := C48_soft_feedback_partial h'.soft ho' hg' hs'
  have hl := (ho.soft (Diary.soft_start d))
  have hl' := (ho'.soft (Diary.soft_start { d with b0 := b }))
  rw [← hg] at hl
  rw [← hg'] at hl'
  have l1 := hl.now e hnow
  have l2 := hl'.now e hnow
  have hne : g.past ≠ [] := by rw [hpast]; simp
  have a5 := (a5 e hnow).1
  have b5 := (b5 e hnow).1
  rw [DBN.slice_later _ hne, hpast] at a5 b5
  rw [hpast] at l1 l2
  intro n hn vs hvs so limit so' limit'
  obtain ⟨r, r1, -, -, -, r2⟩ := a5 n hn vs hvs so limit
  obtain ⟨r', r1', -, -, -, r2'⟩ := b5 n hn vs hvs so' limit'
  refine ⟨r, r', r1, r1', fun σ hσ => ?_⟩
  rw [r2 σ hσ, r2' σ hσ]
  exact C95_forget_any h h' hb l1 l2 hz hz' hσ

/-- **C95** with rounded arithmetic, partial: let `κ` be a factor that is not exceeded after one more slice, the
roundings of the slice included.  Then after any number of slices each entry of an answer differs from the posterior
that C48 states for exact arithmetic by at most the `n`-th power of `κ`, for `n` transitions, times the roundings of
entering the evidence and of a single query.  Missing as above. -/
theorem C95_rounding_bounded_partial {d : DBN} (h : d.Ready) {ρ : Name → ℚ} (hb : d.Bounded ρ) {ops : List DynOp}
    (ho : SoftFairHistory d ⟨[], none⟩ ops) {g : Diary} (hg : g = Diary.notes ⟨[], none⟩ ops) {A : Arith} {u : ℚ}
    (hA : A.Accurate u) {s : SoftFeedback} (hs : s = .runsR A ops (.create d)) {m : Nat}
    (hm : ∀ k, ∀ e ∈ g.past, ∀ tr ∈ d.transitions, treeRoundings (d.slice k) (d.entryRoundings k e) [tr.2] ≤ m)
    {ε κ : ℚ} (hε : 0 ≤ ε) (h1 : 1 ≤ (1 + ε) * (1 - u) ^ (2 * m)) (hκ : 1 ≤ κ) (h2 : (1 + ε) * d.blur ρ κ ≤ κ)
    {e : Dict Evidence} (hnow : g.now = some e) {net : BN} (hnet : net = d.slice g.past.length) {ev : Dict Evidence}
    (hev : ev = softened net (overridden (d.carried g.past) e)) :
    ∀ n ∈ net, ∀ vs, (∀ v ∈ vs, v ∈ n.family) → ∀ so limit, ∃ r, s.marginalsR A so limit vs = (s, .ok r) ∧
      ∀ σ, Legal net.card vs σ →
        r.eval σ * (1 - u) ^ treeRoundings net (d.entryRoundings g.past.length e) vs ≤
          κ ^ d.transitions.length * posterior net ev vs σ ∧
        posterior net ev vs σ * (1 - u) ^ treeRoundings net (d.entryRoundings g.past.length e) vs ≤
          κ ^ d.transitions.length * r.eval σ := by
  have htr := (SoftFeedback.tracksR_create (A := A) (u := u) d).runs hA h.soft ops ho
  rw [← hg, ← hs] at htr
  have hl := (ho.soft (Diary.soft_start d))
  rw [← hg] at hl
  have h0 := hA.nonneg
  have hu := hA.lt_one
  obtain ⟨evR, b1, -, b3, b4, te, b5, b6, b7⟩ := htr.now e hnow
  have hsup := (hl.now e hnow).sup g.past e [] rfl
  rw [← hnet] at b1 b3 b4 b7 hsup
  have hnn : net.NonNeg := by rw [hnet]; exact (h.soft.net _).2.1
  have hans := (b1.answersR hu (skew_refl_nets hnn (NonNegEvidence.softened hnn b7))).1
  have hκT : 1 ≤ κ ^ d.transitions.length := one_le_pow₀ hκ
  -- the answers of the network with the rounded arrays
  have hpost : ∀ vs σ, Legal net.card vs σ →
      posterior net (softened net evR) vs σ ≤ κ ^ d.transitions.length * posterior net ev vs σ ∧
      posterior net ev vs σ ≤ κ ^ d.transitions.length * posterior net (softened net evR) vs σ := by
    intro vs σ hσ
    by_cases hes : g.past = []
    · have : te = d.carried g.past := by
        rw [hes] at b5 ⊢
        generalize hh : ([] : List (Dict Evidence)) = es at b5
        cases b5 with
        | start => rfl
        | next => simp at hh
      rw [b6, this, ← hev]
      have := posterior_nonneg hnn (NonNegEvidence.softened hnn hsup) vs σ
      rw [← hev] at this
      constructor <;> nlinarith
    · have hal := b5.alike_many h0 hu h hb hm hε h1 hκ h2 hl.past hes
      have e1 : net = d.twoTbn := by rw [hnet, d.slice_later hes]
      rw [b6] at b3 b7 ⊢
      rw [hev]
      rw [b5.fed h hes, e1] at b3 b7 ⊢
      rw [h.fed_carried hes] at hsup b4 ⊢
      rw [e1] at hσ b4 hsup
      exact BothFed.answers h hb ⟨b4, b3, hsup, b7⟩ hκ hal hσ
  intro n hn vs hvs so limit
  obtain ⟨r, r1, -, -, -, r2⟩ := hans n hn vs hvs so limit
  refine ⟨r, r1, fun σ hσ => ?_⟩
  obtain ⟨n1, n2, n3⟩ := r2 σ hσ
  obtain ⟨p1, p2⟩ := hpost vs σ hσ
  dsimp only at n2 n3
  rw [Nat.add_zero] at n2 n3
  have hpk : (0 : ℚ) ≤ (1 - u) ^ treeRoundings net (d.entryRoundings g.past.length e) vs := pow_nonneg (by linarith) _
  constructor
  · linarith
  · refine (mul_le_mul_of_nonneg_right p2 hpk).trans ?_
    rw [mul_assoc]
    exact mul_le_mul_of_nonneg_left n2 (by linarith)

/-! ## examples -/

namespace Ex

theorem mood_priorAt {v : Name} (hv : v ∈ ["x", "y"]) {i : Nat} (hi : i < 2) : priorAt (moodTwo false) v i = 1 / 2 := by
  have key : ∀ v ∈ ["x", "y"], (VE.naiveMarginals .insertion (moodTwo false) [v] []).map (fun r => (r.variableOrder,
      (List.range ((moodTwo false).card v)).map fun i => r.potentials.get [i])) = .ok ([v], [1 / 2, 1 / 2]) ∧
      (∀ x ∈ [v], x ∈ (moodTwo false).names) ∧ (moodTwo false).card v = 2 := by decide +kernel
  obtain ⟨h1, h2, h3⟩ := key v hv
  unfold priorAt
  rw [posterior_read (σ := fun _ => i) (moodTwo_tree false).consistent legal_nil h1 h2 (by rwa [h3])]
  interval_cases i <;> rfl

theorem mood_ratio {v : Name} (hv : v ∈ ["x", "y"]) (x y : ℚ) : ratio (moodTwo false) v [x, y] = [2 * x, 2 * y] := by
  have h3 : ∀ v ∈ ["x", "y"], (moodTwo false).card v = 2 := by decide +kernel
  unfold ratio
  rw [h3 v hv, show List.range 2 = [0, 1] from rfl]
  simp only [List.map_cons, List.map_nil]
  rw [mood_priorAt hv (by decide), mood_priorAt hv (by decide)]
  norm_num
  constructor <;> ring

/-- the arrays after the first days, as the objects hold them -/
def moodArrays (b : Bool) (k : Nat) : Dict (List ℚ) :=
  (SoftFeedback.runs (moodOps.take k) (.create (mood b))).transitionEvidence.map fun q => (q.1, q.2.data)

theorem mood_arrays_facts : ∀ (b : Bool) (k : Fin 5), ∀ p ∈ moodArrays b k, p.1 ∈ ["x", "y"] ∧ (∀ x ∈ p.2, 0 ≤ x) ∧
    ∃ x ∈ p.2, x ≠ 0 := by
  decide +kernel

theorem mood_arrays_one : ∀ b : Bool, moodArrays b 1 = [("x", [(moodPrior (if b then 1 else 0)).data.getD 0 0,
    (moodPrior (if b then 1 else 0)).data.getD 1 0]), ("y", [(moodPrior (if b then 2 else 0)).data.getD 0 0,
    (moodPrior (if b then 2 else 0)).data.getD 1 0])] := by
  decide +kernel

theorem mood_supported (b : Bool) (k : Fin 5) {e : Dict Evidence} (he : ∀ v l, (v, Evidence.soft l) ∉ e) :
    Supported (moodTwo false) (overridden (moodArrays b k) e) := by
  intro v l hm
  rcases List.mem_append.1 hm with hm | hm
  · exact absurd (List.mem_filter.1 hm).1 (he v l)
  · obtain ⟨p, hp, e1⟩ := List.mem_map.1 hm
    obtain ⟨rfl, rfl⟩ : p.1 = v ∧ p.2 = l := by simpa using e1
    obtain ⟨f1, f2, f3⟩ := mood_arrays_facts b k p hp
    refine ⟨f2, f3, fun i hi hz => ?_⟩
    have h3 : ∀ v ∈ ["x", "y"], (moodTwo false).card v = 2 := by decide +kernel
    rw [mood_priorAt f1 (by rwa [h3 _ f1] at hi)] at hz
    norm_num at hz

theorem mood_small (b : Bool) (k : Nat) : ((mood b).slice k).length ≤ 10 := (mood_allows_none b k).2.2

theorem mood_soft_later (b : Bool) (k : Fin 5) {past : List (Dict Evidence)} (hne : past ≠ [])
    (hc : (mood b).carried past = moodArrays b k) (e : Dict Evidence)
    (hl : LegalEvidence (moodTwo false) e) (he : ∀ v l, (v, Evidence.soft l) ∉ e) :
    (mood b).AllowsSoft past 10 e := by
  refine ⟨?_, ?_, mood_small b _⟩
  · rw [DBN.slice_later _ hne]; exact hl
  · rw [DBN.slice_later _ hne, hc]
    exact mood_supported b k he

theorem mood_carried_at (b : Bool) (k : Nat) {ops : List DynOp} (hk : ops = moodOps.take k)
    (ho : SoftFairHistory (mood b) ⟨[], none⟩ ops) :
    (mood b).carried (Diary.notes ⟨[], none⟩ ops).past = moodArrays b k := by
  subst hk
  exact (C48_soft_feedback_partial (mood_ready b).soft ho rfl rfl).2.2.1.symm

theorem mood_hard (o : Val) : ∀ v l, (v, Evidence.soft l) ∉ moodEv o := by simp [moodEv]

theorem moodOps_soft_one (b : Bool) : SoftFairHistory (mood b) ⟨[], none⟩ (moodOps.take 1) :=
  ⟨⟨⟨legal_nil, fun v l h => by simp [overridden, DBN.carried] at h, mood_small b _⟩, rfl⟩, trivial⟩

theorem moodOps_soft (b : Bool) : SoftFairHistory (mood b) ⟨[], none⟩ moodOps := by
  have l : ∀ o ∈ ["t", "f"], LegalEvidence (moodTwo false) (moodEv o) := fun o ho => moodEv_legal o ho b 1
  have f1 := moodOps_soft_one b
  have f2 : SoftFairHistory (mood b) ⟨[], none⟩ (moodOps.take 2) :=
    ⟨f1.1, ⟨mood_soft_later b 1 (List.cons_ne_nil _ _) (mood_carried_at b 1 rfl f1) _ (l _ (by simp))
      (mood_hard _), rfl⟩, trivial⟩
  have f3 : SoftFairHistory (mood b) ⟨[], none⟩ (moodOps.take 3) :=
    ⟨f1.1, f2.2.1, ⟨mood_soft_later b 2 (List.cons_ne_nil _ _) (mood_carried_at b 2 rfl f2) _ (l _ (by simp))
      (mood_hard _), rfl⟩, trivial⟩
  have f4 : SoftFairHistory (mood b) ⟨[], none⟩ (moodOps.take 4) :=
    ⟨f1.1, f2.2.1, f3.2.2.1, ⟨mood_soft_later b 3 (List.cons_ne_nil _ _) (mood_carried_at b 3 rfl f3) _
      legal_nil (fun _ _ => List.not_mem_nil), rfl⟩, trivial⟩
  exact ⟨f1.1, f2.2.1, f3.2.2.1, f4.2.2.2.1, mood_soft_later b 4 (List.cons_ne_nil _ _) (mood_carried_at b 4 rfl f4)
    _ (l _ (by simp)) (mood_hard _), trivial⟩

/-- either mood is possible on the second day -/
theorem mood_soft_possible (b : Bool) : 0 < totalWeight (moodTwo false) (softened (moodTwo false)
    (overridden ((mood b).carried [[]]) (moodEv "t"))) fun _ => 0 := by
  have hc : (mood b).carried [[]] = moodArrays b 1 := mood_carried_at b 1 rfl (moodOps_soft_one b)
  have hn := NonNegEvidence.softened (mood_facts false).2.1 (mood_supported b 1 (mood_hard "t"))
  rw [hc]
  unfold totalWeight
  refine lt_of_lt_of_le ?_ (le_sumOver (τ := fun _ => 0) (fun τ _ =>
    weight_nonneg (mood_facts false).2.1 hn τ) ⟨fun _ _ => rfl, ?_⟩)
  · rw [mood_arrays_one]
    change 0 < weight (moodTwo false) [("s", .hard "t"), ("x", .soft (ratio (moodTwo false) "x" _)),
      ("y", .soft (ratio (moodTwo false) "y" _))] _
    rw [mood_ratio (by simp), mood_ratio (by simp)]
    clear hn hc
    revert b; decide +kernel
  · intro v hv
    rw [List.mem_toFinset] at hv
    clear hn hc b
    revert v; decide +kernel

theorem mood_soft_roundings : ∀ k, ∀ e ∈ (Diary.notes ⟨[], none⟩ moodOps).past, ∀ tr ∈ (mood true).transitions,
    treeRoundings ((mood true).slice k) ((mood true).entryRoundings k e) [tr.2] ≤ 2 ^ 18 := by
  intro k
  unfold DBN.entryRoundings DBN.entered DBN.slice
  split <;> decide +kernel

end Ex

example := C95_start_forgotten_partial (b := Ex.moodFirst true) (Ex.mood_ready false) (Ex.mood_ready true)
  (Ex.mood_bounded false) (Ex.moodOps_soft false) (Ex.moodOps_soft true) rfl rfl rfl rfl rfl rfl
  (Ex.mood_soft_possible false) (Ex.mood_soft_possible true)

-- the rounded answers after a history: however many days have passed, they are off by a factor of at most
-- `(1 + 1 / 2 ^ 32) ^ 2` more than a single slice is
example {A : Arith} (hA : A.Accurate (1 / 2 ^ 53)) := C95_rounding_bounded_partial (Ex.mood_ready true)
  (Ex.mood_bounded true) (Ex.moodOps_soft true) rfl hA rfl (m := 2 ^ 18) Ex.mood_soft_roundings (ε := 1 / 2 ^ 33)
  (κ := 1 + 1 / 2 ^ 32) (by norm_num) (by
    have := one_add_mul_le_pow (a := -(1 / 2 ^ 53 : ℚ)) (by norm_num) (2 * 2 ^ 18)
    rw [← sub_eq_add_neg] at this
    refine le_trans ?_ (mul_le_mul_of_nonneg_left this (by norm_num))
    norm_num)
  (by norm_num) (by rw [Ex.mood_blur]; norm_num) rfl rfl rfl

-- and the first theorem: the arrays of the first day differ by the factor five
example := C95_forget (b := Ex.moodFirst true) (Ex.mood_ready false) (Ex.mood_ready true) (Ex.mood_bounded false)
  (es₀ := [[]]) (es := [Ex.moodEv "t", Ex.moodEv "f", []]) (e := Ex.moodEv "t") (by simp)
  (((Ex.moodOps_soft false).soft (Diary.soft_start _)).now _ rfl)
  (((Ex.moodOps_soft true).soft (Diary.soft_start _)).now _ rfl) (κ := 5) (by norm_num)
  (by
    have c : ∀ b, (Ex.mood b).carried [[]] = Ex.moodArrays b 1 := fun b =>
      Ex.mood_carried_at b 1 rfl (Ex.moodOps_soft_one b)
    have key : ∀ p ∈ Ex.moodArrays false 1, ∀ p' ∈ Ex.moodArrays true 1, p'.1 = p.1 → ∀ i < 2, 0 ≤ p.2.getD i 0 ∧
        1 / 2 * p.2.getD i 0 ≤ p'.2.getD i 0 ∧ p'.2.getD i 0 ≤ 5 * (1 / 2) * p.2.getD i 0 := by decide +kernel
    have hc : ∀ tr ∈ (Ex.mood false).transitions, (Ex.mood false).twoTbn.card tr.1 = 2 := by decide +kernel
    intro tr ht l l' hl hl'
    have hl' : (tr.1, l') ∈ (Ex.mood true).carried [[]] := hl'
    rw [c] at hl hl'
    refine ⟨1 / 2, by norm_num, ?_⟩
    rw [hc tr ht]
    exact key _ hl _ hl' rfl)
  (vs := ["r"]) (σ := fun _ => 0) (by intro v hv; simp at hv; subst hv; decide +kernel)

end Primo
