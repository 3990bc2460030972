import Verif.RoundedDynamic
import Verif.Spec.RoundedDynamic
import Verif.Lemmas.Skew
import Verif.Props.RoundedTree

/-! # Dynamic inference with rounded arithmetic -/

namespace Primo
open JoinTree

/-! ## the networks of the slices -/

theorem treeRoundings_of_bare {bn bn' : BN} (h : bn'.bare = bn.bare) (e : Nat) (Q : List Name) :
    treeRoundings bn' e Q = treeRoundings bn e Q := by
  unfold treeRoundings cliqueRoundings BN.additions BN.tableSize
  rw [BN.length_of_bare h, BN.names_of_bare h, BN.card_of_bare h]

/-- `two'` is `two` with new tables of the transition targets: the posteriors of the sources up to roundings -/
structure FedNear (u : ℚ) (trs : List (Name × Name)) (net : BN) (ev : Dict Evidence) (two two' : BN) : Prop where
  bare : two'.bare = two.bare
  fed : ∀ tr ∈ trs, ∀ n ∈ two', n.name = tr.1 → n.cpd.shape = [net.card tr.2] ∧
    ∀ i < net.card tr.2, Near u (treeRoundings net ev.length [tr.2]) (n.cpd.get [i]) (posterior net ev [tr.2] fun _ => i)
  kept : ∀ n ∈ two', n.name ∉ trs.map Prod.fst → n ∈ two

inductive NearSlices (u : ℚ) (d : DBN) : List (Dict Evidence) → BN → BN → Prop
  | start : NearSlices u d [] d.b0 d.twoTbn
  | next {es : List (Dict Evidence)} {net two two' : BN} {e : Dict Evidence} : NearSlices u d es net two →
      LegalEvidence net e → NonNegEvidence e → FedNear u d.transitions net e two two' →
      NearSlices u d (es ++ [e]) two' two'

theorem NearSlices.cases {u : ℚ} {d : DBN} {es : List (Dict Evidence)} {net two : BN} (h : NearSlices u d es net two) :
    (es = [] ∧ net = d.b0 ∧ two = d.twoTbn) ∨ (es ≠ [] ∧ net = two) := by
  cases h with
  | start => exact Or.inl ⟨rfl, rfl, rfl⟩
  | next _ _ _ _ => exact Or.inr ⟨by simp, rfl⟩

theorem DBN.Good.fedNear {u : ℚ} (hu : u < 1) {d : DBN} (h : d.Ready) {two : BN} (hg : d.Good two) {net : BN}
    (hcard : ∀ tr ∈ d.transitions, net.card tr.2 = d.b0.card tr.2 ∨ net.card tr.2 = d.twoTbn.card tr.2)
    {ev : Dict Evidence} {two' : BN} (hf : FedNear u d.transitions net ev two two') : d.Good two' := by
  have hb : two'.bare = d.twoTbn.bare := hf.bare.trans hg.bare
  refine ⟨hb, hg.setup.of_bare hf.bare fun n hn => ?_, fun n hn x hx => ?_⟩
  · by_cases ht : n.name ∈ d.transitions.map Prod.fst
    · obtain ⟨tr, htr, e⟩ := List.mem_map.1 ht
      obtain ⟨m, m1, m2, m3, m4, m5, m6⟩ := h.node tr htr
      obtain ⟨m', m1', e1, -, e3, e4, -⟩ := BN.mem_bare hb hn
      have : m' = m := BN.eq_of_name h.two.consistent.nodup m1' m1 (by rw [e1, m2, e])
      subst this
      rw [(hf.fed tr htr n hn e.symm).1, ← e3, ← e4, m4]
      rcases hcard tr htr with hc | hc
      · rw [hc, m5]; rfl
      · rw [hc, m6]; rfl
    · rw [← BN.card_of_bare (rfl : two.bare = two.bare)]
      exact hg.setup.consistent.shape n (hf.kept n hn ht)
  · by_cases ht : n.name ∈ d.transitions.map Prod.fst
    · obtain ⟨tr, htr, e⟩ := List.mem_map.1 ht
      obtain ⟨h1, h2⟩ := hf.fed tr htr n hn e.symm
      rw [NDArray.data_eq, List.mem_map] at hx
      obtain ⟨idx, hidx, rfl⟩ := hx
      rw [mem_allIdx, h1] at hidx
      obtain ⟨i, hi, rfl⟩ : ∃ i, i < net.card tr.2 ∧ idx = [i] := by
        cases hidx with
        | cons h3 h4 => cases h4; exact ⟨_, h3, rfl⟩
      obtain ⟨g1, g2, -⟩ := h2 i hi
      exact le_trans (mul_nonneg g1 (pow_nonneg (by linarith) _)) g2
    · exact hg.nonneg n (hf.kept n hn ht) x hx

theorem DBN.Good.nearNet {u : ℚ} {d : DBN} (h : d.Ready) {es : List (Dict Evidence)} {net two : BN}
    (hs : NearSlices u d es net two) (hg : d.Good two) :
    TreeSetup net none ∧ net.NonNeg ∧ net.Connected ∧ net.bare = (d.slice es.length).bare ∧
      net = (if es.length = 0 then d.b0 else two) := by
  rcases hs.cases with ⟨rfl, rfl, rfl⟩ | ⟨h1, rfl⟩
  · exact ⟨h.b0, h.b0_nonneg, h.b0_connected, rfl, rfl⟩
  · have : es.length ≠ 0 := by simpa using h1
    refine ⟨hg.setup, hg.nonneg, h.two_connected.of_bare hg.bare, ?_, by rw [if_neg this]⟩
    unfold DBN.slice
    rw [if_neg this]
    exact hg.bare

theorem DBN.slice_card {d : DBN} {net : BN} {k : Nat} (h : net.bare = (d.slice k).bare) :
    ∀ tr ∈ d.transitions, net.card tr.2 = d.b0.card tr.2 ∨ net.card tr.2 = d.twoTbn.card tr.2 := by
  intro tr _
  rw [BN.card_of_bare h]
  unfold DBN.slice
  split
  · exact Or.inl rfl
  · exact Or.inr rfl

theorem NearSlices.good {u : ℚ} (hu : u < 1) {d : DBN} (h : d.Ready) {es : List (Dict Evidence)} {net two : BN}
    (hs : NearSlices u d es net two) : d.Good two := by
  induction hs with
  | start => exact .start h
  | next hs _ _ hf ih => exact ih.fedNear hu h (DBN.slice_card (DBN.Good.nearNet h hs ih).2.2.2.1) hf

theorem NearSlices.kept {u : ℚ} {d : DBN} {es : List (Dict Evidence)} {net two : BN} (hs : NearSlices u d es net two) :
    ∀ n ∈ two, n.name ∉ d.transitions.map Prod.fst → n ∈ d.twoTbn := by
  induction hs with
  | start => exact fun n hn _ => hn
  | next _ _ _ hf ih => exact fun n hn ht => ih n (hf.kept n hn ht) ht

theorem Slices.kept {d : DBN} {es : List (Dict Evidence)} {net two : BN} (hs : Slices d es net two) :
    ∀ n ∈ two, n.name ∉ d.transitions.map Prod.fst → n ∈ d.twoTbn := by
  induction hs with
  | start => exact fun n hn _ => hn
  | next _ hf ih => exact fun n hn ht => ih n (hf.kept n hn ht) ht

theorem Slices.bare {d : DBN} {es : List (Dict Evidence)} {net two : BN} (hs : Slices d es net two) :
    two.bare = d.twoTbn.bare := by
  induction hs with
  | start => rfl
  | next _ hf ih => exact hf.bare.trans ih

theorem Slices.snoc {d : DBN} {es : List (Dict Evidence)} {e : Dict Evidence} {net two : BN}
    (hs : Slices d (es ++ [e]) net two) : net = two ∧ ∃ net₀ two₀, Slices d es net₀ two₀ ∧
      Fed d.transitions net₀ e two₀ two := by
  generalize hl : es ++ [e] = l at hs
  cases hs with
  | start => simp at hl
  | next h1 h2 =>
    obtain ⟨hl1, hl2⟩ := List.append_inj' hl rfl
    injection hl2 with hl2 _
    subst hl1
    subst hl2
    exact ⟨rfl, _, _, h1, h2⟩

theorem drift_snoc (d : DBN) (es : List (Dict Evidence)) (e : Dict Evidence) :
    d.drift (es ++ [e]) = (d.transitions.map fun tr =>
      d.drift es + 2 * treeRoundings (d.slice es.length) e.length [tr.2]).sum := by
  have hlen : ∀ (l : List (Dict Evidence)) (s : Nat × Nat), (l.foldl (fun s e => (s.1 + 1, (d.transitions.map fun tr =>
      s.2 + 2 * treeRoundings (d.slice s.1) e.length [tr.2]).sum)) s).1 = s.1 + l.length := by
    intro l
    induction l with
    | nil => intro s; rfl
    | cons a l ih => intro s; rw [List.foldl_cons, ih]; simp; omega
  unfold DBN.drift
  rw [List.foldl_append, List.foldl_cons, List.foldl_nil]
  simp only [hlen, Nat.zero_add]

theorem targets_sum {trs : List (Name × Name)} (c : Name × Name → Nat) {names : List Name} (hn : names.Nodup) :
    (names.map fun v => (trs.map fun tr => if tr.1 = v then c tr else 0).sum).sum ≤ (trs.map c).sum := by
  induction trs with
  | nil => simp
  | cons tr trs ih =>
    simp only [List.map_cons, List.sum_cons]
    rw [List.sum_map_add]
    refine Nat.add_le_add ?_ ih
    clear ih
    induction names with
    | nil => simp
    | cons v l ihl =>
      rw [List.nodup_cons] at hn
      simp only [List.map_cons, List.sum_cons]
      by_cases h : tr.1 = v
      · have : (l.map fun v => if tr.1 = v then c tr else 0).sum = 0 := by
          rw [List.sum_eq_zero]
          intro x hx
          obtain ⟨w, hw, rfl⟩ := List.mem_map.1 hx
          rw [if_neg]
          rintro e
          exact hn.1 (h ▸ e ▸ hw)
        rw [this, if_pos h, Nat.add_zero]
      · rw [if_neg h, Nat.zero_add]
        exact ihl hn.2

theorem skew_refl_nets {u : ℚ} {bn : BN} (hn : bn.NonNeg) {e : Dict Evidence} (he : NonNegEvidence e) :
    SkewNets u 0 bn e bn e := ⟨rfl, rfl, .rfl' fun σ _ => weight_nonneg hn he σ⟩

theorem Slices.good {d : DBN} (h : d.Ready) {es : List (Dict Evidence)} {net two : BN}
    (hs : Slices d es net two) (hes : ∀ e ∈ es, NonNegEvidence e) : d.Good two := by
  induction hs with
  | start => exact .start h
  | next hs hf ih =>
    have hg := ih fun e he => hes e (by simp [he])
    obtain ⟨-, n2, -, n4, -⟩ := DBN.Good.net h hs hg
    exact hg.fed h n2 (DBN.slice_card n4) (hes _ (by simp)) hf

/-- the priors of the computed slices have the ratios of those prescribed, up to `drift` roundings -/
theorem NearSlices.skew {u : ℚ} (h0 : 0 ≤ u) (hu : u < 1) {d : DBN} (h : d.Ready) {es : List (Dict Evidence)}
    {net two : BN} (hs : NearSlices u d es net two) : ∀ {net₀ two₀ : BN}, Slices d es net₀ two₀ →
      (∀ e ∈ es, NonNegEvidence e) ∧
      ∀ e, LegalEvidence net e → NonNegEvidence e → SkewNets u (d.drift es) net e net₀ e := by
  induction hs with
  | start =>
    intro net₀ two₀ h₀
    refine ⟨by simp, fun e _ hen => ?_⟩
    rcases h₀.cases with ⟨-, rfl, -⟩ | ⟨h1, -⟩
    · exact skew_refl_nets h.b0_nonneg hen
    · exact absurd rfl h1
  | @next es net two two' e hs hle hen hf ih =>
    intro net₀ two₀ h₀
    obtain ⟨rfl, net₁, two₁, h₁, hf₁⟩ := h₀.snoc
    obtain ⟨hes, hsk⟩ := ih h₁
    have hes' : ∀ e' ∈ es ++ [e], NonNegEvidence e' := by
      intro e' he'
      rcases List.mem_append.1 he' with he' | he'
      · exact hes e' he'
      · rw [List.mem_singleton.1 he']; exact hen
    refine ⟨hes', fun e' he' hen' => ?_⟩
    have hg := hs.good hu h
    have hg' := (hs.next hle hen hf).good hu h
    have hg₁ := h₁.good h hes
    have hg₀ := h₀.good h hes'
    obtain ⟨n1, n2, n3, n4, n5⟩ := DBN.Good.nearNet h hs hg
    obtain ⟨m1, m2, m3, m4, m5⟩ := DBN.Good.net h h₁ hg₁
    have hbb : net.bare = net₁.bare := n4.trans m4.symm
    have hle₁ : LegalEvidence net₁ e := hle.of_bare hbb.symm
    have sk := hsk e hle hen
    have hb : two'.bare = net₀.bare := hg'.bare.trans hg₀.bare.symm
    have hnd : net₀.names.Nodup := hg₀.setup.consistent.nodup
    have he₀ : LegalEvidence net₀ e' := he'.of_bare hb.symm
    set c : Name × Name → Nat := fun tr => d.drift es + 2 * treeRoundings (d.slice es.length) e.length [tr.2] with hc
    refine skewNets h0 hu (BN.names_of_bare hb) (BN.card_of_bare hb) hnd he₀ he'
      (κ := fun v => (d.transitions.map fun tr => if tr.1 = v then c tr else 0).sum) (fun v hv => ?_)
      ((targets_sum c hnd).trans_eq (drift_snoc d es e).symm)
    have hlik : ∀ i, likAt two' e' v i = likAt net₀ e' v i := fun i => by
      unfold likAt; rw [BN.lab_of_bare hb]
    have hlk : Skew (Legal net₀.card net₀.names) u 0 (fun ρ => likAt two' e' v (ρ v)) fun ρ => likAt net₀ e' v (ρ v) :=
      (Skew.rfl' (f := fun ρ : Assign => likAt net₀ e' v (ρ v)) fun ρ _ => likAt_nonneg hen' v (ρ v)).congr
        (fun ρ _ => hlik _) fun _ _ => rfl
    have hv' : v ∈ two'.names := by rw [BN.names_of_bare hb]; exact hv
    obtain ⟨n, hn, rfl⟩ := BN.exists_of_mem_names hv
    obtain ⟨n', hn', hnn⟩ := BN.exists_of_mem_names hv'
    have hent : ∀ ρ, entryOf net₀ n.name ρ = n.entry ρ := fun ρ => entryOf_of_mem hnd hn ρ
    have hent' : ∀ ρ, entryOf two' n.name ρ = n'.entry ρ := fun ρ => by
      rw [← hnn]; exact entryOf_of_mem hg'.setup.consistent.nodup hn' ρ
    refine Skew.mul hu (m := 0) ?_ hlk
    by_cases ht : n.name ∈ d.transitions.map Prod.fst
    · obtain ⟨tr, htr, etr⟩ := List.mem_map.1 ht
      obtain ⟨f1, f2⟩ := hf.fed tr htr n' hn' (hnn.trans etr.symm)
      obtain ⟨f3, f4⟩ := hf₁.fed tr htr n hn etr.symm
      have hcard : net.card tr.2 = net₁.card tr.2 := by rw [BN.card_of_bare hbb]
      have s1 : Skew (fun i => i < net.card tr.2) u (2 * treeRoundings net e.length [tr.2])
          (fun i => n'.cpd.get [i]) fun i => posterior net e [tr.2] fun _ => i := Skew.of_near hu f2
      have s2 : Skew (fun i => i < net.card tr.2) u (d.drift es) (fun i => posterior net e [tr.2] fun _ => i)
          fun i => posterior net₁ e [tr.2] fun _ => i :=
        (sk.skew (Q := [tr.2]) m1.consistent n1.consistent hle₁ hle).comap (p := fun i _ => i) fun i hi => by
          simpa [Legal, hcard] using hi
      have s3 := (s1.trans hu s2).congr (f' := fun i => n'.cpd.get [i]) (g' := fun i => n.cpd.get [i])
        (fun _ _ => rfl) fun i hi => f4 (fun _ => i) (hcard ▸ hi)
      obtain ⟨p, p1, p2, p3, p4, p5, p6⟩ := h.node tr htr
      have hpo : n.parentOrder = [] := by
        obtain ⟨q, q1, q2, -, -, q4, -⟩ := BN.mem_bare hg₀.bare hn
        rw [← q4, BN.eq_of_name h.two.consistent.nodup q1 p1 (by rw [q2, p2, etr]), p4]
      have hpo' : n'.parentOrder = [] := by
        obtain ⟨q, q1, q2, -, -, q4, -⟩ := BN.mem_bare hg'.bare hn'
        rw [← q4, BN.eq_of_name h.two.consistent.nodup q1 p1 (by rw [q2, p2, hnn, etr]), p4]
      have hle' : 2 * treeRoundings net e.length [tr.2] + d.drift es ≤
          (d.transitions.map fun tr => if tr.1 = n.name then c tr else 0).sum := by
        have := List.single_le_sum (fun _ _ => Nat.zero_le _) _
          (List.mem_map_of_mem (f := fun tr : Name × Name => if tr.1 = n.name then c tr else 0) htr)
        rw [if_pos etr] at this
        refine le_trans (le_of_eq ?_) this
        rw [hc, treeRoundings_of_bare n4]
        dsimp only
        omega
      refine ((s3.mono h0 hu hle').comap (p := fun ρ : Assign => ρ n.name) (Q := Legal net₀.card net₀.names)
        fun ρ hρ => ?_).congr (fun ρ _ => ?_) fun ρ _ => ?_
      · have h1 := hρ n.name hv
        have h2 := hg₀.setup.consistent.shape n hn
        rw [f3, hpo] at h2
        have h3 : net₁.card tr.2 = n.values.length := by simpa using h2
        rw [hcard, h3]
        rwa [BN.card, BN.lab, BN.lab_of_mem hnd hn] at h1
      · rw [hent', NodeV.entry, hpo', hnn]; rfl
      · rw [hent, NodeV.entry, hpo]; rfl
    · have e1 := (hs.next hle hen hf).kept n' hn' (by rw [hnn]; exact ht)
      have e2 := h₀.kept n hn ht
      have : n' = n := BN.eq_of_name h.two.consistent.nodup e1 e2 hnn
      subst this
      refine ((Skew.rfl' (f := fun ρ : Assign => n'.entry ρ) (P := Legal net₀.card net₀.names)
        fun ρ _ => NDArray.get_nonneg (hg₀.nonneg n' hn) _).congr (fun ρ _ => hent' ρ) fun ρ _ => hent ρ).mono h0 hu
        (Nat.zero_le _)

end Primo
