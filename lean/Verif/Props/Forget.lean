import Verif.Lemmas.ForgetSlices
import Verif.Lemmas.Unroll
import Verif.Props.RoundedDynamic

/-! # C92: dynamic inference forgets its start, and its rounding errors do not pile up -/

namespace Primo
open JoinTree

theorem Diary.Legal.later {d : DBN} {g : Diary} (h : g.Legal d) :
    (∀ e ∈ g.past, NonNegEvidence e) ∧ (∀ e ∈ g.past.tail, LegalEvidence d.twoTbn e) := by
  constructor
  · intro e he
    obtain ⟨j, hj⟩ := List.mem_iff_getElem?.1 he
    exact (h.past j e hj).2
  · intro e he
    obtain ⟨j, hj⟩ := List.mem_iff_getElem?.1 he
    rw [List.getElem?_tail] at hj
    exact (h.past _ e hj).1

/-- **C92**: Two dynamic networks that differ in their first slice only, with the same evidence.  If the priors after
the slices `es₀` differ by the factor `κ`, then all posteriors in the slice after `es` more slices differ by at most
the factor `fade R κ es.length`. -/
theorem C92_forget {d : DBN} {b : BN} (h : d.Ready) (h' : ({ d with b0 := b } : DBN).Ready) {tr : Name × Name}
    (ht : d.transitions = [tr]) (hab : tr.2 ≠ tr.1) {ρ : ℚ} (hρ : 1 ≤ ρ) (hi : d.twoTbn.Influence tr.1 ρ)
    {es₀ es : List (Dict Evidence)} (h₀ : es₀ ≠ []) (hn₀ : ∀ e ∈ es₀, NonNegEvidence e)
    (hes : ∀ e ∈ es, LegalEvidence d.twoTbn e ∧ NonNegEvidence e) {κ lo : ℚ} (hκ : 1 ≤ κ) (hlo : 0 < lo)
    {net₀ two₀ net₀' two₀' : BN} (s₀ : Slices d es₀ net₀ two₀) (s₀' : Slices { d with b0 := b } es₀ net₀' two₀')
    (hp : ∀ σ : Assign, σ tr.1 < d.twoTbn.card tr.1 → lo * entryOf two₀ tr.1 σ ≤ entryOf two₀' tr.1 σ ∧
      entryOf two₀' tr.1 σ ≤ κ * lo * entryOf two₀ tr.1 σ)
    {net two net' two' : BN} (s : Slices d (es₀ ++ es) net two) (s' : Slices { d with b0 := b } (es₀ ++ es) net' two')
    {e : Dict Evidence} (he : LegalEvidence d.twoTbn e) (hen : NonNegEvidence e) {vs : List Name} {σ : Assign}
    (hσ : Legal d.twoTbn.card vs σ) :
    posterior net' e vs σ ≤ fade (d.twoTbn.grip tr.1 ρ) κ es.length * posterior net e vs σ ∧
      posterior net e vs σ ≤ fade (d.twoTbn.grip tr.1 ρ) κ es.length * posterior net' e vs σ := by
  have hn : ∀ e' ∈ es₀ ++ es, NonNegEvidence e' := fun e' he' => by
    rcases List.mem_append.1 he' with he' | he'
    · exact hn₀ e' he'
    · exact (hes e' he').2
  have r := s.reprior h hn
  have r' := (s'.reprior h' hn).start
  have r₀ := s₀.reprior h hn₀
  have r₀' := (s₀'.reprior h' hn₀).start
  have hfirst : Alike (· < d.twoTbn.card tr.1) κ (priorOf two₀' tr.1) (priorOf two₀ tr.1) := by
    refine ⟨lo, hlo, fun i hia => ⟨r₀.priorOf_nonneg h (by simp [ht]) i, ?_⟩⟩
    exact hp (fun _ => i) hia
  have key := Slices.fade h h' ht hab hρ hi hκ h₀ hn₀ hes (fun _ _ _ _ a a' => by
    rw [(C47_slices_unique h.two.consistent.nodup a s₀).2,
      (C47_slices_unique (d := { d with b0 := b }) h.two.consistent.nodup a' s₀').2]
    exact hfirst) _ _ _ _ s s'
  have e1 : net = two := by
    rcases s.cases with ⟨hh, -⟩ | ⟨-, hh⟩
    · simp [h₀] at hh
    · exact hh
  have e1' : net' = two' := by
    rcases s'.cases with ⟨hh, -⟩ | ⟨-, hh⟩
    · simp [h₀] at hh
    · exact hh
  subst e1 e1'
  rw [← BN.card_of_bare r.good.bare] at key hσ
  exact (r.onePrior h ht r').answers (he.of_bare r.good.bare) hen hρ (r.influence h ht hi)
    (one_le_fade (BN.one_le_grip _ _ hρ) hκ _) key hσ

/-- **C92**: whatever the first slices are, if the evidence of the second slice is possible in both networks, then all
posteriors in the slice after `es` more slices differ by at most the factor `fade R (R ^ 2) es.length`. -/
theorem C92_forget_any {d : DBN} {b : BN} (h : d.Ready) (h' : ({ d with b0 := b } : DBN).Ready) {tr : Name × Name}
    (ht : d.transitions = [tr]) (hab : tr.2 ≠ tr.1) {ρ : ℚ} (hρ : 1 ≤ ρ) (hi : d.twoTbn.Influence tr.1 ρ)
    {e₀ e₁ : Dict Evidence} {es : List (Dict Evidence)} (hn₀ : NonNegEvidence e₀) (he₁ : LegalEvidence d.twoTbn e₁)
    (hn₁ : NonNegEvidence e₁) (hes : ∀ e ∈ es, LegalEvidence d.twoTbn e ∧ NonNegEvidence e) {σ₀ : Assign}
    (hz : ∀ net two, Slices d [e₀] net two → 0 < totalWeight net e₁ σ₀)
    (hz' : ∀ net two, Slices { d with b0 := b } [e₀] net two → 0 < totalWeight net e₁ σ₀)
    {net two net' two' : BN} (s : Slices d (e₀ :: e₁ :: es) net two)
    (s' : Slices { d with b0 := b } (e₀ :: e₁ :: es) net' two')
    {e : Dict Evidence} (he : LegalEvidence d.twoTbn e) (hen : NonNegEvidence e) {vs : List Name} {σ : Assign}
    (hσ : Legal d.twoTbn.card vs σ) :
    posterior net' e vs σ ≤
        fade (d.twoTbn.grip tr.1 ρ) (d.twoTbn.grip tr.1 ρ ^ 2) es.length * posterior net e vs σ ∧
      posterior net e vs σ ≤
        fade (d.twoTbn.grip tr.1 ρ) (d.twoTbn.grip tr.1 ρ ^ 2) es.length * posterior net' e vs σ := by
  have hR := BN.one_le_grip d.twoTbn tr.1 hρ
  have hκ : 1 ≤ d.twoTbn.grip tr.1 ρ ^ 2 := one_le_pow₀ hR
  have h2 : ∀ e' ∈ [e₀, e₁], NonNegEvidence e' := by
    intro e' he'
    simp only [List.mem_cons, List.not_mem_nil, or_false] at he'
    rcases he' with rfl | rfl <;> assumption
  have hn : ∀ e' ∈ e₀ :: e₁ :: es, NonNegEvidence e' := fun e' he' => by
    rcases List.mem_append.1 (show e' ∈ [e₀, e₁] ++ es from he') with he' | he'
    · exact h2 e' he'
    · exact (hes e' he').2
  have r := s.reprior h hn
  have r' := (s'.reprior h' hn).start
  have key := Slices.fade (es₀ := [e₀, e₁]) h h' ht hab hρ hi hκ (by simp) h2 hes
    (Slices.any (es₀ := [e₀]) h h' ht hab hρ hi (by simp) (by simpa using hn₀) he₁ hn₁ hz hz') _ _ _ _ s s'
  have e1 : net = two := by
    rcases s.cases with ⟨hh, -⟩ | ⟨-, hh⟩
    · simp at hh
    · exact hh
  have e1' : net' = two' := by
    rcases s'.cases with ⟨hh, -⟩ | ⟨-, hh⟩
    · simp at hh
    · exact hh
  subst e1 e1'
  rw [← BN.card_of_bare r.good.bare] at key hσ
  exact (r.onePrior h ht r').answers (he.of_bare r.good.bare) hen hρ (r.influence h ht hi)
    (one_le_fade hR hκ _) key hσ

/-- **C92**: the factor tends to one. -/
theorem C92_fade_vanishes {R : ℚ} (hR : 1 ≤ R) (κ : ℚ) {ε : ℚ} (hε : 0 < ε) : ∃ n, ∀ k ≥ n, fade R κ k ≤ 1 + ε := by
  have h0 : 0 ≤ 1 - 1 / R := by rw [sub_nonneg, div_le_one (by linarith)]; exact hR
  have h1 : 1 - 1 / R < 1 := by
    have : 0 < 1 / R := by positivity
    linarith
  obtain ⟨n, hn⟩ := exists_pow_lt_of_lt_one (show 0 < ε / (|κ - 1| + 1) by positivity) h1
  refine ⟨n, fun k hk => ?_⟩
  have h2 : (1 - 1 / R) ^ k ≤ ε / (|κ - 1| + 1) := (pow_le_pow_of_le_one h0 h1.le hk).trans hn.le
  have h3 : (κ - 1) * (1 - 1 / R) ^ k ≤ (|κ - 1| + 1) * (ε / (|κ - 1| + 1)) :=
    mul_le_mul (by linarith [le_abs_self (κ - 1)]) h2 (pow_nonneg h0 k) (by positivity)
  rw [mul_div_cancel₀ _ (by positivity)] at h3
  unfold fade
  linarith

/-- **C92** for the objects, partial: two `PriorFeedbackExact` objects whose dynamic networks differ in the first slice
only, after histories of allowed calls that entered the same evidence.  Both answer, and the answers differ by at most
the factor `fade R (R ^ 2) k` if `k + 2` slices have been left.  Missing, as in C47: slices whose trees are not exact;
with several transitions the claim is false (`C92_two_transitions_refuted`). -/
theorem C92_start_forgotten_partial {d : DBN} {b : BN} (h : d.Ready) (h' : ({ d with b0 := b } : DBN).Ready)
    {tr : Name × Name} (ht : d.transitions = [tr]) (hab : tr.2 ≠ tr.1) {ρ : ℚ} (hρ : 1 ≤ ρ)
    (hi : d.twoTbn.Influence tr.1 ρ) {ops ops' : List DynOp} (ho : FairHistory d ⟨[], none⟩ ops)
    (ho' : FairHistory { d with b0 := b } ⟨[], none⟩ ops') {g : Diary} (hg : g = Diary.notes ⟨[], none⟩ ops)
    (hg' : g = Diary.notes ⟨[], none⟩ ops') {s s' : PriorFeedback} (hs : s = .runs ops (.create d))
    (hs' : s' = .runs ops' (.create { d with b0 := b })) {e₀ e₁ e : Dict Evidence} {es : List (Dict Evidence)}
    (hpast : g.past = e₀ :: e₁ :: es) (hnow : g.now = some e) {σ₀ : Assign}
    (hz : ∀ net two, Slices d [e₀] net two → 0 < totalWeight net e₁ σ₀)
    (hz' : ∀ net two, Slices { d with b0 := b } [e₀] net two → 0 < totalWeight net e₁ σ₀) :
    ∀ n ∈ d.twoTbn, ∀ vs, (∀ v ∈ vs, v ∈ n.family) → ∀ so limit so' limit', ∃ r r',
      s.marginals so limit vs = (s, .ok r) ∧ s'.marginals so' limit' vs = (s', .ok r') ∧
      ∀ σ, Legal d.twoTbn.card vs σ →
        r'.eval σ ≤ fade (d.twoTbn.grip tr.1 ρ) (d.twoTbn.grip tr.1 ρ ^ 2) es.length * r.eval σ ∧
        r.eval σ ≤ fade (d.twoTbn.grip tr.1 ρ) (d.twoTbn.grip tr.1 ρ ^ 2) es.length * r'.eval σ := by
  obtain ⟨net, two, a1, -, -, -, a5, -⟩ := C47_prior_feedback_partial h ho hg hs
  obtain ⟨net', two', b1, -, -, -, b5, -⟩ := C47_prior_feedback_partial h' ho' hg' hs'
  have hl := ho.legal (Diary.legal_start d)
  rw [← hg] at hl
  obtain ⟨l1, l2⟩ := hl.later
  obtain ⟨l3, l4⟩ := hl.now e hnow
  rw [hpast] at a1 b1 l1 l2 l3
  replace l3 : LegalEvidence d.twoTbn e := l3
  have bn1 : net.bare = d.twoTbn.bare := (DBN.Good.net h a1 (a1.good h l1)).2.2.2.1
  have bn1' : net'.bare = d.twoTbn.bare := (DBN.Good.net h' b1 (b1.good h' l1)).2.2.2.1
  intro n hn vs hvs so limit so' limit'
  obtain ⟨m, m1, m2, m3, m4, m5, -⟩ := BN.mem_bare bn1.symm hn
  obtain ⟨m', m1', m2', m3', m4', m5', -⟩ := BN.mem_bare bn1'.symm hn
  have fam : n.family = m.family := by unfold NodeV.family; rw [m2, m5]
  have fam' : n.family = m'.family := by unfold NodeV.family; rw [m2', m5']
  obtain ⟨r, r1, -, -, -, r2⟩ := (a5 e hnow).1 m m1 vs (fam ▸ hvs) so limit
  obtain ⟨r', r1', -, -, -, r2'⟩ := (b5 e hnow).1 m' m1' vs (fam' ▸ hvs) so' limit'
  refine ⟨r, r', r1, r1', fun σ hσ => ?_⟩
  rw [r2 σ (by rwa [BN.card_of_bare bn1]), r2' σ (by rwa [BN.card_of_bare bn1'])]
  exact C92_forget_any h h' ht hab hρ hi (l1 e₀ (by simp)) (l2 e₁ (by simp)) (l1 e₁ (by simp))
    (fun e' he' => ⟨l2 e' (by simp [he']), l1 e' (by simp [he'])⟩) hz hz' a1 b1 l3 l4 hσ

/-- **C92** with rounded arithmetic, partial: after any number of slices each entry of an answer differs from the
posterior that the definition of prior feedback prescribes with exact arithmetic by at most the factor
`(1 + 2 * R * ε) / (1 - u) ^ k`, where `k` counts the roundings of a single query.  The factor does not depend on the
number of slices, while the bound of C85 grows with it.  Missing as above. -/
theorem C92_rounding_bounded_partial {d : DBN} (h : d.Ready) {tr : Name × Name} (ht : d.transitions = [tr])
    (hab : tr.2 ≠ tr.1) {ρ : ℚ} (hρ : 1 ≤ ρ) (hi : d.twoTbn.Influence tr.1 ρ) {ops : List DynOp}
    (ho : FairHistory d ⟨[], none⟩ ops) {g : Diary} (hg : g = Diary.notes ⟨[], none⟩ ops) {A : Arith} {u : ℚ}
    (hA : A.Accurate u) {s : PriorFeedback} (hs : s = .runsR A ops (.create d)) {m : Nat}
    (hm : ∀ k, ∀ e ∈ g.past, treeRoundings (d.slice k) e.length [tr.2] ≤ m) {ε : ℚ} (hε : 0 ≤ ε)
    (h1 : 1 ≤ (1 + ε) * (1 - u) ^ (2 * m)) (h2 : ε * (d.twoTbn.grip tr.1 ρ - 1) ≤ 1 / 2) {e : Dict Evidence}
    (hnow : g.now = some e) :
    ∃ net two, Slices d g.past net two ∧
      ∀ n ∈ net, ∀ vs, (∀ v ∈ vs, v ∈ n.family) → ∀ so limit, ∃ r, s.marginalsR A so limit vs = (s, .ok r) ∧
        ∀ σ, Legal net.card vs σ →
          r.eval σ * (1 - u) ^ treeRoundings net e.length vs ≤
            (1 + 2 * d.twoTbn.grip tr.1 ρ * ε) * posterior net e vs σ ∧
          posterior net e vs σ * (1 - u) ^ treeRoundings net e.length vs ≤
            (1 + 2 * d.twoTbn.grip tr.1 ρ * ε) * r.eval σ := by
  obtain ⟨net, two, s1, -⟩ := C47_prior_feedback_partial h ho hg rfl
  obtain ⟨netR, twoR, htr⟩ := (PriorFeedback.tracksR_create h).runs hA h ops ho
  rw [← hg, ← hs] at htr
  have h0 := hA.nonneg
  have hu := hA.lt_one
  obtain ⟨b1, b2, b3⟩ := htr.now e hnow
  obtain ⟨hn, hal⟩ := htr.slices.alike hu h ht hab hρ hi hm h0 hε h1 h2
  have hal := hal _ _ s1
  have r := s1.reprior h hn
  have rR := htr.slices.reprior hu h
  have cR := DBN.Good.nearNet h htr.slices rR.good
  have c1 := DBN.Good.net h s1 r.good
  have hb : netR.bare = net.bare := cR.2.2.2.1.trans c1.2.2.2.1.symm
  have hκ : 1 ≤ 1 + 2 * d.twoTbn.grip tr.1 ρ * ε := by
    have := BN.one_le_grip d.twoTbn tr.1 hρ
    have : 0 ≤ 2 * d.twoTbn.grip tr.1 ρ * ε := by positivity
    linarith
  have hans := (PriorFeedback.answersR hu b3 rfl (skew_refl_nets cR.2.1 b2)).1
  -- the answers of the network with the rounded priors
  have hpost : ∀ vs σ, Legal net.card vs σ →
      posterior netR e vs σ ≤ (1 + 2 * d.twoTbn.grip tr.1 ρ * ε) * posterior net e vs σ ∧
      posterior net e vs σ ≤ (1 + 2 * d.twoTbn.grip tr.1 ρ * ε) * posterior netR e vs σ := by
    intro vs σ hσ
    rcases htr.slices.cases with ⟨hh, e1, -⟩ | ⟨hh, e1⟩
    · rcases s1.cases with ⟨-, e2, -⟩ | ⟨hh', -⟩
      · have := posterior_nonneg h.b0_nonneg b2 vs σ
        rw [e1, e2]
        constructor <;> nlinarith
      · exact absurd hh hh'
    · rcases s1.cases with ⟨hh', -⟩ | ⟨-, e2⟩
      · exact absurd hh' hh
      · subst e1 e2
        rw [← BN.card_of_bare r.good.bare] at hal
        exact (r.onePrior h ht rR).answers (b1.of_bare hb.symm) b2 hρ (r.influence h ht hi) hκ hal hσ
  refine ⟨net, two, s1, fun n hn vs hvs so limit => ?_⟩
  obtain ⟨m', m1, m2, -, -, m5, -⟩ := BN.mem_bare hb.symm hn
  have fam : n.family = m'.family := by unfold NodeV.family; rw [m2, m5]
  obtain ⟨r, r1, -, -, -, r2⟩ := hans m' m1 vs (fam ▸ hvs) so limit
  refine ⟨r, r1, fun σ hσ => ?_⟩
  obtain ⟨n1, n2, n3⟩ := r2 σ (by rwa [BN.card_of_bare hb])
  obtain ⟨p1, p2⟩ := hpost vs σ hσ
  dsimp only at n2 n3
  rw [Nat.add_zero, treeRoundings_of_bare hb] at n2 n3
  have hpk : (0 : ℚ) ≤ (1 - u) ^ treeRoundings net e.length vs := pow_nonneg (by linarith) _
  constructor
  · linarith
  · calc posterior net e vs σ * (1 - u) ^ treeRoundings net e.length vs
        ≤ (1 + 2 * d.twoTbn.grip tr.1 ρ * ε) * posterior netR e vs σ * (1 - u) ^ treeRoundings net e.length vs :=
          mul_le_mul_of_nonneg_right p2 hpk
      _ = (1 + 2 * d.twoTbn.grip tr.1 ρ * ε) * (posterior netR e vs σ * (1 - u) ^ treeRoundings net e.length vs) := by
          ring
      _ ≤ _ := mul_le_mul_of_nonneg_left n2 (by linarith)

/-! ## examples -/

theorem BN.Influence.of_data {bn : BN} (hc : bn.Consistent) {a : Name} (ha : a ∈ bn.names) {ρ : ℚ}
    (h : ∀ n ∈ bn, a ∈ n.parentOrder → ∀ x ∈ n.cpd.data, ∀ y ∈ n.cpd.data, x ≤ ρ * y) : bn.Influence a ρ := by
  intro n hn hp σ hσ i hi
  have key : ∀ τ, Legal bn.card bn.names τ → n.entry τ ∈ n.cpd.data := by
    intro τ hτ
    rw [NDArray.data_eq]
    refine List.mem_map_of_mem ?_
    rw [mem_allIdx, hc.shape n hn]
    refine List.Forall₂.cons ?_ (inRange_map.2 fun p hp => hτ p (hc.parents_mem n hn p hp))
    have := hτ n.name (List.mem_map_of_mem hn)
    rwa [BN.card, BN.lab, BN.lab_of_mem hc.nodup hn] at this
  refine h n hn hp _ (key _ fun v hv => ?_) _ (key _ hσ)
  by_cases hva : v = a
  · subst hva; rw [Function.update_self]; exact hi
  · rw [Function.update_of_ne hva]; exact hσ v hv

namespace Ex

/-- some priors -/
def rainPrior (p : Fin 3) : NDArray :=
  match p with
  | 0 => ⟨[2], [1 / 2, 1 / 2], rfl⟩
  | 1 => ⟨[2], [1 / 4, 3 / 4], rfl⟩
  | 2 => ⟨[2], [3 / 4, 1 / 4], rfl⟩

/-- it is as yesterday: surely, or with probability 7/10 -/
def rainMove (sure : Bool) : NDArray :=
  match sure with
  | true => ⟨[2, 2], [1, 0, 0, 1], rfl⟩
  | false => ⟨[2, 2], [7 / 10, 3 / 10, 3 / 10, 7 / 10], rfl⟩

/-- an umbrella is carried if it rains, more or less -/
def rainSensor : NodeV :=
  ⟨"u", .discrete, ["t", "f"], ["r"], [("r", ["t", "f"])], [], ⟨[2, 2], [9 / 10, 1 / 5, 1 / 10, 4 / 5], rfl⟩, false⟩

/-- the first day: rain `r` and umbrella `u` -/
def rainFirst (p : Fin 3) : BN := [⟨"r", .discrete, ["t", "f"], [], [], ["u"], rainPrior p, false⟩, rainSensor]

/-- a later day: rain the day before `x`, rain `r` and umbrella `u` -/
def rainTwo (sure : Bool) (p : Fin 3) : BN :=
  [⟨"x", .discrete, ["t", "f"], [], [], ["r"], rainPrior p, false⟩,
   ⟨"r", .discrete, ["t", "f"], ["x"], [("x", ["t", "f"])], ["u"], rainMove sure, false⟩,
   rainSensor]

/-- the weather, day by day -/
def rain (sure : Bool) (p : Fin 3) : DBN := ⟨rainFirst p, rainTwo sure 0, [("x", "r")]⟩

theorem rainFirst_consistent (p : Fin 3) : (rainFirst p).Consistent := by
  constructor <;> revert p <;> decide +kernel

theorem rainTwo_consistent (sure : Bool) (p : Fin 3) : (rainTwo sure p).Consistent := by
  constructor <;> revert sure p <;> decide +kernel

theorem rainFirst_tree (p : Fin 3) : TreeSetup (rainFirst p) none := by
  refine PerfectSetup.tree ⟨rainFirst_consistent p, ⟨?_, ?_⟩, recorded_of_check ?_,
    uniqueJoin_of_length (k := 1) ?_ ?_, by simp [rainFirst], ["r", "u"], ?_, ?_, perfect_of_tails ?_⟩
  · revert p; decide +kernel
  · intro n hn c
    simp only [rainFirst, List.mem_cons, List.not_mem_nil, or_false] at hn ⊢
    rcases hn with rfl | rfl <;> simp [rainSensor, eq_comm]
  all_goals revert p; decide +kernel

theorem rainTwo_tree (sure : Bool) (p : Fin 3) : TreeSetup (rainTwo sure p) none := by
  refine PerfectSetup.tree ⟨rainTwo_consistent sure p, ⟨?_, ?_⟩, recorded_of_check ?_,
    uniqueJoin_of_length (k := 1) ?_ ?_, by simp [rainTwo], ["x", "r", "u"], ?_, ?_, perfect_of_tails ?_⟩
  · revert sure p; decide +kernel
  · intro n hn c
    simp only [rainTwo, List.mem_cons, List.not_mem_nil, or_false] at hn ⊢
    rcases hn with rfl | rfl | rfl <;> simp [rainSensor, eq_comm]
  all_goals revert sure p; decide +kernel

theorem rain_facts : ∀ (sure : Bool) (p : Fin 3),
    (∀ n ∈ rainFirst p, ∀ x ∈ n.cpd.data, 0 ≤ x) ∧ (∀ n ∈ rainTwo sure p, ∀ x ∈ n.cpd.data, 0 ≤ x) ∧
    ("r" ∈ (rainFirst p).names ∧ ∀ v ∈ (rainFirst p).names, v ≠ "r" → (rainFirst p).Skel v "r") ∧
    ("r" ∈ (rainTwo sure p).names ∧ ∀ v ∈ (rainTwo sure p).names, v ≠ "r" → (rainTwo sure p).Skel v "r") ∧
    (rainFirst p).card "r" = 2 ∧ (rainTwo sure p).card "r" = 2 ∧ (rainPrior p).shape = [2] ∧
    (rainPrior p).get [0] = (rainPrior p).data.getD 0 0 ∧ (rainPrior p).get [1] = (rainPrior p).data.getD 1 0 := by
  decide +kernel

theorem rain_answers : ∀ p : Fin 3,
    (VE.naiveMarginals .insertion (rainFirst p) ["r"] []).map (fun r => (r.variableOrder,
      (List.range ((rainFirst p).card "r")).map fun i => r.potentials.get [i])) = .ok (["r"], (rainPrior p).data) ∧
    (VE.naiveMarginals .insertion (rainTwo true p) ["r"] []).map (fun r => (r.variableOrder,
      (List.range ((rainTwo true p).card "r")).map fun i => r.potentials.get [i])) = .ok (["r"], (rainPrior p).data) := by
  decide +kernel

theorem rain_ready (sure : Bool) (p : Fin 3) : (rain sure p).Ready where
  b0 := rainFirst_tree p
  b0_nonneg := (rain_facts sure p).1
  b0_connected := connected_of_hub (c := "r") (rain_facts sure p).2.2.1.1 (rain_facts sure p).2.2.1.2
  two := rainTwo_tree sure 0
  two_nonneg := (rain_facts sure 0).2.1
  two_connected := connected_of_hub (c := "r") (rain_facts sure 0).2.2.2.1.1 (rain_facts sure 0).2.2.2.1.2
  targets := by simp [rain]
  node := fun tr h => by
    simp only [rain, List.mem_singleton] at h
    subst h
    exact ⟨_, List.mem_cons_self, rfl, rfl, rfl, (rain_facts sure p).2.2.2.2.1.symm,
      (rain_facts sure 0).2.2.2.2.2.1.symm⟩
  source := by revert sure p; decide +kernel

/-- the posterior of a concrete network, read off the result of `naive_marginals` -/
theorem posterior_read {net : BN} (hc : net.Consistent) {e : Dict Evidence} (he : LegalEvidence net e)
    {v : Name} {xs : List ℚ}
    (h : (VE.naiveMarginals .insertion net [v] e).map (fun r => (r.variableOrder,
      (List.range (net.card v)).map fun i => r.potentials.get [i])) = .ok ([v], xs))
    (hv : ∀ x ∈ [v], x ∈ net.names) {σ : Assign} (hi : σ v < net.card v) :
    posterior net e [v] σ = xs.getD (σ v) 0 := by
  obtain ⟨r, h1, -, -, -, h5⟩ := C13_naive_exact .insertion net hc e he [v] hv
  rw [h1] at h
  simp only [Except.map, Except.ok.injEq, Prod.mk.injEq] at h
  rw [← h5 σ (by simpa [Legal] using hi), ← h.2]
  unfold Factor.eval
  rw [h.1]
  simp [hi]

/-- the prior of the first day becomes that of the day before the second -/
theorem rain_fed (sure : Bool) (p : Fin 3) :
    Fed [("x", "r")] (rainFirst p) [] (rainTwo sure 0) (rainTwo sure p) where
  bare := by revert sure p; decide +kernel
  fed tr htr n hn e := by
    simp only [List.mem_singleton] at htr
    subst htr
    simp only [rainTwo, List.mem_cons, List.not_mem_nil, or_false] at hn
    rcases hn with rfl | rfl | rfl
    · obtain ⟨-, -, f3, -, f5, -, f7, f8, f9⟩ := rain_facts sure p
      refine ⟨by rw [f5]; exact f7, fun σ hσ => ?_⟩
      rw [posterior_read (xs := (rainPrior p).data) (rainFirst_consistent p) legal_nil (rain_answers p).1
        (by simpa using f3.1) hσ]
      rw [f5] at hσ
      dsimp only at hσ ⊢
      generalize σ "r" = i at hσ
      interval_cases i
      · exact f8
      · exact f9
    · simp at e
    · simp [rainSensor] at e
  kept n hn ht := by
    simp only [rainTwo, List.mem_cons, List.not_mem_nil, or_false] at hn ⊢
    rcases hn with rfl | rfl | rfl
    · simp at ht
    · simp
    · simp

/-- if it is surely as the day before, the prior stays the same -/
theorem rain_stays (p : Fin 3) : Fed [("x", "r")] (rainTwo true p) [] (rainTwo true p) (rainTwo true p) where
  bare := rfl
  fed tr htr n hn e := by
    simp only [List.mem_singleton] at htr
    subst htr
    simp only [rainTwo, List.mem_cons, List.not_mem_nil, or_false] at hn
    rcases hn with rfl | rfl | rfl
    · obtain ⟨-, -, -, f3, -, f5, f7, f8, f9⟩ := rain_facts true p
      refine ⟨by rw [f5]; exact f7, fun σ hσ => ?_⟩
      rw [posterior_read (xs := (rainPrior p).data) (rainTwo_consistent true p) legal_nil (rain_answers p).2
        (by simpa using f3.1) hσ]
      rw [f5] at hσ
      dsimp only at hσ ⊢
      generalize σ "r" = i at hσ
      interval_cases i
      · exact f8
      · exact f9
    · simp at e
    · simp [rainSensor] at e
  kept n hn _ := hn

theorem rain_slices (p : Fin 3) (n : Nat) :
    Slices (rain true p) (List.replicate (n + 1) []) (rainTwo true p) (rainTwo true p) := by
  induction n with
  | zero => exact .next (es := []) .start (rain_fed true p)
  | succ n ih =>
    rw [List.replicate_succ']
    exact .next ih (rain_stays p)

end Ex

/-- **C92 needs bounded influence**: if the variable is a copy of that of the slice before, then nothing is forgotten.
The posteriors of two dynamic networks that differ in the first slice differ by the factor three in each slice. -/
theorem C92_copy_refuted : (Ex.rain true 1).Ready ∧ (Ex.rain true 2).Ready ∧
    Ex.rain true 2 = { Ex.rain true 1 with b0 := (Ex.rain true 2).b0 } ∧ (Ex.rain true 1).transitions = [("x", "r")] ∧
    (¬ ∃ ρ, (Ex.rain true 1).twoTbn.Influence "x" ρ) ∧
    ∀ n, ∃ net two net' two', Slices (Ex.rain true 1) (List.replicate (n + 1) []) net two ∧
      Slices (Ex.rain true 2) (List.replicate (n + 1) []) net' two' ∧ posterior net [] ["r"] (fun _ => 0) = 1 / 4 ∧
      posterior net' [] ["r"] (fun _ => 0) = 3 / 4 := by
  refine ⟨Ex.rain_ready _ _, Ex.rain_ready _ _, rfl, rfl, ?_, fun n => ⟨_, _, _, _, Ex.rain_slices 1 n,
    Ex.rain_slices 2 n, ?_, ?_⟩⟩
  · rintro ⟨ρ, h⟩
    have := h _ (List.mem_cons_of_mem _ List.mem_cons_self) (by simp) (fun v => if v = "r" then 0 else 1) (by
      unfold Legal; decide +kernel) 0 (by decide +kernel)
    have h1 : ¬ (1 : ℚ) ≤ ρ * 0 := by simp
    exact h1 this
  · rw [Ex.posterior_read (xs := [1 / 4, 3 / 4]) (Ex.rainTwo_consistent _ _) legal_nil (by decide +kernel)
      (by decide +kernel) (by decide +kernel)]
    rfl
  · rw [Ex.posterior_read (xs := [3 / 4, 1 / 4]) (Ex.rainTwo_consistent _ _) legal_nil (by decide +kernel)
      (by decide +kernel) (by decide +kernel)]
    rfl

namespace Ex

theorem rain_influence (p : Fin 3) : (rain false p).twoTbn.Influence "x" (7 / 3) :=
  .of_data (rainTwo_consistent _ _) (by decide +kernel) (by decide +kernel)

/-- umbrellas are seen, or none -/
def rainEv (o : Val) : Dict Evidence := [("u", .hard o)]

theorem rainEv_nonneg (o : Val) : NonNegEvidence (rainEv o) := by
  intro v l h
  simp [rainEv] at h

theorem rainEv_legal (o : Val) (ho : o ∈ ["t", "f"]) (sure : Bool) (p : Fin 3) (k : Nat) :
    LegalEvidence ((rain sure p).slice k) (rainEv o) := by
  have hn : "u" ∈ ((rain sure p).slice k).names ∧ ((rain sure p).slice k).lab "u" = ["t", "f"] := by
    unfold DBN.slice
    split
    · revert sure p; decide +kernel
    · revert sure p; decide +kernel
  refine ⟨by simp [rainEv, Dict.keys], ?_, ?_, ?_⟩
  · intro q hq
    obtain rfl : q = ("u", .hard o) := by simpa [rainEv] using hq
    exact hn.1
  · intro v x h
    obtain ⟨rfl, rfl⟩ : v = "u" ∧ x = o := by simpa [rainEv] using h
    rw [hn.2]
    exact ho
  · intro v l h
    simp [rainEv] at h

theorem rain_allows (sure : Bool) (p : Fin 3) (k : Nat) (o : Val) (ho : o ∈ ["t", "f"]) :
    (rain sure p).Allows k 10 (some (rainEv o)) := by
  refine ⟨rainEv_legal o ho sure p k, rainEv_nonneg o, ?_⟩
  unfold DBN.slice
  split
  · revert sure p; decide +kernel
  · revert sure p; decide +kernel

theorem rain_allows_none (sure : Bool) (p : Fin 3) (k : Nat) : (rain sure p).Allows k 10 none := by
  refine ⟨legal_nil, by intro v l h; simp at h, ?_⟩
  unfold DBN.slice
  split
  · revert sure p; decide +kernel
  · revert sure p; decide +kernel

/-- five days -/
def rainOps : List DynOp := [.unroll .insertion 10 none none, .unroll .insertion 10 (some (rainEv "t")) none,
  .unroll .reversed 10 (some (rainEv "f")) none, .unroll .reversed 10 none none,
  .setEvidence .insertion 10 (some (rainEv "t"))]

theorem rainOps_fair (sure : Bool) (p : Fin 3) : FairHistory (rain sure p) ⟨[], none⟩ rainOps :=
  ⟨⟨rain_allows_none _ _ _, by decide⟩, ⟨rain_allows _ _ _ _ (by decide), by decide⟩,
    ⟨rain_allows _ _ _ _ (by decide), by decide⟩, ⟨rain_allows_none _ _ _, by decide⟩, rain_allows _ _ _ _ (by decide),
    trivial⟩

/-- umbrellas are possible on the second day -/
theorem rain_possible (p : Fin 3) :
    ∀ net two, Slices (rain false p) [[]] net two → 0 < totalWeight net (rainEv "t") fun _ => 0 := by
  intro net two hs
  rw [(C47_slices_unique (d := rain false p) (rain_ready false p).two.consistent.nodup hs
    (.next (es := []) .start (rain_fed false p))).1]
  clear hs
  unfold totalWeight
  refine lt_of_lt_of_le ?_ (le_sumOver (F := weight (rainTwo false p) (rainEv "t")) (τ := fun _ => 0) (fun τ _ =>
    weight_nonneg (rain_facts false p).2.1 (rainEv_nonneg _) τ) ⟨fun _ _ => rfl, ?_⟩)
  · revert p; decide +kernel
  · intro v hv
    rw [List.mem_toFinset] at hv
    revert v p; decide +kernel

end Ex

example := C92_start_forgotten_partial (b := Ex.rainFirst 2) (Ex.rain_ready false 1) (Ex.rain_ready false 2)
  (tr := ("x", "r")) rfl (by decide) (by norm_num) (Ex.rain_influence 1) (Ex.rainOps_fair false 1)
  (Ex.rainOps_fair false 2) rfl rfl rfl rfl rfl rfl (Ex.rain_possible 1) (Ex.rain_possible 2)
-- one child, influence 7/3; after five days the answers differ by less than the factor 2.5, after forty by less than
-- a millionth
example : (Ex.rain false 1).twoTbn.grip "x" (7 / 3) = 7 / 3 ∧ fade (7 / 3) ((7 / 3) ^ 2) 2 < 5 / 2 ∧
    fade (7 / 3) ((7 / 3) ^ 2) 40 < 1 + 1 / 10 ^ 6 := by
  refine ⟨by decide +kernel, ?_, ?_⟩ <;> norm_num [fade]

theorem Ex.rain_roundings : ∀ k, ∀ e ∈ (Diary.notes ⟨[], none⟩ Ex.rainOps).past,
    treeRoundings ((Ex.rain false 1).slice k) e.length ["r"] ≤ 294 := by
  intro k
  unfold DBN.slice
  split <;> decide +kernel

-- the rounded answers after a history: however many days have passed, they are off by a factor of at most
-- `1 + 5 / 2 ^ 42` more than a single query is
example {A : Arith} (hA : A.Accurate (1 / 2 ^ 53)) := C92_rounding_bounded_partial (Ex.rain_ready false 1) (tr := ("x", "r")) rfl (by decide) (by norm_num)
  (Ex.rain_influence 1) (Ex.rainOps_fair false 1) rfl
  hA rfl (m := 294) Ex.rain_roundings
  (ε := 1 / 2 ^ 42) (by norm_num) (by
    have := one_add_mul_le_pow (a := -(1 / 2 ^ 53 : ℚ)) (by norm_num) (2 * 294)
    rw [← sub_eq_add_neg] at this
    refine le_trans ?_ (mul_le_mul_of_nonneg_left this (by norm_num))
    norm_num)
  (by rw [show (Ex.rain false 1).twoTbn.grip "x" (7 / 3) = 7 / 3 by decide +kernel]; norm_num) rfl

end Primo
