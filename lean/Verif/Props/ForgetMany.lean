import Verif.Lemmas.ForgetMany
import Verif.Props.ForgetTwo

/-! # C94: with several transitions, weak influences are forgotten -/

namespace Primo
open JoinTree

/-- **C94**: Two dynamic networks that differ in their first slice only, with the same evidence.  If the carried
marginals after the slices `es₀` differ by the factor `κ`, then all posteriors in the slice after `es` more slices
differ by at most the `n`-th power of the iterated factor, for `n` transitions. -/
theorem C94_forget {d : DBN} {b : BN} (h : d.Ready) (h' : ({ d with b0 := b } : DBN).Ready) {ρ : Name → ℚ}
    (hb : d.Bounded ρ) {es₀ es : List (Dict Evidence)} (h₀ : es₀ ≠ []) (hn₀ : ∀ e ∈ es₀, NonNegEvidence e)
    (hes : ∀ e ∈ es, LegalEvidence d.twoTbn e ∧ NonNegEvidence e) {κ : ℚ} (hκ : 1 ≤ κ)
    {net₀ two₀ net₀' two₀' : BN} (s₀ : Slices d es₀ net₀ two₀) (s₀' : Slices { d with b0 := b } es₀ net₀' two₀')
    (hp : ∀ tr ∈ d.transitions, ∃ lo, 0 < lo ∧ ∀ σ : Assign, σ tr.1 < d.twoTbn.card tr.1 →
      lo * entryOf two₀ tr.1 σ ≤ entryOf two₀' tr.1 σ ∧ entryOf two₀' tr.1 σ ≤ κ * lo * entryOf two₀ tr.1 σ)
    {net two net' two' : BN} (s : Slices d (es₀ ++ es) net two) (s' : Slices { d with b0 := b } (es₀ ++ es) net' two')
    {e : Dict Evidence} (he : LegalEvidence d.twoTbn e) (hen : NonNegEvidence e) {vs : List Name} {σ : Assign}
    (hσ : Legal d.twoTbn.card vs σ) :
    posterior net' e vs σ ≤ (d.blur ρ)^[es.length] κ ^ d.transitions.length * posterior net e vs σ ∧
      posterior net e vs σ ≤ (d.blur ρ)^[es.length] κ ^ d.transitions.length * posterior net' e vs σ := by
  have hn : ∀ e' ∈ es₀ ++ es, NonNegEvidence e' := fun e' he' => by
    rcases List.mem_append.1 he' with he' | he'
    · exact hn₀ e' he'
    · exact (hes e' he').2
  have r := s.reprior h hn
  have r' := (s'.reprior h' hn).start
  have r₀ := s₀.reprior h hn₀
  have key := Slices.blur h h' hb hκ h₀ hn₀ hes (fun _ _ _ _ a a' tr ht => by
    rw [(C47_slices_unique h.two.consistent.nodup a s₀).2,
      (C47_slices_unique (d := { d with b0 := b }) h.two.consistent.nodup a' s₀').2]
    obtain ⟨lo, hlo, hp⟩ := hp tr ht
    exact ⟨lo, hlo, fun i hia => ⟨r₀.priorOf_nonneg h ht i, hp (fun _ => i) hia⟩⟩) _ _ _ _ s s'
  have e1 : net = two := by
    rcases s.cases with ⟨hh, -⟩ | ⟨-, hh⟩
    · simp [h₀] at hh
    · exact hh
  have e1' : net' = two' := by
    rcases s'.cases with ⟨hh, -⟩ | ⟨-, hh⟩
    · simp [h₀] at hh
    · exact hh
  subst e1 e1'
  exact r.answers_many h hb r' he hen (hb.one_le_iterate hκ _) key hσ

/-- **C94**: whatever the first slices are, if the evidence of the second slice is possible in both networks, then the
carried marginals differ by at most the factor `reach`. -/
theorem C94_forget_any {d : DBN} {b : BN} (h : d.Ready) (h' : ({ d with b0 := b } : DBN).Ready) {ρ : Name → ℚ}
    (hb : d.Bounded ρ) {e₀ e₁ : Dict Evidence} {es : List (Dict Evidence)} (hn₀ : NonNegEvidence e₀)
    (he₁ : LegalEvidence d.twoTbn e₁) (hn₁ : NonNegEvidence e₁)
    (hes : ∀ e ∈ es, LegalEvidence d.twoTbn e ∧ NonNegEvidence e) {σ₀ : Assign}
    (hz : ∀ net two, Slices d [e₀] net two → 0 < totalWeight net e₁ σ₀)
    (hz' : ∀ net two, Slices { d with b0 := b } [e₀] net two → 0 < totalWeight net e₁ σ₀)
    {net two net' two' : BN} (s : Slices d (e₀ :: e₁ :: es) net two)
    (s' : Slices { d with b0 := b } (e₀ :: e₁ :: es) net' two')
    {e : Dict Evidence} (he : LegalEvidence d.twoTbn e) (hen : NonNegEvidence e) {vs : List Name} {σ : Assign}
    (hσ : Legal d.twoTbn.card vs σ) :
    posterior net' e vs σ ≤ (d.blur ρ)^[es.length] (d.reach ρ) ^ d.transitions.length * posterior net e vs σ ∧
      posterior net e vs σ ≤ (d.blur ρ)^[es.length] (d.reach ρ) ^ d.transitions.length * posterior net' e vs σ := by
  have h2 : ∀ e' ∈ [e₀, e₁], NonNegEvidence e' := by
    intro e' he'
    simp only [List.mem_cons, List.not_mem_nil, or_false] at he'
    rcases he' with rfl | rfl <;> assumption
  have hn : ∀ e' ∈ e₀ :: e₁ :: es, NonNegEvidence e' := fun e' he' => by
    rcases List.mem_append.1 (show e' ∈ [e₀, e₁] ++ es from he') with he' | he'
    · exact h2 e' he'
    · exact (hes e' he').2
  have r := s.reprior h hn
  have r' := (s'.reprior h' hn).start
  have key := Slices.blur (es₀ := [e₀, e₁]) h h' hb hb.one_le_reach (by simp) h2 hes
    (Slices.any_many (es₀ := [e₀]) h h' hb (by simp) (by simpa using hn₀) he₁ hn₁ hz hz') _ _ _ _ s s'
  have e1 : net = two := by
    rcases s.cases with ⟨hh, -⟩ | ⟨-, hh⟩
    · simp at hh
    · exact hh
  have e1' : net' = two' := by
    rcases s'.cases with ⟨hh, -⟩ | ⟨-, hh⟩
    · simp at hh
    · exact hh
  subst e1 e1'
  exact r.answers_many h hb r' he hen (hb.one_le_iterate hb.one_le_reach _) key hσ

/-- **C94**: if the factor shrinks in one slice by the rate `θ`, it does so in each slice. -/
theorem C94_blur {d : DBN} {ρ : Name → ℚ} (hb : d.Bounded ρ) {κ θ : ℚ} (hκ : 1 ≤ κ) (h0 : 0 ≤ θ) (h1 : θ ≤ 1)
    (h : d.blur ρ κ ≤ 1 + (κ - 1) * θ) (n : Nat) : (d.blur ρ)^[n] κ ≤ 1 + (κ - 1) * θ ^ n :=
  hb.blur_iterate hκ h0 h1 h n

/-- **C94**: and if the rate is less than one, the factor of the posteriors tends to one. -/
theorem C94_blur_vanishes {d : DBN} {ρ : Name → ℚ} (hb : d.Bounded ρ) {κ : ℚ} (hκ : 1 ≤ κ)
    (h : d.blur ρ κ < κ ∨ κ = 1) {ε : ℚ} (hε : 0 < ε) :
    ∃ n, ∀ k ≥ n, (d.blur ρ)^[k] κ ^ d.transitions.length ≤ 1 + ε := by
  -- a rate
  obtain ⟨θ, t0, t1, ht⟩ : ∃ θ, 0 ≤ θ ∧ θ < 1 ∧ d.blur ρ κ ≤ 1 + (κ - 1) * θ := by
    rcases h with h | rfl
    · have h1 := hb.one_le_blur hκ
      have hpos : 0 < κ - 1 := by linarith
      refine ⟨(d.blur ρ κ - 1) / (κ - 1), div_nonneg (by linarith) hpos.le, (div_lt_one hpos).2 (by linarith), ?_⟩
      rw [mul_div_cancel₀ _ hpos.ne']
      linarith
    · refine ⟨0, le_rfl, one_pos, ?_⟩
      unfold DBN.blur fade
      simp
  -- a bound for the factor
  obtain ⟨δ, d0, hd⟩ : ∃ δ : ℚ, 0 < δ ∧ (1 + δ) ^ d.transitions.length ≤ 1 + ε := by
    generalize d.transitions.length = m
    refine ⟨min 1 (ε / 2 ^ m), by positivity, ?_⟩
    set x := min 1 (ε / 2 ^ m)
    have hx0 : 0 < x := by positivity
    have hx1 : x ≤ 1 := min_le_left _ _
    have hx2 : x * 2 ^ m ≤ ε := by
      have : x ≤ ε / 2 ^ m := min_le_right _ _
      rwa [le_div_iff₀ (by positivity)] at this
    have key : ∀ k : Nat, (1 + x) ^ k ≤ 1 + x * (2 ^ k - 1) := by
      intro k
      induction k with
      | zero => simp
      | succ k ih =>
        rw [pow_succ, pow_succ]
        have hk : (1 : ℚ) ≤ 2 ^ k := one_le_pow₀ (by norm_num)
        have := mul_le_mul_of_nonneg_right ih (show 0 ≤ 1 + x by linarith)
        refine this.trans ?_
        nlinarith [mul_nonneg (mul_nonneg hx0.le (show (0 : ℚ) ≤ 1 - x by linarith)) (show (0 : ℚ) ≤ 2 ^ k - 1 by linarith)]
    linarith [key m]
  obtain ⟨n, hn⟩ := exists_pow_lt_of_lt_one (show 0 < δ / (κ - 1 + 1) by
    have : 0 < κ - 1 + 1 := by linarith
    positivity) t1
  refine ⟨n, fun k hk => le_trans (pow_le_pow_left₀ (le_trans zero_le_one (hb.one_le_iterate hκ k)) ?_ _) hd⟩
  refine (C94_blur hb hκ t0 t1.le ht k).trans ?_
  have h2 : θ ^ k ≤ δ / (κ - 1 + 1) := (pow_le_pow_of_le_one t0 t1.le hk).trans hn.le
  have h3 : (κ - 1) * θ ^ k ≤ (κ - 1 + 1) * (δ / (κ - 1 + 1)) :=
    mul_le_mul (by linarith) h2 (pow_nonneg t0 k) (by linarith)
  rw [mul_div_cancel₀ _ (by linarith)] at h3
  linarith

/-- **C94** for the objects, partial: two `PriorFeedbackExact` objects whose dynamic networks differ in the first slice
only, after histories of allowed calls that entered the same evidence.  Both answer, and the answers differ by at most
the factor stated.  It tends to one if `blur` makes `reach` smaller (C94_blur_vanishes); without such a condition the
answers can stay apart (C92_two_transitions_refuted).  Missing, as in C47: slices whose trees are not exact. -/
theorem C94_start_forgotten_partial {d : DBN} {b : BN} (h : d.Ready) (h' : ({ d with b0 := b } : DBN).Ready)
    {ρ : Name → ℚ} (hb : d.Bounded ρ) {ops ops' : List DynOp} (ho : FairHistory d ⟨[], none⟩ ops)
    (ho' : FairHistory { d with b0 := b } ⟨[], none⟩ ops') {g : Diary} (hg : g = Diary.notes ⟨[], none⟩ ops)
    (hg' : g = Diary.notes ⟨[], none⟩ ops') {s s' : PriorFeedback} (hs : s = .runs ops (.create d))
    (hs' : s' = .runs ops' (.create { d with b0 := b })) {e₀ e₁ e : Dict Evidence} {es : List (Dict Evidence)}
    (hpast : g.past = e₀ :: e₁ :: es) (hnow : g.now = some e) {σ₀ : Assign}
    (hz : ∀ net two, Slices d [e₀] net two → 0 < totalWeight net e₁ σ₀)
    (hz' : ∀ net two, Slices { d with b0 := b } [e₀] net two → 0 < totalWeight net e₁ σ₀) :
    ∀ n ∈ d.twoTbn, ∀ vs, (∀ v ∈ vs, v ∈ n.family) → ∀ so limit so' limit', ∃ r r',
      s.marginals so limit vs = (s, .ok r) ∧ s'.marginals so' limit' vs = (s', .ok r') ∧
      ∀ σ, Legal d.twoTbn.card vs σ →
        r'.eval σ ≤ (d.blur ρ)^[es.length] (d.reach ρ) ^ d.transitions.length * r.eval σ ∧
        r.eval σ ≤ (d.blur ρ)^[es.length] (d.reach ρ) ^ d.transitions.length * r'.eval σ := by
  obtain ⟨net, two, a1, -, -, -, a5, -⟩ := C47_prior_feedback_partial h ho hg hs
  obtain ⟨net', two', b1, -, -, -, b5, -⟩ := C47_prior_feedback_partial h' ho' hg' hs'
  have hl := ho.legal (Diary.legal_start d)
  rw [← hg] at hl
  obtain ⟨l1, l2⟩ := hl.later
  obtain ⟨l3, l4⟩ := hl.now e hnow
  rw [hpast] at a1 b1 l1 l2 l3
  replace l3 : LegalEvidence d.twoTbn e := l3
  have bn1 : net.bare = d.twoTbn.bare := (DBN.Good.net h a1 (a1.good h l1)).2.2.2.1
  have bn1' : net'.bare = d.twoTbn.bare := (DBN.Good.net h' b1 (b1.good h' l1)).2.2.2.1
  intro n hn vs hvs so limit so' limit'
  obtain ⟨m, m1, m2, m3, m4, m5, -⟩ := BN.mem_bare bn1.symm hn
  obtain ⟨m', m1', m2', m3', m4', m5', -⟩ := BN.mem_bare bn1'.symm hn
  have fam : n.family = m.family := by unfold NodeV.family; rw [m2, m5]
  have fam' : n.family = m'.family := by unfold NodeV.family; rw [m2', m5']
  obtain ⟨r, r1, -, -, -, r2⟩ := (a5 e hnow).1 m m1 vs (fam ▸ hvs) so limit
  obtain ⟨r', r1', -, -, -, r2'⟩ := (b5 e hnow).1 m' m1' vs (fam' ▸ hvs) so' limit'
  refine ⟨r, r', r1, r1', fun σ hσ => ?_⟩
  rw [r2 σ (by rwa [BN.card_of_bare bn1]), r2' σ (by rwa [BN.card_of_bare bn1'])]
  exact C94_forget_any h h' hb (l1 e₀ (by simp)) (l2 e₁ (by simp)) (l1 e₁ (by simp))
    (fun e' he' => ⟨l2 e' (by simp [he']), l1 e' (by simp [he'])⟩) hz hz' a1 b1 l3 l4 hσ

/-- **C94** with rounded arithmetic, partial: let `κ` be a factor that is not exceeded after one more slice, the
roundings of the answers included.  Then after any number of slices each entry of an answer differs from the posterior
that the definition of prior feedback prescribes with exact arithmetic by at most the `n`-th power of `κ`, for `n`
transitions, times the roundings of a single query.  Missing as above. -/
theorem C94_rounding_bounded_partial {d : DBN} (h : d.Ready) {ρ : Name → ℚ} (hb : d.Bounded ρ) {ops : List DynOp}
    (ho : FairHistory d ⟨[], none⟩ ops) {g : Diary} (hg : g = Diary.notes ⟨[], none⟩ ops) {A : Arith} {u : ℚ}
    (hA : A.Accurate u) {s : PriorFeedback} (hs : s = .runsR A ops (.create d)) {m : Nat}
    (hm : ∀ k, ∀ e ∈ g.past, ∀ tr ∈ d.transitions, treeRoundings (d.slice k) e.length [tr.2] ≤ m) {ε κ : ℚ} (hε : 0 ≤ ε)
    (h1 : 1 ≤ (1 + ε) * (1 - u) ^ (2 * m)) (hκ : 1 ≤ κ) (h2 : (1 + ε) * d.blur ρ κ ≤ κ) {e : Dict Evidence}
    (hnow : g.now = some e) :
    ∃ net two, Slices d g.past net two ∧
      ∀ n ∈ net, ∀ vs, (∀ v ∈ vs, v ∈ n.family) → ∀ so limit, ∃ r, s.marginalsR A so limit vs = (s, .ok r) ∧
        ∀ σ, Legal net.card vs σ →
          r.eval σ * (1 - u) ^ treeRoundings net e.length vs ≤ κ ^ d.transitions.length * posterior net e vs σ ∧
          posterior net e vs σ * (1 - u) ^ treeRoundings net e.length vs ≤ κ ^ d.transitions.length * r.eval σ := by
  obtain ⟨net, two, s1, -⟩ := C47_prior_feedback_partial h ho hg rfl
  obtain ⟨netR, twoR, htr⟩ := (PriorFeedback.tracksR_create h).runs hA h ops ho
  rw [← hg, ← hs] at htr
  have h0 := hA.nonneg
  have hu := hA.lt_one
  obtain ⟨b1, b2, b3⟩ := htr.now e hnow
  obtain ⟨hn, hal⟩ := htr.slices.alike_many hu h hb hm h0 hε h1 hκ h2
  have hal := hal _ _ s1
  have r := s1.reprior h hn
  have rR := htr.slices.reprior hu h
  have cR := DBN.Good.nearNet h htr.slices rR.good
  have c1 := DBN.Good.net h s1 r.good
  have hb' : netR.bare = net.bare := cR.2.2.2.1.trans c1.2.2.2.1.symm
  have hκT : 1 ≤ κ ^ d.transitions.length := one_le_pow₀ hκ
  have hans := (PriorFeedback.answersR hu b3 rfl (skew_refl_nets cR.2.1 b2)).1
  -- the answers of the network with the rounded priors
  have hpost : ∀ vs σ, Legal net.card vs σ →
      posterior netR e vs σ ≤ κ ^ d.transitions.length * posterior net e vs σ ∧
      posterior net e vs σ ≤ κ ^ d.transitions.length * posterior netR e vs σ := by
    intro vs σ hσ
    rcases htr.slices.cases with ⟨hh, e1, -⟩ | ⟨hh, e1⟩
    · rcases s1.cases with ⟨-, e2, -⟩ | ⟨hh', -⟩
      · have := posterior_nonneg h.b0_nonneg b2 vs σ
        rw [e1, e2]
        constructor <;> nlinarith
      · exact absurd hh hh'
    · rcases s1.cases with ⟨hh', -⟩ | ⟨-, e2⟩
      · exact absurd hh' hh
      · subst e1 e2
        rw [BN.card_of_bare r.good.bare] at hσ
        exact r.answers_many h hb rR (b1.of_bare rR.good.bare.symm) b2 hκ hal hσ
  refine ⟨net, two, s1, fun n hn vs hvs so limit => ?_⟩
  obtain ⟨m', m1, m2, -, -, m5, -⟩ := BN.mem_bare hb'.symm hn
  have fam : n.family = m'.family := by unfold NodeV.family; rw [m2, m5]
  obtain ⟨r, r1, -, -, -, r2⟩ := hans m' m1 vs (fam ▸ hvs) so limit
  refine ⟨r, r1, fun σ hσ => ?_⟩
  obtain ⟨n1, n2, n3⟩ := r2 σ (by rwa [BN.card_of_bare hb'])
  obtain ⟨p1, p2⟩ := hpost vs σ hσ
  dsimp only at n2 n3
  rw [Nat.add_zero, treeRoundings_of_bare hb'] at n2 n3
  have hpk : (0 : ℚ) ≤ (1 - u) ^ treeRoundings net e.length vs := pow_nonneg (by linarith) _
  constructor
  · linarith
  · calc posterior net e vs σ * (1 - u) ^ treeRoundings net e.length vs
        ≤ κ ^ d.transitions.length * posterior netR e vs σ * (1 - u) ^ treeRoundings net e.length vs :=
          mul_le_mul_of_nonneg_right p2 hpk
      _ = κ ^ d.transitions.length * (posterior netR e vs σ * (1 - u) ^ treeRoundings net e.length vs) := by
          ring
      _ ≤ _ := mul_le_mul_of_nonneg_left n2 (by linarith)

/-! ## examples -/

namespace Ex

/-- a prior of two outcomes: even, or one of two others -/
def moodPrior (p : Fin 3) : NDArray :=
  match p with
  | 0 => ⟨[2], [1 / 2, 1 / 2], rfl⟩
  | 1 => ⟨[2], [3 / 4, 1 / 4], rfl⟩
  | 2 => ⟨[2], [5 / 8, 3 / 8], rfl⟩

/-- the second person is often in the mood of the first -/
def moodSecond : NodeV :=
  ⟨"s", .discrete, ["t", "f"], ["r"], [("r", ["t", "f"])], [], ⟨[2, 2], [3 / 4, 1 / 4, 1 / 4, 3 / 4], rfl⟩, false⟩

/-- the first day: the moods `r` and `s` of two persons -/
def moodFirst (b : Bool) : BN :=
  [⟨"r", .discrete, ["t", "f"], [], [], ["s"], moodPrior (if b then 1 else 0), false⟩, moodSecond]

/-- a later day: the moods of the day before, `x` and `y`, have a weak influence on the first person -/
def moodTwo (b : Bool) : BN :=
  [⟨"x", .discrete, ["t", "f"], [], [], ["r"], moodPrior (if b then 1 else 0), false⟩,
   ⟨"y", .discrete, ["t", "f"], [], [], ["r"], moodPrior (if b then 2 else 0), false⟩,
   ⟨"r", .discrete, ["t", "f"], ["x", "y"], [("x", ["t", "f"]), ("y", ["t", "f"])], ["s"],
     ⟨[2, 2, 2], [11 / 20, 1 / 2, 1 / 2, 9 / 20, 9 / 20, 1 / 2, 1 / 2, 11 / 20], rfl⟩, false⟩,
   moodSecond]

def mood (b : Bool) : DBN := ⟨moodFirst b, moodTwo false, [("x", "r"), ("y", "s")]⟩

theorem moodFirst_tree (b : Bool) : TreeSetup (moodFirst b) none := by
  refine PerfectSetup.tree ⟨?_, ⟨?_, ?_⟩, recorded_of_check ?_,
    uniqueJoin_of_length (k := 1) ?_ ?_, by simp [moodFirst], ["r", "s"], ?_, ?_, perfect_of_tails ?_⟩
  · constructor <;> revert b <;> decide +kernel
  · revert b; decide +kernel
  · intro n hn c
    simp only [moodFirst, List.mem_cons, List.not_mem_nil, or_false] at hn ⊢
    rcases hn with rfl | rfl <;> simp [moodSecond, eq_comm]
  all_goals revert b; decide +kernel

theorem moodTwo_tree (b : Bool) : TreeSetup (moodTwo b) none := by
  refine PerfectSetup.tree ⟨?_, ⟨?_, ?_⟩, recorded_of_check ?_,
    uniqueJoin_of_length (k := 1) ?_ ?_, by simp [moodTwo], ["x", "y", "r", "s"], ?_, ?_, perfect_of_tails ?_⟩
  · constructor <;> revert b <;> decide +kernel
  · revert b; decide +kernel
  · intro n hn c
    simp only [moodTwo, List.mem_cons, List.not_mem_nil, or_false] at hn ⊢
    rcases hn with rfl | rfl | rfl | rfl <;> simp [moodSecond, eq_comm]
  all_goals revert b; decide +kernel

theorem mood_facts : ∀ b : Bool,
    (∀ n ∈ moodFirst b, ∀ x ∈ n.cpd.data, 0 ≤ x) ∧ (∀ n ∈ moodTwo b, ∀ x ∈ n.cpd.data, 0 ≤ x) ∧
    ("r" ∈ (moodFirst b).names ∧ ∀ v ∈ (moodFirst b).names, v ≠ "r" → (moodFirst b).Skel v "r") ∧
    ("r" ∈ (moodTwo b).names ∧ ∀ v ∈ (moodTwo b).names, v ≠ "r" → (moodTwo b).Skel v "r") := by
  decide +kernel

theorem mood_ready (b : Bool) : (mood b).Ready where
  b0 := moodFirst_tree b
  b0_nonneg := (mood_facts b).1
  b0_connected := connected_of_hub (c := "r") (mood_facts b).2.2.1.1 (mood_facts b).2.2.1.2
  two := moodTwo_tree false
  two_nonneg := (mood_facts false).2.1
  two_connected := connected_of_hub (c := "r") (mood_facts false).2.2.2.1 (mood_facts false).2.2.2.2
  targets := by simp [mood]
  node := fun tr h => by
    simp only [mood, List.mem_cons, List.not_mem_nil, or_false] at h
    rcases h with rfl | rfl
    · exact ⟨_, List.mem_cons_self, rfl, rfl, rfl, rfl, rfl⟩
    · exact ⟨_, List.mem_cons_of_mem _ List.mem_cons_self, rfl, rfl, rfl, rfl, rfl⟩
  source := by revert b; decide +kernel

theorem mood_bounded (b : Bool) : (mood b).Bounded fun _ => 11 / 9 where
  sources := by revert b; decide +kernel
  one_le := fun _ _ => by norm_num
  influence := fun tr ht => by
    refine BN.Influence.of_data (moodTwo_tree false).consistent ?_ ?_
    · revert tr b; decide +kernel
    · revert tr b; decide +kernel

theorem mood_answers : ∀ b : Bool,
    (VE.naiveMarginals .insertion (moodFirst b) ["r"] []).map (fun r => (r.variableOrder,
      (List.range ((moodFirst b).card "r")).map fun i => r.potentials.get [i])) =
        .ok (["r"], (moodPrior (if b then 1 else 0)).data) ∧
    (VE.naiveMarginals .insertion (moodFirst b) ["s"] []).map (fun r => (r.variableOrder,
      (List.range ((moodFirst b).card "s")).map fun i => r.potentials.get [i])) =
        .ok (["s"], (moodPrior (if b then 2 else 0)).data) := by
  decide +kernel

theorem moodPrior_get : ∀ p, (moodPrior p).shape = [2] ∧ ∀ i < 2, (moodPrior p).get [i] = (moodPrior p).data.getD i 0 := by
  decide +kernel

/-- the moods of the first day -/
theorem mood_fed (b : Bool) : Fed [("x", "r"), ("y", "s")] (moodFirst b) [] (moodTwo false) (moodTwo b) where
  bare := by revert b; decide +kernel
  fed tr htr n hn e := by
    simp only [List.mem_cons, List.not_mem_nil, or_false] at htr
    simp only [moodTwo, List.mem_cons, List.not_mem_nil, or_false] at hn
    rcases htr with rfl | rfl <;> rcases hn with rfl | rfl | rfl | rfl <;> simp [moodSecond] at e
    · refine ⟨(moodPrior_get _).1, fun σ hσ => ?_⟩
      rw [posterior_read (moodFirst_tree b).consistent legal_nil (mood_answers b).1
        (by simp [moodFirst, BN.names]) hσ]
      exact (moodPrior_get _).2 _ hσ
    · refine ⟨(moodPrior_get _).1, fun σ hσ => ?_⟩
      rw [posterior_read (moodFirst_tree b).consistent legal_nil (mood_answers b).2
        (by simp [moodFirst, moodSecond, BN.names]) hσ]
      exact (moodPrior_get _).2 _ hσ
  kept n hn ht := by
    simp only [moodTwo, List.mem_cons, List.not_mem_nil, or_false] at hn ⊢
    rcases hn with rfl | rfl | rfl | rfl <;> simp at ht ⊢

/-- the mood of the second person is seen -/
def moodEv (o : Val) : Dict Evidence := [("s", .hard o)]

theorem moodEv_nonneg (o : Val) : NonNegEvidence (moodEv o) := by
  intro v l h
  simp [moodEv] at h

theorem moodEv_legal (o : Val) (ho : o ∈ ["t", "f"]) (b : Bool) (k : Nat) :
    LegalEvidence ((mood b).slice k) (moodEv o) := by
  have hn : "s" ∈ ((mood b).slice k).names ∧ ((mood b).slice k).lab "s" = ["t", "f"] := by
    unfold DBN.slice
    split
    · revert b; decide +kernel
    · revert b; decide +kernel
  refine ⟨by simp [moodEv, Dict.keys], ?_, ?_, ?_⟩
  · intro q hq
    obtain rfl : q = ("s", .hard o) := by simpa [moodEv] using hq
    exact hn.1
  · intro v x h
    obtain ⟨rfl, rfl⟩ : v = "s" ∧ x = o := by simpa [moodEv] using h
    rw [hn.2]
    exact ho
  · intro v l h
    simp [moodEv] at h

theorem mood_allows (b : Bool) (k : Nat) (o : Val) (ho : o ∈ ["t", "f"]) :
    (mood b).Allows k 10 (some (moodEv o)) := by
  refine ⟨moodEv_legal o ho b k, moodEv_nonneg o, ?_⟩
  unfold DBN.slice
  split
  · revert b; decide +kernel
  · revert b; decide +kernel

theorem mood_allows_none (b : Bool) (k : Nat) : (mood b).Allows k 10 none := by
  refine ⟨legal_nil, by intro v l h; simp at h, ?_⟩
  unfold DBN.slice
  split
  · revert b; decide +kernel
  · revert b; decide +kernel

/-- five days -/
def moodOps : List DynOp := [.unroll .insertion 10 none none, .unroll .insertion 10 (some (moodEv "t")) none,
  .unroll .reversed 10 (some (moodEv "f")) none, .unroll .reversed 10 none none,
  .setEvidence .insertion 10 (some (moodEv "t"))]

theorem moodOps_fair (b : Bool) : FairHistory (mood b) ⟨[], none⟩ moodOps :=
  ⟨⟨mood_allows_none _ _, by decide⟩, ⟨mood_allows _ _ _ (by decide), by decide⟩,
    ⟨mood_allows _ _ _ (by decide), by decide⟩, ⟨mood_allows_none _ _, by decide⟩, mood_allows _ _ _ (by decide),
    trivial⟩

/-- either mood is possible on the second day -/
theorem mood_possible (b : Bool) :
    ∀ net two, Slices (mood b) [[]] net two → 0 < totalWeight net (moodEv "t") fun _ => 0 := by
  intro net two hs
  rw [(C47_slices_unique (d := mood b) (mood_ready b).two.consistent.nodup hs
    (.next (es := []) .start (mood_fed b))).1]
  clear hs
  unfold totalWeight
  refine lt_of_lt_of_le ?_ (le_sumOver (F := weight (moodTwo b) (moodEv "t")) (τ := fun _ => 0) (fun τ _ =>
    weight_nonneg (mood_facts b).2.1 (moodEv_nonneg _) τ) ⟨fun _ _ => rfl, ?_⟩)
  · revert b; decide +kernel
  · intro v hv
    rw [List.mem_toFinset] at hv
    revert v b; decide +kernel

theorem mood_blur (b : Bool) (κ : ℚ) : (mood b).blur (fun _ => 11 / 9) κ = (1 + (κ - 1) * (2 / 11)) ^ 2 := by
  have hg : ∀ a ∈ ["x", "y"], (mood b).twoTbn.grip a (11 / 9) = 11 / 9 := by
    revert b; decide +kernel
  have h1 := hg "x" (by simp)
  have h2 := hg "y" (by simp)
  unfold DBN.blur fade
  rw [show (mood b).transitions = [("x", "r"), ("y", "s")] from rfl]
  simp only [List.map_cons, List.map_nil, List.prod_cons, List.prod_nil, h1, h2]
  ring

theorem mood_reach (b : Bool) : (mood b).reach (fun _ => 11 / 9) = (11 / 9) ^ 4 := by
  revert b; decide +kernel

theorem mood_roundings : ∀ k, ∀ e ∈ (Diary.notes ⟨[], none⟩ moodOps).past, ∀ tr ∈ (mood true).transitions,
    treeRoundings ((mood true).slice k) e.length [tr.2] ≤ 2000 := by
  intro k
  unfold DBN.slice
  split <;> decide +kernel

end Ex

example := C94_start_forgotten_partial (b := Ex.moodFirst true) (Ex.mood_ready false) (Ex.mood_ready true)
  (Ex.mood_bounded false) (Ex.moodOps_fair false) (Ex.moodOps_fair true) rfl rfl rfl rfl rfl rfl
  (Ex.mood_possible false) (Ex.mood_possible true)

-- the factor shrinks
example {ε : ℚ} (hε : 0 < ε) := C94_blur_vanishes (Ex.mood_bounded false) (Ex.mood_bounded false).one_le_reach
  (.inl (by rw [Ex.mood_blur, Ex.mood_reach]; norm_num)) hε

-- after five days the answers differ by less than the factor 3/2, after 32 by less than a millionth
example : ((Ex.mood false).blur fun _ => 11 / 9)^[2] ((Ex.mood false).reach fun _ => 11 / 9) ^ 2 < 3 / 2 ∧
    ((Ex.mood false).blur fun _ => 11 / 9)^[30] ((Ex.mood false).reach fun _ => 11 / 9) ^ 2 < 1 + 1 / 10 ^ 6 := by
  constructor
  · simp only [Function.iterate_succ, Function.iterate_zero, Function.comp, id, Ex.mood_blur, Ex.mood_reach]
    norm_num
  · have h := C94_blur (Ex.mood_bounded false) (Ex.mood_bounded false).one_le_reach (θ := 1 / 2) (by norm_num)
      (by norm_num) (by rw [Ex.mood_blur, Ex.mood_reach]; norm_num) 30
    refine lt_of_le_of_lt (pow_le_pow_left₀ (le_trans zero_le_one
      ((Ex.mood_bounded false).one_le_iterate (Ex.mood_bounded false).one_le_reach 30)) h 2) ?_
    rw [Ex.mood_reach]
    norm_num

-- the rounded answers after a history: however many days have passed, they are off by a factor of at most
-- `(1 + 1 / 2 ^ 39) ^ 2` more than a single query is
example {A : Arith} (hA : A.Accurate (1 / 2 ^ 53)) := C94_rounding_bounded_partial (Ex.mood_ready true)
  (Ex.mood_bounded true) (Ex.moodOps_fair true) rfl hA rfl (m := 2000) Ex.mood_roundings (ε := 1 / 2 ^ 40)
  (κ := 1 + 1 / 2 ^ 39) (by norm_num) (by
    have := one_add_mul_le_pow (a := -(1 / 2 ^ 53 : ℚ)) (by norm_num) (2 * 2000)
    rw [← sub_eq_add_neg] at this
    refine le_trans ?_ (mul_le_mul_of_nonneg_left this (by norm_num))
    norm_num)
  (by norm_num) (by rw [Ex.mood_blur]; norm_num) rfl

-- and the first theorem, for networks whose first slices feed back priors that differ by the factor five
example {net two net' two' : BN} (s : Slices (Ex.mood false) ([[]] ++ [Ex.moodEv "t"]) net two)
    (s' : Slices (Ex.mood true) ([[]] ++ [Ex.moodEv "t"]) net' two') :=
  C94_forget (b := Ex.moodFirst true) (Ex.mood_ready false) (Ex.mood_ready true) (Ex.mood_bounded false)
    (es₀ := [[]]) (es := [Ex.moodEv "t"]) (by simp) (by intro e he; simp at he; subst he; intro v l h; simp at h)
    (by
      intro e he
      simp only [List.mem_singleton] at he
      subst he
      exact ⟨Ex.moodEv_legal "t" (by simp) false 1, Ex.moodEv_nonneg _⟩)
    (κ := 5) (by norm_num) (.next (es := []) .start (Ex.mood_fed false)) (.next (es := []) .start (Ex.mood_fed true))
    (by
      have key : ∀ tr ∈ (Ex.mood false).transitions, ∀ i < 2,
          (1 / 2 : ℚ) * entryOf (Ex.moodTwo false) tr.1 (fun _ => i) ≤ entryOf (Ex.moodTwo true) tr.1 (fun _ => i) ∧
          entryOf (Ex.moodTwo true) tr.1 (fun _ => i) ≤ 5 * (1 / 2) * entryOf (Ex.moodTwo false) tr.1 (fun _ => i) := by
        decide +kernel
      intro tr ht
      refine ⟨1 / 2, by norm_num, fun σ hσ => ?_⟩
      have hc : (Ex.mood false).twoTbn.card tr.1 = 2 := by clear hσ; revert tr; decide +kernel
      rw [hc] at hσ
      have h1 := key tr ht _ hσ
      have h2 : ∀ b, entryOf (Ex.moodTwo b) tr.1 σ = entryOf (Ex.moodTwo b) tr.1 fun _ => σ tr.1 := by
        intro b
        simp only [Ex.mood, List.mem_cons, List.not_mem_nil, or_false] at ht
        rcases ht with rfl | rfl <;> rfl
      rw [h2, h2]
      exact h1)
    s s' (e := Ex.moodEv "f") (Ex.moodEv_legal "f" (by simp) false 1) (Ex.moodEv_nonneg _) (vs := ["r"])
    (σ := fun _ => 0) (by intro v hv; simp at hv; subst hv; decide +kernel)

end Primo
