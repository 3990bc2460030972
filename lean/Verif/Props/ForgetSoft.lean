import Verif.Lemmas.ForgetSoft
import Verif.Props.Forget
import Verif.Props.RoundedSoftFeedback
import Verif.Props.Unroll

/-! # C93: soft-evidence feedback forgets its start, and its rounding errors do not pile up -/

namespace Primo
open JoinTree

/-- **C93**: Two dynamic networks that differ in their first slice only, with the same evidence.  If the arrays that
are carried over after the slices `es₀` differ by the factor `κ`, then all posteriors in the slice after `es` more
slices differ by at most the factor `fade R κ es.length`. -/
theorem C93_forget {d : DBN} {b : BN} (h : d.Ready) (h' : ({ d with b0 := b } : DBN).Ready) {tr : Name × Name}
    (ht : d.transitions = [tr]) (hab : tr.2 ≠ tr.1) {ρ : ℚ} (hρ : 1 ≤ ρ) (hi : d.twoTbn.Influence tr.1 ρ)
    {es₀ es : List (Dict Evidence)} {e : Dict Evidence} (h₀ : es₀ ≠ []) (hs : d.SoftPast (es₀ ++ es ++ [e]))
    {κ lo : ℚ} (hκ : 1 ≤ κ) (hlo : 0 < lo) {l₀ l₀' : List ℚ} (hl₀ : d.carried es₀ = [(tr.1, l₀)])
    (hl₀' : ({ d with b0 := b } : DBN).carried es₀ = [(tr.1, l₀')])
    (hp : ∀ i < d.twoTbn.card tr.1, 0 ≤ l₀.getD i 0 ∧ lo * l₀.getD i 0 ≤ l₀'.getD i 0 ∧
      l₀'.getD i 0 ≤ κ * lo * l₀.getD i 0) {vs : List Name} {σ : Assign} (hσ : Legal d.twoTbn.card vs σ) :
    posterior d.twoTbn (softened d.twoTbn (overridden (({ d with b0 := b } : DBN).carried (es₀ ++ es)) e)) vs σ ≤
        fade (d.twoTbn.grip tr.1 ρ) κ es.length *
          posterior d.twoTbn (softened d.twoTbn (overridden (d.carried (es₀ ++ es)) e)) vs σ ∧
      posterior d.twoTbn (softened d.twoTbn (overridden (d.carried (es₀ ++ es)) e)) vs σ ≤
        fade (d.twoTbn.grip tr.1 ρ) κ es.length *
          posterior d.twoTbn (softened d.twoTbn (overridden (({ d with b0 := b } : DBN).carried (es₀ ++ es)) e)) vs σ := by
  have h1 : es₀ ++ es ≠ [] := by simp [h₀]
  obtain ⟨l, hl⟩ := DBN.carried_exists ht h1
  obtain ⟨l', hl'⟩ := DBN.carried_exists (d := { d with b0 := b }) ht h1
  have key := soft_fade h h' ht hab hρ hi hκ h₀ hs.init hl₀ hl₀' ⟨lo, hlo, hp⟩ hl hl'
  obtain ⟨a1, a2⟩ := hs.at_later h1
  rw [hl] at a2
  rw [hl, hl']
  exact (soft_pair h h' ht hρ hi h1 hl hl' a1 a2).answers (one_le_fade (BN.one_le_grip _ _ hρ) hκ _)
    (soft_alike h.two_nonneg h.two.consistent (h.target_mem ht) key) hσ

/-- **C93**: whatever the first slices are, if the evidence of the second slice is possible in both networks, then all
posteriors in the slice after `es` more slices differ by at most the factor `fade R (R ^ 2) es.length`. -/
theorem C93_forget_any {d : DBN} {b : BN} (h : d.Ready) (h' : ({ d with b0 := b } : DBN).Ready) {tr : Name × Name}
    (ht : d.transitions = [tr]) (hab : tr.2 ≠ tr.1) {ρ : ℚ} (hρ : 1 ≤ ρ) (hi : d.twoTbn.Influence tr.1 ρ)
    {e₀ e₁ e : Dict Evidence} {es : List (Dict Evidence)} (hs : d.SoftPast (e₀ :: e₁ :: es ++ [e]))
    (hs' : ({ d with b0 := b } : DBN).SoftPast [e₀, e₁]) {σ₀ σ₀' : Assign}
    (hz : 0 < totalWeight d.twoTbn (softened d.twoTbn (overridden (d.carried [e₀]) e₁)) σ₀)
    (hz' : 0 < totalWeight d.twoTbn (softened d.twoTbn (overridden (({ d with b0 := b } : DBN).carried [e₀]) e₁)) σ₀')
    {vs : List Name} {σ : Assign} (hσ : Legal d.twoTbn.card vs σ) :
    posterior d.twoTbn (softened d.twoTbn (overridden (({ d with b0 := b } : DBN).carried (e₀ :: e₁ :: es)) e)) vs σ ≤
        fade (d.twoTbn.grip tr.1 ρ) (d.twoTbn.grip tr.1 ρ ^ 2) es.length *
          posterior d.twoTbn (softened d.twoTbn (overridden (d.carried (e₀ :: e₁ :: es)) e)) vs σ ∧
      posterior d.twoTbn (softened d.twoTbn (overridden (d.carried (e₀ :: e₁ :: es)) e)) vs σ ≤
        fade (d.twoTbn.grip tr.1 ρ) (d.twoTbn.grip tr.1 ρ ^ 2) es.length *
          posterior d.twoTbn (softened d.twoTbn (overridden (({ d with b0 := b } : DBN).carried (e₀ :: e₁ :: es)) e))
            vs σ := by
  obtain ⟨k, hk⟩ := DBN.carried_exists (es := [e₀]) ht (by simp)
  obtain ⟨k', hk'⟩ := DBN.carried_exists (d := { d with b0 := b }) (es := [e₀]) ht (by simp)
  obtain ⟨l, hl⟩ := DBN.carried_exists (es := [e₀, e₁]) ht (by simp)
  obtain ⟨l', hl'⟩ := DBN.carried_exists (d := { d with b0 := b }) (es := [e₀, e₁]) ht (by simp)
  obtain ⟨a1, a2⟩ := DBN.SoftPast.at_later (es₀ := [e₀]) (e := e₁) (es := es ++ [e]) hs (by simp)
  obtain ⟨-, a3⟩ := DBN.SoftPast.at_later (es₀ := [e₀]) (e := e₁) (es := []) hs' (by simp)
  rw [hk] at a2 hz
  rw [hk'] at a3 hz'
  obtain ⟨lo, hlo, ha⟩ := soft_step_any h h' ht hab hρ hi (es := [e₀]) (by simp) a1 hk hk' a2 a3 hl hl' hz hz'
  exact C93_forget h h' ht hab hρ hi (es₀ := [e₀, e₁]) (es := es) (by simp) hs
    (one_le_pow₀ (BN.one_le_grip _ _ hρ)) hlo hl hl' ha hσ

/-- **C93** for the objects, partial: two `SoftEvidenceExact` objects whose dynamic networks differ in the first slice
only, after histories of allowed calls that entered the same evidence.  Both answer, and the answers differ by at most
the factor `fade R (R ^ 2) k` if `k + 2` slices have been left.  Missing, as in C48: slices whose trees are not exact;
with several transitions the claim is false (`C93_two_transitions_refuted`). -/
theorem C93_start_forgotten_partial {d : DBN} {b : BN} (h : d.Ready) (h' : ({ d with b0 := b } : DBN).Ready)
    {tr : Name × Name} (ht : d.transitions = [tr]) (hab : tr.2 ≠ tr.1) {ρ : ℚ} (hρ : 1 ≤ ρ)
    (hi : d.twoTbn.Influence tr.1 ρ) {ops ops' : List DynOp} (ho : SoftFairHistory d ⟨[], none⟩ ops)
    (ho' : SoftFairHistory { d with b0 := b } ⟨[], none⟩ ops') {g : Diary} (hg : g = Diary.notes ⟨[], none⟩ ops)
    (hg' : g = Diary.notes ⟨[], none⟩ ops') {s s' : SoftFeedback} (hs : s = .runs ops (.create d))
    (hs' : s' = .runs ops' (.create { d with b0 := b })) {e₀ e₁ e : Dict Evidence} {es : List (Dict Evidence)}
    (hpast : g.past = e₀ :: e₁ :: es) (hnow : g.now = some e) {σ₀ σ₀' : Assign}
    (hz : 0 < totalWeight d.twoTbn (softened d.twoTbn (overridden (d.carried [e₀]) e₁)) σ₀)
    (hz' : 0 < totalWeight d.twoTbn
      (softened d.twoTbn (overridden (({ d with b0 := b } : DBN).carried [e₀]) e₁)) σ₀') :
    ∀ n ∈ d.twoTbn, ∀ vs, (∀ v ∈ vs, v ∈ n.family) → ∀ so limit so' limit', ∃ r r',
      s.marginals so limit vs = (s, .ok r) ∧ s'.marginals so' limit' vs = (s', .ok r') ∧
      ∀ σ, Legal d.twoTbn.card vs σ →
        r'.eval σ ≤ fade (d.twoTbn.grip tr.1 ρ) (d.twoTbn.grip tr.1 ρ ^ 2) es.length * r.eval σ ∧
        r.eval σ ≤ fade (d.twoTbn.grip tr.1 ρ) (d.twoTbn.grip tr.1 ρ ^ 2) es.length * r'.eval σ := by
  obtain ⟨-, -, -, -, a5, -⟩ := C48_soft_feedback_partial h.soft ho hg hs
  obtain ⟨-, -, -, -, b5, -⟩ := C48_soft_feedback_partial h'.soft ho' hg' hs'
  have hl := (ho.soft (Diary.soft_start d))
  have hl' := (ho'.soft (Diary.soft_start { d with b0 := b }))
  rw [← hg] at hl
  rw [← hg'] at hl'
  have l1 := hl.now e hnow
  have l2 := hl'.past
  have hne : g.past ≠ [] := by rw [hpast]; simp
  have a5 := (a5 e hnow).1
  have b5 := (b5 e hnow).1
  rw [DBN.slice_later _ hne, hpast] at a5 b5
  rw [hpast] at l1 l2
  intro n hn vs hvs so limit so' limit'
  obtain ⟨r, r1, -, -, -, r2⟩ := a5 n hn vs hvs so limit
  obtain ⟨r', r1', -, -, -, r2'⟩ := b5 n hn vs hvs so' limit'
  refine ⟨r, r', r1, r1', fun σ hσ => ?_⟩
  rw [r2 σ hσ, r2' σ hσ]
  exact C93_forget_any h h' ht hab hρ hi l1 (DBN.SoftPast.append (es₀ := [e₀, e₁]) l2) hz hz' hσ

/-- **C93** with rounded arithmetic, partial: after any number of slices each entry of an answer differs from the
posterior that C48 states for exact arithmetic by at most the factor `(1 + 2 * R * ε) / (1 - u) ^ k`, where `k` counts
the roundings of entering the evidence and of a single query.  The factor does not depend on the number of slices,
while the bound of C86 grows with it.  Missing as above. -/
theorem C93_rounding_bounded_partial {d : DBN} (h : d.Ready) {tr : Name × Name} (ht : d.transitions = [tr])
    (hab : tr.2 ≠ tr.1) {ρ : ℚ} (hρ : 1 ≤ ρ) (hi : d.twoTbn.Influence tr.1 ρ) {ops : List DynOp}
    (ho : SoftFairHistory d ⟨[], none⟩ ops) {g : Diary} (hg : g = Diary.notes ⟨[], none⟩ ops) {A : Arith} {u : ℚ}
    (hA : A.Accurate u) {s : SoftFeedback} (hs : s = .runsR A ops (.create d)) {m : Nat}
    (hm : ∀ k, ∀ e ∈ g.past, treeRoundings (d.slice k) (d.entryRoundings k e) [tr.2] ≤ m) {ε : ℚ} (hε : 0 ≤ ε)
    (h1 : 1 ≤ (1 + ε) * (1 - u) ^ (2 * m)) (h2 : ε * (d.twoTbn.grip tr.1 ρ - 1) ≤ 1 / 2) {e : Dict Evidence}
    (hnow : g.now = some e) {net : BN} (hnet : net = d.slice g.past.length) {ev : Dict Evidence}
    (hev : ev = softened net (overridden (d.carried g.past) e)) :
    ∀ n ∈ net, ∀ vs, (∀ v ∈ vs, v ∈ n.family) → ∀ so limit, ∃ r, s.marginalsR A so limit vs = (s, .ok r) ∧
      ∀ σ, Legal net.card vs σ →
        r.eval σ * (1 - u) ^ treeRoundings net (d.entryRoundings g.past.length e) vs ≤
          (1 + 2 * d.twoTbn.grip tr.1 ρ * ε) * posterior net ev vs σ ∧
        posterior net ev vs σ * (1 - u) ^ treeRoundings net (d.entryRoundings g.past.length e) vs ≤
          (1 + 2 * d.twoTbn.grip tr.1 ρ * ε) * r.eval σ := by
  have htr := (SoftFeedback.tracksR_create (A := A) (u := u) d).runs hA h.soft ops ho
  rw [← hg, ← hs] at htr
  have hl := (ho.soft (Diary.soft_start d))
  rw [← hg] at hl
  have h0 := hA.nonneg
  have hu := hA.lt_one
  obtain ⟨evR, b1, -, b3, b4, te, b5, b6, b7⟩ := htr.now e hnow
  have hsup := (hl.now e hnow).sup g.past e [] rfl
  rw [← hnet] at b1 b3 b4 b7 hsup
  have hnn : net.NonNeg := by rw [hnet]; exact (h.soft.net _).2.1
  have hans := (b1.answersR hu (skew_refl_nets hnn (NonNegEvidence.softened hnn b7))).1
  have hκ : 1 ≤ 1 + 2 * d.twoTbn.grip tr.1 ρ * ε := by
    have := BN.one_le_grip d.twoTbn tr.1 hρ
    have : 0 ≤ 2 * d.twoTbn.grip tr.1 ρ * ε := by positivity
    linarith
  -- the answers of the network with the rounded arrays
  have hpost : ∀ vs σ, Legal net.card vs σ →
      posterior net (softened net evR) vs σ ≤ (1 + 2 * d.twoTbn.grip tr.1 ρ * ε) * posterior net ev vs σ ∧
      posterior net ev vs σ ≤ (1 + 2 * d.twoTbn.grip tr.1 ρ * ε) * posterior net (softened net evR) vs σ := by
    intro vs σ hσ
    by_cases hes : g.past = []
    · have : te = d.carried g.past := by
        rw [hes] at b5 ⊢
        generalize hh : ([] : List (Dict Evidence)) = es at b5
        cases b5 with
        | start => rfl
        | next => simp at hh
      rw [b6, this, ← hev]
      have := posterior_nonneg hnn (NonNegEvidence.softened hnn hsup) vs σ
      rw [← hev] at this
      constructor <;> nlinarith
    · obtain ⟨l, hl1⟩ := DBN.carried_exists ht hes
      obtain ⟨lR, rfl⟩ := b5.one ht hes
      have hal := b5.alike h0 hu h ht hab hρ hi hm hε h1 h2 hl.past l lR hl1 rfl
      obtain ⟨n, n1, n2, -, n3, -⟩ := h.node tr (by simp [ht])
      have e1 : net = d.twoTbn := by rw [hnet, d.slice_later hes]
      rw [b6] at b3 ⊢
      rw [hev, hl1]
      rw [hl1] at hsup b4
      rw [e1] at hσ b3 b4 hsup ⊢
      exact (soft_oneFactor h.two.consistent h.two_nonneg n1 n2 n3 hρ hi b4 b3 hsup).answers hκ
        (soft_alike h.two_nonneg h.two.consistent (h.target_mem ht) hal) hσ
  intro n hn vs hvs so limit
  obtain ⟨r, r1, -, -, -, r2⟩ := hans n hn vs hvs so limit
  refine ⟨r, r1, fun σ hσ => ?_⟩
  obtain ⟨n1, n2, n3⟩ := r2 σ hσ
  obtain ⟨p1, p2⟩ := hpost vs σ hσ
  dsimp only at n2 n3
  rw [Nat.add_zero] at n2 n3
  have hpk : (0 : ℚ) ≤ (1 - u) ^ treeRoundings net (d.entryRoundings g.past.length e) vs := pow_nonneg (by linarith) _
  constructor
  · linarith
  · refine (mul_le_mul_of_nonneg_right p2 hpk).trans ?_
    rw [mul_assoc]
    exact mul_le_mul_of_nonneg_left n2 (by linarith)

/-! ## examples -/

namespace Ex

theorem rain_priorAt (sure : Bool) {i : Nat} (hi : i < (rainTwo sure 0).card "x") : priorAt (rainTwo sure 0) "x" i = 1 / 2 := by
  have key : ∀ sure : Bool, (VE.naiveMarginals .insertion (rainTwo sure 0) ["x"] []).map (fun r => (r.variableOrder,
      (List.range ((rainTwo sure 0).card "x")).map fun i => r.potentials.get [i])) = .ok (["x"], [1 / 2, 1 / 2]) ∧
      (∀ x ∈ ["x"], x ∈ (rainTwo sure 0).names) ∧ (rainTwo sure 0).card "x" = 2 := by decide +kernel
  obtain ⟨h1, h2, h3⟩ := key sure
  unfold priorAt
  rw [posterior_read (σ := fun _ => i) (rainTwo_consistent _ _) legal_nil h1 h2 hi]
  rw [h3] at hi
  interval_cases i <;> rfl

theorem rain_supported {sure : Bool} {xs : List ℚ} {e : Dict Evidence} (he : ∀ v l, (v, Evidence.soft l) ∉ e)
    (h1 : ∀ x ∈ xs, 0 ≤ x) (h2 : ∃ x ∈ xs, x ≠ 0) : Supported (rainTwo sure 0) (overridden [("x", xs)] e) := by
  intro v l hm
  rcases List.mem_append.1 hm with hm | hm
  · exact absurd (List.mem_filter.1 hm).1 (he v l)
  · obtain ⟨rfl, rfl⟩ : v = "x" ∧ l = xs := by simpa using hm
    refine ⟨h1, h2, fun i hi hz => ?_⟩
    rw [rain_priorAt sure hi] at hz
    norm_num at hz

theorem rain_ratio (sure : Bool) (x y : ℚ) : ratio (rainTwo sure 0) "x" [x, y] = [2 * x, 2 * y] := by
  have h3 : ∀ sure : Bool, (rainTwo sure 0).card "x" = 2 := by decide +kernel
  unfold ratio
  have : (List.range ((rainTwo sure 0).card "x")) = [0, 1] := by rw [h3]; rfl
  rw [this]
  simp only [List.map_cons, List.map_nil]
  rw [rain_priorAt sure (by rw [h3]; decide), rain_priorAt sure (by rw [h3]; decide)]
  norm_num
  constructor <;> ring

/-- if it is surely as the day before, the same array is carried over again and again -/
theorem rain_carried (p : Fin 3) (n : Nat) :
    (rain true p).carried (List.replicate (n + 1) []) = [("x", (rainPrior p).data)] := by
  have key : ∀ p : Fin 3, (rainPrior p).data = [(rainPrior p).data.getD 0 0, (rainPrior p).data.getD 1 0] ∧
      (VE.naiveMarginals .insertion (rainTwo true 0) ["r"]
        [("x", .soft [2 * (rainPrior p).data.getD 0 0, 2 * (rainPrior p).data.getD 1 0])]).map
          (fun r => (r.variableOrder, (List.range ((rainTwo true 0).card "r")).map fun i => r.potentials.get [i])) =
        .ok (["r"], [(rainPrior p).data.getD 0 0, (rainPrior p).data.getD 1 0]) ∧
      (rainFirst p).card "r" = 2 ∧ (rainTwo true 0).card "r" = 2 ∧ (rainTwo true 0).card "x" = 2 ∧
      "x" ∈ (rainTwo true 0).names ∧ "r" ∈ (rainTwo true 0).names ∧ "r" ∈ (rainFirst p).names := by decide +kernel
  obtain ⟨k1, k2, k3, k4, k5, k6, k7, k8⟩ := key p
  induction n with
  | zero =>
    change (rain true p).carried ([] ++ [[]]) = _
    rw [DBN.carried_one (tr := ("x", "r")) rfl]
    change [("x", (List.range ((rainFirst p).card "r")).map fun i => posterior (rainFirst p) [] ["r"] fun _ => i)] = _
    rw [k3, show List.range 2 = [0, 1] from rfl, List.map_cons, List.map_cons, List.map_nil,
      posterior_read (rainFirst_consistent p) legal_nil (rain_answers p).1 (by simpa using k8) (by rw [k3]; decide),
      posterior_read (rainFirst_consistent p) legal_nil (rain_answers p).1 (by simpa using k8) (by rw [k3]; decide)]
    rw [k1]
    rfl
  | succ n ih =>
    rw [List.replicate_succ', DBN.carried_one (tr := ("x", "r")) rfl, ih, DBN.slice_later _ (by simp), k1]
    change [("x", (List.range ((rainTwo true 0).card "r")).map fun i => posterior (rainTwo true 0)
      [("x", .soft (ratio (rainTwo true 0) "x" [(rainPrior p).data.getD 0 0, (rainPrior p).data.getD 1 0]))] ["r"]
        fun _ => i)] = _
    have hle : LegalEvidence (rainTwo true 0)
        [("x", .soft [2 * (rainPrior p).data.getD 0 0, 2 * (rainPrior p).data.getD 1 0])] := by
      refine ⟨by simp [Dict.keys], by simpa using k6, by simp, fun v l h => ?_⟩
      obtain ⟨rfl, rfl⟩ : v = "x" ∧ l = _ := by simpa using h
      rw [k5]
      rfl
    rw [rain_ratio, k4, show List.range 2 = [0, 1] from rfl, List.map_cons, List.map_cons, List.map_nil,
      posterior_read (rainTwo_consistent _ _) hle k2 (by simpa using k7) (by rw [k4]; decide),
      posterior_read (rainTwo_consistent _ _) hle k2 (by simpa using k7) (by rw [k4]; decide)]
    rfl

end Ex

/-- **C93 needs bounded influence**: if the variable is a copy of that of the slice before, then nothing is forgotten.
The array that is carried over stays that of the first slice. -/
theorem C93_copy_refuted : (Ex.rain true 1).Ready ∧ (Ex.rain true 2).Ready ∧
    Ex.rain true 2 = { Ex.rain true 1 with b0 := (Ex.rain true 2).b0 } ∧ (Ex.rain true 1).transitions = [("x", "r")] ∧
    ∀ n, (Ex.rain true 1).carried (List.replicate (n + 1) []) = [("x", [1 / 4, 3 / 4])] ∧
      (Ex.rain true 2).carried (List.replicate (n + 1) []) = [("x", [3 / 4, 1 / 4])] :=
  ⟨Ex.rain_ready _ _, Ex.rain_ready _ _, rfl, rfl, fun n => ⟨Ex.rain_carried 1 n, Ex.rain_carried 2 n⟩⟩

namespace Ex

/-- what is carried over from day to day -/
def rainArrays (p : Fin 3) : List (List ℚ) :=
  match p with
  | 0 => [[1 / 2, 1 / 2], [9 / 11, 2 / 11], [69 / 397, 328 / 397], [1467 / 3970, 2503 / 3970]]
  | 1 => [[1 / 4, 3 / 4], [3 / 4, 1 / 4], [3 / 19, 16 / 19], [69 / 190, 121 / 190]]
  | 2 => [[3 / 4, 1 / 4], [27 / 31, 4 / 31], [201 / 1073, 872 / 1073], [4023 / 10730, 6707 / 10730]]

/-- the arrays after the first days, as the objects hold them -/
theorem rain_runs : ∀ (p : Fin 3) (k : Fin 5), ((SoftFeedback.runs (rainOps.take k) (.create (rain false p))).transitionEvidence.map
    fun q => (q.1, q.2.data)) = if k = 0 then [] else [("x", (rainArrays p).getD (k - 1) [])] := by
  decide +kernel

theorem rain_arrays_facts : ∀ (p : Fin 3) (k : Fin 4), (∀ x ∈ (rainArrays p).getD k [], 0 ≤ x) ∧
    ∃ x ∈ (rainArrays p).getD k [], x ≠ 0 := by
  decide +kernel

theorem rain_small (p : Fin 3) (k : Nat) : ((rain false p).slice k).length ≤ 10 :=
  (rain_allows_none false p k).2.2

theorem rain_soft_first (p : Fin 3) (ev : Option (Dict Evidence)) (hl : LegalEvidence (rainFirst p) (ev.getD []))
    (he : ∀ v l, (v, Evidence.soft l) ∉ ev.getD []) : (rain false p).AllowsSoft [] 10 (ev.getD []) := by
  refine ⟨hl, fun v l h => absurd ?_ (he v l), rain_small p _⟩
  simpa [overridden, DBN.carried, Dict.keys] using h

theorem rain_soft_later (p : Fin 3) {past : List (Dict Evidence)} (hne : past ≠ []) {xs : List ℚ}
    (hc : (rain false p).carried past = [("x", xs)]) (h1 : (∀ x ∈ xs, 0 ≤ x) ∧ ∃ x ∈ xs, x ≠ 0) (e : Dict Evidence)
    (hl : LegalEvidence (rainTwo false 0) e) (he : ∀ v l, (v, Evidence.soft l) ∉ e) :
    (rain false p).AllowsSoft past 10 e := by
  refine ⟨?_, ?_, rain_small p _⟩
  · rw [DBN.slice_later _ hne]; exact hl
  · rw [DBN.slice_later _ hne, hc]
    exact rain_supported he h1.1 h1.2

theorem rain_carried_at (p : Fin 3) (k : Fin 5) {ops : List DynOp} (hk : ops = rainOps.take k)
    (ho : SoftFairHistory (rain false p) ⟨[], none⟩ ops) :
    (rain false p).carried (Diary.notes ⟨[], none⟩ ops).past =
      if k = 0 then [] else [("x", (rainArrays p).getD (k - 1) [])] := by
  subst hk
  exact (C48_soft_feedback_partial (rain_ready false p).soft ho rfl rfl).2.2.1.symm.trans (rain_runs p k)

theorem rain_hard (o : Val) : ∀ v l, (v, Evidence.soft l) ∉ rainEv o := by simp [rainEv]

theorem rainOps_soft (p : Fin 3) : SoftFairHistory (rain false p) ⟨[], none⟩ rainOps := by
  have l : ∀ o ∈ ["t", "f"], LegalEvidence (rainTwo false 0) (rainEv o) := fun o ho => rainEv_legal o ho false p 1
  have f1 : SoftFairHistory (rain false p) ⟨[], none⟩ (rainOps.take 1) :=
    ⟨⟨rain_soft_first p none legal_nil (by simp), rfl⟩, trivial⟩
  have f2 : SoftFairHistory (rain false p) ⟨[], none⟩ (rainOps.take 2) :=
    ⟨f1.1, ⟨rain_soft_later p (List.cons_ne_nil _ _) (rain_carried_at p 1 rfl f1) (rain_arrays_facts p 0) _ (l _ (by simp))
      (rain_hard _), rfl⟩, trivial⟩
  have f3 : SoftFairHistory (rain false p) ⟨[], none⟩ (rainOps.take 3) :=
    ⟨f1.1, f2.2.1, ⟨rain_soft_later p (List.cons_ne_nil _ _) (rain_carried_at p 2 rfl f2) (rain_arrays_facts p 1) _ (l _ (by simp))
      (rain_hard _), rfl⟩, trivial⟩
  have f4 : SoftFairHistory (rain false p) ⟨[], none⟩ (rainOps.take 4) :=
    ⟨f1.1, f2.2.1, f3.2.2.1, ⟨rain_soft_later p (List.cons_ne_nil _ _) (rain_carried_at p 3 rfl f3) (rain_arrays_facts p 2) _
      legal_nil (fun _ _ => List.not_mem_nil), rfl⟩, trivial⟩
  exact ⟨f1.1, f2.2.1, f3.2.2.1, f4.2.2.2.1, rain_soft_later p (List.cons_ne_nil _ _) (rain_carried_at p 4 rfl f4)
    (rain_arrays_facts p 3) _ (l _ (by simp)) (rain_hard _), trivial⟩

/-- umbrellas are possible on the second day -/
theorem rain_soft_possible (p : Fin 3) : 0 < totalWeight (rainTwo false 0) (softened (rainTwo false 0)
    (overridden ((rain false p).carried [[]]) (rainEv "t"))) fun _ => 0 := by
  have f1 : SoftFairHistory (rain false p) ⟨[], none⟩ (rainOps.take 1) :=
    ⟨⟨rain_soft_first p none legal_nil (by simp), rfl⟩, trivial⟩
  have hc : (rain false p).carried [[]] = [("x", (rainArrays p).getD 0 [])] := rain_carried_at p 1 rfl f1
  have hd : ∀ p : Fin 3, (rainArrays p).getD 0 [] = [(rainPrior p).data.getD 0 0, (rainPrior p).data.getD 1 0] := by
    decide +kernel
  have hn := NonNegEvidence.softened (rain_facts false 0).2.1 (rain_supported (sure := false) (rain_hard "t")
    (rain_arrays_facts p 0).1 (rain_arrays_facts p 0).2)
  have hd := hd p
  rw [Fin.val_zero, hd] at hn
  rw [hc, hd]
  unfold totalWeight
  refine lt_of_lt_of_le ?_ (le_sumOver (τ := fun _ => 0) (fun τ _ =>
    weight_nonneg (rain_facts false 0).2.1 hn τ) ⟨fun _ _ => rfl, ?_⟩)
  · change 0 < weight (rainTwo false 0) [("u", .hard "t"), ("x", .soft (ratio (rainTwo false 0) "x" _))] _
    rw [rain_ratio]
    clear hn hd hc f1
    revert p; decide +kernel
  · intro v hv
    rw [List.mem_toFinset] at hv
    clear hn hd hc f1 p
    revert v; decide +kernel

end Ex

example := C93_start_forgotten_partial (b := Ex.rainFirst 2) (Ex.rain_ready false 1) (Ex.rain_ready false 2)
  (tr := ("x", "r")) rfl (by decide) (by norm_num) (Ex.rain_influence 1) (Ex.rainOps_soft 1)
  (Ex.rainOps_soft 2) rfl rfl rfl rfl rfl rfl (Ex.rain_soft_possible 1) (Ex.rain_soft_possible 2)

theorem Ex.rain_soft_roundings : ∀ k, ∀ e ∈ (Diary.notes ⟨[], none⟩ Ex.rainOps).past,
    treeRoundings ((Ex.rain false 1).slice k) ((Ex.rain false 1).entryRoundings k e) ["r"] ≤ 20292 := by
  intro k
  unfold DBN.entryRoundings DBN.entered DBN.slice
  split <;> decide +kernel

-- the rounded answers after a history: however many days have passed, they are off by a factor of at most
-- `1 + 5 / 2 ^ 37` more than a single slice is
example {A : Arith} (hA : A.Accurate (1 / 2 ^ 53)) := C93_rounding_bounded_partial (Ex.rain_ready false 1)
  (tr := ("x", "r")) rfl (by decide) (by norm_num) (Ex.rain_influence 1) (Ex.rainOps_soft 1) rfl
  hA rfl (m := 20292) Ex.rain_soft_roundings
  (ε := 1 / 2 ^ 37) (by norm_num) (by
    have := one_add_mul_le_pow (a := -(1 / 2 ^ 53 : ℚ)) (by norm_num) (2 * 20292)
    rw [← sub_eq_add_neg] at this
    refine le_trans ?_ (mul_le_mul_of_nonneg_left this (by norm_num))
    norm_num)
  (by rw [show (Ex.rain false 1).twoTbn.grip "x" (7 / 3) = 7 / 3 by decide +kernel]; norm_num) rfl rfl rfl

end Primo
