import Verif.Lemmas.RoundedTree
import Verif.Props.JoinTree
import Verif.Props.Exact

/-! # C63: accuracy of inference with rounded arithmetic -/

namespace Primo
open JoinTree

/-! ## The parametrised functions are those of the exact model -/

/-- **C63** With exact arithmetic the functions of `Verif.Rounded` are those of the exact model. -/
theorem C63_exact (so : SetOrder) (bn : BN) (Q : List Name) (ev : Dict Evidence)
    (order : Option (List Name)) (limit : Nat) (soft : Bool) (t : JTree) :
    VE.naiveMarginalsR .exact so bn Q ev = VE.naiveMarginals so bn Q ev ∧
    VE.bucketMarginalsR .exact so bn Q ev order = VE.bucketMarginals so bn Q ev order ∧
    createR .exact so bn order = create so bn order ∧
    t.resetR .exact so bn = t.reset so bn ∧
    t.setEvidenceR .exact so limit bn ev soft = t.setEvidence so limit bn ev soft ∧
    t.calculateR .exact so limit = t.calculate so limit ∧
    t.marginalsR .exact so limit Q = t.marginals so limit Q :=
  ⟨VE.naiveMarginalsR_exact so bn Q ev, VE.bucketMarginalsR_exact so bn Q ev order,
    createR_exact so bn order, JTree.resetR_exact so bn t, JTree.setEvidenceR_exact so limit bn ev soft t,
    JTree.calculateR_exact so limit t, JTree.marginalsR_exact so limit Q t⟩

/-- Exact arithmetic is accurate, with any bound on the error. -/
theorem Arith.exact_accurate {u : ℚ} (h0 : 0 ≤ u) (h1 : u < 1) : Arith.exact.Accurate u where
  nonneg := h0
  lt_one := h1
  add a b := by
    rw [show Arith.exact.add a b = a + b from rfl, sub_self, abs_zero]
    exact mul_nonneg h0 (abs_nonneg _)
  mul a b := by
    rw [show Arith.exact.mul a b = a * b from rfl, sub_self, abs_zero]
    exact mul_nonneg h0 (abs_nonneg _)
  div a b _ := by
    rw [show Arith.exact.div a b = a / b from rfl, sub_self, abs_zero]
    exact mul_nonneg h0 (abs_nonneg _)
  sum_nil := rfl
  sum := by
    intro l hl
    induction l with
    | nil => exact absurd rfl hl
    | cons x l ih =>
      cases l with
      | nil => exact ⟨.leaf x, .refl _, by simp [Arith.exact, SumTree.eval]⟩
      | cons y l =>
        obtain ⟨t, h1, h2⟩ := ih (by simp)
        refine ⟨.node (.leaf x) t, .cons x h1, ?_⟩
        rw [SumTree.eval, SumTree.eval, ← h2]
        rfl

/-! ## Arithmetic that is not exact -/

namespace Ex

/-- all results are a thousandth too large; sums are computed from left to right -/
def biased : Arith where
  add a b := (a + b) * (1001 / 1000)
  mul a b := a * b * (1001 / 1000)
  div a b := a / b * (1001 / 1000)
  sum
    | [] => 0
    | x :: l => l.foldl (fun s y => (s + y) * (1001 / 1000)) x

theorem biased_accurate : biased.Accurate (1 / 1000) where
  nonneg := by norm_num
  lt_one := by norm_num
  add a b := by
    rw [show biased.add a b - (a + b) = 1 / 1000 * (a + b) by simp only [biased]; ring, abs_mul]
    norm_num
  mul a b := by
    rw [show biased.mul a b - a * b = 1 / 1000 * (a * b) by simp only [biased]; ring, abs_mul]
    norm_num
  div a b _ := by
    rw [show biased.div a b - a / b = 1 / 1000 * (a / b) by simp only [biased]; ring, abs_mul]
    norm_num
  sum_nil := rfl
  sum := by
    have key : ∀ (l : List ℚ) (t : SumTree), ∃ t' : SumTree, t'.leaves.Perm (t.leaves ++ l) ∧
        l.foldl (fun s y => (s + y) * (1001 / 1000)) (t.eval biased.add) = t'.eval biased.add := by
      intro l
      induction l with
      | nil => exact fun t => ⟨t, by simp, rfl⟩
      | cons y l ih =>
        intro t
        obtain ⟨t', h1, h2⟩ := ih (.node t (.leaf y))
        refine ⟨t', ?_, h2⟩
        simpa [SumTree.leaves] using h1
    intro l hl
    cases l with
    | nil => exact absurd rfl hl
    | cons x l => exact key l (.leaf x)

end Ex

/-! ## Variable elimination -/

/-- **C63** `naive_marginals` with rounded arithmetic: it succeeds, and every entry is within
`naiveRoundings` roundings of the posterior. -/
theorem C63_naive {A : Arith} {u : ℚ} (hA : A.Accurate u) (so : SetOrder) (bn : BN) (hc : bn.Consistent)
    (hp : bn.NonNeg) (ev : Dict Evidence) (he : LegalEvidence bn ev) (hpe : NonNegEvidence ev)
    (Q : List Name) (hQ : ∀ v ∈ Q, v ∈ bn.names) :
    ∃ r, VE.naiveMarginalsR A so bn Q ev = .ok r ∧ r.WF bn.card ∧
      (∀ v ∈ r.variableOrder, r.values.get? v = some (bn.lab v)) ∧
      (∀ v, v ∈ r.variableOrder ↔ v ∈ Q) ∧ ∀ σ, Legal bn.card Q σ →
        Near u (bn.naiveRoundings ev Q) (r.eval σ) (posterior bn ev Q σ) := by
  obtain ⟨r, h1, h2, h3, h4⟩ := naive_near hA so hc hp he hpe hQ
  exact ⟨r, h1, h2.wf, h2.val, h3, h4⟩

/-- **C63** `bucket_marginals` with rounded arithmetic and any elimination order. -/
theorem C63_bucket {A : Arith} {u : ℚ} (hA : A.Accurate u) (so : SetOrder) (bn : BN) (hc : bn.Consistent)
    (hp : bn.NonNeg) (ev : Dict Evidence) (he : LegalEvidence bn ev) (hpe : NonNegEvidence ev)
    (Q : List Name) (hQn : Q.Nodup) (hQ : ∀ v ∈ Q, v ∈ bn.names) (order : List Name)
    (ho : order.Perm bn.names) :
    ∃ r, VE.bucketMarginalsR A so bn Q ev (some order) = .ok r ∧ r.WF bn.card ∧
      (∀ v ∈ r.variableOrder, r.values.get? v = some (bn.lab v)) ∧
      (∀ v, v ∈ r.variableOrder ↔ v ∈ Q) ∧ ∀ σ, Legal bn.card Q σ →
        Near u (bn.bucketRoundings ev Q) (r.eval σ) (posterior bn ev Q σ) := by
  have hord : VE.chooseOrder bn (some order) = .ok order := by
    cases order with
    | cons v vs => rfl
    | nil =>
      have : bn = [] := by
        have := List.nil_perm.1 ho
        simpa [BN.names] using this
      subst this; rfl
  obtain ⟨r, h1, h2, h3, h4⟩ := bucket_near hA so hc hp he hpe hQn hQ (some order) hord ho
  exact ⟨r, h1, h2.wf, h2.val, h3, h4⟩

/-- **C63** `bucket_marginals` with rounded arithmetic and its own elimination order. -/
theorem C63_bucket_default {A : Arith} {u : ℚ} (hA : A.Accurate u) (so : SetOrder) (bn : BN)
    (hc : bn.Consistent) (hl : bn.Linked) (hp : bn.NonNeg) (ev : Dict Evidence) (he : LegalEvidence bn ev)
    (hpe : NonNegEvidence ev) (Q : List Name) (hQn : Q.Nodup) (hQ : ∀ v ∈ Q, v ∈ bn.names) :
    ∃ r, VE.bucketMarginalsR A so bn Q ev none = .ok r ∧ r.WF bn.card ∧
      (∀ v ∈ r.variableOrder, r.values.get? v = some (bn.lab v)) ∧
      (∀ v, v ∈ r.variableOrder ↔ v ∈ Q) ∧ ∀ σ, Legal bn.card Q σ →
        Near u (bn.bucketRoundings ev Q) (r.eval σ) (posterior bn ev Q σ) := by
  obtain ⟨o, o1, o2, _⟩ := Orderer.minDegreeOrder_spec hc hl
  obtain ⟨r, h1, h2, h3, h4⟩ := bucket_near hA so hc hp he hpe hQn hQ none (by exact o1) o2
  exact ⟨r, h1, h2.wf, h2.val, h3, h4⟩

/-- **C63** what `k` roundings can do: no sign changes, no zeros appear or disappear, and the relative
error is at most `2 k u` (as long as that is at most one). -/
theorem C63_error {u : ℚ} (h0 : 0 ≤ u) (hu : u < 1) {k : Nat} {x y : ℚ} (h : Near u k x y) :
    0 ≤ x ∧ (x = 0 ↔ y = 0) ∧ (k * u ≤ 1 / 2 → |x - y| ≤ 2 * k * u * y) :=
  ⟨h.nonneg hu, h.zero_iff hu, h.abs_le h0 hu⟩

example := C63_naive Ex.biased_accurate .insertion Ex.bn Ex.bn_consistent Ex.bn_nonneg Ex.ev Ex.ev_legal
  Ex.ev_nonneg ["a", "c"] (by decide)
example := C63_bucket Ex.biased_accurate .insertion Ex.bn Ex.bn_consistent Ex.bn_nonneg Ex.ev Ex.ev_legal
  Ex.ev_nonneg ["c", "a"] (by decide) (by decide) ["c", "b", "d", "a"] (by decide)
example := C63_bucket_default Ex.biased_accurate .insertion Ex.bn Ex.bn_consistent Ex.bn_linked Ex.bn_nonneg
  Ex.ev Ex.ev_legal Ex.ev_nonneg ["a"] (by decide) (by decide)
-- the rounding makes a difference, and the bounds are small numbers
example : (VE.naiveMarginalsR Ex.biased .insertion Ex.bn ["b"] []).map (fun r => r.potentials.data) =
    .ok [500 / 1001, 500 / 1001, 0] := by decide +kernel
example : (VE.naiveMarginals .insertion Ex.bn ["b"] []).map (fun r => r.potentials.data) =
    .ok [1 / 2, 1 / 2, 0] := by decide +kernel
example : Ex.bn.naiveRoundings Ex.ev ["b"] = 21 ∧ Ex.bn.bucketRoundings Ex.ev ["b"] = 29 := by
  decide +kernel

theorem Near.sumOver {u : ℚ} {k : Nat} {card : Name → Nat} {s : Finset Name} {F G : Assign → ℚ}
    {σ : Assign} (h : ∀ τ, Varies card s σ τ → Near u k (F τ) (G τ)) :
    Near u k (Primo.sumOver card s F σ) (Primo.sumOver card s G σ) := by
  unfold Primo.sumOver
  have h' : ∀ τ ∈ s.pi (fun v => Finset.range (card v)),
      Near u k (F fun v => if h : v ∈ s then τ v h else σ v) (G fun v => if h : v ∈ s then τ v h else σ v) := by
    refine fun τ hτ => h _ ⟨fun v hv => by simp [hv], fun v hv => ?_⟩
    simp only [hv, dif_pos]
    exact Finset.mem_range.1 (Finset.mem_pi.1 hτ v hv)
  refine ⟨Finset.sum_nonneg fun τ hτ => (h' τ hτ).1, ?_, ?_⟩
  · rw [Finset.sum_mul]
    exact Finset.sum_le_sum fun τ hτ => (h' τ hτ).2.1
  · rw [Finset.sum_mul]
    exact Finset.sum_le_sum fun τ hτ => (h' τ hτ).2.2

/-- **C63** the entries of a table that is within `k` roundings of the posterior add up to one, within `k`
roundings, if the evidence is possible; if it is impossible, all are zero. -/
theorem C63_sum {u : ℚ} (hu : u < 1) (bn : BN) (hc : bn.Consistent)
    (hp : bn.NonNeg) (ev : Dict Evidence) (he : LegalEvidence bn ev) (hpe : NonNegEvidence ev)
    (Q : List Name) (hQ : ∀ v ∈ Q, v ∈ bn.names) (k : Nat) (r : Factor) (hw : r.WF bn.card)
    (hs : ∀ v, v ∈ r.variableOrder ↔ v ∈ Q)
    (hr : ∀ σ, Legal bn.card Q σ → Near u k (r.eval σ) (posterior bn ev Q σ)) (σ₀ : Assign) :
    (0 < totalWeight bn ev σ₀ → Near u k r.potentials.sumAll 1) ∧
    (¬ 0 < totalWeight bn ev σ₀ → ∀ σ, Legal bn.card Q σ → r.eval σ = 0) := by
  refine ⟨fun hZ => ?_, fun hZ σ hσ => ?_⟩
  · rw [Factor.sumAll_eq_sumOver hw σ₀]
    have : r.variableOrder.toFinset = Q.toFinset := by ext v; simp [hs]
    rw [this, ← posterior_sum hc he hQ hZ]
    exact Near.sumOver fun τ hτ => hr τ fun v hv => hτ.2 v (by simpa using hv)
  · rw [(hr σ hσ).zero_iff hu]
    refine posterior_eq_zero hp hpe hQ hσ (le_antisymm ?_ ?_)
    · rw [totalWeight_const hc he σ σ₀]; exact not_lt.1 hZ
    · exact sumOver_nonneg fun τ _ => weight_nonneg hp hpe τ

example (r : Factor) (h : r.WF Ex.bn.card) (hs : ∀ v, v ∈ r.variableOrder ↔ v ∈ ["a"])
    (hr : ∀ σ, Legal Ex.bn.card ["a"] σ → Near (1 / 1000) 21 (r.eval σ) (posterior Ex.bn Ex.ev ["a"] σ)) :=
  C63_sum (by norm_num) Ex.bn Ex.bn_consistent Ex.bn_nonneg Ex.ev Ex.ev_legal Ex.ev_nonneg ["a"] (by decide)
    21 r h hs hr

theorem RelE.sameUpTo {u : ℚ} {k : Nat} {x y : Except PyErr Factor} (h : RelE (Factor.Near u k) x y) :
    SameUpTo u k x y := by
  refine ⟨fun e => h.error_iff, ?_⟩
  rintro f g rfl rfl
  have h : f.Near u k g := h
  exact ⟨h.order, h.values, h.table.shape, h.table.data⟩

/-- **C63** Rounding does not change what happens: for any network (consistent or not), evidence, query and
order, the elimination algorithms raise the same exceptions as with exact numbers, or return a table over
the same variables with zeros in the same places. -/
theorem C63_same_outcome {A : Arith} {u : ℚ} (hA : A.Accurate u) (so : SetOrder) (bn : BN) (hp : bn.NonNeg)
    (ev : Dict Evidence) (hpe : NonNegEvidence ev) (Q : List Name) (order : Option (List Name)) :
    (∃ k, SameUpTo u k (VE.naiveMarginalsR A so bn Q ev) (VE.naiveMarginals so bn Q ev)) ∧
    ∃ k, SameUpTo u k (VE.bucketMarginalsR A so bn Q ev order) (VE.bucketMarginals so bn Q ev order) := by
  have key : ∀ {x y : Except PyErr Factor}, RelE (fun f g => ∃ k, f.Near u k g) x y →
      ∃ k, SameUpTo u k x y := by
    intro x y h
    cases x with
    | error e =>
      cases y with
      | ok g => exact h.elim
      | error e' => exact ⟨0, RelE.sameUpTo (show RelE _ (.error e) (.error e') from h)⟩
    | ok f =>
      cases y with
      | error e => exact h.elim
      | ok g =>
        obtain ⟨k, hk⟩ : ∃ k, f.Near u k g := h
        exact ⟨k, RelE.sameUpTo (show RelE _ (.ok f) (.ok g) from hk)⟩
  have S := sim_any hA so hp hpe
  constructor
  · refine key ?_
    have h := (S.naive_raw Q).bind (S := fun f g => ∃ k, f.Near u k g)
      (f := fun f => .ok (f.normalizeR A)) (g := fun g => .ok g.normalize)
      fun f g ⟨k, hk⟩ => ⟨_, Factor.near_normalize hA hk⟩
    unfold VE.naiveMarginalsR VE.naiveMarginals
    simp only [bind_assoc] at h
    exact h
  · refine key ((S.bucket Q order).mono ?_)
    rintro f g ⟨_, f₀, g₀, ⟨k, hk⟩, rfl, rfl, _⟩
    exact ⟨_, Factor.near_normalize hA hk⟩

example := C63_same_outcome Ex.biased_accurate .insertion Ex.bn Ex.bn_nonneg Ex.ev Ex.ev_nonneg ["a", "a"] none

/-! ## `FactorTree` -/

namespace TreeOp

/-- the state after the call with rounded arithmetic -/
def runR (A : Arith) : TreeOp → JTree → JTree
  | .reset so bn, t => (t.resetR A so bn).1
  | .setEvidence so limit bn ev soft, t => (t.setEvidenceR A so limit bn ev soft).1
  | .calculate so limit, t => (t.calculateR A so limit).1
  | .marginals so limit vs, t => (t.marginalsR A so limit vs).1

/-- the state after a history of calls with rounded arithmetic -/
def runsR (A : Arith) (ops : List TreeOp) (t : JTree) : JTree := ops.foldl (fun t op => op.runR A t) t

/-- the numbers in the arguments are non-negative -/
def NonNeg : TreeOp → Prop
  | .reset _ bn => bn.NonNeg
  | .setEvidence _ _ bn ev _ => bn.NonNeg ∧ NonNegEvidence ev
  | .calculate _ _ => True
  | .marginals _ _ _ => True

end TreeOp

theorem TreeOp.near_runs : ∀ (ops : List TreeOp), (∀ op ∈ ops, op.NonNeg) → ∀ (t₀ : JTree) (k : Nat),
    ∃ m, ∀ u A, Arith.Accurate A u → ∀ t : JTree, t.Near u k t₀ →
      (TreeOp.runsR A ops t).Near u m (TreeOp.runs ops t₀)
  | [], _, _, k => ⟨k, fun _ _ _ _ h => h⟩
  | op :: ops, h, t₀, k => by
    have h1 : ∃ m, ∀ u A, Arith.Accurate A u → ∀ t : JTree, t.Near u k t₀ →
        (op.runR A t).Near u m (op.run t₀) := by
      have hop := h op (by simp)
      cases op with
      | reset so bn =>
        obtain ⟨m, hm⟩ := JTree.tracks_reset so hop t₀ k
        exact ⟨m, fun u A hA t ht => (hm u A hA t ht).2⟩
      | setEvidence so limit bn ev soft =>
        obtain ⟨m, hm⟩ := JTree.tracks_setEvidence so limit hop.1 hop.2 soft t₀ k
        exact ⟨m, fun u A hA t ht => (hm u A hA t ht).2⟩
      | calculate so limit =>
        obtain ⟨m, hm⟩ := JTree.tracks_calculate so limit t₀ k
        exact ⟨m, fun u A hA t ht => (hm u A hA t ht).2⟩
      | marginals so limit vs =>
        obtain ⟨m, hm⟩ := JTree.tracks_marginals so limit vs t₀ k
        exact ⟨m, fun u A hA t ht => (hm u A hA t ht).1⟩
    obtain ⟨m, hm⟩ := h1
    obtain ⟨m', hm'⟩ := near_runs ops (fun op hop => h op (by simp [hop])) (op.run t₀) m
    exact ⟨m', fun u A hA t ht => hm' u A hA _ (hm u A hA t ht)⟩

/-- **C63** `FactorTree` with rounded arithmetic, after any history of calls: every call raises the same
exception as with exact numbers or none, and each entry of an answer is within `k` roundings of the exact
answer, where `k` depends neither on the arithmetic nor on its accuracy. -/
theorem C63_tree_history (so : SetOrder) (bn : BN) (hp : bn.NonNeg) (order : Option (List Name))
    (ops : List TreeOp) (hops : ∀ op ∈ ops, op.NonNeg) :
    (∀ e, create so bn order = .error e → ∀ A u, Arith.Accurate A u → createR A so bn order = .error e) ∧
    ∀ t₀, create so bn order = .ok t₀ → ∀ so' limit vs, ∃ k, ∀ A u, Arith.Accurate A u →
      ∃ t, createR A so bn order = .ok t ∧
        SameUpTo u k ((TreeOp.runsR A ops t).marginalsR A so' limit vs).2
          ((TreeOp.runs ops t₀).marginals so' limit vs).2 ∧
        (∀ bn' ev soft, bn'.NonNeg → NonNegEvidence ev →
          ((TreeOp.runsR A ops t).setEvidenceR A so' limit bn' ev soft).2 =
            ((TreeOp.runs ops t₀).setEvidence so' limit bn' ev soft).2) ∧
        (∀ bn', bn'.NonNeg → ((TreeOp.runsR A ops t).resetR A so' bn').2 =
          ((TreeOp.runs ops t₀).reset so' bn').2) ∧
        ((TreeOp.runsR A ops t).calculateR A so' limit).2 =
          ((TreeOp.runs ops t₀).calculate so' limit).2 := by
  obtain ⟨m, hm⟩ := JTree.near_create so hp order
  constructor
  · intro e he A u hA
    exact (hm u A hA).error_iff.2 he
  · intro t₀ ht₀ so' limit vs
    obtain ⟨m₁, hm₁⟩ := TreeOp.near_runs ops hops t₀ m
    obtain ⟨m₂, hm₂⟩ := JTree.tracks_marginals so' limit vs (TreeOp.runs ops t₀) m₁
    refine ⟨m₂, fun A u hA => ?_⟩
    obtain ⟨t, ht, hn⟩ := (hm u A hA).ok_right ht₀
    have hr := hm₁ u A hA t hn
    refine ⟨t, ht, (hm₂ u A hA _ hr).2.sameUpTo, fun bn' ev soft h1 h2 => ?_, fun bn' h1 => ?_, ?_⟩
    · obtain ⟨j, hj⟩ := JTree.tracks_setEvidence so' limit h1 h2 soft (TreeOp.runs ops t₀) m₁
      exact (hj u A hA _ hr).1
    · obtain ⟨j, hj⟩ := JTree.tracks_reset so' h1 (TreeOp.runs ops t₀) m₁
      exact (hj u A hA _ hr).1
    · obtain ⟨j, hj⟩ := JTree.tracks_calculate so' limit (TreeOp.runs ops t₀) m₁
      exact (hj u A hA _ hr).1

/-- **C63** the posteriors of a `FactorTree` with rounded arithmetic: on a tree with the running intersection
property, there is a number `k` such that for every arithmetic with error at most `u` per operation each entry of the answer
is within `k` roundings of the posterior. -/
theorem C63_tree {bn : BN} {order0 : Option (List Name)} (h : TreeSetup bn order0)
    (hn : bn.NonNeg) (hco : bn.Connected) {ev : Dict Evidence} (he : LegalEvidence bn ev)
    (hen : NonNegEvidence ev) {limit : Nat} (hl : bn.length ≤ limit) (so₁ so₂ : SetOrder) :
    ∃ t₀ t₀', create so₁ bn order0 = .ok t₀ ∧ t₀.setEvidence so₂ limit bn ev false = (t₀', none) ∧
      (∀ n ∈ bn, t₀'.Covers n.family) ∧
      ∀ vs, t₀'.Covers vs → ∀ so₃ limit', ∃ k, ∀ A u, Arith.Accurate A u → ∃ t t' r,
        createR A so₁ bn order0 = .ok t ∧ t.setEvidenceR A so₂ limit bn ev false = (t', none) ∧
        (t'.marginalsR A so₃ limit' vs).2 = .ok r ∧ r.WF bn.card ∧
        (∀ v ∈ r.variableOrder, r.values.get? v = some (bn.lab v)) ∧
        (∀ v, v ∈ r.variableOrder ↔ v ∈ vs) ∧
        ∀ σ, Legal bn.card vs σ → Near u k (r.eval σ) (posterior bn ev vs σ) := by
  obtain ⟨t₀, t₀', h1, h2, h3, h4⟩ := C21_tree_exact_partial h hn hco he hen hl so₁ so₂
  refine ⟨t₀, t₀', h1, h2, h3, fun vs hvs so₃ limit' => ?_⟩
  obtain ⟨r₀, r1, r2, r3, r4, r5, _⟩ := h4 vs hvs so₃ limit'
  obtain ⟨m, hm⟩ := JTree.near_create so₁ hn order0
  obtain ⟨m₁, hm₁⟩ := JTree.tracks_setEvidence so₂ limit hn hen false t₀ m
  obtain ⟨m₂, hm₂⟩ := JTree.tracks_marginals so₃ limit' vs t₀' m₁
  refine ⟨m₂, fun A u hA => ?_⟩
  obtain ⟨t, ht, hnear⟩ := (hm u A hA).ok_right h1
  obtain ⟨s1, s2⟩ := hm₁ u A hA t hnear
  rw [h2] at s1 s2
  obtain ⟨_, q2⟩ := hm₂ u A hA _ s2
  rw [r1] at q2
  obtain ⟨r, hr, hrr⟩ := q2.ok_right rfl
  have hov := hrr.over ⟨r2, r3⟩
  refine ⟨t, (t.setEvidenceR A so₂ limit bn ev false).1, r, ht, Prod.ext rfl s1, hr, hov.wf, hov.val,
    fun v => by rw [hrr.order, r4], fun σ hσ => ?_⟩
  rw [← r5 σ hσ]
  exact hrr.eval σ

example := C63_tree_history .insertion Ex.bn Ex.bn_nonneg none
  [.setEvidence .insertion 10 Ex.bn Ex.ev true, .marginals .insertion 10 ["a"]] (by
    intro op h
    simp only [List.mem_cons, List.not_mem_nil, or_false] at h
    rcases h with rfl | rfl
    · exact ⟨Ex.bn_nonneg, Ex.ev_nonneg⟩
    · exact trivial)
example := C63_tree Ex.bn_perfect.tree Ex.bn_nonneg Ex.bn_connected Ex.ev_legal Ex.ev_nonneg (limit := 4)
  (by decide) .insertion .insertion

/-! ## Negative entries -/

namespace Ex

/-- the product 1/3 is a thousandth too large, everything else is exact -/
def third : Arith where
  add a b := a + b
  mul a b := if a * b = 1 / 3 then 1 / 3 * (1001 / 1000) else a * b
  div a b := a / b
  sum := List.sum

theorem third_accurate : third.Accurate (1 / 1000) where
  nonneg := by norm_num
  lt_one := by norm_num
  add := (Arith.exact_accurate (by norm_num) (by norm_num)).add
  mul a b := by
    simp only [third]
    split
    · rename_i h
      rw [h, abs_of_nonneg (by norm_num), abs_of_nonneg (by norm_num)]
      norm_num
    · rw [sub_self, abs_zero]
      exact mul_nonneg (by norm_num) (abs_nonneg _)
  div := (Arith.exact_accurate (by norm_num) (by norm_num)).div
  sum_nil := rfl
  sum := (Arith.exact_accurate (u := 1 / 1000) (by norm_num) (by norm_num)).sum

/-- two unconnected nodes; the table of the first one adds up to zero -/
def cancel : BN :=
  [⟨"a", .discrete, ["t", "f"], [], [], [], ⟨[2], [1 / 3, -1 / 3], rfl⟩, false⟩,
    ⟨"b", .discrete, ["t", "f"], [], [], [], ⟨[2], [1 / 4, 3 / 4], rfl⟩, false⟩]

theorem cancel_consistent : cancel.Consistent := ⟨by decide, by decide, by decide, by decide, by decide,
  by decide, by decide⟩

end Ex

/-- **C63 needs non-negative tables** (`set_cpd` accepts any numbers): with a negative entry a single
rounding can turn an answer that should be all zeros into a distribution. -/
theorem C63_negative_refuted : Ex.third.Accurate (1 / 1000) ∧ Ex.cancel.Consistent ∧
    (VE.naiveMarginals .insertion Ex.cancel ["b"] []).map (fun r => (r.variableOrder, r.potentials.data)) =
      .ok (["b"], [0, 0]) ∧
    (VE.naiveMarginalsR Ex.third .insertion Ex.cancel ["b"] []).map
      (fun r => (r.variableOrder, r.potentials.data)) = .ok (["b"], [1 / 4, 3 / 4]) ∧
    ∀ k, ¬ Near (1 / 1000) k (1 / 4) 0 := by
  refine ⟨Ex.third_accurate, Ex.cancel_consistent, by decide +kernel, by decide +kernel, fun k h => ?_⟩
  have := (h.zero_iff (by norm_num)).2 rfl
  norm_num at this

/-! ## Underflow -/

namespace Ex

/-- products below `η` are flushed to zero, everything else is exact -/
def flush (η : ℚ) : Arith where
  add a b := a + b
  mul a b := if |a * b| < η then 0 else a * b
  div a b := a / b
  sum := List.sum

/-- one node with two outcomes, one of probability `η` -/
def coin (η : ℚ) : BN := [⟨"a", .discrete, ["t", "f"], [], [], [], ⟨[2], [η, 1 - η], rfl⟩, false⟩]

theorem coin_consistent (η : ℚ) : (coin η).Consistent := by
  constructor <;> simp [coin, BN.names, BN.lab]

end Ex

/-- **C63 needs arithmetic without underflow**: whatever the smallest positive number `η` is, there are a
distribution and a possible observation (both made of numbers that are not below `η`) for which the answer
is a table of zeros, although the posterior probability of the first outcome is one. -/
theorem C63_underflow_refuted (η : ℚ) (h0 : 0 < η) (h1 : η < 1) :
    (Ex.coin η).Consistent ∧ (Ex.coin η).NonNeg ∧
    LegalEvidence (Ex.coin η) [("a", .soft [η, 0])] ∧ NonNegEvidence [("a", .soft [η, 0])] ∧
    (∃ r, VE.naiveMarginalsR (Ex.flush η) .insertion (Ex.coin η) ["a"] [("a", .soft [η, 0])] = .ok r ∧
      r.variableOrder = ["a"] ∧ r.potentials.data = [0, 0]) ∧
    ∃ r, VE.naiveMarginals .insertion (Ex.coin η) ["a"] [("a", .soft [η, 0])] = .ok r ∧
      r.variableOrder = ["a"] ∧ r.potentials.data = [1, 0] := by
  have hA : ∀ A : Arith, VE.naiveMarginalsR A .insertion (Ex.coin η) ["a"] [("a", .soft [η, 0])] =
      .ok (Factor.normalizeR A ⟨⟨[2], [A.mul (A.mul 1 η) η, A.mul (A.mul 1 (1 - η)) 0], rfl⟩, ["a"],
        [("a", ["t", "f"])]⟩) := fun A => rfl
  have hη : |η * η| < η := by
    rw [abs_of_nonneg (by positivity)]
    nlinarith
  have hη' : ¬ |η| < η := by
    rw [abs_of_pos h0]
    exact lt_irrefl _
  refine ⟨Ex.coin_consistent η, ?_, ?_, ?_, ⟨_, hA _, ?_⟩, ⟨_, (VE.naiveMarginalsR_exact ..).symm.trans (hA _), ?_⟩⟩
  · intro n hn x hx
    simp only [Ex.coin, List.mem_singleton] at hn
    subst hn
    simp only [List.mem_cons, List.not_mem_nil, or_false] at hx
    rcases hx with rfl | rfl
    · exact h0.le
    · linarith
  · constructor
    · simp [Dict.keys]
    · simp [Ex.coin, BN.names]
    · intro v x h
      simp at h
    · intro v l h
      simp only [List.mem_singleton, Prod.mk.injEq, Evidence.soft.injEq] at h
      obtain ⟨rfl, rfl⟩ := h
      simp [Ex.coin, BN.card, BN.lab]
  · intro v l h x hx
    simp only [List.mem_singleton, Prod.mk.injEq, Evidence.soft.injEq] at h
    obtain ⟨rfl, rfl⟩ := h
    simp only [List.mem_cons, List.not_mem_nil, or_false] at hx
    rcases hx with rfl | rfl
    · exact h0.le
    · exact le_refl _
  · have hm : (Ex.flush η).mul ((Ex.flush η).mul 1 η) η = 0 := by
      simp only [Ex.flush, one_mul]
      rw [if_neg hη', if_pos hη]
    have hm' : (Ex.flush η).mul ((Ex.flush η).mul 1 (1 - η)) 0 = 0 := by
      simp [Ex.flush]
    simp only [hm, hm', Factor.normalizeR]
    simp [Ex.flush]
  · have hp : 0 < η * η := by positivity
    simp only [Factor.normalizeR, Arith.exact]
    simp [NDArray.map, hp.ne', h0]

end Primo
