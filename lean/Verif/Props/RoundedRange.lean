import Verif.Lemmas.RoundedRange
import Verif.Lemmas.Double
import Verif.Props.Rounded

/-! # C87: variable elimination with arithmetic of limited range, such as double precision -/

namespace Primo

/-- **C87** The arithmetic of C63 is the case without limits. -/
theorem C87_unlimited (A : Arith) (u : ℚ) : A.AccurateWithin u 0 ↔ A.Accurate u := by
  have h : ∀ x, Representable 0 x := fun x => .inr ⟨abs_nonneg x, by rw [mul_zero]; exact zero_le_one⟩
  exact ⟨fun hA => ⟨hA.nonneg, hA.lt_one, fun a b => hA.add a b (h _), fun a b => hA.mul a b (h _),
      fun a b hb => hA.div a b hb (h _), hA.sum_nil, hA.sum⟩,
    fun hA => ⟨hA.nonneg, hA.lt_one, fun a b _ => hA.add a b, fun a b _ => hA.mul a b,
      fun a b hb _ => hA.div a b hb, hA.sum_nil, hA.sum⟩⟩

/-- **C87** `naive_marginals` with arithmetic of limited range: if a product with one number for each node and
each piece of evidence stays in the range, with a factor of two left for each rounding, it succeeds and every
entry is within `naiveRoundings` roundings of the posterior. -/
theorem C87_naive {A : Arith} {u δ : ℚ} (hA : A.AccurateWithin u δ) (so : SetOrder) (bn : BN)
    (hc : bn.Consistent) (ev : Dict Evidence) (he : LegalEvidence bn ev) {m M : ℚ} (h0 : 0 < m)
    (h1 : m ≤ 1) (hM : 1 ≤ M) (hp : bn.EntriesIn m M) (hpe : EvidenceIn m M ev) (Q : List Name)
    (hQ : ∀ v ∈ Q, v ∈ bn.names)
    (hroom : δ * (2 ^ bn.naiveRoundings ev Q * M ^ (bn.length + ev.length)) ≤
      m ^ (bn.length + ev.length) * (1 - u) ^ bn.naiveRoundings ev Q) :
    ∃ r, VE.naiveMarginalsR A so bn Q ev = .ok r ∧ r.WF bn.card ∧
      (∀ v ∈ r.variableOrder, r.values.get? v = some (bn.lab v)) ∧
      (∀ v, v ∈ r.variableOrder ↔ v ∈ Q) ∧ ∀ σ, Legal bn.card Q σ →
        Near u (bn.naiveRoundings ev Q) (r.eval σ) (posterior bn ev Q σ) := by
  obtain ⟨r, h1, h2, h3, h4⟩ := naive_range so hc hp he hpe hQ ⟨hA, h0, h1, hM, hroom⟩
  exact ⟨r, h1, h2.wf, h2.val, h3, h4⟩

/-- **C87** `bucket_marginals` with arithmetic of limited range and any elimination order. -/
theorem C87_bucket {A : Arith} {u δ : ℚ} (hA : A.AccurateWithin u δ) (so : SetOrder) (bn : BN)
    (hc : bn.Consistent) (ev : Dict Evidence) (he : LegalEvidence bn ev) {m M : ℚ} (h0 : 0 < m)
    (h1 : m ≤ 1) (hM : 1 ≤ M) (hp : bn.EntriesIn m M) (hpe : EvidenceIn m M ev) (Q : List Name) (hQn : Q.Nodup)
    (hQ : ∀ v ∈ Q, v ∈ bn.names)
    (hroom : δ * (2 ^ bn.bucketRoundings ev Q * M ^ (bn.length + ev.length)) ≤
      m ^ (bn.length + ev.length) * (1 - u) ^ bn.bucketRoundings ev Q)
    (order : List Name) (ho : order.Perm bn.names) :
    ∃ r, VE.bucketMarginalsR A so bn Q ev (some order) = .ok r ∧ r.WF bn.card ∧
      (∀ v ∈ r.variableOrder, r.values.get? v = some (bn.lab v)) ∧
      (∀ v, v ∈ r.variableOrder ↔ v ∈ Q) ∧ ∀ σ, Legal bn.card Q σ →
        Near u (bn.bucketRoundings ev Q) (r.eval σ) (posterior bn ev Q σ) := by
  have hord : VE.chooseOrder bn (some order) = .ok order := by
    cases order with
    | cons v vs => rfl
    | nil =>
      have : bn = [] := by
        have := List.nil_perm.1 ho
        simpa [BN.names] using this
      subst this; rfl
  obtain ⟨r, h1, h2, h3, h4⟩ := bucket_range so hc hp he hpe hQn hQ (some order) hord ho ⟨hA, h0, h1, hM, hroom⟩
  exact ⟨r, h1, h2.wf, h2.val, h3, h4⟩

/-- **C87** `bucket_marginals` with arithmetic of limited range and its own elimination order. -/
theorem C87_bucket_default {A : Arith} {u δ : ℚ} (hA : A.AccurateWithin u δ) (so : SetOrder) (bn : BN)
    (hc : bn.Consistent) (hl : bn.Linked) (ev : Dict Evidence) (he : LegalEvidence bn ev) {m M : ℚ} (h0 : 0 < m)
    (h1 : m ≤ 1) (hM : 1 ≤ M) (hp : bn.EntriesIn m M) (hpe : EvidenceIn m M ev) (Q : List Name)
    (hQn : Q.Nodup) (hQ : ∀ v ∈ Q, v ∈ bn.names)
  
    (hroom : δ * (2 ^ bn.bucketRoundings ev Q * M ^ (bn.length + ev.length)) ≤
      m ^ (bn.length + ev.length) * (1 - u) ^ bn.bucketRoundings ev Q) :
    ∃ r, VE.bucketMarginalsR A so bn Q ev none = .ok r ∧ r.WF bn.card ∧
      (∀ v ∈ r.variableOrder, r.values.get? v = some (bn.lab v)) ∧
      (∀ v, v ∈ r.variableOrder ↔ v ∈ Q) ∧ ∀ σ, Legal bn.card Q σ →
        Near u (bn.bucketRoundings ev Q) (r.eval σ) (posterior bn ev Q σ) := by
  obtain ⟨o, o1, o2, _⟩ := Orderer.minDegreeOrder_spec hc hl
  obtain ⟨r, h1, h2, h3, h4⟩ := bucket_range so hc hp he hpe hQn hQ none (by exact o1) o2 ⟨hA, h0, h1, hM, hroom⟩
  exact ⟨r, h1, h2.wf, h2.val, h3, h4⟩

/-! ## Double precision -/

/-- products of `D` numbers between `2 ^ -a` and `2 ^ b` and `k` roundings leave room in the range of doubles -/
theorem double_room {a b D k : Nat} (h : (a + b) * D + k ≤ 1021) :
    doubleMin * (2 ^ k * (2 ^ b) ^ D) ≤ (1 / 2 ^ a : ℚ) ^ D * (1 - doubleError) ^ k ∧
      (k : ℚ) * doubleError ≤ 1 / 2 ^ 43 := by
  have hk : k ≤ 1021 := by omega
  have hkq : (k : ℚ) ≤ 1021 := by exact_mod_cast hk
  have hu : doubleError = 1 / 9007199254740992 := by rw [doubleError]; norm_num
  constructor
  · have hb : (1 / 2 : ℚ) ≤ (1 - doubleError) ^ k := by
      have := one_add_mul_le_pow (a := -doubleError) (by rw [hu]; norm_num) k
      rw [← sub_eq_add_neg] at this
      refine le_trans ?_ this
      rw [hu]
      linarith
    refine le_trans ?_ (mul_le_mul_of_nonneg_left hb (by positivity))
    have h2 : (2 : ℚ) ^ ((a + b) * D + k) ≤ 2 ^ 1021 := pow_le_pow_right₀ (by norm_num) h
    rw [one_div_pow, doubleMin, ← pow_mul, ← pow_mul, show (1022 : ℕ) = 1021 + 1 from rfl, pow_succ,
      div_mul_div_comm, one_mul, div_mul_eq_mul_div, one_mul, div_le_div_iff₀ (by positivity) (by positivity)]
    calc (2 : ℚ) ^ k * 2 ^ (b * D) * (2 ^ (a * D) * 2) = 2 ^ ((a + b) * D + k) * 2 := by
          rw [pow_add, add_mul, pow_add]; ring
      _ ≤ 2 ^ 1021 * 2 := mul_le_mul_of_nonneg_right h2 (by norm_num)
      _ = _ := (one_mul _).symm
  · rw [hu]
    have : (k : ℚ) * (1 / 9007199254740992) ≤ 1021 * (1 / 9007199254740992) :=
      mul_le_mul_of_nonneg_right hkq (by norm_num)
    refine this.trans ?_
    norm_num

theorem double_small (a : Nat) : (1 / 2 ^ a : ℚ) ≤ 1 :=
  div_le_one_of_le₀ (one_le_pow₀ (by norm_num)) (by positivity)

/-- **C87** `naive_marginals` in double precision: if the numbers of the network and of the evidence that
are not zero lie between `2 ^ -a` and `2 ^ b`, and `a + b` for every node and every piece of evidence and the
number of roundings together do not exceed 1021, then the relative error of every entry is at most `2 ^ -42`;
zeros are exact.  This holds whatever becomes of numbers
that are too large, and in whatever order `np.sum` adds. -/
theorem C87_naive_double (over : ℚ → ℚ) {tree : List ℚ → SumTree} (ht : SumsUp tree) (so : SetOrder) (bn : BN)
    (hc : bn.Consistent) (ev : Dict Evidence) (he : LegalEvidence bn ev) {a b : Nat}
    (hp : bn.EntriesIn (1 / 2 ^ a) (2 ^ b)) (hpe : EvidenceIn (1 / 2 ^ a) (2 ^ b) ev) (Q : List Name)
    (hQ : ∀ v ∈ Q, v ∈ bn.names)
    (hroom : (a + b) * (bn.length + ev.length) + bn.naiveRoundings ev Q ≤ 1021) :
    ∃ r, VE.naiveMarginalsR (.double over tree) so bn Q ev = .ok r ∧ r.WF bn.card ∧
      (∀ v ∈ r.variableOrder, r.values.get? v = some (bn.lab v)) ∧
      (∀ v, v ∈ r.variableOrder ↔ v ∈ Q) ∧ ∀ σ, Legal bn.card Q σ → 0 ≤ r.eval σ ∧
        (r.eval σ = 0 ↔ posterior bn ev Q σ = 0) ∧
        |r.eval σ - posterior bn ev Q σ| ≤ 1 / 2 ^ 42 * posterior bn ev Q σ := by
  obtain ⟨h2, h3⟩ := double_room hroom
  have hA := Arith.double_accurate over ht
  obtain ⟨r, r1, r2, r3, r4, r5⟩ := C87_naive hA so bn hc ev he (by positivity)
    (double_small a) (one_le_pow₀ (by norm_num)) hp hpe Q hQ h2
  refine ⟨r, r1, r2, r3, r4, fun σ hσ => ?_⟩
  have hn := r5 σ hσ
  refine ⟨hn.nonneg hA.lt_one, hn.zero_iff hA.lt_one, (hn.abs_le hA.nonneg hA.lt_one ?_).trans ?_⟩
  · refine h3.trans ?_
    norm_num
  · refine mul_le_mul_of_nonneg_right ?_ hn.1
    rw [mul_assoc]
    calc _ ≤ 2 * (1 / 2 ^ 43 : ℚ) := mul_le_mul_of_nonneg_left h3 (by norm_num)
      _ = 1 / 2 ^ 42 := by norm_num

/-- **C87** `bucket_marginals` in double precision, with its own elimination order. -/
theorem C87_bucket_double (over : ℚ → ℚ) {tree : List ℚ → SumTree} (ht : SumsUp tree) (so : SetOrder) (bn : BN)
    (hc : bn.Consistent) (hl : bn.Linked) (ev : Dict Evidence) (he : LegalEvidence bn ev) {a b : Nat}
    (hp : bn.EntriesIn (1 / 2 ^ a) (2 ^ b)) (hpe : EvidenceIn (1 / 2 ^ a) (2 ^ b) ev) (Q : List Name)
    (hQn : Q.Nodup) (hQ : ∀ v ∈ Q, v ∈ bn.names)
    (hroom : (a + b) * (bn.length + ev.length) + bn.bucketRoundings ev Q ≤ 1021) :
    ∃ r, VE.bucketMarginalsR (.double over tree) so bn Q ev none = .ok r ∧ r.WF bn.card ∧
      (∀ v ∈ r.variableOrder, r.values.get? v = some (bn.lab v)) ∧
      (∀ v, v ∈ r.variableOrder ↔ v ∈ Q) ∧ ∀ σ, Legal bn.card Q σ → 0 ≤ r.eval σ ∧
        (r.eval σ = 0 ↔ posterior bn ev Q σ = 0) ∧
        |r.eval σ - posterior bn ev Q σ| ≤ 1 / 2 ^ 42 * posterior bn ev Q σ := by
  obtain ⟨h2, h3⟩ := double_room hroom
  have hA := Arith.double_accurate over ht
  obtain ⟨r, r1, r2, r3, r4, r5⟩ := C87_bucket_default hA so bn hc hl ev he (by positivity)
    (double_small a) (one_le_pow₀ (by norm_num)) hp hpe Q hQn hQ h2
  refine ⟨r, r1, r2, r3, r4, fun σ hσ => ?_⟩
  have hn := r5 σ hσ
  refine ⟨hn.nonneg hA.lt_one, hn.zero_iff hA.lt_one, (hn.abs_le hA.nonneg hA.lt_one ?_).trans ?_⟩
  · refine h3.trans ?_
    norm_num
  · refine mul_le_mul_of_nonneg_right ?_ hn.1
    rw [mul_assoc]
    calc _ ≤ 2 * (1 / 2 ^ 43 : ℚ) := mul_le_mul_of_nonneg_left h3 (by norm_num)
      _ = 1 / 2 ^ 42 := by norm_num

/-! ## Examples -/

namespace Ex

/-- sums are computed from left to right -/
def leftTree : List ℚ → SumTree
  | [] => .leaf 0
  | x :: l => l.foldl (fun t y => .node t (.leaf y)) (.leaf x)

theorem leftTree_sums : SumsUp leftTree := by
  have key : ∀ (l : List ℚ) (t : SumTree),
      (l.foldl (fun t y => SumTree.node t (.leaf y)) t).leaves = t.leaves ++ l := by
    intro l
    induction l with
    | nil => simp
    | cons y l ih => intro t; rw [List.foldl_cons, ih]; simp [SumTree.leaves]
  intro l hl
  cases l with
  | nil => exact absurd rfl hl
  | cons x l => rw [leftTree, key]; exact .refl _

theorem bn_entries : bn.EntriesIn (1 / 2 ^ 4) (2 ^ 1) := by
  unfold BN.EntriesIn Entries
  decide +kernel

theorem ev_entries : EvidenceIn (1 / 2 ^ 4) (2 ^ 1) ev := by
  intro v l h x hx
  simp only [ev, List.mem_cons, List.not_mem_nil, or_false, Prod.mk.injEq, Evidence.soft.injEq,
    reduceCtorEq, and_false, false_or] at h
  obtain ⟨_, rfl⟩ := h
  simp only [List.mem_cons, List.not_mem_nil, or_false] at hx
  rcases hx with rfl | rfl | rfl <;> norm_num

/-- one node with two outcomes, one of them very unlikely -/
def faint : BN := [⟨"a", .discrete, ["t", "f"], [], [], [], ⟨[2], [1 / 2 ^ 600, 1], rfl⟩, false⟩]

/-- evidence that is likely only for the unlikely outcome -/
def faintEv : Dict Evidence := [("a", .soft [1 / 2 ^ 600, 0])]

end Ex

-- values that Python prints as 0.1, 0.2 and 0.30000000000000004
example : toDouble id (1 / 10) = 3602879701896397 / 36028797018963968 ∧
    (Arith.double id Ex.leftTree).add (toDouble id (1 / 10)) (toDouble id (1 / 5)) =
      1351079888211149 / 4503599627370496 := by decide +kernel
-- the smallest double, and half of it
example : toDouble id (1 / 2 ^ 1074) = 1 / 2 ^ 1074 ∧ toDouble id (1 / 2 ^ 1075) = 0 := by decide +kernel
example := C87_naive_double id Ex.leftTree_sums .insertion Ex.bn Ex.bn_consistent Ex.ev Ex.ev_legal
  Ex.bn_entries Ex.ev_entries ["a", "c"] (by decide) (by decide +kernel)
example := C87_bucket_double id Ex.leftTree_sums .insertion Ex.bn Ex.bn_consistent Ex.bn_linked Ex.ev
  Ex.ev_legal Ex.bn_entries Ex.ev_entries ["b"] (by decide) (by decide)
  (by decide +kernel)
example := C87_bucket (Arith.double_accurate id Ex.leftTree_sums) .insertion Ex.bn Ex.bn_consistent Ex.ev
  Ex.ev_legal (by norm_num) (by norm_num) (by norm_num) Ex.bn_entries Ex.ev_entries ["c", "a"] (by decide)
  (by decide) (double_room (by decide +kernel)).1 ["c", "b", "d", "a"] (by decide)
-- the answers in double precision differ from the exact ones
example : (VE.naiveMarginalsR (.double id Ex.leftTree) .insertion Ex.bn ["a"] Ex.ev).map
    (fun r => r.potentials.data) ≠
      (VE.naiveMarginals .insertion Ex.bn ["a"] Ex.ev).map (fun r => r.potentials.data) := by
  decide +kernel

/-- **C87 needs room**: in double precision the answer to a legal query about a network and a possible
observation can be a table of zeros, although the posterior probability of the first outcome is one.  All
numbers are doubles with full precision. -/
theorem C87_room_refuted : Ex.faint.Consistent ∧ LegalEvidence Ex.faint Ex.faintEv ∧
    Ex.faint.EntriesIn (1 / 2 ^ 600) 1 ∧ EvidenceIn (1 / 2 ^ 600) 1 Ex.faintEv ∧
    (VE.naiveMarginalsR (.double id Ex.leftTree) .insertion Ex.faint ["a"] Ex.faintEv).map
      (fun r => r.potentials.data) = .ok [0, 0] ∧
    (VE.naiveMarginals .insertion Ex.faint ["a"] Ex.faintEv).map (fun r => r.potentials.data) = .ok [1, 0] := by
  refine ⟨?_, ?_, ?_, ?_, ?_, ?_⟩
  · constructor <;> decide +kernel
  · constructor
    · decide
    · decide
    · intro v x h
      simp [Ex.faintEv] at h
    · intro v l h
      simp only [Ex.faintEv, List.mem_singleton, Prod.mk.injEq, Evidence.soft.injEq] at h
      obtain ⟨rfl, rfl⟩ := h
      simp [Ex.faint, BN.card, BN.lab]
  · unfold BN.EntriesIn Entries
    decide +kernel
  · intro v l h
    simp only [Ex.faintEv, List.mem_singleton, Prod.mk.injEq, Evidence.soft.injEq] at h
    obtain ⟨rfl, rfl⟩ := h
    unfold Entries
    decide +kernel
  · decide +kernel
  · decide +kernel

end Primo
