import Verif.Spec.Rounded
import Verif.Spec.Joint
import Mathlib.Data.Int.Log
import Mathlib.Data.Rat.Floor

/-! # Specification vocabulary: arithmetic with a limited range of numbers -/

namespace Primo

/-- the number is zero, or neither too small nor too large -/
def Representable (δ x : ℚ) : Prop := x = 0 ∨ δ ≤ |x| ∧ |x| * δ ≤ 1

/-- Arithmetic with relative error at most `u` for the results between `δ` and `1 / δ`; nothing is said
about the operations whose exact result is outside this range (IEEE 754 doubles: `u = 2⁻⁵³`,
`δ = 2⁻¹⁰²²`; they may be flushed to zero, be denormalised, or be too large). -/
structure Arith.AccurateWithin (A : Arith) (u δ : ℚ) : Prop where
  nonneg : 0 ≤ u
  lt_one : u < 1
  add : ∀ a b, Representable δ (a + b) → |A.add a b - (a + b)| ≤ u * |a + b|
  mul : ∀ a b, Representable δ (a * b) → |A.mul a b - a * b| ≤ u * |a * b|
  div : ∀ a b, b ≠ 0 → Representable δ (a / b) → |A.div a b - a / b| ≤ u * |a / b|
  sum_nil : A.sum [] = 0
  sum : ∀ l, l ≠ [] → ∃ t : SumTree, t.leaves.Perm l ∧ A.sum l = t.eval A.add

/-- every number that is not zero lies between `m` and `M` -/
def Entries (m M : ℚ) (l : List ℚ) : Prop := ∀ x ∈ l, x = 0 ∨ m ≤ x ∧ x ≤ M

/-- the numbers in the tables of the network that are not zero lie between `m` and `M` -/
def BN.EntriesIn (bn : BN) (m M : ℚ) : Prop := ∀ n ∈ bn, Entries m M n.cpd.data

/-- the likelihoods of the soft evidence that are not zero lie between `m` and `M` -/
def EvidenceIn (m M : ℚ) (ev : Dict Evidence) : Prop :=
  ∀ v l, (v, Evidence.soft l) ∈ ev → Entries m M l

/-! ## Double precision -/

/-- half the distance between one and the next double -/
def doubleError : ℚ := 1 / 2 ^ 53

/-- the smallest double with full precision -/
def doubleMin : ℚ := 1 / 2 ^ 1022

/-- the nearest integer, of two the even one -/
def roundEven (z : ℚ) : ℤ :=
  if z - ⌊z⌋ < 1 / 2 then ⌊z⌋
  else if 1 / 2 < z - ⌊z⌋ then ⌊z⌋ + 1
  else if ⌊z⌋ % 2 = 0 then ⌊z⌋ else ⌊z⌋ + 1

/-- the distance between the doubles around `x`: 53 significant bits, exponents from `-1022` -/
def ulp (x : ℚ) : ℚ := 2 ^ (max (Int.log 2 |x|) (-1022) - 52)

/-- The IEEE 754 double for `x`, rounded to nearest even, with denormalised numbers.  What becomes of
numbers above `2 ^ 1023` is left open (`over`). -/
def toDouble (over : ℚ → ℚ) (x : ℚ) : ℚ :=
  if 2 ^ 1023 < |x| then over x else roundEven (x / ulp x) * ulp x

/-- Double precision arithmetic; `tree` is the order in which `np.sum` adds the numbers. -/
def Arith.double (over : ℚ → ℚ) (tree : List ℚ → SumTree) : Arith where
  add a b := toDouble over (a + b)
  mul a b := toDouble over (a * b)
  div a b := toDouble over (a / b)
  sum l := if l = [] then 0 else (tree l).eval fun a b => toDouble over (a + b)

/-- the numbers added up in `tree l` are those of `l` -/
def SumsUp (tree : List ℚ → SumTree) : Prop := ∀ l, l ≠ [] → (tree l).leaves.Perm l

end Primo
