import Verif.Rounded
import Verif.Spec.Network
import Mathlib.Algebra.Order.AbsoluteValue.Basic
import Mathlib.Data.Rat.Defs

/-! # Specification vocabulary: arithmetic with bounded relative error -/

namespace Primo

/-- a way to add up numbers -/
inductive SumTree
  | leaf (x : ℚ)
  | node (l r : SumTree)

namespace SumTree

/-- the numbers added up -/
def leaves : SumTree → List ℚ
  | leaf x => [x]
  | node l r => l.leaves ++ r.leaves

/-- the result, if two numbers are added with `add` -/
def eval (add : ℚ → ℚ → ℚ) : SumTree → ℚ
  | leaf x => x
  | node l r => add (l.eval add) (r.eval add)

end SumTree

/-- Arithmetic with relative error at most `u` per operation (the standard model of floating point
arithmetic without over- and underflow; IEEE 754 doubles: `u = 2⁻⁵³`).  `np.sum` adds the numbers in an
arbitrary order. -/
structure Arith.Accurate (A : Arith) (u : ℚ) : Prop where
  nonneg : 0 ≤ u
  lt_one : u < 1
  add : ∀ a b, |A.add a b - (a + b)| ≤ u * |a + b|
  mul : ∀ a b, |A.mul a b - a * b| ≤ u * |a * b|
  div : ∀ a b, b ≠ 0 → |A.div a b - a / b| ≤ u * |a / b|
  sum_nil : A.sum [] = 0
  sum : ∀ l, l ≠ [] → ∃ t : SumTree, t.leaves.Perm l ∧ A.sum l = t.eval A.add

/-- `x` is within `k` roundings of the non-negative number `y`. -/
def Near (u : ℚ) (k : Nat) (x y : ℚ) : Prop :=
  0 ≤ y ∧ y * (1 - u) ^ k ≤ x ∧ x * (1 - u) ^ k ≤ y

/-- The two calls raise the same exception, or both return tables of the same shape over the same variables
with the same outcomes, with each entry of the first within `k` roundings of that of the second. -/
def SameUpTo (u : ℚ) (k : Nat) (x y : Except PyErr Factor) : Prop :=
  (∀ e, x = .error e ↔ y = .error e) ∧ ∀ f g, x = .ok f → y = .ok g →
    f.variableOrder = g.variableOrder ∧ f.values = g.values ∧
    f.potentials.shape = g.potentials.shape ∧
    List.Forall₂ (Near u k) f.potentials.data g.potentials.data

/-- the number of additions in each sum over all variables outside `Q`, one variable after the other -/
def BN.additions (bn : BN) (Q : List Name) : Nat :=
  ((bn.names.filter fun v => decide (v ∉ Q)).map fun v => bn.card v - 1).sum

/-- the number of entries of a table over `Q` -/
def BN.tableSize (bn : BN) (Q : List Name) : Nat := ∏ v ∈ Q.toFinset, bn.card v

/-- how many roundings `naive_marginals` puts into one entry of its result: one multiplication per node
and per observation, the additions, and all this once more in the sum it divides by -/
def BN.naiveRoundings (bn : BN) (ev : Dict Evidence) (Q : List Name) : Nat :=
  2 * (bn.length + ev.length + bn.additions Q) + bn.tableSize Q

/-- how many roundings `bucket_marginals` puts into one entry of its result: one multiplication more
per bucket -/
def BN.bucketRoundings (bn : BN) (ev : Dict Evidence) (Q : List Name) : Nat :=
  2 * (2 * bn.length + ev.length + bn.additions Q) + bn.tableSize Q

end Primo
