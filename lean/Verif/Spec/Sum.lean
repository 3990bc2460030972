import Verif.Factor
import Mathlib.Algebra.BigOperators.Ring.Finset
import Mathlib.Data.Finset.Pi

/-!
# Specification vocabulary: assignments and sums over assignments

This file does not refer to how the code computes anything.
-/

namespace Primo

/-- An instantiation of the variables: for each variable the index of its outcome. -/
abbrev Assign := Name → Nat

/-- `σ` gives every variable of `vs` one of its `card v` outcomes. -/
def Legal (card : Name → Nat) (vs : List Name) (σ : Assign) : Prop := ∀ v ∈ vs, σ v < card v

/-- `Σ F(σ')` over all `σ'` that agree with `σ` outside `s` and give each variable `v ∈ s` one of
its `card v` outcomes. -/
def sumOver (card : Name → Nat) (s : Finset Name) (F : Assign → ℚ) (σ : Assign) : ℚ :=
  ∑ τ ∈ s.pi (fun v => Finset.range (card v)), F (fun v => if h : v ∈ s then τ v h else σ v)

/-- The potential a factor stores for the instantiation `σ`. -/
def Factor.eval (f : Factor) (σ : Assign) : ℚ := f.potentials.get (f.variableOrder.map σ)

/-- A well-formed factor: distinct variables, labels for exactly these variables, one table axis
per variable with one position per outcome. -/
structure Factor.WF (card : Name → Nat) (f : Factor) : Prop where
  nodup : f.variableOrder.Nodup
  keys : f.values.keys.Perm f.variableOrder
  labels : ∀ v ∈ f.variableOrder, ∃ vs, f.values.get? v = some vs ∧ vs.length = card v
  shape : f.potentials.shape = f.variableOrder.map card

/-- Two factors describe the same function: same scope (as a set) and same potential at every legal
instantiation. -/
def SameTable (card : Name → Nat) (f g : Factor) : Prop :=
  (∀ v, v ∈ f.variableOrder ↔ v ∈ g.variableOrder) ∧
  ∀ σ, Legal card f.variableOrder σ → f.eval σ = g.eval σ

end Primo
