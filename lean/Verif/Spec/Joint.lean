import Verif.Spec.Network
import Verif.Spec.Graph
import Mathlib.Logic.Relation

/-! # Specification vocabulary: probability tables, acyclic networks, one-hot evidence -/

namespace Primo

/-- No node is its own ancestor. -/
def BN.Acyclic (bn : BN) : Prop := ∀ v, ¬ Relation.TransGen bn.IsParent v v

/-- Every column of every table sums to one. -/
def BN.Stochastic (bn : BN) : Prop := ∀ n ∈ bn, ∀ σ : Assign, Legal bn.card n.parentOrder σ →
  ∑ i ∈ Finset.range n.values.length, n.cpd.get (i :: n.parentOrder.map σ) = 1

/-- All table entries are non-negative. -/
def BN.NonNeg (bn : BN) : Prop := ∀ n ∈ bn, ∀ x ∈ n.cpd.data, 0 ≤ x

/-- All likelihoods are non-negative. -/
def NonNegEvidence (ev : Dict Evidence) : Prop := ∀ v l, (v, Evidence.soft l) ∈ ev → ∀ x ∈ l, 0 ≤ x

/-- the array with 1 at (the first position of) `x` and 0 elsewhere -/
def oneHot (values : List Val) (x : Val) : List ℚ :=
  (List.range values.length).map fun i =>
    if values[i]? = some x ∧ ∀ j < i, values[j]? ≠ some x then 1 else 0

/-- `ev'` is `ev` with some hard observations replaced by one-hot arrays. -/
def OneHotVariant (bn : BN) (ev ev' : Dict Evidence) : Prop :=
  List.Forall₂ (fun p q => p.1 = q.1 ∧
    (p.2 = q.2 ∨ ∃ x ∈ bn.lab p.1, p.2 = .hard x ∧ q.2 = .soft (oneHot (bn.lab p.1) x))) ev ev'

/-- product of all table entries -/
def joint (bn : BN) (σ : Assign) : ℚ := (bn.map fun n => n.entry σ).prod

end Primo
