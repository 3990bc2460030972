import Verif.Spec.Fit

/-! # Specification vocabulary: the same model written down differently -/

namespace Primo

/-- the positions of the outcomes `α` -/
def BN.index (bn : BN) (α : Name → Val) : Assign := fun v => (bn.lab v).idxOf (α v)

/-- `α` names an outcome of every variable in `vs` -/
def BN.Outcomes (bn : BN) (vs : List Name) (α : Name → Val) : Prop := ∀ v ∈ vs, α v ∈ bn.lab v

/-- The two networks have the same variables, every variable has the same outcomes and the same parents, and
the tables have the same entries for the same outcomes.  The order of the nodes, of the outcomes of a variable
and of the parents of a node may differ. -/
structure Rewritten (bn bn' : BN) : Prop where
  names : bn.names.Perm bn'.names
  labels : ∀ v ∈ bn.names, (bn.lab v).Perm (bn'.lab v)
  distinct : ∀ v ∈ bn.names, (bn.lab v).Nodup
  parents : ∀ n ∈ bn, ∀ n' ∈ bn', n.name = n'.name → n.parentOrder.Perm n'.parentOrder
  entries : ∀ n ∈ bn, ∀ n' ∈ bn', n.name = n'.name → ∀ α, bn.Outcomes (n.name :: n.parentOrder) α →
    n.entry (bn.index α) = n'.entry (bn'.index α)

/-- the two pieces of evidence give the same likelihood to every outcome of every variable -/
def SameEvidence (bn bn' : BN) (ev ev' : Dict Evidence) : Prop :=
  ∀ v ∈ bn.names, ∀ x ∈ bn.lab v,
    likAt bn ev v ((bn.lab v).idxOf x) = likAt bn' ev' v ((bn'.lab v).idxOf x)

/-- the two tables have the same entries for the same outcomes of the variables in `Q` -/
def SameByLabel (bn bn' : BN) (Q : List Name) (f f' : Factor) : Prop :=
  (∀ v, v ∈ f.variableOrder ↔ v ∈ f'.variableOrder) ∧
  ∀ α, bn.Outcomes Q α → f.eval (bn.index α) = f'.eval (bn'.index α)

end Primo
