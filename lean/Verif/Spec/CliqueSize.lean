import Verif.Spec.JoinTree
import Verif.Spec.Moral

/-!
# Specification vocabulary: which cliques a factor tree should have

Independent of how `exact.py` builds its cluster list.
-/

namespace Primo

/-- `x` comes after `v` in the list -/
def Later (order : List Name) (v x : Name) : Prop := [v, x].Sublist order

/-- what is left around `v` when it is its turn in the elimination order: `v` and its neighbours in
the moral graph that come later (no fill-in edges) -/
def BN.Bucket (bn : BN) (order : List Name) (v x : Name) : Prop :=
  x = v ∨ (Later order v x ∧ bn.Moral v x)

/-- a family that is not properly contained in another one -/
def BN.MaxFamily (bn : BN) (n : NodeV) : Prop :=
  n ∈ bn ∧ ∀ m ∈ bn, (∀ x ∈ n.family, x ∈ m.family) → ∀ x ∈ m.family, x ∈ n.family

end Primo
