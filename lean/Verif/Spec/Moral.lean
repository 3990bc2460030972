import Verif.Spec.Graph
import Mathlib.Data.List.Perm.Basic

/-!
# Specification vocabulary: moral graph, perfect elimination orders, connected networks

Independent of how `exact.py` builds its cluster list.
-/

namespace Primo

/-- the variables of a node's table: itself and its parents -/
def NodeV.family (n : NodeV) : List Name := n.name :: n.parentOrder

/-- adjacency in the moral graph: two different variables of one table -/
def BN.Moral (bn : BN) (u v : Name) : Prop := u ≠ v ∧ ∃ n ∈ bn, u ∈ n.family ∧ v ∈ n.family

/-- When a variable is eliminated its remaining neighbours are pairwise adjacent, so no fill-in edge
is needed. -/
def Perfect (adj : Name → Name → Prop) (order : List Name) : Prop :=
  ∀ o1 v o2, order = o1 ++ v :: o2 → ∀ x ∈ o2, ∀ y ∈ o2, adj v x → adj v y → x ≠ y → adj x y

/-- any two nodes are connected by a path of arcs, in whatever direction -/
def BN.Connected (bn : BN) : Prop :=
  ∀ u ∈ bn.names, ∀ v ∈ bn.names, u ≠ v → Via bn.Skel bn.names u v

/-- the `parents` dictionary and the parent order of each node list the same parents -/
def BN.Recorded (bn : BN) : Prop := ∀ n ∈ bn, ∀ p, p ∈ n.parents.keys ↔ p ∈ n.parentOrder

/-- Different lists of these names have different concatenations. -/
def UniqueJoin (names : List Name) : Prop :=
  ∀ l l' : List Name, (∀ x ∈ l, x ∈ names) → (∀ x ∈ l', x ∈ names) →
    String.join l = String.join l' → l = l'

end Primo
