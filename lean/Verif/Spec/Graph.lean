import Verif.BN

/-!
# Specification vocabulary: the skeleton of a network and elimination with fill-in

Independent of how `order.py` manipulates its interaction graph.
-/

namespace Primo

/-- The `succ` dictionaries of the graph agree with the nodes' parent lists. -/
structure BN.Linked (bn : BN) : Prop where
  nodup : ∀ n ∈ bn, n.children.Nodup
  iff : ∀ n ∈ bn, ∀ c, c ∈ n.children ↔ ∃ m ∈ bn, m.name = c ∧ n.name ∈ m.parentOrder

/-- `p` is a parent of `v` -/
def BN.IsParent (bn : BN) (p v : Name) : Prop := ∃ n ∈ bn, n.name = v ∧ p ∈ n.parentOrder

/-- adjacency in the undirected skeleton -/
def BN.Skel (bn : BN) (u v : Name) : Prop := bn.IsParent u v ∨ bn.IsParent v u

/-- `Via adj E u v`: there is an `adj`-path from `u` to `v` all of whose inner nodes are in `E`. -/
inductive Via (adj : Name → Name → Prop) (E : List Name) : Name → Name → Prop
  | base {u v : Name} : adj u v → Via adj E u v
  | step {u w v : Name} : adj u w → w ∈ E → Via adj E w v → Via adj E u v

open Classical in
/-- The degree of `u` once the nodes `E` have been eliminated with fill-in: the number of remaining
other nodes that `u` is connected to through eliminated ones. -/
noncomputable def elimDegree (names : List Name) (adj : Name → Name → Prop) (E : List Name)
    (u : Name) : Nat :=
  (names.filter fun w => w ∉ E ∧ w ≠ u ∧ Via adj E u w).length

/-- `v` is the first node, in network order, of minimal degree among the nodes outside `E`. -/
def MinDegree (names : List Name) (adj : Name → Name → Prop) (E : List Name) (v : Name) : Prop :=
  ∀ u ∈ names, u ∉ E → elimDegree names adj E v < elimDegree names adj E u ∨
    (elimDegree names adj E v = elimDegree names adj E u ∧ names.idxOf v ≤ names.idxOf u)

end Primo
