import Verif.Network

/-!
# Specification vocabulary: consistent states of the mutable network
-/

namespace Primo
namespace Net

/-- the parent names stored by the node called `k` (none if there is no such node) -/
def parentsOf (s : Net) (k : Name) : List Name :=
  match s.lookup.get? k with
  | some i => (s.heap i).parentOrder
  | none => []

/-- the outcomes of the node called `k` -/
def labels (s : Net) (k : Name) : List Val :=
  match s.lookup.get? k with
  | some i => (s.heap i).values
  | none => []

/-- What a user takes for granted about a network (property C30): `get_node(n).name == n`; graph and
lookup hold the same node objects; each node's parent list is duplicate-free and equals the graph's
incoming edges, which mirror the outgoing ones; every parent entry and every adjacency entry is the
network's own node object; every table has one axis per variable, of the right length. -/
structure Coherent (s : Net) : Prop where
  nodup : s.lookup.keys.Nodup
  name : ∀ k i, s.getNode k = .ok i → (s.heap i).name = k
  graph : s.gnode = s.lookup
  adjacency : s.succ.keys = s.lookup.keys ∧ s.pred.keys = s.lookup.keys
  incoming : ∀ k i, s.getNode k = .ok i →
    (s.heap i).parentOrder.Nodup ∧ (s.heap i).parentOrder.Perm (s.predOf k).keys
  mirror : ∀ a b, b ∈ (s.succOf a).keys ↔ a ∈ (s.predOf b).keys
  own_succ : ∀ a b j, (b, j) ∈ s.succOf a → s.getNode b = .ok j
  own_pred : ∀ a b j, (a, j) ∈ s.predOf b → s.getNode a = .ok j
  own_parents : ∀ k i, s.getNode k = .ok i →
    (s.heap i).parents.keys.Perm (s.heap i).parentOrder ∧
    ∀ p j, (p, j) ∈ (s.heap i).parents → s.getNode p = .ok j
  shape : ∀ k i, s.getNode k = .ok i → (s.heap i).cpd.shape =
    (if (s.heap i).values = [] then [] else [(s.heap i).values.length]) ++
      (s.heap i).parentOrder.map fun p => (s.labels p).length

/-- The calls for which the code keeps the network coherent.  Excluded (each refuted in
`Verif.Props.Network`): adding an object that still has parents from an earlier life, adding an edge
that already exists or starts at a utility node, removing a node that has a decision or utility
child, renaming to a name in use, and renaming by node object. -/
def Good (s : Net) : Op → Prop
  | .addNode i => (s.heap i).parentOrder = []
  | .addEdge a b => a ∉ s.parentsOf b ∧ ∀ i, s.lookup.get? a = some i → (s.heap i).kind ≠ .utility
  | .removeNode k => ∀ c j, s.lookup.get? c = some j → k ∈ (s.heap j).parentOrder →
      (s.heap j).kind = .discrete
  | .changeName old new byObj => new = old ∨ (new ∉ s.lookup.keys ∧ byObj = false)
  | _ => True

/-- a history of good calls -/
def GoodRun : List Op → Net → Prop
  | [], _ => True
  | op :: ops, s => Good s op ∧ GoodRun ops (step op s).1

/-- object `i` is a node of the network -/
def InNet (s : Net) (i : Nat) : Prop := ∃ k, s.getNode k = .ok i

/-- A state on which inference makes sense: chance and decision nodes only, each with outcomes, and
no node is its own parent. -/
def Usable (s : Net) : Prop := ∀ k i, s.getNode k = .ok i →
  (s.heap i).kind ≠ .utility ∧ (s.heap i).values ≠ [] ∧ k ∉ (s.heap i).parentOrder

/-- The structure a table depends on: the node's outcomes and, in order, its parent objects with
their outcomes. -/
def signature (s : Net) (i : Nat) : List Val × List (Option (Nat × List Val)) :=
  ((s.heap i).values, (s.heap i).parentOrder.map fun p =>
    ((s.heap i).parents.get? p).map fun j => (j, (s.heap j).values))

/-- `op` replaces the whole table of object `i`. -/
def Op.SetsTable (i : Nat) : Op → Prop
  | .setCpd j _ => j = i
  | .setUtilities j _ => j = i
  | _ => False

/-- `op` writes entries of the table of object `i`. -/
def Op.WritesTable (i : Nat) : Op → Prop
  | .setCpd j _ => j = i
  | .setProbability j _ _ _ => j = i
  | .setUtilities j _ => j = i
  | .setUtility j _ _ => j = i
  | .setDecision j _ => j = i
  | .fullyMixed j => j = i
  | _ => False

end Net
end Primo
