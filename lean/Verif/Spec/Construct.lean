import Verif.Spec.NetState
import Verif.Spec.Network
import Verif.Spec.Moral

/-! # Specification vocabulary: programs that build a given network -/

namespace Primo

/-- no call of the history raises -/
def Net.AllOk : List Net.Op → Net → Prop
  | [], _ => True
  | op :: ops, s => (Net.step op s).2 = none ∧ AllOk ops (Net.step op s).1

/-- the same node, up to the order in which the dictionaries of parents and children are listed -/
structure NodeV.Same (n n' : NodeV) : Prop where
  name : n.name = n'.name
  kind : n.kind = n'.kind
  values : n.values = n'.values
  order : n.parentOrder = n'.parentOrder
  cpd : n.cpd = n'.cpd
  plain : n.plain = n'.plain
  parents : n.parents.Perm n'.parents
  children : n.children.Perm n'.children

/-- the same nodes in the same order -/
def SameNodes (bn bn' : BN) : Prop := List.Forall₂ NodeV.Same bn bn'

/-- What a network has to be for inference to make sense: consistent, with the graph and the dictionaries of
parents in agreement with the parent lists, and every variable with an outcome. -/
structure BN.Proper (bn : BN) : Prop where
  consistent : bn.Consistent
  linked : bn.Linked
  recorded : bn.Recorded
  dict : ∀ n ∈ bn, n.parents.keys.Nodup
  values : ∀ n ∈ bn, n.values ≠ []

/-- The arcs `(parent, child)` of the network, in some order in which the parents of each node come in the order
of the node's table. -/
structure BN.Arcs (bn : BN) (es : List (Name × Name)) : Prop where
  into : ∀ e ∈ es, e.2 ∈ bn.names
  order : ∀ n ∈ bn, (es.filter fun e => decide (e.2 = n.name)).map Prod.fst = n.parentOrder

/-- The obvious program: construct the nodes, add them, add the arcs `es`, and set the tables of the nodes
numbered `ts`. -/
def BN.program (bn : BN) (es : List (Name × Name)) (ts : List Nat) : List Net.Op :=
  bn.map (fun n => Net.Op.create .discrete n.name n.values) ++
    ((List.range bn.length).map Net.Op.addNode ++
      (es.map (fun e => Net.Op.addEdge e.1 e.2) ++
        ts.filterMap fun i => bn[i]?.map fun n => Net.Op.setCpd i n.cpd))

end Primo
