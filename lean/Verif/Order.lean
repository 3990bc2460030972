import Verif.BN

/-! # `primo2/inference/order.py` -/

namespace Primo
namespace Orderer

/-- `sorted(degrees.items(), key=itemgetter(1))[0][0]` (`order.py:53-54`): the first node, in graph
order, of minimal degree. -/
def pickMin (g : UGraph) : List Name → Option Name
  | [] => none
  | v :: vs =>
    match pickMin g vs with
    | none => some v
    | some w => if g.degree v ≤ g.degree w then some v else some w

/-- lines 56-61: connect all neighbours of `v` with each other. -/
def fillIn (g : UGraph) (v : Name) : UGraph :=
  (g.nbrs v).foldl (fun g p =>
    (g.nbrs v).foldl (fun g p2 => if p ≠ p2 ∧ p2 ∉ g.nbrs p then g.addEdge p p2 else g) g) g

/-- one round of the loop (lines 52-62): the node eliminated and the graph left -/
def elimStep (g : UGraph) : Except PyErr (Name × UGraph) :=
  match pickMin g g.nodes with
  | none => .error .indexError
  | some v => .ok (v, (fillIn g v).removeNode v)

/-- `n` rounds -/
def elimLoop : Nat → UGraph → Except PyErr (List Name)
  | 0, _ => .ok []
  | n + 1, g => do
    let (v, g') ← elimStep g
    let rest ← elimLoop n g'
    return v :: rest

/-- `get_min_degree_order` (`order.py:32-80`).  The type check of lines 47-48 always succeeds here. -/
def minDegreeOrder (bn : BN) : Except PyErr (List Name) :=
  elimLoop bn.names.length bn.toUndirected

/-- `get_random_order` (`order.py:83-104`).  In Python 3 the result is a `dict_keys` view, here the
list of its elements. -/
def randomOrder (bn : BN) : List Name := bn.names

end Orderer
end Primo
