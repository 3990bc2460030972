import Verif.Factor

/-!
# Networks as inference sees them

A `BN` is the list of node snapshots of a `BayesianNetwork`, in the common iteration order of
`node_lookup` and `graph` (`/repo/primo2/networks.py:28-46`).  How API operations produce such
states is modelled in `Verif.Network`.
-/

namespace Primo

/-- snapshot of `BayesianNetwork` -/
abbrev BN := List NodeV

namespace BN

/-- `get_all_node_names` : `networks.py:128-129` -/
def names (bn : BN) : List Name := bn.map NodeV.name

/-- `get_node` : `networks.py:68-73` (raises a plain `Exception`). -/
def getNode (bn : BN) (v : Name) : Except PyErr NodeV :=
  match bn.find? (fun n => n.name = v) with
  | some n => .ok n
  | none => .error .exception

end BN

/-- An undirected networkx `Graph`: adjacency lists in insertion order
(`Graph._adj`, networkx 2). -/
abbrev UGraph := Dict (List Name)

namespace UGraph

/-- `G.nodes` -/
def nodes (g : UGraph) : List Name := g.keys

/-- `G[v]` / `G.neighbors(v)` (empty if `v` is absent; callers only pass nodes of `g`) -/
def nbrs (g : UGraph) (v : Name) : List Name := (g.get? v).getD []

/-- one direction of `add_edge` -/
def addArc (g : UGraph) (u v : Name) : UGraph :=
  if v ∈ g.nbrs u then g else g.set u (g.nbrs u ++ [v])

/-- `G.add_edge(u, v)` for `u`, `v` in `G` -/
def addEdge (g : UGraph) (u v : Name) : UGraph := (g.addArc u v).addArc v u

/-- `G.remove_node(v)` -/
def removeNode (g : UGraph) (v : Name) : UGraph :=
  (g.erase v).map fun p => (p.1, p.2.erase v)

/-- `G.degree()[v]`: a self loop counts twice -/
def degree (g : UGraph) (v : Name) : Nat :=
  (g.nbrs v).length + if v ∈ g.nbrs v then 1 else 0

end UGraph

/-- `bn.graph.to_undirected()`: the nodes in graph order, then every arc `u → child` in graph
order. -/
def BN.toUndirected (bn : BN) : UGraph :=
  bn.foldl (fun g n => n.children.foldl (fun g c => g.addEdge n.name c) g)
    (bn.names.map fun v => (v, []))

end Primo
