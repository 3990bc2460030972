import Verif.Exact

/-!
# `FactorTree` in `primo2/inference/exact.py`

The tree is a networkx `Graph` whose nodes are strings (the concatenated variable names of a
cluster).  A call returns the new state and the exception it raised, if any.  `limit` is the number
of nested calls Python still allows (`RecursionError` beyond that).
-/

namespace Primo

/-- data of a tree node: `exact.py:242-248`.  `vars` is the Python set `variables` (it is only
iterated over through set differences, see `SetOrder`). -/
structure JNode where
  vars : List Name
  factor : Factor
  deriving DecidableEq

/-- data of a tree edge: `exact.py:253-255` -/
structure JEdge where
  u : Name
  w : Name
  sep : List Name
  factor : Factor
  deriving DecidableEq

/-- does the edge join these two nodes (in either order)? -/
def JEdge.joins (e : JEdge) (a b : Name) : Bool := (e.u == a && e.w == b) || (e.u == b && e.w == a)

/-- `FactorTree.tree`: nodes with data, adjacency, edge data, `graph["messagesValid"]`. -/
structure JTree where
  nodes : Dict JNode
  adj : UGraph
  edges : List JEdge
  valid : Bool
  deriving DecidableEq

/-- state after a call and the exception raised by it -/
abbrev JRes := JTree × Option PyErr

/-- sequencing: stop at the first exception -/
def JRes.andThen (r : JRes) (f : JTree → JRes) : JRes :=
  match r.2 with
  | none => f r.1
  | some _ => r

/-- `for x in l: f(x)` -/
def JRes.forEach {α : Type} (f : α → JTree → JRes) : List α → JTree → JRes
  | [], t => (t, none)
  | x :: l, t => (f x t).andThen (JRes.forEach f l)

/-- a step that either replaces the state or raises without changing it -/
def JRes.ofExcept (t : JTree) : Except PyErr JTree → JRes
  | .ok t' => (t', none)
  | .error e => (t, some e)

/-! ## `create_jointree` -/

namespace JoinTree

/-- `exact.py:201-209`: the undirected graph with edges between the parents of each node. -/
def moralGraph (bn : BN) : UGraph :=
  bn.foldl (fun g n => n.parents.keys.foldl (fun g p => n.parents.keys.foldl (fun g p2 =>
    if p ≠ p2 then g.addEdge p p2 else g) g) g) bn.toUndirected

/-- `exact.py:212-216`: each variable with its remaining neighbours (no edges are added between
these); `NetworkXError` for a name that is not in the graph. -/
def clusters : List Name → UGraph → Except PyErr (List (List Name))
  | [], _ => .ok []
  | v :: vs, g =>
    if v ∉ g.nodes then .error .networkXError
    else do
      let rest ← clusters vs (g.removeNode v)
      return (v :: g.nbrs v) :: rest

/-- `set(c) <= set(d)` -/
def sub (c d : List Name) : Bool := c.all fun x => d.contains x

/-- `exact.py:217-223`: for `i` from the end, the nearest earlier cluster that contains cluster
`i`. -/
def swaps (l : List (List Name)) : List (List Name × List Name) :=
  (List.range l.length).reverse.filterMap fun i =>
    ((l.take i).reverse.find? fun d => sub (l.getD i []) d).map fun d => (l.getD i [], d)

/-- `exact.py:225-229`: remove cluster `rem` and put `move` in its place; `list.remove` deletes the
first occurrence of `move`. -/
def applySwap (l : List (List Name)) (s : List Name × List Name) :
    Except PyErr (List (List Name)) := do
  let i ← pyIndex l s.1
  pyRemove ((l.erase s.1).insertIdx i s.2) s.2

/-- `"".join(cluster)` -/
def clusterName (c : List Name) : Name := String.join c

/-- `exact.py:232` -/
def emptyTree : JTree := ⟨[], [], [], false⟩

/-- `tree.add_node(name, variables=..., factor=...)`: an existing node keeps its place and edges and
gets the new data. -/
def addNode (c : List Name) (t : JTree) : JTree :=
  { t with
    nodes := t.nodes.set (clusterName c) ⟨c, Factor.trivial 1⟩
    adj := if clusterName c ∈ t.adj.nodes then t.adj else t.adj ++ [(clusterName c, [])] }

/-- `tree.add_edge(u, w, sep=..., factor=...)` -/
def addEdge (u w : Name) (sep : List Name) (t : JTree) : JTree :=
  { t with
    adj := t.adj.addEdge u w
    edges := if t.edges.any (fun e => e.joins u w) then
        t.edges.map fun e => if e.joins u w then { e with sep := sep, factor := .trivial 1 } else e
      else t.edges ++ [⟨u, w, sep, .trivial 1⟩] }

/-- `exact.py:249-250`: the variables of `c` that also occur in a later cluster -/
def shared (c : List Name) (later : List (List Name)) : List Name :=
  c.filter fun x => later.any fun d => d.contains x

/-- `exact.py:241-256`: clusters are added from the last to the first; each is connected to the
first later cluster that contains its shared variables. -/
def build : List (List Name) → JTree
  | [] => emptyTree
  | c :: cs =>
    let t := addNode c (build cs)
    match cs.find? fun d => shared c cs ≠ [] && sub (shared c cs) d with
    | some d => addEdge (clusterName c) (clusterName d) (shared c cs) t
    | none => t

/-- `exact.py:260-264, 285-289, 333-336`: multiply `f` into the first node that satisfies `p`; if
there is none nothing happens. -/
def putFirst (so : SetOrder) (p : List Name → Bool) (f : Factor) :
    Dict JNode → Except PyErr (Dict JNode)
  | [] => .ok []
  | (k, n) :: rest =>
    if p n.vars then do
      let g ← n.factor.mul so f
      return (k, { n with factor := g }) :: rest
    else do
      let r ← putFirst so p f rest
      return (k, n) :: r

/-- one round of the loops at `exact.py:260-264` and `285-289` -/
def putFactor (so : SetOrder) (f : Factor) (t : JTree) : JRes :=
  JRes.ofExcept t (do
    let ns ← putFirst so (fun vars => sub f.values.keys vars) f t.nodes
    return { t with nodes := ns })

/-- `create_jointree`: `exact.py:176-265`. -/
def create (so : SetOrder) (bn : BN) (order : Option (List Name)) : Except PyErr JTree := do
  let order ← VE.chooseOrder bn order
  let factors ← bn.mapM Factor.fromNode
  let cls ← clusters order (moralGraph bn)
  let cls ← (swaps cls).foldlM applySwap cls
  match JRes.forEach (putFactor so) factors (build cls) with
  | (t, none) => return t
  | (_, some e) => .error e

end JoinTree

/-! ## the methods -/

namespace JTree
open JRes JoinTree

/-- `tree[a][b]` (`KeyError` if there is no such edge) -/
def edge (t : JTree) (a b : Name) : Except PyErr JEdge :=
  match t.edges.find? (fun e => e.joins a b) with
  | some e => .ok e
  | none => .error .keyError

/-- `exact.py:280-283` -/
def blank (t : JTree) : JTree :=
  { t with
    nodes := t.nodes.map fun p => (p.1, { p.2 with factor := .trivial 1 })
    edges := t.edges.map fun e => { e with factor := .trivial 1 } }

/-- `reset_factors`: `exact.py:268-290`; `bn` is the current state of the network. -/
def reset (so : SetOrder) (bn : BN) (t : JTree) : JRes :=
  match bn.mapM Factor.fromNode with
  | .error e => (t, some e)
  | .ok factors => (forEach (putFactor so) factors t.blank).andThen fun t =>
      ({ t with valid := false }, none)

/-- One message from clique `a` to its neighbour `b`: `exact.py:418-421` and `443-447`. -/
def send (so : SetOrder) (a b : Name) (t : JTree) : JRes :=
  JRes.ofExcept t (do
    let na ← t.nodes.getE a
    let e ← t.edge a b
    let new ← na.factor.marginalize (so.diff na.vars e.sep)
    let nb ← t.nodes.getE b
    let q ← new.div so e.factor
    let g ← nb.factor.mul so q
    return { t with
      nodes := t.nodes.set b { nb with factor := g }
      edges := t.edges.map fun e => if e.joins a b then { e with factor := new } else e })

/-- `pull_messages`: `exact.py:396-423`.  `if parent:` is false for `None` and for `""`. -/
def pull (so : SetOrder) : Nat → Name → Option Name → JTree → JRes
  | 0, _, _, t => (t, some .recursionError)
  | d + 1, cur, parent, t =>
    (forEach (fun nb t => if parent = some nb then (t, none) else pull so d nb (some cur) t)
      (t.adj.nbrs cur) t).andThen fun t =>
        match parent with
        | none => (t, none)
        | some p => if p = "" then (t, none) else send so cur p t

/-- `push_messages`: `exact.py:425-449`. -/
def push (so : SetOrder) : Nat → Name → Option Name → JTree → JRes
  | 0, _, _, t => (t, some .recursionError)
  | d + 1, cur, parent, t =>
    forEach (fun nb t => if parent = some nb then (t, none) else
      (send so cur nb t).andThen (push so d nb (some cur))) (t.adj.nbrs cur) t

/-- `calculate_messages`: `exact.py:382-394`; an `IndexError` raised anywhere in the body is
swallowed. -/
def calculate (so : SetOrder) (limit : Nat) (t : JTree) : JRes :=
  match t.nodes with
  | [] => (t, none)
  | (root, _) :: _ =>
    match ((pull so limit root none t).andThen (push so limit root none)).andThen
        (fun t => ({ t with valid := true }, none)) with
    | (t, some .indexError) => (t, none)
    | r => r

/-- `exact.py:367-376`: look up a clique containing the variables and marginalise. -/
def query (so : SetOrder) (vs : List Name) (t : JTree) : Except PyErr Factor :=
  match t.nodes.find? fun p => sub vs p.2.vars with
  | some p => do
    let r ← p.2.factor.marginalize (so.diff p.2.vars vs)
    return r.normalize
  | none => .error .valueError

/-- `marginals`: `exact.py:339-376`. -/
def marginals (so : SetOrder) (limit : Nat) (vs : List Name) (t : JTree) :
    JTree × Except PyErr Factor :=
  match if t.valid then (t, none) else calculate so limit t with
  | (t, none) => (t, query so vs t)
  | (t, some e) => (t, .error e)

/-- `exact.py:324-325`: the marginals of the evidence variables before the evidence. -/
def oldMarginals (so : SetOrder) (limit : Nat) : List Name → JTree →
    JTree × Except PyErr (Dict NDArray)
  | [], t => (t, .ok [])
  | e :: es, t =>
    match marginals so limit [e] t with
    | (t, .error x) => (t, .error x)
    | (t, .ok f) =>
      match oldMarginals so limit es t with
      | (t, .error x) => (t, .error x)
      | (t, .ok d) => (t, .ok ((e, f.potentials) :: d))

/-- `exact.py:329-336`: one piece of evidence. -/
def putEvidence (so : SetOrder) (bn : BN) (old : Dict NDArray) (e : Name × Evidence) (t : JTree) :
    JRes :=
  JRes.ofExcept t (do
    let n ← bn.getNode e.1
    let f ← Factor.asEvidence e.1 n.values e.2 (old.get? e.1)
    let ns ← putFirst so (fun vars => vars.contains e.1) f t.nodes
    return { t with nodes := ns })

/-- `set_evidence`: `exact.py:293-337`. -/
def setEvidence (so : SetOrder) (limit : Nat) (bn : BN) (ev : Dict Evidence) (soft : Bool)
    (t : JTree) : JRes :=
  (reset so bn t).andThen fun t =>
    if soft then
      (calculate so limit t).andThen fun t =>
        match oldMarginals so limit ev.keys t with
        | (t, .error x) => (t, some x)
        | (t, .ok old) => (reset so bn t).andThen fun t =>
          (forEach (putEvidence so bn old) ev t).andThen (calculate so limit)
    else (forEach (putEvidence so bn []) ev t).andThen (calculate so limit)

/-- `get_evidence_probability`: `exact.py:379-380`. -/
def evidenceProbability (_ : JTree) : Except PyErr ℚ := .error .notImplementedError

end JTree
end Primo
