import Verif.Node
import Verif.Order

/-!
# `primo2/networks.py`: the mutable `BayesianNetwork`

Node objects live in a heap and are referred to by object ids.  A method call returns the new state
together with the exception it raised, if any; the state reached before the exception is kept,
because Python does not roll back.
-/

namespace Primo

/-- A node object: `/repo/primo2/nodes.py:34-37, 74-90, 418-423, 533-541`.  `parents` maps names to
object ids.  A `UtilityNode` has no `values` attribute; its `values` here are `[]`. -/
structure NodeObj where
  kind : NodeKind
  name : Name
  values : List Val
  parents : Dict Nat
  parentOrder : List Name
  cpd : NDArray
  valid : Bool
  plain : Bool
  deriving DecidableEq

/-- placeholder for unallocated ids -/
def NodeObj.blank : NodeObj := ⟨.discrete, "", [], [], [], NDArray.scalar 0, false, false⟩

/-- `BayesianNetwork` (`networks.py:28-34`) plus the heap of node objects.  `gnode`, `succ`, `pred`
are the dictionaries `_node`, `_succ`, `_pred` of the networkx `DiGraph`: a key is a node object,
compared by its name; the dictionaries here are keyed by that name and store the key object's id. -/
structure Net where
  heap : Nat → NodeObj
  next : Nat
  lookup : Dict Nat
  gnode : Dict Nat
  succ : Dict (Dict Nat)
  pred : Dict (Dict Nat)

/-- the state after a call and the exception raised by it -/
abbrev Res := Net × Option PyErr

/-- sequencing: stop at the first exception -/
def Res.andThen (r : Res) (f : Net → Res) : Res :=
  match r.2 with
  | none => f r.1
  | some _ => r

/-- `for x in l: f(x)` -/
def Res.forEach {α : Type} (f : α → Net → Res) : List α → Net → Res
  | [], s => (s, none)
  | x :: l, s => (f x s).andThen (Res.forEach f l)

/-- `d.setdefault(k, v)`: networkx keeps an existing key object. -/
def Dict.insertNew {α : Type} (d : Dict α) (k : Name) (v : α) : Dict α :=
  if k ∈ d.keys then d else d ++ [(k, v)]

namespace Net
open Res

/-- `BayesianNetwork()` and no node objects: `networks.py:30-34`. -/
def empty : Net := ⟨fun _ => NodeObj.blank, 0, [], [], [], []⟩

/-- update one object -/
def setObj (s : Net) (i : Nat) (o : NodeObj) : Net := { s with heap := Function.update s.heap i o }

/-- the adjacency dictionary `graph.succ[k]` (empty if absent; callers check) -/
def succOf (s : Net) (k : Name) : Dict Nat := (s.succ.get? k).getD []

/-- the adjacency dictionary `graph.pred[k]` -/
def predOf (s : Net) (k : Name) : Dict Nat := (s.pred.get? k).getD []

/-! ## nodes.py: structure -/

/-- `len(self.parents[p].values)`: `nodes.py:137`. -/
def parentLen (s : Net) (o : NodeObj) (p : Name) : Except PyErr Nat := do
  let j ← o.parents.getE p
  if (s.heap j).kind = .utility then .error .attributeError else .ok (s.heap j).values.length

/-- `[len(self.values)] if self.values else []`: `nodes.py:135, 448, 567`. -/
def ownDim (o : NodeObj) : List Nat := if o.values = [] then [] else [o.values.length]

/-- `_update_dimensions`: `nodes.py:130-139, 443-452, 562-571`. -/
def updateDims (i : Nat) (s : Net) : Res :=
  match (s.heap i).parentOrder.mapM (s.parentLen (s.heap i)) with
  | .error e => (s, some e)
  | .ok d => (s.setObj i { s.heap i with
      cpd := NDArray.zeros (ownDim (s.heap i) ++ d), valid := false, plain := false }, none)

/-- `child.add_parent(parent)`: `nodes.py:92-108, 425-441, 544-560`. -/
def addParent (i j : Nat) (s : Net) : Res :=
  updateDims i (s.setObj i { s.heap i with
    parents := (s.heap i).parents.set (s.heap j).name j,
    parentOrder := (s.heap i).parentOrder ++ [(s.heap j).name] })

/-- `child.remove_parent(parent)`: `nodes.py:141-155`.  Only `DiscreteNode` has this method. -/
def removeParent (i j : Nat) (s : Net) : Res :=
  if (s.heap i).kind ≠ .discrete then (s, some .attributeError)
  else if (s.heap j).name ∉ (s.heap i).parents.keys then (s, some .keyError)
  else
    let s1 := s.setObj i { s.heap i with parents := (s.heap i).parents.erase (s.heap j).name }
    if (s.heap j).name ∉ (s.heap i).parentOrder then (s1, some .valueError)
    else updateDims i (s1.setObj i { s1.heap i with
      parentOrder := (s.heap i).parentOrder.erase (s.heap j).name })

/-- `set_values`: `nodes.py:110-128`.  Only `DiscreteNode` has this method. -/
def setValues (i : Nat) (vals : List Val) (s : Net) : Res :=
  if (s.heap i).kind ≠ .discrete then (s, some .attributeError)
  else updateDims i (s.setObj i { s.heap i with values := vals })

/-! ## the networkx digraph (networkx 2: `classes/digraph.py`) -/

/-- `graph.add_node(node)` -/
def graphAddNode (i : Nat) (s : Net) : Net :=
  { s with
    gnode := s.gnode.insertNew (s.heap i).name i
    succ := s.succ.insertNew (s.heap i).name []
    pred := s.pred.insertNew (s.heap i).name [] }

/-- `graph.add_edge(u, v)` -/
def graphAddEdge (i j : Nat) (s : Net) : Net :=
  let s := (s.graphAddNode i).graphAddNode j
  { s with
    succ := s.succ.set (s.heap i).name ((s.succOf (s.heap i).name).insertNew (s.heap j).name j)
    pred := s.pred.set (s.heap j).name ((s.predOf (s.heap j).name).insertNew (s.heap i).name i) }

/-- `graph.remove_node(k)`; `NetworkXError` if absent.  (networkx erases `k` from the adjacency of
its neighbours; erasing it everywhere is the same because adjacency is symmetric.) -/
def graphRemoveNode (k : Name) (s : Net) : Res :=
  if k ∉ s.gnode.keys then (s, some .networkXError)
  else ({ s with
    gnode := s.gnode.erase k
    succ := (s.succ.erase k).map fun p => (p.1, p.2.erase k)
    pred := (s.pred.erase k).map fun p => (p.1, p.2.erase k) }, none)

/-- `graph.remove_edge(u, v)`; `NetworkXError` if absent -/
def graphRemoveEdge (u v : Name) (s : Net) : Res :=
  if v ∉ (s.succOf u).keys then (s, some .networkXError)
  else ({ s with
    succ := s.succ.set u ((s.succOf u).erase v)
    pred := s.pred.set v ((s.predOf v).erase u) }, none)

/-! ## networks.py -/

/-- `add_node`: `networks.py:36-44`.  An id that is not allocated stands for an object that is not a
`RandomNode`. -/
def addNode (i : Nat) (s : Net) : Res :=
  if s.next ≤ i then (s, some .typeError)
  else if (s.heap i).name ∈ s.lookup.keys then (s, some .valueError)
  else (({ s with lookup := s.lookup.set (s.heap i).name i } : Net).graphAddNode i, none)

/-- `child.remove_parent(self.node_lookup[node])`: `networks.py:50`. -/
def dropParent (k : Name) (c : Name × Nat) (s : Net) : Res :=
  match s.lookup.get? k with
  | none => (s, some .keyError)
  | some i => removeParent c.2 i s

/-- `del self.node_lookup[k]` -/
def delLookup (k : Name) (s : Net) : Res :=
  if k ∈ s.lookup.keys then ({ s with lookup := s.lookup.erase k }, none) else (s, some .keyError)

/-- `remove_node`: `networks.py:46-52`. -/
def removeNode (k : Name) (s : Net) : Res :=
  if k ∈ s.gnode.keys then
    ((forEach (dropParent k) (s.succOf k) s).andThen (graphRemoveNode k)).andThen (delLookup k)
  else (s, none)

/-- `remove_edge`: `networks.py:54-57`. -/
def removeEdge (a b : Name) (s : Net) : Res :=
  if a ∈ s.gnode.keys ∧ b ∈ s.gnode.keys then
    match s.lookup.get? b, s.lookup.get? a with
    | some j, some i => (removeParent j i s).andThen (graphRemoveEdge a b)
    | _, _ => (s, some .keyError)
  else (s, none)

/-- `add_edge`: `networks.py:59-66`. -/
def addEdge (a b : Name) (s : Net) : Res :=
  if a ∈ s.gnode.keys ∧ b ∈ s.gnode.keys then
    match s.lookup.get? a, s.lookup.get? b with
    | some i, some j => addParent j i (s.graphAddEdge i j)
    | _, _ => (s, some .keyError)
  else (s, some .exception)

/-- `get_node`: `networks.py:68-73`. -/
def getNode (k : Name) (s : Net) : Except PyErr Nat :=
  match s.lookup.get? k with
  | some i => .ok i
  | none => .error .exception

/-- `change_node_values`: `networks.py:75-94`. -/
def changeValues (k : Name) (vals : List Val) (s : Net) : Res :=
  match s.lookup.get? k with
  | none => (s, some .exception)
  | some i => (setValues i vals s).andThen fun s =>
    if k ∈ s.succ.keys then forEach (fun c => updateDims c.2) (s.succOf k) s
    else (s, some .keyError)

/-- One round of `networks.py:105-109`: rename the parent `n` (object `i`) of one child. -/
def renameParent (i : Nat) (old new : Name) (c : Name × Nat) (s : Net) : Res :=
  if old ∉ (s.heap c.2).parents.keys then (s, some .keyError)
  else
    let s1 := s.setObj c.2 { s.heap c.2 with
      parents := ((s.heap c.2).parents.erase old).set new i }
    if old ∉ (s.heap c.2).parentOrder then (s1, some .valueError)
    else (s1.setObj c.2 { s1.heap c.2 with
      parentOrder := (s.heap c.2).parentOrder.set ((s.heap c.2).parentOrder.idxOf old) new }, none)

/-- `self.graph.add_edge(n, self.node_lookup[child])`: `networks.py:119-120`. -/
def relinkChild (i : Nat) (c : Name × Nat) (s : Net) : Res :=
  match s.lookup.get? (s.heap c.2).name with
  | none => (s, some .keyError)
  | some j => (s.graphAddEdge i j, none)

/-- `self.graph.add_edge(self.node_lookup[parent], n)`: `networks.py:121-122`. -/
def relinkParent (i : Nat) (c : Name × Nat) (s : Net) : Res :=
  match s.lookup.get? (s.heap c.2).name with
  | none => (s, some .keyError)
  | some j => (s.graphAddEdge j i, none)

/-- `networks.py:114-116`: the node gets its new name and is looked up under it.  `byObj`: the
argument `old_name` was the node object itself, which then already carries the new name when line
115 evaluates `del self.node_lookup[old_name]`. -/
def rebind (i : Nat) (old new : Name) (byObj : Bool) (s : Net) : Res :=
  ((delLookup (if byObj then new else old) (s.setObj i { s.heap i with name := new }))).andThen
    fun s => ({ s with lookup := s.lookup.set new i }, none)

/-- `change_node_name`: `networks.py:96-126`.  The graph is asked for the node object `n` (lines 103,
104, 112), so for its current name. -/
def changeName (old new : Name) (byObj : Bool) (s : Net) : Res :=
  match s.lookup.get? old with
  | none => (s, some .exception)
  | some i =>
    if (s.heap i).name ∉ s.succ.keys then (s, some .keyError)
    else
      let children := s.succOf (s.heap i).name
      let parents := s.predOf (s.heap i).name
      ((((forEach (renameParent i old new) children s).andThen
        (graphRemoveNode (s.heap i).name)).andThen
        (rebind i old new byObj)).andThen
        fun s => forEach (relinkChild i) children (s.graphAddNode i)).andThen
        (forEach (relinkParent i) parents)

/-- `clear`: `networks.py:172-176`. -/
def clear (s : Net) : Res := ({ s with lookup := [], gnode := [], succ := [], pred := [] }, none)

/-- `DiscreteNode(name, values)`, `UtilityNode(name)`, `DecisionNode(name, values)`. -/
def newObj (kind : NodeKind) (name : Name) (values : List Val) : NodeObj :=
  match kind with
  | .utility => ⟨.utility, name, [], [], [], NDArray.scalar 1, false, true⟩
  | k => ⟨k, name, values, [], [], NDArray.zeros (if values = [] then [] else [values.length]),
      false, false⟩

/-- construct a node object -/
def create (kind : NodeKind) (name : Name) (values : List Val) (s : Net) : Res :=
  ({ s with heap := Function.update s.heap s.next (newObj kind name values), next := s.next + 1 },
    none)

/-! ## the network as inference code sees it -/

/-- snapshot of a node object (parents that have no `values` attribute appear with `[]`; consistent
states have no such parents) -/
def objView (s : Net) (i : Nat) : NodeV :=
  ⟨(s.heap i).name, (s.heap i).kind, (s.heap i).values, (s.heap i).parentOrder,
    (s.heap i).parents.map fun p => (p.1, (s.heap p.2).values),
    (s.succOf (s.heap i).name).map fun c => (s.heap c.2).name,
    (s.heap i).cpd, (s.heap i).plain⟩

/-- snapshot of the network -/
def view (s : Net) : BN := s.lookup.map fun p => s.objView p.2

/-! ## table updates (`nodes.py`) -/

/-- store a new table, or raise -/
def putCpd (i : Nat) (r : Except PyErr NDArray) (valid : Bool → Bool) (s : Net) : Res :=
  match r with
  | .error e => (s, some e)
  | .ok a => (s.setObj i { s.heap i with
      cpd := a, valid := valid (s.heap i).valid, plain := false }, none)

/-- `set_cpd`: `nodes.py:157-174` -/
def setCpd (i : Nat) (c : NDArray) (s : Net) : Res :=
  putCpd i ((s.objView i).setCpd c) (fun _ => true) s

/-- `set_probability`: `nodes.py:176-218` (does not touch `valid`) -/
def setProbability (i : Nat) (v : Val) (p : ℚ) (pv : Dict Val) (s : Net) : Res :=
  putCpd i ((s.objView i).setProbability v p pv) id s

/-- `set_utilities`: `nodes.py:478-496` -/
def setUtilities (i : Nat) (u : NDArray) (s : Net) : Res :=
  putCpd i ((s.objView i).setUtilities u) (fun _ => true) s

/-- `set_utility`: `nodes.py:498-522` -/
def setUtility (i : Nat) (u : ℚ) (pv : Dict Val) (s : Net) : Res :=
  putCpd i ((s.objView i).setUtility u pv) id s

/-- `set_decision`: `nodes.py:573-592` (the zeroed table stays when it raises) -/
def setDecision (i : Nat) (d : Val) (s : Net) : Res :=
  if (s.heap i).kind ≠ .decision then (s, some .attributeError)
  else (s.setObj i { s.heap i with cpd := ((s.objView i).setDecision d).1 },
    ((s.objView i).setDecision d).2)

/-- `fully_mixed`: `nodes.py:594-596` -/
def fullyMixed (i : Nat) (s : Net) : Res :=
  if (s.heap i).kind ≠ .decision then (s, some .attributeError)
  else putCpd i (s.objView i).fullyMixed id s

/-! ## histories -/

/-- A call of the public interface.  Node arguments of network methods may be given by name or by
node object; since both hash and compare alike, the name is enough, except for `change_node_name`
(`byObj`). -/
inductive Op
  | create (kind : NodeKind) (name : Name) (values : List Val)
  | addNode (i : Nat)
  | removeNode (k : Name)
  | removeEdge (a b : Name)
  | addEdge (a b : Name)
  | changeValues (k : Name) (vals : List Val)
  | changeName (old new : Name) (byObj : Bool)
  | clear
  | setCpd (i : Nat) (c : NDArray)
  | setProbability (i : Nat) (v : Val) (p : ℚ) (pv : Dict Val)
  | setUtilities (i : Nat) (u : NDArray)
  | setUtility (i : Nat) (u : ℚ) (pv : Dict Val)
  | setDecision (i : Nat) (d : Val)
  | fullyMixed (i : Nat)

/-- perform a call -/
def step : Op → Net → Res
  | .create k n v => create k n v
  | .addNode i => addNode i
  | .removeNode k => removeNode k
  | .removeEdge a b => removeEdge a b
  | .addEdge a b => addEdge a b
  | .changeValues k v => changeValues k v
  | .changeName o n b => changeName o n b
  | .clear => clear
  | .setCpd i c => setCpd i c
  | .setProbability i v p pv => setProbability i v p pv
  | .setUtilities i u => setUtilities i u
  | .setUtility i u pv => setUtility i u pv
  | .setDecision i d => setDecision i d
  | .fullyMixed i => fullyMixed i

/-- a history of calls; the caller catches exceptions and goes on -/
def run (ops : List Op) (s : Net) : Net := ops.foldl (fun s op => (step op s).1) s

/-- `Orderer.get_random_order(bn)` = `bn.get_all_node_names()` = `node_lookup.keys()`:
`order.py:83-104`, `networks.py:131-132`. -/
def randomOrder (s : Net) : List Name := s.lookup.keys

end Net
end Primo
