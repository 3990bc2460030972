import Verif.Network

/-!
# Node objects as dictionary keys (`primo2/networks.py` over networkx dictionaries)

`Verif.Network` keys the dictionaries of the networkx graph by *names*.  In the code the keys are
node objects, whose `__eq__` and `__hash__` use the *current* name (`nodes.py:43-69`), whereas a
Python dictionary stores the hash a key had when it was inserted.  Here an entry keeps the stored hash
and the key object, a lookup compares both, the loops of networkx are spelled out, and several
networks may share one heap of node objects.
-/

namespace Primo

/-- `hash` is Python's `hash` on strings: any function (it is salted per process).  `meet a b`: a
lookup for hash `a` probes the slot of a key stored with the different hash `b`; CPython accepts the
identical object there without comparing hashes.  (In CPython this depends on the table as well.) -/
structure Hashing (κ : Type) where
  hash : Name → κ
  meet : κ → κ → Bool

/-- A node argument: its name or a node object. -/
inductive Key
  | str (n : Name)
  | obj (i : Nat)
  deriving DecidableEq

/-- the string an argument hashes and compares as, now: `nodes.py:43-66` -/
def Key.name (heap : Nat → NodeObj) : Key → Name
  | .str n => n
  | .obj i => (heap i).name

/-- One slot of a dictionary whose keys are node objects: the hash stored at insertion, the key object
and the value. -/
structure HEntry (κ α : Type) where
  hash : κ
  key : Nat
  val : α
  deriving DecidableEq

/-- A dictionary whose keys are node objects, in insertion order. -/
abbrev HDict (κ α : Type) := List (HEntry κ α)

namespace HDict
variable {κ α : Type} [DecidableEq κ]

/-- Does the slot match the query?  Stored hash and `==` (`nodes.py:43-55`), or the identical object
met on the way. -/
def hit (S : Hashing κ) (heap : Nat → NodeObj) (q : Key) (e : HEntry κ α) : Bool :=
  (decide (q = .obj e.key) && S.meet (S.hash (q.name heap)) e.hash) ||
    (decide (e.hash = S.hash (q.name heap)) && decide ((heap e.key).name = q.name heap))

/-- the matching slot (of several, which only stale keys can produce, the one inserted first) -/
def get? (S : Hashing κ) (heap : Nat → NodeObj) (d : HDict κ α) (q : Key) : Option α :=
  (d.find? (hit S heap q)).map HEntry.val

/-- `q in d` -/
def has (S : Hashing κ) (heap : Nat → NodeObj) (d : HDict κ α) (q : Key) : Bool :=
  d.any (hit S heap q)

/-- `del d[q]` for a `q` that is present -/
def del (S : Hashing κ) (heap : Nat → NodeObj) (d : HDict κ α) (q : Key) : HDict κ α :=
  d.eraseP (hit S heap q)

/-- change the value of the matching slot -/
def upd (S : Hashing κ) (heap : Nat → NodeObj) (q : Key) (f : α → α) : HDict κ α → HDict κ α
  | [] => []
  | e :: d => if hit S heap q e then { e with val := f e.val } :: d else e :: upd S heap q f d

/-- `d[node] = v` for a node object: an existing slot keeps its key and hash. -/
def put (S : Hashing κ) (heap : Nat → NodeObj) (d : HDict κ α) (i : Nat) (v : α) : HDict κ α :=
  if has S heap d (.obj i) then upd S heap (.obj i) (fun _ => v) d
  else d ++ [⟨S.hash (heap i).name, i, v⟩]

/-- the key objects, in iteration order -/
def objs (d : HDict κ α) : List Nat := d.map HEntry.key

end HDict

/-- the adjacency dictionaries of networkx: `_succ` and `_pred` -/
abbrev HAdj (κ : Type) := HDict κ (HDict κ Unit)

namespace HAdj
variable {κ : Type} [DecidableEq κ]

/-- `del adj[u][v]` -/
def delEdge (S : Hashing κ) (heap : Nat → NodeObj) (u v : Key) (a : HAdj κ) :
    HAdj κ × Option PyErr :=
  match HDict.get? S heap a u with
  | none => (a, some .keyError)
  | some d =>
    if HDict.has S heap d v then (HDict.upd S heap u (fun d => HDict.del S heap d v) a, none)
    else (a, some .keyError)

/-- `for u in us: del adj[u][v]` -/
def delEdges (S : Hashing κ) (heap : Nat → NodeObj) (v : Key) :
    List Nat → HAdj κ → HAdj κ × Option PyErr
  | [], a => (a, none)
  | u :: us, a =>
    match (delEdge S heap (.obj u) v a).2 with
    | none => delEdges S heap v us (delEdge S heap (.obj u) v a).1
    | some e => ((delEdge S heap (.obj u) v a).1, some e)

end HAdj

/-- The node objects, and one network: `node_lookup` (string keys: `networks.py:42, 116`) and the
graph's dictionaries `_node`, `_succ`, `_pred`. -/
structure HNet (κ : Type) where
  heap : Nat → NodeObj
  next : Nat
  lookup : Dict Nat
  gnode : HDict κ Unit
  succ : HAdj κ
  pred : HAdj κ

/-- the state after a call and the exception raised by it -/
abbrev KRes (κ : Type) := HNet κ × Option PyErr

namespace KRes
variable {κ : Type}

/-- sequencing: stop at the first exception -/
def andThen (r : KRes κ) (f : HNet κ → KRes κ) : KRes κ :=
  match r.2 with
  | none => f r.1
  | some _ => r

/-- `for x in l: f(x)` -/
def forEach {α : Type} (f : α → HNet κ → KRes κ) : List α → HNet κ → KRes κ
  | [], s => (s, none)
  | x :: l, s => (f x s).andThen (forEach f l)

end KRes

namespace HNet
open KRes
variable {κ : Type} [DecidableEq κ] (S : Hashing κ)

/-- `BayesianNetwork()` and no node objects: `networks.py:30-34`. -/
def empty : HNet κ := ⟨fun _ => NodeObj.blank, 0, [], [], [], []⟩

/-- A method of node objects (`nodes.py`): it sees and changes node objects only. -/
def onNodes (f : Net → Res) (s : HNet κ) : KRes κ :=
  let r := f ⟨s.heap, s.next, [], [], [], []⟩
  ({ s with heap := r.1.heap, next := r.1.next }, r.2)

/-! ## the networkx digraph (networkx 2: `classes/digraph.py`) -/

/-- `q in graph`: `__contains__` asks `_node`. -/
def inGraph (q : Key) (s : HNet κ) : Bool := HDict.has S s.heap s.gnode q

/-- `graph.add_node(n)`: a node that `_succ` knows is left alone. -/
def graphAddNode (i : Nat) (s : HNet κ) : HNet κ :=
  if HDict.has S s.heap s.succ (.obj i) then s
  else { s with
    succ := HDict.put S s.heap s.succ i []
    pred := HDict.put S s.heap s.pred i []
    gnode := HDict.put S s.heap s.gnode i () }

/-- `graph.add_edge(u, v)`: both nodes are added if `_succ` does not know them, then
`_succ[u][v] = …; _pred[v][u] = …`. -/
def graphAddEdge (i j : Nat) (s : HNet κ) : KRes κ :=
  let s := graphAddNode S j (graphAddNode S i s)
  if HDict.has S s.heap s.succ (.obj i) then
    let s := { s with
      succ := HDict.upd S s.heap (.obj i) (fun d => HDict.put S s.heap d j ()) s.succ }
    if HDict.has S s.heap s.pred (.obj j) then
      ({ s with pred := HDict.upd S s.heap (.obj j) (fun d => HDict.put S s.heap d i ()) s.pred },
        none)
    else (s, some .keyError)
  else (s, some .keyError)

/-- `del _succ[q]` -/
def delSucc (q : Key) (s : HNet κ) : KRes κ :=
  if HDict.has S s.heap s.succ q then
    ({ s with succ := HDict.del S s.heap s.succ q }, none)
  else (s, some .keyError)

/-- `for u in us: del _pred[u][q]` -/
def delPredEdges (q : Key) (us : List Nat) (s : HNet κ) : KRes κ :=
  ({ s with pred := (HAdj.delEdges S s.heap q us s.pred).1 },
    (HAdj.delEdges S s.heap q us s.pred).2)

/-- `for u in _pred[q]: del _succ[u][q]` and `del _pred[q]` -/
def delPred (q : Key) (s : HNet κ) : KRes κ :=
  match HDict.get? S s.heap s.pred q with
  | none => (s, some .keyError)
  | some d =>
    KRes.andThen
      ({ s with succ := (HAdj.delEdges S s.heap q (HDict.objs d) s.succ).1 },
        (HAdj.delEdges S s.heap q (HDict.objs d) s.succ).2)
      fun s => ({ s with pred := HDict.del S s.heap s.pred q }, none)

/-- `graph.remove_node(q)`: `NetworkXError` if `_succ` or `_node` does not know it; then
`for u in _succ[q]: del _pred[u][q]`, `del _succ[q]`, `for u in _pred[q]: del _succ[u][q]`,
`del _pred[q]`. -/
def graphRemoveNode (q : Key) (s : HNet κ) : KRes κ :=
  match HDict.get? S s.heap s.succ q with
  | none => (s, some .networkXError)
  | some nbrs =>
    if HDict.has S s.heap s.gnode q then
      ((delPredEdges S q (HDict.objs nbrs)
        { s with gnode := HDict.del S s.heap s.gnode q }).andThen (delSucc S q)).andThen (delPred S q)
    else (s, some .networkXError)

/-- `graph.remove_edge(u, v)`: `del _succ[u][v]`, `del _pred[v][u]`, any `KeyError` turned into
`NetworkXError`. -/
def graphRemoveEdge (u v : Key) (s : HNet κ) : KRes κ :=
  match (HAdj.delEdge S s.heap u v s.succ).2 with
  | some _ => (s, some .networkXError)
  | none =>
    let s := { s with succ := (HAdj.delEdge S s.heap u v s.succ).1 }
    match (HAdj.delEdge S s.heap v u s.pred).2 with
    | some _ => (s, some .networkXError)
    | none => ({ s with pred := (HAdj.delEdge S s.heap v u s.pred).1 }, none)

/-! ## networks.py -/

/-- `add_node`: `networks.py:36-44`. -/
def addNode (i : Nat) (s : HNet κ) : KRes κ :=
  if s.next ≤ i then (s, some .typeError)
  else if (s.heap i).name ∈ s.lookup.keys then (s, some .valueError)
  else (graphAddNode S i { s with lookup := s.lookup.set (s.heap i).name i }, none)

/-- `child.remove_parent(self.node_lookup[node])`: `networks.py:50`. -/
def dropParent (q : Key) (c : Nat) (s : HNet κ) : KRes κ :=
  match s.lookup.get? (q.name s.heap) with
  | none => (s, some .keyError)
  | some i => onNodes (Net.removeParent c i) s

/-- `del self.node_lookup[q]` -/
def delLookup (q : Key) (s : HNet κ) : KRes κ :=
  if q.name s.heap ∈ s.lookup.keys then
    ({ s with lookup := s.lookup.erase (q.name s.heap) }, none)
  else (s, some .keyError)

/-- `remove_node`: `networks.py:46-52`. -/
def removeNode (q : Key) (s : HNet κ) : KRes κ :=
  if inGraph S q s then
    match HDict.get? S s.heap s.succ q with
    | none => (s, some .keyError)
    | some d => ((forEach (dropParent q) (HDict.objs d) s).andThen (graphRemoveNode S q)).andThen
        (delLookup q)
  else (s, none)

/-- `remove_edge`: `networks.py:54-57`. -/
def removeEdge (a b : Key) (s : HNet κ) : KRes κ :=
  if inGraph S a s ∧ inGraph S b s then
    match s.lookup.get? (b.name s.heap), s.lookup.get? (a.name s.heap) with
    | some j, some i => (onNodes (Net.removeParent j i) s).andThen (graphRemoveEdge S a b)
    | _, _ => (s, some .keyError)
  else (s, none)

/-- `add_edge`: `networks.py:59-66`. -/
def addEdge (a b : Key) (s : HNet κ) : KRes κ :=
  if inGraph S a s ∧ inGraph S b s then
    match s.lookup.get? (a.name s.heap), s.lookup.get? (b.name s.heap) with
    | some i, some j => (graphAddEdge S i j s).andThen (onNodes (Net.addParent j i))
    | _, _ => (s, some .keyError)
  else (s, some .exception)

/-- `get_node`: `networks.py:68-73`. -/
def getNode (q : Key) (s : HNet κ) : Except PyErr Nat :=
  match s.lookup.get? (q.name s.heap) with
  | some i => .ok i
  | none => .error .exception

/-- `change_node_values`: `networks.py:75-94`. -/
def changeValues (q : Key) (vals : List Val) (s : HNet κ) : KRes κ :=
  match s.lookup.get? (q.name s.heap) with
  | none => (s, some .exception)
  | some i => (onNodes (Net.setValues i vals) s).andThen fun s =>
    match HDict.get? S s.heap s.succ q with
    | none => (s, some .keyError)
    | some d => forEach (fun c => onNodes (Net.updateDims c)) (HDict.objs d) s

/-- `self.graph.add_edge(n, self.node_lookup[child])`: `networks.py:119-120`. -/
def relinkChild (i : Nat) (c : Nat) (s : HNet κ) : KRes κ :=
  match s.lookup.get? (s.heap c).name with
  | none => (s, some .keyError)
  | some j => graphAddEdge S i j s

/-- `self.graph.add_edge(self.node_lookup[parent], n)`: `networks.py:121-122`. -/
def relinkParent (i : Nat) (c : Nat) (s : HNet κ) : KRes κ :=
  match s.lookup.get? (s.heap c).name with
  | none => (s, some .keyError)
  | some j => graphAddEdge S j i s

/-- `n.name = new_name`: `networks.py:114` -/
def setName (i : Nat) (new : Name) (s : HNet κ) : HNet κ :=
  { s with heap := Function.update s.heap i { s.heap i with name := new } }

/-- `change_node_name`: `networks.py:96-126`.  `new` is a string. -/
def changeName (q : Key) (new : Name) (s : HNet κ) : KRes κ :=
  match s.lookup.get? (q.name s.heap) with
  | none => (s, some .exception)
  | some i =>
    match HDict.get? S s.heap s.succ (.obj i), HDict.get? S s.heap s.pred (.obj i) with
    | some ch, some pa =>
      ((((forEach (fun c => onNodes (Net.renameParent i (q.name s.heap) new ("", c)))
          (HDict.objs ch) s).andThen
        (graphRemoveNode S (.obj i))).andThen
        (fun s => (delLookup q (setName i new s)).andThen
          fun s => ({ s with lookup := s.lookup.set new i }, none))).andThen
        fun s => forEach (relinkChild S i) (HDict.objs ch) (graphAddNode S i s)).andThen
        (forEach (relinkParent S i) (HDict.objs pa))
    | _, _ => (s, some .keyError)

/-- `clear`: `networks.py:172-176`. -/
def clear (s : HNet κ) : KRes κ := ({ s with lookup := [], gnode := [], succ := [], pred := [] }, none)

/-- `get_all_nodes`: `networks.py:128-129` (the key objects of the graph, in order). -/
def allNodes (s : HNet κ) : List Nat := HDict.objs s.gnode

/-- `get_children`: `networks.py:144-159`. -/
def getChildren (q : Key) (s : HNet κ) : Except PyErr (List Nat) :=
  match HDict.get? S s.heap s.succ q with
  | some d => .ok (HDict.objs d)
  | none => .error .keyError

/-- `len(bn)`: `networks.py:178-184`. -/
def len (s : HNet κ) : Nat := s.gnode.length

end HNet

/-- A call of the public interface; node arguments by name or by node object. -/
inductive HOp
  | create (kind : NodeKind) (name : Name) (values : List Val)
  | addNode (i : Nat)
  | removeNode (q : Key)
  | removeEdge (a b : Key)
  | addEdge (a b : Key)
  | changeValues (q : Key) (vals : List Val)
  | changeName (q : Key) (new : Name)
  | clear
  | setCpd (i : Nat) (c : NDArray)
  | setProbability (i : Nat) (v : Val) (p : ℚ) (pv : Dict Val)
  | setUtilities (i : Nat) (u : NDArray)
  | setUtility (i : Nat) (u : ℚ) (pv : Dict Val)
  | setDecision (i : Nat) (d : Val)
  | fullyMixed (i : Nat)

namespace HNet
variable {κ : Type} [DecidableEq κ] (S : Hashing κ)

/-- perform a call -/
def step : HOp → HNet κ → KRes κ
  | .create k n v => onNodes (Net.create k n v)
  | .addNode i => addNode S i
  | .removeNode q => removeNode S q
  | .removeEdge a b => removeEdge S a b
  | .addEdge a b => addEdge S a b
  | .changeValues q v => changeValues S q v
  | .changeName q n => changeName S q n
  | .clear => clear
  | .setCpd i c => onNodes (Net.setCpd i c)
  | .setProbability i v p pv => onNodes (Net.setProbability i v p pv)
  | .setUtilities i u => onNodes (Net.setUtilities i u)
  | .setUtility i u pv => onNodes (Net.setUtility i u pv)
  | .setDecision i d => onNodes (Net.setDecision i d)
  | .fullyMixed i => onNodes (Net.fullyMixed i)

/-- A history of calls, and what each of them raised.  The caller catches exceptions and goes on. -/
def run : List HOp → HNet κ → HNet κ × List (Option PyErr)
  | [], s => (s, [])
  | op :: ops, s => ((run ops (step S op s).1).1, (step S op s).2 :: (run ops (step S op s).1).2)

end HNet

/-! ## several networks -/

/-- The graph and lookup of one network. -/
structure HGraph (κ : Type) where
  lookup : Dict Nat
  gnode : HDict κ Unit
  succ : HAdj κ
  pred : HAdj κ

/-- All node objects and any number of networks: networks are numbered, those not made yet are
empty. -/
structure World (κ : Type) where
  heap : Nat → NodeObj
  next : Nat
  nets : Nat → HGraph κ

namespace World
variable {κ : Type} [DecidableEq κ] (S : Hashing κ)

/-- nothing yet -/
def empty : World κ := ⟨fun _ => NodeObj.blank, 0, fun _ => ⟨[], [], [], []⟩⟩

/-- the node objects and network `k` -/
def slice (w : World κ) (k : Nat) : HNet κ :=
  ⟨w.heap, w.next, (w.nets k).lookup, (w.nets k).gnode, (w.nets k).succ, (w.nets k).pred⟩

/-- the world after network `k` and the node objects have changed -/
def absorb (w : World κ) (k : Nat) (s : HNet κ) : World κ :=
  ⟨s.heap, s.next, Function.update w.nets k ⟨s.lookup, s.gnode, s.succ, s.pred⟩⟩

/-- a call on network `k` (for calls on node objects alone, `k` only says whose object it is) -/
def step (k : Nat) (op : HOp) (w : World κ) : World κ × Option PyErr :=
  (w.absorb k (HNet.step S op (w.slice k)).1, (HNet.step S op (w.slice k)).2)

/-- A history of calls, and what each of them raised. -/
def run : List (Nat × HOp) → World κ → World κ × List (Option PyErr)
  | [], w => (w, [])
  | (k, op) :: ops, w =>
    ((run ops (step S k op w).1).1, (step S k op w).2 :: (run ops (step S k op w).1).2)

end World
end Primo
