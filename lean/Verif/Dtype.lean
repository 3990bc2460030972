import Verif.Decision

/-!
# Element types of numpy arrays

The other files treat every table as an array of numbers.  In the code `set_cpd`, `set_utilities` and
evidence arrays keep the element type they are given (`np.copy`: `nodes.py:173, 495`, `factor.py:508`), so
that a table may consist of integers or of truth values.  This matters in three places: an assignment to
an element converts the number, `/=` refuses to turn an array of integers into one of floats, and `+` of
truth values is the logical or.  Here the functions that can meet such tables are given with element types.
Integers are unbounded (numpy: 64 bit).
-/

namespace Primo

/-- element types -/
inductive DType
  | bool
  | int
  | float
  deriving DecidableEq, Repr

namespace DType

/-- the element type of `a * b` and `a + b` -/
def join : DType → DType → DType
  | .float, _ => .float
  | _, .float => .float
  | .int, _ => .int
  | _, .int => .int
  | .bool, .bool => .bool

/-- the element type of `np.sum(a, axis)` -/
def sum : DType → DType
  | .bool => .int
  | d => d

/-- the number that is stored if `x` is assigned to an element: integers are cut off towards zero, truth
values are `x != 0` -/
def cast : DType → ℚ → ℚ
  | .float, x => x
  | .int, x => if 0 ≤ x then (x.floor : ℚ) else (x.ceil : ℚ)
  | .bool, x => if x = 0 then 0 else 1

/-- `x + y` for elements of these types -/
def plus : DType → DType → ℚ → ℚ → ℚ
  | .bool, .bool, x, y => if x = 0 ∧ y = 0 then 0 else 1
  | _, _, x, y => x + y

/-- can an array of this type hold these numbers? -/
def Holds (d : DType) (a : NDArray) : Prop := ∀ x ∈ a.data, d.cast x = x

end DType

/-! ## `nodes.py` -/

/-- a node with the element type of its table -/
structure TypedNode where
  node : NodeV
  dt : DType

namespace TypedNode

/-- store a table -/
def put (n : TypedNode) (d : DType) : Except PyErr NDArray → TypedNode × Option PyErr
  | .ok a => (⟨{ n.node with cpd := a, plain := false }, d⟩, none)
  | .error e => (n, some e)

/-- `_update_dimensions` after a change of the structure to that of `m`: `nodes.py:130-139, 443-452,
562-571`; `np.zeros` makes floats -/
def restructure (m : NodeV) : TypedNode :=
  ⟨{ m with cpd := NDArray.zeros ((if m.values = [] then [] else [m.values.length]) ++
      m.parentOrder.map fun p => ((m.parents.get? p).getD []).length), plain := false }, .float⟩

/-- `set_cpd` with an array of type `d`: `nodes.py:157-174` -/
def setCpd (c : NDArray) (d : DType) (n : TypedNode) : TypedNode × Option PyErr := n.put d (n.node.setCpd c)

/-- `set_probability`: `nodes.py:176-218` -/
def setProbability (v : Val) (p : ℚ) (pv : Dict Val) (n : TypedNode) : TypedNode × Option PyErr :=
  n.put n.dt (n.node.setProbability v (n.dt.cast p) pv)

/-- `set_utilities` with an array of type `d`: `nodes.py:478-496` -/
def setUtilities (u : NDArray) (d : DType) (n : TypedNode) : TypedNode × Option PyErr :=
  n.put d (n.node.setUtilities u)

/-- `set_utility`: `nodes.py:498-522` -/
def setUtility (u : ℚ) (pv : Dict Val) (n : TypedNode) : TypedNode × Option PyErr :=
  n.put n.dt (n.node.setUtility (n.dt.cast u) pv)

end TypedNode

/-! ## `factor.py` -/

/-- a factor with the element type of its table; `num`: the table is a number and not an array -/
structure TFactor where
  val : Factor
  dt : DType
  num : Bool

namespace TFactor

/-- the result of arithmetic: numpy makes a number of an array without axes -/
def result (d : DType) (F : Factor) : TFactor := ⟨F, d, decide (F.potentials.shape = [])⟩

/-- `get_trivial`: `factor.py:347-365`; the default potential is `1.0` -/
def trivial (x : ℚ := 1) : TFactor := ⟨Factor.trivial x, .float, true⟩

/-- `from_node`: `factor.py:394-421` -/
def fromNode (n : TypedNode) : Except PyErr TFactor := (Factor.fromNode n.node).map (⟨·, n.dt, false⟩)

/-- `from_utility_node`: `factor.py:368-392` -/
def fromUtilityNode (n : TypedNode) : Except PyErr TFactor :=
  (Factor.fromUtilityNode n.node).map (⟨·, n.dt, false⟩)

/-- `unit_factor` / `zero_factor`: `factor.py:325-345` -/
def constFactor (c : ℚ) (variableOrder : List Name) (values : Dict (List Val)) : Except PyErr TFactor :=
  (Factor.constFactor c variableOrder values).map (⟨·, .float, false⟩)

/-- `as_evidence`: `factor.py:423-509`, for an array of type `d`; outcomes (473) and desired marginals
(486) give floats -/
def asEvidence (v : Name) (values : List Val) (e : Evidence × DType) (old : Option NDArray) :
    Except PyErr TFactor :=
  match e.1, old with
  | .hard x, _ => (Factor.asEvidence v values (.hard x)).map (⟨·, .float, false⟩)
  | .soft l, none => (Factor.asEvidence v values (.soft l)).map (⟨·, e.2, false⟩)
  | .soft l, some o => (Factor.asEvidence v values (.soft l) (some o)).map (⟨·, .float, false⟩)

/-- `__mul__`: `factor.py:161-236` -/
def mul (so : SetOrder) (f g : TFactor) : Except PyErr TFactor :=
  (f.val.mul so g.val).map (result (f.dt.join g.dt))

/-- `__add__`: `factor.py:63-136` -/
def add (so : SetOrder) (f g : TFactor) : Except PyErr TFactor :=
  (f.val.binop (f.dt.plus g.dt) so g.val).map (result (f.dt.join g.dt))

/-- `invert`: `factor.py:257-280` -/
def invert (f : TFactor) : Except PyErr TFactor := f.val.invert.map (result .float)

/-- `__truediv__`: `factor.py:138-159` -/
def div (so : SetOrder) (f g : TFactor) : Except PyErr TFactor :=
  if ∀ v ∈ g.val.values.keys, v ∈ f.val.values.keys then do
    let inv ← g.invert
    f.mul so inv
  else .error .valueError

/-- the element type of a factor after the loop at `factor.py:536-539` -/
def sumType (d : DType) : List Name → DType
  | [] => d
  | _ :: _ => d.sum

/-- `marginalize`: `factor.py:513-541` -/
def marginalize (f : TFactor) (vars : List Name) : Except PyErr TFactor :=
  (f.val.marginalize vars).map fun F =>
    ⟨F, sumType f.dt vars, !vars.isEmpty && decide (F.potentials.shape = [])⟩

/-- `normalize`: `factor.py:584-591`.  `/=` on an array of integers or truth values raises `TypeError`; a
number is replaced. -/
def normalize (f : TFactor) : Except PyErr TFactor :=
  if f.val.potentials.sumAll > 0 then
    if f.num || f.dt = .float then .ok ⟨f.val.normalize, .float, f.num⟩ else .error .typeError
  else .ok f

/-- `joint_factor`: `factor.py:594-617` -/
def joint (n : TypedNode) : Except PyErr (TFactor × TFactor) :=
  if n.node.kind = .utility then do
    let ut ← fromUtilityNode n
    let pr ← constFactor 1 ut.val.variableOrder ut.val.values
    return (pr, ut)
  else do
    let pr ← fromNode n
    let ut ← constFactor 0 pr.val.variableOrder pr.val.values
    return (pr, ut)

end TFactor

/-- a network with the element types of its tables -/
abbrev TBN := List TypedNode

/-- evidence with the element types of its arrays (of no meaning for outcomes) -/
abbrev TEvidence := Dict (Evidence × DType)

/-- the network without element types -/
def TBN.erase (tn : TBN) : BN := tn.map TypedNode.node

/-- the evidence without element types -/
def TEvidence.erase (ev : TEvidence) : Dict Evidence := ev.map fun p => (p.1, p.2.1)

/-- `get_node` : `networks.py:68-73` -/
def TBN.getNode (tn : TBN) (v : Name) : Except PyErr TypedNode :=
  match tn.find? (fun n => n.node.name = v) with
  | some n => .ok n
  | none => .error .exception

/-! ## `VariableElimination` in `exact.py` -/

namespace TVE

/-- lines 67-71 -/
def naiveStep (so : SetOrder) (tn : TBN) (evidence : TEvidence) (res : TFactor) (v : Name) :
    Except PyErr TFactor := do
  let n ← tn.getNode v
  let f ← TFactor.fromNode n
  let res ← res.mul so f
  match evidence.get? v with
  | some e => do
    let ef ← TFactor.asEvidence v n.node.values e none
    res.mul so ef
  | none => return res

/-- lines 75-77 -/
def naiveElim (vars : List Name) (res : TFactor) (v : Name) : Except PyErr TFactor :=
  if v ∈ vars then return res else res.marginalize [v]

/-- `naive_marginals` : `exact.py:33-82` -/
def naiveMarginals (so : SetOrder) (tn : TBN) (vars : List Name) (evidence : TEvidence) :
    Except PyErr TFactor := do
  let order := tn.erase.names
  let res ← order.foldlM (naiveStep so tn evidence) (TFactor.trivial 1)
  let res ← order.foldlM (naiveElim vars) res
  res.normalize

/-- the buckets with their variables -/
abbrev Buckets := List (Name × TFactor)

/-- lines 137-140 and 151-154, see `VE.place` -/
def place (so : SetOrder) (f : TFactor) : Buckets → Except PyErr (Option Buckets)
  | [] => .ok none
  | (u, b) :: rest =>
    if f.val.contains u then do
      let b' ← b.mul so f
      return some ((u, b') :: rest)
    else do
      let r ← place so f rest
      return r.map ((u, b) :: ·)

/-- lines 136-140 -/
def placeFactor (so : SetOrder) (bs : Buckets) (f : TFactor) : Except PyErr Buckets := do
  let r ← place so f bs
  return r.getD bs

/-- lines 143-145 -/
def placeEvidence (so : SetOrder) (tn : TBN) (bs : Buckets) (e : Name × (Evidence × DType)) :
    Except PyErr Buckets := do
  let i ← pyIndex (bs.map Prod.fst) e.1
  let n ← tn.getNode e.1
  let ef ← TFactor.asEvidence e.1 n.node.values e.2 none
  match bs[i]? with
  | some b => do
    let b' ← b.2.mul so ef
    return bs.set i (b.1, b')
  | none => .error .indexError

/-- lines 147-157, see `VE.process` -/
def process (so : SetOrder) : Nat → Buckets → TFactor → Except PyErr (Buckets × TFactor)
  | 0, bs, last => .ok (bs, last)
  | _ + 1, [], _ => .error .indexError
  | k + 1, (v, b) :: bs, last => do
    let tmp ← b.marginalize [v]
    match ← place so tmp bs with
    | some bs' => process so k bs' last
    | none => do
      let last' ← last.mul so tmp
      process so k bs last'

/-- lines 160-161 -/
def combine (so : SetOrder) (bs : List TFactor) (last : TFactor) : Except PyErr TFactor :=
  match bs with
  | [] => .ok last
  | b :: bs => (bs ++ [last]).foldlM (fun acc b => b.mul so acc) b

/-- line 161 for any integer `i`, see `VE.wrapStep` -/
def wrapStep (so : SetOrder) (bl : List TFactor) (i : Int) : Except PyErr (List TFactor) := do
  let t ← VE.pyPos bl.length (i + 1)
  let s ← VE.pyPos bl.length i
  let b ← (bl.getD t (TFactor.trivial 1)).mul so (bl.getD s (TFactor.trivial 1))
  return bl.set t b

/-- lines 147-161 if the query is `d` longer than the order, see `VE.wrapCombine` -/
def wrapCombine (so : SetOrder) (d : Nat) (bl : List TFactor) : Except PyErr TFactor := do
  let r ← ((List.range (d + (bl.length - 1))).map fun k => (k : Int) - d).foldlM (wrapStep so) bl
  return r.getLastD (TFactor.trivial 1)

/-- `bucket_marginals` : `exact.py:86-166`, see `VE.bucketMarginals` -/
def bucketMarginals (so : SetOrder) (tn : TBN) (vars : List Name) (evidence : TEvidence)
    (order : Option (List Name)) : Except PyErr TFactor := do
  let order ← VE.chooseOrder tn.erase order
  let order ← VE.moveQuery order vars
  let factors ← order.mapM fun v => do
    let n ← tn.getNode v
    TFactor.fromNode n
  let bs := order.map fun v => (v, TFactor.trivial 1)
  let bs ← factors.foldlM (placeFactor so) bs
  let bs ← evidence.foldlM (placeEvidence so tn) bs
  if order.length < vars.length then do
    let r ← wrapCombine so (vars.length - order.length) (bs.map Prod.snd ++ [TFactor.trivial 1])
    r.normalize
  else do
    let (bs, last) ← process so (order.length - vars.length) bs (TFactor.trivial 1)
    let r ← combine so (bs.map Prod.snd) last
    r.normalize

end TVE

/-! ## `FactorTree` in `exact.py` -/

/-- data of a tree node (`exact.py:242-248`) -/
structure TClique where
  vars : List Name
  factor : TFactor

/-- data of a tree edge (`exact.py:253-255`) -/
structure TSep where
  u : Name
  w : Name
  sep : List Name
  factor : TFactor

/-- does the edge join these two nodes (in either order)? -/
def TSep.joins (e : TSep) (a b : Name) : Bool := (e.u == a && e.w == b) || (e.u == b && e.w == a)

/-- `FactorTree.tree`, see `JTree` -/
structure TTree where
  nodes : Dict TClique
  adj : UGraph
  edges : List TSep
  valid : Bool

/-- the tree without element types -/
def TTree.erase (t : TTree) : JTree where
  nodes := t.nodes.map fun p => (p.1, ⟨p.2.vars, p.2.factor.val⟩)
  adj := t.adj
  edges := t.edges.map fun e => ⟨e.u, e.w, e.sep, e.factor.val⟩
  valid := t.valid

/-- state after a call and the exception raised by it -/
abbrev TRes := TTree × Option PyErr

namespace TRes

/-- sequencing: stop at the first exception -/
def andThen (r : TRes) (f : TTree → TRes) : TRes :=
  match r.2 with
  | none => f r.1
  | some _ => r

/-- `for x in l: f(x)` -/
def forEach {α : Type} (f : α → TTree → TRes) : List α → TTree → TRes
  | [], t => (t, none)
  | x :: l, t => (f x t).andThen (forEach f l)

/-- a step that either replaces the state or raises without changing it -/
def ofExcept (t : TTree) : Except PyErr TTree → TRes
  | .ok t' => (t', none)
  | .error e => (t, some e)

end TRes

namespace TTree
open TRes JoinTree

/-- `tree.add_node(name, variables=..., factor=...)`, see `JoinTree.addNode` -/
def addNode (c : List Name) (t : TTree) : TTree :=
  { t with
    nodes := t.nodes.set (clusterName c) ⟨c, TFactor.trivial 1⟩
    adj := if clusterName c ∈ t.adj.nodes then t.adj else t.adj ++ [(clusterName c, [])] }

/-- `tree.add_edge(u, w, sep=..., factor=...)`, see `JoinTree.addEdge` -/
def addEdge (u w : Name) (sep : List Name) (t : TTree) : TTree :=
  { t with
    adj := t.adj.addEdge u w
    edges := if t.edges.any (fun e => e.joins u w) then
        t.edges.map fun e => if e.joins u w then { e with sep := sep, factor := .trivial 1 } else e
      else t.edges ++ [⟨u, w, sep, .trivial 1⟩] }

/-- `exact.py:241-256`, see `JoinTree.build` -/
def build : List (List Name) → TTree
  | [] => ⟨[], [], [], false⟩
  | c :: cs =>
    let t := addNode c (build cs)
    match cs.find? fun d => shared c cs ≠ [] && sub (shared c cs) d with
    | some d => addEdge (clusterName c) (clusterName d) (shared c cs) t
    | none => t

/-- `exact.py:260-264, 285-289, 333-336`, see `JoinTree.putFirst` -/
def putFirst (so : SetOrder) (p : List Name → Bool) (f : TFactor) :
    Dict TClique → Except PyErr (Dict TClique)
  | [] => .ok []
  | (k, n) :: rest =>
    if p n.vars then do
      let g ← n.factor.mul so f
      return (k, { n with factor := g }) :: rest
    else do
      let r ← putFirst so p f rest
      return (k, n) :: r

/-- one round of the loops at `exact.py:260-264` and `285-289` -/
def putFactor (so : SetOrder) (f : TFactor) (t : TTree) : TRes :=
  ofExcept t (do
    let ns ← putFirst so (fun vars => sub f.val.values.keys vars) f t.nodes
    return { t with nodes := ns })

/-- `create_jointree`: `exact.py:176-265` -/
def create (so : SetOrder) (tn : TBN) (order : Option (List Name)) : Except PyErr TTree := do
  let order ← VE.chooseOrder tn.erase order
  let factors ← tn.mapM TFactor.fromNode
  let cls ← clusters order (moralGraph tn.erase)
  let cls ← (swaps cls).foldlM applySwap cls
  match forEach (putFactor so) factors (build cls) with
  | (t, none) => return t
  | (_, some e) => .error e

/-- `tree[a][b]` -/
def edge (t : TTree) (a b : Name) : Except PyErr TSep :=
  match t.edges.find? (fun e => e.joins a b) with
  | some e => .ok e
  | none => .error .keyError

/-- `exact.py:280-283` -/
def blank (t : TTree) : TTree :=
  { t with
    nodes := t.nodes.map fun p => (p.1, { p.2 with factor := .trivial 1 })
    edges := t.edges.map fun e => { e with factor := .trivial 1 } }

/-- `reset_factors`: `exact.py:268-290` -/
def reset (so : SetOrder) (tn : TBN) (t : TTree) : TRes :=
  match tn.mapM TFactor.fromNode with
  | .error e => (t, some e)
  | .ok factors => (forEach (putFactor so) factors t.blank).andThen fun t =>
      ({ t with valid := false }, none)

/-- one message: `exact.py:418-421` and `443-447` -/
def send (so : SetOrder) (a b : Name) (t : TTree) : TRes :=
  ofExcept t (do
    let na ← t.nodes.getE a
    let e ← t.edge a b
    let new ← na.factor.marginalize (so.diff na.vars e.sep)
    let nb ← t.nodes.getE b
    let q ← new.div so e.factor
    let g ← nb.factor.mul so q
    return { t with
      nodes := t.nodes.set b { nb with factor := g }
      edges := t.edges.map fun e => if e.joins a b then { e with factor := new } else e })

/-- `pull_messages`: `exact.py:396-423` -/
def pull (so : SetOrder) : Nat → Name → Option Name → TTree → TRes
  | 0, _, _, t => (t, some .recursionError)
  | d + 1, cur, parent, t =>
    (forEach (fun nb t => if parent = some nb then (t, none) else pull so d nb (some cur) t)
      (t.adj.nbrs cur) t).andThen fun t =>
        match parent with
        | none => (t, none)
        | some p => if p = "" then (t, none) else send so cur p t

/-- `push_messages`: `exact.py:425-449` -/
def push (so : SetOrder) : Nat → Name → Option Name → TTree → TRes
  | 0, _, _, t => (t, some .recursionError)
  | d + 1, cur, parent, t =>
    forEach (fun nb t => if parent = some nb then (t, none) else
      (send so cur nb t).andThen (push so d nb (some cur))) (t.adj.nbrs cur) t

/-- `calculate_messages`: `exact.py:382-394` -/
def calculate (so : SetOrder) (limit : Nat) (t : TTree) : TRes :=
  match t.nodes with
  | [] => (t, none)
  | (root, _) :: _ =>
    match ((pull so limit root none t).andThen (push so limit root none)).andThen
        (fun t => ({ t with valid := true }, none)) with
    | (t, some .indexError) => (t, none)
    | r => r

/-- `exact.py:367-376` -/
def query (so : SetOrder) (vs : List Name) (t : TTree) : Except PyErr TFactor :=
  match t.nodes.find? fun p => sub vs p.2.vars with
  | some p => do
    let r ← p.2.factor.marginalize (so.diff p.2.vars vs)
    r.normalize
  | none => .error .valueError

/-- `marginals`: `exact.py:339-376` -/
def marginals (so : SetOrder) (limit : Nat) (vs : List Name) (t : TTree) :
    TTree × Except PyErr TFactor :=
  match if t.valid then (t, none) else calculate so limit t with
  | (t, none) => (t, query so vs t)
  | (t, some e) => (t, .error e)

/-- `exact.py:324-325` -/
def oldMarginals (so : SetOrder) (limit : Nat) : List Name → TTree →
    TTree × Except PyErr (Dict NDArray)
  | [], t => (t, .ok [])
  | e :: es, t =>
    match marginals so limit [e] t with
    | (t, .error x) => (t, .error x)
    | (t, .ok f) =>
      match oldMarginals so limit es t with
      | (t, .error x) => (t, .error x)
      | (t, .ok d) => (t, .ok ((e, f.val.potentials) :: d))

/-- `exact.py:329-336` -/
def putEvidence (so : SetOrder) (tn : TBN) (old : Dict NDArray) (e : Name × (Evidence × DType))
    (t : TTree) : TRes :=
  ofExcept t (do
    let n ← tn.getNode e.1
    let f ← TFactor.asEvidence e.1 n.node.values e.2 (old.get? e.1)
    let ns ← putFirst so (fun vars => vars.contains e.1) f t.nodes
    return { t with nodes := ns })

/-- `set_evidence`: `exact.py:293-337` -/
def setEvidence (so : SetOrder) (limit : Nat) (tn : TBN) (ev : TEvidence) (soft : Bool)
    (t : TTree) : TRes :=
  (reset so tn t).andThen fun t =>
    if soft then
      (calculate so limit t).andThen fun t =>
        match oldMarginals so limit ev.keys t with
        | (t, .error x) => (t, some x)
        | (t, .ok old) => (reset so tn t).andThen fun t =>
          (forEach (putEvidence so tn old) ev t).andThen (calculate so limit)
    else (forEach (putEvidence so tn []) ev t).andThen (calculate so limit)

end TTree

/-! ## `decision.py` -/

/-- a joint factor -/
abbrev TJoint := TFactor × TFactor

/-- The order in which Python iterates the `k`-th set of joint factors, which has `n` elements: see
`SetPerm`.  The order is given by positions in the list that stands for the set. -/
structure PosPerm where
  pos : ∀ (_ n : Nat), List (Fin n)
  isPerm : ∀ k n, (pos k n).Perm (List.finRange n)

/-- the elements of the set in that order -/
def PosPerm.list {α : Type} (pp : PosPerm) (k : Nat) (l : List α) : List α :=
  (pp.pos k l.length).map l.get

/-- the same order for sets of joint factors without element types -/
def PosPerm.erase (pp : PosPerm) : SetPerm where
  perm := pp.list
  isPerm k l := by
    have := (pp.isPerm k l.length).map l.get
    rwa [show (List.finRange l.length).map l.get = l from List.ext_getElem (by simp) (by simp)] at this

namespace TDecision

/-- `_combine_two_factors`: `decision.py:43-44` -/
def combineTwo (so : SetOrder) (f1 f2 : TJoint) : Except PyErr TJoint := do
  let p ← f1.1.mul so f2.1
  let u ← f1.2.add so f2.2
  return (p, u)

/-- `_combine_factors`: `decision.py:28-46` -/
def combine (so : SetOrder) : List TJoint → Except PyErr TJoint
  | [] => .error .typeError
  | f :: fs => fs.foldlM (combineTwo so) f

/-- `_marginalize_joint_factor`: `decision.py:48-67` -/
def marginalizeJoint (so : SetOrder) (f : TJoint) (v : Name) : Except PyErr TJoint := do
  let tmp ← f.1.marginalize [v]
  let pu ← f.1.mul so f.2
  let pu ← pu.marginalize [v]
  let u ← pu.div so tmp
  return (tmp, u)

/-- the loop of `generalized_VE`: `decision.py:91-98`, see `Decision.eliminate` -/
def eliminate (so : SetOrder) (pp : PosPerm) : Nat → List Name → List TJoint →
    Except PyErr (List TJoint)
  | _, [], working => .ok working
  | k, v :: vs, working => do
    let relevant := working.filter fun f => v ∈ f.1.val.variableOrder
    let tmp ← combine so (pp.list k relevant)
    let new ← marginalizeJoint so tmp v
    eliminate so pp (k + 1) vs ((working.filter fun f => v ∉ f.1.val.variableOrder) ++ [new])

/-- `generalized_VE`: `decision.py:69-102` -/
def generalizedVE (so : SetOrder) (pp : PosPerm) (factors : List TJoint) (vs : List Name) :
    Except PyErr TJoint := do
  let working ← eliminate so pp 0 vs factors
  combine so (pp.list vs.length working)

/-- the computation of `expected_utility` after the decisions have been set: `decision.py:130-135` -/
def evaluate (so : SetOrder) (pp : PosPerm) (tn : TBN) : Except PyErr NDArray := do
  let fs ← tn.mapM TFactor.joint
  let r ← generalizedVE so pp fs (Decision.chanceNames tn.erase)
  return r.2.val.potentials

/-- `_optimize_locally`: `decision.py:138-174`; what is compared are numbers, whatever their type -/
def optimizeLocally (so : SetOrder) (pp : PosPerm) (tn : TBN) (v : Name) :
    Except PyErr (Option Val) := do
  let d ← Decision.lookup tn.erase v
  let fs ← tn.mapM TFactor.joint
  let r ← generalizedVE so pp fs (Decision.othersOf tn.erase d)
  if d.kind = .utility then .error .attributeError else Decision.pick r.2.val v d.values none

end TDecision
end Primo
