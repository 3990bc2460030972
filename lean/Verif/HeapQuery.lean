import Verif.Heap
import Verif.JoinTree

/-!
# Memory: the inference algorithms of `primo2/inference/exact.py` on factor objects

`Verif.Exact` and `Verif.JoinTree` compute with factors as values.  Here the same functions run on the
memory of `Verif.Heap`: buckets, tree nodes and tree edges hold references to factor objects, tables of
nodes and evidence arrays are arrays of the memory.  What does not touch factors (elimination orders,
clusters, recursion over the tree) is as in those files.
-/

namespace Primo

/-- A network as the inference code sees it: its nodes in iteration order, each with the array its
attribute `cpd` refers to.  The field `cpd` of the first component is not used. -/
abbrev MNet := List (NodeV × Pot)

/-- evidence as the caller passes it: outcomes, or references to arrays -/
abbrev MEvidence := Dict (Val ⊕ Pot)

/-- data of a tree node (`exact.py:242-248`), with a reference to its factor -/
structure HNode where
  vars : List Name
  factor : Nat

/-- data of a tree edge (`exact.py:253-255`), with a reference to its factor -/
structure HEdge where
  u : Name
  w : Name
  sep : List Name
  factor : Nat

/-- does the edge join these two nodes (in either order)? -/
def HEdge.joins (e : HEdge) (a b : Name) : Bool := (e.u == a && e.w == b) || (e.u == b && e.w == a)

/-- `FactorTree.tree`, see `JTree` -/
structure HTree where
  nodes : Dict HNode
  adj : UGraph
  edges : List HEdge
  valid : Bool

/-- what can be read from a tree -/
def HTree.read (T : HTree) (h : Heap) : JTree where
  nodes := T.nodes.map fun p => (p.1, ⟨p.2.vars, h.factor p.2.factor⟩)
  adj := T.adj
  edges := T.edges.map fun e => ⟨e.u, e.w, e.sep, h.factor e.factor⟩
  valid := T.valid

/-- memory and tree after a call, and the exception raised by it -/
abbrev HRes := Heap × HTree × Option PyErr

namespace HRes

/-- sequencing: stop at the first exception -/
def andThen (r : HRes) (f : HTree → Heap → HRes) : HRes :=
  match r.2.2 with
  | none => f r.2.1 r.1
  | some _ => r

/-- `for x in l: f(x)` -/
def forEach {α : Type} (f : α → HTree → Heap → HRes) : List α → HTree → Heap → HRes
  | [], T, h => (h, T, none)
  | x :: l, T, h => (f x T h).andThen (forEach f l)

/-- a step that either replaces the tree or raises without changing it -/
def ofHM (T : HTree) (m : HM HTree) (h : Heap) : HRes :=
  match m h with
  | (h', .ok T') => (h', T', none)
  | (h', .error e) => (h', T, some e)

end HRes

/-- what a network looks like now -/
def MNet.snap (net : MNet) (h : Heap) : BN := net.map fun p => { p.1 with cpd := h.pot p.2 }

/-- `get_node` : `networks.py:68-73` -/
def MNet.getNode (net : MNet) (v : Name) : Except PyErr (NodeV × Pot) :=
  match net.find? (fun p => p.1.name = v) with
  | some p => .ok p
  | none => .error .exception

namespace Heap

/-- `from_node`: `factor.py:394-421`, with its `AttributeError` for utility nodes -/
def fromRandom (n : NodeV × Pot) : HM Nat :=
  if n.1.kind = .utility then HM.throw .attributeError else fromNode n.1 n.2

/-- `self * other` -/
def mul (so : SetOrder) (self other : Nat) : HM Nat := binop (· * ·) so false self other

/-- `[Factor.from_node(n) for n in ...]` -/
def fromRandoms : MNet → HM (List Nat)
  | [] => pure []
  | n :: ns => do
    let f ← fromRandom n
    let fs ← fromRandoms ns
    pure (f :: fs)

/-! ### `VariableElimination` -/

/-- `exact.py:67-71` -/
def naiveStep (so : SetOrder) (net : MNet) (evidence : MEvidence) (res : Nat) (v : Name) : HM Nat := do
  let n ← HM.lift (net.getNode v)
  let f ← fromRandom n
  let res ← mul so res f
  match evidence.get? v with
  | some e => do
    let ef ← asEvidence v n.1.values e none
    mul so res ef
  | none => pure res

/-- the loop at `exact.py:67-71` -/
def naiveLoop (so : SetOrder) (net : MNet) (evidence : MEvidence) : List Name → Nat → HM Nat
  | [], res => pure res
  | v :: vs, res => do
    let res ← naiveStep so net evidence res v
    naiveLoop so net evidence vs res

/-- the loop at `exact.py:75-77` -/
def naiveElim (vars : List Name) : List Name → Nat → HM Nat
  | [], res => pure res
  | v :: vs, res =>
    if v ∈ vars then naiveElim vars vs res
    else do
      let res ← marginalize res [v]
      naiveElim vars vs res

/-- `naive_marginals` : `exact.py:33-82` -/
def naiveMarginals (so : SetOrder) (net : MNet) (vars : List Name) (evidence : MEvidence) : HM Nat := do
  let order := net.map fun p => p.1.name
  let res ← trivial 1
  let res ← naiveLoop so net evidence order res
  let res ← naiveElim vars order res
  normalize res
  pure res

/-- the buckets with their variables -/
abbrev HBuckets := List (Name × Nat)

/-- `exact.py:137-140` and `151-154`, see `VE.place` -/
def place (so : SetOrder) (f : Nat) : HBuckets → HM (Option HBuckets)
  | [] => pure none
  | (u, b) :: rest => do
    let vals ← HM.read fun h => h.values f
    if u ∈ vals.keys then do
      let b' ← mul so b f
      pure (some ((u, b') :: rest))
    else do
      let r ← place so f rest
      pure (r.map ((u, b) :: ·))

/-- the loop at `exact.py:136-140` -/
def placeFactors (so : SetOrder) : List Nat → HBuckets → HM HBuckets
  | [], bs => pure bs
  | f :: fs, bs => do
    let r ← place so f bs
    placeFactors so fs (r.getD bs)

/-- `exact.py:143-145` -/
def placeEvidence (so : SetOrder) (net : MNet) (bs : HBuckets) (e : Name × (Val ⊕ Pot)) :
    HM HBuckets := do
  let i ← HM.lift (pyIndex (bs.map Prod.fst) e.1)
  let n ← HM.lift (net.getNode e.1)
  let ef ← asEvidence e.1 n.1.values e.2 none
  match bs[i]? with
  | some b => do
    let b' ← mul so b.2 ef
    pure (bs.set i (b.1, b'))
  | none => HM.throw .indexError

/-- the loop at `exact.py:143-145` -/
def placeEvidences (so : SetOrder) (net : MNet) : MEvidence → HBuckets → HM HBuckets
  | [], bs => pure bs
  | e :: es, bs => do
    let bs ← placeEvidence so net bs e
    placeEvidences so net es bs

/-- `exact.py:147-157` -/
def process (so : SetOrder) : Nat → HBuckets → Nat → HM (HBuckets × Nat)
  | 0, bs, last => pure (bs, last)
  | _ + 1, [], _ => HM.throw .indexError
  | k + 1, (v, b) :: bs, last => do
    let tmp ← marginalize b [v]
    let r ← place so tmp bs
    match r with
    | some bs' => process so k bs' last
    | none => do
      let last' ← mul so last tmp
      process so k bs last'

/-- the loop at `exact.py:160-161` -/
def combineLoop (so : SetOrder) : List Nat → Nat → HM Nat
  | [], acc => pure acc
  | b :: bs, acc => do
    let acc ← mul so b acc
    combineLoop so bs acc

/-- `exact.py:160-161` -/
def combine (so : SetOrder) (bs : List Nat) (last : Nat) : HM Nat :=
  match bs with
  | [] => pure last
  | b :: bs => combineLoop so (bs ++ [last]) b

/-- `exact.py:161` for any integers, see `VE.wrapStep` -/
def wrapLoop (so : SetOrder) : List Int → List Nat → HM (List Nat)
  | [], bl => pure bl
  | i :: is, bl => do
    let t ← HM.lift (VE.pyPos bl.length (i + 1))
    let s ← HM.lift (VE.pyPos bl.length i)
    let b ← mul so (bl.getD t 0) (bl.getD s 0)
    wrapLoop so is (bl.set t b)

/-- `exact.py:147-161` if the query is `d` longer than the order, see `VE.wrapCombine` -/
def wrapCombine (so : SetOrder) (d : Nat) (bl : List Nat) : HM Nat := do
  let r ← wrapLoop so ((List.range (d + (bl.length - 1))).map fun k => (k : Int) - d) bl
  pure (r.getLastD 0)

/-- `[Factor.get_trivial() for i in range(n)]` -/
def trivials : Nat → HM (List Nat)
  | 0 => pure []
  | n + 1 => do
    let f ← trivial 1
    let fs ← trivials n
    pure (f :: fs)

/-- the factors at `exact.py:129` -/
def bucketFactors (net : MNet) : List Name → HM (List Nat)
  | [] => pure []
  | v :: vs => do
    let n ← HM.lift (net.getNode v)
    let f ← fromRandom n
    let fs ← bucketFactors net vs
    pure (f :: fs)

/-- `bucket_marginals` : `exact.py:86-166`, see `VE.bucketMarginals` -/
def bucketMarginals (so : SetOrder) (net : MNet) (vars : List Name) (evidence : MEvidence)
    (order : Option (List Name)) : HM Nat := do
  let bn ← HM.read net.snap
  let order ← HM.lift (VE.chooseOrder bn order)
  let order ← HM.lift (VE.moveQuery order vars)
  let factors ← bucketFactors net order
  let bl ← trivials order.length
  let last ← trivial 1
  let bs ← placeFactors so factors (order.zip bl)
  let bs ← placeEvidences so net evidence bs
  if order.length < vars.length then do
    let r ← wrapCombine so (vars.length - order.length) (bs.map Prod.snd ++ [last])
    normalize r
    pure r
  else do
    let p ← process so (order.length - vars.length) bs last
    let r ← combine so (p.1.map Prod.snd) p.2
    normalize r
    pure r

/-! ### `FactorTree` -/

/-- `tree.add_node(name, variables=..., factor=...)`, see `JoinTree.addNode` -/
def addNode (c : List Name) (T : HTree) : HM HTree := do
  let f ← trivial 1
  pure { T with
    nodes := T.nodes.set (JoinTree.clusterName c) ⟨c, f⟩
    adj := if JoinTree.clusterName c ∈ T.adj.nodes then T.adj
      else T.adj ++ [(JoinTree.clusterName c, [])] }

/-- `tree.add_edge(u, w, sep=..., factor=...)`, see `JoinTree.addEdge` -/
def addEdge (u w : Name) (sep : List Name) (T : HTree) : HM HTree := do
  let f ← trivial 1
  pure { T with
    adj := T.adj.addEdge u w
    edges := if T.edges.any (fun e => e.joins u w) then
        T.edges.map fun e => if e.joins u w then { e with sep := sep, factor := f } else e
      else T.edges ++ [⟨u, w, sep, f⟩] }

/-- `exact.py:241-256`, see `JoinTree.build` -/
def build : List (List Name) → HM HTree
  | [] => pure ⟨[], [], [], false⟩
  | c :: cs => do
    let T ← build cs
    let T ← addNode c T
    match cs.find? fun d => JoinTree.shared c cs ≠ [] && JoinTree.sub (JoinTree.shared c cs) d with
    | some d => addEdge (JoinTree.clusterName c) (JoinTree.clusterName d) (JoinTree.shared c cs) T
    | none => pure T

/-- `exact.py:260-264, 285-289, 333-336`, see `JoinTree.putFirst` -/
def putFirst (so : SetOrder) (p : List Name → Bool) (f : Nat) : Dict HNode → HM (Dict HNode)
  | [] => pure []
  | (k, n) :: rest =>
    if p n.vars then do
      let g ← mul so n.factor f
      pure ((k, { n with factor := g }) :: rest)
    else do
      let r ← putFirst so p f rest
      pure ((k, n) :: r)

/-- one round of the loops at `exact.py:260-264` and `285-289` -/
def putFactor (so : SetOrder) (f : Nat) (T : HTree) (h : Heap) : HRes :=
  HRes.ofHM T (do
    let vals ← HM.read fun h => h.values f
    let ns ← putFirst so (fun vars => JoinTree.sub vals.keys vars) f T.nodes
    pure { T with nodes := ns }) h

/-- `create_jointree`: `exact.py:176-265` -/
def createTree (so : SetOrder) (net : MNet) (order : Option (List Name)) : HM HTree := do
  let bn ← HM.read net.snap
  let order ← HM.lift (VE.chooseOrder bn order)
  let factors ← fromRandoms net
  let cls ← HM.lift (JoinTree.clusters order (JoinTree.moralGraph bn))
  let cls ← HM.lift ((JoinTree.swaps cls).foldlM JoinTree.applySwap cls)
  let T ← build cls
  fun h =>
    match HRes.forEach (putFactor so) factors T h with
    | (h', T', none) => (h', .ok T')
    | (h', _, some e) => (h', .error e)

/-- `exact.py:280-281` -/
def blankNodes : Dict HNode → HM (Dict HNode)
  | [] => pure []
  | (k, n) :: rest => do
    let f ← trivial 1
    let r ← blankNodes rest
    pure ((k, { n with factor := f }) :: r)

/-- `exact.py:282-283` -/
def blankEdges : List HEdge → HM (List HEdge)
  | [] => pure []
  | e :: rest => do
    let f ← trivial 1
    let r ← blankEdges rest
    pure ({ e with factor := f } :: r)

/-- `reset_factors`: `exact.py:268-290` -/
def reset (so : SetOrder) (net : MNet) (T : HTree) (h : Heap) : HRes :=
  match fromRandoms net h with
  | (h, .error e) => (h, T, some e)
  | (h, .ok factors) =>
    (HRes.ofHM T (do
      let ns ← blankNodes T.nodes
      let es ← blankEdges T.edges
      pure { T with nodes := ns, edges := es }) h).andThen fun T h =>
    (HRes.forEach (putFactor so) factors T h).andThen fun T h => (h, { T with valid := false }, none)

/-- `tree[a][b]` -/
def treeEdge (T : HTree) (a b : Name) : Except PyErr HEdge :=
  match T.edges.find? (fun e => e.joins a b) with
  | some e => .ok e
  | none => .error .keyError

/-- one message: `exact.py:418-421` and `443-447`, see `JTree.send` -/
def send (so : SetOrder) (a b : Name) (T : HTree) (h : Heap) : HRes :=
  HRes.ofHM T (do
    let na ← HM.lift (T.nodes.getE a)
    let e ← HM.lift (treeEdge T a b)
    let new ← marginalize na.factor (so.diff na.vars e.sep)
    let nb ← HM.lift (T.nodes.getE b)
    let q ← div so new e.factor
    let g ← mul so nb.factor q
    pure { T with
      nodes := T.nodes.set b { nb with factor := g }
      edges := T.edges.map fun e => if e.joins a b then { e with factor := new } else e }) h

/-- `pull_messages`: `exact.py:396-423`, see `JTree.pull` -/
def pull (so : SetOrder) : Nat → Name → Option Name → HTree → Heap → HRes
  | 0, _, _, T, h => (h, T, some .recursionError)
  | d + 1, cur, parent, T, h =>
    (HRes.forEach (fun nb T h => if parent = some nb then (h, T, none) else pull so d nb (some cur) T h)
      (T.adj.nbrs cur) T h).andThen fun T h =>
        match parent with
        | none => (h, T, none)
        | some p => if p = "" then (h, T, none) else send so cur p T h

/-- `push_messages`: `exact.py:425-449`, see `JTree.push` -/
def push (so : SetOrder) : Nat → Name → Option Name → HTree → Heap → HRes
  | 0, _, _, T, h => (h, T, some .recursionError)
  | d + 1, cur, parent, T, h =>
    HRes.forEach (fun nb T h => if parent = some nb then (h, T, none) else
      (send so cur nb T h).andThen (push so d nb (some cur))) (T.adj.nbrs cur) T h

/-- `calculate_messages`: `exact.py:382-394`, see `JTree.calculate` -/
def calculate (so : SetOrder) (limit : Nat) (T : HTree) (h : Heap) : HRes :=
  match T.nodes with
  | [] => (h, T, none)
  | (root, _) :: _ =>
    match ((pull so limit root none T h).andThen (push so limit root none)).andThen
        (fun T h => (h, { T with valid := true }, none)) with
    | (h, T, some .indexError) => (h, T, none)
    | r => r

/-- `exact.py:367-376`, see `JTree.query` -/
def treeQuery (so : SetOrder) (vs : List Name) (T : HTree) : HM Nat :=
  match T.nodes.find? fun p => JoinTree.sub vs p.2.vars with
  | some p => do
    let r ← marginalize p.2.factor (so.diff p.2.vars vs)
    normalize r
    pure r
  | none => HM.throw .valueError

/-- `marginals`: `exact.py:339-376`; also returns the tree, whose messages may be computed by this. -/
def treeMarginals (so : SetOrder) (limit : Nat) (vs : List Name) (T : HTree) (h : Heap) :
    Heap × HTree × Except PyErr Nat :=
  match if T.valid then (h, T, none) else calculate so limit T h with
  | (h, T, none) => ((treeQuery so vs T h).1, T, (treeQuery so vs T h).2)
  | (h, T, some e) => (h, T, .error e)

/-- `exact.py:324-325`; the entries are references to the tables of the answers -/
def oldMarginals (so : SetOrder) (limit : Nat) : List Name → HTree → Heap →
    Heap × HTree × Except PyErr (Dict Pot)
  | [], T, h => (h, T, .ok [])
  | e :: es, T, h =>
    match treeMarginals so limit [e] T h with
    | (h, T, .error x) => (h, T, .error x)
    | (h, T, .ok f) =>
      match oldMarginals so limit es T h with
      | (h', T, .error x) => (h', T, .error x)
      | (h', T, .ok d) => (h', T, .ok ((e, (h.fac f).pot) :: d))

/-- `exact.py:329-336` -/
def putEvidence (so : SetOrder) (net : MNet) (old : Dict Pot) (e : Name × (Val ⊕ Pot)) (T : HTree)
    (h : Heap) : HRes :=
  HRes.ofHM T (do
    let n ← HM.lift (net.getNode e.1)
    let f ← asEvidence e.1 n.1.values e.2 (old.get? e.1)
    let ns ← putFirst so (fun vars => vars.contains e.1) f T.nodes
    pure { T with nodes := ns }) h

/-- `set_evidence`: `exact.py:293-337`, see `JTree.setEvidence` -/
def setEvidence (so : SetOrder) (limit : Nat) (net : MNet) (ev : MEvidence) (soft : Bool) (T : HTree)
    (h : Heap) : HRes :=
  (reset so net T h).andThen fun T h =>
    if soft then
      (calculate so limit T h).andThen fun T h =>
        match oldMarginals so limit ev.keys T h with
        | (h, T, .error x) => (h, T, some x)
        | (h, T, .ok old) => (reset so net T h).andThen fun T h =>
          (HRes.forEach (putEvidence so net old) ev T h).andThen (calculate so limit)
    else (HRes.forEach (putEvidence so net []) ev T h).andThen (calculate so limit)

end Heap
end Primo
