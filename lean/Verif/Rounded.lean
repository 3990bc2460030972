import Verif.JoinTree

/-!
# Inference with rounded arithmetic

`Verif.Factor` and `Verif.Exact` compute with exact rational numbers.  Here the same functions take the
arithmetic as a parameter: `Arith.exact` gives back the functions there (proved in
`Verif.Lemmas.Rounded`), a floating point unit without over- and underflow is an `Arith` that is
`Accurate` (`Verif.Spec.Rounded`).
-/

namespace Primo

/-- The arithmetic operations of numpy that the inference code uses on potentials.  `sum` is `np.sum`
(of the numbers along an axis, or of all), which may add in any order. -/
structure Arith where
  add : ℚ → ℚ → ℚ
  mul : ℚ → ℚ → ℚ
  div : ℚ → ℚ → ℚ
  sum : List ℚ → ℚ

/-- exact arithmetic -/
def Arith.exact : Arith := ⟨(· + ·), (· * ·), (· / ·), List.sum⟩

/-- `np.sum(a, axis=ax)` -/
def NDArray.sumAxisR (A : Arith) (a : NDArray) (ax : Nat) : Except PyErr NDArray :=
  if ax < a.ndim then
    .ok <| tabulate (a.shape.eraseIdx ax) fun idx =>
      A.sum ((List.range (a.shape.getD ax 0)).map fun i => a.get (idx.insertIdx ax i))
  else .error .axisError

namespace Factor

/-- `__mul__`: `factor.py:161-236` -/
def mulR (A : Arith) (so : SetOrder) (self other : Factor) : Except PyErr Factor :=
  binop A.mul so self other

/-- `invert`: `factor.py:257-280`, see `Factor.invert` -/
def invertR (A : Arith) (self : Factor) : Except PyErr Factor :=
  if self.variableOrder.length = 0 then
    if (0 : ℚ) ∈ self.potentials.data then .error .floatingPointError
    else .ok { self with potentials := self.potentials.map fun x => A.div 1 x }
  else .ok { self with potentials := self.potentials.map fun x => if x = 0 then 0 else A.div 1 x }

/-- `__truediv__`: `factor.py:138-159` -/
def divR (A : Arith) (so : SetOrder) (self other : Factor) : Except PyErr Factor :=
  if ∀ v ∈ other.values.keys, v ∈ self.values.keys then do
    let inv ← other.invertR A
    self.mulR A so inv
  else .error .valueError

/-- one round of the loop of `marginalize`: `factor.py:537-539` -/
def sumOutR (A : Arith) (res : Factor) (v : Name) : Except PyErr Factor := do
  let ax ← pyIndex res.variableOrder v
  let p ← res.potentials.sumAxisR A ax
  let vals ← res.values.delE v
  return ⟨p, res.variableOrder.erase v, vals⟩

/-- `marginalize`: `factor.py:513-541` -/
def marginalizeR (A : Arith) (self : Factor) (vars : List Name) : Except PyErr Factor :=
  vars.foldlM (sumOutR A) self

/-- `normalize`: `factor.py:584-591` -/
def normalizeR (A : Arith) (self : Factor) : Factor :=
  let s := A.sum self.potentials.data
  if s > 0 then { self with potentials := self.potentials.map fun x => A.div x s } else self

end Factor

namespace VE

/-- `exact.py:67-71` -/
def naiveStepR (A : Arith) (so : SetOrder) (bn : BN) (evidence : Dict Evidence) (res : Factor)
    (v : Name) : Except PyErr Factor := do
  let n ← bn.getNode v
  let f ← Factor.fromNode n
  let res ← res.mulR A so f
  match evidence.get? v with
  | some e => do
    let ef ← Factor.asEvidence v n.values e
    res.mulR A so ef
  | none => return res

/-- `exact.py:75-77` -/
def naiveElimR (A : Arith) (vars : List Name) (res : Factor) (v : Name) : Except PyErr Factor :=
  if v ∈ vars then return res else res.marginalizeR A [v]

/-- `naive_marginals` : `exact.py:33-82` -/
def naiveMarginalsR (A : Arith) (so : SetOrder) (bn : BN) (vars : List Name)
    (evidence : Dict Evidence) : Except PyErr Factor := do
  let order := bn.names
  let res ← order.foldlM (naiveStepR A so bn evidence) (Factor.trivial 1)
  let res ← order.foldlM (naiveElimR A vars) res
  return res.normalizeR A

/-- `exact.py:137-140` and `151-154` -/
def placeR (A : Arith) (so : SetOrder) (f : Factor) : Buckets → Except PyErr (Option Buckets)
  | [] => .ok none
  | (u, b) :: rest =>
    if f.contains u then do
      let b' ← b.mulR A so f
      return some ((u, b') :: rest)
    else do
      let r ← placeR A so f rest
      return r.map ((u, b) :: ·)

/-- `exact.py:136-140` -/
def placeFactorR (A : Arith) (so : SetOrder) (bs : Buckets) (f : Factor) : Except PyErr Buckets := do
  let r ← placeR A so f bs
  return r.getD bs

/-- `exact.py:143-145` -/
def placeEvidenceR (A : Arith) (so : SetOrder) (bn : BN) (bs : Buckets) (e : Name × Evidence) :
    Except PyErr Buckets := do
  let i ← pyIndex (bs.map Prod.fst) e.1
  let n ← bn.getNode e.1
  let ef ← Factor.asEvidence e.1 n.values e.2
  match bs[i]? with
  | some b => do
    let b' ← b.2.mulR A so ef
    return bs.set i (b.1, b')
  | none => .error .indexError

/-- `exact.py:147-157` -/
def processR (A : Arith) (so : SetOrder) : Nat → Buckets → Factor → Except PyErr (Buckets × Factor)
  | 0, bs, last => .ok (bs, last)
  | _ + 1, [], _ => .error .indexError
  | k + 1, (v, b) :: bs, last => do
    let tmp ← b.marginalizeR A [v]
    match ← placeR A so tmp bs with
    | some bs' => processR A so k bs' last
    | none => do
      let last' ← last.mulR A so tmp
      processR A so k bs last'

/-- `exact.py:160-161` -/
def combineR (A : Arith) (so : SetOrder) (bs : List Factor) (last : Factor) : Except PyErr Factor :=
  match bs with
  | [] => .ok last
  | b :: bs => (bs ++ [last]).foldlM (fun acc b => b.mulR A so acc) b

/-- `exact.py:161` for any integer `i` -/
def wrapStepR (A : Arith) (so : SetOrder) (bl : List Factor) (i : Int) :
    Except PyErr (List Factor) := do
  let t ← pyPos bl.length (i + 1)
  let s ← pyPos bl.length i
  let b ← (bl.getD t (Factor.trivial 1)).mulR A so (bl.getD s (Factor.trivial 1))
  return bl.set t b

/-- `exact.py:147-161` if the query is longer than the order -/
def wrapCombineR (A : Arith) (so : SetOrder) (d : Nat) (bl : List Factor) : Except PyErr Factor := do
  let r ← ((List.range (d + (bl.length - 1))).map fun k => (k : Int) - d).foldlM (wrapStepR A so) bl
  return r.getLastD (Factor.trivial 1)

/-- `bucket_marginals` : `exact.py:86-166` -/
def bucketMarginalsR (A : Arith) (so : SetOrder) (bn : BN) (vars : List Name)
    (evidence : Dict Evidence) (order : Option (List Name)) : Except PyErr Factor := do
  let order ← chooseOrder bn order
  let order ← moveQuery order vars
  let factors ← order.mapM fun v => do
    let n ← bn.getNode v
    Factor.fromNode n
  let bs := order.map fun v => (v, Factor.trivial 1)
  let bs ← factors.foldlM (placeFactorR A so) bs
  let bs ← evidence.foldlM (placeEvidenceR A so bn) bs
  if order.length < vars.length then do
    let r ← wrapCombineR A so (vars.length - order.length) (bs.map Prod.snd ++ [Factor.trivial 1])
    return r.normalizeR A
  else do
    let (bs, last) ← processR A so (order.length - vars.length) bs (Factor.trivial 1)
    let r ← combineR A so (bs.map Prod.snd) last
    return r.normalizeR A

end VE

namespace Factor

/-- `as_evidence`: `factor.py:423-509`, see `Factor.asEvidence`; the arithmetic of line 505 is done from
left to right -/
def asEvidenceR (A : Arith) (var : Name) (values : List Val) (evidence : Evidence)
    (oldMarginals : Option NDArray := none) : Except PyErr Factor :=
  match evidence with
  | .hard e =>
    if e ∈ values then
      .ok ⟨NDArray.tabulate [values.length] (fun idx => if idx = [values.idxOf e] then 1 else 0),
        [var], [(var, values)]⟩
    else .error .valueError
  | .soft e =>
    if e.length ≠ values.length then .error .valueError
    else match oldMarginals with
    | none => .ok ⟨NDArray.ofList e, [var], [(var, values)]⟩
    | some old => do
      let ref ← argmax e
      let refEvidence := e.getD ref 0
      let pots ← (List.range values.length).mapM fun i =>
        if i = ref then .ok 1
        else if old.shape.headD 0 ≤ i then .error PyErr.indexError
        else if old.get [i] = 0 then .ok 0
        else if old.shape.headD 0 ≤ ref then .error PyErr.indexError
        else if refEvidence = 0 then .error PyErr.nonFinite
        else .ok (A.div (A.mul (A.div (e.getD i 0) (old.get [i])) (old.get [ref])) refEvidence)
      return ⟨NDArray.ofList pots, [var], [(var, values)]⟩

end Factor

namespace JoinTree

/-- `exact.py:260-264, 285-289, 333-336` -/
def putFirstR (A : Arith) (so : SetOrder) (p : List Name → Bool) (f : Factor) :
    Dict JNode → Except PyErr (Dict JNode)
  | [] => .ok []
  | (k, n) :: rest =>
    if p n.vars then do
      let g ← n.factor.mulR A so f
      return (k, { n with factor := g }) :: rest
    else do
      let r ← putFirstR A so p f rest
      return (k, n) :: r

/-- `exact.py:260-264` and `285-289` -/
def putFactorR (A : Arith) (so : SetOrder) (f : Factor) (t : JTree) : JRes :=
  JRes.ofExcept t (do
    let ns ← putFirstR A so (fun vars => sub f.values.keys vars) f t.nodes
    return { t with nodes := ns })

/-- `create_jointree`: `exact.py:176-265` -/
def createR (A : Arith) (so : SetOrder) (bn : BN) (order : Option (List Name)) : Except PyErr JTree := do
  let order ← VE.chooseOrder bn order
  let factors ← bn.mapM Factor.fromNode
  let cls ← clusters order (moralGraph bn)
  let cls ← (swaps cls).foldlM applySwap cls
  match JRes.forEach (putFactorR A so) factors (build cls) with
  | (t, none) => return t
  | (_, some e) => .error e

end JoinTree

namespace JTree
open JRes JoinTree

/-- `reset_factors`: `exact.py:268-290` -/
def resetR (A : Arith) (so : SetOrder) (bn : BN) (t : JTree) : JRes :=
  match bn.mapM Factor.fromNode with
  | .error e => (t, some e)
  | .ok factors => (forEach (putFactorR A so) factors t.blank).andThen fun t =>
      ({ t with valid := false }, none)

/-- one message: `exact.py:418-421` and `443-447` -/
def sendR (A : Arith) (so : SetOrder) (a b : Name) (t : JTree) : JRes :=
  JRes.ofExcept t (do
    let na ← t.nodes.getE a
    let e ← t.edge a b
    let new ← na.factor.marginalizeR A (so.diff na.vars e.sep)
    let nb ← t.nodes.getE b
    let q ← new.divR A so e.factor
    let g ← nb.factor.mulR A so q
    return { t with
      nodes := t.nodes.set b { nb with factor := g }
      edges := t.edges.map fun e => if e.joins a b then { e with factor := new } else e })

/-- `pull_messages`: `exact.py:396-423` -/
def pullR (A : Arith) (so : SetOrder) : Nat → Name → Option Name → JTree → JRes
  | 0, _, _, t => (t, some .recursionError)
  | d + 1, cur, parent, t =>
    (forEach (fun nb t => if parent = some nb then (t, none) else pullR A so d nb (some cur) t)
      (t.adj.nbrs cur) t).andThen fun t =>
        match parent with
        | none => (t, none)
        | some p => if p = "" then (t, none) else sendR A so cur p t

/-- `push_messages`: `exact.py:425-449` -/
def pushR (A : Arith) (so : SetOrder) : Nat → Name → Option Name → JTree → JRes
  | 0, _, _, t => (t, some .recursionError)
  | d + 1, cur, parent, t =>
    forEach (fun nb t => if parent = some nb then (t, none) else
      (sendR A so cur nb t).andThen (pushR A so d nb (some cur))) (t.adj.nbrs cur) t

/-- `calculate_messages`: `exact.py:382-394` -/
def calculateR (A : Arith) (so : SetOrder) (limit : Nat) (t : JTree) : JRes :=
  match t.nodes with
  | [] => (t, none)
  | (root, _) :: _ =>
    match ((pullR A so limit root none t).andThen (pushR A so limit root none)).andThen
        (fun t => ({ t with valid := true }, none)) with
    | (t, some .indexError) => (t, none)
    | r => r

/-- `exact.py:367-376` -/
def queryR (A : Arith) (so : SetOrder) (vs : List Name) (t : JTree) : Except PyErr Factor :=
  match t.nodes.find? fun p => sub vs p.2.vars with
  | some p => do
    let r ← p.2.factor.marginalizeR A (so.diff p.2.vars vs)
    return r.normalizeR A
  | none => .error .valueError

/-- `marginals`: `exact.py:339-376` -/
def marginalsR (A : Arith) (so : SetOrder) (limit : Nat) (vs : List Name) (t : JTree) :
    JTree × Except PyErr Factor :=
  match if t.valid then (t, none) else calculateR A so limit t with
  | (t, none) => (t, queryR A so vs t)
  | (t, some e) => (t, .error e)

/-- `exact.py:324-325` -/
def oldMarginalsR (A : Arith) (so : SetOrder) (limit : Nat) : List Name → JTree →
    JTree × Except PyErr (Dict NDArray)
  | [], t => (t, .ok [])
  | e :: es, t =>
    match marginalsR A so limit [e] t with
    | (t, .error x) => (t, .error x)
    | (t, .ok f) =>
      match oldMarginalsR A so limit es t with
      | (t, .error x) => (t, .error x)
      | (t, .ok d) => (t, .ok ((e, f.potentials) :: d))

/-- `exact.py:329-336` -/
def putEvidenceR (A : Arith) (so : SetOrder) (bn : BN) (old : Dict NDArray) (e : Name × Evidence)
    (t : JTree) : JRes :=
  JRes.ofExcept t (do
    let n ← bn.getNode e.1
    let f ← Factor.asEvidenceR A e.1 n.values e.2 (old.get? e.1)
    let ns ← putFirstR A so (fun vars => vars.contains e.1) f t.nodes
    return { t with nodes := ns })

/-- `set_evidence`: `exact.py:293-337` -/
def setEvidenceR (A : Arith) (so : SetOrder) (limit : Nat) (bn : BN) (ev : Dict Evidence) (soft : Bool)
    (t : JTree) : JRes :=
  (resetR A so bn t).andThen fun t =>
    if soft then
      (calculateR A so limit t).andThen fun t =>
        match oldMarginalsR A so limit ev.keys t with
        | (t, .error x) => (t, some x)
        | (t, .ok old) => (resetR A so bn t).andThen fun t =>
          (forEach (putEvidenceR A so bn old) ev t).andThen (calculateR A so limit)
    else (forEach (putEvidenceR A so bn []) ev t).andThen (calculateR A so limit)

end JTree
end Primo
