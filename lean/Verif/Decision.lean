import Verif.Dynamic

/-!
# `primo2/inference/decision.py` and `DecisionNetwork`

A decision network is the list of node snapshots of `DecisionNetwork.node_lookup` in dict order
(`/repo/primo2/networks.py:318-327`): chance, decision and utility nodes.  A joint factor is a pair
(probability part, utility part).  `get_decision` (`decision.py:21-25`) is an empty stub.
-/

namespace Primo

/-- tuples `(probability factor, utility factor)`: `factor.py:594-617` -/
abbrev JointFactor := Factor × Factor

/-- The order in which Python iterates a set of joint factors (`decision.py:91-100`).  Factors hash by
identity, so the order depends on memory addresses and may differ from one iteration to the next:
`perm k` is the order used in the `k`-th iteration. -/
structure SetPerm where
  perm : Nat → List JointFactor → List JointFactor
  isPerm : ∀ k l, (perm k l).Perm l

/-- One possible iteration order, used in concrete examples. -/
def SetPerm.insertion : SetPerm := ⟨fun _ l => l, fun _ _ => .refl _⟩

/-- Another one. -/
def SetPerm.reversed : SetPerm := ⟨fun _ l => l.reverse, fun _ l => l.reverse_perm⟩

namespace Decision

/-- `_combine_two_factors`: `decision.py:43-44`. -/
def combineTwo (so : SetOrder) (f1 f2 : JointFactor) : Except PyErr JointFactor := do
  let p ← f1.1.mul so f2.1
  let u ← f1.2.add so f2.2
  return (p, u)

/-- `_combine_factors`: `decision.py:28-46` (`functools.reduce` of nothing is a `TypeError`). -/
def combine (so : SetOrder) : List JointFactor → Except PyErr JointFactor
  | [] => .error .typeError
  | f :: fs => fs.foldlM (combineTwo so) f

/-- `_marginalize_joint_factor`: `decision.py:48-67`. -/
def marginalizeJoint (so : SetOrder) (f : JointFactor) (v : Name) : Except PyErr JointFactor := do
  let tmp ← f.1.marginalize [v]
  let pu ← f.1.mul so f.2
  let pu ← pu.marginalize [v]
  let u ← pu.div so tmp
  return (tmp, u)

/-- The loop of `generalized_VE` (`decision.py:91-98`), `k` counting the iterations of sets.  The
working set is a list; its iteration order is that of the oracle. -/
def eliminate (so : SetOrder) (sp : SetPerm) : Nat → List Name → List JointFactor →
    Except PyErr (List JointFactor)
  | _, [], working => .ok working
  | k, v :: vs, working => do
    let relevant := working.filter fun f => v ∈ f.1.variableOrder
    let tmp ← combine so (sp.perm k relevant)
    let new ← marginalizeJoint so tmp v
    eliminate so sp (k + 1) vs ((working.filter fun f => v ∉ f.1.variableOrder) ++ [new])

/-- `generalized_VE`: `decision.py:69-102`. -/
def generalizedVE (so : SetOrder) (sp : SetPerm) (factors : List JointFactor) (vs : List Name) :
    Except PyErr JointFactor := do
  let working ← eliminate so sp 0 vs factors
  combine so (sp.perm vs.length working)

/-- `net.node_lookup[name]` -/
def lookup (dn : BN) (v : Name) : Except PyErr NodeV :=
  match dn.find? (fun n => n.name = v) with
  | some n => .ok n
  | none => .error .keyError

/-- `net.node_lookup[v].set_decision(x)`: `decision.py:125-127, 209`; only `DecisionNode` has the
method.  The node's table is changed even if the decision is unknown (`NodeV.setDecision`). -/
def setDecision (dn : BN) (v : Name) (x : Val) : BN × Option PyErr :=
  match lookup dn v with
  | .error e => (dn, some e)
  | .ok n =>
    if n.kind ≠ .decision then (dn, some .attributeError)
    else (dn.putCpd v (n.setDecision x).1, (n.setDecision x).2)

/-- the loop over `decisions`: `decision.py:124-127` -/
def setDecisions (dn : BN) : Dict Val → BN × Option PyErr
  | [] => (dn, none)
  | p :: ps =>
    match setDecision dn p.1 p.2 with
    | (dn, some e) => (dn, some e)
    | (dn, none) => setDecisions dn ps

/-- the joint factors of all nodes: `decision.py:130-132, 159-161` -/
def factors (dn : BN) : Except PyErr (List JointFactor) := dn.mapM Factor.joint

/-- `[node for node in net.node_lookup.values() if not isinstance(node, UtilityNode)]`:
`decision.py:134` -/
def chanceNames (dn : BN) : List Name := BN.names (dn.filter fun n => n.kind ≠ .utility)

/-- the computation of `expected_utility` after the decisions have been set: `decision.py:130-135` -/
def evaluate (so : SetOrder) (sp : SetPerm) (dn : BN) : Except PyErr NDArray := do
  let fs ← factors dn
  let r ← generalizedVE so sp fs (chanceNames dn)
  return r.2.potentials

/-- `expected_utility`: `decision.py:104-135`; the network is changed by the decisions. -/
def expectedUtility (so : SetOrder) (sp : SetPerm) (dn : BN) (decisions : Option (Dict Val)) :
    BN × Except PyErr NDArray :=
  match setDecisions dn (decisions.getD []) with
  | (dn, some e) => (dn, .error e)
  | (dn, none) => (dn, evaluate so sp dn)

/-- `bool(eu > maxVal)` for two tables of the same shape: the truth value of an array with several
entries is ambiguous (`ValueError`); without entries it is false.  `decision.py:170`. -/
def greater (eu maxVal : NDArray) : Except PyErr Bool :=
  match eu.data, maxVal.data with
  | [x], [y] => .ok (decide (x > y))
  | [], _ => .ok false
  | _, _ => .error .valueError

/-- the loop over the decisions: `decision.py:166-174` -/
def pick (r : Factor) (d : Name) : List Val → Option (Val × NDArray) → Except PyErr (Option Val)
  | [], best => .ok (best.map Prod.fst)
  | x :: xs, best => do
    let eu ← r.getPotential [(d, [x])]
    match best with
    | none => pick r d xs (some (x, eu))
    | some (y, maxVal) => do
      let b ← greater eu maxVal
      if b then pick r d xs (some (x, eu)) else pick r d xs (some (y, maxVal))

/-- the variables `_optimize_locally` eliminates: `decision.py:153-156` -/
def othersOf (dn : BN) (d : NodeV) : List Name :=
  BN.names (dn.filter fun n => n.name ≠ d.name ∧ n.kind ≠ .utility ∧ n.name ∉ d.parents.keys)

/-- `_optimize_locally`: `decision.py:138-174`; `none` is Python's `None` (no decisions to choose
from); a `UtilityNode` has no `values`. -/
def optimizeLocally (so : SetOrder) (sp : SetPerm) (dn : BN) (v : Name) :
    Except PyErr (Option Val) := do
  let d ← lookup dn v
  let fs ← factors dn
  let r ← generalizedVE so sp fs (othersOf dn d)
  if d.kind = .utility then .error .attributeError else pick r.2 v d.values none

/-- the preparation of one decision node: `decision.py:206-209` -/
def prepareOne (dn : BN) (fixed : Dict Val) (v : Name) : BN × Option PyErr :=
  match fixed.get? v with
  | some x => setDecision dn v x
  | none =>
    match lookup dn v with
    | .error e => (dn, some e)
    | .ok n =>
      if n.kind ≠ .decision then (dn, some .attributeError)
      else match n.fullyMixed with
        | .error e => (dn, some e)
        | .ok c => (dn.putCpd v c, none)

/-- the first loop of `get_optimal_decisions`: `decision.py:205-209` -/
def prepare (dn : BN) (fixed : Dict Val) : List Name → BN × Option PyErr
  | [] => (dn, none)
  | v :: vs =>
    match prepareOne dn fixed v with
    | (dn, some e) => (dn, some e)
    | (dn, none) => prepare dn fixed vs

/-- the second loop of `get_optimal_decisions`: `decision.py:211-214`; the sets of the `k`-th call
of `_optimize_locally` are iterated in the order `sps k`. -/
def optimizeAll (so : SetOrder) (sps : Nat → SetPerm) (dn : BN) : Nat → List Name →
    Dict (Option Val) → Except PyErr (Dict (Option Val))
  | _, [], sol => .ok sol
  | k, v :: vs, sol => do
    let x ← optimizeLocally so (sps k) dn v
    optimizeAll so sps dn (k + 1) vs (sol.set v x)

/-- `get_optimal_decisions`: `decision.py:177-216`; the decision nodes keep the rules installed by
the first loop. -/
def getOptimalDecisions (so : SetOrder) (sps : Nat → SetPerm) (dn : BN) (order : List Name)
    (fixed : Option (Dict Val)) : BN × Except PyErr (Dict (Option Val)) :=
  match prepare dn (fixed.getD []) order with
  | (dn, some e) => (dn, .error e)
  | (dn, none) => (dn, optimizeAll so sps dn 0 order [])

end Decision
end Primo
