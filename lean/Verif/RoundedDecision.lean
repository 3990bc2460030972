import Verif.Rounded
import Verif.Decision

/-!
# Decisions with rounded arithmetic

The functions of `Verif.Decision` once more, with the arithmetic as a parameter (see `Verif.Rounded`).
Setting a decision writes zeros and a one, which is exact; comparisons of expected utilities are exact.
-/

namespace Primo

/-- `__add__`: `factor.py:63-136` -/
def Factor.addR (A : Arith) (so : SetOrder) (self other : Factor) : Except PyErr Factor :=
  Factor.binop A.add so self other

/-- the table after `fully_mixed`: `nodes.py:594-596` -/
def NodeV.fullyMixedR (A : Arith) (n : NodeV) : Except PyErr NDArray :=
  if n.values.length = 0 ∧ n.cpd.data ≠ [] then .error .nonFinite
  else .ok ((NDArray.ones n.cpd.shape).map fun x => A.div x n.values.length)

namespace Decision

/-- `_combine_two_factors`: `decision.py:43-44` -/
def combineTwoR (A : Arith) (so : SetOrder) (f1 f2 : JointFactor) : Except PyErr JointFactor := do
  let p ← f1.1.mulR A so f2.1
  let u ← f1.2.addR A so f2.2
  return (p, u)

/-- `_combine_factors`: `decision.py:28-46` -/
def combineR (A : Arith) (so : SetOrder) : List JointFactor → Except PyErr JointFactor
  | [] => .error .typeError
  | f :: fs => fs.foldlM (combineTwoR A so) f

/-- `_marginalize_joint_factor`: `decision.py:48-67` -/
def marginalizeJointR (A : Arith) (so : SetOrder) (f : JointFactor) (v : Name) :
    Except PyErr JointFactor := do
  let tmp ← f.1.marginalizeR A [v]
  let pu ← f.1.mulR A so f.2
  let pu ← pu.marginalizeR A [v]
  let u ← pu.divR A so tmp
  return (tmp, u)

/-- the loop of `generalized_VE`: `decision.py:91-98`, see `eliminate` -/
def eliminateR (A : Arith) (so : SetOrder) (sp : SetPerm) : Nat → List Name → List JointFactor →
    Except PyErr (List JointFactor)
  | _, [], working => .ok working
  | k, v :: vs, working => do
    let relevant := working.filter fun f => v ∈ f.1.variableOrder
    let tmp ← combineR A so (sp.perm k relevant)
    let new ← marginalizeJointR A so tmp v
    eliminateR A so sp (k + 1) vs ((working.filter fun f => v ∉ f.1.variableOrder) ++ [new])

/-- `generalized_VE`: `decision.py:69-102` -/
def generalizedVER (A : Arith) (so : SetOrder) (sp : SetPerm) (factors : List JointFactor)
    (vs : List Name) : Except PyErr JointFactor := do
  let working ← eliminateR A so sp 0 vs factors
  combineR A so (sp.perm vs.length working)

/-- `decision.py:130-135` -/
def evaluateR (A : Arith) (so : SetOrder) (sp : SetPerm) (dn : BN) : Except PyErr NDArray := do
  let fs ← factors dn
  let r ← generalizedVER A so sp fs (chanceNames dn)
  return r.2.potentials

/-- `expected_utility`: `decision.py:104-135` -/
def expectedUtilityR (A : Arith) (so : SetOrder) (sp : SetPerm) (dn : BN)
    (decisions : Option (Dict Val)) : BN × Except PyErr NDArray :=
  match setDecisions dn (decisions.getD []) with
  | (dn, some e) => (dn, .error e)
  | (dn, none) => (dn, evaluateR A so sp dn)

/-- `_optimize_locally`: `decision.py:138-174`, see `optimizeLocally` -/
def optimizeLocallyR (A : Arith) (so : SetOrder) (sp : SetPerm) (dn : BN) (v : Name) :
    Except PyErr (Option Val) := do
  let d ← lookup dn v
  let fs ← factors dn
  let r ← generalizedVER A so sp fs (othersOf dn d)
  if d.kind = .utility then .error .attributeError else pick r.2 v d.values none

/-- the preparation of one decision node: `decision.py:206-209` -/
def prepareOneR (A : Arith) (dn : BN) (fixed : Dict Val) (v : Name) : BN × Option PyErr :=
  match fixed.get? v with
  | some x => setDecision dn v x
  | none =>
    match lookup dn v with
    | .error e => (dn, some e)
    | .ok n =>
      if n.kind ≠ .decision then (dn, some .attributeError)
      else match n.fullyMixedR A with
        | .error e => (dn, some e)
        | .ok c => (dn.putCpd v c, none)

/-- the first loop of `get_optimal_decisions`: `decision.py:205-209` -/
def prepareR (A : Arith) (dn : BN) (fixed : Dict Val) : List Name → BN × Option PyErr
  | [] => (dn, none)
  | v :: vs =>
    match prepareOneR A dn fixed v with
    | (dn, some e) => (dn, some e)
    | (dn, none) => prepareR A dn fixed vs

/-- the second loop of `get_optimal_decisions`: `decision.py:211-214` -/
def optimizeAllR (A : Arith) (so : SetOrder) (sps : Nat → SetPerm) (dn : BN) : Nat → List Name →
    Dict (Option Val) → Except PyErr (Dict (Option Val))
  | _, [], sol => .ok sol
  | k, v :: vs, sol => do
    let x ← optimizeLocallyR A so (sps k) dn v
    optimizeAllR A so sps dn (k + 1) vs (sol.set v x)

/-- `get_optimal_decisions`: `decision.py:177-216` -/
def getOptimalDecisionsR (A : Arith) (so : SetOrder) (sps : Nat → SetPerm) (dn : BN)
    (order : List Name) (fixed : Option (Dict Val)) : BN × Except PyErr (Dict (Option Val)) :=
  match prepareR A dn (fixed.getD []) order with
  | (dn, some e) => (dn, .error e)
  | (dn, none) => (dn, optimizeAllR A so sps dn 0 order [])

end Decision
end Primo
