import Verif.NDArray

/-!
# `primo2/inference/factor.py`

`Factor` objects as values.  `copy()` (lines 238-255) is the identity on values.
-/

namespace Primo

/-- What inference code reads off a node object: `DiscreteNode` (`/repo/primo2/nodes.py:72-90`),
`UtilityNode` (410-423) or `DecisionNode` (524-541).  `parents` maps each parent name to
`node.parents[p].values` (dict order); `children` is `bn.graph.succ[node]` in adjacency order
(`/repo/primo2/networks.py:143-158`). -/
inductive NodeKind | discrete | decision | utility
  deriving DecidableEq, Repr

@[inherit_doc NodeKind]
structure NodeV where
  name : Name
  kind : NodeKind := .discrete
  values : List Val
  parentOrder : List Name
  parents : Dict (List Val)
  children : List Name := []
  cpd : NDArray
  /-- the table is still the Python integer `1` of a fresh `UtilityNode` (`nodes.py:36, 422`), which
  cannot be indexed -/
  plain : Bool := false
  deriving DecidableEq

/-- `Factor` (`factor.py:28-41`): the potential table, the variable of each axis, and the outcome
labels of each variable. -/
structure Factor where
  potentials : NDArray
  variableOrder : List Name
  values : Dict (List Val)
  deriving DecidableEq

/-- Evidence for one variable: an outcome label (hard), or a one-dimensional numpy array (soft).
`factor.py:437-442`.  Arrays with more than one axis are not modelled. -/
inductive Evidence
  | hard (v : Val)
  | soft (l : List ℚ)
  deriving DecidableEq

namespace Factor

/-- `variable in factor`: `factor.py:45-61`. -/
def contains (f : Factor) (v : Name) : Bool := decide (v ∈ f.values.keys)

/-- The `if extraVars: ... [slice(None)]*len(variableOrder) + [np.newaxis]*len(extraVars)` steps:
`factor.py:104-108, 122-127` and `202-206, 220-225`. -/
def padAxes (a : NDArray) (n k : Nat) : Except PyErr NDArray :=
  if k = 0 then .ok a else a.newaxes n k

/-- The common body of `__add__` (`factor.py:63-136`) and `__mul__` (`factor.py:161-236`, with the
default `useOther=False`), which differ only in the arithmetic operation of lines 91/189, 96/194
and 134/234. -/
def binop (op : ℚ → ℚ → ℚ) (so : SetOrder) (self other : Factor) : Except PyErr Factor :=
  -- 89-92 / 187-190
  if self.variableOrder.length = 0 then do
    let p ← NDArray.bop op self.potentials other.potentials
    return { other with potentials := p }
  -- 94-97 / 192-195
  else if other.variableOrder.length = 0 then do
    let p ← NDArray.bop op self.potentials other.potentials
    return { self with potentials := p }
  else do
    -- 99-118 / 197-216
    let extra := so.diff other.variableOrder self.variableOrder
    let resPot ← padAxes self.potentials self.variableOrder.length extra.length
    let resOrder := self.variableOrder ++ extra
    let resValues ← extra.foldlM (fun d v => do
      let vs ← other.values.getE v
      return d.set v vs) self.values
    -- 121-127 / 219-225
    let extra2 := so.diff resOrder other.variableOrder
    let f2Pot ← padAxes other.potentials other.variableOrder.length extra2.length
    let f2Order := other.variableOrder ++ extra2
    -- 130-131 / 228-229
    let swap ← resOrder.mapM (fun v => pyIndex f2Order v)
    let f2Pot ← f2Pot.transpose swap
    -- 134 / 234
    let p ← NDArray.bop op resPot f2Pot
    return ⟨p, resOrder, resValues⟩

/-- `__mul__`: `factor.py:161-236`. -/
def mul (so : SetOrder) (self other : Factor) : Except PyErr Factor := binop (· * ·) so self other

/-- `__add__`: `factor.py:63-136`. -/
def add (so : SetOrder) (self other : Factor) : Except PyErr Factor := binop (· + ·) so self other

/-- `invert`: `factor.py:257-280`.  For a factor without variables the division is done under
`np.errstate(divide="raise")`; `copy()` has turned the potential into a numpy 0-d array, so numpy
raises `FloatingPointError`, which the handler for `ZeroDivisionError` (line 274) does not catch. -/
def invert (self : Factor) : Except PyErr Factor :=
  if self.variableOrder.length = 0 then
    if (0 : ℚ) ∈ self.potentials.data then .error .floatingPointError
    else .ok { self with potentials := self.potentials.map fun x => 1 / x }
  else .ok { self with potentials := self.potentials.map fun x => if x = 0 then 0 else 1 / x }

/-- `__truediv__`: `factor.py:138-159`. -/
def div (so : SetOrder) (self other : Factor) : Except PyErr Factor :=
  if ∀ v ∈ other.values.keys, v ∈ self.values.keys then do
    let inv ← other.invert
    self.mul so inv
  else .error .valueError

/-- `unit_factor` / `zero_factor`: `factor.py:325-345` (`c` is the constant 1 or 0). -/
def constFactor (c : ℚ) (variableOrder : List Name) (values : Dict (List Val)) :
    Except PyErr Factor := do
  let r ← variableOrder.foldlM (fun (acc : Dict (List Val) × List Nat) v => do
    let vs ← values.getE v
    return (acc.1.set v vs, acc.2 ++ [vs.length])) (([] : Dict (List Val)), ([] : List Nat))
  return ⟨NDArray.tabulate r.2 fun _ => c, variableOrder, r.1⟩

/-- `get_trivial`: `factor.py:347-365`. -/
def trivial (potential : ℚ := 1) : Factor := ⟨NDArray.scalar potential, [], []⟩

/-- The part common to `from_utility_node` (`factor.py:384-392`) and `from_node`
(`factor.py:410-421`): record the parents' outcome labels. -/
def parentValues (node : NodeV) (init : Dict (List Val)) : Except PyErr (Dict (List Val)) :=
  node.parentOrder.foldlM (fun d p => do
    let vs ← node.parents.getE p
    return d.set p vs) init

/-- `from_utility_node`: `factor.py:368-392`. -/
def fromUtilityNode (node : NodeV) : Except PyErr Factor :=
  if node.kind ≠ .utility then .error .typeError
  else do
    let vals ← parentValues node []
    return ⟨node.cpd, node.parentOrder, vals⟩

/-- `from_node`: `factor.py:394-421`.  (A `UtilityNode` passes the type check of line 410 but has
no `values` attribute.) -/
def fromNode (node : NodeV) : Except PyErr Factor :=
  if node.kind = .utility then .error .attributeError
  else do
    let vals ← parentValues node [(node.name, node.values)]
    return ⟨node.cpd, node.name :: node.parentOrder, vals⟩

/-- `np.argmax` of a non-empty list (first maximum); `ValueError` on an empty one. -/
def argmax : List ℚ → Except PyErr Nat
  | [] => .error .valueError
  | l@(x :: xs) => .ok (l.idxOf (xs.foldl max x))

/-- `as_evidence`: `factor.py:423-509`.  `nonFinite` stands for the NaN/inf entries numpy
produces when the largest evidence entry is 0. -/
def asEvidence (var : Name) (values : List Val) (evidence : Evidence)
    (oldMarginals : Option NDArray := none) : Except PyErr Factor :=
  match evidence with
  | .hard e =>                                                        -- 468-474
    if e ∈ values then
      .ok ⟨NDArray.tabulate [values.length] (fun idx => if idx = [values.idxOf e] then 1 else 0),
        [var], [(var, values)]⟩
    else .error .valueError
  | .soft e =>
    if e.length ≠ values.length then .error .valueError               -- 476-479
    else match oldMarginals with
    | none => .ok ⟨NDArray.ofList e, [var], [(var, values)]⟩  -- 508
    | some old => do                                                  -- 480-505
      let ref ← argmax e
      let refEvidence := e.getD ref 0
      let pots ← (List.range values.length).mapM fun i =>
        if i = ref then .ok 1                                         -- 492-497
        else if old.shape.headD 0 ≤ i then .error PyErr.indexError
        else if old.get [i] = 0 then .ok 0                            -- 501-502
        else if old.shape.headD 0 ≤ ref then .error PyErr.indexError
        else if refEvidence = 0 then .error PyErr.nonFinite
        else .ok (e.getD i 0 / old.get [i] * old.get [ref] / refEvidence)  -- 504-505
      return ⟨NDArray.ofList pots, [var], [(var, values)]⟩

/-- One round of the loop of `marginalize`: `factor.py:537-539`. -/
def sumOut (res : Factor) (v : Name) : Except PyErr Factor := do
  let ax ← pyIndex res.variableOrder v
  let p ← res.potentials.sumAxis ax
  let vals ← res.values.delE v
  return ⟨p, res.variableOrder.erase v, vals⟩

/-- `marginalize`: `factor.py:513-541`; a single variable is the one-element list (532-533). -/
def marginalize (self : Factor) (vars : List Name) : Except PyErr Factor :=
  vars.foldlM sumOut self

/-- Positions requested for one variable: `factor.py:571-577`. -/
def reqIndex (vals : List Val) : Option (List Val) → Except PyErr (List Nat)
  | some req => req.mapM fun value => pyIndex vals value
  | none => .ok (List.range vals.length)

/-- `get_potential` without the final `np.squeeze` (`factor.py:566-582`).  `vars = {}`
returns the full table. -/
def subTable (self : Factor) (vars : Dict (List Val)) : Except PyErr NDArray := do
  let index ← self.variableOrder.mapM fun v => do
    let vals ← self.values.getE v
    reqIndex vals (vars.get? v)
  if vars.length = 0 then return self.potentials                 -- 579-580
  else self.potentials.ix index                                       -- 582

/-- `get_potential`: `factor.py:543-582`. -/
def getPotential (self : Factor) (vars : Dict (List Val) := []) : Except PyErr NDArray := do
  let t ← self.subTable vars
  if vars.length = 0 then return t else return t.squeeze

/-- `normalize`: `factor.py:584-591`. -/
def normalize (self : Factor) : Factor :=
  let s := self.potentials.sumAll
  if s > 0 then { self with potentials := self.potentials.map fun x => x / s } else self

/-- One counting step of `from_samples`: `factor.py:317-320`. -/
def countSample (res : Factor) (s : Dict Val) : Except PyErr Factor := do
  let idx ← res.variableOrder.mapM fun v => do
    let vals ← res.values.getE v
    let x ← s.getE v
    pyIndex vals x
  let p := NDArray.tabulate res.potentials.shape fun i =>
    if i = idx then res.potentials.get i + 1 else res.potentials.get i
  return { res with potentials := p }

/-- `from_samples`: `factor.py:282-322`.  `variableValues` is a dict (distinct keys).  Without
samples numpy divides 0 by 0 (`nonFinite`). -/
def fromSamples (samples : List (Dict Val)) (variableValues : Dict (List Val)) :
    Except PyErr Factor := do
  let zero : Factor := ⟨NDArray.zeros (variableValues.map fun p => p.2.length),
    variableValues.keys, variableValues⟩
  let res ← samples.foldlM countSample zero
  let s := res.potentials.sumAll
  if s = 0 then .error .nonFinite
  else return { res with potentials := res.potentials.map fun x => x / s }

/-- `joint_factor`: `factor.py:594-617`. -/
def joint (node : NodeV) : Except PyErr (Factor × Factor) :=
  if node.kind = .utility then do
    let ut ← fromUtilityNode node
    let pr ← constFactor 1 ut.variableOrder ut.values
    return (pr, ut)
  else do
    let pr ← fromNode node
    let ut ← constFactor 0 pr.variableOrder pr.values
    return (pr, ut)

end Factor
end Primo
