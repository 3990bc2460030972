import Verif.BN

/-!
# `primo2/nodes.py`: reading and writing node tables

The functions act on a node snapshot `NodeV`; writing functions return the new table.  How the
table is stored in the mutable node object is modelled in `Verif.Network`.
-/

namespace Primo

/-- One component of the index tuple of `self.cpd[tuple(index)] = x`: an integer or
`slice(k)` (`nodes.py:206-218, 511-522`). -/
inductive Ix
  | at (i : Nat)
  | upTo (k : Nat)
  deriving DecidableEq, Repr

/-- does the index component select position `i` of its axis? -/
def Ix.sel : Ix → Nat → Bool
  | .at j, i => i == j
  | .upTo k, i => i < k

/-- may the index component be used on an axis of length `n`? (numpy raises `IndexError` for an
integer out of range; slices are clipped) -/
def Ix.ok : Ix → Nat → Bool
  | .at j, n => j < n
  | .upTo _, _ => true

namespace NDArray

/-- `a[tuple(idx)]` for a tuple of integers that leads to a single number; `IndexError` when out of
range.  (With fewer integers than axes numpy returns a sub-array: not modelled, the callers pass one
integer per axis of a consistent table.) -/
def item (a : NDArray) (idx : List Nat) : Except PyErr ℚ :=
  if idx ∈ allIdx a.shape then .ok (a.get idx) else .error .indexError

/-- `a[tuple(index)] = x`: all cells whose leading coordinates are selected get the value `x`. -/
def assign (a : NDArray) (index : List Ix) (x : ℚ) : Except PyErr NDArray :=
  if index.length ≤ a.ndim ∧ ∀ p ∈ index.zip a.shape, p.1.ok p.2 then
    .ok <| tabulate a.shape fun idx =>
      if (index.zip idx).all (fun p => p.1.sel p.2) then x else a.get idx
  else .error .indexError

end NDArray

namespace NodeV

/-- `[self.values.index(value)] if self.values else []`: `nodes.py:201-204, 247-250, 300-303,
587-590`. -/
def ownIndex (n : NodeV) (value : Val) : Except PyErr (List Nat) :=
  if n.values = [] then .ok [] else do
    let i ← pyIndex n.values value
    return [i]

/-- `self.parents[p].values.index(parentValues[p])` with both `KeyError`s: `nodes.py:306-314,
468-475`. -/
def parentIndex (n : NodeV) (pv : Dict Val) (p : Name) : Except PyErr Nat := do
  let vs ← n.parents.getE p
  let x ← pv.getE p
  pyIndex vs x

/-- `_get_single_probability`: `nodes.py:276-315`.  Only `DiscreteNode` has this method. -/
def getSingle (n : NodeV) (value : Val) (pv : Dict Val) : Except PyErr ℚ :=
  if n.kind ≠ .discrete then .error .attributeError else do
    let own ← n.ownIndex value
    let idx ← n.parentOrder.mapM (n.parentIndex pv)
    n.cpd.item (own ++ idx)

/-- index component for one parent in `set_probability` / `set_utility`: `nodes.py:209-216,
512-520`. -/
def writeIx (n : NodeV) (pv : Dict Val) (p : Name) : Except PyErr Ix := do
  let vs ← n.parents.getE p
  match pv.get? p with
  | some x => do
    let i ← pyIndex vs x
    return .at i
  | none => return .upTo vs.length

/-- the table after `set_probability`: `nodes.py:176-218`. -/
def setProbability (n : NodeV) (value : Val) (prob : ℚ) (pv : Dict Val) : Except PyErr NDArray :=
  if n.kind ≠ .discrete then .error .attributeError else do
    let own ← n.ownIndex value
    let idx ← n.parentOrder.mapM (n.writeIx pv)
    n.cpd.assign (own.map Ix.at ++ idx) prob

/-- A request in `get_probability`: a single outcome or a list of outcomes (`nodes.py:255-264`). -/
inductive Req
  | one (v : Val)
  | many (l : List Val)
  deriving DecidableEq

/-- the requested labels -/
def Req.labels : Req → List Val
  | .one v => [v]
  | .many l => l

/-- positions requested for one parent in `get_probability`: `nodes.py:253-266`. -/
def readIx (n : NodeV) (pv : Dict Req) (p : Name) : Except PyErr (List Nat) := do
  let vs ← n.parents.getE p
  Factor.reqIndex vs ((pv.get? p).map Req.labels)

/-- `get_probability` before `np.squeeze`: `nodes.py:245-270`. -/
def probTable (n : NodeV) (value : Val) (pv : Dict Req) : Except PyErr NDArray :=
  if n.kind ≠ .discrete then .error .attributeError else do
    let own ← n.ownIndex value
    let idx ← n.parentOrder.mapM (n.readIx pv)
    n.cpd.ix (own.map (fun i => [i]) ++ idx)

/-- `get_probability`: `nodes.py:220-274`. -/
def getProbability (n : NodeV) (value : Val) (pv : Dict Req) : Except PyErr NDArray := do
  let t ← n.probTable value pv
  return t.squeeze

/-- `get_markov_prob`: `nodes.py:317-349` (`children` are the child node objects). -/
def markovProb (n : NodeV) (outcome : Val) (children : List NodeV) (state : Dict Val)
    (forward : Bool) : Except PyErr ℚ := do
  let p ← n.getSingle outcome state
  if forward then return p
  else children.foldlM (fun prob c => do
    let x ← state.getE c.name
    let q ← c.getSingle x state
    return prob * q) p

/-- `get_utility`: `nodes.py:454-476`. -/
def getUtility (n : NodeV) (pv : Dict Val) : Except PyErr ℚ :=
  if n.kind ≠ .utility then .error .attributeError else do
    let idx ← n.parentOrder.mapM (n.parentIndex pv)
    if n.plain then .error .typeError else n.cpd.item idx

/-- the table after `set_utility`: `nodes.py:498-522`. -/
def setUtility (n : NodeV) (utility : ℚ) (pv : Dict Val) : Except PyErr NDArray :=
  if n.kind ≠ .utility then .error .attributeError else do
    let idx ← n.parentOrder.mapM (n.writeIx pv)
    if n.plain then .error .typeError else n.cpd.assign idx utility

/-- the table after `set_utilities`: `nodes.py:478-496`. -/
def setUtilities (n : NodeV) (u : NDArray) : Except PyErr NDArray :=
  if n.kind ≠ .utility then .error .attributeError
  else if n.cpd.shape ≠ u.shape then .error .valueError
  else .ok u

/-- the table after `set_cpd` of a `DiscreteNode`: `nodes.py:157-174`; the other node types inherit
the unimplemented method of the base class (39-40). -/
def setCpd (n : NodeV) (c : NDArray) : Except PyErr NDArray :=
  if n.kind ≠ .discrete then .error .notImplementedError
  else if n.cpd.shape ≠ c.shape then .error .valueError
  else .ok c

/-- `set_decision`: `nodes.py:573-592`.  The table is zeroed in place (586) before the decision is
looked up, so the new table is returned even when `ValueError` is raised. -/
def setDecision (n : NodeV) (decision : Val) : NDArray × Option PyErr :=
  let z := n.cpd.map (· * 0)
  match n.ownIndex decision with
  | .error e => (z, some e)
  | .ok own =>
    match z.assign (own.map Ix.at) 1 with
    | .error e => (z, some e)
    | .ok a => (a, none)

/-- the table after `fully_mixed`: `nodes.py:594-596` (division by `len([]) = 0` gives inf/NaN). -/
def fullyMixed (n : NodeV) : Except PyErr NDArray :=
  if n.values.length = 0 ∧ n.cpd.data ≠ [] then .error .nonFinite
  else .ok ((NDArray.ones n.cpd.shape).map (· / n.values.length))

end NodeV
end Primo
