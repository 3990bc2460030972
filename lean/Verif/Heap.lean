import Verif.Factor

/-!
# Memory: `primo2/inference/factor.py` with objects, references and array views

`Verif.Factor` treats factors as values.  Here the same methods run on a memory in which factor
objects refer to lists, dicts and array buffers that several objects may share, and in which
numpy's slicing and transposing give views of the same buffer.  Assignments to attributes,
`list.extend`, `list.remove`, `dict[k] = v`, `del dict[k]` and the in-place operators of numpy change
the cell they act on.  Tuples and numbers are immutable and therefore values; the label lists of the
`values` dicts are tuples.
-/

namespace Primo

/-- A numpy array object: a buffer of the memory read through strides (in elements, offset 0; the
modelled code makes no views with another offset). -/
structure View where
  buf : Nat
  shape : List Nat
  strides : List Nat
  deriving DecidableEq

/-- What the attribute `potentials` refers to: a number (Python float or numpy scalar, immutable) or
an array. -/
inductive Pot
  | num (x : ℚ)
  | arr (v : View)
  deriving DecidableEq

/-- is it a number? -/
def Pot.isNum : Pot → Bool
  | .num _ => true
  | .arr _ => false

/-- A `Factor` object (`factor.py:35-42`): its array, and references to its list and its dict. -/
structure FacObj where
  pot : Pot
  order : Nat
  values : Nat
  deriving DecidableEq

/-- The memory.  References are positions in these lists; cells are never freed. -/
structure Heap where
  bufs : List (List ℚ) := []
  lists : List (List Name) := []
  dicts : List (Dict (List Val)) := []
  facs : List FacObj := []
  deriving DecidableEq

/-- a program that reads and changes the memory and may raise an exception (the changes made until
then stay) -/
def HM (α : Type) := Heap → Heap × Except PyErr α

namespace HM

instance : Monad HM where
  pure a h := (h, .ok a)
  bind m f h := match m h with
    | (h', .ok a) => f a h'
    | (h', .error e) => (h', .error e)

/-- a computation that does not touch the memory -/
def lift {α : Type} (x : Except PyErr α) : HM α := fun h => (h, x)

/-- raise -/
def throw {α : Type} (e : PyErr) : HM α := fun h => (h, .error e)

/-- read something from the memory -/
def read {α : Type} (f : Heap → α) : HM α := fun h => (h, .ok (f h))

end HM

/-- position in the buffer of a multi-index -/
def View.pos (v : View) (idx : List Nat) : Nat := (List.zipWith (· * ·) idx v.strides).sum

/-- the strides of a C-order array -/
def cStrides : List Nat → List Nat
  | [] => []
  | _ :: s => s.prod :: cStrides s

namespace Heap

/-- contents of a buffer -/
def buf (h : Heap) (b : Nat) : List ℚ := h.bufs.getD b []

/-- the array a view shows -/
def view (h : Heap) (v : View) : NDArray :=
  NDArray.tabulate v.shape fun idx => (h.buf v.buf).getD (v.pos idx) 0

/-- the number or array an attribute refers to -/
def pot (h : Heap) : Pot → NDArray
  | .num x => NDArray.scalar x
  | .arr v => h.view v

/-- the object with the given reference -/
def fac (h : Heap) (f : Nat) : FacObj := h.facs.getD f ⟨.num 0, 0, 0⟩

/-- `f.variableOrder` -/
def order (h : Heap) (f : Nat) : List Name := h.lists.getD (h.fac f).order []

/-- `f.values` -/
def values (h : Heap) (f : Nat) : Dict (List Val) := h.dicts.getD (h.fac f).values []

/-- everything one can read off the factor object `f`, as a value -/
def factor (h : Heap) (f : Nat) : Factor := ⟨h.pot (h.fac f).pot, h.order f, h.values f⟩

/-! ### allocation and assignment -/

/-- a new C-order array with its own buffer -/
def newArr (a : NDArray) : HM View := fun h =>
  ({ h with bufs := h.bufs ++ [a.data] }, .ok ⟨h.bufs.length, a.shape, cStrides a.shape⟩)

/-- a new list -/
def newList (l : List Name) : HM Nat := fun h =>
  ({ h with lists := h.lists ++ [l] }, .ok h.lists.length)

/-- a new dict -/
def newDict (d : Dict (List Val)) : HM Nat := fun h =>
  ({ h with dicts := h.dicts ++ [d] }, .ok h.dicts.length)

/-- `Factor()`: `factor.py:35-42`. -/
def newFac : HM Nat := do
  let v ← newArr (NDArray.ofList [])
  let l ← newList []
  let d ← newDict []
  fun h => ({ h with facs := h.facs ++ [⟨.arr v, l, d⟩] }, .ok h.facs.length)

/-- `f.potentials = p` -/
def setPot (f : Nat) (p : Pot) : HM Unit := fun h =>
  ({ h with facs := h.facs.set f { h.fac f with pot := p } }, .ok ())

/-- `f.variableOrder = l` (a reference) -/
def setOrder (f : Nat) (l : Nat) : HM Unit := fun h =>
  ({ h with facs := h.facs.set f { h.fac f with order := l } }, .ok ())

/-- `f.values = d` (a reference) -/
def setValues (f : Nat) (d : Nat) : HM Unit := fun h =>
  ({ h with facs := h.facs.set f { h.fac f with values := d } }, .ok ())

/-- `f.variableOrder.extend(vs)`, and `append` -/
def extendOrder (f : Nat) (vs : List Name) : HM Unit := fun h =>
  ({ h with lists := h.lists.set (h.fac f).order (h.order f ++ vs) }, .ok ())

/-- `f.variableOrder.remove(v)` -/
def removeOrder (f : Nat) (v : Name) : HM Unit := fun h =>
  match pyRemove (h.order f) v with
  | .ok l => ({ h with lists := h.lists.set (h.fac f).order l }, .ok ())
  | .error e => (h, .error e)

/-- `f.values[v] = vs` -/
def setValue (f : Nat) (v : Name) (vs : List Val) : HM Unit := fun h =>
  ({ h with dicts := h.dicts.set (h.fac f).values ((h.values f).set v vs) }, .ok ())

/-- `del f.values[v]` -/
def delValue (f : Nat) (v : Name) : HM Unit := fun h =>
  match (h.values f).delE v with
  | .ok d => ({ h with dicts := h.dicts.set (h.fac f).values d }, .ok ())
  | .error e => (h, .error e)

/-- replace every element a view shows by its image under `g` (in-place operators of numpy) -/
def updateView (v : View) (g : ℚ → ℚ) : HM Unit := fun h =>
  ({ h with bufs := h.bufs.set v.buf ((h.buf v.buf).mapIdx fun p x =>
      if p ∈ (allIdx v.shape).map v.pos then g x else x) }, .ok ())

/-- `a[idx] = g(a[idx])` for a full in-range index -/
def updateAt (v : View) (idx : List Nat) (g : ℚ → ℚ) : HM Unit := fun h =>
  ({ h with bufs := h.bufs.set v.buf ((h.buf v.buf).modify (v.pos idx) g) }, .ok ())

/-! ### numpy -/

/-- the result of an arithmetic operation or reduction: a numpy scalar if it has no axes, otherwise a
new array -/
def result (a : NDArray) : HM Pot :=
  if a.shape = [] then pure (.num (a.get [])) else do
    let v ← newArr a
    pure (.arr v)

/-- `np.copy(p)`: a new array, also for a number. -/
def npCopy (p : Pot) : HM Pot := do
  let a ← HM.read fun h => h.pot p
  let v ← newArr a
  pure (.arr v)

/-- `p op q` -/
def npOp (op : ℚ → ℚ → ℚ) (p q : Pot) : HM Pot := do
  let a ← HM.read fun h => h.pot p
  let b ← HM.read fun h => h.pot q
  let r ← HM.lift (NDArray.bop op a b)
  result r

/-- `p[[slice(None)] * n + [np.newaxis] * k]`: a view of the same buffer; `IndexError` for a scalar
or too many slices. -/
def npNewaxes (p : Pot) (n k : Nat) : HM Pot :=
  match p with
  | .num _ => HM.throw .indexError
  | .arr v =>
    if v.shape.length < n then HM.throw .indexError
    else pure (.arr ⟨v.buf, v.shape.take n ++ List.replicate k 1 ++ v.shape.drop n,
      v.strides.take n ++ List.replicate k 0 ++ v.strides.drop n⟩)

/-- `p[:]`: a view of the same buffer; `IndexError` for a scalar or a 0-d array. -/
def npAll (p : Pot) : HM Pot :=
  match p with
  | .num _ => HM.throw .indexError
  | .arr v => if v.shape = [] then HM.throw .indexError else pure (.arr v)

/-- `np.transpose(p, perm)`: a view of the same buffer. -/
def npTranspose (p : Pot) (perm : List Nat) : HM Pot :=
  match p with
  | .num x => if perm = [] then pure (.num x) else HM.throw .valueError
  | .arr v =>
    if perm.Nodup ∧ perm.length = v.shape.length ∧ ∀ x ∈ perm, x < v.shape.length then
      pure (.arr ⟨v.buf, perm.map fun ax => v.shape.getD ax 0, perm.map fun ax => v.strides.getD ax 0⟩)
    else HM.throw .valueError

/-- `np.sum(p, axis=ax)` -/
def npSum (p : Pot) (ax : Nat) : HM Pot := do
  let a ← HM.read fun h => h.pot p
  let r ← HM.lift (a.sumAxis ax)
  result r

/-! ### the methods of `Factor` -/

/-- `copy`: `factor.py:238-255`. -/
def copy (self : Nat) : HM Nat := do
  let res ← newFac
  let o ← HM.read fun h => h.fac self
  let p ← npCopy o.pot
  setPot res p
  let vals ← HM.read fun h => h.values self
  let d ← newDict vals
  setValues res d
  let order ← HM.read fun h => h.order self
  let l ← newList order
  setOrder res l
  pure res

/-- `for var in extra_vars: res.values[var] = tuple(other.values[var])` -/
def copyValues (res other : Nat) : List Name → HM Unit
  | [] => pure ()
  | v :: vs => do
    let d ← HM.read fun h => h.values other
    let labels ← HM.lift (d.getE v)
    setValue res v labels
    copyValues res other vs

/-- `factor.py:200-216` (and 102-118): give `res`, which has the variables of `self`, axes and labels
for the variables that only `other` has. -/
def padSelf (so : SetOrder) (self other res : Nat) : HM Unit := do
  let selfOrder ← HM.read fun h => h.order self
  let otherOrder ← HM.read fun h => h.order other
  let extra := so.diff otherOrder selfOrder                        -- 200
  let o ← HM.read fun h => h.fac self
  if extra = [] then do                                            -- 212-216
    let p ← npAll o.pot
    setPot res p
  else do                                                          -- 202-211
    let p ← npNewaxes o.pot selfOrder.length extra.length
    setPot res p
    extendOrder res extra
    copyValues res other extra

/-- `factor.py:220-225` (and 122-127): give `f2` the axes it lacks. -/
def padOther (so : SetOrder) (res f2 : Nat) : HM Unit := do
  let resOrder ← HM.read fun h => h.order res
  let f2Order ← HM.read fun h => h.order f2
  let extra := so.diff resOrder f2Order                            -- 220
  if extra = [] then pure ()
  else do
    let o ← HM.read fun h => h.fac f2
    let p ← npNewaxes o.pot f2Order.length extra.length
    setPot f2 p
    extendOrder f2 extra

/-- `factor.py:228-229` (and 130-131): order the axes of `f2` as those of `res`. -/
def align (res f2 : Nat) : HM Unit := do
  let resOrder ← HM.read fun h => h.order res
  let f2Order ← HM.read fun h => h.order f2
  let swap ← HM.lift (resOrder.mapM fun v => pyIndex f2Order v)
  let o ← HM.read fun h => h.fac f2
  let p ← npTranspose o.pot swap
  setPot f2 p

/-- `x.potentials = y.potentials op z.potentials` -/
def opInto (op : ℚ → ℚ → ℚ) (x y z : Nat) : HM Unit := do
  let a ← HM.read fun h => h.fac y
  let b ← HM.read fun h => h.fac z
  let p ← npOp op a.pot b.pot
  setPot x p

/-- `res = Factor()` with copies of the list and the dict of `self`: `factor.py:197-199` (and
99-101). -/
def newLike (self : Nat) : HM Nat := do
  let res ← newFac
  let order ← HM.read fun h => h.order self
  let l ← newList order
  setOrder res l
  let vals ← HM.read fun h => h.values self
  let d ← newDict vals
  setValues res d
  pure res

/-- `__mul__` (`factor.py:161-236`, with its argument `useOther`) and `__add__` (`factor.py:63-136`,
which is the same code with `+` and without that argument). -/
def binop (op : ℚ → ℚ → ℚ) (so : SetOrder) (useOther : Bool) (self other : Nat) : HM Nat := do
  let selfOrder ← HM.read fun h => h.order self
  let otherOrder ← HM.read fun h => h.order other
  if selfOrder.length = 0 then do                                  -- 187-190
    let res ← if useOther then pure other else copy other
    opInto op res self res
    pure res
  else if otherOrder.length = 0 then do                            -- 192-195
    let res ← copy self
    opInto op res res other
    pure res
  else do
    let res ← newLike self                                         -- 197-199
    padSelf so self other res                                      -- 200-216
    let f2 ← if useOther then pure other else copy other           -- 219
    padOther so res f2                                             -- 220-225
    align res f2                                                   -- 228-229
    opInto op res res f2                                           -- 234
    pure res

/-- `invert`: `factor.py:257-280`.  (The two steps of lines 278-279, `1.0 / potentials` and replacing
the infinities by 0 in the new array, are one step here: the numbers of the model are finite.) -/
def invert (self : Nat) : HM Nat := do
  let res ← copy self
  let order ← HM.read fun h => h.order res
  let r ← HM.read fun h => h.fac res
  let a ← HM.read fun h => h.pot r.pot
  if order.length = 0 then
    if (0 : ℚ) ∈ a.data then HM.throw .floatingPointError
    else do
      let p ← result (a.map fun x => 1 / x)
      setPot res p
      pure res
  else do
    let p ← result (a.map fun x => if x = 0 then 0 else 1 / x)
    setPot res p
    pure res

/-- `__truediv__`: `factor.py:138-159`. -/
def div (so : SetOrder) (self other : Nat) : HM Nat := do
  let vs ← HM.read fun h => h.values self
  let vo ← HM.read fun h => h.values other
  if ∀ v ∈ vo.keys, v ∈ vs.keys then do
    let inv ← invert other
    binop (· * ·) so false self inv
  else HM.throw .valueError

/-- the loop of `marginalize`: `factor.py:536-539` -/
def sumOut (res : Nat) : List Name → HM Unit
  | [] => pure ()
  | v :: vs => do
    let order ← HM.read fun h => h.order res
    let ax ← HM.lift (pyIndex order v)
    let r ← HM.read fun h => h.fac res
    let p ← npSum r.pot ax
    setPot res p
    delValue res v
    removeOrder res v
    sumOut res vs

/-- `marginalize`: `factor.py:513-541`. -/
def marginalize (self : Nat) (vars : List Name) : HM Nat := do
  let res ← copy self
  sumOut res vars
  pure res

/-- `normalize`: `factor.py:584-591`; `/=` works in place on an array and rebinds a number. -/
def normalize (self : Nat) : HM Unit := do
  let o ← HM.read fun h => h.fac self
  let a ← HM.read fun h => h.pot o.pot
  if a.sumAll > 0 then
    match o.pot with
    | .num x => setPot self (.num (x / a.sumAll))
    | .arr v => updateView v fun x => x / a.sumAll
  else pure ()

/-- `get_potential`: `factor.py:543-582`.  Without variables the attribute itself is returned (579-580),
otherwise a copy (`np.squeeze` makes a view of that copy). -/
def getPotential (self : Nat) (vars : Dict (List Val)) : HM Pot := do
  let order ← HM.read fun h => h.order self
  let vals ← HM.read fun h => h.values self
  let index ← HM.lift (order.mapM fun v => do
    let vs ← vals.getE v
    Factor.reqIndex vs (vars.get? v))
  let o ← HM.read fun h => h.fac self
  if vars.length = 0 then pure o.pot
  else do
    let a ← HM.read fun h => h.pot o.pot
    let t ← HM.lift (a.ix index)
    let v ← newArr t.squeeze
    pure (.arr v)

/-- `get_trivial`: `factor.py:347-365`. -/
def trivial (x : ℚ) : HM Nat := do
  let res ← newFac
  setPot res (.num x)
  pure res

/-- the loops of `unit_factor` / `zero_factor` (`factor.py:327-331, 338-342`); returns `shape` -/
def constLoop (res : Nat) (values : Dict (List Val)) : List Name → List Nat → HM (List Nat)
  | [], shape => pure shape
  | v :: vs, shape => do
    extendOrder res [v]
    let labels ← HM.lift (values.getE v)
    setValue res v labels
    constLoop res values vs (shape ++ [labels.length])

/-- `unit_factor` / `zero_factor`: `factor.py:325-345` (`c` is 1 or 0). -/
def constFactor (c : ℚ) (order : List Name) (values : Dict (List Val)) : HM Nat := do
  let res ← newFac
  let shape ← constLoop res values order []
  let v ← newArr (NDArray.tabulate shape fun _ => c)
  setPot res (.arr v)
  pure res

/-- the loops over `node.parentOrder`: `factor.py:388-390, 416-419` -/
def parentLoop (res : Nat) (parents : Dict (List Val)) : List Name → HM Unit
  | [] => pure ()
  | p :: ps => do
    extendOrder res [p]
    let labels ← HM.lift (parents.getE p)
    setValue res p labels
    parentLoop res parents ps

/-- `from_node` (`factor.py:394-421`) and `from_utility_node` (`factor.py:368-392`), called on nodes of
the right class; `cpd` is the attribute of the node object, everything else is only read. -/
def fromNode (node : NodeV) (cpd : Pot) : HM Nat := do
  let res ← newFac
  if node.kind = .utility then do
    let d ← newDict []
    setValues res d
    let p ← npCopy cpd
    setPot res p
  else do
    extendOrder res [node.name]
    setValue res node.name node.values
    let p ← npCopy cpd
    setPot res p
  parentLoop res node.parents node.parentOrder
  pure res

/-- `as_evidence`: `factor.py:423-509`.  The numbers are those of `Factor.asEvidence`; the evidence
array is copied if it is used as it is (508). -/
def asEvidence (var : Name) (values : List Val) (evidence : Val ⊕ Pot) (old : Option Pot) :
    HM Nat := do
  let res ← newFac
  extendOrder res [var]
  setValue res var values
  match evidence, old with
  | .inl e, _ => do
    let f ← HM.lift (Factor.asEvidence var values (.hard e))
    let v ← newArr f.potentials
    setPot res (.arr v)
  | .inr p, none => do
    let a ← HM.read fun h => h.pot p
    if a.data.length ≠ values.length then HM.throw .valueError else pure ()
    let p ← npCopy p
    setPot res p
  | .inr p, some q => do
    let a ← HM.read fun h => h.pot p
    let b ← HM.read fun h => h.pot q
    let f ← HM.lift (Factor.asEvidence var values (.soft a.data) (some b))
    let v ← newArr f.potentials
    setPot res (.arr v)
  pure res

/-- the header loop of `from_samples`: `factor.py:309-313` -/
def samplesLoop (res : Nat) : Dict (List Val) → HM Unit
  | [] => pure ()
  | (v, vs) :: rest => do
    extendOrder res [v]
    setValue res v vs
    samplesLoop res rest

/-- the counting loop of `from_samples`: `factor.py:316-320` -/
def countLoop (res : Nat) : List (Dict Val) → HM Unit
  | [] => pure ()
  | s :: ss => do
    let order ← HM.read fun h => h.order res
    let vals ← HM.read fun h => h.values res
    let idx ← HM.lift (order.mapM fun v => do
      let labels ← vals.getE v
      let x ← s.getE v
      pyIndex labels x)
    let r ← HM.read fun h => h.fac res
    match r.pot with
    | .num _ => HM.throw .typeError
    | .arr v => updateAt v idx (· + 1)
    countLoop res ss

/-- `from_samples`: `factor.py:282-322`. -/
def fromSamples (samples : List (Dict Val)) (variableValues : Dict (List Val)) : HM Nat := do
  let res ← newFac
  samplesLoop res variableValues
  let v ← newArr (NDArray.zeros (variableValues.map fun p => p.2.length))
  setPot res (.arr v)
  countLoop res samples
  let a ← HM.read fun h => h.view v
  if a.sumAll = 0 then HM.throw .nonFinite
  else do
    updateView v fun x => x / a.sumAll
    pure res

end Heap
end Primo
