import Verif.Heap

/-!
# Programs over factors, with values and with memory

A client program calls the methods of `Factor` and assigns to elements of the arrays, lists and dicts
it can reach.  Its meaning is given twice.  In the first one, variables hold factors and arrays as
mathematical values: every assignment changes one variable.  In the second one, variables hold
references into the memory of `Verif.Heap`.  The methods share no mutable state exactly if both
meanings agree.
-/

namespace Primo.Mem

/-- One statement of a client program.  `i`, `j` number the factor variables and `k`, `q` the array
variables, in the order in which they were assigned. -/
inductive Cmd
  /-- `f = Factor.get_trivial(x)` -/
  | trivial (x : ℚ)
  /-- `f = Factor.unit_factor(order, values)` (`c = 1`) or `zero_factor` (`c = 0`) -/
  | const (c : ℚ) (order : List Name) (values : Dict (List Val))
  /-- `f = Factor.from_node(node)` (or `from_utility_node`) for a node whose table is array `k` -/
  | fromNode (node : NodeV) (k : Nat)
  /-- `f = Factor.as_evidence(var, values, e)` -/
  | hard (var : Name) (values : List Val) (e : Val)
  /-- `f = Factor.as_evidence(var, values, k, q)` -/
  | soft (var : Name) (values : List Val) (k : Nat) (old : Option Nat)
  /-- `f = Factor.from_samples(samples, values)` -/
  | fromSamples (samples : List (Dict Val)) (values : Dict (List Val))
  /-- `f = i.copy()` -/
  | copy (i : Nat)
  /-- `f = i * j` -/
  | mul (so : SetOrder) (i j : Nat)
  /-- `f = i + j` -/
  | add (so : SetOrder) (i j : Nat)
  /-- `f = i / j` -/
  | div (so : SetOrder) (i j : Nat)
  /-- `f = i.invert()` -/
  | invert (i : Nat)
  /-- `f = i.marginalize(vars)` -/
  | marginalize (i : Nat) (vars : List Name)
  /-- `i.normalize()` -/
  | normalize (i : Nat)
  /-- `a = i.get_potential(vars)` -/
  | getPotential (i : Nat) (vars : Dict (List Val))
  /-- `k[idx] = x` -/
  | write (k : Nat) (idx : List Nat) (x : ℚ)
  /-- `i.potentials[idx] = x` -/
  | poke (i : Nat) (idx : List Nat) (x : ℚ)
  /-- `i.values[v] = labels` -/
  | relabel (i : Nat) (v : Name) (labels : List Val)
  /-- `i.variableOrder[:] = order` (of the same length) -/
  | reorder (i : Nat) (order : List Name)

/-- the variable with the given number -/
def var {α : Type} (l : List α) (i : Nat) : Except PyErr α :=
  match l[i]? with
  | some x => .ok x
  | none => .error .keyError

/-- raise unless the condition holds -/
def require (b : Bool) (e : PyErr) : Except PyErr Unit := if b then .ok () else .error e

/-- a table with the element at `idx` replaced by `x` -/
def assign (a : NDArray) (idx : List Nat) (x : ℚ) : Except PyErr NDArray := do
  require (decide (idx ∈ allIdx a.shape)) .indexError
  return NDArray.tabulate a.shape fun i => if i = idx then x else a.get i

/-- the table of a node has one axis for each variable of its factor -/
def fits (node : NodeV) (a : NDArray) : Bool :=
  a.shape.length = (if node.kind = .utility then 0 else 1) + node.parentOrder.length

/-! ## values -/

/-- the variables of a client program, holding values -/
structure VState where
  facs : List Factor := []
  arrs : List NDArray := []

namespace VState

/-- assign a new factor variable -/
def push (s : VState) : Except PyErr Factor → VState × Option PyErr
  | .ok F => ({ s with facs := s.facs ++ [F] }, none)
  | .error e => (s, some e)

/-- assign a new array variable -/
def pushArr (s : VState) : Except PyErr NDArray → VState × Option PyErr
  | .ok a => ({ s with arrs := s.arrs ++ [a] }, none)
  | .error e => (s, some e)

/-- change one factor variable -/
def put (s : VState) (i : Nat) : Except PyErr Factor → VState × Option PyErr
  | .ok F => ({ s with facs := s.facs.set i F }, none)
  | .error e => (s, some e)

/-- change one array variable -/
def putArr (s : VState) (k : Nat) : Except PyErr NDArray → VState × Option PyErr
  | .ok a => ({ s with arrs := s.arrs.set k a }, none)
  | .error e => (s, some e)

/-- one statement; an exception is caught by the program and leaves the variables as they are -/
def step (s : VState) : Cmd → VState × Option PyErr
  | .trivial x => s.push (.ok (Factor.trivial x))
  | .const c order values => s.push (Factor.constFactor c order values)
  | .fromNode node k => s.push do
      let a ← var s.arrs k
      require (fits node a) .typeError
      if node.kind = .utility then Factor.fromUtilityNode { node with cpd := a }
        else Factor.fromNode { node with cpd := a }
  | .hard v values e => s.push (Factor.asEvidence v values (.hard e))
  | .soft v values k none => s.push do
      let a ← var s.arrs k
      require (a.shape.length = 1) .typeError
      Factor.asEvidence v values (.soft a.data)
  | .soft v values k (some q) => s.push do
      let a ← var s.arrs k
      let b ← var s.arrs q
      require (a.shape.length = 1) .typeError
      require (b.shape.length = 1) .typeError
      Factor.asEvidence v values (.soft a.data) (some b)
  | .fromSamples samples values => s.push do
      require (decide values.keys.Nodup) .syntaxError
      Factor.fromSamples samples values
  | .copy i => s.push (var s.facs i)
  | .mul so i j => s.push do
      let F ← var s.facs i
      let G ← var s.facs j
      F.binop (· * ·) so G
  | .add so i j => s.push do
      let F ← var s.facs i
      let G ← var s.facs j
      F.binop (· + ·) so G
  | .div so i j => s.push do
      let F ← var s.facs i
      let G ← var s.facs j
      F.div so G
  | .invert i => s.push do
      let F ← var s.facs i
      F.invert
  | .marginalize i vars => s.push do
      let F ← var s.facs i
      F.marginalize vars
  | .normalize i => s.put i do
      let F ← var s.facs i
      return F.normalize
  | .getPotential i vars => s.pushArr do
      let F ← var s.facs i
      F.getPotential vars
  | .write k idx x => s.putArr k do
      let a ← var s.arrs k
      assign a idx x
  | .poke i idx x => s.put i do
      let F ← var s.facs i
      require (F.variableOrder ≠ []) .typeError
      let a ← assign F.potentials idx x
      return { F with potentials := a }
  | .relabel i v labels => s.put i do
      let F ← var s.facs i
      return { F with values := F.values.set v labels }
  | .reorder i order => s.put i do
      let F ← var s.facs i
      require (order.length = F.variableOrder.length) .valueError
      return { F with variableOrder := order }

/-- a program: the final variables and the exceptions that were caught -/
def run (s : VState) : List Cmd → VState × List (Option PyErr)
  | [] => (s, [])
  | c :: cs =>
    let r := s.step c
    let rest := r.1.run cs
    (rest.1, r.2 :: rest.2)

end VState

/-! ## memory -/

/-- the variables of a client program, holding references -/
structure HState where
  heap : Heap := {}
  facs : List Nat := []
  arrs : List Pot := []

namespace HState

/-- assign a new factor variable -/
def push (s : HState) (m : HM Nat) : HState × Option PyErr :=
  match m s.heap with
  | (h, .ok f) => ({ s with heap := h, facs := s.facs ++ [f] }, none)
  | (h, .error e) => ({ s with heap := h }, some e)

/-- assign a new array variable -/
def pushArr (s : HState) (m : HM Pot) : HState × Option PyErr :=
  match m s.heap with
  | (h, .ok p) => ({ s with heap := h, arrs := s.arrs ++ [p] }, none)
  | (h, .error e) => ({ s with heap := h }, some e)

/-- run a statement that assigns no variable -/
def exec (s : HState) (m : HM Unit) : HState × Option PyErr :=
  match m s.heap with
  | (h, .ok _) => ({ s with heap := h }, none)
  | (h, .error e) => ({ s with heap := h }, some e)

/-- `p[idx] = x` -/
def store (p : Pot) (idx : List Nat) (x : ℚ) : HM Unit :=
  match p with
  | .num _ => HM.throw .typeError
  | .arr v => do
    HM.lift (require (decide (idx ∈ allIdx v.shape)) .indexError)
    Heap.updateAt v idx fun _ => x

/-- `f.variableOrder[:] = l` -/
def storeOrder (f : Nat) (l : List Name) : HM Unit := fun h =>
  ({ h with lists := h.lists.set (h.fac f).order l }, .ok ())

/-- one statement; an exception is caught by the program -/
def step (s : HState) : Cmd → HState × Option PyErr
  | .trivial x => s.push (Heap.trivial x)
  | .const c order values => s.push (Heap.constFactor c order values)
  | .fromNode node k => s.push do
      let p ← HM.lift (var s.arrs k)
      let a ← HM.read fun h => h.pot p
      HM.lift (require (fits node a) .typeError)
      Heap.fromNode node p
  | .hard v values e => s.push (Heap.asEvidence v values (.inl e) none)
  | .soft v values k none => s.push do
      let p ← HM.lift (var s.arrs k)
      let a ← HM.read fun h => h.pot p
      HM.lift (require (a.shape.length = 1) .typeError)
      Heap.asEvidence v values (.inr p) none
  | .soft v values k (some q) => s.push do
      let p ← HM.lift (var s.arrs k)
      let r ← HM.lift (var s.arrs q)
      let a ← HM.read fun h => h.pot p
      HM.lift (require (a.shape.length = 1) .typeError)
      let b ← HM.read fun h => h.pot r
      HM.lift (require (b.shape.length = 1) .typeError)
      Heap.asEvidence v values (.inr p) (some r)
  | .fromSamples samples values => s.push do
      HM.lift (require (decide values.keys.Nodup) .syntaxError)
      Heap.fromSamples samples values
  | .copy i => s.push do
      let f ← HM.lift (var s.facs i)
      Heap.copy f
  | .mul so i j => s.push do
      let f ← HM.lift (var s.facs i)
      let g ← HM.lift (var s.facs j)
      Heap.binop (· * ·) so false f g
  | .add so i j => s.push do
      let f ← HM.lift (var s.facs i)
      let g ← HM.lift (var s.facs j)
      Heap.binop (· + ·) so false f g
  | .div so i j => s.push do
      let f ← HM.lift (var s.facs i)
      let g ← HM.lift (var s.facs j)
      Heap.div so f g
  | .invert i => s.push do
      let f ← HM.lift (var s.facs i)
      Heap.invert f
  | .marginalize i vars => s.push do
      let f ← HM.lift (var s.facs i)
      Heap.marginalize f vars
  | .normalize i => s.exec do
      let f ← HM.lift (var s.facs i)
      Heap.normalize f
  | .getPotential i vars => s.pushArr do
      let f ← HM.lift (var s.facs i)
      Heap.getPotential f vars
  | .write k idx x => s.exec do
      let p ← HM.lift (var s.arrs k)
      store p idx x
  | .poke i idx x => s.exec do
      let f ← HM.lift (var s.facs i)
      let order ← HM.read fun h => h.order f
      HM.lift (require (order ≠ []) .typeError)
      let o ← HM.read fun h => h.fac f
      store o.pot idx x
  | .relabel i v labels => s.exec do
      let f ← HM.lift (var s.facs i)
      Heap.setValue f v labels
  | .reorder i order => s.exec do
      let f ← HM.lift (var s.facs i)
      let old ← HM.read fun h => h.order f
      HM.lift (require (order.length = old.length) .valueError)
      storeOrder f order

/-- a program: the final variables and the exceptions that were caught -/
def run (s : HState) : List Cmd → HState × List (Option PyErr)
  | [] => (s, [])
  | c :: cs =>
    let r := s.step c
    let rest := r.1.run cs
    (rest.1, r.2 :: rest.2)

/-- what the program can read from its variables -/
def contents (s : HState) : VState := ⟨s.facs.map s.heap.factor, s.arrs.map s.heap.pot⟩

/-- a program starts with some arrays, each in its own buffer -/
def start (arrays : List NDArray) : HState :=
  { heap := { bufs := arrays.map NDArray.data }
    arrs := arrays.mapIdx fun b a => .arr ⟨b, a.shape, cStrides a.shape⟩ }

end HState

/-- the statement `get_potential()` without variables -/
def Cmd.Exposes : Cmd → Bool
  | .getPotential _ vars => vars.length = 0
  | _ => false

end Primo.Mem
