import Verif.HeapQuery
import Verif.Spec.Heap

/-!
# Programs that ask questions, with values and with memory

The programs of `Verif.Spec.Heap` extended by the functions of `exact.py`.  Again the meaning is given
twice.  In the first one, the variables of the program hold values: a query is a function of the tables
of the network and of the evidence at that moment, and a factor tree is a value that is changed by its
own methods only.  The one exception is stated explicitly: `get_potential()` without variables makes two
variables name the same table (`Tab.cell`).  In the second one, variables hold references into the
memory of `Verif.Heap`, and the functions are those of `Verif.HeapQuery`.
-/

namespace Primo.Query

open Mem

/-- One statement.  The table of a network node and an array of soft evidence are given by the number
of an array variable. -/
inductive Stmt
  /-- a statement about factors and arrays -/
  | factor (c : Cmd)
  /-- `a = np.copy(k)`, e.g. `set_cpd` (`nodes.py:155-174`) -/
  | copyArr (k : Nat)
  /-- `f = VariableElimination.naive_marginals(net, vars, ev)` -/
  | naive (so : SetOrder) (net : List (NodeV × Nat)) (vars : List Name) (ev : Dict (Val ⊕ Nat))
  /-- `f = VariableElimination.bucket_marginals(net, vars, ev, order)` -/
  | bucket (so : SetOrder) (net : List (NodeV × Nat)) (vars : List Name) (ev : Dict (Val ⊕ Nat))
      (order : Option (List Name))
  /-- `t = FactorTree.create_jointree(net, order)` -/
  | tree (so : SetOrder) (net : List (NodeV × Nat)) (order : Option (List Name))
  /-- `t.reset_factors()` -/
  | reset (so : SetOrder) (t : Nat) (net : List (NodeV × Nat))
  /-- `t.calculate_messages()` -/
  | calculate (so : SetOrder) (limit : Nat) (t : Nat)
  /-- `t.set_evidence(ev, soft)` -/
  | setEvidence (so : SetOrder) (limit : Nat) (t : Nat) (net : List (NodeV × Nat))
      (ev : Dict (Val ⊕ Nat)) (soft : Bool)
  /-- `f = t.marginals(vars)` -/
  | marginals (so : SetOrder) (limit : Nat) (t : Nat) (vars : List Name)

/-- what a program can read from its variables -/
structure Contents where
  facs : List Factor
  arrs : List NDArray
  trees : List JTree

/-- the network with the tables in the given array variables -/
def netOf (arrs : List NDArray) (net : List (NodeV × Nat)) : Except PyErr BN :=
  net.mapM fun p => do
    let a ← var arrs p.2
    require (fits p.1 a) .typeError
    return { p.1 with cpd := a }

/-- the evidence with the numbers in the given array variables -/
def evidenceOf (arrs : List NDArray) (ev : Dict (Val ⊕ Nat)) : Except PyErr (Dict Evidence) :=
  ev.mapM fun p =>
    match p.2 with
    | .inl x => .ok (p.1, .hard x)
    | .inr k => do
      let a ← var arrs k
      require (a.shape.length = 1) .typeError
      return (p.1, .soft a.data)

/-! ## one call, seen from outside -/

namespace Contents

/-- use the variable with that number -/
def withVar {α : Type} (c : Contents) (x : Except PyErr α) (f : α → Contents × Option PyErr) :
    Contents × Option PyErr :=
  match x with
  | .error e => (c, some e)
  | .ok a => f a

/-- a new factor variable, everything else as before -/
def answer (c : Contents) (x : Except PyErr Factor) : Contents × Option PyErr :=
  c.withVar x fun F => ({ c with facs := c.facs ++ [F] }, none)

/-- another value for the tree variable `i`, everything else as before -/
def setTree (c : Contents) (i : Nat) (r : JRes) : Contents × Option PyErr :=
  ({ c with trees := c.trees.set i r.1 }, r.2)

/-- What a call of a function of `exact.py` does to the contents of the variables. -/
def ask (c : Contents) : Stmt → Option (Contents × Option PyErr)
  | .naive so net vars ev => some <| c.answer do
      let bn ← netOf c.arrs net
      let ev ← evidenceOf c.arrs ev
      VE.naiveMarginals so bn vars ev
  | .bucket so net vars ev order => some <| c.answer do
      let bn ← netOf c.arrs net
      let ev ← evidenceOf c.arrs ev
      VE.bucketMarginals so bn vars ev order
  | .tree so net order => some <| c.withVar (netOf c.arrs net) fun bn =>
      c.withVar (JoinTree.create so bn order) fun t => ({ c with trees := c.trees ++ [t] }, none)
  | .reset so i net => some <| c.withVar (netOf c.arrs net) fun bn =>
      c.withVar (var c.trees i) fun t => c.setTree i (t.reset so bn)
  | .calculate so limit i => some <| c.withVar (var c.trees i) fun t => c.setTree i (t.calculate so limit)
  | .setEvidence so limit i net ev soft => some <| c.withVar (netOf c.arrs net) fun bn =>
      c.withVar (evidenceOf c.arrs ev) fun ev =>
        c.withVar (var c.trees i) fun t => c.setTree i (t.setEvidence so limit bn ev soft)
  | .marginals so limit i vars => some <| c.withVar (var c.trees i) fun t =>
      { c with trees := c.trees.set i (t.marginals so limit vars).1 }.answer (t.marginals so limit vars).2
  | _ => none

end Contents

/-- the statements that assign to an existing factor or array -/
def Stmt.Alters : Stmt → Bool
  | .factor (.normalize _) | .factor (.write ..) | .factor (.poke ..) | .factor (.relabel ..)
  | .factor (.reorder ..) => true
  | _ => false

/-- the statements that change the factors of the tree in variable `i` -/
def Stmt.Changes (i : Nat) : Stmt → Bool
  | .reset _ j _ | .calculate _ _ j | .setEvidence _ _ j _ _ _ => i = j
  | _ => false

/-! ## values -/

/-- a table: a number, or one of the tables that can be assigned to -/
inductive Tab
  | num (x : ℚ)
  | cell (c : Nat)

/-- a factor variable -/
structure Fac where
  tab : Tab
  order : List Name
  values : Dict (List Val)

/-- the table of that name -/
def tableOf (cells : List NDArray) : Tab → NDArray
  | .num x => NDArray.scalar x
  | .cell c => cells.getD c (NDArray.scalar 0)

/-- the variables of a program, holding values -/
structure CState where
  cells : List NDArray := []
  facs : List Fac := []
  arrs : List Tab := []
  trees : List JTree := []

/-- a table without axes -/
def bare (F : Factor) : Bool := decide (F.potentials.shape = [])

/-- is the table of the new factor a number (and not an array without axes)? -/
def newIsNum : Cmd → Factor → Bool
  | .trivial _, F => bare F
  | .mul .., F => bare F
  | .add .., F => bare F
  | .div .., F => bare F
  | .invert _, F => bare F
  | .marginalize _ vars, F => !vars.isEmpty && bare F
  | _, _ => false

/-- the same for an answer of a factor tree -/
def answerIsNum (so : SetOrder) (vars : List Name) (t : JTree) (F : Factor) : Bool :=
  match t.nodes.find? fun p => JoinTree.sub vars p.2.vars with
  | some p => !(so.diff p.2.vars vars).isEmpty && bare F
  | none => false

/-- the factor that the statement assigns to a new variable -/
def made (v : VState) (c : Cmd) : Except PyErr Factor :=
  match v.step c with
  | (_, some e) => .error e
  | (v', none) =>
    match v'.facs.getLast? with
    | some F => .ok F
    | none => .error .keyError

namespace CState

/-- the value of a factor variable -/
def value (s : CState) (F : Fac) : Factor := ⟨tableOf s.cells F.tab, F.order, F.values⟩

/-- the values of the factor and array variables -/
def read (s : CState) : VState := ⟨s.facs.map s.value, s.arrs.map (tableOf s.cells)⟩

/-- the values of all variables -/
def contents (s : CState) : Contents := ⟨s.read.facs, s.read.arrs, s.trees⟩

/-- assign a new factor variable -/
def push (s : CState) (isNum : Factor → Bool) : Except PyErr Factor → CState × Option PyErr
  | .error e => (s, some e)
  | .ok F =>
    if isNum F then
      ({ s with facs := s.facs ++ [⟨.num (F.potentials.get []), F.variableOrder, F.values⟩] }, none)
    else
      ({ s with
        cells := s.cells ++ [F.potentials]
        facs := s.facs ++ [⟨.cell s.cells.length, F.variableOrder, F.values⟩] }, none)

/-- assign a new array variable -/
def pushArr (s : CState) : Except PyErr NDArray → CState × Option PyErr
  | .error e => (s, some e)
  | .ok a => ({ s with cells := s.cells ++ [a], arrs := s.arrs ++ [.cell s.cells.length] }, none)

/-- give the factor variable `i` another table -/
def setTable (s : CState) (i : Nat) (F : Fac) (a : NDArray) : CState :=
  match F.tab with
  | .num _ => { s with facs := s.facs.set i { F with tab := .num (a.get []) } }
  | .cell c => { s with cells := s.cells.set c a }

/-- assign to one element of a table -/
def assignTo (s : CState) (idx : List Nat) (x : ℚ) : Tab → CState × Option PyErr
  | .num _ => (s, some .typeError)
  | .cell c =>
    match assign (tableOf s.cells (.cell c)) idx x with
    | .error e => (s, some e)
    | .ok a => ({ s with cells := s.cells.set c a }, none)

/-- use the variable with that number -/
def withVar {α : Type} (s : CState) (x : Except PyErr α) (f : α → CState × Option PyErr) :
    CState × Option PyErr :=
  match x with
  | .error e => (s, some e)
  | .ok a => f a

/-- a statement about factors and arrays -/
def stepFactor (s : CState) : Cmd → CState × Option PyErr
  | .normalize i => s.withVar (var s.facs i) fun F =>
      (s.setTable i F (s.value F).normalize.potentials, none)
  | .getPotential i vars => s.withVar (var s.facs i) fun F =>
      if vars.length = 0 then
        s.withVar ((s.value F).getPotential vars) fun _ => ({ s with arrs := s.arrs ++ [F.tab] }, none)
      else s.pushArr ((s.value F).getPotential vars)
  | .write k idx x => s.withVar (var s.arrs k) (s.assignTo idx x)
  | .poke i idx x => s.withVar (var s.facs i) fun F => s.assignTo idx x F.tab
  | .relabel i v labels => s.withVar (var s.facs i) fun F =>
      ({ s with facs := s.facs.set i { F with values := F.values.set v labels } }, none)
  | .reorder i order => s.withVar (var s.facs i) fun F =>
      s.withVar (require (order.length = F.order.length) .valueError) fun _ =>
        ({ s with facs := s.facs.set i { F with order := order } }, none)
  | c => s.push (newIsNum c) (made s.read c)

/-- assign the tree variable `i` -/
def setTree (s : CState) (i : Nat) (r : JRes) : CState × Option PyErr :=
  ({ s with trees := s.trees.set i r.1 }, r.2)

/-- one statement; an exception is caught by the program and leaves the variables as they are, but for
the tree whose method raised it -/
def step (s : CState) : Stmt → CState × Option PyErr
  | .factor c => s.stepFactor c
  | .copyArr k => s.pushArr (var s.read.arrs k)
  | .naive so net vars ev => s.push bare do
      let bn ← netOf s.read.arrs net
      let ev ← evidenceOf s.read.arrs ev
      VE.naiveMarginals so bn vars ev
  | .bucket so net vars ev order => s.push bare do
      let bn ← netOf s.read.arrs net
      let ev ← evidenceOf s.read.arrs ev
      VE.bucketMarginals so bn vars ev order
  | .tree so net order => s.withVar (netOf s.read.arrs net) fun bn =>
      s.withVar (JoinTree.create so bn order) fun t => ({ s with trees := s.trees ++ [t] }, none)
  | .reset so i net => s.withVar (netOf s.read.arrs net) fun bn =>
      s.withVar (var s.trees i) fun t => s.setTree i (t.reset so bn)
  | .calculate so limit i => s.withVar (var s.trees i) fun t => s.setTree i (t.calculate so limit)
  | .setEvidence so limit i net ev soft => s.withVar (netOf s.read.arrs net) fun bn =>
      s.withVar (evidenceOf s.read.arrs ev) fun ev =>
        s.withVar (var s.trees i) fun t => s.setTree i (t.setEvidence so limit bn ev soft)
  | .marginals so limit i vars => s.withVar (var s.trees i) fun t =>
      let r := t.marginals so limit vars
      { s with trees := s.trees.set i r.1 }.push (answerIsNum so vars r.1) r.2

/-- a program: the final variables and the exceptions that were caught -/
def run (s : CState) : List Stmt → CState × List (Option PyErr)
  | [] => (s, [])
  | c :: cs =>
    let r := s.step c
    let rest := r.1.run cs
    (rest.1, r.2 :: rest.2)

/-- a program starts with some arrays -/
def start (arrays : List NDArray) : CState :=
  { cells := arrays, arrs := (List.range arrays.length).map .cell }

end CState

/-! ## memory -/

/-- the variables of a program, holding references -/
structure QState where
  mem : HState := {}
  trees : List HTree := []

/-- the network with the arrays in the given variables -/
def refNet (s : HState) (net : List (NodeV × Nat)) : Except PyErr MNet :=
  net.mapM fun p => do
    let a ← var s.arrs p.2
    require (fits p.1 (s.heap.pot a)) .typeError
    return (p.1, a)

/-- the evidence with the arrays in the given variables -/
def refEvidence (s : HState) (ev : Dict (Val ⊕ Nat)) : Except PyErr MEvidence :=
  ev.mapM fun p =>
    match p.2 with
    | .inl x => .ok (p.1, .inl x)
    | .inr k => do
      let a ← var s.arrs k
      require ((s.heap.pot a).shape.length = 1) .typeError
      return (p.1, .inr a)

namespace QState

/-- a statement about factors and arrays -/
def onMem (s : QState) (r : HState × Option PyErr) : QState × Option PyErr := ({ s with mem := r.1 }, r.2)

/-- use the variable with that number -/
def withVar {α : Type} (s : QState) (x : Except PyErr α) (f : α → QState × Option PyErr) :
    QState × Option PyErr :=
  match x with
  | .error e => (s, some e)
  | .ok a => f a

/-- call a method of the tree in variable `i` -/
def onTree (s : QState) (i : Nat) (r : HRes) : QState × Option PyErr :=
  (⟨{ s.mem with heap := r.1 }, s.trees.set i r.2.1⟩, r.2.2)

/-- assign a new tree variable -/
def pushTree (s : QState) (r : Heap × Except PyErr HTree) : QState × Option PyErr :=
  match r with
  | (h, .ok T) => (⟨{ s.mem with heap := h }, s.trees ++ [T]⟩, none)
  | (h, .error e) => ({ s with mem := { s.mem with heap := h } }, some e)

/-- one statement; an exception is caught by the program -/
def step (s : QState) : Stmt → QState × Option PyErr
  | .factor (.poke i idx x) => s.onMem (s.mem.exec do
      let f ← HM.lift (var s.mem.facs i)
      let o ← HM.read fun h => h.fac f
      HState.store o.pot idx x)
  | .factor c => s.onMem (s.mem.step c)
  | .copyArr k => s.onMem (s.mem.pushArr do
      let p ← HM.lift (var s.mem.arrs k)
      Heap.npCopy p)
  | .naive so net vars ev => s.onMem (s.mem.push do
      let net ← HM.lift (refNet s.mem net)
      let ev ← HM.lift (refEvidence s.mem ev)
      Heap.naiveMarginals so net vars ev)
  | .bucket so net vars ev order => s.onMem (s.mem.push do
      let net ← HM.lift (refNet s.mem net)
      let ev ← HM.lift (refEvidence s.mem ev)
      Heap.bucketMarginals so net vars ev order)
  | .tree so net order => s.withVar (refNet s.mem net) fun net =>
      s.pushTree (Heap.createTree so net order s.mem.heap)
  | .reset so i net => s.withVar (refNet s.mem net) fun net =>
      s.withVar (var s.trees i) fun T => s.onTree i (Heap.reset so net T s.mem.heap)
  | .calculate so limit i => s.withVar (var s.trees i) fun T =>
      s.onTree i (Heap.calculate so limit T s.mem.heap)
  | .setEvidence so limit i net ev soft => s.withVar (refNet s.mem net) fun net =>
      s.withVar (refEvidence s.mem ev) fun ev =>
        s.withVar (var s.trees i) fun T => s.onTree i (Heap.setEvidence so limit net ev soft T s.mem.heap)
  | .marginals so limit i vars => s.withVar (var s.trees i) fun T =>
      let r := Heap.treeMarginals so limit vars T s.mem.heap
      { s with trees := s.trees.set i r.2.1 }.onMem (s.mem.push fun _ => (r.1, r.2.2))

/-- a program: the final variables and the exceptions that were caught -/
def run (s : QState) : List Stmt → QState × List (Option PyErr)
  | [] => (s, [])
  | c :: cs =>
    let r := s.step c
    let rest := r.1.run cs
    (rest.1, r.2 :: rest.2)

/-- what the program can read from its variables -/
def contents (s : QState) : Contents :=
  ⟨s.mem.contents.facs, s.mem.contents.arrs, s.trees.map fun T => T.read s.mem.heap⟩

/-- what can be read after a statement, and its exception -/
def after (s : QState) (c : Stmt) : Contents × Option PyErr := ((s.step c).1.contents, (s.step c).2)

/-- a program starts with some arrays, each in its own buffer -/
def start (arrays : List NDArray) : QState := { mem := HState.start arrays }

end QState
end Primo.Query
