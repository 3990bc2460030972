import Verif.Dtype
import Verif.Spec.HeapQuery

/-!
# Programs that know the element types of their tables

The programs of `Verif.Spec.HeapQuery`, in which every table has an element type.  `erase` forgets the
types.  `Harmless` names the statements for which the types are of no importance.
-/

namespace Primo

/-! ## calls on one node -/

/-- a call that changes the table of a node; arrays come with their element types -/
inductive NodeCall
  /-- the structure becomes that of another node, e.g. by `add_parent` -/
  | restructure (m : NodeV)
  | setCpd (c : NDArray) (d : DType)
  | setProbability (v : Val) (p : ℚ) (pv : Dict Val)
  | setUtilities (u : NDArray) (d : DType)
  | setUtility (u : ℚ) (pv : Dict Val)

/-- the call on a node whose table has an element type -/
def TypedNode.call (n : TypedNode) : NodeCall → TypedNode × Option PyErr
  | .restructure m => (TypedNode.restructure m, none)
  | .setCpd c d => n.setCpd c d
  | .setProbability v p pv => n.setProbability v p pv
  | .setUtilities u d => n.setUtilities u d
  | .setUtility u pv => n.setUtility u pv

/-- several calls; exceptions are caught -/
def TypedNode.calls (n : TypedNode) : List NodeCall → TypedNode × List (Option PyErr)
  | [] => (n, [])
  | c :: cs => (((n.call c).1.calls cs).1, (n.call c).2 :: ((n.call c).1.calls cs).2)

/-- give the node another table -/
def NodeV.store (n : NodeV) : Except PyErr NDArray → NodeV × Option PyErr
  | .ok a => ({ n with cpd := a, plain := false }, none)
  | .error e => (n, some e)

/-- the call on a node whose table holds any numbers -/
def NodeV.call (n : NodeV) : NodeCall → NodeV × Option PyErr
  | .restructure m => ((TypedNode.restructure m).node, none)
  | .setCpd c _ => n.store (n.setCpd c)
  | .setProbability v p pv => n.store (n.setProbability v p pv)
  | .setUtilities u _ => n.store (n.setUtilities u)
  | .setUtility u pv => n.store (n.setUtility u pv)

/-- several calls; exceptions are caught -/
def NodeV.calls (n : NodeV) : List NodeCall → NodeV × List (Option PyErr)
  | [] => (n, [])
  | c :: cs => (((n.call c).1.calls cs).1, (n.call c).2 :: ((n.call c).1.calls cs).2)

/-- the arrays that the call brings along are arrays of floats -/
def NodeCall.Float : NodeCall → Prop
  | .setCpd _ d => d = .float
  | .setUtilities _ d => d = .float
  | _ => True

namespace Typed

open Mem Query

/-- a table: a number, or one of the tables that can be assigned to -/
inductive DTab
  | num (x : ℚ) (d : DType)
  | cell (c : Nat)

/-- is it a number? -/
def DTab.isNum : DTab → Bool
  | .num .. => true
  | .cell _ => false

/-- a factor variable -/
structure DFac where
  tab : DTab
  order : List Name
  values : Dict (List Val)

/-- the variables of a program -/
structure DState where
  cells : List (NDArray × DType) := []
  facs : List DFac := []
  arrs : List DTab := []
  trees : List TTree := []

/-! ## forgetting the types -/

/-- the table without its type -/
def DTab.erase : DTab → Tab
  | .num x _ => .num x
  | .cell c => .cell c

/-- the factor variable without its type -/
def DFac.erase (F : DFac) : Fac := ⟨F.tab.erase, F.order, F.values⟩

/-- the variables without their types -/
def DState.erase (s : DState) : CState :=
  ⟨s.cells.map Prod.fst, s.facs.map DFac.erase, s.arrs.map DTab.erase, s.trees.map TTree.erase⟩

namespace DState

/-! ## statements -/

/-- the table with its type -/
def typed (s : DState) : DTab → NDArray × DType
  | .num x d => (NDArray.scalar x, d)
  | .cell c => s.cells.getD c (NDArray.scalar 0, .float)

/-- the value of a factor variable -/
def fac (s : DState) (F : DFac) : TFactor :=
  ⟨⟨(s.typed F.tab).1, F.order, F.values⟩, (s.typed F.tab).2, F.tab.isNum⟩

/-- use the variable with that number -/
def withVar {α : Type} (s : DState) (x : Except PyErr α) (f : α → DState × Option PyErr) :
    DState × Option PyErr :=
  match x with
  | .error e => (s, some e)
  | .ok a => f a

/-- assign a new factor variable -/
def push (s : DState) : Except PyErr TFactor → DState × Option PyErr
  | .error e => (s, some e)
  | .ok t =>
    if t.num then
      ({ s with facs := s.facs ++
        [⟨.num (t.val.potentials.get []) t.dt, t.val.variableOrder, t.val.values⟩] }, none)
    else
      ({ s with
        cells := s.cells ++ [(t.val.potentials, t.dt)]
        facs := s.facs ++ [⟨.cell s.cells.length, t.val.variableOrder, t.val.values⟩] }, none)

/-- assign a new array variable -/
def pushArr (s : DState) (d : DType) : Except PyErr NDArray → DState × Option PyErr
  | .error e => (s, some e)
  | .ok a => ({ s with cells := s.cells ++ [(a, d)], arrs := s.arrs ++ [.cell s.cells.length] }, none)

/-- give the factor variable `i` another table -/
def setTable (s : DState) (i : Nat) (F : DFac) (a : NDArray × DType) : DState :=
  match F.tab with
  | .num _ _ => { s with facs := s.facs.set i { F with tab := .num (a.1.get []) a.2 } }
  | .cell c => { s with cells := s.cells.set c a }

/-- assign to one element of a table: the number is converted to the type of the table -/
def assignTo (s : DState) (idx : List Nat) (x : ℚ) : DTab → DState × Option PyErr
  | .num _ _ => (s, some .typeError)
  | .cell c =>
    match assign (s.typed (.cell c)).1 idx ((s.typed (.cell c)).2.cast x) with
    | .error e => (s, some e)
    | .ok a => ({ s with cells := s.cells.set c (a, (s.typed (.cell c)).2) }, none)

/-- the factor that the statement assigns to a new variable -/
def made (s : DState) : Cmd → Except PyErr TFactor
  | .trivial x => .ok (TFactor.trivial x)
  | .const c order values => TFactor.constFactor c order values
  | .fromNode node k => do
      let t ← var s.arrs k
      require (fits node (s.typed t).1) .typeError
      if node.kind = .utility then
        TFactor.fromUtilityNode ⟨{ node with cpd := (s.typed t).1 }, (s.typed t).2⟩
      else TFactor.fromNode ⟨{ node with cpd := (s.typed t).1 }, (s.typed t).2⟩
  | .hard v values e => TFactor.asEvidence v values (.hard e, .float) none
  | .soft v values k none => do
      let t ← var s.arrs k
      require ((s.typed t).1.shape.length = 1) .typeError
      TFactor.asEvidence v values (.soft (s.typed t).1.data, (s.typed t).2) none
  | .soft v values k (some q) => do
      let t ← var s.arrs k
      let u ← var s.arrs q
      require ((s.typed t).1.shape.length = 1) .typeError
      require ((s.typed u).1.shape.length = 1) .typeError
      TFactor.asEvidence v values (.soft (s.typed t).1.data, (s.typed t).2) (some (s.typed u).1)
  | .fromSamples samples values => do
      require (decide values.keys.Nodup) .syntaxError
      (Factor.fromSamples samples values).map (⟨·, .float, false⟩)
  | .copy i => do
      let F ← var s.facs i
      return { s.fac F with num := false }
  | .mul so i j => do
      let F ← var s.facs i
      let G ← var s.facs j
      (s.fac F).mul so (s.fac G)
  | .add so i j => do
      let F ← var s.facs i
      let G ← var s.facs j
      (s.fac F).add so (s.fac G)
  | .div so i j => do
      let F ← var s.facs i
      let G ← var s.facs j
      (s.fac F).div so (s.fac G)
  | .invert i => do
      let F ← var s.facs i
      (s.fac F).invert
  | .marginalize i vars => do
      let F ← var s.facs i
      (s.fac F).marginalize vars
  | _ => .error .keyError

/-- a statement about factors and arrays -/
def stepFactor (s : DState) : Cmd → DState × Option PyErr
  | .normalize i => s.withVar (var s.facs i) fun F => s.withVar (s.fac F).normalize fun t =>
      (s.setTable i F (t.val.potentials, t.dt), none)
  | .getPotential i vars => s.withVar (var s.facs i) fun F =>
      if vars.length = 0 then
        s.withVar ((s.fac F).val.getPotential vars) fun _ => ({ s with arrs := s.arrs ++ [F.tab] }, none)
      else s.pushArr (s.fac F).dt ((s.fac F).val.getPotential vars)
  | .write k idx x => s.withVar (var s.arrs k) (s.assignTo idx x)
  | .poke i idx x => s.withVar (var s.facs i) fun F => s.assignTo idx x F.tab
  | .relabel i v labels => s.withVar (var s.facs i) fun F =>
      ({ s with facs := s.facs.set i { F with values := F.values.set v labels } }, none)
  | .reorder i order => s.withVar (var s.facs i) fun F =>
      s.withVar (require (order.length = F.order.length) .valueError) fun _ =>
        ({ s with facs := s.facs.set i { F with order := order } }, none)
  | c => s.push (s.made c)

/-- the network with the tables in the given array variables -/
def netOf (s : DState) (net : List (NodeV × Nat)) : Except PyErr TBN :=
  net.mapM fun p => do
    let t ← var s.arrs p.2
    require (fits p.1 (s.typed t).1) .typeError
    return ⟨{ p.1 with cpd := (s.typed t).1 }, (s.typed t).2⟩

/-- the evidence with the numbers in the given array variables -/
def evidenceOf (s : DState) (ev : Dict (Val ⊕ Nat)) : Except PyErr TEvidence :=
  ev.mapM fun p =>
    match p.2 with
    | .inl x => .ok (p.1, (.hard x, .float))
    | .inr k => do
      let t ← var s.arrs k
      require ((s.typed t).1.shape.length = 1) .typeError
      return (p.1, (.soft (s.typed t).1.data, (s.typed t).2))

/-- assign the tree variable `i` -/
def setTree (s : DState) (i : Nat) (r : TRes) : DState × Option PyErr :=
  ({ s with trees := s.trees.set i r.1 }, r.2)

/-- one statement -/
def step (s : DState) : Stmt → DState × Option PyErr
  | .factor c => s.stepFactor c
  | .copyArr k => s.withVar (var s.arrs k) fun t => s.pushArr (s.typed t).2 (.ok (s.typed t).1)
  | .naive so net vars ev => s.push do
      let tn ← s.netOf net
      let ev ← s.evidenceOf ev
      TVE.naiveMarginals so tn vars ev
  | .bucket so net vars ev order => s.push do
      let tn ← s.netOf net
      let ev ← s.evidenceOf ev
      TVE.bucketMarginals so tn vars ev order
  | .tree so net order => s.withVar (s.netOf net) fun tn =>
      s.withVar (TTree.create so tn order) fun t => ({ s with trees := s.trees ++ [t] }, none)
  | .reset so i net => s.withVar (s.netOf net) fun tn =>
      s.withVar (var s.trees i) fun t => s.setTree i (t.reset so tn)
  | .calculate so limit i => s.withVar (var s.trees i) fun t => s.setTree i (t.calculate so limit)
  | .setEvidence so limit i net ev soft => s.withVar (s.netOf net) fun tn =>
      s.withVar (s.evidenceOf ev) fun ev =>
        s.withVar (var s.trees i) fun t => s.setTree i (t.setEvidence so limit tn ev soft)
  | .marginals so limit i vars => s.withVar (var s.trees i) fun t =>
      let r := t.marginals so limit vars
      { s with trees := s.trees.set i r.1 }.push r.2

/-- a program: the final variables and the exceptions that were caught -/
def run (s : DState) : List Stmt → DState × List (Option PyErr)
  | [] => (s, [])
  | c :: cs =>
    let r := s.step c
    let rest := r.1.run cs
    (rest.1, r.2 :: rest.2)

/-- a program starts with some arrays of some types -/
def start (arrays : List (NDArray × DType)) : DState :=
  { cells := arrays, arrs := (List.range arrays.length).map .cell }

/-! ## statements that do not depend on the types -/

/-- `normalize` divides floats or a number (or does not divide), assigned numbers are elements of the type
of the table, and `+` has at most one table of truth values -/
def Harmless (s : DState) : Stmt → Prop
  | .factor (.normalize i) => ∀ F, var s.facs i = .ok F →
      F.tab.isNum = true ∨ (s.typed F.tab).2 = .float ∨ (s.typed F.tab).1.sumAll ≤ 0
  | .factor (.write k _ x) => ∀ t, var s.arrs k = .ok t → (s.typed t).2.cast x = x
  | .factor (.poke i _ x) => ∀ F, var s.facs i = .ok F → (s.typed F.tab).2.cast x = x
  | .factor (.add _ i j) => ∀ F G, var s.facs i = .ok F → var s.facs j = .ok G →
      ¬ ((s.typed F.tab).2 = .bool ∧ (s.typed G.tab).2 = .bool)
  | _ => True

/-- every statement is harmless when it is executed -/
def AllHarmless (s : DState) : List Stmt → Prop
  | [] => True
  | c :: cs => s.Harmless c ∧ (s.step c).1.AllHarmless cs

end DState
end Typed
end Primo
