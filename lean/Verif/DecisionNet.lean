import Verif.Network
import Verif.Decision

/-!
# `DecisionNetwork`: building it and asking it, on live node objects

`networks.py:318-327` and the calls of `decision.VariableElimination`, which write into the node
objects of the network.  The state is a `Net` of which only the heap and `node_lookup` are used (a
`DecisionNetwork` has no graph).
-/

namespace Primo
namespace Net

/-- `DecisionNetwork.add_node`: `networks.py:323-324` (no check for a node of the same name). -/
def dnAddNode (i : Nat) (s : Net) : Res := ({ s with lookup := s.lookup.set (s.heap i).name i }, none)

/-- `DecisionNetwork.add_edge`: `networks.py:326-327` (no check for cycles or repeated edges). -/
def dnAddEdge (a b : Name) (s : Net) : Res :=
  match s.lookup.get? b, s.lookup.get? a with
  | some i, some j => addParent i j s
  | _, _ => (s, some .keyError)

/-- `net.node_lookup[v].set_decision(x)`: `decision.py:125-127, 209` -/
def decideOne (v : Name) (x : Val) (s : Net) : Res :=
  match s.lookup.get? v with
  | some i => setDecision i x s
  | none => (s, some .keyError)

/-- `net.node_lookup[v].fully_mixed()`: `decision.py:207` -/
def mixOne (v : Name) (s : Net) : Res :=
  match s.lookup.get? v with
  | some i => fullyMixed i s
  | none => (s, some .keyError)

/-- the changes made by `expected_utility(D)`: `decision.py:121-127` -/
def decideAll (D : Dict Val) (s : Net) : Res := Res.forEach (fun p => decideOne p.1 p.2) D s

/-- the changes made by `get_optimal_decisions(order, fixed)`: `decision.py:205-209` -/
def prepareAll (order : List Name) (fixed : Dict Val) (s : Net) : Res :=
  Res.forEach (fun v => match fixed.get? v with
    | some x => decideOne v x
    | none => mixOne v) order s

/-- A call on a decision network, on one of the node objects, or on a `decision.VariableElimination`. -/
inductive DOp
  | create (kind : NodeKind) (name : Name) (values : List Val)
  | addNode (i : Nat)
  | addEdge (a b : Name)
  | removeParent (i j : Nat)
  | setValues (i : Nat) (vals : List Val)
  | setCpd (i : Nat) (c : NDArray)
  | setProbability (i : Nat) (v : Val) (p : ℚ) (pv : Dict Val)
  | setUtilities (i : Nat) (u : NDArray)
  | setUtility (i : Nat) (u : ℚ) (pv : Dict Val)
  | setDecision (i : Nat) (d : Val)
  | fullyMixed (i : Nat)
  | expectedUtility (D : Dict Val)
  | optimalDecisions (order : List Name) (fixed : Dict Val)

/-- perform a call -/
def dstep : DOp → Net → Res
  | .create k n v => create k n v
  | .addNode i => dnAddNode i
  | .addEdge a b => dnAddEdge a b
  | .removeParent i j => removeParent i j
  | .setValues i v => setValues i v
  | .setCpd i c => setCpd i c
  | .setProbability i v p pv => setProbability i v p pv
  | .setUtilities i u => setUtilities i u
  | .setUtility i u pv => setUtility i u pv
  | .setDecision i d => setDecision i d
  | .fullyMixed i => fullyMixed i
  | .expectedUtility D => decideAll D
  | .optimalDecisions o f => prepareAll o f

/-- a history of calls; the caller catches exceptions and goes on -/
def drun (ops : List DOp) (s : Net) : Net := ops.foldl (fun s op => (dstep op s).1) s

end Net
end Primo
