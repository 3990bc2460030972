import Verif.HashNet
import Verif.Spec.NetState

/-!
# Specification vocabulary: dictionaries keyed by node objects, several networks

`forget` reads the object-keyed dictionaries as name-keyed ones: every key object is replaced by its
current name, stored hashes are dropped.  It looks at no hash, so a stale hash cannot hide behind it.
-/

namespace Primo

/-- a dictionary of node objects, read as a name-keyed dictionary of object ids -/
def HDict.names {κ : Type} (heap : Nat → NodeObj) (d : HDict κ Unit) : Dict Nat :=
  d.map fun e => ((heap e.key).name, e.key)

/-- the same for adjacency dictionaries -/
def HAdj.names {κ : Type} (heap : Nat → NodeObj) (a : HAdj κ) : Dict (Dict Nat) :=
  a.map fun e => ((heap e.key).name, HDict.names heap e.val)

/-- the network without hashes: every key object read as its current name -/
def HNet.forget {κ : Type} (s : HNet κ) : Net :=
  ⟨s.heap, s.next, s.lookup, HDict.names s.heap s.gnode, HAdj.names s.heap s.succ,
    HAdj.names s.heap s.pred⟩

/-- The call on the name-keyed network that a call with node arguments stands for: arguments are read
as names; `change_node_name` is told whether it was given the very node object it renames. -/
def HOp.resolve (s : Net) : HOp → Net.Op
  | .create k n v => .create k n v
  | .addNode i => .addNode i
  | .removeNode q => .removeNode (q.name s.heap)
  | .removeEdge a b => .removeEdge (a.name s.heap) (b.name s.heap)
  | .addEdge a b => .addEdge (a.name s.heap) (b.name s.heap)
  | .changeValues q v => .changeValues (q.name s.heap) v
  | .changeName q n => .changeName (q.name s.heap) n
      (match q with
        | .str _ => false
        | .obj j => decide (s.lookup.get? (s.heap j).name = some j))
  | .clear => .clear
  | .setCpd i c => .setCpd i c
  | .setProbability i v p pv => .setProbability i v p pv
  | .setUtilities i u => .setUtilities i u
  | .setUtility i u pv => .setUtility i u pv
  | .setDecision i d => .setDecision i d
  | .fullyMixed i => .fullyMixed i

/-- The same history on the name-keyed network. -/
def Net.runBy : List HOp → Net → Net × List (Option PyErr)
  | [], s => (s, [])
  | op :: ops, s =>
    ((runBy ops (Net.step (op.resolve s) s).1).1,
      (Net.step (op.resolve s) s).2 :: (runBy ops (Net.step (op.resolve s) s).1).2)

/-- the node object given as argument, if the argument is one -/
def Key.objs : Key → List Nat
  | .str _ => []
  | .obj i => [i]

/-- the node objects a call is given -/
def HOp.objs : HOp → List Nat
  | .create _ _ _ => []
  | .addNode i => [i]
  | .removeNode q => q.objs
  | .removeEdge a b => a.objs ++ b.objs
  | .addEdge a b => a.objs ++ b.objs
  | .changeValues q _ => q.objs
  | .changeName q _ => q.objs
  | .clear => []
  | .setCpd i _ => [i]
  | .setProbability i _ _ _ => [i]
  | .setUtilities i _ => [i]
  | .setUtility i _ _ => [i]
  | .setDecision i _ => [i]
  | .fullyMixed i => [i]

/-- does the call make a node object? -/
def HOp.creates : HOp → Bool
  | .create _ _ _ => true
  | _ => false

/-- Every node object has one network it may be used with: a call on network `k` is given objects of
network `k` only. -/
def World.Separate (own : Nat → Nat) (ops : List (Nat × HOp)) : Prop :=
  ∀ p ∈ ops, ∀ i ∈ p.2.objs, own i = p.1

/-- What concerns network `k`: the calls on it, and the making of node objects. -/
def World.forNet (k : Nat) (ops : List (Nat × HOp)) : List (Nat × HOp) :=
  ops.filter fun p => decide (p.1 = k) || p.2.creates

/-- the answers to the calls in `ops` that concern network `k` (`l`: the answers to all of them) -/
def World.answersFor (k : Nat) (ops : List (Nat × HOp)) (l : List (Option PyErr)) :
    List (Option PyErr) :=
  ((ops.zip l).filter fun x => decide (x.1.1 = k) || x.1.2.creates).map Prod.snd

/-- a history of calls for which the code keeps a network coherent (`Net.Good`) -/
def Net.GoodBy : List HOp → Net → Prop
  | [], _ => True
  | op :: ops, s => Net.Good s (op.resolve s) ∧ GoodBy ops (Net.step (op.resolve s) s).1

end Primo
