import Verif.DecisionNet
import Verif.Spec.Decision

/-! # Specification vocabulary: histories of decision networks -/

namespace Primo
namespace Net

/-- The calls that keep a decision network consistent; all objects passed exist.  `add_node`: an object whose name is not that of
another node of the network.  `add_edge`: a new edge between two different nodes, not starting at
a utility node.  `set_values`: only while the node is nobody's parent, as its documentation says. -/
def DGood (s : Net) : DOp → Prop
  | .addNode i => i < s.next ∧ ∀ j, s.lookup.get? (s.heap i).name = some j → j = i
  | .addEdge a b => ∀ i j, s.lookup.get? a = some i → s.lookup.get? b = some j →
      a ≠ b ∧ a ∉ (s.heap j).parentOrder ∧ (s.heap i).kind ≠ .utility
  | .removeParent i _ => i < s.next
  | .setValues i _ => i < s.next ∧ ∀ j < s.next, ∀ p, (s.heap j).parents.get? p ≠ some i
  | _ => True

/-- a history of good calls -/
def DGoodRun : List DOp → Net → Prop
  | [], _ => True
  | op :: ops, s => DGood s op ∧ DGoodRun ops (dstep op s).1

/-- every chance and decision node of the network has outcomes -/
def DUsable (s : Net) : Prop :=
  ∀ k i, s.lookup.get? k = some i → (s.heap i).kind ≠ .utility → (s.heap i).values ≠ []

end Net
end Primo
