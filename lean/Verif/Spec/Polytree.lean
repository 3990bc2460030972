import Verif.Spec.Graph
import Mathlib.Combinatorics.SimpleGraph.Acyclic

/-! # Specification vocabulary: singly connected networks -/

namespace Primo

/-- the undirected skeleton as a simple graph -/
def BN.skeleton (bn : BN) : SimpleGraph Name where
  Adj u v := u ≠ v ∧ bn.Skel u v
  symm := ⟨fun _ _ h => ⟨h.1.symm, h.2.symm⟩⟩
  loopless := ⟨fun _ h => h.1 rfl⟩

/-- no undirected cycles: at most one path between any two nodes -/
def BN.Polytree (bn : BN) : Prop := bn.skeleton.IsAcyclic

end Primo
