import Verif.Spec.JoinTree
import Verif.Spec.Network
import Verif.Spec.Moral

/-! # Specification vocabulary: what a clique holds that no message reaches -/

namespace Primo
namespace JTree

/-- the first clique that contains all these variables -/
def keeper (t : JTree) (scope : List Name) : Option Name :=
  (t.nodes.find? fun p => decide (∀ x ∈ scope, x ∈ p.2.vars)).map Prod.fst

/-- the variables of the tables and of the evidence that `k` is the first clique to contain -/
def told (t : JTree) (bn : BN) (ev : Dict Evidence) (k : Name) : List Name :=
  (bn.filter fun n => t.keeper n.family = some k).flatMap NodeV.family ++
    (ev.filter fun e => t.keeper [e.1] = some k).map Prod.fst

/-- the product of these tables and likelihoods at `σ` -/
def ownWeight (t : JTree) (bn : BN) (ev : Dict Evidence) (k : Name) (σ : Assign) : ℚ :=
  ((bn.filter fun n => t.keeper n.family = some k).map fun n => n.entry σ).prod *
    ((ev.filter fun e => t.keeper [e.1] = some k).map fun e => lik (bn.lab e.1) e.2 (σ e.1)).prod

end JTree
end Primo
