import Verif.Spec.Network
import Verif.Spec.Dynamic

/-! # Specification vocabulary: the network with uniform tables -/

namespace Primo

/-- the same network with uniform conditional distributions -/
def BN.uniform (bn : BN) : BN := bn.map fun n =>
  { n with cpd := NDArray.tabulate (n.values.length :: n.parentOrder.map bn.card) fun _ => 1 / n.values.length }

end Primo
