import Verif.Spec.Moral
import Verif.Spec.Rounded

/-! # Specification vocabulary: how large the tables of an elimination get -/

namespace Primo

/-- What surrounds `v` in the moral graph once the variables `E` have been eliminated with fill-in: `v` and
the other remaining variables to which it is connected through eliminated ones. -/
def BN.Around (bn : BN) (E : List Name) (v w : Name) : Prop :=
  w = v ∨ (w ≠ v ∧ w ∈ bn.names ∧ w ∉ E ∧ Via bn.Moral E v w)

open Classical in
/-- how many instantiations that has -/
noncomputable def BN.aroundSize (bn : BN) (E : List Name) (v : Name) : Nat :=
  bn.tableSize (bn.names.filter fun w => bn.Around E v w)

/-- the parents of a node are linked with each other -/
def BN.Married (bn : BN) : Prop := ∀ u v, bn.Moral u v → bn.Skel u v

end Primo
