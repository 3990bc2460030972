import Verif.Spec.Decision
import Verif.Spec.Sensitive

/-! # Specification vocabulary: decision networks with similar utilities -/

namespace Primo

/-- The same chance and decision nodes with the same tables; the utilities are in total `a` times the ones of
`dn` plus `b`.  How they are spread over utility nodes does not matter. -/
structure AffineUtility (dn dn' : BN) (a b : ℚ) : Prop where
  chance : dn'.chance = dn.chance
  utility : ∀ σ, Legal dn.chance.card dn.chance.names σ → totalUtility dn' σ = a * totalUtility dn σ + b

/-- The same chance and decision nodes with the same tables; the utilities differ in total by at most `ε`. -/
structure UtilityWithin (dn dn' : BN) (ε : ℚ) : Prop where
  chance : dn'.chance = dn.chance
  utility : ∀ σ, Legal dn.chance.card dn.chance.names σ → |totalUtility dn' σ - totalUtility dn σ| ≤ ε

/-- the utilities of the two networks are the same in total -/
def SameUtility (dn dn' : BN) : Prop :=
  ∀ σ, Legal dn.chance.card dn.chance.names σ → totalUtility dn' σ = totalUtility dn σ

end Primo
