import Verif.RoundedSampling
import Verif.Spec.Rounded
import Verif.Spec.Converge

/-! # Specification vocabulary: the error of sampling with rounded arithmetic -/

namespace Primo

/-- how far `R` roundings of relative error `u`, and random numbers that are multiples of `1 / N`, can
move a probability -/
def drawError (u : ℚ) (N R : Nat) : ℚ := 1 / (1 - u) ^ R - 1 + 1 / N

/-- how many roundings enter the draw of a value: one multiplication per child and one addition per
outcome, once in the running sum and once in the total, and one multiplication for the position on the
wheel -/
def NodeV.drawRoundings (n : NodeV) : Nat := 2 * (n.children.length + n.values.length) + 1

/-- at most that many roundings enter the draw of any value -/
def BN.drawRoundings (bn : BN) : Nat := (bn.map NodeV.drawRoundings).foldr max 0

end Primo
