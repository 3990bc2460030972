import Verif.Spec.RoundedTree
import Verif.Spec.Range

/-! # The range of numbers a `FactorTree` needs -/

namespace Primo

/-- How often the sums in a tree can double the largest product of entries, if there are `e` observations and answers
have at most `S` entries: the operations on the way to the first clique, the sums over all variables, and the sum of an
answer. -/
def treeDoublings (bn : BN) (e S : Nat) : Nat := 4 * bn.length + e + 2 * bn.additions [] + S

/-- the most roundings in an answer with at most `S` entries -/
def treeRoundingsMax (bn : BN) (e S : Nat) : Nat := 2 * (cliqueRoundings bn e + bn.additions []) + S

end Primo
