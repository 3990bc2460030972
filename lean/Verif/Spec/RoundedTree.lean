import Verif.Spec.Rounded

/-!
# Specification vocabulary: how many roundings are in an answer of a `FactorTree`

Like the bounds for elimination, the bounds depend only on the number of nodes, on the numbers of outcomes
and on the number of observations, not on the arithmetic, the numbers in the tables, the iteration order of sets
or the history of the tree.
-/

namespace Primo

/-- Roundings in a table of a tree of messages, if the observations bring `e` of them: a bound for all the messages
towards the first clique (one product per table, for each message the product, the quotient, the reciprocal, and
altogether the additions of a sum over all variables), three times for each message on the way back. -/
def cliqueRoundings (bn : BN) (e : Nat) : Nat := 3 * bn.length * (4 * bn.length + e + bn.additions [])

/-- roundings in an answer for the variables `Q`: those of the clique, the sum over its other variables, and all this once
more in the sum it divides by -/
def treeRoundings (bn : BN) (e : Nat) (Q : List Name) : Nat :=
  2 * (cliqueRoundings bn e + bn.additions Q) + bn.tableSize Q

/-- roundings that posteriors bring which are entered as evidence: twice those of the old marginal of the variable, and
three more to compute the likelihood from it, and its product with a table -/
def softRoundings (bn : BN) (ev : Dict Evidence) : Nat :=
  (ev.map fun p => 2 * treeRoundings bn 0 [p.1] + 4).sum

end Primo
