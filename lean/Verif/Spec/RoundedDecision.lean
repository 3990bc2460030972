import Verif.RoundedDecision
import Verif.Spec.Rounded
import Verif.Spec.Decision

/-! # Specification vocabulary: errors of expected utilities -/

namespace Primo

/-- the sum of the absolute values of all utilities for the instantiation `σ` -/
def absUtility (dn : BN) (σ : Assign) : ℚ := (dn.utils.map fun n => |n.utility σ|).sum

/-- the sum over all instantiations of the product of all probability tables and decision rules
times the sum of the absolute values of all utilities -/
def absUtilityMass (dn : BN) : ℚ :=
  sumOver dn.chance.card dn.chance.names.toFinset
    (fun τ => joint dn.chance τ * absUtility dn τ) fun _ => 0

/-- how many additions it takes to sum over all chance and decision variables, one after the other -/
def BN.chanceAdditions (dn : BN) : Nat := (dn.chance.map fun n => n.values.length - 1).sum

/-- how many roundings enter an expected utility: the quadratic term is due to the division by the
probability after every elimination -/
def BN.utilityRoundings (dn : BN) : Nat :=
  dn.length + dn.chance.length * (2 * (2 * dn.length + dn.chanceAdditions) + 3) + 2 * dn.chanceAdditions

/-- what `utilityRoundings` roundings of relative size `u` can amount to -/
def BN.utilityError (u : ℚ) (dn : BN) : ℚ := 1 / (1 - u) ^ dn.utilityRoundings - 1

/-- the decision rule under which all decisions are equally probable, with a rounded probability -/
def NodeV.mixedRuleR (A : Arith) (n : NodeV) : NDArray :=
  NDArray.tabulate n.cpd.shape fun _ => A.div 1 n.values.length

/-- `BN.mix` with rounded probabilities -/
def BN.mixR (A : Arith) (dn : BN) (fixed : Dict Val) (order : List Name) : BN := dn.map fun n =>
  if n.name ∈ order then
    match fixed.get? n.name with
    | some x => { n with cpd := n.pureRule x }
    | none => { n with cpd := n.mixedRuleR A }
  else n

end Primo
