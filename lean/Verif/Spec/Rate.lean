import Verif.Spec.Converge
import Mathlib.Data.Nat.Factorial.Basic

/-! # Specification vocabulary: how fast the samplers forget where they started -/

namespace Primo

/-- No table entry is smaller than `a`. -/
def BN.AtLeast (bn : BN) (a : ℚ) : Prop := ∀ n ∈ bn, ∀ x ∈ n.cpd.data, a ≤ x

/-- No table entry that agrees with the evidence is smaller than `a`. -/
def BN.AtLeastGiven (bn : BN) (ev : Dict Val) (a : ℚ) : Prop :=
  ∀ n ∈ bn, ∀ σ, Legal bn.card bn.names σ → Agrees bn ev σ → a ≤ n.entry σ

/-- the number of children of `v` -/
def BN.childCount (bn : BN) (v : Name) : Nat := (bn.filter fun m => v ∈ m.parentOrder).length

/-- the variables that are not observed -/
def BN.unobserved (bn : BN) (ev : Dict Val) : BN := bn.filter fun n => n.name ∉ ev.keys

/-- A lower bound for the probability that the new outcome of `n` is drawn without regard to the state, if no
table entry that agrees with the evidence is smaller than `a`. -/
def siteShare (tm : Mcmc.Transition) (bn : BN) (a : ℚ) (n : NodeV) : ℚ :=
  (if tm = .gibbs then (n.values.length : ℚ) else 1) * a ^ (1 + bn.childCount n.name)

/-- the number of steps in which each unobserved variable may get its turn -/
def roundSteps (bn : BN) (ev : Dict Val) (full : Bool) : Nat :=
  if full then 1 else (bn.unobserved ev).length

/-- A lower bound for the probability that after so many steps the state has nothing to do with the state before:
each unobserved variable gets its turn, and is drawn without regard to the state. -/
def roundShare (tm : Mcmc.Transition) (bn : BN) (ev : Dict Val) (a : ℚ) (full : Bool) : ℚ :=
  (if full then 1 else
    ((bn.unobserved ev).length.factorial : ℚ) / (bn.unobserved ev).length ^ (bn.unobserved ev).length) *
    ((bn.unobserved ev).map (siteShare tm bn a)).prod

/-- The random program returns a state that describes one of the instantiations `T`. -/
def ReturnsIn (bn : BN) (T : Finset Assign) (r : Except PyErr (Dict Val)) : Prop :=
  ∃ σ ∈ T, Returns bn σ r

end Primo
