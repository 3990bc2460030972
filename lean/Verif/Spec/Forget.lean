import Verif.Spec.RoundedDynamic
import Verif.Spec.Rate

/-! # Specification vocabulary: how much of the past a slice can see -/

namespace Primo

/-- No entry in the table of a child of `a` becomes more than `ρ` times as large when the outcome of `a` is changed. -/
def BN.Influence (bn : BN) (a : Name) (ρ : ℚ) : Prop :=
  ∀ n ∈ bn, a ∈ n.parentOrder → ∀ σ, Legal bn.card bn.names σ → ∀ i < bn.card a,
    n.entry (Function.update σ a i) ≤ ρ * n.entry σ

/-- how much the outcome of `a` can change the likelihood of everything else -/
def BN.grip (bn : BN) (a : Name) (ρ : ℚ) : ℚ := ρ ^ bn.childCount a

/-- By which factor posteriors can still differ after `k` more slices, if the priors of the first one differ by the
factor `κ`: the excess over one shrinks by `1 - 1 / R` in each slice. -/
def fade (R κ : ℚ) (k : Nat) : ℚ := 1 + (κ - 1) * (1 - 1 / R) ^ k

end Primo
