import Verif.Spec.Forget

/-! # Specification vocabulary: several transitions -/

namespace Primo

/-- No transition source is a transition target, and the outcome of a target `a` changes the tables of its children by
at most the factor `ρ a`. -/
structure DBN.Bounded (d : DBN) (ρ : Name → ℚ) : Prop where
  sources : ∀ tr ∈ d.transitions, ∀ tr' ∈ d.transitions, tr.2 ≠ tr'.1
  one_le : ∀ tr ∈ d.transitions, 1 ≤ ρ tr.1
  influence : ∀ tr ∈ d.transitions, d.twoTbn.Influence tr.1 (ρ tr.1)

/-- By which factor the carried marginals can differ after one more slice, if they differ by the factor `κ`. -/
def DBN.blur (d : DBN) (ρ : Name → ℚ) (κ : ℚ) : ℚ :=
  (d.transitions.map fun tr => fade (d.twoTbn.grip tr.1 (ρ tr.1)) κ 1).prod

/-- By which factor the carried marginals can differ whatever they were in the slice before. -/
def DBN.reach (d : DBN) (ρ : Name → ℚ) : ℚ := (d.transitions.map fun tr => d.twoTbn.grip tr.1 (ρ tr.1) ^ 2).prod

end Primo
