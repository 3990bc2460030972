import Verif.Sampling
import Mathlib.MeasureTheory.Integral.IntervalIntegral.Basic

/-!
# Specification vocabulary: what a random program may return, and with which probability
-/

namespace Primo.Rand
variable {α : Type}

/-- Whatever the random numbers, the result satisfies `P`. -/
def All (P : α → Prop) : Rand α → Prop
  | .pure a => P a
  | .choice n k => ∀ i < n, (k i).All P
  | .uniform k => ∀ u : ℝ, 0 ≤ u → u < 1 → (k u).All P

/-- The expected value of `g` of the result: average over the choices, integral over the random
numbers. -/
noncomputable def expect (g : α → ℝ) : Rand α → ℝ
  | .pure a => g a
  | .choice n k => (∑ i ∈ Finset.range n, (k i).expect g) / n
  | .uniform k => ∫ u in (0 : ℝ)..1, (k u).expect g

open Classical in
/-- The probability that the result satisfies `P`. -/
noncomputable def prob (m : Rand α) (P : α → Prop) : ℝ := m.expect fun a => if P a then 1 else 0

end Primo.Rand
