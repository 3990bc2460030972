import Verif.Spec.Range
import Mathlib.Tactic.Linarith
import Mathlib.Tactic.NormNum
import Mathlib.Tactic.FieldSimp
import Mathlib.Algebra.Order.Floor.Ring

/-! # Double precision arithmetic is accurate within its range -/

namespace Primo

theorem roundEven_near (z : ℚ) : |(roundEven z : ℚ) - z| ≤ 1 / 2 := by
  have h1 := Int.floor_le z
  have h2 := Int.lt_floor_add_one z
  unfold roundEven
  rw [abs_le]
  split
  · constructor <;> linarith
  · split
    · push_cast; constructor <;> linarith
    · split
      · constructor <;> linarith
      · push_cast; constructor <;> linarith

theorem ulp_pos (x : ℚ) : 0 < ulp x := zpow_pos (by norm_num) _

theorem ulp_le {x : ℚ} (h : (2 : ℚ) ^ (-1022 : ℤ) ≤ |x|) : ulp x ≤ 2 ^ (-52 : ℤ) * |x| := by
  have hx : 0 < |x| := lt_of_lt_of_le (zpow_pos (by norm_num) _) h
  have hl : -1022 ≤ Int.log 2 |x| := by
    rw [← Int.zpow_le_iff_le_log (by norm_num) hx]
    exact_mod_cast h
  unfold ulp
  rw [max_eq_left hl, sub_eq_add_neg, zpow_add₀ (by norm_num), mul_comm]
  refine mul_le_mul_of_nonneg_left ?_ (zpow_pos (by norm_num) _).le
  exact_mod_cast Int.zpow_log_le_self (b := 2) (by norm_num) hx

theorem toDouble_near (over : ℚ → ℚ) {x : ℚ} (h : Representable doubleMin x) :
    |toDouble over x - x| ≤ doubleError * |x| := by
  rcases h with rfl | ⟨h1, h2⟩
  · have : toDouble over 0 = 0 := by
      unfold toDouble
      rw [if_neg (by norm_num), zero_div]
      have : roundEven 0 = 0 := by unfold roundEven; norm_num
      rw [this]
      norm_num
    rw [this, sub_self, abs_zero, mul_zero]
  · have hle : ¬ 2 ^ 1023 < |x| := by
      rw [doubleMin, mul_one_div, div_le_one (by positivity)] at h2
      refine not_lt.2 (h2.trans ?_)
      exact pow_le_pow_right₀ (by norm_num) (by norm_num)
    unfold toDouble
    rw [if_neg hle]
    have hp := ulp_pos x
    have hu := ulp_le (x := x) (by
      refine le_trans (le_of_eq ?_) h1
      rw [doubleMin, show (-1022 : ℤ) = -((1022 : ℕ) : ℤ) from rfl, zpow_neg, zpow_natCast, one_div])
    have hr := roundEven_near (x / ulp x)
    have e : (roundEven (x / ulp x) : ℚ) * ulp x - x = (roundEven (x / ulp x) - x / ulp x) * ulp x := by
      rw [sub_mul, div_mul_cancel₀ _ hp.ne']
    rw [e, abs_mul, abs_of_pos hp]
    have h3 : |(roundEven (x / ulp x) : ℚ) - x / ulp x| * ulp x ≤ 1 / 2 * (2 ^ (-52 : ℤ) * |x|) :=
      mul_le_mul hr hu hp.le (by norm_num)
    refine h3.trans (le_of_eq ?_)
    rw [← mul_assoc]
    congr 1
    rw [doubleError]
    norm_num

attribute [local irreducible] toDouble

/-- double precision arithmetic, whatever happens to numbers that are too large and however sums are
bracketed -/
theorem Arith.double_accurate (over : ℚ → ℚ) {tree : List ℚ → SumTree} (ht : SumsUp tree) :
    (Arith.double over tree).AccurateWithin doubleError doubleMin where
  nonneg := by rw [doubleError]; norm_num
  lt_one := by rw [doubleError]; norm_num
  add a b h := by
    change |toDouble over (a + b) - (a + b)| ≤ _
    exact toDouble_near over h
  mul a b h := by
    change |toDouble over (a * b) - (a * b)| ≤ _
    exact toDouble_near over h
  div a b _ h := by
    change |toDouble over (a / b) - (a / b)| ≤ _
    exact toDouble_near over h
  sum_nil := rfl
  sum l hl := ⟨tree l, ht l hl, if_neg hl⟩

end Primo
