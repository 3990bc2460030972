import Verif.Props.Fit
import Verif.Examples.Converge

/-! # A network with a rare observation, used in the refutation and the examples of C78 -/

namespace Primo
open Finset

/-- `a → b` with a fair `a`; `x` and `y` are the probabilities of the first outcome of `b` -/
def Ex.rare (x y : ℚ) : BN := [Ex.ka,
  ⟨"b", .discrete, ["t", "f"], ["a"], [("a", ["t", "f"])], [], ⟨[2, 2], [x, y, 1 - x, 1 - y], rfl⟩, false⟩]

theorem Ex.rare_bare (x y : ℚ) : (Ex.rare x y).bare = Ex.copyNet.bare := rfl

theorem Ex.rare_consistent (x y : ℚ) : (Ex.rare x y).Consistent :=
  Ex.copyNet_consistent.of_bare (Ex.rare_bare x y) fun n' hn' => by
    simp only [Ex.rare, List.mem_cons, List.not_mem_nil, or_false] at hn'
    rcases hn' with rfl | rfl <;> rfl

theorem Ex.rare_positive {x y : ℚ} (hx : 0 < x) (hx1 : x < 1) (hy : 0 < y) (hy1 : y < 1) :
    (Ex.rare x y).Positive := by
  intro n hn z hz
  simp only [Ex.rare, List.mem_cons, List.not_mem_nil, or_false] at hn
  rcases hn with rfl | rfl
  · simp only [Ex.ka, List.mem_cons, List.not_mem_nil, or_false] at hz
    rcases hz with rfl | rfl <;> norm_num
  · simp only [List.mem_cons, List.not_mem_nil, or_false] at hz
    rcases hz with rfl | rfl | rfl | rfl <;> linarith

theorem Ex.rare_weight (x y : ℚ) (i j : Nat) (hi : i < 2) (hj : j < 2) (σ : Assign) (ha : σ "a" = i) (hb : σ "b" = j) :
    weight (Ex.rare x y) [("b", .hard "t")] σ = if j = 0 then 1 / 2 * (if i = 0 then x else y) else 0 := by
  simp only [weight, Ex.rare, List.map_cons, List.map_nil, List.prod_cons, List.prod_nil, NodeV.entry, Ex.ka, ha, hb]
  interval_cases i <;> interval_cases j <;> simp [NDArray.get, NDArray.ravel, lik, BN.lab]

theorem Ex.rare_stochastic (x y : ℚ) : (Ex.rare x y).Stochastic := by
  intro n hn σ hσ
  simp only [Ex.rare, List.mem_cons, List.not_mem_nil, or_false] at hn
  rcases hn with rfl | rfl
  · simp only [Ex.ka, List.map_nil]; decide +kernel
  · have h1 : σ "a" < 2 := hσ "a" (by simp)
    simp only [List.map_cons, List.map_nil]
    generalize σ "a" = i at *
    interval_cases i <;> simp [NDArray.get, NDArray.ravel, sum_range_succ]

theorem Ex.rare_ev (x y : ℚ) : LegalEvidence (Ex.rare x y) [("b", .hard "t")] := by
  constructor
  · simp [Dict.keys]
  · simp [Ex.rare, BN.names, Ex.ka]
  · intro v z h
    simp only [List.mem_singleton, Prod.mk.injEq, Evidence.hard.injEq] at h
    obtain ⟨rfl, rfl⟩ := h
    simp [BN.lab, Ex.rare, Ex.ka]
  · simp

/-- the answer about `a` after the first outcome of `b` is observed -/
theorem Ex.rare_answer {x y : ℚ} (hx : 0 < x) (hx1 : x < 1) (hy : 0 < y) (hy1 : y < 1) {r : Factor}
    (hr : ExactAnswer (Ex.rare x y) [("b", .hard "t")] ["a"] r) : r.eval (fun _ => 0) = x / (x + y) := by
  have hn : (Ex.rare x y).NonNeg := fun n hn z hz => (Ex.rare_positive hx hx1 hy hy1 n hn z hz).le
  have hcard : (Ex.rare x y).card = Ex.copyNet.card := BN.card_of_bare (Ex.rare_bare x y)
  have hnames : (Ex.rare x y).names = ["a", "b"] := rfl
  have ca : Ex.copyNet.card "a" = 2 := by decide
  have cb : Ex.copyNet.card "b" = 2 := by decide
  rw [(hr.spec (Ex.rare_consistent x y) hn (Ex.rare_ev x y) (by simp [NonNegEvidence]) (by simp [hnames])).2 _
    (by simp [Legal, hcard, ca])]
  unfold posterior totalWeight
  simp only [hcard, hnames]
  have e1 : (["a", "b"] : List Name).toFinset \ ["a"].toFinset = {"b"} := by decide
  have e2 : (["a", "b"] : List Name).toFinset = insert "a" {"b"} := by decide
  have w := Ex.rare_weight x y
  have hM : ∀ i < 2, sumOver Ex.copyNet.card {"b"} (weight (Ex.rare x y) [("b", .hard "t")])
      (Function.update (fun _ => 0) "a" i) = 1 / 2 * (if i = 0 then x else y) := by
    intro i hi
    rw [sumOver_singleton, cb, sum_range_succ, sum_range_one,
      w i 0 hi (by norm_num) _ (by simp) (by simp), w i 1 hi (by norm_num) _ (by simp) (by simp)]
    simp
  have h0 := hM 0 (by norm_num)
  have hu : Function.update (fun _ => 0 : Assign) "a" 0 = fun _ => 0 := by
    funext v; by_cases h : v = "a" <;> simp [h]
  rw [hu] at h0
  have hZ : sumOver Ex.copyNet.card (["a", "b"] : List Name).toFinset
      (weight (Ex.rare x y) [("b", .hard "t")]) (fun _ => 0) = 1 / 2 * (x + y) := by
    rw [e2, sumOver_insert (by decide), ca, sum_range_succ, sum_range_one, hM 0 (by norm_num), hM 1 (by norm_num)]
    simp only [if_true, one_ne_zero, if_false]
    ring
  rw [hZ, if_pos (by positivity), e1, h0, if_pos rfl, mul_div_mul_left _ _ (by norm_num)]

end Primo
