import Verif.Lemmas.Markov
import Mathlib.Tactic.FieldSimp

/-! # Finite Markov chains: what small changes of the transition probabilities do -/

namespace Primo.Markov
open Finset

variable {α : Type} {S : Finset α} {P Q : α → α → ℝ} {π : α → ℝ} {e : ℝ}

/-- The rows of the two matrices differ by at most `e`. -/
def RowDist (S : Finset α) (P Q : α → α → ℝ) (e : ℝ) : Prop :=
  ∀ x ∈ S, ∑ y ∈ S, |Q x y - P x y| ≤ e

theorem RowDist.mono (h : RowDist S P Q e) {e' : ℝ} (he : e ≤ e') : RowDist S P Q e' :=
  fun x hx => (h x hx).trans he

/-- one step of the two chains -/
theorem RowDist.act (h : RowDist S P Q e) (hP : Stoch S P) (hQ : Stoch S Q) (hS : S.Nonempty)
    (g : α → ℝ) {x : α} (hx : x ∈ S) : |act S Q g x - act S P g x| ≤ e * osc hS g := by
  have h1 : Markov.act S Q g x - Markov.act S P g x =
      ∑ y ∈ S, (Q x y - P x y) * (g y - S.inf' hS g) := by
    unfold Markov.act
    simp only [mul_sub, sub_mul, sum_sub_distrib]
    rw [← sum_mul, ← sum_mul, hP.sum x hx, hQ.sum x hx]
    ring
  rw [h1]
  refine (abs_sum_le_sum_abs _ _).trans ?_
  calc ∑ y ∈ S, |(Q x y - P x y) * (g y - S.inf' hS g)|
      ≤ ∑ y ∈ S, |Q x y - P x y| * osc hS g := by
        refine sum_le_sum fun y hy => ?_
        rw [abs_mul]
        refine mul_le_mul_of_nonneg_left ?_ (abs_nonneg _)
        have h2 := inf'_le g hy
        have h3 := le_sup' g hy
        unfold osc
        rw [abs_of_nonneg (by linarith)]
        linarith
    _ = (∑ y ∈ S, |Q x y - P x y|) * osc hS g := by rw [sum_mul]
    _ ≤ _ := mul_le_mul_of_nonneg_right (h x hx) (osc_nonneg hS g)

theorem Stoch.abs_iter_le (hP : Stoch S P) {f : α → ℝ} {c : ℝ} (h : ∀ y ∈ S, |f y| ≤ c) (k : Nat) :
    ∀ x ∈ S, |(Markov.act S P)^[k] f x| ≤ c := by
  intro x hx
  rw [abs_le]
  have h1 := hP.iter_mono (f := fun _ => -c) (g := f) (fun y hy => (abs_le.1 (h y hy)).1) k x hx
  have h2 := hP.iter_mono (f := f) (g := fun _ => c) (fun y hy => (abs_le.1 (h y hy)).2) k x hx
  rw [hP.iter_const _ k x hx] at h1 h2
  exact ⟨h1, h2⟩

theorem iter_sub (f g : α → ℝ) (k : Nat) :
    ∀ x, (act S P)^[k] (fun y => f y - g y) x = (act S P)^[k] f x - (act S P)^[k] g x := by
  induction k with
  | zero => intro x; rfl
  | succ k ih =>
    intro x
    rw [Function.iterate_succ_apply', Function.iterate_succ_apply', Function.iterate_succ_apply']
    rw [show (act S P)^[k] (fun y => f y - g y) = fun y => (act S P)^[k] f y - (act S P)^[k] g y from
      funext ih]
    generalize (act S P)^[k] f = f'
    generalize (act S P)^[k] g = g'
    unfold act
    rw [← sum_sub_distrib]
    exact sum_congr rfl fun y _ => by ring

/-- many steps of the two chains -/
theorem RowDist.iter (h : RowDist S P Q e) (hP : Stoch S P) (hQ : Stoch S Q) (hS : S.Nonempty)
    (g : α → ℝ) (k : Nat) : ∀ x ∈ S,
      |(Markov.act S Q)^[k] g x - (Markov.act S P)^[k] g x| ≤
        e * ∑ i ∈ range k, osc hS ((Markov.act S P)^[i] g) := by
  induction k with
  | zero => intro x _; simp
  | succ k ih =>
    intro x hx
    have h1 := h.act hP hQ hS ((Markov.act S P)^[k] g) hx
    have h2 : |Markov.act S Q (fun y => (Markov.act S Q)^[k] g y - (Markov.act S P)^[k] g y) x| ≤
        e * ∑ i ∈ range k, osc hS ((Markov.act S P)^[i] g) :=
      hQ.abs_iter_le ih 1 x hx
    have h3 : Markov.act S Q (fun y => (Markov.act S Q)^[k] g y - (Markov.act S P)^[k] g y) x =
        Markov.act S Q ((Markov.act S Q)^[k] g) x - Markov.act S Q ((Markov.act S P)^[k] g) x :=
      iter_sub _ _ 1 x
    rw [h3] at h2
    rw [Function.iterate_succ_apply', Function.iterate_succ_apply', sum_range_succ, mul_add]
    refine le_trans ?_ (add_le_add h2 h1)
    refine le_trans (le_of_eq ?_) (abs_add_le _ _)
    congr 1
    ring

/-- the difference between the two chains does not grow with the number of steps -/
theorem RowDist.iter_mixing (h : RowDist S P Q e) (hP : Stoch S P) (hQ : Stoch S Q)
    (hS : S.Nonempty) {m : Nat} {δ : ℝ} (hδ : 0 < δ) (hm : Mixing S P m δ) (g : α → ℝ) (k : Nat) :
    ∀ x ∈ S, |(Markov.act S Q)^[k] g x - (Markov.act S P)^[k] g x| ≤ e * (m * osc hS g / δ) := by
  intro x hx
  refine (h.iter hP hQ hS g k x hx).trans ?_
  have he : 0 ≤ e := (sum_nonneg fun y _ => abs_nonneg _).trans (h x hx)
  exact mul_le_mul_of_nonneg_left (hP.osc_sum hS hδ hm g k) he

/-- The mean square of the sum of `k` values along the changed chain, for a function of mean 0 under the
invariant distribution of the original chain. -/
theorem second_moment_near (h : RowDist S P Q e) (hP : Stoch S P) (hQ : Stoch S Q) (hπ : Inv S P π)
    (hS : S.Nonempty) {m : Nat} {δ : ℝ} (hδ : 0 < δ) (hm : Mixing S P m δ) {g : α → ℝ}
    (hg : ∑ x ∈ S, π x * g x = 0) (k : Nat) {x : α} (hx : x ∈ S) :
    path S Q k (fun l => (l.map g).sum ^ 2) x ≤
      k * (osc hS g ^ 2 + 2 * osc hS g * (m * osc hS g / δ)) +
        k ^ 2 * (2 * osc hS g * (e * (m * osc hS g / δ))) := by
  set c := osc hS g with hc
  set B := m * c / δ with hB
  have hc0 : 0 ≤ c := osc_nonneg hS g
  have he : 0 ≤ e := (sum_nonneg fun y _ => abs_nonneg _).trans (h x hx)
  have hB0 : 0 ≤ B := by positivity
  have hgc : ∀ y ∈ S, |g y| ≤ c := fun y hy => by
    have := hπ.abs_sub_le hS g hy
    rwa [hg, sub_zero] at this
  have hmean : ∀ k : Nat, ∀ y ∈ S, |path S Q k (fun l => (l.map g).sum) y| ≤ B + k * (e * B) := by
    intro k y hy
    rw [hQ.path_list_sum k g hy]
    have h1 : ∀ i ∈ range k, |(act S Q)^[i + 1] g y| ≤ osc hS ((act S P)^[i] g) + e * B := by
      intro i _
      have h2 := hπ.abs_sub_le hS ((act S P)^[i + 1] g) hy
      rw [hπ.iter, hg, sub_zero] at h2
      have h3 : osc hS ((act S P)^[i + 1] g) ≤ osc hS ((act S P)^[i] g) := by
        rw [Function.iterate_succ_apply']
        exact hP.osc_act hS _
      have h4 := h.iter_mixing hP hQ hS hδ hm g (i + 1) y hy
      have h5 := abs_sub_abs_le_abs_sub ((act S Q)^[i + 1] g y) ((act S P)^[i + 1] g y)
      linarith
    refine (abs_sum_le_sum_abs _ _).trans ((sum_le_sum h1).trans ?_)
    rw [sum_add_distrib, sum_const, card_range, nsmul_eq_mul]
    exact add_le_add (hP.osc_sum hS hδ hm g k) le_rfl
  induction k generalizing x with
  | zero => simp [path]
  | succ k ih =>
    simp only [path, List.map_cons, List.sum_cons]
    calc act S Q (fun y => path S Q k (fun l => (g y + (l.map g).sum) ^ 2) y) x
        ≤ act S Q (fun _ => (k + 1 : ℕ) * (c ^ 2 + 2 * c * B) +
            ((k + 1 : ℕ) : ℝ) ^ 2 * (2 * c * (e * B))) x := ?_
      _ = _ := hQ.act_const _ hx
    refine hQ.act_mono (fun y hy => ?_) hx
    have e1 : (fun l : List α => (g y + (l.map g).sum) ^ 2) = fun l =>
        g y ^ 2 + ((2 * g y) * (l.map g).sum + (l.map g).sum ^ 2) := by
      funext l; ring
    rw [e1, path_add, path_add, hQ.path_const k _ hy, path_mul]
    have h1 := ih hy
    have h2 := hmean k y hy
    have h3 := hgc y hy
    have h4 : g y ^ 2 ≤ c ^ 2 := by
      rw [← sq_abs]
      exact pow_le_pow_left₀ (abs_nonneg _) h3 2
    have h5 : g y * path S Q k (fun l => (l.map g).sum) y ≤ c * (B + k * (e * B)) := by
      refine (le_abs_self _).trans ?_
      rw [abs_mul]
      exact mul_le_mul h3 h2 (abs_nonneg _) hc0
    have h6 : 0 ≤ c * (e * B) := by positivity
    have h7 : (0 : ℝ) ≤ k := Nat.cast_nonneg k
    push_cast
    nlinarith [mul_nonneg h7 h6]

end Primo.Markov
