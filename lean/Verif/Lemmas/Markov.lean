import Mathlib.Algebra.BigOperators.Ring.Finset
import Mathlib.Algebra.Order.BigOperators.Ring.Finset
import Mathlib.Data.Finset.Lattice.Fold
import Mathlib.Data.Real.Basic
import Mathlib.Tactic.Linarith
import Mathlib.Tactic.Ring

/-! # Finite Markov chains: contraction of the oscillation and a weak law of large numbers -/

namespace Primo.Markov
open Finset

variable {α : Type} (S : Finset α) (P : α → α → ℝ)

/-- the expected value of `g` after one step -/
def act (g : α → ℝ) (x : α) : ℝ := ∑ y ∈ S, P x y * g y

/-- a stochastic matrix on `S` -/
structure Stoch : Prop where
  nonneg : ∀ x ∈ S, ∀ y ∈ S, 0 ≤ P x y
  sum : ∀ x ∈ S, ∑ y ∈ S, P x y = 1

variable {S P}

theorem act_congr {g h : α → ℝ} (e : ∀ y ∈ S, g y = h y) (x : α) : act S P g x = act S P h x :=
  sum_congr rfl fun y hy => by rw [e y hy]

theorem iter_congr {g h : α → ℝ} (e : ∀ y ∈ S, g y = h y) (k : Nat) :
    ∀ x ∈ S, (act S P)^[k] g x = (act S P)^[k] h x := by
  induction k with
  | zero => exact e
  | succ k ih =>
    intro x _
    rw [Function.iterate_succ_apply', Function.iterate_succ_apply']
    exact act_congr ih x

theorem act_add (g h : α → ℝ) (x : α) :
    act S P (fun y => g y + h y) x = act S P g x + act S P h x := by
  unfold act
  rw [← sum_add_distrib]
  exact sum_congr rfl fun y _ => by ring

theorem act_mul (c : ℝ) (g : α → ℝ) (x : α) :
    act S P (fun y => c * g y) x = c * act S P g x := by
  unfold act
  rw [mul_sum]
  exact sum_congr rfl fun y _ => by ring

theorem Stoch.act_const (h : Stoch S P) (c : ℝ) {x : α} (hx : x ∈ S) :
    act S P (fun _ => c) x = c := by
  unfold act
  rw [← sum_mul, h.sum x hx, one_mul]

theorem Stoch.act_mono (h : Stoch S P) {f g : α → ℝ} (hfg : ∀ y ∈ S, f y ≤ g y) {x : α}
    (hx : x ∈ S) : act S P f x ≤ act S P g x :=
  sum_le_sum fun y hy => mul_le_mul_of_nonneg_left (hfg y hy) (h.nonneg x hx y hy)

theorem Stoch.iter_mono (h : Stoch S P) {f g : α → ℝ} (hfg : ∀ y ∈ S, f y ≤ g y) (k : Nat) :
    ∀ x ∈ S, (act S P)^[k] f x ≤ (act S P)^[k] g x := by
  induction k with
  | zero => exact hfg
  | succ k ih =>
    intro x hx
    rw [Function.iterate_succ_apply', Function.iterate_succ_apply']
    exact h.act_mono ih hx

theorem Stoch.iter_affine (h : Stoch S P) (c e : ℝ) (g : α → ℝ) (k : Nat) :
    ∀ x ∈ S, (act S P)^[k] (fun y => c * g y + e) x = c * (act S P)^[k] g x + e := by
  induction k with
  | zero => intro x _; rfl
  | succ k ih =>
    intro x hx
    rw [Function.iterate_succ_apply', Function.iterate_succ_apply', act_congr ih, act_add, act_mul,
      h.act_const e hx]

theorem Stoch.iter_const (h : Stoch S P) (c : ℝ) (k : Nat) :
    ∀ x ∈ S, (act S P)^[k] (fun _ => c) x = c := by
  intro x hx
  have := h.iter_affine 0 c (fun _ => 0) k x hx
  simpa using this

/-- the difference between the largest and the smallest value -/
noncomputable def osc (hS : S.Nonempty) (g : α → ℝ) : ℝ := S.sup' hS g - S.inf' hS g

theorem osc_nonneg (hS : S.Nonempty) (g : α → ℝ) : 0 ≤ osc hS g := by
  obtain ⟨x, hx⟩ := hS
  have := (inf'_le g hx).trans (le_sup' g hx)
  unfold osc
  linarith

theorem osc_le (hS : S.Nonempty) {g : α → ℝ} {a c : ℝ} (h : ∀ x ∈ S, a ≤ g x ∧ g x ≤ a + c) :
    osc hS g ≤ c := by
  have h1 : S.sup' hS g ≤ a + c := sup'_le _ _ fun x hx => (h x hx).2
  have h2 : a ≤ S.inf' hS g := le_inf' _ _ fun x hx => (h x hx).1
  unfold osc
  linarith

theorem Stoch.osc_act (h : Stoch S P) (hS : S.Nonempty) (g : α → ℝ) :
    osc hS (act S P g) ≤ osc hS g := by
  refine osc_le hS (a := S.inf' hS g) fun x hx => ⟨?_, ?_⟩
  · rw [← h.act_const (S.inf' hS g) hx]
    exact h.act_mono (fun y hy => inf'_le g hy) hx
  · have : S.inf' hS g + osc hS g = S.sup' hS g := by unfold osc; ring
    rw [this, ← h.act_const (S.sup' hS g) hx]
    exact h.act_mono (fun y hy => le_sup' g hy) hx

/-- With probability at least `δ` the state after `m` steps does not depend on the state before: `ν` gives the
means under the distribution that it then has. -/
def Mixing (S : Finset α) (P : α → α → ℝ) (m : Nat) (δ : ℝ) : Prop :=
  ∃ ν : (α → ℝ) → ℝ, (∀ c e g, ν (fun z => c * g z + e) = c * ν g + e) ∧
    ∀ g : α → ℝ, (∀ y ∈ S, 0 ≤ g y) → ∀ x ∈ S, δ * ν g ≤ (act S P)^[m] g x

theorem Stoch.osc_mixing (h : Stoch S P) (hS : S.Nonempty) {m : Nat} {δ : ℝ}
    (hm : Mixing S P m δ) (g : α → ℝ) : osc hS ((act S P)^[m] g) ≤ (1 - δ) * osc hS g := by
  obtain ⟨ν, hν, hm⟩ := hm
  have ho : osc hS g = S.sup' hS g - S.inf' hS g := rfl
  refine osc_le hS (a := S.inf' hS g + δ * (ν g - S.inf' hS g)) fun x hx => ⟨?_, ?_⟩
  · have h1 := hm (fun z => 1 * g z + - S.inf' hS g)
      (fun z hz => by have := inf'_le g hz; linarith) x hx
    rw [h.iter_affine 1 _ g m x hx, hν] at h1
    linarith
  · have h1 := hm (fun z => -1 * g z + S.sup' hS g)
      (fun z hz => by have := le_sup' g hz; linarith) x hx
    rw [h.iter_affine (-1) _ g m x hx, hν] at h1
    rw [ho]
    linarith

theorem Stoch.osc_iter_le (h : Stoch S P) (hS : S.Nonempty) (g : α → ℝ) (k : Nat) :
    osc hS ((act S P)^[k] g) ≤ osc hS g := by
  induction k with
  | zero => exact le_rfl
  | succ k ih =>
    rw [Function.iterate_succ_apply']
    exact (h.osc_act hS _).trans ih

theorem Stoch.osc_geometric (h : Stoch S P) (hS : S.Nonempty) {m : Nat} {δ : ℝ} (hδ : δ ≤ 1)
    (hm : Mixing S P m δ) (g : α → ℝ) (k : Nat) :
    osc hS ((act S P)^[m * k] g) ≤ (1 - δ) ^ k * osc hS g := by
  induction k with
  | zero => simp
  | succ k ih =>
    have : m * (k + 1) = m + m * k := by ring
    rw [this, Function.iterate_add_apply, pow_succ']
    refine (h.osc_mixing hS hm _).trans ?_
    rw [mul_assoc]
    exact mul_le_mul_of_nonneg_left ih (by linarith)

/-- the sum of the oscillations over any number of steps is bounded -/
theorem Stoch.osc_sum (h : Stoch S P) (hS : S.Nonempty) {m : Nat} {δ : ℝ} (hδ : 0 < δ)
    (hm : Mixing S P m δ) (g : α → ℝ) (N : Nat) :
    ∑ k ∈ range N, osc hS ((act S P)^[k] g) ≤ m * osc hS g / δ := by
  set e : Nat → ℝ := fun k => osc hS ((act S P)^[k] g) with he
  have e0 : ∀ k, 0 ≤ e k := fun k => osc_nonneg hS _
  have em : ∀ k, e (m + k) ≤ (1 - δ) * e k := fun k => by
    simp only [he]
    rw [Function.iterate_add_apply]
    exact h.osc_mixing hS hm _
  have h1 : ∑ k ∈ range (m + N), e k ≤ m * osc hS g + (1 - δ) * ∑ k ∈ range N, e k := by
    rw [sum_range_add, mul_sum]
    refine add_le_add ?_ (sum_le_sum fun k _ => em k)
    calc ∑ k ∈ range m, e k ≤ ∑ _k ∈ range m, osc hS g :=
          sum_le_sum fun k _ => h.osc_iter_le hS g k
      _ = _ := by simp
  have h2 : ∑ k ∈ range N, e k ≤ ∑ k ∈ range (m + N), e k :=
    sum_le_sum_of_subset_of_nonneg (range_mono (by omega)) fun k _ _ => e0 k
  rw [le_div_iff₀ hδ]
  linarith

/-- `π` is a distribution on `S` that the chain leaves invariant. -/
structure Inv (S : Finset α) (P : α → α → ℝ) (π : α → ℝ) : Prop where
  nonneg : ∀ x ∈ S, 0 ≤ π x
  mass : ∑ x ∈ S, π x = 1
  inv : ∀ y ∈ S, ∑ x ∈ S, π x * P x y = π y

variable {π : α → ℝ}

theorem Inv.act (h : Inv S P π) (g : α → ℝ) :
    ∑ x ∈ S, π x * Markov.act S P g x = ∑ x ∈ S, π x * g x := by
  unfold Markov.act
  calc ∑ x ∈ S, π x * ∑ y ∈ S, P x y * g y
      = ∑ x ∈ S, ∑ y ∈ S, π x * P x y * g y :=
        sum_congr rfl fun x _ => by rw [mul_sum]; exact sum_congr rfl fun y _ => by ring
    _ = ∑ y ∈ S, ∑ x ∈ S, π x * P x y * g y := sum_comm
    _ = ∑ y ∈ S, π y * g y := sum_congr rfl fun y hy => by rw [← sum_mul, h.inv y hy]

theorem Inv.iter (h : Inv S P π) (g : α → ℝ) (k : Nat) :
    ∑ x ∈ S, π x * (Markov.act S P)^[k] g x = ∑ x ∈ S, π x * g x := by
  induction k with
  | zero => rfl
  | succ k ih =>
    simp only [Function.iterate_succ_apply']
    rw [h.act, ih]

theorem Inv.abs_sub_le (h : Inv S P π) (hS : S.Nonempty) (g : α → ℝ) {x : α} (hx : x ∈ S) :
    |g x - ∑ y ∈ S, π y * g y| ≤ osc hS g := by
  have h1 : ∑ y ∈ S, π y * g y ≤ S.sup' hS g := by
    calc ∑ y ∈ S, π y * g y ≤ ∑ y ∈ S, π y * S.sup' hS g :=
          sum_le_sum fun y hy => mul_le_mul_of_nonneg_left (le_sup' g hy) (h.nonneg y hy)
      _ = _ := by rw [← sum_mul, h.mass, one_mul]
  have h2 : S.inf' hS g ≤ ∑ y ∈ S, π y * g y := by
    calc S.inf' hS g = ∑ y ∈ S, π y * S.inf' hS g := by rw [← sum_mul, h.mass, one_mul]
      _ ≤ _ := sum_le_sum fun y hy => mul_le_mul_of_nonneg_left (inf'_le g hy) (h.nonneg y hy)
  have h3 := le_sup' g hx
  have h4 := inf'_le g hx
  unfold osc
  rw [abs_le]
  constructor <;> linarith

/-- After `m * k` steps, and any number of further ones, the expected value of `g` differs from its
mean under `π` by at most `(1 - δ) ^ k` times the oscillation of `g`. -/
theorem converges (hP : Stoch S P) (h : Inv S P π) (hS : S.Nonempty) {m : Nat} {δ : ℝ} (hδ : δ ≤ 1)
    (hm : Mixing S P m δ) (g : α → ℝ) (k j : Nat) {x : α} (hx : x ∈ S) :
    |(act S P)^[m * k + j] g x - ∑ y ∈ S, π y * g y| ≤ (1 - δ) ^ k * osc hS g := by
  rw [← h.iter g (m * k + j)]
  refine (h.abs_sub_le hS _ hx).trans ?_
  rw [Function.iterate_add_apply]
  refine (hP.osc_geometric hS hδ hm _ k).trans ?_
  exact mul_le_mul_of_nonneg_left (hP.osc_iter_le hS g j) (pow_nonneg (by linarith) k)

/-! ## paths -/

/-- the expected value of `H` of the next `k` states -/
def path (S : Finset α) (P : α → α → ℝ) : Nat → (List α → ℝ) → α → ℝ
  | 0, H, _ => H []
  | k + 1, H, x => act S P (fun y => path S P k (fun l => H (y :: l)) y) x

theorem Stoch.path_mono (h : Stoch S P) (k : Nat) {H K : List α → ℝ}
    (hHK : ∀ l, l.length = k → (∀ x ∈ l, x ∈ S) → H l ≤ K l) {x : α} (hx : x ∈ S) :
    path S P k H x ≤ path S P k K x := by
  induction k generalizing H K x with
  | zero => exact hHK [] rfl (by simp)
  | succ k ih =>
    refine h.act_mono (fun y hy => ih (fun l hl hS => hHK (y :: l) (by simp [hl]) ?_) hy) hx
    intro z hz
    rcases List.mem_cons.1 hz with rfl | hz
    · exact hy
    · exact hS z hz

theorem path_add (k : Nat) (H K : List α → ℝ) (x : α) :
    path S P k (fun l => H l + K l) x = path S P k H x + path S P k K x := by
  induction k generalizing H K x with
  | zero => rfl
  | succ k ih => simp only [path, ih, act_add]

theorem path_mul (k : Nat) (c : ℝ) (H : List α → ℝ) (x : α) :
    path S P k (fun l => c * H l) x = c * path S P k H x := by
  induction k generalizing H x with
  | zero => rfl
  | succ k ih => simp only [path, ih, act_mul]

theorem Stoch.path_const (h : Stoch S P) (k : Nat) (c : ℝ) {x : α} (hx : x ∈ S) :
    path S P k (fun _ => c) x = c := by
  induction k generalizing x with
  | zero => rfl
  | succ k ih =>
    simp only [path]
    rw [act_congr (fun y hy => ih hy), h.act_const c hx]

theorem path_sum (k : Nat) {ι : Type} (I : Finset ι) (H : ι → List α → ℝ) (h : Stoch S P) {x : α}
    (hx : x ∈ S) :
    path S P k (fun l => ∑ i ∈ I, H i l) x = ∑ i ∈ I, path S P k (H i) x := by
  classical
  induction I using Finset.induction_on with
  | empty => simpa using h.path_const k 0 hx
  | insert i I hi ih =>
    rw [sum_insert hi, ← ih, ← path_add]
    congr 1
    funext l
    rw [sum_insert hi]

theorem Stoch.path_list_sum (h : Stoch S P) (k : Nat) (g : α → ℝ) {x : α} (hx : x ∈ S) :
    path S P k (fun l => (l.map g).sum) x = ∑ i ∈ range k, (act S P)^[i + 1] g x := by
  induction k generalizing x with
  | zero => rfl
  | succ k ih =>
    simp only [path, List.map_cons, List.sum_cons]
    rw [act_congr (h := fun y => g y + ∑ i ∈ range k, (act S P)^[i + 1] g y) (fun y hy => by
      rw [path_add, ih hy, h.path_const k _ hy]), act_add, sum_range_succ']
    rw [add_comm]
    congr 1
    rw [show act S P (fun y => ∑ i ∈ range k, (act S P)^[i + 1] g y) x =
      ∑ y ∈ S, P x y * ∑ i ∈ range k, (act S P)^[i + 1] g y from rfl]
    simp only [mul_sum]
    rw [sum_comm]
    refine sum_congr rfl fun i _ => ?_
    rw [Function.iterate_succ_apply' _ (i + 1)]
    rfl

/-- The mean square of the sum of `k` values of a function of mean 0 grows at most linearly. -/
theorem second_moment (hP : Stoch S P) (h : Inv S P π) (hS : S.Nonempty) {m : Nat} {δ : ℝ}
    (hδ : 0 < δ) (hm : Mixing S P m δ) {g : α → ℝ} (hg : ∑ x ∈ S, π x * g x = 0)
    (k : Nat) {x : α} (hx : x ∈ S) :
    path S P k (fun l => (l.map g).sum ^ 2) x ≤
      k * (osc hS g ^ 2 + 2 * osc hS g * (m * osc hS g / δ)) := by
  set c := osc hS g with hc
  set B := m * c / δ with hB
  have hc0 : 0 ≤ c := osc_nonneg hS g
  have hgc : ∀ y ∈ S, |g y| ≤ c := fun y hy => by
    have := h.abs_sub_le hS g hy
    rwa [hg, sub_zero] at this
  have hmean : ∀ k, ∀ y ∈ S, |path S P k (fun l => (l.map g).sum) y| ≤ B := by
    intro k y hy
    rw [hP.path_list_sum k g hy]
    refine (abs_sum_le_sum_abs _ _).trans ?_
    have h1 : ∀ i ∈ range k, |(act S P)^[i + 1] g y| ≤ osc hS ((act S P)^[i] g) := by
      intro i _
      have := h.abs_sub_le hS ((act S P)^[i + 1] g) hy
      rw [h.iter, hg, sub_zero] at this
      refine this.trans ?_
      rw [Function.iterate_succ_apply']
      exact hP.osc_act hS _
    exact (sum_le_sum h1).trans (hP.osc_sum hS hδ hm g k)
  induction k generalizing x with
  | zero => simp [path]
  | succ k ih =>
    simp only [path, List.map_cons, List.sum_cons]
    calc act S P (fun y => path S P k (fun l => (g y + (l.map g).sum) ^ 2) y) x
        ≤ act S P (fun _ => (k + 1 : ℕ) * (c ^ 2 + 2 * c * B)) x := ?_
      _ = _ := hP.act_const _ hx
    refine hP.act_mono (fun y hy => ?_) hx
    have e : (fun l : List α => (g y + (l.map g).sum) ^ 2) = fun l =>
        g y ^ 2 + ((2 * g y) * (l.map g).sum + (l.map g).sum ^ 2) := by
      funext l; ring
    rw [e, path_add, path_add, hP.path_const k _ hy, path_mul]
    have h1 := ih hy
    have h2 := hmean k y hy
    have h3 := hgc y hy
    have hB0 : 0 ≤ B := (abs_nonneg _).trans h2
    have h4 : g y ^ 2 ≤ c ^ 2 := by
      rw [← sq_abs]
      exact pow_le_pow_left₀ (abs_nonneg _) h3 2
    have h5 : g y * path S P k (fun l => (l.map g).sum) y ≤ c * B := by
      refine (le_abs_self _).trans ?_
      rw [abs_mul]
      exact mul_le_mul h3 h2 (abs_nonneg _) hc0
    push_cast
    nlinarith

end Primo.Markov
