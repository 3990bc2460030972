import Verif.Spec.RoundedSampling
import Verif.Lemmas.Rounded
import Verif.Lemmas.Rand
import Mathlib.Algebra.Order.Floor.Semiring

/-! # The roulette wheel with rounded arithmetic and random numbers of finite precision -/

namespace Primo
open Finset

variable {A : Arith} {u : ℚ}

/-- the position at which the wheel stops -/
def stopR (A : Arith) : List ℚ → ℚ → ℚ → Nat
  | [], _, _ => 0
  | w :: ws, s, r => if r ≤ A.add s w then 0 else stopR A ws (A.add s w) r + 1

theorem rouletteR_eq (A : Arith) : ∀ (vs : List Val) (ws : List ℚ) (s r : ℚ),
    vs.length = ws.length → rouletteR A (vs.zip ws) s r = vs[stopR A ws s r]?
  | [], [], _, _, _ => rfl
  | v :: vs, w :: ws, s, r, h => by
    rw [List.zip_cons_cons, rouletteR, stopR]
    split
    · rfl
    · rw [rouletteR_eq A vs ws _ _ (by simpa using h)]
      simp
  | [], _ :: _, _, _, h => by simp at h
  | _ :: _, [], _, _, h => by simp at h

/-- the sum of the first weights -/
def psumR (A : Arith) (ws : List ℚ) (s : ℚ) (j : Nat) : ℚ := (ws.take j).foldl A.add s

theorem stopR_le_iff (A : Arith) : ∀ (ws : List ℚ) (s r : ℚ) (i : Nat), i < ws.length →
    (stopR A ws s r ≤ i ↔ ∃ j ≤ i, r ≤ psumR A ws s (j + 1))
  | [], _, _, i, h => by simp at h
  | w :: ws, s, r, i, h => by
    rw [stopR]
    split
    · next hr =>
      exact ⟨fun _ => ⟨0, Nat.zero_le _, by simpa [psumR] using hr⟩, fun _ => Nat.zero_le _⟩
    · next hr =>
      cases i with
      | zero =>
        constructor
        · intro h; omega
        · rintro ⟨j, hj, h'⟩
          obtain rfl : j = 0 := by omega
          exact absurd (by simpa [psumR] using h') hr
      | succ i =>
        rw [Nat.succ_le_succ_iff, stopR_le_iff A ws _ r i (by simpa using h)]
        constructor
        · rintro ⟨j, hj, h'⟩
          exact ⟨j + 1, by omega, by simpa [psumR] using h'⟩
        · rintro ⟨j, hj, h'⟩
          cases j with
          | zero => exact absurd (by simpa [psumR] using h') hr
          | succ j => exact ⟨j, by omega, by simpa [psumR] using h'⟩

/-- the rounded sum of numbers that are within `D` roundings -/
theorem foldl_add_near (hA : A.Accurate u) {D : Nat} {ws ws' : List ℚ}
    (h : List.Forall₂ (Near u D) ws' ws) : ∀ {m : Nat} {s S : ℚ}, D ≤ m → Near u m s S →
      Near u (m + ws'.length) (ws'.foldl A.add s) (S + ws.sum) := by
  induction h with
  | nil => intro m s S _ hs; simpa using hs
  | @cons w' w ws' ws hw _ ih =>
    intro m s S hm hs
    have h1 : Near u (m + 1) (A.add s w') (S + w) :=
      (hs.add (hw.mono hA.nonneg hA.lt_one hm)).round hA.nonneg hA.lt_one (hA.add _ _)
    have := ih (by omega) h1
    rw [List.foldl_cons, List.length_cons, List.sum_cons, ← add_assoc S]
    rwa [show m + 1 + ws'.length = m + (ws'.length + 1) by omega] at this

theorem near_zero (u : ℚ) (k : Nat) : Near u k 0 0 := ⟨le_rfl, by simp, by simp⟩

theorem psumR_near (hA : A.Accurate u) {D : Nat} {ws ws' : List ℚ}
    (h : List.Forall₂ (Near u D) ws' ws) (j : Nat) :
    Near u (D + ws.length) (psumR A ws' 0 j) (ws.take j).sum := by
  have h1 := foldl_add_near hA (List.forall₂_take j h) le_rfl (near_zero u D)
  rw [zero_add] at h1
  refine h1.mono hA.nonneg hA.lt_one ?_
  rw [List.length_take, h.length_eq]
  omega

/-! ## multiples of `1 / N` -/

/-- the number of random numbers that are at most `y` -/
theorem card_grid_le {N : Nat} (hN : 0 < N) {y : ℚ} (hy : 0 ≤ y) :
    ((range N).filter fun k : ℕ => (k : ℚ) / N ≤ y).card = min N (⌊y * N⌋₊ + 1) := by
  have hNQ : (0 : ℚ) < N := by exact_mod_cast hN
  have : ((range N).filter fun k : ℕ => (k : ℚ) / N ≤ y) = range (min N (⌊y * N⌋₊ + 1)) := by
    ext k
    rw [mem_filter, mem_range, mem_range, div_le_iff₀ hNQ, lt_min_iff, Nat.lt_succ_iff,
      Nat.le_floor_iff (by positivity)]
  rw [this, card_range]

theorem le_card_grid {N : Nat} (hN : 0 < N) {y : ℚ} (hy : 0 ≤ y) (hy1 : y ≤ 1) :
    y * N ≤ ((range N).filter fun k : ℕ => (k : ℚ) / N ≤ y).card := by
  have hNQ : (0 : ℚ) < N := by exact_mod_cast hN
  rw [card_grid_le hN hy, Nat.cast_min]
  refine le_min (by nlinarith) ?_
  push_cast
  exact (Nat.lt_floor_add_one _).le

theorem card_grid_le' {N : Nat} (hN : 0 < N) {y : ℚ} (hy : 0 ≤ y) :
    (((range N).filter fun k : ℕ => (k : ℚ) / N ≤ y).card : ℚ) ≤ y * N + 1 := by
  rw [card_grid_le hN hy, Nat.cast_min]
  refine (min_le_right _ _).trans ?_
  push_cast
  have := Nat.floor_le (show 0 ≤ y * N by positivity)
  linarith

/-! ## errors -/

theorem drawError_nonneg (h0 : 0 ≤ u) (hu : u < 1) (N R : Nat) : 0 ≤ drawError u N R := by
  have h1 := Near.pow_pos hu R
  have h2 := Near.pow_le_one h0 hu R
  have : 1 ≤ 1 / (1 - u) ^ R := by rwa [le_div_iff₀ h1, one_mul]
  unfold drawError
  have : (0 : ℚ) ≤ 1 / N := by positivity
  linarith

theorem drawError_mono (h0 : 0 ≤ u) (hu : u < 1) (N : Nat) {R R' : Nat} (h : R ≤ R') :
    drawError u N R ≤ drawError u N R' := by
  unfold drawError
  have h1 : (1 - u) ^ R' ≤ (1 - u) ^ R := pow_le_pow_of_le_one (by linarith) (by linarith) h
  have := one_div_le_one_div_of_le (Near.pow_pos hu R') h1
  linarith

/-- a number of random numbers between two bounds -/
theorem grid_error (h0 : 0 ≤ u) (hu : u < 1) {N : Nat} (hN : 0 < N) {R : Nat} {p : ℚ} (hp0 : 0 ≤ p)
    (hp1 : p ≤ 1) {E : Finset ℕ} (hE : E ⊆ range N)
    (hlo : ∀ k < N, (k : ℚ) / N ≤ p * (1 - u) ^ R → k ∈ E)
    (hhi : ∀ k ∈ E, (k : ℚ) / N * (1 - u) ^ R ≤ p) :
    |(E.card : ℚ) / N - p| ≤ drawError u N R := by
  have hNQ : (0 : ℚ) < N := by exact_mod_cast hN
  have hρ := Near.pow_pos hu R
  have hρ1 := Near.pow_le_one h0 hu R
  set ρ := (1 - u) ^ R with hρdef
  have h1 : p * ρ * N ≤ E.card := by
    refine (le_card_grid hN (by positivity) (by nlinarith)).trans ?_
    exact_mod_cast card_le_card fun k hk => by
      obtain ⟨a, b⟩ := mem_filter.1 hk
      exact hlo k (mem_range.1 a) b
  have h2 : (E.card : ℚ) ≤ p / ρ * N + 1 := by
    refine le_trans ?_ (card_grid_le' hN (show 0 ≤ p / ρ by positivity))
    exact_mod_cast card_le_card fun k hk => mem_filter.2 ⟨hE hk, by
      rw [le_div_iff₀ hρ]; exact hhi k hk⟩
  have h3 : p * ρ ≤ (E.card : ℚ) / N := by rwa [le_div_iff₀ hNQ]
  have h4 : (E.card : ℚ) / N ≤ p / ρ + 1 / N := by
    rw [div_le_iff₀ hNQ, add_mul, one_div, inv_mul_cancel₀ hNQ.ne']
    exact h2
  have h5 : 1 ≤ 1 / ρ := by rwa [le_div_iff₀ hρ, one_mul]
  have h6 : 1 - ρ ≤ 1 / ρ - 1 := by
    have : 1 / ρ * ρ = 1 := by field_simp
    nlinarith
  have h7 : p / ρ = p * (1 / ρ) := by ring
  have h8 : (0 : ℚ) ≤ 1 / N := by positivity
  unfold drawError
  rw [abs_le]
  constructor
  · have : p * (1 - ρ) ≤ 1 - ρ := by nlinarith
    linarith
  · rw [h7] at h4
    have : p * (1 / ρ - 1) ≤ 1 / ρ - 1 := by nlinarith
    linarith

/-! ## the wheel -/

/-- the position on the wheel never exceeds the total weight -/
theorem mul_grid_le (hA : A.Accurate u) {N : Nat} (huN : u * N ≤ 1) {k : Nat} (hk : k < N) {S : ℚ}
    (hS : 0 ≤ S) : A.mul ((k : ℚ) / N) S ≤ S := by
  have hNQ : (0 : ℚ) < N := by exact_mod_cast (Nat.zero_le _).trans_lt hk
  have hx0 : 0 ≤ (k : ℚ) / N := by positivity
  have h1 := (abs_le.1 (hA.mul ((k : ℚ) / N) S)).2
  rw [abs_of_nonneg (mul_nonneg hx0 hS)] at h1
  have hk' : (k : ℚ) + 1 ≤ N := by exact_mod_cast hk
  have hx : (k : ℚ) / N * (1 + u) ≤ 1 := by
    rw [div_mul_eq_mul_div, div_le_one hNQ]
    have : (k : ℚ) * u ≤ 1 := by
      have := hA.nonneg
      nlinarith
    linarith
  nlinarith

theorem stopR_lt (hA : A.Accurate u) {N : Nat} (huN : u * N ≤ 1) {k : Nat} (hk : k < N) {D : Nat}
    {ws ws' : List ℚ} (h : List.Forall₂ (Near u D) ws' ws) (hne : ws ≠ []) :
    stopR A ws' 0 (A.mul ((k : ℚ) / N) (ws'.foldl A.add 0)) < ws.length := by
  have hpos : 0 < ws'.length := by rw [h.length_eq]; exact List.length_pos_iff.2 hne
  have hS : psumR A ws' 0 ws'.length = ws'.foldl A.add 0 := by rw [psumR, List.take_length]
  have := (stopR_le_iff A ws' 0 (A.mul ((k : ℚ) / N) (ws'.foldl A.add 0)) (ws'.length - 1)
    (by omega)).2 ⟨ws'.length - 1, le_rfl, by
      rw [Nat.sub_add_cancel hpos, hS]
      refine mul_grid_le hA huN hk ?_
      rw [← hS]
      exact (psumR_near hA h _).nonneg hA.lt_one⟩
  rw [← h.length_eq]
  omega

/-- the random numbers for which the wheel stops at one of the first positions -/
theorem cdf_error (hA : A.Accurate u) {N : Nat} (hN : 0 < N) {D : Nat} {ws ws' : List ℚ}
    (h : List.Forall₂ (Near u D) ws' ws) (h0 : ∀ w ∈ ws, 0 ≤ w) (hW : 0 < ws.sum) {i : Nat}
    (hi : i < ws.length) :
    |((((range N).filter fun k : ℕ =>
      stopR A ws' 0 (A.mul ((k : ℚ) / N) (ws'.foldl A.add 0)) ≤ i).card : ℚ) / N) -
        (ws.take (i + 1)).sum / ws.sum| ≤ drawError u N (2 * (D + ws.length) + 1) := by
  have hu := hA.lt_one
  set K := D + ws.length with hK
  set S := ws'.foldl A.add 0 with hS
  have hSn : Near u K S ws.sum := by
    have := psumR_near hA h ws.length
    rw [List.take_length, psumR, ← h.length_eq, List.take_length, h.length_eq] at this
    exact this
  have hr : ∀ k : ℕ, Near u (K + 1) (A.mul ((k : ℚ) / N) S) ((k : ℚ) / N * ws.sum) := fun k => by
    have := hA.near_mul (Near.rfl' (u := u) (show 0 ≤ (k : ℚ) / N by positivity)) hSn
    rwa [zero_add] at this
  have hmono : ∀ j ≤ i, (ws.take (j + 1)).sum ≤ (ws.take (i + 1)).sum := fun j hj => by
    rw [show i + 1 = (j + 1) + (i - j) by omega, List.take_add (i := j + 1), List.sum_append]
    have : 0 ≤ ((ws.drop (j + 1)).take (i - j)).sum := List.sum_nonneg fun x hx =>
      h0 x (List.mem_of_mem_drop (List.mem_of_mem_take hx))
    linarith
  have hle : (ws.take (i + 1)).sum ≤ ws.sum := by
    rw [← List.sum_take_add_sum_drop ws (i + 1)]
    have : 0 ≤ (ws.drop (i + 1)).sum := List.sum_nonneg fun x hx => h0 x (List.mem_of_mem_drop hx)
    linarith
  have hge : 0 ≤ (ws.take (i + 1)).sum := List.sum_nonneg fun x hx => h0 x (List.mem_of_mem_take hx)
  have hpK := Near.pow_pos hu K
  have hpK1 := Near.pow_pos hu (K + 1)
  have hexp : (1 - u) ^ (2 * K + 1) = (1 - u) ^ K * (1 - u) ^ (K + 1) := by
    rw [← pow_add]; congr 1; omega
  refine grid_error hA.nonneg hu hN (by positivity) (by rwa [div_le_one hW]) (filter_subset _ _) ?_ ?_
  · intro k hk hlo
    refine mem_filter.2 ⟨mem_range.2 hk, (stopR_le_iff A ws' 0 _ i (by rwa [h.length_eq])).2
      ⟨i, le_rfl, ?_⟩⟩
    have h1 := (hr k).2.2
    have h2 := (psumR_near hA h (i + 1)).2.1
    refine le_trans ?_ h2
    rw [hexp, div_mul_eq_mul_div, le_div_iff₀ hW, ← mul_assoc] at hlo
    exact le_of_mul_le_mul_right (h1.trans hlo) hpK1
  · intro k hk
    obtain ⟨j, hj, hle'⟩ := (stopR_le_iff A ws' 0 _ i (by rwa [h.length_eq])).1 (mem_filter.1 hk).2
    have h1 := (hr k).2.1
    have h2 := (psumR_near hA h (j + 1)).2.2
    rw [le_div_iff₀ hW, hexp]
    calc (k : ℚ) / N * ((1 - u) ^ K * (1 - u) ^ (K + 1)) * ws.sum
        = (k : ℚ) / N * ws.sum * (1 - u) ^ (K + 1) * (1 - u) ^ K := by ring
      _ ≤ psumR A ws' 0 (j + 1) * (1 - u) ^ K :=
        mul_le_mul_of_nonneg_right (h1.trans hle') hpK.le
      _ ≤ (ws.take (j + 1)).sum := h2
      _ ≤ _ := hmono j hj

/-- the probability of one outcome -/
theorem wheel_error (hA : A.Accurate u) {N : Nat} (hN : 0 < N) {D : Nat} {ws ws' : List ℚ}
    (h : List.Forall₂ (Near u D) ws' ws) (h0 : ∀ w ∈ ws, 0 ≤ w) (hW : 0 < ws.sum) {i : Nat}
    (hi : i < ws.length) :
    |((((range N).filter fun k : ℕ =>
      stopR A ws' 0 (A.mul ((k : ℚ) / N) (ws'.foldl A.add 0)) = i).card : ℚ) / N) -
        ws[i] / ws.sum| ≤ 2 * drawError u N (2 * (D + ws.length) + 1) := by
  set st : ℕ → ℕ := fun k => stopR A ws' 0 (A.mul ((k : ℚ) / N) (ws'.foldl A.add 0)) with hst
  have hη := drawError_nonneg hA.nonneg hA.lt_one N (2 * (D + ws.length) + 1)
  have h1 := cdf_error hA hN h h0 hW hi
  cases i with
  | zero =>
    have e : ((range N).filter fun k : ℕ => st k ≤ 0) = (range N).filter fun k : ℕ => st k = 0 :=
      filter_congr fun k _ => by simp
    rw [show (range N).filter (fun k : ℕ => stopR A ws' 0
      (A.mul ((k : ℚ) / N) (ws'.foldl A.add 0)) ≤ 0) = _ from e] at h1
    have e2 : (ws.take (0 + 1)).sum = ws[0] := by
      rw [List.take_add_one, List.getElem?_eq_getElem hi]; simp
    rw [e2] at h1
    linarith
  | succ i =>
    have h2 := cdf_error hA hN h h0 hW (i := i) (by omega)
    have e : (((range N).filter fun k : ℕ => st k ≤ i + 1).card : ℚ) =
        ((range N).filter fun k : ℕ => st k = i + 1).card +
          ((range N).filter fun k : ℕ => st k ≤ i).card := by
      rw [← Nat.cast_add, ← card_union_of_disjoint]
      · congr 2
        ext k
        simp only [mem_union, mem_filter]
        constructor
        · rintro ⟨a, b⟩
          rcases Nat.lt_or_ge (st k) (i + 1) with c | c
          · exact Or.inr ⟨a, by omega⟩
          · exact Or.inl ⟨a, by omega⟩
        · rintro (⟨a, b⟩ | ⟨a, b⟩)
          · exact ⟨a, by omega⟩
          · exact ⟨a, by omega⟩
      · rw [disjoint_filter]
        intro k _ a b
        omega
    have e2 : (ws.take (i + 1 + 1)).sum = (ws.take (i + 1)).sum + ws[i + 1] := by
      rw [List.take_add_one, List.getElem?_eq_getElem hi, List.sum_append]; simp
    rw [e2] at h1
    have e3 : ((((range N).filter fun k : ℕ => st k = i + 1).card : ℚ) / N) - ws[i + 1] / ws.sum =
        (((range N).filter fun k : ℕ => st k ≤ i + 1).card / N -
          ((ws.take (i + 1)).sum + ws[i + 1]) / ws.sum) -
        (((range N).filter fun k : ℕ => st k ≤ i).card / N - (ws.take (i + 1)).sum / ws.sum) := by
      rw [e]; ring
    rw [e3]
    exact (abs_sub _ _).trans (by rw [two_mul]; exact add_le_add h1 h2)

/-- with all weights zero the wheel stops at the first outcome -/
theorem stopR_zero (hA : A.Accurate u) {D : Nat} {ws ws' : List ℚ}
    (h : List.Forall₂ (Near u D) ws' ws) (hW : ws.sum = 0) (h0 : ∀ w ∈ ws, 0 ≤ w) (hne : ws ≠ [])
    (x : ℚ) : stopR A ws' 0 (A.mul x (ws'.foldl A.add 0)) = 0 := by
  have hpos : 0 < ws'.length := by rw [h.length_eq]; exact List.length_pos_iff.2 hne
  have hz : ∀ j, psumR A ws' 0 j = 0 := fun j => by
    have hn := psumR_near hA h j
    rw [hn.zero_iff hA.lt_one]
    refine le_antisymm ?_ hn.1
    rw [← hW, ← List.sum_take_add_sum_drop ws j]
    have : 0 ≤ (ws.drop j).sum := List.sum_nonneg fun x hx => h0 x (List.mem_of_mem_drop hx)
    linarith
  have hS : ws'.foldl A.add 0 = 0 := by
    have := hz ws'.length
    rwa [psumR, List.take_length] at this
  have hm : A.mul x 0 = 0 := by
    have := hA.mul x 0
    rw [mul_zero, sub_zero, abs_zero, mul_zero] at this
    exact abs_nonpos_iff.1 this
  have := (stopR_le_iff A ws' 0 (A.mul x (ws'.foldl A.add 0)) 0 hpos).2 ⟨0, le_rfl, by
    rw [hz, hS, hm]⟩
  omega

end Primo
