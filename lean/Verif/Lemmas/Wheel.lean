import Verif.Lemmas.Forward
import Mathlib.MeasureTheory.Measure.Lebesgue.Basic

/-! # The set of random numbers for which the roulette wheel stops at an outcome -/

namespace Primo
open MeasureTheory Finset

theorem roulette_iff {l : List (Val × ℚ)} (hw : ∀ p ∈ l, 0 ≤ p.2) (hnd : (l.map Prod.fst).Nodup)
    {s : ℚ} {r : ℝ} (hr : (s : ℝ) < r) {pre post : List (Val × ℚ)} {v : Val} {w : ℚ}
    (hl : l = pre ++ (v, w) :: post) :
    roulette l s r = some v ↔ ((s + (pre.map Prod.snd).sum : ℚ) : ℝ) < r ∧
      r ≤ ((s + (pre.map Prod.snd).sum + w : ℚ) : ℝ) := by
  induction pre generalizing l s with
  | nil =>
    subst hl
    by_cases h : r ≤ ((s + w : ℚ) : ℝ)
    · rw [List.nil_append, roulette_of_le h]
      simpa using ⟨hr, by simpa using h⟩
    · rw [List.nil_append, roulette_of_lt (not_le.1 h)]
      constructor
      · intro h'
        exfalso
        have hv : v ∈ post.map Prod.fst := by
          obtain ⟨w', h1, _⟩ := roulette_pos (not_le.1 h) h'
          exact List.mem_map_of_mem h1
        exact (List.nodup_cons.1 hnd).1 hv
      · rintro ⟨_, h2⟩
        exact absurd (by simpa using h2) h
  | cons q pre ih =>
    obtain ⟨v', w'⟩ := q
    subst hl
    have hw' : 0 ≤ w' := hw (v', w') (by simp)
    have hpre : 0 ≤ (pre.map Prod.snd).sum := List.sum_nonneg (by
      intro x hx
      obtain ⟨p, hp, rfl⟩ := List.mem_map.1 hx
      exact hw p (by simp [hp]))
    have hne : v' ≠ v := by
      rintro rfl
      exact (List.nodup_cons.1 hnd).1 (by simp)
    by_cases h : r ≤ ((s + w' : ℚ) : ℝ)
    · rw [List.cons_append, roulette_of_le h]
      constructor
      · intro e; exact absurd (Option.some.inj e) hne
      · rintro ⟨h1, _⟩
        exfalso
        have : ((s + w' : ℚ) : ℝ) ≤ ((s + (((v', w') :: pre).map Prod.snd).sum : ℚ) : ℝ) := by
          have : s + w' ≤ s + (((v', w') :: pre).map Prod.snd).sum := by
            rw [List.map_cons, List.sum_cons]; linarith
          exact_mod_cast this
        linarith
    · rw [List.cons_append, roulette_of_lt (not_le.1 h),
        ih (fun p hp => hw p (by simp [hp]))
          (List.nodup_cons.1 (by simpa using hnd)).2 (not_le.1 h) rfl]
      rw [List.map_cons, List.sum_cons, ← add_assoc]

/-- The length of the set of random numbers for which the wheel stops at `v`. -/
theorem roulette_volume {l : List (Val × ℚ)} (hw : ∀ p ∈ l, 0 ≤ p.2)
    (hnd : (l.map Prod.fst).Nodup) {S : ℚ} (hS : (l.map Prod.snd).sum = S) (hpos : 0 < S)
    {v : Val} {w : ℚ} (hv : (v, w) ∈ l) :
    volume {u : ℝ | 0 ≤ u ∧ u < 1 ∧ roulette l 0 (u * ((S : ℚ) : ℝ)) = some v} =
      ENNReal.ofReal (((w / S : ℚ) : ℝ)) := by
  obtain ⟨pre, post, hl⟩ := List.mem_iff_append.1 hv
  have hSR : (0 : ℝ) < (S : ℝ) := by exact_mod_cast hpos
  set c : ℚ := (pre.map Prod.snd).sum with hc
  have hc0 : 0 ≤ c := List.sum_nonneg (by
    intro x hx
    obtain ⟨p, hp, rfl⟩ := List.mem_map.1 hx
    exact hw p (by rw [hl]; simp [hp]))
  have hcw : c + w ≤ S := by
    have hpost : 0 ≤ (post.map Prod.snd).sum := List.sum_nonneg (by
      intro x hx
      obtain ⟨p, hp, rfl⟩ := List.mem_map.1 hx
      exact hw p (by rw [hl]; simp [hp]))
    rw [← hS, hl, List.map_append, List.map_cons, List.sum_append, List.sum_cons]
    linarith
  have hae : {u : ℝ | 0 ≤ u ∧ u < 1 ∧ roulette l 0 (u * ((S : ℚ) : ℝ)) = some v} =ᵐ[volume]
      Set.Ioc (((c / S : ℚ) : ℝ)) ((((c + w) / S : ℚ) : ℝ)) := by
    have h0 : ∀ᵐ u : ℝ, u ≠ 0 := by simp [ae_iff]
    have h1 : ∀ᵐ u : ℝ, u ≠ 1 := by simp [ae_iff]
    filter_upwards [h0, h1] with u hu0 hu1
    apply propext
    show (0 ≤ u ∧ u < 1 ∧ roulette l 0 (u * ((S : ℚ) : ℝ)) = some v) ↔ u ∈ Set.Ioc _ _
    have hc0R : (0 : ℝ) ≤ ((c / S : ℚ) : ℝ) := by exact_mod_cast div_nonneg hc0 hpos.le
    have hcwR : (((c + w) / S : ℚ) : ℝ) ≤ 1 := by
      exact_mod_cast (div_le_one hpos).2 hcw
    have key : 0 < u → (roulette l 0 (u * ((S : ℚ) : ℝ)) = some v ↔
        u ∈ Set.Ioc (((c / S : ℚ) : ℝ)) ((((c + w) / S : ℚ) : ℝ))) := by
      intro hu
      rw [roulette_iff hw hnd (by push_cast; exact mul_pos hu hSR) hl, ← hc, zero_add, Set.mem_Ioc]
      push_cast
      rw [div_lt_iff₀ hSR, le_div_iff₀ hSR]
    constructor
    · rintro ⟨a, _, b⟩
      exact (key (lt_of_le_of_ne a (Ne.symm hu0))).1 b
    · intro h
      have hu : 0 < u := lt_of_le_of_lt hc0R h.1
      exact ⟨hu.le, lt_of_le_of_ne (h.2.trans hcwR) hu1, (key hu).2 h⟩
  rw [measure_congr hae, Real.volume_Ioc]
  congr 1
  push_cast
  ring

end Primo
