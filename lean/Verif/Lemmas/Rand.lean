import Verif.Spec.Rand
import Mathlib.MeasureTheory.Measure.Lebesgue.Basic
import Mathlib.Tactic.FieldSimp

/-! # Random programs: sequencing, all outcomes, expectations, the roulette wheel -/

namespace Primo
open Finset MeasureTheory

namespace Rand
variable {α β : Type}

theorem All.mono {P Q : α → Prop} (h : ∀ a, P a → Q a) : ∀ {m : Rand α}, m.All P → m.All Q
  | .pure a, hm => h a hm
  | .choice _ _, hm => fun i hi => All.mono h (hm i hi)
  | .uniform _, hm => fun u h0 h1 => All.mono h (hm u h0 h1)

theorem all_bind {P : β → Prop} {f : α → Rand β} : ∀ {m : Rand α},
    (m.bind f).All P ↔ m.All fun a => (f a).All P
  | .pure _ => Iff.rfl
  | .choice _ _ => forall₂_congr fun _ _ => all_bind
  | .uniform _ => forall₃_congr fun _ _ _ => all_bind

theorem all_andThen {P : Except PyErr β → Prop} {m : Rand (Except PyErr α)}
    {f : α → Rand (Except PyErr β)} {Q : α → Prop} (hm : m.All fun r => ∃ a, r = .ok a ∧ Q a)
    (hf : ∀ a, Q a → (f a).All P) : (m.andThen f).All P := by
  refine all_bind.2 (hm.mono ?_)
  rintro _ ⟨a, rfl, ha⟩
  exact hf a ha

variable {γ : Type}

theorem bind_assoc (f : α → Rand β) (g : β → Rand γ) : ∀ m : Rand α,
    (m.bind f).bind g = m.bind fun a => (f a).bind g
  | .pure _ => rfl
  | .choice n k => congrArg (Rand.choice n) (funext fun i => bind_assoc f g (k i))
  | .uniform k => congrArg Rand.uniform (funext fun u => bind_assoc f g (k u))

theorem andThen_assoc (m : Rand (Except PyErr α)) (f : α → Rand (Except PyErr β))
    (g : β → Rand (Except PyErr γ)) :
    (m.andThen f).andThen g = m.andThen fun a => (f a).andThen g := by
  unfold andThen
  rw [bind_assoc]
  congr 1
  funext r
  cases r <;> rfl

@[simp] theorem all_pure {P : α → Prop} {a : α} : (Rand.pure a).All P ↔ P a := Iff.rfl

@[simp] theorem andThen_ok (a : α) (f : α → Rand (Except PyErr β)) :
    (Rand.lift (.ok a)).andThen f = f a := rfl
@[simp] theorem andThen_pure_ok (a : α) (f : α → Rand (Except PyErr β)) :
    (Rand.pure (.ok a)).andThen f = f a := rfl
@[simp] theorem andThen_error (e : PyErr) (f : α → Rand (Except PyErr β)) :
    (Rand.lift (.error e)).andThen f = .pure (.error e) := rfl
@[simp] theorem andThen_uniform (k : ℝ → Rand (Except PyErr α)) (f : α → Rand (Except PyErr β)) :
    (Rand.uniform k).andThen f = .uniform fun u => (k u).andThen f := rfl
@[simp] theorem andThen_choice (n : Nat) (k : Nat → Rand (Except PyErr α))
    (f : α → Rand (Except PyErr β)) :
    (Rand.choice n k).andThen f = .choice n fun i => (k i).andThen f := rfl

@[simp] theorem expect_pure (g : α → ℝ) (a : α) : (Rand.pure a).expect g = g a := rfl
theorem expect_choice (g : α → ℝ) (n : Nat) (k : Nat → Rand α) :
    (Rand.choice n k).expect g = (∑ i ∈ range n, (k i).expect g) / n := rfl
theorem expect_uniform (g : α → ℝ) (k : ℝ → Rand α) :
    (Rand.uniform k).expect g = ∫ u in (0 : ℝ)..1, (k u).expect g := rfl

theorem expect_bind {g : β → ℝ} {f : α → Rand β} : ∀ {m : Rand α},
    (m.bind f).expect g = m.expect fun a => (f a).expect g
  | .pure _ => rfl
  | .choice _ _ => by
    simp only [bind, expect]
    congr 1
    exact sum_congr rfl fun _ _ => expect_bind
  | .uniform _ => by
    simp only [bind, expect]
    congr 1
    funext u
    exact expect_bind

/-- the expectation seen from the start of the rest of the program -/
noncomputable def rest (g : Except PyErr β → ℝ) (f : α → Rand (Except PyErr β)) :
    Except PyErr α → ℝ
  | .error e => g (.error e)
  | .ok a => (f a).expect g

theorem expect_andThen {g : Except PyErr β → ℝ} {m : Rand (Except PyErr α)}
    {f : α → Rand (Except PyErr β)} : (m.andThen f).expect g = m.expect (rest g f) := by
  unfold andThen
  rw [expect_bind]
  congr 1
  funext r
  cases r <;> rfl

theorem choose_ne [Inhabited α] {l : List α} (h : l ≠ []) :
    choose l = .choice l.length fun i => .pure (.ok (l.getD i default)) := by
  rw [choose, if_neg h]

theorem all_choose [Inhabited α] {l : List α} (h : l ≠ []) :
    (choose l).All fun r => ∃ a, r = .ok a ∧ a ∈ l := by
  rw [choose_ne h]
  intro i hi
  exact ⟨_, rfl, by
    rw [List.getD_eq_getElem?_getD, List.getElem?_eq_getElem hi]; exact List.getElem_mem _⟩

theorem sum_range_getD (l : List α) (f : α → ℝ) (d : α) :
    ∑ i ∈ range l.length, f (l.getD i d) = (l.map f).sum := by
  induction l with
  | nil => simp
  | cons a l ih => rw [List.length_cons, sum_range_succ', List.map_cons, List.sum_cons, ← ih]; simp [add_comm]

theorem expect_choose [Inhabited α] {l : List α} (h : l ≠ []) (g : Except PyErr α → ℝ) :
    (choose l).expect g = (l.map fun a => g (.ok a)).sum / l.length := by
  rw [choose_ne h, expect_choice]
  congr 1
  exact sum_range_getD l (fun a => g (.ok a)) default

end Rand

/-! ## the roulette wheel -/

theorem roulette_of_le {l : List (Val × ℚ)} {v : Val} {w s : ℚ} {r : ℝ}
    (h : r ≤ ((s + w : ℚ) : ℝ)) : roulette ((v, w) :: l) s r = some v := by
  rw [roulette, if_pos h]

theorem roulette_of_lt {l : List (Val × ℚ)} {v : Val} {w s : ℚ} {r : ℝ}
    (h : ((s + w : ℚ) : ℝ) < r) : roulette ((v, w) :: l) s r = roulette l (s + w) r := by
  rw [roulette, if_neg (not_le.2 h)]

/-- the wheel stops at an outcome if the random number is at most the total weight -/
theorem roulette_isSome {l : List (Val × ℚ)} {s : ℚ} {r : ℝ} (hl : l ≠ [])
    (h : r ≤ ((s + (l.map Prod.snd).sum : ℚ) : ℝ)) :
    ∃ p ∈ l, roulette l s r = some p.1 := by
  induction l generalizing s with
  | nil => exact absurd rfl hl
  | cons p l ih =>
    obtain ⟨v, w⟩ := p
    by_cases hr : r ≤ ((s + w : ℚ) : ℝ)
    · exact ⟨(v, w), by simp, roulette_of_le hr⟩
    · rw [roulette_of_lt (not_le.1 hr)]
      have hl' : l ≠ [] := by
        rintro rfl
        exact hr (by simpa using h)
      obtain ⟨q, hq, h'⟩ := ih (s := s + w) hl' (by simpa [add_assoc] using h)
      exact ⟨q, List.mem_cons_of_mem _ hq, h'⟩

/-- the outcome at which the wheel stops has positive weight unless the random number is 0 -/
theorem roulette_pos {l : List (Val × ℚ)} {s : ℚ} {r : ℝ} (hs : ((s : ℚ) : ℝ) < r) {v : Val}
    (h : roulette l s r = some v) : ∃ w, (v, w) ∈ l ∧ 0 < w := by
  induction l generalizing s with
  | nil => cases h
  | cons p l ih =>
    obtain ⟨v', w⟩ := p
    by_cases hr : r ≤ ((s + w : ℚ) : ℝ)
    · rw [roulette_of_le hr] at h
      cases h
      refine ⟨w, by simp, ?_⟩
      have : (s : ℝ) < ((s + w : ℚ) : ℝ) := lt_of_lt_of_le hs hr
      have : s < s + w := by exact_mod_cast this
      linarith
    · rw [roulette_of_lt (not_le.1 hr)] at h
      obtain ⟨w', h1, h2⟩ := ih (not_le.1 hr) h
      exact ⟨w', List.mem_cons_of_mem _ h1, h2⟩

/-- The integral over the random numbers beyond the weight already passed. -/
theorem roulette_integral (g : Option Val → ℝ) {S : ℚ} (hS : 0 < S) (l : List (Val × ℚ))
    (hw : ∀ p ∈ l, 0 ≤ p.2) (s : ℚ) (hs : s + (l.map Prod.snd).sum = S) :
    IntervalIntegrable (fun u : ℝ => g (roulette l s (u * (S : ℚ)))) volume ((s / S : ℚ) : ℝ) 1 ∧
    ∫ u in ((s / S : ℚ) : ℝ)..1, g (roulette l s (u * (S : ℚ))) =
      (l.map fun p => ((p.2 / S : ℚ) : ℝ) * g (some p.1)).sum := by
  have hSR : (0 : ℝ) < (S : ℝ) := by exact_mod_cast hS
  induction l generalizing s with
  | nil =>
    have : s / S = 1 := by
      simp only [List.map_nil, List.sum_nil, add_zero] at hs
      rw [hs, div_self hS.ne']
    rw [this]
    simp
  | cons p l ih =>
    obtain ⟨v, w⟩ := p
    have hw0 : 0 ≤ w := hw (v, w) (by simp)
    obtain ⟨i1, i2⟩ := ih (fun p hp => hw p (List.mem_cons_of_mem _ hp)) (s + w)
      (by rw [← hs, List.map_cons, List.sum_cons, add_assoc])
    have hrest : 0 ≤ (l.map Prod.snd).sum := List.sum_nonneg (by
      intro x hx
      obtain ⟨p, hp, rfl⟩ := List.mem_map.1 hx
      exact hw p (List.mem_cons_of_mem _ hp))
    have hab : ((s / S : ℚ) : ℝ) ≤ (((s + w) / S : ℚ) : ℝ) := by
      exact_mod_cast div_le_div_of_nonneg_right (by linarith) hS.le
    have hb1 : (((s + w) / S : ℚ) : ℝ) ≤ 1 := by
      have : (s + w) / S ≤ 1 := by
        rw [div_le_one hS, ← hs, List.map_cons, List.sum_cons]
        linarith
      exact_mod_cast this
    have e1 : ∀ u ∈ Set.Ioc ((s / S : ℚ) : ℝ) (((s + w) / S : ℚ) : ℝ),
        g (some v) = g (roulette ((v, w) :: l) s (u * (S : ℚ))) := by
      intro u hu
      rw [roulette_of_le]
      have := (le_div_iff₀ hSR).1 (by simpa using hu.2 : u ≤ ((s : ℝ) + w) / S)
      push_cast
      exact this
    have e2 : ∀ u ∈ Set.Ioc (((s + w) / S : ℚ) : ℝ) 1,
        g (roulette l (s + w) (u * (S : ℚ))) = g (roulette ((v, w) :: l) s (u * (S : ℚ))) := by
      intro u hu
      rw [roulette_of_lt]
      have := (div_lt_iff₀ hSR).1 (by simpa using hu.1 : ((s : ℝ) + w) / S < u)
      push_cast
      exact this
    have j1 : IntervalIntegrable (fun u : ℝ => g (roulette ((v, w) :: l) s (u * (S : ℚ)))) volume
        ((s / S : ℚ) : ℝ) (((s + w) / S : ℚ) : ℝ) := by
      rw [intervalIntegrable_iff_integrableOn_Ioc_of_le hab]
      refine IntegrableOn.congr_fun (f := fun _ => g (some v)) ?_ e1 measurableSet_Ioc
      exact integrableOn_const (by simp)
    have j2 : IntervalIntegrable (fun u : ℝ => g (roulette ((v, w) :: l) s (u * (S : ℚ)))) volume
        (((s + w) / S : ℚ) : ℝ) 1 := by
      rw [intervalIntegrable_iff_integrableOn_Ioc_of_le hb1] at i1 ⊢
      exact i1.congr_fun e2 measurableSet_Ioc
    refine ⟨j1.trans j2, ?_⟩
    rw [← intervalIntegral.integral_add_adjacent_intervals j1 j2, List.map_cons, List.sum_cons, ← i2]
    congr 1
    · rw [intervalIntegral.integral_of_le hab, ← setIntegral_congr_fun measurableSet_Ioc e1,
        ← intervalIntegral.integral_of_le hab, intervalIntegral.integral_const, smul_eq_mul]
      congr 1
      push_cast
      ring
    · rw [intervalIntegral.integral_of_le hb1, ← setIntegral_congr_fun measurableSet_Ioc e2,
        ← intervalIntegral.integral_of_le hb1]

/-- With total weight zero the first outcome is returned. -/
theorem roulette_zero {v : Val} {w : ℚ} {l : List (Val × ℚ)} (hw : w = 0) :
    roulette ((v, w) :: l) 0 0 = some v := roulette_of_le (by simp [hw])

end Primo
