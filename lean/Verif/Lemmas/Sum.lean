import Verif.Spec.Sum
import Mathlib.Algebra.Order.BigOperators.Group.Finset
import Mathlib.Algebra.Order.Field.Rat
import Mathlib.Tactic.Ring
import Mathlib.Tactic.Linarith

/-! # Algebra of `sumOver` -/

namespace Primo
open Finset

variable {card : Name → Nat}

/-- `F` looks only at the variables in `A`. -/
def DependsOn (A : Finset Name) (F : Assign → ℚ) : Prop :=
  ∀ σ τ : Assign, (∀ v ∈ A, σ v = τ v) → F σ = F τ

/-- `τ` differs from `σ` only on `s`, where it is legal. -/
def Varies (card : Name → Nat) (s : Finset Name) (σ τ : Assign) : Prop :=
  (∀ v, v ∉ s → τ v = σ v) ∧ ∀ v ∈ s, τ v < card v

theorem sumOver_congr {s : Finset Name} {F G : Assign → ℚ} {σ : Assign}
    (h : ∀ τ, Varies card s σ τ → F τ = G τ) : sumOver card s F σ = sumOver card s G σ := by
  refine Finset.sum_congr rfl fun τ hτ => h _ ⟨fun v hv => by simp [hv], fun v hv => ?_⟩
  simp only [hv, dif_pos]
  exact Finset.mem_range.1 (Finset.mem_pi.1 hτ v hv)

@[simp] theorem sumOver_empty (F : Assign → ℚ) (σ : Assign) : sumOver card ∅ F σ = F σ := by
  simp [sumOver]

theorem sumOver_insert {s : Finset Name} {a : Name} (ha : a ∉ s) (F : Assign → ℚ) (σ : Assign) :
    sumOver card (insert a s) F σ =
      ∑ i ∈ range (card a), sumOver card s F (Function.update σ a i) := by
  have h₁ : ∀ x ∈ range (card a), ∀ y ∈ range (card a), x ≠ y →
      Disjoint (image (Pi.cons s a x) (pi s fun v => range (card v)))
        (image (Pi.cons s a y) (pi s fun v => range (card v))) := by
    intro x _ y _ h
    simp only [disjoint_iff_ne, mem_image]
    rintro _ ⟨p₂, _, eq₂⟩ _ ⟨p₃, _, eq₃⟩ eq
    have : Pi.cons s a x p₂ a (mem_insert_self _ _)
            = Pi.cons s a y p₃ a (mem_insert_self _ _) := by rw [eq₂, eq₃, eq]
    rw [Pi.cons_same, Pi.cons_same] at this
    exact h this
  unfold sumOver
  rw [pi_insert ha, sum_biUnion h₁]
  refine sum_congr rfl fun b _ => ?_
  have h₂ : ∀ p₁ ∈ pi s (fun v => range (card v)), ∀ p₂ ∈ pi s (fun v => range (card v)),
      Pi.cons s a b p₁ = Pi.cons s a b p₂ → p₁ = p₂ :=
    fun p₁ _ p₂ _ eq => Pi.cons_injective ha eq
  rw [sum_image h₂]
  refine sum_congr rfl fun g _ => ?_
  congr 1
  funext v
  by_cases hva : v = a
  · subst hva
    simp [ha, Pi.cons_same]
  · by_cases hv : v ∈ s
    · simp only [mem_insert, hva, hv, or_true, dif_pos]
      rw [Pi.cons_ne (Ne.symm hva)]
    · simp [hva, hv]

theorem sumOver_singleton (a : Name) (F : Assign → ℚ) (σ : Assign) :
    sumOver card {a} F σ = ∑ i ∈ range (card a), F (Function.update σ a i) := by
  have := sumOver_insert (card := card) (s := ∅) (a := a) (by simp) F σ
  simpa using this

/-- the value does not depend on `σ` inside `s` -/
theorem sumOver_congr_left {s : Finset Name} {F : Assign → ℚ} {σ τ : Assign}
    (h : ∀ v, v ∉ s → σ v = τ v) : sumOver card s F σ = sumOver card s F τ := by
  unfold sumOver
  refine sum_congr rfl fun p _ => ?_
  congr 1
  funext v
  by_cases hv : v ∈ s
  · simp [hv]
  · simp [hv, h v hv]

theorem sumOver_union {s t : Finset Name} (h : Disjoint s t) (F : Assign → ℚ) (σ : Assign) :
    sumOver card (s ∪ t) F σ = sumOver card s (sumOver card t F) σ := by
  induction s using Finset.induction generalizing σ with
  | empty => simp
  | insert a s ha ih =>
    have h' := disjoint_insert_left.1 h
    rw [insert_union, sumOver_insert (by simp [ha, h'.1]), sumOver_insert ha]
    exact sum_congr rfl fun i _ => ih h'.2 _

theorem sumOver_comm {s t : Finset Name} (h : Disjoint s t) (F : Assign → ℚ) (σ : Assign) :
    sumOver card s (sumOver card t F) σ = sumOver card t (sumOver card s F) σ := by
  rw [← sumOver_union h, union_comm, sumOver_union h.symm]

theorem sumOver_add (s : Finset Name) (F G : Assign → ℚ) (σ : Assign) :
    sumOver card s (fun τ => F τ + G τ) σ = sumOver card s F σ + sumOver card s G σ := by
  simp [sumOver, sum_add_distrib]

@[simp] theorem sumOver_zero (s : Finset Name) (σ : Assign) :
    sumOver card s (fun _ => 0) σ = 0 := by simp [sumOver]

theorem sumOver_const_mul (s : Finset Name) (c : ℚ) (F : Assign → ℚ) (σ : Assign) :
    sumOver card s (fun τ => c * F τ) σ = c * sumOver card s F σ := by
  simp [sumOver, mul_sum]

theorem sumOver_mul_const (s : Finset Name) (c : ℚ) (F : Assign → ℚ) (σ : Assign) :
    sumOver card s (fun τ => F τ * c) σ = sumOver card s F σ * c := by
  simp [sumOver, sum_mul]

theorem sumOver_div_const (s : Finset Name) (c : ℚ) (F : Assign → ℚ) (σ : Assign) :
    sumOver card s (fun τ => F τ / c) σ = sumOver card s F σ / c := by
  simp [sumOver, div_eq_mul_inv, sum_mul]

/-- A factor that does not mention the summed variables can be pulled out. -/
theorem sumOver_mul_left {s A : Finset Name} {G : Assign → ℚ} (hG : DependsOn A G)
    (hA : Disjoint A s) (F : Assign → ℚ) (σ : Assign) :
    sumOver card s (fun τ => G τ * F τ) σ = G σ * sumOver card s F σ := by
  rw [← sumOver_const_mul]
  refine sumOver_congr fun τ hτ => ?_
  rw [hG τ σ fun v hv => hτ.1 v fun hs => (disjoint_left.1 hA hv hs)]

theorem sumOver_mul_right {s A : Finset Name} {G : Assign → ℚ} (hG : DependsOn A G)
    (hA : Disjoint A s) (F : Assign → ℚ) (σ : Assign) :
    sumOver card s (fun τ => F τ * G τ) σ = sumOver card s F σ * G σ := by
  have := sumOver_mul_left (card := card) hG hA F σ
  simp only [mul_comm] at this ⊢
  exact this

theorem DependsOn.mono {A B : Finset Name} {F : Assign → ℚ} (h : DependsOn A F) (hAB : A ⊆ B) :
    DependsOn B F := fun σ τ hst => h σ τ fun v hv => hst v (hAB hv)

theorem DependsOn.mul {A : Finset Name} {F G : Assign → ℚ} (hF : DependsOn A F)
    (hG : DependsOn A G) : DependsOn A (fun σ => F σ * G σ) :=
  fun σ τ h => by simp only [hF σ τ h, hG σ τ h]

theorem DependsOn.sumOver {A s : Finset Name} {F : Assign → ℚ} (h : DependsOn A F) :
    DependsOn (A \ s) (sumOver card s F) := by
  intro σ τ hst
  unfold Primo.sumOver
  refine sum_congr rfl fun p _ => h _ _ fun v hv => ?_
  by_cases hs : v ∈ s
  · simp [hs]
  · simp [hs, hst v (by simp [hv, hs])]

theorem sumOver_nonneg {s : Finset Name} {F : Assign → ℚ} {σ : Assign}
    (h : ∀ τ, Varies card s σ τ → 0 ≤ F τ) : 0 ≤ sumOver card s F σ := by
  refine Finset.sum_nonneg fun τ hτ => h _ ⟨fun v hv => by simp [hv], fun v hv => ?_⟩
  simp only [hv, dif_pos]
  exact Finset.mem_range.1 (Finset.mem_pi.1 hτ v hv)

theorem le_sumOver {s : Finset Name} {F : Assign → ℚ} {σ τ : Assign}
    (h : ∀ τ, Varies card s σ τ → 0 ≤ F τ) (hτ : Varies card s σ τ) :
    F τ ≤ sumOver card s F σ := by
  have := Finset.single_le_sum (s := s.pi fun v => range (card v))
    (f := fun p => F (fun v => if h : v ∈ s then p v h else σ v))
    (fun p hp => h _ ⟨fun v hv => by simp [hv], fun v hv => by
      simp only [hv, dif_pos]; exact Finset.mem_range.1 (Finset.mem_pi.1 hp v hv)⟩)
    (a := fun v _ => τ v) (Finset.mem_pi.2 fun v hv => mem_range.2 (hτ.2 v hv))
  have e : (fun v => if h : v ∈ s then τ v else σ v) = τ := by
    funext v
    by_cases hv : v ∈ s
    · simp [hv]
    · simp [hv, hτ.1 v hv]
  simp only [e] at this
  exact this

theorem eq_zero_of_sumOver_eq_zero {s : Finset Name} {F : Assign → ℚ} {σ τ : Assign}
    (h : ∀ τ, Varies card s σ τ → 0 ≤ F τ) (h0 : sumOver card s F σ = 0)
    (hτ : Varies card s σ τ) : F τ = 0 :=
  le_antisymm (h0 ▸ le_sumOver h hτ) (h τ hτ)

theorem Varies.trans {s t : Finset Name} {σ τ ρ : Assign} (h1 : Varies card s σ τ)
    (h2 : Varies card t τ ρ) : Varies card (s ∪ t) σ ρ := by
  refine ⟨fun v hv => ?_, fun v hv => ?_⟩
  · simp only [mem_union, not_or] at hv
    rw [h2.1 v hv.2, h1.1 v hv.1]
  · by_cases ht : v ∈ t
    · exact h2.2 v ht
    · have hs : v ∈ s := by simpa [ht] using hv
      rw [h2.1 v ht]; exact h1.2 v hs

theorem Varies.legal {s : Finset Name} {σ τ : Assign} {l : List Name} (h : Varies card s σ τ)
    (hσ : ∀ v ∈ l, v ∉ s → σ v < card v) : Legal card l τ := by
  intro v hv
  by_cases hs : v ∈ s
  · exact h.2 v hs
  · rw [h.1 v hs]; exact hσ v hv hs

end Primo
