import Mathlib.Algebra.Polynomial.Roots
import Mathlib.Order.Interval.Set.Infinite
import Mathlib.Algebra.Order.Field.Basic
import Mathlib.Tactic.FieldSimp
import Mathlib.Tactic.Positivity
import Mathlib.Tactic.LinearCombination
import Verif.Lemmas.Active
import Verif.Lemmas.Joint

/-!
# Tables that make connected variables dependent

For every graph and all observed values: if an active trail connects two variables, there are positive
normalised tables under which the two are dependent given the observations.
-/

namespace Primo
namespace Dep
open Finset

/-! ## polynomial functions -/

def IsPoly (f : ℚ → ℚ) : Prop := ∃ P : Polynomial ℚ, ∀ t, f t = P.eval t

namespace IsPoly

theorem const (c : ℚ) : IsPoly fun _ => c := ⟨.C c, by simp⟩
theorem id : IsPoly fun t => t := ⟨.X, by simp⟩
theorem add {f g : ℚ → ℚ} : IsPoly f → IsPoly g → IsPoly fun t => f t + g t
  | ⟨P, hP⟩, ⟨Q, hQ⟩ => ⟨P + Q, by simp [hP, hQ]⟩
theorem sub {f g : ℚ → ℚ} : IsPoly f → IsPoly g → IsPoly fun t => f t - g t
  | ⟨P, hP⟩, ⟨Q, hQ⟩ => ⟨P - Q, by simp [hP, hQ]⟩
theorem mul {f g : ℚ → ℚ} : IsPoly f → IsPoly g → IsPoly fun t => f t * g t
  | ⟨P, hP⟩, ⟨Q, hQ⟩ => ⟨P * Q, by simp [hP, hQ]⟩

theorem sum {α : Type} {s : Finset α} {f : α → ℚ → ℚ} (h : ∀ a ∈ s, IsPoly (f a)) :
    IsPoly fun t => ∑ a ∈ s, f a t := by
  classical
  induction s using Finset.induction with
  | empty => simpa using const 0
  | insert a s ha ih =>
    simp only [sum_insert ha]
    exact (h a (by simp)).add (ih fun b hb => h b (by simp [hb]))

theorem prod {α : Type} {s : Finset α} {f : α → ℚ → ℚ} (h : ∀ a ∈ s, IsPoly (f a)) :
    IsPoly fun t => ∏ a ∈ s, f a t := by
  classical
  induction s using Finset.induction with
  | empty => simpa using const 1
  | insert a s ha ih =>
    simp only [prod_insert ha]
    exact (h a (by simp)).mul (ih fun b hb => h b (by simp [hb]))

/-- two polynomials that are not zero have a common small positive point where they are not zero -/
theorem exists_ne {f g : ℚ → ℚ} (hf : IsPoly f) (hg : IsPoly g) (h1 : ∃ t, f t ≠ 0) (h2 : ∃ t, g t ≠ 0)
    {ε : ℚ} (hε : 0 < ε) : ∃ t, 0 < t ∧ t < ε ∧ f t ≠ 0 ∧ g t ≠ 0 := by
  obtain ⟨P, hP⟩ := hf
  obtain ⟨Q, hQ⟩ := hg
  obtain ⟨a, ha⟩ := h1
  obtain ⟨b, hb⟩ := h2
  have hP0 : P ≠ 0 := by rintro rfl; exact ha (by simp [hP])
  have hQ0 : Q ≠ 0 := by rintro rfl; exact hb (by simp [hQ])
  obtain ⟨t, ht, hr⟩ := (Set.Ioo_infinite hε).exists_notMem_finset (P * Q).roots.toFinset
  rw [Multiset.mem_toFinset, Polynomial.mem_roots (mul_ne_zero hP0 hQ0), Polynomial.IsRoot,
    Polynomial.eval_mul] at hr
  refine ⟨t, ht.1, ht.2, ?_, ?_⟩
  · rw [hP]; exact left_ne_zero_of_mul hr
  · rw [hQ]; exact right_ne_zero_of_mul hr

end IsPoly

/-! ## tables -/

/-- positive normalised tables for the variables `V`, each a function of the variable and its parents -/
structure Tab (card : Name → Nat) (pa : Name → Finset Name) (V : Finset Name)
    (θ : Name → Assign → ℚ) : Prop where
  pos : ∀ v ∈ V, ∀ σ, 0 < θ v σ
  sum : ∀ v ∈ V, ∀ σ, ∑ i ∈ range (card v), θ v (Function.update σ v i) = 1
  dep : ∀ v ∈ V, DependsOn (insert v (pa v)) (θ v)

/-- the sum of `F`, weighted with the joint distribution -/
def mass (card : Name → Nat) (V : Finset Name) (θ : Name → Assign → ℚ) (F : Assign → ℚ) : ℚ :=
  sumOver card V (fun τ => (∏ v ∈ V, θ v τ) * F τ) fun _ => 0

/-- covariance, without the denominators -/
def cov (card : Name → Nat) (V : Finset Name) (θ : Name → Assign → ℚ) (E F G : Assign → ℚ) : ℚ :=
  mass card V θ (fun τ => E τ * (F τ * G τ)) * mass card V θ E -
    mass card V θ (fun τ => E τ * F τ) * mass card V θ (fun τ => E τ * G τ)

/-- the variable has its first outcome -/
def ind (v : Name) (τ : Assign) : ℚ := if τ v = 0 then 1 else 0

/-- the observations -/
def seen (O : Finset Name) (o : Assign) (τ : Assign) : ℚ := if ∀ v ∈ O, τ v = o v then 1 else 0

section
variable {card : Name → Nat} {pa : Name → Finset Name} {V : Finset Name} {θ : Name → Assign → ℚ}

theorem mass_congr {F G : Assign → ℚ} (h : ∀ τ, F τ = G τ) : mass card V θ F = mass card V θ G := by
  rw [funext h]

theorem mass_add (F G : Assign → ℚ) :
    mass card V θ (fun τ => F τ + G τ) = mass card V θ F + mass card V θ G := by
  unfold mass
  rw [← sumOver_add]
  exact sumOver_congr fun τ _ => by ring

theorem mass_smul (c : ℚ) (F : Assign → ℚ) : mass card V θ (fun τ => c * F τ) = c * mass card V θ F := by
  unfold mass
  rw [← sumOver_const_mul]
  exact sumOver_congr fun τ _ => by ring

theorem mass_pos (h : Tab card pa V θ) {F : Assign → ℚ} (hF : ∀ τ, 0 ≤ F τ) {τ : Assign}
    (hτ : Varies card V (fun _ => 0) τ) (hp : 0 < F τ) : 0 < mass card V θ F := by
  have hnn : ∀ ρ, Varies card V (fun _ => 0) ρ → 0 ≤ (∏ v ∈ V, θ v ρ) * F ρ := fun ρ _ =>
    mul_nonneg (prod_nonneg fun v hv => (h.pos v hv ρ).le) (hF ρ)
  refine lt_of_le_of_ne (sumOver_nonneg hnn) fun h0 => ?_
  have := eq_zero_of_sumOver_eq_zero hnn h0.symm hτ
  exact (mul_pos (prod_pos fun v hv => h.pos v hv τ) hp).ne' this

/-- adding a childless node with the table `ts` -/
theorem Tab.insert (h : Tab card pa V θ) {s : Name} (hs : s ∉ V) {ts : Assign → ℚ}
    (hpos : ∀ σ, 0 < ts σ) (hsum : ∀ σ, ∑ i ∈ range (card s), ts (Function.update σ s i) = 1)
    (hdep : DependsOn (insert s (pa s)) ts) : Tab card pa (insert s V) (Function.update θ s ts) := by
  have hne : ∀ v ∈ V, v ≠ s := fun v hv e => hs (e ▸ hv)
  refine ⟨fun v hv σ => ?_, fun v hv σ => ?_, fun v hv => ?_⟩ <;>
    rcases mem_insert.1 hv with rfl | hv
  · simpa using hpos σ
  · rw [Function.update_of_ne (hne v hv)]; exact h.pos v hv σ
  · simpa using hsum σ
  · rw [Function.update_of_ne (hne v hv)]; exact h.sum v hv σ
  · simpa using hdep
  · rw [Function.update_of_ne (hne v hv)]; exact h.dep v hv

theorem mass_insert (h : Tab card pa V θ) (hcl : ∀ v ∈ V, pa v ⊆ V) {s : Name} (hs : s ∉ V)
    (ts : Assign → ℚ) (F : Assign → ℚ) :
    mass card (Insert.insert s V) (Function.update θ s ts) F = mass card V θ fun τ =>
      ∑ i ∈ range (card s), ts (Function.update τ s i) * F (Function.update τ s i) := by
  unfold mass
  have hne : ∀ v ∈ V, v ≠ s := fun v hv e => hs (e ▸ hv)
  rw [show Insert.insert s V = V ∪ {s} by rw [union_comm]; rfl, sumOver_union (by simpa using hs)]
  refine sumOver_congr fun τ _ => ?_
  rw [sumOver_singleton, mul_sum]
  refine sum_congr rfl fun i _ => ?_
  rw [union_comm, prod_union (by simpa using hs), prod_singleton, Function.update_self,
    prod_congr rfl (g := fun v => θ v τ)]
  · ring
  · intro v hv
    rw [Function.update_of_ne (hne v hv)]
    refine h.dep v hv _ _ fun u hu => Function.update_of_ne ?_ _ _
    rintro rfl
    rcases mem_insert.1 hu with rfl | hu
    · exact hs hv
    · exact hs (hcl v hv hu)

/-- the table that gives outcome `k` the probability `lam`, the others the same share of the rest -/
def split (card : Name → Nat) (s : Name) (k : Nat) (lam : Assign → ℚ) (τ : Assign) : ℚ :=
  if τ s = k then lam τ else (1 - lam τ) / (card s - 1 : ℚ)

theorem sum_split {s : Name} {k : Nat} (hk : k < card s) (hc : 2 ≤ card s) {lam : Assign → ℚ}
    (hl : ∀ τ i, lam (Function.update τ s i) = lam τ) (τ : Assign) (a b : ℚ) :
    ∑ i ∈ range (card s), split card s k lam (Function.update τ s i) * (if i = k then a else b) =
      lam τ * a + (1 - lam τ) * b := by
  have hc' : (card s - 1 : ℚ) ≠ 0 := by
    have : (2 : ℚ) ≤ card s := by exact_mod_cast hc
    linarith
  rw [← add_sum_erase _ _ (mem_range.2 hk)]
  have h1 : ∀ i ∈ (range (card s)).erase k,
      split card s k lam (Function.update τ s i) * (if i = k then a else b) =
        (1 - lam τ) / (card s - 1 : ℚ) * b := by
    intro i hi
    have := (mem_erase.1 hi).1
    simp [split, this, hl]
  rw [sum_congr rfl h1, sum_const, card_erase_of_mem (mem_range.2 hk), card_range, nsmul_eq_mul,
    Nat.cast_sub (by omega), Nat.cast_one]
  simp only [split, Function.update_self, if_true, hl]
  field_simp

theorem split_pos {s : Name} {k : Nat} (hc : 2 ≤ card s) {lam : Assign → ℚ} (h0 : ∀ τ, 0 < lam τ)
    (h1 : ∀ τ, lam τ < 1) (τ : Assign) : 0 < split card s k lam τ := by
  have hc' : (2 : ℚ) ≤ card s := by exact_mod_cast hc
  unfold split
  split
  · exact h0 τ
  · exact div_pos (by linarith [h1 τ]) (by linarith)

theorem split_dep {s : Name} {k : Nat} {lam : Assign → ℚ} (hl : DependsOn (pa s) lam) :
    DependsOn (insert s (pa s)) (split card s k lam) := by
  intro σ τ h
  unfold split
  rw [h s (by simp), hl σ τ fun u hu => h u (by simp [hu])]

/-- what a childless node with such a table does to sums -/
theorem exists_insert (h : Tab card pa V θ) (hcl : ∀ v ∈ V, pa v ⊆ V) {s : Name} (hs : s ∉ V)
    (hps : s ∉ pa s) {k : Nat} (hk : k < card s) (hc : 2 ≤ card s) {lam : Assign → ℚ}
    (h0 : ∀ τ, 0 < lam τ) (h1 : ∀ τ, lam τ < 1) (hl : DependsOn (pa s) lam) :
    ∃ θ', Tab card pa (insert s V) θ' ∧
      (∀ F : Assign → ℚ, (∀ τ i, F (Function.update τ s i) = F τ) →
        mass card (insert s V) θ' F = mass card V θ F) ∧
      ∀ F : Assign → ℚ, (∀ τ i, F (Function.update τ s i) = F τ) →
        mass card (insert s V) θ' (fun τ => F τ * if τ s = k then 1 else 0) =
          mass card V θ fun τ => lam τ * F τ := by
  have hl' : ∀ τ i, lam (Function.update τ s i) = lam τ := fun τ i =>
    hl _ _ fun u hu => Function.update_of_ne (by rintro rfl; exact hps hu) _ _
  refine ⟨_, h.insert hs (split_pos (k := k) hc h0 h1) (fun σ => ?_) (split_dep hl), fun F hF => ?_,
    fun F hF => ?_⟩
  · have := sum_split hk hc hl' σ 1 1
    simpa using this
  · rw [mass_insert h hcl hs]
    refine mass_congr fun τ => ?_
    have := sum_split hk hc hl' τ (F τ) (F τ)
    simp only [ite_self] at this
    simp only [hF]
    rw [this]; ring
  · rw [mass_insert h hcl hs]
    refine mass_congr fun τ => ?_
    have := sum_split hk hc hl' τ (F τ) 0
    simp only [hF, Function.update_self, mul_ite, mul_one, mul_zero] at this ⊢
    rw [this]; ring

/-- uniform tables -/
theorem tab_uniform (hc : ∀ v ∈ V, 2 ≤ card v) : Tab card pa V fun v _ => 1 / (card v : ℚ) := by
  have h : ∀ v ∈ V, (0 : ℚ) < card v := fun v hv => by
    have := hc v hv
    exact_mod_cast (by omega : 0 < card v)
  refine ⟨fun v hv _ => by have := h v hv; positivity, fun v hv _ => ?_, fun v hv σ τ _ => rfl⟩
  have := (h v hv).ne'
  simp only [sum_const, card_range, nsmul_eq_mul]
  field_simp

/-- two pairs of dependent variables at the same time -/
theorem Tab.both {θ₁ θ₂ : Name → Assign → ℚ} (h1 : Tab card pa V θ₁) (h2 : Tab card pa V θ₂)
    {E F G F' G' : Assign → ℚ} (c1 : cov card V θ₁ E F G ≠ 0) (c2 : cov card V θ₂ E F' G' ≠ 0) :
    ∃ θ, Tab card pa V θ ∧ cov card V θ E F G ≠ 0 ∧ cov card V θ E F' G' ≠ 0 := by
  let θ : ℚ → Name → Assign → ℚ := fun t v τ => (1 - t) * θ₁ v τ + t * θ₂ v τ
  have hm : ∀ F : Assign → ℚ, IsPoly fun t => mass card V (θ t) F := by
    intro F
    unfold mass sumOver
    exact .sum fun p _ => (IsPoly.prod fun v _ => ((((IsPoly.const 1).sub .id).mul (.const _)).add
      (IsPoly.id.mul (.const _)))).mul (.const _)
  have hcov : ∀ F G : Assign → ℚ, IsPoly fun t => cov card V (θ t) E F G := fun F G =>
    ((hm _).mul (hm _)).sub ((hm _).mul (hm _))
  have e1 : θ 0 = θ₁ := by funext v τ; simp [θ]
  have e2 : θ 1 = θ₂ := by funext v τ; simp [θ]
  obtain ⟨t, t0, t1, ha, hb⟩ := (hcov F G).exists_ne (hcov F' G') ⟨0, by rwa [e1]⟩ ⟨1, by rwa [e2]⟩
    one_pos
  refine ⟨θ t, ⟨fun v hv σ => ?_, fun v hv σ => ?_, fun v hv σ τ h => ?_⟩, ha, hb⟩
  · have := h1.pos v hv σ
    have := h2.pos v hv σ
    have : 0 < 1 - t := by linarith
    simp only [θ]; positivity
  · simp only [θ]
    rw [sum_add_distrib, ← mul_sum, ← mul_sum, h1.sum v hv, h2.sum v hv]; ring
  · simp only [θ]
    rw [h1.dep v hv σ τ h, h2.dep v hv σ τ h]

/-! ## covariances -/

theorem cov_comm (E F G : Assign → ℚ) : cov card V θ E F G = cov card V θ E G F := by
  unfold cov
  rw [mass_congr (F := fun τ => E τ * (F τ * G τ)) (G := fun τ => E τ * (G τ * F τ)) fun τ => by ring]
  ring

theorem cov_affine (E F G : Assign → ℚ) (a b : ℚ) :
    cov card V θ E (fun τ => a + b * F τ) G = b * cov card V θ E F G := by
  unfold cov
  rw [mass_congr (F := fun τ => E τ * ((a + b * F τ) * G τ))
      (G := fun τ => a * (E τ * G τ) + b * (E τ * (F τ * G τ))) fun τ => by ring,
    mass_congr (F := fun τ => E τ * (a + b * F τ)) (G := fun τ => a * E τ + b * (E τ * F τ))
      fun τ => by ring, mass_add, mass_add, mass_smul, mass_smul, mass_smul, mass_smul]
  ring

theorem cov_add (E F F' G : Assign → ℚ) (t : ℚ) :
    cov card V θ E (fun τ => F τ + t * F' τ) G = cov card V θ E F G + t * cov card V θ E F' G := by
  unfold cov
  rw [mass_congr (F := fun τ => E τ * ((F τ + t * F' τ) * G τ))
      (G := fun τ => E τ * (F τ * G τ) + t * (E τ * (F' τ * G τ))) fun τ => by ring,
    mass_congr (F := fun τ => E τ * (F τ + t * F' τ)) (G := fun τ => E τ * F τ + t * (E τ * F' τ))
      fun τ => by ring, mass_add, mass_add, mass_smul, mass_smul]
  ring

/-- Evidence that depends on both variables makes them dependent. -/
theorem cov_tilt {E F G H : Assign → ℚ} (h1 : cov card V θ E H F ≠ 0) (h2 : cov card V θ E H G ≠ 0)
    {ε : ℚ} (hε : 0 < ε) : ∃ b, 0 < b ∧ b < ε ∧
      cov card V θ (fun τ => E τ * (1 + b * H τ)) F G ≠ 0 := by
  set m := mass card V θ with hm
  have key : ∀ b, cov card V θ (fun τ => E τ * (1 + b * H τ)) F G =
      (m (fun τ => E τ * (F τ * G τ)) + b * m (fun τ => E τ * (H τ * (F τ * G τ)))) *
        (m E + b * m fun τ => E τ * H τ) -
      (m (fun τ => E τ * F τ) + b * m (fun τ => E τ * (H τ * F τ))) *
        (m (fun τ => E τ * G τ) + b * m fun τ => E τ * (H τ * G τ)) := by
    intro b
    unfold cov
    rw [mass_congr (F := fun τ => E τ * (1 + b * H τ) * (F τ * G τ))
        (G := fun τ => E τ * (F τ * G τ) + b * (E τ * (H τ * (F τ * G τ)))) fun τ => by ring,
      mass_congr (F := fun τ => E τ * (1 + b * H τ)) (G := fun τ => E τ + b * (E τ * H τ))
        fun τ => by ring,
      mass_congr (F := fun τ => E τ * (1 + b * H τ) * F τ)
        (G := fun τ => E τ * F τ + b * (E τ * (H τ * F τ))) fun τ => by ring,
      mass_congr (F := fun τ => E τ * (1 + b * H τ) * G τ)
        (G := fun τ => E τ * G τ + b * (E τ * (H τ * G τ))) fun τ => by ring,
      mass_add, mass_add, mass_add, mass_add, mass_smul, mass_smul, mass_smul, mass_smul]
  have hpoly : IsPoly fun b => cov card V θ (fun τ => E τ * (1 + b * H τ)) F G := by
    simp only [key]
    have lin : ∀ x y : ℚ, IsPoly fun b => x + b * y := fun x y => (IsPoly.const x).add (.mul .id (.const y))
    exact ((lin _ _).mul (lin _ _)).sub ((lin _ _).mul (lin _ _))
  have hne : ∃ b, cov card V θ (fun τ => E τ * (1 + b * H τ)) F G ≠ 0 := by
    by_contra hc
    push_neg at hc
    have a0 := hc 0
    have a1 := hc 1
    have a2 := hc (-1)
    rw [key] at a0 a1 a2
    have hz : cov card V θ E H F * cov card V θ E H G = 0 := by
      unfold cov
      rw [← hm]
      generalize m (fun τ => E τ * (F τ * G τ)) = fg at *
      generalize m (fun τ => E τ * (H τ * (F τ * G τ))) = hfg at *
      generalize m (fun τ => E τ * H τ) = h at *
      generalize m (fun τ => E τ * F τ) = f at *
      generalize m (fun τ => E τ * G τ) = g at *
      generalize m (fun τ => E τ * (H τ * F τ)) = hf at *
      generalize m (fun τ => E τ * (H τ * G τ)) = hg at *
      generalize m E = e at *
      have e0 : fg * e = f * g := by linarith
      have e1 : hfg * e + fg * h = hf * g + f * hg := by linarith
      have e2 : hfg * h = hf * hg := by linarith
      linear_combination (-e * e) * e2 + (e * h) * e1 - (h * h) * e0
    rcases mul_eq_zero.1 hz with h0 | h0
    · exact h1 h0
    · exact h2 h0
  obtain ⟨b, b0, b1, hb, -⟩ := hpoly.exists_ne hpoly hne hne hε
  exact ⟨b, b0, b1, hb⟩

theorem ind_update {v s : Name} (h : v ≠ s) (τ : Assign) (i : Nat) :
    ind v (Function.update τ s i) = ind v τ := by
  unfold ind; rw [Function.update_of_ne h]

theorem ind_nonneg (v : Name) (τ : Assign) : 0 ≤ ind v τ := by unfold ind; split <;> norm_num
theorem ind_le (v : Name) (τ : Assign) : ind v τ ≤ 1 := by unfold ind; split <;> norm_num

theorem ind_dep {v : Name} {A : Finset Name} (h : v ∈ A) : DependsOn A (ind v) := fun σ τ e => by
  unfold ind; rw [e v h]

theorem seen_update {O : Finset Name} {o : Assign} {s : Name} (h : s ∉ O) (τ : Assign) (i : Nat) :
    seen O o (Function.update τ s i) = seen O o τ := by
  unfold seen
  have : (∀ v ∈ O, Function.update τ s i v = o v) ↔ ∀ v ∈ O, τ v = o v :=
    forall₂_congr fun v hv => by rw [Function.update_of_ne (by rintro rfl; exact h hv)]
  simp only [this]

theorem seen_nonneg (O : Finset Name) (o τ : Assign) : 0 ≤ seen O o τ := by
  unfold seen; split <;> norm_num

theorem seen_erase {O : Finset Name} {o : Assign} {s : Name} (h : s ∈ O) (τ : Assign) :
    seen O o τ = seen (O.erase s) o τ * if τ s = o s then 1 else 0 := by
  unfold seen
  have : (∀ v ∈ O, τ v = o v) ↔ (∀ v ∈ O.erase s, τ v = o v) ∧ τ s = o s := by
    refine ⟨fun h' => ⟨fun v hv => h' v (mem_of_mem_erase hv), h' s h⟩, fun h' v hv => ?_⟩
    by_cases e : v = s
    · rw [e]; exact h'.2
    · exact h'.1 v (mem_erase.2 ⟨e, hv⟩)
  by_cases h1 : ∀ v ∈ O.erase s, τ v = o v
  · by_cases h2 : τ s = o s
    · rw [if_pos (this.2 ⟨h1, h2⟩), if_pos h1, if_pos h2, mul_one]
    · rw [if_neg fun h => h2 (this.1 h).2, if_neg h2, mul_zero]
  · rw [if_neg fun h => h1 (this.1 h).1, if_neg h1, zero_mul]

/-- a variable that is not observed is not constant -/
theorem cov_self (h : Tab card pa V θ) (hc : ∀ v ∈ V, 2 ≤ card v) {O : Finset Name} (hO : O ⊆ V)
    {o : Assign} (ho : ∀ v ∈ O, o v < card v) {q : Name} (hq : q ∈ V) (hqO : q ∉ O) :
    cov card V θ (seen O o) (ind q) (ind q) ≠ 0 := by
  set E := seen O o with hE
  have hpt : ∀ i < 2, ∃ τ, Varies card V (fun _ => 0) τ ∧ E τ = 1 ∧ τ q = i := by
    intro i hi
    refine ⟨fun v => if v = q then i else if v ∈ O then o v else 0, ⟨fun v hv => ?_, fun v hv => ?_⟩, ?_,
      by simp⟩
    · have h1 : v ≠ q := by rintro rfl; exact hv hq
      have h2 : v ∉ O := fun h => hv (hO h)
      simp [h1, h2]
    · have := hc v hv
      dsimp only
      split
      · omega
      · split
        · exact ho v ‹_›
        · omega
    · rw [hE, seen, if_pos]
      intro v hv
      have h1 : v ≠ q := by rintro rfl; exact hqO hv
      simp [h1, hv]
  have p0 : 0 < mass card V θ fun τ => E τ * ind q τ := by
    obtain ⟨τ, t1, t2, t3⟩ := hpt 0 (by omega)
    exact mass_pos h (fun ρ => mul_nonneg (seen_nonneg _ _ _) (ind_nonneg _ _)) t1 (by simp [t2, ind, t3])
  have p1 : 0 < mass card V θ fun τ => E τ * (1 - ind q τ) := by
    obtain ⟨τ, t1, t2, t3⟩ := hpt 1 (by omega)
    exact mass_pos h (fun ρ => mul_nonneg (seen_nonneg _ _ _) (by linarith [ind_le q ρ])) t1
      (by simp [t2, ind, t3])
  have e1 : mass card V θ E = mass card V θ (fun τ => E τ * ind q τ) +
      mass card V θ fun τ => E τ * (1 - ind q τ) := by
    rw [← mass_add]
    exact mass_congr fun τ => by ring
  have e2 : mass card V θ (fun τ => E τ * (ind q τ * ind q τ)) = mass card V θ fun τ => E τ * ind q τ :=
    mass_congr fun τ => by unfold ind; split <;> simp
  unfold cov
  rw [e1, e2]
  have := mul_pos p0 p1
  intro h0
  linarith

theorem cov_cond {E F G : Assign → ℚ} (c : ℚ) :
    cov card V θ (fun τ => c * E τ) F G = c * c * cov card V θ E F G := by
  unfold cov
  rw [mass_congr (F := fun τ => c * E τ * (F τ * G τ)) (G := fun τ => c * (E τ * (F τ * G τ)))
      fun τ => by ring, mass_congr (F := fun τ => c * E τ * F τ) (G := fun τ => c * (E τ * F τ))
      fun τ => by ring, mass_congr (F := fun τ => c * E τ * G τ) (G := fun τ => c * (E τ * G τ))
      fun τ => by ring, mass_smul, mass_smul, mass_smul, mass_smul]
  ring

end

/-- **Connected variables can be dependent.** -/
theorem exists_dependent {card : Name → Nat} {pa : Name → Finset Name} {rank : Name → Nat}
    (hrank : ∀ v, ∀ p ∈ pa v, rank p < rank v) (V : Finset Name) (hcl : ∀ v ∈ V, pa v ⊆ V)
    (hc : ∀ v ∈ V, 2 ≤ card v) (O : Finset Name) (hO : O ⊆ V) (o : Assign) (ho : ∀ v ∈ O, o v < card v)
    (q r : Name) (hq : q ∈ V) (hqO : q ∉ O) (hr : r ∈ V) (hrO : r ∉ O) (d : Bool)
    (ha : Act (fun p v => v ∈ V ∧ p ∈ pa v) (· ∈ O) q d r) :
    ∃ θ, Tab card pa V θ ∧ cov card V θ (seen O o) (ind q) (ind r) ≠ 0 := by
  induction hn : V.card generalizing V O q r d with
  | zero => rw [card_eq_zero.1 hn] at hq; simp at hq
  | succ n ih =>
    by_cases hqr : q = r
    · subst hqr
      exact ⟨_, tab_uniform hc, cov_self (tab_uniform (pa := pa) hc) hc hO ho hq hqO⟩
    obtain ⟨s, hsV, hmax⟩ := V.exists_max_image rank ⟨q, hq⟩
    have hself : ∀ v, v ∉ pa v := fun v h => lt_irrefl _ (hrank v v h)
    have hnp : ∀ v ∈ V, s ∉ pa v := fun v hv h => absurd (hmax v hv) (by have := hrank v s h; omega)
    obtain ⟨W, hsW, rfl⟩ : ∃ W, s ∉ W ∧ V = insert s W := ⟨V.erase s, by simp, (insert_erase hsV).symm⟩
    have hWcl : ∀ v ∈ W, pa v ⊆ W := fun v hv p hp => by
      rcases mem_insert.1 (hcl v (mem_insert_of_mem hv) hp) with rfl | h
      · exact absurd hp (hnp v (mem_insert_of_mem hv))
      · exact h
    have hsp : pa s ⊆ W := fun p hp => by
      rcases mem_insert.1 (hcl s (mem_insert_self _ _) hp) with rfl | h
      · exact absurd hp (hself _)
      · exact h
    have hWc : ∀ v ∈ W, 2 ≤ card v := fun v hv => hc v (mem_insert_of_mem hv)
    have hsc : 2 ≤ card s := hc s (mem_insert_self _ _)
    have hWn : W.card = n := by rw [card_insert_of_notMem hsW] at hn; omega
    have hsink : Sink (fun p v => v ∈ insert s W ∧ p ∈ pa v) (fun p v => v ∈ W ∧ p ∈ pa v) s
        (fun p => p ∈ pa s) := by
      refine ⟨fun p v => ⟨fun ⟨h1, h2⟩ => ?_, ?_⟩, fun v h => hnp v (mem_insert_of_mem h.1) h.2,
        fun v h => hsW h.1, hself s⟩
      · rcases mem_insert.1 h1 with rfl | h1
        · exact .inr ⟨rfl, h2⟩
        · exact .inl ⟨h1, h2⟩
      · rintro (⟨h1, h2⟩ | ⟨rfl, h2⟩)
        · exact ⟨mem_insert_of_mem h1, h2⟩
        · exact ⟨mem_insert_self _ _, h2⟩
    have memW : ∀ {v}, v ∈ insert s W → v ≠ s → v ∈ W := fun h hne => (mem_insert.1 h).resolve_left hne
    by_cases hsO : s ∈ O
    · -- the last variable is observed
      have hqs : q ≠ s := by rintro rfl; exact hqO hsO
      have hrs : r ≠ s := by rintro rfl; exact hrO hsO
      set O' := O.erase s with hO'
      have hOW : O' ⊆ W := fun v hv => memW (hO (mem_of_mem_erase hv)) (ne_of_mem_erase hv)
      have ho' : ∀ v ∈ O', o v < card v := fun v hv => ho v (mem_of_mem_erase hv)
      have hOO : (fun w => w ∈ O ∧ w ≠ s) = (· ∈ O') := by
        funext w; exact propext ⟨fun h => mem_erase.2 ⟨h.2, h.1⟩, fun h => ⟨mem_of_mem_erase h, ne_of_mem_erase h⟩⟩
      have hnO : ∀ {v}, v ∉ O → v ∉ O' := fun h h' => h (mem_of_mem_erase h')
      have hsO' : s ∉ O' := by simp [hO']
      -- the observation of `s` as a factor on the rest
      have fin : ∀ θ, Tab card pa W θ → ∀ lam : Assign → ℚ, (∀ τ, 0 < lam τ) → (∀ τ, lam τ < 1) →
          DependsOn (pa s) lam → cov card W θ (fun τ => lam τ * seen O' o τ) (ind q) (ind r) ≠ 0 →
          ∃ θ, Tab card pa (insert s W) θ ∧ cov card (insert s W) θ (seen O o) (ind q) (ind r) ≠ 0 := by
        intro θ hθ lam l0 l1 ld hcov
        obtain ⟨θ', h1, -, h3⟩ := exists_insert hθ hWcl hsW (hself s) (ho s hsO) hsc l0 l1 ld
        refine ⟨θ', h1, ?_⟩
        have key : ∀ F : Assign → ℚ, (∀ τ i, F (Function.update τ s i) = F τ) →
            mass card (insert s W) θ' (fun τ => seen O o τ * F τ) =
              mass card W θ fun τ => lam τ * seen O' o τ * F τ := by
          intro F hF
          rw [mass_congr (G := fun τ => (seen O' o τ * F τ) * if τ s = o s then 1 else 0) fun τ => by
            rw [seen_erase hsO]; ring, h3 _ fun τ i => by rw [seen_update hsO', hF]]
          exact mass_congr fun τ => by ring
        have k1 := key (fun _ => 1) fun _ _ => rfl
        simp only [mul_one] at k1
        unfold cov at hcov ⊢
        rw [key (fun τ => ind q τ * ind r τ) fun τ i => by rw [ind_update hqs, ind_update hrs],
          key (ind q) fun τ i => by rw [ind_update hqs], key (ind r) fun τ i => by rw [ind_update hrs], k1]
        exact hcov
      rcases hsink.observed hsO hqs ha with h1 | ⟨⟨p₁, hp₁, ho₁, d₁, a₁⟩, ⟨h1, -⟩ | ⟨p₂, hp₂, a₂⟩⟩
      · rw [hOO] at h1
        obtain ⟨θ, t1, t2⟩ := ih W hWcl hWc O' hOW ho' q r (memW hq hqs) (hnO hqO) (memW hr hrs) (hnO hrO)
          d h1 hWn
        refine fin θ t1 (fun _ => 1 / 2) (fun _ => by norm_num) (fun _ => by norm_num)
          (fun _ _ _ => rfl) ?_
        rw [cov_cond]
        exact mul_ne_zero (by norm_num) t2
      · exact absurd h1 hrs
      · rw [hOO] at a₁ a₂
        have ho₁' : p₁ ∉ O' := fun h => ho₁ ⟨mem_of_mem_erase h, ne_of_mem_erase h⟩
        have ho₂' : p₂ ∉ O' := fun h => by
          have := (a₂.of_observed h).1
          exact hnO hrO (this ▸ h)
        obtain ⟨θ₁, t1, c1⟩ := ih W hWcl hWc O' hOW ho' q p₁ (memW hq hqs) (hnO hqO) (hsp hp₁) ho₁'
          d₁ a₁ hWn
        obtain ⟨θ₂, t2, c2⟩ := ih W hWcl hWc O' hOW ho' p₂ r (hsp hp₂) ho₂' (memW hr hrs) (hnO hrO)
          d a₂ hWn
        obtain ⟨θ, hθ, c1, c2⟩ := t1.both t2 c1 c2
        rw [cov_comm] at c1
        -- a mixture of the two parents that is dependent on both
        obtain ⟨t, t0, t1, e1, e2⟩ := IsPoly.exists_ne (ε := 1)
          (f := fun t => cov card W θ (seen O' o) (fun τ => ind p₁ τ + t * ind p₂ τ) (ind q))
          (g := fun t => cov card W θ (seen O' o) (fun τ => ind p₁ τ + t * ind p₂ τ) (ind r))
          (by simp only [cov_add]; exact (IsPoly.const _).add (.mul .id (.const _)))
          (by simp only [cov_add]; exact (IsPoly.const _).add (.mul .id (.const _)))
          ⟨0, by rw [cov_add]; simpa using c1⟩
          (by
            by_contra hno
            push_neg at hno
            have a0 := hno 0
            have a1 := hno 1
            rw [cov_add] at a0 a1
            exact c2 (by linarith)) one_pos
        obtain ⟨b, b0, b1, hb⟩ := cov_tilt e1 e2 (ε := 1 / 2) (by norm_num)
        have hh : ∀ τ, 0 ≤ ind p₁ τ + t * ind p₂ τ ∧ ind p₁ τ + t * ind p₂ τ ≤ 2 := by
          intro τ
          have := ind_nonneg p₁ τ; have := ind_le p₁ τ
          have := ind_nonneg p₂ τ; have := ind_le p₂ τ
          constructor <;> nlinarith
        refine fin θ hθ (fun τ => 1 / 4 * (1 + b * (ind p₁ τ + t * ind p₂ τ))) (fun τ => ?_) (fun τ => ?_)
          (fun σ τ h => ?_) ?_
        · have := hh τ
          nlinarith
        · have := hh τ
          nlinarith
        · dsimp only
          rw [ind_dep hp₁ σ τ h, ind_dep hp₂ σ τ h]
        · have : (fun τ => 1 / 4 * (1 + b * (ind p₁ τ + t * ind p₂ τ)) * seen O' o τ) = fun τ =>
              1 / 4 * (seen O' o τ * (1 + b * (ind p₁ τ + t * ind p₂ τ))) := by funext τ; ring
          rw [this, cov_cond]
          exact mul_ne_zero (by norm_num) hb
    · have hOW : O ⊆ W := fun v hv => memW (hO hv) (by rintro rfl; exact hsO hv)
      have half : ∀ p τ, 0 < 1 / 2 + 1 / 4 * ind p τ ∧ 1 / 2 + 1 / 4 * ind p τ < 1 := fun p τ => by
        have := ind_nonneg p τ; have := ind_le p τ
        constructor <;> linarith
      by_cases hqs : q = s
      · -- the trail starts in the last variable
        subst hqs
        have hrs : r ≠ q := fun e => hqr e.symm
        rcases hsink.first hsO ha with h1 | ⟨p, hp, a⟩
        · exact absurd h1 hrs
        · have hpO : p ∉ O := fun h => hrO ((a.of_observed h).1 ▸ h)
          obtain ⟨θ, t1, c1⟩ := ih W hWcl hWc O hOW ho p r (hsp hp) hpO (memW hr hrs) hrO d a hWn
          obtain ⟨θ', h1, h2, h3⟩ := exists_insert t1 hWcl hsW (hself q) (k := 0) (by omega) hsc
            (fun τ => (half p τ).1) (fun τ => (half p τ).2) (fun σ τ h => by rw [ind_dep hp σ τ h])
          refine ⟨θ', h1, ?_⟩
          have c1 := mul_ne_zero (by norm_num : (1 / 4 : ℚ) ≠ 0) c1
          rw [← cov_affine _ _ _ (1 / 2)] at c1
          have k1 : mass card (insert q W) θ' (fun τ => seen O o τ * (ind q τ * ind r τ)) =
              mass card W θ fun τ => seen O o τ * ((1 / 2 + 1 / 4 * ind p τ) * ind r τ) := by
            rw [mass_congr (G := fun τ => (seen O o τ * ind r τ) * if τ q = 0 then 1 else 0) fun τ => by
              unfold ind; ring, h3 _ fun τ i => by rw [seen_update hsO, ind_update hrs]]
            exact mass_congr fun τ => by ring
          have k2 : mass card (insert q W) θ' (fun τ => seen O o τ * ind q τ) =
              mass card W θ fun τ => seen O o τ * (1 / 2 + 1 / 4 * ind p τ) := by
            rw [mass_congr (G := fun τ => seen O o τ * if τ q = 0 then 1 else 0) fun τ => by
              unfold ind; ring, h3 _ fun τ i => by rw [seen_update hsO]]
            exact mass_congr fun τ => by ring
          unfold cov at c1 ⊢
          rw [k1, k2, h2 _ fun τ i => seen_update hsO τ i,
            h2 (fun τ => seen O o τ * ind r τ) fun τ i => by rw [seen_update hsO, ind_update hrs]]
          exact c1
      · by_cases hrs : r = s
        · -- the trail ends in the last variable
          subst hrs
          rcases hsink.barren hsO hqs ha with h1 | ⟨-, -, p, hp, hpO, d', a⟩
          · exact (hsink.isolated hqs h1).elim
          · obtain ⟨θ, t1, c1⟩ := ih W hWcl hWc O hOW ho q p (memW hq hqs) hqO (hsp hp) hpO d' a hWn
            obtain ⟨θ', h1, h2, h3⟩ := exists_insert t1 hWcl hsW (hself r) (k := 0) (by omega) hsc
              (fun τ => (half p τ).1) (fun τ => (half p τ).2) (fun σ τ h => by rw [ind_dep hp σ τ h])
            refine ⟨θ', h1, ?_⟩
            rw [cov_comm] at c1 ⊢
            have c1 := mul_ne_zero (by norm_num : (1 / 4 : ℚ) ≠ 0) c1
            rw [← cov_affine _ _ _ (1 / 2)] at c1
            have k1 : mass card (insert r W) θ' (fun τ => seen O o τ * (ind r τ * ind q τ)) =
                mass card W θ fun τ => seen O o τ * ((1 / 2 + 1 / 4 * ind p τ) * ind q τ) := by
              rw [mass_congr (G := fun τ => (seen O o τ * ind q τ) * if τ r = 0 then 1 else 0) fun τ => by
                unfold ind; ring, h3 _ fun τ i => by rw [seen_update hsO, ind_update hqs]]
              exact mass_congr fun τ => by ring
            have k2 : mass card (insert r W) θ' (fun τ => seen O o τ * ind r τ) =
                mass card W θ fun τ => seen O o τ * (1 / 2 + 1 / 4 * ind p τ) := by
              rw [mass_congr (G := fun τ => seen O o τ * if τ r = 0 then 1 else 0) fun τ => by
                unfold ind; ring, h3 _ fun τ i => by rw [seen_update hsO]]
              exact mass_congr fun τ => by ring
            unfold cov at c1 ⊢
            rw [k1, k2, h2 _ fun τ i => seen_update hsO τ i,
              h2 (fun τ => seen O o τ * ind q τ) fun τ i => by rw [seen_update hsO, ind_update hqs]]
            exact c1
        · -- the last variable has nothing to do with it
          rcases hsink.barren hsO hqs ha with a | ⟨h1, -⟩
          · obtain ⟨θ, t1, c1⟩ := ih W hWcl hWc O hOW ho q r (memW hq hqs) hqO (memW hr hrs) hrO d a hWn
            obtain ⟨θ', h1, h2, -⟩ := exists_insert t1 hWcl hsW (hself s) (k := 0) (by omega) hsc
              (lam := fun _ => 1 / 2) (fun τ => by norm_num) (fun τ => by norm_num) (fun _ _ _ => rfl)
            refine ⟨θ', h1, ?_⟩
            unfold cov at c1 ⊢
            rw [h2 (fun τ => seen O o τ * (ind q τ * ind r τ)) fun τ i => by
                rw [seen_update hsO, ind_update hqs, ind_update hrs], h2 _ fun τ i => seen_update hsO τ i,
              h2 (fun τ => seen O o τ * ind q τ) fun τ i => by rw [seen_update hsO, ind_update hqs],
              h2 (fun τ => seen O o τ * ind r τ) fun τ i => by rw [seen_update hsO, ind_update hrs]]
            exact c1
          · exact absurd h1 hrs

end Dep
end Primo
