import Verif.Lemmas.Sensitive
import Verif.Lemmas.Rounded

/-!
# Tables that agree up to a common factor

Rounding errors in a prior disturb the posterior only as far as they disturb the ratios of the prior's entries.
-/

namespace Primo
open Finset

/-- the ratios of `f` and `g` agree up to `k` roundings, and they vanish at the same places -/
structure Skew {α : Type} (P : α → Prop) (u : ℚ) (k : Nat) (f g : α → ℚ) : Prop where
  left : ∀ a, P a → 0 ≤ f a
  right : ∀ a, P a → 0 ≤ g a
  zero : ∀ a, P a → (f a = 0 ↔ g a = 0)
  cross : ∀ a b, P a → P b → f a * g b * (1 - u) ^ k ≤ f b * g a

namespace Skew
variable {α β : Type} {P : α → Prop} {u : ℚ} {k m : Nat} {f g h f' g' : α → ℚ}

theorem rfl' (hf : ∀ a, P a → 0 ≤ f a) : Skew P u 0 f f :=
  ⟨hf, hf, fun _ _ => Iff.rfl, fun a b _ _ => by rw [pow_zero, mul_one, mul_comm]⟩

theorem symm (s : Skew P u k f g) : Skew P u k g f :=
  ⟨s.right, s.left, fun a h => (s.zero a h).symm, fun a b ha hb => by
    have := s.cross b a hb ha
    linarith [mul_comm (g a) (f b), mul_comm (g b) (f a)]⟩

theorem mono (h0 : 0 ≤ u) (hu : u < 1) (s : Skew P u k f g) (hk : k ≤ m) : Skew P u m f g :=
  ⟨s.left, s.right, s.zero, fun a b ha hb => le_trans (mul_le_mul_of_nonneg_left
    (pow_le_pow_of_le_one (by linarith) (by linarith) hk) (mul_nonneg (s.left a ha) (s.right b hb))) (s.cross a b ha hb)⟩

theorem comap {Q : β → Prop} (s : Skew P u k f g) {p : β → α} (hp : ∀ b, Q b → P (p b)) :
    Skew Q u k (fun b => f (p b)) fun b => g (p b) :=
  ⟨fun b hb => s.left _ (hp b hb), fun b hb => s.right _ (hp b hb), fun b hb => s.zero _ (hp b hb),
    fun a b ha hb => s.cross _ _ (hp a ha) (hp b hb)⟩

theorem congr (s : Skew P u k f g) (hf : ∀ a, P a → f' a = f a) (hg : ∀ a, P a → g' a = g a) : Skew P u k f' g' :=
  ⟨fun a ha => by rw [hf a ha]; exact s.left a ha, fun a ha => by rw [hg a ha]; exact s.right a ha,
    fun a ha => by rw [hf a ha, hg a ha]; exact s.zero a ha,
    fun a b ha hb => by rw [hf a ha, hg a ha, hf b hb, hg b hb]; exact s.cross a b ha hb⟩

theorem mul (hu : u < 1) (s : Skew P u k f g) (s' : Skew P u m f' g') :
    Skew P u (k + m) (fun a => f a * f' a) fun a => g a * g' a := by
  refine ⟨fun a ha => mul_nonneg (s.left a ha) (s'.left a ha), fun a ha => mul_nonneg (s.right a ha) (s'.right a ha),
    fun a ha => ?_, fun a b ha hb => ?_⟩
  · rw [mul_eq_zero, mul_eq_zero, s.zero a ha, s'.zero a ha]
  · have hc : ∀ n, (0 : ℚ) ≤ (1 - u) ^ n := fun n => pow_nonneg (by linarith) _
    calc _ = (f a * g b * (1 - u) ^ k) * (f' a * g' b * (1 - u) ^ m) := by rw [pow_add]; ring
      _ ≤ (f b * g a) * (f' b * g' a) := mul_le_mul (s.cross a b ha hb) (s'.cross a b ha hb)
          (mul_nonneg (mul_nonneg (s'.left a ha) (s'.right b hb)) (hc m)) (mul_nonneg (s.left b hb) (s.right a ha))
      _ = _ := by ring

theorem trans (hu : u < 1) (s : Skew P u k f g) (s' : Skew P u m g h) : Skew P u (k + m) f h := by
  refine ⟨s.left, s'.right, fun a ha => (s.zero a ha).trans (s'.zero a ha), fun a b ha hb => ?_⟩
  have hr : 0 ≤ f b * h a := mul_nonneg (s.left b hb) (s'.right a ha)
  rcases (s.right a ha).eq_or_lt with h1 | h1
  · rw [(s.zero a ha).2 h1.symm, zero_mul, zero_mul]; exact hr
  rcases (s.right b hb).eq_or_lt with h2 | h2
  · rw [(s'.zero b hb).1 h2.symm, mul_zero, zero_mul]; exact hr
  have hc : ∀ n, (0 : ℚ) ≤ (1 - u) ^ n := fun n => pow_nonneg (by linarith) _
  have := mul_le_mul (s.cross a b ha hb) (s'.cross a b ha hb)
    (mul_nonneg (mul_nonneg (s'.left a ha) (s'.right b hb)) (hc m)) (mul_nonneg (s.left b hb) (s.right a ha))
  refine le_of_mul_le_mul_right ?_ (mul_pos h1 h2)
  calc _ = f a * g b * (1 - u) ^ k * (g a * h b * (1 - u) ^ m) := by rw [pow_add]; ring
    _ ≤ _ := this
    _ = _ := by ring

theorem of_near (hu : u < 1) (s : ∀ a, P a → Near u k (f a) (g a)) : Skew P u (2 * k) f g := by
  have hc : 0 < (1 - u) ^ k := pow_pos (by linarith) _
  have hl : ∀ a, P a → 0 ≤ f a := fun a ha => le_trans (mul_nonneg (s a ha).1 hc.le) (s a ha).2.1
  refine ⟨hl, fun a ha => (s a ha).1, fun a ha => ?_, fun a b ha hb => ?_⟩
  · obtain ⟨h1, h2, h3⟩ := s a ha
    constructor
    · intro h
      rw [h] at h2
      nlinarith
    · intro h
      rw [h] at h3
      have := hl a ha
      nlinarith
  · obtain ⟨h1, h2, h3⟩ := s a ha
    obtain ⟨k1, k2, k3⟩ := s b hb
    calc _ = (f a * (1 - u) ^ k) * (g b * (1 - u) ^ k) := by rw [two_mul, pow_add]; ring
      _ ≤ g a * f b := mul_le_mul h3 k2 (mul_nonneg k1 hc.le) h1
      _ = _ := mul_comm _ _

theorem scale (s : Skew P u k f g) {c d : ℚ} (hc : 0 < c) (hd : 0 < d) :
    Skew P u k (fun a => c * f a) fun a => d * g a := by
  refine ⟨fun a ha => mul_nonneg hc.le (s.left a ha), fun a ha => mul_nonneg hd.le (s.right a ha), fun a ha => ?_,
    fun a b ha hb => ?_⟩
  · rw [mul_eq_zero, mul_eq_zero, or_iff_right hc.ne', or_iff_right hd.ne', s.zero a ha]
  · calc _ = (c * d) * (f a * g b * (1 - u) ^ k) := by ring
      _ ≤ (c * d) * (f b * g a) := mul_le_mul_of_nonneg_left (s.cross a b ha hb) (mul_pos hc hd).le
      _ = _ := by ring

theorem prod (hu : u < 1) {l : List β} {κ : β → Nat} {F G : β → α → ℚ}
    (s : ∀ v ∈ l, Skew P u (κ v) (F v) (G v)) :
    Skew P u (l.map κ).sum (fun a => (l.map fun v => F v a).prod) fun a => (l.map fun v => G v a).prod := by
  induction l with
  | nil => exact rfl' fun _ _ => zero_le_one
  | cons v l ih =>
    simp only [List.map_cons, List.prod_cons, List.sum_cons]
    exact (s v (by simp)).mul hu (ih fun w hw => s w (by simp [hw]))

end Skew

section
variable {card : Name → Nat} {u : ℚ} {k : Nat}

theorem sumOver_eq_zero {s : Finset Name} {F : Assign → ℚ} {σ : Assign} (h0 : ∀ τ, Varies card s σ τ → 0 ≤ F τ) :
    sumOver card s F σ = 0 ↔ ∀ τ, Varies card s σ τ → F τ = 0 := by
  constructor
  · intro h τ hτ
    have hx := h
    unfold sumOver at hx
    have hmem : (fun v _ => τ v) ∈ s.pi fun v => range (card v) :=
      mem_pi.2 fun v hv => mem_range.2 (hτ.2 v hv)
    rw [sum_eq_zero_iff_of_nonneg] at hx
    · have := hx _ hmem
      convert this using 2
      funext v
      by_cases hv : v ∈ s
      · rw [dif_pos hv]
      · rw [dif_neg hv]; exact hτ.1 v hv
    · intro ρ hρ
      refine h0 _ ⟨fun v hv => by dsimp only; rw [dif_neg hv], fun v hv => ?_⟩
      dsimp only
      rw [dif_pos hv]
      exact mem_range.1 (mem_pi.1 hρ v hv)
  · intro h
    rw [sumOver_congr (G := fun _ => 0) h, sumOver_zero]

theorem Skew.sums {s s' : Finset Name} {P : Assign → Prop} {F G : Assign → ℚ} {σ τ : Assign}
    (h : Skew P u k F G) (h1 : ∀ ρ, Varies card s σ ρ → P ρ) (h2 : ∀ ρ, Varies card s' τ ρ → P ρ) :
    sumOver card s F σ * sumOver card s' G τ * (1 - u) ^ k ≤ sumOver card s' F τ * sumOver card s G σ := by
  rw [mul_assoc, ← sumOver_mul_const, ← sumOver_const_mul]
  refine sumOver_mono fun ρ hρ => ?_
  rw [← sumOver_mul_const, ← sumOver_const_mul, ← sumOver_mul_const]
  refine sumOver_mono fun ρ' hρ' => ?_
  rw [← mul_assoc]
  exact h.cross ρ ρ' (h1 ρ hρ) (h2 ρ' hρ')

theorem Skew.marginal {names Q : List Name} {F G : Assign → ℚ} (h : Skew (Legal card names) u k F G) :
    Skew (Legal card Q) u k (sumOver card (names.toFinset \ Q.toFinset) F)
      (sumOver card (names.toFinset \ Q.toFinset) G) := by
  have hl : ∀ σ, Legal card Q σ → ∀ τ, Varies card (names.toFinset \ Q.toFinset) σ τ → Legal card names τ :=
    fun σ hσ τ hτ => hτ.legal fun v hv hv' => hσ v (by simpa [hv] using hv')
  refine ⟨fun σ hσ => sumOver_nonneg fun τ hτ => h.left τ (hl σ hσ τ hτ),
    fun σ hσ => sumOver_nonneg fun τ hτ => h.right τ (hl σ hσ τ hτ), fun σ hσ => ?_,
    fun σ τ hσ hτ => h.sums (hl σ hσ) (hl τ hτ)⟩
  rw [sumOver_eq_zero fun τ hτ => h.left τ (hl σ hσ τ hτ), sumOver_eq_zero fun τ hτ => h.right τ (hl σ hσ τ hτ)]
  exact forall_congr' fun τ => forall_congr' fun hτ => h.zero τ (hl σ hσ τ hτ)

end

/-- the weights of two networks agree up to a common factor and `k` roundings -/
structure SkewNets (u : ℚ) (k : Nat) (bn' : BN) (ev' : Dict Evidence) (bn : BN) (ev : Dict Evidence) : Prop where
  names : bn'.names = bn.names
  card : bn'.card = bn.card
  weights : Skew (Legal bn.card bn.names) u k (weight bn' ev') (weight bn ev)

namespace SkewNets
variable {u : ℚ} {k : Nat} {bn bn' : BN} {ev ev' : Dict Evidence} {Q : List Name}

theorem total_zero (h : SkewNets u k bn' ev' bn ev) (σ : Assign) :
    totalWeight bn' ev' σ = 0 ↔ totalWeight bn ev σ = 0 := by
  have := (h.weights.marginal (Q := [])).zero σ (by simp [Legal])
  unfold totalWeight
  rw [h.names, h.card]
  simpa using this

theorem total_nonneg (h : SkewNets u k bn' ev' bn ev) (σ : Assign) :
    0 ≤ totalWeight bn' ev' σ ∧ 0 ≤ totalWeight bn ev σ := by
  have h1 := (h.weights.marginal (Q := [])).left σ (by simp [Legal])
  have h2 := (h.weights.marginal (Q := [])).right σ (by simp [Legal])
  unfold totalWeight
  rw [h.names, h.card]
  simpa using And.intro h1 h2

/-- posteriors are close, -/
theorem near (h : SkewNets u k bn' ev' bn ev) {σ : Assign}
    (hσ : Legal bn.card Q σ) : Near u k (posterior bn' ev' Q σ) (posterior bn ev Q σ) := by
  have hm := h.weights.marginal (Q := Q)
  have hl : ∀ τ, Varies bn.card (bn.names.toFinset \ Q.toFinset) σ τ → Legal bn.card bn.names τ :=
    fun τ hτ => hτ.legal fun v hv hv' => hσ v (by simpa [hv] using hv')
  have hl' : ∀ τ, Varies bn.card bn.names.toFinset σ τ → Legal bn.card bn.names τ :=
    fun τ hτ => hτ.legal fun v hv hv' => absurd (List.mem_toFinset.2 hv) hv'
  have hz := h.total_zero σ
  obtain ⟨g1, g2⟩ := h.total_nonneg σ
  have c1 := h.weights.sums hl hl'
  have c2 := h.weights.sums hl' hl
  have p1 := hm.left σ hσ
  have p2 := hm.right σ hσ
  unfold posterior
  dsimp only
  unfold totalWeight at g1 g2 hz ⊢
  rw [h.names, h.card] at g1 hz ⊢
  rcases g2.eq_or_lt with hg | hg
  · have hg' := hz.2 hg.symm
    rw [if_neg (by rw [hg']; exact lt_irrefl 0), if_neg (by rw [← hg]; exact lt_irrefl 0)]
    have hv : ∀ τ, Varies bn.card (bn.names.toFinset \ Q.toFinset) σ τ → Varies bn.card bn.names.toFinset σ τ :=
      fun τ hτ => ⟨fun v hn => hτ.1 v (by simp at hn ⊢; exact fun h => absurd h hn),
        fun v hn => hl τ hτ v (List.mem_toFinset.1 hn)⟩
    rw [sumOver_eq_zero fun τ hτ => h.weights.left τ (hl' τ hτ)] at hg'
    have hg := hg.symm
    rw [sumOver_eq_zero fun τ hτ => h.weights.right τ (hl' τ hτ)] at hg
    rw [(sumOver_eq_zero fun τ hτ => h.weights.left τ (hl τ hτ)).2 fun τ hτ => hg' τ (hv τ hτ),
      (sumOver_eq_zero fun τ hτ => h.weights.right τ (hl τ hτ)).2 fun τ hτ => hg τ (hv τ hτ)]
    simp [Near]
  · have hg' : 0 < sumOver bn.card bn.names.toFinset (weight bn' ev') σ := lt_of_le_of_ne g1 fun e => hg.ne' (hz.1 e.symm)
    rw [if_pos hg', if_pos hg]
    refine ⟨div_nonneg p2 hg.le, ?_, ?_⟩
    · rw [div_mul_eq_mul_div, div_le_div_iff₀ hg hg']
      linarith
    · rw [div_mul_eq_mul_div, div_le_div_iff₀ hg' hg]
      linarith

theorem skew (h : SkewNets u k bn' ev' bn ev) (hc : bn.Consistent) (hc' : bn'.Consistent)
    (he : LegalEvidence bn ev) (he' : LegalEvidence bn' ev') :
    Skew (Legal bn.card Q) u k (posterior bn' ev' Q) (posterior bn ev Q) := by
  have key : ∀ {b : BN} {e : Dict Evidence}, b.Consistent → LegalEvidence b e → ∃ c : ℚ, 0 < c ∧ ∀ σ,
      posterior b e Q σ = c * sumOver b.card (b.names.toFinset \ Q.toFinset) (weight b e) σ := by
    intro b e hb hbe
    by_cases hz : 0 < totalWeight b e fun _ => 0
    · refine ⟨(totalWeight b e fun _ => 0)⁻¹, inv_pos.2 hz, fun σ => ?_⟩
      unfold posterior
      dsimp only
      rw [totalWeight_const hb hbe σ fun _ => 0, if_pos hz, div_eq_inv_mul]
    · refine ⟨1, one_pos, fun σ => ?_⟩
      unfold posterior
      dsimp only
      rw [totalWeight_const hb hbe σ fun _ => 0, if_neg hz, one_mul]
  obtain ⟨c, c1, c2⟩ := key hc he
  obtain ⟨c', c1', c2'⟩ := key hc' he'
  have := (h.weights.marginal (Q := Q)).scale c1' c1
  refine this.congr (fun σ _ => ?_) fun σ _ => c2 σ
  rw [c2', h.names, h.card]

end SkewNets

/-- networks that differ in their tables only, and likelihoods -/
theorem skewNets {u : ℚ} (h0 : 0 ≤ u) (hu : u < 1) {bn bn' : BN} {ev ev' : Dict Evidence} (hb : bn'.names = bn.names)
    (hl : bn'.card = bn.card) (hnd : bn.names.Nodup) (he : LegalEvidence bn ev) (he' : LegalEvidence bn' ev') {κ : Name → Nat}
    (h : ∀ v ∈ bn.names, Skew (Legal bn.card bn.names) u (κ v)
      (fun ρ => entryOf bn' v ρ * likAt bn' ev' v (ρ v)) fun ρ => entryOf bn v ρ * likAt bn ev v (ρ v)) {k : Nat}
    (hk : (bn.names.map κ).sum ≤ k) : SkewNets u k bn' ev' bn ev := by
  refine ⟨hb, hl, ?_⟩
  refine ((Skew.prod hu h).congr (fun ρ _ => ?_) fun ρ _ => weight_eq_likAt hnd he ρ).mono h0 hu hk
  rw [weight_eq_likAt (by rw [hb]; exact hnd) he', hb]

end Primo
