import Verif.Lemmas.SoftEvidence

/-! # One distribution given as evidence: Jeffrey's rule -/

namespace Primo
open Finset

variable {bn : BN} {v : Name} {e : List ℚ}

theorem weight_softened (σ : Assign) (hσ : σ v < bn.card v) :
    weight bn (softened bn [(v, .soft e)]) σ = weight bn [] σ *
      (if priorAt bn v (σ v) = 0 then 0 else e.getD (σ v) 0 / priorAt bn v (σ v)) := by
  unfold weight softened
  simp only [List.map_cons, List.map_nil, List.prod_cons, List.prod_nil, mul_one]
  rw [lik_softened hσ]

theorem sum_getD (h : e.length = bn.card v) : ∑ i ∈ range (bn.card v), e.getD i 0 = e.sum := by
  rw [← sum_map_range, ← h]
  congr 1
  apply List.ext_getElem
  · simp
  · intro i h1 h2; simp [h2]

/-- sums over all nodes with one node split off -/
theorem sumOver_split (hv : v ∈ bn.names) {Q : List Name} (hq : v ∉ Q) (G : Assign → ℚ) (σ : Assign) :
    sumOver bn.card (bn.names.toFinset \ Q.toFinset) G σ = ∑ i ∈ range (bn.card v),
      sumOver bn.card (bn.names.toFinset \ (v :: Q).toFinset) G (Function.update σ v i) := by
  have : bn.names.toFinset \ Q.toFinset = insert v (bn.names.toFinset \ (v :: Q).toFinset) := by
    ext x
    by_cases hx : x = v <;> simp [hx, hv, hq]
  rw [this, sumOver_insert (by simp)]

theorem totalWeight_update (hv : v ∈ bn.names) (ev : Dict Evidence) (σ : Assign) (i : Nat) :
    totalWeight bn ev (Function.update σ v i) = totalWeight bn ev σ :=
  sumOver_congr_left fun x hx => by
    rw [Function.update_of_ne]
    rintro rfl
    exact hx (by simpa using hv)

theorem legal_nil : LegalEvidence bn [] := ⟨by simp [Dict.keys], by simp, by simp, by simp⟩

theorem posterior_dependsOn (hc : bn.Consistent) {ev : Dict Evidence} (he : LegalEvidence bn ev) :
    DependsOn {v} (posterior bn ev [v]) := by
  intro τ ρ h
  have hd := weight_dependsOn (ev := ev) hc he
  unfold posterior
  dsimp only
  have h1 : totalWeight bn ev τ = totalWeight bn ev ρ := by
    unfold totalWeight
    exact hd.sumOver τ ρ fun x hx => absurd hx (by simp)
  have h2 := hd.sumOver (s := bn.names.toFinset \ [v].toFinset) (card := bn.card) τ ρ fun x hx =>
    h x (by simp at hx ⊢; tauto)
  rw [h1, h2]

theorem priorAt_eq (hc : bn.Consistent) (σ : Assign) :
    priorAt bn v (σ v) = posterior bn [] [v] σ :=
  posterior_dependsOn hc legal_nil _ _ fun x hx => by rw [mem_singleton] at hx; rw [hx]

theorem total_pos_of_supported (hc : bn.Consistent) (hnn : bn.NonNeg) (hv : v ∈ bn.names)
    (hlen : e.length = bn.card v) (hsum : e.sum = 1)
    (hsupp : ∀ i < bn.card v, priorAt bn v i = 0 → e.getD i 0 = 0) (σ : Assign) :
    0 < totalWeight bn [] σ := by
  by_contra hcon
  have hn0 : NonNegEvidence [] := by intro v l h; simp at h
  have hM : ∀ τ, 0 ≤ sumOver bn.card (bn.names.toFinset \ [v].toFinset) (weight bn []) τ := fun τ =>
    sumOver_nonneg fun ρ _ => weight_nonneg hnn hn0 ρ
  have h1 : totalWeight bn [] σ = ∑ i ∈ range (bn.card v), sumOver bn.card
      (bn.names.toFinset \ [v].toFinset) (weight bn []) (Function.update σ v i) := by
    have := sumOver_split hv (Q := []) (by simp) (weight bn []) σ
    simpa [totalWeight] using this
  have h2 := (Finset.sum_eq_zero_iff_of_nonneg fun i _ => hM _).1
    (le_antisymm (h1 ▸ not_lt.1 hcon) (Finset.sum_nonneg fun i _ => hM _))
  have h3 : e.sum = 0 := by
    rw [← sum_getD hlen]
    refine Finset.sum_eq_zero fun i hi => hsupp i (mem_range.1 hi) ?_
    have := priorAt_eq (v := v) hc (Function.update σ v i)
    rw [Function.update_self] at this
    rw [this, posterior]
    rw [totalWeight_update hv, if_neg hcon, h2 i hi]
  rw [h3] at hsum
  exact absurd hsum (by norm_num)

/-- the marginal of `v`, not normalised -/
theorem marginal_eq (hc : bn.Consistent) {σ : Assign}
    (hZ : 0 < totalWeight bn [] σ) :
    sumOver bn.card (bn.names.toFinset \ [v].toFinset) (weight bn []) σ =
      priorAt bn v (σ v) * totalWeight bn [] σ := by
  rw [priorAt_eq hc, posterior]
  rw [if_pos hZ, div_mul_cancel₀ _ hZ.ne']

theorem marginal_softened {Q : List Name} (hq : v ∈ Q) {σ : Assign} (hσ : σ v < bn.card v) :
    sumOver bn.card (bn.names.toFinset \ Q.toFinset) (weight bn (softened bn [(v, .soft e)])) σ =
      sumOver bn.card (bn.names.toFinset \ Q.toFinset) (weight bn []) σ *
        (if priorAt bn v (σ v) = 0 then 0 else e.getD (σ v) 0 / priorAt bn v (σ v)) := by
  rw [sumOver_congr fun τ hτ => weight_softened τ (by rw [hτ.1 v (by simp [hq])]; exact hσ)]
  exact sumOver_mul_right (A := {v}) (G := fun τ => if priorAt bn v (τ v) = 0 then 0 else
    e.getD (τ v) 0 / priorAt bn v (τ v)) (fun τ ρ h => by dsimp only; rw [h v (by simp)]) (by simp [hq]) _ σ

theorem marginal_softened_self (hc : bn.Consistent) (hv : v ∈ bn.names)
    (hsupp : ∀ i < bn.card v, priorAt bn v i = 0 → e.getD i 0 = 0) {σ : Assign}
    (hZ : 0 < totalWeight bn [] σ) (hσ : σ v < bn.card v) :
    sumOver bn.card (bn.names.toFinset \ [v].toFinset) (weight bn (softened bn [(v, .soft e)])) σ =
      e.getD (σ v) 0 * totalWeight bn [] σ := by
  rw [marginal_softened (by simp) hσ, marginal_eq hc hZ]
  by_cases h : priorAt bn v (σ v) = 0
  · rw [if_pos h, hsupp _ hσ h]; ring
  · rw [if_neg h]; field_simp

theorem totalWeight_softened (hc : bn.Consistent) (hnn : bn.NonNeg) (hv : v ∈ bn.names)
    (hlen : e.length = bn.card v) (hsum : e.sum = 1)
    (hsupp : ∀ i < bn.card v, priorAt bn v i = 0 → e.getD i 0 = 0) (σ : Assign) :
    totalWeight bn (softened bn [(v, .soft e)]) σ = totalWeight bn [] σ := by
  have h1 := sumOver_split hv (Q := []) (by simp) (weight bn (softened bn [(v, .soft e)])) σ
  simp only [List.toFinset_nil, sdiff_empty] at h1
  have hZ := total_pos_of_supported hc hnn hv hlen hsum hsupp σ
  rw [totalWeight, h1, Finset.sum_congr rfl fun i hi => marginal_softened_self (e := e) hc hv hsupp
    (σ := Function.update σ v i) (by rw [totalWeight_update hv]; exact hZ)
    (by rw [Function.update_self]; exact mem_range.1 hi)]
  simp only [totalWeight_update hv, Function.update_self]
  rw [← Finset.sum_mul, sum_getD hlen, hsum, one_mul]

/-- the variable has the distribution given as evidence -/
theorem posterior_softened_self (hc : bn.Consistent) (hnn : bn.NonNeg) (hv : v ∈ bn.names)
    (hlen : e.length = bn.card v) (hsum : e.sum = 1)
    (hsupp : ∀ i < bn.card v, priorAt bn v i = 0 → e.getD i 0 = 0) {σ : Assign}
    (hσ : σ v < bn.card v) : posterior bn (softened bn [(v, .soft e)]) [v] σ = e.getD (σ v) 0 := by
  have hZ := total_pos_of_supported hc hnn hv hlen hsum hsupp σ
  rw [posterior]
  rw [totalWeight_softened hc hnn hv hlen hsum hsupp, if_pos hZ,
    marginal_softened_self hc hv hsupp hZ hσ, mul_div_assoc, div_self hZ.ne', mul_one]

/-- Jeffrey's rule -/
theorem posterior_softened (hc : bn.Consistent) (hnn : bn.NonNeg) (hv : v ∈ bn.names)
    (hlen : e.length = bn.card v) (hsum : e.sum = 1)
    (hsupp : ∀ i < bn.card v, priorAt bn v i = 0 → e.getD i 0 = 0) {Q : List Name} (hq : v ∉ Q)
    (σ : Assign) : posterior bn (softened bn [(v, .soft e)]) Q σ = ∑ i ∈ range (bn.card v),
      if priorAt bn v i = 0 then 0
      else e.getD i 0 * (posterior bn [] (v :: Q) (Function.update σ v i) / priorAt bn v i) := by
  have hZ := total_pos_of_supported hc hnn hv hlen hsum hsupp σ
  rw [posterior]
  rw [totalWeight_softened hc hnn hv hlen hsum hsupp, if_pos hZ, sumOver_split hv hq, div_eq_mul_inv, Finset.sum_mul]
  refine Finset.sum_congr rfl fun i hi => ?_
  rw [marginal_softened (by simp) (by rw [Function.update_self]; exact mem_range.1 hi),
    Function.update_self]
  split
  · simp
  · rw [posterior]
    rw [totalWeight_update hv, if_pos hZ]
    ring

end Primo
