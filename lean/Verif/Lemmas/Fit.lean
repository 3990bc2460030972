import Verif.Spec.Fit
import Verif.Lemmas.Complete

/-! # Bayes' rule for the posterior -/

namespace Primo
open Finset
variable {bn : BN}

theorem evLik_dependsOn (ev : Dict Evidence) : DependsOn ev.keys.toFinset (evLik bn ev) := by
  intro σ τ h
  unfold evLik
  congr 1
  refine List.map_congr_left fun p hp => ?_
  rw [h p.1 (List.mem_toFinset.2 (List.mem_map_of_mem (f := Prod.fst) hp))]

theorem evLik_nonneg {ev : Dict Evidence} (h : NonNegEvidence ev) (σ : Assign) : 0 ≤ evLik bn ev σ := by
  refine list_prod_nonneg fun x hx => ?_
  obtain ⟨p, hp, rfl⟩ := List.mem_map.1 hx
  exact lik_nonneg (fun l hl => h p.1 l (by rw [← hl]; exact hp)) _

theorem NonNegEvidence.left {ev ev' : Dict Evidence} (h : NonNegEvidence (ev ++ ev')) : NonNegEvidence ev :=
  fun v l hv => h v l (List.mem_append_left _ hv)

theorem LegalEvidence.keys_mem {ev : Dict Evidence} (h : LegalEvidence bn ev) {v : Name} (hv : v ∈ ev.keys) :
    v ∈ bn.names := by
  obtain ⟨p, hp, rfl⟩ := List.mem_map.1 hv
  exact h.mem p hp

/-- more evidence: multiply with the likelihoods, divide by the probability of the new evidence -/
theorem posterior_update (hc : bn.Consistent) (hn : bn.NonNeg) {ev ev' : Dict Evidence}
    (he : LegalEvidence bn (ev ++ ev')) (hen : NonNegEvidence (ev ++ ev')) {Q : List Name}
    (hQ : ∀ v ∈ Q, v ∈ bn.names) (hk : ∀ v ∈ ev'.keys, v ∈ Q) {σ : Assign} (hσ : Legal bn.card Q σ) :
    posterior bn (ev ++ ev') Q σ *
        sumOver bn.card ev'.keys.toFinset (fun τ => evLik bn ev' τ * posterior bn ev ev'.keys τ) σ =
      evLik bn ev' σ * posterior bn ev Q σ := by
  have he1 := he.append_left
  have hw : weight bn (ev ++ ev') = fun τ => evLik bn ev' τ * weight bn ev τ := by
    funext τ; exact weight_append_mul bn ev ev' τ
  have hlam := evLik_dependsOn (bn := bn) ev'
  have hM : sumOver bn.card (bn.names.toFinset \ Q.toFinset) (weight bn (ev ++ ev')) σ =
      evLik bn ev' σ * sumOver bn.card (bn.names.toFinset \ Q.toFinset) (weight bn ev) σ := by
    rw [hw]
    refine sumOver_mul_left hlam ?_ _ σ
    exact disjoint_left.2 fun v h1 h2 => (mem_sdiff.1 h2).2 (by simpa using hk v (by simpa using h1))
  have hZ : totalWeight bn (ev ++ ev') σ = sumOver bn.card ev'.keys.toFinset (fun τ => evLik bn ev' τ *
      sumOver bn.card (bn.names.toFinset \ ev'.keys.toFinset) (weight bn ev) τ) σ := by
    rw [totalWeight_split fun v hv => hQ v (hk v hv), hw]
    exact sumOver_congr fun τ _ => sumOver_mul_left hlam disjoint_sdiff _ τ
  have hZ0 : 0 ≤ totalWeight bn ev σ := sumOver_nonneg fun τ _ => weight_nonneg hn hen.left τ
  rcases hZ0.lt_or_eq with h0 | h0
  · have hK : sumOver bn.card ev'.keys.toFinset (fun τ => evLik bn ev' τ * posterior bn ev ev'.keys τ) σ =
        totalWeight bn (ev ++ ev') σ / totalWeight bn ev σ := by
      rw [hZ, ← sumOver_div_const]
      refine sumOver_congr fun τ _ => ?_
      unfold posterior
      simp only
      rw [totalWeight_const hc he1 τ σ, if_pos h0, mul_div_assoc]
    rw [hK]
    have hZ'0 : 0 ≤ totalWeight bn (ev ++ ev') σ := sumOver_nonneg fun τ _ => weight_nonneg hn hen τ
    rcases hZ'0.lt_or_eq with h1 | h1
    · unfold posterior
      simp only
      rw [if_pos h0, if_pos h1, hM]
      field_simp
    · have hz := posterior_eq_zero hn hen hQ hσ h1.symm
      have : sumOver bn.card (bn.names.toFinset \ Q.toFinset) (weight bn (ev ++ ev')) σ = 0 := by
        unfold posterior at hz
        simpa [← h1] using hz
      rw [hz, zero_mul]
      unfold posterior
      simp only
      rw [if_pos h0, ← mul_div_assoc, ← hM, this, zero_div]
  · rw [posterior_eq_zero hn hen.left hQ hσ h0.symm, mul_zero]
    refine mul_eq_zero_of_right _ ?_
    rw [sumOver_congr (G := fun _ => 0) fun τ hτ => ?_, sumOver_zero]
    rw [posterior_eq_zero hn hen.left (fun v hv => hQ v (hk v hv)) (fun v hv => hτ.2 v (by simpa using hv))
      (by rw [totalWeight_const hc he1 τ σ, ← h0]), mul_zero]

/-- a variable whose outcome is known adds nothing to a query -/
theorem posterior_observed (hc : bn.Consistent) {ev : Dict Evidence} (he : LegalEvidence bn ev) {v : Name}
    {x : Val} (hx : (v, Evidence.hard x) ∈ ev) {Q : List Name} (hQ : ∀ u ∈ Q, u ∈ bn.names) (hv : v ∉ Q)
    (σ : Assign) (i : Nat) : posterior bn ev (v :: Q) (Function.update σ v i) =
      if i = (bn.lab v).idxOf x then posterior bn ev Q σ else 0 := by
  have hvn : v ∈ bn.names := he.mem _ hx
  have hxl := he.hard v x hx
  have hzero : ∀ j, j ≠ (bn.lab v).idxOf x → posterior bn ev (v :: Q) (Function.update σ v j) = 0 := by
    intro j hj
    have : sumOver bn.card (bn.names.toFinset \ (v :: Q).toFinset) (weight bn ev) (Function.update σ v j) = 0 := by
      rw [sumOver_congr (G := fun _ => 0) fun τ hτ => ?_, sumOver_zero]
      have h1 : τ v = j := by rw [hτ.1 v (by simp)]; simp
      unfold weight
      refine mul_eq_zero_of_right _ (List.prod_eq_zero (List.mem_map.2 ⟨_, hx, ?_⟩))
      simp only [lik_hard hxl, h1, if_neg hj]
    unfold posterior
    simp only
    rw [this, zero_div, ite_self]
  split
  · rename_i hi
    have hsum := posterior_sumOut hc he (Q := v :: Q) (S := Q)
      (by simpa using ⟨hvn, hQ⟩) (fun u hu => List.mem_cons_of_mem _ hu) σ
    have hset : (v :: Q).toFinset \ Q.toFinset = {v} := by
      ext u
      simp only [List.toFinset_cons, mem_sdiff, mem_insert, List.mem_toFinset, mem_singleton]
      constructor
      · rintro ⟨h | h, h'⟩
        · exact h
        · exact absurd h h'
      · rintro rfl; exact ⟨.inl rfl, hv⟩
    rw [hset, sumOver_singleton, sum_eq_single i] at hsum
    · exact hsum
    · intro j _ hj
      exact hzero j (by rw [← hi]; exact hj)
    · intro h
      exact absurd (by rw [mem_range, hi]; exact List.idxOf_lt_length_of_mem hxl) h
  · rename_i hi
    exact hzero i hi

end Primo
