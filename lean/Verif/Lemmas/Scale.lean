import Verif.Lemmas.Fit

/-! # Evidence up to scale -/

namespace Primo
open Finset
variable {bn : BN}

theorem weight_eq_likAt (hn : bn.names.Nodup) {ev : Dict Evidence} (he : LegalEvidence bn ev) (σ : Assign) :
    weight bn ev σ = (bn.names.map fun v => entryOf bn v σ * likAt bn ev v (σ v)).prod :=
  weight_eq_prod hn he σ

/-- the posterior is not affected by a positive factor -/
theorem posterior_of_scaled (hn : bn.NonNeg) {ev ev' : Dict Evidence}
    (hen : NonNegEvidence ev) {c : ℚ} (h0 : 0 < c)
    (hw : ∀ ρ, Legal bn.card bn.names ρ → weight bn ev' ρ = c * weight bn ev ρ) {Q : List Name}
    (hQ : ∀ v ∈ Q, v ∈ bn.names) {σ : Assign} (hσ : Legal bn.card Q σ) :
    posterior bn ev Q σ = posterior bn ev' Q σ := by
  have h1 : sumOver bn.card (bn.names.toFinset \ Q.toFinset) (weight bn ev') σ =
      c * sumOver bn.card (bn.names.toFinset \ Q.toFinset) (weight bn ev) σ := by
    rw [← sumOver_const_mul]
    refine sumOver_congr fun τ hτ => hw τ (hτ.legal fun v hv hv' => hσ v ?_)
    simpa [hv] using hv'
  have h2 : totalWeight bn ev' σ = c * totalWeight bn ev σ := by
    unfold totalWeight
    rw [← sumOver_const_mul]
    exact sumOver_congr fun τ hτ => hw τ (hτ.legal fun v hv hv' => absurd (by simpa using hv) hv')
  have hZ : 0 ≤ totalWeight bn ev σ := sumOver_nonneg fun τ _ => weight_nonneg hn hen τ
  rcases hZ.lt_or_eq with h | h
  · unfold posterior
    simp only
    rw [h1, h2, if_pos h, if_pos (mul_pos h0 h), mul_div_mul_left _ _ h0.ne']
  · have hz := posterior_eq_zero hn hen hQ hσ h.symm
    rw [hz]
    unfold posterior at hz ⊢
    simp only at hz ⊢
    rw [← h, if_neg (lt_irrefl _)] at hz
    rw [h1, hz, mul_zero, zero_div, ite_self]

theorem SameUpToScale.weight (hn : bn.names.Nodup) {ev ev' : Dict Evidence} (he : LegalEvidence bn ev)
    (he' : LegalEvidence bn ev') (h : SameUpToScale bn ev ev') :
    ∃ c : ℚ, 0 < c ∧ ∀ ρ, Legal bn.card bn.names ρ → weight bn ev' ρ = c * weight bn ev ρ := by
  have h' : ∀ v, ∃ c : ℚ, 0 < c ∧ (v ∈ bn.names → ∀ i < bn.card v, likAt bn ev' v i = c * likAt bn ev v i) := by
    intro v
    by_cases hv : v ∈ bn.names
    · obtain ⟨c, c1, c2⟩ := h v hv
      exact ⟨c, c1, fun _ => c2⟩
    · exact ⟨1, one_pos, fun h => absurd h hv⟩
  choose c c1 c2 using h'
  refine ⟨(bn.names.map c).prod, List.prod_pos fun x hx => ?_, fun ρ hρ => ?_⟩
  · obtain ⟨v, -, rfl⟩ := List.mem_map.1 hx
    exact c1 v
  · rw [weight_eq_likAt hn he, weight_eq_likAt hn he', ← List.prod_map_mul]
    congr 1
    refine List.map_congr_left fun v hv => ?_
    rw [c2 v hv _ (hρ v hv)]
    ring

theorem likAt_of_bare {bn' : BN} (hb : bn'.bare = bn.bare) (ev : Dict Evidence) :
    likAt bn' ev = likAt bn ev := by
  funext v i
  unfold likAt
  rw [BN.lab_of_bare hb]

/-- the same graph with uniform tables -/
def BN.flat (bn : BN) : BN := bn.retable fun v _ => 1 / bn.card v

theorem flat_entryOf (hc : bn.Consistent) {v : Name} (hv : v ∈ bn.names) {σ : Assign}
    (hσ : Legal bn.card bn.names σ) : entryOf bn.flat v σ = 1 / bn.card v :=
  BN.retable_entryOf hc (fun _ _ => fun _ _ _ => rfl) hv hσ

/-- with uniform tables the answer about one variable is its likelihood, normalised -/
theorem flat_posterior (hc : bn.Consistent) {ev : Dict Evidence} (he : LegalEvidence bn.flat ev)
    {v : Name} (hv : v ∈ bn.names) {σ : Assign} (hZ : 0 < totalWeight bn.flat ev σ) :
    ∃ k : ℚ, ∀ i < bn.card v, posterior bn.flat ev [v] (Function.update σ v i) = k * likAt bn ev v i := by
  have hb : bn.flat.bare = bn.bare := BN.retable_bare bn _
  have hnames := BN.names_of_bare hb
  have hcard := BN.card_of_bare hb
  have hcf : bn.flat.Consistent := BN.retable_consistent hc
  have hn := hc.nodup
  set B : Assign → ℚ := fun τ => ((bn.names.erase v).map fun w => 1 / (bn.card w : ℚ) * likAt bn ev w (τ w)).prod
    with hB
  have hw : ∀ ρ, Legal bn.card bn.names ρ →
      weight bn.flat ev ρ = (1 / (bn.card v : ℚ) * likAt bn ev v (ρ v)) * B ρ := by
    intro ρ hρ
    rw [weight_eq_likAt hcf.nodup he, hnames, likAt_of_bare hb,
      ((List.perm_cons_erase hv).map _).prod_eq, List.map_cons, List.prod_cons, flat_entryOf hc hv hρ]
    congr 2
    refine List.map_congr_left fun w hw => ?_
    rw [flat_entryOf hc (List.mem_of_mem_erase hw) hρ]
  have hBd : DependsOn (bn.names.toFinset \ {v}) B := by
    intro σ τ h
    simp only [hB]
    congr 1
    refine List.map_congr_left fun w hw => ?_
    have := (hn.mem_erase_iff).1 hw
    rw [h w (by simp [this.1, this.2])]
  refine ⟨1 / (bn.card v : ℚ) * sumOver bn.card (bn.names.toFinset \ {v}) B σ / totalWeight bn.flat ev σ,
    fun i hi => ?_⟩
  have hM : sumOver bn.card (bn.names.toFinset \ {v}) (weight bn.flat ev) (Function.update σ v i) =
      (1 / (bn.card v : ℚ) * likAt bn ev v i) * sumOver bn.card (bn.names.toFinset \ {v}) B σ := by
    have h1 : sumOver bn.card (bn.names.toFinset \ {v}) B σ =
        sumOver bn.card (bn.names.toFinset \ {v}) B (Function.update σ v i) :=
      hBd.sumOver σ _ (by simp)
    rw [h1, ← sumOver_const_mul]
    refine sumOver_congr fun τ hτ => ?_
    have hτv : τ v = i := by rw [hτ.1 v (by simp)]; simp
    rw [hw τ (hτ.legal fun w hw hw' => ?_), hτv]
    have : w = v := by simpa [hw] using hw'
    subst this
    simpa using hi
  unfold posterior
  simp only
  rw [totalWeight_const hcf he (Function.update σ v i) σ, if_pos hZ, hnames, hcard]
  have : ([v] : List Name).toFinset = {v} := by simp
  rw [this, hM]
  ring

end Primo
