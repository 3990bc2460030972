import Verif.Spec.Utility
import Verif.Lemmas.Sensitive
import Verif.Lemmas.Strategy

/-! # Decision networks with similar utilities or tables -/

namespace Primo
open Finset
variable {dn dn' : BN}

theorem legal_all {card : Name → Nat} {vs : List Name} {τ : Assign}
    (h : Varies card vs.toFinset (fun _ => 0) τ) : Legal card vs τ := fun v hv => h.2 v (by simpa using hv)

/-- utility nodes are neither chance nor decision nodes -/
theorem utils_not_chance (hc : DNConsistent dn) {n : NodeV} (hn : n ∈ dn.utils) : n.name ∉ dn.chance.names := by
  intro h
  obtain ⟨m, hm, e⟩ := BN.exists_of_mem_names h
  have h1 := mem_chance.1 hm
  have h2 : n ∈ dn ∧ n.kind = .utility := by simpa [BN.utils] using hn
  have := List.inj_on_of_nodup_map hc.nodup h1.1 h2.1 e
  subst this
  exact h1.2 h2.2

theorem decide_keeps (hc : DNConsistent dn) {D : Dict Val} (hD : ∀ v ∈ D.keys, v ∈ dn.chance.names) :
    ∀ n ∈ dn.utils, decideCpd D n = n.cpd := by
  intro n hn
  unfold decideCpd
  cases h : D.get? n.name with
  | none => rfl
  | some x => exact absurd (hD _ (Dict.get?_isSome.1 ⟨x, h⟩)) (utils_not_chance hc hn)

theorem mix_keeps (hc : DNConsistent dn) {F : Dict Val} {o : List Name} (ho : ∀ v ∈ o, v ∈ dn.chance.names) :
    ∀ n ∈ dn.utils, mixCpd F o n = n.cpd := by
  intro n hn
  unfold mixCpd
  rw [if_neg fun h => utils_not_chance hc hn (ho _ h)]

theorem LegalDecisions.keys {D : Dict Val} (h : LegalDecisions dn D) :
    ∀ v ∈ D.keys, v ∈ dn.chance.names := by
  intro v hv
  obtain ⟨p, hp, rfl⟩ := List.mem_map.1 hv
  obtain ⟨n, hn, e, hk, -⟩ := h.legal p hp
  exact List.mem_map.2 ⟨n, mem_chance.2 ⟨hn, by rw [hk]; decide⟩, e⟩

theorem LegalDecisions.of_chance {D : Dict Val} (h : LegalDecisions dn D) (e : dn'.chance = dn.chance) :
    LegalDecisions dn' D := by
  refine ⟨h.nodup, fun p hp => ?_⟩
  obtain ⟨n, hn, e1, hk, hx⟩ := h.legal p hp
  have : n ∈ dn'.chance := by rw [e]; exact mem_chance.2 ⟨hn, by rw [hk]; decide⟩
  exact ⟨n, (mem_chance.1 this).1, e1, hk, hx⟩

theorem FreeOrder.of_chance {o : List Name} (h : FreeOrder dn o) (e : dn'.chance = dn.chance) :
    FreeOrder dn' o := by
  intro v hv
  obtain ⟨d, hd, e1, hf⟩ := h v hv
  have : d ∈ dn'.chance := by rw [e]; exact mem_chance.2 ⟨hd, by rw [hf.kind]; decide⟩
  exact ⟨d, (mem_chance.1 this).1, e1, hf⟩

theorem FreeOrder.names {o : List Name} (h : FreeOrder dn o) : ∀ v ∈ o, v ∈ dn.chance.names := by
  intro v hv
  obtain ⟨d, hd, e, hf⟩ := h v hv
  exact List.mem_map.2 ⟨d, mem_chance.2 ⟨hd, by rw [hf.kind]; decide⟩, e⟩

/-- installing rules for chance and decision nodes changes both networks alike -/
theorem AffineUtility.recpd {a b : ℚ} (h : AffineUtility dn dn' a b) {c : NodeV → NDArray}
    (hu : ∀ n ∈ dn.utils, c n = n.cpd) (hu' : ∀ n ∈ dn'.utils, c n = n.cpd) :
    AffineUtility (dn.recpd c) (dn'.recpd c) a b := by
  refine ⟨by rw [recpd_chance, recpd_chance, h.chance], fun σ hσ => ?_⟩
  rw [recpd_chance, recpd_names, recpd_card] at hσ
  rw [recpd_utility hu, recpd_utility hu', h.utility σ hσ]

theorem UtilityWithin.recpd {ε : ℚ} (h : UtilityWithin dn dn' ε) {c : NodeV → NDArray}
    (hu : ∀ n ∈ dn.utils, c n = n.cpd) (hu' : ∀ n ∈ dn'.utils, c n = n.cpd) :
    UtilityWithin (dn.recpd c) (dn'.recpd c) ε := by
  refine ⟨by rw [recpd_chance, recpd_chance, h.chance], fun σ hσ => ?_⟩
  rw [recpd_chance, recpd_names, recpd_card] at hσ
  rw [recpd_utility hu, recpd_utility hu']
  exact h.utility σ hσ

theorem AffineUtility.mass {a b : ℚ} (h : AffineUtility dn dn' a b) : mass dn' = Primo.mass dn := by
  unfold Primo.mass
  rw [h.chance]

theorem AffineUtility.utilityMass {a b : ℚ} (h : AffineUtility dn dn' a b) :
    utilityMass dn' = a * Primo.utilityMass dn + b * Primo.mass dn := by
  unfold Primo.utilityMass Primo.mass
  rw [h.chance, ← sumOver_const_mul, ← sumOver_const_mul, ← sumOver_add]
  refine sumOver_congr fun τ hτ => ?_
  rw [h.utility τ (legal_all hτ)]
  ring

theorem UtilityWithin.mass {ε : ℚ} (h : UtilityWithin dn dn' ε) : mass dn' = Primo.mass dn := by
  unfold Primo.mass
  rw [h.chance]

theorem joint_nonneg' (hn : dn.NonNeg) (τ : Assign) : 0 ≤ joint dn τ := by
  have := weight_nonneg hn (ev := []) (by simp [NonNegEvidence]) τ
  rwa [weight_nil] at this

theorem sumOver_abs_le {card : Name → Nat} {s : Finset Name} {F G : Assign → ℚ} {σ : Assign}
    (h : ∀ τ, Varies card s σ τ → |F τ| ≤ G τ) : |sumOver card s F σ| ≤ sumOver card s G σ := by
  rw [abs_le]
  refine ⟨?_, sumOver_mono fun τ hτ => (abs_le.1 (h τ hτ)).2⟩
  have h1 : sumOver card s (fun τ => (-1) * G τ) σ ≤ sumOver card s F σ :=
    sumOver_mono fun τ hτ => by have := (abs_le.1 (h τ hτ)).1; linarith
  rw [sumOver_const_mul] at h1
  linarith

theorem UtilityWithin.utilityMass {ε : ℚ} (h : UtilityWithin dn dn' ε) (hn : dn.chance.NonNeg) :
    |utilityMass dn' - Primo.utilityMass dn| ≤ ε * Primo.mass dn := by
  unfold Primo.utilityMass Primo.mass
  rw [h.chance, ← sumOver_sub, ← sumOver_const_mul]
  refine sumOver_abs_le fun τ hτ => ?_
  rw [← mul_sub, abs_mul, abs_of_nonneg (joint_nonneg' hn τ), mul_comm]
  exact mul_le_mul_of_nonneg_right (h.utility τ (legal_all hτ)) (joint_nonneg' hn τ)

/-! ### close tables -/

/-- the product of the tables is within the products of the factors -/
theorem TablesWithin.joint {bn bn' : BN} (hc : bn.Consistent) (hc' : bn'.Consistent) (hn : bn.NonNeg)
    {lo hi : Name → ℚ} (ht : TablesWithin bn bn' lo hi) :
    ∃ A B, 0 < A ∧ 0 ≤ B ∧ B / A = slack bn.names lo hi ∧ bn'.names.toFinset = bn.names.toFinset ∧
      (∀ v ∈ bn.names, bn'.card v = bn.card v) ∧
      ∀ ρ, Legal bn.card bn.names ρ → A * joint bn ρ ≤ Primo.joint bn' ρ ∧ Primo.joint bn' ρ ≤ B * Primo.joint bn ρ := by
  obtain ⟨A, B, h, hK⟩ := ht.weights (ev := []) (ev' := []) hc hc' hn ⟨by simp [Dict.keys], by simp, by simp, by simp⟩ (by simp [NonNegEvidence])
    ⟨by simp [Dict.keys], by simp, by simp, by simp⟩ (lo' := fun _ => 1) (hi' := fun _ => 1)
    fun v _ => ⟨one_pos, le_rfl, fun i _ => by simp [likAt, Dict.get?]⟩
  refine ⟨A, B, h.pos, h.nonneg, by rw [hK, slack_one, mul_one], h.names.symm, h.card, fun ρ hρ => ?_⟩
  have := h.weights ρ hρ
  rwa [weight_nil, weight_nil] at this

/-- Expected utilities for close tables, `K` being the product of the ratios. -/
theorem close_expected (hc : dn.chance.Consistent) (hc' : dn'.chance.Consistent) (hn : dn.chance.NonNeg)
    {lo hi : Name → ℚ} (ht : TablesWithin dn.chance dn'.chance lo hi)
    (hu : SameUtility dn dn') :
    (mass dn' = 0 ↔ mass dn = 0) ∧ (mass dn ≠ 0 →
      ((∀ σ, Legal dn.chance.card dn.chance.names σ → 0 ≤ totalUtility dn σ) →
        utilityMass dn' / mass dn' ≤ slack dn.chance.names lo hi * (utilityMass dn / mass dn) ∧
        utilityMass dn / mass dn ≤ slack dn.chance.names lo hi * (utilityMass dn' / mass dn')) ∧
      ∀ M, (∀ σ, Legal dn.chance.card dn.chance.names σ → |totalUtility dn σ| ≤ M) →
        |utilityMass dn' / mass dn' - utilityMass dn / mass dn| ≤ (slack dn.chance.names lo hi - 1) * M) := by
  obtain ⟨A, B, hA, hB, hK, hnames, hcard, hj⟩ := ht.joint hc hc' hn
  rw [← hK]
  have hm' : mass dn' = sumOver dn.chance.card dn.chance.names.toFinset (joint dn'.chance) fun _ => 0 := by
    unfold mass
    rw [hnames]
    rw [sumOver_card_eq (s := dn.chance.names.toFinset) fun v hv => hcard v (by simpa using hv)]
  have hu' : utilityMass dn' = sumOver dn.chance.card dn.chance.names.toFinset
      (fun τ => joint dn'.chance τ * totalUtility dn τ) fun _ => 0 := by
    unfold utilityMass
    rw [hnames, sumOver_card_eq (card := dn'.chance.card) (card' := dn.chance.card)
      (s := dn.chance.names.toFinset) fun v hv => hcard v (by simpa using hv)]
    exact sumOver_congr fun τ hτ => by rw [hu τ (legal_all hτ)]
  have hJ := fun τ => joint_nonneg' hn τ
  have m0 : 0 ≤ mass dn := sumOver_nonneg fun τ _ => hJ τ
  have mA : A * mass dn ≤ mass dn' := by
    rw [hm', mass, ← sumOver_const_mul]
    exact sumOver_mono fun τ hτ => (hj τ (legal_all hτ)).1
  have mB : mass dn' ≤ B * mass dn := by
    rw [hm', mass, ← sumOver_const_mul]
    exact sumOver_mono fun τ hτ => (hj τ (legal_all hτ)).2
  refine ⟨⟨fun h => ?_, fun h => ?_⟩, fun hne => ⟨fun hpos => ?_, fun M hM => ?_⟩⟩
  · rw [h] at mA
    by_contra hne
    have := mul_pos hA (lt_of_le_of_ne m0 (Ne.symm hne))
    linarith
  · rw [h, mul_zero] at mA mB
    linarith
  · have mp : 0 < mass dn := lt_of_le_of_ne m0 (Ne.symm hne)
    have mp' : 0 < mass dn' := (mul_pos hA mp).trans_le mA
    have uA : A * utilityMass dn ≤ utilityMass dn' := by
      rw [hu', utilityMass, ← sumOver_const_mul]
      refine sumOver_mono fun τ hτ => ?_
      rw [← mul_assoc]
      exact mul_le_mul_of_nonneg_right (hj τ (legal_all hτ)).1 (hpos τ (legal_all hτ))
    have uB : utilityMass dn' ≤ B * utilityMass dn := by
      rw [hu', utilityMass, ← sumOver_const_mul]
      refine sumOver_mono fun τ hτ => ?_
      rw [← mul_assoc]
      exact mul_le_mul_of_nonneg_right (hj τ (legal_all hτ)).2 (hpos τ (legal_all hτ))
    have u0 : 0 ≤ utilityMass dn := sumOver_nonneg fun τ hτ => mul_nonneg (hJ τ) (hpos τ (legal_all hτ))
    have u0' : 0 ≤ utilityMass dn' := (mul_nonneg hA.le u0).trans uA
    constructor
    · rw [div_mul_div_comm, div_le_div_iff₀ mp' (mul_pos hA mp)]
      calc utilityMass dn' * (A * mass dn) ≤ utilityMass dn' * mass dn' := mul_le_mul_of_nonneg_left mA u0'
        _ ≤ _ := mul_le_mul_of_nonneg_right uB mp'.le
    · rw [div_mul_div_comm, div_le_div_iff₀ mp (mul_pos hA mp')]
      calc utilityMass dn * (A * mass dn') = (A * utilityMass dn) * mass dn' := by ring
        _ ≤ utilityMass dn' * mass dn' := mul_le_mul_of_nonneg_right uA mp'.le
        _ ≤ utilityMass dn' * (B * mass dn) := mul_le_mul_of_nonneg_left mB u0'
        _ = _ := by ring
  · have mp : 0 < mass dn := lt_of_le_of_ne m0 (Ne.symm hne)
    have mp' : 0 < mass dn' := (mul_pos hA mp).trans_le mA
    have hAB : A ≤ B := le_of_mul_le_mul_right (mA.trans mB) mp
    have hK1 : 1 ≤ B / A := by rw [le_div_iff₀ hA, one_mul]; exact hAB
    have e1 : utilityMass dn' / mass dn' - utilityMass dn / mass dn =
        sumOver dn.chance.card dn.chance.names.toFinset (fun τ =>
          (joint dn'.chance τ / mass dn' - joint dn.chance τ / mass dn) * totalUtility dn τ) fun _ => 0 := by
      rw [hu', utilityMass, ← sumOver_div_const, ← sumOver_div_const, ← sumOver_sub]
      exact sumOver_congr fun τ _ => by ring
    have e2 : (B / A - 1) * M = sumOver dn.chance.card dn.chance.names.toFinset (fun τ =>
        (B / A - 1) * M / mass dn * joint dn.chance τ) fun _ => 0 := by
      rw [sumOver_const_mul, ← mass, div_mul_cancel₀ _ hne]
    rw [e1, e2]
    refine sumOver_abs_le fun τ hτ => ?_
    obtain ⟨j1, j2⟩ := hj τ (legal_all hτ)
    have hj0 := hJ τ
    have hq : |joint dn'.chance τ / mass dn' - joint dn.chance τ / mass dn| ≤
        (B / A - 1) * (joint dn.chance τ / mass dn) := by
      have p0 : 0 ≤ joint dn.chance τ / mass dn := div_nonneg hj0 mp.le
      have p0' : 0 ≤ joint dn'.chance τ / mass dn' := div_nonneg ((mul_nonneg hA.le hj0).trans j1) mp'.le
      have k1 : joint dn'.chance τ / mass dn' ≤ B / A * (joint dn.chance τ / mass dn) := by
        rw [div_mul_div_comm, div_le_div_iff₀ mp' (mul_pos hA mp)]
        calc joint dn'.chance τ * (A * mass dn) ≤ joint dn'.chance τ * mass dn' :=
              mul_le_mul_of_nonneg_left mA ((mul_nonneg hA.le hj0).trans j1)
          _ ≤ _ := mul_le_mul_of_nonneg_right j2 mp'.le
      have k2 : joint dn.chance τ / mass dn ≤ B / A * (joint dn'.chance τ / mass dn') := by
        rw [div_mul_div_comm, div_le_div_iff₀ mp (mul_pos hA mp')]
        calc joint dn.chance τ * (A * mass dn') = (A * joint dn.chance τ) * mass dn' := by ring
          _ ≤ joint dn'.chance τ * mass dn' := mul_le_mul_of_nonneg_right j1 mp'.le
          _ ≤ joint dn'.chance τ * (B * mass dn) :=
              mul_le_mul_of_nonneg_left mB ((mul_nonneg hA.le hj0).trans j1)
          _ = _ := by ring
      generalize joint dn.chance τ / mass dn = x at *
      generalize joint dn'.chance τ / mass dn' = y at *
      generalize B / A = K at *
      rw [abs_le]
      constructor
      · by_cases hxy : x ≤ y
        · nlinarith
        · have : K * y - y ≤ (K - 1) * x := by nlinarith
          linarith
      · linarith
    rw [abs_mul]
    calc _ ≤ (B / A - 1) * (joint dn.chance τ / mass dn) * M :=
          mul_le_mul hq (hM τ (legal_all hτ)) (abs_nonneg _) (mul_nonneg (by linarith) (div_nonneg hj0 mp.le))
      _ = _ := by ring

end Primo
