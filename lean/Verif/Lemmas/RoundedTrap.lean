import Verif.Lemmas.RoundedForward
import Verif.Examples.RoundedSampling
import Verif.Props.Rounded

/-! # The first outcome of the roulette wheel, and a network where it is a trap for Gibbs sampling -/

namespace Primo
open Finset Markov

variable {N : Nat}

theorem Arith.exact_zero : Arith.exact.Accurate 0 := Arith.exact_accurate le_rfl one_pos

theorem zeroNet_weights_a (σ : Assign) : siteWeightsR Arith.exact Ex.zeroNet Ex.za σ =
    [0 * Ex.zb.cpd.get [σ "b", 0], 1 * Ex.zb.cpd.get [σ "b", 1]] := rfl

theorem zeroNet_weights_b (σ : Assign) : siteWeightsR Arith.exact Ex.zeroNet Ex.zb σ =
    [Ex.zb.cpd.get [0, σ "a"], Ex.zb.cpd.get [1, σ "a"]] := rfl

/-- the first node is put into its first outcome, whatever its weight, if the random number is 0 -/
theorem zeroNet_first (hN : 0 < N) (σ : Assign) :
    1 / (N : ℝ) ≤ gibbsKR Arith.exact N Ex.zeroNet Ex.za σ 0 := by
  unfold gibbsKR
  refine div_le_div_of_nonneg_right ?_ (Nat.cast_nonneg _)
  have : 0 < #((range N).filter fun k : ℕ => stopR Arith.exact (siteWeightsR Arith.exact Ex.zeroNet Ex.za σ) 0
      (Arith.exact.mul ((k : ℚ) / N) ((siteWeightsR Arith.exact Ex.zeroNet Ex.za σ).foldl
        Arith.exact.add 0)) = 0) := by
    refine card_pos.2 ⟨0, mem_filter.2 ⟨mem_range.2 hN, ?_⟩⟩
    rw [zeroNet_weights_a]
    simp [stopR, Arith.exact]
  exact_mod_cast this

theorem gibbsKR_one (hN : 0 < N) {bn : BN} {n : NodeV} {σ : Assign}
    (h : ∀ k < N, stopR Arith.exact (siteWeightsR Arith.exact bn n σ) 0
      (Arith.exact.mul ((k : ℚ) / N) ((siteWeightsR Arith.exact bn n σ).foldl
        Arith.exact.add 0)) = 0) : gibbsKR Arith.exact N bn n σ 0 = 1 := by
  unfold gibbsKR
  rw [filter_true_of_mem fun k hk => h k (mem_range.1 hk), card_range]
  exact div_self (by exact_mod_cast hN.ne')

theorem zeroNet_stuck_a (hN : 0 < N) {σ : Assign} (h : σ "b" = 0) :
    gibbsKR Arith.exact N Ex.zeroNet Ex.za σ 0 = 1 := by
  refine gibbsKR_one hN fun k _ => ?_
  have e : Ex.zb.cpd.get [0, 1] = 0 := by decide +kernel
  rw [zeroNet_weights_a, h, e]
  simp [stopR, Arith.exact]

theorem zeroNet_stuck_b (hN : 0 < N) {σ : Assign} (h : σ "a" = 0) :
    gibbsKR Arith.exact N Ex.zeroNet Ex.zb σ 0 = 1 := by
  refine gibbsKR_one hN fun k hk => ?_
  have e0 : Ex.zb.cpd.get [0, 0] = 1 := by decide +kernel
  have e1 : Ex.zb.cpd.get [1, 0] = 0 := by decide +kernel
  rw [zeroNet_weights_b, h, e0, e1]
  have : (k : ℚ) / N ≤ 1 := div_le_one_of_le₀ (by exact_mod_cast hk.le) (Nat.cast_nonneg _)
  simp [stopR, Arith.exact, this]

/-- the indicator of the state that is never left -/
def trapped (σ : Assign) : ℝ := if σ "a" = 0 ∧ σ "b" = 0 then 1 else 0

theorem trapped_nonneg (σ : Assign) : 0 ≤ trapped σ := by unfold trapped; split <;> norm_num
theorem trapped_le (σ : Assign) : trapped σ ≤ 1 := by unfold trapped; split <;> norm_num

theorem zeroNet_sweep (hN : 0 < N) : ∃ P', Kern Ex.zeroNet (freeNames Ex.zeroNet []) (fun _ => 0)
      (Mcmc.stepR Arith.exact N .gibbs Ex.zeroNet (freeNodes Ex.zeroNet []) true) P' ∧
    ∀ σ ∈ states Ex.zeroNet, 1 / (N : ℝ) ≤ act (states Ex.zeroNet) P' trapped σ ∧
      (σ "b" = 0 → 1 ≤ act (states Ex.zeroNet) P' trapped σ) := by
  classical
  have hk : ∀ n ∈ freeNodes Ex.zeroNet [], Kern Ex.zeroNet (freeNames Ex.zeroNet []) (fun _ => 0)
      (Mcmc.gibbsSiteR Arith.exact N Ex.zeroNet n)
      (siteMatrix Ex.zeroNet n.name (gibbsKR Arith.exact N Ex.zeroNet n)) := fun n hn =>
    (gibbsR_kernel Arith.exact_zero hN (by simp) Ex.zeroNet_consistent Ex.zeroNet_linked
      Ex.zeroNet_discrete Ex.zeroNet_nonneg (mem_freeNodes.1 hn).1).kern
        (List.mem_map_of_mem (mem_freeNodes.1 hn).1) (List.mem_map_of_mem hn)
  refine ⟨_, Kern.step (full := true) hk (by simp), ?_⟩
  have hfree : freeNodes Ex.zeroNet [] = [Ex.za, Ex.zb] := by decide
  have hca : Ex.zeroNet.card Ex.za.name = 2 := by decide
  have hcb : Ex.zeroNet.card Ex.zb.name = 2 := by decide
  rw [hfree] at hk ⊢
  have hsa := (hk Ex.za (by simp)).stoch
  have hsb := (hk Ex.zb (by simp)).stoch
  show ∀ σ ∈ states Ex.zeroNet, 1 / (N : ℝ) ≤ act (states Ex.zeroNet) (sweepM (states Ex.zeroNet)
    (fun n => siteMatrix Ex.zeroNet n.name (gibbsKR Arith.exact N Ex.zeroNet n)) [Ex.za, Ex.zb])
    trapped σ ∧ (σ "b" = 0 → 1 ≤ act (states Ex.zeroNet) (sweepM (states Ex.zeroNet)
    (fun n => siteMatrix Ex.zeroNet n.name (gibbsKR Arith.exact N Ex.zeroNet n)) [Ex.za, Ex.zb])
    trapped σ)
  set m : Assign → ℝ := act (states Ex.zeroNet)
    (mulM (states Ex.zeroNet) (siteMatrix Ex.zeroNet Ex.zb.name (gibbsKR Arith.exact N Ex.zeroNet Ex.zb))
      (sweepM (states Ex.zeroNet) (fun n => siteMatrix Ex.zeroNet n.name
        (gibbsKR Arith.exact N Ex.zeroNet n)) [])) trapped with hm
  have hid : ∀ σ ∈ states Ex.zeroNet, act (states Ex.zeroNet) (sweepM (states Ex.zeroNet)
      (fun n => siteMatrix Ex.zeroNet n.name (gibbsKR Arith.exact N Ex.zeroNet n)) []) trapped σ =
      trapped σ := fun σ hσ => by
    simp only [act, sweepM, ite_mul, one_mul, zero_mul]
    rw [sum_ite_eq, if_pos hσ]
  have hm0 : ∀ σ ∈ states Ex.zeroNet, 0 ≤ m σ := fun σ hσ => by
    rw [hm, act_mulM]
    have := hsb.act_mono (f := fun _ => 0) (g := act (states Ex.zeroNet) (sweepM (states Ex.zeroNet)
      (fun n => siteMatrix Ex.zeroNet n.name (gibbsKR Arith.exact N Ex.zeroNet n)) []) trapped)
      (fun y hy => by rw [hid y hy]; exact trapped_nonneg y) hσ
    rwa [hsb.act_const 0 hσ] at this
  have hupd : ∀ σ ∈ states Ex.zeroNet, ∀ v ∈ Ex.zeroNet.names, ∀ b < 2,
      Function.update σ v b ∈ states Ex.zeroNet := by
    intro σ hσ v hv b hb
    obtain ⟨h1, h2⟩ := mem_states.1 hσ
    refine mem_states.2 ⟨fun w hw => ?_, fun w hw => ?_⟩
    · by_cases e : w = v
      · subst e
        rw [Function.update_self]
        exact lt_of_lt_of_eq hb ((by decide : ∀ w ∈ Ex.zeroNet.names, 2 = Ex.zeroNet.card w) w hw)
      · rw [Function.update_of_ne e]; exact h1 w hw
    · rw [Function.update_of_ne (by rintro rfl; exact hw hv)]; exact h2 w hw
  have hone : ∀ σ ∈ states Ex.zeroNet, σ "a" = 0 → 1 ≤ m σ := by
    intro σ hσ h
    have hKb : ∀ b < 2, 0 ≤ gibbsKR Arith.exact N Ex.zeroNet Ex.zb σ b := fun b _ => by
      unfold gibbsKR; positivity
    rw [hm, act_mulM, act_siteMatrix (by decide) _ _ hσ, hcb, sum_range_succ, sum_range_one,
      zeroNet_stuck_b hN h, hid _ (hupd σ hσ _ (by decide) 0 (by decide)),
      hid _ (hupd σ hσ _ (by decide) 1 (by decide))]
    have e : trapped (Function.update σ Ex.zb.name 0) = 1 := if_pos ⟨by
      rw [Function.update_of_ne (by decide)]; exact h, by
      rw [show Ex.zb.name = "b" from rfl, Function.update_self]⟩
    rw [e]
    have := mul_nonneg (hKb 1 (by decide)) (trapped_nonneg (Function.update σ Ex.zb.name 1))
    linarith
  intro σ hσ
  have hlow : gibbsKR Arith.exact N Ex.zeroNet Ex.za σ 0 ≤ act (states Ex.zeroNet)
      (siteMatrix Ex.zeroNet Ex.za.name (gibbsKR Arith.exact N Ex.zeroNet Ex.za)) m σ := by
    have hKa : ∀ b, 0 ≤ gibbsKR Arith.exact N Ex.zeroNet Ex.za σ b := fun b => by
      unfold gibbsKR; positivity
    rw [act_siteMatrix (by decide) _ _ hσ, hca, sum_range_succ, sum_range_one]
    have h1 := hone _ (hupd σ hσ Ex.za.name (by decide) 0 (by decide)) (by
      rw [show Ex.za.name = "a" from rfl, Function.update_self])
    have h2 := hm0 _ (hupd σ hσ Ex.za.name (by decide) 1 (by decide))
    have h3 := mul_nonneg (hKa 1) h2
    have h4 := mul_le_mul_of_nonneg_left h1 (hKa 0)
    linarith
  rw [show sweepM (states Ex.zeroNet) (fun n => siteMatrix Ex.zeroNet n.name
    (gibbsKR Arith.exact N Ex.zeroNet n)) [Ex.za, Ex.zb] = mulM (states Ex.zeroNet)
      (siteMatrix Ex.zeroNet Ex.za.name (gibbsKR Arith.exact N Ex.zeroNet Ex.za))
      (mulM (states Ex.zeroNet) (siteMatrix Ex.zeroNet Ex.zb.name
        (gibbsKR Arith.exact N Ex.zeroNet Ex.zb)) (sweepM (states Ex.zeroNet) (fun n =>
          siteMatrix Ex.zeroNet n.name (gibbsKR Arith.exact N Ex.zeroNet n)) [])) from rfl, act_mulM]
  refine ⟨(zeroNet_first hN σ).trans hlow, fun hb => ?_⟩
  rw [← zeroNet_stuck_a hN hb]
  exact hlow

theorem zeroNet_posterior : posterior Ex.zeroNet (hardEvidence []) ["a"] (fun _ => 0) = 0 := by
  decide +kernel

/-- the estimate after a run that starts in the trap -/
theorem trap_marginals (hN : 0 < N) (burnIn : Nat) {k : Nat} (hk : 0 < k) :
    (Mcmc.marginalsR Arith.exact N Ex.zeroNet ⟨.gibbs, burnIn, true⟩ k ["a"] none).prob
      (CloseTo Ex.zeroNet [] ["a"] 1) ≤ (1 - 1 / (N : ℝ)) ^ burnIn := by
  classical
  have hc := Ex.zeroNet_consistent
  have hNR : (1 : ℝ) ≤ N := by exact_mod_cast hN
  have hρ0 : 0 ≤ 1 - 1 / (N : ℝ) := by
    rw [sub_nonneg, div_le_one (by linarith)]; exact hNR
  obtain ⟨P', hP, hg⟩ := zeroNet_sweep hN
  have hvars : ∀ v ∈ ["a"], v ∈ Ex.zeroNet.names := by decide
  obtain ⟨vv, v1, v2, v3, v4⟩ := variableValues_spec hc hvars
  choose! dict hdict using fun (τ : Assign) (hτ : τ ∈ states Ex.zeroNet) =>
    exists_dict hc (mem_states.1 hτ).1
  set s0 : Assign := fun _ => 0 with hs0
  have hs0m : s0 ∈ states Ex.zeroNet := mem_states.2 ⟨fun v hv => by
    have : ∀ v ∈ Ex.zeroNet.names, 0 < Ex.zeroNet.card v := by decide
    exact this v hv, fun _ _ => rfl⟩
  have hiff : ∀ τ ∈ states Ex.zeroNet, τ ≠ s0 → trapped τ = 0 := by
    intro τ hτ hne
    refine if_neg fun h => hne (funext fun v => ?_)
    by_cases hv : v ∈ Ex.zeroNet.names
    · have : v = "a" ∨ v = "b" := by simpa [Ex.zeroNet, BN.names, Ex.za, Ex.zb] using hv
      rcases this with rfl | rfl
      · exact h.1
      · exact h.2
    · exact (mem_states.1 hτ).2 v hv
  have hact : ∀ σ ∈ states Ex.zeroNet, act (states Ex.zeroNet) P' (fun τ => 1 - trapped τ) σ =
      1 - act (states Ex.zeroNet) P' trapped σ := fun σ hσ => by
    have := hP.stoch.act_const 1 hσ
    unfold act at this ⊢
    simp only [mul_one] at this
    simp only [mul_sub, mul_one, sum_sub_distrib, this]
  -- the trap is closed
  have hcl : ∀ σ ∈ ({s0} : Finset Assign), ∀ τ ∈ states Ex.zeroNet, τ ∉ ({s0} : Finset Assign) →
      P' σ τ = 0 := by
    intro σ hσ τ hτ hτ'
    rw [mem_singleton] at hσ hτ'
    subst hσ
    have h1 := hact s0 hs0m
    have h2 := (hg s0 hs0m).2 rfl
    have h3 : ∀ ρ ∈ states Ex.zeroNet, 0 ≤ P' s0 ρ * (1 - trapped ρ) := fun ρ hρ =>
      mul_nonneg (hP.stoch.nonneg s0 hs0m ρ hρ) (by linarith [trapped_le ρ])
    have h4 : P' s0 τ * (1 - trapped τ) ≤ 0 :=
      (single_le_sum h3 hτ).trans (by
        show act (states Ex.zeroNet) P' (fun τ => 1 - trapped τ) s0 ≤ 0
        rw [h1]; linarith)
    rw [hiff τ hτ hτ', sub_zero, mul_one] at h4
    exact le_antisymm h4 (hP.stoch.nonneg s0 hs0m τ hτ)
  set q : List Assign → ℝ := fun τs => if CloseTo Ex.zeroNet [] ["a"] 1
    (Factor.fromSamplesR Arith.exact (τs.map dict) vv) then 1 else 0 with hq
  have hq1 : ∀ τs, q τs ≤ 1 := fun τs => by simp only [hq]; split <;> norm_num
  have hq0 : path (states Ex.zeroNet) P' k q s0 ≤ 0 := by
    have hsub : ({s0} : Finset Assign) ⊆ states Ex.zeroNet := by simpa using hs0m
    rw [path_restrict hsub hcl k q s0 (by simp)]
    have hst := stoch_restrict hsub hcl hP.stoch
    have := hst.path_mono k (H := q) (K := fun _ => 0) (fun τs hlen hmem => ?_)
      (mem_singleton_self s0)
    · rwa [hst.path_const k 0 (mem_singleton_self s0)] at this
    · refine le_of_eq (if_neg ?_)
      rintro ⟨f'', e, _, hclose⟩
      have hall : ∀ τ ∈ τs, τ = s0 := fun τ hτ => mem_singleton.1 (hmem τ hτ)
      obtain ⟨f, f1, _, f3⟩ := fromSamples_freq (ds := τs.map dict) Ex.zeroNet_discrete hvars v2 v3 v4
        hk hlen (by
          rw [List.forall₂_map_left_iff, List.forall₂_same]
          exact fun τ hτ => ⟨hsub (hmem τ hτ), hdict τ (hsub (hmem τ hτ))⟩)
      obtain ⟨f', g1, _, _, _, g5⟩ := fromSamplesR_of_ok Arith.exact_zero f1
      rw [g1] at e
      cases e
      have hleg : Legal Ex.zeroNet.card ["a"] s0 := by unfold Legal; decide
      have h1 := hclose s0 hleg
      have h2 := g5 s0
      rw [zero_mul, abs_nonpos_iff, sub_eq_zero] at h2
      rw [h2, f3 s0 hleg, List.countP_eq_length.2 (fun τ hτ => by simp [hall τ hτ]), hlen,
        div_self (by exact_mod_cast hk.ne'), show posterior Ex.zeroNet (hardEvidence []) ["a"] s0 = 0
          from zeroNet_posterior] at h1
      norm_num at h1
  have hpath : ∀ σ ∈ states Ex.zeroNet, path (states Ex.zeroNet) P' k q σ ≤ 1 - trapped σ := by
    intro σ hσ
    by_cases h : σ = s0
    · subst h
      rw [show trapped s0 = 1 from if_pos ⟨rfl, rfl⟩, sub_self]
      exact hq0
    · rw [hiff σ hσ h, sub_zero]
      have := hP.stoch.path_mono k (H := q) (K := fun _ => 1) (fun τs _ _ => hq1 τs) hσ
      rwa [hP.stoch.path_const k 1 hσ] at this
  have hburn : ∀ b, ∀ σ ∈ states Ex.zeroNet,
      (act (states Ex.zeroNet) P')^[b] (fun τ => 1 - trapped τ) σ ≤
        (1 - 1 / (N : ℝ)) ^ b * (1 - trapped σ) := by
    intro b
    induction b with
    | zero => intro σ _; simp
    | succ b ih =>
      intro σ hσ
      rw [Function.iterate_succ_apply']
      refine (hP.stoch.act_mono ih hσ).trans ?_
      rw [act_mul, hact σ hσ, pow_succ, mul_assoc]
      refine mul_le_mul_of_nonneg_left ?_ (pow_nonneg hρ0 b)
      by_cases h : σ = s0
      · subst h
        rw [show trapped s0 = 1 from if_pos ⟨rfl, rfl⟩, sub_self, mul_zero]
        linarith [(hg s0 hs0m).2 rfl]
      · rw [hiff σ hσ h, sub_zero, mul_one]
        linarith [(hg σ hσ).1]
  have hstart : ∀ d, GoodState Ex.zeroNet [] d → Rand.expect (fun r =>
      if CloseTo Ex.zeroNet [] ["a"] 1 r then (1 : ℝ) else 0)
        (Rand.andThen (Rand.lift (Mcmc.variableValues Ex.zeroNet ["a"])) fun vv =>
          Rand.andThen (Mcmc.Sampler.generateR Arith.exact N ⟨.gibbs, burnIn, true⟩ Ex.zeroNet k d
            (some [])) fun chain => .lift (Factor.fromSamplesR Arith.exact chain vv)) ≤
      (1 - 1 / (N : ℝ)) ^ burnIn := by
    intro d hgood
    obtain ⟨σ, hσ, hr⟩ := hgood.state hc Ex.noEv_legal
    have hσ' := (mem_evStates.1 hσ).1
    rw [runR_eq hP hvars v1 v3 hdict hσ' hr]
    refine (hP.stoch.iter_mono hpath burnIn σ hσ').trans ((hburn burnIn σ hσ').trans ?_)
    exact mul_le_of_le_one_right (pow_nonneg hρ0 _) (by linarith [trapped_nonneg σ])
  have hall := all_getSampleR (N := N) Arith.exact_zero (by simp) hc Ex.zeroNet_linked
    Ex.zeroNet_acyclic Ex.zeroNet_discrete Ex.zeroNet_nonneg (by decide) Ex.noEv_legal
  have hfin := finite_sampleAlongR Arith.exact hN Ex.zeroNet [] Ex.zeroNet.topologicalSort.1
    Ex.zeroNet.topologicalSort.2 []
  unfold Mcmc.marginalsR
  rw [show (Rand.prob _ _ : ℝ) = Rand.expect _ _ from rfl]
  simp only
  rw [Rand.expect_andThen]
  refine Rand.expect_le hfin (hall.mono ?_)
  rintro _ ⟨d, rfl, hgood⟩
  exact hstart d hgood

end Primo
