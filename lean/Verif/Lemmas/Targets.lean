import Verif.Spec.Targets
import Verif.Lemmas.Jeffrey
import Verif.Lemmas.Fit
import Verif.Lemmas.Separation

/-! # Target distributions for several variables -/

namespace Primo
open Finset

variable {bn : BN} {vs : List Name} {q : Name → List ℚ}

/-- a sum with one term -/
theorem sumOver_eq_single {card : Name → Nat} {s : Finset Name} {F : Assign → ℚ} {σ : Assign}
    (hσ : ∀ v ∈ s, σ v < card v) (h : ∀ τ, Varies card s σ τ → τ ≠ σ → F τ = 0) :
    sumOver card s F σ = F σ := by
  induction s using Finset.induction generalizing F with
  | empty => simp
  | insert a s ha ih =>
    rw [sumOver_insert ha, Finset.sum_eq_single (σ a)]
    · rw [Function.update_eq_self]
      exact ih (fun v hv => hσ v (mem_insert_of_mem hv)) fun τ hτ hne => h τ
        ⟨fun v hv => hτ.1 v fun hv' => hv (mem_insert_of_mem hv'), fun v hv => by
          by_cases hm : v ∈ s
          · exact hτ.2 v hm
          · rw [hτ.1 v hm]; exact hσ v hv⟩ hne
    · intro i hi hne
      have : ∀ τ, Varies card s (Function.update σ a i) τ → F τ = 0 := by
        intro τ hτ
        have ha' : τ a = i := by rw [hτ.1 a ha, Function.update_self]
        refine h τ ⟨fun v hv => ?_, fun v hv => ?_⟩ fun e => hne (by rw [← ha', e])
        · have hva : v ≠ a := fun e => hv (e ▸ mem_insert_self _ _)
          rw [hτ.1 v fun hv' => hv (mem_insert_of_mem hv'), Function.update_of_ne hva]
        · rcases mem_insert.1 hv with rfl | hv
          · rw [ha']; exact mem_range.1 hi
          · exact hτ.2 v hv
      rw [sumOver_congr (G := fun _ => 0) this]
      simp [sumOver]
    · intro hn
      exact absurd (mem_range.2 (hσ a (mem_insert_self _ _))) hn

theorem targets_keys (vs : List Name) (q : Name → List ℚ) : (targets vs q).keys = vs := by
  simp [targets, Dict.keys, Function.comp_def]

theorem softened_targets_keys (bn : BN) (vs : List Name) (q : Name → List ℚ) :
    Dict.keys (softened bn (targets vs q)) = vs := by
  simp [softened, targets, Dict.keys, Function.comp_def]

theorem mem_targets {v : Name} {e : Evidence} (h : (v, e) ∈ targets vs q) : v ∈ vs ∧ e = .soft (q v) := by
  obtain ⟨w, hw, e⟩ := List.mem_map.1 h
  injection e with e1 e2
  subst e1
  exact ⟨hw, e2.symm⟩

theorem targets_legal (hn : vs.Nodup) (hv : ∀ v ∈ vs, v ∈ bn.names) (hq : ∀ v ∈ vs, bn.Target v (q v)) :
    LegalEvidence bn (targets vs q) := by
  refine ⟨by rwa [targets_keys], fun p hp => hv _ (mem_targets hp).1, fun v x h => ?_, fun v l h => ?_⟩
  · cases (mem_targets h).2
  · obtain ⟨h1, h2⟩ := mem_targets h
    injection h2 with h2
    rw [h2]
    exact (hq v h1).length

theorem targets_supported (hq : ∀ v ∈ vs, bn.Target v (q v)) : Supported bn (targets vs q) := by
  intro v e h
  obtain ⟨h1, h2⟩ := mem_targets h
  injection h2 with h2
  subst h2
  refine ⟨(hq v h1).nonneg, ?_, (hq v h1).support⟩
  by_contra hcon
  push Not at hcon
  have := (hq v h1).sum
  rw [List.sum_eq_zero hcon] at this
  exact absurd this (by norm_num)

/-- the likelihood that turns the prior of a variable into its target -/
def lift (bn : BN) (q : Name → List ℚ) (v : Name) (i : Nat) : ℚ :=
  if priorAt bn v i = 0 then 0 else (q v).getD i 0 / priorAt bn v i

theorem lift_mul_prior {v : Name} (hq : bn.Target v (q v)) {i : Nat} (hi : i < bn.card v) :
    lift bn q v i * priorAt bn v i = (q v).getD i 0 := by
  unfold lift
  split
  · rename_i h; rw [hq.support i hi h, zero_mul]
  · rename_i h; rw [div_mul_cancel₀ _ h]

theorem evLik_targets (hn : vs.Nodup) {σ : Assign} (hσ : Legal bn.card vs σ) :
    evLik bn (softened bn (targets vs q)) σ = ∏ v ∈ vs.toFinset, lift bn q v (σ v) := by
  rw [List.prod_toFinset _ hn]
  unfold evLik softened targets
  rw [List.map_map, List.map_map]
  congr 1
  refine List.map_congr_left fun v hv => ?_
  exact lik_softened (hσ v hv)

theorem target_sum {v : Name} (hq : bn.Target v (q v)) : ∑ i ∈ range (bn.card v), (q v).getD i 0 = 1 := by
  rw [sum_getD hq.length, hq.sum]

theorem target_getD_nonneg {v : Name} (hq : bn.Target v (q v)) (i : Nat) : 0 ≤ (q v).getD i 0 := by
  rw [List.getD_eq_getElem?_getD]
  cases h : (q v)[i]? with
  | none => simp
  | some x => exact hq.nonneg x (List.mem_of_getElem? h)

theorem softened_nonneg (hnn : bn.NonNeg) (hq : ∀ v ∈ vs, bn.Target v (q v)) :
    NonNegEvidence (softened bn (targets vs q)) := by
  intro v l h x hx
  obtain ⟨⟨w, e⟩, hw, e'⟩ := List.mem_map.1 h
  obtain ⟨h1, rfl⟩ := mem_targets hw
  injection e' with e1 e2
  injection e2 with e2
  subst e1
  rw [← e2] at hx
  obtain ⟨i, -, rfl⟩ := List.mem_map.1 hx
  dsimp only
  split
  · exact le_rfl
  · exact div_nonneg (target_getD_nonneg (hq _ h1) _) (priorAt_nonneg hnn _ _)

/-- Bayes' rule for the targets -/
theorem targets_update (hc : bn.Consistent) (hnn : bn.NonNeg) (hn : vs.Nodup) (hv : ∀ v ∈ vs, v ∈ bn.names)
    (hq : ∀ v ∈ vs, bn.Target v (q v)) {Q : List Name} (hQ : ∀ v ∈ Q, v ∈ bn.names) (hk : ∀ v ∈ vs, v ∈ Q)
    {σ : Assign} (hσ : Legal bn.card Q σ) :
    posterior bn (softened bn (targets vs q)) Q σ * sumOver bn.card vs.toFinset
        (fun τ => (∏ v ∈ vs.toFinset, lift bn q v (τ v)) * posterior bn [] vs τ) σ =
      (∏ v ∈ vs.toFinset, lift bn q v (σ v)) * posterior bn [] Q σ := by
  have h := posterior_update (ev := []) (ev' := softened bn (targets vs q)) hc hnn
    (targets_legal hn hv hq).softened (softened_nonneg hnn hq) hQ
    (by rw [softened_targets_keys]; exact hk) hσ
  rw [softened_targets_keys, List.nil_append, evLik_targets hn fun v hv => hσ v (hk v hv)] at h
  rw [← h]
  congr 1
  refine sumOver_congr fun τ hτ => ?_
  rw [evLik_targets hn fun v hv => hτ.2 v (List.mem_toFinset.2 hv)]

theorem independent_norm (hn : vs.Nodup) (hq : ∀ v ∈ vs, bn.Target v (q v)) (hi : bn.Independent vs)
    (σ : Assign) : sumOver bn.card vs.toFinset
        (fun τ => (∏ v ∈ vs.toFinset, lift bn q v (τ v)) * posterior bn [] vs τ) σ = 1 := by
  rw [sumOver_congr (G := fun τ => ∏ v ∈ vs.toFinset, (q v).getD (τ v) 0) fun τ hτ => ?_]
  · rw [sumOver_prod_single (card := bn.card) vs.toFinset vs.toFinset (le_refl _) (fun v i => (q v).getD i 0)]
    rw [Finset.sdiff_self, prod_empty, mul_one]
    exact prod_eq_one fun v hv => target_sum (hq v (List.mem_toFinset.1 hv))
  · rw [hi τ fun v hv => hτ.2 v (List.mem_toFinset.2 hv), ← List.prod_toFinset _ hn, ← prod_mul_distrib]
    exact prod_congr rfl fun v hv => lift_mul_prior (hq v (List.mem_toFinset.1 hv)) (hτ.2 v hv)

theorem posterior_targets (hc : bn.Consistent) (hnn : bn.NonNeg) (hn : vs.Nodup) (hv : ∀ v ∈ vs, v ∈ bn.names)
    (hq : ∀ v ∈ vs, bn.Target v (q v)) (hi : bn.Independent vs) {Q : List Name} (hQ : ∀ v ∈ Q, v ∈ bn.names)
    (hk : ∀ v ∈ vs, v ∈ Q) {σ : Assign} (hσ : Legal bn.card Q σ) :
    posterior bn (softened bn (targets vs q)) Q σ =
      (∏ v ∈ vs.toFinset, lift bn q v (σ v)) * posterior bn [] Q σ := by
  have := targets_update hc hnn hn hv hq hQ hk hσ
  rwa [independent_norm hn hq hi, mul_one] at this

theorem posterior_targets_joint (hc : bn.Consistent) (hnn : bn.NonNeg) (hn : vs.Nodup)
    (hv : ∀ v ∈ vs, v ∈ bn.names) (hq : ∀ v ∈ vs, bn.Target v (q v)) (hi : bn.Independent vs) {σ : Assign}
    (hσ : Legal bn.card vs σ) :
    posterior bn (softened bn (targets vs q)) vs σ = ∏ v ∈ vs.toFinset, (q v).getD (σ v) 0 := by
  rw [posterior_targets hc hnn hn hv hq hi hv (fun _ h => h) hσ, hi σ hσ, ← List.prod_toFinset _ hn,
    ← prod_mul_distrib]
  exact prod_congr rfl fun v hv => lift_mul_prior (hq v (List.mem_toFinset.1 hv))
    (hσ v (List.mem_toFinset.1 hv))

theorem targets_met (hc : bn.Consistent) (hnn : bn.NonNeg) (hn : vs.Nodup)
    (hv : ∀ v ∈ vs, v ∈ bn.names) (hq : ∀ v ∈ vs, bn.Target v (q v)) (hi : bn.Independent vs) : bn.Met vs q := by
  intro v hm i hi'
  have hle := (targets_legal hn hv hq).softened
  rw [← posterior_sumOut hc hle hv (S := [v]) (by simpa using hm)]
  have h0 : ∀ τ, Varies bn.card (vs.toFinset \ [v].toFinset) (fun _ => i) τ → Legal bn.card vs τ := by
    intro τ hτ w hw
    by_cases e : w = v
    · rw [e, hτ.1 v (by simp)]; exact hi'
    · exact hτ.2 w (by simp [hw, e])
  rw [sumOver_congr (G := fun τ => ∏ v ∈ vs.toFinset, (q v).getD (τ v) 0) fun τ hτ =>
      posterior_targets_joint hc hnn hn hv hq hi (h0 τ hτ),
    sumOver_prod_single (card := bn.card) vs.toFinset _ sdiff_subset (fun v i => (q v).getD i 0)]
  have h1 : vs.toFinset \ (vs.toFinset \ [v].toFinset) = {v} := by
    ext w
    simp only [mem_sdiff, List.mem_toFinset, List.mem_singleton, mem_singleton]
    constructor
    · rintro ⟨h1, h2⟩; by_contra h3; exact h2 ⟨h1, h3⟩
    · rintro rfl; exact ⟨hm, fun h => h.2 rfl⟩
  rw [h1, prod_singleton, prod_eq_one fun w hw => target_sum (hq w ?_), one_mul]
  have := (mem_sdiff.1 hw).1
  exact List.mem_toFinset.1 this

/-! ### the converse -/

theorem priorAt_sum (hc : bn.Consistent) {σ₀ : Assign} (hZ : 0 < totalWeight bn [] σ₀) {v : Name}
    (hv : v ∈ bn.names) : ∑ i ∈ range (bn.card v), priorAt bn v i = 1 := by
  have h := posterior_sum hc legal_nil (Q := [v]) (by simpa using hv) hZ
  have e : [v].toFinset = insert v ∅ := by simp
  rw [e, sumOver_insert (by simp)] at h
  rw [← h]
  refine sum_congr rfl fun i _ => ?_
  rw [sumOver_empty, ← priorAt_eq hc, Function.update_self]

theorem priorList_target (hc : bn.Consistent) (hnn : bn.NonNeg) {σ₀ : Assign} (hZ : 0 < totalWeight bn [] σ₀)
    {v : Name} (hv : v ∈ bn.names) : bn.Target v (bn.priorList v) := by
  refine ⟨by simp [BN.priorList], fun x hx => ?_, ?_, fun i hi h => ?_⟩
  · obtain ⟨i, -, rfl⟩ := List.mem_map.1 hx
    exact priorAt_nonneg hnn _ _
  · rw [BN.priorList, sum_map_range, priorAt_sum hc hZ hv]
  · simp [BN.priorList, List.getD_eq_getElem?_getD, hi, h]

theorem priorList_getD {v : Name} {i : Nat} (hi : i < bn.card v) : (bn.priorList v).getD i 0 = priorAt bn v i := by
  simp [BN.priorList, List.getD_eq_getElem?_getD, hi]

/-- the array with a single one -/
def spike (n j : Nat) : List ℚ := (List.range n).map fun i => if i = j then 1 else 0

theorem spike_getD {n j i : Nat} (hi : i < n) : (spike n j).getD i 0 = if i = j then 1 else 0 := by
  simp [spike, List.getD_eq_getElem?_getD, hi]

theorem spike_target {v : Name} {j : Nat} (hj : j < bn.card v) (h : priorAt bn v j ≠ 0) :
    bn.Target v (spike (bn.card v) j) := by
  refine ⟨by simp [spike], fun x hx => ?_, ?_, fun i hi h0 => ?_⟩
  · obtain ⟨i, -, rfl⟩ := List.mem_map.1 hx
    split <;> norm_num
  · rw [spike, sum_map_range]
    simp [hj]
  · rw [spike_getD hi, if_neg]
    rintro rfl
    exact h h0

/-- joint probabilities vanish where a single one does -/
theorem prior_joint_zero (hc : bn.Consistent) (hnn : bn.NonNeg) (hv : ∀ v ∈ vs, v ∈ bn.names) {σ : Assign}
    (hσ : Legal bn.card vs σ) {v : Name} (hm : v ∈ vs) (h : priorAt bn v (σ v) = 0) :
    posterior bn [] vs σ = 0 := by
  rw [priorAt_eq hc, ← posterior_sumOut hc legal_nil hv (S := [v]) (by simpa using hm)] at h
  refine eq_zero_of_sumOver_eq_zero (τ := σ) (fun τ _ => posterior_nonneg hnn (by intro v l h; simp at h) _ _) h
    ⟨fun _ _ => rfl, fun w hw => hσ w ?_⟩
  exact List.mem_toFinset.1 (mem_sdiff.1 hw).1

/-- asking for the prior of one variable and for single outcomes of the others -/
theorem met_spikes (hc : bn.Consistent) (hnn : bn.NonNeg) {σ₀ : Assign} (hZ : 0 < totalWeight bn [] σ₀)
    (hn : vs.Nodup) (hv : ∀ v ∈ vs, v ∈ bn.names)
    (hall : ∀ q, (∀ v ∈ vs, bn.Target v (q v)) → bn.Met vs q) {v : Name} (hm : v ∈ vs) {σ : Assign}
    (hσ : Legal bn.card vs σ) (hp : ∀ w ∈ vs, priorAt bn w (σ w) ≠ 0) :
    ∃ K : ℚ, ∀ i < bn.card v, priorAt bn v i ≠ 0 →
      posterior bn [] vs (Function.update σ v i) =
        K * ∏ w ∈ vs.toFinset, priorAt bn w (Function.update σ v i w) := by
  classical
  set q : Name → List ℚ := fun w => if w = v then bn.priorList v else spike (bn.card w) (σ w) with hqdef
  have hq : ∀ w ∈ vs, bn.Target w (q w) := by
    intro w hw
    by_cases e : w = v
    · subst e; simp only [hqdef, if_true]; exact priorList_target hc hnn hZ (hv _ hw)
    · simp only [hqdef, if_neg e]; exact spike_target (hσ w hw) (hp w hw)
  have hmet := hall q hq v hm
  set L := fun τ : Assign => (∏ w ∈ vs.toFinset, lift bn q w (τ w)) * posterior bn [] vs τ with hL
  have hd : ∀ τ : Assign, sumOver bn.card vs.toFinset L τ = sumOver bn.card vs.toFinset L σ := by
    intro τ
    refine (DependsOn.sumOver (A := vs.toFinset) (fun τ ρ h => ?_)) τ σ (by simp)
    simp only [hL]
    rw [prod_congr rfl fun w hw => by rw [h w hw], posterior_dependsOn' hc legal_nil vs τ ρ h]
  refine ⟨sumOver bn.card vs.toFinset L σ, fun i hi hpi => ?_⟩
  set ρ := Function.update σ v i with hρ
  have hρl : Legal bn.card vs ρ := fun w hw => by
    by_cases e : w = v
    · subst e; rw [hρ, Function.update_self]; exact hi
    · rw [hρ, Function.update_of_ne e]; exact hσ w hw
  have hle := (targets_legal hn hv hq).softened
  have h1 : posterior bn (softened bn (targets vs q)) [v] ρ = priorAt bn v i := by
    have := posterior_dependsOn (v := v) hc hle ρ (fun _ => i) (by simp [hρ])
    rw [this, hmet i hi]
    simp only [hqdef, if_true]
    exact priorList_getD hi
  have hρv : ρ v = i := by rw [hρ, Function.update_self]
  have hρw : ∀ w, w ≠ v → ρ w = σ w := fun w e => by rw [hρ, Function.update_of_ne e]
  have hlegal : ∀ τ, Varies bn.card (vs.toFinset \ [v].toFinset) ρ τ → Legal bn.card vs τ := by
    intro τ hτ w hw
    by_cases e : w = v
    · rw [e, hτ.1 v (by simp), hρv]; exact hi
    · exact hτ.2 w (by simp [hw, e])
  have h2 : priorAt bn v i * sumOver bn.card vs.toFinset L σ =
      sumOver bn.card (vs.toFinset \ [v].toFinset) L ρ := by
    rw [← h1, ← posterior_sumOut hc hle hv (S := [v]) (by simpa using hm), ← sumOver_mul_const]
    refine sumOver_congr fun τ hτ => ?_
    rw [← hd τ]
    exact targets_update hc hnn hn hv hq hv (fun _ h => h) (hlegal τ hτ)
  rw [sumOver_eq_single (s := vs.toFinset \ [v].toFinset)] at h2
  · have h3 : lift bn q v i = 1 := by
      unfold lift
      rw [if_neg hpi]
      simp only [hqdef, if_true]
      rw [priorList_getD hi, div_self hpi]
    have h4 : ∀ w ∈ vs.toFinset.erase v, lift bn q w (ρ w) * priorAt bn w (ρ w) = 1 := by
      intro w hw
      obtain ⟨e, hw⟩ := mem_erase.1 hw
      have hw' := List.mem_toFinset.1 hw
      rw [lift_mul_prior (hq w hw') (hρl w hw'), hρw w e]
      simp only [hqdef, if_neg e]
      rw [spike_getD (hσ w hw'), if_pos rfl]
    have hmf : v ∈ vs.toFinset := List.mem_toFinset.2 hm
    simp only [hL] at h2
    rw [← mul_prod_erase _ _ hmf, hρv, h3, one_mul] at h2
    rw [← mul_prod_erase _ _ hmf, hρv]
    have h5 := prod_eq_one h4
    rw [prod_mul_distrib] at h5
    calc posterior bn [] vs ρ = (∏ w ∈ vs.toFinset.erase v, lift bn q w (ρ w)) * posterior bn [] vs ρ *
          ∏ w ∈ vs.toFinset.erase v, priorAt bn w (ρ w) := by
            linear_combination (-(posterior bn [] vs ρ)) * h5
      _ = _ := by rw [← h2]; ring
  · intro w hw
    exact hρl w (List.mem_toFinset.1 (mem_sdiff.1 hw).1)
  · intro τ hτ hne
    obtain ⟨w, hw⟩ : ∃ w, τ w ≠ ρ w := by
      by_contra hcon
      push Not at hcon
      exact hne (funext hcon)
    have hwm : w ∈ vs.toFinset \ [v].toFinset := by
      by_contra hcon
      exact hw (hτ.1 w hcon)
    have hwv : w ≠ v := by
      intro e; subst e; simp at hwm
    have hwvs := (mem_sdiff.1 hwm).1
    simp only [hL]
    rw [prod_eq_zero hwvs, zero_mul]
    unfold lift
    split
    · rfl
    · simp only [hqdef, if_neg hwv]
      rw [spike_getD (hτ.2 w hwm), if_neg, zero_div]
      rwa [← hρw w hwv]

theorem independent_of_met (hc : bn.Consistent) (hnn : bn.NonNeg) {σ₀ : Assign} (hZ : 0 < totalWeight bn [] σ₀)
    (hn : vs.Nodup) (hv : ∀ v ∈ vs, v ∈ bn.names)
    (hall : ∀ q, (∀ v ∈ vs, bn.Target v (q v)) → bn.Met vs q) : bn.Independent vs := by
  classical
  intro σ hσ
  rw [← List.prod_toFinset _ hn]
  by_cases hp : ∀ w ∈ vs, priorAt bn w (σ w) ≠ 0
  swap
  · push Not at hp
    obtain ⟨w, hw, h0⟩ := hp
    rw [prior_joint_zero hc hnn hv hσ hw h0, prod_eq_zero (List.mem_toFinset.2 hw) h0]
  set pr : Assign → ℚ := fun τ => ∏ w ∈ vs.toFinset, priorAt bn w (τ w) with hpr
  have hpr0 : ∀ τ : Assign, (∀ w ∈ vs, priorAt bn w (τ w) ≠ 0) → pr τ ≠ 0 := fun τ h =>
    prod_ne_zero_iff.2 fun w hw => h w (List.mem_toFinset.1 hw)
  -- one coordinate
  have step : ∀ τ : Assign, Legal bn.card vs τ → (∀ w ∈ vs, priorAt bn w (τ w) ≠ 0) → ∀ v ∈ vs, ∀ i < bn.card v,
      priorAt bn v i ≠ 0 → posterior bn [] vs (Function.update τ v i) * pr τ =
        posterior bn [] vs τ * pr (Function.update τ v i) := by
    intro τ hτ hτp v hm i hi hpi
    obtain ⟨K, hK⟩ := met_spikes hc hnn hZ hn hv hall hm hτ hτp
    have h1 := hK i hi hpi
    have h2 := hK (τ v) (hτ v hm) (hτp v hm)
    rw [Function.update_eq_self] at h2
    rw [h1, h2]
    ring
  -- all coordinates
  have all : ∀ τ : Assign, Legal bn.card vs τ → (∀ w ∈ vs, priorAt bn w (τ w) ≠ 0) → ∀ A : Finset Name,
      A ⊆ vs.toFinset → posterior bn [] vs (A.piecewise τ σ) * pr σ = posterior bn [] vs σ * pr (A.piecewise τ σ) := by
    intro τ hτ hτp A
    induction A using Finset.induction with
    | empty => simp
    | insert a A ha ih =>
      intro hA
      have ih := ih fun x hx => hA (mem_insert_of_mem hx)
      have ham : a ∈ vs := List.mem_toFinset.1 (hA (mem_insert_self _ _))
      have hl : Legal bn.card vs (A.piecewise τ σ) := fun w hw => by
        unfold Finset.piecewise; split
        · exact hτ w hw
        · exact hσ w hw
      have hpp : ∀ w ∈ vs, priorAt bn w (A.piecewise τ σ w) ≠ 0 := fun w hw => by
        unfold Finset.piecewise; split
        · exact hτp w hw
        · exact hp w hw
      have h1 := step _ hl hpp a ham (τ a) (hτ a ham) (hτp a ham)
      rw [Finset.piecewise_insert]
      have h0 := hpr0 _ hpp
      refine mul_right_cancel₀ h0 ?_
      calc _ = (posterior bn [] vs (Function.update (A.piecewise τ σ) a (τ a)) * pr (A.piecewise τ σ)) * pr σ := by ring
        _ = (posterior bn [] vs (A.piecewise τ σ) * pr σ) * pr (Function.update (A.piecewise τ σ) a (τ a)) := by
            rw [h1]; ring
        _ = _ := by rw [ih]; ring
  have key : ∀ τ : Assign, Legal bn.card vs τ → posterior bn [] vs τ * pr σ = posterior bn [] vs σ * pr τ := by
    intro τ hτ
    by_cases hτp : ∀ w ∈ vs, priorAt bn w (τ w) ≠ 0
    · have h := all τ hτ hτp vs.toFinset (le_refl _)
      have e : ∀ w ∈ vs.toFinset, (vs.toFinset.piecewise τ σ) w = τ w := fun w hw => by
        unfold Finset.piecewise; rw [if_pos hw]
      have e1 : posterior bn [] vs (vs.toFinset.piecewise τ σ) = posterior bn [] vs τ :=
        posterior_dependsOn' hc legal_nil vs _ _ e
      have e2 : pr (vs.toFinset.piecewise τ σ) = pr τ := prod_congr rfl fun w hw => by rw [e w hw]
      rwa [e1, e2] at h
    · push Not at hτp
      obtain ⟨w, hw, h0⟩ := hτp
      have : pr τ = 0 := prod_eq_zero (List.mem_toFinset.2 hw) h0
      rw [prior_joint_zero hc hnn hv hτ hw h0, this]
      ring
  have hs := posterior_sum hc legal_nil hv (Q := vs) hZ
  have h1 : sumOver bn.card vs.toFinset (fun τ => posterior bn [] vs τ * pr σ) σ₀ =
      sumOver bn.card vs.toFinset (fun τ => posterior bn [] vs σ * pr τ) σ₀ :=
    sumOver_congr fun τ hτ => key τ fun w hw => hτ.2 w (List.mem_toFinset.2 hw)
  rw [sumOver_mul_const, hs, one_mul, sumOver_const_mul] at h1
  rw [sumOver_prod_single (card := bn.card) vs.toFinset vs.toFinset (le_refl _) (fun v i => priorAt bn v i),
    Finset.sdiff_self, prod_empty, mul_one,
    prod_eq_one fun w hw => priorAt_sum hc hZ (hv w (List.mem_toFinset.1 hw)), mul_one] at h1
  exact h1.symm

/-- asking for the priors changes nothing -/
theorem posterior_priors (hc : bn.Consistent) (hnn : bn.NonNeg) (hn : vs.Nodup)
    (hv : ∀ v ∈ vs, v ∈ bn.names) (Q : List Name) {σ : Assign}
    (hσ : Legal bn.card Q σ) :
    posterior bn (softened bn (targets vs bn.priorList)) Q σ = posterior bn [] Q σ := by
  have hw : ∀ τ, Legal bn.card bn.names τ →
      weight bn (softened bn (targets vs bn.priorList)) τ = weight bn [] τ := by
    intro τ hτ
    have h1 := weight_append_mul bn [] (softened bn (targets vs bn.priorList)) τ
    rw [List.nil_append] at h1
    have h2 := evLik_targets (q := bn.priorList) hn fun v hm => hτ v (hv v hm)
    unfold evLik at h2
    rw [h1, h2]
    by_cases hp : ∀ w ∈ vs, priorAt bn w (τ w) ≠ 0
    · rw [prod_eq_one, one_mul]
      intro v hm
      have hm := List.mem_toFinset.1 hm
      unfold lift
      rw [if_neg (hp v hm), priorList_getD (hτ v (hv v hm)), div_self (hp v hm)]
    · push Not at hp
      obtain ⟨w, hm, h0⟩ := hp
      have hz := prior_joint_zero hc hnn (vs := bn.names) (fun _ h => h) hτ (hv w hm) h0
      unfold posterior at hz
      simp only [Finset.sdiff_self, sumOver_empty] at hz
      have hwz : weight bn [] τ = 0 := by
        split at hz
        · rename_i h
          rcases div_eq_zero_iff.1 hz with h' | h'
          · exact h'
          · exact absurd h' h.ne'
        · exact hz
      rw [hwz, mul_zero]
  unfold posterior
  have h1 : totalWeight bn (softened bn (targets vs bn.priorList)) σ = totalWeight bn [] σ :=
    sumOver_congr fun τ hτ => hw τ fun v hv => hτ.2 v (List.mem_toFinset.2 hv)
  have h2 : sumOver bn.card (bn.names.toFinset \ Q.toFinset) (weight bn (softened bn (targets vs bn.priorList))) σ =
      sumOver bn.card (bn.names.toFinset \ Q.toFinset) (weight bn []) σ := by
    refine sumOver_congr fun τ hτ => hw τ fun v hm => ?_
    by_cases hq : v ∈ Q
    · rw [hτ.1 v (by simp [hq])]; exact hσ v hq
    · exact hτ.2 v (by simp [hq, hm])
  simp only [h1, h2]

/-- parts of independent variables are independent -/
theorem BN.Independent.sub (hc : bn.Consistent) {σ₀ : Assign} (hZ : 0 < totalWeight bn [] σ₀)
    (hn : vs.Nodup) (hv : ∀ v ∈ vs, v ∈ bn.names) (hi : bn.Independent vs) {ws : List Name} (hwn : ws.Nodup)
    (hw : ∀ v ∈ ws, v ∈ vs) : bn.Independent ws := by
  intro σ hσ
  have hwsub : ws.toFinset ⊆ vs.toFinset := fun v h => by simp at h ⊢; exact hw v h
  rw [← List.prod_toFinset _ hwn, ← posterior_sumOut hc legal_nil hv (S := ws) hw,
    sumOver_congr (G := fun τ => ∏ v ∈ vs.toFinset, priorAt bn v (τ v)) fun τ hτ => ?_,
    sumOver_prod_single (card := bn.card) vs.toFinset _ sdiff_subset (fun v i => priorAt bn v i),
    sdiff_sdiff_right_self, prod_eq_one fun w hw' => priorAt_sum hc hZ (hv w ?_), one_mul]
  · congr 1
    ext v; simp only [inf_eq_inter, mem_inter]
    exact ⟨fun h => h.2, fun h => ⟨hwsub h, h⟩⟩
  · have := (mem_sdiff.1 hw').1
    exact List.mem_toFinset.1 this
  · rw [List.prod_toFinset _ hn]
    refine hi τ fun v hm => ?_
    by_cases h : v ∈ ws
    · rw [hτ.1 v (by simp [h])]; exact hσ v h
    · exact hτ.2 v (by simp [h, hm])

end Primo
