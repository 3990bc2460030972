import Verif.Lemmas.Converge
import Verif.Props.Sampling

/-! # The possible states, how the samplers move between them, and the estimate -/

namespace Primo
open Finset Markov

variable {bn : BN}

theorem lik_hard_agree {values : List Val} (hv : values.Nodup) {x : Val} {i : Nat}
    (h : values[i]? = some x) : lik values (.hard x) i = 1 := by
  unfold lik
  simp only
  rw [if_pos]
  refine ⟨h, fun j hj hj' => ?_⟩
  have hi : i < values.length := (List.getElem?_eq_some_iff.1 h).1
  exact absurd (List.getElem?_inj (hj.trans hi) hv |>.1 (hj'.trans h.symm)) (by omega)

theorem weight_agree (hd : bn.Discrete) {ev : Dict Val} (he : LegalHard bn ev) {σ : Assign}
    (h : Agrees bn ev σ) : weight bn (hardEvidence ev) σ = joint bn σ := by
  unfold weight joint
  have : (((hardEvidence ev).map fun p => lik (bn.lab p.1) p.2 (σ p.1)).prod : ℚ) = 1 := by
    refine List.prod_eq_one fun x hx => ?_
    obtain ⟨p, hp, rfl⟩ := List.mem_map.1 hx
    obtain ⟨q, hq, rfl⟩ := List.mem_map.1 hp
    exact lik_hard_agree (hd.lab_nodup _) (h q.1 q.2 (Dict.get?_of_mem he.nodup hq))
  rw [this, mul_one]

theorem weight_disagree {ev : Dict Val} {σ : Assign} (h : ¬ Agrees bn ev σ) :
    weight bn (hardEvidence ev) σ = 0 := by
  unfold Agrees at h
  push Not at h
  obtain ⟨v, x, h1, h2⟩ := h
  unfold weight
  refine mul_eq_zero_of_right _ (List.prod_eq_zero ?_)
  refine List.mem_map.2 ⟨(v, .hard x), List.mem_map.2 ⟨(v, x), Dict.get?_mem h1, rfl⟩, ?_⟩
  unfold lik
  exact if_neg fun h => h2 h.1

theorem fullPosterior_disagree {ev : Dict Val} {σ : Assign} (h : ¬ Agrees bn ev σ) :
    fullPosterior bn ev σ = 0 := by
  unfold fullPosterior
  rw [posterior_full, weight_disagree h]
  simp

theorem hard_nonneg {ev : Dict Val} : NonNegEvidence (hardEvidence ev) := by
  intro v l hl
  obtain ⟨p, _, hp⟩ := List.mem_map.1 hl
  cases hp

theorem fullPosterior_nonneg (hnn : bn.NonNeg) (ev : Dict Val) (σ : Assign) :
    0 ≤ fullPosterior bn ev σ := by
  unfold fullPosterior
  rw [posterior_full]
  have := weight_nonneg hnn (hard_nonneg (ev := ev)) σ
  split
  · exact_mod_cast div_nonneg this (le_of_lt ‹_›)
  · exact_mod_cast this

theorem Possible.totalWeight_pos (hc : bn.Consistent) (hd : bn.Discrete) (hnn : bn.NonNeg)
    {ev : Dict Val} (he : LegalHard bn ev) {σ : Assign} (h : Possible bn ev σ) :
    0 < totalWeight bn (hardEvidence ev) (fun _ => 0) := by
  have hw : 0 < weight bn (hardEvidence ev) σ := by
    rw [weight_agree hd he h.2.1]
    exact h.2.2
  rw [weight_dependsOn hc he.legal σ (canon bn σ) fun v hv => by
    rw [canon, if_pos (by simpa using hv)]] at hw
  unfold totalWeight
  rw [← sum_states]
  exact lt_of_lt_of_le hw (single_le_sum (f := weight bn (hardEvidence ev)) (fun τ _ =>
    weight_nonneg hnn hard_nonneg τ) (canon_mem h.1))

/-- the instantiations with positive posterior -/
theorem fullPosterior_pos (hc : bn.Consistent) (hd : bn.Discrete) (hnn : bn.NonNeg) {ev : Dict Val}
    (he : LegalHard bn ev) {σ : Assign} (hσ : Legal bn.card bn.names σ) :
    0 < fullPosterior bn ev σ ↔ Possible bn ev σ := by
  constructor
  · intro h
    by_cases ha : Agrees bn ev σ
    · refine ⟨hσ, ha, ?_⟩
      rw [← weight_agree hd he ha]
      refine lt_of_le_of_ne (weight_nonneg hnn hard_nonneg σ) fun e => h.ne' ?_
      unfold fullPosterior
      rw [posterior_full, ← e]
      simp
    · rw [fullPosterior_disagree ha] at h
      exact absurd h (lt_irrefl 0)
  · intro h
    have hT := h.totalWeight_pos hc hd hnn he
    unfold fullPosterior
    rw [posterior_full, totalWeight_const hc he.legal σ (fun _ => 0), if_pos hT,
      weight_agree hd he h.2.1]
    exact_mod_cast div_pos h.2.2 hT

theorem joint_nonneg (hnn : bn.NonNeg) (σ : Assign) : 0 ≤ joint bn σ := by
  unfold joint
  refine List.prod_nonneg fun x hx => ?_
  obtain ⟨n, hn, rfl⟩ := List.mem_map.1 hx
  exact NDArray.get_nonneg (hnn n hn) _

theorem joint_pos_iff (hnn : bn.NonNeg) {σ : Assign} :
    0 < joint bn σ ↔ ∀ n ∈ bn, 0 < n.entry σ := by
  constructor
  · intro h n hn
    refine lt_of_le_of_ne (NDArray.get_nonneg (hnn n hn) _) fun e => h.ne' ?_
    unfold joint
    exact List.prod_eq_zero (List.mem_map.2 ⟨n, hn, e.symm⟩)
  · intro h
    unfold joint
    refine List.prod_pos fun x hx => ?_
    obtain ⟨n, hn, rfl⟩ := List.mem_map.1 hx
    exact h n hn

theorem joint_congr (hc : bn.Consistent) {σ τ : Assign} (h : ∀ v ∈ bn.names, σ v = τ v) :
    joint bn σ = joint bn τ := by
  unfold joint
  congr 1
  refine List.map_congr_left fun n hn => ?_
  unfold NodeV.entry
  rw [h _ (List.mem_map_of_mem hn), List.map_congr_left fun p hp => h p (hc.parents_mem n hn p hp)]

theorem Possible.congr (hc : bn.Consistent) {ev : Dict Val} (he : LegalHard bn ev) {σ τ : Assign}
    (h : ∀ v ∈ bn.names, σ v = τ v) (hσ : Possible bn ev σ) : Possible bn ev τ := by
  refine ⟨fun v hv => h v hv ▸ hσ.1 v hv, fun v x hx => ?_, joint_congr hc h ▸ hσ.2.2⟩
  rw [← h v (he.mem (v, x) (Dict.get?_mem hx))]
  exact hσ.2.1 v x hx

/-- the possible states -/
noncomputable abbrev possStates (bn : BN) (ev : Dict Val) : Finset Assign :=
  support bn (fullPosterior bn ev)

theorem mem_possStates (hc : bn.Consistent) (hd : bn.Discrete) (hnn : bn.NonNeg) {ev : Dict Val}
    (he : LegalHard bn ev) {σ : Assign} :
    σ ∈ possStates bn ev ↔ σ ∈ states bn ∧ Possible bn ev σ := by
  rw [mem_support]
  exact and_congr_right fun h => fullPosterior_pos hc hd hnn he (mem_states.1 h).1

theorem Possible.canon_mem (hc : bn.Consistent) (hd : bn.Discrete) (hnn : bn.NonNeg)
    {ev : Dict Val} (he : LegalHard bn ev) {σ : Assign} (h : Possible bn ev σ) :
    canon bn σ ∈ possStates bn ev :=
  (mem_possStates hc hd hnn he).2 ⟨Primo.canon_mem h.1,
    h.congr hc he fun v hv => by rw [canon, if_pos hv]⟩

theorem possStates_sub_evStates (hc : bn.Consistent) (hd : bn.Discrete) (hnn : bn.NonNeg)
    {ev : Dict Val} (he : LegalHard bn ev) {σ : Assign} (h : σ ∈ possStates bn ev) :
    σ ∈ evStates bn ev := by
  obtain ⟨h1, h2⟩ := (mem_possStates hc hd hnn he).1 h
  exact mem_evStates.2 ⟨h1, h2.2.1⟩

/-! ## the moves of the samplers -/

/-- the variables that are not observed -/
abbrev freeNodes (bn : BN) (ev : Dict Val) : List NodeV := bn.filter fun n => n.name ∉ ev.keys

theorem mem_freeNodes {ev : Dict Val} {n : NodeV} :
    n ∈ freeNodes bn ev ↔ n ∈ bn ∧ n.name ∉ ev.keys := by
  rw [List.mem_filter, decide_eq_true_eq]

theorem freeNodes_ne {ev : Dict Val} {full : Bool}
    (hfull : full = false → ∃ n ∈ bn, n.name ∉ ev.keys) (h : full = false) :
    freeNodes bn ev ≠ [] := by
  obtain ⟨n, h1, h2⟩ := hfull h
  exact List.ne_nil_of_mem (mem_freeNodes.2 ⟨h1, h2⟩)

/-- the kernels of the two samplers -/
theorem step_kernels (hc : bn.Consistent) (hl : bn.Linked) (hd : bn.Discrete) (hnn : bn.NonNeg)
    {ev : Dict Val} (he : LegalHard bn ev) {tm : Mcmc.Transition} (htm : tm ≠ .base) :
    ∃ (site : NodeV → Dict Val → Rand (Except PyErr (Dict Val))) (K : NodeV → Assign → Nat → ℝ),
      (∀ vars full, Mcmc.step tm bn vars full = Mcmc.siteStep site vars full) ∧
      ∀ n ∈ freeNodes bn ev, IsKernel bn (fullPosterior bn ev) n.name (site n) (K n) ∧
        (tm = .metropolisHastings →
          (∀ σ, Legal bn.card bn.names σ → 0 < K n σ (σ n.name)) ∧
          ∀ σ, Legal bn.card bn.names σ → blanket bn n σ = 0 → ∀ b < bn.card n.name, 0 < K n σ b) := by
  cases tm with
  | base => exact absurd rfl htm
  | gibbs =>
    have h : ∀ n ∈ freeNodes bn ev, ∃ K, IsKernel bn (fullPosterior bn ev) n.name
        (Mcmc.gibbsSite bn n) K := fun n hn => by
      obtain ⟨h1, h2⟩ := mem_freeNodes.1 hn
      exact gibbs_kernel hc hl hd hnn h1 (fullPosterior_proportional hc hl he h1 h2)
    choose! K hK using h
    exact ⟨Mcmc.gibbsSite bn, K, fun _ _ => rfl, fun n hn => ⟨hK n hn, fun h => by cases h⟩⟩
  | metropolisHastings =>
    have h : ∀ n ∈ freeNodes bn ev, ∃ K, IsKernel bn (fullPosterior bn ev) n.name
        (Mcmc.mhSite bn n) K ∧ (∀ σ, Legal bn.card bn.names σ → 0 < K σ (σ n.name)) ∧
          ∀ σ, Legal bn.card bn.names σ → blanket bn n σ = 0 → ∀ b < bn.card n.name, 0 < K σ b :=
      fun n hn => by
        obtain ⟨h1, h2⟩ := mem_freeNodes.1 hn
        exact mh_moves hc hl hd hnn h1 (fullPosterior_proportional hc hl he h1 h2)
    choose! K hK using h
    exact ⟨Mcmc.mhSite bn, K, fun _ _ => rfl, fun n hn => ⟨(hK n hn).1, fun _ => (hK n hn).2⟩⟩

section Moves
variable {ev : Dict Val} {site : NodeV → Dict Val → Rand (Except PyErr (Dict Val))}
  {K : NodeV → Assign → Nat → ℝ}

theorem kern_of (hK : ∀ n ∈ freeNodes bn ev, IsKernel bn (fullPosterior bn ev) n.name (site n) (K n)) :
    ∀ n ∈ freeNodes bn ev, Kern bn (freeNames bn ev) (fullPosterior bn ev) (site n)
      (siteMatrix bn n.name (K n)) := fun n hn =>
  (hK n hn).kern (List.mem_map_of_mem (mem_freeNodes.1 hn).1) (List.mem_map_of_mem hn)

/-- one change of an unobserved variable between possible states has positive probability -/
theorem Connected.reach (hc : bn.Consistent) (hd : bn.Discrete) (hnn : bn.NonNeg)
    (he : LegalHard bn ev)
    (hK : ∀ n ∈ freeNodes bn ev, IsKernel bn (fullPosterior bn ev) n.name (site n) (K n))
    {σ τ : Assign} (hσ : Possible bn ev σ)
    (h : Relation.ReflTransGen (fun a b => Possible bn ev b ∧ OneChange bn a b) σ τ) :
    Possible bn ev τ ∧ Relation.ReflTransGen (fun a b => b ∈ possStates bn ev ∧
      ∃ n ∈ freeNodes bn ev, 0 < siteMatrix bn n.name (K n) a b) (canon bn σ) (canon bn τ) := by
  induction h with
  | refl => exact ⟨hσ, .refl⟩
  | @tail a b _ hab ih =>
    obtain ⟨hb, v, hv⟩ := hab
    refine ⟨hb, ih.2.trans ?_⟩
    have ha' := ih.1.canon_mem hc hd hnn he
    have hb' := hb.canon_mem hc hd hnn he
    have hw : ∀ w, w ≠ v → canon bn b w = canon bn a w := fun w hw => by
      unfold canon
      split
      · exact hv w ‹_› hw
      · rfl
    by_cases hf : v ∈ freeNames bn ev
    · obtain ⟨n, hn, rfl⟩ := List.mem_map.1 hf
      exact .single ⟨hb', n, hn, (hK n hn).pos (List.mem_map_of_mem (mem_freeNodes.1 hn).1)
        (support_subset ha') (support_subset hb') hw (mem_support.1 hb').2⟩
    · have : canon bn b = canon bn a := funext fun w => by
        by_cases e : w = v
        · subst e
          exact evStates_agree hd (possStates_sub_evStates hc hd hnn he ha')
            (possStates_sub_evStates hc hd hnn he hb') hf
        · exact hw w e
      rw [this]

/-- the possible states form an ergodic class if they are connected -/
theorem step_ergodic (hc : bn.Consistent) (hl : bn.Linked) (hd : bn.Discrete) (hnn : bn.NonNeg)
    (he : LegalHard bn ev) (hcon : Connected bn ev) {σ₀ : Assign} (hσ₀ : Possible bn ev σ₀)
    {tm : Mcmc.Transition} (htm : tm ≠ .base) {full : Bool}
    (hfull : full = false → ∃ n ∈ bn, n.name ∉ ev.keys) :
    ∃ P m δ, Ergodic bn (freeNames bn ev) (possStates bn ev) (fullPosterior bn ev)
      (Mcmc.step tm bn (freeNodes bn ev) full) P m δ := by
  obtain ⟨site, K, hstep, hK⟩ := step_kernels hc hl hd hnn he htm
  have hK' := fun n hn => (hK n hn).1
  have h0 := fun σ (_ : σ ∈ states bn) => fullPosterior_nonneg hnn ev σ
  have hkern := kern_of hK'
  have hy := hσ₀.canon_mem hc hd hnn he
  obtain ⟨m, δ, h⟩ := siteStep_ergodic (F := freeNames bn ev) (C := possStates bn ev)
    (full := full) hkern support_subset
    (fun n hn => support_closed (hkern n hn) h0)
    (fun τ hτ hτ' => le_antisymm (not_lt.1 fun h => hτ' (mem_support.2 ⟨hτ, h⟩)) (h0 τ hτ))
    (fun n hn σ hσ => (hK' n hn).pos (List.mem_map_of_mem (mem_freeNodes.1 hn).1)
      (support_subset hσ) (support_subset hσ) (fun _ _ => rfl) (mem_support.1 hσ).2) hy
    (fun x hx => by
      obtain ⟨h1, h2⟩ := (mem_possStates hc hd hnn he).1 hx
      have := (Connected.reach hc hd hnn he hK' h2 (hcon x _ h2 hσ₀)).2
      rwa [canon_eq h1] at this) (freeNodes_ne hfull)
  rw [hstep]
  exact ⟨_, m, δ, h⟩

/-- Metropolis-Hastings leaves the impossible states -/
theorem reach_possible (hc : bn.Consistent) (hl : bn.Linked) (hd : bn.Discrete) (hnn : bn.NonNeg)
    (he : LegalHard bn ev)
    (hM : ∀ n ∈ freeNodes bn ev, ∀ σ, Legal bn.card bn.names σ → blanket bn n σ = 0 →
      ∀ b < bn.card n.name, 0 < K n σ b) {y : Assign} (hy : y ∈ possStates bn ev) :
    ∀ (k : Nat) (x : Assign), x ∈ evStates bn ev →
      (bn.names.toFinset.filter fun v => x v ≠ y v).card ≤ k →
      ∃ z ∈ possStates bn ev, Relation.ReflTransGen (fun a b => b ∈ evStates bn ev ∧
        ∃ n ∈ freeNodes bn ev, 0 < siteMatrix bn n.name (K n) a b) x z := by
  intro k
  induction k with
  | zero =>
    intro x hx hk
    refine ⟨y, hy, ?_⟩
    have hxs := (mem_evStates.1 hx).1
    have : x = y := funext fun v => by
      by_cases hv : v ∈ bn.names
      · by_contra hne
        have h := card_eq_zero.1 (Nat.le_zero.1 hk)
        exact notMem_empty v (h ▸ mem_filter.2 ⟨by simpa using hv, hne⟩)
      · rw [(mem_states.1 hxs).2 v hv, (mem_states.1 (support_subset hy)).2 v hv]
    rw [this]
  | succ k ih =>
    intro x hx hk
    obtain ⟨hxs, hxa⟩ := mem_evStates.1 hx
    by_cases hp : x ∈ possStates bn ev
    · exact ⟨x, hp, .refl⟩
    · have hnp : ¬ ∀ n ∈ bn, 0 < n.entry x := fun h =>
        hp ((mem_possStates hc hd hnn he).2 ⟨hxs, (mem_states.1 hxs).1, hxa,
          (joint_pos_iff hnn).2 h⟩)
      push Not at hnp
      obtain ⟨n, hn, hnx⟩ := hnp
      have hnx0 : n.entry x = 0 := le_antisymm hnx (NDArray.get_nonneg (hnn n hn) _)
      have hpy := ((mem_possStates hc hd hnn he).1 hy).2
      have hny := (joint_pos_iff hnn).1 hpy.2.2 n hn
      have hdiff : ∃ v, (v = n.name ∨ v ∈ n.parentOrder) ∧ x v ≠ y v := by
        by_contra hcon
        push Not at hcon
        refine hny.ne' ?_
        rw [← hnx0]
        unfold NodeV.entry
        rw [hcon n.name (Or.inl rfl), List.map_congr_left fun p hp => hcon p (Or.inr hp)]
      obtain ⟨v, hvf, hvne⟩ := hdiff
      have hvn : v ∈ bn.names := by
        rcases hvf with rfl | h
        · exact List.mem_map_of_mem hn
        · exact hc.parents_mem n hn v h
      have hyev := possStates_sub_evStates hc hd hnn he hy
      have hvev : v ∉ ev.keys := fun h => hvne (evStates_agree hd hyev hx fun hf =>
        (mem_freeNames.1 hf).2 h)
      obtain ⟨m, hm, rfl⟩ := BN.exists_of_mem_names hvn
      have hmf : m ∈ freeNodes bn ev := mem_freeNodes.2 ⟨hm, hvev⟩
      have hbl : blanket bn m x = 0 := by
        unfold blanket
        rcases hvf with h | h
        · have : m = n := by
            have := BN.getNode_ok hc.nodup hm
            rw [h, BN.getNode_ok hc.nodup hn] at this
            cases this; rfl
          rw [this, hnx0, zero_mul]
        · refine mul_eq_zero_of_right _ (List.prod_eq_zero (List.mem_map.2 ⟨n, ?_, hnx0⟩))
          exact (mem_childNodes hc hl hm).2 ⟨hn, h⟩
      have hlt := (mem_states.1 (support_subset hy)).1 _ hvn
      have hnext := evStates_update hx hvn hvev hlt
      obtain ⟨z, hz, hreach⟩ := ih (Function.update x m.name (y m.name)) hnext (by
        have : (bn.names.toFinset.filter fun v => Function.update x m.name (y m.name) v ≠ y v) ⊂
            bn.names.toFinset.filter fun v => x v ≠ y v := by
          refine (ssubset_iff_of_subset fun w hw => ?_).2 ⟨m.name, ?_, ?_⟩
          · obtain ⟨h1, h2⟩ := mem_filter.1 hw
            refine mem_filter.2 ⟨h1, ?_⟩
            by_cases e : w = m.name
            · subst e; rw [Function.update_self] at h2; exact absurd rfl h2
            · rwa [Function.update_of_ne e] at h2
          · exact mem_filter.2 ⟨by simpa using hvn, hvne⟩
          · intro h
            have := (mem_filter.1 h).2
            rw [Function.update_self] at this
            exact this rfl
        have := card_lt_card this
        omega)
      refine ⟨z, hz, .head ⟨hnext, m, hmf, ?_⟩ hreach⟩
      rw [siteMatrix_eq hvn _ (evStates_subset ev hnext) fun w hw => Function.update_of_ne hw ..,
        Function.update_self]
      exact hM m hmf x (mem_states.1 hxs).1 hbl _ hlt

/-- for Metropolis-Hastings all states that agree with the evidence lead to the class -/
theorem step_ergodic_mh (hc : bn.Consistent) (hl : bn.Linked) (hd : bn.Discrete) (hnn : bn.NonNeg)
    (he : LegalHard bn ev) (hcon : Connected bn ev) {σ₀ : Assign} (hσ₀ : Possible bn ev σ₀)
    {full : Bool} (hfull : full = false → ∃ n ∈ bn, n.name ∉ ev.keys) :
    ∃ P m δ, Ergodic bn (freeNames bn ev) (evStates bn ev) (fullPosterior bn ev)
      (Mcmc.step .metropolisHastings bn (freeNodes bn ev) full) P m δ := by
  obtain ⟨site, K, hstep, hK⟩ := step_kernels hc hl hd hnn he
    (tm := .metropolisHastings) (by decide)
  have hK' := fun n hn => (hK n hn).1
  have hkern := kern_of hK'
  have hy := hσ₀.canon_mem hc hd hnn he
  obtain ⟨m, δ, h⟩ := siteStep_ergodic (F := freeNames bn ev) (C := evStates bn ev)
    (full := full) hkern (evStates_subset ev)
    (fun n hn σ hσ τ hτ hτ' => evStates_closed (hkern n hn) hσ hτ hτ')
    (fun τ hτ hτ' => fullPosterior_disagree fun h => hτ' (mem_evStates.2 ⟨hτ, h⟩))
    (fun n hn σ hσ => by
      have hs := evStates_subset ev hσ
      rw [siteMatrix_eq (List.mem_map_of_mem (mem_freeNodes.1 hn).1) _ hs fun _ _ => rfl]
      exact ((hK n hn).2 rfl).1 σ (mem_states.1 hs).1)
    (possStates_sub_evStates hc hd hnn he hy)
    (fun x hx => by
      obtain ⟨z, hz, h1⟩ := reach_possible hc hl hd hnn he (fun n hn => ((hK n hn).2 rfl).2) hy _ x hx
        le_rfl
      obtain ⟨h2, h3⟩ := (mem_possStates hc hd hnn he).1 hz
      have h4 := (Connected.reach hc hd hnn he hK' h3 (hcon z _ h3 hσ₀)).2
      rw [canon_eq h2] at h4
      exact h1.trans (Relation.ReflTransGen.mono (fun a b hab =>
        ⟨possStates_sub_evStates hc hd hnn he hab.1, hab.2⟩) _ _ h4)) (freeNodes_ne hfull)
  rw [hstep]
  exact ⟨_, m, δ, h⟩

/-- the possible states that are reached from `σ` form a set that the samplers do not leave -/
theorem class_closed (hc : bn.Consistent) (hl : bn.Linked) (hd : bn.Discrete) (hnn : bn.NonNeg)
    (he : LegalHard bn ev) {σ : Assign} {tm : Mcmc.Transition} (htm : tm ≠ .base) {full : Bool}
    (hfull : full = false → ∃ n ∈ bn, n.name ∉ ev.keys) {C : Finset Assign}
    (hC : ∀ ρ, ρ ∈ C ↔ ρ ∈ possStates bn ev ∧
      Relation.ReflTransGen (fun a b => Possible bn ev b ∧ OneChange bn a b) σ ρ) :
    ∃ P, Kern bn (freeNames bn ev) (fullPosterior bn ev)
        (Mcmc.step tm bn (freeNodes bn ev) full) P ∧
      ∀ ρ ∈ C, ∀ τ ∈ states bn, τ ∉ C → P ρ τ = 0 := by
  obtain ⟨site, K, hstep, hK⟩ := step_kernels hc hl hd hnn he htm
  have hK' := fun n hn => (hK n hn).1
  have h0 := fun σ (_ : σ ∈ states bn) => fullPosterior_nonneg hnn ev σ
  have hkern := kern_of hK'
  rw [hstep]
  refine ⟨_, Kern.step hkern (freeNodes_ne hfull), stepM_closed fun n hn ρ hρ τ hτ hτC => ?_⟩
  by_contra hne
  obtain ⟨h1, h2⟩ := (hC ρ).1 hρ
  have hτp : τ ∈ possStates bn ev := by
    by_contra h
    exact hne (support_closed (hkern n hn) h0 ρ h1 τ hτ h)
  refine hτC ((hC τ).2 ⟨hτp, h2.tail ⟨((mem_possStates hc hd hnn he).1 hτp).2, n.name, ?_⟩⟩)
  intro w _ hw
  have := (hK' n hn).kern (F := [n.name]) (List.mem_map_of_mem (mem_freeNodes.1 hn).1) (by simp)
  exact this.keep ρ (support_subset h1) τ hτ hne w (by simpa using hw)

end Moves

/-! ## the estimate -/

theorem countP_reads (hd : bn.Discrete) {vars : List Name} (hvars : ∀ v ∈ vars, v ∈ bn.names)
    {vv : Dict (List Val)} (v3 : ∀ v, v ∈ vv.keys ↔ v ∈ vars) (v4 : ∀ p ∈ vv, p.2 = bn.lab p.1)
    (σ : Assign) {ds : List (Dict Val)} {τs : List Assign}
    (h : List.Forall₂ (fun d τ => τ ∈ states bn ∧ Reads bn d τ) ds τs) :
    agreeing vv ds σ = τs.countP fun τ => decide (∀ v ∈ vars, τ v = σ v) := by
  unfold agreeing
  induction h with
  | nil => rfl
  | @cons d τ ds τs hdτ _ ih =>
    rw [List.countP_cons, List.countP_cons, ih]
    have : (∀ p ∈ vv, d.get? p.1 = p.2[σ p.1]?) ↔ ∀ v ∈ vars, τ v = σ v := by
      constructor
      · intro h v hv
        obtain ⟨x, hx⟩ := Dict.get?_isSome.2 ((v3 v).2 hv)
        have h1 := h _ (Dict.get?_mem hx)
        rw [v4 _ (Dict.get?_mem hx)] at h1
        exact List.getElem?_inj ((mem_states.1 hdτ.1).1 v (hvars v hv)) (hd.lab_nodup v) |>.1
          ((hdτ.2 v (hvars v hv)).symm.trans h1)
      · intro h p hp
        have hpv : p.1 ∈ vars := (v3 _).1 (List.mem_map_of_mem hp)
        rw [v4 p hp, hdτ.2 _ (hvars _ hpv), h _ hpv]
    simp only [this]

open Classical in
/-- deviation of one state from the posterior probability of the instantiation `ρ` of `vars` -/
noncomputable def deviation (bn : BN) (ev : Dict Val) (vars : List Name) (ρ τ : Assign) : ℝ :=
  (if ∀ v ∈ vars, τ v = ρ v then 1 else 0) - ((posterior bn (hardEvidence ev) vars ρ : ℚ) : ℝ)

theorem sum_deviation (ev : Dict Val) (vars : List Name) (ρ : Assign) (τs : List Assign) :
    (τs.map (deviation bn ev vars ρ)).sum =
      (τs.countP fun τ => decide (∀ v ∈ vars, τ v = ρ v) : ℕ) -
        τs.length * ((posterior bn (hardEvidence ev) vars ρ : ℚ) : ℝ) := by
  classical
  induction τs with
  | nil => simp
  | cons τ τs ih =>
    rw [List.map_cons, List.sum_cons, ih, List.countP_cons, deviation, List.length_cons]
    by_cases h : ∀ v ∈ vars, τ v = ρ v
    · rw [if_pos h, if_pos (decide_eq_true h)]; push_cast; ring
    · rw [if_neg h, if_neg (by simpa using h)]; push_cast; ring

theorem mean_deviation (hc : bn.Consistent) {ev : Dict Val} (he : LegalHard bn ev)
    (hmass : ∑ σ ∈ states bn, fullPosterior bn ev σ = 1) {vars : List Name}
    (hvars : ∀ v ∈ vars, v ∈ bn.names) {ρ : Assign} (hρ : Legal bn.card vars ρ) :
    ∑ τ ∈ states bn, fullPosterior bn ev τ * deviation bn ev vars ρ τ = 0 := by
  classical
  unfold deviation
  simp only [mul_sub, sum_sub_distrib, ← sum_mul]
  rw [hmass, one_mul, ← posterior_marginal hc he.legal hvars hρ, ← sum_states, Rat.cast_sum,
    sub_eq_zero]
  refine sum_congr rfl fun τ _ => ?_
  unfold fullPosterior
  split <;> simp

theorem posterior_query_congr (hc : bn.Consistent) {ev : Dict Evidence} (he : LegalEvidence bn ev)
    {Q : List Name} {σ ρ : Assign} (h : ∀ v ∈ Q, σ v = ρ v) :
    posterior bn ev Q σ = posterior bn ev Q ρ := by
  unfold posterior
  have h1 := (weight_dependsOn hc he).sumOver (card := bn.card)
    (s := bn.names.toFinset \ Q.toFinset) σ ρ (fun v hv => by
      rw [mem_sdiff, mem_sdiff, not_and, not_not] at hv
      exact h v (by simpa using hv.2 hv.1))
  simp only [totalWeight_const hc he σ ρ, h1]

/-- the table computed from a list of states -/
theorem fromSamples_freq (hd : bn.Discrete) {vars : List Name}
    (hvars : ∀ v ∈ vars, v ∈ bn.names) {vv : Dict (List Val)} (v2 : vv.keys.Nodup)
    (v3 : ∀ v, v ∈ vv.keys ↔ v ∈ vars) (v4 : ∀ p ∈ vv, p.2 = bn.lab p.1) {N : Nat}
    (hN : 0 < N) {ds : List (Dict Val)} {τs : List Assign} (hlen : τs.length = N)
    (hf : List.Forall₂ (fun d τ => τ ∈ states bn ∧ Reads bn d τ) ds τs) :
    ∃ f, Factor.fromSamples ds vv = .ok f ∧ (∀ v, v ∈ f.variableOrder ↔ v ∈ vars) ∧
      ∀ σ, Legal bn.card vars σ →
        f.eval σ = (τs.countP fun τ => decide (∀ v ∈ vars, τ v = σ v) : ℕ) / (N : ℚ) := by
  have hdl : ds.length = N := hf.length_eq.trans hlen
  have hgood : ∀ st ∈ ds, ∃ τ ∈ states bn, Reads bn st τ := by
    intro st hst
    obtain ⟨i, hi, rfl⟩ := List.getElem_of_mem hst
    exact ⟨_, hf.get hi (hf.length_eq ▸ hi)⟩
  have hmemv : ∀ p ∈ vv, p.1 ∈ bn.names := fun p hp =>
    hvars _ ((v3 _).1 (List.mem_map_of_mem hp))
  obtain ⟨f, f1, f2, f3, f4, f5, f6, f7⟩ := C12_from_samples (card := bn.card) vv ds v2
    (fun p hp => by rw [v4 p hp]; exact hd.lab_nodup _)
    (fun p hp => by rw [v4 p hp]; rfl) (by rintro rfl; rw [List.length_nil] at hdl; omega) (by
      intro st hst p hp
      obtain ⟨τ, hτ, hr'⟩ := hgood st hst
      have hlt : τ p.1 < (bn.lab p.1).length := (mem_states.1 hτ).1 p.1 (hmemv p hp)
      refine ⟨(bn.lab p.1)[τ p.1], ?_, ?_⟩
      · rw [hr' p.1 (hmemv p hp), List.getElem?_eq_getElem hlt]
      · rw [v4 p hp]; exact List.getElem_mem _)
  refine ⟨f, f1, fun v => by rw [f3]; exact v3 v, fun σ hσ => ?_⟩
  rw [f5 σ fun v hv => hσ v ((v3 v).1 hv), countP_reads hd hvars v3 v4 σ hf, hdl]

theorem closeTo_fromSamples (hd : bn.Discrete) {ev : Dict Val} {vars : List Name}
    (hvars : ∀ v ∈ vars, v ∈ bn.names) {vv : Dict (List Val)} (v2 : vv.keys.Nodup)
    (v3 : ∀ v, v ∈ vv.keys ↔ v ∈ vars) (v4 : ∀ p ∈ vv, p.2 = bn.lab p.1) (ε : ℝ) {N : Nat}
    (hN : 0 < N) {ds : List (Dict Val)} {τs : List Assign} (hlen : τs.length = N)
    (hf : List.Forall₂ (fun d τ => τ ∈ states bn ∧ Reads bn d τ) ds τs) :
    ∃ f, Factor.fromSamples ds vv = .ok f ∧ (CloseTo bn ev vars ε (.ok f) ↔
      ∀ σ, Legal bn.card vars σ →
        |(τs.countP fun τ => decide (∀ v ∈ vars, τ v = σ v) : ℕ) / (N : ℝ) -
          ((posterior bn (hardEvidence ev) vars σ : ℚ) : ℝ)| < ε) := by
  obtain ⟨f, f1, f2, f3⟩ := fromSamples_freq hd hvars v2 v3 v4 hN hlen hf
  refine ⟨f, f1, ?_, fun hh => ⟨f, rfl, f2, fun σ hσ => ?_⟩⟩
  · rintro ⟨f', e, _, hf'⟩ σ hσ
    cases e
    have := hf' σ hσ
    rw [f3 σ hσ] at this
    push_cast at this
    exact this
  · rw [f3 σ hσ]
    push_cast
    exact hh σ hσ

open Classical in
/-- 1 if the relative frequencies of `τs` are closer than `ε` to the posterior of `vars` -/
noncomputable def closeFreq (bn : BN) (ev : Dict Val) (vars : List Name) (ε : ℝ) (N : Nat)
    (τs : List Assign) : ℝ :=
  if ∀ σ, Legal bn.card vars σ →
    |(τs.countP fun τ => decide (∀ v ∈ vars, τ v = σ v) : ℕ) / (N : ℝ) -
      ((posterior bn (hardEvidence ev) vars σ : ℚ) : ℝ)| < ε then 1 else 0

theorem closeFreq_le (ev : Dict Val) (vars : List Name) (ε : ℝ) (N : Nat) (τs : List Assign) :
    closeFreq bn ev vars ε N τs ≤ 1 := by
  unfold closeFreq
  split <;> norm_num

/-- the probability that the estimate is close, as a mean over the initial states -/
theorem prob_marginals (hc : bn.Consistent) (hl : bn.Linked) (ha : bn.Acyclic) (hd : bn.Discrete)
    (hnn : bn.NonNeg) (hs : bn.Stochastic) {tm : Mcmc.Transition} {full : Bool} {vars : List Name}
    (hvars : ∀ v ∈ vars, v ∈ bn.names) {evidence : Option (Dict Val)}
    (he : LegalHard bn (evidence.getD [])) {F : List Name} {π : Assign → ℝ}
    {P : Assign → Assign → ℝ}
    (h : Kern bn F π (Mcmc.step tm bn (freeNodes bn (evidence.getD [])) full) P) (burnIn : Nat)
    {N : Nat} (hN : 0 < N) (ε : ℝ) :
    (Mcmc.marginals bn ⟨tm, burnIn, full⟩ N vars evidence).prob
        (CloseTo bn (evidence.getD []) vars ε) =
      ∑ τ ∈ states bn, (bn.getSample (evidence.getD [])).prob (Returns bn τ) *
        (act (states bn) P)^[burnIn]
          (path (states bn) P N (closeFreq bn (evidence.getD []) vars ε N)) τ := by
  classical
  set ev := evidence.getD [] with hev
  obtain ⟨vv, v1, v2, v3, v4⟩ := variableValues_spec hc hvars
  unfold Mcmc.marginals
  rw [show (Rand.prob _ _ : ℝ) = Rand.expect _ _ from rfl]
  simp only
  rw [Rand.expect_andThen]
  refine expect_getSample hc hl ha hd hnn hs he fun d σ hσ hr => ?_
  show Rand.expect _ (Rand.andThen (Rand.lift (Mcmc.variableValues bn vars)) _) = _
  rw [v1, Rand.andThen_ok, Rand.expect_andThen]
  unfold Mcmc.Sampler.generate
  rw [← hev, variablesToChange_some, Rand.andThen_ok, Rand.expect_andThen]
  refine h.burn burnIn (fun d' σ' hσ' hr' => ?_) hσ hr
  refine h.collect N (fun ds τs hlen hf => ?_) hσ' hr'
  obtain ⟨f, f1, key⟩ := closeTo_fromSamples hd (ev := ev) hvars v2 v3 v4 ε hN hlen hf
  rw [Rand.rest, f1]
  show (if CloseTo bn ev vars ε (.ok f) then (1 : ℝ) else 0) = _
  exact if_congr key rfl rfl

/-- Chebyshev's inequality for the relative frequencies along a chain that stays in `C`; the instantiations `R`
stand for those of the query variables -/
theorem close_of_moment_on (hc : bn.Consistent) {ev : Dict Val} (he : LegalHard bn ev) {C : Finset Assign} {P : Assign → Assign → ℝ} (hsub : C ⊆ states bn)
    (hcl : ∀ σ ∈ C, ∀ τ ∈ states bn, τ ∉ C → P σ τ = 0) (hP : Stoch C P)
    {vars : List Name} {R : Finset Assign}
    (hR : ∀ ρ, Legal bn.card vars ρ → ∃ ρ' ∈ R, ∀ v ∈ vars, ρ' v = ρ v) {N : Nat} {ε : ℝ} (hN : 0 < N) (hε : 0 < ε)
    {M : Assign → ℝ} {σ : Assign} (hσ : σ ∈ C) (hM : ∀ ρ ∈ R,
      path C P N (fun τs => (τs.map (deviation bn ev vars ρ)).sum ^ 2) σ ≤ M ρ) :
    1 - (∑ ρ ∈ R, M ρ) / (N * ε) ^ 2 ≤
      path (states bn) P N (closeFreq bn ev vars ε N) σ := by
  classical
  have hNR : (0 : ℝ) < N := by exact_mod_cast hN
  set post : Assign → ℝ := fun ρ => ((posterior bn (hardEvidence ev) vars ρ : ℚ) : ℝ) with hpost
  set H : List Assign → ℝ := fun τs => if ∀ σ, Legal bn.card vars σ →
    |(τs.countP fun τ => decide (∀ v ∈ vars, τ v = σ v) : ℕ) / (N : ℝ) - post σ| < ε then 1 else 0
    with hH
  show _ ≤ path (states bn) P N H σ
  rw [path_restrict hsub hcl N H σ hσ]
  set c : ℝ := (N * ε)⁻¹ ^ 2 with hcdef
  have hc0 : 0 ≤ c := sq_nonneg _
  have h1 : path C P N (fun τs => 1 + (-c) * ∑ ρ ∈ R,
      (τs.map (deviation bn ev vars ρ)).sum ^ 2) σ ≤ path C P N H σ := by
    refine hP.path_mono N (fun τs hlen _ => ?_) hσ
    have hsum0 : 0 ≤ ∑ ρ ∈ R, (τs.map (deviation bn ev vars ρ)).sum ^ 2 :=
      sum_nonneg fun _ _ => sq_nonneg _
    rw [hH]
    dsimp only
    split
    · nlinarith
    · next hbad =>
      push Not at hbad
      obtain ⟨ρ, hρ, hge⟩ := hbad
      -- the corresponding state
      obtain ⟨ρ', hmem, hρ'⟩ := hR ρ hρ
      have hle := single_le_sum (f := fun ρ => (τs.map (deviation bn ev vars ρ)).sum ^ 2)
        (fun _ _ => sq_nonneg _) hmem
      rw [sum_deviation, hlen, posterior_query_congr hc he.legal hρ'] at hle
      have hcnt : (τs.countP fun τ => decide (∀ v ∈ vars, τ v = ρ' v)) =
          τs.countP fun τ => decide (∀ v ∈ vars, τ v = ρ v) := by
        refine List.countP_congr fun τ _ => ?_
        simp only [decide_eq_true_eq]
        exact forall₂_congr fun v hv => by rw [hρ' v hv]
      rw [hcnt] at hle
      set x : ℝ := ((τs.countP fun τ => decide (∀ v ∈ vars, τ v = ρ v) : ℕ) : ℝ) with hx
      have hx' : N * (x / N - post ρ) = x - N * post ρ := by field_simp
      have h2 : N * ε ≤ |x - N * post ρ| := by
        rw [← hx', abs_mul, abs_of_pos hNR]
        exact mul_le_mul_of_nonneg_left hge hNR.le
      have h3 : (N * ε) ^ 2 ≤ (x - N * post ρ) ^ 2 := by
        rw [← sq_abs (x - N * post ρ)]
        exact pow_le_pow_left₀ (by positivity) h2 2
      have h4 : 1 ≤ c * ∑ ρ ∈ R, (τs.map (deviation bn ev vars ρ)).sum ^ 2 := by
        calc (1 : ℝ) = c * (N * ε) ^ 2 := by rw [hcdef]; field_simp
          _ ≤ _ := mul_le_mul_of_nonneg_left (h3.trans hle) hc0
      linarith
  refine le_trans ?_ h1
  rw [path_add, hP.path_const N 1 hσ, path_mul, path_sum N _ _ hP hσ]
  have h4 := mul_le_mul_of_nonneg_left (sum_le_sum hM) hc0
  have h3 : c * ∑ ρ ∈ R, M ρ = (∑ ρ ∈ R, M ρ) / (N * ε) ^ 2 := by
    rw [hcdef]; field_simp
  rw [h3] at h4
  linarith

theorem states_cover (hc : bn.Consistent) (hval : ∀ n ∈ bn, n.values ≠ []) {vars : List Name}
    (hvars : ∀ v ∈ vars, v ∈ bn.names) {ρ : Assign} (hρ : Legal bn.card vars ρ) :
    ∃ ρ' ∈ states bn, ∀ v ∈ vars, ρ' v = ρ v := by
  classical
  refine ⟨fun v => if v ∈ vars then ρ v else 0, mem_states.2 ⟨fun v hv => ?_, fun v hv =>
    if_neg fun h => hv (hvars v h)⟩, fun v hv => if_pos hv⟩
  by_cases h : v ∈ vars
  · simp only [if_pos h]; exact hρ v h
  · simp only [if_neg h]
    obtain ⟨n, hn, rfl⟩ := BN.exists_of_mem_names hv
    rw [card_eq hc hn]
    exact List.length_pos_iff.2 (hval n hn)

/-- the same with all instantiations of the network -/
theorem close_of_moment (hc : bn.Consistent) (hval : ∀ n ∈ bn, n.values ≠ []) {ev : Dict Val}
    (he : LegalHard bn ev) {C : Finset Assign} {P : Assign → Assign → ℝ} (hsub : C ⊆ states bn)
    (hcl : ∀ σ ∈ C, ∀ τ ∈ states bn, τ ∉ C → P σ τ = 0) (hP : Stoch C P)
    {vars : List Name} (hvars : ∀ v ∈ vars, v ∈ bn.names) {N : Nat} {ε : ℝ} (hN : 0 < N) (hε : 0 < ε)
    {M : Assign → ℝ} {σ : Assign} (hσ : σ ∈ C) (hM : ∀ ρ ∈ states bn,
      path C P N (fun τs => (τs.map (deviation bn ev vars ρ)).sum ^ 2) σ ≤ M ρ) :
    1 - (∑ ρ ∈ states bn, M ρ) / (N * ε) ^ 2 ≤
      path (states bn) P N (closeFreq bn ev vars ε N) σ :=
  close_of_moment_on hc he hsub hcl hP (fun _ h => states_cover hc hval hvars h) hN hε hσ hM

/-- the chain from any state of a class in which it mixes -/
theorem le_path_close (hc : bn.Consistent) (hnn : bn.NonNeg)
    (hval : ∀ n ∈ bn, n.values ≠ []) {ev : Dict Val} (he : LegalHard bn ev)
    (hmass : ∑ σ ∈ states bn, fullPosterior bn ev σ = 1) {F : List Name} {C : Finset Assign}
    {stp : Dict Val → Rand (Except PyErr (Dict Val))} {P : Assign → Assign → ℝ} {m : Nat} {δ : ℝ}
    (h : Ergodic bn F C (fullPosterior bn ev) stp P m δ)
    {vars : List Name} (hvars : ∀ v ∈ vars, v ∈ bn.names) :
    ∃ c : ℝ, 0 ≤ c ∧ ∀ (N : Nat) (ε : ℝ), 0 < N → 0 < ε → ∀ σ ∈ C,
      1 - c / (N * ε ^ 2) ≤ path (states bn) P N (closeFreq bn ev vars ε N) σ := by
  classical
  have hne := h.ne
  have hinv := h.inv (fun σ _ => fullPosterior_nonneg hnn ev σ) hmass
  set B : Assign → ℝ := fun ρ => osc hne (deviation bn ev vars ρ) ^ 2 +
    2 * osc hne (deviation bn ev vars ρ) * (m * osc hne (deviation bn ev vars ρ) / δ) with hB
  have hB0 : ∀ ρ, 0 ≤ B ρ := fun ρ => by
    have := osc_nonneg hne (deviation bn ev vars ρ)
    have := h.pos
    simp only [hB]
    positivity
  refine ⟨∑ ρ ∈ states bn, B ρ, sum_nonneg fun ρ _ => hB0 ρ, fun N ε hN hε σ hσ => ?_⟩
  have hNR : (0 : ℝ) < N := by exact_mod_cast hN
  have h1 := close_of_moment hc hval he h.sub h.closed h.stoch hvars hN hε hσ
    (M := fun ρ => N * B ρ) fun ρ hρ => second_moment h.stoch hinv hne h.pos h.mixing (by
      rw [h.sum]
      exact mean_deviation hc he hmass hvars fun v hv => (mem_states.1 hρ).1 v (hvars v hv)) N hσ
  refine le_trans (le_of_eq ?_) h1
  rw [← mul_sum]
  field_simp

theorem prob_getSample_nonneg (hc : bn.Consistent) (hl : bn.Linked) (ha : bn.Acyclic)
    (hd : bn.Discrete) (hnn : bn.NonNeg) (hs : bn.Stochastic) {ev : Dict Val}
    (he : LegalHard bn ev) {τ : Assign} (hτ : Legal bn.card bn.names τ) :
    0 ≤ (bn.getSample ev).prob (Returns bn τ) := by
  obtain ⟨h1, h2⟩ := C44_forward_evidence hc hl ha hd hnn hs he hτ
  by_cases h : Agrees bn ev τ
  · rw [h1 h]
    refine Rat.cast_nonneg.2 (List.prod_nonneg fun x hx => ?_)
    obtain ⟨n, hn, rfl⟩ := List.mem_map.1 hx
    exact NDArray.get_nonneg (hnn n (List.mem_filter.1 hn).1) _
  · unfold Agrees at h
    push Not at h
    rw [h2 h]

/-- the states that forward sampling may return -/
theorem prob_getSample_pos (hc : bn.Consistent) (hl : bn.Linked) (ha : bn.Acyclic)
    (hd : bn.Discrete) (hnn : bn.NonNeg) (hs : bn.Stochastic) {ev : Dict Val}
    (he : LegalHard bn ev) {τ : Assign} (hτ : Legal bn.card bn.names τ) :
    0 < (bn.getSample ev).prob (Returns bn τ) ↔
      Agrees bn ev τ ∧ ∀ n ∈ bn, n.name ∉ ev.keys → 0 < n.entry τ := by
  obtain ⟨h1, h2⟩ := C44_forward_evidence hc hl ha hd hnn hs he hτ
  by_cases h : Agrees bn ev τ
  · rw [h1 h, Rat.cast_pos]
    constructor
    · intro hp
      refine ⟨h, fun n hn hnev => ?_⟩
      refine lt_of_le_of_ne (NDArray.get_nonneg (hnn n hn) _) fun e => hp.ne' ?_
      exact List.prod_eq_zero (List.mem_map.2 ⟨n, mem_freeNodes.2 ⟨hn, hnev⟩, e.symm⟩)
    · rintro ⟨-, hp⟩
      refine List.prod_pos fun x hx => ?_
      obtain ⟨n, hn, rfl⟩ := List.mem_map.1 hx
      obtain ⟨h3, h4⟩ := mem_freeNodes.1 hn
      exact hp n h3 h4
  · refine ⟨fun hp => ?_, fun hp => absurd hp.1 h⟩
    unfold Agrees at h
    push Not at h
    rw [h2 h] at hp
    exact absurd hp (lt_irrefl 0)

/-- the estimate from initial states in a closed class -/
theorem consistent_of_path (hc : bn.Consistent) (hl : bn.Linked) (ha : bn.Acyclic)
    (hd : bn.Discrete) (hnn : bn.NonNeg) (hs : bn.Stochastic)
    {tm : Mcmc.Transition} {full : Bool} {vars : List Name}
    (hvars : ∀ v ∈ vars, v ∈ bn.names) {evidence : Option (Dict Val)}
    (he : LegalHard bn (evidence.getD []))
    {F : List Name} {C : Finset Assign} {P : Assign → Assign → ℝ} {m : Nat} {δ : ℝ}
    (h : Ergodic bn F C (fullPosterior bn (evidence.getD []))
      (Mcmc.step tm bn (freeNodes bn (evidence.getD [])) full) P m δ)
    (hstart : ∀ σ ∈ states bn, Agrees bn (evidence.getD []) σ →
      (∀ n ∈ bn, n.name ∉ (evidence.getD []).keys → 0 < n.entry σ) → σ ∈ C)
    (burnIn : Nat) {N : Nat} {ε x : ℝ} (hN : 0 < N)
    (hx : ∀ σ ∈ C, x ≤ path (states bn) P N (closeFreq bn (evidence.getD []) vars ε N) σ) :
    x ≤ (Mcmc.marginals bn ⟨tm, burnIn, full⟩ N vars evidence).prob
      (CloseTo bn (evidence.getD []) vars ε) := by
  rw [prob_marginals hc hl ha hd hnn hs hvars he h.kern burnIn hN ε]
  set ev := evidence.getD [] with hev
  have hC : ∀ σ ∈ C, x ≤ (act (states bn) P)^[burnIn]
      (path (states bn) P N (closeFreq bn ev vars ε N)) σ := by
    intro σ hσ
    rw [iter_restrict h.sub h.closed _ burnIn σ hσ]
    have := h.stoch.iter_mono hx burnIn σ hσ
    rwa [h.stoch.iter_const _ burnIn σ hσ] at this
  calc x = ∑ τ ∈ states bn, (bn.getSample ev).prob (Returns bn τ) * x := by
        rw [← sum_mul, sum_prob_getSample hc hl ha hd hnn hs he, one_mul]
    _ ≤ _ := sum_le_sum fun τ hτ => ?_
  have hl' := (mem_states.1 hτ).1
  have h0 := prob_getSample_nonneg hc hl ha hd hnn hs he hl'
  rcases h0.eq_or_lt with e | hp
  · rw [← e, zero_mul, zero_mul]
  · obtain ⟨h1, h2⟩ := (prob_getSample_pos hc hl ha hd hnn hs he hl').1 hp
    exact mul_le_mul_of_nonneg_left (hC τ (hstart τ hτ h1 h2)) h0

/-- the estimate from initial states in a class in which the chain mixes -/
theorem consistent_of_ergodic (hc : bn.Consistent) (hl : bn.Linked) (ha : bn.Acyclic)
    (hd : bn.Discrete) (hnn : bn.NonNeg) (hs : bn.Stochastic) (hval : ∀ n ∈ bn, n.values ≠ [])
    {tm : Mcmc.Transition} {full : Bool} {vars : List Name}
    (hvars : ∀ v ∈ vars, v ∈ bn.names) {evidence : Option (Dict Val)}
    (he : LegalHard bn (evidence.getD []))
    (hmass : ∑ σ ∈ states bn, fullPosterior bn (evidence.getD []) σ = 1)
    {F : List Name} {C : Finset Assign} {P : Assign → Assign → ℝ} {m : Nat} {δ : ℝ}
    (h : Ergodic bn F C (fullPosterior bn (evidence.getD []))
      (Mcmc.step tm bn (freeNodes bn (evidence.getD [])) full) P m δ)
    (hstart : ∀ σ ∈ states bn, Agrees bn (evidence.getD []) σ →
      (∀ n ∈ bn, n.name ∉ (evidence.getD []).keys → 0 < n.entry σ) → σ ∈ C) :
    ∃ c : ℝ, 0 ≤ c ∧ ∀ (burnIn N : Nat) (ε : ℝ), 0 < N → 0 < ε →
      1 - c / (N * ε ^ 2) ≤ (Mcmc.marginals bn ⟨tm, burnIn, full⟩ N vars evidence).prob
        (CloseTo bn (evidence.getD []) vars ε) := by
  obtain ⟨c, hc0, hcc⟩ := le_path_close hc hnn hval he hmass h hvars
  exact ⟨c, hc0, fun burnIn N ε hN hε =>
    consistent_of_path hc hl ha hd hnn hs hvars he h hstart burnIn hN (hcc N ε hN hε)⟩

/-- a class of states from which the estimate is never close -/
theorem prob_marginals_le (hc : bn.Consistent) (hl : bn.Linked) (ha : bn.Acyclic)
    (hd : bn.Discrete) (hnn : bn.NonNeg) (hs : bn.Stochastic) {tm : Mcmc.Transition} {full : Bool}
    {vars : List Name} (hvars : ∀ v ∈ vars, v ∈ bn.names) {evidence : Option (Dict Val)}
    (he : LegalHard bn (evidence.getD [])) {F : List Name} {π : Assign → ℝ}
    {P : Assign → Assign → ℝ}
    (h : Kern bn F π (Mcmc.step tm bn (freeNodes bn (evidence.getD [])) full) P)
    {C : Finset Assign} (hsub : C ⊆ states bn)
    (hcl : ∀ σ ∈ C, ∀ τ ∈ states bn, τ ∉ C → P σ τ = 0) {N : Nat} (hN : 0 < N) {ε : ℝ}
    (hfar : ∀ τs : List Assign, τs.length = N → (∀ τ ∈ τs, τ ∈ C) →
      closeFreq bn (evidence.getD []) vars ε N τs = 0) {σ : Assign} (hσ : σ ∈ C) (burnIn : Nat) :
    (Mcmc.marginals bn ⟨tm, burnIn, full⟩ N vars evidence).prob
        (CloseTo bn (evidence.getD []) vars ε) ≤
      1 - (bn.getSample (evidence.getD [])).prob (Returns bn σ) := by
  classical
  rw [prob_marginals hc hl ha hd hnn hs hvars he h burnIn hN ε]
  set ev := evidence.getD [] with hev
  have hstC := stoch_restrict hsub hcl h.stoch
  have hone : ∀ τ ∈ states bn, (act (states bn) P)^[burnIn]
      (path (states bn) P N (closeFreq bn ev vars ε N)) τ ≤ 1 := by
    intro τ hτ
    have h1 : ∀ ρ ∈ states bn, path (states bn) P N (closeFreq bn ev vars ε N) ρ ≤ 1 := by
      intro ρ hρ
      rw [← h.stoch.path_const N 1 hρ]
      exact h.stoch.path_mono N (fun τs _ _ => closeFreq_le ev vars ε N τs) hρ
    rw [← h.stoch.iter_const 1 burnIn τ hτ]
    exact h.stoch.iter_mono h1 burnIn τ hτ
  have hzero : (act (states bn) P)^[burnIn]
      (path (states bn) P N (closeFreq bn ev vars ε N)) σ ≤ 0 := by
    have h1 : ∀ ρ ∈ C, path (states bn) P N (closeFreq bn ev vars ε N) ρ ≤ 0 := by
      intro ρ hρ
      rw [path_restrict hsub hcl N _ ρ hρ, ← hstC.path_const N 0 hρ]
      exact hstC.path_mono N (fun τs hlen hmem => (hfar τs hlen hmem).le) hρ
    rw [iter_restrict hsub hcl _ burnIn σ hσ, ← hstC.iter_const 0 burnIn σ hσ]
    exact hstC.iter_mono h1 burnIn σ hσ
  have hp0 := fun τ (hτ : τ ∈ states bn) =>
    prob_getSample_nonneg hc hl ha hd hnn hs he (mem_states.1 hτ).1
  rw [← sum_prob_getSample hc hl ha hd hnn hs he, ← add_sum_erase _ _ (hsub hσ),
    ← add_sum_erase (states bn) (fun τ => (bn.getSample ev).prob (Returns bn τ)) (hsub hσ),
    add_sub_cancel_left]
  refine (add_le_add (mul_nonpos_of_nonneg_of_nonpos (hp0 σ (hsub hσ)) hzero)
    (sum_le_sum fun τ hτ => ?_)).trans (zero_add _).le
  exact mul_le_of_le_one_right (hp0 τ (mem_of_mem_erase hτ)) (hone τ (mem_of_mem_erase hτ))

/-- a rate of convergence in probability -/
theorem consistently_of_rate {tm : Mcmc.Transition} {full : Bool} {evidence : Option (Dict Val)}
    {vars : List Name} (h : ∃ c : ℝ, 0 ≤ c ∧ ∀ (burnIn N : Nat) (ε : ℝ), 0 < N → 0 < ε →
      1 - c / (N * ε ^ 2) ≤ (Mcmc.marginals bn ⟨tm, burnIn, full⟩ N vars evidence).prob
        (CloseTo bn (evidence.getD []) vars ε)) : Consistently bn tm full evidence vars := by
  obtain ⟨c, hc0, h⟩ := h
  intro ε hε q hq burnIn
  obtain ⟨N₀, hN₀⟩ := exists_nat_gt (c / ((1 - q) * ε ^ 2))
  refine ⟨max N₀ 1, fun N hN => ?_⟩
  have hN1 : 0 < N := lt_of_lt_of_le one_pos ((le_max_right _ _).trans hN)
  refine le_trans ?_ (h burnIn N ε hN1 hε)
  have hNR : (0 : ℝ) < N := by exact_mod_cast hN1
  have h1 : c / ((1 - q) * ε ^ 2) ≤ N := hN₀.le.trans (by exact_mod_cast (le_max_left _ _).trans hN)
  have hq' : 0 < 1 - q := by linarith
  rw [div_le_iff₀ (by positivity)] at h1
  have : c / (N * ε ^ 2) ≤ 1 - q := by
    rw [div_le_iff₀ (by positivity)]
    linarith
  linarith

theorem not_consistently {tm : Mcmc.Transition} {full : Bool} {evidence : Option (Dict Val)}
    {vars : List Name} (h : ∃ ε > 0, ∃ q < 1, ∀ burnIn N, 0 < N →
      (Mcmc.marginals bn ⟨tm, burnIn, full⟩ N vars evidence).prob
        (CloseTo bn (evidence.getD []) vars ε) ≤ q) :
    ¬ Consistently bn tm full evidence vars := by
  obtain ⟨ε, hε, q, hq, h⟩ := h
  intro hcon
  obtain ⟨N₀, hN⟩ := hcon ε hε ((q + 1) / 2) (by linarith) 0
  have h1 := hN (max N₀ 1) (le_max_left _ _)
  have h2 := h 0 (max N₀ 1) (lt_of_lt_of_le one_pos (le_max_right _ _))
  linarith

/-- the dictionary of a state -/
theorem exists_dict (hc : bn.Consistent) {σ : Assign} (hσ : Legal bn.card bn.names σ) :
    ∃ d, Reads bn d σ := by
  refine ⟨bn.map fun n => (n.name, n.values.getD (σ n.name) ""), fun v hv => ?_⟩
  obtain ⟨n, hn, rfl⟩ := BN.exists_of_mem_names hv
  have hlt : σ n.name < n.values.length := card_eq hc hn ▸ hσ _ hv
  rw [lab_get hc hn, List.getElem?_eq_getElem hlt, Dict.get?_of_mem (v := n.values[σ n.name])]
  · have : Dict.keys (bn.map fun n => (n.name, n.values.getD (σ n.name) "")) = bn.names := by
      simp [Dict.keys, BN.names]
    rw [this]
    exact hc.nodup
  · refine List.mem_map.2 ⟨n, hn, ?_⟩
    rw [List.getD_eq_getElem?_getD, List.getElem?_eq_getElem hlt]
    rfl

theorem Reads.good (hc : bn.Consistent) {ev d : Dict Val} {σ : Assign} (hr : Reads bn d σ)
    (hσ : Legal bn.card bn.names σ) (he : LegalHard bn ev) (ha : Agrees bn ev σ) :
    GoodState bn ev d := by
  refine ⟨fun n hn => ?_, fun v x hx => ?_⟩
  · obtain ⟨x, h1, h2⟩ := hr.get hc hσ hn
    exact ⟨x, List.mem_of_getElem? h2, h1⟩
  · rw [hr v (he.mem (v, x) (Dict.get?_mem hx))]
    exact ha v x hx

theorem LocallyImpossible.blanket (hc : bn.Consistent) (hl : bn.Linked) {n : NodeV} (hn : n ∈ bn)
    {σ : Assign} (h : LocallyImpossible bn n σ) : Primo.blanket bn n σ = 0 := by
  obtain ⟨m, hm, h1, h2⟩ := h
  unfold Primo.blanket
  rcases h1 with rfl | h1
  · rw [h2, zero_mul]
  · rw [List.prod_eq_zero (List.mem_map.2 ⟨m, (mem_childNodes hc hl hn).2 ⟨hm, h1⟩, h2⟩), mul_zero]

/-- a state that Gibbs sampling does not leave -/
theorem gibbs_stuck (hc : bn.Consistent) (hl : bn.Linked) (hd : bn.Discrete) (hnn : bn.NonNeg)
    {ev : Dict Val} (he : LegalHard bn ev) {full : Bool}
    (hfull : full = false → ∃ n ∈ bn, n.name ∉ ev.keys) {σ : Assign} (hσ : σ ∈ states bn)
    (h0 : ∀ n ∈ bn, n.name ∉ ev.keys → σ n.name = 0 ∧
      ∀ b < bn.card n.name, LocallyImpossible bn n (Function.update σ n.name b)) :
    ∃ P, Kern bn (freeNames bn ev) (fullPosterior bn ev)
        (Mcmc.step .gibbs bn (freeNodes bn ev) full) P ∧
      ∀ ρ ∈ ({σ} : Finset Assign), ∀ τ ∈ states bn, τ ∉ ({σ} : Finset Assign) → P ρ τ = 0 := by
  have hk : ∀ n ∈ freeNodes bn ev, ∃ P, Kern bn (freeNames bn ev) (fullPosterior bn ev)
      (Mcmc.gibbsSite bn n) P ∧ ∀ τ, τ ≠ σ → P σ τ = 0 := by
    intro n hn
    obtain ⟨h1, h2⟩ := mem_freeNodes.1 hn
    obtain ⟨K, hK, hK0⟩ := gibbs_moves hc hl hd hnn h1 (fullPosterior_proportional hc hl he h1 h2)
    refine ⟨_, hK.kern (List.mem_map_of_mem h1) (List.mem_map_of_mem hn), fun τ hτ => ?_⟩
    obtain ⟨e, hz⟩ := h0 n h1 h2
    unfold siteMatrix
    refine sum_eq_zero fun b _ => ?_
    split
    · next hu =>
      rw [hK0.1 σ fun b hb => (hz b hb).blanket hc hl h1, if_neg]
      rintro rfl
      exact hτ (by rw [← hu, ← e, Function.update_eq_self])
    · rfl
  choose! P h using hk
  refine ⟨_, Kern.step (fun n hn => (h n hn).1) (freeNodes_ne hfull), stepM_closed ?_⟩
  intro n hn ρ hρ τ _ hτ
  rw [mem_singleton] at hρ hτ
  subst hρ
  exact (h n hn).2 τ hτ

/-- the law of the chain from a state of a class that it does not leave -/
theorem burn_closed (hd : bn.Discrete) {F : List Name} {π : Assign → ℝ}
    {stp : Dict Val → Rand (Except PyErr (Dict Val))} {P : Assign → Assign → ℝ}
    (h : Kern bn F π stp P) {C : Finset Assign} (hsub : C ⊆ states bn)
    (hcl : ∀ σ ∈ C, ∀ τ ∈ states bn, τ ∉ C → P σ τ = 0) {σ : Assign} (hσ : σ ∈ C) {d : Dict Val}
    (hr : Reads bn d σ) (k : Nat) {τ : Assign} {c : ℝ} (hτ : ∀ ρ ∈ C, sameState bn τ ρ = c) :
    (Mcmc.burn stp k d).prob (Returns bn τ) = c := by
  have h1 : (Mcmc.burn stp k d).prob (Returns bn τ) =
      (act (states bn) P)^[k] (sameState bn τ) σ :=
    h.burn k (fun d' ρ hρ hr' => compat_returns hd τ d' ρ (mem_states.1 hρ).1 hr') (hsub hσ) hr
  rw [h1, iter_restrict hsub hcl _ k σ hσ, iter_congr (h := fun _ => c) hτ k σ hσ,
    (stoch_restrict hsub hcl h.stoch).iter_const c k σ hσ]

/-- the law of the chain from a state of a class in which it mixes -/
theorem law_of_ergodic (hc : bn.Consistent) (hd : bn.Discrete) (hnn : bn.NonNeg)
    {ev : Dict Val} (he : LegalHard bn ev)
    (hmass : ∑ σ ∈ states bn, fullPosterior bn ev σ = 1) {F : List Name} {C : Finset Assign}
    {stp : Dict Val → Rand (Except PyErr (Dict Val))} {P : Assign → Assign → ℝ} {m : Nat} {δ : ℝ}
    (h : Ergodic bn F C (fullPosterior bn ev) stp P m δ) {σ : Assign} (hσ : σ ∈ C) {d : Dict Val}
    (hr : Reads bn d σ) (k : Nat) {τ : Assign} (hτ : Legal bn.card bn.names τ) :
    |(Mcmc.burn stp k d).prob (Returns bn τ) - fullPosterior bn ev τ| ≤ (1 - δ) ^ (k / m) := by
  have h1 : (Mcmc.burn stp k d).prob (Returns bn τ) =
      (act (states bn) P)^[k] (sameState bn τ) σ :=
    h.kern.burn k (fun d' ρ hρ hr' => compat_returns hd τ d' ρ (mem_states.1 hρ).1 hr')
      (h.sub hσ) hr
  have h2 := converges h.stoch (h.inv (fun σ _ => fullPosterior_nonneg hnn ev σ) hmass) h.ne h.le
    h.mixing (sameState bn τ) (k / m) (k % m) hσ
  rw [Nat.div_add_mod, h.sum, sum_sameState hτ (fullPosterior_dependsOn hc he)] at h2
  rw [h1, iter_restrict h.sub h.closed _ k σ hσ]
  refine h2.trans (mul_le_of_le_one_right (pow_nonneg (by linarith [h.le]) _) ?_)
  refine osc_le h.ne (a := 0) fun ρ _ => ?_
  unfold sameState
  split <;> norm_num

end Primo
