import Verif.Lemmas.Connected

/-! # Gibbs sampling from impossible states -/

namespace Primo
open Finset Markov

variable {bn : BN} {ev : Dict Val} {full : Bool}

/-! ## the moves depend on the variables of the network only -/

/-- `σ` on the variables of the network, `ρ` elsewhere -/
def over (bn : BN) (ρ σ : Assign) : Assign := fun v => if v ∈ bn.names then σ v else ρ v

theorem over_entry (hc : bn.Consistent) (ρ σ : Assign) {m : NodeV} (hm : m ∈ bn) :
    m.entry (over bn ρ σ) = m.entry σ := by
  have key : ∀ w ∈ bn.names, over bn ρ σ w = σ w := fun w hw => if_pos hw
  unfold NodeV.entry
  rw [key _ (List.mem_map_of_mem hm), List.map_congr_left fun w hw =>
    key w (hc.parents_mem m hm w hw)]

theorem over_update (ρ σ : Assign) {v : Name} (hv : v ∈ bn.names) (b : Nat) :
    over bn ρ (Function.update σ v b) = Function.update (over bn ρ σ) v b := by
  funext w
  unfold over
  by_cases e : w = v
  · subst e; simp [hv]
  · simp [Function.update_of_ne e]

theorem over_impossible (hc : bn.Consistent) (ρ : Assign) {n : NodeV} {σ : Assign} :
    LocallyImpossible bn n (over bn ρ σ) ↔ LocallyImpossible bn n σ := by
  unfold LocallyImpossible
  constructor
  · rintro ⟨m, hm, h1, h2⟩
    exact ⟨m, hm, h1, (over_entry hc ρ σ hm).symm.trans h2⟩
  · rintro ⟨m, hm, h1, h2⟩
    exact ⟨m, hm, h1, (over_entry hc ρ σ hm).trans h2⟩

theorem GibbsMove.over (hc : bn.Consistent) (ρ : Assign) {n : NodeV} (hn : n ∈ bn) {σ τ : Assign}
    (h : GibbsMove bn n σ τ) : GibbsMove bn n (over bn ρ σ) (Primo.over bn ρ τ) := by
  have hv : n.name ∈ bn.names := List.mem_map_of_mem hn
  obtain ⟨b, hb, rfl, h⟩ := h
  refine ⟨b, hb, over_update ρ σ hv b, ?_⟩
  simp only [← over_update ρ σ hv, over_impossible hc ρ]
  exact h

theorem GibbsStep.over (hc : bn.Consistent) (ρ : Assign) {σ τ : Assign}
    (h : GibbsStep bn ev full σ τ) : GibbsStep bn ev full (over bn ρ σ) (Primo.over bn ρ τ) := by
  cases full with
  | true =>
    have key : ∀ ns : List NodeV, (∀ n ∈ ns, n ∈ bn) → ∀ σ, GibbsSweep bn ns σ τ →
        GibbsSweep bn ns (Primo.over bn ρ σ) (Primo.over bn ρ τ) := by
      intro ns
      induction ns with
      | nil => intro _ σ h; exact congrArg _ h
      | cons n ns ih =>
        rintro hns σ ⟨ρ', h1, h2⟩
        exact ⟨_, h1.over hc ρ (hns n (by simp)), ih (fun m hm => hns m (by simp [hm])) _ h2⟩
    exact key _ (fun n hn => (List.mem_filter.1 hn).1) σ h
  | false =>
    obtain ⟨n, h1, h2, h3⟩ := h
    exact ⟨n, h1, h2, h3.over hc ρ h1⟩

theorem reach_over (hc : bn.Consistent) (ρ : Assign) {σ τ : Assign}
    (h : Relation.ReflTransGen (GibbsStep bn ev full) σ τ) :
    Relation.ReflTransGen (GibbsStep bn ev full) (over bn ρ σ) (over bn ρ τ) := by
  induction h with
  | refl => exact .refl
  | tail _ h ih => exact ih.tail (h.over hc ρ)

theorem canon_over (σ : Assign) : canon bn σ = over bn (fun _ => 0) σ := rfl

/-! ## the matrix of a step -/

/-- the matrix of a step of the Gibbs sampler, and where it is positive -/
theorem gibbs_matrix (hc : bn.Consistent) (hl : bn.Linked) (hd : bn.Discrete) (hnn : bn.NonNeg)
    (he : LegalHard bn ev) (hfull : full = false → ∃ n ∈ bn, n.name ∉ ev.keys) :
    ∃ P, Kern bn (freeNames bn ev) (fullPosterior bn ev)
        (Mcmc.step .gibbs bn (freeNodes bn ev) full) P ∧
      ∀ σ ∈ states bn, ∀ τ, τ ∈ states bn ∧ 0 < P σ τ ↔ GibbsStep bn ev full σ τ := by
  have hk : ∀ n ∈ freeNodes bn ev, ∃ P, Kern bn (freeNames bn ev) (fullPosterior bn ev)
      (Mcmc.gibbsSite bn n) P ∧
        ∀ σ ∈ states bn, ∀ τ, τ ∈ states bn ∧ 0 < P σ τ ↔ GibbsMove bn n σ τ := by
    intro n hn
    obtain ⟨h1, h2⟩ := mem_freeNodes.1 hn
    have hv : n.name ∈ bn.names := List.mem_map_of_mem h1
    obtain ⟨K, hK, -, hK0⟩ := gibbs_moves hc hl hd hnn h1 (fullPosterior_proportional hc hl he h1 h2)
    have hkern := hK.kern (F := freeNames bn ev) hv (List.mem_map_of_mem hn)
    have hkern' := hK.kern (F := [n.name]) hv (by simp)
    have himp : ∀ σ, LocallyImpossible bn n σ ↔ blanket bn n σ = 0 := by
      intro σ
      refine ⟨fun h => h.blanket hc hl h1, fun h => ?_⟩
      rcases mul_eq_zero.1 h with h | h
      · exact ⟨n, h1, Or.inl rfl, h⟩
      · obtain ⟨m, hm, h⟩ := List.mem_map.1 (List.prod_eq_zero_iff.1 h)
        obtain ⟨h3, h4⟩ := (mem_childNodes hc hl h1).1 hm
        exact ⟨m, h3, Or.inr h4, h⟩
    have hnimp : ∀ σ, ¬ LocallyImpossible bn n σ ↔ 0 < blanket bn n σ := by
      intro σ
      rw [himp, (blanket_nonneg hnn h1 hc hl σ).lt_iff_ne]
      exact ne_comm
    refine ⟨_, hkern, fun σ hσ τ => ?_⟩
    constructor
    · rintro ⟨hτ, hp⟩
      have hw : ∀ w, w ≠ n.name → τ w = σ w := fun w hw =>
        hkern'.keep σ hσ τ hτ hp.ne' w (by simpa using hw)
      rw [siteMatrix_eq hv K hτ hw] at hp
      have hb := (mem_states.1 hτ).1 _ hv
      refine ⟨τ n.name, hb, (eq_update hw).symm, ?_⟩
      have := (hK0 σ _ hb).1 hp
      rw [eq_update hw] at this
      simp only [himp]
      rcases this with h | h
      · exact Or.inl h.ne'
      · exact Or.inr h
    · rintro ⟨b, hb, rfl, h⟩
      have hmem := update_mem_states hσ hv hb
      refine ⟨hmem, ?_⟩
      rw [siteMatrix_eq hv K hmem fun w hw => Function.update_of_ne hw .., Function.update_self,
        hK0 σ b hb, ← hnimp]
      simpa only [himp] using h
  choose! P h using hk
  have hkern := fun n hn => (h n hn).1
  refine ⟨_, Kern.step hkern (freeNodes_ne hfull), ?_⟩
  cases full with
  | true =>
    have key : ∀ ns : List NodeV, (∀ n ∈ ns, n ∈ freeNodes bn ev) → ∀ σ ∈ states bn, ∀ τ,
        τ ∈ states bn ∧ 0 < sweepM (states bn) P ns σ τ ↔ GibbsSweep bn ns σ τ := by
      intro ns
      induction ns with
      | nil =>
        intro _ σ hσ τ
        simp only [sweepM, GibbsSweep]
        constructor
        · rintro ⟨_, hp⟩
          by_contra hne
          rw [if_neg hne] at hp
          exact lt_irrefl _ hp
        · rintro rfl
          exact ⟨hσ, by simp⟩
      | cons n ns ih =>
        intro hns σ hσ τ
        have hn := hns n (by simp)
        have hns' : ∀ m ∈ ns, m ∈ freeNodes bn ev := fun m hm => hns m (by simp [hm])
        have hk' := Kern.sweep fun m hm => hkern m (hns' m hm)
        simp only [sweepM, GibbsSweep]
        constructor
        · rintro ⟨hτ, hp⟩
          obtain ⟨ρ, hρ, h0⟩ := exists_ne_zero_of_sum_ne_zero hp.ne'
          have h1 := (hkern n hn).stoch.nonneg σ hσ ρ hρ
          have h2 := hk'.stoch.nonneg ρ hρ τ hτ
          exact ⟨ρ, ((h n hn).2 σ hσ ρ).1 ⟨hρ, h1.lt_of_ne' (left_ne_zero_of_mul h0)⟩,
            (ih hns' ρ hρ τ).1 ⟨hτ, h2.lt_of_ne' (right_ne_zero_of_mul h0)⟩⟩
        · rintro ⟨ρ, h1, h2⟩
          obtain ⟨hρ, h1⟩ := ((h n hn).2 σ hσ ρ).2 h1
          obtain ⟨hτ, h2⟩ := (ih hns' ρ hρ τ).2 h2
          exact ⟨hτ, mulM_pos (hkern n hn) hk' hσ hρ hτ h1 h2⟩
    exact key _ fun _ hn => hn
  | false =>
    intro σ hσ τ
    have hlen : (0 : ℝ) < (freeNodes bn ev).length := by
      exact_mod_cast List.length_pos_iff.2 (freeNodes_ne hfull rfl)
    show _ ∧ 0 < avgM (freeNodes bn ev) P σ τ ↔ ∃ n ∈ bn, n.name ∉ ev.keys ∧ GibbsMove bn n σ τ
    unfold avgM
    rw [div_pos_iff_of_pos_right hlen]
    constructor
    · rintro ⟨hτ, hp⟩
      have : ∃ n ∈ freeNodes bn ev, P n σ τ ≠ 0 := by
        by_contra hcon
        push Not at hcon
        rw [sum_map_const hcon, mul_zero] at hp
        exact lt_irrefl _ hp
      obtain ⟨n, hn, h0⟩ := this
      obtain ⟨h1, h2⟩ := mem_freeNodes.1 hn
      exact ⟨n, h1, h2, ((h n hn).2 σ hσ τ).1
        ⟨hτ, ((hkern n hn).stoch.nonneg σ hσ τ hτ).lt_of_ne' h0⟩⟩
    · rintro ⟨n, h1, h2, h3⟩
      have hn := mem_freeNodes.2 ⟨h1, h2⟩
      obtain ⟨hτ, hp⟩ := ((h n hn).2 σ hσ τ).2 h3
      refine ⟨hτ, lt_of_lt_of_le hp (List.single_le_sum ?_ _
        (List.mem_map_of_mem (f := fun n => P n σ τ) hn))⟩
      intro x hx
      obtain ⟨m, hm, rfl⟩ := List.mem_map.1 hx
      exact (hkern m hm).stoch.nonneg σ hσ τ hτ

theorem reach_states {P : Assign → Assign → ℝ}
    (hP : ∀ σ ∈ states bn, ∀ τ, τ ∈ states bn ∧ 0 < P σ τ ↔ GibbsStep bn ev full σ τ) {σ τ : Assign}
    (hσ : σ ∈ states bn) (h : Relation.ReflTransGen (GibbsStep bn ev full) σ τ) :
    τ ∈ states bn ∧ Relation.ReflTransGen (fun a b => b ∈ states bn ∧ 0 < P a b) σ τ := by
  induction h with
  | refl => exact ⟨hσ, .refl⟩
  | tail _ h ih =>
    have := (hP _ ih.1 _).2 h
    exact ⟨this.1, ih.2.tail this⟩

/-! ## the states from which a possible state can always be reached -/

/-- wherever Gibbs sampling gets from `σ`, it can still get to a possible state -/
def Safe (bn : BN) (ev : Dict Val) (full : Bool) (σ : Assign) : Prop :=
  ∀ ρ, Relation.ReflTransGen (GibbsStep bn ev full) σ ρ →
    ∃ τ, Possible bn ev τ ∧ Relation.ReflTransGen (GibbsStep bn ev full) ρ τ

theorem over_agrees (he : LegalHard bn ev) (ρ : Assign) {σ : Assign} (h : Agrees bn ev σ) :
    Agrees bn ev (over bn ρ σ) := by
  intro v x hx
  have hv := he.mem (v, x) (Dict.get?_mem hx)
  rw [over, if_pos hv]
  exact h v x hx

theorem Start.over (hc : bn.Consistent) (he : LegalHard bn ev) (ρ : Assign) {σ : Assign}
    (h : Start bn ev σ) : Start bn ev (over bn ρ σ) :=
  ⟨fun v hv => (show Primo.over bn ρ σ v = σ v from if_pos hv).symm ▸ h.1 v hv, over_agrees he ρ h.2.1,
    fun n hn hn' => over_entry hc ρ σ hn ▸ h.2.2 n hn hn'⟩

theorem over_canon (ρ : Assign) : over bn ρ (canon bn ρ) = ρ := by
  funext v
  unfold over canon
  split <;> rfl

theorem Safe.canon (hc : bn.Consistent) (he : LegalHard bn ev) {σ : Assign}
    (h : Safe bn ev full σ) : Safe bn ev full (canon bn σ) := by
  intro ρ hρ
  have h1 := reach_over hc σ hρ
  rw [over_canon] at h1
  obtain ⟨τ, h2, h3⟩ := h _ h1
  have h4 := reach_over hc ρ h3
  refine ⟨over bn ρ τ, h2.congr hc he fun v hv => (if_pos hv).symm, ?_⟩
  rwa [show over bn ρ (over bn σ ρ) = ρ from ?_] at h4
  funext v
  unfold over
  split <;> rfl

open Classical in
/-- these states -/
noncomputable def safeStates (bn : BN) (ev : Dict Val) (full : Bool) : Finset Assign :=
  (states bn).filter (Safe bn ev full)

theorem mem_safeStates {σ : Assign} :
    σ ∈ safeStates bn ev full ↔ σ ∈ states bn ∧ Safe bn ev full σ := by
  classical
  exact mem_filter

theorem safe_of_possible (hc : bn.Consistent) (hl : bn.Linked) (hd : bn.Discrete) (hnn : bn.NonNeg)
    (he : LegalHard bn ev) (hfull : full = false → ∃ n ∈ bn, n.name ∉ ev.keys) {σ : Assign}
    (hσ : σ ∈ possStates bn ev) : σ ∈ safeStates bn ev full := by
  obtain ⟨P, hk, hP⟩ := gibbs_matrix hc hl hd hnn he hfull
  refine mem_safeStates.2 ⟨support_subset hσ, fun ρ h => ⟨ρ, ?_, .refl⟩⟩
  have hcl := support_closed hk fun σ _ => fullPosterior_nonneg hnn ev σ
  suffices ρ ∈ possStates bn ev from ((mem_possStates hc hd hnn he).1 this).2
  induction h with
  | refl => exact hσ
  | @tail a b _ h ih =>
    obtain ⟨hb, hp⟩ := (hP a (support_subset ih) b).2 h
    by_contra hno
    exact hp.ne' (hcl a ih b hb hno)

theorem possible_ok {σ : Assign} (h : Possible bn ev σ) (hnn : bn.NonNeg) (n : NodeV) :
    ¬ LocallyImpossible bn n σ := by
  rintro ⟨m, hm, _, h0⟩
  exact ((joint_pos_iff hnn).1 h.2.2 m hm).ne' h0

theorem sweep_stay (hnn : bn.NonNeg) {σ : Assign} (h : Possible bn ev σ) (ns : List NodeV)
    (hns : ∀ n ∈ ns, n ∈ bn) : GibbsSweep bn ns σ σ := by
  induction ns with
  | nil => rfl
  | cons n ns ih =>
    refine ⟨σ, ⟨σ n.name, h.1 _ (List.mem_map_of_mem (hns n (by simp))), ?_,
      Or.inl (possible_ok h hnn n)⟩, ih fun m hm => hns m (by simp [hm])⟩
    exact (Function.update_eq_self ..).symm

theorem sweep_move (hnn : bn.NonNeg) {σ τ : Assign} (hσ : Possible bn ev σ) (hτ : Possible bn ev τ)
    {n : NodeV} (hw : ∀ w, w ≠ n.name → τ w = σ w) (ns : List NodeV)
    (hns : ∀ n ∈ ns, n ∈ bn) (hn : n ∈ ns) : GibbsSweep bn ns σ τ := by
  induction ns with
  | nil => cases hn
  | cons m ns ih =>
    have hns' : ∀ n ∈ ns, n ∈ bn := fun m hm => hns m (by simp [hm])
    rcases List.mem_cons.1 hn with rfl | hn
    · exact ⟨τ, ⟨τ n.name, hτ.1 _ (List.mem_map_of_mem (hns n (by simp))), (eq_update hw).symm,
        Or.inl (possible_ok hτ hnn n)⟩, sweep_stay hnn hτ ns hns'⟩
    · exact ⟨σ, ⟨σ m.name, hσ.1 _ (List.mem_map_of_mem (hns m (by simp))),
        (Function.update_eq_self ..).symm, Or.inl (possible_ok hσ hnn m)⟩, ih hns' hn⟩

/-- steps between possible states -/
theorem gibbs_steps (hc : bn.Consistent) (hd : bn.Discrete) (hnn : bn.NonNeg)
    (he : LegalHard bn ev) (hfull : full = false → ∃ n ∈ bn, n.name ∉ ev.keys)
    {P : Assign → Assign → ℝ}
    (hP : ∀ σ ∈ states bn, ∀ τ, τ ∈ states bn ∧ 0 < P σ τ ↔ GibbsStep bn ev full σ τ) :
    (∀ σ ∈ possStates bn ev, 0 < P σ σ) ∧ ∀ σ τ, Possible bn ev σ →
      Relation.ReflTransGen (fun a b => Possible bn ev b ∧ OneChange bn a b) σ τ →
      Relation.ReflTransGen (fun a b => b ∈ possStates bn ev ∧ 0 < P a b) (canon bn σ)
        (canon bn τ) := by
  constructor
  · intro σ hσ
    obtain ⟨h1, h2⟩ := (mem_possStates hc hd hnn he).1 hσ
    refine ((hP σ h1 σ).2 ?_).2
    cases full with
    | true => exact sweep_stay hnn h2 _ fun n hn => (List.mem_filter.1 hn).1
    | false =>
      obtain ⟨n, hn, hn'⟩ := hfull rfl
      exact ⟨n, hn, hn', σ n.name, h2.1 _ (List.mem_map_of_mem hn),
        (Function.update_eq_self ..).symm, Or.inl (possible_ok h2 hnn n)⟩
  · intro σ τ hσ h
    suffices Possible bn ev τ ∧ Relation.ReflTransGen
      (fun a b => b ∈ possStates bn ev ∧ 0 < P a b) (canon bn σ) (canon bn τ) from this.2
    induction h with
    | refl => exact ⟨hσ, .refl⟩
    | @tail a b _ hab ih =>
      obtain ⟨hb, v, hv⟩ := hab
      refine ⟨hb, ih.2.trans ?_⟩
      have ha' := ih.1.canon_mem hc hd hnn he
      have hb' := hb.canon_mem hc hd hnn he
      have hap := ((mem_possStates hc hd hnn he).1 ha').2
      have hbp := ((mem_possStates hc hd hnn he).1 hb').2
      have hw : ∀ w, w ≠ v → canon bn b w = canon bn a w := fun w hw => by
        unfold canon
        split
        · exact hv w ‹_› hw
        · rfl
      by_cases hf : v ∈ freeNames bn ev
      · obtain ⟨n, hn, rfl⟩ := List.mem_map.1 hf
        obtain ⟨h1, h2⟩ := mem_freeNodes.1 hn
        refine .single ⟨hb', ((hP _ (support_subset ha') _).2 ?_).2⟩
        cases full with
        | true => exact sweep_move hnn hap hbp hw _ (fun n hn => (List.mem_filter.1 hn).1) hn
        | false => exact ⟨n, h1, h2, canon bn b n.name, hbp.1 _ (List.mem_map_of_mem h1),
            (eq_update hw).symm, Or.inl (possible_ok hbp hnn n)⟩
      · have : canon bn b = canon bn a := funext fun w => by
          by_cases e : w = v
          · subst e
            exact evStates_agree hd (possStates_sub_evStates hc hd hnn he ha')
              (possStates_sub_evStates hc hd hnn he hb') hf
          · exact hw w e
        rw [this]

/-- the Gibbs sampler on these states -/
theorem step_ergodic_gibbs (hc : bn.Consistent) (hl : bn.Linked) (hd : bn.Discrete)
    (hnn : bn.NonNeg) (he : LegalHard bn ev) (hcon : Connected bn ev) {σ₀ : Assign}
    (hσ₀ : Possible bn ev σ₀) (hfull : full = false → ∃ n ∈ bn, n.name ∉ ev.keys) :
    ∃ P m δ, Ergodic bn (freeNames bn ev) (safeStates bn ev full) (fullPosterior bn ev)
      (Mcmc.step .gibbs bn (freeNodes bn ev) full) P m δ := by
  obtain ⟨P, hk, hP⟩ := gibbs_matrix hc hl hd hnn he hfull
  have hsub : safeStates bn ev full ⊆ states bn := fun σ h => (mem_safeStates.1 h).1
  have hcl : ∀ σ ∈ safeStates bn ev full, ∀ τ ∈ states bn, τ ∉ safeStates bn ev full →
      P σ τ = 0 := by
    intro σ hσ τ hτ hno
    obtain ⟨h1, h2⟩ := mem_safeStates.1 hσ
    by_contra h0
    have hs := (hP σ h1 τ).1 ⟨hτ, (hk.stoch.nonneg σ h1 τ hτ).lt_of_ne' h0⟩
    exact hno (mem_safeStates.2 ⟨hτ, fun ρ hρ => h2 ρ (.head hs hρ)⟩)
  have hposs := fun σ => safe_of_possible hc hl hd hnn he hfull (σ := σ)
  have hy := hσ₀.canon_mem hc hd hnn he
  have hst := stoch_restrict hsub hcl hk.stoch
  have hstep := gibbs_steps hc hd hnn he hfull hP
  obtain ⟨m, hm, δ, h1, h2, h3⟩ := mixing_of_reach hst (hposs _ hy) (hstep.1 _ hy) fun x hx => by
    obtain ⟨hxs, hx⟩ := mem_safeStates.1 hx
    obtain ⟨τ, hτ, hreach⟩ := hx x .refl
    obtain ⟨h4, h5⟩ := reach_states hP hxs hreach
    have hτm : τ ∈ possStates bn ev := (mem_possStates hc hd hnn he).2 ⟨h4, hτ⟩
    have h6 := hstep.2 _ _ hτ (hcon τ _ hτ hσ₀)
    rw [canon_eq h4] at h6
    have h7 : Relation.ReflTransGen (fun a b => b ∈ states bn ∧ 0 < P a b) x (canon bn σ₀) :=
      h5.trans (Relation.ReflTransGen.mono (fun a b hab => ⟨support_subset hab.1, hab.2⟩) _ _ h6)
    have h8 : ∀ z, Relation.ReflTransGen (fun a b => b ∈ states bn ∧ 0 < P a b) x z →
        z ∈ safeStates bn ev full ∧ Relation.ReflTransGen
          (fun a b => b ∈ safeStates bn ev full ∧ 0 < P a b) x z := by
      intro z hz
      induction hz with
      | refl => exact ⟨mem_safeStates.2 ⟨hxs, hx⟩, .refl⟩
      | @tail a b _ hab ih =>
        have hb : b ∈ safeStates bn ev full := by
          by_contra hno
          exact hab.2.ne' (hcl a ih.1 b hab.1 hno)
        exact ⟨hb, ih.2.tail ⟨hb, hab.2⟩⟩
    exact (h8 _ h7).2
  exact ⟨P, m, δ, hk, hsub, ⟨_, hposs _ hy⟩, hcl, fun τ hτ hno => le_antisymm
    (not_lt.1 fun h => hno (hposs τ (mem_support.2 ⟨hτ, h⟩))) (fullPosterior_nonneg hnn ev τ),
    hm, h1, h2, h3⟩

/-! ## states from which no possible state can be reached -/

theorem iter_point_pos {P : Assign → Assign → ℝ} (hst : Stoch (states bn) P) {σ ρ : Assign}
    (hσ : σ ∈ states bn) (h : Relation.ReflTransGen (fun a b => b ∈ states bn ∧ 0 < P a b) σ ρ) :
    ∃ k, 0 < (act (states bn) P)^[k] (point ρ) σ := by
  revert hσ
  induction h using Relation.ReflTransGen.head_induction_on with
  | refl => exact fun _ => ⟨0, by simp [point_self]⟩
  | @head a b hab _ ih =>
    intro ha
    obtain ⟨k, hk⟩ := ih hab.1
    have h0 : ∀ x ∈ states bn, 0 ≤ (act (states bn) P)^[k] (point ρ) x := fun x hx => by
      have := hst.iter_mono (f := fun _ => 0) (fun y _ => point_nonneg ρ y) k x hx
      rwa [hst.iter_const 0 k x hx] at this
    refine ⟨k + 1, ?_⟩
    rw [Function.iterate_succ_apply']
    exact lt_of_lt_of_le (mul_pos hab.2 hk)
      (single_le_sum (f := fun b => P a b * (act (states bn) P)^[k] (point ρ) b)
        (fun b hb => mul_nonneg (hst.nonneg a ha b hb) (h0 b hb)) hab.1)

/-- a class of states from which the estimate is never close and which is reached -/
theorem prob_marginals_lt (hc : bn.Consistent) (hl : bn.Linked) (ha : bn.Acyclic)
    (hd : bn.Discrete) (hnn : bn.NonNeg) (hs : bn.Stochastic) {tm : Mcmc.Transition}
    {vars : List Name} (hvars : ∀ v ∈ vars, v ∈ bn.names) {evidence : Option (Dict Val)}
    (he : LegalHard bn (evidence.getD [])) {F : List Name} {π : Assign → ℝ}
    {P : Assign → Assign → ℝ}
    (h : Kern bn F π (Mcmc.step tm bn (freeNodes bn (evidence.getD [])) full) P)
    {C : Finset Assign} (hsub : C ⊆ states bn)
    (hcl : ∀ σ ∈ C, ∀ τ ∈ states bn, τ ∉ C → P σ τ = 0) {N : Nat} (hN : 0 < N) {ε : ℝ}
    (hfar : ∀ τs : List Assign, τs.length = N → (∀ τ ∈ τs, τ ∈ C) →
      closeFreq bn (evidence.getD []) vars ε N τs = 0) {σ ρ : Assign} (hσ : σ ∈ states bn)
    (hρ : ρ ∈ C) (k : Nat) :
    (Mcmc.marginals bn ⟨tm, k, full⟩ N vars evidence).prob
        (CloseTo bn (evidence.getD []) vars ε) ≤
      1 - (bn.getSample (evidence.getD [])).prob (Returns bn σ) *
        (act (states bn) P)^[k] (point ρ) σ := by
  classical
  rw [prob_marginals hc hl ha hd hnn hs hvars he h k hN ε]
  set ev := evidence.getD [] with hev
  have hstC := stoch_restrict hsub hcl h.stoch
  have hle : ∀ τ ∈ states bn, path (states bn) P N (closeFreq bn ev vars ε N) τ ≤
      (-1) * point ρ τ + 1 := by
    intro τ hτ
    unfold point
    split
    · next e =>
      subst e
      rw [path_restrict hsub hcl N _ τ hρ, mul_one, neg_add_cancel, ← hstC.path_const N 0 hρ]
      exact hstC.path_mono N (fun τs hlen hmem => (hfar τs hlen hmem).le) hρ
    · rw [mul_zero, zero_add, ← h.stoch.path_const N 1 hτ]
      exact h.stoch.path_mono N (fun τs _ _ => closeFreq_le ev vars ε N τs) hτ
  have hit : ∀ τ ∈ states bn, (act (states bn) P)^[k]
      (path (states bn) P N (closeFreq bn ev vars ε N)) τ ≤
        1 - (act (states bn) P)^[k] (point ρ) τ := by
    intro τ hτ
    have := h.stoch.iter_mono hle k τ hτ
    rw [h.stoch.iter_affine _ _ _ k τ hτ] at this
    linarith
  have hpt : ∀ τ ∈ states bn, 0 ≤ (act (states bn) P)^[k] (point ρ) τ := fun x hx => by
    have := h.stoch.iter_mono (f := fun _ => 0) (fun y _ => point_nonneg ρ y) k x hx
    rwa [h.stoch.iter_const 0 k x hx] at this
  have hp0 := fun τ (hτ : τ ∈ states bn) =>
    prob_getSample_nonneg hc hl ha hd hnn hs he (mem_states.1 hτ).1
  calc _ ≤ ∑ τ ∈ states bn, ((bn.getSample ev).prob (Returns bn τ) -
          (bn.getSample ev).prob (Returns bn τ) * (act (states bn) P)^[k] (point ρ) τ) := by
        refine sum_le_sum fun τ hτ => ?_
        have := mul_le_mul_of_nonneg_left (hit τ hτ) (hp0 τ hτ)
        linarith
    _ ≤ _ := by
        rw [sum_sub_distrib, sum_prob_getSample hc hl ha hd hnn hs he]
        refine sub_le_sub_left ?_ _
        exact single_le_sum (f := fun τ => (bn.getSample ev).prob (Returns bn τ) *
          (act (states bn) P)^[k] (point ρ) τ) (fun τ hτ => mul_nonneg (hp0 τ hτ) (hpt τ hτ)) hσ

end Primo
