import Verif.Lemmas.Escape
import Verif.Examples.Converge
import Mathlib.Analysis.SpecificLimits.Basic

/-! # Convergence of the sampling methods: C57 -/

namespace Primo
open Finset Markov

variable {bn : BN}

/-! ## the law of the chain -/

theorem tendsto_of_rate {f : Nat → ℝ} {a : ℝ} {m : Nat} (hm : 0 < m) {r : ℝ} (hr0 : 0 ≤ r)
    (hr1 : r < 1) (h : ∀ k, |f k - a| ≤ r ^ (k / m)) :
    Filter.Tendsto f Filter.atTop (nhds a) := by
  rw [tendsto_iff_dist_tendsto_zero]
  refine squeeze_zero (g := fun k => r ^ (k / m)) (fun _ => dist_nonneg) (fun k => by
    rw [Real.dist_eq]; exact h k) ?_
  exact (tendsto_pow_atTop_nhds_zero_of_lt_one hr0 hr1).comp (Nat.tendsto_div_const_atTop hm.ne')

theorem PossibleState.mem (hc : bn.Consistent) (hd : bn.Discrete) (hnn : bn.NonNeg) {ev : Dict Val}
    (he : LegalHard bn ev) {d : Dict Val} (h : PossibleState bn ev d) :
    ∃ σ ∈ possStates bn ev, Reads bn d σ := by
  obtain ⟨σ, h1, h2⟩ := h
  exact ⟨_, h1.canon_mem hc hd hnn he, reads_canon.2 h2⟩

theorem Possible.mass (hc : bn.Consistent) (hd : bn.Discrete) (hnn : bn.NonNeg) {ev : Dict Val}
    (he : LegalHard bn ev) {σ : Assign} (h : Possible bn ev σ) :
    ∑ τ ∈ states bn, fullPosterior bn ev τ = 1 :=
  C41_posterior_mass hc he (h.totalWeight_pos hc hd hnn he)

/-- **C57** If the possible states are connected by changes of single variables, then the state after
`k` steps of either sampler, from any possible state, is distributed as the posterior, up to an error
that shrinks exponentially, uniformly in the state the chain starts from. -/
theorem C57_law_connected_partial (hc : bn.Consistent) (hl : bn.Linked) (hd : bn.Discrete)
    (hnn : bn.NonNeg) {ev : Dict Val} (he : LegalHard bn ev) (hcon : Connected bn ev)
    {tm : Mcmc.Transition} (htm : tm ≠ .base) {full : Bool}
    (hfull : full = false → ∃ n ∈ bn, n.name ∉ ev.keys)
    {vars : List NodeV} (hvars : Mcmc.variablesToChange bn (some ev) = .ok vars) :
    ∃ m > 0, ∃ r : ℝ, 0 ≤ r ∧ r < 1 ∧ ∀ d, PossibleState bn ev d → ∀ k τ,
      Legal bn.card bn.names τ →
      |(Mcmc.burn (Mcmc.step tm bn vars full) k d).prob (Returns bn τ) - fullPosterior bn ev τ| ≤
        r ^ (k / m) := by
  rw [variablesToChange_some] at hvars
  cases hvars
  by_cases hne : ∃ σ, Possible bn ev σ
  · obtain ⟨σ₀, hσ₀⟩ := hne
    obtain ⟨P, m, δ, h⟩ := step_ergodic hc hl hd hnn he hcon hσ₀ htm hfull
    refine ⟨m, h.m_pos, 1 - δ, by linarith [h.le], by linarith [h.pos], fun d hd' k τ hτ => ?_⟩
    obtain ⟨σ, hσ, hr⟩ := hd'.mem hc hd hnn he
    exact law_of_ergodic hc hd hnn he (hσ₀.mass hc hd hnn he) h hσ hr k hτ
  · refine ⟨1, one_pos, 0, le_rfl, one_pos, fun d hd' => ?_⟩
    obtain ⟨σ, hσ, _⟩ := hd'
    exact absurd ⟨σ, hσ⟩ hne

/-- **C57** The condition is necessary: if two possible states are not connected, then the chain from
one of them is never in the other one, to which the posterior gives positive probability. -/
theorem C57_law_disconnected (hc : bn.Consistent) (hl : bn.Linked) (hd : bn.Discrete)
    (hnn : bn.NonNeg) {ev : Dict Val} (he : LegalHard bn ev) (hcon : ¬ Connected bn ev)
    {tm : Mcmc.Transition} (htm : tm ≠ .base) {full : Bool}
    (hfull : full = false → ∃ n ∈ bn, n.name ∉ ev.keys)
    {vars : List NodeV} (hvars : Mcmc.variablesToChange bn (some ev) = .ok vars) :
    ∃ σ τ, Possible bn ev σ ∧ Possible bn ev τ ∧ 0 < fullPosterior bn ev τ ∧
      ∀ d, Reads bn d σ → ∀ k,
        (Mcmc.burn (Mcmc.step tm bn vars full) k d).prob (Returns bn τ) = 0 := by
  classical
  rw [variablesToChange_some] at hvars
  cases hvars
  unfold Connected at hcon
  push Not at hcon
  obtain ⟨σ, τ, hσ, hτ, hno⟩ := hcon
  refine ⟨σ, τ, hσ, hτ, (fullPosterior_pos hc hd hnn he hτ.1).2 hτ, fun d hr k => ?_⟩
  obtain ⟨P, hP, hcl⟩ := class_closed hc hl hd hnn he (σ := σ) htm hfull
    (C := (possStates bn ev).filter fun ρ =>
      Relation.ReflTransGen (fun a b => Possible bn ev b ∧ OneChange bn a b) σ ρ)
    fun ρ => mem_filter
  have hmem := hσ.canon_mem hc hd hnn he
  refine burn_closed hd hP (fun ρ hρ => support_subset (mem_filter.1 hρ).1) hcl
    (σ := canon bn σ) (mem_filter.2 ⟨hmem, .single ⟨((mem_possStates hc hd hnn he).1 hmem).2, "",
      fun w hw _ => by rw [canon, if_pos hw]⟩⟩) (reads_canon.2 hr) k fun ρ hρ => ?_
  unfold sameState
  rw [if_neg]
  intro h
  exact hno ((mem_filter.1 hρ).2.tail ⟨hτ, "", fun w hw _ => (h w hw).symm⟩)

/-- **C57** The law of either sampler tends to the posterior from all possible states if and only if
the possible states are connected by changes of single variables. -/
theorem C57_law_iff (hc : bn.Consistent) (hl : bn.Linked) (hd : bn.Discrete)
    (hnn : bn.NonNeg) {ev : Dict Val} (he : LegalHard bn ev)
    {tm : Mcmc.Transition} (htm : tm ≠ .base) {full : Bool}
    (hfull : full = false → ∃ n ∈ bn, n.name ∉ ev.keys)
    {vars : List NodeV} (hvars : Mcmc.variablesToChange bn (some ev) = .ok vars) :
    Connected bn ev ↔ ∀ d, PossibleState bn ev d → ∀ τ, Legal bn.card bn.names τ →
      Filter.Tendsto (fun k => (Mcmc.burn (Mcmc.step tm bn vars full) k d).prob (Returns bn τ))
        Filter.atTop (nhds (fullPosterior bn ev τ)) := by
  constructor
  · intro hcon d hd' τ hτ
    obtain ⟨m, hm, r, hr0, hr1, h⟩ :=
      C57_law_connected_partial hc hl hd hnn he hcon htm hfull hvars
    exact tendsto_of_rate hm hr0 hr1 fun k => h d hd' k τ hτ
  · intro h
    by_contra hcon
    obtain ⟨σ, τ, hσ, hτ, hpos, h0⟩ := C57_law_disconnected hc hl hd hnn he hcon htm hfull hvars
    obtain ⟨d, hr⟩ := exists_dict hc hσ.1
    have ht := h d ⟨σ, hσ, hr⟩ τ hτ.1
    simp only [h0 d hr] at ht
    exact hpos.ne (tendsto_nhds_unique tendsto_const_nhds ht)

/-- **C57** For Metropolis-Hastings the initial state need not be possible: the chain finds its way to
the possible states from every state that agrees with the evidence. -/
theorem C57_mh_law (hc : bn.Consistent) (hl : bn.Linked) (hd : bn.Discrete)
    (hnn : bn.NonNeg) {ev : Dict Val} (he : LegalHard bn ev) (hcon : Connected bn ev)
    (hne : ∃ σ, Possible bn ev σ) {full : Bool}
    (hfull : full = false → ∃ n ∈ bn, n.name ∉ ev.keys)
    {vars : List NodeV} (hvars : Mcmc.variablesToChange bn (some ev) = .ok vars) :
    ∃ m > 0, ∃ r : ℝ, 0 ≤ r ∧ r < 1 ∧ ∀ d, GoodState bn ev d → ∀ k τ,
      Legal bn.card bn.names τ →
      |(Mcmc.burn (Mcmc.step .metropolisHastings bn vars full) k d).prob (Returns bn τ) -
        fullPosterior bn ev τ| ≤ r ^ (k / m) := by
  rw [variablesToChange_some] at hvars
  cases hvars
  obtain ⟨σ₀, hσ₀⟩ := hne
  obtain ⟨P, m, δ, h⟩ := step_ergodic_mh hc hl hd hnn he hcon hσ₀ hfull
  refine ⟨m, h.m_pos, 1 - δ, by linarith [h.le], by linarith [h.pos], fun d hgood k τ hτ => ?_⟩
  obtain ⟨σ, hσ, hr⟩ := hgood.state hc he
  exact law_of_ergodic hc hd hnn he (hσ₀.mass hc hd hnn he) h hσ hr k hτ

/-- **C57** The law of Metropolis-Hastings tends to the posterior from every state that agrees with the
evidence if and only if the possible states are connected. -/
theorem C57_mh_law_iff (hc : bn.Consistent) (hl : bn.Linked) (hd : bn.Discrete)
    (hnn : bn.NonNeg) {ev : Dict Val} (he : LegalHard bn ev) (hne : ∃ σ, Possible bn ev σ)
    {full : Bool} (hfull : full = false → ∃ n ∈ bn, n.name ∉ ev.keys)
    {vars : List NodeV} (hvars : Mcmc.variablesToChange bn (some ev) = .ok vars) :
    Connected bn ev ↔ ∀ d, GoodState bn ev d → ∀ τ, Legal bn.card bn.names τ →
      Filter.Tendsto (fun k => (Mcmc.burn (Mcmc.step .metropolisHastings bn vars full) k d).prob
        (Returns bn τ)) Filter.atTop (nhds (fullPosterior bn ev τ)) := by
  constructor
  · intro hcon d hd' τ hτ
    obtain ⟨m, hm, r, hr0, hr1, h⟩ := C57_mh_law hc hl hd hnn he hcon hne hfull hvars
    exact tendsto_of_rate hm hr0 hr1 fun k => h d hd' k τ hτ
  · intro h
    refine (C57_law_iff hc hl hd hnn he (tm := .metropolisHastings) (by decide) hfull hvars).2
      fun d hd' τ hτ => h d ?_ τ hτ
    obtain ⟨σ, hσ, hr⟩ := hd'
    exact hr.good hc hσ.1 he hσ.2.1

/-! ## the estimate -/

/-- **C57** If the possible states are connected then the estimate of `MCMC.marginals` with
Metropolis-Hastings is consistent: it differs from the posterior by `ε` or more with probability at
most `c / (N ε²)` for `N` samples, with the same `c` for every number of samples and every
burn-in. -/
theorem C57_mh_consistent (hc : bn.Consistent) (hl : bn.Linked) (ha : bn.Acyclic)
    (hd : bn.Discrete) (hnn : bn.NonNeg) (hs : bn.Stochastic) (hval : ∀ n ∈ bn, n.values ≠ [])
    {full : Bool} {vars : List Name} (hvars : ∀ v ∈ vars, v ∈ bn.names)
    {evidence : Option (Dict Val)} (he : LegalHard bn (evidence.getD []))
    (hcon : Connected bn (evidence.getD [])) (hne : ∃ σ, Possible bn (evidence.getD []) σ)
    (hfull : full = false → ∃ n ∈ bn, n.name ∉ (evidence.getD []).keys) :
    ∃ c : ℝ, 0 ≤ c ∧ ∀ (burnIn N : Nat) (ε : ℝ), 0 < N → 0 < ε →
      1 - c / (N * ε ^ 2) ≤
        (Mcmc.marginals bn ⟨.metropolisHastings, burnIn, full⟩ N vars evidence).prob
          (CloseTo bn (evidence.getD []) vars ε) := by
  obtain ⟨σ₀, hσ₀⟩ := hne
  obtain ⟨P, m, δ, h⟩ := step_ergodic_mh hc hl hd hnn he hcon hσ₀ hfull
  exact consistent_of_ergodic hc hl ha hd hnn hs hval hvars he (hσ₀.mass hc hd hnn he) h
    fun σ hσ hag _ => mem_evStates.2 ⟨hσ, hag⟩

/-- **C57** The same for either sampler, if forward sampling does not contradict the evidence. -/
theorem C57_consistent_connected_partial (hc : bn.Consistent) (hl : bn.Linked) (ha : bn.Acyclic)
    (hd : bn.Discrete) (hnn : bn.NonNeg) (hs : bn.Stochastic) (hval : ∀ n ∈ bn, n.values ≠ [])
    {tm : Mcmc.Transition} (htm : tm ≠ .base) {full : Bool} {vars : List Name}
    (hvars : ∀ v ∈ vars, v ∈ bn.names) {evidence : Option (Dict Val)}
    (he : LegalHard bn (evidence.getD [])) (hcon : Connected bn (evidence.getD []))
    (hne : ∃ σ, Possible bn (evidence.getD []) σ) (hst : StartsPossible bn (evidence.getD []))
    (hfull : full = false → ∃ n ∈ bn, n.name ∉ (evidence.getD []).keys) :
    ∃ c : ℝ, 0 ≤ c ∧ ∀ (burnIn N : Nat) (ε : ℝ), 0 < N → 0 < ε →
      1 - c / (N * ε ^ 2) ≤ (Mcmc.marginals bn ⟨tm, burnIn, full⟩ N vars evidence).prob
        (CloseTo bn (evidence.getD []) vars ε) := by
  obtain ⟨σ₀, hσ₀⟩ := hne
  obtain ⟨P, m, δ, h⟩ := step_ergodic hc hl hd hnn he hcon hσ₀ htm hfull
  refine consistent_of_ergodic hc hl ha hd hnn hs hval hvars he (hσ₀.mass hc hd hnn he) h
    fun σ hσ hag hp => (mem_possStates hc hd hnn he).2 ⟨hσ, (mem_states.1 hσ).1, hag, ?_⟩
  exact hst σ (mem_states.1 hσ).1 hag hp

/-- **C57** The condition is necessary: if the possible states are not connected then the estimate of
the joint distribution is off by a fixed amount with a fixed positive probability, for every number of
samples and every burn-in. -/
theorem C57_disconnected (hc : bn.Consistent) (hl : bn.Linked) (ha : bn.Acyclic)
    (hd : bn.Discrete) (hnn : bn.NonNeg) (hs : bn.Stochastic) {tm : Mcmc.Transition}
    (htm : tm ≠ .base) {full : Bool} {evidence : Option (Dict Val)}
    (he : LegalHard bn (evidence.getD [])) (hcon : ¬ Connected bn (evidence.getD []))
    (hfull : full = false → ∃ n ∈ bn, n.name ∉ (evidence.getD []).keys) :
    ∃ ε > 0, ∃ q < 1, ∀ burnIn N, 0 < N →
      (Mcmc.marginals bn ⟨tm, burnIn, full⟩ N bn.names evidence).prob
        (CloseTo bn (evidence.getD []) bn.names ε) ≤ q := by
  classical
  set ev := evidence.getD [] with hev
  unfold Connected at hcon
  push Not at hcon
  obtain ⟨σ, τ, hσ, hτ, hno⟩ := hcon
  have hpos := (fullPosterior_pos hc hd hnn he hτ.1).2 hτ
  have hmem := hσ.canon_mem hc hd hnn he
  have hcp := ((mem_possStates hc hd hnn he).1 hmem).2
  refine ⟨fullPosterior bn ev τ, hpos, 1 - (bn.getSample ev).prob (Returns bn (canon bn σ)), ?_,
    fun burnIn N hN => ?_⟩
  · have := (prob_getSample_pos hc hl ha hd hnn hs he hcp.1).2
      ⟨hcp.2.1, fun n hn _ => (joint_pos_iff hnn).1 hcp.2.2 n hn⟩
    linarith
  · obtain ⟨P, hP, hcl⟩ := class_closed hc hl hd hnn he (σ := σ) htm hfull
      (C := (possStates bn ev).filter fun ρ =>
        Relation.ReflTransGen (fun a b => Possible bn ev b ∧ OneChange bn a b) σ ρ)
      fun ρ => mem_filter
    refine prob_marginals_le hc hl ha hd hnn hs (fun _ h => h) he hP
      (fun ρ hρ => support_subset (mem_filter.1 hρ).1) hcl hN (fun τs hlen hC => ?_)
      (mem_filter.2 ⟨hmem, .single ⟨hcp, "", fun w hw _ => by rw [canon, if_pos hw]⟩⟩) burnIn
    unfold closeFreq
    rw [if_neg]
    intro h
    have h1 := h τ hτ.1
    have h2 : (τs.countP fun ρ => decide (∀ v ∈ bn.names, ρ v = τ v)) = 0 := by
      refine List.countP_eq_zero.2 fun ρ hρ => ?_
      rw [decide_eq_true_eq]
      intro e
      exact hno ((mem_filter.1 (hC ρ hρ)).2.tail ⟨hτ, "", fun w hw _ => (e w hw).symm⟩)
    rw [h2, Nat.cast_zero, zero_div, zero_sub, abs_neg] at h1
    exact absurd h1 (not_lt.2 (le_abs_self _))

/-- **C57** The estimates of `MCMC.marginals` with Metropolis-Hastings converge to the posteriors in
probability, for all query variables and every burn-in, if and only if the possible states are
connected by changes of single variables. -/
theorem C57_mh_consistent_iff (hc : bn.Consistent) (hl : bn.Linked) (ha : bn.Acyclic)
    (hd : bn.Discrete) (hnn : bn.NonNeg) (hs : bn.Stochastic) (hval : ∀ n ∈ bn, n.values ≠ [])
    {full : Bool} {evidence : Option (Dict Val)} (he : LegalHard bn (evidence.getD []))
    (hne : ∃ σ, Possible bn (evidence.getD []) σ)
    (hfull : full = false → ∃ n ∈ bn, n.name ∉ (evidence.getD []).keys) :
    Connected bn (evidence.getD []) ↔ ∀ vars : List Name, (∀ v ∈ vars, v ∈ bn.names) →
      Consistently bn .metropolisHastings full evidence vars := by
  constructor
  · intro hcon vars hvars
    exact consistently_of_rate
      (C57_mh_consistent hc hl ha hd hnn hs hval hvars he hcon hne hfull)
  · intro h
    by_contra hcon
    exact not_consistently (C57_disconnected hc hl ha hd hnn hs (tm := .metropolisHastings)
      (by decide) he hcon hfull) (h bn.names fun _ h => h)

/-- **C57** The same for either sampler, if forward sampling does not contradict the evidence. -/
theorem C57_consistent_iff_partial (hc : bn.Consistent) (hl : bn.Linked) (ha : bn.Acyclic)
    (hd : bn.Discrete) (hnn : bn.NonNeg) (hs : bn.Stochastic) (hval : ∀ n ∈ bn, n.values ≠ [])
    {tm : Mcmc.Transition} (htm : tm ≠ .base) {full : Bool} {evidence : Option (Dict Val)}
    (he : LegalHard bn (evidence.getD [])) (hne : ∃ σ, Possible bn (evidence.getD []) σ)
    (hst : StartsPossible bn (evidence.getD []))
    (hfull : full = false → ∃ n ∈ bn, n.name ∉ (evidence.getD []).keys) :
    Connected bn (evidence.getD []) ↔ ∀ vars : List Name, (∀ v ∈ vars, v ∈ bn.names) →
      Consistently bn tm full evidence vars := by
  constructor
  · intro hcon vars hvars
    exact consistently_of_rate
      (C57_consistent_connected_partial hc hl ha hd hnn hs hval htm hvars he hcon hne hst hfull)
  · intro h
    by_contra hcon
    exact not_consistently (C57_disconnected hc hl ha hd hnn hs htm he hcon hfull)
      (h bn.names fun _ h => h)

/-- **C57** In particular without evidence: for either sampler the estimates converge if and only if
the states of positive probability are connected. -/
theorem C57_no_evidence_iff (hc : bn.Consistent) (hl : bn.Linked) (ha : bn.Acyclic)
    (hd : bn.Discrete) (hnn : bn.NonNeg) (hs : bn.Stochastic) (hval : ∀ n ∈ bn, n.values ≠ [])
    (hbn : bn ≠ []) {tm : Mcmc.Transition} (htm : tm ≠ .base) (full : Bool) :
    Connected bn [] ↔ ∀ vars : List Name, (∀ v ∈ vars, v ∈ bn.names) →
      Consistently bn tm full none vars := by
  have he : LegalHard bn ((none : Option (Dict Val)).getD []) :=
    ⟨by simp [Dict.keys], by simp, by simp⟩
  have hst : StartsPossible bn ((none : Option (Dict Val)).getD []) := fun σ _ _ h =>
    (joint_pos_iff hnn).2 fun n hn => h n hn (by simp [Dict.keys])
  refine C57_consistent_iff_partial hc hl ha hd hnn hs hval htm (evidence := none) he ?_ hst
    fun _ => ?_
  · by_contra hno
    push Not at hno
    have hsum := sum_prob_getSample hc hl ha hd hnn hs he
    rw [sum_eq_zero fun τ hτ => ?_] at hsum
    · exact zero_ne_one hsum
    · have hτ' := (mem_states.1 hτ).1
      refine le_antisymm (not_lt.1 fun hp => hno τ ?_)
        (prob_getSample_nonneg hc hl ha hd hnn hs he hτ')
      obtain ⟨h1, h2⟩ := (prob_getSample_pos hc hl ha hd hnn hs he hτ').1 hp
      exact ⟨hτ', h1, hst τ hτ' h1 h2⟩
  · obtain ⟨n, hn⟩ := List.exists_mem_of_ne_nil _ hbn
    exact ⟨n, hn, by simp [Dict.keys]⟩

/-! ### networks with zero probabilities -/

example (tm : Mcmc.Transition) (htm : tm ≠ .base) (full : Bool) :=
  C57_law_connected_partial Ex.gateNet_consistent Ex.gateNet_linked Ex.gateNet_discrete
    Ex.gateNet_nonneg Ex.noEv_legal Ex.gateNet_connected htm (full := full)
    (fun _ => ⟨Ex.ga, by simp [Ex.gateNet], by decide⟩) rfl
example : PossibleState Ex.gateNet [] [("a", "t"), ("b", "f")] :=
  ⟨fun v => if v = "b" then 1 else 0, Ex.gateNet_possible.2 ⟨by decide, by decide, by decide⟩,
    by unfold Reads ReadsOn; decide⟩
example : ¬ PositiveGiven Ex.gateNet [] := fun h =>
  absurd (h (fun v => if v = "a" then 1 else 0) (by unfold Legal; decide) (fun _ _ h => by cases h))
    (by decide +kernel)
example (tm : Mcmc.Transition) (htm : tm ≠ .base) (full : Bool) :
    ∀ vars : List Name, (∀ v ∈ vars, v ∈ Ex.gateNet.names) →
      Consistently Ex.gateNet tm full none vars :=
  (C57_no_evidence_iff Ex.gateNet_consistent Ex.gateNet_linked Ex.gateNet_acyclic
    Ex.gateNet_discrete Ex.gateNet_nonneg Ex.gateNet_stochastic (by decide) (by decide) htm full).1
    Ex.gateNet_connected
example (tm : Mcmc.Transition) (htm : tm ≠ .base) (full : Bool) :
    ¬ ∀ vars : List Name, (∀ v ∈ vars, v ∈ Ex.copyNet.names) →
      Consistently Ex.copyNet tm full none vars :=
  (C57_no_evidence_iff Ex.copyNet_consistent Ex.copyNet_linked Ex.copyNet_acyclic
    Ex.copyNet_discrete Ex.copyNet_nonneg Ex.copyNet_stochastic (by decide) (by decide) htm full).not.1
    Ex.copyNet_not_connected
example (tm : Mcmc.Transition) (htm : tm ≠ .base) (full : Bool) :=
  C57_disconnected Ex.copyNet_consistent Ex.copyNet_linked Ex.copyNet_acyclic
    Ex.copyNet_discrete Ex.copyNet_nonneg Ex.copyNet_stochastic htm (full := full)
    (evidence := none) Ex.noEv_legal Ex.copyNet_not_connected
    (fun _ => ⟨Ex.ka, by simp [Ex.copyNet], by decide⟩)
example (full : Bool) :=
  C57_mh_consistent Ex.andNet_consistent Ex.andNet_linked Ex.andNet_acyclic
    Ex.andNet_discrete Ex.andNet_nonneg Ex.andNet_stochastic (by decide) (full := full)
    (vars := ["a"]) (by decide) (evidence := some Ex.andEv) Ex.andEv_legal Ex.andNet_connected
    ⟨Ex.andσ 1, Ex.andNet_possible.2 ⟨rfl, rfl, rfl⟩⟩
    (fun _ => ⟨Ex.aa, by simp [Ex.andNet], by decide⟩)

example (tm : Mcmc.Transition) (htm : tm ≠ .base) (full : Bool) :=
  C57_law_disconnected Ex.copyNet_consistent Ex.copyNet_linked Ex.copyNet_discrete
    Ex.copyNet_nonneg Ex.noEv_legal Ex.copyNet_not_connected htm (full := full)
    (fun _ => ⟨Ex.ka, by simp [Ex.copyNet], by decide⟩) rfl
example (full : Bool) :=
  (C57_mh_law_iff Ex.andNet_consistent Ex.andNet_linked Ex.andNet_discrete Ex.andNet_nonneg
    Ex.andEv_legal ⟨Ex.andσ 1, Ex.andNet_possible.2 ⟨rfl, rfl, rfl⟩⟩ (full := full)
    (fun _ => ⟨Ex.aa, by simp [Ex.andNet], by decide⟩) rfl).1 Ex.andNet_connected

/-! ## Gibbs sampling from an impossible state -/

/-- **C57** `GibbsTransition` takes the first outcome if all weights are 0. A state in which all
unobserved variables have their first outcome, and no change of one of them makes the weights positive,
is never left. -/
theorem C57_gibbs_stuck (hc : bn.Consistent) (hl : bn.Linked) (hd : bn.Discrete) (hnn : bn.NonNeg)
    {ev : Dict Val} (he : LegalHard bn ev) {full : Bool}
    (hfull : full = false → ∃ n ∈ bn, n.name ∉ ev.keys)
    {vars : List NodeV} (hvars : Mcmc.variablesToChange bn (some ev) = .ok vars) {σ : Assign}
    (hσ : Legal bn.card bn.names σ)
    (h0 : ∀ n ∈ bn, n.name ∉ ev.keys → σ n.name = 0 ∧
      ∀ b < bn.card n.name, LocallyImpossible bn n (Function.update σ n.name b))
    {d : Dict Val} (hr : Reads bn d σ) (k : Nat) :
    (Mcmc.burn (Mcmc.step .gibbs bn vars full) k d).prob (Returns bn σ) = 1 := by
  rw [variablesToChange_some] at hvars
  cases hvars
  have hcan : ∀ n ∈ bn, ∀ m ∈ bn, ∀ b, m.entry (Function.update (canon bn σ) n.name b) =
      m.entry (Function.update σ n.name b) := fun n hn m hm b => by
    have key : ∀ w ∈ bn.names, Function.update (canon bn σ) n.name b w =
        Function.update σ n.name b w := fun w hw => by
      by_cases e : w = n.name
      · subst e; simp
      · rw [Function.update_of_ne e, Function.update_of_ne e, canon, if_pos hw]
    unfold NodeV.entry
    rw [key _ (List.mem_map_of_mem hm), List.map_congr_left fun w hw =>
      key w (hc.parents_mem m hm w hw)]
  obtain ⟨P, hP, hcl⟩ := gibbs_stuck hc hl hd hnn he hfull (canon_mem hσ) fun n hn hn' => by
    obtain ⟨h1, h2⟩ := h0 n hn hn'
    refine ⟨?_, fun b hb => ?_⟩
    swap
    · obtain ⟨m, hm, h3, h4⟩ := h2 b hb
      exact ⟨m, hm, h3, (hcan n hn m hm b).trans h4⟩
    exact (if_pos (List.mem_map_of_mem hn)).trans h1
  refine burn_closed hd hP (singleton_subset_iff.2 (canon_mem hσ)) hcl (mem_singleton_self _)
    (reads_canon.2 hr) k fun ρ hρ => ?_
  rw [mem_singleton] at hρ
  subst hρ
  exact if_pos fun v hv => by rw [canon, if_pos hv]

example (full : Bool) (k : Nat) :=
  C57_gibbs_stuck Ex.andNet_consistent Ex.andNet_linked Ex.andNet_discrete Ex.andNet_nonneg
    Ex.andEv_legal (full := full) (fun _ => ⟨Ex.aa, by simp [Ex.andNet], by decide⟩) rfl
    (σ := Ex.andσ 0) (Ex.andσ_legal (by decide)) Ex.andNet_stuck
    (d := [("a", "f"), ("c", "f"), ("b", "t")]) (by unfold Reads ReadsOn; decide) k

/-- **C57** So for Gibbs sampling connectedness is not enough: for two fair coins of which both are
observed to be heads through a third variable, the only possible state is that both are, but the
estimate of the first is off by 1/2 or more with probability at least 1/4, for every number of samples
and every burn-in. Metropolis-Hastings is consistent for this query. -/
theorem C57_gibbs_refuted (full : Bool) :
    Ex.andNet.Consistent ∧ Ex.andNet.Linked ∧ Ex.andNet.Acyclic ∧ Ex.andNet.Discrete ∧
    Ex.andNet.NonNeg ∧ Ex.andNet.Stochastic ∧ LegalHard Ex.andNet Ex.andEv ∧
    Connected Ex.andNet Ex.andEv ∧ (∃ σ, Possible Ex.andNet Ex.andEv σ) ∧
    (∀ burnIn N, 0 < N → (Mcmc.marginals Ex.andNet ⟨.gibbs, burnIn, full⟩ N ["a"]
      (some Ex.andEv)).prob (CloseTo Ex.andNet Ex.andEv ["a"] (1 / 2)) ≤ 3 / 4) ∧
    Consistently Ex.andNet .metropolisHastings full (some Ex.andEv) ["a"] := by
  have hf : full = false → ∃ n ∈ Ex.andNet, n.name ∉ Ex.andEv.keys :=
    fun _ => ⟨Ex.aa, by simp [Ex.andNet], by decide⟩
  have hne : ∃ σ, Possible Ex.andNet Ex.andEv σ :=
    ⟨Ex.andσ 1, Ex.andNet_possible.2 ⟨rfl, rfl, rfl⟩⟩
  have hc := Ex.andNet_consistent
  refine ⟨hc, Ex.andNet_linked, Ex.andNet_acyclic, Ex.andNet_discrete,
    Ex.andNet_nonneg, Ex.andNet_stochastic, Ex.andEv_legal, Ex.andNet_connected, hne,
    fun burnIn N hN => ?_, ?_⟩
  · have hmem : Ex.andσ 0 ∈ states Ex.andNet := by
      refine mem_states.2 ⟨Ex.andσ_legal (by decide), fun v hv => ?_⟩
      exact if_neg fun h => hv (by rcases h with rfl | rfl | rfl <;> decide)
    obtain ⟨P, hP, hcl⟩ := gibbs_stuck hc Ex.andNet_linked Ex.andNet_discrete Ex.andNet_nonneg
      Ex.andEv_legal hf hmem Ex.andNet_stuck
    have hpost : posterior Ex.andNet (hardEvidence Ex.andEv) ["a"] (Ex.andσ 1) = 1 := by
      decide +kernel
    refine (prob_marginals_le (evidence := some Ex.andEv) hc Ex.andNet_linked Ex.andNet_acyclic
      Ex.andNet_discrete Ex.andNet_nonneg Ex.andNet_stochastic (by decide) Ex.andEv_legal hP
      (singleton_subset_iff.2 hmem) hcl hN (fun τs _ hC => ?_) (mem_singleton_self _) burnIn).trans ?_
    · unfold closeFreq
      rw [if_neg]
      intro h
      have h1 := h (Ex.andσ 1) (by unfold Legal; decide)
      have h2 : (τs.countP fun ρ => decide (∀ v ∈ ["a"], ρ v = Ex.andσ 1 v)) = 0 := by
        refine List.countP_eq_zero.2 fun ρ hρ => ?_
        rw [mem_singleton.1 (hC ρ hρ)]
        decide
      simp only [Option.getD_some] at h1
      rw [h2, hpost] at h1
      norm_num at h1
    · have h1 := (C44_forward_evidence hc Ex.andNet_linked Ex.andNet_acyclic Ex.andNet_discrete
        Ex.andNet_nonneg Ex.andNet_stochastic Ex.andEv_legal
        (Ex.andσ_legal (i := 0) (by decide))).1 (fun v x h => by
          simp only [Ex.andEv, Dict.get?] at h
          split at h
          · rename_i e; cases h; subst e; decide
          · cases h)
      have h2 : ((Ex.andNet.filter fun n => n.name ∉ Ex.andEv.keys).map
          fun n => n.entry (Ex.andσ 0)).prod = 1 / 4 := by decide +kernel
      rw [Option.getD_some, h1, h2]
      norm_num
  · exact consistently_of_rate (C57_mh_consistent hc Ex.andNet_linked Ex.andNet_acyclic
      Ex.andNet_discrete Ex.andNet_nonneg Ex.andNet_stochastic (by decide) (by decide)
      (evidence := some Ex.andEv) Ex.andEv_legal Ex.andNet_connected hne hf)

/-- **C57** If the possible states are connected, then the law of Gibbs sampling tends to the posterior
exponentially fast from every state from which it cannot get into a trap: wherever it gets, it can
still get to a possible state. -/
theorem C57_gibbs_law_partial (hc : bn.Consistent) (hl : bn.Linked) (hd : bn.Discrete)
    (hnn : bn.NonNeg) {ev : Dict Val} (he : LegalHard bn ev) (hcon : Connected bn ev)
    (hne : ∃ σ, Possible bn ev σ) {full : Bool}
    (hfull : full = false → ∃ n ∈ bn, n.name ∉ ev.keys)
    {vars : List NodeV} (hvars : Mcmc.variablesToChange bn (some ev) = .ok vars) :
    ∃ m > 0, ∃ r : ℝ, 0 ≤ r ∧ r < 1 ∧ ∀ σ, Legal bn.card bn.names σ →
      (∀ ρ, Relation.ReflTransGen (GibbsStep bn ev full) σ ρ →
        ∃ τ, Possible bn ev τ ∧ Relation.ReflTransGen (GibbsStep bn ev full) ρ τ) →
      ∀ d, Reads bn d σ → ∀ k τ, Legal bn.card bn.names τ →
      |(Mcmc.burn (Mcmc.step .gibbs bn vars full) k d).prob (Returns bn τ) -
        fullPosterior bn ev τ| ≤ r ^ (k / m) := by
  rw [variablesToChange_some] at hvars
  cases hvars
  obtain ⟨σ₀, hσ₀⟩ := hne
  obtain ⟨P, m, δ, h⟩ := step_ergodic_gibbs hc hl hd hnn he hcon hσ₀ hfull
  refine ⟨m, h.m_pos, 1 - δ, by linarith [h.le], by linarith [h.pos], fun σ hσ hsafe d hr k τ hτ => ?_⟩
  exact law_of_ergodic hc hd hnn he (hσ₀.mass hc hd hnn he) h
    (mem_safeStates.2 ⟨canon_mem hσ, Safe.canon hc he hsafe⟩) (reads_canon.2 hr) k hτ

/-- **C57** The estimate with Gibbs sampling is consistent if the possible states are connected and
forward sampling does not start it in a trap. -/
theorem C57_gibbs_consistent (hc : bn.Consistent) (hl : bn.Linked) (ha : bn.Acyclic)
    (hd : bn.Discrete) (hnn : bn.NonNeg) (hs : bn.Stochastic) (hval : ∀ n ∈ bn, n.values ≠ [])
    {full : Bool} {vars : List Name} (hvars : ∀ v ∈ vars, v ∈ bn.names)
    {evidence : Option (Dict Val)} (he : LegalHard bn (evidence.getD []))
    (hcon : Connected bn (evidence.getD [])) (hne : ∃ σ, Possible bn (evidence.getD []) σ)
    (hesc : Escapes bn (evidence.getD []) full)
    (hfull : full = false → ∃ n ∈ bn, n.name ∉ (evidence.getD []).keys) :
    ∃ c : ℝ, 0 ≤ c ∧ ∀ (burnIn N : Nat) (ε : ℝ), 0 < N → 0 < ε →
      1 - c / (N * ε ^ 2) ≤ (Mcmc.marginals bn ⟨.gibbs, burnIn, full⟩ N vars evidence).prob
        (CloseTo bn (evidence.getD []) vars ε) := by
  obtain ⟨σ₀, hσ₀⟩ := hne
  obtain ⟨P, m, δ, h⟩ := step_ergodic_gibbs hc hl hd hnn he hcon hσ₀ hfull
  exact consistent_of_ergodic hc hl ha hd hnn hs hval hvars he (hσ₀.mass hc hd hnn he) h
    fun σ hσ hag hp => mem_safeStates.2 ⟨hσ, hesc σ ⟨(mem_states.1 hσ).1, hag, hp⟩⟩

/-- **C57** The estimates of `MCMC.marginals` with Gibbs sampling converge to the posteriors in
probability, for all query variables and every burn-in, if and only if the possible states are connected
by changes of single variables and forward sampling does not start the chain in a trap. -/
theorem C57_gibbs_consistent_iff (hc : bn.Consistent) (hl : bn.Linked) (ha : bn.Acyclic)
    (hd : bn.Discrete) (hnn : bn.NonNeg) (hs : bn.Stochastic) (hval : ∀ n ∈ bn, n.values ≠ [])
    {full : Bool} {evidence : Option (Dict Val)} (he : LegalHard bn (evidence.getD []))
    (hne : ∃ σ, Possible bn (evidence.getD []) σ)
    (hfull : full = false → ∃ n ∈ bn, n.name ∉ (evidence.getD []).keys) :
    Connected bn (evidence.getD []) ∧ Escapes bn (evidence.getD []) full ↔
      ∀ vars : List Name, (∀ v ∈ vars, v ∈ bn.names) →
        Consistently bn .gibbs full evidence vars := by
  classical
  constructor
  · rintro ⟨hcon, hesc⟩ vars hvars
    exact consistently_of_rate
      (C57_gibbs_consistent hc hl ha hd hnn hs hval hvars he hcon hne hesc hfull)
  · intro h
    refine ⟨?_, ?_⟩
    · by_contra hcon
      exact not_consistently (C57_disconnected hc hl ha hd hnn hs (by decide) he hcon hfull)
        (h bn.names fun _ h => h)
    · intro σ hσ ρ hρ
      by_contra hno
      push Not at hno
      obtain ⟨τ₀, hτ₀⟩ := hne
      have hpos := (fullPosterior_pos hc hd hnn he hτ₀.1).2 hτ₀
      obtain ⟨P, hk, hP⟩ := gibbs_matrix hc hl hd hnn he hfull
      have hσm := canon_mem hσ.1
      obtain ⟨hρm, hreach⟩ := reach_states hP hσm (reach_over hc (fun _ => 0) hρ)
      obtain ⟨k, hkpos⟩ : ∃ k, 0 < (act (states bn) P)^[k] (point (canon bn ρ)) (canon bn σ) :=
        iter_point_pos hk.stoch hσm hreach
      have hstart : Start bn (evidence.getD []) (canon bn σ) := hσ.over hc he _
      have hp0 := (prob_getSample_pos hc hl ha hd hnn hs he hstart.1).2 hstart.2
      set C := (states bn).filter fun τ =>
        Relation.ReflTransGen (GibbsStep bn (evidence.getD []) full) (canon bn ρ) τ with hC
      obtain ⟨N₀, hN⟩ := h bn.names (fun _ h => h) _ hpos
        (1 - (bn.getSample (evidence.getD [])).prob (Returns bn (canon bn σ)) *
          (act (states bn) P)^[k] (point (canon bn ρ)) (canon bn σ) / 2)
        (by have := mul_pos hp0 hkpos; linarith) k
      have h1 := hN (max N₀ 1) (le_max_left _ _)
      have h2 := prob_marginals_lt hc hl ha hd hnn hs (fun _ h => h) he hk (C := C)
        (filter_subset _ _) (fun a hac b hb hbc => ?_) (N := max N₀ 1)
        (lt_of_lt_of_le one_pos (le_max_right _ _)) (vars := bn.names)
        (ε := fullPosterior bn (evidence.getD []) τ₀) (fun τs _ hτs => ?_) hσm
        (ρ := canon bn ρ) (mem_filter.2 ⟨hρm, .refl⟩) k
      · have h3 := h1.trans h2
        have h4 := mul_pos hp0 hkpos
        linarith
      · obtain ⟨ha1, ha2⟩ := mem_filter.1 hac
        by_contra h0
        exact hbc (mem_filter.2 ⟨hb, ha2.tail ((hP a ha1 b).1
          ⟨hb, (hk.stoch.nonneg a ha1 b hb).lt_of_ne' h0⟩)⟩)
      · unfold closeFreq
        rw [if_neg]
        intro hclose
        have h3 := hclose τ₀ hτ₀.1
        have h4 : (τs.countP fun τ => decide (∀ v ∈ bn.names, τ v = τ₀ v)) = 0 := by
          refine List.countP_eq_zero.2 fun τ hτ => ?_
          rw [decide_eq_true_eq]
          intro e
          refine hno (over bn ρ τ) ?_ ?_
          · refine hτ₀.congr hc he fun v hv => ?_
            rw [over, if_pos hv, e v hv]
          · have := reach_over hc ρ (mem_filter.1 (hτs τ hτ)).2
            rwa [over_canon] at this
        rw [h4, Nat.cast_zero, zero_div, zero_sub, abs_neg] at h3
        exact absurd h3 (not_lt.2 (le_abs_self _))

example (vars : List Name) (hvars : ∀ v ∈ vars, v ∈ Ex.andNet.names) :
    Consistently Ex.andNet .gibbs false (some Ex.nandEv) vars :=
  (C57_gibbs_consistent_iff Ex.andNet_consistent Ex.andNet_linked Ex.andNet_acyclic
    Ex.andNet_discrete Ex.andNet_nonneg Ex.andNet_stochastic (by decide)
    (evidence := some Ex.nandEv) Ex.nandEv_legal
    ⟨fun _ => 0, Ex.nand_possible.2 ⟨by decide, by decide, rfl, Or.inl rfl⟩⟩
    (fun _ => ⟨Ex.aa, by simp [Ex.andNet], by decide⟩)).1 ⟨Ex.nand_connected, Ex.nand_escapes⟩
    vars hvars
example : ¬ StartsPossible Ex.andNet Ex.nandEv := Ex.nand_not_starts
example (full : Bool) : ¬ Escapes Ex.andNet Ex.andEv full := fun h => by
  obtain ⟨-, -, -, -, -, -, -, -, -, hfar, -⟩ := C57_gibbs_refuted full
  have := (C57_gibbs_consistent_iff Ex.andNet_consistent Ex.andNet_linked Ex.andNet_acyclic
    Ex.andNet_discrete Ex.andNet_nonneg Ex.andNet_stochastic (by decide) (full := full)
    (evidence := some Ex.andEv) Ex.andEv_legal
    ⟨Ex.andσ 1, Ex.andNet_possible.2 ⟨rfl, rfl, rfl⟩⟩
    (fun _ => ⟨Ex.aa, by simp [Ex.andNet], by decide⟩)).1 ⟨Ex.andNet_connected, h⟩
  refine not_consistently (vars := ["a"]) ?_ (this ["a"] (by decide))
  exact ⟨1 / 2, by norm_num, 3 / 4, by norm_num, hfar⟩

/-! ## networks without zero probabilities -/

/-- **C57** If all states that agree with the evidence are possible, they are connected. -/
theorem C57_positive_connected {ev : Dict Val} (hpos : PositiveGiven bn ev) : Connected bn ev := by
  intro σ τ hσ hτ
  have key : ∀ l : List Name, Relation.ReflTransGen
      (fun a b => Possible bn ev b ∧ OneChange bn a b) σ (fun v => if v ∈ l then τ v else σ v) := by
    intro l
    have hp : ∀ l : List Name, Possible bn ev (fun v => if v ∈ l then τ v else σ v) := by
      intro l
      have h1 : Legal bn.card bn.names (fun v => if v ∈ l then τ v else σ v) := fun v hv => by
        dsimp only
        split
        · exact hτ.1 v hv
        · exact hσ.1 v hv
      have h2 : Agrees bn ev (fun v => if v ∈ l then τ v else σ v) := fun v x hx => by
        dsimp only
        split
        · exact hτ.2.1 v x hx
        · exact hσ.2.1 v x hx
      exact ⟨h1, h2, hpos _ h1 h2⟩
    induction l with
    | nil => simpa using Relation.ReflTransGen.refl
    | cons u l ih =>
      refine ih.tail ⟨hp _, u, fun w _ hw => ?_⟩
      simp only [List.mem_cons, hw, false_or]
  exact (key bn.names).tail ⟨hτ, "", fun w hw _ => (if_pos hw).symm⟩

/-- **C57** The state after `k` steps of the chain is distributed as the posterior, up to an error
that shrinks exponentially, uniformly in the state the chain starts from. -/
theorem C57_law_partial (hc : bn.Consistent) (hl : bn.Linked) (hd : bn.Discrete) (hnn : bn.NonNeg)
    {ev : Dict Val} (he : LegalHard bn ev) (hpos : PositiveGiven bn ev) {tm : Mcmc.Transition}
    (htm : tm ≠ .base) {full : Bool} (hfull : full = false → ∃ n ∈ bn, n.name ∉ ev.keys)
    {vars : List NodeV} (hvars : Mcmc.variablesToChange bn (some ev) = .ok vars) :
    ∃ m > 0, ∃ r : ℝ, 0 ≤ r ∧ r < 1 ∧ ∀ d, GoodState bn ev d → ∀ k τ,
      Legal bn.card bn.names τ →
      |(Mcmc.burn (Mcmc.step tm bn vars full) k d).prob (Returns bn τ) - fullPosterior bn ev τ| ≤
        r ^ (k / m) := by
  obtain ⟨m, hm, r, hr0, hr1, h⟩ := C57_law_connected_partial hc hl hd hnn he
    (C57_positive_connected hpos) htm hfull hvars
  refine ⟨m, hm, r, hr0, hr1, fun d hgood => h d ?_⟩
  obtain ⟨σ, hσ, hr⟩ := hgood.state hc he
  obtain ⟨h1, h2⟩ := mem_evStates.1 hσ
  exact ⟨σ, ⟨(mem_states.1 h1).1, h2, hpos σ (mem_states.1 h1).1 h2⟩, hr⟩

/-- **C57** In particular the law of the chain tends to the posterior. -/
theorem C57_law_tendsto_partial (hc : bn.Consistent) (hl : bn.Linked) (hd : bn.Discrete)
    (hnn : bn.NonNeg) {ev : Dict Val} (he : LegalHard bn ev) (hpos : PositiveGiven bn ev)
    {tm : Mcmc.Transition} (htm : tm ≠ .base) {full : Bool}
    (hfull : full = false → ∃ n ∈ bn, n.name ∉ ev.keys)
    {vars : List NodeV} (hvars : Mcmc.variablesToChange bn (some ev) = .ok vars)
    {d : Dict Val} (hgood : GoodState bn ev d) {τ : Assign} (hτ : Legal bn.card bn.names τ) :
    Filter.Tendsto (fun k => (Mcmc.burn (Mcmc.step tm bn vars full) k d).prob (Returns bn τ))
      Filter.atTop (nhds (fullPosterior bn ev τ)) := by
  obtain ⟨m, hm, r, hr0, hr1, h⟩ := C57_law_partial hc hl hd hnn he hpos htm hfull hvars
  exact tendsto_of_rate hm hr0 hr1 fun k => h d hgood k τ hτ

/-- **C57** The estimate of `MCMC.marginals` is consistent: it differs from the posterior by `ε` or
more with probability at most `c / (N ε²)` for `N` samples, with the same `c` for every number of
samples and every burn-in. -/
theorem C57_consistent_partial (hc : bn.Consistent) (hl : bn.Linked) (ha : bn.Acyclic)
    (hd : bn.Discrete) (hnn : bn.NonNeg) (hs : bn.Stochastic) (hval : ∀ n ∈ bn, n.values ≠ [])
    {tm : Mcmc.Transition} (htm : tm ≠ .base) {full : Bool} {vars : List Name}
    (hvars : ∀ v ∈ vars, v ∈ bn.names) {evidence : Option (Dict Val)}
    (he : LegalHard bn (evidence.getD [])) (hpos : PositiveGiven bn (evidence.getD []))
    (hfull : full = false → ∃ n ∈ bn, n.name ∉ (evidence.getD []).keys) :
    ∃ c : ℝ, 0 ≤ c ∧ ∀ (burnIn N : Nat) (ε : ℝ), 0 < N → 0 < ε →
      1 - c / (N * ε ^ 2) ≤ (Mcmc.marginals bn ⟨tm, burnIn, full⟩ N vars evidence).prob
        (CloseTo bn (evidence.getD []) vars ε) := by
  obtain ⟨σ, hσ⟩ := evStates_nonempty hc he hval
  obtain ⟨h1, h2⟩ := mem_evStates.1 hσ
  exact C57_consistent_connected_partial hc hl ha hd hnn hs hval htm hvars he
    (C57_positive_connected hpos) ⟨σ, (mem_states.1 h1).1, h2, hpos σ (mem_states.1 h1).1 h2⟩
    (fun σ hσ hag _ => hpos σ hσ hag) hfull

/-- **C57** In particular the probability of an error of `ε` or more tends to 0. -/
theorem C57_consistent_tendsto_partial (hc : bn.Consistent) (hl : bn.Linked) (ha : bn.Acyclic)
    (hd : bn.Discrete) (hnn : bn.NonNeg) (hs : bn.Stochastic) (hval : ∀ n ∈ bn, n.values ≠ [])
    {tm : Mcmc.Transition} (htm : tm ≠ .base) {full : Bool} {vars : List Name}
    (hvars : ∀ v ∈ vars, v ∈ bn.names) {evidence : Option (Dict Val)}
    (he : LegalHard bn (evidence.getD [])) (hpos : PositiveGiven bn (evidence.getD []))
    (hfull : full = false → ∃ n ∈ bn, n.name ∉ (evidence.getD []).keys) (burnIn : Nat) {ε q : ℝ}
    (hε : 0 < ε) (hq : q < 1) :
    ∀ᶠ N in Filter.atTop, q ≤ (Mcmc.marginals bn ⟨tm, burnIn, full⟩ N vars evidence).prob
        (CloseTo bn (evidence.getD []) vars ε) := by
  obtain ⟨N₀, h⟩ := consistently_of_rate
    (C57_consistent_partial hc hl ha hd hnn hs hval htm hvars he hpos hfull) ε hε q hq burnIn
  exact Filter.eventually_atTop.2 ⟨N₀, h⟩

/-- **C57** Positive tables satisfy the condition, whatever the evidence. -/
theorem C57_positive_tables (hc : bn.Consistent) (hp : bn.Positive) (ev : Dict Val) :
    PositiveGiven bn ev := by
  intro σ hσ _
  unfold joint
  refine List.prod_pos fun x hx => ?_
  obtain ⟨n, hn, rfl⟩ := List.mem_map.1 hx
  refine hp n hn _ ?_
  unfold NodeV.entry NDArray.get
  have hr : InRange n.cpd.shape (σ n.name :: n.parentOrder.map σ) := by
    rw [hc.shape n hn]
    refine .cons ?_ (inRange_map.2 fun p hp => hσ p (hc.parents_mem n hn p hp))
    rw [← card_eq hc hn]
    exact hσ _ (List.mem_map_of_mem hn)
  have hlt : NDArray.ravel n.cpd.shape (σ n.name :: n.parentOrder.map σ) < n.cpd.data.length := by
    rw [n.cpd.size_eq]
    exact NDArray.ravel_lt hr
  rw [List.getD_eq_getElem?_getD, List.getElem?_eq_getElem hlt]
  exact List.getElem_mem _

example (tm : Mcmc.Transition) (htm : tm ≠ .base) (full : Bool) :=
  C57_law_partial Ex.wet_consistent Ex.wet_linked Ex.wet_discrete Ex.wet_nonneg Ex.wetEv_legal
    (C57_positive_tables Ex.wet_consistent Ex.wet_positive _) htm (full := full)
    (fun _ => ⟨Ex.pr, by simp [Ex.wet], by decide⟩) rfl
example : GoodState Ex.wet Ex.wetEv Ex.wetState := Ex.wetState_good
example (tm : Mcmc.Transition) (htm : tm ≠ .base) (full : Bool) :=
  C57_consistent_partial Ex.wet_consistent Ex.wet_linked Ex.wet_acyclic Ex.wet_discrete
    Ex.wet_nonneg Ex.wet_stochastic (by decide) htm (full := full) (vars := ["s", "r"]) (by decide)
    (evidence := some Ex.wetEv) Ex.wetEv_legal
    (C57_positive_tables Ex.wet_consistent Ex.wet_positive _)
    (fun _ => ⟨Ex.pr, by simp [Ex.wet], by decide⟩)
/-- The condition can hold although tables contain zeros: the evidence may rule them out. -/
example : PositiveGiven Ex.bn [("b", "x"), ("c", "t")] := by
  intro σ hσ hev
  have hb := hev "b" "x" rfl
  have hc := hev "c" "t" rfl
  have hb' : σ "b" < 3 := hσ "b" (by decide)
  have hc' : σ "c" < 2 := hσ "c" (by decide)
  have ha : σ "a" < 2 := hσ "a" (by decide)
  have hd : σ "d" < 2 := hσ "d" (by decide)
  have hj : joint Ex.bn σ = Ex.nd.cpd.get [σ "d", σ "c"] * (Ex.na.cpd.get [σ "a"] *
      (Ex.nb.cpd.get [σ "b"] * (Ex.nc.cpd.get [σ "c", σ "b", σ "a"] * 1))) := rfl
  rw [hj]
  generalize σ "a" = i at *
  generalize σ "b" = j at *
  generalize σ "c" = k at *
  generalize σ "d" = l at *
  have hj0 : j = 0 := by
    interval_cases j
    · rfl
    · exact absurd hb (by decide)
    · exact absurd hb (by decide)
  have hk0 : k = 0 := by
    interval_cases k
    · rfl
    · exact absurd hc (by decide)
  subst hj0 hk0
  interval_cases i <;> interval_cases l <;> decide +kernel

/-! ### without positivity -/

theorem copy_proportional {i : Nat} (hi : i < 2) {n : NodeV} (hn : n ∈ Ex.copyNet) :
    Proportional Ex.copyNet (sameState Ex.copyNet (Ex.copyσ i)) n := by
  classical
  have hs : ∀ σ : Assign, sameState Ex.copyNet (Ex.copyσ i) σ =
      if σ "a" = i ∧ σ "b" = i then 1 else 0 := fun σ => by
    unfold sameState
    refine if_congr ?_ rfl rfl
    simp [Ex.copyNet, BN.names, Ex.ka, Ex.kb, Ex.copyσ]
  have hget : ∀ (l : List ℚ) (j : Nat), l.length ≤ j → l.getD j 0 = 0 := fun l j h => by
    rw [List.getD_eq_getElem?_getD, List.getElem?_eq_none h]; rfl
  have hba : ∀ σ : Assign, blanket Ex.copyNet Ex.ka σ =
      [1 / 2, 1 / 2].getD (σ "a") 0 * [1, 0, 0, 1].getD (σ "b" * 2 + σ "a") (0 : ℚ) := fun σ => by
    simp [blanket, NodeV.entry, BN.childNodes, Ex.ka, Ex.kb, Ex.copyNet, NDArray.get, NDArray.ravel]
  have hbb : ∀ σ : Assign, blanket Ex.copyNet Ex.kb σ =
      [1, 0, 0, 1].getD (σ "b" * 2 + σ "a") (0 : ℚ) := fun σ => by
    simp [blanket, NodeV.entry, BN.childNodes, Ex.kb, NDArray.get, NDArray.ravel]
  intro σ
  simp only [Ex.copyNet, List.mem_cons, List.not_mem_nil, or_false] at hn
  rcases hn with rfl | rfl
  · refine ⟨if σ "b" = i then 2 else 0, fun x => ?_⟩
    rw [hs, hba]
    have h1 : Function.update σ Ex.ka.name x "a" = x := Function.update_self ..
    have h2 : Function.update σ Ex.ka.name x "b" = σ "b" :=
      Function.update_of_ne (by decide) ..
    rw [h1, h2]
    by_cases hb : σ "b" = i
    · rw [if_pos hb, hb]
      rcases x with _ | _ | x
      · interval_cases i <;> norm_num
      · interval_cases i <;> norm_num
      · rw [hget [1 / 2, 1 / 2] _ (by simp), if_neg (by omega)]
        norm_num
    · rw [if_neg (fun h => hb h.2), if_neg hb, zero_mul]
  · refine ⟨if σ "a" = i then 1 else 0, fun x => ?_⟩
    rw [hs, hbb]
    have h1 : Function.update σ Ex.kb.name x "b" = x := Function.update_self ..
    have h2 : Function.update σ Ex.kb.name x "a" = σ "a" :=
      Function.update_of_ne (by decide) ..
    rw [h1, h2]
    by_cases ha : σ "a" = i
    · rw [if_pos ha, ha]
      rcases x with _ | _ | x
      · interval_cases i <;> norm_num
      · interval_cases i <;> norm_num
      · rw [hget [1, 0, 0, 1] _ (by simp; omega), if_neg (by omega)]
        norm_num
    · rw [if_neg (fun h => ha h.1), if_neg ha, zero_mul]

theorem copy_kern {i : Nat} (hi : i < 2) {tm : Mcmc.Transition} (htm : tm ≠ .base) (full : Bool) :
    ∃ P, Kern Ex.copyNet (freeNames Ex.copyNet []) (sameState Ex.copyNet (Ex.copyσ i))
      (Mcmc.step tm Ex.copyNet (Ex.copyNet.filter fun n => n.name ∉ Dict.keys ([] : Dict Val)) full)
      P := by
  have hfull : full = false →
      Ex.copyNet.filter (fun n => n.name ∉ Dict.keys ([] : Dict Val)) ≠ [] := fun _ => by decide
  cases tm with
  | base => exact absurd rfl htm
  | gibbs =>
    refine siteStep_kern (fun n hn => ?_) hfull
    obtain ⟨h1, _⟩ := List.mem_filter.1 hn
    exact gibbs_kernel Ex.copyNet_consistent Ex.copyNet_linked Ex.copyNet_discrete
      Ex.copyNet_nonneg h1 (copy_proportional hi h1)
  | metropolisHastings =>
    refine siteStep_kern (fun n hn => ?_) hfull
    obtain ⟨h1, _⟩ := List.mem_filter.1 hn
    exact mh_kernel Ex.copyNet_consistent Ex.copyNet_linked Ex.copyNet_discrete
      Ex.copyNet_nonneg h1 (copy_proportional hi h1)

theorem copyσ_mem {i : Nat} (hi : i < 2) : Ex.copyσ i ∈ states Ex.copyNet := by
  refine mem_states.2 ⟨Ex.copyσ_legal hi, fun v hv => if_neg fun h => hv ?_⟩
  rcases h with rfl | rfl <;> decide

theorem copy_reads {i : Nat} (hi : i < 2) :
    Reads Ex.copyNet (Ex.copyState (["t", "f"].getD i "")) (Ex.copyσ i) := by
  unfold Reads ReadsOn
  interval_cases i <;> decide

/-- **C57** Without the positivity condition the law of the chain need not converge: in the network
`a → b`, where `b` is a copy of a fair `a`, all transition models stay in the state they start from
with probability 1 forever, while the posterior of this state is 1/2. -/
theorem C57_law_refuted : Ex.copyNet.Consistent ∧ Ex.copyNet.Linked ∧ Ex.copyNet.Acyclic ∧
    Ex.copyNet.Discrete ∧ Ex.copyNet.NonNeg ∧ Ex.copyNet.Stochastic ∧ LegalHard Ex.copyNet [] ∧
    GoodState Ex.copyNet [] (Ex.copyState "t") ∧
    fullPosterior Ex.copyNet [] (Ex.copyσ 0) = 1 / 2 ∧
    ∀ tm ≠ Mcmc.Transition.base, ∀ full vars,
      Mcmc.variablesToChange Ex.copyNet (some []) = .ok vars → ∀ k,
      (Mcmc.burn (Mcmc.step tm Ex.copyNet vars full) k (Ex.copyState "t")).prob
        (Returns Ex.copyNet (Ex.copyσ 0)) = 1 := by
  refine ⟨Ex.copyNet_consistent, Ex.copyNet_linked, Ex.copyNet_acyclic, Ex.copyNet_discrete,
    Ex.copyNet_nonneg, Ex.copyNet_stochastic, Ex.noEv_legal, ⟨by decide, fun v x h => by cases h⟩,
    ?_, fun tm htm full vars hvars k => ?_⟩
  · have : posterior Ex.copyNet (hardEvidence []) Ex.copyNet.names (Ex.copyσ 0) = 1 / 2 := by
      decide +kernel
    unfold fullPosterior
    rw [this]
    norm_num
  · rw [variablesToChange_some] at hvars
    cases hvars
    obtain ⟨P, h⟩ := copy_kern (i := 0) (by decide) htm full
    have h1 : (Mcmc.burn (Mcmc.step tm Ex.copyNet (Ex.copyNet.filter fun n =>
        n.name ∉ Dict.keys ([] : Dict Val)) full) k (Ex.copyState "t")).prob
          (Returns Ex.copyNet (Ex.copyσ 0)) = _ :=
      h.burn k (fun d' ρ hρ hr' => compat_returns Ex.copyNet_discrete (Ex.copyσ 0) d' ρ
        (mem_states.1 hρ).1 hr') (copyσ_mem (by decide)) (copy_reads (i := 0) (by decide))
    rw [h1, h.stuck_iter (copyσ_mem (by decide))]
    unfold sameState
    exact if_pos fun _ _ => rfl

/-- **C57** Nor is the estimate consistent: for the same network `MCMC.marginals` of `a` is off by
1/4 or more with probability 1, for every number of samples and every burn-in. -/
theorem C57_consistent_refuted {tm : Mcmc.Transition} (htm : tm ≠ .base) (full : Bool)
    (burnIn N : Nat) (hN : 0 < N) :
    (Mcmc.marginals Ex.copyNet ⟨tm, burnIn, full⟩ N ["a"] none).prob
      (fun r => ¬ CloseTo Ex.copyNet [] ["a"] (1 / 4) r) = 1 := by
  classical
  have hc := Ex.copyNet_consistent
  obtain ⟨vv, v1, v2, v3, v4⟩ := variableValues_spec hc (vars := ["a"]) (by decide)
  -- the chain from one of the two possible states
  have key : ∀ i < 2, (Rand.andThen ((⟨tm, burnIn, full⟩ : Mcmc.Sampler).generate Ex.copyNet N
      (Ex.copyState (["t", "f"].getD i "")) (some [])) fun chain =>
        Rand.lift (Factor.fromSamples chain vv)).expect
      (fun r => if ¬ CloseTo Ex.copyNet [] ["a"] (1 / 4) r then 1 else 0) = 1 := by
    intro i hi
    obtain ⟨P, h⟩ := copy_kern hi htm full
    rw [Rand.expect_andThen]
    unfold Mcmc.Sampler.generate
    rw [variablesToChange_some, Rand.andThen_ok, Rand.expect_andThen]
    have hpost : ∀ σ : Assign, σ "a" < 2 →
        posterior Ex.copyNet (hardEvidence []) ["a"] σ = 1 / 2 := by
      intro σ hσ
      rw [posterior_query_congr hc Ex.noEv_legal.legal (ρ := Ex.copyσ (σ "a")) (by
        intro v hv
        rw [List.mem_singleton] at hv
        subst hv
        rfl)]
      generalize σ "a" = j at *
      interval_cases j <;> decide +kernel
    have hmem := copyσ_mem hi
    have hcol : CompatS Ex.copyNet (Rand.rest (Rand.rest
        (fun r => if ¬ CloseTo Ex.copyNet [] ["a"] (1 / 4) r then (1 : ℝ) else 0) fun chain =>
          Rand.lift (Factor.fromSamples chain vv)) fun state => Mcmc.collect
        (Mcmc.step tm Ex.copyNet (Ex.copyNet.filter fun n => n.name ∉ Dict.keys ([] : Dict Val))
          full) N state) (path (states Ex.copyNet) P N fun τs => if ¬ ∀ σ,
            Legal Ex.copyNet.card ["a"] σ →
            |(τs.countP fun τ => decide (∀ v ∈ ["a"], τ v = σ v) : ℕ) / (N : ℝ) -
              ((posterior Ex.copyNet (hardEvidence []) ["a"] σ : ℚ) : ℝ)| < 1 / 4
            then 1 else 0) := by
      intro d σ hσ hr
      refine h.collect N (fun ds τs hlen hf => ?_) hσ hr
      obtain ⟨f, f1, fk⟩ := closeTo_fromSamples Ex.copyNet_discrete (ev := []) (by decide) v2 v3 v4
        (1 / 4) hN hlen hf
      rw [Rand.rest, f1]
      show (if ¬ CloseTo Ex.copyNet [] ["a"] (1 / 4) (.ok f) then (1 : ℝ) else 0) = _
      simp only [fk]
    refine (h.burn burnIn hcol hmem (copy_reads hi)).trans ?_
    rw [h.stuck_iter hmem, h.stuck_path hmem, if_pos]
    intro hall
    have hN' : (N : ℝ) ≠ 0 := by exact_mod_cast hN.ne'
    have := hall (Ex.copyσ i) (fun v hv => by
      rw [List.mem_singleton] at hv
      subst hv
      exact hi)
    rw [hpost (Ex.copyσ i) hi, List.countP_replicate, if_pos (by simp), div_self hN'] at this
    norm_num [abs_lt] at this
  -- the two possible initial states
  have hts : Ex.copyNet.topologicalSort = (["a", "b"], none) := by decide
  have hga : Ex.copyNet.getNode "a" = .ok Ex.ka := rfl
  have hgb : Ex.copyNet.getNode "b" = .ok Ex.kb := rfl
  have hsample : ∀ G, (Ex.copyNet.getSample []).expect G =
      1 / 2 * G (.ok (Ex.copyState "t")) + 1 / 2 * G (.ok (Ex.copyState "f")) := by
    intro G
    have hb : ∀ i < 2, ∀ G, ((Ex.kb.resample [("a", ["t", "f"].getD i "")]
        (Ex.copyNet.childNodes Ex.kb) true)).expect G =
          G (.ok (Ex.copyState (["t", "f"].getD i ""))) := by
      intro i hi G
      rw [expect_resample_forward hc Ex.copyNet_discrete Ex.copyNet_nonneg Ex.copyNet_stochastic
        (n := Ex.kb) (by simp [Ex.copyNet]) (ρ := Ex.copyσ i)
        (fun v hv => Ex.copyσ_legal hi v (by revert hv; revert v; decide))
        (fun v hv => by
          have : v = "a" := by simpa [Ex.kb] using hv
          subst this
          interval_cases i <;> rfl)]
      have hr : ∀ j, rowEntry Ex.kb (Ex.copyσ i) j = [1, 0, 0, 1].getD (j * 2 + i) 0 := fun j => by
        simp [rowEntry, Ex.kb, NDArray.get, NDArray.ravel, Ex.copyσ]
      simp only [hr]
      interval_cases i <;> simp [Ex.kb, Ex.copyState, Dict.set, List.idxOf, List.findIdx_cons]
    unfold BN.getSample
    rw [hts]
    simp only [BN.sampleAlong, hga, hgb]
    rw [if_neg (by simp [Dict.keys]), Rand.andThen_ok, Rand.expect_andThen,
      expect_resample_forward hc Ex.copyNet_discrete Ex.copyNet_nonneg Ex.copyNet_stochastic
        (n := Ex.ka) (by simp [Ex.copyNet]) (ρ := Ex.copyσ 0)
        (fun v hv => by simp [Ex.ka] at hv) (fun v hv => by simp [Ex.ka] at hv)]
    have hset : ∀ x, Dict.set ([] : Dict Val) Ex.ka.name x = [("a", x)] := fun _ => rfl
    have e0 : rowEntry Ex.ka (Ex.copyσ 0) 0 = 1 / 2 := by decide +kernel
    have e1 : rowEntry Ex.ka (Ex.copyσ 0) 1 = 1 / 2 := by decide +kernel
    have hrest : ∀ i < 2, Rand.rest G (fun sample =>
        if "b" ∈ Dict.keys ([] : Dict Val) then Rand.pure (Except.ok sample)
        else (Rand.lift (Except.ok Ex.kb)).andThen fun n =>
          (n.resample sample (Ex.copyNet.childNodes n) true).andThen fun sample =>
            Rand.pure (Except.ok sample)) (.ok [("a", ["t", "f"].getD i "")]) =
        G (.ok (Ex.copyState (["t", "f"].getD i ""))) := by
      intro i hi
      rw [Rand.rest, if_neg (by simp [Dict.keys]), Rand.andThen_ok, Rand.expect_andThen, hb i hi]
      rfl
    have hv : Ex.ka.values = ["t", "f"] := rfl
    have i0 : ["t", "f"].idxOf "t" = 0 := by decide
    have i1 : ["t", "f"].idxOf "f" = 1 := by decide
    have h0 := hrest 0 (by decide)
    have h1 := hrest 1 (by decide)
    simp only [List.getD_cons_zero, List.getD_cons_succ] at h0 h1
    simp only [hset, hv, List.map_cons, List.map_nil, List.sum_cons, List.sum_nil, i0, i1, e0, e1]
    rw [h0, h1]
    push_cast
    ring
  unfold Rand.prob Mcmc.marginals
  simp only [Option.getD_none]
  rw [Rand.expect_andThen, hsample]
  have hrest : ∀ i < 2, Rand.rest (fun r => if ¬ CloseTo Ex.copyNet [] ["a"] (1 / 4) r then (1 : ℝ)
      else 0) (fun initial => Rand.andThen (Rand.lift (Mcmc.variableValues Ex.copyNet ["a"])) fun vv =>
        Rand.andThen ((⟨tm, burnIn, full⟩ : Mcmc.Sampler).generate Ex.copyNet N initial (some []))
          fun chain => Rand.lift (Factor.fromSamples chain vv))
      (.ok (Ex.copyState (["t", "f"].getD i ""))) = 1 := by
    intro i hi
    rw [Rand.rest, v1, Rand.andThen_ok]
    exact key i hi
  have h0 := hrest 0 (by decide)
  have h1 := hrest 1 (by decide)
  simp only [List.getD_cons_zero, List.getD_cons_succ] at h0 h1
  refine Eq.trans ?_ (show (1 / 2 * 1 + 1 / 2 * 1 : ℝ) = 1 by norm_num)
  congr 2
  · convert h0
  · convert h1

end Primo
