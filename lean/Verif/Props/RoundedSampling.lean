import Verif.Lemmas.RoundedTrap
import Verif.Props.Converge

/-!
# C81: sampling with rounded arithmetic and random numbers of finite precision

`A.Accurate u`: every operation has relative error at most `u`.  `N`: the number of different results
of `random.random()`.  For Python floats `u = 2⁻⁵³` and `N = 2⁵³`.
-/

namespace Primo
open Finset Markov

variable {bn : BN} {A : Arith} {u : ℚ} {N : Nat}

/-! ## the samplers always return -/

/-- **C81** Forward sampling never gets `None` from the roulette wheel: it returns a legal state that
agrees with the evidence. -/
theorem C81_forward_legal (hA : A.Accurate u) (huN : u * N ≤ 1) (hc : bn.Consistent) (hl : bn.Linked)
    (ha : bn.Acyclic) (hd : bn.Discrete) (hnn : bn.NonNeg) (hval : ∀ n ∈ bn, n.values ≠ [])
    {ev : Dict Val} (he : LegalHard bn ev) :
    (bn.getSampleR A N ev).All fun r => ∃ d, r = .ok d ∧ GoodState bn ev d :=
  all_getSampleR hA huN hc hl ha hd hnn hval he

/-- **C81** The chain yields exactly `numSamples` states, each legal and agreeing with the evidence. -/
theorem C81_chain_legal (hA : A.Accurate u) (huN : u * N ≤ 1) (hc : bn.Consistent) (hl : bn.Linked)
    (hd : bn.Discrete) (hnn : bn.NonNeg) (s : Mcmc.Sampler) (htm : s.transitionModel ≠ .base)
    (numSamples : Nat) {ev initial : Dict Val} (hi : GoodState bn ev initial)
    (hne : s.fullChange = false → ∃ n ∈ bn, n.name ∉ ev.keys) :
    (s.generateR A N bn numSamples initial (some ev)).All fun r => ∃ l, r = .ok l ∧
      l.length = numSamples ∧ ∀ st ∈ l, GoodState bn ev st := by
  unfold Mcmc.Sampler.generateR
  rw [variablesToChange_some, Rand.andThen_ok]
  exact Rand.all_andThen (all_burn (fun d h => all_stepR hA huN hc hl hd hnn htm hne h) _ hi)
    fun d h => all_collect (fun d h => all_stepR hA huN hc hl hd hnn htm hne h) _ h

/-- **C81** `MCMC.marginals` returns a table over the query variables whose entries are non-negative
and add up to one up to one rounding; contradicting the evidence has probability exactly 0. -/
theorem C81_marginals_legal (hA : A.Accurate u) (huN : u * N ≤ 1) (hc : bn.Consistent)
    (hl : bn.Linked) (ha : bn.Acyclic) (hd : bn.Discrete) (hnn : bn.NonNeg)
    (hval : ∀ n ∈ bn, n.values ≠ []) (s : Mcmc.Sampler) (htm : s.transitionModel ≠ .base)
    {numSamples : Nat} (hk : 0 < numSamples) {vars : List Name} (hvars : ∀ v ∈ vars, v ∈ bn.names)
    (evidence : Option (Dict Val)) (he : LegalHard bn (evidence.getD []))
    (hne : s.fullChange = false → ∃ n ∈ bn, n.name ∉ (evidence.getD []).keys) :
    (Mcmc.marginalsR A N bn s numSamples vars evidence).All fun r => ∃ f, r = .ok f ∧
      f.WF bn.card ∧ (∀ v, v ∈ f.variableOrder ↔ v ∈ vars) ∧
      (∀ v ∈ vars, f.values.get? v = some (bn.lab v)) ∧
      (∀ σ, Legal bn.card vars σ → 0 ≤ f.eval σ) ∧
      (∀ σ, |sumOver bn.card vars.toFinset f.eval σ - 1| ≤ u) ∧
      ∀ v ∈ vars, ∀ x, (evidence.getD []).get? v = some x → ∀ σ, Legal bn.card vars σ →
        (bn.lab v)[σ v]? ≠ some x → f.eval σ = 0 := by
  unfold Mcmc.marginalsR
  refine Rand.all_andThen (all_getSampleR hA huN hc hl ha hd hnn hval he) fun initial hi => ?_
  obtain ⟨vv, v1, v2, v3, v4⟩ := variableValues_spec hc hvars
  rw [v1, Rand.andThen_ok]
  refine Rand.all_andThen (Q := fun l => l.length = numSamples ∧
    ∀ st ∈ l, GoodState bn (evidence.getD []) st)
    (C81_chain_legal hA huN hc hl hd hnn s htm numSamples hi hne) fun chain hchain => ?_
  obtain ⟨f, f1, f2, f3, f4, f5, f6, f7⟩ :=
    chain_table hc hd hvars v2 v3 v4 (hchain.1 ▸ hk) hchain.2
  obtain ⟨f', g1, g2, g3, g4, g5⟩ := fromSamplesR_of_ok hA f1
  have hwf : f'.WF bn.card := ⟨by rw [g2]; exact f2.nodup, by rw [g2, g3]; exact f2.keys,
    by rw [g2, g3]; exact f2.labels, by rw [g2, g4]; exact f2.shape⟩
  refine ⟨f', g1, hwf, fun v => by rw [g2]; exact f3 v, fun v hv => by rw [g3]; exact f4 v hv, fun σ hσ => ?_,
    fun σ => ?_, fun v hv x hx σ hσ hx' => ?_⟩
  · have h1 := g5 σ
    have h2 := f5 σ hσ
    rw [abs_of_nonneg h2] at h1
    nlinarith [(abs_le.1 h1).1, hA.lt_one, hA.nonneg]
  · rw [← f6 σ]
    unfold sumOver
    rw [← sum_sub_distrib]
    refine (abs_sum_le_sum_abs _ _).trans ?_
    have : ∀ τ ∈ vars.toFinset.pi fun v => range (bn.card v),
        |f'.eval (fun v => if h : v ∈ vars.toFinset then τ v h else σ v) -
          f.eval (fun v => if h : v ∈ vars.toFinset then τ v h else σ v)| ≤
        u * f.eval (fun v => if h : v ∈ vars.toFinset then τ v h else σ v) := by
      intro τ hτ
      have h1 := g5 (fun v => if h : v ∈ vars.toFinset then τ v h else σ v)
      rwa [abs_of_nonneg (f5 _ fun v hv => ?_)] at h1
      have hv' := List.mem_toFinset.2 hv
      simp only [hv', dif_pos]
      exact mem_range.1 (mem_pi.1 hτ v hv')
    refine (sum_le_sum this).trans (le_of_eq ?_)
    rw [← mul_sum]
    have h6 := f6 σ
    unfold sumOver at h6
    rw [h6, mul_one]
  · have h1 := g5 σ
    rw [f7 v hv x hx σ hσ hx', abs_zero, mul_zero, sub_zero, abs_nonpos_iff] at h1
    exact h1

example (burnIn : Nat) (full : Bool) := C81_marginals_legal (N := 1000) Ex.biased_accurate
  (by norm_num) Ex.bn_consistent Ex.bn_linked Ex.bn_acyclic Ex.bn_discrete Ex.bn_nonneg
  (by decide) ⟨.gibbs, burnIn, full⟩ (by simp) (numSamples := 1000) (by decide)
  (vars := ["d", "b"]) (by decide) (some Ex.hard) Ex.hard_legal (fun _ => ⟨Ex.na, Ex.na_mem, by decide⟩)

/-- **C81** The precision has to fit the random numbers: with a relative error of 1/1000 and 2000
different random numbers, the wheel can be passed to its end and `sample_value` returns `None`. -/
theorem C81_precision_needed : Ex.biased.Accurate (1 / 1000) ∧ Ex.pr ∈ Ex.wet ∧
    ¬ (Ex.pr.sampleValueR Ex.biased 2000 [] [] true).All fun r => r ≠ .ok none := by
  refine ⟨Ex.biased_accurate, by simp [Ex.wet], fun h => ?_⟩
  unfold NodeV.sampleValueR at h
  rw [if_neg (by decide), show Ex.pr.weightsR Ex.biased [] [] true = .ok [1 / 5, 4 / 5] by
    decide +kernel, Rand.andThen_ok] at h
  refine h 1999 (by decide) ?_
  decide +kernel

/-! ## single draws -/

/-- **C81** The first outcome is drawn whenever the random number is 0, even if its weight is 0. -/
theorem C81_first_outcome (hA : A.Accurate u) (hN : 0 < N) {n : NodeV} (hkind : n.kind = .discrete)
    {x : Val} {xs : List Val} (hx : n.values = x :: xs) {d : Dict Val} {ch : List NodeV} {fw : Bool}
    {w : ℚ} {ws : List ℚ} (hw : n.weightsR A d ch fw = .ok (w :: ws)) (hw0 : 0 ≤ w) :
    1 / (N : ℝ) ≤ (n.sampleValueR A N d ch fw).prob fun r => r = .ok (some x) := by
  classical
  unfold NodeV.sampleValueR
  rw [if_neg (by simp [hkind]), hw, Rand.andThen_ok, Rand.grid, hx]
  unfold Rand.prob
  rw [Rand.expect_choice]
  refine div_le_div_of_nonneg_right ?_ (Nat.cast_nonneg _)
  refine le_trans ?_ (single_le_sum (f := fun k => Rand.expect _ _) (fun k _ => ?_) (mem_range.2 hN))
  · beta_reduce
    rw [Rand.expect_pure]
    have h1 : A.mul ((0 : ℕ) / N) ((w :: ws).foldl A.add 0) = 0 := by
      have := hA.mul ((0 : ℕ) / N) ((w :: ws).foldl A.add 0)
      simpa using this
    have h2 : 0 ≤ A.add 0 w := by
      have := hA.add 0 w
      rw [zero_add, abs_of_nonneg hw0] at this
      nlinarith [(abs_le.1 this).1, hA.lt_one, hA.nonneg]
    rw [h1, List.zip_cons_cons, rouletteR, if_pos h2, if_pos rfl]
  · beta_reduce
    rw [Rand.expect_pure]
    split <;> norm_num

/-- the bound for one change, from the kernels -/
theorem site_near (hc : bn.Consistent) (hd : bn.Discrete) {n : NodeV} (hn : n ∈ bn)
    {π π' : Assign → ℝ} {m m' : Dict Val → Rand (Except PyErr (Dict Val))} {K K' : Assign → Nat → ℝ}
    (h : IsKernel bn π n.name m K) (h' : IsKernel bn π' n.name m' K') {e : ℝ} (he : 0 ≤ e)
    {σ : Assign} (hσ : Legal bn.card bn.names σ)
    (hK : ∀ b < n.values.length, |K' σ b - K σ b| ≤ e) {d : Dict Val} (hr : Reads bn d σ)
    (τ : Assign) : |(m' d).prob (Returns bn τ) - (m d).prob (Returns bn τ)| ≤ e := by
  classical
  have e1 := prob_eq hd (m := m) (T := fun g σ => _) h.1 τ hσ hr
  have e2 := prob_eq hd (m := m') (T := fun g σ => _) h'.1 τ hσ hr
  rw [e1, e2]
  rw [← sum_sub_distrib]
  have hvn : n.name ∈ bn.names := List.mem_map_of_mem hn
  have hne : ∀ b, b ≠ τ n.name → sameState bn τ (Function.update σ n.name b) = 0 := fun b hb => by
    refine if_neg fun hh => hb ?_
    have := hh n.name hvn
    rwa [Function.update_self] at this
  by_cases hb : τ n.name ∈ range (bn.card n.name)
  · rw [sum_eq_single_of_mem (τ n.name) hb fun b _ hbne => by rw [hne b hbne]; ring, ← sub_mul, abs_mul]
    have h1 := hK (τ n.name) (card_eq hc hn ▸ mem_range.1 hb)
    have h2 : |sameState bn τ (Function.update σ n.name (τ n.name))| ≤ 1 := by
      unfold sameState; split <;> norm_num
    calc _ ≤ |K' σ (τ n.name) - K σ (τ n.name)| * 1 := mul_le_mul_of_nonneg_left h2 (abs_nonneg _)
      _ ≤ e := by rw [mul_one]; exact h1
  · rw [sum_eq_zero fun b hb' => by
      rw [hne b (by rintro rfl; exact hb hb')]; ring, abs_zero]
    exact he

/-- **C81** One change of Gibbs sampling: the probability of every outcome is that of the exact
sampler, up to the error of a draw. -/
theorem C81_gibbs_change (hA : A.Accurate u) (hN : 0 < N) (huN : u * N ≤ 1) (hc : bn.Consistent)
    (hl : bn.Linked) (hd : bn.Discrete) (hnn : bn.NonNeg) {n : NodeV} (hn : n ∈ bn) {σ : Assign}
    (hσ : Legal bn.card bn.names σ) {d : Dict Val} (hr : Reads bn d σ) (τ : Assign) :
    |(Mcmc.gibbsSiteR A N bn n d).prob (Returns bn τ) - (Mcmc.gibbsSite bn n d).prob (Returns bn τ)| ≤
      2 * ((drawError u N n.drawRoundings : ℚ) : ℝ) := by
  obtain ⟨K, rfl, h, _⟩ := gibbs_moves_eq hc hl hd hnn hn
    (fullPosterior_proportional hc hl Ex.noEv_legal hn (by simp [Dict.keys]))
  have hη : (0 : ℝ) ≤ ((drawError u N n.drawRoundings : ℚ) : ℝ) := by
    exact_mod_cast drawError_nonneg hA.nonneg hA.lt_one N _
  exact site_near hc hd hn h (gibbsR_kernel hA hN huN hc hl hd hnn hn) (by linarith) hσ
    (fun b hb => gibbsKR_error hA hN hc hl hd hnn hn σ hb) hr τ

/-- **C81** One change of Metropolis-Hastings. -/
theorem C81_mh_change (hA : A.Accurate u) (hN : 0 < N) (hc : bn.Consistent)
    (hl : bn.Linked) (hd : bn.Discrete) (hnn : bn.NonNeg) {n : NodeV} (hn : n ∈ bn) {σ : Assign}
    (hσ : Legal bn.card bn.names σ) {d : Dict Val} (hr : Reads bn d σ) (τ : Assign) :
    |(Mcmc.mhSiteR A N bn n d).prob (Returns bn τ) - (Mcmc.mhSite bn n d).prob (Returns bn τ)| ≤
      2 * ((drawError u N n.drawRoundings : ℚ) : ℝ) := by
  obtain ⟨K, rfl, h, _⟩ := mh_moves_eq hc hl hd hnn hn
    (fullPosterior_proportional hc hl Ex.noEv_legal hn (by simp [Dict.keys]))
  have hη : (0 : ℝ) ≤ ((drawError u N n.drawRoundings : ℚ) : ℝ) := by
    exact_mod_cast drawError_nonneg hA.nonneg hA.lt_one N _
  exact site_near hc hd hn h (mhR_kernel hN hc hl hd hn) (by linarith) hσ
    (fun b hb => mhKR_error hA hN hc hl hnn hn σ hb) hr τ

/-- **C81** Forward sampling: the probability of every event is that under the exact sampler, up to
the error of a draw for every outcome of every unobserved node. -/
theorem C81_forward (hA : A.Accurate u) (hN : 0 < N) (huN : u * N ≤ 1) (hc : bn.Consistent)
    (hl : bn.Linked) (ha : bn.Acyclic) (hd : bn.Discrete) (hnn : bn.NonNeg) (hs : bn.Stochastic)
    {ev : Dict Val} (he : LegalHard bn ev) (Q : Except PyErr (Dict Val) → Prop) :
    |(bn.getSampleR A N ev).prob Q - (bn.getSample ev).prob Q| ≤
      ((bn.filter fun n => n.name ∉ ev.keys).map fun n => n.values.length).sum *
        (2 * ((drawError u N bn.drawRoundings : ℚ) : ℝ)) := by
  classical
  obtain ⟨h1, h2⟩ := topologicalSort_spec hc hl ha
  have := sampleAlong_near hA hN huN hc hd hnn hs ev (G := fun r => if Q r then 1 else 0)
    (fun r => by split <;> norm_num) (fun r => by split <;> norm_num) bn.topologicalSort.1 [] ev
    (by simpa using h2) he.settled
  unfold BN.getSampleR BN.getSample
  rw [h1]
  refine this.trans (le_of_eq ?_)
  congr 2
  have hp : ((bn.topologicalSort.1.filter (· ∉ ev.keys)).map fun v => (bn.lab v).length).Perm
      ((bn.names.filter (· ∉ ev.keys)).map fun v => (bn.lab v).length) :=
    (h2.perm.filter _).map _
  rw [hp.sum_eq, BN.names, List.filter_map, List.map_map]
  congr 1
  refine List.map_congr_left fun n hn => ?_
  rw [Function.comp_apply, BN.lab_eq hc.nodup (List.mem_filter.1 hn).1]

/-- **C81** The error of a draw with Python floats: about as many times `2⁻⁵³` as there are
roundings. -/
theorem C81_double {R : Nat} (hR : R ≤ 2 ^ 26) :
    drawError (1 / 2 ^ 53) (2 ^ 53) R ≤ (R + 2) / 2 ^ 53 := by
  unfold drawError
  have hb : 1 - (R : ℚ) / 2 ^ 53 ≤ (1 - 1 / 2 ^ 53) ^ R := by
    have := one_add_mul_le_pow (a := -(1 / 2 ^ 53 : ℚ)) (by norm_num) R
    calc 1 - (R : ℚ) / 2 ^ 53 = 1 + R * -(1 / 2 ^ 53) := by ring
      _ ≤ _ := this
      _ = _ := by ring
  have hRQ : (R : ℚ) ≤ 2 ^ 26 := by exact_mod_cast hR
  have hR0 : (0 : ℚ) ≤ R := Nat.cast_nonneg _
  have hpos : 0 < 1 - (R : ℚ) / 2 ^ 53 := by
    rw [sub_pos, div_lt_one (by norm_num)]; linarith [show (2 : ℚ) ^ 26 < 2 ^ 53 by norm_num]
  have h1 : 1 / (1 - 1 / 2 ^ 53 : ℚ) ^ R ≤ 1 + (R + 1) / 2 ^ 53 := by
    rw [div_le_iff₀ (lt_of_lt_of_le hpos hb)]
    have h2 : (1 : ℚ) ≤ (1 + (R + 1) / 2 ^ 53) * (1 - (R : ℚ) / 2 ^ 53) := by
      have : (R : ℚ) * (R + 1) ≤ 2 ^ 53 := by nlinarith
      have e : (1 + ((R : ℚ) + 1) / 2 ^ 53) * (1 - (R : ℚ) / 2 ^ 53) =
        1 + (2 ^ 53 - R * (R + 1)) / 2 ^ 106 := by ring
      rw [e]
      have : 0 ≤ (2 ^ 53 - (R : ℚ) * (R + 1)) / 2 ^ 106 := div_nonneg (by linarith) (by norm_num)
      linarith
    exact h2.trans (mul_le_mul_of_nonneg_left hb (by positivity))
  push_cast
  have e : (R + 2 : ℚ) / 2 ^ 53 = (R + 1) / 2 ^ 53 + 1 / 2 ^ 53 := by ring
  rw [e]
  linarith

example : (Ex.wet.drawRoundings) = 9 := by decide
example : drawError (1 / 2 ^ 53) (2 ^ 53) Ex.wet.drawRoundings ≤ 11 / 2 ^ 53 :=
  (C81_double (by decide)).trans (by rw [show Ex.wet.drawRoundings = 9 by decide]; norm_num)
example (τ : Assign) := C81_gibbs_change (N := 1000) Ex.biased_accurate (by norm_num) (by norm_num)
  Ex.wet_consistent Ex.wet_linked Ex.wet_discrete Ex.wet_nonneg (n := Ex.pr) (by simp [Ex.wet])
  (σ := fun v => if v = "w" then 0 else if v = "r" then 1 else if v = "s" then 2 else 0)
  (by unfold Legal; decide) (d := Ex.wetState) (by unfold Reads ReadsOn; decide) τ
example (Q) := C81_forward (N := 1000) Ex.biased_accurate (by norm_num) (by norm_num)
  Ex.wet_consistent Ex.wet_linked Ex.wet_acyclic Ex.wet_discrete Ex.wet_nonneg Ex.wet_stochastic
  Ex.wetEv_legal Q

/-! ## the chains -/

/-- when the samplers mix on all states that agree with the evidence -/
theorem step_ergodic_all (hc : bn.Consistent) (hl : bn.Linked) (hd : bn.Discrete) (hnn : bn.NonNeg)
    {ev : Dict Val} (he : LegalHard bn ev) (hne : ∃ σ, Possible bn ev σ) {tm : Mcmc.Transition}
    (htm : tm ≠ .base)
    (hok : PositiveGiven bn ev ∨ tm = .metropolisHastings ∧ Connected bn ev) {full : Bool}
    (hfull : full = false → ∃ n ∈ bn, n.name ∉ ev.keys) :
    ∃ P m δ, Ergodic bn (freeNames bn ev) (evStates bn ev) (fullPosterior bn ev)
      (Mcmc.step tm bn (freeNodes bn ev) full) P m δ := by
  obtain ⟨σ₀, hσ₀⟩ := hne
  rcases hok with hpos | ⟨rfl, hcon⟩
  · have heq : possStates bn ev = evStates bn ev := by
      ext σ
      refine ⟨possStates_sub_evStates hc hd hnn he, fun h => ?_⟩
      obtain ⟨h1, h2⟩ := mem_evStates.1 h
      exact (mem_possStates hc hd hnn he).2 ⟨h1, (mem_states.1 h1).1, h2,
        hpos σ (mem_states.1 h1).1 h2⟩
    have := step_ergodic hc hl hd hnn he (C57_positive_connected hpos) hσ₀ htm hfull
    rwa [heq] at this
  · exact step_ergodic_mh hc hl hd hnn he hcon hσ₀ hfull

/-- **C81** The law of the chain with rounded arithmetic: after `k` steps it differs from the posterior
by a term that shrinks exponentially and a multiple of the error of a draw.  The constants depend on
the network and the evidence only, not on the arithmetic. -/
theorem C81_law (hc : bn.Consistent) (hl : bn.Linked) (hd : bn.Discrete) (hnn : bn.NonNeg)
    {ev : Dict Val} (he : LegalHard bn ev) (hne : ∃ σ, Possible bn ev σ) {tm : Mcmc.Transition}
    (htm : tm ≠ .base)
    (hok : PositiveGiven bn ev ∨ tm = .metropolisHastings ∧ Connected bn ev) {full : Bool}
    (hfull : full = false → ∃ n ∈ bn, n.name ∉ ev.keys)
    {vars : List NodeV} (hvars : Mcmc.variablesToChange bn (some ev) = .ok vars) :
    ∃ m > 0, ∃ r c : ℝ, 0 ≤ r ∧ r < 1 ∧ 0 ≤ c ∧
      ∀ (A : Arith) (u : ℚ) (N : Nat), A.Accurate u → 0 < N → u * N ≤ 1 →
        ∀ d, GoodState bn ev d → ∀ k τ, Legal bn.card bn.names τ →
          |(Mcmc.burn (Mcmc.stepR A N tm bn vars full) k d).prob (Returns bn τ) -
            fullPosterior bn ev τ| ≤
              r ^ (k / m) + c * ((drawError u N bn.drawRoundings : ℚ) : ℝ) := by
  rw [variablesToChange_some] at hvars
  cases hvars
  obtain ⟨P, m, δ, h⟩ := step_ergodic_all hc hl hd hnn he hne htm hok hfull
  obtain ⟨σ₀, hσ₀⟩ := hne
  refine ⟨m, h.m_pos, 1 - δ, stepSize bn ev * (m / δ), by linarith [h.le], by linarith [h.pos],
    mul_nonneg (stepSize_nonneg bn ev) (div_nonneg (Nat.cast_nonneg _) h.pos.le),
    fun A u N hA hN huN d hgood k τ hτ => ?_⟩
  exact law_near hc hl hd hnn he (hσ₀.mass hc hd hnn he) htm hfull h hA hN huN hgood k hτ

/-- **C81** The estimate of `MCMC.marginals` with rounded arithmetic: the probability that it is off
by `t` (and one rounding) or more is at most a term that shrinks with the number of samples and a
multiple of the error of a draw, for every burn-in. -/
theorem C81_estimate (hc : bn.Consistent) (hl : bn.Linked) (ha : bn.Acyclic) (hd : bn.Discrete)
    (hnn : bn.NonNeg) (hval : ∀ n ∈ bn, n.values ≠ []) {tm : Mcmc.Transition} (htm : tm ≠ .base)
    {full : Bool} {vars : List Name} (hvars : ∀ v ∈ vars, v ∈ bn.names)
    {evidence : Option (Dict Val)} (he : LegalHard bn (evidence.getD []))
    (hne : ∃ σ, Possible bn (evidence.getD []) σ)
    (hok : PositiveGiven bn (evidence.getD []) ∨
      tm = .metropolisHastings ∧ Connected bn (evidence.getD []))
    (hfull : full = false → ∃ n ∈ bn, n.name ∉ (evidence.getD []).keys) :
    ∃ c : ℝ, 0 ≤ c ∧ ∀ (A : Arith) (u : ℚ) (N : Nat), A.Accurate u → 0 < N → u * N ≤ 1 →
      ∀ (burnIn k : Nat) (t : ℝ), 0 < k → 0 < t →
        1 - c / (k * t ^ 2) - c * ((drawError u N bn.drawRoundings : ℚ) : ℝ) / t ^ 2 ≤
          (Mcmc.marginalsR A N bn ⟨tm, burnIn, full⟩ k vars evidence).prob
            (CloseTo bn (evidence.getD []) vars (t + ((u : ℚ) : ℝ))) := by
  obtain ⟨P, m, δ, h⟩ := step_ergodic_all hc hl hd hnn he hne htm hok hfull
  obtain ⟨σ₀, hσ₀⟩ := hne
  exact marginals_near hc hl ha hd hnn hval htm hvars he hfull (hσ₀.mass hc hd hnn he) h

example (tm : Mcmc.Transition) (htm : tm ≠ .base) (full : Bool) :=
  C81_law Ex.wet_consistent Ex.wet_linked Ex.wet_discrete Ex.wet_nonneg Ex.wetEv_legal
    ⟨fun v => if v = "w" then 0 else if v = "r" then 1 else if v = "s" then 2 else 0, by
      refine ⟨by unfold Legal; decide, ?_, ?_⟩
      · exact fun v x h => by
          simp only [Ex.wetEv, Dict.get?] at h
          split at h
          · rename_i e; cases h; subst e; decide
          · cases h
      · decide +kernel⟩ htm (Or.inl (C57_positive_tables Ex.wet_consistent Ex.wet_positive _))
    (full := full) (fun _ => ⟨Ex.pr, by simp [Ex.wet], by decide⟩) rfl
example (full : Bool) :=
  C81_estimate Ex.andNet_consistent Ex.andNet_linked Ex.andNet_acyclic Ex.andNet_discrete
    Ex.andNet_nonneg (by decide) (tm := .metropolisHastings) (by decide) (full := full)
    (vars := ["a"]) (by decide) (evidence := some Ex.andEv) Ex.andEv_legal
    ⟨Ex.andσ 1, Ex.andNet_possible.2 ⟨rfl, rfl, rfl⟩⟩ (Or.inr ⟨rfl, Ex.andNet_connected⟩)
    (fun _ => ⟨Ex.aa, by simp [Ex.andNet], by decide⟩)
example : Ex.biased.Accurate (1 / 1000) ∧ (0 < 1000) ∧ (1 / 1000 : ℚ) * (1000 : ℕ) ≤ 1 :=
  ⟨Ex.biased_accurate, by norm_num, by norm_num⟩

/-- **C81** For Gibbs sampling it is not enough that the possible states are connected, and that the
chain starts in one of them, as it is with real random numbers (C57): here the estimate with exact
arithmetic, but random numbers that can be 0, is off by 1 with a probability that tends to 1 with the
length of the burn-in, while the estimate with real random numbers gets as good as one likes. -/
theorem C81_gibbs_trap (hN : 0 < N) :
    (∃ c : ℝ, 0 ≤ c ∧ ∀ (burnIn k : Nat) (ε : ℝ), 0 < k → 0 < ε →
      1 - c / (k * ε ^ 2) ≤ (Mcmc.marginals Ex.zeroNet ⟨.gibbs, burnIn, true⟩ k ["a"] none).prob
        (CloseTo Ex.zeroNet [] ["a"] ε)) ∧
    ∀ burnIn k, 0 < k →
      (Mcmc.marginalsR Arith.exact N Ex.zeroNet ⟨.gibbs, burnIn, true⟩ k ["a"] none).prob
        (CloseTo Ex.zeroNet [] ["a"] 1) ≤ (1 - 1 / (N : ℝ)) ^ burnIn :=
  ⟨C57_consistent_connected_partial Ex.zeroNet_consistent Ex.zeroNet_linked Ex.zeroNet_acyclic
    Ex.zeroNet_discrete Ex.zeroNet_nonneg Ex.zeroNet_stochastic (by decide) (tm := .gibbs) (by decide)
    (by decide) (evidence := none) Ex.noEv_legal Ex.zeroNet_connected Ex.zeroNet_possible_exists
    Ex.zeroNet_starts (by simp), fun burnIn k hk => trap_marginals hN burnIn hk⟩

example : (1 - 1 / ((10 : ℕ) : ℝ)) ^ 30 < 1 / 20 := by norm_num

end Primo
