import Verif.Lemmas.Rate
import Verif.Lemmas.RoundedChain
import Verif.Props.Converge
import Verif.Examples.Rate
import Mathlib.Analysis.SpecialFunctions.Log.Basic

/-! # How long the samplers have to run: C90 -/

namespace Primo
open Finset Markov

variable {bn : BN} {a : ℚ}

theorem BN.AtLeastGiven.positive (ha : 0 < a) {ev : Dict Val} (h : bn.AtLeastGiven ev a) :
    PositiveGiven bn ev := fun σ hσ hag => by
  unfold joint
  refine List.prod_pos fun x hx => ?_
  obtain ⟨n, hn, rfl⟩ := List.mem_map.1 hx
  exact ha.trans_le (h n hn σ hσ hag)

theorem evStates_mass (hc : bn.Consistent) (hd : bn.Discrete) (hnn : bn.NonNeg) {ev : Dict Val}
    (he : LegalHard bn ev) (hp : PositiveGiven bn ev) {σ : Assign} (hσ : σ ∈ evStates bn ev) :
    ∑ τ ∈ states bn, fullPosterior bn ev τ = 1 := by
  obtain ⟨h1, h2⟩ := mem_evStates.1 hσ
  have h3 := (mem_states.1 h1).1
  exact Possible.mass hc hd hnn he ⟨h3, h2, hp σ h3 h2⟩

/-- **C90** The state after `k` steps is distributed as the posterior up to `(1 - δ) ^ (k / m)`, for every set of
states, whatever the state the chain starts from.  Here `m` and `δ` are read off the network: `m` is 1 for a chain
that changes all unobserved variables in each step and their number otherwise, and `δ` is the product over the
unobserved variables of `a ^ (1 + number of children)`, for Gibbs sampling times the number of outcomes, and for a
chain that changes one variable in each step times `m! / m ^ m`, if no table entry that agrees
with the evidence is smaller than `a`. -/
theorem C90_law (hc : bn.Consistent) (hl : bn.Linked) (hd : bn.Discrete) (hnn : bn.NonNeg)
    (hs : bn.Stochastic) (ha : 0 < a) {ev : Dict Val} (hat : bn.AtLeastGiven ev a) (he : LegalHard bn ev) {tm : Mcmc.Transition} (htm : tm ≠ .base)
    {full : Bool} (hfull : full = false → ∃ n ∈ bn, n.name ∉ ev.keys)
    {vars : List NodeV} (hvars : Mcmc.variablesToChange bn (some ev) = .ok vars)
    {d : Dict Val} (hgood : GoodState bn ev d) (k : Nat) {T : Finset Assign} (hT : T ⊆ states bn) :
    |(Mcmc.burn (Mcmc.step tm bn vars full) k d).prob (ReturnsIn bn T) - ∑ τ ∈ T, fullPosterior bn ev τ| ≤
      (1 - ((roundShare tm bn ev a full : ℚ) : ℝ)) ^ (k / roundSteps bn ev full) := by
  rw [variablesToChange_some] at hvars
  cases hvars
  have hp := hat.positive ha
  obtain ⟨σ, hσ, hr⟩ := hgood.state hc he
  obtain ⟨P, h⟩ := step_rate hc hl hd hnn hs ha hat he ⟨σ, hσ⟩ htm hfull
  exact law_events hc hd hnn (evStates_mass hc hd hnn he hp hσ) h hσ hr k hT

/-- **C90** It is enough that no table entry is smaller than `a`, whatever the evidence. -/
theorem C90_tables (hc : bn.Consistent) (h : bn.AtLeast a) (ev : Dict Val) : bn.AtLeastGiven ev a :=
  fun n hn _ hσ _ => h n hn _ (entry_mem hc hn hσ)

/-- **C90** `δ` is a probability, and not zero. -/
theorem C90_share (hc : bn.Consistent) (hl : bn.Linked) (hd : bn.Discrete) (hnn : bn.NonNeg)
    (hs : bn.Stochastic) (ha : 0 < a) {ev : Dict Val} (hat : bn.AtLeastGiven ev a) (he : LegalHard bn ev) (hval : ∀ n ∈ bn, n.values ≠ [])
    {tm : Mcmc.Transition} (htm : tm ≠ .base)
    {full : Bool} (hfull : full = false → ∃ n ∈ bn, n.name ∉ ev.keys) :
    0 < roundShare tm bn ev a full ∧ roundShare tm bn ev a full ≤ 1 ∧ 0 < roundSteps bn ev full := by
  obtain ⟨P, h⟩ := step_rate hc hl hd hnn hs ha hat he (evStates_nonempty hc he hval)
    htm hfull
  exact ⟨by exact_mod_cast h.pos, by exact_mod_cast h.le, h.m_pos⟩

/-- **C90** A sufficient burn-in: the law of the chain is closer than `η` to the posterior after
`m ⌈log (1 / η) / δ⌉` steps. -/
theorem C90_burn_in (hc : bn.Consistent) (hl : bn.Linked) (hd : bn.Discrete) (hnn : bn.NonNeg)
    (hs : bn.Stochastic) (ha : 0 < a) {ev : Dict Val} (hat : bn.AtLeastGiven ev a) (he : LegalHard bn ev) {tm : Mcmc.Transition} (htm : tm ≠ .base)
    {full : Bool} (hfull : full = false → ∃ n ∈ bn, n.name ∉ ev.keys)
    {vars : List NodeV} (hvars : Mcmc.variablesToChange bn (some ev) = .ok vars)
    {d : Dict Val} (hgood : GoodState bn ev d) {η : ℝ} (hη : 0 < η) {k : Nat}
    (hk : roundSteps bn ev full * ⌈Real.log (1 / η) / ((roundShare tm bn ev a full : ℚ) : ℝ)⌉₊ ≤ k)
    {T : Finset Assign} (hT : T ⊆ states bn) :
    |(Mcmc.burn (Mcmc.step tm bn vars full) k d).prob (ReturnsIn bn T) - ∑ τ ∈ T, fullPosterior bn ev τ| ≤
      η := by
  refine (C90_law hc hl hd hnn hs ha hat he htm hfull hvars hgood k hT).trans ?_
  obtain ⟨σ, hσ, _⟩ := hgood.state hc he
  obtain ⟨P, h⟩ := step_rate hc hl hd hnn hs ha hat he ⟨σ, hσ⟩ htm hfull
  set δ := ((roundShare tm bn ev a full : ℚ) : ℝ)
  set m := roundSteps bn ev full
  have h1 : Real.log (1 / η) ≤ δ * (k / m : ℕ) := by
    have : ⌈Real.log (1 / η) / δ⌉₊ ≤ k / m := (Nat.le_div_iff_mul_le h.m_pos).2 (by rwa [mul_comm])
    have := (Nat.le_ceil (Real.log (1 / η) / δ)).trans (Nat.cast_le.2 this)
    rw [div_le_iff₀ h.pos] at this
    linarith
  calc (1 - δ) ^ (k / m) ≤ Real.exp (-δ) ^ (k / m) :=
        pow_le_pow_left₀ (by linarith [h.le]) (Real.one_sub_le_exp_neg δ) _
    _ = Real.exp (-(δ * (k / m : ℕ))) := by rw [← Real.exp_nat_mul]; ring_nf
    _ ≤ Real.exp (Real.log η) := by
        rw [Real.exp_le_exp]
        rw [one_div, Real.log_inv] at h1
        linarith
    _ = η := Real.exp_log hη

/-- **C90** The estimate of `MCMC.marginals` from `N` samples is closer than `ε` to the posterior in every entry with
probability at least `1 - s (1 + 2 m / δ) / (N ε²)` for `s` entries, whatever the burn-in. -/
theorem C90_marginals (hc : bn.Consistent) (hl : bn.Linked) (hac : bn.Acyclic) (hd : bn.Discrete)
    (hnn : bn.NonNeg) (hs : bn.Stochastic) (hval : ∀ n ∈ bn, n.values ≠ []) (ha : 0 < a)
    {tm : Mcmc.Transition} (htm : tm ≠ .base) {full : Bool} {vars : List Name}
    (hvars : ∀ v ∈ vars, v ∈ bn.names) {evidence : Option (Dict Val)}
    (hat : bn.AtLeastGiven (evidence.getD []) a) (he : LegalHard bn (evidence.getD []))
    (hfull : full = false → ∃ n ∈ bn, n.name ∉ (evidence.getD []).keys) (burnIn : Nat) {N : Nat} {ε : ℝ}
    (hN : 0 < N) (hε : 0 < ε) :
    1 - bn.tableSize vars * (1 + 2 * (roundSteps bn (evidence.getD []) full /
        ((roundShare tm bn (evidence.getD []) a full : ℚ) : ℝ))) / (N * ε ^ 2) ≤
      (Mcmc.marginals bn ⟨tm, burnIn, full⟩ N vars evidence).prob
        (CloseTo bn (evidence.getD []) vars ε) := by
  have hp := hat.positive ha
  have hne := evStates_nonempty hc he hval
  obtain ⟨P, h⟩ := step_rate hc hl hd hnn hs ha hat he hne htm hfull
  obtain ⟨σ₀, hσ₀⟩ := hne
  exact consistent_of_path hc hl hac hd hnn hs hvars he h
    (fun σ hσ hag _ => mem_evStates.2 ⟨hσ, hag⟩) burnIn hN
    fun σ hσ => path_rate hc hnn he (evStates_mass hc hd hnn he hp hσ₀) h hvars hN hε hσ

/-- **C90** A sufficient number of samples: with `N ≥ s (1 + 2 m / δ) / (q ε²)` samples the estimate is closer than
`ε` to the posterior with probability at least `1 - q`. -/
theorem C90_samples (hc : bn.Consistent) (hl : bn.Linked) (hac : bn.Acyclic) (hd : bn.Discrete)
    (hnn : bn.NonNeg) (hs : bn.Stochastic) (hval : ∀ n ∈ bn, n.values ≠ []) (ha : 0 < a)
    {tm : Mcmc.Transition} (htm : tm ≠ .base) {full : Bool} {vars : List Name}
    (hvars : ∀ v ∈ vars, v ∈ bn.names) {evidence : Option (Dict Val)}
    (hat : bn.AtLeastGiven (evidence.getD []) a) (he : LegalHard bn (evidence.getD []))
    (hfull : full = false → ∃ n ∈ bn, n.name ∉ (evidence.getD []).keys) (burnIn : Nat) {N : Nat} {ε q : ℝ}
    (hε : 0 < ε) (hq : 0 < q)
    (hN : bn.tableSize vars * (1 + 2 * (roundSteps bn (evidence.getD []) full /
        ((roundShare tm bn (evidence.getD []) a full : ℚ) : ℝ))) / (q * ε ^ 2) ≤ N) :
    1 - q ≤ (Mcmc.marginals bn ⟨tm, burnIn, full⟩ N vars evidence).prob
      (CloseTo bn (evidence.getD []) vars ε) := by
  obtain ⟨h1, -, -⟩ := C90_share hc hl hd hnn hs ha hat he hval htm hfull
  have hδ : (0 : ℝ) < ((roundShare tm bn (evidence.getD []) a full : ℚ) : ℝ) := by exact_mod_cast h1
  have hsize : (0 : ℝ) < bn.tableSize vars := by
    have : 0 < bn.tableSize vars := prod_pos fun v hv => by
      obtain ⟨n, hn, rfl⟩ := BN.exists_of_mem_names (hvars v (by simpa using hv))
      rw [card_eq hc hn]
      exact List.length_pos_iff.2 (hval n hn)
    exact_mod_cast this
  set B : ℝ := bn.tableSize vars * (1 + 2 * (roundSteps bn (evidence.getD []) full /
    ((roundShare tm bn (evidence.getD []) a full : ℚ) : ℝ))) with hB
  have hB0 : 0 < B := by
    rw [hB]
    positivity
  have hN0 : (0 : ℝ) < N := lt_of_lt_of_le (by positivity) hN
  refine le_trans ?_ (C90_marginals hc hl hac hd hnn hs hval ha htm hvars hat he hfull burnIn
    (by exact_mod_cast hN0) hε)
  rw [← hB]
  have : B / (N * ε ^ 2) ≤ q := by
    rw [div_le_iff₀ (by positivity)] at hN ⊢
    linarith
  linarith

/-- **C90** With rounded arithmetic and random numbers of finite precision the law of the chain after `k` steps is
off by the same term and `m / δ` times twice the number of outcomes of the unobserved variables times the error of a
draw. -/
theorem C90_rounded_law (hc : bn.Consistent) (hl : bn.Linked) (hd : bn.Discrete) (hnn : bn.NonNeg)
    (hs : bn.Stochastic) (ha : 0 < a) {ev : Dict Val} (hat : bn.AtLeastGiven ev a) (he : LegalHard bn ev) {tm : Mcmc.Transition} (htm : tm ≠ .base)
    {full : Bool} (hfull : full = false → ∃ n ∈ bn, n.name ∉ ev.keys)
    {vars : List NodeV} (hvars : Mcmc.variablesToChange bn (some ev) = .ok vars)
    {A : Arith} {u : ℚ} {N : Nat} (hA : A.Accurate u) (hN : 0 < N) (huN : u * N ≤ 1)
    {d : Dict Val} (hgood : GoodState bn ev d) (k : Nat) {τ : Assign} (hτ : Legal bn.card bn.names τ) :
    |(Mcmc.burn (Mcmc.stepR A N tm bn vars full) k d).prob (Returns bn τ) - fullPosterior bn ev τ| ≤
      (1 - ((roundShare tm bn ev a full : ℚ) : ℝ)) ^ (k / roundSteps bn ev full) +
        ((bn.unobserved ev).map fun n => 2 * (n.values.length : ℝ)).sum *
          (roundSteps bn ev full / ((roundShare tm bn ev a full : ℚ) : ℝ)) *
          ((drawError u N bn.drawRoundings : ℚ) : ℝ) := by
  rw [variablesToChange_some] at hvars
  cases hvars
  have hp := hat.positive ha
  obtain ⟨σ, hσ, hr⟩ := hgood.state hc he
  obtain ⟨P, h⟩ := step_rate hc hl hd hnn hs ha hat he ⟨σ, hσ⟩ htm hfull
  exact law_near hc hl hd hnn he (evStates_mass hc hd hnn he hp hσ) htm hfull h hA hN huN hgood k hτ

/-! ## the samplers can be slow -/

section Slow
variable {e : ℚ}

theorem near_blanket_a (σ : Assign) : blanket (Ex.nearCopy e) Ex.ka σ =
    [1 / 2, 1 / 2].getD (σ "a") 0 * [1 - e, e, e, 1 - e].getD (σ "b" * 2 + σ "a") (0 : ℚ) := by
  simp [blanket, NodeV.entry, BN.childNodes, Ex.ka, Ex.ne, Ex.nearCopy, NDArray.get, NDArray.ravel]

theorem near_blanket_b (σ : Assign) : blanket (Ex.nearCopy e) (Ex.ne e) σ =
    [1 - e, e, e, 1 - e].getD (σ "b" * 2 + σ "a") (0 : ℚ) := by
  simp [blanket, NodeV.entry, BN.childNodes, Ex.ne, NDArray.get, NDArray.ravel]

theorem near_blanket {n : NodeV} (hn : n ∈ Ex.nearCopy e) : n.values.length = 2 ∧ ∃ c : ℚ, 0 < c ∧
    blanket (Ex.nearCopy e) n (Ex.copyσ 0) = c * (1 - e) ∧
    blanket (Ex.nearCopy e) n (Function.update (Ex.copyσ 0) n.name 0) = c * (1 - e) ∧
    blanket (Ex.nearCopy e) n (Function.update (Ex.copyσ 0) n.name 1) = c * e := by
  rcases Ex.mem_nearCopy.1 hn with rfl | rfl
  · refine ⟨rfl, 1 / 2, by norm_num, ?_, ?_, ?_⟩ <;> rw [near_blanket_a] <;> simp [Ex.copyσ, Ex.ka]
  · refine ⟨rfl, 1, by norm_num, ?_, ?_, ?_⟩ <;> rw [near_blanket_b] <;> simp [Ex.copyσ, Ex.ne]

theorem near_stay (h0 : 0 < e) (h1 : e ≤ 1 / 2) {n : NodeV} (hn : n ∈ Ex.nearCopy e) :
    (1 - (e : ℝ)) ≤ gibbsK (Ex.nearCopy e) n (Ex.copyσ 0) 0 ∧
      (1 - (e : ℝ)) ≤ mhK (Ex.nearCopy e) n (Ex.copyσ 0) 0 := by
  obtain ⟨hlen, c, hc, b0, b1, b2⟩ := near_blanket hn
  have hσ : Ex.copyσ 0 n.name = 0 := by simp [Ex.copyσ]
  constructor
  · unfold gibbsK
    rw [hlen, sum_range_succ, sum_range_one, b1, b2, if_neg (by rw [← mul_add]; simp [hc.ne'])]
    have : c * (1 - e) / (c * (1 - e) + c * e) = 1 - e := by
      rw [← mul_add]; field_simp; ring
    rw [this]
    push_cast
    exact le_rfl
  · unfold mhK
    rw [hlen, sum_range_succ, sum_range_one, b0, b1, b2, hσ, if_pos rfl]
    have hpos : 0 < c * (1 - e) := mul_pos hc (by linarith)
    rw [accept_self hpos.le]
    have hacc : Mcmc.accept (c * e) (c * (1 - e)) ≤ 2 * e := by
      unfold Mcmc.accept
      rw [if_neg hpos.ne']
      refine (min_le_right _ _).trans ?_
      rw [div_le_iff₀ hpos]
      nlinarith [mul_pos hc h0]
    have : ((Mcmc.accept (c * e) (c * (1 - e)) : ℚ) : ℝ) ≤ 2 * (e : ℝ) := by exact_mod_cast hacc
    push_cast
    linarith

/-- **C90** That the bound for the number of steps grows without limit when the smallest table entry gets small is
in the nature of the samplers: in the network `a → b`, where `a` is fair and `b` is a copy of `a` up to errors of
probability `e`, both are still in the state they started from after `k` steps with probability at least
`(1 - e) ^ (2 k)`, whereas its posterior probability is `(1 - e) / 2`. -/
theorem C90_slow (h0 : 0 < e) (h1 : e ≤ 1 / 2) :
    (Ex.nearCopy e).Consistent ∧ (Ex.nearCopy e).Linked ∧ (Ex.nearCopy e).Discrete ∧ (Ex.nearCopy e).Stochastic ∧
    (Ex.nearCopy e).AtLeast e ∧ GoodState (Ex.nearCopy e) [] (Ex.copyState "t") ∧
    fullPosterior (Ex.nearCopy e) [] (Ex.copyσ 0) = (1 - e) / 2 ∧
    ∀ tm ≠ Mcmc.Transition.base, ∀ full vars,
      Mcmc.variablesToChange (Ex.nearCopy e) (some []) = .ok vars → ∀ k,
      (1 - (e : ℝ)) ^ (2 * k) ≤ (Mcmc.burn (Mcmc.step tm (Ex.nearCopy e) vars full) k (Ex.copyState "t")).prob
        (Returns (Ex.nearCopy e) (Ex.copyσ 0)) := by
  have hc := Ex.nearCopy_consistent (e := e)
  have hl := Ex.nearCopy_linked (e := e)
  have hd := Ex.nearCopy_discrete (e := e)
  have hnn := Ex.nearCopy_nonneg h0.le h1
  refine ⟨hc, hl, hd, Ex.nearCopy_stochastic, Ex.nearCopy_atLeast h1, Ex.nearCopy_good e, ?_,
    fun tm htm full vars hvars k => ?_⟩
  · unfold fullPosterior
    rw [posterior_full]
    rw [show hardEvidence [] = [] from rfl,
      totalWeight_nil hc Ex.nearCopy_acyclic Ex.nearCopy_stochastic, if_pos one_pos, div_one]
    have : weight (Ex.nearCopy e) [] (Ex.copyσ 0) = (1 - e) / 2 := by
      simp [weight, Ex.nearCopy, NodeV.entry, Ex.ka, Ex.ne, Ex.copyσ, NDArray.get, NDArray.ravel]
      ring
    rw [this]
    push_cast
    rfl
  · rw [variablesToChange_some] at hvars
    cases hvars
    have hσ : Ex.copyσ 0 ∈ states (Ex.nearCopy e) := by
      refine mem_states.2 ⟨?_, fun v hv => by simp [Ex.copyσ]⟩
      rw [Ex.nearCopy_card, Ex.nearCopy_names]
      exact Ex.copyσ_legal (by decide)
    have hr : Reads (Ex.nearCopy e) (Ex.copyState "t") (Ex.copyσ 0) := by
      intro v hv
      rw [Ex.nearCopy_lab]
      exact copy_reads (i := 0) (by decide) v hv
    have he : LegalHard (Ex.nearCopy e) [] := Ex.noEv_legal
    have hfull : full = false → freeNodes (Ex.nearCopy e) [] ≠ [] := fun _ => by
      simp [freeNodes, Ex.nearCopy, Dict.keys]
    have hlen : (freeNodes (Ex.nearCopy e) []).length = 2 := by
      simp [freeNodes, Ex.nearCopy, Dict.keys]
    have he1 : (0 : ℝ) ≤ 1 - e := by
      have : (e : ℝ) ≤ ((1 / 2 : ℚ) : ℝ) := Rat.cast_le.2 h1
      push_cast at this
      linarith
    have he2 : (1 - e : ℝ) ≤ 1 := by
      have : (0 : ℝ) < e := by exact_mod_cast h0
      linarith
    have main : ∀ (site : NodeV → Dict Val → Rand (Except PyErr (Dict Val)))
        (K : NodeV → Assign → Nat → ℝ),
        (∀ n ∈ freeNodes (Ex.nearCopy e) [], IsKernel (Ex.nearCopy e) (fullPosterior (Ex.nearCopy e) []) n.name
          (site n) (K n)) →
        (∀ n ∈ freeNodes (Ex.nearCopy e) [], (1 - (e : ℝ)) ≤ K n (Ex.copyσ 0) 0) →
        (1 - (e : ℝ)) ^ (2 * k) ≤ (Mcmc.burn (Mcmc.siteStep site (freeNodes (Ex.nearCopy e) []) full) k
          (Ex.copyState "t")).prob (Returns (Ex.nearCopy e) (Ex.copyσ 0)) := by
      intro site K hK hst
      have hkern := kern_of hK
      rw [pow_mul]
      refine burn_stay hd (Kern.step hkern hfull) hσ hr (pow_nonneg he1 2) (fun g hg => ?_) k
      rw [← hlen]
      refine step_stay hkern hfull hσ he1 he2 (fun n hn => ?_) hg
      rw [siteMatrix_eq (List.mem_map_of_mem (mem_freeNodes.1 hn).1) _ hσ fun _ _ => rfl]
      have : Ex.copyσ 0 n.name = 0 := by simp [Ex.copyσ]
      rw [this]
      exact hst n hn
    cases tm with
    | base => exact absurd rfl htm
    | gibbs =>
      refine main (Mcmc.gibbsSite _) (gibbsK _) (fun n hn => ?_) fun n hn =>
        (near_stay h0 h1 (mem_freeNodes.1 hn).1).1
      obtain ⟨h2, h3⟩ := mem_freeNodes.1 hn
      obtain ⟨K, rfl, h, _⟩ := gibbs_moves_eq hc hl hd hnn h2 (fullPosterior_proportional hc hl he h2 h3)
      exact h
    | metropolisHastings =>
      refine main (Mcmc.mhSite _) (mhK _) (fun n hn => ?_) fun n hn =>
        (near_stay h0 h1 (mem_freeNodes.1 hn).1).2
      obtain ⟨h2, h3⟩ := mem_freeNodes.1 hn
      obtain ⟨K, rfl, h, _⟩ := mh_moves_eq hc hl hd hnn h2 (fullPosterior_proportional hc hl he h2 h3)
      exact h

end Slow

/-! ## examples -/

/-- every entry that agrees with the observation is at least 1/10, although the table has an entry 1/100 -/
theorem wet_atLeast : Ex.wet.AtLeastGiven Ex.wetEv (1 / 10) := by
  intro n hn σ hσ hev
  have hw := hev "w" "t" rfl
  have h1 : σ "s" < 3 := hσ "s" (by decide)
  have h2 : σ "r" < 2 := hσ "r" (by decide)
  have h3 : σ "w" < 2 := hσ "w" (by decide)
  simp only [Ex.wet, List.mem_cons, List.not_mem_nil, or_false] at hn
  rcases hn with rfl | rfl | rfl
  · show (1 / 10 : ℚ) ≤ Ex.pw.cpd.get [σ "w", σ "s", σ "r"]
    generalize σ "s" = i at *
    generalize σ "r" = j at *
    generalize σ "w" = l at *
    have hl : l = 0 := by
      interval_cases l
      · rfl
      · exact absurd hw (by decide)
    subst hl
    interval_cases i <;> interval_cases j <;> decide +kernel
  · show (1 / 10 : ℚ) ≤ Ex.pr.cpd.get [σ "r"]
    generalize σ "r" = j at *
    interval_cases j <;> decide +kernel
  · show (1 / 10 : ℚ) ≤ Ex.ps.cpd.get [σ "s"]
    generalize σ "s" = i at *
    interval_cases i <;> decide +kernel

example (tm : Mcmc.Transition) (htm : tm ≠ .base) (full : Bool) (k : Nat) (T : Finset Assign)
    (hT : T ⊆ states Ex.wet) :=
  C90_law Ex.wet_consistent Ex.wet_linked Ex.wet_discrete Ex.wet_nonneg Ex.wet_stochastic (by norm_num)
    wet_atLeast Ex.wetEv_legal htm (full := full) (fun _ => ⟨Ex.pr, by simp [Ex.wet], by decide⟩) rfl
    Ex.wetState_good k hT
example : roundShare .gibbs Ex.wet Ex.wetEv (1 / 10) true = 6 / 10 ^ 4 ∧
    roundShare .gibbs Ex.wet Ex.wetEv (1 / 10) false = 3 / 10 ^ 4 ∧
    roundShare .metropolisHastings Ex.wet Ex.wetEv (1 / 10) true = 1 / 10 ^ 4 ∧
    roundSteps Ex.wet Ex.wetEv false = 2 := by decide +kernel
/-- 134,000,000 samples of the Gibbs sampler determine the posterior of `r` up to 0.01 with probability 0.5 -/
example (burnIn : Nat) :
    1 - (1 / 2 : ℝ) ≤ (Mcmc.marginals Ex.wet ⟨.gibbs, burnIn, true⟩ 134000000 ["r"] (some Ex.wetEv)).prob
      (CloseTo Ex.wet Ex.wetEv ["r"] (1 / 100)) :=
  C90_samples Ex.wet_consistent Ex.wet_linked Ex.wet_acyclic Ex.wet_discrete Ex.wet_nonneg Ex.wet_stochastic
    (by decide) (a := 1 / 10) (by norm_num) (by decide) (by decide) (evidence := some Ex.wetEv) wet_atLeast
    Ex.wetEv_legal (by simp) burnIn (by norm_num) (by norm_num) (by
      have h1 : roundShare .gibbs Ex.wet Ex.wetEv (1 / 10) true = 6 / 10 ^ 4 := by decide +kernel
      have h2 : Ex.wet.tableSize ["r"] = 2 := by decide
      have h3 : roundSteps Ex.wet Ex.wetEv true = 1 := rfl
      rw [show (some Ex.wetEv).getD [] = Ex.wetEv from rfl, h1, h2, h3]
      norm_num)
/-- the samplers of one fair coin forget their state in one step -/
example : roundShare .gibbs [⟨"a", .discrete, ["t", "f"], [], [], [], ⟨[2], [1 / 2, 1 / 2], rfl⟩, false⟩] [] (1 / 2)
    true = 1 := by decide +kernel
/-- zeros are no obstacle if they do not agree with the evidence -/
example : Ex.copyNet.AtLeastGiven [("a", "t"), ("b", "t")] (1 / 2) ∧ ¬ Ex.copyNet.Positive := by
  constructor
  · intro n hn σ hσ hev
    have ha := hev "a" "t" rfl
    have hb := hev "b" "t" rfl
    have h1 : σ "a" < 2 := hσ "a" (by decide)
    have h2 : σ "b" < 2 := hσ "b" (by decide)
    simp only [Ex.copyNet, List.mem_cons, List.not_mem_nil, or_false] at hn
    rcases hn with rfl | rfl
    · show (1 / 2 : ℚ) ≤ Ex.ka.cpd.get [σ "a"]
      generalize σ "a" = i at *
      interval_cases i <;> decide +kernel
    · show (1 / 2 : ℚ) ≤ Ex.kb.cpd.get [σ "b", σ "a"]
      generalize σ "a" = i at *
      generalize σ "b" = j at *
      interval_cases i <;> interval_cases j <;> first | decide +kernel | exact absurd hb (by decide) |
        exact absurd ha (by decide)
  · intro h
    exact absurd (h Ex.kb (by simp [Ex.copyNet]) 0 (by simp [Ex.kb])) (by norm_num)
example : (1 - ((1 / 1000 : ℚ) : ℝ)) ^ (2 * 100) > 4 / 5 := by norm_num

end Primo
