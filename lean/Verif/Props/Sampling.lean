import Verif.Lemmas.Wheel
import Verif.Props.FactorQuery
import Verif.Examples.Sampling

/-! # Properties of the sampling methods: C39 – C45 -/

namespace Primo
open MeasureTheory

variable {bn : BN}

/-! ## C39 -/

/-- **C39** The roulette wheel of `sample_value`.  The program draws one random number; for each
outcome the random numbers that select it have total length weight / sum of the weights; an outcome
of weight zero is selected by the random number 0 only. -/
theorem C39_wheel {n : NodeV} {state : Dict Val} {children : List NodeV} {forward : Bool}
    {ws : List ℚ} (hk : n.kind = .discrete) (hv : n.values.Nodup)
    (hws : n.weights state children forward = .ok ws) (hnn : ∀ w ∈ ws, 0 ≤ w)
    (hpos : 0 < ws.sum) :
    ∃ k : ℝ → Val, (∃ k' : ℝ → Option Val,
        n.sampleValue state children forward = .uniform (fun u => .pure (.ok (k' u))) ∧
        ∀ u, 0 ≤ u → u < 1 → k' u = some (k u)) ∧
      (∀ u, 0 ≤ u → u < 1 → k u ∈ n.values) ∧
      (∀ i (hi : i < n.values.length),
        volume {u : ℝ | 0 ≤ u ∧ u < 1 ∧ k u = n.values[i]} =
          ENNReal.ofReal (((ws.getD i 0 / ws.sum : ℚ) : ℝ))) ∧
      ∀ u, 0 < u → u < 1 → ∀ i (hi : i < n.values.length), k u = n.values[i] →
        0 < ws.getD i 0 := by
  have hlen : ws.length = n.values.length := (mapM_eq_ok.1 hws).length_eq.symm
  have hfst : (n.values.zip ws).map Prod.fst = n.values := List.map_fst_zip (by omega)
  have hsnd : (n.values.zip ws).map Prod.snd = ws := List.map_snd_zip (by omega)
  have hSR : (0 : ℝ) < (ws.sum : ℚ) := by exact_mod_cast hpos
  have hw : ∀ p ∈ n.values.zip ws, 0 ≤ p.2 := fun p hp => hnn _ (List.of_mem_zip hp).2
  have hne : n.values.zip ws ≠ [] := by
    intro h
    rw [h] at hsnd
    rw [← hsnd] at hpos
    exact lt_irrefl _ hpos
  have hsome : ∀ u : ℝ, 0 ≤ u → u < 1 →
      ∃ p ∈ n.values.zip ws, roulette (n.values.zip ws) 0 (u * (ws.sum : ℚ)) = some p.1 :=
    fun u h0 h1 => roulette_isSome hne (by rw [hsnd, zero_add]; nlinarith)
  have hmem : ∀ i (hi : i < n.values.length), (n.values[i], ws.getD i 0) ∈ n.values.zip ws := by
    intro i hi
    have : (n.values.zip ws)[i]'(by simp; omega) = (n.values[i], ws.getD i 0) := by
      rw [List.getElem_zip, List.getD_eq_getElem?_getD, List.getElem?_eq_getElem (by omega)]
      rfl
    rw [← this]
    exact List.getElem_mem _
  let k' : ℝ → Option Val := fun u => roulette (n.values.zip ws) 0 (u * (ws.sum : ℚ))
  have hk' : ∀ u, 0 ≤ u → u < 1 → k' u = some ((k' u).getD "") := by
    intro u h0 h1
    obtain ⟨p, _, hp⟩ := hsome u h0 h1
    simp only [k', hp, Option.getD_some]
  refine ⟨fun u => (k' u).getD "", ⟨k', ?_, hk'⟩, ?_, ?_, ?_⟩
  · unfold NodeV.sampleValue
    rw [if_neg (by simp [hk]), hws, Rand.andThen_ok]
  · intro u h0 h1
    obtain ⟨p, hp, e⟩ := hsome u h0 h1
    simp only [k', e, Option.getD_some]
    exact (List.of_mem_zip hp).1
  · intro i hi
    rw [← roulette_volume hw (by rw [hfst]; exact hv) (by rw [hsnd]) hpos (hmem i hi)]
    congr 1
    ext u
    refine and_congr_right fun h0 => and_congr_right fun h1 => ?_
    constructor
    · intro h
      exact (hk' u h0 h1).trans (congrArg some h)
    · intro h
      have : k' u = some n.values[i] := h
      simp only [this, Option.getD_some]
  · intro u h0 h1 i hi h
    have h' : roulette (n.values.zip ws) 0 (u * (ws.sum : ℚ)) = some n.values[i] :=
      (hk' u h0.le h1).trans (congrArg some h)
    obtain ⟨w, hw1, hw2⟩ := roulette_pos (by rw [Rat.cast_zero]; exact mul_pos h0 hSR) h'
    have : w = ws.getD i 0 := by
      have hnd' : ((n.values.zip ws).map Prod.fst).Nodup := by rw [hfst]; exact hv
      exact Prod.mk.inj (List.inj_on_of_nodup_map hnd' hw1 (hmem i hi) rfl) |>.2
    exact this ▸ hw2

/-- With all weights zero `sample_value` returns the first outcome, whatever the random number. -/
theorem C39_all_zero {n : NodeV} {state : Dict Val} {children : List NodeV} {forward : Bool}
    {ws : List ℚ} (hk : n.kind = .discrete) {x : Val} {xs : List Val} (hv : n.values = x :: xs)
    (hws : n.weights state children forward = .ok ws) (h0 : ∀ w ∈ ws, w = 0) :
    n.sampleValue state children forward = .uniform fun _ => .pure (.ok (some x)) := by
  have hlen : ws.length = n.values.length := (mapM_eq_ok.1 hws).length_eq.symm
  have hsum : ws.sum = 0 := List.sum_eq_zero h0
  unfold NodeV.sampleValue
  rw [if_neg (by simp [hk]), hws, Rand.andThen_ok, hsum, hv]
  obtain ⟨w, ws', rfl⟩ : ∃ w ws', ws = w :: ws' := by
    cases ws with
    | nil => rw [hv] at hlen; cases hlen
    | cons w ws' => exact ⟨w, ws', rfl⟩
  congr 1
  funext u
  rw [List.zip_cons_cons, Rat.cast_zero, mul_zero, roulette_zero (h0 w (by simp))]

-- resampling `b` (outcomes x, y, z) in that state: weights 1/4, 1/8, 0
example : Ex.nb.weights Ex.state (Ex.bn.childNodes Ex.nb) false = .ok [1 / 4, 1 / 8, 0] := by
  decide +kernel
example := C39_wheel (n := Ex.nb) (ws := [1 / 4, 1 / 8, 0]) (state := Ex.state)
  (children := Ex.bn.childNodes Ex.nb) (forward := false) rfl (by decide) (by decide +kernel)
  (by decide +kernel) (by decide +kernel)

/-! ## C40 -/

/-- **C40** For every full state the joint probability with `n` set to its outcome `a` is
`get_markov_prob` of that outcome times a number that does not depend on `a`. -/
theorem C40_markov_blanket (hc : bn.Consistent) (hl : bn.Linked) (hd : bn.Discrete) {n : NodeV}
    (hn : n ∈ bn) {σ : Assign} (hσ : Legal bn.card bn.names σ) {d : Dict Val} (hr : Reads bn d σ) :
    ∃ c : ℚ, ∀ a (ha : a < n.values.length), ∃ q,
      n.markovProb n.values[a] (bn.childNodes n) (d.set n.name n.values[a]) false = .ok q ∧
      joint bn (Function.update σ n.name a) = q * c := by
  refine ⟨others bn n σ, fun a ha => ⟨blanket bn n (Function.update σ n.name a), ?_, ?_⟩⟩
  · refine markovProb_reads hc hl hd hn (hσ.update (card_eq hc hn ▸ ha)) (hr.set ?_) ?_
    · rw [lab_get hc hn]; exact List.getElem?_eq_getElem ha
    · rw [Function.update_self]; exact List.getElem?_eq_getElem ha
  · rw [joint_blanket hc hl hn, others_update]

/-- The number is the product of the entries of all other nodes that are not children, so it is the
same for all states that agree outside of `n`. -/
theorem C40_constant (hc : bn.Consistent) (hl : bn.Linked) (hd : bn.Discrete) {n : NodeV}
    (hn : n ∈ bn) {σ : Assign} (hσ : Legal bn.card bn.names σ) {d : Dict Val} (hr : Reads bn d σ)
    {x : Val} (hx : n.values[σ n.name]? = some x) :
    ∃ q, n.markovProb x (bn.childNodes n) d false = .ok q ∧ joint bn σ =
      q * ((bn.filter fun m => ¬ (m.name = n.name ∨ n.name ∈ m.parentOrder)).map
        fun m => m.entry σ).prod :=
  ⟨_, markovProb_reads hc hl hd hn hσ hr hx, joint_blanket hc hl hn σ⟩

example := C40_markov_blanket Ex.bn_consistent Ex.bn_linked Ex.bn_discrete Ex.nc_mem
  Ex.σ_legal Ex.state_reads
example := C40_constant Ex.bn_consistent Ex.bn_linked Ex.bn_discrete Ex.nc_mem
  Ex.σ_legal Ex.state_reads (x := "t") rfl

/-! ## C41 -/

/-- the nodes the chain may change -/
theorem variablesToChange_some (bn : BN) (ev : Dict Val) :
    Mcmc.variablesToChange bn (some ev) = .ok (bn.filter fun n => n.name ∉ ev.keys) := rfl

/-- **C41** A Gibbs step, single-site or full sweep, leaves the posterior given hard evidence
invariant.  (A single-site step needs an unobserved node, see `C43_all_observed_refuted`.) -/
theorem C41_gibbs_invariant (hc : bn.Consistent) (hl : bn.Linked) (hd : bn.Discrete)
    (hnn : bn.NonNeg) {ev : Dict Val} (he : LegalHard bn ev) {vars : List NodeV}
    (hvars : Mcmc.variablesToChange bn (some ev) = .ok vars) {full : Bool}
    (hne : full = false → vars ≠ []) :
    LeavesInvariant bn (fullPosterior bn ev) (Mcmc.step .gibbs bn vars full) := by
  rw [variablesToChange_some] at hvars
  cases hvars
  have hp : ∀ n ∈ bn.filter (fun n => n.name ∉ ev.keys),
      Preserves bn (fullPosterior bn ev) (Mcmc.gibbsSite bn n) := by
    intro n hn
    obtain ⟨h1, h2⟩ := List.mem_filter.1 hn
    exact (gibbs_kernel hc hl hd hnn h1
      (fullPosterior_proportional hc hl he h1 (by simpa using h2))).preserves
        (List.mem_map_of_mem h1)
  refine Preserves.invariant hd (fullPosterior_dependsOn hc he) ?_
  cases full with
  | true => exact Preserves.sweep hp
  | false => exact Preserves.single (hne rfl) hp

example (full : Bool) := C41_gibbs_invariant Ex.bn_consistent Ex.bn_linked Ex.bn_discrete
  Ex.bn_nonneg Ex.hard_legal rfl (full := full) (fun _ => by decide)

theorem sum_states (F : Assign → ℚ) :
    ∑ σ ∈ states bn, F σ = sumOver bn.card bn.names.toFinset F (fun _ => 0) := by
  classical
  unfold states sumOver
  rw [Finset.sum_image]
  intro τ _ τ' _ h
  funext v hv
  have := congrFun h v
  simpa only [hv, dif_pos] using this

/-- The posterior is a probability distribution over the states if the evidence has positive
probability, so the invariance is not about the zero function. -/
theorem C41_posterior_mass (hc : bn.Consistent) {ev : Dict Val} (he : LegalHard bn ev)
    (hpos : 0 < totalWeight bn (hardEvidence ev) (fun _ => 0)) :
    ∑ σ ∈ states bn, fullPosterior bn ev σ = 1 := by
  have h1 : ∀ σ, fullPosterior bn ev σ =
      ((weight bn (hardEvidence ev) σ / totalWeight bn (hardEvidence ev) (fun _ => 0) : ℚ) : ℝ) := by
    intro σ
    unfold fullPosterior
    rw [posterior_full, totalWeight_const hc he.legal σ (fun _ => 0), if_pos hpos]
  rw [Finset.sum_congr rfl fun σ _ => h1 σ, ← Rat.cast_sum, ← Finset.sum_div, sum_states]
  rw [show sumOver bn.card bn.names.toFinset (weight bn (hardEvidence ev)) (fun _ => 0) =
    totalWeight bn (hardEvidence ev) (fun _ => 0) from rfl, div_self hpos.ne', Rat.cast_one]

example : 0 < totalWeight Ex.bn (hardEvidence Ex.hard) (fun _ => 0) := by decide +kernel

/-! ## C42 -/

/-- **C42** The single-site Metropolis-Hastings step is reversible with respect to the posterior. -/
theorem C42_detailed_balance (hc : bn.Consistent) (hl : bn.Linked) (hd : bn.Discrete)
    (hnn : bn.NonNeg) {ev : Dict Val} (he : LegalHard bn ev) {vars : List NodeV}
    (hvars : Mcmc.variablesToChange bn (some ev) = .ok vars) :
    Reversible bn (fullPosterior bn ev) (Mcmc.step .metropolisHastings bn vars false) := by
  rw [variablesToChange_some] at hvars
  cases hvars
  refine Reversible.single fun n hn => ?_
  obtain ⟨h1, h2⟩ := List.mem_filter.1 hn
  exact (mh_kernel hc hl hd hnn h1
    (fullPosterior_proportional hc hl he h1 (by simpa using h2))).reversible hd
      (fullPosterior_dependsOn hc he) (List.mem_map_of_mem h1)

/-- **C42** Both modes of the Metropolis-Hastings step leave the posterior invariant. -/
theorem C42_mh_invariant (hc : bn.Consistent) (hl : bn.Linked) (hd : bn.Discrete)
    (hnn : bn.NonNeg) {ev : Dict Val} (he : LegalHard bn ev) {vars : List NodeV}
    (hvars : Mcmc.variablesToChange bn (some ev) = .ok vars) {full : Bool}
    (hne : full = false → vars ≠ []) :
    LeavesInvariant bn (fullPosterior bn ev) (Mcmc.step .metropolisHastings bn vars full) := by
  rw [variablesToChange_some] at hvars
  cases hvars
  have hp : ∀ n ∈ bn.filter (fun n => n.name ∉ ev.keys),
      Preserves bn (fullPosterior bn ev) (Mcmc.mhSite bn n) := by
    intro n hn
    obtain ⟨h1, h2⟩ := List.mem_filter.1 hn
    exact (mh_kernel hc hl hd hnn h1
      (fullPosterior_proportional hc hl he h1 (by simpa using h2))).preserves
        (List.mem_map_of_mem h1)
  refine Preserves.invariant hd (fullPosterior_dependsOn hc he) ?_
  cases full with
  | true => exact Preserves.sweep hp
  | false => exact Preserves.single (hne rfl) hp

example := C42_detailed_balance Ex.bn_consistent Ex.bn_linked Ex.bn_discrete Ex.bn_nonneg
  Ex.hard_legal rfl
example (full : Bool) := C42_mh_invariant Ex.bn_consistent Ex.bn_linked Ex.bn_discrete
  Ex.bn_nonneg Ex.hard_legal rfl (full := full) (fun _ => by decide)

/-! ## C43 -/

/-- one step from a legal state ends in a legal state, whatever the random numbers -/
theorem all_step (hc : bn.Consistent) (hl : bn.Linked) (hd : bn.Discrete) (hnn : bn.NonNeg)
    {tm : Mcmc.Transition} (htm : tm ≠ .base) {ev : Dict Val} {full : Bool}
    (hne : full = false → ∃ n ∈ bn, n.name ∉ ev.keys) {d : Dict Val} (h : GoodState bn ev d) :
    (Mcmc.step tm bn (bn.filter fun n => n.name ∉ ev.keys) full d).All
      fun r => ∃ d', r = .ok d' ∧ GoodState bn ev d' := by
  have hne' : full = false → bn.filter (fun n => n.name ∉ ev.keys) ≠ [] := by
    intro h
    obtain ⟨n, h1, h2⟩ := hne h
    exact List.ne_nil_of_mem (List.mem_filter.2 ⟨h1, by simpa using h2⟩)
  cases tm with
  | base => exact absurd rfl htm
  | gibbs =>
    refine all_siteStep (fun n hn d hd' => ?_) hne' h
    obtain ⟨h1, h2⟩ := List.mem_filter.1 hn
    exact all_gibbsSite hc hl hd hnn hd' h1 (by simpa using h2)
  | metropolisHastings =>
    refine all_siteStep (fun n hn d hd' => ?_) hne' h
    obtain ⟨h1, h2⟩ := List.mem_filter.1 hn
    exact all_mhSite hc hl hd hd' h1 (by simpa using h2)

/-- **C43** Whatever the random numbers, the chain yields exactly `numSamples` states, each legal and
agreeing with the evidence.  Missing from the full claim: single-site steps when every node is
observed (`C43_all_observed_refuted`). -/
theorem C43_chain_legal_partial (hc : bn.Consistent) (hl : bn.Linked) (hd : bn.Discrete)
    (hnn : bn.NonNeg) (s : Mcmc.Sampler) (htm : s.transitionModel ≠ .base) (numSamples : Nat)
    {ev initial : Dict Val} (hi : GoodState bn ev initial)
    (hne : s.fullChange = false → ∃ n ∈ bn, n.name ∉ ev.keys) :
    (s.generate bn numSamples initial (some ev)).All fun r => ∃ l, r = .ok l ∧
      l.length = numSamples ∧ ∀ st ∈ l, GoodState bn ev st := by
  unfold Mcmc.Sampler.generate
  rw [variablesToChange_some, Rand.andThen_ok]
  exact Rand.all_andThen (all_burn (fun d h => all_step hc hl hd hnn htm hne h) _ hi) fun d h =>
    all_collect (fun d h => all_step hc hl hd hnn htm hne h) _ h

example (burnIn numSamples : Nat) (full : Bool) := C43_chain_legal_partial Ex.bn_consistent
  Ex.bn_linked Ex.bn_discrete Ex.bn_nonneg ⟨.gibbs, burnIn, full⟩ (by simp) numSamples
  Ex.state_good (fun _ => ⟨Ex.na, Ex.na_mem, by decide⟩)

/-- If every node is observed, single-site chains (the default) raise `IndexError`, for both
transition models, as soon as one step is to be made. -/
theorem C43_all_observed (bn : BN) (s : Mcmc.Sampler) (htm : s.transitionModel ≠ .base)
    (hf : s.fullChange = false) {numSamples : Nat} (hk : 0 < s.burnIn + numSamples)
    {ev : Dict Val} (initial : Dict Val) (hall : ∀ n ∈ bn, n.name ∈ ev.keys) :
    s.generate bn numSamples initial (some ev) = .pure (.error .indexError) := by
  have hnil : bn.filter (fun n => n.name ∉ ev.keys) = [] :=
    List.filter_eq_nil_iff.2 fun n hn => by simpa using hall n hn
  have hstep : ∀ d, Mcmc.step s.transitionModel bn [] s.fullChange d =
      .pure (.error .indexError) := by
    intro d
    rw [hf]
    cases h : s.transitionModel with
    | base => exact absurd h htm
    | gibbs => rfl
    | metropolisHastings => rfl
  unfold Mcmc.Sampler.generate
  rw [variablesToChange_some, Rand.andThen_ok, hnil]
  cases hb : s.burnIn with
  | succ k => rw [Mcmc.burn, hstep]; rfl
  | zero =>
    cases numSamples with
    | zero => rw [hb] at hk; exact absurd hk (lt_irrefl _)
    | succ k =>
      rw [Mcmc.burn, Rand.andThen_pure_ok, Mcmc.collect, hstep]
      rfl

/-- **C43** is false of the code as stated: with legal evidence on every node and the default
settings (Metropolis-Hastings, burn-in 1000, single-site) the chain raises `IndexError`. -/
theorem C43_all_observed_refuted : Ex.bn.Consistent ∧ Ex.bn.Linked ∧ Ex.bn.Discrete ∧
    Ex.bn.NonNeg ∧ LegalHard Ex.bn Ex.allObserved ∧ GoodState Ex.bn Ex.allObserved Ex.state ∧
    (Mcmc.Sampler.create none 1000 false).generate Ex.bn 1000 Ex.state (some Ex.allObserved) =
      .pure (.error .indexError) := by
  refine ⟨Ex.bn_consistent, Ex.bn_linked, Ex.bn_discrete, Ex.bn_nonneg, ?_, ?_, ?_⟩
  · constructor <;> decide
  · exact ⟨by decide, fun v x h => h⟩
  · exact C43_all_observed _ _ (by decide) rfl (by decide) _ (by decide)

/-! ## C44 -/

/-- **C44** Forward sampling with evidence: an instantiation that contradicts the evidence is never
returned; one that agrees is returned with the product of the table entries of the unobserved
nodes as its probability. -/
theorem C44_forward_evidence (hc : bn.Consistent) (hl : bn.Linked) (ha : bn.Acyclic)
    (hd : bn.Discrete) (hnn : bn.NonNeg) (hs : bn.Stochastic) {ev : Dict Val}
    (he : LegalHard bn ev) {τ : Assign} (hτ : Legal bn.card bn.names τ) :
    ((∀ v x, ev.get? v = some x → (bn.lab v)[τ v]? = some x) →
      (bn.getSample ev).prob (Returns bn τ) =
        ((((bn.filter fun n => n.name ∉ ev.keys).map fun n => n.entry τ).prod : ℚ) : ℝ)) ∧
    ((∃ v x, ev.get? v = some x ∧ (bn.lab v)[τ v]? ≠ some x) →
      (bn.getSample ev).prob (Returns bn τ) = 0) := by
  obtain ⟨h1, h2⟩ := topologicalSort_spec hc hl ha
  have := prob_sampleAlong hc hd hnn hs ev hτ bn.topologicalSort.1 [] ev (by simpa using h2)
    he.settled
  unfold BN.getSample
  rw [h1]
  constructor
  · intro h
    rw [this.1 ?_]
    · congr 1
      have hp := (h2.perm.filter fun v => v ∉ ev.keys).map fun v => entryOf bn v τ
      rw [hp.prod_eq, BN.names, List.filter_map, List.map_map]
      congr 1
      refine List.map_congr_left fun n hn => ?_
      simp only [Function.comp, entryOf, BN.lab_of_mem hc.nodup (List.mem_filter.1 hn).1]
    · intro v _ hv
      obtain ⟨x, hx⟩ := Dict.get?_isSome.2 (hv.resolve_left (by simp))
      rw [hx, h v x hx]
  · rintro ⟨v, x, hx, hne⟩
    refine this.2 fun h => hne ?_
    rw [← h v (he.mem _ (Dict.get?_mem hx)) (Or.inr (Dict.mem_keys_of_get? hx)), hx]

/-- **C44** Without evidence each full instantiation has its joint probability. -/
theorem C44_forward_joint (hc : bn.Consistent) (hl : bn.Linked) (ha : bn.Acyclic)
    (hd : bn.Discrete) (hnn : bn.NonNeg) (hs : bn.Stochastic) {τ : Assign}
    (hτ : Legal bn.card bn.names τ) :
    (bn.getSample []).prob (Returns bn τ) = ((joint bn τ : ℚ) : ℝ) := by
  rw [(C44_forward_evidence hc hl ha hd hnn hs (ev := []) ⟨by simp [Dict.keys], by simp, by simp⟩
    hτ).1 (by intro v x h; cases h)]
  simp [joint, Dict.keys]

/-- **C44** Whatever the random numbers, the sample is legal and agrees with the evidence. -/
theorem C44_forward_legal (hc : bn.Consistent) (hl : bn.Linked) (ha : bn.Acyclic)
    (hd : bn.Discrete) (hnn : bn.NonNeg) (hv : ∀ n ∈ bn, n.values ≠ []) {ev : Dict Val}
    (he : LegalHard bn ev) :
    (bn.getSample ev).All fun r => ∃ d, r = .ok d ∧ GoodState bn ev d :=
  all_getSample hc hl ha hd hnn hv he

example := C44_forward_evidence Ex.bn_consistent Ex.bn_linked Ex.bn_acyclic Ex.bn_discrete
  Ex.bn_nonneg Ex.bn_stochastic Ex.hard_legal Ex.σ_legal
example := C44_forward_joint Ex.bn_consistent Ex.bn_linked Ex.bn_acyclic Ex.bn_discrete
  Ex.bn_nonneg Ex.bn_stochastic Ex.σ_legal
example := C44_forward_legal Ex.bn_consistent Ex.bn_linked Ex.bn_acyclic Ex.bn_discrete
  Ex.bn_nonneg (by decide) Ex.hard_legal
-- the order used for the example network, and a joint probability
example : Ex.bn.topologicalSort = (["b", "a", "c", "d"], none) := by decide +kernel
example : joint Ex.bn Ex.σ = 3 / 320 := by decide +kernel

/-! ## C45 -/

theorem variableValues_spec (hc : bn.Consistent) {vars : List Name} (hv : ∀ v ∈ vars, v ∈ bn.names) :
    ∃ vv, Mcmc.variableValues bn vars = .ok vv ∧ vv.keys.Nodup ∧ (∀ v, v ∈ vv.keys ↔ v ∈ vars) ∧
      ∀ p ∈ vv, p.2 = bn.lab p.1 := by
  have : ∀ (vars : List Name) (d : Dict (List Val)), (∀ v ∈ vars, v ∈ bn.names) → d.keys.Nodup →
      (∀ p ∈ d, p.2 = bn.lab p.1) →
      ∃ vv, vars.foldlM (fun d v => do
        let n ← bn.getNode v
        return d.set v n.values) d = .ok vv ∧ vv.keys.Nodup ∧
        (∀ v, v ∈ vv.keys ↔ v ∈ d.keys ∨ v ∈ vars) ∧ ∀ p ∈ vv, p.2 = bn.lab p.1 := by
    intro vars
    induction vars with
    | nil => intro d _ h1 h2; exact ⟨d, rfl, h1, by simp, h2⟩
    | cons v vars ih =>
      intro d hv h1 h2
      obtain ⟨n, hn, rfl⟩ := BN.exists_of_mem_names (hv v (by simp))
      obtain ⟨vv, a1, a2, a3, a4⟩ := ih (d.set n.name n.values)
        (fun w hw => hv w (List.mem_cons_of_mem _ hw)) (Dict.nodup_keys_set h1) (by
          intro p hp
          have h := Dict.get?_of_mem (Dict.nodup_keys_set h1) hp
          rw [Dict.get?_set] at h
          split at h
          · rename_i e
            rw [← Option.some.inj h, ← e, BN.lab_eq hc.nodup hn]
          · exact h2 p (Dict.get?_mem h))
      refine ⟨vv, ?_, a2, fun w => ?_, a4⟩
      · rw [List.foldlM_cons, BN.getNode_ok hc.nodup hn]
        exact a1
      · rw [a3, Dict.mem_keys_set, List.mem_cons]
        tauto
  obtain ⟨vv, a1, a2, a3, a4⟩ := this vars [] hv (by simp [Dict.keys]) (by simp)
  exact ⟨vv, a1, a2, fun v => by rw [a3]; simp [Dict.keys], a4⟩

/-- the table of the frequencies in a chain of legal states that agree with the evidence -/
theorem chain_table (hc : bn.Consistent) (hd : bn.Discrete) {ev : Dict Val} {vars : List Name}
    (hvars : ∀ v ∈ vars, v ∈ bn.names) {vv : Dict (List Val)} (v2 : vv.keys.Nodup)
    (v3 : ∀ v, v ∈ vv.keys ↔ v ∈ vars) (v4 : ∀ p ∈ vv, p.2 = bn.lab p.1) {chain : List (Dict Val)}
    (hlen : 0 < chain.length) (hgood : ∀ st ∈ chain, GoodState bn ev st) :
    ∃ f, Factor.fromSamples chain vv = .ok f ∧ f.WF bn.card ∧
      (∀ v, v ∈ f.variableOrder ↔ v ∈ vars) ∧ (∀ v ∈ vars, f.values.get? v = some (bn.lab v)) ∧
      (∀ σ, Legal bn.card vars σ → 0 ≤ f.eval σ) ∧
      (∀ σ, sumOver bn.card vars.toFinset f.eval σ = 1) ∧
      ∀ v ∈ vars, ∀ x, ev.get? v = some x → ∀ σ, Legal bn.card vars σ →
        (bn.lab v)[σ v]? ≠ some x → f.eval σ = 0 := by
  have hcne : chain ≠ [] := by
    rintro rfl
    exact absurd hlen (lt_irrefl _)
  have hmemv : ∀ p ∈ vv, p.1 ∈ bn.names := fun p hp =>
    hvars _ ((v3 _).1 (List.mem_map_of_mem hp))
  have hleg : ∀ σ, Legal bn.card vars σ → Legal bn.card vv.keys σ :=
    fun σ h v hv => h v ((v3 v).1 hv)
  obtain ⟨f, f1, f2, f3, f4, f5, f6, f7⟩ := C12_from_samples (card := bn.card) vv chain v2
    (fun p hp => by rw [v4 p hp]; exact hd.lab_nodup _)
    (fun p hp => by rw [v4 p hp]; rfl) hcne (by
      intro st hst p hp
      obtain ⟨n, hn, e⟩ := BN.exists_of_mem_names (hmemv p hp)
      obtain ⟨x, h1, h2⟩ := (hgood st hst).1 n hn
      exact ⟨x, e ▸ h2, by rw [v4 p hp, ← e, BN.lab_eq hc.nodup hn]; exact h1⟩)
  refine ⟨f, f1, f2, fun v => by rw [f3]; exact v3 v, fun v hv => ?_, fun σ h => f6 σ (hleg σ h), ?_,
    ?_⟩
  · obtain ⟨x, hx⟩ := Dict.get?_isSome.2 ((v3 v).2 hv)
    rw [f4, hx, show x = bn.lab v from v4 _ (Dict.get?_mem hx)]
  · intro σ
    rw [← f7 σ]
    congr 1
    ext v
    rw [List.mem_toFinset, List.mem_toFinset, v3]
  · intro v hv x hx σ hσ hne
    rw [f5 σ (hleg σ hσ)]
    have : agreeing vv chain σ = 0 := by
      unfold agreeing
      rw [List.countP_eq_zero]
      intro st hst
      rw [decide_eq_true_eq]
      intro h
      obtain ⟨l, hl'⟩ := Dict.get?_isSome.2 ((v3 v).2 hv)
      have h1 := h _ (Dict.get?_mem hl')
      rw [v4 _ (Dict.get?_mem hl')] at h1
      exact hne (h1.symm.trans ((hgood st hst).2 v x hx))
    rw [this, Nat.cast_zero, zero_div]

/-- **C45** Whatever the random numbers, `MCMC.marginals` returns a distribution over the query
variables, with all mass of an observed query variable on its observed outcome.  Missing from the
full claim: single-site chains when every node is observed (`C45_all_observed_refuted`). -/
theorem C45_marginals_partial (hc : bn.Consistent) (hl : bn.Linked) (ha : bn.Acyclic)
    (hd : bn.Discrete) (hnn : bn.NonNeg) (hval : ∀ n ∈ bn, n.values ≠ [])
    (s : Mcmc.Sampler) (htm : s.transitionModel ≠ .base) {numSamples : Nat} (hN : 0 < numSamples)
    {vars : List Name} (hvars : ∀ v ∈ vars, v ∈ bn.names) (evidence : Option (Dict Val))
    (he : LegalHard bn (evidence.getD []))
    (hne : s.fullChange = false → ∃ n ∈ bn, n.name ∉ (evidence.getD []).keys) :
    (Mcmc.marginals bn s numSamples vars evidence).All fun r => ∃ f, r = .ok f ∧ f.WF bn.card ∧
      (∀ v, v ∈ f.variableOrder ↔ v ∈ vars) ∧ (∀ v ∈ vars, f.values.get? v = some (bn.lab v)) ∧
      (∀ σ, Legal bn.card vars σ → 0 ≤ f.eval σ) ∧
      (∀ σ, sumOver bn.card vars.toFinset f.eval σ = 1) ∧
      ∀ v ∈ vars, ∀ x, (evidence.getD []).get? v = some x → ∀ σ, Legal bn.card vars σ →
        (bn.lab v)[σ v]? ≠ some x → f.eval σ = 0 := by
  unfold Mcmc.marginals
  refine Rand.all_andThen (all_getSample hc hl ha hd hnn hval he) fun initial hi => ?_
  obtain ⟨vv, v1, v2, v3, v4⟩ := variableValues_spec hc hvars
  rw [v1, Rand.andThen_ok]
  refine Rand.all_andThen (Q := fun l => l.length = numSamples ∧
    ∀ st ∈ l, GoodState bn (evidence.getD []) st)
    (C43_chain_legal_partial hc hl hd hnn s htm numSamples hi hne) fun chain hchain => ?_
  exact chain_table hc hd hvars v2 v3 v4 (hchain.1 ▸ hN) hchain.2

example (burnIn : Nat) (full : Bool) (tm : Option Mcmc.Transition) (htm : tm ≠ some .base) :=
  C45_marginals_partial Ex.bn_consistent Ex.bn_linked Ex.bn_acyclic Ex.bn_discrete Ex.bn_nonneg
    (by decide) (Mcmc.Sampler.create tm burnIn full)
    (by rcases tm with _ | _ | _ | _ <;> first | exact absurd rfl htm | simp [Mcmc.Sampler.create])
    (numSamples := 1000) (by decide) (vars := ["d", "b"]) (by decide)
    (some Ex.hard) Ex.hard_legal (fun _ => ⟨Ex.na, Ex.na_mem, by decide⟩)

/-- **C45** is false of the code as stated: with evidence on every node and the default settings
`marginals` raises `IndexError`, whatever the random numbers. -/
theorem C45_all_observed_refuted :
    (Mcmc.marginals Ex.bn (Mcmc.Sampler.create none 1000 false) 1000 ["a"]
      (some Ex.allObserved)).All fun r => r = .error .indexError := by
  have he : LegalHard Ex.bn Ex.allObserved := by constructor <;> decide
  unfold Mcmc.marginals
  refine Rand.all_bind.2 (Rand.All.mono ?_ (all_getSample Ex.bn_consistent Ex.bn_linked
    Ex.bn_acyclic Ex.bn_discrete Ex.bn_nonneg (by decide) he))
  rintro _ ⟨d, rfl, _⟩
  obtain ⟨vv, v1, _⟩ := variableValues_spec Ex.bn_consistent (vars := ["a"]) (by decide)
  show Rand.All _ (Rand.andThen _ _)
  rw [v1, Rand.andThen_ok]
  have := C43_all_observed Ex.bn (Mcmc.Sampler.create none 1000 false) (by decide) rfl
    (numSamples := 1000) (by decide) (ev := Ex.allObserved) d (by decide)
  show Rand.All _ (Rand.andThen ((Mcmc.Sampler.create none 1000 false).generate Ex.bn 1000 d
    (some Ex.allObserved)) _)
  rw [this]
  rfl

end Primo
