import Verif.Lemmas.Draw
import Verif.Props.Converge

/-! # C97: estimates from independent samples -/

namespace Primo
open Finset

section
variable {bn : BN}

/-- **C97** The table counted from `N` independent samples of `get_sample(evidence)` differs by less than `ε` from the
distribution of a single sample, in all its entries at once and with probability at least `1 - 1 / (N ε²)`: for every
network, every evidence, every query, and independently of the size of the table. -/
theorem C97_estimate (hc : bn.Consistent) (hl : bn.Linked) (ha : bn.Acyclic)
    (hd : bn.Discrete) (hnn : bn.NonNeg) (hs : bn.Stochastic) {ev : Dict Val}
    (he : LegalHard bn ev) {vars : List Name} (hvars : ∀ v ∈ vars, v ∈ bn.names) {N : Nat} (hN : 0 < N)
    {ε : ℝ} (hε : 0 < ε) :
    1 - 1 / (N * ε ^ 2) ≤ (bn.forwardEstimate N vars ev).prob
      (CloseToLaw bn vars (fun σ => (bn.getSample ev).prob (ReturnsOn bn vars σ)) ε) := by
  rw [prob_forwardEstimate hc hl ha hd hnn hs he hvars hN]
  simp only [prob_returnsOn hc hl ha hd hnn hs he hvars]
  exact iid_near (sampleLaw_nonneg hc hl ha hd hnn hs he) (sum_prob_getSample hc hl ha hd hnn hs he) vars hN hε

/-- **C97** The distribution of a sample is that of the network in which the tables of the observed variables are left
out and the observations put in: the effect of bringing them about, not of observing them. -/
theorem C97_forced (hc : bn.Consistent) (hl : bn.Linked) (ha : bn.Acyclic)
    (hd : bn.Discrete) (hnn : bn.NonNeg) (hs : bn.Stochastic) {ev : Dict Val}
    (he : LegalHard bn ev) {vars : List Name} (hvars : ∀ v ∈ vars, v ∈ bn.names) {σ : Assign}
    (hσ : Legal bn.card vars σ) :
    (bn.getSample ev).prob (ReturnsOn bn vars σ) = ((bn.forced ev vars σ : ℚ) : ℝ) :=
  forced_eq_prob hc hl ha hd hnn hs he hvars hσ

theorem closeTo_iff_law {ev : Dict Val} {vars : List Name} {p : Assign → ℝ} {ε : ℝ}
    (h : ∀ σ, Legal bn.card vars σ → p σ = ((posterior bn (hardEvidence ev) vars σ : ℚ) : ℝ)) :
    CloseTo bn ev vars ε = CloseToLaw bn vars p ε := by
  funext r
  unfold CloseTo CloseToLaw
  refine propext (exists_congr fun f => and_congr_right fun _ => and_congr_right fun _ =>
    forall₂_congr fun σ hσ => by rw [h σ hσ])

theorem closeTo_of_forced (hc : bn.Consistent) (hl : bn.Linked) (ha : bn.Acyclic)
    (hd : bn.Discrete) (hnn : bn.NonNeg) (hs : bn.Stochastic) {ev : Dict Val}
    (he : LegalHard bn ev) {vars : List Name} (hvars : ∀ v ∈ vars, v ∈ bn.names)
    (h : ∀ σ, Legal bn.card vars σ → posterior bn (hardEvidence ev) vars σ = bn.forced ev vars σ)
    {N : Nat} (hN : 0 < N) {ε : ℝ} (hε : 0 < ε) :
    1 - 1 / (N * ε ^ 2) ≤ (bn.forwardEstimate N vars ev).prob (CloseTo bn ev vars ε) := by
  rw [closeTo_iff_law (p := fun σ => (bn.getSample ev).prob (ReturnsOn bn vars σ)) fun σ hσ => by
    rw [C97_forced hc hl ha hd hnn hs he hvars hσ, h σ hσ]]
  exact C97_estimate hc hl ha hd hnn hs he hvars hN hε

/-- **C97** If with each observed variable its parents are observed (in particular without evidence), and the evidence
is possible, the estimate is one of the posterior. -/
theorem C97_posterior (hc : bn.Consistent) (hl : bn.Linked) (ha : bn.Acyclic)
    (hd : bn.Discrete) (hnn : bn.NonNeg) (hs : bn.Stochastic) {ev : Dict Val}
    (he : LegalHard bn ev) (hup : bn.Upward ev)
    (hpos : 0 < totalWeight bn (hardEvidence ev) fun _ => 0)
    {vars : List Name} (hvars : ∀ v ∈ vars, v ∈ bn.names) {N : Nat} (hN : 0 < N) {ε : ℝ} (hε : 0 < ε) :
    1 - 1 / (N * ε ^ 2) ≤ (bn.forwardEstimate N vars ev).prob (CloseTo bn ev vars ε) :=
  closeTo_of_forced hc hl ha hd hnn hs he hvars
    (fun σ _ => posterior_forced hc hl ha hd hnn hs he hup hpos vars σ) hN hε

theorem noEvidence_legal : LegalHard bn [] := ⟨by simp [Dict.keys], by simp, by simp⟩

/-- **C97** Without evidence the estimate is one of the marginals of the network. -/
theorem C97_prior (hc : bn.Consistent) (hl : bn.Linked) (ha : bn.Acyclic)
    (hd : bn.Discrete) (hnn : bn.NonNeg) (hs : bn.Stochastic)
    {vars : List Name} (hvars : ∀ v ∈ vars, v ∈ bn.names) {N : Nat} (hN : 0 < N) {ε : ℝ} (hε : 0 < ε) :
    1 - 1 / (N * ε ^ 2) ≤ (bn.forwardEstimate N vars []).prob (CloseTo bn [] vars ε) :=
  C97_posterior hc hl ha hd hnn hs noEvidence_legal (by intro n _ h; simp [Dict.keys] at h)
    (by rw [show hardEvidence [] = [] from rfl, totalWeight_nil hc ha hs]; norm_num) hvars hN hε

/-- **C97** If the posterior of one instantiation of the query variables differs from the distribution of the samples,
the estimate misses it, and with more samples the more surely. -/
theorem C97_missed (hc : bn.Consistent) (hl : bn.Linked) (ha : bn.Acyclic)
    (hd : bn.Discrete) (hnn : bn.NonNeg) (hs : bn.Stochastic) {ev : Dict Val}
    (he : LegalHard bn ev) {vars : List Name} (hvars : ∀ v ∈ vars, v ∈ bn.names) {σ : Assign}
    (hσ : Legal bn.card vars σ) {ε : ℝ} (hε : 0 < ε)
    (hgap : 2 * ε ≤ |((posterior bn (hardEvidence ev) vars σ : ℚ) : ℝ) - ((bn.forced ev vars σ : ℚ) : ℝ)|)
    {N : Nat} (hN : 0 < N) :
    (bn.forwardEstimate N vars ev).prob (CloseTo bn ev vars ε) ≤ 1 / (N * ε ^ 2) := by
  have h1 := C97_estimate hc hl ha hd hnn hs he hvars hN hε
  rw [closeTo_iff_law (p := fun σ => ((posterior bn (hardEvidence ev) vars σ : ℚ) : ℝ)) fun _ _ => rfl]
  rw [prob_forwardEstimate hc hl ha hd hnn hs he hvars hN] at h1 ⊢
  have h2 := iid_apart (sampleLaw_nonneg hc hl ha hd hnn hs he) (sum_prob_getSample hc hl ha hd hnn hs he)
    (p := fun σ => ((posterior bn (hardEvidence ev) vars σ : ℚ) : ℝ))
    (p' := fun σ => (bn.getSample ev).prob (ReturnsOn bn vars σ)) hσ
    (by simpa only [C97_forced hc hl ha hd hnn hs he hvars hσ] using hgap) N
  linarith

/-- **C97** The estimate converges in probability to the posterior if and only if the posterior is the distribution of
the samples. -/
theorem C97_iff (hc : bn.Consistent) (hl : bn.Linked) (ha : bn.Acyclic)
    (hd : bn.Discrete) (hnn : bn.NonNeg) (hs : bn.Stochastic) {ev : Dict Val}
    (he : LegalHard bn ev) {vars : List Name} (hvars : ∀ v ∈ vars, v ∈ bn.names) :
    (∀ ε > 0, ∀ q < 1, ∃ N₀ : Nat, ∀ N ≥ N₀,
      q ≤ (bn.forwardEstimate N vars ev).prob (CloseTo bn ev vars ε)) ↔
    ∀ σ, Legal bn.card vars σ → posterior bn (hardEvidence ev) vars σ = bn.forced ev vars σ := by
  have hlarge : ∀ ε > (0 : ℝ), ∀ q > (0 : ℝ), ∀ N : Nat, 1 / (q * ε ^ 2) < N → 0 < N ∧ 1 / (N * ε ^ 2) < q := by
    intro ε hε q hq N h
    have h0 : (0 : ℝ) < N := lt_of_le_of_lt (by positivity) h
    refine ⟨by exact_mod_cast h0, ?_⟩
    rw [div_lt_iff₀ (by positivity)] at h ⊢
    linarith
  constructor
  · intro h σ hσ
    by_contra hne
    set δ : ℝ := |((posterior bn (hardEvidence ev) vars σ : ℚ) : ℝ) - ((bn.forced ev vars σ : ℚ) : ℝ)| with hδ
    have hδ0 : 0 < δ := abs_pos.2 (sub_ne_zero.2 (by exact_mod_cast hne))
    obtain ⟨N₀, hN⟩ := h (δ / 2) (by positivity) (1 / 2) (by norm_num)
    obtain ⟨M, hM⟩ := exists_nat_gt (1 / ((1 / 2) * (δ / 2) ^ 2))
    obtain ⟨h1, h2⟩ := hlarge (δ / 2) (by positivity) (1 / 2) (by norm_num) (max N₀ M)
      (hM.trans_le (by exact_mod_cast le_max_right _ _))
    have h3 := hN _ (le_max_left N₀ M)
    have h4 := C97_missed hc hl ha hd hnn hs he hvars hσ (ε := δ / 2) (by positivity)
      (by rw [← hδ]; linarith) h1
    linarith
  · intro h ε hε q hq
    obtain ⟨M, hM⟩ := exists_nat_gt (1 / ((1 - q) * ε ^ 2))
    refine ⟨M, fun N hN => ?_⟩
    obtain ⟨h1, h2⟩ := hlarge ε hε (1 - q) (by linarith) N (hM.trans_le (by exact_mod_cast hN))
    have := closeTo_of_forced hc hl ha hd hnn hs he hvars h h1 hε
    linarith

end

/-- **C97** An observed effect says nothing about its causes in this way: of two fair coins both are known to be heads
through their conjunction; the estimate for the first one from `N` samples is off by less than 1/4 with probability
`16 / N` at most. -/
theorem C97_effect_refuted : Ex.andNet.Consistent ∧ Ex.andNet.Linked ∧ Ex.andNet.Acyclic ∧ Ex.andNet.Discrete ∧
    Ex.andNet.NonNeg ∧ Ex.andNet.Stochastic ∧ LegalHard Ex.andNet Ex.andEv ∧ (∃ σ, Possible Ex.andNet Ex.andEv σ) ∧
    ∀ N > 0, (Ex.andNet.forwardEstimate N ["a"] Ex.andEv).prob (CloseTo Ex.andNet Ex.andEv ["a"] (1 / 4)) ≤
      16 / N := by
  refine ⟨Ex.andNet_consistent, Ex.andNet_linked, Ex.andNet_acyclic, Ex.andNet_discrete, Ex.andNet_nonneg,
    Ex.andNet_stochastic, Ex.andEv_legal, ⟨Ex.andσ 1, Ex.andNet_possible.2 ⟨rfl, rfl, rfl⟩⟩, fun N hN => ?_⟩
  have hp : posterior Ex.andNet (hardEvidence Ex.andEv) ["a"] (Ex.andσ 1) = 1 := by decide +kernel
  have hf : Ex.andNet.forced Ex.andEv ["a"] (Ex.andσ 1) = 1 / 2 := by decide +kernel
  refine (C97_missed Ex.andNet_consistent Ex.andNet_linked Ex.andNet_acyclic Ex.andNet_discrete Ex.andNet_nonneg
    Ex.andNet_stochastic Ex.andEv_legal (vars := ["a"]) (by decide) (σ := Ex.andσ 1) (by unfold Legal; decide)
    (ε := 1 / 4) (by norm_num) (by rw [hp, hf]; norm_num) hN).trans (le_of_eq ?_)
  have : (N : ℝ) ≠ 0 := by exact_mod_cast hN.ne'
  field_simp
  norm_num

example := C97_estimate Ex.bn_consistent Ex.bn_linked Ex.bn_acyclic Ex.bn_discrete Ex.bn_nonneg Ex.bn_stochastic
  Ex.hard_legal (vars := ["a", "c"]) (by decide) (N := 1000) (by decide) (ε := 1 / 10) (by norm_num)
example := C97_forced Ex.bn_consistent Ex.bn_linked Ex.bn_acyclic Ex.bn_discrete Ex.bn_nonneg Ex.bn_stochastic
  Ex.hard_legal (vars := ["a", "c"]) (by decide) (σ := Ex.σ) (by unfold Legal; decide)
-- a root is observed
example := C97_posterior Ex.andNet_consistent Ex.andNet_linked Ex.andNet_acyclic Ex.andNet_discrete Ex.andNet_nonneg
  Ex.andNet_stochastic (ev := [("a", "t")]) (by constructor <;> decide) (by unfold BN.Upward; decide) (by decide +kernel)
  (vars := ["b"]) (by decide) (N := 1000) (by decide) (ε := 1 / 10) (by norm_num)
example := C97_prior Ex.bn_consistent Ex.bn_linked Ex.bn_acyclic Ex.bn_discrete Ex.bn_nonneg Ex.bn_stochastic
  (vars := ["d"]) (by decide) (N := 1000) (by decide) (ε := 1 / 10) (by norm_num)
-- one of the coins is known to be heads
example : Ex.andNet.forced [("a", "t")] ["b"] (Ex.andσ 1) = 1 / 2 := by decide +kernel
example := C97_iff Ex.andNet_consistent Ex.andNet_linked Ex.andNet_acyclic Ex.andNet_discrete Ex.andNet_nonneg
  Ex.andNet_stochastic Ex.andEv_legal (vars := ["a"]) (by decide)

end Primo
