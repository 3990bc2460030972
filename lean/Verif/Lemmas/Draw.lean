import Verif.Spec.Draw
import Verif.Lemmas.Rate

/-! # Independent samples (C97) -/

namespace Primo
open Finset

variable {bn : BN}

/-- expected value of a function of `N` independent states with the distribution `q` -/
noncomputable def iid (S : Finset Assign) (q : Assign → ℝ) : Nat → (List Assign → ℝ) → ℝ
  | 0, H => H []
  | N + 1, H => ∑ τ ∈ S, q τ * iid S q N fun τs => H (τ :: τs)

section iid
variable {S : Finset Assign} {q : Assign → ℝ}

theorem iid_add (N : Nat) (H K : List Assign → ℝ) :
    iid S q N (fun τs => H τs + K τs) = iid S q N H + iid S q N K := by
  induction N generalizing H K with
  | zero => rfl
  | succ N ih => simp only [iid, ih, mul_add, sum_add_distrib]

theorem iid_mul (N : Nat) (c : ℝ) (H : List Assign → ℝ) :
    iid S q N (fun τs => c * H τs) = c * iid S q N H := by
  induction N generalizing H with
  | zero => rfl
  | succ N ih =>
    simp only [iid, ih, mul_sum]
    exact sum_congr rfl fun τ _ => by ring

theorem iid_sum {ι : Type} (N : Nat) (R : Finset ι) (H : ι → List Assign → ℝ) :
    iid S q N (fun τs => ∑ i ∈ R, H i τs) = ∑ i ∈ R, iid S q N (H i) := by
  classical
  induction R using Finset.induction_on with
  | empty => simpa using iid_mul (S := S) (q := q) N 0 fun _ => 0
  | insert i R hi ih => simp only [sum_insert hi, iid_add, ih]

theorem iid_const (hq : ∑ τ ∈ S, q τ = 1) (N : Nat) (c : ℝ) : iid S q N (fun _ => c) = c := by
  induction N with
  | zero => rfl
  | succ N ih => simp only [iid, ih, ← sum_mul, hq, one_mul]

theorem iid_mono (hq : ∀ τ ∈ S, 0 ≤ q τ) (N : Nat) {H K : List Assign → ℝ}
    (h : ∀ τs : List Assign, τs.length = N → H τs ≤ K τs) : iid S q N H ≤ iid S q N K := by
  induction N generalizing H K with
  | zero => exact h [] rfl
  | succ N ih =>
    exact sum_le_sum fun τ hτ => mul_le_mul_of_nonneg_left (ih fun τs hl => h _ (by simp [hl])) (hq τ hτ)

theorem iid_mean (hq : ∑ τ ∈ S, q τ = 1) {f : Assign → ℝ} (hf : ∑ τ ∈ S, q τ * f τ = 0) (N : Nat) :
    iid S q N (fun τs => (τs.map f).sum) = 0 := by
  induction N with
  | zero => rfl
  | succ N ih =>
    simp only [iid, List.map_cons, List.sum_cons]
    simp only [iid_add N (fun _ => f _), iid_const hq, ih, add_zero, hf]

/-- the variances of independent terms add up -/
theorem iid_square (hq : ∑ τ ∈ S, q τ = 1) {f : Assign → ℝ} (hf : ∑ τ ∈ S, q τ * f τ = 0) (N : Nat) :
    iid S q N (fun τs => (τs.map f).sum ^ 2) = N * ∑ τ ∈ S, q τ * f τ ^ 2 := by
  induction N with
  | zero => simp [iid]
  | succ N ih =>
    have h : ∀ τ, iid S q N (fun τs => ((τ :: τs).map f).sum ^ 2) =
        f τ ^ 2 + N * ∑ τ ∈ S, q τ * f τ ^ 2 := by
      intro τ
      have e : (fun τs : List Assign => ((τ :: τs).map f).sum ^ 2) = fun τs =>
          f τ ^ 2 + (2 * f τ * (τs.map f).sum + (τs.map f).sum ^ 2) := by
        funext τs
        rw [List.map_cons, List.sum_cons]
        ring
      rw [e, iid_add, iid_add, iid_const hq, iid_mul, iid_mean hq hf, ih]
      ring
    simp only [iid, h, mul_add, sum_add_distrib, ← sum_mul, hq]
    push_cast
    ring

end iid

/-- the probability that forward sampling returns `τ` -/
noncomputable def sampleLaw (bn : BN) (ev : Dict Val) (τ : Assign) : ℝ :=
  (bn.getSample ev).prob (Returns bn τ)

/-- the client's list of samples -/
theorem expect_draw (hc : bn.Consistent) (hl : bn.Linked) (ha : bn.Acyclic)
    (hd : bn.Discrete) (hnn : bn.NonNeg) (hs : bn.Stochastic) {ev : Dict Val}
    (he : LegalHard bn ev) {β : Type} {g : Except PyErr β → ℝ} {N : Nat}
    {k : List (Dict Val) → Rand (Except PyErr β)} {H : List Assign → ℝ}
    (hk : ∀ (ds : List (Dict Val)) (τs : List Assign), τs.length = N →
      List.Forall₂ (fun d τ => τ ∈ states bn ∧ Reads bn d τ) ds τs → (k ds).expect g = H τs) :
    ((bn.draw ev N).andThen k).expect g = iid (states bn) (sampleLaw bn ev) N H := by
  induction N generalizing k H with
  | zero => exact hk [] [] rfl .nil
  | succ N ih =>
    unfold BN.draw
    rw [Rand.andThen_assoc, Rand.expect_andThen]
    refine expect_getSample hc hl ha hd hnn hs he fun d τ hτ hr => ?_
    show Rand.expect g (Rand.andThen (Rand.andThen (bn.draw ev N) _) k) = _
    rw [Rand.andThen_assoc]
    refine ih fun ds τs hlen hf => ?_
    exact hk (d :: ds) (τ :: τs) (by simp [hlen]) (.cons ⟨hτ, hr⟩ hf)

open Classical in
/-- 1 if the relative frequencies of `τs` are closer than `ε` to `p` -/
noncomputable def nearFreq (bn : BN) (vars : List Name) (p : Assign → ℝ) (ε : ℝ) (N : Nat)
    (τs : List Assign) : ℝ :=
  if ∀ σ, Legal bn.card vars σ →
    |(τs.countP fun τ => decide (∀ v ∈ vars, τ v = σ v) : ℕ) / (N : ℝ) - p σ| < ε then 1 else 0

theorem prob_forwardEstimate (hc : bn.Consistent) (hl : bn.Linked) (ha : bn.Acyclic)
    (hd : bn.Discrete) (hnn : bn.NonNeg) (hs : bn.Stochastic) {ev : Dict Val}
    (he : LegalHard bn ev) {vars : List Name} (hvars : ∀ v ∈ vars, v ∈ bn.names) {N : Nat} (hN : 0 < N)
    (p : Assign → ℝ) (ε : ℝ) :
    (bn.forwardEstimate N vars ev).prob (CloseToLaw bn vars p ε) =
      iid (states bn) (sampleLaw bn ev) N (nearFreq bn vars p ε N) := by
  classical
  obtain ⟨vv, v1, v2, v3, v4⟩ := variableValues_spec hc hvars
  unfold BN.forwardEstimate
  rw [show (Rand.prob _ _ : ℝ) = Rand.expect _ _ from rfl]
  refine expect_draw hc hl ha hd hnn hs he fun ds τs hlen hf => ?_
  obtain ⟨f, f1, f2, f3⟩ := fromSamples_freq hd hvars v2 v3 v4 hN hlen hf
  rw [v1, Rand.andThen_ok, f1]
  show (if CloseToLaw bn vars p ε (.ok f) then (1 : ℝ) else 0) = _
  refine if_congr ⟨?_, fun hh => ⟨f, rfl, f2, fun σ hσ => ?_⟩⟩ rfl rfl
  · rintro ⟨f', e, _, hf'⟩ σ hσ
    cases e
    have := hf' σ hσ
    rw [f3 σ hσ] at this
    push_cast at this
    exact this
  · rw [f3 σ hσ]
    push_cast
    exact hh σ hσ

open Classical in
/-- 1 if `τ` agrees with `ρ` on `vars` -/
noncomputable def hits (vars : List Name) (ρ τ : Assign) : ℝ := if ∀ v ∈ vars, τ v = ρ v then 1 else 0

theorem hits_sq (vars : List Name) (ρ τ : Assign) : hits vars ρ τ ^ 2 = hits vars ρ τ := by
  unfold hits
  split <;> norm_num

theorem hits_congr {vars : List Name} {ρ ρ' : Assign} (h : ∀ v ∈ vars, ρ' v = ρ v) (τ : Assign) :
    hits vars ρ' τ = hits vars ρ τ := by
  unfold hits
  exact if_congr (forall₂_congr fun v hv => by rw [h v hv]) rfl rfl

/-- the probability that a sample agrees with `ρ` on `vars` -/
theorem prob_returnsOn (hc : bn.Consistent) (hl : bn.Linked) (ha : bn.Acyclic)
    (hd : bn.Discrete) (hnn : bn.NonNeg) (hs : bn.Stochastic) {ev : Dict Val}
    (he : LegalHard bn ev) {vars : List Name} (hvars : ∀ v ∈ vars, v ∈ bn.names) (ρ : Assign) :
    (bn.getSample ev).prob (ReturnsOn bn vars ρ) =
      ∑ τ ∈ states bn, sampleLaw bn ev τ * hits vars ρ τ := by
  classical
  refine expect_getSample hc hl ha hd hnn hs he fun d τ hτ hr => ?_
  refine if_congr ⟨?_, fun h => ⟨d, rfl, fun v hv => by rw [hr v (hvars v hv), h v hv]⟩⟩ rfl rfl
  rintro ⟨d', e, h⟩ v hv
  cases e
  exact List.getElem?_inj ((mem_states.1 hτ).1 v (hvars v hv)) (hd.lab_nodup v) |>.1
    ((hr v (hvars v hv)).symm.trans (h v hv))

theorem sum_hits (vars : List Name) (ρ : Assign) (c : ℝ) (τs : List Assign) :
    (τs.map fun τ => hits vars ρ τ - c).sum =
      (τs.countP fun τ => decide (∀ v ∈ vars, τ v = ρ v) : ℕ) - τs.length * c := by
  classical
  induction τs with
  | nil => simp
  | cons τ τs ih =>
    rw [List.map_cons, List.sum_cons, ih, List.countP_cons, hits, List.length_cons]
    by_cases h : ∀ v ∈ vars, τ v = ρ v
    · rw [if_pos h, if_pos (decide_eq_true h)]; push_cast; ring
    · rw [if_neg h, if_neg (by simpa using h)]; push_cast; ring

theorem queryStates_eq {vars : List Name} {ρ ρ' : Assign} (h : ρ ∈ queryStates bn vars)
    (h' : ρ' ∈ queryStates bn vars) (he : ∀ v ∈ vars, ρ v = ρ' v) : ρ = ρ' := by
  classical
  obtain ⟨τ, -, rfl⟩ := mem_image.1 h
  obtain ⟨τ', -, rfl⟩ := mem_image.1 h'
  funext v
  by_cases hv : v ∈ vars
  · exact he v hv
  · rw [dif_neg (by simpa using hv), dif_neg (by simpa using hv)]

/-- a state agrees with at most one instantiation of the query variables -/
theorem sum_hits_le (vars : List Name) (τ : Assign) : ∑ ρ ∈ queryStates bn vars, hits vars ρ τ ≤ 1 := by
  classical
  unfold hits
  rw [← sum_filter, sum_const, nsmul_eq_mul, mul_one]
  have : ((queryStates bn vars).filter fun ρ => ∀ v ∈ vars, τ v = ρ v).card ≤ 1 := by
    refine card_le_one.2 fun ρ h ρ' h' => ?_
    rw [mem_filter] at h h'
    exact queryStates_eq h.1 h'.1 fun v hv => (h.2 v hv).symm.trans (h'.2 v hv)
  exact_mod_cast this

/-- Chebyshev's inequality for all entries of the table at once -/
theorem iid_near {q : Assign → ℝ} (h0 : ∀ τ ∈ states bn, 0 ≤ q τ) (h1 : ∑ τ ∈ states bn, q τ = 1)
    (vars : List Name) {N : Nat} (hN : 0 < N) {ε : ℝ} (hε : 0 < ε) :
    1 - 1 / (N * ε ^ 2) ≤ iid (states bn) q N
      (nearFreq bn vars (fun ρ => ∑ τ ∈ states bn, q τ * hits vars ρ τ) ε N) := by
  classical
  have hNR : (0 : ℝ) < N := by exact_mod_cast hN
  set p : Assign → ℝ := fun ρ => ∑ τ ∈ states bn, q τ * hits vars ρ τ with hp
  set R := queryStates bn vars with hR
  set D : Assign → List Assign → ℝ := fun ρ τs => (τs.map fun τ => hits vars ρ τ - p ρ).sum ^ 2 with hD
  have hzero : ∀ ρ, ∑ τ ∈ states bn, q τ * (hits vars ρ τ - p ρ) = 0 := fun ρ => by
    simp only [mul_sub, sum_sub_distrib, ← sum_mul, h1, one_mul, hp, sub_self]
  have hvar : ∀ ρ, iid (states bn) q N (D ρ) ≤ N * p ρ := fun ρ => by
    rw [hD]
    dsimp only
    rw [iid_square h1 (hzero ρ)]
    refine mul_le_mul_of_nonneg_left ?_ hNR.le
    have e : ∀ τ, q τ * (hits vars ρ τ - p ρ) ^ 2 =
        q τ * hits vars ρ τ - 2 * p ρ * (q τ * hits vars ρ τ) + p ρ ^ 2 * q τ := fun τ => by
      rw [sub_sq, hits_sq]; ring
    simp only [e, sum_add_distrib, sum_sub_distrib, ← mul_sum, h1]
    rw [show ∑ τ ∈ states bn, q τ * hits vars ρ τ = p ρ from rfl]
    nlinarith [sq_nonneg (p ρ)]
  have hsum : ∑ ρ ∈ R, p ρ ≤ 1 := by
    simp only [hp]
    rw [sum_comm]
    calc _ = ∑ τ ∈ states bn, q τ * ∑ ρ ∈ R, hits vars ρ τ := by simp only [mul_sum]
      _ ≤ ∑ τ ∈ states bn, q τ * 1 :=
        sum_le_sum fun τ hτ => mul_le_mul_of_nonneg_left (sum_hits_le vars τ) (h0 τ hτ)
      _ = 1 := by simp only [mul_one, h1]
  set c : ℝ := ((N * ε) ^ 2)⁻¹ with hcdef
  have hc0 : 0 ≤ c := by positivity
  have hmono : iid (states bn) q N (fun τs => 1 + (-c) * ∑ ρ ∈ R, D ρ τs) ≤
      iid (states bn) q N (nearFreq bn vars p ε N) := by
    refine iid_mono h0 N fun τs hlen => ?_
    have hsum0 : 0 ≤ ∑ ρ ∈ R, D ρ τs := sum_nonneg fun _ _ => sq_nonneg _
    unfold nearFreq
    split
    · nlinarith
    · next hbad =>
      push Not at hbad
      obtain ⟨ρ, hρ, hge⟩ := hbad
      obtain ⟨ρ', hmem, hρ'⟩ := queryStates_cover hρ
      have hle := single_le_sum (f := fun ρ => D ρ τs) (fun _ _ => sq_nonneg _) hmem
      have hpe : p ρ' = p ρ := sum_congr rfl fun τ _ => by rw [hits_congr hρ']
      have hcnt : (τs.countP fun τ => decide (∀ v ∈ vars, τ v = ρ' v)) =
          τs.countP fun τ => decide (∀ v ∈ vars, τ v = ρ v) := by
        refine List.countP_congr fun τ _ => ?_
        simp only [decide_eq_true_eq]
        exact forall₂_congr fun v hv => by rw [hρ' v hv]
      simp only [hD] at hle
      rw [sum_hits, hlen, hcnt, hpe] at hle
      set x : ℝ := ((τs.countP fun τ => decide (∀ v ∈ vars, τ v = ρ v) : ℕ) : ℝ) with hx
      have hx' : N * (x / N - p ρ) = x - N * p ρ := by field_simp
      have h2 : N * ε ≤ |x - N * p ρ| := by
        rw [← hx', abs_mul, abs_of_pos hNR]
        exact mul_le_mul_of_nonneg_left hge hNR.le
      have h3 : (N * ε) ^ 2 ≤ (x - N * p ρ) ^ 2 := by
        rw [← sq_abs (x - N * p ρ)]
        exact pow_le_pow_left₀ (by positivity) h2 2
      have h4 : 1 ≤ c * ∑ ρ ∈ R, D ρ τs := by
        calc (1 : ℝ) = c * (N * ε) ^ 2 := by rw [hcdef]; field_simp
          _ ≤ _ := mul_le_mul_of_nonneg_left (h3.trans hle) hc0
      linarith
  refine le_trans ?_ hmono
  rw [iid_add, iid_const h1, iid_mul, iid_sum]
  have h5 : ∑ ρ ∈ R, iid (states bn) q N (D ρ) ≤ N :=
    calc _ ≤ ∑ ρ ∈ R, N * p ρ := sum_le_sum fun ρ _ => hvar ρ
      _ = N * ∑ ρ ∈ R, p ρ := by rw [mul_sum]
      _ ≤ N * 1 := mul_le_mul_of_nonneg_left hsum hNR.le
      _ = N := mul_one _
  have h6 := mul_le_mul_of_nonneg_left h5 hc0
  have h7 : c * N = 1 / (N * ε ^ 2) := by rw [hcdef]; field_simp
  rw [h7] at h6
  linarith

/-- a table cannot be close to two distributions that are far apart -/
theorem iid_apart {q : Assign → ℝ} (h0 : ∀ τ ∈ states bn, 0 ≤ q τ) (h1 : ∑ τ ∈ states bn, q τ = 1)
    {vars : List Name} {p p' : Assign → ℝ} {ε : ℝ} {σ : Assign} (hσ : Legal bn.card vars σ)
    (hgap : 2 * ε ≤ |p σ - p' σ|) (N : Nat) :
    iid (states bn) q N (nearFreq bn vars p ε N) + iid (states bn) q N (nearFreq bn vars p' ε N) ≤ 1 := by
  classical
  rw [← iid_add]
  refine le_trans (iid_mono h0 N (K := fun _ => 1) fun τs _ => ?_) (le_of_eq (iid_const h1 N 1))
  unfold nearFreq
  split
  · split
    · next a b =>
      have := a σ hσ
      have := b σ hσ
      rw [abs_lt] at *
      rcases le_abs.1 hgap with h | h <;> linarith
    · norm_num
  · split <;> norm_num

/-! ## the distribution of the samples -/

theorem evLik_agree (hd : bn.Discrete) {ev : Dict Val} (he : LegalHard bn ev) {σ : Assign}
    (h : Agrees bn ev σ) : evLik bn (hardEvidence ev) σ = 1 := by
  refine List.prod_eq_one fun x hx => ?_
  obtain ⟨p, hp, rfl⟩ := List.mem_map.1 hx
  obtain ⟨q, hq, rfl⟩ := List.mem_map.1 hp
  exact lik_hard_agree (hd.lab_nodup _) (h q.1 q.2 (Dict.get?_of_mem he.nodup hq))

theorem evLik_disagree {ev : Dict Val} {σ : Assign} (h : ¬ Agrees bn ev σ) :
    evLik bn (hardEvidence ev) σ = 0 := by
  unfold Agrees at h
  push Not at h
  obtain ⟨v, x, h1, h2⟩ := h
  refine List.prod_eq_zero ?_
  refine List.mem_map.2 ⟨(v, .hard x), List.mem_map.2 ⟨(v, x), Dict.get?_mem h1, rfl⟩, ?_⟩
  unfold lik
  exact if_neg fun h => h2 h.1

/-- the tables of the unobserved variables -/
def freeWeight (bn : BN) (ev : Dict Val) (τ : Assign) : ℚ :=
  ((bn.filter fun n => n.name ∉ ev.keys).map fun n => n.entry τ).prod * evLik bn (hardEvidence ev) τ

theorem sampleLaw_eq (hc : bn.Consistent) (hl : bn.Linked) (ha : bn.Acyclic)
    (hd : bn.Discrete) (hnn : bn.NonNeg) (hs : bn.Stochastic) {ev : Dict Val}
    (he : LegalHard bn ev) {τ : Assign} (hτ : Legal bn.card bn.names τ) :
    sampleLaw bn ev τ = ((freeWeight bn ev τ : ℚ) : ℝ) := by
  obtain ⟨h1, h2⟩ := C44_forward_evidence hc hl ha hd hnn hs he hτ
  unfold sampleLaw freeWeight
  by_cases h : Agrees bn ev τ
  · rw [h1 h, evLik_agree hd he h, mul_one]
  · rw [evLik_disagree h, mul_zero, Rat.cast_zero]
    unfold Agrees at h
    push Not at h
    exact h2 h

theorem sum_pick_states {F : Assign → ℚ} {Q : List Name} (hF : DependsOn bn.names.toFinset F)
    (hQ : ∀ v ∈ Q, v ∈ bn.names) {ρ : Assign} (hρ : Legal bn.card Q ρ) :
    ∑ τ ∈ states bn, ((F τ : ℚ) : ℝ) * hits Q ρ τ =
      ((sumOver bn.card (bn.names.toFinset \ Q.toFinset) F ρ : ℚ) : ℝ) := by
  classical
  have hsub : Q.toFinset ⊆ bn.names.toFinset := fun v hv => by
    simpa using hQ v (by simpa using hv)
  have hdis : Disjoint Q.toFinset (bn.names.toFinset \ Q.toFinset) := disjoint_sdiff
  have hind : DependsOn Q.toFinset (fun τ : Assign => if ∀ v ∈ Q, τ v = ρ v then (1 : ℚ) else 0) := by
    intro σ τ h
    have : (∀ v ∈ Q, σ v = ρ v) ↔ ∀ v ∈ Q, τ v = ρ v :=
      forall₂_congr fun v hv => by rw [h v (by simpa using hv)]
    simp only [this]
  have e : ∀ τ, ((F τ : ℚ) : ℝ) * hits Q ρ τ =
      (((if ∀ v ∈ Q, τ v = ρ v then (1 : ℚ) else 0) * F τ : ℚ) : ℝ) := fun τ => by
    unfold hits
    split <;> simp
  simp only [e]
  rw [← Rat.cast_sum, sum_states]
  congr 1
  nth_rw 1 [← union_sdiff_of_subset hsub]
  rw [sumOver_union hdis]
  have h2 : sumOver bn.card (bn.names.toFinset \ Q.toFinset) (fun τ =>
      (if ∀ v ∈ Q, τ v = ρ v then (1 : ℚ) else 0) * F τ) = fun τ =>
      if ∀ v ∈ Q.toFinset, τ v = ρ v then
        sumOver bn.card (bn.names.toFinset \ Q.toFinset) F τ else 0 := by
    funext τ
    rw [sumOver_mul_left hind hdis]
    simp only [List.mem_toFinset]
    split <;> ring
  rw [h2, sumOver_pick fun v hv => hρ v (by simpa using hv)]
  refine hF.sumOver _ _ fun v hv => ?_
  rw [mem_sdiff, mem_sdiff, not_and, not_not] at hv
  rw [if_pos (hv.2 hv.1)]

theorem freeWeight_dependsOn (hc : bn.Consistent) {ev : Dict Val} (he : LegalHard bn ev) :
    DependsOn bn.names.toFinset (freeWeight bn ev) := by
  intro σ τ h
  unfold freeWeight evLik
  congr 2
  · refine List.map_congr_left fun n hn => entry_dependsOn n σ τ fun v hv => h v ?_
    have hn' := (List.mem_filter.1 hn).1
    simp only [List.toFinset_cons, mem_insert, List.mem_toFinset] at hv ⊢
    rcases hv with rfl | hv
    · exact List.mem_map_of_mem hn'
    · exact hc.parents_mem n hn' v hv
  · exact List.map_congr_left fun p hp => by rw [h p.1 (by simpa using he.legal.mem p hp)]

theorem forced_eq_prob (hc : bn.Consistent) (hl : bn.Linked) (ha : bn.Acyclic)
    (hd : bn.Discrete) (hnn : bn.NonNeg) (hs : bn.Stochastic) {ev : Dict Val}
    (he : LegalHard bn ev) {vars : List Name} (hvars : ∀ v ∈ vars, v ∈ bn.names) {σ : Assign}
    (hσ : Legal bn.card vars σ) :
    (bn.getSample ev).prob (ReturnsOn bn vars σ) = ((bn.forced ev vars σ : ℚ) : ℝ) := by
  rw [prob_returnsOn hc hl ha hd hnn hs he hvars]
  refine Eq.trans (sum_congr rfl fun τ hτ => ?_) (sum_pick_states (freeWeight_dependsOn hc he) hvars hσ)
  rw [sampleLaw_eq hc hl ha hd hnn hs he (mem_states.1 hτ).1]

theorem sampleLaw_nonneg (hc : bn.Consistent) (hl : bn.Linked) (ha : bn.Acyclic)
    (hd : bn.Discrete) (hnn : bn.NonNeg) (hs : bn.Stochastic) {ev : Dict Val}
    (he : LegalHard bn ev) : ∀ τ ∈ states bn, 0 ≤ sampleLaw bn ev τ :=
  fun _ hτ => prob_getSample_nonneg hc hl ha hd hnn hs he (mem_states.1 hτ).1

theorem sum_freeWeight (hc : bn.Consistent) (hl : bn.Linked) (ha : bn.Acyclic)
    (hd : bn.Discrete) (hnn : bn.NonNeg) (hs : bn.Stochastic) {ev : Dict Val}
    (he : LegalHard bn ev) (σ : Assign) : sumOver bn.card bn.names.toFinset (freeWeight bn ev) σ = 1 := by
  have h1 := sum_prob_getSample hc hl ha hd hnn hs he
  have h2 : ∑ τ ∈ states bn, ((freeWeight bn ev τ : ℚ) : ℝ) = 1 :=
    (sum_congr rfl fun τ hτ => (sampleLaw_eq hc hl ha hd hnn hs he (mem_states.1 hτ).1).symm).trans h1
  rw [← Rat.cast_sum, sum_states] at h2
  rw [(freeWeight_dependsOn hc he).sumOver σ (fun _ => 0) (by simp)]
  exact_mod_cast h2

theorem weight_free (bn : BN) (ev : Dict Val) (τ : Assign) : weight bn (hardEvidence ev) τ =
    ((bn.filter fun n => n.name ∈ ev.keys).map fun n => n.entry τ).prod * freeWeight bn ev τ := by
  have h : ∀ l : List NodeV, ((l.filter fun n => n.name ∈ ev.keys).map fun n => n.entry τ).prod *
      ((l.filter fun n => n.name ∉ ev.keys).map fun n => n.entry τ).prod = (l.map fun n => n.entry τ).prod := by
    intro l
    induction l with
    | nil => simp
    | cons n l ih =>
      rw [List.map_cons, List.prod_cons, ← ih]
      by_cases h : n.name ∈ ev.keys
      · simp [h, mul_assoc]
      · simp [h, mul_left_comm]
  unfold weight freeWeight evLik
  rw [← mul_assoc, h]

/-- if with a variable its parents are observed, the samples are distributed as the posterior -/
theorem posterior_forced (hc : bn.Consistent) (hl : bn.Linked) (ha : bn.Acyclic)
    (hd : bn.Discrete) (hnn : bn.NonNeg) (hs : bn.Stochastic) {ev : Dict Val}
    (he : LegalHard bn ev) (hup : bn.Upward ev)
    (hpos : 0 < totalWeight bn (hardEvidence ev) fun _ => 0) (vars : List Name) (σ : Assign) :
    posterior bn (hardEvidence ev) vars σ = bn.forced ev vars σ := by
  classical
  obtain ⟨c, hw⟩ : ∃ c, ∀ τ, weight bn (hardEvidence ev) τ = c * freeWeight bn ev τ := by
    by_cases hex : ∃ τ₀, Agrees bn ev τ₀
    · obtain ⟨τ₀, h₀⟩ := hex
      refine ⟨((bn.filter fun n => n.name ∈ ev.keys).map fun n => n.entry τ₀).prod, fun τ => ?_⟩
      rw [weight_free]
      by_cases h : Agrees bn ev τ
      · congr 2
        have hk : ∀ v ∈ ev.keys, τ v = τ₀ v := fun v hv => by
          obtain ⟨x, hx⟩ := Dict.get?_isSome.2 hv
          have h1 := h v x hx
          exact (List.getElem?_inj (List.getElem?_eq_some_iff.1 h1).1 (hd.lab_nodup v)).1
            (h1.trans (h₀ v x hx).symm)
        refine List.map_congr_left fun n hn => entry_dependsOn n τ τ₀ fun v hv => hk v ?_
        obtain ⟨h1, h2⟩ := List.mem_filter.1 hn
        rw [decide_eq_true_eq] at h2
        simp only [List.toFinset_cons, mem_insert, List.mem_toFinset] at hv
        rcases hv with rfl | hv
        · exact h2
        · exact hup n h1 h2 v hv
      · unfold freeWeight
        rw [evLik_disagree h]
        simp
    · refine ⟨0, fun τ => ?_⟩
      rw [weight_disagree fun h => hex ⟨τ, h⟩, zero_mul]
  have hwf : weight bn (hardEvidence ev) = fun τ => c * freeWeight bn ev τ := funext hw
  have hT : ∀ σ, totalWeight bn (hardEvidence ev) σ = c := fun σ => by
    unfold totalWeight
    rw [hwf, sumOver_const_mul, sum_freeWeight hc hl ha hd hnn hs he, mul_one]
  rw [hT] at hpos
  unfold posterior
  simp only [hT, if_pos hpos]
  rw [hwf, sumOver_const_mul, mul_div_cancel_left₀ _ hpos.ne']
  rfl

end Primo
