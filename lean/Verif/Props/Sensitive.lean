import Verif.Lemmas.Sensitive
import Verif.Props.Fit
import Verif.Examples.Sensitive

/-! # Property theorems: answers change little if tables and evidence change little (C78) -/

namespace Primo
open Finset
variable {bn bn' : BN}

section
variable {ev ev' : Dict Evidence} {lo hi lo' hi' : Name → ℚ} {Q : List Name} {r r' : Factor}

/-- the two answers, up to normalisation -/
theorem ExactAnswer.close (hc : bn.Consistent) (hc' : bn'.Consistent) (hn : bn.NonNeg) (hn' : bn'.NonNeg)
    (he : LegalEvidence bn ev) (hen : NonNegEvidence ev) (he' : LegalEvidence bn' ev')
    (hen' : NonNegEvidence ev') (ht : TablesWithin bn bn' lo hi) (hev : EvidenceWithin bn bn' ev ev' lo' hi')
    (hQ : ∀ v ∈ Q, v ∈ bn.names) (hr : ExactAnswer bn ev Q r) (hr' : ExactAnswer bn' ev' Q r') :
    ∃ A B, 0 < A ∧ B / A = slack bn.names lo hi * slack bn.names lo' hi' ∧
    ((∀ σ, Legal bn.card Q σ → r.eval σ = 0 ∧ r'.eval σ = 0) ∨
    ((∀ σ₀, sumOver bn.card Q.toFinset r.eval σ₀ = 1 ∧ sumOver bn.card Q.toFinset r'.eval σ₀ = 1) ∧
    ∃ Z Z' : ℚ, 0 < Z ∧ 0 < Z' ∧ A * Z ≤ Z' ∧ Z' ≤ B * Z ∧ ∀ σ, Legal bn.card Q σ →
      0 ≤ r.eval σ ∧ 0 ≤ r'.eval σ ∧
      A * (Z * r.eval σ) ≤ Z' * r'.eval σ ∧ Z' * r'.eval σ ≤ B * (Z * r.eval σ))) := by
  obtain ⟨A, B, h, hK⟩ := ht.weights hc hc' hn he hen he' hev
  have hQ' : ∀ v ∈ Q, v ∈ bn'.names := fun v hv => by
    have := hQ v hv
    rwa [← List.mem_toFinset, ← h.names, List.mem_toFinset]
  have hl' : ∀ σ, Legal bn.card Q σ → Legal bn'.card Q σ := fun σ hσ v hv => by
    rw [h.card v (hQ v hv)]; exact hσ v hv
  obtain ⟨-, a2⟩ := hr.spec hc hn he hen hQ
  obtain ⟨-, b2⟩ := hr'.spec hc' hn' he' hen' hQ'
  refine ⟨A, B, h.pos, hK, ?_⟩
  rcases h.fractions hc hc' hn hn' he hen he' hen' hQ with g | ⟨Z, Z', z1, z2, z3, z4, z5, z6, g⟩
  · exact .inl fun σ hσ => by rw [a2 σ hσ, b2 σ (hl' σ hσ)]; exact g σ hσ
  · refine .inr ⟨fun σ₀ => ⟨?_, ?_⟩, Z, Z', z1, z2, z3, z4, fun σ hσ => ?_⟩
    · rw [sumOver_congr fun τ hτ => a2 τ fun v hv => hτ.2 v (by simpa using hv)]
      exact posterior_sum hc he hQ (by rw [totalWeight_const hc he σ₀ fun _ => 0, z5]; exact z1)
    · rw [← sumOver_card_eq (card := bn'.card) (card' := bn.card) fun v hv => h.card v (hQ v (by simpa using hv))]
      rw [sumOver_congr fun τ hτ => b2 τ fun v hv => hτ.2 v (by simpa using hv)]
      exact posterior_sum hc' he' hQ' (by rw [totalWeight_const hc' he' σ₀ fun _ => 0, z6]; exact z2)
    · rw [a2 σ hσ, b2 σ (hl' σ hσ)]
      exact ⟨posterior_nonneg hn hen Q σ, posterior_nonneg hn' hen' Q σ, g σ hσ⟩

/-- **C78** The odds of two outcomes change by at most the product of the ratios. -/
theorem C78_odds (hc : bn.Consistent) (hc' : bn'.Consistent) (hn : bn.NonNeg) (hn' : bn'.NonNeg)
    (he : LegalEvidence bn ev) (hen : NonNegEvidence ev) (he' : LegalEvidence bn' ev')
    (hen' : NonNegEvidence ev') (ht : TablesWithin bn bn' lo hi) (hev : EvidenceWithin bn bn' ev ev' lo' hi')
    (hQ : ∀ v ∈ Q, v ∈ bn.names) (hr : ExactAnswer bn ev Q r) (hr' : ExactAnswer bn' ev' Q r')
    {σ τ : Assign} (hσ : Legal bn.card Q σ) (hτ : Legal bn.card Q τ) :
    r'.eval σ * r.eval τ ≤
      slack bn.names lo hi * slack bn.names lo' hi' * (r.eval σ * r'.eval τ) := by
  obtain ⟨A, B, hA, hK, h⟩ := ExactAnswer.close hc hc' hn hn' he hen he' hen' ht hev hQ hr hr'
  rw [← hK]
  rcases h with h | ⟨-, Z, Z', hZ, hZ', -, -, h⟩
  · rw [(h σ hσ).1, (h σ hσ).2]; simp
  · obtain ⟨a1, a2, -, a4⟩ := h σ hσ
    obtain ⟨b1, b2, b3, -⟩ := h τ hτ
    have h1 := mul_le_mul a4 b3 (by positivity) ((mul_nonneg hZ'.le a2).trans a4)
    rw [div_mul_eq_mul_div, le_div_iff₀ hA]
    have : (Z * Z') * (r'.eval σ * r.eval τ * A) ≤ (Z * Z') * (B * (r.eval σ * r'.eval τ)) := by
      calc _ = (Z' * r'.eval σ) * (A * (Z * r.eval τ)) := by ring
        _ ≤ _ := h1
        _ = _ := by ring
    exact le_of_mul_le_mul_left this (mul_pos hZ hZ')

/-- **C78** Every probability changes by at most that factor, in both directions. -/
theorem C78_factor (hc : bn.Consistent) (hc' : bn'.Consistent) (hn : bn.NonNeg) (hn' : bn'.NonNeg)
    (he : LegalEvidence bn ev) (hen : NonNegEvidence ev) (he' : LegalEvidence bn' ev')
    (hen' : NonNegEvidence ev') (ht : TablesWithin bn bn' lo hi) (hev : EvidenceWithin bn bn' ev ev' lo' hi')
    (hQ : ∀ v ∈ Q, v ∈ bn.names) (hr : ExactAnswer bn ev Q r) (hr' : ExactAnswer bn' ev' Q r')
    {σ : Assign} (hσ : Legal bn.card Q σ) :
    r'.eval σ ≤ slack bn.names lo hi * slack bn.names lo' hi' * r.eval σ ∧
    r.eval σ ≤ slack bn.names lo hi * slack bn.names lo' hi' * r'.eval σ := by
  obtain ⟨A, B, hA, hK, h⟩ := ExactAnswer.close hc hc' hn hn' he hen he' hen' ht hev hQ hr hr'
  rw [← hK]
  rcases h with h | ⟨-, Z, Z', hZ, hZ', z1, z2, h⟩
  · rw [(h σ hσ).1, (h σ hσ).2]; simp
  · obtain ⟨a1, a2, a3, a4⟩ := h σ hσ
    constructor
    · rw [div_mul_eq_mul_div, le_div_iff₀ hA]
      have : Z * (r'.eval σ * A) ≤ Z * (B * r.eval σ) := by
        calc _ = (A * Z) * r'.eval σ := by ring
          _ ≤ Z' * r'.eval σ := mul_le_mul_of_nonneg_right z1 a2
          _ ≤ _ := a4
          _ = _ := by ring
      exact le_of_mul_le_mul_left this hZ
    · rw [div_mul_eq_mul_div, le_div_iff₀ hA]
      have : Z * (r.eval σ * A) ≤ Z * (B * r'.eval σ) := by
        calc _ = A * (Z * r.eval σ) := by ring
          _ ≤ Z' * r'.eval σ := a3
          _ ≤ (B * Z) * r'.eval σ := mul_le_mul_of_nonneg_right z2 a2
          _ = _ := by ring
      exact le_of_mul_le_mul_left this hZ

/-- **C78** and the difference of the two probabilities is at most `(s - 1) / (s + 1)` if the product of the
ratios is at most the square of `s`. -/
theorem C78_distance (hc : bn.Consistent) (hc' : bn'.Consistent) (hn : bn.NonNeg) (hn' : bn'.NonNeg)
    (he : LegalEvidence bn ev) (hen : NonNegEvidence ev) (he' : LegalEvidence bn' ev')
    (hen' : NonNegEvidence ev') (ht : TablesWithin bn bn' lo hi) (hev : EvidenceWithin bn bn' ev ev' lo' hi')
    (hQ : ∀ v ∈ Q, v ∈ bn.names) (hr : ExactAnswer bn ev Q r) (hr' : ExactAnswer bn' ev' Q r')
    {s : ℚ} (hs1 : 1 ≤ s) (hs : slack bn.names lo hi * slack bn.names lo' hi' ≤ s * s)
    {σ : Assign} (hσ : Legal bn.card Q σ) :
    |r'.eval σ - r.eval σ| ≤ (s - 1) / (s + 1) := by
  have hodds := fun {σ τ} (hσ : Legal bn.card Q σ) (hτ : Legal bn.card Q τ) =>
    C78_odds hc hc' hn hn' he hen he' hen' ht hev hQ hr hr' hσ hτ
  obtain ⟨A, B, hA, hK, h⟩ := ExactAnswer.close hc hc' hn hn' he hen he' hen' ht hev hQ hr hr'
  have hs0 : 0 ≤ (s - 1) / (s + 1) := div_nonneg (by linarith) (by linarith)
  rcases h with h | ⟨hsum, Z, Z', hZ, hZ', -, -, h⟩
  · rw [(h σ hσ).1, (h σ hσ).2]; simpa using hs0
  have hl : ∀ τ, Varies bn.card Q.toFinset σ τ → Legal bn.card Q τ := fun τ hτ v hv => hτ.2 v (by simpa using hv)
  have hσσ : Varies bn.card Q.toFinset σ σ := ⟨fun _ _ => rfl, fun v hv => hσ v (by simpa using hv)⟩
  obtain ⟨p0, p0', -⟩ := h σ hσ
  have hodds' : ∀ {ρ τ}, Legal bn.card Q ρ → Legal bn.card Q τ →
      r'.eval ρ * r.eval τ ≤ s * s * (r.eval ρ * r'.eval τ) := fun hρ hτ => (hodds hρ hτ).trans
    (mul_le_mul_of_nonneg_right hs (mul_nonneg (h _ hρ).1 (h _ hτ).2.1))
  obtain ⟨s1, s2⟩ := hsum σ
  have k1 := le_sumOver (card := bn.card) (s := Q.toFinset)
    (F := fun τ => s * s * r.eval σ * r'.eval τ - r'.eval σ * r.eval τ)
    (fun τ hτ => by have := hodds' hσ (hl τ hτ); linarith) hσσ
  have k2 := le_sumOver (card := bn.card) (s := Q.toFinset)
    (F := fun τ => s * s * r'.eval σ * r.eval τ - r.eval σ * r'.eval τ)
    (fun τ hτ => by have := hodds' (hl τ hτ) hσ; linarith) hσσ
  rw [sumOver_sub, sumOver_const_mul, sumOver_const_mul, s1, s2] at k1 k2
  generalize r.eval σ = p at *
  generalize r'.eval σ = p' at *
  rw [abs_le]
  exact ⟨by have := odds_distance hs1 p0' k2; linarith, odds_distance hs1 p0 k1⟩

/-- **C78** In particular a probability is zero for one if and only if it is for the other. -/
theorem C78_support (hc : bn.Consistent) (hc' : bn'.Consistent) (hn : bn.NonNeg) (hn' : bn'.NonNeg)
    (he : LegalEvidence bn ev) (hen : NonNegEvidence ev) (he' : LegalEvidence bn' ev')
    (hen' : NonNegEvidence ev') (ht : TablesWithin bn bn' lo hi) (hev : EvidenceWithin bn bn' ev ev' lo' hi')
    (hQ : ∀ v ∈ Q, v ∈ bn.names) (hr : ExactAnswer bn ev Q r) (hr' : ExactAnswer bn' ev' Q r')
    {σ : Assign} (hσ : Legal bn.card Q σ) : r.eval σ = 0 ↔ r'.eval σ = 0 := by
  obtain ⟨h1, h2⟩ := C78_factor hc hc' hn hn' he hen he' hen' ht hev hQ hr hr' hσ
  obtain ⟨A, B, hA, hK, h⟩ := ExactAnswer.close hc hc' hn hn' he hen he' hen' ht hev hQ hr hr'
  rcases h with h | ⟨-, Z, Z', hZ, hZ', -, -, h⟩
  · simp [h σ hσ]
  · obtain ⟨p0, p0', -⟩ := h σ hσ
    constructor
    · intro e; rw [e, mul_zero] at h1; exact le_antisymm h1 p0'
    · intro e; rw [e, mul_zero] at h2; exact le_antisymm h2 p0

/-- **C78** If only the table of `v` is changed, by factors between `l` and `h`, odds change by at most `h / l`. -/
theorem C78_one_table (hc : bn.Consistent) (hc' : bn'.Consistent) (hn : bn.NonNeg) (hn' : bn'.NonNeg)
    (he : LegalEvidence bn ev) (hen : NonNegEvidence ev) (hb : bn'.bare = bn.bare) {v : Name} (hv : v ∈ bn.names)
    {l h : ℚ} (hl : 0 < l) (hlh : l ≤ h)
    (hother : ∀ n ∈ bn, ∀ n' ∈ bn', n.name = n'.name → n.name ≠ v → n'.cpd = n.cpd)
    (hself : ∀ n ∈ bn, ∀ n' ∈ bn', n.name = v → n'.name = v → ∀ σ, Legal bn.card bn.names σ →
      l * n.entry σ ≤ n'.entry σ ∧ n'.entry σ ≤ h * n.entry σ)
    (hQ : ∀ v ∈ Q, v ∈ bn.names) (hr : ExactAnswer bn ev Q r) (hr' : ExactAnswer bn' ev Q r')
    {σ τ : Assign} (hσ : Legal bn.card Q σ) (hτ : Legal bn.card Q τ) :
    r'.eval σ * r.eval τ ≤ h / l * (r.eval σ * r'.eval τ) := by
  have he' : LegalEvidence bn' ev :=
    ⟨he.nodup, fun p hp => by rw [BN.names_of_bare hb]; exact he.mem p hp,
      fun v x hx => by rw [BN.lab_of_bare hb]; exact he.hard v x hx,
      fun v l hl => by rw [BN.card_of_bare hb]; exact he.soft v l hl⟩
  have ht : TablesWithin bn bn' (Function.update (fun _ => 1) v l) (Function.update (fun _ => 1) v h) := by
    refine ⟨by rw [BN.names_of_bare hb], fun u _ => by rw [BN.lab_of_bare hb], fun u _ => ?_, ?_⟩
    · by_cases huv : u = v
      · subst huv; simpa using ⟨hl, hlh⟩
      · simp [huv]
    · intro n hnm n' hnm' e ρ hρ
      by_cases hnv : n.name = v
      · have := hself n hnm n' hnm' hnv (e ▸ hnv) ρ hρ
        simpa [hnv] using this
      · have : n'.entry ρ = n.entry ρ := by
          have hpo : n'.parentOrder = n.parentOrder := by
            obtain ⟨m, hm, e1, -, -, e4, -⟩ := BN.mem_bare hb hnm'
            have f1 := BN.lab_of_mem hc.nodup hm
            rw [e1, ← e, BN.lab_of_mem hc.nodup hnm] at f1
            cases f1
            exact e4.symm
          unfold NodeV.entry
          rw [hother n hnm n' hnm' e hnv, hpo, e]
        simp [hnv, this]
  have hev : EvidenceWithin bn bn' ev ev (fun _ => 1) (fun _ => 1) := fun u _ =>
    ⟨one_pos, le_rfl, fun i _ => by rw [likAt_of_bare hb]; simp⟩
  have := C78_odds hc hc' hn hn' he hen he' hen ht hev hQ hr hr' hσ hτ
  rwa [slack_one, slack_update hc.nodup hv, mul_one] at this

end

/-! ### the bounds are sharp -/

theorem tilt_network (hc : bn.Consistent) (h2 : ∀ v ∈ bn.names, 2 ≤ bn.card v) {t : Name → ℚ}
    (ht : ∀ v ∈ bn.names, 0 < t v) : (bn.indep (tilt bn t)).bare = bn.bare ∧ (bn.indep (tilt bn t)).Consistent ∧
      (bn.indep (tilt bn t)).Positive ∧ (bn.indep (tilt bn t)).Stochastic :=
  ⟨BN.retable_bare bn _, BN.retable_consistent hc,
    BN.retable_positive fun v hv _ => tilt_pos (ht v hv) (h2 v hv) _,
    indep_stochastic hc fun v hv => tilt_sum (ht v hv) (h2 v hv)⟩

/-- **C78** For every graph and all factors there are normalised tables for which the bound for the odds holds
with equality. -/
theorem C78_odds_sharp (hc : bn.Consistent) (h2 : ∀ v ∈ bn.names, 2 ≤ bn.card v) {s : Name → ℚ}
    (hs : ∀ v ∈ bn.names, 1 ≤ s v) :
    ∃ bn₁ bn₂ : BN, bn₁.bare = bn.bare ∧ bn₂.bare = bn.bare ∧ bn₁.Consistent ∧ bn₂.Consistent ∧
      bn₁.Positive ∧ bn₂.Positive ∧ bn₁.Stochastic ∧ bn₂.Stochastic ∧
      TablesWithin bn₁ bn₂ (fun v => 1 / s v) s ∧
      ∃ r r' σ τ, ExactAnswer bn₁ [] bn.names r ∧ ExactAnswer bn₂ [] bn.names r' ∧
        Legal bn.card bn.names σ ∧ Legal bn.card bn.names τ ∧ 0 < r.eval σ * r'.eval τ ∧
        r'.eval σ * r.eval τ = slack bn.names (fun v => 1 / s v) s * (r.eval σ * r'.eval τ) := by
  have hs0 : ∀ v ∈ bn.names, 0 < s v := fun v hv => lt_of_lt_of_le one_pos (hs v hv)
  have hs0' : ∀ v ∈ bn.names, 0 < 1 / s v := fun v hv => one_div_pos.2 (hs0 v hv)
  obtain ⟨a1, a2, a3, a4⟩ := tilt_network hc h2 hs0'
  obtain ⟨b1, b2, b3, b4⟩ := tilt_network hc h2 hs0
  have hw := tilt_within hc h2 hs
  refine ⟨_, _, a1, b1, a2, b2, a3, b3, a4, b4, hw, ?_⟩
  -- the query about everything returns the weights, up to normalisation
  have hall : ∀ {t : Name → ℚ}, (∀ v ∈ bn.names, 0 < t v) → ∃ r, ExactAnswer (bn.indep (tilt bn t)) [] bn.names r ∧
      ∃ k : ℚ, 0 < k ∧ ∀ σ, Legal bn.card bn.names σ →
        r.eval σ = k * (bn.names.map fun v => tilt bn t v (σ v)).prod := by
    intro t ht
    obtain ⟨c1, c2, c3, c4⟩ := tilt_network hc h2 ht
    have hnn : (bn.indep (tilt bn t)).NonNeg := fun n hn x hx => (c3 n hn x hx).le
    have hnen : NonNegEvidence [] := by simp [NonNegEvidence]
    have hQ : ∀ v ∈ bn.names, v ∈ (bn.indep (tilt bn t)).names := by simp [BN.names_of_bare c1]
    obtain ⟨r, hr⟩ := ExactAnswer.exists c2 legal_nil hQ
    obtain ⟨-, h4⟩ := hr.spec c2 hnn legal_nil hnen hQ
    have hZ : 0 < totalWeight (bn.indep (tilt bn t)) [] fun _ => 0 := by
      have hv : Varies bn.card bn.names.toFinset (fun _ => 0) fun _ => 0 :=
        ⟨fun _ _ => rfl, fun v hv => lt_of_lt_of_le (by norm_num) (h2 v (by simpa using hv))⟩
      unfold totalWeight
      rw [BN.names_of_bare c1, BN.card_of_bare c1]
      refine lt_of_lt_of_le ?_ (le_sumOver (fun τ _ => weight_nonneg hnn hnen τ) hv)
      rw [indep_weight hc fun v hv' => hv.2 v (by simpa using hv')]
      refine List.prod_pos fun x hx => ?_
      obtain ⟨v, hv, rfl⟩ := List.mem_map.1 hx
      exact tilt_pos (ht v hv) (h2 v hv) _
    refine ⟨r, hr, 1 / _, one_div_pos.2 hZ, fun σ hσ => ?_⟩
    rw [h4 σ (by rwa [BN.card_of_bare c1])]
    unfold posterior
    simp only
    rw [totalWeight_const c2 legal_nil σ fun _ => 0, if_pos hZ, BN.names_of_bare c1, sdiff_self,
      bot_eq_empty, sumOver_empty, indep_weight hc hσ]
    ring
  obtain ⟨r, hr, k, hk, e⟩ := hall hs0'
  obtain ⟨r', hr', k', hk', e'⟩ := hall hs0
  have l0 : Legal bn.card bn.names fun _ => 0 := fun v hv => lt_of_lt_of_le (by norm_num) (h2 v hv)
  have l1 : Legal bn.card bn.names fun _ => 1 := fun v hv => lt_of_lt_of_le (by norm_num) (h2 v hv)
  refine ⟨r, r', fun _ => 0, fun _ => 1, hr, hr', l0, l1, ?_, ?_⟩
  · rw [e _ l0, e' _ l1]
    refine mul_pos (mul_pos hk (List.prod_pos fun x hx => ?_)) (mul_pos hk' (List.prod_pos fun x hx => ?_))
    · obtain ⟨v, hv, rfl⟩ := List.mem_map.1 hx
      exact tilt_pos (hs0' v hv) (h2 v hv) _
    · obtain ⟨v, hv, rfl⟩ := List.mem_map.1 hx
      exact tilt_pos (hs0 v hv) (h2 v hv) _
  · rw [e _ l0, e' _ l1, e _ l1, e' _ l0]
    have : (bn.names.map fun v => tilt bn s v 0).prod * (bn.names.map fun v => tilt bn (fun v => 1 / s v) v 1).prod =
        slack bn.names (fun v => 1 / s v) s *
          ((bn.names.map fun v => tilt bn (fun v => 1 / s v) v 0).prod *
            (bn.names.map fun v => tilt bn s v 1).prod) := by
      unfold slack
      rw [← List.prod_map_mul, ← List.prod_map_mul, ← List.prod_map_mul]
      congr 1
      refine List.map_congr_left fun v hv => ?_
      have hc2 : (2 : ℚ) ≤ bn.card v := by exact_mod_cast h2 v hv
      have hc1 : (bn.card v : ℚ) - 1 ≠ 0 := by linarith
      have h0 := hs0 v hv
      have h1 : s v + 1 ≠ 0 := by linarith
      have h3 : (1 : ℚ) + s v ≠ 0 := by linarith
      simp only [tilt, if_true, one_ne_zero, if_false]
      field_simp
      try ring
    calc _ = k * k' * ((bn.names.map fun v => tilt bn s v 0).prod *
          (bn.names.map fun v => tilt bn (fun v => 1 / s v) v 1).prod) := by ring
      _ = _ := by rw [this]; ring

/-- **C78** For every graph and every variable of it there are normalised tables that differ in that variable's
table only and for which the bound for the difference holds with equality. -/
theorem C78_distance_sharp (hc : bn.Consistent) (h2 : ∀ v ∈ bn.names, 2 ≤ bn.card v) {v : Name}
    (hv : v ∈ bn.names) {s : ℚ} (hs : 1 ≤ s) :
    ∃ bn₁ bn₂ : BN, bn₁.bare = bn.bare ∧ bn₂.bare = bn.bare ∧ bn₁.Consistent ∧ bn₂.Consistent ∧
      bn₁.Positive ∧ bn₂.Positive ∧ bn₁.Stochastic ∧ bn₂.Stochastic ∧
      TablesWithin bn₁ bn₂ (Function.update (fun _ => 1) v (1 / s)) (Function.update (fun _ => 1) v s) ∧
      slack bn.names (Function.update (fun _ => 1) v (1 / s)) (Function.update (fun _ => 1) v s) = s * s ∧
      ∃ r r', ExactAnswer bn₁ [] [v] r ∧ ExactAnswer bn₂ [] [v] r' ∧
        r'.eval (fun _ => 0) - r.eval (fun _ => 0) = (s - 1) / (s + 1) := by
  have h0 : 0 < s := lt_of_lt_of_le one_pos hs
  have hup : ∀ u, 1 ≤ Function.update (fun _ => (1 : ℚ)) v s u := fun u => by
    by_cases h : u = v
    · subst h; simpa using hs
    · simp [h]
  have hinv : (fun u => 1 / Function.update (fun _ => (1 : ℚ)) v s u) = Function.update (fun _ => 1) v (1 / s) := by
    funext u
    by_cases h : u = v
    · subst h; simp
    · simp [h]
  have hw := tilt_within hc h2 (s := Function.update (fun _ => 1) v s) fun u _ => hup u
  rw [hinv] at hw
  have p2 : ∀ u ∈ bn.names, 0 < Function.update (fun _ => (1 : ℚ)) v s u := fun u _ =>
    lt_of_lt_of_le one_pos (hup u)
  have p1 : ∀ u ∈ bn.names, 0 < Function.update (fun _ => (1 : ℚ)) v (1 / s) u := fun u hu => by
    rw [← hinv]; exact one_div_pos.2 (p2 u hu)
  obtain ⟨a1, a2, a3, a4⟩ := tilt_network hc h2 p1
  obtain ⟨b1, b2, b3, b4⟩ := tilt_network hc h2 p2
  refine ⟨_, _, a1, b1, a2, b2, a3, b3, a4, b4, hw, ?_, ?_⟩
  · rw [slack_update hc.nodup hv, div_div_eq_mul_div, div_one]
  have hone : ∀ {t : Name → ℚ}, (∀ v ∈ bn.names, 0 < t v) → ∃ r, ExactAnswer (bn.indep (tilt bn t)) [] [v] r ∧
      r.eval (fun _ => 0) = tilt bn t v 0 := by
    intro t ht
    obtain ⟨c1, c2, c3, c4⟩ := tilt_network hc h2 ht
    have hnn : (bn.indep (tilt bn t)).NonNeg := fun n hn x hx => (c3 n hn x hx).le
    have hQ : ∀ u ∈ [v], u ∈ (bn.indep (tilt bn t)).names := by simpa [BN.names_of_bare c1] using hv
    have h00 : 0 < bn.card v := lt_of_lt_of_le (by norm_num) (h2 v hv)
    obtain ⟨r, hr⟩ := ExactAnswer.exists c2 legal_nil hQ
    refine ⟨r, hr, ?_⟩
    rw [(hr.spec c2 hnn legal_nil (by simp [NonNegEvidence]) hQ).2 _ (by
      simpa [Legal, BN.card_of_bare c1] using h00)]
    exact indep_posterior hc (fun u hu i _ => tilt_pos (ht u hu) (h2 u hu) i)
      (fun u hu => lt_of_lt_of_le (by norm_num) (h2 u hu)) (fun u hu => tilt_sum (ht u hu) (h2 u hu)) hv h00
  obtain ⟨r, hr, e⟩ := hone p1
  obtain ⟨r', hr', e'⟩ := hone p2
  refine ⟨r, r', hr, hr', ?_⟩
  rw [e, e']
  simp only [tilt, if_true, Function.update_self]
  have : s + 1 ≠ 0 := by linarith
  have : 1 + s ≠ 0 := by linarith
  field_simp
  ring


/-- **C78** Closeness in terms of differences does not suffice.  However close `ε` is to zero, there are positive
normalised tables whose entries differ by at most `ε`, for which the probability of the same outcome given the
same evidence is as close to zero as one likes in one case and as close to one in the other. -/
theorem C78_additive_refuted (ε δ : ℚ) (h0 : 0 < ε) (h1 : ε < 1) (d0 : 0 < δ) (d1 : δ < 1) :
    ∃ bn₁ bn₂ : BN, bn₁.bare = bn₂.bare ∧ bn₁.Consistent ∧ bn₂.Consistent ∧ bn₁.Positive ∧ bn₂.Positive ∧
      bn₁.Stochastic ∧ bn₂.Stochastic ∧
      (∀ n ∈ bn₁, ∀ n' ∈ bn₂, n.name = n'.name → ∀ i, |n'.cpd.data.getD i 0 - n.cpd.data.getD i 0| ≤ ε) ∧
      ∃ ev, LegalEvidence bn₁ ev ∧ NonNegEvidence ev ∧ ∃ v ∈ bn₁.names,
        ∀ r r', ExactAnswer bn₁ ev [v] r → ExactAnswer bn₂ ev [v] r' →
          r.eval (fun _ => 0) = 1 - δ ∧ r'.eval (fun _ => 0) = δ := by
  have a0 : 0 < ε * (1 - δ) := mul_pos h0 (by linarith)
  have a1 : ε * (1 - δ) < 1 := by nlinarith
  have b0 : 0 < ε * δ := mul_pos h0 d0
  have b1 : ε * δ < 1 := by nlinarith
  refine ⟨Ex.rare (ε * (1 - δ)) (ε * δ), Ex.rare (ε * δ) (ε * (1 - δ)), rfl, Ex.rare_consistent _ _,
    Ex.rare_consistent _ _, Ex.rare_positive a0 a1 b0 b1, Ex.rare_positive b0 b1 a0 a1, Ex.rare_stochastic _ _,
    Ex.rare_stochastic _ _, ?_, [("b", .hard "t")], Ex.rare_ev _ _, by simp [NonNegEvidence], "a",
    by simp [Ex.rare, BN.names, Ex.ka], fun r r' hr hr' => ?_⟩
  · have key : |ε * δ - ε * (1 - δ)| ≤ ε := by
      rw [abs_le]; constructor <;> nlinarith
    intro n hn n' hn' e i
    simp only [Ex.rare, List.mem_cons, List.not_mem_nil, or_false] at hn hn'
    rcases hn with rfl | rfl <;> rcases hn' with rfl | rfl
    · simp [h0.le]
    · exact absurd e (by simp [Ex.ka])
    · exact absurd e (by simp [Ex.ka])
    · rcases i with _ | _ | _ | _ | i
      · simpa using key
      · rw [abs_sub_comm] at key; simpa using key
      · rw [abs_sub_comm] at key; simpa using key
      · simpa using key
      · simp [h0.le]
  · rw [Ex.rare_answer a0 a1 b0 b1 hr, Ex.rare_answer b0 b1 a0 a1 hr']
    have : ε * (1 - δ) + ε * δ = ε := by ring
    rw [add_comm (ε * δ), this]
    have := h0.ne'
    constructor <;> field_simp

/-- a network without the edge from `a` to `b`: its table of `b` is within factors of one that depends on `a` -/
def Ex.cut : BN := [⟨"b", .discrete, ["t", "f"], [], [], [], ⟨[2], [1 / 2, 1 / 2], rfl⟩, false⟩,
  ⟨"a", .discrete, ["t", "f"], [], [], [], ⟨[2], [1 / 2, 1 / 2], rfl⟩, false⟩]

theorem Ex.cut_within : TablesWithin (Ex.rare (1 / 4) (1 / 2)) Ex.cut (fun v => if v = "b" then 2 / 3 else 1)
    (fun v => if v = "b" then 2 else 1) := by
  refine ⟨by decide, by decide, ?_, ?_⟩
  · intro v _
    by_cases h : v = "b"
    · simp [h]; norm_num
    · simp [h]
  · intro n hn n' hn' e σ hσ
    have ha : σ "a" < 2 := hσ "a" (by decide)
    have hb : σ "b" < 2 := hσ "b" (by decide)
    simp only [Ex.rare, Ex.cut, List.mem_cons, List.not_mem_nil, or_false] at hn hn'
    rcases hn with rfl | rfl <;> rcases hn' with rfl | rfl <;> first | exact absurd e (by decide) | skip
    · simp [NodeV.entry, Ex.ka]
    · simp only [NodeV.entry, List.map_cons, List.map_nil, if_true]
      generalize σ "a" = i at *
      generalize σ "b" = j at *
      interval_cases i <;> interval_cases j <;> decide +kernel

example : (Ex.rare (1 / 4) (1 / 2)).Consistent ∧ Ex.cut.Consistent ∧ (Ex.rare (1 / 4) (1 / 2)).NonNeg ∧
    Ex.cut.NonNeg ∧ TablesWithin (Ex.rare (1 / 4) (1 / 2)) Ex.cut (fun v => if v = "b" then 2 / 3 else 1)
      (fun v => if v = "b" then 2 else 1) ∧
    EvidenceWithin (Ex.rare (1 / 4) (1 / 2)) Ex.cut [("b", .soft [1, 2])] [("b", .soft [3, 4])]
      (fun v => if v = "b" then 2 else 1) (fun v => if v = "b" then 3 else 1) ∧
    LegalEvidence (Ex.rare (1 / 4) (1 / 2)) [("b", .soft [1, 2])] ∧
    LegalEvidence Ex.cut [("b", .soft [3, 4])] ∧
    slack (Ex.rare (1 / 4) (1 / 2)).names (fun v => if v = "b" then 2 / 3 else 1)
      (fun v => if v = "b" then 2 else 1) *
    slack (Ex.rare (1 / 4) (1 / 2)).names (fun v => if v = "b" then 2 else 1)
      (fun v => if v = "b" then 3 else 1) = 9 / 2 ∧
    (∃ r, VE.naiveMarginals .insertion (Ex.rare (1 / 4) (1 / 2)) ["a"] [("b", .soft [1, 2])] = .ok r ∧
      r.eval (fun _ => 0) = 7 / 13) ∧
    ∃ r, VE.naiveMarginals .insertion Ex.cut ["a"] [("b", .soft [3, 4])] = .ok r ∧
      r.eval (fun _ => 0) = 1 / 2 := by
  refine ⟨Ex.rare_consistent _ _, by constructor <;> decide, ?_, ?_, Ex.cut_within, ?_, ?_, ?_, ?_, ?_, ?_⟩
  · exact fun n hn z hz => (Ex.rare_positive (by norm_num) (by norm_num) (by norm_num) (by norm_num) n hn z hz).le
  · unfold BN.NonNeg; decide +kernel
  · intro v hv
    have : v = "a" ∨ v = "b" := by simpa [Ex.rare, BN.names, Ex.ka] using hv
    rcases this with rfl | rfl <;> decide +kernel
  · exact ⟨by decide, by decide, by simp, by rintro v l h; simp at h; obtain ⟨rfl, rfl⟩ := h; decide⟩
  · exact ⟨by decide, by decide, by simp, by rintro v l h; simp at h; obtain ⟨rfl, rfl⟩ := h; decide⟩
  · decide +kernel
  · exact ⟨_, rfl, by decide +kernel⟩
  · exact ⟨_, rfl, by decide +kernel⟩

example : Ex.bn.Consistent ∧ ∀ v ∈ Ex.bn.names, 2 ≤ Ex.bn.card v := ⟨Ex.bn_consistent, by decide⟩

end Primo
