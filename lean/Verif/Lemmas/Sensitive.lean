import Verif.Spec.Sensitive
import Verif.Lemmas.Rewrite

/-! # Answers for close tables and evidence -/

namespace Primo
open Finset
variable {bn bn' : BN}

theorem sumOver_mono {card : Name → Nat} {s : Finset Name} {F G : Assign → ℚ} {σ : Assign}
    (h : ∀ τ, Varies card s σ τ → F τ ≤ G τ) : sumOver card s F σ ≤ sumOver card s G σ := by
  have := sumOver_nonneg (card := card) (s := s) (σ := σ) (F := fun τ => G τ - F τ) fun τ hτ => sub_nonneg.2 (h τ hτ)
  unfold sumOver at this ⊢
  rw [sum_sub_distrib] at this
  linarith

theorem sumOver_sub {card : Name → Nat} {s : Finset Name} {F G : Assign → ℚ} {σ : Assign} :
    sumOver card s (fun τ => F τ - G τ) σ = sumOver card s F σ - sumOver card s G σ := by
  unfold sumOver
  rw [sum_sub_distrib]

/-- two probabilities whose odds are close are close -/
theorem odds_distance {s p p' : ℚ} (hs : 1 ≤ s) (hp : 0 ≤ p)
    (h : s * s * p * p' - p' * p ≤ s * s * p * 1 - p' * 1) : p' - p ≤ (s - 1) / (s + 1) := by
  rw [le_div_iff₀ (by linarith)]
  have hd : 0 < 1 + (s * s - 1) * p := by
    have := mul_nonneg (by nlinarith : 0 ≤ s * s - 1) hp
    linarith
  have h1 : (p' - p) * (1 + (s * s - 1) * p) ≤ (s * s - 1) * p * (1 - p) := by nlinarith
  have h2 : (s + 1) * ((s * s - 1) * p * (1 - p)) ≤ (s - 1) * (1 + (s * s - 1) * p) := by
    have := mul_nonneg (by linarith : 0 ≤ s - 1) (sq_nonneg ((s + 1) * p - 1))
    nlinarith
  have h3 : ((p' - p) * (s + 1)) * (1 + (s * s - 1) * p) ≤ (s - 1) * (1 + (s * s - 1) * p) := by
    have := mul_le_mul_of_nonneg_left h1 (by linarith : 0 ≤ s + 1)
    linarith
  exact le_of_mul_le_mul_right h3 hd

theorem prod_bounds {l : List Name} {A B f g : Name → ℚ}
    (h : ∀ v ∈ l, 0 < A v ∧ 0 ≤ B v ∧ 0 ≤ f v ∧ A v * f v ≤ g v ∧ g v ≤ B v * f v) :
    0 < (l.map A).prod ∧ 0 ≤ (l.map B).prod ∧ 0 ≤ (l.map f).prod ∧
      (l.map A).prod * (l.map f).prod ≤ (l.map g).prod ∧
      (l.map g).prod ≤ (l.map B).prod * (l.map f).prod := by
  induction l with
  | nil => simp
  | cons v l ih =>
    obtain ⟨a, b, c, d, e⟩ := h v (by simp)
    obtain ⟨a', b', c', d', e'⟩ := ih fun u hu => h u (by simp [hu])
    simp only [List.map_cons, List.prod_cons]
    have hg : 0 ≤ g v := (mul_nonneg a.le c).trans d
    have hg' : 0 ≤ (l.map g).prod := (mul_nonneg a'.le c').trans d'
    refine ⟨mul_pos a a', mul_nonneg b b', mul_nonneg c c', ?_, ?_⟩
    · calc _ = (A v * f v) * ((l.map A).prod * (l.map f).prod) := by ring
        _ ≤ _ := mul_le_mul d d' (mul_nonneg a'.le c') hg
    · calc _ ≤ (B v * f v) * ((l.map B).prod * (l.map f).prod) := mul_le_mul e e' hg' (mul_nonneg b c)
        _ = _ := by ring

theorem likAt_nonneg {ev : Dict Evidence} (hen : NonNegEvidence ev) (v : Name) (i : Nat) : 0 ≤ likAt bn ev v i := by
  unfold likAt
  cases hg : ev.get? v with
  | none => exact zero_le_one
  | some x => exact lik_nonneg (fun l hl => hen v l (by rw [← hl]; exact Dict.get?_mem hg)) _

/-- the weights of `bn'` and `ev'` are between `A` and `B` times those of `bn` and `ev` -/
structure WeightsWithin (bn bn' : BN) (ev ev' : Dict Evidence) (A B : ℚ) : Prop where
  names : bn.names.toFinset = bn'.names.toFinset
  card : ∀ v ∈ bn.names, bn'.card v = bn.card v
  pos : 0 < A
  nonneg : 0 ≤ B
  weights : ∀ ρ, Legal bn.card bn.names ρ → A * weight bn ev ρ ≤ weight bn' ev' ρ ∧
    weight bn' ev' ρ ≤ B * weight bn ev ρ

theorem TablesWithin.weights (hc : bn.Consistent) (hc' : bn'.Consistent) (hn : bn.NonNeg)
    {ev ev' : Dict Evidence} (he : LegalEvidence bn ev) (hen : NonNegEvidence ev)
    (he' : LegalEvidence bn' ev') {lo hi lo' hi' : Name → ℚ}
    (ht : TablesWithin bn bn' lo hi) (hev : EvidenceWithin bn bn' ev ev' lo' hi') :
    ∃ A B, WeightsWithin bn bn' ev ev' A B ∧ B / A = slack bn.names lo hi * slack bn.names lo' hi' := by
  have key : ∀ ρ, Legal bn.card bn.names ρ → _ := fun ρ hρ => prod_bounds (l := bn.names)
    (A := fun v => lo v * lo' v) (B := fun v => hi v * hi' v)
    (f := fun v => entryOf bn v ρ * likAt bn ev v (ρ v))
    (g := fun v => entryOf bn' v ρ * likAt bn' ev' v (ρ v)) fun v hv => by
      obtain ⟨f1, f2⟩ := ht.factors v hv
      obtain ⟨g1, g2, g3⟩ := hev v hv
      obtain ⟨g4, g5⟩ := g3 _ (hρ v hv)
      obtain ⟨n, hnn, rfl⟩ := BN.exists_of_mem_names hv
      obtain ⟨n', hn', e⟩ := BN.exists_of_mem_names (ht.names.mem_iff.1 hv)
      obtain ⟨e1, e2⟩ := ht.entries n hnn n' hn' e.symm ρ hρ
      have q1 : 0 ≤ entryOf bn n.name ρ := by
        rw [entryOf_of_mem hc.nodup hnn]; exact NDArray.get_nonneg (hn n hnn) _
      rw [← entryOf_of_mem hc.nodup hnn, ← entryOf_of_mem hc'.nodup hn', e] at e1 e2
      have q2 := likAt_nonneg (bn := bn) hen n.name (ρ n.name)
      have hi0 := f1.trans_le f2
      have hi0' := g1.trans_le g2
      refine ⟨mul_pos f1 g1, mul_nonneg hi0.le hi0'.le, mul_nonneg q1 q2, ?_, ?_⟩
      · calc _ = (lo n.name * entryOf bn n.name ρ) * (lo' n.name * likAt bn ev n.name (ρ n.name)) := by ring
          _ ≤ _ := mul_le_mul e1 g4 (mul_nonneg g1.le q2) ((mul_nonneg f1.le q1).trans e1)
      · calc _ ≤ (hi n.name * entryOf bn n.name ρ) * (hi' n.name * likAt bn ev n.name (ρ n.name)) :=
              mul_le_mul e2 g5 ((mul_nonneg g1.le q2).trans g4) (mul_nonneg hi0.le q1)
          _ = _ := by ring
  refine ⟨(bn.names.map fun v => lo v * lo' v).prod, (bn.names.map fun v => hi v * hi' v).prod,
    ⟨List.toFinset_eq_of_perm _ _ ht.names, fun v hv => congrArg List.length (ht.labels v hv), ?_, ?_,
      fun ρ hρ => ?_⟩, ?_⟩
  · refine List.prod_pos fun x hx => ?_
    obtain ⟨v, hv, rfl⟩ := List.mem_map.1 hx
    exact mul_pos (ht.factors v hv).1 (hev v hv).1
  · refine List.prod_nonneg fun x hx => ?_
    obtain ⟨v, hv, rfl⟩ := List.mem_map.1 hx
    exact mul_nonneg ((ht.factors v hv).1.le.trans (ht.factors v hv).2) ((hev v hv).1.le.trans (hev v hv).2.1)
  · obtain ⟨-, -, -, k1, k2⟩ := key ρ hρ
    rw [weight_eq_likAt hc.nodup he, weight_eq_likAt hc'.nodup he', ← (ht.names.map _).prod_eq]
    exact ⟨k1, k2⟩
  · unfold slack
    rw [← List.prod_map_mul]
    clear key
    induction bn.names with
    | nil => simp
    | cons v l ih =>
      simp only [List.map_cons, List.prod_cons]
      rw [mul_div_mul_comm, ih, mul_div_mul_comm]

namespace WeightsWithin
variable {ev ev' : Dict Evidence} {A B : ℚ} {Q : List Name} {σ : Assign}

/-- sums of weights are within the same bounds -/
theorem sums (h : WeightsWithin bn bn' ev ev' A B) (hσ : Legal bn.card Q σ) :
    A * sumOver bn.card (bn.names.toFinset \ Q.toFinset) (weight bn ev) σ ≤
      sumOver bn'.card (bn'.names.toFinset \ Q.toFinset) (weight bn' ev') σ ∧
    sumOver bn'.card (bn'.names.toFinset \ Q.toFinset) (weight bn' ev') σ ≤
      B * sumOver bn.card (bn.names.toFinset \ Q.toFinset) (weight bn ev) σ := by
  rw [← h.names, sumOver_card_eq (card := bn'.card) (card' := bn.card) fun v hv =>
    h.card v (by simp at hv; exact hv.1)]
  have hl : ∀ τ, Varies bn.card (bn.names.toFinset \ Q.toFinset) σ τ → Legal bn.card bn.names τ :=
    fun τ hτ => hτ.legal fun v hv hv' => hσ v (by simpa [hv] using hv')
  rw [← sumOver_const_mul, ← sumOver_const_mul]
  exact ⟨sumOver_mono fun τ hτ => (h.weights τ (hl τ hτ)).1,
    sumOver_mono fun τ hτ => (h.weights τ (hl τ hτ)).2⟩

theorem total (h : WeightsWithin bn bn' ev ev' A B) (σ : Assign) :
    A * totalWeight bn ev σ ≤ totalWeight bn' ev' σ ∧ totalWeight bn' ev' σ ≤ B * totalWeight bn ev σ := by
  have := h.sums (Q := []) (σ := σ) (by simp [Legal])
  simpa [totalWeight] using this

/-- the posteriors, up to normalisation -/
theorem fractions (h : WeightsWithin bn bn' ev ev' A B) (hc : bn.Consistent) (hc' : bn'.Consistent)
    (hn : bn.NonNeg) (hn' : bn'.NonNeg) (he : LegalEvidence bn ev) (hen : NonNegEvidence ev)
    (he' : LegalEvidence bn' ev') (hen' : NonNegEvidence ev')
    (hQ : ∀ v ∈ Q, v ∈ bn.names) :
    (∀ σ, Legal bn.card Q σ → posterior bn ev Q σ = 0 ∧ posterior bn' ev' Q σ = 0) ∨
    ∃ Z Z' : ℚ, 0 < Z ∧ 0 < Z' ∧ A * Z ≤ Z' ∧ Z' ≤ B * Z ∧ (totalWeight bn ev fun _ => 0) = Z ∧
      (totalWeight bn' ev' fun _ => 0) = Z' ∧ ∀ σ, Legal bn.card Q σ →
      A * (Z * posterior bn ev Q σ) ≤ Z' * posterior bn' ev' Q σ ∧
      Z' * posterior bn' ev' Q σ ≤ B * (Z * posterior bn ev Q σ) := by
  set Z := totalWeight bn ev fun _ => 0 with hZd
  set Z' := totalWeight bn' ev' fun _ => 0 with hZd'
  have hZ0 : 0 ≤ Z := sumOver_nonneg fun τ _ => weight_nonneg hn hen τ
  have t1 : A * Z ≤ Z' := (h.total fun _ => 0).1
  have t2 : Z' ≤ B * Z := (h.total fun _ => 0).2
  have hQ' : ∀ v ∈ Q, v ∈ bn'.names := fun v hv => by
    have := hQ v hv
    rwa [← List.mem_toFinset, ← h.names, List.mem_toFinset]
  have hl' : ∀ σ, Legal bn.card Q σ → Legal bn'.card Q σ := fun σ hσ v hv => by
    rw [h.card v (hQ v hv)]; exact hσ v hv
  rcases hZ0.lt_or_eq with hp | hz
  · right
    have hp' : 0 < Z' := (mul_pos h.pos hp).trans_le t1
    refine ⟨Z, Z', hp, hp', t1, t2, rfl, rfl, fun σ hσ => ?_⟩
    have e1 : Z * posterior bn ev Q σ = sumOver bn.card (bn.names.toFinset \ Q.toFinset) (weight bn ev) σ := by
      unfold posterior
      simp only
      rw [totalWeight_const hc he σ fun _ => 0, if_pos hp, mul_div_cancel₀ _ hp.ne']
    have e2 : Z' * posterior bn' ev' Q σ =
        sumOver bn'.card (bn'.names.toFinset \ Q.toFinset) (weight bn' ev') σ := by
      unfold posterior
      simp only
      rw [totalWeight_const hc' he' σ fun _ => 0, if_pos hp', mul_div_cancel₀ _ hp'.ne']
    rw [e1, e2]
    exact h.sums hσ
  · left
    have hz' : Z' = 0 := by
      refine le_antisymm ?_ ?_
      · rw [← hz, mul_zero] at t2; exact t2
      · rw [← hz, mul_zero] at t1; exact t1
    intro σ hσ
    exact ⟨posterior_eq_zero hn hen hQ hσ (by rw [totalWeight_const hc he σ fun _ => 0]; exact hz.symm),
      posterior_eq_zero hn' hen' hQ' (hl' σ hσ) (by rw [totalWeight_const hc' he' σ fun _ => 0]; exact hz')⟩

end WeightsWithin

/-! ### independent variables -/

/-- the same graph, but every variable is independent of the others and has the distribution `g v` -/
def BN.indep (bn : BN) (g : Name → Nat → ℚ) : BN := bn.retable fun v σ => g v (σ v)

variable {g : Name → Nat → ℚ}

theorem indep_dep (bn : BN) (g : Name → Nat → ℚ) :
    ∀ n ∈ bn, DependsOn (n.name :: n.parentOrder).toFinset fun σ : Assign => g n.name (σ n.name) :=
  fun n _ σ τ h => by
    have := h n.name (by simp)
    simp only [this]

theorem indep_entryOf (hc : bn.Consistent) {v : Name} (hv : v ∈ bn.names) {σ : Assign}
    (hσ : Legal bn.card bn.names σ) : entryOf (bn.indep g) v σ = g v (σ v) :=
  BN.retable_entryOf hc (indep_dep bn g) hv hσ

theorem indep_stochastic (hc : bn.Consistent)
    (hs : ∀ v ∈ bn.names, ∑ i ∈ range (bn.card v), g v i = 1) : (bn.indep g).Stochastic :=
  BN.retable_stochastic hc (indep_dep bn g) fun v hv σ => by simpa using hs v hv

theorem indep_weight (hc : bn.Consistent) {σ : Assign} (hσ : Legal bn.card bn.names σ) :
    weight (bn.indep g) [] σ = (bn.names.map fun v => g v (σ v)).prod := by
  have hb : (bn.indep g).bare = bn.bare := BN.retable_bare bn _
  have hcf : (bn.indep g).Consistent := BN.retable_consistent hc
  rw [weight_eq_likAt hcf.nodup ⟨by simp [Dict.keys], by simp, by simp, by simp⟩, BN.names_of_bare hb]
  congr 1
  refine List.map_congr_left fun v hv => ?_
  rw [indep_entryOf hc hv hσ]
  simp [likAt, Dict.get?]

/-- the answer about one variable is its distribution -/
theorem indep_posterior (hc : bn.Consistent) (hg : ∀ v ∈ bn.names, ∀ i < bn.card v, 0 < g v i)
    (hcard : ∀ v ∈ bn.names, 0 < bn.card v)
    (hs : ∀ v ∈ bn.names, ∑ i ∈ range (bn.card v), g v i = 1) {v : Name} (hv : v ∈ bn.names) {σ : Assign}
    (hσ : σ v < bn.card v) : posterior (bn.indep g) [] [v] σ = g v (σ v) := by
  have hb : (bn.indep g).bare = bn.bare := BN.retable_bare bn _
  have hcf : (bn.indep g).Consistent := BN.retable_consistent hc
  have hle : LegalEvidence (bn.indep g) [] := ⟨by simp [Dict.keys], by simp, by simp, by simp⟩
  set B : Assign → ℚ := fun τ => ((bn.names.erase v).map fun w => g w (τ w)).prod with hB
  have hw : ∀ ρ, Legal bn.card bn.names ρ → weight (bn.indep g) [] ρ = g v (ρ v) * B ρ := by
    intro ρ hρ
    rw [indep_weight hc hρ, ((List.perm_cons_erase hv).map _).prod_eq, List.map_cons, List.prod_cons]
  have hBd : DependsOn (bn.names.toFinset \ {v}) B := by
    intro σ τ h
    simp only [hB]
    congr 1
    refine List.map_congr_left fun w hw => ?_
    have := (hc.nodup.mem_erase_iff).1 hw
    rw [h w (by simp [this.1, this.2])]
  have hM : ∀ τ : Assign, τ v < bn.card v →
      sumOver bn.card (bn.names.toFinset \ {v}) (weight (bn.indep g) []) τ =
        g v (τ v) * sumOver bn.card (bn.names.toFinset \ {v}) B σ := by
    intro τ hτ
    have h1 : sumOver bn.card (bn.names.toFinset \ {v}) B σ =
        sumOver bn.card (bn.names.toFinset \ {v}) B τ := hBd.sumOver σ _ (by simp)
    rw [h1, ← sumOver_const_mul]
    refine sumOver_congr fun ρ hρ => ?_
    have hρv : ρ v = τ v := hρ.1 v (by simp)
    rw [hw ρ (hρ.legal fun w hw hw' => ?_), hρv]
    have : w = v := by simpa [hw] using hw'
    subst this
    exact hτ
  have hZ : totalWeight (bn.indep g) [] σ = sumOver bn.card (bn.names.toFinset \ {v}) B σ := by
    rw [totalWeight_split (Q := [v]) (by simpa [BN.names_of_bare hb] using hv), BN.names_of_bare hb,
      BN.card_of_bare hb, show ([v] : List Name).toFinset = {v} by simp, sumOver_singleton]
    rw [sum_congr rfl fun i hi => hM (Function.update σ v i) (by simpa using hi)]
    simp only [Function.update_self]
    rw [← sum_mul, hs v hv, one_mul]
  have hZ0 : 0 < totalWeight (bn.indep g) [] σ := by
    have hBp : ∀ τ, Varies bn.card (bn.names.toFinset \ {v}) σ τ → 0 < B τ := by
      intro τ hτ
      refine List.prod_pos fun x hx => ?_
      obtain ⟨w, hw, rfl⟩ := List.mem_map.1 hx
      have := (hc.nodup.mem_erase_iff).1 hw
      exact hg w this.2 _ (hτ.2 w (by simp [this.1, this.2]))
    have hτ : Varies bn.card (bn.names.toFinset \ {v}) σ
        (fun w => if w ∈ bn.names.toFinset \ {v} then 0 else σ w) :=
      ⟨fun w hw => by simp only [if_neg hw], fun w hw => by
        simp only [if_pos hw]; exact hcard w (by simp at hw; exact hw.1)⟩
    rw [hZ]
    refine lt_of_le_of_ne (sumOver_nonneg fun τ hτ => (hBp τ hτ).le) fun h0 => ?_
    exact (hBp _ hτ).ne' (eq_zero_of_sumOver_eq_zero (fun τ hτ => (hBp τ hτ).le) h0.symm hτ)
  unfold posterior
  simp only
  rw [if_pos hZ0, BN.names_of_bare hb, BN.card_of_bare hb, show ([v] : List Name).toFinset = {v} by simp,
    hM σ hσ, hZ, mul_div_assoc, div_self (by rw [← hZ]; exact hZ0.ne'), mul_one]

/-! ### tilted distributions -/

/-- the first outcome of `v` has the odds `t v`, the others are equally likely -/
def tilt (bn : BN) (t : Name → ℚ) (v : Name) (i : Nat) : ℚ :=
  if i = 0 then t v / (t v + 1) else 1 / ((t v + 1) * (bn.card v - 1))

theorem tilt_pos {t : Name → ℚ} {v : Name} (ht : 0 < t v) (hv : 2 ≤ bn.card v) (i : Nat) : 0 < tilt bn t v i := by
  have : (2 : ℚ) ≤ bn.card v := by exact_mod_cast hv
  unfold tilt
  split
  · exact div_pos ht (by linarith)
  · exact one_div_pos.2 (mul_pos (by linarith) (by linarith))

theorem tilt_sum {t : Name → ℚ} {v : Name} (ht : 0 < t v) (hv : 2 ≤ bn.card v) :
    ∑ i ∈ range (bn.card v), tilt bn t v i = 1 := by
  obtain ⟨k, hk⟩ : ∃ k, bn.card v = k + 2 := ⟨bn.card v - 2, by omega⟩
  unfold tilt
  rw [hk, sum_range_succ', sum_congr rfl fun i _ => if_neg (Nat.succ_ne_zero i)]
  simp only [sum_const, card_range, nsmul_eq_mul, if_true]
  push_cast
  have h1 : t v + 1 ≠ 0 := by linarith
  have h2 : ((k : ℚ) + 2 - 1) ≠ 0 := by
    have : (0 : ℚ) ≤ k := Nat.cast_nonneg k
    linarith
  field_simp
  ring

theorem slack_one (vs : List Name) : slack vs (fun _ => 1) (fun _ => 1) = 1 := by
  unfold slack
  simp

theorem slack_update {vs : List Name} (hd : vs.Nodup) {v : Name} (hv : v ∈ vs) (l h : ℚ) :
    slack vs (Function.update (fun _ => 1) v l) (Function.update (fun _ => 1) v h) = h / l := by
  unfold slack
  rw [((List.perm_cons_erase hv).map _).prod_eq, List.map_cons, List.prod_cons]
  simp only [Function.update_self]
  rw [List.map_congr_left (g := fun _ => (1 : ℚ)) fun u hu => ?_]
  · simp
  · have := (hd.mem_erase_iff.1 hu).1
    simp [this]

/-- tilting by `1 / s` and by `s` gives tables within the factors `1 / s` and `s` -/
theorem tilt_within (hc : bn.Consistent) (h2 : ∀ v ∈ bn.names, 2 ≤ bn.card v) {s : Name → ℚ}
    (hs : ∀ v ∈ bn.names, 1 ≤ s v) :
    TablesWithin (bn.indep (tilt bn fun v => 1 / s v)) (bn.indep (tilt bn s)) (fun v => 1 / s v) s := by
  have b1 : (bn.indep (tilt bn fun v => 1 / s v)).bare = bn.bare := BN.retable_bare bn _
  have b2 : (bn.indep (tilt bn s)).bare = bn.bare := BN.retable_bare bn _
  refine ⟨by rw [BN.names_of_bare b1, BN.names_of_bare b2], fun v _ => by
    rw [BN.lab_of_bare b1, BN.lab_of_bare b2], ?_, ?_⟩
  · rw [BN.names_of_bare b1]
    intro v hv
    have := hs v hv
    have h0 : 0 < s v := by linarith
    exact ⟨one_div_pos.2 h0, by rw [div_le_iff₀ h0]; nlinarith⟩
  · intro n hn n' hn' e σ hσ
    have hv : n.name ∈ bn.names := by
      rw [← BN.names_of_bare b1]; exact List.mem_map_of_mem hn
    rw [BN.names_of_bare b1, BN.card_of_bare b1] at hσ
    rw [← entryOf_of_mem (BN.retable_consistent hc).nodup hn, ← entryOf_of_mem (BN.retable_consistent hc).nodup hn',
      ← e]
    have e1 := indep_entryOf (g := tilt bn fun v => 1 / s v) hc hv hσ
    have e2 := indep_entryOf (g := tilt bn s) hc hv hσ
    unfold BN.indep at e1 e2
    rw [e1, e2]
    have hs1 := hs _ hv
    have h0 : 0 < s n.name := by linarith
    have hc2 : (2 : ℚ) ≤ bn.card n.name := by exact_mod_cast h2 _ hv
    have hc1 : 0 < (bn.card n.name : ℚ) - 1 := by linarith
    unfold tilt
    dsimp only
    generalize s n.name = x at *
    generalize (bn.card n.name : ℚ) - 1 = c at *
    have hx : 1 / x + 1 = (x + 1) / x := by field_simp; ring
    have hx2 : 1 ≤ x * x := by nlinarith
    split
    · rw [hx]
      constructor
      · rw [div_div_div_cancel_right₀ h0.ne', ← mul_div_assoc, div_le_div_iff_of_pos_right (by linarith)]
        rw [mul_one, div_le_iff₀ h0]
        exact hx2
      · rw [div_div_div_cancel_right₀ h0.ne', mul_one_div]
    · rw [hx]
      have : 1 / ((x + 1) / x * c) = x * (1 / ((x + 1) * c)) := by field_simp
      rw [this]
      have hp : 0 < 1 / ((x + 1) * c) := by positivity
      constructor
      · rw [← mul_assoc, one_div_mul_cancel h0.ne', one_mul]
      · nlinarith

end Primo
