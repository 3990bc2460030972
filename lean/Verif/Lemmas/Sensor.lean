import Verif.Spec.Sensor
import Verif.Lemmas.Scale
import Verif.Lemmas.Separation
import Verif.Lemmas.Rewrite
import Verif.Lemmas.Complete

/-! # Soft evidence as an observed leaf -/

namespace Primo
open Finset
variable {bn bn' : BN} {v c : Name} {y : Val} {l : List ℚ}

namespace Sensor

theorem fresh (h : Sensor bn bn' v c y l) (hc' : bn'.Consistent) : c ∉ bn.names := by
  have := h.names.nodup_iff.1 hc'.nodup
  exact (List.nodup_cons.1 this).1

theorem lab (h : Sensor bn bn' v c y l) (hc : bn.Consistent) (hc' : bn'.Consistent) {u : Name}
    (hu : u ∈ bn.names) : bn'.lab u = bn.lab u := by
  obtain ⟨n, hn, rfl⟩ := BN.exists_of_mem_names hu
  obtain ⟨m, hm, e1, e2, -⟩ := h.keeps n hn
  rw [BN.lab_eq hc.nodup hn, ← e1, BN.lab_eq hc'.nodup hm, e2]

theorem card (h : Sensor bn bn' v c y l) (hc : bn.Consistent) (hc' : bn'.Consistent) {u : Name}
    (hu : u ∈ bn.names) : bn'.card u = bn.card u := by
  rw [BN.card, h.lab hc hc' hu, BN.card]

theorem mem (h : Sensor bn bn' v c y l) (hc' : bn'.Consistent) : v ∈ bn.names := by
  obtain ⟨m, hm, rfl, e, -⟩ := h.leaf
  have h1 : v ∈ bn'.names := hc'.parents_mem m hm v (by rw [e]; simp)
  have h2 : m.name ≠ v := fun e' => hc'.self m hm (by rw [e, e']; simp)
  have := h.names.mem_iff.1 h1
  rcases List.mem_cons.1 this with e | e
  · exact absurd e.symm h2
  · exact e

theorem entryOf (h : Sensor bn bn' v c y l) (hc : bn.Consistent) (hc' : bn'.Consistent) {u : Name}
    (hu : u ∈ bn.names) (τ : Assign) (j : Nat) :
    entryOf bn' u (Function.update τ c j) = Primo.entryOf bn u τ := by
  have hf := h.fresh hc'
  obtain ⟨n, hn, rfl⟩ := BN.exists_of_mem_names hu
  obtain ⟨m, hm, e1, e2, e3, e4⟩ := h.keeps n hn
  rw [entryOf_of_mem hc.nodup hn, ← e1, entryOf_of_mem hc'.nodup hm, NodeV.entry, NodeV.entry, e1, e3, e4,
    Function.update_of_ne (by rintro rfl; exact hf hu)]
  congr 2
  refine List.map_congr_left fun p hp => ?_
  rw [Function.update_of_ne]
  rintro rfl
  exact hf (hc.parents_mem n hn _ hp)

theorem likAt (h : Sensor bn bn' v c y l) (hc : bn.Consistent) (hc' : bn'.Consistent) {u : Name}
    (hu : u ∈ bn.names) (ev : Dict Evidence) (i : Nat) :
    likAt bn' ((c, .hard y) :: ev) u i = Primo.likAt bn ev u i := by
  have hne : c ≠ u := by rintro rfl; exact h.fresh hc' hu
  unfold Primo.likAt
  rw [show Dict.get? ((c, Evidence.hard y) :: ev) u = ev.get? u by simp [Dict.get?, hne], h.lab hc hc' hu]

/-- the observation is legal -/
theorem legal (h : Sensor bn bn' v c y l) (hc : bn.Consistent) (hc' : bn'.Consistent) {ev : Dict Evidence}
    (he : LegalEvidence bn ev) : LegalEvidence bn' ((c, .hard y) :: ev) := by
  have key : ∀ u e, (u, e) ∈ ev → u ∈ bn.names := fun u e hp => he.mem _ hp
  refine ⟨?_, fun p hp => ?_, fun u x hp => ?_, fun u l' hp => ?_⟩
  · refine List.nodup_cons.2 ⟨fun hm => ?_, he.nodup⟩
    obtain ⟨p, hp, e⟩ := List.mem_map.1 hm
    have e : p.1 = c := e
    exact h.fresh hc' (e ▸ he.mem p hp)
  · refine h.names.mem_iff.2 ?_
    rcases List.mem_cons.1 hp with rfl | hp
    · simp
    · exact List.mem_cons_of_mem _ (he.mem p hp)
  · rcases List.mem_cons.1 hp with e | hp
    · obtain ⟨rfl, e⟩ := Prod.mk.inj e
      cases e
      obtain ⟨m, hm, rfl, -, hy, -⟩ := h.leaf
      rw [BN.lab_eq hc'.nodup hm]; exact hy
    · rw [h.lab hc hc' (key _ _ hp)]; exact he.hard u x hp
  · rcases List.mem_cons.1 hp with e | hp
    · exact absurd (Prod.mk.inj e).2 (by simp)
    · rw [h.card hc hc' (key _ _ hp)]; exact he.soft u l' hp

/-- summing over the leaf leaves the likelihoods of its parent -/
theorem weight (h : Sensor bn bn' v c y l) (hc : bn.Consistent) (hc' : bn'.Consistent) {ev ev1 : Dict Evidence}
    (he : LegalEvidence bn ev) (he1 : LegalEvidence bn ev1) (hj : Joined bn ev ev1 v l) :
    ∃ s : ℚ, 0 < s ∧ ∀ τ, Legal bn.card bn.names τ →
      sumOver bn'.card {c} (weight bn' ((c, .hard y) :: ev)) τ = s * Primo.weight bn ev1 τ := by
  have hv := h.mem hc'
  have he' := h.legal hc hc' he
  obtain ⟨m, hm, rfl, e1, hy, s, hs, hl⟩ := h.leaf
  refine ⟨s, hs, fun τ hτ => ?_⟩
  have hvc : v ≠ m.name := by rintro rfl; exact h.fresh hc' hv
  have hw : ∀ j, Primo.weight bn' ((m.name, .hard y) :: ev) (Function.update τ m.name j) =
      m.cpd.get [j, τ v] * (if j = m.values.idxOf y then 1 else 0) *
        (bn.names.map fun u => Primo.entryOf bn u τ * Primo.likAt bn ev u (τ u)).prod := by
    intro j
    rw [weight_eq_likAt hc'.nodup he', (h.names.map _).prod_eq, List.map_cons, List.prod_cons]
    congr 1
    · rw [entryOf_of_mem hc'.nodup hm, NodeV.entry, e1, Function.update_self]
      congr 1
      · simp [Function.update_of_ne hvc]
      · unfold Primo.likAt
        rw [show Dict.get? ((m.name, Evidence.hard y) :: ev) m.name = some (.hard y) by simp [Dict.get?]]
        show lik _ _ _ = _
        rw [BN.lab_eq hc'.nodup hm, lik_hard hy]
    · congr 1
      refine List.map_congr_left fun u hu => ?_
      have : u ≠ m.name := by rintro rfl; exact h.fresh hc' hu
      rw [h.entryOf hc hc' hu, h.likAt hc hc' hu, Function.update_of_ne this]
  have hcard : bn'.card m.name = m.values.length := by rw [BN.card, BN.lab_eq hc'.nodup hm]
  rw [sumOver_singleton, sum_congr rfl fun j _ => hw j, ← sum_mul]
  simp only [mul_ite, mul_one, mul_zero]
  rw [sum_ite_eq' (range (bn'.card m.name)) (m.values.idxOf y),
    if_pos (by rw [mem_range, hcard]; exact List.idxOf_lt_length_iff.2 hy), hl _ (hτ v hv), mul_assoc]
  congr 1
  rw [weight_eq_likAt hc.nodup he1]
  have : ∀ u ∈ bn.names, Primo.entryOf bn u τ * Primo.likAt bn ev1 u (τ u) =
      (if u = v then l.getD (τ v) 0 else 1) * (Primo.entryOf bn u τ * Primo.likAt bn ev u (τ u)) := by
    intro u hu
    rw [hj u hu _ (hτ u hu)]
    by_cases e : u = v
    · subst e; simp only [if_true]; ring
    · simp only [if_neg e]; ring
  symm
  rw [List.map_congr_left this, List.prod_map_mul]
  congr 1
  rw [← List.prod_toFinset _ hc.nodup, prod_ite_eq' bn.names.toFinset v, if_pos (by simpa using hv)]

theorem sum (h : Sensor bn bn' v c y l) (hc : bn.Consistent) (hc' : bn'.Consistent) {ev ev1 : Dict Evidence}
    (he : LegalEvidence bn ev) (he1 : LegalEvidence bn ev1) (hj : Joined bn ev ev1 v l) :
    ∃ s : ℚ, 0 < s ∧ ∀ S : Finset Name, S ⊆ bn.names.toFinset → ∀ τ, (∀ u ∈ S, τ u < bn.card u) →
      sumOver bn'.card (bn'.names.toFinset \ S) (Primo.weight bn' ((c, .hard y) :: ev)) τ =
        s * sumOver bn.card (bn.names.toFinset \ S) (Primo.weight bn ev1) τ := by
  obtain ⟨s, hs, hw⟩ := h.weight hc hc' he he1 hj
  refine ⟨s, hs, fun S hS τ hτ => ?_⟩
  have hf := h.fresh hc'
  have e : bn'.names.toFinset \ S = (bn.names.toFinset \ S) ∪ {c} := by
    ext u
    have : u ∈ bn'.names ↔ u = c ∨ u ∈ bn.names := by rw [h.names.mem_iff]; simp
    simp only [mem_sdiff, List.mem_toFinset, mem_union, mem_singleton, this]
    constructor
    · rintro ⟨h1 | h1, h2⟩
      · exact Or.inr h1
      · exact Or.inl ⟨h1, h2⟩
    · rintro (⟨h1, h2⟩ | h1)
      · exact ⟨Or.inr h1, h2⟩
      · exact ⟨Or.inl h1, fun hu => hf (by simpa [h1] using hS hu)⟩
  rw [e, sumOver_union (by simp [hf]), sumOver_card_eq (card := bn'.card) (card' := bn.card) fun u hu =>
    h.card hc hc' (by simpa using (mem_sdiff.1 hu).1), ← sumOver_const_mul]
  refine sumOver_congr fun ρ hρ => hw ρ fun u hu => ?_
  by_cases hS' : u ∈ S
  · rw [hρ.1 u (by simp [hS'])]; exact hτ u hS'
  · exact hρ.2 u (by simp [hu, hS'])

theorem posterior (h : Sensor bn bn' v c y l) (hc : bn.Consistent) (hc' : bn'.Consistent) (hn : bn.NonNeg)
    {ev ev1 : Dict Evidence} (he : LegalEvidence bn ev) (he1 : LegalEvidence bn ev1) (hen : NonNegEvidence ev1)
    (hj : Joined bn ev ev1 v l) {Q : List Name} (hQ : ∀ u ∈ Q, u ∈ bn.names) {σ : Assign}
    (hσ : Legal bn.card Q σ) : posterior bn' ((c, .hard y) :: ev) Q σ = Primo.posterior bn ev1 Q σ := by
  obtain ⟨s, hs, hw⟩ := h.sum hc hc' he he1 hj
  have hM := hw Q.toFinset (fun u hu => by simpa using hQ u (by simpa using hu)) σ
    fun u hu => hσ u (by simpa using hu)
  have hZ := hw ∅ (by simp) σ (by simp)
  simp only [sdiff_empty] at hZ
  change totalWeight _ _ _ = s * totalWeight bn ev1 σ at hZ
  unfold Primo.posterior
  simp only
  rw [hM, hZ]
  by_cases h0 : 0 < totalWeight bn ev1 σ
  · rw [if_pos (mul_pos hs h0), if_pos h0, mul_div_mul_left _ _ hs.ne']
  · rw [if_neg fun hh => h0 (by nlinarith), if_neg h0]
    have := posterior_eq_zero hn hen hQ hσ (le_antisymm (not_lt.1 h0)
      (sumOver_nonneg fun τ _ => weight_nonneg hn hen τ))
    unfold Primo.posterior at this
    simp only [if_neg h0] at this
    rw [this, mul_zero]

end Sensor

/-! ### making a sensor -/

/-- the leaf, with the outcomes `yes` and `no` -/
def sensorNode (bn : BN) (v c : Name) (l : List ℚ) : NodeV :=
  { name := c, values := ["yes", "no"], parentOrder := [v], parents := [(v, bn.lab v)],
    cpd := NDArray.tabulate [2, bn.card v] fun idx =>
      if idx.getD 0 0 = 0 then l.getD (idx.getD 1 0) 0 else 1 - l.getD (idx.getD 1 0) 0 }

/-- the network with the leaf -/
def BN.sense (bn : BN) (v c : Name) (l : List ℚ) : BN := bn ++ [sensorNode bn v c l]


theorem sense_names (v c : Name) (l : List ℚ) : (bn.sense v c l).names = bn.names ++ [c] := by
  simp [BN.sense, BN.names, sensorNode]

theorem sense_lab (_ : c ∉ bn.names) {u : Name} (hu : u ∈ bn.names) (l : List ℚ) :
    (bn.sense v c l).lab u = bn.lab u := by
  obtain ⟨n, hn, e⟩ := BN.exists_of_mem_names hu
  unfold BN.lab BN.sense
  rw [List.find?_append]
  cases h : bn.find? (fun n => n.name = u) with
  | some m => rfl
  | none => exact absurd (List.find?_eq_none.1 h n hn) (by simp [e])

theorem sense_card (hc : c ∉ bn.names) {u : Name} (hu : u ∈ bn.names) (l : List ℚ) :
    (bn.sense v c l).card u = bn.card u := by
  rw [BN.card, sense_lab hc hu, BN.card]

theorem sense_consistent (hc : bn.Consistent) (hv : v ∈ bn.names) (hf : c ∉ bn.names) (l : List ℚ) :
    (bn.sense v c l).Consistent := by
  have hm : ∀ n, n ∈ bn.sense v c l ↔ n ∈ bn ∨ n = sensorNode bn v c l := by simp [BN.sense]
  refine ⟨?_, ?_, ?_, ?_, ?_, ?_, ?_⟩
  · rw [sense_names]
    exact List.nodup_append.2 ⟨hc.nodup, List.nodup_singleton _, by
      intro a ha b hb; rw [List.mem_singleton.1 hb]; rintro rfl; exact hf ha⟩
  · intro n hn
    rcases (hm n).1 hn with hn | rfl
    · exact hc.kind n hn
    · simp [sensorNode]
  · intro n hn
    rcases (hm n).1 hn with hn | rfl
    · exact hc.parents_nodup n hn
    · simp [sensorNode]
  · intro n hn
    rcases (hm n).1 hn with hn | rfl
    · exact hc.self n hn
    · simp only [sensorNode, List.mem_singleton]
      rintro rfl; exact hf hv
  · intro n hn p hp
    rw [sense_names]
    rcases (hm n).1 hn with hn | rfl
    · exact List.mem_append_left _ (hc.parents_mem n hn p hp)
    · simp only [sensorNode, List.mem_singleton] at hp
      rw [hp]; exact List.mem_append_left _ hv
  · intro n hn p hp
    rcases (hm n).1 hn with hn | rfl
    · rw [sense_lab hf (hc.parents_mem n hn p hp)]
      exact hc.parents_val n hn p hp
    · simp only [sensorNode, List.mem_singleton] at hp
      rw [hp, sense_lab hf hv]
      simp [sensorNode, Dict.get?]
  · intro n hn
    rcases (hm n).1 hn with hn | rfl
    · rw [hc.shape n hn]
      congr 1
      exact List.map_congr_left fun p hp => (sense_card hf (hc.parents_mem n hn p hp) l).symm
    · simp [sensorNode, NDArray.tabulate, sense_card hf hv]

theorem sense_get {i : Nat} (hi : i < bn.card v) (l : List ℚ) :
    (sensorNode bn v c l).cpd.get [0, i] = l.getD i 0 ∧ (sensorNode bn v c l).cpd.get [1, i] = 1 - l.getD i 0 := by
  have h : ∀ j < 2, InRange [2, bn.card v] [j, i] := fun j hj => by
    simp [InRange, hj, hi]
  constructor
  · simp only [sensorNode]; rw [NDArray.get_tabulate _ (h 0 (by omega))]; simp
  · simp only [sensorNode]; rw [NDArray.get_tabulate _ (h 1 (by omega))]; simp

theorem sense_sensor {s : ℚ} (hs : 0 < s) (l : List ℚ) :
    Sensor bn (bn.sense v c (l.map (s * ·))) v c "yes" l := by
  refine ⟨by rw [sense_names]; exact List.perm_append_singleton _ _,
    fun n hn => ⟨n, List.mem_append_left _ hn, rfl, rfl, rfl, rfl⟩,
    sensorNode bn v c (l.map (s * ·)), by simp [BN.sense], rfl, rfl, by simp [sensorNode], s, hs, fun i hi => ?_⟩
  have := (sense_get (c := c) hi (l.map (s * ·))).1
  simp only [sensorNode] at this ⊢
  rw [show (["yes", "no"] : List Val).idxOf "yes" = 0 from rfl, this]
  simp only [List.getD_eq_getElem?_getD, List.getElem?_map]
  cases l[i]? <;> simp

theorem sense_nonneg (hn : bn.NonNeg) {l : List ℚ} (hl : ∀ x ∈ l, 0 ≤ x ∧ x ≤ 1) : (bn.sense v c l).NonNeg := by
  intro n hm x hx
  have hm : n ∈ bn ∨ n = sensorNode bn v c l := by simpa [BN.sense] using hm
  rcases hm with hm | rfl
  · exact hn n hm x hx
  · simp only [sensorNode, NDArray.tabulate, List.mem_map] at hx
    obtain ⟨idx, -, rfl⟩ := hx
    have : 0 ≤ l.getD (idx.getD 1 0) 0 ∧ l.getD (idx.getD 1 0) 0 ≤ 1 := by
      generalize idx.getD 1 0 = i
      rw [List.getD_eq_getElem?_getD]
      cases h : l[i]? with
      | none => simp
      | some z => exact hl z (List.mem_of_getElem? h)
    split_ifs
    · exact this.1
    · linarith [this.2]

theorem sense_stochastic (hc : bn.Consistent) (hv : v ∈ bn.names) (hf : c ∉ bn.names) (hs : bn.Stochastic)
    (l : List ℚ) : (bn.sense v c l).Stochastic := by
  intro n hm σ hσ
  have hm : n ∈ bn ∨ n = sensorNode bn v c l := by simpa [BN.sense] using hm
  rcases hm with hm | rfl
  · refine hs n hm σ fun p hp => ?_
    rw [← sense_card hf (hc.parents_mem n hm p hp) l]
    exact hσ p hp
  · have hi : σ v < bn.card v := by rw [← sense_card hf hv l]; exact hσ v (by simp [sensorNode])
    obtain ⟨h0, h1⟩ := sense_get (c := c) hi l
    show ∑ i ∈ range 2, (sensorNode bn v c l).cpd.get [i, σ v] = 1
    rw [sum_range_succ, sum_range_one, h0, h1]
    ring

theorem sense_acyclic (hc : bn.Consistent) (hv : v ∈ bn.names) (hf : c ∉ bn.names) (ha : bn.Acyclic) (l : List ℚ) :
    (bn.sense v c l).Acyclic := by
  have hp : ∀ a b, (bn.sense v c l).IsParent a b → a ∈ bn.names ∧ (b ≠ c → bn.IsParent a b) := by
    rintro a b ⟨n, hn, rfl, hp⟩
    have hm : n ∈ bn ∨ n = sensorNode bn v c l := by simpa [BN.sense] using hn
    rcases hm with hm | rfl
    · exact ⟨hc.parents_mem n hm a hp, fun _ => ⟨n, hm, rfl, hp⟩⟩
    · simp only [sensorNode, List.mem_singleton] at hp
      exact ⟨hp ▸ hv, fun h => absurd rfl h⟩
  have key : ∀ a b, Relation.TransGen (bn.sense v c l).IsParent a b →
      a ∈ bn.names ∧ (b ≠ c → Relation.TransGen bn.IsParent a b) := by
    intro a b h
    induction h with
    | single h => exact ⟨(hp _ _ h).1, fun hb => .single ((hp _ _ h).2 hb)⟩
    | @tail x y _ h ih =>
      refine ⟨ih.1, fun hb => .tail (ih.2 ?_) ((hp _ _ h).2 hb)⟩
      rintro rfl
      exact hf (hp _ _ h).1
  intro a h
  obtain ⟨h1, h2⟩ := key a a h
  exact ha a (h2 (by rintro rfl; exact hf h1))


end Primo
