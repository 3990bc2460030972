import Verif.Exact
import Verif.Lemmas.Over

/-! # `naive_marginals` -/

namespace Primo
open Finset Factor

theorem prod_dict_eq_prod_nodes {β : Type} (names : List Name) (hn : names.Nodup) (ev : Dict β)
    (hk : ev.keys.Nodup) (hmem : ∀ p ∈ ev, p.1 ∈ names) (g : Name → β → ℚ) :
    (names.map fun v => match ev.get? v with
      | some e => g v e
      | none => 1).prod = (ev.map fun p => g p.1 p.2).prod := by
  induction ev with
  | nil => simp [Dict.get?]
  | cons p ev ih =>
    obtain ⟨k, e⟩ := p
    have hnd := List.nodup_cons.1 hk
    have hnone : Dict.get? ev k = none := Dict.get?_eq_none.2 hnd.1
    rw [List.map_cons, List.prod_cons, ← ih hnd.2 fun q hq => hmem q (by simp [hq])]
    have hsplit : (names.map fun v => match Dict.get? ((k, e) :: ev) v with
        | some e => g v e
        | none => 1) = names.map fun v => (if v = k then g k e else 1) *
          (match Dict.get? ev v with
            | some e => g v e
            | none => 1) := by
      refine List.map_congr_left fun v _ => ?_
      by_cases hv : v = k
      · subst hv; simp [Dict.get?, hnone]
      · simp [Dict.get?, hv, Ne.symm hv]
    rw [hsplit, List.prod_map_mul]
    congr 1
    have hk' : k ∈ names := hmem (k, e) (by simp)
    clear hsplit ih hmem hnone hk hnd
    induction names with
    | nil => simp at hk'
    | cons a names ih =>
      have hnd := List.nodup_cons.1 hn
      rcases List.mem_cons.1 hk' with rfl | hk'
      · have : (names.map fun v => if v = k then g k e else 1) = names.map fun _ => (1 : ℚ) :=
          List.map_congr_left fun v hv => by
            have : v ≠ k := by rintro rfl; exact hnd.1 hv
            simp [this]
        simp [this]
      · have : a ≠ k := by rintro rfl; exact hnd.1 hk'
        simp [this, ih hnd.2 hk']

theorem LegalEvidence.at {bn : BN} {ev : Dict Evidence} (he : LegalEvidence bn ev) {v : Name}
    {e : Evidence} (h : ev.get? v = some e) :
    (∀ x, e = .hard x → x ∈ bn.lab v) ∧ (∀ l, e = .soft l → l.length = bn.card v) := by
  have hm := Dict.get?_mem h
  exact ⟨fun x hx => he.hard v x (hx ▸ hm), fun l hl => he.soft v l (hl ▸ hm)⟩

/-- `entry` of the node called `v` -/
def entryOf (bn : BN) (v : Name) (σ : Assign) : ℚ :=
  match bn.find? (fun n => n.name = v) with
  | some n => n.entry σ
  | none => 1

theorem prod_entryOf {bn : BN} (h : bn.names.Nodup) (σ : Assign) :
    (bn.names.map fun v => entryOf bn v σ).prod = (bn.map fun n => n.entry σ).prod := by
  rw [BN.names, List.map_map]
  congr 1
  refine List.map_congr_left fun n hn => ?_
  simp only [Function.comp, entryOf, BN.lab_of_mem h hn]

/-- likelihood of the evidence (if any) for `v` -/
def likOf (bn : BN) (ev : Dict Evidence) (v : Name) (σ : Assign) : ℚ :=
  match ev.get? v with
  | some e => lik (bn.lab v) e (σ v)
  | none => 1

theorem weight_eq_prod {bn : BN} (hn : bn.names.Nodup) {ev : Dict Evidence}
    (he : LegalEvidence bn ev) (σ : Assign) :
    weight bn ev σ = (bn.names.map fun v => entryOf bn v σ * likOf bn ev v σ).prod := by
  rw [List.prod_map_mul, prod_entryOf hn, weight]
  congr 1
  rw [← prod_dict_eq_prod_nodes bn.names hn ev he.nodup he.mem
    (fun v e => lik (bn.lab v) e (σ v))]
  congr 1
  refine List.map_congr_left fun v _ => ?_
  unfold likOf
  cases ev.get? v <;> rfl

theorem naiveStep_spec (so : SetOrder) {bn : BN} (hc : bn.Consistent) {ev : Dict Evidence}
    (he : LegalEvidence bn ev) {res : Factor} (hr : res.Over bn.lab) {v : Name} (hv : v ∈ bn.names) :
    ∃ r, VE.naiveStep so bn ev res v = .ok r ∧ r.Over bn.lab ∧
      (∀ u ∈ res.variableOrder, u ∈ r.variableOrder) ∧ v ∈ r.variableOrder ∧
      ((∀ u ∈ res.variableOrder, u ∈ bn.names) → ∀ u ∈ r.variableOrder, u ∈ bn.names) ∧
      ∀ σ, Legal bn.card r.variableOrder σ →
        r.eval σ = res.eval σ * (entryOf bn v σ * likOf bn ev v σ) := by
  obtain ⟨n, hn, rfl⟩ := BN.exists_of_mem_names hv
  obtain ⟨f, f1, f2, f3, f4⟩ := fromNode_over hc hn
  obtain ⟨r1, a1, a2, a3, a4⟩ := mul_over so hr f2
  have hent : ∀ σ, entryOf bn n.name σ = n.entry σ := fun σ => by
    simp only [entryOf, BN.lab_of_mem hc.nodup hn]
  have hmemf : ∀ u ∈ f.variableOrder, u ∈ bn.names := by
    intro u hu
    rw [f3] at hu
    rcases List.mem_cons.1 hu with rfl | hu
    · exact hv
    · exact hc.parents_mem n hn u hu
  unfold VE.naiveStep
  rw [BN.getNode_ok hc.nodup hn, ok_bind, f1, ok_bind, a1, ok_bind]
  cases hev : ev.get? n.name with
  | none =>
    refine ⟨r1, rfl, a2, fun u hu => (a3 u).2 (Or.inl hu), (a3 _).2 (Or.inr (by simp [f3])),
      fun h u hu => ((a3 u).1 hu).elim (h u) (hmemf u), fun σ hσ => ?_⟩
    rw [a4 σ hσ, f4, hent, likOf, hev, mul_one]
  | some e =>
    obtain ⟨e1, e2⟩ := he.at hev
    obtain ⟨g, g1, g2, g3, g4⟩ := asEvidence_over e1 e2
    obtain ⟨r2, b1, b2, b3, b4⟩ := mul_over so a2 g2
    have hlab := BN.lab_eq hc.nodup hn
    refine ⟨r2, by simp only; rw [← hlab, g1, ok_bind, b1], b2,
      fun u hu => (b3 u).2 (Or.inl ((a3 u).2 (Or.inl hu))),
      (b3 _).2 (Or.inl ((a3 _).2 (Or.inr (by simp [f3])))), fun h u hu => ?_, fun σ hσ => ?_⟩
    · rcases (b3 u).1 hu with h' | h'
      · exact ((a3 u).1 h').elim (h u) (hmemf u)
      · rw [g3] at h'; rw [List.mem_singleton.1 h']; exact hv
    · have hl1 : Legal bn.card r1.variableOrder σ := fun u hu => hσ u ((b3 u).2 (Or.inl hu))
      rw [b4 σ hσ, a4 σ hl1, f4, g4 σ (hσ _ ((b3 _).2 (Or.inr (by simp [g3])))), hent, likOf, hev]
      ring

theorem naiveProduct_spec (so : SetOrder) {bn : BN} (hc : bn.Consistent) {ev : Dict Evidence}
    (he : LegalEvidence bn ev) (l : List Name) (hl : ∀ v ∈ l, v ∈ bn.names) {res : Factor}
    (hr : res.Over bn.lab) (hrn : ∀ u ∈ res.variableOrder, u ∈ bn.names) :
    ∃ r, l.foldlM (VE.naiveStep so bn ev) res = .ok r ∧ r.Over bn.lab ∧
      (∀ u ∈ res.variableOrder, u ∈ r.variableOrder) ∧ (∀ u ∈ l, u ∈ r.variableOrder) ∧
      (∀ u ∈ r.variableOrder, u ∈ bn.names) ∧
      ∀ σ, Legal bn.card r.variableOrder σ →
        r.eval σ = res.eval σ * (l.map fun v => entryOf bn v σ * likOf bn ev v σ).prod := by
  induction l generalizing res with
  | nil => exact ⟨res, rfl, hr, fun _ h => h, by simp, hrn, by simp⟩
  | cons v l ih =>
    obtain ⟨r1, a1, a2, a3, a4, a5, a6⟩ := naiveStep_spec so hc he hr (hl v (by simp))
    obtain ⟨r, b1, b2, b3, b4, b5, b6⟩ := ih (fun u hu => hl u (by simp [hu])) a2 (a5 hrn)
    refine ⟨r, by rw [List.foldlM_cons, a1]; exact b1, b2, fun u hu => b3 u (a3 u hu),
      fun u hu => ?_, b5, fun σ hσ => ?_⟩
    · rcases List.mem_cons.1 hu with rfl | hu
      · exact b3 _ a4
      · exact b4 u hu
    · rw [b6 σ hσ, a6 σ fun u hu => hσ u (b3 u hu), List.map_cons, List.prod_cons]
      ring

theorem naiveElim_eq (vars l : List Name) (res : Factor) :
    l.foldlM (VE.naiveElim vars) res = res.marginalize (l.filter fun v => decide (v ∉ vars)) := by
  induction l generalizing res with
  | nil => rfl
  | cons v l ih =>
    rw [List.foldlM_cons, VE.naiveElim]
    by_cases hv : v ∈ vars
    · simp only [hv, if_true, pure_eq_ok, ok_bind, ih]
      simp [hv]
    · simp only [hv, if_false]
      rw [List.filter_cons_of_pos (by simpa using hv)]
      have : ∀ f : Factor, f.marginalize [v] = sumOut f v := fun f => by
        unfold marginalize
        rw [List.foldlM_cons]
        cases f.sumOut v <;> rfl
      rw [this, marginalize, List.foldlM_cons]
      congr 1
      funext r
      exact ih r

/-- `naive_marginals` computes the posterior. -/
theorem naiveMarginals_spec (so : SetOrder) {bn : BN} (hc : bn.Consistent) {ev : Dict Evidence}
    (he : LegalEvidence bn ev) {Q : List Name} (hQ : ∀ v ∈ Q, v ∈ bn.names) :
    ∃ r, VE.naiveMarginals so bn Q ev = .ok r ∧ r.Over bn.lab ∧
      (∀ v, v ∈ r.variableOrder ↔ v ∈ Q) ∧
      ∀ σ, Legal bn.card Q σ → r.eval σ = posterior bn ev Q σ := by
  obtain ⟨r, a1, a2, _, a4, a5, a6⟩ := naiveProduct_spec so hc he bn.names (fun _ h => h)
    (res := Factor.trivial 1) (trivial_over 1) (by simp)
  obtain ⟨s, b1, b2, b3, b4⟩ := marginalize_over a2
    (vs := bn.names.filter fun v => decide (v ∉ Q)) (hc.nodup.filter _)
    (fun v hv => a4 v (List.mem_of_mem_filter hv))
  have hmem : ∀ v, v ∈ s.variableOrder ↔ v ∈ Q := by
    intro v
    rw [b3]
    simp only [List.mem_filter, decide_eq_true_eq, not_and, not_not]
    exact ⟨fun h => h.2 (a5 v h.1), fun h => ⟨a4 v (hQ v h), fun _ => h⟩⟩
  refine ⟨s.normalize, ?_, b2.normalize, by simpa using hmem, fun σ hσ => ?_⟩
  · unfold VE.naiveMarginals
    simp only
    rw [a1, ok_bind, naiveElim_eq, b1]; rfl
  · refine normalize_posterior b2 hmem hQ (fun τ hτ => ?_) hσ
    rw [b4 τ fun v hv => hτ v ((hmem v).1 hv)]
    have hset : (bn.names.filter fun v => decide (v ∉ Q)).toFinset =
        bn.names.toFinset \ Q.toFinset := by ext v; simp
    rw [hset]
    refine sumOver_congr fun ρ hρ => ?_
    have hleg : Legal bn.card r.variableOrder ρ := hρ.legal fun v hv hs => hτ v (by
      have := a5 v hv
      simpa [this] using hs)
    rw [a6 ρ hleg, trivial_eval, one_mul, weight_eq_prod hc.nodup he]

end Primo
