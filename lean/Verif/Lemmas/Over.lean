import Verif.Spec.Network
import Verif.Lemmas.FactorMisc

/-! # Factors with fixed outcome labels; factors made from nodes and evidence -/

namespace Primo
open Finset

theorem sumOver_prod_congr {α : Type} (l : List α) (f g : α → Assign → ℚ) {σ : Assign}
    (h : ∀ a ∈ l, f a σ = g a σ) : (l.map fun a => f a σ).prod = (l.map fun a => g a σ).prod := by
  rw [List.map_congr_left h]

namespace Factor
variable {lab : Name → List Val}

/-- number of outcomes for given labels -/
abbrev cardOf (lab : Name → List Val) : Name → Nat := fun v => (lab v).length

theorem mul_over (so : SetOrder) {f g : Factor} (hf : f.Over lab) (hg : g.Over lab) :
    ∃ r, f.mul so g = .ok r ∧ r.Over lab ∧
      (∀ v, v ∈ r.variableOrder ↔ v ∈ f.variableOrder ∨ v ∈ g.variableOrder) ∧
      ∀ σ, Legal (cardOf lab) r.variableOrder σ → r.eval σ = f.eval σ * g.eval σ := by
  obtain ⟨r, h1, h2, h3, _, h5, h6⟩ := binop_spec (· * ·) so hf.wf hg.wf
  refine ⟨r, h1, ⟨h2, fun v hv => ?_⟩, h3, h6⟩
  rw [h5]
  by_cases hvf : v ∈ f.variableOrder
  · simp [hf.val v hvf]
  · have hvg := ((h3 v).1 hv).resolve_left hvf
    simp [hf.wf.get?_none hvf, hg.val v hvg]

theorem add_over (so : SetOrder) {f g : Factor} (hf : f.Over lab) (hg : g.Over lab) :
    ∃ r, f.add so g = .ok r ∧ r.Over lab ∧
      (∀ v, v ∈ r.variableOrder ↔ v ∈ f.variableOrder ∨ v ∈ g.variableOrder) ∧
      ∀ σ, Legal (cardOf lab) r.variableOrder σ → r.eval σ = f.eval σ + g.eval σ := by
  obtain ⟨r, h1, h2, h3, _, h5, h6⟩ := binop_spec (· + ·) so hf.wf hg.wf
  refine ⟨r, h1, ⟨h2, fun v hv => ?_⟩, h3, h6⟩
  rw [h5]
  by_cases hvf : v ∈ f.variableOrder
  · simp [hf.val v hvf]
  · have hvg := ((h3 v).1 hv).resolve_left hvf
    simp [hf.wf.get?_none hvf, hg.val v hvg]

theorem marginalize_over {f : Factor} (hf : f.Over lab) {vs : List Name} (hvs : vs.Nodup)
    (hsub : ∀ v ∈ vs, v ∈ f.variableOrder) :
    ∃ r, f.marginalize vs = .ok r ∧ r.Over lab ∧
      r.variableOrder = f.variableOrder.filter (fun v => decide (v ∉ vs)) ∧
      ∀ σ, Legal (cardOf lab) r.variableOrder σ →
        r.eval σ = sumOver (cardOf lab) vs.toFinset f.eval σ := by
  obtain ⟨r, h1, h2, h3, h4, h5⟩ := marginalize_spec hf.wf hvs hsub
  refine ⟨r, h1, ⟨h2, fun v hv => ?_⟩, h3, h5⟩
  rw [h4 v hv]
  rw [h3] at hv
  exact hf.val v (List.mem_of_mem_filter hv)

theorem trivial_over (x : ℚ) : (trivial x).Over lab :=
  ⟨⟨by simp [trivial], by simp [trivial], by simp [trivial], rfl⟩, by simp [trivial]⟩

@[simp] theorem trivial_eval (x : ℚ) (σ : Assign) : (trivial x).eval σ = x := rfl
@[simp] theorem trivial_variableOrder (x : ℚ) : (trivial x).variableOrder = [] := rfl

theorem Over.normalize {f : Factor} (hf : f.Over lab) : f.normalize.Over lab :=
  ⟨normalize_wf hf.wf, by simpa using hf.val⟩

/-- parents' labels are recorded -/
theorem parentValues_ok {n : NodeV} {init : Dict (List Val)} {lab : Name → List Val}
    (hnd : n.parentOrder.Nodup) (hinit : ∀ p ∈ n.parentOrder, p ∉ init.keys)
    (hval : ∀ p ∈ n.parentOrder, n.parents.get? p = some (lab p)) :
    ∃ d, parentValues n init = .ok d ∧ d.keys = init.keys ++ n.parentOrder ∧
      ∀ k, d.get? k = if k ∈ n.parentOrder then some (lab k) else init.get? k := by
  obtain ⟨d, h1, h2, h3⟩ := foldlM_setValues (d0 := init) (src := n.parents) hnd hinit
    (fun v hv => Dict.get?_isSome.1 ⟨_, hval v hv⟩)
  refine ⟨d, h1, h2, fun k => ?_⟩
  rw [h3]
  split
  · rename_i h; exact hval k h
  · rfl

end Factor

namespace BN

theorem lab_of_mem {bn : BN} (h : bn.names.Nodup) {n : NodeV} (hn : n ∈ bn) :
    bn.find? (fun m => m.name = n.name) = some n := by
  induction bn with
  | nil => simp at hn
  | cons m bn ih =>
    have hnd := List.nodup_cons.1 (by simpa [names] using h : (m.name :: bn.map NodeV.name).Nodup)
    rcases List.mem_cons.1 hn with rfl | hn
    · simp
    · have : m.name ≠ n.name := fun e => hnd.1 (e ▸ List.mem_map_of_mem hn)
      rw [List.find?_cons_of_neg (by simpa using this)]
      exact ih hnd.2 hn

theorem lab_eq {bn : BN} (h : bn.names.Nodup) {n : NodeV} (hn : n ∈ bn) :
    bn.lab n.name = n.values := by
  rw [lab, lab_of_mem h hn]

theorem getNode_ok {bn : BN} (h : bn.names.Nodup) {n : NodeV} (hn : n ∈ bn) :
    bn.getNode n.name = .ok n := by
  rw [getNode, lab_of_mem h hn]

theorem exists_of_mem_names {bn : BN} {v : Name} (hv : v ∈ bn.names) :
    ∃ n ∈ bn, n.name = v := by
  obtain ⟨n, h1, h2⟩ := List.mem_map.1 hv
  exact ⟨n, h1, h2⟩

theorem getNode_error {bn : BN} {v : Name} (h : v ∉ bn.names) :
    bn.getNode v = .error .exception := by
  have : bn.find? (fun n => n.name = v) = none := by
    rw [List.find?_eq_none]
    intro n hn e
    exact h (List.mem_map.2 ⟨n, hn, by simpa using e⟩)
  rw [getNode, this]

end BN

/-- `Factor.from_node` of a consistent node. -/
theorem fromNode_over {bn : BN} (hc : bn.Consistent) {n : NodeV} (hn : n ∈ bn) :
    ∃ f, Factor.fromNode n = .ok f ∧ f.Over bn.lab ∧ f.variableOrder = n.name :: n.parentOrder ∧
      ∀ σ, f.eval σ = n.entry σ := by
  obtain ⟨d, h1, h2, h3⟩ := Factor.parentValues_ok (init := [(n.name, n.values)])
    (hc.parents_nodup n hn) (by
      intro p hp h
      simp at h
      exact hc.self n hn (h ▸ hp)) (hc.parents_val n hn)
  have hlab := BN.lab_eq hc.nodup hn
  have hval : ∀ v ∈ n.name :: n.parentOrder, d.get? v = some (bn.lab v) := by
    intro v hv
    rw [h3]
    rcases List.mem_cons.1 hv with rfl | hv
    · simp [hc.self n hn, Dict.get?, hlab]
    · simp [hv]
  refine ⟨⟨n.cpd, n.name :: n.parentOrder, d⟩, ?_, ⟨⟨?_, ?_, ?_, ?_⟩, hval⟩, rfl, fun σ => rfl⟩
  · rw [Factor.fromNode, if_neg (hc.kind n hn), h1]; rfl
  · exact List.nodup_cons.2 ⟨hc.self n hn, hc.parents_nodup n hn⟩
  · rw [h2]; simp
  · exact fun v hv => ⟨_, hval v hv, rfl⟩
  · rw [hc.shape n hn, List.map_cons, hlab]; rfl

/-- `Factor.as_evidence` of legal evidence. -/
theorem asEvidence_over {bn : BN} {v : Name} {e : Evidence}
    (hhard : ∀ x, e = .hard x → x ∈ bn.lab v) (hsoft : ∀ l, e = .soft l → l.length = bn.card v) :
    ∃ f, Factor.asEvidence v (bn.lab v) e = .ok f ∧ f.Over bn.lab ∧ f.variableOrder = [v] ∧
      ∀ σ, σ v < bn.card v → f.eval σ = lik (bn.lab v) e (σ v) := by
  cases e with
  | hard x =>
    have hx := hhard x rfl
    refine ⟨_, by rw [Factor.asEvidence, if_pos hx], ⟨⟨by simp, by simp, by simp [Dict.get?], rfl⟩,
      by simp [Dict.get?]⟩, rfl, fun σ hσ => ?_⟩
    have hir : InRange [(bn.lab v).length] ([v].map σ) := by simpa [InRange, BN.card] using hσ
    unfold Factor.eval
    rw [NDArray.get_tabulate _ hir]
    simp only [List.map_cons, List.map_nil, List.cons.injEq, and_true, lik]
    simp only [eq_comm (a := σ v), idxOf_eq_iff_getElem? hx]
  | soft l =>
    have hl := hsoft l rfl
    refine ⟨_, by rw [Factor.asEvidence, if_neg (by simpa [BN.card] using hl)],
      ⟨⟨by simp, by simp, by simp [Dict.get?], by simpa [BN.card] using hl⟩, by simp [Dict.get?]⟩,
      rfl, fun σ _ => ?_⟩
    simp [Factor.eval, lik]

/-- Normalising a table that holds the un-normalised posterior. -/
theorem normalize_posterior {bn : BN} {ev : Dict Evidence} {Q : List Name} {r : Factor}
    (hr : r.Over bn.lab) (hQ : ∀ v, v ∈ r.variableOrder ↔ v ∈ Q) (hQn : ∀ v ∈ Q, v ∈ bn.names)
    (h : ∀ σ, Legal bn.card Q σ →
      r.eval σ = sumOver bn.card (bn.names.toFinset \ Q.toFinset) (weight bn ev) σ)
    {σ : Assign} (hσ : Legal bn.card Q σ) :
    r.normalize.eval σ = posterior bn ev Q σ := by
  have hleg : Legal bn.card r.variableOrder σ := fun v hv => hσ v ((hQ v).1 hv)
  have hfs : r.variableOrder.toFinset = Q.toFinset := by
    ext v; simp [hQ]
  have hsum : r.potentials.sumAll = totalWeight bn ev σ := by
    rw [Factor.sumAll_eq_sumOver hr.wf σ, hfs, totalWeight]
    have hsub : Q.toFinset ⊆ bn.names.toFinset := fun v hv => by
      simpa using hQn v (by simpa using hv)
    rw [← Finset.union_sdiff_of_subset hsub, sumOver_union Finset.disjoint_sdiff]
    refine sumOver_congr fun τ hτ => h τ ?_
    exact fun v hv => hτ.2 v (by simpa using hv)
  rw [Factor.eval_normalize hr.wf hleg, hsum, posterior, h σ hσ]

end Primo
