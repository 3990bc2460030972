import Verif.Lemmas.Rewrite
import Verif.Props.Fit
import Verif.Props.FactorQuery

/-! # Property theorems: how a model is written down does not matter (C76) -/

namespace Primo
open Finset
variable {bn bn' : BN}

theorem ExactAnswer.labels (hc : bn.Consistent) (hn : bn.NonNeg) {ev : Dict Evidence}
    (he : LegalEvidence bn ev) (hen : NonNegEvidence ev) {Q : List Name} (hQ : ∀ v ∈ Q, v ∈ bn.names)
    {r : Factor} (h : ExactAnswer bn ev Q r) : ∀ v ∈ r.variableOrder, r.values.get? v = some (bn.lab v) := by
  cases h with
  | naive so h =>
    obtain ⟨r', h1, -, h2, -⟩ := C13_naive_exact so bn hc ev he Q hQ
    rw [h] at h1; cases h1; exact h2
  | bucket so o hQn ho h =>
    obtain ⟨r', h1, -, h2, -⟩ := C14_bucket_exact so bn hc ev he Q hQn hQ o ho
    rw [h] at h1; cases h1; exact h2
  | default so hQn hl h =>
    obtain ⟨r', h1, -, h2, -⟩ := C14_bucket_exact_default so bn hc hl ev he Q hQn hQ
    rw [h] at h1; cases h1; exact h2
  | tree order0 so₁ so₂ so₃ limit limit' t t' hs hco hl h1 h2 h3 h4 =>
    obtain ⟨t₁, t₁', a1, a2, -, a4⟩ := C21_tree_exact_partial hs hn hco he hen hl so₁ so₂
    rw [h1] at a1; cases a1
    rw [h2] at a2; cases a2
    obtain ⟨r', r1, -, r2, -⟩ := a4 Q h3 so₃ limit'
    rw [r1] at h4
    cases h4
    exact r2

/-- asking a table for one outcome of each of its variables -/
theorem Factor.getPotential_one {card : Name → Nat} {f : Factor} (hf : f.WF card) (hl : ∀ v ∈ f.variableOrder,
    f.values.get? v = some (bn.lab v)) {Q : List Name} (hQ : ∀ v, v ∈ f.variableOrder ↔ v ∈ Q) (hne : Q ≠ [])
    {α : Name → Val} (hα : bn.Outcomes Q α) :
    ∃ t, f.getPotential (Q.map fun v => (v, [α v])) = .ok t ∧ t.shape = [] ∧
      t.data = [f.eval (bn.index α)] := by
  have hget : ∀ v ∈ f.variableOrder, Dict.get? (Q.map fun v => (v, [α v])) v = some [α v] := by
    intro v hv
    obtain ⟨l, hl⟩ := Dict.get?_isSome.2 (show v ∈ Dict.keys (Q.map fun v => (v, [α v])) by
      simpa [Dict.keys, Function.comp_def] using (hQ v).1 hv)
    obtain ⟨u, -, hu⟩ := List.mem_map.1 (Dict.get?_mem hl)
    cases hu
    exact hl
  obtain ⟨t, t1, t2, t3⟩ := (C08_sub_table f hf bn.lab hl (Q.map fun v => (v, [α v]))).2 fun v hv req hr x hx => by
    rw [hget v hv] at hr
    cases hr
    rw [List.mem_singleton.1 hx]
    exact hα v ((hQ v).1 hv)
  obtain ⟨t', s1, s2, s3⟩ := C08_get_potential f _ t t1
  have hsh : t.shape = f.variableOrder.map fun _ => 1 := by
    rw [t2]
    exact List.map_congr_left fun v hv => by rw [hget v hv]; rfl
  have hprod : t.shape.prod = 1 := by rw [hsh]; simp
  have hsh' : t'.shape = [] := by
    rw [s3, if_neg (by simpa using hne), hsh, List.filter_eq_nil_iff]
    simp
  have hval : t.get (f.variableOrder.map fun _ => 0) = f.eval (bn.index α) := by
    refine t3 (fun _ => 0) _ fun v hv => ?_
    unfold Addresses
    rw [hget v hv]
    have hm := hα v ((hQ v).1 hv)
    obtain ⟨h1, h2⟩ := (idxOf_eq_iff_getElem? hm).1 (rfl : (bn.lab v).idxOf (α v) = _)
    exact ⟨α v, rfl, h1, h2⟩
  have hrav : ∀ l : List Name, NDArray.ravel (l.map fun _ => 1) (l.map fun _ => 0) = 0 := by
    intro l
    induction l with
    | nil => rfl
    | cons v l ih => simpa only [List.map_cons, NDArray.ravel, zero_mul, zero_add] using ih
  obtain ⟨x, hx⟩ := List.length_eq_one_iff.1 (t.size_eq.trans hprod)
  have hxe : x = f.eval (bn.index α) := by
    rw [← hval, NDArray.get, hsh, hrav, hx]
    rfl
  exact ⟨t', s1, hsh', by rw [s2, hx, hxe]⟩

/-! ## C76 -/

/-- **C76** Exact answers do not depend on the order in which the nodes, the outcomes of a variable and the
parents of a node are written down. -/
theorem C76_same_answers (h : Rewritten bn bn') (hc : bn.Consistent) (hc' : bn'.Consistent) (hn : bn.NonNeg)
    (hn' : bn'.NonNeg) {ev ev' : Dict Evidence} (he : LegalEvidence bn ev) (he' : LegalEvidence bn' ev')
    (hen : NonNegEvidence ev) (hen' : NonNegEvidence ev') (hev : SameEvidence bn bn' ev ev') {Q : List Name}
    (hQ : ∀ v ∈ Q, v ∈ bn.names) {r r' : Factor} (hr : ExactAnswer bn ev Q r)
    (hr' : ExactAnswer bn' ev' Q r') : SameByLabel bn bn' Q r r' := by
  have hQ' : ∀ v ∈ Q, v ∈ bn'.names := fun v hv => h.names.mem_iff.1 (hQ v hv)
  obtain ⟨a1, a2⟩ := hr.spec hc hn he hen hQ
  obtain ⟨b1, b2⟩ := hr'.spec hc' hn' he' hen' hQ'
  refine ⟨fun v => by rw [a1, b1], fun α hα => ?_⟩
  rw [a2 (bn.index α) fun v hv => List.idxOf_lt_length_of_mem (hα v hv), b2 (bn'.index α) fun v hv =>
    List.idxOf_lt_length_of_mem ((h.labels v (hQ v hv)).mem_iff.1 (hα v hv))]
  exact h.posterior hc hc' he he' hev hα

/-- **C76** In the library's own terms: `get_potential` with one outcome per variable returns the same number. -/
theorem C76_get_potential (h : Rewritten bn bn') (hc : bn.Consistent) (hc' : bn'.Consistent) (hn : bn.NonNeg)
    (hn' : bn'.NonNeg) {ev ev' : Dict Evidence} (he : LegalEvidence bn ev) (he' : LegalEvidence bn' ev')
    (hen : NonNegEvidence ev) (hen' : NonNegEvidence ev') (hev : SameEvidence bn bn' ev ev') {Q : List Name}
    (hne : Q ≠ []) (hQ : ∀ v ∈ Q, v ∈ bn.names) {r r' : Factor} (hr : ExactAnswer bn ev Q r)
    (hr' : ExactAnswer bn' ev' Q r') {α : Name → Val} (hα : bn.Outcomes Q α) :
    ∃ x, r.getPotential (Q.map fun v => (v, [α v])) = .ok x ∧
      r'.getPotential (Q.map fun v => (v, [α v])) = .ok x := by
  have hQ' : ∀ v ∈ Q, v ∈ bn'.names := fun v hv => h.names.mem_iff.1 (hQ v hv)
  have hα' : bn'.Outcomes Q α := fun v hv => (h.labels v (hQ v hv)).mem_iff.1 (hα v hv)
  have hs := C76_same_answers h hc hc' hn hn' he he' hen hen' hev hQ hr hr'
  obtain ⟨t, t1, t2, t3⟩ := Factor.getPotential_one (hr.wf hc hn he hen hQ) (hr.labels hc hn he hen hQ)
    (hr.spec hc hn he hen hQ).1 hne hα
  obtain ⟨t', s1, s2, s3⟩ := Factor.getPotential_one (hr'.wf hc' hn' he' hen' hQ') (hr'.labels hc' hn' he' hen' hQ')
    (hr'.spec hc' hn' he' hen' hQ').1 hne hα'
  rw [← hs.2 α hα] at s3
  have : t = t' := by
    cases t; cases t'
    simp only at t2 t3 s2 s3
    subst t2 t3 s2 s3
    rfl
  exact ⟨t, t1, this ▸ s1⟩

/-- **C76** Hard evidence is written the same way for both networks. -/
theorem C76_hard_evidence (h : Rewritten bn bn') {ev : Dict Evidence} (he : LegalEvidence bn ev)
    (hard : ∀ p ∈ ev, ∃ x, p.2 = .hard x) : LegalEvidence bn' ev ∧ SameEvidence bn bn' ev ev := by
  have hm : ∀ p ∈ ev, p.1 ∈ bn.names := he.mem
  have hl : ∀ v x, (v, Evidence.hard x) ∈ ev → x ∈ bn'.lab v := fun v x hx =>
    (h.labels v (hm _ hx)).mem_iff.1 (he.hard v x hx)
  refine ⟨⟨he.nodup, fun p hp => h.names.mem_iff.1 (hm p hp), hl, fun v l hv => ?_⟩, fun v hv x hx => ?_⟩
  · obtain ⟨x, hx⟩ := hard _ hv
    cases hx
  · unfold likAt
    cases hg : ev.get? v with
    | none => rfl
    | some e =>
      have hmem := Dict.get?_mem hg
      obtain ⟨y, rfl⟩ := hard _ hmem
      have hy := he.hard v y hmem
      have hx' := (h.labels v hv).mem_iff.1 hx
      simp only [lik_hard hy, lik_hard (hl v y hmem), List.idxOf_inj hx, List.idxOf_inj hx']

end Primo
