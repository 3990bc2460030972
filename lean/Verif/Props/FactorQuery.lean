import Verif.Lemmas.FactorMisc
import Verif.Examples.Factor
import Mathlib.Tactic.FieldSimp
import Mathlib.Tactic.Positivity
import Mathlib.Tactic.IntervalCases

/-! # C08, C10 – C12: sub-tables, evidence factors, sample frequencies -/

namespace Primo
open Finset

variable {card : Name → Nat}

/-! ## C08 -/

/-- The instantiation `σ` is the one that position `i` of a query `q` addresses at variable `v`:
the (first) outcome equal to the `i v`-th requested label, or the `i v`-th outcome if `v` is not
queried. -/
def Addresses (card : Name → Nat) (lab : Name → List Val) (q : Dict (List Val)) (i σ : Assign)
    (v : Name) : Prop :=
  match q.get? v with
  | some req => ∃ x, req[i v]? = some x ∧ (lab v)[σ v]? = some x ∧ ∀ j < σ v, (lab v)[j]? ≠ some x
  | none => i v < card v ∧ σ v = i v

/-- **C08** `get_potential` before the final `squeeze`. -/
theorem C08_sub_table (f : Factor) (hf : f.WF card) (lab : Name → List Val)
    (hlab : ∀ v ∈ f.variableOrder, f.values.get? v = some (lab v)) (q : Dict (List Val)) :
    (f.subTable q = .error .valueError ↔
      ∃ v ∈ f.variableOrder, ∃ req, q.get? v = some req ∧ ∃ x ∈ req, x ∉ lab v) ∧
    ((∀ v ∈ f.variableOrder, ∀ req, q.get? v = some req → ∀ x ∈ req, x ∈ lab v) →
      ∃ t, f.subTable q = .ok t ∧
        t.shape = f.variableOrder.map (fun v => match q.get? v with
          | some req => req.length
          | none => card v) ∧
        ∀ i σ : Assign, (∀ v ∈ f.variableOrder, Addresses card lab q i σ v) →
          t.get (f.variableOrder.map i) = f.eval σ) := by
  have hcard : ∀ v ∈ f.variableOrder, (lab v).length = card v := by
    intro v hv
    obtain ⟨l, h1, h2⟩ := hf.labels v hv
    rw [hlab v hv] at h1
    cases h1; exact h2
  have main : (∀ v ∈ f.variableOrder, ∀ req, q.get? v = some req → ∀ x ∈ req, x ∈ lab v) →
      ∃ t, f.subTable q = .ok t ∧
        t.shape = f.variableOrder.map (fun v => match q.get? v with
          | some req => req.length
          | none => card v) ∧
        ∀ i σ : Assign, (∀ v ∈ f.variableOrder, Addresses card lab q i σ v) →
          t.get (f.variableOrder.map i) = f.eval σ := by
    intro hreq
    unfold Factor.subTable
    rw [Factor.subTable_index hlab hreq, ok_bind]
    by_cases hq : q.length = 0
    · have hq' : q = [] := List.length_eq_zero_iff.1 hq
      subst hq'
      rw [if_pos hq]
      refine ⟨_, rfl, by simpa [Dict.get?] using hf.shape, fun i σ h => ?_⟩
      unfold Factor.eval
      congr 1
      exact List.map_congr_left fun v hv => (h v hv).2.symm
    · rw [if_neg hq]
      have hlen : ∀ v ∈ f.variableOrder, (Factor.reqPos (lab v) (q.get? v)).length =
          (match q.get? v with
            | some req => req.length
            | none => card v) := by
        intro v hv
        cases h : q.get? v <;> simp [Factor.reqPos, hcard v hv]
      have hshape : (f.variableOrder.map fun v => Factor.reqPos (lab v) (q.get? v)).map List.length =
          f.variableOrder.map (fun v => match q.get? v with
            | some req => req.length
            | none => card v) := by
        rw [List.map_map]
        exact List.map_congr_left hlen
      have hix : (f.variableOrder.map fun v => Factor.reqPos (lab v) (q.get? v)).length =
            f.potentials.ndim ∧
          ∀ p ∈ (f.variableOrder.map fun v => Factor.reqPos (lab v) (q.get? v)).zip
            f.potentials.shape, ∀ i ∈ p.1, i < p.2 := by
        refine ⟨by simp [NDArray.ndim, hf.shape], ?_⟩
        rw [hf.shape, List.zip_map']
        intro p hp i hi
        obtain ⟨v, hv, rfl⟩ := List.mem_map.1 hp
        simp only at hi ⊢
        rw [← hcard v hv]
        cases h : q.get? v with
        | none => simpa [Factor.reqPos, h] using hi
        | some req =>
          simp only [Factor.reqPos, h, List.mem_map] at hi
          obtain ⟨x, hx, rfl⟩ := hi
          exact List.idxOf_lt_length_of_mem (hreq v hv req h x hx)
      refine ⟨_, by rw [NDArray.ix, if_pos hix], hshape, fun i σ h => ?_⟩
      have hir : InRange ((f.variableOrder.map fun v =>
          Factor.reqPos (lab v) (q.get? v)).map List.length) (f.variableOrder.map i) := by
        rw [hshape]
        refine inRange_map.2 fun v hv => ?_
        have := h v hv
        unfold Addresses at this
        cases hg : q.get? v with
        | none => rw [hg] at this; exact this.1
        | some req =>
          rw [hg] at this
          obtain ⟨x, hx, _⟩ := this
          exact (List.getElem?_eq_some_iff.1 hx).1
      rw [NDArray.get_tabulate _ hir]
      unfold Factor.eval
      congr 1
      rw [List.zipWith_map, List.zipWith_self]
      refine List.map_congr_left fun v hv => ?_
      have := h v hv
      unfold Addresses at this
      cases hg : q.get? v with
      | none =>
        rw [hg] at this
        simp [Factor.reqPos, this.2, hcard v hv, this.1]
      | some req =>
        rw [hg] at this
        obtain ⟨x, hx, hl, hfirst⟩ := this
        have hxl : x ∈ lab v := List.mem_of_getElem? hl
        have : (lab v).idxOf x = σ v := (idxOf_eq_iff_getElem? hxl).2 ⟨hl, hfirst⟩
        simp [Factor.reqPos, hx, this]
  refine ⟨⟨fun h => ?_, ?_⟩, main⟩
  · by_contra hcon
    push Not at hcon
    obtain ⟨t, ht, _⟩ := main hcon
    rw [ht] at h; cases h
  · rintro ⟨v, hv, req, hq, x, hx, hxl⟩
    unfold Factor.subTable
    rw [mapM_error (e := .valueError)]
    · rfl
    · intro u hu
      rw [Dict.getE_ok (hlab u hu), ok_bind]
      cases hg : q.get? u with
      | none => exact Or.inl ⟨_, rfl⟩
      | some req' =>
        simp only [Factor.reqIndex]
        by_cases hall : ∀ y ∈ req', y ∈ lab u
        · exact Or.inl ⟨_, mapM_ok (g := fun y => (lab u).idxOf y) fun y hy => pyIndex_ok (hall y hy)⟩
        · push Not at hall
          obtain ⟨y, hy, hyl⟩ := hall
          refine Or.inr (mapM_error (fun z _ => ?_) ⟨y, hy, by simp [pyIndex, hyl]⟩)
          by_cases hz : z ∈ lab u
          · exact Or.inl ⟨_, pyIndex_ok hz⟩
          · exact Or.inr (by simp [pyIndex, hz])
    · refine ⟨v, hv, ?_⟩
      rw [Dict.getE_ok (hlab v hv), ok_bind, hq]
      refine mapM_error (fun z _ => ?_) ⟨x, hx, by simp [pyIndex, hxl]⟩
      by_cases hz : z ∈ lab v
      · exact Or.inl ⟨_, pyIndex_ok hz⟩
      · exact Or.inr (by simp [pyIndex, hz])

/-- **C08** the value handed to the user is that sub-table without its axes of length one. -/
theorem C08_get_potential (f : Factor) (q : Dict (List Val)) (t : NDArray)
    (h : f.subTable q = .ok t) :
    ∃ t', f.getPotential q = .ok t' ∧ t'.data = t.data ∧
      t'.shape = if q = [] then t.shape else t.shape.filter (· ≠ 1) := by
  unfold Factor.getPotential
  rw [h, ok_bind]
  by_cases hq : q = []
  · subst hq; exact ⟨t, rfl, rfl, by simp⟩
  · rw [if_neg (by simpa using hq)]
    exact ⟨t.squeeze, rfl, rfl, by rw [if_neg hq]; rfl⟩

/-- **C08** fully specified instantiation: the answer is the single potential (a 0-d array). -/
theorem C08_single (f : Factor) (hf : f.WF card) (lab : Name → List Val)
    (hlab : ∀ v ∈ f.variableOrder, f.values.get? v = some (lab v)) (hne : f.variableOrder ≠ [])
    (q : Dict (List Val)) (σ : Assign)
    (hnd : ∀ v ∈ f.variableOrder, (lab v).Nodup)
    (hq : ∀ v ∈ f.variableOrder, ∃ x, q.get? v = some [x] ∧ (lab v)[σ v]? = some x) :
    f.getPotential q = .ok (NDArray.scalar (f.eval σ)) := by
  have hmem : ∀ v ∈ f.variableOrder, ∀ req, q.get? v = some req → ∀ x ∈ req, x ∈ lab v := by
    intro v hv req hreq x hx
    obtain ⟨y, h1, h2⟩ := hq v hv
    rw [h1] at hreq; cases hreq
    rw [List.mem_singleton.1 hx]
    exact List.mem_of_getElem? h2
  obtain ⟨t, t1, t2, t3⟩ := (C08_sub_table f hf lab hlab q).2 hmem
  obtain ⟨t', u1, u2, u3⟩ := C08_get_potential f q t t1
  have hqne : q ≠ [] := by
    obtain ⟨v, hv⟩ := List.exists_mem_of_ne_nil _ hne
    obtain ⟨x, hx, _⟩ := hq v hv
    rintro rfl; simp [Dict.get?] at hx
  have hs : t.shape = f.variableOrder.map fun _ => 1 := by
    rw [t2]
    refine List.map_congr_left fun v hv => ?_
    obtain ⟨x, hx, _⟩ := hq v hv
    rw [hx]; rfl
  have hs' : t'.shape = [] := by
    rw [u3, if_neg hqne, hs]
    simp
  have hget := t3 (fun _ => 0) σ (by
    intro v hv
    obtain ⟨x, h1, h2⟩ := hq v hv
    unfold Addresses
    rw [h1]
    exact ⟨x, rfl, h2, ((idxOf_eq_iff_getElem? (List.mem_of_getElem? h2)).1
      ((idxOf_eq_iff_of_nodup (hnd v hv) (List.mem_of_getElem? h2)).2 h2)).2⟩)
  have hidx : ∀ l : List Name, allIdx (l.map fun _ => 1) = [l.map fun _ => 0] := by
    intro l
    induction l with
    | nil => rfl
    | cons a l ih => rw [List.map_cons, allIdx, ih]; rfl
  have hdata : t.data = [f.eval σ] := by
    rw [NDArray.data_eq, hs, hidx, List.map_singleton, hget]
  have hrep : t' = NDArray.scalar (f.eval σ) := by
    obtain ⟨s, d, p⟩ := t'
    simp only at u2 hs'
    subst hs'
    rw [hdata] at u2
    subst u2
    rfl
  rw [u1, hrep]

example : ∃ t, Ex.g.getPotential [("b", ["z", "x"]), ("c", ["f"]), ("unknown", ["q"])] = .ok t ∧
    t.shape = [2, 2] ∧ t.data = [6, 4, 9, 7] := ⟨_, rfl, by decide +kernel, by decide +kernel⟩
/-- outcome labels of the example variables -/
private def exLab : Name → List Val := fun v => if v = "b" then ["x", "y", "z"] else ["t", "f"]
example := (C08_sub_table Ex.g Ex.g_wf exLab (by decide) [("b", ["z", "x"]), ("c", ["f"])]).2
  (by decide)
example : Ex.g.subTable [("b", ["nope"])] = .error .valueError :=
  (C08_sub_table Ex.g Ex.g_wf exLab (by decide) _).1.2
    ⟨"b", by decide, ["nope"], by decide, "nope", by decide, by decide⟩
example := C08_single Ex.f Ex.f_wf exLab (by decide) (by decide) [("a", ["f"]), ("b", ["x"])]
  (fun v => if v = "a" then 1 else 0) (by decide)
  (by intro v hv; rcases (by simpa [Ex.f] using hv : v = "b" ∨ v = "a") with rfl | rfl
      · exact ⟨"x", by decide, by decide⟩
      · exact ⟨"f", by decide, by decide⟩)

/-! ## C10 -/

/-- **C10** hard evidence: refused iff it is not an outcome, otherwise the indicator of the (first)
position with that label. -/
theorem C10_hard_evidence (v : Name) (values : List Val) (x : Val) (old : Option NDArray) :
    (Factor.asEvidence v values (.hard x) old = .error .valueError ↔ x ∉ values) ∧
    (x ∈ values → ∃ r, Factor.asEvidence v values (.hard x) old = .ok r ∧
      r.WF (fun _ => values.length) ∧ r.variableOrder = [v] ∧ r.values = [(v, values)] ∧
      ∀ σ, σ v < values.length → r.eval σ =
        if values[σ v]? = some x ∧ ∀ j < σ v, values[j]? ≠ some x then 1 else 0) := by
  refine ⟨⟨fun h hx => ?_, fun hx => by simp [Factor.asEvidence, hx]⟩, fun hx => ?_⟩
  · simp [Factor.asEvidence, hx] at h
  · refine ⟨_, by rw [Factor.asEvidence, if_pos hx], ⟨by simp, by simp, by simp [Dict.get?], rfl⟩,
      rfl, rfl, fun σ hσ => ?_⟩
    have hir : InRange [values.length] ([v].map σ) := by simpa [InRange] using hσ
    unfold Factor.eval
    rw [NDArray.get_tabulate _ hir]
    simp only [List.map_cons, List.map_nil, List.cons.injEq, and_true,
      eq_comm (a := σ v), idxOf_eq_iff_getElem? hx]

/-- **C10** soft evidence without old marginals: refused iff its length is wrong, otherwise taken as
it is as likelihood. -/
theorem C10_soft_evidence (v : Name) (values : List Val) (e : List ℚ) :
    (Factor.asEvidence v values (.soft e) = .error .valueError ↔ e.length ≠ values.length) ∧
    (e.length = values.length → ∃ r, Factor.asEvidence v values (.soft e) = .ok r ∧
      r.WF (fun _ => values.length) ∧ r.variableOrder = [v] ∧ r.values = [(v, values)] ∧
      ∀ σ, e[σ v]? = some (r.eval σ) ∨ e.length ≤ σ v) := by
  refine ⟨⟨fun h hl => by simp [Factor.asEvidence, hl] at h,
    fun h => by simp [Factor.asEvidence, h]⟩, fun hl => ?_⟩
  refine ⟨_, by rw [Factor.asEvidence, if_neg (by simpa using hl)], ⟨by simp, by simp,
    by simp [Dict.get?], by simpa using hl⟩, rfl, rfl, fun σ => ?_⟩
  by_cases h : σ v < e.length
  · left; simp [Factor.eval, h]
  · right; omega

/-- **C10** a hard observation and the corresponding one-hot array give the same factor. -/
theorem C10_hard_eq_one_hot (v : Name) (values : List Val) (x : Val) (hx : x ∈ values) :
    Factor.asEvidence v values (.hard x) =
      Factor.asEvidence v values (.soft ((List.range values.length).map fun i =>
        if values[i]? = some x ∧ ∀ j < i, values[j]? ≠ some x then 1 else 0)) := by
  rw [Factor.asEvidence, Factor.asEvidence, if_pos hx, if_neg (by simp)]
  simp only [Except.ok.injEq, Factor.mk.injEq, and_true]
  refine NDArray.ext_get (by simp) fun idx hidx => ?_
  have hl := hidx.length_eq
  simp only [NDArray.tabulate_shape] at hidx hl
  obtain ⟨i, rfl⟩ := List.length_eq_one_iff.1 hl
  have hi : i < values.length := by simpa [InRange] using hidx
  rw [NDArray.get_tabulate _ hidx, NDArray.get_ofList]
  simp only [List.cons.injEq, and_true, List.getD_eq_getElem?_getD, List.getElem?_map,
    List.getElem?_range hi, Option.map_some, Option.getD_some, eq_comm (a := i),
    idxOf_eq_iff_getElem? hx]

example : ∃ r, Factor.asEvidence "b" ["x", "y", "z"] (.hard "y") = .ok r ∧
    r.potentials.data = [0, 1, 0] := ⟨_, rfl, by decide +kernel⟩
example := (C10_hard_evidence "b" ["x", "y", "z"] "y" none).2 (by decide)
example := (C10_soft_evidence "b" ["x", "y", "z"] [1 / 2, 0, 1]).2 (by decide)
example := C10_hard_eq_one_hot "b" ["x", "y", "z"] "y" (by decide)
example : Factor.asEvidence "b" ["x", "y", "z"] (.soft [1, 2]) = .error .valueError :=
  (C10_soft_evidence _ _ _).1.2 (by decide)

/-! ## C11 -/

theorem foldl_max_ge (l : List ℚ) (a : ℚ) : a ≤ l.foldl max a ∧ ∀ x ∈ l, x ≤ l.foldl max a := by
  induction l generalizing a with
  | nil => simp
  | cons b l ih =>
    have h := ih (max a b)
    refine ⟨le_trans (le_max_left _ _) h.1, fun x hx => ?_⟩
    rcases List.mem_cons.1 hx with rfl | hx
    · exact le_trans (le_max_right _ _) h.1
    · exact h.2 x hx

theorem foldl_max_mem (l : List ℚ) (a : ℚ) : l.foldl max a ∈ a :: l := by
  induction l generalizing a with
  | nil => simp
  | cons b l ih =>
    have h := ih (max a b)
    simp only [List.foldl_cons]
    rcases List.mem_cons.1 h with h | h
    · rw [h]
      rcases le_total a b with hab | hab
      · simp [max_eq_right hab]
      · simp [max_eq_left hab]
    · exact List.mem_cons_of_mem _ (List.mem_cons_of_mem _ h)

/-- **C11** The likelihood computed from the desired posterior `e` and the old marginals `m`
satisfies: `m · L` renormalised is `e`. -/
theorem C11_soft_posterior (v : Name) (values : List Val) (e : List ℚ) (m : NDArray)
    (hm : m.shape = [values.length]) (hlen : e.length = values.length)
    (hnn : ∀ x ∈ e, 0 ≤ x) (hsum : e.sum = 1)
    (hsupp : ∀ i, i < values.length → m.get [i] = 0 → e.getD i 0 = 0) :
    ∃ r, Factor.asEvidence v values (.soft e) (some m) = .ok r ∧
      r.WF (fun _ => values.length) ∧ r.variableOrder = [v] ∧ r.values = [(v, values)] ∧
      (∑ i ∈ range values.length, m.get [i] * r.potentials.get [i]) ≠ 0 ∧
      (∀ j < values.length, m.get [j] * r.potentials.get [j] /
        (∑ i ∈ range values.length, m.get [i] * r.potentials.get [i]) = e.getD j 0) ∧
      ((∀ i < values.length, 0 ≤ m.get [i]) → ∀ i < values.length, 0 ≤ r.potentials.get [i]) := by
  cases he : e with
  | nil => rw [he] at hsum; simp at hsum
  | cons x xs =>
    rw [← he]
    set mx := xs.foldl max x with hmx
    set ref := e.idxOf mx with href
    have hmem : mx ∈ e := by rw [he]; exact foldl_max_mem xs x
    have hreflt : ref < values.length := by rw [← hlen]; exact List.idxOf_lt_length_of_mem hmem
    have hrefv : e.getD ref 0 = mx := by
      simp [href, List.getD_eq_getElem?_getD, List.getElem?_idxOf hmem]
    have hle : ∀ y ∈ e, y ≤ mx := by
      rw [he]; intro y hy
      rcases List.mem_cons.1 hy with rfl | hy
      · exact (foldl_max_ge xs y).1
      · exact (foldl_max_ge xs x).2 y hy
    have hpos : 0 < mx := by
      by_contra hcon
      have hz : ∀ y ∈ e, y = 0 := fun y hy => le_antisymm (le_trans (hle y hy) (not_lt.1 hcon)) (hnn y hy)
      have : e.sum = 0 := List.sum_eq_zero hz
      rw [this] at hsum; exact absurd hsum (by norm_num)
    have hmref : m.get [ref] ≠ 0 := by
      intro h
      have := hsupp ref hreflt h
      rw [hrefv] at this
      exact absurd this (ne_of_gt hpos)
    let L : Nat → ℚ := fun i => if i = ref then 1 else if m.get [i] = 0 then 0
      else e.getD i 0 / m.get [i] * m.get [ref] / mx
    have hmapM : ((List.range values.length).mapM fun i =>
        if i = ref then (.ok 1 : Except PyErr ℚ)
        else if m.shape.headD 0 ≤ i then .error PyErr.indexError
        else if m.get [i] = 0 then .ok 0
        else if m.shape.headD 0 ≤ ref then .error PyErr.indexError
        else if e.getD ref 0 = 0 then .error PyErr.nonFinite
        else .ok (e.getD i 0 / m.get [i] * m.get [ref] / e.getD ref 0)) =
        .ok ((List.range values.length).map L) := by
      apply mapM_ok
      intro i hi
      have hi' : i < values.length := List.mem_range.1 hi
      have hh : m.shape.headD 0 = values.length := by rw [hm]; rfl
      rw [hrefv, hh]
      simp only [L]
      by_cases h1 : i = ref
      · simp [h1]
      · rw [if_neg h1, if_neg h1, if_neg (not_le.2 hi')]
        by_cases h2 : m.get [i] = 0
        · simp [h2]
        · rw [if_neg h2, if_neg h2, if_neg (not_le.2 hreflt), if_neg (ne_of_gt hpos)]
    have hL : ∀ i < values.length, m.get [i] * L i = e.getD i 0 * (m.get [ref] / mx) := by
      intro i hi
      simp only [L]
      by_cases h1 : i = ref
      · rw [if_pos h1, h1, hrefv]; field_simp
      · rw [if_neg h1]
        by_cases h2 : m.get [i] = 0
        · rw [if_pos h2, hsupp i hi h2]; simp
        · rw [if_neg h2]; field_simp
    have hesum : ∑ i ∈ range values.length, e.getD i 0 = 1 := by
      rw [← hsum, ← sum_map_range, ← hlen]
      congr 1
      apply List.ext_getElem
      · simp
      · intro i h1 h2; simp [h2]
    have hget : ∀ i < values.length,
        (NDArray.ofList ((List.range values.length).map L)).get [i] = L i := by
      intro i hi
      simp [List.getD_eq_getElem?_getD, hi]
    have hs : (∑ i ∈ range values.length,
        m.get [i] * (NDArray.ofList ((List.range values.length).map L)).get [i]) = m.get [ref] / mx := by
      rw [Finset.sum_congr rfl fun i hi => by
        rw [hget i (mem_range.1 hi), hL i (mem_range.1 hi)], ← Finset.sum_mul, hesum, one_mul]
    have hne : m.get [ref] / mx ≠ 0 := div_ne_zero hmref (ne_of_gt hpos)
    refine ⟨⟨NDArray.ofList ((List.range values.length).map L), [v], [(v, values)]⟩, ?_,
      ⟨by simp, by simp, by simp [Dict.get?], by simp⟩, rfl, rfl, ?_, ?_, fun hm0 i hi => ?_⟩
    · have ham : Factor.argmax e = .ok ref := by rw [he, Factor.argmax, href, he]
      rw [Factor.asEvidence, if_neg (by simpa using hlen)]
      simp only
      rw [ham, ok_bind, hmapM]
      rfl
    · rw [hs]; exact hne
    · intro j hj
      rw [hs, hget j hj, hL j hj, mul_div_assoc, div_self hne, mul_one]
    · rw [hget i hi]
      simp only [L]
      split_ifs
      · norm_num
      · exact le_rfl
      · refine div_nonneg (mul_nonneg (div_nonneg (hnn _ ?_) (hm0 i hi)) (hm0 ref hreflt)) hpos.le
        rw [List.getD_eq_getElem?_getD, List.getElem?_eq_getElem (hlen ▸ hi)]
        exact List.getElem_mem _

example : (Factor.asEvidence "b" ["x", "y", "z"] (.soft [1 / 2, 1 / 2, 0])
    (some ⟨[3], [1 / 5, 3 / 5, 1 / 5], rfl⟩)).map (fun r => r.potentials.data) =
    .ok [1, 1 / 3, 0] := by decide +kernel
example := C11_soft_posterior "b" ["x", "y", "z"] [1 / 2, 1 / 2, 0] ⟨[3], [1 / 5, 4 / 5, 0], rfl⟩
  rfl rfl (by decide +kernel) (by decide +kernel)
  (by intro i hi; simp only [List.length_cons, List.length_nil] at hi
      interval_cases i <;> decide +kernel)

/-! ## C12 -/

/-- number of samples that agree with the instantiation `σ` on all variables of `vv` -/
def agreeing (vv : Dict (List Val)) (samples : List (Dict Val)) (σ : Assign) : Nat :=
  samples.countP fun s => decide (∀ p ∈ vv, s.get? p.1 = p.2[σ p.1]?)

/-- **C12** `from_samples` is the table of relative frequencies, a probability distribution. -/
theorem C12_from_samples (vv : Dict (List Val)) (samples : List (Dict Val))
    (hkeys : vv.keys.Nodup) (hnd : ∀ p ∈ vv, p.2.Nodup) (hcard : ∀ p ∈ vv, card p.1 = p.2.length)
    (hne : samples ≠ [])
    (hs : ∀ s ∈ samples, ∀ p ∈ vv, ∃ x, s.get? p.1 = some x ∧ x ∈ p.2) :
    ∃ r, Factor.fromSamples samples vv = .ok r ∧ r.WF card ∧ r.variableOrder = vv.keys ∧
      r.values = vv ∧
      (∀ σ, Legal card vv.keys σ → r.eval σ = (agreeing vv samples σ : ℚ) / samples.length) ∧
      (∀ σ, Legal card vv.keys σ → 0 ≤ r.eval σ) ∧
      ∀ σ, sumOver card vv.keys.toFinset r.eval σ = 1 := by
  have hshape : (vv.map fun p => p.2.length) = vv.keys.map card := by
    rw [Dict.keys, List.map_map]
    exact List.map_congr_left fun p hp => (hcard p hp).symm
  have hget : ∀ p ∈ vv, vv.get? p.1 = some p.2 := fun p hp => Dict.get?_of_mem hkeys hp
  -- index list addressed by a sample
  have hidx : ∀ s, (∀ p ∈ vv, ∃ x, s.get? p.1 = some x ∧ x ∈ p.2) → ∃ idx : List Nat,
      InRange (vv.keys.map card) idx ∧
      (∀ σ : Assign, vv.keys.map σ = idx ↔ ∀ p ∈ vv, s.get? p.1 = p.2[σ p.1]?) ∧
      ∀ pot : NDArray, pot.shape = vv.keys.map card →
        ∃ pot', Factor.countSample ⟨pot, vv.keys, vv⟩ s = .ok ⟨pot', vv.keys, vv⟩ ∧
          pot'.shape = vv.keys.map card ∧ ∀ i, InRange (vv.keys.map card) i →
            pot'.get i = pot.get i + if i = idx then 1 else 0 := by
    intro s hsp
    refine ⟨vv.map fun p => p.2.idxOf ((s.get? p.1).getD ""), ?_, ?_, ?_⟩
    · rw [← hshape]
      clear hshape hget
      induction vv with
      | nil => exact .nil
      | cons p vv ih =>
        refine .cons ?_ (ih (List.nodup_cons.1 hkeys).2
          (fun q hq => hnd q (by simp [hq])) (fun q hq => hcard q (by simp [hq]))
          (fun s h q hq => hs s h q (by simp [hq])) (fun q hq => hsp q (by simp [hq])))
        obtain ⟨x, h1, h2⟩ := hsp p (by simp)
        simp only [h1, Option.getD_some]
        exact List.idxOf_lt_length_of_mem h2
    · intro σ
      rw [Dict.keys, List.map_map, List.map_inj_left]
      refine forall₂_congr fun p hp => ?_
      obtain ⟨x, h1, h2⟩ := hsp p hp
      simp only [Function.comp, h1, Option.getD_some]
      rw [eq_comm, idxOf_eq_iff_of_nodup (hnd p hp) h2, eq_comm]
    · intro pot hpot
      have hm : (vv.keys.mapM fun v => do
          let vals ← Dict.getE vv v
          let x ← s.getE v
          pyIndex vals x) = (.ok (vv.map fun p => p.2.idxOf ((s.get? p.1).getD "")) :
            Except PyErr (List Nat)) := by
        rw [Dict.keys, List.mapM_map]
        apply mapM_ok
        intro p hp
        obtain ⟨x, h1, h2⟩ := hsp p hp
        simp only [Function.comp, Dict.getE_ok (hget p hp), Dict.getE_ok h1, ok_bind, h1,
          Option.getD_some]
        exact pyIndex_ok h2
      refine ⟨NDArray.tabulate pot.shape fun i =>
        if i = (vv.map fun p => p.2.idxOf ((s.get? p.1).getD "")) then pot.get i + 1 else pot.get i,
        by unfold Factor.countSample; simp only; rw [hm]; rfl, hpot, fun i hi => ?_⟩
      rw [NDArray.get_tabulate _ (by rw [hpot]; exact hi)]
      split <;> simp
  -- counting loop
  have hloop : ∀ (l : List (Dict Val)) (pot : NDArray),
      (∀ s ∈ l, ∀ p ∈ vv, ∃ x, s.get? p.1 = some x ∧ x ∈ p.2) →
      pot.shape = vv.keys.map card →
      ∃ pot', l.foldlM Factor.countSample ⟨pot, vv.keys, vv⟩ = .ok ⟨pot', vv.keys, vv⟩ ∧
        pot'.shape = vv.keys.map card ∧
        (∀ σ, Legal card vv.keys σ →
          pot'.get (vv.keys.map σ) = pot.get (vv.keys.map σ) + agreeing vv l σ) ∧
        pot'.sumAll = pot.sumAll + l.length := by
    intro l
    induction l with
    | nil => intro pot _ hp; exact ⟨pot, rfl, hp, by simp [agreeing], by simp⟩
    | cons s l ih =>
      intro pot hl hp
      obtain ⟨idx, i1, i2, i3⟩ := hidx s (hl s (by simp))
      obtain ⟨pot1, a1, a2, a3⟩ := i3 pot hp
      obtain ⟨pot2, b1, b2, b3, b4⟩ := ih pot1 (fun s hs => hl s (by simp [hs])) a2
      refine ⟨pot2, by rw [List.foldlM_cons, a1]; exact b1, b2, fun σ hσ => ?_, ?_⟩
      · rw [b3 σ hσ, a3 _ (inRange_map.2 hσ)]
        simp only [agreeing, List.countP_cons, decide_eq_true_eq, ← i2 σ]
        by_cases h : vv.keys.map σ = idx <;> simp [h]; ring
      · have : pot1.sumAll = pot.sumAll + 1 := by
          rw [NDArray.sumAll_eq, NDArray.sumAll_eq, a2, hp]
          rw [← sum_indicator _ (nodup_allIdx (vv.keys.map card)) idx (mem_allIdx.2 i1),
            ← sum_map_add']
          congr 1
          exact List.map_congr_left fun i hi => a3 i (mem_allIdx.1 hi)
        rw [b4, this]
        push_cast [List.length_cons]; ring
  obtain ⟨pot, p1, p2, p3, p4⟩ := hloop samples
    (NDArray.zeros (vv.map fun p => p.2.length)) hs (by rw [NDArray.zeros_shape]; exact hshape)
  have hz : (NDArray.zeros (vv.map fun p => p.2.length)).sumAll = 0 := by
    rw [NDArray.sumAll_eq]
    apply List.sum_eq_zero
    intro x hx
    obtain ⟨i, hi, rfl⟩ := List.mem_map.1 hx
    exact NDArray.get_zeros (mem_allIdx.1 hi)
  rw [hz, zero_add] at p4
  have hn : (0 : ℚ) < samples.length := by
    exact_mod_cast List.length_pos_iff.2 hne
  let r : Factor := ⟨pot.map fun x => x / samples.length, vv.keys, vv⟩
  have hwf : r.WF card := by
    refine ⟨hkeys, List.Perm.refl _, fun v hv => ?_, p2⟩
    obtain ⟨p, hp, rfl⟩ := List.mem_map.1 hv
    exact ⟨p.2, hget p hp, (hcard p hp).symm⟩
  have heval : ∀ σ, Legal card vv.keys σ → r.eval σ = (agreeing vv samples σ : ℚ) / samples.length := by
    intro σ hσ
    have hr : InRange pot.shape (vv.keys.map σ) := by rw [p2]; exact inRange_map.2 hσ
    have hz' : (NDArray.zeros (vv.map fun p => p.2.length)).get (vv.keys.map σ) = 0 :=
      NDArray.get_zeros (by rw [hshape]; exact inRange_map.2 hσ)
    change (pot.map fun x => x / samples.length).get (vv.keys.map σ) = _
    rw [NDArray.get_map _ _ hr, p3 σ hσ, hz', zero_add]
  refine ⟨r, ?_, hwf, rfl, rfl, heval, fun σ hσ => ?_, fun σ => ?_⟩
  · unfold Factor.fromSamples
    simp only
    rw [p1, ok_bind]
    simp only [p4]
    rw [if_neg (ne_of_gt hn)]
    rfl
  · rw [heval σ hσ]; positivity
  · rw [← Factor.sumAll_eq_sumOver hwf σ, NDArray.sumAll_eq]
    have : ((allIdx r.potentials.shape).map r.potentials.get) =
        (allIdx pot.shape).map fun i => pot.get i * (samples.length : ℚ)⁻¹ := by
      refine List.map_congr_left fun i hi => ?_
      change (pot.map fun x => x / samples.length).get i = _
      rw [NDArray.get_map _ pot (mem_allIdx.1 hi), div_eq_mul_inv]
    rw [this, List.sum_map_mul_right, ← NDArray.sumAll_eq, p4]
    exact mul_inv_cancel₀ (ne_of_gt hn)

example : (Factor.fromSamples [[("a", "t"), ("c", "t")], [("c", "f"), ("a", "t")],
    [("a", "t"), ("b", "x"), ("c", "t")]] [("c", ["t", "f"]), ("a", ["t", "f"])]).map
      (fun r => r.potentials.data) = .ok [2 / 3, 0, 1 / 3, 0] := by decide +kernel
example := C12_from_samples (card := Ex.card) [("c", ["t", "f"]), ("a", ["t", "f"])]
  [[("a", "t"), ("c", "t")], [("c", "f"), ("a", "t")]] (by decide) (by decide) (by decide)
  (by decide) (by
    intro s hs p hp
    simp only [List.mem_cons, List.not_mem_nil, or_false] at hs hp
    rcases hs with rfl | rfl <;> rcases hp with rfl | rfl <;> simp [Dict.get?])

end Primo
