import Verif.Lemmas.Node
import Verif.Examples.Network
import Mathlib.Tactic.FieldSimp

/-! # C09, C35 – C38: node tables and factors made from them -/

namespace Primo
open Finset

variable {lab : Name → List Val}

/-! ## C09 -/

/-- **C09** the factor of a node has scope `[node] + parents`, carries the right labels, and its
potential at `σ` is what the single-probability accessor returns for the corresponding labels. -/
theorem C09_from_node (n : NodeV) (h : n.TableOK lab) (hkind : n.kind = .discrete)
    (hval : n.values ≠ []) (hlab : lab n.name = n.values) (hself : n.name ∉ n.parentOrder) :
    ∃ f, Factor.fromNode n = .ok f ∧ f.WF (fun v => (lab v).length) ∧
      f.variableOrder = n.name :: n.parentOrder ∧
      (∀ v ∈ f.variableOrder, f.values.get? v = some (lab v)) ∧
      ∀ (σ : Assign) (x : Val) (st : Dict Val), FirstAt n.values (σ n.name) x →
        (∀ p ∈ n.parentOrder, ∃ y, st.get? p = some y ∧ FirstAt (lab p) (σ p) y) →
        n.getSingle x st = .ok (f.eval σ) := by
  obtain ⟨d, h1, h2, h3⟩ := Factor.parentValues_ok (init := [(n.name, n.values)])
    h.nodup (by
      intro p hp hh
      simp at hh
      exact hself (hh ▸ hp)) h.parents
  have hv : ∀ v ∈ n.name :: n.parentOrder, d.get? v = some (lab v) := by
    intro v hv
    rw [h3]
    rcases List.mem_cons.1 hv with rfl | hv
    · simp [hself, Dict.get?, hlab]
    · simp [hv]
  refine ⟨⟨n.cpd, n.name :: n.parentOrder, d⟩, ?_, ⟨?_, ?_, ?_, ?_⟩, rfl, hv, ?_⟩
  · rw [Factor.fromNode, if_neg (by simp [hkind]), h1]; rfl
  · exact List.nodup_cons.2 ⟨hself, h.nodup⟩
  · rw [h2]; simp
  · exact fun v hh => ⟨_, hv v hh, rfl⟩
  · rw [h.shape, if_neg hval, List.map_cons, hlab]; rfl
  · intro σ x st hx hst
    refine (NodeV.getSingle_eq_ok h hkind).2 ⟨Or.inr hx.mem, ?_, ?_, ?_⟩
    · intro p hp y hy
      obtain ⟨z, h1, h2⟩ := hst p hp
      rw [h1] at hy; cases hy; exact h2.mem
    · exact fun p hp => (hst p hp).imp fun _ h => h.1
    · rw [(firstAt_iff hx.mem).1 hx]
      unfold Factor.eval NodeV.cell
      rw [if_neg hval, List.map_cons]
      refine congrArg n.cpd.get (congrArg (σ n.name :: ·) (List.map_congr_left fun p hp => ?_))
      obtain ⟨y, h1, h2⟩ := hst p hp
      unfold NodeV.pos
      rw [h1]
      exact ((firstAt_iff h2.mem).1 h2).symm

/-- labels of the example network -/
private def exLab : Name → List Val := fun v => if v = "b" then ["x", "y", "z"] else ["t", "f"]
private theorem nc_ok : Ex.nc.TableOK exLab := ⟨by decide, by decide, by decide⟩

example := C09_from_node (lab := exLab) Ex.nc nc_ok rfl (by decide) (by decide) (by decide)
example : Ex.nc.getSingle "f" [("q", "?"), ("a", "t"), ("b", "z")] = .ok (4 / 5) := by
  decide +kernel

/-! ## C35 -/

/-- **C35** `set_probability` raises `ValueError` exactly when it is given an unknown outcome of
the node or of a parent; otherwise it writes `prob` into exactly the cells of that outcome whose
parent instantiation extends `pv`. -/
theorem C35_set_probability (n : NodeV) (h : n.TableOK lab) (hkind : n.kind = .discrete)
    (value : Val) (prob : ℚ) (pv : Dict Val) :
    (n.setProbability value prob pv = .error .valueError ↔
      (n.values ≠ [] ∧ value ∉ n.values) ∨ ¬ n.KnownValues lab pv) ∧
    ((n.values = [] ∨ value ∈ n.values) → n.KnownValues lab pv →
      ∃ a, n.setProbability value prob pv = .ok a ∧ a.shape = n.cpd.shape ∧
        ∀ i σ, n.LegalCell lab i σ →
          (((n.values ≠ [] → FirstAt n.values i value) ∧ n.Extends lab pv σ) →
            a.get (n.cell i σ) = prob) ∧
          (¬ ((n.values ≠ [] → FirstAt n.values i value) ∧ n.Extends lab pv σ) →
            a.get (n.cell i σ) = n.cpd.get (n.cell i σ))) := by
  have main : (n.values = [] ∨ value ∈ n.values) → n.KnownValues lab pv →
      ∃ a, n.setProbability value prob pv = .ok a ∧ a.shape = n.cpd.shape ∧
        ∀ i σ, n.LegalCell lab i σ →
          (((n.values ≠ [] → FirstAt n.values i value) ∧ n.Extends lab pv σ) →
            a.get (n.cell i σ) = prob) ∧
          (¬ ((n.values ≠ [] → FirstAt n.values i value) ∧ n.Extends lab pv σ) →
            a.get (n.cell i σ) = n.cpd.get (n.cell i σ)) := by
    intro hv hk
    obtain ⟨a, h1, h2, h3⟩ := NodeV.assign_spec h rfl hk (o := n.values.idxOf value)
      (fun hne => List.idxOf_lt_length_of_mem (hv.resolve_left hne)) prob
    refine ⟨a, ?_, h2, fun i σ hl => ?_⟩
    · unfold NodeV.setProbability
      rw [if_neg (by simp [hkind]), NodeV.ownIndex_ok hv, ok_bind, NodeV.writeIxs_ok h hk, ok_bind, h1]
    · have : (n.values ≠ [] → i = n.values.idxOf value) ↔
          (n.values ≠ [] → FirstAt n.values i value) :=
        forall_congr' fun hne => by
          rw [firstAt_iff (hv.resolve_left hne)]; exact eq_comm
      rw [← this]
      exact h3 i σ hl
  refine ⟨⟨fun he => ?_, ?_⟩, main⟩
  · by_contra hcon
    push Not at hcon
    obtain ⟨a, ha, _⟩ := main (by
      by_cases hne : n.values = []
      · exact Or.inl hne
      · exact Or.inr (hcon.1 hne)) hcon.2
    rw [ha] at he; cases he
  · intro hbad
    unfold NodeV.setProbability
    rw [if_neg (by simp [hkind])]
    by_cases hown : n.values ≠ [] ∧ value ∉ n.values
    · rw [NodeV.ownIndex_error hown.1 hown.2]; rfl
    · have hv : n.values = [] ∨ value ∈ n.values := by
        by_contra hc; push Not at hc; exact hown hc
      rw [NodeV.ownIndex_ok hv, ok_bind, NodeV.writeIxs_error h (hbad.resolve_left hown)]; rfl

/-- **C35** the same through the accessor: reading any outcome `w` in any full state `st` gives
`prob` if `w` is the written outcome and `st` extends `pv`, and the old number otherwise. -/
theorem C35_read_back (n : NodeV) (h : n.TableOK lab) (hkind : n.kind = .discrete)
    (value : Val) (prob : ℚ) (pv : Dict Val) (a : NDArray)
    (ha : n.setProbability value prob pv = .ok a) (w : Val) (st : Dict Val) (y : ℚ)
    (hy : n.getSingle w st = .ok y) :
    (((n.values ≠ [] → w = value) ∧ n.StateExtends pv st) →
      ({ n with cpd := a } : NodeV).getSingle w st = .ok prob) ∧
    (¬ ((n.values ≠ [] → w = value) ∧ n.StateExtends pv st) →
      ({ n with cpd := a } : NodeV).getSingle w st = .ok y) := by
  obtain ⟨herr, hok⟩ := C35_set_probability n h hkind value prob pv
  have hgood : ¬ ((n.values ≠ [] ∧ value ∉ n.values) ∨ ¬ n.KnownValues lab pv) := by
    intro hc; rw [herr.2 hc] at ha; cases ha
  push Not at hgood
  have hv : n.values = [] ∨ value ∈ n.values := by
    by_cases hne : n.values = []
    · exact Or.inl hne
    · exact Or.inr (hgood.1 hne)
  obtain ⟨a', h1, h2, h3⟩ := hok hv hgood.2
  rw [ha] at h1; cases h1
  obtain ⟨hw, hk, hf, hyv⟩ := (NodeV.getSingle_eq_ok h hkind).1 hy
  have h' : ({ n with cpd := a } : NodeV).TableOK lab := ⟨h.nodup, h.parents, h2.trans h.shape⟩
  have hleg : n.LegalCell lab (n.values.idxOf w) (NodeV.pos lab st) :=
    ⟨fun hne => List.idxOf_lt_length_of_mem (hw.resolve_left hne), NodeV.pos_lt hk hf⟩
  have hread : ({ n with cpd := a } : NodeV).getSingle w st =
      .ok (a.get (n.cell (n.values.idxOf w) (NodeV.pos lab st))) :=
    (NodeV.getSingle_eq_ok h' hkind).2 ⟨hw, hk, hf, rfl⟩
  have hiff : ((n.values ≠ [] → w = value) ∧ n.StateExtends pv st) ↔
      ((n.values ≠ [] → FirstAt n.values (n.values.idxOf w) value) ∧
        n.Extends lab pv (NodeV.pos lab st)) := by
    refine and_congr (forall_congr' fun hne => ?_) ?_
    · have hwm := hw.resolve_left hne
      exact ⟨fun e => e ▸ firstAt_idxOf hwm, fun e => (firstAt_idxOf hwm).inj e⟩
    · refine forall₂_congr fun p hp => forall₂_congr fun x hx => ?_
      obtain ⟨z, hz⟩ := hf p hp
      have hfz := NodeV.pos_first hk hp hz
      constructor
      · intro e; rw [e] at hz; cases hz; exact hfz
      · intro e; rw [hfz.inj e] at hz; exact hz
  have hc := h3 _ _ hleg
  rw [hread, hiff]
  exact ⟨fun hh => by rw [hc.1 hh], fun hh => by rw [hc.2 hh, hyv]⟩

example : (Ex.nc.setProbability "f" 7 [("b", "z"), ("unknown", "?")]).map NDArray.data =
    .ok [1, 1 / 2, 1 / 3, 1 / 4, 1 / 5, 1 / 6, 0, 1 / 2, 2 / 3, 3 / 4, 7, 7] := by decide +kernel
example := (C35_set_probability Ex.nc nc_ok rfl "f" 7 [("b", "z"), ("unknown", "?")]).2
  (Or.inr (by decide)) (by
    intro p hp x hx
    rcases (by simpa [Ex.nc] using hp : p = "b" ∨ p = "a") with rfl | rfl
    · simp [Dict.get?] at hx; subst hx; decide
    · simp [Dict.get?] at hx)
example : Ex.nc.setProbability "nope" 7 [] = .error .valueError :=
  (C35_set_probability Ex.nc nc_ok rfl "nope" 7 []).1.2 (Or.inl ⟨by decide, by decide⟩)

/-! ## C36 -/

/-- position `i` of the answer of `get_probability` belongs to outcome `x` of parent `p` -/
def AtPosition (lab : Name → List Val) (pv : Dict NodeV.Req) (i : Assign) (p : Name) (x : Val) : Prop :=
  match pv.get? p with
  | some r => r.labels[i p]? = some x
  | none => FirstAt (lab p) (i p) x

theorem NodeV.readIx_ok {n : NodeV} (h : n.TableOK lab) {pv : Dict NodeV.Req} {p : Name}
    (hp : p ∈ n.parentOrder) (hk : ∀ r, pv.get? p = some r → ∀ x ∈ r.labels, x ∈ lab p) :
    n.readIx pv p = .ok (Factor.reqPos (lab p) ((pv.get? p).map NodeV.Req.labels)) := by
  unfold NodeV.readIx
  rw [Dict.getE_ok (h.parents p hp), ok_bind]
  cases hg : pv.get? p with
  | none => rfl
  | some r =>
    simp only [Option.map_some, Factor.reqIndex, Factor.reqPos]
    exact mapM_ok fun x hx => pyIndex_ok (hk r hg x hx)

/-- **C36** `get_probability` (before `squeeze`): one axis of length 1 for the node itself and one
axis per parent, with one position per requested outcome (all outcomes if the parent is not
mentioned); every position holds what the single-probability accessor returns for its labels. -/
theorem C36_get_probability (n : NodeV) (h : n.TableOK lab) (hkind : n.kind = .discrete)
    (value : Val) (pv : Dict NodeV.Req) (hv : n.values = [] ∨ value ∈ n.values)
    (hk : ∀ p ∈ n.parentOrder, ∀ r, pv.get? p = some r → ∀ x ∈ r.labels, x ∈ lab p) :
    ∃ t, n.probTable value pv = .ok t ∧
      n.getProbability value pv = .ok t.squeeze ∧
      t.shape = (if n.values = [] then [] else [1]) ++ n.parentOrder.map (fun p =>
        match pv.get? p with
        | some r => r.labels.length
        | none => (lab p).length) ∧
      ∀ (i : Assign) (st : Dict Val),
        (∀ p ∈ n.parentOrder, ∃ x, st.get? p = some x ∧ AtPosition lab pv i p x) →
        n.getSingle value st =
          .ok (t.get ((if n.values = [] then [] else [0]) ++ n.parentOrder.map i)) := by
  set R : Name → List Nat := fun p => Factor.reqPos (lab p) ((pv.get? p).map NodeV.Req.labels)
    with hR
  have hidx : n.parentOrder.mapM (n.readIx pv) = .ok (n.parentOrder.map R) :=
    mapM_ok fun p hp => NodeV.readIx_ok h hp (hk p hp)
  have hlen : ∀ p ∈ n.parentOrder, (R p).length = (match pv.get? p with
        | some r => r.labels.length
        | none => (lab p).length) := by
    intro p hp
    cases hg : pv.get? p <;> simp [hR, Factor.reqPos, hg]
  have hpz : ∀ p ∈ (n.parentOrder.map R).zip (n.parentOrder.map fun p => (lab p).length),
      ∀ i ∈ p.1, i < p.2 := by
    rw [List.zip_map']
    intro p hp i hi
    obtain ⟨q, hq, rfl⟩ := List.mem_map.1 hp
    simp only at hi ⊢
    cases hg : pv.get? q with
    | none => simpa [hR, Factor.reqPos, hg] using hi
    | some r =>
      simp only [hR, Factor.reqPos, hg, Option.map_some, List.mem_map] at hi
      obtain ⟨x, hx, rfl⟩ := hi
      exact List.idxOf_lt_length_of_mem (hk q hq r hg x hx)
  set own : List (List Nat) := (if n.values = [] then [] else [n.values.idxOf value]).map
    (fun i => [i]) with hown
  have hcond : (own ++ n.parentOrder.map R).length = n.cpd.ndim ∧
      ∀ p ∈ (own ++ n.parentOrder.map R).zip n.cpd.shape, ∀ i ∈ p.1, i < p.2 := by
    rw [NDArray.ndim, h.shape]
    by_cases hne : n.values = []
    · have : own = [] := by rw [hown, if_pos hne]; rfl
      rw [this, if_pos hne, List.nil_append, List.nil_append]
      exact ⟨by simp, hpz⟩
    · have : own = [[n.values.idxOf value]] := by rw [hown, if_neg hne]; rfl
      rw [this, if_neg hne, List.singleton_append, List.singleton_append, List.zip_cons_cons]
      refine ⟨by simp, fun p hp => ?_⟩
      rcases List.mem_cons.1 hp with rfl | hp
      · simpa using List.idxOf_lt_length_of_mem (hv.resolve_left hne)
      · exact hpz p hp
  have hprob : n.probTable value pv = .ok (NDArray.tabulate ((own ++ n.parentOrder.map R).map
      List.length) fun idx => n.cpd.get
        (List.zipWith (fun l i => l.getD i 0) (own ++ n.parentOrder.map R) idx)) := by
    unfold NodeV.probTable
    rw [if_neg (by simp [hkind]), NodeV.ownIndex_ok hv, ok_bind, hidx, ok_bind, NDArray.ix,
      if_pos hcond]
  have hshape : (own ++ n.parentOrder.map R).map List.length =
      (if n.values = [] then [] else [1]) ++ n.parentOrder.map (fun p =>
        match pv.get? p with
        | some r => r.labels.length
        | none => (lab p).length) := by
    rw [List.map_append]
    congr 1
    · rw [hown]; split <;> rfl
    · rw [List.map_map]; exact List.map_congr_left hlen
  refine ⟨_, hprob, by rw [NodeV.getProbability, hprob]; rfl, hshape, fun i st hst => ?_⟩
  have hpos : ∀ p ∈ n.parentOrder, ∃ x, st.get? p = some x ∧ x ∈ lab p ∧ i p < (R p).length ∧
      (R p).getD (i p) 0 = (lab p).idxOf x := by
    intro p hp
    obtain ⟨x, hx, hat⟩ := hst p hp
    refine ⟨x, hx, ?_⟩
    unfold AtPosition at hat
    cases hg : pv.get? p with
    | none =>
      rw [hg] at hat
      have := hat.lt
      refine ⟨hat.mem, by simpa [hR, Factor.reqPos, hg] using this, ?_⟩
      simp only [hR, Factor.reqPos, hg, Option.map_none]
      rw [(firstAt_iff hat.mem).1 hat]
      simp [this]
    | some r =>
      rw [hg] at hat
      simp only at hat
      have := (List.getElem?_eq_some_iff.1 hat).1
      refine ⟨hk p hp r hg x (List.mem_of_getElem? hat), by simpa [hR, Factor.reqPos, hg] using this,
        ?_⟩
      simp [hR, Factor.reqPos, hg, hat]
  have hir : InRange ((own ++ n.parentOrder.map R).map List.length)
      ((if n.values = [] then [] else [0]) ++ n.parentOrder.map i) := by
    have hp : InRange ((n.parentOrder.map R).map List.length) (n.parentOrder.map i) := by
      rw [List.map_map]
      refine inRange_map.2 fun p hp => ?_
      obtain ⟨_, _, _, h3, _⟩ := hpos p hp
      exact h3
    by_cases hne : n.values = []
    · have : own = [] := by rw [hown, if_pos hne]; rfl
      rw [this, if_pos hne]; exact hp
    · have : own = [[n.values.idxOf value]] := by rw [hown, if_neg hne]; rfl
      rw [this, if_neg hne]
      exact List.Forall₂.cons (by simp) hp
  rw [NDArray.get_tabulate _ hir]
  refine (NodeV.getSingle_eq_ok h hkind).2 ⟨hv, ?_, ?_, congrArg n.cpd.get ?_⟩
  · intro p hp y hy
    obtain ⟨x, h1, h2, _⟩ := hpos p hp
    rw [h1] at hy; cases hy; exact h2
  · exact fun p hp => (hpos p hp).imp fun _ h => h.1
  · have htail : List.zipWith (fun l i => l.getD i 0) (n.parentOrder.map R) (n.parentOrder.map i) =
        n.parentOrder.map (NodeV.pos lab st) := by
      rw [List.zipWith_map, List.zipWith_self]
      refine List.map_congr_left fun p hp => ?_
      obtain ⟨x, h1, _, _, h4⟩ := hpos p hp
      simp only [NodeV.pos, h1]
      exact h4
    unfold NodeV.cell
    by_cases hne : n.values = []
    · have : own = [] := by rw [hown, if_pos hne]; rfl
      rw [this, if_pos hne, if_pos hne, List.nil_append, List.nil_append, List.nil_append, htail]
    · have : own = [[n.values.idxOf value]] := by rw [hown, if_neg hne]; rfl
      rw [this, if_neg hne, if_neg hne]
      simp only [List.singleton_append, List.zipWith_cons_cons, htail]
      rfl

/-- **C36** with every parent fixed, `get_probability` returns the very number of the
single-probability accessor (as a 0-d array). -/
theorem C36_fast_path_agrees (n : NodeV) (h : n.TableOK lab) (hkind : n.kind = .discrete)
    (value : Val) (st : Dict Val) (pv : Dict NodeV.Req) (x : ℚ)
    (hpv : ∀ p ∈ n.parentOrder, ∃ v r, st.get? p = some v ∧ pv.get? p = some r ∧ r.labels = [v])
    (hx : n.getSingle value st = .ok x) :
    n.getProbability value pv = .ok (NDArray.scalar x) := by
  obtain ⟨hv, hk, hf, hval⟩ := (NodeV.getSingle_eq_ok h hkind).1 hx
  obtain ⟨t, _, h2, h3, h4⟩ := C36_get_probability n h hkind value pv hv (by
    intro p hp r hr y hy
    obtain ⟨v, r', a, b, c⟩ := hpv p hp
    rw [b] at hr; cases hr
    rw [c, List.mem_singleton] at hy
    subst hy
    exact hk p hp y a)
  have hs : t.shape = (if n.values = [] then [] else [1]) ++ n.parentOrder.map fun _ => 1 := by
    rw [h3]
    congr 1
    refine List.map_congr_left fun p hp => ?_
    obtain ⟨v, r, _, b, c⟩ := hpv p hp
    rw [b]; simp [c]
  have hget := h4 (fun _ => 0) st (by
    intro p hp
    obtain ⟨v, r, a, b, c⟩ := hpv p hp
    exact ⟨v, a, by unfold AtPosition; rw [b]; simp [c]⟩)
  rw [hx] at hget
  have hidx : ∀ l : List Name, allIdx (l.map fun _ => 1) = [l.map fun _ => 0] := by
    intro l
    induction l with
    | nil => rfl
    | cons a l ih => rw [List.map_cons, allIdx, ih]; rfl
  have hall : allIdx t.shape = [(if n.values = [] then [] else [0]) ++ n.parentOrder.map fun _ => 0] := by
    rw [hs]
    split
    · exact hidx _
    · rw [List.singleton_append, allIdx, hidx]; rfl
  have hdata : t.data = [x] := by
    rw [NDArray.data_eq, hall, List.map_singleton, ← Except.ok.inj hget]
  have hsq : t.squeeze.shape = [] := by
    simp only [NDArray.squeeze, hs, List.filter_append]
    split <;> simp
  have hrep : t.squeeze = NDArray.scalar x := by
    have hd : t.squeeze.data = [x] := hdata
    generalize t.squeeze = t' at hsq hd
    obtain ⟨s, d, p⟩ := t'
    simp only at hsq hd
    subst hsq hd
    rfl
  rw [h2, hrep]

example : (Ex.nc.getProbability "t" [("b", .many ["z", "x"])]).map (fun t => (t.shape, t.data)) =
    .ok ([2, 2], [1 / 5, 1 / 6, 1, 1 / 2]) := by decide +kernel
example : Ex.nc.getProbability "t" [("a", .one "f"), ("b", .many ["y"])] =
    .ok (NDArray.scalar (1 / 4)) :=
  C36_fast_path_agrees (lab := exLab) Ex.nc nc_ok rfl "t" [("a", "f"), ("b", "y")] _ (1 / 4) (by
    intro p hp
    rcases (by simpa [Ex.nc] using hp : p = "b" ∨ p = "a") with rfl | rfl
    · exact ⟨"y", .many ["y"], by decide, by decide, rfl⟩
    · exact ⟨"f", .one "f", by decide, by decide, rfl⟩) (by decide +kernel)

/-! ## C37 -/

/-- **C37** an accepted decision: probability 1 for that decision and 0 for the others, whatever the
parents are. -/
theorem C37_set_decision_partial (n : NodeV) (h : n.TableOK lab) (hval : n.values ≠ [])
    (d : Val) (hd : d ∈ n.values) :
    ∃ a, n.setDecision d = (a, none) ∧ a.shape = n.cpd.shape ∧
      ∀ i σ, n.LegalCell lab i σ →
        (FirstAt n.values i d → a.get (n.cell i σ) = 1) ∧
        (¬ FirstAt n.values i d → a.get (n.cell i σ) = 0) := by
  have hz : (n.cpd.map (· * 0)).shape = n.cpd.shape := rfl
  have hcond : ((if n.values = [] then [] else [n.values.idxOf d]).map Ix.at).length ≤
        (n.cpd.map (· * 0)).ndim ∧
      ∀ p ∈ ((if n.values = [] then [] else [n.values.idxOf d]).map Ix.at).zip
        (n.cpd.map (· * 0)).shape, p.1.ok p.2 = true := by
    rw [NDArray.ndim, hz, h.shape, if_neg hval, if_neg hval]
    refine ⟨by simp, ?_⟩
    simp only [List.map_cons, List.map_nil, List.singleton_append, List.zip_cons_cons,
      List.zip_nil_left, List.mem_singleton, forall_eq, Ix.ok, decide_eq_true_eq]
    exact List.idxOf_lt_length_of_mem hd
  have hset : n.setDecision d = (NDArray.tabulate n.cpd.shape fun idx =>
      if (((if n.values = [] then [] else [n.values.idxOf d]).map Ix.at).zip idx).all
        (fun p => p.1.sel p.2) then 1 else (n.cpd.map (· * 0)).get idx, none) := by
    unfold NodeV.setDecision
    rw [NodeV.ownIndex_ok (Or.inr hd)]
    simp only [NDArray.assign]
    rw [if_pos hcond]
    rfl
  refine ⟨_, hset, rfl, fun i σ hl => ?_⟩
  · have hir := (NodeV.inRange_cell h).2 hl
    rw [NDArray.get_tabulate _ hir,
      NDArray.get_map _ _ hir, firstAt_iff hd]
    simp only [if_neg hval, List.map_cons, List.map_nil, NodeV.cell, List.singleton_append,
      List.zip_cons_cons, List.zip_nil_left, List.all_cons, List.all_nil, Bool.and_true, Ix.sel,
      beq_iff_eq, mul_zero]
    exact ⟨fun e => if_pos e.symm, fun e => if_neg fun c => e c.symm⟩

/-- **C37** `fully_mixed`: all decisions equally probable, every column sums to 1. -/
theorem C37_fully_mixed_partial (n : NodeV) (h : n.TableOK lab) (hval : n.values ≠ []) :
    ∃ a, n.fullyMixed = .ok a ∧ a.shape = n.cpd.shape ∧
      (∀ i σ, n.LegalCell lab i σ → a.get (n.cell i σ) = 1 / n.values.length) ∧
      ∀ σ, (∀ p ∈ n.parentOrder, σ p < (lab p).length) →
        ∑ i ∈ range n.values.length, a.get (n.cell i σ) = 1 := by
  have hlen : n.values.length ≠ 0 := by simpa using hval
  have hcell : ∀ i σ, n.LegalCell lab i σ →
      ((NDArray.ones n.cpd.shape).map (· / (n.values.length : ℚ))).get (n.cell i σ) =
        1 / n.values.length := by
    intro i σ hl
    have hir := (NodeV.inRange_cell h).2 hl
    rw [NDArray.get_map _ _ (show InRange (NDArray.ones n.cpd.shape).shape _ from hir),
      NDArray.get_ones hir]
  refine ⟨(NDArray.ones n.cpd.shape).map (· / (n.values.length : ℚ)),
    by rw [NodeV.fullyMixed, if_neg fun c => hlen c.1], rfl, hcell, fun σ hσ => ?_⟩
  rw [sum_congr rfl fun i hi => hcell i σ ⟨fun _ => mem_range.1 hi, hσ⟩, sum_const, card_range,
    nsmul_eq_mul]
  have : (n.values.length : ℚ) ≠ 0 := by exact_mod_cast hlen
  field_simp

/-- **C37**, what the code really does with an unknown decision: `ValueError`, but the rule has
already been overwritten with zeros. -/
theorem C37_rejected_decision_zeroes (n : NodeV) (h : n.TableOK lab) (hval : n.values ≠ [])
    (d : Val) (hd : d ∉ n.values) :
    ∃ a, n.setDecision d = (a, some .valueError) ∧ a.shape = n.cpd.shape ∧
      ∀ i σ, n.LegalCell lab i σ → a.get (n.cell i σ) = 0 := by
  refine ⟨n.cpd.map (· * 0), by rw [NodeV.setDecision, NodeV.ownIndex_error hval hd], rfl, fun i σ hl => ?_⟩
  rw [NDArray.get_map _ _ ((NodeV.inRange_cell h).2 hl), mul_zero]

/-- a decision node with the three-valued parent `b`, holding a decision rule -/
private def exDec : NodeV := ⟨"d", .decision, ["yes", "no"], ["b"], [("b", ["x", "y", "z"])], [],
  ⟨[2, 3], [1, 0, 1, 0, 1, 0], rfl⟩, false⟩
private theorem exDec_ok : exDec.TableOK exLab := ⟨by decide, by decide, by decide⟩

/-- **C37** refuted part: "a rejected set_decision leaves the rule unchanged" is false. -/
theorem C37_rejected_decision_refuted :
    ∃ (lab : Name → List Val) (n : NodeV) (d : Val), n.TableOK lab ∧ n.kind = .decision ∧
      (n.setDecision d).2 = some .valueError ∧ (n.setDecision d).1 ≠ n.cpd :=
  ⟨exLab, exDec, "maybe", exDec_ok, rfl, by decide +kernel, by decide +kernel⟩

example := C37_set_decision_partial exDec exDec_ok (by decide) "no" (by decide)
example : ((exDec.setDecision "no").1.data, (exDec.setDecision "no").2) = ([0, 0, 0, 1, 1, 1], none) := by
  decide +kernel
example := C37_fully_mixed_partial exDec exDec_ok (by decide)
example := C37_rejected_decision_zeroes exDec exDec_ok (by decide) "maybe" (by decide)

/-! ## C38 -/

/-- a write to a utility node -/
inductive UWrite
  | cells (u : ℚ) (pv : Dict Val)
  | table (t : NDArray)

/-- perform a write; a rejected write raises and leaves the node alone -/
def NodeV.uwrite (n : NodeV) (w : UWrite) : NodeV :=
  match (match w with
    | .cells u pv => n.setUtility u pv
    | .table t => n.setUtilities t) with
  | .ok a => { n with cpd := a }
  | .error _ => n

open Classical in
/-- Specification: what a write to a utility node with parents `ps` puts into the cell of the full
parent instantiation `st`: nothing if the write is rejected or concerns other cells. -/
noncomputable def written (lab : Name → List Val) (ps : List Name) (st : Dict Val) : UWrite → Option ℚ
  | .cells u pv =>
    if ∀ p ∈ ps, ∀ x, pv.get? p = some x → x ∈ lab p ∧ st.get? p = some x then some u else none
  | .table t =>
    if t.shape = ps.map fun p => (lab p).length then
      some (t.get (ps.map fun p => (lab p).idxOf ((st.get? p).getD "")))
    else none

/-- One write: an accepted write fits the table and is read back in exactly the matching cells. -/
theorem C38_one_write_partial (n : NodeV) (h : n.TableOK lab) (hkind : n.kind = .utility)
    (hv : n.values = []) (hpl : n.plain = false) (w : UWrite) :
    (n.uwrite w).TableOK lab ∧ (n.uwrite w).kind = .utility ∧ (n.uwrite w).values = [] ∧
    (n.uwrite w).plain = false ∧ (n.uwrite w).parentOrder = n.parentOrder ∧
    ∀ st y, n.getUtility st = .ok y →
      (n.uwrite w).getUtility st = .ok ((written lab n.parentOrder st w).getD y) := by
  cases w with
  | table t =>
    have hsh : n.cpd.shape = n.parentOrder.map fun p => (lab p).length := by
      rw [h.shape, if_pos hv, List.nil_append]
    by_cases ht : n.cpd.shape = t.shape
    · have hu : n.uwrite (.table t) = { n with cpd := t } := by
        simp [NodeV.uwrite, NodeV.setUtilities, hkind, ht]
      rw [hu]
      have h' : ({ n with cpd := t } : NodeV).TableOK lab :=
        ⟨h.nodup, h.parents, ht ▸ h.shape⟩
      refine ⟨h', hkind, hv, hpl, rfl, fun st y hy => ?_⟩
      obtain ⟨hk, hf, _⟩ := (NodeV.getUtility_eq_ok h hkind hv hpl).1 hy
      refine (NodeV.getUtility_eq_ok h' hkind hv hpl).2 ⟨hk, hf, ?_⟩
      simp only [written, if_pos (ht ▸ hsh), Option.getD_some]
      refine congrArg t.get ?_
      unfold NodeV.cell
      rw [if_pos (by exact hv), List.nil_append]
      refine List.map_congr_left fun p hp => ?_
      obtain ⟨x, hx⟩ := hf p hp
      simp [NodeV.pos, hx]
    · have hu : n.uwrite (.table t) = n := by
        simp [NodeV.uwrite, NodeV.setUtilities, hkind, ht]
      rw [hu]
      refine ⟨h, hkind, hv, hpl, rfl, fun st y hy => ?_⟩
      simp only [written]
      rw [if_neg (by intro hc; exact ht (hsh.trans hc.symm)), hy]; rfl
  | cells u pv =>
    by_cases hk : n.KnownValues lab pv
    · obtain ⟨a, h1, h2, h3⟩ := NodeV.assign_spec h rfl hk (o := 0) (fun hne => absurd hv hne) u
      have hset : n.setUtility u pv = .ok a := by
        unfold NodeV.setUtility
        rw [if_neg (by simp [hkind]), NodeV.writeIxs_ok h hk, ok_bind, if_neg (by simp [hpl])]
        simpa [hv] using h1
      have hu : n.uwrite (.cells u pv) = { n with cpd := a } := by
        simp [NodeV.uwrite, hset]
      rw [hu]
      have h' : ({ n with cpd := a } : NodeV).TableOK lab := ⟨h.nodup, h.parents, h2.trans h.shape⟩
      refine ⟨h', hkind, hv, hpl, rfl, fun st y hy => ?_⟩
      obtain ⟨hkst, hf, hyv⟩ := (NodeV.getUtility_eq_ok h hkind hv hpl).1 hy
      refine (NodeV.getUtility_eq_ok h' hkind hv hpl).2 ⟨hkst, hf, ?_⟩
      have hleg : n.LegalCell lab 0 (NodeV.pos lab st) :=
        ⟨fun hne => absurd hv hne, NodeV.pos_lt hkst hf⟩
      have hiff : ((n.values ≠ [] → 0 = 0) ∧ n.Extends lab pv (NodeV.pos lab st)) ↔
          ∀ p ∈ n.parentOrder, ∀ x, pv.get? p = some x → x ∈ lab p ∧ st.get? p = some x := by
        constructor
        · rintro ⟨_, he⟩
          refine fun p hp x hx => ⟨hk p hp x hx, ?_⟩
          obtain ⟨z, hz⟩ := hf p hp
          rw [(NodeV.pos_first hkst hp hz).inj (he p hp x hx)] at hz
          exact hz
        · intro he
          exact ⟨fun _ => rfl, fun p hp x hx => NodeV.pos_first hkst hp (he p hp x hx).2⟩
      have hc := h3 0 _ hleg
      simp only [written]
      by_cases hcase : ((n.values ≠ [] → 0 = 0) ∧ n.Extends lab pv (NodeV.pos lab st))
      · rw [if_pos (hiff.1 hcase), Option.getD_some]
        exact (hc.1 hcase).symm
      · rw [if_neg (mt hiff.2 hcase), Option.getD_none, hyv]
        exact (hc.2 hcase).symm
    · have hset : n.setUtility u pv = .error .valueError := by
        unfold NodeV.setUtility
        rw [if_neg (by simp [hkind]), NodeV.writeIxs_error h hk]; rfl
      have hu : n.uwrite (.cells u pv) = n := by simp [NodeV.uwrite, hset]
      rw [hu]
      refine ⟨h, hkind, hv, hpl, rfl, fun st y hy => ?_⟩
      simp only [written]
      rw [if_neg fun hc => hk fun p hp x hx => (hc p hp x hx).1, hy]; rfl

/-- **C38** after any sequence of writes (accepted or rejected), `get_utility` returns the last
value written to the cell of that parent instantiation (the original value if there was none). -/
theorem C38_last_write_partial (n : NodeV) (h : n.TableOK lab) (hkind : n.kind = .utility)
    (hv : n.values = []) (hpl : n.plain = false) (ws : List UWrite) (st : Dict Val) (y : ℚ)
    (hy : n.getUtility st = .ok y) :
    (ws.foldl NodeV.uwrite n).getUtility st =
      .ok (ws.foldl (fun cur w => (written lab n.parentOrder st w).getD cur) y) := by
  induction ws generalizing n y with
  | nil => exact hy
  | cons w ws ih =>
    obtain ⟨h1, h2, h3, h4, h5, h6⟩ := C38_one_write_partial n h hkind hv hpl w
    rw [List.foldl_cons, List.foldl_cons, ih _ h1 h2 h3 h4 _ (h6 st y hy), h5]

/-- **C38** reading: succeeds exactly for full parent instantiations with known outcomes, and raises
`KeyError` when a parent is missing (and no given value is unknown). -/
theorem C38_reading_partial (n : NodeV) (h : n.TableOK lab) (hkind : n.kind = .utility)
    (hv : n.values = []) (hpl : n.plain = false) (pv : Dict Val) :
    ((∃ y, n.getUtility pv = .ok y) ↔ n.KnownValues lab pv ∧ n.Full pv) ∧
    (n.KnownValues lab pv → ¬ n.Full pv → n.getUtility pv = .error .keyError) := by
  constructor
  · constructor
    · rintro ⟨y, hy⟩
      obtain ⟨a, b, _⟩ := (NodeV.getUtility_eq_ok h hkind hv hpl).1 hy
      exact ⟨a, b⟩
    · rintro ⟨a, b⟩
      exact ⟨_, (NodeV.getUtility_eq_ok h hkind hv hpl).2 ⟨a, b, rfl⟩⟩
  · intro hk hf
    unfold NodeV.Full at hf
    push Not at hf
    obtain ⟨p, hp, hx⟩ := hf
    have herr : ∀ q ∈ n.parentOrder, pv.get? q = none → n.parentIndex pv q = .error .keyError := by
      intro q hq hn
      unfold NodeV.parentIndex
      rw [Dict.getE_ok (h.parents q hq), ok_bind, Dict.getE, hn]; rfl
    have hnone : pv.get? p = none := by
      cases hg : pv.get? p with
      | none => rfl
      | some x => exact absurd hg (hx x)
    unfold NodeV.getUtility
    rw [if_neg (by simp [hkind]), mapM_error (e := .keyError) _ ⟨p, hp, herr p hp hnone⟩]
    · rfl
    · intro q hq
      cases hg : pv.get? q with
      | none => exact Or.inr (herr q hq hg)
      | some x =>
        refine Or.inl ⟨(lab q).idxOf x, ?_⟩
        unfold NodeV.parentIndex
        rw [Dict.getE_ok (h.parents q hq), ok_bind, Dict.getE_ok hg, ok_bind,
          pyIndex_ok (hk q hq x hg)]

/-- **C38** exception to the rule: a fresh utility node without parents holds a plain Python number,
and both accessors raise `TypeError` until a table is set. -/
theorem C38_parentless_refuted : ∃ (lab : Name → List Val) (n : NodeV), n.TableOK lab ∧
    n.kind = .utility ∧ n.values = [] ∧ n.getUtility [] = .error .typeError ∧
    n.setUtility 5 [] = .error .typeError :=
  ⟨exLab, ⟨"u", .utility, [], [], [], [], NDArray.scalar 1, true⟩,
    ⟨by decide, by decide, by decide⟩, rfl, rfl, rfl, rfl⟩

/-- a utility node with parents `b` (three outcomes) and `a` (two) -/
private def exU : NodeV := ⟨"u", .utility, [], ["b", "a"], [("b", ["x", "y", "z"]), ("a", ["t", "f"])], [],
  ⟨[3, 2], [0, 0, 0, 0, 0, 0], rfl⟩, false⟩
private theorem exU_ok : exU.TableOK exLab := ⟨by decide, by decide, by decide⟩
/-- writes: a partial one, a rejected one, a full one, a rejected table -/
private def exWs : List UWrite := [.cells 5 [("b", "z")], .cells 9 [("b", "nope")],
  .cells 7 [("b", "z"), ("a", "f")], .table (NDArray.scalar 3)]

example : ((exWs.foldl NodeV.uwrite exU).cpd.data) = [0, 0, 0, 0, 5, 7] := by decide +kernel
example := C38_last_write_partial exU exU_ok rfl rfl rfl exWs [("a", "t"), ("b", "z")] 0 (by decide +kernel)
example : (exWs.foldl NodeV.uwrite exU).getUtility [("a", "t"), ("b", "z")] = .ok 5 := by decide +kernel
example : exU.getUtility [("a", "t")] = .error .keyError :=
  (C38_reading_partial exU exU_ok rfl rfl rfl _).2 (by
    intro p hp x hx
    rcases (by simpa [exU] using hp : p = "b" ∨ p = "a") with rfl | rfl
    · simp [Dict.get?] at hx
    · simp [Dict.get?] at hx; subst hx; decide) (by
    intro hf
    obtain ⟨x, hx⟩ := hf "b" (by decide)
    simp [Dict.get?] at hx)

end Primo
