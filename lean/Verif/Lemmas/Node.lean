import Verif.Node
import Verif.Spec.Node
import Verif.Lemmas.FactorMisc
import Verif.Lemmas.Over

/-! # Lemmas about node tables -/

namespace Primo

theorem firstAt_iff {l : List Val} {x : Val} {i : Nat} (hx : x ∈ l) :
    FirstAt l i x ↔ l.idxOf x = i := (idxOf_eq_iff_getElem? hx).symm

theorem FirstAt.mem {l : List Val} {x : Val} {i : Nat} (h : FirstAt l i x) : x ∈ l :=
  List.mem_of_getElem? h.1

theorem FirstAt.lt {l : List Val} {x : Val} {i : Nat} (h : FirstAt l i x) : i < l.length :=
  (List.getElem?_eq_some_iff.1 h.1).1

theorem FirstAt.inj {l : List Val} {x y : Val} {i : Nat} (h : FirstAt l i x) (h' : FirstAt l i y) :
    x = y := Option.some.inj (h.1.symm.trans h'.1)

theorem firstAt_idxOf {l : List Val} {x : Val} (hx : x ∈ l) : FirstAt l (l.idxOf x) x :=
  (firstAt_iff hx).2 rfl

theorem all_zip_map {α : Type} (l : List α) (f : α → Ix) (g : α → Nat) :
    ((l.map f).zip (l.map g)).all (fun p => p.1.sel p.2) = l.all fun a => (f a).sel (g a) := by
  induction l with
  | nil => rfl
  | cons a l ih => simp only [List.map_cons, List.zip_cons_cons, List.all_cons, ih]

namespace NodeV
variable {lab : Name → List Val} {n : NodeV}

theorem inRange_cell (h : n.TableOK lab) {i : Nat} {σ : Assign} :
    InRange n.cpd.shape (n.cell i σ) ↔ n.LegalCell lab i σ := by
  rw [h.shape, cell, LegalCell]
  by_cases hv : n.values = []
  · rw [if_pos hv, if_pos hv, List.nil_append, List.nil_append]
    exact inRange_map.trans (by simp [hv])
  · rw [if_neg hv, if_neg hv, List.singleton_append, List.singleton_append]
    unfold InRange
    rw [List.forall₂_cons]
    exact and_congr (by simp [hv]) inRange_map

/-- every index of the table is a legal cell -/
theorem exists_cell (h : n.TableOK lab) {idx : List Nat} (hi : InRange n.cpd.shape idx) :
    ∃ i σ, n.LegalCell lab i σ ∧ idx = n.cell i σ := by
  have key : ∃ i σ, idx = n.cell i σ := by
    rw [h.shape] at hi
    by_cases hv : n.values = []
    · simp only [if_pos hv, List.nil_append] at hi
      obtain ⟨σ, _, h2⟩ := exists_assign h.nodup hi
      exact ⟨0, σ, by simp [cell, hv, h2]⟩
    · simp only [if_neg hv, List.singleton_append] at hi
      cases hi with
      | @cons a _ _ _ h1 h2 =>
        obtain ⟨σ, _, h3⟩ := exists_assign h.nodup h2
        exact ⟨a, σ, by simp [cell, hv, h3]⟩
  obtain ⟨i, σ, hc⟩ := key
  exact ⟨i, σ, (inRange_cell h).1 (hc ▸ hi), hc⟩

/-- the own index as a one- or zero-element list -/
theorem ownIndex_ok {v : Val} (hv : n.values = [] ∨ v ∈ n.values) :
    n.ownIndex v = .ok (if n.values = [] then [] else [n.values.idxOf v]) := by
  unfold ownIndex
  by_cases h : n.values = []
  · rw [if_pos h, if_pos h]
  · rw [if_neg h, if_neg h, pyIndex_ok (hv.resolve_left h), ok_bind]; rfl

theorem ownIndex_error {v : Val} (h : n.values ≠ []) (hv : v ∉ n.values) :
    n.ownIndex v = .error .valueError := by
  unfold ownIndex
  rw [if_neg h, pyIndex, if_neg hv]; rfl

/-- the index component written for parent `p` -/
def wix (lab : Name → List Val) (pv : Dict Val) (p : Name) : Ix :=
  match pv.get? p with
  | some x => .at ((lab p).idxOf x)
  | none => .upTo (lab p).length

theorem writeIx_ok (h : n.TableOK lab) {pv : Dict Val} {p : Name} (hp : p ∈ n.parentOrder)
    (hk : ∀ x, pv.get? p = some x → x ∈ lab p) : n.writeIx pv p = .ok (wix lab pv p) := by
  unfold writeIx
  rw [Dict.getE_ok (h.parents p hp), ok_bind]
  unfold wix
  cases hg : pv.get? p with
  | none => rfl
  | some x => simp only [pyIndex_ok (hk x hg), ok_bind, pure_eq_ok]

theorem writeIx_error (h : n.TableOK lab) {pv : Dict Val} {p : Name} (hp : p ∈ n.parentOrder)
    {x : Val} (hg : pv.get? p = some x) (hx : x ∉ lab p) :
    n.writeIx pv p = .error .valueError := by
  unfold writeIx
  rw [Dict.getE_ok (h.parents p hp), ok_bind, hg]
  simp only [pyIndex, if_neg hx, error_bind]

theorem writeIxs_ok (h : n.TableOK lab) {pv : Dict Val} (hk : n.KnownValues lab pv) :
    n.parentOrder.mapM (n.writeIx pv) = .ok (n.parentOrder.map (wix lab pv)) :=
  mapM_ok fun p hp => writeIx_ok h hp (hk p hp)

theorem writeIxs_error (h : n.TableOK lab) {pv : Dict Val} (hk : ¬ n.KnownValues lab pv) :
    n.parentOrder.mapM (n.writeIx pv) = .error .valueError := by
  unfold KnownValues at hk
  push Not at hk
  obtain ⟨p, hp, x, hg, hx⟩ := hk
  refine mapM_error (fun q hq => ?_) ⟨p, hp, writeIx_error h hp hg hx⟩
  by_cases hk : ∀ x, pv.get? q = some x → x ∈ lab q
  · exact Or.inl ⟨_, writeIx_ok h hq hk⟩
  · push Not at hk
    obtain ⟨y, h1, h2⟩ := hk
    exact Or.inr (writeIx_error h hq h1 h2)

theorem wix_sel {pv : Dict Val} {σ : Assign} {p : Name}
    (hk : ∀ x, pv.get? p = some x → x ∈ lab p) (hσ : σ p < (lab p).length) :
    (wix lab pv p).sel (σ p) = true ↔ ∀ x, pv.get? p = some x → FirstAt (lab p) (σ p) x := by
  unfold wix
  cases hg : pv.get? p with
  | none => simpa [Ix.sel] using hσ
  | some x =>
    simp only [Ix.sel, beq_iff_eq, Option.some.injEq, forall_eq', firstAt_iff (hk x hg)]
    exact eq_comm

theorem wix_okIx {pv : Dict Val} {p : Name} (hk : ∀ x, pv.get? p = some x → x ∈ lab p) :
    (wix lab pv p).ok (lab p).length = true := by
  unfold wix
  cases hg : pv.get? p with
  | none => rfl
  | some x => simpa [Ix.ok] using List.idxOf_lt_length_of_mem (hk x hg)

/-- writing through an index tuple: own position `own` (absent when the node has no outcomes) and a
partial parent assignment -/
theorem assign_spec (h : n.TableOK lab) {c : NDArray} (hc : c.shape = n.cpd.shape) {pv : Dict Val}
    (hk : n.KnownValues lab pv) {o : Nat} (ho : n.values ≠ [] → o < n.values.length) (x : ℚ) :
    ∃ a, c.assign ((if n.values = [] then [] else [o]).map Ix.at ++
        n.parentOrder.map (wix lab pv)) x = .ok a ∧ a.shape = c.shape ∧
      ∀ i σ, n.LegalCell lab i σ →
        (((n.values ≠ [] → i = o) ∧ n.Extends lab pv σ) → a.get (n.cell i σ) = x) ∧
        (¬ ((n.values ≠ [] → i = o) ∧ n.Extends lab pv σ) →
          a.get (n.cell i σ) = c.get (n.cell i σ)) := by
  have hpz : ∀ p ∈ (n.parentOrder.map (wix lab pv)).zip
      (n.parentOrder.map fun p => (lab p).length), p.1.ok p.2 = true := by
    rw [List.zip_map']
    intro p hp
    obtain ⟨q, hq, rfl⟩ := List.mem_map.1 hp
    exact wix_okIx (hk q hq)
  have hext : ∀ σ, (∀ p ∈ n.parentOrder, σ p < (lab p).length) →
      ((n.parentOrder.all fun p => (wix lab pv p).sel (σ p)) = true ↔ n.Extends lab pv σ) := by
    intro σ hσ
    rw [List.all_eq_true]
    exact forall₂_congr fun p hp => wix_sel (hk p hp) (hσ p hp)
  have hcond : ((if n.values = [] then [] else [o]).map Ix.at ++
        n.parentOrder.map (wix lab pv)).length ≤ c.ndim ∧
      ∀ p ∈ ((if n.values = [] then [] else [o]).map Ix.at ++
        n.parentOrder.map (wix lab pv)).zip c.shape, p.1.ok p.2 = true := by
    rw [NDArray.ndim, hc, h.shape]
    by_cases hv : n.values = []
    · simp only [if_pos hv, List.map_nil, List.nil_append]
      exact ⟨by simp, hpz⟩
    · simp only [if_neg hv, List.map_cons, List.map_nil, List.singleton_append]
      refine ⟨by simp, ?_⟩
      rw [List.zip_cons_cons]
      intro p hp
      rcases List.mem_cons.1 hp with rfl | hp
      · simpa [Ix.ok] using ho hv
      · exact hpz p hp
  have key : ∀ i σ, n.LegalCell lab i σ →
      ((((if n.values = [] then [] else [o]).map Ix.at ++
        n.parentOrder.map (wix lab pv)).zip (n.cell i σ)).all (fun p => p.1.sel p.2) = true ↔
        ((n.values ≠ [] → i = o) ∧ n.Extends lab pv σ)) := by
    intro i σ hl
    unfold cell
    by_cases hv : n.values = []
    · simp only [if_pos hv, List.map_nil, List.nil_append, all_zip_map, hext σ hl.2]
      simp [hv]
    · simp only [if_neg hv, List.map_cons, List.map_nil, List.singleton_append,
        List.zip_cons_cons, List.all_cons, all_zip_map, Bool.and_eq_true, hext σ hl.2]
      simp [hv, Ix.sel]
  refine ⟨_, (if_pos hcond : NDArray.assign _ _ _ = _), rfl, fun i σ hl => ⟨fun hh => ?_, fun hh => ?_⟩⟩
  · rw [NDArray.get_tabulate _ (hc ▸ (inRange_cell h).2 hl), if_pos ((key i σ hl).2 hh)]
  · rw [NDArray.get_tabulate _ (hc ▸ (inRange_cell h).2 hl), if_neg (mt (key i σ hl).1 hh)]

/-- the positions a full state addresses -/
def pos (lab : Name → List Val) (pv : Dict Val) : Assign := fun p =>
  match pv.get? p with
  | some x => (lab p).idxOf x
  | none => 0

theorem parentIndexes_ok (h : n.TableOK lab) {pv : Dict Val} (hk : n.KnownValues lab pv)
    (hf : n.Full pv) : n.parentOrder.mapM (n.parentIndex pv) = .ok (n.parentOrder.map (pos lab pv)) := by
  refine mapM_ok fun p hp => ?_
  obtain ⟨x, hx⟩ := hf p hp
  unfold parentIndex pos
  rw [Dict.getE_ok (h.parents p hp), ok_bind, Dict.getE_ok hx, ok_bind, pyIndex_ok (hk p hp x hx), hx]

theorem parentIndexes_eq_ok (h : n.TableOK lab) {pv : Dict Val} {r : List Nat}
    (hr : n.parentOrder.mapM (n.parentIndex pv) = .ok r) :
    n.KnownValues lab pv ∧ n.Full pv := by
  rw [mapM_eq_ok] at hr
  have key : ∀ p ∈ n.parentOrder, ∃ i, n.parentIndex pv p = .ok i := by
    intro p hp
    obtain ⟨i, hi, rfl⟩ := List.mem_iff_getElem.1 hp
    have := List.forall₂_iff_get.1 hr
    exact ⟨_, this.2 i hi (this.1 ▸ hi)⟩
  have key2 : ∀ p ∈ n.parentOrder, ∃ x, pv.get? p = some x ∧ x ∈ lab p := by
    intro p hp
    obtain ⟨i, hi⟩ := key p hp
    unfold parentIndex at hi
    rw [Dict.getE_ok (h.parents p hp), ok_bind] at hi
    obtain ⟨x, h1, h2⟩ := bind_eq_ok.1 hi
    exact ⟨x, Dict.getE_eq_ok.1 h1, (pyIndex_eq_ok.1 h2).1⟩
  exact ⟨fun p hp x hx => by
    obtain ⟨y, h1, h2⟩ := key2 p hp
    rw [h1] at hx; cases hx; exact h2, fun p hp => (key2 p hp).imp fun _ h => h.1⟩

theorem pos_lt {pv : Dict Val} (hk : n.KnownValues lab pv) (hf : n.Full pv) :
    ∀ p ∈ n.parentOrder, pos lab pv p < (lab p).length := by
  intro p hp
  obtain ⟨x, hx⟩ := hf p hp
  unfold pos
  rw [hx]
  exact List.idxOf_lt_length_of_mem (hk p hp x hx)

theorem pos_first {pv : Dict Val} (hk : n.KnownValues lab pv) {p : Name}
    (hp : p ∈ n.parentOrder) {x : Val} (hx : pv.get? p = some x) : FirstAt (lab p) (pos lab pv p) x := by
  unfold pos
  rw [hx]
  exact firstAt_idxOf (hk p hp x hx)

/-- `_get_single_probability` succeeds exactly on known values and full states, and reads the
addressed cell. -/
theorem getSingle_eq_ok (h : n.TableOK lab) (hkind : n.kind = .discrete) {v : Val} {pv : Dict Val}
    {x : ℚ} : n.getSingle v pv = .ok x ↔
      (n.values = [] ∨ v ∈ n.values) ∧ n.KnownValues lab pv ∧ n.Full pv ∧
        x = n.cpd.get (n.cell (n.values.idxOf v) (pos lab pv)) := by
  have main : (n.values = [] ∨ v ∈ n.values) → n.KnownValues lab pv → n.Full pv →
      n.getSingle v pv = .ok (n.cpd.get (n.cell (n.values.idxOf v) (pos lab pv))) := by
    intro hv hk hf
    unfold getSingle
    rw [if_neg (by simp [hkind]), ownIndex_ok hv, ok_bind, parentIndexes_ok h hk hf, ok_bind,
      NDArray.item, if_pos]
    · rfl
    · refine mem_allIdx.2 ((inRange_cell h).2 ⟨fun hne => ?_, pos_lt hk hf⟩)
      exact List.idxOf_lt_length_of_mem (hv.resolve_left hne)
  constructor
  · intro hx
    have hx' := hx
    unfold getSingle at hx
    rw [if_neg (by simp [hkind])] at hx
    obtain ⟨own, h1, hx⟩ := bind_eq_ok.1 hx
    obtain ⟨idx, h2, _⟩ := bind_eq_ok.1 hx
    obtain ⟨hk, hf⟩ := parentIndexes_eq_ok h h2
    have hv : n.values = [] ∨ v ∈ n.values := by
      by_contra hcon
      push Not at hcon
      rw [ownIndex_error hcon.1 hcon.2] at h1
      cases h1
    rw [main hv hk hf] at hx'
    exact ⟨hv, hk, hf, (Except.ok.inj hx').symm⟩
  · rintro ⟨hv, hk, hf, rfl⟩
    exact main hv hk hf

theorem getUtility_eq_ok (h : n.TableOK lab) (hkind : n.kind = .utility) (hv : n.values = [])
    (hpl : n.plain = false) {pv : Dict Val} {x : ℚ} : n.getUtility pv = .ok x ↔
      n.KnownValues lab pv ∧ n.Full pv ∧ x = n.cpd.get (n.cell 0 (pos lab pv)) := by
  have main : n.KnownValues lab pv → n.Full pv →
      n.getUtility pv = .ok (n.cpd.get (n.cell 0 (pos lab pv))) := by
    intro hk hf
    unfold getUtility
    rw [if_neg (by simp [hkind]), parentIndexes_ok h hk hf, ok_bind, if_neg (by simp [hpl]),
      NDArray.item, if_pos]
    · simp [cell, hv]
    · have := mem_allIdx.2 ((inRange_cell h (i := 0)).2 ⟨fun hne => absurd hv hne, pos_lt hk hf⟩)
      simpa [cell, hv] using this
  constructor
  · intro hx
    have hx' := hx
    unfold getUtility at hx
    rw [if_neg (by simp [hkind])] at hx
    obtain ⟨idx, h2, _⟩ := bind_eq_ok.1 hx
    obtain ⟨hk, hf⟩ := parentIndexes_eq_ok h h2
    rw [main hk hf] at hx'
    exact ⟨hk, hf, (Except.ok.inj hx').symm⟩
  · rintro ⟨hk, hf, rfl⟩
    exact main hk hf

end NodeV
end Primo
