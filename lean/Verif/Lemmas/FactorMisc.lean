import Verif.Lemmas.FactorMarg

/-! # Sub-tables, evidence factors, sample counts -/

namespace Primo
open Finset

theorem nodup_allIdx (s : List Nat) : (allIdx s).Nodup := by
  induction s with
  | nil => simp [allIdx]
  | cons n s ih =>
    rw [allIdx, List.nodup_flatMap]
    refine ⟨fun i _ => ih.map fun a b h => by simpa using h, ?_⟩
    refine List.Pairwise.imp_of_mem ?_ List.nodup_range
    intro a b _ _ hne
    simp only [Function.onFun, List.disjoint_left, List.mem_map, not_exists]
    rintro x ⟨y, _, rfl⟩ z ⟨_, h⟩
    simp at h; exact hne h.1.symm

theorem sum_indicator {α : Type} [DecidableEq α] (l : List α) (hl : l.Nodup) (a : α) (ha : a ∈ l) :
    (l.map fun b => if b = a then (1 : ℚ) else 0).sum = 1 := by
  induction l with
  | nil => simp at ha
  | cons b l ih =>
    have hnd := List.nodup_cons.1 hl
    rcases List.mem_cons.1 ha with rfl | ha
    · have : (l.map fun b => if b = a then (1 : ℚ) else 0) = l.map fun _ => 0 :=
        List.map_congr_left fun b hb => by
          have : b ≠ a := by rintro rfl; exact hnd.1 hb
          simp [this]
      simp [this]
    · have : b ≠ a := by rintro rfl; exact hnd.1 ha
      simp [this, ih hnd.2 ha]

theorem sum_map_add' {α : Type} (l : List α) (f g : α → ℚ) :
    (l.map fun a => f a + g a).sum = (l.map f).sum + (l.map g).sum := by
  induction l with
  | nil => simp
  | cons a l ih => simp only [List.map_cons, List.sum_cons, ih]; ring

theorem idxOf_eq_iff_getElem? {l : List Val} {x : Val} {i : Nat} (hx : x ∈ l) :
    l.idxOf x = i ↔ l[i]? = some x ∧ ∀ j < i, l[j]? ≠ some x := by
  constructor
  · rintro rfl
    refine ⟨List.getElem?_idxOf hx, fun j hj h => ?_⟩
    have hjl : j < l.length := lt_of_lt_of_le hj List.idxOf_le_length
    rw [List.getElem?_eq_getElem hjl] at h
    have := List.not_of_lt_findIdx (p := (· == x)) (xs := l) hj
    simp at h
    simp [h] at this
  · rintro ⟨h1, h2⟩
    rcases lt_trichotomy (l.idxOf x) i with h | h | h
    · exact absurd (List.getElem?_idxOf hx) (h2 _ h)
    · exact h
    · have hil : i < l.length := lt_of_lt_of_le h List.idxOf_le_length
      rw [List.getElem?_eq_getElem hil] at h1
      have := List.not_of_lt_findIdx (p := (· == x)) (xs := l) h
      simp at h1
      simp [h1] at this

theorem idxOf_eq_iff_of_nodup {l : List Val} (hl : l.Nodup) {x : Val} {i : Nat} (hx : x ∈ l) :
    l.idxOf x = i ↔ l[i]? = some x := by
  rw [idxOf_eq_iff_getElem? hx]
  refine ⟨fun h => h.1, fun h => ⟨h, fun j hj hj' => ?_⟩⟩
  obtain ⟨hi, e1⟩ := List.getElem?_eq_some_iff.1 h
  obtain ⟨hj2, e2⟩ := List.getElem?_eq_some_iff.1 hj'
  have := (List.Nodup.getElem_inj_iff hl (hi := hj2) (hj := hi)).1 (by rw [e1, e2])
  omega

/-- every in-range index list is the image of a legal assignment -/
theorem exists_assign {l : List Name} (hl : l.Nodup) {c : Name → Nat} {idx : List Nat}
    (h : InRange (l.map c) idx) : ∃ σ : Assign, Legal c l σ ∧ idx = l.map σ := by
  have hlen := h.length_eq
  have hidx : idx = l.map fun v => idx.getD (l.idxOf v) 0 := by
    apply List.ext_getElem
    · simpa using hlen
    · intro i hi hi'
      simp only [List.length_map] at hi'
      simp [hl.idxOf_getElem i hi', hi]
  exact ⟨_, inRange_map.1 (hidx ▸ h), hidx⟩

namespace Factor
variable {card : Name → Nat}

/-- well-formed factors with the same scope order and the same function have the same table -/
theorem potentials_ext {f g : Factor} (hf : f.WF card) (hg : g.WF card)
    (hv : f.variableOrder = g.variableOrder)
    (h : ∀ σ, Legal card f.variableOrder σ → f.eval σ = g.eval σ) : f.potentials = g.potentials := by
  refine NDArray.ext_get (by rw [hf.shape, hg.shape, hv]) fun idx hidx => ?_
  rw [hf.shape] at hidx
  obtain ⟨σ, hσ, rfl⟩ := exists_assign hf.nodup hidx
  have := h σ hσ
  simp only [eval, ← hv] at this
  exact this

/-- positions requested by `get_potential` for one variable -/
def reqPos (vals : List Val) (req : Option (List Val)) : List Nat :=
  match req with
  | some r => r.map fun x => vals.idxOf x
  | none => List.range vals.length

theorem subTable_index {f : Factor} {vars : Dict (List Val)} {l : List Name}
    {lab : Name → List Val} (hl : ∀ v ∈ l, f.values.get? v = some (lab v))
    (hreq : ∀ v ∈ l, ∀ req, vars.get? v = some req → ∀ x ∈ req, x ∈ lab v) :
    (l.mapM fun v => do
      let vals ← f.values.getE v
      reqIndex vals (vars.get? v)) =
      (.ok (l.map fun v => reqPos (lab v) (vars.get? v)) : Except PyErr (List (List Nat))) := by
  apply mapM_ok
  intro v hv
  rw [Dict.getE_ok (hl v hv), ok_bind]
  cases h : vars.get? v with
  | none => simp [reqPos, reqIndex]
  | some req =>
    simp only [reqPos, reqIndex]
    exact mapM_ok fun x hx => pyIndex_ok (hreq v hv req h x hx)

end Factor
end Primo
