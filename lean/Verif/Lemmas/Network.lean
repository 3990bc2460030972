import Verif.Spec.NetState
import Verif.Lemmas.Py
import Verif.Lemmas.NDArray

/-! # Lemmas about the mutable network -/

namespace Primo

namespace Dict
variable {α β : Type}

theorem get?_append (d e : Dict α) (k : Name) : get? (d ++ e) k = (d.get? k).or (e.get? k) := by
  induction d with
  | nil => simp [get?]
  | cons p d ih =>
    obtain ⟨a, b⟩ := p
    simp only [List.cons_append, get?]
    split
    · rfl
    · exact ih

theorem get?_insertNew (d : Dict α) (k : Name) (v : α) (x : Name) :
    (d.insertNew k v).get? x = if x = k then (d.get? k).or (some v) else d.get? x := by
  unfold insertNew
  by_cases h : k ∈ d.keys
  · rw [if_pos h]
    split
    · rename_i e; subst e
      obtain ⟨w, hw⟩ := get?_isSome.2 h
      rw [hw]; rfl
    · rfl
  · rw [if_neg h, get?_append]
    split
    · rename_i e; subst e
      simp [get?]
    · rename_i e
      simp [get?, Ne.symm e]

theorem keys_insertNew_of_mem {d : Dict α} {k : Name} (v : α) (h : k ∈ d.keys) :
    d.insertNew k v = d := if_pos h

theorem keys_insertNew_of_not_mem {d : Dict α} {k : Name} (v : α) (h : k ∉ d.keys) :
    d.insertNew k v = d ++ [(k, v)] := if_neg h

theorem nodup_insertNew {d : Dict α} {k : Name} {v : α} (h : d.keys.Nodup) :
    (d.insertNew k v).keys.Nodup := by
  unfold insertNew
  split
  · exact h
  · rename_i hk
    rw [keys_append]
    exact List.nodup_append.2 ⟨h, by simp, by
      intro a ha b hb e
      simp at hb
      subst hb; subst e; exact hk ha⟩

theorem get?_mapVal (d : Dict α) (f : α → β) (k : Name) :
    get? (d.map fun p => (p.1, f p.2)) k = (d.get? k).map f := by
  induction d with
  | nil => rfl
  | cons p d ih =>
    obtain ⟨a, b⟩ := p
    simp only [List.map_cons, get?]
    split
    · rfl
    · exact ih

theorem keys_mapVal (d : Dict α) (f : α → β) :
    keys (d.map fun p => (p.1, f p.2)) = d.keys := by
  simp [keys, Function.comp_def]

theorem get?_erase {d : Dict α} (hd : d.keys.Nodup) (k k' : Name) :
    (d.erase k).get? k' = if k' = k then none else d.get? k' := by
  split
  · rename_i e; subst e; exact get?_erase_self hd
  · rename_i e; exact get?_erase_of_ne (Ne.symm e)

theorem nodup_erase {d : Dict α} (hd : d.keys.Nodup) (k : Name) : (d.erase k).keys.Nodup := by
  rw [keys_erase]; exact hd.erase k

theorem mem_iff_get? {d : Dict α} (hd : d.keys.Nodup) {k : Name} {v : α} :
    (k, v) ∈ d ↔ d.get? k = some v := ⟨get?_of_mem hd, get?_mem⟩

end Dict

namespace Net
open Res

@[simp] theorem setObj_heap (s : Net) (i : Nat) (o : NodeObj) :
    (s.setObj i o).heap = Function.update s.heap i o := rfl
@[simp] theorem setObj_setObj (s : Net) (i : Nat) (o o' : NodeObj) :
    (s.setObj i o).setObj i o' = s.setObj i o' := by
  simp [setObj]

/-- the dimensions of a consistent object -/
def dimsOf (H : Nat → NodeObj) (o : NodeObj) : List Nat :=
  ownDim o ++ o.parentOrder.map fun p =>
    match o.parents.get? p with
    | some j => (H j).values.length
    | none => 0

/-- the object after `_update_dimensions` -/
def redim (H : Nat → NodeObj) (o : NodeObj) : NodeObj :=
  { o with cpd := NDArray.zeros (dimsOf H o), valid := false, plain := false }

/-- two objects with the same name, outcomes and type -/
def Core (o o' : NodeObj) : Prop := o'.name = o.name ∧ o'.values = o.values ∧ o'.kind = o.kind

theorem Core.refl (o : NodeObj) : Core o o := ⟨rfl, rfl, rfl⟩

theorem dimsOf_congr {H H' : Nat → NodeObj} (h : ∀ j, (H' j).values = (H j).values) (o : NodeObj) :
    dimsOf H' o = dimsOf H o := by
  unfold dimsOf
  congr 1
  refine List.map_congr_left fun p _ => ?_
  cases o.parents.get? p with
  | none => rfl
  | some j => simp [h j]

theorem redim_congr {H H' : Nat → NodeObj} (h : ∀ j, (H' j).values = (H j).values) (o : NodeObj) :
    redim H' o = redim H o := by
  unfold redim; rw [dimsOf_congr h]

/-- `_update_dimensions` works if all recorded parents have outcomes. -/
theorem updateDims_ok {s : Net} {i : Nat}
    (h : ∀ p ∈ (s.heap i).parentOrder, ∃ j, (s.heap i).parents.get? p = some j ∧
      (s.heap j).kind ≠ .utility) :
    updateDims i s = (s.setObj i (redim s.heap (s.heap i)), none) := by
  unfold updateDims
  rw [mapM_ok (g := fun p => match (s.heap i).parents.get? p with
      | some j => (s.heap j).values.length
      | none => 0)]
  · rfl
  · intro p hp
    obtain ⟨j, h1, h2⟩ := h p hp
    unfold parentLen
    rw [Dict.getE_ok h1, ok_bind, if_neg h2]
    simp [h1]

/-- the object after `remove_parent` of the parent called `k` -/
def dropped (H : Nat → NodeObj) (k : Name) (o : NodeObj) : NodeObj :=
  redim H { o with parents := o.parents.erase k, parentOrder := o.parentOrder.erase k }

theorem removeParent_ok {s : Net} {i j : Nat} {k : Name} (hk : (s.heap j).name = k)
    (hkind : (s.heap i).kind = .discrete) (h1 : k ∈ (s.heap i).parents.keys)
    (h2 : k ∈ (s.heap i).parentOrder) (hnd : (s.heap i).parentOrder.Nodup)
    (h : ∀ p ∈ (s.heap i).parentOrder, ∃ j, (s.heap i).parents.get? p = some j ∧
      (s.heap j).kind ≠ .utility) :
    removeParent i j s = (s.setObj i (dropped s.heap k (s.heap i)), none) := by
  subst hk
  unfold removeParent
  rw [if_neg (by simp [hkind]), if_neg (by simpa using h1), if_neg (by simpa using h2)]
  simp only [setObj_setObj]
  rw [updateDims_ok]
  · simp only [setObj_setObj, setObj_heap, Function.update_self]
    rw [dropped, redim_congr (H := s.heap)]
    intro q
    by_cases hq : q = i
    · subst hq; simp
    · simp [hq]
  · simp only [setObj_heap, Function.update_self]
    intro p hp
    have hp' := List.mem_of_mem_erase hp
    obtain ⟨q, h3, h4⟩ := h p hp'
    have hne : p ≠ (s.heap j).name := fun e => by
      subst e; exact hnd.not_mem_erase hp
    refine ⟨q, by rw [Dict.get?_erase_of_ne hne.symm]; exact h3, ?_⟩
    by_cases hq : q = i
    · subst hq; simpa using h4
    · simpa [hq] using h4

/-- the object after `add_parent` of object `j` called `k` -/
def grown (H : Nat → NodeObj) (k : Name) (j : Nat) (o : NodeObj) : NodeObj :=
  redim H { o with parents := o.parents.set k j, parentOrder := o.parentOrder ++ [k] }

theorem addParent_ok {s : Net} {i j : Nat} {k : Name} (hk : (s.heap j).name = k)
    (hj : (s.heap j).kind ≠ .utility) (hnew : k ∉ (s.heap i).parentOrder)
    (h : ∀ p ∈ (s.heap i).parentOrder, ∃ j, (s.heap i).parents.get? p = some j ∧
      (s.heap j).kind ≠ .utility) :
    addParent i j s = (s.setObj i (grown s.heap k j (s.heap i)), none) := by
  subst hk
  unfold addParent
  rw [updateDims_ok]
  · simp only [setObj_setObj, setObj_heap, Function.update_self]
    rw [grown, redim_congr (H := s.heap)]
    intro q
    by_cases hq : q = i
    · subst hq; simp
    · simp [hq]
  · simp only [setObj_heap, Function.update_self]
    intro p hp
    have hkind : ∀ q, (s.heap q).kind ≠ .utility →
        (Function.update s.heap i { s.heap i with
          parents := (s.heap i).parents.set (s.heap j).name j,
          parentOrder := (s.heap i).parentOrder ++ [(s.heap j).name] } q).kind ≠ .utility := by
      intro q hq
      by_cases hqi : q = i
      · subst hqi; simpa using hq
      · simpa [hqi] using hq
    rcases List.mem_append.1 hp with hp | hp
    · obtain ⟨q, h3, h4⟩ := h p hp
      have hne : p ≠ (s.heap j).name := fun e => hnew (e ▸ hp)
      exact ⟨q, by rw [Dict.get?_set, if_neg fun e => hne e.symm]; exact h3, hkind q h4⟩
    · simp only [List.mem_singleton] at hp
      exact ⟨j, by rw [Dict.get?_set, if_pos hp.symm], hkind j hj⟩

/-- Loops that update one object per round. -/
theorem forEach_heap {s0 : Net} {f : Name × Nat → Net → Res} {g : NodeObj → NodeObj}
    (hg : ∀ o, Core o (g o)) :
    ∀ (l : List (Name × Nat)) (H : Nat → NodeObj), (∀ i, Core (s0.heap i) (H i)) →
    (∀ c ∈ l, H c.2 = s0.heap c.2) → (l.map Prod.snd).Nodup →
    (∀ c ∈ l, ∀ H, (∀ i, Core (s0.heap i) (H i)) → H c.2 = s0.heap c.2 →
      f c { s0 with heap := H } =
        ({ s0 with heap := Function.update H c.2 (g (s0.heap c.2)) }, none)) →
    forEach f l { s0 with heap := H } =
      ({ s0 with heap := fun i => if i ∈ l.map Prod.snd then g (s0.heap i) else H i }, none)
  | [], H, _, _, _, _ => by simp [forEach]
  | c :: l, H, hc, hH, hnd, hf => by
    rw [forEach, hf c (by simp) H hc (hH c (by simp))]
    simp only [andThen]
    rw [List.map_cons, List.nodup_cons] at hnd
    rw [forEach_heap hg l _ _ _ hnd.2 fun c' hc' => hf c' (List.mem_cons_of_mem _ hc')]
    · congr 2
      funext i
      by_cases hi : i = c.2
      · subst hi
        rw [if_neg hnd.1, Function.update_self, if_pos (by simp)]
      · simp only [List.map_cons, List.mem_cons, hi, false_or]
        rw [Function.update_of_ne hi]
    · intro i
      by_cases hi : i = c.2
      · subst hi; rw [Function.update_self]; exact hg _
      · rw [Function.update_of_ne hi]; exact hc i
    · intro c' hc'
      have hne : c'.2 ≠ c.2 := fun e => hnd.1 (e ▸ List.mem_map_of_mem hc')
      rw [Function.update_of_ne hne]; exact hH c' (List.mem_cons_of_mem _ hc')

theorem forEach_heap' {s0 : Net} {f : Name × Nat → Net → Res} {g : NodeObj → NodeObj}
    (hg : ∀ o, Core o (g o)) (l : List (Name × Nat)) (hnd : (l.map Prod.snd).Nodup)
    (hf : ∀ c ∈ l, ∀ H, (∀ i, Core (s0.heap i) (H i)) → H c.2 = s0.heap c.2 →
      f c { s0 with heap := H } =
        ({ s0 with heap := Function.update H c.2 (g (s0.heap c.2)) }, none)) :
    forEach f l s0 =
      ({ s0 with heap := fun i => if i ∈ l.map Prod.snd then g (s0.heap i) else s0.heap i }, none) :=
  forEach_heap hg l s0.heap (fun _ => Core.refl _) (fun _ _ => rfl) hnd hf

/-- The invariant behind C30, in terms of `lookup` and the parent lists. -/
structure Inv (s : Net) : Prop where
  nodup : s.lookup.keys.Nodup
  name : ∀ k i, s.lookup.get? k = some i → i < s.next ∧ (s.heap i).name = k
  graph : s.gnode = s.lookup
  succ_keys : s.succ.keys = s.lookup.keys
  pred_keys : s.pred.keys = s.lookup.keys
  succ_nodup : ∀ k, (s.succOf k).keys.Nodup
  pred_nodup : ∀ k, (s.predOf k).keys.Nodup
  succ_spec : ∀ k c, (s.succOf k).get? c = if k ∈ s.parentsOf c then s.lookup.get? c else none
  pred_spec : ∀ k c, (s.predOf c).get? k = if k ∈ s.parentsOf c then s.lookup.get? k else none
  order_nodup : ∀ c, (s.parentsOf c).Nodup
  known : ∀ c, ∀ p ∈ s.parentsOf c, ∃ j, s.lookup.get? p = some j ∧ (s.heap j).kind ≠ .utility
  parent_obj : ∀ c i, s.lookup.get? c = some i → ∀ p, (s.heap i).parents.get? p =
    if p ∈ (s.heap i).parentOrder then s.lookup.get? p else none
  parents_nodup : ∀ i < s.next, (s.heap i).parents.keys.Nodup
  shape : ∀ c i, s.lookup.get? c = some i → (s.heap i).cpd.shape = dimsOf s.heap (s.heap i)
  util_values : ∀ i < s.next, (s.heap i).kind = .utility → (s.heap i).values = []
  loose : ∀ i < s.next, (s.heap i).parentOrder = [] →
    (s.heap i).parents = [] ∧ (s.heap i).cpd.shape = ownDim (s.heap i)

variable {s : Net}

theorem parentsOf_of {k : Name} {i : Nat} (h : s.lookup.get? k = some i) :
    s.parentsOf k = (s.heap i).parentOrder := by
  unfold parentsOf; rw [h]

theorem parentsOf_none {k : Name} (h : s.lookup.get? k = none) : s.parentsOf k = [] := by
  unfold parentsOf; rw [h]

namespace Inv

theorem inj (h : s.Inv) {k k' : Name} {i : Nat} (h1 : s.lookup.get? k = some i)
    (h2 : s.lookup.get? k' = some i) : k = k' := (h.name k i h1).2.symm.trans (h.name k' i h2).2

theorem empty : Net.empty.Inv := by
  constructor <;> simp [Net.empty, Dict.get?, succOf, predOf, parentsOf]

/-- recorded parents of a network node are network nodes with outcomes -/
theorem parents_ok (h : s.Inv) {c : Name} {i : Nat} (hi : s.lookup.get? c = some i) :
    ∀ p ∈ (s.heap i).parentOrder, ∃ j, (s.heap i).parents.get? p = some j ∧
      (s.heap j).kind ≠ .utility := by
  intro p hp
  obtain ⟨j, h1, h2⟩ := h.known c p (by rw [parentsOf_of hi]; exact hp)
  exact ⟨j, by rw [h.parent_obj c i hi, if_pos hp, h1], h2⟩

theorem mem_succ (h : s.Inv) {k c : Name} : c ∈ (s.succOf k).keys ↔ k ∈ s.parentsOf c := by
  rw [← Dict.get?_isSome]
  constructor
  · rintro ⟨j, hj⟩
    rw [h.succ_spec] at hj
    by_contra hc
    rw [if_neg hc] at hj; cases hj
  · intro hk
    rw [h.succ_spec, if_pos hk]
    cases hc : s.lookup.get? c with
    | none => rw [parentsOf_none hc] at hk; cases hk
    | some j => exact ⟨j, rfl⟩

theorem mem_pred (h : s.Inv) {k c : Name} : k ∈ (s.predOf c).keys ↔ k ∈ s.parentsOf c := by
  rw [← Dict.get?_isSome]
  constructor
  · rintro ⟨j, hj⟩
    rw [h.pred_spec] at hj
    by_contra hc
    rw [if_neg hc] at hj; cases hj
  · intro hk
    rw [h.pred_spec, if_pos hk]
    obtain ⟨j, hj, _⟩ := h.known c k hk
    exact ⟨j, hj⟩

/-- the children of `k` as (name, object) pairs -/
theorem mem_succOf (h : s.Inv) {k c : Name} {j : Nat} :
    (c, j) ∈ s.succOf k ↔ s.lookup.get? c = some j ∧ k ∈ (s.heap j).parentOrder := by
  rw [Dict.mem_iff_get? (h.succ_nodup k), h.succ_spec]
  constructor
  · intro hh
    by_cases hk : k ∈ s.parentsOf c
    · rw [if_pos hk] at hh
      exact ⟨hh, by rw [← parentsOf_of hh]; exact hk⟩
    · rw [if_neg hk] at hh; cases hh
  · rintro ⟨h1, h2⟩
    rw [if_pos (by rw [parentsOf_of h1]; exact h2), h1]

theorem mem_predOf (h : s.Inv) {k c : Name} {j : Nat} :
    (k, j) ∈ s.predOf c ↔ s.lookup.get? k = some j ∧ k ∈ s.parentsOf c := by
  rw [Dict.mem_iff_get? (h.pred_nodup c), h.pred_spec]
  constructor
  · intro hh
    by_cases hk : k ∈ s.parentsOf c
    · rw [if_pos hk] at hh
      exact ⟨hh, hk⟩
    · rw [if_neg hk] at hh; cases hh
  · rintro ⟨h1, h2⟩
    rw [if_pos h2, h1]

theorem succ_ids_nodup (h : s.Inv) (k : Name) : ((s.succOf k).map Prod.snd).Nodup := by
  have h1 : (s.succOf k).Nodup := List.Nodup.of_map _ (h.succ_nodup k)
  refine List.Nodup.map_on ?_ h1
  rintro ⟨a, i⟩ ha ⟨b, j⟩ hb e
  simp only at e
  subst e
  rw [h.inj (h.mem_succOf.1 ha).1 (h.mem_succOf.1 hb).1]

theorem mem_succ_ids (h : s.Inv) {k : Name} {j : Nat} :
    j ∈ (s.succOf k).map Prod.snd ↔ ∃ c, s.lookup.get? c = some j ∧ k ∈ (s.heap j).parentOrder := by
  rw [List.mem_map]
  constructor
  · rintro ⟨⟨c, j'⟩, hc, rfl⟩
    exact ⟨c, h.mem_succOf.1 hc⟩
  · rintro ⟨c, hc⟩
    exact ⟨(c, j), h.mem_succOf.2 hc, rfl⟩

theorem mem_keys (h : s.Inv) {k : Name} : k ∈ s.gnode.keys ↔ ∃ i, s.lookup.get? k = some i := by
  rw [h.graph, Dict.get?_isSome]

end Inv

end Net
end Primo
