import Verif.Lemmas.NetInv
import Mathlib.Logic.Equiv.Basic

/-! # Every good call keeps the invariant: nodes and values -/

namespace Primo
namespace Net
open Res

variable {s : Net}

/-! ## `remove_node` -/

/-- the heap after `remove_node(k)`: children have lost the parent -/
def heapWithout (s : Net) (k : Name) : Nat → NodeObj := fun c =>
  if c ∈ (s.succOf k).map Prod.snd then dropped s.heap k (s.heap c) else s.heap c

theorem dropParent_ok (h : s.Inv) {k : Name} {i : Nat} (hi : s.lookup.get? k = some i)
    {c : Name × Nat} (hc : c ∈ s.succOf k) (hd : (s.heap c.2).kind = .discrete)
    {H : Nat → NodeObj} (hH : ∀ i, Core (s.heap i) (H i)) (hHc : H c.2 = s.heap c.2) :
    dropParent k c { s with heap := H } =
      ({ s with heap := Function.update H c.2 (dropped s.heap k (s.heap c.2)) }, none) := by
  obtain ⟨cn, cid⟩ := c
  obtain ⟨h1, h2⟩ := h.mem_succOf.1 hc
  unfold dropParent
  simp only at hd hHc h1 h2 ⊢
  rw [hi]
  simp only
  rw [removeParent_ok (k := k)]
  · simp only [setObj, hHc]
    congr 3
    unfold dropped
    rw [redim_congr fun j => (hH j).2.1]
  · exact ((hH i).1).trans (h.name k i hi).2
  · exact ((hH cid).2.2).trans hd
  · simp only [hHc]
    rw [← Dict.get?_isSome]
    exact ⟨i, by rw [h.parent_obj cn cid h1, if_pos h2, hi]⟩
  · simpa only [hHc] using h2
  · simp only [hHc, ← parentsOf_of h1]; exact h.order_nodup cn
  · simp only [hHc]
    intro p hp
    obtain ⟨j, h3, h4⟩ := h.parents_ok h1 p hp
    exact ⟨j, h3, by rw [(hH j).2.2]; exact h4⟩

/-- effect of an accepted `remove_node` -/
theorem removeNode_effect (h : s.Inv) {k : Name} {i : Nat} (hi : s.lookup.get? k = some i)
    (hd : ∀ c j, s.lookup.get? c = some j → k ∈ (s.heap j).parentOrder →
      (s.heap j).kind = .discrete) :
    removeNode k s = ({ s with
      heap := s.heapWithout k
      lookup := s.lookup.erase k
      gnode := s.lookup.erase k
      succ := (s.succ.erase k).map fun p => (p.1, p.2.erase k)
      pred := (s.pred.erase k).map fun p => (p.1, p.2.erase k) }, none) := by
  unfold removeNode
  rw [if_pos (h.mem_keys.2 ⟨i, hi⟩)]
  rw [forEach_heap' (g := dropped s.heap k) (fun o => ⟨rfl, rfl, rfl⟩) _ (h.succ_ids_nodup k)
    (fun c hc H hH hHc => dropParent_ok h hi hc
      (hd c.1 c.2 (h.mem_succOf.1 hc).1 (h.mem_succOf.1 hc).2) hH hHc)]
  simp only [andThen, graphRemoveNode]
  rw [if_neg (by rw [not_not]; exact h.mem_keys.2 ⟨i, hi⟩)]
  simp only [delLookup]
  rw [if_pos (Dict.mem_keys_of_get? hi), h.graph]
  rfl

theorem removeNode_unknown (h : s.Inv) {k : Name} (hk : s.lookup.get? k = none) :
    removeNode k s = (s, none) := by
  unfold removeNode
  rw [if_neg]
  rw [h.graph]
  exact Dict.get?_eq_none.1 hk

theorem loose_dropped {H : Nat → NodeObj} {o : NodeObj} {a : Name} {L : Dict Nat}
    (hnd : o.parents.keys.Nodup)
    (hp : ∀ p, o.parents.get? p = if p ∈ o.parentOrder then L.get? p else none)
    (hk : (dropped H a o).parentOrder = []) :
    (dropped H a o).parents = [] ∧ (dropped H a o).cpd.shape = ownDim (dropped H a o) := by
  have hk' : o.parentOrder.erase a = [] := hk
  have hpar : o.parents.erase a = [] := by
    have : ∀ p, (o.parents.erase a).get? p = none := by
      intro p
      rw [Dict.get?_erase hnd, hp]
      by_cases hpa : p = a
      · rw [if_pos hpa]
      · rw [if_neg hpa, if_neg]
        intro hpm
        have : p ∈ o.parentOrder.erase a := (List.mem_erase_of_ne hpa).2 hpm
        rw [hk'] at this; cases this
    cases hl : o.parents.erase a with
    | nil => rfl
    | cons p l => have := this p.1; rw [hl] at this; simp [Dict.get?] at this
  refine ⟨hpar, ?_⟩
  change dimsOf H _ = ownDim _
  unfold dimsOf
  simp only [hk', List.map_nil, List.append_nil]
  rfl

theorem heapWithout_core (s : Net) (k : Name) (q : Nat) : Core (s.heap q) (s.heapWithout k q) := by
  unfold heapWithout
  split
  · exact ⟨rfl, rfl, rfl⟩
  · exact Core.refl _

/-- for network nodes, the parent list loses `k` -/
theorem heapWithout_parentOrder (h : s.Inv) {k c : Name} {q : Nat}
    (hq : s.lookup.get? c = some q) :
    (s.heapWithout k q).parentOrder = (s.heap q).parentOrder.erase k := by
  unfold heapWithout
  split
  · rfl
  · rename_i hn
    rw [h.mem_succ_ids] at hn
    push Not at hn
    exact (List.erase_of_not_mem (hn c hq)).symm

theorem heapWithout_parents (h : s.Inv) {k c : Name} {q : Nat}
    (hq : s.lookup.get? c = some q) (p : Name) :
    (s.heapWithout k q).parents.get? p = if p = k then none else (s.heap q).parents.get? p := by
  unfold heapWithout
  split
  · exact Dict.get?_erase (h.parents_nodup q (h.name c q hq).1) _ _
  · rename_i hn
    rw [h.mem_succ_ids] at hn
    push Not at hn
    split
    · rename_i e; subst e
      rw [h.parent_obj c q hq, if_neg (hn c hq)]
    · rfl

theorem Inv.removeNode (h : s.Inv) {k : Name}
    (hd : ∀ c j, s.lookup.get? c = some j → k ∈ (s.heap j).parentOrder →
      (s.heap j).kind = .discrete) : (removeNode k s).1.Inv := by
  cases hi : s.lookup.get? k with
  | none => rw [removeNode_unknown h hi]; exact h
  | some i =>
  rw [removeNode_effect h hi hd]
  set s' : Net := { s with
      heap := s.heapWithout k
      lookup := s.lookup.erase k
      gnode := s.lookup.erase k
      succ := (s.succ.erase k).map fun p => (p.1, p.2.erase k)
      pred := (s.pred.erase k).map fun p => (p.1, p.2.erase k) } with hs'
  have hget : ∀ x, s'.lookup.get? x = if x = k then none else s.lookup.get? x := fun x =>
    Dict.get?_erase h.nodup _ _
  have hold : ∀ x j, s'.lookup.get? x = some j → x ≠ k ∧ s.lookup.get? x = some j := by
    intro x j hx
    rw [hget] at hx
    split at hx
    · cases hx
    · rename_i e; exact ⟨e, hx⟩
  have hcore : ∀ q, Core (s.heap q) (s'.heap q) := heapWithout_core s k
  have hp : ∀ c, s'.parentsOf c = if c = k then [] else (s.parentsOf c).erase k := by
    intro c
    unfold parentsOf
    rw [hget]
    by_cases hc : c = k
    · rw [if_pos hc, if_pos hc]
    · rw [if_neg hc, if_neg hc]
      cases hl : s.lookup.get? c with
      | none => rfl
      | some q => exact heapWithout_parentOrder h hl
  have hsucc : ∀ x, s'.succOf x = if x = k then [] else (s.succOf x).erase k := fun x =>
    getD_eraseAll (by rw [h.succ_keys]; exact h.nodup) _ _
  have hpred : ∀ x, s'.predOf x = if x = k then [] else (s.predOf x).erase k := fun x =>
    getD_eraseAll (by rw [h.pred_keys]; exact h.nodup) _ _
  have hmem : ∀ c x, x ∈ (s.parentsOf c).erase k ↔ x ≠ k ∧ x ∈ s.parentsOf c := fun c x =>
    (h.order_nodup c).mem_erase_iff
  constructor
  · exact Dict.nodup_erase h.nodup _
  · intro x q hq
    obtain ⟨_, h2⟩ := hold x q hq
    exact ⟨(h.name x q h2).1, ((hcore q).1).trans (h.name x q h2).2⟩
  · rfl
  · rw [hs']
    simp only
    rw [Dict.keys_mapVal (s.succ.erase k) (fun e => Dict.erase e k), Dict.keys_erase,
      Dict.keys_erase, h.succ_keys]
  · rw [hs']
    simp only
    rw [Dict.keys_mapVal (s.pred.erase k) (fun e => Dict.erase e k), Dict.keys_erase,
      Dict.keys_erase, h.pred_keys]
  · intro x; rw [hsucc]; split
    · simp
    · exact Dict.nodup_erase (h.succ_nodup x) _
  · intro x; rw [hpred]; split
    · simp
    · exact Dict.nodup_erase (h.pred_nodup x) _
  · intro x c
    rw [hsucc, hp, hget]
    by_cases hx : x = k
    · subst hx
      rw [if_pos rfl]
      by_cases hc : c = x
      · rw [if_pos hc]; simp [Dict.get?]
      · rw [if_neg hc]; simp [Dict.get?, hmem]
    · rw [if_neg hx, Dict.get?_erase (h.succ_nodup x), h.succ_spec]
      by_cases hc : c = k
      · simp [hc]
      · rw [if_neg hc, if_neg hc, if_neg hc]; simp only [hmem]; simp [hx]
  · intro x c
    rw [hpred, hp, hget]
    by_cases hc : c = k
    · rw [if_pos hc, if_pos hc]; simp [Dict.get?]
    · rw [if_neg hc, if_neg hc, Dict.get?_erase (h.pred_nodup c), h.pred_spec]
      simp only [hmem]
      by_cases hx : x = k
      · simp [hx]
      · simp [hx]
  · intro c
    rw [hp]; split
    · simp
    · exact (h.order_nodup c).erase k
  · intro c p hc
    rw [hp] at hc
    split at hc
    · cases hc
    · obtain ⟨h1, h2⟩ := (hmem c p).1 hc
      obtain ⟨j, h3, h4⟩ := h.known c p h2
      exact ⟨j, by rw [hget, if_neg h1]; exact h3, by rw [(hcore j).2.2]; exact h4⟩
  · intro c q hq p
    obtain ⟨_, h2⟩ := hold c q hq
    rw [hget]
    change (s.heapWithout k q).parents.get? p = if p ∈ (s.heapWithout k q).parentOrder then _ else _
    rw [heapWithout_parents h h2, heapWithout_parentOrder h h2, h.parent_obj c q h2]
    have := hmem c p
    rw [parentsOf_of h2] at this
    simp only [this]
    by_cases hpk : p = k
    · simp [hpk]
    · simp [hpk]
  · intro q hq
    change (s.heapWithout k q).parents.keys.Nodup
    unfold heapWithout
    split
    · exact Dict.nodup_erase (h.parents_nodup q hq) _
    · exact h.parents_nodup q hq
  · intro c q hq
    obtain ⟨_, h2⟩ := hold c q hq
    rw [dimsOf_congr (H := s.heap) fun x => (hcore x).2.1]
    change (s.heapWithout k q).cpd.shape = dimsOf s.heap (s.heapWithout k q)
    unfold heapWithout
    split
    · rfl
    · exact h.shape c q h2
  · intro q hq hk
    rw [(hcore q).2.1]
    exact h.util_values q hq ((hcore q).2.2 ▸ hk)
  · intro q hq hk
    change (s.heapWithout k q).parentOrder = [] at hk
    change (s.heapWithout k q).parents = [] ∧ (s.heapWithout k q).cpd.shape = ownDim (s.heapWithout k q)
    unfold heapWithout at hk ⊢
    split at hk
    · rename_i hin
      rw [if_pos hin]
      obtain ⟨c, h1, _⟩ := h.mem_succ_ids.1 hin
      exact loose_dropped (h.parents_nodup q hq) (h.parent_obj c q h1) hk
    · rename_i hin
      rw [if_neg hin]
      exact h.loose q hq hk

/-! ## `change_node_values` -/

/-- the heap after the outcomes of object `i` have been replaced and dimensions updated -/
def heapRevalued (s : Net) (k : Name) (i : Nat) (vals : List Val) : Nat → NodeObj :=
  let H1 := Function.update s.heap i { s.heap i with values := vals }
  fun c => if c = i ∨ c ∈ (s.succOf k).map Prod.snd then redim H1 (H1 c) else s.heap c

theorem changeValues_effect (h : s.Inv) {k : Name} {i : Nat} (hi : s.lookup.get? k = some i)
    (vals : List Val) (hd : (s.heap i).kind = .discrete) :
    changeValues k vals s = ({ s with heap := s.heapRevalued k i vals }, none) := by
  set H1 := Function.update s.heap i { s.heap i with values := vals } with hH1
  have hkind : ∀ j, (H1 j).kind = (s.heap j).kind := by
    intro j
    by_cases hj : j = i
    · subst hj; simp [hH1]
    · simp [hH1, hj]
  have hparents : ∀ j, (H1 j).parents = (s.heap j).parents ∧
      (H1 j).parentOrder = (s.heap j).parentOrder := by
    intro j
    by_cases hj : j = i
    · subst hj; simp [hH1]
    · simp [hH1, hj]
  have hok : ∀ c j, s.lookup.get? c = some j → ∀ p ∈ (H1 j).parentOrder,
      ∃ q, (H1 j).parents.get? p = some q ∧ (H1 q).kind ≠ .utility := by
    intro c j hj p hp
    rw [(hparents j).2] at hp
    obtain ⟨q, h1, h2⟩ := h.parents_ok hj p hp
    exact ⟨q, by rw [(hparents j).1]; exact h1, by rw [hkind]; exact h2⟩
  unfold changeValues
  rw [hi]
  simp only [setValues]
  rw [if_neg (by simp [hd])]
  have h1 : updateDims i (s.setObj i { s.heap i with values := vals }) =
      ({ s with heap := Function.update H1 i (redim H1 (H1 i)) }, none) :=
    updateDims_ok (s := { s with heap := H1 }) (hok k i hi)
  rw [h1]
  simp only [andThen]
  rw [if_pos (by rw [h.succ_keys]; exact Dict.mem_keys_of_get? hi)]
  set H2 := Function.update H1 i (redim H1 (H1 i)) with hH2
  have hval2 : ∀ j, (H2 j).values = (H1 j).values := by
    intro j
    by_cases hj : j = i
    · subst hj; simp [hH2, redim]
    · simp [hH2, hj]
  have hobj2 : ∀ j, (H2 j).parents = (H1 j).parents ∧ (H2 j).parentOrder = (H1 j).parentOrder ∧
      (H2 j).kind = (H1 j).kind := by
    intro j
    by_cases hj : j = i
    · subst hj; simp [hH2, redim]
    · simp [hH2, hj]
  have hloop := forEach_heap' (s0 := { s with heap := H2 }) (f := fun c => updateDims c.2)
    (g := redim H2) (fun o => ⟨rfl, rfl, rfl⟩) (s.succOf k) (h.succ_ids_nodup k) (by
      intro c hc H hH hHc
      obtain ⟨cn, cid⟩ := c
      obtain ⟨h1, h2⟩ := h.mem_succOf.1 hc
      simp only at hHc h1 h2 ⊢
      rw [updateDims_ok]
      · simp only [setObj]
        rw [hHc, redim_congr fun j => (hH j).2.1]
      · simp only [hHc, (hobj2 cid).1, (hobj2 cid).2.1]
        intro p hp
        obtain ⟨q, h3, h4⟩ := hok cn cid h1 p hp
        exact ⟨q, h3, by rw [(hH q).2.2, (hobj2 q).2.2]; exact h4⟩)
  have e : ({ s with heap := H2 } : Net).succOf k = s.succOf k := rfl
  rw [e, hloop]
  congr 2
  funext c
  unfold heapRevalued
  simp only
  rw [← hH1]
  by_cases hc : c ∈ (s.succOf k).map Prod.snd
  · rw [if_pos hc, if_pos (Or.inr hc), redim_congr hval2]
    by_cases hci : c = i
    · subst hci; simp only [hH2, Function.update_self]; rfl
    · simp only [hH2, Function.update_of_ne hci]
  · rw [if_neg hc]
    by_cases hci : c = i
    · subst hci; rw [if_pos (Or.inl rfl), hH2, Function.update_self]
    · rw [if_neg (by simp [hci, hc]), hH2, Function.update_of_ne hci, hH1,
        Function.update_of_ne hci]

theorem changeValues_rejected {k : Name} {vals : List Val}
    (hno : ¬ ∃ i, s.lookup.get? k = some i ∧ (s.heap i).kind = .discrete) :
    (changeValues k vals s).1 = s := by
  unfold changeValues
  cases hi : s.lookup.get? k with
  | none => rfl
  | some i =>
    have : (s.heap i).kind ≠ .discrete := fun e => hno ⟨i, hi, e⟩
    simp only [setValues]
    rw [if_pos this]; rfl

theorem Inv.changeValues (h : s.Inv) (k : Name) (vals : List Val) :
    (changeValues k vals s).1.Inv := by
  by_cases hno : ∃ i, s.lookup.get? k = some i ∧ (s.heap i).kind = .discrete
  swap
  · rw [changeValues_rejected hno]; exact h
  obtain ⟨i, hi, hd⟩ := hno
  rw [changeValues_effect h hi vals hd]
  set H' := s.heapRevalued k i vals with hH'
  set H1 := Function.update s.heap i { s.heap i with values := vals } with hH1
  have hdef : ∀ c, H' c =
      if c = i ∨ c ∈ (s.succOf k).map Prod.snd then redim H1 (H1 c) else s.heap c := fun c => rfl
  have hval : ∀ c, (H' c).values = (H1 c).values := by
    intro c
    rw [hdef]
    split
    · rfl
    · rename_i hn
      rw [hH1, Function.update_of_ne fun e => hn (Or.inl e)]
  have hstruct : ∀ c, (H' c).name = (s.heap c).name ∧ (H' c).kind = (s.heap c).kind ∧
      (H' c).parents = (s.heap c).parents ∧ (H' c).parentOrder = (s.heap c).parentOrder := by
    intro c
    rw [hdef]
    split
    · by_cases hc : c = i
      · subst hc; simp [hH1, redim]
      · simp [hH1, redim, hc]
    · exact ⟨rfl, rfl, rfl, rfl⟩
  have hvalo : ∀ c, c ≠ i → (H' c).values = (s.heap c).values := by
    intro c hc; rw [hval, hH1, Function.update_of_ne hc]
  have hp : ∀ c, ({ s with heap := H' } : Net).parentsOf c = s.parentsOf c := by
    intro c; unfold parentsOf
    cases hc : s.lookup.get? c with
    | none => rfl
    | some i => exact (hstruct i).2.2.2
  constructor
  · exact h.nodup
  · intro x q hq
    exact ⟨(h.name x q hq).1, ((hstruct q).1).trans (h.name x q hq).2⟩
  · exact h.graph
  · exact h.succ_keys
  · exact h.pred_keys
  · exact h.succ_nodup
  · exact h.pred_nodup
  · intro x c; rw [hp]; exact h.succ_spec x c
  · intro x c; rw [hp]; exact h.pred_spec x c
  · intro c; rw [hp]; exact h.order_nodup c
  · intro c p hc
    rw [hp] at hc
    obtain ⟨j, h1, h2⟩ := h.known c p hc
    exact ⟨j, h1, by simp only [(hstruct j).2.1]; exact h2⟩
  · intro c q hq p
    simp only [(hstruct q).2.2.1, (hstruct q).2.2.2]
    exact h.parent_obj c q hq p
  · intro q hq; simp only [(hstruct q).2.2.1]; exact h.parents_nodup q hq
  · intro c q hq
    change (H' q).cpd.shape = dimsOf H' (H' q)
    rw [dimsOf_congr hval]
    by_cases hin : q = i ∨ q ∈ (s.succOf k).map Prod.snd
    · have e : H' q = redim H1 (H1 q) := by rw [hdef, if_pos hin]
      rw [e]; rfl
    · have e : H' q = s.heap q := by rw [hdef, if_neg hin]
      rw [e, h.shape c q hq]
      unfold dimsOf
      congr 1
      refine List.map_congr_left fun p hpm => ?_
      obtain ⟨j, h1, _⟩ := h.parents_ok hq p hpm
      rw [h1]
      simp only
      have hji : j ≠ i := by
        rintro rfl
        refine hin (Or.inr (h.mem_succ_ids.2 ⟨c, hq, ?_⟩))
        have : s.lookup.get? p = some j := by
          have := h.parent_obj c q hq p
          rw [if_pos hpm, h1] at this; exact this.symm
        rw [h.inj hi this]; exact hpm
      rw [hH1, Function.update_of_ne hji]
  · intro q hq hk
    change (H' q).kind = _ at hk
    change (H' q).values = []
    rw [(hstruct q).2.1] at hk
    have hqi : q ≠ i := by rintro rfl; rw [hd] at hk; cases hk
    rw [hvalo q hqi]
    exact h.util_values q hq hk
  · intro q hq hk
    change (H' q).parentOrder = [] at hk
    change (H' q).parents = [] ∧ (H' q).cpd.shape = ownDim (H' q)
    rw [(hstruct q).2.2.2] at hk
    refine ⟨by rw [(hstruct q).2.2.1]; exact (h.loose q hq hk).1, ?_⟩
    by_cases hin : q = i ∨ q ∈ (s.succOf k).map Prod.snd
    · have e : H' q = redim H1 (H1 q) := by rw [hdef, if_pos hin]
      have e2 : (H1 q).parentOrder = [] := by
        have : (H' q).parentOrder = (H1 q).parentOrder := by rw [e]; rfl
        rw [← this, (hstruct q).2.2.2]; exact hk
      rw [e]
      change dimsOf H1 (H1 q) = ownDim (H1 q)
      unfold dimsOf
      rw [e2]; simp
    · have e : H' q = s.heap q := by rw [hdef, if_neg hin]
      rw [e]; exact (h.loose q hq hk).2

end Net
end Primo
