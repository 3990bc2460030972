import Verif.Lemmas.NetInv2

/-! # `change_node_name` -/

namespace Primo
namespace Net
open Res

variable {s : Net}

/-! ## adding several arcs to the graph -/

/-- repeated `graph.add_edge` -/
def addArcs : List (Nat × Nat) → Net → Net
  | [], t => t
  | a :: l, t => addArcs l (t.graphAddEdge a.1 a.2)

/-- one of the arcs connects `x` with `c` -/
def HasArc (H : Nat → NodeObj) (l : List (Nat × Nat)) (x c : Name) : Prop :=
  ∃ a ∈ l, (H a.1).name = x ∧ (H a.2).name = c

instance (H : Nat → NodeObj) (l : List (Nat × Nat)) (x c : Name) : Decidable (HasArc H l x c) := by
  unfold HasArc; infer_instance

/-- graph and lookup have the same keys -/
structure Keyed (t : Net) : Prop where
  g : t.gnode.keys = t.lookup.keys
  s : t.succ.keys = t.lookup.keys
  p : t.pred.keys = t.lookup.keys

theorem graphAddNode_keyed {t : Net} (h : t.Keyed) {i : Nat}
    (hi : t.lookup.get? (t.heap i).name = some i) : t.graphAddNode i = t := by
  have hk := Dict.mem_keys_of_get? hi
  unfold graphAddNode
  rw [Dict.keys_insertNew_of_mem _ (by rw [h.g]; exact hk),
    Dict.keys_insertNew_of_mem _ (by rw [h.s]; exact hk),
    Dict.keys_insertNew_of_mem _ (by rw [h.p]; exact hk)]

theorem graphAddEdge_keyed {t : Net} (h : t.Keyed) {i j : Nat}
    (hi : t.lookup.get? (t.heap i).name = some i) (hj : t.lookup.get? (t.heap j).name = some j) :
    t.graphAddEdge i j = { t with
      succ := t.succ.set (t.heap i).name ((t.succOf (t.heap i).name).insertNew (t.heap j).name j)
      pred := t.pred.set (t.heap j).name
        ((t.predOf (t.heap j).name).insertNew (t.heap i).name i) } := by
  unfold graphAddEdge
  rw [graphAddNode_keyed h hi, graphAddNode_keyed h hj]

theorem addArcs_spec : ∀ (l : List (Nat × Nat)) {t : Net}, t.Keyed →
    (∀ a ∈ l, t.lookup.get? (t.heap a.1).name = some a.1 ∧
      t.lookup.get? (t.heap a.2).name = some a.2) →
    (∀ x, (t.succOf x).keys.Nodup) → (∀ x, (t.predOf x).keys.Nodup) →
    ∃ S P, addArcs l t = { t with succ := S, pred := P } ∧ S.keys = t.succ.keys ∧
      P.keys = t.pred.keys ∧ (∀ x, ((S.get? x).getD []).keys.Nodup) ∧
      (∀ x, ((P.get? x).getD []).keys.Nodup) ∧
      (∀ x c, ((S.get? x).getD []).get? c = ((t.succOf x).get? c).or
        (if HasArc t.heap l x c then t.lookup.get? c else none)) ∧
      (∀ x c, ((P.get? c).getD []).get? x = ((t.predOf c).get? x).or
        (if HasArc t.heap l x c then t.lookup.get? x else none))
  | [], t, _, _, hs, hp => ⟨t.succ, t.pred, rfl, rfl, rfl, hs, hp, by
      intro x c; simp [HasArc, succOf], by intro x c; simp [HasArc, predOf]⟩
  | a :: l, t, hk, ha, hs, hp => by
    obtain ⟨hi, hj⟩ := ha a (by simp)
    set ni := (t.heap a.1).name with hni
    set nj := (t.heap a.2).name with hnj
    set t' : Net := { t with
      succ := t.succ.set ni ((t.succOf ni).insertNew nj a.2)
      pred := t.pred.set nj ((t.predOf nj).insertNew ni a.1) } with ht'
    have e : t.graphAddEdge a.1 a.2 = t' := graphAddEdge_keyed hk hi hj
    have hsk : t'.succ.keys = t.succ.keys :=
      Dict.keys_set_of_mem _ (by rw [hk.s]; exact Dict.mem_keys_of_get? hi)
    have hpk : t'.pred.keys = t.pred.keys :=
      Dict.keys_set_of_mem _ (by rw [hk.p]; exact Dict.mem_keys_of_get? hj)
    have hsucc : ∀ x, t'.succOf x = if x = ni then (t.succOf ni).insertNew nj a.2 else t.succOf x :=
      fun x => getD_set _ _ _ _
    have hpred : ∀ x, t'.predOf x = if x = nj then (t.predOf nj).insertNew ni a.1 else t.predOf x :=
      fun x => getD_set _ _ _ _
    obtain ⟨S, P, h1, h2, h3, h4, h5, h6, h7⟩ := addArcs_spec l (t := t')
      ⟨hk.g, hsk.trans hk.s, hpk.trans hk.p⟩ (fun b hb => ha b (List.mem_cons_of_mem _ hb))
      (by
        intro x; rw [hsucc]; split
        · exact Dict.nodup_insertNew (hs ni)
        · exact hs x)
      (by
        intro x; rw [hpred]; split
        · exact Dict.nodup_insertNew (hp nj)
        · exact hp x)
    refine ⟨S, P, ?_, h2.trans hsk, h3.trans hpk, h4, h5, ?_, ?_⟩
    · rw [addArcs, e, h1]
    · intro x c
      rw [h6, hsucc]
      have hcons : HasArc t.heap (a :: l) x c ↔ (ni = x ∧ nj = c) ∨ HasArc t.heap l x c := by
        simp [HasArc, hni, hnj]
      simp only [hcons]
      change (Dict.get? _ c).or (if HasArc t.heap l x c then t.lookup.get? c else none) = _
      by_cases hx : x = ni
      · subst hx
        rw [if_pos rfl, Dict.get?_insertNew]
        by_cases hc : c = nj
        · subst hc
          rw [if_pos rfl, if_pos (Or.inl ⟨rfl, rfl⟩), hj]
          cases Dict.get? (t.succOf ni) nj <;> first | rfl | simp
        · rw [if_neg hc]; simp [Ne.symm hc]
      · rw [if_neg hx]; simp [Ne.symm hx]
    · intro x c
      rw [h7, hpred]
      have hcons : HasArc t.heap (a :: l) x c ↔ (ni = x ∧ nj = c) ∨ HasArc t.heap l x c := by
        simp [HasArc, hni, hnj]
      simp only [hcons]
      change (Dict.get? _ x).or (if HasArc t.heap l x c then t.lookup.get? x else none) = _
      by_cases hc : c = nj
      · subst hc
        rw [if_pos rfl, Dict.get?_insertNew]
        by_cases hx : x = ni
        · subst hx
          rw [if_pos rfl, if_pos (Or.inl ⟨rfl, rfl⟩), hi]
          cases Dict.get? (t.predOf nj) ni <;> first | rfl | simp
        · rw [if_neg hx]; simp [Ne.symm hx]
      · rw [if_neg hc]; simp [Ne.symm hc]

theorem graphAddEdge_heap (t : Net) (i j : Nat) :
    (t.graphAddEdge i j).heap = t.heap ∧ (t.graphAddEdge i j).lookup = t.lookup := ⟨rfl, rfl⟩

theorem addArcs_append (l l' : List (Nat × Nat)) (t : Net) :
    addArcs (l ++ l') t = addArcs l' (addArcs l t) := by
  induction l generalizing t with
  | nil => rfl
  | cons a l ih => exact ih _

theorem addArcs_heap (l : List (Nat × Nat)) (t : Net) :
    (addArcs l t).heap = t.heap ∧ (addArcs l t).lookup = t.lookup := by
  induction l generalizing t with
  | nil => exact ⟨rfl, rfl⟩
  | cons a l ih => rw [addArcs, (ih _).1, (ih _).2]; exact ⟨rfl, rfl⟩

theorem relinkChildren_eq (i : Nat) : ∀ (l : List (Name × Nat)) (t : Net),
    (∀ c ∈ l, t.lookup.get? (t.heap c.2).name = some c.2) →
    forEach (relinkChild i) l t = (addArcs (l.map fun c => (i, c.2)) t, none)
  | [], _, _ => rfl
  | c :: l, t, h => by
    rw [forEach, relinkChild, h c (by simp)]
    simp only [andThen]
    exact relinkChildren_eq i l _ fun c hc => h c (List.mem_cons_of_mem _ hc)

theorem relinkParents_eq (i : Nat) : ∀ (l : List (Name × Nat)) (t : Net),
    (∀ c ∈ l, t.lookup.get? (t.heap c.2).name = some c.2) →
    forEach (relinkParent i) l t = (addArcs (l.map fun c => (c.2, i)) t, none)
  | [], _, _ => rfl
  | c :: l, t, h => by
    rw [forEach, relinkParent, h c (by simp)]
    simp only [andThen]
    exact relinkParents_eq i l _ fun c hc => h c (List.mem_cons_of_mem _ hc)

/-! ## the renamed objects -/

/-- a child after its parent `old` (object `i`) became `new` -/
def renamedParent (i : Nat) (old new : Name) (o : NodeObj) : NodeObj :=
  { o with
    parents := (o.parents.erase old).set new i
    parentOrder := o.parentOrder.set (o.parentOrder.idxOf old) new }

/-- the heap after renaming the parent entries -/
def heapRelabelled (s : Net) (i : Nat) (old new : Name) : Nat → NodeObj := fun q =>
  if q ∈ (s.succOf old).map Prod.snd then renamedParent i old new (s.heap q) else s.heap q

/-- the heap after `change_node_name(old, new)` -/
def heapRenamed (s : Net) (i : Nat) (old new : Name) : Nat → NodeObj :=
  Function.update (s.heapRelabelled i old new) i
    { s.heapRelabelled i old new i with name := new }

theorem set_idxOf_eq_map {l : List Name} {old new : Name} (hnd : l.Nodup)
    (hnew : new = old ∨ new ∉ l) :
    l.set (l.idxOf old) new = l.map (Equiv.swap old new) := by
  refine List.ext_getElem (by simp) fun k h1 h2 => ?_
  rw [List.getElem_set, List.getElem_map]
  have hk : k < l.length := by simpa using h1
  split
  · rename_i e
    subst e
    rw [List.getElem_idxOf hk, Equiv.swap_apply_left]
  · rename_i e
    have h3 : l[k] ≠ old := by
      rintro rfl
      exact e (hnd.idxOf_getElem k hk)
    rcases hnew with rfl | hnew
    · simp
    · rw [Equiv.swap_apply_of_ne_of_ne h3]
      rintro e2; exact hnew (e2 ▸ List.getElem_mem hk)

theorem map_swap_of_not_mem {l : List Name} {old new : Name} (h1 : old ∉ l)
    (hnew : new = old ∨ new ∉ l) : l.map (Equiv.swap old new) = l := by
  conv_rhs => rw [← List.map_id l]
  refine List.map_congr_left fun x hx => ?_
  rcases hnew with rfl | hnew
  · rw [Equiv.swap_self]; rfl
  · exact Equiv.swap_apply_of_ne_of_ne (fun e => h1 (e ▸ hx)) (fun e => hnew (e ▸ hx))

/-- what `change_node_name` does to the objects -/
structure RenamedObj (s : Net) (i : Nat) (old new : Name) (H : Nat → NodeObj) : Prop where
  name : ∀ q, (H q).name = if q = i then new else (s.heap q).name
  data : ∀ q, (H q).kind = (s.heap q).kind ∧ (H q).values = (s.heap q).values ∧
    (H q).cpd = (s.heap q).cpd ∧ (H q).valid = (s.heap q).valid ∧ (H q).plain = (s.heap q).plain
  order : ∀ c q, s.lookup.get? c = some q →
    (H q).parentOrder = (s.heap q).parentOrder.map (Equiv.swap old new)
  parents : ∀ c q, s.lookup.get? c = some q → ∀ p,
    (H q).parents.get? p = (s.heap q).parents.get? (Equiv.swap old new p)
  nodup : ∀ q < s.next, (H q).parents.keys.Nodup
  outside : ∀ q, (∀ c, s.lookup.get? c ≠ some q) → H q = s.heap q

theorem heapRenamed_spec (h : s.Inv) {old new : Name} {i : Nat} (hi : s.lookup.get? old = some i)
    (hnew : new = old ∨ s.lookup.get? new = none) :
    RenamedObj s i old new (s.heapRenamed i old new) := by
  have hpar : ∀ q, (s.heapRenamed i old new q).parents = (s.heapRelabelled i old new q).parents ∧
      (s.heapRenamed i old new q).parentOrder = (s.heapRelabelled i old new q).parentOrder := by
    intro q
    unfold heapRenamed
    by_cases hq : q = i
    · subst hq; simp
    · simp [hq]
  have hnp : ∀ c q, s.lookup.get? c = some q → new = old ∨ new ∉ (s.heap q).parentOrder := by
    intro c q hq
    refine hnew.imp_right fun hn hc => ?_
    obtain ⟨j, hj, _⟩ := h.known c new (by rw [parentsOf_of hq]; exact hc)
    rw [hn] at hj; cases hj
  constructor
  · intro q
    unfold heapRenamed
    by_cases hq : q = i
    · subst hq; simp
    · simp only [Function.update_of_ne hq, if_neg hq]
      unfold heapRelabelled
      split <;> rfl
  · intro q
    unfold heapRenamed
    by_cases hq : q = i
    · subst hq
      simp only [Function.update_self]
      unfold heapRelabelled
      split <;> exact ⟨rfl, rfl, rfl, rfl, rfl⟩
    · simp only [Function.update_of_ne hq]
      unfold heapRelabelled
      split <;> exact ⟨rfl, rfl, rfl, rfl, rfl⟩
  · intro c q hq
    rw [(hpar q).2]
    unfold heapRelabelled
    split
    · rename_i hin
      exact set_idxOf_eq_map (by rw [← parentsOf_of hq]; exact h.order_nodup c) (hnp c q hq)
    · rename_i hin
      rw [h.mem_succ_ids] at hin
      push Not at hin
      exact (map_swap_of_not_mem (hin c hq) (hnp c q hq)).symm
  · intro c q hq p
    rw [(hpar q).1]
    have hold : ∀ p, (s.heap q).parents.get? p = none ∨ new = old ∨ p ≠ new := by
      intro p
      by_cases hp : p = new
      · rcases hnp c q hq with h1 | h1
        · exact Or.inr (Or.inl h1)
        · left; rw [h.parent_obj c q hq, hp, if_neg h1]
      · exact Or.inr (Or.inr hp)
    unfold heapRelabelled
    split
    · rename_i hin
      obtain ⟨c', h1, h2⟩ := h.mem_succ_ids.1 hin
      change ((((s.heap q).parents.erase old).set new i)).get? p = _
      rw [Dict.get?_set, Dict.get?_erase (h.parents_nodup q (h.name c q hq).1)]
      by_cases hp : new = p
      · subst hp
        rw [if_pos rfl, Equiv.swap_apply_right, h.parent_obj c q hq, if_pos h2, hi]
      · rw [if_neg hp]
        by_cases hpo : p = old
        · subst hpo
          rw [if_pos rfl, Equiv.swap_apply_left]
          rcases hnp c q hq with h3 | h3
          · exact absurd h3 hp
          · rw [h.parent_obj c q hq, if_neg h3]
        · rw [if_neg hpo, Equiv.swap_apply_of_ne_of_ne hpo (Ne.symm hp)]
    · rename_i hin
      rw [h.mem_succ_ids] at hin
      push Not at hin
      have hno : (s.heap q).parents.get? old = none := by
        rw [h.parent_obj c q hq, if_neg (hin c hq)]
      by_cases hpo : p = old
      · subst hpo
        rw [Equiv.swap_apply_left, hno]
        rcases hold new with h3 | h3 | h3
        · exact h3.symm
        · rw [h3]; exact hno.symm
        · exact absurd rfl h3
      · by_cases hp : p = new
        · subst hp
          rw [Equiv.swap_apply_right, hno]
          rcases hold p with h3 | h3 | h3
          · exact h3
          · exact absurd h3 hpo
          · exact absurd rfl h3
        · rw [Equiv.swap_apply_of_ne_of_ne hpo hp]
  · intro q hq
    rw [(hpar q).1]
    unfold heapRelabelled
    split
    · exact Dict.nodup_keys_set (Dict.nodup_erase (h.parents_nodup q hq) _)
    · exact h.parents_nodup q hq
  · intro q hq
    have hqi : q ≠ i := by rintro rfl; exact hq old hi
    unfold heapRenamed
    rw [Function.update_of_ne hqi]
    unfold heapRelabelled
    rw [if_neg]
    rw [h.mem_succ_ids]
    rintro ⟨c, hc, _⟩
    exact hq c hc

/-- `lookup` after renaming: the node moves to the end -/
theorem renamed_lookup (h : s.Inv) {old new : Name} {i : Nat} (hi : s.lookup.get? old = some i)
    (hnew : new = old ∨ s.lookup.get? new = none) (x : Name) :
    Dict.get? (s.lookup.erase old ++ [(new, i)]) x = s.lookup.get? (Equiv.swap old new x) := by
  rw [Dict.get?_append, Dict.get?_erase h.nodup]
  by_cases hx : x = old
  · subst hx
    rw [if_pos rfl, Equiv.swap_apply_left]
    rcases hnew with rfl | hnew
    · simp [Dict.get?, hi]
    · rw [hnew]
      have : new ≠ x := by rintro rfl; rw [hi] at hnew; cases hnew
      simp [Dict.get?, this]
  · rw [if_neg hx]
    by_cases hn : x = new
    · subst hn
      rw [Equiv.swap_apply_right]
      rcases hnew with e | hnew
      · exact absurd e hx
      · simp [Dict.get?, hnew, hi]
    · rw [Equiv.swap_apply_of_ne_of_ne hx hn]
      simp [Dict.get?, Ne.symm hn]

theorem rebind_ok {t : Net} {i : Nat} {old new : Name} {byObj : Bool}
    (hk : (if byObj then new else old) ∈ t.lookup.keys) :
    rebind i old new byObj t = ({ t with
      heap := Function.update t.heap i { t.heap i with name := new }
      lookup := (t.lookup.erase (if byObj then new else old)).set new i }, none) := by
  unfold rebind delLookup
  rw [if_pos (by simpa [setObj] using hk)]
  rfl

/-- effect of an accepted `change_node_name` -/
theorem changeName_effect (h : s.Inv) {old new : Name} {i : Nat} {byObj : Bool}
    (hi : s.lookup.get? old = some i)
    (hnew : new = old ∨ s.lookup.get? new = none ∧ byObj = false) :
    ∃ S P, changeName old new byObj s = ({ s with
      heap := s.heapRenamed i old new
      lookup := s.lookup.erase old ++ [(new, i)]
      gnode := s.lookup.erase old ++ [(new, i)]
      succ := S
      pred := P }, none) ∧
      S.keys = (s.lookup.erase old ++ [(new, i)] : Dict Nat).keys ∧
      P.keys = (s.lookup.erase old ++ [(new, i)] : Dict Nat).keys ∧
      (∀ x, ((S.get? x).getD []).keys.Nodup) ∧ (∀ x, ((P.get? x).getD []).keys.Nodup) ∧
      (∀ x c, ((S.get? x).getD []).get? c =
        (s.succOf (Equiv.swap old new x)).get? (Equiv.swap old new c)) ∧
      (∀ x c, ((P.get? c).getD []).get? x =
        (s.predOf (Equiv.swap old new c)).get? (Equiv.swap old new x)) := by
  have hnew' : new = old ∨ s.lookup.get? new = none := hnew.imp_right And.left
  have hspec := heapRenamed_spec h hi hnew'
  set L := (s.lookup.erase old ++ [(new, i)] : Dict Nat) with hL
  set H := s.heapRenamed i old new with hH
  have hlook : ∀ x, Dict.get? L x = s.lookup.get? (Equiv.swap old new x) :=
    renamed_lookup h hi hnew'
  -- the state before the arcs are restored
  set S0 : Dict (Dict Nat) := (s.succ.erase old).map fun p => (p.1, p.2.erase old) with hS0
  set P0 : Dict (Dict Nat) := (s.pred.erase old).map fun p => (p.1, p.2.erase old) with hP0
  have hS0k : S0.keys = (s.lookup.erase old).keys := by
    rw [hS0, Dict.keys_mapVal (s.succ.erase old) (fun e => Dict.erase e old), Dict.keys_erase,
      Dict.keys_erase, h.succ_keys]
  have hP0k : P0.keys = (s.lookup.erase old).keys := by
    rw [hP0, Dict.keys_mapVal (s.pred.erase old) (fun e => Dict.erase e old), Dict.keys_erase,
      Dict.keys_erase, h.pred_keys]
  have hfresh : new ∉ (s.lookup.erase old).keys := by
    rw [← Dict.get?_eq_none, Dict.get?_erase h.nodup]
    rcases hnew' with rfl | hn
    · simp
    · rw [hn]; simp
  set t : Net := { s with
      heap := H
      lookup := L
      gnode := L
      succ := S0 ++ [(new, [])]
      pred := P0 ++ [(new, [])] } with ht
  have htk : t.Keyed := ⟨rfl, by simp [ht, hL, hS0k], by simp [ht, hL, hP0k]⟩
  have htsucc : ∀ x, t.succOf x = if x = old then [] else
      if x = new then [] else (s.succOf x).erase old := by
    intro x
    have e : t.succOf x = ((S0.get? x).or (Dict.get? [(new, ([] : Dict Nat))] x)).getD [] := by
      rw [← Dict.get?_append]; rfl
    have e2 : (S0.get? x).getD [] = if x = old then [] else (s.succOf x).erase old :=
      getD_eraseAll (by rw [h.succ_keys]; exact h.nodup) old x
    rw [e]
    by_cases hxn : x = new
    · have : S0.get? x = none := by rw [Dict.get?_eq_none, hS0k, hxn]; exact hfresh
      rw [this, hxn]; simp [Dict.get?]
    · rw [if_neg hxn, ← e2]
      cases S0.get? x <;> simp [Dict.get?, Ne.symm hxn]
  have htpred : ∀ x, t.predOf x = if x = old then [] else
      if x = new then [] else (s.predOf x).erase old := by
    intro x
    have e : t.predOf x = ((P0.get? x).or (Dict.get? [(new, ([] : Dict Nat))] x)).getD [] := by
      rw [← Dict.get?_append]; rfl
    have e2 : (P0.get? x).getD [] = if x = old then [] else (s.predOf x).erase old :=
      getD_eraseAll (by rw [h.pred_keys]; exact h.nodup) old x
    rw [e]
    by_cases hxn : x = new
    · have : P0.get? x = none := by rw [Dict.get?_eq_none, hP0k, hxn]; exact hfresh
      rw [this, hxn]; simp [Dict.get?]
    · rw [if_neg hxn, ← e2]
      cases P0.get? x <;> simp [Dict.get?, Ne.symm hxn]
  -- names of network objects
  have hname : ∀ c q, s.lookup.get? c = some q → (H q).name = Equiv.swap old new c := by
    intro c q hq
    rw [hspec.name]
    by_cases hqi : q = i
    · subst hqi
      rw [if_pos rfl, h.inj hq hi, Equiv.swap_apply_left]
    · rw [if_neg hqi, (h.name c q hq).2]
      have hco : c ≠ old := by rintro rfl; rw [hi] at hq; cases hq; exact hqi rfl
      rcases hnew' with rfl | hn
      · rw [Equiv.swap_self]; rfl
      · rw [Equiv.swap_apply_of_ne_of_ne hco]
        rintro rfl; rw [hn] at hq; cases hq
  have hown : ∀ c q, s.lookup.get? c = some q → Dict.get? L (H q).name = some q := by
    intro c q hq
    rw [hname c q hq, hlook, Equiv.swap_apply_self]; exact hq
  set arcs := ((s.succOf old).map fun c => (i, c.2)) ++ ((s.predOf old).map fun c => (c.2, i))
    with harcs
  have hchild : ∀ c ∈ s.succOf old, s.lookup.get? c.1 = some c.2 ∧ old ∈ s.parentsOf c.1 := by
    rintro ⟨c, j⟩ hc
    obtain ⟨h1, h2⟩ := h.mem_succOf.1 hc
    exact ⟨h1, by rw [parentsOf_of h1]; exact h2⟩
  have hparent : ∀ c ∈ s.predOf old, s.lookup.get? c.1 = some c.2 ∧ c.1 ∈ s.parentsOf old := by
    rintro ⟨c, j⟩ hc
    exact h.mem_predOf.1 hc
  have hknown : ∀ x c, x ∈ s.parentsOf c →
      (∃ j, s.lookup.get? x = some j) ∧ ∃ j, s.lookup.get? c = some j := by
    intro x c hx
    obtain ⟨j, hj, _⟩ := h.known c x hx
    refine ⟨⟨j, hj⟩, ?_⟩
    cases hc : s.lookup.get? c with
    | none => rw [parentsOf_none hc] at hx; cases hx
    | some j => exact ⟨j, rfl⟩
  have hnone : ∀ x c, new ≠ old → x = new ∨ c = new → x ∉ s.parentsOf c := by
    intro x c hno hxc hx
    have hn : s.lookup.get? new = none := hnew'.resolve_left hno
    obtain ⟨⟨j, h1⟩, ⟨j', h2⟩⟩ := hknown x c hx
    rcases hxc with rfl | rfl
    · rw [hn] at h1; cases h1
    · rw [hn] at h2; cases h2
  have hA : ∀ a ∈ arcs, t.lookup.get? (t.heap a.1).name = some a.1 ∧
      t.lookup.get? (t.heap a.2).name = some a.2 := by
    intro a ha
    rw [harcs, List.mem_append, List.mem_map, List.mem_map] at ha
    rcases ha with ⟨c, hc, rfl⟩ | ⟨c, hc, rfl⟩
    · exact ⟨hown old i hi, hown _ _ (hchild c hc).1⟩
    · exact ⟨hown _ _ (hparent c hc).1, hown old i hi⟩
  have hns : ∀ x, (t.succOf x).keys.Nodup := by
    intro x; rw [htsucc]
    split
    · simp
    · split
      · simp
      · exact Dict.nodup_erase (h.succ_nodup x) _
  have hnp : ∀ x, (t.predOf x).keys.Nodup := by
    intro x; rw [htpred]
    split
    · simp
    · split
      · simp
      · exact Dict.nodup_erase (h.pred_nodup x) _
  obtain ⟨S, P, e1, e2, e3, e4, e5, e6, e7⟩ := addArcs_spec arcs htk hA hns hnp
  -- the arcs are those at the renamed node
  have hArc : ∀ x c, HasArc t.heap arcs x c ↔
      Equiv.swap old new x ∈ s.parentsOf (Equiv.swap old new c) ∧ (x = new ∨ c = new) := by
    intro x c
    constructor
    · rintro ⟨a, ha, rfl, rfl⟩
      rw [harcs, List.mem_append, List.mem_map, List.mem_map] at ha
      rcases ha with ⟨d, hd, rfl⟩ | ⟨d, hd, rfl⟩
      · change Equiv.swap old new (H i).name ∈ s.parentsOf (Equiv.swap old new (H d.2).name) ∧
          ((H i).name = new ∨ (H d.2).name = new)
        rw [hname old i hi, hname d.1 d.2 (hchild d hd).1, Equiv.swap_apply_self,
          Equiv.swap_apply_self, Equiv.swap_apply_left]
        exact ⟨(hchild d hd).2, Or.inl rfl⟩
      · change Equiv.swap old new (H d.2).name ∈ s.parentsOf (Equiv.swap old new (H i).name) ∧
          ((H d.2).name = new ∨ (H i).name = new)
        rw [hname old i hi, hname d.1 d.2 (hparent d hd).1, Equiv.swap_apply_self,
          Equiv.swap_apply_self, Equiv.swap_apply_left]
        exact ⟨(hparent d hd).2, Or.inr rfl⟩
    · rintro ⟨hx, hxc⟩
      obtain ⟨⟨jx, h1⟩, ⟨jc, h2⟩⟩ := hknown _ _ hx
      rcases hxc with rfl | rfl
      · rw [Equiv.swap_apply_right] at hx h1
        refine ⟨(i, jc), ?_, ?_, ?_⟩
        · rw [harcs]
          refine List.mem_append_left _ (List.mem_map.2 ⟨(Equiv.swap old x c, jc), ?_, rfl⟩)
          exact h.mem_succOf.2 ⟨h2, by rw [← parentsOf_of h2]; exact hx⟩
        · change (H i).name = x; rw [hname old i hi, Equiv.swap_apply_left]
        · change (H jc).name = c; rw [hname _ jc h2]; exact Equiv.swap_apply_self _ _ _
      · rw [Equiv.swap_apply_right] at hx h2
        refine ⟨(jx, i), ?_, ?_, ?_⟩
        · rw [harcs]
          refine List.mem_append_right _ (List.mem_map.2 ⟨(Equiv.swap old c x, jx), ?_, rfl⟩)
          exact h.mem_predOf.2 ⟨h1, hx⟩
        · change (H jx).name = x; rw [hname _ jx h1]; exact Equiv.swap_apply_self _ _ _
        · change (H i).name = c; rw [hname old i hi, Equiv.swap_apply_left]
  refine ⟨S, P, ?_, ?_, ?_, e4, e5, ?_, ?_⟩
  · -- running the program
    unfold changeName
    rw [hi]
    simp only [h.name old i hi]
    rw [if_neg (by rw [not_not, h.succ_keys]; exact Dict.mem_keys_of_get? hi)]
    rw [forEach_heap' (g := renamedParent i old new) (fun o => ⟨rfl, rfl, rfl⟩) _
      (h.succ_ids_nodup old) (by
        intro c hc K hK hKc
        obtain ⟨h1, h2⟩ := hchild c hc
        rw [parentsOf_of h1] at h2
        unfold renameParent
        simp only [hKc]
        rw [if_neg, if_neg (by rw [not_not]; exact h2)]
        · simp [setObj, renamedParent]
        · rw [not_not, ← Dict.get?_isSome]
          exact ⟨i, by rw [h.parent_obj c.1 c.2 h1, if_pos h2, hi]⟩)]
    simp only [andThen, graphRemoveNode]
    rw [if_neg (by rw [not_not]; exact h.mem_keys.2 ⟨i, hi⟩)]
    have hkey : (if byObj then new else old) ∈ s.lookup.keys := by
      rcases hnew with rfl | ⟨_, hb⟩
      · rw [ite_self]; exact Dict.mem_keys_of_get? hi
      · rw [hb]; exact Dict.mem_keys_of_get? hi
    have hkey2 : s.lookup.erase (if byObj then new else old) = s.lookup.erase old := by
      rcases hnew with rfl | ⟨_, hb⟩
      · rw [ite_self]
      · rw [hb]; rfl
    simp only
    rw [rebind_ok (by exact hkey)]
    simp only
    rw [hkey2, Dict.set_of_not_mem _ hfresh]
    have hg : (({ s with
        heap := H
        lookup := L
        gnode := s.gnode.erase old
        succ := S0
        pred := P0 } : Net).graphAddNode i) = t := by
      unfold graphAddNode
      have hn : (H i).name = new := by rw [hname old i hi, Equiv.swap_apply_left]
      simp only [hn]
      rw [Dict.keys_insertNew_of_not_mem _ (by rw [h.graph]; exact hfresh),
        Dict.keys_insertNew_of_not_mem _ (by rw [hS0k]; exact hfresh),
        Dict.keys_insertNew_of_not_mem _ (by rw [hP0k]; exact hfresh), h.graph]
    have hc : (forEach (relinkChild i) (s.succOf old) (({ s with
        heap := H
        lookup := L
        gnode := s.gnode.erase old
        succ := S0
        pred := P0 } : Net).graphAddNode i)) =
        (addArcs ((s.succOf old).map fun c => (i, c.2)) t, none) := by
      rw [hg, relinkChildren_eq i _ t fun c hc => hown _ _ (hchild c hc).1]
    change (forEach (relinkChild i) (s.succOf old) (({ s with
        heap := H
        lookup := L
        gnode := s.gnode.erase old
        succ := S0
        pred := P0 } : Net).graphAddNode i)).andThen (forEach (relinkParent i) (s.predOf old)) = _
    rw [hc]
    change forEach (relinkParent i) (s.predOf old)
      (addArcs ((s.succOf old).map fun c => (i, c.2)) t) = _
    rw [relinkParents_eq i _ _ fun c hc => by
      rw [(addArcs_heap _ _).1, (addArcs_heap _ _).2]; exact hown _ _ (hparent c hc).1]
    rw [← addArcs_append, ← harcs, e1]
  · rw [e2]; simp [ht, hL, hS0k]
  · rw [e3]; simp [ht, hL, hP0k]
  · intro x c
    rw [e6, h.succ_spec, htsucc]
    simp only [hArc]
    change _ = if _ then s.lookup.get? (Equiv.swap old new c) else none
    rw [← hlook]
    change (Dict.get? _ c).or (if _ then Dict.get? L c else none) = _
    by_cases hxc : x = new ∨ c = new
    · simp only [hxc, and_true]
      have : Dict.get? (if x = old then ([] : Dict Nat) else if x = new then [] else
          (s.succOf x).erase old) c = none := by
        by_cases h1 : x = old
        · rw [if_pos h1]; rfl
        · rw [if_neg h1]
          by_cases h2 : x = new
          · rw [if_pos h2]; rfl
          · have h3 := hxc.resolve_left h2
            rw [if_neg h2, Dict.get?_erase (h.succ_nodup x), h.succ_spec]
            by_cases h4 : c = old
            · rw [if_pos h4]
            · rw [if_neg h4, if_neg]
              exact hnone x c (by rw [← h3]; exact h4) (Or.inr h3)
      rw [this]; rfl
    · simp only [hxc, and_false, if_false, Option.or_none]
      push Not at hxc
      by_cases h1 : x = old
      · subst h1
        rw [if_pos rfl, Equiv.swap_apply_left, if_neg]
        · rfl
        · exact hnone _ _ (Ne.symm hxc.1) (Or.inl rfl)
      · rw [if_neg h1, if_neg hxc.1, Equiv.swap_apply_of_ne_of_ne h1 hxc.1,
          Dict.get?_erase (h.succ_nodup x), h.succ_spec]
        by_cases h2 : c = old
        · subst h2
          rw [if_pos rfl, Equiv.swap_apply_left, if_neg]
          exact hnone _ _ (Ne.symm hxc.2) (Or.inr rfl)
        · rw [if_neg h2, hlook, Equiv.swap_apply_of_ne_of_ne h2 hxc.2]
  · intro x c
    rw [e7, h.pred_spec, htpred]
    simp only [hArc]
    change _ = if _ then s.lookup.get? (Equiv.swap old new x) else none
    rw [← hlook]
    change (Dict.get? _ x).or (if _ then Dict.get? L x else none) = _
    by_cases hxc : x = new ∨ c = new
    · simp only [hxc, and_true]
      have : Dict.get? (if c = old then ([] : Dict Nat) else if c = new then [] else
          (s.predOf c).erase old) x = none := by
        by_cases h1 : c = old
        · rw [if_pos h1]; rfl
        · rw [if_neg h1]
          by_cases h2 : c = new
          · rw [if_pos h2]; rfl
          · have h3 := hxc.resolve_right h2
            rw [if_neg h2, Dict.get?_erase (h.pred_nodup c), h.pred_spec]
            by_cases h4 : x = old
            · rw [if_pos h4]
            · rw [if_neg h4, if_neg]
              exact hnone x c (by rw [← h3]; exact h4) (Or.inl h3)
      rw [this]; rfl
    · simp only [hxc, and_false, if_false, Option.or_none]
      push Not at hxc
      by_cases h1 : c = old
      · subst h1
        rw [if_pos rfl, Equiv.swap_apply_left, if_neg]
        · rfl
        · exact hnone _ _ (Ne.symm hxc.2) (Or.inr rfl)
      · rw [if_neg h1, if_neg hxc.2, Equiv.swap_apply_of_ne_of_ne h1 hxc.2,
          Dict.get?_erase (h.pred_nodup c), h.pred_spec]
        by_cases h2 : x = old
        · subst h2
          rw [if_pos rfl, Equiv.swap_apply_left, if_neg]
          exact hnone _ _ (Ne.symm hxc.1) (Or.inl rfl)
        · rw [if_neg h2, hlook, Equiv.swap_apply_of_ne_of_ne h2 hxc.1]

end Net
end Primo
