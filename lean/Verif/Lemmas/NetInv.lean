import Verif.Lemmas.Network

/-! # Every good call keeps the invariant -/

namespace Primo
namespace Net
open Res

variable {s : Net}

/-! ## adjacency of updated graphs -/

theorem succOf_eq_of_none {k : Name} (h : k ∉ s.succ.keys) : s.succOf k = [] := by
  unfold succOf; rw [Dict.get?_eq_none.2 h]; rfl

theorem getD_set (d : Dict (Dict Nat)) (k : Name) (e : Dict Nat) (x : Name) :
    ((d.set k e).get? x).getD [] = if x = k then e else (d.get? x).getD [] := by
  rw [Dict.get?_set]
  by_cases h : k = x
  · rw [if_pos h, if_pos h.symm]; rfl
  · rw [if_neg h, if_neg (Ne.symm h)]

theorem getD_insertNew (d : Dict (Dict Nat)) (k x : Name) :
    ((d.insertNew k []).get? x).getD [] = (d.get? x).getD [] := by
  rw [Dict.get?_insertNew]
  split
  · rename_i h; subst h
    cases d.get? x <;> rfl
  · rfl

theorem getD_eraseAll {d : Dict (Dict Nat)} (hd : d.keys.Nodup) (k x : Name) :
    ((Dict.get? ((d.erase k).map fun p => (p.1, p.2.erase k)) x).getD [] : Dict Nat) =
      if x = k then [] else ((d.get? x).getD []).erase k := by
  rw [Dict.get?_mapVal (d.erase k) (fun e => Dict.erase e k), Dict.get?_erase hd]
  split
  · rfl
  · cases d.get? x <;> rfl

/-! ## tables -/

/-- two objects that differ at most in the entries of their tables and their flags -/
structure SameStruct (o o' : NodeObj) : Prop where
  name : o'.name = o.name
  kind : o'.kind = o.kind
  values : o'.values = o.values
  parents : o'.parents = o.parents
  parentOrder : o'.parentOrder = o.parentOrder
  shape : o'.cpd.shape = o.cpd.shape

theorem SameStruct.refl (o : NodeObj) : SameStruct o o := ⟨rfl, rfl, rfl, rfl, rfl, rfl⟩

theorem Inv.of_tables (h : s.Inv) {H : Nat → NodeObj} (hs : ∀ i, SameStruct (s.heap i) (H i)) :
    Inv { s with heap := H } := by
  have hp : ∀ c, ({ s with heap := H } : Net).parentsOf c = s.parentsOf c := by
    intro c; unfold parentsOf
    cases hc : s.lookup.get? c with
    | none => rfl
    | some i => exact (hs i).parentOrder
  have hdims : ∀ i, dimsOf H (H i) = dimsOf s.heap (s.heap i) := by
    intro i
    rw [dimsOf_congr (H := s.heap) fun j => (hs j).values]
    unfold dimsOf ownDim
    rw [(hs i).values, (hs i).parents, (hs i).parentOrder]
  constructor
  · exact h.nodup
  · intro k i hi
    exact ⟨(h.name k i hi).1, ((hs i).name).trans (h.name k i hi).2⟩
  · exact h.graph
  · exact h.succ_keys
  · exact h.pred_keys
  · exact h.succ_nodup
  · exact h.pred_nodup
  · intro k c; rw [hp]; exact h.succ_spec k c
  · intro k c; rw [hp]; exact h.pred_spec k c
  · intro c; rw [hp]; exact h.order_nodup c
  · intro c p hc
    rw [hp] at hc
    obtain ⟨j, h1, h2⟩ := h.known c p hc
    exact ⟨j, h1, by simpa [(hs j).kind] using h2⟩
  · intro c i hi p
    simp only [(hs i).parents, (hs i).parentOrder]
    exact h.parent_obj c i hi p
  · intro i hi; simp only [(hs i).parents]; exact h.parents_nodup i hi
  · intro c i hi
    simp only [(hs i).shape, hdims]
    exact h.shape c i hi
  · intro i hi hk
    simp only [(hs i).kind, (hs i).values] at hk ⊢
    exact h.util_values i hi hk
  · intro i hi hk
    simp only [(hs i).parentOrder] at hk
    simp only [(hs i).parents, (hs i).shape, ownDim, (hs i).values]
    exact h.loose i hi hk

theorem Inv.setObj_same (h : s.Inv) {i : Nat} {o : NodeObj} (ho : SameStruct (s.heap i) o) :
    (s.setObj i o).Inv := by
  refine h.of_tables fun j => ?_
  by_cases hj : j = i
  · subst hj; simpa using ho
  · rw [Function.update_of_ne hj]; exact SameStruct.refl _

/-- an accepted table keeps the shape -/
theorem putCpd_sameStruct {i : Nat} {r : Except PyErr NDArray} {f : Bool → Bool}
    (hr : ∀ a, r = .ok a → a.shape = (s.heap i).cpd.shape) (h : s.Inv) : (putCpd i r f s).1.Inv := by
  unfold putCpd
  cases r with
  | error e => exact h
  | ok a => exact h.setObj_same ⟨rfl, rfl, rfl, rfl, rfl, hr a rfl⟩

theorem assign_shape {a b : NDArray} {ix : List Ix} {x : ℚ} (h : a.assign ix x = .ok b) :
    b.shape = a.shape := by
  unfold NDArray.assign at h
  split at h
  · cases h; rfl
  · cases h

theorem setCpd_shape {n : NodeV} {c a : NDArray} (h : n.setCpd c = .ok a) :
    a.shape = n.cpd.shape := by
  unfold NodeV.setCpd at h
  split at h
  · cases h
  · split at h
    · cases h
    · rename_i hh; cases h; simpa [eq_comm] using hh

theorem setUtilities_shape {n : NodeV} {c a : NDArray} (h : n.setUtilities c = .ok a) :
    a.shape = n.cpd.shape := by
  unfold NodeV.setUtilities at h
  split at h
  · cases h
  · split at h
    · cases h
    · rename_i hh; cases h; simpa [eq_comm] using hh

theorem setProbability_shape {n : NodeV} {v : Val} {p : ℚ} {pv : Dict Val} {a : NDArray}
    (h : n.setProbability v p pv = .ok a) : a.shape = n.cpd.shape := by
  unfold NodeV.setProbability at h
  split at h
  · cases h
  · obtain ⟨_, _, h⟩ := bind_eq_ok.1 h
    obtain ⟨_, _, h⟩ := bind_eq_ok.1 h
    exact assign_shape h

theorem setUtility_shape {n : NodeV} {u : ℚ} {pv : Dict Val} {a : NDArray}
    (h : n.setUtility u pv = .ok a) : a.shape = n.cpd.shape := by
  unfold NodeV.setUtility at h
  split at h
  · cases h
  · obtain ⟨_, _, h⟩ := bind_eq_ok.1 h
    split at h
    · cases h
    · exact assign_shape h

theorem fullyMixed_shape {n : NodeV} {a : NDArray} (h : n.fullyMixed = .ok a) :
    a.shape = n.cpd.shape := by
  unfold NodeV.fullyMixed at h
  split at h
  · cases h
  · cases h; rfl

theorem setDecision_shape (n : NodeV) (d : Val) : (n.setDecision d).1.shape = n.cpd.shape := by
  unfold NodeV.setDecision
  simp only
  split
  · rfl
  · split
    · rfl
    · rename_i h; exact (assign_shape h).trans rfl

/-! ## constructing objects, adding nodes, clearing -/

theorem Inv.create (h : s.Inv) (kind : NodeKind) (name : Name) (values : List Val) :
    (create kind name values s).1.Inv := by
  set o := newObj kind name values with ho
  have hfresh : ∀ k i, s.lookup.get? k = some i → i ≠ s.next := fun k i hi =>
    (h.name k i hi).1.ne
  have hne : ∀ i, i ≠ s.next → Function.update s.heap s.next o i = s.heap i := fun i hi =>
    Function.update_of_ne hi _ _
  have hp : ∀ c, (Net.create kind name values s).1.parentsOf c = s.parentsOf c := by
    intro c; unfold parentsOf
    simp only [Net.create]
    cases hc : s.lookup.get? c with
    | none => rfl
    | some i => simp only; rw [hne i (hfresh c i hc)]
  have ho1 : o.parents = [] ∧ o.parentOrder = [] ∧ o.cpd.shape = ownDim o ∧
      (o.kind = .utility → o.values = []) := by
    rw [ho]; cases kind <;> simp [newObj, ownDim] <;> rfl
  have hobj : ∀ (P : NodeObj → Prop), P o → (∀ i < s.next, P (s.heap i)) →
      ∀ i < s.next + 1, P (Function.update s.heap s.next o i) := by
    intro P h1 h2 i hi
    by_cases e : i = s.next
    · subst e; rw [Function.update_self]; exact h1
    · rw [hne i e]; exact h2 i (by omega)
  constructor
  · exact h.nodup
  · intro k i hi
    refine ⟨Nat.lt_succ_of_lt (h.name k i hi).1, ?_⟩
    change (Function.update s.heap s.next o i).name = k
    rw [hne i (hfresh k i hi)]; exact (h.name k i hi).2
  · exact h.graph
  · exact h.succ_keys
  · exact h.pred_keys
  · exact h.succ_nodup
  · exact h.pred_nodup
  · intro k c; rw [hp]; exact h.succ_spec k c
  · intro k c; rw [hp]; exact h.pred_spec k c
  · intro c; rw [hp]; exact h.order_nodup c
  · intro c p hc
    rw [hp] at hc
    obtain ⟨j, h1, h2⟩ := h.known c p hc
    refine ⟨j, h1, ?_⟩
    change (Function.update s.heap s.next o j).kind ≠ _
    rw [hne j (hfresh p j h1)]; exact h2
  · intro c i hi p
    change Dict.get? (Function.update s.heap s.next o i).parents p =
      if p ∈ (Function.update s.heap s.next o i).parentOrder then _ else _
    rw [hne i (hfresh c i hi)]
    exact h.parent_obj c i hi p
  · exact hobj (fun o => o.parents.keys.Nodup) (by rw [ho1.1]; simp) h.parents_nodup
  · intro c i hi
    change (Function.update s.heap s.next o i).cpd.shape =
      dimsOf (Function.update s.heap s.next o) (Function.update s.heap s.next o i)
    rw [hne i (hfresh c i hi), h.shape c i hi]
    unfold dimsOf
    congr 1
    refine List.map_congr_left fun p hp => ?_
    obtain ⟨j, h1, _⟩ := h.parents_ok hi p hp
    rw [h1]
    have hl : s.lookup.get? p = some j := by
      have := h.parent_obj c i hi p
      rw [if_pos hp, h1] at this; exact this.symm
    simp only
    rw [hne j (hfresh p j hl)]
  · exact hobj (fun o => o.kind = .utility → o.values = []) ho1.2.2.2 h.util_values
  · exact hobj (fun o => o.parentOrder = [] → o.parents = [] ∧ o.cpd.shape = ownDim o)
      (fun _ => ⟨ho1.1, ho1.2.2.1⟩) h.loose

theorem Inv.clear (h : s.Inv) : (clear s).1.Inv := by
  constructor <;> try simp [Net.clear, succOf, predOf, parentsOf, Dict.get?]
  · exact h.parents_nodup
  · exact h.util_values
  · exact h.loose

/-- effect of an accepted `add_node` -/
theorem addNode_effect (h : s.Inv) {i : Nat} (hi : i < s.next)
    (hn : (s.heap i).name ∉ s.lookup.keys) :
    addNode i s = ({ s with
      lookup := s.lookup ++ [((s.heap i).name, i)]
      gnode := s.lookup ++ [((s.heap i).name, i)]
      succ := s.succ ++ [((s.heap i).name, [])]
      pred := s.pred ++ [((s.heap i).name, [])] }, none) := by
  unfold addNode
  rw [if_neg (by omega), if_neg hn]
  simp only [graphAddNode]
  rw [Dict.set_of_not_mem _ hn, Dict.keys_insertNew_of_not_mem _ (by rw [h.graph]; exact hn),
    Dict.keys_insertNew_of_not_mem _ (by rw [h.succ_keys]; exact hn),
    Dict.keys_insertNew_of_not_mem _ (by rw [h.pred_keys]; exact hn), h.graph]

theorem Inv.addNode (h : s.Inv) {i : Nat} (hgood : (s.heap i).parentOrder = []) :
    (addNode i s).1.Inv := by
  by_cases hi : s.next ≤ i
  · rw [Net.addNode, if_pos hi]; exact h
  by_cases hn : (s.heap i).name ∈ s.lookup.keys
  · rw [Net.addNode, if_neg hi, if_pos hn]; exact h
  rw [addNode_effect h (by omega) hn]
  set k := (s.heap i).name with hk
  set s' : Net := { s with
      lookup := s.lookup ++ [(k, i)]
      gnode := s.lookup ++ [(k, i)]
      succ := s.succ ++ [(k, [])]
      pred := s.pred ++ [(k, [])] } with hs'
  have hnone : s.lookup.get? k = none := Dict.get?_eq_none.2 hn
  have hget : ∀ x, s'.lookup.get? x = if x = k then some i else s.lookup.get? x := by
    intro x
    rw [hs']
    simp only [Dict.get?_append]
    by_cases hx : x = k
    · subst hx; rw [hnone, if_pos rfl]; simp [Dict.get?]
    · rw [if_neg hx]; simp [Dict.get?, Ne.symm hx]
  have hold : ∀ x j, s.lookup.get? x = some j → s'.lookup.get? x = some j := by
    intro x j hx
    rw [hget, if_neg]
    · exact hx
    · rintro rfl; rw [hnone] at hx; cases hx
  have hp : ∀ c, s'.parentsOf c = s.parentsOf c := by
    intro c
    unfold parentsOf
    rw [hget]
    by_cases hc : c = k
    · subst hc; rw [if_pos rfl, hnone]; exact hgood
    · rw [if_neg hc]
  have hadj : ∀ (d : Dict (Dict Nat)) x, d.keys = s.lookup.keys →
      ((Dict.get? (d ++ [(k, [])]) x).getD []) = ((d.get? x).getD [] : Dict Nat) := by
    intro d x hd
    rw [Dict.get?_append]
    cases hdx : d.get? x with
    | some e => rfl
    | none =>
      by_cases hx : k = x <;> simp [Dict.get?, hx]
  have hsucc : ∀ x, s'.succOf x = s.succOf x := fun x => hadj s.succ x h.succ_keys
  have hpred : ∀ x, s'.predOf x = s.predOf x := fun x => hadj s.pred x h.pred_keys
  constructor
  · rw [hs']
    simp only [Dict.keys_append]
    exact List.nodup_append.2 ⟨h.nodup, by simp, by
      intro a ha b hb e
      simp at hb
      subst hb; subst e; exact hn ha⟩
  · intro x j hx
    rw [hget] at hx
    split at hx
    · rename_i e; cases hx; exact ⟨by simpa using hi, by rw [e]⟩
    · exact h.name x j hx
  · rfl
  · rw [hs']; simp [h.succ_keys]
  · rw [hs']; simp [h.pred_keys]
  · intro x; rw [hsucc]; exact h.succ_nodup x
  · intro x; rw [hpred]; exact h.pred_nodup x
  · intro x c
    rw [hsucc, hp, h.succ_spec]
    by_cases hx : x ∈ s.parentsOf c
    · rw [if_pos hx, if_pos hx]
      cases hc : s.lookup.get? c with
      | none => rw [parentsOf_none hc] at hx; cases hx
      | some j => rw [hold c j hc]
    · rw [if_neg hx, if_neg hx]
  · intro x c
    rw [hpred, hp, h.pred_spec]
    by_cases hx : x ∈ s.parentsOf c
    · rw [if_pos hx, if_pos hx]
      obtain ⟨j, hj, _⟩ := h.known c x hx
      rw [hj, hold x j hj]
    · rw [if_neg hx, if_neg hx]
  · intro c; rw [hp]; exact h.order_nodup c
  · intro c p hc
    rw [hp] at hc
    obtain ⟨j, h1, h2⟩ := h.known c p hc
    exact ⟨j, hold p j h1, h2⟩
  · intro c j hj p
    rw [hget] at hj
    split at hj
    · cases hj
      change Dict.get? (s.heap i).parents p = if p ∈ (s.heap i).parentOrder then _ else _
      rw [hgood, (h.loose i (by simpa using hi) hgood).1]
      simp [Dict.get?]
    · change Dict.get? (s.heap j).parents p = if p ∈ (s.heap j).parentOrder then _ else _
      rw [h.parent_obj c j hj]
      by_cases hpp : p ∈ (s.heap j).parentOrder
      · rw [if_pos hpp, if_pos hpp]
        obtain ⟨q, hq, _⟩ := h.known c p (by rw [parentsOf_of hj]; exact hpp)
        rw [hq, hold p q hq]
      · rw [if_neg hpp, if_neg hpp]
  · exact h.parents_nodup
  · intro c j hj
    rw [hget] at hj
    split at hj
    · cases hj
      change (s.heap i).cpd.shape = dimsOf s.heap (s.heap i)
      unfold dimsOf
      rw [hgood, (h.loose i (by simpa using hi) hgood).2]; simp
    · exact h.shape c j hj
  · exact h.util_values
  · exact h.loose

/-! ## edges -/

theorem graphAddNode_noop (h : s.Inv) {k : Name} {i : Nat} (hi : s.lookup.get? k = some i) :
    s.graphAddNode i = s := by
  have hk : (s.heap i).name ∈ s.lookup.keys := by
    rw [(h.name k i hi).2]; exact Dict.mem_keys_of_get? hi
  unfold graphAddNode
  rw [Dict.keys_insertNew_of_mem _ (by rw [h.graph]; exact hk),
    Dict.keys_insertNew_of_mem _ (by rw [h.succ_keys]; exact hk),
    Dict.keys_insertNew_of_mem _ (by rw [h.pred_keys]; exact hk)]

/-- effect of an accepted `add_edge` -/
theorem addEdge_effect (h : s.Inv) {a b : Name} {i j : Nat} (hi : s.lookup.get? a = some i)
    (hj : s.lookup.get? b = some j) (hnew : a ∉ s.parentsOf b) (hu : (s.heap i).kind ≠ .utility) :
    addEdge a b s = ({ s with
      heap := Function.update s.heap j (grown s.heap a i (s.heap j))
      succ := s.succ.set a ((s.succOf a).insertNew b j)
      pred := s.pred.set b ((s.predOf b).insertNew a i) }, none) := by
  unfold addEdge
  rw [if_pos ⟨h.mem_keys.2 ⟨i, hi⟩, h.mem_keys.2 ⟨j, hj⟩⟩, hi, hj]
  simp only [graphAddEdge]
  rw [graphAddNode_noop h hi, graphAddNode_noop h hj, (h.name a i hi).2, (h.name b j hj).2]
  exact (addParent_ok (s := { s with
      succ := s.succ.set a ((s.succOf a).insertNew b j)
      pred := s.pred.set b ((s.predOf b).insertNew a i) }) (k := a) (h.name a i hi).2 hu
    (by rw [parentsOf_of hj] at hnew; exact hnew) (h.parents_ok hj))

theorem parentsOf_update {H : Nat → NodeObj} {L G : Dict Nat} {S P : Dict (Dict Nat)} {b : Name}
    {j : Nat} {o : NodeObj} (h : s.Inv) (hL : L = s.lookup) (hH : H = Function.update s.heap j o)
    (hj : s.lookup.get? b = some j) (c : Name) :
    ({ s with heap := H, lookup := L, gnode := G, succ := S, pred := P } : Net).parentsOf c =
      if c = b then o.parentOrder else s.parentsOf c := by
  subst hL hH
  unfold parentsOf
  simp only
  by_cases hc : c = b
  · subst hc; rw [hj, if_pos rfl]; simp
  · rw [if_neg hc]
    cases hl : s.lookup.get? c with
    | none => rfl
    | some q =>
      have : q ≠ j := fun e => hc (h.inj (e ▸ hl) hj)
      simp [this]

theorem Inv.addEdge (h : s.Inv) {a b : Name} (hnew : a ∉ s.parentsOf b)
    (hu : ∀ i, s.lookup.get? a = some i → (s.heap i).kind ≠ .utility) :
    (addEdge a b s).1.Inv := by
  by_cases hab : a ∈ s.gnode.keys ∧ b ∈ s.gnode.keys
  swap
  · rw [Net.addEdge, if_neg hab]; exact h
  obtain ⟨i, hi⟩ := h.mem_keys.1 hab.1
  obtain ⟨j, hj⟩ := h.mem_keys.1 hab.2
  rw [addEdge_effect h hi hj hnew (hu i hi)]
  set o := grown s.heap a i (s.heap j) with ho
  set s' : Net := { s with
      heap := Function.update s.heap j o
      succ := s.succ.set a ((s.succOf a).insertNew b j)
      pred := s.pred.set b ((s.predOf b).insertNew a i) } with hs'
  have hcore : ∀ q, Core (s.heap q) (s'.heap q) := by
    intro q
    by_cases hq : q = j
    · subst hq; simp [hs', ho, grown, redim, Core]
    · simp [hs', hq, Core]
  have hother : ∀ q, q ≠ j → s'.heap q = s.heap q := fun q hq => by simp [hs', hq]
  have hself : s'.heap j = o := by simp [hs']
  have hoP : o.parents = (s.heap j).parents.set a i := rfl
  have hoO : o.parentOrder = (s.heap j).parentOrder ++ [a] := rfl
  have hp : ∀ c, s'.parentsOf c = if c = b then s.parentsOf b ++ [a] else s.parentsOf c := by
    intro c
    rw [parentsOf_update h rfl rfl hj, hoO, parentsOf_of hj]
  have hsucc : ∀ x, s'.succOf x = if x = a then (s.succOf a).insertNew b j else s.succOf x :=
    fun x => getD_set _ _ _ _
  have hpred : ∀ x, s'.predOf x = if x = b then (s.predOf b).insertNew a i else s.predOf x :=
    fun x => getD_set _ _ _ _
  have hak : a ∈ s.succ.keys := by rw [h.succ_keys]; exact Dict.mem_keys_of_get? hi
  have hbk : b ∈ s.pred.keys := by rw [h.pred_keys]; exact Dict.mem_keys_of_get? hj
  have hord : a ∉ (s.heap j).parentOrder := by rw [← parentsOf_of hj]; exact hnew
  constructor
  · exact h.nodup
  · intro k q hq
    exact ⟨(h.name k q hq).1, (hcore q).1.trans (h.name k q hq).2⟩
  · exact h.graph
  · rw [hs']; simp only [Dict.keys_set_of_mem _ hak]; exact h.succ_keys
  · rw [hs']; simp only [Dict.keys_set_of_mem _ hbk]; exact h.pred_keys
  · intro x; rw [hsucc]; split
    · exact Dict.nodup_insertNew (h.succ_nodup a)
    · exact h.succ_nodup x
  · intro x; rw [hpred]; split
    · exact Dict.nodup_insertNew (h.pred_nodup b)
    · exact h.pred_nodup x
  · intro x c
    change _ = if _ then s.lookup.get? c else none
    rw [hsucc, hp]
    by_cases hx : x = a
    · subst hx
      rw [if_pos rfl, Dict.get?_insertNew, h.succ_spec, h.succ_spec, if_neg hnew]
      by_cases hc : c = b
      · subst hc; simp [hj]
      · simp [hc]
    · rw [if_neg hx, h.succ_spec]
      by_cases hc : c = b
      · subst hc; simp [hx]
      · simp [hc]
  · intro x c
    change _ = if _ then s.lookup.get? x else none
    rw [hpred, hp]
    by_cases hc : c = b
    · subst hc
      rw [if_pos rfl, if_pos rfl, Dict.get?_insertNew, h.pred_spec, h.pred_spec, if_neg hnew]
      by_cases hx : x = a
      · subst hx; simp [hi]
      · simp [hx]
    · rw [if_neg hc, if_neg hc, h.pred_spec]
  · intro c
    rw [hp]
    split
    · refine List.nodup_append.2 ⟨h.order_nodup b, by simp, ?_⟩
      intro x hx y hy e
      simp at hy
      subst hy; subst e; exact hnew hx
    · exact h.order_nodup c
  · intro c p hc
    rw [hp] at hc
    have key : ∀ q, (s.heap q).kind ≠ .utility → (s'.heap q).kind ≠ .utility := fun q hq => by
      rw [(hcore q).2.2]; exact hq
    split at hc
    · rcases List.mem_append.1 hc with hc | hc
      · obtain ⟨q, h1, h2⟩ := h.known b p hc
        exact ⟨q, h1, key q h2⟩
      · rw [List.mem_singleton.1 hc]
        exact ⟨i, hi, key i (hu i hi)⟩
    · obtain ⟨q, h1, h2⟩ := h.known c p hc
      exact ⟨q, h1, key q h2⟩
  · intro c q hq p
    change _ = if _ then s.lookup.get? p else none
    by_cases hqj : q = j
    · subst hqj
      rw [hself, hoP, hoO, Dict.get?_set, h.parent_obj c q hq]
      by_cases hpa : p = a
      · subst hpa; simp [hi]
      · simp [hpa, Ne.symm hpa]
    · rw [hother q hqj]; exact h.parent_obj c q hq p
  · intro q hq
    by_cases hqj : q = j
    · subst hqj
      rw [hself, hoP]; exact Dict.nodup_keys_set (h.parents_nodup q hq)
    · rw [hother q hqj]; exact h.parents_nodup q hq
  · intro c q hq
    rw [dimsOf_congr (H := s.heap) fun x => (hcore x).2.1]
    by_cases hqj : q = j
    · subst hqj
      rw [hself, ho]; rfl
    · rw [hother q hqj]; exact h.shape c q hq
  · intro q hq hk
    rw [(hcore q).2.1]
    exact h.util_values q hq ((hcore q).2.2 ▸ hk)
  · intro q hq hk
    by_cases hqj : q = j
    · subst hqj
      rw [hself, hoO] at hk; simp at hk
    · rw [hother q hqj] at hk ⊢; exact h.loose q hq hk

/-- effect of an accepted `remove_edge` -/
theorem removeEdge_effect (h : s.Inv) {a b : Name} {i j : Nat} (hi : s.lookup.get? a = some i)
    (hj : s.lookup.get? b = some j) (hold : a ∈ s.parentsOf b) (hd : (s.heap j).kind = .discrete) :
    removeEdge a b s = ({ s with
      heap := Function.update s.heap j (dropped s.heap a (s.heap j))
      succ := s.succ.set a ((s.succOf a).erase b)
      pred := s.pred.set b ((s.predOf b).erase a) }, none) := by
  have hord : a ∈ (s.heap j).parentOrder := by rw [← parentsOf_of hj]; exact hold
  unfold removeEdge
  rw [if_pos ⟨h.mem_keys.2 ⟨i, hi⟩, h.mem_keys.2 ⟨j, hj⟩⟩, hi, hj]
  simp only
  rw [removeParent_ok (k := a) (h.name a i hi).2 hd
    (by rw [← Dict.get?_isSome]; exact ⟨i, by rw [h.parent_obj b j hj, if_pos hord, hi]⟩)
    hord (by rw [← parentsOf_of hj]; exact h.order_nodup b) (h.parents_ok hj)]
  simp only [andThen, graphRemoveEdge]
  rw [if_neg]
  · rfl
  · rw [not_not]
    exact h.mem_succ.2 hold

/-- a rejected or void `remove_edge` leaves the state alone -/
theorem removeEdge_noop (h : s.Inv) {a b : Name}
    (hno : ¬ ∃ i j, s.lookup.get? a = some i ∧ s.lookup.get? b = some j ∧ a ∈ s.parentsOf b ∧
      (s.heap j).kind = .discrete) : (removeEdge a b s).1 = s := by
  unfold removeEdge
  by_cases hab : a ∈ s.gnode.keys ∧ b ∈ s.gnode.keys
  swap
  · rw [if_neg hab]
  obtain ⟨i, hi⟩ := h.mem_keys.1 hab.1
  obtain ⟨j, hj⟩ := h.mem_keys.1 hab.2
  rw [if_pos hab, hi, hj]
  simp only [removeParent]
  by_cases hd : (s.heap j).kind = .discrete
  swap
  · rw [if_pos hd]; rfl
  rw [if_neg (by simp [hd])]
  have hna : a ∉ (s.heap j).parentOrder := by
    intro hc
    exact hno ⟨i, j, hi, hj, by rw [parentsOf_of hj]; exact hc, hd⟩
  rw [if_pos]
  · rfl
  · rw [(h.name a i hi).2, ← Dict.get?_eq_none, h.parent_obj b j hj, if_neg hna]

theorem Inv.removeEdge (h : s.Inv) (a b : Name) : (removeEdge a b s).1.Inv := by
  by_cases hno : ∃ i j, s.lookup.get? a = some i ∧ s.lookup.get? b = some j ∧ a ∈ s.parentsOf b ∧
      (s.heap j).kind = .discrete
  swap
  · rw [removeEdge_noop h hno]; exact h
  obtain ⟨i, j, hi, hj, hold, hd⟩ := hno
  rw [removeEdge_effect h hi hj hold hd]
  set o := dropped s.heap a (s.heap j) with ho
  set s' : Net := { s with
      heap := Function.update s.heap j o
      succ := s.succ.set a ((s.succOf a).erase b)
      pred := s.pred.set b ((s.predOf b).erase a) } with hs'
  have hcore : ∀ q, Core (s.heap q) (s'.heap q) := by
    intro q
    by_cases hq : q = j
    · subst hq; simp [hs', ho, dropped, redim, Core]
    · simp [hs', hq, Core]
  have hother : ∀ q, q ≠ j → s'.heap q = s.heap q := fun q hq => by simp [hs', hq]
  have hself : s'.heap j = o := by simp [hs']
  have hoP : o.parents = (s.heap j).parents.erase a := rfl
  have hoO : o.parentOrder = (s.heap j).parentOrder.erase a := rfl
  have hnd := h.order_nodup b
  have hmem : ∀ x, x ∈ (s.parentsOf b).erase a ↔ x ≠ a ∧ x ∈ s.parentsOf b := fun x =>
    hnd.mem_erase_iff
  have hp : ∀ c, s'.parentsOf c = if c = b then (s.parentsOf b).erase a else s.parentsOf c := by
    intro c
    rw [parentsOf_update h rfl rfl hj, hoO, parentsOf_of hj]
  have hsucc : ∀ x, s'.succOf x = if x = a then (s.succOf a).erase b else s.succOf x :=
    fun x => getD_set _ _ _ _
  have hpred : ∀ x, s'.predOf x = if x = b then (s.predOf b).erase a else s.predOf x :=
    fun x => getD_set _ _ _ _
  have hak : a ∈ s.succ.keys := by rw [h.succ_keys]; exact Dict.mem_keys_of_get? hi
  have hbk : b ∈ s.pred.keys := by rw [h.pred_keys]; exact Dict.mem_keys_of_get? hj
  constructor
  · exact h.nodup
  · intro k q hq
    exact ⟨(h.name k q hq).1, (hcore q).1.trans (h.name k q hq).2⟩
  · exact h.graph
  · rw [hs']; simp only [Dict.keys_set_of_mem _ hak]; exact h.succ_keys
  · rw [hs']; simp only [Dict.keys_set_of_mem _ hbk]; exact h.pred_keys
  · intro x; rw [hsucc]; split
    · exact Dict.nodup_erase (h.succ_nodup a) _
    · exact h.succ_nodup x
  · intro x; rw [hpred]; split
    · exact Dict.nodup_erase (h.pred_nodup b) _
    · exact h.pred_nodup x
  · intro x c
    change _ = if _ then s.lookup.get? c else none
    rw [hsucc, hp]
    by_cases hc : c = b
    · subst hc
      rw [if_pos rfl]
      simp only [hmem]
      by_cases hx : x = a
      · subst hx
        rw [if_pos rfl, Dict.get?_erase (h.succ_nodup x)]; simp
      · rw [if_neg hx, h.succ_spec]; simp [hx]
    · rw [if_neg hc]
      by_cases hx : x = a
      · subst hx
        rw [if_pos rfl, Dict.get?_erase (h.succ_nodup x), if_neg hc, h.succ_spec]
      · rw [if_neg hx, h.succ_spec]
  · intro x c
    change _ = if _ then s.lookup.get? x else none
    rw [hpred, hp]
    by_cases hc : c = b
    · subst hc
      rw [if_pos rfl, if_pos rfl, Dict.get?_erase (h.pred_nodup c), h.pred_spec]
      simp only [hmem]
      by_cases hx : x = a
      · subst hx; simp
      · simp [hx]
    · rw [if_neg hc, if_neg hc, h.pred_spec]
  · intro c
    rw [hp]
    split
    · exact hnd.erase a
    · exact h.order_nodup c
  · intro c p hc
    rw [hp] at hc
    have key : ∀ q, (s.heap q).kind ≠ .utility → (s'.heap q).kind ≠ .utility := fun q hq => by
      rw [(hcore q).2.2]; exact hq
    split at hc
    · obtain ⟨q, h1, h2⟩ := h.known b p ((hmem p).1 hc).2
      exact ⟨q, h1, key q h2⟩
    · obtain ⟨q, h1, h2⟩ := h.known c p hc
      exact ⟨q, h1, key q h2⟩
  · intro c q hq p
    change _ = if _ then s.lookup.get? p else none
    by_cases hqj : q = j
    · subst hqj
      rw [hself, hoP, hoO, Dict.get?_erase (h.parents_nodup q (h.name c q hq).1),
        h.parent_obj c q hq, ← parentsOf_of hj]
      simp only [hmem]
      by_cases hpa : p = a
      · subst hpa; simp
      · simp [hpa]
    · rw [hother q hqj]; exact h.parent_obj c q hq p
  · intro q hq
    by_cases hqj : q = j
    · subst hqj
      rw [hself, hoP]; exact Dict.nodup_erase (h.parents_nodup q hq) _
    · rw [hother q hqj]; exact h.parents_nodup q hq
  · intro c q hq
    rw [dimsOf_congr (H := s.heap) fun x => (hcore x).2.1]
    by_cases hqj : q = j
    · subst hqj
      rw [hself, ho]; rfl
    · rw [hother q hqj]; exact h.shape c q hq
  · intro q hq hk
    rw [(hcore q).2.1]
    exact h.util_values q hq ((hcore q).2.2 ▸ hk)
  · intro q hq hk
    by_cases hqj : q = j
    · subst hqj
      rw [hself] at hk ⊢
      have hk' : (s.heap q).parentOrder.erase a = [] := hk
      have hpar : (s.heap q).parents.erase a = [] := by
        have : ∀ p, ((s.heap q).parents.erase a).get? p = none := by
          intro p
          rw [Dict.get?_erase (h.parents_nodup q hq), h.parent_obj b q hj]
          by_cases hpa : p = a
          · rw [if_pos hpa]
          · rw [if_neg hpa, if_neg]
            intro hpm
            have : p ∈ (s.heap q).parentOrder.erase a := (List.mem_erase_of_ne hpa).2 hpm
            rw [hk'] at this; cases this
        cases hl : (s.heap q).parents.erase a with
        | nil => rfl
        | cons p l => have := this p.1; rw [hl] at this; simp [Dict.get?] at this
      refine ⟨hpar, ?_⟩
      change dimsOf s.heap _ = ownDim _
      unfold dimsOf
      simp only [hk', List.map_nil, List.append_nil]
      rfl
    · rw [hother q hqj] at hk ⊢; exact h.loose q hq hk

end Net
end Primo
