import Verif.Spec.DecisionNet
import Verif.Lemmas.NetStep
import Verif.Lemmas.NetLookup
import Verif.Lemmas.NetView
import Verif.Lemmas.Rules

/-! # Decision networks built by good histories are consistent -/

namespace Primo
namespace Net

variable {s : Net}

/-- What holds of a node object in a network with lookup table `L` and heap `H`. -/
structure ObjOK (L : Dict Nat) (H : Nat → NodeObj) (o : NodeObj) : Prop where
  order_nodup : o.parentOrder.Nodup
  parents_nodup : o.parents.keys.Nodup
  parent_obj : ∀ p, o.parents.get? p = if p ∈ o.parentOrder then L.get? p else none
  known : ∀ p ∈ o.parentOrder, ∃ j, L.get? p = some j ∧ (H j).kind ≠ .utility
  self : o.name ∉ o.parentOrder
  shape : o.cpd.shape = dimsOf H o
  util : o.kind = .utility → o.values = []
  plain : o.kind ≠ .utility → o.plain = false

/-- the invariant of good histories -/
structure DInv (s : Net) : Prop where
  nodup : s.lookup.keys.Nodup
  name : ∀ k i, s.lookup.get? k = some i → i < s.next ∧ (s.heap i).name = k
  obj : ∀ i < s.next, ObjOK s.lookup s.heap (s.heap i)

theorem ObjOK.parents {L : Dict Nat} {H : Nat → NodeObj} {o : NodeObj} (h : ObjOK L H o) :
    ∀ p ∈ o.parentOrder, ∃ j, o.parents.get? p = some j ∧ (H j).kind ≠ .utility := fun p hp => by
  obtain ⟨j, h1, h2⟩ := h.known p hp
  exact ⟨j, by rw [h.parent_obj, if_pos hp, h1], h2⟩

/-- Objects depend on the kinds and numbers of outcomes of their parents only. -/
theorem ObjOK.congr {L : Dict Nat} {H H' : Nat → NodeObj} {o : NodeObj} (h : ObjOK L H o)
    (hk : ∀ j, (H' j).kind = (H j).kind)
    (hv : ∀ p j, o.parents.get? p = some j → (H' j).values = (H j).values) : ObjOK L H' o := by
  refine ⟨h.1, h.2, h.3, fun p hp => ?_, h.5, ?_, h.7, h.8⟩
  · obtain ⟨j, h1, h2⟩ := h.4 p hp
    exact ⟨j, h1, by rwa [hk]⟩
  · rw [h.6]
    unfold dimsOf
    congr 1
    refine List.map_congr_left fun p _ => ?_
    cases e : o.parents.get? p with
    | none => rfl
    | some j => simp [hv p j e]

theorem DInv.setObj (h : s.DInv) {i : Nat} {o : NodeObj} (hn : o.name = (s.heap i).name)
    (hk : o.kind = (s.heap i).kind)
    (hv : ∀ j < s.next, ∀ p, (s.heap j).parents.get? p = some i → o.values = (s.heap i).values)
    (ho : i < s.next → ObjOK s.lookup (Function.update s.heap i o) o) : (s.setObj i o).DInv := by
  refine ⟨h.nodup, fun k j hj => ?_, fun j hj => ?_⟩
  · obtain ⟨h1, h2⟩ := h.name k j hj
    refine ⟨h1, ?_⟩
    by_cases e : j = i
    · subst e; simp [hn, h2]
    · simp [e, h2]
  · have hj' : j < s.next := hj
    by_cases e : j = i
    · subst e
      change ObjOK s.lookup (Function.update s.heap j o) (Function.update s.heap j o j)
      rw [Function.update_self]; exact ho hj'
    · change ObjOK s.lookup (Function.update s.heap i o) (Function.update s.heap i o j)
      rw [Function.update_of_ne e]
      refine (h.obj j hj').congr (fun q => ?_) fun p q hq => ?_
      · by_cases eq : q = i
        · subst eq; simp [hk]
        · simp [eq]
      · by_cases eq : q = i
        · subst eq; simp [hv j hj' p hq]
        · simp [eq]

theorem DInv.tables (h : s.DInv) {i : Nat} {o : NodeObj} (ho : SameStruct (s.heap i) o)
    (hp : o.plain = false ∨ o.plain = (s.heap i).plain) : (s.setObj i o).DInv := by
  obtain ⟨h1, h3, h2, h4, h5, h6⟩ := ho
  refine h.setObj h1 h3 (fun _ _ _ _ => h2) fun hi => ?_
  obtain ⟨a, b, c, d, e, f, g, pl⟩ := h.obj i hi
  have hc : ∀ j, (Function.update s.heap i o j).values = (s.heap j).values := fun j => by
    by_cases e : j = i
    · subst e; simp [h2]
    · simp [e]
  refine ⟨by rwa [h5], by rwa [h4], by rw [h4, h5]; exact c, fun p hp => ?_, by rwa [h1, h5], ?_, ?_, ?_⟩
  · rw [h5] at hp
    obtain ⟨j, j1, j2⟩ := d p hp
    refine ⟨j, j1, ?_⟩
    by_cases e : j = i
    · subst e; simpa [h3] using j2
    · simpa [e] using j2
  · rw [h6, f, dimsOf_congr (H := s.heap) hc]
    unfold dimsOf ownDim
    rw [h2, h4, h5]
  · rw [h3, h2]; exact g
  · intro hk
    rcases hp with hp | hp
    · exact hp
    · rw [hp]; exact pl (h3 ▸ hk)

theorem DInv.putCpd {i : Nat} {r : Except PyErr NDArray} {f : Bool → Bool}
    (hr : ∀ a, r = .ok a → a.shape = (s.heap i).cpd.shape) (h : s.DInv) :
    (putCpd i r f s).1.DInv := by
  unfold Net.putCpd
  cases r with
  | error e => exact h
  | ok a => exact h.tables ⟨rfl, rfl, rfl, rfl, rfl, hr a rfl⟩ (.inl rfl)

theorem DInv.setDecision (h : s.DInv) (i : Nat) (d : Val) : (setDecision i d s).1.DInv := by
  unfold Net.setDecision
  split
  · exact h
  · exact h.tables ⟨rfl, rfl, rfl, rfl, rfl, setDecision_shape _ _⟩ (.inr rfl)

theorem DInv.fullyMixed (h : s.DInv) (i : Nat) : (fullyMixed i s).1.DInv := by
  unfold Net.fullyMixed
  split
  · exact h
  · exact h.putCpd fun a ha => fullyMixed_shape ha

theorem DInv.decideOne (h : s.DInv) (v : Name) (x : Val) : (decideOne v x s).1.DInv := by
  unfold Net.decideOne
  split
  · exact h.setDecision _ _
  · exact h

theorem DInv.mixOne (h : s.DInv) (v : Name) : (mixOne v s).1.DInv := by
  unfold Net.mixOne
  split
  · exact h.fullyMixed _
  · exact h

theorem DInv.decideAll (h : s.DInv) (D : Dict Val) : (decideAll D s).1.DInv :=
  forEach_inv (P := DInv) (fun p _ h => h.decideOne p.1 p.2) D s h

theorem DInv.prepareAll (h : s.DInv) (o : List Name) (F : Dict Val) : (prepareAll o F s).1.DInv := by
  refine forEach_inv (P := DInv) (fun v t h => ?_) o s h
  cases F.get? v with
  | none => exact h.mixOne v
  | some x => exact h.decideOne v x

theorem DInv.empty : Net.empty.DInv :=
  ⟨by simp [Net.empty], fun _ _ h => by simp [Net.empty, Dict.get?] at h, by simp [Net.empty]⟩

theorem DInv.create (h : s.DInv) (kind : NodeKind) (name : Name) (values : List Val) :
    (create kind name values s).1.DInv := by
  set o := newObj kind name values with ho
  have hpo : o.parentOrder = [] := by rw [ho]; cases kind <;> rfl
  have hpa : o.parents = [] := by rw [ho]; cases kind <;> rfl
  refine ⟨h.nodup, fun k j hj => ?_, fun j hj => ?_⟩
  · obtain ⟨h1, h2⟩ := h.name k j hj
    exact ⟨Nat.lt_succ_of_lt h1, by
      change (Function.update s.heap s.next o j).name = k
      rw [Function.update_of_ne (Nat.ne_of_lt h1), h2]⟩
  · change ObjOK s.lookup (Function.update s.heap s.next o) (Function.update s.heap s.next o j)
    by_cases e : j = s.next
    · subst e
      rw [Function.update_self]
      refine ⟨by simp [hpo], by simp [hpa], fun p => by simp [hpo, hpa, Dict.get?], by simp [hpo],
        by simp [hpo], ?_, ?_, ?_⟩
      · unfold dimsOf
        rw [hpo]
        cases kind <;> simp [ho, newObj, ownDim, NDArray.zeros, NDArray.scalar, NDArray.tabulate]
      · intro hk
        cases kind <;> simp [ho, newObj] at hk ⊢
      · intro hk
        cases kind <;> simp [ho, newObj] at hk ⊢
    · rw [Function.update_of_ne e]
      have hj' : j < s.next := by
        have : j < s.next + 1 := hj
        omega
      obtain ⟨a, b, c, d, f, g, i, pl⟩ := h.obj j hj'
      have hne : ∀ p q, (s.heap j).parents.get? p = some q → q ≠ s.next := fun p q hq => by
        rw [c] at hq
        split at hq
        · exact Nat.ne_of_lt (h.name _ _ hq).1
        · cases hq
      refine ⟨a, b, c, fun p hp => ?_, f, ?_, i, pl⟩
      · obtain ⟨q, q1, q2⟩ := d p hp
        exact ⟨q, q1, by rwa [Function.update_of_ne (Nat.ne_of_lt (h.name _ _ q1).1)]⟩
      · rw [g]
        unfold dimsOf
        congr 1
        refine List.map_congr_left fun p _ => ?_
        cases e : (s.heap j).parents.get? p with
        | none => rfl
        | some q => simp only; rw [Function.update_of_ne (hne p q e)]

theorem DInv.addNode (h : s.DInv) {i : Nat} (hg : DGood s (.addNode i)) :
    (dnAddNode i s).1.DInv := by
  obtain ⟨hi, hj⟩ := hg
  have hget : ∀ k j, s.lookup.get? k = some j → (s.lookup.set (s.heap i).name i).get? k = some j := by
    intro k j hk
    rw [Dict.get?_set]
    split
    · rename_i e; subst e; rw [hj j hk]
    · exact hk
  refine ⟨Dict.nodup_keys_set h.nodup, fun k j hk => ?_, fun j hjn => ?_⟩
  · change (s.lookup.set (s.heap i).name i).get? k = some j at hk
    rw [Dict.get?_set] at hk
    split at hk
    · rename_i e; cases hk; exact ⟨hi, e⟩
    · exact h.name k j hk
  · obtain ⟨a, b, c, d, f, g, u, pl⟩ := h.obj j hjn
    refine ⟨a, b, fun p => ?_, fun p hp => ?_, f, g, u, pl⟩
    · change (s.heap j).parents.get? p = if p ∈ (s.heap j).parentOrder then
        (s.lookup.set (s.heap i).name i).get? p else none
      rw [c]
      split
      · rename_i hp
        obtain ⟨q, q1, _⟩ := d p hp
        rw [q1]; exact (hget p q q1).symm
      · rfl
    · obtain ⟨q, q1, q2⟩ := d p hp
      exact ⟨q, hget p q q1, q2⟩

/-- the new object of a parent change: everything else is as before -/
theorem redim_ok {L : Dict Nat} {H : Nat → NodeObj} {i : Nat} {o : NodeObj} (hk : o.kind = (H i).kind)
    (hv : ∀ p, o.parents.get? p = some i → o.values = (H i).values)
    (h1 : o.parentOrder.Nodup) (h2 : o.parents.keys.Nodup)
    (h3 : ∀ p, o.parents.get? p = if p ∈ o.parentOrder then L.get? p else none)
    (h4 : ∀ p ∈ o.parentOrder, ∃ j, L.get? p = some j ∧ (H j).kind ≠ .utility)
    (h5 : o.name ∉ o.parentOrder) (h6 : o.kind = .utility → o.values = []) :
    ObjOK L (Function.update H i (redim H o)) (redim H o) := by
  have : ObjOK L H (redim H o) := ⟨h1, h2, h3, h4, h5, rfl, h6, fun _ => rfl⟩
  refine this.congr (fun j => ?_) fun p j hj => ?_
  · by_cases e : j = i
    · subst e; rw [Function.update_self]; exact hk
    · simp [e]
  · by_cases e : j = i
    · subst e; rw [Function.update_self]; exact hv p hj
    · simp [e]

theorem DInv.addEdge (h : s.DInv) {a b : Name} (hg : DGood s (.addEdge a b)) :
    (dnAddEdge a b s).1.DInv := by
  unfold dnAddEdge
  cases hb : s.lookup.get? b with
  | none => exact h
  | some i =>
    cases ha : s.lookup.get? a with
    | none => exact h
    | some j =>
      obtain ⟨g1, g2, g3⟩ := hg j i ha hb
      obtain ⟨hi, hin⟩ := h.name b i hb
      obtain ⟨hj, hjn⟩ := h.name a j ha
      have O := h.obj i hi
      simp only
      rw [addParent_ok hjn g3 g2 O.parents]
      have hnot : a ∉ (s.heap i).parents.keys := by
        rw [← Dict.get?_eq_none, O.parent_obj, if_neg g2]
      refine h.setObj rfl rfl (fun _ _ _ _ => rfl) fun _ => redim_ok rfl (fun _ _ => rfl) ?_ ?_ ?_ ?_ ?_
        O.util
      · simpa [List.nodup_append] using ⟨O.order_nodup, fun x hx e => g2 (e ▸ hx)⟩
      · exact Dict.nodup_keys_set O.parents_nodup
      · intro p
        simp only [Dict.get?_set, List.mem_append, List.mem_singleton]
        by_cases e : a = p
        · subst e; simp [ha]
        · rw [if_neg e, O.parent_obj]; simp [Ne.symm e]
      · intro p hp
        rcases List.mem_append.1 hp with hp | hp
        · exact O.known p hp
        · rw [List.mem_singleton.1 hp]; exact ⟨j, ha, g3⟩
      · simp only [List.mem_append, List.mem_singleton, not_or]
        exact ⟨O.self, by rw [hin]; exact Ne.symm g1⟩

theorem DInv.removeParent (h : s.DInv) {i : Nat} (j : Nat) (hi : i < s.next) :
    (removeParent i j s).1.DInv := by
  have O := h.obj i hi
  by_cases hk : (s.heap i).kind = .discrete
  · by_cases hp : (s.heap j).name ∈ (s.heap i).parents.keys
    · have ho : (s.heap j).name ∈ (s.heap i).parentOrder := by
        by_contra e
        exact absurd hp (by rw [← Dict.get?_eq_none, O.parent_obj, if_neg e])
      rw [removeParent_ok rfl hk hp ho O.order_nodup O.parents]
      refine h.setObj rfl rfl (fun _ _ _ _ => rfl) fun _ => redim_ok rfl (fun _ _ => rfl) ?_ ?_ ?_ ?_ ?_
        O.util
      · exact O.order_nodup.erase _
      · exact Dict.nodup_erase O.parents_nodup _
      · intro p
        simp only [Dict.get?_erase O.parents_nodup, O.order_nodup.mem_erase_iff]
        by_cases e : p = (s.heap j).name
        · subst e; simp
        · simp only [e, if_false, ne_eq, not_false_eq_true, true_and]; exact O.parent_obj p
      · exact fun p hp => O.known p (List.mem_of_mem_erase hp)
      · exact fun e => O.self (List.mem_of_mem_erase e)
    · unfold Net.removeParent
      rw [if_neg (by simp [hk]), if_pos hp]; exact h
  · unfold Net.removeParent
    rw [if_pos hk]; exact h

theorem DInv.setValues (h : s.DInv) {i : Nat} {vals : List Val} (hg : DGood s (.setValues i vals)) :
    (setValues i vals s).1.DInv := by
  obtain ⟨hi, hp⟩ := hg
  have O := h.obj i hi
  unfold Net.setValues
  by_cases hk : (s.heap i).kind = .discrete
  · rw [if_neg (by simp [hk])]
    have hne : ∀ p j, (s.heap i).parents.get? p = some j → j ≠ i := fun p j hj e => hp i hi p (e ▸ hj)
    rw [updateDims_ok]
    · simp only [setObj_setObj, setObj_heap, Function.update_self]
      have hr : redim (Function.update s.heap i { s.heap i with values := vals })
          { s.heap i with values := vals } = redim s.heap { s.heap i with values := vals } := by
        unfold redim dimsOf
        simp only [NodeObj.mk.injEq, true_and, and_true]
        congr 2
        refine List.map_congr_left fun p _ => ?_
        cases e : (s.heap i).parents.get? p with
        | none => rfl
        | some j => simp only; rw [Function.update_of_ne (hne p j e)]
      rw [hr]
      refine h.setObj rfl rfl (fun j hj p e => absurd e (hp j hj p)) fun _ => redim_ok rfl
        (fun p e => absurd e (hp i hi p)) O.1 O.2 O.3 O.4 O.5 fun e => ?_
      simp only at e
      rw [hk] at e; cases e
    · simp only [setObj_heap, Function.update_self]
      intro p hpp
      obtain ⟨j, j1, j2⟩ := O.parents p hpp
      exact ⟨j, j1, by rwa [Function.update_of_ne (hne p j j1)]⟩
  · rw [if_pos hk]; exact h

theorem DInv.step (h : s.DInv) {op : DOp} (hg : DGood s op) : (dstep op s).1.DInv := by
  cases op with
  | create k n v => exact h.create k n v
  | addNode i => exact h.addNode hg
  | addEdge a b => exact h.addEdge hg
  | removeParent i j => exact h.removeParent j hg
  | setValues i v => exact h.setValues hg
  | setCpd i c => exact h.putCpd fun a ha => setCpd_shape ha
  | setProbability i v p pv => exact h.putCpd fun a ha => setProbability_shape ha
  | setUtilities i u => exact h.putCpd fun a ha => setUtilities_shape ha
  | setUtility i u pv => exact h.putCpd fun a ha => setUtility_shape ha
  | setDecision i d => exact h.setDecision i d
  | fullyMixed i => exact h.fullyMixed i
  | expectedUtility D => exact h.decideAll D
  | optimalDecisions o f => exact h.prepareAll o f

theorem DInv.run (h : s.DInv) {ops : List DOp} (hg : DGoodRun ops s) : (drun ops s).DInv := by
  induction ops generalizing s with
  | nil => exact h
  | cons op ops ih => exact ih (h.step hg.1) hg.2

/-! ## the network as the decision maker sees it -/

theorem DInv.view_names (h : s.DInv) : s.view.names = s.lookup.keys := by
  unfold view BN.names Dict.keys
  rw [List.map_map]
  refine List.map_congr_left fun p hp => ?_
  exact (h.name p.1 p.2 (Dict.get?_of_mem h.nodup hp)).2

theorem DInv.mem_view (h : s.DInv) {n : NodeV} : n ∈ s.view ↔
    ∃ k i, s.lookup.get? k = some i ∧ n = s.objView i := by
  unfold view
  rw [List.mem_map]
  constructor
  · rintro ⟨⟨k, i⟩, hp, rfl⟩
    exact ⟨k, i, Dict.get?_of_mem h.nodup hp, rfl⟩
  · rintro ⟨k, i, hk, rfl⟩
    exact ⟨(k, i), Dict.get?_mem hk, rfl⟩

theorem DInv.view_nodup (h : s.DInv) : s.view.names.Nodup := by rw [h.view_names]; exact h.nodup

theorem chance_nodup {dn : BN} (h : dn.names.Nodup) : dn.chance.names.Nodup :=
  h.sublist ((List.filter_sublist).map _)

theorem DInv.chance_lab (h : s.DInv) {k : Name} {i : Nat} (hk : s.lookup.get? k = some i)
    (hu : (s.heap i).kind ≠ .utility) :
    k ∈ s.view.chance.names ∧ s.view.chance.lab k = (s.heap i).values := by
  have hm : s.objView i ∈ s.view.chance := mem_chance.2 ⟨h.mem_view.2 ⟨k, i, hk, rfl⟩, hu⟩
  have hn : (s.objView i).name = k := (h.name k i hk).2
  refine ⟨?_, ?_⟩
  · rw [← hn]; exact List.mem_map_of_mem hm
  · rw [← hn]; exact BN.lab_eq (chance_nodup h.view_nodup) hm

/-- what a node object says about its parents -/
theorem DInv.node (h : s.DInv) {k : Name} {i : Nat} (hk : s.lookup.get? k = some i) :
    (∀ p ∈ (s.objView i).parentOrder, p ∈ s.view.chance.names ∧
      (s.objView i).parents.get? p = some (s.view.chance.lab p)) ∧
    (s.objView i).cpd.shape = ownDim (s.heap i) ++ (s.objView i).parentOrder.map s.view.chance.card := by
  have O := h.obj i (h.name k i hk).1
  have key : ∀ p ∈ (s.heap i).parentOrder, ∃ j, (s.heap i).parents.get? p = some j ∧
      p ∈ s.view.chance.names ∧ s.view.chance.lab p = (s.heap j).values := fun p hp => by
    obtain ⟨j, j1, j2⟩ := O.known p hp
    exact ⟨j, by rw [O.parent_obj, if_pos hp, j1], h.chance_lab j1 j2⟩
  refine ⟨fun p hp => ?_, ?_⟩
  · obtain ⟨j, j1, j2, j3⟩ := key p hp
    refine ⟨j2, ?_⟩
    change Dict.get? ((s.heap i).parents.map fun p => (p.1, (s.heap p.2).values)) p = _
    rw [Dict.get?_mapVal (s.heap i).parents (fun j => (s.heap j).values), j1, j3]
    rfl
  · change (s.heap i).cpd.shape = _
    rw [O.shape]
    unfold dimsOf
    congr 1
    refine List.map_congr_left fun p hp => ?_
    obtain ⟨j, j1, _, j3⟩ := key p hp
    simp only [j1]
    rw [BN.card, j3]

theorem DInv.consistent (h : s.DInv) (hu : s.DUsable) : DNConsistent s.view := by
  have hch : ∀ n ∈ s.view.chance, ∃ k i, s.lookup.get? k = some i ∧ n = s.objView i ∧
      (s.heap i).kind ≠ .utility := fun n hn => by
    obtain ⟨h1, h2⟩ := mem_chance.1 hn
    obtain ⟨k, i, hk, rfl⟩ := h.mem_view.1 h1
    exact ⟨k, i, hk, rfl, h2⟩
  have hut : ∀ n ∈ s.view.utils, ∃ k i, s.lookup.get? k = some i ∧ n = s.objView i ∧
      (s.heap i).kind = .utility := fun n hn => by
    obtain ⟨h1, h2⟩ := List.mem_filter.1 hn
    obtain ⟨k, i, hk, rfl⟩ := h.mem_view.1 h1
    exact ⟨k, i, hk, rfl, of_decide_eq_true h2⟩
  refine ⟨h.view_nodup, ⟨chance_nodup h.view_nodup, ?_, ?_, ?_, ?_, ?_, ?_⟩, ?_, ?_, ?_, ?_⟩
  · exact fun n hn => (mem_chance.1 hn).2
  · intro n hn
    obtain ⟨k, i, hk, rfl, _⟩ := hch n hn
    exact (h.obj i (h.name k i hk).1).order_nodup
  · intro n hn
    obtain ⟨k, i, hk, rfl, _⟩ := hch n hn
    exact (h.obj i (h.name k i hk).1).self
  · intro n hn p hp
    obtain ⟨k, i, hk, rfl, _⟩ := hch n hn
    exact ((h.node hk).1 p hp).1
  · intro n hn p hp
    obtain ⟨k, i, hk, rfl, _⟩ := hch n hn
    exact ((h.node hk).1 p hp).2
  · intro n hn
    obtain ⟨k, i, hk, rfl, hkind⟩ := hch n hn
    rw [(h.node hk).2, ownDim, if_neg (hu k i hk hkind)]
    rfl
  · intro n hn
    obtain ⟨k, i, hk, rfl, _⟩ := hut n hn
    exact (h.obj i (h.name k i hk).1).order_nodup
  · intro n hn p hp
    obtain ⟨k, i, hk, rfl, _⟩ := hut n hn
    exact ((h.node hk).1 p hp).1
  · intro n hn p hp
    obtain ⟨k, i, hk, rfl, _⟩ := hut n hn
    exact ((h.node hk).1 p hp).2
  · intro n hn
    obtain ⟨k, i, hk, rfl, hkind⟩ := hut n hn
    rw [(h.node hk).2, ownDim, if_pos ((h.obj i (h.name k i hk).1).util hkind)]
    rfl

/-! ## decisions on live objects -/

theorem DInv.lookup_view (h : s.DInv) (v : Name) : Decision.lookup s.view v =
    match s.lookup.get? v with
    | some i => .ok (s.objView i)
    | none => .error .keyError := by
  cases hv : s.lookup.get? v with
  | some i =>
    have := lookup_ok h.view_nodup (h.mem_view.2 ⟨v, i, hv, rfl⟩)
    rwa [show (s.objView i).name = v from (h.name v i hv).2] at this
  | none =>
    exact lookup_error (by rw [h.view_names, ← Dict.get?_eq_none]; exact hv)

theorem DInv.view_setObj (h : s.DInv) {v : Name} {i : Nat} (hv : s.lookup.get? v = some i)
    {o : NodeObj} {a : NDArray}
    (ho : o = { s.heap i with cpd := a, valid := o.valid }) :
    (s.setObj i o).view = s.view.putCpd v a := by
  have hval : ∀ q, (Function.update s.heap i o q).values = (s.heap q).values := fun q => by
    by_cases e : q = i
    · subst e; rw [Function.update_self, ho]
    · rw [Function.update_of_ne e]
  have hname : ∀ q, (Function.update s.heap i o q).name = (s.heap q).name := fun q => by
    by_cases e : q = i
    · subst e; rw [Function.update_self, ho]
    · rw [Function.update_of_ne e]
  unfold view BN.putCpd
  rw [List.map_map]
  refine List.map_congr_left fun p hp => ?_
  have hp' := Dict.get?_of_mem h.nodup hp
  have hpn := (h.name p.1 p.2 hp').2
  simp only [Function.comp_apply]
  have hs : ∀ k, (s.setObj i o).succOf k = s.succOf k := fun _ => rfl
  unfold objView
  simp only [hs, setObj_heap, hval, hname]
  by_cases e : p.2 = i
  · have : p.1 = v := by rw [← hpn, e]; exact (h.name v i hv).2
    rw [if_pos (by rw [hpn, this]), e, Function.update_self, ho]
  · rw [if_neg, Function.update_of_ne e]
    rw [hpn]
    intro e'
    rw [e', hv] at hp'
    cases hp'; exact e rfl

theorem view_decideOne (h : s.DInv) (v : Name) (x : Val) :
    ((decideOne v x s).1.view, (decideOne v x s).2) = Decision.setDecision s.view v x := by
  unfold decideOne Decision.setDecision
  rw [h.lookup_view]
  cases hv : s.lookup.get? v with
  | none => rfl
  | some i =>
    simp only
    unfold Net.setDecision
    by_cases hk : (s.heap i).kind = .decision
    · rw [if_neg (by simp [hk]), if_neg (show ¬ (s.objView i).kind ≠ .decision from fun h => h hk)]
      rw [h.view_setObj hv (a := ((s.objView i).setDecision x).1) rfl]
    · rw [if_pos hk, if_pos (show (s.objView i).kind ≠ .decision from hk)]

theorem view_mixOne (h : s.DInv) (v : Name) :
    ((mixOne v s).1.view, (mixOne v s).2) = Decision.prepareOne s.view [] v := by
  unfold mixOne Decision.prepareOne
  simp only [Dict.get?]
  rw [h.lookup_view]
  cases hv : s.lookup.get? v with
  | none => rfl
  | some i =>
    simp only
    unfold Net.fullyMixed
    by_cases hk : (s.heap i).kind = .decision
    · rw [if_neg (by simp [hk]), if_neg (show ¬ (s.objView i).kind ≠ .decision from fun h => h hk)]
      unfold Net.putCpd
      cases e : (s.objView i).fullyMixed with
      | error e => rfl
      | ok a =>
        simp only
        have hpl := (h.obj i (h.name v i hv).1).plain (by rw [hk]; decide)
        rw [h.view_setObj hv (a := a) (by rw [← hpl])]
    · rw [if_pos hk, if_pos (show (s.objView i).kind ≠ .decision from hk)]

theorem view_decideAll (D : Dict Val) : ∀ {s : Net}, s.DInv →
    ((decideAll D s).1.view, (decideAll D s).2) = Decision.setDecisions s.view D := by
  induction D with
  | nil => intro s h; rfl
  | cons p D ih =>
    intro s h
    have h1 := view_decideOne h p.1 p.2
    have h2 := h.decideOne p.1 p.2
    unfold decideAll at ih ⊢
    rw [Res.forEach, Decision.setDecisions, ← h1]
    unfold Res.andThen
    cases e : (decideOne p.1 p.2 s).2 with
    | none => simp only; exact ih h2
    | some x => simp [e]

theorem view_prepareAll (F : Dict Val) (o : List Name) : ∀ {s : Net}, s.DInv →
    ((prepareAll o F s).1.view, (prepareAll o F s).2) = Decision.prepare s.view F o := by
  induction o with
  | nil => intro s h; rfl
  | cons v o ih =>
    intro s h
    unfold prepareAll at ih ⊢
    rw [Res.forEach, Decision.prepare]
    have key : ∀ r : Res, r.1.DInv → (r.1.view, r.2) = Decision.prepareOne s.view F v →
        ((r.andThen (Res.forEach (fun v => match F.get? v with
          | some x => decideOne v x
          | none => mixOne v) o)).1.view, (r.andThen (Res.forEach (fun v => match F.get? v with
          | some x => decideOne v x
          | none => mixOne v) o)).2) = (match Decision.prepareOne s.view F v with
            | (dn, some e) => (dn, some e)
            | (dn, none) => Decision.prepare dn F o) := by
      intro r hr e
      rw [← e]
      unfold Res.andThen
      cases e : r.2 with
      | none => simp only; exact ih hr
      | some x => simp [e]
    cases hF : F.get? v with
    | none =>
      refine key _ (h.mixOne v) ?_
      rw [view_mixOne h]
      unfold Decision.prepareOne
      rw [hF]; rfl
    | some x =>
      refine key _ (h.decideOne v x) ?_
      rw [view_decideOne h]
      unfold Decision.prepareOne
      rw [hF]

end Net
end Primo
