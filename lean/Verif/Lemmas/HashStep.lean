import Verif.Lemmas.HashGraph

/-! # Lemmas: the methods of the network with object keys simulate the name-keyed ones -/

namespace Primo

namespace Net
open Res

/-- the node objects alone -/
def bare (t : Net) : Net := ⟨t.heap, t.next, [], [], [], []⟩

/-- a method of node objects: sees and changes them only, and renames none -/
structure Nodewise (f : Net → Res) : Prop where
  eq : ∀ t, f t = ({ t with heap := (f t.bare).1.heap, next := (f t.bare).1.next }, (f t.bare).2)
  name : ∀ t, ∀ i < t.next, ((f t).1.heap i).name = (t.heap i).name
  next : ∀ t, t.next ≤ (f t).1.next

/-- no object at all is renamed -/
def Keeps (f : Net → Res) : Prop := ∀ t i, ((f t).1.heap i).name = (t.heap i).name

theorem keeps_setObj {t : Net} {i : Nat} {o : NodeObj} (h : o.name = (t.heap i).name) (j : Nat) :
    ((t.setObj i o).heap j).name = (t.heap j).name := by
  by_cases hj : j = i
  · subst hj; simp [h]
  · simp [hj]

theorem parentLen_bare (t : Net) (o : NodeObj) (p : Name) :
    t.bare.parentLen o p = t.parentLen o p := rfl

theorem updateDims_keeps (i : Nat) : Keeps (updateDims i) := by
  intro t j
  unfold updateDims
  split
  · rfl
  · exact keeps_setObj (by rfl) j

theorem updateDims_next (i : Nat) (t : Net) : (updateDims i t).1.next = t.next := by
  unfold updateDims; split <;> rfl

theorem updateDims_eq (i : Nat) (t : Net) : updateDims i t =
    ({ t with heap := (updateDims i t.bare).1.heap, next := (updateDims i t.bare).1.next },
      (updateDims i t.bare).2) := by
  unfold updateDims
  change (match (t.heap i).parentOrder.mapM (t.parentLen (t.heap i)) with
    | .error e => (t, some e)
    | .ok d => _) = ({ t with
      heap := (match (t.heap i).parentOrder.mapM (t.parentLen (t.heap i)) with
        | .error e => (t.bare, some e)
        | .ok d => _).1.heap
      next := (match (t.heap i).parentOrder.mapM (t.parentLen (t.heap i)) with
        | .error e => (t.bare, some e)
        | .ok d => _).1.next }, (match (t.heap i).parentOrder.mapM (t.parentLen (t.heap i)) with
        | .error e => (t.bare, some e)
        | .ok d => _).2)
  cases (t.heap i).parentOrder.mapM (t.parentLen (t.heap i)) <;> rfl

theorem nodewise_of {f : Net → Res} (h : ∀ t, f t =
    ({ t with heap := (f t.bare).1.heap, next := (f t.bare).1.next }, (f t.bare).2))
    (hk : Keeps f) (hn : ∀ t, (f t).1.next = t.next) : Nodewise f :=
  ⟨h, fun t i _ => hk t i, fun t => (hn t).ge⟩

theorem updateDims_nodewise (i : Nat) : Nodewise (updateDims i) :=
  nodewise_of (updateDims_eq i) (updateDims_keeps i) (updateDims_next i)

theorem addParent_keeps (i j : Nat) : Keeps (addParent i j) := by
  intro t x
  unfold addParent
  rw [updateDims_keeps]
  exact keeps_setObj (by rfl) x

theorem addParent_nodewise (i j : Nat) : Nodewise (addParent i j) :=
  nodewise_of (fun t => by unfold addParent; rw [updateDims_eq]; rfl) (addParent_keeps i j)
    (fun t => by unfold addParent; rw [updateDims_next]; rfl)

theorem removeParent_keeps (i j : Nat) : Keeps (removeParent i j) := by
  intro t x
  unfold removeParent
  split
  · rfl
  · split
    · rfl
    · simp only
      split
      · exact keeps_setObj (by rfl) x
      · rw [updateDims_keeps, keeps_setObj (by rfl), keeps_setObj (by rfl)]

theorem removeParent_next (i j : Nat) (t : Net) : (removeParent i j t).1.next = t.next := by
  unfold removeParent
  split
  · rfl
  · split
    · rfl
    · simp only
      split
      · rfl
      · rw [updateDims_next]; rfl

theorem removeParent_nodewise (i j : Nat) : Nodewise (removeParent i j) :=
  nodewise_of (fun t => by
    unfold removeParent
    by_cases h1 : (t.heap i).kind ≠ .discrete
    · rw [if_pos h1, if_pos (show (t.bare.heap i).kind ≠ .discrete from h1)]; rfl
    · rw [if_neg h1, if_neg (show ¬ (t.bare.heap i).kind ≠ .discrete from h1)]
      by_cases h2 : (t.heap j).name ∉ (t.heap i).parents.keys
      · rw [if_pos h2, if_pos (show (t.bare.heap j).name ∉ (t.bare.heap i).parents.keys from h2)]
        rfl
      · rw [if_neg h2, if_neg (show ¬ (t.bare.heap j).name ∉ (t.bare.heap i).parents.keys from h2)]
        simp only
        by_cases h3 : (t.heap j).name ∉ (t.heap i).parentOrder
        · rw [if_pos h3, if_pos (show (t.bare.heap j).name ∉ (t.bare.heap i).parentOrder from h3)]
          rfl
        · rw [if_neg h3, if_neg (show ¬ (t.bare.heap j).name ∉ (t.bare.heap i).parentOrder from h3),
            updateDims_eq]
          rfl) (removeParent_keeps i j) (removeParent_next i j)

theorem setValues_keeps (i : Nat) (vals : List Val) : Keeps (setValues i vals) := by
  intro t x
  unfold setValues
  split
  · rfl
  · rw [updateDims_keeps]
    exact keeps_setObj (by rfl) x

theorem setValues_nodewise (i : Nat) (vals : List Val) : Nodewise (setValues i vals) :=
  nodewise_of (fun t => by
    unfold setValues
    by_cases h1 : (t.heap i).kind ≠ .discrete
    · rw [if_pos h1, if_pos (show (t.bare.heap i).kind ≠ .discrete from h1)]; rfl
    · rw [if_neg h1, if_neg (show ¬ (t.bare.heap i).kind ≠ .discrete from h1), updateDims_eq]
      rfl) (setValues_keeps i vals) (fun t => by
        unfold setValues
        split
        · rfl
        · rw [updateDims_next]; rfl)

theorem renameParent_keeps (i : Nat) (old new : Name) (c : Name × Nat) :
    Keeps (renameParent i old new c) := by
  intro t x
  unfold renameParent
  split
  · rfl
  · simp only
    split
    · exact keeps_setObj (by rfl) x
    · rw [keeps_setObj (by rfl), keeps_setObj (by rfl)]

theorem renameParent_nodewise (i : Nat) (old new : Name) (c : Name × Nat) :
    Nodewise (renameParent i old new c) :=
  nodewise_of (fun t => by
    unfold renameParent
    by_cases h1 : old ∉ (t.heap c.2).parents.keys
    · rw [if_pos h1, if_pos (show old ∉ (t.bare.heap c.2).parents.keys from h1)]; rfl
    · rw [if_neg h1, if_neg (show ¬ old ∉ (t.bare.heap c.2).parents.keys from h1)]
      simp only
      by_cases h2 : old ∉ (t.heap c.2).parentOrder
      · rw [if_pos h2, if_pos (show old ∉ (t.bare.heap c.2).parentOrder from h2)]; rfl
      · rw [if_neg h2, if_neg (show ¬ old ∉ (t.bare.heap c.2).parentOrder from h2)]; rfl)
    (renameParent_keeps i old new c) (fun t => by
      unfold renameParent
      split
      · rfl
      · simp only
        split <;> rfl)

theorem create_nodewise (k : NodeKind) (n : Name) (v : List Val) : Nodewise (create k n v) :=
  ⟨fun _ => rfl, fun t i hi => by
    have : i ≠ t.next := Nat.ne_of_lt hi
    simp [create, this], fun t => Nat.le_succ _⟩

theorem putCpd_keeps (i : Nat) (r : Except PyErr NDArray) (valid : Bool → Bool) :
    Keeps (putCpd i r valid) := by
  intro t x
  unfold putCpd
  split
  · rfl
  · exact keeps_setObj (by rfl) x

theorem putCpd_nodewise (i : Nat) (r : Net → Except PyErr NDArray) (valid : Bool → Bool)
    (hr : ∀ t, r t.bare = r t) : Nodewise (fun t => putCpd i (r t) valid t) :=
  nodewise_of (fun t => by
    rw [hr]
    unfold putCpd
    cases r t <;> rfl) (fun t => putCpd_keeps i (r t) valid t) (fun t => by
      change (putCpd i (r t) valid t).1.next = _
      unfold putCpd; split <;> rfl)

theorem setCpd_nodewise (i : Nat) (c : NDArray) : Nodewise (setCpd i c) :=
  putCpd_nodewise i (fun t => (t.objView i).setCpd c) _ fun _ => rfl
theorem setProbability_nodewise (i : Nat) (v : Val) (p : ℚ) (pv : Dict Val) :
    Nodewise (setProbability i v p pv) :=
  putCpd_nodewise i (fun t => (t.objView i).setProbability v p pv) _ fun _ => rfl
theorem setUtilities_nodewise (i : Nat) (u : NDArray) : Nodewise (setUtilities i u) :=
  putCpd_nodewise i (fun t => (t.objView i).setUtilities u) _ fun _ => rfl
theorem setUtility_nodewise (i : Nat) (u : ℚ) (pv : Dict Val) : Nodewise (setUtility i u pv) :=
  putCpd_nodewise i (fun t => (t.objView i).setUtility u pv) _ fun _ => rfl

theorem setDecision_keeps (i : Nat) (d : Val) : Keeps (setDecision i d) := by
  intro t x
  unfold setDecision
  split
  · rfl
  · exact keeps_setObj (by rfl) x

theorem setDecision_nodewise (i : Nat) (d : Val) : Nodewise (setDecision i d) :=
  nodewise_of (fun t => by
    unfold setDecision
    by_cases h1 : (t.heap i).kind ≠ .decision
    · rw [if_pos h1, if_pos (show (t.bare.heap i).kind ≠ .decision from h1)]; rfl
    · rw [if_neg h1, if_neg (show ¬ (t.bare.heap i).kind ≠ .decision from h1)]
      rfl) (setDecision_keeps i d) (fun t => by unfold setDecision; split <;> rfl)

theorem fullyMixed_keeps (i : Nat) : Keeps (fullyMixed i) := by
  intro t x
  unfold fullyMixed
  split
  · rfl
  · exact putCpd_keeps _ _ _ _ _

theorem fullyMixed_nodewise (i : Nat) : Nodewise (fullyMixed i) :=
  nodewise_of (fun t => by
    unfold fullyMixed
    by_cases h1 : (t.heap i).kind ≠ .decision
    · rw [if_pos h1, if_pos (show (t.bare.heap i).kind ≠ .decision from h1)]; rfl
    · rw [if_neg h1, if_neg (show ¬ (t.bare.heap i).kind ≠ .decision from h1)]
      exact (putCpd_nodewise i (fun t => (t.objView i).fullyMixed) id fun _ => rfl).eq t)
    (fullyMixed_keeps i) (fun t => by
      unfold fullyMixed
      split
      · rfl
      · unfold putCpd; split <;> rfl)

end Net

namespace HDict
variable {κ α : Type} {S : Hashing κ} {heap heap' : Nat → NodeObj} {n n' : Nat}

theorem Fresh.mono {d : HDict κ α} (h : Fresh S heap n d)
    (hn : ∀ i < n, (heap' i).name = (heap i).name) (hle : n ≤ n') : Fresh S heap' n' d :=
  fun e he => ⟨(h e he).1.trans_le hle, by rw [hn _ (h e he).1]; exact (h e he).2⟩

theorem names_congr {d : HDict κ Unit} (h : ∀ e ∈ d, (heap' e.key).name = (heap e.key).name) :
    names heap' d = names heap d :=
  List.map_congr_left fun e he => by rw [h e he]

end HDict

namespace HAdj
variable {κ : Type} {S : Hashing κ} {heap heap' : Nat → NodeObj} {n n' : Nat}

theorem names_congr {a : HAdj κ} (h : ∀ e ∈ a, (heap' e.key).name = (heap e.key).name ∧
    ∀ x ∈ e.val, (heap' x.key).name = (heap x.key).name) : names heap' a = names heap a :=
  List.map_congr_left fun e he => by rw [(h e he).1, HDict.names_congr (h e he).2]

end HAdj

namespace HNet
open KRes
variable {κ : Type} [DecidableEq κ] {S : Hashing κ} {s : HNet κ}

theorem Rel.setLookup (h : Rel S s) {l : Dict Nat} (hl : ∀ p ∈ l, p.2 < s.next) :
    Rel S { s with lookup := l } :=
  ⟨h.gnode, h.succ, h.pred, hl, h.ginv.congr rfl rfl rfl⟩

theorem Rel.onNodes (h : Rel S s) {f : Net → Res} (hf : Net.Nodewise f) :
    Sim S (onNodes f s) (f s.forget) := by
  have e := hf.eq s.forget
  have hb : s.forget.bare = ⟨s.heap, s.next, [], [], [], []⟩ := rfl
  rw [hb] at e
  have hn := hf.name ⟨s.heap, s.next, [], [], [], []⟩
  have hx := hf.next ⟨s.heap, s.next, [], [], [], []⟩
  simp only at hn hx
  have ef : (HNet.onNodes f s).1.forget = (f s.forget).1 := by
    rw [e]
    unfold HNet.onNodes forget
    simp only
    rw [HDict.names_congr fun x hx => hn _ (h.gnode x hx).1,
      HAdj.names_congr fun x hx => ⟨hn _ (h.succ.1 x hx).1, fun y hy => hn _ (h.succ.2 x hx y hy).1⟩,
      HAdj.names_congr fun x hx => ⟨hn _ (h.pred.1 x hx).1, fun y hy => hn _ (h.pred.2 x hx y hy).1⟩]
  refine ⟨ef, by rw [e]; rfl, h.gnode.mono hn hx, ⟨h.succ.1.mono hn hx, fun x hx' =>
    (h.succ.2 x hx').mono hn hx⟩, ⟨h.pred.1.mono hn hx, fun x hx' => (h.pred.2 x hx').mono hn hx⟩,
    fun p hp => (h.look p hp).trans_le hx, ?_⟩
  rw [ef, e]
  exact h.ginv.congr rfl rfl rfl

theorem Rel.get_lt (h : Rel S s) {k : Name} {i : Nat} (hi : s.lookup.get? k = some i) :
    i < s.next := h.look _ (Dict.get?_mem hi)

theorem Rel.addNode (h : Rel S s) (i : Nat) : Sim S (addNode S i s) (s.forget.addNode i) := by
  unfold HNet.addNode Net.addNode
  by_cases hi : s.next ≤ i
  · rw [if_pos hi, if_pos (show s.forget.next ≤ i from hi)]
    exact ⟨rfl, rfl, h⟩
  · rw [if_neg hi, if_neg (show ¬ s.forget.next ≤ i from hi)]
    push Not at hi
    by_cases hk : (s.heap i).name ∈ s.lookup.keys
    · rw [if_pos hk, if_pos (show (s.forget.heap i).name ∈ s.forget.lookup.keys from hk)]
      exact ⟨rfl, rfl, h⟩
    · rw [if_neg hk, if_neg (show (s.forget.heap i).name ∉ s.forget.lookup.keys from hk)]
      have h1 : Rel S { s with lookup := s.lookup.set (s.heap i).name i } := h.setLookup (by
        intro p hp
        rcases Dict.mem_set hp with hp | hp
        · exact h.look p hp
        · rw [hp]; exact hi)
      obtain ⟨e, h2⟩ := h1.graphAddNode (i := i) hi
      exact ⟨e, rfl, h2⟩

theorem Rel.delLookup (h : Rel S s) (q : Key) :
    Sim S (delLookup q s) (s.forget.delLookup (q.name s.heap)) := by
  unfold HNet.delLookup Net.delLookup
  by_cases hk : q.name s.heap ∈ s.lookup.keys
  · rw [if_pos hk, if_pos (show q.name s.heap ∈ s.forget.lookup.keys from hk)]
    exact ⟨rfl, rfl, h.setLookup fun p hp => h.look p (Dict.mem_erase hp)⟩
  · rw [if_neg hk, if_neg (show q.name s.heap ∉ s.forget.lookup.keys from hk)]
    exact ⟨rfl, rfl, h⟩

/-- names of all objects and the lookup are unchanged -/
def Same (s s' : HNet κ) : Prop :=
  (∀ i, (s'.heap i).name = (s.heap i).name) ∧ s'.lookup = s.lookup

theorem Same.key {s s' : HNet κ} (h : Same s s') (q : Key) : q.name s'.heap = q.name s.heap := by
  cases q
  · rfl
  · exact h.1 _

theorem Same.onNodes {s s' : HNet κ} (h : Same s s') {f : Net → Res} (hf : Net.Keeps f) :
    Same s (HNet.onNodes f s').1 :=
  ⟨fun i => by rw [← h.1 i]; exact hf _ i, h.2⟩

theorem Same.refl (s : HNet κ) : Same s s := ⟨fun _ => rfl, rfl⟩

theorem Sim.andThen' {r : KRes κ} {r' : Res} {f : HNet κ → KRes κ} {g : Net → Res}
    (Q : HNet κ → Prop) (h : Sim S r r') (hQ : r.2 = none → Q r.1)
    (hf : ∀ s, Rel S s → Q s → Sim S (f s) (g s.forget)) :
    Sim S (r.andThen f) (r'.andThen g) :=
  h.andThen fun s hs e => hf s hs (by have := hQ (by rw [e]); rw [e] at this; exact this)

theorem objs_of_names {d : HDict κ Unit} {heap : Nat → NodeObj} {l : Dict Nat}
    (h : HDict.names heap d = l) : HDict.objs d = l.map Prod.snd := by
  rw [← h, HDict.names_objs]

theorem graphRemoveNode_heap (h : Rel S s) (q : Key) :
    (graphRemoveNode S q s).1.heap = s.heap ∧ (graphRemoveNode S q s).1.lookup = s.lookup := by
  obtain ⟨h1, h2, h3⟩ := h.graphRemoveNode q
  have e : ∀ t : Net, ∀ k, (t.graphRemoveNode k).1.heap = t.heap ∧
      (t.graphRemoveNode k).1.lookup = t.lookup := by
    intro t k; unfold Net.graphRemoveNode; split <;> exact ⟨rfl, rfl⟩
  obtain ⟨e1, e2⟩ := e s.forget (q.name s.heap)
  rw [← h1] at e1 e2
  exact ⟨e1, e2⟩

theorem Rel.removeNode (h : Rel S s) (q : Key) :
    Sim S (removeNode S q s) (s.forget.removeNode (q.name s.heap)) := by
  unfold HNet.removeNode Net.removeNode
  rw [h.inGraph]
  by_cases hq : q.name s.heap ∈ s.forget.gnode.keys
  · obtain ⟨d, hd, hdn, _⟩ := h.succ_get hq
    rw [if_pos hq]
    simp only [hq, decide_true, if_true, hd]
    rw [objs_of_names hdn]
    obtain ⟨l1, l2⟩ := Sim.forEach (S := S) (f := dropParent q)
      (g := Net.dropParent (q.name s.heap)) (Same s) (s.forget.succOf (q.name s.heap)) (by
        intro c _ s' hs' hsame
        unfold HNet.dropParent Net.dropParent
        rw [hsame.key q, forget_lookup]
        cases s'.lookup.get? (q.name s.heap) with
        | none => exact ⟨⟨rfl, rfl, hs'⟩, hsame⟩
        | some i => exact ⟨hs'.onNodes (Net.removeParent_nodewise _ _),
            hsame.onNodes (Net.removeParent_keeps _ _)⟩) s h (Same.refl s)
    refine Sim.andThen' (Same s) (Sim.andThen' (Same s) l1 (fun _ => l2) ?_) ?_ ?_
    · intro s' hs' hsame
      have := hs'.graphRemoveNode q
      rwa [hsame.key q] at this
    · intro he
      unfold KRes.andThen at he ⊢
      cases hx : (KRes.forEach (HNet.dropParent q)
          ((s.forget.succOf (q.name s.heap)).map Prod.snd) s).2 with
      | some e => rw [hx] at he; simp only at he; rw [hx] at he; cases he
      | none =>
        simp only
        obtain ⟨e1, e2⟩ := graphRemoveNode_heap l1.2.2 q
        exact ⟨fun i => by rw [e1]; exact l2.1 i, by rw [e2]; exact l2.2⟩
    · intro s' hs' hsame
      have := hs'.delLookup q
      rwa [hsame.key q] at this
  · rw [if_neg hq]
    simp only [hq, decide_false]
    exact ⟨rfl, rfl, h⟩

theorem Rel.removeEdge (h : Rel S s) (a b : Key) :
    Sim S (removeEdge S a b s) (s.forget.removeEdge (a.name s.heap) (b.name s.heap)) := by
  unfold HNet.removeEdge Net.removeEdge
  rw [h.inGraph, h.inGraph]
  simp only [decide_eq_true_eq, forget_lookup]
  split
  · cases s.lookup.get? (b.name s.heap) with
    | none => exact ⟨rfl, rfl, h⟩
    | some j =>
      cases s.lookup.get? (a.name s.heap) with
      | none => exact ⟨rfl, rfl, h⟩
      | some i =>
        refine Sim.andThen' (Same s) (h.onNodes (Net.removeParent_nodewise _ _))
          (fun _ => (Same.refl s).onNodes (Net.removeParent_keeps _ _)) ?_
        intro s' hs' hsame
        have := hs'.graphRemoveEdge a b
        rwa [hsame.key a, hsame.key b] at this
  · exact ⟨rfl, rfl, h⟩

theorem Rel.addEdge (h : Rel S s) (a b : Key) :
    Sim S (addEdge S a b s) (s.forget.addEdge (a.name s.heap) (b.name s.heap)) := by
  unfold HNet.addEdge Net.addEdge
  rw [h.inGraph, h.inGraph]
  simp only [decide_eq_true_eq, forget_lookup]
  split
  · cases ha : s.lookup.get? (a.name s.heap) with
    | none => exact ⟨rfl, rfl, h⟩
    | some i =>
      cases hb : s.lookup.get? (b.name s.heap) with
      | none => exact ⟨rfl, rfl, h⟩
      | some j =>
        exact (h.graphAddEdge (h.get_lt ha) (h.get_lt hb)).andThen
          (g := Net.addParent j i) fun s' hs' _ => hs'.onNodes (Net.addParent_nodewise _ _)
  · exact ⟨rfl, rfl, h⟩

theorem Rel.changeValues (h : Rel S s) (q : Key) (vals : List Val) :
    Sim S (changeValues S q vals s) (s.forget.changeValues (q.name s.heap) vals) := by
  unfold HNet.changeValues Net.changeValues
  rw [forget_lookup]
  cases ha : s.lookup.get? (q.name s.heap) with
  | none => exact ⟨rfl, rfl, h⟩
  | some i =>
    simp only
    refine Sim.andThen' (Same s) (h.onNodes (Net.setValues_nodewise _ _))
      (fun _ => (Same.refl s).onNodes (Net.setValues_keeps _ _)) ?_
    intro s' hs' hsame
    rw [← hsame.key q]
    by_cases hq : q.name s'.heap ∈ s'.forget.gnode.keys
    · obtain ⟨d, hd, hdn, _⟩ := hs'.succ_get hq
      rw [hd, if_pos (by rw [hs'.ginv.succ_keys]; exact hq)]
      simp only
      rw [objs_of_names hdn]
      exact (Sim.forEach (S := S) (f := fun c => HNet.onNodes (Net.updateDims c))
        (g := fun c => Net.updateDims c.2) (fun _ => True) _ (by
          intro c _ s'' hs'' _
          exact ⟨hs''.onNodes (Net.updateDims_nodewise _), trivial⟩) s' hs' trivial).1
    · rw [hs'.succ_none hq, if_neg (by rw [hs'.ginv.succ_keys]; exact hq)]
      exact ⟨rfl, rfl, hs'⟩

theorem Rel.clear (h : Rel S s) : Sim S (clear s) s.forget.clear := by
  have hN : Net.GInv ⟨s.heap, s.next, [], [], [], []⟩ :=
    ⟨by simp, rfl, rfl, by simp [Net.succOf, Dict.get?], by simp [Net.predOf, Dict.get?],
      by simp [Net.succOf, Net.predOf, Dict.get?]⟩
  refine ⟨rfl, rfl, ?_, ⟨?_, ?_⟩, ⟨?_, ?_⟩, ?_, hN⟩ <;> intro x hx <;> cases hx

/-! ## renaming -/

theorem Rel.inner_succ (h : Rel S s) {e : HEntry κ (HDict κ Unit)} (he : e ∈ s.succ)
    {x : HEntry κ Unit} (hx : x ∈ e.val) : (s.heap x.key).name ∈ s.forget.gnode.keys := by
  have hsn : s.forget.succ.keys.Nodup := by
    have := h.ginv.nodup; rwa [← h.ginv.succ_keys] at this
  have h1 : s.forget.succ.get? (s.heap e.key).name = some (HDict.names s.heap e.val) :=
    Dict.get?_of_mem hsn (List.mem_map.2 ⟨e, he, rfl⟩)
  have h2 : (s.heap x.key).name ∈ (s.forget.succOf (s.heap e.key).name).keys := by
    unfold Net.succOf
    rw [h1, Option.getD_some, HDict.keys_names]
    exact List.mem_map.2 ⟨x, hx, rfl⟩
  rw [h.ginv.mirror] at h2
  rw [← h.ginv.pred_keys, ← Dict.get?_isSome]
  unfold Net.predOf at h2
  cases hp : s.forget.pred.get? (s.heap x.key).name with
  | none => rw [hp] at h2; simp at h2
  | some d => exact ⟨d, rfl⟩

theorem Rel.inner_pred (h : Rel S s) {e : HEntry κ (HDict κ Unit)} (he : e ∈ s.pred)
    {x : HEntry κ Unit} (hx : x ∈ e.val) : (s.heap x.key).name ∈ s.forget.gnode.keys := by
  have hsn : s.forget.pred.keys.Nodup := by
    have := h.ginv.nodup; rwa [← h.ginv.pred_keys] at this
  have h1 : s.forget.pred.get? (s.heap e.key).name = some (HDict.names s.heap e.val) :=
    Dict.get?_of_mem hsn (List.mem_map.2 ⟨e, he, rfl⟩)
  have h2 : (s.heap x.key).name ∈ (s.forget.predOf (s.heap e.key).name).keys := by
    unfold Net.predOf
    rw [h1, Option.getD_some, HDict.keys_names]
    exact List.mem_map.2 ⟨x, hx, rfl⟩
  rw [← h.ginv.mirror] at h2
  rw [← h.ginv.succ_keys, ← Dict.get?_isSome]
  unfold Net.succOf at h2
  cases hp : s.forget.succ.get? (s.heap x.key).name with
  | none => rw [hp] at h2; simp at h2
  | some d => exact ⟨d, rfl⟩

theorem Rel.setName (h : Rel S s) {i : Nat} (new : Name)
    (hi : (s.heap i).name ∉ s.forget.gnode.keys) :
    (setName i new s).forget = s.forget.setObj i { s.heap i with name := new } ∧
      Rel S (setName i new s) := by
  have hn : ∀ j, (s.heap j).name ∈ s.forget.gnode.keys →
      ((HNet.setName i new s).heap j).name = (s.heap j).name := by
    intro j hj
    have : j ≠ i := fun e => hi (e ▸ hj)
    simp [HNet.setName, this]
  have g1 : ∀ e ∈ s.gnode, (s.heap e.key).name ∈ s.forget.gnode.keys := fun e he => by
    change _ ∈ (HDict.names s.heap s.gnode).keys
    rw [HDict.keys_names]; exact List.mem_map.2 ⟨e, he, rfl⟩
  have g2 : ∀ e ∈ s.succ, (s.heap e.key).name ∈ s.forget.gnode.keys := fun e he => by
    rw [← h.ginv.succ_keys]
    exact List.mem_map.2 ⟨((s.heap e.key).name, HDict.names s.heap e.val),
      List.mem_map.2 ⟨e, he, rfl⟩, rfl⟩
  have g3 : ∀ e ∈ s.pred, (s.heap e.key).name ∈ s.forget.gnode.keys := fun e he => by
    rw [← h.ginv.pred_keys]
    exact List.mem_map.2 ⟨((s.heap e.key).name, HDict.names s.heap e.val),
      List.mem_map.2 ⟨e, he, rfl⟩, rfl⟩
  have e : (HNet.setName i new s).forget = s.forget.setObj i { s.heap i with name := new } := by
    unfold forget Net.setObj
    simp only
    rw [show (HNet.setName i new s).gnode = s.gnode from rfl,
      show (HNet.setName i new s).succ = s.succ from rfl,
      show (HNet.setName i new s).pred = s.pred from rfl,
      HDict.names_congr fun x hx => hn _ (g1 x hx),
      HAdj.names_congr fun x hx => ⟨hn _ (g2 x hx), fun y hy => hn _ (h.inner_succ hx hy)⟩,
      HAdj.names_congr fun x hx => ⟨hn _ (g3 x hx), fun y hy => hn _ (h.inner_pred hx hy)⟩]
    rfl
  refine ⟨e, fun x hx => ⟨(h.gnode x hx).1, ?_⟩, ⟨fun x hx => ⟨(h.succ.1 x hx).1, ?_⟩,
    fun x hx y hy => ⟨(h.succ.2 x hx y hy).1, ?_⟩⟩, ⟨fun x hx => ⟨(h.pred.1 x hx).1, ?_⟩,
    fun x hx y hy => ⟨(h.pred.2 x hx y hy).1, ?_⟩⟩, h.look, ?_⟩
  · rw [hn _ (g1 x hx)]; exact (h.gnode x hx).2
  · rw [hn _ (g2 x hx)]; exact (h.succ.1 x hx).2
  · rw [hn _ (h.inner_succ hx hy)]; exact (h.succ.2 x hx y hy).2
  · rw [hn _ (g3 x hx)]; exact (h.pred.1 x hx).2
  · rw [hn _ (h.inner_pred hx hy)]; exact (h.pred.2 x hx y hy).2
  · rw [e]; exact h.ginv.congr rfl rfl rfl

theorem Rel.relink (h : Rel S s) {i : Nat} (hi : i < s.next) (c : Name × Nat) :
    Sim S (relinkChild S i c.2 s) (Net.relinkChild i c s.forget) ∧
    Sim S (relinkParent S i c.2 s) (Net.relinkParent i c s.forget) := by
  unfold HNet.relinkChild Net.relinkChild HNet.relinkParent Net.relinkParent
  simp only [forget_lookup, forget_heap]
  cases hc : s.lookup.get? (s.heap c.2).name with
  | none => exact ⟨⟨rfl, rfl, h⟩, ⟨rfl, rfl, h⟩⟩
  | some j => exact ⟨h.graphAddEdge hi (h.get_lt hc), h.graphAddEdge (h.get_lt hc) hi⟩

theorem graphAddEdge_next (i j : Nat) (s : HNet κ) : (graphAddEdge S i j s).1.next = s.next := by
  unfold HNet.graphAddEdge
  simp only
  split
  · split <;> simp [graphAddNode_next]
  · simp [graphAddNode_next]

theorem relink_next (i c : Nat) (s : HNet κ) : (relinkChild S i c s).1.next = s.next ∧
    (relinkParent S i c s).1.next = s.next := by
  unfold HNet.relinkChild HNet.relinkParent
  cases s.lookup.get? (s.heap c).name with
  | none => exact ⟨rfl, rfl⟩
  | some j => exact ⟨graphAddEdge_next _ _ _, graphAddEdge_next _ _ _⟩

theorem Sim.of_none {r : KRes κ} {r' : Res} (h : Sim S r r') (hn : r.2 = none) :
    r'.2 = none ∧ r.1.forget = r'.1 := ⟨h.2.1 ▸ hn, h.1⟩

theorem Rel.changeName (h : Rel S s) (q : Key) (new : Name) (byObj : Bool)
    (hb : byObj = match q with
      | .str _ => false
      | .obj j => decide (s.lookup.get? (s.heap j).name = some j)) :
    Sim S (changeName S q new s) (s.forget.changeName (q.name s.heap) new byObj) := by
  unfold HNet.changeName Net.changeName
  rw [forget_lookup]
  cases hl : s.lookup.get? (q.name s.heap) with
  | none => exact ⟨rfl, rfl, h⟩
  | some i =>
    have hi := h.get_lt hl
    simp only
    by_cases hm : (s.heap i).name ∈ s.forget.gnode.keys
    · obtain ⟨ch, hch, hchn, _⟩ := h.succ_get (q := .obj i) hm
      obtain ⟨pa, hpa, hpan, _⟩ := h.pred_get (q := .obj i) hm
      rw [if_neg (by rw [not_not, h.ginv.succ_keys]; exact hm), hch, hpa]
      simp only [forget_heap]
      rw [objs_of_names hchn, objs_of_names hpan]
      rw [show (Key.obj i).name s.heap = (s.heap i).name from rfl]
      -- the children learn the new name
      obtain ⟨a1, a2⟩ := Sim.forEach (S := S)
        (f := fun c => HNet.onNodes (Net.renameParent i (q.name s.heap) new ("", c)))
        (g := Net.renameParent i (q.name s.heap) new)
        (fun s' => Same s s' ∧ s'.next = s.next) (s.forget.succOf (s.heap i).name) (by
          intro c _ s' hs' hsame
          refine ⟨hs'.onNodes (Net.renameParent_nodewise i (q.name s.heap) new c),
            hsame.1.onNodes (Net.renameParent_keeps i (q.name s.heap) new ("", c.2)), ?_⟩
          rw [← hsame.2]
          unfold HNet.onNodes Net.renameParent
          simp only
          split
          · rfl
          · split <;> rfl) s h ⟨Same.refl s, rfl⟩
      -- the graph forgets the node
      have b1 : Sim S
          ((KRes.forEach (fun c => HNet.onNodes (Net.renameParent i (q.name s.heap) new ("", c)))
            ((s.forget.succOf (s.heap i).name).map Prod.snd) s).andThen
              (HNet.graphRemoveNode S (.obj i)))
          ((Res.forEach (Net.renameParent i (q.name s.heap) new)
            (s.forget.succOf (s.heap i).name) s.forget).andThen
              (Net.graphRemoveNode (s.heap i).name)) := by
        refine Sim.andThen' (Same s) a1 (fun _ => a2.1) ?_
        intro s' hs' hsame
        have := hs'.graphRemoveNode (.obj i)
        rwa [hsame.key (.obj i)] at this
      set B := (KRes.forEach (fun c => HNet.onNodes (Net.renameParent i (q.name s.heap) new ("", c)))
            ((s.forget.succOf (s.heap i).name).map Prod.snd) s).andThen
              (HNet.graphRemoveNode S (.obj i)) with hB
      have b2 : B.2 = none → Same s B.1 ∧ B.1.next = s.next ∧
          (B.1.heap i).name ∉ B.1.forget.gnode.keys := by
        intro he
        rw [hB] at he ⊢
        unfold KRes.andThen at he ⊢
        cases hx : (KRes.forEach
          (fun c => HNet.onNodes (Net.renameParent i (q.name s.heap) new ("", c)))
          ((s.forget.succOf (s.heap i).name).map Prod.snd) s).2 with
        | some e => rw [hx] at he; simp only at he; rw [hx] at he; cases he
        | none =>
          rw [hx] at he
          simp only at he ⊢
          set A := (KRes.forEach
            (fun c => HNet.onNodes (Net.renameParent i (q.name s.heap) new ("", c)))
            ((s.forget.succOf (s.heap i).name).map Prod.snd) s).1 with hA
          have hAR : Rel S A := a1.2.2
          obtain ⟨e1, e2⟩ := graphRemoveNode_heap hAR (.obj i)
          have hr := hAR.graphRemoveNode (.obj i)
          obtain ⟨r1, r2⟩ := hr.of_none he
          refine ⟨⟨fun j => by rw [e1]; exact a2.1.1 j, by rw [e2]; exact a2.1.2⟩, ?_, ?_⟩
          · rw [show (HNet.graphRemoveNode S (.obj i) A).1.next =
              (HNet.graphRemoveNode S (.obj i) A).1.forget.next from rfl, r2, ← a2.2]
            unfold Net.graphRemoveNode; split <;> rfl
          · rw [r2, e1]
            unfold Net.graphRemoveNode at r1 ⊢
            split at r1
            · cases r1
            · rename_i hk
              rw [if_neg hk]
              simp only [Key.name, Dict.keys_erase]
              rw [hAR.ginv.nodup.mem_erase_iff]
              exact fun hh => hh.1 rfl
      -- the node gets its new name
      have c1 : ∀ s', Rel S s' → (Same s s' ∧ s'.next = s.next ∧
          (s'.heap i).name ∉ s'.forget.gnode.keys) →
          Sim S ((HNet.delLookup q (HNet.setName i new s')).andThen
            fun s => ({ s with lookup := s.lookup.set new i }, none))
            (Net.rebind i (q.name s.heap) new byObj s'.forget) := by
        intro s' hs' hQ
        obtain ⟨n1, n2⟩ := hs'.setName new hQ.2.2
        have hd := n2.delLookup q
        rw [n1] at hd
        have hqn : q.name (HNet.setName i new s').heap = if byObj then new else q.name s.heap := by
          cases q with
          | str n => simp only at hb; subst hb; rfl
          | obj j =>
            simp only [Key.name] at hb hl ⊢
            by_cases hj : j = i
            · subst hj
              rw [hl] at hb
              simp only [decide_true] at hb
              subst hb
              simp [HNet.setName]
            · have : byObj = false := by
                rw [hb, hl]
                simpa using Ne.symm hj
              subst this
              simp only [HNet.setName, Function.update_of_ne hj, Bool.false_eq_true, if_false]
              exact hQ.1.1 j
        rw [hqn] at hd
        unfold Net.rebind
        refine Sim.andThen' (fun s' => s'.next = s.next) hd ?_ ?_
        · intro _
          unfold HNet.delLookup
          split <;> exact hQ.2.1
        · intro s'' hs'' hnx
          refine ⟨rfl, rfl, hs''.setLookup ?_⟩
          intro p hp
          rcases Dict.mem_set hp with hp | hp
          · exact hs''.look p hp
          · rw [hp, hnx]; exact hi
      have c2 : Sim S (B.andThen fun s => (HNet.delLookup q (HNet.setName i new s)).andThen
            fun s => ({ s with lookup := s.lookup.set new i }, none))
          (((Res.forEach (Net.renameParent i (q.name s.heap) new)
            (s.forget.succOf (s.heap i).name) s.forget).andThen
              (Net.graphRemoveNode (s.heap i).name)).andThen
                (Net.rebind i (q.name s.heap) new byObj)) :=
        Sim.andThen' (fun s' => Same s s' ∧ s'.next = s.next ∧
          (s'.heap i).name ∉ s'.forget.gnode.keys) b1 b2 c1
      set C := B.andThen fun s => (HNet.delLookup q (HNet.setName i new s)).andThen
            fun s => ({ s with lookup := s.lookup.set new i }, none) with hC
      have c3 : C.2 = none → i < C.1.next := by
        intro he
        rw [hC] at he ⊢
        cases hx : B.2 with
        | some e => unfold KRes.andThen at he; rw [hx] at he; simp only at he; rw [hx] at he; cases he
        | none =>
          obtain ⟨_, q2, _⟩ := b2 hx
          have : ∀ s' : HNet κ, ((HNet.delLookup q (HNet.setName i new s')).andThen
            fun s => ({ s with lookup := s.lookup.set new i }, none)).1.next = s'.next := by
            intro s'
            unfold HNet.delLookup
            split <;> rfl
          unfold KRes.andThen
          rw [hx]
          simp only
          have h2 := this B.1
          unfold KRes.andThen at h2
          rw [h2, q2]
          exact hi
      -- and its edges
      have d1 : ∀ s', Rel S s' → i < s'.next →
          Sim S (KRes.forEach (HNet.relinkChild S i)
              ((s.forget.succOf (s.heap i).name).map Prod.snd) (HNet.graphAddNode S i s'))
            (Res.forEach (Net.relinkChild i) (s.forget.succOf (s.heap i).name)
              (s'.forget.graphAddNode i)) ∧
            i < (KRes.forEach (HNet.relinkChild S i)
              ((s.forget.succOf (s.heap i).name).map Prod.snd) (HNet.graphAddNode S i s')).1.next := by
        intro s' hs' hlt
        obtain ⟨g1, g2⟩ := hs'.graphAddNode hlt
        rw [← g1]
        exact Sim.forEach (S := S) (f := HNet.relinkChild S i) (g := Net.relinkChild i)
          (fun s' => i < s'.next) _ (by
            intro c _ s'' hs'' hlt''
            exact ⟨(hs''.relink hlt'' c).1, by rw [(relink_next i c.2 s'').1]; exact hlt''⟩) _ g2
          (by rw [graphAddNode_next]; exact hlt)
      refine Sim.andThen' (fun s' => i < s'.next) (Sim.andThen' (fun s' => i < s'.next) c2 c3
        fun s' hs' hlt => (d1 s' hs' hlt).1) ?_ ?_
      · intro he
        cases hx : C.2 with
        | some e =>
          unfold KRes.andThen at he; rw [hx] at he; simp only at he; rw [hx] at he; cases he
        | none =>
          have := (d1 C.1 c2.2.2 (c3 hx)).2
          unfold KRes.andThen
          rw [hx]
          exact this
      · intro s' hs' hlt
        exact (Sim.forEach (S := S) (f := HNet.relinkParent S i) (g := Net.relinkParent i)
          (fun s' => i < s'.next) _ (by
            intro c _ s'' hs'' hlt''
            exact ⟨(hs''.relink hlt'' c).2, by rw [(relink_next i c.2 s'').2]; exact hlt''⟩) _ hs'
          hlt).1
    · rw [if_pos (by rw [h.ginv.succ_keys]; exact hm), h.succ_none (q := .obj i) hm]
      exact ⟨rfl, rfl, h⟩

theorem Rel.step (h : Rel S s) (op : HOp) :
    Sim S (step S op s) (Net.step (op.resolve s.forget) s.forget) := by
  cases op with
  | create k n v => exact h.onNodes (Net.create_nodewise k n v)
  | addNode i => exact h.addNode i
  | removeNode q => exact h.removeNode q
  | removeEdge a b => exact h.removeEdge a b
  | addEdge a b => exact h.addEdge a b
  | changeValues q v => exact h.changeValues q v
  | changeName q n => exact h.changeName q n _ rfl
  | clear => exact h.clear
  | setCpd i c => exact h.onNodes (Net.setCpd_nodewise i c)
  | setProbability i v p pv => exact h.onNodes (Net.setProbability_nodewise i v p pv)
  | setUtilities i u => exact h.onNodes (Net.setUtilities_nodewise i u)
  | setUtility i u pv => exact h.onNodes (Net.setUtility_nodewise i u pv)
  | setDecision i d => exact h.onNodes (Net.setDecision_nodewise i d)
  | fullyMixed i => exact h.onNodes (Net.fullyMixed_nodewise i)

theorem Rel.run (h : Rel S s) (ops : List HOp) :
    (run S ops s).1.forget = (Net.runBy ops s.forget).1 ∧
    (run S ops s).2 = (Net.runBy ops s.forget).2 ∧ Rel S (run S ops s).1 := by
  induction ops generalizing s with
  | nil => exact ⟨rfl, rfl, h⟩
  | cons op ops ih =>
    obtain ⟨h1, h2, h3⟩ := h.step op
    obtain ⟨i1, i2, i3⟩ := ih h3
    rw [h1] at i1 i2
    exact ⟨i1, by simp only [HNet.run, Net.runBy]; rw [h2, i2], i3⟩

theorem Rel.empty : Rel S (empty : HNet κ) := by
  have hN : Net.GInv ⟨fun _ => NodeObj.blank, 0, [], [], [], []⟩ :=
    ⟨by simp, rfl, rfl, by simp [Net.succOf, Dict.get?], by simp [Net.predOf, Dict.get?],
      by simp [Net.succOf, Net.predOf, Dict.get?]⟩
  refine ⟨?_, ⟨?_, ?_⟩, ⟨?_, ?_⟩, ?_, hN⟩ <;> intro x hx <;> cases hx

end HNet
end Primo
