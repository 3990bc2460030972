import Verif.Lemmas.HashStep

/-! # Lemmas: calls on one network neither see nor change the node objects of another -/

namespace Primo

/-- the heaps agree on the objects in `P`, and these have parents in `P` only -/
structure HeapLoc (P : Nat → Prop) (h h' : Nat → NodeObj) : Prop where
  eq : ∀ i, P i → h i = h' i
  par : ∀ i, P i → ∀ p ∈ (h i).parents, P p.2

namespace HeapLoc
variable {P : Nat → Prop} {h h' : Nat → NodeObj}

theorem set (H : HeapLoc P h h') (i : Nat) {o o' : NodeObj} (e : o = o')
    (ho : ∀ p ∈ o.parents, P p.2) :
    HeapLoc P (Function.update h i o) (Function.update h' i o') := by
  subst e
  refine ⟨fun j hj => ?_, fun j hj => ?_⟩
  · by_cases hi : j = i
    · subst hi; simp
    · simp [hi, H.eq j hj]
  · by_cases hi : j = i
    · subst hi; simpa using ho
    · simpa [hi] using H.par j hj

theorem key (H : HeapLoc P h h') {q : Key} (hq : ∀ i ∈ q.objs, P i) : q.name h = q.name h' := by
  cases q with
  | str n => rfl
  | obj i => exact congrArg NodeObj.name (H.eq i (hq i (by simp [Key.objs])))

end HeapLoc

namespace Net
open Res

/-- a net with node objects only -/
abbrev nodes (h : Nat → NodeObj) (n : Nat) : Net := ⟨h, n, [], [], [], []⟩

/-- related results of a method of node objects; what is not in `P` is as in `h` -/
def NRes (P : Nat → Prop) (h : Nat → NodeObj) (n : Nat) (r r' : Res) : Prop :=
  HeapLoc P r.1.heap r'.1.heap ∧ (r.1.next = n ∧ r'.1.next = n) ∧ r.2 = r'.2 ∧
    ∀ i, ¬ P i → r.1.heap i = h i

/-- a method of node objects in `P` sees and changes only objects in `P` -/
def NodeLocal (P : Nat → Prop) (f : Net → Res) : Prop :=
  ∀ h h' n, HeapLoc P h h' → NRes P h n (f (nodes h n)) (f (nodes h' n))

variable {P : Nat → Prop}

theorem parentLen_local {h h' : Nat → NodeObj} (H : HeapLoc P h h') {i : Nat} (hi : P i) (n : Nat)
    (p : Name) : (nodes h n).parentLen (h i) p = (nodes h' n).parentLen (h' i) p := by
  unfold parentLen
  rw [← H.eq i hi]
  cases hg : (h i).parents.getE p with
  | error e => rfl
  | ok j =>
    have hj := H.par i hi _ (Dict.get?_mem (Dict.getE_eq_ok.1 hg))
    change (if (h j).kind = .utility then _ else Except.ok (h j).values.length) =
      (if (h' j).kind = .utility then _ else Except.ok (h' j).values.length)
    rw [H.eq j hj]

theorem NRes.same {h h' : Nat → NodeObj} (H : HeapLoc P h h') (n : Nat) (x : Option PyErr) :
    NRes P h n (nodes h n, x) (nodes h' n, x) := ⟨H, ⟨rfl, rfl⟩, rfl, fun _ _ => rfl⟩

theorem NRes.set {h h' : Nat → NodeObj} (H : HeapLoc P h h') {n i : Nat} (hi : P i) {o o' : NodeObj}
    (e : o = o') (ho : ∀ p ∈ o.parents, P p.2) (x : Option PyErr) :
    NRes P h n ((nodes h n).setObj i o, x) ((nodes h' n).setObj i o', x) :=
  ⟨H.set i e ho, ⟨rfl, rfl⟩, rfl, fun j hj => by
    have : j ≠ i := fun e => hj (e ▸ hi)
    simp [this]⟩

theorem NodeLocal.after {f : Net → Res} (hf : NodeLocal P f) {h h' : Nat → NodeObj} {n i : Nat}
    (H : HeapLoc P h h') (hi : P i) {o o' : NodeObj} (e : o = o') (ho : ∀ p ∈ o.parents, P p.2) :
    NRes P h n (f ((nodes h n).setObj i o)) (f ((nodes h' n).setObj i o')) := by
  obtain ⟨h1, h2, h3, h4⟩ := hf (Function.update h i o) (Function.update h' i o') n (H.set i e ho)
  refine ⟨h1, h2, h3, fun j hj => ?_⟩
  have : j ≠ i := fun e => hj (e ▸ hi)
  have := h4 j hj
  rwa [Function.update_of_ne (by assumption)] at this

theorem updateDims_local {i : Nat} (hi : P i) : NodeLocal P (updateDims i) := by
  intro h h' n H
  have e : (h i).parentOrder.mapM ((nodes h n).parentLen (h i)) =
      (h' i).parentOrder.mapM ((nodes h' n).parentLen (h' i)) := by
    rw [funext (parentLen_local H hi n), H.eq i hi]
  unfold updateDims
  simp only [e]
  cases (h' i).parentOrder.mapM ((nodes h' n).parentLen (h' i)) with
  | error e => exact NRes.same H n _
  | ok d =>
    refine NRes.set H hi ?_ ?_ none
    · simp only [H.eq i hi]
    · exact H.par i hi

theorem addParent_local {i j : Nat} (hi : P i) (hj : P j) : NodeLocal P (addParent i j) := by
  intro h h' n H
  unfold addParent
  refine (updateDims_local hi).after H hi ?_ ?_
  · simp only [H.eq i hi, H.eq j hj]
  · intro p hp
    rcases Dict.mem_set hp with hp | hp
    · exact H.par i hi p hp
    · rw [hp]; exact hj

theorem removeParent_local {i j : Nat} (hi : P i) (hj : P j) : NodeLocal P (removeParent i j) := by
  intro h h' n H
  unfold removeParent
  simp only [H.eq i hi, H.eq j hj]
  have hp := H.par i hi
  rw [H.eq i hi] at hp
  by_cases h1 : (h' i).kind ≠ .discrete
  · simp only [if_pos h1]; exact NRes.same H n _
  · simp only [if_neg h1]
    by_cases h2 : (h' j).name ∉ (h' i).parents.keys
    · simp only [if_pos h2]; exact NRes.same H n _
    · simp only [if_neg h2]
      by_cases h3 : (h' j).name ∉ (h' i).parentOrder
      · simp only [if_pos h3]
        exact NRes.set (o := { h' i with parents := (h' i).parents.erase (h' j).name }) H hi rfl
          (fun p hq => hp p (Dict.mem_erase hq)) _
      · simp only [if_neg h3, setObj_setObj]
        refine (updateDims_local hi).after H hi ?_ ?_
        · simp
        · simp only [setObj_heap, Function.update_self]
          exact fun p hq => hp p (Dict.mem_erase hq)

theorem setValues_local {i : Nat} (hi : P i) (v : List Val) : NodeLocal P (setValues i v) := by
  intro h h' n H
  unfold setValues
  simp only [H.eq i hi]
  have hp := H.par i hi
  rw [H.eq i hi] at hp
  by_cases h1 : (h' i).kind ≠ .discrete
  · simp only [if_pos h1]; exact NRes.same H n _
  · simp only [if_neg h1]
    exact (updateDims_local hi).after (o := { h' i with values := v }) H hi rfl hp

theorem renameParent_local {i : Nat} {old new : Name} {c : Name × Nat} (hi : P i) (hc : P c.2) :
    NodeLocal P (renameParent i old new c) := by
  intro h h' n H
  unfold renameParent
  simp only [H.eq c.2 hc]
  have hp := H.par c.2 hc
  rw [H.eq c.2 hc] at hp
  have hq : ∀ p ∈ ((h' c.2).parents.erase old).set new i, P p.2 := by
    intro p hq
    rcases Dict.mem_set hq with hq | hq
    · exact hp p (Dict.mem_erase hq)
    · rw [hq]; exact hi
  by_cases h1 : old ∉ (h' c.2).parents.keys
  · simp only [if_pos h1]; exact NRes.same H n _
  · simp only [if_neg h1]
    by_cases h2 : old ∉ (h' c.2).parentOrder
    · simp only [if_pos h2]
      exact NRes.set (o := { h' c.2 with parents := ((h' c.2).parents.erase old).set new i })
        H hc rfl hq _
    · simp only [if_neg h2, setObj_setObj]
      refine NRes.set H hc ?_ ?_ none
      · simp
      · simp only [setObj_heap, Function.update_self]; exact hq

theorem objView_local {h h' : Nat → NodeObj} {n i : Nat} (H : HeapLoc P h h') (hi : P i) :
    (nodes h n).objView i = (nodes h' n).objView i := by
  unfold objView
  simp only [H.eq i hi]
  have hp := H.par i hi
  rw [H.eq i hi] at hp
  congr 1
  exact List.map_congr_left fun p hq => by rw [H.eq _ (hp p hq)]

theorem putCpd_local {i : Nat} (hi : P i) (r : NodeV → Except PyErr NDArray) (valid : Bool → Bool) :
    NodeLocal P (fun t => putCpd i (r (t.objView i)) valid t) := by
  intro h h' n H
  simp only [objView_local (n := n) H hi]
  unfold putCpd
  cases r ((nodes h' n).objView i) with
  | error e => exact NRes.same H n _
  | ok a =>
    refine NRes.set (o := { h i with cpd := a, valid := valid (h i).valid, plain := false })
      (o' := { h' i with cpd := a, valid := valid (h' i).valid, plain := false }) H hi ?_
      (H.par i hi) none
    rw [H.eq i hi]

theorem setDecision_local {i : Nat} (hi : P i) (d : Val) : NodeLocal P (setDecision i d) := by
  intro h h' n H
  unfold setDecision
  simp only [objView_local (n := n) H hi]
  simp only [H.eq i hi]
  have hp := H.par i hi
  rw [H.eq i hi] at hp
  by_cases h1 : (h' i).kind ≠ .decision
  · simp only [if_pos h1]; exact NRes.same H n _
  · simp only [if_neg h1]
    exact NRes.set (o := { h' i with cpd := (((nodes h' n).objView i).setDecision d).1 })
      H hi rfl hp _

theorem fullyMixed_local {i : Nat} (hi : P i) : NodeLocal P (fullyMixed i) := by
  intro h h' n H
  have hh := putCpd_local hi (fun v => v.fullyMixed) id h h' n H
  unfold fullyMixed
  simp only [H.eq i hi]
  by_cases h1 : (h' i).kind ≠ .decision
  · simp only [if_pos h1]; exact NRes.same H n _
  · simp only [if_neg h1]
    exact hh

end Net

namespace HDict
variable {κ α : Type} [DecidableEq κ] {S : Hashing κ} {P : Nat → Prop} {h h' : Nat → NodeObj}

/-- all keys are in `P` -/
def In (P : Nat → Prop) (d : HDict κ α) : Prop := ∀ e ∈ d, P e.key

theorem hit_local (H : HeapLoc P h h') {q : Key} (hq : ∀ i ∈ q.objs, P i) {e : HEntry κ α}
    (he : P e.key) : hit S h q e = hit S h' q e := by
  unfold hit
  rw [H.key hq, H.eq _ he]

theorem get?_local (H : HeapLoc P h h') {q : Key} (hq : ∀ i ∈ q.objs, P i) {d : HDict κ α}
    (hd : In P d) : get? S h d q = get? S h' d q := by
  unfold get?
  congr 1
  induction d with
  | nil => rfl
  | cons e d ih =>
    rw [List.find?_cons, List.find?_cons, hit_local H hq (hd e (by simp)),
      ih fun x hx => hd x (by simp [hx])]

theorem has_local (H : HeapLoc P h h') {q : Key} (hq : ∀ i ∈ q.objs, P i) {d : HDict κ α}
    (hd : In P d) : has S h d q = has S h' d q := by
  unfold has
  induction d with
  | nil => rfl
  | cons e d ih =>
    rw [List.any_cons, List.any_cons, hit_local H hq (hd e (by simp)),
      ih fun x hx => hd x (by simp [hx])]

theorem del_local (H : HeapLoc P h h') {q : Key} (hq : ∀ i ∈ q.objs, P i) {d : HDict κ α}
    (hd : In P d) : del S h d q = del S h' d q := by
  unfold del
  induction d with
  | nil => rfl
  | cons e d ih =>
    rw [List.eraseP_cons, List.eraseP_cons, hit_local H hq (hd e (by simp)),
      ih fun x hx => hd x (by simp [hx])]

theorem upd_local (H : HeapLoc P h h') {q : Key} (hq : ∀ i ∈ q.objs, P i) {d : HDict κ α}
    (hd : In P d) {f f' : α → α} (hf : ∀ e ∈ d, f e.val = f' e.val) :
    upd S h q f d = upd S h' q f' d := by
  induction d with
  | nil => rfl
  | cons e d ih =>
    unfold upd
    rw [hit_local H hq (hd e (by simp)), hf e (by simp),
      ih (fun x hx => hd x (by simp [hx])) fun x hx => hf x (by simp [hx])]

theorem put_local (H : HeapLoc P h h') {i : Nat} (hi : P i) {d : HDict κ α} (hd : In P d) (v : α) :
    put S h d i v = put S h' d i v := by
  have hq : ∀ j ∈ (Key.obj i).objs, P j := by simpa [Key.objs] using hi
  unfold put
  rw [has_local H hq hd, upd_local H hq hd fun _ _ => rfl, H.eq i hi]

theorem In.del {d : HDict κ α} (hd : In P d) (q : Key) : In P (del S h d q) :=
  fun e he => hd e (List.mem_of_mem_eraseP he)

theorem In.upd {d : HDict κ α} (hd : In P d) (q : Key) (f : α → α) : In P (upd S h q f d) := by
  intro e he
  obtain ⟨e', h1, h2, _⟩ := mem_upd he
  rw [← h2]; exact hd e' h1

theorem In.put {d : HDict κ α} (hd : In P d) {i : Nat} (hi : P i) (v : α) :
    In P (put S h d i v) := by
  unfold HDict.put
  split
  · exact hd.upd _ _
  · intro e he
    rcases List.mem_append.1 he with he | he
    · exact hd e he
    · simp only [List.mem_singleton] at he; subst he; exact hi

theorem In.objs {d : HDict κ α} (hd : In P d) : ∀ i ∈ objs d, P i := by
  intro i hi
  obtain ⟨e, he, rfl⟩ := List.mem_map.1 hi
  exact hd e he

end HDict

namespace HAdj
variable {κ : Type} [DecidableEq κ] {S : Hashing κ} {P : Nat → Prop} {h h' : Nat → NodeObj}

/-- all keys, outer and inner, are in `P` -/
def In (P : Nat → Prop) (a : HAdj κ) : Prop := HDict.In P a ∧ ∀ e ∈ a, HDict.In P e.val

theorem In.inner {a : HAdj κ} (ha : In P a) {q : Key} {d : HDict κ Unit}
    (hd : HDict.get? S h a q = some d) : HDict.In P d := by
  unfold HDict.get? at hd
  cases hf : a.find? (HDict.hit S h q) with
  | none => rw [hf] at hd; cases hd
  | some e => rw [hf] at hd; cases hd; exact ha.2 e (List.mem_of_find?_eq_some hf)

theorem In.del {a : HAdj κ} (ha : In P a) (q : Key) : In P (HDict.del S h a q) :=
  ⟨ha.1.del q, fun e he => ha.2 e (List.mem_of_mem_eraseP he)⟩

theorem In.upd {a : HAdj κ} (ha : In P a) (q : Key) {f : HDict κ Unit → HDict κ Unit}
    (hf : ∀ d, HDict.In P d → HDict.In P (f d)) : In P (HDict.upd S h q f a) := by
  refine ⟨ha.1.upd q f, fun e he => ?_⟩
  obtain ⟨e', h1, _, _, h4⟩ := HDict.mem_upd he
  rcases h4 with rfl | h4
  · exact ha.2 _ h1
  · rw [h4]; exact hf _ (ha.2 _ h1)

theorem In.put {a : HAdj κ} (ha : In P a) {i : Nat} (hi : P i) :
    In P (HDict.put S h a i []) := by
  refine ⟨ha.1.put hi _, fun e he => ?_⟩
  unfold HDict.put at he
  split at he
  · obtain ⟨e', h1, _, _, h4⟩ := HDict.mem_upd he
    rcases h4 with rfl | h4
    · exact ha.2 _ h1
    · rw [h4]; intro e he; cases he
  · rcases List.mem_append.1 he with he | he
    · exact ha.2 e he
    · simp only [List.mem_singleton] at he; subst he; intro e he; cases he

theorem delEdge_local (H : HeapLoc P h h') {u v : Key} (hu : ∀ i ∈ u.objs, P i)
    (hv : ∀ i ∈ v.objs, P i) {a : HAdj κ} (ha : In P a) :
    delEdge S h u v a = delEdge S h' u v a ∧ In P (delEdge S h u v a).1 := by
  unfold delEdge
  rw [← HDict.get?_local H hu ha.1]
  cases hd : HDict.get? S h a u with
  | none => exact ⟨rfl, ha⟩
  | some d =>
    simp only
    rw [← HDict.has_local H hv (ha.inner hd)]
    split
    · refine ⟨?_, ha.upd _ fun d hd => hd.del v⟩
      rw [HDict.upd_local (f := fun d => HDict.del S h d v) (f' := fun d => HDict.del S h' d v)
        H hu ha.1 fun e he => HDict.del_local H hv (ha.2 e he)]
    · exact ⟨rfl, ha⟩

theorem delEdges_local (H : HeapLoc P h h') {v : Key} (hv : ∀ i ∈ v.objs, P i) {us : List Nat}
    (hu : ∀ i ∈ us, P i) {a : HAdj κ} (ha : In P a) :
    delEdges S h v us a = delEdges S h' v us a ∧ In P (delEdges S h v us a).1 := by
  induction us generalizing a with
  | nil => exact ⟨rfl, ha⟩
  | cons u us ih =>
    obtain ⟨h1, h2⟩ := delEdge_local (S := S) H (u := .obj u) (v := v)
      (by simpa [Key.objs] using hu u (by simp)) hv ha
    obtain ⟨i1, i2⟩ := ih (fun i hi => hu i (by simp [hi])) h2
    unfold delEdges
    rw [← h1]
    cases (delEdge S h (.obj u) v a).2 with
    | none => exact ⟨i1, i2⟩
    | some e => exact ⟨rfl, h2⟩

end HAdj

namespace HNet
open KRes
variable {κ : Type} [DecidableEq κ] {S : Hashing κ} {P : Nat → Prop}

/-- the same network, node objects in `P` only, and heaps that agree on `P` -/
structure Loc (P : Nat → Prop) (s t : HNet κ) : Prop where
  heap : HeapLoc P s.heap t.heap
  next : s.next = t.next
  lookup : s.lookup = t.lookup
  gnode : s.gnode = t.gnode
  succ : s.succ = t.succ
  pred : s.pred = t.pred
  look : ∀ p ∈ s.lookup, P p.2
  kgnode : HDict.In P s.gnode
  ksucc : HAdj.In P s.succ
  kpred : HAdj.In P s.pred

/-- related results; what is not in `P` is as in `s` -/
def LocRes (P : Nat → Prop) (s : HNet κ) (r r' : KRes κ) : Prop :=
  Loc P r.1 r'.1 ∧ r.2 = r'.2 ∧ r.1.next = s.next ∧ ∀ i, ¬ P i → r.1.heap i = s.heap i

/-- a call that sees and changes objects in `P` only -/
def Local (P : Nat → Prop) (f : HNet κ → KRes κ) : Prop := ∀ s t, Loc P s t → LocRes P s (f s) (f t)

theorem LocRes.andThen {s : HNet κ} {r r' : KRes κ} (h : LocRes P s r r') {f g : HNet κ → KRes κ}
    (hf : ∀ s t, Loc P s t → LocRes P s (f s) (g t)) :
    LocRes P s (r.andThen f) (r'.andThen g) := by
  obtain ⟨h1, h2, h3, h4⟩ := h
  unfold KRes.andThen
  rw [← h2]
  cases hr : r.2 with
  | none =>
    obtain ⟨i1, i2, i3, i4⟩ := hf _ _ h1
    exact ⟨i1, i2, i3.trans h3, fun i hi => (i4 i hi).trans (h4 i hi)⟩
  | some e => exact ⟨h1, h2, h3, h4⟩

theorem Local.forEach {α : Type} {f : α → HNet κ → KRes κ} {l : List α} (hf : ∀ x ∈ l, Local P (f x)) :
    Local P (forEach f l) := by
  induction l with
  | nil => exact fun s t h => ⟨h, rfl, rfl, fun _ _ => rfl⟩
  | cons x l ih =>
    intro s t h
    exact (hf x (by simp) s t h).andThen (ih fun y hy => hf y (by simp [hy]))

theorem LocRes.same {s t : HNet κ} (h : Loc P s t) (e : Option PyErr) : LocRes P s (s, e) (t, e) :=
  ⟨h, rfl, rfl, fun _ _ => rfl⟩

theorem Local.onNodes {f : Net → Res} (hf : Net.NodeLocal P f) :
    Local P (onNodes f : HNet κ → KRes κ) := by
  intro s t h
  obtain ⟨h1, h2, h3, h4⟩ := hf s.heap t.heap s.next h.heap
  unfold HNet.onNodes
  rw [← h.next]
  exact ⟨⟨h1, h2.1.trans h2.2.symm, h.lookup, h.gnode, h.succ, h.pred, h.look, h.kgnode, h.ksucc,
    h.kpred⟩, h3, h2.1, h4⟩

theorem Loc.graphAddNode {s t : HNet κ} (h : Loc P s t) {i : Nat} (hi : P i) :
    Loc P (graphAddNode S i s) (graphAddNode S i t) := by
  have hq : ∀ j ∈ (Key.obj i).objs, P j := by simpa [Key.objs] using hi
  unfold HNet.graphAddNode
  rw [← h.gnode, ← h.succ, ← h.pred, ← HDict.has_local h.heap hq h.ksucc.1,
    ← HDict.put_local h.heap hi h.ksucc.1, ← HDict.put_local h.heap hi h.kpred.1,
    ← HDict.put_local h.heap hi h.kgnode]
  split
  · exact h
  · exact ⟨h.heap, h.next, h.lookup, rfl, rfl, rfl, h.look, h.kgnode.put hi (), h.ksucc.put hi,
      h.kpred.put hi⟩

theorem local_graphAddEdge {i j : Nat} (hi : P i) (hj : P j) :
    Local P (graphAddEdge S i j : HNet κ → KRes κ) := by
  intro s t h
  have h2 := (h.graphAddNode (S := S) hi).graphAddNode (S := S) hj
  have hh : (HNet.graphAddNode S j (HNet.graphAddNode S i s)).heap = s.heap := by
    rw [graphAddNode_heap, graphAddNode_heap]
  have hx : (HNet.graphAddNode S j (HNet.graphAddNode S i s)).next = s.next := by
    rw [graphAddNode_next, graphAddNode_next]
  have qi : ∀ j ∈ (Key.obj i).objs, P j := by simpa [Key.objs] using hi
  have qj : ∀ i ∈ (Key.obj j).objs, P i := by simpa [Key.objs] using hj
  unfold HNet.graphAddEdge
  generalize HNet.graphAddNode S j (HNet.graphAddNode S i s) = u at h2 hh hx ⊢
  generalize HNet.graphAddNode S j (HNet.graphAddNode S i t) = v at h2 ⊢
  simp only
  rw [← h2.succ, ← h2.pred, ← HDict.has_local h2.heap qi h2.ksucc.1,
    ← HDict.has_local h2.heap qj h2.kpred.1,
    HDict.upd_local (f := fun d => HDict.put S u.heap d j ())
      (f' := fun d => HDict.put S v.heap d j ()) h2.heap qi h2.ksucc.1 fun e he =>
        HDict.put_local h2.heap hj (h2.ksucc.2 e he) (),
    HDict.upd_local (f := fun d => HDict.put S u.heap d i ())
      (f' := fun d => HDict.put S v.heap d i ()) h2.heap qj h2.kpred.1 fun e he =>
        HDict.put_local h2.heap hi (h2.kpred.2 e he) ()]
  have k1 := h2.ksucc.upd (S := S) (h := v.heap) (.obj i)
    (f := fun d => HDict.put S v.heap d j ()) fun d hd => hd.put hj ()
  have k2 := h2.kpred.upd (S := S) (h := v.heap) (.obj j)
    (f := fun d => HDict.put S v.heap d i ()) fun d hd => hd.put hi ()
  split
  · split
    · exact ⟨⟨h2.heap, h2.next, h2.lookup, h2.gnode, rfl, rfl, h2.look, h2.kgnode, k1, k2⟩, rfl, hx,
        fun _ _ => by rw [hh]⟩
    · exact ⟨⟨h2.heap, h2.next, h2.lookup, h2.gnode, rfl, rfl, h2.look, h2.kgnode, k1,
        h2.kpred⟩, rfl, hx, fun _ _ => by rw [hh]⟩
  · exact ⟨h2, rfl, hx, fun _ _ => by rw [hh]⟩

variable {q : Key}

theorem local_delSucc (hq : ∀ i ∈ q.objs, P i) : Local P (delSucc S q : HNet κ → KRes κ) := by
  intro s t h
  unfold HNet.delSucc
  rw [← h.succ, ← HDict.has_local h.heap hq h.ksucc.1, ← HDict.del_local h.heap hq h.ksucc.1]
  split
  · exact ⟨⟨h.heap, h.next, h.lookup, h.gnode, rfl, h.pred, h.look, h.kgnode, h.ksucc.del q,
      h.kpred⟩, rfl, rfl, fun _ _ => rfl⟩
  · exact LocRes.same h _

theorem local_delPredEdges (hq : ∀ i ∈ q.objs, P i) {us : List Nat} (hu : ∀ i ∈ us, P i) :
    Local P (delPredEdges S q us : HNet κ → KRes κ) := by
  intro s t h
  obtain ⟨h1, h2⟩ := HAdj.delEdges_local (S := S) h.heap hq hu h.kpred
  unfold HNet.delPredEdges
  rw [← h.pred, ← h1]
  exact ⟨⟨h.heap, h.next, h.lookup, h.gnode, h.succ, rfl, h.look, h.kgnode, h.ksucc, h2⟩, rfl, rfl,
    fun _ _ => rfl⟩

theorem local_delPred (hq : ∀ i ∈ q.objs, P i) : Local P (delPred S q : HNet κ → KRes κ) := by
  intro s t h
  unfold HNet.delPred
  rw [← h.pred, ← HDict.get?_local h.heap hq h.kpred.1]
  cases hd : HDict.get? S s.heap s.pred q with
  | none => exact LocRes.same h _
  | some d =>
    have hdn := (h.kpred.inner hd).objs
    obtain ⟨h1, h2⟩ := HAdj.delEdges_local (S := S) h.heap hq hdn h.ksucc
    simp only
    rw [← h.succ, ← h1]
    apply LocRes.andThen
    · exact ⟨⟨h.heap, h.next, h.lookup, h.gnode, rfl, rfl, h.look, h.kgnode, h2,
        h.kpred⟩, rfl, rfl, fun _ _ => rfl⟩
    intro u v hu
    rw [← hu.pred, ← HDict.del_local hu.heap hq hu.kpred.1]
    exact ⟨⟨hu.heap, hu.next, hu.lookup, hu.gnode, hu.succ, rfl, hu.look, hu.kgnode, hu.ksucc,
      hu.kpred.del q⟩, rfl, rfl, fun _ _ => rfl⟩

theorem local_graphRemoveNode (hq : ∀ i ∈ q.objs, P i) :
    Local P (graphRemoveNode S q : HNet κ → KRes κ) := by
  intro s t h
  unfold HNet.graphRemoveNode
  rw [← h.succ, ← h.gnode, ← HDict.get?_local h.heap hq h.ksucc.1,
    ← HDict.has_local h.heap hq h.kgnode, ← HDict.del_local h.heap hq h.kgnode]
  cases hd : HDict.get? S s.heap s.succ q with
  | none => exact LocRes.same h _
  | some d =>
    simp only
    split
    · have h' : Loc P { s with gnode := HDict.del S s.heap s.gnode q }
          ({ t with gnode := HDict.del S s.heap s.gnode q, succ := s.succ } : HNet κ) :=
        ⟨h.heap, h.next, h.lookup, rfl, rfl, h.pred, h.look, h.kgnode.del q, h.ksucc, h.kpred⟩
      exact (LocRes.andThen (local_delPredEdges hq (h.ksucc.inner hd).objs _ _ h')
        (local_delSucc hq)).andThen (local_delPred hq)
    · exact LocRes.same h _

theorem local_graphRemoveEdge {a b : Key} (ha : ∀ i ∈ a.objs, P i) (hb : ∀ i ∈ b.objs, P i) :
    Local P (graphRemoveEdge S a b : HNet κ → KRes κ) := by
  intro s t h
  obtain ⟨h1, h2⟩ := HAdj.delEdge_local (S := S) h.heap ha hb h.ksucc
  obtain ⟨h3, h4⟩ := HAdj.delEdge_local (S := S) h.heap hb ha h.kpred
  unfold HNet.graphRemoveEdge
  rw [← h.succ, ← h.pred, ← h1]
  cases (HAdj.delEdge S s.heap a b s.succ).2 with
  | some e => exact LocRes.same h _
  | none =>
    simp only
    rw [← h3]
    cases (HAdj.delEdge S s.heap b a s.pred).2 with
    | some e => exact ⟨⟨h.heap, h.next, h.lookup, h.gnode, rfl, rfl, h.look, h.kgnode, h2,
        h.kpred⟩, rfl, rfl, fun _ _ => rfl⟩
    | none => exact ⟨⟨h.heap, h.next, h.lookup, h.gnode, rfl, rfl, h.look, h.kgnode, h2, h4⟩, rfl, rfl,
        fun _ _ => rfl⟩

theorem Loc.get {s t : HNet κ} (h : Loc P s t) {k : Name} {i : Nat}
    (hi : s.lookup.get? k = some i) : P i := h.look _ (Dict.get?_mem hi)

theorem local_addNode {i : Nat} (hi : P i) : Local P (addNode S i : HNet κ → KRes κ) := by
  intro s t h
  unfold HNet.addNode
  rw [← h.next, ← h.lookup, ← h.heap.eq i hi]
  split
  · exact LocRes.same h _
  · split
    · exact LocRes.same h _
    · have h' : Loc P { s with lookup := s.lookup.set (s.heap i).name i }
          ({ t with lookup := s.lookup.set (s.heap i).name i, next := s.next } : HNet κ) :=
        ⟨h.heap, rfl, rfl, h.gnode, h.succ, h.pred, by
          intro p hp
          rcases Dict.mem_set hp with hp | hp
          · exact h.look p hp
          · rw [hp]; exact hi, h.kgnode, h.ksucc, h.kpred⟩
      refine ⟨h'.graphAddNode hi, rfl, ?_, fun _ _ => ?_⟩
      · simp only [graphAddNode_next]
      · simp only [graphAddNode_heap]

theorem local_dropParent (hq : ∀ i ∈ q.objs, P i) {c : Nat} (hc : P c) :
    Local P (dropParent q c : HNet κ → KRes κ) := by
  intro s t h
  unfold HNet.dropParent
  rw [← h.lookup, ← h.heap.key hq]
  cases hl : s.lookup.get? (q.name s.heap) with
  | none => exact LocRes.same h _
  | some i => exact Local.onNodes (Net.removeParent_local hc (h.get hl)) s t h

theorem local_delLookup (hq : ∀ i ∈ q.objs, P i) : Local P (delLookup q : HNet κ → KRes κ) := by
  intro s t h
  unfold HNet.delLookup
  rw [← h.lookup, ← h.heap.key hq]
  split
  · exact ⟨⟨h.heap, h.next, rfl, h.gnode, h.succ, h.pred, fun p hp => h.look p (Dict.mem_erase hp),
      h.kgnode, h.ksucc, h.kpred⟩, rfl, rfl, fun _ _ => rfl⟩
  · exact LocRes.same h _

theorem inGraph_local {s t : HNet κ} (h : Loc P s t) (hq : ∀ i ∈ q.objs, P i) :
    inGraph S q s = inGraph S q t := by
  unfold HNet.inGraph
  rw [← h.gnode, HDict.has_local h.heap hq h.kgnode]

theorem local_removeNode (hq : ∀ i ∈ q.objs, P i) :
    Local P (removeNode S q : HNet κ → KRes κ) := by
  intro s t h
  unfold HNet.removeNode
  rw [← inGraph_local h hq, ← h.succ, ← HDict.get?_local h.heap hq h.ksucc.1]
  split
  · cases hd : HDict.get? S s.heap s.succ q with
    | none => exact LocRes.same h _
    | some d =>
      exact (LocRes.andThen (Local.forEach (fun c hc => local_dropParent hq
        ((h.ksucc.inner hd).objs c hc)) s t h) (local_graphRemoveNode hq)).andThen
        (local_delLookup hq)
  · exact LocRes.same h _

theorem local_removeEdge {a b : Key} (ha : ∀ i ∈ a.objs, P i) (hb : ∀ i ∈ b.objs, P i) :
    Local P (removeEdge S a b : HNet κ → KRes κ) := by
  intro s t h
  unfold HNet.removeEdge
  rw [← inGraph_local h ha, ← inGraph_local h hb, ← h.lookup, ← h.heap.key ha, ← h.heap.key hb]
  split
  · cases h1 : s.lookup.get? (b.name s.heap) with
    | none => exact LocRes.same h _
    | some j =>
      cases h2 : s.lookup.get? (a.name s.heap) with
      | none => exact LocRes.same h _
      | some i =>
        exact LocRes.andThen (Local.onNodes (Net.removeParent_local (h.get h1) (h.get h2)) s t h)
          (local_graphRemoveEdge ha hb)
  · exact LocRes.same h _

theorem local_addEdge {a b : Key} (ha : ∀ i ∈ a.objs, P i) (hb : ∀ i ∈ b.objs, P i) :
    Local P (addEdge S a b : HNet κ → KRes κ) := by
  intro s t h
  unfold HNet.addEdge
  rw [← inGraph_local h ha, ← inGraph_local h hb, ← h.lookup, ← h.heap.key ha, ← h.heap.key hb]
  split
  · cases h2 : s.lookup.get? (a.name s.heap) with
    | none => exact LocRes.same h _
    | some i =>
      cases h1 : s.lookup.get? (b.name s.heap) with
      | none => exact LocRes.same h _
      | some j =>
        exact LocRes.andThen (local_graphAddEdge (h.get h2) (h.get h1) s t h)
          (Local.onNodes (Net.addParent_local (h.get h1) (h.get h2)))
  · exact LocRes.same h _

theorem local_changeValues (hq : ∀ i ∈ q.objs, P i) (vals : List Val) :
    Local P (changeValues S q vals : HNet κ → KRes κ) := by
  intro s t h
  unfold HNet.changeValues
  rw [← h.lookup, ← h.heap.key hq]
  cases h1 : s.lookup.get? (q.name s.heap) with
  | none => exact LocRes.same h _
  | some i =>
    refine LocRes.andThen (Local.onNodes (Net.setValues_local (h.get h1) vals) s t h) ?_
    intro u v hu
    rw [← hu.succ, ← HDict.get?_local hu.heap hq hu.ksucc.1]
    cases hd : HDict.get? S u.heap u.succ q with
    | none => exact LocRes.same hu _
    | some d => exact Local.forEach (fun c hc => Local.onNodes (Net.updateDims_local
        ((hu.ksucc.inner hd).objs c hc))) u v hu

theorem local_relinkChild {i c : Nat} (hi : P i) (hc : P c) :
    Local P (relinkChild S i c : HNet κ → KRes κ) := by
  intro s t h
  unfold HNet.relinkChild
  rw [← h.lookup, ← h.heap.eq c hc]
  cases h1 : s.lookup.get? (s.heap c).name with
  | none => exact LocRes.same h _
  | some j => exact local_graphAddEdge hi (h.get h1) s t h

theorem local_relinkParent {i c : Nat} (hi : P i) (hc : P c) :
    Local P (relinkParent S i c : HNet κ → KRes κ) := by
  intro s t h
  unfold HNet.relinkParent
  rw [← h.lookup, ← h.heap.eq c hc]
  cases h1 : s.lookup.get? (s.heap c).name with
  | none => exact LocRes.same h _
  | some j => exact local_graphAddEdge (h.get h1) hi s t h

theorem local_changeName (hq : ∀ i ∈ q.objs, P i) (new : Name) :
    Local P (changeName S q new : HNet κ → KRes κ) := by
  intro s t h
  unfold HNet.changeName
  rw [← h.lookup, ← h.heap.key hq]
  cases h1 : s.lookup.get? (q.name s.heap) with
  | none => exact LocRes.same h _
  | some i =>
    have hi := h.get h1
    have qi : ∀ j ∈ (Key.obj i).objs, P j := by simpa [Key.objs] using hi
    simp only
    rw [← h.succ, ← h.pred, ← HDict.get?_local h.heap qi h.ksucc.1,
      ← HDict.get?_local h.heap qi h.kpred.1]
    cases hd : HDict.get? S s.heap s.succ (.obj i) with
    | none => exact LocRes.same h _
    | some ch =>
      cases hd' : HDict.get? S s.heap s.pred (.obj i) with
      | none => exact LocRes.same h _
      | some pa =>
        have hch := (h.ksucc.inner hd).objs
        have hpa := (h.kpred.inner hd').objs
        refine LocRes.andThen (LocRes.andThen (LocRes.andThen (LocRes.andThen (Local.forEach
          (fun c hc => Local.onNodes (Net.renameParent_local hi (hch c hc))) s t h)
          (local_graphRemoveNode qi)) ?_) ?_) (Local.forEach fun c hc => local_relinkParent hi
          (hpa c hc))
        · intro u v hu
          have hu' : Loc P (HNet.setName i new u) (HNet.setName i new v) :=
            ⟨hu.heap.set i (by rw [hu.heap.eq i hi]) (hu.heap.par i hi), hu.next, hu.lookup, hu.gnode,
              hu.succ, hu.pred, hu.look, hu.kgnode, hu.ksucc, hu.kpred⟩
          obtain ⟨a1, a2, a4, a3⟩ := local_delLookup hq _ _ hu'
          have a3' : ∀ j, ¬ P j → (HNet.delLookup q (HNet.setName i new u)).1.heap j = u.heap j := by
            intro j hj
            rw [a3 j hj]
            have : j ≠ i := fun e => hj (e ▸ hi)
            simp [HNet.setName, this]
          refine LocRes.andThen (s := u) ⟨a1, a2, a4, a3'⟩ ?_
          intro x y hx
          rw [← hx.lookup]
          exact ⟨⟨hx.heap, hx.next, rfl, hx.gnode, hx.succ, hx.pred, by
            intro p hp
            rcases Dict.mem_set hp with hp | hp
            · exact hx.look p hp
            · rw [hp]; exact hi, hx.kgnode, hx.ksucc, hx.kpred⟩, rfl, rfl, fun _ _ => rfl⟩
        · intro u v hu
          obtain ⟨a1, a2, a4, a3⟩ := Local.forEach (fun c hc => local_relinkChild (S := S) hi (hch c hc))
            _ _ (hu.graphAddNode (S := S) hi)
          exact ⟨a1, a2, by rw [a4, graphAddNode_next], fun j hj => by rw [a3 j hj, graphAddNode_heap]⟩

theorem local_clear : Local P (clear : HNet κ → KRes κ) := by
  intro s t h
  refine ⟨⟨h.heap, h.next, rfl, rfl, rfl, rfl, ?_, ?_, ⟨?_, ?_⟩, ⟨?_, ?_⟩⟩, rfl, rfl, fun _ _ => rfl⟩ <;>
    intro x hx <;> cases hx

/-- every call but the making of node objects is local to the objects of its network -/
theorem local_step {op : HOp} (hc : op.creates = false) (ho : ∀ i ∈ op.objs, P i) :
    Local P (step S op : HNet κ → KRes κ) := by
  cases op with
  | create k n v => simp [HOp.creates] at hc
  | addNode i => exact local_addNode (ho i (by simp [HOp.objs]))
  | removeNode q => exact local_removeNode ho
  | removeEdge a b =>
    exact local_removeEdge (fun i hi => ho i (by simp [HOp.objs, hi]))
      (fun i hi => ho i (by simp [HOp.objs, hi]))
  | addEdge a b =>
    exact local_addEdge (fun i hi => ho i (by simp [HOp.objs, hi]))
      (fun i hi => ho i (by simp [HOp.objs, hi]))
  | changeValues q v => exact local_changeValues ho v
  | changeName q n => exact local_changeName ho n
  | clear => exact local_clear
  | setCpd i c => exact Local.onNodes (Net.putCpd_local (ho i (by simp [HOp.objs]))
      (fun v => v.setCpd c) _)
  | setProbability i v p pv => exact Local.onNodes (Net.putCpd_local (ho i (by simp [HOp.objs]))
      (fun x => x.setProbability v p pv) _)
  | setUtilities i u => exact Local.onNodes (Net.putCpd_local (ho i (by simp [HOp.objs]))
      (fun v => v.setUtilities u) _)
  | setUtility i u pv => exact Local.onNodes (Net.putCpd_local (ho i (by simp [HOp.objs]))
      (fun v => v.setUtility u pv) _)
  | setDecision i d => exact Local.onNodes (Net.setDecision_local (ho i (by simp [HOp.objs])) d)
  | fullyMixed i => exact Local.onNodes (Net.fullyMixed_local (ho i (by simp [HOp.objs])))

theorem newObj_parents (k : NodeKind) (n : Name) (v : List Val) : (Net.newObj k n v).parents = [] := by
  cases k <;> rfl

theorem Loc.create {s t : HNet κ} (h : Loc P s t) {op : HOp} (hc : op.creates = true) :
    Loc P (step S op s).1 (step S op t).1 ∧ (step S op s).2 = (step S op t).2 ∧
      (step S op s).1.lookup = s.lookup ∧ (step S op s).1.gnode = s.gnode ∧
      (step S op s).1.succ = s.succ ∧ (step S op s).1.pred = s.pred := by
  cases op with
  | create k n v =>
    refine ⟨⟨?_, congrArg (· + 1) h.next, h.lookup, h.gnode, h.succ, h.pred, h.look, h.kgnode,
      h.ksucc, h.kpred⟩, rfl, rfl, rfl, rfl, rfl⟩
    change HeapLoc P (Function.update s.heap s.next (Net.newObj k n v))
      (Function.update t.heap t.next (Net.newObj k n v))
    rw [← h.next]
    exact h.heap.set _ rfl (by rw [newObj_parents]; intro p hp; cases hp)
  | _ => simp [HOp.creates] at hc

end HNet

namespace World
variable {κ : Type} [DecidableEq κ] {S : Hashing κ}
open HNet

theorem slice_absorb_self (w : World κ) (k : Nat) (s : HNet κ) : (w.absorb k s).slice k = s := by
  simp [slice, absorb]

theorem slice_absorb_ne (w : World κ) {k k' : Nat} (h : k' ≠ k) (s : HNet κ) :
    (w.absorb k s).slice k' = { w.slice k' with heap := s.heap, next := s.next } := by
  simp [slice, absorb, h]

theorem run_local {own : Nat → Nat} {ops : List (Nat × HOp)} (hs : Separate own ops) (w : World κ)
    (t : Nat → HNet κ) (h : ∀ k, Loc (fun i => own i = k) (w.slice k) (t k)) (k : Nat) :
    Loc (fun i => own i = k) ((run S ops w).1.slice k)
      (HNet.run S ((forNet k ops).map Prod.snd) (t k)).1 ∧
    answersFor k ops (run S ops w).2 = (HNet.run S ((forNet k ops).map Prod.snd) (t k)).2 := by
  induction ops generalizing w t with
  | nil => exact ⟨h k, rfl⟩
  | cons p ops ih =>
    obtain ⟨m, op⟩ := p
    have hs' : Separate own ops := fun p hp => hs p (by simp [hp])
    have ho : ∀ i ∈ op.objs, own i = m := hs (m, op) (by simp)
    by_cases hc : op.creates = true
    · -- a new node object: all networks see it
      have key : ∀ k', Loc (fun i => own i = k') ((World.step S m op w).1.slice k')
          (HNet.step S op (t k')).1 := by
        intro k'
        obtain ⟨c1, _⟩ := (h k').create (S := S) hc
        by_cases hk : k' = m
        · subst hk
          unfold World.step
          rw [slice_absorb_self]; exact c1
        · obtain ⟨_, _, e1, e2, e3, e4⟩ := (h k').create (S := S) hc
          unfold World.step
          rw [slice_absorb_ne _ hk]
          have : ({ w.slice k' with
              heap := (HNet.step S op (w.slice m)).1.heap,
              next := (HNet.step S op (w.slice m)).1.next } : HNet κ) =
              (HNet.step S op (w.slice k')).1 := by
            cases op with
            | create a b c => rfl
            | _ => simp [HOp.creates] at hc
          rw [this]; exact c1
      obtain ⟨i1, i2⟩ := ih hs' (World.step S m op w).1 (fun k' => (HNet.step S op (t k')).1) key
      have hf : forNet k ((m, op) :: ops) = (m, op) :: forNet k ops := by
        simp [forNet, hc]
      rw [hf]
      refine ⟨i1, ?_⟩
      have ha : answersFor k ((m, op) :: ops) (World.run S ((m, op) :: ops) w).2 =
          (World.step S m op w).2 :: answersFor k ops (World.run S ops (World.step S m op w).1).2 := by
        simp [answersFor, World.run, hc]
      rw [ha, i2]
      have : (World.step S m op w).2 = (HNet.step S op (t k)).2 := by
        cases op with
        | create a b c => rfl
        | _ => simp [HOp.creates] at hc
      rw [this]
      rfl
    · rw [Bool.not_eq_true] at hc
      have hm := local_step (S := S) hc ho _ _ (h m)
      have hnx : (HNet.step S op (w.slice m)).1.next = (w.slice m).next := hm.2.2.1
      have key : ∀ k', Loc (fun i => own i = k') ((World.step S m op w).1.slice k')
          (if k' = m then (HNet.step S op (t k')).1 else t k') := by
        intro k'
        by_cases hk : k' = m
        · subst hk
          unfold World.step
          rw [slice_absorb_self, if_pos rfl]; exact hm.1
        · unfold World.step
          rw [slice_absorb_ne _ hk, if_neg hk]
          have hk' := h k'
          have e : ∀ i, own i = k' → (HNet.step S op (w.slice m)).1.heap i = w.heap i :=
            fun i hi => hm.2.2.2 i fun e => hk (hi.symm.trans e)
          refine ⟨⟨fun i hi => ?_, fun i hi => ?_⟩, ?_, hk'.lookup, hk'.gnode, hk'.succ, hk'.pred,
            hk'.look, hk'.kgnode, hk'.ksucc, hk'.kpred⟩
          · simp only; rw [e i hi]; exact hk'.heap.eq i hi
          · simp only; rw [e i hi]; exact hk'.heap.par i hi
          · simp only; rw [hnx]; exact hk'.next
      obtain ⟨i1, i2⟩ := ih hs' (World.step S m op w).1
        (fun k' => if k' = m then (HNet.step S op (t k')).1 else t k') key
      by_cases hk : k = m
      · subst hk
        have hf : forNet k ((k, op) :: ops) = (k, op) :: forNet k ops := by simp [forNet]
        rw [hf]
        simp only [if_true] at i1 i2
        refine ⟨i1, ?_⟩
        have ha : answersFor k ((k, op) :: ops) (World.run S ((k, op) :: ops) w).2 =
            (World.step S k op w).2 ::
              answersFor k ops (World.run S ops (World.step S k op w).1).2 := by
          simp [answersFor, World.run]
        rw [ha, i2]
        have : (World.step S k op w).2 = (HNet.step S op (t k)).2 := hm.2.1
        rw [this]
        rfl
      · have hf : forNet k ((m, op) :: ops) = forNet k ops := by
          simp [forNet, hc, Ne.symm hk]
        rw [hf]
        simp only [hk, if_false] at i1 i2
        refine ⟨i1, ?_⟩
        have ha : answersFor k ((m, op) :: ops) (World.run S ((m, op) :: ops) w).2 =
            answersFor k ops (World.run S ops (World.step S m op w).1).2 := by
          simp [answersFor, World.run, hc, Ne.symm hk]
        rw [ha, i2]

end World
end Primo
