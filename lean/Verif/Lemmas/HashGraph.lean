import Verif.Lemmas.HashNet

/-! # Lemmas: the networkx graph with object keys simulates the name-keyed one -/

namespace Primo

namespace Dict
variable {α β : Type}

theorem set_eq_map {d : Dict α} (hd : d.keys.Nodup) {k : Name} {v : α} (hv : d.get? k = some v)
    (f : α → α) : d.set k (f v) = d.map fun p => (p.1, if p.1 = k then f p.2 else p.2) := by
  induction d with
  | nil => simp [get?] at hv
  | cons p d ih =>
    obtain ⟨a, b⟩ := p
    simp only [keys_cons, List.nodup_cons] at hd
    by_cases h : a = k
    · subst h
      simp [get?] at hv
      subst hv
      simp only [set, if_true, List.map_cons, List.cons.injEq, true_and]
      symm
      conv_rhs => rw [← List.map_id d]
      apply List.map_congr_left
      intro p hp
      have : p.1 ≠ a := fun e => hd.1 (e ▸ List.mem_map.2 ⟨p, hp, rfl⟩)
      simp [this]
    · simp only [get?, h, if_false] at hv
      simp only [set, h, if_false, List.map_cons, ih hd.2 hv]

theorem erase_mapVal (d : Dict α) (f : Name → α → β) (k : Name) :
    erase (d.map fun p => (p.1, f p.1 p.2)) k = (d.erase k).map fun p => (p.1, f p.1 p.2) := by
  induction d with
  | nil => rfl
  | cons p d ih =>
    obtain ⟨a, b⟩ := p
    simp only [List.map_cons, erase]
    split
    · rfl
    · simp [ih]

theorem get?_mapVal' (d : Dict α) (f : Name → α → β) (k : Name) :
    get? (d.map fun p => (p.1, f p.1 p.2)) k = (d.get? k).map (f k) := by
  induction d with
  | nil => rfl
  | cons p d ih =>
    obtain ⟨a, b⟩ := p
    simp only [List.map_cons, get?]
    split
    · rename_i h; subst h; rfl
    · exact ih

theorem keys_mapVal' (d : Dict α) (f : Name → α → β) :
    keys (d.map fun p => (p.1, f p.1 p.2)) = d.keys := by
  simp [keys, Function.comp_def]

theorem erase_of_not_mem {d : Dict α} {k : Name} (h : k ∉ d.keys) : d.erase k = d := by
  induction d with
  | nil => rfl
  | cons p d ih =>
    obtain ⟨a, b⟩ := p
    simp only [keys_cons, List.mem_cons, not_or] at h
    simp [erase, Ne.symm h.1, ih h.2]

theorem mem_erase {d : Dict α} {k : Name} {p : Name × α} (h : p ∈ d.erase k) : p ∈ d := by
  induction d with
  | nil => exact h
  | cons x d ih =>
    obtain ⟨a, b⟩ := x
    simp only [erase] at h
    split at h
    · exact List.mem_cons_of_mem _ h
    · rcases List.mem_cons.1 h with rfl | h
      · simp
      · exact List.mem_cons_of_mem _ (ih h)

theorem mem_set {d : Dict α} {k : Name} {v : α} {p : Name × α} (h : p ∈ d.set k v) :
    p ∈ d ∨ p.2 = v := by
  induction d with
  | nil => simp [set] at h; right; rw [h]
  | cons x d ih =>
    obtain ⟨a, b⟩ := x
    simp only [set] at h
    split at h
    · rcases List.mem_cons.1 h with rfl | h
      · exact .inr rfl
      · exact .inl (List.mem_cons_of_mem _ h)
    · rcases List.mem_cons.1 h with rfl | h
      · exact .inl (by simp)
      · rcases ih h with h | h
        · exact .inl (List.mem_cons_of_mem _ h)
        · exact .inr h

end Dict

namespace Net
open Res

/-- the graph's dictionaries fit together -/
structure GInv (t : Net) : Prop where
  nodup : t.gnode.keys.Nodup
  succ_keys : t.succ.keys = t.gnode.keys
  pred_keys : t.pred.keys = t.gnode.keys
  succ_nodup : ∀ k, (t.succOf k).keys.Nodup
  pred_nodup : ∀ k, (t.predOf k).keys.Nodup
  mirror : ∀ a b, b ∈ (t.succOf a).keys ↔ a ∈ (t.predOf b).keys

theorem GInv.congr {t t' : Net} (h : t.GInv) (h1 : t'.gnode = t.gnode) (h2 : t'.succ = t.succ)
    (h3 : t'.pred = t.pred) : t'.GInv := by
  have hs : ∀ k, t'.succOf k = t.succOf k := fun k => by simp [succOf, h2]
  have hp : ∀ k, t'.predOf k = t.predOf k := fun k => by simp [predOf, h3]
  exact ⟨h1 ▸ h.nodup, by rw [h1, h2, h.succ_keys], by rw [h1, h3, h.pred_keys],
    fun k => hs k ▸ h.succ_nodup k, fun k => hp k ▸ h.pred_nodup k,
    fun a b => by rw [hs, hp]; exact h.mirror a b⟩

theorem getD_insertNew_nil (d : Dict (Dict Nat)) (k x : Name) :
    (((d.insertNew k []).get? x).getD [] : Dict Nat) = (d.get? x).getD [] := by
  rw [Dict.get?_insertNew]
  split
  · rename_i h; subst h
    cases d.get? x <;> rfl
  · rfl

theorem keys_insertNew {α : Type} (d : Dict α) (k : Name) (v : α) :
    (d.insertNew k v).keys = if k ∈ d.keys then d.keys else d.keys ++ [k] := by
  unfold Dict.insertNew
  split <;> simp

theorem GInv.addNode {t : Net} (h : t.GInv) (i : Nat) : (t.graphAddNode i).GInv := by
  have hs : ∀ k, (t.graphAddNode i).succOf k = t.succOf k := fun k => getD_insertNew_nil _ _ _
  have hp : ∀ k, (t.graphAddNode i).predOf k = t.predOf k := fun k => getD_insertNew_nil _ _ _
  refine ⟨Dict.nodup_insertNew h.nodup, ?_, ?_, fun k => hs k ▸ h.succ_nodup k,
    fun k => hp k ▸ h.pred_nodup k, fun a b => by rw [hs, hp]; exact h.mirror a b⟩
  · simp only [graphAddNode, keys_insertNew, h.succ_keys]
  · simp only [graphAddNode, keys_insertNew, h.pred_keys]

theorem mem_keys_insertNew {α : Type} {d : Dict α} {k x : Name} {v : α} :
    x ∈ (d.insertNew k v).keys ↔ x ∈ d.keys ∨ x = k := by
  rw [keys_insertNew]
  split
  · rename_i h
    exact ⟨.inl, fun hh => hh.elim id fun e => e ▸ h⟩
  · simp

theorem GInv.addEdge {t : Net} (h : t.GInv) (i j : Nat) : (t.graphAddEdge i j).GInv := by
  have h2 := (h.addNode i).addNode j
  set u := (t.graphAddNode i).graphAddNode j with hu
  have hi : (u.heap i).name ∈ u.gnode.keys := by
    simp only [hu, graphAddNode, mem_keys_insertNew]; tauto
  have hj : (u.heap j).name ∈ u.gnode.keys := by
    simp only [hu, graphAddNode, mem_keys_insertNew]; tauto
  have e : t.graphAddEdge i j = { u with
    succ := u.succ.set (u.heap i).name ((u.succOf (u.heap i).name).insertNew (u.heap j).name j)
    pred := u.pred.set (u.heap j).name ((u.predOf (u.heap j).name).insertNew (u.heap i).name i) } :=
    rfl
  rw [e]
  clear e
  clear_value u
  have hs : ∀ k, (Net.succOf { u with
    succ := u.succ.set (u.heap i).name ((u.succOf (u.heap i).name).insertNew (u.heap j).name j)
    pred := u.pred.set (u.heap j).name ((u.predOf (u.heap j).name).insertNew (u.heap i).name i) } k)
      = if (u.heap i).name = k then (u.succOf k).insertNew (u.heap j).name j else u.succOf k := by
    intro k
    simp only [succOf, Dict.get?_set]
    split
    · rename_i e; subst e; rfl
    · rfl
  have hp : ∀ k, (Net.predOf { u with
    succ := u.succ.set (u.heap i).name ((u.succOf (u.heap i).name).insertNew (u.heap j).name j)
    pred := u.pred.set (u.heap j).name ((u.predOf (u.heap j).name).insertNew (u.heap i).name i) } k)
      = if (u.heap j).name = k then (u.predOf k).insertNew (u.heap i).name i else u.predOf k := by
    intro k
    simp only [predOf, Dict.get?_set]
    split
    · rename_i e; subst e; rfl
    · rfl
  refine ⟨h2.nodup, ?_, ?_, ?_, ?_, ?_⟩
  · rw [Dict.keys_set_of_mem _ (by rw [h2.succ_keys]; exact hi)]; exact h2.succ_keys
  · rw [Dict.keys_set_of_mem _ (by rw [h2.pred_keys]; exact hj)]; exact h2.pred_keys
  · intro k; rw [hs]; split
    · exact Dict.nodup_insertNew (h2.succ_nodup k)
    · exact h2.succ_nodup k
  · intro k; rw [hp]; split
    · exact Dict.nodup_insertNew (h2.pred_nodup k)
    · exact h2.pred_nodup k
  · intro a b
    rw [hs, hp]
    by_cases ha : (u.heap i).name = a <;> by_cases hb : (u.heap j).name = b
    · simp only [ha, hb, if_true, mem_keys_insertNew, h2.mirror]
    · simp only [ha, hb, if_true, if_false, mem_keys_insertNew, h2.mirror, Ne.symm hb, or_false]
    · simp only [ha, hb, if_true, if_false, mem_keys_insertNew, h2.mirror, Ne.symm ha, or_false]
    · simp only [ha, hb, if_false, h2.mirror]

theorem GInv.removeNode {t : Net} (h : t.GInv) (k : Name) : (t.graphRemoveNode k).1.GInv := by
  unfold graphRemoveNode
  split
  · exact h
  · have hsn : t.succ.keys.Nodup := h.succ_keys ▸ h.nodup
    have hpn : t.pred.keys.Nodup := h.pred_keys ▸ h.nodup
    have hs : ∀ x, Net.succOf { t with
        gnode := t.gnode.erase k
        succ := (t.succ.erase k).map fun p => (p.1, p.2.erase k)
        pred := (t.pred.erase k).map fun p => (p.1, p.2.erase k) } x =
        if x = k then [] else (t.succOf x).erase k := by
      intro x
      simp only [succOf]
      rw [Dict.get?_mapVal _ (fun d : Dict Nat => d.erase k), Dict.get?_erase hsn]
      split
      · rfl
      · cases t.succ.get? x <;> rfl
    have hp : ∀ x, Net.predOf { t with
        gnode := t.gnode.erase k
        succ := (t.succ.erase k).map fun p => (p.1, p.2.erase k)
        pred := (t.pred.erase k).map fun p => (p.1, p.2.erase k) } x =
        if x = k then [] else (t.predOf x).erase k := by
      intro x
      simp only [predOf]
      rw [Dict.get?_mapVal _ (fun d : Dict Nat => d.erase k), Dict.get?_erase hpn]
      split
      · rfl
      · cases t.pred.get? x <;> rfl
    refine ⟨Dict.nodup_erase h.nodup k, ?_, ?_, ?_, ?_, ?_⟩
    · change Dict.keys (List.map _ _) = _
      rw [Dict.keys_mapVal _ (fun d : Dict Nat => d.erase k), Dict.keys_erase, h.succ_keys, ← Dict.keys_erase]
    · change Dict.keys (List.map _ _) = _
      rw [Dict.keys_mapVal _ (fun d : Dict Nat => d.erase k), Dict.keys_erase, h.pred_keys, ← Dict.keys_erase]
    · intro x; rw [hs]; split
      · simp
      · exact Dict.nodup_erase (h.succ_nodup x) k
    · intro x; rw [hp]; split
      · simp
      · exact Dict.nodup_erase (h.pred_nodup x) k
    · intro a b
      rw [hs, hp]
      by_cases ha : a = k <;> by_cases hb : b = k
      · simp [ha, hb]
      · subst ha
        simp only [if_true, hb, if_false, Dict.keys_erase]
        simp only [(h.pred_nodup b).mem_erase_iff]
        simp
      · subst hb
        simp only [if_true, ha, if_false, Dict.keys_erase]
        simp only [(h.succ_nodup a).mem_erase_iff]
        simp
      · simp only [ha, hb, if_false, Dict.keys_erase, (h.pred_nodup b).mem_erase_iff,
          (h.succ_nodup a).mem_erase_iff, h.mirror]
        exact ⟨fun x => ⟨ha, x.2⟩, fun x => ⟨hb, x.2⟩⟩

theorem GInv.removeEdge {t : Net} (h : t.GInv) (u v : Name) : (t.graphRemoveEdge u v).1.GInv := by
  unfold graphRemoveEdge
  split
  · exact h
  · rename_i hv
    rw [not_not] at hv
    have hu : u ∈ t.succ.keys := by
      rw [← Dict.get?_isSome]
      unfold succOf at hv
      cases hx : t.succ.get? u with
      | none => rw [hx] at hv; simp at hv
      | some d => exact ⟨d, rfl⟩
    have hvk : v ∈ t.pred.keys := by
      rw [h.mirror] at hv
      rw [← Dict.get?_isSome]
      unfold predOf at hv
      cases hx : t.pred.get? v with
      | none => rw [hx] at hv; simp at hv
      | some d => exact ⟨d, rfl⟩
    have hs : ∀ k, (Net.succOf { t with
        succ := t.succ.set u ((t.succOf u).erase v)
        pred := t.pred.set v ((t.predOf v).erase u) } k)
        = if u = k then (t.succOf k).erase v else t.succOf k := by
      intro k
      simp only [succOf, Dict.get?_set]
      split
      · rename_i e; subst e; rfl
      · rfl
    have hp : ∀ k, (Net.predOf { t with
        succ := t.succ.set u ((t.succOf u).erase v)
        pred := t.pred.set v ((t.predOf v).erase u) } k)
        = if v = k then (t.predOf k).erase u else t.predOf k := by
      intro k
      simp only [predOf, Dict.get?_set]
      split
      · rename_i e; subst e; rfl
      · rfl
    refine ⟨h.nodup, ?_, ?_, ?_, ?_, ?_⟩
    · rw [Dict.keys_set_of_mem _ hu]; exact h.succ_keys
    · rw [Dict.keys_set_of_mem _ hvk]; exact h.pred_keys
    · intro x; rw [hs]; split
      · exact Dict.nodup_erase (h.succ_nodup x) _
      · exact h.succ_nodup x
    · intro x; rw [hp]; split
      · exact Dict.nodup_erase (h.pred_nodup x) _
      · exact h.pred_nodup x
    · intro a b
      rw [hs, hp]
      by_cases ha : u = a <;> by_cases hb : v = b
      · simp only [ha, hb, if_true, Dict.keys_erase, (h.pred_nodup b).mem_erase_iff,
          (h.succ_nodup a).mem_erase_iff, h.mirror]
        simp
      · simp only [ha, hb, if_true, if_false, Dict.keys_erase,
          (h.succ_nodup a).mem_erase_iff, h.mirror, ne_eq, Ne.symm hb, not_false_eq_true, true_and]
      · simp only [ha, hb, if_true, if_false, Dict.keys_erase, (h.pred_nodup b).mem_erase_iff,
          h.mirror, ne_eq, Ne.symm ha, not_false_eq_true, true_and]
      · simp only [ha, hb, if_false, h.mirror]

end Net

namespace HAdj
variable {κ : Type} [DecidableEq κ] {S : Hashing κ} {heap : Nat → NodeObj} {n : Nat}

theorem delEdges_names {v : Key} {us : List Nat} {a : HAdj κ} (h : Fresh S heap n a)
    (hn : (names heap a).keys.Nodup) (hl : (us.map fun u => (heap u).name).Nodup)
    (hv : ∀ u ∈ us, v.name heap ∈ (((names heap a).get? (heap u).name).getD []).keys) :
    (delEdges S heap v us a).2 = none ∧ Fresh S heap n (delEdges S heap v us a).1 ∧
    names heap (delEdges S heap v us a).1 = (names heap a).map fun p =>
      (p.1, if p.1 ∈ us.map (fun u => (heap u).name) then p.2.erase (v.name heap) else p.2) := by
  induction us generalizing a with
  | nil => simp [delEdges, h]
  | cons u us ih =>
    obtain ⟨h1, h2, h3⟩ := delEdge_names h (.obj u) v
    have hu := hv u (by simp)
    have e1 : (delEdge S heap (.obj u) v a).2 = none := h1.2 hu
    have e2 := h2 e1
    obtain ⟨d, hd⟩ : ∃ d, (names heap a).get? (heap u).name = some d := by
      cases hx : (names heap a).get? (heap u).name with
      | none => rw [hx] at hu; simp at hu
      | some d => exact ⟨d, rfl⟩
    change _ = (names heap a).set (heap u).name ((((names heap a).get? (heap u).name).getD []).erase
      (v.name heap)) at e2
    rw [hd, Option.getD_some,
      Dict.set_eq_map hn hd (fun d => d.erase (v.name heap))] at e2
    rw [List.map_cons, List.nodup_cons] at hl
    have hn' : (names heap (delEdge S heap (.obj u) v a).1).keys.Nodup := by
      rw [e2, Dict.keys_mapVal' _
        (fun x (d : Dict Nat) => if x = (heap u).name then d.erase (v.name heap) else d)]; exact hn
    obtain ⟨i1, i2, i3⟩ := ih h3 hn' hl.2 (by
      intro x hx
      have hne : (heap x).name ≠ (heap u).name := fun e => hl.1 (e ▸ List.mem_map.2 ⟨x, hx, rfl⟩)
      rw [e2, Dict.get?_mapVal' _
        (fun x (d : Dict Nat) => if x = (heap u).name then d.erase (v.name heap) else d)]
      have := hv x (by simp [hx])
      simp only [hne, if_false, Option.map_id'] at this ⊢
      exact this)
    unfold delEdges
    rw [e1]
    refine ⟨i1, i2, ?_⟩
    simp only
    rw [i3, e2, List.map_map]
    apply List.map_congr_left
    intro p hp
    simp only [Function.comp, List.map_cons, List.mem_cons, Prod.mk.injEq, true_and]
    by_cases h1 : p.1 = (heap u).name
    · simp only [h1, true_or, if_true]
      rw [if_neg hl.1]
    · simp only [h1, false_or, if_false]

end HAdj

namespace HNet
open KRes
variable {κ : Type} [DecidableEq κ] {S : Hashing κ}

/-- no stale hash, allocated keys, graph dictionaries that fit together -/
structure Rel (S : Hashing κ) (s : HNet κ) : Prop where
  gnode : HDict.Fresh S s.heap s.next s.gnode
  succ : HAdj.Fresh S s.heap s.next s.succ
  pred : HAdj.Fresh S s.heap s.next s.pred
  look : ∀ p ∈ s.lookup, p.2 < s.next
  ginv : s.forget.GInv

/-- the object-keyed call does what the name-keyed one does -/
def Sim (S : Hashing κ) (r : KRes κ) (r' : Res) : Prop :=
  r.1.forget = r'.1 ∧ r.2 = r'.2 ∧ Rel S r.1

theorem Sim.andThen {r : KRes κ} {r' : Res} {f : HNet κ → KRes κ} {g : Net → Res}
    (h : Sim S r r') (hf : ∀ s, Rel S s → r = (s, none) → Sim S (f s) (g s.forget)) :
    Sim S (r.andThen f) (r'.andThen g) := by
  obtain ⟨h1, h2, h3⟩ := h
  unfold KRes.andThen Res.andThen
  rw [← h2]
  cases he : r.2 with
  | none =>
    simp only
    rw [← h1]
    exact hf r.1 h3 (by rw [← he])
  | some e => exact ⟨h1, h2, h3⟩

theorem Sim.forEach {f : Nat → HNet κ → KRes κ} {g : Name × Nat → Net → Res}
    (P : HNet κ → Prop) (l : List (Name × Nat))
    (hf : ∀ c ∈ l, ∀ s, Rel S s → P s → Sim S (f c.2 s) (g c s.forget) ∧ P (f c.2 s).1)
    (s : HNet κ) (hs : Rel S s) (hP : P s) :
    Sim S (KRes.forEach f (l.map Prod.snd) s) (Res.forEach g l s.forget) ∧
      P (KRes.forEach f (l.map Prod.snd) s).1 := by
  induction l generalizing s with
  | nil => exact ⟨⟨rfl, rfl, hs⟩, hP⟩
  | cons c l ih =>
    obtain ⟨h0, hP0⟩ := hf c (by simp) s hs hP
    have hf' := fun c hc => hf c (List.mem_cons_of_mem _ hc)
    obtain ⟨h1, h2, h3⟩ := h0
    simp only [List.map_cons, KRes.forEach, Res.forEach, KRes.andThen, Res.andThen]
    rw [← h2]
    cases he : (f c.2 s).2 with
    | none =>
      simp only
      rw [← h1]
      exact ih hf' _ h3 hP0
    | some e => exact ⟨⟨h1, h2, h3⟩, hP0⟩

theorem forget_lookup (s : HNet κ) : s.forget.lookup = s.lookup := rfl
theorem forget_heap (s : HNet κ) : s.forget.heap = s.heap := rfl
theorem forget_next (s : HNet κ) : s.forget.next = s.next := rfl

variable {s : HNet κ}

theorem Rel.inGraph (h : Rel S s) (q : Key) :
    inGraph S q s = decide (q.name s.heap ∈ s.forget.gnode.keys) := HDict.has_names h.gnode q

theorem Rel.succ_has (h : Rel S s) (q : Key) :
    HDict.has S s.heap s.succ q = decide (q.name s.heap ∈ s.forget.gnode.keys) := by
  rw [HAdj.has_names h.succ, ← h.ginv.succ_keys]; rfl

theorem Rel.pred_has (h : Rel S s) (q : Key) :
    HDict.has S s.heap s.pred q = decide (q.name s.heap ∈ s.forget.gnode.keys) := by
  rw [HAdj.has_names h.pred, ← h.ginv.pred_keys]; rfl

theorem Rel.succ_get (h : Rel S s) {q : Key} (hq : q.name s.heap ∈ s.forget.gnode.keys) :
    ∃ d, HDict.get? S s.heap s.succ q = some d ∧
      HDict.names s.heap d = s.forget.succOf (q.name s.heap) ∧ HDict.Fresh S s.heap s.next d := by
  have h1 := HAdj.get?_names h.succ q
  obtain ⟨d, hd⟩ := HDict.has_iff_get?.1 (by rw [h.succ_has]; simpa using hq)
  refine ⟨d, hd, ?_, h.succ.inner hd⟩
  rw [hd] at h1
  unfold Net.succOf
  change _ = (Dict.get? (HAdj.names s.heap s.succ) _).getD []
  rw [h1]; rfl

theorem Rel.pred_get (h : Rel S s) {q : Key} (hq : q.name s.heap ∈ s.forget.gnode.keys) :
    ∃ d, HDict.get? S s.heap s.pred q = some d ∧
      HDict.names s.heap d = s.forget.predOf (q.name s.heap) ∧ HDict.Fresh S s.heap s.next d := by
  have h1 := HAdj.get?_names h.pred q
  obtain ⟨d, hd⟩ := HDict.has_iff_get?.1 (by rw [h.pred_has]; simpa using hq)
  refine ⟨d, hd, ?_, h.pred.inner hd⟩
  rw [hd] at h1
  unfold Net.predOf
  change _ = (Dict.get? (HAdj.names s.heap s.pred) _).getD []
  rw [h1]; rfl

theorem Rel.succ_none (h : Rel S s) {q : Key} (hq : q.name s.heap ∉ s.forget.gnode.keys) :
    HDict.get? S s.heap s.succ q = none := by
  cases hx : HDict.get? S s.heap s.succ q with
  | none => rfl
  | some d =>
    have := HDict.has_iff_get?.2 ⟨d, hx⟩
    rw [h.succ_has] at this
    exact absurd (of_decide_eq_true this) hq

/-! ## graph operations -/

theorem Rel.graphAddNode (h : Rel S s) {i : Nat} (hi : i < s.next) :
    (graphAddNode S i s).forget = s.forget.graphAddNode i ∧ Rel S (graphAddNode S i s) := by
  have e : (HNet.graphAddNode S i s).forget = s.forget.graphAddNode i := by
    unfold HNet.graphAddNode Net.graphAddNode
    have hs := h.succ_has (.obj i)
    have hp := h.pred_has (.obj i)
    have hg := h.inGraph (.obj i)
    rw [hs]
    simp only [Key.name] at hs hp hg ⊢
    by_cases hm : (s.heap i).name ∈ s.forget.gnode.keys
    · simp only [hm, decide_true, if_true, forget_heap]
      rw [Dict.keys_insertNew_of_mem _ hm,
        Dict.keys_insertNew_of_mem _ (by rw [h.ginv.succ_keys]; exact hm),
        Dict.keys_insertNew_of_mem _ (by rw [h.ginv.pred_keys]; exact hm)]
      rfl
    · simp only [hm, decide_false, if_false, forget_heap, Bool.false_eq_true] at hs hp hg ⊢
      have k1 : (s.heap i).name ∉ s.forget.succ.keys := by rw [h.ginv.succ_keys]; exact hm
      have k2 : (s.heap i).name ∉ s.forget.pred.keys := by rw [h.ginv.pred_keys]; exact hm
      rw [Dict.keys_insertNew_of_not_mem (d := s.forget.succ) _ k1,
        Dict.keys_insertNew_of_not_mem (d := s.forget.pred) _ k2]
      have e1 := HDict.vals_put (S := S) (heap := s.heap) (HDict.names s.heap) (v := []) hs
      have e2 := HDict.vals_put (S := S) (heap := s.heap) (HDict.names s.heap) (v := []) hp
      have e3 := HDict.names_put h.gnode i ()
      simp only [forget, HAdj.names_eq, e1, e2, e3]
      rfl
  refine ⟨e, ?_, ?_, ?_, ?_, ?_⟩
  · unfold HNet.graphAddNode; split
    · exact h.gnode
    · exact h.gnode.put hi ()
  · unfold HNet.graphAddNode; split
    · exact h.succ
    · exact h.succ.put hi
  · unfold HNet.graphAddNode; split
    · exact h.pred
    · exact h.pred.put hi
  · unfold HNet.graphAddNode; split <;> exact h.look
  · rw [e]; exact h.ginv.addNode i

theorem graphAddNode_heap (i : Nat) (s : HNet κ) : (HNet.graphAddNode S i s).heap = s.heap := by
  unfold HNet.graphAddNode; split <;> rfl

theorem graphAddNode_next (i : Nat) (s : HNet κ) : (HNet.graphAddNode S i s).next = s.next := by
  unfold HNet.graphAddNode; split <;> rfl

theorem graphAddNode_lookup (i : Nat) (s : HNet κ) : (HNet.graphAddNode S i s).lookup = s.lookup := by
  unfold HNet.graphAddNode; split <;> rfl

theorem Rel.graphAddEdge (h : Rel S s) {i j : Nat} (hi : i < s.next) (hj : j < s.next) :
    Sim S (graphAddEdge S i j s) (s.forget.graphAddEdge i j, none) := by
  obtain ⟨e1, h1⟩ := h.graphAddNode hi
  obtain ⟨e2, h2⟩ := h1.graphAddNode (i := j) (by rw [graphAddNode_next]; exact hj)
  rw [e1] at e2
  have hg := h2.ginv
  unfold HNet.graphAddEdge
  set u := HNet.graphAddNode S j (HNet.graphAddNode S i s) with hu
  have hh : u.heap = s.heap := by rw [hu, graphAddNode_heap, graphAddNode_heap]
  have hx : u.next = s.next := by rw [hu, graphAddNode_next, graphAddNode_next]
  have ef : s.forget.graphAddEdge i j = { u.forget with
      succ := u.forget.succ.set (u.heap i).name
        ((u.forget.succOf (u.heap i).name).insertNew (u.heap j).name j)
      pred := u.forget.pred.set (u.heap j).name
        ((u.forget.predOf (u.heap j).name).insertNew (u.heap i).name i) } := by
    rw [e2]
    unfold Net.graphAddEdge
    simp only [hh]
    rfl
  have hiu : (u.heap i).name ∈ u.forget.gnode.keys := by
    rw [e2, hh]; simp only [Net.graphAddNode, Net.mem_keys_insertNew]; exact .inl (.inr rfl)
  have hju : (u.heap j).name ∈ u.forget.gnode.keys := by
    rw [e2, hh]; simp only [Net.graphAddNode, Net.mem_keys_insertNew]; exact .inr rfl
  rw [← hx] at hi hj
  clear_value u
  have a1 := h2.succ_has (.obj i)
  have a2 := h2.pred_has (.obj j)
  simp only [Key.name, hiu, hju, decide_true] at a1 a2
  simp only [a1, a2, if_true]
  obtain ⟨d, hd, hdn, hdf⟩ := h2.succ_get (q := .obj i) hiu
  obtain ⟨d', hd', hdn', hdf'⟩ := h2.pred_get (q := .obj j) hju
  have e : (forget { u with
      succ := HDict.upd S u.heap (.obj i) (fun d => HDict.put S u.heap d j ()) u.succ
      pred := HDict.upd S u.heap (.obj j) (fun d => HDict.put S u.heap d i ()) u.pred }) =
      s.forget.graphAddEdge i j := by
    rw [ef]
    unfold forget
    simp only
    rw [HAdj.names_upd h2.succ _ hd, HAdj.names_upd h2.pred _ hd', HDict.names_put hdf,
      HDict.names_put hdf', hdn, hdn']
    rfl
  refine ⟨e, rfl, h2.gnode, h2.succ.upd _ fun d hd => hd.put hj (), h2.pred.upd _ fun d hd =>
    hd.put hi (), h2.look, ?_⟩
  change Net.GInv (forget { u with succ := _, pred := _ })
  rw [e]
  exact h.ginv.addEdge i j

theorem Rel.graphRemoveEdge (h : Rel S s) (a b : Key) :
    Sim S (graphRemoveEdge S a b s)
      (s.forget.graphRemoveEdge (a.name s.heap) (b.name s.heap)) := by
  obtain ⟨i1, i2, i3⟩ := HAdj.delEdge_names h.succ a b
  obtain ⟨j1, j2, j3⟩ := HAdj.delEdge_names h.pred b a
  have hG := h.ginv.removeEdge (a.name s.heap) (b.name s.heap)
  unfold HNet.graphRemoveEdge
  unfold Net.graphRemoveEdge at hG ⊢
  by_cases hb : b.name s.heap ∈ (s.forget.succOf (a.name s.heap)).keys
  · have e1 : (HAdj.delEdge S s.heap a b s.succ).2 = none := i1.2 hb
    have e2 : (HAdj.delEdge S s.heap b a s.pred).2 = none :=
      j1.2 ((h.ginv.mirror _ _).1 hb)
    rw [if_neg (by rw [not_not]; exact hb)] at hG ⊢
    simp only [e1, e2]
    have e : forget { s with
        succ := (HAdj.delEdge S s.heap a b s.succ).1
        pred := (HAdj.delEdge S s.heap b a s.pred).1 } = { s.forget with
        succ := s.forget.succ.set (a.name s.heap)
          ((s.forget.succOf (a.name s.heap)).erase (b.name s.heap))
        pred := s.forget.pred.set (b.name s.heap)
          ((s.forget.predOf (b.name s.heap)).erase (a.name s.heap)) } := by
      unfold forget
      simp only
      rw [i2 e1, j2 e2]
      rfl
    refine ⟨e, rfl, h.gnode, i3, j3, h.look, ?_⟩
    change Net.GInv (forget { s with succ := _, pred := _ })
    rw [e]; exact hG
  · rw [if_pos hb]
    cases e1 : (HAdj.delEdge S s.heap a b s.succ).2 with
    | none => exact absurd (i1.1 e1) hb
    | some e => exact ⟨rfl, rfl, h⟩

theorem Rel.graphRemoveNode (h : Rel S s) (q : Key) :
    Sim S (graphRemoveNode S q s) (s.forget.graphRemoveNode (q.name s.heap)) := by
  have hG := h.ginv.removeNode (q.name s.heap)
  unfold HNet.graphRemoveNode
  unfold Net.graphRemoveNode at hG ⊢
  by_cases hq : q.name s.heap ∈ s.forget.gnode.keys
  · rw [if_neg (by rw [not_not]; exact hq)] at hG ⊢
    obtain ⟨d, hd, hdn, hdf⟩ := h.succ_get hq
    obtain ⟨d2, hd2, hdn2, hdf2⟩ := h.pred_get hq
    have hin := h.inGraph q
    unfold HNet.inGraph at hin
    rw [hd]
    simp only [hin, hq, decide_true, if_true]
    set k := q.name s.heap with hk
    have hkeys : (HDict.objs d).map (fun u => (s.heap u).name) = (s.forget.succOf k).keys := by
      rw [← hdn, HDict.keys_names]; simp [HDict.objs, Function.comp_def]
    have hsn : (HAdj.names s.heap s.succ).keys.Nodup := by
      have := h.ginv.nodup; rw [← h.ginv.succ_keys] at this; exact this
    have hpn : (HAdj.names s.heap s.pred).keys.Nodup := by
      have := h.ginv.nodup; rw [← h.ginv.pred_keys] at this; exact this
    -- the first loop
    obtain ⟨l1, l2, l3⟩ := HAdj.delEdges_names (v := q) (us := HDict.objs d) h.pred hpn
      (by rw [hkeys]; exact h.ginv.succ_nodup k) (by
        intro u hu
        have : (s.heap u).name ∈ (s.forget.succOf k).keys := by
          rw [← hkeys]; exact List.mem_map.2 ⟨u, hu, rfl⟩
        exact (h.ginv.mirror _ _).1 this)
    rw [hkeys] at l3
    rw [← hk] at l3
    set P1 := (HAdj.delEdges S s.heap q (HDict.objs d) s.pred).1 with hP1
    simp only [delPredEdges, KRes.andThen, l1]
    simp only [delSucc]
    have hsh := h.succ_has q
    rw [← hk] at hsh
    simp only [hsh, hq, decide_true, if_true]
    simp only [delPred]
    -- the second loop
    have hg1 : (HAdj.names s.heap P1).get? k =
        some (if k ∈ (s.forget.succOf k).keys then (s.forget.predOf k).erase k
          else s.forget.predOf k) := by
      rw [l3, Dict.get?_mapVal' _
        (fun x (d : Dict Nat) => if x ∈ (s.forget.succOf k).keys then d.erase k else d)]
      have := HAdj.get?_names h.pred q
      rw [← hk, hd2, Option.map_some, hdn2] at this
      rw [this]; rfl
    have hg2 := HAdj.get?_names l2 q
    rw [← hk, hg1] at hg2
    obtain ⟨d3, hd3⟩ : ∃ d3, HDict.get? S s.heap P1 q = some d3 := by
      cases hx : HDict.get? S s.heap P1 q with
      | none => rw [hx] at hg2; cases hg2
      | some d3 => exact ⟨d3, rfl⟩
    rw [hd3, Option.map_some, Option.some.injEq] at hg2
    have hkeys3 : (HDict.objs d3).map (fun u => (s.heap u).name) = (HDict.names s.heap d3).keys := by
      rw [HDict.keys_names]; simp [HDict.objs, Function.comp_def]
    have hmem3 : ∀ x, x ∈ (HDict.names s.heap d3).keys ↔ x ≠ k ∧ x ∈ (s.forget.predOf k).keys := by
      intro x
      rw [← hg2]
      split
      · rw [Dict.keys_erase, (h.ginv.pred_nodup k).mem_erase_iff]
      · rename_i hkk
        rw [h.ginv.mirror] at hkk
        exact ⟨fun hx => ⟨fun e => hkk (e ▸ hx), hx⟩, fun hx => hx.2⟩
    have hnd3 : (HDict.names s.heap d3).keys.Nodup := by
      rw [← hg2]
      split
      · exact Dict.nodup_erase (h.ginv.pred_nodup k) k
      · exact h.ginv.pred_nodup k
    have hnd := HAdj.names_del h.succ q
    rw [← hk] at hnd
    obtain ⟨m1, m2, m3⟩ := HAdj.delEdges_names (v := q) (us := HDict.objs d3) (h.succ.del q)
      (by rw [hnd]; exact Dict.nodup_erase hsn k) (by rw [hkeys3]; exact hnd3) (by
        intro u hu
        have hu' : (s.heap u).name ∈ (HDict.names s.heap d3).keys := by
          rw [← hkeys3]; exact List.mem_map.2 ⟨u, hu, rfl⟩
        obtain ⟨u1, u2⟩ := (hmem3 _).1 hu'
        rw [hnd, Dict.get?_erase_of_ne (Ne.symm u1)]
        exact (h.ginv.mirror _ _).2 u2)
    rw [hkeys3, hnd, ← hk] at m3
    rw [hd3]
    simp only [m1]
    have e : forget { s with
        gnode := HDict.del S s.heap s.gnode q
        succ := (HAdj.delEdges S s.heap q (HDict.objs d3) (HDict.del S s.heap s.succ q)).1
        pred := HDict.del S s.heap P1 q } = { s.forget with
        gnode := s.forget.gnode.erase k
        succ := (s.forget.succ.erase k).map fun p => (p.1, p.2.erase k)
        pred := (s.forget.pred.erase k).map fun p => (p.1, p.2.erase k) } := by
      unfold forget
      simp only
      rw [HDict.names_del h.gnode, m3, HAdj.names_del l2, ← hk, l3,
        Dict.erase_mapVal _
          (fun x (d : Dict Nat) => if x ∈ (s.forget.succOf k).keys then d.erase k else d)]
      congr 1
      · apply List.map_congr_left
        intro p hp
        have hpk : p.1 ≠ k := by
          intro e
          have : p.1 ∈ ((HAdj.names s.heap s.succ).erase k).keys := List.mem_map.2 ⟨p, hp, rfl⟩
          rw [Dict.keys_erase, hsn.mem_erase_iff] at this
          exact this.1 e
        split
        · rfl
        · rename_i hn
          rw [hmem3] at hn
          have hps : s.forget.succOf p.1 = p.2 := by
            unfold Net.succOf
            rw [show s.forget.succ.get? p.1 = some p.2 from
              Dict.get?_of_mem hsn (Dict.mem_erase hp)]
            rfl
          rw [Dict.erase_of_not_mem]
          rw [← hps, h.ginv.mirror]
          exact fun hh => hn ⟨hpk, hh⟩
      · apply List.map_congr_left
        intro p hp
        split
        · rfl
        · rename_i hn
          have hps : s.forget.predOf p.1 = p.2 := by
            unfold Net.predOf
            rw [show s.forget.pred.get? p.1 = some p.2 from
              Dict.get?_of_mem hpn (Dict.mem_erase hp)]
            rfl
          rw [Dict.erase_of_not_mem]
          rw [← hps, ← h.ginv.mirror]
          exact hn
    refine ⟨e, rfl, h.gnode.del q, m2, l2.del q, h.look, ?_⟩
    change Net.GInv (forget { s with gnode := _, succ := _, pred := _ })
    rw [e]; exact hG
  · rw [if_pos hq, h.succ_none hq]
    exact ⟨rfl, rfl, h⟩

end HNet
end Primo
