import Verif.Spec.HashNet
import Verif.Lemmas.Network

/-! # Lemmas: dictionaries keyed by node objects -/

namespace Primo

namespace HDict
variable {κ α β : Type} [DecidableEq κ] {S : Hashing κ} {heap : Nat → NodeObj} {n : Nat}

/-- stored hashes are those of the current names, and keys are allocated objects -/
def Fresh (S : Hashing κ) (heap : Nat → NodeObj) (n : Nat) (d : HDict κ α) : Prop :=
  ∀ e ∈ d, e.key < n ∧ e.hash = S.hash (heap e.key).name

/-- read with names -/
def vals (heap : Nat → NodeObj) (g : α → β) (d : HDict κ α) : Dict β :=
  d.map fun e => ((heap e.key).name, g e.val)

theorem hit_fresh {e : HEntry κ α} (h : e.hash = S.hash (heap e.key).name) (q : Key) :
    hit S heap q e = decide ((heap e.key).name = q.name heap) := by
  unfold hit
  rw [h]
  by_cases hq : q = .obj e.key
  · subst hq; simp [Key.name]
  · by_cases hn : (heap e.key).name = q.name heap
    · simp [hn]
    · simp [hq, hn]

theorem Fresh.cons {e : HEntry κ α} {d : HDict κ α} (h : Fresh S heap n (e :: d)) :
    (e.key < n ∧ e.hash = S.hash (heap e.key).name) ∧ Fresh S heap n d :=
  ⟨h e (by simp), fun x hx => h x (by simp [hx])⟩

theorem get?_vals (g : α → β) {d : HDict κ α} (h : Fresh S heap n d) (q : Key) :
    (vals heap g d).get? (q.name heap) = (get? S heap d q).map g := by
  induction d with
  | nil => rfl
  | cons e d ih =>
    have h' := h.cons
    have hh := hit_fresh h'.1.2 q
    unfold get? at ih ⊢
    simp only [vals, List.map_cons, Dict.get?, List.find?_cons, hh] at ih ⊢
    by_cases hn : (heap e.key).name = q.name heap
    · simp [hn]
    · simp only [hn, if_false, decide_false]
      exact ih h'.2

theorem keys_vals (g : α → β) (d : HDict κ α) :
    (vals heap g d).keys = d.map fun e => (heap e.key).name := by
  simp [vals, Dict.keys, Function.comp_def]

theorem has_vals (g : α → β) {d : HDict κ α} (h : Fresh S heap n d) (q : Key) :
    has S heap d q = decide (q.name heap ∈ (vals heap g d).keys) := by
  rw [keys_vals]
  induction d with
  | nil => simp [has]
  | cons e d ih =>
    have h' := h.cons
    have hh := hit_fresh h'.1.2 q
    unfold has at ih ⊢
    simp only [List.any_cons, hh, List.map_cons, List.mem_cons, ih h'.2]
    by_cases hn : (heap e.key).name = q.name heap
    · simp [hn]
    · simp [hn, Ne.symm hn]

theorem has_iff_get? {d : HDict κ α} {q : Key} :
    has S heap d q = true ↔ ∃ v, get? S heap d q = some v := by
  unfold has get?
  rw [List.any_eq_true]
  constructor
  · rintro ⟨e, he, hq⟩
    cases hf : d.find? (hit S heap q) with
    | none => exact absurd hq (List.find?_eq_none.1 hf e he)
    | some x => exact ⟨x.val, rfl⟩
  · rintro ⟨v, hv⟩
    cases hf : d.find? (hit S heap q) with
    | none => rw [hf] at hv; cases hv
    | some x => exact ⟨x, List.mem_of_find?_eq_some hf, List.find?_some hf⟩

theorem vals_del (g : α → β) {d : HDict κ α} (h : Fresh S heap n d) (q : Key) :
    vals heap g (del S heap d q) = (vals heap g d).erase (q.name heap) := by
  induction d with
  | nil => rfl
  | cons e d ih =>
    have h' := h.cons
    have hh := hit_fresh h'.1.2 q
    unfold del at ih ⊢
    by_cases hn : (heap e.key).name = q.name heap
    · rw [List.eraseP_cons_of_pos (by simp [hh, hn])]
      simp [vals, Dict.erase, hn]
    · rw [List.eraseP_cons_of_neg (by simp [hh, hn])]
      simp only [vals, List.map_cons, Dict.erase, hn, if_false] at ih ⊢
      rw [ih h'.2]

theorem vals_upd (g : α → β) {d : HDict κ α} (h : Fresh S heap n d) (q : Key) {f : α → α} {v : α}
    (hv : get? S heap d q = some v) :
    vals heap g (upd S heap q f d) = (vals heap g d).set (q.name heap) (g (f v)) := by
  induction d with
  | nil => simp [get?] at hv
  | cons e d ih =>
    have h' := h.cons
    have hh := hit_fresh h'.1.2 q
    unfold get? at hv ih
    rw [List.find?_cons, hh] at hv
    by_cases hn : (heap e.key).name = q.name heap
    · simp [hn] at hv
      subst hv
      simp [upd, hh, hn, vals, Dict.set]
    · simp only [hn, decide_false] at hv
      simp only [upd, hh, hn, vals, Dict.set, List.map_cons, decide_false, if_false,
        Bool.false_eq_true] at ih ⊢
      rw [ih h'.2 hv]

theorem Fresh.del {d : HDict κ α} (h : Fresh S heap n d) (q : Key) :
    Fresh S heap n (del S heap d q) := fun e he => h e (List.mem_of_mem_eraseP he)

theorem mem_upd {d : HDict κ α} {q : Key} {f : α → α} {e : HEntry κ α}
    (he : e ∈ upd S heap q f d) :
    ∃ e' ∈ d, e'.key = e.key ∧ e'.hash = e.hash ∧ (e = e' ∨ e.val = f e'.val) := by
  induction d with
  | nil => simp [upd] at he
  | cons x d ih =>
    unfold upd at he
    split at he
    · rcases List.mem_cons.1 he with rfl | he
      · exact ⟨x, by simp, rfl, rfl, .inr rfl⟩
      · exact ⟨e, by simp [he], rfl, rfl, .inl rfl⟩
    · rcases List.mem_cons.1 he with rfl | he
      · exact ⟨e, by simp, rfl, rfl, .inl rfl⟩
      · obtain ⟨e', h1, h2⟩ := ih he
        exact ⟨e', by simp [h1], h2⟩

theorem Fresh.upd {d : HDict κ α} (h : Fresh S heap n d) (q : Key) (f : α → α) :
    Fresh S heap n (upd S heap q f d) := by
  intro e he
  obtain ⟨e', h1, h2, h3, _⟩ := mem_upd he
  rw [← h2, ← h3]; exact h e' h1

theorem Fresh.put {d : HDict κ α} (h : Fresh S heap n d) {i : Nat} (hi : i < n) (v : α) :
    Fresh S heap n (put S heap d i v) := by
  unfold HDict.put
  split
  · exact h.upd _ _
  · intro e he
    rcases List.mem_append.1 he with he | he
    · exact h e he
    · simp only [List.mem_singleton] at he; subst he; exact ⟨hi, rfl⟩

theorem vals_put (g : α → β) {d : HDict κ α} {i : Nat} {v : α}
    (hn : has S heap d (.obj i) = false) :
    vals heap g (put S heap d i v) = vals heap g d ++ [((heap i).name, g v)] := by
  simp [put, hn, vals]

theorem keys_names (d : HDict κ Unit) : (names heap d).keys = d.map fun e => (heap e.key).name := by
  simp [names, Dict.keys, Function.comp_def]

theorem has_names {d : HDict κ Unit} (h : Fresh S heap n d) (q : Key) :
    has S heap d q = decide (q.name heap ∈ (names heap d).keys) := by
  rw [has_vals (id : Unit → Unit) h, keys_vals, keys_names]

theorem names_del {d : HDict κ Unit} (h : Fresh S heap n d) (q : Key) :
    names heap (del S heap d q) = (names heap d).erase (q.name heap) := by
  induction d with
  | nil => rfl
  | cons e d ih =>
    have h' := h.cons
    have hh := hit_fresh h'.1.2 q
    unfold del at ih ⊢
    by_cases hn : (heap e.key).name = q.name heap
    · rw [List.eraseP_cons_of_pos (by simp [hh, hn])]
      simp [names, Dict.erase, hn]
    · rw [List.eraseP_cons_of_neg (by simp [hh, hn])]
      simp only [names, List.map_cons, Dict.erase, hn, if_false] at ih ⊢
      rw [ih h'.2]

theorem upd_unit {d : HDict κ Unit} {q : Key} {f : Unit → Unit} : upd S heap q f d = d := by
  induction d with
  | nil => rfl
  | cons e d ih =>
    unfold upd
    rw [ih]
    split <;> rfl

theorem names_put {d : HDict κ Unit} (h : Fresh S heap n d) (i : Nat) (v : Unit) :
    names heap (put S heap d i v) = (names heap d).insertNew (heap i).name i := by
  unfold put Dict.insertNew
  rw [has_names h]
  by_cases hn : (heap i).name ∈ (names heap d).keys
  · simp only [Key.name, hn, decide_true, if_true, upd_unit]
  · simp only [Key.name, hn, decide_false, if_false, Bool.false_eq_true]
    simp [names]

theorem names_objs (d : HDict κ Unit) : (names heap d).map Prod.snd = objs d := by
  simp [names, objs, Function.comp_def]

end HDict

namespace HAdj
variable {κ : Type} [DecidableEq κ] {S : Hashing κ} {heap : Nat → NodeObj} {n : Nat}

/-- fresh outer and inner keys -/
def Fresh (S : Hashing κ) (heap : Nat → NodeObj) (n : Nat) (a : HAdj κ) : Prop :=
  HDict.Fresh S heap n a ∧ ∀ e ∈ a, HDict.Fresh S heap n e.val

theorem names_eq (a : HAdj κ) : names heap a = HDict.vals heap (HDict.names heap) a := rfl

theorem Fresh.inner {a : HAdj κ} (h : Fresh S heap n a) {q : Key} {d : HDict κ Unit}
    (hd : HDict.get? S heap a q = some d) : HDict.Fresh S heap n d := by
  unfold HDict.get? at hd
  cases hf : a.find? (HDict.hit S heap q) with
  | none => rw [hf] at hd; cases hd
  | some e =>
    rw [hf] at hd
    cases hd
    exact h.2 e (List.mem_of_find?_eq_some hf)

theorem Fresh.del {a : HAdj κ} (h : Fresh S heap n a) (q : Key) :
    Fresh S heap n (HDict.del S heap a q) :=
  ⟨h.1.del q, fun e he => h.2 e (List.mem_of_mem_eraseP he)⟩

theorem Fresh.upd {a : HAdj κ} (h : Fresh S heap n a) (q : Key) {f : HDict κ Unit → HDict κ Unit}
    (hf : ∀ d, HDict.Fresh S heap n d → HDict.Fresh S heap n (f d)) :
    Fresh S heap n (HDict.upd S heap q f a) := by
  refine ⟨h.1.upd q f, fun e he => ?_⟩
  obtain ⟨e', h1, _, _, h4⟩ := HDict.mem_upd he
  rcases h4 with rfl | h4
  · exact h.2 _ h1
  · rw [h4]; exact hf _ (h.2 _ h1)

theorem Fresh.put {a : HAdj κ} (h : Fresh S heap n a) {i : Nat} (hi : i < n) :
    Fresh S heap n (HDict.put S heap a i []) := by
  refine ⟨h.1.put hi _, fun e he => ?_⟩
  unfold HDict.put at he
  split at he
  · obtain ⟨e', h1, _, _, h4⟩ := HDict.mem_upd he
    rcases h4 with rfl | h4
    · exact h.2 _ h1
    · rw [h4]; intro e he; cases he
  · rcases List.mem_append.1 he with he | he
    · exact h.2 e he
    · simp only [List.mem_singleton] at he; subst he; intro e he; cases he

theorem get?_names {a : HAdj κ} (h : Fresh S heap n a) (q : Key) :
    (names heap a).get? (q.name heap) = (HDict.get? S heap a q).map (HDict.names heap) :=
  HDict.get?_vals _ h.1 q

theorem has_names {a : HAdj κ} (h : Fresh S heap n a) (q : Key) :
    HDict.has S heap a q = decide (q.name heap ∈ (names heap a).keys) := by
  rw [HDict.has_vals (HDict.names heap) h.1 q, names_eq]

theorem names_del {a : HAdj κ} (h : Fresh S heap n a) (q : Key) :
    names heap (HDict.del S heap a q) = (names heap a).erase (q.name heap) :=
  HDict.vals_del _ h.1 q

theorem names_upd {a : HAdj κ} (h : Fresh S heap n a) (q : Key) {f : HDict κ Unit → HDict κ Unit}
    {d : HDict κ Unit} (hd : HDict.get? S heap a q = some d) :
    names heap (HDict.upd S heap q f a) =
      (names heap a).set (q.name heap) (HDict.names heap (f d)) :=
  HDict.vals_upd _ h.1 q hd

/-- name-keyed `del adj[u][v]` -/
theorem delEdge_names {a : HAdj κ} (h : Fresh S heap n a) (u v : Key) :
    ((delEdge S heap u v a).2 = none ↔
      v.name heap ∈ (((names heap a).get? (u.name heap)).getD []).keys) ∧
    ((delEdge S heap u v a).2 = none → names heap (delEdge S heap u v a).1 =
      (names heap a).set (u.name heap)
        ((((names heap a).get? (u.name heap)).getD []).erase (v.name heap))) ∧
    Fresh S heap n (delEdge S heap u v a).1 := by
  unfold delEdge
  rw [get?_names h]
  cases hd : HDict.get? S heap a u with
  | none => simpa using h
  | some d =>
    have hf := h.inner hd
    simp only [Option.map_some, Option.getD_some]
    rw [HDict.has_names hf]
    by_cases hv : v.name heap ∈ (HDict.names heap d).keys
    · simp only [hv, decide_true, if_true, true_iff, iff_true, true_and]
      refine ⟨?_, ?_⟩
      · intro _; rw [names_upd h u hd, HDict.names_del hf]
      · exact h.upd u fun d hd => hd.del v
    · simp [hv, h]

end HAdj
end Primo
