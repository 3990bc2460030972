import Verif.Py
import Mathlib.Data.List.Forall2

/-! # Lemmas about dictionaries and the exception monad -/

namespace Primo

@[simp] theorem ok_bind {α β : Type} (a : α) (f : α → Except PyErr β) :
    (Except.ok a >>= f) = f a := rfl
@[simp] theorem error_bind {α β : Type} (e : PyErr) (f : α → Except PyErr β) :
    ((Except.error e : Except PyErr α) >>= f) = .error e := rfl
@[simp] theorem pure_eq_ok {α : Type} (a : α) : (pure a : Except PyErr α) = .ok a := rfl
@[simp] theorem map_ok {α β : Type} (g : α → β) (a : α) :
    (g <$> (Except.ok a : Except PyErr α)) = .ok (g a) := rfl
@[simp] theorem map_error {α β : Type} (g : α → β) (e : PyErr) :
    (g <$> (Except.error e : Except PyErr α)) = .error e := rfl

theorem bind_eq_ok {α β : Type} {x : Except PyErr α} {f : α → Except PyErr β} {b : β} :
    (x >>= f) = .ok b ↔ ∃ a, x = .ok a ∧ f a = .ok b := by
  cases x <;> simp

theorem mapM_ok {α β : Type} {l : List α} {f : α → Except PyErr β} {g : α → β}
    (h : ∀ x ∈ l, f x = .ok (g x)) : l.mapM f = .ok (l.map g) := by
  induction l with
  | nil => rfl
  | cons a l ih =>
    simp only [List.mapM_cons, h a (by simp), ok_bind, ih (fun x hx => h x (by simp [hx])),
      pure_eq_ok, List.map_cons]

theorem mapM_eq_ok {α β : Type} {l : List α} {f : α → Except PyErr β} {r : List β} :
    l.mapM f = .ok r ↔ List.Forall₂ (fun a b => f a = .ok b) l r := by
  induction l generalizing r with
  | nil => simp [eq_comm]
  | cons a l ih =>
    simp only [List.mapM_cons, bind_eq_ok, pure_eq_ok, Except.ok.injEq]
    constructor
    · rintro ⟨b, hb, bs, hbs, rfl⟩
      exact .cons hb (ih.1 hbs)
    · intro h
      cases h with
      | cons h1 h2 => exact ⟨_, h1, _, ih.2 h2, rfl⟩

/-- if every application either succeeds or fails with `e`, and one fails, the loop fails with `e` -/
theorem mapM_error {α β : Type} {l : List α} {f : α → Except PyErr β} {e : PyErr}
    (h : ∀ a ∈ l, (∃ b, f a = .ok b) ∨ f a = .error e) (hex : ∃ a ∈ l, f a = .error e) :
    l.mapM f = .error e := by
  induction l with
  | nil => simp at hex
  | cons a l ih =>
    rw [List.mapM_cons]
    rcases h a (by simp) with ⟨b, hb⟩ | hb
    · obtain ⟨a', ha', he⟩ := hex
      rcases List.mem_cons.1 ha' with rfl | ha'
      · rw [hb] at he; cases he
      · rw [hb, ok_bind, ih (fun x hx => h x (by simp [hx])) ⟨a', ha', he⟩]; rfl
    · rw [hb]; rfl

theorem foldlM_invariant {α β : Type} {f : β → α → Except PyErr β} {l : List α} {b : β}
    (P : List α → β → Prop) (h0 : P l b)
    (hstep : ∀ x l b, P (x :: l) b → ∃ b', f b x = .ok b' ∧ P l b') :
    ∃ r, l.foldlM f b = .ok r ∧ P [] r := by
  induction l generalizing b with
  | nil => exact ⟨b, rfl, h0⟩
  | cons x l ih =>
    obtain ⟨b', hb', hP⟩ := hstep x l b h0
    obtain ⟨r, hr, hP'⟩ := ih hP
    exact ⟨r, by simp [List.foldlM_cons, hb', hr], hP'⟩

theorem pyIndex_ok {α : Type} [DecidableEq α] {l : List α} {x : α} (h : x ∈ l) :
    pyIndex l x = .ok (l.idxOf x) := by simp [pyIndex, h]

theorem pyIndex_eq_ok {α : Type} [DecidableEq α] {l : List α} {x : α} {i : Nat} :
    pyIndex l x = .ok i ↔ x ∈ l ∧ i = l.idxOf x := by
  unfold pyIndex; split <;> simp_all [eq_comm]

namespace Dict
variable {α : Type}

@[simp] theorem keys_nil : keys ([] : Dict α) = [] := rfl
@[simp] theorem keys_cons (p : Name × α) (d : Dict α) : keys (p :: d) = p.1 :: keys d := rfl
@[simp] theorem keys_append (d e : Dict α) : keys (d ++ e) = keys d ++ keys e := by simp [keys]

theorem get?_eq_none {d : Dict α} {k : Name} : d.get? k = none ↔ k ∉ d.keys := by
  induction d with
  | nil => simp [get?]
  | cons p d ih =>
    obtain ⟨k', v⟩ := p
    by_cases h : k' = k
    · simp [get?, h]
    · simp only [get?, h, if_false, ih, keys_cons, List.mem_cons, not_or]
      exact ⟨fun h' => ⟨fun e => h e.symm, h'⟩, fun h' => h'.2⟩

theorem get?_isSome {d : Dict α} {k : Name} : (∃ v, d.get? k = some v) ↔ k ∈ d.keys := by
  rw [← Option.isSome_iff_exists, ← not_iff_not, ← get?_eq_none]
  simp

theorem mem_keys_of_get? {d : Dict α} {k : Name} {v : α} (h : d.get? k = some v) : k ∈ d.keys :=
  get?_isSome.1 ⟨v, h⟩

theorem get?_mem {d : Dict α} {k : Name} {v : α} (h : d.get? k = some v) : (k, v) ∈ d := by
  induction d with
  | nil => simp [get?] at h
  | cons p d ih =>
    obtain ⟨k', w⟩ := p
    by_cases hk : k' = k
    · simp [get?, hk] at h; simp [h, hk]
    · simp [get?, hk] at h; simp [ih h]

theorem get?_of_mem {d : Dict α} (hd : d.keys.Nodup) {k : Name} {v : α} (h : (k, v) ∈ d) :
    d.get? k = some v := by
  induction d with
  | nil => simp at h
  | cons p d ih =>
    obtain ⟨k', w⟩ := p
    simp only [keys_cons, List.nodup_cons] at hd
    simp only [List.mem_cons] at h
    rcases h with h | h
    · simp only [Prod.mk.injEq] at h; simp [get?, h.1, h.2]
    · have : k ∈ keys d := List.mem_map.2 ⟨_, h, rfl⟩
      have hk : ¬ k' = k := fun e => hd.1 (e ▸ this)
      simp [get?, hk, ih hd.2 h]

theorem get?_set (d : Dict α) (k : Name) (v : α) (k' : Name) :
    (d.set k v).get? k' = if k = k' then some v else d.get? k' := by
  induction d with
  | nil => simp [set, get?]
  | cons p d ih =>
    obtain ⟨k0, w⟩ := p
    by_cases h : k0 = k
    · subst h
      simp only [set, if_true, get?]
      split <;> rfl
    · simp only [set, h, if_false, get?, ih]
      by_cases h0 : k0 = k'
      · subst h0
        simp [show ¬ k = k0 from fun e => h e.symm]
      · simp [h0]

theorem keys_set_of_mem {d : Dict α} {k : Name} (v : α) (h : k ∈ d.keys) :
    (d.set k v).keys = d.keys := by
  induction d with
  | nil => simp at h
  | cons p d ih =>
    obtain ⟨k0, w⟩ := p
    by_cases h0 : k0 = k
    · simp [set, h0]
    · simp only [keys_cons, List.mem_cons] at h
      rcases h with h | h
      · exact absurd h.symm h0
      · simp [set, h0, ih h]

theorem set_of_not_mem {d : Dict α} {k : Name} (v : α) (h : k ∉ d.keys) :
    d.set k v = d ++ [(k, v)] := by
  induction d with
  | nil => simp [set]
  | cons p d ih =>
    obtain ⟨k0, w⟩ := p
    simp only [keys_cons, List.mem_cons, not_or] at h
    simp [set, show ¬ k0 = k from fun e => h.1 e.symm, ih h.2]

theorem keys_set_of_not_mem {d : Dict α} {k : Name} (v : α) (h : k ∉ d.keys) :
    (d.set k v).keys = d.keys ++ [k] := by
  rw [set_of_not_mem v h]; simp

theorem mem_keys_set {d : Dict α} {k : Name} {v : α} {x : Name} :
    x ∈ (d.set k v).keys ↔ x = k ∨ x ∈ d.keys := by
  by_cases h : k ∈ d.keys
  · rw [keys_set_of_mem v h]
    constructor
    · exact Or.inr
    · rintro (rfl | h') <;> assumption
  · rw [keys_set_of_not_mem v h]; simp [or_comm]

theorem nodup_keys_set {d : Dict α} {k : Name} {v : α} (h : d.keys.Nodup) :
    (d.set k v).keys.Nodup := by
  by_cases hk : k ∈ d.keys
  · rwa [keys_set_of_mem v hk]
  · rw [keys_set_of_not_mem v hk]
    rw [List.nodup_append]
    exact ⟨h, by simp, by rintro a ha b hb; simp at hb; subst hb; exact fun e => hk (e ▸ ha)⟩

theorem keys_erase (d : Dict α) (k : Name) : (d.erase k).keys = d.keys.erase k := by
  induction d with
  | nil => rfl
  | cons p d ih =>
    obtain ⟨k0, w⟩ := p
    by_cases h : k0 = k
    · simp [erase, h]
    · simp [erase, h, ih, List.erase_cons_tail]

theorem get?_erase_of_ne {d : Dict α} {k k' : Name} (h : k ≠ k') :
    (d.erase k).get? k' = d.get? k' := by
  induction d with
  | nil => rfl
  | cons p d ih =>
    obtain ⟨k0, w⟩ := p
    by_cases h0 : k0 = k
    · subst h0
      simp [erase, get?, h]
    · simp [erase, h0, get?, ih]

theorem get?_erase_self {d : Dict α} {k : Name} (hd : d.keys.Nodup) :
    (d.erase k).get? k = none := by
  rw [get?_eq_none, keys_erase]
  exact fun h => (List.Nodup.mem_erase_iff hd).1 h |>.1 rfl

theorem getE_ok {d : Dict α} {k : Name} {v : α} (h : d.get? k = some v) : d.getE k = .ok v := by
  simp [getE, h]

theorem getE_eq_ok {d : Dict α} {k : Name} {v : α} : d.getE k = .ok v ↔ d.get? k = some v := by
  unfold getE; cases d.get? k <;> simp

theorem delE_ok {d : Dict α} {k : Name} (h : k ∈ d.keys) : d.delE k = .ok (d.erase k) := by
  simp [delE, h]

end Dict

namespace SetOrder

theorem diff_eq_nil (so : SetOrder) {a b : List Name} : so.diff a b = [] ↔ ∀ x ∈ a, x ∈ b := by
  rw [List.eq_nil_iff_forall_not_mem]
  simp only [so.mem, not_and, not_not]

theorem nodup_append (so : SetOrder) {a b : List Name} (h : a.Nodup) :
    (a ++ so.diff b a).Nodup := by
  rw [List.nodup_append]
  refine ⟨h, so.nodup _ _, ?_⟩
  intro x hx y hy e
  subst e
  exact ((so.mem _ _ _).1 hy).2 hx

end SetOrder
end Primo
