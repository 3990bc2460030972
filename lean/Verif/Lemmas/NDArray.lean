import Verif.NDArray
import Mathlib.Data.List.Forall2
import Mathlib.Tactic.Ring
import Mathlib.Tactic.Linarith

/-! # Lemmas about the numpy model -/

namespace Primo

/-- `idx` is a valid multi-index for the shape `s` -/
def InRange (s idx : List Nat) : Prop := List.Forall₂ (fun i n => i < n) idx s

theorem InRange.length_eq {s idx : List Nat} (h : InRange s idx) : idx.length = s.length :=
  List.Forall₂.length_eq h

theorem mem_allIdx {s idx : List Nat} : idx ∈ allIdx s ↔ InRange s idx := by
  induction s generalizing idx with
  | nil => simp [allIdx, InRange]
  | cons n s ih =>
    simp only [allIdx, List.mem_flatMap, List.mem_range, List.mem_map, InRange]
    constructor
    · rintro ⟨i, hi, t, ht, rfl⟩
      exact List.Forall₂.cons hi (ih.1 ht)
    · intro h
      cases h with
      | cons h1 h2 => exact ⟨_, h1, _, ih.2 h2, rfl⟩

namespace NDArray

theorem ravel_lt {s idx : List Nat} (h : InRange s idx) : ravel s idx < s.prod := by
  induction h with
  | nil => simp [ravel]
  | @cons i n idx s hi _ ih =>
    simp only [ravel, List.prod_cons]
    calc i * s.prod + ravel s idx < i * s.prod + s.prod := by omega
      _ = (i + 1) * s.prod := by ring
      _ ≤ n * s.prod := Nat.mul_le_mul_right _ hi

theorem getElem?_flatMap_const {α β : Type} (f : α → List β) (k : Nat) (l : List α)
    (hk : ∀ a ∈ l, (f a).length = k) (i j : Nat) (hj : j < k) :
    (l.flatMap f)[i * k + j]? = l[i]?.bind fun a => (f a)[j]? := by
  induction l generalizing i with
  | nil => simp
  | cons a l ih =>
    have ha : (f a).length = k := hk a (by simp)
    rw [List.flatMap_cons]
    cases i with
    | zero => simp [List.getElem?_append_left, ha, hj]
    | succ i =>
      rw [List.getElem?_append_right (by rw [ha]; nlinarith)]
      have : (i + 1) * k + j - (f a).length = i * k + j := by
        rw [ha, Nat.succ_mul]; omega
      rw [this, ih (fun a h => hk a (by simp [h]))]
      simp

theorem allIdx_getElem? {s idx : List Nat} (h : InRange s idx) :
    (allIdx s)[ravel s idx]? = some idx := by
  induction h with
  | nil => simp [ravel, allIdx]
  | @cons i n idx s hi hr ih =>
    simp only [ravel, allIdx]
    rw [getElem?_flatMap_const _ s.prod _ (by intro a _; simp [length_allIdx]) _ _ (ravel_lt hr)]
    simp [hi, ih]

@[simp] theorem tabulate_shape (s : List Nat) (f) : (tabulate s f).shape = s := rfl

theorem get_tabulate {s idx : List Nat} (f : List Nat → ℚ) (h : InRange s idx) :
    (tabulate s f).get idx = f idx := by
  simp [get, tabulate, List.getD_eq_getElem?_getD, allIdx_getElem? h]

theorem data_eq (a : NDArray) : a.data = (allIdx a.shape).map a.get := by
  apply List.ext_getElem?
  intro i
  by_cases hi : i < a.shape.prod
  · have hlen : i < (allIdx a.shape).length := by rw [length_allIdx]; exact hi
    rw [List.getElem?_map, List.getElem?_eq_getElem hlen]
    have hm : InRange a.shape (allIdx a.shape)[i] := mem_allIdx.1 (List.getElem_mem hlen)
    have h1 := allIdx_getElem? hm
    have hnd : (allIdx a.shape).Nodup := by
      induction a.shape with
      | nil => simp [allIdx]
      | cons n s ih =>
        simp only [allIdx]
        rw [List.nodup_flatMap]
        refine ⟨fun x _ => ih.map (fun a b h => by simpa using h), ?_⟩
        refine List.Pairwise.imp ?_ (List.nodup_range (n := n))
        intro x y hxy l hl hl'
        simp only [List.mem_map] at hl hl'
        obtain ⟨_, _, rfl⟩ := hl
        obtain ⟨_, _, h⟩ := hl'
        simp at h
        exact hxy h.1.symm
    have hr : ravel a.shape (allIdx a.shape)[i] = i := by
      have hl2 : ravel a.shape (allIdx a.shape)[i] < (allIdx a.shape).length := by
        rw [length_allIdx]; exact ravel_lt hm
      rw [List.getElem?_eq_getElem hl2, Option.some_inj] at h1
      exact (List.Nodup.getElem_inj_iff hnd).1 h1
    simp only [Option.map_some, get, hr]
    have hd : i < a.data.length := by rw [a.size_eq]; exact hi
    simp [List.getElem?_eq_getElem hd]
  · rw [List.getElem?_eq_none (by rw [a.size_eq]; omega),
      List.getElem?_eq_none (by rw [List.length_map, length_allIdx]; omega)]

theorem ext_get {a b : NDArray} (hs : a.shape = b.shape)
    (h : ∀ idx, InRange a.shape idx → a.get idx = b.get idx) : a = b := by
  have hd : a.data = b.data := by
    rw [data_eq a, data_eq b, ← hs]
    apply List.map_congr_left
    intro idx hidx
    exact h idx (mem_allIdx.1 hidx)
  cases a; cases b
  simp only at hs hd
  subst hs; subst hd; rfl

theorem tabulate_get (a : NDArray) : tabulate a.shape a.get = a :=
  ext_get rfl fun _ h => get_tabulate _ h

theorem sumAll_eq (a : NDArray) : a.sumAll = ((allIdx a.shape).map a.get).sum := by
  rw [sumAll, data_eq]

@[simp] theorem map_shape (f) (a : NDArray) : (a.map f).shape = a.shape := rfl

theorem get_map (f : ℚ → ℚ) (a : NDArray) {idx : List Nat} (h : InRange a.shape idx) :
    (a.map f).get idx = f (a.get idx) := by
  have hl : ravel a.shape idx < a.data.length := by rw [a.size_eq]; exact ravel_lt h
  simp [get, map, List.getElem?_eq_getElem hl]

@[simp] theorem zeros_shape (s) : (zeros s).shape = s := rfl
@[simp] theorem ones_shape (s) : (ones s).shape = s := rfl
theorem get_zeros {s idx} (h : InRange s idx) : (zeros s).get idx = 0 := get_tabulate _ h
theorem get_ones {s idx} (h : InRange s idx) : (ones s).get idx = 1 := get_tabulate _ h
@[simp] theorem scalar_shape (x) : (scalar x).shape = [] := rfl
@[simp] theorem get_scalar (x) : (scalar x).get [] = x := rfl
@[simp] theorem ofList_shape (l) : (ofList l).shape = [l.length] := rfl
@[simp] theorem get_ofList (l : List ℚ) (i : Nat) : (ofList l).get [i] = l.getD i 0 := by
  simp [get, ofList, ravel]

/-! ### newaxis -/

theorem newaxes_end (a : NDArray) (k : Nat) :
    a.newaxes a.ndim k = .ok (tabulate (a.shape ++ List.replicate k 1)
      fun idx => a.get (idx.take a.ndim ++ idx.drop (a.ndim + k))) := by
  simp [newaxes, ndim]

/-! ### broadcasting -/

/-- two shapes of the same length are compatible, with result `r` -/
inductive BC : List Nat → List Nat → List Nat → Prop
  | nil : BC [] [] []
  | eq {a s t r} : BC s t r → BC (a :: s) (a :: t) (a :: r)
  | left {b s t r} : BC s t r → BC (1 :: s) (b :: t) (b :: r)
  | right {a s t r} : BC s t r → BC (a :: s) (1 :: t) (a :: r)

theorem BC.bshapeRev {s t r} (h : BC s t r) : NDArray.bshapeRev s t = some r := by
  induction h with
  | nil => rfl
  | eq _ ih => simp [NDArray.bshapeRev, ih]
  | @left b s t r _ ih =>
    simp only [NDArray.bshapeRev, ih]
    by_cases h : 1 = b
    · simp [h]
    · simp [h]
  | @right a s t r _ ih =>
    simp only [NDArray.bshapeRev, ih]
    by_cases h : a = 1
    · simp [h]
    · simp [h]

theorem BC.append {s t r s' t' r'} (h : BC s t r) (h' : BC s' t' r') :
    BC (s ++ s') (t ++ t') (r ++ r') := by
  induction h with
  | nil => simpa
  | eq _ ih => exact .eq ih
  | left _ ih => exact .left ih
  | right _ ih => exact .right ih

theorem BC.reverse {s t r} (h : BC s t r) : BC s.reverse t.reverse r.reverse := by
  induction h with
  | nil => exact .nil
  | eq _ ih => simpa using ih.append (.eq .nil)
  | left _ ih => simpa using ih.append (.left .nil)
  | right _ ih => simpa using ih.append (.right .nil)

theorem BC.bshape {s t r} (h : BC s t r) : NDArray.bshape s t = some r := by
  simp [NDArray.bshape, h.reverse.bshapeRev]

theorem bshape_nil_left (t) : bshape [] t = some t := by
  simp [bshape, bshapeRev]

theorem bshape_nil_right (s) : bshape s [] = some s := by
  unfold bshape
  cases h : s.reverse with
  | nil => simp [bshapeRev]; exact List.reverse_eq_nil_iff.1 h
  | cons a l =>
    simp [bshapeRev]
    rw [← List.reverse_reverse s, h]; simp

theorem bidx_of_length {s idx : List Nat} (h : idx.length = s.length) :
    bidx s idx = List.zipWith (fun n i => if n = 1 then 0 else i) s idx := by
  simp [bidx, h]

theorem bidx_self {s idx : List Nat} (h : InRange s idx) : bidx s idx = idx := by
  rw [bidx_of_length h.length_eq]
  induction h with
  | nil => rfl
  | cons h1 _ ih =>
    simp only [List.zipWith_cons_cons, ih]
    congr 1
    split <;> omega

theorem bidx_nil (idx : List Nat) : bidx [] idx = [] := by simp [bidx]

end NDArray
end Primo
