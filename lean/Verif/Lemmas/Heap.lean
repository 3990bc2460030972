import Verif.Heap
import Verif.Lemmas.NDArray
import Verif.Lemmas.Py

/-! # The memory model: extension, ownership, and what the primitives do -/

namespace Primo

/-! ## views -/

theorem pos_cStrides : ∀ {s idx : List Nat}, idx.length = s.length →
    (List.zipWith (· * ·) idx (cStrides s)).sum = NDArray.ravel s idx
  | [], [], _ => rfl
  | n :: s, i :: idx, h => by
    simp only [cStrides, List.zipWith_cons_cons, List.sum_cons, NDArray.ravel]
    rw [pos_cStrides (by simpa using h)]

theorem length_cStrides (s : List Nat) : (cStrides s).length = s.length := by
  induction s with
  | nil => rfl
  | cons n s ih => simp [cStrides, ih]

namespace Heap

/-- the view shows a C-order array that fills its buffer -/
structure Contig (h : Heap) (v : View) (a : NDArray) : Prop where
  lt : v.buf < h.bufs.length
  strides : v.strides = cStrides v.shape
  shape : v.shape = a.shape
  data : h.buf v.buf = a.data

@[simp] theorem view_shape (h : Heap) (v : View) : (h.view v).shape = v.shape := rfl

theorem view_get (h : Heap) (v : View) {idx : List Nat} (hr : InRange v.shape idx) :
    (h.view v).get idx = (h.buf v.buf).getD (v.pos idx) 0 := NDArray.get_tabulate _ hr

theorem Contig.view {h : Heap} {v : View} {a : NDArray} (c : h.Contig v a) : h.view v = a := by
  refine NDArray.ext_get c.shape fun idx hr => ?_
  rw [view_shape] at hr
  rw [view_get h v hr, View.pos, c.strides, pos_cStrides hr.length_eq, c.data, NDArray.get, c.shape]

/-- a view that can be read -/
structure ViewOk (h : Heap) (v : View) : Prop where
  lt : v.buf < h.bufs.length
  length : v.strides.length = v.shape.length

theorem Contig.ok {h : Heap} {v : View} {a : NDArray} (c : h.Contig v a) : h.ViewOk v :=
  ⟨c.lt, by rw [c.strides, length_cStrides]⟩

theorem sum_zipWith_zero : ∀ (k : Nat) (l : List Nat),
    (List.zipWith (· * ·) l (List.replicate k 0)).sum = 0
  | 0, l => by simp
  | k + 1, [] => by simp
  | k + 1, x :: l => by simp [List.replicate_succ, sum_zipWith_zero k l]

theorem forall₂_append_split {R : Nat → Nat → Prop} : ∀ {a b c d : List Nat},
    a.length = c.length → List.Forall₂ R (a ++ b) (c ++ d) → List.Forall₂ R a c ∧ List.Forall₂ R b d
  | [], _, [], _, _, h => ⟨.nil, h⟩
  | x :: a, b, y :: c, d, hl, h => by
    cases h with
    | cons h1 h2 =>
      obtain ⟨ha, hb⟩ := forall₂_append_split (a := a) (c := c) (by simpa using hl) h2
      exact ⟨.cons h1 ha, hb⟩

theorem forall₂_append_join {R : Nat → Nat → Prop} : ∀ {a b c d : List Nat},
    List.Forall₂ R a c → List.Forall₂ R b d → List.Forall₂ R (a ++ b) (c ++ d)
  | _, _, _, _, .nil, h => h
  | _, _, _, _, .cons h1 h2, h => .cons h1 (forall₂_append_join h2 h)

theorem sum_zipWith_append {a b c d : List Nat} (h : a.length = c.length) :
    (List.zipWith (· * ·) (a ++ b) (c ++ d)).sum =
      (List.zipWith (· * ·) a c).sum + (List.zipWith (· * ·) b d).sum := by
  rw [List.zipWith_append h, List.sum_append]

/-- new axes of length one are read with stride 0 -/
theorem view_newaxes (h : Heap) {v : View} (hl : v.strides.length = v.shape.length) {n : Nat}
    (hn : n ≤ v.shape.length) (k : Nat) :
    (h.view v).newaxes n k = .ok (h.view ⟨v.buf,
      v.shape.take n ++ List.replicate k 1 ++ v.shape.drop n,
      v.strides.take n ++ List.replicate k 0 ++ v.strides.drop n⟩) := by
  unfold NDArray.newaxes
  rw [if_neg (by simpa [NDArray.ndim, view] using hn)]
  congr 1
  refine NDArray.ext_get rfl fun idx hr => ?_
  change InRange (v.shape.take n ++ List.replicate k 1 ++ v.shape.drop n) idx at hr
  rw [view_shape, NDArray.get_tabulate _ hr]
  rw [view_get h ⟨v.buf, _, _⟩ hr]
  have hlen := hr.length_eq
  rw [List.length_append, List.length_append, List.length_take, List.length_replicate,
    List.length_drop, min_eq_left hn] at hlen
  -- the index without the new axes is in range
  have hsplit : idx = idx.take n ++ (idx.drop n).take k ++ idx.drop (n + k) := by
    rw [List.append_assoc, ← List.drop_drop, List.take_append_drop, List.take_append_drop]
  have h1 : (idx.take n).length = (v.shape.take n).length := by
    rw [List.length_take, List.length_take]; omega
  have h2 : ((idx.drop n).take k).length = (List.replicate k 1).length := by
    rw [List.length_take, List.length_drop, List.length_replicate]; omega
  have hr' : InRange v.shape (idx.take n ++ idx.drop (n + k)) := by
    unfold InRange at hr ⊢
    rw [hsplit] at hr
    obtain ⟨h12, h3⟩ := forall₂_append_split (by rw [List.length_append, List.length_append, h1, h2]) hr
    have := forall₂_append_join (forall₂_append_split h1 h12).1 h3
    rwa [List.take_append_drop] at this
  rw [view_get h v hr']
  congr 1
  unfold View.pos
  dsimp only
  conv_rhs => rw [hsplit]
  have l1 : (idx.take n).length = (v.strides.take n).length := by
    rw [List.length_take, List.length_take, hl]; omega
  have l2 : ((idx.drop n).take k).length = (List.replicate k 0).length := by
    rw [List.length_take, List.length_drop, List.length_replicate]; omega
  rw [sum_zipWith_append (by rw [List.length_append, List.length_append, l1, l2]),
    sum_zipWith_append l1, sum_zipWith_zero]
  conv_lhs => rw [← List.take_append_drop n v.strides, sum_zipWith_append l1]
  omega

/-- transposing permutes the strides -/
theorem view_transpose (h : Heap) {v : View} (hl : v.strides.length = v.shape.length)
    {perm : List Nat} (hp : perm.Nodup ∧ perm.length = v.shape.length ∧ ∀ x ∈ perm, x < v.shape.length) :
    (h.view v).transpose perm = .ok (h.view ⟨v.buf, perm.map fun ax => v.shape.getD ax 0,
      perm.map fun ax => v.strides.getD ax 0⟩) := by
  obtain ⟨hnd, hlen, hlt⟩ := hp
  unfold NDArray.transpose
  rw [if_pos ⟨hnd, hlen, hlt⟩]
  congr 1
  refine NDArray.ext_get rfl fun idx hr => ?_
  change InRange (perm.map fun ax => v.shape.getD ax 0) idx at hr
  rw [view_shape, NDArray.get_tabulate _ hr]
  rw [view_get h ⟨v.buf, _, _⟩ hr]
  have hil : idx.length = perm.length := by rw [hr.length_eq, List.length_map]
  have hperm : perm.Perm (List.range v.shape.length) :=
    ((List.subperm_of_subset hnd fun x hx => List.mem_range.2 (hlt x hx)).perm_of_length_le
      (by rw [List.length_range, hlen]))
  have hidx : idx = perm.map fun ax => idx.getD (perm.idxOf ax) 0 := by
    refine List.ext_getElem (by simp [hil]) fun i h1 h2 => ?_
    rw [List.getElem_map, hnd.idxOf_getElem]
    simp [h1]
  have hr' : InRange v.shape ((List.range v.shape.length).map fun ax => idx.getD (perm.idxOf ax) 0) := by
    unfold InRange at hr ⊢
    rw [List.forall₂_iff_get] at hr ⊢
    refine ⟨by simp, fun i h1 h2 => ?_⟩
    have him : i ∈ perm := hperm.mem_iff.2 (List.mem_range.2 h2)
    have hlt' := List.idxOf_lt_length_of_mem him
    have := hr.2 (perm.idxOf i) (by omega) (by simpa using hlt')
    simpa [h2, hil, hlt'] using this
  change (h.view v).get ((List.range v.shape.length).map fun ax => idx.getD (perm.idxOf ax) 0) = _
  rw [view_get h v hr']
  congr 1
  unfold View.pos
  dsimp only
  have hs : v.strides = (List.range v.shape.length).map fun ax => v.strides.getD ax 0 := by
    refine List.ext_getElem (by simp [hl]) fun i h1 h2 => ?_
    simp [h1]
  have key : ∀ l : List Nat, (List.zipWith (· * ·) (l.map fun ax => idx.getD (perm.idxOf ax) 0)
      (l.map fun ax => v.strides.getD ax 0)).sum =
      (l.map fun ax => idx.getD (perm.idxOf ax) 0 * v.strides.getD ax 0).sum := by
    intro l
    rw [List.zipWith_map, List.zipWith_self]
  conv_rhs => rw [hidx]
  rw [key perm, (hperm.map _).sum_eq, ← key]
  conv_lhs => rw [hs]

end Heap
end Primo
