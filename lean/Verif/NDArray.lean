import Verif.Py
import Mathlib.Algebra.Order.Field.Rat
import Mathlib.Algebra.BigOperators.Group.List.Basic

/-!
# numpy arrays

An array is a shape and a C-order (row-major) buffer whose length is the product of the shape.
Only the operations used by primo2 are modelled.
-/

namespace Primo

/-- All multi-indices of an array of the given shape, in C order. -/
def allIdx : List Nat → List (List Nat)
  | [] => [[]]
  | n :: s => (List.range n).flatMap fun i => (allIdx s).map (i :: ·)

theorem length_allIdx (s : List Nat) : (allIdx s).length = s.prod := by
  induction s with
  | nil => rfl
  | cons n s ih =>
    simp only [allIdx, List.length_flatMap, List.length_map, ih, List.prod_cons]
    induction n with
    | zero => simp
    | succ n ihn => simp [List.range_succ, Nat.succ_mul]

/-- numpy `ndarray` of numbers (exact rationals instead of IEEE doubles). -/
structure NDArray where
  shape : List Nat
  data : List ℚ
  size_eq : data.length = shape.prod
  deriving DecidableEq

namespace NDArray

/-- position of a multi-index in the C-order buffer -/
def ravel : List Nat → List Nat → Nat
  | _ :: s, i :: is => i * s.prod + ravel s is
  | _, _ => 0

/-- `a[idx]` for a full in-range multi-index. -/
def get (a : NDArray) (idx : List Nat) : ℚ := a.data.getD (ravel a.shape idx) 0

/-- the array of the given shape with entry `f idx` at every index -/
def tabulate (s : List Nat) (f : List Nat → ℚ) : NDArray :=
  ⟨s, (allIdx s).map f, by rw [List.length_map, length_allIdx]⟩

/-- number of axes -/
def ndim (a : NDArray) : Nat := a.shape.length

/-- 0-d array / scalar (Python floats and numpy scalars behave alike in the modelled code). -/
def scalar (x : ℚ) : NDArray := ⟨[], [x], rfl⟩

/-- 1-d array from a list -/
def ofList (l : List ℚ) : NDArray := ⟨[l.length], l, by simp⟩

/-- `np.zeros(shape)` -/
def zeros (s : List Nat) : NDArray := tabulate s fun _ => 0

/-- `np.ones(shape)` -/
def ones (s : List Nat) : NDArray := tabulate s fun _ => 1

/-- `np.sum(a)` over all axes -/
def sumAll (a : NDArray) : ℚ := a.data.sum

/-- elementwise map -/
def map (f : ℚ → ℚ) (a : NDArray) : NDArray := ⟨a.shape, a.data.map f, by simp [a.size_eq]⟩

/-- `a[(:,) * n + (np.newaxis,) * k]`: `k` axes of length 1 after the first `n` axes; too many
slices raise `IndexError`. -/
def newaxes (a : NDArray) (n k : Nat) : Except PyErr NDArray :=
  if a.ndim < n then .error .indexError
  else .ok <| tabulate (a.shape.take n ++ List.replicate k 1 ++ a.shape.drop n)
    fun idx => a.get (idx.take n ++ idx.drop (n + k))

/-- `np.transpose(a, perm)`: axis `j` of the result is axis `perm[j]` of `a`; `ValueError` unless
`perm` is a permutation of the axes. -/
def transpose (a : NDArray) (perm : List Nat) : Except PyErr NDArray :=
  if perm.Nodup ∧ perm.length = a.ndim ∧ ∀ x ∈ perm, x < a.ndim then
    .ok <| tabulate (perm.map fun ax => a.shape.getD ax 0)
      fun idx => a.get ((List.range a.ndim).map fun ax => idx.getD (perm.idxOf ax) 0)
  else .error .valueError

/-- broadcasting of two shapes, written from the last axis to the first (numpy aligns shapes on
the right) -/
def bshapeRev : List Nat → List Nat → Option (List Nat)
  | [], t => some t
  | s, [] => some s
  | a :: s, b :: t =>
    match bshapeRev s t with
    | none => none
    | some r => if a = b then some (a :: r) else if a = 1 then some (b :: r)
        else if b = 1 then some (a :: r) else none

/-- the broadcast shape of two shapes -/
def bshape (s t : List Nat) : Option (List Nat) :=
  (bshapeRev s.reverse t.reverse).map List.reverse

/-- the index into an operand of shape `s` for the broadcast result index `idx` -/
def bidx (s idx : List Nat) : List Nat :=
  List.zipWith (fun n i => if n = 1 then 0 else i) s (idx.drop (idx.length - s.length))

/-- elementwise binary operation with broadcasting; `ValueError` if the shapes do not match -/
def bop (op : ℚ → ℚ → ℚ) (a b : NDArray) : Except PyErr NDArray :=
  match bshape a.shape b.shape with
  | none => .error .valueError
  | some s => .ok <| tabulate s fun idx => op (a.get (bidx a.shape idx)) (b.get (bidx b.shape idx))

/-- `np.sum(a, axis=ax)`; `AxisError` if there is no such axis -/
def sumAxis (a : NDArray) (ax : Nat) : Except PyErr NDArray :=
  if ax < a.ndim then
    .ok <| tabulate (a.shape.eraseIdx ax) fun idx =>
      ((List.range (a.shape.getD ax 0)).map fun i => a.get (idx.insertIdx ax i)).sum
  else .error .axisError

/-- `a[np.ix_(*index)]`: outer indexing with one list of positions per axis; `IndexError` for an
out-of-range position or a wrong number of axes (numpy would leave trailing axes alone; the code
always passes one list per axis). -/
def ix (a : NDArray) (index : List (List Nat)) : Except PyErr NDArray :=
  if index.length = a.ndim ∧ ∀ p ∈ index.zip a.shape, ∀ i ∈ p.1, i < p.2 then
    .ok <| tabulate (index.map List.length) fun idx =>
      a.get (List.zipWith (fun l i => l.getD i 0) index idx)
  else .error .indexError

/-- `np.squeeze(a)`: drop the axes of length 1 (the buffer is unchanged). -/
def squeeze (a : NDArray) : NDArray :=
  ⟨a.shape.filter (· ≠ 1), a.data, by
    rw [a.size_eq]
    induction a.shape with
    | nil => rfl
    | cons n s ih =>
      by_cases h : n = 1
      · simp [h, ih]
      · simp [h, ih]⟩

end NDArray
end Primo
