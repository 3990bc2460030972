import Mathlib.Data.List.Dedup
import Mathlib.Data.List.Nodup
import Mathlib.Data.List.Perm.Basic

/-!
# Python run-time values used by the model

Exceptions (as values), insertion-ordered dictionaries, `list.index`, and the set-iteration
oracle.
-/

namespace Primo

/-- Names of random variables (`RandomNode.name`).  A node and its name are interchangeable as
dictionary keys: `/repo/primo2/nodes.py:43-64` (`__eq__`, `__hash__`). -/
abbrev Name := String

/-- Outcome labels (`DiscreteNode.values`, `/repo/primo2/nodes.py:86`). -/
abbrev Val := String

/-- Exception classes raised by the modelled code (message texts are not modelled). -/
inductive PyErr
  | valueError | keyError | typeError | indexError | attributeError | zeroDivisionError
  | floatingPointError | notImplementedError | recursionError | exception | structureError
  | networkXError | networkXUnfeasible | axisError | runtimeError | osError | syntaxError
  /-- not an exception: the numpy result would contain NaN or an infinity, which `ℚ` cannot hold -/
  | nonFinite
  /-- not an exception: the code stores Python's `None` as the outcome of a variable -/
  | noneValue
  deriving DecidableEq, Repr

/-- `Except` values can be compared (used in concrete examples only). -/
instance {α : Type} [DecidableEq α] : DecidableEq (Except PyErr α) := fun a b =>
  match a, b with
  | .ok x, .ok y => if h : x = y then isTrue (h ▸ rfl) else isFalse (fun e => h (Except.ok.inj e))
  | .error x, .error y =>
      if h : x = y then isTrue (h ▸ rfl) else isFalse (fun e => h (Except.error.inj e))
  | .ok _, .error _ => isFalse (fun e => nomatch e)
  | .error _, .ok _ => isFalse (fun e => nomatch e)

/-- A Python `dict` with string keys in insertion order (CPython ≥ 3.6). -/
abbrev Dict (α : Type) := List (Name × α)

namespace Dict
variable {α : Type}

/-- `d.keys()` in iteration order. -/
def keys (d : Dict α) : List Name := d.map Prod.fst

/-- `d.get(k)` (first and only binding of `k`). -/
def get? (d : Dict α) (k : Name) : Option α :=
  match d with
  | [] => none
  | (k', v) :: d => if k' = k then some v else get? d k

/-- `d[k]`, raising `KeyError`. -/
def getE (d : Dict α) (k : Name) : Except PyErr α :=
  match d.get? k with
  | some v => .ok v
  | none => .error .keyError

/-- `d[k] = v`: overwrite in place or append. -/
def set (d : Dict α) (k : Name) (v : α) : Dict α :=
  match d with
  | [] => [(k, v)]
  | (k', w) :: d => if k' = k then (k', v) :: d else (k', w) :: set d k v

/-- remove the binding of `k`. -/
def erase (d : Dict α) (k : Name) : Dict α :=
  match d with
  | [] => []
  | (k', w) :: d => if k' = k then d else (k', w) :: erase d k

/-- `del d[k]`, raising `KeyError`. -/
def delE (d : Dict α) (k : Name) : Except PyErr (Dict α) :=
  if k ∈ d.keys then .ok (d.erase k) else .error .keyError

end Dict

/-- `l.index(x)`, raising `ValueError`. -/
def pyIndex {α : Type} [DecidableEq α] (l : List α) (x : α) : Except PyErr Nat :=
  if x ∈ l then .ok (l.idxOf x) else .error .valueError

/-- `l.remove(x)`, raising `ValueError`. -/
def pyRemove {α : Type} [DecidableEq α] (l : List α) (x : α) : Except PyErr (List α) :=
  if x ∈ l then .ok (l.erase x) else .error .valueError

/-- The iteration order of the Python set `set(a) - set(b)`.  CPython makes no promise about it
(it depends on the hash seed), so theorems quantify over every `SetOrder`.  The order is a
function of the two lists because within one process it is determined by the hashes and by the
insertion sequences. -/
structure SetOrder where
  diff : List Name → List Name → List Name
  nodup : ∀ a b, (diff a b).Nodup
  mem : ∀ a b x, x ∈ diff a b ↔ x ∈ a ∧ x ∉ b

/-- One possible iteration order (insertion order), used in concrete examples. -/
def SetOrder.insertion : SetOrder where
  diff a b := a.dedup.filter (· ∉ b)
  nodup a b := (List.nodup_dedup a).filter _
  mem a b x := by simp

/-- Another one: reverse insertion order. -/
def SetOrder.reversed : SetOrder where
  diff a b := (a.dedup.filter (· ∉ b)).reverse
  nodup a b := List.nodup_reverse.2 ((List.nodup_dedup a).filter _)
  mem a b x := by simp

end Primo
