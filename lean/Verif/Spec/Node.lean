import Verif.BN
import Verif.Spec.Sum

/-!
# Specification vocabulary: the table of a single node
-/

namespace Primo

/-- `x` is the label of outcome number `i` (and of no earlier one). -/
def FirstAt (l : List Val) (i : Nat) (x : Val) : Prop := l[i]? = some x ∧ ∀ j < i, l[j]? ≠ some x

namespace NodeV

/-- A node whose table fits its structure: it knows the outcomes `lab p` of its distinct parents,
and its table has an axis for itself (if it has outcomes) and one per parent. -/
structure TableOK (lab : Name → List Val) (n : NodeV) : Prop where
  nodup : n.parentOrder.Nodup
  parents : ∀ p ∈ n.parentOrder, n.parents.get? p = some (lab p)
  shape : n.cpd.shape = (if n.values = [] then [] else [n.values.length]) ++
    n.parentOrder.map fun p => (lab p).length

/-- The table position of own outcome `i` under the parent instantiation `σ`. -/
def cell (n : NodeV) (i : Nat) (σ : Assign) : List Nat :=
  (if n.values = [] then [] else [i]) ++ n.parentOrder.map σ

/-- `i` and `σ` are in range. -/
def LegalCell (lab : Name → List Val) (n : NodeV) (i : Nat) (σ : Assign) : Prop :=
  (n.values ≠ [] → i < n.values.length) ∧ ∀ p ∈ n.parentOrder, σ p < (lab p).length

/-- The parent instantiation `σ` extends the partial assignment `pv` (entries of `pv` for other
variables do not matter). -/
def Extends (lab : Name → List Val) (n : NodeV) (pv : Dict Val) (σ : Assign) : Prop :=
  ∀ p ∈ n.parentOrder, ∀ x, pv.get? p = some x → FirstAt (lab p) (σ p) x

/-- The full state `st` extends the partial assignment `pv` on the parents. -/
def StateExtends (n : NodeV) (pv st : Dict Val) : Prop :=
  ∀ p ∈ n.parentOrder, ∀ x, pv.get? p = some x → st.get? p = some x

/-- every given parent value is an outcome of that parent -/
def KnownValues (lab : Name → List Val) (n : NodeV) (pv : Dict Val) : Prop :=
  ∀ p ∈ n.parentOrder, ∀ x, pv.get? p = some x → x ∈ lab p

/-- every parent is given a value -/
def Full (n : NodeV) (pv : Dict Val) : Prop := ∀ p ∈ n.parentOrder, ∃ x, pv.get? p = some x

end NodeV
end Primo
