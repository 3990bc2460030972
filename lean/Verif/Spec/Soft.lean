import Verif.Spec.Joint

/-!
# Specification vocabulary: evidence given as posterior marginals

A distribution `e` that a variable shall have once it is observed acts as the likelihood
`e i / prior i`.
-/

namespace Primo

/-- the marginal of `v` without evidence at its outcome number `i` -/
def priorAt (bn : BN) (v : Name) (i : Nat) : ℚ := posterior bn [] [v] fun _ => i

/-- the likelihood that turns the prior of `v` into `e` -/
def ratio (bn : BN) (v : Name) (e : List ℚ) : List ℚ :=
  (List.range (bn.card v)).map fun i => if priorAt bn v i = 0 then 0 else e.getD i 0 / priorAt bn v i

/-- every array replaced by that likelihood; observed outcomes stay -/
def softened (bn : BN) (ev : Dict Evidence) : Dict Evidence :=
  ev.map fun p => (p.1, match p.2 with
    | .hard x => .hard x
    | .soft e => .soft (ratio bn p.1 e))

/-- Arrays that can be posterior marginals: non-negative, not all zero, and zero where the prior is. -/
def Supported (bn : BN) (ev : Dict Evidence) : Prop := ∀ v e, (v, Evidence.soft e) ∈ ev →
  (∀ x ∈ e, 0 ≤ x) ∧ (∃ x ∈ e, x ≠ 0) ∧ ∀ i < bn.card v, priorAt bn v i = 0 → e.getD i 0 = 0

end Primo
