import Verif.Spec.Fit

/-! # Specification vocabulary: tables and evidence that are close to each other -/

namespace Primo

/-- The two networks have the same variables with the same outcomes, and the entries of the table of `v` in
`bn'` are at least `lo v` times and at most `hi v` times those in `bn`.  The graphs may differ. -/
structure TablesWithin (bn bn' : BN) (lo hi : Name → ℚ) : Prop where
  names : bn.names.Perm bn'.names
  labels : ∀ v ∈ bn.names, bn'.lab v = bn.lab v
  factors : ∀ v ∈ bn.names, 0 < lo v ∧ lo v ≤ hi v
  entries : ∀ n ∈ bn, ∀ n' ∈ bn', n.name = n'.name → ∀ σ, Legal bn.card bn.names σ →
    lo n.name * n.entry σ ≤ n'.entry σ ∧ n'.entry σ ≤ hi n.name * n.entry σ

/-- the likelihood of every outcome of `v` is at least `lo v` times and at most `hi v` times what it was -/
def EvidenceWithin (bn bn' : BN) (ev ev' : Dict Evidence) (lo hi : Name → ℚ) : Prop :=
  ∀ v ∈ bn.names, 0 < lo v ∧ lo v ≤ hi v ∧ ∀ i < bn.card v,
    lo v * likAt bn ev v i ≤ likAt bn' ev' v i ∧ likAt bn' ev' v i ≤ hi v * likAt bn ev v i

/-- the product of the ratios of the factors -/
def slack (vs : List Name) (lo hi : Name → ℚ) : ℚ := (vs.map fun v => hi v / lo v).prod

end Primo
