import Verif.Spec.Soft

/-!
# Specification vocabulary: target distributions for several variables at once
-/

namespace Primo

/-- the dict `{v: q[v] for v in vs}` of target distributions -/
def targets (vs : List Name) (q : Name → List ℚ) : Dict Evidence := vs.map fun v => (v, .soft (q v))

/-- `q` is a distribution over the outcomes of `v` that gives nothing to outcomes which are impossible
a priori. -/
structure BN.Target (bn : BN) (v : Name) (q : List ℚ) : Prop where
  length : q.length = bn.card v
  nonneg : ∀ x ∈ q, 0 ≤ x
  sum : q.sum = 1
  support : ∀ i < bn.card v, priorAt bn v i = 0 → q.getD i 0 = 0

/-- the prior of `v` as an array -/
def BN.priorList (bn : BN) (v : Name) : List ℚ := (List.range (bn.card v)).map (priorAt bn v)

/-- The variables are independent without evidence: their joint probabilities are the products of their
single ones. -/
def BN.Independent (bn : BN) (vs : List Name) : Prop :=
  ∀ σ, Legal bn.card vs σ → posterior bn [] vs σ = (vs.map fun v => priorAt bn v (σ v)).prod

/-- Each variable has the distribution asked for once all arrays act as likelihoods `array / prior`. -/
def BN.Met (bn : BN) (vs : List Name) (q : Name → List ℚ) : Prop :=
  ∀ v ∈ vs, ∀ i < bn.card v, posterior bn (softened bn (targets vs q)) [v] (fun _ => i) = (q v).getD i 0

end Primo
