import Verif.Spec.Joint

/-! # Specification vocabulary: likelihoods of evidence -/

namespace Primo

/-- the product of the likelihoods that the evidence gives to the outcomes in `σ` -/
def evLik (bn : BN) (ev : Dict Evidence) (σ : Assign) : ℚ :=
  (ev.map fun p => lik (bn.lab p.1) p.2 (σ p.1)).prod

/-- the likelihood the evidence gives to outcome `i` of `v`; one if it says nothing about `v` -/
def likAt (bn : BN) (ev : Dict Evidence) (v : Name) (i : Nat) : ℚ :=
  match ev.get? v with
  | some e => lik (bn.lab v) e i
  | none => 1

/-- the likelihoods of every variable are the same up to a positive factor -/
def SameUpToScale (bn : BN) (ev ev' : Dict Evidence) : Prop :=
  ∀ v ∈ bn.names, ∃ c : ℚ, 0 < c ∧ ∀ i < bn.card v, likAt bn ev' v i = c * likAt bn ev v i

end Primo
