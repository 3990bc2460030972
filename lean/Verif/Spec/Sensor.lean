import Verif.Spec.Fit

/-! # Specification vocabulary: soft evidence as an observed leaf -/

namespace Primo

/-- `bn'` has the nodes of `bn`, with the same outcomes, parents and tables, and one more: `c`, whose only parent
is `v` and which has the outcome `y` with a probability proportional to `l`. -/
structure Sensor (bn bn' : BN) (v c : Name) (y : Val) (l : List ℚ) : Prop where
  names : bn'.names.Perm (c :: bn.names)
  keeps : ∀ n ∈ bn, ∃ m ∈ bn', m.name = n.name ∧ m.values = n.values ∧ m.parentOrder = n.parentOrder ∧ m.cpd = n.cpd
  leaf : ∃ m ∈ bn', m.name = c ∧ m.parentOrder = [v] ∧ y ∈ m.values ∧
    ∃ s : ℚ, 0 < s ∧ ∀ i < bn.card v, m.cpd.get [m.values.idxOf y, i] = s * l.getD i 0

/-- `ev'` says the same as `ev` and in addition gives the likelihoods `l` to the outcomes of `v`. -/
def Joined (bn : BN) (ev ev' : Dict Evidence) (v : Name) (l : List ℚ) : Prop :=
  ∀ u ∈ bn.names, ∀ i < bn.card u, likAt bn ev' u i = likAt bn ev u i * if u = v then l.getD i 0 else 1

/-- observations only, no arrays -/
def AllHard (ev : Dict Evidence) : Prop := ∀ p ∈ ev, ∃ x, p.2 = Evidence.hard x

end Primo
