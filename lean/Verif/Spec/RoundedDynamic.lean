import Verif.Spec.RoundedTree
import Verif.Spec.Dynamic
import Verif.Spec.Moral

/-!
# Specification vocabulary: how roundings accumulate from slice to slice

The bounds are computed from the sizes of the two networks, the transitions, and the number of observations in each
slice.
-/

namespace Primo

/-- Roundings in the ratios of the priors when the slices with the evidence `es` have been left: a transition
carries those of the slice before, and twice those of the answer that becomes the prior.  With a single
transition the number grows linearly with the number of slices. -/
def DBN.drift (d : DBN) (es : List (Dict Evidence)) : Nat :=
  (es.foldl (fun s e => (s.1 + 1, (d.transitions.map fun tr =>
    s.2 + 2 * treeRoundings (d.slice s.1) e.length [tr.2]).sum)) (0, 0)).2

/-- Roundings in the answer to a query for the variables `vs` in the slice after the slices `es` -/
def DBN.filterRoundings (d : DBN) (es : List (Dict Evidence)) (e : Dict Evidence) (vs : List Name) : Nat :=
  treeRoundings (d.slice es.length) e.length vs + d.drift es

/-- the variables that get evidence in slice `k` with soft-evidence feedback -/
def DBN.entered (d : DBN) (k : Nat) (e : Dict Evidence) : List Name :=
  if k = 0 then e.keys else e.keys.filter (fun v => v ∉ d.transitions.map Prod.fst) ++ d.transitions.map Prod.fst

/-- Roundings that the evidence in slice `k` brings: twice those of the old marginal of each variable, and four more
(`softRoundings`) -/
def DBN.entryRoundings (d : DBN) (k : Nat) (e : Dict Evidence) : Nat :=
  ((d.entered k e).map fun v => 2 * treeRoundings (d.slice k) 0 [v] + 4).sum

/-- Roundings in the ratios of the arrays that are carried over when the slices with the evidence `es` have been left -/
def DBN.softDrift (d : DBN) (es : List (Dict Evidence)) : Nat :=
  (es.foldl (fun s e => (s.1 + 1, (d.transitions.map fun tr =>
    s.2 + 2 * treeRoundings (d.slice s.1) (d.entryRoundings s.1 e) [tr.2]).sum)) (0, 0)).2

/-- Roundings in the answer to a query for the variables `vs` in the slice after the slices `es`, with soft-evidence
feedback -/
def DBN.softFilterRoundings (d : DBN) (es : List (Dict Evidence)) (e : Dict Evidence) (vs : List Name) : Nat :=
  treeRoundings (d.slice es.length) (d.entryRoundings es.length e) vs + d.softDrift es

/-- The query `q` in state `s` returns, for variables inside one family, the posterior of `net` under the evidence `e`
up to `k` roundings in each entry, and changes nothing. -/
def AnswersNear {S : Type} (u : ℚ) (k : List Name → Nat) (q : SetOrder → Nat → List Name → S × Except PyErr Factor)
    (s : S) (net : BN) (e : Dict Evidence) : Prop :=
  ∀ n ∈ net, ∀ vs, (∀ v ∈ vs, v ∈ n.family) → ∀ so limit, ∃ r, q so limit vs = (s, .ok r) ∧
    r.WF net.card ∧ (∀ v ∈ r.variableOrder, r.values.get? v = some (net.lab v)) ∧
    (∀ v, v ∈ r.variableOrder ↔ v ∈ vs) ∧
    ∀ σ, Legal net.card vs σ → Near u (k vs) (r.eval σ) (posterior net e vs σ)

/-- `marginal_probabilities` returns each outcome of the variable with its posterior up to `k` roundings. -/
def AnswersDictNear {S : Type} (u : ℚ) (k : List Name → Nat) (q : SetOrder → Nat → Name → S × Except PyErr (Dict ℚ))
    (s : S) (net : BN) (e : Dict Evidence) : Prop :=
  ∀ v ∈ net.names, ∀ so limit, ∃ ps : List ℚ, q so limit v = (s, .ok ((net.lab v).zip ps)) ∧
    List.Forall₂ (Near u (k [v])) ps ((List.range (net.card v)).map fun i => posterior net e [v] fun _ => i)

end Primo
