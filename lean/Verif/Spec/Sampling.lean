import Verif.Spec.Rand
import Verif.Spec.Joint

/-!
# Specification vocabulary: states of a network and distributions over them
-/

namespace Primo

/-- Every node of the network is a discrete node with distinct outcome names. -/
structure BN.Discrete (bn : BN) : Prop where
  kind : ∀ n ∈ bn, n.kind = .discrete
  labels : ∀ n ∈ bn, n.values.Nodup

/-- The state dictionary `d` describes the instantiation `σ` of the variables `S`. -/
def ReadsOn (bn : BN) (S : List Name) (d : Dict Val) (σ : Assign) : Prop :=
  ∀ v ∈ S, d.get? v = (bn.lab v)[σ v]?

/-- The state dictionary `d` describes the instantiation `σ` of the network. -/
def Reads (bn : BN) (d : Dict Val) (σ : Assign) : Prop := ReadsOn bn bn.names d σ

/-- The random program returns a state that describes `σ`. -/
def Returns (bn : BN) (σ : Assign) (r : Except PyErr (Dict Val)) : Prop :=
  ∃ d, r = .ok d ∧ Reads bn d σ

/-- A topological order: every variable once, parents before children. -/
structure BN.TopoOrder (bn : BN) (l : List Name) : Prop where
  perm : l.Perm bn.names
  parents : ∀ pre v post, l = pre ++ v :: post → ∀ p, bn.IsParent p v → p ∈ pre

/-- hard evidence as the exact algorithms see it -/
def hardEvidence (ev : Dict Val) : Dict Evidence := ev.map fun p => (p.1, .hard p.2)

/-- Legal hard evidence: distinct variables, each observed in one of its outcomes. -/
structure LegalHard (bn : BN) (ev : Dict Val) : Prop where
  nodup : ev.keys.Nodup
  mem : ∀ p ∈ ev, p.1 ∈ bn.names
  label : ∀ p ∈ ev, p.2 ∈ bn.lab p.1

open Classical in
/-- All instantiations of the network (`0` for names that are not variables). -/
noncomputable def states (bn : BN) : Finset Assign :=
  (bn.names.toFinset.pi fun v => Finset.range (bn.card v)).image fun τ v =>
    if h : v ∈ bn.names.toFinset then τ v h else 0

/-- A step that starts in a state distributed as `π` ends in a state distributed as `π`: whatever
dictionary `d σ` describes the state `σ`. -/
def LeavesInvariant (bn : BN) (π : Assign → ℝ)
    (step : Dict Val → Rand (Except PyErr (Dict Val))) : Prop :=
  ∀ d : Assign → Dict Val, (∀ σ, Legal bn.card bn.names σ → Reads bn (d σ) σ) →
    ∀ τ, Legal bn.card bn.names τ →
      ∑ σ ∈ states bn, π σ * (step (d σ)).prob (Returns bn τ) = π τ

/-- A step is reversible with respect to `π`: as many transitions from `σ` to `τ` as back. -/
def Reversible (bn : BN) (π : Assign → ℝ)
    (step : Dict Val → Rand (Except PyErr (Dict Val))) : Prop :=
  ∀ σ τ dσ dτ, Legal bn.card bn.names σ → Legal bn.card bn.names τ → Reads bn dσ σ →
    Reads bn dτ τ → π σ * (step dσ).prob (Returns bn τ) = π τ * (step dτ).prob (Returns bn σ)

/-- The posterior of the full state given hard evidence, as a real number
(the products of table entries alone if they sum to 0). -/
noncomputable def fullPosterior (bn : BN) (ev : Dict Val) (σ : Assign) : ℝ :=
  ((posterior bn (hardEvidence ev) bn.names σ : ℚ) : ℝ)

/-- A legal state: every node has one of its outcomes, every evidence variable its evidence value. -/
def GoodState (bn : BN) (ev : Dict Val) (d : Dict Val) : Prop :=
  (∀ n ∈ bn, ∃ x ∈ n.values, d.get? n.name = some x) ∧
    ∀ v x, ev.get? v = some x → d.get? v = some x

end Primo
