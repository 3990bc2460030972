import Verif.Spec.Sampling
import Mathlib.Logic.Relation

/-! # Specification vocabulary: convergence of the samplers -/

namespace Primo

/-- The instantiation `σ` agrees with the evidence. -/
def Agrees (bn : BN) (ev : Dict Val) (σ : Assign) : Prop :=
  ∀ v x, ev.get? v = some x → (bn.lab v)[σ v]? = some x

/-- Every instantiation that agrees with the evidence has positive probability. -/
def PositiveGiven (bn : BN) (ev : Dict Val) : Prop :=
  ∀ σ, Legal bn.card bn.names σ → Agrees bn ev σ → 0 < joint bn σ

/-- The instantiation `σ` agrees with the evidence and has positive probability. -/
def Possible (bn : BN) (ev : Dict Val) (σ : Assign) : Prop :=
  Legal bn.card bn.names σ ∧ Agrees bn ev σ ∧ 0 < joint bn σ

/-- `σ` and `τ` differ in one variable at most. -/
def OneChange (bn : BN) (σ τ : Assign) : Prop := ∃ v, ∀ w ∈ bn.names, w ≠ v → τ w = σ w

/-- Any two possible instantiations are joined by a chain of possible ones, each of which differs
from the one before in one variable at most. -/
def Connected (bn : BN) (ev : Dict Val) : Prop :=
  ∀ σ τ, Possible bn ev σ → Possible bn ev τ →
    Relation.ReflTransGen (fun a b => Possible bn ev b ∧ OneChange bn a b) σ τ

/-- Every instantiation that agrees with the evidence and whose unobserved variables have positive
probability given their parents has positive probability: what forward sampling may return does not
contradict the evidence. -/
def StartsPossible (bn : BN) (ev : Dict Val) : Prop :=
  ∀ σ, Legal bn.card bn.names σ → Agrees bn ev σ →
    (∀ n ∈ bn, n.name ∉ ev.keys → 0 < n.entry σ) → 0 < joint bn σ

/-- The state dictionary `d` describes a possible instantiation. -/
def PossibleState (bn : BN) (ev : Dict Val) (d : Dict Val) : Prop :=
  ∃ σ, Possible bn ev σ ∧ Reads bn d σ

/-- The instantiation `σ` is impossible because of the table of `n` or of one of its children. -/
def LocallyImpossible (bn : BN) (n : NodeV) (σ : Assign) : Prop :=
  ∃ m ∈ bn, (m = n ∨ n.name ∈ m.parentOrder) ∧ m.entry σ = 0

/-- Gibbs sampling of `n` can turn `σ` into `τ`: `n` gets an outcome that its table and those of its
children allow, or its first outcome if there is none. -/
def GibbsMove (bn : BN) (n : NodeV) (σ τ : Assign) : Prop :=
  ∃ b < bn.card n.name, τ = Function.update σ n.name b ∧ (¬ LocallyImpossible bn n τ ∨
    (∀ a < bn.card n.name, LocallyImpossible bn n (Function.update σ n.name a)) ∧ b = 0)

/-- Gibbs sampling of the nodes of a list one after the other can turn `σ` into `τ`. -/
def GibbsSweep (bn : BN) : List NodeV → Assign → Assign → Prop
  | [], σ, τ => σ = τ
  | n :: ns, σ, τ => ∃ ρ, GibbsMove bn n σ ρ ∧ GibbsSweep bn ns ρ τ

/-- A step of the Gibbs sampler (all unobserved variables, or one of them) can turn `σ` into `τ`. -/
def GibbsStep (bn : BN) (ev : Dict Val) (full : Bool) (σ τ : Assign) : Prop :=
  if full then GibbsSweep bn (bn.filter fun n => n.name ∉ ev.keys) σ τ
  else ∃ n ∈ bn, n.name ∉ ev.keys ∧ GibbsMove bn n σ τ

/-- Forward sampling with the evidence `ev` can return `σ`. -/
def Start (bn : BN) (ev : Dict Val) (σ : Assign) : Prop :=
  Legal bn.card bn.names σ ∧ Agrees bn ev σ ∧ ∀ n ∈ bn, n.name ∉ ev.keys → 0 < n.entry σ

/-- Wherever Gibbs sampling gets from the instantiations that forward sampling returns, it can still
get to a possible one. -/
def Escapes (bn : BN) (ev : Dict Val) (full : Bool) : Prop :=
  ∀ σ, Start bn ev σ → ∀ ρ, Relation.ReflTransGen (GibbsStep bn ev full) σ ρ →
    ∃ τ, Possible bn ev τ ∧ Relation.ReflTransGen (GibbsStep bn ev full) ρ τ

/-- All table entries are positive. -/
def BN.Positive (bn : BN) : Prop := ∀ n ∈ bn, ∀ x ∈ n.cpd.data, 0 < x

/-- The result is a table whose entries differ from the posterior by less than `ε`. -/
def CloseTo (bn : BN) (ev : Dict Val) (vars : List Name) (ε : ℝ) (r : Except PyErr Factor) : Prop :=
  ∃ f, r = .ok f ∧ (∀ v, v ∈ f.variableOrder ↔ v ∈ vars) ∧
    ∀ σ, Legal bn.card vars σ →
      |((f.eval σ : ℚ) : ℝ) - ((posterior bn (hardEvidence ev) vars σ : ℚ) : ℝ)| < ε

/-- The estimate of `MCMC.marginals` converges in probability to the posterior, whatever the
burn-in. -/
def Consistently (bn : BN) (tm : Mcmc.Transition) (full : Bool) (evidence : Option (Dict Val))
    (vars : List Name) : Prop :=
  ∀ ε > 0, ∀ q < 1, ∀ burnIn, ∃ N₀, ∀ N ≥ N₀,
    q ≤ (Mcmc.marginals bn ⟨tm, burnIn, full⟩ N vars evidence).prob
      (CloseTo bn (evidence.getD []) vars ε)

end Primo
