import Verif.Spec.Converge
import Verif.Spec.Fit

/-!
# Specification vocabulary: estimates from independent samples

The library has no function that does this; the two programs below are what a client writes with `get_sample`
(`networks.py:160-170`) and `Factor.from_samples` (`factor.py:283-322`), in the way `MCMC.marginals` (`mcmc.py:76-83`)
uses them, without the Markov chain in between.
-/

namespace Primo

/-- `[bn.get_sample(evidence) for _ in range(N)]` -/
noncomputable def BN.draw (bn : BN) (ev : Dict Val) : Nat → Rand (Except PyErr (List (Dict Val)))
  | 0 => .pure (.ok [])
  | N + 1 => Rand.andThen (bn.getSample ev) fun d => Rand.andThen (bn.draw ev N) fun ds => .pure (.ok (d :: ds))

/-- `Factor.from_samples([bn.get_sample(evidence) for _ in range(N)], {v: bn.get_node(v).values for v in vars})` -/
noncomputable def BN.forwardEstimate (bn : BN) (N : Nat) (vars : List Name) (ev : Dict Val) :
    Rand (Except PyErr Factor) :=
  Rand.andThen (bn.draw ev N) fun samples =>
  Rand.andThen (.lift (Mcmc.variableValues bn vars)) fun vv =>
  .lift (Factor.fromSamples samples vv)

/-- The random program returns a state that describes `σ` as far as the variables `vars` are concerned. -/
def ReturnsOn (bn : BN) (vars : List Name) (σ : Assign) (r : Except PyErr (Dict Val)) : Prop :=
  ∃ d, r = .ok d ∧ ReadsOn bn vars d σ

/-- The result is a table over `vars` whose entries differ from `p` by less than `ε`. -/
def CloseToLaw (bn : BN) (vars : List Name) (p : Assign → ℝ) (ε : ℝ) (r : Except PyErr Factor) : Prop :=
  ∃ f, r = .ok f ∧ (∀ v, v ∈ f.variableOrder ↔ v ∈ vars) ∧
    ∀ σ, Legal bn.card vars σ → |((f.eval σ : ℚ) : ℝ) - p σ| < ε

/-- The distribution of the variables `vars` if the outcomes `ev` are brought about from outside: the tables of the
variables `ev` speaks about are left out. -/
def BN.forced (bn : BN) (ev : Dict Val) (vars : List Name) (σ : Assign) : ℚ :=
  sumOver bn.card (bn.names.toFinset \ vars.toFinset) (fun τ =>
    ((bn.filter fun n => n.name ∉ ev.keys).map fun n => n.entry τ).prod * evLik bn (hardEvidence ev) τ) σ

/-- With a variable its parents are observed. -/
def BN.Upward (bn : BN) (ev : Dict Val) : Prop :=
  ∀ n ∈ bn, n.name ∈ ev.keys → ∀ p ∈ n.parentOrder, p ∈ ev.keys

end Primo
