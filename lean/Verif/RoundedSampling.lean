import Verif.Rounded
import Verif.Sampling

/-!
# Sampling with rounded arithmetic and random numbers of finite precision

`Verif.Sampling` computes with exact rational numbers and draws real numbers from `[0, 1)`.  Here the
same functions take the arithmetic `A` (see `Verif.Rounded`) and the number `N` of different results
of `random.random()` as parameters.  CPython returns `k / 2⁵³` for each `k < 2⁵³` with the same
probability, so `N = 2⁵³` there.  Two things stay exact: numbers read from the tables, and the counts
of `from_samples` (whole numbers below `2⁵³` are exact as doubles).
-/

namespace Primo

/-- `random.random()` -/
def Rand.grid {α : Type} (N : Nat) (f : ℚ → Rand α) : Rand α :=
  .choice N fun k => f ((k : ℚ) / (N : ℚ))

/-- The roulette wheel `nodes.py:385-390`, see `roulette`. -/
def rouletteR (A : Arith) : List (Val × ℚ) → ℚ → ℚ → Option Val
  | [], _, _ => none
  | (v, w) :: l, s, r => if r ≤ A.add s w then some v else rouletteR A l (A.add s w) r

namespace NodeV

/-- `get_markov_prob`: `nodes.py:317-349`, see `markovProb`. -/
def markovProbR (A : Arith) (n : NodeV) (outcome : Val) (children : List NodeV) (state : Dict Val)
    (forward : Bool) : Except PyErr ℚ := do
  let p ← n.getSingle outcome state
  if forward then return p
  else children.foldlM (fun prob c => do
    let x ← state.getE c.name
    let q ← c.getSingle x state
    return A.mul prob q) p

/-- the weights of the outcomes: `nodes.py:378-382` -/
def weightsR (A : Arith) (n : NodeV) (state : Dict Val) (children : List NodeV) (forward : Bool) :
    Except PyErr (List ℚ) :=
  n.values.mapM fun o => n.markovProbR A o children (state.set n.name o) forward

/-- `sample_value`: `nodes.py:351-390`.  Python's `sum` adds from left to right, starting with 0, as
the loop does. -/
def sampleValueR (A : Arith) (N : Nat) (n : NodeV) (state : Dict Val) (children : List NodeV)
    (forward : Bool) : Rand (Except PyErr (Option Val)) :=
  if n.kind ≠ .discrete then .pure (.error .attributeError) else
    Rand.andThen (.lift (n.weightsR A state children forward)) fun ws =>
      .grid N fun x => .pure (.ok (rouletteR A (n.values.zip ws) 0 (A.mul x (ws.foldl A.add 0))))

/-- `state[n.name] = n.sample_value(state, children, forward)`, see `resample`. -/
def resampleR (A : Arith) (N : Nat) (n : NodeV) (state : Dict Val) (children : List NodeV)
    (forward : Bool) : Rand (Except PyErr (Dict Val)) :=
  Rand.andThen (n.sampleValueR A N state children forward) fun r => match r with
    | none => .pure (.error .noneValue)
    | some x => .pure (.ok (state.set n.name x))

end NodeV

namespace BN

/-- the loop `networks.py:165-168`, see `sampleAlong` -/
def sampleAlongR (A : Arith) (N : Nat) (bn : BN) (evidence : Dict Val) :
    List Name → Option PyErr → Dict Val → Rand (Except PyErr (Dict Val))
  | [], none, sample => .pure (.ok sample)
  | [], some e, _ => .pure (.error e)
  | v :: order, e, sample =>
    if v ∈ evidence.keys then sampleAlongR A N bn evidence order e sample
    else Rand.andThen (.lift (bn.getNode v)) fun n =>
      Rand.andThen (n.resampleR A N sample (bn.childNodes n) true) fun sample =>
        sampleAlongR A N bn evidence order e sample

/-- `get_sample`: `networks.py:160-170`. -/
def getSampleR (A : Arith) (N : Nat) (bn : BN) (evidence : Dict Val) :
    Rand (Except PyErr (Dict Val)) :=
  sampleAlongR A N bn evidence bn.topologicalSort.1 bn.topologicalSort.2 evidence

end BN

/-- `from_samples`: `factor.py:282-322`; only the division `factor.py:321` is rounded. -/
def Factor.fromSamplesR (A : Arith) (samples : List (Dict Val)) (variableValues : Dict (List Val)) :
    Except PyErr Factor := do
  let zero : Factor := ⟨NDArray.zeros (variableValues.map fun p => p.2.length),
    variableValues.keys, variableValues⟩
  let res ← samples.foldlM countSample zero
  let s := res.potentials.sumAll
  if s = 0 then .error .nonFinite
  else return { res with potentials := res.potentials.map fun x => A.div x s }

namespace Mcmc

/-- one change of Gibbs sampling: `mcmc.py:187-188, 191` -/
def gibbsSiteR (A : Arith) (N : Nat) (bn : BN) (n : NodeV) (state : Dict Val) :
    Rand (Except PyErr (Dict Val)) :=
  n.resampleR A N state (bn.childNodes n) false

/-- `min(1.0, proposedProb/currentProb)`: `mcmc.py:227, 238`, see `accept`. -/
def acceptR (A : Arith) (p c : ℚ) : ℚ :=
  if c = 0 then if p < 0 then -1 else 1 else min 1 (A.div p c)

/-- one change of Metropolis-Hastings: `mcmc.py:220-229, 232-241` -/
def mhSiteR (A : Arith) (N : Nat) (bn : BN) (n : NodeV) (state : Dict Val) :
    Rand (Except PyErr (Dict Val)) :=
  if n.kind ≠ .discrete then .pure (.error .attributeError) else
  Rand.andThen (.lift (state.getE n.name)) fun current =>
  Rand.andThen n.sampleLocal fun proposed =>
  Rand.andThen (.lift (n.markovProbR A proposed (bn.childNodes n) (state.set n.name proposed) false))
    fun p =>
  Rand.andThen (.lift (n.markovProbR A current (bn.childNodes n) state false)) fun c =>
  .grid N fun x => .pure (.ok (if x ≤ acceptR A p c then state.set n.name proposed else state))

/-- `step` of the transition models: `mcmc.py:160-161, 165-193, 198-243`. -/
def stepR (A : Arith) (N : Nat) (tm : Transition) (bn : BN) (vars : List NodeV) (full : Bool)
    (state : Dict Val) : Rand (Except PyErr (Dict Val)) :=
  match tm with
  | .base => .pure (.error .notImplementedError)
  | .gibbs => siteStep (gibbsSiteR A N bn) vars full state
  | .metropolisHastings => siteStep (mhSiteR A N bn) vars full state

/-- all states yielded by `generate_markov_chain`: `mcmc.py:117-153`. -/
noncomputable def Sampler.generateR (A : Arith) (N : Nat) (s : Sampler) (bn : BN) (numSamples : Nat)
    (initialState : Dict Val) (evidence : Option (Dict Val)) :
    Rand (Except PyErr (List (Dict Val))) :=
  Rand.andThen (.lift (variablesToChange bn evidence)) fun vars =>
  Rand.andThen (burn (stepR A N s.transitionModel bn vars s.fullChange) s.burnIn initialState)
    fun state => collect (stepR A N s.transitionModel bn vars s.fullChange) numSamples state

/-- `MCMC.marginals`: `mcmc.py:56-84`. -/
noncomputable def marginalsR (A : Arith) (N : Nat) (bn : BN) (s : Sampler) (numSamples : Nat)
    (vars : List Name) (evidence : Option (Dict Val)) : Rand (Except PyErr Factor) :=
  let ev := evidence.getD []
  Rand.andThen (bn.getSampleR A N ev) fun initial =>
  Rand.andThen (.lift (variableValues bn vars)) fun vv =>
  Rand.andThen (s.generateR A N bn numSamples initial (some ev)) fun chain =>
  .lift (Factor.fromSamplesR A chain vv)

end Mcmc
end Primo
