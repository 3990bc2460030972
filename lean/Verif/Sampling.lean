import Verif.Node
import Mathlib.Data.Real.Basic

/-!
# Sampling: `primo2/nodes.py:351-407`, `primo2/networks.py:160-170`, `primo2/inference/mcmc.py`

A program that calls Python's `random` module is a tree `Rand` that branches on the numbers drawn.
`random.random()` is idealised to a real number of `[0, 1)`; `random.choice` picks each position of
its argument with the same probability.  What the tree means (all outcomes, probabilities) is
defined in `Verif.Spec.Rand`.
-/

namespace Primo

/-- A program with calls of `random.choice` on a sequence of `n` elements and of
`random.random()`. -/
inductive Rand (α : Type) : Type
  | pure (a : α)
  | choice (n : Nat) (k : Nat → Rand α)
  | uniform (k : ℝ → Rand α)

namespace Rand
variable {α β : Type}

/-- run `m`, then `f` on its result -/
def bind (m : Rand α) (f : α → Rand β) : Rand β :=
  match m with
  | .pure a => f a
  | .choice n k => .choice n fun i => (k i).bind f
  | .uniform k => .uniform fun u => (k u).bind f

/-- run `m`; if it raises, so does the whole program, otherwise go on with `f` -/
def andThen (m : Rand (Except PyErr α)) (f : α → Rand (Except PyErr β)) : Rand (Except PyErr β) :=
  m.bind fun r => match r with
    | .error e => .pure (.error e)
    | .ok a => f a

/-- a deterministic part -/
def lift (x : Except PyErr α) : Rand (Except PyErr α) := .pure x

/-- `random.choice(l)`: `IndexError` for the empty sequence. -/
def choose [Inhabited α] (l : List α) : Rand (Except PyErr α) :=
  if l = [] then .pure (.error .indexError)
  else .choice l.length fun i => .pure (.ok (l.getD i default))

end Rand

instance : Inhabited NodeV := ⟨⟨"", .discrete, [], [], [], [], NDArray.zeros [0], false⟩⟩

/-- The roulette wheel `nodes.py:386-390`: the first outcome whose cumulative weight reaches `r`;
`none` is Python's `None` when the loop runs through. -/
noncomputable def roulette (l : List (Val × ℚ)) (s : ℚ) (r : ℝ) : Option Val :=
  match l with
  | [] => none
  | (v, w) :: l => if r ≤ ((s + w : ℚ) : ℝ) then some v else roulette l (s + w) r

namespace NodeV

/-- the weights of the outcomes: `nodes.py:378-382` -/
def weights (n : NodeV) (state : Dict Val) (children : List NodeV) (forward : Bool) :
    Except PyErr (List ℚ) :=
  n.values.mapM fun o => n.markovProb o children (state.set n.name o) forward

/-- `sample_value`: `nodes.py:351-390`.  Only `DiscreteNode` has this method. -/
noncomputable def sampleValue (n : NodeV) (state : Dict Val) (children : List NodeV)
    (forward : Bool) : Rand (Except PyErr (Option Val)) :=
  if n.kind ≠ .discrete then .pure (.error .attributeError) else
    Rand.andThen (.lift (n.weights state children forward)) fun ws =>
      .uniform fun u => .pure (.ok (roulette (n.values.zip ws) 0 (u * (ws.sum : ℚ))))

/-- `state[n.name] = n.sample_value(state, children, forward)`: `networks.py:168`,
`mcmc.py:188, 191`.  (Storing `None` is reported as the pseudo error `noneValue`.) -/
noncomputable def resample (n : NodeV) (state : Dict Val) (children : List NodeV)
    (forward : Bool) : Rand (Except PyErr (Dict Val)) :=
  Rand.andThen (n.sampleValue state children forward) fun r => match r with
    | none => .pure (.error .noneValue)
    | some x => .pure (.ok (state.set n.name x))

/-- `sample_local`: `nodes.py:392-407`.  Only `DiscreteNode` has this method. -/
def sampleLocal (n : NodeV) : Rand (Except PyErr Val) :=
  if n.kind ≠ .discrete then .pure (.error .attributeError) else Rand.choose n.values

end NodeV

namespace BN

/-- `get_children`: `networks.py:142-158` (`graph.succ` holds the node objects). -/
def childNodes (bn : BN) (n : NodeV) : List NodeV :=
  n.children.filterMap fun c => bn.find? fun m => m.name = c

/-- `G.in_degree(v)` -/
def inDegree (bn : BN) (v : Name) : Nat := bn.countP fun n => v ∈ n.children

/-- One arc of the loop `for _, child in G.edges(node)` of `networkx.topological_sort`
(networkx < 2.4): the state is the list `zero_indegree` and the dict `indegree_map`. -/
def dropArc (s : List Name × Dict Nat) (child : Name) : Except PyErr (List Name × Dict Nat) :=
  match s.2.get? child with
  | none => .error .runtimeError
  | some d => if d - 1 = 0 then .ok (s.1 ++ [child], s.2.erase child)
      else .ok (s.1, s.2.set child (d - 1))

/-- The main loop of `networkx.topological_sort` (networkx < 2.4): the nodes yielded, and the
exception raised after them, if any.  Every round takes one node from `zero_indegree`, so
`bn.length` rounds (`fuel`) are enough. -/
def kahn (bn : BN) : Nat → List Name → Dict Nat → List Name × Option PyErr
  | 0, _, m => ([], if m = [] then none else some .networkXUnfeasible)
  | fuel + 1, zero, m =>
    match zero.getLast? with
    | none => ([], if m = [] then none else some .networkXUnfeasible)
    | some v =>
      match ((bn.find? fun n => n.name = v).map (·.children)).getD [] |>.foldlM dropArc
          (zero.dropLast, m) with
      | .error e => ([], some e)
      | .ok (zero, m) => let r := kahn bn fuel zero m; (v :: r.1, r.2)

/-- `nx.topological_sort(self.graph)` (networkx < 2.4), used at `networks.py:165`. -/
def topologicalSort (bn : BN) : List Name × Option PyErr :=
  kahn bn bn.length (bn.names.filter fun v => bn.inDegree v = 0)
    ((bn.names.filter fun v => 0 < bn.inDegree v).map fun v => (v, bn.inDegree v))

/-- the loop `networks.py:165-168` over the nodes yielded by the topological sort, followed by the
exception the sort ends with, if any -/
noncomputable def sampleAlong (bn : BN) (evidence : Dict Val) :
    List Name → Option PyErr → Dict Val → Rand (Except PyErr (Dict Val))
  | [], none, sample => .pure (.ok sample)
  | [], some e, _ => .pure (.error e)
  | v :: order, e, sample =>
    if v ∈ evidence.keys then sampleAlong bn evidence order e sample
    else Rand.andThen (.lift (bn.getNode v)) fun n =>
      Rand.andThen (n.resample sample (bn.childNodes n) true) fun sample =>
        sampleAlong bn evidence order e sample

/-- `get_sample`: `networks.py:160-170`. -/
noncomputable def getSample (bn : BN) (evidence : Dict Val) : Rand (Except PyErr (Dict Val)) :=
  sampleAlong bn evidence bn.topologicalSort.1 bn.topologicalSort.2 evidence

end BN

namespace Mcmc

/-- one iteration of the sweep `mcmc.py:187-188`, and the body of the single-site branch 191 -/
noncomputable def gibbsSite (bn : BN) (n : NodeV) (state : Dict Val) :
    Rand (Except PyErr (Dict Val)) :=
  n.resample state (bn.childNodes n) false

/-- `min(1.0, proposedProb/currentProb)`: `mcmc.py:227, 238`.  The operands are numpy floats, so a
zero denominator gives `inf` or `nan` (a warning, no exception) and `min` returns `1.0`; only a
negative number over zero gives `-inf`, which is never accepted (`-1` stands for it). -/
def accept (p c : ℚ) : ℚ := if c = 0 then if p < 0 then -1 else 1 else min 1 (p / c)

/-- one iteration of the sweep `mcmc.py:220-229`, and the single-site branch 232-241 -/
noncomputable def mhSite (bn : BN) (n : NodeV) (state : Dict Val) :
    Rand (Except PyErr (Dict Val)) :=
  if n.kind ≠ .discrete then .pure (.error .attributeError) else
  Rand.andThen (.lift (state.getE n.name)) fun current =>
  Rand.andThen n.sampleLocal fun proposed =>
  Rand.andThen (.lift (n.markovProb proposed (bn.childNodes n) (state.set n.name proposed) false))
    fun p =>
  Rand.andThen (.lift (n.markovProb current (bn.childNodes n) state false)) fun c =>
  .uniform fun u => .pure (.ok
    (if u ≤ ((accept p c : ℚ) : ℝ) then state.set n.name proposed else state))

/-- the `for v in variablesToChange` loops -/
def sweep (site : NodeV → Dict Val → Rand (Except PyErr (Dict Val))) :
    List NodeV → Dict Val → Rand (Except PyErr (Dict Val))
  | [], state => .pure (.ok state)
  | n :: ns, state => Rand.andThen (site n state) fun state => sweep site ns state

/-- the two branches of `step` -/
def siteStep (site : NodeV → Dict Val → Rand (Except PyErr (Dict Val))) (vars : List NodeV)
    (full : Bool) (state : Dict Val) : Rand (Except PyErr (Dict Val)) :=
  if full then sweep site vars state
  else Rand.andThen (Rand.choose vars) fun n => site n state

/-- The transition models of `mcmc.py`: the abstract base class (155-161), Gibbs (163) and
Metropolis-Hastings (196). -/
inductive Transition
  | base | gibbs | metropolisHastings
  deriving DecidableEq

/-- `step` of the transition models: `mcmc.py:160-161, 165-193, 198-243`. -/
noncomputable def step (tm : Transition) (bn : BN) (vars : List NodeV) (full : Bool)
    (state : Dict Val) : Rand (Except PyErr (Dict Val)) :=
  match tm with
  | .base => .pure (.error .notImplementedError)
  | .gibbs => siteStep (gibbsSite bn) vars full state
  | .metropolisHastings => siteStep (mhSite bn) vars full state

/-- `MarkovChainSampler` with its fields: `mcmc.py:89-115`. -/
structure Sampler where
  transitionModel : Transition
  burnIn : Nat
  fullChange : Bool

/-- `MarkovChainSampler.__init__`: without a model Metropolis-Hastings is used (112-115). -/
def Sampler.create (tm : Option Transition) (burnIn : Nat) (fullChange : Bool) : Sampler :=
  ⟨tm.getD .metropolisHastings, burnIn, fullChange⟩

/-- `variablesToChange`: `mcmc.py:145`; `node not in None` raises `TypeError`. -/
def variablesToChange (bn : BN) (evidence : Option (Dict Val)) : Except PyErr (List NodeV) :=
  match evidence with
  | some ev => .ok (bn.filter fun n => n.name ∉ ev.keys)
  | none => if bn = [] then .ok [] else .error .typeError

/-- the loop `mcmc.py:148-150` -/
noncomputable def burn (stp : Dict Val → Rand (Except PyErr (Dict Val))) :
    Nat → Dict Val → Rand (Except PyErr (Dict Val))
  | 0, state => .pure (.ok state)
  | k + 1, state => Rand.andThen (stp state) fun state => burn stp k state

/-- the loop `mcmc.py:151-153`: the contents of `state` at each `yield` (the code yields the same
dict object every time and changes it in place, so a caller has to use each state before asking for
the next one, as `Factor.from_samples` does; see `Verif.Generator`). -/
noncomputable def collect (stp : Dict Val → Rand (Except PyErr (Dict Val))) :
    Nat → Dict Val → Rand (Except PyErr (List (Dict Val)))
  | 0, _ => .pure (.ok [])
  | k + 1, state => Rand.andThen (stp state) fun state =>
      Rand.andThen (collect stp k state) fun rest => .pure (.ok (state :: rest))

/-- all states yielded by `generate_markov_chain`: `mcmc.py:117-153`. -/
noncomputable def Sampler.generate (s : Sampler) (bn : BN) (numSamples : Nat)
    (initialState : Dict Val) (evidence : Option (Dict Val)) :
    Rand (Except PyErr (List (Dict Val))) :=
  Rand.andThen (.lift (variablesToChange bn evidence)) fun vars =>
  Rand.andThen (burn (step s.transitionModel bn vars s.fullChange) s.burnIn initialState)
    fun state => collect (step s.transitionModel bn vars s.fullChange) numSamples state

/-- `{v: self.bn.get_node(v).values for v in variables}`: `mcmc.py:81`. -/
def variableValues (bn : BN) (vars : List Name) : Except PyErr (Dict (List Val)) :=
  vars.foldlM (fun d v => do
    let n ← bn.getNode v
    return d.set v n.values) []

/-- `MCMC.marginals`: `mcmc.py:56-84`.  The chain is a generator, so it runs inside `from_samples`,
after the query variables have been looked up (an exception of the chain is reported before one of
the counting, whichever sample it belongs to; `Verif.Generator.marginalsGen` has the exact order). -/
noncomputable def marginals (bn : BN) (s : Sampler) (numSamples : Nat) (vars : List Name)
    (evidence : Option (Dict Val)) : Rand (Except PyErr Factor) :=
  let ev := evidence.getD []
  Rand.andThen (bn.getSample ev) fun initial =>
  Rand.andThen (.lift (variableValues bn vars)) fun vv =>
  Rand.andThen (s.generate bn numSamples initial (some ev)) fun chain =>
  .lift (Factor.fromSamples chain vv)

end Mcmc
end Primo
