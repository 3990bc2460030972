import Verif.Sampling

/-!
# The generator `generate_markov_chain` and the programs that use it

`Verif.Sampling` describes the chain by the list of the states it runs through.  The code hands out
something else: `generate_markov_chain` (`mcmc.py:117-153`) is a generator function.  Calling it
runs nothing; the first `next` reads the arguments, copies the initial state into a dict of its own,
runs the burn-in and one step; every further `next` runs one step.  The transition models write into
the dict they are given and return it (`mcmc.py:188, 191, 193, 229, 241, 243`), so that every `yield`
hands out a reference to the same dict object.

Here the generator runs on a memory of dict objects, and the program around it (`Client`) is
arbitrary: it can make dicts, read them, write into them, copy them, start generators and resume
them in any order.  The network is taken as a value: it is not changed while generators run.
-/

namespace Primo
namespace Mcmc

/-! ### the steps, in place: the contents of the dict afterwards and the exception raised, if any -/

/-- run `m` on a dict; go on with `f` unless `m` raised -/
def inPlace (m : Rand (Dict Val × Option PyErr)) (f : Dict Val → Rand (Dict Val × Option PyErr)) :
    Rand (Dict Val × Option PyErr) :=
  m.bind fun r => match r.2 with
    | none => f r.1
    | some _ => .pure r

/-- One site, `mcmc.py:188, 191, 221-229, 232-241`: the only write is the last action, so that an
exception leaves the dict as it was. -/
def siteIn (site : NodeV → Dict Val → Rand (Except PyErr (Dict Val))) (n : NodeV) (d : Dict Val) :
    Rand (Dict Val × Option PyErr) :=
  (site n d).bind fun r => match r with
    | .ok d' => .pure (d', none)
    | .error e => .pure (d, some e)

/-- the `for v in variablesToChange` loops `mcmc.py:187-188, 220-229`: the writes made before an
exception stay -/
def sweepIn (site : NodeV → Dict Val → Rand (Except PyErr (Dict Val))) :
    List NodeV → Dict Val → Rand (Dict Val × Option PyErr)
  | [], d => .pure (d, none)
  | n :: ns, d => inPlace (siteIn site n d) fun d => sweepIn site ns d

/-- the two branches of `step` -/
def siteStepIn (site : NodeV → Dict Val → Rand (Except PyErr (Dict Val))) (vars : List NodeV)
    (full : Bool) (d : Dict Val) : Rand (Dict Val × Option PyErr) :=
  if full then sweepIn site vars d
  else (Rand.choose vars).bind fun r => match r with
    | .ok n => siteIn site n d
    | .error e => .pure (d, some e)

/-- `step` of the transition models on the dict object it is given: `mcmc.py:160-161, 165-193,
198-243`. -/
noncomputable def stepIn (tm : Transition) (bn : BN) (vars : List NodeV) (full : Bool)
    (d : Dict Val) : Rand (Dict Val × Option PyErr) :=
  match tm with
  | .base => .pure (d, some .notImplementedError)
  | .gibbs => siteStepIn (gibbsSite bn) vars full d
  | .metropolisHastings => siteStepIn (mhSite bn) vars full d

/-- the loop `mcmc.py:148-150` -/
noncomputable def burnInPlace (stp : Dict Val → Rand (Dict Val × Option PyErr)) :
    Nat → Dict Val → Rand (Dict Val × Option PyErr)
  | 0, d => .pure (d, none)
  | k + 1, d => inPlace (stp d) fun d => burnInPlace stp k d

/-! ### generator objects -/

/-- Where a generator stands: not yet started (with references to the dicts it was called with);
suspended at the `yield` of line 153, with its locals `variablesToChange` and `state` (a reference)
and the number of rounds left of the loop 151; finished. -/
inductive Frame
  | fresh (initial : Nat) (evidence : Option Nat)
  | paused (vars : List NodeV) (state : Nat) (left : Nat)
  | done

/-- A generator object made by `s.generate_markov_chain(bn, numSamples, …)`. -/
structure GenObj where
  sampler : Sampler
  bn : BN
  numSamples : Nat
  frame : Frame

/-- What `next(g)` comes to: the program gets a dict, or `StopIteration`, or an exception of the
generator's body. -/
inductive Yield
  | value (h : Nat)
  | stop
  | raise (e : PyErr)
  deriving DecidableEq

/-- The dict objects, the dicts the program has got hold of (a handle is a position in this list;
several handles may refer to the same object), and the generators. -/
structure World where
  mem : List (Dict Val) := []
  handles : List Nat := []
  gens : List GenObj := []

namespace World

/-- contents of a dict object -/
def dict (w : World) (r : Nat) : Dict Val := w.mem.getD r []

/-- contents of the dict with handle `h` -/
def read (w : World) (h : Nat) : Dict Val := w.dict (w.handles.getD h 0)

/-- a new dict object, known to the program -/
def alloc (w : World) (d : Dict Val) : World :=
  { w with mem := w.mem ++ [d], handles := w.handles ++ [w.mem.length] }

/-- overwrite the contents of a dict object -/
def write (w : World) (r : Nat) (d : Dict Val) : World := { w with mem := w.mem.set r d }

/-- move a generator to another place -/
def goto (w : World) (g : Nat) (o : GenObj) (f : Frame) : World :=
  { w with gens := w.gens.set g { o with frame := f } }

/-- The loop `mcmc.py:151-153` up to the next `yield`: one step on the dict `r`, then `r` itself is
handed out. -/
noncomputable def advance (w : World) (g : Nat) (o : GenObj) (vars : List NodeV) (r : Nat) :
    Nat → Rand (World × Yield)
  | 0 => .pure (w.goto g o .done, .stop)
  | left + 1 =>
    (stepIn o.sampler.transitionModel o.bn vars o.sampler.fullChange (w.dict r)).bind fun x =>
      match x.2 with
      | some e => .pure ((w.write r x.1).goto g o .done, .raise e)
      | none => .pure ({ (w.write r x.1).goto g o (.paused vars r left) with
          handles := w.handles ++ [r] }, .value w.handles.length)

/-- `next(g)`: `mcmc.py:117-153`.  Lines 145-150 run at the first call.  (A program cannot name a
generator it has not been given.) -/
noncomputable def next (w : World) (g : Nat) : Rand (World × Yield) :=
  match w.gens[g]? with
  | none => .pure (w, .stop)
  | some o =>
    match o.frame with
    | .done => .pure (w, .stop)
    | .paused vars r left => w.advance g o vars r left
    | .fresh i ev =>
      match variablesToChange o.bn (ev.map w.dict) with
      | .error e => .pure (w.goto g o .done, .raise e)
      | .ok vars =>
        (burnInPlace (stepIn o.sampler.transitionModel o.bn vars o.sampler.fullChange)
          o.sampler.burnIn (w.dict i)).bind fun x =>
        let w' : World := { w with mem := w.mem ++ [x.1] }
        match x.2 with
        | some e => .pure (w'.goto g o .done, .raise e)
        | none => w'.advance g o vars w.mem.length o.numSamples

end World

/-- A program using the sampler, one call after the other; what it does next may depend on all it has
seen.  Dicts and generators are named by the handles the program was given. -/
inductive Client (α : Type) : Type
  /-- the end -/
  | ret (a : α)
  /-- a dict display; the handle is passed on -/
  | new (d : Dict Val) (k : Nat → Client α)
  /-- look at all entries of a dict -/
  | read (h : Nat) (k : Dict Val → Client α)
  /-- `h[key] = x` -/
  | put (h : Nat) (key : Name) (x : Val) (k : Client α)
  /-- `dict(h)` -/
  | copy (h : Nat) (k : Nat → Client α)
  /-- `s.generate_markov_chain(bn, numSamples, initialState, evidence)`: nothing runs -/
  | start (s : Sampler) (bn : BN) (numSamples : Nat) (initial : Nat) (evidence : Option Nat)
      (k : Nat → Client α)
  /-- `next(g)` -/
  | next (g : Nat) (k : Yield → Client α)

/-- The program run on the memory. -/
noncomputable def Client.run {α : Type} : Client α → World → Rand (World × α)
  | .ret a, w => .pure (w, a)
  | .new d k, w => (k w.handles.length).run (w.alloc d)
  | .read h k, w => (k (w.read h)).run w
  | .put h key x k, w =>
    k.run (w.write (w.handles.getD h 0) ((w.read h).set key x))
  | .copy h k, w => (k w.handles.length).run (w.alloc (w.read h))
  | .start s bn n i ev k, w =>
    (k w.gens.length).run { w with gens := w.gens ++
      [⟨s, bn, n, .fresh (w.handles.getD i 0) (ev.map fun h => w.handles.getD h 0)⟩] }
  | .next g k, w => (w.next g).bind fun r => (k r.2).run r.1

namespace Client
variable {α β : Type}

/-- one program after the other -/
def bind : Client α → (α → Client β) → Client β
  | .ret a, f => f a
  | .new d k, f => .new d fun h => (k h).bind f
  | .read h k, f => .read h fun d => (k d).bind f
  | .put h key x k, f => .put h key x (k.bind f)
  | .copy h k, f => .copy h fun h' => (k h').bind f
  | .start s bn n i ev k, f => .start s bn n i ev fun g => (k g).bind f
  | .next g k, f => .next g fun y => (k y).bind f

/-- `for s in g: acc = f(acc, s)`, at most `k` rounds; `f` reads the dict and nothing else and may
raise. -/
def forEach (g : Nat) (f : β → Dict Val → Except PyErr β) : Nat → β → Client (Except PyErr β)
  | 0, acc => .ret (.ok acc)
  | k + 1, acc => .next g fun y => match y with
    | .stop => .ret (.ok acc)
    | .raise e => .ret (.error e)
    | .value h => .read h fun d => match f acc d with
      | .ok acc => forEach g f k acc
      | .error e => .ret (.error e)

/-- `list(g)`: the dicts handed out, at most `k` -/
def listAll (g : Nat) : Nat → List Nat → Client (Except PyErr (List Nat))
  | 0, acc => .ret (.ok acc)
  | k + 1, acc => .next g fun y => match y with
    | .stop => .ret (.ok acc)
    | .raise e => .ret (.error e)
    | .value h => listAll g k (acc ++ [h])

/-- `[dict(s) for s in g]`, at most `k` rounds -/
def copyAll (g : Nat) : Nat → List Nat → Client (Except PyErr (List Nat))
  | 0, acc => .ret (.ok acc)
  | k + 1, acc => .next g fun y => match y with
    | .stop => .ret (.ok acc)
    | .raise e => .ret (.error e)
    | .value h => .copy h fun h' => copyAll g k (acc ++ [h'])

/-- look at several dicts, one after the other -/
def readAll : List Nat → List (Dict Val) → Client (List (Dict Val))
  | [], acc => .ret acc
  | h :: hs, acc => .read h fun d => readAll hs (acc ++ [d])

/-- `Factor.from_samples(g, variableValues)`: `factor.py:306-322`, the samples taken from the
generator one by one. -/
def fromGenerator (g : Nat) (vv : Dict (List Val)) (k : Nat) : Client (Except PyErr Factor) :=
  (forEach g Factor.countSample k ⟨NDArray.zeros (vv.map fun p => p.2.length), vv.keys, vv⟩).bind
    fun r => .ret (r.bind fun res =>
      if res.potentials.sumAll = 0 then .error .nonFinite
      else .ok { res with potentials := res.potentials.map fun x => x / res.potentials.sumAll })

end Client

/-- `MCMC.marginals`: `mcmc.py:56-84`, with the generator: every state is counted before the next
one is drawn, so that the first exception, of the chain or of the counting, is the one reported. -/
noncomputable def marginalsGen (bn : BN) (s : Sampler) (numSamples : Nat) (vars : List Name)
    (evidence : Option (Dict Val)) : Rand (Except PyErr Factor) :=
  let ev := evidence.getD []
  Rand.andThen (bn.getSample ev) fun initial =>
  Rand.andThen (.lift (variableValues bn vars)) fun vv =>
  (Client.run (.new initial fun i => .new ev fun e => .start s bn numSamples i (some e) fun g =>
    Client.fromGenerator g vv (numSamples + 1)) {}).bind fun r => .pure r.2

end Mcmc
end Primo
