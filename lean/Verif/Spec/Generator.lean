import Verif.Generator
import Verif.Spec.Rand

/-!
# Specification vocabulary: generators that hand out values

The meaning one expects of a program that uses a sampler: every dict the program gets is its own, and
no call changes any other dict.
-/

namespace Primo
namespace Mcmc

/-- a generator whose state is a value -/
inductive VFrame
  | fresh (initial : Nat) (evidence : Option Nat)
  | paused (vars : List NodeV) (state : Dict Val) (left : Nat)
  | done

structure VGen where
  sampler : Sampler
  bn : BN
  numSamples : Nat
  frame : VFrame

/-- one dict per handle, no sharing -/
structure VWorld where
  vals : List (Dict Val) := []
  gens : List VGen := []

namespace VWorld

/-- the dict with handle `h` -/
def read (w : VWorld) (h : Nat) : Dict Val := w.vals.getD h []

def goto (w : VWorld) (g : Nat) (o : VGen) (f : VFrame) : VWorld :=
  { w with gens := w.gens.set g { o with frame := f } }

/-- one step from the state `d`; the program gets a dict of its own with the new state -/
noncomputable def advance (w : VWorld) (g : Nat) (o : VGen) (vars : List NodeV) (d : Dict Val) :
    Nat → Rand (VWorld × Yield)
  | 0 => .pure (w.goto g o .done, .stop)
  | left + 1 =>
    (step o.sampler.transitionModel o.bn vars o.sampler.fullChange d).bind fun x =>
      match x with
      | .error e => .pure (w.goto g o .done, .raise e)
      | .ok d' => .pure ({ w.goto g o (.paused vars d' left) with vals := w.vals ++ [d'] },
          .value w.vals.length)

/-- the next state of the chain -/
noncomputable def next (w : VWorld) (g : Nat) : Rand (VWorld × Yield) :=
  match w.gens[g]? with
  | none => .pure (w, .stop)
  | some o =>
    match o.frame with
    | .done => .pure (w, .stop)
    | .paused vars d left => w.advance g o vars d left
    | .fresh i ev =>
      match variablesToChange o.bn (ev.map w.read) with
      | .error e => .pure (w.goto g o .done, .raise e)
      | .ok vars =>
        (burn (step o.sampler.transitionModel o.bn vars o.sampler.fullChange) o.sampler.burnIn
          (w.read i)).bind fun x =>
        match x with
        | .error e => .pure (w.goto g o .done, .raise e)
        | .ok d => w.advance g o vars d o.numSamples

end VWorld

namespace Client
variable {α : Type}

/-- The program run with dicts as values. -/
noncomputable def runV : Client α → VWorld → Rand (VWorld × α)
  | .ret a, w => .pure (w, a)
  | .new d k, w => (k w.vals.length).runV { w with vals := w.vals ++ [d] }
  | .read h k, w => (k (w.read h)).runV w
  | .put h key x k, w => k.runV { w with vals := w.vals.set h ((w.read h).set key x) }
  | .copy h k, w => (k w.vals.length).runV { w with vals := w.vals ++ [w.read h] }
  | .start s bn n i ev k, w =>
    (k w.gens.length).runV { w with gens := w.gens ++ [⟨s, bn, n, .fresh i ev⟩] }
  | .next g k, w => (w.next g).bind fun r => (k r.2).runV r.1

/-- What a program may do with a dict: its own dicts, everything; a state of generator `g` not yet
overtaken, read it; a state the generator has left behind, nothing. -/
inductive Status
  | own
  | state (g : Nat)
  | stale
  deriving DecidableEq

/-- the states of generator `g` become stale -/
def Status.leave (g : Nat) (s : Status) : Status := if s = .state g then .stale else s

/-- The program reads every state before it asks the same generator for the next one, and writes only
into dicts of its own; generators are started on dicts of its own.  `st`: the handles given so far;
`n`: the number of generators started. -/
def Disciplined : Client α → List Status → Nat → Prop
  | .ret _, _, _ => True
  | .new _ k, st, n => (k st.length).Disciplined (st ++ [.own]) n
  | .read h k, st, n => (st[h]? = some .own ∨ ∃ g, st[h]? = some (.state g)) ∧
      ∀ d, (k d).Disciplined st n
  | .put h _ _ k, st, n => st[h]? = some .own ∧ k.Disciplined st n
  | .copy h k, st, n => (st[h]? = some .own ∨ ∃ g, st[h]? = some (.state g)) ∧
      (k st.length).Disciplined (st ++ [.own]) n
  | .start _ _ _ i ev k, st, n => st[i]? = some .own ∧ (∀ e ∈ ev, st[e]? = some .own) ∧
      (k n).Disciplined st (n + 1)
  | .next g k, st, n => g < n ∧
      (k (.value st.length)).Disciplined (st.map (Status.leave g) ++ [.state g]) n ∧
      (k .stop).Disciplined st n ∧ ∀ e, (k (.raise e)).Disciplined (st.map (Status.leave g)) n

/-- a program that touches no generator -/
def Plain : Client α → Prop
  | .ret _ => True
  | .new _ k => ∀ h, (k h).Plain
  | .read _ k => ∀ d, (k d).Plain
  | .put _ _ _ k => k.Plain
  | .copy _ k => ∀ h, (k h).Plain
  | .start .. => False
  | .next .. => False

end Client

/-- The states of a chain folded by `f`, each one taken in before the next one is drawn. -/
noncomputable def foldChain {β : Type} (stp : Dict Val → Rand (Except PyErr (Dict Val)))
    (f : β → Dict Val → Except PyErr β) : Nat → β → Dict Val → Rand (Except PyErr β)
  | 0, acc, _ => .pure (.ok acc)
  | k + 1, acc, d => Rand.andThen (stp d) fun d =>
      Rand.andThen (.lift (f acc d)) fun acc => foldChain stp f k acc d

end Mcmc
end Primo
