import Verif.Dynamic
import Verif.Spec.Soft

/-!
# Specification vocabulary: feeding posteriors back as priors
-/

namespace Primo

/-- the network with all tables removed: names, outcomes, parents and children of its nodes -/
def BN.bare (bn : BN) : BN := bn.map fun n => { n with cpd := NDArray.scalar 0 }

/-- `two'` is `two` with the table of every transition target replaced by the posterior of the source
in the network `net` under the evidence `ev`. -/
structure Fed (trs : List (Name × Name)) (net : BN) (ev : Dict Evidence) (two two' : BN) : Prop where
  bare : two'.bare = two.bare
  fed : ∀ tr ∈ trs, ∀ n ∈ two', n.name = tr.1 → n.cpd.shape = [net.card tr.2] ∧
    ∀ σ, σ tr.2 < net.card tr.2 → n.cpd.get [σ tr.2] = posterior net ev [tr.2] σ
  kept : ∀ n ∈ two', n.name ∉ trs.map Prod.fst → n ∈ two

/-- `Slices d es net two`: when the slices with the evidence `es` have been left, `net` is the network
of the current slice and `two` the two-slice network with its current priors. -/
inductive Slices (d : DBN) : List (Dict Evidence) → BN → BN → Prop
  | start : Slices d [] d.b0 d.twoTbn
  | next {es : List (Dict Evidence)} {net two two' : BN} {e : Dict Evidence} : Slices d es net two →
      Fed d.transitions net e two two' → Slices d (es ++ [e]) two' two'

/-- A public call.  Each call may use its own set iteration order and recursion depth. -/
inductive DynOp
  | setEvidence (so : SetOrder) (limit : Nat) (ev : Option (Dict Evidence))
  | unroll (so : SetOrder) (limit : Nat) (ev : Option (Dict Evidence)) (soft : Option Bool)
  | marginals (so : SetOrder) (limit : Nat) (vs : List Name)

/-- The evidence of the slices left so far, and the evidence set for the current slice, if any. -/
structure Diary where
  past : List (Dict Evidence)
  now : Option (Dict Evidence)

/-- Setting evidence replaces the evidence of the slice.  `unroll` enters its argument, otherwise the
evidence set for the slice, otherwise no evidence; then the slice is left. -/
def Diary.note (g : Diary) : DynOp → Diary
  | .setEvidence _ _ ev => { g with now := some (ev.getD []) }
  | .unroll _ _ ev _ => ⟨g.past ++ [(ev.or g.now).getD []], none⟩
  | .marginals _ _ _ => g

/-- the diary after a history of calls -/
def Diary.notes (g : Diary) (ops : List DynOp) : Diary := ops.foldl Diary.note g

/-- the network of slice `k`, up to its priors -/
def DBN.slice (d : DBN) (k : Nat) : BN := if k = 0 then d.b0 else d.twoTbn

/-- Evidence that the documentation allows in slice `k`, and a recursion limit that suffices. -/
def DBN.Allows (d : DBN) (k : Nat) (limit : Nat) (ev : Option (Dict Evidence)) : Prop :=
  LegalEvidence (d.slice k) (ev.getD []) ∧ NonNegEvidence (ev.getD []) ∧ (d.slice k).length ≤ limit

/-- A call in slice `k` as the documentation allows it; any query is allowed. -/
def DynOp.Fair (d : DBN) (k : Nat) : DynOp → Prop
  | .setEvidence _ limit ev => d.Allows k limit ev
  | .unroll _ limit ev soft => d.Allows k limit ev ∧ soft ≠ some true
  | .marginals _ _ _ => True

/-- all calls of the history are allowed -/
def FairHistory (d : DBN) : Diary → List DynOp → Prop
  | _, [] => True
  | g, op :: ops => op.Fair d g.past.length ∧ FairHistory d (g.note op) ops

/-! ## soft-evidence feedback -/

/-- the evidence of a slice: the arrays `te` on the transition targets replace other evidence there -/
def overridden (te : Dict (List ℚ)) (ev : Dict Evidence) : Dict Evidence :=
  ev.filter (fun p => p.1 ∉ te.keys) ++ te.map fun p => (p.1, .soft p.2)

/-- the posterior marginals of the transition sources in slice `k`, as arrays on the targets -/
def DBN.carry (d : DBN) (k : Nat) (te : Dict (List ℚ)) (ev : Dict Evidence) : Dict (List ℚ) :=
  d.transitions.map fun tr => (tr.1, (List.range ((d.slice k).card tr.2)).map fun i =>
    posterior (d.slice k) (softened (d.slice k) (overridden te ev)) [tr.2] fun _ => i)

/-- the arrays on the transition targets when the slices with the evidence `es` have been left -/
def DBN.carried (d : DBN) (es : List (Dict Evidence)) : Dict (List ℚ) :=
  (es.foldl (fun s e => (s.1 + 1, d.carry s.1 s.2 e)) (0, [])).2

/-- Evidence that soft-evidence feedback can enter after the slices `es`: every array, given by the
caller or carried over, lies within the prior of its variable. -/
def DBN.AllowsSoft (d : DBN) (es : List (Dict Evidence)) (limit : Nat) (ev : Dict Evidence) : Prop :=
  LegalEvidence (d.slice es.length) ev ∧
    Supported (d.slice es.length) (overridden (d.carried es) ev) ∧ (d.slice es.length).length ≤ limit

/-- a call with such evidence and without keyword arguments; any query is allowed -/
def DynOp.SoftFair (d : DBN) (g : Diary) : DynOp → Prop
  | .setEvidence _ limit ev => d.AllowsSoft g.past limit (ev.getD [])
  | .unroll _ limit ev soft => d.AllowsSoft g.past limit ((ev.or g.now).getD []) ∧ soft = none
  | .marginals _ _ _ => True

/-- all calls of the history are allowed -/
def SoftFairHistory (d : DBN) : Diary → List DynOp → Prop
  | _, [] => True
  | g, op :: ops => op.SoftFair d g ∧ SoftFairHistory d (g.note op) ops

end Primo
