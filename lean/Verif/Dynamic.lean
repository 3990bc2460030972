import Verif.JoinTree
import Verif.Node

/-!
# Dynamic networks: `primo2/networks.py:187-330` (`DynamicBayesianNetwork`) and
`primo2/inference/dynamic.py`

The two networks are the snapshots (`BN`) that the inference code reads.  `PriorFeedbackExact` works
on a deep copy of the dynamic network, so nothing else changes its tables; `SoftEvidenceExact` shares
it with the caller and the model assumes that the caller leaves it alone.
-/

namespace Primo

/-- `DynamicBayesianNetwork`: `networks.py:197-217`. -/
structure DBN where
  b0 : BN
  twoTbn : BN
  transitions : List (Name × Name)

namespace DBN

/-- `add_transition`: `networks.py:260-292`.  The message of the second `raise` (286) contains the
replacement field `{->}`, so formatting it raises `KeyError` before the `StructureError` exists. -/
def addTransition (d : DBN) (node nodeP : Name) : DBN × Option PyErr :=
  if nodeP ∉ d.b0.names then (d, some .structureError)
  else if nodeP ∉ d.twoTbn.names then (d, some .keyError)
  else if node ∉ d.twoTbn.names then (d, some .structureError)
  else ({ d with transitions := d.transitions ++ [(node, nodeP)] }, none)

/-- `add_transitions`: `networks.py:294-304`. -/
def addTransitions (d : DBN) : List (Name × Name) → DBN × Option PyErr
  | [] => (d, none)
  | p :: ps =>
    match d.addTransition p.1 p.2 with
    | (d, some e) => (d, some e)
    | (d, none) => addTransitions d ps

/-- `DynamicBayesianNetwork(b0, two_tbn, transitions)`: `networks.py:197-217`. -/
def create (b0 twoTbn : Option BN) (transitions : Option (List (Name × Name))) :
    Except PyErr DBN :=
  match addTransitions ⟨b0.getD [], twoTbn.getD [], []⟩ (transitions.getD []) with
  | (d, none) => .ok d
  | (_, some e) => .error e

end DBN

namespace BN

/-- the network after `get_node(v).set_cpd(c)` succeeded -/
def putCpd (bn : BN) (v : Name) (c : NDArray) : BN :=
  bn.map fun n => if n.name = v then { n with cpd := c } else n

/-- `get_node(v).set_cpd(c)` -/
def setNodeCpd (bn : BN) (v : Name) (c : NDArray) : Except PyErr BN := do
  let n ← bn.getNode v
  let c ← n.setCpd c
  return bn.putCpd v c

end BN

/-- a `FactorTree` with a reference to one of the two networks: `two = false` for `b0` -/
structure SliceTree where
  two : Bool
  tree : JTree

namespace SliceTree

/-- `FactorTree.create_jointree(dbn._b0)` or `...(dbn._two_tbn)` -/
def create (so : SetOrder) (d : DBN) (two : Bool) : Except PyErr SliceTree := do
  let t ← JoinTree.create so (if two then d.twoTbn else d.b0) none
  return ⟨two, t⟩

/-- the network the tree refers to, in its current state -/
def net (d : DBN) (f : SliceTree) : BN := if f.two then d.twoTbn else d.b0

/-- `marginals` of the tree (it may compute the messages first) -/
def marginals (so : SetOrder) (limit : Nat) (vs : List Name) (f : SliceTree) :
    SliceTree × Except PyErr Factor :=
  let r := f.tree.marginals so limit vs
  (⟨f.two, r.1⟩, r.2)

/-- `marginals([v]).get_potential()` -/
def table (so : SetOrder) (limit : Nat) (v : Name) (f : SliceTree) :
    SliceTree × Except PyErr NDArray :=
  let r := f.marginals so limit [v]
  (r.1, do let g ← r.2; g.getPotential)

/-- `reset_factors` of the tree -/
def reset (so : SetOrder) (d : DBN) (f : SliceTree) : SliceTree × Option PyErr :=
  let r := f.tree.reset so (f.net d)
  (⟨f.two, r.1⟩, r.2)

/-- `set_evidence` of the tree -/
def setEvidence (so : SetOrder) (limit : Nat) (d : DBN) (ev : Dict Evidence) (soft : Bool)
    (f : SliceTree) : SliceTree × Option PyErr :=
  let r := f.tree.setEvidence so limit (f.net d) ev soft
  (⟨f.two, r.1⟩, r.2)

end SliceTree

/-- `marginal_probabilities`: `dynamic.py:196-202, 267-273`, applied to the factor. -/
def marginalDict (v : Name) (f : Factor) : Except PyErr (Dict ℚ) := do
  let vals ← f.values.getE v
  let p ← f.getPotential
  return vals.zip p.data

/-! ## `PriorFeedbackExact` -/

/-- `PriorFeedbackExact`: the fields `_dbn`, `_t`, `_evidence`, `_ft` (`dynamic.py:43-54, 191-194`). -/
structure PriorFeedback where
  dbn : DBN
  t : Nat
  evidence : Bool
  ft : Option SliceTree

namespace PriorFeedback

/-- state after a call and the exception raised by it -/
abbrev PRes := PriorFeedback × Option PyErr

/-- `PriorFeedbackExact(dbn)`: `dynamic.py:191-194`. -/
def create (d : DBN) : PriorFeedback := ⟨d, 0, false, none⟩

/-- `dynamic.py:240`: `_ft.set_evidence(...)` -/
def enter (so : SetOrder) (limit : Nat) (ev : Option (Dict Evidence)) (soft : Bool) (f : SliceTree)
    (s : PriorFeedback) : PRes :=
  let r := f.setEvidence so limit s.dbn (ev.getD []) soft
  ({ s with ft := some r.1 }, r.2)

/-- `_set_evidence`: `dynamic.py:222-240`. -/
def setInner (so : SetOrder) (limit : Nat) (ev : Option (Dict Evidence)) (soft : Bool)
    (s : PriorFeedback) : PRes :=
  if s.t ≤ 1 then
    match SliceTree.create so s.dbn (s.t = 1) with
    | .error e => (s, some e)
    | .ok f => enter so limit ev soft f s
  else
    match s.ft with
    | none => (s, some .attributeError)
    | some f =>
      match f.reset so s.dbn with
      | (f, some e) => ({ s with ft := some f }, some e)
      | (f, none) => enter so limit ev soft f s

/-- `set_evidence`: `dynamic.py:96-117`.  Keyword arguments are accepted and ignored. -/
def setEvidence (so : SetOrder) (limit : Nat) (ev : Option (Dict Evidence)) (s : PriorFeedback) :
    PRes :=
  match setInner so limit ev false s with
  | (s, some e) => (s, some e)
  | (s, none) => ({ s with evidence := true }, none)

/-- the loop `dynamic.py:247-249`: `get_node` is evaluated before the marginals -/
def feed (so : SetOrder) (limit : Nat) : List (Name × Name) → PriorFeedback → PRes
  | [], s => (s, none)
  | (node, nodeP) :: rest, s =>
    match s.dbn.twoTbn.getNode node with
    | .error e => (s, some e)
    | .ok _ =>
      match s.ft with
      | none => (s, some .attributeError)
      | some f =>
        let r := f.table so limit nodeP
        let s := { s with ft := some r.1 }
        match r.2 with
        | .error e => (s, some e)
        | .ok c =>
          match s.dbn.twoTbn.setNodeCpd node c with
          | .error e => (s, some e)
          | .ok bn => feed so limit rest { s with dbn := { s.dbn with twoTbn := bn } }

/-- `_unroll`: `dynamic.py:242-250`. -/
def unrollInner (so : SetOrder) (limit : Nat) (s : PriorFeedback) : PRes :=
  match feed so limit s.dbn.transitions s with
  | (s, some e) => (s, some e)
  | (s, none) => ({ s with t := s.t + 1 }, none)

/-- `unroll`: `dynamic.py:119-146`; `soft` is the keyword argument `soft_posteriors`, if given. -/
def unroll (so : SetOrder) (limit : Nat) (ev : Option (Dict Evidence)) (soft : Option Bool)
    (s : PriorFeedback) : PRes :=
  let r := if ¬ s.evidence ∨ ev ≠ none then setInner so limit ev (soft.getD false) s else (s, none)
  match r with
  | (s, some e) => (s, some e)
  | (s, none) =>
    match unrollInner so limit s with
    | (s, some e) => (s, some e)
    | (s, none) => ({ s with evidence := false }, none)

/-- `marginals`: `dynamic.py:204-220`; `_ft` is `None` before the first evidence. -/
def marginals (so : SetOrder) (limit : Nat) (vs : List Name) (s : PriorFeedback) :
    PriorFeedback × Except PyErr Factor :=
  match s.ft with
  | none => (s, .error .attributeError)
  | some f =>
    let r := f.marginals so limit vs
    ({ s with ft := some r.1 }, r.2)

/-- `marginal_probabilities`: `dynamic.py:196-202`. -/
def marginalProbabilities (so : SetOrder) (limit : Nat) (v : Name) (s : PriorFeedback) :
    PriorFeedback × Except PyErr (Dict ℚ) :=
  let r := s.marginals so limit [v]
  (r.1, do let f ← r.2; marginalDict v f)

end PriorFeedback

/-! ## `SoftEvidenceExact` -/

/-- `SoftEvidenceExact`: the fields `_dbn`, `_t`, `_evidence`, `_ft`, `_transition_evidence`
(`dynamic.py:43-54, 262-265`). -/
structure SoftFeedback where
  dbn : DBN
  t : Nat
  evidence : Bool
  ft : Option SliceTree
  transitionEvidence : Dict NDArray

namespace SoftFeedback

/-- state after a call and the exception raised by it -/
abbrev SRes := SoftFeedback × Option PyErr

/-- `SoftEvidenceExact(dbn)`: `dynamic.py:262-265`. -/
def create (d : DBN) : SoftFeedback := ⟨d, 0, false, none, []⟩

/-- `_evidence.update(self._transition_evidence)`: `dynamic.py:310`. -/
def update (ev : Dict Evidence) (te : Dict NDArray) : Dict Evidence :=
  te.foldl (fun d p => d.set p.1 (.soft p.2.data)) ev

/-- `dynamic.py:311`: `_ft.set_evidence(_evidence, softPosteriors=True)` -/
def enter (so : SetOrder) (limit : Nat) (ev : Dict Evidence) (f : SliceTree) (s : SoftFeedback) :
    SRes :=
  let r := f.setEvidence so limit s.dbn ev true
  ({ s with ft := some r.1 }, r.2)

/-- `_set_evidence`: `dynamic.py:293-311`. -/
def setInner (so : SetOrder) (limit : Nat) (ev : Option (Dict Evidence)) (s : SoftFeedback) : SRes :=
  if s.t ≤ 1 then
    match SliceTree.create so s.dbn (s.t = 1) with
    | .error e => (s, some e)
    | .ok f => enter so limit
        (if s.t = 0 then ev.getD [] else update (ev.getD []) s.transitionEvidence) f s
  else
    match s.ft with
    | none => (s, some .attributeError)
    | some f => enter so limit (update (ev.getD []) s.transitionEvidence) f s

/-- `set_evidence`: `dynamic.py:96-117`.  Keyword arguments are accepted and ignored. -/
def setEvidence (so : SetOrder) (limit : Nat) (ev : Option (Dict Evidence)) (s : SoftFeedback) :
    SRes :=
  match setInner so limit ev s with
  | (s, some e) => (s, some e)
  | (s, none) => ({ s with evidence := true }, none)

/-- the loop `dynamic.py:319-321` -/
def feed (so : SetOrder) (limit : Nat) : List (Name × Name) → SoftFeedback → SRes
  | [], s => (s, none)
  | (node, nodeP) :: rest, s =>
    match s.ft with
    | none => (s, some .attributeError)
    | some f =>
      let r := f.table so limit nodeP
      let s := { s with ft := some r.1 }
      match r.2 with
      | .error e => (s, some e)
      | .ok c => feed so limit rest { s with transitionEvidence := s.transitionEvidence.set node c }

/-- `_unroll`: `dynamic.py:313-322`. -/
def unrollInner (so : SetOrder) (limit : Nat) (s : SoftFeedback) : SRes :=
  match feed so limit s.dbn.transitions { s with transitionEvidence := [] } with
  | (s, some e) => (s, some e)
  | (s, none) => ({ s with t := s.t + 1 }, none)

/-- `unroll`: `dynamic.py:119-146`; any keyword argument makes `_set_evidence` raise `TypeError`. -/
def unroll (so : SetOrder) (limit : Nat) (ev : Option (Dict Evidence)) (kwargs : Bool)
    (s : SoftFeedback) : SRes :=
  let r := if ¬ s.evidence ∨ ev ≠ none then
      if kwargs then (s, some .typeError) else setInner so limit ev s
    else (s, none)
  match r with
  | (s, some e) => (s, some e)
  | (s, none) =>
    match unrollInner so limit s with
    | (s, some e) => (s, some e)
    | (s, none) => ({ s with evidence := false }, none)

/-- `marginals`: `dynamic.py:275-291`. -/
def marginals (so : SetOrder) (limit : Nat) (vs : List Name) (s : SoftFeedback) :
    SoftFeedback × Except PyErr Factor :=
  match s.ft with
  | none => (s, .error .attributeError)
  | some f =>
    let r := f.marginals so limit vs
    ({ s with ft := some r.1 }, r.2)

/-- `marginal_probabilities`: `dynamic.py:267-273`. -/
def marginalProbabilities (so : SetOrder) (limit : Nat) (v : Name) (s : SoftFeedback) :
    SoftFeedback × Except PyErr (Dict ℚ) :=
  let r := s.marginals so limit [v]
  (r.1, do let f ← r.2; marginalDict v f)

end SoftFeedback
end Primo
