import Verif.Rounded
import Verif.Dynamic

/-!
# `primo2/inference/dynamic.py` with rounded arithmetic

The functions of `Verif/Dynamic.lean` once more, with the trees of `Verif/Rounded.lean`.  The classes themselves
compute no numbers: they store the tables that the trees return, and `set_cpd` copies them.
-/

namespace Primo

namespace SliceTree

/-- `FactorTree.create_jointree(dbn._b0)` or `...(dbn._two_tbn)`: `dynamic.py:230-235, 301-306` -/
def createR (A : Arith) (so : SetOrder) (d : DBN) (two : Bool) : Except PyErr SliceTree := do
  let t ← JoinTree.createR A so (if two then d.twoTbn else d.b0) none
  return ⟨two, t⟩

/-- `marginals` of the tree -/
def marginalsR (A : Arith) (so : SetOrder) (limit : Nat) (vs : List Name) (f : SliceTree) :
    SliceTree × Except PyErr Factor :=
  let r := f.tree.marginalsR A so limit vs
  (⟨f.two, r.1⟩, r.2)

/-- `marginals([v]).get_potential()`: `dynamic.py:249, 321` -/
def tableR (A : Arith) (so : SetOrder) (limit : Nat) (v : Name) (f : SliceTree) :
    SliceTree × Except PyErr NDArray :=
  let r := f.marginalsR A so limit [v]
  (r.1, do let g ← r.2; g.getPotential)

/-- `reset_factors` of the tree -/
def resetR (A : Arith) (so : SetOrder) (d : DBN) (f : SliceTree) : SliceTree × Option PyErr :=
  let r := f.tree.resetR A so (f.net d)
  (⟨f.two, r.1⟩, r.2)

/-- `set_evidence` of the tree -/
def setEvidenceR (A : Arith) (so : SetOrder) (limit : Nat) (d : DBN) (ev : Dict Evidence) (soft : Bool)
    (f : SliceTree) : SliceTree × Option PyErr :=
  let r := f.tree.setEvidenceR A so limit (f.net d) ev soft
  (⟨f.two, r.1⟩, r.2)

end SliceTree

/-! ## `PriorFeedbackExact` -/

namespace PriorFeedback

/-- `dynamic.py:240` -/
def enterR (A : Arith) (so : SetOrder) (limit : Nat) (ev : Option (Dict Evidence)) (soft : Bool) (f : SliceTree)
    (s : PriorFeedback) : PRes :=
  let r := f.setEvidenceR A so limit s.dbn (ev.getD []) soft
  ({ s with ft := some r.1 }, r.2)

/-- `_set_evidence`: `dynamic.py:222-240` -/
def setInnerR (A : Arith) (so : SetOrder) (limit : Nat) (ev : Option (Dict Evidence)) (soft : Bool)
    (s : PriorFeedback) : PRes :=
  if s.t ≤ 1 then
    match SliceTree.createR A so s.dbn (s.t = 1) with
    | .error e => (s, some e)
    | .ok f => enterR A so limit ev soft f s
  else
    match s.ft with
    | none => (s, some .attributeError)
    | some f =>
      match f.resetR A so s.dbn with
      | (f, some e) => ({ s with ft := some f }, some e)
      | (f, none) => enterR A so limit ev soft f s

/-- `set_evidence`: `dynamic.py:96-117` -/
def setEvidenceR (A : Arith) (so : SetOrder) (limit : Nat) (ev : Option (Dict Evidence)) (s : PriorFeedback) :
    PRes :=
  match setInnerR A so limit ev false s with
  | (s, some e) => (s, some e)
  | (s, none) => ({ s with evidence := true }, none)

/-- the loop `dynamic.py:247-249` -/
def feedR (A : Arith) (so : SetOrder) (limit : Nat) : List (Name × Name) → PriorFeedback → PRes
  | [], s => (s, none)
  | (node, nodeP) :: rest, s =>
    match s.dbn.twoTbn.getNode node with
    | .error e => (s, some e)
    | .ok _ =>
      match s.ft with
      | none => (s, some .attributeError)
      | some f =>
        let r := f.tableR A so limit nodeP
        let s := { s with ft := some r.1 }
        match r.2 with
        | .error e => (s, some e)
        | .ok c =>
          match s.dbn.twoTbn.setNodeCpd node c with
          | .error e => (s, some e)
          | .ok bn => feedR A so limit rest { s with dbn := { s.dbn with twoTbn := bn } }

/-- `_unroll`: `dynamic.py:242-250` -/
def unrollInnerR (A : Arith) (so : SetOrder) (limit : Nat) (s : PriorFeedback) : PRes :=
  match feedR A so limit s.dbn.transitions s with
  | (s, some e) => (s, some e)
  | (s, none) => ({ s with t := s.t + 1 }, none)

/-- `unroll`: `dynamic.py:119-146` -/
def unrollR (A : Arith) (so : SetOrder) (limit : Nat) (ev : Option (Dict Evidence)) (soft : Option Bool)
    (s : PriorFeedback) : PRes :=
  let r := if ¬ s.evidence ∨ ev ≠ none then setInnerR A so limit ev (soft.getD false) s else (s, none)
  match r with
  | (s, some e) => (s, some e)
  | (s, none) =>
    match unrollInnerR A so limit s with
    | (s, some e) => (s, some e)
    | (s, none) => ({ s with evidence := false }, none)

/-- `marginals`: `dynamic.py:204-220` -/
def marginalsR (A : Arith) (so : SetOrder) (limit : Nat) (vs : List Name) (s : PriorFeedback) :
    PriorFeedback × Except PyErr Factor :=
  match s.ft with
  | none => (s, .error .attributeError)
  | some f =>
    let r := f.marginalsR A so limit vs
    ({ s with ft := some r.1 }, r.2)

/-- `marginal_probabilities`: `dynamic.py:196-202` -/
def marginalProbabilitiesR (A : Arith) (so : SetOrder) (limit : Nat) (v : Name) (s : PriorFeedback) :
    PriorFeedback × Except PyErr (Dict ℚ) :=
  let r := s.marginalsR A so limit [v]
  (r.1, do let f ← r.2; marginalDict v f)

end PriorFeedback

/-! ## `SoftEvidenceExact` -/

namespace SoftFeedback

/-- `dynamic.py:311` -/
def enterR (A : Arith) (so : SetOrder) (limit : Nat) (ev : Dict Evidence) (f : SliceTree) (s : SoftFeedback) :
    SRes :=
  let r := f.setEvidenceR A so limit s.dbn ev true
  ({ s with ft := some r.1 }, r.2)

/-- `_set_evidence`: `dynamic.py:293-311` -/
def setInnerR (A : Arith) (so : SetOrder) (limit : Nat) (ev : Option (Dict Evidence)) (s : SoftFeedback) : SRes :=
  if s.t ≤ 1 then
    match SliceTree.createR A so s.dbn (s.t = 1) with
    | .error e => (s, some e)
    | .ok f => enterR A so limit
        (if s.t = 0 then ev.getD [] else update (ev.getD []) s.transitionEvidence) f s
  else
    match s.ft with
    | none => (s, some .attributeError)
    | some f => enterR A so limit (update (ev.getD []) s.transitionEvidence) f s

/-- `set_evidence`: `dynamic.py:96-117` -/
def setEvidenceR (A : Arith) (so : SetOrder) (limit : Nat) (ev : Option (Dict Evidence)) (s : SoftFeedback) :
    SRes :=
  match setInnerR A so limit ev s with
  | (s, some e) => (s, some e)
  | (s, none) => ({ s with evidence := true }, none)

/-- the loop `dynamic.py:319-321` -/
def feedR (A : Arith) (so : SetOrder) (limit : Nat) : List (Name × Name) → SoftFeedback → SRes
  | [], s => (s, none)
  | (node, nodeP) :: rest, s =>
    match s.ft with
    | none => (s, some .attributeError)
    | some f =>
      let r := f.tableR A so limit nodeP
      let s := { s with ft := some r.1 }
      match r.2 with
      | .error e => (s, some e)
      | .ok c => feedR A so limit rest { s with transitionEvidence := s.transitionEvidence.set node c }

/-- `_unroll`: `dynamic.py:313-322` -/
def unrollInnerR (A : Arith) (so : SetOrder) (limit : Nat) (s : SoftFeedback) : SRes :=
  match feedR A so limit s.dbn.transitions { s with transitionEvidence := [] } with
  | (s, some e) => (s, some e)
  | (s, none) => ({ s with t := s.t + 1 }, none)

/-- `unroll`: `dynamic.py:119-146` -/
def unrollR (A : Arith) (so : SetOrder) (limit : Nat) (ev : Option (Dict Evidence)) (kwargs : Bool)
    (s : SoftFeedback) : SRes :=
  let r := if ¬ s.evidence ∨ ev ≠ none then
      if kwargs then (s, some .typeError) else setInnerR A so limit ev s
    else (s, none)
  match r with
  | (s, some e) => (s, some e)
  | (s, none) =>
    match unrollInnerR A so limit s with
    | (s, some e) => (s, some e)
    | (s, none) => ({ s with evidence := false }, none)

/-- `marginals`: `dynamic.py:275-291` -/
def marginalsR (A : Arith) (so : SetOrder) (limit : Nat) (vs : List Name) (s : SoftFeedback) :
    SoftFeedback × Except PyErr Factor :=
  match s.ft with
  | none => (s, .error .attributeError)
  | some f =>
    let r := f.marginalsR A so limit vs
    ({ s with ft := some r.1 }, r.2)

/-- `marginal_probabilities`: `dynamic.py:267-273` -/
def marginalProbabilitiesR (A : Arith) (so : SetOrder) (limit : Nat) (v : Name) (s : SoftFeedback) :
    SoftFeedback × Except PyErr (Dict ℚ) :=
  let r := s.marginalsR A so limit [v]
  (r.1, do let f ← r.2; marginalDict v f)

end SoftFeedback
end Primo
