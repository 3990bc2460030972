import Verif.Spec.Joint

/-!
# Specification vocabulary: what can be read off the graph

Ancestors, active trails and d-separation.  Only the arcs of the network and the names of the observed
variables are used, no tables.
-/

namespace Primo

/-- the outcome of `v` has been observed (`set_evidence` with a label, not with an array) -/
def Observed (ev : Dict Evidence) (v : Name) : Prop := ∃ x, (v, Evidence.hard x) ∈ ev

/-- `v` is one of the variables `vs` or an ancestor of one -/
def BN.Relevant (bn : BN) (vs : List Name) (v : Name) : Prop :=
  ∃ w ∈ vs, Relation.ReflTransGen bn.IsParent v w

/-- `Trail bn ev Q d v`: an active trail leads from `Q` to `v`.  It enters `v` along an arc
(`d = false`), or against an arc, or starts in `v` (`d = true`).  It passes a variable where it does
not change from along to against the arcs if the variable is not observed, and the others (colliders) if
there is evidence on the variable or on a descendant. -/
inductive Trail (bn : BN) (ev : Dict Evidence) (Q : List Name) : Bool → Name → Prop
  | start {q : Name} : q ∈ Q → Trail bn ev Q true q
  | up {v p : Name} : Trail bn ev Q true v → ¬ Observed ev v → bn.IsParent p v → Trail bn ev Q true p
  | down {d : Bool} {v c : Name} : Trail bn ev Q d v → ¬ Observed ev v → bn.IsParent v c →
      Trail bn ev Q false c
  | collider {v p : Name} : Trail bn ev Q false v → bn.Relevant ev.keys v → bn.IsParent p v →
      Trail bn ev Q true p

/-- `R` is d-separated from `Q` by the evidence: active trails from `Q` reach only observed variables
of `R`. -/
def BN.DSeparated (bn : BN) (ev : Dict Evidence) (Q R : List Name) : Prop :=
  ∀ r ∈ R, ∀ d, Trail bn ev Q d r → Observed ev r

/-- `bn'` has the variables `vs` of `bn` and their ancestors, with the same outcomes, parents and
tables.  The rest of `bn'` may be anything. -/
def BN.Keeps (bn bn' : BN) (vs : List Name) : Prop :=
  ∀ n ∈ bn, bn.Relevant vs n.name → ∃ m ∈ bn', m.name = n.name ∧ m.values = n.values ∧
    m.parentOrder = n.parentOrder ∧ m.cpd = n.cpd

/-- Evidence on the same variables: the observations agree, arrays may have other entries. -/
def SameKind (ev ev' : Dict Evidence) : Prop :=
  List.Forall₂ (fun p q => p.1 = q.1 ∧ (p.2 = q.2 ∨ ∃ l l', p.2 = .soft l ∧ q.2 = .soft l')) ev ev'

/-- all likelihoods are positive -/
def PositiveEvidence (ev : Dict Evidence) : Prop :=
  ∀ v l, (v, Evidence.soft l) ∈ ev → ∀ x ∈ l, 0 < x

/-- Every variable of the list is d-separated from all later ones. -/
def BN.Scattered (bn : BN) (ev : Dict Evidence) : List Name → Prop
  | [] => True
  | v :: vs => bn.DSeparated ev [v] vs ∧ BN.Scattered bn ev vs

end Primo
