import Verif.Spec.Sum

/-!
# Specification vocabulary: rooted clique trees

Independent of how `exact.py` stores a join tree and passes messages.
-/

namespace Primo

/-- A rooted forest of cliques: the first tree has a root called `nm` with variables `vars`, is
attached to its parent through the separator `sep`, and has the subtrees `kids`; `rest` are the
other trees. -/
inductive Forest
  | nil
  | cons (nm : Name) (vars sep : List Name) (kids rest : Forest)
  deriving DecidableEq

namespace Forest

/-- names of the roots -/
def tops : Forest → List Name
  | nil => []
  | cons nm _ _ _ rest => nm :: rest.tops

/-- names of all cliques -/
def names : Forest → List Name
  | nil => []
  | cons nm _ _ kids rest => nm :: (kids.names ++ rest.names)

/-- all variables -/
def scope : Forest → Finset Name
  | nil => ∅
  | cons _ vars _ kids rest => vars.toFinset ∪ kids.scope ∪ rest.scope

/-- separators of the roots -/
def seps : Forest → Finset Name
  | nil => ∅
  | cons _ _ sep _ rest => sep.toFinset ∪ rest.seps

/-- length of the longest path -/
def depth : Forest → Nat
  | nil => 0
  | cons _ _ _ kids rest => max (kids.depth + 1) rest.depth

/-- `Q parent name vars sep kids` holds for every clique -/
def All (Q : Name → Name → List Name → List Name → Forest → Prop) : Name → Forest → Prop
  | _, nil => True
  | p, cons nm vars sep kids rest => Q p nm vars sep kids ∧ All Q nm kids ∧ All Q p rest

/-- Running intersection for a forest that hangs below a clique with variables `P` in a tree whose
other cliques have the variables `W`: a separator is part of both cliques it joins, and whatever a
subtree has in common with the rest of the tree is in the separator of its root. -/
def RIP : Finset Name → Finset Name → Forest → Prop
  | _, _, nil => True
  | P, W, cons _ vars sep kids rest =>
    (vars.toFinset ∪ kids.scope) ∩ (W ∪ rest.scope) ⊆ sep.toFinset ∧
    sep.toFinset ⊆ vars.toFinset ∩ P ∧
    RIP vars.toFinset (W ∪ rest.scope ∪ vars.toFinset) kids ∧
    RIP P (W ∪ vars.toFinset ∪ kids.scope) rest

end Forest
end Primo
