import Verif.JoinTree
import Verif.Spec.Forest
import Mathlib.Logic.Relation

/-!
# Specification vocabulary: junction trees stored in a `FactorTree`
-/

namespace Primo
namespace JTree

/-- the clique `nm` of the stored tree has the variables `vars`, hangs below `p` with the separator
`sep`, and its other neighbours are the roots of `kids` -/
def Fits (t : JTree) (p nm : Name) (vars sep : List Name) (kids : Forest) : Prop :=
  nm ≠ "" ∧ (t.nodes.get? nm).map JNode.vars = some vars ∧
    (t.edge nm p).map JEdge.sep = .ok sep ∧ (t.adj.nbrs nm).filter (fun k => k ≠ p) = kids.tops ∧
    sep ≠ []

/-- The part of the stored graph reachable from its first node `root` is a tree with the running
intersection property: `kids` are the subtrees below the root. -/
structure Junction (t : JTree) (root : Name) (rvars : List Name) (kids : Forest) : Prop where
  first : t.nodes.keys.head? = some root
  name : root ≠ ""
  root_vars : (t.nodes.get? root).map JNode.vars = some rvars
  nbrs : t.adj.nbrs root = kids.tops
  nodup : (root :: kids.names).Nodup
  fits : kids.All t.Fits root
  rip : kids.RIP rvars.toFinset rvars.toFinset

/-- the potential stored at a clique (1 for an unknown name) -/
def pot (t : JTree) (k : Name) (σ : Assign) : ℚ :=
  match t.nodes.get? k with
  | some n => n.factor.eval σ
  | none => 1

/-- product of all clique potentials of the tree -/
def total (t : JTree) : List Name → Assign → ℚ
  | [], _ => 1
  | k :: ks, σ => t.pot k σ * t.total ks σ

/-! ## the textbook formulation -/

/-- `k` is a clique of the tree with these variables -/
def Clique (t : JTree) (k : Name) (vars : List Name) : Prop := ∃ f, (k, JNode.mk vars f) ∈ t.nodes

/-- two cliques joined by an edge -/
def Joined (t : JTree) (a b : Name) : Prop := ∃ e ∈ t.edges, e.joins a b = true

/-- two cliques joined by an edge, both of which contain `x` -/
def JoinedAt (t : JTree) (x : Name) (a b : Name) : Prop :=
  t.Joined a b ∧ (∃ va, t.Clique a va ∧ x ∈ va) ∧ ∃ vb, t.Clique b vb ∧ x ∈ vb

/-- Separators are the intersections of the cliques they join, and the cliques containing a variable
are connected through cliques containing it. -/
structure RunningIntersection (t : JTree) : Prop where
  sep : ∀ e ∈ t.edges, ∃ a b, t.Clique e.u a ∧ t.Clique e.w b ∧ ∀ x, x ∈ e.sep ↔ x ∈ a ∧ x ∈ b
  path : ∀ x k vars k' vars', t.Clique k vars → x ∈ vars → t.Clique k' vars' → x ∈ vars' →
    Relation.ReflTransGen (t.JoinedAt x) k k'

/-- the clique is connected to the first one, at which the messages start -/
def Reached (t : JTree) (k : Name) : Prop :=
  ∃ root, t.nodes.keys.head? = some root ∧ Relation.ReflTransGen t.Joined root k

/-- two cliques that exchange messages, both of which contain `x` -/
def Informs (t : JTree) (x : Name) (a b : Name) : Prop := t.JoinedAt x a b ∧ t.Reached a

/-- A connected graph with one edge less than it has nodes. -/
structure IsTree (t : JTree) : Prop where
  keys : t.nodes.keys.Nodup
  count : t.edges.length + 1 = t.nodes.length
  connected : ∀ k ∈ t.nodes.keys, ∀ k' ∈ t.nodes.keys, Relation.ReflTransGen t.Joined k k'

end JTree
end Primo
