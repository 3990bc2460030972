import Verif.BN
import Verif.Spec.Sum

/-!
# Specification vocabulary: consistent networks and the posterior they define

Nothing here refers to an inference algorithm.
-/

namespace Primo

namespace BN

/-- the outcome labels of variable `v` -/
def lab (bn : BN) (v : Name) : List Val :=
  match bn.find? (fun n => n.name = v) with
  | some n => n.values
  | none => []

/-- the number of outcomes of variable `v` -/
def card (bn : BN) (v : Name) : Nat := (bn.lab v).length

/-- A consistent network: distinct names; each node's parents are distinct other nodes of the
network; it knows their outcomes; and its table has one axis for itself and one per parent. -/
structure Consistent (bn : BN) : Prop where
  nodup : bn.names.Nodup
  kind : ∀ n ∈ bn, n.kind ≠ .utility
  parents_nodup : ∀ n ∈ bn, n.parentOrder.Nodup
  self : ∀ n ∈ bn, n.name ∉ n.parentOrder
  parents_mem : ∀ n ∈ bn, ∀ p ∈ n.parentOrder, p ∈ bn.names
  parents_val : ∀ n ∈ bn, ∀ p ∈ n.parentOrder, n.parents.get? p = some (bn.lab p)
  shape : ∀ n ∈ bn, n.cpd.shape = n.values.length :: n.parentOrder.map bn.card

end BN

/-- `P(n = σ(n) | parents = σ(parents))` as stored in the table: own outcome first, then the
parents in `parentOrder`. -/
def NodeV.entry (n : NodeV) (σ : Assign) : ℚ := n.cpd.get (σ n.name :: n.parentOrder.map σ)

/-- The likelihood which a piece of evidence gives to outcome number `i`. -/
def lik (values : List Val) (e : Evidence) (i : Nat) : ℚ :=
  match e with
  | .hard x => if values[i]? = some x ∧ ∀ j < i, values[j]? ≠ some x then 1 else 0
  | .soft l => l.getD i 0

/-- Evidence the documentation allows: on distinct nodes of the network, an existing outcome or an
array with one entry per outcome. -/
structure LegalEvidence (bn : BN) (ev : Dict Evidence) : Prop where
  nodup : ev.keys.Nodup
  mem : ∀ p ∈ ev, p.1 ∈ bn.names
  hard : ∀ v x, (v, Evidence.hard x) ∈ ev → x ∈ bn.lab v
  soft : ∀ v l, (v, Evidence.soft l) ∈ ev → l.length = bn.card v

/-- The product of all table entries and all evidence likelihoods at `σ`. -/
def weight (bn : BN) (ev : Dict Evidence) (σ : Assign) : ℚ :=
  (bn.map fun n => n.entry σ).prod * (ev.map fun p => lik (bn.lab p.1) p.2 (σ p.1)).prod

/-- `Σ` of the weight over all instantiations of the network. -/
def totalWeight (bn : BN) (ev : Dict Evidence) (σ : Assign) : ℚ :=
  sumOver bn.card bn.names.toFinset (weight bn ev) σ

/-- The posterior of the query variables `Q` at `σ`: sum out everything else and divide by the total
weight if that is positive. -/
def posterior (bn : BN) (ev : Dict Evidence) (Q : List Name) (σ : Assign) : ℚ :=
  let M := sumOver bn.card (bn.names.toFinset \ Q.toFinset) (weight bn ev) σ
  let Z := totalWeight bn ev σ
  if 0 < Z then M / Z else M

/-- A factor over variables with outcome labels `lab`: well-formed with these labels. -/
structure Factor.Over (lab : Name → List Val) (f : Factor) : Prop where
  wf : f.WF fun v => (lab v).length
  val : ∀ v ∈ f.variableOrder, f.values.get? v = some (lab v)

end Primo
