import Verif.Spec.Joint

/-!
# Specification vocabulary: decision networks

Nothing here refers to how the code computes anything.
-/

namespace Primo

namespace BN

/-- the chance and decision nodes of a decision network -/
def chance (dn : BN) : BN := dn.filter fun n => n.kind ≠ .utility

/-- the utility nodes of a decision network -/
def utils (dn : BN) : BN := dn.filter fun n => n.kind = .utility

end BN

/-- the utility stored for the parents' outcomes `σ` -/
def NodeV.utility (n : NodeV) (σ : Assign) : ℚ := n.cpd.get (n.parentOrder.map σ)

/-- A consistent decision network: distinct names, the chance and decision nodes form a consistent
network, and every utility node has distinct chance or decision nodes as parents, knows their
outcomes and has a table with one axis per parent. -/
structure DNConsistent (dn : BN) : Prop where
  nodup : dn.names.Nodup
  chance : dn.chance.Consistent
  parents_nodup : ∀ n ∈ dn.utils, n.parentOrder.Nodup
  parents_mem : ∀ n ∈ dn.utils, ∀ p ∈ n.parentOrder, p ∈ dn.chance.names
  parents_val : ∀ n ∈ dn.utils, ∀ p ∈ n.parentOrder, n.parents.get? p = some (dn.chance.lab p)
  shape : ∀ n ∈ dn.utils, n.cpd.shape = n.parentOrder.map dn.chance.card

/-- the sum of all utilities for the instantiation `σ` -/
def totalUtility (dn : BN) (σ : Assign) : ℚ := (dn.utils.map fun n => n.utility σ).sum

/-- the sum over all instantiations of the product of all probability tables and decision rules -/
def mass (dn : BN) : ℚ :=
  sumOver dn.chance.card dn.chance.names.toFinset (joint dn.chance) fun _ => 0

/-- the sum over all instantiations of the product of all probability tables and decision rules
times the sum of all utilities -/
def utilityMass (dn : BN) : ℚ :=
  sumOver dn.chance.card dn.chance.names.toFinset
    (fun τ => joint dn.chance τ * totalUtility dn τ) fun _ => 0

/-- `(φ, μ)` is a joint factor over variables with outcome labels `lab`: both parts are tables over
the same variables, and the probability part is non-negative. -/
structure JointOver (lab : Name → List Val) (f : Factor × Factor) : Prop where
  prob : f.1.Over lab
  util : f.2.Over lab
  scope : ∀ v, v ∈ f.2.variableOrder ↔ v ∈ f.1.variableOrder
  nonneg : ∀ σ, Legal (fun v => (lab v).length) f.1.variableOrder σ → 0 ≤ f.1.eval σ

/-- the product of the probability parts -/
def probOf (fs : List (Factor × Factor)) (σ : Assign) : ℚ := (fs.map fun f => f.1.eval σ).prod

/-- the sum of the utility parts -/
def utilOf (fs : List (Factor × Factor)) (σ : Assign) : ℚ := (fs.map fun f => f.2.eval σ).sum

/-- the variables occurring in a set of joint factors -/
def InScope (fs : List (Factor × Factor)) (v : Name) : Prop := ∃ f ∈ fs, v ∈ f.1.variableOrder

/-- the decision rule which takes decision `x` whatever the parents are -/
def NodeV.pureRule (n : NodeV) (x : Val) : NDArray :=
  NDArray.tabulate n.cpd.shape fun idx => if idx.head? = some (n.values.idxOf x) then 1 else 0

/-- the decision rule under which all decisions are equally probable -/
def NodeV.mixedRule (n : NodeV) : NDArray :=
  NDArray.tabulate n.cpd.shape fun _ => 1 / n.values.length

/-- Decisions on distinct decision nodes of the network. -/
structure LegalDecisions (dn : BN) (D : Dict Val) : Prop where
  nodup : D.keys.Nodup
  legal : ∀ p ∈ D, ∃ n ∈ dn, n.name = p.1 ∧ n.kind = .decision ∧ p.2 ∈ n.values

/-- the network in which the decisions `D` are taken -/
def BN.decide (dn : BN) (D : Dict Val) : BN := dn.map fun n =>
  match D.get? n.name with
  | some x => { n with cpd := n.pureRule x }
  | none => n

/-- the network in which the decision nodes of `order` take the decisions fixed for them, and a random
one if none is fixed -/
def BN.mix (dn : BN) (fixed : Dict Val) (order : List Name) : BN := dn.map fun n =>
  if n.name ∈ order then
    match fixed.get? n.name with
    | some x => { n with cpd := n.pureRule x }
    | none => { n with cpd := n.mixedRule }
  else n

/-- the table (or decision rule) of the node is a probability distribution for every instantiation of
the parents -/
def NodeV.Normalised (card : Name → Nat) (n : NodeV) : Prop :=
  ∀ σ : Assign, Legal card n.parentOrder σ →
    ∑ i ∈ Finset.range n.values.length, n.cpd.get (i :: n.parentOrder.map σ) = 1

/-- A decision node without information (no parents) that has at least one decision to choose from,
all with different labels. -/
structure NodeV.FreeDecision (n : NodeV) : Prop where
  kind : n.kind = .decision
  order : n.parentOrder = []
  parents : n.parents = []
  values_ne : n.values ≠ []
  values_nodup : n.values.Nodup

/-- `order` lists decision nodes of the network, all without information. -/
def FreeOrder (dn : BN) (order : List Name) : Prop :=
  ∀ v ∈ order, ∃ d ∈ dn, d.name = v ∧ d.FreeDecision

/-- the decisions with the numbers `σ` for the decision nodes of `order` -/
def BN.strategy (dn : BN) (order : List Name) (σ : Assign) : Dict Val :=
  order.map fun v => (v, (dn.chance.lab v).getD (σ v) "")

/-- `z` is the first of the elements of `l` that maximise `g`. -/
def FirstMax (g : Val → ℚ) (l : List Val) (z : Val) : Prop :=
  ∃ pre post, l = pre ++ z :: post ∧ (∀ w ∈ pre, g w < g z) ∧ ∀ w ∈ post, g w ≤ g z

end Primo
