import Verif.Spec.Dynamic

/-!
# Specification vocabulary: the unrolled dynamic network

All slices up to a given one in a single network.  A transition `(node, node_p)` means that `node` in a
slice is a copy of `node_p` in the slice before.  Nothing here refers to an inference method.
-/

namespace Primo

/-- `tag k v` is the name of variable `v` of slice `k`: any naming that keeps all of them apart -/
def Tagging (tag : Nat → Name → Name) : Prop :=
  ∀ k v k' v', tag k v = tag k' v' → k = k' ∧ v = v'

/-- a node under other names (`children` is not used by the definition of a posterior) -/
def NodeV.tagged (f : Name → Name) (n : NodeV) : NodeV :=
  { n with
    name := f n.name
    parentOrder := n.parentOrder.map f
    parents := n.parents.map fun p => (f p.1, p.2)
    children := [] }

/-- the table of a node that copies its only parent: 1 on the diagonal -/
def copyingTable (n : Nat) : NDArray :=
  NDArray.tabulate [n, n] fun idx => if idx[0]? = idx[1]? then 1 else 0

namespace DBN

/-- where the target of a transition gets its value from -/
def sourceOf (d : DBN) (v : Name) : Option Name :=
  (d.transitions.find? fun tr => decide (tr.1 = v)).map Prod.snd

/-- A node of slice `k + 1` of the unrolled network: the target of a transition copies the source in
slice `k`, all other nodes are those of the two-slice network. -/
def linked (d : DBN) (tag : Nat → Name → Name) (k : Nat) (n : NodeV) : NodeV :=
  match d.sourceOf n.name with
  | none => n.tagged (tag (k + 1))
  | some p =>
    { name := tag (k + 1) n.name
      values := n.values
      parentOrder := [tag k p]
      parents := [(tag k p, (d.slice k).lab p)]
      cpd := copyingTable n.values.length }

/-- the network of the slices `0, …, k` -/
def unrolled (d : DBN) (tag : Nat → Name → Name) : Nat → BN
  | 0 => d.b0.map (NodeV.tagged (tag 0))
  | k + 1 => unrolled d tag k ++ d.twoTbn.map (d.linked tag k)

end DBN

/-- the evidence of all slices together -/
def taggedEvidence (tag : Nat → Name → Name) (es : List (Dict Evidence)) : Dict Evidence :=
  es.zipIdx.flatMap fun x => x.1.map fun p => (tag x.2 p.1, p.2)

/-- In every slice left so far, the posterior of all transition sources together is the product of
their single posteriors. -/
def DBN.Splits (d : DBN) (es : List (Dict Evidence)) : Prop :=
  ∀ past e rest net two, es = past ++ e :: rest → Slices d past net two →
    ∀ σ, Legal net.card (d.transitions.map Prod.snd) σ →
      posterior net e (d.transitions.map Prod.snd) σ =
        (d.transitions.map fun tr => posterior net e [tr.2] σ).prod

/-- evidence of all slices with every array read as the posterior it shall produce (`softened`) -/
def DBN.softenedAll (d : DBN) (es : List (Dict Evidence)) : List (Dict Evidence) :=
  es.mapIdx fun k e => softened (d.slice k) e

/-- no evidence on a transition target after the first slice -/
def DBN.Spares (d : DBN) (es : List (Dict Evidence)) : Prop :=
  ∀ j e, 0 < j → es[j]? = some e → ∀ tr ∈ d.transitions, tr.1 ∉ e.keys

end Primo
