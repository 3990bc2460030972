import Verif.Lemmas.SpecFile
import Verif.Spec.Network

/-!
# Networks that differ only in their object identities have the same posteriors
-/

namespace Primo

/-- the part of a node that the joint distribution depends on -/
def NodeV.core (n : NodeV) : Name × List Val × List Name × NDArray :=
  (n.name, n.values, n.parentOrder, n.cpd)

theorem names_congr {bn bn' : BN} (h : bn.map NodeV.core = bn'.map NodeV.core) :
    bn.names = bn'.names := by
  have := congrArg (List.map Prod.fst) h
  rw [List.map_map, List.map_map] at this
  exact this

theorem lab_eq_core (bn : BN) (v : Name) : bn.lab v =
    (((bn.map NodeV.core).find? fun c => c.1 = v).map fun c => c.2.1).getD [] := by
  rw [List.find?_map, BN.lab]
  show _ = (Option.map _ (Option.map _ (bn.find? fun n => n.name = v))).getD []
  cases bn.find? fun n => n.name = v <;> rfl

theorem lab_congr {bn bn' : BN} (h : bn.map NodeV.core = bn'.map NodeV.core) : bn.lab = bn'.lab := by
  funext v
  rw [lab_eq_core, lab_eq_core, h]

theorem posterior_congr {bn bn' : BN} (h : bn.map NodeV.core = bn'.map NodeV.core)
    (ev : Dict Evidence) (Q : List Name) (σ : Assign) : posterior bn ev Q σ = posterior bn' ev Q σ := by
  have h1 : ∀ τ, (bn.map fun n => n.entry τ) = bn'.map fun n => n.entry τ := by
    intro τ
    have := congrArg (List.map fun c : Name × List Val × List Name × NDArray =>
      c.2.2.2.get (τ c.1 :: c.2.2.1.map τ)) h
    rw [List.map_map, List.map_map] at this
    exact this
  have h2 : weight bn ev = weight bn' ev := by
    funext τ
    unfold weight
    rw [h1, lab_congr h]
  have h3 : bn.card = bn'.card := by
    funext v; unfold BN.card; rw [lab_congr h]
  unfold posterior totalWeight
  rw [h2, h3, names_congr h]

theorem core_view {d : NetDoc} (hc : d.net.Coherent) : d.net.view.map NodeV.core =
    d.nodes.map fun r => (r.name, r.values, r.parentOrder, r.cpd) := by
  unfold Net.view NetDoc.nodes
  rw [hc.graph, List.map_map, List.map_map]
  rfl

theorem posterior_back {keep : Bool} {d d' : NetDoc} (hc : d.net.Coherent) (h : d.Back keep d')
    (ev : Dict Evidence) (Q : List Name) (σ : Assign) :
    posterior d'.net.view ev Q σ = posterior d.net.view ev Q σ := by
  refine posterior_congr ?_ ev Q σ
  rw [core_view hc, core_view h.coherent, h.nodes, List.map_map]
  rfl

end Primo
