import Verif.Lemmas.Query

/-! # `set_evidence` and `reset_factors` on a join tree of the network -/

namespace Primo
open JoinTree Factor Finset

namespace JTree

variable {bn : BN} {t : JTree} {root : Name} {rvars : List Name} {kids : Forest} {others : List Name}
  {Φ Ψ W : Assign → ℚ}

theorem Ready.congr (hr : Ready bn t root rvars kids others Φ Ψ W) {W' : Assign → ℚ}
    (h : ∀ σ, Legal bn.card bn.names σ → W σ = W' σ) : Ready bn t root rvars kids others Φ Ψ W' :=
  { hr with prod := fun σ hσ => (hr.prod σ hσ).trans (h σ hσ) }

theorem skel_shape {t t' : JTree} {ns : Dict JNode} {b : Bool} (h : skel ns = skel t.nodes)
    (he : t' = { t.blank with nodes := ns, valid := b }) : t'.shape = t.shape := by
  subst he
  unfold shape
  have h' := h
  unfold skel at h'
  simp only [blank, List.map_map]
  rw [h']
  rfl

/-- the state of a tree after `reset_factors` -/
theorem Sits.reset (so : SetOrder) (hc : bn.Consistent) (hs : Sits bn t root rvars kids others) :
    ∃ t', JTree.reset so bn t = (t', none) ∧ t'.shape = t.shape ∧ t'.valid = false ∧
      Contents bn.lab (bn.map nodeItem) t'.nodes ∧ ∀ e ∈ t'.edges, e.factor = Factor.trivial 1 := by
  obtain ⟨ns, h1, h2, h3⟩ := reset_spec so hc hs.nodup
  refine ⟨_, h1, skel_shape h2 rfl, rfl, h3, fun e he => ?_⟩
  obtain ⟨e', -, rfl⟩ := List.mem_map.1 he
  rfl

theorem Sits.home (hs : Sits bn t root rvars kids others) {it : Item} {v : Name} (hv : v ∈ bn.names)
    (hp : ∀ vars, v ∈ vars → it.p vars = true) : ∃ k, JTree.home (skel t.nodes) it = some k := by
  obtain ⟨n, hn, rfl⟩ := BN.exists_of_mem_names hv
  obtain ⟨q, hq, hqf⟩ := hs.fam n hn
  exact home_some (k := q.1) (vars := q.2) hq (hp _ (hqf _ (by simp [NodeV.family])))

theorem evItem_ok (hs : Sits bn t root rvars kids others) {ev : Dict Evidence}
    (he : LegalEvidence bn ev) (hen : NonNegEvidence ev) {e : Name × Evidence} (hm : e ∈ ev) :
    ItemOK bn.lab (skel t.nodes) (evItem bn e) := by
  obtain ⟨h1, h2, h3, h4, h5, h6⟩ := evItem_spec he hm
  refine ⟨h2, fun vars hv v hvv => ?_, hs.home (he.mem e hm) fun vars hv => (h6 vars).2 hv, fun σ hσ => ?_, by rw [h3]; simp⟩
  · rw [h3, List.mem_singleton] at hvv
    exact hvv ▸ (h6 vars).1 hv
  · rw [h4 σ (hσ e.1 (by rw [h3]; simp))]
    exact lik_nonneg (fun l hl => hen e.1 l (hl ▸ hm)) _

theorem prod_evItem {ev : Dict Evidence} (he : LegalEvidence bn ev) {σ : Assign}
    (hσ : Legal bn.card bn.names σ) :
    ((ev.map (evItem bn)).map fun it => it.f.eval σ).prod =
      (ev.map fun p => lik (bn.lab p.1) p.2 (σ p.1)).prod := by
  rw [List.map_map]
  congr 1
  exact List.map_congr_left fun e hm => (evItem_spec he hm).2.2.2.1 σ (hσ e.1 (he.mem e hm))

/-- `set_evidence` without `softPosteriors`. -/
theorem setEvidence_spec (so : SetOrder) (hc : bn.Consistent) (hnn : bn.NonNeg)
    (hs : Sits bn t root rvars kids others) {ev : Dict Evidence} (he : LegalEvidence bn ev)
    (hen : NonNegEvidence ev) {limit : Nat} (hl : kids.depth < limit) :
    ∃ t' Φ Ψ, setEvidence so limit bn ev false t = (t', none) ∧ t'.shape = t.shape ∧
      Ready bn t' root rvars kids others Φ Ψ (weight bn ev) := by
  obtain ⟨t1, a1, a2, a3, a4, a5⟩ := hs.reset so hc
  have hs1 := hs.of_shape a2
  obtain ⟨ns, b1, b2, b3⟩ := loadEvidence so hc he hs1.nodup a4
  set t2 : JTree := { t1 with nodes := ns } with ht2
  have hsh : t2.shape = t1.shape := by
    unfold shape
    have := b2
    unfold skel at this
    rw [ht2]
    dsimp only
    rw [this]
  have hs2 := hs1.of_shape hsh
  obtain ⟨t', Φ, Ψ, c1, c2, c3⟩ := ready_of_calibrate so hc hnn hs2 (extra := ev.map (evItem bn)) b3
    (fun it hit => by
      obtain ⟨e, hm, rfl⟩ := List.mem_map.1 hit
      exact evItem_ok hs2 he hen hm) a5 hl
  refine ⟨t', Φ, Ψ, ?_, c2.trans (hsh.trans a2), c3.congr fun σ hσ => ?_⟩
  · unfold setEvidence
    rw [a1, andThen_ok, if_neg (by simp), b1, andThen_ok, c1]
  · rw [weight, prod_evItem he hσ]

/-- a tree holding the tables only -/
theorem calculate_tables (so : SetOrder) (hc : bn.Consistent) (hnn : bn.NonNeg)
    (hs : Sits bn t root rvars kids others) (hct : Contents bn.lab (bn.map nodeItem) t.nodes)
    (het : ∀ e ∈ t.edges, e.factor = Factor.trivial 1) {limit : Nat} (hl : kids.depth < limit) :
    ∃ t' Φ Ψ, calculate so limit t = (t', none) ∧ t'.shape = t.shape ∧
      Ready bn t' root rvars kids others Φ Ψ (weight bn []) := by
  obtain ⟨t', Φ, Ψ, c1, c2, c3⟩ := ready_of_calibrate so hc hnn hs (extra := []) (by simpa using hct)
    (by simp) het hl
  exact ⟨t', Φ, Ψ, c1, c2, c3.congr fun σ _ => by simp [weight]⟩

/-- answers of a calibrated tree are posteriors -/
theorem Ready.posterior (so : SetOrder) {ev : Dict Evidence}
    (hr : Ready bn t root rvars kids others Φ Ψ (weight bn ev)) {vs : List Name}
    (h : ∃ q ∈ skel t.nodes, q.1 ∉ others ∧ ∀ x ∈ vs, x ∈ q.2)
    (ho : others = [] ∨ ∀ σ, 0 < totalWeight bn ev σ) (limit : Nat) :
    ∃ r, t.marginals so limit vs = (t, .ok r) ∧ r.Over bn.lab ∧ (∀ v, v ∈ r.variableOrder ↔ v ∈ vs) ∧
      ∀ σ, Legal bn.card vs σ → r.eval σ = Primo.posterior bn ev vs σ := by
  obtain ⟨r, h1, h2, h3, h4⟩ := hr.exact so h ho
  refine ⟨r, ?_, h2, h3, h4⟩
  unfold JTree.marginals
  rw [if_pos hr.valid]
  dsimp only
  rw [h1]

end JTree
end Primo
