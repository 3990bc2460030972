import Verif.Lemmas.Clusters
import Verif.Lemmas.BuildSpec
import Verif.Lemmas.Joint

/-! # Multiplying tables and evidence into the cliques -/

namespace Primo
open JoinTree Factor

/-! ### a table without negative entries has no negative values -/

theorem Factor.Over.nonneg {lab : Name → List Val} {f : Factor} (hf : f.Over lab)
    (h : ∀ σ, Legal (cardOf lab) f.variableOrder σ → 0 ≤ f.eval σ) (σ : Assign) : 0 ≤ f.eval σ := by
  refine NDArray.get_nonneg (fun x hx => ?_) _
  rw [NDArray.data_eq, List.mem_map] at hx
  obtain ⟨idx, hidx, rfl⟩ := hx
  rw [mem_allIdx, hf.wf.shape] at hidx
  obtain ⟨τ, h1, h2⟩ := exists_assign hf.wf.nodup hidx
  rw [h2]
  exact h τ h1

namespace JTree

variable {lab : Name → List Val}

/-! ### `putFirst` -/

/-- something to be multiplied into the first clique that passes a test -/
structure Item where
  p : List Name → Bool
  f : Factor

/-- names and variables of the cliques -/
def skel (ns : Dict JNode) : List (Name × List Name) := ns.map fun q => (q.1, q.2.vars)

/-- the clique an item goes to -/
def home (sk : List (Name × List Name)) (it : Item) : Option Name :=
  (sk.find? fun q => it.p q.2).map Prod.fst

theorem home_mem {sk : List (Name × List Name)} {it : Item} {k : Name} (h : home sk it = some k) :
    ∃ vars, (k, vars) ∈ sk ∧ it.p vars = true := by
  unfold home at h
  rw [Option.map_eq_some_iff] at h
  obtain ⟨q, h1, rfl⟩ := h
  exact ⟨q.2, List.mem_of_find?_eq_some h1, by simpa using List.find?_some h1⟩

theorem home_some {sk : List (Name × List Name)} {it : Item} {k : Name} {vars : List Name}
    (h : (k, vars) ∈ sk) (hp : it.p vars = true) : ∃ k', home sk it = some k' := by
  unfold home
  cases hf : sk.find? fun q => it.p q.2 with
  | none => exact absurd hp (by simpa using List.find?_eq_none.1 hf _ h)
  | some q => exact ⟨q.1, rfl⟩

theorem putFirst_spec (so : SetOrder) (it : Item) (ns : Dict JNode) (hn : ns.keys.Nodup)
    (ho : ∀ q ∈ ns, q.2.factor.Over lab) (hf : it.f.Over lab) :
    ∃ ns', putFirst so it.p it.f ns = .ok ns' ∧ skel ns' = skel ns ∧
      ∀ k n', (k, n') ∈ ns' → ∃ n, (k, n) ∈ ns ∧ n'.vars = n.vars ∧
        (home (skel ns) it = some k → n.factor.mul so it.f = .ok n'.factor) ∧
        (home (skel ns) it ≠ some k → n'.factor = n.factor) := by
  induction ns with
  | nil => exact ⟨[], rfl, rfl, by simp⟩
  | cons q ns ih =>
    obtain ⟨k, n⟩ := q
    simp only [Dict.keys_cons, List.nodup_cons] at hn
    rw [putFirst]
    by_cases hp : it.p n.vars = true
    · obtain ⟨g, g1, g2, g3, g4⟩ := mul_over so (ho (k, n) (by simp)) hf
      have hh : home (skel ((k, n) :: ns)) it = some k := by
        simp [home, skel, hp]
      rw [if_pos hp, g1, ok_bind]
      refine ⟨_, rfl, rfl, fun k' n' hm => ?_⟩
      rcases List.mem_cons.1 hm with h | h
      · injection h with h1 h2
        subst h1; subst h2
        exact ⟨n, by simp, rfl, fun _ => g1, fun h => absurd hh h⟩
      · refine ⟨n', by simp [h], rfl, fun h' => ?_, fun _ => rfl⟩
        rw [hh, Option.some.injEq] at h'
        exact absurd (h' ▸ List.mem_map_of_mem (f := Prod.fst) h) hn.1
    · rw [if_neg hp]
      obtain ⟨ns', h1, h2, h3⟩ := ih hn.2 fun q hq => ho q (by simp [hq])
      have hh : home (skel ((k, n) :: ns)) it = home (skel ns) it := by
        simp [home, skel, hp]
      rw [h1, ok_bind]
      refine ⟨_, rfl, by simp only [skel, List.map_cons] at h2 ⊢; rw [h2], fun k' n' hm => ?_⟩
      rw [hh]
      rcases List.mem_cons.1 hm with h | h
      · injection h with e1 e2
        subst e1; subst e2
        refine ⟨n', by simp, rfl, fun h' => ?_, fun _ => rfl⟩
        obtain ⟨vars, hv, -⟩ := home_mem h'
        obtain ⟨q, hq, hq'⟩ := List.mem_map.1 hv
        injection hq' with e1
        exact absurd (e1 ▸ List.mem_map_of_mem (f := Prod.fst) hq) hn.1
      · obtain ⟨m, m1, m2⟩ := h3 k' n' h
        exact ⟨m, by simp [m1], m2⟩

/-! ### the contents of the cliques -/

/-- every clique holds the product of the items that go to it -/
def Contents (lab : Name → List Val) (items : List Item) (ns : Dict JNode) : Prop :=
  ∀ k n, (k, n) ∈ ns → n.factor.Over lab ∧
    (∀ v, v ∈ n.factor.variableOrder ↔
      ∃ it ∈ items, home (skel ns) it = some k ∧ v ∈ it.f.variableOrder) ∧
    ∀ σ, Legal (cardOf lab) n.factor.variableOrder σ → n.factor.eval σ =
      ((items.filter fun it => home (skel ns) it = some k).map fun it => it.f.eval σ).prod

theorem keys_of_skel {ns ns' : Dict JNode} (h : skel ns' = skel ns) : ns'.keys = ns.keys := by
  have := congrArg (List.map Prod.fst) h
  simpa [skel, Dict.keys, Function.comp_def] using this

theorem Contents.put (so : SetOrder) {items : List Item} {ns : Dict JNode} (hc : Contents lab items ns)
    (hn : ns.keys.Nodup) {it : Item} (hf : it.f.Over lab) :
    ∃ ns', putFirst so it.p it.f ns = .ok ns' ∧ skel ns' = skel ns ∧
      Contents lab (items ++ [it]) ns' := by
  obtain ⟨ns', h1, h2, h3⟩ := putFirst_spec so it ns hn (fun q hq => (hc q.1 q.2 hq).1) hf
  refine ⟨ns', h1, h2, fun k n' hm => ?_⟩
  obtain ⟨n, n1, n2, n3, n4⟩ := h3 k n' hm
  obtain ⟨c1, c2, c3⟩ := hc k n n1
  rw [h2]
  by_cases hh : home (skel ns) it = some k
  · obtain ⟨g, g1, g2, g3, g4⟩ := mul_over so c1 hf
    rw [n3 hh] at g1
    injection g1 with g1
    subst g1
    refine ⟨g2, fun v => ?_, fun σ hσ => ?_⟩
    · rw [g3, c2]
      simp only [List.mem_append, List.mem_singleton, or_and_right, exists_or, exists_eq_left, hh,
        true_and]
    · rw [g4 σ hσ, c3 σ fun v hv => hσ v ((g3 v).2 (Or.inl hv)), List.filter_append, List.map_append,
        List.prod_append]
      simp [hh]
  · rw [n4 hh]
    refine ⟨c1, fun v => ?_, fun σ hσ => ?_⟩
    · rw [c2]
      simp only [List.mem_append, List.mem_singleton, or_and_right, exists_or, exists_eq_left, hh,
        false_and, or_false]
    · rw [c3 σ hσ, List.filter_append]
      simp [hh]

theorem forEach_put (so : SetOrder) {α : Type} (step : α → JTree → JRes) (item : α → Item)
    (xs : List α) (t : JTree) (items : List Item) (hn : t.nodes.keys.Nodup)
    (hc : Contents lab items t.nodes)
    (hs : ∀ x ∈ xs, ∀ t : JTree, step x t = JRes.ofExcept t (do
      let ns ← putFirst so (item x).p (item x).f t.nodes
      return { t with nodes := ns }))
    (hf : ∀ x ∈ xs, (item x).f.Over lab) :
    ∃ ns', JRes.forEach step xs t = ({ t with nodes := ns' }, none) ∧ skel ns' = skel t.nodes ∧
      Contents lab (items ++ xs.map item) ns' := by
  induction xs generalizing t items with
  | nil => exact ⟨t.nodes, rfl, rfl, by simpa using hc⟩
  | cons x xs ih =>
    obtain ⟨ns1, a1, a2, a3⟩ := hc.put so hn (hf x (by simp))
    have h1 : step x t = ({ t with nodes := ns1 }, none) := by
      rw [hs x (by simp) t, a1]; rfl
    obtain ⟨ns', b1, b2, b3⟩ := ih { t with nodes := ns1 } (items ++ [item x])
      (by rw [keys_of_skel a2]; exact hn) a3 (fun y hy => hs y (by simp [hy]))
      (fun y hy => hf y (by simp [hy]))
    refine ⟨ns', ?_, b2.trans a2, by simpa using b3⟩
    rw [JRes.forEach, h1, JTree.andThen_ok, b1]

theorem skel_blank (t : JTree) : skel t.blank.nodes = skel t.nodes := by
  simp [skel, blank, Function.comp_def]

theorem contents_blank (t : JTree) : Contents lab [] t.blank.nodes := by
  intro k n hm
  obtain ⟨q, hq, hq'⟩ := List.mem_map.1 hm
  injection hq' with h1 h2
  subst h2
  exact ⟨trivial_over 1, by simp, by simp⟩

/-- the table of a node as an item -/
def nodeItem (n : NodeV) : Item :=
  match Factor.fromNode n with
  | .ok f => ⟨fun vars => sub f.values.keys vars, f⟩
  | .error _ => ⟨fun _ => false, Factor.trivial 1⟩

theorem nodeItem_spec {bn : BN} (hc : bn.Consistent) {n : NodeV} (hn : n ∈ bn) :
    Factor.fromNode n = .ok (nodeItem n).f ∧ (nodeItem n).f.Over bn.lab ∧
      (nodeItem n).f.variableOrder = n.family ∧ (∀ σ, (nodeItem n).f.eval σ = n.entry σ) ∧
      (nodeItem n).p = (fun vars => sub (nodeItem n).f.values.keys vars) ∧
      ∀ vars, (nodeItem n).p vars = true ↔ ∀ x ∈ n.family, x ∈ vars := by
  obtain ⟨f, h1, h2, h3, h4⟩ := fromNode_over hc hn
  have hi : nodeItem n = ⟨fun vars => sub f.values.keys vars, f⟩ := by
    unfold nodeItem; rw [h1]
  rw [hi]
  refine ⟨h1, h2, h3, h4, rfl, fun vars => ?_⟩
  dsimp only
  rw [sub_iff]
  constructor
  · intro h x hx
    exact h x (h2.wf.mem_keys.2 (h3 ▸ hx))
  · intro h x hx
    exact h x (by rw [NodeV.family, ← h3]; exact h2.wf.mem_keys.1 hx)

/-- the factors of `create_jointree` and `reset_factors` -/
theorem loadTables (so : SetOrder) {bn : BN} (hc : bn.Consistent) {t : JTree} (hn : t.nodes.keys.Nodup)
    (h0 : Contents bn.lab [] t.nodes) :
    ∃ fs ns', bn.mapM Factor.fromNode = .ok fs ∧
      JRes.forEach (putFactor so) fs t = ({ t with nodes := ns' }, none) ∧
      skel ns' = skel t.nodes ∧ Contents bn.lab (bn.map nodeItem) ns' := by
  obtain ⟨ns', h1, h2, h3⟩ := forEach_put (lab := bn.lab) so (putFactor so)
    (fun f => ⟨fun vars => sub f.values.keys vars, f⟩) (bn.map fun n => (nodeItem n).f) t [] hn h0
    (fun x _ t => rfl) (by
      intro f hf
      obtain ⟨n, hn', rfl⟩ := List.mem_map.1 hf
      exact (nodeItem_spec hc hn').2.1)
  refine ⟨_, ns', mapM_ok fun n hn' => (nodeItem_spec hc hn').1, h1, h2, ?_⟩
  have : (bn.map fun n => (nodeItem n).f).map
      (fun f => (⟨fun vars => sub f.values.keys vars, f⟩ : Item)) = bn.map nodeItem := by
    rw [List.map_map]
    refine List.map_congr_left fun n hn' => ?_
    have := (nodeItem_spec hc hn').2.2.2.2.1
    rw [Function.comp_apply, ← this]
  rw [List.nil_append, this] at h3
  exact h3

/-- `reset_factors` -/
theorem reset_spec (so : SetOrder) {bn : BN} (hc : bn.Consistent) {t : JTree} (hn : t.nodes.keys.Nodup) :
    ∃ ns', reset so bn t = ({ t.blank with nodes := ns', valid := false }, none) ∧
      skel ns' = skel t.nodes ∧ Contents bn.lab (bn.map nodeItem) ns' := by
  obtain ⟨fs, ns', h1, h2, h3, h4⟩ := loadTables so hc (t := t.blank)
    (by rw [keys_of_skel (skel_blank t)]; exact hn) (contents_blank t)
  refine ⟨ns', ?_, h3.trans (skel_blank t), h4⟩
  rw [reset, h1]
  dsimp only
  rw [h2, JTree.andThen_ok]

/-- one piece of evidence as an item -/
def evItem (bn : BN) (e : Name × Evidence) : Item :=
  match Factor.asEvidence e.1 (bn.lab e.1) e.2 with
  | .ok f => ⟨fun vars => vars.contains e.1, f⟩
  | .error _ => ⟨fun _ => false, Factor.trivial 1⟩

theorem evItem_spec {bn : BN} {ev : Dict Evidence} (he : LegalEvidence bn ev)
    {e : Name × Evidence} (hm : e ∈ ev) :
    Factor.asEvidence e.1 (bn.lab e.1) e.2 = .ok (evItem bn e).f ∧ (evItem bn e).f.Over bn.lab ∧
      (evItem bn e).f.variableOrder = [e.1] ∧
      (∀ σ, σ e.1 < bn.card e.1 → (evItem bn e).f.eval σ = lik (bn.lab e.1) e.2 (σ e.1)) ∧
      (evItem bn e).p = (fun vars => vars.contains e.1) ∧
      ∀ vars, (evItem bn e).p vars = true ↔ e.1 ∈ vars := by
  obtain ⟨f, h1, h2, h3, h4⟩ := asEvidence_over (bn := bn) (v := e.1) (e := e.2)
    (fun x hx => he.hard e.1 x (hx ▸ hm)) (fun l hl => he.soft e.1 l (hl ▸ hm))
  have hi : evItem bn e = ⟨fun vars => vars.contains e.1, f⟩ := by
    unfold evItem; rw [h1]
  rw [hi]
  exact ⟨h1, h2, h3, h4, rfl, by simp⟩

/-- all pieces of evidence -/
theorem loadEvidence (so : SetOrder) {bn : BN} (hc : bn.Consistent) {ev : Dict Evidence}
    (he : LegalEvidence bn ev) {t : JTree} (hn : t.nodes.keys.Nodup) {items : List Item}
    (h0 : Contents bn.lab items t.nodes) :
    ∃ ns', JRes.forEach (putEvidence so bn []) ev t = ({ t with nodes := ns' }, none) ∧
      skel ns' = skel t.nodes ∧ Contents bn.lab (items ++ ev.map (evItem bn)) ns' := by
  refine forEach_put (lab := bn.lab) so _ (evItem bn) ev t items hn h0 (fun e hm t => ?_)
    fun e hm => (evItem_spec he hm).2.1
  obtain ⟨h1, h2, h3, h4, h5, h6⟩ := evItem_spec he hm
  obtain ⟨n, hn', hnm⟩ := BN.exists_of_mem_names (he.mem e hm)
  have hg : bn.getNode e.1 = .ok n := by rw [← hnm]; exact BN.getNode_ok hc.nodup hn'
  have hlab : n.values = bn.lab e.1 := by rw [← hnm, BN.lab_eq hc.nodup hn']
  unfold putEvidence
  rw [hg, ok_bind, hlab, show Dict.get? ([] : Dict NDArray) e.1 = none from rfl, h1, ok_bind, h5]

end JTree
end Primo
