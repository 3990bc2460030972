import Verif.Lemmas.Build

/-! # The tree construction of `create_jointree`: the result is a junction tree -/

namespace Primo
open Finset JoinTree
namespace JTree

theorem links_scope {L : List (List Name)} {p : Name} {f : Forest}
    (h : f.All (fun _ nm vars sep _ => nm = clusterName vars ∧
      ∃ cs, cs ≠ [] ∧ (vars :: cs) <:+ L ∧ sep = shared vars cs) p) :
    ∀ x ∈ f.scope, ∃ c ∈ L, x ∈ c := by
  induction f generalizing p with
  | nil => intro x hx; simp [Forest.scope] at hx
  | cons a b c kids rest ihk ihr =>
    intro x hx
    obtain ⟨⟨-, cs, -, hs, -⟩, hk, hr⟩ := h
    simp only [Forest.scope, mem_union, List.mem_toFinset] at hx
    rcases hx with (hx | hx) | hx
    · exact ⟨b, hs.subset (by simp), hx⟩
    · exact ihk hk x hx
    · exact ihr hr x hx

variable {cs : List (List Name)} {t t' : JTree} {root : Name} {rvars : List Name} {kids : Forest}
  {others : List Name} {c : List Name} {d : Name} {att : Prop}

theorem Built.cover (b : Built cs t root rvars kids others) :
    ∀ x ∈ rvars.toFinset ∪ kids.scope, ∃ c ∈ cs, x ∈ c := by
  intro x hx
  rcases mem_union.1 hx with hx | hx
  · exact ⟨rvars, List.mem_of_getLast? b.last.2, List.mem_toFinset.1 hx⟩
  · exact links_scope b.links x hx

theorem Built.keys_eq (b : Built cs t root rvars kids others) :
    t.nodes.keys = (cs.map clusterName).reverse := by
  rw [b.nodes]
  simp [Dict.keys, Function.comp_def, List.map_reverse]

/-- bookkeeping common to all cases -/
theorem Built.step (b : Built cs t root rvars kids others)
    (hn : ((c :: cs).map clusterName).Nodup) {sep : List Name}
    (g : t.Grown t' (clusterName c) d c sep att) (hd : att → d ∈ t.nodes.keys) :
    t'.nodes = (c :: cs).reverse.map (fun c => (clusterName c, (⟨c, Factor.trivial 1⟩ : JNode))) ∧
    t'.adj.nodes = t'.nodes.keys ∧
    (∀ e ∈ t'.edges, e.u ∈ t'.nodes.keys ∧ e.w ∈ t'.nodes.keys) ∧
    (∀ e ∈ t'.edges, e.factor = Factor.trivial 1) ∧
    clusterName c ∉ t.nodes.keys ∧ t'.nodes.keys = t.nodes.keys ++ [clusterName c] := by
  have hkeys : t'.nodes.keys = t.nodes.keys ++ [clusterName c] := by
    rw [g.nodes, Dict.keys_append]; rfl
  refine ⟨?_, ?_, ?_, g.edge_trivial b.edge_trivial, ?_, hkeys⟩
  · rw [g.nodes, b.nodes]; simp
  · rw [g.adj_nodes, hkeys, b.adj_nodes]
  · intro e he
    rw [hkeys]
    rcases g.edge_ends e he with h | ⟨h1, h2, h3⟩
    · have := b.ends e h
      exact ⟨List.mem_append_left _ this.1, List.mem_append_left _ this.2⟩
    · rw [h1, h2]
      exact ⟨by simp, List.mem_append_left _ (hd h3)⟩
  · rw [b.keys_eq]
    simp only [List.map_cons, List.nodup_cons] at hn
    simpa using hn.1

theorem links_cons {L : List (List Name)} {p : Name} {f : Forest}
    (h : f.All (fun _ nm vars sep _ => nm = clusterName vars ∧
      ∃ cs, cs ≠ [] ∧ (vars :: cs) <:+ L ∧ sep = shared vars cs) p) (c : List Name) :
    f.All (fun _ nm vars sep _ => nm = clusterName vars ∧
      ∃ cs, cs ≠ [] ∧ (vars :: cs) <:+ (c :: L) ∧ sep = shared vars cs) p :=
  h.imp fun _ _ _ _ _ _ _ ⟨h0, cs, h1, h2, h3⟩ => ⟨h0, cs, h1, h2.trans (List.suffix_cons _ _), h3⟩

/-- the new cluster belongs to another component -/
theorem Built.aside (b : Built cs t root rvars kids others)
    (hn : ((c :: cs).map clusterName).Nodup) (hcs : cs ≠ []) {sep : List Name}
    (g : t.Grown t' (clusterName c) d c sep att) (hd : att → d ∈ others)
    (hmem : ∀ x y, y ∈ t'.adj.nbrs x → y ∈ t'.nodes.keys)
    (hdis : Disjoint c.toFinset (rvars.toFinset ∪ kids.scope))
    (hall : shared c cs ≠ [] → att) :
    Built (c :: cs) t' root rvars kids (clusterName c :: others) := by
  have hdk : att → d ∈ t.nodes.keys := fun h => b.keys.symm.subset (by simp [hd h])
  obtain ⟨s1, s2, s3, s4, s5, s6⟩ := b.step hn g hdk
  have hnd : (root :: kids.names ++ others).Nodup := by
    rw [← b.keys.nodup_iff, b.keys_eq, List.nodup_reverse]
    simp only [List.map_cons, List.nodup_cons] at hn
    exact hn.2
  have hdn : att → d ∉ root :: kids.names := fun h h' =>
    (List.nodup_append.1 hnd).2.2 _ h' _ (hd h) rfl
  have hcn : clusterName c ∉ root :: kids.names := fun h =>
    s5 (b.keys.symm.subset (List.mem_append_left _ h))
  simp only [List.mem_cons, not_or] at hcn hdn
  refine ⟨⟨?_, b.junction.name, ?_, ?_, b.junction.nodup, ?_, b.junction.rip⟩, s1, s2, hmem, ?_, s3, s4,
    ?_, links_cons b.links c, ?_, ?_⟩
  · rw [s6, List.head?_append, b.junction.first]; rfl
  · rw [g.get? s5, if_neg hcn.1, b.junction.root_vars]
  · rw [g.nbrs_old _ (Ne.symm hcn.1) fun h e => (hdn h).1 e.symm, b.junction.nbrs]
  · exact g.keep s5 b.junction.fits (Ne.symm hcn.1) hcn.2 fun h => (hdn h).2
  · rw [s6]
    refine (b.keys.append_right _).trans ?_
    rw [List.append_assoc]
    refine List.Perm.append_left _ ?_
    exact List.perm_append_comm
  · intro c' hc' hm
    rcases List.mem_cons.1 hc' with rfl | hc'
    · exact hdis
    · rcases List.mem_cons.1 hm with hm | hm
      · exfalso
        simp only [List.map_cons, List.nodup_cons] at hn
        exact hn.1 (hm ▸ List.mem_map_of_mem hc')
      · exact b.disj c' hc' hm
  · refine ⟨b.last.1, ?_⟩
    rw [List.getLast?_cons, b.last.2]; rfl
  · intro h
    exfalso
    have ha := hall (h c cs (List.suffix_refl _) hcs)
    have := b.all fun c' cs' hs => h c' cs' (hs.trans (List.suffix_cons _ _))
    have hd' := hd ha
    rw [this] at hd'
    simp at hd'

/-- the new cluster hangs below a clique of the tree -/
theorem Built.hang (b : Built cs t root rvars kids others)
    (hn : ((c :: cs).map clusterName).Nodup) (hcs : cs ≠ []) (hne : clusterName c ≠ "")
    {dv : List Name} (hsh : shared c cs ≠ []) (hdv : dv ∈ cs)
    (hsub : ∀ x ∈ shared c cs, x ∈ dv)
    (g : t.Grown t' (clusterName c) (clusterName dv) c (shared c cs) True)
    (hmem : ∀ x y, y ∈ t'.adj.nbrs x → y ∈ t'.nodes.keys)
    (hd : clusterName dv ∈ root :: kids.names) :
    ∃ kids', Built (c :: cs) t' root rvars kids' others := by
  have hdk : clusterName dv ∈ t.nodes.keys := b.keys.symm.subset (List.mem_append_left _ hd)
  obtain ⟨s1, s2, s3, s4, s5, s6⟩ := b.step hn g fun _ => hdk
  have hkn : t.nodes.keys.Nodup := by
    rw [b.keys_eq, List.nodup_reverse]
    simp only [List.map_cons, List.nodup_cons] at hn
    exact hn.2
  have hdget : (t.nodes.get? (clusterName dv)).map JNode.vars = some dv := by
    rw [Dict.get?_of_mem hkn (v := ⟨dv, Factor.trivial 1⟩)
      (by rw [b.nodes]; exact List.mem_map.2 ⟨dv, by simpa using hdv, rfl⟩)]
    rfl
  have hcn : clusterName c ∉ root :: kids.names := fun h =>
    s5 (b.keys.symm.subset (List.mem_append_left _ h))
  simp only [List.mem_cons, not_or] at hcn
  have hcov : ∀ x, x ∈ c → x ∈ rvars.toFinset ∪ kids.scope → x ∈ shared c cs := fun x hx hu =>
    mem_shared.2 ⟨hx, b.cover x hu⟩
  have hjn := b.junction.nodup
  rw [List.nodup_cons] at hjn
  -- the two places where the leaf may go
  have key : ∃ kids' : Forest, kids'.names.Perm (clusterName c :: kids.names) ∧
      kids'.scope = kids.scope ∪ c.toFinset ∧ kids'.All t'.Fits root ∧
      t'.adj.nbrs root = kids'.tops ∧ kids'.RIP rvars.toFinset rvars.toFinset ∧
      dv.toFinset ⊆ rvars.toFinset ∪ kids.scope ∧
      kids'.All (fun _ nm vars sep _ => nm = clusterName vars ∧
        ∃ cs', cs' ≠ [] ∧ (vars :: cs') <:+ (c :: cs) ∧ sep = shared vars cs') root := by
    have hleaf : ∀ p : Name, (fun (_ nm : Name) (vars sep : List Name) (_ : Forest) =>
        nm = clusterName vars ∧
        ∃ cs', cs' ≠ [] ∧ (vars :: cs') <:+ (c :: cs) ∧ sep = shared vars cs')
        p (clusterName c) c (shared c cs) .nil := fun p =>
      ⟨rfl, cs, hcs, List.suffix_refl _, rfl⟩
    by_cases hr : clusterName dv = root
    · have hrv : dv = rvars := by
        rw [hr, b.junction.root_vars] at hdget
        exact (Option.some.inj hdget).symm
      refine ⟨kids.snoc (clusterName c) c (shared c cs), ?_, Forest.snoc_scope _, ?_, ?_, ?_, ?_, ?_⟩
      · rw [Forest.snoc_names]; exact List.perm_append_comm
      · refine (g.keep s5 b.junction.fits (Ne.symm hcn.1) hcn.2 fun _ => hr ▸ hjn.1).snoc ?_
        refine ⟨hne, ?_, ?_, ?_, hsh⟩
        · rw [g.get? s5, if_pos rfl]; rfl
        · rw [← hr]; exact g.edge_new trivial
        · rw [g.nbrs_new trivial]; simp [hr, Forest.tops]
      · rw [← hr, g.nbrs_d trivial, hr, b.junction.nbrs, Forest.snoc_tops]
      · refine Forest.snoc_rip b.junction.rip (subset_refl _) ?_ ?_
        · intro x hx
          rw [mem_inter, List.mem_toFinset] at hx
          exact List.mem_toFinset.2 (hcov x hx.1 hx.2)
        · intro x hx
          rw [List.mem_toFinset] at hx
          exact mem_inter.2 ⟨List.mem_toFinset.2 (mem_shared.1 hx).1,
            List.mem_toFinset.2 (hrv ▸ hsub x hx)⟩
      · rw [hrv]; exact subset_union_left
      · exact (links_cons b.links c).snoc (hleaf root)
    · have hdm : clusterName dv ∈ kids.names := by
        rcases List.mem_cons.1 hd with h | h
        · exact absurd h hr
        · exact h
      have hvo := varsOf b.junction.fits hdm hdget
      refine ⟨kids.addLeaf (clusterName dv) (clusterName c) c (shared c cs), Forest.addLeaf_names hdm hjn.2,
        Forest.addLeaf_scope hdm, ?_, ?_, ?_, ?_, ?_⟩
      · exact g.grow s5 hne hsh b.junction.fits (Ne.symm hcn.1) (Ne.symm hr) hcn.2 hjn.2
      · rw [g.nbrs_old _ (Ne.symm hcn.1) fun _ => Ne.symm hr, b.junction.nbrs, Forest.addLeaf_tops]
      · refine Forest.addLeaf_rip b.junction.rip (subset_refl _) hjn.2 hvo ?_ ?_
        · intro x hx
          rw [mem_inter, List.mem_toFinset] at hx
          exact List.mem_toFinset.2 (hcov x hx.1 hx.2)
        · intro x hx
          rw [List.mem_toFinset] at hx
          exact mem_inter.2 ⟨List.mem_toFinset.2 (mem_shared.1 hx).1,
            List.mem_toFinset.2 (hsub x hx)⟩
      · exact hvo.sub.trans subset_union_right
      · exact (links_cons b.links c).addLeaf (fun _ _ _ _ _ _ h => h) hleaf
  obtain ⟨kids', k1, k2, k3, k4, k5, k6, k7⟩ := key
  have hperm : (root :: kids'.names ++ others).Perm (clusterName c :: (root :: kids.names ++ others)) := by
    refine List.Perm.trans (List.Perm.append_right _ (List.Perm.cons _ k1)) ?_
    exact List.Perm.swap _ _ _
  refine ⟨kids', ⟨?_, b.junction.name, ?_, k4, ?_, k3, k5⟩, s1, s2, hmem, ?_, s3, s4, ?_, k7, ?_, ?_⟩
  · rw [s6, List.head?_append, b.junction.first]; rfl
  · rw [g.get? s5, if_neg hcn.1, b.junction.root_vars]
  · rw [(List.Perm.cons root k1).nodup_iff, List.nodup_cons, List.mem_cons, not_or, List.nodup_cons]
    exact ⟨⟨Ne.symm hcn.1, hjn.1⟩, hcn.2, hjn.2⟩
  · rw [s6]
    refine List.perm_append_comm.trans ?_
    exact (List.Perm.cons _ b.keys).trans hperm.symm
  · intro c' hc' hm
    rcases List.mem_cons.1 hc' with rfl | hc'
    · exact absurd (b.keys.symm.subset (List.mem_append_right _ hm)) s5
    · have h0 := b.disj c' hc' hm
      rw [k2, ← Finset.union_assoc, Finset.disjoint_union_right]
      refine ⟨h0, Finset.disjoint_left.2 fun x hx hxc => ?_⟩
      have := hsub x (mem_shared.2 ⟨List.mem_toFinset.1 hxc, c', hc', List.mem_toFinset.1 hx⟩)
      exact Finset.disjoint_left.1 h0 hx (k6 (List.mem_toFinset.2 this))
  · refine ⟨b.last.1, ?_⟩
    rw [List.getLast?_cons, b.last.2]; rfl
  · intro h
    exact b.all fun c' cs' hs => h c' cs' (hs.trans (List.suffix_cons _ _))

theorem build_spec (L : List (List Name)) (hL : L ≠ []) (hn : (L.map clusterName).Nodup)
    (he : ∀ c ∈ L, clusterName c ≠ "") (hc : Chain L) :
    ∃ root rvars kids others, Built L (build L) root rvars kids others := by
  induction L with
  | nil => exact absurd rfl hL
  | cons c cs ih =>
    by_cases hcs : cs = []
    · subst hcs
      refine ⟨clusterName c, c, .nil, [], ⟨?_, he c (by simp), ?_, ?_, by simp [Forest.names], trivial, trivial⟩,
        ?_, ?_, ?_, ?_, ?_, ?_, ?_, trivial, ⟨rfl, rfl⟩, fun _ => rfl⟩
      all_goals simp [build, addNode, emptyTree, Dict.set, Dict.get?, Dict.keys, UGraph.nbrs, UGraph.nodes,
        Forest.tops, Forest.names]
      intro x y
      split <;> simp
    · have hn' := hn
      simp only [List.map_cons, List.nodup_cons] at hn'
      obtain ⟨root, rvars, kids, others, b⟩ := ih hcs hn'.2 (fun d hd => he d (List.mem_cons_of_mem _ hd)) hc.2
      have hfresh : clusterName c ∉ (build cs).nodes.keys := by
        rw [b.keys_eq]; simpa using hn'.1
      rw [build]
      cases hf : cs.find? fun d => shared c cs ≠ [] && sub (shared c cs) d with
      | none =>
        have hsh : shared c cs = [] := by
          rcases hc.1 with h | ⟨d, hd, hx⟩
          · exact h
          · by_contra hne
            have := List.find?_eq_none.1 hf d hd
            apply this
            simp only [Bool.and_eq_true, decide_eq_true_eq]
            exact ⟨hne, sub_iff.2 hx⟩
        have g := addNode_grown (d := "") (sep := []) b.adj_nodes hfresh
        refine ⟨root, rvars, kids, _, b.aside hn hcs g (fun h => h.elim) ?_ ?_ fun h => absurd hsh h⟩
        · intro x y hy
          have hk : (addNode c (build cs)).nodes.keys = (build cs).nodes.keys ++ [clusterName c] := by
            rw [g.nodes, Dict.keys_append]; rfl
          rw [hk]
          by_cases hx : x = clusterName c
          · exfalso
            rw [addNode] at hy
            dsimp only at hy
            rw [if_neg (b.adj_nodes ▸ hfresh)] at hy
            unfold UGraph.nbrs at hy
            rw [← Dict.set_of_not_mem _ (show clusterName c ∉ Dict.keys (build cs).adj from by
              rw [show Dict.keys (build cs).adj = (build cs).adj.nodes from rfl, b.adj_nodes]; exact hfresh),
              Dict.get?_set, if_pos hx.symm] at hy
            simp at hy
          · rw [g.nbrs_old x hx fun h => h.elim] at hy
            exact List.mem_append_left _ (b.adj_mem x y hy)
        · rw [Finset.disjoint_left]
          intro x hx hu
          have := mem_shared.2 ⟨List.mem_toFinset.1 hx, b.cover x hu⟩
          rw [hsh] at this
          simp at this
      | some dv =>
        have hp := List.find?_some hf
        simp only [Bool.and_eq_true, decide_eq_true_eq] at hp
        have hdv := List.mem_of_find?_eq_some hf
        have hsub := sub_iff.1 hp.2
        have hdk : clusterName dv ∈ (build cs).nodes.keys := by
          rw [b.keys_eq]; simpa using ⟨dv, hdv, rfl⟩
        have g := addEdge_grown (sep := shared c cs) b.adj_nodes hfresh hdk
          (fun h => hfresh (b.adj_mem _ _ h)) b.ends
        have hmem : ∀ x y, y ∈ (addEdge (clusterName c) (clusterName dv) (shared c cs)
            (addNode c (build cs))).adj.nbrs x →
            y ∈ (addEdge (clusterName c) (clusterName dv) (shared c cs)
            (addNode c (build cs))).nodes.keys := by
          intro x y hy
          rw [g.nodes, Dict.keys_append]
          by_cases hx : x = clusterName c
          · rw [hx, g.nbrs_new trivial, List.mem_singleton] at hy
            rw [hy]; exact List.mem_append_left _ hdk
          · by_cases hx2 : x = clusterName dv
            · rw [hx2, g.nbrs_d trivial, List.mem_append, List.mem_singleton] at hy
              rcases hy with hy | hy
              · exact List.mem_append_left _ (b.adj_mem _ _ hy)
              · rw [hy]; exact List.mem_append_right _ (by simp)
            · rw [g.nbrs_old x hx fun _ => hx2] at hy
              exact List.mem_append_left _ (b.adj_mem _ _ hy)
        rcases List.mem_append.1 (b.keys.subset hdk) with hd | hd
        · obtain ⟨kids', b'⟩ := b.hang hn hcs (he c (by simp)) hp.1 hdv hsub g hmem hd
          exact ⟨root, rvars, kids', others, b'⟩
        · refine ⟨root, rvars, kids, _, b.aside hn hcs g (fun _ => hd) hmem ?_ fun _ => trivial⟩
          rw [Finset.disjoint_left]
          intro x hx hu
          have := hsub x (mem_shared.2 ⟨List.mem_toFinset.1 hx, b.cover x hu⟩)
          exact Finset.disjoint_left.1 (b.disj dv hdv hd) (List.mem_toFinset.2 this) hu

end JTree
end Primo
