import Verif.Lemmas.Classic

/-! # Trees with the running intersection property come from chains of clusters -/

namespace Primo
open JoinTree

namespace JTree

theorem build_edges_cons {c : List Name} {cs : List (List Name)}
    (hn : ((c :: cs).map clusterName).Nodup) :
    (∀ d ∈ cs, shared c cs = [] ∨ ∃ x ∈ shared c cs, x ∉ d) ∧ (build (c :: cs)).edges = (build cs).edges ∨
    ∃ d ∈ cs, ∀ e ∈ (build (c :: cs)).edges, e ∈ (build cs).edges ∨ e.u = clusterName c ∧ e.w = clusterName d := by
  rw [build]
  split
  · rename_i d hd
    right
    refine ⟨d, List.mem_of_find?_eq_some hd, fun e he => ?_⟩
    have hno : (addNode c (build cs)).edges.any (fun e => e.joins (clusterName c) (clusterName d)) = false := by
      rw [List.any_eq_false]
      intro e he
      obtain ⟨c', cs', d', h1, h2, -, h4, h5, -⟩ := build_edges cs (List.nodup_cons.1 hn).2 e he
      have m1 : clusterName c' ∈ cs.map clusterName := List.mem_map_of_mem (h1.subset (by simp))
      have m2 : clusterName d' ∈ cs.map clusterName :=
        List.mem_map_of_mem (h1.subset (by simp [h2]))
      have hc := (List.nodup_cons.1 hn).1
      simp only [JEdge.joins, h4, h5]
      intro hh
      simp only [Bool.or_eq_true, Bool.and_eq_true, beq_iff_eq] at hh
      rcases hh with hh | hh
      · exact hc (hh.1 ▸ m1)
      · exact hc (hh.2 ▸ m2)
    unfold addEdge at he
    simp only [hno, Bool.false_eq_true, if_false, List.mem_append, List.mem_singleton] at he
    rcases he with he | rfl
    · exact Or.inl he
    · exact Or.inr ⟨rfl, rfl⟩
  · rename_i hf
    left
    refine ⟨fun d hd => ?_, rfl⟩
    have := List.find?_eq_none.1 hf d hd
    by_contra hh
    push Not at hh
    exact this (by
      simp only [Bool.and_eq_true, decide_eq_true_eq]
      exact ⟨hh.1, sub_iff.2 hh.2⟩)

/-- a cluster that is not attached to the later ones is never connected to them -/
theorem build_split {c : List Name} {cs : List (List Name)}
    (hno : ∀ d ∈ cs, shared c cs = [] ∨ ∃ x ∈ shared c cs, x ∉ d) (L : List (List Name))
    (hn : (L.map clusterName).Nodup) (hs : (c :: cs) <:+ L) :
    ∃ S : Set Name, (∀ d ∈ cs, clusterName d ∈ S) ∧ clusterName c ∉ S ∧
      (∀ k ∈ S, k ∈ L.map clusterName) ∧ ∀ e ∈ (build L).edges, e.u ∈ S ↔ e.w ∈ S := by
  have ends : ∀ L : List (List Name), (L.map clusterName).Nodup → ∀ e ∈ (build L).edges,
      e.u ∈ L.map clusterName ∧ e.w ∈ L.map clusterName := by
    intro L hn e he
    obtain ⟨c', cs', d', h1, h2, -, h4, h5, -⟩ := build_edges L hn e he
    rw [h4, h5]
    exact ⟨List.mem_map_of_mem (h1.subset (by simp)), List.mem_map_of_mem (h1.subset (by simp [h2]))⟩
  induction L with
  | nil => simp at hs
  | cons p L ih =>
    have hn' := List.nodup_cons.1 hn
    rcases List.suffix_cons_iff.1 hs with h | h
    · injection h with h1 h2
      subst h1 h2
      refine ⟨{k | k ∈ cs.map clusterName}, fun d hd => List.mem_map_of_mem hd, hn'.1,
        fun k hk => List.mem_cons_of_mem _ hk, fun e he => ?_⟩
      rcases build_edges_cons hn with ⟨-, h⟩ | ⟨d, hd, h⟩
      · rw [h] at he
        have := ends cs hn'.2 e he
        exact ⟨fun _ => this.2, fun _ => this.1⟩
      · rcases h e he with h | ⟨h1, h2⟩
        · have := ends cs hn'.2 e h
          exact ⟨fun _ => this.2, fun _ => this.1⟩
        · exfalso
          obtain ⟨c', cs', d', g1, g2, ⟨g3, g4⟩, g5, g6, -⟩ := build_edges _ hn e he
          rcases List.suffix_cons_iff.1 g1 with h | h
          · injection h with h3 h4
            subst h3 h4
            rcases hno d' g2 with h | ⟨x, hx, hxd⟩
            · exact g4 h
            · exact hxd (g3 x hx)
          · rw [h1] at g5
            exact hn'.1 (g5 ▸ List.mem_map_of_mem (h.subset (by simp)))
    · obtain ⟨S, s1, s2, s3, s4⟩ := ih hn'.2 h
      have hpS : clusterName p ∉ S := fun h => hn'.1 (s3 _ h)
      have hpc : clusterName p ≠ clusterName c := fun e =>
        hn'.1 (e ▸ List.mem_map_of_mem (h.subset (by simp)))
      rcases build_edges_cons hn with ⟨-, h⟩ | ⟨d, hd, h⟩
      · refine ⟨S, s1, s2, fun k hk => List.mem_cons_of_mem _ (s3 k hk), ?_⟩
        rw [h]
        exact s4
      · by_cases hdS : clusterName d ∈ S
        · refine ⟨S ∪ {clusterName p}, fun d hd => Or.inl (s1 d hd), ?_, ?_, fun e he => ?_⟩
          · rintro (h | h)
            · exact s2 h
            · exact hpc h.symm
          · rintro k (hk | hk)
            · exact List.mem_cons_of_mem _ (s3 k hk)
            · rw [Set.mem_singleton_iff.1 hk]; simp
          · rcases h e he with h | ⟨h1, h2⟩
            · have hm := ends L hn'.2 e h
              have e1 : e.u ≠ clusterName p := fun h => hn'.1 (h ▸ hm.1)
              have e2 : e.w ≠ clusterName p := fun h => hn'.1 (h ▸ hm.2)
              simp only [Set.mem_union, Set.mem_singleton_iff, e1, e2, or_false]
              exact s4 e h
            · rw [h1, h2]
              exact ⟨fun _ => Or.inl hdS, fun _ => Or.inr rfl⟩
        · refine ⟨S, s1, s2, fun k hk => List.mem_cons_of_mem _ (s3 k hk), fun e he => ?_⟩
          rcases h e he with h | ⟨h1, h2⟩
          · exact s4 e h
          · rw [h1, h2]
            exact ⟨fun h => absurd h hpS, fun h => absurd h hdS⟩

theorem build_cliques {L : List (List Name)} (hn : (L.map clusterName).Nodup) (k : Name)
    (vars : List Name) : (build L).Clique k vars ↔ vars ∈ L ∧ k = clusterName vars := by
  rw [clique_iff_skel, build_nodes L hn]
  simp only [skel, List.map_map, List.mem_map, List.mem_reverse, Function.comp_apply, Prod.mk.injEq]
  constructor
  · rintro ⟨c, h1, h2, rfl⟩; exact ⟨h1, h2.symm⟩
  · rintro ⟨h1, rfl⟩; exact ⟨vars, h1, rfl, rfl⟩

/-- Trees with the running intersection property come from chains. -/
theorem chain_of_rip {L : List (List Name)} (hn : (L.map clusterName).Nodup)
    (hr : (build L).RunningIntersection) : Chain L := by
  have : ∀ K, K <:+ L → Chain K := by
    intro K
    induction K with
    | nil => intro _; trivial
    | cons c cs ih =>
      intro hs
      refine ⟨?_, ih ((List.suffix_cons _ _).trans hs)⟩
      by_contra hh
      push Not at hh
      obtain ⟨x, hx⟩ := List.exists_mem_of_ne_nil _ hh.1
      obtain ⟨hxc, d, hd, hxd⟩ := mem_shared.1 hx
      obtain ⟨S, s1, s2, -, s4⟩ := build_split (c := c) (cs := cs) (fun d hd => Or.inr (hh.2 d hd)) L hn hs
      have hp := hr.path x (clusterName c) c (clusterName d) d
        ((build_cliques hn _ _).2 ⟨hs.subset (by simp), rfl⟩) hxc
        ((build_cliques hn _ _).2 ⟨hs.subset (by simp [hd]), rfl⟩) hxd
      have : ∀ k, Relation.ReflTransGen ((build L).JoinedAt x) (clusterName c) k → k ∉ S := by
        intro k hk
        induction hk with
        | refl => exact s2
        | tail _ h ih =>
          obtain ⟨⟨e, he, hj⟩, -⟩ := h
          have := s4 e he
          simp only [JEdge.joins, Bool.or_eq_true, Bool.and_eq_true, beq_iff_eq] at hj
          rcases hj with ⟨rfl, rfl⟩ | ⟨rfl, rfl⟩
          · exact fun h => ih (this.2 h)
          · exact fun h => ih (this.1 h)
      exact this _ hp (s1 d hd)
  exact this L (List.suffix_refl _)

/-- what `create_jointree` does for any order -/
theorem create_shape (so : SetOrder) {bn : BN} {order0 : Option (List Name)} {order : List Name}
    (hord : VE.chooseOrder bn order0 = .ok order) {L L' : List (List Name)}
    (h1 : clusters order (moralGraph bn) = .ok L) (h3 : (swaps L).foldlM applySwap L = .ok L') {t : JTree}
    (ht : create so bn order0 = .ok t) : t.shape = (build L').shape := by
  unfold create at ht
  rw [hord, ok_bind] at ht
  cases hf : bn.mapM Factor.fromNode with
  | error e => rw [hf] at ht; cases ht
  | ok fs =>
  rw [hf, ok_bind, h1, ok_bind, h3, ok_bind] at ht
  have := forEach_inv (P := fun s : JTree => s.shape = (build L').shape) (f := putFactor so) fs
    (fun f _ s hs => (putFactor_shape so f s).trans hs) (build L') rfl
  cases h5 : JRes.forEach (putFactor so) fs (build L') with
  | mk t0 o =>
    rw [h5] at ht this
    cases o with
    | none => cases ht; exact this
    | some e => cases ht

/-- the edges of a created tree have non-empty separators -/
theorem create_seps (so : SetOrder) {bn : BN} (hc : bn.Consistent) (hl : bn.Linked) (hr : bn.Recorded)
    (hu : UniqueJoin bn.names) (order0 : Option (List Name)) {order : List Name}
    (hord : VE.chooseOrder bn order0 = .ok order) (ho : order.Perm bn.names) {t : JTree}
    (ht : create so bn order0 = .ok t) : ∀ e ∈ t.edges, e.sep ≠ [] := by
  obtain ⟨L, e1, e2⟩ := bn_clusters hc hl hr ho
  obtain ⟨L', h1, h2, h3, h4⟩ := swaps_any (e2.headOK (ho.symm.nodup hc.nodup)).nodup
  have hLn : ∀ c ∈ L', ∀ x ∈ c, x ∈ bn.names := fun c hc x hx =>
    ho.subset ((e2.mem c (h3 c hc)).2.1 x hx)
  have hsh := create_shape so hord e1 h1 ht
  intro e he
  have h3 : t.edges.map (fun e => (e.u, e.w, e.sep)) =
      (build L').edges.map fun e => (e.u, e.w, e.sep) := congrArg (fun x => x.2.2) hsh
  have : (e.u, e.w, e.sep) ∈ (build L').edges.map fun e => (e.u, e.w, e.sep) :=
    h3 ▸ List.mem_map_of_mem (f := fun e : JEdge => (e.u, e.w, e.sep)) he
  obtain ⟨e', he', heq⟩ := List.mem_map.1 this
  simp only [Prod.mk.injEq] at heq
  obtain ⟨c, cs, d, -, -, ⟨-, h⟩, -, -, h'⟩ := build_edges L' (hu.inj hLn h2) e' he'
  rw [← heq.2.2, h']
  exact h

/-- `create_jointree` when its tree has the running intersection property. -/
theorem create_rip (so : SetOrder) {bn : BN} (hc : bn.Consistent) (hl : bn.Linked) (hr : bn.Recorded)
    (hu : UniqueJoin bn.names) (hne : bn ≠ []) (order0 : Option (List Name)) {order : List Name}
    (hord : VE.chooseOrder bn order0 = .ok order) (ho : order.Perm bn.names) {t : JTree}
    (ht : create so bn order0 = .ok t) (hrip : t.RunningIntersection) :
    ∃ root rvars kids others, Sits bn t root rvars kids others ∧
      (bn.Connected → others = []) ∧ kids.depth < bn.length := by
  obtain ⟨L, e1, e2⟩ := bn_clusters hc hl hr ho
  obtain ⟨L', h1, h2, h3, h4⟩ := swaps_any (e2.headOK (ho.symm.nodup hc.nodup)).nodup
  have hLn : ∀ c ∈ L', ∀ x ∈ c, x ∈ bn.names := fun c hc x hx =>
    ho.subset ((e2.mem c (h3 c hc)).2.1 x hx)
  have hsh := create_shape so hord e1 h1 ht
  have hch := chain_of_rip (hu.inj hLn h2) (hrip.of_shape hsh.symm)
  obtain ⟨root, rvars, kids, others, s1, -, -, s4, s5, -⟩ := sits_of_chain hc hu ho hne e2 h2 hch h3 h4
  exact ⟨root, rvars, kids, others, s1.of_shape hsh, s4, s5⟩

end JTree
end Primo
