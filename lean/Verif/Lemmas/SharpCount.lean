import Verif.Lemmas.Sharp

/-! # Counting edges decides whether the result of `create_jointree` is a junction tree -/

namespace Primo
open JoinTree

namespace JTree

theorem build_cons_edges (c : List Name) (cs : List (List Name)) :
    ((∃ d ∈ cs, shared c cs ≠ [] ∧ ∀ x ∈ shared c cs, x ∈ d) ∧
      (build (c :: cs)).edges.length ≤ (build cs).edges.length + 1) ∨
    (build (c :: cs)).edges = (build cs).edges := by
  rw [build]
  split
  · rename_i d hd
    left
    have hds := List.find?_some hd
    simp only [Bool.and_eq_true, sub_iff] at hds
    refine ⟨⟨d, List.mem_of_find?_eq_some hd, by simpa using hds.1, hds.2⟩, ?_⟩
    unfold addEdge
    dsimp only
    split
    · rw [List.length_map]
      exact Nat.le_succ _
    · rw [List.length_append]; exact le_rfl
  · right; rfl

theorem build_count_le (L : List (List Name)) (hne : L ≠ []) : (build L).edges.length + 1 ≤ L.length := by
  induction L with
  | nil => exact absurd rfl hne
  | cons c cs ih =>
    by_cases hcs : cs = []
    · subst hcs; simp [build, addNode, emptyTree]
    · have := ih hcs
      rcases build_cons_edges c cs with ⟨-, h⟩ | h
      · simp only [List.length_cons]; omega
      · rw [h, List.length_cons]; omega

theorem ripl_of_count (L : List (List Name)) (hne : L ≠ []) (h : (build L).edges.length + 1 = L.length) :
    RIPL True L := by
  induction L with
  | nil => trivial
  | cons c cs ih =>
    by_cases hcs : cs = []
    · subst hcs
      exact ⟨fun h => absurd rfl h, trivial⟩
    · have hle := build_count_le cs hcs
      rw [List.length_cons] at h
      rcases build_cons_edges c cs with ⟨⟨d, hd, h1, h2⟩, h3⟩ | h3
      · refine ⟨fun _ => ⟨fun _ => ?_, d, hd, fun x hx he => h2 x (mem_shared.2 ⟨hx, he⟩)⟩, ih hcs (by omega)⟩
        obtain ⟨x, hx⟩ := List.exists_mem_of_ne_nil _ h1
        exact ⟨x, (mem_shared.1 hx).1, (mem_shared.1 hx).2⟩
      · rw [h3] at h; omega

theorem ripl_of_attached (L : List (List Name)) (h : ∀ c cs, (c :: cs) <:+ L → cs ≠ [] →
    ∃ d ∈ cs, shared c cs ≠ [] ∧ ∀ x ∈ shared c cs, x ∈ d) : RIPL True L := by
  induction L with
  | nil => trivial
  | cons c cs ih =>
    refine ⟨fun hcs => ?_, ih fun c' cs' hs => h c' cs' (hs.trans (List.suffix_cons _ _))⟩
    obtain ⟨d, hd, h1, h2⟩ := h c cs (List.suffix_refl _) hcs
    obtain ⟨x, hx⟩ := List.exists_mem_of_ne_nil _ h1
    exact ⟨fun _ => ⟨x, (mem_shared.1 hx).1, (mem_shared.1 hx).2⟩, d, hd, fun x hx he =>
      h2 x (mem_shared.2 ⟨hx, he⟩)⟩

/-- For connected networks: running intersection, being a tree and the number of edges say the same. -/
theorem create_count (so : SetOrder) {bn : BN} (hc : bn.Consistent) (hl : bn.Linked) (hr : bn.Recorded)
    (hu : UniqueJoin bn.names) (hne : bn ≠ []) (hco : bn.Connected) (order0 : Option (List Name))
    {order : List Name} (hord : VE.chooseOrder bn order0 = .ok order) (ho : order.Perm bn.names) {t : JTree}
    (ht : create so bn order0 = .ok t) :
    t.edges.length + 1 ≤ t.nodes.length ∧
    (t.RunningIntersection ↔ t.edges.length + 1 = t.nodes.length) ∧ (t.RunningIntersection ↔ t.IsTree) := by
  obtain ⟨L, e1, e2⟩ := bn_clusters hc hl hr ho
  have hhd := e2.headOK (ho.symm.nodup hc.nodup)
  obtain ⟨L', h1, h2, h3, h4⟩ := swaps_any hhd.nodup
  have hLn : ∀ c ∈ L', ∀ x ∈ c, x ∈ bn.names := fun c hc x hx =>
    ho.subset ((e2.mem c (h3 c hc)).2.1 x hx)
  have hn := hu.inj hLn h2
  have hsh := create_shape so hord e1 h1 ht
  have hL' : L' ≠ [] := by
    intro e
    obtain ⟨n, hn⟩ := List.exists_mem_of_ne_nil _ hne
    have hnn : n.name ∈ order := ho.symm.subset (List.mem_map_of_mem hn)
    obtain ⟨c, hc, -⟩ := e2.own _ hnn
    obtain ⟨d, hd, -⟩ := h4 c hc
    rw [e] at hd; simp at hd
  have hlen : t.edges.length = (build L').edges.length ∧ t.nodes.length = L'.length := by
    have g3 := congrArg (fun x => x.2.2.length) hsh
    have g4 := congrArg (fun x => x.1.length) hsh
    simp only [shape, List.length_map] at g3 g4
    refine ⟨g3, g4.trans ?_⟩
    rw [build_nodes L' hn]; simp
  have key : t.edges.length + 1 = t.nodes.length → t.RunningIntersection ∧ t.IsTree := by
    intro h
    rw [hlen.1, hlen.2] at h
    obtain ⟨c1, c2⟩ := classic_of_clusters hn hL' (ripl_of_count L' hL' h)
    exact ⟨c1.of_shape hsh, (c2 trivial).of_shape hsh⟩
  have back : t.RunningIntersection → t.edges.length + 1 = t.nodes.length := by
    intro hrip
    have hattach : RIPL True L' := by
      refine ripl_of_attached L' fun c cs hs hcs => ?_
      by_contra hh
      push Not at hh
      obtain ⟨S, s1, s2, -, s4⟩ := build_split (c := c) (cs := cs) (fun d hd => by
        by_cases h0 : shared c cs = []
        · exact Or.inl h0
        · exact Or.inr (hh d hd h0)) L' hn hs
      have cl : ∀ vars ∈ L', t.Clique (clusterName vars) vars := fun vars hv =>
        (clique_of_shape hsh _ _).2 ((build_cliques hn _ _).2 ⟨hv, rfl⟩)
      have closed : ∀ x a b, Relation.ReflTransGen (t.JoinedAt x) a b → a ∈ S → b ∈ S := by
        intro x a b hab ha
        induction hab with
        | refl => exact ha
        | tail _ h ih =>
          obtain ⟨e, he, hj⟩ := (joined_of_shape hsh _ _).1 h.1
          have := s4 e he
          simp only [JEdge.joins, Bool.or_eq_true, Bool.and_eq_true, beq_iff_eq] at hj
          rcases hj with ⟨rfl, rfl⟩ | ⟨rfl, rfl⟩
          · exact this.1 ih
          · exact this.2 ih
      have hcL : c ∈ L' := hs.subset (by simp)
      obtain ⟨d, hd⟩ := List.exists_mem_of_ne_nil _ hcs
      have hdL : d ∈ L' := hs.subset (by simp [hd])
      obtain ⟨y, hy⟩ := List.exists_mem_of_ne_nil _ (hhd.ne c (h3 c hcL))
      obtain ⟨x, hx⟩ := List.exists_mem_of_ne_nil _ (hhd.ne d (h3 d hdL))
      let U : Name → Prop := fun v => ∃ k vars, t.Clique k vars ∧ v ∈ vars ∧ k ∈ S
      have hyU : ¬ U y := by
        rintro ⟨k, vars, g1, g2, g3⟩
        exact s2 (closed y _ _ (hrip.path y k vars _ c g1 g2 (cl c hcL) hy) g3)
      have hxU : U x := ⟨_, d, cl d hdL, hx, s1 d hd⟩
      obtain ⟨t', a1, -, -, -, a5⟩ := create_any so hc hl hr hu order0 hord ho
      rw [ht] at a1
      cases a1
      have hstep : ∀ a b, bn.Moral a b → U a → U b := by
        rintro a b ⟨-, n, hn, ha, hb⟩ ⟨k, vars, g1, g2, g3⟩
        obtain ⟨q, hq, hf⟩ := a5 n hn
        have hq' : t.Clique q.1 q.2 := clique_iff_skel.2 hq
        exact ⟨q.1, q.2, hq', hf b hb, closed a _ _ (hrip.path a k vars q.1 q.2 g1 g2 hq' (hf a ha)) g3⟩
      have hp := hco.path hc (List.Perm.refl _) (hLn d hdL x hx) (hLn c hcL y hy)
      have : ∀ z, Path bn.Moral bn.names x z → U z := by
        intro z hz
        induction hz with
        | refl => exact hxU
        | tail _ h ih => exact hstep _ _ h.1 ih
      exact hyU (this y hp)
    rw [hlen.1, hlen.2]
    exact build_count L' hn hattach trivial hL'
  refine ⟨by rw [hlen.1, hlen.2]; exact build_count_le L' hL', ⟨back, fun h => (key h).1⟩,
    fun h => (key (back h)).2, fun h => (key h.count).1⟩

end JTree
end Primo
