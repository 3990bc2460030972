import Verif.Lemmas.CreateAny
import Verif.Lemmas.Polytree

/-! # The tree of a perfect order in the textbook formulation; concatenated names -/

namespace Primo
open JoinTree

theorem rtg_mono {α : Type} {r p : α → α → Prop} {a b : α} (h : Relation.ReflTransGen r a b)
    (hp : ∀ a b, r a b → p a b) : Relation.ReflTransGen p a b := by
  induction h with
  | refl => exact .refl
  | tail _ h ih => exact ih.tail (hp _ _ h)

/-! ### unique concatenations -/

theorem flatten_inj {k : Nat} (hk : 0 < k) {l l' : List (List Char)} (h : ∀ x ∈ l, x.length = k)
    (h' : ∀ x ∈ l', x.length = k) (he : l.flatten = l'.flatten) : l = l' := by
  induction l generalizing l' with
  | nil =>
    cases l' with
    | nil => rfl
    | cons a l' =>
      have := congrArg List.length he
      have ha := h' a (by simp)
      simp only [List.flatten_nil, List.length_nil, List.flatten_cons, List.length_append] at this
      omega
  | cons a l ih =>
    cases l' with
    | nil =>
      have := congrArg List.length he
      have ha := h a (by simp)
      simp only [List.flatten_nil, List.length_nil, List.flatten_cons, List.length_append] at this
      omega
    | cons b l' =>
      simp only [List.flatten_cons] at he
      have := List.append_inj he (by rw [h a (by simp), h' b (by simp)])
      rw [this.1, ih (fun x hx => h x (by simp [hx])) (fun x hx => h' x (by simp [hx])) this.2]

/-- names of equal positive length have unique concatenations -/
theorem uniqueJoin_of_length {names : List Name} {k : Nat} (hk : 0 < k)
    (h : ∀ x ∈ names, x.length = k) : UniqueJoin names := by
  intro l l' hl hl' he
  have h1 := congrArg String.toList he
  rw [String.toList_join, String.toList_join] at h1
  have h2 := flatten_inj hk (by
    intro x hx
    obtain ⟨s, hs, rfl⟩ := List.mem_map.1 hx
    exact h s (hl s hs)) (by
    intro x hx
    obtain ⟨s, hs, rfl⟩ := List.mem_map.1 hx
    exact h s (hl' s hs)) h1
  exact List.map_injective_iff.2 (fun a b h => String.toList_inj.1 h) h2

namespace JTree

/-! ### the edges -/

theorem build_edges (L : List (List Name)) (hn : (L.map clusterName).Nodup) :
    ∀ e ∈ (build L).edges, ∃ c cs d, (c :: cs) <:+ L ∧ d ∈ cs ∧
      ((∀ x ∈ shared c cs, x ∈ d) ∧ shared c cs ≠ []) ∧ e.u = clusterName c ∧ e.w = clusterName d ∧ e.sep = shared c cs := by
  induction L with
  | nil => intro e he; simp [build, emptyTree] at he
  | cons c cs ih =>
    have ih' := ih (List.nodup_cons.1 hn).2
    have lift : ∀ e ∈ (build cs).edges, ∃ c' cs' d, (c' :: cs') <:+ c :: cs ∧ d ∈ cs' ∧
        ((∀ x ∈ shared c' cs', x ∈ d) ∧ shared c' cs' ≠ []) ∧ e.u = clusterName c' ∧ e.w = clusterName d ∧
        e.sep = shared c' cs' := by
      intro e he
      obtain ⟨c', cs', d, h1, h2, h3⟩ := ih' e he
      exact ⟨c', cs', d, h1.trans (List.suffix_cons _ _), h2, h3⟩
    rw [build]
    split
    · rename_i d hd
      have hdm := List.mem_of_find?_eq_some hd
      have hds := List.find?_some hd
      simp only [Bool.and_eq_true, sub_iff] at hds
      have hno : (addNode c (build cs)).edges.any (fun e => e.joins (clusterName c) (clusterName d)) = false := by
        rw [List.any_eq_false]
        intro e he
        obtain ⟨c', cs', d', h1, h2, -, h4, h5, -⟩ := ih' e he
        have m1 : clusterName c' ∈ cs.map clusterName := List.mem_map_of_mem (h1.subset (by simp))
        have m2 : clusterName d' ∈ cs.map clusterName :=
          List.mem_map_of_mem (h1.subset (by simp [h2]))
        have hc := (List.nodup_cons.1 hn).1
        simp only [JEdge.joins, h4, h5]
        intro hh
        simp only [Bool.or_eq_true, Bool.and_eq_true, beq_iff_eq] at hh
        rcases hh with hh | hh
        · exact hc (hh.1 ▸ m1)
        · exact hc (hh.2 ▸ m2)
      intro e he
      unfold addEdge at he
      simp only [hno, Bool.false_eq_true, if_false, List.mem_append, List.mem_singleton] at he
      rcases he with he | rfl
      · exact lift e he
      · exact ⟨c, cs, d, List.suffix_refl _, hdm, ⟨hds.2, by simpa using hds.1⟩, rfl, rfl, rfl⟩
    · exact lift

theorem build_joined {c : List Name} {cs : List (List Name)} {a b : Name} (h : (build cs).Joined a b) :
    (build (c :: cs)).Joined a b := by
  obtain ⟨e, he, hj⟩ := h
  rw [build]
  split
  · unfold addEdge
    split
    · refine ⟨_, List.mem_map_of_mem he, ?_⟩
      split <;> exact hj
    · exact ⟨e, List.mem_append_left _ he, hj⟩
  · exact ⟨e, he, hj⟩

theorem build_new {c d : List Name} {cs : List (List Name)}
    (h : cs.find? (fun d => shared c cs ≠ [] && sub (shared c cs) d) = some d) :
    (build (c :: cs)).Joined (clusterName c) (clusterName d) := by
  rw [build]
  rw [h]
  dsimp only
  unfold addEdge
  split
  · rename_i ha
    obtain ⟨e, he, hj⟩ := List.any_eq_true.1 ha
    refine ⟨_, List.mem_map_of_mem he, ?_⟩
    rw [if_pos hj]
    exact hj
  · exact ⟨_, List.mem_append_right _ (List.mem_singleton.2 rfl), by simp [JEdge.joins]⟩

theorem find_of_ripl {conn : Prop} {c : List Name} {cs : List (List Name)} (h : RIPL conn (c :: cs))
    (hne : shared c cs ≠ []) :
    ∃ d ∈ cs, cs.find? (fun d => shared c cs ≠ [] && sub (shared c cs) d) = some d ∧
      ∀ x ∈ shared c cs, x ∈ d := by
  have hcs : cs ≠ [] := by
    rintro rfl
    exact hne (by simp [shared])
  obtain ⟨-, d, hd, hx⟩ := h.1 hcs
  cases hf : cs.find? (fun d => shared c cs ≠ [] && sub (shared c cs) d) with
  | none =>
    have := List.find?_eq_none.1 hf d hd
    exact absurd (by
      simp only [Bool.and_eq_true, decide_eq_true_eq]
      exact ⟨hne, sub_iff.2 fun x hxs => hx x (mem_shared.1 hxs).1 (mem_shared.1 hxs).2⟩) this
  | some d' =>
    have := List.find?_some hf
    simp only [Bool.and_eq_true, sub_iff] at this
    exact ⟨d', List.mem_of_find?_eq_some hf, rfl, this.2⟩

theorem Joined.symm {t : JTree} {a b : Name} (h : t.Joined a b) : t.Joined b a := by
  obtain ⟨e, he, hj⟩ := h
  exact ⟨e, he, by rw [joins_comm]; exact hj⟩

/-- paths through cliques containing a variable -/
theorem build_paths {conn : Prop} (L : List (List Name)) (hr : RIPL conn L) (x : Name) :
    ∀ c ∈ L, x ∈ c → ∀ c' ∈ L, x ∈ c' → Relation.ReflTransGen (fun a b => (build L).Joined a b ∧
      (∃ d ∈ L, clusterName d = a ∧ x ∈ d) ∧ ∃ d ∈ L, clusterName d = b ∧ x ∈ d)
      (clusterName c) (clusterName c') := by
  induction L with
  | nil => intro c hc; simp at hc
  | cons c cs ih =>
    have mono : ∀ a b, Relation.ReflTransGen (fun a b => (build cs).Joined a b ∧
        (∃ d ∈ cs, clusterName d = a ∧ x ∈ d) ∧ ∃ d ∈ cs, clusterName d = b ∧ x ∈ d) a b →
        Relation.ReflTransGen (fun a b => (build (c :: cs)).Joined a b ∧
        (∃ d ∈ c :: cs, clusterName d = a ∧ x ∈ d) ∧ ∃ d ∈ c :: cs, clusterName d = b ∧ x ∈ d) a b := by
      intro a b h
      refine rtg_mono h fun a b ⟨h1, ⟨d, hd, h2⟩, ⟨d', hd', h3⟩⟩ => ⟨build_joined h1, ⟨d, by simp [hd], h2⟩,
        ⟨d', by simp [hd'], h3⟩⟩
    have ih' := ih hr.2
    have key : ∀ c' ∈ cs, x ∈ c → x ∈ c' → ∃ d ∈ cs, x ∈ d ∧
        (build (c :: cs)).Joined (clusterName c) (clusterName d) := by
      intro c' hc' hx hx'
      have hxs : x ∈ shared c cs := mem_shared.2 ⟨hx, c', hc', hx'⟩
      obtain ⟨d, hd, hf, hsub⟩ := find_of_ripl hr (List.ne_nil_of_mem hxs)
      exact ⟨d, hd, hsub x hxs, build_new hf⟩
    intro a ha hxa b hb hxb
    rcases List.mem_cons.1 ha with rfl | ha'
    · rcases List.mem_cons.1 hb with rfl | hb'
      · exact .refl
      · obtain ⟨d, hd, hxd, hj⟩ := key b hb' hxa hxb
        exact Relation.ReflTransGen.head ⟨hj, ⟨a, by simp, rfl, hxa⟩, ⟨d, by simp [hd], rfl, hxd⟩⟩
          (mono _ _ (ih' d hd hxd b hb' hxb))
    · rcases List.mem_cons.1 hb with rfl | hb'
      · obtain ⟨d, hd, hxd, hj⟩ := key a ha' hxb hxa
        exact Relation.ReflTransGen.tail (mono _ _ (ih' a ha' hxa d hd hxd))
          ⟨hj.symm, ⟨d, by simp [hd], rfl, hxd⟩, ⟨b, by simp, rfl, hxb⟩⟩
      · exact mono _ _ (ih' a ha' hxa b hb' hxb)

theorem build_connected {conn : Prop} (L : List (List Name)) (hr : RIPL conn L) (hc : conn) :
    ∀ c ∈ L, ∀ c' ∈ L, Relation.ReflTransGen (build L).Joined (clusterName c) (clusterName c') := by
  induction L with
  | nil => intro c hc; simp at hc
  | cons c cs ih =>
    have mono : ∀ a b, Relation.ReflTransGen (build cs).Joined a b →
        Relation.ReflTransGen (build (c :: cs)).Joined a b :=
      fun a b h => rtg_mono h fun a b h => build_joined h
    have ih' := ih hr.2
    have key : cs ≠ [] → ∃ d ∈ cs, (build (c :: cs)).Joined (clusterName c) (clusterName d) := by
      intro hne
      obtain ⟨d, hd, hf, -⟩ := find_of_ripl hr (hr.linked hc (List.suffix_refl _) hne)
      exact ⟨d, hd, build_new hf⟩
    intro a ha b hb
    rcases List.mem_cons.1 ha with rfl | ha'
    · rcases List.mem_cons.1 hb with rfl | hb'
      · exact .refl
      · obtain ⟨d, hd, hj⟩ := key (List.ne_nil_of_mem hb')
        exact Relation.ReflTransGen.head hj (mono _ _ (ih' d hd b hb'))
    · rcases List.mem_cons.1 hb with rfl | hb'
      · obtain ⟨d, hd, hj⟩ := key (List.ne_nil_of_mem ha')
        exact Relation.ReflTransGen.tail (mono _ _ (ih' a ha' d hd)) hj.symm
      · exact mono _ _ (ih' a ha' b hb')

theorem build_count {conn : Prop} (L : List (List Name)) (hn : (L.map clusterName).Nodup)
    (hr : RIPL conn L) (hc : conn) (hne : L ≠ []) : (build L).edges.length + 1 = L.length := by
  induction L with
  | nil => exact absurd rfl hne
  | cons c cs ih =>
    by_cases hcs : cs = []
    · subst hcs; simp [build, addNode, emptyTree]
    · obtain ⟨d, hd, hf, -⟩ := find_of_ripl hr (hr.linked hc (List.suffix_refl _) hcs)
      have hn' := List.nodup_cons.1 hn
      have hno : (addNode c (build cs)).edges.any (fun e => e.joins (clusterName c) (clusterName d)) = false := by
        rw [List.any_eq_false]
        intro e he
        obtain ⟨c', cs', d', h1, h2, -, h4, h5, -⟩ := build_edges cs hn'.2 e he
        have m1 : clusterName c' ∈ cs.map clusterName := List.mem_map_of_mem (h1.subset (by simp))
        have m2 : clusterName d' ∈ cs.map clusterName :=
          List.mem_map_of_mem (h1.subset (by simp [h2]))
        simp only [JEdge.joins, h4, h5]
        intro hh
        simp only [Bool.or_eq_true, Bool.and_eq_true, beq_iff_eq] at hh
        rcases hh with hh | hh
        · exact hn'.1 (hh.1 ▸ m1)
        · exact hn'.1 (hh.2 ▸ m2)
      have : (build (c :: cs)).edges.length = (build cs).edges.length + 1 := by
        rw [build]
        rw [hf]
        dsimp only
        unfold addEdge
        rw [hno]
        simp [addNode]
      rw [this, ih hn'.2 hr.2 hcs]
      simp

/-! ### transport to trees of the same shape -/

theorem clique_iff_skel {t : JTree} {k : Name} {vars : List Name} :
    t.Clique k vars ↔ (k, vars) ∈ skel t.nodes := by
  unfold Clique skel
  rw [List.mem_map]
  constructor
  · rintro ⟨f, h⟩; exact ⟨_, h, rfl⟩
  · rintro ⟨⟨k', n⟩, h, he⟩
    injection he with h1 h2
    subst h1 h2
    exact ⟨n.factor, h⟩

theorem joined_of_shape {t t' : JTree} (h : t'.shape = t.shape) (a b : Name) :
    t'.Joined a b ↔ t.Joined a b := by
  have h3 : t'.edges.map (fun e => (e.u, e.w, e.sep)) = t.edges.map fun e => (e.u, e.w, e.sep) :=
    congrArg (fun x => x.2.2) h
  have aux : ∀ t : JTree, t.Joined a b ↔ ∃ q ∈ t.edges.map (fun e => (e.u, e.w, e.sep)),
      ((q.1 == a && q.2.1 == b) || (q.1 == b && q.2.1 == a)) = true := by
    intro t
    unfold Joined
    simp only [List.mem_map, JEdge.joins]
    constructor
    · rintro ⟨e, he, hj⟩; exact ⟨_, ⟨e, he, rfl⟩, hj⟩
    · rintro ⟨_, ⟨e, he, rfl⟩, hj⟩; exact ⟨e, he, hj⟩
  rw [aux, aux, h3]

theorem clique_of_shape {t t' : JTree} (h : t'.shape = t.shape) (k : Name) (vars : List Name) :
    t'.Clique k vars ↔ t.Clique k vars := by
  rw [clique_iff_skel, clique_iff_skel, skel_of_shape h]

theorem RunningIntersection.of_shape {t t' : JTree} (h : t'.shape = t.shape)
    (hr : t.RunningIntersection) : t'.RunningIntersection := by
  constructor
  · intro e he
    have h3 : t'.edges.map (fun e => (e.u, e.w, e.sep)) = t.edges.map fun e => (e.u, e.w, e.sep) :=
      congrArg (fun x => x.2.2) h
    have : (e.u, e.w, e.sep) ∈ t.edges.map fun e => (e.u, e.w, e.sep) :=
      h3 ▸ List.mem_map_of_mem (f := fun e : JEdge => (e.u, e.w, e.sep)) he
    obtain ⟨e', he', heq⟩ := List.mem_map.1 this
    simp only [Prod.mk.injEq] at heq
    obtain ⟨a, b, h1, h2, hs⟩ := hr.sep e' he'
    rw [heq.1] at h1
    rw [heq.2.1] at h2
    rw [heq.2.2] at hs
    exact ⟨a, b, (clique_of_shape h _ _).2 h1, (clique_of_shape h _ _).2 h2, hs⟩
  · intro x k vars k' vars' h1 h2 h1' h2'
    refine rtg_mono (hr.path x k vars k' vars' ((clique_of_shape h _ _).1 h1) h2
      ((clique_of_shape h _ _).1 h1') h2') fun a b ⟨hj, ⟨va, ha, hxa⟩, ⟨vb, hb, hxb⟩⟩ => ?_
    exact ⟨(joined_of_shape h a b).2 hj, ⟨va, (clique_of_shape h _ _).2 ha, hxa⟩,
      ⟨vb, (clique_of_shape h _ _).2 hb, hxb⟩⟩

theorem IsTree.of_shape {t t' : JTree} (h : t'.shape = t.shape) (ht : t.IsTree) : t'.IsTree := by
  have h1 := keys_of_shape h
  have h3 := congrArg (fun x => x.2.2.length) h
  have h4 := congrArg (fun x => x.1.length) h
  simp only [shape, List.length_map] at h3 h4
  refine ⟨h1 ▸ ht.keys, by rw [h3, h4]; exact ht.count, ?_⟩
  rw [h1]
  intro k hk k' hk'
  exact rtg_mono (ht.connected k hk k' hk') fun a b hj => (joined_of_shape h a b).2 hj

/-- The tree of a perfect order. -/
theorem classic_of_clusters {conn : Prop} {L : List (List Name)} (hn : (L.map clusterName).Nodup)
    (hne : L ≠ []) (hr : RIPL conn L) :
    (build L).RunningIntersection ∧ (conn → (build L).IsTree) := by
  have hb := build_nodes L hn
  have hcl : ∀ k vars, (build L).Clique k vars ↔ vars ∈ L ∧ k = clusterName vars := by
    intro k vars
    rw [clique_iff_skel, hb]
    simp only [skel, List.map_map, List.mem_map, List.mem_reverse, Function.comp_apply, Prod.mk.injEq]
    constructor
    · rintro ⟨c, h1, h2, rfl⟩; exact ⟨h1, h2.symm⟩
    · rintro ⟨h1, rfl⟩; exact ⟨vars, h1, rfl, rfl⟩
  have hkeys : (build L).nodes.keys = (L.map clusterName).reverse := by
    rw [hb]; simp [Dict.keys, Function.comp_def]
  refine ⟨⟨fun e he => ?_, fun x k vars k' vars' h1 h2 h1' h2' => ?_⟩, fun hc => ⟨?_, ?_, ?_⟩⟩
  · obtain ⟨c, cs, d, hs, hd, ⟨hsub, -⟩, h1, h2, h3⟩ := build_edges L hn e he
    refine ⟨c, d, (hcl _ _).2 ⟨hs.subset (by simp), h1⟩, (hcl _ _).2 ⟨hs.subset (by simp [hd]), h2⟩, ?_⟩
    intro x
    rw [h3]
    constructor
    · intro hx; exact ⟨(mem_shared.1 hx).1, hsub x hx⟩
    · rintro ⟨hx, hxd⟩; exact mem_shared.2 ⟨hx, d, hd, hxd⟩
  · obtain ⟨m1, rfl⟩ := (hcl _ _).1 h1
    obtain ⟨m2, rfl⟩ := (hcl _ _).1 h1'
    refine rtg_mono (build_paths L hr x vars m1 h2 vars' m2 h2') fun a b hab => ?_
    obtain ⟨hj, ⟨d, hd, rfl, hxd⟩, ⟨d', hd', rfl, hxd'⟩⟩ := hab
    exact ⟨hj, ⟨d, (hcl _ _).2 ⟨hd, rfl⟩, hxd⟩, ⟨d', (hcl _ _).2 ⟨hd', rfl⟩, hxd'⟩⟩
  · rw [hkeys]; exact List.nodup_reverse.2 hn
  · rw [build_count L hn hr hc hne, hb]; simp
  · rw [hkeys]
    intro k hk k' hk'
    simp only [List.mem_reverse, List.mem_map] at hk hk'
    obtain ⟨c, hc', rfl⟩ := hk
    obtain ⟨c', hc'', rfl⟩ := hk'
    exact build_connected L hr hc c hc' c' hc''

/-- `create_jointree` for a perfect order, in the textbook formulation -/
theorem create_classic (so : SetOrder) {bn : BN} (hc : bn.Consistent) (hl : bn.Linked)
    (hr : bn.Recorded) (hu : UniqueJoin bn.names) (hne : bn ≠ []) (order0 : Option (List Name))
    {order : List Name} (hord : VE.chooseOrder bn order0 = .ok order) (ho : order.Perm bn.names)
    (hp : Perfect bn.Moral order) {t : JTree} (ht : create so bn order0 = .ok t) :
    t.RunningIntersection ∧ (bn.Connected → t.IsTree) ∧ t.nodes.keys.Nodup ∧
      ∀ e ∈ t.edges, e.sep ≠ [] := by
  obtain ⟨L, L', h1, h2, h3, h4, h5, h6, h7⟩ := bn_swaps hc hl hr ho hp
  have hLn : ∀ c ∈ L', ∀ x ∈ c, x ∈ bn.names := fun c hc x hx =>
    ho.subset ((h2.mem c (h6 c hc)).2.1 x hx)
  have hnames := hu.inj hLn h4.nodup
  have hL' : L' ≠ [] := by
    intro e
    obtain ⟨n, hn⟩ := List.exists_mem_of_ne_nil _ hne
    have hnn : n.name ∈ order := ho.symm.subset (List.mem_map_of_mem hn)
    obtain ⟨c, hc, -⟩ := h2.own _ hnn
    obtain ⟨d, hd, -⟩ := h7 c hc
    rw [e] at hd; simp at hd
  have hsh : t.shape = (build L').shape := by
    unfold create at ht
    rw [hord, ok_bind] at ht
    cases hf : bn.mapM Factor.fromNode with
    | error e => rw [hf] at ht; cases ht
    | ok fs =>
    rw [hf, ok_bind, h1, ok_bind, h3, ok_bind] at ht
    have := forEach_inv (P := fun s : JTree => s.shape = (build L').shape) (f := putFactor so) fs
      (fun f _ s hs => (putFactor_shape so f s).trans hs) (build L') rfl
    cases h5 : JRes.forEach (putFactor so) fs (build L') with
    | mk t0 o =>
      rw [h5] at ht this
      cases o with
      | none => cases ht; exact this
      | some e => cases ht
  obtain ⟨c1, c2⟩ := classic_of_clusters hnames hL' h5
  refine ⟨c1.of_shape hsh, fun hco => (c2 hco).of_shape hsh, ?_, fun e he => ?_⟩
  · rw [keys_of_shape hsh, build_nodes L' hnames]
    have := List.nodup_reverse.2 hnames
    simpa [Dict.keys, Function.comp_def, List.map_reverse] using this
  · have h3 : t.edges.map (fun e => (e.u, e.w, e.sep)) =
        (build L').edges.map fun e => (e.u, e.w, e.sep) := congrArg (fun x => x.2.2) hsh
    have : (e.u, e.w, e.sep) ∈ (build L').edges.map fun e => (e.u, e.w, e.sep) :=
      h3 ▸ List.mem_map_of_mem (f := fun e : JEdge => (e.u, e.w, e.sep)) he
    obtain ⟨e', he', heq⟩ := List.mem_map.1 this
    simp only [Prod.mk.injEq] at heq
    obtain ⟨c, cs, d, -, -, ⟨-, h⟩, -, -, h'⟩ := build_edges L' hnames e' he'
    rw [← heq.2.2, h']
    exact h

/-- Cliques outside the tree below the root are not joined to it. -/
theorem Sits.reach {bn : BN} {t : JTree} {root : Name} {rvars : List Name} {kids : Forest}
    {others : List Name} (hs : Sits bn t root rvars kids others) (hr : t.RunningIntersection)
    (hne : ∀ e ∈ t.edges, e.sep ≠ []) {k : Name} (h : Relation.ReflTransGen t.Joined root k) :
    k ∉ others := by
  have hnd := hs.keys.nodup hs.nodup
  rw [List.cons_append, List.nodup_cons] at hnd
  have hnd2 := List.nodup_append.1 hnd.2
  have hroot : root ∉ others := fun h => hnd.1 (List.mem_append_right _ h)
  -- the scope of a clique in the tree
  have hscope : ∀ a va, t.Clique a va → a ∉ others → ∀ x ∈ va, x ∈ rvars.toFinset ∪ kids.scope := by
    intro a va ha hao x hx
    have hka : a ∈ t.nodes.keys := by
      obtain ⟨f, hf⟩ := ha
      exact List.mem_map_of_mem (f := Prod.fst) hf
    have hget : (t.nodes.get? a).map JNode.vars = some va := by
      obtain ⟨f, hf⟩ := ha
      rw [Dict.get?_of_mem hs.nodup hf]; rfl
    have := hs.keys.subset hka
    simp only [List.cons_append, List.mem_cons, List.mem_append] at this
    rcases this with rfl | h | h
    · rw [hs.junction.root_vars] at hget
      injection hget with hget
      subst hget
      simp [hx]
    · obtain ⟨p, vars, sep, ks, hf, hsub⟩ := hs.junction.fits.mem h
      rw [hf.2.1] at hget
      injection hget with hget
      subst hget
      exact Finset.mem_union_right _ (hsub (by simpa using hx))
    · exact absurd h hao
  induction h with
  | refl => exact hroot
  | tail _ hj ih =>
    rename_i a b _
    intro hb
    obtain ⟨e, he, hje⟩ := hj
    obtain ⟨va, vb, ha, hb', hsep⟩ := hr.sep e he
    obtain ⟨x, hx⟩ := List.exists_mem_of_ne_nil _ (hne e he)
    obtain ⟨hxa, hxb⟩ := (hsep x).1 hx
    simp only [JEdge.joins, Bool.or_eq_true, Bool.and_eq_true, beq_iff_eq] at hje
    rcases hje with ⟨rfl, rfl⟩ | ⟨rfl, rfl⟩
    · exact Finset.disjoint_left.1 (hs.disj _ (clique_iff_skel.1 hb') hb) (by simpa using hxb)
        (hscope _ _ ha ih x hxa)
    · exact Finset.disjoint_left.1 (hs.disj _ (clique_iff_skel.1 ha) hb) (by simpa using hxa)
        (hscope _ _ hb' ih x hxb)

end JTree
end Primo
