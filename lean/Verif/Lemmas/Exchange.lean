import Verif.Lemmas.Schedule
import Verif.Lemmas.BlindState

/-! # The messages of a forest are an orderly exchange -/

namespace Primo
open JoinTree Finset

/-! ### edges and neighbours -/

theorem JTree.build_joined_nbrs (L : List (List Name)) : ∀ a b, (build L).Joined a b → b ∈ (build L).adj.nbrs a := by
  induction L with
  | nil => rintro a b ⟨e, he, -⟩; simp [build, emptyTree] at he
  | cons c cs ih =>
    rintro a b ⟨e, he, hj⟩
    rw [build] at he ⊢
    cases hd : cs.find? fun d => shared c cs ≠ [] && sub (shared c cs) d with
    | none =>
      rw [hd] at he
      dsimp only at he ⊢
      rw [JTree.nbrs_addNode]
      exact ih a b ⟨e, he, hj⟩
    | some d =>
      rw [hd] at he
      dsimp only at he ⊢
      refine UGraph.mem_nbrs_addEdge.2 ?_
      rw [JTree.nbrs_addNode]
      unfold addEdge at he
      dsimp only at he
      have hnew : (JEdge.mk (clusterName c) (clusterName d) (shared c cs) (.trivial 1)).joins a b = true →
          (a = clusterName c ∧ b = clusterName d) ∨ a = clusterName d ∧ b = clusterName c := by
        intro h
        simp only [JEdge.joins, Bool.or_eq_true, Bool.and_eq_true, beq_iff_eq] at h
        rcases h with ⟨h1, h2⟩ | ⟨h1, h2⟩
        · exact Or.inl ⟨h1.symm, h2.symm⟩
        · exact Or.inr ⟨h2.symm, h1.symm⟩
      split at he
      · obtain ⟨e', he', rfl⟩ := List.mem_map.1 he
        refine Or.inl (ih a b ⟨e', he', ?_⟩)
        split at hj <;> exact hj
      · rcases List.mem_append.1 he with he | he
        · exact Or.inl (ih a b ⟨e, he, hj⟩)
        · cases List.mem_singleton.1 he
          exact Or.inr (hnew hj)

/-! ### the schedule -/

namespace Forest

theorem mem_distribute {p a b : Name} {f : Forest} : (a, b) ∈ f.distribute p ↔ (b, a) ∈ f.collect p := by
  induction f generalizing p with
  | nil => simp [distribute, collect]
  | cons nm vars sep kids rest ihk ihr =>
    simp only [distribute, collect, List.mem_cons, List.mem_append, ihk, ihr, Prod.mk.injEq]
    tauto

theorem collect_fst (p : Name) (f : Forest) : ((f.collect p).map Prod.fst).Perm f.names := by
  induction f generalizing p with
  | nil => exact .refl _
  | cons nm vars sep kids rest ihk ihr =>
    simp only [collect, names, List.map_append, List.map_cons]
    refine (List.perm_middle).trans (.cons _ ?_)
    exact (ihk nm).append (ihr p)

theorem distribute_snd (p : Name) (f : Forest) : (f.distribute p).map Prod.snd = f.names := by
  induction f generalizing p with
  | nil => rfl
  | cons nm vars sep kids rest ihk ihr =>
    simp only [distribute, names, List.map_append, List.map_cons, ihk, ihr]

/-- parents come first -/
theorem distribute_sublist {p a b : Name} {f : Forest} (h : (a, b) ∈ f.distribute p) :
    List.Sublist [a, b] (p :: f.names) := by
  induction f generalizing p with
  | nil => simp [distribute] at h
  | cons nm vars sep kids rest ihk ihr =>
    simp only [distribute, List.mem_cons, List.mem_append, Prod.mk.injEq] at h
    rw [names]
    rcases h with ⟨rfl, rfl⟩ | h | h
    · exact (List.Sublist.cons_cons _ (List.Sublist.cons_cons _ (List.nil_sublist _)))
    · exact ((ihk h).trans (List.Sublist.cons_cons _ (List.sublist_append_left _ _))).cons _
    · refine (ihr h).trans (List.Sublist.cons_cons _ ((List.sublist_append_right _ _).cons _))

theorem schedule_nodup {root : Name} {f : Forest} (hn : (root :: f.names).Nodup) :
    (f.collect root ++ f.distribute root).Nodup := by
  have hn' := (List.nodup_cons.1 hn).2
  rw [List.nodup_append]
  refine ⟨?_, ?_, ?_⟩
  · exact List.Nodup.of_map Prod.fst ((collect_fst root f).nodup_iff.2 hn')
  · exact List.Nodup.of_map Prod.snd (by rw [distribute_snd]; exact hn')
  · rintro ⟨a, b⟩ h1 m h2 rfl
    have s1 := distribute_sublist (mem_distribute.2 h1)
    have s2 := distribute_sublist h2
    generalize root :: f.names = l at hn s1 s2
    have hab : a ≠ b := by
      intro e
      have := s1.nodup hn
      simp [e] at this
    clear h1 h2 hn'
    induction l with
    | nil => simp at s1
    | cons x l ih =>
      rw [List.nodup_cons] at hn
      rcases List.sublist_cons_iff.1 s1 with s1' | ⟨r, e, s1'⟩
      · rcases List.sublist_cons_iff.1 s2 with s2' | ⟨r, e, s2'⟩
        · exact ih hn.2 s1' s2'
        · injection e with e1 e2
          subst e1
          exact hn.1 (s1'.subset (by simp))
      · injection e with e1 e2
        subst e1
        rcases List.sublist_cons_iff.1 s2 with s2' | ⟨r', e', s2'⟩
        · exact hn.1 (s2'.subset (by simp))
        · injection e' with e1'
          exact hab e1'

theorem tops_collect {p c : Name} {f : Forest} (h : c ∈ f.tops) : (c, p) ∈ f.collect p := by
  induction f generalizing p with
  | nil => simp [tops] at h
  | cons nm vars sep kids rest ihk ihr =>
    simp only [tops, List.mem_cons] at h
    simp only [collect, List.mem_append, List.mem_cons]
    rcases h with rfl | h
    · exact Or.inr (Or.inl rfl)
    · exact Or.inr (Or.inr (ihr h))

/-- a split of a list of which one part is known -/
theorem split_append {α : Type} {l l' pre post : List α} {x : α} (h : l ++ l' = pre ++ x :: post) :
    (∃ post', l = pre ++ x :: post') ∨ ∃ pre', pre = l ++ pre' ∧ l' = pre' ++ x :: post := by
  rcases List.append_eq_append_iff.1 h with ⟨as, h1, h2⟩ | ⟨bs, h1, h2⟩
  · exact Or.inr ⟨as, h1, h2⟩
  · cases bs with
    | nil => exact Or.inr ⟨[], by simpa using h1.symm, by simpa using h2.symm⟩
    | cons y ys =>
      rw [List.cons_append] at h2
      injection h2 with h3 h4
      subst h3
      exact Or.inl ⟨ys, h1⟩

section
variable {g : UGraph}

theorem collect_informed {p : Name} {f : Forest} (hf : f.All (JTree.Hangs g) p) :
    ∀ pre a b post, f.collect p = pre ++ (a, b) :: post → ∀ c ∈ g.nbrs a, c ≠ b → (c, a) ∈ pre := by
  induction f generalizing p with
  | nil => intro pre a b post h; simp [collect] at h
  | cons nm vars sep kids rest ihk ihr =>
    obtain ⟨⟨h1, h2⟩, hk, hr⟩ := hf
    intro pre a b post h c hc hcb
    rw [collect] at h
    rcases split_append h with ⟨post', h⟩ | ⟨pre', rfl, hs⟩
    · exact ihk hk pre a b post' h c hc hcb
    · clear h
      cases pre' with
      | nil =>
        rw [List.nil_append] at hs
        injection hs with h3 h4
        injection h3 with h5 h6
        subst h5 h6
        refine List.mem_append_left _ (tops_collect ?_)
        rw [← h2, List.mem_filter]
        exact ⟨hc, by simpa using hcb⟩
      | cons y ys =>
        rw [List.cons_append] at hs
        injection hs with h3 h4
        exact List.mem_append_right _ (List.mem_cons_of_mem _ (ihr hr ys a b post h4 c hc hcb))

theorem distribute_informed {p : Name} {f : Forest} (hf : f.All (JTree.Hangs g) p) (R : List (Name × Name))
    (hR : ∀ m ∈ f.collect p, m ∈ R) (hp : ∀ c ∈ g.nbrs p, (c, p) ∈ R) :
    ∀ pre a b post, f.distribute p = pre ++ (a, b) :: post → ∀ c ∈ g.nbrs a, (c, a) ∈ R ++ pre := by
  induction f generalizing p R with
  | nil => intro pre a b post h; simp [distribute] at h
  | cons nm vars sep kids rest ihk ihr =>
    obtain ⟨⟨h1, h2⟩, hk, hr⟩ := hf
    intro pre a b post h c hc
    rw [distribute] at h
    rw [collect] at hR
    cases pre with
    | nil =>
      rw [List.nil_append] at h
      injection h with h3 h4
      injection h3 with h5 h6
      subst h5
      exact List.mem_append_left _ (hp c hc)
    | cons y ys =>
      rw [List.cons_append] at h
      injection h with h3 h4
      subst h3
      rcases split_append h4 with ⟨post', h⟩ | ⟨pre', rfl, h⟩
      · have := ihk hk (R ++ [(p, nm)]) (fun m hm => List.mem_append_left _ (hR m (List.mem_append_left _ hm)))
          (fun c hc => by
            by_cases hcp : c = p
            · subst hcp; simp
            · refine List.mem_append_left _ (hR _ (List.mem_append_left _ (tops_collect ?_)))
              rw [← h2, List.mem_filter]
              exact ⟨hc, by simpa using hcp⟩) ys a b post' h c hc
        simpa [List.append_assoc] using this
      · have := ihr hr (R ++ (p, nm) :: kids.distribute nm)
          (fun m hm => List.mem_append_left _ (hR m (List.mem_append_right _ (List.mem_cons_of_mem _ hm))))
          (fun c hc => List.mem_append_left _ (hp c hc)) pre' a b post h c hc
        simpa [List.append_assoc] using this

theorem nbrs_cases {p a b : Name} {f : Forest} (hf : f.All (JTree.Hangs g) p) (ha : a ∈ f.names) (hb : b ∈ g.nbrs a) :
    (a, b) ∈ f.collect p ∨ (a, b) ∈ f.distribute p := by
  induction f generalizing p with
  | nil => simp [names] at ha
  | cons nm vars sep kids rest ihk ihr =>
    obtain ⟨⟨h1, h2⟩, hk, hr⟩ := hf
    simp only [names, List.mem_cons, List.mem_append] at ha
    simp only [collect, distribute, List.mem_cons, List.mem_append]
    rcases ha with rfl | ha | ha
    · by_cases hbp : b = p
      · subst hbp; simp
      · refine Or.inr (Or.inr (Or.inl (mem_distribute.2 (tops_collect ?_))))
        rw [← h2, List.mem_filter]
        exact ⟨hb, by simpa using hbp⟩
    · rcases ihk hk ha with h | h
      · exact Or.inl (Or.inl h)
      · exact Or.inr (Or.inr (Or.inl h))
    · rcases ihr hr ha with h | h
      · exact Or.inl (Or.inr (Or.inr h))
      · exact Or.inr (Or.inr (Or.inr h))

end

theorem collect_names {p a b : Name} {f : Forest} (h : (a, b) ∈ f.collect p) : a ∈ f.names ∧ b ∈ p :: f.names := by
  have h1 := distribute_sublist (mem_distribute.2 h)
  refine ⟨(collect_fst p f).subset (List.mem_map_of_mem (f := Prod.fst) h), h1.subset (by simp)⟩

end Forest

namespace JTree

theorem collect_joined {t : JTree} {p a b : Name} {f : Forest} (hf : f.All t.Fits p) (h : (a, b) ∈ f.collect p) :
    t.Joined a b := by
  induction f generalizing p with
  | nil => simp [Forest.collect] at h
  | cons nm vars sep kids rest ihk ihr =>
    obtain ⟨⟨-, -, h1, -⟩, hk, hr⟩ := hf
    simp only [Forest.collect, List.mem_cons, List.mem_append, Prod.mk.injEq] at h
    rcases h with h | ⟨rfl, rfl⟩ | h
    · exact ihk hk h
    · unfold edge at h1
      split at h1
      · rename_i e he
        exact ⟨e, List.mem_of_find?_eq_some he, by simpa using List.find?_some he⟩
      · cases h1
    · exact ihr hr h

theorem names_reached {t : JTree} {p root : Name} {f : Forest} (hf : f.All t.Fits p)
    (hp : Relation.ReflTransGen t.Joined root p) : ∀ k ∈ f.names, Relation.ReflTransGen t.Joined root k := by
  induction f generalizing p with
  | nil => intro k hk; simp [Forest.names] at hk
  | cons nm vars sep kids rest ihk ihr =>
    have hj : t.Joined nm p := collect_joined hf (by simp [Forest.collect])
    obtain ⟨-, hk, hr⟩ := hf
    have hnm := hp.tail hj.symm
    intro k hkk
    simp only [Forest.names, List.mem_cons, List.mem_append] at hkk
    rcases hkk with rfl | h | h
    · exact hnm
    · exact ihk hk hnm k h
    · exact ihr hr hp k h

/-- The part of the stored graph that the first node reaches is a tree; nothing is said about variables. -/
structure Rooted (t : JTree) (root : Name) (kids : Forest) : Prop where
  first : t.nodes.keys.head? = some root
  name : root ≠ ""
  nbrs : t.adj.nbrs root = kids.tops
  nodup : (root :: kids.names).Nodup
  fits : kids.All t.Fits root

theorem Rooted.of_shape {t t' : JTree} (h : t'.shape = t.shape) {root : Name} {kids : Forest}
    (hj : t.Rooted root kids) : t'.Rooted root kids where
  first := by rw [keys_of_shape h]; exact hj.first
  name := hj.name
  nbrs := by rw [adj_of_shape h]; exact hj.nbrs
  nodup := hj.nodup
  fits := hj.fits.imp fun _ _ _ _ _ _ _ hq => hq.of_shape h

theorem Rooted.hangs {t : JTree} {root : Name} {kids : Forest} (h : t.Rooted root kids) :
    kids.All (Hangs t.adj) root := h.fits.imp fun _ _ _ _ _ _ _ hq => ⟨hq.1, hq.2.2.2.1⟩

/-- the messages of a tree -/
theorem Rooted.exchange {t : JTree} {root : Name} {kids : Forest} (h : t.Rooted root kids) (hn : ∀ a b, t.Joined a b → b ∈ t.adj.nbrs a) :
    t.Exchange (kids.collect root ++ kids.distribute root) ∧ ∀ k, t.Reached k ↔ k ∈ root :: kids.names := by
  have hreach : ∀ k, t.Reached k ↔ k ∈ root :: kids.names := by
    intro k
    constructor
    · rintro ⟨r, h1, h2⟩
      rw [h.first] at h1
      cases h1
      induction h2 with
      | refl => simp
      | @tail b c _ hbc ih =>
        have hc := hn b c hbc
        rcases List.mem_cons.1 ih with rfl | ih
        · rw [h.nbrs] at hc
          exact List.mem_cons_of_mem _ (Forest.collect_names (Forest.tops_collect (p := b) hc)).1
        · rcases Forest.nbrs_cases h.hangs ih hc with hm | hm
          · exact (Forest.collect_names hm).2
          · exact List.mem_cons_of_mem _ (Forest.collect_names (Forest.mem_distribute.1 hm)).1
    · intro hk
      refine ⟨root, h.first, ?_⟩
      rcases List.mem_cons.1 hk with rfl | hk
      · exact .refl
      · exact names_reached h.fits .refl k hk
  refine ⟨⟨Forest.schedule_nodup h.nodup, fun a b => ?_, fun pre a b post hm c hc hcb => ?_⟩, hreach⟩
  · rw [hreach, List.mem_append]
    constructor
    · rintro (hm | hm)
      · exact ⟨List.mem_cons_of_mem _ (Forest.collect_names hm).1, collect_joined h.fits hm⟩
      · have := Forest.mem_distribute.1 hm
        exact ⟨(Forest.collect_names this).2, (collect_joined h.fits this).symm⟩
    · rintro ⟨ha, hj⟩
      have hb := hn a b hj
      rcases List.mem_cons.1 ha with rfl | ha
      · rw [h.nbrs] at hb
        exact Or.inr (Forest.mem_distribute.2 (Forest.tops_collect hb))
      · exact Forest.nbrs_cases h.hangs ha hb
  · have hca := hn a c hc.symm
    rcases Forest.split_append hm with ⟨post', hm⟩ | ⟨pre', rfl, hs⟩
    · exact Forest.collect_informed h.hangs pre a b post' hm c hca hcb
    · exact Forest.distribute_informed h.hangs (kids.collect root) (fun _ hm => hm)
        (fun c hc => Forest.tops_collect (h.nbrs ▸ hc)) pre' a b post hs c hca

/-- what `build` makes of any list of clusters -/
structure Grafted (L : List (List Name)) (t : JTree) (root : Name) (kids : Forest) (others : List Name) : Prop where
  rooted : t.Rooted root kids
  nodes : t.nodes.keys = (L.map clusterName).reverse
  adj_nodes : t.adj.nodes = t.nodes.keys
  adj_mem : ∀ x y, y ∈ t.adj.nbrs x → y ∈ t.nodes.keys
  keys : t.nodes.keys.Perm (root :: kids.names ++ others)
  ends : ∀ e ∈ t.edges, e.u ∈ t.nodes.keys ∧ e.w ∈ t.nodes.keys

section
variable {cs : List (List Name)} {t t' : JTree} {root : Name} {kids : Forest} {others : List Name} {c : List Name}
  {d : Name} {sep : List Name} {att : Prop}

theorem Grafted.step (b : Grafted cs t root kids others) (hn : ((c :: cs).map clusterName).Nodup)
    (g : t.Grown t' (clusterName c) d c sep att) (hd : att → d ∈ t.nodes.keys) :
    t'.nodes.keys = ((c :: cs).map clusterName).reverse ∧ t'.adj.nodes = t'.nodes.keys ∧
    (∀ e ∈ t'.edges, e.u ∈ t'.nodes.keys ∧ e.w ∈ t'.nodes.keys) ∧
    clusterName c ∉ t.nodes.keys ∧ t'.nodes.keys = t.nodes.keys ++ [clusterName c] := by
  have hkeys : t'.nodes.keys = t.nodes.keys ++ [clusterName c] := by
    rw [g.nodes, Dict.keys_append]; rfl
  refine ⟨?_, ?_, ?_, ?_, hkeys⟩
  · rw [hkeys, b.nodes]; simp
  · rw [g.adj_nodes, hkeys, b.adj_nodes]
  · intro e he
    rw [hkeys]
    rcases g.edge_ends e he with h | ⟨h1, h2, h3⟩
    · have := b.ends e h
      exact ⟨List.mem_append_left _ this.1, List.mem_append_left _ this.2⟩
    · rw [h1, h2]
      exact ⟨by simp, List.mem_append_left _ (hd h3)⟩
  · rw [b.nodes]
    simp only [List.map_cons, List.nodup_cons] at hn
    simpa using hn.1

/-- the new cluster is not connected to the first one -/
theorem Grafted.aside (b : Grafted cs t root kids others) (hn : ((c :: cs).map clusterName).Nodup)
    (g : t.Grown t' (clusterName c) d c sep att) (hd : att → d ∈ others)
    (hmem : ∀ x y, y ∈ t'.adj.nbrs x → y ∈ t'.nodes.keys) :
    Grafted (c :: cs) t' root kids (clusterName c :: others) := by
  have hdk : att → d ∈ t.nodes.keys := fun h => b.keys.symm.subset (by simp [hd h])
  obtain ⟨s1, s2, s3, s5, s6⟩ := b.step hn g hdk
  have hnd : (root :: kids.names ++ others).Nodup := by
    rw [← b.keys.nodup_iff, b.nodes, List.nodup_reverse]
    simp only [List.map_cons, List.nodup_cons] at hn
    exact hn.2
  have hdn : att → d ∉ root :: kids.names := fun h h' =>
    (List.nodup_append.1 hnd).2.2 _ h' _ (hd h) rfl
  have hcn : clusterName c ∉ root :: kids.names := fun h =>
    s5 (b.keys.symm.subset (List.mem_append_left _ h))
  simp only [List.mem_cons, not_or] at hcn hdn
  refine ⟨⟨?_, b.rooted.name, ?_, b.rooted.nodup, ?_⟩, s1, s2, hmem, ?_, s3⟩
  · rw [s6, List.head?_append, b.rooted.first]; rfl
  · rw [g.nbrs_old _ (Ne.symm hcn.1) fun h e => (hdn h).1 e.symm, b.rooted.nbrs]
  · exact g.keep s5 b.rooted.fits (Ne.symm hcn.1) hcn.2 fun h => (hdn h).2
  · rw [s6]
    refine (b.keys.append_right _).trans ?_
    rw [List.append_assoc]
    exact List.Perm.append_left _ List.perm_append_comm

/-- the new cluster hangs below a clique of the tree -/
theorem Grafted.hang (b : Grafted cs t root kids others) (hn : ((c :: cs).map clusterName).Nodup)
    (hne : clusterName c ≠ "") (hsep : sep ≠ []) (g : t.Grown t' (clusterName c) d c sep True)
    (hmem : ∀ x y, y ∈ t'.adj.nbrs x → y ∈ t'.nodes.keys) (hd : d ∈ root :: kids.names) :
    ∃ kids', Grafted (c :: cs) t' root kids' others := by
  have hdk : d ∈ t.nodes.keys := b.keys.symm.subset (List.mem_append_left _ hd)
  obtain ⟨s1, s2, s3, s5, s6⟩ := b.step hn g fun _ => hdk
  have hcn : clusterName c ∉ root :: kids.names := fun h =>
    s5 (b.keys.symm.subset (List.mem_append_left _ h))
  simp only [List.mem_cons, not_or] at hcn
  have hjn := b.rooted.nodup
  rw [List.nodup_cons] at hjn
  have key : ∃ kids' : Forest, kids'.names.Perm (clusterName c :: kids.names) ∧ kids'.All t'.Fits root ∧
      t'.adj.nbrs root = kids'.tops := by
    by_cases hr : d = root
    · refine ⟨kids.snoc (clusterName c) c sep, ?_, ?_, ?_⟩
      · rw [Forest.snoc_names]; exact List.perm_append_comm
      · refine (g.keep s5 b.rooted.fits (Ne.symm hcn.1) hcn.2 fun _ => hr ▸ hjn.1).snoc ?_
        refine ⟨hne, ?_, ?_, ?_, hsep⟩
        · rw [g.get? s5, if_pos rfl]; rfl
        · rw [← hr]; exact g.edge_new trivial
        · rw [g.nbrs_new trivial]; simp [hr, Forest.tops]
      · rw [← hr, g.nbrs_d trivial, hr, b.rooted.nbrs, Forest.snoc_tops]
    · have hdm : d ∈ kids.names := by
        rcases List.mem_cons.1 hd with h | h
        · exact absurd h hr
        · exact h
      refine ⟨kids.addLeaf d (clusterName c) c sep, Forest.addLeaf_names hdm hjn.2, ?_, ?_⟩
      · exact g.grow s5 hne hsep b.rooted.fits (Ne.symm hcn.1) (Ne.symm hr) hcn.2 hjn.2
      · rw [g.nbrs_old _ (Ne.symm hcn.1) fun _ => Ne.symm hr, b.rooted.nbrs, Forest.addLeaf_tops]
  obtain ⟨kids', k1, k3, k4⟩ := key
  have hperm : (root :: kids'.names ++ others).Perm (clusterName c :: (root :: kids.names ++ others)) :=
    List.Perm.trans (List.Perm.append_right _ (List.Perm.cons _ k1)) (List.Perm.swap _ _ _)
  refine ⟨kids', ⟨?_, b.rooted.name, k4, ?_, k3⟩, s1, s2, hmem, ?_, s3⟩
  · rw [s6, List.head?_append, b.rooted.first]; rfl
  · rw [(List.Perm.cons root k1).nodup_iff, List.nodup_cons, List.mem_cons, not_or, List.nodup_cons]
    exact ⟨⟨Ne.symm hcn.1, hjn.1⟩, hcn.2, hjn.2⟩
  · rw [s6]
    refine List.perm_append_comm.trans ?_
    exact (List.Perm.cons _ b.keys).trans hperm.symm

end

theorem build_grafted (L : List (List Name)) (hL : L ≠ []) (hn : (L.map clusterName).Nodup)
    (he : ∀ c ∈ L, clusterName c ≠ "") : ∃ root kids others, Grafted L (build L) root kids others := by
  induction L with
  | nil => exact absurd rfl hL
  | cons c cs ih =>
    by_cases hcs : cs = []
    · subst hcs
      refine ⟨clusterName c, .nil, [], ⟨?_, he c (by simp), ?_, by simp [Forest.names], trivial⟩, ?_, ?_, ?_, ?_, ?_⟩
      all_goals simp [build, addNode, emptyTree, Dict.set, Dict.keys, UGraph.nbrs, UGraph.nodes, Dict.get?,
        Forest.tops, Forest.names]
      intro x y
      split <;> simp
    · have hn' := hn
      simp only [List.map_cons, List.nodup_cons] at hn'
      obtain ⟨root, kids, others, b⟩ := ih hcs hn'.2 (fun d hd => he d (List.mem_cons_of_mem _ hd))
      have hfresh : clusterName c ∉ (build cs).nodes.keys := by
        rw [b.nodes]; simpa using hn'.1
      rw [build]
      cases hf : cs.find? fun d => shared c cs ≠ [] && sub (shared c cs) d with
      | none =>
        have g := addNode_grown (d := "") (sep := []) b.adj_nodes hfresh
        refine ⟨root, kids, _, b.aside hn g (fun h => h.elim) ?_⟩
        intro x y hy
        have hk : (addNode c (build cs)).nodes.keys = (build cs).nodes.keys ++ [clusterName c] := by
          rw [g.nodes, Dict.keys_append]; rfl
        rw [hk]
        by_cases hx : x = clusterName c
        · exfalso
          rw [addNode] at hy
          dsimp only at hy
          rw [if_neg (b.adj_nodes ▸ hfresh)] at hy
          unfold UGraph.nbrs at hy
          rw [← Dict.set_of_not_mem _ (show clusterName c ∉ Dict.keys (build cs).adj from by
            rw [show Dict.keys (build cs).adj = (build cs).adj.nodes from rfl, b.adj_nodes]; exact hfresh),
            Dict.get?_set, if_pos hx.symm] at hy
          simp at hy
        · rw [g.nbrs_old x hx fun h => h.elim] at hy
          exact List.mem_append_left _ (b.adj_mem x y hy)
      | some dv =>
        have hp := List.find?_some hf
        simp only [Bool.and_eq_true, decide_eq_true_eq] at hp
        have hdv := List.mem_of_find?_eq_some hf
        have hdk : clusterName dv ∈ (build cs).nodes.keys := by
          rw [b.nodes]; simpa using ⟨dv, hdv, rfl⟩
        have g := addEdge_grown (sep := shared c cs) b.adj_nodes hfresh hdk
          (fun h => hfresh (b.adj_mem _ _ h)) b.ends
        have hmem : ∀ x y, y ∈ (addEdge (clusterName c) (clusterName dv) (shared c cs)
            (addNode c (build cs))).adj.nbrs x →
            y ∈ (addEdge (clusterName c) (clusterName dv) (shared c cs) (addNode c (build cs))).nodes.keys := by
          intro x y hy
          rw [g.nodes, Dict.keys_append]
          by_cases hx : x = clusterName c
          · rw [hx, g.nbrs_new trivial, List.mem_singleton] at hy
            rw [hy]; exact List.mem_append_left _ hdk
          · by_cases hx2 : x = clusterName dv
            · rw [hx2, g.nbrs_d trivial, List.mem_append, List.mem_singleton] at hy
              rcases hy with hy | hy
              · exact List.mem_append_left _ (b.adj_mem _ _ hy)
              · rw [hy]; exact List.mem_append_right _ (by simp)
            · rw [g.nbrs_old x hx fun _ => hx2] at hy
              exact List.mem_append_left _ (b.adj_mem _ _ hy)
        rcases List.mem_append.1 (b.keys.subset hdk) with hd | hd
        · obtain ⟨kids', b'⟩ := b.hang hn (he c (by simp)) hp.1 g hmem hd
          exact ⟨root, kids', others, b'⟩
        · exact ⟨root, kids, _, b.aside hn g (fun _ => hd) hmem⟩

end JTree
end Primo
