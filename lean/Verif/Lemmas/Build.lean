import Verif.Lemmas.Hugin
import Verif.Lemmas.Order

/-! # The tree construction of `create_jointree` -/

namespace Primo
open Finset

namespace Forest

/-- append one leaf to a list of trees -/
def snoc (nm : Name) (vars sep : List Name) : Forest → Forest
  | nil => cons nm vars sep nil nil
  | cons a b c kids rest => cons a b c kids (rest.snoc nm vars sep)

/-- append a leaf to the children of the clique `d` -/
def addLeaf (d nm : Name) (vars sep : List Name) : Forest → Forest
  | nil => nil
  | cons a b c kids rest =>
    cons a b c (if a = d then kids.snoc nm vars sep else kids.addLeaf d nm vars sep)
      (rest.addLeaf d nm vars sep)

variable {nm d : Name} {vars sep : List Name}

theorem snoc_tops (f : Forest) : (f.snoc nm vars sep).tops = f.tops ++ [nm] := by
  induction f with
  | nil => rfl
  | cons a b c kids rest _ ih => simp [snoc, tops, ih]

theorem snoc_names (f : Forest) : (f.snoc nm vars sep).names = f.names ++ [nm] := by
  induction f with
  | nil => rfl
  | cons a b c kids rest _ ih => simp [snoc, names, ih]

theorem snoc_scope (f : Forest) : (f.snoc nm vars sep).scope = f.scope ∪ vars.toFinset := by
  induction f with
  | nil => simp [snoc, scope]
  | cons a b c kids rest _ ih => simp [snoc, scope, ih, Finset.union_assoc]

theorem addLeaf_of_not_mem {f : Forest} (h : d ∉ f.names) : f.addLeaf d nm vars sep = f := by
  induction f with
  | nil => rfl
  | cons a b c kids rest ihk ihr =>
    simp only [names, List.mem_cons, List.mem_append, not_or] at h
    rw [addLeaf, if_neg (Ne.symm h.1), ihk h.2.1, ihr h.2.2]

theorem addLeaf_tops (f : Forest) : (f.addLeaf d nm vars sep).tops = f.tops := by
  induction f with
  | nil => rfl
  | cons a b c kids rest _ ih => simp [addLeaf, tops, ih]

theorem addLeaf_names {f : Forest} (hd : d ∈ f.names) (hn : f.names.Nodup) :
    (f.addLeaf d nm vars sep).names.Perm (nm :: f.names) := by
  induction f with
  | nil => simp [names] at hd
  | cons a b c kids rest ihk ihr =>
    simp only [names, List.nodup_cons, List.mem_append, not_or, List.nodup_append] at hn
    obtain ⟨⟨h1, h2⟩, h3, h4, h5⟩ := hn
    rw [addLeaf, names]
    by_cases ha : a = d
    · subst ha
      rw [if_pos rfl, snoc_names, addLeaf_of_not_mem h2, names]
      rw [List.append_assoc]
      refine List.Perm.trans (List.Perm.cons _ ?_) (List.Perm.swap _ _ _)
      exact List.perm_middle
    · rw [if_neg ha]
      simp only [names, List.mem_cons, List.mem_append] at hd
      rcases hd with hd | hd | hd
      · exact absurd hd.symm ha
      · rw [addLeaf_of_not_mem fun h => h5 d hd d h rfl, names]
        refine List.Perm.trans (List.Perm.cons _ ?_) (List.Perm.swap _ _ _)
        exact (ihk hd h3).append_right _
      · rw [addLeaf_of_not_mem fun h => h5 d h d hd rfl, names]
        refine List.Perm.trans (List.Perm.cons _ ?_) (List.Perm.swap _ _ _)
        exact ((ihr hd h4).append_left _).trans List.perm_middle

theorem addLeaf_scope {f : Forest} (hd : d ∈ f.names) :
    (f.addLeaf d nm vars sep).scope = f.scope ∪ vars.toFinset := by
  induction f with
  | nil => simp [names] at hd
  | cons a b c kids rest ihk ihr =>
    have aux : ∀ g : Forest, (d ∈ g.names → (g.addLeaf d nm vars sep).scope = g.scope ∪ vars.toFinset) →
        (g.addLeaf d nm vars sep).scope = g.scope ∨
        (g.addLeaf d nm vars sep).scope = g.scope ∪ vars.toFinset := by
      intro g hg
      by_cases h : d ∈ g.names
      · exact Or.inr (hg h)
      · exact Or.inl (by rw [addLeaf_of_not_mem h])
    rw [addLeaf, scope, scope]
    have hr := aux rest ihr
    by_cases ha : a = d
    · rw [if_pos ha, snoc_scope]
      rcases hr with hr | hr <;> rw [hr] <;> ext x <;> simp only [mem_union] <;> tauto
    · rw [if_neg ha]
      simp only [names, List.mem_cons, List.mem_append] at hd
      rcases hd with hd | hd | hd
      · exact absurd hd.symm ha
      · rw [ihk hd]
        rcases hr with hr | hr <;> rw [hr] <;> ext x <;> simp only [mem_union] <;> tauto
      · rw [ihr hd]
        rcases aux kids ihk with hk | hk <;> rw [hk] <;> ext x <;> simp only [mem_union] <;> tauto

theorem RIP.enlarge {P W C : Finset Name} {f : Forest} (h : f.RIP P W) (hC : C ∩ f.scope ⊆ W) :
    f.RIP P (W ∪ C) := by
  induction f generalizing P W with
  | nil => trivial
  | cons a b c kids rest ihk ihr =>
    obtain ⟨h1, h2, h3, h4⟩ := h
    refine ⟨?_, h2, (ihk h3 ?_).mono ?_, (ihr h4 ?_).mono ?_⟩
    all_goals
      intro x
      have a1 := @h1 x
      have a3 := @hC x
      simp only [scope, mem_inter, mem_union] at a1 a3 ⊢
      tauto

theorem snoc_rip {P W : Finset Name} {f : Forest} (h : f.RIP P W) (hP : P ⊆ W)
    (h1 : vars.toFinset ∩ (W ∪ f.scope) ⊆ sep.toFinset) (h2 : sep.toFinset ⊆ vars.toFinset ∩ P) :
    (f.snoc nm vars sep).RIP P W := by
  induction f generalizing W with
  | nil =>
    refine ⟨?_, h2, trivial, trivial⟩
    intro x
    have a1 := @h1 x
    simp only [scope, mem_inter, mem_union] at a1 ⊢
    simp only [Finset.notMem_empty, or_false] at a1 ⊢
    exact a1
  | cons a b c kids rest ihk ihr =>
    obtain ⟨r1, r2, r3, r4⟩ := h
    refine ⟨?_, r2, ?_, ihr r4 (hP.trans ?_) ?_⟩
    · intro x
      have b1 := @r1 x
      have b2 := @h1 x
      have b3 := @h2 x
      have b4 := @hP x
      simp only [snoc_scope, scope, mem_inter, mem_union] at b1 b2 b3 b4 ⊢
      tauto
    · refine RIP.mono (r3.enlarge (C := vars.toFinset) ?_) ?_
      · intro x
        have b1 := @r1 x
        have b2 := @h1 x
        have b3 := @h2 x
        have b4 := @hP x
        simp only [scope, mem_inter, mem_union] at b1 b2 b3 b4 ⊢
        tauto
      · intro x
        simp only [snoc_scope, mem_union]
        tauto
    · intro x; simp only [mem_union]; tauto
    · intro x
      have b2 := @h1 x
      simp only [scope, mem_inter, mem_union] at b2 ⊢
      tauto

/-- variables of the clique `d` -/
def VarsOf (d : Name) (S : Finset Name) : Forest → Prop
  | nil => False
  | cons a b _ kids rest => (a = d ∧ b.toFinset = S) ∨ VarsOf d S kids ∨ VarsOf d S rest

theorem VarsOf.mem {S : Finset Name} {f : Forest} (h : f.VarsOf d S) : d ∈ f.names := by
  induction f with
  | nil => exact h.elim
  | cons a b c kids rest ihk ihr =>
    simp only [names, List.mem_cons, List.mem_append]
    rcases h with h | h | h
    · exact Or.inl h.1.symm
    · exact Or.inr (Or.inl (ihk h))
    · exact Or.inr (Or.inr (ihr h))

theorem VarsOf.sub {S : Finset Name} {f : Forest} (h : f.VarsOf d S) : S ⊆ f.scope := by
  induction f with
  | nil => exact h.elim
  | cons a b c kids rest ihk ihr =>
    rcases h with h | h | h
    · rw [← h.2]; intro x; simp only [scope, mem_union]; tauto
    · intro x hx; have := ihk h hx; simp only [scope, mem_union]; tauto
    · intro x hx; have := ihr h hx; simp only [scope, mem_union]; tauto

set_option maxHeartbeats 1000000 in
theorem addLeaf_rip {P W S : Finset Name} {f : Forest} (h : f.RIP P W) (hP : P ⊆ W)
    (hn : f.names.Nodup) (hd : f.VarsOf d S) (h1 : vars.toFinset ∩ (W ∪ f.scope) ⊆ sep.toFinset)
    (h2 : sep.toFinset ⊆ vars.toFinset ∩ S) : (f.addLeaf d nm vars sep).RIP P W := by
  induction f generalizing P W with
  | nil => exact hd.elim
  | cons a b c kids rest ihk ihr =>
    obtain ⟨r1, r2, r3, r4⟩ := h
    simp only [names, List.nodup_cons, List.mem_append, not_or, List.nodup_append] at hn
    obtain ⟨⟨n1, n2⟩, n3, n4, n5⟩ := hn
    rw [addLeaf]
    -- the leaf goes into this tree, or into the rest
    by_cases hr : rest.VarsOf d S
    · have hdr := hr.mem
      have hsr := hr.sub
      have hda : a ≠ d := fun e => n2 (e ▸ hdr)
      rw [if_neg hda, addLeaf_of_not_mem (f := kids) fun h => n5 d h d hdr rfl]
      refine ⟨?_, r2, ?_, ihr r4 (hP.trans ?_) n4 hr ?_⟩
      · rw [addLeaf_scope hdr]
        intro x
        have b1 := @r1 x
        have b2 := @h1 x
        have b3 := @h2 x
        have b4 := @hsr x
        simp only [scope, mem_inter, mem_union] at b1 b2 b3 b4 ⊢
        tauto
      · rw [addLeaf_scope hdr]
        refine RIP.mono (r3.enlarge (C := vars.toFinset) ?_) ?_
        · intro x
          have b2 := @h1 x
          have b3 := @h2 x
          have b4 := @hsr x
          simp only [scope, mem_inter, mem_union] at b2 b3 b4 ⊢
          tauto
        · intro x
          simp only [mem_union]
          tauto
      · intro x; simp only [mem_union]; tauto
      · intro x
        have b2 := @h1 x
        simp only [scope, mem_inter, mem_union] at b2 ⊢
        tauto
    · have hsub : d ∉ rest.names ∧ S ⊆ b.toFinset ∪ kids.scope := by
        rcases hd with hd | hd | hd
        · exact ⟨hd.1 ▸ n2, hd.2 ▸ subset_union_left⟩
        · exact ⟨fun h => n5 d hd.mem d h rfl, hd.sub.trans subset_union_right⟩
        · exact absurd hd hr
      have hsub' := hsub.2
      rw [addLeaf_of_not_mem hsub.1]
      have hsc : (if a = d then kids.snoc nm vars sep else kids.addLeaf d nm vars sep).scope =
          kids.scope ∪ vars.toFinset ∧
          (if a = d then kids.snoc nm vars sep else kids.addLeaf d nm vars sep).RIP b.toFinset
            (W ∪ rest.scope ∪ b.toFinset) := by
        by_cases ha : a = d
        · rw [if_pos ha]
          have hS : b.toFinset = S := by
            rcases hd with hd | hd | hd
            · exact hd.2
            · exact absurd (ha ▸ hd.mem) n1
            · exact absurd hd hr
          refine ⟨snoc_scope kids, snoc_rip r3 subset_union_right ?_ (hS ▸ h2)⟩
          intro x
          have b2 := @h1 x
          simp only [scope, mem_inter, mem_union] at b2 ⊢
          tauto
        · rw [if_neg ha]
          have hk : kids.VarsOf d S := by
            rcases hd with hd | hd | hd
            · exact absurd hd.1 ha
            · exact hd
            · exact absurd hd hr
          refine ⟨addLeaf_scope hk.mem, ihk r3 subset_union_right n3 hk ?_⟩
          intro x
          have b2 := @h1 x
          simp only [scope, mem_inter, mem_union] at b2 ⊢
          tauto
      refine ⟨?_, r2, hsc.2, ?_⟩
      · rw [hsc.1]
        intro x
        have b1 := @r1 x
        have b2 := @h1 x
        have b3 := @h2 x
        have b4 := @hsub' x
        simp only [scope, mem_inter, mem_union] at b1 b2 b3 b4 ⊢
        tauto
      · rw [hsc.1]
        refine RIP.mono (r4.enlarge (C := vars.toFinset) ?_) ?_
        · intro x
          have b2 := @h1 x
          have b3 := @h2 x
          have b4 := @hsub' x
          simp only [scope, mem_inter, mem_union] at b2 b3 b4 ⊢
          tauto
        · intro x; simp only [mem_union]; tauto

theorem All.snoc {Q : Name → Name → List Name → List Name → Forest → Prop} {p : Name} {f : Forest}
    (h : f.All Q p) (hl : Q p nm vars sep nil) : (f.snoc nm vars sep).All Q p := by
  induction f with
  | nil => exact ⟨hl, trivial, trivial⟩
  | cons a b c kids rest _ ih => exact ⟨h.1, h.2.1, ih h.2.2⟩

theorem All.addLeaf {Q : Name → Name → List Name → List Name → Forest → Prop} {p : Name} {f : Forest}
    (h : f.All Q p) (hQ : ∀ p a b c k k', Q p a b c k → Q p a b c k')
    (hl : ∀ p, Q p nm vars sep nil) : (f.addLeaf d nm vars sep).All Q p := by
  induction f generalizing p with
  | nil => trivial
  | cons a b c kids rest ihk ihr =>
    refine ⟨hQ _ _ _ _ _ _ h.1, ?_, ihr h.2.2⟩
    by_cases ha : a = d
    · rw [if_pos ha]; exact h.2.1.snoc (hl _)
    · rw [if_neg ha]; exact ihk h.2.1

end Forest

open JoinTree

/-- each cluster shares with the later ones a set of variables that fits in one of them -/
def Chain : List (List Name) → Prop
  | [] => True
  | c :: cs => (shared c cs = [] ∨ ∃ d ∈ cs, ∀ x ∈ shared c cs, x ∈ d) ∧ Chain cs

namespace JTree

/-- `t'` is `t` with one more node, joined to `d` if `att` -/
structure Grown (t t' : JTree) (cn d : Name) (vars sep : List Name) (att : Prop) : Prop where
  nodes : t'.nodes = t.nodes ++ [(cn, ⟨vars, Factor.trivial 1⟩)]
  adj_nodes : t'.adj.nodes = t.adj.nodes ++ [cn]
  nbrs_new : att → t'.adj.nbrs cn = [d]
  nbrs_d : att → t'.adj.nbrs d = t.adj.nbrs d ++ [cn]
  nbrs_old : ∀ x, x ≠ cn → (att → x ≠ d) → t'.adj.nbrs x = t.adj.nbrs x
  edge_new : att → (t'.edge cn d).map JEdge.sep = .ok sep
  edge_old : ∀ a b, a ≠ cn → b ≠ cn → t'.edge a b = t.edge a b
  edge_trivial : (∀ e ∈ t.edges, e.factor = Factor.trivial 1) → ∀ e ∈ t'.edges, e.factor = Factor.trivial 1
  edge_ends : ∀ e ∈ t'.edges, e ∈ t.edges ∨ (e.u = cn ∧ e.w = d ∧ att)

theorem sub_iff {c d : List Name} : sub c d = true ↔ ∀ x ∈ c, x ∈ d := by
  simp [sub]

theorem mem_shared {c : List Name} {cs : List (List Name)} {x : Name} :
    x ∈ shared c cs ↔ x ∈ c ∧ ∃ d ∈ cs, x ∈ d := by
  simp [shared]

theorem addNode_grown {t : JTree} {c : List Name} {d : Name} {sep : List Name}
    (hk : t.adj.nodes = t.nodes.keys) (h : clusterName c ∉ t.nodes.keys) :
    t.Grown (addNode c t) (clusterName c) d c sep False where
  nodes := by rw [addNode]; exact Dict.set_of_not_mem _ h
  adj_nodes := by rw [addNode]; dsimp only; rw [if_neg (hk ▸ h)]; exact Dict.keys_append _ _
  nbrs_new h := h.elim
  nbrs_d h := h.elim
  nbrs_old x hx _ := by
    rw [addNode]; dsimp only; rw [if_neg (hk ▸ h)]
    unfold UGraph.nbrs
    rw [← Dict.set_of_not_mem _ (show clusterName c ∉ Dict.keys t.adj from by
      rw [show Dict.keys t.adj = t.adj.nodes from rfl, hk]; exact h), Dict.get?_set, if_neg (Ne.symm hx)]
  edge_new h := h.elim
  edge_old _ _ _ _ := rfl
  edge_trivial h := h
  edge_ends e he := Or.inl he

theorem addEdge_grown {t : JTree} {c : List Name} {d : Name} {sep : List Name}
    (hk : t.adj.nodes = t.nodes.keys) (h : clusterName c ∉ t.nodes.keys) (hd : d ∈ t.nodes.keys)
    (hnb : clusterName c ∉ t.adj.nbrs d)
    (he : ∀ e ∈ t.edges, e.u ∈ t.nodes.keys ∧ e.w ∈ t.nodes.keys) :
    t.Grown (addEdge (clusterName c) d sep (addNode c t)) (clusterName c) d c sep True := by
  have g := addNode_grown (d := d) (sep := sep) hk h
  have hdc : d ≠ clusterName c := fun e => h (e ▸ hd)
  have hno : ¬ t.edges.any (fun e => e.joins (clusterName c) d) = true := by
    intro ha
    obtain ⟨e, hm, hj⟩ := List.any_eq_true.1 ha
    simp only [JEdge.joins, Bool.or_eq_true, Bool.and_eq_true, beq_iff_eq] at hj
    rcases hj with ⟨h1, -⟩ | ⟨-, h1⟩
    · exact h (h1 ▸ (he e hm).1)
    · exact h (h1 ▸ (he e hm).2)
  have hed : (addEdge (clusterName c) d sep (addNode c t)).edges =
      t.edges ++ [⟨clusterName c, d, sep, .trivial 1⟩] := by
    rw [addEdge]; dsimp only
    rw [show (addNode c t).edges = t.edges from rfl, if_neg hno]
  have hin1 : clusterName c ∈ (addNode c t).adj.nodes := by rw [g.adj_nodes]; simp
  have hin2 : d ∈ (addNode c t).adj.nodes := by rw [g.adj_nodes, hk]; simp [hd]
  have hnew : (addNode c t).adj.nbrs (clusterName c) = [] := by
    rw [addNode]; dsimp only; rw [if_neg (hk ▸ h)]
    unfold UGraph.nbrs
    rw [← Dict.set_of_not_mem _ (show clusterName c ∉ Dict.keys t.adj from by
      rw [show Dict.keys t.adj = t.adj.nodes from rfl, hk]; exact h), Dict.get?_set, if_pos rfl]
    rfl
  have hold := g.nbrs_old d hdc (fun h => h.elim)
  have hadj : (addEdge (clusterName c) d sep (addNode c t)).adj =
      (addNode c t).adj.addEdge (clusterName c) d := rfl
  have harc : ((addNode c t).adj.addArc (clusterName c) d).nbrs (clusterName c) = [d] := by
    unfold UGraph.addArc
    rw [hnew, if_neg (by simp), UGraph.nbrs_set, if_pos rfl, List.nil_append]
  refine ⟨g.nodes, ?_, ?_, ?_, ?_, ?_, ?_, ?_, ?_⟩
  · rw [hadj, UGraph.nodes_addEdge hin1 hin2, g.adj_nodes]
  · intro _
    rw [hadj, UGraph.addEdge, UGraph.nbrs_addArc_of_ne (Ne.symm hdc), harc]
  · intro _
    rw [hadj, UGraph.addEdge]
    have h1 : ((addNode c t).adj.addArc (clusterName c) d).nbrs d = t.adj.nbrs d := by
      rw [UGraph.nbrs_addArc_of_ne hdc, hold]
    rw [UGraph.addArc, h1, if_neg hnb, UGraph.nbrs_set, if_pos rfl]
  · intro x hx hxd
    rw [hadj, UGraph.nbrs_addEdge_of_ne hx (hxd trivial), g.nbrs_old x hx fun h => h.elim]
  · intro _
    unfold edge
    rw [hed, List.find?_append]
    have : t.edges.find? (fun e => e.joins (clusterName c) d) = none := by
      rw [List.find?_eq_none]
      intro e hm hj
      exact hno (List.any_eq_true.2 ⟨e, hm, hj⟩)
    rw [this]
    simp [JEdge.joins]
    rfl
  · intro a b ha hb
    unfold edge
    rw [hed, List.find?_append]
    have : ([⟨clusterName c, d, sep, .trivial 1⟩] : List JEdge).find? (fun e => e.joins a b) = none := by
      simp [JEdge.joins, Ne.symm ha, Ne.symm hb]
    rw [this, Option.or_none]
  · intro hh e hm
    rw [hed, List.mem_append, List.mem_singleton] at hm
    rcases hm with hm | hm
    · exact hh e hm
    · rw [hm]
  · intro e hm
    rw [hed, List.mem_append, List.mem_singleton] at hm
    rcases hm with hm | hm
    · exact Or.inl hm
    · rw [hm]; exact Or.inr ⟨rfl, rfl, trivial⟩

variable {t t' : JTree} {cn d : Name} {vars sep : List Name} {att : Prop}

theorem Grown.get? (g : t.Grown t' cn d vars sep att) (h : cn ∉ t.nodes.keys) (k : Name) :
    t'.nodes.get? k = if cn = k then some ⟨vars, Factor.trivial 1⟩ else t.nodes.get? k := by
  rw [g.nodes, ← Dict.set_of_not_mem _ h, Dict.get?_set]

theorem Grown.keep (g : t.Grown t' cn d vars sep att) (hc : cn ∉ t.nodes.keys) {p : Name} {f : Forest}
    (h : f.All t.Fits p) (hp : p ≠ cn) (hf : cn ∉ f.names) (hd : att → d ∉ f.names) :
    f.All t'.Fits p := by
  induction f generalizing p with
  | nil => trivial
  | cons a b c kids rest ihk ihr =>
    simp only [Forest.names, List.mem_cons, List.mem_append, not_or] at hf hd
    obtain ⟨⟨h1, h2, h3, h4, h5⟩, hk, hr⟩ := h
    refine ⟨⟨h1, ?_, ?_, ?_, h5⟩, ihk hk (Ne.symm hf.1) hf.2.1 fun x => (hd x).2.1,
      ihr hr hp hf.2.2 fun x => (hd x).2.2⟩
    · rw [g.get? hc, if_neg hf.1, h2]
    · rw [g.edge_old _ _ (Ne.symm hf.1) hp, h3]
    · rw [g.nbrs_old _ (Ne.symm hf.1) fun x e => (hd x).1 e.symm, h4]

theorem Grown.grow (g : t.Grown t' cn d vars sep True) (hc : cn ∉ t.nodes.keys) (hcn : cn ≠ "")
    (hsep : sep ≠ []) {p : Name} {f : Forest}
    (h : f.All t.Fits p) (hp : p ≠ cn) (hpd : p ≠ d) (hf : cn ∉ f.names) (hn : f.names.Nodup) :
    (f.addLeaf d cn vars sep).All t'.Fits p := by
  have leaf : t'.Fits d cn vars sep .nil := by
    refine ⟨hcn, ?_, g.edge_new trivial, ?_, hsep⟩
    · rw [g.get? hc, if_pos rfl]; rfl
    · rw [g.nbrs_new trivial]; simp [Forest.tops]
  induction f generalizing p with
  | nil => trivial
  | cons a b c kids rest ihk ihr =>
    simp only [Forest.names, List.mem_cons, List.mem_append, not_or] at hf
    simp only [Forest.names, List.nodup_cons, List.mem_append, not_or, List.nodup_append] at hn
    obtain ⟨⟨n1, n2⟩, n3, n4, n5⟩ := hn
    obtain ⟨⟨h1, h2, h3, h4, h5⟩, hk, hr⟩ := h
    rw [Forest.addLeaf]
    have hrest := ihr hr hp hpd hf.2.2 n4
    by_cases ha : a = d
    · subst ha
      rw [if_pos rfl]
      refine ⟨⟨h1, ?_, ?_, ?_, h5⟩, ?_, hrest⟩
      · rw [g.get? hc, if_neg hf.1, h2]
      · rw [g.edge_old _ _ (Ne.symm hf.1) hp, h3]
      · rw [g.nbrs_d trivial, List.filter_append, h4, Forest.snoc_tops]
        simp [Ne.symm hp]
      · exact (g.keep hc hk (Ne.symm hf.1) hf.2.1 fun _ => n1).snoc leaf
    · rw [if_neg ha]
      refine ⟨⟨h1, ?_, ?_, ?_, h5⟩, ihk hk (Ne.symm hf.1) ha hf.2.1 n3, hrest⟩
      · rw [g.get? hc, if_neg hf.1, h2]
      · rw [g.edge_old _ _ (Ne.symm hf.1) hp, h3]
      · rw [g.nbrs_old _ (Ne.symm hf.1) fun _ => ha, h4, Forest.addLeaf_tops]

theorem varsOf {p : Name} {f : Forest} (h : f.All t.Fits p) {dv : List Name}
    (hd : d ∈ f.names) (hv : (t.nodes.get? d).map JNode.vars = some dv) :
    f.VarsOf d dv.toFinset := by
  induction f generalizing p with
  | nil => simp [Forest.names] at hd
  | cons a b c kids rest ihk ihr =>
    simp only [Forest.names, List.mem_cons, List.mem_append] at hd
    obtain ⟨⟨-, h2, -⟩, hk, hr⟩ := h
    rcases hd with hd | hd | hd
    · refine Or.inl ⟨hd.symm, ?_⟩
      rw [hd, h2, Option.some.injEq] at hv
      rw [hv]
    · exact Or.inr (Or.inl (ihk hk hd))
    · exact Or.inr (Or.inr (ihr hr hd))

/-- what `build` makes of a list of clusters -/
structure Built (L : List (List Name)) (t : JTree) (root : Name) (rvars : List Name) (kids : Forest)
    (others : List Name) : Prop where
  junction : t.Junction root rvars kids
  nodes : t.nodes = L.reverse.map fun c => (clusterName c, ⟨c, Factor.trivial 1⟩)
  adj_nodes : t.adj.nodes = t.nodes.keys
  adj_mem : ∀ x y, y ∈ t.adj.nbrs x → y ∈ t.nodes.keys
  keys : t.nodes.keys.Perm (root :: kids.names ++ others)
  ends : ∀ e ∈ t.edges, e.u ∈ t.nodes.keys ∧ e.w ∈ t.nodes.keys
  edge_trivial : ∀ e ∈ t.edges, e.factor = Factor.trivial 1
  disj : ∀ c ∈ L, clusterName c ∈ others → Disjoint c.toFinset (rvars.toFinset ∪ kids.scope)
  links : kids.All (fun _ nm vars sep _ => nm = clusterName vars ∧
    ∃ cs, cs ≠ [] ∧ (vars :: cs) <:+ L ∧ sep = shared vars cs) root
  last : root = clusterName rvars ∧ L.getLast? = some rvars
  all : (∀ c cs, (c :: cs) <:+ L → cs ≠ [] → shared c cs ≠ []) → others = []

end JTree
end Primo
