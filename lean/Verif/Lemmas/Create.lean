import Verif.Lemmas.BuildSpec
import Verif.Lemmas.Clusters
import Verif.Lemmas.Calibrate

/-! # `create_jointree` for perfect elimination orders -/

namespace Primo
open JoinTree Factor Finset

theorem build_valid (L : List (List Name)) : (build L).valid = false := by
  induction L with
  | nil => rfl
  | cons c cs ih =>
    rw [build]
    split
    · exact ih
    · exact ih

theorem UniqueJoin.inj {names : List Name} (h : UniqueJoin names) {L : List (List Name)}
    (hL : ∀ c ∈ L, ∀ x ∈ c, x ∈ names) (hn : L.Nodup) : (L.map clusterName).Nodup :=
  (List.nodup_map_iff_inj_on hn).2 fun c hc d hd e => h c d (hL c hc) (hL d hd) e

theorem UniqueJoin.ne {names : List Name} (h : UniqueJoin names) {c : List Name}
    (hc : ∀ x ∈ c, x ∈ names) (hne : c ≠ []) : clusterName c ≠ "" :=
  fun e => hne (h c [] hc (by simp) e)

theorem Forest.depth_le (f : Forest) : f.depth ≤ f.names.length := by
  induction f with
  | nil => simp [depth]
  | cons a b c kids rest ihk ihr =>
    simp only [depth, names, List.length_cons, List.length_append]
    omega

theorem ElimL.length {adj : Name → Name → Prop} {vs : List Name} {L : List (List Name)}
    (h : ElimL adj vs L) : L.length = vs.length := by
  induction vs generalizing L with
  | nil => rw [h]; rfl
  | cons v vs ih =>
    obtain ⟨ns, L', rfl, -, -, h4⟩ := h
    simp [ih h4]

theorem RIPL.linked {L : List (List Name)} {conn : Prop} (h : RIPL conn L) (hc : conn)
    {c : List Name} {cs : List (List Name)} (hs : (c :: cs) <:+ L) (hne : cs ≠ []) :
    shared c cs ≠ [] := by
  obtain ⟨x, hx, e, he, hxe⟩ := ((h.suffix hs).1 hne).1 hc
  exact List.ne_nil_of_mem (JTree.mem_shared.2 ⟨hx, e, he, hxe⟩)

namespace JTree

/-- in the tree of a connected network there is one component -/
theorem Sits.whole {bn : BN} (hc : bn.Consistent) {t : JTree} {root : Name} {rvars : List Name}
    {kids : Forest} {others : List Name} (hs : Sits bn t root rvars kids others)
    (hne : ∀ q ∈ skel t.nodes, q.2 ≠ []) (hco : bn.Connected) : others = [] := by
  by_contra ho
  obtain ⟨k, hk⟩ := List.exists_mem_of_ne_nil _ ho
  obtain ⟨nk, hnk⟩ := Dict.get?_isSome.2 (hs.keys.symm.subset (List.mem_append_right _ hk))
  have hq : (k, nk.vars) ∈ skel t.nodes := (mem_skel hs.nodup).2 ⟨nk.factor, hnk⟩
  obtain ⟨x, hx⟩ := List.exists_mem_of_ne_nil _ (hne _ hq)
  obtain ⟨rf, hr⟩ := get?_of_vars hs.junction.root_vars
  have hrq : (root, rvars) ∈ skel t.nodes := (mem_skel hs.nodup).2 ⟨rf, hr⟩
  obtain ⟨y, hy⟩ := List.exists_mem_of_ne_nil _ (hne _ hrq)
  set U := rvars.toFinset ∪ kids.scope with hU
  have hxU : x ∉ U := fun h => disjoint_left.1 (hs.disj _ hq hk) (List.mem_toFinset.2 hx) h
  have hyU : y ∈ U := mem_union_left _ (List.mem_toFinset.2 hy)
  have hstep : ∀ a b, bn.Moral a b → a ∈ U → b ∈ U := by
    rintro a b ⟨-, n, hn, ha, hb⟩ haU
    obtain ⟨q, hq', hf⟩ := hs.fam n hn
    obtain ⟨g, hg⟩ := (mem_skel hs.nodup (k := q.1) (vars := q.2)).1 hq'
    have hm := hs.keys.subset (Dict.mem_keys_of_get? hg)
    simp only [List.cons_append, List.mem_cons, List.mem_append] at hm
    rcases hm with hm | hm | hm
    · rw [hm, hr] at hg
      injection hg with hg
      injection hg with hg
      exact mem_union_left _ (List.mem_toFinset.2 (hg ▸ hf b hb))
    · exact mem_union_right _ ((varsOf hs.junction.fits hm (by rw [hg]; rfl)).sub
        (List.mem_toFinset.2 (hf b hb)))
    · exact absurd haU (disjoint_left.1 (hs.disj q hq' hm) (List.mem_toFinset.2 (hf a ha)))
  have hp := hco.path hc (List.Perm.refl _) (hs.sub _ hrq y hy) (hs.sub _ hq x hx)
  have : ∀ z, Path bn.Moral bn.names y z → z ∈ U := by
    intro z hz
    induction hz with
    | refl => exact hyU
    | tail _ h ih => exact hstep _ _ h.1 ih
  exact hxU (this x hp)

/-- the cliques below the root have a variable of their own -/
def Apart (bn : BN) (kids : Forest) (root : Name) : Prop :=
  kids.All (fun _ _ vars sep _ => ∃ h ∈ vars, h ∉ sep ∧
    ∀ x ∈ vars, ∃ n ∈ bn, h ∈ n.family ∧ x ∈ n.family) root

/-- a list of clusters in which every cluster shares its later variables with one later cluster gives a
junction tree over the network -/
theorem sits_of_chain {bn : BN} (hc : bn.Consistent) (hu : UniqueJoin bn.names) {order : List Name}
    (ho : order.Perm bn.names) {L L' : List (List Name)} (hne : bn ≠ []) (h2 : ElimL bn.Moral order L)
    (h4 : L'.Nodup) (h5 : Chain L') (h6 : ∀ c ∈ L', c ∈ L)
    (h7 : ∀ c ∈ L, ∃ d ∈ L', ∀ x ∈ c, x ∈ d) :
    ∃ root rvars kids others, Sits bn (build L') root rvars kids others ∧
      (∀ e ∈ (build L').edges, e.factor = Factor.trivial 1) ∧
      (build L').nodes = (L'.reverse.map fun c => (clusterName c, ⟨c, Factor.trivial 1⟩)) ∧
      (bn.Connected → others = []) ∧ kids.depth < bn.length ∧ (HeadOK L' → Apart bn kids root) := by
  have hLn : ∀ c ∈ L, ∀ x ∈ c, x ∈ bn.names := fun c hc x hx => ho.subset ((h2.mem c hc).2.1 x hx)
  have hL'n : ∀ c ∈ L', ∀ x ∈ c, x ∈ bn.names := fun c hc => hLn c (h6 c hc)
  have hL'e : ∀ c ∈ L', c ≠ [] := fun c hc => (h2.mem c (h6 c hc)).1
  have hL' : L' ≠ [] := by
    intro e
    obtain ⟨n, hn⟩ := List.exists_mem_of_ne_nil _ hne
    have hnn : n.name ∈ order := ho.symm.subset (List.mem_map_of_mem hn)
    obtain ⟨c, hc, -⟩ := h2.own _ hnn
    obtain ⟨d, hd, -⟩ := h7 c hc
    rw [e] at hd; simp at hd
  obtain ⟨root, rvars, kids, others, b⟩ := build_spec L' hL' (hu.inj hL'n h4)
    (fun c hc => hu.ne (hL'n c hc) (hL'e c hc)) h5
  have hsk : skel (build L').nodes = L'.reverse.map fun c => (clusterName c, c) := by
    rw [b.nodes]; simp [skel, Function.comp_def]
  have hskm : ∀ q, q ∈ skel (build L').nodes ↔ ∃ c ∈ L', q = (clusterName c, c) := by
    intro q
    rw [hsk]
    simp only [List.mem_map, List.mem_reverse]
    constructor
    · rintro ⟨c, h, rfl⟩; exact ⟨c, h, rfl⟩
    · rintro ⟨c, h, rfl⟩; exact ⟨c, h, rfl⟩
  have hhead : ∀ c ∈ L', hd c ∈ c ∧ ∀ x ∈ c, ∃ n ∈ bn, hd c ∈ n.family ∧ x ∈ n.family := by
    intro c hm
    refine ⟨hd_mem (hL'e c hm), fun x hx => ?_⟩
    rcases (h2.mem c (h6 c hm)).2.2 x hx with rfl | ⟨-, n, hn, h1, h3⟩
    · obtain ⟨n, hn, hnm⟩ := BN.exists_of_mem_names (hL'n c hm _ hx)
      exact ⟨n, hn, by simp [NodeV.family, hnm], by simp [NodeV.family, hnm]⟩
    · exact ⟨n, hn, h1, h3⟩
  have hsits : Sits bn (build L') root rvars kids others := by
    refine ⟨b.junction, ?_, b.keys, ?_, ?_, ?_, ?_⟩
    · rw [b.keys_eq, List.nodup_reverse]; exact hu.inj hL'n h4
    · intro q hq ho'
      obtain ⟨c, hc', rfl⟩ := (hskm q).1 hq
      exact b.disj c hc' ho'
    · intro q hq
      obtain ⟨c, hc', rfl⟩ := (hskm q).1 hq
      exact hL'n c hc'
    · intro n hn
      obtain ⟨c, hc', hcx⟩ := h2.clique (fun x => x ∈ n.family) ⟨n.name, by simp [NodeV.family]⟩
        (fun x hx => ho.symm.subset (by
          rcases List.mem_cons.1 hx with rfl | hx
          · exact List.mem_map_of_mem hn
          · exact hc.parents_mem n hn x hx))
        (fun x y hx hy hxy => ⟨hxy, n, hn, hx, hy⟩)
      obtain ⟨d, hd, hdx⟩ := h7 c hc'
      exact ⟨_, (hskm _).2 ⟨d, hd, rfl⟩, fun x hx => hdx x (hcx x hx)⟩
    · refine b.links.imp fun p nm vars sep ks _ _ h => ?_
      obtain ⟨-, cs, -, hs, rfl⟩ := h
      have hm : vars ∈ L' := hs.subset (by simp)
      exact ⟨hd vars, hhead vars hm⟩
  refine ⟨root, rvars, kids, others, hsits, b.edge_trivial, b.nodes, hsits.whole hc (fun q hq => ?_), ?_, ?_⟩
  · obtain ⟨c, hc', rfl⟩ := (hskm q).1 hq
    exact hL'e c hc'
  · have e1 : kids.depth + 1 ≤ L'.length := by
      have := b.keys.length_eq
      rw [b.keys_eq] at this
      simp only [List.length_reverse, List.length_map, List.length_append, List.length_cons] at this
      have := kids.depth_le
      omega
    have e2 : L'.length ≤ L.length := (h4.subperm h6).length_le
    have e3 := h2.length
    have e4 := ho.length_eq
    simp only [BN.names, List.length_map] at e4
    omega
  · intro hok
    refine b.links.imp fun p nm vars sep ks _ _ h => ?_
    obtain ⟨-, cs, -, hs, rfl⟩ := h
    have hm : vars ∈ L' := hs.subset (by simp)
    refine ⟨hd vars, (hhead vars hm).1, fun hh => ?_, (hhead vars hm).2⟩
    obtain ⟨e, he, hxe⟩ := (mem_shared.1 hh).2
    have hp := (hok.after.sublist hs.sublist)
    exact (List.pairwise_cons.1 hp).1 e he hxe

/-- loading the tables into the tree of a list of clusters -/
theorem create_of_chain (so : SetOrder) {bn : BN} (hc : bn.Consistent) (hu : UniqueJoin bn.names)
    (hne : bn ≠ []) {order0 : Option (List Name)} {order : List Name}
    (hord : VE.chooseOrder bn order0 = .ok order) (ho : order.Perm bn.names) {L L' : List (List Name)}
    (h1 : clusters order (moralGraph bn) = .ok L) (h2 : ElimL bn.Moral order L)
    (h3 : (swaps L).foldlM applySwap L = .ok L') (h4 : L'.Nodup) (h5 : Chain L')
    (h6 : ∀ c ∈ L', c ∈ L) (h7 : ∀ c ∈ L, ∃ d ∈ L', ∀ x ∈ c, x ∈ d) :
    ∃ t root rvars kids others, create so bn order0 = .ok t ∧ t.valid = false ∧
      Sits bn t root rvars kids others ∧ Contents bn.lab (bn.map nodeItem) t.nodes ∧
      (∀ e ∈ t.edges, e.factor = Factor.trivial 1) ∧
      (bn.Connected → others = []) ∧ kids.depth < bn.length ∧ (HeadOK L' → Apart bn kids root) := by
  obtain ⟨root, rvars, kids, others, s1, s2, s3, s4, s5, s6⟩ := sits_of_chain hc hu ho hne h2 h4 h5 h6 h7
  obtain ⟨fs, ns', f1, f2, f3, f4⟩ := loadTables so hc (t := build L') s1.nodup (by
    rw [s3]
    intro k n hm
    obtain ⟨c, -, e⟩ := List.mem_map.1 hm
    injection e with e1 e2
    subst e2
    exact ⟨trivial_over 1, by simp, by simp⟩)
  refine ⟨{ build L' with nodes := ns' }, root, rvars, kids, others, ?_, build_valid L',
    s1.of_shape ?_, f4, s2, s4, s5, s6⟩
  · unfold create
    rw [hord, ok_bind, f1, ok_bind, h1, ok_bind, h3, ok_bind, f2]
    rfl
  · unfold shape
    have := f3
    unfold skel at this
    dsimp only
    rw [this]

/-- `create_jointree` for a perfect elimination order. -/
theorem create_apart (so : SetOrder) {bn : BN} (hc : bn.Consistent) (hl : bn.Linked) (hr : bn.Recorded)
    (hu : UniqueJoin bn.names) (hne : bn ≠ []) (order0 : Option (List Name)) {order : List Name}
    (hord : VE.chooseOrder bn order0 = .ok order) (ho : order.Perm bn.names)
    (hp : Perfect bn.Moral order) :
    ∃ t root rvars kids others, create so bn order0 = .ok t ∧ t.valid = false ∧
      Sits bn t root rvars kids others ∧ Contents bn.lab (bn.map nodeItem) t.nodes ∧
      (∀ e ∈ t.edges, e.factor = Factor.trivial 1) ∧
      (bn.Connected → others = []) ∧ kids.depth < bn.length ∧ Apart bn kids root := by
  obtain ⟨L, L', h1, h2, h3, h4, h5, h6, h7⟩ := bn_swaps hc hl hr ho hp
  obtain ⟨t, root, rvars, kids, others, a1, a2, a3, a4, a5, a6, a7, a8⟩ :=
    create_of_chain so hc hu hne hord ho h1 h2 h3 h4.nodup h5.chain h6 h7
  exact ⟨t, root, rvars, kids, others, a1, a2, a3, a4, a5, a6, a7, a8 h4⟩

/-- `create_jointree` for a perfect elimination order. -/
theorem create_spec (so : SetOrder) {bn : BN} (hc : bn.Consistent) (hl : bn.Linked) (hr : bn.Recorded)
    (hu : UniqueJoin bn.names) (hne : bn ≠ []) (order0 : Option (List Name)) {order : List Name}
    (hord : VE.chooseOrder bn order0 = .ok order) (ho : order.Perm bn.names)
    (hp : Perfect bn.Moral order) :
    ∃ t root rvars kids others, create so bn order0 = .ok t ∧ t.valid = false ∧
      Sits bn t root rvars kids others ∧ Contents bn.lab (bn.map nodeItem) t.nodes ∧
      (∀ e ∈ t.edges, e.factor = Factor.trivial 1) ∧
      (bn.Connected → others = []) ∧ kids.depth < bn.length := by
  obtain ⟨t, root, rvars, kids, others, a1, a2, a3, a4, a5, a6, a7, -⟩ :=
    create_apart so hc hl hr hu hne order0 hord ho hp
  exact ⟨t, root, rvars, kids, others, a1, a2, a3, a4, a5, a6, a7⟩

end JTree
end Primo
