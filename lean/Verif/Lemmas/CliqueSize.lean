import Verif.Spec.CliqueSize
import Verif.Lemmas.BlindLoad
import Verif.Lemmas.Classic
import Verif.Lemmas.Polytree

/-! # Which cliques `create_jointree` makes -/

namespace Primo
open JoinTree Factor

theorem later_split {order : List Name} {v x : Name} (h : Later order v x) :
    ∃ o1 o2, order = o1 ++ v :: o2 ∧ x ∈ o2 := by
  obtain ⟨r1, r2, rfl, h1, h2⟩ := List.cons_sublist_iff.1 h
  obtain ⟨A, B, rfl⟩ := List.append_of_mem h1
  exact ⟨A, B ++ r2, by simp, List.mem_append_right _ (List.singleton_sublist.1 h2)⟩

theorem later_of_split {o1 o2 : List Name} {v x : Name} (h : x ∈ o2) : Later (o1 ++ v :: o2) v x :=
  ((List.singleton_sublist.2 h).cons_cons v).trans (List.sublist_append_right o1 _)

/-- the clusters are the buckets -/
theorem ElimL.bucket {adj : Name → Name → Prop} {vs : List Name} {L : List (List Name)}
    (h : ElimL adj vs L) (hn : vs.Nodup) :
    L.length = vs.length ∧ (∀ c ∈ L, ∃ v ∈ vs, c.Nodup ∧ ∀ x, x ∈ c ↔ x = v ∨ (Later vs v x ∧ adj v x)) ∧
    ∀ v ∈ vs, ∃ c ∈ L, ∀ x, x ∈ c ↔ x = v ∨ (Later vs v x ∧ adj v x) := by
  induction vs generalizing L with
  | nil => rw [h]; simp
  | cons v vs ih =>
    obtain ⟨ns, L', rfl, h2, h3, h4⟩ := h
    rw [List.nodup_cons] at hn
    obtain ⟨i0, i1, i2⟩ := ih h4 hn.2
    have hv : ∀ x, x ∈ v :: ns ↔ x = v ∨ (Later (v :: vs) v x ∧ adj v x) := by
      intro x
      rw [List.mem_cons, h2]
      refine or_congr Iff.rfl (and_congr ⟨fun hx => later_of_split (o1 := []) hx, fun hx => ?_⟩ Iff.rfl)
      have := List.cons_sublist_cons.1 hx
      exact List.singleton_sublist.1 this
    have hw : ∀ w ∈ vs, ∀ x, Later (v :: vs) w x ↔ Later vs w x := by
      intro w hw x
      refine ⟨fun hx => ?_, fun hx => hx.cons v⟩
      rcases List.sublist_cons_iff.1 hx with hx | ⟨r, hx, -⟩
      · exact hx
      · injection hx with hx
        exact absurd (hx ▸ hw) hn.1
    refine ⟨by simp [i0], fun c hc => ?_, fun w hw' => ?_⟩
    · rcases List.mem_cons.1 hc with rfl | hc
      · exact ⟨v, by simp, List.nodup_cons.2 ⟨fun hm => hn.1 ((h2 v).1 hm).1, h3⟩, hv⟩
      · obtain ⟨w, hw', hcn, hcw⟩ := i1 c hc
        exact ⟨w, by simp [hw'], hcn, fun x => by rw [hcw, hw w hw']⟩
    · rcases List.mem_cons.1 hw' with rfl | hw'
      · exact ⟨w :: ns, by simp, hv⟩
      · obtain ⟨c, hc, hcw⟩ := i2 w hw'
        exact ⟨c, by simp [hc], fun x => by rw [hcw, hw w hw']⟩

namespace JTree

/-- the cliques of the created tree -/
theorem create_cliques (so : SetOrder) {bn : BN} (hc : bn.Consistent) (hl : bn.Linked) (hr : bn.Recorded)
    (hu : UniqueJoin bn.names) (order0 : Option (List Name)) {order : List Name}
    (hord : VE.chooseOrder bn order0 = .ok order) (ho : order.Perm bn.names) :
    ∃ t, create so bn order0 = .ok t ∧ ∃ L' : List (List Name), L'.length ≤ bn.length ∧
      skel t.nodes = L'.reverse.map (fun c => (clusterName c, c)) ∧
      (∀ c ∈ L', ∃ v ∈ bn.names, c.Nodup ∧ ∀ x, x ∈ c ↔ bn.Bucket order v x) ∧
      (∀ v ∈ bn.names, ∃ c ∈ L', ∀ x, bn.Bucket order v x → x ∈ c) ∧
      ∀ c ∈ L', ∀ d ∈ L', (∀ x ∈ c, x ∈ d) → c = d := by
  obtain ⟨L, e1, e2⟩ := bn_clusters hc hl hr ho
  have hn : order.Nodup := ho.symm.nodup hc.nodup
  have hh := e2.headOK hn
  obtain ⟨L', h1, h2, h3, h4⟩ := swaps_any hh.nodup
  have hLn : ∀ c ∈ L', ∀ x ∈ c, x ∈ bn.names := fun c hc x hx =>
    ho.subset ((e2.mem c (h3 c hc)).2.1 x hx)
  have hnames := hu.inj hLn h2
  have hb := build_nodes L' hnames
  obtain ⟨b0, b1, b2⟩ := e2.bucket hn
  have hkn : (build L').nodes.keys.Nodup := by
    rw [hb]
    have := List.nodup_reverse.2 hnames
    simpa [Dict.keys, Function.comp_def, List.map_reverse] using this
  obtain ⟨fs, ns', f1, f2, f3, -⟩ := loadTables so hc (t := build L') hkn (by
    rw [hb]
    intro k n hm
    obtain ⟨c, -, e⟩ := List.mem_map.1 hm
    injection e with e1 e2
    subst e2
    exact ⟨trivial_over 1, by simp, by simp⟩)
  refine ⟨{ build L' with nodes := ns' }, ?_, L', ?_, ?_, ?_, ?_, ?_⟩
  · unfold create
    rw [hord, ok_bind, f1, ok_bind, e1, ok_bind, h1, ok_bind, f2]
    rfl
  · have := (h2.subperm fun c hc => h3 c hc).length_le
    rw [b0, ho.length_eq] at this
    simpa [BN.names] using this
  · rw [f3, hb]; simp [skel, Function.comp_def]
  · intro c hc'
    obtain ⟨v, hv, hcn, hcv⟩ := b1 c (h3 c hc')
    exact ⟨v, ho.subset hv, hcn, hcv⟩
  · intro v hv
    obtain ⟨c, hc', hcv⟩ := b2 v (ho.symm.subset hv)
    obtain ⟨d, hd, hcd⟩ := h4 c hc'
    exact ⟨d, hd, fun x hx => hcd x ((hcv x).2 hx)⟩
  · exact swaps_antichain hh h1

end JTree

/-- the default order of a singly connected network removes leaves of the skeleton -/
theorem polytree_leafOrder {bn : BN} (hc : bn.Consistent) (hl : bn.Linked) (ht : bn.Polytree) :
    ∃ o, Orderer.minDegreeOrder bn = .ok o ∧ o.Perm bn.names ∧ LeafOrder bn.Skel o := by
  obtain ⟨o, h1, h2, h3⟩ := Orderer.minDegreeOrder_spec hc hl
  have hirr : ∀ a, ¬ bn.Skel a a := by
    rintro a (⟨n, hn, rfl, h⟩ | ⟨n, hn, rfl, h⟩) <;> exact hc.self n hn h
  refine ⟨o, h1, h2, ?_⟩
  refine leafOrder_of_minDegree (fun _ _ h => h.symm) hirr hc.nodup h2 (fun S hS _ => ?_) h3
  obtain ⟨v, hv, hvv⟩ := exists_leaf ht S hS
  refine ⟨v, hv, fun x hx y hy a b => hvv x hx y hy ⟨fun e => hirr v ?_, a⟩ ⟨fun e => hirr v ?_, b⟩⟩
  · rw [← e] at a; exact a
  · rw [← e] at b; exact b

/-- When leaves of the skeleton are eliminated, each bucket is within a family. -/
theorem bucket_family {bn : BN} {o : List Name} (ho : o.Perm bn.names) (hnd : bn.names.Nodup)
    (hl : LeafOrder bn.Skel o) {v : Name} (hv : v ∈ bn.names) :
    ∃ n ∈ bn, ∀ x, bn.Bucket o v x → x ∈ n.family := by
  obtain ⟨o1, o2, rfl⟩ := List.append_of_mem (ho.symm.subset hv)
  have hon := ho.symm.nodup hnd
  have hlat : ∀ x, Later (o1 ++ v :: o2) v x → x ∈ o2 := by
    intro x hx
    obtain ⟨p1, p2, hp, hx2⟩ := later_split hx
    have hv1 : v ∉ o1 := fun h => (List.nodup_append.1 hon).2.2 v h v (by simp) rfl
    have hv2 : v ∉ p1 := fun h => by
      rw [hp] at hon
      exact (List.nodup_append.1 hon).2.2 v h v (by simp) rfl
    have := congrArg (List.idxOf v) hp
    rw [List.idxOf_append_of_notMem hv1, List.idxOf_append_of_notMem hv2] at this
    simp at this
    have h2 := (List.append_inj hp this).2
    injection h2 with _ h2
    rw [h2]; exact hx2
  obtain ⟨nv, hnv, rfl⟩ := List.mem_map.1 hv
  have key : ∀ x, Later (o1 ++ nv.name :: o2) nv.name x → bn.Moral nv.name x →
      x ∈ nv.family ∨ ∃ n ∈ bn, n.name ∈ o2 ∧ nv.name ∈ n.parentOrder ∧ x ∈ n.family := by
    rintro x hx ⟨hne, n, hn, hvn, hxf⟩
    have hx2 := hlat x hx
    by_cases hnn : n.name = nv.name
    · left
      rw [← List.inj_on_of_nodup_map hnd hn hnv hnn]; exact hxf
    have hvn' : nv.name ∈ n.parentOrder := by
      rcases List.mem_cons.1 hvn with h | h
      · exact absurd h.symm hnn
      · exact h
    right
    refine ⟨n, hn, ?_, hvn', hxf⟩
    rcases List.mem_cons.1 hxf with rfl | hxp
    · exact hx2
    have hmem := ho.symm.subset (List.mem_map_of_mem (f := NodeV.name) hn)
    simp only [List.mem_append, List.mem_cons] at hmem
    rcases hmem with h1 | h1 | h1
    · obtain ⟨p1, p2, hp⟩ := List.append_of_mem h1
      exact absurd (hl p1 n.name (p2 ++ nv.name :: o2) (by rw [hp]; simp) nv.name (by simp) x (by simp [hx2])
        (Or.inr ⟨n, hn, rfl, hvn'⟩) (Or.inr ⟨n, hn, rfl, hxp⟩)) hne
    · exact absurd h1 hnn
    · exact h1
  by_cases hw : ∃ n ∈ bn, n.name ∈ o2 ∧ nv.name ∈ n.parentOrder
  · obtain ⟨n, hn, hno, hvn⟩ := hw
    refine ⟨n, hn, fun x hx => ?_⟩
    rcases hx with rfl | ⟨hx, hm⟩
    · simp [NodeV.family, hvn]
    · rcases key x hx hm with h | ⟨m, hm', hmo, hvm, hxm⟩
      · rcases List.mem_cons.1 h with h | h
        · exact absurd h.symm hm.1
        · have e := hl o1 nv.name o2 rfl x (hlat x hx) n.name hno (Or.inr ⟨nv, hnv, rfl, h⟩)
            (Or.inl ⟨n, hn, rfl, hvn⟩)
          simp [NodeV.family, e]
      · have e := hl o1 nv.name o2 rfl m.name hmo n.name hno (Or.inl ⟨m, hm', rfl, hvm⟩)
            (Or.inl ⟨n, hn, rfl, hvn⟩)
        rw [← List.inj_on_of_nodup_map hnd hm' hn e]; exact hxm
  · refine ⟨nv, hnv, fun x hx => ?_⟩
    rcases hx with rfl | ⟨hx, hm⟩
    · simp [NodeV.family]
    · rcases key x hx hm with h | ⟨m, hm', hmo, hvm, hxm⟩
      · exact h
      · exact absurd ⟨m, hm', hmo, hvm⟩ hw

end Primo
