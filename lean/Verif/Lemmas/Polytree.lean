import Verif.Spec.Polytree
import Verif.Spec.Moral
import Verif.Lemmas.Order

/-! # Minimal-degree orders of singly connected networks need no fill-in -/

namespace Primo

/-- a finite non-empty part of an acyclic graph has a node with at most one neighbour -/
theorem exists_leaf {G : SimpleGraph Name} (h : G.IsAcyclic) (S : List Name) (hS : S ≠ []) :
    ∃ v ∈ S, ∀ x ∈ S, ∀ y ∈ S, G.Adj v x → G.Adj v y → x = y := by
  classical
  obtain ⟨a, ha⟩ := List.exists_mem_of_ne_nil _ hS
  let V := {x : Name // x ∈ S}
  let H : SimpleGraph V := G.induce {x | x ∈ S}
  have hH : H.IsAcyclic := h.induce _
  have hfin : Finite V := S.finite_toSet
  let a' : V := ⟨a, ha⟩
  let c := H.connectedComponentMk a'
  have ht := hH.isTree_connectedComponent c
  have hfc : Finite c := Subtype.finite
  have : Fintype c := Fintype.ofFinite _
  by_cases hnt : Nontrivial c
  · obtain ⟨v, hv⟩ := ht.exists_vert_degree_one_of_nontrivial
    refine ⟨v.1.1, v.1.2, fun x hx y hy h1 h2 => ?_⟩
    have key : ∀ z (hz : z ∈ S), G.Adj v.1.1 z → ∃ w : c, w.1.1 = z ∧ c.toSimpleGraph.Adj v w := by
      intro z hz hadj
      have hadj' : H.Adj v.1 ⟨z, hz⟩ := hadj
      refine ⟨⟨⟨z, hz⟩, ?_⟩, rfl, ?_⟩
      · exact (c.mem_supp_congr_adj hadj').1 v.2
      · exact hadj'
    obtain ⟨w1, e1, g1⟩ := key x hx h1
    obtain ⟨w2, e2, g2⟩ := key y hy h2
    rw [← SimpleGraph.card_neighborFinset_eq_degree, Finset.card_eq_one] at hv
    obtain ⟨b, hb⟩ := hv
    have m1 : w1 ∈ c.toSimpleGraph.neighborFinset v := by simpa using g1
    have m2 : w2 ∈ c.toSimpleGraph.neighborFinset v := by simpa using g2
    rw [hb, Finset.mem_singleton] at m1 m2
    rw [← e1, ← e2, m1, m2]
  · have hsub : Subsingleton c := not_nontrivial_iff_subsingleton.1 hnt
    refine ⟨a, ha, fun x hx y hy h1 _ => ?_⟩
    exfalso
    have hadj' : H.Adj a' ⟨x, hx⟩ := h1
    have hma : a' ∈ c.supp := rfl
    have hmx : (⟨x, hx⟩ : V) ∈ c.supp := (c.mem_supp_congr_adj hadj').1 hma
    have := hsub.elim ⟨a', hma⟩ ⟨⟨x, hx⟩, hmx⟩
    have h3 : a = x := congrArg (fun z : c => z.1.1) this
    exact h1.ne h3

/-- each node has at most one neighbour among the later ones -/
def LeafOrder (adj : Name → Name → Prop) (o : List Name) : Prop :=
  ∀ o1 v o2, o = o1 ++ v :: o2 → ∀ x ∈ o2, ∀ y ∈ o2, adj v x → adj v y → x = y

theorem via_leaf {adj : Name → Name → Prop} (hs : ∀ a b, adj a b → adj b a) {o : List Name}
    (E : List Name) {R : List Name} (ho : o = E ++ R)
    (hl : ∀ o1 v o2, o = o1 ++ v :: o2 → o1.length < E.length →
      ∀ x ∈ o2, ∀ y ∈ o2, adj v x → adj v y → x = y) {u w : Name} (hu : u ∈ R) (hw : w ∈ R)
    (hne : u ≠ w) (h : Via adj E u w) : adj u w := by
  induction E using List.reverseRecOn generalizing R u w with
  | nil => exact via_nil.1 h
  | append_singleton E e ih =>
    have ho' : o = E ++ (e :: R) := by rw [ho]; simp
    have h' : Via adj (e :: E) u w := h.mono fun x hx => by simpa [or_comm] using hx
    have ih' := fun {a b : Name} (ha : a ∈ e :: R) (hb : b ∈ e :: R) =>
      ih (u := a) (w := b) ho' (fun o1 v o2 hh hlt => hl o1 v o2 hh (by simp; omega)) ha hb
    rcases via_cons.1 h' with h' | ⟨h1, h2⟩
    · exact ih' (by simp [hu]) (by simp [hw]) hne h'
    · by_cases hue : u = e
      · subst hue; exact ih' (by simp) (by simp [hw]) hne h2
      by_cases hwe : e = w
      · subst hwe; exact ih' (by simp [hu]) (by simp) hne h1
      have a1 := ih' (by simp [hu]) (by simp) hue h1
      have a2 := ih' (by simp) (by simp [hw]) hwe h2
      exact absurd (hl E e R ho' (by simp) u hu w hw (hs _ _ a1) a2) hne

theorem leafOrder_of_minDegree {adj : Name → Name → Prop} (hs : ∀ a b, adj a b → adj b a)
    (hirr : ∀ a, ¬ adj a a) {names o : List Name} (hn : names.Nodup) (hp : o.Perm names)
    (hleaf : ∀ S : List Name, S ≠ [] → (∀ x ∈ S, x ∈ names) →
      ∃ v ∈ S, ∀ x ∈ S, ∀ y ∈ S, adj v x → adj v y → x = y)
    (hm : ∀ o1 v o2, o = o1 ++ v :: o2 → MinDegree names adj o1 v) : LeafOrder adj o := by
  classical
  intro o1
  induction hk : o1.length using Nat.strong_induction_on generalizing o1 with
  | _ k ih =>
    intro v o2 ho x hx y hy hvx hvy
    have hon : o.Nodup := hp.symm.nodup hn
    have hvia : ∀ {u w : Name}, u ∈ v :: o2 → w ∈ v :: o2 → u ≠ w → Via adj o1 u w → adj u w :=
      fun hu hw hne h => via_leaf hs o1 ho (fun p1 a p2 hh hlt => ih p1.length (by omega) p1 rfl a p2 hh)
        hu hw hne h
    have hrem : ∀ z ∈ names, z ∉ o1 → z ∈ v :: o2 := by
      intro z hz hz1
      have := hp.symm.subset hz
      rw [ho] at this
      exact (List.mem_append.1 this).resolve_left hz1
    have hdis : ∀ z ∈ v :: o2, z ∉ o1 := by
      intro z hz hz1
      rw [ho] at hon
      exact (List.nodup_append.1 hon).2.2 z hz1 z hz rfl
    have hsubn : ∀ z ∈ v :: o2, z ∈ names := fun z hz => hp.subset (by rw [ho]; simp at hz ⊢; tauto)
    obtain ⟨u, hu, huu⟩ := hleaf (v :: o2) (by simp) hsubn
    have hdu : elimDegree names adj o1 u ≤ 1 := by
      unfold elimDegree
      have hnd := hn.filter fun w => decide (w ∉ o1 ∧ w ≠ u ∧ Via adj o1 u w)
      by_contra hcon
      have : 1 < (names.filter fun w => decide (w ∉ o1 ∧ w ≠ u ∧ Via adj o1 u w)).length := by omega
      cases hl : (names.filter fun w => decide (w ∉ o1 ∧ w ≠ u ∧ Via adj o1 u w)) with
      | nil => rw [hl] at this; simp at this
      | cons a l =>
        cases l with
        | nil => rw [hl] at this; simp at this
        | cons b l =>
          have ma : a ∈ names.filter fun w => decide (w ∉ o1 ∧ w ≠ u ∧ Via adj o1 u w) := by
            rw [hl]; simp
          have mb : b ∈ names.filter fun w => decide (w ∉ o1 ∧ w ≠ u ∧ Via adj o1 u w) := by
            rw [hl]; simp
          simp only [List.mem_filter, decide_eq_true_eq] at ma mb
          have e := huu a (hrem a ma.1 ma.2.1) b (hrem b mb.1 mb.2.1)
            (hvia hu (hrem a ma.1 ma.2.1) (Ne.symm ma.2.2.1) ma.2.2.2)
            (hvia hu (hrem b mb.1 mb.2.1) (Ne.symm mb.2.2.1) mb.2.2.2)
          rw [hl] at hnd
          simp [e] at hnd
    have hdv : elimDegree names adj o1 v ≤ 1 := by
      rcases hm o1 v o2 ho u (hsubn u hu) (hdis u hu) with h | h <;> omega
    by_contra hxy
    unfold elimDegree at hdv
    have hmem : ∀ z ∈ o2, adj v z →
        z ∈ names.filter fun w => decide (w ∉ o1 ∧ w ≠ v ∧ Via adj o1 v w) := by
      intro z hz hvz
      simp only [List.mem_filter, decide_eq_true_eq]
      refine ⟨hsubn z (by simp [hz]), hdis z (by simp [hz]), fun e => hirr v (e ▸ hvz), Via.base hvz⟩
    have m1 := hmem x hx hvx
    have m2 := hmem y hy hvy
    generalize (names.filter fun w => decide (w ∉ o1 ∧ w ≠ v ∧ Via adj o1 v w)) = l at hdv m1 m2
    match l, hdv, m1, m2 with
    | [a], _, m1, m2 => simp only [List.mem_singleton] at m1 m2; exact hxy (m1.trans m2.symm)

/-- Eliminating leaves of the skeleton is a perfect order of the moral graph. -/
theorem perfect_of_leafOrder {bn : BN} {o : List Name} (ho : o.Perm bn.names)
    (hnd : bn.names.Nodup)
    (hl : LeafOrder bn.Skel o) : Perfect bn.Moral o := by
  -- a later moral neighbour is a skeleton neighbour or a co-parent in a later family
  have key : ∀ o1 v o2, o = o1 ++ v :: o2 → ∀ x ∈ o2, bn.Moral v x →
      bn.Skel v x ∨ ∃ n ∈ bn, n.name ∈ o2 ∧ v ∈ n.parentOrder ∧ x ∈ n.parentOrder := by
    rintro o1 v o2 h x hx ⟨hne, n, hn, hv, hxf⟩
    rcases List.mem_cons.1 hv with rfl | hv
    · rcases List.mem_cons.1 hxf with rfl | hxf
      · exact absurd rfl hne
      · exact Or.inl (Or.inr ⟨n, hn, rfl, hxf⟩)
    · rcases List.mem_cons.1 hxf with rfl | hxf
      · exact Or.inl (Or.inl ⟨n, hn, rfl, hv⟩)
      · by_cases hnv : n.name = v
        · exact Or.inl (Or.inr ⟨n, hn, hnv, hxf⟩)
        right
        refine ⟨n, hn, ?_, hv, hxf⟩
        have hmem := ho.symm.subset (List.mem_map_of_mem (f := NodeV.name) hn)
        rw [h] at hmem
        simp only [List.mem_append, List.mem_cons] at hmem
        rcases hmem with h1 | h1 | h1
        · obtain ⟨p1, p2, hp⟩ := List.append_of_mem h1
          exact absurd (hl p1 n.name (p2 ++ v :: o2) (by rw [h, hp]; simp) v (by simp) x (by simp [hx])
            (Or.inr ⟨n, hn, rfl, hv⟩) (Or.inr ⟨n, hn, rfl, hxf⟩)) hne
        · exact absurd h1 hnv
        · exact h1
  intro o1 v o2 h x hx y hy hvx hvy hxy
  refine ⟨hxy, ?_⟩
  rcases key o1 v o2 h x hx hvx with a | ⟨n, hn, hno, hv, hxn⟩
  · rcases key o1 v o2 h y hy hvy with b | ⟨n, hn, hno, hv, hyn⟩
    · exact absurd (hl o1 v o2 h x hx y hy a b) hxy
    · have e := hl o1 v o2 h x hx n.name hno a (Or.inl ⟨n, hn, rfl, hv⟩)
      exact ⟨n, hn, by simp [NodeV.family, e], by simp [NodeV.family, hyn]⟩
  · rcases key o1 v o2 h y hy hvy with b | ⟨n', hn', hno', hv', hyn⟩
    · have e := hl o1 v o2 h y hy n.name hno b (Or.inl ⟨n, hn, rfl, hv⟩)
      exact ⟨n, hn, by simp [NodeV.family, hxn], by simp [NodeV.family, e]⟩
    · have e := hl o1 v o2 h n.name hno n'.name hno' (Or.inl ⟨n, hn, rfl, hv⟩)
        (Or.inl ⟨n', hn', rfl, hv'⟩)
      have e' : n = n' := List.inj_on_of_nodup_map hnd hn hn' e
      subst e'
      exact ⟨n, hn, by simp [NodeV.family, hxn], by simp [NodeV.family, hyn]⟩

/-- The default order of a singly connected network is perfect. -/
theorem polytree_perfect {bn : BN} (hc : bn.Consistent) (hl : bn.Linked) (ht : bn.Polytree) :
    ∃ o, Orderer.minDegreeOrder bn = .ok o ∧ o.Perm bn.names ∧ Perfect bn.Moral o := by
  obtain ⟨o, h1, h2, h3⟩ := Orderer.minDegreeOrder_spec hc hl
  have hirr : ∀ a, ¬ bn.Skel a a := by
    rintro a (⟨n, hn, rfl, h⟩ | ⟨n, hn, rfl, h⟩) <;> exact hc.self n hn h
  refine ⟨o, h1, h2, perfect_of_leafOrder h2 hc.nodup ?_⟩
  refine leafOrder_of_minDegree (fun _ _ h => h.symm) hirr hc.nodup h2 (fun S hS _ => ?_) h3
  obtain ⟨v, hv, hvv⟩ := exists_leaf ht S hS
  refine ⟨v, hv, fun x hx y hy a b => hvv x hx y hy ⟨fun e => hirr v ?_, a⟩ ⟨fun e => hirr v ?_, b⟩⟩
  · rw [← e] at a; exact a
  · rw [← e] at b; exact b

/-- A criterion for the examples: a graph all of whose edges join listed nodes, with an order in
which each node has at most one later neighbour, has no cycles. -/
theorem acyclic_of_leafOrder {G : SimpleGraph Name} {o : List Name} (hmem : ∀ u v, G.Adj u v → u ∈ o)
    (hl : LeafOrder G.Adj o) : G.IsAcyclic := by
  intro v w hw
  -- the node of the cycle that comes first in the order
  have hne : ∃ i, ∃ x ∈ w.support, o.idxOf x = i := ⟨_, v, w.start_mem_support, rfl⟩
  classical
  obtain ⟨x, hx, hxi⟩ := Nat.find_spec hne
  have hmin : ∀ y ∈ w.support, o.idxOf x ≤ o.idxOf y := fun y hy => by
    rw [hxi]; exact Nat.find_min' hne ⟨y, hy, rfl⟩
  have hrot := hw.rotate hx
  set c := w.rotate x hx with hc
  have hsup : ∀ y ∈ c.support, y ∈ w.support := fun y hy => by
    rw [hc] at hy
    exact (w.mem_support_rotate_iff x hx).1 hy
  have hnn : ¬ c.Nil := hrot.not_nil
  have h1 := c.adj_snd hnn
  have h2 := (c.adj_penultimate hnn).symm
  have hd : c.snd ≠ c.penultimate := hrot.snd_ne_penultimate
  have hxo := hmem _ _ h1
  obtain ⟨o1, o2, ho, ho1⟩ := List.eq_append_cons_of_mem hxo
  have hix : o.idxOf x = o1.length := by
    rw [ho, List.idxOf_append_of_notMem ho1]; simp
  have hlater : ∀ y, y ∈ c.support → G.Adj x y → y ∈ o2 := by
    intro y hy hxy
    have hyo := hmem _ _ hxy.symm
    rw [ho] at hyo
    simp only [List.mem_append, List.mem_cons] at hyo
    rcases hyo with h | h | h
    · exfalso
      have := hmin y (hsup y hy)
      rw [hix, ho, List.idxOf_append_of_mem h] at this
      exact absurd (List.idxOf_lt_length_of_mem h) (by omega)
    · exact absurd h hxy.ne'
    · exact h
  exact hd (hl o1 x o2 ho _ (hlater _ (c.getVert_mem_support 1) h1) _
    (hlater _ (c.getVert_mem_support _) h2) h1 h2)

end Primo
