import Verif.Lemmas.Swap
import Verif.Spec.Moral

/-! # The clusters of `create_jointree` -/

namespace Primo
open JoinTree JTree UGraph

/-! ### moral graph -/

/-- `g'` is `g` with the additional edges `R` -/
structure Ext (g g' : UGraph) (R : Name → Name → Prop) : Prop where
  good : g'.Good
  nodes : g'.nodes = g.nodes
  iff : ∀ x y, y ∈ g'.nbrs x ↔ y ∈ g.nbrs x ∨ R x y

theorem foldl_ext {α : Type} {f : UGraph → α → UGraph} {R : α → Name → Name → Prop} {N : List Name}
    (l : List α) (h : ∀ a ∈ l, ∀ g : UGraph, g.Good → g.nodes = N → Ext g (f g a) (R a)) (g : UGraph)
    (hg : g.Good) (hN : g.nodes = N) : Ext g (l.foldl f g) fun x y => ∃ a ∈ l, R a x y := by
  induction l generalizing g with
  | nil => exact ⟨hg, rfl, by simp⟩
  | cons a l ih =>
    have h1 := h a (by simp) g hg hN
    have h2 := ih (fun b hb => h b (by simp [hb])) (f g a) h1.good (h1.nodes.trans hN)
    refine ⟨h2.good, h2.nodes.trans h1.nodes, fun x y => ?_⟩
    rw [List.foldl_cons, h2.iff, h1.iff]
    simp only [List.mem_cons, exists_eq_or_imp, or_assoc]

theorem moralGraph_spec {bn : BN} (hc : bn.Consistent) (hl : bn.Linked) (hr : bn.Recorded) :
    (moralGraph bn).Good ∧ (moralGraph bn).nodes = bn.names ∧
      ∀ x y, y ∈ (moralGraph bn).nbrs x ↔ bn.Moral x y := by
  have hI := Orderer.toUndirected_spec hc hl
  have hn : bn.toUndirected.nodes = bn.names := by rw [hI.nodes]; simp
  have e := foldl_ext (N := bn.names)
    (f := fun g n => n.parents.keys.foldl (fun g p => n.parents.keys.foldl (fun g p2 =>
      if p ≠ p2 then g.addEdge p p2 else g) g) g)
    (R := fun (n : NodeV) x y => ∃ p ∈ n.parents.keys, ∃ q ∈ n.parents.keys,
      p ≠ q ∧ ((x = p ∧ y = q) ∨ (x = q ∧ y = p))) bn (by
      intro n hnm g hg hN
      have hp : ∀ p ∈ n.parents.keys, p ∈ bn.names := fun p hp =>
        hc.parents_mem n hnm p ((hr n hnm p).1 hp)
      refine foldl_ext (N := bn.names) _ ?_ g hg hN
      intro p hpm g hg hN
      refine foldl_ext (N := bn.names)
        (R := fun q x y => p ≠ q ∧ ((x = p ∧ y = q) ∨ (x = q ∧ y = p))) _ ?_ g hg hN
      intro q hqm g hg hN
      by_cases hpq : p = q
      · simp only [hpq, ne_eq, not_true, if_false, false_and]
        exact ⟨hg, rfl, by simp⟩
      · simp only [ne_eq, hpq, not_false_eq_true, if_true, true_and]
        have h1 : p ∈ g.nodes := hN ▸ hp p hpm
        have h2 : q ∈ g.nodes := hN ▸ hp q hqm
        exact ⟨hg.addEdge h1 h2, nodes_addEdge h1 h2, fun x y => mem_nbrs_addEdge⟩)
    bn.toUndirected hI.good hn
  refine ⟨e.good, e.nodes.trans hn, fun x y => ?_⟩
  have := e.iff x y
  rw [show moralGraph bn = bn.foldl (fun g n => n.parents.keys.foldl (fun g p =>
    n.parents.keys.foldl (fun g p2 => if p ≠ p2 then g.addEdge p p2 else g) g) g) bn.toUndirected from rfl,
    this, hI.nbrs, via_nil, hn]
  constructor
  · rintro (⟨_, _, hne, ⟨n, hn', rfl, hp⟩ | ⟨n, hn', rfl, hp⟩⟩ | ⟨n, hn', p, hp, q, hq, hpq, h⟩)
    · exact ⟨hne, n, hn', by simp [NodeV.family, hp], by simp [NodeV.family]⟩
    · exact ⟨hne, n, hn', by simp [NodeV.family], by simp [NodeV.family, hp]⟩
    · have hp' := (hr n hn' p).1 hp
      have hq' := (hr n hn' q).1 hq
      rcases h with ⟨rfl, rfl⟩ | ⟨rfl, rfl⟩
      · exact ⟨hpq, n, hn', by simp [NodeV.family, hp'], by simp [NodeV.family, hq']⟩
      · exact ⟨Ne.symm hpq, n, hn', by simp [NodeV.family, hq'], by simp [NodeV.family, hp']⟩
  · rintro ⟨hne, n, hn', hx, hy⟩
    have hnm : n.name ∈ bn.names := List.mem_map_of_mem hn'
    simp only [NodeV.family, List.mem_cons] at hx hy
    rcases hx with rfl | hx <;> rcases hy with rfl | hy
    · exact absurd rfl hne
    · exact Or.inl ⟨hnm, hc.parents_mem n hn' y hy, hne, Or.inr ⟨n, hn', rfl, hy⟩⟩
    · exact Or.inl ⟨hc.parents_mem n hn' x hx, hnm, hne, Or.inl ⟨n, hn', rfl, hx⟩⟩
    · exact Or.inr ⟨n, hn', x, (hr n hn' x).2 hx, y, (hr n hn' y).2 hy, hne, Or.inl ⟨rfl, rfl⟩⟩

/-! ### clusters -/

/-- the clusters of an elimination without fill-in -/
def ElimL (adj : Name → Name → Prop) : List Name → List (List Name) → Prop
  | [], L => L = []
  | v :: vs, L => ∃ ns L', L = (v :: ns) :: L' ∧ (∀ x, x ∈ ns ↔ x ∈ vs ∧ adj v x) ∧ ns.Nodup ∧
      ElimL adj vs L'

theorem ElimL.congr {adj adj' : Name → Name → Prop} {vs : List Name} {L : List (List Name)}
    (h : ElimL adj vs L) (he : ∀ x ∈ vs, ∀ y ∈ vs, adj x y ↔ adj' x y) : ElimL adj' vs L := by
  induction vs generalizing L with
  | nil => exact h
  | cons v vs ih =>
    obtain ⟨ns, L', h1, h2, h3, h4⟩ := h
    refine ⟨ns, L', h1, fun x => ?_, h3, ih h4 fun x hx y hy => he x (by simp [hx]) y (by simp [hy])⟩
    rw [h2]
    constructor
    · rintro ⟨hx, ha⟩; exact ⟨hx, (he v (by simp) x (by simp [hx])).1 ha⟩
    · rintro ⟨hx, ha⟩; exact ⟨hx, (he v (by simp) x (by simp [hx])).2 ha⟩

theorem clusters_spec (vs : List Name) (g : UGraph) (hg : g.Good) (hp : g.nodes.Perm vs)
    (hi : ∀ x y, y ∈ g.nbrs x → x ≠ y) :
    ∃ L, clusters vs g = .ok L ∧ ElimL (fun x y => y ∈ g.nbrs x) vs L := by
  induction vs generalizing g with
  | nil => exact ⟨[], rfl, rfl⟩
  | cons v vs ih =>
    have hv : v ∈ g.nodes := hp.symm.subset (by simp)
    have hvs : v ∉ vs := (List.nodup_cons.1 (hp.nodup hg.nodup)).1
    have hnb := nbrs_removeNode hg.nodup v
    obtain ⟨L, h1, h2⟩ := ih (g.removeNode v) (Orderer.Good.removeNode hg v) (by
      rw [nodes_removeNode]
      have := hp.erase v
      rwa [List.erase_cons_head] at this) (fun x y hy => by
        rw [hnb] at hy
        by_cases hx : x = v
        · simp [hx] at hy
        · rw [if_neg hx] at hy
          exact hi x y (List.mem_of_mem_erase hy))
    refine ⟨(v :: g.nbrs v) :: L, ?_, g.nbrs v, L, rfl, fun x => ?_, hg.nbrs_nodup v, h2.congr ?_⟩
    · rw [clusters, if_neg (by simpa using hv), h1, ok_bind]; rfl
    · constructor
      · intro hx
        refine ⟨?_, hx⟩
        have := hp.subset (hg.mem _ _ hx)
        rcases List.mem_cons.1 this with h | h
        · exact absurd h.symm (hi v x hx)
        · exact h
      · exact fun h => h.2
    · intro x hx y hy
      rw [hnb, if_neg (fun h : x = v => hvs (h ▸ hx)), (hg.nbrs_nodup x).mem_erase_iff]
      exact ⟨fun h => h.2, fun h => ⟨fun h' : y = v => hvs (h' ▸ hy), h⟩⟩

theorem ElimL.mem {adj : Name → Name → Prop} {vs : List Name} {L : List (List Name)}
    (h : ElimL adj vs L) : ∀ c ∈ L, c ≠ [] ∧ (∀ x ∈ c, x ∈ vs) ∧
      ∀ x ∈ c, x = hd c ∨ adj (hd c) x := by
  induction vs generalizing L with
  | nil => rw [h]; simp
  | cons v vs ih =>
    obtain ⟨ns, L', rfl, h2, h3, h4⟩ := h
    intro c hc
    rcases List.mem_cons.1 hc with rfl | hc
    · refine ⟨by simp, fun x hx => ?_, fun x hx => ?_⟩
      · rcases List.mem_cons.1 hx with rfl | hx
        · simp
        · simp [((h2 x).1 hx).1]
      · rcases List.mem_cons.1 hx with rfl | hx
        · exact Or.inl rfl
        · exact Or.inr ((h2 x).1 hx).2
    · obtain ⟨a, b, d⟩ := ih h4 c hc
      exact ⟨a, fun x hx => List.mem_cons_of_mem _ (b x hx), d⟩

/-- the cluster of a variable contains it and its later neighbours -/
theorem ElimL.own {adj : Name → Name → Prop} {vs : List Name} {L : List (List Name)}
    (h : ElimL adj vs L) : ∀ v ∈ vs, ∃ c ∈ L, v ∈ c := by
  induction vs generalizing L with
  | nil => simp
  | cons w vs ih =>
    obtain ⟨ns, L', rfl, h2, h3, h4⟩ := h
    intro v hv
    rcases List.mem_cons.1 hv with rfl | hv
    · exact ⟨v :: ns, by simp, by simp⟩
    · obtain ⟨c, hc, hvc⟩ := ih h4 v hv
      exact ⟨c, by simp [hc], hvc⟩

/-- a set of pairwise adjacent variables is contained in a cluster -/
theorem ElimL.clique {adj : Name → Name → Prop} {vs : List Name} {L : List (List Name)}
    (h : ElimL adj vs L) (S : Name → Prop) (hne : ∃ x, S x) (hS : ∀ x, S x → x ∈ vs)
    (hadj : ∀ x y, S x → S y → x ≠ y → adj x y) : ∃ c ∈ L, ∀ x, S x → x ∈ c := by
  induction vs generalizing L with
  | nil => obtain ⟨x, hx⟩ := hne; exact absurd (hS x hx) (by simp)
  | cons v vs ih =>
    obtain ⟨ns, L', rfl, h2, h3, h4⟩ := h
    by_cases hv : S v
    · refine ⟨v :: ns, by simp, fun x hx => ?_⟩
      by_cases hxv : x = v
      · simp [hxv]
      · refine List.mem_cons_of_mem _ ((h2 x).2 ⟨?_, hadj v x hv hx (Ne.symm hxv)⟩)
        exact (List.mem_cons.1 (hS x hx)).resolve_left hxv
    · obtain ⟨c, hc, hcx⟩ := ih h4 fun x hx =>
        (List.mem_cons.1 (hS x hx)).resolve_left fun h => hv (h ▸ hx)
      exact ⟨c, by simp [hc], hcx⟩

theorem ElimL.headOK {adj : Name → Name → Prop} {vs : List Name} {L : List (List Name)}
    (h : ElimL adj vs L) (hn : vs.Nodup) : HeadOK L := by
  refine ⟨fun c hc => (h.mem c hc).1, ?_⟩
  induction vs generalizing L with
  | nil => rw [h]; exact List.Pairwise.nil
  | cons v vs ih =>
    obtain ⟨ns, L', rfl, h2, h3, h4⟩ := h
    rw [List.nodup_cons] at hn
    exact List.pairwise_cons.2 ⟨fun d hd hv => hn.1 ((h4.mem d hd).2.1 _ hv), ih h4 hn.2⟩

theorem ElimL.closed {adj : Name → Name → Prop} {vs : List Name} {L : List (List Name)}
    (h : ElimL adj vs L) : ClosedL L := by
  induction vs generalizing L with
  | nil => rw [h]; trivial
  | cons v vs ih =>
    obtain ⟨ns, L', rfl, h2, h3, h4⟩ := h
    refine ⟨fun x hx => ?_, ih h4⟩
    rcases List.mem_cons.1 hx with rfl | hx
    · exact Or.inl rfl
    · exact Or.inr (h4.own x ((h2 x).1 hx).1)

theorem Perfect.tail {adj : Name → Name → Prop} {v : Name} {vs : List Name} (h : Perfect adj (v :: vs)) :
    Perfect adj vs := fun o1 w o2 e => h (v :: o1) w o2 (by rw [e]; rfl)

/-- every variable but the last has a neighbour that is eliminated later -/
def LaterNbr (adj : Name → Name → Prop) : List Name → Prop
  | [] => True
  | v :: vs => (vs ≠ [] → ∃ x ∈ vs, adj v x) ∧ LaterNbr adj vs

theorem ElimL.ripl {adj : Name → Name → Prop} {vs : List Name} {L : List (List Name)} {conn : Prop}
    (h : ElimL adj vs L) (hn : vs.Nodup) (hp : Perfect adj vs)
    (hc : conn → LaterNbr adj vs) : RIPL conn L := by
  induction vs generalizing L with
  | nil => rw [h]; trivial
  | cons v vs ih =>
    obtain ⟨ns, L', rfl, h2, h3, h4⟩ := h
    rw [List.nodup_cons] at hn
    refine ⟨fun hne => ?_, ih h4 hn.2 hp.tail fun h => (hc h).2⟩
    have hvs : vs ≠ [] := by rintro rfl; exact hne h4
    refine ⟨fun h => ?_, ?_⟩
    · obtain ⟨x, hx, hvx⟩ := (hc h).1 hvs
      obtain ⟨e, he, hxe⟩ := h4.own x hx
      exact ⟨x, by simp [(h2 x).2 ⟨hx, hvx⟩], e, he, hxe⟩
    · have key : ∀ x ∈ v :: ns, (∃ e ∈ L', x ∈ e) → x ∈ ns := by
        rintro x hx ⟨e, he, hxe⟩
        rcases List.mem_cons.1 hx with rfl | hx
        · exact absurd ((h4.mem e he).2.1 _ hxe) hn.1
        · exact hx
      by_cases hns : ns = []
      · obtain ⟨d, hd⟩ := List.exists_mem_of_ne_nil _ hne
        refine ⟨d, hd, fun x hx he => ?_⟩
        have := key x hx he
        rw [hns] at this
        simp at this
      · obtain ⟨d, hd, hdx⟩ := h4.clique (fun x => x ∈ ns) (List.exists_mem_of_ne_nil _ hns)
          (fun x hx => ((h2 x).1 hx).1) (fun x y hx hy hxy =>
            hp [] v vs rfl x ((h2 x).1 hx).1 y ((h2 y).1 hy).1 ((h2 x).1 hx).2 ((h2 y).1 hy).2 hxy)
        exact ⟨d, hd, fun x hx he => hdx x (key x hx he)⟩

/-! ### connected networks -/

/-- paths inside `S` -/
def Path (adj : Name → Name → Prop) (S : List Name) : Name → Name → Prop :=
  Relation.ReflTransGen fun a b => adj a b ∧ a ∈ S ∧ b ∈ S

theorem path_remove {adj : Name → Name → Prop} (hs : ∀ a b, adj a b → adj b a) {v : Name}
    {vs : List Name} (hp : ∀ x ∈ vs, ∀ y ∈ vs, adj v x → adj v y → x ≠ y → adj x y) {x z : Name}
    (hx : x ≠ v) (h : Path adj (v :: vs) x z) :
    (z ≠ v → Path adj vs x z) ∧ (z = v → ∀ u ∈ vs, adj v u → Path adj vs x u) := by
  induction h with
  | refl => exact ⟨fun _ => Relation.ReflTransGen.refl, fun h => absurd h hx⟩
  | @tail b c _ hbc ih =>
    obtain ⟨ha, hb, hc⟩ := hbc
    have mem : ∀ y, y ∈ v :: vs → y ≠ v → y ∈ vs := fun y hy h => (List.mem_cons.1 hy).resolve_left h
    constructor
    · intro hcv
      by_cases hbv : b = v
      · exact ih.2 hbv c (mem c hc hcv) (hbv ▸ ha)
      · exact (ih.1 hbv).tail ⟨ha, mem b hb hbv, mem c hc hcv⟩
    · intro hcv u hu hvu
      by_cases hbv : b = v
      · exact ih.2 hbv u hu hvu
      · have hbm := mem b hb hbv
        by_cases hbu : b = u
        · exact hbu ▸ ih.1 hbv
        · exact (ih.1 hbv).tail ⟨hp b hbm u hu (hs _ _ (hcv ▸ ha)) hvu hbu, hbm, hu⟩

theorem later_of_connected {adj : Name → Name → Prop} (hs : ∀ a b, adj a b → adj b a)
    (hi : ∀ a, ¬ adj a a) {vs : List Name} (hn : vs.Nodup) (hp : Perfect adj vs)
    (hc : ∀ x ∈ vs, ∀ y ∈ vs, Path adj vs x y) : LaterNbr adj vs := by
  induction vs with
  | nil => trivial
  | cons v vs ih =>
    rw [List.nodup_cons] at hn
    refine ⟨fun hne => ?_, ih hn.2 hp.tail fun x hx y hy => ?_⟩
    · obtain ⟨y, hy⟩ := List.exists_mem_of_ne_nil _ hne
      rcases Relation.ReflTransGen.cases_head (hc v (by simp) y (by simp [hy])) with h | ⟨z, ⟨h1, _, h2⟩, _⟩
      · exact absurd (h ▸ hy) hn.1
      · rcases List.mem_cons.1 h2 with rfl | h2
        · exact absurd h1 (hi _)
        · exact ⟨z, h2, h1⟩
    · refine (path_remove hs (fun a ha b hb => hp [] v vs rfl a ha b hb)
        (fun h : x = v => hn.1 (h ▸ hx)) (hc x (by simp [hx]) y (by simp [hy]))).1 ?_
      exact fun h : y = v => hn.1 (h ▸ hy)

theorem BN.Moral.symm {bn : BN} {u v : Name} (h : bn.Moral u v) : bn.Moral v u :=
  ⟨Ne.symm h.1, h.2.imp fun _ hn => ⟨hn.1, hn.2.2, hn.2.1⟩⟩

theorem BN.Skel.moral {bn : BN} (hc : bn.Consistent) {u v : Name} (h : bn.Skel u v) : bn.Moral u v := by
  rcases h with ⟨n, hn, rfl, hp⟩ | ⟨n, hn, rfl, hp⟩
  · exact ⟨fun e => hc.self n hn (e ▸ hp), n, hn, by simp [NodeV.family, hp], by simp [NodeV.family]⟩
  · exact ⟨fun e => hc.self n hn (e ▸ hp), n, hn, by simp [NodeV.family], by simp [NodeV.family, hp]⟩

theorem BN.Connected.path {bn : BN} (hc : bn.Consistent) (h : bn.Connected) {order : List Name}
    (ho : order.Perm bn.names) {x y : Name} (hx : x ∈ order) (hy : y ∈ order) :
    Path bn.Moral order x y := by
  have aux : ∀ {u w : Name}, Via bn.Skel bn.names u w → u ∈ order → w ∈ order →
      Path bn.Moral order u w := by
    intro u w hv
    induction hv with
    | base hs => exact fun hu hw => Relation.ReflTransGen.single ⟨hs.moral hc, hu, hw⟩
    | step hs hm _ ih =>
      exact fun hu hw => Relation.ReflTransGen.head ⟨hs.moral hc, hu, ho.symm.subset hm⟩
        (ih (ho.symm.subset hm) hw)
  by_cases hxy : x = y
  · rw [hxy]; exact Relation.ReflTransGen.refl
  · exact aux (h x (ho.subset hx) y (ho.subset hy) hxy) hx hy

/-- the clusters of a network -/
theorem bn_clusters {bn : BN} (hc : bn.Consistent) (hl : bn.Linked) (hr : bn.Recorded)
    {order : List Name} (ho : order.Perm bn.names) :
    ∃ L, clusters order (moralGraph bn) = .ok L ∧ ElimL bn.Moral order L := by
  obtain ⟨h1, h2, h3⟩ := moralGraph_spec hc hl hr
  obtain ⟨L, e1, e2⟩ := clusters_spec order (moralGraph bn) h1 (h2 ▸ ho.symm)
    (fun x y hy => ((h3 x y).1 hy).1)
  exact ⟨L, e1, e2.congr fun x _ y _ => h3 x y⟩

/-- for a perfect order the maximal clusters form a junction tree -/
theorem bn_swaps {bn : BN} (hc : bn.Consistent) (hl : bn.Linked) (hr : bn.Recorded)
    {order : List Name} (ho : order.Perm bn.names) (hp : Perfect bn.Moral order) :
    ∃ L L', clusters order (moralGraph bn) = .ok L ∧ ElimL bn.Moral order L ∧
      (swaps L).foldlM applySwap L = .ok L' ∧ HeadOK L' ∧ RIPL bn.Connected L' ∧
      (∀ c ∈ L', c ∈ L) ∧ (∀ c ∈ L, ∃ d ∈ L', ∀ x ∈ c, x ∈ d) := by
  obtain ⟨L, e1, e2⟩ := bn_clusters hc hl hr ho
  have hn : order.Nodup := ho.symm.nodup hc.nodup
  obtain ⟨L', h⟩ := swaps_spec (e2.headOK hn) (e2.ripl (conn := bn.Connected) hn hp fun hco =>
    later_of_connected (fun _ _ h => h.symm) (fun _ h => h.1 rfl) hn hp fun x hx y hy =>
      hco.path hc ho hx hy) e2.closed
  exact ⟨L, L', e1, e2, h⟩

end Primo
