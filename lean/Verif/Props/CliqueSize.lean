import Verif.Lemmas.TableRoom
import Verif.Props.Sharp

/-!
# How large a factor tree gets

C77: the cliques of the tree are the maximal sets of a variable and its later neighbours; tables never
grow beyond their clique; on polytrees the cliques of the default tree are the maximal families, so
the tables of the tree are together not larger than those of the network.
-/

namespace Primo
open JoinTree Factor

/-- the network handed to the call, if any, has property `P` -/
def TreeOp.Uses (P : BN → Prop) : TreeOp → Prop
  | .reset _ bn => P bn
  | .setEvidence _ _ bn _ _ => P bn
  | .calculate _ _ => True
  | .marginals _ _ _ => True

/-- **C77** The cliques: there are at most as many as nodes; each consists of a variable and its moral
neighbours that come later in the order; each such set is contained in a clique; and no clique is
contained in another one. -/
theorem C77_cliques {bn : BN} (hc : bn.Consistent) (hl : bn.Linked) (hr : bn.Recorded)
    (hu : UniqueJoin bn.names) (order0 : Option (List Name)) {order : List Name}
    (hord : VE.chooseOrder bn order0 = .ok order) (ho : order.Perm bn.names) (so : SetOrder) :
    ∃ t, create so bn order0 = .ok t ∧ t.nodes.length ≤ bn.length ∧
      (∀ k vars, t.Clique k vars → vars.Nodup ∧ ∃ v ∈ bn.names, ∀ x, x ∈ vars ↔ bn.Bucket order v x) ∧
      (∀ v ∈ bn.names, ∃ k vars, t.Clique k vars ∧ ∀ x, bn.Bucket order v x → x ∈ vars) ∧
      ∀ k vars k' vars', t.Clique k vars → t.Clique k' vars' → (∀ x ∈ vars, x ∈ vars') →
        k = k' ∧ vars = vars' := by
  obtain ⟨t, h1, L, h2, h3, h4, h5, h6⟩ := JTree.create_cliques so hc hl hr hu order0 hord ho
  have hcl : ∀ k vars, t.Clique k vars ↔ ∃ d ∈ L, k = clusterName d ∧ vars = d := by
    intro k vars
    rw [JTree.clique_iff_skel, h3]
    simp only [List.mem_map, List.mem_reverse, Prod.mk.injEq]
    constructor
    · rintro ⟨d, h1, h2, h3⟩; exact ⟨d, h1, h2.symm, h3.symm⟩
    · rintro ⟨d, h1, h2, h3⟩; exact ⟨d, h1, h2.symm, h3.symm⟩
  refine ⟨t, h1, ?_, fun k vars hk => ?_, fun v hv => ?_, fun k vars k' vars' hk hk' hs => ?_⟩
  · have := congrArg List.length h3
    simp only [JTree.skel, List.length_map, List.length_reverse] at this
    omega
  · obtain ⟨d, hd, -, rfl⟩ := (hcl _ _).1 hk
    obtain ⟨v, hv, hn, hx⟩ := h4 _ hd
    exact ⟨hn, v, hv, hx⟩
  · obtain ⟨c, hc', hx⟩ := h5 v hv
    exact ⟨_, c, (hcl _ _).2 ⟨c, hc', rfl, rfl⟩, hx⟩
  · obtain ⟨d, hd, rfl, rfl⟩ := (hcl _ _).1 hk
    obtain ⟨d', hd', rfl, rfl⟩ := (hcl _ _).1 hk'
    have := h6 _ hd _ hd' hs
    exact ⟨by rw [this], this⟩

/-- **C77** The variables of each clique are pairwise neighbours in the moral graph exactly if the
order is perfect. -/
theorem C77_complete_iff {bn : BN} (hc : bn.Consistent) (hl : bn.Linked) (hr : bn.Recorded)
    (hu : UniqueJoin bn.names) (order0 : Option (List Name)) {order : List Name}
    (hord : VE.chooseOrder bn order0 = .ok order) (ho : order.Perm bn.names) (so : SetOrder) :
    ∃ t, create so bn order0 = .ok t ∧
      ((∀ k vars, t.Clique k vars → ∀ x ∈ vars, ∀ y ∈ vars, x ≠ y → bn.Moral x y) ↔
        Perfect bn.Moral order) := by
  obtain ⟨t, h1, -, h3, h4, -⟩ := C77_cliques hc hl hr hu order0 hord ho so
  refine ⟨t, h1, fun h o1 v o2 he x hx y hy hvx hvy hne => ?_, fun h k vars hk x hx y hy hne => ?_⟩
  · obtain ⟨k, vars, hk, hb⟩ := h4 v (ho.subset (by simp [he]))
    exact h k vars hk x (hb x (Or.inr ⟨he ▸ later_of_split hx, hvx⟩)) y
      (hb y (Or.inr ⟨he ▸ later_of_split hy, hvy⟩)) hne
  · obtain ⟨-, v, hv, hb⟩ := h3 k vars hk
    have sym : ∀ a b, bn.Moral a b → bn.Moral b a := fun a b ⟨h1, n, h2, h3, h4⟩ => ⟨h1.symm, n, h2, h4, h3⟩
    rcases (hb x).1 hx with rfl | ⟨lx, mx⟩
    · rcases (hb y).1 hy with rfl | ⟨-, my⟩
      · exact absurd rfl hne
      · exact my
    · rcases (hb y).1 hy with rfl | ⟨ly, my⟩
      · exact sym _ _ mx
      · obtain ⟨o1, o2, e1, m1⟩ := later_split lx
        obtain ⟨p1, p2, e2, m2⟩ := later_split ly
        have hn : order.Nodup := ho.symm.nodup hc.nodup
        have : o2 = p2 := by
          have v1 : v ∉ o1 := fun h => by
            rw [e1] at hn
            exact (List.nodup_append.1 hn).2.2 v h v (by simp) rfl
          have v2 : v ∉ p1 := fun h => by
            rw [e2] at hn
            exact (List.nodup_append.1 hn).2.2 v h v (by simp) rfl
          have e3 := e1.symm.trans e2
          have e4 := congrArg (List.idxOf v) e3
          rw [List.idxOf_append_of_notMem v1, List.idxOf_append_of_notMem v2] at e4
          simp at e4
          have e5 := (List.append_inj e3 e4).2
          injection e5
        exact h o1 v o2 e1 x m1 y (this ▸ m2) mx my hne

/-- the state after any calls, for networks with the same outcomes -/
theorem TreeOp.runs_room {bn : BN} {t : JTree} (hs : t.Seps) (h : t.Room bn.lab) (ops : List TreeOp)
    (hops : ∀ op ∈ ops, op.Uses fun bn' => bn'.Consistent ∧ ∀ v ∈ bn'.names, bn'.lab v = bn.lab v) :
    (TreeOp.runs ops t).Room bn.lab := by
  induction ops generalizing t with
  | nil => exact h
  | cons op ops ih =>
    have hop := hops op (by simp)
    have hshape : (op.run t).shape = t.shape := TreeOp.runs_shape [op] t
    refine ih (t := op.run t) (hs.of_shape hshape) ?_ fun o ho => hops o (by simp [ho])
    cases op with
    | reset so bn' => exact h.reset so ⟨hop.1, hop.2⟩
    | setEvidence so limit bn' ev soft => exact h.setEvidence so limit ⟨hop.1, hop.2⟩ ev soft hs
    | calculate so limit => exact h.calculate so limit hs
    | marginals so limit vs => exact h.marginals so limit vs hs

/-- **C77** Tables never outgrow their clique: whatever calls are made on the tree, with whatever
evidence and tables, and whether they succeed or not, each clique keeps its variables, its table has
no others, and so has at most as many entries as the clique has instantiations.  The same holds for
the tables of the separators. -/
theorem C77_tables {bn : BN} (hc : bn.Consistent) (hl : bn.Linked) (hr : bn.Recorded)
    (hu : UniqueJoin bn.names) (hlab : ∀ v ∈ bn.names, bn.lab v ≠ []) (order0 : Option (List Name))
    {order : List Name} (hord : VE.chooseOrder bn order0 = .ok order) (ho : order.Perm bn.names)
    (so : SetOrder) :
    ∃ t, create so bn order0 = .ok t ∧ ∀ ops : List TreeOp,
      (∀ op ∈ ops, op.Uses fun bn' => bn'.Consistent ∧ ∀ v ∈ bn'.names, bn'.lab v = bn.lab v) →
      (∀ k vars, (TreeOp.runs ops t).Clique k vars ↔ t.Clique k vars) ∧
      (∀ k vars f, (k, JNode.mk vars f) ∈ (TreeOp.runs ops t).nodes → f.WF bn.card ∧
        (∀ x ∈ f.variableOrder, x ∈ vars) ∧ f.potentials.data.length ≤ (vars.map bn.card).prod) ∧
      ∀ e ∈ (TreeOp.runs ops t).edges, e.factor.WF bn.card ∧
        (∀ x ∈ e.factor.variableOrder, x ∈ e.sep) ∧
        ∀ k vars, (k = e.u ∨ k = e.w) → t.Clique k vars → ∀ x ∈ e.sep, x ∈ vars := by
  obtain ⟨t, h1, -, h3, -⟩ := C77_cliques hc hl hr hu order0 hord ho so
  obtain ⟨hs, hroom⟩ := JTree.create_room hc hl hr hu hord ho h1
  refine ⟨t, h1, fun ops hops => ?_⟩
  have hsh := TreeOp.runs_shape ops t
  have hR := TreeOp.runs_room hs hroom ops hops
  have hS := hs.of_shape hsh
  have hcl : ∀ k vars, (TreeOp.runs ops t).Clique k vars ↔ t.Clique k vars :=
    fun k vars => JTree.clique_of_shape hsh k vars
  refine ⟨hcl, fun k vars f hm => ?_, fun e he => ?_⟩
  · have hw := hR.nodes _ hm
    obtain ⟨-, v, hv, hx⟩ := h3 k vars ((hcl _ _).1 ⟨f, hm⟩)
    refine ⟨hw.1.wf, hw.2, JTree.Within.size hw fun x hxv => hlab x ?_⟩
    rcases (hx x).1 hxv with rfl | ⟨-, -, n, hn, -, hxn⟩
    · exact hv
    · rcases List.mem_cons.1 hxn with rfl | hxn
      · exact List.mem_map_of_mem hn
      · exact hc.parents_mem n hn x hxn
  · have hw := hR.edges e he
    refine ⟨hw.1.wf, hw.2, fun k vars hk hv => ?_⟩
    have hv' := (hcl _ _).2 hv
    rcases hk with rfl | rfl
    · exact hS.sub e he e.w e.u (by simp [JEdge.joins]) vars hv'
    · exact hS.sub e he e.u e.w (by simp [JEdge.joins]) vars hv'

/-- **C77** On polytrees the cliques of the default tree are the maximal families. -/
theorem C77_polytree {bn : BN} (hc : bn.Consistent) (hl : bn.Linked) (hr : bn.Recorded)
    (hu : UniqueJoin bn.names) (ht : bn.Polytree) (so : SetOrder) :
    ∃ t, create so bn none = .ok t ∧
      (∀ k vars, t.Clique k vars → ∃ n, bn.MaxFamily n ∧ ∀ x, x ∈ vars ↔ x ∈ n.family) ∧
      ∀ n, bn.MaxFamily n → ∃ k vars, t.Clique k vars ∧ ∀ x, x ∈ vars ↔ x ∈ n.family := by
  obtain ⟨o, h1, h2, h3⟩ := polytree_leafOrder hc hl ht
  obtain ⟨t, a1, -, a3, -, a5⟩ := C77_cliques hc hl hr hu none h1 h2 so
  obtain ⟨t', b1, -, -, -, b5⟩ := JTree.create_any so hc hl hr hu none h1 h2
  rw [a1] at b1
  cases b1
  have inFam : ∀ k vars, t.Clique k vars → ∃ n ∈ bn, ∀ x ∈ vars, x ∈ n.family := by
    intro k vars hk
    obtain ⟨-, v, hv, hx⟩ := a3 k vars hk
    obtain ⟨n, hn, hb⟩ := bucket_family h2 hc.nodup h3 hv
    exact ⟨n, hn, fun x hxv => hb x ((hx x).1 hxv)⟩
  have famIn : ∀ n ∈ bn, ∃ k vars, t.Clique k vars ∧ ∀ x ∈ n.family, x ∈ vars := by
    intro n hn
    obtain ⟨q, hq, hx⟩ := b5 n hn
    exact ⟨q.1, q.2, JTree.clique_iff_skel.2 hq, hx⟩
  refine ⟨t, a1, fun k vars hk => ?_, fun n hn => ?_⟩
  · obtain ⟨n, hn, hx⟩ := inFam k vars hk
    have heq : ∀ x, x ∈ vars ↔ x ∈ n.family := by
      obtain ⟨k', vars', hk', hx'⟩ := famIn n hn
      obtain ⟨-, rfl⟩ := a5 k vars k' vars' hk hk' fun x hxv => hx' x (hx x hxv)
      exact fun x => ⟨hx x, hx' x⟩
    refine ⟨n, ⟨hn, fun m hm hsub x hxm => ?_⟩, heq⟩
    obtain ⟨k', vars', hk', hx'⟩ := famIn m hm
    obtain ⟨-, rfl⟩ := a5 k vars k' vars' hk hk' fun x hxv => hx' x (hsub x ((heq x).1 hxv))
    exact (heq x).1 (hx' x hxm)
  · obtain ⟨k, vars, hk, hx⟩ := famIn n hn.1
    refine ⟨k, vars, hk, fun x => ⟨fun hxv => ?_, hx x⟩⟩
    obtain ⟨m, hm, hxm⟩ := inFam k vars hk
    exact hn.2 m hm (fun y hy => hxm y (hx y hy)) x (hxm x hxv)

/-- **C77** On polytrees the tables of the default tree, whatever calls are made on it, have together
at most as many entries as the tables of the network. -/
theorem C77_polytree_memory {bn : BN} (hc : bn.Consistent) (hl : bn.Linked) (hr : bn.Recorded)
    (hu : UniqueJoin bn.names) (hlab : ∀ v ∈ bn.names, bn.lab v ≠ []) (ht : bn.Polytree) (so : SetOrder) :
    ∃ t, create so bn none = .ok t ∧ ∀ ops : List TreeOp,
      (∀ op ∈ ops, op.Uses fun bn' => bn'.Consistent ∧ ∀ v ∈ bn'.names, bn'.lab v = bn.lab v) →
      ((TreeOp.runs ops t).nodes.map fun q => q.2.factor.potentials.data.length).sum ≤
        (bn.map fun n => n.cpd.data.length).sum := by
  obtain ⟨o, h1, h2, -⟩ := polytree_leafOrder hc hl ht
  obtain ⟨t, a1, a2, -⟩ := C77_polytree hc hl hr hu ht so
  obtain ⟨t', b1, -, -, -, b5⟩ := C77_cliques hc hl hr hu none h1 h2 so
  rw [a1] at b1; cases b1
  obtain ⟨t', b1, b2⟩ := C77_tables hc hl hr hu hlab none h1 h2 so
  rw [a1] at b1; cases b1
  obtain ⟨t', b1, kn, -⟩ := JTree.create_any so hc hl hr hu none h1 h2
  rw [a1] at b1; cases b1
  refine ⟨t, a1, fun ops hops => ?_⟩
  obtain ⟨c1, c2, -⟩ := b2 ops hops
  have hkn : (TreeOp.runs ops t).nodes.keys.Nodup := by
    rw [JTree.keys_of_shape (TreeOp.runs_shape ops t)]; exact kn
  generalize TreeOp.runs ops t = s at c1 c2 hkn
  have hcl : ∀ q ∈ s.nodes, t.Clique q.1 q.2.vars := fun q hq => (c1 _ _).1 ⟨q.2.factor, hq⟩
  have ha : ∀ q : Name × JNode, ∃ n : NodeV, q ∈ s.nodes → n ∈ bn ∧ ∀ x, x ∈ q.2.vars ↔ x ∈ n.family := by
    intro q
    by_cases hq : q ∈ s.nodes
    · obtain ⟨n, hn, hx⟩ := a2 _ _ (hcl q hq)
      exact ⟨n, fun _ => ⟨hn.1, hx⟩⟩
    · exact ⟨⟨"", .discrete, [], [], [], [], ⟨[], [0], rfl⟩, true⟩, fun h => absurd h hq⟩
  choose N hN using ha
  have hle : ∀ q ∈ s.nodes, q.2.factor.potentials.data.length ≤ (N q).cpd.data.length := by
    intro q hq
    obtain ⟨w1, w2, -⟩ := c2 q.1 q.2.vars q.2.factor hq
    obtain ⟨hn, hx⟩ := hN q hq
    rw [q.2.factor.potentials.size_eq, w1.shape, (N q).cpd.size_eq, hc.shape _ hn]
    refine (JTree.prod_le_of_subset (m := (N q).family) w1.nodup (fun x hxv => (hx x).1 (w2 x hxv))
      fun x hxf => List.length_pos_of_ne_nil (hlab x ?_)).trans (le_of_eq ?_)
    · rcases List.mem_cons.1 hxf with rfl | hxf
      · exact List.mem_map_of_mem hn
      · exact hc.parents_mem _ hn x hxf
    · rw [NodeV.family, List.map_cons, BN.lab_eq hc.nodup hn]
      rfl
  have hnodup : (s.nodes.map N).Nodup := by
    have hk : (s.nodes.map fun q => q.1).Nodup := hkn
    refine List.Nodup.map_on (fun q hq q' hq' he => ?_) (List.Nodup.of_map _ hk)
    have hx := (hN q hq).2
    have hx' := (hN q' hq').2
    have := (b5 _ _ _ _ (hcl q hq) (hcl q' hq') fun x hxv => (hx' x).2 (he ▸ (hx x).1 hxv)).1
    exact List.inj_on_of_nodup_map hk hq hq' this
  obtain ⟨l, hp, hsub⟩ := hnodup.subperm (l₂ := bn) fun n hn => by
    obtain ⟨q, hq, rfl⟩ := List.mem_map.1 hn
    exact (hN q hq).1
  calc (s.nodes.map fun q => q.2.factor.potentials.data.length).sum
      ≤ (s.nodes.map fun q => (N q).cpd.data.length).sum := List.sum_le_sum hle
    _ = ((s.nodes.map N).map fun n => n.cpd.data.length).sum := by rw [List.map_map]; rfl
    _ = (l.map fun n => n.cpd.data.length).sum := ((hp.map _).sum_eq).symm
    _ ≤ (bn.map fun n => n.cpd.data.length).sum := (hsub.map _).sum_le_sum fun _ _ => Nat.zero_le _

/-- **C77 needs polytrees**: with a loop, the default tree has a clique that is not within a family. -/
theorem C77_loop_refuted :
    Ex.cycle.Consistent ∧ Ex.cycle.Linked ∧ Ex.cycle.Recorded ∧ UniqueJoin Ex.cycle.names ∧
    ∃ t, create .insertion Ex.cycle none = .ok t ∧ t.Clique "abc" ["a", "b", "c"] ∧
      ¬ ∃ n ∈ Ex.cycle, ∀ x ∈ ["a", "b", "c"], x ∈ n.family := by
  refine ⟨Ex.cycle_consistent, Ex.cycle_linked, Ex.cycle_recorded, Ex.cycle_join, ?_⟩
  have h : (create .insertion Ex.cycle none).map (fun t => JTree.skel t.nodes) =
      .ok [("ced", ["c", "e", "d"]), ("bd", ["b", "d"]), ("abc", ["a", "b", "c"])] := by decide +kernel
  cases hc : create .insertion Ex.cycle none with
  | error e => rw [hc] at h; cases h
  | ok t =>
    rw [hc] at h
    simp only [Except.map, Except.ok.injEq] at h
    exact ⟨t, rfl, JTree.clique_iff_skel.2 (h ▸ by decide), by decide⟩

/-! ### the hypotheses are satisfiable -/

example := C77_polytree Ex.bn_consistent Ex.bn_linked Ex.bn_recorded Ex.bn_join Ex.bn_polytree .insertion

example := C77_polytree_memory Ex.bn_consistent Ex.bn_linked Ex.bn_recorded Ex.bn_join (by decide)
  Ex.bn_polytree .reversed

/-- the example with a loop: its default order is not perfect, so some clique is not complete -/
example : ∃ order, VE.chooseOrder Ex.cycle none = .ok order ∧ order.Perm Ex.cycle.names ∧
    ¬ Perfect Ex.cycle.Moral order := by
  obtain ⟨order, h1, h2⟩ := Ex.cycle_default.order
  refine ⟨order, h1, h2, fun hp => ?_⟩
  obtain ⟨t, a1, a2⟩ := C77_complete_iff Ex.cycle_consistent Ex.cycle_linked Ex.cycle_recorded Ex.cycle_join
    none h1 h2 .insertion
  obtain ⟨-, -, -, -, t', b1, b2, -⟩ := C77_loop_refuted
  rw [a1] at b1
  cases b1
  obtain ⟨-, n, hn, hb, hc⟩ := a2.2 hp _ _ b2 "b" (by decide) "c" (by decide) (by decide)
  revert n
  decide

example (order : List Name) (h1 : VE.chooseOrder Ex.cycle none = .ok order)
    (h2 : order.Perm Ex.cycle.names) :=
  C77_tables Ex.cycle_consistent Ex.cycle_linked Ex.cycle_recorded Ex.cycle_join (by decide) none h1 h2 .insertion

/-- calls that meet the condition of `C77_tables` -/
example : ∀ op ∈ [TreeOp.setEvidence .insertion 100 Ex.cycle [("e", .hard "t")] true, .calculate .reversed 3,
    .marginals .insertion 100 ["a"], .reset .insertion Ex.cycle],
    op.Uses fun bn' => bn'.Consistent ∧ ∀ v ∈ bn'.names, bn'.lab v = Ex.cycle.lab v := by
  simp [TreeOp.Uses, Ex.cycle_consistent]

end Primo
