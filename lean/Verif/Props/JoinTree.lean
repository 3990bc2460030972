import Verif.Lemmas.Sharp
import Verif.Lemmas.Frame
import Verif.Lemmas.SoftTree
import Verif.Lemmas.Loaded
import Verif.Lemmas.Isolated
import Verif.Props.Exact
import Verif.Examples.Tree

/-!
# Properties of `FactorTree`

C21 to C29.  `create_jointree` omits the fill-in edges of the elimination, so its tree need not have
the running intersection property, and exactness needs that (`TreeSetup`).  An elimination order that
does not call for fill-in edges (`Perfect`) is sufficient.  The general claims are refuted below; C68
says when exactly the tree is exact.
-/

namespace Primo
open JoinTree Factor Finset

/-- Networks and orders for which `create_jointree` can be run: consistent data structures, an
elimination order listing every node once (`order0 = none` is the default min-degree order), and
node names whose concatenations are unique.  The order need not be perfect. -/
structure OrderSetup (bn : BN) (order0 : Option (List Name)) : Prop where
  consistent : bn.Consistent
  linked : bn.Linked
  recorded : bn.Recorded
  names : UniqueJoin bn.names
  nonempty : bn ≠ []
  order : ∃ order, VE.chooseOrder bn order0 = .ok order ∧ order.Perm bn.names

/-- The networks and orders for which the tree is exact: in addition, the created tree has the running
intersection property. -/
structure TreeSetup (bn : BN) (order0 : Option (List Name)) : Prop extends OrderSetup bn order0 where
  tree : ∃ so t, create so bn order0 = .ok t ∧ t.RunningIntersection

/-- Networks with a perfect elimination order, which are among them (`PerfectSetup.tree`). -/
structure PerfectSetup (bn : BN) (order0 : Option (List Name)) : Prop where
  consistent : bn.Consistent
  linked : bn.Linked
  recorded : bn.Recorded
  names : UniqueJoin bn.names
  nonempty : bn ≠ []
  order : ∃ order, VE.chooseOrder bn order0 = .ok order ∧ order.Perm bn.names ∧ Perfect bn.Moral order

theorem PerfectSetup.tree {bn : BN} {order0 : Option (List Name)} (h : PerfectSetup bn order0) :
    TreeSetup bn order0 := by
  obtain ⟨order, o1, o2, o3⟩ := h.order
  obtain ⟨t, root, rvars, kids, others, a1, -⟩ := JTree.create_spec .insertion h.consistent h.linked
    h.recorded h.names h.nonempty order0 o1 o2 o3
  exact ⟨⟨h.consistent, h.linked, h.recorded, h.names, h.nonempty, order, o1, o2⟩, .insertion, t, a1,
    (JTree.create_classic .insertion h.consistent h.linked h.recorded h.names h.nonempty order0 o1 o2 o3 a1).1⟩

/-- the created tree, for any iteration order of sets -/
theorem TreeSetup.made {bn : BN} {order0 : Option (List Name)} (h : TreeSetup bn order0) (so : SetOrder) :
    ∃ t root rvars kids others, create so bn order0 = .ok t ∧ JTree.Sits bn t root rvars kids others ∧
      (bn.Connected → others = []) ∧ kids.depth < bn.length ∧ t.RunningIntersection ∧
      ∀ e ∈ t.edges, e.sep ≠ [] := by
  obtain ⟨order, o1, o2⟩ := h.order
  obtain ⟨so', t', t1, t2⟩ := h.tree
  obtain ⟨t, a1, -⟩ := JTree.create_any so h.consistent h.linked h.recorded h.names order0 o1 o2
  have hsh : t.shape = t'.shape := by
    obtain ⟨p, p1, p2⟩ := plan_of_create a1
    obtain ⟨p', p1', p2'⟩ := plan_of_create t1
    rw [p1] at p1'
    cases p1'
    rw [p2, p2']
  have hrip := t2.of_shape hsh
  obtain ⟨root, rvars, kids, others, b1, b2, b3⟩ := JTree.create_rip so h.consistent h.linked h.recorded
    h.names h.nonempty order0 o1 o2 a1 hrip
  exact ⟨t, root, rvars, kids, others, a1, b1, b2, b3, hrip,
    JTree.create_seps so h.consistent h.linked h.recorded h.names order0 o1 o2 a1⟩

/-- some clique of the tree contains all these variables -/
def JTree.Covers (t : JTree) (vs : List Name) : Prop := ∃ k vars, t.Clique k vars ∧ ∀ x ∈ vs, x ∈ vars

/-- The example network has a perfect default order. -/
theorem Ex.bn_perfect : PerfectSetup Ex.bn none :=
  ⟨Ex.bn_consistent, Ex.bn_linked, Ex.bn_recorded, Ex.bn_join, by decide, ["d", "a", "b", "c"],
    by decide +kernel, by decide, Ex.perfect_of_tails (by decide)⟩

/-! ## C21 -/

/-- **C21, partial.**  Missing: trees without the running intersection property, of networks and orders
that need fill-in edges (refuted below). -/
theorem C21_tree_exact_partial {bn : BN} {order0 : Option (List Name)} (h : TreeSetup bn order0)
    (hn : bn.NonNeg) (hco : bn.Connected) {ev : Dict Evidence} (he : LegalEvidence bn ev)
    (hen : NonNegEvidence ev) {limit : Nat} (hl : bn.length ≤ limit) (so₁ so₂ : SetOrder) :
    ∃ t t', create so₁ bn order0 = .ok t ∧ t.setEvidence so₂ limit bn ev false = (t', none) ∧
      (∀ n ∈ bn, t'.Covers n.family) ∧
      ∀ vs, t'.Covers vs → ∀ so₃ limit', ∃ r, t'.marginals so₃ limit' vs = (t', .ok r) ∧
        r.WF bn.card ∧ (∀ v ∈ r.variableOrder, r.values.get? v = some (bn.lab v)) ∧
        (∀ v, v ∈ r.variableOrder ↔ v ∈ vs) ∧
        (∀ σ, Legal bn.card vs σ → r.eval σ = posterior bn ev vs σ) ∧
        ∀ so₄, ∃ rn, VE.naiveMarginals so₄ bn vs ev = .ok rn ∧ SameTable bn.card r rn := by
  obtain ⟨t, root, rvars, kids, others, a1, a3, a6, a7, -⟩ := h.made so₁
  obtain ⟨t', Φ, Ψ, b1, b2, b3⟩ := JTree.setEvidence_spec so₂ h.consistent hn a3 he hen
    (lt_of_lt_of_le a7 hl)
  refine ⟨t, t', a1, b1, fun n hn' => ?_, fun vs hvs so₃ limit' => ?_⟩
  · obtain ⟨q, hq, hqf⟩ := b3.sits.fam n hn'
    exact ⟨q.1, q.2, JTree.clique_iff_skel.2 hq, hqf⟩
  · obtain ⟨k, vars, hk, hkv⟩ := hvs
    have hq : ∃ q ∈ JTree.skel t'.nodes, q.1 ∉ others ∧ ∀ x ∈ vs, x ∈ q.2 :=
      ⟨(k, vars), JTree.clique_iff_skel.1 hk, by rw [a6 hco]; simp, hkv⟩
    obtain ⟨r, r1, r2, r3, r4⟩ := b3.posterior so₃ hq (Or.inl (a6 hco)) limit'
    refine ⟨r, r1, r2.wf, r2.val, r3, r4, fun so₄ => ?_⟩
    obtain ⟨rn, s1, -, -, s4, s5⟩ := C13_naive_exact so₄ bn h.consistent ev he vs fun v hv =>
      b3.sits.sub _ (JTree.clique_iff_skel.1 hk) v (hkv v hv)
    refine ⟨rn, s1, fun v => by rw [r3, s4], fun σ hσ => ?_⟩
    have : Legal bn.card vs σ := fun v hv => hσ v ((r3 v).2 hv)
    rw [r4 σ this, s5 σ this]

example := C21_tree_exact_partial Ex.bn_perfect.tree Ex.bn_nonneg Ex.bn_connected Ex.ev_legal Ex.ev_nonneg
  (limit := 1000) (by decide) .insertion .reversed
example : (Ex.answer .insertion Ex.bn Ex.ev ["a"]).map (fun r => r.potentials.data) =
    (VE.naiveMarginals .insertion Ex.bn ["a"] Ex.ev).map (fun r => r.potentials.data) := by decide +kernel

/-- **C21 is false in general**: a cycle of five nodes without chord.  The default tree loses the
evidence `e = "t"`: it answers 1/2 for `a`, exact inference 43/50. -/
theorem C21_chordless_refuted :
    Ex.cycle.Consistent ∧ Ex.cycle.Linked ∧ Ex.cycle.Recorded ∧ UniqueJoin Ex.cycle.names ∧
    ∃ t t' r rn, create .insertion Ex.cycle none = .ok t ∧
      t.setEvidence .insertion 1000 Ex.cycle [("e", .hard "t")] false = (t', none) ∧
      (t'.marginals .insertion 1000 ["a"]).2 = .ok r ∧
      VE.naiveMarginals .insertion Ex.cycle ["a"] [("e", .hard "t")] = .ok rn ∧
      r.variableOrder = ["a"] ∧ rn.variableOrder = ["a"] ∧
      r.potentials.data = [1 / 2, 1 / 2] ∧ rn.potentials.data = [43 / 50, 7 / 50] := by
  obtain ⟨t, t', r, h1, h2, h3, h4, h5⟩ := Ex.answer_ok (so := .insertion) (bn := Ex.cycle)
    (ev := [("e", .hard "t")]) (vs := ["a"]) (d := [1 / 2, 1 / 2]) (by decide +kernel)
  have hn : (VE.naiveMarginals .insertion Ex.cycle ["a"] [("e", .hard "t")]).map
      (fun r => (r.variableOrder, r.potentials.data)) = .ok (["a"], [43 / 50, 7 / 50]) := by decide +kernel
  cases hr : VE.naiveMarginals .insertion Ex.cycle ["a"] [("e", .hard "t")] with
  | error e => rw [hr] at hn; cases hn
  | ok rn =>
    rw [hr] at hn
    simp only [Except.map, Except.ok.injEq, Prod.mk.injEq] at hn
    exact ⟨Ex.cycle_consistent, Ex.cycle_linked, Ex.cycle_recorded, Ex.cycle_join, t, t', r, rn, h1, h2,
      h3, rfl, h4, hn.1, h5, hn.2⟩

/-! ## C22 -/

/-- A public call on a factor tree.  Each call may use its own set iteration order and recursion
depth, and the network object may have been changed in between. -/
inductive TreeOp
  | reset (so : SetOrder) (bn : BN)
  | setEvidence (so : SetOrder) (limit : Nat) (bn : BN) (ev : Dict Evidence) (soft : Bool)
  | calculate (so : SetOrder) (limit : Nat)
  | marginals (so : SetOrder) (limit : Nat) (vs : List Name)

/-- the state after the call, whether it raised or not -/
def TreeOp.run : TreeOp → JTree → JTree
  | .reset so bn, t => (t.reset so bn).1
  | .setEvidence so limit bn ev soft, t => (t.setEvidence so limit bn ev soft).1
  | .calculate so limit, t => (t.calculate so limit).1
  | .marginals so limit vs, t => (t.marginals so limit vs).1

/-- the state after a history of calls -/
def TreeOp.runs (ops : List TreeOp) (t : JTree) : JTree := ops.foldl (fun t op => op.run t) t

theorem TreeOp.runs_shape (ops : List TreeOp) (t : JTree) : (TreeOp.runs ops t).shape = t.shape := by
  induction ops generalizing t with
  | nil => rfl
  | cons op ops ih =>
    refine (ih (op.run t)).trans ?_
    cases op with
    | reset so bn => exact JTree.reset_shape so bn t
    | setEvidence so limit bn ev soft => exact JTree.setEvidence_shape so limit bn ev soft t
    | calculate so limit => exact JTree.calculate_shape so limit t
    | marginals so limit vs => exact JTree.marginals_shape so limit vs t

/-- product of the tables stored in the cliques -/
def JTree.product (t : JTree) (σ : Assign) : ℚ := (t.nodes.map fun p => p.2.factor.eval σ).prod

/-- **C22** For any elimination order listing every node once, `create_jointree` succeeds; each node
is assigned to one clique, which contains its family; the table of a clique is the product of the
tables assigned to it; the product of all clique tables is the product of all tables of the network;
and `reset_factors` restores the tree after any history of calls. -/
theorem C22_each_table_once {bn : BN} (hc : bn.Consistent) (hl : bn.Linked) (hr : bn.Recorded)
    (hu : UniqueJoin bn.names) (order0 : Option (List Name)) {order : List Name}
    (hord : VE.chooseOrder bn order0 = .ok order) (ho : order.Perm bn.names) (so : SetOrder) :
    ∃ t, create so bn order0 = .ok t ∧ t.nodes.keys.Nodup ∧
      (∃ home : NodeV → Name,
        (∀ n ∈ bn, ∃ vars, t.Clique (home n) vars ∧ ∀ x ∈ n.family, x ∈ vars) ∧
        ∀ k vars f, (k, JNode.mk vars f) ∈ t.nodes → f.WF bn.card ∧
          (∀ v, v ∈ f.variableOrder ↔ ∃ n ∈ bn, home n = k ∧ v ∈ n.family) ∧
          ∀ σ, Legal bn.card bn.names σ →
            f.eval σ = ((bn.filter fun n => home n = k).map fun n => n.entry σ).prod) ∧
      (∀ σ, Legal bn.card bn.names σ → t.product σ = joint bn σ) ∧
      ∀ ops, (TreeOp.runs ops t).reset so bn = (t, none) := by
  obtain ⟨t, a1, a2, a3, a4, a5⟩ := JTree.create_any so hc hl hr hu order0 hord ho
  have hhome : ∀ n ∈ bn, ∃ k, JTree.home (JTree.skel t.nodes) (JTree.nodeItem n) = some k := by
    intro n hn
    obtain ⟨q, hq, hqf⟩ := a5 n hn
    exact JTree.home_some (k := q.1) (vars := q.2) hq (((JTree.nodeItem_spec hc hn).2.2.2.2.2 q.2).2 hqf)
  have hleg : ∀ k n, (k, n) ∈ t.nodes → ∀ v ∈ n.factor.variableOrder, v ∈ bn.names := by
    intro k n hm v hv
    obtain ⟨it, hit, -, hvi⟩ := ((a3 k n hm).2.1 v).1 hv
    obtain ⟨n', hn', rfl⟩ := List.mem_map.1 hit
    rw [(JTree.nodeItem_spec hc hn').2.2.1] at hvi
    rcases List.mem_cons.1 hvi with rfl | h
    · exact List.mem_map_of_mem hn'
    · exact hc.parents_mem n' hn' v h
  refine ⟨t, a1, a2, ⟨fun n => (JTree.home (JTree.skel t.nodes) (JTree.nodeItem n)).getD "", fun n hn => ?_,
    fun k vars f hm => ⟨(a3 k _ hm).1.wf, fun v => ?_, fun σ hσ => ?_⟩⟩, fun σ hσ => ?_, fun ops =>
    JTree.reset_create so a1 (TreeOp.runs_shape ops t)⟩
  · obtain ⟨k, hk⟩ := hhome n hn
    obtain ⟨vars, h1, h2⟩ := JTree.home_mem hk
    refine ⟨vars, ?_, ((JTree.nodeItem_spec hc hn).2.2.2.2.2 vars).1 h2⟩
    dsimp only
    rw [hk]
    exact JTree.clique_iff_skel.2 h1
  · rw [(a3 k _ hm).2.1 v]
    constructor
    · rintro ⟨it, hit, h1, h2⟩
      obtain ⟨n, hn, rfl⟩ := List.mem_map.1 hit
      exact ⟨n, hn, by dsimp only; rw [h1]; rfl, (JTree.nodeItem_spec hc hn).2.2.1 ▸ h2⟩
    · rintro ⟨n, hn, h1, h2⟩
      obtain ⟨k', hk'⟩ := hhome n hn
      dsimp only at h1
      rw [hk'] at h1
      exact ⟨_, List.mem_map_of_mem hn, by rw [hk', ← h1]; rfl, (JTree.nodeItem_spec hc hn).2.2.1 ▸ h2⟩
  · rw [(a3 k _ hm).2.2 σ fun v hv => hσ v (hleg k _ hm v hv), List.filter_map, List.map_map]
    have : bn.filter ((fun it => decide (JTree.home (JTree.skel t.nodes) it = some k)) ∘ JTree.nodeItem) =
        bn.filter fun n => decide ((JTree.home (JTree.skel t.nodes) (JTree.nodeItem n)).getD "" = k) := by
      refine List.filter_congr fun n hn => ?_
      obtain ⟨k', hk'⟩ := hhome n hn
      simp [hk']
    rw [this]
    congr 1
    refine List.map_congr_left fun n hn => ?_
    exact (JTree.nodeItem_spec hc (List.mem_of_mem_filter hn)).2.2.2.1 σ
  · have h1 : t.product σ = (t.nodes.keys.map fun k =>
        (((bn.map JTree.nodeItem).filter fun it => JTree.home (JTree.skel t.nodes) it = some k).map
          fun it => it.f.eval σ).prod).prod := by
      unfold JTree.product Dict.keys
      rw [List.map_map]
      congr 1
      refine List.map_congr_left fun p hp => ?_
      exact (a3 p.1 p.2 hp).2.2 σ fun v hv => hσ v (hleg p.1 p.2 hp v hv)
    rw [h1, JTree.prod_homes t.nodes.keys a2, joint, List.map_map]
    · congr 1
      exact List.map_congr_left fun n hn => (JTree.nodeItem_spec hc hn).2.2.2.1 σ
    · intro it hit
      obtain ⟨n, hn, rfl⟩ := List.mem_map.1 hit
      obtain ⟨k, hk⟩ := hhome n hn
      obtain ⟨vars, h2, -⟩ := JTree.home_mem hk
      obtain ⟨f, hf⟩ := JTree.clique_iff_skel.2 h2
      exact ⟨k, List.mem_map_of_mem (f := Prod.fst) hf, hk⟩

example := C22_each_table_once Ex.bn_consistent Ex.bn_linked Ex.bn_recorded Ex.bn_join
  (some ["c", "a", "b", "d"]) rfl (by decide) .reversed
example := C22_each_table_once Ex.cycle_consistent Ex.cycle_linked Ex.cycle_recorded Ex.cycle_join none
  (order := ["a", "b", "c", "d", "e"]) (by decide +kernel) (by decide) .insertion

/-- **C22 needs unique concatenations**: the families `{a, bc}` and `{ab, c}` both get the name
`"abc"`; one clique is lost, with the tables of `ab` and `c`. -/
theorem C22_name_collision_refuted :
    Ex.clash.Consistent ∧ Ex.clash.Linked ∧ Ex.clash.Recorded ∧
    ∃ t, create .insertion Ex.clash none = .ok t ∧ t.nodes.map (fun p => (p.1, p.2.vars)) =
      [("abc", ["a", "bc"])] ∧ (t.marginals .insertion 1000 ["c"]).2 = .error .valueError := by
  refine ⟨Ex.clash_consistent, Ex.clash_linked, Ex.clash_recorded, ?_⟩
  have h : (create .insertion Ex.clash none).map (fun t => (t.nodes.map (fun p => (p.1, p.2.vars)),
      (t.marginals .insertion 1000 ["c"]).2.map fun r => r.variableOrder)) =
      .ok ([("abc", ["a", "bc"])], .error .valueError) := by decide +kernel
  cases hc : create .insertion Ex.clash none with
  | error e => rw [hc] at h; cases h
  | ok t =>
    rw [hc] at h
    simp only [Except.map, Except.ok.injEq, Prod.mk.injEq] at h
    refine ⟨t, rfl, h.1, ?_⟩
    have h2 := h.2
    split at h2
    · rename_i e he
      injection h2 with h2
      rw [he, h2]
    · cases h2

/-! ## C23 -/

/-- **C23, partial.**  For a perfect elimination order the result has the running intersection
property, and it is a tree if the network is connected.  Missing: orders that need fill-in edges. -/
theorem C23_junction_tree_partial {bn : BN} {order0 : Option (List Name)} (h : PerfectSetup bn order0)
    (so : SetOrder) : ∃ t, create so bn order0 = .ok t ∧ t.RunningIntersection ∧
      (bn.Connected → t.IsTree) ∧ ∀ ops, (TreeOp.runs ops t).RunningIntersection ∧
        (bn.Connected → (TreeOp.runs ops t).IsTree) := by
  obtain ⟨order, o1, o2, o3⟩ := h.order
  obtain ⟨t, root, rvars, kids, others, a1, -⟩ :=
    JTree.create_spec so h.consistent h.linked h.recorded h.names h.nonempty order0 o1 o2 o3
  obtain ⟨b1, b2, -⟩ := JTree.create_classic so h.consistent h.linked h.recorded h.names h.nonempty
    order0 o1 o2 o3 a1
  exact ⟨t, a1, b1, b2, fun ops => ⟨b1.of_shape (TreeOp.runs_shape ops t), fun hco =>
    (b2 hco).of_shape (TreeOp.runs_shape ops t)⟩⟩

example := C23_junction_tree_partial Ex.bn_perfect .insertion

/-- **C23 is false in general**: the default tree of the chordless cycle has three cliques and one
edge, and the cliques containing `b` are not connected. -/
theorem C23_chordless_refuted :
    ∃ t, create .insertion Ex.cycle none = .ok t ∧ ¬ t.IsTree ∧ ¬ t.RunningIntersection := by
  have h : (create .insertion Ex.cycle none).map (fun t => (t.nodes.map (fun p => (p.1, p.2.vars)),
      t.edges.map fun e => (e.u, e.w))) =
      .ok ([("ced", ["c", "e", "d"]), ("bd", ["b", "d"]), ("abc", ["a", "b", "c"])], [("bd", "ced")]) := by
    decide +kernel
  cases hc : create .insertion Ex.cycle none with
  | error e => rw [hc] at h; cases h
  | ok t =>
    rw [hc] at h
    simp only [Except.map, Except.ok.injEq, Prod.mk.injEq] at h
    refine ⟨t, rfl, fun ht => ?_, fun hr => ?_⟩
    · have h1 := congrArg List.length h.1
      have h2 := congrArg List.length h.2
      have := ht.count
      simp only [List.length_map, List.length_cons, List.length_nil] at h1 h2
      omega
    · have hcl : ∀ k vars, (k, vars) ∈ [("ced", ["c", "e", "d"]), ("bd", ["b", "d"]),
          ("abc", ["a", "b", "c"])] → t.Clique k vars := by
        intro k vars hm
        rw [← h.1] at hm
        exact JTree.clique_iff_skel.2 hm
      have hp := hr.path "b" "abc" ["a", "b", "c"] "bd" ["b", "d"] (hcl _ _ (by decide)) (by decide)
        (hcl _ _ (by decide)) (by decide)
      have hno : ∀ k, Relation.ReflTransGen (t.JoinedAt "b") "abc" k → k = "abc" := by
        intro k hk
        induction hk with
        | refl => rfl
        | tail _ hj ih =>
          subst ih
          obtain ⟨⟨e, he, hej⟩, -⟩ := hj
          have : (e.u, e.w) ∈ t.edges.map fun e => (e.u, e.w) := List.mem_map_of_mem he
          rw [h.2, List.mem_singleton] at this
          injection this with e1 e2
          simp [JEdge.joins, e1, e2] at hej
      exact absurd (hno _ hp) (by decide)

/-! ## C24 -/

/-- The default order of a polytree is perfect. -/
theorem PerfectSetup.polytree {bn : BN} (hc : bn.Consistent) (hl : bn.Linked) (hr : bn.Recorded)
    (hu : UniqueJoin bn.names) (hne : bn ≠ []) (ht : bn.Polytree) : PerfectSetup bn none := by
  obtain ⟨o, h1, h2, h3⟩ := polytree_perfect hc hl ht
  exact ⟨hc, hl, hr, hu, hne, o, h1, h2, h3⟩

/-- **C24** The default tree of a connected polytree is a junction tree and answers exactly. -/
theorem C24_polytree_exact {bn : BN} (hc : bn.Consistent) (hl : bn.Linked) (hr : bn.Recorded)
    (hu : UniqueJoin bn.names) (hne : bn ≠ []) (ht : bn.Polytree) (hco : bn.Connected)
    (hn : bn.NonNeg) {ev : Dict Evidence} (he : LegalEvidence bn ev) (hen : NonNegEvidence ev)
    {limit : Nat} (hlim : bn.length ≤ limit) (so₁ so₂ : SetOrder) :
    ∃ t t', create so₁ bn none = .ok t ∧ t.RunningIntersection ∧ t.IsTree ∧
      t.setEvidence so₂ limit bn ev false = (t', none) ∧ (∀ n ∈ bn, t'.Covers n.family) ∧
      ∀ vs, t'.Covers vs → ∀ so₃ limit', ∃ r, t'.marginals so₃ limit' vs = (t', .ok r) ∧
        r.WF bn.card ∧ (∀ v ∈ r.variableOrder, r.values.get? v = some (bn.lab v)) ∧
        (∀ v, v ∈ r.variableOrder ↔ v ∈ vs) ∧
        ∀ σ, Legal bn.card vs σ → r.eval σ = posterior bn ev vs σ := by
  have hs := PerfectSetup.polytree hc hl hr hu hne ht
  obtain ⟨t, t', h1, h2, h3, h4⟩ := C21_tree_exact_partial hs.tree hn hco he hen hlim so₁ so₂
  obtain ⟨t0, g1, g2, g3, -⟩ := C23_junction_tree_partial hs so₁
  rw [h1] at g1
  cases g1
  refine ⟨t, t', h1, g2, g3 hco, h2, h3, fun vs hvs so₃ limit' => ?_⟩
  obtain ⟨r, r1, r2, r3, r4, r5, -⟩ := h4 vs hvs so₃ limit'
  exact ⟨r, r1, r2, r3, r4, r5⟩

example := C24_polytree_exact Ex.bn_consistent Ex.bn_linked Ex.bn_recorded Ex.bn_join (by decide)
  Ex.bn_polytree Ex.bn_connected Ex.bn_nonneg Ex.ev_legal Ex.ev_nonneg (limit := 1000) (by decide)
  .insertion .reversed

/-! ## C25 -/

namespace JTree

theorem total_prod (t : JTree) (ks : List Name) (σ : Assign) :
    t.total ks σ = (ks.map fun k => t.pot k σ).prod := by
  induction ks with
  | nil => rfl
  | cons k ks ih => rw [total, ih, List.map_cons, List.prod_cons]

theorem Loaded.keys {lab : Name → List Val} {t : JTree} {root : Name} {rvars : List Name}
    {kids : Forest} (h : Loaded lab t root rvars kids) : t.nodes.keys.Nodup :=
  h.whole.symm.nodup h.junction.nodup

theorem told_eq {own : Name → Finset Name} {f : Forest} {p : Name} {P W : Finset Name} (hr : f.RIP P W)
    (hf : f.All (fun _ nm vars _ ks => ∀ v ∈ vars, v ∈ own nm ∨ v ∈ ks.seps) p) :
    f.told own = f.seps := by
  induction f generalizing p P W with
  | nil => rfl
  | cons nm vars sep kids rest ihk ihr =>
    obtain ⟨-, r2, r3, r4⟩ := hr
    obtain ⟨f1, f2, f3⟩ := hf
    rw [Forest.told, Forest.seps, ihk r3 f2, ihr r4 f3]
    congr 1
    ext x
    simp only [mem_inter, mem_union]
    refine ⟨fun h => h.2, fun h => ⟨f1 x ?_, h⟩⟩
    simpa using (mem_inter.1 (r2 h)).1

theorem told_all {own : Name → Finset Name} {f : Forest} {p : Name} {P W : Finset Name} (hr : f.RIP P W)
    (hf : f.All (fun _ nm vars _ ks => ∀ v ∈ vars, v ∈ own nm ∨ v ∈ ks.seps) p) :
    f.All (fun _ _ vars sep ks => ks.told own = ks.seps ∧ ∀ x ∈ sep, x ∈ vars) p := by
  induction f generalizing p P W with
  | nil => trivial
  | cons nm vars sep kids rest ihk ihr =>
    obtain ⟨-, r2, r3, r4⟩ := hr
    obtain ⟨f1, f2, f3⟩ := hf
    refine ⟨⟨told_eq r3 f2, fun x hx => ?_⟩, ihk r3 f2, ihr r4 f3⟩
    simpa using (mem_inter.1 (r2 (List.mem_toFinset.2 hx))).1

theorem Loaded.fresh {lab : Name → List Val} {t : JTree} {root : Name} {rvars : List Name}
    {kids : Forest} (h : Loaded lab t root rvars kids) :
    (∃ rf, t.nodes.get? root = some ⟨rvars, rf⟩ ∧ rf.Over lab ∧ (∀ v ∈ rf.variableOrder, v ∈ rvars) ∧
      ∀ v ∈ rvars, v ∈ rf.variableOrder ∨ v ∈ kids.told t.own) ∧
    kids.All (Fresh lab t.own t.pot t) root ∧ ∀ k σ, 0 ≤ t.pot k σ := by
  have hown : kids.All (fun _ nm vars _ ks => ∀ v ∈ vars, v ∈ t.own nm ∨ v ∈ ks.seps) root := by
    refine (h.junction.fits.and h.full).imp fun p nm vars sep ks _ _ hh => ?_
    obtain ⟨⟨-, f2, -⟩, hfull⟩ := hh
    obtain ⟨f, hf⟩ := get?_of_vars f2
    rw [own_eq hf]
    simpa using hfull f (Dict.get?_mem hf)
  refine ⟨?_, ?_, ?_⟩
  · obtain ⟨f, hf⟩ := get?_of_vars h.junction.root_vars
    have hm := Dict.get?_mem hf
    obtain ⟨h1, h2, -⟩ := h.tables _ _ _ hm
    rw [told_eq h.junction.rip hown]
    exact ⟨f, hf, h1, h2, h.fullRoot f hm⟩
  · refine ((h.junction.fits.and hown).and (told_all h.junction.rip hown)).imp
      fun p nm vars sep ks _ _ hh => ?_
    obtain ⟨⟨⟨-, f2, f3, -, f5⟩, hfull⟩, htold, hsub⟩ := hh
    obtain ⟨f, hf⟩ := get?_of_vars f2
    have hm := Dict.get?_mem hf
    obtain ⟨h1, h2, -⟩ := h.tables _ _ _ hm
    obtain ⟨e, he, -⟩ := edge_of_sep f3
    obtain ⟨x, hx⟩ := List.exists_mem_of_ne_nil _ f5
    refine ⟨⟨f, hf, h1, (pot_eq hf).symm, by rw [own_eq hf]; simp, by rw [own_eq hf]; intro v; simpa using h2 v,
      fun v hv => ?_, Or.inl ⟨x, hx, ?_⟩⟩, e, he, ?_⟩
    · rw [htold]
      exact (hfull v hv).imp_right Or.inl
    · rw [htold]
      exact hfull x (hsub x hx)
    refine h.blank e ?_
    unfold edge at he
    split at he
    · rename_i e' he'
      cases he
      exact List.mem_of_find?_eq_some he'
    · cases he
  · intro k σ
    unfold pot
    split
    · rename_i n hn
      obtain ⟨h1, -, h3⟩ := h.tables k n.vars n.factor (Dict.get?_mem hn)
      exact h1.nonneg h3 σ
    · norm_num

theorem rip_all {t : JTree} {f : Forest} {p : Name} {pv : List Name} {W : Finset Name}
    (hp : (t.nodes.get? p).map JNode.vars = some pv) (hf : f.All t.Fits p)
    (hr : f.RIP pv.toFinset W) :
    f.All (fun p _ vars sep _ => (∀ x ∈ sep, x ∈ vars) ∧
      ∃ pv, (t.nodes.get? p).map JNode.vars = some pv ∧ ∀ x ∈ sep, x ∈ pv) p := by
  induction f generalizing p pv W with
  | nil => trivial
  | cons nm vars sep kids rest ihk ihr =>
    obtain ⟨-, r2, r3, r4⟩ := hr
    obtain ⟨f1, f2, f3⟩ := hf
    have hx : ∀ x ∈ sep, x ∈ vars ∧ x ∈ pv := fun x hx => by
      have := r2 (List.mem_toFinset.2 hx)
      simpa using this
    exact ⟨⟨fun x h => (hx x h).1, pv, hp, fun x h => (hx x h).2⟩, ihk f1.2.1 f2 r3, ihr hp f3 r4⟩

end JTree

/-- **C25** Message passing on a junction tree does not fail; afterwards every clique table is the
marginal of the product of all clique tables, and the table of every edge is the marginal of both
cliques it joins. -/
theorem C25_calibrated {lab : Name → List Val} {t : JTree} {root : Name} {rvars : List Name}
    {kids : Forest} (h : JTree.Loaded lab t root rvars kids) {limit : Nat} (hl : kids.depth < limit)
    (so : SetOrder) :
    ∃ t', t.calculate so limit = (t', none) ∧ t'.valid = true ∧
      (t'.nodes.map fun p => (p.1, p.2.vars)) = (t.nodes.map fun p => (p.1, p.2.vars)) ∧
      (t'.edges.map fun e => (e.u, e.w, e.sep)) = (t.edges.map fun e => (e.u, e.w, e.sep)) ∧
      (∀ k vars f, (k, JNode.mk vars f) ∈ t'.nodes → f.Over lab ∧
        (∀ v, v ∈ f.variableOrder ↔ v ∈ vars) ∧
        ∀ σ, Legal (cardOf lab) vars σ → f.eval σ =
          sumOver (cardOf lab) ((rvars.toFinset ∪ kids.scope) \ vars.toFinset)
            (t.total (root :: kids.names)) σ) ∧
      kids.All (fun p nm vars sep _ => ∃ e, t'.edge nm p = .ok e ∧ e.factor.Over lab ∧
        (∀ v, v ∈ e.factor.variableOrder ↔ v ∈ sep) ∧
        ∀ k vars f, k = nm ∨ k = p → (k, JNode.mk vars f) ∈ t'.nodes → ∀ σ, Legal (cardOf lab) sep σ →
          e.factor.eval σ = sumOver (cardOf lab) (vars.toFinset \ sep.toFinset) f.eval σ) root := by
  obtain ⟨⟨rf, a1, a2, a3, a4⟩, hfr, hnn⟩ := h.fresh
  obtain ⟨t', b1, b2, b3, -, ⟨f, b5, b6, b7, b8⟩, b9⟩ :=
    JTree.calculate_spec so h.junction hl a1 a2 a3 a4 hfr hnn
  set U := rvars.toFinset ∪ kids.scope with hU
  have hΦ : (fun σ => t.pot root σ * kids.prod t.pot σ) = t.total (root :: kids.names) := by
    funext σ
    rw [Forest.prod_names, JTree.total, JTree.total_prod]
  rw [hΦ] at b8 b9
  have hnd : t'.nodes.keys.Nodup := by rw [JTree.keys_of_shape b2]; exact h.keys
  have hcl : ∀ k vars f, (k, JNode.mk vars f) ∈ t'.nodes → f.Over lab ∧
      (∀ v, v ∈ f.variableOrder ↔ v ∈ vars) ∧ vars.toFinset ⊆ U ∧
      ∀ σ, Legal (cardOf lab) vars σ → f.eval σ = sumOver (cardOf lab) (U \ vars.toFinset)
        (t.total (root :: kids.names)) σ := by
    intro k vars f' hm
    have hg := Dict.get?_of_mem hnd hm
    have hk : k ∈ t.nodes.keys := by
      rw [← JTree.keys_of_shape b2]; exact List.mem_map_of_mem (f := Prod.fst) hm
    rcases List.mem_cons.1 (h.whole.subset hk) with rfl | hk
    · rw [b5] at hg
      cases hg
      exact ⟨b6, b7, subset_union_left, b8⟩
    · obtain ⟨p, vars', sep, ks, ⟨⟨g, g1, g2, g3, g4⟩, -⟩, hsub⟩ := b9.mem hk
      rw [g1] at hg
      cases hg
      exact ⟨g2, g3, hsub.trans subset_union_right, g4⟩
  refine ⟨t', b1, b3, congrArg (fun x => x.1) b2, congrArg (fun x => x.2.2) b2,
    fun k vars f' hm => ⟨(hcl k vars f' hm).1, (hcl k vars f' hm).2.1, (hcl k vars f' hm).2.2.2⟩, ?_⟩
  have hfits := h.junction.fits.imp fun p nm vars sep ks _ _ hh => JTree.Fits.of_shape b2 hh
  have hrip := JTree.rip_all (t := t') (by rw [JTree.vars_of_shape b2]; exact h.junction.root_vars)
    hfits h.junction.rip
  refine ((b9.and hrip).and hfits).imp fun p nm vars sep ks _ _ hh => ?_
  obtain ⟨⟨⟨-, e, e1, e2, e3, e4, e5⟩, s1, pv, s2, s3⟩, hfit⟩ := hh
  refine ⟨e, e1, e3, e4, fun k vars' f' hk hm σ hσ => ?_⟩
  obtain ⟨-, -, c3, c4⟩ := hcl k vars' f' hm
  have hsub : sep.toFinset ⊆ vars'.toFinset := by
    have hg := Dict.get?_of_mem hnd hm
    rcases hk with rfl | rfl
    · have := hfit.2.1
      rw [hg] at this
      cases this
      exact fun x hx => by simpa using s1 x (by simpa using hx)
    · rw [hg] at s2
      cases s2
      exact fun x hx => by simpa using s3 x (by simpa using hx)
  rw [e5 σ hσ]
  dsimp only
  have e : U \ sep.toFinset = (vars'.toFinset \ sep.toFinset) ∪ (U \ vars'.toFinset) := by
    ext x
    simp only [mem_sdiff, mem_union]
    have a := @c3 x
    have b := @hsub x
    tauto
  rw [e, sumOver_union (disjoint_left.2 fun x h1 h2 => (mem_sdiff.1 h2).2 (mem_sdiff.1 h1).1)]
  refine sumOver_congr fun τ hτ => (c4 τ ?_).symm
  refine hτ.legal fun v hv hn => hσ v ?_
  by_contra hh
  exact hn (by simp [hv, hh])

/-- The hypotheses of C25 hold of the tree of every connected network with a perfect order: when it
has been created, and when evidence has been entered. -/
theorem C25_created {bn : BN} {order0 : Option (List Name)} (h : PerfectSetup bn order0)
    (hn : bn.NonNeg) (hco : bn.Connected) (so : SetOrder) :
    ∃ t root rvars kids, create so bn order0 = .ok t ∧ kids.depth < bn.length ∧
      JTree.Loaded bn.lab t root rvars kids ∧
      ∀ ops ev, LegalEvidence bn ev → NonNegEvidence ev → ∃ t₁ t₂,
        (TreeOp.runs ops t).reset so bn = (t₁, none) ∧
        JRes.forEach (JTree.putEvidence so bn []) ev t₁ = (t₂, none) ∧
        JTree.Loaded bn.lab t₂ root rvars kids := by
  obtain ⟨order, o1, o2, o3⟩ := h.order
  obtain ⟨t, root, rvars, kids, others, a1, -, a3, a4, a5, a6, a7, a8⟩ :=
    JTree.create_apart so h.consistent h.linked h.recorded h.names h.nonempty order0 o1 o2 o3
  rw [a6 hco] at a3
  refine ⟨t, root, rvars, kids, a1, a7,
    JTree.loaded_of_sits h.consistent hn a3 a8 (extra := []) (by simpa using a4) (by simp) a5,
    fun ops ev he hen => ?_⟩
  obtain ⟨ns, b1, b2, b3⟩ := JTree.loadEvidence so h.consistent he a3.nodup a4
  refine ⟨t, { t with nodes := ns }, JTree.reset_create so a1 (TreeOp.runs_shape ops t), b1, ?_⟩
  have hsh : ({ t with nodes := ns } : JTree).shape = t.shape := by
    have := b2
    unfold JTree.skel at this
    unfold JTree.shape
    dsimp only
    rw [this]
  have hs2 := a3.of_shape hsh
  exact JTree.loaded_of_sits h.consistent hn hs2 a8 b3 (fun it hit => by
      obtain ⟨e, hm, rfl⟩ := List.mem_map.1 hit
      exact JTree.evItem_ok hs2 he hen hm) a5

/-- so the hypotheses of C25 and C27 are met, with and without evidence -/
example := C25_created Ex.bn_perfect Ex.bn_nonneg Ex.bn_connected .insertion
example (t : JTree) (root : Name) (rvars : List Name) (kids : Forest)
    (h : JTree.Loaded Ex.bn.lab t root rvars kids) (hd : kids.depth < Ex.bn.length) :=
  C25_calibrated h (limit := 1000) (lt_of_lt_of_le hd (by decide)) .insertion

/-! ## C26 -/

/-- **C26** A successful `set_evidence` gives the same tree after any history of calls (successful
or failed) as on the tree the history started from; whether it raises does not depend on the history
either. -/
theorem C26_no_accumulation (t : JTree) (ops : List TreeOp) (so : SetOrder) (limit : Nat) (bn : BN)
    (ev : Dict Evidence) (soft : Bool) :
    ((TreeOp.runs ops t).setEvidence so limit bn ev soft).2 = (t.setEvidence so limit bn ev soft).2 ∧
      (((TreeOp.runs ops t).setEvidence so limit bn ev soft).2 = none →
        (TreeOp.runs ops t).setEvidence so limit bn ev soft = t.setEvidence so limit bn ev soft) := by
  obtain ⟨h1, h2⟩ := JTree.setEvidence_eq so limit bn ev soft (TreeOp.runs_shape ops t)
  refine ⟨h1, fun h => h2 ?_⟩
  rw [h1] at h
  unfold JTree.setEvidence at h
  cases hr : (t.reset so bn).2 with
  | none => rfl
  | some e => rw [JTree.andThen_some hr, hr] at h; cases h

/-- **C26** On a tree with the running intersection property: after any history, `set_evidence(e)` succeeds and all
later answers are the posteriors given `e` alone. -/
theorem C26_evidence_alone {bn : BN} {order0 : Option (List Name)} (h : TreeSetup bn order0)
    (hn : bn.NonNeg) (hco : bn.Connected) {ev : Dict Evidence} (he : LegalEvidence bn ev)
    (hen : NonNegEvidence ev) {limit : Nat} (hl : bn.length ≤ limit) (so₁ so₂ : SetOrder)
    (ops : List TreeOp) :
    ∃ t t', create so₁ bn order0 = .ok t ∧
      (TreeOp.runs ops t).setEvidence so₂ limit bn ev false = (t', none) ∧
      ∀ vs, t'.Covers vs → ∀ so₃ limit', ∃ r, t'.marginals so₃ limit' vs = (t', .ok r) ∧
        (∀ v, v ∈ r.variableOrder ↔ v ∈ vs) ∧
        ∀ σ, Legal bn.card vs σ → r.eval σ = posterior bn ev vs σ := by
  obtain ⟨t, t', h1, h2, -, h4⟩ := C21_tree_exact_partial h hn hco he hen hl so₁ so₂
  refine ⟨t, t', h1, ?_, fun vs hvs so₃ limit' => ?_⟩
  · obtain ⟨g1, g2⟩ := C26_no_accumulation t ops so₂ limit bn ev false
    rw [h2] at g1 g2
    exact g2 g1
  · obtain ⟨r, r1, -, -, r4, r5, -⟩ := h4 vs hvs so₃ limit'
    exact ⟨r, r1, r4, r5⟩

/-- a history with two successful and three failing calls -/
def Ex.history : List TreeOp := [.setEvidence .insertion 1000 Ex.bn [("a", .hard "f")] false,
  .marginals .insertion 1000 ["d", "a"], .setEvidence .reversed 1000 Ex.bn [("a", .hard "t"), ("b", .hard "?")] false,
  .calculate .insertion 1, .marginals .reversed 1000 ["d"]]

example := C26_evidence_alone Ex.bn_perfect.tree Ex.bn_nonneg Ex.bn_connected Ex.ev_legal Ex.ev_nonneg
  (limit := 1000) (by decide) .insertion .reversed Ex.history
example (t : JTree) := C26_no_accumulation t Ex.history .insertion 1000 Ex.bn Ex.ev false

/-! ## C27 -/

theorem JTree.covers_iff {t : JTree} {vs : List Name} :
    t.Covers vs ↔ ∃ p ∈ t.nodes, sub vs p.2.vars = true := by
  constructor
  · rintro ⟨k, vars, ⟨f, hf⟩, h⟩
    exact ⟨_, hf, JTree.sub_iff.2 h⟩
  · rintro ⟨p, hp, h⟩
    exact ⟨p.1, p.2.vars, ⟨p.2.factor, hp⟩, JTree.sub_iff.1 h⟩

/-- **C27** On a calibrated junction tree a query raises `ValueError` iff no clique contains all the
variables; otherwise it returns the normalised marginal over exactly these variables.  The tree is
not changed. -/
theorem C27_query {lab : Name → List Val} {t : JTree} {root : Name} {rvars : List Name}
    {kids : Forest} (h : JTree.Loaded lab t root rvars kids) {limit : Nat} (hl : kids.depth < limit)
    (so : SetOrder) :
    ∃ t', t.calculate so limit = (t', none) ∧
      (t.valid = false → ∀ vs, t.marginals so limit vs = t'.marginals so limit vs) ∧
      ∀ so' limit' vs,
        (¬ t'.Covers vs → t'.marginals so' limit' vs = (t', .error .valueError)) ∧
        (t'.Covers vs → ∃ r, t'.marginals so' limit' vs = (t', .ok r) ∧ r.Over lab ∧
          (∀ v, v ∈ r.variableOrder ↔ v ∈ vs) ∧
          ∀ σ, Legal (cardOf lab) vs σ → r.eval σ =
            let M := sumOver (cardOf lab) ((rvars.toFinset ∪ kids.scope) \ vs.toFinset)
              (t.total (root :: kids.names)) σ
            let Z := sumOver (cardOf lab) (rvars.toFinset ∪ kids.scope)
              (t.total (root :: kids.names)) σ
            if 0 < Z then M / Z else M) := by
  obtain ⟨t', h1, h2, h3, -, h5, -⟩ := C25_calibrated h hl so
  set U := rvars.toFinset ∪ kids.scope with hU
  have hmarg : ∀ so' limit' vs, t'.marginals so' limit' vs = (t', t'.query so' vs) := by
    intro so' limit' vs
    unfold JTree.marginals
    rw [if_pos h2]
  refine ⟨t', h1, fun hv vs => ?_, fun so' limit' vs => ⟨fun hno => ?_, fun hcov => ?_⟩⟩
  · rw [hmarg]
    unfold JTree.marginals
    rw [if_neg (by simp [hv]), h1]
  · rw [hmarg]
    unfold JTree.query
    have : t'.nodes.find? (fun p => sub vs p.2.vars) = none := by
      rw [List.find?_eq_none]
      intro p hp hsub
      exact hno (JTree.covers_iff.2 ⟨p, hp, hsub⟩)
    rw [this]
  · rw [hmarg]
    obtain ⟨p0, hp0, hs0⟩ := JTree.covers_iff.1 hcov
    cases hf : t'.nodes.find? (fun p => sub vs p.2.vars) with
    | none => exact absurd hs0 (List.find?_eq_none.1 hf p0 hp0)
    | some p =>
      obtain ⟨k, vars, f⟩ := p
      have hm := List.mem_of_find?_eq_some hf
      have hvs : ∀ x ∈ vs, x ∈ vars := by
        have := List.find?_some hf
        exact JTree.sub_iff.1 this
      obtain ⟨g2, g3, g5⟩ := h5 k vars f hm
      have g4 : vars.toFinset ⊆ U := by
        have hk : (k, vars) ∈ t.nodes.map fun p => (p.1, p.2.vars) :=
          h3 ▸ List.mem_map_of_mem (f := fun p : Name × JNode => (p.1, p.2.vars)) hm
        obtain ⟨q, hq, hqe⟩ := List.mem_map.1 hk
        simp only [Prod.mk.injEq] at hqe
        have hg := Dict.get?_of_mem h.keys hq
        have hkk : q.1 ∈ t.nodes.keys := List.mem_map_of_mem (f := Prod.fst) hq
        rcases List.mem_cons.1 (h.whole.subset hkk) with e | e
        · have := h.junction.root_vars
          rw [← e, hg] at this
          injection this with this
          rw [← hqe.2, this]
          exact subset_union_left
        · obtain ⟨_, vars', _, _, hfit, hsub⟩ := h.junction.fits.mem e
          have := hfit.2.1
          rw [hg] at this
          injection this with this
          rw [← hqe.2, this]
          exact hsub.trans subset_union_right
      obtain ⟨s, s1, s2, s3, s4⟩ := marginalize_over g2 (so'.nodup vars vs)
        (fun v hv => (g3 v).2 ((so'.mem _ _ _).1 hv).1)
      have hso : ∀ v, v ∈ s.variableOrder ↔ v ∈ vs := by
        intro v
        rw [s3]
        simp only [List.mem_filter, g3, so'.mem, decide_eq_true_eq]
        constructor
        · rintro ⟨a, b⟩; by_contra hv; exact b ⟨a, hv⟩
        · intro hv; exact ⟨hvs v hv, fun hh => hh.2 hv⟩
      have hse : ∀ σ, Legal (cardOf lab) vs σ → s.eval σ =
          sumOver (cardOf lab) (U \ vs.toFinset) (t.total (root :: kids.names)) σ := by
        intro σ hσ
        rw [s4 σ fun v hv => hσ v ((hso v).1 hv)]
        have e1 : (so'.diff vars vs).toFinset = vars.toFinset \ vs.toFinset := by
          ext x; simp [so'.mem]
        have hvs' : vs.toFinset ⊆ vars.toFinset := fun x hx => by simpa using hvs x (by simpa using hx)
        rw [e1]
        have e2 : U \ vs.toFinset = (vars.toFinset \ vs.toFinset) ∪ (U \ vars.toFinset) := by
          ext x
          simp only [mem_sdiff, mem_union]
          have a := @g4 x
          have b := @hvs' x
          tauto
        rw [e2, sumOver_union (disjoint_left.2 fun x h1 h2 => (mem_sdiff.1 h2).2 (mem_sdiff.1 h1).1)]
        refine sumOver_congr fun τ hτ => g5 τ ?_
        exact hτ.legal fun v hv hn => hσ v (by
          by_contra hh; exact hn (by simp [hv, hh]))
      refine ⟨s.normalize, ?_, s2.normalize, by simpa using hso, fun σ hσ => ?_⟩
      · unfold JTree.query
        rw [hf]
        dsimp only
        rw [s1, ok_bind]
        rfl
      · have hUl : U.toList.toFinset = U := Finset.toList_toFinset U
        have := JTree.normalize_scaled (lab := lab) (names := U.toList)
          (W := t.total (root :: kids.names)) s2 hso
          (fun v hv => by
            rw [Finset.mem_toList]; exact g4 (List.mem_toFinset.2 (hvs v hv))) (B := 1) one_pos
          (fun τ hτ => by rw [mul_one, hUl]; exact hse τ hτ) hσ
        rw [hUl] at this
        rw [this, hse σ hσ]

example (t : JTree) (root : Name) (rvars : List Name) (kids : Forest)
    (h : JTree.Loaded Ex.bn.lab t root rvars kids) (hd : kids.depth < Ex.bn.length) :=
  C27_query h (limit := 1000) (lt_of_lt_of_le hd (by decide)) .insertion
example : (Ex.answer .insertion Ex.bn Ex.ev ["a", "d"]).map (fun r => r.variableOrder) = .error .valueError := by
  decide +kernel

/-! ## C28 -/

/-- **C28** A target distribution for one variable, supported in the variable's prior support, is
met: whatever happened to the tree before, `set_evidence({v: e}, softPosteriors=True)` succeeds and
`marginals([v])` is `e`. -/
theorem C28_soft_posterior {bn : BN} {order0 : Option (List Name)} (h : TreeSetup bn order0)
    (hn : bn.NonNeg) (hco : bn.Connected) {v : Name} (hv : v ∈ bn.names) {e : List ℚ}
    (hlen : e.length = bn.card v) (hnne : ∀ x ∈ e, 0 ≤ x) (hsum : e.sum = 1)
    (hsupp : ∀ σ, σ v < bn.card v → posterior bn [] [v] σ = 0 → e.getD (σ v) 0 = 0)
    {limit : Nat} (hl : bn.length ≤ limit) (so₁ so₂ : SetOrder) (ops : List TreeOp) :
    ∃ t t', create so₁ bn order0 = .ok t ∧
      (TreeOp.runs ops t).setEvidence so₂ limit bn [(v, .soft e)] true = (t', none) ∧
      ∀ so₃ limit', ∃ r, t'.marginals so₃ limit' [v] = (t', .ok r) ∧ r.WF bn.card ∧
        r.variableOrder = [v] ∧ r.values.get? v = some (bn.lab v) ∧
        ∀ σ, σ v < bn.card v → r.eval σ = e.getD (σ v) 0 := by
  obtain ⟨t, root, rvars, kids, others, a1, a3, a6, a7, -⟩ := h.made so₁
  have hs := a3.of_shape (TreeOp.runs_shape ops t)
  have hroot : ∃ q ∈ JTree.skel (TreeOp.runs ops t).nodes, q.1 ∉ others ∧ ∀ x ∈ [v], x ∈ q.2 := by
    obtain ⟨n, hn', rfl⟩ := BN.exists_of_mem_names hv
    obtain ⟨q, hq, hqf⟩ := hs.fam n hn'
    exact ⟨q, hq, by rw [a6 hco]; simp, by simpa using hqf _ (by simp [NodeV.family])⟩
  have key := fun so₃ limit' => JTree.soft_spec so₂ h.consistent hn hs hv hroot hlen hnne hsum hsupp
    (Or.inl (a6 hco)) (lt_of_lt_of_le a7 hl) so₃ limit'
  obtain ⟨t', b1, -, -⟩ := key so₂ limit
  refine ⟨t, t', a1, b1, fun so₃ limit' => ?_⟩
  obtain ⟨t'', c1, -, r, r1, r2, r3, r4⟩ := key so₃ limit'
  rw [b1] at c1
  cases c1
  exact ⟨r, r1, r2.wf, r3, r2.val v (by rw [r3]; simp), r4⟩

theorem Ex.prior_a_pos (σ : Assign) (h : σ "a" < Ex.bn.card "a") : posterior Ex.bn [] ["a"] σ ≠ 0 := by
  obtain ⟨r, h1, -, -, h4, h5⟩ := C13_naive_exact .insertion Ex.bn Ex.bn_consistent []
    ⟨by decide, by simp, by simp, by simp⟩ ["a"] (by decide)
  have hd : (VE.naiveMarginals .insertion Ex.bn ["a"] []).map
      (fun r => (r.variableOrder, r.potentials.get [0], r.potentials.get [1])) =
      .ok (["a"], 1 / 4, 3 / 4) := by
    decide +kernel
  rw [h1] at hd
  simp only [Except.map, Except.ok.injEq, Prod.mk.injEq] at hd
  rw [← h5 σ (by simpa [Legal] using h)]
  unfold Factor.eval
  rw [hd.1]
  have h2 : σ "a" < 2 := h
  rcases (by omega : σ "a" = 0 ∨ σ "a" = 1) with e | e
  · simp only [List.map_cons, List.map_nil, e, hd.2.1]; norm_num
  · simp only [List.map_cons, List.map_nil, e, hd.2.2]; norm_num

example := C28_soft_posterior Ex.bn_perfect.tree Ex.bn_nonneg Ex.bn_connected (v := "a") (by decide)
  (e := [0, 1]) (by decide) (by decide +kernel) (by decide +kernel)
  (fun σ hσ h => absurd h (Ex.prior_a_pos σ hσ)) (limit := 1000) (by decide) .insertion .reversed Ex.history

/-! ## C29 -/

/-- **C29, partial.**  In a disconnected network the answers for the component that contains the
first node of the tree are exact (if the evidence is possible).  Missing: the other components, for
which no messages are computed (refuted below). -/
theorem C29_root_component_partial {bn : BN} {order0 : Option (List Name)}
    (h : TreeSetup bn order0) (hn : bn.NonNeg) {ev : Dict Evidence} (he : LegalEvidence bn ev)
    (hen : NonNegEvidence ev) (hpos : ∀ σ, 0 < totalWeight bn ev σ) {limit : Nat}
    (hl : bn.length ≤ limit) (so₁ so₂ : SetOrder) :
    ∃ t t' root, create so₁ bn order0 = .ok t ∧ t.setEvidence so₂ limit bn ev false = (t', none) ∧
      t'.nodes.keys.head? = some root ∧
      ∀ k vars vs, t'.Clique k vars → Relation.ReflTransGen t'.Joined root k → (∀ x ∈ vs, x ∈ vars) →
        ∀ so₃ limit', ∃ r, t'.marginals so₃ limit' vs = (t', .ok r) ∧ r.WF bn.card ∧
          (∀ v ∈ r.variableOrder, r.values.get? v = some (bn.lab v)) ∧
          (∀ v, v ∈ r.variableOrder ↔ v ∈ vs) ∧
          ∀ σ, Legal bn.card vs σ → r.eval σ = posterior bn ev vs σ := by
  obtain ⟨t, root, rvars, kids, others, a1, a3, a6, a7, c1, c4⟩ := h.made so₁
  obtain ⟨t', Φ, Ψ, b1, b2, b3⟩ := JTree.setEvidence_spec so₂ h.consistent hn a3 he hen
    (lt_of_lt_of_le a7 hl)
  refine ⟨t, t', root, a1, b1, b3.sits.junction.first, fun k vars vs hk hreach hvs so₃ limit' => ?_⟩
  have hko : k ∉ others := a3.reach c1 c4 (rtg_mono hreach fun a b hj => (JTree.joined_of_shape b2 a b).1 hj)
  obtain ⟨r, r1, r2, r3, r4⟩ := b3.posterior so₃ ⟨(k, vars), JTree.clique_iff_skel.1 hk, hko, hvs⟩
    (Or.inr hpos) limit'
  exact ⟨r, r1, r2.wf, r2.val, r3, r4⟩

/-- **C29, partial.**  A component that consists of one clique also answers exactly. -/
theorem C29_single_clique_partial {bn : BN} {order0 : Option (List Name)}
    (h : TreeSetup bn order0) (hn : bn.NonNeg) {ev : Dict Evidence} (he : LegalEvidence bn ev)
    (hen : NonNegEvidence ev) (hpos : ∀ σ, 0 < totalWeight bn ev σ) {limit : Nat}
    (hl : bn.length ≤ limit) (so₁ so₂ : SetOrder) :
    ∃ t t', create so₁ bn order0 = .ok t ∧ t.setEvidence so₂ limit bn ev false = (t', none) ∧
      ∀ k vars vs, t'.Clique k vars →
        (∀ k' vars', t'.Clique k' vars' → k' ≠ k → ∀ x ∈ vars', x ∉ vars) → (∀ x ∈ vs, x ∈ vars) →
        vs ≠ [] → ∀ so₃ limit', ∃ r, t'.marginals so₃ limit' vs = (t', .ok r) ∧ r.WF bn.card ∧
          (∀ v ∈ r.variableOrder, r.values.get? v = some (bn.lab v)) ∧
          (∀ v, v ∈ r.variableOrder ↔ v ∈ vs) ∧
          ∀ σ, Legal bn.card vs σ → r.eval σ = posterior bn ev vs σ := by
  obtain ⟨t, root, rvars, kids, others, a1, a3, a6, a7, -⟩ := h.made so₁
  have hlim := lt_of_lt_of_le a7 hl
  obtain ⟨t', Φ, Ψ, b1, b2, b3⟩ := JTree.setEvidence_spec so₂ h.consistent hn a3 he hen hlim
  refine ⟨t, t', a1, b1, fun k vars vs hk hiso hvs hne so₃ limit' => ?_⟩
  have hsk : JTree.skel t'.nodes = JTree.skel t.nodes := JTree.skel_of_shape b2
  by_cases hko : k ∈ others
  · obtain ⟨t'', c1, c2⟩ := JTree.isolated_spec so₂ h.consistent hn a3 he hen hpos hlim
      (hsk ▸ JTree.clique_iff_skel.1 hk) hko fun q hq hqk x hx =>
        hiso q.1 q.2 (JTree.clique_iff_skel.2 (hsk ▸ hq)) hqk x hx
    rw [b1] at c1
    cases c1
    obtain ⟨r, r1, r2, r3, r4⟩ := c2 vs hne hvs so₃ limit'
    exact ⟨r, r1, r2.wf, r2.val, r3, r4⟩
  · obtain ⟨r, r1, r2, r3, r4⟩ := b3.posterior so₃ ⟨(k, vars), JTree.clique_iff_skel.1 hk, hko, hvs⟩
      (Or.inr hpos) limit'
    exact ⟨r, r1, r2.wf, r2.val, r3, r4⟩

theorem Ex.parts_perfect : PerfectSetup Ex.parts none :=
  PerfectSetup.polytree Ex.parts_consistent Ex.parts_linked Ex.parts_recorded Ex.parts_join (by decide)
    Ex.parts_polytree

theorem Ex.parts_nonneg : Ex.parts.NonNeg := by
  unfold BN.NonNeg; decide +kernel

theorem Ex.parts_total (σ : Assign) : 0 < totalWeight Ex.parts [] σ := by
  rw [totalWeight_nil Ex.parts_consistent (Ex.acyclic_of_rank (Ex.parts.names.idxOf ·) (by decide))]
  · norm_num
  · intro n hn σ hσ
    have h2 : ∀ i < 2, ∑ j ∈ Finset.range 2, Ex.copyTable.get [j, i] = 1 := by decide +kernel
    simp only [Ex.parts, List.mem_cons, List.not_mem_nil, or_false] at hn
    have h1 : ∀ x y : ℚ, x + y = 1 → ∑ j ∈ Finset.range 2, (NDArray.mk [2] [x, y] rfl).get [j] = 1 :=
      fun x y h => by simpa [Finset.sum_range_succ, NDArray.get, NDArray.ravel] using h
    rcases hn with rfl | rfl | rfl | rfl | rfl | rfl
    · exact h1 _ _ (by norm_num)
    · exact h2 _ (hσ "a" (by simp))
    · exact h2 _ (hσ "b" (by simp))
    · exact h1 _ _ (by norm_num)
    · exact h2 _ (hσ "d" (by simp))
    · exact h1 _ _ (by norm_num)

example := C29_root_component_partial Ex.parts_perfect.tree Ex.parts_nonneg (ev := [])
  ⟨by decide, by simp, by simp, by simp⟩ (by simp [NonNegEvidence]) Ex.parts_total (limit := 1000)
  (by decide) .insertion .reversed
example := C29_single_clique_partial Ex.parts_perfect.tree Ex.parts_nonneg (ev := [])
  ⟨by decide, by simp, by simp, by simp⟩ (by simp [NonNegEvidence]) Ex.parts_total (limit := 1000)
  (by decide) .insertion .reversed

/-- **C29 is false in general**: `a → b → c` is not the component of the first clique of the tree, so
the query for `c` is answered from the table `P(c | b)` alone. -/
theorem C29_disconnected_refuted :
    PerfectSetup Ex.parts none ∧ Ex.parts.NonNeg ∧
    ∃ t t' r rn, create .insertion Ex.parts none = .ok t ∧
      t.setEvidence .insertion 1000 Ex.parts [] false = (t', none) ∧
      (t'.marginals .insertion 1000 ["c"]).2 = .ok r ∧
      VE.naiveMarginals .insertion Ex.parts ["c"] [] = .ok rn ∧
      r.variableOrder = ["c"] ∧ rn.variableOrder = ["c"] ∧
      r.potentials.data = [1 / 2, 1 / 2] ∧ rn.potentials.data = [17 / 50, 33 / 50] := by
  obtain ⟨t, t', r, h1, h2, h3, h4, h5⟩ := Ex.answer_ok (so := .insertion) (bn := Ex.parts)
    (ev := []) (vs := ["c"]) (d := [1 / 2, 1 / 2]) (by decide +kernel)
  have hn : (VE.naiveMarginals .insertion Ex.parts ["c"] []).map
      (fun r => (r.variableOrder, r.potentials.data)) = .ok (["c"], [17 / 50, 33 / 50]) := by decide +kernel
  cases hr : VE.naiveMarginals .insertion Ex.parts ["c"] [] with
  | error e => rw [hr] at hn; cases hn
  | ok rn =>
    rw [hr] at hn
    simp only [Except.map, Except.ok.injEq, Prod.mk.injEq] at hn
    exact ⟨Ex.parts_perfect, Ex.parts_nonneg, t, t', r, rn, h1, h2, h3, rfl, h4, hn.1, h5, hn.2⟩

end Primo
