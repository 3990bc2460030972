import Verif.Lemmas.Exchange
import Verif.Props.Sharp
import Verif.Props.Rounded

/-! # C84: which messages `calculate_messages` sends, and when -/

namespace Primo
open JoinTree

/-- the messages one after the other, until one fails; `calculate_messages` ignores an `IndexError`
(`exact.py:388-394`) -/
def JTree.exchange (A : Arith) (so : SetOrder) (msgs : List (Name × Name)) (t : JTree) : JRes :=
  match JRes.forEach (fun m => JTree.sendR A so m.1 m.2) msgs t with
  | (t, none) => ({ t with valid := true }, none)
  | (t, some .indexError) => (t, none)
  | r => r

/-- the created tree, for any elimination order -/
theorem OrderSetup.rooted {bn : BN} {order0 : Option (List Name)} (h : OrderSetup bn order0) (so : SetOrder) :
    ∃ t root kids others, create so bn order0 = .ok t ∧ t.Rooted root kids ∧
      t.nodes.keys.Perm (root :: kids.names ++ others) ∧ kids.depth < bn.length ∧
      ∀ a b, t.Joined a b → b ∈ t.adj.nbrs a := by
  obtain ⟨order, o1, o2⟩ := h.order
  obtain ⟨L, e1, e2⟩ := bn_clusters h.consistent h.linked h.recorded o2
  have hLd := (e2.headOK (o2.symm.nodup h.consistent.nodup)).nodup
  obtain ⟨L', h1, h2, h3, h4⟩ := swaps_any hLd
  obtain ⟨t, t1, -⟩ := JTree.create_any so h.consistent h.linked h.recorded h.names order0 o1 o2
  have hsh := JTree.create_shape so o1 e1 h1 t1
  have hLn : ∀ c ∈ L', ∀ x ∈ c, x ∈ bn.names := fun c hc x hx => o2.subset ((e2.mem c (h3 c hc)).2.1 x hx)
  have hL' : L' ≠ [] := by
    intro e
    obtain ⟨n, hn⟩ := List.exists_mem_of_ne_nil _ h.nonempty
    obtain ⟨c, hc, -⟩ := e2.own _ (o2.symm.subset (List.mem_map_of_mem hn))
    obtain ⟨d, hd, -⟩ := h4 c hc
    rw [e] at hd; simp at hd
  obtain ⟨root, kids, others, b⟩ := JTree.build_grafted L' hL' (h.names.inj hLn h2)
    fun c hc => h.names.ne (hLn c hc) (e2.mem c (h3 c hc)).1
  refine ⟨t, root, kids, others, t1, b.rooted.of_shape hsh, by rw [JTree.keys_of_shape hsh]; exact b.keys, ?_,
    fun x y hj => ?_⟩
  · have d1 := Forest.depth_le kids
    have d2 := b.keys.length_eq
    have d3 : L'.length ≤ L.length := (List.subperm_of_subset h2 h3).length_le
    have d4 := e2.length
    have d5 := o2.length_eq
    rw [b.nodes] at d2
    simp only [List.length_reverse, List.length_map, List.length_append, List.length_cons, BN.names] at d2 d5
    omega
  · rw [JTree.adj_of_shape hsh]
    exact JTree.build_joined_nbrs L' x y ((JTree.joined_of_shape hsh x y).1 hj)

/-- **C84** On the tree of any network, for any elimination order and whatever happened to the tree before,
`calculate_messages` is a complete and orderly exchange of messages: over each edge that is reached from the first clique
exactly one message in each direction, each after its sender has received those of all its other neighbours.  The
list does not depend on the tables, the iteration order of sets, the history, or the arithmetic. -/
theorem C84_exchange {bn : BN} {order0 : Option (List Name)} (h : OrderSetup bn order0) (so₁ : SetOrder) :
    ∃ t msgs, create so₁ bn order0 = .ok t ∧ t.Exchange msgs ∧
      ∀ (ops : List TreeOp) (so₂ : SetOrder) (limit : Nat), bn.length ≤ limit →
        (TreeOp.runs ops t).Exchange msgs ∧
        (TreeOp.runs ops t).calculate so₂ limit = (TreeOp.runs ops t).exchange .exact so₂ msgs ∧
        ∀ (A : Arith) (t' : JTree), t'.shape = t.shape →
          t'.calculateR A so₂ limit = t'.exchange A so₂ msgs := by
  obtain ⟨t, root, kids, others, a1, a2, -, a4, hn⟩ := h.rooted so₁
  have key : ∀ (A : Arith) (so₂ : SetOrder) (limit : Nat), bn.length ≤ limit → ∀ t' : JTree, t'.shape = t.shape →
      t'.calculateR A so₂ limit = t'.exchange A so₂ (kids.collect root ++ kids.distribute root) := by
    intro A so₂ limit hl t' ht'
    have hj := a2.of_shape ht'
    rw [JTree.calculateR_sends A so₂ hj.first hj.name hj.nbrs hj.hangs (lt_of_lt_of_le a4 hl)]
    unfold JTree.exchange JTree.sendsR
    cases hr : JRes.forEach (fun m => JTree.sendR A so₂ m.1 m.2) (kids.collect root ++ kids.distribute root) t' with
    | mk s o =>
      cases o with
      | none => rfl
      | some e => cases e <;> rfl
  refine ⟨t, _, a1, (a2.exchange hn).1, fun ops so₂ limit hl => ⟨?_, ?_, fun A t' ht' => key A so₂ limit hl t' ht'⟩⟩
  · have hs := TreeOp.runs_shape ops t
    refine ((a2.of_shape hs).exchange fun a b hj => ?_).1
    rw [JTree.adj_of_shape hs]
    exact hn a b ((JTree.joined_of_shape hs a b).1 hj)
  · rw [← JTree.calculateR_exact]
    exact key .exact so₂ limit hl _ (TreeOp.runs_shape ops t)

theorem JTree.Exchange.count {t : JTree} {root : Name} {kids : Forest} (hr : t.Rooted root kids)
    (hn : ∀ a b, t.Joined a b → b ∈ t.adj.nbrs a) {msgs : List (Name × Name)} (hm : t.Exchange msgs) :
    msgs.length + 2 = 2 * (root :: kids.names).length := by
  have b1 := (hr.exchange hn).1
  have hperm : msgs.Perm (kids.collect root ++ kids.distribute root) := by
    rw [List.perm_ext_iff_of_nodup hm.once b1.once]
    rintro ⟨a, b⟩
    rw [hm.all, b1.all]
  have l1 := (Forest.collect_fst root kids).length_eq
  have l2 := congrArg List.length (Forest.distribute_snd root kids)
  have l4 := hperm.length_eq
  simp only [List.length_map, List.length_cons, List.length_append] at l1 l2 l4 ⊢
  omega

/-- **C84** Two messages for each clique that is connected to the first one, without it. -/
theorem C84_reached {bn : BN} {order0 : Option (List Name)} (h : OrderSetup bn order0)
    (so : SetOrder) {t : JTree} (ht : create so bn order0 = .ok t) {msgs : List (Name × Name)} (hm : t.Exchange msgs) :
    ∃ ks : List Name, ks.Nodup ∧ (∀ k, k ∈ ks ↔ t.Reached k) ∧ msgs.length + 2 = 2 * ks.length := by
  obtain ⟨t', root, kids, others, a1, a2, -, -, hn⟩ := h.rooted so
  rw [ht] at a1
  cases a1
  exact ⟨root :: kids.names, a2.nodup, fun k => ((a2.exchange hn).2 k).symm, hm.count a2 hn⟩

/-- **C84** If the network is connected and the tree has the running intersection property, all cliques take part, and
there are two messages for each clique but one. -/
theorem C84_count {bn : BN} {order0 : Option (List Name)} (h : TreeSetup bn order0) (hco : bn.Connected)
    (so : SetOrder) {t : JTree} (ht : create so bn order0 = .ok t) {msgs : List (Name × Name)} (hm : t.Exchange msgs) :
    (∀ k ∈ t.nodes.keys, t.Reached k) ∧ msgs.length + 2 = 2 * t.nodes.length := by
  obtain ⟨t', root, rvars, kids, others, a1, a2, a3, a4, -⟩ := h.made so
  rw [ht] at a1
  cases a1
  cases a3 hco
  obtain ⟨t', root', kids', others', a1, a5, -, -, hn⟩ := h.toOrderSetup.rooted so
  rw [ht] at a1
  cases a1
  have hr : t.Rooted root kids := ⟨a2.junction.first, a2.junction.name, a2.junction.nbrs, a2.junction.nodup,
    a2.junction.fits⟩
  have hk := a2.keys
  rw [List.append_nil] at hk
  refine ⟨fun k hkk => ((hr.exchange hn).2 k).2 (hk.subset hkk), ?_⟩
  rw [hm.count hr hn, ← hk.length_eq]
  simp [Dict.keys]

/-- **C84** Otherwise a clique can be left out although the network is connected: `create_jointree` has added no edge to
it. -/
theorem C84_left_out_refuted : Ex.cycle.Connected ∧ ∃ t, create .insertion Ex.cycle none = .ok t ∧
    "abc" ∈ t.nodes.keys ∧ ¬ t.Reached "abc" := by
  refine ⟨Ex.cycle_connected, ?_⟩
  have h : (create .insertion Ex.cycle none).map (fun t => (t.nodes.keys, t.edges.map fun e => (e.u, e.w))) =
      .ok (["ced", "bd", "abc"], [("bd", "ced")]) := by decide +kernel
  cases hc : create .insertion Ex.cycle none with
  | error e => rw [hc] at h; cases h
  | ok t =>
    rw [hc] at h
    simp only [Except.map, Except.ok.injEq, Prod.mk.injEq] at h
    refine ⟨t, rfl, by rw [h.1]; simp, ?_⟩
    rintro ⟨root, h1, h2⟩
    rw [h.1] at h1
    injection h1 with h1
    rcases Relation.ReflTransGen.cases_tail h2 with h3 | ⟨b, -, e, he, hj⟩
    · rw [← h1] at h3
      exact absurd h3 (by decide)
    · have : (e.u, e.w) ∈ [("bd", "ced")] := h.2 ▸ List.mem_map_of_mem (f := fun e : JEdge => (e.u, e.w)) he
      simp only [List.mem_singleton, Prod.mk.injEq] at this
      simp [JEdge.joins, this.1, this.2] at hj

example := C84_exchange Ex.bn_perfect.tree.toOrderSetup .insertion
example := C84_exchange Ex.cycle_default .insertion
example {t : JTree} (ht : create .insertion Ex.cycle none = .ok t) {msgs : List (Name × Name)} (hm : t.Exchange msgs) :=
  C84_reached Ex.cycle_default .insertion ht hm
example {t : JTree} (ht : create .insertion Ex.bn none = .ok t) {msgs : List (Name × Name)} (hm : t.Exchange msgs) :=
  C84_count Ex.bn_perfect.tree Ex.bn_connected .insertion ht hm

end Primo
