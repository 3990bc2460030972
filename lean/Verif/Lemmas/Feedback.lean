import Verif.Lemmas.Dynamic
import Verif.Props.JoinTree

/-! # Prior feedback on networks for which the tree is exact -/

namespace Primo
open JoinTree Factor

/-! ## networks that differ in their tables only -/

namespace BN

theorem mem_bare {bn bn' : BN} (h : bn'.bare = bn.bare) {n' : NodeV} (hn : n' ∈ bn') :
    ∃ n ∈ bn, n.name = n'.name ∧ n.kind = n'.kind ∧ n.values = n'.values ∧
      n.parentOrder = n'.parentOrder ∧ n.parents = n'.parents ∧ n.children = n'.children := by
  have h1 : ({ n' with cpd := NDArray.scalar 0 } : NodeV) ∈ bn.bare := by
    rw [← h]; exact List.mem_map_of_mem hn
  obtain ⟨n, hn, e⟩ := List.mem_map.1 h1
  injection e with e1 e2 e3 e4 e5 e6 e7 e8
  exact ⟨n, hn, e1, e2, e3, e4, e5, e6⟩

theorem names_of_bare {bn bn' : BN} (h : bn'.bare = bn.bare) : bn'.names = bn.names := by
  rw [← names_bare, h, names_bare]

theorem lab_of_bare {bn bn' : BN} (h : bn'.bare = bn.bare) : bn'.lab = bn.lab := by
  rw [← lab_bare, h, lab_bare]

theorem card_of_bare {bn bn' : BN} (h : bn'.bare = bn.bare) : bn'.card = bn.card := by
  funext v; unfold card; rw [lab_of_bare h]

theorem length_of_bare {bn bn' : BN} (h : bn'.bare = bn.bare) : bn'.length = bn.length := by
  rw [← length_bare, h, length_bare]

theorem isParent_of_bare {bn bn' : BN} (h : bn'.bare = bn.bare) {p v : Name}
    (hp : bn'.IsParent p v) : bn.IsParent p v := by
  obtain ⟨n', hn', h1, h2⟩ := hp
  obtain ⟨n, hn, e1, -, -, e4, -⟩ := mem_bare h hn'
  exact ⟨n, hn, e1.trans h1, by rw [e4]; exact h2⟩

theorem skel_of_bare {bn bn' : BN} (h : bn'.bare = bn.bare) : bn'.Skel = bn.Skel := by
  funext u v
  exact propext ⟨fun hh => hh.imp (isParent_of_bare h) (isParent_of_bare h),
    fun hh => hh.imp (isParent_of_bare h.symm) (isParent_of_bare h.symm)⟩

theorem moral_of_bare' {bn bn' : BN} (h : bn'.bare = bn.bare) {u v : Name} (hm : bn'.Moral u v) :
    bn.Moral u v := by
  obtain ⟨h1, n', hn', h2, h3⟩ := hm
  obtain ⟨n, hn, e1, -, -, e4, -⟩ := mem_bare h hn'
  refine ⟨h1, n, hn, ?_, ?_⟩
  · unfold NodeV.family at h2 ⊢; rw [e1, e4]; exact h2
  · unfold NodeV.family at h3 ⊢; rw [e1, e4]; exact h3

theorem moral_of_bare {bn bn' : BN} (h : bn'.bare = bn.bare) : bn'.Moral = bn.Moral := by
  funext u v
  exact propext ⟨moral_of_bare' h, moral_of_bare' h.symm⟩

theorem Connected.of_bare {bn bn' : BN} (hc : bn.Connected) (h : bn'.bare = bn.bare) :
    bn'.Connected := by
  unfold Connected
  rw [names_of_bare h, skel_of_bare h]
  exact hc

theorem Linked.of_bare {bn bn' : BN} (hl : bn.Linked) (h : bn'.bare = bn.bare) : bn'.Linked := by
  constructor
  · intro n' hn'
    obtain ⟨n, hn, -, -, -, -, -, e6⟩ := mem_bare h hn'
    rw [← e6]
    exact hl.nodup n hn
  · intro n' hn' c
    obtain ⟨n, hn, e1, -, -, -, -, e6⟩ := mem_bare h hn'
    rw [← e6, ← e1, hl.iff n hn c]
    constructor
    · rintro ⟨m, hm, h1, h2⟩
      obtain ⟨m', hm', g1, -, -, g4, -⟩ := mem_bare h.symm hm
      exact ⟨m', hm', g1.trans h1, by rw [g4]; exact h2⟩
    · rintro ⟨m, hm, h1, h2⟩
      obtain ⟨m', hm', g1, -, -, g4, -⟩ := mem_bare h hm
      exact ⟨m', hm', g1.trans h1, by rw [g4]; exact h2⟩

theorem Recorded.of_bare {bn bn' : BN} (hl : bn.Recorded) (h : bn'.bare = bn.bare) :
    bn'.Recorded := by
  intro n' hn' p
  obtain ⟨n, hn, -, -, -, e4, e5, -⟩ := mem_bare h hn'
  rw [← e4, ← e5]
  exact hl n hn p

theorem Consistent.of_bare {bn bn' : BN} (hc : bn.Consistent) (h : bn'.bare = bn.bare)
    (hs : ∀ n ∈ bn', n.cpd.shape = n.values.length :: n.parentOrder.map bn.card) :
    bn'.Consistent := by
  refine ⟨by rw [names_of_bare h]; exact hc.nodup, fun n' hn' => ?_, fun n' hn' => ?_,
    fun n' hn' => ?_, fun n' hn' p hp => ?_, fun n' hn' p hp => ?_, fun n' hn' => ?_⟩ <;>
    obtain ⟨n, hn, e1, e2, e3, e4, e5, -⟩ := mem_bare h hn'
  · rw [← e2]; exact hc.kind n hn
  · rw [← e4]; exact hc.parents_nodup n hn
  · rw [← e4, ← e1]; exact hc.self n hn
  · rw [names_of_bare h]; rw [← e4] at hp; exact hc.parents_mem n hn p hp
  · rw [← e5, lab_of_bare h]; rw [← e4] at hp; exact hc.parents_val n hn p hp
  · rw [card_of_bare h]; exact hs n' hn'

end BN

theorem TreeSetup.of_bare {bn bn' : BN} (hp : TreeSetup bn none) (h : bn'.bare = bn.bare)
    (hs : ∀ n ∈ bn', n.cpd.shape = n.values.length :: n.parentOrder.map bn.card) :
    TreeSetup bn' none := by
  refine ⟨⟨hp.consistent.of_bare h hs, hp.linked.of_bare h, hp.recorded.of_bare h, ?_, ?_, ?_⟩, ?_⟩
  · rw [BN.names_of_bare h]; exact hp.names
  · intro he
    have := BN.length_of_bare h
    rw [he] at this
    exact hp.nonempty (List.length_eq_zero_iff.1 this.symm)
  · obtain ⟨order, o1, o2⟩ := hp.order
    refine ⟨order, ?_, ?_⟩
    · rw [← BN.chooseOrder_bare, h, BN.chooseOrder_bare]; exact o1
    · rw [BN.names_of_bare h]; exact o2
  · obtain ⟨so, t, t1, t2⟩ := hp.tree
    obtain ⟨order, o1, o2⟩ := hp.order
    obtain ⟨t', a1, -⟩ := JTree.create_any so (hp.consistent.of_bare h hs) (hp.linked.of_bare h)
      (hp.recorded.of_bare h) (by rw [BN.names_of_bare h]; exact hp.names) none
      (by rw [← BN.chooseOrder_bare, h, BN.chooseOrder_bare]; exact o1)
      (by rw [BN.names_of_bare h]; exact o2)
    refine ⟨so, t', a1, t2.of_shape ?_⟩
    obtain ⟨p, p1, p2⟩ := plan_of_create t1
    obtain ⟨p', p1', p2'⟩ := plan_of_create a1
    rw [plan_congr h, p1] at p1'
    cases p1'
    rw [p2, p2']

theorem LegalEvidence.of_bare {bn bn' : BN} {ev : Dict Evidence} (he : LegalEvidence bn ev)
    (h : bn'.bare = bn.bare) : LegalEvidence bn' ev :=
  ⟨he.nodup, by rw [BN.names_of_bare h]; exact he.mem, by rw [BN.lab_of_bare h]; exact he.hard,
    by rw [BN.card_of_bare h]; exact he.soft⟩

/-! ## exact trees -/

/-- the tree answers with the posteriors of this network and evidence, and queries leave it alone -/
structure JTree.Exactly (bn : BN) (ev : Dict Evidence) (t : JTree) : Prop where
  valid : t.valid = true
  family : ∀ n ∈ bn, t.Covers n.family
  answer : ∀ vs, t.Covers vs → ∀ so limit, ∃ r, t.marginals so limit vs = (t, .ok r) ∧
    r.WF bn.card ∧ (∀ v ∈ r.variableOrder, r.values.get? v = some (bn.lab v)) ∧
    (∀ v, v ∈ r.variableOrder ↔ v ∈ vs) ∧ ∀ σ, Legal bn.card vs σ → r.eval σ = posterior bn ev vs σ

theorem JTree.Exactly.fixed {bn : BN} {ev : Dict Evidence} {t : JTree} (h : t.Exactly bn ev)
    (so : SetOrder) (limit : Nat) (vs : List Name) : (t.marginals so limit vs).1 = t := by
  unfold JTree.marginals
  rw [if_pos h.valid]

theorem exactly_of_setup {bn : BN} (h : TreeSetup bn none)
    (hn : bn.NonNeg) (hco : bn.Connected) {ev : Dict Evidence} (he : LegalEvidence bn ev)
    (hen : NonNegEvidence ev) {limit : Nat} (hl : bn.length ≤ limit) (so : SetOrder) :
    ∃ t t', create so bn none = .ok t ∧ t.setEvidence so limit bn ev false = (t', none) ∧
      t'.Exactly bn ev := by
  obtain ⟨t, t', h1, h2, h3, h4⟩ := C21_tree_exact_partial h hn hco he hen hl so so
  obtain ⟨t0, root, rvars, kids, others, a1, a3, a6, a7, -⟩ := h.made so
  rw [h1] at a1
  cases a1
  obtain ⟨t1, Φ, Ψ, b1, b2, b3⟩ := JTree.setEvidence_spec so h.consistent hn a3 he hen
    (lt_of_lt_of_le a7 hl)
  rw [h2] at b1
  cases b1
  refine ⟨t, t', h1, h2, b3.valid, h3, fun vs hvs so₃ limit' => ?_⟩
  obtain ⟨r, r1, r2, r3, r4, r5, -⟩ := h4 vs hvs so₃ limit'
  exact ⟨r, r1, r2, r3, r4, r5⟩

/-- the table of one variable -/
theorem JTree.Exactly.table {bn : BN} {ev : Dict Evidence} {t : JTree} (h : t.Exactly bn ev)
    {p : Name} (hp : p ∈ bn.names) (so : SetOrder) (limit : Nat) :
    ∃ r, t.marginals so limit [p] = (t, .ok r) ∧ r.getPotential = .ok r.potentials ∧
      r.variableOrder = [p] ∧ r.values.get? p = some (bn.lab p) ∧ r.potentials.shape = [bn.card p] ∧
      ∀ σ, σ p < bn.card p → r.potentials.get [σ p] = posterior bn ev [p] σ := by
  obtain ⟨n, hn, rfl⟩ := BN.exists_of_mem_names hp
  obtain ⟨k, vars, hk, hf⟩ := h.family n hn
  obtain ⟨r, r1, r2, r3, r4, r5⟩ := h.answer [n.name]
    ⟨k, vars, hk, fun x hx => hf x (by rw [List.mem_singleton] at hx; rw [hx]; simp [NodeV.family])⟩
    so limit
  have hv : r.variableOrder = [n.name] := JTree.eq_singleton_of_mem r2.nodup r4
  have hval := r3 n.name (by rw [hv]; simp)
  refine ⟨r, r1, ?_, hv, hval, ?_, fun σ hσ => ?_⟩
  · unfold Factor.getPotential Factor.subTable
    rw [hv]
    simp only [List.mapM_cons, List.mapM_nil, Dict.getE, hval]
    rfl
  · rw [r2.shape, hv]; rfl
  · have := r5 σ (by simpa [Legal] using hσ)
    rw [Factor.eval, hv] at this
    exact this

/-! ## feeding the tables back -/

/-- The dynamic networks for which prior feedback works: the default trees of both networks have
the running intersection property, the networks are connected and have non-negative tables; the transition targets are distinct parentless chance
nodes, and their sources have as many outcomes in both networks. -/
structure DBN.Ready (d : DBN) : Prop where
  b0 : TreeSetup d.b0 none
  b0_nonneg : d.b0.NonNeg
  b0_connected : d.b0.Connected
  two : TreeSetup d.twoTbn none
  two_nonneg : d.twoTbn.NonNeg
  two_connected : d.twoTbn.Connected
  targets : (d.transitions.map Prod.fst).Nodup
  node : ∀ tr ∈ d.transitions, ∃ n ∈ d.twoTbn, n.name = tr.1 ∧ n.kind = .discrete ∧
    n.parentOrder = [] ∧ n.values.length = d.b0.card tr.2 ∧ n.values.length = d.twoTbn.card tr.2
  source : ∀ tr ∈ d.transitions, tr.2 ∈ d.b0.names ∧ tr.2 ∈ d.twoTbn.names

theorem BN.eq_of_name {bn : BN} (hb : bn.names.Nodup) {n m : NodeV} (hn : n ∈ bn) (hm : m ∈ bn)
    (h : n.name = m.name) : n = m := by
  have h1 := BN.getNode_ok hb hn
  rw [h, BN.getNode_ok hb hm] at h1
  injection h1 with h1
  exact h1.symm

theorem BN.mem_putCpd {bn : BN} {v : Name} {c : NDArray} {n : NodeV} :
    n ∈ bn.putCpd v c ↔ (n ∈ bn ∧ n.name ≠ v) ∨ ∃ m ∈ bn, m.name = v ∧ n = { m with cpd := c } := by
  unfold putCpd
  rw [List.mem_map]
  constructor
  · rintro ⟨m, hm, rfl⟩
    by_cases h : m.name = v
    · right; exact ⟨m, hm, h, by rw [if_pos h]⟩
    · left; rw [if_neg h]; exact ⟨hm, h⟩
  · rintro (⟨h1, h2⟩ | ⟨m, hm, h, rfl⟩)
    · exact ⟨n, h1, by rw [if_neg h2]⟩
    · exact ⟨m, hm, by rw [if_pos h]⟩

theorem PriorFeedback.feed_exact (so : SetOrder) (limit : Nat) {net : BN} {ev : Dict Evidence}
    (trs : List (Name × Name)) (s : PriorFeedback) {f : SliceTree} (hf : s.ft = some f)
    (hx : f.tree.Exactly net ev) (hnd : (trs.map Prod.fst).Nodup) (hn2 : s.dbn.twoTbn.names.Nodup)
    (hsrc : ∀ tr ∈ trs, tr.2 ∈ net.names)
    (hnode : ∀ tr ∈ trs, ∃ n ∈ s.dbn.twoTbn, n.name = tr.1 ∧ n.kind = .discrete ∧
      n.cpd.shape = [net.card tr.2]) :
    ∃ two', feed so limit trs s = ({ s with dbn := { s.dbn with twoTbn := two' } }, none) ∧
      Fed trs net ev s.dbn.twoTbn two' := by
  induction trs generalizing s with
  | nil => exact ⟨s.dbn.twoTbn, rfl, rfl, by simp, fun n hn _ => hn⟩
  | cons tr trs ih =>
    obtain ⟨node, p⟩ := tr
    obtain ⟨n, hn, hnm, hk, hsh⟩ := hnode (node, p) (by simp)
    dsimp only at hnm hsh
    obtain ⟨r, r1, r2, r3, r4, r5, r6⟩ := hx.table (hsrc (node, p) (by simp)) so limit
    dsimp only at r1 r3 r4 r5 r6
    have hg : s.dbn.twoTbn.getNode node = .ok n := by rw [← hnm]; exact BN.getNode_ok hn2 hn
    have ht : f.table so limit p = (f, .ok r.potentials) := by
      unfold SliceTree.table SliceTree.marginals
      dsimp only
      rw [r1]
      dsimp only
      rw [ok_bind, r2]
    have hset : s.dbn.twoTbn.setNodeCpd node r.potentials = .ok (s.dbn.twoTbn.putCpd node r.potentials) := by
      unfold BN.setNodeCpd
      rw [hg, ok_bind]
      unfold NodeV.setCpd
      rw [if_neg (by rw [hk]; simp), if_neg (by rw [hsh, r5]; simp)]
      rfl
    have hnd' := List.nodup_cons.1 hnd
    dsimp only at hnd'
    set s1 : PriorFeedback :=
      { s with ft := some f, dbn := { s.dbn with twoTbn := s.dbn.twoTbn.putCpd node r.potentials } } with hs1
    obtain ⟨two', t1, t2⟩ := ih s1 rfl hnd'.2
      (by
        have : (s.dbn.twoTbn.putCpd node r.potentials).names = s.dbn.twoTbn.names :=
          BN.names_of_bare (BN.bare_putCpd ..)
        change (s.dbn.twoTbn.putCpd node r.potentials).names.Nodup
        rw [this]; exact hn2)
      (fun tr h => hsrc tr (by simp [h]))
      (fun tr h => by
        obtain ⟨m, m1, m2, m3, m4⟩ := hnode tr (by simp [h])
        refine ⟨m, BN.mem_putCpd.2 (Or.inl ⟨m1, ?_⟩), m2, m3, m4⟩
        rintro rfl
        exact hnd'.1 (m2 ▸ List.mem_map_of_mem h))
    refine ⟨two', ?_, t2.bare.trans (BN.bare_putCpd ..), ?_, ?_⟩
    · rw [feed, hg]
      dsimp only
      rw [hf]
      dsimp only
      rw [ht]
      dsimp only
      rw [hset]
      dsimp only
      rw [show ({ s with ft := some f, dbn := { s.dbn with twoTbn := s.dbn.twoTbn.putCpd node r.potentials } } :
        PriorFeedback) = s1 from rfl, t1]
    · intro tr htr m hm hmn
      rcases List.mem_cons.1 htr with rfl | htr
      · dsimp only at hmn ⊢
        have hk' := t2.kept m hm (by rw [hmn]; exact hnd'.1)
        rcases BN.mem_putCpd.1 hk' with ⟨-, h2⟩ | ⟨m', -, -, rfl⟩
        · exact absurd hmn h2
        · exact ⟨r5, r6⟩
      · exact t2.fed tr htr m hm hmn
    · intro m hm hmn
      simp only [List.map_cons, List.mem_cons, not_or] at hmn
      rcases BN.mem_putCpd.1 (t2.kept m hm hmn.2) with ⟨h1, -⟩ | ⟨m', -, h2, rfl⟩
      · exact h1
      · exact absurd h2 hmn.1

/-- what stays true of the two-slice network -/
structure DBN.Good (d : DBN) (two : BN) : Prop where
  bare : two.bare = d.twoTbn.bare
  setup : TreeSetup two none
  nonneg : two.NonNeg

theorem DBN.Good.start {d : DBN} (h : d.Ready) : d.Good d.twoTbn := ⟨rfl, h.two, h.two_nonneg⟩

theorem DBN.Good.fed {d : DBN} (h : d.Ready) {two : BN} (hg : d.Good two) {net : BN}
    (hnet : net.NonNeg) (hcard : ∀ tr ∈ d.transitions, net.card tr.2 = d.b0.card tr.2 ∨
      net.card tr.2 = d.twoTbn.card tr.2) {ev : Dict Evidence} (hen : NonNegEvidence ev) {two' : BN}
    (hf : Fed d.transitions net ev two two') : d.Good two' := by
  have hb : two'.bare = d.twoTbn.bare := hf.bare.trans hg.bare
  have hnt : two'.names.Nodup := by
    rw [BN.names_of_bare hb]; exact h.two.consistent.nodup
  refine ⟨hb, hg.setup.of_bare hf.bare fun n hn => ?_, fun n hn x hx => ?_⟩
  · by_cases ht : n.name ∈ d.transitions.map Prod.fst
    · obtain ⟨tr, htr, e⟩ := List.mem_map.1 ht
      obtain ⟨m, m1, m2, m3, m4, m5, m6⟩ := h.node tr htr
      obtain ⟨m', m1', e1, -, e3, e4, -⟩ := BN.mem_bare hb hn
      have : m' = m := BN.eq_of_name h.two.consistent.nodup m1' m1 (by rw [e1, m2, e])
      subst this
      rw [(hf.fed tr htr n hn e.symm).1, ← e3, ← e4, m4]
      rcases hcard tr htr with hc | hc
      · rw [hc, m5]; rfl
      · rw [hc, m6]; rfl
    · rw [← BN.card_of_bare (rfl : two.bare = two.bare)]
      exact hg.setup.consistent.shape n (hf.kept n hn ht)
  · by_cases ht : n.name ∈ d.transitions.map Prod.fst
    · obtain ⟨tr, htr, e⟩ := List.mem_map.1 ht
      obtain ⟨h1, h2⟩ := hf.fed tr htr n hn e.symm
      rw [NDArray.data_eq, List.mem_map] at hx
      obtain ⟨idx, hidx, rfl⟩ := hx
      rw [mem_allIdx, h1] at hidx
      obtain ⟨i, hi, rfl⟩ : ∃ i, i < net.card tr.2 ∧ idx = [i] := by
        cases hidx with
        | cons h3 h4 => cases h4; exact ⟨_, h3, rfl⟩
      have := h2 (fun _ => i) hi
      rw [this]
      exact posterior_nonneg hnet hen _ _
    · exact hg.nonneg n (hf.kept n hn ht) x hx

theorem Slices.cases {d : DBN} {es : List (Dict Evidence)} {net two : BN} (h : Slices d es net two) :
    (es = [] ∧ net = d.b0 ∧ two = d.twoTbn) ∨ (es ≠ [] ∧ net = two) := by
  cases h with
  | start => exact Or.inl ⟨rfl, rfl, rfl⟩
  | next _ _ => exact Or.inr ⟨by simp, rfl⟩

/-- the current slice's network has everything that exact answers need -/
theorem DBN.Good.net {d : DBN} (h : d.Ready) {es : List (Dict Evidence)} {net two : BN}
    (hs : Slices d es net two) (hg : d.Good two) :
    TreeSetup net none ∧ net.NonNeg ∧ net.Connected ∧ net.bare = (d.slice es.length).bare ∧
      net = (if es.length = 0 then d.b0 else two) := by
  rcases hs.cases with ⟨rfl, rfl, rfl⟩ | ⟨h1, rfl⟩
  · exact ⟨h.b0, h.b0_nonneg, h.b0_connected, rfl, rfl⟩
  · have : es.length ≠ 0 := by simpa using h1
    refine ⟨hg.setup, hg.nonneg, h.two_connected.of_bare hg.bare, ?_, by rw [if_neg this]⟩
    unfold DBN.slice
    rw [if_neg this]
    exact hg.bare

namespace PriorFeedback

/-- the state agrees with the diary -/
structure Tracks (d : DBN) (g : Diary) (s : PriorFeedback) (net two : BN) : Prop where
  slices : Slices d g.past net two
  good : d.Good two
  dbn : s.dbn = { d with twoTbn := two }
  time : s.t = g.past.length
  flag : s.evidence = g.now.isSome
  inv : s.Inv
  now : ∀ e, g.now = some e → NonNegEvidence e ∧ ∃ f, s.ft = some f ∧ f.tree.Exactly net e
  old : g.now = none → (g.past = [] ∧ s.ft = none) ∨ ∃ past e net' two', g.past = past ++ [e] ∧
    Slices d past net' two' ∧ ∃ f, s.ft = some f ∧ f.tree.Exactly net' e

theorem setInner_exact {d : DBN} (h : d.Ready) {s : PriorFeedback} {es : List (Dict Evidence)}
    {net two : BN} (hs : Slices d es net two) (hg : d.Good two) (hd : s.dbn = { d with twoTbn := two })
    (ht : s.t = es.length) (hi : s.Inv) (so : SetOrder) {limit : Nat} {ev : Option (Dict Evidence)}
    (ha : d.Allows es.length limit ev) :
    ∃ f, setInner so limit ev false s = ({ s with ft := some f }, none) ∧
      f.tree.Exactly net (ev.getD []) := by
  obtain ⟨n1, n2, n3, n4, n5⟩ := DBN.Good.net h hs hg
  obtain ⟨t0, t1, a1, a2, a3⟩ := exactly_of_setup n1 n2 n3 (ha.1.of_bare n4) ha.2.1
    (limit := limit) (by rw [BN.length_of_bare n4]; exact ha.2.2) so
  have hsn : s.sliceNet = net := by
    unfold sliceNet
    rw [n5, ht, hd]
  by_cases h1 : s.t ≤ 1
  · have hn : (if decide (s.t = 1) = true then s.dbn.twoTbn else s.dbn.b0) = net := by
      rw [← hsn]
      unfold sliceNet
      rcases Nat.le_one_iff_eq_zero_or_eq_one.1 h1 with h | h <;> simp [h]
    refine ⟨⟨decide (s.t = 1), t1⟩, ?_, a3⟩
    unfold setInner
    rw [if_pos h1]
    have : SliceTree.create so s.dbn (decide (s.t = 1)) = .ok ⟨decide (s.t = 1), t0⟩ := by
      unfold SliceTree.create
      rw [hn, a1, ok_bind]
      rfl
    rw [this]
    dsimp only [enter, SliceTree.setEvidence, SliceTree.net]
    rw [hn, a2]
  · obtain ⟨f, hf, f1, p, hp, hsh⟩ := hi (Or.inl (by omega))
    have hn : f.net s.dbn = net := by
      rw [← hsn]
      unfold sliceNet SliceTree.net
      rw [f1, if_pos rfl, if_neg (by omega)]
    have hnt : s.dbn.twoTbn = net := by
      rw [← hsn]; unfold sliceNet; rw [if_neg (by omega)]
    obtain ⟨p', hp', hsh'⟩ := plan_of_create a1
    rw [hnt, hp'] at hp
    cases hp
    have hr := JTree.reset_create so a1 (hsh.trans hsh'.symm)
    refine ⟨⟨f.two, t1⟩, ?_, a3⟩
    unfold setInner
    rw [if_neg h1, hf]
    dsimp only
    have : f.reset so s.dbn = (⟨f.two, t0⟩, none) := by
      unfold SliceTree.reset
      dsimp only
      rw [hn, hr]
    rw [this]
    dsimp only [enter, SliceTree.setEvidence]
    have hn' : (⟨f.two, t0⟩ : SliceTree).net s.dbn = net := hn
    rw [hn', a2]

theorem tracks_create (d : DBN) (h : d.Ready) : Tracks d ⟨[], none⟩ (create d) d.b0 d.twoTbn :=
  ⟨.start, .start h, rfl, rfl, rfl, create_inv d, fun e he => (by cases he), fun _ => Or.inl ⟨rfl, rfl⟩⟩

theorem Tracks.setEvidence {d : DBN} (h : d.Ready) {g : Diary} {s : PriorFeedback} {net two : BN}
    (ht : Tracks d g s net two) (so : SetOrder) {limit : Nat} {ev : Option (Dict Evidence)}
    (ha : d.Allows g.past.length limit ev) :
    ∃ s', s.setEvidence so limit ev = (s', none) ∧
      Tracks d { g with now := some (ev.getD []) } s' net two := by
  obtain ⟨f, h1, h2⟩ := setInner_exact h ht.slices ht.good ht.dbn ht.time ht.inv so ha
  have he : s.setEvidence so limit ev = ({ s with ft := some f, evidence := true }, none) := by
    unfold PriorFeedback.setEvidence
    rw [h1]
  refine ⟨_, he, ht.slices, ht.good, ht.dbn, ht.time, rfl, ?_, fun e h => ?_, fun h => (by cases h)⟩
  · have := (setEvidence_inv ht.inv so limit ev).1
    rw [he] at this
    exact this
  · injection h with h
    subst h
    exact ⟨ha.2.1, f, rfl, h2⟩

theorem Tracks.marginals {d : DBN} {g : Diary} {s : PriorFeedback} {net two : BN}
    (ht : Tracks d g s net two) (so : SetOrder) (limit : Nat) (vs : List Name) :
    (s.marginals so limit vs).1 = s := by
  have key : ∀ f, s.ft = some f → (∃ net e, f.tree.Exactly net e) → (s.marginals so limit vs).1 = s := by
    rintro f hf ⟨net, e, hx⟩
    unfold PriorFeedback.marginals
    rw [hf]
    dsimp only [SliceTree.marginals]
    rw [hx.fixed]
    obtain ⟨d, t, ev, ft⟩ := s
    dsimp only at hf ⊢
    rw [hf]
  cases hn : g.now with
  | some e =>
    obtain ⟨-, f, hf, hx⟩ := ht.now e hn
    exact key f hf ⟨_, _, hx⟩
  | none =>
    rcases ht.old hn with ⟨-, hf⟩ | ⟨past, e, net', two', -, -, f, hf, hx⟩
    · unfold PriorFeedback.marginals
      rw [hf]
    · exact key f hf ⟨_, _, hx⟩

theorem Tracks.unroll {d : DBN} (h : d.Ready) {g : Diary} {s : PriorFeedback} {net two : BN}
    (ht : Tracks d g s net two) (so : SetOrder) {limit : Nat} {ev : Option (Dict Evidence)}
    (ha : d.Allows g.past.length limit ev) {soft : Option Bool} (hsoft : soft ≠ some true) :
    ∃ s' two', s.unroll so limit ev soft = (s', none) ∧
      Fed d.transitions net ((ev.or g.now).getD []) two two' ∧
      Tracks d ⟨g.past ++ [(ev.or g.now).getD []], none⟩ s' two' two' := by
  have hsf : soft.getD false = false := by
    rcases soft with _ | _ | _
    · rfl
    · rfl
    · exact absurd rfl hsoft
  -- the tree holds the evidence of the slice
  have hb : ∃ f, beforeUnroll so limit ev soft s = ({ s with ft := some f }, none) ∧
      f.tree.Exactly net ((ev.or g.now).getD []) ∧ NonNegEvidence ((ev.or g.now).getD []) := by
    unfold beforeUnroll
    by_cases hc : ¬ s.evidence = true ∨ ev ≠ none
    · rw [if_pos hc, hsf]
      obtain ⟨f, h1, h2⟩ := setInner_exact h ht.slices ht.good ht.dbn ht.time ht.inv so ha
      have : (ev.or g.now).getD [] = ev.getD [] := by
        cases ev with
        | some e => rfl
        | none =>
          have hs : s.evidence = false := by
            rcases hc with hc | hc
            · simpa using hc
            · exact absurd rfl hc
          rw [ht.flag] at hs
          have : g.now = none := by simpa using hs
          rw [this]; rfl
      rw [this]
      exact ⟨f, h1, h2, ha.2.1⟩
    · rw [if_neg hc]
      push Not at hc
      obtain ⟨hc, rfl⟩ := hc
      rw [ht.flag] at hc
      obtain ⟨e, he⟩ := Option.isSome_iff_exists.1 hc
      obtain ⟨hne, f, hf, hx⟩ := ht.now e he
      rw [he]
      refine ⟨f, ?_, hx, hne⟩
      obtain ⟨d, t, ev, ft⟩ := s
      dsimp only at hf ⊢
      rw [hf]
  obtain ⟨f, b1, b2, b3⟩ := hb
  set e := (ev.or g.now).getD [] with he
  set s1 : PriorFeedback := { s with ft := some f } with hs1
  obtain ⟨n1, n2, n3, n4, n5⟩ := DBN.Good.net h ht.slices ht.good
  have hd1 : s1.dbn = { d with twoTbn := two } := ht.dbn
  have hcard : ∀ tr ∈ d.transitions, net.card tr.2 = d.b0.card tr.2 ∨
      net.card tr.2 = d.twoTbn.card tr.2 := by
    intro tr _
    rw [BN.card_of_bare n4]
    unfold DBN.slice
    split
    · exact Or.inl rfl
    · exact Or.inr rfl
  obtain ⟨two', f1, f2⟩ := feed_exact so limit (net := net) (ev := e) d.transitions s1 (f := f) rfl b2
    h.targets (by rw [hd1]; exact ht.good.setup.consistent.nodup)
    (fun tr htr => by
      rw [BN.names_of_bare n4]
      unfold DBN.slice
      split
      · exact (h.source tr htr).1
      · exact (h.source tr htr).2)
    (fun tr htr => by
      obtain ⟨m, m1, m2, m3, m4, m5, m6⟩ := h.node tr htr
      obtain ⟨n, hn, e1, e2, e3, e4, -⟩ := BN.mem_bare ht.good.bare.symm m1
      rw [hd1]
      refine ⟨n, hn, e1.trans m2, e2.trans m3, ?_⟩
      rw [ht.good.setup.consistent.shape n hn, e3, e4, m4]
      rcases hcard tr htr with hc | hc
      · rw [hc, m5]; rfl
      · rw [hc, m6]; rfl)
  rw [hd1] at f2
  have hg' : d.Good two' := ht.good.fed h n2 hcard b3 f2
  have hu : unrollInner so limit s1 =
      ({ s1 with dbn := { d with twoTbn := two' }, t := s.t + 1 }, none) := by
    unfold unrollInner
    have : s1.dbn.transitions = d.transitions := by rw [hd1]
    rw [this, f1, hd1]
  have hr : s.unroll so limit ev soft =
      ({ s1 with dbn := { d with twoTbn := two' }, t := s.t + 1, evidence := false }, none) := by
    rw [unroll_ok b1, hu]
  refine ⟨_, two', hr, f2, .next ht.slices f2, hg', rfl, ?_, rfl, ?_, fun e he => (by cases he),
    fun _ => Or.inr ⟨g.past, e, net, two, rfl, ht.slices, f, rfl, b2⟩⟩
  · dsimp only
    rw [ht.time]
    simp
  · have := (unroll_inv ht.inv so limit ev soft).1
    rw [hr] at this
    exact this

/-- every call allowed by the documentation returns normally (queries may fail) and keeps the state
in agreement with the diary -/
theorem Tracks.call {d : DBN} (h : d.Ready) {g : Diary} {s : PriorFeedback} {net two : BN}
    (ht : Tracks d g s net two) {op : DynOp} (ho : op.Fair d g.past.length) :
    ((∀ so limit vs, op ≠ .marginals so limit vs) → (PriorFeedback.call op s).2 = none) ∧
      ∃ net' two', Tracks d (g.note op) (PriorFeedback.call op s).1 net' two' := by
  cases op with
  | setEvidence so limit ev =>
    obtain ⟨s', h1, h2⟩ := ht.setEvidence h so ho
    dsimp only [PriorFeedback.call]
    rw [h1]
    exact ⟨fun _ => rfl, net, two, h2⟩
  | unroll so limit ev soft =>
    obtain ⟨s', two', h1, -, h3⟩ := ht.unroll h so ho.1 ho.2
    dsimp only [PriorFeedback.call]
    rw [h1]
    exact ⟨fun _ => rfl, two', two', h3⟩
  | marginals so limit vs =>
    refine ⟨fun hh => absurd rfl (hh so limit vs), net, two, ?_⟩
    have := ht.marginals so limit vs
    dsimp only [PriorFeedback.call]
    rw [this]
    exact ht

theorem Tracks.runs {d : DBN} (h : d.Ready) (ops : List DynOp) {g : Diary} {s : PriorFeedback}
    {net two : BN} (ht : Tracks d g s net two) (ho : FairHistory d g ops) :
    ∃ net' two', Tracks d (g.notes ops) (PriorFeedback.runs ops s) net' two' := by
  induction ops generalizing g s net two with
  | nil => exact ⟨net, two, ht⟩
  | cons op ops ih =>
    obtain ⟨-, net', two', h1⟩ := ht.call h ho.1
    exact ih h1 ho.2

end PriorFeedback
end Primo
