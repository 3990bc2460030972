import Verif.Lemmas.RoundedDynamic

/-! # Call histories of the dynamic inference classes with rounded arithmetic -/

namespace Primo
open JoinTree

/-! ## trees -/

/-- a tree with the structure of the default tree of `bn` and numbers close to some exact state -/
def JTree.Sane (u : ℚ) (bn : BN) (t : JTree) : Prop :=
  ∃ p k t₀, plan bn none = .ok p ∧ t.Near u k t₀ ∧ t₀.shape = p.shape

theorem JTree.Sane.of_bare {u : ℚ} {bn bn' : BN} {t : JTree} (h : t.Sane u bn) (hb : bn'.bare = bn.bare) :
    t.Sane u bn' := by
  obtain ⟨p, k, t₀, h1, h2, h3⟩ := h
  exact ⟨p, k, t₀, (plan_congr hb none).trans h1, h2, h3⟩

/-- the tree answers with the posteriors of this network and evidence up to `k` roundings, and queries leave it alone -/
structure JTree.Nearly (A : Arith) (u : ℚ) (k : List Name → Nat) (bn : BN) (ev : Dict Evidence) (t : JTree) : Prop where
  valid : t.valid = true
  sane : t.Sane u bn
  family : ∀ n ∈ bn, t.Covers n.family
  answer : ∀ vs, t.Covers vs → ∀ so limit, ∃ r, t.marginalsR A so limit vs = (t, .ok r) ∧
    r.WF bn.card ∧ (∀ v ∈ r.variableOrder, r.values.get? v = some (bn.lab v)) ∧
    (∀ v, v ∈ r.variableOrder ↔ v ∈ vs) ∧
    ∀ σ, Legal bn.card vs σ → Primo.Near u (k vs) (r.eval σ) (posterior bn ev vs σ)

section
variable {A : Arith} {u : ℚ} {bn : BN} {t : JTree} {so : SetOrder} {limit : Nat} {ev : Dict Evidence} {k : List Name → Nat}

theorem JTree.Nearly.fixed (h : t.Nearly A u k bn ev) (so : SetOrder) (limit : Nat) (vs : List Name) :
    (t.marginalsR A so limit vs).1 = t := by
  unfold JTree.marginalsR
  rw [if_pos h.valid]

theorem sane_create (hA : A.Accurate u) (h : TreeSetup bn none) (hn : bn.NonNeg) (so : SetOrder) :
    ∃ t, createR A so bn none = .ok t ∧ t.Sane u bn := by
  obtain ⟨t₀, root, rvars, kids, others, a1, -⟩ := h.made so
  obtain ⟨m, hm⟩ := JTree.near_create so hn none
  obtain ⟨t, b1, b2⟩ := (hm u A hA).ok_right a1
  obtain ⟨p, p1, p2⟩ := plan_of_create a1
  exact ⟨t, b1, p, m, t₀, p1, b2, p2⟩

theorem JTree.Sane.created (h : TreeSetup bn none) (hs : t.Sane u bn) (so : SetOrder) :
    ∃ k t₀ t₁, t.Near u k t₀ ∧ create so bn none = .ok t₁ ∧ t₀.shape = t₁.shape := by
  obtain ⟨p, k, t₀, h1, h2, h3⟩ := hs
  obtain ⟨t₁, root, rvars, kids, others, a1, -⟩ := h.made so
  obtain ⟨p', p1, p2⟩ := plan_of_create a1
  rw [h1] at p1
  cases p1
  exact ⟨k, t₀, t₁, h2, a1, h3.trans p2.symm⟩

theorem JTree.Sane.reset (hA : A.Accurate u) (h : TreeSetup bn none) (hn : bn.NonNeg) (hs : t.Sane u bn)
    (so : SetOrder) : ∃ t', t.resetR A so bn = (t', none) ∧ t'.Sane u bn := by
  obtain ⟨k, t₀, t₁, h1, h2, h3⟩ := hs.created h so
  have hr := JTree.reset_create so h2 h3
  obtain ⟨m, hm⟩ := JTree.tracks_reset so hn t₀ k
  obtain ⟨g1, g2⟩ := hm u A hA t h1
  rw [hr] at g1 g2
  obtain ⟨p, p1, p2⟩ := plan_of_create h2
  exact ⟨_, Prod.ext rfl g1, p, m, t₁, p1, g2, p2⟩

theorem JTree.Sane.placed (h : TreeSetup bn none) (hn : bn.NonNeg) (hco : bn.Connected) (hs : t.Sane u bn) :
    ∃ k t₀ root rvars kids p, t.Near u k t₀ ∧ JTree.Placed bn t₀ root rvars kids ∧
      plan bn none = .ok p ∧ t₀.shape = p.shape := by
  obtain ⟨k, t₀, t₁, h1, h2, h3⟩ := hs.created h .insertion
  obtain ⟨t₂, root, rvars, kids, a1, a2, -⟩ := h.placed hn hco .insertion
  rw [h2] at a1
  cases a1
  obtain ⟨p, p1, p2⟩ := plan_of_create h2
  exact ⟨k, t₀, root, rvars, kids, p, h1, a2.of_shape h3, p1, h3.trans p2⟩

theorem JTree.Sane.setEvidence (hA : A.Accurate u) (h : TreeSetup bn none) (hn : bn.NonNeg) (hco : bn.Connected)
    (hs : t.Sane u bn) (he : LegalEvidence bn ev) (hen : NonNegEvidence ev) (hl : bn.length ≤ limit) (so : SetOrder) :
    ∃ t', t.setEvidenceR A so limit bn ev false = (t', none) ∧ t'.Nearly A u (treeRoundings bn ev.length) bn ev := by
  obtain ⟨k, t₀, root, rvars, kids, p, a3, a2, p1, p2⟩ := hs.placed h hn hco
  have hl' := lt_of_lt_of_le a2.depth hl
  obtain ⟨t₁, Φ, Ψ, b1, b2, b3⟩ := JTree.setEvidence_spec so h.consistent hn a2.sits he hen hl'
  obtain ⟨t', c1, c2⟩ := a2.setEvidence hA so a3 hen hl' b1 b3.valid
  have hp := a2.of_shape b2
  have hr := a2.room b1
  refine ⟨t', c1, c2.valid.trans b3.valid, ⟨p, _, t₁, p1, c2, b2.trans p2⟩, a2.families b2 c2.shape,
    fun vs hvs so₃ limit' => ?_⟩
  obtain ⟨q, hq, hqv⟩ := hvs.skel c2.shape
  obtain ⟨r₀, d1, d2, d3, d4⟩ := b3.posterior so₃ ⟨q, hq, by simp, hqv⟩ (Or.inl rfl) limit'
  obtain ⟨r, e1, e2⟩ := hp.marginals hA so₃ hr c2 b3.valid d1 d2.wf d3
  have hov := e2.over d2
  refine ⟨r, e1, hov.wf, hov.val, fun v => by rw [e2.order, d3], fun σ hσ => ?_⟩
  rw [← d4 σ hσ]
  exact e2.eval σ

theorem JTree.Sane.setSoft (hA : A.Accurate u) (h : TreeSetup bn none) (hn : bn.NonNeg) (hco : bn.Connected)
    (hs : t.Sane u bn) (he : LegalEvidence bn ev) (hsup : Supported bn ev) (hl : bn.length ≤ limit) (so : SetOrder) :
    ∃ t', t.setEvidenceR A so limit bn ev true = (t', none) ∧
      t'.Nearly A u (treeRoundings bn (softRoundings bn ev)) bn (softened bn ev) := by
  obtain ⟨k, t₀, root, rvars, kids, p, a3, a2, p1, p2⟩ := hs.placed h hn hco
  have hl' := lt_of_lt_of_le a2.depth hl
  obtain ⟨t₁, Φ, Ψ, c, b1, b2, b0, b3⟩ := JTree.setEvidence_soft so h.consistent hn a2.sits he hsup hl'
  obtain ⟨t', c1, c2⟩ := a2.setSoft hA so a3 (fun v l hm => (hsup v l hm).1) he.mem hl' b1 b3.valid
  have hp := a2.of_shape b2
  have hr := a2.room b1
  refine ⟨t', c1, c2.valid.trans b3.valid, ⟨p, _, t₁, p1, c2, b2.trans p2⟩, a2.families b2 c2.shape,
    fun vs hvs so₃ limit' => ?_⟩
  obtain ⟨r₀, d1, d2, d3, d4⟩ := b3.scaled so₃ b0 hn (NonNegEvidence.softened hn hsup) (hvs.skel c2.shape) limit'
  obtain ⟨r, e1, e2⟩ := hp.marginals hA so₃ hr c2 b3.valid d1 d2.wf d3
  have hov := e2.over d2
  refine ⟨r, e1, hov.wf, hov.val, fun v => by rw [e2.order, d3], fun σ hσ => ?_⟩
  rw [← d4 σ hσ]
  exact e2.eval σ

/-- the table of one variable -/
theorem JTree.Nearly.table (h : t.Nearly A u k bn ev) {p : Name} (hp : p ∈ bn.names) (so : SetOrder) (limit : Nat) :
    ∃ r, t.marginalsR A so limit [p] = (t, .ok r) ∧ r.getPotential = .ok r.potentials ∧
      r.variableOrder = [p] ∧ r.values.get? p = some (bn.lab p) ∧ r.potentials.shape = [bn.card p] ∧
      ∀ i < bn.card p, Primo.Near u (k [p]) (r.potentials.get [i]) (posterior bn ev [p] fun _ => i) := by
  obtain ⟨n, hn, rfl⟩ := BN.exists_of_mem_names hp
  obtain ⟨q, vars, hk, hf⟩ := h.family n hn
  obtain ⟨r, r1, r2, r3, r4, r5⟩ := h.answer [n.name]
    ⟨q, vars, hk, fun x hx => hf x (by rw [List.mem_singleton] at hx; rw [hx]; simp [NodeV.family])⟩
    so limit
  have hv : r.variableOrder = [n.name] := JTree.eq_singleton_of_mem r2.nodup r4
  have hval := r3 n.name (by rw [hv]; simp)
  refine ⟨r, r1, ?_, hv, hval, ?_, fun i hi => ?_⟩
  · unfold Factor.getPotential Factor.subTable
    rw [hv]
    simp only [List.mapM_cons, List.mapM_nil, Dict.getE, hval]
    rfl
  · rw [r2.shape, hv]; rfl
  · have := r5 (fun _ => i) (by simpa [Legal] using hi)
    rw [Factor.eval, hv] at this
    exact this

end

/-- queries inside one family, and dictionaries, against a network with nearly the same ratios -/
theorem JTree.Nearly.answers {A : Arith} {u : ℚ} {netR net : BN} {t : JTree} {evR ev : Dict Evidence}
    {k : List Name → Nat} {m : Nat} (hu : u < 1) (h : t.Nearly A u k netR evR) (hb : netR.bare = net.bare)
    (hs : SkewNets u m netR evR net ev) :
    AnswersNear u (fun vs => k vs + m) (fun so limit vs => t.marginalsR A so limit vs) t net ev ∧
      AnswersDictNear u (fun vs => k vs + m) (fun so limit v =>
        let r := t.marginalsR A so limit [v]
        (r.1, do let f ← r.2; marginalDict v f)) t net ev := by
  have hcard := BN.card_of_bare hb
  have hlab : netR.lab = net.lab := BN.lab_of_bare hb
  refine ⟨fun n hn vs hvs so limit => ?_, fun v hv so limit => ?_⟩
  · obtain ⟨n', hn', e1, -, -, e2, -⟩ := BN.mem_bare hb.symm hn
    obtain ⟨q, vars, hk, hf'⟩ := h.family n' hn'
    obtain ⟨r, r1, r2, r3, r4, r5⟩ := h.answer vs ⟨q, vars, hk, fun x hx => hf' x (by
      have := hvs x hx
      unfold NodeV.family at this ⊢
      rw [e1, e2]
      exact this)⟩ so limit
    rw [hcard] at r2
    rw [hlab] at r3
    exact ⟨r, r1, r2, r3, r4, fun σ hσ => (r5 σ (hcard ▸ hσ)).trans hu (hs.near hσ)⟩
  · obtain ⟨r, r1, r2, r3, r4, r5, r6⟩ := h.table (by rw [BN.names_of_bare hb]; exact hv) so limit
    refine ⟨r.potentials.data, ?_, ?_⟩
    · dsimp only
      rw [r1]
      dsimp only
      rw [ok_bind]
      unfold marginalDict
      rw [Dict.getE_ok r4, ok_bind, r2, ok_bind, hlab]
      rfl
    · rw [NDArray.data_of_shape r5, hcard, List.forall₂_map_left_iff, List.forall₂_map_right_iff, List.forall₂_same]
      intro i hi
      have hi := List.mem_range.1 hi
      exact (r6 i (hcard ▸ hi)).trans hu (hs.near (by simpa [Legal] using hi))

namespace SliceTree

theorem createR_exact (so : SetOrder) (d : DBN) (two : Bool) : createR .exact so d two = create so d two := by
  unfold createR create
  rw [JoinTree.createR_exact]

theorem marginalsR_exact (so : SetOrder) (limit : Nat) (vs : List Name) (f : SliceTree) :
    f.marginalsR .exact so limit vs = f.marginals so limit vs := by
  unfold marginalsR marginals
  rw [JTree.marginalsR_exact]

theorem tableR_exact (so : SetOrder) (limit : Nat) (v : Name) (f : SliceTree) :
    f.tableR .exact so limit v = f.table so limit v := by
  unfold tableR table
  rw [marginalsR_exact]

theorem resetR_exact (so : SetOrder) (d : DBN) (f : SliceTree) : f.resetR .exact so d = f.reset so d := by
  unfold resetR reset
  rw [JTree.resetR_exact]

theorem setEvidenceR_exact (so : SetOrder) (limit : Nat) (d : DBN) (ev : Dict Evidence) (soft : Bool) (f : SliceTree) :
    f.setEvidenceR .exact so limit d ev soft = f.setEvidence so limit d ev soft := by
  unfold setEvidenceR setEvidence
  rw [JTree.setEvidenceR_exact]

end SliceTree

/-! ## `PriorFeedbackExact` -/

namespace PriorFeedback

/-- the call with rounded arithmetic: state afterwards, and the exception if it raised one -/
def callR (A : Arith) : DynOp → PriorFeedback → PRes
  | .setEvidence so limit ev, s => s.setEvidenceR A so limit ev
  | .unroll so limit ev soft, s => s.unrollR A so limit ev soft
  | .marginals so limit vs, s =>
    let r := s.marginalsR A so limit vs
    (r.1, match r.2 with
      | .ok _ => none
      | .error e => some e)

/-- the state after a history of calls with rounded arithmetic, whether they raised or not -/
def runsR (A : Arith) (ops : List DynOp) (s : PriorFeedback) : PriorFeedback :=
  ops.foldl (fun s op => (callR A op s).1) s

theorem feedR_near {A : Arith} {u : ℚ} (so : SetOrder) (limit : Nat) {net : BN} {ev : Dict Evidence}
    (trs : List (Name × Name)) (s : PriorFeedback) {f : SliceTree} (hf : s.ft = some f)
    (hx : f.tree.Nearly A u (treeRoundings net ev.length) net ev) (hnd : (trs.map Prod.fst).Nodup)
    (hn2 : s.dbn.twoTbn.names.Nodup) (hsrc : ∀ tr ∈ trs, tr.2 ∈ net.names)
    (hnode : ∀ tr ∈ trs, ∃ n ∈ s.dbn.twoTbn, n.name = tr.1 ∧ n.kind = .discrete ∧
      n.cpd.shape = [net.card tr.2]) :
    ∃ two', feedR A so limit trs s = ({ s with dbn := { s.dbn with twoTbn := two' } }, none) ∧
      FedNear u trs net ev s.dbn.twoTbn two' := by
  induction trs generalizing s with
  | nil => exact ⟨s.dbn.twoTbn, rfl, rfl, by simp, fun n hn _ => hn⟩
  | cons tr trs ih =>
    obtain ⟨node, p⟩ := tr
    obtain ⟨n, hn, hnm, hk, hsh⟩ := hnode (node, p) (by simp)
    dsimp only at hnm hsh
    obtain ⟨r, r1, r2, r3, r4, r5, r6⟩ := hx.table (hsrc (node, p) (by simp)) so limit
    dsimp only at r1 r3 r4 r5 r6
    have hg : s.dbn.twoTbn.getNode node = .ok n := by rw [← hnm]; exact BN.getNode_ok hn2 hn
    have ht : f.tableR A so limit p = (f, .ok r.potentials) := by
      unfold SliceTree.tableR SliceTree.marginalsR
      dsimp only
      rw [r1]
      dsimp only
      rw [ok_bind, r2]
    have hset : s.dbn.twoTbn.setNodeCpd node r.potentials = .ok (s.dbn.twoTbn.putCpd node r.potentials) := by
      unfold BN.setNodeCpd
      rw [hg, ok_bind]
      unfold NodeV.setCpd
      rw [if_neg (by rw [hk]; simp), if_neg (by rw [hsh, r5]; simp)]
      rfl
    have hnd' := List.nodup_cons.1 hnd
    dsimp only at hnd'
    set s1 : PriorFeedback :=
      { s with ft := some f, dbn := { s.dbn with twoTbn := s.dbn.twoTbn.putCpd node r.potentials } } with hs1
    obtain ⟨two', t1, t2⟩ := ih s1 rfl hnd'.2
      (by
        have : (s.dbn.twoTbn.putCpd node r.potentials).names = s.dbn.twoTbn.names :=
          BN.names_of_bare (BN.bare_putCpd ..)
        change (s.dbn.twoTbn.putCpd node r.potentials).names.Nodup
        rw [this]; exact hn2)
      (fun tr h => hsrc tr (by simp [h]))
      (fun tr h => by
        obtain ⟨m, m1, m2, m3, m4⟩ := hnode tr (by simp [h])
        refine ⟨m, BN.mem_putCpd.2 (Or.inl ⟨m1, ?_⟩), m2, m3, m4⟩
        rintro rfl
        exact hnd'.1 (m2 ▸ List.mem_map_of_mem h))
    refine ⟨two', ?_, t2.bare.trans (BN.bare_putCpd ..), ?_, ?_⟩
    · rw [feedR, hg]
      dsimp only
      rw [hf]
      dsimp only
      rw [ht]
      dsimp only
      rw [hset]
      dsimp only
      rw [show ({ s with ft := some f, dbn := { s.dbn with twoTbn := s.dbn.twoTbn.putCpd node r.potentials } } :
        PriorFeedback) = s1 from rfl, t1]
    · intro tr htr m hm hmn
      rcases List.mem_cons.1 htr with rfl | htr
      · dsimp only at hmn ⊢
        have hk' := t2.kept m hm (by rw [hmn]; exact hnd'.1)
        rcases BN.mem_putCpd.1 hk' with ⟨-, h2⟩ | ⟨m', -, -, rfl⟩
        · exact absurd hmn h2
        · exact ⟨r5, r6⟩
      · exact t2.fed tr htr m hm hmn
    · intro m hm hmn
      simp only [List.map_cons, List.mem_cons, not_or] at hmn
      rcases BN.mem_putCpd.1 (t2.kept m hm hmn.2) with ⟨h1, -⟩ | ⟨m', -, h2, rfl⟩
      · exact h1
      · exact absurd h2 hmn.1

/-- the tree of the slice after `n` others, with the evidence `e` -/
def Tree (A : Arith) (u : ℚ) (n : Nat) (s : PriorFeedback) (net : BN) (e : Dict Evidence) : Prop :=
  ∃ f, s.ft = some f ∧ f.two = decide (n ≠ 0) ∧ f.tree.Nearly A u (treeRoundings net e.length) net e

/-- the state agrees with the diary -/
structure TracksR (A : Arith) (u : ℚ) (d : DBN) (g : Diary) (s : PriorFeedback) (net two : BN) : Prop where
  slices : NearSlices u d g.past net two
  good : d.Good two
  dbn : s.dbn = { d with twoTbn := two }
  time : s.t = g.past.length
  flag : s.evidence = g.now.isSome
  now : ∀ e, g.now = some e → LegalEvidence net e ∧ NonNegEvidence e ∧ Tree A u g.past.length s net e
  old : g.now = none → (g.past = [] ∧ s.ft = none) ∨ ∃ past e net' two', g.past = past ++ [e] ∧
    NearSlices u d past net' two' ∧ LegalEvidence net' e ∧ NonNegEvidence e ∧ Tree A u past.length s net' e

section
variable {A : Arith} {u : ℚ} {d : DBN} {g : Diary} {s : PriorFeedback} {net two : BN} {limit : Nat}
  {ev : Option (Dict Evidence)}

/-- from the third slice on there is a tree of the two-slice network -/
theorem TracksR.tree (hu : u < 1) (h : d.Ready) (ht : TracksR A u d g s net two) (h2 : 2 ≤ s.t) :
    ∃ f, s.ft = some f ∧ f.two = true ∧ f.tree.Sane u two := by
  have hlen : 2 ≤ g.past.length := ht.time ▸ h2
  cases hn : g.now with
  | some e =>
    obtain ⟨-, -, f, h1, h3, h4⟩ := ht.now e hn
    refine ⟨f, h1, by rw [h3]; exact decide_eq_true (by omega), h4.sane.of_bare ?_⟩
    have := (DBN.Good.nearNet h ht.slices ht.good).2.2.2.2
    rw [this, if_neg (by omega)]
  | none =>
    rcases ht.old hn with ⟨h1, -⟩ | ⟨past, e, net', two', h1, h3, -, -, f, h4, h5, h6⟩
    · rw [h1] at hlen; simp at hlen
    · rw [h1, List.length_append, List.length_singleton] at hlen
      refine ⟨f, h4, by rw [h5]; exact decide_eq_true (by omega), h6.sane.of_bare ?_⟩
      have hg' := h3.good hu h
      have := (DBN.Good.nearNet h h3 hg').2.2.2.2
      rw [this, if_neg (by omega), ht.good.bare, hg'.bare]

theorem setInnerR_near (hA : A.Accurate u) (h : d.Ready) (ht : TracksR A u d g s net two) (so : SetOrder)
    (ha : d.Allows g.past.length limit ev) :
    ∃ s', setInnerR A so limit ev false s = (s', none) ∧ s'.dbn = s.dbn ∧ s'.t = s.t ∧ s'.evidence = s.evidence ∧
      Tree A u g.past.length s' net (ev.getD []) ∧ LegalEvidence net (ev.getD []) := by
  obtain ⟨n1, n2, n3, n4, n5⟩ := DBN.Good.nearNet h ht.slices ht.good
  have hle : LegalEvidence net (ev.getD []) := ha.1.of_bare n4
  have hlim : net.length ≤ limit := by rw [BN.length_of_bare n4]; exact ha.2.2
  have hnet : (if s.t = 0 then s.dbn.b0 else s.dbn.twoTbn) = net := by rw [n5, ht.time, ht.dbn]
  by_cases h1 : s.t ≤ 1
  · have hn : (if decide (s.t = 1) = true then s.dbn.twoTbn else s.dbn.b0) = net := by
      rw [← hnet]
      rcases Nat.le_one_iff_eq_zero_or_eq_one.1 h1 with h | h <;> simp [h]
    obtain ⟨t0, a1, a2⟩ := sane_create hA n1 n2 so
    obtain ⟨t1, b1, b2⟩ := a2.setEvidence hA n1 n2 n3 hle ha.2.1 hlim so
    refine ⟨{ s with ft := some ⟨decide (s.t = 1), t1⟩ }, ?_, rfl, rfl, rfl,
      ⟨⟨decide (s.t = 1), t1⟩, rfl, ?_, b2⟩, hle⟩
    · unfold setInnerR
      rw [if_pos h1]
      have : SliceTree.createR A so s.dbn (decide (s.t = 1)) = .ok ⟨decide (s.t = 1), t0⟩ := by
        unfold SliceTree.createR
        rw [hn, a1, ok_bind]
        rfl
      rw [this]
      dsimp only [enterR, SliceTree.setEvidenceR, SliceTree.net]
      rw [hn, b1]
    · dsimp only
      rw [← ht.time, decide_eq_decide]
      omega
  · obtain ⟨f, hf, f1, f2⟩ := ht.tree hA.lt_one h (by omega)
    have hnt : two = net := by rw [n5, ← ht.time, if_neg (by omega)]
    rw [hnt] at f2
    have hn : f.net s.dbn = net := by
      unfold SliceTree.net
      rw [f1, if_pos rfl, ht.dbn]
      exact hnt
    obtain ⟨t0, a1, a2⟩ := f2.reset hA n1 n2 so
    obtain ⟨t1, b1, b2⟩ := a2.setEvidence hA n1 n2 n3 hle ha.2.1 hlim so
    refine ⟨{ s with ft := some ⟨f.two, t1⟩ }, ?_, rfl, rfl, rfl, ⟨⟨f.two, t1⟩, rfl, ?_, b2⟩, hle⟩
    · unfold setInnerR
      rw [if_neg h1, hf]
      dsimp only
      have : f.resetR A so s.dbn = (⟨f.two, t0⟩, none) := by
        unfold SliceTree.resetR
        dsimp only
        rw [hn, a1]
      rw [this]
      dsimp only [enterR, SliceTree.setEvidenceR]
      have hn' : (⟨f.two, t0⟩ : SliceTree).net s.dbn = net := hn
      rw [hn', b1]
    · dsimp only
      rw [f1, ← ht.time]
      symm
      simp
      omega

theorem tracksR_create (h : d.Ready) : TracksR A u d ⟨[], none⟩ (create d) d.b0 d.twoTbn :=
  ⟨.start, .start h, rfl, rfl, rfl, fun e he => (by cases he), fun _ => Or.inl ⟨rfl, rfl⟩⟩

theorem TracksR.setEvidence (hA : A.Accurate u) (h : d.Ready) (ht : TracksR A u d g s net two) (so : SetOrder)
    (ha : d.Allows g.past.length limit ev) :
    ∃ s', s.setEvidenceR A so limit ev = (s', none) ∧
      TracksR A u d { g with now := some (ev.getD []) } s' net two := by
  obtain ⟨s1, h1, h2, h3, h4, ⟨f, h5, h6⟩, h7⟩ := setInnerR_near hA h ht so ha
  refine ⟨{ s1 with evidence := true }, ?_, ht.slices, ht.good, h2.trans ht.dbn, h3.trans ht.time, rfl,
    fun e he => ?_, fun h => (by cases h)⟩
  · unfold PriorFeedback.setEvidenceR
    rw [h1]
  · injection he with he
    subst he
    exact ⟨h7, ha.2.1, f, h5, h6⟩

theorem TracksR.marginals (ht : TracksR A u d g s net two) (so : SetOrder) (limit : Nat) (vs : List Name) :
    (s.marginalsR A so limit vs).1 = s := by
  have key : ∀ n net e, Tree A u n s net e → (s.marginalsR A so limit vs).1 = s := by
    rintro n net e ⟨f, hf, -, hx⟩
    unfold PriorFeedback.marginalsR
    rw [hf]
    dsimp only [SliceTree.marginalsR]
    rw [hx.fixed]
    obtain ⟨d, t, ev, ft⟩ := s
    dsimp only at hf ⊢
    rw [hf]
  cases hn : g.now with
  | some e => exact key _ _ _ (ht.now e hn).2.2
  | none =>
    rcases ht.old hn with ⟨-, hf⟩ | ⟨past, e, net', two', -, -, -, -, hx⟩
    · unfold PriorFeedback.marginalsR
      rw [hf]
    · exact key _ _ _ hx

theorem TracksR.unroll (hA : A.Accurate u) (h : d.Ready) (ht : TracksR A u d g s net two) (so : SetOrder)
    (ha : d.Allows g.past.length limit ev) {soft : Option Bool} (hsoft : soft ≠ some true) :
    ∃ s' two', s.unrollR A so limit ev soft = (s', none) ∧
      TracksR A u d ⟨g.past ++ [(ev.or g.now).getD []], none⟩ s' two' two' := by
  have hsf : soft.getD false = false := by
    rcases soft with _ | _ | _
    · rfl
    · rfl
    · exact absurd rfl hsoft
  -- the tree holds the evidence of the slice
  have hb : ∃ s1, (if ¬ s.evidence = true ∨ ev ≠ none then setInnerR A so limit ev (soft.getD false) s else (s, none)) =
      (s1, none) ∧ s1.dbn = s.dbn ∧ s1.t = s.t ∧ LegalEvidence net ((ev.or g.now).getD []) ∧
      NonNegEvidence ((ev.or g.now).getD []) ∧ Tree A u g.past.length s1 net ((ev.or g.now).getD []) := by
    by_cases hc : ¬ s.evidence = true ∨ ev ≠ none
    · rw [if_pos hc, hsf]
      obtain ⟨s1, h1, h2, h3, h4, h5, h6⟩ := setInnerR_near hA h ht so ha
      have : (ev.or g.now).getD [] = ev.getD [] := by
        cases ev with
        | some e => rfl
        | none =>
          have hs : s.evidence = false := by
            rcases hc with hc | hc
            · simpa using hc
            · exact absurd rfl hc
          rw [ht.flag] at hs
          have : g.now = none := by simpa using hs
          rw [this]; rfl
      rw [this]
      exact ⟨s1, h1, h2, h3, h6, ha.2.1, h5⟩
    · rw [if_neg hc]
      push Not at hc
      obtain ⟨hc, rfl⟩ := hc
      rw [ht.flag] at hc
      obtain ⟨e, he⟩ := Option.isSome_iff_exists.1 hc
      obtain ⟨hle, hne, hx⟩ := ht.now e he
      rw [he]
      exact ⟨s, rfl, rfl, rfl, hle, hne, hx⟩
  obtain ⟨s1, b1, b2, b3, b4, b5, f, b6, b7, b8⟩ := hb
  set e := (ev.or g.now).getD [] with he
  obtain ⟨n1, n2, n3, n4, n5⟩ := DBN.Good.nearNet h ht.slices ht.good
  have hd1 : s1.dbn = { d with twoTbn := two } := b2.trans ht.dbn
  have hcard := DBN.slice_card n4
  obtain ⟨two', f1, f2⟩ := feedR_near (A := A) (u := u) so limit (net := net) (ev := e) d.transitions s1 (f := f) b6 b8
    h.targets (by rw [hd1]; exact ht.good.setup.consistent.nodup)
    (fun tr htr => by
      rw [BN.names_of_bare n4]
      unfold DBN.slice
      split
      · exact (h.source tr htr).1
      · exact (h.source tr htr).2)
    (fun tr htr => by
      obtain ⟨m, m1, m2, m3, m4, m5, m6⟩ := h.node tr htr
      obtain ⟨n, hn, e1, e2, e3, e4, -⟩ := BN.mem_bare ht.good.bare.symm m1
      rw [hd1]
      refine ⟨n, hn, e1.trans m2, e2.trans m3, ?_⟩
      rw [ht.good.setup.consistent.shape n hn, e3, e4, m4]
      rcases hcard tr htr with hc | hc
      · rw [hc, m5]; rfl
      · rw [hc, m6]; rfl)
  rw [hd1] at f2
  have hg' : d.Good two' := ht.good.fedNear hA.lt_one h hcard f2
  have hu : unrollInnerR A so limit s1 =
      ({ s1 with dbn := { d with twoTbn := two' }, t := s1.t + 1 }, none) := by
    unfold unrollInnerR
    have : s1.dbn.transitions = d.transitions := by rw [hd1]
    rw [this, f1, hd1]
  have hr : s.unrollR A so limit ev soft =
      ({ s1 with dbn := { d with twoTbn := two' }, t := s1.t + 1, evidence := false }, none) := by
    unfold unrollR
    dsimp only
    rw [b1]
    dsimp only
    rw [hu]
  refine ⟨_, two', hr, .next ht.slices b4 b5 f2, hg', rfl, ?_, rfl, fun e he => (by cases he),
    fun _ => Or.inr ⟨g.past, e, net, two, rfl, ht.slices, b4, b5, f, b6, b7, b8⟩⟩
  dsimp only
  rw [b3, ht.time]
  simp

theorem TracksR.call (hA : A.Accurate u) (h : d.Ready) (ht : TracksR A u d g s net two) {op : DynOp}
    (ho : op.Fair d g.past.length) :
    ((∀ so limit vs, op ≠ .marginals so limit vs) → (PriorFeedback.callR A op s).2 = none) ∧
      ∃ net' two', TracksR A u d (g.note op) (PriorFeedback.callR A op s).1 net' two' := by
  cases op with
  | setEvidence so limit ev =>
    obtain ⟨s', h1, h2⟩ := ht.setEvidence hA h so ho
    dsimp only [PriorFeedback.callR]
    rw [h1]
    exact ⟨fun _ => rfl, net, two, h2⟩
  | unroll so limit ev soft =>
    obtain ⟨s', two', h1, h3⟩ := ht.unroll hA h so ho.1 ho.2
    dsimp only [PriorFeedback.callR]
    rw [h1]
    exact ⟨fun _ => rfl, two', two', h3⟩
  | marginals so limit vs =>
    refine ⟨fun hh => absurd rfl (hh so limit vs), net, two, ?_⟩
    have := ht.marginals so limit vs
    dsimp only [PriorFeedback.callR]
    rw [this]
    exact ht

theorem TracksR.runs (hA : A.Accurate u) (h : d.Ready) (ops : List DynOp) (ht : TracksR A u d g s net two)
    (ho : FairHistory d g ops) :
    ∃ net' two', TracksR A u d (g.notes ops) (PriorFeedback.runsR A ops s) net' two' := by
  induction ops generalizing g s net two with
  | nil => exact ⟨net, two, ht⟩
  | cons op ops ih =>
    obtain ⟨-, net', two', h1⟩ := ht.call hA h ho.1
    exact ih h1 ho.2

end
theorem answersR {A : Arith} {u : ℚ} {s : PriorFeedback} {n : Nat} {netR net : BN} {e : Dict Evidence} {m : Nat}
    (hu : u < 1) (h : Tree A u n s netR e) (hb : netR.bare = net.bare) (hs : SkewNets u m netR e net e) :
    AnswersNear u (fun vs => treeRoundings net e.length vs + m) (fun so limit vs => s.marginalsR A so limit vs) s net e ∧
      AnswersDictNear u (fun vs => treeRoundings net e.length vs + m)
        (fun so limit v => s.marginalProbabilitiesR A so limit v) s net e := by
  obtain ⟨f, hf, -, h⟩ := h
  have key : ∀ so limit vs r, f.tree.marginalsR A so limit vs = (f.tree, r) →
      s.marginalsR A so limit vs = (s, r) := by
    intro so limit vs r hr
    unfold PriorFeedback.marginalsR
    rw [hf]
    dsimp only [SliceTree.marginalsR]
    rw [hr]
    obtain ⟨a, b, c, d⟩ := s
    dsimp only at hf ⊢
    rw [hf]
  obtain ⟨h1, h2⟩ := h.answers hu hb hs
  simp only [treeRoundings_of_bare hb] at h1 h2
  refine ⟨fun n hn vs hvs so limit => ?_, fun v hv so limit => ?_⟩
  · obtain ⟨r, r1, r2⟩ := h1 n hn vs hvs so limit
    exact ⟨r, key _ _ _ _ r1, r2⟩
  · obtain ⟨ps, r1, r2⟩ := h2 v hv so limit
    refine ⟨ps, ?_, r2⟩
    have := congrArg Prod.fst r1
    dsimp only at this
    dsimp only [PriorFeedback.marginalProbabilitiesR]
    rw [key so limit [v] _ (Prod.ext this rfl)]
    have h3 := congrArg Prod.snd r1
    dsimp only at h3 ⊢
    rw [h3]

/-! ### exact arithmetic gives the functions of `Verif/Dynamic.lean` -/

theorem setInnerR_exact (so : SetOrder) (limit : Nat) (ev : Option (Dict Evidence)) (soft : Bool) (s : PriorFeedback) :
    setInnerR .exact so limit ev soft s = setInner so limit ev soft s := by
  unfold setInnerR setInner enterR enter
  simp only [SliceTree.createR_exact, SliceTree.resetR_exact, SliceTree.setEvidenceR_exact]
  rfl

theorem feedR_exact (so : SetOrder) (limit : Nat) : ∀ (trs : List (Name × Name)) (s : PriorFeedback),
    feedR .exact so limit trs s = feed so limit trs s
  | [], _ => rfl
  | (a, b) :: trs, s => by
    unfold feedR feed
    simp only [SliceTree.tableR_exact, feedR_exact so limit trs]
    rfl

theorem callR_exact (op : DynOp) (s : PriorFeedback) : callR .exact op s = call op s := by
  cases op with
  | setEvidence so limit ev =>
    simp only [callR, call, setEvidenceR, PriorFeedback.setEvidence, setInnerR_exact]
    rfl
  | unroll so limit ev soft =>
    simp only [callR, call, unrollR, PriorFeedback.unroll, unrollInnerR, unrollInner, setInnerR_exact, feedR_exact]
    rfl
  | marginals so limit vs =>
    simp only [callR, call, PriorFeedback.marginalsR, PriorFeedback.marginals, SliceTree.marginalsR_exact]
    rfl

theorem runsR_exact (ops : List DynOp) (s : PriorFeedback) : runsR .exact ops s = runs ops s := by
  unfold runsR runs
  simp only [callR_exact]

end PriorFeedback
end Primo
