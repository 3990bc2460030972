import Verif.Lemmas.RoundedBound
import Verif.Props.Rounded
import Verif.Props.Dynamic

/-! # C83: a bound for the roundings in the answers of a `FactorTree` -/

namespace Primo
open JoinTree

theorem TreeSetup.placed {bn : BN} {order0 : Option (List Name)} (h : TreeSetup bn order0) (hn : bn.NonNeg)
    (hco : bn.Connected) (so : SetOrder) : ∃ t root rvars kids, create so bn order0 = .ok t ∧
      JTree.Placed bn t root rvars kids ∧ JTree.Room bn.lab t := by
  obtain ⟨t, root, rvars, kids, others, a1, a2, a3, a4, -⟩ := h.made so
  cases a3 hco
  obtain ⟨order, o1, o2⟩ := h.order
  obtain ⟨t', b1, L, b2, b3, -⟩ := JTree.create_cliques so h.consistent h.linked h.recorded h.names order0 o1 o2
  rw [a1] at b1
  cases b1
  obtain ⟨c1, c2⟩ := JTree.create_room h.consistent h.linked h.recorded h.names o1 o2 a1
  refine ⟨t, root, rvars, kids, a1, ⟨h.consistent, hn, a2, c1, a4, ?_⟩, c2⟩
  have h1 := a2.keys.length_eq
  have h2 := congrArg List.length b3
  simp only [JTree.skel, Dict.keys, List.length_map, List.length_reverse, List.append_nil, List.length_cons] at h1 h2
  omega

theorem JTree.Near.shape {u : ℚ} {k : Nat} {t t₀ : JTree} (h : t.Near u k t₀) : t.shape = t₀.shape := by
  unfold JTree.shape
  refine Prod.ext ?_ (Prod.ext h.adj ?_)
  · have := h.nodes
    simp only
    generalize t.nodes = l at this
    generalize t₀.nodes = l₀ at this
    induction this with
    | nil => rfl
    | cons h _ ih => rw [List.map_cons, List.map_cons, h.1, h.2.1, ih]
  · have := h.edges
    simp only
    generalize t.edges = l at this
    generalize t₀.edges = l₀ at this
    induction this with
    | nil => rfl
    | cons h _ ih => rw [List.map_cons, List.map_cons, h.1, h.2.1, h.2.2.1, ih]

theorem JTree.Placed.room {bn : BN} {t₀ t₁ : JTree} {root : Name} {rvars : List Name} {kids : Forest}
    (h : JTree.Placed bn t₀ root rvars kids) {so : SetOrder} {limit : Nat} {ev : Dict Evidence} {soft : Bool}
    (hok : JTree.setEvidence so limit bn ev soft t₀ = (t₁, none)) : JTree.Room bn.lab t₁ := by
  obtain ⟨r₀, h1, h2⟩ := JTree.andThen_eq_ok (show _ = (t₁, none) from hok)
  have e1 : r₀.shape = t₀.shape := by
    have := JTree.reset_shape so bn t₀
    rwa [h1] at this
  have hd := (JTree.room_reset so h.labelled h1).setEvidence so limit h.labelled ev soft (h.seps.of_shape e1)
  have hrr : JTree.reset so bn r₀ = (r₀, none) := by
    obtain ⟨g1, g2⟩ := JTree.reset_eq so bn e1
    rw [h1] at g1 g2
    exact Prod.ext (g2 rfl) g1
  have : JTree.setEvidence so limit bn ev soft r₀ = (t₁, none) := by
    unfold JTree.setEvidence
    rw [hrr, JTree.andThen_ok]
    exact h2
  rwa [this] at hd

/-- the history of a tree with rounded arithmetic -/
theorem TreeSetup.history {bn : BN} {order0 : Option (List Name)} (h : TreeSetup bn order0) (hn : bn.NonNeg)
    (hco : bn.Connected) (so : SetOrder) {ops : List TreeOp} (hops : ∀ op ∈ ops, op.NonNeg) {A : Arith} {u : ℚ}
    (hA : A.Accurate u) : ∃ t t₀ root rvars kids k, createR A so bn order0 = .ok t ∧
      JTree.Placed bn t₀ root rvars kids ∧ (TreeOp.runsR A ops t).Near u k t₀ := by
  obtain ⟨t₀, root, rvars, kids, a1, a2, -⟩ := h.placed hn hco so
  obtain ⟨m, hm⟩ := JTree.near_create so hn order0
  obtain ⟨t, b1, b2⟩ := (hm u A hA).ok_right a1
  obtain ⟨m', hm'⟩ := TreeOp.near_runs ops hops t₀ m
  exact ⟨t, TreeOp.runs ops t₀, root, rvars, kids, m', b1, a2.of_shape (TreeOp.runs_shape ops t₀), hm' u A hA t b2⟩

theorem JTree.Placed.families {bn : BN} {t₀ t t' : JTree} {root : Name} {rvars : List Name} {kids : Forest}
    (h : JTree.Placed bn t₀ root rvars kids) (hs : t.shape = t₀.shape) (hs' : t'.shape = t.shape) :
    ∀ n ∈ bn, t'.Covers n.family := by
  intro n hn
  obtain ⟨q, hq, hqf⟩ := ((h.of_shape hs).of_shape hs').sits.fam n hn
  exact ⟨q.1, q.2, JTree.clique_iff_skel.2 hq, hqf⟩

theorem JTree.Covers.skel {t t₀ : JTree} {vs : List Name} (h : t.Covers vs) (hs : t.shape = t₀.shape) :
    ∃ q ∈ JTree.skel t₀.nodes, ∀ x ∈ vs, x ∈ q.2 := by
  obtain ⟨k, vars, hk, hv⟩ := h
  exact ⟨(k, vars), JTree.clique_iff_skel.1 ((JTree.clique_of_shape hs _ _).1 hk), hv⟩

/-- **C83** A `FactorTree` with rounded arithmetic, whatever happened to it before: `set_evidence` succeeds, and
each entry of the answer to any query that a clique can answer is within `treeRoundings` roundings of the posterior.
The bound is a number computed from the sizes of the network alone. -/
theorem C83_tree_error_partial {bn : BN} {order0 : Option (List Name)} (h : TreeSetup bn order0)
    (hn : bn.NonNeg) (hco : bn.Connected) {ev : Dict Evidence} (he : LegalEvidence bn ev)
    (hen : NonNegEvidence ev) {limit : Nat} (hl : bn.length ≤ limit) (so₁ so₂ : SetOrder)
    {ops : List TreeOp} (hops : ∀ op ∈ ops, op.NonNeg) {A : Arith} {u : ℚ} (hA : A.Accurate u) :
    ∃ t t', createR A so₁ bn order0 = .ok t ∧
      (TreeOp.runsR A ops t).setEvidenceR A so₂ limit bn ev false = (t', none) ∧
      (∀ n ∈ bn, t'.Covers n.family) ∧
      ∀ vs, t'.Covers vs → ∀ so₃ limit', ∃ r, t'.marginalsR A so₃ limit' vs = (t', .ok r) ∧ r.WF bn.card ∧
        (∀ v ∈ r.variableOrder, r.values.get? v = some (bn.lab v)) ∧
        (∀ v, v ∈ r.variableOrder ↔ v ∈ vs) ∧
        ∀ σ, Legal bn.card vs σ → Near u (treeRoundings bn ev.length vs) (r.eval σ) (posterior bn ev vs σ) := by
  obtain ⟨t, t₀, root, rvars, kids, k, a1, a2, a3⟩ := h.history hn hco so₁ hops hA
  have hl' := lt_of_lt_of_le a2.depth hl
  obtain ⟨t₁, Φ, Ψ, b1, b2, b3⟩ := JTree.setEvidence_spec so₂ h.consistent hn a2.sits he hen hl'
  obtain ⟨t', c1, c2⟩ := a2.setEvidence hA so₂ a3 hen hl' b1 b3.valid
  have hp := a2.of_shape b2
  have hr := a2.room b1
  refine ⟨t, t', a1, c1, a2.families b2 c2.shape, fun vs hvs so₃ limit' => ?_⟩
  obtain ⟨q, hq, hqv⟩ := hvs.skel c2.shape
  obtain ⟨r₀, d1, d2, d3, d4⟩ := b3.posterior so₃ ⟨q, hq, by simp, hqv⟩ (Or.inl rfl) limit'
  obtain ⟨r, e1, e2⟩ := hp.marginals hA so₃ hr c2 b3.valid d1 d2.wf d3
  have hov := e2.over d2
  refine ⟨r, e1, hov.wf, hov.val, fun v => by rw [e2.order, d3], fun σ hσ => ?_⟩
  rw [← d4 σ hσ]
  exact e2.eval σ

theorem JTree.marginalsR_first {A : Arith} {so : SetOrder} {limit : Nat} {r s : JTree} (hv : r.valid = false)
    (hs : s.valid = true) (h : r.calculateR A so limit = (s, none)) (vs : List Name) :
    r.marginalsR A so limit vs = s.marginalsR A so limit vs := by
  unfold JTree.marginalsR
  rw [if_neg (by rw [hv]; simp), if_pos hs, h]

/-- **C83** Without evidence: the first query to a new tree, or to an old one after `reset_factors`, computes the
messages. -/
theorem C83_prior_error_partial {bn : BN} {order0 : Option (List Name)} (h : TreeSetup bn order0)
    (hn : bn.NonNeg) (hco : bn.Connected) {limit : Nat} (hl : bn.length ≤ limit) (so₁ so₂ : SetOrder)
    {ops : List TreeOp} (hops : ∀ op ∈ ops, op.NonNeg) {A : Arith} {u : ℚ} (hA : A.Accurate u) :
    ∃ t t', createR A so₁ bn order0 = .ok t ∧ (TreeOp.runsR A ops t).resetR A so₂ bn = (t', none) ∧
      (∀ n ∈ bn, t.Covers n.family) ∧
      ∀ vs, t.Covers vs → ∀ so₃, ∀ s ∈ [t, t'], ∃ r, (s.marginalsR A so₃ limit vs).2 = .ok r ∧ r.WF bn.card ∧
        (∀ v ∈ r.variableOrder, r.values.get? v = some (bn.lab v)) ∧
        (∀ v, v ∈ r.variableOrder ↔ v ∈ vs) ∧
        ∀ σ, Legal bn.card vs σ → Near u (treeRoundings bn 0 vs) (r.eval σ) (posterior bn [] vs σ) := by
  obtain ⟨t₀, root, rvars, kids, a1, a2, -⟩ := h.placed hn hco so₁
  obtain ⟨t, κ, b1, b2, b3⟩ := JTree.nearBy_create hA so₁ hn a2.sits.nodup a1
  have hl' := lt_of_lt_of_le a2.depth hl
  have hself := JTree.reset_create so₁ a1 (t' := t₀) rfl
  have htsh : t.shape = t₀.shape :=
    (b2.near (m := bn.length) hA.nonneg hA.lt_one (fun k hk => by
      refine le_trans ?_ b3
      unfold JTree.tally
      exact List.single_le_sum (fun _ _ => Nat.zero_le _) _ (List.mem_map_of_mem hk)) (fun _ _ => Nat.zero_le _)).shape
  obtain ⟨m, hm⟩ := JTree.near_create so₁ hn order0
  have hmt : t.Near u m t₀ := by
    obtain ⟨x, x1, x2⟩ := (hm u A hA).ok_right a1
    rw [b1] at x1
    cases x1
    exact x2
  obtain ⟨m', hm'⟩ := TreeOp.near_runs ops hops t₀ m
  have hrun := hm' u A hA t hmt
  have hp := a2.of_shape (TreeOp.runs_shape ops t₀)
  obtain ⟨r₀, c1, -⟩ := hp.sits.reset so₂ h.consistent
  obtain ⟨t', κ', d1, d2, d3, d4⟩ := JTree.near_reset hA so₂ hn hrun hp.sits.nodup c1
  refine ⟨t, t', b1, d1, a2.families rfl htsh, fun vs hvs so₃ s hs => ?_⟩
  have key : ∀ (so : SetOrder) (p₀ q₀ q : JTree) (κ : Name → Nat), p₀.shape = t₀.shape →
      JTree.reset so bn p₀ = (q₀, none) → q.NearBy u κ (fun _ => 0) q₀ → JTree.tally κ q₀ ≤ bn.length →
      ∃ r, (q.marginalsR A so₃ limit vs).2 = .ok r ∧ r.WF bn.card ∧
        (∀ v ∈ r.variableOrder, r.values.get? v = some (bn.lab v)) ∧
        (∀ v, v ∈ r.variableOrder ↔ v ∈ vs) ∧
        ∀ σ, Legal bn.card vs σ → Near u (treeRoundings bn 0 vs) (r.eval σ) (posterior bn [] vs σ) := by
    intro so p₀ q₀ q κ e1 e2 e3 e4
    obtain ⟨s₀, s, f1, f2, f3, f4, -, f5, f6, f7⟩ := (a2.of_shape e1).tables hA so so₃ e2 e3 e4 hl'
    obtain ⟨q', hq', hqv⟩ := hvs.skel htsh
    obtain ⟨m, r, g2, g3, g4, g5, g6, g7⟩ := f7 vs so₃ limit
      ⟨q', by rw [JTree.skel_of_shape (f3.trans e1)]; exact hq', hqv⟩
    have hov := g7.over g3
    refine ⟨r, ?_, hov.wf, hov.val, fun v => by rw [g7.order, g4], fun σ hσ => ?_⟩
    · rw [JTree.marginalsR_first (by rw [e3.valid]; exact f2) (by rw [f6.valid]; exact f4) f5, g6]
    · rw [← g5 σ hσ]
      exact g7.eval σ
  simp only [List.mem_cons, List.not_mem_nil, or_false] at hs
  rcases hs with rfl | rfl
  · exact key so₁ t₀ t₀ s κ rfl hself b2 b3
  · exact key so₂ _ r₀ s κ' (TreeOp.runs_shape ops t₀) c1 d2 d4

/-- **C83** Posteriors as evidence (`softPosteriors=True`): the old marginals are computed with rounded arithmetic, too,
and divide the new ones. -/
theorem C83_soft_error_partial {bn : BN} {order0 : Option (List Name)} (h : TreeSetup bn order0)
    (hn : bn.NonNeg) (hco : bn.Connected) {ev : Dict Evidence} (he : LegalEvidence bn ev)
    (hsup : Supported bn ev) {limit : Nat} (hl : bn.length ≤ limit) (so₁ so₂ : SetOrder)
    {ops : List TreeOp} (hops : ∀ op ∈ ops, op.NonNeg) {A : Arith} {u : ℚ} (hA : A.Accurate u) :
    ∃ t t', createR A so₁ bn order0 = .ok t ∧
      (TreeOp.runsR A ops t).setEvidenceR A so₂ limit bn ev true = (t', none) ∧
      (∀ n ∈ bn, t'.Covers n.family) ∧
      ∀ vs, t'.Covers vs → ∀ so₃ limit', ∃ r, t'.marginalsR A so₃ limit' vs = (t', .ok r) ∧ r.WF bn.card ∧
        (∀ v ∈ r.variableOrder, r.values.get? v = some (bn.lab v)) ∧
        (∀ v, v ∈ r.variableOrder ↔ v ∈ vs) ∧
        ∀ σ, Legal bn.card vs σ → Near u (treeRoundings bn (softRoundings bn ev) vs) (r.eval σ)
          (posterior bn (softened bn ev) vs σ) := by
  obtain ⟨t, t₀, root, rvars, kids, k, a1, a2, a3⟩ := h.history hn hco so₁ hops hA
  have hl' := lt_of_lt_of_le a2.depth hl
  obtain ⟨t₁, Φ, Ψ, c, b1, b2, b0, b3⟩ := JTree.setEvidence_soft so₂ h.consistent hn a2.sits he hsup hl'
  obtain ⟨t', c1, c2⟩ := a2.setSoft hA so₂ a3 (fun v l hm => (hsup v l hm).1) he.mem hl' b1 b3.valid
  have hp := a2.of_shape b2
  have hr := a2.room b1
  refine ⟨t, t', a1, c1, a2.families b2 c2.shape, fun vs hvs so₃ limit' => ?_⟩
  obtain ⟨r₀, d1, d2, d3, d4⟩ := b3.scaled so₃ b0 hn (NonNegEvidence.softened hn hsup) (hvs.skel c2.shape) limit'
  obtain ⟨r, e1, e2⟩ := hp.marginals hA so₃ hr c2 b3.valid d1 d2.wf d3
  have hov := e2.over d2
  refine ⟨r, e1, hov.wf, hov.val, fun v => by rw [e2.order, d3], fun σ hσ => ?_⟩
  rw [← d4 σ hσ]
  exact e2.eval σ

/-- **C83** What the bound means: the relative error of an answer is at most `2 k u`, as long as this is at most one,
for `k` as given. -/
theorem C83_relative_error_partial {bn : BN} {ev : Dict Evidence} {e : Nat} {vs : List Name} {u x : ℚ} {σ : Assign} (h0 : 0 ≤ u)
    (hu : u < 1) (h : Near u (treeRoundings bn e vs) x (posterior bn ev vs σ))
    (hk : (treeRoundings bn e vs : ℚ) * u ≤ 1 / 2) :
    |x - posterior bn ev vs σ| ≤ 2 * treeRoundings bn e vs * u * posterior bn ev vs σ ∧
      (x = 0 ↔ posterior bn ev vs σ = 0) :=
  ⟨(C63_error h0 hu h).2.2 hk, (C63_error h0 hu h).2.1⟩

theorem Ex.history_nonneg : ∀ op ∈ Ex.history, op.NonNeg := by
  intro op h
  simp only [Ex.history, List.mem_cons, List.not_mem_nil, or_false] at h
  rcases h with rfl | rfl | rfl | rfl | rfl
  all_goals first
    | exact trivial
    | exact Ex.bn_nonneg
    | exact ⟨Ex.bn_nonneg, by intro v l h; simp at h⟩

example := C83_tree_error_partial Ex.bn_perfect.tree Ex.bn_nonneg Ex.bn_connected Ex.ev_legal Ex.ev_nonneg (limit := 4)
  (by decide) .insertion .reversed Ex.history_nonneg Ex.biased_accurate
example := C83_prior_error_partial Ex.bn_perfect.tree Ex.bn_nonneg Ex.bn_connected (limit := 4)
  (by decide) .insertion .reversed Ex.history_nonneg Ex.biased_accurate
example := C83_soft_error_partial Ex.bn_perfect.tree Ex.bn_nonneg Ex.bn_connected Ex.softEv_legal Ex.softEv_supported
  (limit := 4) (by decide) .insertion .reversed Ex.history_nonneg Ex.biased_accurate
-- the bounds: a few hundred roundings, with double precision a relative error of 10⁻¹³
example : treeRoundings Ex.bn Ex.ev.length ["b"] = 561 ∧ softRoundings Ex.bn Ex.softEv = 2062 := by decide +kernel

end Primo
