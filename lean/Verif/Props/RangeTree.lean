import Verif.Lemmas.RangeQuery
import Verif.Spec.RangeTree
import Verif.Props.RoundedRange

/-! # C91: `FactorTree` with arithmetic of limited range, such as double precision -/

namespace Primo
open JoinTree Factor Finset

theorem BN.EntriesIn.nonNeg {bn : BN} {m M : ℚ} (hm : 0 < m) (hp : bn.EntriesIn m M) : bn.NonNeg := by
  intro n hn x hx
  rcases hp n hn x hx with rfl | ⟨h, -⟩
  · exact le_refl _
  · linarith

theorem EvidenceIn.nonNeg {ev : Dict Evidence} {m M : ℚ} (hm : 0 < m) (hp : EvidenceIn m M ev) : NonNegEvidence ev := by
  intro v l hv x hx
  rcases hp v l hv x hx with rfl | ⟨h, -⟩
  · exact le_refl _
  · linarith

theorem TreeOp.runsR_shape (A : Arith) (ops : List TreeOp) (t : JTree) : (TreeOp.runsR A ops t).shape = t.shape := by
  induction ops generalizing t with
  | nil => rfl
  | cons op ops ih =>
    refine (ih (op.runR A t)).trans ?_
    cases op with
    | reset so bn => exact JTree.resetR_shape A so bn t
    | setEvidence so limit bn ev soft => exact JTree.setEvidenceR_shape A so limit bn ev soft t
    | calculate so limit => exact JTree.calculateR_shape A so limit t
    | marginals so limit vs => exact JTree.marginalsR_shape A so limit vs t

namespace JTree
open JRes

variable {A : Arith} {u δ m M : ℚ} {bn : BN} {root : Name} {rvars : List Name} {kids : Forest} {limit e S : Nat}

/-- the constants of a tree for `e` observations and answers with up to `S` entries -/
abbrev Space (A : Arith) (u δ m M : ℚ) (bn : BN) (e S : Nat) : Prop :=
  Bounds A u δ m M (bn.length + e) (treeDoublings bn e S) (treeRoundingsMax bn e S)

theorem space_of (hA : A.AccurateWithin u δ) (h0 : 0 < m) (h1 : m ≤ 1) (hM : 1 ≤ M) (hN : 0 < bn.length)
    (hroom : δ * (M ^ (bn.length + e) * 2 ^ treeDoublings bn e S) ≤
      m ^ (bn.length + e) * (1 - u) ^ treeRoundingsMax bn e S) : Space A u δ m M bn e S := by
  refine ⟨⟨hA, pow_pos h0 _, pow_le_one₀ h0.le h1, ?_, hroom⟩, h0, h1, hM, ?_⟩
  · exact one_le_mul_of_one_le_of_one_le (one_le_pow₀ hM) (one_le_pow₀ (by norm_num))
  · unfold treeDoublings treeRoundingsMax cliqueRoundings
    have : 1 * (4 * bn.length + e + bn.additions []) ≤ 3 * bn.length * (4 * bn.length + e + bn.additions []) :=
      Nat.mul_le_mul_right _ (by omega)
    omega

theorem additions_le (bn : BN) (hn : bn.names.Nodup) (vs : List Name) : bn.additions vs ≤ bn.additions [] := by
  rw [BN.additions_eq bn hn, BN.additions_eq bn hn]
  exact addsOver_mono (by simp)

/-- the messages of a tree that has been filled with the tables of the network and the evidence -/
theorem Placed.messages {t t₀ t₁ : JTree} (hB : Space A u δ m M bn e S) (so : SetOrder) (h : Placed bn t₀ root rvars kids)
    (hr : Room bn.lab t₀) {d κ : Name → Nat} (ht : t.Filled u m M d κ t₀) (hd : tally d t₀ ≤ bn.length + e)
    (hκ : tally κ t₀ ≤ bn.length + e) (hl : kids.depth < limit) (hv : t₀.valid = false)
    (hok : JTree.calculate so limit t₀ = (t₁, none)) {Φ Ψ W : Assign → ℚ} (hR : Ready bn t₁ root rvars kids [] Φ Ψ W)
    (hW : ∀ σ, In (m ^ (bn.length + e)) (M ^ (bn.length + e)) (W σ)) :
    ∃ t', calculateR A so limit t = (t', none) ∧
      t'.Good u (m ^ (bn.length + e)) (M ^ (bn.length + e) * 2 ^ (4 * bn.length + e + bn.additions []))
        (cliqueRoundings bn e) t₁ := by
  have hM := hB.one_le
  have h1 : bn.additions [] = addsOver (cardOf bn.lab) bn.names.toFinset := by
    rw [BN.additions_eq bn h.consistent.nodup]
    simp
    rfl
  have hsz := h.size
  refine calculate_range hB so (V := bn.names.toFinset) ht h.seps hr h.sits.junction (by simpa using h.sits.keys)
    h.sits.nodup (subset_union_left.trans h.dom) (subset_union_right.trans h.dom) hd (by omega) ?_ ?_ h.depth hl hv
    hok hR.valid fun k hk n hn y hy => ?_
  · unfold treeDoublings
    omega
  · unfold treeRoundingsMax cliqueRoundings
    omega
  · have := hR.ranged (pow_pos hB.pos _) (by positivity) (fun σ _ => hW σ) (.inr hk) n hn y hy
    refine this.imp_right fun ⟨h2, h3⟩ => ⟨h2, h3.trans (Span.pow_mono (by positivity) ?_)⟩
    rw [h1]
    exact Nat.le_add_left _ _

/-- queries to a tree with messages -/
theorem Placed.answer {t t₀ : JTree} (hB : Space A u δ m M bn e S) (so : SetOrder) (h : Placed bn t₀ root rvars kids)
    (hr : Room bn.lab t₀)
    (ht : t.Good u (m ^ (bn.length + e)) (M ^ (bn.length + e) * 2 ^ (4 * bn.length + e + bn.additions []))
      (cliqueRoundings bn e) t₀) (hv : t₀.valid = true) {vs : List Name} {r₀ : Factor}
    (hok : t₀.marginals so limit vs = (t₀, .ok r₀)) (hw : r₀.WF bn.card)
    (hvs : ∀ v, v ∈ r₀.variableOrder ↔ v ∈ vs) (hS : bn.tableSize vs ≤ S) :
    ∃ r, t.marginalsR A so limit vs = (t, .ok r) ∧ r.Near u (treeRoundings bn e vs) r₀ := by
  have hM := hB.one_le
  have hq : t₀.query so vs = .ok r₀ := by
    unfold JTree.marginals at hok
    rw [if_pos hv] at hok
    injection hok
  have hlen := h.length hw hvs
  have hadd := additions_le bn h.consistent.nodup vs
  obtain ⟨r, h1, h2⟩ := query_range hB.span (by positivity) so h hr ht hq
    (by
      rw [hlen, mul_assoc, ← pow_add]
      refine Span.pow_mono (by positivity) ?_
      unfold treeDoublings
      omega)
    (by
      rw [hlen]
      unfold treeRoundingsMax
      omega)
  rw [hlen] at h2
  refine ⟨r, ?_, h2⟩
  unfold marginalsR
  rw [ht.valid, if_pos hv]
  dsimp only
  rw [h1]

/-- `set_evidence` -/
theorem Placed.setRange {t t₁ : JTree} {ev : Dict Evidence} (hB : Space A u δ m M bn ev.length S) (so : SetOrder)
    (h : Placed bn t root rvars kids) (hp : bn.EntriesIn m M) (hpe : EvidenceIn m M ev) (hl : kids.depth < limit)
    (hok : JTree.setEvidence so limit bn ev false t = (t₁, none)) {Φ Ψ : Assign → ℚ}
    (hR : Ready bn t₁ root rvars kids [] Φ Ψ (weight bn ev)) :
    ∃ t', setEvidenceR A so limit bn ev false t = (t', none) ∧
      t'.Good u (m ^ (bn.length + ev.length))
        (M ^ (bn.length + ev.length) * 2 ^ (4 * bn.length + ev.length + bn.additions []))
        (cliqueRoundings bn ev.length) t₁ := by
  have hok' : (JTree.reset so bn t).andThen (fun t => (JRes.forEach (putEvidence so bn []) ev t).andThen
      (JTree.calculate so limit)) = (t₁, none) := by
    unfold JTree.setEvidence at hok
    simpa using hok
  obtain ⟨r₀, h1, h2⟩ := andThen_eq_ok hok'
  obtain ⟨s₀, h3, h4⟩ := andThen_eq_ok h2
  have hsh : r₀.shape = t.shape := by
    have := reset_shape so bn t
    rw [h1] at this
    exact this
  have hp1 := h.of_shape hsh
  have hr1 := room_reset so h.labelled h1
  have hv0 : r₀.valid = false := by
    obtain ⟨t', a1, -, a3, -⟩ := h.sits.reset so h.consistent
    rw [h1] at a1
    cases a1
    exact a3
  have hJ : bn.length + ev.length ≤ treeDoublings bn ev.length S := by unfold treeDoublings; omega
  obtain ⟨r, d, κ, a1, a2, a3, a4, a5⟩ := like_reset hB so hp h.sits.nodup (by omega) (by omega) h1
  obtain ⟨s, d', κ', b1, b2, b3, b4, b5⟩ := Fills.forEach (l := ev) (F := putEvidenceR A so bn [])
    (G := putEvidence so bn [])
    (fun e he => loads_putEvidence hB so bn fun l hl => hpe e.1 l (hl ▸ he)) r r₀ s₀ d κ a2 hp1.sits.nodup
    (by omega) (by omega) h3
  have hsh2 : s₀.shape = r₀.shape := by
    have := forEach_inv (P := fun t => t.shape = r₀.shape) ev (f := putEvidence so bn [])
      (fun e _ t' ht => (putEvidence_shape so bn [] e t').trans ht) r₀ rfl
    rw [h3] at this
    exact this
  have hv2 : s₀.valid = false := by
    have := forEach_inv (P := fun t => t.valid = false) ev (f := putEvidence so bn [])
      (fun e _ t' ht => by
        unfold putEvidence JRes.ofExcept
        cases bn.getNode e.1 with
        | error x => exact ht
        | ok n =>
          rw [ok_bind]
          cases Factor.asEvidence e.1 n.values e.2 (Dict.get? [] e.1) with
          | error x => exact ht
          | ok f =>
            rw [ok_bind]
            cases putFirst so (fun vars => vars.contains e.1) f t'.nodes with
            | error x => exact ht
            | ok ns => exact ht) r₀ hv0
    rw [h3] at this
    exact this
  obtain ⟨t', c1, c2⟩ := (hp1.of_shape hsh2).messages hB so (room_evidence so h.labelled [] ev hr1 h3) b2 (by omega)
    (by omega) hl hv2 h4 hR (In.weight hB.pos hB.le_one hB.one_le hp hpe)
  refine ⟨t', ?_, c2⟩
  have : (resetR A so bn t).andThen (fun t => (JRes.forEach (putEvidenceR A so bn []) ev t).andThen
      (calculateR A so limit)) = (t', none) := by rw [a1, andThen_ok, b1, andThen_ok, c1]
  unfold setEvidenceR
  simpa using this

end JTree

/-- **C91** A `FactorTree` with arithmetic of limited range, whatever happened to it before: if a product with one number
for each node and each piece of evidence stays in the range, with a factor of two left for each doubling and some for the
roundings, then `set_evidence` succeeds, and each entry of the answer to any query that a clique can answer is within
`treeRoundings` roundings of the posterior, as without limits (C83). -/
theorem C91_tree_range {bn : BN} {order0 : Option (List Name)} (h : TreeSetup bn order0) (hco : bn.Connected)
    {ev : Dict Evidence} (he : LegalEvidence bn ev) {limit : Nat} (hl : bn.length ≤ limit) (so₁ so₂ : SetOrder)
    (ops : List TreeOp) {A : Arith} {u δ : ℚ} (hA : A.AccurateWithin u δ) {m M : ℚ} (h0 : 0 < m) (h1 : m ≤ 1)
    (hM : 1 ≤ M) (hp : bn.EntriesIn m M) (hpe : EvidenceIn m M ev) {S : Nat}
    (hroom : δ * (M ^ (bn.length + ev.length) * 2 ^ treeDoublings bn ev.length S) ≤
      m ^ (bn.length + ev.length) * (1 - u) ^ treeRoundingsMax bn ev.length S) :
    ∃ t t', createR A so₁ bn order0 = .ok t ∧
      (TreeOp.runsR A ops t).setEvidenceR A so₂ limit bn ev false = (t', none) ∧
      (∀ n ∈ bn, t'.Covers n.family) ∧
      ∀ vs, t'.Covers vs → bn.tableSize vs ≤ S → ∀ so₃ limit', ∃ r, t'.marginalsR A so₃ limit' vs = (t', .ok r) ∧
        r.WF bn.card ∧ (∀ v ∈ r.variableOrder, r.values.get? v = some (bn.lab v)) ∧
        (∀ v, v ∈ r.variableOrder ↔ v ∈ vs) ∧
        ∀ σ, Legal bn.card vs σ → Near u (treeRoundings bn ev.length vs) (r.eval σ) (posterior bn ev vs σ) := by
  have hn := hp.nonNeg h0
  obtain ⟨t₀, root, rvars, kids, a1, a2, -⟩ := h.placed hn hco so₁
  have hB : JTree.Space A u δ m M bn ev.length S :=
    JTree.space_of hA h0 h1 hM (lt_of_le_of_lt (Nat.zero_le _) a2.depth) hroom
  obtain ⟨t, d, κ, b1, b2, -⟩ := JTree.like_create hB so₁ hp (by omega) (by unfold treeDoublings; omega) a2.sits.nodup a1
  have hpl := a2.of_shape ((TreeOp.runsR_shape A ops t).trans (JTree.Like.shape b2))
  have hl' := lt_of_lt_of_le a2.depth hl
  obtain ⟨t₁, Φ, Ψ, c1, c2, c3⟩ := JTree.setEvidence_spec so₂ h.consistent hn hpl.sits he (hpe.nonNeg h0) hl'
  obtain ⟨t', e1, e2⟩ := hpl.setRange hB so₂ hp hpe hl' c1 c3
  have hp1 := hpl.of_shape c2
  have hr := hpl.room c1
  refine ⟨t, t', b1, e1, hpl.families c2 (JTree.Like.shape e2), fun vs hvs hS so₃ limit' => ?_⟩
  obtain ⟨q, hq, hqv⟩ := hvs.skel (JTree.Like.shape e2)
  obtain ⟨r₀, d1, d2, d3, d4⟩ := c3.posterior so₃ ⟨q, hq, by simp, hqv⟩ (Or.inl rfl) limit'
  obtain ⟨r, f1, f2⟩ := hp1.answer hB so₃ hr e2 c3.valid d1 d2.wf d3 hS
  have hov := f2.over d2
  refine ⟨r, f1, hov.wf, hov.val, fun v => by rw [f2.order, d3], fun σ hσ => ?_⟩
  rw [← d4 σ hσ]
  exact f2.eval σ

/-- **C91** Without evidence: the first query to a new tree, or to an old one after `reset_factors`. -/
theorem C91_prior_range {bn : BN} {order0 : Option (List Name)} (h : TreeSetup bn order0) (hco : bn.Connected)
    {limit : Nat} (hl : bn.length ≤ limit) (so₁ so₂ : SetOrder)
    (ops : List TreeOp) {A : Arith} {u δ : ℚ} (hA : A.AccurateWithin u δ) {m M : ℚ} (h0 : 0 < m) (h1 : m ≤ 1)
    (hM : 1 ≤ M) (hp : bn.EntriesIn m M) {S : Nat}
    (hroom : δ * (M ^ bn.length * 2 ^ treeDoublings bn 0 S) ≤ m ^ bn.length * (1 - u) ^ treeRoundingsMax bn 0 S) :
    ∃ t t', createR A so₁ bn order0 = .ok t ∧ (TreeOp.runsR A ops t).resetR A so₂ bn = (t', none) ∧
      (∀ n ∈ bn, t.Covers n.family) ∧
      ∀ vs, t.Covers vs → bn.tableSize vs ≤ S → ∀ so₃, ∀ s ∈ [t, t'], ∃ r, (s.marginalsR A so₃ limit vs).2 = .ok r ∧
        r.WF bn.card ∧ (∀ v ∈ r.variableOrder, r.values.get? v = some (bn.lab v)) ∧
        (∀ v, v ∈ r.variableOrder ↔ v ∈ vs) ∧
        ∀ σ, Legal bn.card vs σ → Near u (treeRoundings bn 0 vs) (r.eval σ) (posterior bn [] vs σ) := by
  have hn := hp.nonNeg h0
  obtain ⟨t₀, root, rvars, kids, a1, a2, -⟩ := h.placed hn hco so₁
  have hB : JTree.Space A u δ m M bn 0 S :=
    JTree.space_of hA h0 h1 hM (lt_of_le_of_lt (Nat.zero_le _) a2.depth) hroom
  obtain ⟨t, d, κ, b1, b2, b3, b4⟩ := JTree.like_create hB so₁ hp (by omega) (by unfold treeDoublings; omega)
    a2.sits.nodup a1
  have hl' := lt_of_lt_of_le a2.depth hl
  have hself := JTree.reset_create so₁ a1 (t' := t₀) rfl
  have htsh : t.shape = t₀.shape := JTree.Like.shape b2
  have hsh := (TreeOp.runsR_shape A ops t).trans htsh
  have hpl := a2.of_shape hsh
  obtain ⟨r₀, c1, -⟩ := hpl.sits.reset so₂ h.consistent
  obtain ⟨t', d', κ', d1, d2, d3, d4, d5⟩ := JTree.like_reset hB so₂ hp hpl.sits.nodup (by omega)
    (by unfold treeDoublings; omega) c1
  refine ⟨t, t', b1, d1, a2.families rfl htsh, fun vs hvs hS so₃ s hs => ?_⟩
  have key : ∀ (so : SetOrder) (p₀ q₀ q : JTree) (d κ : Name → Nat), p₀.shape = t₀.shape →
      JTree.reset so bn p₀ = (q₀, none) → q.Filled u m M d κ q₀ → JTree.tally d q₀ ≤ bn.length →
      JTree.tally κ q₀ ≤ bn.length →
      ∃ r, (q.marginalsR A so₃ limit vs).2 = .ok r ∧ r.WF bn.card ∧
        (∀ v ∈ r.variableOrder, r.values.get? v = some (bn.lab v)) ∧
        (∀ v, v ∈ r.variableOrder ↔ v ∈ vs) ∧
        ∀ σ, Legal bn.card vs σ → Near u (treeRoundings bn 0 vs) (r.eval σ) (posterior bn [] vs σ) := by
    intro so p₀ q₀ q d κ e1 e2 e3 e4 e5
    have hpp := a2.of_shape e1
    obtain ⟨q₀, f1, f2, f3, f4, f5⟩ := hpp.sits.reset so h.consistent
    rw [e2] at f1
    cases f1
    obtain ⟨s₀, Φ, Ψ, g1, g2, g3⟩ := JTree.calculate_tables so₃ h.consistent hn (hpp.sits.of_shape f2) f4 f5 hl'
    have hr0 := JTree.room_reset so hpp.labelled e2
    obtain ⟨s, i1, i2⟩ := (hpp.of_shape f2).messages hB so₃ hr0 e3 e4 e5 hl' f3 g1 g3
      (In.weight (ev := []) h0 h1 hM hp (by intro v l hv; cases hv))
    have hp1 := hpp.of_shape (g2.trans f2)
    have hr1 : JTree.Room bn.lab s₀ := by
      have := hr0.calculate so₃ limit (hpp.seps.of_shape f2)
      rw [g1] at this
      exact this
    obtain ⟨q', hq', hqv⟩ := hvs.skel htsh
    obtain ⟨m₀, j1, j2, j3, j4⟩ := g3.posterior so₃ (ev := []) (vs := vs)
      ⟨q', by rw [JTree.skel_of_shape (g2.trans (f2.trans e1))]; exact hq', by simp, hqv⟩ (Or.inl rfl) limit
    obtain ⟨r, k1, k2⟩ := hp1.answer hB so₃ hr1 i2 g3.valid j1 j2.wf j3 hS
    have hov := k2.over j2
    refine ⟨r, ?_, hov.wf, hov.val, fun v => by rw [k2.order, j3], fun σ hσ => ?_⟩
    · rw [JTree.marginalsR_first (by rw [e3.valid]; exact f3) (by rw [i2.valid]; exact g3.valid) i1, k1]
    · rw [← j4 σ hσ]
      exact k2.eval σ
  simp only [List.mem_cons, List.not_mem_nil, or_false] at hs
  rcases hs with rfl | rfl
  · exact key so₁ t₀ t₀ s d κ rfl hself b2 b3 b4
  · exact key so₂ _ r₀ s d' κ' hsh c1 d2 d4 d5

/-! ## Double precision -/

theorem tree_double_room {bn : BN} {e S a b : Nat}
    (h : (a + b) * (bn.length + e) + treeDoublings bn e S ≤ 1021) :
    doubleMin * ((2 ^ b) ^ (bn.length + e) * 2 ^ treeDoublings bn e S) ≤
      (1 / 2 ^ a : ℚ) ^ (bn.length + e) * (1 - doubleError) ^ treeRoundingsMax bn e S ∧
      treeRoundingsMax bn e S ≤ 2 ^ 21 := by
  have hJ : treeDoublings bn e S ≤ 1021 := by omega
  have hK : treeRoundingsMax bn e S ≤ 2 ^ 21 := by
    unfold treeDoublings at hJ
    unfold treeRoundingsMax cliqueRoundings
    have h1 : 3 * bn.length * (4 * bn.length + e + bn.additions []) ≤ 765 * 1021 :=
      Nat.mul_le_mul (by omega) (by omega)
    omega
  have hKq : (treeRoundingsMax bn e S : ℚ) ≤ 2 ^ 21 := by exact_mod_cast hK
  refine ⟨?_, hK⟩
  have hu : doubleError = 1 / 9007199254740992 := by rw [doubleError]; norm_num
  have hb : (1 / 2 : ℚ) ≤ (1 - doubleError) ^ treeRoundingsMax bn e S := by
    have := one_add_mul_le_pow (a := -doubleError) (by rw [hu]; norm_num) (treeRoundingsMax bn e S)
    rw [← sub_eq_add_neg] at this
    refine le_trans ?_ this
    rw [hu]
    linarith
  refine le_trans ?_ (mul_le_mul_of_nonneg_left hb (by positivity))
  generalize treeDoublings bn e S = k at h hJ
  generalize bn.length + e = D at h
  have h2 : (2 : ℚ) ^ ((a + b) * D + k) ≤ 2 ^ 1021 := pow_le_pow_right₀ (by norm_num) h
  rw [one_div_pow, doubleMin, ← pow_mul, ← pow_mul, show (1022 : ℕ) = 1021 + 1 from rfl, pow_succ,
    div_mul_div_comm, one_mul, div_mul_eq_mul_div, one_mul, div_le_div_iff₀ (by positivity) (by positivity)]
  calc (2 : ℚ) ^ (b * D) * 2 ^ k * (2 ^ (a * D) * 2) = 2 ^ ((a + b) * D + k) * 2 := by
        rw [pow_add, add_mul, pow_add]; ring
    _ ≤ 2 ^ 1021 * 2 := mul_le_mul_of_nonneg_right h2 (by norm_num)
    _ = _ := (one_mul _).symm

theorem tree_double_error {bn : BN} {ev : Dict Evidence} {e S : Nat} {vs : List Name} {σ : Assign} {x : ℚ}
    (hnd : bn.names.Nodup) (hK : treeRoundingsMax bn e S ≤ 2 ^ 21) (hS : bn.tableSize vs ≤ S)
    (h : Near doubleError (treeRoundings bn e vs) x (posterior bn ev vs σ)) :
    0 ≤ x ∧ (x = 0 ↔ posterior bn ev vs σ = 0) ∧
      |x - posterior bn ev vs σ| ≤ 2 * treeRoundings bn e vs * doubleError * posterior bn ev vs σ ∧
      |x - posterior bn ev vs σ| ≤ 1 / 2 ^ 31 * posterior bn ev vs σ := by
  have hu : doubleError = 1 / 9007199254740992 := by rw [doubleError]; norm_num
  have h0 : 0 ≤ doubleError := by rw [hu]; norm_num
  have h1 : doubleError < 1 := by rw [hu]; norm_num
  have hadd := JTree.additions_le bn hnd vs
  have hk : treeRoundings bn e vs ≤ 2 ^ 21 := by
    unfold treeRoundingsMax at hK
    unfold treeRoundings
    omega
  have hkq : (treeRoundings bn e vs : ℚ) ≤ 2 ^ 21 := by exact_mod_cast hk
  have hle := h.abs_le h0 h1 (by rw [hu]; linarith)
  refine ⟨h.nonneg h1, h.zero_iff h1, hle, hle.trans (mul_le_mul_of_nonneg_right ?_ h.1)⟩
  rw [hu]
  linarith

/-- **C91** A `FactorTree` in double precision: if the numbers of the network and of the evidence that are not zero lie
between `2 ^ -a` and `2 ^ b`, and `a + b` for every node and every piece of evidence and the number of doublings together
do not exceed 1021, then the relative error of every entry of every answer is at most `treeRoundings / 2 ^ 52`, which is at
most `2 ^ -31`, and zeros are exact.  This holds whatever happened to the tree before, whatever becomes of numbers that
are too large, and in whatever order `np.sum` adds. -/
theorem C91_tree_double (over : ℚ → ℚ) {tree : List ℚ → SumTree} (ht : SumsUp tree) {bn : BN}
    {order0 : Option (List Name)} (h : TreeSetup bn order0) (hco : bn.Connected)
    {ev : Dict Evidence} (he : LegalEvidence bn ev) {limit : Nat} (hl : bn.length ≤ limit) (so₁ so₂ : SetOrder)
    (ops : List TreeOp) {a b : Nat} (hp : bn.EntriesIn (1 / 2 ^ a) (2 ^ b)) (hpe : EvidenceIn (1 / 2 ^ a) (2 ^ b) ev)
    {S : Nat} (hroom : (a + b) * (bn.length + ev.length) + treeDoublings bn ev.length S ≤ 1021) :
    ∃ t t', createR (.double over tree) so₁ bn order0 = .ok t ∧
      (TreeOp.runsR (.double over tree) ops t).setEvidenceR (.double over tree) so₂ limit bn ev false = (t', none) ∧
      (∀ n ∈ bn, t'.Covers n.family) ∧
      ∀ vs, t'.Covers vs → bn.tableSize vs ≤ S → ∀ so₃ limit', ∃ r,
        t'.marginalsR (.double over tree) so₃ limit' vs = (t', .ok r) ∧
        r.WF bn.card ∧ (∀ v ∈ r.variableOrder, r.values.get? v = some (bn.lab v)) ∧
        (∀ v, v ∈ r.variableOrder ↔ v ∈ vs) ∧
        ∀ σ, Legal bn.card vs σ → 0 ≤ r.eval σ ∧ (r.eval σ = 0 ↔ posterior bn ev vs σ = 0) ∧
          |r.eval σ - posterior bn ev vs σ| ≤
            2 * treeRoundings bn ev.length vs * doubleError * posterior bn ev vs σ ∧
          |r.eval σ - posterior bn ev vs σ| ≤ 1 / 2 ^ 31 * posterior bn ev vs σ := by
  obtain ⟨h2, h3⟩ := tree_double_room hroom
  obtain ⟨t, t', b1, b2, b3, b4⟩ := C91_tree_range h hco he hl so₁ so₂ ops (Arith.double_accurate over ht)
    (by positivity) (double_small a) (one_le_pow₀ (by norm_num)) hp hpe h2
  refine ⟨t, t', b1, b2, b3, fun vs hvs hS so₃ limit' => ?_⟩
  obtain ⟨r, r1, r2, r3, r4, r5⟩ := b4 vs hvs hS so₃ limit'
  exact ⟨r, r1, r2, r3, r4, fun σ hσ => tree_double_error h.consistent.nodup h3 hS (r5 σ hσ)⟩

/-- **C91** The same for the first query to a new tree, or to an old one after `reset_factors`. -/
theorem C91_prior_double (over : ℚ → ℚ) {tree : List ℚ → SumTree} (ht : SumsUp tree) {bn : BN}
    {order0 : Option (List Name)} (h : TreeSetup bn order0) (hco : bn.Connected) {limit : Nat} (hl : bn.length ≤ limit)
    (so₁ so₂ : SetOrder) (ops : List TreeOp) {a b : Nat} (hp : bn.EntriesIn (1 / 2 ^ a) (2 ^ b))
    {S : Nat} (hroom : (a + b) * bn.length + treeDoublings bn 0 S ≤ 1021) :
    ∃ t t', createR (.double over tree) so₁ bn order0 = .ok t ∧
      (TreeOp.runsR (.double over tree) ops t).resetR (.double over tree) so₂ bn = (t', none) ∧
      (∀ n ∈ bn, t.Covers n.family) ∧
      ∀ vs, t.Covers vs → bn.tableSize vs ≤ S → ∀ so₃, ∀ s ∈ [t, t'], ∃ r,
        (s.marginalsR (.double over tree) so₃ limit vs).2 = .ok r ∧
        r.WF bn.card ∧ (∀ v ∈ r.variableOrder, r.values.get? v = some (bn.lab v)) ∧
        (∀ v, v ∈ r.variableOrder ↔ v ∈ vs) ∧
        ∀ σ, Legal bn.card vs σ → 0 ≤ r.eval σ ∧ (r.eval σ = 0 ↔ posterior bn [] vs σ = 0) ∧
          |r.eval σ - posterior bn [] vs σ| ≤ 2 * treeRoundings bn 0 vs * doubleError * posterior bn [] vs σ ∧
          |r.eval σ - posterior bn [] vs σ| ≤ 1 / 2 ^ 31 * posterior bn [] vs σ := by
  obtain ⟨h2, h3⟩ := tree_double_room (e := 0) hroom
  obtain ⟨t, t', b1, b2, b3, b4⟩ := C91_prior_range h hco hl so₁ so₂ ops (Arith.double_accurate over ht)
    (by positivity) (double_small a) (one_le_pow₀ (by norm_num)) hp h2
  refine ⟨t, t', b1, b2, b3, fun vs hvs hS so₃ s hs => ?_⟩
  obtain ⟨r, r1, r2, r3, r4, r5⟩ := b4 vs hvs hS so₃ s hs
  exact ⟨r, r1, r2, r3, r4, fun σ hσ => tree_double_error h.consistent.nodup h3 hS (r5 σ hσ)⟩

example := C91_tree_double id Ex.leftTree_sums Ex.bn_perfect.tree Ex.bn_connected Ex.ev_legal (limit := 4)
  (by decide) .insertion .reversed Ex.history Ex.bn_entries Ex.ev_entries (S := 12) (by decide +kernel)
example := C91_prior_double id Ex.leftTree_sums Ex.bn_perfect.tree Ex.bn_connected (limit := 4)
  (by decide) .insertion .reversed Ex.history Ex.bn_entries (S := 12) (by decide +kernel)
example := C91_tree_range Ex.bn_perfect.tree Ex.bn_connected Ex.ev_legal (limit := 4) (by decide) .insertion .reversed
  Ex.history (Arith.double_accurate id Ex.leftTree_sums) (by norm_num) (by norm_num) (by norm_num) Ex.bn_entries
  Ex.ev_entries (S := 12) (tree_double_room (by decide +kernel)).1
example := C91_prior_range Ex.bn_perfect.tree Ex.bn_connected (limit := 4) (by decide) .insertion .reversed
  Ex.history (Arith.double_accurate id Ex.leftTree_sums) (m := 1 / 2 ^ 4) (M := 2 ^ 1) (by norm_num) (by norm_num)
  (by norm_num) Ex.bn_entries (S := 12)
  (tree_double_room (bn := Ex.bn) (e := 0) (S := 12) (a := 4) (b := 1) (by decide +kernel)).1
-- the numbers: 40 doublings, and a relative error of at most 561 / 2 ^ 52
example : treeDoublings Ex.bn Ex.ev.length 12 = 40 ∧ treeRoundings Ex.bn Ex.ev.length ["b"] = 561 := by decide +kernel

/-- the answer of a tree with evidence, by the arithmetic `A` -/
def Ex.treeAnswer (A : Arith) (bn : BN) (ev : Dict Evidence) (vs : List Name) : Except PyErr (List ℚ) := do
  let t ← createR A .insertion bn none
  let s := t.setEvidenceR A .insertion 10 bn ev false
  match s.2 with
  | some e => .error e
  | none => (s.1.marginalsR A .insertion 10 vs).2.map fun r => r.potentials.data

/-- **C91 needs room**: in double precision a tree can answer with zeros, without an exception, although the posterior
probability of the first outcome is one. -/
theorem C91_room_refuted : TreeSetup Ex.faint none ∧ Ex.faint.Connected ∧ LegalEvidence Ex.faint Ex.faintEv ∧
    Ex.faint.EntriesIn (1 / 2 ^ 600) 1 ∧ EvidenceIn (1 / 2 ^ 600) 1 Ex.faintEv ∧
    Ex.treeAnswer (.double id Ex.leftTree) Ex.faint Ex.faintEv ["a"] = .ok [0, 0] ∧
    posterior Ex.faint Ex.faintEv ["a"] (fun _ => 0) = 1 := by
  obtain ⟨h1, h2, h3, h4, -⟩ := C87_room_refuted
  refine ⟨?_, ?_, h2, h3, h4, by decide +kernel, ?_⟩
  · exact PerfectSetup.tree ⟨h1, ⟨by decide, by simp [Ex.faint]⟩, by simp [BN.Recorded, Ex.faint, Dict.keys],
      uniqueJoin_of_length (k := 1) (by decide) (by decide), by decide, ["a"], by decide +kernel, by decide,
      Ex.perfect_of_tails (by decide)⟩
  · intro u hu v hv hne
    simp only [Ex.faint, BN.names, List.map_cons, List.map_nil, List.mem_singleton] at hu hv
    exact absurd (hu.trans hv.symm) hne
  · rw [Ex.posterior_naive h1 h2 (xs := [1, 0]) (by decide +kernel) (by decide) (by decide)]
    rfl

end Primo
