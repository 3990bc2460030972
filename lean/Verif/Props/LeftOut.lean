import Verif.Lemmas.LeftOut
import Verif.Props.Sharp

/-! # C29: what the cliques answer that are not connected to the first one -/

namespace Primo
open JoinTree

/-- **C29** the whole behaviour outside the root's component.  A query that goes to a clique `k` which is
not connected to the first one is answered from the tables and the evidence alone that `k` is the first
clique to contain: it raises `ValueError` if some variable to be summed out occurs in none of these, and
otherwise gives their normalised marginal, over those query variables that occur in them. -/
theorem C29_left_out {bn : BN} {order0 : Option (List Name)} (h : TreeSetup bn order0) (hn : bn.NonNeg)
    {ev : Dict Evidence} (he : LegalEvidence bn ev) (hen : NonNegEvidence ev) {limit : Nat}
    (hl : bn.length ≤ limit) (so₁ so₂ : SetOrder) :
    ∃ t t', create so₁ bn order0 = .ok t ∧ t.setEvidence so₂ limit bn ev false = (t', none) ∧
      ∀ k vars, t.Clique k vars → ¬ t.Reached k → ∀ vs, t.keeper vs = some k → ∀ so₃ limit',
        (t'.marginals so₃ limit' vs = (t', .error .valueError) ↔
          ∃ x ∈ vars, x ∉ vs ∧ x ∉ t.told bn ev k) ∧
        ((∀ x ∈ vars, x ∈ vs ∨ x ∈ t.told bn ev k) →
          ∃ r, t'.marginals so₃ limit' vs = (t', .ok r) ∧ r.WF bn.card ∧
            (∀ v ∈ r.variableOrder, r.values.get? v = some (bn.lab v)) ∧
            (∀ v, v ∈ r.variableOrder ↔ v ∈ vs ∧ v ∈ t.told bn ev k) ∧
            ∀ σ, Legal bn.card vs σ → r.eval σ =
              let M := sumOver bn.card (vars.toFinset \ vs.toFinset) (t.ownWeight bn ev k) σ
              let Z := sumOver bn.card (t.told bn ev k).toFinset (t.ownWeight bn ev k) σ
              if 0 < Z then M / Z else M) := by
  obtain ⟨t, root, rvars, kids, others, a1, a3, a6, a7, -⟩ := h.made so₁
  obtain ⟨t', b1, b2⟩ := JTree.left_out_spec so₂ h.consistent hn a3 he hen (lt_of_lt_of_le a7 hl)
  refine ⟨t, t', a1, b1, fun k vars hk hr vs hvk so₃ limit' => ?_⟩
  obtain ⟨c1, c2⟩ := b2 k vars hk (a3.left_out hk hr) vs hvk so₃ limit'
  have hor : ∀ h : ¬ ∃ x ∈ vars, x ∉ vs ∧ x ∉ t.told bn ev k, ∀ x ∈ vars, x ∈ vs ∨ x ∈ t.told bn ev k := by
    intro hh x hx
    by_contra hno
    rw [not_or] at hno
    exact hh ⟨x, hx, hno.1, hno.2⟩
  refine ⟨⟨fun he => ?_, c1⟩, fun hcov => ?_⟩
  · by_contra hno
    obtain ⟨r, r1, -⟩ := c2 (hor hno)
    rw [r1] at he
    cases he
  · obtain ⟨r, r1, r2, r3, r4⟩ := c2 hcov
    exact ⟨r, r1, r2.wf, r2.val, r3, r4⟩

/-- **C29** such a clique takes no notice of evidence about variables outside it, related as they may be:
whatever was observed elsewhere, the same queries are refused and the other answers are the same. -/
theorem C29_evidence_ignored {bn : BN} {order0 : Option (List Name)} (h : TreeSetup bn order0)
    (hn : bn.NonNeg) {ev ev' : Dict Evidence} (he : LegalEvidence bn ev) (hen : NonNegEvidence ev)
    (he' : LegalEvidence bn ev') (hen' : NonNegEvidence ev') {limit : Nat} (hl : bn.length ≤ limit)
    (so₁ so₂ : SetOrder) :
    ∃ t t₁ t₂, create so₁ bn order0 = .ok t ∧ t.setEvidence so₂ limit bn ev false = (t₁, none) ∧
      t.setEvidence so₂ limit bn ev' false = (t₂, none) ∧
      ∀ k vars, t.Clique k vars → ¬ t.Reached k →
        ev.filter (fun e => decide (e.1 ∈ vars)) = ev'.filter (fun e => decide (e.1 ∈ vars)) →
        ∀ vs, t.keeper vs = some k → ∀ so₃ limit',
          (t₁.marginals so₃ limit' vs = (t₁, .error .valueError) ∧
            t₂.marginals so₃ limit' vs = (t₂, .error .valueError)) ∨
          ∃ r₁ r₂, t₁.marginals so₃ limit' vs = (t₁, .ok r₁) ∧ t₂.marginals so₃ limit' vs = (t₂, .ok r₂) ∧
            (∀ v, v ∈ r₁.variableOrder ↔ v ∈ r₂.variableOrder) ∧
            ∀ σ, Legal bn.card vs σ → r₁.eval σ = r₂.eval σ := by
  obtain ⟨t, t₁, a1, a2, a3⟩ := C29_left_out h hn he hen hl so₁ so₂
  obtain ⟨u, t₂, b1, b2, b3⟩ := C29_left_out h hn he' hen' hl so₁ so₂
  rw [a1] at b1
  cases b1
  refine ⟨t, t₁, t₂, a1, a2, b2, fun k vars hk hr hev vs hvk so₃ limit' => ?_⟩
  obtain ⟨u, root, rvars, kids, others, c1, c2, -⟩ := h.made so₁
  rw [a1] at c1
  cases c1
  obtain ⟨d1, d2⟩ := JTree.own_congr (bn := bn) c2.nodup hk hev
  obtain ⟨e1, e2⟩ := a3 k vars hk hr vs hvk so₃ limit'
  obtain ⟨f1, f2⟩ := b3 k vars hk hr vs hvk so₃ limit'
  rw [← d1] at f1 f2
  by_cases hh : ∃ x ∈ vars, x ∉ vs ∧ x ∉ t.told bn ev k
  · exact .inl ⟨e1.2 hh, f1.2 hh⟩
  · have hor : ∀ x ∈ vars, x ∈ vs ∨ x ∈ t.told bn ev k := by
      intro x hx
      by_contra hno
      rw [not_or] at hno
      exact hh ⟨x, hx, hno.1, hno.2⟩
    obtain ⟨r, r1, -, -, r4, r5⟩ := e2 hor
    obtain ⟨r', r1', -, -, r4', r5'⟩ := f2 hor
    refine .inr ⟨r, r', r1, r1', fun v => (r4 v).trans (r4' v).symm, fun σ hσ => ?_⟩
    rw [r5 σ hσ, r5' σ hσ, funext d2]

/-! ## examples -/

theorem Ex.parts_made : ∃ t, create .insertion Ex.parts none = .ok t ∧
    t.nodes.map (fun p => (p.1, p.2.vars)) =
      [("de", ["d", "e"]), ("bc", ["b", "c"]), ("ab", ["a", "b"]), ("z", ["z"])] ∧
    t.edges.map (fun e => (e.u, e.w)) = [("ab", "bc")] := by
  have h : (create .insertion Ex.parts none).map (fun t => (t.nodes.map (fun p => (p.1, p.2.vars)),
      t.edges.map fun e => (e.u, e.w))) =
      .ok ([("de", ["d", "e"]), ("bc", ["b", "c"]), ("ab", ["a", "b"]), ("z", ["z"])], [("ab", "bc")]) := by
    decide +kernel
  cases hc : create .insertion Ex.parts none with
  | error e => rw [hc] at h; cases h
  | ok t =>
    rw [hc] at h
    simp only [Except.map, Except.ok.injEq, Prod.mk.injEq] at h
    exact ⟨t, rfl, h.1, h.2⟩

/-- `bc` is such a clique in the network `a → b → c`, `d → e`, `z`: it holds `P(c | b)` and what is
observed of `b` and `c`, and takes no notice of an observation of `a`. -/
theorem Ex.parts_left_out : ∃ t, create .insertion Ex.parts none = .ok t ∧ t.Clique "bc" ["b", "c"] ∧
    ¬ t.Reached "bc" ∧ t.keeper ["c"] = some "bc" ∧ t.told Ex.parts [] "bc" = ["c", "b"] := by
  obtain ⟨t, h1, h2, h3⟩ := Ex.parts_made
  have hk : ∀ s, t.keeper s = (([("de", ["d", "e"]), ("bc", ["b", "c"]), ("ab", ["a", "b"]), ("z", ["z"])] :
      List (Name × List Name)).find? fun q => decide (∀ x ∈ s, x ∈ q.2)).map Prod.fst := by
    intro s
    rw [JTree.keeper_eq_skel]
    unfold JTree.skel
    rw [h2]
  refine ⟨t, h1, JTree.clique_iff_skel.2 ?_, ?_, ?_, ?_⟩
  · unfold JTree.skel
    rw [h2]
    decide
  · rintro ⟨root, r1, r2⟩
    have e : t.nodes.keys = ["de", "bc", "ab", "z"] := by
      have : t.nodes.keys = (t.nodes.map fun p => (p.1, p.2.vars)).map Prod.fst := by
        rw [List.map_map]; rfl
      rw [this, h2]
      rfl
    rw [e] at r1
    simp only [List.head?_cons, Option.some.injEq] at r1
    subst r1
    have hno : ∀ k, Relation.ReflTransGen t.Joined "de" k → k = "de" := by
      intro k hk
      induction hk with
      | refl => rfl
      | tail _ hb ih =>
        subst ih
        obtain ⟨e, he, hj⟩ := hb
        have := List.mem_map_of_mem (f := fun e : JEdge => (e.u, e.w)) he
        rw [h3, List.mem_singleton] at this
        injection this with u1 u2
        unfold JEdge.joins at hj
        rw [u1, u2] at hj
        simp at hj
    exact absurd (hno _ r2) (by decide)
  · rw [hk]
    decide
  · unfold JTree.told
    simp only [hk]
    decide

example := C29_left_out Ex.parts_perfect.tree Ex.parts_nonneg (ev := [])
  ⟨by decide, by simp, by simp, by simp⟩ (by simp [NonNegEvidence]) (limit := 1000)
  (by decide) .insertion .reversed

theorem Ex.parts_ev_legal : LegalEvidence Ex.parts [("a", .hard "t")] := by
  refine ⟨by decide, by decide, fun v x h => ?_, fun v x h => ?_⟩
  · simp only [List.mem_cons, List.not_mem_nil, or_false, Prod.mk.injEq, Evidence.hard.injEq] at h
    obtain ⟨rfl, rfl⟩ := h
    decide
  · simp at h

example := C29_evidence_ignored Ex.parts_perfect.tree Ex.parts_nonneg (ev := [("a", .hard "t")]) (ev' := [])
  Ex.parts_ev_legal (by simp [NonNegEvidence])
  ⟨by decide, by simp, by simp, by simp⟩ (by simp [NonNegEvidence]) (limit := 1000)
  (by decide) .insertion .insertion

/-! ## a query that is refused: `b → d`, `b → e ← c`, `c → f ← d`, and `z` apart -/

def Ex.xorTable : NDArray := ⟨[2, 2, 2], [4 / 5, 1 / 5, 1 / 5, 4 / 5, 1 / 5, 4 / 5, 4 / 5, 1 / 5], rfl⟩

def Ex.apart : BN := [
  ⟨"b", .discrete, ["t", "f"], [], [], ["d", "e"], ⟨[2], [1 / 4, 3 / 4], rfl⟩, false⟩,
  ⟨"c", .discrete, ["t", "f"], [], [], ["e", "f"], ⟨[2], [1 / 4, 3 / 4], rfl⟩, false⟩,
  ⟨"d", .discrete, ["t", "f"], ["b"], [("b", ["t", "f"])], ["f"], Ex.copyTable, false⟩,
  ⟨"e", .discrete, ["t", "f"], ["b", "c"], [("b", ["t", "f"]), ("c", ["t", "f"])], [], Ex.xorTable, false⟩,
  ⟨"f", .discrete, ["t", "f"], ["c", "d"], [("c", ["t", "f"]), ("d", ["t", "f"])], [], Ex.xorTable, false⟩,
  ⟨"z", .discrete, ["t", "f"], [], [], [], ⟨[2], [1 / 3, 2 / 3], rfl⟩, false⟩]

/-- an order that creates no edges; the first clique is `z` -/
def Ex.apartOrder : List Name := ["f", "d", "b", "c", "e", "z"]

theorem Ex.apart_perfect : PerfectSetup Ex.apart (some Ex.apartOrder) :=
  ⟨⟨by decide, by decide, by decide, by decide, by decide, by decide, by decide⟩,
    Ex.linked_of_check (by decide), Ex.recorded_of_check (by decide),
    uniqueJoin_of_length (k := 1) (by decide) (by decide), by decide, _, rfl, by decide,
    Ex.perfect_of_tails (by decide)⟩

theorem Ex.apart_nonneg : Ex.apart.NonNeg := by
  unfold BN.NonNeg; decide +kernel

/-- **C29 is false in general, also by a refusal**: the tables of `c` are kept in the clique of `b`, `c` and
`e`; the clique of `b`, `c` and `d`, which is asked for `d`, cannot sum `c` out and raises `ValueError`,
where variable elimination gives the prior of `d`. -/
theorem C29_refused_refuted :
    PerfectSetup Ex.apart (some Ex.apartOrder) ∧ Ex.apart.NonNeg ∧
    ∃ t t' rn, create .insertion Ex.apart (some Ex.apartOrder) = .ok t ∧
      t.setEvidence .insertion 1000 Ex.apart [] false = (t', none) ∧ t'.Covers ["d"] ∧
      (t'.marginals .insertion 1000 ["d"]).2 = .error .valueError ∧
      VE.naiveMarginals .insertion Ex.apart ["d"] [] = .ok rn ∧
      rn.variableOrder = ["d"] ∧ rn.potentials.data = [3 / 10, 7 / 10] := by
  have h : (create .insertion Ex.apart (some Ex.apartOrder)).map (fun t =>
      ((t.setEvidence .insertion 1000 Ex.apart [] false).2,
        (t.setEvidence .insertion 1000 Ex.apart [] false).1.nodes.map (fun p => (p.1, p.2.vars)),
        ((t.setEvidence .insertion 1000 Ex.apart [] false).1.marginals .insertion 1000 ["d"]).2.map
          (fun r => r.potentials.data))) =
      .ok (none, [("z", ["z"]), ("bec", ["b", "e", "c"]), ("dbc", ["d", "b", "c"]), ("fcd", ["f", "c", "d"])],
        .error .valueError) := by decide +kernel
  have hn : (VE.naiveMarginals .insertion Ex.apart ["d"] []).map
      (fun r => (r.variableOrder, r.potentials.data)) = .ok (["d"], [3 / 10, 7 / 10]) := by decide +kernel
  cases hc : create .insertion Ex.apart (some Ex.apartOrder) with
  | error e => rw [hc] at h; cases h
  | ok t =>
    rw [hc] at h
    simp only [Except.map, Except.ok.injEq, Prod.mk.injEq] at h
    obtain ⟨h1, h2, h3⟩ := h
    cases hr : VE.naiveMarginals .insertion Ex.apart ["d"] [] with
    | error e => rw [hr] at hn; cases hn
    | ok rn =>
      rw [hr] at hn
      simp only [Except.map, Except.ok.injEq, Prod.mk.injEq] at hn
      refine ⟨Ex.apart_perfect, Ex.apart_nonneg, t, (t.setEvidence .insertion 1000 Ex.apart [] false).1, rn,
        rfl, Prod.ext rfl h1, ⟨"dbc", ["d", "b", "c"], JTree.clique_iff_skel.2 ?_, by decide⟩, ?_, rfl, hn.1, hn.2⟩
      · unfold JTree.skel
        rw [h2]
        decide
      · cases hm : ((t.setEvidence .insertion 1000 Ex.apart [] false).1.marginals .insertion 1000 ["d"]).2 with
        | error e => rw [hm] at h3; cases h3; rfl
        | ok r => rw [hm] at h3; cases h3

end Primo
