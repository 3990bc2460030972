import Verif.Lemmas.Create

/-! # Querying a calibrated join tree -/

namespace Primo
open JoinTree Factor Finset

namespace JTree

/-- a calibrated tree whose clique tables multiply to `W`: `Φ` over the tree reachable from the root
and `Ψ` over the other cliques -/
structure Ready (bn : BN) (t : JTree) (root : Name) (rvars : List Name) (kids : Forest)
    (others : List Name) (Φ Ψ W : Assign → ℚ) : Prop where
  sits : Sits bn t root rvars kids others
  valid : t.valid = true
  dom : rvars.toFinset ∪ kids.scope ⊆ bn.names.toFinset
  depΦ : DependsOn (rvars.toFinset ∪ kids.scope) Φ
  depΨ : DependsOn (bn.names.toFinset \ (rvars.toFinset ∪ kids.scope)) Ψ
  nnΦ : ∀ σ, 0 ≤ Φ σ
  nnΨ : ∀ σ, 0 ≤ Ψ σ
  all : others = [] → (∀ σ, Ψ σ = 1) ∧ rvars.toFinset ∪ kids.scope = bn.names.toFinset
  prod : ∀ σ, Legal bn.card bn.names σ → Φ σ * Ψ σ = W σ
  atRoot : ∃ f, t.nodes.get? root = some ⟨rvars, f⟩ ∧ f.Over bn.lab ∧
    (∀ v, v ∈ f.variableOrder ↔ v ∈ rvars) ∧ ∀ σ, Legal bn.card rvars σ →
      f.eval σ = sumOver bn.card ((rvars.toFinset ∪ kids.scope) \ rvars.toFinset) Φ σ
  below : kids.All (Calibrated bn.lab (rvars.toFinset ∪ kids.scope) Φ t) root

theorem ready_of_calibrate (so : SetOrder) {bn : BN} (hc : bn.Consistent) (hnn : bn.NonNeg) {t : JTree}
    {root : Name} {rvars : List Name} {kids : Forest} {others : List Name}
    (hs : Sits bn t root rvars kids others) {extra : List Item}
    (hct : Contents bn.lab (bn.map nodeItem ++ extra) t.nodes)
    (hex : ∀ it ∈ extra, ItemOK bn.lab (skel t.nodes) it)
    (het : ∀ e ∈ t.edges, e.factor = Factor.trivial 1) {limit : Nat} (hl : kids.depth < limit) :
    ∃ t' Φ Ψ, calculate so limit t = (t', none) ∧ t'.shape = t.shape ∧
      Ready bn t' root rvars kids others Φ Ψ fun σ =>
        (bn.map fun n => n.entry σ).prod * (extra.map fun it => it.f.eval σ).prod := by
  obtain ⟨t', Φ, Ψ, h1, h2, h3, h4, h5, h6, h7, h8, h9, h10, -, h12, h13⟩ :=
    calibrate so hc hnn hs hct hex het hl
  exact ⟨t', Φ, Ψ, h1, h2, hs.of_shape h2, h3, h4, h5, h6, h7, h8, h9, h10, h12, h13⟩

variable {bn : BN} {t : JTree} {root : Name} {rvars : List Name} {kids : Forest} {others : List Name}
  {Φ Ψ W : Assign → ℚ}

/-- a clique of the tree below the root -/
theorem Ready.clique (hr : Ready bn t root rvars kids others Φ Ψ W) {k : Name}
    (hk : k = root ∨ k ∈ kids.names) :
    ∃ vars f, t.nodes.get? k = some ⟨vars, f⟩ ∧ f.Over bn.lab ∧
      (∀ v, v ∈ f.variableOrder ↔ v ∈ vars) ∧ vars.toFinset ⊆ rvars.toFinset ∪ kids.scope ∧
      ∀ σ, Legal bn.card vars σ →
        f.eval σ = sumOver bn.card ((rvars.toFinset ∪ kids.scope) \ vars.toFinset) Φ σ := by
  rcases hk with rfl | hk
  · obtain ⟨f, h1, h2, h3, h4⟩ := hr.atRoot
    exact ⟨rvars, f, h1, h2, h3, subset_union_left, h4⟩
  · obtain ⟨p, vars, sep, ks, ⟨⟨f, h1, h2, h3, h4⟩, -⟩, hsub⟩ := hr.below.mem hk
    exact ⟨vars, f, h1, h2, h3, hsub.trans subset_union_right, h4⟩

/-- the first clique that contains the query -/
theorem Ready.find (hr : Ready bn t root rvars kids others Φ Ψ W) {vs : List Name}
    (h : ∃ q ∈ skel t.nodes, q.1 ∉ others ∧ ∀ x ∈ vs, x ∈ q.2) :
    ∃ p, t.nodes.find? (fun p => sub vs p.2.vars) = some p ∧ (p.1 = root ∨ p.1 ∈ kids.names) ∧
      ∀ x ∈ vs, x ∈ p.2.vars := by
  obtain ⟨q, hq, hqo, hqv⟩ := h
  cases hf : t.nodes.find? (fun p => sub vs p.2.vars) with
  | none =>
    obtain ⟨f, hfq⟩ := (mem_skel hr.sits.nodup (k := q.1) (vars := q.2)).1 hq
    have := List.find?_eq_none.1 hf _ (Dict.get?_mem hfq)
    exact absurd (sub_iff.2 hqv) this
  | some p =>
    have hpm := List.mem_of_find?_eq_some hf
    have hpv : ∀ x ∈ vs, x ∈ p.2.vars := sub_iff.1 (by simpa using List.find?_some hf)
    refine ⟨p, rfl, ?_, hpv⟩
    have hk := hr.sits.keys.subset (List.mem_map_of_mem (f := Prod.fst) hpm)
    simp only [List.cons_append, List.mem_cons, List.mem_append] at hk
    rcases hk with hk | hk | hk
    · exact Or.inl hk
    · exact Or.inr hk
    · exfalso
      by_cases hvs : vs = []
      · -- the root comes first
        subst hvs
        have hfirst := hr.sits.junction.first
        cases hn : t.nodes with
        | nil => rw [hn] at hpm; simp at hpm
        | cons a as =>
          rw [hn] at hf hfirst
          simp only [List.find?_cons, sub, List.all_nil] at hf
          injection hf with hf
          subst hf
          simp only [Dict.keys_cons, List.head?_cons, Option.some.injEq] at hfirst
          have := hr.sits.keys.nodup hr.sits.nodup
          rw [List.cons_append, List.nodup_cons] at this
          exact this.1 (List.mem_append_right _ (hfirst ▸ hk))
      · obtain ⟨x, hx⟩ := List.exists_mem_of_ne_nil _ hvs
        have hps : (p.1, p.2.vars) ∈ skel t.nodes := List.mem_map_of_mem (f := fun q => (q.1, q.2.vars)) hpm
        have hd := hr.sits.disj _ hps hk
        obtain ⟨f, hfq⟩ := (mem_skel hr.sits.nodup (k := q.1) (vars := q.2)).1 hq
        have hqk := hr.sits.keys.subset (Dict.mem_keys_of_get? hfq)
        simp only [List.cons_append, List.mem_cons, List.mem_append] at hqk
        have hqk' : q.1 = root ∨ q.1 ∈ kids.names := by
          rcases hqk with h | h | h
          · exact Or.inl h
          · exact Or.inr h
          · exact absurd h hqo
        obtain ⟨vars, g, g1, -, -, g4, -⟩ := hr.clique hqk'
        rw [hfq] at g1
        injection g1 with g1
        injection g1 with g1
        exact disjoint_left.1 hd (List.mem_toFinset.2 (hpv x hx))
          (g4 (List.mem_toFinset.2 (g1 ▸ hqv x hx)))

/-- Querying a calibrated tree: the un-normalised table. -/
theorem Ready.query (so : SetOrder) (hr : Ready bn t root rvars kids others Φ Ψ W) {vs : List Name}
    (h : ∃ q ∈ skel t.nodes, q.1 ∉ others ∧ ∀ x ∈ vs, x ∈ q.2) :
    ∃ s : Factor, t.query so vs = .ok s.normalize ∧ s.Over bn.lab ∧ (∀ v, v ∈ s.variableOrder ↔ v ∈ vs) ∧
      (∀ v ∈ vs, v ∈ rvars.toFinset ∪ kids.scope) ∧
      ∀ σ, Legal bn.card vs σ →
        s.eval σ = sumOver bn.card ((rvars.toFinset ∪ kids.scope) \ vs.toFinset) Φ σ := by
  obtain ⟨⟨k, n⟩, h1, h2, h3⟩ := hr.find h
  dsimp only at h2 h3
  obtain ⟨vars, f, g1, g2, g3, g4, g5⟩ := hr.clique h2
  have hm := Dict.get?_of_mem hr.sits.nodup (List.mem_of_find?_eq_some h1)
  rw [hm] at g1
  injection g1 with g1
  subst g1
  dsimp only at h3
  obtain ⟨s, s1, s2, s3, s4⟩ := marginalize_over g2 (so.nodup vars vs)
    (fun v hv => (g3 v).2 ((so.mem _ _ _).1 hv).1)
  have hso : ∀ v, v ∈ s.variableOrder ↔ v ∈ vs := by
    intro v
    rw [s3]
    simp only [List.mem_filter, g3, so.mem, decide_eq_true_eq]
    constructor
    · rintro ⟨a, b⟩; by_contra hv; exact b ⟨a, hv⟩
    · intro hv; exact ⟨h3 v hv, fun hh => hh.2 hv⟩
  refine ⟨s, ?_, s2, hso, fun v hv => g4 (List.mem_toFinset.2 (h3 v hv)), fun σ hσ => ?_⟩
  · unfold JTree.query
    rw [h1]
    dsimp only
    rw [s1, ok_bind]
    rfl
  · rw [s4 σ fun v hv => hσ v ((hso v).1 hv)]
    have e1 : (so.diff vars vs).toFinset = vars.toFinset \ vs.toFinset := by
      ext x; simp [so.mem]
    have hvs : vs.toFinset ⊆ vars.toFinset := fun x hx => by simpa using h3 x (by simpa using hx)
    rw [e1]
    have e2 : (rvars.toFinset ∪ kids.scope) \ vs.toFinset =
        (vars.toFinset \ vs.toFinset) ∪ ((rvars.toFinset ∪ kids.scope) \ vars.toFinset) := by
      ext x
      simp only [mem_sdiff, mem_union]
      have a := @g4 x
      have b := @hvs x
      simp only [mem_union] at a
      tauto
    rw [e2, sumOver_union (disjoint_left.2 fun x h1 h2 => (mem_sdiff.1 h2).2 (mem_sdiff.1 h1).1)]
    refine sumOver_congr fun τ hτ => g5 τ ?_
    exact hτ.legal fun v hv hn => hσ v (by
      by_contra hh; exact hn (by simp [hv, hh]))

/-- normalising a table that holds the un-normalised posterior up to a factor -/
theorem normalize_scaled {lab : Name → List Val} {names Q : List Name} {s : Factor} {W : Assign → ℚ}
    (hs : s.Over lab) (hQ : ∀ v, v ∈ s.variableOrder ↔ v ∈ Q) (hQn : ∀ v ∈ Q, v ∈ names) {B : ℚ}
    (hB : 0 < B) (h : ∀ σ, Legal (cardOf lab) Q σ →
      s.eval σ * B = sumOver (cardOf lab) (names.toFinset \ Q.toFinset) W σ)
    {σ : Assign} (hσ : Legal (cardOf lab) Q σ) :
    s.normalize.eval σ =
      if 0 < sumOver (cardOf lab) names.toFinset W σ then
        sumOver (cardOf lab) (names.toFinset \ Q.toFinset) W σ / sumOver (cardOf lab) names.toFinset W σ
      else s.eval σ := by
  have hleg : Legal (cardOf lab) s.variableOrder σ := fun v hv => hσ v ((hQ v).1 hv)
  have hfs : s.variableOrder.toFinset = Q.toFinset := by
    ext v; simp [hQ]
  have hsum : s.potentials.sumAll * B = sumOver (cardOf lab) names.toFinset W σ := by
    have hsub : Q.toFinset ⊆ names.toFinset := fun v hv => by
      simpa using hQn v (by simpa using hv)
    rw [Factor.sumAll_eq_sumOver hs.wf σ, hfs, ← Finset.union_sdiff_of_subset hsub,
      sumOver_union Finset.disjoint_sdiff, ← sumOver_mul_const]
    refine sumOver_congr fun τ hτ => h τ ?_
    exact fun v hv => hτ.2 v (by simpa using hv)
  rw [Factor.eval_normalize hs.wf hleg, ← hsum, ← h σ hσ]
  have hpos : 0 < s.potentials.sumAll * B ↔ s.potentials.sumAll > 0 := by
    constructor
    · intro hh; exact (pos_iff_pos_of_mul_pos hh).2 hB
    · intro hh; exact mul_pos hh hB
  simp only [hpos]
  split
  · rw [mul_div_mul_right _ _ hB.ne']
  · rfl

/-- The other components only contribute a constant factor. -/
theorem Ready.split (hr : Ready bn t root rvars kids others Φ Ψ W) {vs : List Name}
    (hvs : ∀ v ∈ vs, v ∈ rvars.toFinset ∪ kids.scope) (hσ0 : ∀ σ τ,
      sumOver bn.card (bn.names.toFinset \ (rvars.toFinset ∪ kids.scope)) Ψ σ =
      sumOver bn.card (bn.names.toFinset \ (rvars.toFinset ∪ kids.scope)) Ψ τ)
    {σ : Assign} (hσ : Legal bn.card vs σ) :
    sumOver bn.card ((rvars.toFinset ∪ kids.scope) \ vs.toFinset) Φ σ *
      sumOver bn.card (bn.names.toFinset \ (rvars.toFinset ∪ kids.scope)) Ψ σ =
    sumOver bn.card (bn.names.toFinset \ vs.toFinset) W σ := by
  set U := rvars.toFinset ∪ kids.scope with hU
  have hvs' : vs.toFinset ⊆ U := fun x hx => hvs x (by simpa using hx)
  have e2 : bn.names.toFinset \ vs.toFinset = (U \ vs.toFinset) ∪ (bn.names.toFinset \ U) := by
    ext x
    simp only [mem_sdiff, mem_union]
    have a := @hr.dom x
    rw [← hU] at a
    have b := @hvs' x
    tauto
  have hd : Disjoint (U \ vs.toFinset) (bn.names.toFinset \ U) :=
    disjoint_left.2 fun x h1 h2 => (mem_sdiff.1 h2).2 (mem_sdiff.1 h1).1
  have hW : sumOver bn.card (bn.names.toFinset \ vs.toFinset) W σ =
      sumOver bn.card (bn.names.toFinset \ vs.toFinset) (fun τ => Φ τ * Ψ τ) σ := by
    refine sumOver_congr fun τ hτ => (hr.prod τ ?_).symm
    refine hτ.legal fun v hv hn => hσ v ?_
    by_contra hh; exact hn (by simp [hv, hh])
  rw [hW, e2, sumOver_union hd, ← sumOver_mul_const]
  refine sumOver_congr fun τ _ => ?_
  rw [sumOver_mul_left hr.depΦ (disjoint_left.2 fun x h1 h2 => (mem_sdiff.1 h2).2 h1), hσ0 σ τ]

theorem Ready.const (hr : Ready bn t root rvars kids others Φ Ψ W) (σ τ : Assign) :
    sumOver bn.card (bn.names.toFinset \ (rvars.toFinset ∪ kids.scope)) Ψ σ =
      sumOver bn.card (bn.names.toFinset \ (rvars.toFinset ∪ kids.scope)) Ψ τ := by
  refine (DependsOn.sumOver hr.depΨ) σ τ fun v hv => ?_
  simp at hv

/-- Answers of a calibrated tree: the normalised sum of the product of all tables, if the tree has
one component or this sum is positive. -/
theorem Ready.exact (so : SetOrder) (hr : Ready bn t root rvars kids others Φ Ψ W) {vs : List Name}
    (h : ∃ q ∈ skel t.nodes, q.1 ∉ others ∧ ∀ x ∈ vs, x ∈ q.2)
    (ho : others = [] ∨ ∀ σ, 0 < sumOver bn.card bn.names.toFinset W σ) :
    ∃ r, t.query so vs = .ok r ∧ r.Over bn.lab ∧ (∀ v, v ∈ r.variableOrder ↔ v ∈ vs) ∧
      ∀ σ, Legal bn.card vs σ → r.eval σ =
        if 0 < sumOver bn.card bn.names.toFinset W σ then
          sumOver bn.card (bn.names.toFinset \ vs.toFinset) W σ / sumOver bn.card bn.names.toFinset W σ
        else sumOver bn.card (bn.names.toFinset \ vs.toFinset) W σ := by
  obtain ⟨s, s1, s2, s3, s4, s5⟩ := hr.query so h
  have hvn : ∀ v ∈ vs, v ∈ bn.names := fun v hv => by simpa using hr.dom (s4 v hv)
  refine ⟨s.normalize, s1, s2.normalize, by simpa using s3, fun σ hσ => ?_⟩
  set B := sumOver bn.card (bn.names.toFinset \ (rvars.toFinset ∪ kids.scope)) Ψ σ with hB
  have hsB : ∀ τ, Legal bn.card vs τ →
      s.eval τ * B = sumOver bn.card (bn.names.toFinset \ vs.toFinset) W τ := by
    intro τ hτ
    rw [s5 τ hτ, hB, hr.const σ τ]
    exact hr.split s4 hr.const hτ
  have hBnn : 0 ≤ B := sumOver_nonneg fun τ _ => hr.nnΨ τ
  rcases ho with ho | ho
  · have hB1 : B = 1 := by
      obtain ⟨a, b⟩ := hr.all ho
      rw [hB, b, sdiff_self, bot_eq_empty, sumOver_empty, a]
    have := normalize_scaled (lab := bn.lab) s2 s3 hvn (B := B) (by rw [hB1]; norm_num) hsB hσ
    refine this.trans ?_
    congr 1
    have := hsB σ hσ
    rw [hB1, mul_one] at this
    exact this
  · have hB0 : 0 < B := by
      rcases hBnn.lt_or_eq with hlt | heq
      · exact hlt
      · exfalso
        have := hr.split (vs := []) (by simp) hr.const (σ := σ) (by simp [Legal])
        rw [← hB, ← heq, mul_zero] at this
        have h0 := ho σ
        simp only [List.toFinset_nil, sdiff_empty] at this
        rw [← this] at h0
        exact lt_irrefl _ h0
    have := normalize_scaled (lab := bn.lab) s2 s3 hvn hB0 hsB hσ
    refine this.trans ?_
    have h0 := ho σ
    have hc : cardOf bn.lab = bn.card := rfl
    rw [hc, if_pos h0, if_pos h0]

end JTree
end Primo
