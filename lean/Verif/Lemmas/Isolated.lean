import Verif.Lemmas.SetEvidence

/-! # Components of the join tree that consist of one clique

No messages are computed outside the root's component, but a component with one clique needs none. -/

namespace Primo
open JoinTree Factor Finset

namespace JTree

variable {bn : BN} {t : JTree} {root : Name} {rvars : List Name} {kids : Forest} {others : List Name}

/-- what a clique outside the root's component holds after `set_evidence` -/
theorem setEvidence_others (so : SetOrder) (hc : bn.Consistent) (hnn : bn.NonNeg)
    (hs : Sits bn t root rvars kids others) {ev : Dict Evidence} (he : LegalEvidence bn ev)
    (hen : NonNegEvidence ev) {limit : Nat} (hl : kids.depth < limit) :
    ∃ t', setEvidence so limit bn ev false t = (t', none) ∧ t'.shape = t.shape ∧ t'.valid = true ∧
      ∀ k ∈ others, ∀ n, t'.nodes.get? k = some n → n.factor.Over bn.lab ∧
        (∀ v, v ∈ n.factor.variableOrder ↔ ∃ it ∈ bn.map nodeItem ++ ev.map (evItem bn),
          home (skel t.nodes) it = some k ∧ v ∈ it.f.variableOrder) ∧
        ∀ σ, Legal bn.card n.factor.variableOrder σ → n.factor.eval σ =
          (((bn.map nodeItem ++ ev.map (evItem bn)).filter fun it =>
            home (skel t.nodes) it = some k).map fun it => it.f.eval σ).prod := by
  obtain ⟨t1, a1, a2, a3, a4, a5⟩ := hs.reset so hc
  have hs1 := hs.of_shape a2
  obtain ⟨ns, b1, b2, b3⟩ := loadEvidence so hc he hs1.nodup a4
  set t2 : JTree := { t1 with nodes := ns } with ht2
  have hsh : t2.shape = t1.shape := by
    unfold shape
    have := b2
    unfold skel at this
    rw [ht2]
    dsimp only
    rw [this]
  have hs2 := hs1.of_shape hsh
  obtain ⟨t', Φ, Ψ, c1, c2, c3, -, -, -, -, -, -, -, c11, -⟩ :=
    calibrate so hc hnn hs2 (extra := ev.map (evItem bn)) b3
    (fun it hit => by
      obtain ⟨e, hm, rfl⟩ := List.mem_map.1 hit
      exact evItem_ok hs2 he hen hm) a5 hl
  refine ⟨t', ?_, c2.trans (hsh.trans a2), c3, fun k hk n hg => ?_⟩
  · unfold setEvidence
    rw [a1, andThen_ok, if_neg (by simp), b1, andThen_ok, c1]
  · have hnd := hs.keys.nodup hs.nodup
    rw [List.nodup_append] at hnd
    have hne : k ∉ root :: kids.names := fun h => hnd.2.2 k h k hk rfl
    rw [List.mem_cons, not_or] at hne
    rw [c11 k hne.1 hne.2] at hg
    have := b3 k n (Dict.get?_mem hg)
    have hsk : skel ns = skel t.nodes := b2.trans (skel_of_shape a2)
    rw [hsk] at this
    exact this

theorem prod_filter_split (items : List Item) (p : Item → Bool) (g : Item → ℚ) :
    (items.map g).prod = ((items.filter p).map g).prod * ((items.filter fun it => !p it).map g).prod := by
  induction items with
  | nil => simp
  | cons a as ih =>
    cases hp : p a <;> simp only [List.map_cons, List.prod_cons, List.filter_cons, hp, ih] <;>
      simp <;> ring

/-- A clique that shares no variable with any other clique answers exactly. -/
theorem isolated_spec (so : SetOrder) (hc : bn.Consistent) (hnn : bn.NonNeg)
    (hs : Sits bn t root rvars kids others) {ev : Dict Evidence} (he : LegalEvidence bn ev)
    (hen : NonNegEvidence ev) (hpos : ∀ σ, 0 < totalWeight bn ev σ) {limit : Nat}
    (hl : kids.depth < limit) {k : Name} {vars : List Name} (hk : (k, vars) ∈ skel t.nodes)
    (hko : k ∈ others) (hiso : ∀ q ∈ skel t.nodes, q.1 ≠ k → ∀ x ∈ q.2, x ∉ vars) :
    ∃ t', setEvidence so limit bn ev false t = (t', none) ∧ ∀ vs, vs ≠ [] → (∀ x ∈ vs, x ∈ vars) →
      ∀ so' limit', ∃ r, t'.marginals so' limit' vs = (t', .ok r) ∧ r.Over bn.lab ∧
        (∀ v, v ∈ r.variableOrder ↔ v ∈ vs) ∧
        ∀ σ, Legal bn.card vs σ → r.eval σ = posterior bn ev vs σ := by
  obtain ⟨t', a1, a2, a3, a4⟩ := setEvidence_others so hc hnn hs he hen hl
  refine ⟨t', a1, fun vs hne hvs so' limit' => ?_⟩
  have hs' := hs.of_shape a2
  have hsk : skel t'.nodes = skel t.nodes := skel_of_shape a2
  obtain ⟨f, hf⟩ := (mem_skel hs'.nodup).1 (hsk ▸ hk)
  obtain ⟨f1, f2, f3⟩ := a4 k hko _ hf
  dsimp only at f1 f2 f3
  set items := bn.map nodeItem ++ ev.map (evItem bn) with hitems
  have hsub : ∀ x ∈ vars, x ∈ bn.names := hs.sub _ hk
  -- what the items are
  have hvar : ∀ q ∈ skel t.nodes, q.1 = k → q.2 = vars := by
    intro q hq e
    obtain ⟨g, hg⟩ := (mem_skel hs.nodup (k := q.1) (vars := q.2)).1 hq
    obtain ⟨g', hg'⟩ := (mem_skel hs.nodup).1 hk
    rw [e, hg'] at hg
    injection hg with hg
    injection hg with hg
    exact hg.symm
  have hit : ∀ it ∈ items, it.f.Over bn.lab ∧ (∀ σ, Legal bn.card bn.names σ → 0 ≤ it.f.eval σ) ∧
      (∀ v ∈ it.f.variableOrder, v ∈ bn.names) ∧
      ∃ k', home (skel t.nodes) it = some k' ∧
        (k' = k → ∀ v ∈ it.f.variableOrder, v ∈ vars) ∧
        (k' ≠ k → ∀ v ∈ it.f.variableOrder, v ∉ vars) := by
    intro it hit
    have key : it.f.Over bn.lab ∧ (∀ σ, Legal bn.card bn.names σ → 0 ≤ it.f.eval σ) ∧
        (∀ vars, it.p vars = true → ∀ v ∈ it.f.variableOrder, v ∈ vars) ∧
        ∃ k', home (skel t.nodes) it = some k' := by
      rcases List.mem_append.1 hit with h | h
      · obtain ⟨n, hn, rfl⟩ := List.mem_map.1 h
        obtain ⟨h1, h2, h3, h4, h5, h6⟩ := nodeItem_spec hc hn
        refine ⟨h2, fun σ _ => ?_, fun vars hv v hvv => (h6 vars).1 hv v (h3 ▸ hvv), ?_⟩
        · rw [h4]
          exact NDArray.get_nonneg (hnn n hn) _
        · obtain ⟨q, hq, hq'⟩ := hs.fam n hn
          exact home_some (k := q.1) (vars := q.2) hq ((h6 q.2).2 hq')
      · obtain ⟨e, hm, rfl⟩ := List.mem_map.1 h
        have hok := evItem_ok hs he hen hm
        refine ⟨hok.over, fun σ hσ => ?_, hok.scope, hok.home⟩
        refine hok.nonneg σ fun v hv => ?_
        rw [(evItem_spec he hm).2.2.1, List.mem_singleton] at hv
        exact hσ v (hv ▸ he.mem e hm)
    obtain ⟨k1, k2, k3, k', k4⟩ := key
    obtain ⟨vars', v1, v2⟩ := home_mem k4
    exact ⟨k1, k2, fun v hv => hs.sub _ v1 v (k3 _ v2 v hv), k', k4,
      fun e v hv => hvar _ v1 e ▸ k3 _ v2 v hv, fun e v hv => hiso _ v1 e v (k3 _ v2 v hv)⟩
  -- the table of the clique is over all its variables
  have hscope : ∀ v, v ∈ f.variableOrder ↔ v ∈ vars := by
    intro v
    rw [f2]
    constructor
    · rintro ⟨it, h1, h2, h3⟩
      obtain ⟨-, -, -, k', k4, k5, -⟩ := hit it h1
      rw [h2] at k4
      injection k4 with k4
      exact k5 k4.symm v h3
    · intro hv
      obtain ⟨n, hn, rfl⟩ := BN.exists_of_mem_names (hsub v hv)
      have hmem : nodeItem n ∈ items := List.mem_append_left _ (List.mem_map_of_mem hn)
      have hin : n.name ∈ (nodeItem n).f.variableOrder := by
        rw [(nodeItem_spec hc hn).2.2.1]; simp [NodeV.family]
      obtain ⟨-, -, -, k', k4, -, k6⟩ := hit _ hmem
      refine ⟨_, hmem, ?_, hin⟩
      by_cases e : k' = k
      · rw [k4, e]
      · exact absurd hv (k6 e _ hin)
  -- the rest
  set G : Assign → ℚ := fun σ => ((items.filter fun it =>
    !decide (home (skel t.nodes) it = some k)).map fun it => it.f.eval σ).prod with hG
  have hGdep : DependsOn (bn.names.toFinset \ vars.toFinset) G := by
    intro σ τ hst
    rw [hG]
    dsimp only
    congr 1
    refine List.map_congr_left fun it hm => ?_
    obtain ⟨hm1, hm2⟩ := List.mem_filter.1 hm
    obtain ⟨-, -, k3, k', k4, -, k6⟩ := hit it hm1
    refine eval_dependsOn it.f σ τ fun v hv => hst v ?_
    rw [List.mem_toFinset] at hv
    have hkk : k' ≠ k := by
      intro e
      simp [k4, e] at hm2
    simp [k3 v hv, k6 hkk v hv]
  have hGnn : ∀ σ, 0 ≤ sumOver bn.card (bn.names.toFinset \ vars.toFinset) G σ := by
    intro σ
    refine sumOver_nonneg fun τ hτ => ?_
    rw [hG]
    dsimp only
    refine list_prod_nonneg fun x hx => ?_
    obtain ⟨it, hm, rfl⟩ := List.mem_map.1 hx
    obtain ⟨hm1, hm2⟩ := List.mem_filter.1 hm
    obtain ⟨k1, k2, k3, k', k4, -, k6⟩ := hit it hm1
    have hkk : k' ≠ k := by
      intro e
      simp [k4, e] at hm2
    refine k1.nonneg (fun ρ hρ => ?_) τ
    obtain ⟨ρ', r1, r2⟩ : ∃ ρ' : Assign, Legal bn.card bn.names ρ' ∧
        ∀ v ∈ it.f.variableOrder, ρ' v = ρ v := by
      by_contra hno
      -- some variable has no outcome: impossible as the total weight is positive
      have h0 := hpos ρ
      have hz : totalWeight bn ev ρ = 0 := by
        unfold totalWeight sumOver
        refine Finset.sum_eq_zero fun p hp => ?_
        exfalso
        refine hno ⟨fun v => if v ∈ it.f.variableOrder then ρ v else
          if h : v ∈ bn.names.toFinset then p v h else 0, fun v hv => ?_, fun v hv => by simp [hv]⟩
        dsimp only
        split
        · rename_i hh
          exact hρ v hh
        · have hv' : v ∈ bn.names.toFinset := by simpa using hv
          rw [dif_pos hv']
          exact Finset.mem_range.1 (Finset.mem_pi.1 hp v hv')
      rw [hz] at h0
      exact lt_irrefl _ h0
    have := k2 ρ' r1
    rw [eval_dependsOn it.f ρ' ρ fun v hv => r2 v (by simpa using hv)] at this
    exact this
  have hW : ∀ σ, Legal bn.card bn.names σ → weight bn ev σ = f.eval σ * G σ := by
    intro σ hσ
    rw [f3 σ fun v hv => hσ v (hsub v ((hscope v).1 hv)), hG]
    dsimp only
    rw [← prod_filter_split items (fun it => decide (home (skel t.nodes) it = some k))
      fun it => it.f.eval σ, hitems, List.map_append, List.prod_append, prod_evItem he hσ, weight,
      List.map_map]
    congr 2
    exact List.map_congr_left fun n hn => ((nodeItem_spec hc hn).2.2.2.1 σ).symm
  -- the query
  have hfind : t'.nodes.find? (fun p => sub vs p.2.vars) = some (k, ⟨vars, f⟩) := by
    cases hfd : t'.nodes.find? (fun p => sub vs p.2.vars) with
    | none => exact absurd (sub_iff.2 hvs) (List.find?_eq_none.1 hfd _ (Dict.get?_mem hf))
    | some p =>
      have hpm := List.mem_of_find?_eq_some hfd
      have hpv : ∀ x ∈ vs, x ∈ p.2.vars := by
        have := List.find?_some hfd
        exact sub_iff.1 this
      obtain ⟨x, hx⟩ := List.exists_mem_of_ne_nil _ hne
      have hps : (p.1, p.2.vars) ∈ skel t.nodes :=
        hsk ▸ List.mem_map_of_mem (f := fun q : Name × JNode => (q.1, q.2.vars)) hpm
      by_cases e : p.1 = k
      · have := Dict.get?_of_mem hs'.nodup hpm
        rw [e, hf] at this
        injection this with this
        rw [← e, this]
      · exact absurd (hvs x hx) (hiso _ hps e x (hpv x hx))
  obtain ⟨s, s1, s2, s3, s4⟩ := marginalize_over f1 (so'.nodup vars vs)
    (fun v hv => (hscope v).2 ((so'.mem _ _ _).1 hv).1)
  have hso : ∀ v, v ∈ s.variableOrder ↔ v ∈ vs := by
    intro v
    rw [s3]
    simp only [List.mem_filter, hscope, so'.mem, decide_eq_true_eq]
    constructor
    · rintro ⟨a, b⟩; by_contra hv; exact b ⟨a, hv⟩
    · intro hv; exact ⟨hvs v hv, fun hh => hh.2 hv⟩
  have e1 : (so'.diff vars vs).toFinset = vars.toFinset \ vs.toFinset := by
    ext x; simp [so'.mem]
  have hsplit : ∀ A : List Name, (∀ x ∈ A, x ∈ vars) → ∀ σ, Legal bn.card A σ →
      sumOver bn.card (bn.names.toFinset \ A.toFinset) (weight bn ev) σ =
      sumOver bn.card (vars.toFinset \ A.toFinset) f.eval σ *
        sumOver bn.card (bn.names.toFinset \ vars.toFinset) G σ := by
    intro A hA σ hσ
    have e2 : bn.names.toFinset \ A.toFinset =
        (vars.toFinset \ A.toFinset) ∪ (bn.names.toFinset \ vars.toFinset) := by
      ext x
      simp only [mem_sdiff, mem_union, List.mem_toFinset]
      have a := hsub x
      have b := hA x
      tauto
    rw [sumOver_congr (G := fun τ => f.eval τ * G τ) fun τ hτ => hW τ (hτ.legal fun v hv hn => hσ v (by
        by_contra hh; exact hn (by simp [hv, hh]))), e2,
      sumOver_union (disjoint_left.2 fun x h1 h2 => (mem_sdiff.1 h2).2 (mem_sdiff.1 h1).1),
      ← sumOver_mul_const]
    refine sumOver_congr fun τ hτ => ?_
    have hd : DependsOn vars.toFinset f.eval := (eval_dependsOn f).mono fun v hv => by
      simpa using (hscope v).1 (by simpa using hv)
    rw [sumOver_mul_left hd (disjoint_left.2 fun x h1 h2 => (mem_sdiff.1 h2).2 h1)]
    congr 1
    refine (DependsOn.sumOver hGdep) τ σ fun v hv => ?_
    simp at hv
  set B := sumOver bn.card (bn.names.toFinset \ vars.toFinset) G (fun _ => 0) with hB
  have hBc : ∀ σ, sumOver bn.card (bn.names.toFinset \ vars.toFinset) G σ = B := fun σ =>
    (DependsOn.sumOver hGdep) σ _ fun v hv => by simp at hv
  have hB0 : 0 < B := by
    rcases (hBc (fun _ => 0) ▸ hGnn (fun _ => 0) : 0 ≤ B).lt_or_eq with h | h
    · exact h
    · exfalso
      have h1 := hsplit [] (by simp) (fun _ => 0) (by simp [Legal])
      rw [← hB, ← h, mul_zero] at h1
      have h0 := hpos (fun _ => 0)
      simp only [List.toFinset_nil, sdiff_empty] at h1
      rw [totalWeight, h1] at h0
      exact lt_irrefl _ h0
  refine ⟨s.normalize, ?_, s2.normalize, by simpa using hso, fun σ hσ => ?_⟩
  · unfold JTree.marginals
    rw [if_pos a3]
    dsimp only
    unfold JTree.query
    rw [hfind]
    dsimp only
    rw [s1, ok_bind]
    rfl
  · have := normalize_scaled (lab := bn.lab) (names := bn.names) (W := weight bn ev) s2 hso
      (fun v hv => hsub v (hvs v hv)) hB0 (fun τ hτ => by
        rw [s4 τ fun v hv => hτ v ((hso v).1 hv), e1]
        exact (hBc τ ▸ hsplit vs hvs τ hτ).symm) hσ
    rw [this]
    have hc' : cardOf bn.lab = bn.card := rfl
    have h0 := hpos σ
    unfold totalWeight at h0
    rw [hc', if_pos h0]
    unfold posterior totalWeight
    dsimp only
    rw [if_pos h0]

end JTree
end Primo
