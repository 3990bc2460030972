import Verif.Lemmas.SoftTree
import Verif.Spec.Soft

/-! # `set_evidence` with `softPosteriors=True` in general -/

namespace Primo
open JoinTree Factor Finset

/-- `as_evidence` with old marginals: a multiple of the quotient -/
theorem asEvidence_ratio (v : Name) (values : List Val) (e : List ℚ) (m : NDArray)
    (hm : m.shape = [values.length]) (hlen : e.length = values.length)
    (hnn : ∀ x ∈ e, 0 ≤ x) (hpe : ∃ x ∈ e, x ≠ 0) (hm0 : ∀ i < values.length, 0 ≤ m.get [i])
    (hsupp : ∀ i, i < values.length → m.get [i] = 0 → e.getD i 0 = 0) :
    ∃ r k, Factor.asEvidence v values (.soft e) (some m) = .ok r ∧ 0 < k ∧
      r.WF (fun _ => values.length) ∧ r.variableOrder = [v] ∧ r.values = [(v, values)] ∧
      ∀ j < values.length, r.potentials.get [j] =
        k * (if m.get [j] = 0 then 0 else e.getD j 0 / m.get [j]) := by
  cases he : e with
  | nil => rw [he] at hpe; simp at hpe
  | cons x xs =>
    rw [← he]
    set mx := xs.foldl max x with hmx
    set ref := e.idxOf mx with href
    have hmem : mx ∈ e := by rw [he]; exact foldl_max_mem xs x
    have hreflt : ref < values.length := by rw [← hlen]; exact List.idxOf_lt_length_of_mem hmem
    have hrefv : e.getD ref 0 = mx := by
      simp [href, List.getD_eq_getElem?_getD, List.getElem?_idxOf hmem]
    have hle : ∀ y ∈ e, y ≤ mx := by
      rw [he]; intro y hy
      rcases List.mem_cons.1 hy with rfl | hy
      · exact (foldl_max_ge xs y).1
      · exact (foldl_max_ge xs x).2 y hy
    have hpos : 0 < mx := by
      obtain ⟨y, hy, hy0⟩ := hpe
      exact lt_of_lt_of_le (lt_of_le_of_ne (hnn y hy) (Ne.symm hy0)) (hle y hy)
    have hmref : m.get [ref] ≠ 0 := by
      intro h
      have := hsupp ref hreflt h
      rw [hrefv] at this
      exact absurd this (ne_of_gt hpos)
    let L : Nat → ℚ := fun i => if i = ref then 1 else if m.get [i] = 0 then 0
      else e.getD i 0 / m.get [i] * m.get [ref] / mx
    have hmapM : ((List.range values.length).mapM fun i =>
        if i = ref then (.ok 1 : Except PyErr ℚ)
        else if m.shape.headD 0 ≤ i then .error PyErr.indexError
        else if m.get [i] = 0 then .ok 0
        else if m.shape.headD 0 ≤ ref then .error PyErr.indexError
        else if e.getD ref 0 = 0 then .error PyErr.nonFinite
        else .ok (e.getD i 0 / m.get [i] * m.get [ref] / e.getD ref 0)) =
        .ok ((List.range values.length).map L) := by
      apply mapM_ok
      intro i hi
      have hi' : i < values.length := List.mem_range.1 hi
      have hh : m.shape.headD 0 = values.length := by rw [hm]; rfl
      rw [hrefv, hh]
      simp only [L]
      by_cases h1 : i = ref
      · simp [h1]
      · rw [if_neg h1, if_neg h1, if_neg (not_le.2 hi')]
        by_cases h2 : m.get [i] = 0
        · simp [h2]
        · rw [if_neg h2, if_neg h2, if_neg (not_le.2 hreflt), if_neg (ne_of_gt hpos)]
    have hget : ∀ i < values.length,
        (NDArray.ofList ((List.range values.length).map L)).get [i] = L i := by
      intro i hi
      simp [List.getD_eq_getElem?_getD, hi]
    refine ⟨⟨NDArray.ofList ((List.range values.length).map L), [v], [(v, values)]⟩, m.get [ref] / mx, ?_,
      div_pos (lt_of_le_of_ne (hm0 ref hreflt) (Ne.symm hmref)) hpos,
      ⟨by simp, by simp, by simp [Dict.get?], by simp⟩, rfl, rfl, fun j hj => ?_⟩
    · have ham : Factor.argmax e = .ok ref := by rw [he, Factor.argmax, href, he]
      rw [Factor.asEvidence, if_neg (by simpa using hlen)]
      simp only
      rw [ham, ok_bind, hmapM]
      rfl
    · rw [hget j hj]
      simp only [L]
      by_cases h1 : j = ref
      · rw [if_pos h1, h1, if_neg hmref, hrefv]; field_simp
      · rw [if_neg h1]
        by_cases h2 : m.get [j] = 0
        · rw [if_pos h2, if_pos h2, mul_zero]
        · rw [if_neg h2, if_neg h2]; ring

theorem priorAt_nonneg {bn : BN} (hnn : bn.NonNeg) (v : Name) (i : Nat) : 0 ≤ priorAt bn v i :=
  posterior_nonneg hnn (by intro v l h; simp at h) _ _

theorem NonNegEvidence.softened {bn : BN} (hnn : bn.NonNeg) {ev : Dict Evidence} (h : Supported bn ev) :
    NonNegEvidence (softened bn ev) := by
  intro v l hm x hx
  obtain ⟨p, hp, e⟩ := List.mem_map.1 hm
  obtain ⟨w, pe⟩ := p
  injection e with e1 e2
  cases pe with
  | hard y => cases e2
  | soft y =>
    injection e2 with e2
    subst e2
    obtain ⟨i, -, rfl⟩ := List.mem_map.1 hx
    dsimp only
    split
    · exact le_rfl
    · refine div_nonneg ?_ (priorAt_nonneg hnn _ _)
      rw [List.getD_eq_getElem?_getD]
      cases hy : y[i]? with
      | none => simp
      | some z => exact (h w y hp).1 z (List.mem_of_getElem? hy)

theorem LegalEvidence.softened {bn : BN} {ev : Dict Evidence} (he : LegalEvidence bn ev) :
    LegalEvidence bn (softened bn ev) := by
  have hk : Dict.keys (Primo.softened bn ev) = ev.keys := by
    unfold Primo.softened Dict.keys
    rw [List.map_map]
    rfl
  refine ⟨by rw [hk]; exact he.nodup, fun p hp => ?_, fun v x hm => ?_, fun v l hm => ?_⟩
  · obtain ⟨q, hq, rfl⟩ := List.mem_map.1 hp
    exact he.mem q hq
  · obtain ⟨⟨w, pe⟩, hp, e⟩ := List.mem_map.1 hm
    injection e with e1 e2
    cases pe with
    | hard y => injection e2 with e2; subst e1; subst e2; exact he.hard _ _ hp
    | soft y => cases e2
  · obtain ⟨⟨w, pe⟩, hp, e⟩ := List.mem_map.1 hm
    injection e with e1 e2
    cases pe with
    | hard y => cases e2
    | soft y => injection e2 with e2; subst e2; subst e1; simp [ratio]

theorem lik_softened {bn : BN} {v : Name} {e : List ℚ} {i : Nat} (hi : i < bn.card v) :
    lik (bn.lab v) (.soft (ratio bn v e)) i =
      if priorAt bn v i = 0 then 0 else e.getD i 0 / priorAt bn v i := by
  simp [lik, ratio, List.getD_eq_getElem?_getD, hi]

/-- constants collected from a product -/
theorem prod_scaled {α : Type} (P : Assign → Prop) (xs : List α) (f g : α → Assign → ℚ)
    (h : ∀ x ∈ xs, ∃ k : ℚ, 0 < k ∧ ∀ σ, P σ → f x σ = k * g x σ) :
    ∃ c : ℚ, 0 < c ∧ ∀ σ, P σ → (xs.map fun x => f x σ).prod = c * (xs.map fun x => g x σ).prod := by
  induction xs with
  | nil => exact ⟨1, one_pos, fun σ _ => by simp⟩
  | cons x xs ih =>
    obtain ⟨k, hk, h1⟩ := h x (by simp)
    obtain ⟨c, hc, h2⟩ := ih fun y hy => h y (by simp [hy])
    refine ⟨k * c, mul_pos hk hc, fun σ hσ => ?_⟩
    simp only [List.map_cons, List.prod_cons]
    rw [h1 σ hσ, h2 σ hσ]
    ring

namespace JTree

variable {bn : BN} {t : JTree} {root : Name} {rvars : List Name} {kids : Forest}

theorem oldMarginals_eq {so : SetOrder} {limit : Nat} {m : Name → NDArray} (vs : List Name)
    (h : ∀ v ∈ vs, ∃ r, t.marginals so limit [v] = (t, .ok r) ∧ r.potentials = m v) :
    oldMarginals so limit vs t = (t, .ok (vs.map fun v => (v, m v))) := by
  induction vs with
  | nil => rfl
  | cons v vs ih =>
    obtain ⟨r, h1, h2⟩ := h v (by simp)
    simp only [oldMarginals, h1, ih fun w hw => h w (by simp [hw]), h2, List.map_cons]

theorem get?_map_keys {α : Type} {ev : Dict α} {m : Name → NDArray} {e : Name × α} (h : e ∈ ev) :
    Dict.get? (ev.keys.map fun v => (v, m v)) e.1 = some (m e.1) := by
  induction ev with
  | nil => simp at h
  | cons p ev ih =>
    simp only [Dict.keys, List.map_cons] at ih ⊢
    by_cases hp : p.1 = e.1
    · simp [Dict.get?, hp]
    · have := ih ((List.mem_cons.1 h).resolve_left fun hh => hp (by rw [hh]))
      simp only [Dict.get?] at this ⊢
      rw [if_neg hp]
      exact this

/-- `set_evidence(ev, softPosteriors=True)` on a connected tree: up to a constant the tree holds the
product of the tables and the likelihoods of the softened evidence -/
theorem setEvidence_soft (so : SetOrder) (hc : bn.Consistent) (hnn : bn.NonNeg)
    (hs : Sits bn t root rvars kids []) {ev : Dict Evidence} (he : LegalEvidence bn ev)
    (hsup : Supported bn ev) {limit : Nat} (hl : kids.depth < limit) :
    ∃ t' Φ Ψ c, setEvidence so limit bn ev true t = (t', none) ∧ t'.shape = t.shape ∧ 0 < c ∧
      Ready bn t' root rvars kids [] Φ Ψ fun σ => c * weight bn (softened bn ev) σ := by
  obtain ⟨t0, a1, a2, a3, a4, a5⟩ := hs.reset so hc
  have hs0 := hs.of_shape a2
  obtain ⟨t1, Φ, Ψ, b1, b2, b3⟩ := calculate_tables so hc hnn hs0 a4 a5 hl
  have hold : ∀ v ∈ bn.names, ∃ r, t1.marginals so limit [v] = (t1, .ok r) ∧
      r.potentials.shape = [(bn.lab v).length] ∧
      ∀ i < (bn.lab v).length, r.potentials.get [i] = priorAt bn v i := by
    intro v hv
    obtain ⟨n, hn, hnm⟩ := BN.exists_of_mem_names hv
    obtain ⟨q, hq, hqf⟩ := b3.sits.fam n hn
    obtain ⟨m, c1, c2, c3, c4⟩ := b3.posterior so (ev := []) (vs := [v])
      ⟨q, hq, by simp, by simpa [← hnm] using hqf n.name (by simp [NodeV.family])⟩ (Or.inl rfl) limit
    have hmv : m.variableOrder = [v] := eq_singleton_of_mem c2.wf.nodup c3
    refine ⟨m, c1, ?_, fun i hi => ?_⟩
    · have := c2.wf.shape
      rw [hmv] at this
      simpa using this
    · have := c4 (fun _ => i) (by intro w hw; rw [List.mem_singleton] at hw; subst hw; exact hi)
      rw [Factor.eval, hmv] at this
      exact this
  set m : Name → NDArray := fun v => match (t1.marginals so limit [v]).2 with
    | .ok r => r.potentials
    | .error _ => NDArray.scalar 0 with hmdef
  have hm : ∀ v ∈ bn.names, (∃ r, t1.marginals so limit [v] = (t1, .ok r) ∧ r.potentials = m v) ∧
      (m v).shape = [(bn.lab v).length] ∧ ∀ i < (bn.lab v).length, (m v).get [i] = priorAt bn v i := by
    intro v hv
    obtain ⟨r, r1, r2, r3⟩ := hold v hv
    have : m v = r.potentials := by rw [hmdef]; dsimp only; rw [r1]
    exact ⟨⟨r, r1, this.symm⟩, by rw [this]; exact r2, by rw [this]; exact r3⟩
  -- the items
  set item : Name × Evidence → Item := fun e =>
    ⟨fun vars => vars.contains e.1, match Factor.asEvidence e.1 (bn.lab e.1) e.2 (some (m e.1)) with
      | .ok f => f
      | .error _ => Factor.trivial 1⟩ with hitem
  have hspec : ∀ e ∈ ev, Factor.asEvidence e.1 (bn.lab e.1) e.2 (some (m e.1)) = .ok (item e).f ∧
      (item e).f.Over bn.lab ∧ (item e).f.variableOrder = [e.1] ∧
      ∃ k : ℚ, 0 < k ∧ ∀ σ, σ e.1 < bn.card e.1 → (item e).f.eval σ =
        k * lik (bn.lab e.1) (match e.2 with
          | .hard x => .hard x
          | .soft l => .soft (ratio bn e.1 l)) (σ e.1) := by
    intro e hem
    obtain ⟨v, x⟩ := e
    obtain ⟨-, hm1, hm2⟩ := hm v (he.mem _ hem)
    cases x with
    | hard x =>
      obtain ⟨h1, h2, h3, h4, -, -⟩ := evItem_spec he hem
      have hh : (item (v, .hard x)).f = (evItem bn (v, .hard x)).f := by
        have h1' : Factor.asEvidence v (bn.lab v) (.hard x) (some (m v)) =
          .ok (evItem bn (v, .hard x)).f := h1
        rw [hitem]
        dsimp only
        rw [h1']
      rw [hh]
      exact ⟨h1, h2, h3, 1, one_pos, fun σ hσ => by rw [one_mul]; exact h4 σ hσ⟩
    | soft l =>
      obtain ⟨s1, s2, s3⟩ := hsup v l hem
      obtain ⟨r, k, r1, r2, r3, r4, r5, r6⟩ := asEvidence_ratio v (bn.lab v) l (m v) hm1
        (he.soft v l hem) s1 s2 (fun i hi => by rw [hm2 i hi]; exact priorAt_nonneg hnn v i)
        (fun i hi h0 => s3 i hi (by rw [← hm2 i hi]; exact h0))
      have hh : (item (v, .soft l)).f = r := by
        rw [hitem]
        dsimp only
        rw [r1]
      rw [hh]
      refine ⟨r1, ⟨⟨r3.nodup, r3.keys, fun x hx => ?_, ?_⟩, fun x hx => ?_⟩, r4, k, r2, fun σ hσ => ?_⟩
      · rw [r4, List.mem_singleton] at hx; subst hx; exact r3.labels x (by rw [r4]; simp)
      · rw [r3.shape, r4]; rfl
      · rw [r4, List.mem_singleton] at hx; rw [r5, hx]; simp [Dict.get?]
      · dsimp only at hσ ⊢
        rw [Factor.eval, r4]
        simp only [List.map_cons, List.map_nil]
        rw [r6 (σ v) hσ, lik_softened hσ, hm2 (σ v) hσ]
  -- the second round
  obtain ⟨t2, d1, d2, d3, d4, d5⟩ := b3.sits.reset so hc
  have hs2 := b3.sits.of_shape d2
  obtain ⟨ns, e1, e2, e3⟩ := forEach_put (lab := bn.lab) so
    (putEvidence so bn (ev.keys.map fun v => (v, m v))) item ev t2 _ hs2.nodup d4
    (fun e hem t => by
      obtain ⟨n, hn, hnm⟩ := BN.exists_of_mem_names (he.mem e hem)
      have hgn : bn.getNode e.1 = .ok n := by rw [← hnm]; exact BN.getNode_ok hc.nodup hn
      have hlab : n.values = bn.lab e.1 := by rw [← hnm, BN.lab_eq hc.nodup hn]
      unfold putEvidence
      rw [hgn, ok_bind, hlab, get?_map_keys hem, (hspec e hem).1, ok_bind])
    (fun e hem => (hspec e hem).2.1)
  set t3 : JTree := { t2 with nodes := ns } with ht3
  have hsh : t3.shape = t2.shape := by
    unfold shape
    have := e2
    unfold skel at this
    rw [ht3]
    dsimp only
    rw [this]
  have hs3 := hs2.of_shape hsh
  have hnne := NonNegEvidence.softened hnn hsup
  obtain ⟨t', Φ', Ψ', f1, f2, f3⟩ := ready_of_calibrate so hc hnn hs3 (extra := ev.map item) e3
    (by
      intro it hit
      obtain ⟨e, hem, rfl⟩ := List.mem_map.1 hit
      obtain ⟨-, g2, g3, k, k1, k2⟩ := hspec e hem
      refine ⟨g2, fun vars hvs x hx => ?_, hs3.home (he.mem e hem) fun vars h => by simpa [hitem] using h,
        fun σ hσ => ?_, by rw [g3]; simp⟩
      · rw [g3, List.mem_singleton] at hx
        rw [hx]; simpa [hitem] using hvs
      · rw [k2 σ (hσ e.1 (by rw [g3]; simp))]
        refine mul_nonneg k1.le (lik_nonneg (fun l hll => ?_) _)
        exact hnne e.1 l (List.mem_map.2 ⟨e, hem, Prod.ext rfl hll⟩)) d5 hl
  obtain ⟨c, c1, c2⟩ := prod_scaled (Legal bn.card bn.names) ev (fun e σ => (item e).f.eval σ)
    (fun e σ => lik (bn.lab e.1) (match e.2 with
          | .hard x => .hard x
          | .soft l => .soft (ratio bn e.1 l)) (σ e.1))
    (fun e hem => by
      obtain ⟨-, -, -, k, k1, k2⟩ := hspec e hem
      exact ⟨k, k1, fun σ hσ => k2 σ (hσ e.1 (he.mem e hem))⟩)
  refine ⟨t', Φ', Ψ', c, ?_, f2.trans (hsh.trans (d2.trans (b2.trans a2))), c1, f3.congr fun σ hσ => ?_⟩
  · unfold setEvidence
    rw [a1, andThen_ok, if_pos rfl, b1, andThen_ok, oldMarginals_eq (m := m) ev.keys fun v hv => by
      obtain ⟨e, hem, rfl⟩ := List.mem_map.1 hv
      exact (hm e.1 (he.mem e hem)).1]
    dsimp only
    rw [d1, andThen_ok, e1, andThen_ok, f1]
  · rw [List.map_map]
    have := c2 σ hσ
    unfold weight Primo.softened
    rw [List.map_map]
    change _ * (ev.map fun e => (item e).f.eval σ).prod = _
    rw [this]
    ring_nf
    rfl

/-- a constant factor does not matter for the answers -/
theorem Ready.scaled (so : SetOrder) {ev : Dict Evidence} {c : ℚ} (hc0 : 0 < c) {Φ Ψ : Assign → ℚ}
    (hnn : bn.NonNeg) (hne : NonNegEvidence ev)
    (hr : Ready bn t root rvars kids [] Φ Ψ fun σ => c * weight bn ev σ) {vs : List Name}
    (h : ∃ q ∈ skel t.nodes, ∀ x ∈ vs, x ∈ q.2) (limit : Nat) :
    ∃ r, t.marginals so limit vs = (t, .ok r) ∧ r.Over bn.lab ∧ (∀ v, v ∈ r.variableOrder ↔ v ∈ vs) ∧
      ∀ σ, Legal bn.card vs σ → r.eval σ = Primo.posterior bn ev vs σ := by
  obtain ⟨q, q1, q2⟩ := h
  obtain ⟨r, h1, h2, h3, h4⟩ := hr.exact so ⟨q, q1, by simp, q2⟩ (Or.inl rfl)
  refine ⟨r, ?_, h2, h3, fun σ hσ => ?_⟩
  · unfold JTree.marginals
    rw [if_pos hr.valid]
    dsimp only
    rw [h1]
  · rw [h4 σ hσ]
    have e1 : ∀ s, sumOver bn.card s (fun σ => c * weight bn ev σ) σ = c * sumOver bn.card s (weight bn ev) σ :=
      fun s => sumOver_const_mul s c _ σ
    rw [e1, e1]
    unfold Primo.posterior totalWeight
    dsimp only
    by_cases hz : 0 < sumOver bn.card bn.names.toFinset (weight bn ev) σ
    · rw [if_pos (mul_pos hc0 hz), if_pos hz, mul_div_mul_left _ _ hc0.ne']
    · rw [if_neg (fun hh => hz (by
        by_contra hcon
        exact absurd hh (not_lt.2 (mul_nonpos_of_nonneg_of_nonpos hc0.le (not_lt.1 hcon))))), if_neg hz]
      have hzero : sumOver bn.card bn.names.toFinset (weight bn ev) σ = 0 :=
        le_antisymm (not_lt.1 hz) (sumOver_nonneg fun τ _ => weight_nonneg hnn hne τ)
      have : sumOver bn.card (bn.names.toFinset \ vs.toFinset) (weight bn ev) σ = 0 := by
        rw [← sumOver_zero (card := bn.card) (bn.names.toFinset \ vs.toFinset) σ]
        refine sumOver_congr fun τ hτ => ?_
        refine eq_zero_of_sumOver_eq_zero (fun τ _ => weight_nonneg hnn hne τ) hzero
          ⟨fun v hv => hτ.1 v fun hh => hv (mem_sdiff.1 hh).1, fun v hv => ?_⟩
        by_cases hvs : v ∈ vs
        · rw [hτ.1 v (by simp [hvs])]; exact hσ v hvs
        · exact hτ.2 v (mem_sdiff.2 ⟨hv, by simpa using hvs⟩)
      rw [this, mul_zero]

end JTree
end Primo
