import Verif.Decision
import Verif.Spec.Decision
import Verif.Lemmas.Over
import Verif.Lemmas.Joint
import Verif.Props.Factor

/-! # Generalised variable elimination: what one step and the whole loop compute -/

namespace Primo
open Finset

variable {lab : Name → List Val}

/-- number of outcomes for given labels -/
local notation "#c" => Factor.cardOf lab

theorem eval_dependsOn (f : Factor) : DependsOn f.variableOrder.toFinset f.eval := by
  intro σ τ h
  unfold Factor.eval
  rw [List.map_congr_left fun v hv => h v (by simpa using hv)]

theorem probOf_perm {l l' : List JointFactor} (h : l.Perm l') (σ : Assign) :
    probOf l σ = probOf l' σ := (h.map _).prod_eq

theorem utilOf_perm {l l' : List JointFactor} (h : l.Perm l') (σ : Assign) :
    utilOf l σ = utilOf l' σ := (h.map _).sum_eq

theorem probOf_append (l l' : List JointFactor) (σ : Assign) :
    probOf (l ++ l') σ = probOf l σ * probOf l' σ := by simp [probOf]

theorem utilOf_append (l l' : List JointFactor) (σ : Assign) :
    utilOf (l ++ l') σ = utilOf l σ + utilOf l' σ := by simp [utilOf]

theorem probOf_dependsOn {fs : List JointFactor} {A : Finset Name}
    (h : ∀ v, InScope fs v → v ∈ A) : DependsOn A (probOf fs) := by
  intro σ τ hst
  unfold probOf
  rw [List.map_congr_left fun f hf => (eval_dependsOn f.1) σ τ fun v hv =>
    hst v (h v ⟨f, hf, by simpa using hv⟩)]

theorem utilOf_dependsOn {fs : List JointFactor} (hov : ∀ f ∈ fs, JointOver lab f) {A : Finset Name}
    (h : ∀ v, InScope fs v → v ∈ A) : DependsOn A (utilOf fs) := by
  intro σ τ hst
  unfold utilOf
  rw [List.map_congr_left fun f hf => (eval_dependsOn f.2) σ τ fun v hv =>
    hst v (h v ⟨f, hf, ((hov f hf).scope v).1 (by simpa using hv)⟩)]

theorem div_over (so : SetOrder) {f g : Factor} (hf : f.Over lab) (hg : g.Over lab)
    (hsub : ∀ v ∈ g.variableOrder, v ∈ f.variableOrder)
    (h0 : g.variableOrder ≠ [] ∨ ∀ σ, g.eval σ ≠ 0) :
    ∃ r, f.div so g = .ok r ∧ r.Over lab ∧ r.variableOrder = f.variableOrder ∧
      ∀ σ, Legal #c f.variableOrder σ →
        r.eval σ = if g.eval σ = 0 then 0 else f.eval σ / g.eval σ := by
  obtain ⟨r, r1, r2, r3, r4, r5⟩ := (C06_div_partial so f g hf.wf hg.wf).2 hsub h0
  refine ⟨r, r1, ⟨r2, fun v hv => ?_⟩, r3, r5⟩
  rw [r4]
  exact hf.val v (r3 ▸ hv)

theorem div_trivial_zero (so : SetOrder) {f g : Factor} (hg : g.Over lab)
    (hn : g.variableOrder = []) (hz : ∀ σ, g.eval σ = 0) :
    f.div so g = .error .floatingPointError := by
  have hk : g.values.keys = [] := by
    have := hg.wf.keys
    rw [hn] at this
    exact this.eq_nil
  have hd : (0 : ℚ) ∈ g.potentials.data := by
    have hz := hz fun _ => 0
    rw [NDArray.data_eq, hg.wf.shape, hn]
    simp only [Factor.eval, hn, List.map_nil] at hz
    simp [allIdx, hz]
  rw [Factor.div, if_pos (by simp [hk]), Factor.invert, if_pos (by simp [hn]), if_pos hd]
  rfl

theorem combineTwo_spec (so : SetOrder) {f g : JointFactor} (hf : JointOver lab f)
    (hg : JointOver lab g) :
    ∃ r, Decision.combineTwo so f g = .ok r ∧ JointOver lab r ∧
      (∀ v, v ∈ r.1.variableOrder ↔ v ∈ f.1.variableOrder ∨ v ∈ g.1.variableOrder) ∧
      ∀ σ, Legal #c r.1.variableOrder σ →
        r.1.eval σ = f.1.eval σ * g.1.eval σ ∧ r.2.eval σ = f.2.eval σ + g.2.eval σ := by
  obtain ⟨p, p1, p2, p3, p4⟩ := Factor.mul_over so hf.prob hg.prob
  obtain ⟨u, u1, u2, u3, u4⟩ := Factor.add_over so hf.util hg.util
  have hsc : ∀ v, v ∈ u.variableOrder ↔ v ∈ p.variableOrder := fun v => by
    rw [u3, p3, hf.scope, hg.scope]
  refine ⟨(p, u), by rw [Decision.combineTwo, p1, ok_bind, u1]; rfl, ⟨p2, u2, hsc, fun σ hσ => ?_⟩,
    p3, fun σ hσ => ⟨p4 σ hσ, u4 σ fun v hv => hσ v ((hsc v).1 hv)⟩⟩
  rw [p4 σ hσ]
  exact mul_nonneg (hf.nonneg σ fun v hv => hσ v ((p3 v).2 (Or.inl hv)))
    (hg.nonneg σ fun v hv => hσ v ((p3 v).2 (Or.inr hv)))

theorem foldlM_combine (so : SetOrder) {f : JointFactor} {fs : List JointFactor}
    (hf : JointOver lab f) (hov : ∀ g ∈ fs, JointOver lab g) :
    ∃ r, fs.foldlM (Decision.combineTwo so) f = .ok r ∧ JointOver lab r ∧
      (∀ v, v ∈ r.1.variableOrder ↔ InScope (f :: fs) v) ∧
      ∀ σ, Legal #c r.1.variableOrder σ →
        r.1.eval σ = probOf (f :: fs) σ ∧ r.2.eval σ = utilOf (f :: fs) σ := by
  induction fs generalizing f with
  | nil => exact ⟨f, rfl, hf, by simp [InScope], fun σ _ => by simp [probOf, utilOf]⟩
  | cons g fs ih =>
    obtain ⟨r, r1, r2, r3, r4⟩ := combineTwo_spec so hf (hov g (by simp))
    obtain ⟨t, t1, t2, t3, t4⟩ := ih r2 fun h hh => hov h (by simp [hh])
    refine ⟨t, by rw [List.foldlM_cons, r1, ok_bind, t1], t2, fun v => ?_, fun σ hσ => ?_⟩
    · rw [t3]
      simp only [InScope, List.mem_cons, exists_eq_or_imp, r3, or_assoc]
    · obtain ⟨a, b⟩ := t4 σ hσ
      obtain ⟨c, d⟩ := r4 σ fun v hv => hσ v ((t3 v).2 ⟨r, by simp, hv⟩)
      rw [a, b]
      simp only [probOf, utilOf, List.map_cons, List.prod_cons, List.sum_cons] at c d ⊢
      rw [c, d]
      exact ⟨by ring, by ring⟩

theorem combine_spec (so : SetOrder) {fs : List JointFactor} (hne : fs ≠ [])
    (hov : ∀ g ∈ fs, JointOver lab g) :
    ∃ r, Decision.combine so fs = .ok r ∧ JointOver lab r ∧
      (∀ v, v ∈ r.1.variableOrder ↔ InScope fs v) ∧
      ∀ σ, Legal #c r.1.variableOrder σ →
        r.1.eval σ = probOf fs σ ∧ r.2.eval σ = utilOf fs σ := by
  cases fs with
  | nil => exact absurd rfl hne
  | cons f fs => exact foldlM_combine so (hov f (by simp)) fun g hg => hov g (by simp [hg])

theorem varies_update {v : Name} {σ τ : Assign} {l : List Name} (hτ : Varies #c {v} σ τ)
    (hσ : Legal #c (l.filter fun u => decide (u ∉ [v])) σ) : Legal #c l τ :=
  hτ.legal fun u hu hv => hσ u (List.mem_filter.2 ⟨hu, by simpa using hv⟩)

theorem marginalizeJoint_spec (so : SetOrder) {f : JointFactor} (hf : JointOver lab f) {v : Name}
    (hv : v ∈ f.1.variableOrder) :
    (Decision.marginalizeJoint so f v = .error .floatingPointError ∧
      (∀ u ∈ f.1.variableOrder, u = v) ∧ ∀ σ, sumOver #c {v} f.1.eval σ = 0) ∨
    ∃ r, Decision.marginalizeJoint so f v = .ok r ∧ JointOver lab r ∧
      (∀ u, u ∈ r.1.variableOrder ↔ u ∈ f.1.variableOrder ∧ u ≠ v) ∧
      (r.1.variableOrder = [] → ∀ σ, r.1.eval σ ≠ 0) ∧
      ∀ σ, Legal #c r.1.variableOrder σ →
        r.1.eval σ = sumOver #c {v} f.1.eval σ ∧
        r.1.eval σ * r.2.eval σ = sumOver #c {v} (fun τ => f.1.eval τ * f.2.eval τ) σ := by
  obtain ⟨t, t1, t2, t3, t4⟩ := Factor.marginalize_over hf.prob (vs := [v]) (by simp) (by simpa using hv)
  obtain ⟨m, m1, m2, m3, m4⟩ := Factor.mul_over so hf.prob hf.util
  have hms : ∀ u, u ∈ m.variableOrder ↔ u ∈ f.1.variableOrder := fun u => by
    rw [m3, hf.scope]; exact or_self_iff
  obtain ⟨s, s1, s2, s3, s4⟩ := Factor.marginalize_over m2 (vs := [v]) (by simp)
    (by simpa using (hms v).2 hv)
  have hts : ∀ u, u ∈ t.variableOrder ↔ u ∈ f.1.variableOrder ∧ u ≠ v := fun u => by
    rw [t3]; simp
  have hss : ∀ u, u ∈ s.variableOrder ↔ u ∈ t.variableOrder := fun u => by
    rw [s3, hts]; simp [hms]
  have hfs : ([v] : List Name).toFinset = {v} := by simp
  rw [hfs] at t4 s4
  by_cases h0 : t.variableOrder ≠ [] ∨ ∀ σ, t.eval σ ≠ 0
  · right
    obtain ⟨q, q1, q2, q3, q4⟩ := div_over so s2 t2 (fun u hu => (hss u).2 hu) h0
    refine ⟨(t, q), ?_, ⟨t2, q2, fun u => by rw [q3, hss], fun σ hσ => ?_⟩, hts, fun he => ?_,
      fun σ hσ => ⟨t4 σ hσ, ?_⟩⟩
    · rw [Decision.marginalizeJoint, t1, ok_bind, m1, ok_bind, s1, ok_bind, q1]; rfl
    · rw [t4 σ hσ]
      exact sumOver_nonneg fun τ hτ => hf.nonneg τ (varies_update hτ (t3 ▸ hσ))
    · exact h0.resolve_left (not_not.2 he)
    · have hσs : Legal #c s.variableOrder σ := fun u hu => hσ u ((hss u).1 hu)
      have hsum : s.eval σ = sumOver #c {v} (fun τ => f.1.eval τ * f.2.eval τ) σ := by
        rw [s4 σ hσs]
        exact sumOver_congr fun τ hτ => m4 τ fun u hu =>
          varies_update hτ (t3 ▸ hσ) u ((hms u).1 hu)
      show t.eval σ * q.eval σ = _
      rw [q4 σ hσs, ← hsum]
      by_cases hz : t.eval σ = 0
      · rw [if_pos hz, mul_zero, hsum]
        rw [t4 σ hσ] at hz
        rw [sumOver_congr (G := fun _ => 0) fun τ hτ => ?_, sumOver_zero]
        rw [eq_zero_of_sumOver_eq_zero
          (fun τ hτ => hf.nonneg τ (varies_update hτ (t3 ▸ hσ))) hz hτ, zero_mul]
      · rw [if_neg hz, mul_div_cancel₀ _ hz]
  · left
    push Not at h0
    obtain ⟨hn, ρ, hz⟩ := h0
    have hz' : ∀ σ, t.eval σ = 0 := fun σ => by
      rw [(eval_dependsOn t) σ ρ (by simp [hn]), hz]
    refine ⟨?_, fun u hu => ?_, fun σ => ?_⟩
    · rw [Decision.marginalizeJoint, t1, ok_bind, m1, ok_bind, s1, ok_bind,
        div_trivial_zero so t2 hn hz']
      rfl
    · by_contra hne
      have := (hts u).2 ⟨hu, hne⟩
      rw [hn] at this
      simp at this
    · rw [← t4 σ (by simp [hn, Legal]), hz']

/-- no scope-less factor has probability part 0 -/
def NoZero (fs : List JointFactor) : Prop :=
  ∀ f ∈ fs, f.1.variableOrder = [] → ∀ σ, f.1.eval σ ≠ 0

/-- One round of the loop of `generalized_VE`. -/
theorem step_spec (so : SetOrder) {B R : List JointFactor} (hov : ∀ f ∈ B, JointOver lab f)
    {v : Name} (hv : InScope B v) (hR : R.Perm (B.filter fun f => v ∈ f.1.variableOrder)) :
    ((Decision.combine so R >>= fun t => Decision.marginalizeJoint so t v) =
        .error .floatingPointError ∧
      ∀ σ, sumOver #c {v} (probOf B) σ = 0) ∨
    ∃ new, (Decision.combine so R >>= fun t => Decision.marginalizeJoint so t v) = .ok new ∧
      JointOver lab new ∧
      (∀ u, InScope ((B.filter fun f => v ∉ f.1.variableOrder) ++ [new]) u ↔ InScope B u ∧ u ≠ v) ∧
      (new.1.variableOrder = [] → ∀ σ, new.1.eval σ ≠ 0) ∧
      ∀ σ, (∀ u, InScope B u → u ≠ v → σ u < #c u) →
        probOf ((B.filter fun f => v ∉ f.1.variableOrder) ++ [new]) σ =
          sumOver #c {v} (probOf B) σ ∧
        probOf ((B.filter fun f => v ∉ f.1.variableOrder) ++ [new]) σ *
          utilOf ((B.filter fun f => v ∉ f.1.variableOrder) ++ [new]) σ =
          sumOver #c {v} (fun τ => probOf B τ * utilOf B τ) σ := by
  set N := B.filter fun f => v ∉ f.1.variableOrder with hN
  have hsplit : B.Perm (N ++ R) := by
    have h1 := List.filter_append_perm (fun f : JointFactor => decide (v ∈ f.1.variableOrder)) B
    refine (h1.symm.trans (List.perm_append_comm)).trans ?_
    refine List.Perm.append ?_ hR.symm
    rw [hN]
    simp
  have hRmem : ∀ f, f ∈ R ↔ f ∈ B ∧ v ∈ f.1.variableOrder := fun f => by
    rw [hR.mem_iff]; simp
  have hNmem : ∀ f, f ∈ N ↔ f ∈ B ∧ v ∉ f.1.variableOrder := fun f => by
    rw [hN]; simp
  have hRne : R ≠ [] := by
    obtain ⟨f, hf, hvf⟩ := hv
    intro e
    have := (hRmem f).2 ⟨hf, hvf⟩
    rw [e] at this
    simp at this
  obtain ⟨t, t1, t2, t3, t4⟩ := combine_spec so hRne fun f hf => hov f ((hRmem f).1 hf).1
  have hvt : v ∈ t.1.variableOrder := (t3 v).2 (by
    obtain ⟨f, hf, hvf⟩ := hv
    exact ⟨f, (hRmem f).2 ⟨hf, hvf⟩, hvf⟩)
  have hvN : Disjoint (N.flatMap fun f => f.1.variableOrder).toFinset {v} := by
    rw [disjoint_singleton_right]
    simp only [List.mem_toFinset, List.mem_flatMap, not_exists, not_and]
    exact fun f hf => ((hNmem f).1 hf).2
  have hPN : DependsOn (N.flatMap fun f => f.1.variableOrder).toFinset (probOf N) :=
    probOf_dependsOn fun u ⟨f, hf, hu⟩ => by simpa using ⟨f.1, ⟨f.2, hf⟩, hu⟩
  have hUN : DependsOn (N.flatMap fun f => f.1.variableOrder).toFinset (utilOf N) :=
    utilOf_dependsOn (fun f hf => hov f ((hNmem f).1 hf).1)
      fun u ⟨f, hf, hu⟩ => by simpa using ⟨f.1, ⟨f.2, hf⟩, hu⟩
  have hPB : probOf B = fun τ => probOf N τ * probOf R τ := by
    funext τ; rw [probOf_perm hsplit, probOf_append]
  have hUB : utilOf B = fun τ => utilOf N τ + utilOf R τ := by
    funext τ; rw [utilOf_perm hsplit, utilOf_append]
  have hInB : ∀ u, InScope B u ↔ InScope N u ∨ InScope R u := by
    intro u
    simp only [InScope, hsplit.mem_iff, List.mem_append]
    exact ⟨fun ⟨f, h, hu⟩ => h.elim (fun h => Or.inl ⟨f, h, hu⟩) fun h => Or.inr ⟨f, h, hu⟩,
      fun h => h.elim (fun ⟨f, h, hu⟩ => ⟨f, Or.inl h, hu⟩) fun ⟨f, h, hu⟩ => ⟨f, Or.inr h, hu⟩⟩
  rw [t1, ok_bind]
  have hsumP : ∀ σ, (∀ u, InScope B u → u ≠ v → σ u < #c u) →
      sumOver #c {v} (probOf B) σ = probOf N σ * sumOver #c {v} t.1.eval σ ∧
      sumOver #c {v} (fun τ => probOf B τ * utilOf B τ) σ =
        probOf N σ * utilOf N σ * sumOver #c {v} t.1.eval σ +
        probOf N σ * sumOver #c {v} (fun τ => t.1.eval τ * t.2.eval τ) σ := by
    intro σ hσ
    have hev : ∀ τ, Varies #c {v} σ τ → probOf R τ = t.1.eval τ ∧ utilOf R τ = t.2.eval τ := by
      intro τ hτ
      obtain ⟨a, b⟩ := t4 τ (hτ.legal fun u hu hne =>
        hσ u ((hInB u).2 (Or.inr ((t3 u).1 hu))) (by simpa using hne))
      exact ⟨a.symm, b.symm⟩
    constructor
    · rw [hPB, sumOver_mul_left hPN hvN]
      congr 1
      exact sumOver_congr fun τ hτ => (hev τ hτ).1
    · rw [hPB, hUB, ← sumOver_mul_left (hPN.mul hUN) hvN, ← sumOver_mul_left hPN hvN,
        ← sumOver_add]
      refine sumOver_congr fun τ hτ => ?_
      dsimp only
      rw [(hev τ hτ).1, (hev τ hτ).2]
      ring
  rcases marginalizeJoint_spec so t2 hvt with ⟨e1, e2, e3⟩ | ⟨new, n1, n2, n3, n4, n5⟩
  · left
    refine ⟨e1, fun σ => ?_⟩
    rw [hPB, sumOver_mul_left hPN hvN]
    rw [sumOver_congr (G := t.1.eval) fun τ hτ => ?_, e3, mul_zero]
    refine ((t4 τ fun u hu => ?_).1).symm
    rw [e2 u hu]
    exact hτ.2 v (by simp)
  · right
    refine ⟨new, n1, n2, fun u => ?_, n4, fun σ hσ => ?_⟩
    · have : InScope (N ++ [new]) u ↔ InScope N u ∨ u ∈ new.1.variableOrder := by
        simp only [InScope, List.mem_append, List.mem_singleton]
        exact ⟨fun ⟨f, h, hu⟩ => h.elim (fun h => Or.inl ⟨f, h, hu⟩) fun h => Or.inr (h ▸ hu),
          fun h => h.elim (fun ⟨f, h, hu⟩ => ⟨f, Or.inl h, hu⟩) fun h => ⟨new, Or.inr rfl, h⟩⟩
      rw [this, n3, t3, hInB]
      constructor
      · rintro (h | ⟨h, hne⟩)
        · refine ⟨Or.inl h, ?_⟩
          rintro rfl
          obtain ⟨f, hf, hu⟩ := h
          exact ((hNmem f).1 hf).2 hu
        · exact ⟨Or.inr h, hne⟩
      · rintro ⟨h | h, hne⟩
        · exact Or.inl h
        · exact Or.inr ⟨h, hne⟩
    · obtain ⟨a, b⟩ := hsumP σ hσ
      obtain ⟨c, d⟩ := n5 σ fun u hu =>
        hσ u ((hInB u).2 (Or.inr ((t3 u).1 ((n3 u).1 hu).1))) ((n3 u).1 hu).2
      have hP : probOf (N ++ [new]) σ = probOf N σ * new.1.eval σ := by
        rw [probOf_append]; simp [probOf]
      have hU : utilOf (N ++ [new]) σ = utilOf N σ + new.2.eval σ := by
        rw [utilOf_append]; simp [utilOf]
      rw [a, b, hP, hU, ← c, ← d]
      exact ⟨rfl, by ring⟩

/-- The loop of `generalized_VE`.  `A` are factors which mention none of the variables; they are left
alone. -/
theorem eliminate_spec (so : SetOrder) (sp : SetPerm) (vs : List Name) (hnd : vs.Nodup) (k : Nat)
    (A B W : List JointFactor) (hW : W.Perm (A ++ B))
    (hA : ∀ f ∈ A, ∀ v ∈ vs, v ∉ f.1.variableOrder)
    (hB : ∀ f ∈ B, JointOver lab f) (hin : ∀ v ∈ vs, InScope B v) :
    (Decision.eliminate so sp k vs W = .error .floatingPointError ∧
      ∀ σ, (∀ u, InScope B u → u ∉ vs → σ u < #c u) → sumOver #c vs.toFinset (probOf B) σ = 0) ∨
    ∃ W' B', Decision.eliminate so sp k vs W = .ok W' ∧ W'.Perm (A ++ B') ∧
      (∀ f ∈ B', JointOver lab f) ∧ (B ≠ [] → B' ≠ []) ∧ (NoZero B → NoZero B') ∧
      (∀ u, InScope B' u ↔ InScope B u ∧ u ∉ vs) ∧
      ∀ σ, (∀ u, InScope B u → u ∉ vs → σ u < #c u) →
        probOf B' σ = sumOver #c vs.toFinset (probOf B) σ ∧
        probOf B' σ * utilOf B' σ =
          sumOver #c vs.toFinset (fun τ => probOf B τ * utilOf B τ) σ := by
  induction vs generalizing k B W with
  | nil =>
    right
    exact ⟨W, B, rfl, hW, hB, id, id, by simp, fun σ _ => by simp⟩
  | cons v vs ih =>
    obtain ⟨hvvs, hnd⟩ := List.nodup_cons.1 hnd
    have hR : (sp.perm k (W.filter fun f => v ∈ f.1.variableOrder)).Perm
        (B.filter fun f => v ∈ f.1.variableOrder) := by
      refine (sp.isPerm _ _).trans ((hW.filter _).trans ?_)
      rw [List.filter_append, List.filter_eq_nil_iff.2 fun f hf => by simpa using hA f hf v (by simp)]
      simp
    have hN : (W.filter fun f => v ∉ f.1.variableOrder).Perm
        (A ++ B.filter fun f => v ∉ f.1.variableOrder) := by
      refine (hW.filter _).trans ?_
      rw [List.filter_append, List.filter_eq_self.2 fun f hf => by simpa using hA f hf v (by simp)]
    have hdis : Disjoint vs.toFinset {v} := by simpa using hvvs
    have hset : (v :: vs).toFinset = vs.toFinset ∪ {v} := by
      rw [List.toFinset_cons, insert_eq, union_comm]
    rw [Decision.eliminate, ← bind_assoc]
    rcases step_spec so hB (hin v (by simp)) hR with ⟨e1, e2⟩ | ⟨new, n1, n2, n3, n4, n5⟩
    · left
      refine ⟨by rw [e1]; rfl, fun σ _ => ?_⟩
      rw [hset, sumOver_union hdis, sumOver_congr fun τ _ => e2 τ, sumOver_zero]
    · rw [n1, ok_bind]
      set B₁ := (B.filter fun f => v ∉ f.1.variableOrder) ++ [new] with hB₁
      have hB₁ov : ∀ f ∈ B₁, JointOver lab f := by
        intro f hf
        rcases List.mem_append.1 hf with h | h
        · exact hB f (List.mem_of_mem_filter h)
        · rw [List.mem_singleton.1 h]; exact n2
      have hsum : ∀ σ, (∀ u, InScope B u → u ∉ v :: vs → σ u < #c u) →
          sumOver #c vs.toFinset (probOf B₁) σ = sumOver #c (v :: vs).toFinset (probOf B) σ ∧
          sumOver #c vs.toFinset (fun τ => probOf B₁ τ * utilOf B₁ τ) σ =
            sumOver #c (v :: vs).toFinset (fun τ => probOf B τ * utilOf B τ) σ := by
        intro σ hσ
        have hleg : ∀ τ, Varies #c vs.toFinset σ τ → ∀ u, InScope B u → u ≠ v → τ u < #c u := by
          intro τ hτ u hu hne
          by_cases hm : u ∈ vs
          · exact hτ.2 u (by simpa using hm)
          · rw [hτ.1 u (by simpa using hm)]
            exact hσ u hu (by simp [hne, hm])
        rw [hset, sumOver_union hdis, sumOver_union hdis]
        exact ⟨sumOver_congr fun τ hτ => (n5 τ (hleg τ hτ)).1,
          sumOver_congr fun τ hτ => (n5 τ (hleg τ hτ)).2⟩
      have hσ₁ : ∀ σ : Assign, (∀ u, InScope B u → u ∉ v :: vs → σ u < #c u) →
          ∀ u, InScope B₁ u → u ∉ vs → σ u < #c u := by
        intro σ hσ u hu hm
        obtain ⟨a, b⟩ := (n3 u).1 hu
        exact hσ u a (by simp [b, hm])
      rcases ih hnd (k + 1) B₁ ((W.filter fun f => v ∉ f.1.variableOrder) ++ [new]) (by
          rw [hB₁, ← List.append_assoc]; exact hN.append_right _)
        (fun f hf u hu => hA f hf u (by simp [hu])) hB₁ov
        (fun u hu => (n3 u).2 ⟨hin u (by simp [hu]), fun e => hvvs (e ▸ hu)⟩) with
        ⟨e1, e2⟩ | ⟨W', B', w1, w2, w3, w4, w5, w6, w7⟩
      · left
        refine ⟨e1, fun σ hσ => ?_⟩
        rw [← (hsum σ hσ).1]
        exact e2 σ (hσ₁ σ hσ)
      · right
        refine ⟨W', B', w1, w2, w3, fun _ => w4 (by simp [hB₁]), fun hz => w5 ?_, fun u => ?_,
          fun σ hσ => ?_⟩
        · intro f hf he
          rcases List.mem_append.1 hf with h | h
          · exact hz f (List.mem_of_mem_filter h) he
          · rw [List.mem_singleton.1 h] at he ⊢; exact n4 he
        · rw [w6, n3]
          simp [and_assoc]
        · rw [← (hsum σ hσ).1, ← (hsum σ hσ).2]
          exact w7 σ (hσ₁ σ hσ)

theorem inScope_append (A B : List JointFactor) (v : Name) :
    InScope (A ++ B) v ↔ InScope A v ∨ InScope B v := by
  simp only [InScope, List.mem_append, or_and_right, exists_or]

theorem InScope.perm {l l' : List JointFactor} (h : l.Perm l') (v : Name) :
    InScope l v ↔ InScope l' v := by simp only [InScope, h.mem_iff]

/-- `generalized_VE` on factors `A` that mention none of the eliminated variables and factors `B`. -/
theorem generalizedVE_spec (so : SetOrder) (sp : SetPerm) {vs : List Name} (hnd : vs.Nodup)
    {A B W : List JointFactor} (hW : W.Perm (A ++ B)) (hne : W ≠ [])
    (hA : ∀ f ∈ A, ∀ v ∈ vs, v ∉ f.1.variableOrder) (hAov : ∀ f ∈ A, JointOver lab f)
    (hB : ∀ f ∈ B, JointOver lab f) (hin : ∀ v ∈ vs, InScope B v) :
    (Decision.generalizedVE so sp W vs = .error .floatingPointError ∧
      ∀ σ, (∀ u, InScope B u → u ∉ vs → σ u < #c u) → sumOver #c vs.toFinset (probOf B) σ = 0) ∨
    ∃ r B', Decision.generalizedVE so sp W vs = .ok r ∧ JointOver lab r ∧
      (∀ u, u ∈ r.1.variableOrder ↔ InScope A u ∨ InScope B' u) ∧
      (NoZero B → NoZero B') ∧ (∀ u, InScope B' u ↔ InScope B u ∧ u ∉ vs) ∧
      ∀ σ, Legal #c r.1.variableOrder σ →
        r.1.eval σ = probOf A σ * probOf B' σ ∧ r.2.eval σ = utilOf A σ + utilOf B' σ ∧
        probOf B' σ = sumOver #c vs.toFinset (probOf B) σ ∧
        probOf B' σ * utilOf B' σ =
          sumOver #c vs.toFinset (fun τ => probOf B τ * utilOf B τ) σ := by
  unfold Decision.generalizedVE
  rcases eliminate_spec so sp vs hnd 0 A B W hW hA hB hin with
    ⟨e1, e2⟩ | ⟨W', B', w1, w2, w3, w4, w5, w6, w7⟩
  · left
    exact ⟨by rw [e1]; rfl, e2⟩
  · right
    have hp : (sp.perm vs.length W').Perm (A ++ B') := (sp.isPerm _ _).trans w2
    have hne' : sp.perm vs.length W' ≠ [] := by
      intro h
      rw [h] at hp
      obtain ⟨h1, h2⟩ := List.append_eq_nil_iff.1 hp.symm.eq_nil
      rw [h1] at hW
      have : B = [] := by
        by_contra hb
        exact w4 hb h2
      rw [this] at hW
      exact hne hW.eq_nil
    obtain ⟨r, r1, r2, r3, r4⟩ := combine_spec so hne' (lab := lab) fun f hf => by
      rcases List.mem_append.1 (hp.mem_iff.1 hf) with h | h
      · exact hAov f h
      · exact w3 f h
    have hsc : ∀ u, u ∈ r.1.variableOrder ↔ InScope A u ∨ InScope B' u := fun u => by
      rw [r3, InScope.perm hp, inScope_append]
    refine ⟨r, B', by rw [w1, ok_bind, r1], r2, hsc, w5, w6, fun σ hσ => ?_⟩
    obtain ⟨a, b⟩ := r4 σ hσ
    rw [a, b, probOf_perm hp, utilOf_perm hp, probOf_append, utilOf_append]
    obtain ⟨c, d⟩ := w7 σ fun u hu hm => hσ u ((hsc u).2 (Or.inr ((w6 u).2 ⟨hu, hm⟩)))
    exact ⟨rfl, rfl, c, d⟩

end Primo
