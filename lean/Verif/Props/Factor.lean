import Verif.Lemmas.FactorMisc
import Verif.Examples.Factor

/-!
# C01 – C12: the factor algebra

`card v` is the number of outcomes of variable `v`; two factors are compatible when they are
well-formed (`Factor.WF`) for the same `card`.  `so : SetOrder` is an arbitrary iteration order for
Python sets.
-/

namespace Primo
open Finset

variable {card : Name → Nat}

/-! ## C01 -/

/-- **C01** `f * g` succeeds, has the union scope with `f`'s variables first, keeps the labels, and
is the pointwise product. -/
theorem C01_mul_pointwise (so : SetOrder) (f g : Factor) (hf : f.WF card) (hg : g.WF card) :
    ∃ r, f.mul so g = .ok r ∧ r.WF card ∧
      (∀ v, v ∈ r.variableOrder ↔ v ∈ f.variableOrder ∨ v ∈ g.variableOrder) ∧
      f.variableOrder <+: r.variableOrder ∧
      (∀ v, r.values.get? v = (f.values.get? v).or (g.values.get? v)) ∧
      ∀ σ, Legal card r.variableOrder σ → r.eval σ = f.eval σ * g.eval σ :=
  Factor.binop_spec (· * ·) so hf hg

example : ∃ r, Ex.f.mul .insertion Ex.g = .ok r ∧ r.variableOrder = ["b", "a", "c"] ∧
    r.potentials.data = [0, 4, 2, 14, 6, 15, 0, 32, 15, 30, 6, 54] := by
  refine ⟨_, rfl, by decide +kernel, by decide +kernel⟩
example := C01_mul_pointwise .insertion Ex.f Ex.g Ex.f_wf Ex.g_wf
example : Legal Ex.card ["b", "a", "c"] (fun v => if v = "b" then 2 else 1) := by
  unfold Legal; decide

/-! ## C02 -/

/-- **C02** commutativity -/
theorem C02_mul_comm (so so' : SetOrder) (f g : Factor) (hf : f.WF card) (hg : g.WF card) :
    ∃ r r', f.mul so g = .ok r ∧ g.mul so' f = .ok r' ∧ SameTable card r r' := by
  obtain ⟨r, h1, _, h3, _, _, h6⟩ := C01_mul_pointwise so f g hf hg
  obtain ⟨r', h1', _, h3', _, _, h6'⟩ := C01_mul_pointwise so' g f hg hf
  refine ⟨r, r', h1, h1', fun v => by rw [h3, h3', or_comm], fun σ hσ => ?_⟩
  rw [h6 σ hσ, h6' σ fun v hv => hσ v ((h3 v).2 ((h3' v).1 hv).symm), mul_comm]

/-- **C02** associativity -/
theorem C02_mul_assoc (so₁ so₂ so₃ so₄ : SetOrder) (f g h : Factor) (hf : f.WF card)
    (hg : g.WF card) (hh : h.WF card) :
    ∃ r r', (f.mul so₁ g >>= fun fg => fg.mul so₂ h) = .ok r ∧
      (g.mul so₃ h >>= fun gh => f.mul so₄ gh) = .ok r' ∧ SameTable card r r' := by
  obtain ⟨fg, a1, a2, a3, _, _, a6⟩ := C01_mul_pointwise so₁ f g hf hg
  obtain ⟨r, b1, _, b3, _, _, b6⟩ := C01_mul_pointwise so₂ fg h a2 hh
  obtain ⟨gh, c1, c2, c3, _, _, c6⟩ := C01_mul_pointwise so₃ g h hg hh
  obtain ⟨r', d1, _, d3, _, _, d6⟩ := C01_mul_pointwise so₄ f gh hf c2
  have hmem : ∀ v, v ∈ r.variableOrder ↔ v ∈ r'.variableOrder := fun v => by
    rw [b3, a3, d3, c3, or_assoc]
  refine ⟨r, r', by rw [a1, ok_bind, b1], by rw [c1, ok_bind, d1], hmem, fun σ hσ => ?_⟩
  rw [b6 σ hσ, a6 σ fun v hv => hσ v ((b3 v).2 (Or.inl hv)),
    d6 σ fun v hv => hσ v ((hmem v).2 hv),
    c6 σ fun v hv => hσ v ((hmem v).2 ((d3 v).2 (Or.inr hv))), mul_assoc]

/-- **C02** the trivial factor is a two-sided unit; the result is the very same factor. -/
theorem C02_mul_trivial (so : SetOrder) (f : Factor) (hf : f.WF card) :
    f.mul so (Factor.trivial 1) = .ok f ∧ (Factor.trivial 1).mul so f = .ok f := by
  have hr : ∀ idx, InRange f.potentials.shape idx →
      NDArray.bidx f.potentials.shape idx = idx := fun idx h => NDArray.bidx_self h
  have key : NDArray.tabulate f.potentials.shape (fun idx =>
      f.potentials.get (NDArray.bidx f.potentials.shape idx)) = f.potentials := by
    refine NDArray.ext_get rfl fun idx hidx => ?_
    exact (NDArray.get_tabulate _ hidx).trans (by rw [hr _ hidx])
  constructor
  · unfold Factor.mul Factor.binop
    by_cases h0 : f.variableOrder.length = 0
    · have hn : f.variableOrder = [] := List.length_eq_zero_iff.1 h0
      have hv : f.values = [] := by
        have := hf.keys; rw [hn] at this
        simpa [Dict.keys] using List.Perm.eq_nil this
      rw [if_pos h0, NDArray.bop]
      simp only [Factor.trivial, NDArray.scalar_shape, NDArray.bshape_nil_right, NDArray.bidx_nil,
        NDArray.get_scalar, mul_one, key, ok_bind]
      rw [← hn, ← hv]; rfl
    · rw [if_neg h0, if_pos (by rfl), NDArray.bop]
      simp only [Factor.trivial, NDArray.scalar_shape, NDArray.bshape_nil_right, NDArray.bidx_nil,
        NDArray.get_scalar, mul_one, key, ok_bind]
      rfl
  · unfold Factor.mul Factor.binop
    rw [if_pos (by rfl), NDArray.bop]
    simp only [Factor.trivial, NDArray.scalar_shape, NDArray.bshape_nil_left, NDArray.bidx_nil,
      NDArray.get_scalar, one_mul, key, ok_bind]
    rfl

example := C02_mul_comm .insertion .reversed Ex.f Ex.g Ex.f_wf Ex.g_wf
example := C02_mul_assoc .insertion .reversed .reversed .insertion Ex.h Ex.f Ex.g Ex.h_wf Ex.f_wf Ex.g_wf
example := C02_mul_trivial .insertion Ex.g Ex.g_wf

/-! ## C03 -/

/-- **C03** `f + g` succeeds, has the union scope, and is the pointwise sum. -/
theorem C03_add_pointwise (so : SetOrder) (f g : Factor) (hf : f.WF card) (hg : g.WF card) :
    ∃ r, f.add so g = .ok r ∧ r.WF card ∧
      (∀ v, v ∈ r.variableOrder ↔ v ∈ f.variableOrder ∨ v ∈ g.variableOrder) ∧
      f.variableOrder <+: r.variableOrder ∧
      (∀ v, r.values.get? v = (f.values.get? v).or (g.values.get? v)) ∧
      ∀ σ, Legal card r.variableOrder σ → r.eval σ = f.eval σ + g.eval σ :=
  Factor.binop_spec (· + ·) so hf hg

/-- **C03** commutativity -/
theorem C03_add_comm (so so' : SetOrder) (f g : Factor) (hf : f.WF card) (hg : g.WF card) :
    ∃ r r', f.add so g = .ok r ∧ g.add so' f = .ok r' ∧ SameTable card r r' := by
  obtain ⟨r, h1, _, h3, _, _, h6⟩ := C03_add_pointwise so f g hf hg
  obtain ⟨r', h1', _, h3', _, _, h6'⟩ := C03_add_pointwise so' g f hg hf
  refine ⟨r, r', h1, h1', fun v => by rw [h3, h3', or_comm], fun σ hσ => ?_⟩
  rw [h6 σ hσ, h6' σ fun v hv => hσ v ((h3 v).2 ((h3' v).1 hv).symm), add_comm]

/-- **C03** associativity -/
theorem C03_add_assoc (so₁ so₂ so₃ so₄ : SetOrder) (f g h : Factor) (hf : f.WF card)
    (hg : g.WF card) (hh : h.WF card) :
    ∃ r r', (f.add so₁ g >>= fun fg => fg.add so₂ h) = .ok r ∧
      (g.add so₃ h >>= fun gh => f.add so₄ gh) = .ok r' ∧ SameTable card r r' := by
  obtain ⟨fg, a1, a2, a3, _, _, a6⟩ := C03_add_pointwise so₁ f g hf hg
  obtain ⟨r, b1, _, b3, _, _, b6⟩ := C03_add_pointwise so₂ fg h a2 hh
  obtain ⟨gh, c1, c2, c3, _, _, c6⟩ := C03_add_pointwise so₃ g h hg hh
  obtain ⟨r', d1, _, d3, _, _, d6⟩ := C03_add_pointwise so₄ f gh hf c2
  have hmem : ∀ v, v ∈ r.variableOrder ↔ v ∈ r'.variableOrder := fun v => by
    rw [b3, a3, d3, c3, or_assoc]
  refine ⟨r, r', by rw [a1, ok_bind, b1], by rw [c1, ok_bind, d1], hmem, fun σ hσ => ?_⟩
  rw [b6 σ hσ, a6 σ fun v hv => hσ v ((b3 v).2 (Or.inl hv)),
    d6 σ fun v hv => hσ v ((hmem v).2 hv),
    c6 σ fun v hv => hσ v ((hmem v).2 ((d3 v).2 (Or.inr hv))), add_assoc]

example := C03_add_pointwise .insertion Ex.f Ex.g Ex.f_wf Ex.g_wf
example := C03_add_comm .insertion .reversed Ex.f Ex.g Ex.f_wf Ex.g_wf
example := C03_add_assoc .insertion .reversed .reversed .insertion Ex.h Ex.f Ex.g Ex.h_wf Ex.f_wf Ex.g_wf
example : ∃ r, Ex.f.add .insertion (Factor.trivial 1) = .ok r ∧
    r.potentials.data = [2, 3, 4, 5, 6, 7] := ⟨_, rfl, by decide +kernel⟩

/-! ## C04 -/

/-- **C04** `marginalize` removes exactly the given variables and sums over their instantiations. -/
theorem C04_marginalize (f : Factor) (hf : f.WF card) (vs : List Name) (hvs : vs.Nodup)
    (hsub : ∀ v ∈ vs, v ∈ f.variableOrder) :
    ∃ r, f.marginalize vs = .ok r ∧ r.WF card ∧
      r.variableOrder = f.variableOrder.filter (fun v => decide (v ∉ vs)) ∧
      (∀ v ∈ r.variableOrder, r.values.get? v = f.values.get? v) ∧
      ∀ σ, Legal card r.variableOrder σ → r.eval σ = sumOver card vs.toFinset f.eval σ :=
  Factor.marginalize_spec hf hvs hsub

/-- **C04** the order of the variables is irrelevant -/
theorem C04_marginalize_perm (f : Factor) (hf : f.WF card) (vs vs' : List Name) (hvs : vs.Nodup)
    (hsub : ∀ v ∈ vs, v ∈ f.variableOrder) (hp : vs.Perm vs') :
    ∃ r r', f.marginalize vs = .ok r ∧ f.marginalize vs' = .ok r' ∧
      r.variableOrder = r'.variableOrder ∧ r.potentials = r'.potentials ∧
      ∀ v, r.values.get? v = r'.values.get? v := by
  obtain ⟨r, h1, h2, h3, h4, h5⟩ := C04_marginalize f hf vs hvs hsub
  obtain ⟨r', h1', h2', h3', h4', h5'⟩ := C04_marginalize f hf vs' (hp.nodup_iff.1 hvs)
    (fun v hv => hsub v (hp.mem_iff.2 hv))
  have hvo : r.variableOrder = r'.variableOrder := by
    rw [h3, h3']
    refine List.filter_congr fun v _ => ?_
    simp [hp.mem_iff]
  have hfs : vs.toFinset = vs'.toFinset := List.toFinset_eq_of_perm _ _ hp
  refine ⟨r, r', h1, h1', hvo, ?_, fun v => ?_⟩
  · refine Factor.potentials_ext h2 h2' hvo fun σ hσ => ?_
    rw [h5 σ hσ, h5' σ (hvo ▸ hσ), hfs]
  · by_cases hv : v ∈ r.variableOrder
    · rw [h4 v hv, h4' v (hvo ▸ hv)]
    · rw [h2.get?_none hv, h2'.get?_none (hvo ▸ hv)]

/-- **C04** a variable outside the scope, or one listed twice, is refused. -/
theorem C04_marginalize_error (f : Factor) (hf : f.WF card) (vs : List Name) :
    f.marginalize vs = .error .valueError ↔ ¬ (vs.Nodup ∧ ∀ v ∈ vs, v ∈ f.variableOrder) := by
  constructor
  · rintro h ⟨h1, h2⟩
    obtain ⟨r, hr, _⟩ := C04_marginalize f hf vs h1 h2
    rw [hr] at h; cases h
  · exact Factor.marginalize_not_mem hf

example : ∃ r, Ex.g.marginalize ["b", "a"] = .ok r ∧ r.variableOrder = ["c"] ∧
    r.potentials.data = [7, 39] := ⟨_, rfl, by decide +kernel, by decide +kernel⟩
example := C04_marginalize Ex.g Ex.g_wf ["b", "a"] (by decide) (by decide)
example := C04_marginalize_perm Ex.g Ex.g_wf ["b", "a"] ["a", "b"] (by decide) (by decide) (by decide)
example : Ex.g.marginalize ["b", "b"] = .error .valueError :=
  (C04_marginalize_error Ex.g Ex.g_wf _).2 (by decide)

/-! ## C05 -/

/-- **C05** summing out a variable that only the second operand mentions commutes with the
product. -/
theorem C05_distributive (so so' : SetOrder) (f g : Factor) (hf : f.WF card) (hg : g.WF card)
    (v : Name) (hvg : v ∈ g.variableOrder) (hvf : v ∉ f.variableOrder) :
    ∃ r r', (f.mul so g >>= fun fg => fg.marginalize [v]) = .ok r ∧
      (g.marginalize [v] >>= fun gm => f.mul so' gm) = .ok r' ∧ SameTable card r r' := by
  obtain ⟨fg, a1, a2, a3, _, _, a6⟩ := C01_mul_pointwise so f g hf hg
  obtain ⟨r, b1, _, b3, _, b5⟩ := C04_marginalize fg a2 [v] (by simp)
    (by simpa using (a3 v).2 (Or.inr hvg))
  obtain ⟨gm, c1, c2, c3, _, c5⟩ := C04_marginalize g hg [v] (by simp) (by simpa using hvg)
  obtain ⟨r', d1, _, d3, _, _, d6⟩ := C01_mul_pointwise so' f gm hf c2
  have hmem : ∀ u, u ∈ r.variableOrder ↔ u ∈ r'.variableOrder := by
    intro u
    rw [b3, d3, c3]
    simp only [List.mem_filter, a3, List.mem_singleton, decide_eq_true_eq]
    constructor
    · rintro ⟨h | h, hne⟩
      · exact Or.inl h
      · exact Or.inr ⟨h, hne⟩
    · rintro (h | ⟨h, hne⟩)
      · exact ⟨Or.inl h, fun e => hvf (e ▸ h)⟩
      · exact ⟨Or.inr h, hne⟩
  refine ⟨r, r', by rw [a1, ok_bind, b1], by rw [c1, ok_bind, d1], hmem, fun σ hσ => ?_⟩
  have hσ' : Legal card r'.variableOrder σ := fun u hu => hσ u ((hmem u).2 hu)
  rw [b5 σ hσ, d6 σ hσ', c5 σ fun u hu => hσ' u ((d3 u).2 (Or.inr hu))]
  rw [← sumOver_mul_left (Factor.eval_dependsOn f) (by simpa using hvf)]
  refine sumOver_congr fun τ hτ => a6 τ (hτ.legal fun u hu hs => hσ u ?_)
  rw [b3]
  simp only [List.toFinset_cons, List.toFinset_nil, insert_empty_eq, mem_singleton] at hs
  simp [hu, hs]

example := C05_distributive .insertion .reversed Ex.f Ex.g Ex.f_wf Ex.g_wf "c" (by decide) (by decide)

/-! ## C06 -/

/-- **C06** (division) The quotient is refused with `ValueError` exactly when the divisor mentions a
foreign variable; otherwise, unless the divisor is a scope-less factor with potential 0, it is the
entrywise quotient with `x/0 = 0`.  What is missing for the full statement is the scope-less zero
divisor, where the code raises `FloatingPointError` instead of producing 0
(`C06_invert_trivial_zero_refuted`). -/
theorem C06_div_partial (so : SetOrder) (f g : Factor) (hf : f.WF card) (hg : g.WF card) :
    (f.div so g = .error .valueError ↔ ¬ ∀ v ∈ g.variableOrder, v ∈ f.variableOrder) ∧
    ((∀ v ∈ g.variableOrder, v ∈ f.variableOrder) →
      (g.variableOrder ≠ [] ∨ ∀ σ, g.eval σ ≠ 0) →
      ∃ r, f.div so g = .ok r ∧ r.WF card ∧ r.variableOrder = f.variableOrder ∧
        (∀ v, r.values.get? v = f.values.get? v) ∧
        ∀ σ, Legal card f.variableOrder σ →
          r.eval σ = if g.eval σ = 0 then 0 else f.eval σ / g.eval σ) := by
  have hiff : (∀ v ∈ g.values.keys, v ∈ f.values.keys) ↔
      ∀ v ∈ g.variableOrder, v ∈ f.variableOrder := by
    simp only [hf.mem_keys, hg.mem_keys]
  have main : (∀ v ∈ g.variableOrder, v ∈ f.variableOrder) →
      (g.variableOrder ≠ [] ∨ ∀ σ, g.eval σ ≠ 0) →
      ∃ r, f.div so g = .ok r ∧ r.WF card ∧ r.variableOrder = f.variableOrder ∧
        (∀ v, r.values.get? v = f.values.get? v) ∧
        ∀ σ, Legal card f.variableOrder σ →
          r.eval σ = if g.eval σ = 0 then 0 else f.eval σ / g.eval σ := by
    intro hsub h0
    obtain ⟨i, i1, i2, i3, i4, i5⟩ := Factor.invert_spec hg h0
    obtain ⟨r, r1, r2, r3, r4, r5, r6⟩ := C01_mul_pointwise so f i hf i2
    have hvo : r.variableOrder = f.variableOrder := by
      obtain ⟨t, ht⟩ := r4
      cases t with
      | nil => rw [← ht]; simp
      | cons x t =>
        have hx : x ∈ f.variableOrder := by
          rcases (r3 x).1 (by rw [← ht]; simp) with h | h
          · exact h
          · exact hsub x (i3 ▸ h)
        have := r2.nodup
        rw [← ht, List.nodup_append] at this
        exact absurd rfl (this.2.2 x hx x (by simp))
    refine ⟨r, by rw [Factor.div, if_pos (hiff.2 hsub), i1, ok_bind, r1], r2, hvo, fun v => ?_, ?_⟩
    · rw [r5]
      by_cases hv : v ∈ f.variableOrder
      · obtain ⟨l, hl, _⟩ := hf.labels v hv
        simp [hl]
      · have : v ∉ i.variableOrder := fun h => hv (hsub v (i3 ▸ h))
        simp [hf.get?_none hv, i2.get?_none this]
    · intro σ hσ
      rw [r6 σ (hvo ▸ hσ), i5 σ fun v hv => hσ v (hsub v hv)]
      by_cases hz : g.eval σ = 0 <;> simp [hz, div_eq_mul_inv]
  refine ⟨⟨fun h hsub => ?_, fun h => ?_⟩, main⟩
  · by_cases h0 : g.variableOrder ≠ [] ∨ ∀ σ, g.eval σ ≠ 0
    · obtain ⟨r, hr, _⟩ := main hsub h0
      rw [hr] at h; cases h
    · push Not at h0
      obtain ⟨hn, σ, hz⟩ := h0
      have hd : (0 : ℚ) ∈ g.potentials.data := by
        rw [NDArray.data_eq, hg.shape, hn]
        simp only [Factor.eval, hn, List.map_nil] at hz
        simp [allIdx, hz]
      rw [Factor.div, if_pos (hiff.2 hsub), Factor.invert, if_pos (by simp [hn]), if_pos hd] at h
      cases h
  · rw [Factor.div, if_neg (fun h' => h (hiff.1 h'))]

/-- **C06** multiplying and dividing back gives the original wherever the divisor is non-zero -/
theorem C06_mul_div_cancel (so so' : SetOrder) (f g : Factor) (hf : f.WF card) (hg : g.WF card)
    (h0 : g.variableOrder ≠ [] ∨ ∀ σ, g.eval σ ≠ 0) :
    ∃ r, (f.mul so g >>= fun fg => fg.div so' g) = .ok r ∧
      (∀ v, v ∈ r.variableOrder ↔ v ∈ f.variableOrder ∨ v ∈ g.variableOrder) ∧
      ∀ σ, Legal card r.variableOrder σ → g.eval σ ≠ 0 → r.eval σ = f.eval σ := by
  obtain ⟨fg, a1, a2, a3, _, _, a6⟩ := C01_mul_pointwise so f g hf hg
  obtain ⟨r, r1, _, r3, _, r5⟩ := (C06_div_partial so' fg g a2 hg).2
    (fun v hv => (a3 v).2 (Or.inr hv)) h0
  refine ⟨r, by rw [a1, ok_bind, r1], fun v => by rw [r3, a3], fun σ hσ hne => ?_⟩
  rw [r3] at hσ
  rw [r5 σ hσ, a6 σ hσ, if_neg hne, mul_div_assoc, div_self hne, mul_one]

/-- **C06** refuted part: inverting the scope-less zero factor does not give 0 but raises
`FloatingPointError`. -/
theorem C06_invert_trivial_zero_refuted :
    (Factor.trivial 0).invert = .error .floatingPointError ∧
    ∀ (so : SetOrder) (f : Factor), f.div so (Factor.trivial 0) = .error .floatingPointError := by
  constructor
  · rfl
  · intro so f
    rw [Factor.div, if_pos (by simp [Factor.trivial])]; rfl

example : ∃ r, Ex.f.div .insertion Ex.k = .ok r ∧ r.potentials.data = [1 / 3, 0, 1, 0, 5 / 3, 0] :=
  ⟨_, rfl, by decide +kernel⟩
example := (C06_div_partial .insertion Ex.f Ex.k Ex.f_wf Ex.k_wf).2 (by decide) (Or.inl (by decide))
example : Ex.f.div .insertion Ex.h = .error .valueError :=
  (C06_div_partial .insertion Ex.f Ex.h Ex.f_wf Ex.h_wf).1.2 (by decide)
example := C06_mul_div_cancel .insertion .reversed Ex.f Ex.k Ex.f_wf Ex.k_wf (Or.inl (by decide))

/-! ## C07 -/

/-- **C07** `normalize`: with positive total every entry is divided by the total, so the entries sum
to one (and ratios are unchanged); otherwise nothing changes; and normalising twice is normalising
once. -/
theorem C07_normalize (f : Factor) (hf : f.WF card) (σ : Assign) :
    let total := sumOver card f.variableOrder.toFinset f.eval σ
    (0 < total →
      sumOver card f.variableOrder.toFinset f.normalize.eval σ = 1 ∧
      (∀ τ, Legal card f.variableOrder τ → f.normalize.eval τ = f.eval τ / total) ∧
      ∀ τ τ', Legal card f.variableOrder τ → Legal card f.variableOrder τ' →
        f.normalize.eval τ * f.eval τ' = f.normalize.eval τ' * f.eval τ) ∧
    (¬ 0 < total → f.normalize = f) ∧
    f.normalize.normalize = f.normalize ∧
    f.normalize.variableOrder = f.variableOrder ∧ f.normalize.values = f.values := by
  intro total
  have ht : f.potentials.sumAll = total := Factor.sumAll_eq_sumOver hf σ
  have hpos : 0 < total → ∀ τ, Legal card f.variableOrder τ →
      f.normalize.eval τ = f.eval τ / total := by
    intro h τ hτ
    rw [Factor.eval_normalize hf hτ, ht, if_pos h]
  have hone : 0 < total → sumOver card f.variableOrder.toFinset f.normalize.eval σ = 1 := by
    intro h
    have e : sumOver card f.variableOrder.toFinset f.normalize.eval σ =
        sumOver card f.variableOrder.toFinset (fun τ => f.eval τ / total) σ :=
      sumOver_congr fun τ hτ => hpos h τ (hτ.legal fun v hv hs => absurd (by simpa using hv) hs)
    rw [e, sumOver_div_const]
    exact div_self (ne_of_gt h)
  have hneg : ¬ 0 < total → f.normalize = f := by
    intro h
    unfold Factor.normalize; simp only [ht, gt_iff_lt, if_neg h]
  refine ⟨fun h => ⟨hone h, hpos h, fun τ τ' h1 h2 => ?_⟩, hneg, ?_, by simp, by simp⟩
  · rw [hpos h τ h1, hpos h τ' h2]; ring
  · by_cases h : 0 < total
    · have hw := Factor.normalize_wf hf
      have ht' : f.normalize.potentials.sumAll = 1 := by
        rw [Factor.sumAll_eq_sumOver hw σ]; simpa using hone h
      conv_lhs => rw [Factor.normalize]
      simp only [ht', gt_iff_lt, zero_lt_one, if_true, div_one]
      have : f.normalize.potentials.map (fun x => x) = f.normalize.potentials := by
        refine NDArray.ext_get rfl fun idx hidx => NDArray.get_map _ _ hidx
      rw [this]
    · rw [hneg h, hneg h]

example := C07_normalize Ex.g Ex.g_wf fun _ => 0
example : Ex.h.normalize.potentials.data = [2 / 3, 1 / 3] := by decide +kernel

end Primo
