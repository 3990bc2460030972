import Verif.Props.Decision
import Verif.Lemmas.Utility
import Verif.Examples.Utility

/-!
# C79: utilities matter up to scale and shift, and decisions are stable

Expected utilities follow an affine change of the utilities and the optimal decisions stay what they are.  If the
utilities are off by at most `ε`, then so are the expected utilities, and a decision that is optimal for the wrong
utilities costs at most `2 ε`.  If the tables are off by given ratios, then so are the expected utilities.
-/

namespace Primo
open Finset
variable {dn dn' : BN}

/-- **C79** If the utilities are multiplied by `a` and shifted by `b` in total, the answer of
`expected_utility` is multiplied by `a` and shifted by `b`; it is an error in the one case if and only if it is
in the other. -/
theorem C79_affine (so so' : SetOrder) (sp sp' : SetPerm) (D : Dict Val) {a b : ℚ}
    (hc : DNConsistent dn) (hc' : DNConsistent dn') (hnn : dn.chance.NonNeg) (hne : dn ≠ []) (hne' : dn' ≠ [])
    (hD : LegalDecisions dn D) (h : AffineUtility dn dn' a b) :
    ∃ r : Except PyErr ℚ,
      (Decision.expectedUtility so sp dn (some D)).2 = r.map NDArray.scalar ∧
      (Decision.expectedUtility so' sp' dn' (some D)).2 = (r.map fun e => a * e + b).map NDArray.scalar := by
  have hD' := hD.of_chance h.chance
  have hA : AffineUtility (dn.decide D) (dn'.decide D) a b := by
    rw [decide_eq, decide_eq]
    exact h.recpd (decide_keeps hc hD.keys) (decide_keeps hc' hD'.keys)
  rw [C51_expected_utility so sp dn D hc hnn hne hD,
    C51_expected_utility so' sp' dn' D hc' (by rw [h.chance]; exact hnn) hne' hD', hA.mass, hA.utilityMass]
  by_cases hm : mass (dn.decide D) = 0
  · exact ⟨.error .floatingPointError, by rw [if_pos hm]; rfl, by rw [if_pos hm]; rfl⟩
  · refine ⟨.ok (utilityMass (dn.decide D) / mass (dn.decide D)), by rw [if_neg hm]; rfl, ?_⟩
    rw [if_neg hm]
    show _ = Except.ok (NDArray.scalar (a * (utilityMass (dn.decide D) / mass (dn.decide D)) + b))
    rw [show a * (utilityMass (dn.decide D) / mass (dn.decide D)) + b =
      (a * utilityMass (dn.decide D) + b * mass (dn.decide D)) / mass (dn.decide D) by field_simp]

/-- **C79** If moreover `a` is positive, `get_optimal_decisions` returns the same decisions, whatever the orders
in which sets are iterated. -/
theorem C79_decisions (so so' : SetOrder) (sps sps' : Nat → SetPerm) (fixed : Dict Val) {order : List Name}
    {a b : ℚ} (hc : DNConsistent dn) (hc' : DNConsistent dn') (hnn : dn.chance.NonNeg) (ha : dn.chance.Acyclic)
    (hnd : order.Nodup) (ho : FreeOrder dn order)
    (hF : ∀ d ∈ dn, d.name ∈ order → ∀ x, fixed.get? d.name = some x → x ∈ d.values)
    (hs : ∀ n ∈ dn.chance, n.name ∈ order ∨ n.Normalised dn.chance.card)
    (h : AffineUtility dn dn' a b) (hpos : 0 < a) :
    (Decision.getOptimalDecisions so' sps' dn' order (some fixed)).2 =
      (Decision.getOptimalDecisions so sps dn order (some fixed)).2 := by
  have ho' := ho.of_chance h.chance
  have hmem : ∀ d, d.kind = .decision → (d ∈ dn' ↔ d ∈ dn) := by
    intro d hk
    have h1 : d ∈ dn'.chance ↔ d ∈ dn.chance := by rw [h.chance]
    rw [mem_chance, mem_chance] at h1
    have hk' : d.kind ≠ .utility := by rw [hk]; decide
    simpa [hk'] using h1
  have hkind : ∀ d ∈ dn', d.name ∈ order → d.kind = .decision := by
    intro d hd hv
    obtain ⟨d', hd', e, hf⟩ := ho' _ hv
    obtain rfl := List.inj_on_of_nodup_map hc'.nodup hd' hd e
    exact hf.kind
  have hF' : ∀ d ∈ dn', d.name ∈ order → ∀ x, fixed.get? d.name = some x → x ∈ d.values :=
    fun d hd hv => hF d ((hmem d (hkind d hd hv)).1 hd) hv
  obtain ⟨f, h1, h2⟩ := C52_local_optimum so sps fixed hc hnn ha hnd ho hF hs
  obtain ⟨f', h1', h2'⟩ := C52_local_optimum so' sps' fixed hc' (by rw [h.chance]; exact hnn)
    (by rw [h.chance]; exact ha) hnd ho' hF' (by rw [h.chance]; exact hs)
  have hM : AffineUtility (dn.mix fixed order) (dn'.mix fixed order) a b := by
    rw [mix_eq, mix_eq]
    exact h.recpd (mix_keeps hc ho.names) (mix_keeps hc' ho'.names)
  rw [h1, h1']
  show Except.ok _ = Except.ok _
  congr 1
  refine List.map_congr_left fun v hv => ?_
  obtain ⟨d, hd, rfl, hf⟩ := ho v hv
  have e := h2 d hd hv
  have e' := h2' d ((hmem d hf.kind).2 hd) hv
  have hcm := mix_dnConsistent hc fixed order
  have hcm' := mix_dnConsistent hc' fixed order
  have hmd : { d with cpd := mixCpd fixed order d } ∈ dn.mix fixed order := by
    rw [mix_eq]; exact mem_recpd.2 ⟨d, hd, rfl⟩
  have key : ∀ y ∈ d.values, utilityMass ((dn'.mix fixed order).decide [(d.name, y)]) =
      a * utilityMass ((dn.mix fixed order).decide [(d.name, y)]) + b := by
    intro y hy
    have hD : LegalDecisions (dn.mix fixed order) [(d.name, y)] := by
      refine ⟨List.nodup_singleton _, fun p hp => ?_⟩
      rw [List.mem_singleton.1 hp]
      exact ⟨_, hmd, rfl, hf.kind, hy⟩
    have hD' := hD.of_chance hM.chance
    have hA : AffineUtility ((dn.mix fixed order).decide [(d.name, y)])
        ((dn'.mix fixed order).decide [(d.name, y)]) a b := by
      rw [decide_eq, decide_eq]
      exact hM.recpd (decide_keeps hcm hD.keys) (decide_keeps hcm' hD'.keys)
    have hm : mass ((dn.mix fixed order).decide [(d.name, y)]) = 1 := by
      have := totalWeight_nil (decide_dnConsistent hcm [(d.name, y)]).chance
        (decide_acyclic (mix_acyclic ha fixed order) _)
        (decide_stochastic hcm hD fun n hn => Or.inr (mix_normalised hc ho.decisions hF hs n hn)) fun _ => 0
      rwa [totalWeight, weight_nil] at this
    rw [hA.utilityMass, hm, mul_one]
  have e'' : FirstMax (fun y => utilityMass ((dn.mix fixed order).decide [(d.name, y)])) d.values (f' d.name) := by
    obtain ⟨pre, post, hl, hp, hq⟩ := e'
    have hz : f' d.name ∈ d.values := by rw [hl]; simp
    refine ⟨pre, post, hl, fun w hw => ?_, fun w hw => ?_⟩
    · have := hp w hw
      simp only [] at this
      rw [key w (by rw [hl]; simp [hw]), key _ hz] at this
      exact lt_of_mul_lt_mul_left (by linarith) hpos.le
    · have := hq w hw
      simp only [] at this
      rw [key w (by rw [hl]; simp [hw]), key _ hz] at this
      exact le_of_mul_le_mul_left (by linarith) hpos
  rw [e.unique e'']

/-- **C79** If the utilities are off by at most `ε` in total, the expected utilities are off by at most `ε`. -/
theorem C79_close (so so' : SetOrder) (sp sp' : SetPerm) (D : Dict Val) {ε : ℚ}
    (hc : DNConsistent dn) (hc' : DNConsistent dn') (hnn : dn.chance.NonNeg) (hne : dn ≠ []) (hne' : dn' ≠ [])
    (hD : LegalDecisions dn D) (h : UtilityWithin dn dn' ε) :
    ((Decision.expectedUtility so sp dn (some D)).2 = .error .floatingPointError ∧
      (Decision.expectedUtility so' sp' dn' (some D)).2 = .error .floatingPointError) ∨
    ∃ e e', (Decision.expectedUtility so sp dn (some D)).2 = .ok (NDArray.scalar e) ∧
      (Decision.expectedUtility so' sp' dn' (some D)).2 = .ok (NDArray.scalar e') ∧ |e' - e| ≤ ε := by
  have hD' := hD.of_chance h.chance
  have hA : UtilityWithin (dn.decide D) (dn'.decide D) ε := by
    rw [decide_eq, decide_eq]
    exact h.recpd (decide_keeps hc hD.keys) (decide_keeps hc' hD'.keys)
  rw [C51_expected_utility so sp dn D hc hnn hne hD,
    C51_expected_utility so' sp' dn' D hc' (by rw [h.chance]; exact hnn) hne' hD', hA.mass]
  have hn : (dn.decide D).chance.NonNeg := decide_nonneg hnn D
  by_cases hm : mass (dn.decide D) = 0
  · exact Or.inl ⟨by rw [if_pos hm], by rw [if_pos hm]⟩
  · refine Or.inr ⟨_, _, by rw [if_neg hm], by rw [if_neg hm], ?_⟩
    have m0 : 0 < mass (dn.decide D) :=
      lt_of_le_of_ne (sumOver_nonneg fun τ _ => joint_nonneg' hn τ) (Ne.symm hm)
    rw [← sub_div, abs_div, abs_of_pos m0, div_le_iff₀ m0]
    exact hA.utilityMass hn

/-- **C79** A single decision that is optimal for utilities that are off by at most `ε` has an expected utility at
most `2 ε` below the best one. -/
theorem C79_regret (so so' : SetOrder) (sps sps' : Nat → SetPerm) (sp sp' : SetPerm) {d : NodeV} {ε : ℚ}
    (hc : DNConsistent dn) (hc' : DNConsistent dn') (hnn : dn.chance.NonNeg) (ha : dn.chance.Acyclic)
    (hd : d ∈ dn) (hf : d.FreeDecision)
    (hs : ∀ n ∈ dn.chance, n.name = d.name ∨ n.Normalised dn.chance.card) (h : UtilityWithin dn dn' ε) :
    ∃ x x' e e',
      (Decision.getOptimalDecisions so sps dn [d.name] none).2 = .ok [(d.name, some x)] ∧
      (Decision.getOptimalDecisions so' sps' dn' [d.name] none).2 = .ok [(d.name, some x')] ∧
      (Decision.expectedUtility so sp dn (some [(d.name, x)])).2 = .ok (NDArray.scalar e) ∧
      (Decision.expectedUtility so sp' dn (some [(d.name, x')])).2 = .ok (NDArray.scalar e') ∧
      e' ≤ e ∧ e - e' ≤ 2 * ε := by
  have hd' : d ∈ dn' := by
    have : d ∈ dn'.chance := by rw [h.chance]; exact mem_chance.2 ⟨hd, by rw [hf.kind]; decide⟩
    exact (mem_chance.1 this).1
  obtain ⟨x, e, hx, ho, he, hb⟩ := C52_single_partial so so sps sp sp' hc hnn ha hd hf hs
  obtain ⟨x', e1, hx', ho', he', hb'⟩ := C52_single_partial so' so sps' sp sp' hc' (by rw [h.chance]; exact hnn)
    (by rw [h.chance]; exact ha) hd' hf (by rw [h.chance]; exact hs)
  obtain ⟨e', h2, hle⟩ := hb x' hx'
  obtain ⟨e2, h3, hle'⟩ := hb' x hx
  refine ⟨x, x', e, e', ho, ho', he, h2, hle, ?_⟩
  have legal : ∀ y ∈ d.values, LegalDecisions dn [(d.name, y)] := fun y hy =>
    ⟨List.nodup_singleton _, fun p hp => by rw [List.mem_singleton.1 hp]; exact ⟨d, hd, rfl, hf.kind, hy⟩⟩
  have sc : ∀ {p q : ℚ}, (Except.ok (NDArray.scalar p) : Except PyErr NDArray) = .ok (NDArray.scalar q) →
      p = q := by
    intro p q hpq
    have := congrArg NDArray.data (Except.ok.inj hpq)
    simpa [NDArray.scalar] using this
  have hne := List.ne_nil_of_mem hd
  have hne' := List.ne_nil_of_mem hd'
  have c1 : |e2 - e| ≤ ε := by
    rcases C79_close so so sp sp' [(d.name, x)] hc hc' hnn hne hne' (legal x hx) h with ⟨k, -⟩ | ⟨p, q, k1, k2, k3⟩
    · rw [he] at k; exact absurd k (by simp)
    · rw [he] at k1; rw [h3] at k2
      rwa [← sc k1, ← sc k2] at k3
  have c2 : |e1 - e'| ≤ ε := by
    rcases C79_close so so sp' sp [(d.name, x')] hc hc' hnn hne hne' (legal x' hx') h with ⟨k, -⟩ | ⟨p, q, k1, k2, k3⟩
    · rw [h2] at k; exact absurd k (by simp)
    · rw [h2] at k1; rw [he'] at k2
      rwa [← sc k1, ← sc k2] at k3
  have := (abs_le.1 c1).1
  have := (abs_le.1 c2).2
  linarith

/-- **C79** If the tables and rules are off by ratios between `lo` and `hi` and the utilities are the same, the
expected utilities are errors for both networks or for none; non-negative ones are off by at most the product
`K` of the ratios `hi / lo`, and if no utility exceeds `M` in absolute value they differ by at most `(K − 1) M`.
The tables are those with the decisions taken. -/
theorem C79_tables (so so' : SetOrder) (sp sp' : SetPerm) (D : Dict Val) {lo hi : Name → ℚ}
    (hc : DNConsistent dn) (hc' : DNConsistent dn') (hnn : dn.chance.NonNeg) (hnn' : dn'.chance.NonNeg)
    (hne : dn ≠ []) (hne' : dn' ≠ []) (hD : LegalDecisions dn D) (hD' : LegalDecisions dn' D)
    (ht : TablesWithin (dn.decide D).chance (dn'.decide D).chance lo hi) (hu : SameUtility dn dn') :
    ((Decision.expectedUtility so sp dn (some D)).2 = .error .floatingPointError ∧
      (Decision.expectedUtility so' sp' dn' (some D)).2 = .error .floatingPointError) ∨
    ∃ e e', (Decision.expectedUtility so sp dn (some D)).2 = .ok (NDArray.scalar e) ∧
      (Decision.expectedUtility so' sp' dn' (some D)).2 = .ok (NDArray.scalar e') ∧
      ((∀ σ, Legal dn.chance.card dn.chance.names σ → 0 ≤ totalUtility dn σ) →
        e' ≤ slack dn.chance.names lo hi * e ∧ e ≤ slack dn.chance.names lo hi * e') ∧
      ∀ M, (∀ σ, Legal dn.chance.card dn.chance.names σ → |totalUtility dn σ| ≤ M) →
        |e' - e| ≤ (slack dn.chance.names lo hi - 1) * M := by
  have k := decide_keeps hc hD.keys
  have k' := decide_keeps hc' hD'.keys
  have en : (dn.decide D).chance.names = dn.chance.names := by rw [decide_eq, recpd_chance, recpd_names]
  have ec : (dn.decide D).chance.card = dn.chance.card := by rw [decide_eq, recpd_chance, recpd_card]
  have eu : ∀ σ, totalUtility (dn.decide D) σ = totalUtility dn σ := fun σ => by rw [decide_eq, recpd_utility k]
  have eu' : ∀ σ, totalUtility (dn'.decide D) σ = totalUtility dn' σ := fun σ => by rw [decide_eq, recpd_utility k']
  have hS : SameUtility (dn.decide D) (dn'.decide D) := by
    intro σ hσ
    rw [en, ec] at hσ
    rw [eu, eu']
    exact hu σ hσ
  obtain ⟨h0, h1⟩ := close_expected (decide_dnConsistent hc D).chance (decide_dnConsistent hc' D).chance
    (decide_nonneg hnn D) ht hS
  rw [C51_expected_utility so sp dn D hc hnn hne hD, C51_expected_utility so' sp' dn' D hc' hnn' hne' hD']
  by_cases hm : mass (dn.decide D) = 0
  · exact Or.inl ⟨by rw [if_pos hm], by rw [if_pos (h0.2 hm)]⟩
  · obtain ⟨h2, h3⟩ := h1 hm
    rw [en, ec] at h2 h3
    simp only [eu] at h2 h3
    exact Or.inr ⟨_, _, by rw [if_neg hm], by rw [if_neg fun e => hm (h0.1 e)], h2, h3⟩

/-! ### sharpness and a refuted generalisation -/

theorem Ex.pick_x (p q : ℚ) : utilityMass ((Ex.pick p q).decide [("d", "x")]) = p := by
  show sumOver (BN.chance (BN.decide (Ex.pick p q) [("d", "x")])).card {"d"} _ _ = p
  rw [sumOver_singleton]
  show ∑ i ∈ range 2, _ = p
  rw [sum_range_succ, sum_range_one]
  show (1 * 1 : ℚ) * (p + 0) + (0 * 1 : ℚ) * (q + 0) = p
  ring

theorem Ex.pick_y (p q : ℚ) : utilityMass ((Ex.pick p q).decide [("d", "y")]) = q := by
  show sumOver (BN.chance (BN.decide (Ex.pick p q) [("d", "y")])).card {"d"} _ _ = q
  rw [sumOver_singleton]
  show ∑ i ∈ range 2, _ = q
  rw [sum_range_succ, sum_range_one]
  show (0 * 1 : ℚ) * (p + 0) + (1 * 1 : ℚ) * (q + 0) = q
  ring

theorem Ex.pick_utility (p q : ℚ) : ∀ σ : Assign, Legal (Ex.pick p q).chance.card (Ex.pick p q).chance.names σ →
    σ "d" = 0 ∧ totalUtility (Ex.pick p q) σ = p ∨ σ "d" = 1 ∧ totalUtility (Ex.pick p q) σ = q := by
  intro σ hσ
  have h : σ "d" < 2 := hσ "d" (by show "d" ∈ ["d"]; simp)
  have e : totalUtility (Ex.pick p q) σ = (⟨[2], [p, q], rfl⟩ : NDArray).get [σ "d"] + 0 := rfl
  rw [e]
  obtain h | h : σ "d" = 0 ∨ σ "d" = 1 := by omega
  · left; rw [h]; exact ⟨rfl, add_zero p⟩
  · right; rw [h]; exact ⟨rfl, add_zero q⟩

theorem Ex.pick_free (p q : ℚ) : FreeOrder (Ex.pick p q) ["d"] := by
  intro v hv
  rw [List.mem_singleton.1 hv]
  exact ⟨Ex.pickD, by simp [Ex.pick], rfl, Ex.pickD_free⟩

theorem Ex.pick_eu (so : SetOrder) (sp : SetPerm) (p q : ℚ) {x : Val} (hx : x ∈ ["x", "y"]) :
    (Decision.expectedUtility so sp (Ex.pick p q) (some [("d", x)])).2 =
      .ok (NDArray.scalar (utilityMass ((Ex.pick p q).decide [("d", x)]))) := by
  rw [C51_expected_utility_partial so sp (Ex.pick p q) [("d", x)] (Ex.pick_consistent p q) (Ex.pick_nonneg p q) (by simp [Ex.pick])
    (Ex.pick_acyclic p q) ⟨List.nodup_singleton _, fun r hr => by
      rw [List.mem_singleton.1 hr]; exact ⟨Ex.pickD, by simp [Ex.pick], rfl, rfl, hx⟩⟩ fun n hn => by
      have hn : n ∈ [Ex.pickD] := hn
      rw [List.mem_singleton.1 hn]
      exact Or.inl (by simp [Dict.keys, Ex.pickD])]

theorem Ex.pick_optimal (so : SetOrder) (sps : Nat → SetPerm) (p q : ℚ) :
    (Decision.getOptimalDecisions so sps (Ex.pick p q) ["d"] none).2 =
      .ok [("d", some (if q ≤ p then "x" else "y"))] := by
  obtain ⟨f, h1, h2⟩ := C52_local_optimum so sps [] (Ex.pick_consistent p q) (Ex.pick_nonneg p q)
    (Ex.pick_acyclic p q) (List.nodup_singleton "d") (Ex.pick_free p q)
    (by intro d _ _ x hx; simp [Dict.get?] at hx) fun n hn => by
      have hn : n ∈ [Ex.pickD] := hn
      rw [List.mem_singleton.1 hn]
      exact Or.inl (by simp [Ex.pickD])
  have h3 := h2 Ex.pickD (by simp [Ex.pick]) (by simp [Ex.pickD])
  have ex : utilityMass (((Ex.pick p q).mix [] ["d"]).decide [("d", "x")]) = p := Ex.pick_x p q
  have ey : utilityMass (((Ex.pick p q).mix [] ["d"]).decide [("d", "y")]) = q := Ex.pick_y p q
  have h4 : FirstMax (fun y => utilityMass (((Ex.pick p q).mix [] ["d"]).decide [("d", y)])) ["x", "y"]
      (if q ≤ p then "x" else "y") := by
    by_cases hqp : q ≤ p
    · rw [if_pos hqp]
      refine ⟨[], ["y"], rfl, by simp, fun w hw => ?_⟩
      rw [List.mem_singleton.1 hw]
      simp only []
      rw [ex, ey]; exact hqp
    · rw [if_neg hqp]
      refine ⟨["x"], [], rfl, fun w hw => ?_, by simp⟩
      rw [List.mem_singleton.1 hw]
      simp only []
      rw [ex, ey]; exact not_le.1 hqp
  have h5 : f "d" = if q ≤ p then "x" else "y" := h3.unique h4
  have h6 : Decision.getOptimalDecisions so sps (Ex.pick p q) ["d"] none =
      Decision.getOptimalDecisions so sps (Ex.pick p q) ["d"] (some []) := rfl
  rw [h6, h1]
  simp [h5]

/-- **C79** The loss of `2 ε` cannot be improved: for every positive `ε` there are utilities that are off by at
most `ε` and make the code choose a decision that costs exactly `2 ε`. -/
theorem C79_regret_sharp {ε : ℚ} (hε : 0 < ε) : ∃ dn dn' : BN, DNConsistent dn ∧ DNConsistent dn' ∧
    UtilityWithin dn dn' ε ∧ ∀ (so : SetOrder) (sps : Nat → SetPerm) (sp : SetPerm), ∃ x x' e e',
      (Decision.getOptimalDecisions so sps dn ["d"] none).2 = .ok [("d", some x)] ∧
      (Decision.getOptimalDecisions so sps dn' ["d"] none).2 = .ok [("d", some x')] ∧
      (Decision.expectedUtility so sp dn (some [("d", x)])).2 = .ok (NDArray.scalar e) ∧
      (Decision.expectedUtility so sp dn (some [("d", x')])).2 = .ok (NDArray.scalar e') ∧
      e - e' = 2 * ε := by
  refine ⟨Ex.pick 0 (2 * ε), Ex.pick ε ε, Ex.pick_consistent _ _, Ex.pick_consistent _ _, ⟨rfl, fun σ hσ => ?_⟩,
    fun so sps sp => ⟨"y", "x", 2 * ε, 0, ?_, ?_, ?_, ?_, by ring⟩⟩
  · have h2 := Ex.pick_utility ε ε σ hσ
    rcases Ex.pick_utility 0 (2 * ε) σ hσ with ⟨e, h1⟩ | ⟨e, h1⟩ <;>
      rcases h2 with ⟨e', h2⟩ | ⟨e', h2⟩
    · rw [h1, h2, sub_zero, abs_of_pos hε]
    · omega
    · omega
    · rw [h1, h2, abs_le]; constructor <;> linarith
  · rw [Ex.pick_optimal, if_neg (by linarith)]
  · rw [Ex.pick_optimal, if_pos le_rfl]
  · rw [Ex.pick_eu so sp _ _ (by simp), Ex.pick_y]
  · rw [Ex.pick_eu so sp _ _ (by simp), Ex.pick_x]

theorem Ex.bet_free (q : ℚ) : FreeOrder (Ex.bet q) ["d"] := by
  intro v hv
  rw [List.mem_singleton.1 hv]
  exact ⟨Ex.betD, by simp [Ex.bet], rfl, Ex.betD_free⟩

theorem Ex.bet_optimal (so : SetOrder) (sps : Nat → SetPerm) (q : ℚ) {z : Val}
    (hz : FirstMax (fun y => utilityMass (((Ex.bet q).mix [] ["d"]).decide [("d", y)])) ["safe", "risk"] z) :
    (Decision.getOptimalDecisions so sps (Ex.bet q) ["d"] none).2 = .ok [("d", some z)] := by
  obtain ⟨f, h1, h2⟩ := C52_local_optimum so sps [] (Ex.bet_consistent q) (Ex.bet_nonneg q)
    (Ex.bet_acyclic q) (List.nodup_singleton "d") (Ex.bet_free q)
    (by intro d _ _ x hx; simp [Dict.get?] at hx) fun n hn => by simpa using Ex.bet_normalised q n hn
  have h5 : f "d" = z := (h2 Ex.betD (by simp [Ex.bet]) (by simp [Ex.betD])).unique hz
  have h6 : Decision.getOptimalDecisions so sps (Ex.bet q) ["d"] none =
      Decision.getOptimalDecisions so sps (Ex.bet q) ["d"] (some []) := rfl
  rw [h6, h1]
  simp [h5]

/-- **C79** Only affine changes of the utilities are harmless: a strictly increasing change that keeps the order of all
outcomes can change the decision. -/
theorem C79_monotone_refuted : ∃ (dn dn' : BN) (φ : ℚ → ℚ), DNConsistent dn ∧ DNConsistent dn' ∧ StrictMono φ ∧
    dn'.chance = dn.chance ∧
    (∀ σ, Legal dn.chance.card dn.chance.names σ → totalUtility dn' σ = φ (totalUtility dn σ)) ∧
    ∀ (so : SetOrder) (sps : Nat → SetPerm),
      (Decision.getOptimalDecisions so sps dn ["d"] none).2 = .ok [("d", some "risk")] ∧
      (Decision.getOptimalDecisions so sps dn' ["d"] none).2 = .ok [("d", some "safe")] := by
  refine ⟨Ex.bet 5, Ex.bet 3, fun x => if x ≤ 2 then x else 2 + (x - 2) / 3, Ex.bet_consistent _, Ex.bet_consistent _,
    ?_, rfl, fun σ hσ => ?_, fun so sps => ⟨?_, ?_⟩⟩
  · intro x y hxy
    simp only []
    split_ifs <;> linarith
  · have h1 : σ "d" < 2 := hσ "d" (by show "d" ∈ ["c", "d"]; simp)
    have h2 : σ "c" < 2 := hσ "c" (by show "c" ∈ ["c", "d"]; simp)
    have e : ∀ q, totalUtility (Ex.bet q) σ = (Ex.betU q).cpd.get [σ "d", σ "c"] + 0 := fun q => rfl
    rw [e, e]
    clear e hσ
    generalize σ "d" = i at *
    generalize σ "c" = j at *
    revert h2 j
    revert h1 i
    decide +kernel
  · refine Ex.bet_optimal so sps 5 ⟨["safe"], [], rfl, fun w hw => ?_, by simp⟩
    rw [List.mem_singleton.1 hw]
    decide +kernel
  · refine Ex.bet_optimal so sps 3 ⟨[], ["risk"], rfl, by simp, fun w hw => ?_⟩
    rw [List.mem_singleton.1 hw]
    decide +kernel

/-! ### non-vacuity -/

/-- twice the utilities plus one -/
theorem Ex.bet_affine : AffineUtility (Ex.pick 1 3) (Ex.pick 3 7) 2 1 := by
  refine ⟨rfl, fun σ hσ => ?_⟩
  have h2 := Ex.pick_utility 3 7 σ hσ
  rcases Ex.pick_utility 1 3 σ hσ with ⟨e, h1⟩ | ⟨e, h1⟩ <;> rcases h2 with ⟨e', h2⟩ | ⟨e', h2⟩
  · rw [h1, h2]; norm_num
  · omega
  · omega
  · rw [h1, h2]; norm_num

theorem Ex.pick_legal (p q : ℚ) : LegalDecisions (Ex.pick p q) [("d", "y")] :=
  ⟨List.nodup_singleton _, fun r hr => by
    rw [List.mem_singleton.1 hr]; exact ⟨Ex.pickD, by simp [Ex.pick], rfl, rfl, by decide⟩⟩

example (so so' : SetOrder) (sp sp' : SetPerm) := C79_affine so so' sp sp' [("d", "y")] (Ex.pick_consistent 1 3)
  (Ex.pick_consistent 3 7) (Ex.pick_nonneg _ _) (by simp [Ex.pick]) (by simp [Ex.pick]) (Ex.pick_legal _ _)
  Ex.bet_affine

example (so so' : SetOrder) (sps sps' : Nat → SetPerm) := C79_decisions so so' sps sps' [] (order := ["d"])
  (Ex.pick_consistent 1 3) (Ex.pick_consistent 3 7) (Ex.pick_nonneg _ _) (Ex.pick_acyclic _ _)
  (List.nodup_singleton _) (Ex.pick_free _ _) (by intro d _ _ x hx; simp [Dict.get?] at hx)
  (fun n hn => by
    have hn : n ∈ [Ex.pickD] := hn
    rw [List.mem_singleton.1 hn]
    exact Or.inl (by simp [Ex.pickD])) Ex.bet_affine two_pos

theorem Ex.bet_within : UtilityWithin (Ex.bet 5) (Ex.bet 3) 2 := by
  refine ⟨rfl, fun σ hσ => ?_⟩
  have h1 : σ "d" < 2 := hσ "d" (by show "d" ∈ ["c", "d"]; simp)
  have h2 : σ "c" < 2 := hσ "c" (by show "c" ∈ ["c", "d"]; simp)
  have e : ∀ q, totalUtility (Ex.bet q) σ = (Ex.betU q).cpd.get [σ "d", σ "c"] + 0 := fun q => rfl
  rw [e, e]
  clear e hσ
  generalize σ "d" = i at *
  generalize σ "c" = j at *
  revert h2 j
  revert h1 i
  decide +kernel

example (so so' : SetOrder) (sps sps' : Nat → SetPerm) (sp sp' : SetPerm) := C79_regret so so' sps sps' sp sp'
  (Ex.bet_consistent 5) (Ex.bet_consistent 3) (Ex.bet_nonneg _) (Ex.bet_acyclic _) (d := Ex.betD)
  (by simp [Ex.bet]) Ex.betD_free (Ex.bet_normalised _) Ex.bet_within

theorem Ex.bet_legal (q : ℚ) : LegalDecisions (Ex.bet q) [("d", "risk")] :=
  ⟨List.nodup_singleton _, fun r hr => by
    rw [List.mem_singleton.1 hr]; exact ⟨Ex.betD, by simp [Ex.bet], rfl, rfl, by decide⟩⟩

example (so so' : SetOrder) (sp sp' : SetPerm) := C79_close so so' sp sp' [("d", "risk")]
  (Ex.bet_consistent 5) (Ex.bet_consistent 3) (Ex.bet_nonneg _) (by simp [Ex.bet]) (by simp [Ex.bet])
  (Ex.bet_legal _) Ex.bet_within

/-- the lottery with another table -/
def Ex.betC' : NodeV := { Ex.betC with cpd := ⟨[2], [2 / 5, 3 / 5], rfl⟩ }
def Ex.bet' : BN := [Ex.betC', Ex.betD, Ex.betU 5]

theorem Ex.bet'_consistent : DNConsistent Ex.bet' := by
  have h : Ex.bet'.chance = [Ex.betC', Ex.betD] := rfl
  have h' : Ex.bet'.utils = [Ex.betU 5] := rfl
  constructor
  · show ["c", "d", "u"].Nodup; decide
  · rw [h]; constructor <;> decide
  · rw [h']; simp [Ex.betU]
  · rw [h, h']; simp [Ex.betU, Ex.betC', Ex.betC, Ex.betD, BN.names]
  · rw [h, h']; simp [Ex.betU, Ex.betC', Ex.betC, Ex.betD, BN.lab, Dict.get?]
  · rw [h, h']; simp [Ex.betU, Ex.betC', Ex.betC, Ex.betD, BN.lab, BN.card]

theorem Ex.bet'_within : TablesWithin ((Ex.bet 5).decide [("d", "risk")]).chance
    (Ex.bet'.decide [("d", "risk")]).chance (fun v => if v = "c" then 4 / 5 else 1)
    fun v => if v = "c" then 6 / 5 else 1 := by
  refine ⟨by show List.Perm ["c", "d"] ["c", "d"]; exact .refl _, ?_, ?_, ?_⟩
  · intro v hv
    have hv : v ∈ ["c", "d"] := hv
    simp only [List.mem_cons, List.not_mem_nil, or_false] at hv
    rcases hv with rfl | rfl <;> rfl
  · intro v _
    split_ifs <;> norm_num
  · intro n hn n' hn' e σ hσ
    have h1 : σ "d" < 2 := hσ "d" (by show "d" ∈ ["c", "d"]; simp)
    have h2 : σ "c" < 2 := hσ "c" (by show "c" ∈ ["c", "d"]; simp)
    have hn : n ∈ [Ex.betC, { Ex.betD with cpd := Ex.betD.pureRule "risk" }] := hn
    have hn' : n' ∈ [Ex.betC', { Ex.betD with cpd := Ex.betD.pureRule "risk" }] := hn'
    simp only [List.mem_cons, List.not_mem_nil, or_false] at hn hn'
    rcases hn with rfl | rfl <;> rcases hn' with rfl | rfl
    · show 4 / 5 * Ex.betC.cpd.get [σ "c"] ≤ Ex.betC'.cpd.get [σ "c"] ∧
        Ex.betC'.cpd.get [σ "c"] ≤ 6 / 5 * Ex.betC.cpd.get [σ "c"]
      clear hσ
      generalize σ "c" = i at *
      revert h2 i
      decide +kernel
    · exact absurd e (by decide)
    · exact absurd e (by decide)
    · show 1 * _ ≤ _ ∧ _ ≤ 1 * _
      rw [one_mul]; exact ⟨le_rfl, le_rfl⟩

/-- expected utilities 5/2 and 3, bounds by the factor 3/2 -/
example (so so' : SetOrder) (sp sp' : SetPerm) := C79_tables so so' sp sp' [("d", "risk")] (Ex.bet_consistent 5)
  Ex.bet'_consistent (Ex.bet_nonneg _) (by
    intro n hn
    have hn : n ∈ [Ex.betC', Ex.betD] := hn
    simp only [List.mem_cons, List.not_mem_nil, or_false] at hn
    rcases hn with rfl | rfl <;> decide +kernel) (by simp [Ex.bet]) (by simp [Ex.bet']) (Ex.bet_legal _)
  ⟨List.nodup_singleton _, fun r hr => by
    rw [List.mem_singleton.1 hr]; exact ⟨Ex.betD, by simp [Ex.bet'], rfl, rfl, by decide⟩⟩
  Ex.bet'_within fun σ _ => rfl

example : slack ["c", "d"] (fun v => if v = "c" then 4 / 5 else 1) (fun v => if v = "c" then 6 / 5 else 1) = 3 / 2 ∧
    utilityMass ((Ex.bet 5).decide [("d", "risk")]) = 5 / 2 ∧ utilityMass (Ex.bet'.decide [("d", "risk")]) = 3 := by
  decide +kernel

end Primo
