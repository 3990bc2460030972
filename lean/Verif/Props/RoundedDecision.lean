import Verif.Lemmas.RoundedUtility
import Verif.Examples.RoundedDecision
import Verif.Props.Rounded
import Verif.Props.Utility
import Verif.Props.Decision
import Verif.Lemmas.Utility

/-! # C82: expected utilities and decisions with rounded arithmetic -/

namespace Primo
open Finset

variable {u : ℚ} {A : Arith} {dn : BN}

/-- **C82** With exact arithmetic the functions of `Verif.RoundedDecision` are those of the exact model. -/
theorem C82_exact (so : SetOrder) (sp : SetPerm) (sps : Nat → SetPerm) (fs : List JointFactor) (vs : List Name)
    (dn : BN) (D : Option (Dict Val)) (order : List Name) :
    Decision.generalizedVER .exact so sp fs vs = Decision.generalizedVE so sp fs vs ∧
    Decision.expectedUtilityR .exact so sp dn D = Decision.expectedUtility so sp dn D ∧
    Decision.getOptimalDecisionsR .exact so sps dn order D = Decision.getOptimalDecisions so sps dn order D :=
  ⟨Decision.generalizedVER_exact so sp fs vs, Decision.expectedUtilityR_exact so sp dn D,
    Decision.getOptimalDecisionsR_exact so sps dn order D⟩

theorem recpd_utilityRoundings (dn : BN) (c : NodeV → NDArray) :
    (dn.recpd c).utilityRoundings = dn.utilityRoundings := by
  unfold BN.utilityRoundings BN.chanceAdditions
  rw [recpd_chance]
  unfold BN.recpd
  simp only [List.length_map, List.map_map]
  rfl

theorem recpd_utilityError (dn : BN) (c : NodeV → NDArray) :
    (dn.recpd c).utilityError u = dn.utilityError u := by
  unfold BN.utilityError; rw [recpd_utilityRoundings]

theorem utilityError_nonneg (h0 : 0 ≤ u) (h1 : u < 1) (dn : BN) : 0 ≤ dn.utilityError u :=
  sub_nonneg.2 (one_le_grow h0 h1 _)

/-- **C82** `expected_utility` with rounded arithmetic installs the decisions and raises the exceptions of
exact arithmetic; otherwise the result differs from the exact expected utility at most by `utilityError` times
the expected sum of the *absolute values* of the utilities.  It does not depend on any order whether and by how
much at most. -/
theorem C82_expected_utility (hA : A.Accurate u) (so so' : SetOrder) (sp sp' : SetPerm) (D : Dict Val)
    (hc : DNConsistent dn) (hnn : dn.chance.NonNeg) (hne : dn ≠ []) (hD : LegalDecisions dn D) :
    (Decision.expectedUtilityR A so sp dn (some D) = (dn.decide D, .error .floatingPointError) ∧
      Decision.expectedUtility so' sp' dn (some D) = (dn.decide D, .error .floatingPointError)) ∨
    ∃ e e', Decision.expectedUtilityR A so sp dn (some D) = (dn.decide D, .ok (NDArray.scalar e)) ∧
      Decision.expectedUtility so' sp' dn (some D) = (dn.decide D, .ok (NDArray.scalar e')) ∧
      |e - e'| ≤ dn.utilityError u * (absUtilityMass (dn.decide D) / mass (dn.decide D)) := by
  rw [C51_expected_utility so' sp' dn D hc hnn hne hD]
  have hc' := decide_dnConsistent hc D
  have hr := evaluateR_spec hA so sp hc' (decide_nonneg hnn D) (decide_ne_nil hne D)
    (onceRounded_self hA (decide_nonneg hnn D))
  have hself : (dn.decide D).recpd (fun n => n.cpd) = dn.decide D := by
    unfold BN.recpd; simp
  have hset : ∀ x, Decision.evaluateR A so sp (dn.decide D) = x →
      Decision.expectedUtilityR A so sp dn (some D) = (dn.decide D, x) := by
    intro x hx
    unfold Decision.expectedUtilityR
    rw [Option.getD_some, setDecisions_ok hc hD]
    simp only [hx]
  rw [hself] at hr
  rcases hr with ⟨h1, h2⟩ | ⟨h1, x, h2, h3⟩
  · exact Or.inl ⟨hset _ h2, by rw [if_pos h1]⟩
  · refine Or.inr ⟨x, _, hset _ h2, by rw [if_neg h1], ?_⟩
    have := h3.2
    rw [decide_eq, recpd_utilityRoundings, ← decide_eq] at this
    exact this

theorem absUtility_decide (hc : DNConsistent dn) {D : Dict Val} (hD : LegalDecisions dn D) (σ : Assign) :
    absUtility (dn.decide D) σ = absUtility dn σ := by
  unfold absUtility
  rw [decide_eq, recpd_utils]
  unfold BN.recpd
  rw [List.map_map]
  congr 1
  refine List.map_congr_left fun n hn => ?_
  obtain ⟨h1, h2⟩ := mem_utils.1 hn
  have : D.get? n.name = none := by
    refine Dict.get?_eq_none.2 fun hm => ?_
    obtain ⟨p, hp, e⟩ := List.mem_map.1 hm
    obtain ⟨m, hm, a, b, -⟩ := hD.legal p hp
    rw [List.inj_on_of_nodup_map hc.nodup h1 hm (by rw [← e, a])] at h2
    rw [b] at h2
    exact absurd h2 (by decide)
  simp only [Function.comp_apply, NodeV.utility, decideCpd, this]

theorem utility_decide (hc : DNConsistent dn) {D : Dict Val} (hD : LegalDecisions dn D) (σ : Assign) :
    totalUtility (dn.decide D) σ = totalUtility dn σ := by
  rw [decide_eq]
  refine recpd_utility (fun n hn => ?_) σ
  obtain ⟨h1, h2⟩ := mem_utils.1 hn
  have : D.get? n.name = none := by
    refine Dict.get?_eq_none.2 fun hm => ?_
    obtain ⟨p, hp, e⟩ := List.mem_map.1 hm
    obtain ⟨m, hm, a, b, -⟩ := hD.legal p hp
    rw [List.inj_on_of_nodup_map hc.nodup h1 hm (by rw [← e, a])] at h2
    rw [b] at h2
    exact absurd h2 (by decide)
  unfold decideCpd; rw [this]

theorem absUtilityMass_le (hc : DNConsistent dn) (hnn : dn.chance.NonNeg) {D : Dict Val}
    (hD : LegalDecisions dn D) {M : ℚ}
    (hM : ∀ σ, Legal dn.chance.card dn.chance.names σ → absUtility dn σ ≤ M) :
    absUtilityMass (dn.decide D) ≤ M * mass (dn.decide D) := by
  unfold absUtilityMass mass
  rw [← sumOver_const_mul]
  refine sumOver_mono fun τ hτ => ?_
  rw [mul_comm M]
  refine mul_le_mul_of_nonneg_left ?_ (joint_nonneg' (decide_nonneg hnn D) τ)
  rw [absUtility_decide hc hD]
  refine hM τ fun v hv => ?_
  have := hτ.2 v (by rw [decide_eq, recpd_chance, recpd_names]; simpa using hv)
  rwa [decide_eq, recpd_chance, recpd_card] at this

/-- **C82** If the absolute values of the utilities never add up to more than `M`, the error is at most
`utilityError · M`. -/
theorem C82_bounded (hA : A.Accurate u) (so so' : SetOrder) (sp sp' : SetPerm) (D : Dict Val)
    (hc : DNConsistent dn) (hnn : dn.chance.NonNeg) (hne : dn ≠ []) (hD : LegalDecisions dn D) {M : ℚ}
    (hM : ∀ σ, Legal dn.chance.card dn.chance.names σ → absUtility dn σ ≤ M) {e e' : ℚ}
    (h : (Decision.expectedUtilityR A so sp dn (some D)).2 = .ok (NDArray.scalar e))
    (h' : (Decision.expectedUtility so' sp' dn (some D)).2 = .ok (NDArray.scalar e')) :
    |e - e'| ≤ dn.utilityError u * M := by
  rcases C82_expected_utility hA so so' sp sp' D hc hnn hne hD with ⟨h1, -⟩ | ⟨a, b, h1, h2, h3⟩
  · rw [h1] at h; exact absurd h (by simp)
  · rw [h1] at h; rw [h2] at h'
    have sc : ∀ {p q : ℚ}, (Except.ok (NDArray.scalar p) : Except PyErr NDArray) = .ok (NDArray.scalar q) →
        p = q := by
      intro p q hpq
      have := congrArg NDArray.data (Except.ok.inj hpq)
      simpa [NDArray.scalar] using this
    obtain rfl := sc h
    obtain rfl := sc h'
    have hm : mass (dn.decide D) ≠ 0 := by
      intro hm
      rw [C51_expected_utility so' sp' dn D hc hnn hne hD, if_pos hm] at h2
      exact absurd (congrArg Prod.snd h2) (by simp)
    have m0 : 0 < mass (dn.decide D) :=
      lt_of_le_of_ne (sumOver_nonneg fun τ _ => joint_nonneg' (decide_nonneg hnn D) τ) (Ne.symm hm)
    refine h3.trans (mul_le_mul_of_nonneg_left ?_ (utilityError_nonneg hA.nonneg hA.lt_one dn))
    rw [div_le_iff₀ m0]
    exact absUtilityMass_le hc hnn hD hM

/-- **C82** If no utility is negative, the *relative* error of the expected utility is at most `utilityError`. -/
theorem C82_nonneg (hA : A.Accurate u) (so so' : SetOrder) (sp sp' : SetPerm) (D : Dict Val)
    (hc : DNConsistent dn) (hnn : dn.chance.NonNeg) (hne : dn ≠ []) (hD : LegalDecisions dn D)
    (hU : ∀ n ∈ dn, n.kind = .utility → ∀ x ∈ n.cpd.data, 0 ≤ x) {e e' : ℚ}
    (h : (Decision.expectedUtilityR A so sp dn (some D)).2 = .ok (NDArray.scalar e))
    (h' : (Decision.expectedUtility so' sp' dn (some D)).2 = .ok (NDArray.scalar e')) :
    |e - e'| ≤ dn.utilityError u * e' := by
  rcases C82_expected_utility hA so so' sp sp' D hc hnn hne hD with ⟨h1, -⟩ | ⟨a, b, h1, h2, h3⟩
  · rw [h1] at h; exact absurd h (by simp)
  · rw [h1] at h; rw [h2] at h'
    have sc : ∀ {p q : ℚ}, (Except.ok (NDArray.scalar p) : Except PyErr NDArray) = .ok (NDArray.scalar q) →
        p = q := by
      intro p q hpq
      have := congrArg NDArray.data (Except.ok.inj hpq)
      simpa [NDArray.scalar] using this
    obtain rfl := sc h
    obtain rfl := sc h'
    rw [C51_expected_utility so' sp' dn D hc hnn hne hD] at h2
    by_cases hm : mass (dn.decide D) = 0
    · rw [if_pos hm] at h2
      exact absurd (congrArg Prod.snd h2) (by simp)
    · rw [if_neg hm] at h2
      have hb := sc (congrArg Prod.snd h2)
      have : absUtilityMass (dn.decide D) = utilityMass (dn.decide D) := by
        unfold absUtilityMass utilityMass
        congr 1
        funext τ
        congr 1
        rw [absUtility_decide hc hD, utility_decide hc hD]
        unfold absUtility totalUtility
        congr 1
        refine List.map_congr_left fun n hn => ?_
        obtain ⟨k1, k2⟩ := mem_utils.1 hn
        refine abs_of_nonneg ?_
        unfold NodeV.utility NDArray.get
        rw [List.getD_eq_getElem?_getD]
        cases e : n.cpd.data[NDArray.ravel n.cpd.shape (n.parentOrder.map τ)]? with
        | none => exact le_rfl
        | some x => exact hU n k1 k2 x (List.mem_of_getElem? e)
      rwa [this, hb] at h3

/-- **C82** What `get_optimal_decisions` returns with rounded arithmetic: for every decision node of the order
a decision whose expected utility (with the other decisions fixed or random, see C52) falls short of that of any
other decision at most by the rounding errors of the two. -/
theorem C82_local_optimum (hA : A.Accurate u) (so : SetOrder) (sps : Nat → SetPerm) (fixed : Dict Val)
    {order : List Name} (hc : DNConsistent dn) (hnn : dn.chance.NonNeg) (ha : dn.chance.Acyclic)
    (hnd : order.Nodup) (ho : FreeOrder dn order)
    (hF : ∀ d ∈ dn, d.name ∈ order → ∀ x, fixed.get? d.name = some x → x ∈ d.values)
    (hs : ∀ n ∈ dn.chance, n.name ∈ order ∨ n.Normalised dn.chance.card) :
    ∃ f : Name → Val,
      Decision.getOptimalDecisionsR A so sps dn order (some fixed) =
        (dn.mixR A fixed order, .ok (order.map fun v => (v, some (f v)))) ∧
      ∀ d ∈ dn, d.name ∈ order → f d.name ∈ d.values ∧ ∀ y ∈ d.values,
        utilityMass ((dn.mix fixed order).decide [(d.name, y)]) ≤
          utilityMass ((dn.mix fixed order).decide [(d.name, f d.name)]) +
          dn.utilityError u * (absUtilityMass ((dn.mix fixed order).decide [(d.name, y)]) +
            absUtilityMass ((dn.mix fixed order).decide [(d.name, f d.name)])) := by
  have hex : ∀ v, ∃ x, ∀ d ∈ dn, d.name = v → v ∈ order →
      Decision.optimizeLocallyR A so (sps (order.idxOf v)) (dn.mixR A fixed order) v = .ok (some x) ∧
      x ∈ d.values ∧ ∀ y ∈ d.values,
        utilityMass ((dn.mix fixed order).decide [(v, y)]) ≤
          utilityMass ((dn.mix fixed order).decide [(v, x)]) +
          dn.utilityError u * (absUtilityMass ((dn.mix fixed order).decide [(v, y)]) +
            absUtilityMass ((dn.mix fixed order).decide [(v, x)])) := by
    intro v
    by_cases hv : v ∈ order
    · obtain ⟨d, hd, rfl, hf⟩ := ho v hv
      have hdm : { d with cpd := mixCpd fixed order d } ∈ dn.mix fixed order := by
        rw [mix_eq]; exact mem_recpd.2 ⟨d, hd, rfl⟩
      obtain ⟨x, g, x1, x2, x3⟩ := optimizeLocallyR_spec hA so (sps (order.idxOf d.name))
        (mix_dnConsistent hc fixed order)
        (mix_nonneg hnn fixed order) (mix_acyclic ha fixed order) hdm
        ⟨hf.1, hf.2, hf.3, hf.4, hf.5⟩
        (fun n hn => Or.inr (mix_normalised hc ho.decisions hF hs n hn))
        (onceRounded_mix hA hc hnn ho.decisions)
      rw [← mixR_mix] at x1
      refine ⟨x, fun d' hd' e _ => ?_⟩
      have : d' = d := List.inj_on_of_nodup_map hc.nodup hd' hd e
      subst this
      refine ⟨x1, x2.mem, fun y hy => ?_⟩
      have h1 := (abs_le.1 (x3 y hy).2).1
      have h2 := (abs_le.1 (x3 x x2.mem).2).2
      have h3 := x2.le hy
      have e : (dn.mix fixed order).utilityRoundings = dn.utilityRoundings := by
        rw [mix_eq, recpd_utilityRoundings]
      rw [e] at h1 h2
      have e2 : grow u dn.utilityRoundings - 1 = dn.utilityError u := rfl
      rw [e2] at h1 h2
      linarith
    · exact ⟨"", fun _ _ _ h => absurd h hv⟩
  choose f hf using hex
  refine ⟨f, ?_, fun d hd hv => (hf d.name d hd rfl hv).2⟩
  unfold Decision.getOptimalDecisionsR
  rw [Option.getD_some, prepareR_ok A hc fun v hv => ?_]
  · simp only
    rw [optimizeAllR_ok (f := f) 0 (fun v hv => ?_) hnd [] (by simp), List.nil_append]
    obtain ⟨d, hd, rfl, _⟩ := ho v hv
    rw [Nat.zero_add]
    exact (hf d.name d hd rfl hv).1
  · obtain ⟨d, hd, rfl, h⟩ := ho v hv
    exact ⟨d, hd, rfl, h.kind, h.values_ne, hF d hd hv⟩

/-- **C82** If for every decision node of the order one decision is better than the others by more than the
rounding errors, rounded and exact arithmetic return the same decisions. -/
theorem C82_same_decisions (hA : A.Accurate u) (so so' : SetOrder) (sps sps' : Nat → SetPerm) (fixed : Dict Val)
    {order : List Name} (hc : DNConsistent dn) (hnn : dn.chance.NonNeg) (ha : dn.chance.Acyclic)
    (hnd : order.Nodup) (ho : FreeOrder dn order)
    (hF : ∀ d ∈ dn, d.name ∈ order → ∀ x, fixed.get? d.name = some x → x ∈ d.values)
    (hs : ∀ n ∈ dn.chance, n.name ∈ order ∨ n.Normalised dn.chance.card) (z : Name → Val)
    (hz : ∀ d ∈ dn, d.name ∈ order → z d.name ∈ d.values ∧ ∀ y ∈ d.values, y ≠ z d.name →
      utilityMass ((dn.mix fixed order).decide [(d.name, y)]) +
          dn.utilityError u * (absUtilityMass ((dn.mix fixed order).decide [(d.name, y)]) +
            absUtilityMass ((dn.mix fixed order).decide [(d.name, z d.name)])) <
        utilityMass ((dn.mix fixed order).decide [(d.name, z d.name)])) :
    (Decision.getOptimalDecisionsR A so sps dn order (some fixed)).2 =
        .ok (order.map fun v => (v, some (z v))) ∧
      (Decision.getOptimalDecisions so' sps' dn order (some fixed)).2 =
        .ok (order.map fun v => (v, some (z v))) := by
  obtain ⟨f, f1, f2⟩ := C82_local_optimum hA so sps fixed hc hnn ha hnd ho hF hs
  obtain ⟨g, g1, g2⟩ := C52_local_optimum so' sps' fixed hc hnn ha hnd ho hF hs
  have hf : ∀ v ∈ order, f v = z v ∧ g v = z v := by
    intro v hv
    obtain ⟨d, hd, rfl, -⟩ := ho v hv
    obtain ⟨z1, z2⟩ := hz d hd hv
    obtain ⟨k1, k2⟩ := f2 d hd hv
    have k3 := g2 d hd hv
    constructor
    · by_contra hne
      have a := k2 _ z1
      have b := z2 _ k1 hne
      rw [add_comm (absUtilityMass _)] at b
      linarith
    · by_contra hne
      have a := k3.le z1
      have b := z2 _ k3.mem hne
      have c : 0 ≤ dn.utilityError u * (absUtilityMass ((dn.mix fixed order).decide [(d.name, g d.name)]) +
            absUtilityMass ((dn.mix fixed order).decide [(d.name, z d.name)])) := by
        have hm := mix_nonneg hnn fixed order
        have hab : ∀ y, 0 ≤ absUtilityMass ((dn.mix fixed order).decide [(d.name, y)]) := fun y =>
          sumOver_nonneg fun τ _ => mul_nonneg (joint_nonneg' (decide_nonneg hm _) τ)
            (List.sum_nonneg (by
              intro x hx
              obtain ⟨n, -, rfl⟩ := List.mem_map.1 hx
              exact abs_nonneg _))
        exact mul_nonneg (utilityError_nonneg hA.nonneg hA.lt_one dn) (add_nonneg (hab _) (hab _))
      linarith
  rw [f1, g1]
  constructor
  · exact congrArg _ (List.map_congr_left fun v hv => by rw [(hf v hv).1])
  · exact congrArg _ (List.map_congr_left fun v hv => by rw [(hf v hv).2])

/-- **C82** A single decision chosen with rounded arithmetic has an (exact) expected utility at most
`2 · utilityError · M` below the best one, if the absolute values of the utilities never add up to more than `M`. -/
theorem C82_regret (hA : A.Accurate u) (so so' : SetOrder) (sps : Nat → SetPerm) (sp sp' : SetPerm) {d : NodeV}
    (hc : DNConsistent dn) (hnn : dn.chance.NonNeg) (ha : dn.chance.Acyclic) (hd : d ∈ dn)
    (hf : d.FreeDecision) (hs : ∀ n ∈ dn.chance, n.name = d.name ∨ n.Normalised dn.chance.card) {M : ℚ}
    (hM : ∀ σ, Legal dn.chance.card dn.chance.names σ → absUtility dn σ ≤ M) :
    ∃ (x : Val) (e : ℚ), x ∈ d.values ∧
      (Decision.getOptimalDecisionsR A so sps dn [d.name] none).2 = .ok [(d.name, some x)] ∧
      (Decision.expectedUtility so' sp dn (some [(d.name, x)])).2 = .ok (NDArray.scalar e) ∧
      ∀ y ∈ d.values, ∃ e' : ℚ,
        (Decision.expectedUtility so' sp' dn (some [(d.name, y)])).2 = .ok (NDArray.scalar e') ∧
          e' ≤ e + 2 * (dn.utilityError u * M) := by
  obtain ⟨f, f1, f2⟩ := C82_local_optimum hA so sps [] (order := [d.name]) hc hnn ha (List.nodup_singleton _)
    (fun v hv => by rw [List.mem_singleton.1 hv]; exact ⟨d, hd, rfl, hf⟩)
    (by intro d _ _ x hx; simp [Dict.get?] at hx) (fun n hn => by simpa using hs n hn)
  obtain ⟨k1, k2⟩ := f2 d hd (by simp)
  have hmd : ∀ y, (dn.mix [] [d.name]).decide [(d.name, y)] = dn.decide [(d.name, y)] := by
    intro y
    rw [mix_eq, decide_eq, decide_eq, recpd_recpd]
    refine recpd_congr fun n _ => ?_
    rw [decideCpd_congr (mixCpd_shape _ _ n)]
    by_cases h : n.name = d.name
    · rw [if_pos (by simp [Dict.keys, h])]
    · rw [if_neg (by simp [Dict.keys, h]), mixCpd, if_neg (by simpa using h)]
      unfold decideCpd
      rw [Dict.get?_eq_none.2 (by simp [Dict.keys, h])]
  have hone : ∀ y ∈ d.values, mass (dn.decide [(d.name, y)]) = 1 := fun y hy =>
    mass_eq_one (decide_dnConsistent hc _) (decide_acyclic ha _)
      (decide_stochastic hc (legal_single hd hf hy) fun n hn => by
        rcases hs n hn with h | h
        · exact Or.inl (by simp [Dict.keys, h])
        · exact Or.inr h)
  have heu : ∀ sp, ∀ y ∈ d.values, (Decision.expectedUtility so' sp dn (some [(d.name, y)])).2 =
      .ok (NDArray.scalar (utilityMass (dn.decide [(d.name, y)]))) := fun sp y hy => by
    rw [C51_expected_utility so' sp dn _ hc hnn (List.ne_nil_of_mem hd) (legal_single hd hf hy), hone y hy,
      if_neg one_ne_zero, div_one]
  have hab : ∀ y ∈ d.values, absUtilityMass (dn.decide [(d.name, y)]) ≤ M := fun y hy => by
    have := absUtilityMass_le hc hnn (legal_single hd hf hy) hM
    rwa [hone y hy, mul_one] at this
  refine ⟨f d.name, _, k1, ?_, heu sp _ k1, fun y hy => ⟨_, heu sp' y hy, ?_⟩⟩
  · have : Decision.getOptimalDecisionsR A so sps dn [d.name] none =
      Decision.getOptimalDecisionsR A so sps dn [d.name] (some []) := rfl
    rw [this, f1]; rfl
  · have h := k2 y hy
    rw [hmd, hmd] at h
    have := mul_le_mul_of_nonneg_left (add_le_add (hab y hy) (hab _ k1))
      (utilityError_nonneg hA.nonneg hA.lt_one dn)
    linarith

/-- **C82** With Python floats `utilityError` is about as many times `2⁻⁵³` as there are roundings. -/
theorem C82_double {dn : BN} (hR : dn.utilityRoundings ≤ 2 ^ 26) :
    dn.utilityError (1 / 2 ^ 53) ≤ (dn.utilityRoundings + 1) / 2 ^ 53 := by
  unfold BN.utilityError
  generalize dn.utilityRoundings = R at hR ⊢
  have hb : 1 - (R : ℚ) / 2 ^ 53 ≤ (1 - 1 / 2 ^ 53) ^ R := by
    have := one_add_mul_le_pow (a := -(1 / 2 ^ 53 : ℚ)) (by norm_num) R
    calc 1 - (R : ℚ) / 2 ^ 53 = 1 + R * -(1 / 2 ^ 53) := by ring
      _ ≤ _ := this
      _ = _ := by ring
  have hRQ : (R : ℚ) ≤ 2 ^ 26 := by exact_mod_cast hR
  have hR0 : (0 : ℚ) ≤ R := Nat.cast_nonneg _
  have hpos : 0 < 1 - (R : ℚ) / 2 ^ 53 := by
    rw [sub_pos, div_lt_one (by norm_num)]; linarith [show (2 : ℚ) ^ 26 < 2 ^ 53 by norm_num]
  have h1 : 1 / (1 - 1 / 2 ^ 53 : ℚ) ^ R ≤ 1 + (R + 1) / 2 ^ 53 := by
    rw [div_le_iff₀ (lt_of_lt_of_le hpos hb)]
    have h2 : (1 : ℚ) ≤ (1 + (R + 1) / 2 ^ 53) * (1 - (R : ℚ) / 2 ^ 53) := by
      have : (R : ℚ) * (R + 1) ≤ 2 ^ 53 := by nlinarith
      have e : (1 + ((R : ℚ) + 1) / 2 ^ 53) * (1 - (R : ℚ) / 2 ^ 53) =
        1 + (2 ^ 53 - R * (R + 1)) / 2 ^ 106 := by ring
      rw [e]
      have : 0 ≤ (2 ^ 53 - (R : ℚ) * (R + 1)) / 2 ^ 106 := div_nonneg (by linarith) (by norm_num)
      linarith
    exact h2.trans (mul_le_mul_of_nonneg_left hb (by positivity))
  linarith

/-! ### what is not true -/

/-- **C82** For utilities of both signs there is no bound on the relative error: the exact expected utility can
be 0 while the computed one is not. -/
theorem C82_cancellation_refuted : ∃ (A : Arith) (dn : BN) (e : ℚ), A.Accurate (1 / 1000) ∧ DNConsistent dn ∧
    dn.chance.NonNeg ∧
    (∀ (so : SetOrder) (sp : SetPerm), Decision.expectedUtility so sp dn (some []) =
      (dn, .ok (NDArray.scalar 0))) ∧
    (∃ (so : SetOrder) (sp : SetPerm), Decision.expectedUtilityR A so sp dn (some []) =
      (dn, .ok (NDArray.scalar e))) ∧ e ≠ 0 ∧ ∀ k : Nat, ¬ |e - 0| ≤ (1 / (1 - 1 / 1000) ^ k - 1) * |(0 : ℚ)| := by
  refine ⟨Ex.biased, Ex.fair, ?_, Ex.biased_accurate, Ex.fair_consistent, Ex.fair_nonneg, fun so sp => ?_,
    ⟨.insertion, .insertion, ?_⟩, ?_, ?_⟩
  · exact (((Decision.expectedUtilityR Ex.biased .insertion .insertion Ex.fair (some [])).2.toOption.getD
      (NDArray.scalar 0)).data.getD 0 0)
  · rw [C51_expected_utility so sp Ex.fair [] Ex.fair_consistent Ex.fair_nonneg (by simp [Ex.fair])
      ⟨by simp [Dict.keys], by simp⟩]
    have h1 : Ex.fair.decide [] = Ex.fair := by simp [BN.decide, Dict.get?]
    have hm : mass Ex.fair = 1 := by
      show sumOver Ex.fair.chance.card {"c"} _ _ = 1
      rw [sumOver_singleton]
      show ∑ i ∈ range 3, _ = (1 : ℚ)
      rw [sum_range_succ, sum_range_succ, sum_range_one]
      show (1 / 3 * 1 : ℚ) + 1 / 3 * 1 + 1 / 3 * 1 = 1
      norm_num
    have hu : utilityMass Ex.fair = 0 := by
      show sumOver Ex.fair.chance.card {"c"} _ _ = 0
      rw [sumOver_singleton]
      show ∑ i ∈ range 3, _ = (0 : ℚ)
      rw [sum_range_succ, sum_range_succ, sum_range_one]
      show (1 / 3 * 1 * (1 + 0) : ℚ) + 1 / 3 * 1 * (1 + 0) + 1 / 3 * 1 * (-2 + 0) = 0
      norm_num
    rw [h1, hm, hu, if_neg one_ne_zero, zero_div]
  · decide +kernel
  · decide +kernel
  · intro k hk
    rw [abs_zero, mul_zero, sub_zero, abs_nonpos_iff] at hk
    revert hk
    decide +kernel

/-- **C82** Rounding can change the decision for a worse one. -/
theorem C82_decision_refuted : ∃ (A : Arith) (dn : BN), A.Accurate (1 / 1000) ∧ DNConsistent dn ∧
    ∃ (so : SetOrder) (sps : Nat → SetPerm) (sp : SetPerm) (e e' : ℚ),
      (Decision.getOptimalDecisions so sps dn ["d"] none).2 = .ok [("d", some "x")] ∧
      (Decision.getOptimalDecisionsR A so sps dn ["d"] none).2 = .ok [("d", some "y")] ∧
      (Decision.expectedUtility so sp dn (some [("d", "x")])).2 = .ok (NDArray.scalar e) ∧
      (Decision.expectedUtility so sp dn (some [("d", "y")])).2 = .ok (NDArray.scalar e') ∧ e' < e :=
  ⟨Ex.biased, Ex.close, Ex.biased_accurate, Ex.close_consistent, .insertion, fun _ => .insertion, .insertion,
    1 + 1 / 2000, 1, by decide +kernel, by decide +kernel, by decide +kernel, by decide +kernel, by norm_num⟩

/-! ### examples -/

section examples

example := C82_expected_utility Ex.biased_accurate .insertion .insertion .insertion .reversed Ex.decisions
  Ex.dn_consistent Ex.dn_nonneg (by simp [Ex.dn]) Ex.decisions_legal
example : Ex.dn.utilityRoundings = 106 := by decide
example := C82_local_optimum Ex.biased_accurate .insertion (fun _ => .reversed) [("gear", "none")]
  Ex.dn_consistent Ex.dn_nonneg Ex.dn_acyclic (order := ["gear", "train"]) (by decide) Ex.dn_free (by
    intro d hd _ x hx
    simp only [Dict.get?] at hx
    split at hx
    · rename_i e
      obtain rfl : d = Ex.dGear := List.inj_on_of_nodup_map Ex.dn_consistent.nodup hd (by simp [Ex.dn]) e.symm
      cases hx
      decide
    · exact absurd hx (by simp)) Ex.dn_normalised

/-- the bound on the utilities of the example -/
theorem Ex.close_bound : ∀ σ, Legal Ex.close.chance.card Ex.close.chance.names σ → absUtility Ex.close σ ≤ 2 := by
  intro σ hσ
  have h : σ "d" < 2 := hσ "d" (by show "d" ∈ ["d"]; simp)
  have e : absUtility Ex.close σ = |Ex.closeU.cpd.get [σ "d"]| + (|Ex.closeV.cpd.get [σ "d"]| + 0) := rfl
  rw [e]
  have : ∀ i < 2, |Ex.closeU.cpd.get [i]| + (|Ex.closeV.cpd.get [i]| + 0) ≤ 2 := by decide +kernel
  exact this _ h

theorem Ex.close_acyclic : Ex.close.chance.Acyclic := acyclic_of_rank (fun _ => 0) (by decide)

example := C82_regret Ex.biased_accurate .insertion .insertion (fun _ => .reversed) .insertion .reversed
  Ex.close_consistent Ex.close_nonneg Ex.close_acyclic (d := Ex.closeD) (by simp [Ex.close]) Ex.closeD_free
  (fun n hn => by
    have hn : n ∈ [Ex.closeD] := hn
    rw [List.mem_singleton.1 hn]; exact Or.inl rfl) Ex.close_bound

/-- with floats the two decisions of the example are not confused -/
example : Ex.close.utilityError (1 / 2 ^ 53) ≤ 1 / 10 ^ 14 :=
  (C82_double (by decide)).trans (by rw [show Ex.close.utilityRoundings = 22 by decide]; norm_num)

theorem Ex.close_legal : LegalDecisions Ex.close [("d", "x")] :=
  legal_single (d := Ex.closeD) (by simp [Ex.close]) Ex.closeD_free (by decide)

/-- the computed expected utility of `x`: four roundings -/
theorem Ex.close_rounded : (Decision.expectedUtilityR Ex.biased .insertion .insertion Ex.close
    (some [("d", "x")])).2 = .ok (NDArray.scalar ((1 + 1 / 2000) * (1001 / 1000 * (1001 / 1000) * (1001 / 1000) * (1001 / 1000)))) := by decide +kernel

example := C82_bounded Ex.biased_accurate .insertion .insertion .insertion .insertion [("d", "x")]
  Ex.close_consistent Ex.close_nonneg (by simp [Ex.close]) Ex.close_legal Ex.close_bound Ex.close_rounded
  (e' := 1 + 1 / 2000) (by decide +kernel)
example := C82_nonneg Ex.biased_accurate .insertion .insertion .insertion .insertion [("d", "x")]
  Ex.close_consistent Ex.close_nonneg (by simp [Ex.close]) Ex.close_legal (by decide +kernel) Ex.close_rounded
  (e' := 1 + 1 / 2000) (by decide +kernel)

theorem Ex.pick_abs_x (p q : ℚ) : absUtilityMass ((Ex.pick p q).decide [("d", "x")]) = |p| := by
  show sumOver (BN.chance (BN.decide (Ex.pick p q) [("d", "x")])).card {"d"} _ _ = |p|
  rw [sumOver_singleton]
  show ∑ i ∈ range 2, _ = |p|
  rw [sum_range_succ, sum_range_one]
  show (1 * 1 : ℚ) * (|p| + 0) + (0 * 1 : ℚ) * (|q| + 0) = |p|
  ring

theorem Ex.pick_abs_y (p q : ℚ) : absUtilityMass ((Ex.pick p q).decide [("d", "y")]) = |q| := by
  show sumOver (BN.chance (BN.decide (Ex.pick p q) [("d", "y")])).card {"d"} _ _ = |q|
  rw [sumOver_singleton]
  show ∑ i ∈ range 2, _ = |q|
  rw [sum_range_succ, sum_range_one]
  show (0 * 1 : ℚ) * (|p| + 0) + (1 * 1 : ℚ) * (|q| + 0) = |q|
  ring

/-- errors of a thousandth do not confuse a gain and a loss -/
example (so so' : SetOrder) (sps sps' : Nat → SetPerm) :=
  C82_same_decisions Ex.biased_accurate so so' sps sps' [] (order := ["d"])
    (Ex.pick_consistent (-1) 1) (Ex.pick_nonneg _ _) (Ex.pick_acyclic _ _) (List.nodup_singleton _)
    (Ex.pick_free _ _) (by intro d _ _ x hx; simp [Dict.get?] at hx)
    (fun n hn => by
      have hn : n ∈ [Ex.pickD] := hn
      rw [List.mem_singleton.1 hn]
      exact Or.inl (by simp [Ex.pickD])) (fun _ => "y") (by
    intro d hd hv
    have hd : d ∈ (Ex.pick (-1) 1) := hd
    obtain rfl : d = Ex.pickD := List.inj_on_of_nodup_map (Ex.pick_consistent (-1) 1).nodup hd
      (by simp [Ex.pick]) (List.mem_singleton.1 hv)
    refine ⟨by decide, fun y hy hne => ?_⟩
    have hy : y ∈ ["x", "y"] := hy
    obtain rfl : y = "x" := by
      simp only [List.mem_cons, List.not_mem_nil, or_false] at hy
      exact hy.resolve_right hne
    have e1 : utilityMass (((Ex.pick (-1) 1).mix [] ["d"]).decide [("d", "x")]) = -1 := Ex.pick_x _ _
    have e2 : utilityMass (((Ex.pick (-1) 1).mix [] ["d"]).decide [("d", "y")]) = 1 := Ex.pick_y _ _
    have e3 : absUtilityMass (((Ex.pick (-1) 1).mix [] ["d"]).decide [("d", "x")]) = |-1| := Ex.pick_abs_x _ _
    have e4 : absUtilityMass (((Ex.pick (-1) 1).mix [] ["d"]).decide [("d", "y")]) = |1| := Ex.pick_abs_y _ _
    show utilityMass (((Ex.pick (-1) 1).mix [] ["d"]).decide [("d", "x")]) + BN.utilityError (1 / 1000) (Ex.pick (-1) 1) *
      (absUtilityMass (((Ex.pick (-1) 1).mix [] ["d"]).decide [("d", "x")]) +
        absUtilityMass (((Ex.pick (-1) 1).mix [] ["d"]).decide [("d", "y")])) <
      utilityMass (((Ex.pick (-1) 1).mix [] ["d"]).decide [("d", "y")])
    rw [e1, e2, e3, e4]
    have : (Ex.pick (-1) 1).utilityRoundings = 17 := rfl
    rw [BN.utilityError, this]
    norm_num)

end examples

end Primo
