import Verif.Lemmas.Scale
import Verif.Props.Fit

/-! # Property theorems: evidence matters up to scale only (C75) -/

namespace Primo
open Finset
variable {bn : BN}

/-- **C75** Evidence with the same likelihoods up to a positive factor for each variable gives the same
answers. -/
theorem C75_scale (hc : bn.Consistent) (hn : bn.NonNeg) {ev ev' : Dict Evidence}
    (he : LegalEvidence bn ev) (hen : NonNegEvidence ev) (he' : LegalEvidence bn ev')
    (hen' : NonNegEvidence ev') (h : SameUpToScale bn ev ev') {Q : List Name}
    (hQ : ∀ v ∈ Q, v ∈ bn.names) {r r' : Factor} (hr : ExactAnswer bn ev Q r)
    (hr' : ExactAnswer bn ev' Q r') : SameTable bn.card r r' := by
  obtain ⟨a1, a2⟩ := hr.spec hc hn he hen hQ
  obtain ⟨b1, b2⟩ := hr'.spec hc hn he' hen' hQ
  obtain ⟨c, c1, c2⟩ := h.weight hc.nodup he he'
  refine ⟨fun v => by rw [a1, b1], fun σ hσ => ?_⟩
  have hσ' : Legal bn.card Q σ := fun v hv => hσ v ((a1 v).2 hv)
  rw [a2 σ hσ', b2 σ hσ', posterior_of_scaled hn hen c1 c2 hQ hσ']

/-- **C75** and evidence that is not the same up to scale gives another answer for some tables of the same
graph, in fact for uniform ones and a query for one variable. -/
theorem C75_iff (hc : bn.Consistent) {ev ev' : Dict Evidence} (he : LegalEvidence bn ev)
    (hen : NonNegEvidence ev) (he' : LegalEvidence bn ev') (hen' : NonNegEvidence ev')
    (hpos : ∀ v ∈ bn.names, ∃ i < bn.card v, 0 < likAt bn ev v i) :
    SameUpToScale bn ev ev' ↔
      ∀ bn' : BN, bn'.bare = bn.bare → bn'.Consistent → bn'.Positive → bn'.Stochastic →
        ∀ v ∈ bn.names, ∀ r r', ExactAnswer bn' ev [v] r → ExactAnswer bn' ev' [v] r' →
          SameTable bn.card r r' := by
  have hle : ∀ (bn' : BN), bn'.bare = bn.bare → ∀ {e}, LegalEvidence bn e → LegalEvidence bn' e := by
    intro bn' hb e h
    exact ⟨h.nodup, fun p hp => by rw [BN.names_of_bare hb]; exact h.mem p hp,
      fun v x hx => by rw [BN.lab_of_bare hb]; exact h.hard v x hx,
      fun v l hl => by rw [BN.card_of_bare hb]; exact h.soft v l hl⟩
  constructor
  · intro h bn' hb hc' hp _ v hv r r' hr hr'
    have hn' : bn'.NonNeg := fun n hn x hx => (hp n hn x hx).le
    have hs : SameUpToScale bn' ev ev' := by
      unfold SameUpToScale
      rw [BN.names_of_bare hb, BN.card_of_bare hb, likAt_of_bare hb, likAt_of_bare hb]
      exact h
    rw [← BN.card_of_bare hb]
    exact C75_scale hc' hn' (hle bn' hb he) hen (hle bn' hb he') hen' hs
      (by simpa [BN.names_of_bare hb] using hv) hr hr'
  · intro h v hv
    have hb : bn.flat.bare = bn.bare := BN.retable_bare bn _
    have hcf : bn.flat.Consistent := BN.retable_consistent hc
    have hcard0 : ∀ v ∈ bn.names, 0 < (bn.card v : ℚ) := by
      intro v hv
      obtain ⟨i, hi, -⟩ := hpos v hv
      exact_mod_cast Nat.zero_lt_of_lt hi
    have hp : bn.flat.Positive := by
      intro n' hn' x hx
      obtain ⟨n, hn, rfl⟩ := List.mem_map.1 hn'
      simp only [NDArray.tabulate, List.mem_map] at hx
      obtain ⟨_, -, rfl⟩ := hx
      exact one_div_pos.2 (hcard0 _ (List.mem_map_of_mem hn))
    have hs : bn.flat.Stochastic := BN.retable_stochastic hc (fun _ _ => fun _ _ _ => rfl) fun v hv σ => by
      have := (hcard0 v hv).ne'
      simp only [sum_const, card_range, nsmul_eq_mul]
      field_simp
    have hn' : bn.flat.NonNeg := fun n hn x hx => (hp n hn x hx).le
    have l1 := hle bn.flat hb he
    have l2 := hle bn.flat hb he'
    have hvf : ∀ u ∈ [v], u ∈ bn.flat.names := by simpa [BN.names_of_bare hb] using hv
    -- a possible assignment
    have : ∀ v, ∃ i, v ∈ bn.names → i < bn.card v ∧ 0 < likAt bn ev v i := fun v => by
      by_cases hv : v ∈ bn.names
      · obtain ⟨i, i1, i2⟩ := hpos v hv; exact ⟨i, fun _ => ⟨i1, i2⟩⟩
      · exact ⟨0, fun h => absurd h hv⟩
    choose ρ hρ using this
    have hρl : Legal bn.card bn.names ρ := fun v hv => (hρ v hv).1
    have hZ : 0 < totalWeight bn.flat ev ρ := by
      refine lt_of_le_of_ne (sumOver_nonneg fun τ _ => weight_nonneg hn' hen τ) fun h0 => ?_
      have hw := eq_zero_of_sumOver_eq_zero (τ := ρ) (fun τ _ => weight_nonneg hn' hen τ) h0.symm
        ⟨fun _ _ => rfl, fun v hv => by
          rw [BN.card_of_bare hb]; exact hρl v (by simpa [BN.names_of_bare hb] using hv)⟩
      rw [weight_eq_likAt hcf.nodup l1] at hw
      refine absurd hw (ne_of_gt (List.prod_pos fun x hx => ?_))
      obtain ⟨u, hu, rfl⟩ := List.mem_map.1 hx
      rw [BN.names_of_bare hb] at hu
      rw [flat_entryOf hc hu hρl, likAt_of_bare hb]
      exact mul_pos (one_div_pos.2 (hcard0 u hu)) (hρ u hu).2
    obtain ⟨r, hr⟩ := ExactAnswer.exists hcf l1 hvf
    obtain ⟨r', hr'⟩ := ExactAnswer.exists hcf l2 hvf
    have hst := h bn.flat hb hcf hp hs v hv r r' hr hr'
    obtain ⟨a1, a2⟩ := hr.spec hcf hn' l1 hen hvf
    obtain ⟨-, b2⟩ := hr'.spec hcf hn' l2 hen' hvf
    have heq : ∀ i < bn.card v, posterior bn.flat ev [v] (Function.update ρ v i) =
        posterior bn.flat ev' [v] (Function.update ρ v i) := by
      intro i hi
      have hl : Legal bn.flat.card [v] (Function.update ρ v i) := by
        simpa [Legal, BN.card_of_bare hb] using hi
      rw [← a2 _ hl, ← b2 _ hl]
      refine hst.2 _ fun u hu => ?_
      have := (a1 u).1 hu
      rw [List.mem_singleton.1 this]
      simpa using hi
    have hsum := posterior_sum hcf l1 hvf hZ
    have hset : ([v] : List Name).toFinset = {v} := by simp
    rw [hset, sumOver_singleton, BN.card_of_bare hb] at hsum
    have hZ' : 0 < totalWeight bn.flat ev' ρ := by
      refine lt_of_le_of_ne (sumOver_nonneg fun τ _ => weight_nonneg hn' hen' τ) fun h0 => ?_
      rw [sum_congr rfl fun i hi => (heq i (mem_range.1 hi)).trans
        (posterior_eq_zero hn' hen' hvf (by simpa [Legal, BN.card_of_bare hb] using hi)
          (by rw [totalWeight_const hcf l2 _ ρ, ← h0])), sum_const_zero] at hsum
      exact zero_ne_one hsum
    obtain ⟨k, hk⟩ := flat_posterior hc l1 hv hZ
    obtain ⟨k', hk'⟩ := flat_posterior hc l2 hv hZ'
    have key : ∀ i < bn.card v, k * likAt bn ev v i = k' * likAt bn ev' v i := fun i hi => by
      rw [← hk i hi, ← hk' i hi, heq i hi]
    have hk1 : k * ∑ i ∈ range (bn.card v), likAt bn ev v i = 1 := by
      rw [mul_sum, ← hsum]
      exact sum_congr rfl fun i hi => (hk i (mem_range.1 hi)).symm
    have hk2 : k' * ∑ i ∈ range (bn.card v), likAt bn ev' v i = 1 := by
      rw [← hk1, mul_sum, mul_sum]
      exact sum_congr rfl fun i hi => (key i (mem_range.1 hi)).symm
    have hl0 : ∀ {e : Dict Evidence}, NonNegEvidence e → 0 ≤ ∑ i ∈ range (bn.card v), likAt bn e v i := by
      intro e hee
      refine sum_nonneg fun i _ => ?_
      unfold likAt
      cases hg : e.get? v with
      | none => exact zero_le_one
      | some x => exact lik_nonneg (fun l hl => hee v l (by rw [← hl]; exact Dict.get?_mem hg)) _
    have kp : 0 < k := by
      by_contra hneg
      have := mul_nonpos_of_nonpos_of_nonneg (not_lt.1 hneg) (hl0 hen)
      rw [hk1] at this
      exact absurd this (by norm_num)
    have kp' : 0 < k' := by
      by_contra hneg
      have := mul_nonpos_of_nonpos_of_nonneg (not_lt.1 hneg) (hl0 hen')
      rw [hk2] at this
      exact absurd this (by norm_num)
    refine ⟨k / k', div_pos kp kp', fun i hi => ?_⟩
    rw [div_mul_eq_mul_div, key i hi]
    field_simp

/-- **C75** An array of equal positive numbers is no evidence. -/
theorem C75_constant {ev : Dict Evidence} {v : Name} {c : ℚ} (h0 : 0 < c) (hv : v ∉ ev.keys) :
    SameUpToScale bn ev (ev ++ [(v, .soft (List.replicate (bn.card v) c))]) := by
  intro u hu
  by_cases huv : u = v
  · subst huv
    refine ⟨c, h0, fun i hi => ?_⟩
    have h1 : ev.get? u = none := Dict.get?_eq_none.2 hv
    have h2 : Dict.get? (ev ++ [(u, Evidence.soft (List.replicate (bn.card u) c))]) u =
        some (.soft (List.replicate (bn.card u) c)) := by
      rw [Dict.get?_append, h1]; simp [Dict.get?]
    unfold likAt
    rw [h1, h2]
    simp [lik, hi]
  · refine ⟨1, one_pos, fun i hi => ?_⟩
    have : Dict.get? (ev ++ [(v, Evidence.soft (List.replicate (bn.card v) c))]) u = ev.get? u := by
      rw [Dict.get?_append]
      cases ev.get? u <;> simp [Dict.get?, Ne.symm huv]
    unfold likAt
    rw [this, one_mul]

/-- **C75** Replacing the evidence on one variable by evidence with proportional likelihoods. -/
theorem C75_replace {pre post : Dict Evidence} {v : Name} {e e' : Evidence}
    (hd : (pre ++ (v, e) :: post).keys.Nodup) {c : ℚ} (h0 : 0 < c)
    (h : ∀ i < bn.card v, lik (bn.lab v) e' i = c * lik (bn.lab v) e i) :
    SameUpToScale bn (pre ++ (v, e) :: post) (pre ++ (v, e') :: post) := by
  have hv : v ∉ pre.keys := by
    rw [Dict.keys, List.map_append, List.map_cons] at hd
    have := List.nodup_append.1 hd
    exact fun hm => this.2.2 v hm v (by simp) rfl
  intro u hu
  have hget : ∀ x : Evidence, Dict.get? (pre ++ (v, x) :: post) u =
      if u = v then some x else Dict.get? (pre ++ post) u := by
    intro x
    rw [Dict.get?_append, Dict.get?_append]
    by_cases huv : u = v
    · subst huv
      rw [Dict.get?_eq_none.2 hv, if_pos rfl]
      simp [Dict.get?]
    · rw [if_neg huv]
      cases pre.get? u <;> simp [Dict.get?, Ne.symm huv]
  unfold likAt
  rw [hget, hget]
  by_cases huv : u = v
  · subst huv
    simpa using ⟨c, h0, h⟩
  · exact ⟨1, one_pos, fun i _ => by simp [huv]⟩

/-- **C75** An array that is zero but for one positive entry is hard evidence. -/
theorem C75_one_hot {pre post : Dict Evidence} {v : Name} {x : Val} (hx : x ∈ bn.lab v)
    (hd : (pre ++ (v, .hard x) :: post).keys.Nodup) {c : ℚ} (h0 : 0 < c) :
    SameUpToScale bn (pre ++ (v, .hard x) :: post)
      (pre ++ (v, .soft ((List.range (bn.card v)).map fun i =>
        if i = (bn.lab v).idxOf x then c else 0)) :: post) := by
  refine C75_replace hd h0 fun i hi => ?_
  rw [lik_hard hx]
  simp only [lik, List.getD_eq_getElem?_getD, List.getElem?_map, List.getElem?_range hi, Option.map_some,
    Option.getD_some]
  split <;> simp

/-- **C75** The restriction to non-negative arrays is needed: scaling by a factor gives another answer if the
likelihoods are negative. -/
theorem C75_negative_refuted :
    Ex.bn.Consistent ∧ Ex.bn.NonNeg ∧
    SameUpToScale Ex.bn [("b", .soft [-1, -2, -3])] [("b", .soft [-2, -4, -6])] ∧
    ∃ r r', ExactAnswer Ex.bn [("b", .soft [-1, -2, -3])] ["a"] r ∧
      ExactAnswer Ex.bn [("b", .soft [-2, -4, -6])] ["a"] r' ∧ ¬ SameTable Ex.bn.card r r' := by
  refine ⟨Ex.bn_consistent, Ex.bn_nonneg, ?_, ?_⟩
  · exact C75_replace (pre := []) (post := []) (by simp [Dict.keys]) (c := 2) (by norm_num) (by decide +kernel)
  · obtain ⟨r, hr, h1, h2⟩ : ∃ r, VE.naiveMarginals .insertion Ex.bn ["a"] [("b", .soft [-1, -2, -3])] = .ok r ∧
        r.variableOrder = ["a"] ∧ r.eval (fun _ => 0) = -3 / 8 := ⟨_, rfl, by decide +kernel, by decide +kernel⟩
    obtain ⟨r', hr', h2'⟩ : ∃ r, VE.naiveMarginals .insertion Ex.bn ["a"] [("b", .soft [-2, -4, -6])] = .ok r ∧
        r.eval (fun _ => 0) = -3 / 4 := ⟨_, rfl, by decide +kernel⟩
    refine ⟨r, r', .naive _ hr, .naive _ hr', fun h => ?_⟩
    have := h.2 (fun _ => 0) (by rw [h1]; unfold Legal; decide)
    rw [h2, h2'] at this
    exact absurd this (by decide +kernel)

end Primo
