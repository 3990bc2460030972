import Verif.Lemmas.Joint
import Verif.Examples.Network

/-!
# Exact inference by variable elimination: C13-C19

`posterior bn ev Q σ` (`Verif/Spec/Network.lean`) is the sum of the product of all table entries and
evidence likelihoods over all instantiations that agree with `σ` on `Q`, divided by the sum over
all instantiations if that is positive.
-/

namespace Primo
open Finset

/-! ## C13 -/

/-- **C13** `naive_marginals` succeeds on every consistent network and legal evidence; its scope is
the query and its entries are the posterior, for every set iteration order. -/
theorem C13_naive_exact (so : SetOrder) (bn : BN) (hc : bn.Consistent) (ev : Dict Evidence)
    (he : LegalEvidence bn ev) (Q : List Name) (hQ : ∀ v ∈ Q, v ∈ bn.names) :
    ∃ r, VE.naiveMarginals so bn Q ev = .ok r ∧ r.WF bn.card ∧
      (∀ v ∈ r.variableOrder, r.values.get? v = some (bn.lab v)) ∧
      (∀ v, v ∈ r.variableOrder ↔ v ∈ Q) ∧
      ∀ σ, Legal bn.card Q σ → r.eval σ = posterior bn ev Q σ := by
  obtain ⟨r, h1, h2, h3, h4⟩ := naiveMarginals_spec so hc he hQ
  exact ⟨r, h1, h2.wf, h2.val, h3, h4⟩

example := C13_naive_exact .insertion Ex.bn Ex.bn_consistent Ex.ev Ex.ev_legal ["a", "c"] (by decide)
-- evaluating the model gives the same kind of table
example : (VE.naiveMarginals .insertion Ex.bn ["a"] Ex.ev).map (fun r => r.potentials.data) =
    .ok [2 / 29, 27 / 29] := by decide +kernel

/-! ## C14 -/

/-- **C14** `bucket_marginals` with any elimination order that lists every node once. -/
theorem C14_bucket_exact (so : SetOrder) (bn : BN) (hc : bn.Consistent) (ev : Dict Evidence)
    (he : LegalEvidence bn ev) (Q : List Name) (hQn : Q.Nodup) (hQ : ∀ v ∈ Q, v ∈ bn.names)
    (order : List Name) (ho : order.Perm bn.names) :
    ∃ r, VE.bucketMarginals so bn Q ev (some order) = .ok r ∧ r.WF bn.card ∧
      (∀ v ∈ r.variableOrder, r.values.get? v = some (bn.lab v)) ∧
      (∀ v, v ∈ r.variableOrder ↔ v ∈ Q) ∧
      ∀ σ, Legal bn.card Q σ → r.eval σ = posterior bn ev Q σ := by
  have hord : VE.chooseOrder bn (some order) = .ok order := by
    cases order with
    | cons v vs => rfl
    | nil =>
      have : bn = [] := by
        have := List.nil_perm.1 ho
        simpa [BN.names] using this
      subst this; rfl
  obtain ⟨r, h1, h2, h3, h4⟩ := bucketMarginals_spec so hc he hQn hQ (some order) hord ho
  exact ⟨r, h1, h2.wf, h2.val, h3, h4⟩

/-- **C14** `bucket_marginals` with the default (min-degree) order. -/
theorem C14_bucket_exact_default (so : SetOrder) (bn : BN) (hc : bn.Consistent) (hl : bn.Linked)
    (ev : Dict Evidence) (he : LegalEvidence bn ev) (Q : List Name) (hQn : Q.Nodup)
    (hQ : ∀ v ∈ Q, v ∈ bn.names) :
    ∃ r, VE.bucketMarginals so bn Q ev none = .ok r ∧ r.WF bn.card ∧
      (∀ v ∈ r.variableOrder, r.values.get? v = some (bn.lab v)) ∧
      (∀ v, v ∈ r.variableOrder ↔ v ∈ Q) ∧
      ∀ σ, Legal bn.card Q σ → r.eval σ = posterior bn ev Q σ := by
  obtain ⟨o, o1, o2, _⟩ := Orderer.minDegreeOrder_spec hc hl
  obtain ⟨r, h1, h2, h3, h4⟩ := bucketMarginals_spec so hc he hQn hQ none (by exact o1) o2
  exact ⟨r, h1, h2.wf, h2.val, h3, h4⟩

example := C14_bucket_exact .reversed Ex.bn Ex.bn_consistent Ex.ev Ex.ev_legal ["c", "a"] (by decide)
  (by decide) ["c", "b", "d", "a"] (by decide)
example := C14_bucket_exact_default .insertion Ex.bn Ex.bn_consistent Ex.bn_linked Ex.ev Ex.ev_legal
  ["a"] (by decide) (by decide)
example : (VE.bucketMarginals .insertion Ex.bn ["a"] Ex.ev none).map (fun r => r.potentials.data) =
    .ok [2 / 29, 27 / 29] := by decide +kernel

/-! ## C15 -/

/-- **C15** all elimination routes return the same table. -/
theorem C15_routes_agree (so₁ so₂ so₃ so₄ : SetOrder) (bn : BN) (hc : bn.Consistent)
    (hl : bn.Linked) (ev : Dict Evidence) (he : LegalEvidence bn ev) (Q : List Name) (hQn : Q.Nodup)
    (hQ : ∀ v ∈ Q, v ∈ bn.names) (o₁ o₂ : List Name) (h₁ : o₁.Perm bn.names)
    (h₂ : o₂.Perm bn.names) :
    ∃ r₁ r₂ r₃ r₄, VE.naiveMarginals so₁ bn Q ev = .ok r₁ ∧
      VE.bucketMarginals so₂ bn Q ev (some o₁) = .ok r₂ ∧
      VE.bucketMarginals so₃ bn Q ev (some o₂) = .ok r₃ ∧
      VE.bucketMarginals so₄ bn Q ev none = .ok r₄ ∧
      SameTable bn.card r₁ r₂ ∧ SameTable bn.card r₁ r₃ ∧ SameTable bn.card r₁ r₄ := by
  obtain ⟨r₁, a1, _, _, a3, a4⟩ := C13_naive_exact so₁ bn hc ev he Q hQ
  obtain ⟨r₂, b1, _, _, b3, b4⟩ := C14_bucket_exact so₂ bn hc ev he Q hQn hQ o₁ h₁
  obtain ⟨r₃, c1, _, _, c3, c4⟩ := C14_bucket_exact so₃ bn hc ev he Q hQn hQ o₂ h₂
  obtain ⟨r₄, d1, _, _, d3, d4⟩ := C14_bucket_exact_default so₄ bn hc hl ev he Q hQn hQ
  have key : ∀ r : Factor, (∀ v, v ∈ r.variableOrder ↔ v ∈ Q) →
      (∀ σ, Legal bn.card Q σ → r.eval σ = posterior bn ev Q σ) → SameTable bn.card r₁ r := by
    intro r h h'
    refine ⟨fun v => by rw [a3, h], fun σ hσ => ?_⟩
    have : Legal bn.card Q σ := fun v hv => hσ v ((a3 v).2 hv)
    rw [a4 σ this, h' σ this]
  exact ⟨r₁, r₂, r₃, r₄, a1, b1, c1, d1, key r₂ b3 b4, key r₃ c3 c4, key r₄ d3 d4⟩

example := C15_routes_agree .insertion .reversed .reversed .insertion Ex.bn Ex.bn_consistent
  Ex.bn_linked Ex.ev Ex.ev_legal ["c", "a"] (by decide) (by decide) ["a", "b", "c", "d"]
  ["c", "b", "d", "a"] (by decide) (by decide)

/-! ## C16 -/

theorem OneHotVariant.get? {bn : BN} {ev ev' : Dict Evidence} (h : OneHotVariant bn ev ev')
    (v : Name) : (ev.get? v = none ∧ ev'.get? v = none) ∨
      ∃ e e', ev.get? v = some e ∧ ev'.get? v = some e' ∧
        (e = e' ∨ ∃ x ∈ bn.lab v, e = .hard x ∧ e' = .soft (oneHot (bn.lab v) x)) := by
  induction h with
  | nil => exact Or.inl ⟨rfl, rfl⟩
  | cons hpq _ ih =>
    rename_i p q _ _ _
    obtain ⟨k, e⟩ := p
    obtain ⟨k', e'⟩ := q
    obtain ⟨h1, h2⟩ := hpq
    simp only at h1 h2
    subst h1
    by_cases hk : k = v
    · subst hk
      exact Or.inr ⟨e, e', by simp [Dict.get?], by simp [Dict.get?], h2⟩
    · simpa [Dict.get?, hk] using ih

theorem asEvidence_oneHot (v : Name) (values : List Val) (x : Val) (hx : x ∈ values) :
    Factor.asEvidence v values (.hard x) = Factor.asEvidence v values (.soft (oneHot values x)) := by
  rw [Factor.asEvidence, Factor.asEvidence, if_pos hx, if_neg (by simp [oneHot])]
  simp only [Except.ok.injEq, Factor.mk.injEq, and_true]
  refine NDArray.ext_get (by simp [oneHot]) fun idx hidx => ?_
  have hl := hidx.length_eq
  simp only [NDArray.tabulate_shape] at hidx hl
  obtain ⟨i, rfl⟩ := List.length_eq_one_iff.1 hl
  have hi : i < values.length := by simpa [InRange] using hidx
  rw [NDArray.get_tabulate _ hidx, NDArray.get_ofList]
  simp only [oneHot, List.cons.injEq, and_true, List.getD_eq_getElem?_getD, List.getElem?_map,
    List.getElem?_range hi, Option.map_some, Option.getD_some, eq_comm (a := i),
    idxOf_eq_iff_getElem? hx]

theorem asEvidence_variant {v : Name} {values : List Val} {e e' : Evidence}
    (h : e = e' ∨ ∃ x ∈ values, e = .hard x ∧ e' = .soft (oneHot values x)) :
    Factor.asEvidence v values e = Factor.asEvidence v values e' := by
  rcases h with rfl | ⟨x, hx, rfl, rfl⟩
  · rfl
  · exact asEvidence_oneHot v values x hx

theorem foldlM_congr {α β : Type} {f g : β → α → Except PyErr β} {l : List α}
    (h : ∀ b, ∀ a ∈ l, f b a = g b a) (b : β) : l.foldlM f b = l.foldlM g b := by
  induction l generalizing b with
  | nil => rfl
  | cons a l ih =>
    rw [List.foldlM_cons, List.foldlM_cons, h b a (by simp)]
    congr 1
    funext c
    exact ih (fun b a ha => h b a (by simp [ha])) c

/-- **C16** replacing hard observations by one-hot arrays changes no answer of either algorithm
(the answers are identical, including axis order). -/
theorem C16_hard_eq_one_hot (so : SetOrder) (bn : BN) (hn : bn.names.Nodup) (ev ev' : Dict Evidence)
    (h : OneHotVariant bn ev ev') (Q : List Name) (order : Option (List Name)) :
    VE.naiveMarginals so bn Q ev = VE.naiveMarginals so bn Q ev' ∧
      VE.bucketMarginals so bn Q ev order = VE.bucketMarginals so bn Q ev' order := by
  constructor
  · unfold VE.naiveMarginals
    have : bn.names.foldlM (VE.naiveStep so bn ev) (Factor.trivial 1) =
        bn.names.foldlM (VE.naiveStep so bn ev') (Factor.trivial 1) := by
      refine foldlM_congr (fun res v hv => ?_) _
      obtain ⟨n, hnm, rfl⟩ := BN.exists_of_mem_names hv
      unfold VE.naiveStep
      rw [BN.getNode_ok hn hnm]
      simp only [ok_bind]
      rcases h.get? n.name with ⟨h1, h2⟩ | ⟨e, e', h1, h2, h3⟩
      · rw [h1, h2]
      · rw [h1, h2]
        simp only
        rw [← BN.lab_eq hn hnm, asEvidence_variant h3]
    simp only [this]
  · have key : ∀ bs, ev.foldlM (VE.placeEvidence so bn) bs =
        ev'.foldlM (VE.placeEvidence so bn) bs := by
      intro bs
      induction h generalizing bs with
      | nil => rfl
      | cons hpq _ ih =>
        rename_i p q _ _ _
        rw [List.foldlM_cons, List.foldlM_cons]
        have : VE.placeEvidence so bn bs p = VE.placeEvidence so bn bs q := by
          unfold VE.placeEvidence
          rw [hpq.1]
          congr 1
          funext i
          by_cases hm : q.1 ∈ bn.names
          · obtain ⟨n, hnm, hname⟩ := BN.exists_of_mem_names hm
            have hlab := BN.lab_eq hn hnm
            have h2 := hpq.2
            rw [hpq.1, ← hname, hlab] at h2
            rw [← hname, BN.getNode_ok hn hnm]
            simp only [ok_bind]
            rw [asEvidence_variant h2]
          · rw [BN.getNode_error hm]
            rfl
        rw [this]
        congr 1
        funext c
        exact ih c
    unfold VE.bucketMarginals
    simp only [key]

/-- the evidence of the example with `d = t` as an array -/
def Ex.ev' : Dict Evidence := [("d", .soft [1, 0]), ("b", .soft [1 / 2, 0, 2])]

theorem Ex.ev_variant : OneHotVariant Ex.bn Ex.ev Ex.ev' :=
  .cons ⟨rfl, Or.inr ⟨"t", by decide, rfl, by decide +kernel⟩⟩ (.cons ⟨rfl, Or.inl rfl⟩ .nil)

example := C16_hard_eq_one_hot .insertion Ex.bn Ex.bn_consistent.nodup Ex.ev Ex.ev' Ex.ev_variant
  ["a"] none

/-! ## C17 -/

/-- **C17** any table that holds the posterior (by C13, C14 the result of every exact query) is
non-negative, sums to one if the evidence has positive weight, and is zero otherwise. -/
theorem C17_posterior_distribution (bn : BN) (hc : bn.Consistent) (hp : bn.NonNeg)
    (ev : Dict Evidence) (he : LegalEvidence bn ev) (hpe : NonNegEvidence ev) (Q : List Name)
    (hQ : ∀ v ∈ Q, v ∈ bn.names) (r : Factor)
    (hr : (∃ so, VE.naiveMarginals so bn Q ev = .ok r) ∨
      (Q.Nodup ∧ ∃ so o, o.Perm bn.names ∧ VE.bucketMarginals so bn Q ev (some o) = .ok r) ∨
      (Q.Nodup ∧ bn.Linked ∧ ∃ so, VE.bucketMarginals so bn Q ev none = .ok r)) (σ₀ : Assign) :
    (∀ σ, Legal bn.card Q σ → 0 ≤ r.eval σ) ∧
    (0 < totalWeight bn ev σ₀ → r.potentials.sumAll = 1) ∧
    (¬ 0 < totalWeight bn ev σ₀ → ∀ σ, Legal bn.card Q σ → r.eval σ = 0) := by
  have hspec : r.WF bn.card ∧ (∀ v, v ∈ r.variableOrder ↔ v ∈ Q) ∧
      ∀ σ, Legal bn.card Q σ → r.eval σ = posterior bn ev Q σ := by
    rcases hr with ⟨so, h⟩ | ⟨hQn, so, o, ho, h⟩ | ⟨hQn, hl, so, h⟩
    · obtain ⟨r', h1, h2, _, h3, h4⟩ := C13_naive_exact so bn hc ev he Q hQ
      rw [h] at h1; cases h1; exact ⟨h2, h3, h4⟩
    · obtain ⟨r', h1, h2, _, h3, h4⟩ := C14_bucket_exact so bn hc ev he Q hQn hQ o ho
      rw [h] at h1; cases h1; exact ⟨h2, h3, h4⟩
    · obtain ⟨r', h1, h2, _, h3, h4⟩ := C14_bucket_exact_default so bn hc hl ev he Q hQn hQ
      rw [h] at h1; cases h1; exact ⟨h2, h3, h4⟩
  obtain ⟨hwf, hs, hev⟩ := hspec
  refine ⟨fun σ hσ => by rw [hev σ hσ]; exact posterior_nonneg hp hpe Q σ, fun hZ => ?_,
    fun hZ σ hσ => ?_⟩
  · rw [Factor.sumAll_eq_sumOver hwf σ₀]
    have : r.variableOrder.toFinset = Q.toFinset := by ext v; simp [hs]
    rw [this, ← posterior_sum hc he hQ hZ]
    exact sumOver_congr fun τ hτ => hev τ fun v hv => hτ.2 v (by simpa using hv)
  · rw [hev σ hσ]
    refine posterior_eq_zero hp hpe hQ hσ (le_antisymm ?_ ?_)
    · rw [totalWeight_const hc he σ σ₀]; exact not_lt.1 hZ
    · exact sumOver_nonneg fun τ _ => weight_nonneg hp hpe τ

example (r : Factor) (h : VE.naiveMarginals .insertion Ex.bn ["a"] Ex.ev = .ok r) :=
  C17_posterior_distribution Ex.bn Ex.bn_consistent Ex.bn_nonneg Ex.ev Ex.ev_legal Ex.ev_nonneg ["a"]
    (by decide) r (.inl ⟨_, h⟩)
-- impossible evidence: all-zero table
example : (VE.naiveMarginals .insertion Ex.bn ["a"] [("b", .hard "z")]).map
    (fun r => r.potentials.data) = .ok [0, 0] := by decide +kernel

/-! ## C18 -/

/-- **C18** the product of the tables of an acyclic network with conditional distributions as
tables sums to one. -/
theorem C18_joint_sums_to_one (bn : BN) (hc : bn.Consistent) (ha : bn.Acyclic) (hs : bn.Stochastic)
    (σ : Assign) : sumOver bn.card bn.names.toFinset (joint bn) σ = 1 := by
  have := totalWeight_nil hc ha hs σ
  rwa [totalWeight, weight_nil] at this

/-- **C18** the prior marginal of a set of nodes which contains the parents of its members is the
product of their tables. -/
theorem C18_closed_prior (bn : BN) (hc : bn.Consistent) (ha : bn.Acyclic) (hs : bn.Stochastic)
    (Q : List Name) (hQ : ∀ v ∈ Q, v ∈ bn.names) (hcl : ∀ v ∈ Q, ∀ p, bn.IsParent p v → p ∈ Q)
    (so : SetOrder) :
    ∃ r, VE.naiveMarginals so bn Q [] = .ok r ∧ ∀ σ, Legal bn.card Q σ →
      r.eval σ = ((bn.filter fun n => n.name ∈ Q).map fun n => n.entry σ).prod := by
  have he : LegalEvidence bn [] := ⟨by simp, by simp, by simp, by simp⟩
  obtain ⟨r, h1, _, _, _, h4⟩ := C13_naive_exact so bn hc [] he Q hQ
  refine ⟨r, h1, fun σ hσ => ?_⟩
  rw [h4 σ hσ, posterior, totalWeight_nil hc ha hs, if_pos one_pos, div_one, weight_nil,
    sumOver_joint_closed hc ha hs (A := Q.toFinset) (fun v hv => by simpa using hQ v (by simpa using hv))
      (fun v hv p hp => by simpa using hcl v (by simpa using hv) p hp)
      (fun v hv => hσ v (by simpa using hv))]
  have hnd : (bn.names.filter fun v => v ∈ Q).Nodup := hc.nodup.filter _
  have hset : Q.toFinset = (bn.names.filter fun v => v ∈ Q).toFinset := by
    ext v; simp only [List.mem_toFinset, List.mem_filter, decide_eq_true_eq]
    exact ⟨fun h => ⟨hQ v h, h⟩, fun h => h.2⟩
  rw [hset, List.prod_toFinset _ hnd, BN.names, List.filter_map, List.map_map]
  congr 1
  refine List.map_congr_left fun n hn => ?_
  simp only [Function.comp, entryOf, BN.lab_of_mem hc.nodup (List.mem_of_mem_filter hn)]

/-- **C18** the prior of a root node is its own table. -/
theorem C18_root_prior (bn : BN) (hc : bn.Consistent) (ha : bn.Acyclic) (hs : bn.Stochastic)
    (n : NodeV) (hn : n ∈ bn) (hroot : n.parentOrder = []) (so : SetOrder) :
    ∃ r, VE.naiveMarginals so bn [n.name] [] = .ok r ∧ r.variableOrder = [n.name] ∧
      ∀ i < n.values.length, r.potentials.get [i] = n.cpd.get [i] := by
  have hmem : n.name ∈ bn.names := List.mem_map_of_mem hn
  have he : LegalEvidence bn [] := ⟨by simp, by simp, by simp, by simp⟩
  obtain ⟨r, h1, h2, _, h3, _⟩ := C13_naive_exact so bn hc [] he [n.name] (by simpa using hmem)
  obtain ⟨r', h1', h4⟩ := C18_closed_prior bn hc ha hs [n.name] (by simpa using hmem) (by
    intro v hv p hp
    obtain ⟨m, hm, hname, hpm⟩ := hp
    rw [List.mem_singleton] at hv
    subst hv
    have e := BN.lab_of_mem hc.nodup hm
    rw [hname, BN.lab_of_mem hc.nodup hn] at e
    cases e
    rw [hroot] at hpm; simp at hpm) so
  rw [h1] at h1'; cases h1'
  have hvo : r.variableOrder = [n.name] := by
    have hp : r.variableOrder.Perm [n.name] :=
      (List.perm_ext_iff_of_nodup h2.nodup (by simp)).2 h3
    exact List.perm_singleton.1 hp
  refine ⟨r, h1, hvo, fun i hi => ?_⟩
  have hleg : Legal bn.card [n.name] (fun _ => i) := by
    intro v hv
    rw [List.mem_singleton] at hv; subst hv
    rwa [BN.card, BN.lab_eq hc.nodup hn]
  have := h4 _ hleg
  rw [Factor.eval, hvo] at this
  rw [show [i] = [n.name].map (fun _ => i) from rfl, this]
  have hfil : (bn.filter fun m => m.name ∈ [n.name]) = [n] := by
    have hp : (bn.filter fun m => m.name ∈ [n.name]).Perm [n] := by
      refine (List.perm_ext_iff_of_nodup ((List.Nodup.of_map _ hc.nodup).filter _) (by simp)).2 ?_
      intro m
      simp only [List.mem_filter, List.mem_singleton, decide_eq_true_eq]
      constructor
      · rintro ⟨hm, hname⟩
        have e := BN.lab_of_mem hc.nodup hm
        rw [hname, BN.lab_of_mem hc.nodup hn] at e
        exact (Option.some.inj e).symm
      · rintro rfl; exact ⟨hn, rfl⟩
    exact List.perm_singleton.1 hp
  rw [hfil]
  simp [NodeV.entry, hroot]

example := C18_joint_sums_to_one Ex.bn Ex.bn_consistent Ex.bn_acyclic Ex.bn_stochastic
example := C18_root_prior Ex.bn Ex.bn_consistent Ex.bn_acyclic Ex.bn_stochastic Ex.nb (by simp [Ex.bn])
  rfl .insertion
example := C18_closed_prior Ex.bn Ex.bn_consistent Ex.bn_acyclic Ex.bn_stochastic ["a"] (by decide)
  (by
    rintro v hv p ⟨n, hn, h, hp⟩
    simp only [Ex.bn, List.mem_cons, List.not_mem_nil, or_false] at hn hv
    subst hv
    rcases hn with rfl | rfl | rfl | rfl <;> simp [Ex.nd, Ex.na, Ex.nb, Ex.nc] at h hp) .insertion

/-! ## C19 -/

/-- **C19** `get_min_degree_order` lists every node once, and every node, when eliminated, is the
first one of minimal degree in the graph obtained by eliminating the earlier ones with fill-in
(`elimDegree` counts the remaining nodes reachable through eliminated ones). -/
theorem C19_min_degree_order (bn : BN) (hc : bn.Consistent) (hl : bn.Linked) :
    ∃ o, Orderer.minDegreeOrder bn = .ok o ∧ o.Perm bn.names ∧
      ∀ o₁ v o₂, o = o₁ ++ v :: o₂ → MinDegree bn.names bn.Skel o₁ v :=
  Orderer.minDegreeOrder_spec hc hl

example := C19_min_degree_order Ex.bn Ex.bn_consistent Ex.bn_linked
example : Orderer.minDegreeOrder Ex.bn = .ok ["d", "a", "b", "c"] := by decide +kernel

end Primo
