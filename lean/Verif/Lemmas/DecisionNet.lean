import Verif.Lemmas.Decision

/-! # Joint factors of the nodes of a decision network -/

namespace Primo
open Finset

variable {lab : Name → List Val}

/-- number of outcomes for given labels -/
local notation "#c" => Factor.cardOf lab

theorem constFactor_over (c : ℚ) {order : List Name} {values : Dict (List Val)}
    (hnd : order.Nodup) (hval : ∀ v ∈ order, values.get? v = some (lab v)) :
    ∃ f, Factor.constFactor c order values = .ok f ∧ f.Over lab ∧ f.variableOrder = order ∧
      ∀ σ, Legal #c order σ → f.eval σ = c := by
  have key : ∀ (l : List Name) (acc : Dict (List Val) × List Nat), l.Nodup →
      (∀ v ∈ l, v ∉ acc.1.keys) → (∀ v ∈ l, values.get? v = some (lab v)) →
      ∃ d, l.foldlM (fun (acc : Dict (List Val) × List Nat) v => do
          let vs ← values.getE v
          return (acc.1.set v vs, acc.2 ++ [vs.length])) acc =
            (.ok (d, acc.2 ++ l.map #c) : Except PyErr (Dict (List Val) × List Nat)) ∧
        d.keys = acc.1.keys ++ l ∧ ∀ k, d.get? k = if k ∈ l then some (lab k) else acc.1.get? k := by
    intro l
    induction l with
    | nil => intro acc _ _ _; exact ⟨acc.1, by simp, by simp, by simp⟩
    | cons v l ih =>
      intro acc hnd hd hv
      obtain ⟨h1, h2⟩ := List.nodup_cons.1 hnd
      obtain ⟨d, e1, e2, e3⟩ := ih (acc.1.set v (lab v), acc.2 ++ [(lab v).length]) h2
        (by
          intro u hu h
          rcases Dict.mem_keys_set.1 h with h | h
          · exact h1 (h ▸ hu)
          · exact hd u (by simp [hu]) h) fun u hu => hv u (by simp [hu])
      refine ⟨d, ?_, ?_, fun k => ?_⟩
      · rw [List.foldlM_cons, Dict.getE_ok (hv v (by simp)), ok_bind, pure_eq_ok, ok_bind, e1]
        simp
      · rw [e2, Dict.keys_set_of_not_mem _ (hd v (by simp))]; simp
      · rw [e3, Dict.get?_set]
        by_cases hk : k ∈ l
        · simp [hk]
        · by_cases hvk : v = k
          · subst hvk; simp [hk]
          · simp [hk, hvk, Ne.symm hvk]
  obtain ⟨d, d1, d2, d3⟩ := key order ([], []) hnd (by simp) hval
  refine ⟨⟨NDArray.tabulate ([] ++ order.map #c) fun _ => c, order, d⟩, ?_,
    ⟨⟨hnd, by rw [d2]; simp, fun v hv => ⟨lab v, by rw [d3, if_pos hv], rfl⟩, by simp⟩,
      fun v hv => by rw [d3, if_pos hv]⟩, rfl, fun σ hσ => ?_⟩
  · rw [Factor.constFactor, d1, ok_bind]; rfl
  · have hir : InRange (order.map #c) (order.map σ) := by
      clear d1 d2 d3 hval hnd
      induction order with
      | nil => exact .nil
      | cons v l ih =>
        exact .cons (hσ v (by simp)) (ih fun u hu => hσ u (by simp [hu]))
    simp only [Factor.eval, List.nil_append]
    rw [NDArray.get_tabulate _ hir]

theorem mem_chance {dn : BN} {n : NodeV} : n ∈ dn.chance ↔ n ∈ dn ∧ n.kind ≠ .utility := by
  simp [BN.chance]

theorem mem_utils {dn : BN} {n : NodeV} : n ∈ dn.utils ↔ n ∈ dn ∧ n.kind = .utility := by
  simp [BN.utils]

/-- `Factor.from_utility_node` of a consistent node. -/
theorem fromUtilityNode_over {dn : BN} (hc : DNConsistent dn) {n : NodeV} (hn : n ∈ dn.utils) :
    ∃ f, Factor.fromUtilityNode n = .ok f ∧ f.Over dn.chance.lab ∧
      f.variableOrder = n.parentOrder ∧ ∀ σ, f.eval σ = n.utility σ := by
  obtain ⟨d, h1, h2, h3⟩ := Factor.parentValues_ok (init := []) (hc.parents_nodup n hn) (by simp)
    (hc.parents_val n hn)
  have hval : ∀ v ∈ n.parentOrder, d.get? v = some (dn.chance.lab v) := by
    intro v hv
    rw [h3, if_pos hv]
  refine ⟨⟨n.cpd, n.parentOrder, d⟩, ?_, ⟨⟨hc.parents_nodup n hn, ?_, fun v hv => ⟨_, hval v hv, rfl⟩,
    hc.shape n hn⟩, hval⟩, rfl, fun σ => rfl⟩
  · rw [Factor.fromUtilityNode, if_neg (not_not.2 (mem_utils.1 hn).2), h1]; rfl
  · rw [h2]; simp

/-- the variables of the joint factor of a node -/
def NodeV.scope (n : NodeV) : List Name :=
  if n.kind = .utility then n.parentOrder else n.name :: n.parentOrder

/-- the probability part of the joint factor of a node -/
def NodeV.prob (n : NodeV) (σ : Assign) : ℚ := if n.kind = .utility then 1 else n.entry σ

/-- the utility part of the joint factor of a node -/
def NodeV.util (n : NodeV) (σ : Assign) : ℚ := if n.kind = .utility then n.utility σ else 0

theorem joint_over {dn : BN} (hc : DNConsistent dn) (hnn : dn.chance.NonNeg) {n : NodeV}
    (hn : n ∈ dn) :
    ∃ f, Factor.joint n = .ok f ∧ JointOver dn.chance.lab f ∧ f.1.variableOrder = n.scope ∧
      ∀ σ, Legal dn.chance.card n.scope σ → f.1.eval σ = n.prob σ ∧ f.2.eval σ = n.util σ := by
  by_cases hk : n.kind = .utility
  · obtain ⟨u, u1, u2, u3, u4⟩ := fromUtilityNode_over hc (mem_utils.2 ⟨hn, hk⟩)
    obtain ⟨p, p1, p2, p3, p4⟩ := constFactor_over 1 (lab := dn.chance.lab) (order := u.variableOrder)
      (values := u.values) u2.wf.nodup u2.val
    refine ⟨(p, u), ?_, ⟨p2, u2, fun v => by rw [p3], fun σ hσ => ?_⟩, ?_, fun σ hσ => ?_⟩
    · rw [Factor.joint, if_pos hk, u1, ok_bind, p1]; rfl
    · rw [p4 σ (p3 ▸ hσ)]; exact zero_le_one
    · rw [p3, u3, NodeV.scope, if_pos hk]
    · rw [NodeV.scope, if_pos hk] at hσ
      rw [NodeV.prob, NodeV.util, if_pos hk, if_pos hk]
      exact ⟨p4 σ (u3 ▸ hσ), u4 σ⟩
  · have hn' := mem_chance.2 ⟨hn, hk⟩
    obtain ⟨p, p1, p2, p3, p4⟩ := fromNode_over hc.chance hn'
    obtain ⟨u, u1, u2, u3, u4⟩ := constFactor_over 0 (lab := dn.chance.lab) (order := p.variableOrder)
      (values := p.values) p2.wf.nodup p2.val
    refine ⟨(p, u), ?_, ⟨p2, u2, fun v => by rw [u3], fun σ hσ => ?_⟩, ?_, fun σ hσ => ?_⟩
    · rw [Factor.joint, if_neg hk, p1, ok_bind, u1]; rfl
    · rw [p4]; exact NDArray.get_nonneg (hnn n hn') _
    · rw [p3, NodeV.scope, if_neg hk]
    · rw [NodeV.scope, if_neg hk] at hσ
      rw [NodeV.prob, NodeV.util, if_neg hk, if_neg hk]
      exact ⟨p4 σ, u4 σ (p3 ▸ hσ)⟩

/-- the joint factors of some nodes of a decision network -/
theorem factors_over {dn : BN} (hc : DNConsistent dn) (hnn : dn.chance.NonNeg) (l : BN)
    (hl : ∀ n ∈ l, n ∈ dn) :
    ∃ fs, Decision.factors l = .ok fs ∧
      List.Forall₂ (fun n f => JointOver dn.chance.lab f ∧ f.1.variableOrder = NodeV.scope n ∧
        ∀ σ, Legal dn.chance.card n.scope σ → f.1.eval σ = n.prob σ ∧ f.2.eval σ = n.util σ) l fs := by
  induction l with
  | nil => exact ⟨[], rfl, .nil⟩
  | cons n l ih =>
    obtain ⟨f, f1, f2⟩ := joint_over hc hnn (hl n (by simp))
    obtain ⟨fs, g1, g2⟩ := ih fun m hm => hl m (by simp [hm])
    refine ⟨f :: fs, ?_, .cons f2 g2⟩
    unfold Decision.factors at g1 ⊢
    rw [List.mapM_cons, f1, ok_bind, g1]
    rfl

section forall2
variable {dn : BN} {l : BN} {fs : List JointFactor}
  (h : List.Forall₂ (fun n f => JointOver dn.chance.lab f ∧ f.1.variableOrder = NodeV.scope n ∧
        ∀ σ, Legal dn.chance.card n.scope σ → f.1.eval σ = n.prob σ ∧ f.2.eval σ = n.util σ) l fs)
include h

theorem forall2_over : ∀ f ∈ fs, JointOver dn.chance.lab f := by
  induction h with
  | nil => simp
  | cons h _ ih =>
    intro f hf
    rcases List.mem_cons.1 hf with rfl | hf
    · exact h.1
    · exact ih f hf

theorem forall2_inScope (v : Name) : InScope fs v ↔ ∃ n ∈ l, v ∈ n.scope := by
  induction h with
  | nil => simp [InScope]
  | cons h _ ih =>
    simp only [InScope, List.mem_cons, exists_eq_or_imp] at ih ⊢
    rw [ih, h.2.1]

theorem forall2_eval (σ : Assign) (hσ : ∀ n ∈ l, Legal dn.chance.card n.scope σ) :
    probOf fs σ = (l.map fun n => n.prob σ).prod ∧ utilOf fs σ = (l.map fun n => n.util σ).sum := by
  induction h with
  | nil => simp [probOf, utilOf]
  | cons h _ ih =>
    obtain ⟨a, b⟩ := ih fun m hm => hσ m (by simp [hm])
    obtain ⟨c, d⟩ := h.2.2 σ (hσ _ (by simp))
    simp only [probOf, utilOf, List.map_cons, List.prod_cons, List.sum_cons] at a b ⊢
    rw [a, b, c, d]
    exact ⟨rfl, rfl⟩

theorem forall2_noZero (hk : ∀ n ∈ l, n.scope = [] → ∀ σ, n.prob σ ≠ 0) : NoZero fs := by
  induction h with
  | nil => simp [NoZero]
  | cons h _ ih =>
    intro f hf he σ
    rcases List.mem_cons.1 hf with rfl | hf
    · rw [h.2.1] at he
      rw [(h.2.2 σ (by simp [he, Legal])).1]
      exact hk _ (by simp) he σ
    · exact ih (fun m hm => hk m (by simp [hm])) f hf he σ

end forall2

theorem prod_prob (dn : BN) (σ : Assign) :
    (dn.map fun n => n.prob σ).prod = joint dn.chance σ := by
  unfold joint BN.chance
  induction dn with
  | nil => rfl
  | cons n dn ih =>
    by_cases hk : n.kind = .utility
    · rw [List.map_cons, List.prod_cons, ih, List.filter_cons_of_neg (by simp [hk]), NodeV.prob,
        if_pos hk, one_mul]
    · rw [List.map_cons, List.prod_cons, ih, List.filter_cons_of_pos (by simp [hk]), NodeV.prob,
        if_neg hk, List.map_cons, List.prod_cons]

theorem sum_util (dn : BN) (σ : Assign) :
    (dn.map fun n => n.util σ).sum = totalUtility dn σ := by
  unfold totalUtility BN.utils
  induction dn with
  | nil => rfl
  | cons n dn ih =>
    by_cases hk : n.kind = .utility
    · rw [List.map_cons, List.sum_cons, ih, List.filter_cons_of_pos (by simp [hk]), NodeV.util,
        if_pos hk, List.map_cons, List.sum_cons]
    · rw [List.map_cons, List.sum_cons, ih, List.filter_cons_of_neg (by simp [hk]), NodeV.util,
        if_neg hk, zero_add]

theorem scope_mem {dn : BN} (hc : DNConsistent dn) {n : NodeV} (hn : n ∈ dn) {v : Name}
    (hv : v ∈ n.scope) : v ∈ dn.chance.names := by
  unfold NodeV.scope at hv
  split at hv
  · rename_i hk
    exact hc.parents_mem n (mem_utils.2 ⟨hn, hk⟩) v hv
  · rename_i hk
    rcases List.mem_cons.1 hv with rfl | hv
    · exact List.mem_map_of_mem (mem_chance.2 ⟨hn, hk⟩)
    · exact hc.chance.parents_mem n (mem_chance.2 ⟨hn, hk⟩) v hv

theorem scope_nil {n : NodeV} (h : n.scope = []) (σ : Assign) : n.prob σ ≠ 0 := by
  unfold NodeV.scope at h
  split at h
  · rename_i hk
    rw [NodeV.prob, if_pos hk]
    exact one_ne_zero
  · simp at h

/-- a table without axes -/
theorem potentials_scalar {f : Factor} (hf : f.Over lab) (hn : f.variableOrder = []) (σ : Assign) :
    f.potentials = NDArray.scalar (f.eval σ) := by
  have hs : f.potentials.shape = [] := by rw [hf.wf.shape, hn]; rfl
  have he : f.eval σ = f.potentials.get [] := by rw [Factor.eval, hn]; rfl
  rw [he]
  refine NDArray.ext_get hs fun idx hidx => ?_
  rw [hs] at hidx
  cases idx with
  | nil => rfl
  | cons i idx => cases hidx

/-- `generalized_VE` eliminating all variables -/
theorem generalizedVE_total (so : SetOrder) (sp : SetPerm) {fs : List JointFactor} {vs : List Name}
    (hne : fs ≠ []) (hov : ∀ f ∈ fs, JointOver lab f) (hnd : vs.Nodup)
    (hall : ∀ v, v ∈ vs ↔ InScope fs v)
    (hz : ∀ f ∈ fs, f.1.variableOrder = [] → ∀ σ, f.1.eval σ ≠ 0) (σ : Assign) :
    Decision.generalizedVE so sp fs vs = .error .floatingPointError ∧
      sumOver #c vs.toFinset (probOf fs) σ = 0 ∨
    sumOver #c vs.toFinset (probOf fs) σ ≠ 0 ∧
    ∃ r, Decision.generalizedVE so sp fs vs = .ok r ∧
      r.1.variableOrder = [] ∧ r.2.variableOrder = [] ∧
      r.1.potentials = NDArray.scalar (sumOver #c vs.toFinset (probOf fs) σ) ∧
      r.2.potentials = NDArray.scalar
        (sumOver #c vs.toFinset (fun τ => probOf fs τ * utilOf fs τ) σ /
          sumOver #c vs.toFinset (probOf fs) σ) := by
  have hlegal : ∀ u, InScope fs u → u ∉ vs → σ u < (lab u).length := fun u hu h =>
    absurd ((hall u).2 hu) h
  rcases generalizedVE_spec so sp hnd (A := []) (B := fs) (W := fs) (by simp) hne (by simp) (by simp)
    hov (fun v hv => (hall v).1 hv) with ⟨e1, e2⟩ | ⟨r, B', r1, r2, r3, r4, r5, r6⟩
  · exact Or.inl ⟨e1, e2 σ hlegal⟩
  · right
    have hB' : ∀ u, ¬ InScope B' u := fun u hu => ((r5 u).1 hu).2 ((hall u).2 ((r5 u).1 hu).1)
    have hnil : r.1.variableOrder = [] := List.eq_nil_iff_forall_not_mem.2 fun u hu => by
      rcases (r3 u).1 hu with h | h
      · simp [InScope] at h
      · exact hB' u h
    have hnil2 : r.2.variableOrder = [] := List.eq_nil_iff_forall_not_mem.2 fun u hu => by
      have := (r2.scope u).1 hu
      rw [hnil] at this
      simp at this
    obtain ⟨a, b, c, d⟩ := r6 σ (by simp [hnil, Legal])
    simp only [probOf, utilOf, List.map_nil, List.prod_nil, List.sum_nil, one_mul, zero_add] at a b
    have hnz : probOf B' σ ≠ 0 := by
      unfold probOf
      rw [ne_eq, List.prod_eq_zero_iff, List.mem_map]
      rintro ⟨f, hf, h0⟩
      refine r4 hz f hf (List.eq_nil_iff_forall_not_mem.2 fun u hu => hB' u ⟨f, hf, hu⟩) σ h0
    refine ⟨c ▸ hnz, r, r1, hnil, hnil2, ?_, ?_⟩
    · rw [potentials_scalar r2.prob hnil σ, a, ← c]; rfl
    · rw [potentials_scalar r2.util hnil2 σ, b, ← d, ← c]
      congr 1
      rw [mul_div_cancel_left₀ _ hnz]; rfl

end Primo
