import Verif.Lemmas.DecisionNet
import Verif.Props.Node

/-! # Changing the tables of a decision network -/

namespace Primo
open Finset

/-- replace all tables -/
def BN.recpd (dn : BN) (c : NodeV → NDArray) : BN := dn.map fun n => { n with cpd := c n }

section recpd
variable {dn : BN} {c : NodeV → NDArray}

theorem recpd_names (dn : BN) (c : NodeV → NDArray) : (dn.recpd c).names = dn.names := by
  simp [BN.recpd, BN.names, Function.comp_def]

theorem recpd_chance (dn : BN) (c : NodeV → NDArray) : (dn.recpd c).chance = dn.chance.recpd c := by
  unfold BN.recpd BN.chance
  rw [List.filter_map]
  rfl

theorem recpd_utils (dn : BN) (c : NodeV → NDArray) : (dn.recpd c).utils = dn.utils.recpd c := by
  unfold BN.recpd BN.utils
  rw [List.filter_map]
  rfl

theorem recpd_lab (dn : BN) (c : NodeV → NDArray) : (dn.recpd c).lab = dn.lab := by
  funext v
  unfold BN.lab BN.recpd
  induction dn with
  | nil => rfl
  | cons n dn ih =>
    by_cases h : n.name = v
    · rw [List.map_cons, List.find?_cons_of_pos (by simpa using h),
        List.find?_cons_of_pos (by simpa using h)]
    · rw [List.map_cons, List.find?_cons_of_neg (by simpa using h),
        List.find?_cons_of_neg (by simpa using h)]
      exact ih

theorem recpd_card (dn : BN) (c : NodeV → NDArray) : (dn.recpd c).card = dn.card := by
  funext v; unfold BN.card; rw [recpd_lab]

theorem mem_recpd {m : NodeV} : m ∈ dn.recpd c ↔ ∃ n ∈ dn, m = { n with cpd := c n } := by
  simp [BN.recpd, eq_comm]

theorem recpd_consistent (h : dn.Consistent) (hs : ∀ n ∈ dn, (c n).shape = n.cpd.shape) :
    (dn.recpd c).Consistent := by
  refine ⟨by rw [recpd_names]; exact h.nodup, ?_, ?_, ?_, ?_, ?_, ?_⟩ <;> intro m hm <;>
    obtain ⟨n, hn, rfl⟩ := mem_recpd.1 hm
  · exact h.kind n hn
  · exact h.parents_nodup n hn
  · exact h.self n hn
  · rw [recpd_names]; exact h.parents_mem n hn
  · rw [recpd_lab]; exact h.parents_val n hn
  · rw [recpd_card]; exact (hs n hn).trans (h.shape n hn)

theorem recpd_dnConsistent (h : DNConsistent dn) (hs : ∀ n ∈ dn, (c n).shape = n.cpd.shape) :
    DNConsistent (dn.recpd c) := by
  refine ⟨by rw [recpd_names]; exact h.nodup, ?_, ?_, ?_, ?_, ?_⟩
  · rw [recpd_chance]; exact recpd_consistent h.chance fun n hn => hs n (mem_chance.1 hn).1
  all_goals
    rw [recpd_utils]
    intro m hm
    obtain ⟨n, hn, rfl⟩ := mem_recpd.1 hm
  · exact h.parents_nodup n hn
  · rw [recpd_chance, recpd_names]; exact h.parents_mem n hn
  · rw [recpd_chance, recpd_lab]; exact h.parents_val n hn
  · rw [recpd_chance, recpd_card]; exact (hs n (mem_utils.1 hn).1).trans (h.shape n hn)

theorem recpd_acyclic (h : dn.Acyclic) : (dn.recpd c).Acyclic := by
  have : (dn.recpd c).IsParent = dn.IsParent := by
    funext p v
    unfold BN.IsParent
    ext
    constructor
    · rintro ⟨m, hm, a, b⟩
      obtain ⟨n, hn, rfl⟩ := mem_recpd.1 hm
      exact ⟨n, hn, a, b⟩
    · rintro ⟨n, hn, a, b⟩
      exact ⟨_, mem_recpd.2 ⟨n, hn, rfl⟩, a, b⟩
  unfold BN.Acyclic
  rw [this]
  exact h

theorem recpd_utility (hu : ∀ n ∈ dn.utils, c n = n.cpd) (σ : Assign) :
    totalUtility (dn.recpd c) σ = totalUtility dn σ := by
  unfold totalUtility
  rw [recpd_utils, BN.recpd, List.map_map]
  congr 1
  refine List.map_congr_left fun n hn => ?_
  simp only [Function.comp_apply, NodeV.utility]
  rw [hu n hn]

end recpd

/-- the table of `n` in the network in which `D` is decided -/
def decideCpd (D : Dict Val) (n : NodeV) : NDArray :=
  match D.get? n.name with
  | some x => n.pureRule x
  | none => n.cpd

theorem decide_eq (dn : BN) (D : Dict Val) : dn.decide D = dn.recpd (decideCpd D) := by
  unfold BN.decide BN.recpd decideCpd
  refine List.map_congr_left fun n _ => ?_
  cases D.get? n.name <;> rfl

theorem decideCpd_shape (D : Dict Val) (n : NodeV) : (decideCpd D n).shape = n.cpd.shape := by
  unfold decideCpd
  cases D.get? n.name <;> rfl

/-- the table of `n` in the network in which the decisions of `order` are fixed or mixed -/
def mixCpd (fixed : Dict Val) (order : List Name) (n : NodeV) : NDArray :=
  if n.name ∈ order then
    match fixed.get? n.name with
    | some x => n.pureRule x
    | none => n.mixedRule
  else n.cpd

theorem mix_eq (dn : BN) (fixed : Dict Val) (order : List Name) :
    dn.mix fixed order = dn.recpd (mixCpd fixed order) := by
  unfold BN.mix BN.recpd mixCpd
  refine List.map_congr_left fun n _ => ?_
  by_cases h : n.name ∈ order
  · rw [if_pos h, if_pos h]; cases fixed.get? n.name <;> rfl
  · rw [if_neg h, if_neg h]

theorem mixCpd_shape (fixed : Dict Val) (order : List Name) (n : NodeV) :
    (mixCpd fixed order n).shape = n.cpd.shape := by
  unfold mixCpd
  split
  · cases fixed.get? n.name <;> rfl
  · rfl

theorem pureRule_nonneg (n : NodeV) (x : Val) : ∀ y ∈ (n.pureRule x).data, 0 ≤ y := by
  intro y hy
  simp only [NodeV.pureRule, NDArray.tabulate, List.mem_map] at hy
  obtain ⟨idx, _, rfl⟩ := hy
  split
  · exact zero_le_one
  · exact le_rfl

theorem mixedRule_nonneg (n : NodeV) : ∀ y ∈ n.mixedRule.data, 0 ≤ y := by
  intro y hy
  simp only [NodeV.mixedRule, NDArray.tabulate, List.mem_map] at hy
  obtain ⟨idx, _, rfl⟩ := hy
  exact div_nonneg zero_le_one (Nat.cast_nonneg _)

theorem get_pureRule {n : NodeV} {x : Val} {idx : List Nat} (h : InRange n.cpd.shape idx) :
    (n.pureRule x).get idx = if idx.head? = some (n.values.idxOf x) then 1 else 0 := by
  rw [NodeV.pureRule, NDArray.get_tabulate _ h]

theorem get_mixedRule {n : NodeV} {idx : List Nat} (h : InRange n.cpd.shape idx) :
    n.mixedRule.get idx = 1 / n.values.length := by
  rw [NodeV.mixedRule, NDArray.get_tabulate _ h]

theorem setDecision_eq {n : NodeV} {s : List Nat} (hs : n.cpd.shape = n.values.length :: s)
    {x : Val} (hx : x ∈ n.values) : n.setDecision x = (n.pureRule x, none) := by
  have hval : n.values ≠ [] := List.ne_nil_of_mem hx
  have hlt := List.idxOf_lt_length_of_mem hx
  have hz : (n.cpd.map (· * 0)).shape = n.cpd.shape := rfl
  have hok : n.ownIndex x = .ok [n.values.idxOf x] := by
    rw [NodeV.ownIndex_ok (Or.inr hx), if_neg hval]
  unfold NodeV.setDecision
  rw [hok]
  simp only [NDArray.assign, List.map_cons, List.map_nil]
  rw [if_pos (by
    rw [NDArray.ndim, hz, hs]
    refine ⟨by simp, ?_⟩
    simp only [List.zip_cons_cons, List.zip_nil_left, List.mem_singleton, forall_eq, Ix.ok,
      decide_eq_true_eq]
    exact hlt)]
  simp only [Prod.mk.injEq, and_true]
  refine NDArray.ext_get rfl fun idx hidx => ?_
  have hidx' : InRange n.cpd.shape idx := hidx
  rw [NDArray.get_tabulate _ (show InRange (n.cpd.map (· * 0)).shape idx from hidx'), get_pureRule hidx', NDArray.get_map _ _ hidx', mul_zero]
  rw [hs] at hidx'
  cases hidx' with
  | cons h1 h2 =>
    rename_i i l
    by_cases e : i = n.values.idxOf x
    · simp [Ix.sel, e]
    · have : ¬ n.values.idxOf x = i := fun h => e h.symm
      simp [Ix.sel, e, this]

theorem fullyMixed_eq {n : NodeV} (hval : n.values ≠ []) : n.fullyMixed = .ok n.mixedRule := by
  have hlen : n.values.length ≠ 0 := by simpa using hval
  rw [NodeV.fullyMixed, if_neg fun c => hlen c.1]
  congr 1
  refine NDArray.ext_get rfl fun idx hidx => ?_
  have hidx' : InRange n.cpd.shape idx := hidx
  rw [get_mixedRule hidx', NDArray.get_map _ _ (show InRange (NDArray.ones n.cpd.shape).shape _ from hidx'),
    NDArray.get_ones hidx']

theorem lookup_ok {dn : BN} (h : dn.names.Nodup) {n : NodeV} (hn : n ∈ dn) :
    Decision.lookup dn n.name = .ok n := by
  rw [Decision.lookup, BN.lab_of_mem h hn]

theorem lookup_error {dn : BN} {v : Name} (h : v ∉ dn.names) :
    Decision.lookup dn v = .error .keyError := by
  have : dn.find? (fun n => n.name = v) = none := by
    rw [List.find?_eq_none]
    intro n hn e
    exact h (List.mem_map.2 ⟨n, hn, by simpa using e⟩)
  rw [Decision.lookup, this]

/-- the table of a chance or decision node -/
theorem DNConsistent.cpd_shape {dn : BN} (hc : DNConsistent dn) {n : NodeV} (hn : n ∈ dn)
    (hk : n.kind = .decision) :
    n.cpd.shape = n.values.length :: n.parentOrder.map dn.chance.card :=
  hc.chance.shape n (mem_chance.2 ⟨hn, by rw [hk]; decide⟩)

theorem putCpd_eq {dn : BN} (v : Name) (c : NodeV → NDArray) {n : NodeV}
    (hnd : dn.names.Nodup) (hn : n ∈ dn) (hv : n.name = v) :
    dn.putCpd v (c n) = dn.recpd fun m => if m.name = v then c m else m.cpd := by
  unfold BN.putCpd BN.recpd
  refine List.map_congr_left fun m hm => ?_
  dsimp only
  by_cases h : m.name = v
  · have : m = n := List.inj_on_of_nodup_map hnd hm hn (h.trans hv.symm)
    rw [if_pos h, if_pos h, this]
  · rw [if_neg h, if_neg h]

theorem setDecision_ok {dn : BN} (hc : DNConsistent dn) {n : NodeV} (hn : n ∈ dn)
    (hk : n.kind = .decision) {x : Val} (hx : x ∈ n.values) :
    Decision.setDecision dn n.name x = (dn.decide [(n.name, x)], none) := by
  unfold Decision.setDecision
  rw [lookup_ok hc.nodup hn]
  simp only [hk, ne_eq, not_true_eq_false, if_false]
  rw [setDecision_eq (hc.cpd_shape hn hk) hx,
    putCpd_eq n.name (fun m => m.pureRule x) hc.nodup hn rfl, decide_eq]
  congr 2
  funext m
  by_cases h : m.name = n.name
  · simp [decideCpd, Dict.get?, h]
  · simp [decideCpd, Dict.get?, h, Ne.symm h]

theorem decide_dnConsistent {dn : BN} (hc : DNConsistent dn) (D : Dict Val) :
    DNConsistent (dn.decide D) := by
  rw [decide_eq]; exact recpd_dnConsistent hc fun n _ => decideCpd_shape D n

theorem decide_decide {dn : BN} {p : Name × Val} {D : Dict Val} (h : p.1 ∉ D.keys) :
    (dn.decide [p]).decide D = dn.decide (p :: D) := by
  unfold BN.decide
  rw [List.map_map]
  refine List.map_congr_left fun n _ => ?_
  obtain ⟨v, x⟩ := p
  by_cases hv : v = n.name
  · subst hv
    have := Dict.get?_eq_none.2 h
    simp only [Function.comp_apply, Dict.get?, if_true, this]
  · simp [Dict.get?, hv]

theorem setDecisions_ok {dn : BN} (hc : DNConsistent dn) {D : Dict Val}
    (hD : LegalDecisions dn D) : Decision.setDecisions dn D = (dn.decide D, none) := by
  induction D generalizing dn with
  | nil =>
    simp only [Decision.setDecisions, BN.decide, Dict.get?, List.map_id']
  | cons p D ih =>
    obtain ⟨n, hn, h1, h2, h3⟩ := hD.legal p (by simp)
    obtain ⟨h4, h5⟩ := List.nodup_cons.1 hD.nodup
    have h := setDecision_ok hc hn h2 h3
    rw [h1] at h
    rw [Decision.setDecisions, h]
    simp only
    have hp : (p.1, p.2) = p := rfl
    rw [hp, ih (decide_dnConsistent hc _) ⟨h5, fun q hq => ?_⟩, decide_decide h4]
    obtain ⟨m, hm, a, b, c⟩ := hD.legal q (by simp [hq])
    refine ⟨{ m with cpd := decideCpd [p] m }, ?_, a, b, c⟩
    rw [decide_eq]
    exact mem_recpd.2 ⟨m, hm, rfl⟩

theorem decide_ne_nil {dn : BN} (h : dn ≠ []) (D : Dict Val) : dn.decide D ≠ [] := by
  simpa [BN.decide] using h

theorem decide_nonneg {dn : BN} (h : dn.chance.NonNeg) (D : Dict Val) : (dn.decide D).chance.NonNeg := by
  rw [decide_eq, recpd_chance]
  intro m hm
  obtain ⟨n, hn, rfl⟩ := mem_recpd.1 hm
  show ∀ x ∈ (decideCpd D n).data, 0 ≤ x
  unfold decideCpd
  cases D.get? n.name with
  | none => exact h n hn
  | some x => exact pureRule_nonneg n x

theorem pureRule_sum {n : NodeV} {card : Name → Nat}
    (hs : n.cpd.shape = n.values.length :: n.parentOrder.map card) {x : Val} (hx : x ∈ n.values)
    {σ : Assign} (hσ : Legal card n.parentOrder σ) :
    ∑ i ∈ range n.values.length, (n.pureRule x).get (i :: n.parentOrder.map σ) = 1 := by
  have hlt := List.idxOf_lt_length_of_mem hx
  rw [sum_congr rfl fun i hi => get_pureRule (by
    rw [hs]; exact .cons (mem_range.1 hi) (inRange_map.2 hσ))]
  simp only [List.head?_cons, Option.some.injEq, sum_ite_eq', mem_range, hlt, if_true]

theorem mixedRule_sum {n : NodeV} {card : Name → Nat}
    (hs : n.cpd.shape = n.values.length :: n.parentOrder.map card) (hval : n.values ≠ [])
    {σ : Assign} (hσ : Legal card n.parentOrder σ) :
    ∑ i ∈ range n.values.length, n.mixedRule.get (i :: n.parentOrder.map σ) = 1 := by
  rw [sum_congr rfl fun i hi => get_mixedRule (by
    rw [hs]; exact .cons (mem_range.1 hi) (inRange_map.2 hσ)), sum_const, card_range, nsmul_eq_mul]
  have : (n.values.length : ℚ) ≠ 0 := by
    have : n.values.length ≠ 0 := by simpa using hval
    exact_mod_cast this
  field_simp

/-- Deciding all nodes that are not yet probability tables makes the network stochastic. -/
theorem decide_stochastic {dn : BN} (hc : DNConsistent dn) {D : Dict Val} (hD : LegalDecisions dn D)
    (hs : ∀ n ∈ dn.chance, n.name ∈ D.keys ∨ n.Normalised dn.chance.card) :
    (dn.decide D).chance.Stochastic := by
  rw [decide_eq, recpd_chance]
  intro m hm
  obtain ⟨n, hn, rfl⟩ := mem_recpd.1 hm
  rw [recpd_card]
  intro σ hσ
  show ∑ i ∈ range n.values.length, (decideCpd D n).get (i :: n.parentOrder.map σ) = 1
  unfold decideCpd
  cases h : D.get? n.name with
  | none => exact (hs n hn).resolve_left (Dict.get?_eq_none.1 h) σ hσ
  | some x =>
    obtain ⟨k, hk, a, b, c⟩ := hD.legal _ (Dict.get?_mem h)
    have : k = n := List.inj_on_of_nodup_map hc.nodup hk (mem_chance.1 hn).1 a
    subst this
    exact pureRule_sum (hc.cpd_shape hk b) c hσ

theorem decide_acyclic {dn : BN} (h : dn.chance.Acyclic) (D : Dict Val) :
    (dn.decide D).chance.Acyclic := by
  rw [decide_eq, recpd_chance]; exact recpd_acyclic h

/-- what `expected_utility` computes once the decisions have been taken -/
theorem evaluate_spec (so : SetOrder) (sp : SetPerm) {dn : BN} (hc : DNConsistent dn)
    (hnn : dn.chance.NonNeg) (hne : dn ≠ []) :
    Decision.evaluate so sp dn =
      if mass dn = 0 then .error .floatingPointError
      else .ok (NDArray.scalar (utilityMass dn / mass dn)) := by
  obtain ⟨fs, g1, g2⟩ := factors_over hc hnn dn fun _ h => h
  have hov := forall2_over g2
  have hin := forall2_inScope g2
  have hfs : fs ≠ [] := fun h => hne (by rw [h] at g2; exact List.forall₂_nil_right_iff.1 g2)
  have hnames : Decision.chanceNames dn = dn.chance.names := rfl
  have hall : ∀ v, v ∈ dn.chance.names ↔ InScope fs v := by
    intro v
    rw [hin]
    constructor
    · intro hv
      obtain ⟨n, hn, rfl⟩ := List.mem_map.1 hv
      obtain ⟨h1, h2⟩ := mem_chance.1 hn
      exact ⟨n, h1, by simp [NodeV.scope, h2]⟩
    · rintro ⟨n, hn, hv⟩
      exact scope_mem hc hn hv
  have hz := forall2_noZero g2 fun n _ h σ => scope_nil h σ
  have hmass : sumOver (Factor.cardOf dn.chance.lab) dn.chance.names.toFinset (probOf fs)
      (fun _ => 0) = mass dn := by
    refine sumOver_congr fun τ hτ => ?_
    rw [(forall2_eval g2 τ fun n hn v hv => hτ.2 v (by simpa using scope_mem hc hn hv)).1, prod_prob]
  have humass : sumOver (Factor.cardOf dn.chance.lab) dn.chance.names.toFinset
      (fun τ => probOf fs τ * utilOf fs τ) (fun _ => 0) = utilityMass dn := by
    refine sumOver_congr fun τ hτ => ?_
    obtain ⟨a, b⟩ := forall2_eval g2 τ fun n hn v hv => hτ.2 v (by simpa using scope_mem hc hn hv)
    rw [a, b, prod_prob, sum_util]
  unfold Decision.evaluate
  rw [g1, ok_bind, hnames]
  rcases generalizedVE_total so sp hfs hov hc.chance.nodup hall hz fun _ => 0 with
    ⟨e1, e2⟩ | ⟨e1, r, r1, _, _, _, r3⟩
  · rw [hmass] at e2
    rw [e1, if_pos e2]; rfl
  · rw [hmass] at e1
    rw [hmass, humass] at r3
    rw [r1, ok_bind, if_neg e1, r3]; rfl

end Primo
