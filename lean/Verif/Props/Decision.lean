import Mathlib.Algebra.Order.BigOperators.Ring.Finset
import Verif.Lemmas.Strategy
import Verif.Examples.Decision

/-! # C50 – C52: decision networks -/

namespace Primo
open Finset

/-! ## C50 -/

section C50
variable {lab : Name → List Val}

/-- number of outcomes for given labels -/
local notation "#c" => Factor.cardOf lab

/-- **C50** `generalized_VE` of joint factors, eliminating distinct variables which occur in them, in
any order and with any iteration order of the sets: either it raises `FloatingPointError`, and then
the probability total is 0 for every instantiation of the remaining variables; or it returns a joint
factor over exactly the remaining variables whose probability part is the probability total and whose
utility part, weighted with it, is the probability-weighted utility total. -/
theorem C50_generalized_VE (so : SetOrder) (sp : SetPerm) (fs : List JointFactor) (vs : List Name)
    (hne : fs ≠ []) (hov : ∀ f ∈ fs, JointOver lab f) (hnd : vs.Nodup)
    (hin : ∀ v ∈ vs, InScope fs v) :
    (Decision.generalizedVE so sp fs vs = .error .floatingPointError ∧
      ∀ σ, (∀ u, InScope fs u → u ∉ vs → σ u < (lab u).length) →
        sumOver #c vs.toFinset (probOf fs) σ = 0) ∨
    ∃ r, Decision.generalizedVE so sp fs vs = .ok r ∧ JointOver lab r ∧
      (∀ u, u ∈ r.1.variableOrder ↔ InScope fs u ∧ u ∉ vs) ∧
      ∀ σ, (∀ u, InScope fs u → u ∉ vs → σ u < (lab u).length) →
        r.1.eval σ = sumOver #c vs.toFinset (probOf fs) σ ∧
        r.1.eval σ * r.2.eval σ =
          sumOver #c vs.toFinset (fun τ => probOf fs τ * utilOf fs τ) σ := by
  rcases generalizedVE_spec so sp hnd (A := []) (B := fs) (W := fs) (by simp) hne (by simp) (by simp)
    hov hin with h | ⟨r, B', r1, r2, r3, _, r5, r6⟩
  · exact Or.inl h
  · right
    have hsc : ∀ u, u ∈ r.1.variableOrder ↔ InScope fs u ∧ u ∉ vs := fun u => by
      rw [r3, r5]
      simp [InScope]
    refine ⟨r, r1, r2, hsc, fun σ hσ => ?_⟩
    obtain ⟨a, b, c, d⟩ := r6 σ fun u hu => hσ u ((hsc u).1 hu).1 ((hsc u).1 hu).2
    simp only [probOf, utilOf, List.map_nil, List.prod_nil, List.sum_nil, one_mul, zero_add] at a b
    rw [a, b]
    exact ⟨c, d⟩

/-- **C50** eliminating all variables: the result is the probability total and the
probability-weighted utility total divided by it; if the probability total is 0 the code raises
`FloatingPointError`.  (A factor without variables and with probability 0 is excluded; no node has
such a joint factor.) -/
theorem C50_all_eliminated (so : SetOrder) (sp : SetPerm) (fs : List JointFactor) (vs : List Name)
    (hne : fs ≠ []) (hov : ∀ f ∈ fs, JointOver lab f) (hnd : vs.Nodup)
    (hall : ∀ v, v ∈ vs ↔ InScope fs v)
    (hz : ∀ f ∈ fs, f.1.variableOrder = [] → ∀ σ, f.1.eval σ ≠ 0) (σ : Assign) :
    Decision.generalizedVE so sp fs vs = .error .floatingPointError ∧
      sumOver #c vs.toFinset (probOf fs) σ = 0 ∨
    sumOver #c vs.toFinset (probOf fs) σ ≠ 0 ∧
    ∃ r, Decision.generalizedVE so sp fs vs = .ok r ∧
      r.1.variableOrder = [] ∧ r.2.variableOrder = [] ∧
      r.1.potentials = NDArray.scalar (sumOver #c vs.toFinset (probOf fs) σ) ∧
      r.2.potentials = NDArray.scalar
        (sumOver #c vs.toFinset (fun τ => probOf fs τ * utilOf fs τ) σ /
          sumOver #c vs.toFinset (probOf fs) σ) :=
  generalizedVE_total so sp hne hov hnd hall hz σ

/-- **C50** neither the elimination order nor the iteration order of any set matters. -/
theorem C50_order_independent (so so' : SetOrder) (sp sp' : SetPerm) (fs fs' : List JointFactor)
    (hfs : fs.Perm fs') (vs vs' : List Name) (hvs : vs.Perm vs')
    (hne : fs ≠ []) (hov : ∀ f ∈ fs, JointOver lab f) (hnd : vs.Nodup)
    (hall : ∀ v, v ∈ vs ↔ InScope fs v)
    (hz : ∀ f ∈ fs, f.1.variableOrder = [] → ∀ σ, f.1.eval σ ≠ 0) :
    (Decision.generalizedVE so sp fs vs).map (fun r => (r.1.potentials, r.2.potentials)) =
    (Decision.generalizedVE so' sp' fs' vs').map (fun r => (r.1.potentials, r.2.potentials)) := by
  have hne' : fs' ≠ [] := fun h => hne (by rw [h] at hfs; exact hfs.eq_nil)
  have hset : vs.toFinset = vs'.toFinset := by ext v; simp [hvs.mem_iff]
  have h1 := C50_all_eliminated so sp fs vs hne hov hnd hall hz fun _ => 0
  have h2 := C50_all_eliminated so' sp' fs' vs' hne' (fun f hf => hov f (hfs.mem_iff.2 hf))
    (hvs.nodup_iff.1 hnd) (fun v => by rw [← hvs.mem_iff, hall, InScope.perm hfs])
    (fun f hf => hz f (hfs.mem_iff.2 hf)) fun _ => 0
  have hP : probOf fs' = probOf fs := funext fun σ => probOf_perm hfs.symm σ
  have hU : utilOf fs' = utilOf fs := funext fun σ => utilOf_perm hfs.symm σ
  rw [← hset, hP, hU] at h2
  rcases h1 with ⟨a, b⟩ | ⟨a, r, r1, _, _, r2, r3⟩ <;>
    rcases h2 with ⟨c, d⟩ | ⟨c, s, s1, _, _, s2, s3⟩
  · rw [a, c]
  · exact absurd b c
  · exact absurd d a
  · rw [r1, s1]
    simp only [Except.map]
    rw [r2, r3, s2, s3]

end C50

/-! ## C51 -/

/-- **C51** For all consistent decision networks with non-negative tables and all legal decisions,
`expected_utility(decisions)` installs the decisions' rules and returns the sum over all
instantiations of the product of all tables times the sum of all utilities, *divided by the sum of the
products*; it fails exactly when the latter is 0. -/
theorem C51_expected_utility (so : SetOrder) (sp : SetPerm) (dn : BN) (D : Dict Val)
    (hc : DNConsistent dn) (hnn : dn.chance.NonNeg) (hne : dn ≠ []) (hD : LegalDecisions dn D) :
    Decision.expectedUtility so sp dn (some D) = (dn.decide D,
      if mass (dn.decide D) = 0 then .error .floatingPointError
      else .ok (NDArray.scalar (utilityMass (dn.decide D) / mass (dn.decide D)))) := by
  unfold Decision.expectedUtility
  rw [Option.getD_some, setDecisions_ok hc hD]
  simp only
  rw [evaluate_spec so sp (decide_dnConsistent hc D) (decide_nonneg hnn D) (decide_ne_nil hne D)]

/-- **C51** without decisions the rules that are installed are used -/
theorem C51_no_decisions (so : SetOrder) (sp : SetPerm) (dn : BN) 
    (hc : DNConsistent dn) (hnn : dn.chance.NonNeg) (hne : dn ≠ []) :
    Decision.expectedUtility so sp dn none = (dn,
      if mass dn = 0 then .error .floatingPointError
      else .ok (NDArray.scalar (utilityMass dn / mass dn))) := by
  unfold Decision.expectedUtility
  simp only [Option.getD_none, Decision.setDecisions]
  rw [evaluate_spec so sp hc hnn hne]

/-- **C51** If every node's table is a probability distribution or gets a decision, then
`expected_utility(decisions)` is the sum over all instantiations of the product of all tables times
the sum of all utilities.  Missing for the full statement: tables that are not normalised, for which it
is false (`C51_unnormalised_refuted`). -/
theorem C51_expected_utility_partial (so : SetOrder) (sp : SetPerm) (dn : BN) (D : Dict Val)
    (hc : DNConsistent dn) (hnn : dn.chance.NonNeg) (hne : dn ≠ []) (ha : dn.chance.Acyclic)
    (hD : LegalDecisions dn D)
    (hs : ∀ n ∈ dn.chance, n.name ∈ D.keys ∨ n.Normalised dn.chance.card) :
    Decision.expectedUtility so sp dn (some D) =
      (dn.decide D, .ok (NDArray.scalar (utilityMass (dn.decide D)))) := by
  have hm : mass (dn.decide D) = 1 := by
    have := totalWeight_nil (decide_dnConsistent hc D).chance (decide_acyclic ha D)
      (decide_stochastic hc hD hs) fun _ => 0
    rwa [totalWeight, weight_nil] at this
  rw [C51_expected_utility so sp dn D hc hnn hne hD, hm, if_neg one_ne_zero, div_one]

/-- The full statement of C51 is false: for a chance node with table `[1, 1]` and utilities `[1, 2]`
the sum over all instantiations is 3, but the code returns 3/2. -/
theorem C51_unnormalised_refuted :
    ∃ dn : BN, DNConsistent dn ∧ dn.chance.NonNeg ∧ dn ≠ [] ∧
      utilityMass dn = 3 ∧
      ∀ so sp, Decision.expectedUtility so sp dn none = (dn, .ok (NDArray.scalar (3 / 2))) := by
  have hm : mass (Ex.raw 1 1) = 2 := by decide +kernel
  have hu : utilityMass (Ex.raw 1 1) = 3 := by decide +kernel
  have hnn : (Ex.raw 1 1).chance.NonNeg := by
    intro n hn
    have hn : n ∈ [Ex.rawC 1 1] := hn
    rw [List.mem_singleton.1 hn]
    decide +kernel
  refine ⟨Ex.raw 1 1, Ex.raw_consistent 1 1, hnn, by simp [Ex.raw], hu, fun so sp => ?_⟩
  rw [C51_no_decisions so sp _ (Ex.raw_consistent 1 1) hnn (by simp [Ex.raw]), hm, hu,
    if_neg two_ne_zero]

/-- **C51** Decisions are installed one after the other.  After legal ones, a name that is not in the
network raises `KeyError`, a chance or utility node `AttributeError`; an unknown decision raises
`ValueError` and leaves a rule of zeros behind. -/
theorem C51_illegal_decisions (so : SetOrder) (sp : SetPerm) (dn : BN) (D E : Dict Val) (v : Name)
    (x : Val) (hc : DNConsistent dn) (hD : LegalDecisions dn D) :
    (v ∉ dn.names → Decision.expectedUtility so sp dn (some (D ++ (v, x) :: E)) =
      (dn.decide D, .error .keyError)) ∧
    (∀ n ∈ dn, n.name = v → n.kind ≠ .decision →
      Decision.expectedUtility so sp dn (some (D ++ (v, x) :: E)) =
        (dn.decide D, .error .attributeError)) ∧
    (∀ n ∈ dn, n.name = v → n.kind = .decision → x ∉ n.values → v ∉ D.keys → n.values ≠ [] →
      Decision.expectedUtility so sp dn (some (D ++ (v, x) :: E)) =
        ((dn.decide D).putCpd v (n.cpd.map (· * 0)), .error .valueError)) := by
  have happ : ∀ (dn : BN) (D E : Dict Val) (dn' : BN), Decision.setDecisions dn D = (dn', none) →
      Decision.setDecisions dn (D ++ E) = Decision.setDecisions dn' E := by
    intro dn D E
    induction D generalizing dn with
    | nil => intro dn' h; simp only [Decision.setDecisions, Prod.mk.injEq, and_true] at h; rw [h]; rfl
    | cons p D ih =>
      intro dn' h
      rw [Decision.setDecisions] at h
      rw [List.cons_append, Decision.setDecisions]
      rcases e : Decision.setDecision dn p.1 p.2 with ⟨d1, _ | er⟩
      · rw [e] at h; exact ih _ _ h
      · rw [e] at h; simp at h
  have hset := happ dn D ((v, x) :: E) _ (setDecisions_ok hc hD)
  have hc' := decide_dnConsistent hc D
  have hmem : ∀ n ∈ dn, { n with cpd := decideCpd D n } ∈ dn.decide D := fun n hn => by
    rw [decide_eq]; exact mem_recpd.2 ⟨n, hn, rfl⟩
  unfold Decision.expectedUtility
  rw [Option.getD_some, hset, Decision.setDecisions]
  refine ⟨fun h => ?_, fun n hn hv hk => ?_, fun n hn hv hk hx hD hne => ?_⟩
  · have : Decision.setDecision (dn.decide D) v x = (dn.decide D, some .keyError) := by
      unfold Decision.setDecision
      rw [lookup_error (by rw [decide_eq, recpd_names]; exact h)]
    simp only [this]
  · have : Decision.setDecision (dn.decide D) v x = (dn.decide D, some .attributeError) := by
      unfold Decision.setDecision
      subst hv
      rw [lookup_ok hc'.nodup (hmem n hn)]
      simp only [ne_eq, hk, not_false_eq_true, if_true]
    simp only [this]
  · have hcpd : decideCpd D n = n.cpd := by
      subst hv
      unfold decideCpd
      rw [Dict.get?_eq_none.2 hD]
    have : Decision.setDecision (dn.decide D) v x =
        ((dn.decide D).putCpd v (n.cpd.map (· * 0)), some .valueError) := by
      unfold Decision.setDecision
      subst hv
      rw [lookup_ok hc'.nodup (hmem n hn)]
      simp only [hk, ne_eq, not_true_eq_false, if_false]
      rw [NodeV.setDecision, NodeV.ownIndex_error (by exact hne) (by exact hx)]
      simp only [hcpd]
    simp only [this]

/-! ## C52 -/

section C52
variable {dn : BN} {order : List Name}

/-- **C52** What `get_optimal_decisions` really returns for decisions without information: it leaves
the fixed decisions and the fully mixed rules installed, and for each decision node of the order it
returns the first of its decisions that maximise the expected utility *while the other decisions of the
order are the fixed ones or random*. -/
theorem C52_local_optimum (so : SetOrder) (sps : Nat → SetPerm) (fixed : Dict Val)
    (hc : DNConsistent dn) (hnn : dn.chance.NonNeg) (ha : dn.chance.Acyclic) (hnd : order.Nodup)
    (ho : FreeOrder dn order)
    (hF : ∀ d ∈ dn, d.name ∈ order → ∀ x, fixed.get? d.name = some x → x ∈ d.values)
    (hs : ∀ n ∈ dn.chance, n.name ∈ order ∨ n.Normalised dn.chance.card) :
    ∃ f : Name → Val,
      Decision.getOptimalDecisions so sps dn order (some fixed) =
        (dn.mix fixed order, .ok (order.map fun v => (v, some (f v)))) ∧
      ∀ d ∈ dn, d.name ∈ order →
        FirstMax (fun y => utilityMass ((dn.mix fixed order).decide [(d.name, y)])) d.values
          (f d.name) := by
  have hex : ∀ v, ∃ x, ∀ d ∈ dn, d.name = v → v ∈ order → (∀ sp, Decision.optimizeLocally so sp
      (dn.mix fixed order) v = .ok (some x)) ∧
      FirstMax (fun y => utilityMass ((dn.mix fixed order).decide [(v, y)])) d.values x := by
    intro v
    by_cases hv : v ∈ order
    · obtain ⟨d, hd, rfl, hf⟩ := ho v hv
      have hdm : { d with cpd := mixCpd fixed order d } ∈ dn.mix fixed order := by
        rw [mix_eq]; exact mem_recpd.2 ⟨d, hd, rfl⟩
      have hspec := fun sp => optimizeLocally_spec so sp (mix_dnConsistent hc fixed order)
        (mix_nonneg hnn fixed order) (mix_acyclic ha fixed order) hdm
        ⟨hf.1, hf.2, hf.3, hf.4, hf.5⟩
        fun n hn => Or.inr (mix_normalised hc ho.decisions hF hs n hn)
      obtain ⟨x, x1, x2⟩ := hspec .insertion
      refine ⟨x, fun d' hd' e _ => ?_⟩
      have : d' = d := List.inj_on_of_nodup_map hc.nodup hd' hd e
      subst this
      refine ⟨fun sp => ?_, x2⟩
      obtain ⟨x', x1', x2'⟩ := hspec sp
      rw [x2.unique x2']
      exact x1'
    · exact ⟨"", fun _ _ _ h => absurd h hv⟩
  choose f hf using hex
  refine ⟨f, ?_, fun d hd hv => (hf d.name d hd rfl hv).2⟩
  unfold Decision.getOptimalDecisions
  rw [Option.getD_some, prepare_ok hc fun v hv => ?_]
  · simp only
    rw [optimizeAll_ok (f := f) (fun v hv k => ?_) hnd 0 [] (by simp), List.nil_append]
    obtain ⟨d, hd, rfl, _⟩ := ho v hv
    exact (hf d.name d hd rfl hv).1 _
  · obtain ⟨d, hd, rfl, h⟩ := ho v hv
    exact ⟨d, hd, rfl, h.kind, h.values_ne, hF d hd hv⟩

/-- **C52** Without fixed decisions, each returned decision is the first that maximises the *sum of the
expected utilities over all combinations of the other decisions*. -/
theorem C52_average (so : SetOrder) (sps : Nat → SetPerm)
    (hc : DNConsistent dn) (hnn : dn.chance.NonNeg) (ha : dn.chance.Acyclic) (hnd : order.Nodup)
    (ho : FreeOrder dn order)
    (hs : ∀ n ∈ dn.chance, n.name ∈ order ∨ n.Normalised dn.chance.card) :
    ∃ f : Name → Val,
      Decision.getOptimalDecisions so sps dn order none =
        (dn.mix [] order, .ok (order.map fun v => (v, some (f v)))) ∧
      ∀ d ∈ dn, d.name ∈ order →
        FirstMax (fun y => sumOver dn.chance.card (order.toFinset.erase d.name)
          (fun σ => utilityMass (dn.decide (dn.strategy order σ)))
          (Function.update (fun _ => 0) d.name (d.values.idxOf y))) d.values (f d.name) := by
  obtain ⟨f, f1, f2⟩ := C52_local_optimum so sps [] hc hnn ha hnd ho (by simp [Dict.get?]) hs
  refine ⟨f, f1, fun d hd hv => ?_⟩
  obtain ⟨d', hd', e, hf⟩ := ho _ hv
  obtain rfl : d' = d := List.inj_on_of_nodup_map hc.nodup hd' hd e
  have hk : d'.kind ≠ .utility := by rw [hf.kind]; decide
  have hlab : dn.chance.lab d'.name = d'.values :=
    BN.lab_eq hc.chance.nodup (mem_chance.2 ⟨hd, hk⟩)
  have hset : (order.filter (· ≠ d'.name)).toFinset = order.toFinset.erase d'.name := by
    ext u; simp [and_comm]
  have hpos : (0 : ℚ) < ∏ v ∈ order.toFinset.erase d'.name, (dn.chance.card v : ℚ) := by
    refine prod_pos fun u hu => ?_
    obtain ⟨n, hn, rfl, hn'⟩ := ho u (by simpa using (mem_erase.1 hu).2)
    rw [BN.card, BN.lab_eq hc.chance.nodup (mem_chance.2 ⟨hn, by rw [hn'.kind]; decide⟩)]
    exact_mod_cast List.length_pos_of_ne_nil hn'.values_ne
  have key : ∀ y ∈ d'.values, utilityMass ((dn.mix [] order).decide [(d'.name, y)]) =
      sumOver dn.chance.card (order.toFinset.erase d'.name)
          (fun σ => utilityMass (dn.decide (dn.strategy order σ)))
          (Function.update (fun _ => 0) d'.name (d'.values.idxOf y)) /
        ∏ v ∈ order.toFinset.erase d'.name, (dn.chance.card v : ℚ) := by
    intro y hy
    have hlt := List.idxOf_lt_length_of_mem hy
    rw [mix_decide, utilityMass_mix (decide_dnConsistent hc _) (FreeOrder.decide (fun u hu =>
      ho u (List.mem_of_mem_filter hu)) _) (hnd.filter _)
      (Function.update (fun _ => 0) d'.name (d'.values.idxOf y)), decide_card, hset]
    congr 1
    refine sumOver_congr fun τ hτ => ?_
    rw [strategy_congr (decide_lab dn _), decide_strategy dn hv]
    rw [hτ.1 _ (by simp), Function.update_self, hlab]
    simp [hlt]
  obtain ⟨pre, post, e1, e2, e3⟩ := f2 _ hd hv
  refine ⟨pre, post, e1, fun w hw => ?_, fun w hw => ?_⟩
  · have := e2 w hw
    simp only at this
    rw [key w (by rw [e1]; simp [hw]), key _ (by rw [e1]; simp)] at this
    exact (div_lt_div_iff_of_pos_right hpos).1 this
  · have := e3 w hw
    simp only at this
    rw [key w (by rw [e1]; simp [hw]), key _ (by rw [e1]; simp)] at this
    exact (div_le_div_iff_of_pos_right hpos).1 this

/-- expected utility of the decisions with numbers `σ` -/
local notation "EU" => fun (dn : BN) (order : List Name) (σ : Assign) =>
  utilityMass (BN.decide dn (BN.strategy dn order σ))

/-- **C52** The returned decisions maximise `expected_utility` over all combinations of decisions
provided each decision node has a decision that is best whatever the other nodes decide.  Missing for
the full statement: decisions that interact, for which it is false (`C52_refuted`); decisions with
information, for which the code raises (`C52_information_error`). -/
theorem C52_dominant_partial (so so' : SetOrder) (sps : Nat → SetPerm) (sp sp' : SetPerm)
    (hc : DNConsistent dn) (hnn : dn.chance.NonNeg) (ha : dn.chance.Acyclic) (hnd : order.Nodup)
    (ho : FreeOrder dn order) (hne : dn ≠ [])
    (hs : ∀ n ∈ dn.chance, n.name ∈ order ∨ n.Normalised dn.chance.card)
    (hdom : ∀ d ∈ dn, d.name ∈ order → ∃ j < d.values.length, ∀ σ, Legal dn.chance.card order σ →
      utilityMass (dn.decide (dn.strategy order σ)) ≤
        utilityMass (dn.decide (dn.strategy order (Function.update σ d.name j)))) :
    ∃ (f : Name → Val) (best : ℚ),
      (Decision.getOptimalDecisions so sps dn order none).2 =
        .ok (order.map fun v => (v, some (f v))) ∧
      LegalDecisions dn (order.map fun v => (v, f v)) ∧
      (Decision.expectedUtility so' sp dn (some (order.map fun v => (v, f v)))).2 =
        .ok (NDArray.scalar best) ∧
      ∀ D, LegalDecisions dn D → D.keys.Perm order → ∃ e : ℚ,
        (Decision.expectedUtility so' sp' dn (some D)).2 = .ok (NDArray.scalar e) ∧ e ≤ best := by
  obtain ⟨f, f1, f2⟩ := C52_average so sps hc hnn ha hnd ho hs
  have hnode : ∀ v ∈ order, ∃ d ∈ dn, d.name = v ∧ d.FreeDecision ∧ dn.chance.lab v = d.values ∧
      dn.chance.card v = d.values.length := by
    intro v hv
    obtain ⟨d, hd, rfl, hf⟩ := ho v hv
    have hl := BN.lab_eq hc.chance.nodup (mem_chance.2 ⟨hd, by rw [hf.kind]; decide⟩)
    exact ⟨d, hd, rfl, hf, hl, by rw [BN.card, hl]⟩
  have hDf : LegalDecisions dn (order.map fun v => (v, f v)) := by
    refine ⟨?_, fun p hp => ?_⟩
    · simpa [Dict.keys, Function.comp_def] using hnd
    · obtain ⟨v, hv, rfl⟩ := List.mem_map.1 hp
      obtain ⟨d, hd, rfl, hf⟩ := ho v hv
      exact ⟨d, hd, rfl, hf.kind, (f2 d hd hv).mem⟩
  have hkf : Dict.keys (order.map fun v => (v, f v)) = order := by
    simp [Dict.keys, Function.comp_def]
  -- improving one decision
  have step : ∀ v ∈ order, ∀ σ, Legal dn.chance.card order σ →
      EU dn order σ ≤ EU dn order (Function.update σ v ((dn.chance.lab v).idxOf (f v))) := by
    intro v hv σ hσ
    obtain ⟨d, hd, rfl, hf, hlab, hcard⟩ := hnode v hv
    obtain ⟨j, hj, hjd⟩ := hdom d hd hv
    have hz := f2 d hd hv
    have hle := hz.le (w := d.values[j]) (List.getElem_mem _)
    rw [hf.values_nodup.idxOf_getElem j hj] at hle
    rw [hlab]
    set z := d.values.idxOf (f d.name) with hzdef
    have hzl : z < d.values.length := List.idxOf_lt_length_of_mem hz.mem
    -- both sums over the same assignments
    have hshift : ∀ i, sumOver dn.chance.card (order.toFinset.erase d.name) (EU dn order)
        (Function.update (fun _ => 0) d.name i) =
        sumOver dn.chance.card (order.toFinset.erase d.name)
          (fun τ => EU dn order (Function.update τ d.name i)) σ := by
      intro i
      have hdep : DependsOn (order.toFinset.erase d.name)
          (fun τ => EU dn order (Function.update τ d.name i)) := by
        intro τ τ' h
        have : dn.strategy order (Function.update τ d.name i) =
            dn.strategy order (Function.update τ' d.name i) := by
          unfold BN.strategy
          refine List.map_congr_left fun u hu => ?_
          by_cases hud : u = d.name
          · subst hud; simp
          · simp [hud, h u (by simp [hu, hud])]
        simp only [this]
      have h2 : sumOver dn.chance.card (order.toFinset.erase d.name) (EU dn order)
          (Function.update (fun _ => 0) d.name i) =
          sumOver dn.chance.card (order.toFinset.erase d.name)
            (fun τ => EU dn order (Function.update τ d.name i))
            (Function.update (fun _ => 0) d.name i) := by
        refine sumOver_congr fun τ hτ => ?_
        have : τ d.name = i := by rw [hτ.1 _ (by simp), Function.update_self]
        rw [← this, Function.update_eq_self]
      rw [h2]
      refine DependsOn.sumOver (card := dn.chance.card) (s := order.toFinset.erase d.name) hdep _ _ ?_
      simp
    rw [hshift, hshift] at hle
    have hnonneg : ∀ τ, Varies dn.chance.card (order.toFinset.erase d.name) σ τ →
        0 ≤ EU dn order (Function.update τ d.name j) + (-1) * EU dn order (Function.update τ d.name z) := by
      intro τ hτ
      have hl : Legal dn.chance.card order (Function.update τ d.name z) := by
        intro u hu
        by_cases hud : u = d.name
        · subst hud; rw [Function.update_self, hcard]; exact hzl
        · rw [Function.update_of_ne hud]
          exact hτ.2 u (by simp [hu, hud])
      have := hjd _ hl
      rw [Function.update_idem] at this
      simp only
      linarith
    have hsum : sumOver dn.chance.card (order.toFinset.erase d.name)
        (fun τ => EU dn order (Function.update τ d.name j) +
          (-1) * EU dn order (Function.update τ d.name z)) σ = 0 := by
      refine le_antisymm ?_ (sumOver_nonneg hnonneg)
      rw [sumOver_add, sumOver_const_mul]
      linarith
    have h0 := eq_zero_of_sumOver_eq_zero hnonneg hsum (τ := σ)
      ⟨fun _ _ => rfl, fun u hu => hσ u (by simpa using (mem_erase.1 hu).2)⟩
    have := hjd σ hσ
    simp only at h0 ⊢
    linarith
  -- improving all decisions
  have all : ∀ l : List Name, (∀ v ∈ l, v ∈ order) → ∀ σ, Legal dn.chance.card order σ →
      EU dn order σ ≤ EU dn order (fun v => if v ∈ l then (dn.chance.lab v).idxOf (f v) else σ v) := by
    intro l
    induction l with
    | nil => intro _ σ _; simp
    | cons u l ih =>
      intro hl σ hσ
      refine (ih (fun v hv => hl v (by simp [hv])) σ hσ).trans ((step u (hl u (by simp)) _ ?_).trans
        (le_of_eq ?_))
      · intro v hv
        show (if v ∈ l then _ else _) < _
        split
        · obtain ⟨d, hd, rfl, hf, hlab, hcard⟩ := hnode v hv
          rw [hcard, hlab]
          exact List.idxOf_lt_length_of_mem (f2 d hd hv).mem
        · exact hσ v hv
      · simp only
        congr 3
        funext v
        by_cases hv : v = u
        · subst hv; simp
        · rw [Function.update_of_ne hv]; simp [hv]
  have hcov : ∀ D, LegalDecisions dn D → D.keys.Perm order →
      ∀ n ∈ dn.chance, n.name ∈ D.keys ∨ n.Normalised dn.chance.card := by
    intro D _ hk n hn
    rcases hs n hn with h | h
    · exact Or.inl (hk.mem_iff.2 h)
    · exact Or.inr h
  refine ⟨f, utilityMass (dn.decide (order.map fun v => (v, f v))), by rw [f1], hDf, ?_, ?_⟩
  · rw [C51_expected_utility_partial so' sp dn _ hc hnn hne ha hDf
      (hcov _ hDf (by rw [hkf]))]
  · intro D hD hk
    refine ⟨utilityMass (dn.decide D), ?_, ?_⟩
    · rw [C51_expected_utility_partial so' sp' dn _ hc hnn hne ha hD (hcov _ hD hk)]
    · obtain ⟨σ, s1, s2, _⟩ := decide_as_strategy hc hD hk
      obtain ⟨τ, _, t2, t3⟩ := decide_as_strategy hc hDf (by rw [hkf])
      rw [s2, t2]
      refine (all order (fun _ h => h) σ s1).trans (le_of_eq ?_)
      have : dn.strategy order (fun v => if v ∈ order then (dn.chance.lab v).idxOf (f v) else σ v) =
          dn.strategy order τ := by
        unfold BN.strategy
        refine List.map_congr_left fun v hv => ?_
        dsimp only
        rw [if_pos hv, t3 v (f v) (Dict.get?_of_mem (by rw [hkf]; exact hnd)
          (List.mem_map.2 ⟨v, hv, rfl⟩))]
      simp only [this]

/-- **C52** For a single decision the full statement holds. -/
theorem C52_single_partial (so so' : SetOrder) (sps : Nat → SetPerm) (sp sp' : SetPerm) {d : NodeV}
    (hc : DNConsistent dn) (hnn : dn.chance.NonNeg) (ha : dn.chance.Acyclic) (hd : d ∈ dn)
    (hf : d.FreeDecision)
    (hs : ∀ n ∈ dn.chance, n.name = d.name ∨ n.Normalised dn.chance.card) :
    ∃ (x : Val) (best : ℚ), x ∈ d.values ∧
      (Decision.getOptimalDecisions so sps dn [d.name] none).2 = .ok [(d.name, some x)] ∧
      (Decision.expectedUtility so' sp dn (some [(d.name, x)])).2 = .ok (NDArray.scalar best) ∧
      ∀ y ∈ d.values, ∃ e : ℚ,
        (Decision.expectedUtility so' sp' dn (some [(d.name, y)])).2 = .ok (NDArray.scalar e) ∧
          e ≤ best := by
  have ho : FreeOrder dn [d.name] := fun v hv => by
    rw [List.mem_singleton.1 hv]; exact ⟨d, hd, rfl, hf⟩
  have hne : dn ≠ [] := List.ne_nil_of_mem hd
  have hcard : dn.chance.card d.name = d.values.length := by
    rw [BN.card, BN.lab_eq hc.chance.nodup (mem_chance.2 ⟨hd, by rw [hf.kind]; decide⟩)]
  obtain ⟨f, best, h1, h2, h3, h4⟩ := C52_dominant_partial so so' sps sp sp' hc hnn ha
    (List.nodup_singleton d.name) ho hne (fun n hn => by simpa using hs n hn) (by
      intro d' hd' hv
      obtain rfl : d' = d := List.inj_on_of_nodup_map hc.nodup hd' hd (by simpa using hv)
      obtain ⟨j, hj, hmax⟩ := exists_max_image (range d'.values.length)
        (fun i => utilityMass (dn.decide (dn.strategy [d'.name] (Function.update (fun _ => 0) d'.name i))))
        ⟨0, mem_range.2 (List.length_pos_of_ne_nil hf.values_ne)⟩
      refine ⟨j, mem_range.1 hj, fun σ hσ => ?_⟩
      have h := hmax (σ d'.name) (mem_range.2 (by rw [← hcard]; exact hσ _ (by simp)))
      simpa [BN.strategy] using h)
  refine ⟨f d.name, best, ?_, h1, h3, fun y hy => h4 _ (legal_single hd hf hy) (by simp)⟩
  obtain ⟨n, hn, a, _, b⟩ := h2.legal (d.name, f d.name) (by simp)
  obtain rfl : n = d := List.inj_on_of_nodup_map hc.nodup hn hd a
  exact b

/-- **C52** If the expected utility is a sum of terms that depend on one decision each, the returned
decisions are optimal. -/
theorem C52_separable_partial (so so' : SetOrder) (sps : Nat → SetPerm) (sp sp' : SetPerm)
    (hc : DNConsistent dn) (hnn : dn.chance.NonNeg) (ha : dn.chance.Acyclic) (hnd : order.Nodup)
    (ho : FreeOrder dn order) (hne : dn ≠ [])
    (hs : ∀ n ∈ dn.chance, n.name ∈ order ∨ n.Normalised dn.chance.card)
    (h : Name → Nat → ℚ)
    (hsep : ∀ σ, Legal dn.chance.card order σ →
      utilityMass (dn.decide (dn.strategy order σ)) = ∑ v ∈ order.toFinset, h v (σ v)) :
    ∃ (f : Name → Val) (best : ℚ),
      (Decision.getOptimalDecisions so sps dn order none).2 =
        .ok (order.map fun v => (v, some (f v))) ∧
      LegalDecisions dn (order.map fun v => (v, f v)) ∧
      (Decision.expectedUtility so' sp dn (some (order.map fun v => (v, f v)))).2 =
        .ok (NDArray.scalar best) ∧
      ∀ D, LegalDecisions dn D → D.keys.Perm order → ∃ e : ℚ,
        (Decision.expectedUtility so' sp' dn (some D)).2 = .ok (NDArray.scalar e) ∧ e ≤ best := by
  refine C52_dominant_partial so so' sps sp sp' hc hnn ha hnd ho hne hs fun d hd hv => ?_
  obtain ⟨d', hd', e, hf⟩ := ho _ hv
  obtain rfl : d' = d := List.inj_on_of_nodup_map hc.nodup hd' hd e
  have hcard : dn.chance.card d'.name = d'.values.length := by
    rw [BN.card, BN.lab_eq hc.chance.nodup (mem_chance.2 ⟨hd, by rw [hf.kind]; decide⟩)]
  obtain ⟨j, hj, hmax⟩ := exists_max_image (range d'.values.length) (h d'.name)
    ⟨0, mem_range.2 (List.length_pos_of_ne_nil hf.values_ne)⟩
  have hj := mem_range.1 hj
  refine ⟨j, hj, fun σ hσ => ?_⟩
  rw [hsep σ hσ, hsep _ fun u hu => ?_]
  · refine sum_le_sum fun u hu => ?_
    by_cases hud : u = d'.name
    · subst hud
      rw [Function.update_self]
      exact hmax _ (mem_range.2 (by rw [← hcard]; exact hσ _ hv))
    · rw [Function.update_of_ne hud]
  · by_cases hud : u = d'.name
    · subst hud; rw [Function.update_self, hcard]; exact hj
    · rw [Function.update_of_ne hud]; exact hσ u hu

/-- **C52** A decision that is taken with information — a parent with at least two outcomes — makes
`get_optimal_decisions` raise `ValueError` (the truth value of an array), whatever the tables are. -/
theorem C52_information_error (so : SetOrder) (sps : Nat → SetPerm) (fixed : Dict Val) {d : NodeV}
    {vs : List Name}
    (hc : DNConsistent dn) (hnn : dn.chance.NonNeg) (ha : dn.chance.Acyclic)
    (ho : ∀ v ∈ d.name :: vs, ∃ d ∈ dn, d.name = v ∧ d.kind = .decision ∧ d.values ≠ [])
    (hF : ∀ n ∈ dn, n.name ∈ d.name :: vs → ∀ x, fixed.get? n.name = some x → x ∈ n.values)
    (hs : ∀ n ∈ dn.chance, n.name ∈ d.name :: vs ∨ n.Normalised dn.chance.card)
    (hpos : ∀ n ∈ dn.chance, n.values ≠ [])
    (hd : d ∈ dn) (hval : 2 ≤ d.values.length)
    (hkeys : ∀ p, p ∈ d.parents.keys ↔ p ∈ d.parentOrder)
    (hp : ∃ p ∈ d.parentOrder, 2 ≤ dn.chance.card p) :
    Decision.getOptimalDecisions so sps dn (d.name :: vs) (some fixed) =
      (dn.mix fixed (d.name :: vs), .error .valueError) := by
  obtain ⟨d', hd', e, hk, _⟩ := ho d.name (by simp)
  obtain rfl : d' = d := List.inj_on_of_nodup_map hc.nodup hd' hd e
  unfold Decision.getOptimalDecisions
  rw [Option.getD_some, prepare_ok hc fun v hv => ?_]
  · simp only
    have hdm : { d' with cpd := mixCpd fixed (d'.name :: vs) d' } ∈ dn.mix fixed (d'.name :: vs) := by
      rw [mix_eq]; exact mem_recpd.2 ⟨d', hd, rfl⟩
    have := optimizeLocally_information so (sps 0) (mix_dnConsistent hc fixed (d'.name :: vs))
      (mix_nonneg hnn fixed _) (mix_acyclic ha fixed _) (mix_normalised hc ho hF hs) hdm hk hval hkeys
      (fun m hm => by
        rw [mix_eq, recpd_chance] at hm
        obtain ⟨n, hn, rfl⟩ := mem_recpd.1 hm
        exact hpos n hn) (by rw [mix_card]; exact hp)
    rw [Decision.optimizeAll, this]
    rfl
  · obtain ⟨n, hn, rfl, h1, h2⟩ := ho v hv
    exact ⟨n, hn, rfl, h1, h2, hF n hn hv⟩

end C52

/-- what the code returns for the two agents: both take decision `y` -/
theorem game_optimal (so : SetOrder) (sps : Nat → SetPerm) (F : Dict Val)
    (hF : F = [] ∨ F = [("a", "x")]) : ∃ z : Val,
    (Decision.getOptimalDecisions so sps Ex.game ["a", "b"] (some F)).2 =
      .ok [("a", some "y"), ("b", some z)] ∧ (F = [] → z = "y") := by
  have hcov : ∀ n ∈ Ex.game.chance, n.name ∈ ["a", "b"] ∨ n.Normalised Ex.game.chance.card := by
    intro n hn
    have hn : n ∈ [Ex.gameA, Ex.gameB] := hn
    simp only [List.mem_cons, List.not_mem_nil, or_false] at hn
    rcases hn with rfl | rfl <;> exact Or.inl (by decide)
  have hnn : Ex.game.chance.NonNeg := by
    intro n hn
    have hn : n ∈ [Ex.gameA, Ex.gameB] := hn
    simp only [List.mem_cons, List.not_mem_nil, or_false] at hn
    rcases hn with rfl | rfl <;> decide +kernel
  obtain ⟨f, f1, f2⟩ := C52_local_optimum so sps F Ex.game_consistent hnn
    (Ex.acyclic_of_rank (fun _ => 0) (by decide)) (by decide) Ex.game_free (by
      intro d hd hv x hx
      simp only [Ex.game, List.mem_cons, List.not_mem_nil, or_false] at hd
      rcases hF with rfl | rfl
      · simp [Dict.get?] at hx
      · rcases hd with rfl | rfl | rfl
        · simp only [Dict.get?, Ex.gameA, if_true, Option.some.injEq] at hx
          subst hx; decide
        · simp [Dict.get?, Ex.gameB] at hx
        · simp [Dict.get?, Ex.gameU] at hx) hcov
  have ha := f2 Ex.gameA (by simp [Ex.game]) (by decide)
  have hb := f2 Ex.gameB (by simp [Ex.game]) (by decide)
  have ham : f "a" = "x" ∨ f "a" = "y" := by simpa [Ex.gameA] using ha.mem
  have hbm : f "b" = "x" ∨ f "b" = "y" := by simpa [Ex.gameB] using hb.mem
  have hal := ha.le (w := "y") (by decide)
  have hbl := hb.le (w := "y") (by decide)
  have e1 : Ex.gameA.name = "a" := rfl
  have e2 : Ex.gameB.name = "b" := rfl
  rw [e1] at hal
  rw [e2] at hbl
  have hA : f "a" = "y" := by
    rcases ham with h | h
    · exfalso
      rw [h] at hal
      revert hal
      rcases hF with rfl | rfl <;> decide +kernel
    · exact h
  refine ⟨f "b", by rw [f1, List.map_cons, hA]; rfl, ?_⟩
  rintro rfl
  rcases hbm with h | h
  · exfalso
    rw [h] at hbl
    revert hbl
    decide +kernel
  · exact h

/-- The full statement of C52 is false for two decisions that interact: the local optima are computed
against fully mixed rules and never installed. The code returns `a = y, b = y` with expected utility 2,
while `a = x, b = y` has expected utility 3. -/
theorem C52_refuted : ∃ (dn : BN) (order : List Name) (D D' : Dict Val), DNConsistent dn ∧
    FreeOrder dn order ∧ order.Nodup ∧ LegalDecisions dn D ∧ LegalDecisions dn D' ∧
    D.keys = order ∧ D'.keys = order ∧
    (∀ so sps, (Decision.getOptimalDecisions so sps dn order none).2 =
      .ok (D.map fun p => (p.1, some p.2))) ∧
    ∀ so sp, (Decision.expectedUtility so sp dn (some D)).2 = .ok (NDArray.scalar 2) ∧
      (Decision.expectedUtility so sp dn (some D')).2 = .ok (NDArray.scalar 3) := by
  have hnn : Ex.game.chance.NonNeg := by
    intro n hn
    have hn : n ∈ [Ex.gameA, Ex.gameB] := hn
    simp only [List.mem_cons, List.not_mem_nil, or_false] at hn
    rcases hn with rfl | rfl <;> decide +kernel
  have hleg : ∀ x ∈ ["x", "y"], ∀ y ∈ ["x", "y"], LegalDecisions Ex.game [("a", x), ("b", y)] := by
    intro x hx y hy
    refine ⟨by simp [Dict.keys], fun p hp => ?_⟩
    simp only [List.mem_cons, List.not_mem_nil, or_false] at hp
    rcases hp with rfl | rfl
    · exact ⟨Ex.gameA, by simp [Ex.game], rfl, rfl, hx⟩
    · exact ⟨Ex.gameB, by simp [Ex.game], rfl, rfl, hy⟩
  refine ⟨Ex.game, ["a", "b"], [("a", "y"), ("b", "y")], [("a", "x"), ("b", "y")],
    Ex.game_consistent, Ex.game_free, by decide, hleg _ (by decide) _ (by decide),
    hleg _ (by decide) _ (by decide), rfl, rfl, fun so sps => ?_, fun so sp => ?_⟩
  · obtain ⟨z, h1, h2⟩ := game_optimal so sps [] (Or.inl rfl)
    rw [h2 rfl] at h1
    exact h1
  · have m1 : mass (Ex.game.decide [("a", "y"), ("b", "y")]) = 1 := by decide +kernel
    have m2 : mass (Ex.game.decide [("a", "x"), ("b", "y")]) = 1 := by decide +kernel
    have v1 : utilityMass (Ex.game.decide [("a", "y"), ("b", "y")]) = 2 := by decide +kernel
    have v2 : utilityMass (Ex.game.decide [("a", "x"), ("b", "y")]) = 3 := by decide +kernel
    rw [C51_expected_utility so sp _ _ Ex.game_consistent hnn (by simp [Ex.game])
        (hleg _ (by decide) _ (by decide)),
      C51_expected_utility so sp _ _ Ex.game_consistent hnn (by simp [Ex.game])
        (hleg _ (by decide) _ (by decide)), m1, m2, v1, v2]
    simp

/-- A decision that is "fixed" is optimised all the same: the caller fixes `a = x` and gets `a = y`
back. -/
theorem C52_fixed_refuted : ∃ (dn : BN) (order : List Name) (v : Name) (x y : Val),
    DNConsistent dn ∧ FreeOrder dn order ∧ order.Nodup ∧ LegalDecisions dn [(v, x)] ∧ x ≠ y ∧
    ∀ so sps, ∃ sol, (Decision.getOptimalDecisions so sps dn order (some [(v, x)])).2 = .ok sol ∧
      sol.get? v = some (some y) := by
  refine ⟨Ex.game, ["a", "b"], "a", "x", "y", Ex.game_consistent, Ex.game_free, by decide,
    ⟨by decide, fun p hp => ?_⟩, by decide, fun so sps => ?_⟩
  · rw [List.mem_singleton.1 hp]
    exact ⟨Ex.gameA, by simp [Ex.game], rfl, rfl, by decide⟩
  · obtain ⟨z, h1, _⟩ := game_optimal so sps _ (Or.inr rfl)
    exact ⟨_, h1, rfl⟩

/-! ## Concrete instances of the hypotheses -/

section examples

/-- two joint factors over `p` and `p, q` -/
def Ex.jf1 : JointFactor :=
  (⟨⟨[2], [1 / 3, 2 / 3], rfl⟩, ["p"], [("p", ["t", "f"])]⟩,
    ⟨⟨[2], [0, 0], rfl⟩, ["p"], [("p", ["t", "f"])]⟩)
def Ex.jf2 : JointFactor :=
  (⟨⟨[2, 2], [1 / 2, 1 / 2, 1 / 4, 3 / 4], rfl⟩, ["p", "q"], [("p", ["t", "f"]), ("q", ["t", "f"])]⟩,
    ⟨⟨[2, 2], [1, 2, 3, -4], rfl⟩, ["p", "q"], [("p", ["t", "f"]), ("q", ["t", "f"])]⟩)

example : (Decision.generalizedVE .insertion .insertion [Ex.jf1, Ex.jf2] ["q"]).map
    (fun r => (r.1.potentials.data, r.2.potentials.data)) =
      .ok ([1 / 3, 2 / 3], [3 / 2, -9 / 4]) := by decide +kernel
example : (Decision.generalizedVE .insertion .insertion [Ex.jf1, Ex.jf2] ["p", "q"]).map
    (fun r => (r.1.potentials.data, r.2.potentials.data)) = .ok ([1], [-1]) := by decide +kernel
example : (Decision.generalizedVE .insertion .reversed [Ex.jf2, Ex.jf1] ["q", "p"]).map
    (fun r => (r.1.potentials.data, r.2.potentials.data)) = .ok ([1], [-1]) := by decide +kernel

example : ∃ r, Decision.expectedUtility .insertion .insertion Ex.dn (some Ex.decisions) = r ∧
    r.2 = .ok (NDArray.scalar (13 / 2)) := by
  have h := C51_expected_utility_partial .insertion .insertion Ex.dn Ex.decisions Ex.dn_consistent
    Ex.dn_nonneg (by simp [Ex.dn]) Ex.dn_acyclic Ex.decisions_legal Ex.dn_normalised
  have hv : utilityMass (Ex.dn.decide Ex.decisions) = 13 / 2 := by decide +kernel
  exact ⟨_, h, by rw [hv]⟩

/-- before any decision is taken all rules are 0 -/
example : (Decision.expectedUtility .insertion .insertion Ex.dn none).2 =
    .error .floatingPointError := by
  have hm : mass Ex.dn = 0 := by decide +kernel
  rw [C51_no_decisions _ _ _ Ex.dn_consistent Ex.dn_nonneg (by simp [Ex.dn]), if_pos hm]

example := C51_illegal_decisions .insertion .insertion Ex.dn [("train", "yes")] [] "gear" "nothing"
  Ex.dn_consistent (legal_single (d := Ex.dTrain) (by simp [Ex.dn])
    ⟨rfl, rfl, rfl, by decide, by decide⟩ (by decide))

example : (Decision.getOptimalDecisions .insertion (fun _ => .insertion) Ex.dn ["gear", "train"]
    none).2 = .ok [("gear", some "good"), ("train", some "yes")] := by decide +kernel

example := C52_local_optimum .insertion (fun _ => .reversed) [("gear", "none")] Ex.dn_consistent
  Ex.dn_nonneg Ex.dn_acyclic (by decide) Ex.dn_free (by
    intro d hd _ x hx
    by_cases h : "gear" = d.name
    · have : d = Ex.dGear := List.inj_on_of_nodup_map Ex.dn_consistent.nodup hd
        (by simp [Ex.dn]) h.symm
      subst this
      simp only [Dict.get?, Ex.dGear, if_true, Option.some.injEq] at hx
      subst hx; decide
    · simp [Dict.get?, h] at hx) Ex.dn_normalised

example := C52_average .insertion (fun _ => .reversed) Ex.dn_consistent Ex.dn_nonneg Ex.dn_acyclic
  (by decide) Ex.dn_free Ex.dn_normalised

/-- in the example training is the better decision and the good gear the best one, whatever the other
decision is, although the expected utility is not a sum of terms for the two decisions -/
theorem Ex.dn_dominant : ∀ d ∈ Ex.dn, d.name ∈ ["gear", "train"] → ∃ j < d.values.length,
    ∀ σ, Legal Ex.dn.chance.card ["gear", "train"] σ →
      utilityMass (Ex.dn.decide (Ex.dn.strategy ["gear", "train"] σ)) ≤
        utilityMass (Ex.dn.decide (Ex.dn.strategy ["gear", "train"] (Function.update σ d.name j))) := by
  have key : ∀ i < 3, ∀ k < 2,
      utilityMass (Ex.dn.decide [("gear", (["cheap", "good", "none"] : List Val).getD i ""),
        ("train", (["no", "yes"] : List Val).getD k "")]) ≤
      utilityMass (Ex.dn.decide [("gear", "good"), ("train", (["no", "yes"] : List Val).getD k "")]) ∧
      utilityMass (Ex.dn.decide [("gear", (["cheap", "good", "none"] : List Val).getD i ""),
        ("train", (["no", "yes"] : List Val).getD k "")]) ≤
      utilityMass (Ex.dn.decide [("gear", (["cheap", "good", "none"] : List Val).getD i ""),
        ("train", "yes")]) := by decide +kernel
  intro d hd hv
  simp only [Ex.dn, List.mem_cons, List.not_mem_nil, or_false] at hd
  rcases hd with rfl | rfl | rfl | rfl | rfl
  · exact absurd hv (by decide)
  · refine ⟨1, by decide, fun σ hσ => ?_⟩
    exact (key (σ "gear") (hσ "gear" (by simp)) (σ "train") (hσ "train" (by simp))).2
  · exact absurd hv (by decide)
  · exact absurd hv (by decide)
  · refine ⟨1, by decide, fun σ hσ => ?_⟩
    exact (key (σ "gear") (hσ "gear" (by simp)) (σ "train") (hσ "train" (by simp))).1

example := C52_dominant_partial .insertion .insertion (fun _ => .reversed) .insertion .reversed
  Ex.dn_consistent Ex.dn_nonneg Ex.dn_acyclic (by decide) Ex.dn_free (by simp [Ex.dn])
  Ex.dn_normalised Ex.dn_dominant

theorem Ex.two_chance {n : NodeV} (hn : n ∈ [Ex.gameA, Ex.gameB]) :
    n.name ∈ ["a", "b"] ∧ ∀ x ∈ n.cpd.data, 0 ≤ x := by
  simp only [List.mem_cons, List.not_mem_nil, or_false] at hn
  rcases hn with rfl | rfl <;> decide +kernel

/-- one decision of the game; the other node gets a rule beforehand -/
example := C52_single_partial .insertion .insertion (fun _ => .reversed) .insertion .reversed
  (dn := Ex.game.decide [("b", "x")]) (d := Ex.gameA)
  (decide_dnConsistent Ex.game_consistent _)
  (decide_nonneg (fun n hn => (Ex.two_chance hn).2) _)
  (decide_acyclic (Ex.acyclic_of_rank (fun _ => 0) (by decide)) _)
  (List.mem_map.2 ⟨Ex.gameA, by simp [Ex.game], by simp [Dict.get?, Ex.gameA]⟩)
  ⟨rfl, rfl, rfl, by decide, by decide⟩ (by
    intro n hn
    have hn : n ∈ [Ex.gameA, { Ex.gameB with cpd := Ex.gameB.pureRule "x" }] := hn
    simp only [List.mem_cons, List.not_mem_nil, or_false] at hn
    rcases hn with rfl | rfl
    · exact Or.inl rfl
    · right
      intro σ _
      show ∑ i ∈ range 2, (Ex.gameB.pureRule "x").get [i] = 1
      decide +kernel)

/-- two decisions with a utility node each -/
def Ex.sepU1 : NodeV :=
  ⟨"u", .utility, [], ["a"], [("a", ["x", "y"])], [], ⟨[2], [1, 5], rfl⟩, false⟩
def Ex.sepU2 : NodeV :=
  ⟨"w", .utility, [], ["b"], [("b", ["x", "y"])], [], ⟨[2], [-1, -3], rfl⟩, false⟩
def Ex.sep : BN := [Ex.sepU1, Ex.gameB, Ex.gameA, Ex.sepU2]

theorem Ex.sep_consistent : DNConsistent Ex.sep := by
  constructor
  · decide
  · constructor <;> decide
  · decide
  · decide
  · decide
  · decide

example := C52_separable_partial .insertion .insertion (fun _ => .reversed) .insertion .reversed
  (dn := Ex.sep) (order := ["a", "b"]) Ex.sep_consistent
  (fun n hn => (Ex.two_chance (by
    have hn : n ∈ [Ex.gameB, Ex.gameA] := hn
    simpa [or_comm] using hn)).2)
  (Ex.acyclic_of_rank (fun _ => 0) (by decide)) (by decide) (by
    intro v hv
    simp only [List.mem_cons, List.not_mem_nil, or_false] at hv
    rcases hv with rfl | rfl
    · exact ⟨Ex.gameA, by simp [Ex.sep], rfl, rfl, rfl, rfl, by decide, by decide⟩
    · exact ⟨Ex.gameB, by simp [Ex.sep], rfl, rfl, rfl, rfl, by decide, by decide⟩)
  (by simp [Ex.sep])
  (fun n hn => Or.inl (Ex.two_chance (by
    have hn : n ∈ [Ex.gameB, Ex.gameA] := hn
    simpa [or_comm] using hn)).1)
  (fun v i => if v = "a" then [1, 5].getD i 0 else [-1, -3].getD i 0) (by
    have key : ∀ i < 2, ∀ k < 2,
        utilityMass (Ex.sep.decide [("a", (["x", "y"] : List Val).getD i ""),
          ("b", (["x", "y"] : List Val).getD k "")]) =
        ([1, 5] : List ℚ).getD i 0 + ([-1, -3] : List ℚ).getD k 0 := by decide +kernel
    intro σ hσ
    refine (key _ (hσ "a" (by simp)) _ (hσ "b" (by simp))).trans ?_
    simp)

/-- a decision which is taken knowing the outcome of `c` -/
example : ∀ so sps, Decision.getOptimalDecisions so sps Ex.obs ["d"] (some []) =
    (Ex.obs.mix [] ["d"], .error .valueError) := fun so sps =>
  C52_information_error so sps [] (d := Ex.obsD) (vs := []) Ex.obs_consistent
    (by
      intro n hn
      have hn : n ∈ [Ex.obsC, Ex.obsD] := hn
      simp only [List.mem_cons, List.not_mem_nil, or_false] at hn
      rcases hn with rfl | rfl <;> decide +kernel)
    (Ex.acyclic_of_rank (fun v => if v = "c" then 0 else 1) (by decide))
    (by
      intro v hv
      rw [List.mem_singleton.1 hv]
      exact ⟨Ex.obsD, by simp [Ex.obs], rfl, rfl, by decide⟩)
    (by simp [Dict.get?])
    (by
      intro n hn
      have hn : n ∈ [Ex.obsC, Ex.obsD] := hn
      simp only [List.mem_cons, List.not_mem_nil, or_false] at hn
      rcases hn with rfl | rfl
      · right
        intro σ _
        show ∑ i ∈ range 2, Ex.obsC.cpd.get [i] = 1
        decide +kernel
      · exact Or.inl (by decide))
    (by decide) (by simp [Ex.obs]) (by decide) (fun p => by simp [Ex.obsD, Dict.keys]) ⟨"c", by decide, by decide⟩

end examples

end Primo
