import Verif.Lemmas.RoundedDecision
import Verif.Lemmas.Strategy

/-! # Decision networks with rounded arithmetic -/

namespace Primo
open Finset

variable {u : ℚ} {A : Arith} {dn : BN}

/-! ## absolute utilities -/

/-- utilities replaced by their absolute values -/
def absCpd (n : NodeV) : NDArray := if n.kind = .utility then n.cpd.map fun x => |x| else n.cpd

theorem absCpd_shape (n : NodeV) : (absCpd n).shape = n.cpd.shape := by
  unfold absCpd; split <;> rfl

theorem getD_map_abs (l : List ℚ) (i : Nat) : (l.map fun x => |x|).getD i 0 = |l.getD i 0| := by
  simp only [List.getD_eq_getElem?_getD, List.getElem?_map]
  cases l[i]? <;> simp

theorem get_map_abs (a : NDArray) (idx : List Nat) : (a.map fun x => |x|).get idx = |a.get idx| :=
  getD_map_abs _ _

theorem abs_chance (dn : BN) : (dn.recpd absCpd).chance = dn.chance := by
  rw [recpd_chance]
  unfold BN.recpd
  rw [List.map_congr_left (g := id) fun n hn => ?_, List.map_id]
  rw [absCpd, if_neg (mem_chance.1 hn).2]; rfl

theorem abs_utility (dn : BN) (σ : Assign) : totalUtility (dn.recpd absCpd) σ = absUtility dn σ := by
  unfold totalUtility absUtility
  rw [recpd_utils]
  unfold BN.recpd
  rw [List.map_map]
  congr 1
  refine List.map_congr_left fun n hn => ?_
  simp only [Function.comp_apply, NodeV.utility, absCpd, (mem_utils.1 hn).2, if_true]
  exact get_map_abs _ _

theorem abs_mass (dn : BN) : mass (dn.recpd absCpd) = mass dn := by
  unfold mass; rw [abs_chance]

theorem abs_utilityMass (dn : BN) : utilityMass (dn.recpd absCpd) = absUtilityMass dn := by
  unfold utilityMass absUtilityMass
  rw [abs_chance]
  simp only [abs_utility]

theorem abs_decide (dn : BN) {D : Dict Val} (h : ∀ n ∈ dn, n.kind = .utility → n.name ∉ D.keys) :
    (dn.recpd absCpd).decide D = (dn.decide D).recpd absCpd := by
  rw [decide_eq, decide_eq, recpd_recpd, recpd_recpd]
  refine recpd_congr fun n hn => ?_
  rw [decideCpd_congr (absCpd_shape n)]
  by_cases hk : n.kind = .utility
  · rw [if_neg (h n hn hk)]
    have : decideCpd D n = n.cpd := by
      unfold decideCpd; rw [Dict.get?_eq_none.2 (h n hn hk)]
    rw [this]
  · rw [absCpd, absCpd, if_neg hk, if_neg hk]
    split
    · rfl
    · rename_i hm
      show n.cpd = decideCpd D n
      unfold decideCpd; rw [Dict.get?_eq_none.2 hm]

/-! ## the factors -/

theorem NDArray.r3_refl {R : Entry} (h0 : R 0 0 0) {a : NDArray} (h : ∀ x ∈ a.data, R x x x) :
    NDArray.R3 R a a a := by
  refine ⟨rfl, rfl, fun i => ?_⟩
  rw [List.getD_eq_getElem?_getD]
  cases e : a.data[i]? with
  | none => exact h0
  | some x => exact h x (List.mem_of_getElem? e)

theorem r3_constFactor {R : Entry} (h0 : R 0 0 0) {c : ℚ} (hc : R c c c) (vo : List Name)
    (vals : Dict (List Val)) :
    Rel3 (Factor.R3 R) (Factor.constFactor c vo vals) (Factor.constFactor c vo vals)
      (Factor.constFactor c vo vals) := by
  unfold Factor.constFactor
  exact Rel3.bind_same fun r _ => Rel3.pure ⟨rfl, rfl, rfl, rfl, NDArray.r3_tabulate h0 _ fun _ => hc⟩

/-- rounded tables: those of chance and decision nodes are rounded at most once, those of utility nodes
are the same -/
def OnceRounded (u : ℚ) (dn : BN) (c : NodeV → NDArray) : Prop :=
  ∀ n ∈ dn, (n.kind ≠ .utility → NDArray.R3 (NearT u 1) (c n) n.cpd n.cpd) ∧
    (n.kind = .utility → c n = n.cpd)

theorem joint_rounded (hA : A.Accurate u) (hc : DNConsistent dn) (hnn : dn.chance.NonNeg)
    {c : NodeV → NDArray} (hr : OnceRounded u dn c) {n : NodeV} (hn : n ∈ dn) :
    ∃ q : Quad, Factor.joint { n with cpd := c n } = .ok q.r ∧ Factor.joint n = .ok q.e ∧
      Factor.joint { n with cpd := absCpd n } = .ok q.b ∧ q.k = 1 ∧ q.Ok dn.chance.lab u 0 := by
  obtain ⟨e, e1, e2, -⟩ := joint_over hc hnn hn
  have one : NearT u 1 1 1 1 :=
    ⟨(Near.rfl' zero_le_one).mono hA.nonneg hA.lt_one (by omega), rfl⟩
  have h : Rel3 (fun r e b => Factor.PT u 1 r.1 e.1 b.1 ∧ Factor.UT u 0 r.2 e.2 b.2)
      (Factor.joint { n with cpd := c n }) (Factor.joint n) (Factor.joint { n with cpd := absCpd n }) := by
    unfold Factor.joint
    by_cases hk : n.kind = .utility
    · rw [if_pos hk, if_pos hk, if_pos hk]
      have hu : Rel3 (Factor.UT u 0) (Factor.fromUtilityNode { n with cpd := c n }) (Factor.fromUtilityNode n)
          (Factor.fromUtilityNode { n with cpd := absCpd n }) := by
        unfold Factor.fromUtilityNode Factor.parentValues
        simp only [hk, ne_eq, not_true_eq_false, if_false]
        refine Rel3.bind_same fun vals _ => Rel3.pure ⟨rfl, rfl, rfl, rfl, ?_⟩
        rw [(hr n hn).2 hk, absCpd, if_pos hk]
        exact ⟨rfl, rfl, fun i => by
          rw [show (n.cpd.map fun x => |x|).data = n.cpd.data.map fun x => |x| from rfl, getD_map_abs]
          exact Off.exact _ _⟩
      refine hu.bind fun ur ue ub h => ?_
      rw [h.order, h.order', h.values, h.values']
      exact (r3_constFactor (NearT.zero u 1) one _ _).bind fun _ _ _ h' => Rel3.pure ⟨h', h⟩
    · rw [if_neg hk, if_neg hk, if_neg hk]
      have hu : Rel3 (Factor.PT u 1) (Factor.fromNode { n with cpd := c n }) (Factor.fromNode n)
          (Factor.fromNode { n with cpd := absCpd n }) := by
        unfold Factor.fromNode Factor.parentValues
        simp only [hk, if_false]
        refine Rel3.bind_same fun vals _ => Rel3.pure ⟨rfl, rfl, rfl, rfl, ?_⟩
        rw [absCpd, if_neg hk]
        exact (hr n hn).1 hk
      refine hu.bind fun ur ue ub h => ?_
      rw [h.order, h.order', h.values, h.values']
      exact (r3_constFactor (Off.zero u 0) (Off.zero u 0) _ _).bind fun _ _ _ h' => Rel3.pure ⟨h, h'⟩
  obtain ⟨r, b, h1, h2, h3, h4⟩ := h.ok_mid e1
  exact ⟨⟨1, r, e, b⟩, h1, e1, h2, rfl, e2, h3, h4⟩

theorem factors_rounded (hA : A.Accurate u) (hc : DNConsistent dn) (hnn : dn.chance.NonNeg)
    {c : NodeV → NDArray} (hr : OnceRounded u dn c) :
    ∃ qs : List Quad, Decision.factors (dn.recpd c) = .ok (qs.map Quad.r) ∧
      Decision.factors dn = .ok (qs.map Quad.e) ∧
      Decision.factors (dn.recpd absCpd) = .ok (qs.map Quad.b) ∧
      (∀ q ∈ qs, q.Ok dn.chance.lab u 0) ∧ (qs.map Quad.k).sum = dn.length ∧ qs.length = dn.length := by
  suffices H : ∀ l : BN, (∀ n ∈ l, n ∈ dn) → ∃ qs : List Quad,
      Decision.factors (l.recpd c) = .ok (qs.map Quad.r) ∧ Decision.factors l = .ok (qs.map Quad.e) ∧
      Decision.factors (l.recpd absCpd) = .ok (qs.map Quad.b) ∧
      (∀ q ∈ qs, q.Ok dn.chance.lab u 0) ∧ (qs.map Quad.k).sum = l.length ∧ qs.length = l.length from
    H dn fun _ h => h
  intro l hl
  induction l with
  | nil => exact ⟨[], rfl, rfl, rfl, by simp, rfl, rfl⟩
  | cons n l ih =>
    obtain ⟨q, q1, q2, q3, q4, q5⟩ := joint_rounded hA hc hnn hr (hl n (by simp))
    obtain ⟨qs, h1, h2, h3, h4, h5, h6⟩ := ih fun m hm => hl m (by simp [hm])
    unfold Decision.factors BN.recpd at *
    refine ⟨q :: qs, ?_, ?_, ?_, ?_, ?_, ?_⟩
    · rw [List.map_cons, List.mapM_cons, q1, ok_bind, h1]; rfl
    · rw [List.mapM_cons, q2, ok_bind, h2]; rfl
    · rw [List.map_cons, List.mapM_cons, q3, ok_bind, h3]; rfl
    · intro p hp
      rcases List.mem_cons.1 hp with rfl | hp
      · exact q5
      · exact h4 p hp
    · rw [List.map_cons, List.sum_cons, q4, h5, List.length_cons, Nat.add_comm]
    · rw [List.length_cons, h6, List.length_cons]

theorem adds_chance (hc : DNConsistent dn) : adds dn.chance.lab dn.chance.names = dn.chanceAdditions := by
  unfold adds BN.chanceAdditions BN.names
  rw [List.map_map]
  congr 1
  refine List.map_congr_left fun n hn => ?_
  rw [Function.comp_apply, BN.lab_eq hc.chance.nodup hn]

/-! ## expected utilities -/

theorem eq_scalar_of_shape {a : NDArray} (h : a.shape = []) : a = NDArray.scalar (a.data.getD 0 0) := by
  obtain ⟨s, d, hs⟩ := a
  obtain rfl : s = [] := h
  have hl : d.length = 1 := by simpa using hs
  obtain ⟨x, rfl⟩ := List.length_eq_one_iff.1 hl
  rfl

theorem evaluateR_spec (hA : A.Accurate u) (so : SetOrder) (sp : SetPerm) (hc : DNConsistent dn)
    (hnn : dn.chance.NonNeg) (hne : dn ≠ []) {c : NodeV → NDArray} (hr : OnceRounded u dn c) :
    (mass dn = 0 ∧ Decision.evaluateR A so sp (dn.recpd c) = .error .floatingPointError) ∨
    mass dn ≠ 0 ∧ ∃ x, Decision.evaluateR A so sp (dn.recpd c) = .ok (NDArray.scalar x) ∧
      Off u dn.utilityRoundings x (utilityMass dn / mass dn) (absUtilityMass dn / mass dn) := by
  obtain ⟨qs, h1, h2, h3, h4, h5, h6⟩ := factors_rounded hA hc hnn hr
  have hqs : qs ≠ [] := fun e => hne (List.length_eq_zero_iff.1 (by rw [← h6, e]; rfl))
  obtain ⟨fs, g1, g2⟩ := factors_over hc hnn dn fun _ h => h
  obtain rfl : fs = qs.map Quad.e := Except.ok.inj (g1.symm.trans h2)
  have hin : ∀ v ∈ dn.chance.names, InScope (qs.map Quad.e) v := by
    intro v hv
    rw [forall2_inScope g2]
    obtain ⟨n, hn, rfl⟩ := List.mem_map.1 hv
    obtain ⟨a, b⟩ := mem_chance.1 hn
    exact ⟨n, a, by simp [NodeV.scope, b]⟩
  have hcn : ∀ c : NodeV → NDArray, Decision.chanceNames (dn.recpd c) = dn.chance.names := fun c => by
    show (dn.recpd c).chance.names = _
    rw [recpd_chance, recpd_names]
  obtain ⟨sp₁, h⟩ := generalizedVER_spec hA so sp hc.chance.nodup hqs h4 hin
  have ev := evaluate_spec so sp₁ hc hnn hne
  have hne' : dn.recpd absCpd ≠ [] := by
    unfold BN.recpd; rw [ne_eq, List.map_eq_nil_iff]; exact hne
  unfold Decision.evaluate at ev
  rw [h2, ok_bind, show Decision.chanceNames dn = dn.chance.names from rfl] at ev
  unfold Decision.evaluateR
  rw [h1, ok_bind, hcn]
  rcases h with ⟨e1, e2⟩ | ⟨sp₂, q, e1, e2, e3, e4⟩
  · rw [e2] at ev
    have hm : mass dn = 0 := by
      by_contra hm
      rw [if_neg hm] at ev
      exact absurd ev (by simp [bind, Except.bind])
    exact Or.inl ⟨hm, by rw [e1]; rfl⟩
  · have hm : mass dn ≠ 0 := by
      intro hm
      rw [if_pos hm, e2, ok_bind] at ev
      exact absurd ev (by simp [pure, Except.pure])
    refine Or.inr ⟨hm, ?_⟩
    rw [if_neg hm, e2, ok_bind] at ev
    have ev2 := evaluate_spec so sp₂ (recpd_dnConsistent hc fun n _ => absCpd_shape n)
      (by rw [abs_chance]; exact hnn) hne'
    rw [abs_mass, abs_utilityMass, if_neg hm] at ev2
    unfold Decision.evaluate at ev2
    rw [h3, ok_bind, hcn, e3, ok_bind] at ev2
    have ev' := Except.ok.inj ev
    have ev2' := Except.ok.inj ev2
    have hsh : q.r.2.potentials.shape = [] := by rw [e4.util.table.shape, ev']; rfl
    refine ⟨q.r.2.potentials.data.getD 0 0, ?_, ?_⟩
    · rw [e1, ok_bind]; exact congrArg _ (eq_scalar_of_shape hsh)
    · have := e4.util.table.data 0
      rw [ev', ev2'] at this
      refine Off.mono hA.nonneg hA.lt_one this ?_
      rw [h5, h6, adds_chance hc]
      unfold BN.utilityRoundings BN.names
      rw [List.length_map, Nat.zero_add, ← Nat.two_mul]

/-! ## decisions -/

theorem Factor.Over.transfer {lab : Name → List Val} {f g : Factor} (hg : g.Over lab)
    (h1 : f.variableOrder = g.variableOrder) (h2 : f.values = g.values)
    (h3 : f.potentials.shape = g.potentials.shape) : f.Over lab := by
  refine ⟨⟨by rw [h1]; exact hg.wf.nodup, by rw [h1, h2]; exact hg.wf.keys, ?_, ?_⟩, ?_⟩
  · rw [h1, h2]; exact hg.wf.labels
  · rw [h3, h1]; exact hg.wf.shape
  rw [h1, h2]; exact hg.val

theorem optimizeLocallyR_spec (hA : A.Accurate u) (so : SetOrder) (sp : SetPerm) (hc : DNConsistent dn)
    (hnn : dn.chance.NonNeg) (ha : dn.chance.Acyclic) {d : NodeV} (hd : d ∈ dn) (hf : d.FreeDecision)
    (hs : ∀ n ∈ dn.chance, n.name = d.name ∨ n.Normalised dn.chance.card)
    {c : NodeV → NDArray} (hr : OnceRounded u dn c) :
    ∃ (x : Val) (g : Val → ℚ), Decision.optimizeLocallyR A so sp (dn.recpd c) d.name = .ok (some x) ∧
      FirstMax g d.values x ∧ ∀ y ∈ d.values, Off u dn.utilityRoundings (g y)
        (utilityMass (dn.decide [(d.name, y)])) (absUtilityMass (dn.decide [(d.name, y)])) := by
  have hk : d.kind ≠ .utility := by rw [hf.kind]; decide
  have hdc : d ∈ dn.chance := mem_chance.2 ⟨hd, hk⟩
  have hlab : dn.chance.lab d.name = d.values := BN.lab_eq hc.chance.nodup hdc
  obtain ⟨qs, h1, h2, h3, h4, h5, h6⟩ := factors_rounded hA hc hnn hr
  have hqs : qs ≠ [] := fun e => by
    rw [e] at h6
    rw [List.length_eq_zero_iff.1 h6.symm] at hd
    simp at hd
  have hsub : ∀ c : NodeV → NDArray, Decision.othersOf (dn.recpd c) { d with cpd := c d } =
      Decision.othersOf dn d := by
    intro c
    unfold Decision.othersOf BN.names BN.recpd
    rw [List.filter_map, List.map_map]
    rfl
  obtain ⟨fs, g1, g2⟩ := factors_over hc hnn dn fun _ h => h
  obtain rfl : fs = qs.map Quad.e := Except.ok.inj (g1.symm.trans h2)
  have hsl : (Decision.othersOf dn d).Sublist dn.chance.names := by
    unfold Decision.othersOf BN.chance BN.names
    refine List.Sublist.map _ (List.monotone_filter_right _ fun n hn => ?_)
    simp only [decide_eq_true_eq] at hn ⊢
    tauto
  have hnd : (Decision.othersOf dn d).Nodup := hsl.nodup hc.chance.nodup
  have hin : ∀ v ∈ Decision.othersOf dn d, InScope (qs.map Quad.e) v := by
    intro v hv
    rw [forall2_inScope g2]
    obtain ⟨n, hn, rfl⟩ := List.mem_map.1 (hsl.subset hv)
    obtain ⟨a, b⟩ := mem_chance.1 hn
    exact ⟨n, a, by simp [NodeV.scope, b]⟩
  obtain ⟨sp₁, h⟩ := generalizedVER_spec hA so sp hnd hqs h4 hin
  obtain ⟨fs, r, t1, t2, t3, t4, t5⟩ := localTable so sp₁ hc hnn ha hd hf hs
  obtain rfl : fs = qs.map Quad.e := Except.ok.inj (t1.symm.trans h2)
  have hdB : { d with cpd := absCpd d } ∈ dn.recpd absCpd := mem_recpd.2 ⟨d, hd, rfl⟩
  rcases h with ⟨-, e2⟩ | ⟨sp₂, q, e1, e2, e3, e4⟩
  · rw [e2] at t2; exact absurd t2 (by simp)
  obtain rfl : q.e = r := Except.ok.inj (e2.symm.trans t2)
  obtain ⟨fb, rb, b1, b2, -, -, b5⟩ := localTable so sp₂
    (recpd_dnConsistent hc fun n _ => absCpd_shape n) (by rw [abs_chance]; exact hnn)
    (by rw [abs_chance]; exact ha) hdB ⟨hf.1, hf.2, hf.3, hf.4, hf.5⟩ (by rw [abs_chance]; exact hs)
  obtain rfl : fb = qs.map Quad.b := Except.ok.inj (b1.symm.trans h3)
  rw [hsub, e3] at b2
  obtain rfl := Except.ok.inj b2
  have hK : 0 + qs.length + (Decision.othersOf dn d).length * (2 * ((qs.map Quad.k).sum + qs.length +
      adds dn.chance.lab (Decision.othersOf dn d)) + 3) + 2 * adds dn.chance.lab (Decision.othersOf dn d) ≤
      dn.utilityRoundings := by
    have ha' : adds dn.chance.lab (Decision.othersOf dn d) ≤ dn.chanceAdditions := by
      rw [← adds_chance hc]
      exact (hsl.map _).sum_le_sum fun _ _ => Nat.zero_le _
    have hl := hsl.length_le
    rw [BN.names, List.length_map] at hl
    unfold BN.utilityRoundings
    rw [h5, h6, Nat.zero_add, ← Nat.two_mul]
    exact Nat.add_le_add (Nat.add_le_add_left (Nat.mul_le_mul hl (by omega)) _) (by omega)
  have hover : q.r.2.Over dn.chance.lab :=
    e4.over.util.transfer e4.util.order e4.util.values e4.util.table.shape
  have hsc : ∀ v, v ∈ q.r.2.variableOrder ↔ v = d.name := fun v => by
    rw [e4.util.order, e4.over.scope, t4]
  have hpick := pick_spec (r := q.r.2) (d := d.name)
    (g := fun x => q.r.2.eval (Function.update (fun _ => 0) d.name (d.values.idxOf x))) hf.values_ne
    fun x hx => by
      rw [← hlab]
      exact getPotential_single hover hsc (hlab ▸ hf.values_nodup) (hlab.symm ▸ hx)
  obtain ⟨x, x1, x2⟩ := hpick
  refine ⟨x, _, ?_, x2, fun y hy => ?_⟩
  · unfold Decision.optimizeLocallyR
    rw [lookup_ok (n := { d with cpd := c d }) (by rw [recpd_names]; exact hc.nodup)
      (mem_recpd.2 ⟨d, hd, rfl⟩), ok_bind, h1, ok_bind, hsub, e1, ok_bind, if_neg hk]
    exact x1
  · have b5' := b5 y hy
    rw [abs_decide dn, abs_utilityMass] at b5'
    · rw [← t5 y hy, ← b5']
      refine Off.mono hA.nonneg hA.lt_one ?_ hK
      have := e4.util.table.get ((q.e.2.variableOrder).map (Function.update (fun _ => 0) d.name (d.values.idxOf y)))
      unfold Factor.eval
      rw [e4.util.order, e4.util.order']
      exact this
    · intro n hn hk' hm
      simp only [Dict.keys, List.map_cons, List.map_nil, List.mem_singleton] at hm
      rw [List.inj_on_of_nodup_map hc.nodup hn hd hm] at hk'
      exact hk hk'

/-! ## preparing the decisions -/

/-- the tables of `BN.mixR` -/
def mixCpdR (A : Arith) (fixed : Dict Val) (order : List Name) (n : NodeV) : NDArray :=
  if n.name ∈ order then
    match fixed.get? n.name with
    | some x => n.pureRule x
    | none => n.mixedRuleR A
  else n.cpd

theorem mixR_eq (A : Arith) (dn : BN) (F : Dict Val) (o : List Name) :
    dn.mixR A F o = dn.recpd (mixCpdR A F o) := by
  unfold BN.mixR BN.recpd mixCpdR
  refine List.map_congr_left fun n _ => ?_
  by_cases h : n.name ∈ o
  · rw [if_pos h, if_pos h]; cases F.get? n.name <;> rfl
  · rw [if_neg h, if_neg h]

theorem mixCpdR_shape (A : Arith) (F : Dict Val) (o : List Name) (n : NodeV) :
    (mixCpdR A F o n).shape = n.cpd.shape := by
  unfold mixCpdR
  split
  · cases F.get? n.name <;> rfl
  · rfl

theorem mixCpdR_congr {n : NodeV} {c : NDArray} (h : c.shape = n.cpd.shape) (A : Arith) (F : Dict Val)
    (o : List Name) :
    mixCpdR A F o { n with cpd := c } = if n.name ∈ o then mixCpdR A F o n else c := by
  unfold mixCpdR
  by_cases e : n.name ∈ o
  · rw [if_pos e, if_pos e, if_pos e]
    cases F.get? n.name with
    | none => simp only [NodeV.mixedRuleR, h]
    | some x => exact pureRule_congr h x
  · rw [if_neg e, if_neg e]

theorem mixR_mixR (A : Arith) (dn : BN) (F : Dict Val) (v : Name) (o : List Name) :
    (dn.mixR A F [v]).mixR A F o = dn.mixR A F (v :: o) := by
  rw [mixR_eq, mixR_eq, mixR_eq, recpd_recpd]
  refine recpd_congr fun n _ => ?_
  rw [mixCpdR_congr (mixCpdR_shape A F [v] n)]
  by_cases h : n.name ∈ o <;> by_cases h' : n.name = v
  · subst h'; simp [mixCpdR, h]
  · simp [mixCpdR, h, h']
  · subst h'; simp [mixCpdR, h]
  · simp [mixCpdR, h, h']

theorem mixR_mix (A : Arith) (dn : BN) (F : Dict Val) (o : List Name) :
    dn.mixR A F o = (dn.mix F o).recpd (mixCpdR A F o) := by
  rw [mixR_eq, mix_eq, recpd_recpd]
  refine recpd_congr fun n _ => ?_
  rw [mixCpdR_congr (mixCpd_shape F o n)]
  by_cases h : n.name ∈ o
  · rw [if_pos h]
  · rw [if_neg h, mixCpdR, mixCpd, if_neg h, if_neg h]

theorem mixR_dnConsistent (hc : DNConsistent dn) (A : Arith) (F : Dict Val) (o : List Name) :
    DNConsistent (dn.mixR A F o) := by
  rw [mixR_eq]; exact recpd_dnConsistent hc fun n _ => mixCpdR_shape A F o n

theorem onceRounded_self (hA : A.Accurate u) (hnn : dn.chance.NonNeg) : OnceRounded u dn fun n => n.cpd :=
  fun n hn => ⟨fun hk => NDArray.r3_refl (NearT.zero u 1) fun x hx =>
    ⟨(Near.rfl' (hnn n (mem_chance.2 ⟨hn, hk⟩) x hx)).mono hA.nonneg hA.lt_one (by omega), rfl⟩, fun _ => rfl⟩

theorem onceRounded_mix (hA : A.Accurate u) (hc : DNConsistent dn) (hnn : dn.chance.NonNeg) {F : Dict Val}
    {o : List Name} (ho : ∀ v ∈ o, ∃ d ∈ dn, d.name = v ∧ d.kind = .decision ∧ d.values ≠ []) :
    OnceRounded u (dn.mix F o) (mixCpdR A F o) := by
  intro m hm
  have hm' := hm
  rw [mix_eq] at hm
  obtain ⟨n, hn, rfl⟩ := mem_recpd.1 hm
  have hsame : n.name ∉ o → mixCpdR A F o { n with cpd := mixCpd F o n } = mixCpd F o n := fun h => by
    rw [mixCpdR, if_neg h]
  have hnnm := mix_nonneg hnn F o
  by_cases h : n.name ∈ o
  · obtain ⟨d, hd, e, hk, hv⟩ := ho _ h
    obtain rfl : d = n := List.inj_on_of_nodup_map hc.nodup hd hn e
    refine ⟨fun _ => ?_, fun hk' => absurd (hk.symm.trans hk') (by decide)⟩
    rw [mixCpdR_congr (mixCpd_shape F o d), if_pos h]
    have hp := hnnm _ (mem_chance.2 ⟨hm', by simp [hk]⟩)
    unfold mixCpdR mixCpd at *
    dsimp only at hp ⊢
    rw [if_pos h] at hp ⊢
    rw [if_pos h]
    cases e' : F.get? d.name with
    | some x =>
      simp only [e'] at hp ⊢
      exact NDArray.r3_refl (NearT.zero u 1) fun x hx =>
        ⟨(Near.rfl' (hp x hx)).mono hA.nonneg hA.lt_one (by omega), rfl⟩
    | none =>
      refine NDArray.r3_tabulate (NearT.zero u 1) _ fun _ => ⟨?_, rfl⟩
      have hl : (0 : ℚ) < d.values.length := by
        exact_mod_cast List.length_pos_of_ne_nil hv
      exact hA.near_div (Near.rfl' zero_le_one) (Near.rfl' hl.le) hl.ne'
  · refine ⟨fun hk => ?_, fun _ => hsame h⟩
    rw [hsame h]
    exact NDArray.r3_refl (NearT.zero u 1) fun x hx =>
      ⟨(Near.rfl' (hnnm _ (mem_chance.2 ⟨hm', hk⟩) x hx)).mono hA.nonneg hA.lt_one (by omega), rfl⟩

theorem NDArray.ones_map (s : List Nat) (f : ℚ → ℚ) :
    (NDArray.ones s).map f = NDArray.tabulate s fun _ => f 1 := by
  unfold NDArray.ones NDArray.tabulate NDArray.map
  simp

theorem prepareOneR_ok (A : Arith) (hc : DNConsistent dn) {d : NodeV} (hd : d ∈ dn) (hk : d.kind = .decision)
    (hv : d.values ≠ []) {F : Dict Val} (hF : ∀ x, F.get? d.name = some x → x ∈ d.values) :
    Decision.prepareOneR A dn F d.name = (dn.mixR A F [d.name], none) := by
  unfold Decision.prepareOneR
  cases e : F.get? d.name with
  | none =>
    have : d.fullyMixedR A = .ok (d.mixedRuleR A) := by
      unfold NodeV.fullyMixedR
      rw [if_neg fun h => hv (List.length_eq_zero_iff.1 h.1), NDArray.ones_map]; rfl
    simp only
    rw [lookup_ok hc.nodup hd]
    simp only [hk, ne_eq, not_true_eq_false, if_false]
    rw [this]
    simp only
    rw [putCpd_eq d.name (fun m => m.mixedRuleR A) hc.nodup hd rfl, mixR_eq]
    congr 1
    refine recpd_congr fun n _ => ?_
    by_cases h : n.name = d.name
    · simp [mixCpdR, h, e]
    · simp [mixCpdR, h]
  | some x =>
    simp only
    rw [setDecision_ok hc hd hk (hF x e), decide_eq, mixR_eq]
    congr 1
    refine recpd_congr fun n _ => ?_
    by_cases h : n.name = d.name
    · simp [mixCpdR, decideCpd, Dict.get?, h, e]
    · simp [mixCpdR, decideCpd, Dict.get?, h, Ne.symm h]

theorem prepareR_ok (A : Arith) (hc : DNConsistent dn) {F : Dict Val} {o : List Name}
    (ho : ∀ v ∈ o, ∃ d ∈ dn, d.name = v ∧ d.kind = .decision ∧ d.values ≠ [] ∧
      ∀ x, F.get? v = some x → x ∈ d.values) :
    Decision.prepareR A dn F o = (dn.mixR A F o, none) := by
  induction o generalizing dn with
  | nil =>
    simp only [Decision.prepareR, mixR_eq, BN.recpd, mixCpdR, List.not_mem_nil, if_false]
    simp
  | cons v o ih =>
    obtain ⟨d, hd, rfl, h1, h2, h3⟩ := ho _ List.mem_cons_self
    rw [Decision.prepareR, prepareOneR_ok A hc hd h1 h2 h3]
    simp only
    rw [ih (mixR_dnConsistent hc _ _ _) ?_, mixR_mixR]
    intro u hu
    obtain ⟨e, he, g1, g2, g3, g4⟩ := ho u (by simp [hu])
    rw [mixR_eq]
    exact ⟨_, mem_recpd.2 ⟨e, he, rfl⟩, g1, g2, g3, g4⟩

theorem optimizeAllR_ok {so : SetOrder} {sps : Nat → SetPerm} {f : Name → Val} {o : List Name} (k : Nat)
    (hf : ∀ v ∈ o, Decision.optimizeLocallyR A so (sps (k + o.idxOf v)) dn v = .ok (some (f v))) (hnd : o.Nodup)
    (sol : Dict (Option Val)) (hs : ∀ v ∈ o, v ∉ sol.keys) :
    Decision.optimizeAllR A so sps dn k o sol = .ok (sol ++ o.map fun v => (v, some (f v))) := by
  induction o generalizing k sol with
  | nil => simp [Decision.optimizeAllR]
  | cons v o ih =>
    obtain ⟨h1, h2⟩ := List.nodup_cons.1 hnd
    have hv := hf v (by simp)
    rw [List.idxOf_cons_self, Nat.add_zero] at hv
    rw [Decision.optimizeAllR, hv, ok_bind,
      ih (k + 1) (fun w hw => ?_) h2 _ fun w hw => ?_]
    · rw [Dict.set_of_not_mem _ (hs v (by simp))]
      simp
    · have := hf w (by simp [hw])
      rw [List.idxOf_cons_ne _ fun e : v = w => h1 (e ▸ hw)] at this
      rw [Nat.add_assoc, Nat.add_comm 1]
      exact this
    · rw [Dict.set_of_not_mem _ (hs v (by simp)), Dict.keys_append]
      simp only [List.mem_append, not_or]
      refine ⟨hs w (by simp [hw]), ?_⟩
      simp only [Dict.keys, List.map_cons, List.map_nil, List.mem_singleton]
      exact fun e => h1 (e ▸ hw)

/-! ## exact arithmetic -/

namespace Decision

theorem combineR_exact (so : SetOrder) (fs : List JointFactor) : combineR .exact so fs = combine so fs := by
  cases fs <;> rfl

theorem eliminateR_exact (so : SetOrder) (sp : SetPerm) (k : Nat) (vs : List Name) (W : List JointFactor) :
    eliminateR .exact so sp k vs W = eliminate so sp k vs W := by
  induction vs generalizing k W with
  | nil => rfl
  | cons v vs ih =>
    unfold eliminateR eliminate
    simp only [combineR_exact, ih]
    rfl

theorem generalizedVER_exact (so : SetOrder) (sp : SetPerm) (fs : List JointFactor) (vs : List Name) :
    generalizedVER .exact so sp fs vs = generalizedVE so sp fs vs := by
  unfold generalizedVER generalizedVE
  simp only [eliminateR_exact, combineR_exact]

theorem expectedUtilityR_exact (so : SetOrder) (sp : SetPerm) (dn : BN) (D : Option (Dict Val)) :
    expectedUtilityR .exact so sp dn D = expectedUtility so sp dn D := by
  unfold expectedUtilityR expectedUtility evaluateR evaluate
  simp only [generalizedVER_exact]
  rfl

theorem optimizeAllR_exact (so : SetOrder) (sps : Nat → SetPerm) (dn : BN) (k : Nat) (vs : List Name)
    (sol : Dict (Option Val)) : optimizeAllR .exact so sps dn k vs sol = optimizeAll so sps dn k vs sol := by
  induction vs generalizing k sol with
  | nil => rfl
  | cons v vs ih =>
    unfold optimizeAllR optimizeAll optimizeLocallyR optimizeLocally
    simp only [generalizedVER_exact, ih]

theorem prepareR_exact (dn : BN) (F : Dict Val) (vs : List Name) :
    prepareR .exact dn F vs = prepare dn F vs := by
  induction vs generalizing dn with
  | nil => rfl
  | cons v vs ih =>
    unfold prepareR prepare
    have : prepareOneR .exact dn F v = prepareOne dn F v := rfl
    rw [this]
    simp only [ih]
    rfl

theorem getOptimalDecisionsR_exact (so : SetOrder) (sps : Nat → SetPerm) (dn : BN) (order : List Name)
    (F : Option (Dict Val)) :
    getOptimalDecisionsR .exact so sps dn order F = getOptimalDecisions so sps dn order F := by
  unfold getOptimalDecisionsR getOptimalDecisions
  rw [prepareR_exact]
  simp only [optimizeAllR_exact]
  rfl

end Decision

end Primo
