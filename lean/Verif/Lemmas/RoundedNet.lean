import Verif.Lemmas.RoundedVE
import Verif.Lemmas.Bucket
import Verif.Lemmas.Naive
import Verif.Spec.Joint
import Mathlib.Algebra.Order.BigOperators.Ring.Finset
import Mathlib.Algebra.Order.Ring.Pow

/-! # Rounded inference in a network -/

namespace Primo

theorem BN.getNode_mem {bn : BN} {v : Name} {n : NodeV} (h : bn.getNode v = .ok n) : n ∈ bn := by
  unfold BN.getNode at h
  cases hf : bn.find? (fun n => n.name = v) with
  | none => rw [hf] at h; cases h
  | some m => rw [hf] at h; cases h; exact List.mem_of_find?_eq_some hf

theorem BN.getNode_name {bn : BN} {v : Name} {n : NodeV} (h : bn.getNode v = .ok n) : n.name = v := by
  unfold BN.getNode at h
  cases hf : bn.find? (fun n => n.name = v) with
  | none => rw [hf] at h; cases h
  | some m => rw [hf] at h; cases h; simpa using List.find?_some hf

theorem Factor.fromNode_potentials {n : NodeV} {f : Factor} (h : Factor.fromNode n = .ok f) :
    f.potentials = n.cpd := by
  unfold Factor.fromNode at h
  split at h
  · cases h
  · obtain ⟨vals, _, h2⟩ := bind_eq_ok.1 h
    cases h2
    rfl

theorem Factor.asEvidence_nonneg {v : Name} {vals : List Val} {e : Evidence} {f : Factor}
    (hs : ∀ l, e = .soft l → ∀ x ∈ l, 0 ≤ x) (h : Factor.asEvidence v vals e = .ok f) :
    ∀ x ∈ f.potentials.data, 0 ≤ x := by
  cases e with
  | hard x =>
    unfold Factor.asEvidence at h
    simp only at h
    split at h
    · cases h
      intro x hx
      obtain ⟨i, _, rfl⟩ := List.mem_map.1 hx
      split <;> norm_num
    · cases h
  | soft l =>
    unfold Factor.asEvidence at h
    simp only at h
    split at h
    · cases h
    · cases h
      exact hs l rfl

/-- any network with non-negative numbers -/
theorem sim_any {A : Arith} {u : ℚ} (hA : A.Accurate u) (so : SetOrder) {bn : BN} (hp : bn.NonNeg)
    {ev : Dict Evidence} (hpe : NonNegEvidence ev) :
    Sim (ι := Nat) A so bn ev 1 0 (fun _ => 0) fun _ f g => ∃ k, f.Near u k g where
  mono h _ := h
  contains := fun ⟨_, h⟩ v => h.contains v
  mul := fun ⟨_, h⟩ ⟨_, h'⟩ => (Factor.near_mul hA so h h').mono fun _ _ h => ⟨_, h⟩
  sumOut := fun v ⟨_, h⟩ => (Factor.near_sumOut hA h v).mono fun _ _ h => ⟨_, h⟩
  one := ⟨0, Factor.Near.rfl' (by decide)⟩
  table := fun h h' => ⟨0, Factor.Near.rfl' (by
    rw [Factor.fromNode_potentials h']
    exact hp _ (BN.getNode_mem h))⟩
  evidence := fun he h h' => ⟨0, Factor.Near.rfl' (Factor.asEvidence_nonneg (by
    rintro l rfl
    exact hpe _ l he) h')⟩

/-- a consistent network with non-negative numbers -/
theorem sim_net {A : Arith} {u : ℚ} (hA : A.Accurate u) (so : SetOrder) {bn : BN} (hc : bn.Consistent)
    (hp : bn.NonNeg) {ev : Dict Evidence} (he : LegalEvidence bn ev) (hpe : NonNegEvidence ev) :
    Sim A so bn ev 1 0 (fun v => bn.card v - 1) fun k f g => f.Near u k g ∧ g.Over bn.lab where
  mono h hkm := ⟨h.1.mono hA.nonneg hA.lt_one hkm, h.2⟩
  contains h v := h.1.contains v
  mul := by
    intro k m f f' g g' h h'
    have := Factor.near_mul hA so h.1 h'.1
    obtain ⟨r, hr, hw, _⟩  := Factor.mul_over so h.2 h'.2
    rw [hr] at this ⊢
    cases hx : f.mulR A so g with
    | error e => rw [hx] at this; cases this
    | ok a => rw [hx] at this; exact ⟨this, hw⟩
  sumOut := by
    intro k f g v h
    have := Factor.near_sumOut hA h.1 v
    by_cases hv : v ∈ g.variableOrder
    · have hcard : g.potentials.shape.getD (g.variableOrder.idxOf v) 0 = bn.card v := by
        rw [h.2.wf.shape, List.getD_eq_getElem?_getD, List.getElem?_map, List.getElem?_eq_getElem
          (List.idxOf_lt_length_of_mem hv), List.getElem_idxOf]
        rfl
      rw [hcard] at this
      obtain ⟨r, hr, hw, ho, hval, _⟩ := Factor.sumOut_spec h.2.wf hv
      rw [hr] at this ⊢
      cases hx : f.sumOutR A v with
      | error e => rw [hx] at this; cases this
      | ok a =>
        rw [hx] at this
        refine ⟨this, hw, fun w hw => ?_⟩
        rw [hval w hw]
        rw [ho] at hw
        exact h.2.val w (List.mem_of_mem_erase hw)
    · have hg : g.sumOut v = .error .valueError := by
        unfold Factor.sumOut pyIndex
        rw [if_neg hv]
        rfl
      rw [hg] at this ⊢
      cases hx : f.sumOutR A v with
      | error e => rw [hx] at this; exact this
      | ok a => rw [hx] at this; cases this
  one := ⟨Factor.Near.rfl' (by decide), Factor.trivial_over _⟩
  table := by
    intro v n f h h'
    refine ⟨Factor.Near.rfl' ?_, ?_⟩
    · rw [Factor.fromNode_potentials h']
      exact hp _ (BN.getNode_mem h)
    · obtain ⟨f', h1, h2, _⟩ := fromNode_over hc (BN.getNode_mem h)
      rw [h'] at h1
      cases h1
      exact h2
  evidence := by
    intro v n e f hmem h h'
    refine ⟨Factor.Near.rfl' (Factor.asEvidence_nonneg ?_ h'), ?_⟩
    · rintro l rfl
      exact hpe _ l hmem
    · have hname := BN.getNode_name h
      have hlab : n.values = bn.lab v := by rw [← hname]; exact (BN.lab_eq hc.nodup (BN.getNode_mem h)).symm
      obtain ⟨f', h1, h2, _⟩ := asEvidence_over (bn := bn) (v := v) (e := e)
        (by rintro x rfl; exact he.hard _ _ hmem) (by rintro l rfl; exact he.soft _ _ hmem)
      rw [hlab, h1] at h'
      cases h'
      exact h2

theorem Factor.Near.over {u : ℚ} {k : Nat} {f g : Factor} (h : f.Near u k g) {lab : Name → List Val}
    (hg : g.Over lab) : f.Over lab := by
  refine ⟨⟨?_, ?_, ?_, ?_⟩, ?_⟩
  · rw [h.order]; exact hg.wf.nodup
  · rw [h.order, h.values]; exact hg.wf.keys
  · rw [h.order, h.values]; exact hg.wf.labels
  · rw [h.order, h.table.shape]; exact hg.wf.shape
  · rw [h.order, h.values]; exact hg.val

theorem Factor.Near.eval {u : ℚ} {k : Nat} {f g : Factor} (h : f.Near u k g) (σ : Assign) :
    Primo.Near u k (f.eval σ) (g.eval σ) := by
  unfold Factor.eval
  rw [h.order]
  exact h.table.get _

theorem Factor.normalize_length (f : Factor) : f.normalize.potentials.data.length =
    f.potentials.data.length := by
  unfold Factor.normalize
  simp only
  split
  · exact List.length_map ..
  · rfl

theorem near_posterior {A : Arith} {u : ℚ} (hA : A.Accurate u) {bn : BN} {ev : Dict Evidence}
    {Q : List Name} {K : Nat} {f g : Factor} (h : f.Near u K g) (hg : g.normalize.Over bn.lab)
    (hQ : ∀ v, v ∈ g.normalize.variableOrder ↔ v ∈ Q)
    (hval : ∀ σ, Legal bn.card Q σ → g.normalize.eval σ = posterior bn ev Q σ) :
    (f.normalizeR A).Over bn.lab ∧ (∀ v, v ∈ (f.normalizeR A).variableOrder ↔ v ∈ Q) ∧
      ∀ σ, Legal bn.card Q σ →
        Near u (2 * K + bn.tableSize Q) ((f.normalizeR A).eval σ) (posterior bn ev Q σ) := by
  have hn := Factor.near_normalize hA h
  refine ⟨hn.over hg, fun v => by rw [hn.order, hQ], fun σ hσ => ?_⟩
  have hlen : g.potentials.data.length = bn.tableSize Q := by
    rw [← Factor.normalize_length, NDArray.size_eq, hg.wf.shape, BN.tableSize,
      ← List.prod_toFinset _ hg.wf.nodup]
    have : g.normalize.variableOrder.toFinset = Q.toFinset := by
      ext v
      rw [List.mem_toFinset, List.mem_toFinset, hQ]
    rw [this]
    rfl
  have hpos : 0 < bn.tableSize Q := by
    refine Finset.prod_pos fun v hv => ?_
    have := hσ v (by simpa using hv)
    omega
  rw [← hval σ hσ]
  exact (hn.eval σ).mono hA.nonneg hA.lt_one (by omega)

theorem count_observed {ι : Type} [AddCommMonoid ι] (x : ι) {names : List Name} (hn : names.Nodup)
    {ev : Dict Evidence} (h : ev.keys.Nodup) (hm : ∀ p ∈ ev, p.1 ∈ names) :
    (names.map fun v => x + if (ev.get? v).isSome then x else 0).sum = (names.length + ev.length) • x := by
  have h1 : (names.map fun v => x + if (ev.get? v).isSome then x else 0).sum =
      (names.length + (names.filter fun v => decide (v ∈ ev.keys)).length) • x := by
    clear hn hm
    induction names with
    | nil => simp
    | cons v l ih =>
      rw [List.map_cons, List.sum_cons, ih, List.length_cons, List.filter_cons]
      have hs : (ev.get? v).isSome = true ↔ v ∈ ev.keys := by
        rw [← Dict.get?_isSome, Option.isSome_iff_exists]
      simp only [hs]
      by_cases hv : v ∈ ev.keys
      · simp only [hv, decide_true, if_true, List.length_cons, add_nsmul, one_nsmul]; abel
      · simp only [hv, decide_false, if_false, Bool.false_eq_true, add_nsmul, one_nsmul]; abel
  rw [h1]
  have hp : (names.filter fun v => decide (v ∈ ev.keys)).Perm ev.keys := by
    refine (List.perm_ext_iff_of_nodup (hn.filter _) h).2 fun v => ?_
    simp only [List.mem_filter, decide_eq_true_eq]
    refine ⟨fun h => h.2, fun h => ⟨?_, h⟩⟩
    obtain ⟨p, hp, rfl⟩ := List.mem_map.1 h
    exact hm p hp
  rw [hp.length_eq, Dict.keys, List.length_map]

theorem naive_near {A : Arith} {u : ℚ} (hA : A.Accurate u) (so : SetOrder) {bn : BN} (hc : bn.Consistent)
    (hp : bn.NonNeg) {ev : Dict Evidence} (he : LegalEvidence bn ev) (hpe : NonNegEvidence ev)
    {Q : List Name} (hQ : ∀ v ∈ Q, v ∈ bn.names) :
    ∃ r, VE.naiveMarginalsR A so bn Q ev = .ok r ∧ r.Over bn.lab ∧
      (∀ v, v ∈ r.variableOrder ↔ v ∈ Q) ∧ ∀ σ, Legal bn.card Q σ →
        Near u (bn.naiveRoundings ev Q) (r.eval σ) (posterior bn ev Q σ) := by
  obtain ⟨r, h1, h2, h3, h4⟩ := naiveMarginals_spec so hc he hQ
  have hraw := (sim_net hA so hc hp he hpe).naive_raw Q
  obtain ⟨a, ha, h5⟩ := bind_eq_ok.1 h1
  obtain ⟨g, hg, h6⟩ := bind_eq_ok.1 h5
  cases h6
  obtain ⟨f, hf, hfg⟩ := hraw.ok_right (b := g) (by rw [ha]; exact hg)
  obtain ⟨b, hb, hf⟩ := bind_eq_ok.1 hf
  rw [count_observed _ hc.nodup he.nodup he.mem] at hfg
  have hl : bn.names.length = bn.length := List.length_map ..
  rw [hl, zero_add, nsmul_eq_mul, Nat.cast_id, mul_one] at hfg
  refine ⟨f.normalizeR A, ?_, near_posterior hA hfg.1 h2 h3 h4⟩
  unfold VE.naiveMarginalsR
  simp only [hb, hf, ok_bind, pure_eq_ok]

theorem bucket_near {A : Arith} {u : ℚ} (hA : A.Accurate u) (so : SetOrder) {bn : BN} (hc : bn.Consistent)
    (hp : bn.NonNeg) {ev : Dict Evidence} (he : LegalEvidence bn ev) (hpe : NonNegEvidence ev)
    {Q : List Name} (hQn : Q.Nodup) (hQ : ∀ v ∈ Q, v ∈ bn.names) (order0 : Option (List Name))
    {order : List Name} (hord : VE.chooseOrder bn order0 = .ok order) (hperm : order.Perm bn.names) :
    ∃ r, VE.bucketMarginalsR A so bn Q ev order0 = .ok r ∧ r.Over bn.lab ∧
      (∀ v, v ∈ r.variableOrder ↔ v ∈ Q) ∧ ∀ σ, Legal bn.card Q σ →
        Near u (bn.bucketRoundings ev Q) (r.eval σ) (posterior bn ev Q σ) := by
  obtain ⟨r, h1, h2, h3, h4⟩ := bucketMarginals_spec so hc he hQn hQ order0 hord hperm
  obtain ⟨r', hr', k, f, g, hfg, rfl, rfl, hk⟩ := ((sim_net hA so hc hp he hpe).bucket Q order0).ok_right h1
  have hnd : order.Nodup := hperm.nodup_iff.2 hc.nodup
  have hmv := VE.moveQuery_dedup hnd fun v hv => hperm.mem_iff.2 (hQ v hv)
  rw [hQn.dedup] at hmv
  have hlen : (order.filter fun v => decide (v ∉ Q)).length + Q.length = bn.length := by
    have h : (order.filter fun v => decide (v ∈ Q)).Perm Q := by
      refine (List.perm_ext_iff_of_nodup (hnd.filter _) hQn).2 fun v => ?_
      simp only [List.mem_filter, decide_eq_true_eq]
      exact ⟨fun h => h.2, fun h => ⟨hperm.mem_iff.2 (hQ v h), h⟩⟩
    have h' := List.length_eq_length_filter_add (l := order) fun v => decide (v ∈ Q)
    rw [h.length_eq, hperm.length_eq] at h'
    have hl : bn.names.length = bn.length := List.length_map ..
    simp only [decide_not]
    omega
  have hk := hk _ _ hord hmv (by rw [List.length_append]; omega)
  simp only [zero_add, nsmul_eq_mul, Nat.cast_id, Nat.reduceAdd, mul_one] at hk
  rw [List.length_append, hlen, show bn.length - Q.length =
    (order.filter fun v => decide (v ∉ Q)).length by omega, List.take_left] at hk
  have hadd : ((order.filter fun v => decide (v ∉ Q)).map fun v => bn.card v - 1).sum = bn.additions Q :=
    ((hperm.filter _).map _).sum_eq
  rw [hadd, mul_comm bn.length 2] at hk
  exact ⟨_, hr', near_posterior hA (hfg.1.mono hA.nonneg hA.lt_one hk) h2 h3 h4⟩

/-- few roundings change little -/
theorem Near.abs_le {u : ℚ} {k : Nat} {x y : ℚ} (h0 : 0 ≤ u) (hu : u < 1) (h : Near u k x y)
    (hk : k * u ≤ 1 / 2) : |x - y| ≤ 2 * k * u * y := by
  obtain ⟨hy, h1, h2⟩ := h
  have hb : 1 - k * u ≤ (1 - u) ^ k := by
    have := one_add_mul_le_pow (a := -u) (by linarith) k
    calc 1 - k * u = 1 + k * -u := by ring
      _ ≤ (1 + -u) ^ k := this
      _ = (1 - u) ^ k := by ring
  have hx : 0 ≤ x := le_trans (mul_nonneg hy (pow_nonneg (by linarith) _)) h1
  have hku : 0 ≤ k * u := mul_nonneg (Nat.cast_nonneg _) h0
  rw [_root_.abs_le]
  constructor
  · nlinarith [mul_le_mul_of_nonneg_left hb hy, mul_nonneg hku hy]
  · have h3 : x * (1 - k * u) ≤ y := le_trans (mul_le_mul_of_nonneg_left hb hx) h2
    have h4 : x ≤ 2 * y := by nlinarith
    nlinarith

end Primo
