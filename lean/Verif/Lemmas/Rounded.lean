import Verif.Spec.Rounded
import Verif.Lemmas.Py
import Mathlib.Algebra.Order.BigOperators.Group.List
import Mathlib.Tactic.Linarith
import Mathlib.Tactic.Ring
import Mathlib.Tactic.FieldSimp
import Mathlib.Tactic.Positivity

/-! # Simulation of the exact computation by the rounded one -/

namespace Primo

/-! ## Exact arithmetic gives back the exact model -/

namespace Factor

theorem sumOutR_exact (f : Factor) (v : Name) : f.sumOutR .exact v = f.sumOut v := rfl

theorem marginalizeR_exact (f : Factor) (vs : List Name) :
    f.marginalizeR .exact vs = f.marginalize vs := rfl

theorem mulR_exact (so : SetOrder) (f g : Factor) : f.mulR .exact so g = f.mul so g := rfl

theorem invertR_exact (f : Factor) : f.invertR .exact = f.invert := rfl

theorem divR_exact (so : SetOrder) (f g : Factor) : f.divR .exact so g = f.div so g := rfl

theorem normalizeR_exact (f : Factor) : f.normalizeR .exact = f.normalize := rfl

end Factor

namespace VE

theorem placeR_exact (so : SetOrder) (f : Factor) (bs : Buckets) :
    placeR .exact so f bs = place so f bs := by
  induction bs with
  | nil => rfl
  | cons b bs ih => rw [placeR, place, ih]; rfl

theorem processR_exact (so : SetOrder) : ∀ (k : Nat) (bs : Buckets) (last : Factor),
    processR .exact so k bs last = process so k bs last
  | 0, _, _ => rfl
  | _ + 1, [], _ => rfl
  | k + 1, (v, b) :: bs, last => by
    rw [processR, process]
    simp only [placeR_exact, processR_exact so k]
    rfl

theorem naiveMarginalsR_exact (so : SetOrder) (bn : BN) (Q : List Name) (ev : Dict Evidence) :
    naiveMarginalsR .exact so bn Q ev = naiveMarginals so bn Q ev := rfl

theorem bucketMarginalsR_exact (so : SetOrder) (bn : BN) (Q : List Name) (ev : Dict Evidence)
    (order : Option (List Name)) :
    bucketMarginalsR .exact so bn Q ev order = bucketMarginals so bn Q ev order := by
  have h1 : placeFactorR .exact so = placeFactor so := by
    funext bs f
    rw [placeFactorR, placeFactor, placeR_exact]
  have h2 : ∀ bn, placeEvidenceR .exact so bn = placeEvidence so bn := fun _ => rfl
  have h3 : wrapCombineR .exact so = wrapCombine so := rfl
  have h4 : combineR .exact so = combine so := rfl
  have h5 : processR .exact so = process so := by
    funext k bs last; exact processR_exact so k bs last
  have h6 : ∀ r : Factor, r.normalizeR .exact = r.normalize := fun _ => rfl
  unfold bucketMarginalsR bucketMarginals
  simp only [h1, h2, h3, h4, h5, h6]

end VE

/-! ## Numbers -/

variable {u : ℚ} {k m : Nat} {a b c d x y z : ℚ}

namespace Near

theorem pow_pos (hu : u < 1) (k : Nat) : 0 < (1 - u) ^ k := _root_.pow_pos (by linarith) k

theorem pow_le_one (h0 : 0 ≤ u) (hu : u < 1) (k : Nat) : (1 - u) ^ k ≤ 1 :=
  pow_le_one₀ (by linarith) (by linarith)

theorem rfl' (h : 0 ≤ y) : Near u 0 y y := ⟨h, by simp, by simp⟩

theorem nonneg (hu : u < 1) (h : Near u k x y) : 0 ≤ x :=
  le_trans (mul_nonneg h.1 (pow_pos hu k).le) h.2.1

theorem symm (hu : u < 1) (h : Near u k x y) : Near u k y x := ⟨h.nonneg hu, h.2.2, h.2.1⟩

theorem trans (hu : u < 1) (h : Near u k x y) (h' : Near u m y z) : Near u (k + m) x z := by
  refine ⟨h'.1, ?_, ?_⟩
  · rw [pow_add, mul_comm ((1 - u) ^ k), ← mul_assoc]
    exact le_trans (mul_le_mul_of_nonneg_right h'.2.1 (pow_pos hu k).le) h.2.1
  · rw [pow_add, ← mul_assoc]
    exact le_trans (mul_le_mul_of_nonneg_right h.2.2 (pow_pos hu m).le) h'.2.2

theorem mono (h0 : 0 ≤ u) (hu : u < 1) (h : Near u k x y) (hkm : k ≤ m) : Near u m x y := by
  have : (1 - u) ^ m ≤ (1 - u) ^ k := pow_le_pow_of_le_one (by linarith) (by linarith) hkm
  exact ⟨h.1, le_trans (mul_le_mul_of_nonneg_left this h.1) h.2.1,
    le_trans (mul_le_mul_of_nonneg_left this (h.nonneg hu)) h.2.2⟩

theorem mul (hu : u < 1) (h : Near u k a b) (h' : Near u m c d) : Near u (k + m) (a * c) (b * d) := by
  refine ⟨mul_nonneg h.1 h'.1, ?_, ?_⟩
  · calc b * d * (1 - u) ^ (k + m) = (b * (1 - u) ^ k) * (d * (1 - u) ^ m) := by rw [pow_add]; ring
      _ ≤ a * c := mul_le_mul h.2.1 h'.2.1 (mul_nonneg h'.1 (pow_pos hu m).le) (h.nonneg hu)
  · calc a * c * (1 - u) ^ (k + m) = (a * (1 - u) ^ k) * (c * (1 - u) ^ m) := by rw [pow_add]; ring
      _ ≤ b * d := mul_le_mul h.2.2 h'.2.2 (mul_nonneg (h'.nonneg hu) (pow_pos hu m).le) h.1

theorem add (h : Near u k a b) (h' : Near u k c d) : Near u k (a + c) (b + d) := by
  refine ⟨add_nonneg h.1 h'.1, ?_, ?_⟩
  · rw [add_mul]; exact add_le_add h.2.1 h'.2.1
  · rw [add_mul]; exact add_le_add h.2.2 h'.2.2

theorem zero_iff (hu : u < 1) (h : Near u k x y) : x = 0 ↔ y = 0 := by
  constructor
  · rintro rfl
    have := h.2.1
    have hp := pow_pos hu k
    by_contra hne
    have : 0 < y := lt_of_le_of_ne h.1 (Ne.symm hne)
    have := mul_pos this hp
    linarith
  · rintro rfl
    have := h.2.2
    have hp := pow_pos hu k
    by_contra hne
    have : 0 < x := lt_of_le_of_ne (h.nonneg hu) (Ne.symm hne)
    have := mul_pos this hp
    linarith

theorem pos_iff (hu : u < 1) (h : Near u k x y) : 0 < x ↔ 0 < y := by
  rw [(h.nonneg hu).lt_iff_ne, h.1.lt_iff_ne]
  exact not_congr ⟨fun e => ((h.zero_iff hu).1 e.symm).symm, fun e => ((h.zero_iff hu).2 e.symm).symm⟩

theorem inv (hu : u < 1) (h : Near u k x y) : Near u k x⁻¹ y⁻¹ := by
  by_cases hy : y = 0
  · have hx := (h.zero_iff hu).2 hy
    subst hy; subst hx
    simpa using h
  · have hyp : 0 < y := lt_of_le_of_ne h.1 (Ne.symm hy)
    have hxp : 0 < x := (h.pos_iff hu).2 hyp
    refine ⟨(inv_pos.2 hyp).le, ?_, ?_⟩
    · rw [inv_mul_le_iff₀ hyp, ← div_eq_mul_inv, le_div_iff₀ hxp, mul_comm]
      exact h.2.2
    · rw [inv_mul_le_iff₀ hxp, ← div_eq_mul_inv, le_div_iff₀ hyp, mul_comm]
      exact h.2.1

theorem div (hu : u < 1) (h : Near u k a b) (h' : Near u m c d) :
    Near u (k + m) (a / c) (b / d) := by
  rw [div_eq_mul_inv, div_eq_mul_inv]
  exact h.mul hu (h'.inv hu)

/-- one more rounding -/
theorem round (h0 : 0 ≤ u) (hu : u < 1) (h : Near u k x y) (hz : |z - x| ≤ u * |x|) :
    Near u (k + 1) z y := by
  have hx := h.nonneg hu
  rw [abs_of_nonneg hx, abs_le] at hz
  have h1 : Near u 1 z x := by
    refine ⟨hx, by rw [pow_one]; nlinarith [hz.1], ?_⟩
    rw [pow_one]
    have : z ≤ x * (1 + u) := by linarith [hz.2]
    have h2 : z * (1 - u) ≤ x * (1 + u) * (1 - u) := mul_le_mul_of_nonneg_right this (by linarith)
    nlinarith [mul_nonneg hx (mul_nonneg h0 h0)]
  rw [add_comm]
  exact h1.trans hu h

theorem sum_list : ∀ {l l' : List ℚ}, List.Forall₂ (Near u k) l l' → Near u k l.sum l'.sum
  | _, _, .nil => ⟨le_refl _, by simp, by simp⟩
  | _, _, .cons h t => by
    rw [List.sum_cons, List.sum_cons]
    exact h.add (sum_list t)

/-- the error of a sum, whatever the order of the additions -/
theorem tree (h0 : 0 ≤ u) (hu : u < 1) {add : ℚ → ℚ → ℚ}
    (hadd : ∀ a b, |add a b - (a + b)| ≤ u * |a + b|) : ∀ t : SumTree, (∀ x ∈ t.leaves, 0 ≤ x) →
      0 < t.leaves.length ∧ Near u (t.leaves.length - 1) (t.eval add) t.leaves.sum
  | .leaf x, h => ⟨by simp [SumTree.leaves], by
      have := rfl' (u := u) (h x (by simp [SumTree.leaves]))
      simpa [SumTree.leaves, SumTree.eval] using this⟩
  | .node l r, h => by
    obtain ⟨hl, nl⟩ := tree h0 hu hadd l fun x hx => h x (by simp [SumTree.leaves, hx])
    obtain ⟨hr, nr⟩ := tree h0 hu hadd r fun x hx => h x (by simp [SumTree.leaves, hx])
    refine ⟨by simp [SumTree.leaves]; omega, ?_⟩
    rw [SumTree.leaves, List.length_append, List.sum_append, SumTree.eval]
    have hk : l.leaves.length + r.leaves.length - 1 =
        (l.leaves.length - 1 + (r.leaves.length - 1)) + 1 := by omega
    rw [hk]
    exact ((nl.mono h0 hu (by omega)).add (nr.mono h0 hu (by omega))).round h0 hu (hadd _ _)

end Near

namespace Arith.Accurate
variable {A : Arith} (hA : A.Accurate u)
include hA

theorem near_mul (h : Near u k a b) (h' : Near u m c d) : Near u (k + m + 1) (A.mul a c) (b * d) :=
  (h.mul hA.lt_one h').round hA.nonneg hA.lt_one (hA.mul _ _)

theorem near_div (h : Near u k a b) (h' : Near u m c d) (hc : c ≠ 0) :
    Near u (k + m + 1) (A.div a c) (b / d) :=
  (h.div hA.lt_one h').round hA.nonneg hA.lt_one (hA.div _ _ hc)

theorem near_sum {l l' : List ℚ} (h : List.Forall₂ (Near u k) l l') :
    Near u (k + (l.length - 1)) (A.sum l) l'.sum := by
  have hs := Near.sum_list h
  by_cases hl : l = []
  · subst hl
    rw [hA.sum_nil]
    simpa using hs
  · obtain ⟨t, h1, h2⟩ := hA.sum l hl
    have hnn : ∀ x ∈ t.leaves, 0 ≤ x := by
      intro x hx
      have hx : x ∈ l := h1.mem_iff.1 hx
      clear h1 h2 hs hl
      induction h with
      | nil => cases hx
      | cons h _ ih =>
        rcases List.mem_cons.1 hx with rfl | hx
        · exact h.nonneg hA.lt_one
        · exact ih hx
    have := (Near.tree hA.nonneg hA.lt_one hA.add t hnn).2
    rw [h1.length_eq, h1.sum_eq, ← h2] at this
    rw [add_comm]
    exact this.trans hA.lt_one hs

end Arith.Accurate

/-! ## Results -/

/-- both raise the same exception, or both return and the values are related -/
def RelE {α β : Type} (R : α → β → Prop) : Except PyErr α → Except PyErr β → Prop
  | .ok a, .ok b => R a b
  | .error e, .error e' => e = e'
  | _, _ => False

namespace RelE
variable {α β γ δ : Type} {R : α → β → Prop} {S : γ → δ → Prop}

theorem bind {x : Except PyErr α} {y : Except PyErr β} (h : RelE R x y) {f : α → Except PyErr γ}
    {g : β → Except PyErr δ} (hfg : ∀ a b, R a b → RelE S (f a) (g b)) :
    RelE S (x >>= f) (y >>= g) := by
  cases x <;> cases y
  · exact h
  · exact h.elim
  · exact h.elim
  · exact hfg _ _ h

/-- the two computations start with the same step -/
theorem bind_same {x : Except PyErr α} {f : α → Except PyErr γ}
    {g : α → Except PyErr δ} (hfg : ∀ a, x = .ok a → RelE S (f a) (g a)) :
    RelE S (x >>= f) (x >>= g) := by
  cases x
  · exact rfl
  · exact hfg _ rfl

theorem pure {a : α} {b : β} (h : R a b) : RelE R (Pure.pure a) (Pure.pure b) := h

theorem mono {S : α → β → Prop} {x : Except PyErr α} {y : Except PyErr β} (h : RelE R x y)
    (hRS : ∀ a b, R a b → S a b) : RelE S x y := by
  cases x <;> cases y
  · exact h
  · exact h.elim
  · exact h.elim
  · exact hRS _ _ h

theorem ok_right {x : Except PyErr α} {y : Except PyErr β} (h : RelE R x y) {b : β} (hy : y = .ok b) :
    ∃ a, x = .ok a ∧ R a b := by
  subst hy
  cases x with
  | error e => exact h.elim
  | ok a => exact ⟨a, rfl, h⟩

theorem error_iff {x : Except PyErr α} {y : Except PyErr β} (h : RelE R x y) {e : PyErr} :
    x = .error e ↔ y = .error e := by
  cases x <;> cases y
  · have : _ = _ := h
    subst this
    exact ⟨fun h => by cases h; rfl, fun h => by cases h; rfl⟩
  · exact h.elim
  · exact h.elim
  · exact iff_of_false (fun h => nomatch h) fun h => nomatch h

theorem foldlM {R : α → β → Prop} {f : α → γ → Except PyErr α} {g : β → γ → Except PyErr β} :
    ∀ {l : List γ} {a : α} {b : β}, (∀ a b, ∀ x ∈ l, R a b → RelE R (f a x) (g b x)) → R a b →
      RelE R (l.foldlM f a) (l.foldlM g b)
  | [], _, _, _, h => h
  | x :: l, a, b, hs, h => by
    rw [List.foldlM_cons, List.foldlM_cons]
    exact (hs a b x (by simp) h).bind fun a' b' h' =>
      foldlM (fun a b x hx => hs a b x (by simp [hx])) h'

end RelE

/-! ## Arrays and factors -/

/-- entry by entry within `k` roundings -/
structure NDArray.Near (u : ℚ) (k : Nat) (a b : NDArray) : Prop where
  shape : a.shape = b.shape
  data : List.Forall₂ (Primo.Near u k) a.data b.data

/-- the tables are within `k` roundings, everything else is equal -/
structure Factor.Near (u : ℚ) (k : Nat) (f g : Factor) : Prop where
  order : f.variableOrder = g.variableOrder
  values : f.values = g.values
  table : f.potentials.Near u k g.potentials

theorem getD_near {l l' : List ℚ} (h : List.Forall₂ (Near u k) l l') (i : Nat) :
    Near u k (l.getD i 0) (l'.getD i 0) := by
  induction h generalizing i with
  | nil => exact ⟨le_refl _, by simp, by simp⟩
  | cons h _ ih =>
    cases i with
    | zero => exact h
    | succ i => exact ih i

namespace NDArray

theorem Near.get {a b : NDArray} (h : a.Near u k b) (idx : List Nat) :
    Primo.Near u k (a.get idx) (b.get idx) := by
  unfold NDArray.get
  rw [h.shape]
  exact getD_near h.data _

theorem Near.rfl' {a : NDArray} (h : ∀ x ∈ a.data, 0 ≤ x) : a.Near u 0 a := by
  refine ⟨rfl, ?_⟩
  rw [List.forall₂_same]
  exact fun x hx => Primo.Near.rfl' (h x hx)

theorem near_tabulate (s : List Nat) {f g : List Nat → ℚ} (h : ∀ idx, Primo.Near u k (f idx) (g idx)) :
    (tabulate s f).Near u k (tabulate s g) := by
  refine ⟨rfl, ?_⟩
  unfold tabulate
  simp only
  rw [List.forall₂_map_left_iff, List.forall₂_map_right_iff, List.forall₂_same]
  exact fun idx _ => h idx

theorem near_map {a b : NDArray} {f g : ℚ → ℚ} (hab : a.Near u k b)
    (h : ∀ x y, Primo.Near u k x y → Primo.Near u m (f x) (g y)) : (a.map f).Near u m (b.map g) := by
  refine ⟨hab.shape, ?_⟩
  unfold map
  simp only
  rw [List.forall₂_map_left_iff, List.forall₂_map_right_iff]
  exact hab.data.imp h

theorem Near.mono (h0 : 0 ≤ u) (hu : u < 1) {a b : NDArray} (h : a.Near u k b) (hkm : k ≤ m) :
    a.Near u m b :=
  ⟨h.shape, h.data.imp fun _ _ h => h.mono h0 hu hkm⟩

theorem near_newaxes {a b : NDArray} (h : a.Near u k b) (n j : Nat) :
    RelE (Near u k) (a.newaxes n j) (b.newaxes n j) := by
  unfold newaxes ndim
  rw [h.shape]
  split
  · exact rfl
  · exact near_tabulate _ fun idx => h.get _

theorem near_transpose {a b : NDArray} (h : a.Near u k b) (p : List Nat) :
    RelE (Near u k) (a.transpose p) (b.transpose p) := by
  unfold transpose ndim
  rw [h.shape]
  split
  · exact near_tabulate _ fun idx => h.get _
  · exact rfl

theorem near_bop {A : Arith} (hA : A.Accurate u) {a b c d : NDArray} (h : a.Near u k b)
    (h' : c.Near u m d) : RelE (Near u (k + m + 1)) (bop A.mul a c) (bop (· * ·) b d) := by
  unfold bop
  rw [h.shape, h'.shape]
  split
  · exact rfl
  · exact near_tabulate _ fun idx => hA.near_mul (h.get _) (h'.get _)

theorem near_sumAxis {A : Arith} (hA : A.Accurate u) {a b : NDArray} (h : a.Near u k b) (ax : Nat) :
    RelE (Near u (k + (b.shape.getD ax 0 - 1))) (a.sumAxisR A ax) (b.sumAxis ax) := by
  unfold sumAxisR sumAxis ndim
  rw [h.shape]
  split
  · refine near_tabulate _ fun idx => ?_
    have := hA.near_sum (l := (List.range (b.shape.getD ax 0)).map fun i => a.get (idx.insertIdx ax i))
      (l' := (List.range (b.shape.getD ax 0)).map fun i => b.get (idx.insertIdx ax i)) (k := k) (by
        rw [List.forall₂_map_left_iff, List.forall₂_map_right_iff, List.forall₂_same]
        exact fun i _ => h.get _)
    rwa [List.length_map, List.length_range] at this
  · exact rfl

end NDArray

namespace Factor

theorem Near.rfl' {f : Factor} (h : ∀ x ∈ f.potentials.data, 0 ≤ x) : f.Near u 0 f :=
  ⟨rfl, rfl, .rfl' h⟩

theorem Near.mono (h0 : 0 ≤ u) (hu : u < 1) {f g : Factor} (h : f.Near u k g) (hkm : k ≤ m) :
    f.Near u m g := ⟨h.order, h.values, h.table.mono h0 hu hkm⟩

theorem Near.contains {f g : Factor} (h : f.Near u k g) (v : Name) : f.contains v = g.contains v := by
  unfold Factor.contains
  rw [h.values]

theorem near_padAxes {a b : NDArray} (h : a.Near u k b) (n j : Nat) :
    RelE (NDArray.Near u k) (padAxes a n j) (padAxes b n j) := by
  unfold padAxes
  split
  · exact h
  · exact NDArray.near_newaxes h n j

theorem near_mul {A : Arith} (hA : A.Accurate u) (so : SetOrder) {f g f' g' : Factor}
    (hf : f.Near u k f') (hg : g.Near u m g') :
    RelE (Near u (k + m + 1)) (f.mulR A so g) (f'.mul so g') := by
  unfold mulR mul binop
  rw [hf.order, hg.order]
  split
  · exact (NDArray.near_bop hA hf.table hg.table).bind fun p q h =>
      RelE.pure ⟨rfl, hg.values, h⟩
  · split
    · exact (NDArray.near_bop hA hf.table hg.table).bind fun p q h =>
        RelE.pure ⟨rfl, hf.values, h⟩
    · simp only
      rw [hf.values, hg.values]
      refine (near_padAxes hf.table _ _).bind fun p q hpq => ?_
      refine RelE.bind_same fun vals _ => ?_
      refine (near_padAxes hg.table _ _).bind fun p' q' hpq' => ?_
      refine RelE.bind_same fun swap _ => ?_
      refine (NDArray.near_transpose hpq' _).bind fun p'' q'' hpq'' => ?_
      exact (NDArray.near_bop hA hpq hpq'').bind fun r s h => RelE.pure ⟨rfl, rfl, h⟩

theorem near_sumOut {A : Arith} (hA : A.Accurate u) {f g : Factor} (h : f.Near u k g) (v : Name) :
    RelE (Near u (k + (g.potentials.shape.getD (g.variableOrder.idxOf v) 0 - 1))) (f.sumOutR A v)
      (g.sumOut v) := by
  unfold sumOutR sumOut
  rw [h.order, h.values]
  refine RelE.bind_same fun ax hax => ?_
  rw [pyIndex_eq_ok] at hax
  refine (NDArray.near_sumAxis hA h.table ax).bind fun p q hpq => ?_
  refine RelE.bind_same fun vals _ => RelE.pure ⟨rfl, rfl, ?_⟩
  rw [hax.2] at hpq
  exact hpq

theorem near_invert {A : Arith} (hA : A.Accurate u) {f g : Factor} (h : f.Near u k g) :
    RelE (Near u (k + 1)) (f.invertR A) g.invert := by
  have hz : (0 : ℚ) ∈ f.potentials.data ↔ (0 : ℚ) ∈ g.potentials.data := by
    have := h.table.data
    generalize f.potentials.data = l at this ⊢
    generalize g.potentials.data = l' at this ⊢
    induction this with
    | nil => simp
    | cons h _ ih =>
      rw [List.mem_cons, List.mem_cons]
      exact or_congr (by rw [eq_comm, h.zero_iff hA.lt_one, eq_comm]) ih
  have hone : Primo.Near u 0 (1 : ℚ) 1 := .rfl' (by norm_num)
  unfold invertR invert
  rw [h.order]
  split
  · by_cases h0 : (0 : ℚ) ∈ g.potentials.data
    · rw [if_pos h0, if_pos (hz.2 h0)]
      exact rfl
    · rw [if_neg h0, if_neg fun h => h0 (hz.1 h)]
      refine ⟨rfl, h.values, h.table.shape, ?_⟩
      have hd := h.table.data
      have hz0 : (0 : ℚ) ∉ f.potentials.data := fun h => h0 (hz.1 h)
      unfold NDArray.map
      simp only
      generalize f.potentials.data = l at hd hz0 ⊢
      generalize g.potentials.data = l' at hd ⊢
      induction hd with
      | nil => exact .nil
      | cons h _ ih =>
        refine .cons ?_ (ih fun h' => hz0 (List.mem_cons_of_mem _ h'))
        have := hA.near_div hone h fun e => hz0 (by rw [e]; exact List.mem_cons_self)
        rwa [Nat.zero_add] at this
  · refine ⟨rfl, h.values, NDArray.near_map h.table fun x y hxy => ?_⟩
    by_cases hy : y = 0
    · rw [if_pos ((hxy.zero_iff hA.lt_one).2 hy), if_pos hy]
      exact ⟨le_refl _, by simp, by simp⟩
    · have hx : x ≠ 0 := fun e => hy ((hxy.zero_iff hA.lt_one).1 e)
      rw [if_neg hx, if_neg hy]
      have := hA.near_div hone hxy hx
      rwa [Nat.zero_add] at this

theorem near_div {A : Arith} (hA : A.Accurate u) (so : SetOrder) {f g f' g' : Factor}
    (hf : f.Near u k f') (hg : g.Near u m g') :
    RelE (Near u (k + (m + 1) + 1)) (f.divR A so g) (f'.div so g') := by
  unfold divR div
  rw [hf.values, hg.values]
  split
  · exact (near_invert hA hg).bind fun a b h => near_mul hA so hf h
  · exact rfl

theorem near_normalize {A : Arith} (hA : A.Accurate u) {f g : Factor} (h : f.Near u k g) :
    (f.normalizeR A).Near u (k + (k + (g.potentials.data.length - 1)) + 1) g.normalize := by
  have hs : Primo.Near u (k + (g.potentials.data.length - 1)) (A.sum f.potentials.data)
      g.potentials.sumAll := by
    have := hA.near_sum h.table.data
    rwa [h.table.data.length_eq] at this
  unfold normalizeR normalize
  simp only
  by_cases hp : g.potentials.sumAll > 0
  · have hp' := (hs.pos_iff hA.lt_one).2 hp
    rw [if_pos hp, if_pos hp']
    exact ⟨h.order, h.values, NDArray.near_map h.table fun x y hxy => hA.near_div hxy hs hp'.ne'⟩
  · rw [if_neg hp, if_neg fun h => hp ((hs.pos_iff hA.lt_one).1 h)]
    exact h.mono hA.nonneg hA.lt_one (by omega)

end Factor
end Primo
