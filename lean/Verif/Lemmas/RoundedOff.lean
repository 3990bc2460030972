import Verif.Spec.RoundedDecision
import Verif.Lemmas.Rounded

/-! # Rounding errors of signed numbers: three runs side by side

The rounded run, the exact run, and the exact run with absolute values of utilities, which bounds the
error. -/

namespace Primo

variable {u : ℚ} {k m : Nat} {x y z b c p q a d : ℚ}

/-- the growth of `k` roundings -/
def grow (u : ℚ) (k : Nat) : ℚ := 1 / (1 - u) ^ k

/-- `x` is off from `y` by at most as much as `k` roundings of numbers of total absolute value `b` -/
def Off (u : ℚ) (k : Nat) (x y b : ℚ) : Prop := |y| ≤ b ∧ |x - y| ≤ (grow u k - 1) * b

/-- a probability in the three runs -/
def NearT (u : ℚ) (k : Nat) (x y b : ℚ) : Prop := Near u k x y ∧ b = y

theorem one_le_grow (h0 : 0 ≤ u) (h1 : u < 1) (k : Nat) : 1 ≤ grow u k := by
  unfold grow
  rw [le_div_iff₀ (Near.pow_pos h1 k), one_mul]
  exact Near.pow_le_one h0 h1 k

theorem grow_add (u : ℚ) (k m : Nat) : grow u (k + m) = grow u k * grow u m := by
  unfold grow; rw [pow_add]; field_simp

theorem grow_zero (u : ℚ) : grow u 0 = 1 := by simp [grow]

theorem le_grow_one (h1 : u < 1) : 1 + u ≤ grow u 1 := by
  unfold grow
  rw [pow_one, le_div_iff₀ (by linarith)]
  nlinarith [mul_self_nonneg u]

theorem grow_mono (h0 : 0 ≤ u) (h1 : u < 1) (h : k ≤ m) : grow u k ≤ grow u m := by
  obtain ⟨j, rfl⟩ := Nat.exists_eq_add_of_le h
  rw [grow_add]
  have := one_le_grow h0 h1 j
  have := one_le_grow h0 h1 k
  nlinarith

theorem Near.le_grow (h1 : u < 1) (h : Near u k p q) : p ≤ grow u k * q := by
  unfold grow
  rw [one_div_mul_eq_div, le_div_iff₀ (Near.pow_pos h1 k)]
  exact h.2.2

theorem Near.abs_sub (h0 : 0 ≤ u) (h1 : u < 1) (h : Near u k p q) : |p - q| ≤ (grow u k - 1) * q := by
  have hg := one_le_grow h0 h1 k
  have h2 := h.le_grow h1
  have hq := h.1
  rw [abs_le]
  constructor
  · have h3 := h.2.1
    have e : (1 - u) ^ k * grow u k = 1 := by
      unfold grow; field_simp [(Near.pow_pos h1 k).ne']
    have h4 : 1 - (1 - u) ^ k ≤ grow u k - 1 := by
      have := Near.pow_le_one h0 h1 k
      have := Near.pow_pos h1 k
      nlinarith [mul_self_nonneg (grow u k - 1), mul_self_nonneg ((1 - u) ^ k - 1)]
    nlinarith
  · linarith

namespace Off

theorem zero (u : ℚ) (k : Nat) : Off u k 0 0 0 := by simp [Off]

theorem nonneg (h : Off u k x y b) : 0 ≤ b := (abs_nonneg y).trans h.1

theorem exact (x : ℚ) (u : ℚ) : Off u 0 x x |x| := by simp [Off, grow_zero]

theorem le (h : Off u k x y b) : |x| ≤ grow u k * b := by
  have : |x| ≤ |x - y| + |y| := by
    have := abs_add_le (x - y) y
    rwa [sub_add_cancel] at this
  linarith [h.1, h.2]

theorem mono (h0 : 0 ≤ u) (h1 : u < 1) (h : Off u k x y b) (hkm : k ≤ m) : Off u m x y b :=
  ⟨h.1, h.2.trans (mul_le_mul_of_nonneg_right (by linarith [grow_mono h0 h1 hkm]) h.nonneg)⟩

theorem of_near (h0 : 0 ≤ u) (h1 : u < 1) (h : Near u k p q) : Off u k p q q :=
  ⟨(abs_of_nonneg h.1).le, h.abs_sub h0 h1⟩

theorem round (h1 : u < 1) (h : Off u k x y b) (hz : |z - x| ≤ u * |x|) (h0 : 0 ≤ u) :
    Off u (k + 1) z y b := by
  refine ⟨h.1, ?_⟩
  have hb := h.nonneg
  have hx := h.le
  have hg := one_le_grow h0 h1 k
  have h2 : |z - y| ≤ |z - x| + |x - y| := abs_sub_le z x y
  have h3 := le_grow_one h1
  rw [grow_add]
  have h4 : u * |x| ≤ u * (grow u k * b) := mul_le_mul_of_nonneg_left hx h0
  have h5 : 0 ≤ grow u k * b := mul_nonneg (by linarith) hb
  have h6 : (1 + u) * (grow u k * b) ≤ grow u 1 * (grow u k * b) := mul_le_mul_of_nonneg_right h3 h5
  have h7 := h.2
  nlinarith

theorem add (h : Off u k x y b) (h' : Off u k a d c) : Off u k (x + a) (y + d) (b + c) := by
  refine ⟨(abs_add_le _ _).trans (add_le_add h.1 h'.1), ?_⟩
  have : x + a - (y + d) = (x - y) + (a - d) := by ring
  rw [this, mul_add]
  exact (abs_add_le _ _).trans (add_le_add h.2 h'.2)

theorem mul (h0 : 0 ≤ u) (h1 : u < 1) (hp : Near u k p q) (h : Off u m x y b) :
    Off u (k + m) (p * x) (q * y) (q * b) := by
  have hq := hp.1
  have hp0 := hp.nonneg h1
  have hb := h.nonneg
  refine ⟨by rw [abs_mul, abs_of_nonneg hq]; exact mul_le_mul_of_nonneg_left h.1 hq, ?_⟩
  have e : p * x - q * y = p * (x - y) + (p - q) * y := by ring
  rw [e]
  refine (abs_add_le _ _).trans ?_
  rw [abs_mul, abs_mul, abs_of_nonneg hp0, grow_add]
  have h2 : p * |x - y| ≤ grow u k * q * ((grow u m - 1) * b) :=
    mul_le_mul (hp.le_grow h1) h.2 (abs_nonneg _) (mul_nonneg (by linarith [one_le_grow h0 h1 k]) hq)
  have h3 : |p - q| * |y| ≤ (grow u k - 1) * q * b :=
    mul_le_mul (hp.abs_sub h0 h1) h.1 (abs_nonneg _)
      (mul_nonneg (by linarith [one_le_grow h0 h1 k]) hq)
  nlinarith

/-- the error of a sum of signed numbers, whatever the order of the additions -/
theorem tree (h0 : 0 ≤ u) (h1 : u < 1) {add : ℚ → ℚ → ℚ}
    (hadd : ∀ a b, |add a b - (a + b)| ≤ u * |a + b|) : ∀ t : SumTree,
      0 < t.leaves.length ∧
        Off u (t.leaves.length - 1) (t.eval add) t.leaves.sum (t.leaves.map fun x => |x|).sum
  | .leaf x => ⟨by simp [SumTree.leaves], by simpa [SumTree.leaves, SumTree.eval] using Off.exact x u⟩
  | .node l r => by
    obtain ⟨hl, nl⟩ := tree h0 h1 hadd l
    obtain ⟨hr, nr⟩ := tree h0 h1 hadd r
    refine ⟨by simp [SumTree.leaves]; omega, ?_⟩
    rw [SumTree.leaves, List.length_append, List.sum_append, SumTree.eval, List.map_append,
      List.sum_append]
    have hk : l.leaves.length + r.leaves.length - 1 =
        (l.leaves.length - 1 + (r.leaves.length - 1)) + 1 := by omega
    rw [hk]
    exact ((nl.mono h0 h1 (by omega)).add (nr.mono h0 h1 (by omega))).round h1 (hadd _ _) h0

/-- adding up the entries of three lists -/
theorem sum_range (n : Nat) {x y b : Nat → ℚ} (h : ∀ i, Off u k (x i) (y i) (b i)) :
    Off u k ((List.range n).map x).sum ((List.range n).map y).sum ((List.range n).map b).sum := by
  induction List.range n with
  | nil => exact Off.zero u k
  | cons i l ih => simp only [List.map_cons, List.sum_cons]; exact (h i).add ih

end Off

namespace Arith.Accurate
variable {A : Arith} (hA : A.Accurate u)
include hA

theorem off_add (h : Off u k x y b) (h' : Off u k a d c) : Off u (k + 1) (A.add x a) (y + d) (b + c) :=
  (h.add h').round hA.lt_one (hA.add _ _) hA.nonneg

theorem off_mul (hp : Near u k p q) (h : Off u m x y b) :
    Off u (k + m + 1) (A.mul p x) (q * y) (q * b) :=
  (Off.mul hA.nonneg hA.lt_one hp h).round hA.lt_one (hA.mul _ _) hA.nonneg

theorem off_mul' (h : Off u m x y b) (hp : Near u k p q) :
    Off u (m + k + 1) (A.mul x p) (y * q) (b * q) := by
  have := (Off.mul hA.nonneg hA.lt_one hp h).round (z := A.mul x p) hA.lt_one
    (by rw [mul_comm p x]; exact hA.mul _ _) hA.nonneg
  rw [mul_comm y, mul_comm b, Nat.add_comm m]
  exact this

theorem off_sum (n : Nat) {x y b : Nat → ℚ} (h : ∀ i, Off u k (x i) (y i) (b i)) :
    Off u (k + (n - 1)) (A.sum ((List.range n).map x)) ((List.range n).map y).sum
      ((List.range n).map b).sum := by
  have hs := Off.sum_range n h
  by_cases hn : n = 0
  · subst hn
    simpa [hA.sum_nil] using Off.zero u _
  · obtain ⟨t, t1, t2⟩ := hA.sum ((List.range n).map x) (by simpa using hn)
    have ht := (Off.tree hA.nonneg hA.lt_one hA.add t).2
    rw [t1.sum_eq, (t1.map _).sum_eq, t1.length_eq, ← t2, List.length_map, List.length_range] at ht
    refine ⟨hs.1, ?_⟩
    have g1 := one_le_grow hA.nonneg hA.lt_one (n - 1)
    have hle : (((List.range n).map x).map fun x => |x|).sum ≤
        grow u k * ((List.range n).map b).sum := by
      rw [List.map_map]
      induction List.range n with
      | nil => simp
      | cons i l ih =>
        simp only [List.map_cons, List.sum_cons, mul_add, Function.comp_apply] at ih ⊢
        exact add_le_add (h i).le ih
    have h2 := abs_sub_le (A.sum ((List.range n).map x)) ((List.range n).map x).sum
      ((List.range n).map y).sum
    have h3 := ht.2.trans (mul_le_mul_of_nonneg_left hle (by linarith))
    have h4 := hs.2
    rw [grow_add]
    nlinarith

end Arith.Accurate

/-! ## three results -/

/-- all raise the same exception, or all return and the values are related -/
def Rel3 {α β γ : Type} (R : α → β → γ → Prop) :
    Except PyErr α → Except PyErr β → Except PyErr γ → Prop
  | .ok a, .ok b, .ok c => R a b c
  | .error e, .error e', .error e'' => e = e' ∧ e' = e''
  | _, _, _ => False

namespace Rel3
variable {α β γ α' β' γ' δ : Type} {R : α → β → γ → Prop} {S : α' → β' → γ' → Prop}

theorem bind {x : Except PyErr α} {y : Except PyErr β} {z : Except PyErr γ} (h : Rel3 R x y z)
    {f : α → Except PyErr α'} {g : β → Except PyErr β'} {j : γ → Except PyErr γ'}
    (hf : ∀ a b c, R a b c → Rel3 S (f a) (g b) (j c)) : Rel3 S (x >>= f) (y >>= g) (z >>= j) := by
  cases x <;> cases y <;> cases z
  all_goals first | exact h.elim | exact hf _ _ _ h | exact h

theorem bind_same {x : Except PyErr δ} {f : δ → Except PyErr α'} {g : δ → Except PyErr β'}
    {j : δ → Except PyErr γ'} (hf : ∀ a, x = .ok a → Rel3 S (f a) (g a) (j a)) :
    Rel3 S (x >>= f) (x >>= g) (x >>= j) := by
  cases x
  · exact ⟨rfl, rfl⟩
  · exact hf _ rfl

theorem pure {a : α} {b : β} {c : γ} (h : R a b c) :
    Rel3 R (Pure.pure a) (Pure.pure b) (Pure.pure c) := h

theorem mono {S : α → β → γ → Prop} {x : Except PyErr α} {y : Except PyErr β} {z : Except PyErr γ}
    (h : Rel3 R x y z) (hRS : ∀ a b c, R a b c → S a b c) : Rel3 S x y z := by
  cases x <;> cases y <;> cases z
  all_goals first | exact h.elim | exact hRS _ _ _ h | exact h

/-- use what is known about the middle result -/
theorem mono_ok {S : α → β → γ → Prop} {x : Except PyErr α} {y : Except PyErr β} {z : Except PyErr γ}
    (h : Rel3 R x y z) (hRS : ∀ a b c, y = .ok b → R a b c → S a b c) : Rel3 S x y z := by
  cases x <;> cases y <;> cases z
  all_goals first | exact h.elim | exact hRS _ _ _ rfl h | exact h

theorem ok_mid {x : Except PyErr α} {y : Except PyErr β} {z : Except PyErr γ} (h : Rel3 R x y z) {b : β}
    (hy : y = .ok b) : ∃ a c, x = .ok a ∧ z = .ok c ∧ R a b c := by
  subst hy
  cases x <;> cases z
  all_goals first | exact h.elim | exact ⟨_, _, rfl, rfl, h⟩

theorem error_mid {x : Except PyErr α} {y : Except PyErr β} {z : Except PyErr γ} (h : Rel3 R x y z)
    {e : PyErr} (hy : y = .error e) : x = .error e := by
  subst hy
  cases x <;> cases z
  all_goals first | exact h.elim | (rw [h.1])

end Rel3

/-! ## arrays and factors -/

/-- a relation between numbers that holds for zeros -/
abbrev Entry := ℚ → ℚ → ℚ → Prop

namespace NDArray

/-- same shapes, related entries -/
structure R3 (R : Entry) (a b c : NDArray) : Prop where
  shape : a.shape = b.shape
  shape' : c.shape = b.shape
  data : ∀ i, R (a.data.getD i 0) (b.data.getD i 0) (c.data.getD i 0)

variable {R S T : Entry} {a b c a' b' c' : NDArray}

theorem R3.get (h : R3 R a b c) (idx : List Nat) : R (a.get idx) (b.get idx) (c.get idx) := by
  unfold NDArray.get
  rw [h.shape, h.shape']
  exact h.data _

theorem r3_tabulate (h0 : R 0 0 0) (s : List Nat) {f g j : List Nat → ℚ}
    (h : ∀ idx, R (f idx) (g idx) (j idx)) : R3 R (tabulate s f) (tabulate s g) (tabulate s j) := by
  refine ⟨rfl, rfl, fun i => ?_⟩
  unfold tabulate
  simp only [List.getD_eq_getElem?_getD, List.getElem?_map]
  cases (allIdx s)[i]? with
  | none => exact h0
  | some idx => exact h idx

theorem r3_newaxes (h0 : R 0 0 0) (h : R3 R a b c) (n j : Nat) :
    Rel3 (R3 R) (a.newaxes n j) (b.newaxes n j) (c.newaxes n j) := by
  unfold newaxes ndim
  rw [h.shape, h.shape']
  split
  · exact ⟨rfl, rfl⟩
  · exact r3_tabulate h0 _ fun idx => h.get _

theorem r3_transpose (h0 : R 0 0 0) (h : R3 R a b c) (p : List Nat) :
    Rel3 (R3 R) (a.transpose p) (b.transpose p) (c.transpose p) := by
  unfold transpose ndim
  rw [h.shape, h.shape']
  split
  · exact r3_tabulate h0 _ fun idx => h.get _
  · exact ⟨rfl, rfl⟩

theorem r3_bop (t0 : T 0 0 0) {o o' : ℚ → ℚ → ℚ}
    (ho : ∀ x y z x' y' z', R x y z → S x' y' z' → T (o x x') (o' y y') (o' z z'))
    (h : R3 R a b c) (h' : R3 S a' b' c') : Rel3 (R3 T) (bop o a a') (bop o' b b') (bop o' c c') := by
  unfold bop
  rw [h.shape, h.shape', h'.shape, h'.shape']
  split
  · exact ⟨rfl, rfl⟩
  · exact r3_tabulate t0 _ fun idx => ho _ _ _ _ _ _ (h.get _) (h'.get _)

theorem r3_sumAxis {A : Arith} (ax : Nat) (t0 : T 0 0 0)
    (hs : ∀ x y z : Nat → ℚ, (∀ i, R (x i) (y i) (z i)) →
      T (A.sum ((List.range (b.shape.getD ax 0)).map x)) ((List.range (b.shape.getD ax 0)).map y).sum
        ((List.range (b.shape.getD ax 0)).map z).sum)
    (h : R3 R a b c) : Rel3 (R3 T) (a.sumAxisR A ax) (b.sumAxis ax) (c.sumAxis ax) := by
  unfold sumAxisR sumAxis ndim
  rw [h.shape, h.shape']
  split
  · exact r3_tabulate t0 _ fun idx => hs _ _ _ fun i => h.get _
  · exact ⟨rfl, rfl⟩

end NDArray

namespace Factor

/-- same variables, related entries -/
structure R3 (R : Entry) (f g h : Factor) : Prop where
  order : f.variableOrder = g.variableOrder
  order' : h.variableOrder = g.variableOrder
  values : f.values = g.values
  values' : h.values = g.values
  table : NDArray.R3 R f.potentials g.potentials h.potentials

variable {R S T : Entry} {f g h f' g' h' : Factor}

theorem R3.mono (hf : R3 R f g h) (hRS : ∀ x y z, R x y z → S x y z) : R3 S f g h :=
  ⟨hf.order, hf.order', hf.values, hf.values', hf.table.shape, hf.table.shape',
    fun i => hRS _ _ _ (hf.table.data i)⟩

theorem r3_padAxes {a b c : NDArray} (h0 : R 0 0 0) (h : NDArray.R3 R a b c) (n j : Nat) :
    Rel3 (NDArray.R3 R) (padAxes a n j) (padAxes b n j) (padAxes c n j) := by
  unfold padAxes
  split
  · exact h
  · exact NDArray.r3_newaxes h0 h n j

theorem r3_binop (so : SetOrder) (r0 : R 0 0 0) (s0 : S 0 0 0) (t0 : T 0 0 0) {o o' : ℚ → ℚ → ℚ}
    (ho : ∀ x y z x' y' z', R x y z → S x' y' z' → T (o x x') (o' y y') (o' z z'))
    (hf : R3 R f g h) (hg : R3 S f' g' h') :
    Rel3 (R3 T) (f.binop o so f') (g.binop o' so g') (h.binop o' so h') := by
  unfold binop
  rw [hf.order, hf.order', hg.order, hg.order']
  split
  · exact (NDArray.r3_bop t0 ho hf.table hg.table).bind fun p q r h =>
      Rel3.pure ⟨rfl, rfl, hg.values, hg.values', h⟩
  · split
    · exact (NDArray.r3_bop t0 ho hf.table hg.table).bind fun p q r h =>
        Rel3.pure ⟨rfl, rfl, hf.values, hf.values', h⟩
    · simp only
      rw [hf.values, hf.values', hg.values, hg.values']
      refine (r3_padAxes r0 hf.table _ _).bind fun p q r hpq => ?_
      refine Rel3.bind_same fun vals _ => ?_
      refine (r3_padAxes s0 hg.table _ _).bind fun p' q' r' hpq' => ?_
      refine Rel3.bind_same fun swap _ => ?_
      refine (NDArray.r3_transpose s0 hpq' _).bind fun p'' q'' r'' hpq'' => ?_
      exact (NDArray.r3_bop t0 ho hpq hpq'').bind fun _ _ _ h => Rel3.pure ⟨rfl, rfl, rfl, rfl, h⟩

theorem r3_sumOut {A : Arith} (v : Name) (t0 : T 0 0 0)
    (hs : ∀ x y z : Nat → ℚ, (∀ i, R (x i) (y i) (z i)) →
      let n := g.potentials.shape.getD (g.variableOrder.idxOf v) 0
      T (A.sum ((List.range n).map x)) ((List.range n).map y).sum ((List.range n).map z).sum)
    (hf : R3 R f g h) : Rel3 (R3 T) (f.marginalizeR A [v]) (g.marginalize [v]) (h.marginalize [v]) := by
  unfold marginalizeR marginalize
  simp only [List.foldlM_cons, List.foldlM_nil, bind_pure]
  unfold sumOutR sumOut
  rw [hf.order, hf.order', hf.values, hf.values']
  refine Rel3.bind_same fun ax hax => ?_
  rw [pyIndex_eq_ok] at hax
  rw [← hax.2] at hs
  refine (NDArray.r3_sumAxis ax t0 hs hf.table).bind fun p q r hpq => ?_
  exact Rel3.bind_same fun vals _ => Rel3.pure ⟨rfl, rfl, rfl, rfl, hpq⟩

end Factor

/-! ## probabilities and utilities -/

theorem NearT.zero (u : ℚ) (k : Nat) : NearT u k 0 0 0 := ⟨⟨le_rfl, by simp, by simp⟩, rfl⟩

/-- probability tables in the three runs -/
abbrev Factor.PT (u : ℚ) (k : Nat) := Factor.R3 (NearT u k)
/-- utility tables in the three runs -/
abbrev Factor.UT (u : ℚ) (k : Nat) := Factor.R3 (Off u k)

namespace Factor
variable {A : Arith} (hA : A.Accurate u) {f g h f' g' h' : Factor}

theorem PT.mono (h0 : 0 ≤ u) (h1 : u < 1) (hf : PT u k f g h) (hkm : k ≤ m) : PT u m f g h :=
  R3.mono hf fun _ _ _ hx => ⟨hx.1.mono h0 h1 hkm, hx.2⟩

theorem UT.mono (h0 : 0 ≤ u) (h1 : u < 1) (hf : UT u k f g h) (hkm : k ≤ m) : UT u m f g h :=
  R3.mono hf fun _ _ _ hx => hx.mono h0 h1 hkm

include hA

theorem pt_mul (so : SetOrder) (hf : PT u k f g h) (hg : PT u m f' g' h') :
    Rel3 (PT u (k + m + 1)) (f.mulR A so f') (g.mul so g') (h.mul so h') :=
  r3_binop so (.zero _ _) (.zero _ _) (.zero _ _) (fun _ _ _ _ _ _ a b =>
    ⟨hA.near_mul a.1 b.1, by rw [a.2, b.2]⟩) hf hg

theorem ut_add (so : SetOrder) (hf : UT u k f g h) (hg : UT u k f' g' h') :
    Rel3 (UT u (k + 1)) (f.addR A so f') (g.add so g') (h.add so h') :=
  r3_binop so (Off.zero _ _) (Off.zero _ _) (Off.zero _ _) (fun _ _ _ _ _ _ a b =>
    hA.off_add a b) hf hg

theorem put_mul (so : SetOrder) (hf : PT u k f g h) (hg : UT u m f' g' h') :
    Rel3 (UT u (k + m + 1)) (f.mulR A so f') (g.mul so g') (h.mul so h') :=
  r3_binop so (NearT.zero _ _) (Off.zero _ _) (Off.zero _ _) (fun _ _ _ _ _ _ a b => by
    have := hA.off_mul a.1 b
    rwa [← a.2] at this ⊢) hf hg

theorem upt_mul (so : SetOrder) (hf : UT u m f g h) (hg : PT u k f' g' h') :
    Rel3 (UT u (m + k + 1)) (f.mulR A so f') (g.mul so g') (h.mul so h') :=
  r3_binop so (Off.zero _ _) (NearT.zero _ _) (Off.zero _ _) (fun _ _ _ _ _ _ a b => by
    have := hA.off_mul' a b.1
    rwa [← b.2] at this ⊢) hf hg

theorem pt_sumOut (v : Name) (hf : PT u k f g h) :
    Rel3 (PT u (k + (g.potentials.shape.getD (g.variableOrder.idxOf v) 0 - 1))) (f.marginalizeR A [v])
      (g.marginalize [v]) (h.marginalize [v]) :=
  r3_sumOut v (.zero _ _) (fun x y z hxyz => by
    dsimp only
    refine ⟨?_, by rw [show z = y from funext fun i => (hxyz i).2]⟩
    have := hA.near_sum (k := k) (l := (List.range (g.potentials.shape.getD (g.variableOrder.idxOf v) 0)).map x)
      (l' := (List.range (g.potentials.shape.getD (g.variableOrder.idxOf v) 0)).map y) (by
        rw [List.forall₂_map_left_iff, List.forall₂_map_right_iff, List.forall₂_same]
        exact fun i _ => (hxyz i).1)
    rwa [List.length_map, List.length_range] at this) hf

theorem ut_sumOut (v : Name) (hf : UT u k f g h) :
    Rel3 (UT u (k + (g.potentials.shape.getD (g.variableOrder.idxOf v) 0 - 1))) (f.marginalizeR A [v])
      (g.marginalize [v]) (h.marginalize [v]) :=
  r3_sumOut v (Off.zero _ _) (fun _ _ _ hxyz => hA.off_sum _ hxyz) hf

theorem pt_invert (hf : PT u k f g h) :
    Rel3 (PT u (k + 1)) (f.invertR A) g.invert h.invert := by
  have hn : f.Near u k g := by
    refine ⟨hf.order, hf.values, hf.table.shape, ?_⟩
    rw [List.forall₂_iff_get]
    have hl : f.potentials.data.length = g.potentials.data.length := by
      rw [f.potentials.size_eq, g.potentials.size_eq, hf.table.shape]
    refine ⟨hl, fun i h1 h2 => ?_⟩
    have := (hf.table.data i).1
    rw [List.getD_eq_getElem?_getD, List.getD_eq_getElem?_getD, List.getElem?_eq_getElem h1,
        List.getElem?_eq_getElem h2, Option.getD_some, Option.getD_some] at this
    exact this
  have he : h = g := by
    have hd : h.potentials.data = g.potentials.data := by
      have hl : h.potentials.data.length = g.potentials.data.length := by
        rw [h.potentials.size_eq, g.potentials.size_eq, hf.table.shape']
      refine List.ext_getElem hl fun i h1 h2 => ?_
      have := (hf.table.data i).2
      rwa [List.getD_eq_getElem?_getD, List.getD_eq_getElem?_getD, List.getElem?_eq_getElem h1,
        List.getElem?_eq_getElem h2, Option.getD_some, Option.getD_some] at this
    have h1 := hf.order'
    have h2 := hf.values'
    have h3 := hf.table.shape'
    obtain ⟨⟨_, _, _⟩, _, _⟩ := h
    obtain ⟨⟨_, _, _⟩, _, _⟩ := g
    simp only at h1 h2 h3 hd
    subst h1; subst h2; subst h3; subst hd
    rfl
  subst he
  have := near_invert hA hn
  cases hx : f.invertR A <;> cases hy : h.invert <;> rw [hx, hy] at this
  · exact ⟨this, rfl⟩
  · exact this.elim
  · exact this.elim
  · have hr : Near u (k + 1) _ _ := this
    exact ⟨hr.order, rfl, hr.values, rfl, hr.table.shape, rfl, fun i => ⟨getD_near hr.table.data i, rfl⟩⟩

theorem upt_div (so : SetOrder) (hf : UT u m f g h) (hg : PT u k f' g' h') :
    Rel3 (UT u (m + (k + 1) + 1)) (f.divR A so f') (g.div so g') (h.div so h') := by
  unfold divR div
  rw [hf.values, hf.values', hg.values, hg.values']
  split
  · exact (pt_invert hA hg).bind fun a b c h => upt_mul hA so hf h
  · exact ⟨rfl, rfl⟩

end Factor
end Primo
