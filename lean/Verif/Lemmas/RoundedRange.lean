import Verif.Lemmas.RoundedNet
import Verif.Spec.Range
import Mathlib.Algebra.Order.Monoid.Prod
import Mathlib.Data.List.Perm.Basic

/-! # Roundings in a limited range of numbers -/

namespace Primo

variable {u δ m M : ℚ} {d d' k k' D K : Nat} {a b c e x y z : ℚ}

/-- `x` is within `k` roundings of `y`, which is zero or a sum of products of `d` entries. -/
structure NearIn (u m M : ℚ) (d k : Nat) (x y : ℚ) : Prop where
  near : Near u k x y
  range : y = 0 ∨ m ^ d ≤ y ∧ y ≤ M ^ d * 2 ^ k

/-- the constants: `K` roundings and products of `D` entries stay in the range, and so do their quotients -/
structure Headroom (A : Arith) (u δ m M : ℚ) (D K : Nat) : Prop where
  acc : A.AccurateWithin u δ
  pos : 0 < m
  le_one : m ≤ 1
  one_le : 1 ≤ M
  room : δ * (2 ^ K * M ^ D) ≤ m ^ D * (1 - u) ^ K

namespace NearIn

theorem zero : NearIn u m M d k 0 0 := ⟨⟨le_refl _, by simp, by simp⟩, .inl rfl⟩

theorem mono (h0 : 0 ≤ u) (hu : u < 1) (hp : 0 < m) (h1 : m ≤ 1) (hM : 1 ≤ M) (h : NearIn u m M d k x y)
    (hd : d ≤ d') (hk : k ≤ k') : NearIn u m M d' k' x y := by
  refine ⟨h.near.mono h0 hu hk, h.range.imp_right fun ⟨r1, r2⟩ => ⟨?_, r2.trans ?_⟩⟩
  · exact (pow_le_pow_of_le_one hp.le h1 hd).trans r1
  · exact mul_le_mul (pow_le_pow_right₀ hM hd) (pow_le_pow_right₀ (by norm_num) hk) (by positivity)
      (by positivity)

theorem of_entry (hp : 0 < m) (h : x = 0 ∨ m ≤ x ∧ x ≤ M) : NearIn u m M 1 0 x x := by
  refine ⟨.rfl' ?_, by simpa using h⟩
  rcases h with rfl | h
  · exact le_refl _
  · exact hp.le.trans h.1

theorem one : NearIn u m M 0 0 1 1 := ⟨.rfl' zero_le_one, .inr (by simp)⟩

end NearIn

namespace Headroom
variable {A : Arith} (hA : Headroom A u δ m M D K)
include hA

theorem big_pos : 0 < (2 : ℚ) ^ K * M ^ D := mul_pos (by positivity) (pow_pos (by linarith [hA.one_le]) _)

/-- what can be represented -/
theorem representable (h : Near u k x y) (hk : k ≤ K)
    (hr : y = 0 ∨ m ^ D ≤ y * (2 ^ K * M ^ D) ∧ y * m ^ D ≤ 2 ^ K * M ^ D) : Representable δ x := by
  have hu := hA.acc.lt_one
  have hx := h.nonneg hu
  rcases hr with hy | ⟨h1, h2⟩
  · exact .inl ((h.zero_iff hu).2 hy)
  · have hB := hA.big_pos
    have hq := Near.pow_pos hu K
    have hmD := pow_pos hA.pos D
    have hK := h.mono hA.acc.nonneg hu hk
    refine .inr ?_
    rw [abs_of_nonneg hx]
    constructor
    · refine le_of_mul_le_mul_right (hA.room.trans ?_) hB
      calc m ^ D * (1 - u) ^ K ≤ y * (2 ^ K * M ^ D) * (1 - u) ^ K := mul_le_mul_of_nonneg_right h1 hq.le
        _ = y * (1 - u) ^ K * (2 ^ K * M ^ D) := by ring
        _ ≤ x * (2 ^ K * M ^ D) := mul_le_mul_of_nonneg_right hK.2.1 hB.le
    · refine le_of_mul_le_mul_right ?_ hB
      calc x * δ * (2 ^ K * M ^ D) = x * (δ * (2 ^ K * M ^ D)) := by ring
        _ ≤ x * (m ^ D * (1 - u) ^ K) := mul_le_mul_of_nonneg_left hA.room hx
        _ = x * (1 - u) ^ K * m ^ D := by ring
        _ ≤ y * m ^ D := mul_le_mul_of_nonneg_right hK.2.2 hmD.le
        _ ≤ 1 * (2 ^ K * M ^ D) := by rw [one_mul]; exact h2

theorem tame (hd : d ≤ D) (hk : k ≤ K) (hy : 0 ≤ y) (hr : y = 0 ∨ m ^ d ≤ y ∧ y ≤ M ^ d * 2 ^ k) :
    y = 0 ∨ m ^ D ≤ y * (2 ^ K * M ^ D) ∧ y * m ^ D ≤ 2 ^ K * M ^ D := by
  refine hr.imp_right fun ⟨h1, h2⟩ => ?_
  have hM := hA.one_le
  have hmD := pow_pos hA.pos D
  have hB1 : (1 : ℚ) ≤ 2 ^ K * M ^ D :=
    one_le_mul_of_one_le_of_one_le (one_le_pow₀ (by norm_num)) (one_le_pow₀ hM)
  constructor
  · calc m ^ D ≤ m ^ d := pow_le_pow_of_le_one hA.pos.le hA.le_one hd
      _ ≤ y := h1
      _ ≤ _ := le_mul_of_one_le_right hy hB1
  · calc y * m ^ D ≤ y * 1 := mul_le_mul_of_nonneg_left (pow_le_one₀ hA.pos.le hA.le_one) hy
      _ = y := mul_one _
      _ ≤ M ^ d * 2 ^ k := h2
      _ ≤ M ^ D * 2 ^ K := mul_le_mul (pow_le_pow_right₀ hM hd) (pow_le_pow_right₀ (by norm_num) hk)
          (by positivity) (by positivity)
      _ = 2 ^ K * M ^ D := mul_comm _ _

theorem mono (h : NearIn u m M d k x y) (hd : d ≤ d') (hk : k ≤ k') : NearIn u m M d' k' x y :=
  h.mono hA.acc.nonneg hA.acc.lt_one hA.pos hA.le_one hA.one_le hd hk

theorem near_mul (h : NearIn u m M d k a b) (h' : NearIn u m M d' k' c e) (hd : d + d' ≤ D)
    (hk : k + k' + 1 ≤ K) : NearIn u m M (d + d') (k + k' + 1) (A.mul a c) (b * e) := by
  have hn := h.near.mul hA.acc.lt_one h'.near
  have hM : 0 < M := by linarith [hA.one_le]
  have hr : b * e = 0 ∨ m ^ (d + d') ≤ b * e ∧ b * e ≤ M ^ (d + d') * 2 ^ (k + k') := by
    rcases h.range with rfl | ⟨h1, h2⟩
    · exact .inl (zero_mul _)
    · rcases h'.range with rfl | ⟨h3, h4⟩
      · exact .inl (mul_zero _)
      · rw [pow_add, pow_add, pow_add]
        refine .inr ⟨mul_le_mul h1 h3 (pow_pos hA.pos _).le h.near.1, ?_⟩
        calc b * e ≤ (M ^ d * 2 ^ k) * (M ^ d' * 2 ^ k') := mul_le_mul h2 h4 h'.near.1 (by positivity)
          _ = _ := by ring
  refine ⟨hn.round hA.acc.nonneg hA.acc.lt_one (hA.acc.mul _ _ ?_), ?_⟩
  · exact hA.representable hn (by omega) (hA.tame hd (by omega) hn.1 hr)
  · refine hr.imp_right fun ⟨h1, h2⟩ => ⟨h1, h2.trans ?_⟩
    exact mul_le_mul_of_nonneg_left (pow_le_pow_right₀ (by norm_num) (Nat.le_succ _)) (by positivity)

theorem near_add (h : NearIn u m M d k a b) (h' : NearIn u m M d k c e) (hd : d ≤ D) (hk : k + 1 ≤ K) :
    NearIn u m M d (k + 1) (A.add a c) (b + e) := by
  have hn := h.near.add h'.near
  have hM : 0 < M := by linarith [hA.one_le]
  have hpow : M ^ d * 2 ^ (k + 1) = M ^ d * 2 ^ k + M ^ d * 2 ^ k := by rw [pow_succ]; ring
  have hp : 0 < M ^ d * 2 ^ k := by positivity
  have hr : b + e = 0 ∨ m ^ d ≤ b + e ∧ b + e ≤ M ^ d * 2 ^ (k + 1) := by
    rw [hpow]
    rcases h.range with rfl | ⟨h1, h2⟩
    · rw [zero_add]
      exact h'.range.imp_right fun ⟨h1, h2⟩ => ⟨h1, by linarith⟩
    · have he := h'.near.1
      have hle : e ≤ M ^ d * 2 ^ k := by
        rcases h'.range with rfl | ⟨_, h4⟩
        · exact hp.le
        · exact h4
      exact .inr ⟨by linarith, by linarith⟩
  exact ⟨hn.round hA.acc.nonneg hA.acc.lt_one (hA.acc.add _ _
    (hA.representable hn (by omega) (hA.tame hd hk hn.1 hr))), hr⟩

theorem near_tree (hd : d ≤ D) : ∀ (t : SumTree) {l : List ℚ}, List.Forall₂ (NearIn u m M d k) t.leaves l →
    k + (t.leaves.length - 1) ≤ K →
    0 < t.leaves.length ∧ NearIn u m M d (k + (t.leaves.length - 1)) (t.eval A.add) l.sum
  | .leaf x, l, h, _ => by
    rw [SumTree.leaves] at h
    cases h with
    | cons h1 h2 =>
      cases h2
      refine ⟨by simp [SumTree.leaves], ?_⟩
      simpa [SumTree.leaves, SumTree.eval] using h1
  | .node t t', l, h, hk => by
    rw [SumTree.leaves] at h
    have h1 := List.forall₂_take_append l _ _ h.flip
    have h2 := List.forall₂_drop_append l _ _ h.flip
    rw [SumTree.leaves, List.length_append] at hk
    obtain ⟨p1, n1⟩ := near_tree hd t h1.flip (by omega)
    obtain ⟨p2, n2⟩ := near_tree hd t' h2.flip (by omega)
    refine ⟨by simp [SumTree.leaves]; omega, ?_⟩
    rw [SumTree.leaves, List.length_append, SumTree.eval, ← List.take_append_drop t.leaves.length l,
      List.sum_append, show k + (t.leaves.length + t'.leaves.length - 1) =
        k + (t.leaves.length - 1 + (t'.leaves.length - 1)) + 1 by omega]
    exact hA.near_add (hA.mono n1 (le_refl _) (by omega)) (hA.mono n2 (le_refl _) (by omega)) hd (by omega)

theorem near_sum {l l' : List ℚ} (h : List.Forall₂ (NearIn u m M d k) l l') (hd : d ≤ D)
    (hk : k + (l.length - 1) ≤ K) : NearIn u m M d (k + (l.length - 1)) (A.sum l) l'.sum := by
  by_cases hl : l = []
  · subst hl
    cases h
    rw [hA.acc.sum_nil]
    exact .zero
  · obtain ⟨t, h1, h2⟩ := hA.acc.sum l hl
    obtain ⟨l'', h3, h4⟩ := List.perm_comp_forall₂ h1 h
    rw [h2, ← h4.sum_eq, ← h1.length_eq]
    exact (hA.near_tree hd t h3 (by rw [h1.length_eq]; exact hk)).2

/-- the division in `normalize` -/
theorem near_div (h : NearIn u m M D k a b) (h' : NearIn u m M D k' c e) (hc : c ≠ 0) (hk : k + k' + 1 ≤ K) :
    Near u (k + k' + 1) (A.div a c) (b / e) := by
  have hn := h.near.div hA.acc.lt_one h'.near
  have he : e ≠ 0 := fun e => hc ((h'.near.zero_iff hA.acc.lt_one).2 e)
  have hep : 0 < e := lt_of_le_of_ne h'.near.1 (Ne.symm he)
  have hM : 0 < M := by linarith [hA.one_le]
  have hmD := pow_pos hA.pos D
  refine hn.round hA.acc.nonneg hA.acc.lt_one (hA.acc.div _ _ hc (hA.representable hn (by omega) ?_))
  have hpow : ∀ {j}, j ≤ K → M ^ D * 2 ^ j ≤ 2 ^ K * M ^ D := fun hj => by
    rw [mul_comm]
    exact mul_le_mul_of_nonneg_right (pow_le_pow_right₀ (by norm_num) hj) (by positivity)
  rcases h.range with rfl | ⟨h1, h2⟩
  · exact .inl (zero_div _)
  · rcases h'.range with rfl | ⟨h3, h4⟩
    · exact absurd rfl he
    · right
      rw [div_mul_eq_mul_div, div_mul_eq_mul_div, le_div_iff₀ hep, div_le_iff₀ hep]
      constructor
      · exact mul_le_mul h1 (h4.trans (hpow (by omega))) hep.le h.near.1
      · rw [mul_comm b, mul_comm _ e]
        exact mul_le_mul h3 (h2.trans (hpow (by omega))) h.near.1 hep.le

end Headroom

/-! ## Arrays and factors -/

/-- entry by entry related by `R` -/
structure NDArray.Matches (R : ℚ → ℚ → Prop) (a b : NDArray) : Prop where
  shape : a.shape = b.shape
  data : List.Forall₂ R a.data b.data

/-- the tables are related entry by entry, everything else is equal -/
structure Factor.Matches (R : ℚ → ℚ → Prop) (f g : Factor) : Prop where
  order : f.variableOrder = g.variableOrder
  values : f.values = g.values
  table : f.potentials.Matches R g.potentials

theorem getD_matches {R : ℚ → ℚ → Prop} (h0 : R 0 0) {l l' : List ℚ} (h : List.Forall₂ R l l') (i : Nat) :
    R (l.getD i 0) (l'.getD i 0) := by
  induction h generalizing i with
  | nil => exact h0
  | cons h _ ih =>
    cases i with
    | zero => exact h
    | succ i => exact ih i

namespace NDArray
variable {R S T : ℚ → ℚ → Prop}

theorem Matches.get (h0 : R 0 0) {a b : NDArray} (h : a.Matches R b) (idx : List Nat) :
    R (a.get idx) (b.get idx) := by
  unfold NDArray.get
  rw [h.shape]
  exact getD_matches h0 h.data _

theorem Matches.imp {a b : NDArray} (h : a.Matches R b) (hRS : ∀ x y, R x y → S x y) : a.Matches S b :=
  ⟨h.shape, h.data.imp hRS⟩

theorem Matches.refl {a : NDArray} (h : ∀ x ∈ a.data, R x x) : a.Matches R a :=
  ⟨rfl, by rw [List.forall₂_same]; exact h⟩

theorem matches_tabulate (s : List Nat) {f g : List Nat → ℚ} (h : ∀ idx, R (f idx) (g idx)) :
    (tabulate s f).Matches R (tabulate s g) := by
  refine ⟨rfl, ?_⟩
  unfold tabulate
  simp only
  rw [List.forall₂_map_left_iff, List.forall₂_map_right_iff, List.forall₂_same]
  exact fun idx _ => h idx

theorem matches_newaxes (h0 : R 0 0) {a b : NDArray} (h : a.Matches R b) (n j : Nat) :
    RelE (Matches R) (a.newaxes n j) (b.newaxes n j) := by
  unfold newaxes ndim
  rw [h.shape]
  split
  · exact rfl
  · exact matches_tabulate _ fun idx => h.get h0 _

theorem matches_transpose (h0 : R 0 0) {a b : NDArray} (h : a.Matches R b) (p : List Nat) :
    RelE (Matches R) (a.transpose p) (b.transpose p) := by
  unfold transpose ndim
  rw [h.shape]
  split
  · exact matches_tabulate _ fun idx => h.get h0 _
  · exact rfl

theorem matches_bop (h0 : R 0 0) (h0' : S 0 0) {op op' : ℚ → ℚ → ℚ}
    (hop : ∀ x y z w, R x y → S z w → T (op x z) (op' y w)) {a b c d : NDArray} (h : a.Matches R b)
    (h' : c.Matches S d) : RelE (Matches T) (bop op a c) (bop op' b d) := by
  unfold bop
  rw [h.shape, h'.shape]
  split
  · exact rfl
  · exact matches_tabulate _ fun idx => hop _ _ _ _ (h.get h0 _) (h'.get h0' _)

theorem matches_sumAxis {A : Arith} (h0 : R 0 0) {a b : NDArray} (h : a.Matches R b) (ax : Nat)
    (hs : ∀ l l', l.length = b.shape.getD ax 0 → List.Forall₂ R l l' → S (A.sum l) l'.sum) :
    RelE (Matches S) (a.sumAxisR A ax) (b.sumAxis ax) := by
  unfold sumAxisR sumAxis ndim
  rw [h.shape]
  split
  · refine matches_tabulate _ fun idx => hs _ _ ?_ ?_
    · rw [List.length_map, List.length_range]
    · rw [List.forall₂_map_left_iff, List.forall₂_map_right_iff, List.forall₂_same]
      exact fun i _ => h.get h0 _
  · exact rfl

end NDArray

namespace Factor
variable {R S T : ℚ → ℚ → Prop}

theorem Matches.imp {f g : Factor} (h : f.Matches R g) (hRS : ∀ x y, R x y → S x y) : f.Matches S g :=
  ⟨h.order, h.values, h.table.imp hRS⟩

theorem Matches.refl {f : Factor} (h : ∀ x ∈ f.potentials.data, R x x) : f.Matches R f :=
  ⟨rfl, rfl, .refl h⟩

theorem Matches.contains {f g : Factor} (h : f.Matches R g) (v : Name) : f.contains v = g.contains v := by
  unfold Factor.contains
  rw [h.values]

theorem matches_padAxes (h0 : R 0 0) {a b : NDArray} (h : a.Matches R b) (n j : Nat) :
    RelE (NDArray.Matches R) (padAxes a n j) (padAxes b n j) := by
  unfold padAxes
  split
  · exact h
  · exact NDArray.matches_newaxes h0 h n j

theorem matches_mul {A : Arith} (so : SetOrder) (h0 : R 0 0) (h0' : S 0 0)
    (hop : ∀ x y z w, R x y → S z w → T (A.mul x z) (y * w)) {f g f' g' : Factor}
    (hf : f.Matches R f') (hg : g.Matches S g') : RelE (Matches T) (f.mulR A so g) (f'.mul so g') := by
  unfold mulR mul binop
  rw [hf.order, hg.order]
  split
  · exact (NDArray.matches_bop h0 h0' hop hf.table hg.table).bind fun p q h =>
      RelE.pure ⟨rfl, hg.values, h⟩
  · split
    · exact (NDArray.matches_bop h0 h0' hop hf.table hg.table).bind fun p q h =>
        RelE.pure ⟨rfl, hf.values, h⟩
    · simp only
      rw [hf.values, hg.values]
      refine (matches_padAxes h0 hf.table _ _).bind fun p q hpq => ?_
      refine RelE.bind_same fun vals _ => ?_
      refine (matches_padAxes h0' hg.table _ _).bind fun p' q' hpq' => ?_
      refine RelE.bind_same fun swap _ => ?_
      refine (NDArray.matches_transpose h0' hpq' _).bind fun p'' q'' hpq'' => ?_
      exact (NDArray.matches_bop h0 h0' hop hpq hpq'').bind fun r s h => RelE.pure ⟨rfl, rfl, h⟩

theorem matches_sumOut {A : Arith} (h0 : R 0 0) {f g : Factor} (h : f.Matches R g) (v : Name)
    (hs : ∀ l l', l.length = g.potentials.shape.getD (g.variableOrder.idxOf v) 0 →
      List.Forall₂ R l l' → S (A.sum l) l'.sum) :
    RelE (Matches S) (f.sumOutR A v) (g.sumOut v) := by
  unfold sumOutR sumOut
  rw [h.order, h.values]
  refine RelE.bind_same fun ax hax => ?_
  rw [pyIndex_eq_ok] at hax
  refine (NDArray.matches_sumAxis h0 h.table ax (S := S) (by rw [hax.2]; exact hs)).bind fun p q hpq => ?_
  exact RelE.bind_same fun vals _ => RelE.pure ⟨rfl, rfl, hpq⟩

theorem Matches.near {f g : Factor} {m M : ℚ} {d k : Nat} (h : f.Matches (Primo.NearIn u m M d k) g) : f.Near u k g :=
  ⟨h.order, h.values, h.table.shape, h.table.data.imp fun _ _ h => h.near⟩

end Factor

/-- related as long as there is room -/
def Roomy (u m M : ℚ) (D K : Nat) (i : Nat × Nat) (x y : ℚ) : Prop :=
  i.1 ≤ D → i.2 ≤ K → NearIn u m M i.1 i.2 x y

theorem Headroom.normalize {A : Arith} (hA : Headroom A u δ m M D K) {f g : Factor}
    (h : f.Matches (NearIn u m M D k) g) (hk : k + (k + (g.potentials.data.length - 1)) + 1 ≤ K) :
    (f.normalizeR A).Near u (k + (k + (g.potentials.data.length - 1)) + 1) g.normalize := by
  have hu := hA.acc.lt_one
  have hs : NearIn u m M D (k + (g.potentials.data.length - 1)) (A.sum f.potentials.data)
      g.potentials.sumAll := by
    have := hA.near_sum h.table.data (le_refl _) (by rw [h.table.data.length_eq]; omega)
    rwa [h.table.data.length_eq] at this
  unfold Factor.normalizeR Factor.normalize
  simp only
  by_cases hp : g.potentials.sumAll > 0
  · have hp' := (hs.near.pos_iff hu).2 hp
    rw [if_pos hp, if_pos hp']
    refine ⟨h.order, h.values, h.table.shape, ?_⟩
    unfold NDArray.map
    simp only
    rw [List.forall₂_map_left_iff, List.forall₂_map_right_iff]
    exact h.table.data.imp fun x y hxy => hA.near_div hxy hs hp'.ne' hk
  · rw [if_neg hp, if_neg fun h => hp ((hs.near.pos_iff hu).1 h)]
    exact h.near.mono hA.acc.nonneg hu (by omega)

/-- a consistent network with numbers in the range -/
theorem sim_range {A : Arith} (hA : Headroom A u δ m M D K) (so : SetOrder) {bn : BN} (hc : bn.Consistent)
    (hp : bn.EntriesIn m M) {ev : Dict Evidence} (he : LegalEvidence bn ev) (hpe : EvidenceIn m M ev) :
    Sim (ι := Nat × Nat) A so bn ev (0, 1) (1, 0) (fun v => (0, bn.card v - 1)) fun i f g =>
      f.Matches (Roomy u m M D K i) g ∧ g.Over bn.lab where
  mono h hkm := ⟨h.1.imp fun _ _ h h1 h2 =>
    hA.mono (h (hkm.1.trans h1) (hkm.2.trans h2)) hkm.1 hkm.2, h.2⟩
  contains h v := h.1.contains v
  mul := by
    intro i j f f' g g' h h'
    have := Factor.matches_mul (A := A) (T := Roomy u m M D K (i + j + (0, 1))) so (fun _ _ => .zero)
      (fun _ _ => .zero) (fun x y z w h h' hd hk => by
        simp only [Prod.fst_add, Prod.snd_add, add_zero] at hd hk ⊢
        exact hA.near_mul (h (by omega) (by omega)) (h' (by omega) (by omega)) hd hk) h.1 h'.1
    obtain ⟨r, hr, hw, _⟩  := Factor.mul_over so h.2 h'.2
    rw [hr] at this ⊢
    cases hx : f.mulR A so g with
    | error e => rw [hx] at this; cases this
    | ok a => rw [hx] at this; exact ⟨this, hw⟩
  sumOut := by
    intro i f g v h
    have := Factor.matches_sumOut (A := A) (S := Roomy u m M D K
      (i + (0, g.potentials.shape.getD (g.variableOrder.idxOf v) 0 - 1))) (fun _ _ => .zero) h.1 v
      (fun l l' hl h hd hk => by
        simp only [Prod.fst_add, Prod.snd_add, add_zero] at hd hk ⊢
        have := hA.near_sum (h.imp fun _ _ h => h hd (by omega)) hd (by omega)
        rwa [hl] at this)
    by_cases hv : v ∈ g.variableOrder
    · have hcard : g.potentials.shape.getD (g.variableOrder.idxOf v) 0 = bn.card v := by
        rw [h.2.wf.shape, List.getD_eq_getElem?_getD, List.getElem?_map, List.getElem?_eq_getElem
          (List.idxOf_lt_length_of_mem hv), List.getElem_idxOf]
        rfl
      rw [hcard] at this
      obtain ⟨r, hr, hw, ho, hval, _⟩ := Factor.sumOut_spec h.2.wf hv
      rw [hr] at this ⊢
      cases hx : f.sumOutR A v with
      | error e => rw [hx] at this; cases this
      | ok a =>
        rw [hx] at this
        refine ⟨this, hw, fun w hw => ?_⟩
        rw [hval w hw]
        rw [ho] at hw
        exact h.2.val w (List.mem_of_mem_erase hw)
    · have hg : g.sumOut v = .error .valueError := by
        unfold Factor.sumOut pyIndex
        rw [if_neg hv]
        rfl
      rw [hg] at this ⊢
      cases hx : f.sumOutR A v with
      | error e => rw [hx] at this; exact this
      | ok a => rw [hx] at this; cases this
  one := ⟨.refl fun x hx _ _ => by
    have : x = 1 := by simpa [Factor.trivial, NDArray.scalar] using hx
    subst this
    exact .one, Factor.trivial_over _⟩
  table := by
    intro v n f h h'
    refine ⟨.refl fun x hx _ _ => .of_entry hA.pos ?_, ?_⟩
    · rw [Factor.fromNode_potentials h'] at hx
      exact hp _ (BN.getNode_mem h) x hx
    · obtain ⟨f', h1, h2, _⟩ := fromNode_over hc (BN.getNode_mem h)
      rw [h'] at h1
      cases h1
      exact h2
  evidence := by
    intro v n e f hmem h h'
    refine ⟨.refl fun x hx _ _ => .of_entry hA.pos ?_, ?_⟩
    · have h1 := hA.le_one
      have h2 := hA.one_le
      cases e with
      | hard w =>
        unfold Factor.asEvidence at h'
        simp only at h'
        split at h'
        · cases h'
          obtain ⟨i, _, rfl⟩ := List.mem_map.1 hx
          split
          · exact .inr ⟨h1, h2⟩
          · exact .inl rfl
        · cases h'
      | soft l =>
        unfold Factor.asEvidence at h'
        simp only at h'
        split at h'
        · cases h'
        · cases h'
          exact hpe v l hmem x hx
    · have hname := BN.getNode_name h
      have hlab : n.values = bn.lab v := by rw [← hname]; exact (BN.lab_eq hc.nodup (BN.getNode_mem h)).symm
      obtain ⟨f', h1, h2, _⟩ := asEvidence_over (bn := bn) (v := v) (e := e)
        (by rintro x rfl; exact he.hard _ _ hmem) (by rintro l rfl; exact he.soft _ _ hmem)
      rw [hlab, h1] at h'
      cases h'
      exact h2

theorem range_posterior {A : Arith} {bn : BN} {ev : Dict Evidence} {Q : List Name} {k : Nat} {f g : Factor}
    (hA : Headroom A u δ m M D (2 * k + bn.tableSize Q))
    (h : f.Matches (Roomy u m M D (2 * k + bn.tableSize Q) (D, k)) g) (hg : g.normalize.Over bn.lab)
    (hQ : ∀ v, v ∈ g.normalize.variableOrder ↔ v ∈ Q)
    (hval : ∀ σ, Legal bn.card Q σ → g.normalize.eval σ = posterior bn ev Q σ) :
    (f.normalizeR A).Over bn.lab ∧ (∀ v, v ∈ (f.normalizeR A).variableOrder ↔ v ∈ Q) ∧
      ∀ σ, Legal bn.card Q σ →
        Near u (2 * k + bn.tableSize Q) ((f.normalizeR A).eval σ) (posterior bn ev Q σ) := by
  have hlen : g.potentials.data.length = bn.tableSize Q := by
    rw [← Factor.normalize_length, NDArray.size_eq, hg.wf.shape, BN.tableSize,
      ← List.prod_toFinset _ hg.wf.nodup]
    have : g.normalize.variableOrder.toFinset = Q.toFinset := by
      ext v
      rw [List.mem_toFinset, List.mem_toFinset, hQ]
    rw [this]
    rfl
  have hn : (f.normalizeR A).Near u (2 * k + bn.tableSize Q) g.normalize := by
    rcases Nat.eq_zero_or_pos (bn.tableSize Q) with h0 | h0
    · have hg0 : g.potentials.data = [] := List.length_eq_zero_iff.1 (hlen.trans h0)
      have hf0 : f.potentials.data = [] := by
        have := h.table.data.length_eq
        rw [hg0] at this
        exact List.length_eq_zero_iff.1 this
      unfold Factor.normalizeR Factor.normalize NDArray.sumAll
      simp only [hf0, hg0, hA.acc.sum_nil, List.sum_nil, gt_iff_lt, lt_irrefl, if_false]
      exact ⟨h.order, h.values, h.table.shape, by rw [hf0, hg0]; exact .nil⟩
    · have := hA.normalize (h.imp fun _ _ h => h (le_refl _) (by dsimp only; omega)) (by omega)
      exact this.mono hA.acc.nonneg hA.acc.lt_one (by omega)
  refine ⟨hn.over hg, fun v => by rw [hn.order, hQ], fun σ hσ => ?_⟩
  rw [← hval σ hσ]
  exact hn.eval σ

theorem sum_pairs (c : Name → Nat) (l : List Name) :
    (l.map fun v => ((0, c v) : Nat × Nat)).sum = (0, (l.map c).sum) := by
  induction l with
  | nil => rfl
  | cons v l ih => rw [List.map_cons, List.sum_cons, ih, List.map_cons, List.sum_cons]; rfl

theorem naive_range {A : Arith} (so : SetOrder) {bn : BN} (hc : bn.Consistent) (hp : bn.EntriesIn m M)
    {ev : Dict Evidence} (he : LegalEvidence bn ev) (hpe : EvidenceIn m M ev) {Q : List Name}
    (hQ : ∀ v ∈ Q, v ∈ bn.names) (hA : Headroom A u δ m M (bn.length + ev.length) (bn.naiveRoundings ev Q)) :
    ∃ r, VE.naiveMarginalsR A so bn Q ev = .ok r ∧ r.Over bn.lab ∧
      (∀ v, v ∈ r.variableOrder ↔ v ∈ Q) ∧ ∀ σ, Legal bn.card Q σ →
        Near u (bn.naiveRoundings ev Q) (r.eval σ) (posterior bn ev Q σ) := by
  obtain ⟨r, h1, h2, h3, h4⟩ := naiveMarginals_spec so hc he hQ
  have hraw := (sim_range hA so hc hp he hpe).naive_raw Q
  obtain ⟨a, ha, h5⟩ := bind_eq_ok.1 h1
  obtain ⟨g, hg, h6⟩ := bind_eq_ok.1 h5
  cases h6
  obtain ⟨f, hf, hfg⟩ := hraw.ok_right (b := g) (by rw [ha]; exact hg)
  obtain ⟨b, hb, hf⟩ := bind_eq_ok.1 hf
  rw [count_observed _ hc.nodup he.nodup he.mem] at hfg
  have hl : bn.names.length = bn.length := List.length_map ..
  have hi : (bn.names.length + ev.length) • ((1, 0) + (0, 1) : Nat × Nat) +
      ((bn.names.filter fun v => decide (v ∉ Q)).map fun v => ((0, bn.card v - 1) : Nat × Nat)).sum =
      (bn.length + ev.length, bn.length + ev.length + bn.additions Q) := by
    rw [hl, sum_pairs]
    simp [BN.additions]
  rw [hi] at hfg
  refine ⟨f.normalizeR A, ?_, range_posterior hA hfg.1 h2 h3 h4⟩
  unfold VE.naiveMarginalsR
  simp only [hb, hf, ok_bind, pure_eq_ok]

theorem bucket_range {A : Arith} (so : SetOrder) {bn : BN} (hc : bn.Consistent) (hp : bn.EntriesIn m M)
    {ev : Dict Evidence} (he : LegalEvidence bn ev) (hpe : EvidenceIn m M ev) {Q : List Name}
    (hQn : Q.Nodup) (hQ : ∀ v ∈ Q, v ∈ bn.names) (order0 : Option (List Name))
    {order : List Name} (hord : VE.chooseOrder bn order0 = .ok order) (hperm : order.Perm bn.names)
    (hA : Headroom A u δ m M (bn.length + ev.length) (bn.bucketRoundings ev Q)) :
    ∃ r, VE.bucketMarginalsR A so bn Q ev order0 = .ok r ∧ r.Over bn.lab ∧
      (∀ v, v ∈ r.variableOrder ↔ v ∈ Q) ∧ ∀ σ, Legal bn.card Q σ →
        Near u (bn.bucketRoundings ev Q) (r.eval σ) (posterior bn ev Q σ) := by
  obtain ⟨r, h1, h2, h3, h4⟩ := bucketMarginals_spec so hc he hQn hQ order0 hord hperm
  have hS := sim_range hA so hc hp he hpe
  obtain ⟨r', hr', k, f, g, hfg, rfl, rfl, hk⟩ := (hS.bucket Q order0).ok_right h1
  have hnd : order.Nodup := hperm.nodup_iff.2 hc.nodup
  have hmv := VE.moveQuery_dedup hnd fun v hv => hperm.mem_iff.2 (hQ v hv)
  rw [hQn.dedup] at hmv
  have hlen : (order.filter fun v => decide (v ∉ Q)).length + Q.length = bn.length := by
    have h : (order.filter fun v => decide (v ∈ Q)).Perm Q := by
      refine (List.perm_ext_iff_of_nodup (hnd.filter _) hQn).2 fun v => ?_
      simp only [List.mem_filter, decide_eq_true_eq]
      exact ⟨fun h => h.2, fun h => ⟨hperm.mem_iff.2 (hQ v h), h⟩⟩
    have h' := List.length_eq_length_filter_add (l := order) fun v => decide (v ∈ Q)
    rw [h.length_eq, hperm.length_eq] at h'
    have hl : bn.names.length = bn.length := List.length_map ..
    simp only [decide_not]
    omega
  have hk := hk _ _ hord hmv (by rw [List.length_append]; omega)
  rw [List.length_append, hlen, show bn.length - Q.length =
    (order.filter fun v => decide (v ∉ Q)).length by omega, List.take_left] at hk
  have hadd : ((order.filter fun v => decide (v ∉ Q)).map fun v => bn.card v - 1).sum = bn.additions Q :=
    ((hperm.filter _).map _).sum_eq
  rw [sum_pairs, hadd] at hk
  have hi : bn.length • ((1, 0) + (0, 1) + (0, 1) : Nat × Nat) + ev.length • ((1, 0) + (0, 1) : Nat × Nat) +
      (0, bn.additions Q) = (bn.length + ev.length, 2 * bn.length + ev.length + bn.additions Q) := by
    simp [mul_comm]
  rw [hi] at hk
  exact ⟨_, hr', range_posterior hA (hS.mono hfg hk).1 h2 h3 h4⟩

end Primo
