import Verif.Lemmas.RoundedCount
import Verif.Lemmas.RoundedRange

/-! # Sums, products and quotients in a limited range of numbers -/

namespace Primo

variable {u δ lo hi l l' h h' : ℚ} {k k' K n : Nat} {a b c e x y z : ℚ}

/-- `x` is within `k` roundings of `y`, which is zero or between `l` and `h` -/
structure Fit (u l h : ℚ) (k : Nat) (x y : ℚ) : Prop where
  near : Near u k x y
  range : y = 0 ∨ l ≤ y ∧ y ≤ h

/-- the constants: with `K` roundings the numbers between `lo` and `hi` stay in the range, and so do their quotients -/
structure Span (A : Arith) (u δ lo hi : ℚ) (K : Nat) : Prop where
  acc : A.AccurateWithin u δ
  pos : 0 < lo
  le_one : lo ≤ 1
  one_le : 1 ≤ hi
  room : δ * hi ≤ lo * (1 - u) ^ K

namespace Fit

theorem zero : Fit u l h k 0 0 := ⟨⟨le_refl _, by simp, by simp⟩, .inl rfl⟩

theorem imp (hf : Fit u l h k x y) (h0 : 0 ≤ u) (hu : u < 1) (hl : l' ≤ l) (hh : h ≤ h') (hk : k ≤ k') :
    Fit u l' h' k' x y :=
  ⟨hf.near.mono h0 hu hk, hf.range.imp_right fun ⟨h1, h2⟩ => ⟨hl.trans h1, h2.trans hh⟩⟩

theorem one : Fit u 1 1 0 1 1 := ⟨.rfl' zero_le_one, .inr ⟨le_refl _, le_refl _⟩⟩

end Fit

namespace Span
variable {A : Arith} (hA : Span A u δ lo hi K)
include hA

theorem hi_pos : 0 < hi := by linarith [hA.one_le]

/-- what can be represented -/
theorem representable (hn : Near u k x y) (hk : k ≤ K) (hr : y = 0 ∨ lo ≤ y * hi ∧ y * lo ≤ hi) :
    Representable δ x := by
  have hu := hA.acc.lt_one
  have hx := hn.nonneg hu
  rcases hr with hy | ⟨h1, h2⟩
  · exact .inl ((hn.zero_iff hu).2 hy)
  · have hB := hA.hi_pos
    have hq := Near.pow_pos hu K
    have hK := hn.mono hA.acc.nonneg hu hk
    refine .inr ?_
    rw [abs_of_nonneg hx]
    constructor
    · refine le_of_mul_le_mul_right (hA.room.trans ?_) hB
      calc lo * (1 - u) ^ K ≤ y * hi * (1 - u) ^ K := mul_le_mul_of_nonneg_right h1 hq.le
        _ = y * (1 - u) ^ K * hi := by ring
        _ ≤ x * hi := mul_le_mul_of_nonneg_right hK.2.1 hB.le
    · refine le_of_mul_le_mul_right ?_ hB
      calc x * δ * hi = x * (δ * hi) := by ring
        _ ≤ x * (lo * (1 - u) ^ K) := mul_le_mul_of_nonneg_left hA.room hx
        _ = x * (1 - u) ^ K * lo := by ring
        _ ≤ y * lo := mul_le_mul_of_nonneg_right hK.2.2 hA.pos.le
        _ ≤ 1 * hi := by rw [one_mul]; exact h2

theorem tame (hy : 0 ≤ y) (hr : y = 0 ∨ lo ≤ y ∧ y ≤ hi) : y = 0 ∨ lo ≤ y * hi ∧ y * lo ≤ hi :=
  hr.imp_right fun ⟨h1, h2⟩ => ⟨h1.trans (le_mul_of_one_le_right hy hA.one_le),
    (mul_le_of_le_one_right hy hA.le_one).trans h2⟩

/-- a product whose exact value is known to be in the range -/
theorem mul (hn : Near u k a b) (hn' : Near u k' c e) (hr : b * e = 0 ∨ l ≤ b * e ∧ b * e ≤ h) (hl : lo ≤ l)
    (hh : h ≤ hi) (hk : k + k' + 1 ≤ K) : Fit u l h (k + k' + 1) (A.mul a c) (b * e) := by
  have hm := hn.mul hA.acc.lt_one hn'
  refine ⟨hm.round hA.acc.nonneg hA.acc.lt_one (hA.acc.mul _ _ ?_), hr⟩
  exact hA.representable hm (by omega) (hA.tame hm.1 (hr.imp_right fun ⟨h1, h2⟩ => ⟨hl.trans h1, h2.trans hh⟩))

theorem add (hf : Fit u l h k a b) (hf' : Fit u l h k c e) (h0 : 0 ≤ h) (hl : lo ≤ l) (hh : h * 2 ≤ hi)
    (hk : k + 1 ≤ K) : Fit u l (h * 2) (k + 1) (A.add a c) (b + e) := by
  have hn := hf.near.add hf'.near
  have hr : b + e = 0 ∨ l ≤ b + e ∧ b + e ≤ h * 2 := by
    rcases hf.range with rfl | ⟨h1, h2⟩
    · rw [zero_add]
      exact hf'.range.imp_right fun ⟨h1, h2⟩ => ⟨h1, by linarith⟩
    · have he := hf'.near.1
      have hle : e ≤ h := by
        rcases hf'.range with rfl | ⟨_, h4⟩
        · exact h0
        · exact h4
      exact .inr ⟨by linarith, by linarith⟩
  exact ⟨hn.round hA.acc.nonneg hA.acc.lt_one (hA.acc.add _ _ (hA.representable hn (by omega)
    (hA.tame hn.1 (hr.imp_right fun ⟨h1, h2⟩ => ⟨hl.trans h1, h2.trans hh⟩)))), hr⟩

omit hA in
theorem pow_mono (h0 : 0 ≤ h) {i j : Nat} (hij : i ≤ j) : h * 2 ^ i ≤ h * 2 ^ j :=
  mul_le_mul_of_nonneg_left (pow_le_pow_right₀ (by norm_num) hij) h0

theorem tree (h0 : 0 ≤ h) (hl : lo ≤ l) : ∀ (t : SumTree) {ys : List ℚ},
    List.Forall₂ (Fit u l h k) t.leaves ys → k + (t.leaves.length - 1) ≤ K →
    h * 2 ^ (t.leaves.length - 1) ≤ hi → 0 < t.leaves.length ∧
      Fit u l (h * 2 ^ (t.leaves.length - 1)) (k + (t.leaves.length - 1)) (t.eval A.add) ys.sum
  | .leaf x, ys, hf, _, _ => by
    rw [SumTree.leaves] at hf
    cases hf with
    | cons h1 h2 =>
      cases h2
      refine ⟨by simp [SumTree.leaves], ?_⟩
      simpa [SumTree.leaves, SumTree.eval] using h1
  | .node t t', ys, hf, hk, hh => by
    rw [SumTree.leaves] at hf
    have h1 := List.forall₂_take_append ys _ _ hf.flip
    have h2 := List.forall₂_drop_append ys _ _ hf.flip
    rw [SumTree.leaves, List.length_append] at hk hh
    obtain ⟨p1, n1⟩ := tree h0 hl t h1.flip (by omega) ((pow_mono h0 (by omega)).trans hh)
    obtain ⟨p2, n2⟩ := tree h0 hl t' h2.flip (by omega) ((pow_mono h0 (by omega)).trans hh)
    refine ⟨by simp [SumTree.leaves]; omega, ?_⟩
    have hlen : t.leaves.length + t'.leaves.length - 1 =
      (t.leaves.length - 1 + (t'.leaves.length - 1)) + 1 := by omega
    rw [hlen] at hh
    rw [SumTree.leaves, List.length_append, SumTree.eval, ← List.take_append_drop t.leaves.length ys,
      List.sum_append, hlen, ← Nat.add_assoc, pow_succ, ← mul_assoc]
    rw [pow_succ, ← mul_assoc] at hh
    exact hA.add (n1.imp hA.acc.nonneg hA.acc.lt_one (le_refl _) (pow_mono h0 (by omega)) (by omega))
      (n2.imp hA.acc.nonneg hA.acc.lt_one (le_refl _) (pow_mono h0 (by omega)) (by omega)) (by positivity) hl hh (by omega)

theorem sum {xs ys : List ℚ} (hf : List.Forall₂ (Fit u l h k) xs ys) (h0 : 0 ≤ h) (hl : lo ≤ l)
    (hk : k + (xs.length - 1) ≤ K) (hh : h * 2 ^ (xs.length - 1) ≤ hi) :
    Fit u l (h * 2 ^ (xs.length - 1)) (k + (xs.length - 1)) (A.sum xs) ys.sum := by
  by_cases hx : xs = []
  · subst hx
    cases hf
    rw [hA.acc.sum_nil]
    exact .zero
  · obtain ⟨t, h1, h2⟩ := hA.acc.sum xs hx
    obtain ⟨l'', h3, h4⟩ := List.perm_comp_forall₂ h1 hf
    rw [h2, ← h4.sum_eq, ← h1.length_eq]
    exact (hA.tree h0 hl t h3 (by rw [h1.length_eq]; exact hk) (by rw [h1.length_eq]; exact hh)).2

/-- a quotient of numbers in the range -/
theorem div (hf : Fit u lo hi k a b) (hf' : Fit u lo hi k' c e) (hc : c ≠ 0) (hk : k + k' + 1 ≤ K) :
    Near u (k + k' + 1) (A.div a c) (b / e) := by
  have hn := hf.near.div hA.acc.lt_one hf'.near
  have he : e ≠ 0 := fun e => hc ((hf'.near.zero_iff hA.acc.lt_one).2 e)
  have hep : 0 < e := lt_of_le_of_ne hf'.near.1 (Ne.symm he)
  refine hn.round hA.acc.nonneg hA.acc.lt_one (hA.acc.div _ _ hc (hA.representable hn (by omega) ?_))
  rcases hf.range with rfl | ⟨h1, h2⟩
  · exact .inl (zero_div _)
  · rcases hf'.range with rfl | ⟨h3, h4⟩
    · exact absurd rfl he
    · right
      rw [div_mul_eq_mul_div, div_mul_eq_mul_div, le_div_iff₀ hep, div_le_iff₀ hep]
      constructor
      · exact mul_le_mul h1 h4 hep.le hf.near.1
      · rw [mul_comm b, mul_comm _ e]
        exact mul_le_mul h3 h2 hf.near.1 hep.le

theorem one_fit : Fit u lo hi 0 1 1 := ⟨.rfl' zero_le_one, .inr ⟨hA.le_one, hA.one_le⟩⟩

/-- the product with a reciprocal, as in the division of factors -/
theorem mul_inv (hf : Fit u lo hi k a b) (hf' : Fit u lo hi k' e y) (hn : Near u (k' + 1) z y⁻¹)
    (hk : k + (k' + 1) + 1 ≤ K) : Near u (k + (k' + 1) + 1) (A.mul a z) (b * y⁻¹) := by
  have hm := hf.near.mul hA.acc.lt_one hn
  refine hm.round hA.acc.nonneg hA.acc.lt_one (hA.acc.mul _ _ (hA.representable hm (by omega) ?_))
  rcases hf.range with rfl | ⟨h1, h2⟩
  · exact .inl (zero_mul _)
  · rcases hf'.range with rfl | ⟨h3, h4⟩
    · exact .inl (by rw [inv_zero, mul_zero])
    · have hep : 0 < y := lt_of_lt_of_le hA.pos h3
      right
      rw [← div_eq_mul_inv, div_mul_eq_mul_div, div_mul_eq_mul_div, le_div_iff₀ hep, div_le_iff₀ hep]
      constructor
      · exact mul_le_mul h1 h4 hep.le hf.near.1
      · rw [mul_comm b, mul_comm _ y]
        exact mul_le_mul h3 h2 hf.near.1 hep.le

/-! ### factors -/

theorem marginalize (h0 : 0 ≤ h) (hl : lo ≤ l) : ∀ (vs : List Name) {k j : Nat} {f g : Factor},
    f.Matches (Fit u l (h * 2 ^ j) k) g → k + g.margCount vs ≤ K → h * 2 ^ (j + g.margCount vs) ≤ hi →
    RelE (Factor.Matches (Fit u l (h * 2 ^ (j + g.margCount vs)) (k + g.margCount vs))) (f.marginalizeR A vs)
      (g.marginalize vs)
  | [], _, _, f, g, hf, _, _ => hf
  | v :: vs, k, j, f, g, hf, hk, hh => by
    unfold Factor.marginalizeR Factor.marginalize
    rw [List.foldlM_cons, List.foldlM_cons]
    rw [Factor.margCount] at hk hh ⊢
    set c := g.potentials.shape.getD (g.variableOrder.idxOf v) 0 - 1 with hc
    have h1 := Factor.matches_sumOut (A := A) (S := Fit u l (h * 2 ^ (j + c)) (k + c)) .zero hf v
      (fun xs ys hxs hxy => by
        have := hA.sum hxy (by positivity) hl (by rw [hxs]; omega) (by
          rw [hxs, mul_assoc, ← pow_add]
          exact (pow_mono h0 (by omega)).trans hh)
        rw [hxs, mul_assoc, ← pow_add] at this
        exact this)
    cases hs : g.sumOut v with
    | error e =>
      rw [hs] at h1
      cases hx : f.sumOutR A v with
      | error e' => rw [hx] at h1; exact h1
      | ok f' => rw [hx] at h1; exact h1.elim
    | ok g' =>
      rw [hs] at h1 hk hh
      dsimp only at hk hh ⊢
      cases hx : f.sumOutR A v with
      | error e' => rw [hx] at h1; exact h1.elim
      | ok f' =>
        rw [hx] at h1
        have := marginalize h0 hl vs (k := k + c) (j := j + c) (f := f') (g := g') h1 (by omega)
          (by rw [Nat.add_assoc]; exact hh)
        rw [Nat.add_assoc, Nat.add_assoc] at this
        exact this

theorem invert {R : ℚ → ℚ → Prop} (h00 : R 0 0) (hR : ∀ x y, R x y → Fit u lo hi k x y) {f g : Factor}
    (hf : f.Matches R g) (hk : k + 1 ≤ K) :
    RelE (Factor.Matches fun x y => ∃ e w, R e w ∧ y = w⁻¹ ∧ Near u (k + 1) x w⁻¹) (f.invertR A) g.invert := by
  have hu := hA.acc.lt_one
  have hz : (0 : ℚ) ∈ f.potentials.data ↔ (0 : ℚ) ∈ g.potentials.data := by
    have := hf.table.data
    generalize f.potentials.data = l at this ⊢
    generalize g.potentials.data = l' at this ⊢
    induction this with
    | nil => simp
    | cons h _ ih =>
      rw [List.mem_cons, List.mem_cons]
      exact or_congr (by rw [eq_comm, (hR _ _ h).near.zero_iff hu, eq_comm]) ih
  have key : ∀ x y, R x y → x ≠ 0 →
      ∃ e w, R e w ∧ (1 / y) = w⁻¹ ∧ Near u (k + 1) (A.div 1 x) w⁻¹ := fun x y hxy hx => by
    have := hA.div hA.one_fit (hR x y hxy) hx (by omega)
    rw [Nat.zero_add, one_div] at this
    exact ⟨x, y, hxy, one_div y, this⟩
  unfold Factor.invertR Factor.invert
  rw [hf.order]
  split
  · by_cases h0 : (0 : ℚ) ∈ g.potentials.data
    · rw [if_pos h0, if_pos (hz.2 h0)]
      exact rfl
    · rw [if_neg h0, if_neg fun h => h0 (hz.1 h)]
      refine ⟨rfl, hf.values, hf.table.shape, ?_⟩
      have hd := hf.table.data
      have hz0 : (0 : ℚ) ∉ f.potentials.data := fun h => h0 (hz.1 h)
      unfold NDArray.map
      simp only
      generalize f.potentials.data = l at hd hz0 ⊢
      generalize g.potentials.data = l' at hd ⊢
      induction hd with
      | nil => exact .nil
      | cons h _ ih =>
        refine .cons ?_ (ih fun h' => hz0 (List.mem_cons_of_mem _ h'))
        exact key _ _ h fun e => hz0 (by rw [e]; exact List.mem_cons_self)
  · refine ⟨rfl, hf.values, hf.table.shape, ?_⟩
    unfold NDArray.map
    simp only
    rw [List.forall₂_map_left_iff, List.forall₂_map_right_iff]
    refine hf.table.data.imp fun x y hxy => ?_
    by_cases hy : y = 0
    · rw [if_pos (((hR x y hxy).near.zero_iff hu).2 hy), if_pos hy]
      exact ⟨0, 0, h00, by simp, by rw [inv_zero]; exact ⟨le_refl _, by simp, by simp⟩⟩
    · have hx : x ≠ 0 := fun e => hy (((hR x y hxy).near.zero_iff hu).1 e)
      rw [if_neg hx, if_neg hy]
      exact key x y hxy hx

theorem factor_div (so : SetOrder) {N R : ℚ → ℚ → Prop} (hN0 : N 0 0) (hR0 : R 0 0)
    (hN : ∀ x y, N x y → Fit u lo hi k x y) (hR : ∀ x y, R x y → Fit u lo hi k' x y) {f g f' g' : Factor}
    (hf : f.Matches N f') (hg : g.Matches R g') (hk : k + (k' + 1) + 1 ≤ K) :
    RelE (Factor.Matches fun x y => Near u (k + (k' + 1) + 1) x y ∧ ∃ a b e w, N a b ∧ R e w ∧ y = b * w⁻¹)
      (f.divR A so g) (f'.div so g') := by
  unfold Factor.divR Factor.div
  rw [hf.values, hg.values]
  split
  · refine (hA.invert hR0 hR hg (by omega)).bind fun a b hab => ?_
    exact Factor.matches_mul so hN0 ⟨0, 0, hR0, by simp, by rw [inv_zero]; exact ⟨le_refl _, by simp, by simp⟩⟩
      (fun x y z w hxy hzw => by
        obtain ⟨e, v, h1, rfl, h2⟩ := hzw
        exact ⟨hA.mul_inv (hN x y hxy) (hR e v h1) h2 hk, x, y, e, v, hxy, h1, rfl⟩) hf hab
  · exact rfl

theorem normalize {f g : Factor} (hf : f.Matches (Fit u lo h k) g) (h0 : 0 ≤ h)
    (hh : h * 2 ^ (g.potentials.data.length - 1) ≤ hi) (hk : k + (k + (g.potentials.data.length - 1)) + 1 ≤ K) :
    (f.normalizeR A).Near u (k + (k + (g.potentials.data.length - 1)) + 1) g.normalize := by
  have hu := hA.acc.lt_one
  have hlen := hf.table.data.length_eq
  have hs : Fit u lo hi (k + (g.potentials.data.length - 1)) (A.sum f.potentials.data) g.potentials.sumAll := by
    have := hA.sum hf.table.data h0 (le_refl _) (by rw [hlen]; omega) (by rw [hlen]; exact hh)
    rw [hlen] at this
    exact this.imp hA.acc.nonneg hu (le_refl _) hh (le_refl _)
  have hhi : h ≤ hi := le_trans (le_mul_of_one_le_right h0 (one_le_pow₀ (by norm_num))) hh
  unfold Factor.normalizeR Factor.normalize
  simp only
  by_cases hp : g.potentials.sumAll > 0
  · have hp' := (hs.near.pos_iff hu).2 hp
    rw [if_pos hp, if_pos hp']
    refine ⟨hf.order, hf.values, hf.table.shape, ?_⟩
    unfold NDArray.map
    simp only
    rw [List.forall₂_map_left_iff, List.forall₂_map_right_iff]
    exact hf.table.data.imp fun x y hxy =>
      hA.div (hxy.imp hA.acc.nonneg hu (le_refl _) hhi (le_refl _)) hs hp'.ne' hk
  · rw [if_neg hp, if_neg fun h => hp ((hs.near.pos_iff hu).1 h)]
    exact ⟨hf.order, hf.values, hf.table.shape, hf.table.data.imp fun x y h =>
      h.near.mono hA.acc.nonneg hu (by omega)⟩

end Span
end Primo
