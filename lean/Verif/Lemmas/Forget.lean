import Verif.Spec.Forget
import Verif.Lemmas.RoundedDynamic

/-! # Priors are forgotten -/

namespace Primo
open Finset

/-- `f` is `g` up to a common factor and a factor between `1` and `κ` for each argument. -/
def Alike {α : Type} (P : α → Prop) (κ : ℚ) (f g : α → ℚ) : Prop :=
  ∃ lo : ℚ, 0 < lo ∧ ∀ a, P a → 0 ≤ g a ∧ lo * g a ≤ f a ∧ f a ≤ κ * lo * g a

namespace Alike
variable {α β : Type} {P : α → Prop} {κ κ' : ℚ} {f g h : α → ℚ}

theorem rfl' (hf : ∀ a, P a → 0 ≤ f a) : Alike P 1 f f :=
  ⟨1, one_pos, fun a ha => ⟨hf a ha, by rw [one_mul], by rw [one_mul, one_mul]⟩⟩

theorem mono (s : Alike P κ f g) (h : κ ≤ κ') : Alike P κ' f g := by
  obtain ⟨lo, h0, h1⟩ := s
  refine ⟨lo, h0, fun a ha => ⟨(h1 a ha).1, (h1 a ha).2.1, (h1 a ha).2.2.trans ?_⟩⟩
  exact mul_le_mul_of_nonneg_right (mul_le_mul_of_nonneg_right h h0.le) (h1 a ha).1

theorem congr (s : Alike P κ f g) {f' g' : α → ℚ} (hf : ∀ a, P a → f' a = f a) (hg : ∀ a, P a → g' a = g a) :
    Alike P κ f' g' := by
  obtain ⟨lo, h0, h1⟩ := s
  exact ⟨lo, h0, fun a ha => by rw [hf a ha, hg a ha]; exact h1 a ha⟩

theorem nonneg (s : Alike P κ f g) {a : α} (ha : P a) : 0 ≤ g a := by
  obtain ⟨lo, -, h1⟩ := s
  exact (h1 a ha).1

theorem comap {Q : β → Prop} (s : Alike P κ f g) {p : β → α} (hp : ∀ b, Q b → P (p b)) :
    Alike Q κ (fun b => f (p b)) fun b => g (p b) := by
  obtain ⟨lo, h0, h1⟩ := s
  exact ⟨lo, h0, fun b hb => h1 _ (hp b hb)⟩

theorem trans (hκ : 0 ≤ κ) (s : Alike P κ f g) (s' : Alike P κ' g h) : Alike P (κ * κ') f h := by
  obtain ⟨lo, h0, h1⟩ := s
  obtain ⟨lo', h0', h1'⟩ := s'
  refine ⟨lo * lo', mul_pos h0 h0', fun a ha => ?_⟩
  obtain ⟨a1, a2, a3⟩ := h1 a ha
  obtain ⟨b1, b2, b3⟩ := h1' a ha
  refine ⟨b1, ?_, ?_⟩
  · calc _ = lo * (lo' * h a) := by ring
      _ ≤ lo * g a := mul_le_mul_of_nonneg_left b2 h0.le
      _ ≤ _ := a2
  · calc _ ≤ κ * lo * g a := a3
      _ ≤ κ * lo * (κ' * lo' * h a) := mul_le_mul_of_nonneg_left b3 (mul_nonneg hκ h0.le)
      _ = _ := by ring

theorem scale (s : Alike P κ f g) {c d : ℚ} (hc : 0 < c) (hd : 0 < d) :
    Alike P κ (fun a => c * f a) fun a => d * g a := by
  obtain ⟨lo, h0, h1⟩ := s
  refine ⟨lo * c / d, by positivity, fun a ha => ?_⟩
  obtain ⟨a1, a2, a3⟩ := h1 a ha
  refine ⟨mul_nonneg hd.le a1, ?_, ?_⟩
  · calc _ = c * (lo * g a) := by field_simp
      _ ≤ _ := mul_le_mul_of_nonneg_left a2 hc.le
  · calc _ ≤ c * (κ * lo * g a) := mul_le_mul_of_nonneg_left a3 hc.le
      _ = _ := by field_simp

theorem mul_right (s : Alike P κ f g) (hh : ∀ a, P a → 0 ≤ h a) :
    Alike P κ (fun a => f a * h a) fun a => g a * h a := by
  obtain ⟨lo, h0, h1⟩ := s
  refine ⟨lo, h0, fun a ha => ?_⟩
  obtain ⟨a1, a2, a3⟩ := h1 a ha
  refine ⟨mul_nonneg a1 (hh a ha), ?_, ?_⟩
  · rw [← mul_assoc]; exact mul_le_mul_of_nonneg_right a2 (hh a ha)
  · rw [← mul_assoc]; exact mul_le_mul_of_nonneg_right a3 (hh a ha)

theorem of_near {u : ℚ} {k : Nat} (hu : u < 1) (hκ : 1 ≤ κ * (1 - u) ^ (2 * k)) (s : ∀ a, P a → Near u k (f a) (g a)) :
    Alike P κ f g := by
  have hp : (0 : ℚ) < (1 - u) ^ k := pow_pos (by linarith) k
  refine ⟨(1 - u) ^ k, hp, fun a ha => ?_⟩
  obtain ⟨h0, h1, h2⟩ := s a ha
  refine ⟨h0, by rw [mul_comm]; exact h1, ?_⟩
  have hf : 0 ≤ f a := le_trans (mul_nonneg h0 hp.le) h1
  rw [two_mul, pow_add] at hκ
  have hk : 0 ≤ κ * (1 - u) ^ k := by
    by_contra hneg
    have := mul_neg_of_neg_of_pos (not_le.1 hneg) hp
    rw [mul_assoc] at this
    linarith
  calc f a ≤ f a * (κ * ((1 - u) ^ k * (1 - u) ^ k)) := le_mul_of_one_le_right hf hκ
    _ = κ * (1 - u) ^ k * (f a * (1 - u) ^ k) := by ring
    _ ≤ _ := mul_le_mul_of_nonneg_left h2 hk

end Alike

/-! ## mixtures -/

theorem fade_zero (R κ : ℚ) : fade R κ 0 = κ := by unfold fade; ring

theorem fade_succ (R κ : ℚ) (k : Nat) : fade R κ (k + 1) = fade R (fade R κ k) 1 := by unfold fade; ring

theorem one_le_fade {R κ : ℚ} (hR : 1 ≤ R) (hκ : 1 ≤ κ) (k : Nat) : 1 ≤ fade R κ k := by
  unfold fade
  have : 0 ≤ 1 - 1 / R := by rw [sub_nonneg, div_le_one (by linarith)]; exact hR
  have := mul_nonneg (sub_nonneg.2 hκ) (pow_nonneg this k)
  linarith

theorem fade_mono {R κ κ' : ℚ} (hR : 1 ≤ R) (h : κ ≤ κ') (k : Nat) : fade R κ k ≤ fade R κ' k := by
  unfold fade
  have : 0 ≤ 1 - 1 / R := by rw [sub_nonneg, div_le_one (by linarith)]; exact hR
  have := mul_le_mul_of_nonneg_right (sub_le_sub_right h 1) (pow_nonneg this k)
  linarith

section
variable {α : Type} {P : α → Prop} {c : Nat} {p p' : Nat → ℚ} {K : Nat → α → ℚ} {R : ℚ}

/-- a mixture is at most `R` times as large as each component -/
theorem blend_le (hp : ∀ i < c, 0 ≤ p i) (hK : ∀ i < c, ∀ j < c, ∀ x, P x → K i x ≤ R * K j x) {x : α} (hx : P x) {j : Nat}
    (hj : j < c) : ∑ i ∈ range c, p i * K i x ≤ (∑ i ∈ range c, p i) * (R * K j x) := by
  rw [sum_mul]
  exact sum_le_sum fun i hi => mul_le_mul_of_nonneg_left (hK i (mem_range.1 hi) j hj x hx) (hp i (mem_range.1 hi))

theorem blend_nonneg (hp : ∀ i < c, 0 ≤ p i) (h0 : ∀ i < c, ∀ x, P x → 0 ≤ K i x) {x : α} (hx : P x) :
    0 ≤ ∑ i ∈ range c, p i * K i x :=
  sum_nonneg fun i hi => mul_nonneg (hp i (mem_range.1 hi)) (h0 i (mem_range.1 hi) x hx)

/-- Mixing brings two distributions closer to each other. -/
theorem Alike.mix {κ : ℚ} (hκ : 1 ≤ κ) (hR : 1 ≤ R) (h0 : ∀ i < c, ∀ x, P x → 0 ≤ K i x)
    (hK : ∀ i < c, ∀ j < c, ∀ x, P x → K i x ≤ R * K j x) (h : Alike (· < c) κ p' p) :
    Alike P (fade R κ 1) (fun x => ∑ i ∈ range c, p' i * K i x) fun x => ∑ i ∈ range c, p i * K i x := by
  obtain ⟨lo, hlo, hp⟩ := h
  have hp0 : ∀ i < c, 0 ≤ p i := fun i hi => (hp i hi).1
  have hR0 : 0 < R := by linarith
  set S := ∑ i ∈ range c, p i with hS
  set S' := ∑ i ∈ range c, p' i with hS'
  rcases (show 0 ≤ S from sum_nonneg fun i hi => hp0 i (mem_range.1 hi)).eq_or_lt with hz | hz
  · refine ⟨lo, hlo, fun x hx => ?_⟩
    have h1 : ∀ i ∈ range c, p i = 0 := (sum_eq_zero_iff_of_nonneg fun i hi => hp0 i (mem_range.1 hi)).1 hz.symm
    have h2 : ∀ i ∈ range c, p' i = 0 := fun i hi => by
      obtain ⟨-, a2, a3⟩ := hp i (mem_range.1 hi)
      rw [h1 i hi, mul_zero] at a2 a3
      exact le_antisymm a3 a2
    have e1 : ∑ i ∈ range c, p i * K i x = 0 := sum_eq_zero fun i hi => by rw [h1 i hi, zero_mul]
    have e2 : ∑ i ∈ range c, p' i * K i x = 0 := sum_eq_zero fun i hi => by rw [h2 i hi, zero_mul]
    dsimp only
    rw [e1, e2]
    simp
  have l1 : lo * S ≤ S' := by
    rw [hS, mul_sum]
    exact sum_le_sum fun i hi => (hp i (mem_range.1 hi)).2.1
  have l2 : S' ≤ κ * lo * S := by
    rw [hS, mul_sum]
    exact sum_le_sum fun i hi => (hp i (mem_range.1 hi)).2.2
  -- what the two have in common
  have key : ∀ (r : Nat → ℚ), (∀ i < c, 0 ≤ r i) → ∀ x, P x →
      (∑ i ∈ range c, r i) * (∑ i ∈ range c, p i * K i x) ≤ (∑ i ∈ range c, r i * K i x) * (R * S) := by
    intro r hr x hx
    rw [sum_mul, sum_mul]
    refine sum_le_sum fun i hi => ?_
    have := mul_le_mul_of_nonneg_left (blend_le hp0 hK hx (mem_range.1 hi)) (hr i (mem_range.1 hi))
    rw [← hS] at this
    linarith
  have hRS : 0 < R * S := mul_pos hR0 hz
  refine ⟨lo + (S' / S - lo) / R, ?_, fun x hx => ⟨blend_nonneg hp0 h0 hx, ?_, ?_⟩⟩
  · have : lo ≤ S' / S := by rw [le_div_iff₀ hz]; exact l1
    have := div_nonneg (sub_nonneg.2 this) hR0.le
    linarith
  · dsimp only
    have := key (fun i => p' i - lo * p i) (fun i hi => sub_nonneg.2 (hp i hi).2.1) x hx
    simp only [sub_mul, sum_sub_distrib, ← mul_sum, mul_assoc] at this
    rw [← hS, ← hS'] at this
    generalize ∑ i ∈ range c, p i * K i x = q at this ⊢
    generalize ∑ i ∈ range c, p' i * K i x = q' at this ⊢
    have e : (lo + (S' / S - lo) / R) * q = lo * q + (S' * q - lo * S * q) / (R * S) := by field_simp
    rw [e, ← le_sub_iff_add_le', div_le_iff₀ hRS]
    linarith
  · dsimp only
    have := key (fun i => κ * lo * p i - p' i) (fun i hi => sub_nonneg.2 (hp i hi).2.2) x hx
    have hq := blend_nonneg (P := P) hp0 h0 hx
    simp only [sub_mul, sum_sub_distrib, ← mul_sum, mul_assoc] at this
    simp only [← hS, ← hS'] at this
    generalize ∑ i ∈ range c, p i * K i x = q at this hq ⊢
    generalize ∑ i ∈ range c, p' i * K i x = q' at this ⊢
    have h1 : q' ≤ (κ * lo - (κ * lo - S' / S) / R) * q := by
      have e : (κ * lo - (κ * lo - S' / S) / R) * q = κ * lo * q - (κ * lo * S * q - S' * q) / (R * S) := by field_simp
      rw [e, le_sub_comm, div_le_iff₀ hRS]
      linarith
    refine h1.trans (mul_le_mul_of_nonneg_right ?_ hq)
    have ht : lo ≤ S' / S := by rw [le_div_iff₀ hz]; exact l1
    unfold fade
    set t := S' / S
    rw [pow_one]
    have h3 : 0 ≤ (κ - 1) * (1 - 1 / R) := mul_nonneg (by linarith) (by rw [sub_nonneg, div_le_one hR0]; exact hR)
    have h4 : 0 ≤ (t - lo) / R := div_nonneg (by linarith) hR0.le
    have h5 := mul_nonneg h3 h4
    have e : (1 + (κ - 1) * (1 - 1 / R)) * (lo + (t - lo) / R) - (κ * lo - (κ * lo - t) / R) =
        (κ - 1) * (1 - 1 / R) * ((t - lo) / R) := by field_simp; ring
    linarith

/-- Mixtures of the same components are alike, whatever their weights. -/
theorem Alike.mix_any (hR : 1 ≤ R) (hp : ∀ i < c, 0 ≤ p i) (hp' : ∀ i < c, 0 ≤ p' i)
    (hs : 0 < ∑ i ∈ range c, p i) (hs' : 0 < ∑ i ∈ range c, p' i) (h0 : ∀ i < c, ∀ x, P x → 0 ≤ K i x)
    (hK : ∀ i < c, ∀ j < c, ∀ x, P x → K i x ≤ R * K j x) :
    Alike P (R ^ 2) (fun x => ∑ i ∈ range c, p' i * K i x) fun x => ∑ i ∈ range c, p i * K i x := by
  have hR0 : 0 < R := by linarith
  have key : ∀ {r r' : Nat → ℚ}, (∀ i < c, 0 ≤ r i) → (∀ i < c, 0 ≤ r' i) → ∀ x, P x →
      (∑ i ∈ range c, r' i * K i x) * ∑ i ∈ range c, r i ≤
        R * (∑ i ∈ range c, r' i) * ∑ i ∈ range c, r i * K i x := by
    intro r r' hr hr' x hx
    rw [mul_sum, mul_sum]
    refine sum_le_sum fun i hi => ?_
    have := mul_le_mul_of_nonneg_left (blend_le hr' hK hx (mem_range.1 hi)) (hr i (mem_range.1 hi))
    linarith
  refine ⟨(∑ i ∈ range c, p' i) / ((∑ i ∈ range c, p i) * R), by positivity, fun x hx => ⟨blend_nonneg hp h0 hx, ?_, ?_⟩⟩
  · dsimp only
    have := key hp' hp x hx
    rw [div_mul_eq_mul_div, div_le_iff₀ (by positivity)]
    linarith
  · dsimp only
    have := key hp hp' x hx
    rw [mul_div_assoc', div_mul_eq_mul_div, le_div_iff₀ (by positivity)]
    have h2 := mul_le_mul_of_nonneg_left this hR0.le
    linarith

end

/-! ## networks that differ in one prior -/

theorem prod_map_split {l : List Name} (hl : l.Nodup) {a : Name} (ha : a ∈ l) (g : Name → ℚ) :
    (l.map g).prod = g a * (l.map fun v => if v = a then 1 else g v).prod := by
  induction l with
  | nil => cases ha
  | cons v l ih =>
    rw [List.nodup_cons] at hl
    simp only [List.map_cons, List.prod_cons]
    by_cases h : v = a
    · subst h
      rw [if_pos rfl, one_mul]
      congr 2
      refine List.map_congr_left fun w hw => ?_
      rw [if_neg]
      rintro rfl
      exact hl.1 hw
    · rw [if_neg h, ih hl.2 ((List.mem_cons.1 ha).resolve_left (Ne.symm h))]
      ring

theorem sumOver_update {card : Name → Nat} {s : Finset Name} {a : Name} (ha : a ∉ s) (F : Assign → ℚ) (σ : Assign)
    (i : Nat) : sumOver card s F (Function.update σ a i) = sumOver card s (fun τ => F (Function.update τ a i)) σ := by
  unfold sumOver
  refine sum_congr rfl fun τ _ => ?_
  congr 1
  funext v
  by_cases hv : v = a
  · subst hv; simp [ha]
  · simp [hv]

/-- everything in the weight but the table of `a` and the evidence about `a` -/
def restOf (bn : BN) (ev : Dict Evidence) (a : Name) (τ : Assign) : ℚ :=
  (bn.names.map fun v => if v = a then 1 else entryOf bn v τ * likAt bn ev v (τ v)).prod

theorem weight_restOf {bn : BN} (hn : bn.names.Nodup) {ev : Dict Evidence} (he : LegalEvidence bn ev) {a : Name}
    (ha : a ∈ bn.names) (τ : Assign) :
    weight bn ev τ = entryOf bn a τ * likAt bn ev a (τ a) * restOf bn ev a τ := by
  rw [weight_eq_likAt hn he, prod_map_split hn ha]
  rfl

theorem restOf_nonneg {bn : BN} (hc : bn.Consistent) (hnn : bn.NonNeg) {ev : Dict Evidence} (hen : NonNegEvidence ev)
    (a : Name) (τ : Assign) : 0 ≤ restOf bn ev a τ := by
  refine List.prod_nonneg fun x hx => ?_
  obtain ⟨v, hv, rfl⟩ := List.mem_map.1 hx
  split
  · exact zero_le_one
  · refine mul_nonneg ?_ (likAt_nonneg hen v _)
    obtain ⟨n, hn, rfl⟩ := BN.exists_of_mem_names hv
    rw [entryOf_of_mem hc.nodup hn]
    exact NDArray.get_nonneg (hnn n hn) _

theorem prod_map_le {β : Type} (l : List β) {f g c : β → ℚ} (h : ∀ x ∈ l, 0 ≤ f x ∧ 0 ≤ c x ∧ f x ≤ c x * g x) :
    (l.map f).prod ≤ (l.map c).prod * (l.map g).prod := by
  rw [← List.prod_map_mul]
  induction l with
  | nil => simp
  | cons x l ih =>
    simp only [List.map_cons, List.prod_cons]
    have hx := h x (by simp)
    have hl := fun y hy => h y (List.mem_cons_of_mem _ hy)
    refine mul_le_mul hx.2.2 (ih hl) (List.prod_nonneg fun y hy => ?_) (hx.1.trans hx.2.2)
    obtain ⟨z, hz, rfl⟩ := List.mem_map.1 hy
    exact (hl z hz).1

theorem prod_childCount (bn : BN) (a : Name) (ρ : ℚ) :
    (bn.map fun n => if a ∈ n.parentOrder then ρ else 1).prod = bn.grip a ρ := by
  unfold BN.grip BN.childCount
  induction bn with
  | nil => simp
  | cons n l ih =>
    rw [List.map_cons, List.prod_cons, ih]
    by_cases h : a ∈ n.parentOrder
    · rw [if_pos h, List.filter_cons_of_pos (by simpa using h), List.length_cons, pow_succ']
    · rw [if_neg h, List.filter_cons_of_neg (by simpa using h), one_mul]

theorem BN.one_le_grip (bn : BN) (a : Name) {ρ : ℚ} (hρ : 1 ≤ ρ) : 1 ≤ bn.grip a ρ := one_le_pow₀ hρ

theorem restOf_le {bn : BN} (hc : bn.Consistent) (hnn : bn.NonNeg) {ev : Dict Evidence} (hen : NonNegEvidence ev)
    {a : Name} {ρ : ℚ} (hρ : 1 ≤ ρ) (hi : bn.Influence a ρ) {τ : Assign} (hτ : Legal bn.card bn.names τ) {i : Nat}
    (hia : i < bn.card a) : restOf bn ev a (Function.update τ a i) ≤ bn.grip a ρ * restOf bn ev a τ := by
  unfold restOf BN.names
  rw [List.map_map, List.map_map, ← prod_childCount]
  refine prod_map_le _ fun n hn => ?_
  simp only [Function.comp]
  have hc0 : (0 : ℚ) ≤ if a ∈ n.parentOrder then ρ else 1 := by split <;> linarith
  have hc1 : (1 : ℚ) ≤ if a ∈ n.parentOrder then ρ else 1 := by split <;> linarith
  by_cases h : n.name = a
  · simp only [if_pos h]
    exact ⟨zero_le_one, hc0, by linarith⟩
  · simp only [if_neg h]
    rw [entryOf_of_mem hc.nodup hn, entryOf_of_mem hc.nodup hn, Function.update_of_ne h]
    have hl := likAt_nonneg (bn := bn) hen n.name (τ n.name)
    refine ⟨mul_nonneg (NDArray.get_nonneg (hnn n hn) _) hl, hc0, ?_⟩
    rw [← mul_assoc]
    refine mul_le_mul_of_nonneg_right ?_ hl
    by_cases hp : a ∈ n.parentOrder
    · rw [if_pos hp]
      exact hi n hn hp τ hτ i hia
    · rw [if_neg hp, one_mul]
      refine le_of_eq ?_
      unfold NodeV.entry
      congr 1
      rw [Function.update_of_ne h]
      congr 1
      refine List.map_congr_left fun v hv => ?_
      rw [Function.update_of_ne]
      rintro rfl
      exact hp hv

theorem posterior_eq_scale {bn : BN} (hc : bn.Consistent) {ev : Dict Evidence} (he : LegalEvidence bn ev)
    (Q : List Name) : ∃ c : ℚ, 0 < c ∧ ∀ σ,
      posterior bn ev Q σ = c * sumOver bn.card (bn.names.toFinset \ Q.toFinset) (weight bn ev) σ := by
  by_cases hz : 0 < totalWeight bn ev fun _ => 0
  · refine ⟨(totalWeight bn ev fun _ => 0)⁻¹, inv_pos.2 hz, fun σ => ?_⟩
    unfold posterior
    dsimp only
    rw [totalWeight_const hc he σ fun _ => 0, if_pos hz, div_eq_inv_mul]
  · refine ⟨1, one_pos, fun σ => ?_⟩
    unfold posterior
    dsimp only
    rw [totalWeight_const hc he σ fun _ => 0, if_neg hz, one_mul]

/-- Two networks with evidence whose weights differ in a factor that depends on the outcome of `a` only, while the
remaining factor `F` depends on it little. -/
structure OneFactor (a : Name) (R : ℚ) (bn : BN) (ev : Dict Evidence) (bn' : BN) (ev' : Dict Evidence) (P P' : Nat → ℚ)
    (F : Assign → ℚ) : Prop where
  bare : bn'.bare = bn.bare
  consistent : bn.Consistent
  consistent' : bn'.Consistent
  legal : LegalEvidence bn ev
  legal' : LegalEvidence bn' ev'
  mem : a ∈ bn.names
  one_le : 1 ≤ R
  nonneg : ∀ τ, 0 ≤ F τ
  factor : ∀ i < bn.card a, 0 ≤ P i
  influence : ∀ τ, Legal bn.card bn.names τ → ∀ i < bn.card a, F (Function.update τ a i) ≤ R * F τ
  weight : ∀ τ, Legal bn.card bn.names τ → weight bn ev τ = P (τ a) * F τ
  weight' : ∀ τ, Legal bn.card bn.names τ → Primo.weight bn' ev' τ = P' (τ a) * F τ

namespace OneFactor
variable {a b : Name} {R κ : ℚ} {bn bn' : BN} {ev ev' : Dict Evidence} {P P' : Nat → ℚ} {F : Assign → ℚ}

/-- the marginal weights are mixtures of what the outcomes of `a` contribute -/
theorem marginal (h : OneFactor a R bn ev bn' ev' P P' F) {w : Assign → ℚ} {r : Nat → ℚ}
    (hw : ∀ τ, Legal bn.card bn.names τ → w τ = r (τ a) * F τ) {s : Finset Name} (ha : a ∉ s) {σ : Assign}
    (hs : ∀ v ∈ bn.names, v ≠ a → v ∉ s → σ v < bn.card v) :
    sumOver bn.card (insert a s) w σ = ∑ i ∈ range (bn.card a), r i *
      sumOver bn.card s (fun τ => F (Function.update τ a i)) σ := by
  have := h.mem
  rw [sumOver_insert ha]
  refine sum_congr rfl fun i hi => ?_
  rw [sumOver_update ha, ← sumOver_const_mul]
  refine sumOver_congr fun τ hτ => ?_
  rw [hw, Function.update_self]
  intro v hv
  by_cases hva : v = a
  · subst hva; rw [Function.update_self]; exact mem_range.1 hi
  · rw [Function.update_of_ne hva]
    by_cases hvs : v ∈ s
    · exact hτ.2 v hvs
    · rw [hτ.1 v hvs]
      exact hs v hv hva hvs

theorem components (h : OneFactor a R bn ev bn' ev' P P' F) (hab : b ≠ a) :
    ∀ i < bn.card a, ∀ j < bn.card a, ∀ σ, Legal bn.card [b] σ →
      sumOver bn.card ((bn.names.toFinset \ [b].toFinset).erase a) (fun τ => F (Function.update τ a i)) σ ≤
      R * sumOver bn.card ((bn.names.toFinset \ [b].toFinset).erase a) (fun τ => F (Function.update τ a j)) σ := by
  intro i hia j hja σ hσ
  rw [← sumOver_const_mul]
  refine sumOver_mono fun τ hτ => ?_
  have hl : Legal bn.card bn.names (Function.update τ a j) := by
    intro v hv
    by_cases hva : v = a
    · subst hva; rw [Function.update_self]; exact hja
    · rw [Function.update_of_ne hva]
      by_cases hvb : v = b
      · subst hvb
        rw [hτ.1 v (by simp)]
        exact hσ v (by simp)
      · exact hτ.2 v (by simp [hva, hvb, hv])
  have := h.influence _ hl i hia
  rwa [Function.update_idem] at this

theorem insert_erase (h : OneFactor a R bn ev bn' ev' P P' F) (hab : b ≠ a) :
    insert a ((bn.names.toFinset \ [b].toFinset).erase a) = bn.names.toFinset \ [b].toFinset :=
  Finset.insert_erase (by simp [h.mem, Ne.symm hab])

theorem marginal_one (h : OneFactor a R bn ev bn' ev' P P' F) (hab : b ≠ a) {w : Assign → ℚ} {r : Nat → ℚ}
    (hw : ∀ τ, Legal bn.card bn.names τ → w τ = r (τ a) * F τ) {σ : Assign} (hσ : Legal bn.card [b] σ) :
    sumOver bn.card (bn.names.toFinset \ [b].toFinset) w σ = ∑ i ∈ range (bn.card a), r i *
      sumOver bn.card ((bn.names.toFinset \ [b].toFinset).erase a) (fun τ => F (Function.update τ a i)) σ := by
  conv_lhs => rw [← h.insert_erase hab]
  refine h.marginal hw (Finset.notMem_erase _ _) fun v hv hva hvs => ?_
  by_cases hvb : v = b
  · exact hσ v (by simp [hvb])
  · exact absurd (by simp [hva, hvb, hv]) hvs

/-- In the posterior of another variable a difference in the factor has faded. -/
theorem posterior (h : OneFactor a R bn ev bn' ev' P P' F) (hab : b ≠ a) (hκ : 1 ≤ κ)
    (hp : Alike (· < bn.card a) κ P' P) :
    Alike (Legal bn.card [b]) (fade R κ 1) (Primo.posterior bn' ev' [b]) (Primo.posterior bn ev [b]) := by
  obtain ⟨c, c1, c2⟩ := posterior_eq_scale h.consistent h.legal [b]
  obtain ⟨c', c1', c2'⟩ := posterior_eq_scale h.consistent' h.legal' [b]
  have := hp.mix hκ h.one_le
    (fun i _ σ _ => sumOver_nonneg fun τ _ => h.nonneg (Function.update τ a i)) (h.components hab)
  refine (this.scale c1' c1).congr (fun σ hσ => ?_) fun σ hσ => ?_
  · rw [c2', BN.names_of_bare h.bare, BN.card_of_bare h.bare, h.marginal_one hab h.weight' hσ]
  · rw [c2, h.marginal_one hab h.weight hσ]

theorem factor_pos (h : OneFactor a R bn ev bn' ev' P P' F) {w : Assign → ℚ} {r : Nat → ℚ}
    (hr : ∀ i < bn.card a, 0 ≤ r i) (hw : ∀ τ, Legal bn.card bn.names τ → w τ = r (τ a) * F τ) {σ : Assign}
    (hz : 0 < sumOver bn.card bn.names.toFinset w σ) : 0 < ∑ i ∈ range (bn.card a), r i := by
  have h0 : ∀ i ∈ range (bn.card a), 0 ≤ r i := fun i hi => hr i (mem_range.1 hi)
  refine lt_of_le_of_ne (sum_nonneg h0) fun e => ?_
  have h1 := (sum_eq_zero_iff_of_nonneg h0).1 e.symm
  rw [← Finset.insert_erase (List.mem_toFinset.2 h.mem), h.marginal hw (Finset.notMem_erase _ _)
    (fun v hv hva hvs => absurd (by simp [hva, hv]) hvs), sum_eq_zero fun i hi => by rw [h1 i hi, zero_mul]] at hz
  exact lt_irrefl _ hz

theorem posterior_any (h : OneFactor a R bn ev bn' ev' P P' F) (hab : b ≠ a) (hP' : ∀ i < bn.card a, 0 ≤ P' i)
    {σ σ' : Assign} (hz : 0 < totalWeight bn ev σ) (hz' : 0 < totalWeight bn' ev' σ') :
    Alike (Legal bn.card [b]) (R ^ 2) (Primo.posterior bn' ev' [b]) (Primo.posterior bn ev [b]) := by
  obtain ⟨c, c1, c2⟩ := posterior_eq_scale h.consistent h.legal [b]
  obtain ⟨c', c1', c2'⟩ := posterior_eq_scale h.consistent' h.legal' [b]
  unfold totalWeight at hz hz'
  rw [BN.names_of_bare h.bare, BN.card_of_bare h.bare] at hz'
  have := Alike.mix_any (P := Legal bn.card [b]) h.one_le h.factor hP'
    (h.factor_pos h.factor h.weight hz) (h.factor_pos hP' h.weight' hz')
    (fun i _ σ _ => sumOver_nonneg fun τ _ => h.nonneg (Function.update τ a i)) (h.components hab)
  refine (this.scale c1' c1).congr (fun σ hσ => ?_) fun σ hσ => ?_
  · rw [c2', BN.names_of_bare h.bare, BN.card_of_bare h.bare, h.marginal_one hab h.weight' hσ]
  · rw [c2, h.marginal_one hab h.weight hσ]

/-- Every posterior is at most as far off as the factor. -/
theorem answers (h : OneFactor a R bn ev bn' ev' P P' F) (hκ : 1 ≤ κ) (hp : Alike (· < bn.card a) κ P' P)
    {Q : List Name} {σ : Assign} (hσ : Legal bn.card Q σ) :
    Primo.posterior bn' ev' Q σ ≤ κ * Primo.posterior bn ev Q σ ∧
      Primo.posterior bn ev Q σ ≤ κ * Primo.posterior bn' ev' Q σ := by
  have hw : Alike (Legal bn.card bn.names) κ (Primo.weight bn' ev') (Primo.weight bn ev) :=
    ((hp.comap (p := fun τ : Assign => τ a) fun τ hτ => hτ a h.mem).mul_right fun τ _ => h.nonneg τ).congr
      h.weight' h.weight
  obtain ⟨lo, hlo, hw⟩ := hw
  have key : ∀ s : Finset Name, (∀ v ∈ bn.names, v ∉ s → σ v < bn.card v) →
      0 ≤ sumOver bn.card s (Primo.weight bn ev) σ ∧
      lo * sumOver bn.card s (Primo.weight bn ev) σ ≤ sumOver bn.card s (Primo.weight bn' ev') σ ∧
      sumOver bn.card s (Primo.weight bn' ev') σ ≤ κ * lo * sumOver bn.card s (Primo.weight bn ev) σ := by
    intro s hs
    have hl : ∀ τ, Varies bn.card s σ τ → Legal bn.card bn.names τ := fun τ hτ => hτ.legal hs
    refine ⟨sumOver_nonneg fun τ hτ => (hw τ (hl τ hτ)).1, ?_, ?_⟩
    · rw [← sumOver_const_mul]
      exact sumOver_mono fun τ hτ => (hw τ (hl τ hτ)).2.1
    · rw [← sumOver_const_mul]
      exact sumOver_mono fun τ hτ => (hw τ (hl τ hτ)).2.2
  obtain ⟨m0, m1, m2⟩ := key (bn.names.toFinset \ Q.toFinset) fun v hv hv' => hσ v (by simpa [hv] using hv')
  obtain ⟨z0, z1, z2⟩ := key bn.names.toFinset fun v hv hv' => absurd (List.mem_toFinset.2 hv) hv'
  have hMZ : sumOver bn.card (bn.names.toFinset \ Q.toFinset) (Primo.weight bn ev) σ ≤
      sumOver bn.card bn.names.toFinset (Primo.weight bn ev) σ := by
    have e : bn.names.toFinset = (bn.names.toFinset ∩ Q.toFinset) ∪ (bn.names.toFinset \ Q.toFinset) := by
      ext v; simp; tauto
    conv_rhs => rw [e]
    rw [sumOver_union (by
      rw [Finset.disjoint_left]; intro v hv; simp at hv ⊢; exact fun _ => hv.2)]
    refine le_sumOver (F := sumOver bn.card (bn.names.toFinset \ Q.toFinset) (Primo.weight bn ev)) (fun τ hτ => ?_)
      ⟨fun _ _ => rfl, fun v hv => hσ v (by simp at hv; exact hv.2)⟩
    refine sumOver_nonneg fun τ' hτ' => (hw τ' (hτ'.legal fun v hv hv' => ?_)).1
    by_cases hvQ : v ∈ Q
    · exact hτ.2 v (by simp [hv, hvQ])
    · exact absurd (by simp [hv, hvQ]) hv'
  unfold Primo.posterior totalWeight
  dsimp only
  rw [BN.names_of_bare h.bare, BN.card_of_bare h.bare]
  generalize sumOver bn.card (bn.names.toFinset \ Q.toFinset) (Primo.weight bn ev) σ = x at *
  generalize sumOver bn.card (bn.names.toFinset \ Q.toFinset) (Primo.weight bn' ev') σ = x' at *
  generalize sumOver bn.card bn.names.toFinset (Primo.weight bn ev) σ = z at *
  generalize sumOver bn.card bn.names.toFinset (Primo.weight bn' ev') σ = z' at *
  have hk0 : 0 < κ := by linarith
  rcases z0.eq_or_lt with hz | hz
  · subst hz
    have hx : x = 0 := le_antisymm hMZ m0
    subst hx
    have hz' : z' = 0 := le_antisymm (by linarith) (by linarith)
    have hx' : x' = 0 := le_antisymm (by linarith) (by linarith)
    subst hz' hx'
    simp
  · have hz' : 0 < z' := lt_of_lt_of_le (mul_pos hlo hz) z1
    rw [if_pos hz, if_pos hz', mul_div_assoc', mul_div_assoc', div_le_div_iff₀ hz' hz, div_le_div_iff₀ hz hz']
    have hx' : 0 ≤ x' := le_trans (mul_nonneg hlo.le m0) m1
    constructor
    · calc x' * z ≤ κ * lo * x * z := mul_le_mul_of_nonneg_right m2 hz.le
        _ = κ * x * (lo * z) := by ring
        _ ≤ _ := mul_le_mul_of_nonneg_left z1 (mul_nonneg hk0.le m0)
    · calc x * z' ≤ x * (κ * lo * z) := mul_le_mul_of_nonneg_left z2 m0
        _ = κ * (lo * x) * z := by ring
        _ ≤ _ := mul_le_mul_of_nonneg_right (mul_le_mul_of_nonneg_left m1 hk0.le) hz.le

end OneFactor

/-- Two networks that differ in the prior of `a` only. -/
structure OnePrior (a : Name) (bn bn' : BN) (p p' : Nat → ℚ) : Prop where
  bare : bn'.bare = bn.bare
  consistent : bn.Consistent
  consistent' : bn'.Consistent
  nonneg : bn.NonNeg
  nonneg' : bn'.NonNeg
  mem : a ∈ bn.names
  prior : ∀ ρ, entryOf bn a ρ = p (ρ a)
  prior' : ∀ ρ, entryOf bn' a ρ = p' (ρ a)
  same : ∀ v ∈ bn.names, v ≠ a → ∀ ρ, entryOf bn' v ρ = entryOf bn v ρ

namespace OnePrior
variable {a b : Name} {bn bn' : BN} {p p' : Nat → ℚ} {ev : Dict Evidence} {κ ρ : ℚ}

theorem likAt (h : OnePrior a bn bn' p p') (v : Name) (i : Nat) : likAt bn' ev v i = Primo.likAt bn ev v i := by
  unfold Primo.likAt
  rw [BN.lab_of_bare h.bare]

theorem weight_left (h : OnePrior a bn bn' p p') (he : LegalEvidence bn ev) (τ : Assign) :
    weight bn ev τ = p (τ a) * Primo.likAt bn ev a (τ a) * restOf bn ev a τ := by
  rw [weight_restOf h.consistent.nodup he h.mem, h.prior]

theorem weight_right (h : OnePrior a bn bn' p p') (he : LegalEvidence bn ev) (τ : Assign) :
    weight bn' ev τ = p' (τ a) * Primo.likAt bn ev a (τ a) * restOf bn ev a τ := by
  rw [weight_restOf h.consistent'.nodup (he.of_bare h.bare) (by rw [BN.names_of_bare h.bare]; exact h.mem), h.prior',
    h.likAt]
  congr 1
  unfold restOf
  rw [BN.names_of_bare h.bare]
  congr 1
  refine List.map_congr_left fun v hv => ?_
  by_cases hva : v = a
  · rw [if_pos hva, if_pos hva]
  · rw [if_neg hva, if_neg hva, h.same v hv hva, h.likAt]

/-- they are networks whose weights differ in a factor for the outcome of `a` -/
theorem oneFactor (h : OnePrior a bn bn' p p') (he : LegalEvidence bn ev) (hen : NonNegEvidence ev) (hρ : 1 ≤ ρ)
    (hi : bn.Influence a ρ) (hp : ∀ i < bn.card a, 0 ≤ p i) :
    OneFactor a (bn.grip a ρ) bn ev bn' ev (fun i => p i * Primo.likAt bn ev a i) (fun i => p' i * Primo.likAt bn ev a i)
      (restOf bn ev a) where
  bare := h.bare
  consistent := h.consistent
  consistent' := h.consistent'
  legal := he
  legal' := he.of_bare h.bare
  mem := h.mem
  one_le := bn.one_le_grip a hρ
  nonneg τ := restOf_nonneg h.consistent h.nonneg hen a τ
  factor i hia := mul_nonneg (hp i hia) (likAt_nonneg hen a i)
  influence τ hτ i hia := restOf_le h.consistent h.nonneg hen hρ hi hτ hia
  weight τ _ := h.weight_left he τ
  weight' τ _ := h.weight_right he τ

theorem alike_likelihood (_h : OnePrior a bn bn' p p') (hen : NonNegEvidence ev) (hp : Alike (· < bn.card a) κ p' p) :
    Alike (· < bn.card a) κ (fun i => p' i * Primo.likAt bn ev a i) fun i => p i * Primo.likAt bn ev a i :=
  hp.mul_right fun i _ => likAt_nonneg hen a i

/-- In the posterior of another variable a difference in the prior has faded. -/
theorem posterior (h : OnePrior a bn bn' p p') (he : LegalEvidence bn ev) (hen : NonNegEvidence ev) (hab : b ≠ a)
    (hκ : 1 ≤ κ) (hρ : 1 ≤ ρ) (hi : bn.Influence a ρ) (hp : Alike (· < bn.card a) κ p' p) :
    Alike (Legal bn.card [b]) (fade (bn.grip a ρ) κ 1) (Primo.posterior bn' ev [b]) (Primo.posterior bn ev [b]) :=
  (h.oneFactor he hen hρ hi fun i hia => hp.nonneg hia).posterior hab hκ (h.alike_likelihood hen hp)

theorem posterior_any (h : OnePrior a bn bn' p p') (he : LegalEvidence bn ev) (hen : NonNegEvidence ev) (hab : b ≠ a)
    (hρ : 1 ≤ ρ) (hi : bn.Influence a ρ) (hp : ∀ i < bn.card a, 0 ≤ p i) (hp' : ∀ i < bn.card a, 0 ≤ p' i) {σ : Assign}
    (hz : 0 < totalWeight bn ev σ) (hz' : 0 < totalWeight bn' ev σ) :
    Alike (Legal bn.card [b]) (bn.grip a ρ ^ 2) (Primo.posterior bn' ev [b]) (Primo.posterior bn ev [b]) :=
  (h.oneFactor he hen hρ hi hp).posterior_any hab (fun i hia => mul_nonneg (hp' i hia) (likAt_nonneg hen a i)) hz hz'

/-- Every posterior is at most as far off as the prior. -/
theorem answers (h : OnePrior a bn bn' p p') (he : LegalEvidence bn ev) (hen : NonNegEvidence ev) (hρ : 1 ≤ ρ)
    (hi : bn.Influence a ρ) (hκ : 1 ≤ κ)
    (hp : Alike (· < bn.card a) κ p' p) {Q : List Name} {σ : Assign} (hσ : Legal bn.card Q σ) :
    Primo.posterior bn' ev Q σ ≤ κ * Primo.posterior bn ev Q σ ∧
      Primo.posterior bn ev Q σ ≤ κ * Primo.posterior bn' ev Q σ :=
  (h.oneFactor he hen hρ hi fun i hia => hp.nonneg hia).answers hκ (h.alike_likelihood hen hp) hσ

end OnePrior

end Primo
