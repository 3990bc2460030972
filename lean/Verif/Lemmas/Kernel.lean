import Verif.Lemmas.Rand
import Verif.Lemmas.MarkovBlanket

/-! # Single-site updates as transition kernels -/

namespace Primo
open Finset

variable {bn : BN}

theorem mem_states {σ : Assign} :
    σ ∈ states bn ↔ Legal bn.card bn.names σ ∧ ∀ v, v ∉ bn.names → σ v = 0 := by
  classical
  unfold states
  rw [mem_image]
  constructor
  · rintro ⟨τ, hτ, rfl⟩
    refine ⟨fun v hv => ?_, fun v hv => ?_⟩
    · have hv' : v ∈ bn.names.toFinset := by simpa using hv
      simp only [hv', dif_pos]
      exact mem_range.1 (mem_pi.1 hτ v hv')
    · have hv' : v ∉ bn.names.toFinset := by simpa using hv
      simp only [hv', dif_neg, not_false_eq_true]
  · rintro ⟨h1, h2⟩
    refine ⟨fun v _ => σ v, mem_pi.2 fun v hv => mem_range.2 (h1 v (by simpa using hv)), ?_⟩
    funext v
    by_cases hv : v ∈ bn.names
    · simp [hv]
    · simp [hv, h2 v hv]

theorem Legal.update {σ : Assign} (h : Legal bn.card bn.names σ) {v : Name} {b : Nat}
    (hb : b < bn.card v) : Legal bn.card bn.names (Function.update σ v b) := by
  intro w hw
  by_cases e : w = v
  · subst e; rwa [Function.update_self]
  · rw [Function.update_of_ne e]; exact h w hw

theorem update_mem_states {σ : Assign} (h : σ ∈ states bn) {v : Name} (hv : v ∈ bn.names) {b : Nat}
    (hb : b < bn.card v) : Function.update σ v b ∈ states bn := by
  obtain ⟨h1, h2⟩ := mem_states.1 h
  refine mem_states.2 ⟨h1.update hb, fun w hw => ?_⟩
  rw [Function.update_of_ne (by rintro rfl; exact hw hv)]
  exact h2 w hw

/-- A reversible kernel that changes one variable leaves the distribution invariant. -/
theorem invariant_of_balance {v : Name} (hv : v ∈ bn.names) {π : Assign → ℝ}
    {K : Assign → Nat → ℝ}
    (mass : ∀ σ, Legal bn.card bn.names σ → ∑ b ∈ range (bn.card v), K σ b = 1)
    (balance : ∀ σ, Legal bn.card bn.names σ → ∀ b < bn.card v,
      π σ * K σ b = π (Function.update σ v b) * K (Function.update σ v b) (σ v)) (g : Assign → ℝ) :
    ∑ σ ∈ states bn, π σ * ∑ b ∈ range (bn.card v), K σ b * g (Function.update σ v b) =
      ∑ σ ∈ states bn, π σ * g σ := by
  have h1 : ∑ σ ∈ states bn, π σ * g σ =
      ∑ x ∈ states bn ×ˢ range (bn.card v), π x.1 * K x.1 x.2 * g x.1 := by
    rw [sum_product]
    refine sum_congr rfl fun σ hσ => ?_
    have := mass σ (mem_states.1 hσ).1
    calc π σ * g σ = π σ * g σ * ∑ b ∈ range (bn.card v), K σ b := by rw [this, mul_one]
      _ = _ := by rw [mul_sum]; exact sum_congr rfl fun b _ => by ring
  have h2 : ∑ σ ∈ states bn, π σ * ∑ b ∈ range (bn.card v), K σ b * g (Function.update σ v b) =
      ∑ x ∈ states bn ×ˢ range (bn.card v), π x.1 * K x.1 x.2 * g (Function.update x.1 v x.2) := by
    rw [sum_product]
    refine sum_congr rfl fun σ _ => ?_
    rw [mul_sum]
    exact sum_congr rfl fun b _ => by ring
  rw [h1, h2]
  have hlt : ∀ x ∈ states bn ×ˢ range (bn.card v),
      (Function.update x.1 v x.2, x.1 v) ∈ states bn ×ˢ range (bn.card v) := by
    intro x hx
    obtain ⟨a, b⟩ := mem_product.1 hx
    exact mem_product.2 ⟨update_mem_states a hv (mem_range.1 b),
      mem_range.2 ((mem_states.1 a).1 v hv)⟩
  refine sum_nbij' (fun x => (Function.update x.1 v x.2, x.1 v))
    (fun x => (Function.update x.1 v x.2, x.1 v)) hlt hlt ?_ ?_ ?_
  · intro x _; simp
  · intro x _; simp
  · intro x hx
    obtain ⟨a, b⟩ := mem_product.1 hx
    rw [balance x.1 (mem_states.1 a).1 x.2 (mem_range.1 b)]

/-- `G` judges a returned state dictionary as `g` judges the instantiation it describes. -/
def Compat (bn : BN) (G : Except PyErr (Dict Val) → ℝ) (g : Assign → ℝ) : Prop :=
  ∀ d τ, Legal bn.card bn.names τ → Reads bn d τ → G (.ok d) = g τ

/-- The random program `site` changes variable `v` only, by the kernel `K`, which is reversible for `π`
and reaches every outcome of `v` that `π` gives positive probability. -/
def IsKernel (bn : BN) (π : Assign → ℝ) (v : Name)
    (site : Dict Val → Rand (Except PyErr (Dict Val))) (K : Assign → Nat → ℝ) : Prop :=
    (∀ G g, Compat bn G g → ∀ σ, Legal bn.card bn.names σ → ∀ d, Reads bn d σ →
      (site d).expect G = ∑ b ∈ range (bn.card v), K σ b * g (Function.update σ v b)) ∧
    (∀ σ, Legal bn.card bn.names σ → ∑ b ∈ range (bn.card v), K σ b = 1) ∧
    (∀ σ, Legal bn.card bn.names σ → ∀ b < bn.card v,
      π σ * K σ b = π (Function.update σ v b) * K (Function.update σ v b) (σ v)) ∧
    ∀ σ, Legal bn.card bn.names σ → ∀ b < bn.card v,
      0 ≤ K σ b ∧ (0 < π (Function.update σ v b) → 0 < K σ b)

/-- There is such a kernel. -/
def SiteKernel (bn : BN) (π : Assign → ℝ) (v : Name)
    (site : Dict Val → Rand (Except PyErr (Dict Val))) : Prop :=
  ∃ K : Assign → Nat → ℝ, IsKernel bn π v site K

/-- `π` is proportional to the Markov-blanket weight of `n` along changes of `n`. -/
def Proportional (bn : BN) (π : Assign → ℝ) (n : NodeV) : Prop :=
  ∀ σ, ∃ C : ℝ, ∀ a, π (Function.update σ n.name a) =
    C * (blanket bn n (Function.update σ n.name a) : ℚ)

theorem sum_idxOf {l : List Val} (hl : l.Nodup) (f : Nat → ℝ) :
    (l.map fun o => f (l.idxOf o)).sum = ∑ b ∈ range l.length, f b := by
  rw [← Rand.sum_range_getD l (fun o => f (l.idxOf o)) ""]
  refine sum_congr rfl fun b hb => ?_
  congr 1
  have hb := mem_range.1 hb
  rw [List.getD_eq_getElem?_getD, List.getElem?_eq_getElem hb, Option.getD_some]
  exact (hl.idxOf_getElem b hb)

theorem sum_idxOf_rat {l : List Val} (hl : l.Nodup) (f : Nat → ℚ) :
    (l.map fun o => f (l.idxOf o)).sum = ∑ b ∈ range l.length, f b := by
  have := sum_idxOf hl fun i => ((f i : ℚ) : ℝ)
  have h2 : ((l.map fun o => ((f (l.idxOf o) : ℚ) : ℝ)).sum) =
      (((l.map fun o => f (l.idxOf o)).sum : ℚ) : ℝ) := by
    rw [Rat.cast_list_sum, List.map_map]; rfl
  rw [h2] at this
  exact_mod_cast this

theorem blanket_nonneg (hn : bn.NonNeg) {n : NodeV} (hm : n ∈ bn) (hc : bn.Consistent)
    (hl : bn.Linked) (σ : Assign) : 0 ≤ blanket bn n σ := by
  refine mul_nonneg (NDArray.get_nonneg (hn n hm) _) (list_prod_nonneg ?_)
  intro x hx
  obtain ⟨m, h, rfl⟩ := List.mem_map.1 hx
  exact NDArray.get_nonneg (hn m ((mem_childNodes hc hl hm).1 h).1) _

/-- the weights of `sample_value` -/
theorem weights_reads (hc : bn.Consistent) (hl : bn.Linked) (hd : bn.Discrete) {n : NodeV}
    (hn : n ∈ bn) {σ : Assign} (hσ : Legal bn.card bn.names σ) {d : Dict Val} (hr : Reads bn d σ) :
    n.weights d (bn.childNodes n) false = .ok (n.values.map fun o =>
      blanket bn n (Function.update σ n.name (n.values.idxOf o))) := by
  refine mapM_ok fun o ho => ?_
  have hlt := List.idxOf_lt_length_of_mem ho
  have hx : n.values[n.values.idxOf o]? = some o := List.getElem?_idxOf ho
  refine markovProb_reads hc hl hd hn (hσ.update (card_eq hc hn ▸ hlt))
    (hr.set (by rw [lab_get hc hn]; exact hx)) ?_
  rw [Function.update_self]
  exact hx

/-- the probability with which Gibbs sampling gives `n` the outcome `b` -/
noncomputable def gibbsK (bn : BN) (n : NodeV) (σ : Assign) (b : Nat) : ℝ :=
  if ∑ a ∈ range n.values.length, blanket bn n (Function.update σ n.name a) = 0 then
    if b = 0 then 1 else 0
  else ((blanket bn n (Function.update σ n.name b) /
    ∑ a ∈ range n.values.length, blanket bn n (Function.update σ n.name a) : ℚ) : ℝ)

/-- the kernel of Gibbs sampling: it takes the first outcome if all weights are zero -/
theorem gibbs_moves_eq (hc : bn.Consistent) (hl : bn.Linked) (hd : bn.Discrete) (hnn : bn.NonNeg)
    {n : NodeV} (hn : n ∈ bn) {π : Assign → ℝ} (hπ : Proportional bn π n) :
    ∃ K, K = gibbsK bn n ∧ IsKernel bn π n.name (Mcmc.gibbsSite bn n) K ∧
      (∀ σ, (∀ b < bn.card n.name, blanket bn n (Function.update σ n.name b) = 0) →
        ∀ b, K σ b = if b = 0 then 1 else 0) ∧
      ∀ σ, ∀ b < bn.card n.name, 0 < K σ b ↔ 0 < blanket bn n (Function.update σ n.name b) ∨
        (∀ a < bn.card n.name, blanket bn n (Function.update σ n.name a) = 0) ∧ b = 0 := by
  let q : Assign → Nat → ℚ := fun σ b => blanket bn n (Function.update σ n.name b)
  let Q : Assign → ℚ := fun σ => ∑ b ∈ range n.values.length, q σ b
  have hq0 : ∀ σ b, 0 ≤ q σ b := fun σ b => blanket_nonneg hnn hn hc hl _
  have hqu : ∀ σ a b, q (Function.update σ n.name a) b = q σ b := fun σ a b => by
    simp only [q, Function.update_idem]
  have hQu : ∀ σ a, Q (Function.update σ n.name a) = Q σ := fun σ a => by
    simp only [Q, hqu]
  have hvn : n.name ∈ bn.names := List.mem_map_of_mem hn
  have hcard := card_eq hc hn
  refine ⟨fun σ b => if Q σ = 0 then if b = 0 then 1 else 0 else ((q σ b / Q σ : ℚ) : ℝ), rfl,
    ⟨?_, ?_, ?_, ?_⟩, fun σ h0 b => if_pos (sum_eq_zero fun c h => h0 c (hcard ▸ mem_range.1 h)),
    fun σ b hb => ?_⟩
  rotate_right
  · have hiff : Q σ = 0 ↔ ∀ a < bn.card n.name, q σ a = 0 := by
      rw [sum_eq_zero_iff_of_nonneg fun b _ => hq0 σ b, hcard]
      simp only [mem_range]
    dsimp only
    split
    · next h0 =>
      have h1 := hiff.1 h0
      have h2 : ¬ 0 < q σ b := by rw [h1 b hb]; exact lt_irrefl _
      split
      · next hb0 => exact ⟨fun _ => Or.inr ⟨h1, hb0⟩, fun _ => one_pos⟩
      · next hb0 => exact ⟨fun h => absurd h (lt_irrefl _), fun h => by
          rcases h with h | h
          · exact absurd h h2
          · exact absurd h.2 hb0⟩
    · next h0 =>
      have hQ0 : 0 < Q σ := lt_of_le_of_ne (sum_nonneg fun b _ => hq0 σ b) (Ne.symm h0)
      rw [Rat.cast_pos, div_pos_iff_of_pos_right hQ0]
      exact ⟨Or.inl, fun h => h.resolve_right fun h => h0 (hiff.2 h.1)⟩
  · intro G g hG σ hσ d hr
    have hpos : 0 < n.values.length := lt_of_le_of_lt (Nat.zero_le _) (hcard ▸ hσ _ hvn)
    let G' : Option Val → ℝ := fun r => match r with
      | none => G (.error .noneValue)
      | some x => G (.ok (d.set n.name x))
    have hset : ∀ o ∈ n.values, G' (some o) = g (Function.update σ n.name (n.values.idxOf o)) :=
      fun o ho => hG _ _ (hσ.update (hcard ▸ List.idxOf_lt_length_of_mem ho))
        (hr.set (by rw [lab_get hc hn]; exact List.getElem?_idxOf ho))
    have hsum : (n.values.map fun o => q σ (n.values.idxOf o)).sum = Q σ :=
      sum_idxOf_rat (hd.labels n hn) (q σ)
    have hzip : n.values.zip (n.values.map fun o => q σ (n.values.idxOf o)) =
        n.values.map fun o => (o, q σ (n.values.idxOf o)) := by
      rw [show n.values.map (fun o => (o, q σ (n.values.idxOf o))) =
        (n.values.map id).zip (n.values.map fun o => q σ (n.values.idxOf o)) from
          (List.zip_map' ..).symm, List.map_id]
    have hE : (Mcmc.gibbsSite bn n d).expect G = ∫ u in (0 : ℝ)..1,
        G' (roulette (n.values.map fun o => (o, q σ (n.values.idxOf o))) 0 (u * (Q σ : ℚ))) := by
      unfold Mcmc.gibbsSite NodeV.resample NodeV.sampleValue
      rw [if_neg (by simp [hd.kind n hn]), weights_reads hc hl hd hn hσ hr]
      rw [Rand.andThen_ok, Rand.andThen_uniform, Rand.expect_uniform]
      simp only [Rand.andThen_pure_ok]
      rw [show (n.values.map fun o => blanket bn n (Function.update σ n.name (n.values.idxOf o))) =
        n.values.map fun o => q σ (n.values.idxOf o) from rfl, hsum, hzip]
      congr 1
      funext u
      cases roulette (n.values.map fun o => (o, q σ (n.values.idxOf o))) 0 (u * (Q σ : ℚ)) <;> rfl
    rw [hE]
    by_cases hQ : Q σ = 0
    · have hz : ∀ b ∈ range n.values.length, q σ b = 0 :=
        (sum_eq_zero_iff_of_nonneg fun b _ => hq0 σ b).1 hQ
      obtain ⟨o, vs, hvs⟩ := List.exists_cons_of_length_pos hpos
      have ho : o ∈ n.values := by rw [hvs]; simp
      have hio : n.values.idxOf o = 0 := by rw [hvs]; simp
      have hrl : ∀ u : ℝ, roulette (n.values.map fun o => (o, q σ (n.values.idxOf o))) 0
          (u * (Q σ : ℚ)) = some o := by
        intro u
        rw [hQ]
        have : n.values.map (fun o => (o, q σ (n.values.idxOf o))) =
            (o, q σ 0) :: vs.map fun o => (o, q σ (n.values.idxOf o)) := by
          conv_lhs => rw [hvs, List.map_cons]
          rw [← hvs, hio]
        rw [this, Rat.cast_zero, mul_zero, roulette_zero (hz 0 (mem_range.2 hpos))]
      simp only [hrl, intervalIntegral.integral_const]
      rw [hset o ho, hio, hcard]
      simp [hpos, hQ]
    · have hQ0 : 0 < Q σ := lt_of_le_of_ne (sum_nonneg fun b _ => hq0 σ b) (Ne.symm hQ)
      have := (roulette_integral G' hQ0 (n.values.map fun o => (o, q σ (n.values.idxOf o)))
        (by
          intro p hp
          obtain ⟨o, _, rfl⟩ := List.mem_map.1 hp
          exact hq0 _ _) 0 (by rw [zero_add, List.map_map]; exact hsum)).2
      rw [zero_div, Rat.cast_zero] at this
      rw [this, List.map_map, hcard]
      simp only [if_neg hQ]
      rw [← sum_idxOf (hd.labels n hn) fun b => ((q σ b / Q σ : ℚ) : ℝ) * g (Function.update σ n.name b)]
      congr 1
      refine List.map_congr_left fun o ho => ?_
      simp only [Function.comp, hset o ho]
  · intro σ hσ
    have hpos : 0 < n.values.length := lt_of_le_of_lt (Nat.zero_le _) (hcard ▸ hσ _ hvn)
    rw [hcard]
    by_cases hQ : Q σ = 0
    · simp [hQ, hpos]
    · simp only [if_neg hQ]
      rw [← Rat.cast_sum, ← sum_div]
      simp only [Q] at hQ ⊢
      rw [div_self hQ, Rat.cast_one]
  · intro σ hσ b hb
    obtain ⟨C, hC⟩ := hπ σ
    have h1 := hC (σ n.name)
    rw [Function.update_eq_self] at h1
    have hqs : blanket bn n σ = q σ (σ n.name) := by
      simp only [q, Function.update_eq_self]
    rw [h1, hC b, hqs]
    simp only [hQu, hqu]
    by_cases hQ : Q σ = 0
    · have hz : ∀ b ∈ range n.values.length, q σ b = 0 :=
        (sum_eq_zero_iff_of_nonneg fun b _ => hq0 σ b).1 hQ
      rw [hz _ (mem_range.2 (hcard ▸ hσ _ hvn)),
        show blanket bn n (Function.update σ n.name b) = 0 from hz b (mem_range.2 (hcard ▸ hb))]
      simp
    · simp only [if_neg hQ]
      rw [show blanket bn n (Function.update σ n.name b) = q σ b from rfl]
      push_cast
      ring
  · intro σ hσ b hb
    have hQ0 : 0 ≤ Q σ := sum_nonneg fun b _ => hq0 σ b
    have hqQ : q σ b ≤ Q σ :=
      single_le_sum (f := q σ) (fun b _ => hq0 σ b) (mem_range.2 (hcard ▸ hb))
    refine ⟨?_, fun hp => ?_⟩
    · dsimp only
      split_ifs
      · exact zero_le_one
      · exact le_rfl
      · exact_mod_cast div_nonneg (hq0 σ b) hQ0
    · obtain ⟨C, hC⟩ := hπ σ
      have hqb : 0 < q σ b := by
        refine lt_of_le_of_ne (hq0 σ b) fun h => ?_
        rw [hC b, show blanket bn n (Function.update σ n.name b) = q σ b from rfl, ← h] at hp
        simp at hp
      have hQ : 0 < Q σ := lt_of_lt_of_le hqb hqQ
      dsimp only
      rw [if_neg hQ.ne']
      exact_mod_cast div_pos hqb hQ

theorem gibbs_moves (hc : bn.Consistent) (hl : bn.Linked) (hd : bn.Discrete) (hnn : bn.NonNeg)
    {n : NodeV} (hn : n ∈ bn) {π : Assign → ℝ} (hπ : Proportional bn π n) :
    ∃ K, IsKernel bn π n.name (Mcmc.gibbsSite bn n) K ∧
      (∀ σ, (∀ b < bn.card n.name, blanket bn n (Function.update σ n.name b) = 0) →
        ∀ b, K σ b = if b = 0 then 1 else 0) ∧
      ∀ σ, ∀ b < bn.card n.name, 0 < K σ b ↔ 0 < blanket bn n (Function.update σ n.name b) ∨
        (∀ a < bn.card n.name, blanket bn n (Function.update σ n.name a) = 0) ∧ b = 0 := by
  obtain ⟨K, -, h⟩ := gibbs_moves_eq hc hl hd hnn hn hπ
  exact ⟨K, h⟩

theorem gibbs_kernel (hc : bn.Consistent) (hl : bn.Linked) (hd : bn.Discrete) (hnn : bn.NonNeg)
    {n : NodeV} (hn : n ∈ bn) {π : Assign → ℝ} (hπ : Proportional bn π n) :
    SiteKernel bn π n.name (Mcmc.gibbsSite bn n) := by
  obtain ⟨K, h, -⟩ := gibbs_moves hc hl hd hnn hn hπ
  exact ⟨K, h⟩

theorem integral_accept {α x y : ℝ} (h0 : 0 ≤ α) (h1 : α ≤ 1) :
    ∫ u in (0 : ℝ)..1, (if u ≤ α then x else y) = α * x + (1 - α) * y := by
  have e1 : ∀ u ∈ Set.Ioc (0 : ℝ) α, x = if u ≤ α then x else y := fun u hu => by
    rw [if_pos hu.2]
  have e2 : ∀ u ∈ Set.Ioc α 1, y = if u ≤ α then x else y := fun u hu => by
    rw [if_neg (not_le.2 hu.1)]
  have j1 : IntervalIntegrable (fun u : ℝ => if u ≤ α then x else y) MeasureTheory.volume 0 α := by
    rw [intervalIntegrable_iff_integrableOn_Ioc_of_le h0]
    exact MeasureTheory.IntegrableOn.congr_fun (f := fun _ => x)
      (MeasureTheory.integrableOn_const (by simp)) e1 measurableSet_Ioc
  have j2 : IntervalIntegrable (fun u : ℝ => if u ≤ α then x else y) MeasureTheory.volume α 1 := by
    rw [intervalIntegrable_iff_integrableOn_Ioc_of_le h1]
    exact MeasureTheory.IntegrableOn.congr_fun (f := fun _ => y)
      (MeasureTheory.integrableOn_const (by simp)) e2 measurableSet_Ioc
  rw [← intervalIntegral.integral_add_adjacent_intervals j1 j2,
    intervalIntegral.integral_of_le h0, intervalIntegral.integral_of_le h1,
    ← MeasureTheory.setIntegral_congr_fun measurableSet_Ioc e1,
    ← MeasureTheory.setIntegral_congr_fun measurableSet_Ioc e2,
    ← intervalIntegral.integral_of_le h0, ← intervalIntegral.integral_of_le h1,
    intervalIntegral.integral_const, intervalIntegral.integral_const]
  simp

theorem accept_bounds {p c : ℚ} (hp : 0 ≤ p) (hc : 0 ≤ c) :
    0 ≤ Mcmc.accept p c ∧ Mcmc.accept p c ≤ 1 := by
  unfold Mcmc.accept
  by_cases h : c = 0
  · rw [if_pos h, if_neg (not_lt.2 hp)]; exact ⟨zero_le_one, le_rfl⟩
  · rw [if_neg h]
    exact ⟨le_min zero_le_one (div_nonneg hp hc), min_le_left _ _⟩

theorem accept_pos {p c : ℚ} (hp : 0 < p) (hc : 0 ≤ c) : 0 < Mcmc.accept p c := by
  unfold Mcmc.accept
  by_cases h : c = 0
  · rw [if_pos h, if_neg (not_lt.2 hp.le)]; exact zero_lt_one
  · rw [if_neg h]
    exact lt_min zero_lt_one (div_pos hp (lt_of_le_of_ne hc (Ne.symm h)))

theorem mul_accept {p c : ℚ} (hp : 0 ≤ p) (hc : 0 ≤ c) : c * Mcmc.accept p c = min c p := by
  unfold Mcmc.accept
  by_cases h : c = 0
  · rw [h, zero_mul, min_eq_left hp]
  · rw [if_neg h, mul_min_of_nonneg _ _ hc, mul_one, mul_div_cancel₀ _ h]

theorem accept_self {c : ℚ} (hc : 0 ≤ c) : Mcmc.accept c c = 1 := by
  unfold Mcmc.accept
  by_cases h : c = 0
  · rw [if_pos h, if_neg (not_lt.2 hc)]
  · rw [if_neg h, div_self h, min_self]

/-- the probability with which Metropolis-Hastings gives `n` the outcome `b` -/
noncomputable def mhK (bn : BN) (n : NodeV) (σ : Assign) (b : Nat) : ℝ :=
  ((Mcmc.accept (blanket bn n (Function.update σ n.name b)) (blanket bn n σ) : ℚ) : ℝ) /
      n.values.length +
    if b = σ n.name then (∑ c ∈ range n.values.length, (1 - ((Mcmc.accept
      (blanket bn n (Function.update σ n.name c)) (blanket bn n σ) : ℚ) : ℝ))) / n.values.length
    else 0

/-- the kernel of Metropolis-Hastings: it stays with positive probability and makes any proposed
change if the current state is impossible -/
theorem mh_moves_eq (hc : bn.Consistent) (hl : bn.Linked) (hd : bn.Discrete) (hnn : bn.NonNeg)
    {n : NodeV} (hn : n ∈ bn) {π : Assign → ℝ} (hπ : Proportional bn π n) :
    ∃ K, K = mhK bn n ∧ IsKernel bn π n.name (Mcmc.mhSite bn n) K ∧
      (∀ σ, Legal bn.card bn.names σ → 0 < K σ (σ n.name)) ∧
      ∀ σ, Legal bn.card bn.names σ → blanket bn n σ = 0 → ∀ b < bn.card n.name, 0 < K σ b := by
  let q : Assign → Nat → ℚ := fun σ b => blanket bn n (Function.update σ n.name b)
  have hq0 : ∀ σ b, 0 ≤ q σ b := fun σ b => blanket_nonneg hnn hn hc hl _
  have hqu : ∀ σ a b, q (Function.update σ n.name a) b = q σ b := fun σ a b => by
    simp only [q, Function.update_idem]
  have hqs : ∀ σ, blanket bn n σ = q σ (σ n.name) := fun σ => by
    simp only [q, Function.update_eq_self]
  let α : Assign → Nat → ℝ := fun σ b => ((Mcmc.accept (q σ b) (blanket bn n σ) : ℚ) : ℝ)
  have hα0 : ∀ σ b, 0 ≤ α σ b := fun σ b => by
    simp only [α]; exact_mod_cast (accept_bounds (hq0 σ b) (blanket_nonneg hnn hn hc hl σ)).1
  have hα1 : ∀ σ b, α σ b ≤ 1 := fun σ b => by
    simp only [α]; exact_mod_cast (accept_bounds (hq0 σ b) (blanket_nonneg hnn hn hc hl σ)).2
  have hvn : n.name ∈ bn.names := List.mem_map_of_mem hn
  have hcard := card_eq hc hn
  let k : ℝ := n.values.length
  refine ⟨fun σ b => α σ b / k +
    if b = σ n.name then (∑ c ∈ range n.values.length, (1 - α σ c)) / k else 0, rfl,
    ⟨?_, ?_, ?_, ?_⟩, ?_, ?_⟩
  · intro G g hG σ hσ d hr
    have hpos : 0 < n.values.length := lt_of_le_of_lt (Nat.zero_le _) (hcard ▸ hσ _ hvn)
    have hne : n.values ≠ [] := List.ne_nil_of_length_pos hpos
    obtain ⟨x, hx1, hx2⟩ := hr.get hc hσ hn
    have hE : (Mcmc.mhSite bn n d).expect G =
        (n.values.map fun o => α σ (n.values.idxOf o) * g (Function.update σ n.name (n.values.idxOf o)) +
          (1 - α σ (n.values.idxOf o)) * g σ).sum / k := by
      unfold Mcmc.mhSite
      rw [if_neg (by simp [hd.kind n hn]), Dict.getE_ok hx1, Rand.andThen_ok, Rand.expect_andThen]
      unfold NodeV.sampleLocal
      rw [if_neg (by simp [hd.kind n hn]), Rand.expect_choose hne]
      congr 2
      refine List.map_congr_left fun o ho => ?_
      have hlt := List.idxOf_lt_length_of_mem ho
      have hoi : n.values[n.values.idxOf o]? = some o := List.getElem?_idxOf ho
      have hr' : Reads bn (d.set n.name o) (Function.update σ n.name (n.values.idxOf o)) :=
        hr.set (by rw [lab_get hc hn]; exact hoi)
      have hσ' := hσ.update (v := n.name) (b := n.values.idxOf o) (hcard ▸ hlt)
      simp only [Rand.rest]
      rw [markovProb_reads hc hl hd hn hσ' hr' (by rw [Function.update_self]; exact hoi),
        Rand.andThen_ok, markovProb_reads hc hl hd hn hσ hr hx2, Rand.andThen_ok,
        Rand.expect_uniform]
      have hval : ∀ u : ℝ, (Rand.pure (Except.ok (if u ≤ ((Mcmc.accept
          (blanket bn n (Function.update σ n.name (n.values.idxOf o))) (blanket bn n σ) : ℚ) : ℝ)
            then d.set n.name o else d) : Except PyErr (Dict Val))).expect G =
          if u ≤ α σ (n.values.idxOf o) then g (Function.update σ n.name (n.values.idxOf o))
            else g σ := by
        intro u
        rw [Rand.expect_pure]
        by_cases hu : u ≤ α σ (n.values.idxOf o)
        · rw [if_pos hu, if_pos hu, hG _ _ hσ' hr']
        · rw [if_neg hu, if_neg hu, hG _ _ hσ hr]
      simp only [hval]
      exact integral_accept (hα0 _ _) (hα1 _ _)
    rw [hE, hcard, sum_idxOf (hd.labels n hn) fun b =>
      α σ b * g (Function.update σ n.name b) + (1 - α σ b) * g σ]
    have hs : σ n.name ∈ range n.values.length := mem_range.2 (hcard ▸ hσ _ hvn)
    have : ∀ b, (α σ b / k + if b = σ n.name then
        (∑ c ∈ range n.values.length, (1 - α σ c)) / k else 0) * g (Function.update σ n.name b) =
        α σ b * g (Function.update σ n.name b) / k + if b = σ n.name then
          (∑ c ∈ range n.values.length, (1 - α σ c)) / k * g σ else 0 := by
      intro b
      split
      · next h => rw [h, Function.update_eq_self]; ring
      · ring
    simp only [this]
    rw [sum_add_distrib, sum_add_distrib, sum_ite_eq', if_pos hs, ← sum_mul, ← sum_div]
    ring
  · intro σ hσ
    have hpos : 0 < n.values.length := lt_of_le_of_lt (Nat.zero_le _) (hcard ▸ hσ _ hvn)
    have hk : k ≠ 0 := by
      simp only [k]; exact_mod_cast hpos.ne'
    have hs : σ n.name ∈ range n.values.length := mem_range.2 (hcard ▸ hσ _ hvn)
    rw [hcard, sum_add_distrib, sum_ite_eq', if_pos hs, ← sum_div, ← add_div, ← sum_add_distrib]
    simp only [add_sub_cancel, sum_const, card_range, nsmul_eq_mul, mul_one]
    exact div_self hk
  · intro σ hσ b hb
    obtain ⟨C, hC⟩ := hπ σ
    have h1 := hC (σ n.name)
    rw [Function.update_eq_self] at h1
    by_cases e : b = σ n.name
    · subst e; rw [Function.update_eq_self]
    · have e' : σ n.name ≠ (Function.update σ n.name b) n.name := by
        rw [Function.update_self]; exact Ne.symm e
      simp only [if_neg e, if_neg e', add_zero]
      rw [h1, hC b]
      have m1 : ((blanket bn n σ : ℚ) : ℝ) * α σ b =
          ((min (q σ (σ n.name)) (q σ b) : ℚ) : ℝ) := by
        simp only [α]
        rw [hqs σ, ← mul_accept (hq0 σ b) (hq0 σ (σ n.name))]
        push_cast
        rfl
      have m2 : ((blanket bn n (Function.update σ n.name b) : ℚ) : ℝ) *
          α (Function.update σ n.name b) (σ n.name) =
          ((min (q σ b) (q σ (σ n.name)) : ℚ) : ℝ) := by
        simp only [α, hqu]
        rw [show blanket bn n (Function.update σ n.name b) = q σ b from rfl,
          ← mul_accept (hq0 σ (σ n.name)) (hq0 σ b)]
        push_cast
        rfl
      rw [← mul_div_assoc, mul_assoc, m1, ← mul_div_assoc, mul_assoc, m2, min_comm]
  · intro σ hσ b hb
    have hk0 : 0 < k := by
      simp only [k]
      exact_mod_cast lt_of_le_of_lt (Nat.zero_le _) (hcard ▸ hb)
    have h2 : 0 ≤ if b = σ n.name then (∑ c ∈ range n.values.length, (1 - α σ c)) / k else 0 := by
      split_ifs
      · exact div_nonneg (sum_nonneg fun c _ => sub_nonneg.2 (hα1 σ c)) hk0.le
      · exact le_rfl
    refine ⟨add_nonneg (div_nonneg (hα0 σ b) hk0.le) h2, fun hp => ?_⟩
    obtain ⟨C, hC⟩ := hπ σ
    have hqb : 0 < q σ b := by
      refine lt_of_le_of_ne (hq0 σ b) fun h => ?_
      rw [hC b, show blanket bn n (Function.update σ n.name b) = q σ b from rfl, ← h] at hp
      simp at hp
    have hα : 0 < α σ b := by
      simp only [α]
      have := accept_pos hqb (blanket_nonneg hnn hn hc hl σ)
      exact_mod_cast this
    exact add_pos_of_pos_of_nonneg (div_pos hα hk0) h2
  · intro σ hσ
    have hk0 : 0 < k := by
      simp only [k]
      exact_mod_cast lt_of_le_of_lt (Nat.zero_le _) (hcard ▸ hσ _ hvn)
    refine add_pos_of_pos_of_nonneg (div_pos ?_ hk0) ?_
    · simp only [α, q]
      rw [Function.update_eq_self, accept_self (blanket_nonneg hnn hn hc hl σ), Rat.cast_one]
      exact one_pos
    · rw [if_pos rfl]
      exact div_nonneg (sum_nonneg fun c _ => sub_nonneg.2 (hα1 σ c)) hk0.le
  · intro σ hσ h0 b hb
    have hk0 : 0 < k := by
      simp only [k]
      exact_mod_cast lt_of_le_of_lt (Nat.zero_le _) (hcard ▸ hb)
    refine add_pos_of_pos_of_nonneg (div_pos ?_ hk0) ?_
    · simp only [α, h0]
      unfold Mcmc.accept
      rw [if_pos rfl, if_neg (not_lt.2 (hq0 σ b)), Rat.cast_one]
      exact one_pos
    · split_ifs
      · exact div_nonneg (sum_nonneg fun c _ => sub_nonneg.2 (hα1 σ c)) hk0.le
      · exact le_rfl

theorem mh_moves (hc : bn.Consistent) (hl : bn.Linked) (hd : bn.Discrete) (hnn : bn.NonNeg)
    {n : NodeV} (hn : n ∈ bn) {π : Assign → ℝ} (hπ : Proportional bn π n) :
    ∃ K, IsKernel bn π n.name (Mcmc.mhSite bn n) K ∧
      (∀ σ, Legal bn.card bn.names σ → 0 < K σ (σ n.name)) ∧
      ∀ σ, Legal bn.card bn.names σ → blanket bn n σ = 0 → ∀ b < bn.card n.name, 0 < K σ b := by
  obtain ⟨K, -, h⟩ := mh_moves_eq hc hl hd hnn hn hπ
  exact ⟨K, h⟩

theorem mh_kernel (hc : bn.Consistent) (hl : bn.Linked) (hd : bn.Discrete) (hnn : bn.NonNeg)
    {n : NodeV} (hn : n ∈ bn) {π : Assign → ℝ} (hπ : Proportional bn π n) :
    SiteKernel bn π n.name (Mcmc.mhSite bn n) := by
  obtain ⟨K, h, -⟩ := mh_moves hc hl hd hnn hn hπ
  exact ⟨K, h⟩

end Primo
