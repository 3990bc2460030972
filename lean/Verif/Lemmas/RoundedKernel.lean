import Verif.Lemmas.RoundedWheel
import Verif.Lemmas.Kernel

/-! # Single-site updates with rounded arithmetic as transition kernels -/

namespace Primo
open Finset

variable {bn : BN} {A : Arith} {u : ℚ} {N : Nat}

/-- the Markov-blanket weight as the code computes it -/
def blanketR (A : Arith) (bn : BN) (n : NodeV) (σ : Assign) : ℚ :=
  (bn.childNodes n).foldl (fun p m => A.mul p (m.entry σ)) (n.entry σ)

theorem foldl_mul_near (hA : A.Accurate u) {σ : Assign} : ∀ {l : List NodeV}, (∀ m ∈ l, 0 ≤ m.entry σ) →
    ∀ {k : Nat} {p q : ℚ}, Near u k p q → Near u (k + l.length)
      (l.foldl (fun p m => A.mul p (m.entry σ)) p) (q * (l.map fun m => m.entry σ).prod)
  | [], _, k, p, q, h => by simpa using h
  | m :: l, hl, k, p, q, h => by
    have h1 := hA.near_mul h (Near.rfl' (u := u) (hl m (by simp)))
    have := foldl_mul_near hA (fun m hm => hl m (List.mem_cons_of_mem _ hm)) h1
    rw [List.foldl_cons, List.length_cons, List.map_cons, List.prod_cons, ← mul_assoc]
    rwa [show k + 0 + 1 + l.length = k + (l.length + 1) by omega] at this

theorem blanketR_near (hA : A.Accurate u) (hc : bn.Consistent) (hl : bn.Linked) (hnn : bn.NonNeg)
    {n : NodeV} (hn : n ∈ bn) (σ : Assign) :
    Near u n.children.length (blanketR A bn n σ) (blanket bn n σ) := by
  have h1 := foldl_mul_near hA (σ := σ) (l := bn.childNodes n)
    (fun m hm => NDArray.get_nonneg (hnn m ((mem_childNodes hc hl hn).1 hm).1) _)
    (Near.rfl' (u := u) (show 0 ≤ n.entry σ from NDArray.get_nonneg (hnn n hn) _))
  refine h1.mono hA.nonneg hA.lt_one ?_
  rw [zero_add]
  exact List.length_filterMap_le _ _

/-- `get_markov_prob` in the state `σ` -/
theorem markovProbR_reads (A : Arith) (hc : bn.Consistent) (hl : bn.Linked) (hd : bn.Discrete)
    {n : NodeV} (hn : n ∈ bn) {σ : Assign} (hσ : Legal bn.card bn.names σ) {d : Dict Val}
    (hr : Reads bn d σ) {x : Val} (hx : n.values[σ n.name]? = some x) :
    n.markovProbR A x (bn.childNodes n) d false = .ok (blanketR A bn n σ) := by
  have hp : ∀ m ∈ bn, ∀ y, m.values[σ m.name]? = some y → m.getSingle y d = .ok (m.entry σ) :=
    fun m hm y hy => getSingle_reads hc hd hm (legal_family hc hσ hm)
      (ReadsOn.mono hr fun v hv => hc.parents_mem m hm v hv) hy
  have hfold : ∀ (l : List NodeV) (p : ℚ), (∀ m ∈ l, m ∈ bn) →
      l.foldlM (fun prob c => do
        let x ← d.getE c.name
        let q ← c.getSingle x d
        return A.mul prob q) p =
          (.ok (l.foldl (fun p m => A.mul p (m.entry σ)) p) : Except PyErr ℚ) := by
    intro l
    induction l with
    | nil => intro p _; rfl
    | cons m l ih =>
      intro p hl
      have hm := hl m (by simp)
      obtain ⟨y, h1, h2⟩ := hr.get hc hσ hm
      rw [List.foldlM_cons, Dict.getE_ok h1, ok_bind, hp m hm y h2, ok_bind, pure_eq_ok, ok_bind,
        ih _ fun m hm => hl m (List.mem_cons_of_mem _ hm)]
      rfl
  unfold NodeV.markovProbR
  rw [hp n hn x hx, ok_bind]
  simp only [Bool.false_eq_true, if_false]
  exact hfold _ _ fun m hm => ((mem_childNodes hc hl hn).1 hm).1

theorem markovProbR_forward (A : Arith) {n : NodeV} {x : Val} {ch : List NodeV} {d : Dict Val} :
    n.markovProbR A x ch d true = n.getSingle x d := by
  unfold NodeV.markovProbR
  cases n.getSingle x d <;> rfl

/-- the weights of `sample_value` -/
theorem weightsR_reads (A : Arith) (hc : bn.Consistent) (hl : bn.Linked) (hd : bn.Discrete)
    {n : NodeV} (hn : n ∈ bn) {σ : Assign} (hσ : Legal bn.card bn.names σ) {d : Dict Val}
    (hr : Reads bn d σ) :
    n.weightsR A d (bn.childNodes n) false = .ok (n.values.map fun o =>
      blanketR A bn n (Function.update σ n.name (n.values.idxOf o))) := by
  refine mapM_ok fun o ho => ?_
  have hlt := List.idxOf_lt_length_of_mem ho
  have hx : n.values[n.values.idxOf o]? = some o := List.getElem?_idxOf ho
  refine markovProbR_reads A hc hl hd hn (hσ.update (card_eq hc hn ▸ hlt))
    (hr.set (by rw [lab_get hc hn]; exact hx)) ?_
  rw [Function.update_self]
  exact hx

theorem weightsR_forward (A : Arith) {n : NodeV} (d : Dict Val) (ch : List NodeV) :
    n.weightsR A d ch true = n.weights d ch true := by
  unfold NodeV.weightsR NodeV.weights
  simp only [markovProbR_forward, markovProb_forward]

/-! ## the wheel in the program -/

/-- `sample_value`, if the weights are within a few roundings of non-negative numbers -/
theorem expect_resampleR (hA : A.Accurate u) (huN : u * N ≤ 1) {n : NodeV} (hkind : n.kind = .discrete)
    (hv : n.values ≠ []) {d : Dict Val} {ch : List NodeV} {fw : Bool} {ws' ws : List ℚ}
    (hw : n.weightsR A d ch fw = .ok ws') {D : Nat} (hn : List.Forall₂ (Near u D) ws' ws)
    (hlen : ws.length = n.values.length) (G : Except PyErr (Dict Val) → ℝ) :
    (n.resampleR A N d ch fw).expect G = ∑ b ∈ range n.values.length,
      (((range N).filter fun k : ℕ =>
        stopR A ws' 0 (A.mul ((k : ℚ) / N) (ws'.foldl A.add 0)) = b).card : ℝ) / N *
          G (.ok (d.set n.name (n.values.getD b ""))) := by
  set st : ℕ → ℕ := fun k => stopR A ws' 0 (A.mul ((k : ℚ) / N) (ws'.foldl A.add 0)) with hst
  have hwne : ws ≠ [] := List.ne_nil_of_length_pos (by rw [hlen]; exact List.length_pos_iff.2 hv)
  have hlt : ∀ k ∈ range N, st k ∈ range n.values.length := fun k hk => by
    rw [mem_range, ← hlen]
    exact stopR_lt hA huN (mem_range.1 hk) hn hwne
  have hE : (n.resampleR A N d ch fw).expect G =
      (∑ k ∈ range N, G (.ok (d.set n.name (n.values.getD (st k) "")))) / N := by
    unfold NodeV.resampleR NodeV.sampleValueR
    rw [if_neg (by simp [hkind]), hw, Rand.andThen_ok, Rand.grid, Rand.andThen_choice,
      Rand.expect_choice]
    congr 1
    refine sum_congr rfl fun k hk => ?_
    rw [Rand.andThen_pure_ok, rouletteR_eq A n.values ws' _ _ (by rw [hn.length_eq, hlen])]
    have := mem_range.1 (hlt k hk)
    rw [show stopR A ws' 0 (A.mul ((k : ℚ) / N) (ws'.foldl A.add 0)) = st k from rfl,
      List.getD_eq_getElem?_getD, List.getElem?_eq_getElem this]
    rfl
  rw [hE, ← sum_fiberwise_of_maps_to hlt, sum_div]
  refine sum_congr rfl fun b _ => ?_
  rw [sum_congr rfl fun k hk => by rw [(mem_filter.1 hk).2], sum_const, nsmul_eq_mul]
  ring

theorem all_resampleR (hA : A.Accurate u) (huN : u * N ≤ 1) {n : NodeV} (hkind : n.kind = .discrete)
    (hv : n.values ≠ []) {d : Dict Val} {ch : List NodeV} {fw : Bool} {ws' ws : List ℚ}
    (hw : n.weightsR A d ch fw = .ok ws') {D : Nat} (hn : List.Forall₂ (Near u D) ws' ws)
    (hlen : ws.length = n.values.length) :
    (n.resampleR A N d ch fw).All fun r => ∃ x ∈ n.values, r = .ok (d.set n.name x) := by
  have hwne : ws ≠ [] := List.ne_nil_of_length_pos (by rw [hlen]; exact List.length_pos_iff.2 hv)
  unfold NodeV.resampleR NodeV.sampleValueR
  rw [if_neg (by simp [hkind]), hw, Rand.andThen_ok, Rand.grid, Rand.andThen_choice]
  intro k hk
  have := stopR_lt hA huN hk hn hwne
  rw [hlen] at this
  beta_reduce
  rw [Rand.andThen_pure_ok, rouletteR_eq A n.values ws' _ _ (by rw [hn.length_eq, hlen]),
    List.getElem?_eq_getElem this]
  exact ⟨_, List.getElem_mem _, rfl⟩

/-- the probabilities of the positions add up to one -/
theorem sum_card_stop (hA : A.Accurate u) (hN : 0 < N) (huN : u * N ≤ 1) {ws' ws : List ℚ} {D : Nat}
    (hn : List.Forall₂ (Near u D) ws' ws) (hne : ws ≠ []) :
    ∑ b ∈ range ws.length, (((range N).filter fun k : ℕ =>
      stopR A ws' 0 (A.mul ((k : ℚ) / N) (ws'.foldl A.add 0)) = b).card : ℝ) / N = 1 := by
  have hlt : ∀ k ∈ range N, stopR A ws' 0 (A.mul ((k : ℚ) / N) (ws'.foldl A.add 0)) ∈
      range ws.length := fun k hk => mem_range.2 (stopR_lt hA huN (mem_range.1 hk) hn hne)
  rw [← sum_div, ← Nat.cast_sum, ← card_eq_sum_card_fiberwise hlt, card_range]
  exact div_self (by exact_mod_cast hN.ne')

/-! ## Gibbs sampling -/

/-- the weights of the outcomes in the state `σ` -/
def siteWeightsR (A : Arith) (bn : BN) (n : NodeV) (σ : Assign) : List ℚ :=
  n.values.map fun o => blanketR A bn n (Function.update σ n.name (n.values.idxOf o))

/-- the probability with which Gibbs sampling with rounded arithmetic gives `n` the outcome `b` -/
noncomputable def gibbsKR (A : Arith) (N : Nat) (bn : BN) (n : NodeV) (σ : Assign) (b : Nat) : ℝ :=
  (((range N).filter fun k : ℕ => stopR A (siteWeightsR A bn n σ) 0
    (A.mul ((k : ℚ) / N) ((siteWeightsR A bn n σ).foldl A.add 0)) = b).card : ℝ) / N

theorem siteWeightsR_near (hA : A.Accurate u) (hc : bn.Consistent) (hl : bn.Linked) (hnn : bn.NonNeg)
    {n : NodeV} (hn : n ∈ bn) (σ : Assign) :
    List.Forall₂ (Near u n.children.length) (siteWeightsR A bn n σ)
      (n.values.map fun o => blanket bn n (Function.update σ n.name (n.values.idxOf o))) := by
  unfold siteWeightsR
  rw [List.forall₂_map_left_iff, List.forall₂_map_right_iff]
  exact List.forall₂_same.2 fun o _ => blanketR_near hA hc hl hnn hn _

theorem getD_reads (hc : bn.Consistent) {n : NodeV} (hn : n ∈ bn) {σ : Assign} {d : Dict Val}
    (hr : Reads bn d σ) {b : Nat} (hb : b < n.values.length) :
    Reads bn (d.set n.name (n.values.getD b "")) (Function.update σ n.name b) :=
  hr.set (by rw [lab_get hc hn, List.getD_eq_getElem?_getD, List.getElem?_eq_getElem hb]; rfl)

theorem gibbsR_kernel (hA : A.Accurate u) (hN : 0 < N) (huN : u * N ≤ 1) (hc : bn.Consistent)
    (hl : bn.Linked) (hd : bn.Discrete) (hnn : bn.NonNeg) {n : NodeV} (hn : n ∈ bn) :
    IsKernel bn (fun _ => 0) n.name (Mcmc.gibbsSiteR A N bn n) (gibbsKR A N bn n) := by
  have hcard := card_eq hc hn
  have hvn : n.name ∈ bn.names := List.mem_map_of_mem hn
  have hv : ∀ σ, Legal bn.card bn.names σ → n.values ≠ [] := fun σ hσ =>
    List.ne_nil_of_length_pos (lt_of_le_of_lt (Nat.zero_le _) (hcard ▸ hσ _ hvn))
  have hnear := siteWeightsR_near hA hc hl hnn hn
  refine ⟨?_, ?_, ?_, ?_⟩
  · intro G g hG σ hσ d hr
    show (n.resampleR A N d (bn.childNodes n) false).expect G = _
    rw [expect_resampleR hA huN (hd.kind n hn) (hv σ hσ) (weightsR_reads A hc hl hd hn hσ hr)
      (hnear σ) (by simp), hcard]
    refine sum_congr rfl fun b hb => ?_
    have hb := mem_range.1 hb
    rw [hG _ _ (hσ.update (hcard ▸ hb)) (getD_reads hc hn hr hb)]
    rfl
  · intro σ hσ
    rw [hcard]
    have := sum_card_stop hA hN huN (hnear σ) (by simpa using hv σ hσ)
    rwa [List.length_map] at this
  · intro σ _ b _
    rw [zero_mul, zero_mul]
  · intro σ _ b _
    exact ⟨div_nonneg (Nat.cast_nonneg _) (Nat.cast_nonneg _), fun h => absurd h (lt_irrefl _)⟩

theorem gibbsKR_error (hA : A.Accurate u) (hN : 0 < N) (hc : bn.Consistent)
    (hl : bn.Linked) (hd : bn.Discrete) (hnn : bn.NonNeg) {n : NodeV} (hn : n ∈ bn) (σ : Assign)
    {b : Nat} (hb : b < n.values.length) :
    |gibbsKR A N bn n σ b - gibbsK bn n σ b| ≤
      2 * ((drawError u N n.drawRoundings : ℚ) : ℝ) := by
  set ws := n.values.map fun o => blanket bn n (Function.update σ n.name (n.values.idxOf o)) with hws
  have hnear := siteWeightsR_near hA hc hl hnn hn σ
  have hsum : ws.sum = ∑ a ∈ range n.values.length, blanket bn n (Function.update σ n.name a) :=
    sum_idxOf_rat (hd.labels n hn) fun a => blanket bn n (Function.update σ n.name a)
  have h0 : ∀ w ∈ ws, 0 ≤ w := fun w hw => by
    obtain ⟨o, _, rfl⟩ := List.mem_map.1 hw
    exact blanket_nonneg hnn hn hc hl _
  have hlen : ws.length = n.values.length := by simp [hws]
  have hη : (0 : ℝ) ≤ ((drawError u N n.drawRoundings : ℚ) : ℝ) := by
    exact_mod_cast drawError_nonneg hA.nonneg hA.lt_one N _
  unfold gibbsK gibbsKR
  rw [← hsum]
  by_cases hW : ws.sum = 0
  · have hst : ∀ k : ℕ, stopR A (siteWeightsR A bn n σ) 0
        (A.mul ((k : ℚ) / N) ((siteWeightsR A bn n σ).foldl A.add 0)) = 0 := fun k =>
      stopR_zero hA hnear hW h0 (List.ne_nil_of_length_pos (l := ws) (by omega)) _
    have hN' : (N : ℝ) ≠ 0 := by exact_mod_cast hN.ne'
    rw [if_pos hW]
    simp only [hst]
    split
    · next e =>
      subst e
      simp only [filter_true, card_range, div_self hN', sub_self, abs_zero]
      linarith
    · next e =>
      rw [filter_false_of_mem fun k _ => fun h => e h.symm]
      simp only [card_empty, Nat.cast_zero, zero_div, sub_self, abs_zero]
      linarith
  · have hpos : 0 < ws.sum := lt_of_le_of_ne (List.sum_nonneg h0) (Ne.symm hW)
    rw [if_neg hW]
    have h1 := wheel_error hA hN hnear h0 hpos (i := b) (by simpa using hb)
    have h2 : ws[b]'(by omega) = blanket bn n (Function.update σ n.name b) := by
      simp only [hws, List.getElem_map]
      rw [(hd.labels n hn).idxOf_getElem b hb]
    rw [show (n.values.map fun o => blanket bn n (Function.update σ n.name (n.values.idxOf o)))[b]'(by
      simpa using hb) = _ from h2] at h1
    rw [show 2 * (n.children.length + (n.values.map fun o => blanket bn n
      (Function.update σ n.name (n.values.idxOf o))).length) + 1 = n.drawRoundings by
        rw [List.length_map]; rfl] at h1
    have h3 : ((|_| : ℚ) : ℝ) ≤ _ := Rat.cast_le.2 h1
    push_cast at h3 ⊢
    exact h3

/-! ## Metropolis-Hastings -/

/-- the probability with which a proposed value is accepted -/
noncomputable def alphaR (A : Arith) (N : Nat) (p c : ℚ) : ℝ :=
  (((range N).filter fun k : ℕ => (k : ℚ) / N ≤ Mcmc.acceptR A p c).card : ℝ) / N

theorem alphaR_bounds (A : Arith) (N : Nat) (p c : ℚ) : 0 ≤ alphaR A N p c ∧ alphaR A N p c ≤ 1 := by
  unfold alphaR
  refine ⟨div_nonneg (Nat.cast_nonneg _) (Nat.cast_nonneg _), div_le_one_of_le₀ ?_ (Nat.cast_nonneg _)⟩
  have := card_filter_le (range N) fun k : ℕ => (k : ℚ) / N ≤ Mcmc.acceptR A p c
  rw [card_range] at this
  exact_mod_cast this

theorem alphaR_error (hA : A.Accurate u) (hN : 0 < N) {D : Nat} {p p' c c' : ℚ} (hp : Near u D p' p)
    (hc : Near u D c' c) : |alphaR A N p' c' - ((Mcmc.accept p c : ℚ) : ℝ)| ≤
      ((drawError u N (2 * D + 1) : ℚ) : ℝ) := by
  have hu := hA.lt_one
  have hNQ : (0 : ℚ) < N := by exact_mod_cast hN
  have hk1 : ∀ k < N, (k : ℚ) / N ≤ 1 := fun k hk => by
    rw [div_le_one hNQ]; exact_mod_cast hk.le
  have hacc := accept_bounds hp.1 hc.1
  have hρ := Near.pow_pos hu (2 * D + 1)
  have hρ1 := Near.pow_le_one hA.nonneg hu (2 * D + 1)
  have key : |((((range N).filter fun k : ℕ => (k : ℚ) / N ≤ Mcmc.acceptR A p' c').card : ℚ) / N) -
      Mcmc.accept p c| ≤ drawError u N (2 * D + 1) := by
    refine grid_error hA.nonneg hu hN hacc.1 hacc.2 (filter_subset _ _) ?_ ?_
    · intro k hk hlo
      refine mem_filter.2 ⟨mem_range.2 hk, ?_⟩
      unfold Mcmc.acceptR
      unfold Mcmc.accept at hlo
      by_cases h0 : c = 0
      · rw [if_pos ((hc.zero_iff hu).2 h0), if_neg (not_lt.2 (hp.nonneg hu))]
        exact hk1 k hk
      · have h0' := mt (hc.zero_iff hu).1 h0
        rw [if_neg h0] at hlo
        rw [if_neg h0']
        have hn := (hA.near_div hp hc h0').2.1
        rw [show D + D + 1 = 2 * D + 1 by omega] at hn
        refine le_min (hk1 k hk) (hlo.trans (le_trans ?_ hn))
        exact mul_le_mul_of_nonneg_right (min_le_right _ _) hρ.le
    · intro k hk
      obtain ⟨h1, h2⟩ := mem_filter.1 hk
      have hkN := hk1 k (mem_range.1 h1)
      have hk0 : 0 ≤ (k : ℚ) / N := by positivity
      unfold Mcmc.acceptR at h2
      unfold Mcmc.accept
      by_cases h0 : c = 0
      · rw [if_pos h0, if_neg (not_lt.2 hp.1)]
        nlinarith
      · have h0' := mt (hc.zero_iff hu).1 h0
        rw [if_neg h0]
        rw [if_neg h0'] at h2
        have hn := (hA.near_div hp hc h0').2.2
        rw [show D + D + 1 = 2 * D + 1 by omega] at hn
        exact le_min (by nlinarith) (le_trans (mul_le_mul_of_nonneg_right
          (h2.trans (min_le_right _ _)) hρ.le) hn)
  have h3 : ((|_| : ℚ) : ℝ) ≤ _ := Rat.cast_le.2 key
  unfold alphaR
  push_cast at h3 ⊢
  exact h3

/-- the probability with which Metropolis-Hastings with rounded arithmetic gives `n` the outcome `b` -/
noncomputable def mhKR (A : Arith) (N : Nat) (bn : BN) (n : NodeV) (σ : Assign) (b : Nat) : ℝ :=
  alphaR A N (blanketR A bn n (Function.update σ n.name b)) (blanketR A bn n σ) / n.values.length +
    if b = σ n.name then (∑ c ∈ range n.values.length, (1 - alphaR A N
      (blanketR A bn n (Function.update σ n.name c)) (blanketR A bn n σ))) / n.values.length
    else 0

theorem mhR_kernel (hN : 0 < N) (hc : bn.Consistent)
    (hl : bn.Linked) (hd : bn.Discrete) {n : NodeV} (hn : n ∈ bn) :
    IsKernel bn (fun _ => 0) n.name (Mcmc.mhSiteR A N bn n) (mhKR A N bn n) := by
  let α : Assign → Nat → ℝ := fun σ b =>
    alphaR A N (blanketR A bn n (Function.update σ n.name b)) (blanketR A bn n σ)
  have hα0 : ∀ σ b, 0 ≤ α σ b := fun σ b => (alphaR_bounds A N _ _).1
  have hα1 : ∀ σ b, α σ b ≤ 1 := fun σ b => (alphaR_bounds A N _ _).2
  have hNR : (N : ℝ) ≠ 0 := by exact_mod_cast hN.ne'
  have hvn : n.name ∈ bn.names := List.mem_map_of_mem hn
  have hcard := card_eq hc hn
  let k : ℝ := n.values.length
  refine ⟨?_, ?_, ?_, ?_⟩
  · intro G g hG σ hσ d hr
    have hpos : 0 < n.values.length := lt_of_le_of_lt (Nat.zero_le _) (hcard ▸ hσ _ hvn)
    have hne : n.values ≠ [] := List.ne_nil_of_length_pos hpos
    obtain ⟨x, hx1, hx2⟩ := hr.get hc hσ hn
    have hE : (Mcmc.mhSiteR A N bn n d).expect G =
        (n.values.map fun o => α σ (n.values.idxOf o) * g (Function.update σ n.name (n.values.idxOf o)) +
          (1 - α σ (n.values.idxOf o)) * g σ).sum / k := by
      unfold Mcmc.mhSiteR
      rw [if_neg (by simp [hd.kind n hn]), Dict.getE_ok hx1, Rand.andThen_ok, Rand.expect_andThen]
      unfold NodeV.sampleLocal
      rw [if_neg (by simp [hd.kind n hn]), Rand.expect_choose hne]
      congr 2
      refine List.map_congr_left fun o ho => ?_
      have hlt := List.idxOf_lt_length_of_mem ho
      have hoi : n.values[n.values.idxOf o]? = some o := List.getElem?_idxOf ho
      have hr' : Reads bn (d.set n.name o) (Function.update σ n.name (n.values.idxOf o)) :=
        hr.set (by rw [lab_get hc hn]; exact hoi)
      have hσ' := hσ.update (v := n.name) (b := n.values.idxOf o) (hcard ▸ hlt)
      simp only [Rand.rest]
      rw [markovProbR_reads A hc hl hd hn hσ' hr' (by rw [Function.update_self]; exact hoi),
        Rand.andThen_ok, markovProbR_reads A hc hl hd hn hσ hr hx2, Rand.andThen_ok, Rand.grid,
        Rand.expect_choice]
      have hval : ∀ i : ℕ, (Rand.pure (Except.ok (if (i : ℚ) / N ≤ Mcmc.acceptR A
          (blanketR A bn n (Function.update σ n.name (n.values.idxOf o))) (blanketR A bn n σ)
            then d.set n.name o else d) : Except PyErr (Dict Val))).expect G =
          g σ + (if (i : ℚ) / N ≤ Mcmc.acceptR A
          (blanketR A bn n (Function.update σ n.name (n.values.idxOf o))) (blanketR A bn n σ) then
            g (Function.update σ n.name (n.values.idxOf o)) - g σ else 0) := by
        intro i
        rw [Rand.expect_pure]
        split
        · rw [hG _ _ hσ' hr']; ring
        · rw [hG _ _ hσ hr]; ring
      simp only [hval]
      rw [sum_add_distrib, sum_const, card_range, nsmul_eq_mul, ← sum_filter, sum_const, nsmul_eq_mul]
      simp only [α, alphaR]
      field_simp
      ring
    rw [hE, hcard, sum_idxOf (hd.labels n hn) fun b =>
      α σ b * g (Function.update σ n.name b) + (1 - α σ b) * g σ]
    have hs : σ n.name ∈ range n.values.length := mem_range.2 (hcard ▸ hσ _ hvn)
    have : ∀ b, mhKR A N bn n σ b * g (Function.update σ n.name b) =
        α σ b * g (Function.update σ n.name b) / k + if b = σ n.name then
          (∑ c ∈ range n.values.length, (1 - α σ c)) / k * g σ else 0 := by
      intro b
      unfold mhKR
      simp only [α, k]
      split
      · next h => rw [h, Function.update_eq_self]; ring
      · ring
    simp only [this]
    rw [sum_add_distrib, sum_add_distrib, sum_ite_eq', if_pos hs, ← sum_mul, ← sum_div]
    ring
  · intro σ hσ
    have hpos : 0 < n.values.length := lt_of_le_of_lt (Nat.zero_le _) (hcard ▸ hσ _ hvn)
    have hk : (n.values.length : ℝ) ≠ 0 := by exact_mod_cast hpos.ne'
    have hs : σ n.name ∈ range n.values.length := mem_range.2 (hcard ▸ hσ _ hvn)
    unfold mhKR
    rw [hcard, sum_add_distrib, sum_ite_eq', if_pos hs, ← sum_div, ← add_div, ← sum_add_distrib]
    simp only [add_sub_cancel, sum_const, card_range, nsmul_eq_mul, mul_one]
    exact div_self hk
  · intro σ _ b _
    rw [zero_mul, zero_mul]
  · intro σ _ b _
    refine ⟨add_nonneg (div_nonneg (hα0 σ b) (Nat.cast_nonneg _)) ?_, fun h => absurd h (lt_irrefl _)⟩
    split_ifs
    · exact div_nonneg (sum_nonneg fun c _ => sub_nonneg.2 (hα1 σ c)) (Nat.cast_nonneg _)
    · exact le_rfl

theorem mhKR_error (hA : A.Accurate u) (hN : 0 < N) (hc : bn.Consistent)
    (hl : bn.Linked) (hnn : bn.NonNeg) {n : NodeV} (hn : n ∈ bn) (σ : Assign)
    {b : Nat} (hb : b < n.values.length) :
    |mhKR A N bn n σ b - mhK bn n σ b| ≤ 2 * ((drawError u N n.drawRoundings : ℚ) : ℝ) := by
  set η : ℝ := ((drawError u N n.drawRoundings : ℚ) : ℝ) with hη
  have hη0 : 0 ≤ η := by
    rw [hη]; exact_mod_cast drawError_nonneg hA.nonneg hA.lt_one N _
  have hk : (1 : ℝ) ≤ n.values.length := by exact_mod_cast (by omega : 1 ≤ n.values.length)
  set k : ℝ := (n.values.length : ℝ) with hkd
  have hα : ∀ c, |alphaR A N (blanketR A bn n (Function.update σ n.name c)) (blanketR A bn n σ) -
      ((Mcmc.accept (blanket bn n (Function.update σ n.name c)) (blanket bn n σ) : ℚ) : ℝ)| ≤ η := by
    intro c
    refine (alphaR_error hA hN (blanketR_near hA hc hl hnn hn _) (blanketR_near hA hc hl hnn hn σ)).trans ?_
    rw [hη]
    have : drawError u N (2 * n.children.length + 1) ≤ drawError u N n.drawRoundings :=
      drawError_mono hA.nonneg hA.lt_one N (by unfold NodeV.drawRoundings; omega)
    exact_mod_cast this
  unfold mhKR mhK
  set a : Nat → ℝ := fun c =>
    alphaR A N (blanketR A bn n (Function.update σ n.name c)) (blanketR A bn n σ) with ha
  set a' : Nat → ℝ := fun c =>
    ((Mcmc.accept (blanket bn n (Function.update σ n.name c)) (blanket bn n σ) : ℚ) : ℝ) with ha'
  have h1 : |a b / k - a' b / k| ≤ η := by
    rw [← sub_div, abs_div, abs_of_pos (by linarith : 0 < k)]
    exact (div_le_self (abs_nonneg _) hk).trans (hα b)
  have h2 : |(∑ c ∈ range n.values.length, (1 - a c)) / k -
      (∑ c ∈ range n.values.length, (1 - a' c)) / k| ≤ η := by
    rw [← sub_div, abs_div, abs_of_pos (by linarith : 0 < k), ← sum_sub_distrib,
      div_le_iff₀ (by linarith)]
    refine (abs_sum_le_sum_abs _ _).trans ?_
    calc ∑ c ∈ range n.values.length, |1 - a c - (1 - a' c)|
        ≤ ∑ _c ∈ range n.values.length, η := sum_le_sum fun c _ => by
          rw [show 1 - a c - (1 - a' c) = -(a c - a' c) by ring, abs_neg]
          exact hα c
      _ = η * k := by rw [sum_const, card_range, nsmul_eq_mul, hkd]; ring
  split
  · refine le_trans (le_of_eq ?_) ((abs_add_le _ _).trans (add_le_add h1 h2) |>.trans (by linarith))
    congr 1
    ring
  · rw [add_zero, add_zero]
    linarith

end Primo
