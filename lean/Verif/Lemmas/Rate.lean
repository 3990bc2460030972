import Verif.Spec.Rate
import Verif.Lemmas.Connected
import Verif.Spec.Rounded

/-! # Explicit rates for the samplers -/

namespace Primo
open Finset Markov

variable {bn : BN}

/-! ## sums over the outcomes of several variables -/

/-- the sum over all outcomes of the variables of a list -/
def iterSum (card : Name → Nat) : List Name → (Assign → ℝ) → Assign → ℝ
  | [], g, σ => g σ
  | v :: vs, g, σ => ∑ b ∈ range (card v), iterSum card vs g (Function.update σ v b)

variable {card : Name → Nat}

theorem iterSum_perm {L L' : List Name} (h : L.Perm L') (hn : L.Nodup) (g : Assign → ℝ) :
    ∀ σ, iterSum card L g σ = iterSum card L' g σ := by
  induction h with
  | nil => exact fun _ => rfl
  | cons v _ ih =>
    intro σ
    exact sum_congr rfl fun b _ => ih (List.nodup_cons.1 hn).2 _
  | swap v w l =>
    intro σ
    have hne : v ≠ w := fun e => (List.nodup_cons.1 hn).1 (by simp [e])
    show ∑ b ∈ range (card w), ∑ c ∈ range (card v), _ = ∑ c ∈ range (card v), ∑ b ∈ range (card w), _
    rw [sum_comm]
    refine sum_congr rfl fun b _ => sum_congr rfl fun c _ => ?_
    rw [Function.update_comm hne]
  | trans h1 _ ih1 ih2 =>
    intro σ
    rw [ih1 hn, ih2 (h1.nodup_iff.1 hn)]

theorem iterSum_affine (L : List Name) (c e : ℝ) (g : Assign → ℝ) (σ : Assign) :
    iterSum card L (fun z => c * g z + e) σ =
      c * iterSum card L g σ + e * (L.map fun v => (card v : ℝ)).prod := by
  induction L generalizing σ with
  | nil => simp [iterSum]
  | cons v L ih =>
    simp only [iterSum, ih, sum_add_distrib, ← mul_sum, sum_const, card_range, nsmul_eq_mul,
      List.map_cons, List.prod_cons]

theorem iterSum_congr_left (L : List Name) (g : Assign → ℝ) {σ τ : Assign} (h : ∀ v, v ∉ L → σ v = τ v) :
    iterSum card L g σ = iterSum card L g τ := by
  induction L generalizing σ τ with
  | nil => exact congrArg g (funext fun v => h v (by simp))
  | cons v L ih =>
    refine sum_congr rfl fun b _ => ih fun w hw => ?_
    by_cases e : w = v
    · subst e; simp
    · rw [Function.update_of_ne e, Function.update_of_ne e]
      exact h w (by simp [e, hw])

/-! ## chains whose single moves have a lower bound -/

section Lower
variable {C : Finset Assign} {ns : List NodeV} {K : NodeV → Assign → Nat → ℝ} {β : NodeV → ℝ}

/-- The changes of the nodes `ns` stay in `C` and give every outcome at least the probability `β`. -/
structure Lower (bn : BN) (C : Finset Assign) (ns : List NodeV) (K : NodeV → Assign → Nat → ℝ)
    (β : NodeV → ℝ) : Prop where
  sub : C ⊆ states bn
  mem : ∀ n ∈ ns, n.name ∈ bn.names
  nodup : (ns.map (·.name)).Nodup
  stay : ∀ n ∈ ns, ∀ σ ∈ C, ∀ b < bn.card n.name, Function.update σ n.name b ∈ C
  nonneg : ∀ n ∈ ns, 0 ≤ β n
  le : ∀ n ∈ ns, ∀ σ ∈ C, ∀ b < bn.card n.name, β n ≤ K n σ b

theorem Lower.tail {n : NodeV} (h : Lower bn C (n :: ns) K β) : Lower bn C ns K β :=
  ⟨h.sub, fun m hm => h.mem m (List.mem_cons_of_mem _ hm),
    by have := h.nodup; rw [List.map_cons, List.nodup_cons] at this; exact this.2,
    fun m hm => h.stay m (List.mem_cons_of_mem _ hm),
    fun m hm => h.nonneg m (List.mem_cons_of_mem _ hm),
    fun m hm => h.le m (List.mem_cons_of_mem _ hm)⟩

theorem Lower.iterSum_nonneg (h : Lower bn C ns K β) {L : List NodeV} (hL : ∀ n ∈ L, n ∈ ns)
    {g : Assign → ℝ} (hg : ∀ σ ∈ C, 0 ≤ g σ) : ∀ σ ∈ C, 0 ≤ iterSum bn.card (L.map (·.name)) g σ := by
  induction L with
  | nil => exact hg
  | cons n L ih =>
    intro σ hσ
    exact sum_nonneg fun b hb => ih (fun m hm => hL m (List.mem_cons_of_mem _ hm)) _
      (h.stay n (hL n (by simp)) σ hσ b (mem_range.1 hb))

theorem Lower.site (h : Lower bn C ns K β) {n : NodeV} (hn : n ∈ ns) {f g : Assign → ℝ}
    (h0 : ∀ σ ∈ C, 0 ≤ f σ) (hfg : ∀ σ ∈ C, f σ ≤ g σ) {σ : Assign} (hσ : σ ∈ C) :
    β n * ∑ b ∈ range (bn.card n.name), f (Function.update σ n.name b) ≤
      act (states bn) (siteMatrix bn n.name (K n)) g σ := by
  rw [act_siteMatrix (h.mem n hn) _ _ (h.sub hσ), mul_sum]
  refine sum_le_sum fun b hb => ?_
  have hb := mem_range.1 hb
  have hu := h.stay n hn σ hσ b hb
  exact mul_le_mul (h.le n hn σ hσ b hb) (hfg _ hu) (h0 _ hu) ((h.nonneg n hn).trans (h.le n hn σ hσ b hb))

theorem prod_beta_nonneg {L : List NodeV} (h : ∀ n ∈ L, 0 ≤ β n) : 0 ≤ (L.map β).prod := by
  refine List.prod_nonneg fun x hx => ?_
  obtain ⟨n, hn, rfl⟩ := List.mem_map.1 hx
  exact h n hn

/-- all nodes one after the other -/
theorem Lower.sweep (h : Lower bn C ns K β) {g : Assign → ℝ} (hg : ∀ σ ∈ C, 0 ≤ g σ) :
    ∀ σ ∈ C, (ns.map β).prod * iterSum bn.card (ns.map (·.name)) g σ ≤
      act (states bn) (sweepM (states bn) (fun n => siteMatrix bn n.name (K n)) ns) g σ := by
  classical
  induction ns with
  | nil =>
    intro σ hσ
    unfold act sweepM
    simp only [ite_mul, one_mul, zero_mul]
    rw [sum_ite_eq, if_pos (h.sub hσ)]
    simp [iterSum]
  | cons n ns ih =>
    intro σ hσ
    have ih := ih h.tail
    have h1 := h.site (n := n) (by simp) (f := fun τ =>
      (ns.map β).prod * iterSum bn.card (ns.map (·.name)) g τ) (fun τ hτ => mul_nonneg
        (prod_beta_nonneg h.tail.nonneg) (h.tail.iterSum_nonneg (fun _ h => h) hg τ hτ)) ih hσ
    show _ ≤ act (states bn) (mulM (states bn) _ _) g σ
    rw [act_mulM]
    refine le_trans (le_of_eq ?_) h1
    rw [← mul_sum]
    simp only [List.map_cons, List.prod_cons, iterSum]
    ring

theorem length_mul_le {L : List NodeV} {f : NodeV → ℝ} {c : ℝ} (h : ∀ n ∈ L, c ≤ f n) :
    (L.length : ℝ) * c ≤ (L.map f).sum := by
  induction L with
  | nil => simp
  | cons n L ih =>
    rw [List.map_cons, List.sum_cons, List.length_cons]
    have h1 := h n (by simp)
    have h2 := ih fun m hm => h m (List.mem_cons_of_mem _ hm)
    push_cast
    linarith

theorem sum_le_of_nodup {L ns : List NodeV} (hn : L.Nodup) (hs : ∀ n ∈ L, n ∈ ns) {f : NodeV → ℝ}
    (h0 : ∀ n ∈ ns, 0 ≤ f n) : (L.map f).sum ≤ (ns.map f).sum := by
  obtain ⟨L', hp, hs'⟩ := hn.subperm hs
  rw [← (hp.map f).sum_eq]
  refine (hs'.map f).sum_le_sum fun x hx => ?_
  obtain ⟨n, hn, rfl⟩ := List.mem_map.1 hx
  exact h0 n hn

/-- one node after the other, drawn at random -/
theorem Lower.single (h : Lower bn C ns K β) {g : Assign → ℝ} (hg : ∀ σ ∈ C, 0 ≤ g σ) (k : Nat) :
    ∀ L : List NodeV, L.length = k → L.Nodup → (∀ n ∈ L, n ∈ ns) → ∀ σ ∈ C,
      (k.factorial / (ns.length : ℝ) ^ k) * (L.map β).prod * iterSum bn.card (L.map (·.name)) g σ ≤
        (act (states bn) (avgM ns fun n => siteMatrix bn n.name (K n)))^[k] g σ := by
  classical
  induction k with
  | zero =>
    intro L hL _ _ σ _
    rw [List.length_eq_zero_iff.1 hL]
    simp [iterSum]
  | succ k ih =>
    intro L hL hnd hsub σ hσ
    rw [Function.iterate_succ_apply', act_avgM]
    set G := (act (states bn) (avgM ns fun n => siteMatrix bn n.name (K n)))^[k] g with hG
    have hnames : (L.map (·.name)).Nodup := by
      obtain ⟨L', hp, hs'⟩ := hnd.subperm hsub
      exact (hp.map _).nodup_iff.1 ((hs'.map _).nodup h.nodup)
    have hc0 : (0 : ℝ) ≤ k.factorial / (ns.length : ℝ) ^ k := by positivity
    have hG0 : ∀ τ ∈ C, 0 ≤ G τ := by
      intro τ hτ
      have hl : (L.take k).length = k := by rw [List.length_take, hL]; omega
      have hs : ∀ n ∈ L.take k, n ∈ ns := fun n hn => hsub n (List.mem_of_mem_take hn)
      refine le_trans ?_ (ih (L.take k) hl (hnd.sublist (List.take_sublist _ _)) hs τ hτ)
      exact mul_nonneg (mul_nonneg hc0 (prod_beta_nonneg fun n hn => h.nonneg n (hs n hn)))
        (h.iterSum_nonneg hs hg τ hτ)
    set c := (k.factorial / (ns.length : ℝ) ^ k) * (L.map β).prod *
      iterSum bn.card (L.map (·.name)) g σ with hc
    have h1 : ∀ n ∈ L, c ≤ act (states bn) (siteMatrix bn n.name (K n)) G σ := by
      intro n hn
      have hp : L.Perm (n :: L.erase n) := List.perm_cons_erase hn
      have hs : ∀ m ∈ L.erase n, m ∈ ns := fun m hm => hsub m (List.mem_of_mem_erase hm)
      have h2 := h.site (hsub n hn) (g := G) (f := fun τ => (k.factorial / (ns.length : ℝ) ^ k) *
        ((L.erase n).map β).prod * iterSum bn.card ((L.erase n).map (·.name)) g τ)
        (fun τ hτ => mul_nonneg (mul_nonneg hc0 (prod_beta_nonneg fun m hm => h.nonneg m (hs m hm)))
          (h.iterSum_nonneg hs hg τ hτ))
        (fun τ hτ => ih (L.erase n) (by rw [List.length_erase_of_mem hn, hL]; rfl) (hnd.erase n) hs τ hτ) hσ
      refine le_trans (le_of_eq ?_) h2
      rw [hc, (hp.map β).prod_eq, iterSum_perm (hp.map _) hnames, ← mul_sum]
      simp only [List.map_cons, List.prod_cons, iterSum]
      ring
    have h2 : (L.length : ℝ) * c ≤ (L.map fun n => act (states bn) (siteMatrix bn n.name (K n)) G σ).sum := by
      exact length_mul_le h1
    have h3 := sum_le_of_nodup hnd hsub
      (f := fun n => act (states bn) (siteMatrix bn n.name (K n)) G σ) fun n hn => by
        have := h.site hn (f := fun _ => 0) (g := G) (fun _ _ => le_rfl) hG0 hσ
        simpa using this
    have hpos : (0 : ℝ) < ns.length := by
      have : L ≠ [] := fun e => by rw [e] at hL; cases hL
      obtain ⟨n, hn⟩ := List.exists_mem_of_ne_nil _ this
      exact_mod_cast List.length_pos_of_mem (hsub n hn)
    rw [le_div_iff₀ hpos]
    refine le_trans (le_of_eq ?_) (h2.trans h3)
    rw [hc, hL, Nat.factorial_succ, pow_succ]
    push_cast
    field_simp

/-- the resulting mixing -/
theorem Lower.mixing (h : Lower bn C ns K β) {σ₀ : Assign}
    (hoff : ∀ σ ∈ C, ∀ v, v ∉ ns.map (·.name) → σ v = σ₀ v) (hσ₀ : ∀ n ∈ ns, 0 < bn.card n.name)
    {P : Assign → Assign → ℝ} {m : Nat} {x : ℝ}
    (hcl : ∀ σ ∈ C, ∀ τ ∈ states bn, τ ∉ C → P σ τ = 0)
    (hP : ∀ g : Assign → ℝ, (∀ σ ∈ C, 0 ≤ g σ) → ∀ σ ∈ C,
      x * (ns.map β).prod * iterSum bn.card (ns.map (·.name)) g σ ≤ (act (states bn) P)^[m] g σ) :
    Mixing C P m (x * (ns.map fun n => bn.card n.name * β n).prod) := by
  have hpos : (0 : ℝ) < ((ns.map (·.name)).map fun v => (bn.card v : ℝ)).prod := by
    refine List.prod_pos fun y hy => ?_
    obtain ⟨v, hv, rfl⟩ := List.mem_map.1 hy
    obtain ⟨n, hn, rfl⟩ := List.mem_map.1 hv
    exact_mod_cast hσ₀ n hn
  refine ⟨fun g => iterSum bn.card (ns.map (·.name)) g σ₀ /
    ((ns.map (·.name)).map fun v => (bn.card v : ℝ)).prod, fun c e g => ?_, fun g hg σ hσ => ?_⟩
  · dsimp only
    rw [iterSum_affine]
    field_simp
  · rw [← iter_restrict h.sub hcl g m σ hσ]
    refine le_trans (le_of_eq ?_) (hP g hg σ hσ)
    rw [iterSum_congr_left _ g (hoff σ hσ)]
    have : (ns.map fun n => (bn.card n.name : ℝ) * β n).prod =
        ((ns.map (·.name)).map fun v => (bn.card v : ℝ)).prod * (ns.map β).prod := by
      rw [List.prod_map_mul, List.map_map]
      rfl
    rw [this]
    field_simp

end Lower

/-! ## the tables bound the moves -/

section Tables
variable {a : ℚ}

theorem entry_mem (hc : bn.Consistent) {n : NodeV} (hn : n ∈ bn) {σ : Assign}
    (hσ : Legal bn.card bn.names σ) : n.entry σ ∈ n.cpd.data := by
  unfold NodeV.entry NDArray.get
  have hr : InRange n.cpd.shape (σ n.name :: n.parentOrder.map σ) := by
    rw [hc.shape n hn]
    refine .cons ?_ (inRange_map.2 fun p hp => hσ p (hc.parents_mem n hn p hp))
    rw [← card_eq hc hn]
    exact hσ _ (List.mem_map_of_mem hn)
  have hlt : NDArray.ravel n.cpd.shape (σ n.name :: n.parentOrder.map σ) < n.cpd.data.length := by
    rw [n.cpd.size_eq]
    exact NDArray.ravel_lt hr
  rw [List.getD_eq_getElem?_getD, List.getElem?_eq_getElem hlt]
  exact List.getElem_mem _

theorem entry_update (hc : bn.Consistent) {n : NodeV} (hn : n ∈ bn) (σ : Assign) (b : Nat) :
    n.entry (Function.update σ n.name b) = n.cpd.get (b :: n.parentOrder.map σ) := by
  unfold NodeV.entry
  rw [Function.update_self]
  congr 2
  refine List.map_congr_left fun p hp => Function.update_of_ne ?_ ..
  rintro rfl
  exact hc.self n hn hp

theorem sum_entry (hc : bn.Consistent) (hs : bn.Stochastic) {n : NodeV} (hn : n ∈ bn) {σ : Assign}
    (hσ : Legal bn.card bn.names σ) :
    ∑ b ∈ range n.values.length, n.entry (Function.update σ n.name b) = 1 := by
  simp only [entry_update hc hn]
  exact hs n hn σ fun p hp => hσ p (hc.parents_mem n hn p hp)

theorem entry_le_one (hc : bn.Consistent) (hnn : bn.NonNeg) (hs : bn.Stochastic) {n : NodeV}
    (hn : n ∈ bn) {σ : Assign} (hσ : Legal bn.card bn.names σ) : n.entry σ ≤ 1 := by
  rw [← sum_entry hc hs hn hσ]
  have := single_le_sum (f := fun b => n.entry (Function.update σ n.name b))
    (fun b _ => NDArray.get_nonneg (hnn n hn) _)
    (mem_range.2 (card_eq hc hn ▸ hσ _ (List.mem_map_of_mem hn)))
  simpa using this

theorem childCount_eq (hc : bn.Consistent) (hl : bn.Linked) {n : NodeV} (hn : n ∈ bn) :
    bn.childCount n.name = (bn.childNodes n).length := by
  have hnd : bn.Nodup := List.Nodup.of_map _ hc.nodup
  refine ((List.perm_ext_iff_of_nodup (hnd.filter _) (childNodes_nodup hl hn)).2 fun m => ?_).length_eq
  rw [List.mem_filter, mem_childNodes hc hl hn, decide_eq_true_eq]

theorem pow_le_prod (ha : 0 ≤ a) {l : List NodeV} {f : NodeV → ℚ} (h : ∀ m ∈ l, a ≤ f m) :
    a ^ l.length ≤ (l.map f).prod := by
  induction l with
  | nil => simp
  | cons m l ih =>
    rw [List.length_cons, pow_succ', List.map_cons, List.prod_cons]
    exact mul_le_mul (h m (by simp)) (ih fun k hk => h k (List.mem_cons_of_mem _ hk))
      (pow_nonneg ha _) (ha.trans (h m (by simp)))

theorem blanket_ge (hc : bn.Consistent) (hl : bn.Linked) (ha : 0 ≤ a) {ev : Dict Val}
    (hat : bn.AtLeastGiven ev a) {n : NodeV} (hn : n ∈ bn) {σ : Assign} (hσ : σ ∈ evStates bn ev) :
    a ^ (1 + bn.childCount n.name) ≤ blanket bn n σ := by
  rw [childCount_eq hc hl hn, pow_add, pow_one]
  obtain ⟨h1, h2⟩ := mem_evStates.1 hσ
  have h3 := (mem_states.1 h1).1
  unfold blanket
  exact mul_le_mul (hat n hn σ h3 h2) (pow_le_prod ha fun m hm =>
    hat m ((mem_childNodes hc hl hn).1 hm).1 σ h3 h2) (pow_nonneg ha _) (ha.trans (hat n hn σ h3 h2))

theorem prod_le_one_list {l : List NodeV} {f : NodeV → ℚ} (h : ∀ m ∈ l, 0 ≤ f m ∧ f m ≤ 1) :
    0 ≤ (l.map f).prod ∧ (l.map f).prod ≤ 1 := by
  induction l with
  | nil => simp
  | cons m l ih =>
    rw [List.map_cons, List.prod_cons]
    obtain ⟨h1, h2⟩ := ih fun k hk => h k (List.mem_cons_of_mem _ hk)
    obtain ⟨h3, h4⟩ := h m (by simp)
    exact ⟨mul_nonneg h3 h1, mul_le_one₀ h4 h1 h2⟩

theorem blanket_le_entry (hc : bn.Consistent) (hl : bn.Linked) (hnn : bn.NonNeg) (hs : bn.Stochastic)
    {n : NodeV} (hn : n ∈ bn) {σ : Assign} (hσ : Legal bn.card bn.names σ) :
    blanket bn n σ ≤ n.entry σ := by
  unfold blanket
  refine mul_le_of_le_one_right (NDArray.get_nonneg (hnn n hn) _) (prod_le_one_list fun m hm => ?_).2
  have hm' := ((mem_childNodes hc hl hn).1 hm).1
  exact ⟨NDArray.get_nonneg (hnn m hm') _, entry_le_one hc hnn hs hm' hσ⟩

theorem sum_blanket_le (hc : bn.Consistent) (hl : bn.Linked) (hnn : bn.NonNeg) (hs : bn.Stochastic)
    {n : NodeV} (hn : n ∈ bn) {σ : Assign} (hσ : Legal bn.card bn.names σ) :
    ∑ b ∈ range n.values.length, blanket bn n (Function.update σ n.name b) ≤ 1 := by
  rw [← sum_entry hc hs hn hσ]
  refine sum_le_sum fun b hb => blanket_le_entry hc hl hnn hs hn (hσ.update ?_)
  rw [card_eq hc hn]
  exact mem_range.1 hb

theorem gibbsK_ge (hc : bn.Consistent) (hl : bn.Linked) (hnn : bn.NonNeg) (hs : bn.Stochastic)
    (ha : 0 < a) {ev : Dict Val} (hat : bn.AtLeastGiven ev a) {n : NodeV} (hn : n ∈ bn)
    (hev : n.name ∉ ev.keys) {σ : Assign} (hσ' : σ ∈ evStates bn ev) {b : Nat} (hb : b < bn.card n.name) :
    ((a ^ (1 + bn.childCount n.name) : ℚ) : ℝ) ≤ gibbsK bn n σ b := by
  have hσ := (mem_states.1 (mem_evStates.1 hσ').1).1
  have h1 := blanket_ge hc hl ha.le hat hn (evStates_update hσ' (List.mem_map_of_mem hn) hev hb)
  have h2 := sum_blanket_le hc hl hnn hs hn hσ
  have h3 : 0 < ∑ b ∈ range n.values.length, blanket bn n (Function.update σ n.name b) :=
    lt_of_lt_of_le (lt_of_lt_of_le (pow_pos ha _) h1) (single_le_sum
      (f := fun b => blanket bn n (Function.update σ n.name b))
      (fun b _ => blanket_nonneg hnn hn hc hl _) (mem_range.2 (card_eq hc hn ▸ hb)))
  unfold gibbsK
  rw [if_neg h3.ne', Rat.cast_le, le_div_iff₀ h3]
  exact le_trans (mul_le_of_le_one_right (pow_nonneg ha.le _) h2) h1

theorem mhK_ge (hc : bn.Consistent) (hl : bn.Linked) (hnn : bn.NonNeg) (hs : bn.Stochastic)
    (ha : 0 < a) {ev : Dict Val} (hat : bn.AtLeastGiven ev a) {n : NodeV} (hn : n ∈ bn)
    (hev : n.name ∉ ev.keys) {σ : Assign} (hσ' : σ ∈ evStates bn ev) {b : Nat} (hb : b < bn.card n.name) :
    ((a ^ (1 + bn.childCount n.name) : ℚ) : ℝ) / n.values.length ≤ mhK bn n σ b := by
  have hσ := (mem_states.1 (mem_evStates.1 hσ').1).1
  have h1 := blanket_ge hc hl ha.le hat hn (evStates_update hσ' (List.mem_map_of_mem hn) hev hb)
  have h2 := blanket_ge hc hl ha.le hat hn hσ'
  have h0 : 0 < a ^ (1 + bn.childCount n.name) := pow_pos ha _
  have h3 := (blanket_le_entry hc hl hnn hs hn hσ).trans (entry_le_one hc hnn hs hn hσ)
  have h4 := (blanket_le_entry hc hl hnn hs hn (hσ.update hb)).trans
    (entry_le_one hc hnn hs hn (hσ.update hb))
  have hacc : a ^ (1 + bn.childCount n.name) ≤
      Mcmc.accept (blanket bn n (Function.update σ n.name b)) (blanket bn n σ) := by
    unfold Mcmc.accept
    rw [if_neg (h0.trans_le h2).ne', le_min_iff, le_div_iff₀ (h0.trans_le h2)]
    exact ⟨h1.trans h4, (mul_le_of_le_one_right h0.le h3).trans h1⟩
  unfold mhK
  refine le_add_of_le_of_nonneg ?_ ?_
  · exact div_le_div_of_nonneg_right (by exact_mod_cast hacc) (Nat.cast_nonneg _)
  · split
    · refine div_nonneg (sum_nonneg fun c _ => sub_nonneg.2 ?_) (Nat.cast_nonneg _)
      exact_mod_cast (accept_bounds (blanket_nonneg hnn hn hc hl _) (blanket_nonneg hnn hn hc hl σ)).2
    · exact le_rfl

end Tables

theorem Markov.Mixing.le_one {α : Type} {S : Finset α} {P : α → α → ℝ} {m : Nat} {δ : ℝ} (h : Mixing S P m δ)
    (hP : Stoch S P) (hS : S.Nonempty) : δ ≤ 1 := by
  obtain ⟨ν, h1, h2⟩ := h
  obtain ⟨x, hx⟩ := hS
  have h3 := h1 0 1 fun _ => 0
  have h4 := h2 (fun _ => 0 * 0 + 1) (fun _ _ => by norm_num) x hx
  rw [h3, hP.iter_const _ m x hx] at h4
  linarith

/-- the chains of the two samplers, with their rates -/
theorem step_rate (hc : bn.Consistent) (hl : bn.Linked) (hd : bn.Discrete) (hnn : bn.NonNeg)
    (hs : bn.Stochastic) {a : ℚ} (ha : 0 < a) {ev : Dict Val} (hat : bn.AtLeastGiven ev a) (he : LegalHard bn ev)
    (hne : (evStates bn ev).Nonempty) {tm : Mcmc.Transition} (htm : tm ≠ .base) {full : Bool}
    (hfull : full = false → ∃ n ∈ bn, n.name ∉ ev.keys) :
    ∃ P, Ergodic bn (freeNames bn ev) (evStates bn ev) (fullPosterior bn ev)
      (Mcmc.step tm bn (freeNodes bn ev) full) P (roundSteps bn ev full)
      ((roundShare tm bn ev a full : ℚ) : ℝ) := by
  obtain ⟨σ₀, hσ₀⟩ := hne
  have hcard : ∀ n ∈ freeNodes bn ev, 0 < bn.card n.name := fun n hn =>
    lt_of_le_of_lt (Nat.zero_le _) ((mem_states.1 (mem_evStates.1 hσ₀).1).1 _
      (List.mem_map_of_mem (mem_freeNodes.1 hn).1))
  have main : ∀ (site : NodeV → Dict Val → Rand (Except PyErr (Dict Val)))
      (K : NodeV → Assign → Nat → ℝ) (β : NodeV → ℝ),
      (∀ n ∈ freeNodes bn ev, IsKernel bn (fullPosterior bn ev) n.name (site n) (K n)) →
      (∀ n ∈ freeNodes bn ev, 0 < β n ∧ (bn.card n.name : ℝ) * β n = ((siteShare tm bn a n : ℚ) : ℝ) ∧
        ∀ σ ∈ evStates bn ev, ∀ b < bn.card n.name, β n ≤ K n σ b) →
      ∃ P, Ergodic bn (freeNames bn ev) (evStates bn ev) (fullPosterior bn ev)
        (Mcmc.siteStep site (freeNodes bn ev) full) P (roundSteps bn ev full)
        ((roundShare tm bn ev a full : ℚ) : ℝ) := by
    intro site K β hK hβ
    have hkern := kern_of hK
    have hstep := Kern.step hkern (freeNodes_ne hfull)
    have hlow : Lower bn (evStates bn ev) (freeNodes bn ev) K β :=
      ⟨evStates_subset ev, fun n hn => List.mem_map_of_mem (mem_freeNodes.1 hn).1,
        (List.filter_sublist.map _).nodup hc.nodup,
        fun n hn σ hσ b hb => evStates_update hσ (List.mem_map_of_mem (mem_freeNodes.1 hn).1)
          (mem_freeNodes.1 hn).2 hb,
        fun n hn => (hβ n hn).1.le, fun n hn => (hβ n hn).2.2⟩
    have hclosed : ∀ σ ∈ evStates bn ev, ∀ τ ∈ states bn, τ ∉ evStates bn ev →
        stepM bn (fun n => siteMatrix bn n.name (K n)) (freeNodes bn ev) full σ τ = 0 :=
      fun σ hσ τ hτ hτ' => evStates_closed hstep hσ hτ hτ'
    have hprod : ((freeNodes bn ev).map fun n => (bn.card n.name : ℝ) * β n).prod =
        ((((bn.unobserved ev).map (siteShare tm bn a)).prod : ℚ) : ℝ) := by
      rw [Rat.cast_list_prod, List.map_map]
      exact congrArg _ (List.map_congr_left fun n hn => (hβ n hn).2.1)
    have hpos : 0 < ((freeNodes bn ev).map fun n => (bn.card n.name : ℝ) * β n).prod := by
      refine List.prod_pos fun y hy => ?_
      obtain ⟨n, hn, rfl⟩ := List.mem_map.1 hy
      exact mul_pos (by exact_mod_cast hcard n hn) (hβ n hn).1
    have hmix : 0 < roundSteps bn ev full ∧ 0 < ((roundShare tm bn ev a full : ℚ) : ℝ) ∧
        Mixing (evStates bn ev) (stepM bn (fun n => siteMatrix bn n.name (K n)) (freeNodes bn ev) full)
        (roundSteps bn ev full) ((roundShare tm bn ev a full : ℚ) : ℝ) := by
      cases full with
      | true =>
        have h1 := hlow.mixing (σ₀ := σ₀) (fun σ hσ v hv => evStates_agree hd hσ₀ hσ hv) hcard hclosed
          (m := 1) (x := 1) (fun g hg σ hσ => by rw [one_mul]; exact hlow.sweep hg σ hσ)
        have e : ((roundShare tm bn ev a true : ℚ) : ℝ) =
            1 * ((freeNodes bn ev).map fun n => (bn.card n.name : ℝ) * β n).prod := by
          rw [hprod, roundShare, if_pos rfl, Rat.cast_mul, Rat.cast_one]
        rw [e]
        exact ⟨Nat.one_pos, by rw [one_mul]; exact hpos, h1⟩
      | false =>
        have hlen : 0 < (bn.unobserved ev).length :=
          List.length_pos_iff.2 (freeNodes_ne hfull rfl)
        have h1 := hlow.mixing (σ₀ := σ₀) (fun σ hσ v hv => evStates_agree hd hσ₀ hσ hv) hcard hclosed
          (m := (freeNodes bn ev).length)
          (x := (freeNodes bn ev).length.factorial / ((freeNodes bn ev).length : ℝ) ^ (freeNodes bn ev).length)
          (fun g hg σ hσ => hlow.single hg _ _ rfl
            ((List.Nodup.of_map _ hc.nodup).filter _) (fun _ h => h) σ hσ)
        have e : ((roundShare tm bn ev a false : ℚ) : ℝ) =
            (freeNodes bn ev).length.factorial / ((freeNodes bn ev).length : ℝ) ^ (freeNodes bn ev).length *
              ((freeNodes bn ev).map fun n => (bn.card n.name : ℝ) * β n).prod := by
          rw [hprod, roundShare, if_neg (by simp)]
          push_cast
          rfl
        rw [e]
        refine ⟨hlen, mul_pos (div_pos ?_ (pow_pos ?_ _)) hpos, h1⟩
        · exact_mod_cast Nat.factorial_pos _
        · exact_mod_cast hlen
    have hst := stoch_restrict (evStates_subset ev) hclosed hstep.stoch
    exact ⟨_, hstep, evStates_subset ev, ⟨σ₀, hσ₀⟩, hclosed,
      fun τ hτ hτ' => fullPosterior_disagree fun h => hτ' (mem_evStates.2 ⟨hτ, h⟩), hmix.1, hmix.2.1,
      hmix.2.2.le_one hst ⟨σ₀, hσ₀⟩, hmix.2.2⟩
  have hapow : ∀ n : NodeV, (0 : ℝ) < ((a ^ (1 + bn.childCount n.name) : ℚ) : ℝ) := fun n => by
    exact_mod_cast pow_pos ha _
  cases tm with
  | base => exact absurd rfl htm
  | gibbs =>
    refine main (Mcmc.gibbsSite bn) (gibbsK bn) (fun n => ((a ^ (1 + bn.childCount n.name) : ℚ) : ℝ))
      (fun n hn => ?_) fun n hn => ⟨hapow n, ?_, fun σ hσ b hb => ?_⟩
    · obtain ⟨h1, h2⟩ := mem_freeNodes.1 hn
      obtain ⟨K, rfl, h, _⟩ := gibbs_moves_eq hc hl hd hnn h1 (fullPosterior_proportional hc hl he h1 h2)
      exact h
    · rw [siteShare, if_pos rfl, card_eq hc (mem_freeNodes.1 hn).1]
      push_cast
      rfl
    · exact gibbsK_ge hc hl hnn hs ha hat (mem_freeNodes.1 hn).1 (mem_freeNodes.1 hn).2 hσ hb
  | metropolisHastings =>
    refine main (Mcmc.mhSite bn) (mhK bn)
      (fun n => ((a ^ (1 + bn.childCount n.name) : ℚ) : ℝ) / n.values.length)
      (fun n hn => ?_) fun n hn => ?_
    · obtain ⟨h1, h2⟩ := mem_freeNodes.1 hn
      obtain ⟨K, rfl, h, _⟩ := mh_moves_eq hc hl hd hnn h1 (fullPosterior_proportional hc hl he h1 h2)
      exact h
    · have h1 := (mem_freeNodes.1 hn).1
      have h0 : (0 : ℝ) < n.values.length := by
        rw [← card_eq hc h1]
        exact_mod_cast hcard n hn
      refine ⟨div_pos (hapow n) h0, ?_, fun σ hσ b hb => ?_⟩
      · rw [siteShare, if_neg (by decide), card_eq hc h1, one_mul, mul_div_cancel₀ _ h0.ne']
      · exact mhK_ge hc hl hnn hs ha hat h1 (mem_freeNodes.1 hn).2 hσ hb

/-! ## the law of the chain and the estimate -/

open Classical in
/-- the law of the chain, for sets of states -/
theorem law_events (hc : bn.Consistent) (hd : bn.Discrete) (hnn : bn.NonNeg)
    {ev : Dict Val} (hmass : ∑ σ ∈ states bn, fullPosterior bn ev σ = 1) {F : List Name} {C : Finset Assign}
    {stp : Dict Val → Rand (Except PyErr (Dict Val))} {P : Assign → Assign → ℝ} {m : Nat} {δ : ℝ}
    (h : Ergodic bn F C (fullPosterior bn ev) stp P m δ) {σ : Assign} (hσ : σ ∈ C) {d : Dict Val}
    (hr : Reads bn d σ) (k : Nat) {T : Finset Assign} (hT : T ⊆ states bn) :
    |(Mcmc.burn stp k d).prob (ReturnsIn bn T) - ∑ τ ∈ T, fullPosterior bn ev τ| ≤ (1 - δ) ^ (k / m) := by
  set g : Assign → ℝ := fun ρ => if ρ ∈ T then 1 else 0 with hg
  have h1 : (Mcmc.burn stp k d).prob (ReturnsIn bn T) = (act (states bn) P)^[k] g σ := by
    refine h.kern.burn k (fun d' ρ hρ hr' => ?_) (h.sub hσ) hr
    refine if_congr ⟨?_, fun h => ⟨ρ, h, d', rfl, hr'⟩⟩ rfl rfl
    rintro ⟨τ, hτ, d'', e, hr''⟩
    cases e
    have h2 := (hr'.agree hd (mem_states.1 hρ).1 (τ := τ)).1 hr''
    have : ρ = τ := funext fun v => by
      by_cases hv : v ∈ bn.names
      · exact h2 v hv
      · rw [(mem_states.1 hρ).2 v hv, (mem_states.1 (hT hτ)).2 v hv]
    rwa [this]
  have h2 := converges h.stoch (h.inv (fun σ _ => fullPosterior_nonneg hnn ev σ) hmass) h.ne h.le
    h.mixing g (k / m) (k % m) hσ
  have h3 : ∑ ρ ∈ states bn, fullPosterior bn ev ρ * g ρ = ∑ τ ∈ T, fullPosterior bn ev τ := by
    simp only [hg, mul_ite, mul_one, mul_zero]
    rw [← sum_filter, filter_mem_eq_inter, inter_eq_right.2 hT]
  rw [Nat.div_add_mod, h.sum, h3] at h2
  rw [h1, iter_restrict h.sub h.closed _ k σ hσ]
  refine h2.trans (mul_le_of_le_one_right (pow_nonneg (by linarith [h.le]) _) ?_)
  refine osc_le h.ne (a := 0) fun ρ _ => ?_
  simp only [hg]
  split <;> norm_num

open Classical in
/-- the instantiations of the query variables -/
noncomputable def queryStates (bn : BN) (vars : List Name) : Finset Assign :=
  (vars.toFinset.pi fun v => range (bn.card v)).image fun τ v =>
    if h : v ∈ vars.toFinset then τ v h else 0

theorem queryStates_card (vars : List Name) : (queryStates bn vars).card ≤ bn.tableSize vars := by
  classical
  refine card_image_le.trans (le_of_eq ?_)
  rw [card_pi]
  simp [BN.tableSize]

theorem queryStates_legal {vars : List Name} {ρ : Assign} (h : ρ ∈ queryStates bn vars) :
    Legal bn.card vars ρ := by
  classical
  obtain ⟨τ, hτ, rfl⟩ := mem_image.1 h
  intro v hv
  have hv' : v ∈ vars.toFinset := by simpa using hv
  dsimp only
  rw [dif_pos hv']
  exact mem_range.1 (mem_pi.1 hτ v hv')

theorem queryStates_cover {vars : List Name} {ρ : Assign} (h : Legal bn.card vars ρ) :
    ∃ ρ' ∈ queryStates bn vars, ∀ v ∈ vars, ρ' v = ρ v := by
  classical
  have h1 : (fun (v : Name) (_ : v ∈ vars.toFinset) => ρ v) ∈
      vars.toFinset.pi fun v => range (bn.card v) :=
    mem_pi.2 fun v hv => mem_range.2 (h v (by simpa using hv))
  refine ⟨_, mem_image_of_mem _ h1, fun v hv => ?_⟩
  have hv' : v ∈ vars.toFinset := by simpa using hv
  rw [dif_pos hv']

/-- the estimate, with explicit constants -/
theorem path_rate (hc : bn.Consistent) (hnn : bn.NonNeg) {ev : Dict Val} (he : LegalHard bn ev)
    (hmass : ∑ σ ∈ states bn, fullPosterior bn ev σ = 1) {F : List Name} {C : Finset Assign}
    {stp : Dict Val → Rand (Except PyErr (Dict Val))} {P : Assign → Assign → ℝ} {m : Nat} {δ : ℝ}
    (h : Ergodic bn F C (fullPosterior bn ev) stp P m δ) {vars : List Name}
    (hvars : ∀ v ∈ vars, v ∈ bn.names) {N : Nat} {ε : ℝ} (hN : 0 < N) (hε : 0 < ε) {σ : Assign}
    (hσ : σ ∈ C) :
    1 - bn.tableSize vars * (1 + 2 * (m / δ)) / (N * ε ^ 2) ≤
      path (states bn) P N (closeFreq bn ev vars ε N) σ := by
  have hNR : (0 : ℝ) < N := by exact_mod_cast hN
  have hB : (0 : ℝ) ≤ m / δ := div_nonneg (Nat.cast_nonneg _) h.pos.le
  refine le_trans ?_ (close_of_moment_on hc he h.sub h.closed h.stoch
    (R := queryStates bn vars) (fun ρ => queryStates_cover) hN hε (M := fun _ => N * (1 + 2 * (m / δ))) hσ
    fun ρ hρ => ?_)
  · rw [sum_const, nsmul_eq_mul]
    have h1 : ((queryStates bn vars).card : ℝ) ≤ bn.tableSize vars := by
      exact_mod_cast queryStates_card vars
    have e : (queryStates bn vars).card * (N * (1 + 2 * (m / δ))) / (N * ε) ^ 2 =
        (queryStates bn vars).card * (1 + 2 * (m / δ)) / (N * ε ^ 2) := by
      field_simp
    rw [e]
    have : (queryStates bn vars).card * (1 + 2 * (m / δ)) / (N * ε ^ 2) ≤
        bn.tableSize vars * (1 + 2 * (m / δ)) / (N * ε ^ 2) :=
      div_le_div_of_nonneg_right (mul_le_mul_of_nonneg_right h1 (by linarith)) (by positivity)
    linarith
  · have hg : ∑ τ ∈ C, fullPosterior bn ev τ * deviation bn ev vars ρ τ = 0 := by
      rw [h.sum]
      exact mean_deviation hc he hmass hvars (queryStates_legal hρ)
    have h1 := second_moment h.stoch (h.inv (fun σ _ => fullPosterior_nonneg hnn ev σ) hmass) h.ne h.pos
      h.mixing hg N hσ
    have h2 : osc h.ne (deviation bn ev vars ρ) ≤ 1 :=
      osc_le h.ne (a := - ((posterior bn (hardEvidence ev) vars ρ : ℚ) : ℝ)) fun τ _ => by
        unfold deviation
        split <;> constructor <;> linarith
    have h3 := osc_nonneg h.ne (deviation bn ev vars ρ)
    refine h1.trans (mul_le_mul_of_nonneg_left ?_ hNR.le)
    set c := osc h.ne (deviation bn ev vars ρ)
    have h4 : c ^ 2 ≤ 1 := by nlinarith
    have h5 : m * c / δ = c * (m / δ) := by ring
    rw [h5]
    nlinarith [mul_le_mul_of_nonneg_right h4 hB]

/-! ## slow chains -/

theorem act_stay {S : Finset Assign} {P : Assign → Assign → ℝ} (hP : Stoch S P) {g : Assign → ℝ}
    (hg : ∀ τ ∈ S, 0 ≤ g τ) {σ : Assign} (hσ : σ ∈ S) {c : ℝ} (hc : c ≤ P σ σ) : c * g σ ≤ act S P g σ :=
  (mul_le_mul_of_nonneg_right hc (hg σ hσ)).trans
    (single_le_sum (f := fun τ => P σ τ * g τ) (fun τ hτ => mul_nonneg (hP.nonneg σ hσ τ hτ) (hg τ hτ)) hσ)

theorem act_nonneg {S : Finset Assign} {P : Assign → Assign → ℝ} (hP : Stoch S P) {g : Assign → ℝ}
    (hg : ∀ τ ∈ S, 0 ≤ g τ) : ∀ τ ∈ S, 0 ≤ act S P g τ := fun τ hτ =>
  sum_nonneg fun ρ hρ => mul_nonneg (hP.nonneg τ hτ ρ hρ) (hg ρ hρ)

/-- a step of a chain that rarely changes any variable -/
theorem step_stay {F : List Name} {π : Assign → ℝ} {ns : List NodeV}
    {site : NodeV → Dict Val → Rand (Except PyErr (Dict Val))} {P : NodeV → Assign → Assign → ℝ}
    (hk : ∀ n ∈ ns, Kern bn F π (site n) (P n)) {full : Bool} (hfull : full = false → ns ≠ [])
    {σ : Assign} (hσ : σ ∈ states bn) {c : ℝ} (h0 : 0 ≤ c) (h1 : c ≤ 1) (hP : ∀ n ∈ ns, c ≤ P n σ σ)
    {g : Assign → ℝ} (hg : ∀ τ ∈ states bn, 0 ≤ g τ) :
    c ^ ns.length * g σ ≤ act (states bn) (stepM bn P ns full) g σ := by
  classical
  cases full with
  | true =>
    show _ ≤ act (states bn) (sweepM (states bn) P ns) g σ
    clear hfull
    induction ns with
    | nil =>
      unfold act sweepM
      simp only [ite_mul, one_mul, zero_mul]
      rw [sum_ite_eq, if_pos hσ]
      simp
    | cons n ns ih =>
      have ih := ih (fun m hm => hk m (List.mem_cons_of_mem _ hm)) fun m hm => hP m (List.mem_cons_of_mem _ hm)
      have hsw := Kern.sweep (bn := bn) (F := F) (π := π) (site := site) (P := P) (ns := ns)
        fun m hm => hk m (List.mem_cons_of_mem _ hm)
      show _ ≤ act (states bn) (mulM (states bn) _ _) g σ
      rw [act_mulM, List.length_cons, pow_succ', mul_assoc]
      exact (mul_le_mul_of_nonneg_left ih h0).trans (act_stay (hk n (by simp)).stoch
        (act_nonneg hsw.stoch hg) hσ (hP n (by simp)))
  | false =>
    show _ ≤ act (states bn) (avgM ns P) g σ
    have hne := hfull rfl
    have hpos : (0 : ℝ) < ns.length := by exact_mod_cast List.length_pos_iff.2 hne
    rw [act_avgM, le_div_iff₀ hpos]
    have h2 := length_mul_le (L := ns) (f := fun n => act (states bn) (P n) g σ) (c := c * g σ) fun n hn =>
      act_stay (hk n hn).stoch hg hσ (hP n hn)
    refine le_trans ?_ h2
    rw [mul_comm]
    refine mul_le_mul_of_nonneg_left (mul_le_mul_of_nonneg_right ?_ (hg σ hσ)) hpos.le
    exact pow_le_of_le_one h0 h1 (List.length_pos_iff.2 hne).ne'

theorem burn_stay (hd : bn.Discrete) {F : List Name} {π : Assign → ℝ}
    {stp : Dict Val → Rand (Except PyErr (Dict Val))} {P : Assign → Assign → ℝ} (h : Kern bn F π stp P)
    {σ : Assign} (hσ : σ ∈ states bn) {d : Dict Val} (hr : Reads bn d σ) {c : ℝ} (h0 : 0 ≤ c)
    (hstay : ∀ g : Assign → ℝ, (∀ τ ∈ states bn, 0 ≤ g τ) → c * g σ ≤ act (states bn) P g σ) (k : Nat) :
    c ^ k ≤ (Mcmc.burn stp k d).prob (Returns bn σ) := by
  have h1 : (Mcmc.burn stp k d).prob (Returns bn σ) = (act (states bn) P)^[k] (sameState bn σ) σ :=
    h.burn k (fun d' ρ hρ hr' => compat_returns hd σ d' ρ (mem_states.1 hρ).1 hr') hσ hr
  rw [h1]
  have hg : ∀ k, ∀ τ ∈ states bn, 0 ≤ (act (states bn) P)^[k] (sameState bn σ) τ := by
    intro k
    induction k with
    | zero =>
      intro τ _
      show 0 ≤ sameState bn σ τ
      unfold sameState
      split <;> norm_num
    | succ k ih => rw [Function.iterate_succ_apply']; exact act_nonneg h.stoch ih
  induction k with
  | zero =>
    show c ^ 0 ≤ sameState bn σ σ
    unfold sameState
    rw [if_pos fun _ _ => rfl, pow_zero]
  | succ k ih =>
    rw [Function.iterate_succ_apply', pow_succ']
    have h2 : (Mcmc.burn stp k d).prob (Returns bn σ) = (act (states bn) P)^[k] (sameState bn σ) σ :=
      h.burn k (fun d' ρ hρ hr' => compat_returns hd σ d' ρ (mem_states.1 hρ).1 hr') hσ hr
    exact (mul_le_mul_of_nonneg_left (ih h2) h0).trans (hstay _ (hg k))

end Primo
