import Verif.Lemmas.Chain
import Verif.Lemmas.Markov

/-! # The steps of the samplers as stochastic matrices on the states of the network -/

namespace Primo
open Finset Markov

variable {bn : BN} {π : Assign → ℝ}

/-- `G` judges a returned state dictionary as `g` judges the state it describes. -/
def CompatS (bn : BN) (G : Except PyErr (Dict Val) → ℝ) (g : Assign → ℝ) : Prop :=
  ∀ d, ∀ τ ∈ states bn, Reads bn d τ → G (.ok d) = g τ

/-- the state that agrees with `σ` on the network -/
def canon (bn : BN) (σ : Assign) : Assign := fun v => if v ∈ bn.names then σ v else 0

theorem canon_mem {σ : Assign} (h : Legal bn.card bn.names σ) : canon bn σ ∈ states bn :=
  mem_states.2 ⟨fun v hv => by rw [canon, if_pos hv]; exact h v hv, fun _ hv => if_neg hv⟩

theorem canon_eq {σ : Assign} (h : σ ∈ states bn) : canon bn σ = σ := by
  funext v
  by_cases hv : v ∈ bn.names
  · exact if_pos hv
  · rw [(mem_states.1 h).2 v hv]; exact if_neg hv

theorem reads_canon {d : Dict Val} {σ : Assign} : Reads bn d (canon bn σ) ↔ Reads bn d σ :=
  forall₂_congr fun v hv => by rw [canon, if_pos hv]

theorem CompatS.compat {G : Except PyErr (Dict Val) → ℝ} {g : Assign → ℝ} (h : CompatS bn G g) :
    Compat bn G fun σ => g (canon bn σ) :=
  fun d _ hτ hr => h d _ (canon_mem hτ) (reads_canon.2 hr)

/-- The random program acts on the states as the stochastic matrix `P`, which leaves `π` invariant
and changes the variables `F` only. -/
structure Kern (bn : BN) (F : List Name) (π : Assign → ℝ)
    (m : Dict Val → Rand (Except PyErr (Dict Val))) (P : Assign → Assign → ℝ) : Prop where
  acts : ∀ G g, CompatS bn G g → ∀ σ ∈ states bn, ∀ d, Reads bn d σ →
    (m d).expect G = act (states bn) P g σ
  stoch : Stoch (states bn) P
  keep : ∀ σ ∈ states bn, ∀ τ ∈ states bn, P σ τ ≠ 0 → ∀ v, v ∉ F → τ v = σ v
  inv : ∀ τ ∈ states bn, ∑ σ ∈ states bn, π σ * P σ τ = π τ

open Classical in
/-- the matrix of a kernel that changes one variable -/
noncomputable def siteMatrix (bn : BN) (v : Name) (K : Assign → Nat → ℝ) (σ τ : Assign) : ℝ :=
  ∑ b ∈ range (bn.card v), if Function.update σ v b = τ then K σ b else 0

theorem act_siteMatrix {v : Name} (hv : v ∈ bn.names) (K : Assign → Nat → ℝ) (g : Assign → ℝ)
    {σ : Assign} (hσ : σ ∈ states bn) :
    act (states bn) (siteMatrix bn v K) g σ =
      ∑ b ∈ range (bn.card v), K σ b * g (Function.update σ v b) := by
  classical
  unfold act siteMatrix
  simp only [sum_mul]
  rw [sum_comm]
  refine sum_congr rfl fun b hb => ?_
  rw [sum_eq_single_of_mem _ (update_mem_states hσ hv (mem_range.1 hb))]
  · rw [if_pos rfl]
  · intro τ _ hne
    rw [if_neg (Ne.symm hne), zero_mul]

/-- the matrix of a reversible kernel -/
theorem IsKernel.kern {v : Name} (hv : v ∈ bn.names) {F : List Name} (hF : v ∈ F)
    {site : Dict Val → Rand (Except PyErr (Dict Val))} {K : Assign → Nat → ℝ}
    (h : IsKernel bn π v site K) : Kern bn F π site (siteMatrix bn v K) := by
  classical
  obtain ⟨h1, h2, h3, h4⟩ := h
  have hact := @act_siteMatrix bn v hv K
  have hnn : ∀ σ ∈ states bn, ∀ τ, 0 ≤ siteMatrix bn v K σ τ := fun σ hσ τ => by
    refine sum_nonneg fun b hb => ?_
    split
    · exact (h4 σ (mem_states.1 hσ).1 b (mem_range.1 hb)).1
    · exact le_rfl
  refine ⟨?_, ⟨fun σ hσ τ _ => hnn σ hσ τ, ?_⟩, ?_, ?_⟩
  · intro G g hG σ hσ d hr
    rw [h1 G _ hG.compat σ (mem_states.1 hσ).1 d hr, hact g hσ]
    refine sum_congr rfl fun b hb => ?_
    rw [canon_eq (update_mem_states hσ hv (mem_range.1 hb))]
  · intro σ hσ
    have := hact (fun _ => 1) hσ
    simp only [act, mul_one] at this
    rw [this, h2 σ (mem_states.1 hσ).1]
  · intro σ hσ τ _ hne w hw
    unfold siteMatrix at hne
    obtain ⟨b, hb, hb'⟩ := exists_ne_zero_of_sum_ne_zero hne
    split at hb'
    · next e =>
      rw [← e, Function.update_of_ne]
      rintro rfl
      exact hw hF
    · exact absurd rfl hb'
  · intro τ hτ
    have := invariant_of_balance hv h2 h3 fun σ => if σ = τ then 1 else 0
    simp only [mul_ite, mul_one, mul_zero] at this
    rw [sum_ite_eq', if_pos hτ] at this
    rw [← this]
    rfl

theorem eq_update {v : Name} {σ τ : Assign} (hw : ∀ w, w ≠ v → τ w = σ w) :
    Function.update σ v (τ v) = τ := by
  funext w
  by_cases hwv : w = v
  · subst hwv; rw [Function.update_self]
  · rw [Function.update_of_ne hwv, hw w hwv]

/-- the entries of the matrix are the probabilities of the kernel -/
theorem siteMatrix_eq {v : Name} (hv : v ∈ bn.names) (K : Assign → Nat → ℝ) {σ τ : Assign}
    (hτ : τ ∈ states bn) (hw : ∀ w, w ≠ v → τ w = σ w) : siteMatrix bn v K σ τ = K σ (τ v) := by
  classical
  unfold siteMatrix
  rw [sum_eq_single_of_mem (τ v) (mem_range.2 ((mem_states.1 hτ).1 v hv)), if_pos (eq_update hw)]
  intro b _ hb
  refine if_neg fun e => hb ?_
  rw [← e, Function.update_self]

/-- the transitions that the matrix makes with positive probability -/
theorem IsKernel.pos {v : Name} (hv : v ∈ bn.names)
    {site : Dict Val → Rand (Except PyErr (Dict Val))} {K : Assign → Nat → ℝ}
    (h : IsKernel bn π v site K) {σ τ : Assign} (hσ : σ ∈ states bn) (hτ : τ ∈ states bn)
    (hw : ∀ w, w ≠ v → τ w = σ w) (hπ : 0 < π τ) : 0 < siteMatrix bn v K σ τ := by
  rw [siteMatrix_eq hv K hτ hw]
  exact (h.2.2.2 σ (mem_states.1 hσ).1 (τ v) ((mem_states.1 hτ).1 v hv)).2 ((eq_update hw).symm ▸ hπ)

/-- the product of two matrices -/
def mulM (S : Finset Assign) (P Q : Assign → Assign → ℝ) (σ τ : Assign) : ℝ :=
  ∑ ρ ∈ S, P σ ρ * Q ρ τ

theorem act_mulM (S : Finset Assign) (P Q : Assign → Assign → ℝ) (g : Assign → ℝ) (σ : Assign) :
    act S (mulM S P Q) g σ = act S P (act S Q g) σ := by
  unfold act mulM
  simp only [sum_mul, mul_sum]
  rw [sum_comm]
  exact sum_congr rfl fun _ _ => sum_congr rfl fun _ _ => by ring

theorem Kern.mul {F : List Name} {m m' : Dict Val → Rand (Except PyErr (Dict Val))}
    {P Q : Assign → Assign → ℝ} (h : Kern bn F π m P) (h' : Kern bn F π m' Q) :
    Kern bn F π (fun d => Rand.andThen (m d) m') (mulM (states bn) P Q) := by
  refine ⟨?_, ⟨?_, ?_⟩, ?_, ?_⟩
  · intro G g hG σ hσ d hr
    rw [Rand.expect_andThen, act_mulM]
    exact h.acts _ _ (fun d' τ hτ hr' => h'.acts G g hG τ hτ d' hr') σ hσ d hr
  · intro σ hσ τ hτ
    exact sum_nonneg fun ρ hρ => mul_nonneg (h.stoch.nonneg σ hσ ρ hρ) (h'.stoch.nonneg ρ hρ τ hτ)
  · intro σ hσ
    have := act_mulM (states bn) P Q (fun _ => 1) σ
    rw [act_congr (fun y hy => h'.stoch.act_const 1 hy), h.stoch.act_const 1 hσ] at this
    simpa only [act, mul_one] using this
  · intro σ hσ τ hτ hne v hv
    obtain ⟨ρ, hρ, h0⟩ := exists_ne_zero_of_sum_ne_zero hne
    rw [h'.keep ρ hρ τ hτ (right_ne_zero_of_mul h0) v hv,
      h.keep σ hσ ρ hρ (left_ne_zero_of_mul h0) v hv]
  · intro τ hτ
    unfold mulM
    simp only [mul_sum]
    rw [sum_comm, ← h'.inv τ hτ]
    refine sum_congr rfl fun ρ hρ => ?_
    rw [← h.inv ρ hρ, sum_mul]
    exact sum_congr rfl fun _ _ => by ring

theorem mulM_pos {F : List Name} {m m' : Dict Val → Rand (Except PyErr (Dict Val))}
    {P Q : Assign → Assign → ℝ} (h : Kern bn F π m P) (h' : Kern bn F π m' Q) {σ ρ τ : Assign}
    (hσ : σ ∈ states bn) (hρ : ρ ∈ states bn) (hτ : τ ∈ states bn) (h1 : 0 < P σ ρ)
    (h2 : 0 < Q ρ τ) : 0 < mulM (states bn) P Q σ τ := by
  refine lt_of_lt_of_le (mul_pos h1 h2) ?_
  exact single_le_sum (f := fun ρ => P σ ρ * Q ρ τ) (fun ρ hρ =>
    mul_nonneg (h.stoch.nonneg σ hσ ρ hρ) (h'.stoch.nonneg ρ hρ τ hτ)) hρ

open Classical in
theorem Kern.one (F : List Name) :
    Kern bn F π (fun d => Rand.pure (.ok d)) (fun σ τ => if σ = τ then 1 else 0) := by
  refine ⟨?_, ⟨?_, ?_⟩, ?_, ?_⟩
  · intro G g hG σ hσ d hr
    rw [Rand.expect_pure, hG d σ hσ hr]
    unfold act
    simp only [ite_mul, one_mul, zero_mul]
    rw [sum_ite_eq, if_pos hσ]
  · intro σ _ τ _
    split <;> norm_num
  · intro σ hσ
    rw [sum_ite_eq, if_pos hσ]
  · intro σ _ τ _ hne v _
    by_cases e : σ = τ
    · rw [e]
    · exact absurd (if_neg e) hne
  · intro τ hτ
    simp only [mul_ite, mul_one, mul_zero]
    rw [sum_ite_eq', if_pos hτ]

open Classical in
/-- the product of the matrices of the nodes -/
noncomputable def sweepM (S : Finset Assign) (P : NodeV → Assign → Assign → ℝ) :
    List NodeV → Assign → Assign → ℝ
  | [] => fun σ τ => if σ = τ then 1 else 0
  | n :: ns => mulM S (P n) (sweepM S P ns)

theorem Kern.sweep {F : List Name} {site : NodeV → Dict Val → Rand (Except PyErr (Dict Val))}
    {ns : List NodeV} {P : NodeV → Assign → Assign → ℝ}
    (h : ∀ n ∈ ns, Kern bn F π (site n) (P n)) :
    Kern bn F π (Mcmc.sweep site ns) (sweepM (states bn) P ns) := by
  induction ns with
  | nil => exact Kern.one F
  | cons n ns ih => exact (h n (by simp)).mul (ih fun m hm => h m (List.mem_cons_of_mem _ hm))

/-- the average of the matrices of the nodes -/
noncomputable def avgM (ns : List NodeV) (P : NodeV → Assign → Assign → ℝ) (σ τ : Assign) : ℝ :=
  (ns.map fun n => P n σ τ).sum / ns.length

theorem sum_list_comm {ι : Type} (S : Finset ι) (ns : List NodeV) (f : NodeV → ι → ℝ) :
    ∑ i ∈ S, (ns.map fun n => f n i).sum = (ns.map fun n => ∑ i ∈ S, f n i).sum := by
  induction ns with
  | nil => simp
  | cons n ns ih => simp only [List.map_cons, List.sum_cons, sum_add_distrib, ih]

theorem act_avgM (S : Finset Assign) (ns : List NodeV) (P : NodeV → Assign → Assign → ℝ)
    (g : Assign → ℝ) (σ : Assign) :
    act S (avgM ns P) g σ = (ns.map fun n => act S (P n) g σ).sum / ns.length := by
  unfold act avgM
  rw [← sum_list_comm, sum_div]
  refine sum_congr rfl fun τ _ => ?_
  rw [List.sum_map_mul_right]
  ring

theorem sum_map_const {ns : List NodeV} {f : NodeV → ℝ} {c : ℝ} (h : ∀ n ∈ ns, f n = c) :
    (ns.map f).sum = ns.length * c := by
  rw [List.map_congr_left h]
  simp

theorem Kern.single {F : List Name} {site : NodeV → Dict Val → Rand (Except PyErr (Dict Val))}
    {ns : List NodeV} (hne : ns ≠ []) {P : NodeV → Assign → Assign → ℝ}
    (h : ∀ n ∈ ns, Kern bn F π (site n) (P n)) :
    Kern bn F π (fun d => Rand.andThen (Rand.choose ns) fun n => site n d) (avgM ns P) := by
  have hk : (ns.length : ℝ) ≠ 0 := by
    exact_mod_cast (List.length_pos_iff.2 hne).ne'
  refine ⟨?_, ⟨?_, ?_⟩, ?_, ?_⟩
  · intro G g hG σ hσ d hr
    rw [Rand.expect_andThen, Rand.expect_choose hne, act_avgM]
    congr 2
    exact List.map_congr_left fun n hn => (h n hn).acts G g hG σ hσ d hr
  · intro σ hσ τ hτ
    refine div_nonneg (List.sum_nonneg ?_) (Nat.cast_nonneg _)
    intro x hx
    obtain ⟨n, hn, rfl⟩ := List.mem_map.1 hx
    exact (h n hn).stoch.nonneg σ hσ τ hτ
  · intro σ hσ
    have := act_avgM (states bn) ns P (fun _ => 1) σ
    rw [sum_map_const (fun n hn => (h n hn).stoch.act_const 1 hσ), mul_one, div_self hk] at this
    simpa only [act, mul_one] using this
  · intro σ hσ τ hτ hne v hv
    have hne' : (ns.map fun n => P n σ τ).sum ≠ 0 := fun e => hne (by rw [avgM, e, zero_div])
    have : ∃ n ∈ ns, P n σ τ ≠ 0 := by
      by_contra hcon
      push Not at hcon
      exact hne' (by rw [sum_map_const hcon, mul_zero])
    obtain ⟨n, hn, h0⟩ := this
    exact (h n hn).keep σ hσ τ hτ h0 v hv
  · intro τ hτ
    unfold avgM
    have : ∀ σ, π σ * ((ns.map fun n => P n σ τ).sum / ns.length) =
        (ns.map fun n => π σ * P n σ τ).sum / ns.length := fun σ => by
      rw [List.sum_map_mul_left, mul_div_assoc]
    simp only [this]
    rw [← sum_div, sum_list_comm, sum_map_const fun n hn => (h n hn).inv τ hτ]
    field_simp

open Classical in
/-- the indicator of one state -/
noncomputable def point (τ σ : Assign) : ℝ := if σ = τ then 1 else 0

theorem point_nonneg (τ σ : Assign) : 0 ≤ point τ σ := by
  unfold point
  split <;> norm_num

theorem point_self (τ : Assign) : point τ τ = 1 := if_pos rfl

/-- the matrix of a step -/
noncomputable def stepM (bn : BN) (P : NodeV → Assign → Assign → ℝ) (ns : List NodeV)
    (full : Bool) : Assign → Assign → ℝ :=
  if full then sweepM (states bn) P ns else avgM ns P

section
variable {F : List Name} {site : NodeV → Dict Val → Rand (Except PyErr (Dict Val))}
  {ns : List NodeV} {P : NodeV → Assign → Assign → ℝ} {full : Bool}

theorem Kern.step (h : ∀ n ∈ ns, Kern bn F π (site n) (P n)) (hfull : full = false → ns ≠ []) :
    Kern bn F π (Mcmc.siteStep site ns full) (stepM bn P ns full) := by
  cases full with
  | true => exact Kern.sweep h
  | false => exact Kern.single (hfull rfl) h

/-- a set that is closed under the changes of all nodes is closed under the steps -/
theorem stepM_closed {C : Finset Assign}
    (hcl : ∀ n ∈ ns, ∀ σ ∈ C, ∀ τ ∈ states bn, τ ∉ C → P n σ τ = 0) :
    ∀ σ ∈ C, ∀ τ ∈ states bn, τ ∉ C → stepM bn P ns full σ τ = 0 := by
  cases full with
  | true =>
    show ∀ σ ∈ C, ∀ τ ∈ states bn, τ ∉ C → sweepM (states bn) P ns σ τ = 0
    induction ns with
    | nil =>
      intro σ hσ τ _ hτ
      exact if_neg (by rintro rfl; exact hτ hσ)
    | cons n ns ih =>
      intro σ hσ τ hτ hτC
      refine sum_eq_zero fun ρ hρ => ?_
      by_cases h : ρ ∈ C
      · rw [ih (fun m hm => hcl m (List.mem_cons_of_mem _ hm)) ρ h τ hτ hτC, mul_zero]
      · rw [hcl n (by simp) σ hσ ρ hρ h, zero_mul]
  | false =>
    intro σ hσ τ hτ hτC
    show avgM ns P σ τ = 0
    rw [avgM, sum_map_const (fun n hn => hcl n hn σ hσ τ hτ hτC), mul_zero, zero_div]

/-- a step stays with positive probability if the changes of all nodes do -/
theorem stepM_stay (h : ∀ n ∈ ns, Kern bn F π (site n) (P n)) (hfull : full = false → ns ≠ [])
    {σ : Assign} (hσ : σ ∈ states bn) (hstay : ∀ n ∈ ns, 0 < P n σ σ) :
    0 < stepM bn P ns full σ σ := by
  cases full with
  | true =>
    show 0 < sweepM (states bn) P ns σ σ
    clear hfull
    induction ns with
    | nil => simp [sweepM]
    | cons n ns ih =>
      exact mulM_pos (h n (by simp)) (Kern.sweep fun m hm => h m (List.mem_cons_of_mem _ hm)) hσ hσ
        hσ (hstay n (by simp)) (ih (fun m hm => h m (List.mem_cons_of_mem _ hm))
          fun m hm => hstay m (List.mem_cons_of_mem _ hm))
  | false =>
    have hne := hfull rfl
    refine div_pos (List.sum_pos _ ?_ (by simpa using hne)) (by
      exact_mod_cast List.length_pos_iff.2 hne)
    intro x hx
    obtain ⟨n, hn, rfl⟩ := List.mem_map.1 hx
    exact hstay n hn

/-- a step can change a single node -/
theorem stepM_move (h : ∀ n ∈ ns, Kern bn F π (site n) (P n))
    {σ τ : Assign} (hσ : σ ∈ states bn) (hτ : τ ∈ states bn) (hs : ∀ n ∈ ns, 0 < P n σ σ)
    (hs' : ∀ n ∈ ns, 0 < P n τ τ) {n : NodeV} (hn : n ∈ ns) (hmove : 0 < P n σ τ) :
    0 < stepM bn P ns full σ τ := by
  cases full with
  | true =>
    show 0 < sweepM (states bn) P ns σ τ
    induction ns with
    | nil => cases hn
    | cons m ns ih =>
      have hk := Kern.sweep fun m hm => h m (List.mem_cons_of_mem _ hm)
      have hrest := fun k hk => hs k (List.mem_cons_of_mem m hk)
      have hrest' := fun k hk => hs' k (List.mem_cons_of_mem m hk)
      rcases List.mem_cons.1 hn with rfl | hn
      · exact mulM_pos (h n (by simp)) hk hσ hτ hτ hmove (stepM_stay (full := true)
          (fun m hm => h m (List.mem_cons_of_mem _ hm)) (by simp) hτ hrest')
      · exact mulM_pos (h m (by simp)) hk hσ hσ hτ (hs m (by simp))
          (ih (fun m hm => h m (List.mem_cons_of_mem _ hm)) hrest hrest' hn)
  | false =>
    refine div_pos (lt_of_lt_of_le hmove (List.single_le_sum ?_ _
      (List.mem_map_of_mem (f := fun n => P n σ τ) hn))) (by
        exact_mod_cast List.length_pos_of_mem hn)
    intro x hx
    obtain ⟨m, hm, rfl⟩ := List.mem_map.1 hx
    exact (h m hm).stoch.nonneg σ hσ τ hτ

end

end Primo
