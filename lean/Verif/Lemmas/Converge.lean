import Verif.Lemmas.Ergodic
import Verif.Lemmas.Forward
import Verif.Spec.Converge

/-! # Convergence of the samplers -/

namespace Primo
open Finset Markov

variable {bn : BN} {π : Assign → ℝ}

/-! ## restriction to a closed set of states -/

section Restrict
variable {α : Type} {S C : Finset α} {P : α → α → ℝ}

theorem act_restrict (hC : C ⊆ S) (h : ∀ x ∈ C, ∀ y ∈ S, y ∉ C → P x y = 0) (g : α → ℝ) {x : α}
    (hx : x ∈ C) : act S P g x = act C P g x := by
  unfold act
  refine (sum_subset hC fun y hy hyC => ?_).symm
  rw [h x hx y hy hyC, zero_mul]

theorem iter_restrict (hC : C ⊆ S) (h : ∀ x ∈ C, ∀ y ∈ S, y ∉ C → P x y = 0) (g : α → ℝ) (k : Nat) :
    ∀ x ∈ C, (act S P)^[k] g x = (act C P)^[k] g x := by
  induction k with
  | zero => intro x _; rfl
  | succ k ih =>
    intro x hx
    rw [Function.iterate_succ_apply', Function.iterate_succ_apply', act_restrict hC h _ hx]
    exact act_congr ih x

theorem path_restrict (hC : C ⊆ S) (h : ∀ x ∈ C, ∀ y ∈ S, y ∉ C → P x y = 0) (k : Nat) :
    ∀ (H : List α → ℝ), ∀ x ∈ C, path S P k H x = path C P k H x := by
  induction k with
  | zero => intro _ x _; rfl
  | succ k ih =>
    intro H x hx
    simp only [path]
    rw [act_restrict hC h _ hx]
    exact act_congr (fun y hy => ih _ y hy) x

theorem stoch_restrict (hC : C ⊆ S) (h : ∀ x ∈ C, ∀ y ∈ S, y ∉ C → P x y = 0) (hP : Stoch S P) :
    Stoch C P := by
  refine ⟨fun x hx y hy => hP.nonneg x (hC hx) y (hC hy), fun x hx => ?_⟩
  rw [← hP.sum x (hC hx)]
  exact sum_subset hC fun y hy hyC => h x hx y hy hyC

/-- positive probabilities have a positive minimum -/
theorem mixing_of_pos [DecidableEq α] (hP : Stoch C P) {m : Nat} {y : α} (hy : y ∈ C)
    (h : ∀ x ∈ C, 0 < (act C P)^[m] (fun z => if z = y then 1 else 0) x) :
    ∃ δ, 0 < δ ∧ δ ≤ 1 ∧ Mixing C P m δ := by
  obtain ⟨p, hp, hmin⟩ := exists_min_image C
    (fun p => (act C P)^[m] (fun z => if z = y then 1 else 0) p) ⟨y, hy⟩
  set δ := (act C P)^[m] (fun z => if z = y then 1 else 0) p with hδ
  refine ⟨δ, h _ hp, ?_, fun g => g y, fun _ _ _ => rfl, fun g hg x hx => ?_⟩
  · have := hP.iter_mono (f := fun z => if z = y then 1 else 0) (g := fun _ => 1)
      (fun z _ => by split <;> norm_num) m p hp
    rwa [hP.iter_const 1 m _ hp] at this
  · have h1 : δ ≤ (act C P)^[m] (fun z => if z = y then 1 else 0) x := hmin x hx
    have h2 := hP.iter_mono (f := fun z => g y * (if z = y then 1 else 0) + 0) (g := g)
      (fun z hz => by
        split
        · next e => rw [e]; simp
        · simpa using hg z hz) m x hx
    rw [hP.iter_affine _ _ _ m x hx, add_zero] at h2
    calc δ * g y = g y * δ := mul_comm _ _
      _ ≤ _ := mul_le_mul_of_nonneg_left h1 (hg y hy)
      _ ≤ _ := h2

/-- if a state where the chain may stay is reached from everywhere then the chain is mixing -/
theorem mixing_of_reach (hP : Stoch C P) {y : α} (hy : y ∈ C) (hyy : 0 < P y y)
    (h : ∀ x ∈ C, Relation.ReflTransGen (fun a b => b ∈ C ∧ 0 < P a b) x y) :
    ∃ m > 0, ∃ δ, 0 < δ ∧ δ ≤ 1 ∧ Mixing C P m δ := by
  classical
  set g : α → ℝ := fun z => if z = y then 1 else 0 with hg
  have hg0 : ∀ k, ∀ x ∈ C, 0 ≤ (act C P)^[k] g x := fun k x hx => by
    have := hP.iter_mono (f := fun _ => 0) (g := g)
      (fun z _ => by simp only [hg]; split <;> norm_num) k x hx
    rwa [hP.iter_const 0 k x hx] at this
  have hstep : ∀ k, ∀ a ∈ C, ∀ b ∈ C, 0 < P a b → 0 < (act C P)^[k] g b →
      0 < (act C P)^[k + 1] g a := by
    intro k a ha b hb hab hk
    rw [Function.iterate_succ_apply']
    exact lt_of_lt_of_le (mul_pos hab hk) (single_le_sum (f := fun b => P a b * (act C P)^[k] g b)
      (fun b hb => mul_nonneg (hP.nonneg a ha b hb) (hg0 k b hb)) hb)
  have hself : ∀ k, 0 < (act C P)^[k] g y := by
    intro k
    induction k with
    | zero => simp [hg]
    | succ k ih => exact hstep k y hy y hy hyy ih
  have hreach : ∀ x ∈ C, ∃ k₀, ∀ k ≥ k₀, 0 < (act C P)^[k] g x := by
    intro x hx
    have := h x hx
    revert hx
    induction this using Relation.ReflTransGen.head_induction_on with
    | refl => exact fun _ => ⟨0, fun k _ => hself k⟩
    | head hab _ ih =>
      intro ha
      obtain ⟨k₀, hk⟩ := ih hab.1
      refine ⟨k₀ + 1, fun k hk' => ?_⟩
      obtain ⟨j, rfl⟩ : ∃ j, k = j + 1 := ⟨k - 1, by omega⟩
      exact hstep j _ ha _ hab.1 hab.2 (hk j (by omega))
  choose! k₀ hk₀ using hreach
  refine ⟨C.sup k₀ + 1, Nat.succ_pos _, ?_⟩
  exact mixing_of_pos hP hy fun x hx => hk₀ x hx _ ((le_sup hx).trans (Nat.le_succ _))

end Restrict

/-! ## the states that agree with the evidence -/

open Classical in
/-- the states that agree with the evidence -/
noncomputable def evStates (bn : BN) (ev : Dict Val) : Finset Assign :=
  (states bn).filter (Agrees bn ev)

theorem mem_evStates {ev : Dict Val} {σ : Assign} :
    σ ∈ evStates bn ev ↔ σ ∈ states bn ∧ Agrees bn ev σ := by
  classical
  exact mem_filter

theorem evStates_subset (ev : Dict Val) : evStates bn ev ⊆ states bn := fun _ h =>
  (mem_evStates.1 h).1

theorem evStates_update {ev : Dict Val} {σ : Assign} (h : σ ∈ evStates bn ev) {v : Name}
    (hv : v ∈ bn.names) (hev : v ∉ ev.keys) {b : Nat} (hb : b < bn.card v) :
    Function.update σ v b ∈ evStates bn ev := by
  obtain ⟨h1, h2⟩ := mem_evStates.1 h
  refine mem_evStates.2 ⟨update_mem_states h1 hv hb, fun w x hx => ?_⟩
  rw [Function.update_of_ne]
  · exact h2 w x hx
  · rintro rfl
    exact hev (Dict.mem_keys_of_get? hx)

/-- the names of the variables the chain may change -/
abbrev freeNames (bn : BN) (ev : Dict Val) : List Name :=
  (bn.filter fun n => n.name ∉ ev.keys).map (·.name)

theorem mem_freeNames {ev : Dict Val} {v : Name} :
    v ∈ freeNames bn ev ↔ v ∈ bn.names ∧ v ∉ ev.keys := by
  unfold freeNames BN.names
  simp only [List.mem_map, List.mem_filter, decide_eq_true_eq]
  constructor
  · rintro ⟨n, ⟨h1, h2⟩, rfl⟩
    exact ⟨⟨n, h1, rfl⟩, h2⟩
  · rintro ⟨⟨n, h1, rfl⟩, h2⟩
    exact ⟨n, ⟨h1, h2⟩, rfl⟩

theorem evStates_agree (hd : bn.Discrete) {ev : Dict Val} {σ τ : Assign}
    (hσ : σ ∈ evStates bn ev) (hτ : τ ∈ evStates bn ev) {v : Name} (hv : v ∉ freeNames bn ev) :
    τ v = σ v := by
  obtain ⟨h1, h2⟩ := mem_evStates.1 hσ
  obtain ⟨h3, h4⟩ := mem_evStates.1 hτ
  by_cases hn : v ∈ bn.names
  · have hk : v ∈ ev.keys := by
      by_contra hk
      exact hv (mem_freeNames.2 ⟨hn, hk⟩)
    obtain ⟨x, hx⟩ := Dict.get?_isSome.2 hk
    exact (List.getElem?_inj ((mem_states.1 h3).1 v hn) (hd.lab_nodup v)).1
      ((h4 v x hx).trans (h2 v x hx).symm)
  · rw [(mem_states.1 h1).2 v hn, (mem_states.1 h3).2 v hn]

theorem evStates_closed {ev : Dict Val} {m : Dict Val → Rand (Except PyErr (Dict Val))}
    {P : Assign → Assign → ℝ} (h : Kern bn (freeNames bn ev) π m P) {σ : Assign}
    (hσ : σ ∈ evStates bn ev) {τ : Assign} (hτ : τ ∈ states bn) (hτ' : τ ∉ evStates bn ev) :
    P σ τ = 0 := by
  by_contra hne
  obtain ⟨h1, h2⟩ := mem_evStates.1 hσ
  refine hτ' (mem_evStates.2 ⟨hτ, fun v x hx => ?_⟩)
  rw [h.keep σ h1 τ hτ hne v fun hv => (mem_freeNames.1 hv).2 (Dict.mem_keys_of_get? hx)]
  exact h2 v x hx

theorem evStates_nonempty (hc : bn.Consistent) {ev : Dict Val} (he : LegalHard bn ev)
    (hv : ∀ n ∈ bn, n.values ≠ []) : (evStates bn ev).Nonempty := by
  let σ : Assign := fun v => if v ∈ bn.names then match ev.get? v with
    | some x => (bn.lab v).idxOf x
    | none => 0 else 0
  have key : ∀ v x, ev.get? v = some x → v ∈ bn.names ∧ x ∈ bn.lab v := fun v x hx =>
    ⟨he.mem (v, x) (Dict.get?_mem hx), he.label (v, x) (Dict.get?_mem hx)⟩
  refine ⟨σ, mem_evStates.2 ⟨mem_states.2 ⟨fun v hvn => ?_, fun v hvn => if_neg hvn⟩,
    fun v x hx => ?_⟩⟩
  · simp only [σ, if_pos hvn]
    split
    · next x hx => exact List.idxOf_lt_length_of_mem (key v x hx).2
    · obtain ⟨n, hn, rfl⟩ := BN.exists_of_mem_names hvn
      rw [card_eq hc hn]
      exact List.length_pos_iff.2 (hv n hn)
  · simp only [σ, if_pos (key v x hx).1, hx]
    exact List.getElem?_idxOf (key v x hx).2

/-- the state that a legal dictionary describes -/
theorem GoodState.state (hc : bn.Consistent) {ev d : Dict Val} (he : LegalHard bn ev)
    (h : GoodState bn ev d) : ∃ σ ∈ evStates bn ev, Reads bn d σ := by
  obtain ⟨σ, h1, h2⟩ := exists_reads hc h.1
  refine ⟨canon bn σ, mem_evStates.2 ⟨canon_mem h1, fun v x hx => ?_⟩, reads_canon.2 h2⟩
  have hvn : v ∈ bn.names := he.mem (v, x) (Dict.get?_mem hx)
  rw [canon, if_pos hvn, ← h2 v hvn, h.2 v x hx]

/-! ## one step of the samplers -/

/-- the data of a step that does not leave the set `C` and mixes there -/
structure Ergodic (bn : BN) (F : List Name) (C : Finset Assign) (π : Assign → ℝ)
    (stp : Dict Val → Rand (Except PyErr (Dict Val))) (P : Assign → Assign → ℝ) (m : Nat) (δ : ℝ) :
    Prop where
  kern : Kern bn F π stp P
  sub : C ⊆ states bn
  ne : C.Nonempty
  closed : ∀ σ ∈ C, ∀ τ ∈ states bn, τ ∉ C → P σ τ = 0
  off : ∀ τ ∈ states bn, τ ∉ C → π τ = 0
  m_pos : 0 < m
  pos : 0 < δ
  le : δ ≤ 1
  mixing : Mixing C P m δ

section
variable {F : List Name} {C : Finset Assign} {stp : Dict Val → Rand (Except PyErr (Dict Val))}
  {P : Assign → Assign → ℝ} {m : Nat} {δ : ℝ}

theorem Ergodic.stoch (h : Ergodic bn F C π stp P m δ) : Stoch C P :=
  stoch_restrict h.sub h.closed h.kern.stoch

theorem Ergodic.sum (h : Ergodic bn F C π stp P m δ) (g : Assign → ℝ) :
    ∑ σ ∈ C, π σ * g σ = ∑ σ ∈ states bn, π σ * g σ :=
  sum_subset h.sub fun σ hσ hC => by rw [h.off σ hσ hC, zero_mul]

theorem Ergodic.inv (h : Ergodic bn F C π stp P m δ) (h0 : ∀ σ ∈ states bn, 0 ≤ π σ)
    (h1 : ∑ σ ∈ states bn, π σ = 1) : Inv C P π := by
  refine ⟨fun σ hσ => h0 σ (h.sub hσ), ?_, fun τ hτ => ?_⟩
  · have := h.sum fun _ => 1
    simp only [mul_one] at this
    rw [this, h1]
  · rw [h.sum, h.kern.inv τ (h.sub hτ)]

end

/-- steps that reach a state `y` from everywhere in the closed set `C` -/
theorem siteStep_ergodic {F : List Name} {C : Finset Assign} {ns : List NodeV}
    {site : NodeV → Dict Val → Rand (Except PyErr (Dict Val))} {P : NodeV → Assign → Assign → ℝ}
    (hk : ∀ n ∈ ns, Kern bn F π (site n) (P n)) (hsub : C ⊆ states bn)
    (hcl : ∀ n ∈ ns, ∀ σ ∈ C, ∀ τ ∈ states bn, τ ∉ C → P n σ τ = 0)
    (hoff : ∀ τ ∈ states bn, τ ∉ C → π τ = 0) (hstay : ∀ n ∈ ns, ∀ σ ∈ C, 0 < P n σ σ)
    {y : Assign} (hy : y ∈ C)
    (hreach : ∀ x ∈ C, Relation.ReflTransGen (fun a b => b ∈ C ∧ ∃ n ∈ ns, 0 < P n a b) x y)
    {full : Bool} (hfull : full = false → ns ≠ []) :
    ∃ m δ, Ergodic bn F C π (Mcmc.siteStep site ns full) (stepM bn P ns full) m δ := by
  have hkern := Kern.step hk hfull
  have hclosed := stepM_closed (full := full) hcl
  have hst := stoch_restrict hsub hclosed hkern.stoch
  obtain ⟨m, hm, δ, h1, h2, h3⟩ := mixing_of_reach hst hy
    (stepM_stay hk hfull (hsub hy) fun n hn => hstay n hn y hy) fun x hx => by
      have := hreach x hx
      revert hx
      induction this using Relation.ReflTransGen.head_induction_on with
      | refl => exact fun _ => .refl
      | head hab _ ih =>
        intro ha
        obtain ⟨hb, n, hn, hP⟩ := hab
        exact .head ⟨hb, stepM_move hk (hsub ha) (hsub hb) (fun n hn => hstay n hn _ ha)
          (fun n hn => hstay n hn _ hb) hn hP⟩ (ih hb)
  exact ⟨m, δ, hkern, hsub, ⟨y, hy⟩, hclosed, hoff, hm, h1, h2, h3⟩

/-! ### the possible states -/

open Classical in
/-- the states to which `π` gives positive probability -/
noncomputable def support (bn : BN) (π : Assign → ℝ) : Finset Assign :=
  (states bn).filter fun σ => 0 < π σ

theorem mem_support {σ : Assign} : σ ∈ support bn π ↔ σ ∈ states bn ∧ 0 < π σ := by
  classical
  exact mem_filter

theorem support_subset : support bn π ⊆ states bn := fun _ h => (mem_support.1 h).1

/-- a chain that preserves `π` does not leave its support -/
theorem support_closed {F : List Name} {m : Dict Val → Rand (Except PyErr (Dict Val))}
    {P : Assign → Assign → ℝ} (h : Kern bn F π m P) (h0 : ∀ σ ∈ states bn, 0 ≤ π σ) :
    ∀ σ ∈ support bn π, ∀ τ ∈ states bn, τ ∉ support bn π → P σ τ = 0 := by
  intro σ hσ τ hτ hτ'
  obtain ⟨h1, h2⟩ := mem_support.1 hσ
  have hπ : π τ = 0 := le_antisymm (not_lt.1 fun h => hτ' (mem_support.2 ⟨hτ, h⟩)) (h0 τ hτ)
  have hs := h.inv τ hτ
  rw [hπ, sum_eq_zero_iff_of_nonneg fun ρ hρ => mul_nonneg (h0 ρ hρ) (h.stoch.nonneg ρ hρ τ hτ)]
    at hs
  exact (mul_eq_zero.1 (hs σ h1)).resolve_left h2.ne'

/-! ## many steps -/

variable {F : List Name} {stp : Dict Val → Rand (Except PyErr (Dict Val))}
  {P : Assign → Assign → ℝ}

theorem Kern.burn (h : Kern bn F π stp P) (k : Nat) {G : Except PyErr (Dict Val) → ℝ}
    {g : Assign → ℝ} (hG : CompatS bn G g) {σ : Assign} (hσ : σ ∈ states bn) {d : Dict Val}
    (hr : Reads bn d σ) :
    (Mcmc.burn stp k d).expect G = (act (states bn) P)^[k] g σ := by
  induction k generalizing σ d with
  | zero => exact hG d σ hσ hr
  | succ k ih =>
    rw [Mcmc.burn, Rand.expect_andThen, Function.iterate_succ_apply']
    exact h.acts _ _ (fun d' τ hτ hr' => ih hτ hr') σ hσ d hr

/-- `G` judges a list of `k` state dictionaries as `H` judges the states they describe. -/
def CompatL (bn : BN) (k : Nat) (G : Except PyErr (List (Dict Val)) → ℝ) (H : List Assign → ℝ) :
    Prop :=
  ∀ ds τs, τs.length = k → List.Forall₂ (fun d τ => τ ∈ states bn ∧ Reads bn d τ) ds τs →
    G (.ok ds) = H τs

theorem Kern.collect (h : Kern bn F π stp P) (k : Nat) {G : Except PyErr (List (Dict Val)) → ℝ}
    {H : List Assign → ℝ} (hG : CompatL bn k G H) {σ : Assign} (hσ : σ ∈ states bn) {d : Dict Val}
    (hr : Reads bn d σ) :
    (Mcmc.collect stp k d).expect G = path (states bn) P k H σ := by
  induction k generalizing σ d G H with
  | zero => exact hG [] [] rfl .nil
  | succ k ih =>
    rw [Mcmc.collect, Rand.expect_andThen]
    refine h.acts _ _ (fun d' τ hτ hr' => ?_) σ hσ d hr
    show (Rand.andThen (Mcmc.collect stp k d') _).expect G = _
    rw [Rand.expect_andThen]
    refine ih (fun ds τs hl hf => ?_) hτ hr'
    exact hG (d' :: ds) (τ :: τs) (by simp [hl]) (.cons ⟨hτ, hr'⟩ hf)

/-! ## forward sampling -/

/-- a bound for all legal states is a bound for the expectation after forward sampling -/
theorem le_expect_sampleAlong (hc : bn.Consistent) (hd : bn.Discrete) (hnn : bn.NonNeg)
    (hs : bn.Stochastic) (ev : Dict Val) {G : Except PyErr (Dict Val) → ℝ} {c : ℝ}
    (hG : ∀ d, GoodState bn ev d → c ≤ G (.ok d)) :
    ∀ (rest pre : List Name) (d : Dict Val), bn.TopoOrder (pre ++ rest) →
      Settled bn (fun v => v ∈ pre ∨ v ∈ ev.keys) d →
      (∀ v x, ev.get? v = some x → d.get? v = some x) →
      c ≤ (BN.sampleAlong bn ev rest none d).expect G := by
  intro rest
  induction rest with
  | nil =>
    intro pre d hto hset hev
    refine hG d ⟨fun n hn => ?_, hev⟩
    have hvn : n.name ∈ bn.names := List.mem_map_of_mem hn
    have := hset n.name hvn (Or.inl (by simpa using hto.perm.symm.subset hvn))
    rwa [BN.lab_eq hc.nodup hn] at this
  | cons v rest ih =>
    intro pre d hto hset hev
    have hto' : bn.TopoOrder ((pre ++ [v]) ++ rest) := by simpa using hto
    have hvn : v ∈ bn.names := hto.perm.subset (by simp)
    by_cases hvev : v ∈ ev.keys
    · rw [BN.sampleAlong, if_pos hvev]
      refine ih (pre ++ [v]) d hto' (fun w hw hS => hset w hw ?_) hev
      replace hS : w ∈ pre ++ [v] ∨ w ∈ ev.keys := hS
      rw [List.mem_append, List.mem_singleton] at hS
      rcases hS with (h | rfl) | h
      · exact Or.inl h
      · exact Or.inr hvev
      · exact Or.inr h
    · obtain ⟨n, hn, rfl⟩ := BN.exists_of_mem_names hvn
      obtain ⟨ρ, hρ, hr⟩ := hset.reads (l := n.parentOrder) fun p hp =>
        ⟨hc.parents_mem n hn p hp, Or.inl (hto.parents pre n.name rest rfl p ⟨n, hn, rfl, hp⟩)⟩
      rw [BN.sampleAlong, if_neg hvev, BN.getNode_ok hc.nodup hn, Rand.andThen_ok,
        Rand.expect_andThen, expect_resample_forward hc hd hnn hs hn hρ hr]
      have hsum : (n.values.map fun o => ((rowEntry n ρ (n.values.idxOf o) : ℚ) : ℝ) * c).sum = c := by
        rw [List.sum_map_mul_right]
        have : (n.values.map fun o => ((rowEntry n ρ (n.values.idxOf o) : ℚ) : ℝ)).sum =
            (((n.values.map fun o => rowEntry n ρ (n.values.idxOf o)).sum : ℚ) : ℝ) := by
          rw [Rat.cast_list_sum, List.map_map]; rfl
        rw [this, rowEntry_sum hd hs hn hρ, Rat.cast_one, one_mul]
      rw [← hsum]
      refine List.sum_le_sum fun o ho => mul_le_mul_of_nonneg_left ?_ ?_
      · refine ih (pre ++ [n.name]) _ hto' (fun w hw hS => (hset.set hc hn ho) w hw ?_)
          fun w y hy => ?_
        · replace hS : w ∈ pre ++ [n.name] ∨ w ∈ ev.keys := hS
          rw [List.mem_append, List.mem_singleton] at hS
          show (w ∈ pre ∨ w ∈ ev.keys) ∨ w = n.name
          tauto
        · rw [Dict.get?_set, if_neg (by rintro rfl; exact hvev (Dict.mem_keys_of_get? hy))]
          exact hev w y hy
      · exact_mod_cast NDArray.get_nonneg (hnn n hn) _

theorem le_expect_getSample (hc : bn.Consistent) (hl : bn.Linked) (ha : bn.Acyclic)
    (hd : bn.Discrete) (hnn : bn.NonNeg) (hs : bn.Stochastic) {ev : Dict Val}
    (he : LegalHard bn ev) {G : Except PyErr (Dict Val) → ℝ} {c : ℝ}
    (hG : ∀ d, GoodState bn ev d → c ≤ G (.ok d)) : c ≤ (bn.getSample ev).expect G := by
  obtain ⟨h1, h2⟩ := topologicalSort_spec hc hl ha
  unfold BN.getSample
  rw [h1]
  exact le_expect_sampleAlong hc hd hnn hs ev hG _ [] ev (by simpa using h2) he.settled
    fun _ _ h => h

theorem list_sum_comm (l : List Val) (w : Val → ℝ) (p : Val → Assign → ℝ) (g : Assign → ℝ) :
    (l.map fun o => w o * ∑ τ ∈ states bn, p o τ * g τ).sum =
      ∑ τ ∈ states bn, (l.map fun o => w o * p o τ).sum * g τ := by
  induction l with
  | nil => simp
  | cons o os ih =>
    rw [List.map_cons, List.sum_cons, ih, mul_sum, ← sum_add_distrib]
    refine sum_congr rfl fun τ _ => ?_
    rw [List.map_cons, List.sum_cons]
    ring

/-- the expectation after forward sampling is the mean over the states it returns -/
theorem expect_sampleAlong (hc : bn.Consistent) (hd : bn.Discrete) (hnn : bn.NonNeg)
    (hs : bn.Stochastic) (ev : Dict Val) {G : Except PyErr (Dict Val) → ℝ} {g : Assign → ℝ}
    (hG : CompatS bn G g) :
    ∀ (rest pre : List Name) (d : Dict Val), bn.TopoOrder (pre ++ rest) →
      Settled bn (fun v => v ∈ pre ∨ v ∈ ev.keys) d →
      (BN.sampleAlong bn ev rest none d).expect G = ∑ τ ∈ states bn,
        (BN.sampleAlong bn ev rest none d).prob (Returns bn τ) * g τ := by
  classical
  intro rest
  induction rest with
  | nil =>
    intro pre d hto hset
    have hgood : ∀ n ∈ bn, ∃ x ∈ n.values, d.get? n.name = some x := fun n hn => by
      have hvn : n.name ∈ bn.names := List.mem_map_of_mem hn
      have := hset n.name hvn (Or.inl (by simpa using hto.perm.symm.subset hvn))
      rwa [BN.lab_eq hc.nodup hn] at this
    obtain ⟨σ, h1, h2⟩ := exists_reads hc hgood
    have hmem := canon_mem h1
    have hr := reads_canon.2 h2
    show G (.ok d) = ∑ τ ∈ states bn, (if Returns bn τ (.ok d) then 1 else 0) * g τ
    rw [hG d _ hmem hr, sum_eq_single_of_mem _ hmem, if_pos ⟨d, rfl, hr⟩, one_mul]
    intro τ hτ hne
    rw [if_neg, zero_mul]
    rintro ⟨d', e, h⟩
    cases e
    refine hne (funext fun v => ?_)
    by_cases hv : v ∈ bn.names
    · exact ((Reads.agree hd (mem_states.1 hτ).1 h).1 hr v hv)
    · rw [(mem_states.1 hτ).2 v hv, (mem_states.1 hmem).2 v hv]
  | cons v rest ih =>
    intro pre d hto hset
    have hto' : bn.TopoOrder ((pre ++ [v]) ++ rest) := by simpa using hto
    have hvn : v ∈ bn.names := hto.perm.subset (by simp)
    by_cases hvev : v ∈ ev.keys
    · rw [BN.sampleAlong, if_pos hvev]
      refine ih (pre ++ [v]) d hto' (fun w hw hS => hset w hw ?_)
      replace hS : w ∈ pre ++ [v] ∨ w ∈ ev.keys := hS
      rw [List.mem_append, List.mem_singleton] at hS
      rcases hS with (h | rfl) | h
      · exact Or.inl h
      · exact Or.inr hvev
      · exact Or.inr h
    · obtain ⟨n, hn, rfl⟩ := BN.exists_of_mem_names hvn
      obtain ⟨ρ, hρ, hr⟩ := hset.reads (l := n.parentOrder) fun p hp =>
        ⟨hc.parents_mem n hn p hp, Or.inl (hto.parents pre n.name rest rfl p ⟨n, hn, rfl, hp⟩)⟩
      have hrun : ∀ G, (BN.sampleAlong bn ev (n.name :: rest) none d).expect G =
          (n.values.map fun o => ((rowEntry n ρ (n.values.idxOf o) : ℚ) : ℝ) *
            (BN.sampleAlong bn ev rest none (d.set n.name o)).expect G).sum := by
        intro G
        rw [BN.sampleAlong, if_neg hvev, BN.getNode_ok hc.nodup hn, Rand.andThen_ok,
          Rand.expect_andThen, expect_resample_forward hc hd hnn hs hn hρ hr]
        rfl
      unfold Rand.prob at ih ⊢
      simp only [hrun]
      have hterm : ∀ o ∈ n.values, (BN.sampleAlong bn ev rest none (d.set n.name o)).expect G =
          ∑ τ ∈ states bn, (BN.sampleAlong bn ev rest none (d.set n.name o)).expect
            (fun a => if Returns bn τ a then 1 else 0) * g τ := by
        intro o ho
        refine ih (pre ++ [n.name]) _ hto' fun w hw hS => (hset.set hc hn ho) w hw ?_
        replace hS : w ∈ pre ++ [n.name] ∨ w ∈ ev.keys := hS
        rw [List.mem_append, List.mem_singleton] at hS
        show (w ∈ pre ∨ w ∈ ev.keys) ∨ w = n.name
        tauto
      rw [List.map_congr_left fun o ho => by rw [hterm o ho]]
      exact list_sum_comm _ _ _ _

theorem expect_getSample (hc : bn.Consistent) (hl : bn.Linked) (ha : bn.Acyclic)
    (hd : bn.Discrete) (hnn : bn.NonNeg) (hs : bn.Stochastic) {ev : Dict Val}
    (he : LegalHard bn ev) {G : Except PyErr (Dict Val) → ℝ} {g : Assign → ℝ}
    (hG : CompatS bn G g) :
    (bn.getSample ev).expect G =
      ∑ τ ∈ states bn, (bn.getSample ev).prob (Returns bn τ) * g τ := by
  obtain ⟨h1, h2⟩ := topologicalSort_spec hc hl ha
  unfold BN.getSample
  rw [h1]
  exact expect_sampleAlong hc hd hnn hs ev hG _ [] ev (by simpa using h2) he.settled

theorem sum_prob_getSample (hc : bn.Consistent) (hl : bn.Linked) (ha : bn.Acyclic)
    (hd : bn.Discrete) (hnn : bn.NonNeg) (hs : bn.Stochastic) {ev : Dict Val}
    (he : LegalHard bn ev) :
    ∑ τ ∈ states bn, (bn.getSample ev).prob (Returns bn τ) = 1 := by
  have h1 := le_expect_getSample hc hl ha hd hnn hs he (G := fun _ => 1) (c := 1)
    fun _ _ => le_rfl
  have h2 := le_expect_getSample hc hl ha hd hnn hs he (G := fun _ => -1) (c := -1)
    fun _ _ => le_rfl
  rw [expect_getSample hc hl ha hd hnn hs he (g := fun _ => 1) fun _ _ _ _ => rfl] at h1
  rw [expect_getSample hc hl ha hd hnn hs he (g := fun _ => -1) fun _ _ _ _ => rfl] at h2
  simp only [mul_one, mul_neg, sum_neg_distrib] at h1 h2
  linarith

/-! ## chains that do not move -/

/-- one step of a sampler whose sites preserve `π` -/
theorem siteStep_kern {ev : Dict Val} {site : NodeV → Dict Val → Rand (Except PyErr (Dict Val))}
    (hsite : ∀ n ∈ bn.filter (fun n => n.name ∉ ev.keys), SiteKernel bn π n.name (site n))
    {full : Bool} (hfull : full = false → bn.filter (fun n => n.name ∉ ev.keys) ≠ []) :
    ∃ P, Kern bn (freeNames bn ev) π
      (Mcmc.siteStep site (bn.filter fun n => n.name ∉ ev.keys) full) P := by
  have hk : ∀ n ∈ bn.filter (fun n => n.name ∉ ev.keys),
      ∃ P, Kern bn (freeNames bn ev) π (site n) P := by
    intro n hn
    obtain ⟨K, h⟩ := hsite n hn
    exact ⟨_, h.kern (List.mem_map_of_mem (List.mem_filter.1 hn).1) (F := freeNames bn ev)
      (List.mem_map_of_mem hn)⟩
  choose! P h using hk
  exact ⟨_, Kern.step h hfull⟩

theorem Kern.stuck {σ₀ : Assign} (hσ : σ₀ ∈ states bn) (h : Kern bn F (sameState bn σ₀) stp P)
    (g : Assign → ℝ) : act (states bn) P g σ₀ = g σ₀ := by
  classical
  have hs : ∀ σ ∈ states bn, sameState bn σ₀ σ = if σ = σ₀ then 1 else 0 := by
    intro σ h'
    unfold sameState
    refine if_congr ⟨fun e => ?_, fun e => by simp [e]⟩ rfl rfl
    rw [← canon_eq h', ← canon_eq hσ]
    funext v
    unfold canon
    split
    · exact e v ‹_›
    · rfl
  have hP : ∀ τ ∈ states bn, P σ₀ τ = if τ = σ₀ then 1 else 0 := by
    intro τ hτ
    rw [← hs τ hτ, ← h.inv τ hτ, sum_congr rfl fun σ h' => by rw [hs σ h']]
    simp [hσ]
  unfold act
  rw [sum_congr rfl fun τ hτ => by rw [hP τ hτ]]
  simp [hσ]

theorem Kern.stuck_iter {σ₀ : Assign} (hσ : σ₀ ∈ states bn)
    (h : Kern bn F (sameState bn σ₀) stp P) (g : Assign → ℝ) (k : Nat) :
    (act (states bn) P)^[k] g σ₀ = g σ₀ := by
  induction k with
  | zero => rfl
  | succ k ih => rw [Function.iterate_succ_apply', h.stuck hσ, ih]

theorem Kern.stuck_path {σ₀ : Assign} (hσ : σ₀ ∈ states bn)
    (h : Kern bn F (sameState bn σ₀) stp P) (k : Nat) (H : List Assign → ℝ) :
    path (states bn) P k H σ₀ = H (List.replicate k σ₀) := by
  induction k generalizing H with
  | zero => rfl
  | succ k ih => rw [path, h.stuck hσ, ih]; rfl

/-! ## marginal posteriors as sums over the states -/

theorem sumOver_pick {card : Name → Nat} {s : Finset Name} {ρ : Assign} (hρ : ∀ v ∈ s, ρ v < card v)
    (F : Assign → ℚ) (σ : Assign) :
    sumOver card s (fun τ => if ∀ v ∈ s, τ v = ρ v then F τ else 0) σ =
      F (fun v => if v ∈ s then ρ v else σ v) := by
  unfold sumOver
  rw [sum_eq_single_of_mem (fun v _ => ρ v) (mem_pi.2 fun v hv => mem_range.2 (hρ v hv))]
  · dsimp only
    rw [if_pos fun v hv => dif_pos hv]
    rfl
  · intro τ _ hne
    dsimp only
    rw [if_neg]
    intro h
    refine hne (funext fun v => funext fun hv => ?_)
    have := h v hv
    rwa [dif_pos hv] at this

/-- The posterior of some variables is the sum of the posteriors of the full states. -/
theorem posterior_marginal (hc : bn.Consistent) {ev : Dict Evidence} (he : LegalEvidence bn ev)
    {Q : List Name} (hQ : ∀ v ∈ Q, v ∈ bn.names) {ρ : Assign} (hρ : Legal bn.card Q ρ) :
    sumOver bn.card bn.names.toFinset (fun τ => if ∀ v ∈ Q, τ v = ρ v then
      posterior bn ev bn.names τ else 0) (fun _ => 0) = posterior bn ev Q ρ := by
  set Z := totalWeight bn ev ρ with hZ
  let c : ℚ := if 0 < Z then Z⁻¹ else 1
  have hfull : ∀ τ, posterior bn ev bn.names τ = c * weight bn ev τ := fun τ => by
    rw [posterior_full, totalWeight_const hc he τ ρ]
    simp only [c]
    split
    · rw [div_eq_mul_inv, mul_comm]
    · rw [one_mul]
  have hpost : posterior bn ev Q ρ =
      c * sumOver bn.card (bn.names.toFinset \ Q.toFinset) (weight bn ev) ρ := by
    unfold posterior
    simp only [c, ← hZ]
    split
    · rw [div_eq_mul_inv, mul_comm]
    · rw [one_mul]
  have hsub : Q.toFinset ⊆ bn.names.toFinset := fun v hv => by
    simpa using hQ v (by simpa using hv)
  have hdis : Disjoint Q.toFinset (bn.names.toFinset \ Q.toFinset) := disjoint_sdiff
  have hind : DependsOn Q.toFinset (fun τ : Assign => if ∀ v ∈ Q, τ v = ρ v then (1 : ℚ) else 0) := by
    intro σ τ h
    have : (∀ v ∈ Q, σ v = ρ v) ↔ ∀ v ∈ Q, τ v = ρ v :=
      forall₂_congr fun v hv => by rw [h v (by simpa using hv)]
    simp only [this]
  rw [hpost]
  have h1 : (fun τ => if ∀ v ∈ Q, τ v = ρ v then posterior bn ev bn.names τ else 0) =
      fun τ => c * ((if ∀ v ∈ Q, τ v = ρ v then (1 : ℚ) else 0) * weight bn ev τ) := by
    funext τ
    rw [hfull]
    split <;> ring
  rw [h1, sumOver_const_mul]
  congr 1
  nth_rw 1 [← union_sdiff_of_subset hsub]
  rw [sumOver_union hdis]
  have h2 : sumOver bn.card (bn.names.toFinset \ Q.toFinset) (fun τ =>
      (if ∀ v ∈ Q, τ v = ρ v then (1 : ℚ) else 0) * weight bn ev τ) = fun τ =>
      if ∀ v ∈ Q.toFinset, τ v = ρ v then
        sumOver bn.card (bn.names.toFinset \ Q.toFinset) (weight bn ev) τ else 0 := by
    funext τ
    rw [sumOver_mul_left hind hdis]
    simp only [List.mem_toFinset]
    split <;> ring
  rw [h2, sumOver_pick fun v hv => hρ v (by simpa using hv)]
  refine (weight_dependsOn hc he).sumOver _ _ fun v hv => ?_
  rw [mem_sdiff, mem_sdiff, not_and, not_not] at hv
  rw [if_pos (hv.2 hv.1)]

end Primo
