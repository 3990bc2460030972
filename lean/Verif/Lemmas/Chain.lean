import Verif.Lemmas.Kernel

/-! # From single-site kernels to the steps of the samplers -/

namespace Primo
open Finset

variable {bn : BN} {π : Assign → ℝ}

/-- The random program acts on instantiations as an operator that preserves `π`. -/
def Preserves (bn : BN) (π : Assign → ℝ) (m : Dict Val → Rand (Except PyErr (Dict Val))) : Prop :=
  ∃ T : (Assign → ℝ) → Assign → ℝ,
    (∀ G g, Compat bn G g → ∀ σ, Legal bn.card bn.names σ → ∀ d, Reads bn d σ →
      (m d).expect G = T g σ) ∧
    ∀ g, ∑ σ ∈ states bn, π σ * T g σ = ∑ σ ∈ states bn, π σ * g σ

theorem SiteKernel.preserves {v : Name} (hv : v ∈ bn.names)
    {site : Dict Val → Rand (Except PyErr (Dict Val))} (h : SiteKernel bn π v site) :
    Preserves bn π site := by
  obtain ⟨K, h1, h2, h3, _⟩ := h
  exact ⟨_, h1, fun g => invariant_of_balance hv h2 h3 g⟩

theorem Preserves.sweep {site : NodeV → Dict Val → Rand (Except PyErr (Dict Val))}
    {ns : List NodeV} (h : ∀ n ∈ ns, Preserves bn π (site n)) :
    Preserves bn π (Mcmc.sweep site ns) := by
  induction ns with
  | nil => exact ⟨id, fun G g hG σ hσ d hd => hG d σ hσ hd, fun g => rfl⟩
  | cons n ns ih =>
    obtain ⟨T, a1, a2⟩ := h n (by simp)
    obtain ⟨U, b1, b2⟩ := ih fun m hm => h m (List.mem_cons_of_mem _ hm)
    refine ⟨fun g => T (U g), fun G g hG σ hσ d hd => ?_, fun g => (a2 _).trans (b2 g)⟩
    rw [Mcmc.sweep, Rand.expect_andThen]
    exact a1 _ _ (fun d' τ hτ hd' => b1 G g hG τ hτ d' hd') σ hσ d hd

theorem Preserves.single {site : NodeV → Dict Val → Rand (Except PyErr (Dict Val))}
    {ns : List NodeV} (hne : ns ≠ []) (h : ∀ n ∈ ns, Preserves bn π (site n)) :
    Preserves bn π (fun d => Rand.andThen (Rand.choose ns) fun n => site n d) := by
  choose! T a1 a2 using h
  refine ⟨fun g σ => (ns.map fun n => T n g σ).sum / ns.length, fun G g hG σ hσ d hd => ?_,
    fun g => ?_⟩
  · rw [Rand.expect_andThen, Rand.expect_choose hne]
    congr 2
    exact List.map_congr_left fun n hn => a1 n hn G g hG σ hσ d hd
  · have hk : (ns.length : ℝ) ≠ 0 := by
      exact_mod_cast (List.length_pos_iff.2 hne).ne'
    have : ∀ l : List NodeV, (∀ n ∈ l, n ∈ ns) →
        ∑ σ ∈ states bn, π σ * (l.map fun n => T n g σ).sum =
          l.length * ∑ σ ∈ states bn, π σ * g σ := by
      intro l
      induction l with
      | nil => simp
      | cons n l ih =>
        intro hl
        simp only [List.map_cons, List.sum_cons, mul_add, sum_add_distrib]
        rw [a2 n (hl n (by simp)), ih fun m hm => hl m (List.mem_cons_of_mem _ hm),
          List.length_cons]
        push_cast
        ring
    simp only [← mul_div_assoc]
    rw [← sum_div, this ns fun _ h => h]
    field_simp

open Classical in
/-- the indicator of the instantiations that agree with `τ` on the network -/
noncomputable def sameState (bn : BN) (τ σ : Assign) : ℝ :=
  if ∀ v ∈ bn.names, σ v = τ v then 1 else 0

theorem Reads.agree (hd : bn.Discrete) {d : Dict Val} {σ τ : Assign}
    (hσ : Legal bn.card bn.names σ) (h : Reads bn d σ) :
    Reads bn d τ ↔ ∀ v ∈ bn.names, σ v = τ v := by
  constructor
  · intro h' v hv
    have e := (h v hv).symm.trans (h' v hv)
    have hlt : σ v < (bn.lab v).length := hσ v hv
    exact List.getElem?_inj hlt (hd.lab_nodup v) |>.1 e
  · intro h' v hv
    rw [h v hv, h' v hv]

theorem compat_returns (hd : bn.Discrete) (τ : Assign) :
    Compat bn (fun r => by classical exact if Returns bn τ r then 1 else 0) (sameState bn τ) := by
  classical
  intro d σ hσ hr
  unfold sameState
  have : Returns bn τ (.ok d) ↔ ∀ v ∈ bn.names, σ v = τ v := by
    rw [← hr.agree hd hσ]
    constructor
    · rintro ⟨d', e, h⟩; cases e; exact h
    · exact fun h => ⟨d, rfl, h⟩
  by_cases h : ∀ v ∈ bn.names, σ v = τ v
  · rw [if_pos h]; exact if_pos (this.2 h)
  · rw [if_neg h]; exact if_neg (mt this.1 h)

theorem prob_eq (hd : bn.Discrete) {m : Dict Val → Rand (Except PyErr (Dict Val))}
    {T : (Assign → ℝ) → Assign → ℝ}
    (h : ∀ G g, Compat bn G g → ∀ σ, Legal bn.card bn.names σ → ∀ d, Reads bn d σ →
      (m d).expect G = T g σ) (τ : Assign) {σ : Assign} (hσ : Legal bn.card bn.names σ)
    {d : Dict Val} (hr : Reads bn d σ) : (m d).prob (Returns bn τ) = T (sameState bn τ) σ := by
  rw [← h _ _ (compat_returns hd τ) σ hσ d hr]
  rfl

theorem sum_sameState {τ : Assign} (hτ : Legal bn.card bn.names τ)
    (hπ : ∀ σ σ' : Assign, (∀ v ∈ bn.names, σ v = σ' v) → π σ = π σ') :
    ∑ σ ∈ states bn, π σ * sameState bn τ σ = π τ := by
  classical
  let ρ : Assign := fun v => if v ∈ bn.names then τ v else 0
  have hρ : ∀ v ∈ bn.names, ρ v = τ v := fun v hv => if_pos hv
  have hmem : ρ ∈ states bn := mem_states.2
    ⟨fun v hv => by rw [hρ v hv]; exact hτ v hv, fun v hv => if_neg hv⟩
  rw [sum_eq_single_of_mem ρ hmem]
  · rw [sameState, if_pos hρ, mul_one, hπ ρ τ hρ]
  · intro σ hσ hne
    rw [sameState, if_neg, mul_zero]
    intro h
    apply hne
    funext v
    by_cases hv : v ∈ bn.names
    · rw [h v hv, hρ v hv]
    · rw [(mem_states.1 hσ).2 v hv]; exact (if_neg hv).symm

theorem Preserves.invariant (hd : bn.Discrete)
    (hπ : ∀ σ σ' : Assign, (∀ v ∈ bn.names, σ v = σ' v) → π σ = π σ')
    {m : Dict Val → Rand (Except PyErr (Dict Val))} (h : Preserves bn π m) :
    LeavesInvariant bn π m := by
  obtain ⟨T, h1, h2⟩ := h
  intro d hdr τ hτ
  rw [← sum_sameState hτ hπ, ← h2 (sameState bn τ)]
  refine sum_congr rfl fun σ hσ => ?_
  have hl := (mem_states.1 hσ).1
  rw [prob_eq hd h1 τ hl (hdr σ hl)]

theorem SiteKernel.reversible (hd : bn.Discrete)
    (hπ : ∀ σ σ' : Assign, (∀ v ∈ bn.names, σ v = σ' v) → π σ = π σ') {v : Name}
    (hv : v ∈ bn.names)
    {site : Dict Val → Rand (Except PyErr (Dict Val))} (h : SiteKernel bn π v site) :
    Reversible bn π site := by
  obtain ⟨K, h1, _, h3, _⟩ := h
  have key : ∀ σ τ d, Legal bn.card bn.names σ → Legal bn.card bn.names τ → Reads bn d σ →
      (∀ w ∈ bn.names, w ≠ v → σ w = τ w) → (site d).prob (Returns bn τ) = K σ (τ v) := by
    intro σ τ d hσ hτ hr hw
    rw [prob_eq hd h1 τ hσ hr, sum_eq_single_of_mem (τ v) (mem_range.2 (hτ v hv))]
    · rw [sameState, if_pos, mul_one]
      intro w hwn
      by_cases e : w = v
      · subst e; rw [Function.update_self]
      · rw [Function.update_of_ne e, hw w hwn e]
    · intro b _ hb
      rw [sameState, if_neg, mul_zero]
      intro hall
      have := hall v hv
      rw [Function.update_self] at this
      exact hb this
  have zero : ∀ σ τ d, Legal bn.card bn.names σ → Reads bn d σ →
      ¬ (∀ w ∈ bn.names, w ≠ v → σ w = τ w) → (site d).prob (Returns bn τ) = 0 := by
    intro σ τ d hσ hr hw
    rw [prob_eq hd h1 τ hσ hr]
    refine sum_eq_zero fun b _ => ?_
    rw [sameState, if_neg, mul_zero]
    intro hall
    exact hw fun w hwn e => by
      have := hall w hwn
      rwa [Function.update_of_ne e] at this
  intro σ τ dσ dτ hσ hτ hrσ hrτ
  by_cases hw : ∀ w ∈ bn.names, w ≠ v → σ w = τ w
  · let ρ := Function.update σ v (τ v)
    have hρ : ∀ w ∈ bn.names, ρ w = τ w := by
      intro w hwn
      by_cases e : w = v
      · subst e; exact Function.update_self ..
      · rw [← hw w hwn e]; exact Function.update_of_ne e ..
    have hρl : Legal bn.card bn.names ρ := hσ.update (hτ v hv)
    have hρr : Reads bn dτ ρ := fun w hwn => by rw [hρ w hwn]; exact hrτ w hwn
    rw [key σ τ dσ hσ hτ hrσ hw, ← hπ ρ τ hρ,
      key ρ σ dτ hρl hσ hρr fun w hwn e => Function.update_of_ne e .., h3 σ hσ _ (hτ v hv)]
  · rw [zero σ τ dσ hσ hrσ hw, zero τ σ dτ hτ hrτ fun h => hw fun w hwn e => (h w hwn e).symm]
    simp

theorem Reversible.single {site : NodeV → Dict Val → Rand (Except PyErr (Dict Val))}
    {ns : List NodeV} (h : ∀ n ∈ ns, Reversible bn π (site n)) :
    Reversible bn π (fun d => Rand.andThen (Rand.choose ns) fun n => site n d) := by
  intro σ τ dσ dτ hσ hτ hrσ hrτ
  by_cases hne : ns = []
  · subst hne
    have : ∀ (d : Dict Val) (ρ : Assign), (Rand.andThen (Rand.choose []) fun n => site n d).prob
        (Returns bn ρ) = 0 := by
      intro d ρ
      unfold Rand.prob
      rw [Rand.expect_andThen, Rand.choose, if_pos rfl]
      exact if_neg (by rintro ⟨_, h, _⟩; cases h)
    rw [this, this]; simp
  · unfold Rand.prob
    rw [Rand.expect_andThen, Rand.expect_choose hne, Rand.expect_andThen, Rand.expect_choose hne]
    rw [← mul_div_assoc, ← mul_div_assoc]
    congr 1
    rw [← List.sum_map_mul_left, ← List.sum_map_mul_left]
    congr 1
    exact List.map_congr_left fun n hn => h n hn σ τ dσ dτ hσ hτ hrσ hrτ

/-! ## the posterior -/

theorem LegalHard.legal {ev : Dict Val} (h : LegalHard bn ev) :
    LegalEvidence bn (hardEvidence ev) := by
  have hk : (hardEvidence ev).keys = ev.keys := by
    simp [hardEvidence, Dict.keys]
  constructor
  · rw [hk]; exact h.nodup
  · intro p hp
    obtain ⟨q, hq, rfl⟩ := List.mem_map.1 hp
    exact h.mem q hq
  · intro v x hx
    obtain ⟨q, hq, e⟩ := List.mem_map.1 hx
    cases e
    exact h.label q hq
  · intro v l hx
    obtain ⟨q, hq, e⟩ := List.mem_map.1 hx
    cases e

theorem posterior_full {ev : Dict Evidence} (σ : Assign) :
    posterior bn ev bn.names σ = if 0 < totalWeight bn ev σ then
      weight bn ev σ / totalWeight bn ev σ else weight bn ev σ := by
  unfold posterior
  simp

theorem fullPosterior_dependsOn (hc : bn.Consistent) {ev : Dict Val} (he : LegalHard bn ev)
    (σ σ' : Assign) (h : ∀ v ∈ bn.names, σ v = σ' v) :
    fullPosterior bn ev σ = fullPosterior bn ev σ' := by
  unfold fullPosterior
  rw [posterior_full, posterior_full, totalWeight_const hc he.legal σ σ',
    weight_dependsOn hc he.legal σ σ' (by simpa using h)]

theorem fullPosterior_proportional (hc : bn.Consistent) (hl : bn.Linked) {ev : Dict Val}
    (he : LegalHard bn ev) {n : NodeV} (hn : n ∈ bn) (hnev : n.name ∉ ev.keys) :
    Proportional bn (fullPosterior bn ev) n := by
  intro σ
  let L : ℚ := ((hardEvidence ev).map fun p => lik (bn.lab p.1) p.2 (σ p.1)).prod
  let Z := totalWeight bn (hardEvidence ev) σ
  have hw : ∀ a, weight bn (hardEvidence ev) (Function.update σ n.name a) =
      blanket bn n (Function.update σ n.name a) * (others bn n σ * L) := by
    intro a
    unfold weight
    have h1 := joint_blanket hc hl hn (Function.update σ n.name a)
    unfold joint at h1
    rw [h1, others_update, mul_assoc]
    congr 3
    refine List.map_congr_left fun p hp => ?_
    obtain ⟨r, hr, rfl⟩ := List.mem_map.1 hp
    rw [Function.update_of_ne]
    rintro e
    exact hnev (e ▸ List.mem_map_of_mem hr)
  refine ⟨(((others bn n σ * L) * if 0 < Z then Z⁻¹ else 1 : ℚ) : ℝ), fun a => ?_⟩
  unfold fullPosterior
  rw [posterior_full, totalWeight_const hc he.legal _ σ, hw, ← Rat.cast_mul]
  congr 1
  by_cases hZ : 0 < Z
  · rw [if_pos hZ, if_pos hZ, div_eq_mul_inv]; ring
  · rw [if_neg hZ, if_neg hZ]; ring

/-! ## legality of every outcome -/

theorem exists_reads (hc : bn.Consistent) {d : Dict Val}
    (h : ∀ n ∈ bn, ∃ x ∈ n.values, d.get? n.name = some x) :
    ∃ σ, Legal bn.card bn.names σ ∧ Reads bn d σ := by
  refine ⟨fun v => (bn.lab v).idxOf ((d.get? v).getD ""), ?_, ?_⟩
  · intro v hv
    obtain ⟨n, hn, rfl⟩ := BN.exists_of_mem_names hv
    obtain ⟨x, h1, h2⟩ := h n hn
    simp only [h2, Option.getD_some]
    rw [BN.card, BN.lab_eq hc.nodup hn]
    exact List.idxOf_lt_length_of_mem h1
  · intro v hv
    obtain ⟨n, hn, rfl⟩ := BN.exists_of_mem_names hv
    obtain ⟨x, h1, h2⟩ := h n hn
    simp only [h2, Option.getD_some]
    rw [BN.lab_eq hc.nodup hn, List.getElem?_idxOf h1]

theorem GoodState.set {ev d : Dict Val} (h : GoodState bn ev d) (hc : bn.Consistent) {n : NodeV}
    (hn : n ∈ bn) (hev : n.name ∉ ev.keys) {x : Val} (hx : x ∈ n.values) :
    GoodState bn ev (d.set n.name x) := by
  constructor
  · intro m hm
    rw [Dict.get?_set]
    by_cases e : n.name = m.name
    · rw [if_pos e]
      have : m.values = n.values := by
        rw [← BN.lab_eq hc.nodup hm, ← e, BN.lab_eq hc.nodup hn]
      exact ⟨x, this ▸ hx, rfl⟩
    · rw [if_neg e]; exact h.1 m hm
  · intro v y hy
    rw [Dict.get?_set, if_neg (by rintro rfl; exact hev (Dict.mem_keys_of_get? hy))]
    exact h.2 v y hy

theorem all_gibbsSite (hc : bn.Consistent) (hl : bn.Linked) (hd : bn.Discrete) (hnn : bn.NonNeg)
    {ev d : Dict Val} (h : GoodState bn ev d) {n : NodeV} (hn : n ∈ bn) (hev : n.name ∉ ev.keys) :
    (Mcmc.gibbsSite bn n d).All fun r => ∃ d', r = .ok d' ∧ GoodState bn ev d' := by
  obtain ⟨σ, hσ, hr⟩ := exists_reads hc h.1
  unfold Mcmc.gibbsSite NodeV.resample NodeV.sampleValue
  rw [if_neg (by simp [hd.kind n hn]), weights_reads hc hl hd hn hσ hr, Rand.andThen_ok]
  set ws := n.values.map fun o => blanket bn n (Function.update σ n.name (n.values.idxOf o)) with hws
  intro u h0 h1
  have hne : n.values.zip ws ≠ [] := by
    obtain ⟨x, hx, _⟩ := h.1 n hn
    intro e
    have := congrArg List.length e
    rw [List.length_zip, hws, List.length_map, min_self, List.length_nil] at this
    rw [List.length_eq_zero_iff.1 this] at hx
    cases hx
  have hsum : 0 ≤ ws.sum := List.sum_nonneg (by
    intro x hx
    obtain ⟨o, _, rfl⟩ := List.mem_map.1 hx
    exact blanket_nonneg hnn hn hc hl _)
  have hz : (n.values.zip ws).map Prod.snd = ws := by
    rw [List.map_snd_zip]; simp [hws]
  obtain ⟨p, hp, hrl⟩ := roulette_isSome (s := 0) (r := u * ((ws.sum : ℚ) : ℝ)) hne (by
    rw [hz, zero_add]
    have : (0 : ℝ) ≤ ((ws.sum : ℚ) : ℝ) := by exact_mod_cast hsum
    nlinarith)
  simp only [Rand.bind, hrl]
  exact ⟨_, rfl, h.set hc hn hev (List.of_mem_zip hp).1⟩

theorem all_mhSite (hc : bn.Consistent) (hl : bn.Linked) (hd : bn.Discrete)
    {ev d : Dict Val} (h : GoodState bn ev d) {n : NodeV} (hn : n ∈ bn) (hev : n.name ∉ ev.keys) :
    (Mcmc.mhSite bn n d).All fun r => ∃ d', r = .ok d' ∧ GoodState bn ev d' := by
  obtain ⟨σ, hσ, hr⟩ := exists_reads hc h.1
  obtain ⟨x, hx1, hx2⟩ := hr.get hc hσ hn
  have hne : n.values ≠ [] := List.ne_nil_of_mem (List.mem_of_getElem? hx2)
  unfold Mcmc.mhSite
  rw [if_neg (by simp [hd.kind n hn]), Dict.getE_ok hx1, Rand.andThen_ok]
  refine Rand.all_andThen (Q := fun o => o ∈ n.values) ?_ fun o ho => ?_
  · unfold NodeV.sampleLocal
    rw [if_neg (by simp [hd.kind n hn])]
    exact Rand.all_choose hne
  · have hlt := List.idxOf_lt_length_of_mem ho
    have hoi : n.values[n.values.idxOf o]? = some o := List.getElem?_idxOf ho
    rw [markovProb_reads hc hl hd hn (hσ.update (v := n.name) (b := n.values.idxOf o)
        (card_eq hc hn ▸ hlt)) (hr.set (by rw [lab_get hc hn]; exact hoi))
        (by rw [Function.update_self]; exact hoi),
      Rand.andThen_ok, markovProb_reads hc hl hd hn hσ hr hx2, Rand.andThen_ok]
    intro u _ _
    refine ⟨_, rfl, ?_⟩
    split
    · exact h.set hc hn hev ho
    · exact h

theorem all_sweep {site : NodeV → Dict Val → Rand (Except PyErr (Dict Val))} {P : Dict Val → Prop}
    {ns : List NodeV} (h : ∀ n ∈ ns, ∀ d, P d → (site n d).All fun r => ∃ d', r = .ok d' ∧ P d')
    {d : Dict Val} (hd : P d) :
    (Mcmc.sweep site ns d).All fun r => ∃ d', r = .ok d' ∧ P d' := by
  induction ns generalizing d with
  | nil => exact ⟨d, rfl, hd⟩
  | cons n ns ih =>
    exact Rand.all_andThen (h n (by simp) d hd) fun d' hd' =>
      ih (fun m hm => h m (List.mem_cons_of_mem _ hm)) hd'

theorem all_siteStep {site : NodeV → Dict Val → Rand (Except PyErr (Dict Val))}
    {P : Dict Val → Prop} {ns : List NodeV}
    (h : ∀ n ∈ ns, ∀ d, P d → (site n d).All fun r => ∃ d', r = .ok d' ∧ P d') {full : Bool}
    (hne : full = false → ns ≠ []) {d : Dict Val} (hd : P d) :
    (Mcmc.siteStep site ns full d).All fun r => ∃ d', r = .ok d' ∧ P d' := by
  unfold Mcmc.siteStep
  cases full with
  | true => exact all_sweep h hd
  | false =>
    exact Rand.all_andThen (Rand.all_choose (hne rfl)) fun n hn => h n hn d hd

theorem all_burn {stp : Dict Val → Rand (Except PyErr (Dict Val))} {P : Dict Val → Prop}
    (h : ∀ d, P d → (stp d).All fun r => ∃ d', r = .ok d' ∧ P d') (k : Nat) {d : Dict Val}
    (hd : P d) : (Mcmc.burn stp k d).All fun r => ∃ d', r = .ok d' ∧ P d' := by
  induction k generalizing d with
  | zero => exact ⟨d, rfl, hd⟩
  | succ k ih => exact Rand.all_andThen (h d hd) fun d' hd' => ih hd'

theorem all_collect {stp : Dict Val → Rand (Except PyErr (Dict Val))} {P : Dict Val → Prop}
    (h : ∀ d, P d → (stp d).All fun r => ∃ d', r = .ok d' ∧ P d') (k : Nat) {d : Dict Val}
    (hd : P d) :
    (Mcmc.collect stp k d).All fun r => ∃ l, r = .ok l ∧ l.length = k ∧ ∀ s ∈ l, P s := by
  induction k generalizing d with
  | zero => exact ⟨[], rfl, rfl, by simp⟩
  | succ k ih =>
    refine Rand.all_andThen (h d hd) fun d' hd' => Rand.all_andThen (ih hd') fun l hl => ?_
    exact ⟨d' :: l, rfl, by simp [hl.1], by
      intro s hs
      rcases List.mem_cons.1 hs with rfl | hs
      · exact hd'
      · exact hl.2 s hs⟩

end Primo
