import Verif.Lemmas.Targets
import Verif.Lemmas.Scale
import Verif.Props.ForgetManySoft
import Verif.Props.Complete
import Verif.Examples.Separation

/-! # C96: target distributions for several variables at once -/

namespace Primo
open Finset JoinTree

section
variable {bn : BN} {vs : List Name}

/-- **C96** Targets for independent variables are all met; the variables stay independent, and every
other probability changes by the factor `target / prior` of each variable (Jeffrey's rule). -/
theorem C96_met (hc : bn.Consistent) (hnn : bn.NonNeg) (hn : vs.Nodup) (hv : ∀ v ∈ vs, v ∈ bn.names)
    (hi : bn.Independent vs) {q : Name → List ℚ} (hq : ∀ v ∈ vs, bn.Target v (q v)) :
    bn.Met vs q ∧
    (∀ σ, Legal bn.card vs σ → posterior bn (softened bn (targets vs q)) vs σ =
      (vs.map fun v => (q v).getD (σ v) 0).prod) ∧
    ∀ Q, (∀ v ∈ Q, v ∈ bn.names) → (∀ v ∈ vs, v ∈ Q) → ∀ σ, Legal bn.card Q σ →
      (∀ v ∈ vs, priorAt bn v (σ v) ≠ 0) → posterior bn (softened bn (targets vs q)) Q σ =
        (vs.map fun v => (q v).getD (σ v) 0 / priorAt bn v (σ v)).prod * posterior bn [] Q σ := by
  refine ⟨targets_met hc hnn hn hv hq hi, fun σ hσ => ?_, fun Q hQ hk σ hσ hp => ?_⟩
  · rw [posterior_targets_joint hc hnn hn hv hq hi hσ, List.prod_toFinset _ hn]
  · rw [posterior_targets hc hnn hn hv hq hi hQ hk hσ, List.prod_toFinset _ hn]
    congr 2
    refine List.map_congr_left fun v hm => ?_
    unfold lift
    rw [if_neg (hp v hm)]

/-- **C96** Targets for variables are met, whatever they are, exactly if the variables are independent. -/
theorem C96_iff (hc : bn.Consistent) (hnn : bn.NonNeg) {σ₀ : Assign} (hZ : 0 < totalWeight bn [] σ₀)
    (hn : vs.Nodup) (hv : ∀ v ∈ vs, v ∈ bn.names) :
    bn.Independent vs ↔ ∀ q, (∀ v ∈ vs, bn.Target v (q v)) → bn.Met vs q :=
  ⟨fun hi _ hq => targets_met hc hnn hn hv hq hi, independent_of_met hc hnn hZ hn hv⟩

/-- **C96** Asking for the distributions the variables have already changes no answer, independent or
not. -/
theorem C96_prior (hc : bn.Consistent) (hnn : bn.NonNeg) {σ₀ : Assign} (hZ : 0 < totalWeight bn [] σ₀)
    (hn : vs.Nodup) (hv : ∀ v ∈ vs, v ∈ bn.names) :
    (∀ v ∈ vs, bn.Target v (bn.priorList v)) ∧ ∀ Q σ, Legal bn.card Q σ →
      posterior bn (softened bn (targets vs bn.priorList)) Q σ = posterior bn [] Q σ :=
  ⟨fun v hm => priorList_target hc hnn hZ (hv v hm), fun Q _ hσ => posterior_priors hc hnn hn hv Q hσ⟩

/-- **C96** To ask for certainty is to observe: with arrays that have a single one, at an outcome that is not impossible
a priori, all answers are those of the observation of these outcomes, independent or not. -/
theorem C96_observations (hnn : bn.NonNeg) (hn : vs.Nodup) (hv : ∀ v ∈ vs, v ∈ bn.names)
    {x : Name → Val} (hx : ∀ v ∈ vs, x v ∈ bn.lab v)
    (hp : ∀ v ∈ vs, priorAt bn v ((bn.lab v).idxOf (x v)) ≠ 0) {q : Name → List ℚ}
    (hq : ∀ v ∈ vs, q v = (List.range (bn.card v)).map fun i => if i = (bn.lab v).idxOf (x v) then 1 else 0) :
    (∀ v ∈ vs, bn.Target v (q v)) ∧ ∀ Q, (∀ v ∈ Q, v ∈ bn.names) → ∀ σ, Legal bn.card Q σ →
      posterior bn (softened bn (targets vs q)) Q σ = posterior bn (vs.map fun v => (v, .hard (x v))) Q σ := by
  have hj : ∀ v ∈ vs, (bn.lab v).idxOf (x v) < bn.card v := fun v hm => List.idxOf_lt_length_of_mem (hx v hm)
  have ht : ∀ v ∈ vs, bn.Target v (q v) := fun v hm => by
    rw [hq v hm]
    exact spike_target (hj v hm) (hp v hm)
  refine ⟨ht, fun Q hQ σ hσ => (posterior_of_scaled hnn (by intro v l h; simp at h)
    (c := ∏ v ∈ vs.toFinset, (priorAt bn v ((bn.lab v).idxOf (x v)))⁻¹) ?_ ?_ hQ hσ).symm⟩
  · refine prod_pos fun v hm => inv_pos.2 ?_
    exact lt_of_le_of_ne (priorAt_nonneg hnn _ _) (hp v (List.mem_toFinset.1 hm)).symm
  · intro ρ hρ
    have h1 := evLik_targets (bn := bn) (q := q) hn (σ := ρ) fun v hm => hρ v (hv v hm)
    unfold weight
    rw [mul_left_comm]
    congr 1
    refine h1.trans ?_
    rw [List.map_map, List.prod_toFinset _ hn, List.prod_toFinset _ hn, ← List.prod_map_mul]
    congr 1
    refine List.map_congr_left fun v hm => ?_
    simp only [Function.comp]
    rw [lik_hard (hx v hm)]
    unfold lift
    rw [hq v hm, show ((List.range (bn.card v)).map fun i => if i = (bn.lab v).idxOf (x v) then (1 : ℚ) else 0) =
      spike (bn.card v) ((bn.lab v).idxOf (x v)) from rfl, spike_getD (hρ v (hv v hm))]
    by_cases e : ρ v = (bn.lab v).idxOf (x v)
    · rw [e, if_neg (hp v hm)]; simp
    · simp [e]
/-! ## the graph -/

theorem BN.Scattered.independent (hc : bn.Consistent) (ha : bn.Acyclic) (hs : bn.Stochastic) (hnn : bn.NonNeg)
    (hv : ∀ v ∈ vs, v ∈ bn.names) (hd : bn.Scattered [] vs) : bn.Independent vs := by
  intro σ hσ
  rcases eq_or_ne vs [] with rfl | hne
  · unfold posterior
    simp only [List.toFinset_nil, sdiff_empty, List.map_nil, List.prod_nil]
    have h1 := totalWeight_nil hc ha hs σ
    rw [h1, if_pos one_pos, div_one]
    exact h1
  · rw [hd.splits hc ha hs hnn legal_nil (by intro v l h; simp at h) hne hv hσ]
    congr 1
    exact List.map_congr_left fun v _ => (priorAt_eq hc σ).symm

/-- two variables that are not separated -/
theorem BN.not_scattered {ev : Dict Evidence} : ∀ {vs : List Name}, vs.Nodup → ¬ bn.Scattered ev vs →
    ∃ u ∈ vs, ∃ v ∈ vs, u ≠ v ∧ ¬ bn.DSeparated ev [u] [v]
  | [], _, h => absurd trivial h
  | a :: vs, hn, h => by
    by_cases hs : bn.Scattered ev vs
    · have hd : ¬ bn.DSeparated ev [a] vs := fun hd => h ⟨hd, hs⟩
      unfold BN.DSeparated at hd
      push Not at hd
      obtain ⟨r, hr, d, ht, ho⟩ := hd
      refine ⟨a, by simp, r, by simp [hr], ?_, fun h' => ho (h' r (by simp) d ht)⟩
      rintro rfl
      exact (List.nodup_cons.1 hn).1 hr
    · obtain ⟨u, hu, v, hv, hne, hd⟩ := BN.not_scattered (List.nodup_cons.1 hn).2 hs
      exact ⟨u, by simp [hu], v, by simp [hv], hne, hd⟩

/-- **C96** The graph decides: targets for variables are met for all normalised tables exactly if no two
of the variables are connected by an active trail. -/
theorem C96_graph (hc : bn.Consistent) (ha : bn.Acyclic) (h2 : ∀ v ∈ bn.names, 2 ≤ (bn.lab v).length)
    (hn : vs.Nodup) (hv : ∀ v ∈ vs, v ∈ bn.names) :
    bn.Scattered [] vs ↔ ∀ bn' : BN, bn'.bare = bn.bare → bn'.Consistent → bn'.Stochastic → bn'.NonNeg →
      ∀ q, (∀ v ∈ vs, bn'.Target v (q v)) → bn'.Met vs q := by
  constructor
  · intro hd bn' hb hc' hs hnn q hq
    have hna := BN.names_of_bare hb
    have hd' : bn'.Scattered [] vs := hd.congr fun p v => (BN.isParent_iff_bare hb p v).symm
    exact (C96_met hc' hnn hn (by rwa [hna]) (hd'.independent hc' (ha.of_bare hb) hs hnn (by rwa [hna])) hq).1
  · intro hall
    by_contra hd
    obtain ⟨u, hu, v, hm, hne, hd⟩ := BN.not_scattered hn hd
    unfold BN.DSeparated at hd
    push Not at hd
    obtain ⟨r, hr, d, ht, -⟩ := hd
    rw [List.mem_singleton] at hr
    subst hr
    have hno : ∀ x, ¬ Observed [] x := by rintro x ⟨y, hy⟩; simp at hy
    obtain ⟨bn', ev', hb, hc', hs', hp', hk, -, -, -, hne'⟩ := exists_tables hc ha legal_nil h2 (hv u hu)
      (hv _ hm) (hno _) (hno _) ht
    cases hk
    have hna := BN.names_of_bare hb
    have hvn : ∀ v ∈ vs, v ∈ bn'.names := by rwa [hna]
    have hZ : 0 < totalWeight bn' [] (fun _ => 0) := by
      rw [totalWeight_nil hc' (ha.of_bare hb) hs']; exact one_pos
    have hi : bn'.Independent vs := (C96_iff hc' hp'.nonNeg hZ hn hvn).2 (hall bn' hb hc' hs' hp'.nonNeg)
    have hi2 := hi.sub hc' hZ hn hvn (ws := [u, r]) (by simpa using hne) (by
      intro w hw
      simp only [List.mem_cons, List.not_mem_nil, or_false] at hw
      rcases hw with rfl | rfl
      · exact hu
      · exact hm)
    have h0 : ∀ w ∈ vs, 0 < bn'.card w := fun w hw => by
      rw [BN.card_of_bare hb]
      have : 2 ≤ bn.card w := h2 w (hv w hw)
      omega
    have := hi2 (fun _ => 0) fun w hw => by
      simp only [List.mem_cons, List.not_mem_nil, or_false] at hw
      rcases hw with rfl | rfl
      · exact h0 _ hu
      · exact h0 _ hm
    refine hne' ?_
    rw [this]
    simp only [List.map_cons, List.map_nil, List.prod_cons, List.prod_nil, mul_one]
    rw [priorAt, priorAt]

/-! ## the factor tree -/

/-- **C96, the code.**  On networks with exact factor trees, `set_evidence(targets, softPosteriors=True)`
followed by `marginals([v])` returns the target of each variable, whatever the targets and whatever
happened to the tree before, exactly if the variables are independent. -/
theorem C96_tree (h : TreeSetup bn none) (hnn : bn.NonNeg) (hco : bn.Connected) {σ₀ : Assign}
    (hZ : 0 < totalWeight bn [] σ₀) (hn : vs.Nodup) (hv : ∀ v ∈ vs, v ∈ bn.names) {limit : Nat}
    (hl : bn.length ≤ limit) (so₁ so₂ : SetOrder) (ops : List TreeOp) :
    bn.Independent vs ↔ ∀ q, (∀ v ∈ vs, bn.Target v (q v)) →
      ∃ t t', create so₁ bn none = .ok t ∧
        (TreeOp.runs ops t).setEvidence so₂ limit bn (targets vs q) true = (t', none) ∧
        ∀ v ∈ vs, ∀ so limit, ∃ r, t'.marginals so limit [v] = (t', .ok r) ∧ r.WF bn.card ∧
          (∀ w, w ∈ r.variableOrder ↔ w = v) ∧ ∀ i < bn.card v, r.eval (fun _ => i) = (q v).getD i 0 := by
  have hc := h.consistent
  have hans : ∀ q, (∀ v ∈ vs, bn.Target v (q v)) → ∃ t t', create so₁ bn none = .ok t ∧
      (TreeOp.runs ops t).setEvidence so₂ limit bn (targets vs q) true = (t', none) ∧
      ∀ v ∈ vs, ∀ so limit, ∃ r, t'.marginals so limit [v] = (t', .ok r) ∧ r.WF bn.card ∧
        (∀ w, w ∈ r.variableOrder ↔ w = v) ∧ ∀ i < bn.card v, r.eval (fun _ => i) =
          posterior bn (softened bn (targets vs q)) [v] fun _ => i := by
    intro q hq
    obtain ⟨t, t', h1, h2, h3⟩ := C28_soft_evidence h hnn hco (targets_legal hn hv hq) (targets_supported hq)
      hl so₁ so₂ ops
    refine ⟨t, t', h1, h2, fun v hm so limit => ?_⟩
    obtain ⟨n, hnm, hnn'⟩ := List.mem_map.1 (hv v hm)
    obtain ⟨r, r1, r2, -, r4, r5⟩ := h3 n hnm [v] (by
      intro w hw
      rw [List.mem_singleton] at hw
      rw [hw, ← hnn']
      simp [NodeV.family]) so limit
    refine ⟨r, r1, r2, fun w => by rw [r4]; simp, fun i hi => r5 _ ?_⟩
    intro w hw
    rw [List.mem_singleton] at hw
    rw [hw]; exact hi
  rw [C96_iff hc hnn hZ hn hv]
  constructor
  · intro hall q hq
    obtain ⟨t, t', h1, h2, h3⟩ := hans q hq
    refine ⟨t, t', h1, h2, fun v hm so limit => ?_⟩
    obtain ⟨r, r1, r2, r3, r4⟩ := h3 v hm so limit
    exact ⟨r, r1, r2, r3, fun i hi => (r4 i hi).trans (hall q hq v hm i hi)⟩
  · intro hall q hq v hm i hi
    obtain ⟨t, t', h1, h2, h3⟩ := hans q hq
    obtain ⟨u, u', g1, g2, g3⟩ := hall q hq
    rw [h1] at g1
    cases g1
    rw [h2] at g2
    cases g2
    obtain ⟨r, r1, -, -, r4⟩ := h3 v hm .insertion limit
    obtain ⟨r', s1, -, -, s4⟩ := g3 v hm .insertion limit
    rw [r1] at s1
    cases s1
    rw [← r4 i hi, s4 i hi]

/-! ## soft-evidence feedback -/

/-- **C96** So `set_evidence` with such arrays and `softPosteriors=True` makes the tree answer as after
`set_evidence` with the outcomes. -/
theorem C96_observations_tree (h : TreeSetup bn none) (hnn : bn.NonNeg) (hco : bn.Connected)
    (hn : vs.Nodup) (hv : ∀ v ∈ vs, v ∈ bn.names) {x : Name → Val} (hx : ∀ v ∈ vs, x v ∈ bn.lab v)
    (hp : ∀ v ∈ vs, priorAt bn v ((bn.lab v).idxOf (x v)) ≠ 0) {q : Name → List ℚ}
    (hq : ∀ v ∈ vs, q v = (List.range (bn.card v)).map fun i => if i = (bn.lab v).idxOf (x v) then 1 else 0)
    {limit : Nat} (hl : bn.length ≤ limit) (so₁ so₂ : SetOrder) (ops : List TreeOp) :
    ∃ t t', create so₁ bn none = .ok t ∧
      (TreeOp.runs ops t).setEvidence so₂ limit bn (targets vs q) true = (t', none) ∧
      Answers (fun so limit vs => t'.marginals so limit vs) t' bn (vs.map fun v => (v, .hard (x v))) := by
  obtain ⟨ht, he⟩ := C96_observations hnn hn hv hx hp hq
  obtain ⟨t, t', h1, h2, h3⟩ := C28_soft_evidence h hnn hco (targets_legal hn hv ht) (targets_supported ht) hl so₁ so₂ ops
  refine ⟨t, t', h1, h2, fun n hn' ws hws so limit => ?_⟩
  obtain ⟨r, r1, r2, r3, r4, r5⟩ := h3 n hn' ws hws so limit
  refine ⟨r, r1, r2, r3, r4, fun σ hσ => ?_⟩
  rw [r5 σ hσ]
  refine he ws (fun v hw => ?_) σ hσ
  rcases List.mem_cons.1 (hws v hw) with rfl | hw'
  · exact List.mem_map_of_mem hn'
  · exact h.consistent.parents_mem n hn' v hw'

/-- variables without parents are separated as long as nothing is known -/
theorem BN.scattered_of_roots : ∀ {vs : List Name}, vs.Nodup → (∀ v ∈ vs, ∀ p, ¬ bn.IsParent p v) →
    bn.Scattered [] vs
  | [], _, _ => trivial
  | v :: vs, hn, h => by
    obtain ⟨h1, h2⟩ := List.nodup_cons.1 hn
    refine ⟨dseparated_of_parents (fun p hp => absurd hp (h v (by simp) p)) (fun w _ => by simp [Dict.keys])
      fun r hr ht => ?_, BN.scattered_of_roots h2 fun w hw => h w (by simp [hw])⟩
    rcases Relation.ReflTransGen.cases_tail ht with rfl | ⟨c, -, hc⟩
    · exact h1 hr
    · exact h r (by simp [hr]) c hc

/-- **C48 for several transitions, partial.**  If the transition targets are independent in the 2-TBN (as
they are if they have no parents and the tables are normalised: `DBN.Ready.independent`): after any history, `unroll` and `set_evidence()`, the
marginal of every target is the posterior marginal of its source in the slice just left, which is what
`marginals` returned after `unroll`.  Missing: as for a single transition; dependent targets, which
need not get the arrays (`C96_tree`). -/
theorem C48_several_transitions_partial {d : DBN} (h : d.SoftReady)
    (hi : d.twoTbn.Independent (d.transitions.map Prod.fst)) {ops : List DynOp} {so₁ so₂ : SetOrder} {l₁ l₂ : Nat}
    {ev : Option (Dict Evidence)} {s₁ s₂ : SoftFeedback} {past : List (Dict Evidence)} {e : Dict Evidence}
    (ho : SoftFairHistory d ⟨[], none⟩ (ops ++ [.unroll so₁ l₁ ev none, .setEvidence so₂ l₂ none]))
    (hs₁ : s₁ = .runs (ops ++ [.unroll so₁ l₁ ev none]) (.create d))
    (hs₂ : s₂ = .runs (ops ++ [.unroll so₁ l₁ ev none, .setEvidence so₂ l₂ none]) (.create d))
    (hpast : (Diary.notes ⟨[], none⟩ (ops ++ [.unroll so₁ l₁ ev none])).past = past ++ [e])
    {tr : Name × Name} (htr : tr ∈ d.transitions) (so : SetOrder) (limit : Nat) :
    ∃ r₁ r₂, s₁.marginals so limit [tr.2] = (s₁, .ok r₁) ∧ s₂.marginals so limit [tr.1] = (s₂, .ok r₂) ∧
      r₁.variableOrder = [tr.2] ∧ r₂.variableOrder = [tr.1] ∧
      r₂.potentials.shape = r₁.potentials.shape ∧ r₂.potentials.data = r₁.potentials.data ∧
      r₁.potentials.data = (List.range ((d.slice past.length).card tr.2)).map fun i =>
        posterior (d.slice past.length) (softened (d.slice past.length)
          (overridden (d.carried past) e)) [tr.2] fun _ => i := by
  obtain ⟨ho1, ho2, ho3, -⟩ := SoftFairHistory.append.1 ho
  have ht0 := (SoftFeedback.tracks_create d).runs h ops ho1
  have ht1 := (SoftFeedback.tracks_create d).runs h (ops ++ [.unroll so₁ l₁ ev none])
    (SoftFairHistory.append.2 ⟨ho1, ho2, trivial⟩)
  have ht2 := (SoftFeedback.tracks_create d).runs h _ ho
  rw [← hs₁] at ht1
  rw [← hs₂] at ht2
  have hg1 : Diary.notes ⟨[], none⟩ (ops ++ [.unroll so₁ l₁ ev none]) = ⟨past ++ [e], none⟩ := by
    have : (Diary.notes ⟨[], none⟩ (ops ++ [.unroll so₁ l₁ ev none])).now = none := by
      simp [Diary.notes, Diary.note]
    cases hd : Diary.notes ⟨[], none⟩ (ops ++ [.unroll so₁ l₁ ev none]) with
    | mk a b => rw [hd] at this hpast; dsimp only at this hpast; rw [this, hpast]
  have hg1' : (Diary.notes ⟨[], none⟩ ops).note (.unroll so₁ l₁ ev none) = ⟨past ++ [e], none⟩ := by
    rw [← hg1]; simp [Diary.notes]
  have hg2 : Diary.notes ⟨[], none⟩ (ops ++ [.unroll so₁ l₁ ev none, .setEvidence so₂ l₂ none]) =
      ⟨past ++ [e], some []⟩ := by
    have : ops ++ [.unroll so₁ l₁ ev none, .setEvidence so₂ l₂ none] =
      (ops ++ [.unroll so₁ l₁ ev none]) ++ [.setEvidence so₂ l₂ none] := by simp
    rw [this, Diary.notes, List.foldl_append]
    have := hg1
    unfold Diary.notes at this
    rw [this]; rfl
  rw [hg1] at ht1
  rw [hg2] at ht2
  rw [hg1'] at ho3
  have hsl : d.slice (past ++ [e]).length = d.twoTbn := by unfold DBN.slice; rw [if_neg (by simp)]
  obtain ⟨f₁, hf₁, hx₁⟩ : ∃ f, s₁.ft = some f ∧ f.tree.Exactly (d.slice past.length)
      (softened (d.slice past.length) (overridden (d.carried past) e)) := by
    rcases ht1.old rfl with ⟨h1, -⟩ | ⟨past', e', h1, h2⟩
    · simp at h1
    · have := List.append_inj' h1 rfl
      obtain ⟨rfl, h3⟩ := this
      cases h3
      exact h2
  obtain ⟨f₂, hf₂, hx₂⟩ := ht2.now [] rfl
  dsimp only at hx₂
  obtain ⟨a1, a2, -⟩ := ho3
  dsimp only [Option.getD_none] at a1 a2
  rw [hsl] at hx₂ a1 a2
  obtain ⟨n1, n2, n3⟩ := h.net past.length
  have hleg : LegalEvidence (d.slice past.length) e ∧
      Supported (d.slice past.length) (overridden (d.carried past) e) := by
    have hu := ho2.1
    have hpe := hg1'
    simp only [Diary.note] at hpe
    have := congrArg Diary.past hpe
    dsimp only at this
    have := List.append_inj' this rfl
    obtain ⟨c1, c2⟩ := this
    injection c2 with c2
    rw [c1, c2] at hu
    exact ⟨hu.1, hu.2.1⟩
  have hsource : ∀ tr ∈ d.transitions, tr.2 ∈ (d.slice past.length).names := by
    intro tr htr
    have hsrc := h.source tr htr
    unfold DBN.slice; split
    · exact hsrc.1
    · exact hsrc.2
  have hcards : ∀ tr ∈ d.transitions, d.twoTbn.card tr.1 = (d.slice past.length).card tr.2 := by
    intro tr htr
    have hnode := h.node tr htr
    unfold DBN.slice; split
    · exact hnode.2.1
    · exact hnode.2.2
  set arr : Name × Name → List ℚ := fun tr => (List.range ((d.slice past.length).card tr.2)).map fun i =>
    posterior (d.slice past.length) (softened (d.slice past.length) (overridden (d.carried past) e)) [tr.2]
      fun _ => i with harr
  have hov : overridden (d.carried (past ++ [e])) [] = d.transitions.map fun tr => (tr.1, .soft (arr tr)) := by
    rw [DBN.carried_append, DBN.carry, overridden, List.map_map]
    rfl
  rw [hov] at hx₂ a2
  -- the arrays as a function of the target
  obtain ⟨q, hq⟩ : ∃ q : Name → List ℚ, ∀ tr ∈ d.transitions, q tr.1 = arr tr := by
    classical
    refine ⟨fun v => if hv : ∃ tr ∈ d.transitions, tr.1 = v then arr hv.choose else [], fun tr htr => ?_⟩
    have hv : ∃ tr' ∈ d.transitions, tr'.1 = tr.1 := ⟨tr, htr, rfl⟩
    dsimp only
    rw [dif_pos hv, List.inj_on_of_nodup_map h.targets hv.choose_spec.1 htr hv.choose_spec.2]
  have hev : (d.transitions.map fun tr => (tr.1, Evidence.soft (arr tr))) =
      Primo.targets (d.transitions.map Prod.fst) q := by
    rw [Primo.targets, List.map_map]
    exact List.map_congr_left fun tr htr => by rw [Function.comp_apply, hq tr htr]
  have hT : ∀ v ∈ d.transitions.map Prod.fst, d.twoTbn.Target v (q v) := by
    intro v hv
    obtain ⟨tr, htr, rfl⟩ := List.mem_map.1 hv
    obtain ⟨b1, b2, b3⟩ := a2 tr.1 (arr tr) (List.mem_map.2 ⟨tr, htr, rfl⟩)
    rw [hq tr htr]
    exact ⟨by rw [hcards tr htr]; simp [harr], b1, posterior_list_sum n1.consistent n2
      (LegalEvidence.overridden h hleg.1).softened (NonNegEvidence.softened n2 hleg.2) (hsource tr htr) rfl b2, b3⟩
  have hN : ∀ v ∈ d.transitions.map Prod.fst, v ∈ d.twoTbn.names := by
    intro v hv
    obtain ⟨tr, htr, rfl⟩ := List.mem_map.1 hv
    exact (h.node tr htr).1
  have hmet := targets_met h.two.consistent h.two_nonneg h.targets hN hT hi
  rw [hev] at hx₂
  have hp := hsource tr htr
  have hcard := hcards tr htr
  have hnode := h.node tr htr
  obtain ⟨node, p⟩ := tr
  have hlen : (arr (node, p)).length = d.twoTbn.card node := by rw [hcard]; simp [harr]
  obtain ⟨r₁, q1, -, q3, -, q5, q6⟩ := hx₁.table hp so limit
  obtain ⟨r₂, w1, -, w3, -, w5, w6⟩ := hx₂.table hnode.1 so limit
  have hd1 : r₁.potentials.data = arr (node, p) := by
    rw [NDArray.data_of_shape q5]
    exact List.map_congr_left fun i hi => q6 (fun _ => i) (List.mem_range.1 hi)
  have hd2 : r₂.potentials.data = arr (node, p) := by
    rw [NDArray.data_of_shape w5]
    apply List.ext_getElem
    · simp [hlen]
    · intro i i1 i2
      simp only [List.length_map, List.length_range] at i1
      rw [List.getElem_map, List.getElem_range, w6 (fun _ => i) i1,
        hmet node (List.mem_map.2 ⟨_, htr, rfl⟩) i i1, hq _ htr]
      simp [i2]
  have k1 : s₁.marginals so limit [p] = (s₁, .ok r₁) := by
    unfold SoftFeedback.marginals
    rw [hf₁]
    dsimp only [SliceTree.marginals]
    rw [q1]
    obtain ⟨a, b, c, d, g⟩ := s₁
    dsimp only at hf₁ ⊢
    rw [hf₁]
  have k2 : s₂.marginals so limit [node] = (s₂, .ok r₂) := by
    unfold SoftFeedback.marginals
    rw [hf₂]
    dsimp only [SliceTree.marginals]
    rw [w1]
    obtain ⟨a, b, c, d, g⟩ := s₂
    dsimp only at hf₂ ⊢
    rw [hf₂]
  exact ⟨r₁, r₂, k1, k2, q3, w3, by rw [q5, w5, hcard], by rw [hd1, hd2], hd1⟩

/-- targets without parents are independent if the tables are normalised -/
theorem DBN.Ready.independent {d : DBN} (h : d.Ready) (ha : d.twoTbn.Acyclic) (hs : d.twoTbn.Stochastic) :
    d.twoTbn.Independent (d.transitions.map Prod.fst) := by
  refine (BN.scattered_of_roots h.targets fun v hv p hp => ?_).independent h.two.consistent ha hs h.two_nonneg ?_
  · obtain ⟨tr, htr, rfl⟩ := List.mem_map.1 hv
    obtain ⟨n, hn, h1, -, h3, -⟩ := h.node tr htr
    obtain ⟨m, hm, m1, m2⟩ := hp
    rw [BN.eq_of_name h.two.consistent.nodup hm hn (m1.trans h1.symm), h3] at m2
    simp at m2
  · intro v hv
    obtain ⟨tr, htr, rfl⟩ := List.mem_map.1 hv
    exact (h.soft.node tr htr).1



end

/-! ## examples -/

namespace Ex

/-- targets for the two roots of the example network -/
def rootTargets : Name → List ℚ := fun v => if v = "a" then [1 / 2, 1 / 2] else [1 / 4, 3 / 4, 0]

theorem roots_scattered : bn.Scattered [] ["a", "b"] := ⟨roots_separated, by intro r hr; simp at hr, trivial⟩

theorem roots_independent : bn.Independent ["a", "b"] :=
  roots_scattered.independent bn_consistent bn_acyclic bn_stochastic bn_nonneg (by decide)

theorem rootTargets_target : ∀ v ∈ ["a", "b"], bn.Target v (rootTargets v) := by
  intro v hv
  simp only [List.mem_cons, List.not_mem_nil, or_false] at hv
  rcases hv with rfl | rfl
  · refine ⟨by decide, by decide +kernel, by decide +kernel, fun i hi h => ?_⟩
    exact absurd h (prior_a_pos (fun _ => i) hi)
  · exact ⟨by decide, by decide +kernel, by decide +kernel, supp_b⟩

theorem bn_total : 0 < totalWeight bn [] fun _ => 0 := by
  rw [totalWeight_nil bn_consistent bn_acyclic bn_stochastic]; exact one_pos

example := C96_met bn_consistent bn_nonneg (by decide) (by decide) roots_independent rootTargets_target
example := C96_iff bn_consistent bn_nonneg bn_total (vs := ["a", "c", "d"]) (by decide) (by decide)
example := C96_prior bn_consistent bn_nonneg bn_total (vs := ["a", "c", "d"]) (by decide) (by decide)
example := C96_graph bn_consistent bn_acyclic (by decide) (vs := ["a", "b"]) (by decide) (by decide)
example := C96_tree bn_perfect.tree bn_nonneg bn_connected bn_total (vs := ["a", "b"]) (by decide) (by decide)
  (limit := 1000) (by decide) .insertion .reversed history

/-- certainty about `d` and `a` -/
def sureTargets : Name → List ℚ := fun v => if v = "a" then [0, 1] else [1, 0]

example := C96_observations_tree bn_perfect.tree bn_nonneg bn_connected (vs := ["a", "d"]) (by decide) (by decide)
  (x := fun v => (bn.lab v).getD (if v = "a" then 1 else 0) "") (by decide) (by decide +kernel) (q := sureTargets) (by decide +kernel)
  (limit := 1000) (by decide) .insertion .reversed history

-- the code meets both targets for the roots, but not those for `a` and its child `c` (C28_two_targets_refuted)
example : softAnswer (targets ["a", "b"] rootTargets) "a" = .ok [1 / 2, 1 / 2] ∧
    softAnswer (targets ["a", "b"] rootTargets) "b" = .ok [1 / 4, 3 / 4, 0] := by decide +kernel

/-- `a` and `c` are connected, so some tables on the graph fail some targets -/
example : ¬ ∀ bn' : BN, bn'.bare = bn.bare → bn'.Consistent → bn'.Stochastic → bn'.NonNeg →
    ∀ q, (∀ v ∈ ["a", "c"], bn'.Target v (q v)) → bn'.Met ["a", "c"] q := by
  rw [← C96_graph bn_consistent bn_acyclic (by decide) (by decide) (by decide)]
  intro h
  obtain ⟨x, hx⟩ := h.1 "c" (by simp) false (.down (.start (q := "a") (by simp))
    (by rintro ⟨x, hx⟩; simp at hx) (bn_parent.2 (by simp)))
  simp at hx

/-! ### two transitions -/

theorem moodTwo_acyclic : (moodTwo false).Acyclic :=
  acyclic_of_rank (fun v => if v = "s" then 2 else if v = "r" then 1 else 0) (by decide +kernel)

theorem moodTwo_stochastic : (moodTwo false).Stochastic := by
  intro n hn σ hσ
  simp only [moodTwo, List.mem_cons, List.not_mem_nil, or_false] at hn
  rcases hn with rfl | rfl | rfl | rfl
  · have : ∑ j ∈ Finset.range 2, (moodPrior 0).get [j] = 1 := by decide +kernel
    exact this
  · have : ∑ j ∈ Finset.range 2, (moodPrior 0).get [j] = 1 := by decide +kernel
    exact this
  · have h1 : σ "x" < 2 := hσ "x" (by simp)
    have h2 : σ "y" < 2 := hσ "y" (by simp)
    have : ∀ i < 2, ∀ k < 2, ∑ j ∈ Finset.range 2, (⟨[2, 2, 2], [11 / 20, 1 / 2, 1 / 2, 9 / 20, 9 / 20, 1 / 2, 1 / 2,
      11 / 20], rfl⟩ : NDArray).get [j, i, k] = 1 := by decide +kernel
    exact this _ h1 _ h2
  · have h1 : σ "r" < 2 := hσ "r" (by simp [moodSecond])
    have : ∀ i < 2, ∑ j ∈ Finset.range 2, moodSecond.cpd.get [j, i] = 1 := by decide +kernel
    exact this _ h1

theorem mood_handover_fair (b : Bool) : SoftFairHistory (mood b) ⟨[], none⟩ (moodOps.take 1 ++
    [.unroll .insertion 10 (some (moodEv "t")) none, .setEvidence .reversed 10 none]) := by
  have f1 := moodOps_soft_one b
  have f2 : SoftFairHistory (mood b) ⟨[], none⟩ (moodOps.take 2) := ⟨f1.1, (moodOps_soft b).2.1, trivial⟩
  exact ⟨f1.1, f2.2.1, mood_soft_later b 2 (List.cons_ne_nil _ _) (mood_carried_at b 2 rfl f2) _
    legal_nil (fun _ _ => List.not_mem_nil), trivial⟩

example (b : Bool) {tr : Name × Name} (htr : tr ∈ (mood b).transitions) :=
  C48_several_transitions_partial (mood_ready b).soft ((mood_ready b).independent moodTwo_acyclic moodTwo_stochastic)
    (mood_handover_fair b) rfl rfl (past := [[]]) (e := moodEv "t") rfl htr

end Ex
end Primo
