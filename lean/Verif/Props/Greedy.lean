import Verif.Spec.Greedy
import Verif.Lemmas.Complete
import Verif.Lemmas.Optimize
import Verif.Props.Fit
import Verif.Props.Targets

/-! # Property theorems: fixing the most probable outcome of one variable after the other (C100) -/

namespace Primo
open Finset
variable {bn : BN}

theorem LegalEvidence.snoc {ev : Dict Evidence} (he : LegalEvidence bn ev) {v : Name} {x : Val}
    (hv : v ∈ bn.names) (hx : x ∈ bn.lab v) (hk : v ∉ ev.keys) : LegalEvidence bn (ev ++ [(v, .hard x)]) := by
  refine ⟨?_, ?_, ?_, ?_⟩
  · have : Dict.keys (ev ++ [(v, Evidence.hard x)]) = ev.keys ++ [v] := by simp [Dict.keys]
    rw [this]
    refine List.nodup_append.2 ⟨he.nodup, by simp, ?_⟩
    intro a ha b hb hab
    rw [List.mem_singleton.1 hb] at hab
    exact hk (hab ▸ ha)
  · intro p hp
    rcases List.mem_append.1 hp with hp | hp
    · exact he.mem p hp
    · rw [List.mem_singleton.1 hp]; exact hv
  · intro w y h
    rcases List.mem_append.1 h with h | h
    · exact he.hard w y h
    · simp only [List.mem_singleton, Prod.mk.injEq, Evidence.hard.injEq] at h
      obtain ⟨rfl, rfl⟩ := h; exact hx
  · intro w l h
    rcases List.mem_append.1 h with h | h
    · exact he.soft w l h
    · simp at h

theorem NonNegEvidence.snoc {ev : Dict Evidence} (he : NonNegEvidence ev) (v : Name) (x : Val) :
    NonNegEvidence (ev ++ [(v, .hard x)]) := by
  intro u l h
  rcases List.mem_append.1 h with h | h
  · exact he u l h
  · simp at h

/-- some outcome has at least the average probability -/
theorem posterior_average (hc : bn.Consistent) {ev : Dict Evidence} (he : LegalEvidence bn ev) {v : Name}
    (hv : v ∈ bn.names) {σ : Assign} (hZ : 0 < totalWeight bn ev σ) :
    ∃ i < bn.card v, 1 / (bn.card v : ℚ) ≤ posterior bn ev [v] (Function.update σ v i) := by
  have hs := posterior_sum hc he (Q := [v]) (by simpa using hv) hZ
  rw [List.toFinset_cons, List.toFinset_nil, insert_empty_eq, sumOver_singleton] at hs
  by_contra hcon
  push Not at hcon
  have hpos : 0 < bn.card v := by
    refine Nat.pos_of_ne_zero fun h => ?_
    rw [h] at hs; simp at hs
  have hlt : ∑ i ∈ range (bn.card v), posterior bn ev [v] (Function.update σ v i) <
      ∑ _i ∈ range (bn.card v), 1 / (bn.card v : ℚ) :=
    Finset.sum_lt_sum_of_nonempty ⟨0, by simpa using hpos⟩ fun i hi => hcon i (by simpa using hi)
  rw [hs, Finset.sum_const, card_range, nsmul_eq_mul, mul_one_div,
    div_self (by exact_mod_cast hpos.ne')] at hlt
  exact lt_irrefl _ hlt

/-- one round -/
theorem greedy_step (so : Nat → SetOrder) (hc : bn.Consistent) (hn : bn.NonNeg) {ev : Dict Evidence}
    (he : LegalEvidence bn ev) (hen : NonNegEvidence ev) {σ : Assign} (hZ : 0 < totalWeight bn ev σ) {v : Name}
    (hv : v ∈ bn.names) (hk : v ∉ ev.keys) (hd : (bn.lab v).Nodup) (k : Nat) :
    ∃ x ∈ bn.lab v, (∀ vs, VE.greedy so bn k (v :: vs) ev =
        VE.greedy so bn (k + 1) vs (ev ++ [(v, .hard x)])) ∧
      FirstMax (fun y => posterior bn ev [v] fun _ => (bn.lab v).idxOf y) (bn.lab v) x ∧
      1 / (bn.card v : ℚ) ≤ posterior bn ev [v] (fun _ => (bn.lab v).idxOf x) ∧
      0 < totalWeight bn (ev ++ [(v, .hard x)]) σ := by
  have hq : ∀ u ∈ [v], u ∈ bn.names := by simpa using hv
  have hdep : ∀ τ ρ : Assign, τ v = ρ v → posterior bn ev [v] τ = posterior bn ev [v] ρ := by
    intro τ ρ h
    refine posterior_dependsOn' hc he [v] τ ρ ?_
    intro u hu
    obtain rfl : u = v := by simpa using hu
    exact h
  obtain ⟨i, hi, hav⟩ := posterior_average hc he hv hZ
  obtain ⟨r, h1, h2, h3, h4⟩ := naiveMarginals_spec (so k) hc he hq
  have hne : bn.lab v ≠ [] := by
    intro h
    have : bn.card v = 0 := by rw [BN.card, h]; rfl
    omega
  obtain ⟨x, x1, x2⟩ := pick_spec (r := r) (d := v) (xs := bn.lab v)
    (g := fun y => posterior bn ev [v] fun _ => (bn.lab v).idxOf y) hne (by
      intro x hx
      have hlt : (bn.lab v).idxOf x < bn.card v := List.idxOf_lt_length_of_mem hx
      rw [getPotential_single h2 (fun u => by rw [h3]; simp) hd hx, h4 _ (by
        intro u hu
        obtain rfl : u = v := by simpa using hu
        rw [Function.update_self]; exact hlt)]
      rw [hdep _ (fun _ => (bn.lab v).idxOf x) (by simp)])
  have hx := x2.mem
  have hlt : (bn.lab v).idxOf x < bn.card v := List.idxOf_lt_length_of_mem hx
  have hbig : 1 / (bn.card v : ℚ) ≤ posterior bn ev [v] (fun _ => (bn.lab v).idxOf x) := by
    have hi' : i < (bn.lab v).length := hi
    refine le_trans hav ?_
    have := x2.le (List.getElem_mem hi')
    simp only [hd.idxOf_getElem i hi'] at this
    rwa [hdep _ (fun _ => i) (by simp)]
  have hpos : 0 < posterior bn ev [v] (fun _ => (bn.lab v).idxOf x) :=
    lt_of_lt_of_le (by
      have : 0 < bn.card v := by omega
      positivity) hbig
  have hs := he.snoc hv hx hk
  refine ⟨x, hx, fun vs => ?_, x2, hbig, ?_⟩
  · rw [VE.greedy, h1, ok_bind, x1, ok_bind]
  · refine lt_of_le_of_ne (sumOver_nonneg fun τ _ => weight_nonneg hn (hen.snoc v x) τ) fun h0 => ?_
    have hp := posterior_product hc hn hs hen (Q := []) (by simp) (by simp) (σ := σ) (by intro u hu; simp at hu)
    rw [posterior_eq_zero hn (hen.snoc v x) (Q := []) (by simp) (by intro u hu; simp at hu) h0.symm, zero_mul,
      hdep _ (fun _ => (bn.lab v).idxOf x) (by simp)] at hp
    exact hpos.ne' hp

/-! ## C100 -/

/-- **C100**  The program never fails; it adds an outcome of every listed variable to the evidence, namely the
first most probable one given the evidence and the outcomes fixed before; the evidence with these outcomes stays
possible; and the instantiation found has at least the probability of an instantiation drawn uniformly: one
divided by the number of all instantiations. -/
theorem C100_greedy (so : Nat → SetOrder) (hc : bn.Consistent) (hn : bn.NonNeg) {ev : Dict Evidence}
    (he : LegalEvidence bn ev) (hen : NonNegEvidence ev) {σ : Assign} (hZ : 0 < totalWeight bn ev σ)
    {vs : List Name} (hvs : vs.Nodup) (hm : ∀ v ∈ vs, v ∈ bn.names) (hk : ∀ v ∈ vs, v ∉ ev.keys)
    (hd : ∀ v ∈ vs, (bn.lab v).Nodup) (k : Nat) :
    ∃ α : Name → Val, VE.greedy so bn k vs ev = .ok (ev ++ vs.map fun v => (v, .hard (α v))) ∧
      bn.Outcomes vs α ∧
      (∀ pre v post, vs = pre ++ v :: post → FirstMax
        (fun y => posterior bn (ev ++ pre.map fun u => (u, .hard (α u))) [v] fun _ => (bn.lab v).idxOf y)
        (bn.lab v) (α v)) ∧
      LegalEvidence bn (ev ++ vs.map fun v => (v, .hard (α v))) ∧
      0 < totalWeight bn (ev ++ vs.map fun v => (v, .hard (α v))) σ ∧
      1 / ((vs.map bn.card).prod : ℚ) ≤ posterior bn ev vs (bn.index α) := by
  induction vs generalizing ev k with
  | nil =>
    refine ⟨fun _ => "", by simp [VE.greedy], fun v hv => by simp at hv, ?_, by simpa using he,
      by simpa using hZ, ?_⟩
    · intro pre v post h
      simp at h
    · have hs := posterior_sum hc he (Q := []) (by simp) hZ
      rw [List.toFinset_nil, sumOver_empty] at hs
      have := posterior_dependsOn' hc he [] (bn.index fun _ => "") σ (by intro u hu; simp at hu)
      rw [this, hs]; simp
  | cons v vs ih =>
    obtain ⟨hv', hvs'⟩ := List.nodup_cons.1 hvs
    have hv := hm v (by simp)
    obtain ⟨x, hx, s1, s2, s3, s4⟩ := greedy_step so hc hn he hen hZ hv (hk v (by simp)) (hd v (by simp)) k
    have hs := he.snoc hv hx (hk v (by simp))
    obtain ⟨α, a1, a2, a3, a4, a5, a6⟩ := ih hs (hen.snoc v x) s4 hvs' (fun u hu => hm u (by simp [hu]))
      (fun u hu h => by
        have : u ∈ ev.keys ∨ u = v := by simpa [Dict.keys] using h
        rcases this with h | rfl
        · exact hk u (by simp [hu]) h
        · exact hv' hu) (fun u hu => hd u (by simp [hu])) (k + 1)
    have hu : ∀ u ∈ vs, Function.update α v x u = α u := fun u h =>
      Function.update_of_ne (fun e : u = v => hv' (e ▸ h)) _ _
    have hmap : ∀ us : List Name, (∀ u ∈ us, u ∈ vs) →
        (us.map fun u => (u, Evidence.hard (Function.update α v x u))) = us.map fun u => (u, .hard (α u)) :=
      fun us h => List.map_congr_left fun u hu' => by rw [hu u (h u hu')]
    have hall : (ev ++ (v :: vs).map fun u => (u, Evidence.hard (Function.update α v x u))) =
        (ev ++ [(v, .hard x)]) ++ vs.map fun u => (u, .hard (α u)) := by
      rw [List.map_cons, hmap vs fun _ h => h, Function.update_self, List.append_assoc]; rfl
    refine ⟨Function.update α v x, ?_, ?_, ?_, ?_, ?_, ?_⟩
    · rw [hall, s1, a1]
    · intro u hu'
      rcases List.mem_cons.1 hu' with rfl | h
      · rw [Function.update_self]; exact hx
      · rw [hu u h]; exact a2 u h
    · intro pre w post e
      cases pre with
      | nil =>
        simp only [List.nil_append, List.cons.injEq] at e
        obtain ⟨rfl, rfl⟩ := e
        rw [Function.update_self]
        simpa using s2
      | cons p pre =>
        simp only [List.cons_append, List.cons.injEq] at e
        obtain ⟨rfl, e⟩ := e
        have h := a3 pre w post e
        rw [hu w (by simp [e]), List.map_cons, hmap pre fun u h => by simp [e, h], Function.update_self]
        rw [List.append_assoc] at h
        exact h
    · rw [hall]; exact a4
    · rw [hall]; exact a5
    · have hleg : Legal bn.card vs (bn.index α) := fun u h => List.idxOf_lt_length_of_mem (a2 u h)
      have hp := posterior_product hc hn hs hen (fun u h => hm u (by simp [h])) hv' hleg
      have hidx : bn.index (Function.update α v x) =
          Function.update (bn.index α) v ((bn.lab v).idxOf x) := by
        funext u
        by_cases h : u = v
        · subst h; simp [BN.index]
        · simp [BN.index, h]
      have hone : posterior bn ev [v] (Function.update (bn.index α) v ((bn.lab v).idxOf x)) =
          posterior bn ev [v] fun _ => (bn.lab v).idxOf x := by
        refine posterior_dependsOn' hc he [v] _ _ ?_
        intro u h
        obtain rfl : u = v := by simpa using h
        simp
      rw [hidx, hp, hone, List.map_cons, List.prod_cons, Nat.cast_mul, one_div, mul_inv, mul_comm]
      rw [one_div] at s3 a6
      exact mul_le_mul a6 s3 (by positivity) (le_trans (by positivity) a6)

/-- if the joint probabilities are products, the outcomes found maximise each of the factors -/
theorem greedy_maximal (hc : bn.Consistent) (hn : bn.NonNeg) {ev : Dict Evidence} (hen : NonNegEvidence ev)
    {vs : List Name} (hvs : vs.Nodup) (hm : ∀ v ∈ vs, v ∈ bn.names)
    (hd : ∀ v ∈ vs, (bn.lab v).Nodup) {α : Name → Val} (hα : bn.Outcomes vs α)
    (hmax : ∀ pre v post, vs = pre ++ v :: post → FirstMax
      (fun y => posterior bn (ev ++ pre.map fun u => (u, .hard (α u))) [v] fun _ => (bn.lab v).idxOf y)
      (bn.lab v) (α v))
    (he : LegalEvidence bn (ev ++ vs.map fun v => (v, .hard (α v))))
    {g : Name → Nat → ℚ} (hg1 : ∀ v ∈ vs, ∑ i ∈ range (bn.card v), g v i = 1)
    (hi : ∀ τ, Legal bn.card vs τ → posterior bn ev vs τ = (vs.map fun v => g v (τ v)).prod) :
    ∀ v ∈ vs, ∀ i < bn.card v, g v i ≤ g v (bn.index α v) := by
  induction vs generalizing ev with
  | nil => simp
  | cons v vs ih =>
    obtain ⟨hv', hvs'⟩ := List.nodup_cons.1 hvs
    have hv := hm v (by simp)
    have hcat : (ev ++ (v :: vs).map fun u => (u, Evidence.hard (α u))) =
        (ev ++ [(v, .hard (α v))]) ++ vs.map fun u => (u, .hard (α u)) := by
      rw [List.map_cons, List.append_assoc]; rfl
    have he0 : LegalEvidence bn ev := he.append_left
    have hleg : Legal bn.card (v :: vs) (bn.index α) := fun u h => List.idxOf_lt_length_of_mem (hα u h)
    have hone : ∀ i < bn.card v, posterior bn ev [v] (fun _ => i) = g v i := by
      intro i hi'
      have hdep := posterior_dependsOn' hc he0 [v] (fun _ => i) (Function.update (bn.index α) v i) (by
        intro u hu
        obtain rfl : u = v := by simpa using hu
        simp)
      rw [hdep, ← posterior_sumOut hc he0 hm (S := [v]) (by simp),
        sumOver_congr (G := fun τ => ∏ u ∈ (v :: vs).toFinset, g u (τ u)) fun τ hτ => ?_,
        sumOver_prod_single (card := bn.card) (v :: vs).toFinset _ sdiff_subset g,
        sdiff_sdiff_right_self, prod_eq_one fun w hw => hg1 w ?_, one_mul]
      · have : (v :: vs).toFinset ⊓ [v].toFinset = {v} := by
          ext u; simp
        rw [this, prod_singleton, Function.update_self]
      · exact List.mem_toFinset.1 (mem_sdiff.1 hw).1
      · rw [List.prod_toFinset _ hvs]
        refine hi τ fun u hu => ?_
        by_cases h : u = v
        · subst h
          rw [hτ.1 u (by simp), Function.update_self]; exact hi'
        · exact hτ.2 u (by simpa [h] using hu)
    have hx := hα v (by simp)
    have hlt : bn.index α v < bn.card v := hleg v (by simp)
    have hfirst := hmax [] v vs rfl
    simp only [List.map_nil, List.append_nil] at hfirst
    have htop : ∀ i < bn.card v, g v i ≤ g v (bn.index α v) := by
      intro i hi'
      have hi'' : i < (bn.lab v).length := hi'
      have := hfirst.le (List.getElem_mem hi'')
      simp only [(hd v (by simp)).idxOf_getElem i hi''] at this
      rw [hone i hi'] at this
      rwa [← hone _ hlt]
    have hp : 0 < g v (bn.index α v) := by
      by_contra h
      have := hg1 v (by simp)
      have h0 : ∑ i ∈ range (bn.card v), g v i ≤ 0 :=
        Finset.sum_nonpos fun i hi' => (htop i (by simpa using hi')).trans (not_lt.1 h)
      linarith
    intro u hu
    rcases List.mem_cons.1 hu with rfl | hu
    · exact htop
    refine ih (ev := ev ++ [(v, .hard (α v))]) (hen.snoc _ _) hvs' (fun u h => hm u (by simp [h]))
      (fun u h => hd u (by simp [h])) (fun u h => hα u (by simp [h])) ?_ (by rw [← hcat]; exact he)
      (fun u h => hg1 u (by simp [h])) ?_ u hu
    · intro pre w post e
      have := hmax (v :: pre) w post (by rw [e]; rfl)
      rw [List.append_assoc]
      exact this
    · intro τ hτ
      have hk : v ∉ ev.keys := by
        have hnd := he.nodup
        intro h
        have e : Dict.keys (ev ++ (v :: vs).map fun u => (u, Evidence.hard (α u))) = ev.keys ++ v :: vs := by
          simp [Dict.keys, Function.comp_def]
        rw [e] at hnd
        exact (List.nodup_append.1 hnd).2.2 v h v (by simp) rfl
      have hpr := posterior_product hc hn (he0.snoc hv hx hk) hen (fun u h => hm u (by simp [h])) hv' hτ
      have hdep := posterior_dependsOn' hc he0 [v] (Function.update τ v ((bn.lab v).idxOf (α v)))
        (fun _ => bn.index α v) (by
        intro u hu
        obtain rfl : u = v := by simpa using hu
        simp [BN.index])
      rw [hdep, hone _ hlt, hi _ ?_, List.map_cons, List.prod_cons, Function.update_self] at hpr
      · have hrest : (vs.map fun u => g u (Function.update τ v ((bn.lab v).idxOf (α v)) u)) =
            vs.map fun u => g u (τ u) :=
          List.map_congr_left fun u h => by
            rw [Function.update_of_ne (fun e : u = v => hv' (e ▸ h))]
        rw [hrest, mul_comm] at hpr
        exact (mul_right_cancel₀ hp.ne' hpr).symm
      · intro u h
        by_cases e : u = v
        · subst e; rw [Function.update_self]; exact hlt
        · rw [Function.update_of_ne e]
          rcases List.mem_cons.1 h with h | h
          · exact absurd h e
          · exact hτ u h

/-- **C100**  If the variables are independent given the evidence, the instantiation found is a most probable
one. -/
theorem C100_independent (so : Nat → SetOrder) (hc : bn.Consistent) (hn : bn.NonNeg) {ev : Dict Evidence}
    (he : LegalEvidence bn ev) (hen : NonNegEvidence ev) {σ : Assign} (hZ : 0 < totalWeight bn ev σ)
    {vs : List Name} (hvs : vs.Nodup) (hm : ∀ v ∈ vs, v ∈ bn.names) (hk : ∀ v ∈ vs, v ∉ ev.keys)
    (hd : ∀ v ∈ vs, (bn.lab v).Nodup)
    (hi : ∀ τ, Legal bn.card vs τ → posterior bn ev vs τ = (vs.map fun v => posterior bn ev [v] τ).prod)
    (k : Nat) :
    ∃ α : Name → Val, VE.greedy so bn k vs ev = .ok (ev ++ vs.map fun v => (v, .hard (α v))) ∧
      bn.Outcomes vs α ∧ ∀ β, bn.Outcomes vs β →
        posterior bn ev vs (bn.index β) ≤ posterior bn ev vs (bn.index α) := by
  obtain ⟨α, a1, a2, a3, a4, -⟩ := C100_greedy so hc hn he hen hZ hvs hm hk hd k
  refine ⟨α, a1, a2, fun β hβ => ?_⟩
  have hdep : ∀ v τ, posterior bn ev [v] τ = posterior bn ev [v] fun _ => τ v := fun v τ =>
    posterior_dependsOn' hc he [v] _ _ (by
      intro u hu
      obtain rfl : u = v := by simpa using hu
      rfl)
  have hi' : ∀ τ, Legal bn.card vs τ →
      posterior bn ev vs τ = (vs.map fun v => posterior bn ev [v] fun _ => τ v).prod := fun τ hτ => by
    rw [hi τ hτ]
    exact congrArg List.prod (List.map_congr_left fun v _ => hdep v τ)
  have hone : ∀ v ∈ vs, ∑ i ∈ range (bn.card v), posterior bn ev [v] (fun _ => i) = 1 := by
    intro v hv
    have hs := posterior_sum hc he (Q := [v]) (by simpa using hm v hv) hZ
    rw [List.toFinset_cons, List.toFinset_nil, insert_empty_eq, sumOver_singleton] at hs
    rw [← hs]
    refine Finset.sum_congr rfl fun i _ => ?_
    rw [hdep v (Function.update σ v i), Function.update_self]
  have hbest := greedy_maximal hc hn hen hvs hm hd a2 a3 a4
    (g := fun v i => posterior bn ev [v] fun _ => i) hone hi'
  rw [hi' (bn.index β) fun v hv => List.idxOf_lt_length_of_mem (hβ v hv),
    hi' (bn.index α) fun v hv => List.idxOf_lt_length_of_mem (a2 v hv), ← List.prod_toFinset _ hvs,
    ← List.prod_toFinset _ hvs]
  refine Finset.prod_le_prod (fun v _ => posterior_nonneg hn hen _ _) fun v hv => ?_
  have hv' := List.mem_toFinset.1 hv
  exact hbest v hv' _ (List.idxOf_lt_length_of_mem (hβ v hv'))

/-- **C100**  In particular if no two of the variables are connected by an active trail given the evidence. -/
theorem C100_separated (so : Nat → SetOrder) (hc : bn.Consistent) (ha : bn.Acyclic) (hs : bn.Stochastic)
    (hn : bn.NonNeg) {ev : Dict Evidence} (he : LegalEvidence bn ev) (hen : NonNegEvidence ev) {σ : Assign}
    (hZ : 0 < totalWeight bn ev σ) {vs : List Name} (hvs : vs.Nodup) (hm : ∀ v ∈ vs, v ∈ bn.names)
    (hk : ∀ v ∈ vs, v ∉ ev.keys) (hd : ∀ v ∈ vs, (bn.lab v).Nodup) (hsc : bn.Scattered ev vs) (k : Nat) :
    ∃ α : Name → Val, VE.greedy so bn k vs ev = .ok (ev ++ vs.map fun v => (v, .hard (α v))) ∧
      bn.Outcomes vs α ∧ ∀ β, bn.Outcomes vs β →
        posterior bn ev vs (bn.index β) ≤ posterior bn ev vs (bn.index α) := by
  refine C100_independent so hc hn he hen hZ hvs hm hk hd (fun τ hτ => ?_) k
  rcases eq_or_ne vs [] with rfl | hne
  · have h := posterior_sum hc he (Q := []) (by simp) hZ
    rw [List.toFinset_nil, sumOver_empty] at h
    rw [posterior_dependsOn' hc he [] τ σ (by intro u hu; simp at hu), h]
    simp
  · exact hsc.splits hc ha hs hn he hen hne hm hτ

/-- **C100**  A certificate that can be read off an answer of the library: an instantiation with a probability
above one half, found by the program or otherwise, is more probable than every other one. -/
theorem C100_certificate (so : SetOrder) (hc : bn.Consistent) (hn : bn.NonNeg) {ev : Dict Evidence}
    (he : LegalEvidence bn ev) (hen : NonNegEvidence ev) {σ : Assign} (hZ : 0 < totalWeight bn ev σ)
    {vs : List Name} (hm : ∀ v ∈ vs, v ∈ bn.names) {r : Factor} (hr : VE.naiveMarginals so bn vs ev = .ok r)
    {α β : Name → Val} (hα : bn.Outcomes vs α) (hβ : bn.Outcomes vs β) {v : Name} (hv : v ∈ vs)
    (hne : β v ≠ α v) (h : 1 / 2 < r.eval (bn.index α)) : r.eval (bn.index β) < r.eval (bn.index α) := by
  obtain ⟨r', h1, -, -, -, h4⟩ := C13_naive_exact so bn hc ev he vs hm
  rw [hr] at h1
  cases h1
  have hlα : Legal bn.card vs (bn.index α) := fun u hu => List.idxOf_lt_length_of_mem (hα u hu)
  have hlβ : Legal bn.card vs (bn.index β) := fun u hu => List.idxOf_lt_length_of_mem (hβ u hu)
  rw [h4 _ hlα] at h ⊢
  rw [h4 _ hlβ]
  have hle : ∀ γ, Legal bn.card vs γ → posterior bn ev vs γ ≤ posterior bn ev [v] (Function.update σ v (γ v)) := by
    intro γ hγ
    have hdep := posterior_dependsOn' hc he [v] (Function.update σ v (γ v)) γ (by
      intro u hu
      obtain rfl : u = v := by simpa using hu
      simp)
    rw [hdep, ← posterior_sumOut hc he hm (S := [v]) (by simpa using hv) γ]
    exact le_sumOver (fun τ _ => posterior_nonneg hn hen _ _)
      ⟨fun _ _ => rfl, fun u hu => hγ u (List.mem_toFinset.1 (mem_sdiff.1 hu).1)⟩
  have hs := posterior_sum hc he (Q := [v]) (by simpa using hm v hv) hZ
  rw [List.toFinset_cons, List.toFinset_nil, insert_empty_eq, sumOver_singleton] at hs
  have hij : bn.index α v ≠ bn.index β v := fun e =>
    hne ((List.idxOf_inj (hβ v hv)).1 e.symm)
  have htwo : posterior bn ev [v] (Function.update σ v (bn.index α v)) +
      posterior bn ev [v] (Function.update σ v (bn.index β v)) ≤ 1 := by
    rw [← hs, ← Finset.sum_pair (f := fun i => posterior bn ev [v] (Function.update σ v i)) hij]
    refine Finset.sum_le_sum_of_subset_of_nonneg ?_ fun i _ _ => posterior_nonneg hn hen _ _
    intro i hi
    simp only [Finset.mem_insert, Finset.mem_singleton] at hi
    rcases hi with rfl | rfl
    · exact Finset.mem_range.2 (hlα v hv)
    · exact Finset.mem_range.2 (hlβ v hv)
  have := hle _ hlα
  have := hle _ hlβ
  linarith

/-- `p → q`: the most probable outcome of `p` belongs to a less probable pair -/
def Ex.lureP : NodeV := ⟨"p", .discrete, ["x", "y"], [], [], ["q"], ⟨[2], [2 / 5, 3 / 5], rfl⟩, false⟩
def Ex.lureQ : NodeV := ⟨"q", .discrete, ["x", "y"], ["p"], [("p", ["x", "y"])], [],
  ⟨[2, 2], [1, 1 / 2, 0, 1 / 2], rfl⟩, false⟩
def Ex.lure : BN := [Ex.lureP, Ex.lureQ]

theorem Ex.lure_consistent : Ex.lure.Consistent := by
  constructor <;> decide

theorem Ex.lure_nonneg : Ex.lure.NonNeg := by
  intro n hn
  simp only [lure, List.mem_cons, List.not_mem_nil, or_false] at hn
  rcases hn with rfl | rfl <;> decide +kernel

theorem Ex.lure_empty : LegalEvidence Ex.lure [] :=
  ⟨by decide, by simp, by simp, by simp⟩

/-- **C100**  The instantiation found need not be the most probable one, even if all variables are listed, in an
order with parents before children. -/
theorem C100_global_refuted : ∃ (bn : BN) (vs : List Name) (α β : Name → Val), bn.Consistent ∧ bn.NonNeg ∧
    vs = bn.names ∧ bn.Outcomes vs β ∧ (∀ so k, VE.greedy so bn k vs [] =
      .ok (vs.map fun v => (v, .hard (α v)))) ∧
    posterior bn [] vs (bn.index α) < posterior bn [] vs (bn.index β) := by
  refine ⟨Ex.lure, ["p", "q"], fun v => if v = "p" then "y" else "x", fun _ => "x", Ex.lure_consistent,
    Ex.lure_nonneg, rfl, by intro v hv; revert v; decide, fun so k => ?_, by decide +kernel⟩
  obtain ⟨α, a1, a2, a3, -⟩ := C100_greedy so Ex.lure_consistent Ex.lure_nonneg (ev := []) Ex.lure_empty
    (fun _ _ h => by simp at h) (σ := fun _ => 0) (by decide +kernel) (vs := ["p", "q"]) (by decide)
    (by decide) (by simp [Dict.keys]) (by decide) k
  have hp : α "p" = "y" := by
    have h := a3 [] "p" ["q"] rfl
    have key : ∀ x ∈ Ex.lure.lab "p", (∀ y ∈ Ex.lure.lab "p",
        posterior Ex.lure [] ["p"] (fun _ => (Ex.lure.lab "p").idxOf y) ≤
          posterior Ex.lure [] ["p"] (fun _ => (Ex.lure.lab "p").idxOf x)) → x = "y" := by decide +kernel
    exact key _ h.mem fun y hy => h.le hy
  have hq : α "q" = "x" := by
    have h := a3 ["p"] "q" [] rfl
    simp only [List.map_cons, List.map_nil, hp, List.nil_append] at h
    obtain ⟨pre, post, e, h1, -⟩ := h
    have hl : Ex.lure.lab "q" = ["x", "y"] := by decide
    rw [hl] at e
    cases pre with
    | nil => simp only [List.nil_append, List.cons.injEq] at e; exact e.1.symm
    | cons w pre =>
      exfalso
      have hw : w = "x" := by simp only [List.cons_append, List.cons.injEq] at e; exact e.1.symm
      have hy : α "q" = "y" := by
        cases pre with
        | nil => simp only [List.cons_append, List.nil_append, List.cons.injEq] at e; exact e.2.1.symm
        | cons u pre => simp at e
      have := h1 w (by simp)
      rw [hw, hy] at this
      revert this
      decide +kernel
  rw [a1]
  simp [hp, hq]

/-- The bound is attained: with uniform tables every instantiation has exactly this probability. -/
theorem C100_bound_attained : ∃ (bn : BN) (vs : List Name), bn.Consistent ∧ bn.NonNeg ∧ vs = bn.names ∧
    vs.length = 2 ∧ ∀ α, bn.Outcomes vs α →
      posterior bn [] vs (bn.index α) = 1 / ((vs.map bn.card).prod : ℚ) := by
  refine ⟨[{ Ex.lureP with cpd := ⟨[2], [1 / 2, 1 / 2], rfl⟩ },
    { Ex.lureQ with cpd := ⟨[2, 2], [1 / 2, 1 / 2, 1 / 2, 1 / 2], rfl⟩ }], ["p", "q"], ?_, ?_, rfl, rfl, ?_⟩
  · constructor <;> decide
  · intro n hn
    simp only [List.mem_cons, List.not_mem_nil, or_false] at hn
    rcases hn with rfl | rfl <;> decide +kernel
  · intro α hα
    have key : ∀ i < 2, ∀ j < 2, posterior [{ Ex.lureP with cpd := ⟨[2], [1 / 2, 1 / 2], rfl⟩ },
        { Ex.lureQ with cpd := ⟨[2, 2], [1 / 2, 1 / 2, 1 / 2, 1 / 2], rfl⟩ }] [] ["p", "q"]
        (fun v => if v = "p" then i else j) = 1 / 4 := by decide +kernel
    have hp := List.idxOf_lt_length_of_mem (hα "p" (by simp))
    have hq := List.idxOf_lt_length_of_mem (hα "q" (by simp))
    have := key _ hp _ hq
    rw [← posterior_dependsOn' (by constructor <;> decide) ⟨by decide, by simp, by simp, by simp⟩ _
      (BN.index _ α) _ ?_] at this
    · rw [this]; decide +kernel
    · intro v hv
      have hv' : v = "p" ∨ v = "q" := by simpa using hv
      rcases hv' with rfl | rfl <;> simp [BN.index]

/-- `p` and `q` have different outcomes, and are uniform on their own -/
def Ex.differ : BN := [{ Ex.lureP with cpd := ⟨[2], [1 / 2, 1 / 2], rfl⟩ },
  { Ex.lureQ with cpd := ⟨[2, 2], [0, 1, 1, 0], rfl⟩ }]

/-- **C100**  The outcomes have to be fixed one after the other: the first most probable outcomes of the single
variables, each given the evidence only, can be impossible together. -/
theorem C100_single_refuted : ∃ (bn : BN) (vs : List Name) (α : Name → Val), bn.Consistent ∧ bn.NonNeg ∧
    bn.Outcomes vs α ∧ 0 < totalWeight bn [] (fun _ => 0) ∧
    (∀ v ∈ vs, FirstMax (fun y => posterior bn [] [v] fun _ => (bn.lab v).idxOf y) (bn.lab v) (α v)) ∧
    posterior bn [] vs (bn.index α) = 0 := by
  refine ⟨Ex.differ, ["p", "q"], fun _ => "x", by constructor <;> decide, ?_, ?_, by decide +kernel, ?_,
    by decide +kernel⟩
  · intro n hn
    simp only [Ex.differ, List.mem_cons, List.not_mem_nil, or_false] at hn
    rcases hn with rfl | rfl <;> decide +kernel
  · intro v hv; revert v; decide
  · intro v hv
    simp only [List.mem_cons, List.not_mem_nil, or_false] at hv
    rcases hv with rfl | rfl
    · exact ⟨[], ["y"], by decide, by simp, by decide +kernel⟩
    · exact ⟨[], ["y"], by decide, by simp, by decide +kernel⟩

/-- the hypotheses are met -/
example := C100_independent (fun _ => .insertion) Ex.bn_consistent Ex.bn_nonneg legal_nil
  (fun _ _ h => by simp at h) (σ := fun _ => 0) (by decide +kernel) (vs := ["a", "b"]) (by decide) (by decide)
  (by simp [Dict.keys]) (by decide) (fun τ hτ => by
    rw [Ex.roots_independent τ hτ]
    exact congrArg List.prod (List.map_congr_left fun v _ => priorAt_eq Ex.bn_consistent τ)) 0

example := C100_separated (fun _ => .insertion) Ex.bn_consistent Ex.bn_acyclic Ex.bn_stochastic Ex.bn_nonneg
  legal_nil (fun _ _ h => by simp at h) (σ := fun _ => 0) (by decide +kernel) (vs := ["a", "b"]) (by decide)
  (by decide) (by simp [Dict.keys]) (by decide) Ex.roots_scattered 0

example : ∃ r, VE.naiveMarginals .insertion Ex.bn ["c", "a"] Ex.ev = .ok r ∧
    1 / 2 < r.eval (Ex.bn.index fun _ => "f") ∧
    r.eval (Ex.bn.index fun _ => "t") < r.eval (Ex.bn.index fun _ => "f") := by
  obtain ⟨r, h1, -, -, -, h4⟩ := C13_naive_exact .insertion Ex.bn Ex.bn_consistent Ex.ev Ex.ev_legal ["c", "a"]
    (by decide)
  have hf : Ex.bn.Outcomes ["c", "a"] fun _ => "f" := by intro v hv; revert v; decide
  have ht : Ex.bn.Outcomes ["c", "a"] fun _ => "t" := by intro v hv; revert v; decide
  have hbig : 1 / 2 < r.eval (Ex.bn.index fun _ => "f") := by
    rw [h4 (Ex.bn.index fun _ => "f") fun v hv => List.idxOf_lt_length_of_mem (hf v hv)]
    decide +kernel
  exact ⟨r, h1, hbig, C100_certificate .insertion Ex.bn_consistent Ex.bn_nonneg Ex.ev_legal Ex.ev_nonneg
    (σ := fun _ => 0) (by decide +kernel) (by decide) h1 hf ht (v := "a") (by decide) (by decide) hbig⟩

example := C100_greedy (fun _ => .insertion) Ex.bn_consistent Ex.bn_nonneg Ex.ev_legal Ex.ev_nonneg
  (σ := fun _ => 0) (by decide +kernel) (vs := ["c", "a"]) (by decide) (by decide) (by decide) (by decide) 0

-- the model run on the network
example : VE.greedy (fun _ => .insertion) Ex.bn 0 ["c", "a"] Ex.ev =
    .ok (Ex.ev ++ [("c", .hard "f"), ("a", .hard "f")]) := by decide +kernel

end Primo
