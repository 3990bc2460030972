import Verif.Spec.PosteriorDraw
import Verif.Lemmas.Forward
import Verif.Lemmas.GeneratorUse
import Verif.Props.Greedy

/-! # Property theorems: drawing from the posterior, one variable after the other (C101) -/

namespace Primo
open Finset
variable {bn : BN}

theorem VE.column_spec (so : SetOrder) (hc : bn.Consistent) {ev : Dict Evidence} (he : LegalEvidence bn ev)
    {v : Name} (hv : v ∈ bn.names) (hd : (bn.lab v).Nodup) : VE.column so bn v ev =
      .ok ((bn.lab v).map fun x => posterior bn ev [v] fun _ => (bn.lab v).idxOf x) := by
  obtain ⟨r, h1, h2, h3, h4⟩ := naiveMarginals_spec so hc he (Q := [v]) (by simpa using hv)
  rw [VE.column, h1, ok_bind, Factor.column]
  have key : ∀ xs : List Val, (∀ x ∈ xs, x ∈ bn.lab v) → (xs.mapM fun x => do
      let a ← r.getPotential [(v, [x])]
      match a.data with
      | [p] => Except.ok p
      | _ => .error PyErr.typeError) =
        .ok (xs.map fun x => posterior bn ev [v] fun _ => (bn.lab v).idxOf x) := by
    intro xs
    induction xs with
    | nil => intro _; rfl
    | cons x xs ih =>
      intro hxs
      have hx := hxs x (by simp)
      rw [List.mapM_cons, getPotential_single h2 (fun u => by rw [h3]; simp) hd hx, ok_bind,
        ih fun y hy => hxs y (by simp [hy]), h4 _ (by
          intro u hu
          obtain rfl : u = v := by simpa using hu
          rw [Function.update_self]; exact List.idxOf_lt_length_of_mem hx),
        posterior_dependsOn' hc he [v] _ (fun _ => (bn.lab v).idxOf x) (by
          intro u hu
          obtain rfl : u = v := by simpa using hu
          simp)]
      rfl
  exact key _ fun _ h => h

/-- results start with the evidence -/
theorem draw_other (so : Nat → SetOrder) (vs : List Name) : ∀ (ev : Dict Evidence) (k : Nat)
    {target : Dict Evidence}, ¬ ev <+: target →
    (VE.draw so bn k vs ev).prob (fun r => r = .ok target) = 0 := by
  induction vs with
  | nil =>
    intro ev k target h
    have : ev ≠ target := fun e => h (e ▸ List.prefix_refl _)
    simp [VE.draw, Rand.prob, this]
  | cons v vs ih =>
    intro ev k target h
    rw [VE.draw]
    cases VE.column (so k) bn v ev with
    | error e => simp [Rand.prob]
    | ok ws =>
      rw [Rand.andThen_ok, Rand.prob, Rand.expect_uniform]
      have h0 : ∀ u : ℝ, Rand.prob (match roulette ((bn.lab v).zip ws) 0 (u * (ws.sum : ℚ)) with
          | none => Rand.pure (Except.error PyErr.noneValue : Except PyErr (Dict Evidence))
          | some x => VE.draw so bn (k + 1) vs (ev ++ [(v, Evidence.hard x)]))
            (fun r => r = Except.ok target) = 0 := by
        intro u
        cases roulette ((bn.lab v).zip ws) 0 (u * (ws.sum : ℚ)) with
        | none => simp [Rand.prob]
        | some x => exact ih (ev ++ [(v, .hard x)]) (k + 1) fun h' => h ((List.prefix_append _ _).trans h')
      exact (intervalIntegral.integral_congr (g := fun _ => (0 : ℝ)) fun u _ => h0 u).trans (by simp)

theorem column_sum (hc : bn.Consistent) {ev : Dict Evidence} (he : LegalEvidence bn ev) {v : Name}
    (hv : v ∈ bn.names) (hd : (bn.lab v).Nodup) {σ : Assign} (hZ : 0 < totalWeight bn ev σ) :
    ((bn.lab v).map fun x => posterior bn ev [v] fun _ => (bn.lab v).idxOf x).sum = 1 := by
  have hs := posterior_sum hc he (Q := [v]) (by simpa using hv) hZ
  rw [List.toFinset_cons, List.toFinset_nil, insert_empty_eq, sumOver_singleton] at hs
  rw [← hs]
  have : ((bn.lab v).map fun x => posterior bn ev [v] fun _ => (bn.lab v).idxOf x) =
      (List.range (bn.card v)).map fun i => posterior bn ev [v] (Function.update σ v i) := by
    refine List.ext_getElem (by simp [BN.card]) fun i h1 h2 => ?_
    have hi : i < (bn.lab v).length := by simpa using h1
    simp only [List.getElem_map, List.getElem_range, hd.idxOf_getElem i hi]
    refine posterior_dependsOn' hc he [v] _ _ ?_
    intro u hu
    obtain rfl : u = v := by simpa using hu
    simp
  rw [this, ← List.sum_toFinset _ List.nodup_range, List.toFinset_range]

/-- observing a possible outcome is possible evidence -/
theorem totalWeight_snoc_pos (hc : bn.Consistent) (hn : bn.NonNeg) {ev : Dict Evidence}
    (he : LegalEvidence bn ev) (hen : NonNegEvidence ev) {σ : Assign} {v : Name} {x : Val}
    (hs : LegalEvidence bn (ev ++ [(v, .hard x)]))
    (hpos : 0 < posterior bn ev [v] fun _ => (bn.lab v).idxOf x) :
    0 < totalWeight bn (ev ++ [(v, .hard x)]) σ := by
  refine lt_of_le_of_ne (sumOver_nonneg fun τ _ => weight_nonneg hn (hen.snoc v x) τ) fun h0 => ?_
  have hp := posterior_product hc hn hs hen (Q := []) (by simp) (by simp) (σ := σ) (by intro u hu; simp at hu)
  rw [posterior_eq_zero hn (hen.snoc v x) (Q := []) (by simp) (by intro u hu; simp at hu) h0.symm, zero_mul,
    posterior_dependsOn' hc he [v] _ (fun _ => (bn.lab v).idxOf x) (by
      intro u hu
      obtain rfl : u = v := by simpa using hu
      simp)] at hp
  exact hpos.ne' hp

/-! ## C101 -/

/-- **C101**  Every instantiation of the variables is drawn with exactly its posterior probability. -/
theorem C101_exact (so : Nat → SetOrder) (hc : bn.Consistent) (hn : bn.NonNeg) {ev : Dict Evidence}
    (he : LegalEvidence bn ev) (hen : NonNegEvidence ev) {σ : Assign} (hZ : 0 < totalWeight bn ev σ)
    {vs : List Name} (hvs : vs.Nodup) (hm : ∀ v ∈ vs, v ∈ bn.names) (hk : ∀ v ∈ vs, v ∉ ev.keys)
    (hd : ∀ v ∈ vs, (bn.lab v).Nodup) {α : Name → Val} (hα : bn.Outcomes vs α) (k : Nat) :
    (VE.draw so bn k vs ev).prob (fun r => r = .ok (ev ++ vs.map fun v => (v, .hard (α v)))) =
      ((posterior bn ev vs (bn.index α) : ℚ) : ℝ) := by
  classical
  induction vs generalizing ev k with
  | nil =>
    have hs := posterior_sum hc he (Q := []) (by simp) hZ
    rw [List.toFinset_nil, sumOver_empty] at hs
    rw [posterior_dependsOn' hc he [] (bn.index α) σ (by intro u hu; simp at hu), hs]
    simp [VE.draw, Rand.prob]
  | cons v vs ih =>
    obtain ⟨hv', hvs'⟩ := List.nodup_cons.1 hvs
    have hv := hm v (by simp)
    have hx := hα v (by simp)
    have hdv := hd v (by simp)
    have hs := he.snoc hv hx (hk v (by simp))
    set w : Val → ℚ := fun x => posterior bn ev [v] fun _ => (bn.lab v).idxOf x with hw
    set target := ev ++ (v :: vs).map fun u => (u, Evidence.hard (α u)) with ht
    have htarget : target = (ev ++ [(v, .hard (α v))]) ++ vs.map fun u => (u, .hard (α u)) := by
      rw [ht, List.map_cons, List.append_assoc]; rfl
    let G : Option Val → ℝ := fun r => match r with
      | none => 0
      | some x => (VE.draw so bn (k + 1) vs (ev ++ [(v, .hard x)])).prob fun r => r = .ok target
    have hsum : ((bn.lab v).map w).sum = 1 := column_sum hc he hv hdv hZ
    have hE : (VE.draw so bn k (v :: vs) ev).prob (fun r => r = .ok target) =
        ∫ u in (0 : ℝ)..1, G (roulette ((bn.lab v).map fun x => (x, w x)) 0 (u * ((1 : ℚ) : ℝ))) := by
      rw [VE.draw, VE.column_spec (so k) hc he hv hdv, Rand.andThen_ok, Rand.prob, Rand.expect_uniform,
        hsum, zip_map_self]
      congr 1
      funext u
      cases roulette ((bn.lab v).map fun x => (x, w x)) 0 (u * ((1 : ℚ) : ℝ)) with
      | none => simp [G]
      | some x => rfl
    have hI := (roulette_integral G one_pos ((bn.lab v).map fun x => (x, w x)) (by
      intro p hp
      obtain ⟨x, -, rfl⟩ := List.mem_map.1 hp
      exact posterior_nonneg hn hen _ _) 0 (by
        rw [zero_add, List.map_map]; exact hsum)).2
    rw [zero_div, Rat.cast_zero] at hI
    rw [hE, hI, List.map_map]
    have hG : ∀ x, x ≠ α v → G (some x) = 0 := by
      intro x hne
      refine draw_other so vs _ _ fun hp => hne ?_
      rw [htarget, List.append_assoc, List.prefix_append_right_inj] at hp
      obtain ⟨t, ht'⟩ := hp
      simp only [List.cons_append, List.cons.injEq, Prod.mk.injEq,
        Evidence.hard.injEq, true_and] at ht'
      exact ht'.1
    have hone : ((bn.lab v).map ((fun p : Val × ℚ => ((p.2 / 1 : ℚ) : ℝ) * G (some p.1)) ∘
        fun x => (x, w x))).sum = ((w (α v) : ℚ) : ℝ) * G (some (α v)) := by
      obtain ⟨pre, post, e⟩ := List.append_of_mem hx
      have hz : ∀ l : List Val, α v ∉ l → (l.map ((fun p : Val × ℚ => ((p.2 / 1 : ℚ) : ℝ) * G (some p.1)) ∘
          fun x => (x, w x))).sum = 0 := by
        intro l hl
        refine List.sum_eq_zero fun y hy => ?_
        obtain ⟨x, hx', rfl⟩ := List.mem_map.1 hy
        simp only [Function.comp]
        rw [hG x fun e => hl (e ▸ hx'), mul_zero]
      have hnd := hdv
      rw [e] at hnd
      have hnd' := List.nodup_middle.1 hnd
      have hni := (List.nodup_cons.1 hnd').1
      rw [e, List.map_append, List.map_cons, List.sum_append, List.sum_cons,
        hz pre fun h => hni (by simp [h]), hz post fun h => hni (by simp [h])]
      simp
    rw [hone]
    have hleg : Legal bn.card vs (bn.index α) := fun u h => List.idxOf_lt_length_of_mem (hα u (by simp [h]))
    have hp := posterior_product hc hn hs hen (fun u h => hm u (by simp [h])) hv' hleg
    have hidx : Function.update (bn.index α) v ((bn.lab v).idxOf (α v)) = bn.index α :=
      Function.update_eq_self v (bn.index α)
    have hwv : posterior bn ev [v] (bn.index α) = w (α v) := posterior_dependsOn' hc he [v] _ _ (by
      intro u hu
      obtain rfl : u = v := by simpa using hu
      rfl)
    rw [hidx, hwv] at hp
    rw [hp, Rat.cast_mul, mul_comm]
    rcases (posterior_nonneg hn hen [v] fun _ => (bn.lab v).idxOf (α v)).eq_or_lt with h0 | hpos
    · have : w (α v) = 0 := h0.symm
      rw [this]; simp
    · congr 1
      have := ih hs (hen.snoc v (α v)) (totalWeight_snoc_pos hc hn he hen (σ := σ) hs hpos) hvs'
        (fun u hu => hm u (by simp [hu])) (fun u hu h => by
          have : u ∈ ev.keys ∨ u = v := by simpa [Dict.keys] using h
          rcases this with h | rfl
          · exact hk u (by simp [hu]) h
          · exact hv' hu) (fun u hu => hd u (by simp [hu])) (fun u hu => hα u (by simp [hu])) (k + 1)
      rw [← htarget] at this
      exact this

/-- **C101**  Whatever the random numbers, the program does not fail and adds an outcome of every variable. -/
theorem C101_never_fails (so : Nat → SetOrder) (hc : bn.Consistent) (hn : bn.NonNeg) {ev : Dict Evidence}
    (he : LegalEvidence bn ev) (hen : NonNegEvidence ev) {vs : List Name} (hvs : vs.Nodup)
    (hm : ∀ v ∈ vs, v ∈ bn.names) (hk : ∀ v ∈ vs, v ∉ ev.keys) (hd : ∀ v ∈ vs, (bn.lab v).Nodup)
    (hne : ∀ v ∈ vs, bn.lab v ≠ []) (k : Nat) :
    (VE.draw so bn k vs ev).All fun r => ∃ α, bn.Outcomes vs α ∧
      r = .ok (ev ++ vs.map fun v => (v, .hard (α v))) := by
  induction vs generalizing ev k with
  | nil => exact ⟨fun _ => "", fun v hv => by simp at hv, by simp⟩
  | cons v vs ih =>
    obtain ⟨hv', hvs'⟩ := List.nodup_cons.1 hvs
    have hv := hm v (by simp)
    rw [VE.draw, VE.column_spec (so k) hc he hv (hd v (by simp)), Rand.andThen_ok]
    intro u h0 h1
    rw [zip_map_self]
    set w : Val → ℚ := fun x => posterior bn ev [v] fun _ => (bn.lab v).idxOf x with hw
    have hsum : 0 ≤ ((bn.lab v).map w).sum := List.sum_nonneg (by
      intro x hx
      obtain ⟨o, _, rfl⟩ := List.mem_map.1 hx
      exact posterior_nonneg hn hen _ _)
    obtain ⟨p, hp, hrl⟩ := roulette_isSome (l := (bn.lab v).map fun x => (x, w x)) (s := 0)
      (r := u * ((((bn.lab v).map w).sum : ℚ) : ℝ)) (by simpa using hne v (by simp)) (by
        rw [List.map_map, zero_add]
        have : (0 : ℝ) ≤ ((((bn.lab v).map w).sum : ℚ) : ℝ) := by exact_mod_cast hsum
        change _ ≤ ((((bn.lab v).map w).sum : ℚ) : ℝ)
        nlinarith)
    obtain ⟨x, hx, rfl⟩ := List.mem_map.1 hp
    change Rand.All _ (match roulette ((bn.lab v).map fun x => (x, w x)) 0
      (u * ((((bn.lab v).map w).sum : ℚ) : ℝ)) with
        | none => Rand.pure (Except.error PyErr.noneValue : Except PyErr (Dict Evidence))
        | some x => VE.draw so bn (k + 1) vs (ev ++ [(v, Evidence.hard x)]))
    rw [hrl]
    refine (ih (he.snoc hv hx (hk v (by simp))) (hen.snoc v x) hvs' (fun u hu => hm u (by simp [hu]))
      (fun u hu h => by
        have : u ∈ ev.keys ∨ u = v := by simpa [Dict.keys] using h
        rcases this with h | rfl
        · exact hk u (by simp [hu]) h
        · exact hv' hu) (fun u hu => hd u (by simp [hu])) (fun u hu => hne u (by simp [hu])) (k + 1)).mono ?_
    rintro r ⟨α, a1, rfl⟩
    have hu : ∀ u ∈ vs, Function.update α v x u = α u := fun u h =>
      Function.update_of_ne (fun e : u = v => hv' (e ▸ h)) _ _
    refine ⟨Function.update α v x, ?_, ?_⟩
    · intro u hu'
      rcases List.mem_cons.1 hu' with rfl | h
      · rw [Function.update_self]; exact hx
      · rw [hu u h]; exact a1 u h
    · rw [List.map_cons, Function.update_self, List.append_assoc]
      congr 2
      rw [List.singleton_append]
      congr 1
      exact List.map_congr_left fun u h => by rw [hu u h]

/-- the hypotheses are met -/
example := C101_exact (fun _ => .insertion) Ex.bn_consistent Ex.bn_nonneg Ex.ev_legal Ex.ev_nonneg
  (σ := fun _ => 0) (by decide +kernel) (vs := ["c", "a"]) (by decide) (by decide) (by decide) (by decide)
  (α := fun _ => "f") (by intro v hv; revert v; decide) 0

-- the network and the evidence are variables to keep the program from being unfolded
example (bn : BN) (hb : bn = Ex.bn) (ev : Dict Evidence) (hv : ev = Ex.ev) :
    (VE.draw (fun _ => .insertion) bn 0 ["c", "a"] ev).All fun r => ∃ α,
      bn.Outcomes ["c", "a"] α ∧ r = .ok (ev ++ ["c", "a"].map fun v => (v, .hard (α v))) := by
  refine C101_never_fails _ (hb ▸ Ex.bn_consistent) (hb ▸ Ex.bn_nonneg) ?_ (hv ▸ Ex.ev_nonneg) ?_ ?_ ?_ ?_ ?_ 0
  · subst hb hv; exact Ex.ev_legal
  all_goals subst hb hv; decide

end Primo
