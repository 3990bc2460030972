import Verif.Lemmas.Ascent

/-! # C98: optimising one decision after the other -/

namespace Primo
open Finset

section
variable {dn : BN} (so : Nat → SetOrder) (sps : Nat → Nat → SetPerm) (sp : Nat → SetPerm)
  (so' : SetOrder) (sp' : SetPerm) (hc : DNConsistent dn) (hnn : dn.chance.NonNeg) (ha : dn.chance.Acyclic)
  (hne : dn ≠ []) {D : Dict Val} (hD : LegalDecisions dn D)
  (hs : ∀ n ∈ dn.chance, n.name ∈ D.keys ∨ n.Normalised dn.chance.card)
  {vs : List Name} (ho : FreeOrder dn vs) (hvs : ∀ v ∈ vs, v ∈ D.keys)
include hc hnn ha hne hD hs ho hvs

/-- **C98**  Optimising decisions one at a time, each given the current ones, and taking each result before
the next is optimised, never lowers the expected utility; nodes that are not listed keep their decisions; and
if the decisions are the same afterwards, no change of a single listed decision is an improvement. -/
theorem C98_ascent (k : Nat) :
    ∃ (D' : Dict Val) (e e' : ℚ), Decision.ascend so sps sp k vs (dn.decide D) = (dn.decide D', .ok ()) ∧
      LegalDecisions dn D' ∧ D'.keys = D.keys ∧ (∀ v, v ∉ vs → D'.get? v = D.get? v) ∧
      (Decision.expectedUtility so' sp' dn (some D)).2 = .ok (NDArray.scalar e) ∧
      (Decision.expectedUtility so' sp' dn (some D')).2 = .ok (NDArray.scalar e') ∧ e ≤ e' ∧
      (D' = D → ∀ d ∈ dn, d.name ∈ vs → ∀ y ∈ d.values, ∃ e'' : ℚ,
        (Decision.expectedUtility so' sp' dn (some (D.set d.name y))).2 = .ok (NDArray.scalar e'') ∧
          e'' ≤ e) := by
  obtain ⟨D', a1, a2, a3, a4, a5⟩ := ascend_run so sps sp hc hnn ha vs k D hD hs ho hvs
  refine ⟨D', utilityMass (dn.decide D), utilityMass (dn.decide D'), a1, a2, a3, a4,
    by rw [C51_expected_utility_partial so' sp' dn D hc hnn hne ha hD hs],
    by rw [C51_expected_utility_partial so' sp' dn D' hc hnn hne ha a2 (by rw [a3]; exact hs)], ?_,
    fun e d hd hv y hy => ⟨utilityMass (dn.decide (D.set d.name y)), ?_, ?_⟩⟩
  · rcases a5 with h | h
    · rw [h.1]
    · exact height_le h.le
  · obtain ⟨d', hd', e', hf⟩ := ho _ hv
    obtain rfl : d' = d := List.inj_on_of_nodup_map hc.nodup hd' hd e'
    have hm := hvs _ hv
    rw [C51_expected_utility_partial so' sp' dn _ hc hnn hne ha (hD.set hd hf.kind hy hm)
      (by rw [Dict.keys_set_of_mem _ hm]; exact hs)]
  · rcases a5 with h | h
    · obtain ⟨z, hz, hm⟩ := h.2 d hd hv
      have := hm.le hy
      simpa only [Dict.set_same hz] using this
    · rw [e] at h
      exact absurd h (lt_irrefl _)

/-- **C98**  If the loop is repeated, the decisions do not change any more after fewer passes than there are
combinations of decisions, whatever the orders in which sets are iterated in the single calls, and then no change of a single listed decision is an improvement. -/
theorem C98_converges (k : Nat) :
    ∃ (N : Nat) (D' : Dict Val) (e e' : ℚ), N < (D.keys.map fun v => (dn.lab v).length).prod ∧
      LegalDecisions dn D' ∧ D'.keys = D.keys ∧
      (∀ v, v ∉ vs → D'.get? v = D.get? v) ∧
      (∀ m, N ≤ m → Decision.ascend so sps sp k (List.replicate m vs).flatten (dn.decide D) =
        (dn.decide D', .ok ())) ∧
      (Decision.expectedUtility so' sp' dn (some D)).2 = .ok (NDArray.scalar e) ∧
      (Decision.expectedUtility so' sp' dn (some D')).2 = .ok (NDArray.scalar e') ∧ e ≤ e' ∧
      ∀ d ∈ dn, d.name ∈ vs → ∀ y ∈ d.values, ∃ e'' : ℚ,
        (Decision.expectedUtility so' sp' dn (some (D'.set d.name y))).2 = .ok (NDArray.scalar e'') ∧
          e'' ≤ e' := by
  obtain ⟨N, D', a0, a1, a2, a3, a4, a5, a6⟩ := ascend_settles so sps sp hc hnn ha ho D.keys hvs hs D hD rfl k
  refine ⟨N, D', utilityMass (dn.decide D), utilityMass (dn.decide D'), a0, a1, a2, a3, a6,
    by rw [C51_expected_utility_partial so' sp' dn D hc hnn hne ha hD hs],
    by rw [C51_expected_utility_partial so' sp' dn D' hc hnn hne ha a1 (by rw [a2]; exact hs)], height_le a5,
    fun d hd hv y hy => ⟨utilityMass (dn.decide (D'.set d.name y)), ?_, ?_⟩⟩
  · obtain ⟨d', hd', e', hf⟩ := ho _ hv
    obtain rfl : d' = d := List.inj_on_of_nodup_map hc.nodup hd' hd e'
    have hm : d'.name ∈ D'.keys := by rw [a2]; exact hvs _ hv
    rw [C51_expected_utility_partial so' sp' dn _ hc hnn hne ha (a1.set hd hf.kind hy hm)
      (by rw [Dict.keys_set_of_mem _ hm, a2]; exact hs)]
  · obtain ⟨z, hz, hm⟩ := a4 d hd hv
    have := hm.le hy
    simpa only [Dict.set_same hz] using this

end

/-! ## two agents with three decisions each; both alone seem to do best with `x` -/

def Ex.trapA : NodeV := ⟨"a", .decision, ["x", "y", "z"], [], [], ["u"], ⟨[3], [0, 0, 0], rfl⟩, false⟩
def Ex.trapB : NodeV := ⟨"b", .decision, ["x", "y", "z"], [], [], ["u"], ⟨[3], [0, 0, 0], rfl⟩, false⟩
def Ex.trapU : NodeV :=
  ⟨"u", .utility, [], ["a", "b"], [("a", ["x", "y", "z"]), ("b", ["x", "y", "z"])], [],
    ⟨[3, 3], [-1, 3, 3, 3, 0, 0, 3, 0, 0], rfl⟩, false⟩
def Ex.trap : BN := [Ex.trapA, Ex.trapB, Ex.trapU]

theorem Ex.trap_consistent : DNConsistent Ex.trap := by
  constructor
  · decide
  · constructor <;> decide
  · decide
  · decide
  · decide
  · decide

theorem Ex.trap_free : FreeOrder Ex.trap ["a", "b"] := by
  intro v hv
  simp only [List.mem_cons, List.not_mem_nil, or_false] at hv
  rcases hv with rfl | rfl
  · exact ⟨trapA, by simp [trap], rfl, rfl, rfl, rfl, by decide, by decide⟩
  · exact ⟨trapB, by simp [trap], rfl, rfl, rfl, rfl, by decide, by decide⟩

theorem Ex.trap_nonneg : Ex.trap.chance.NonNeg := by
  intro n hn
  have hn : n ∈ [Ex.trapA, Ex.trapB] := hn
  simp only [List.mem_cons, List.not_mem_nil, or_false] at hn
  rcases hn with rfl | rfl <;> decide +kernel

theorem Ex.trap_acyclic : Ex.trap.chance.Acyclic := Ex.acyclic_of_rank (fun _ => 0) (by decide)

theorem Ex.trap_covered : ∀ n ∈ Ex.trap.chance, n.name ∈ ["a", "b"] ∨ n.Normalised Ex.trap.chance.card := by
  intro n hn
  have hn : n ∈ [Ex.trapA, Ex.trapB] := hn
  simp only [List.mem_cons, List.not_mem_nil, or_false] at hn
  rcases hn with rfl | rfl <;> exact Or.inl (by decide)

theorem Ex.trap_legal {x y : Val} (hx : x ∈ ["x", "y", "z"]) (hy : y ∈ ["x", "y", "z"]) :
    LegalDecisions Ex.trap [("a", x), ("b", y)] := by
  refine ⟨by simp [Dict.keys], fun p hp => ?_⟩
  simp only [List.mem_cons, List.not_mem_nil, or_false] at hp
  rcases hp with rfl | rfl
  · exact ⟨Ex.trapA, by simp [Ex.trap], rfl, rfl, hx⟩
  · exact ⟨Ex.trapB, by simp [Ex.trap], rfl, rfl, hy⟩

/-- **C98, C52**  `get_optimal_decisions` for several decisions at once can return the worst of all
combinations: every other combination has a higher expected utility. -/
theorem C98_worst_refuted : ∃ (dn : BN) (order : List Name) (D : Dict Val), DNConsistent dn ∧
    FreeOrder dn order ∧ order.Nodup ∧ LegalDecisions dn D ∧ D.keys = order ∧
    (∀ so sps, (Decision.getOptimalDecisions so sps dn order none).2 =
      .ok (D.map fun p => (p.1, some p.2))) ∧
    ∀ so sp, ∃ e : ℚ, (Decision.expectedUtility so sp dn (some D)).2 = .ok (NDArray.scalar e) ∧
      ∀ D', LegalDecisions dn D' → D'.keys = order → D' ≠ D → ∃ e' : ℚ,
        (Decision.expectedUtility so sp dn (some D')).2 = .ok (NDArray.scalar e') ∧ e < e' := by
  refine ⟨Ex.trap, ["a", "b"], [("a", "x"), ("b", "x")], Ex.trap_consistent, Ex.trap_free, by decide,
    Ex.trap_legal (by decide) (by decide), rfl, fun so sps => ?_, fun so sp =>
      ⟨utilityMass (Ex.trap.decide [("a", "x"), ("b", "x")]), ?_, fun D' hD' hk hne =>
        ⟨utilityMass (Ex.trap.decide D'), ?_, ?_⟩⟩⟩
  · obtain ⟨f, f1, f2⟩ := C52_local_optimum so sps [] Ex.trap_consistent Ex.trap_nonneg Ex.trap_acyclic
      (by decide) Ex.trap_free (by simp [Dict.get?]) Ex.trap_covered
    have ha := f2 Ex.trapA (by simp [Ex.trap]) (by decide)
    have hb := f2 Ex.trapB (by simp [Ex.trap]) (by decide)
    have ham : f "a" = "x" ∨ f "a" = "y" ∨ f "a" = "z" := by simpa [Ex.trapA] using ha.mem
    have hbm : f "b" = "x" ∨ f "b" = "y" ∨ f "b" = "z" := by simpa [Ex.trapB] using hb.mem
    have hal := ha.le (w := "x") (by decide)
    have hbl := hb.le (w := "x") (by decide)
    have e1 : Ex.trapA.name = "a" := rfl
    have e2 : Ex.trapB.name = "b" := rfl
    rw [e1] at hal
    rw [e2] at hbl
    have hA : f "a" = "x" := by
      rcases ham with h | h | h
      · exact h
      all_goals
        exfalso
        rw [h] at hal
        revert hal
        decide +kernel
    have hB : f "b" = "x" := by
      rcases hbm with h | h | h
      · exact h
      all_goals
        exfalso
        rw [h] at hbl
        revert hbl
        decide +kernel
    have f1' : Decision.getOptimalDecisions so sps Ex.trap ["a", "b"] none = _ := f1
    rw [f1']
    simp [hA, hB]
  · rw [C51_expected_utility_partial so sp _ _ Ex.trap_consistent Ex.trap_nonneg (by simp [Ex.trap])
      Ex.trap_acyclic (Ex.trap_legal (by decide) (by decide)) Ex.trap_covered]
  · rw [C51_expected_utility_partial so sp _ _ Ex.trap_consistent Ex.trap_nonneg (by simp [Ex.trap])
      Ex.trap_acyclic hD' (by rw [hk]; exact Ex.trap_covered)]
  · obtain ⟨x, y, rfl⟩ : ∃ x y, D' = [("a", x), ("b", y)] := by
      match D', hk with
      | [(_, x), (_, y)], hk =>
        simp only [Dict.keys, List.map_cons, List.map_nil, List.cons.injEq, and_true] at hk
        exact ⟨x, y, by rw [hk.1, hk.2]⟩
    obtain ⟨n, hn, h1, h2, hx⟩ := hD'.legal ("a", x) (by simp)
    obtain ⟨m, hm, g1, g2, hy⟩ := hD'.legal ("b", y) (by simp)
    have en : n = Ex.trapA := List.inj_on_of_nodup_map Ex.trap_consistent.nodup hn (by simp [Ex.trap]) h1
    have em : m = Ex.trapB := List.inj_on_of_nodup_map Ex.trap_consistent.nodup hm (by simp [Ex.trap]) g1
    subst en em
    have hx : x ∈ ["x", "y", "z"] := hx
    have hy : y ∈ ["x", "y", "z"] := hy
    have all : ∀ x ∈ ["x", "y", "z"], ∀ y ∈ ["x", "y", "z"],
        ([("a", x), ("b", y)] : Dict Val) ≠ [("a", "x"), ("b", "x")] →
        utilityMass (Ex.trap.decide [("a", "x"), ("b", "x")]) <
          utilityMass (Ex.trap.decide [("a", x), ("b", y)]) := by decide +kernel
    exact all x hx y hy hne

/-- a run over both agents from there: the best combination is found -/
example : Decision.ascend (fun _ => .insertion) (fun _ _ => .insertion) (fun _ => .insertion) 0 ["a", "b"]
    (Ex.trap.decide [("a", "x"), ("b", "x")]) = (Ex.trap.decide [("a", "y"), ("b", "x")], .ok ()) := by
  decide +kernel

/-! ## two agents who do well if they agree -/

def Ex.agreeU : NodeV :=
  ⟨"u", .utility, [], ["a", "b"], [("a", ["x", "y", "z"]), ("b", ["x", "y", "z"])], [],
    ⟨[3, 3], [1, 0, 0, 0, 2, 0, 0, 0, 0], rfl⟩, false⟩
def Ex.agree : BN := [Ex.trapA, Ex.trapB, Ex.agreeU]

theorem Ex.agree_consistent : DNConsistent Ex.agree := by
  constructor
  · decide
  · constructor <;> decide
  · decide
  · decide
  · decide
  · decide

theorem Ex.agree_free : FreeOrder Ex.agree ["a", "b"] := by
  intro v hv
  simp only [List.mem_cons, List.not_mem_nil, or_false] at hv
  rcases hv with rfl | rfl
  · exact ⟨trapA, by simp [agree], rfl, rfl, rfl, rfl, by decide, by decide⟩
  · exact ⟨trapB, by simp [agree], rfl, rfl, rfl, rfl, by decide, by decide⟩

theorem Ex.agree_legal {x y : Val} (hx : x ∈ ["x", "y", "z"]) (hy : y ∈ ["x", "y", "z"]) :
    LegalDecisions Ex.agree [("a", x), ("b", y)] := by
  refine ⟨by simp [Dict.keys], fun p hp => ?_⟩
  simp only [List.mem_cons, List.not_mem_nil, or_false] at hp
  rcases hp with rfl | rfl
  · exact ⟨Ex.trapA, by simp [Ex.agree], rfl, rfl, hx⟩
  · exact ⟨Ex.trapB, by simp [Ex.agree], rfl, rfl, hy⟩

/-- **C98**  Decisions that a run over all decision nodes leaves as they are need not be optimal. -/
theorem C98_global_refuted : ∃ (dn : BN) (vs : List Name) (D E : Dict Val), DNConsistent dn ∧
    FreeOrder dn vs ∧ vs.Nodup ∧ LegalDecisions dn D ∧ D.keys = vs ∧ LegalDecisions dn E ∧ E.keys = vs ∧
    ∀ so sps sp k so' sp', Decision.ascend so sps sp k vs (dn.decide D) = (dn.decide D, .ok ()) ∧ ∃ e e' : ℚ,
      (Decision.expectedUtility so' sp' dn (some D)).2 = .ok (NDArray.scalar e) ∧
      (Decision.expectedUtility so' sp' dn (some E)).2 = .ok (NDArray.scalar e') ∧ e < e' := by
  have hnn : Ex.agree.chance.NonNeg := Ex.trap_nonneg
  have hac : Ex.agree.chance.Acyclic := Ex.trap_acyclic
  have hcov : ∀ n ∈ Ex.agree.chance, n.name ∈ ["a", "b"] ∨ n.Normalised Ex.agree.chance.card := Ex.trap_covered
  refine ⟨Ex.agree, ["a", "b"], [("a", "x"), ("b", "x")], [("a", "y"), ("b", "y")], Ex.agree_consistent,
    Ex.agree_free, by decide, Ex.agree_legal (by decide) (by decide), rfl,
    Ex.agree_legal (by decide) (by decide), rfl, fun so sps sp k so' sp' => ⟨?_,
      utilityMass (Ex.agree.decide [("a", "x"), ("b", "x")]),
      utilityMass (Ex.agree.decide [("a", "y"), ("b", "y")]), ?_, ?_, by decide +kernel⟩⟩
  · have hl := Ex.agree_legal (x := "x") (y := "x") (by decide) (by decide)
    have best : ∀ x ∈ ["x", "y", "z"],
        (utilityMass (Ex.agree.decide [("a", "x"), ("b", "x")]) ≤
          utilityMass (Ex.agree.decide [("a", x), ("b", "x")]) → x = "x") ∧
        (utilityMass (Ex.agree.decide [("a", "x"), ("b", "x")]) ≤
          utilityMass (Ex.agree.decide [("a", "x"), ("b", x)]) → x = "x") := by decide +kernel
    obtain ⟨x, s1, s2⟩ := ascend_step so sps sp k Ex.agree_consistent hnn hac hl hcov
      (d := Ex.trapA) (by simp [Ex.agree]) ⟨rfl, rfl, rfl, by decide, by decide⟩ (by decide)
    obtain rfl := (best x s2.mem).1 (s2.le (w := "x") (by decide))
    obtain ⟨y, t1, t2⟩ := ascend_step so sps sp (k + 1) Ex.agree_consistent hnn hac hl hcov
      (d := Ex.trapB) (by simp [Ex.agree]) ⟨rfl, rfl, rfl, by decide, by decide⟩ (by decide)
    obtain rfl := (best y t2.mem).2 (t2.le (w := "x") (by decide))
    exact (s1 ["b"]).trans (t1 [])
  · rw [C51_expected_utility_partial so' sp' _ _ Ex.agree_consistent hnn (by simp [Ex.agree])
      hac (Ex.agree_legal (by decide) (by decide)) hcov]
  · rw [C51_expected_utility_partial so' sp' _ _ Ex.agree_consistent hnn (by simp [Ex.agree])
      hac (Ex.agree_legal (by decide) (by decide)) hcov]

/-- the hypotheses are met -/
example := C98_ascent (fun _ => .insertion) (fun _ _ => .insertion) (fun _ => .insertion) .reversed .insertion
  Ex.trap_consistent Ex.trap_nonneg Ex.trap_acyclic (by simp [Ex.trap])
  (D := [("a", "x"), ("b", "x")]) (Ex.trap_legal (by decide) (by decide)) Ex.trap_covered
  (vs := ["a", "b"]) Ex.trap_free (by decide) 0

example := C98_converges (fun _ => .insertion) (fun _ _ => .insertion) (fun _ => .insertion) .reversed .insertion
  Ex.trap_consistent Ex.trap_nonneg Ex.trap_acyclic (by simp [Ex.trap])
  (D := [("a", "x"), ("b", "x")]) (Ex.trap_legal (by decide) (by decide)) Ex.trap_covered
  (vs := ["a", "b"]) Ex.trap_free (by decide) 0

end Primo
