import Verif.Examples.Decision

/-! # Decision networks used in the examples and refutations of C79 -/

namespace Primo.Ex

/-- a choice between two things that have the utilities `p` and `q` -/
def pickD : NodeV := ⟨"d", .decision, ["x", "y"], [], [], ["u"], ⟨[2], [0, 0], rfl⟩, false⟩
def pickU (p q : ℚ) : NodeV :=
  ⟨"u", .utility, [], ["d"], [("d", ["x", "y"])], [], ⟨[2], [p, q], rfl⟩, false⟩
def pick (p q : ℚ) : BN := [pickD, pickU p q]

theorem pick_consistent (p q : ℚ) : DNConsistent (pick p q) := by
  have h : (pick p q).chance = [pickD] := rfl
  have h' : (pick p q).utils = [pickU p q] := rfl
  constructor
  · show ["d", "u"].Nodup; decide
  · rw [h]
    constructor <;> simp [pickD, BN.names]
  · rw [h']; simp [pickU]
  · rw [h, h']; simp [pickU, pickD, BN.names]
  · rw [h, h']; simp [pickU, pickD, BN.lab, Dict.get?]
  · rw [h, h']; simp [pickU, pickD, BN.lab, BN.card]

theorem pick_nonneg (p q : ℚ) : (pick p q).chance.NonNeg := by
  intro n hn
  have hn : n ∈ [pickD] := hn
  rw [List.mem_singleton.1 hn]
  decide +kernel

theorem pick_acyclic (p q : ℚ) : (pick p q).chance.Acyclic :=
  acyclic_of_rank (bn := [pickD]) (fun _ => 0) (by decide)

theorem pickD_free : pickD.FreeDecision := ⟨rfl, rfl, rfl, by decide, by decide⟩

/-- a choice between a lottery, with utilities `p` and `q`, and something certain with utility 2; the outcome of
the lottery counts only if it is chosen -/
def betC : NodeV := ⟨"c", .discrete, ["t", "f"], [], [], ["u"], ⟨[2], [1 / 2, 1 / 2], rfl⟩, false⟩
def betD : NodeV := ⟨"d", .decision, ["safe", "risk"], [], [], ["u"], ⟨[2], [0, 0], rfl⟩, false⟩
def betU (q : ℚ) : NodeV :=
  ⟨"u", .utility, [], ["d", "c"], [("d", ["safe", "risk"]), ("c", ["t", "f"])], [],
    ⟨[2, 2], [2, 2, 0, q], rfl⟩, false⟩
def bet (q : ℚ) : BN := [betC, betD, betU q]

theorem bet_consistent (q : ℚ) : DNConsistent (bet q) := by
  have h : (bet q).chance = [betC, betD] := rfl
  have h' : (bet q).utils = [betU q] := rfl
  constructor
  · show ["c", "d", "u"].Nodup; decide
  · rw [h]; constructor <;> decide
  · rw [h']; simp [betU]
  · rw [h, h']; simp [betU, betC, betD, BN.names]
  · rw [h, h']; simp [betU, betC, betD, BN.lab, Dict.get?]
  · rw [h, h']; simp [betU, betC, betD, BN.lab, BN.card]

theorem bet_nonneg (q : ℚ) : (bet q).chance.NonNeg := by
  intro n hn
  have hn : n ∈ [betC, betD] := hn
  simp only [List.mem_cons, List.not_mem_nil, or_false] at hn
  rcases hn with rfl | rfl <;> decide +kernel

theorem bet_acyclic (q : ℚ) : (bet q).chance.Acyclic :=
  acyclic_of_rank (bn := [betC, betD]) (fun _ => 0) (by decide)

theorem betD_free : betD.FreeDecision := ⟨rfl, rfl, rfl, by decide, by decide⟩

theorem bet_normalised (q : ℚ) : ∀ n ∈ (bet q).chance, n.name = "d" ∨ n.Normalised (bet q).chance.card := by
  intro n hn
  have hn : n ∈ [betC, betD] := hn
  simp only [List.mem_cons, List.not_mem_nil, or_false] at hn
  rcases hn with rfl | rfl
  · right
    intro σ _
    show ∑ i ∈ Finset.range 2, betC.cpd.get (i :: []) = 1
    decide +kernel
  · left; rfl

end Primo.Ex
