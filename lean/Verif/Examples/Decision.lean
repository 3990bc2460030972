import Verif.Examples.Network
import Verif.Spec.Decision

/-! # Concrete decision networks -/

namespace Primo.Ex

/-- whether to train -/
def dTrain : NodeV :=
  ⟨"train", .decision, ["no", "yes"], [], [], ["win", "u1"], ⟨[2], [0, 0], rfl⟩, false⟩
/-- which gear to use -/
def dGear : NodeV :=
  ⟨"gear", .decision, ["cheap", "good", "none"], [], [], ["u2"], ⟨[3], [0, 0, 0], rfl⟩, false⟩
/-- winning depends on training -/
def cWin : NodeV :=
  ⟨"win", .discrete, ["w", "l"], ["train"], [("train", ["no", "yes"])], ["u1", "u2"],
    ⟨[2, 2], [1 / 4, 3 / 4, 3 / 4, 1 / 4], rfl⟩, false⟩
def u1 : NodeV :=
  ⟨"u1", .utility, [], ["win", "train"], [("train", ["no", "yes"]), ("win", ["w", "l"])], [],
    ⟨[2, 2], [10, 8, 0, -2], rfl⟩, false⟩
def u2 : NodeV :=
  ⟨"u2", .utility, [], ["gear", "win"], [("gear", ["cheap", "good", "none"]), ("win", ["w", "l"])],
    [], ⟨[3, 2], [1, 1, 4, 2, 0, 3], rfl⟩, false⟩

/-- a decision network with two decisions, a chance node and two utility nodes -/
def dn : BN := [u2, dTrain, cWin, u1, dGear]

theorem dn_consistent : DNConsistent dn := by
  constructor
  · decide
  · constructor <;> decide
  · decide
  · decide
  · decide
  · decide

theorem dn_nonneg : dn.chance.NonNeg := by
  intro n hn
  have hn : n ∈ [dTrain, cWin, dGear] := hn
  simp only [List.mem_cons, List.not_mem_nil, or_false] at hn
  rcases hn with rfl | rfl | rfl <;> decide +kernel

theorem dn_acyclic : dn.chance.Acyclic :=
  acyclic_of_rank (fun v => if v = "win" then 1 else 0) (by decide)

theorem dn_free : FreeOrder dn ["gear", "train"] := by
  intro v hv
  simp only [List.mem_cons, List.not_mem_nil, or_false] at hv
  rcases hv with rfl | rfl
  · exact ⟨dGear, by simp [dn], rfl, rfl, rfl, rfl, by decide, by decide⟩
  · exact ⟨dTrain, by simp [dn], rfl, rfl, rfl, rfl, by decide, by decide⟩

theorem dn_normalised : ∀ n ∈ dn.chance,
    n.name ∈ ["gear", "train"] ∨ n.Normalised dn.chance.card := by
  intro n hn
  have hn : n ∈ [dTrain, cWin, dGear] := hn
  simp only [List.mem_cons, List.not_mem_nil, or_false] at hn
  rcases hn with rfl | rfl | rfl
  · exact Or.inl (by decide)
  · right
    intro σ hσ
    have h : σ "train" < 2 := hσ "train" (by simp [cWin])
    have : ∀ i < 2, ∑ j ∈ Finset.range 2, cWin.cpd.get [j, i] = 1 := by decide +kernel
    exact this _ h
  · exact Or.inl (by decide)

/-- decisions for both nodes -/
def decisions : Dict Val := [("gear", "cheap"), ("train", "yes")]

theorem decisions_legal : LegalDecisions dn decisions := by
  constructor
  · decide
  · intro p hp
    simp only [decisions, List.mem_cons, List.not_mem_nil, or_false] at hp
    rcases hp with rfl | rfl
    · exact ⟨dGear, by simp [dn], rfl, rfl, by decide⟩
    · exact ⟨dTrain, by simp [dn], rfl, rfl, by decide⟩

/-- two agents who should not decide alike -/
def gameA : NodeV := ⟨"a", .decision, ["x", "y"], [], [], ["u"], ⟨[2], [0, 0], rfl⟩, false⟩
def gameB : NodeV := ⟨"b", .decision, ["x", "y"], [], [], ["u"], ⟨[2], [0, 0], rfl⟩, false⟩
def gameU : NodeV :=
  ⟨"u", .utility, [], ["a", "b"], [("a", ["x", "y"]), ("b", ["x", "y"])], [],
    ⟨[2, 2], [0, 3, 3, 2], rfl⟩, false⟩
def game : BN := [gameA, gameB, gameU]

theorem game_consistent : DNConsistent game := by
  constructor
  · decide
  · constructor <;> decide
  · decide
  · decide
  · decide
  · decide

theorem game_free : FreeOrder game ["a", "b"] := by
  intro v hv
  simp only [List.mem_cons, List.not_mem_nil, or_false] at hv
  rcases hv with rfl | rfl
  · exact ⟨gameA, by simp [game], rfl, rfl, rfl, rfl, by decide, by decide⟩
  · exact ⟨gameB, by simp [game], rfl, rfl, rfl, rfl, by decide, by decide⟩

/-- a decision that is taken knowing the outcome of a chance node -/
def obsC : NodeV := ⟨"c", .discrete, ["t", "f"], [], [], ["d", "u"], ⟨[2], [1 / 2, 1 / 2], rfl⟩, false⟩
def obsD : NodeV :=
  ⟨"d", .decision, ["x", "y"], ["c"], [("c", ["t", "f"])], ["u"], ⟨[2, 2], [0, 0, 0, 0], rfl⟩, false⟩
def obsU : NodeV :=
  ⟨"u", .utility, [], ["c", "d"], [("c", ["t", "f"]), ("d", ["x", "y"])], [],
    ⟨[2, 2], [1, 0, 0, 1], rfl⟩, false⟩
def obs : BN := [obsC, obsD, obsU]

theorem obs_consistent : DNConsistent obs := by
  constructor
  · decide
  · constructor <;> decide
  · decide
  · decide
  · decide
  · decide

/-- a network whose table is not normalised -/
def rawC (x y : ℚ) : NodeV := ⟨"c", .discrete, ["t", "f"], [], [], ["u"], ⟨[2], [x, y], rfl⟩, false⟩
def rawU : NodeV :=
  ⟨"u", .utility, [], ["c"], [("c", ["t", "f"])], [], ⟨[2], [1, 2], rfl⟩, false⟩
def raw (x y : ℚ) : BN := [rawC x y, rawU]

theorem raw_consistent (x y : ℚ) : DNConsistent (raw x y) := by
  have h : (raw x y).chance = [rawC x y] := rfl
  have h' : (raw x y).utils = [rawU] := rfl
  constructor
  · show ["c", "u"].Nodup; decide
  · rw [h]
    constructor <;> simp [rawC, BN.names]
  · rw [h']; simp [rawU]
  · rw [h, h']; simp [rawU, rawC, BN.names]
  · rw [h, h']; simp [rawU, rawC, BN.lab, Dict.get?]
  · rw [h, h']; simp [rawU, rawC, BN.lab, BN.card]

end Primo.Ex
