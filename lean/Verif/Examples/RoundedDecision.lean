import Verif.Examples.Decision

/-! # Decision networks for rounded arithmetic -/

namespace Primo.Ex

def fairC : NodeV := ⟨"c", .discrete, ["a", "b", "c"], [], [], ["u"], ⟨[3], [1 / 3, 1 / 3, 1 / 3], rfl⟩, false⟩
def fairU : NodeV := ⟨"u", .utility, [], ["c"], [("c", ["a", "b", "c"])], [], ⟨[3], [1, 1, -2], rfl⟩, false⟩

/-- a fair game -/
def fair : BN := [fairC, fairU]

theorem fair_consistent : DNConsistent fair := by
  constructor
  · decide
  · constructor <;> decide
  · decide
  · decide
  · decide
  · decide

theorem fair_nonneg : fair.chance.NonNeg := by
  intro n hn
  have hn : n ∈ [fairC] := hn
  rw [List.mem_singleton.1 hn]
  decide +kernel

def closeD : NodeV := ⟨"d", .decision, ["x", "y"], [], [], ["u", "v"], ⟨[2], [0, 0], rfl⟩, false⟩
def closeU : NodeV := ⟨"u", .utility, [], ["d"], [("d", ["x", "y"])], [], ⟨[2], [0, 1], rfl⟩, false⟩
def closeV : NodeV :=
  ⟨"v", .utility, [], ["d"], [("d", ["x", "y"])], [], ⟨[2], [1 + 1 / 2000, 0], rfl⟩, false⟩

/-- `x` is slightly better, and its utility is added later -/
def close : BN := [closeD, closeU, closeV]

theorem close_consistent : DNConsistent close := by
  constructor
  · decide
  · constructor <;> decide
  · decide
  · decide
  · decide
  · decide

theorem close_nonneg : close.chance.NonNeg := by
  intro n hn
  have hn : n ∈ [closeD] := hn
  rw [List.mem_singleton.1 hn]
  decide +kernel

theorem closeD_free : closeD.FreeDecision := ⟨rfl, rfl, rfl, by decide, by decide⟩

end Primo.Ex
