import Verif.Examples.Converge

/-! # A network for sampling with random numbers of finite precision -/

namespace Primo.Ex

/-! ## `a → b`, where `a` is always `f` and `b` is a copy of `a` -/

def za : NodeV := ⟨"a", .discrete, ["t", "f"], [], [], ["b"], ⟨[2], [0, 1], rfl⟩, false⟩
def zb : NodeV :=
  ⟨"b", .discrete, ["t", "f"], ["a"], [("a", ["t", "f"])], [], ⟨[2, 2], [1, 0, 0, 1], rfl⟩, false⟩

/-- the network -/
def zeroNet : BN := [za, zb]

theorem zeroNet_consistent : zeroNet.Consistent := by
  constructor <;> decide

theorem zeroNet_linked : zeroNet.Linked := by
  constructor
  · decide
  · intro n hn c
    simp only [zeroNet, List.mem_cons, List.not_mem_nil, or_false] at hn ⊢
    rcases hn with rfl | rfl <;> simp [za, zb, eq_comm]

theorem zeroNet_discrete : zeroNet.Discrete := by
  constructor <;> decide

theorem zeroNet_nonneg : zeroNet.NonNeg := by
  intro n hn
  simp only [zeroNet, List.mem_cons, List.not_mem_nil, or_false] at hn
  rcases hn with rfl | rfl <;> decide +kernel

theorem zeroNet_acyclic : zeroNet.Acyclic :=
  acyclic_of_rank (fun v => if v = "b" then 1 else 0) (by decide)

theorem zeroNet_stochastic : zeroNet.Stochastic := by
  intro n hn σ hσ
  simp only [zeroNet, List.mem_cons, List.not_mem_nil, or_false] at hn
  rcases hn with rfl | rfl
  · simp only [za, List.map_nil]; decide +kernel
  · have h1 : σ "a" < 2 := hσ "a" (by decide)
    simp only [zb, List.map_cons, List.map_nil]
    generalize σ "a" = i at *
    interval_cases i <;> decide +kernel

theorem zeroNet_joint (σ : Assign) :
    joint zeroNet σ = za.cpd.get [σ "a"] * (zb.cpd.get [σ "b", σ "a"] * 1) := rfl

theorem zeroNet_possible {σ : Assign} : Possible zeroNet [] σ ↔ σ "a" = 1 ∧ σ "b" = 1 := by
  constructor
  · intro h
    have ha : σ "a" < 2 := h.1 "a" (by decide)
    have hb : σ "b" < 2 := h.1 "b" (by decide)
    have hj := h.2.2
    rw [zeroNet_joint] at hj
    generalize σ "a" = i at *
    generalize σ "b" = j at *
    revert hj
    interval_cases i <;> interval_cases j <;> decide +kernel
  · rintro ⟨ha, hb⟩
    refine ⟨fun v hv => ?_, fun _ _ h => (by cases h), ?_⟩
    · have : v = "a" ∨ v = "b" := by simpa [zeroNet, BN.names, za, zb] using hv
      rcases this with rfl | rfl
      · rw [ha]; decide
      · rw [hb]; decide
    · rw [zeroNet_joint, ha, hb]
      decide +kernel

theorem zeroNet_connected : Connected zeroNet [] := by
  intro σ τ hσ hτ
  refine Relation.ReflTransGen.single ⟨hτ, "a", fun w hw _ => ?_⟩
  obtain ⟨h1, h2⟩ := zeroNet_possible.1 hσ
  obtain ⟨h3, h4⟩ := zeroNet_possible.1 hτ
  have : w = "a" ∨ w = "b" := by simpa [zeroNet, BN.names, za, zb] using hw
  rcases this with rfl | rfl
  · omega
  · omega

theorem zeroNet_starts : StartsPossible zeroNet [] := by
  intro σ _ _ h
  have h1 := h za (by simp [zeroNet]) (by simp [Dict.keys])
  have h2 := h zb (by simp [zeroNet]) (by simp [Dict.keys])
  rw [zeroNet_joint, mul_one]
  exact mul_pos h1 h2

theorem zeroNet_possible_exists : ∃ σ, Possible zeroNet [] σ :=
  ⟨fun _ => 1, zeroNet_possible.2 ⟨rfl, rfl⟩⟩

end Primo.Ex
