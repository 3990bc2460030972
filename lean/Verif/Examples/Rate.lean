import Verif.Examples.Converge
import Verif.Spec.Rate

/-! # A network whose samplers are slow: `a → b`, where `b` is a copy of `a`, up to errors of probability `e` -/

namespace Primo.Ex

def ne (e : ℚ) : NodeV :=
  ⟨"b", .discrete, ["t", "f"], ["a"], [("a", ["t", "f"])], [], ⟨[2, 2], [1 - e, e, e, 1 - e], rfl⟩, false⟩

/-- the network -/
def nearCopy (e : ℚ) : BN := [ka, ne e]

variable {e : ℚ}

theorem mem_nearCopy {n : NodeV} : n ∈ nearCopy e ↔ n = ka ∨ n = ne e := by
  simp [nearCopy]

theorem nearCopy_lab (v : Name) : (nearCopy e).lab v = copyNet.lab v := by
  unfold BN.lab nearCopy copyNet
  by_cases h1 : "a" = v
  · subst h1; rfl
  · by_cases h2 : "b" = v
    · subst h2; rfl
    · simp [ka, kb, ne, List.find?, h1, h2]

theorem nearCopy_card : (nearCopy e).card = copyNet.card := by
  funext v
  unfold BN.card
  rw [nearCopy_lab]

theorem nearCopy_names : (nearCopy e).names = copyNet.names := rfl

theorem nearCopy_consistent : (nearCopy e).Consistent := by
  have h := copyNet_consistent
  have ha : ka ∈ copyNet := by simp [copyNet]
  have hb : kb ∈ copyNet := by simp [copyNet]
  refine ⟨h.nodup, ?_, ?_, ?_, ?_, ?_, ?_⟩ <;> intro n hn <;>
    rcases mem_nearCopy.1 hn with rfl | rfl
  · exact h.kind ka ha
  · exact h.kind kb hb
  · exact h.parents_nodup ka ha
  · exact h.parents_nodup kb hb
  · exact h.self ka ha
  · exact h.self kb hb
  · exact h.parents_mem ka ha
  · exact h.parents_mem kb hb
  · intro p hp; rw [nearCopy_lab]; exact h.parents_val ka ha p hp
  · intro p hp; rw [nearCopy_lab]; exact h.parents_val kb hb p hp
  · rw [nearCopy_card]; exact h.shape ka ha
  · rw [nearCopy_card]; exact h.shape kb hb

theorem nearCopy_linked : (nearCopy e).Linked := by
  constructor
  · intro n hn
    rcases mem_nearCopy.1 hn with rfl | rfl <;> simp [ka, ne]
  · intro n hn c
    rcases mem_nearCopy.1 hn with rfl | rfl <;> simp [nearCopy, ka, ne, eq_comm]

theorem nearCopy_discrete : (nearCopy e).Discrete := by
  constructor <;> intro n hn <;> rcases mem_nearCopy.1 hn with rfl | rfl <;> simp [ka, ne]

theorem nearCopy_acyclic : (nearCopy e).Acyclic :=
  acyclic_of_rank (fun v => if v = "b" then 1 else 0) (by
    intro n hn
    rcases mem_nearCopy.1 hn with rfl | rfl <;> simp [ka, ne])

theorem nearCopy_atLeast (h : e ≤ 1 / 2) : (nearCopy e).AtLeast e := by
  intro n hn x hx
  rcases mem_nearCopy.1 hn with rfl | rfl
  · simp only [ka, List.mem_cons, List.not_mem_nil, or_false, or_self] at hx
    rw [hx]; exact h
  · simp only [ne, List.mem_cons, List.not_mem_nil, or_false] at hx
    rcases hx with rfl | rfl | rfl | rfl <;> linarith

theorem nearCopy_nonneg (h0 : 0 ≤ e) (h : e ≤ 1 / 2) : (nearCopy e).NonNeg := fun n hn x hx =>
  h0.trans (nearCopy_atLeast h n hn x hx)

theorem nearCopy_stochastic : (nearCopy e).Stochastic := by
  intro n hn σ hσ
  rcases mem_nearCopy.1 hn with rfl | rfl
  · simp only [ka, List.map_nil]; decide +kernel
  · have h1 : σ "a" < 2 := by
      have := hσ "a" (by simp [ne])
      rwa [nearCopy_card] at this
    simp only [ne, List.map_cons, List.map_nil, List.length_cons, List.length_nil]
    generalize σ "a" = i at *
    interval_cases i <;> simp [Finset.sum_range_succ, NDArray.get, NDArray.ravel]

theorem nearCopy_good (e : ℚ) : GoodState (nearCopy e) [] (copyState "t") := by
  refine ⟨fun n hn => ?_, fun v x h => by cases h⟩
  rcases mem_nearCopy.1 hn with rfl | rfl
  · exact ⟨"t", by simp [ka], rfl⟩
  · exact ⟨"t", by simp [ne], rfl⟩

end Primo.Ex
