import Verif.Props.Rewrite
import Verif.Examples.Fit

/-! # Concrete cases for C76 -/

namespace Primo
namespace Ex

def nb2 : NodeV :=
  ⟨"b", .discrete, ["z", "x", "y"], [], [], ["c"], ⟨[3], [0, 1 / 2, 1 / 2], rfl⟩, false⟩
def nc2 : NodeV :=
  ⟨"c", .discrete, ["f", "t"], ["a", "b"], [("a", ["t", "f"]), ("b", ["z", "x", "y"])], ["d"],
    ⟨[2, 2, 3], [4 / 5, 0, 2 / 3, 5 / 6, 1 / 2, 3 / 4, 1 / 5, 1, 1 / 3, 1 / 6, 1 / 2, 1 / 4], rfl⟩, false⟩
def nd2 : NodeV :=
  ⟨"d", .discrete, ["t", "f"], ["c"], [("c", ["f", "t"])], [],
    ⟨[2, 2], [4 / 5, 1 / 10, 1 / 5, 9 / 10], rfl⟩, false⟩

/-- the example network with the nodes, the outcomes of `b` and `c` and the parents of `c` in another order -/
def bn2 : BN := [na, nb2, nc2, nd2]

theorem bn2_consistent : bn2.Consistent := by
  constructor <;> decide

theorem bn2_nonneg : bn2.NonNeg := by
  intro n hn
  simp only [bn2, List.mem_cons, List.not_mem_nil, or_false] at hn
  rcases hn with rfl | rfl | rfl | rfl <;> decide +kernel

theorem rewritten : Rewritten bn bn2 := by
  refine ⟨by decide, by decide, by decide, ?_, ?_⟩
  · intro n hn n' hn' h
    simp only [bn, bn2, List.mem_cons, List.not_mem_nil, or_false] at hn hn'
    rcases hn with rfl | rfl | rfl | rfl <;> rcases hn' with rfl | rfl | rfl | rfl <;>
      first | exact absurd h (by decide) | decide
  · intro n hn n' hn' h α hα
    simp only [bn, bn2, List.mem_cons, List.not_mem_nil, or_false] at hn hn'
    rcases hn with rfl | rfl | rfl | rfl <;> rcases hn' with rfl | rfl | rfl | rfl <;>
      first
      | exact absurd h (by decide)
      | skip
    · have : ∀ x ∈ bn.lab "d", ∀ y ∈ bn.lab "c", nd.cpd.get [(bn.lab "d").idxOf x, (bn.lab "c").idxOf y] =
          nd2.cpd.get [(bn2.lab "d").idxOf x, (bn2.lab "c").idxOf y] := by decide +kernel
      exact this _ (hα "d" (by decide)) _ (hα "c" (by decide))
    · have : ∀ x ∈ bn.lab "a", na.cpd.get [(bn.lab "a").idxOf x] = na.cpd.get [(bn2.lab "a").idxOf x] := by
        decide +kernel
      exact this _ (hα "a" (by decide))
    · have : ∀ x ∈ bn.lab "b", nb.cpd.get [(bn.lab "b").idxOf x] = nb2.cpd.get [(bn2.lab "b").idxOf x] := by
        decide +kernel
      exact this _ (hα "b" (by decide))
    · have : ∀ x ∈ bn.lab "c", ∀ y ∈ bn.lab "b", ∀ z ∈ bn.lab "a",
          nc.cpd.get [(bn.lab "c").idxOf x, (bn.lab "b").idxOf y, (bn.lab "a").idxOf z] =
            nc2.cpd.get [(bn2.lab "c").idxOf x, (bn2.lab "a").idxOf z, (bn2.lab "b").idxOf y] := by
        decide +kernel
      exact this _ (hα "c" (by decide)) _ (hα "b" (by decide)) _ (hα "a" (by decide))

/-- the evidence with the array for `b` in the order of the other network -/
def ev2 : Dict Evidence := [("b", .soft [2, 1 / 2, 0]), ("d", .hard "t")]

theorem ev2_legal : LegalEvidence bn2 ev2 := legal_of (by decide) (by decide) (by simp [ev2]; decide)
theorem ev2_nonneg : NonNegEvidence ev2 := nonneg_of (by simp [ev2])
theorem same_evidence : SameEvidence bn bn2 ev ev2 := by
  unfold SameEvidence
  decide +kernel

example {r r' : Factor} (hr : ExactAnswer bn ev ["a", "b"] r) (hr' : ExactAnswer bn2 ev2 ["a", "b"] r') :=
  C76_same_answers rewritten bn_consistent bn2_consistent bn_nonneg bn2_nonneg ev_legal ev2_legal ev_nonneg
    ev2_nonneg same_evidence (by decide) hr hr'
example {r r' : Factor} (hr : ExactAnswer bn ev ["a", "b"] r) (hr' : ExactAnswer bn2 ev2 ["a", "b"] r') :=
  C76_get_potential rewritten bn_consistent bn2_consistent bn_nonneg bn2_nonneg ev_legal ev2_legal ev_nonneg
    ev2_nonneg same_evidence (by simp) (by decide) hr hr' (α := fun v => if v = "a" then "t" else "z")
    (by unfold BN.Outcomes; decide)
example := C76_hard_evidence rewritten evD_legal (by simp [evD])
-- the two tables, for the outcomes x, y, z and z, x, y of `b`
example : ask ["b", "a"] evD = .ok (["a", "b"], [12 / 467, 68 / 467, 0, 162 / 467, 225 / 467, 0]) ∧
    (VE.naiveMarginals .insertion bn2 ["b", "a"] evD).map (fun r => (r.variableOrder, r.potentials.data)) =
      .ok (["a", "b"], [0, 12 / 467, 68 / 467, 0, 162 / 467, 225 / 467]) := by decide +kernel

end Ex
end Primo
