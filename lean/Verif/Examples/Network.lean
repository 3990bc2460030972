import Verif.Spec.Joint

/-! # A concrete network used in the non-vacuity examples

`a → c ← b`, `c → d`, stored in the order `d, a, b, c`; `b` has three outcomes. -/

namespace Primo.Ex

def na : NodeV := ⟨"a", .discrete, ["t", "f"], [], [], ["c"], ⟨[2], [1 / 4, 3 / 4], rfl⟩, false⟩
def nb : NodeV :=
  ⟨"b", .discrete, ["x", "y", "z"], [], [], ["c"], ⟨[3], [1 / 2, 1 / 2, 0], rfl⟩, false⟩
def nc : NodeV :=
  ⟨"c", .discrete, ["t", "f"], ["b", "a"], [("a", ["t", "f"]), ("b", ["x", "y", "z"])], ["d"],
    ⟨[2, 3, 2], [1, 1 / 2, 1 / 3, 1 / 4, 1 / 5, 1 / 6, 0, 1 / 2, 2 / 3, 3 / 4, 4 / 5, 5 / 6], rfl⟩, false⟩
def nd : NodeV :=
  ⟨"d", .discrete, ["t", "f"], ["c"], [("c", ["t", "f"])], [],
    ⟨[2, 2], [1 / 10, 4 / 5, 9 / 10, 1 / 5], rfl⟩, false⟩

/-- the network -/
def bn : BN := [nd, na, nb, nc]

/-- hard evidence on `d`, soft evidence on `b` -/
def ev : Dict Evidence := [("d", .hard "t"), ("b", .soft [1 / 2, 0, 2])]

theorem bn_consistent : bn.Consistent := by
  constructor
  · decide
  · decide
  · decide
  · decide
  · decide
  · decide
  · decide

theorem bn_linked : bn.Linked := by
  constructor
  · decide
  · intro n hn c
    simp only [bn, List.mem_cons, List.not_mem_nil, or_false] at hn ⊢
    rcases hn with rfl | rfl | rfl | rfl <;>
      simp [nd, na, nb, nc, eq_comm]

theorem ev_legal : LegalEvidence bn ev := by
  constructor
  · decide
  · decide
  · intro v x h
    simp only [ev, List.mem_cons, List.not_mem_nil, or_false, Prod.mk.injEq, Evidence.hard.injEq,
      reduceCtorEq, and_false] at h
    obtain ⟨rfl, rfl⟩ := h
    decide
  · intro v l h
    simp only [ev, List.mem_cons, List.not_mem_nil, or_false, Prod.mk.injEq, Evidence.soft.injEq,
      reduceCtorEq, and_false, false_or] at h
    obtain ⟨rfl, rfl⟩ := h
    decide

theorem bn_nonneg : bn.NonNeg := by
  intro n hn
  simp only [bn, List.mem_cons, List.not_mem_nil, or_false] at hn
  rcases hn with rfl | rfl | rfl | rfl <;> decide +kernel

theorem ev_nonneg : NonNegEvidence ev := by
  intro v l h
  simp only [ev, List.mem_cons, List.not_mem_nil, or_false, Prod.mk.injEq, Evidence.soft.injEq,
    reduceCtorEq, and_false, false_or] at h
  obtain ⟨rfl, rfl⟩ := h
  decide +kernel

/-- a level that increases along every arc -/
def rank : Name → Nat := fun v => if v = "d" then 2 else if v = "c" then 1 else 0

theorem acyclic_of_rank {bn : BN} (r : Name → Nat)
    (h : ∀ n ∈ bn, ∀ p ∈ n.parentOrder, r p < r n.name) : bn.Acyclic := by
  have : ∀ u v, Relation.TransGen bn.IsParent u v → r u < r v := by
    intro u v huv
    induction huv with
    | single h' => obtain ⟨n, hn, rfl, hp⟩ := h'; exact h n hn _ hp
    | tail _ h' ih => obtain ⟨n, hn, rfl, hp⟩ := h'; exact ih.trans (h n hn _ hp)
  exact fun v hv => lt_irrefl _ (this v v hv)

theorem bn_acyclic : bn.Acyclic := acyclic_of_rank rank (by decide)

theorem bn_stochastic : bn.Stochastic := by
  intro n hn σ hσ
  simp only [bn, List.mem_cons, List.not_mem_nil, or_false] at hn
  rcases hn with rfl | rfl | rfl | rfl
  · have h : σ "c" < 2 := hσ "c" (by simp [nd])
    have : ∀ i < 2, ∑ j ∈ Finset.range 2, nd.cpd.get [j, i] = 1 := by decide +kernel
    exact this _ h
  · have : ∑ j ∈ Finset.range 2, na.cpd.get [j] = 1 := by decide +kernel
    exact this
  · have : ∑ j ∈ Finset.range 3, nb.cpd.get [j] = 1 := by decide +kernel
    exact this
  · have h1 : σ "b" < 3 := hσ "b" (by simp [nc])
    have h2 : σ "a" < 2 := hσ "a" (by simp [nc])
    have : ∀ i < 3, ∀ k < 2, ∑ j ∈ Finset.range 2, nc.cpd.get [j, i, k] = 1 := by decide +kernel
    exact this _ h1 _ h2

end Primo.Ex
