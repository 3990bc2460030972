import Verif.Spec.Uniform
import Verif.Lemmas.Feedback

/-! # The network with uniform tables -/

namespace Primo
namespace BN

variable {bn : BN}

theorem uniform_bare (bn : BN) : bn.uniform.bare = bn.bare := by
  unfold uniform bare
  rw [List.map_map]
  exact List.map_congr_left fun n _ => rfl

theorem uniform_consistent (hc : bn.Consistent) : bn.uniform.Consistent :=
  hc.of_bare (uniform_bare bn) fun n' hn' => by
    obtain ⟨n, hn, rfl⟩ := List.mem_map.1 hn'
    rfl

theorem uniform_nonneg (bn : BN) : bn.uniform.NonNeg := by
  intro n' hn' x hx
  obtain ⟨n, hn, rfl⟩ := List.mem_map.1 hn'
  simp only [NDArray.tabulate, List.mem_map] at hx
  obtain ⟨_, -, rfl⟩ := hx
  positivity

theorem uniform_get {n : NodeV} (hn : n ∈ bn.uniform) {i : Nat} {σ : Assign} (hi : i < n.values.length)
    (hσ : Legal bn.card n.parentOrder σ) :
    n.cpd.get (i :: n.parentOrder.map σ) = 1 / n.values.length := by
  obtain ⟨m, hm, rfl⟩ := List.mem_map.1 hn
  refine NDArray.get_tabulate _ (List.Forall₂.cons hi ?_)
  rw [List.forall₂_map_left_iff, List.forall₂_map_right_iff]
  exact List.forall₂_same.2 fun v hv => hσ v hv

theorem uniform_stochastic (hpos : ∀ n ∈ bn, n.values ≠ []) : bn.uniform.Stochastic := by
  intro n hn σ hσ
  rw [card_of_bare (uniform_bare bn)] at hσ
  have hne : (n.values.length : ℚ) ≠ 0 := by
    obtain ⟨m, hm, rfl⟩ := List.mem_map.1 hn
    exact_mod_cast fun h => hpos m hm (List.length_eq_zero_iff.1 h)
  rw [Finset.sum_congr rfl fun i hi => uniform_get hn (Finset.mem_range.1 hi) hσ, Finset.sum_const,
    Finset.card_range, nsmul_eq_mul]
  field_simp

end BN
end Primo
