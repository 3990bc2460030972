import Verif.Spec.Sampling
import Verif.Examples.Network

/-! # States and hard evidence for the example network -/

namespace Primo.Ex

/-- the state used in the examples -/
def state : Dict Val := [("a", "f"), ("b", "y"), ("c", "t"), ("d", "t")]

/-- evidence on every node of the example network -/
def allObserved : Dict Val := [("a", "f"), ("b", "y"), ("c", "t"), ("d", "t")]

theorem na_mem : na ∈ bn := by simp [bn]
theorem nc_mem : nc ∈ bn := by simp [bn]

theorem bn_discrete : bn.Discrete := by
  constructor <;> decide

/-- the instantiation described by `state` -/
def σ : Assign := fun v => if v = "a" ∨ v = "b" then 1 else 0

theorem σ_legal : Legal bn.card bn.names σ := by
  unfold Legal; decide

theorem state_reads : Reads bn state σ := by
  unfold Reads ReadsOn; decide

/-- `d` observed -/
def hard : Dict Val := [("d", "t")]

theorem hard_legal : LegalHard bn hard := by
  constructor <;> decide

theorem state_good : GoodState bn hard state := by
  refine ⟨by decide, ?_⟩
  intro v x h
  simp only [hard, Dict.get?] at h
  split at h
  · rename_i e; cases h; subst e; decide
  · cases h

end Primo.Ex
