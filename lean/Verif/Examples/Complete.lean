import Verif.Props.Complete
import Verif.Examples.Separation

/-! # Concrete cases for C73 -/

namespace Primo
namespace Ex

theorem dEv_legal : LegalEvidence bn [("d", .hard "t")] :=
  ⟨by decide, by decide, by
    intro v x h
    simp only [List.mem_singleton, Prod.mk.injEq, Evidence.hard.injEq] at h
    obtain ⟨rfl, rfl⟩ := h
    decide, by intro v l h; simp at h⟩

-- evidence on the common descendant connects the roots
example := C73_complete bn_consistent bn_acyclic (by decide) dEv_legal (Q := ["a"]) (R := ["b"]) (by decide)
  (by decide) (by decide) roots_connected

/-- so does an array, which does not block the trail through `c` -/
theorem roots_connected_soft : ¬ bn.DSeparated [("c", .soft [1, 1 / 3])] ["a"] ["d", "b"] := by
  intro h
  obtain ⟨x, hx⟩ := h "b" (by simp) true (.collider (v := "c") (.down (.start (q := "a") (by simp))
    (by rintro ⟨x, hx⟩; simp at hx) (bn_parent.2 (by simp)))
    ⟨"c", by decide, .refl⟩ (bn_parent.2 (by simp)))
  simp at hx

example := C73_complete bn_consistent bn_acyclic (by decide) (ev := [("c", .soft [1, 1 / 3])])
  ⟨by decide, by decide, by intro v x h; simp at h, by
    intro v l h
    simp only [List.mem_singleton, Prod.mk.injEq, Evidence.soft.injEq] at h
    obtain ⟨rfl, rfl⟩ := h
    decide⟩ (Q := ["a"]) (R := ["d", "b"]) (by decide) (by decide) (by decide) roots_connected_soft

example := C73_iff bn_consistent bn_acyclic (by decide) cEv_legal (Q := ["d"]) (R := ["b", "a"]) (by decide)
  (by decide) (by decide)
example : bn.DSeparated cEv ["b", "a"] ["d"] := (C73_symm bn_consistent bn_acyclic (by decide) cEv_legal
  (by decide) (by decide) (by decide)).1 c_separates

end Ex
end Primo
