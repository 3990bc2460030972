import Verif.Spec.Sum

/-! # Concrete factors used in the non-vacuity examples -/

namespace Primo.Ex

/-- `a` has two outcomes, `b` three, `c` two. -/
def card : Name → Nat := fun v => if v = "b" then 3 else 2

def labels : Dict (List Val) := [("a", ["t", "f"]), ("b", ["x", "y", "z"]), ("c", ["t", "f"])]

/-- a factor over (b, a) -/
def f : Factor := ⟨⟨[3, 2], [1, 2, 3, 4, 5, 6], rfl⟩, ["b", "a"],
  [("b", ["x", "y", "z"]), ("a", ["t", "f"])]⟩
/-- a factor over (a, c, b) with zeros -/
def g : Factor := ⟨⟨[2, 2, 3], [0, 2, 3, 4, 5, 6, 1, 0, 1, 7, 8, 9], rfl⟩, ["a", "c", "b"],
  [("c", ["t", "f"]), ("a", ["t", "f"]), ("b", ["x", "y", "z"])]⟩
/-- a factor over (c) -/
def h : Factor := ⟨⟨[2], [1 / 2, 1 / 4], rfl⟩, ["c"], [("c", ["t", "f"])]⟩
/-- a factor over (a) -/
def k : Factor := ⟨⟨[2], [3, 0], rfl⟩, ["a"], [("a", ["t", "f"])]⟩

theorem f_wf : f.WF card :=
  ⟨by decide, by decide, by simp [f, card, Dict.get?], by decide⟩
theorem g_wf : g.WF card :=
  ⟨by decide, by decide, by simp [g, card, Dict.get?], by decide⟩
theorem h_wf : h.WF card :=
  ⟨by decide, by decide, by simp [h, card, Dict.get?], by decide⟩
theorem k_wf : k.WF card :=
  ⟨by decide, by decide, by simp [k, card, Dict.get?], by decide⟩

end Primo.Ex
