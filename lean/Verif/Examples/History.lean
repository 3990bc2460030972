import Verif.Spec.NetState
import Verif.Lemmas.Py

/-! # A concrete history used in the non-vacuity examples -/

namespace Primo
namespace Net

/-- a sufficient test for `Good` -/
def goodCheck (s : Net) : Op → Bool
  | .addNode i => decide ((s.heap i).parentOrder = [])
  | .addEdge a b => decide (a ∉ s.parentsOf b) &&
      s.lookup.all fun p => decide (p.1 = a → (s.heap p.2).kind ≠ .utility)
  | .removeNode k => s.lookup.all fun p =>
      decide (k ∈ (s.heap p.2).parentOrder → (s.heap p.2).kind = .discrete)
  | .changeName old new byObj => decide (new = old ∨ (new ∉ s.lookup.keys ∧ byObj = false))
  | _ => true

/-- `goodCheck` along a history -/
def goodRunCheck : List Op → Net → Bool
  | [], _ => true
  | op :: ops, s => goodCheck s op && goodRunCheck ops (step op s).1

theorem good_of_check {s : Net} {op : Op} (h : goodCheck s op = true) : Good s op := by
  cases op <;> try trivial
  · simpa [goodCheck, Good] using h
  · intro c j hj hk
    simp only [goodCheck, List.all_eq_true, decide_eq_true_eq] at h
    exact h (c, j) (Dict.get?_mem hj) hk
  · simp only [goodCheck, Bool.and_eq_true, List.all_eq_true, decide_eq_true_eq] at h
    exact ⟨h.1, fun i hi => h.2 (_, i) (Dict.get?_mem hi) rfl⟩
  · simpa [goodCheck, Good] using h

theorem goodRun_of_check {ops : List Op} {s : Net} (h : goodRunCheck ops s = true) :
    GoodRun ops s := by
  induction ops generalizing s with
  | nil => trivial
  | cons op ops ih =>
    simp only [goodRunCheck, Bool.and_eq_true] at h
    exact ⟨good_of_check h.1, ih h.2⟩

end Net

namespace Ex
open Net

/-- Build `a → c ← b`, `c → d` with tables, after some detours (a node removed, an edge removed,
a rename, changed outcomes, rejected calls). -/
def ops : List Op := [
  .create .discrete "a" ["t", "f"], .create .discrete "b" ["x", "y"],
  .create .discrete "cc" ["t", "f"], .create .discrete "d" ["t", "f"],
  .create .discrete "e" ["t", "f"],
  .addNode 0, .addNode 1, .addNode 2, .addNode 3, .addNode 4, .addNode 0,
  .addEdge "e" "d", .addEdge "cc" "d", .addEdge "a" "d", .addEdge "b" "cc", .addEdge "a" "cc",
  .addEdge "a" "nope", .removeNode "e", .removeEdge "a" "d", .changeValues "b" ["x", "y", "z"],
  .changeName "cc" "c" false, .setCpd 2 ⟨[2, 2], [0, 0, 0, 0], rfl⟩,
  .setCpd 0 ⟨[2], [1 / 4, 3 / 4], rfl⟩, .setCpd 1 ⟨[3], [1 / 2, 1 / 2, 0], rfl⟩,
  .setCpd 2 ⟨[2, 3, 2],
    [1, 1 / 2, 1 / 3, 1 / 4, 1 / 5, 1 / 6, 0, 1 / 2, 2 / 3, 3 / 4, 4 / 5, 5 / 6], rfl⟩,
  .setCpd 3 ⟨[2, 2], [1 / 10, 4 / 5, 9 / 10, 1 / 5], rfl⟩]

theorem ops_good : GoodRun ops Net.empty := goodRun_of_check (by decide +kernel)

/-- the state it ends in -/
def net : Net := run ops Net.empty

example : net.view.names = ["a", "b", "d", "c"] ∧ net.view.map NodeV.parentOrder = [[], [], ["c"], ["b", "a"]] ∧
    net.view.map NodeV.children = [["c"], ["c"], [], ["d"]] := by decide +kernel

end Ex
end Primo
