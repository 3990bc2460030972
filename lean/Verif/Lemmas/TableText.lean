import Verif.Spec.IO
import Verif.Lemmas.NDArray
import Verif.Lemmas.Py

/-!
# Table order and table text
-/

namespace Primo
namespace NDArray

theorem inRange_reverse {s idx : List Nat} (h : InRange s idx) : InRange s.reverse idx.reverse :=
  List.rel_reverse h

theorem length_flattenF (a : NDArray) : a.flattenF.length = a.shape.prod := by
  rw [flattenF, List.length_map, length_allIdx, List.prod_reverse]

theorem flattenF_getElem? (a : NDArray) {idx : List Nat} (h : InRange a.shape idx) :
    a.flattenF[ravel a.shape.reverse idx.reverse]? = some (a.get idx) := by
  rw [flattenF, List.getElem?_map, allIdx_getElem? (inRange_reverse h)]
  simp

theorem ravel_snoc : ∀ {s idx : List Nat} (n i : Nat), idx.length = s.length →
    ravel (s ++ [n]) (idx ++ [i]) = i + n * ravel s idx
  | [], [], n, i, _ => by simp [ravel]
  | [], _ :: _, _, _, h => by simp at h
  | _ :: _, [], _, _, h => by simp at h
  | m :: s, j :: idx, n, i, h => by
    simp only [List.cons_append, ravel, ravel_snoc n i (by simpa using h), List.prod_append,
      List.prod_singleton]
    ring

theorem ravel_reverse : ∀ {s idx : List Nat}, idx.length = s.length →
    ravel s.reverse idx.reverse = tablePos s idx
  | [], [], _ => rfl
  | [], _ :: _, h => by simp at h
  | _ :: _, [], h => by simp at h
  | n :: s, i :: idx, h => by
    simp only [List.reverse_cons, tablePos]
    rw [ravel_snoc n i (by simpa using h), ravel_reverse (by simpa using h)]

theorem flattenF_tablePos (a : NDArray) {idx : List Nat} (h : InRange a.shape idx) :
    a.flattenF[tablePos a.shape idx]? = some (a.get idx) := by
  rw [← ravel_reverse h.length_eq, flattenF_getElem? a h]

theorem reshapeF_ok {l : List ℚ} {shape : List Nat} {a : NDArray} (h : reshapeF l shape = .ok a) :
    l.length = shape.prod ∧ a.shape = shape ∧
      ∀ idx, InRange shape idx → a.get idx = l.getD (tablePos shape idx) 0 := by
  unfold reshapeF at h
  split at h
  · cases h
    refine ⟨by assumption, rfl, fun idx hi => ?_⟩
    rw [get_tabulate _ hi, ravel_reverse hi.length_eq]
  · cases h

theorem reshapeF_flattenF (a : NDArray) : reshapeF a.flattenF a.shape = .ok a := by
  rw [reshapeF, if_pos (length_flattenF a)]
  congr 1
  refine ext_get rfl fun idx hi => ?_
  have hi' : InRange a.shape idx := hi
  rw [get_tabulate _ hi', List.getD_eq_getElem?_getD, flattenF_getElem? a hi']
  rfl

end NDArray

/-! ## text -/

theorem dropWhile_of_head {p : Char → Bool} : ∀ {l : List Char},
    (∀ c, l.head? = some c → p c = false) → l.dropWhile p = l
  | [], _ => rfl
  | c :: l, h => by simp [h c rfl]

/-- no strings attached: non-empty without white space -/
def Solid (l : List Char) : Prop := l ≠ [] ∧ ∀ c ∈ l, pySpace c = false

theorem intercalate_head : ∀ {L : List (List Char)}, (∀ l ∈ L, Solid l) →
    ∀ c, ([' '].intercalate L).head? = some c → pySpace c = false
  | [], _, c, h => by simp at h
  | [x], hs, c, h => by
    simp only [List.intercalate_singleton] at h
    exact (hs x (by simp)).2 c (List.mem_of_mem_head? h)
  | x :: y :: L, hs, c, h => by
    obtain ⟨h1, h2⟩ := hs x (by simp)
    rw [List.intercalate_cons_cons] at h
    cases x with
    | nil => exact absurd rfl h1
    | cons a x =>
      simp only [List.cons_append, List.head?_cons, Option.some.injEq] at h
      exact h2 c (by simp [h])

theorem intercalate_last : ∀ {L : List (List Char)}, (∀ l ∈ L, Solid l) →
    ∀ c, ([' '].intercalate L).getLast? = some c → pySpace c = false
  | [], _, c, h => by simp at h
  | [x], hs, c, h => by
    simp only [List.intercalate_singleton] at h
    exact (hs x (by simp)).2 c (List.mem_of_mem_getLast? h)
  | x :: y :: L, hs, c, h => by
    have hne : [' '].intercalate (y :: L) ≠ [] := by
      have := (hs y (by simp)).1
      cases L with
      | nil => simpa using this
      | cons z L => rw [List.intercalate_cons_cons]; simp [this]
    rw [List.intercalate_cons_cons, List.getLast?_append_of_ne_nil _ hne] at h
    exact intercalate_last (fun l hl => hs l (List.mem_cons_of_mem _ hl)) c h

theorem pyStrip_join {L : List String} (h : ∀ s ∈ L, Solid s.toList) :
    pyStrip (String.intercalate " " L) = String.intercalate " " L := by
  have hL : ∀ l ∈ L.map String.toList, Solid l := by simpa using h
  have e : (String.intercalate " " L).toList = [' '].intercalate (L.map String.toList) := by
    rw [String.toList_intercalate]; rfl
  unfold pyStrip
  rw [e, dropWhile_of_head (intercalate_head hL), dropWhile_of_head, List.reverse_reverse, ← e,
    String.ofList_toList]
  intro c hc
  rw [List.head?_reverse] at hc
  exact intercalate_last hL c hc

theorem pySplit_join {L : List String} (hne : L ≠ []) (h : ∀ s ∈ L, Solid s.toList) :
    pySplit ' ' (String.intercalate " " L) = L := by
  have e : (String.intercalate " " L).toList = [' '].intercalate (L.map String.toList) := by
    rw [String.toList_intercalate]; rfl
  unfold pySplit
  rw [e, List.splitOn_intercalate]
  · rw [List.map_map]
    conv_rhs => rw [← List.map_id L]
    refine List.map_congr_left fun s _ => ?_
    simp
  · intro l hl hc
    simp only [List.mem_map] at hl
    obtain ⟨s, hs, rfl⟩ := hl
    have := (h s hs).2 ' ' hc
    simp [pySpace] at this
  · simpa using hne

theorem FloatText.solid (ft : FloatText) (q : ℚ) : Solid (ft.str q).toList :=
  ⟨ft.nonempty q, ft.noSpace q⟩

/-- the table text is read back as the numbers it was written from -/
theorem read_tableText (ft : FloatText) {l : List ℚ} (hne : l ≠ []) :
    (pySplit ' ' (pyStrip (String.intercalate " " (l.map ft.str)))).mapM ft.float = .ok l := by
  have h : ∀ s ∈ l.map ft.str, Solid s.toList := by
    intro s hs
    obtain ⟨q, _, rfl⟩ := List.mem_map.1 hs
    exact ft.solid q
  rw [pyStrip_join h, pySplit_join (by simpa using hne) h, List.mapM_map]
  rw [mapM_ok (f := ft.float ∘ ft.str) (g := id) (fun q _ => ft.float_str q), List.map_id]

end Primo
