import Verif.Spec.IO

/-!
# Path names
-/

namespace Primo
namespace Path

theorem pySplit_cons_sep (c : Char) (a b : String) :
    pySplit c (a ++ String.ofList [c] ++ b) = pySplit c a ++ pySplit c b := by
  unfold pySplit
  rw [String.toList_append, String.toList_append, String.toList_ofList, List.append_assoc,
    List.singleton_append, List.splitOn, List.splitOnP_append_cons _ _ (by simp), List.map_append]
  rfl

theorem pySplit_plain {c : Char} {s : String} (h : c ∉ s.toList) : pySplit c s = [s] := by
  unfold pySplit
  rw [List.splitOn, List.splitOnP_eq_singleton]
  · simp
  · intro x hx
    simp only [beq_eq_false_iff_ne, ne_eq]
    rintro rfl; exact h hx

theorem pySplit_pieces (c : Char) : ∀ (n : Nat) (s : String), s.toList.length ≤ n →
    ∀ t ∈ pySplit c s, c ∉ t.toList
  | n, s, hn, t, ht => by
    by_cases h : c ∈ s.toList
    · obtain ⟨a, b, hab⟩ := List.append_of_mem h
      have hs : s = String.ofList a ++ String.ofList [c] ++ String.ofList b := by
        rw [← String.toList_inj, hab]; simp
      rw [hs, pySplit_cons_sep] at ht
      cases n with
      | zero => rw [hab] at hn; simp at hn
      | succ n =>
        rw [hab] at hn
        simp only [List.length_append, List.length_cons] at hn
        rcases List.mem_append.1 ht with ht | ht
        · exact pySplit_pieces c n _ (by simp; omega) t ht
        · exact pySplit_pieces c n _ (by simp; omega) t ht
    · rw [pySplit_plain h] at ht
      rw [List.mem_singleton.1 ht]; exact h

theorem walk_normal {dir : List String} {c : String} (hd : NormalDir dir) (hc : '/' ∉ c.toList) :
    NormalDir (walk dir c) := by
  unfold walk
  split
  · exact hd
  · rename_i h1
    split
    · exact fun x hx => hd x ((List.dropLast_sublist dir).subset hx)
    · rename_i h2
      intro x hx
      rcases List.mem_append.1 hx with hx | hx
      · exact hd x hx
      · rw [List.mem_singleton.1 hx]
        exact ⟨fun h => h1 (.inl h), fun h => h1 (.inr h), h2, hc⟩

theorem foldl_walk_normal : ∀ {l dir : List String}, NormalDir dir → (∀ c ∈ l, '/' ∉ c.toList) →
    NormalDir (l.foldl walk dir)
  | [], _, hd, _ => hd
  | c :: l, _, hd, h => foldl_walk_normal (l := l) (walk_normal hd (h c (by simp)))
      fun x hx => h x (List.mem_cons_of_mem _ hx)

theorem foldl_walk_of_normal : ∀ {l dir : List String}, NormalDir l → l.foldl walk dir = dir ++ l
  | [], dir, _ => by simp
  | c :: l, dir, h => by
    obtain ⟨h1, h2, h3, _⟩ := h c (by simp)
    rw [List.foldl_cons, walk, if_neg (by tauto), if_neg h3,
      foldl_walk_of_normal fun x hx => h x (List.mem_cons_of_mem _ hx)]
    simp

theorem slash_eq : ("/" : String) = String.ofList ['/'] := rfl

/-- the absolute path with these components -/
def absPath (l : List String) : String := "/" ++ String.intercalate "/" l

theorem isAbs_slash (s : String) : isAbs ("/" ++ s) = true := by
  simp [isAbs, String.toList_append]

theorem isAbs_absPath (l : List String) (s : String) : isAbs (absPath l ++ s) = true := by
  rw [absPath, String.append_assoc]; exact isAbs_slash _

theorem pySplit_absPath {l : List String} (h : NormalDir l) :
    (pySplit '/' (absPath l)).foldl walk [] = l := by
  have e : absPath l = "" ++ String.ofList ['/'] ++ String.intercalate "/" l := by
    rw [String.empty_append]; rfl
  rw [e, pySplit_cons_sep, List.foldl_append, pySplit_plain (by simp)]
  have h0 : List.foldl walk [] [""] = [] := by simp [walk]
  rw [h0]
  by_cases hl : l = []
  · subst hl
    rw [show String.intercalate "/" ([] : List String) = "" from rfl, pySplit_plain (by simp), h0]
  · have : pySplit '/' (String.intercalate "/" l) = l := by
      unfold pySplit
      rw [String.toList_intercalate]
      have : "/".toList = ['/'] := rfl
      rw [this, List.splitOn_intercalate]
      · rw [List.map_map]
        conv_rhs => rw [← List.map_id l]
        exact List.map_congr_left fun s _ => by simp
      · intro x hx
        obtain ⟨s, hs, rfl⟩ := List.mem_map.1 hx
        exact (h s hs).2.2.2
      · simpa using hl
    rw [this, foldl_walk_of_normal h, List.nil_append]

theorem intercalate_snoc {sep : List Char} {x : List Char} : ∀ {l : List (List Char)}, l ≠ [] →
    sep.intercalate (l ++ [x]) = sep.intercalate l ++ sep ++ x
  | [], h => absurd rfl h
  | [y], _ => by simp [List.intercalate_cons_cons]
  | y :: z :: l, _ => by
    have := intercalate_snoc (sep := sep) (x := x) (l := z :: l) (by simp)
    simp only [List.cons_append] at this ⊢
    rw [List.intercalate_cons_cons, List.intercalate_cons_cons, this]
    simp

theorem dropWhile_append_stop {p : Char → Bool} : ∀ {l : List Char} {c : Char} {m : List Char},
    (∀ x ∈ l, p x = true) → p c = false → (l ++ c :: m).dropWhile p = c :: m
  | [], c, m, _, hc => by simp [hc]
  | x :: l, c, m, h, hc => by
    rw [List.cons_append, List.dropWhile_cons_of_pos (h x (by simp))]
    exact dropWhile_append_stop (fun y hy => h y (List.mem_cons_of_mem _ hy)) hc

/-- the part of a path up to its last slash -/
theorem head_of_slash {a x : List Char} (hx : '/' ∉ x) :
    (((a ++ '/' :: x).reverse.dropWhile (· ≠ '/'))).reverse = a ++ ['/'] := by
  rw [List.reverse_append, List.reverse_cons, List.append_assoc, List.singleton_append,
    dropWhile_append_stop]
  · simp
  · intro y hy
    simp only [decide_eq_true_eq, ne_eq]
    rintro rfl
    exact hx (List.mem_reverse.1 hy)
  · simp

/-- `dirname` of a normalised absolute path -/
theorem dirname_absPath {l : List String} {c : String} (h : NormalDir l) (hc : '/' ∉ c.toList) :
    dirname (absPath (l ++ [c])) = absPath l := by
  by_cases hl : l = []
  · subst hl
    have e : (absPath ([] ++ [c])).toList = [] ++ '/' :: c.toList := by
      simp [absPath, String.toList_append, String.toList_intercalate]
    unfold dirname
    simp only
    rw [e, head_of_slash hc, if_pos (by simp)]
    rfl
  · have e : (absPath (l ++ [c])).toList = (absPath l).toList ++ '/' :: c.toList := by
      simp only [absPath, String.toList_append, String.toList_intercalate, List.map_append,
        List.map_singleton]
      rw [intercalate_snoc (by simpa using hl)]
      simp
    unfold dirname
    simp only
    rw [e, head_of_slash hc]
    obtain ⟨l', y, rfl⟩ : ∃ l' y, l = l' ++ [y] :=
      ⟨l.dropLast, l.getLast hl, (List.dropLast_append_getLast hl).symm⟩
    obtain ⟨hy1, _, _, hy⟩ := h y (by simp)
    -- the last character of `absPath l` is not a slash
    obtain ⟨y', z, hz⟩ : ∃ y' z, y.toList = y' ++ [z] := by
      have hne : y.toList ≠ [] := fun h0 => hy1 (by rw [← String.toList_inj, h0]; rfl)
      exact ⟨_, _, (List.dropLast_append_getLast hne).symm⟩
    have hzs : z ≠ '/' := by
      rintro rfl; exact hy (by rw [hz]; simp)
    obtain ⟨w, hw⟩ : ∃ w, (absPath (l' ++ [y])).toList = w ++ [z] := by
      have : ∃ w', " ".toList = w' := ⟨_, rfl⟩
      simp only [absPath, String.toList_append, String.toList_intercalate, List.map_append,
        List.map_singleton]
      by_cases hl' : l' = []
      · subst hl'
        exact ⟨'/' :: y', by simp [hz]⟩
      · rw [intercalate_snoc (by simpa using hl'), hz]
        exact ⟨_, by rw [← List.append_assoc, ← List.append_assoc]⟩
    have hall : ¬ ((absPath (l' ++ [y])).toList ++ ['/']).all (· = '/') = true := by
      rw [hw]; simp [hzs]
    rw [if_neg hall, hw]
    have : ((w ++ [z] ++ ['/']).reverse.dropWhile (· = '/')).reverse = w ++ [z] := by
      simp [hzs]
    rw [this, ← hw, String.ofList_toList]

/-- looking up a relative reference from the folder `l` -/
theorem resolve_ref {cwd l : List String} (h : NormalDir l) {ref : String} (hr : isAbs ref = false) :
    resolve cwd (DBNSpec.refPath (absPath l) ref) = (pySplit '/' ref).foldl walk l := by
  unfold DBNSpec.refPath
  rw [if_neg (by simp [hr])]
  unfold resolve
  rw [String.append_assoc, isAbs_absPath, ← String.append_assoc, slash_eq, pySplit_cons_sep,
    List.foldl_append, if_pos rfl, pySplit_absPath h]

/-- a component that is taken literally -/
def Literal (c : String) : Prop := c ≠ "" ∧ c ≠ "." ∧ c ≠ ".." ∧ '/' ∉ c.toList

theorem walk_literal {dir : List String} {c : String} (h : Literal c) : walk dir c = dir ++ [c] := by
  rw [walk, if_neg (by rintro (h0 | h0); exacts [h.1 h0, h.2.1 h0]), if_neg h.2.2.1]

/-- the folder part of a path, and what is left: `path = q ++ "/" ++ b` or `path = b`, with `b` free
of slashes -/
theorem split_last (path : String) : ∃ b : String, '/' ∉ b.toList ∧
    (path = b ∨ ∃ q, path = q ++ "/" ++ b) := by
  by_cases h : '/' ∈ path.toList
  · have h' : '/' ∈ path.toList.reverse := by simpa using h
    obtain ⟨a, b, e, hn⟩ := List.eq_append_cons_of_mem h'
    refine ⟨String.ofList a.reverse, by simpa using hn, .inr ⟨String.ofList b.reverse, ?_⟩⟩
    rw [← String.toList_inj]
    have := congrArg List.reverse e
    simpa using this
  · exact ⟨path, h, .inl rfl⟩

/-- Where the files with prefix `path ++ name` go. -/
theorem resolve_file {cwd : List String} (hcwd : NormalDir cwd) {path b : String}
    (hb : '/' ∉ b.toList) (hp : path = b ∨ ∃ q, path = q ++ "/" ++ b) :
    ∃ dir, NormalDir dir ∧ ∀ file, Literal (b ++ file) →
      resolve cwd (path ++ file) = dir ++ [b ++ file] := by
  rcases hp with rfl | ⟨q, rfl⟩
  · refine ⟨cwd, hcwd, fun file hf => ?_⟩
    have habs : isAbs (path ++ file) = false := by
      unfold isAbs
      simp only [decide_eq_false_iff_not]
      intro h0
      exact hf.2.2.2 (List.mem_of_mem_head? h0)
    unfold resolve
    rw [habs, pySplit_plain hf.2.2.2]
    simp [walk_literal hf]
  · refine ⟨(pySplit '/' q).foldl walk (if isAbs (q ++ "/") then [] else cwd), ?_, ?_⟩
    · refine foldl_walk_normal ?_ (pySplit_pieces '/' _ q le_rfl)
      split
      · intro x hx; simp at hx
      · exact hcwd
    · intro file hf
      have habs : isAbs (q ++ "/" ++ b ++ file) = isAbs (q ++ "/") := by
        unfold isAbs
        simp only [String.toList_append]
        cases q.toList <;> simp
      unfold resolve
      rw [habs, String.append_assoc, slash_eq, pySplit_cons_sep, pySplit_plain hf.2.2.2,
        List.foldl_append]
      simp [walk_literal hf]

end Path
end Primo
