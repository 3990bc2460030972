import Verif.Props.BucketSize
import Verif.Spec.Joint

/-! # Networks for which the default elimination order is a bad one -/

namespace Primo
open VE Factor

namespace Wide

/-- names that are different for different numbers -/
def tag (k i : Nat) : Name := String.ofList (List.replicate k 'y' ++ List.replicate i 'x')

theorem tag_inj {k i k' i' : Nat} : tag k i = tag k' i' ↔ k = k' ∧ i = i' := by
  constructor
  · intro h
    have h := String.ofList_injective h
    have h1 := congrArg (List.count 'y') h
    have h2 := congrArg (List.count 'x') h
    simp [List.count_replicate] at h1 h2
    exact ⟨h1, h2⟩
  · rintro ⟨rfl, rfl⟩; rfl

/-- `n + 1` causes -/
abbrev p (i : Nat) : Name := tag 0 i
/-- `n` effects, of two neighbouring causes and both conditions -/
abbrev c (i : Nat) : Name := tag 1 i
/-- two conditions -/
abbrev z (i : Nat) : Name := tag 2 i

/-- the causes of effect `j` -/
def pars (j : Nat) : List Name := [p j, p (j + 1), z 0, z 1]

/-- effect `j` and its causes -/
def fam (j : Nat) : List Name := c j :: pars j

/-- a node with two outcomes that are equally likely whatever its parents -/
def node (v : Name) (ps cs : List Name) : NodeV :=
  { name := v, values := ["t", "f"], parentOrder := ps, parents := ps.map fun q => (q, ["t", "f"])
    children := cs, cpd := NDArray.tabulate (2 :: ps.map fun _ => 2) fun _ => 1 / 2 }

/-- the effects of cause `i` -/
def kids (n i : Nat) : List Name := ((List.range n).filter fun j => j = i ∨ j + 1 = i).map c

end Wide

open Wide

/-- `n` effects in a row, each with two neighbouring causes and two common causes -/
def wide (n : Nat) : BN :=
  (List.range (n + 1)).map (fun i => node (p i) [] (kids n i)) ++
    ((List.range n).map (fun j => node (c j) (pars j) []) ++
      [node (z 0) [] ((List.range n).map c), node (z 1) [] ((List.range n).map c)])

namespace Wide
variable {n : Nat}

theorem mem_wide {m : NodeV} : m ∈ wide n ↔ (∃ i < n + 1, m = node (p i) [] (kids n i)) ∨
    (∃ j < n, m = node (c j) (pars j) []) ∨ m = node (z 0) [] ((List.range n).map c) ∨
      m = node (z 1) [] ((List.range n).map c) := by
  simp only [wide, List.mem_append, List.mem_map, List.mem_range, List.mem_cons, List.not_mem_nil, or_false,
    eq_comm (a := m)]

theorem names_eq : (wide n).names =
    (List.range (n + 1)).map p ++ ((List.range n).map c ++ [z 0, z 1]) := by
  simp [BN.names, wide, node, Function.comp_def]

theorem mem_names {v : Name} : v ∈ (wide n).names ↔ (∃ i < n + 1, v = p i) ∨ (∃ j < n, v = c j) ∨
    v = z 0 ∨ v = z 1 := by
  rw [names_eq]
  simp only [List.mem_append, List.mem_map, List.mem_range, List.mem_cons, List.not_mem_nil, or_false,
    eq_comm (a := v)]

theorem map_nodup (k m : Nat) : ((List.range m).map (tag k)).Nodup :=
  List.nodup_range.map fun _ _ h => (tag_inj.1 h).2

theorem names_nodup : (wide n).names.Nodup := by
  rw [names_eq, List.nodup_append, List.nodup_append]
  refine ⟨map_nodup _ _, ⟨map_nodup _ _, by simp [tag_inj], ?_⟩, ?_⟩
  · intro a ha b hb e
    simp only [List.mem_map, List.mem_cons, List.not_mem_nil, or_false] at ha hb
    obtain ⟨i, -, rfl⟩ := ha
    rcases hb with rfl | rfl <;> simp [tag_inj] at e
  · intro a ha b hb e
    simp only [List.mem_append, List.mem_map, List.mem_cons, List.not_mem_nil, or_false] at ha hb
    obtain ⟨i, -, rfl⟩ := ha
    rcases hb with ⟨j, -, rfl⟩ | rfl | rfl <;> simp [tag_inj] at e

theorem lab_eq {v : Name} (hv : v ∈ (wide n).names) : (wide n).lab v = ["t", "f"] := by
  obtain ⟨m, hm, rfl⟩ := BN.exists_of_mem_names hv
  rw [BN.lab_eq names_nodup hm]
  rcases mem_wide.1 hm with ⟨i, -, rfl⟩ | ⟨j, -, rfl⟩ | rfl | rfl <;> rfl

theorem card_eq {v : Name} (hv : v ∈ (wide n).names) : (wide n).card v = 2 := by
  rw [BN.card, lab_eq hv]; rfl

theorem pars_mem {j : Nat} (hj : j < n) : ∀ q ∈ pars j, q ∈ (wide n).names := by
  intro q hq
  simp only [pars, List.mem_cons, List.not_mem_nil, or_false] at hq
  rw [mem_names]
  rcases hq with rfl | rfl | rfl | rfl
  · exact .inl ⟨j, by omega, rfl⟩
  · exact .inl ⟨j + 1, by omega, rfl⟩
  · exact .inr (.inr (.inl rfl))
  · exact .inr (.inr (.inr rfl))

theorem pars_nodup (j : Nat) : (pars j).Nodup := by simp [pars, tag_inj]

theorem consistent : (wide n).Consistent where
  nodup := names_nodup
  kind := by
    intro m hm
    rcases mem_wide.1 hm with ⟨i, -, rfl⟩ | ⟨j, -, rfl⟩ | rfl | rfl <;> simp [node]
  parents_nodup := by
    intro m hm
    rcases mem_wide.1 hm with ⟨i, -, rfl⟩ | ⟨j, -, rfl⟩ | rfl | rfl <;> simp [node, pars_nodup]
  self := by
    intro m hm
    rcases mem_wide.1 hm with ⟨i, -, rfl⟩ | ⟨j, -, rfl⟩ | rfl | rfl <;> simp [node, pars, tag_inj]
  parents_mem := by
    intro m hm
    rcases mem_wide.1 hm with ⟨i, -, rfl⟩ | ⟨j, hj, rfl⟩ | rfl | rfl
    · simp [node]
    · exact pars_mem hj
    · simp [node]
    · simp [node]
  parents_val := by
    intro m hm
    rcases mem_wide.1 hm with ⟨i, -, rfl⟩ | ⟨j, hj, rfl⟩ | rfl | rfl
    · simp [node]
    · intro q hq
      rw [lab_eq (pars_mem hj q hq)]
      simp only [node, pars, List.mem_cons, List.not_mem_nil, or_false] at hq
      rcases hq with rfl | rfl | rfl | rfl <;> simp [node, pars, Dict.get?, tag_inj]
    · simp [node]
    · simp [node]
  shape := by
    intro m hm
    rcases mem_wide.1 hm with ⟨i, -, rfl⟩ | ⟨j, hj, rfl⟩ | rfl | rfl
    · rfl
    · simp only [node, NDArray.tabulate, List.length_cons, List.length_nil, List.cons.injEq, true_and]
      exact List.map_congr_left fun q hq => (card_eq (pars_mem hj q hq)).symm
    · rfl
    · rfl

theorem isParent {a b : Name} : (wide n).IsParent a b ↔ ∃ j < n, b = c j ∧ a ∈ pars j := by
  constructor
  · rintro ⟨m, hm, rfl, ha⟩
    rcases mem_wide.1 hm with ⟨i, -, rfl⟩ | ⟨j, hj, rfl⟩ | rfl | rfl
    · simp [node] at ha
    · exact ⟨j, hj, rfl, ha⟩
    · simp [node] at ha
    · simp [node] at ha
  · rintro ⟨j, hj, rfl, ha⟩
    exact ⟨node (c j) (pars j) [], mem_wide.2 (.inr (.inl ⟨j, hj, rfl⟩)), rfl, ha⟩

theorem linked : (wide n).Linked where
  nodup := by
    intro m hm
    rcases mem_wide.1 hm with ⟨i, -, rfl⟩ | ⟨j, -, rfl⟩ | rfl | rfl
    · exact (List.nodup_range.filter _).map fun _ _ h => (tag_inj.1 h).2
    · exact List.nodup_nil
    · exact map_nodup 1 n
    · exact map_nodup 1 n
  iff := by
    intro m hm b
    have key : (∃ m' ∈ wide n, m'.name = b ∧ m.name ∈ m'.parentOrder) ↔ ∃ j < n, b = c j ∧ m.name ∈ pars j :=
      isParent (a := m.name)
    rw [key]
    rcases mem_wide.1 hm with ⟨i, -, rfl⟩ | ⟨j, -, rfl⟩ | rfl | rfl
    · simp only [node, kids, List.mem_map, List.mem_filter, List.mem_range, decide_eq_true_eq, pars,
        List.mem_cons, tag_inj, List.not_mem_nil, or_false, true_and, and_assoc, eq_comm (a := b)]
      constructor
      · rintro ⟨j, h1, h2, rfl⟩
        clear key hm
        exact ⟨j, h1, rfl, by rcases h2 with rfl | rfl <;> simp⟩
      · rintro ⟨j, h1, rfl, h2⟩
        clear key hm
        refine ⟨j, h1, ?_, rfl⟩
        rcases h2 with rfl | rfl | h2 | h2
        · exact .inl rfl
        · exact .inr rfl
        · simp at h2
        · simp at h2
    · simp [node, pars, tag_inj]
    · simp [node, pars, tag_inj, eq_comm (a := b)]
    · simp [node, pars, tag_inj, eq_comm (a := b)]

theorem acyclic : (wide n).Acyclic := by
  intro v h
  obtain ⟨w, -, h1⟩ := Relation.TransGen.tail'_iff.1 h
  obtain ⟨j, -, rfl, -⟩ := isParent.1 h1
  obtain ⟨w', h2, -⟩ := Relation.TransGen.head'_iff.1 h
  obtain ⟨j', -, -, h3⟩ := isParent.1 h2
  simp [pars, tag_inj] at h3

theorem moral {a b : Name} : (wide n).Moral a b ↔ a ≠ b ∧ ∃ j < n, a ∈ fam j ∧ b ∈ fam j := by
  refine and_congr_right fun hne => ?_
  constructor
  · rintro ⟨m, hm, ha, hb⟩
    have hsing : ∀ v, a ∈ [v] → b ∈ [v] → False := by
      intro v h1 h2
      exact hne ((List.mem_singleton.1 h1).trans (List.mem_singleton.1 h2).symm)
    rcases mem_wide.1 hm with ⟨i, -, rfl⟩ | ⟨j, hj, rfl⟩ | rfl | rfl
    · exact (hsing _ ha hb).elim
    · exact ⟨j, hj, ha, hb⟩
    · exact (hsing _ ha hb).elim
    · exact (hsing _ ha hb).elim
  · rintro ⟨j, hj, ha, hb⟩
    exact ⟨node (c j) (pars j) [], mem_wide.2 (.inr (.inl ⟨j, hj, rfl⟩)), ha, hb⟩

theorem mem_fam {a : Name} {j : Nat} : a ∈ fam j ↔ a = c j ∨ a = p j ∨ a = p (j + 1) ∨ a = z 0 ∨ a = z 1 := by
  simp [fam, pars]

theorem stochastic : (wide n).Stochastic := by
  intro m hm σ hσ
  have h2 : ∀ (v : Name) (ps cs : List Name), (∀ q ∈ ps, σ q < 2) →
      ∑ i ∈ Finset.range 2, (node v ps cs).cpd.get (i :: ps.map σ) = 1 := by
    intro v ps cs h
    have : ∀ i ∈ Finset.range 2, (node v ps cs).cpd.get (i :: ps.map σ) = 1 / 2 := by
      intro i hi
      rw [node]
      simp only
      refine NDArray.get_tabulate _ (.cons (Finset.mem_range.1 hi) ?_)
      rw [List.forall₂_map_left_iff, List.forall₂_map_right_iff, List.forall₂_same]
      exact h
    rw [Finset.sum_congr rfl this]
    norm_num
  rcases mem_wide.1 hm with ⟨i, -, rfl⟩ | ⟨j, hj, rfl⟩ | rfl | rfl
  · exact h2 _ _ _ (by simp)
  · exact h2 _ _ _ fun q hq => by have := hσ q hq; rwa [card_eq (pars_mem hj q hq)] at this
  · exact h2 _ _ _ (by simp)
  · exact h2 _ _ _ (by simp)

/-! ## The default order -/

theorem skel_p {i : Nat} {w : Name} (h : (wide n).Skel (p i) w) : ∃ j < n, w = c j ∧ (j = i ∨ j + 1 = i) := by
  rcases h with h | h
  · obtain ⟨j, hj, rfl, h'⟩ := isParent.1 h
    simp only [pars, List.mem_cons, tag_inj, List.not_mem_nil, or_false, true_and] at h'
    refine ⟨j, hj, rfl, ?_⟩
    rcases h' with rfl | rfl | h | h
    · exact .inl rfl
    · exact .inr rfl
    · simp at h
    · simp at h
  · obtain ⟨j, hj, h, -⟩ := isParent.1 h
    simp [tag_inj] at h

theorem skel_c {j : Nat} (hj : j < n) {w : Name} (h : w ∈ pars j) : (wide n).Skel (c j) w :=
  .inr (isParent.2 ⟨j, hj, rfl, h⟩)

/-- causes have small degree as long as only causes have been eliminated -/
theorem degree_p {E : List Name} (hE : ∀ x ∈ E, ∃ i, x = p i) (i : Nat) :
    elimDegree (wide n).names (wide n).Skel E (p i) ≤ 2 := by
  classical
  unfold elimDegree
  refine (List.subperm_of_subset (l₂ := [c i, c (i - 1)]) (names_nodup.filter _) fun w hw => ?_).length_le
  rw [List.mem_filter, decide_eq_true_eq] at hw
  obtain ⟨-, -, -, hv⟩ := hw
  have : (wide n).Skel (p i) w := by
    cases hv with
    | base h => exact h
    | step h1 h2 _ =>
      obtain ⟨j, -, e, -⟩ := skel_p h1
      obtain ⟨t, e'⟩ := hE _ h2
      rw [e', tag_inj] at e
      simp at e
  obtain ⟨j, -, rfl, h⟩ := skel_p this
  rcases h with rfl | rfl <;> simp

/-- all others have degree two at least -/
theorem degree_other (hn : 2 ≤ n) {E : List Name} (hE : ∀ x ∈ E, ∃ i, x = p i) {v : Name}
    (hv : v ∈ (wide n).names) (hp : ∀ i, v ≠ p i) :
    2 ≤ elimDegree (wide n).names (wide n).Skel E v := by
  classical
  have key : ∀ a b : Name, a ≠ b → a ∈ (wide n).names → b ∈ (wide n).names → (∀ i, a ≠ p i) → (∀ i, b ≠ p i) →
      a ≠ v → b ≠ v → (wide n).Skel v a → (wide n).Skel v b →
      2 ≤ elimDegree (wide n).names (wide n).Skel E v := by
    intro a b hab ha hb ha' hb' hav hbv sa sb
    unfold elimDegree
    refine (List.subperm_of_subset (l₁ := [a, b]) (by simpa using hab) fun w hw => ?_).length_le
    rw [List.mem_filter, decide_eq_true_eq]
    simp only [List.mem_cons, List.not_mem_nil, or_false] at hw
    rcases hw with rfl | rfl
    · exact ⟨ha, fun h => by obtain ⟨i, e⟩ := hE _ h; exact ha' i e, hav, .base sa⟩
    · exact ⟨hb, fun h => by obtain ⟨i, e⟩ := hE _ h; exact hb' i e, hbv, .base sb⟩
  have hz : ∀ k, v = z k → z k ∈ pars 0 → z k ∈ pars 1 → 2 ≤ elimDegree (wide n).names (wide n).Skel E v := by
    rintro k rfl h0 h1
    exact key (c 0) (c 1) (by simp [tag_inj]) (mem_names.2 (.inr (.inl ⟨0, by omega, rfl⟩)))
      (mem_names.2 (.inr (.inl ⟨1, by omega, rfl⟩))) (by simp [tag_inj]) (by simp [tag_inj]) (by simp [tag_inj])
      (by simp [tag_inj]) (.inl (isParent.2 ⟨0, by omega, rfl, h0⟩)) (.inl (isParent.2 ⟨1, by omega, rfl, h1⟩))
  rcases mem_names.1 hv with ⟨i, -, rfl⟩ | ⟨j, hj, rfl⟩ | h | h
  · exact absurd rfl (hp i)
  · exact key (z 0) (z 1) (by simp [tag_inj]) (mem_names.2 (by simp)) (mem_names.2 (by simp))
      (by simp [tag_inj]) (by simp [tag_inj]) (by simp [tag_inj]) (by simp [tag_inj])
      (skel_c hj (by simp [pars])) (skel_c hj (by simp [pars]))
  · exact hz 0 h (by simp [pars]) (by simp [pars])
  · exact hz 1 h (by simp [pars]) (by simp [pars])

/-- a cause is next as long as there is one -/
theorem next_p (hn : 2 ≤ n) {E : List Name} (hE : ∀ x ∈ E, ∃ i, x = p i) {v : Name}
    (hv : v ∈ (wide n).names) (hmin : MinDegree (wide n).names (wide n).Skel E v) {t : Nat} (ht : t < n + 1)
    (htE : p t ∉ E) : ∃ i, v = p i := by
  by_contra hp
  simp only [not_exists] at hp
  have h1 := degree_p (n := n) hE t
  have h2 := degree_other hn hE hv hp
  have hpm : p t ∈ (List.range (n + 1)).map p := List.mem_map_of_mem (List.mem_range.2 ht)
  have hvm : v ∉ (List.range (n + 1)).map p := by
    intro h
    obtain ⟨i, -, e⟩ := List.mem_map.1 h
    exact hp i e.symm
  rcases hmin (p t) (mem_names.2 (.inl ⟨t, ht, rfl⟩)) htE with h | ⟨-, h⟩
  · omega
  · rw [names_eq, List.idxOf_append_of_notMem hvm, List.idxOf_append_of_mem hpm] at h
    have := List.idxOf_lt_length_iff.2 hpm
    omega

/-- all causes come first -/
theorem causes_first (hn : 2 ≤ n) {o : List Name} (ho : o.Perm (wide n).names)
    (hmin : ∀ o₁ v o₂, o = o₁ ++ v :: o₂ → MinDegree (wide n).names (wide n).Skel o₁ v) :
    ∀ k ≤ n + 1, ∀ x ∈ o.take k, ∃ i < n + 1, x = p i := by
  have hl : o.length = 2 * n + 3 := by
    rw [ho.length_eq, names_eq]
    simp
    omega
  have hnd : o.Nodup := ho.nodup_iff.2 names_nodup
  intro k
  induction k with
  | zero => simp
  | succ k ih =>
    intro hk x hx
    have ih := ih (by omega)
    have hko : k < o.length := by omega
    rw [List.take_succ_eq_append_getElem hko, List.mem_append] at hx
    rcases hx with hx | hx
    · exact ih x hx
    · have hxe := List.mem_singleton.1 hx
      have hsplit : o = o.take k ++ o[k] :: o.drop (k + 1) := by
        rw [← List.drop_eq_getElem_cons hko, List.take_append_drop]
      have hxn : o[k] ∈ (wide n).names := ho.mem_iff.1 (List.getElem_mem hko)
      have hex : ∃ t < n + 1, p t ∉ o.take k := by
        by_contra hcon
        simp only [not_exists, not_and, not_not] at hcon
        have := (List.subperm_of_subset (l₁ := (List.range (n + 1)).map p) (map_nodup 0 (n + 1)) fun y hy => by
          obtain ⟨t, ht, rfl⟩ := List.mem_map.1 hy
          exact hcon t (List.mem_range.1 ht)).length_le
        simp at this
        omega
      obtain ⟨t, ht, htE⟩ := hex
      obtain ⟨i, hi⟩ := next_p hn (fun x hx => (ih x hx).imp fun _ h => h.2) hxn (hmin _ _ _ hsplit) ht htE
      rw [hxe, hi]
      rw [hi] at hxn
      rcases mem_names.1 hxn with ⟨i', h1, h2⟩ | ⟨j, -, h⟩ | h | h
      · exact ⟨i', h1, h2⟩
      · simp [tag_inj] at h
      · simp [tag_inj] at h
      · simp [tag_inj] at h

theorem via_up {E : List Name} {j : Nat} (hj : j < n) : ∀ (d a : Nat), a + d = j →
    (∀ t, a < t → t ≤ j → p t ∈ E) → Via (wide n).Moral E (p a) (c j)
  | 0, a, h, _ => by
    obtain rfl : a = j := by omega
    exact .base (moral.2 ⟨by simp [tag_inj], a, hj, by simp [mem_fam], by simp [mem_fam]⟩)
  | d + 1, a, h, hE =>
    .step (moral.2 ⟨by simp [tag_inj], a, by omega, by simp [mem_fam], by simp [mem_fam]⟩)
      (hE (a + 1) (by omega) (by omega)) (via_up hj d (a + 1) (by omega) fun t h1 h2 => hE t (by omega) h2)

theorem via_down {E : List Name} {j : Nat} : ∀ (d a : Nat), a = j + 1 + d → a ≤ n →
    (∀ t, j < t → t < a → p t ∈ E) → Via (wide n).Moral E (p a) (c j)
  | 0, a, h, ha, _ => by
    obtain rfl : a = j + 1 := by omega
    exact .base (moral.2 ⟨by simp [tag_inj], j, by omega, by simp [mem_fam], by simp [mem_fam]⟩)
  | d + 1, a, h, ha, hE => by
    obtain ⟨b, rfl⟩ : ∃ b, a = b + 1 := ⟨a - 1, by omega⟩
    exact .step (moral.2 ⟨by simp [tag_inj], b, by omega, by simp [mem_fam], by simp [mem_fam]⟩)
      (hE b (by omega) (by omega)) (via_down d b (by omega) (by omega) fun t h1 h2 => hE t h1 (by omega))

/-- the last cause is connected with all effects -/
theorem last_cause {E : List Name} {i : Nat} (hi : i < n + 1) (hE : ∀ t < n + 1, t ≠ i → p t ∈ E)
    (hE' : ∀ x ∈ E, ∃ t, x = p t) {j : Nat} (hj : j < n) : (wide n).Around E (p i) (c j) := by
  refine .inr ⟨by simp [tag_inj], mem_names.2 (.inr (.inl ⟨j, hj, rfl⟩)), fun h => ?_, ?_⟩
  · obtain ⟨t, e⟩ := hE' _ h
    simp [tag_inj] at e
  · by_cases h : i ≤ j
    · exact via_up hj (j - i) i (by omega) fun t h1 h2 => hE t (by omega) (by omega)
    · exact via_down (i - j - 1) i (by omega) (by omega) fun t h1 h2 => hE t (by omega) (by omega)

theorem tableSize_eq {l : List Name} (hl : ∀ v ∈ l, v ∈ (wide n).names) (hn : l.Nodup) :
    (wide n).tableSize l = 2 ^ l.length := by
  rw [BN.tableSize, List.prod_toFinset _ hn, List.map_congr_left fun v hv => card_eq (hl v hv)]
  simp

/-! ## A better order -/

/-- effects, causes, conditions -/
def better (n : Nat) : List Name := (List.range n).map c ++ ((List.range (n + 1)).map p ++ [z 0, z 1])

theorem better_perm : (better n).Perm (wide n).names := by
  rw [names_eq, better, ← List.append_assoc, ← List.append_assoc]
  exact List.perm_append_comm.append_right _

theorem split_unique {l E E' r r' : List Name} {u : Name} (hn : l.Nodup) (h : l = E ++ u :: r)
    (h' : l = E' ++ u :: r') : E = E' := by
  have e : ∀ {E r : List Name}, l = E ++ u :: r → E = l.take (l.idxOf u) := by
    intro E r h
    have hu : u ∉ E := fun hu => by
      rw [h, List.nodup_append] at hn
      exact hn.2.2 u hu u (by simp) rfl
    rw [h, List.idxOf_append_of_notMem hu]
    simp
  rw [e h, e h']

theorem range_split {j m : Nat} (h : j < m) : ∃ r, List.range m = List.range j ++ j :: r := by
  obtain ⟨d, rfl⟩ : ∃ d, m = j + (1 + d) := ⟨m - j - 1, by omega⟩
  refine ⟨(List.range d).map fun x => j + (1 + x), ?_⟩
  rw [List.range_add, List.range_add]
  simp [Function.comp_def]

theorem fam_of_c {t j : Nat} (h : c t ∈ fam j) : j = t := by
  simp only [mem_fam, tag_inj, true_and] at h
  rcases h with h | h | h | h | h
  · exact h.symm
  all_goals simp at h

theorem fam_of_p {t j : Nat} (h : p t ∈ fam j) : t = j ∨ t = j + 1 := by
  simp only [mem_fam, tag_inj, true_and] at h
  rcases h with h | h | h | h | h
  · simp at h
  · exact .inl h
  · exact .inr h
  all_goals simp at h

theorem around_c {E : List Name} (hE : ∀ x ∈ E, ∃ t, x = c t) {j : Nat} {w : Name}
    (h : (wide n).Around E (c j) w) : w ∈ fam j := by
  rcases h with rfl | ⟨-, -, -, h⟩
  · simp [mem_fam]
  · cases h with
    | base h =>
      obtain ⟨-, t, -, h1, h2⟩ := moral.1 h
      rw [fam_of_c h1] at h2
      exact h2
    | step h1 h2 _ =>
      obtain ⟨hne, t, -, h3, h4⟩ := moral.1 h1
      obtain ⟨t', rfl⟩ := hE _ h2
      rw [← fam_of_c h3, ← fam_of_c h4] at hne
      exact absurd rfl hne

theorem around_p {i : Nat} {w : Name}
    (h : (wide n).Around ((List.range n).map c ++ (List.range i).map p) (p i) w) :
    w ∈ [p i, p (i + 1), z 0, z 1] := by
  have key : ∀ {x w}, Via (wide n).Moral ((List.range n).map c ++ (List.range i).map p) x w →
      (∃ t ≤ i, x = p t ∨ x = c t) →
      (∃ t ≤ i + 1, w = p t) ∨ (∃ t ≤ i, w = c t) ∨ w = z 0 ∨ w = z 1 := by
    have hfam : ∀ {x w}, (wide n).Moral x w → (∃ t ≤ i, x = p t ∨ x = c t) →
        (∃ t ≤ i + 1, w = p t) ∨ (∃ t ≤ i, w = c t) ∨ w = z 0 ∨ w = z 1 := by
      rintro x w h ⟨t, ht, hx⟩
      obtain ⟨-, j, -, h1, h2⟩ := moral.1 h
      have hj : j ≤ i := by
        rcases hx with rfl | rfl
        · have := fam_of_p h1; omega
        · have := fam_of_c h1; omega
      rcases mem_fam.1 h2 with h | h | h | h | h
      · exact .inr (.inl ⟨j, hj, h⟩)
      · exact .inl ⟨j, by omega, h⟩
      · exact .inl ⟨j + 1, by omega, h⟩
      · exact .inr (.inr (.inl h))
      · exact .inr (.inr (.inr h))
    intro x w h
    induction h with
    | base h => exact hfam h
    | step h1 h2 _ ih =>
      intro hx
      refine ih ?_
      rcases List.mem_append.1 h2 with h | h
      · obtain ⟨t, -, rfl⟩ := List.mem_map.1 h
        rcases hfam h1 hx with ⟨t', -, e⟩ | ⟨t', ht', e⟩ | e | e
        · simp [tag_inj] at e
        · exact ⟨t', ht', .inr e⟩
        · simp [tag_inj] at e
        · simp [tag_inj] at e
      · obtain ⟨t, ht, rfl⟩ := List.mem_map.1 h
        exact ⟨t, (List.mem_range.1 ht).le, .inl rfl⟩
  rcases h with rfl | ⟨-, h1, h2, h3⟩
  · simp
  · simp only [List.mem_append, List.mem_map, List.mem_range, not_or, not_exists, not_and] at h2
    rcases key h3 ⟨i, le_refl _, .inl rfl⟩ with ⟨t, ht, rfl⟩ | ⟨t, ht, rfl⟩ | rfl | rfl
    · have : ¬ t < i := fun h => h2.2 t h rfl
      have : t = i ∨ t = i + 1 := by omega
      rcases this with rfl | rfl <;> simp
    · rcases mem_names.1 h1 with ⟨j, -, e⟩ | ⟨j, hj, e⟩ | e | e
      · simp [tag_inj] at e
      · exact absurd e.symm (h2.1 j hj)
      · simp [tag_inj] at e
      · simp [tag_inj] at e
    · simp
    · simp

/-- at most five variables in every table -/
theorem around_better {E r : List Name} {u : Name} (h : better n = E ++ u :: r) :
    ∃ l : List Name, l.length ≤ 5 ∧ ∀ w, (wide n).Around E u w → w ∈ l := by
  have hnd : (better n).Nodup := better_perm.nodup_iff.2 names_nodup
  have hu : u ∈ (wide n).names := better_perm.mem_iff.1 (by rw [h]; simp)
  rcases mem_names.1 hu with ⟨i, hi, rfl⟩ | ⟨j, hj, rfl⟩ | hz
  · obtain ⟨r', hr⟩ := range_split hi
    have : E = (List.range n).map c ++ (List.range i).map p := by
      refine split_unique (r' := r'.map p ++ [z 0, z 1]) hnd h ?_
      rw [better, hr]
      simp
    subst this
    exact ⟨_, by simp, fun w => around_p⟩
  · obtain ⟨r', hr⟩ := range_split hj
    have : E = (List.range j).map c := by
      refine split_unique (r' := r'.map c ++ ((List.range (n + 1)).map p ++ [z 0, z 1])) hnd h ?_
      rw [better, hr]
      simp
    subst this
    refine ⟨fam j, by simp [fam, pars], fun w => around_c fun x hx => ?_⟩
    obtain ⟨t, -, rfl⟩ := List.mem_map.1 hx
    exact ⟨t, rfl⟩
  · have hE : ∀ w ∈ (wide n).names, w ∉ E → w = z 0 ∨ w = z 1 := by
      have h0 : ∃ s, E = (List.range n).map c ++ (List.range (n + 1)).map p ++ s := by
        rcases hz with rfl | rfl
        · exact ⟨[], by rw [List.append_nil]; exact split_unique (r' := [z 1]) hnd h (by simp [better])⟩
        · exact ⟨[z 0], split_unique (r' := []) hnd h (by simp [better])⟩
      obtain ⟨s, rfl⟩ := h0
      intro w hw hwE
      simp only [List.mem_append, List.mem_map, List.mem_range, not_or, not_exists, not_and] at hwE
      rcases mem_names.1 hw with ⟨i, hi, rfl⟩ | ⟨j, hj, rfl⟩ | h
      · exact absurd rfl (hwE.1.2 i hi)
      · exact absurd rfl (hwE.1.1 j hj)
      · exact h
    refine ⟨[z 0, z 1], by simp, fun w hw => ?_⟩
    rcases hw with rfl | ⟨-, h1, h2, -⟩
    · rcases hz with rfl | rfl <;> simp
    · rcases hE w h1 h2 with rfl | rfl <;> simp

end Wide
end Primo
