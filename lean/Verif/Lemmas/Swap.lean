import Verif.Lemmas.Build

/-! # Removing the non-maximal clusters in `create_jointree` -/

namespace Primo
open JoinTree JTree

/-- the variable a cluster was made for -/
def hd (c : List Name) : Name := c.headD ""

theorem hd_mem {c : List Name} (h : c ≠ []) : hd c ∈ c := by
  cases c with
  | nil => exact absurd rfl h
  | cons a l => simp [hd]

/-- the variable of a cluster does not occur in later clusters -/
structure HeadOK (L : List (List Name)) : Prop where
  ne : ∀ c ∈ L, c ≠ []
  after : L.Pairwise fun c d => hd c ∉ d

/-- what a cluster has in common with the later ones is in one of them (and is not empty, if
`conn`) -/
def RIPL (conn : Prop) : List (List Name) → Prop
  | [] => True
  | c :: cs => (cs ≠ [] → (conn → ∃ x ∈ c, ∃ e ∈ cs, x ∈ e) ∧
      ∃ d ∈ cs, ∀ x ∈ c, (∃ e ∈ cs, x ∈ e) → x ∈ d) ∧ RIPL conn cs

/-- members of a cluster other than its own variable occur later -/
def ClosedL : List (List Name) → Prop
  | [] => True
  | c :: cs => (∀ x ∈ c, x = hd c ∨ ∃ e ∈ cs, x ∈ e) ∧ ClosedL cs

theorem HeadOK.nodup {L : List (List Name)} (h : HeadOK L) : L.Nodup :=
  (List.pairwise_iff_forall_sublist.2 fun {a b} hs e => by
    have h1 := (List.pairwise_iff_forall_sublist.1 h.after) hs
    have hb : a ∈ L := hs.subset (by simp)
    exact h1 (e ▸ hd_mem (h.ne a hb)))

theorem RIPL.chain {conn : Prop} {L : List (List Name)} (h : RIPL conn L) : Chain L := by
  induction L with
  | nil => trivial
  | cons c cs ih =>
    refine ⟨?_, ih h.2⟩
    by_cases hcs : cs = []
    · left; subst hcs; simp [shared]
    · right
      obtain ⟨-, d, hd, hx⟩ := h.1 hcs
      exact ⟨d, hd, fun x hxs => hx x (mem_shared.1 hxs).1 (mem_shared.1 hxs).2⟩

theorem RIPL.suffix {conn : Prop} {L M : List (List Name)} (h : RIPL conn L) (hs : M <:+ L) :
    RIPL conn M := by
  obtain ⟨A, rfl⟩ := hs
  induction A with
  | nil => exact h
  | cons a A ih => exact ih h.2

theorem ClosedL.suffix {L M : List (List Name)} (h : ClosedL L) (hs : M <:+ L) : ClosedL M := by
  obtain ⟨A, rfl⟩ := hs
  induction A with
  | nil => exact h
  | cons a A ih => exact ih h.2

theorem RIPL.shared_ne {conn : Prop} {L : List (List Name)} (h : RIPL conn L) (hc : conn) :
    ∀ c cs, (c :: cs) <:+ L → cs ≠ [] → shared c cs ≠ [] := by
  intro c cs hs hcs he
  obtain ⟨x, hx, e, hxe⟩ := ((h.suffix hs).1 hcs).1 hc
  have := mem_shared.2 ⟨hx, e, hxe⟩
  rw [he] at this
  simp at this

/-- replace the tail of a list of clusters -/
theorem RIPL.replace {conn : Prop} {A S S' : List (List Name)} (h : RIPL conn (A ++ S))
    (h' : RIPL conn S') (hne : S ≠ [])
    (hu : ∀ a ∈ A, ∀ x ∈ a, (∃ e ∈ S, x ∈ e) ↔ ∃ e ∈ S', x ∈ e)
    (hdom : ∀ d ∈ S, ∃ d' ∈ S', ∀ x ∈ d, x ∈ d') : RIPL conn (A ++ S') := by
  induction A with
  | nil => exact h'
  | cons a A ih =>
    refine ⟨fun _ => ?_, ih h.2 fun b hb => hu b (List.mem_cons_of_mem _ hb)⟩
    have heq : ∀ x ∈ a, (∃ e ∈ A ++ S, x ∈ e) ↔ ∃ e ∈ A ++ S', x ∈ e := by
      intro x hx
      have := hu a (by simp) x hx
      constructor
      · rintro ⟨e, he, hxe⟩
        rcases List.mem_append.1 he with he | he
        · exact ⟨e, List.mem_append_left _ he, hxe⟩
        · obtain ⟨e', he', hxe'⟩ := this.1 ⟨e, he, hxe⟩
          exact ⟨e', List.mem_append_right _ he', hxe'⟩
      · rintro ⟨e, he, hxe⟩
        rcases List.mem_append.1 he with he | he
        · exact ⟨e, List.mem_append_left _ he, hxe⟩
        · obtain ⟨e', he', hxe'⟩ := this.2 ⟨e, he, hxe⟩
          exact ⟨e', List.mem_append_right _ he', hxe'⟩
    obtain ⟨h1, d, hd, hdx⟩ := h.1 (by simp [hne])
    refine ⟨fun hc => ?_, ?_⟩
    · obtain ⟨x, hx, hxe⟩ := h1 hc
      exact ⟨x, hx, (heq x hx).1 hxe⟩
    · rcases List.mem_append.1 hd with hd | hd
      · exact ⟨d, List.mem_append_left _ hd, fun x hx hxe => hdx x hx ((heq x hx).2 hxe)⟩
      · obtain ⟨d', hd', hdd⟩ := hdom d hd
        exact ⟨d', List.mem_append_right _ hd', fun x hx hxe => hdd x (hdx x hx ((heq x hx).2 hxe))⟩

/-- `m` is `r` with one more variable, the one `m` was made for -/
def Tight (r m : List Name) : Prop := (∀ x ∈ r, x ∈ m) ∧ ∀ x ∈ m, x = hd m ∨ x ∈ r

theorem pyIndex_append {α : Type} [DecidableEq α] {l l' : List α} {r : α} (h : r ∉ l) :
    pyIndex (l ++ r :: l') r = .ok l.length := by
  rw [pyIndex, if_pos (by simp), List.idxOf_append_of_notMem h, List.idxOf_cons_self, Nat.add_zero]

theorem pyRemove_append {α : Type} [DecidableEq α] {l l' : List α} {r : α} (h : r ∉ l) :
    pyRemove (l ++ r :: l') r = .ok (l ++ l') := by
  rw [pyRemove, if_pos (by simp), List.erase_append_right _ h, List.erase_cons_head]

theorem insertIdx_length {α : Type} (l l' : List α) (a : α) :
    (l ++ l').insertIdx l.length a = l ++ a :: l' := by
  induction l with
  | nil => rfl
  | cons b l ih => rw [List.cons_append, List.length_cons, List.insertIdx_succ_cons, ih]; rfl

theorem applySwap_eq {A B D : List (List Name)} {m r : List Name}
    (hn : (A ++ m :: B ++ r :: D).Nodup) :
    applySwap (A ++ m :: B ++ r :: D) (r, m) = .ok (A ++ B ++ m :: D) := by
  have hr : r ∉ A ++ m :: B := fun h => (List.nodup_append.1 hn).2.2 r h r (by simp) rfl
  have hm : m ∉ A := fun h =>
    (List.nodup_append.1 (List.nodup_append.1 hn).1).2.2 m h m (by simp) rfl
  rw [applySwap]
  dsimp only
  rw [pyIndex_append hr, ok_bind]
  rw [List.erase_append_right _ hr, List.erase_cons_head]
  rw [insertIdx_length]
  rw [List.append_assoc, List.cons_append, pyRemove_append hm, ← List.append_assoc]

/-- one removal -/
theorem swap_step {conn : Prop} {A B D : List (List Name)} {m r : List Name}
    (hh : HeadOK (A ++ m :: B ++ r :: D)) (hr : RIPL conn (A ++ m :: B ++ r :: D)) (ht : Tight r m) :
    HeadOK (A ++ B ++ m :: D) ∧ RIPL conn (A ++ B ++ m :: D) := by
  have hpw := hh.after
  rw [List.append_assoc, List.cons_append, List.pairwise_append, List.pairwise_cons, List.pairwise_append,
    List.pairwise_cons] at hpw
  obtain ⟨pA, ⟨pm, pB, ⟨pr, pD⟩, pBD⟩, pAx⟩ := hpw
  have hmne : m ≠ [] := hh.ne m (by simp)
  have hBm : ∀ b ∈ B, hd b ∉ m := by
    intro b hb hbm
    rcases ht.2 _ hbm with h | h
    · exact pm b (by simp [hb]) (h ▸ hd_mem (hh.ne b (by simp [hb])))
    · exact pBD b hb r (by simp) h
  have hhead : HeadOK (A ++ B ++ m :: D) := by
    refine ⟨fun c hc => hh.ne c (by simp at hc ⊢; tauto), ?_⟩
    rw [List.append_assoc, List.pairwise_append, List.pairwise_append, List.pairwise_cons]
    refine ⟨pA, ⟨pB, ⟨fun d hd => pm d (by simp [hd]), pD⟩, ?_⟩, ?_⟩
    · intro b hb x hx
      rcases List.mem_cons.1 hx with rfl | hx
      · exact hBm b hb
      · exact pBD b hb x (by simp [hx])
    · intro a ha x hx
      exact pAx a ha x (by simp at hx ⊢; tauto)
  refine ⟨hhead, ?_⟩
  -- running intersection, from the end
  have hmD : RIPL conn (m :: D) := by
    have h0 := hr.suffix (M := r :: D) (List.suffix_append _ _)
    refine ⟨fun hD => ?_, h0.2⟩
    obtain ⟨h1, d, hd, hdx⟩ := h0.1 hD
    refine ⟨fun hc => ?_, d, hd, fun x hx hxe => ?_⟩
    · obtain ⟨x, hx, hxe⟩ := h1 hc
      exact ⟨x, ht.1 x hx, hxe⟩
    · rcases ht.2 x hx with h | h
      · obtain ⟨e, he, hxe⟩ := hxe
        exact absurd (h ▸ hxe) (pm e (by simp [he]))
      · exact hdx x h hxe
  have hBmD : RIPL conn (B ++ m :: D) := by
    have h0 := hr.suffix (M := B ++ r :: D) (by
      rw [List.append_assoc, List.cons_append]
      exact (List.suffix_cons _ _).trans (List.suffix_append _ _))
    refine h0.replace hmD (by simp) ?_ ?_
    · intro b hb x hx
      constructor
      · rintro ⟨e, he, hxe⟩
        rcases List.mem_cons.1 he with rfl | he
        · exact ⟨m, by simp, ht.1 x hxe⟩
        · exact ⟨e, by simp [he], hxe⟩
      · rintro ⟨e, he, hxe⟩
        rcases List.mem_cons.1 he with rfl | he
        · rcases ht.2 x hxe with h | h
          · exact absurd (h ▸ hx) (pm b (by simp [hb]))
          · exact ⟨r, by simp, h⟩
        · exact ⟨e, by simp [he], hxe⟩
    · intro d hd
      rcases List.mem_cons.1 hd with rfl | hd
      · exact ⟨m, by simp, ht.1⟩
      · exact ⟨d, by simp [hd], fun _ h => h⟩
  rw [List.append_assoc]
  rw [List.append_assoc] at hr
  refine hr.replace hBmD (by simp) ?_ ?_
  · intro a _ x _
    constructor
    · rintro ⟨e, he, hxe⟩
      simp only [List.cons_append, List.mem_cons, List.mem_append] at he
      rcases he with rfl | he | rfl | he
      · exact ⟨e, by simp, hxe⟩
      · exact ⟨e, by simp [he], hxe⟩
      · exact ⟨m, by simp, ht.1 x hxe⟩
      · exact ⟨e, by simp [he], hxe⟩
    · rintro ⟨e, he, hxe⟩
      refine ⟨e, ?_, hxe⟩
      simp at he ⊢; tauto
  · intro d hd
    simp only [List.cons_append, List.mem_cons, List.mem_append] at hd
    rcases hd with rfl | hd | rfl | hd
    · exact ⟨d, by simp, fun _ h => h⟩
    · exact ⟨d, by simp [hd], fun _ h => h⟩
    · exact ⟨m, by simp, ht.1⟩
    · exact ⟨d, by simp [hd], fun _ h => h⟩

/-- position of a later pair after a removal -/
theorem pending {A B D : List (List Name)} {m r m' r' : List Name}
    (hn : (A ++ m :: B ++ r :: D).Nodup) (hs : [m', r'].Sublist (A ++ m :: B ++ r :: D))
    (h1 : r' ≠ r) (h2 : m' ≠ r) (h3 : m' ≠ m) : [m', r'].Sublist (A ++ B ++ m :: D) := by
  by_cases h4 : r' = m
  · subst h4
    have hA : m' ∈ A := by
      have hsub := hs
      rw [List.append_assoc, List.cons_append, List.sublist_append_iff] at hsub
      obtain ⟨l1, l2, hl, s1, s2⟩ := hsub
      rw [List.append_assoc, List.cons_append, List.nodup_append, List.nodup_cons] at hn
      cases l1 with
      | nil =>
        exfalso
        rw [List.nil_append] at hl
        subst hl
        cases s2 with
        | cons _ h => exact hn.2.1.1 (h.subset (by simp))
        | cons_cons _ h => exact h3 rfl
      | cons a l1 =>
        simp only [List.cons_append, List.cons.injEq] at hl
        rw [hl.1]
        exact s1.subset (by simp)
    rw [List.append_assoc]
    have : [m', r'] = [m'] ++ [r'] := rfl
    rw [this]
    exact (List.singleton_sublist.2 hA).append (List.singleton_sublist.2 (by simp))
  · have hf := hs.filter fun c => c ≠ m && c ≠ r
    have e1 : [m', r'].filter (fun c => c ≠ m && c ≠ r) = [m', r'] := by
      simp [h1, h2, h3, h4]
    rw [e1] at hf
    have e2 : (A ++ m :: B ++ r :: D).filter (fun c => c ≠ m && c ≠ r) =
        (A ++ B ++ m :: D).filter (fun c => c ≠ m && c ≠ r) := by
      simp
    rw [e2] at hf
    exact hf.trans List.filter_sublist

theorem split_pair {L : List (List Name)} {m r : List Name} (h : [m, r].Sublist L) :
    ∃ A B D, L = A ++ m :: B ++ r :: D := by
  rw [List.cons_sublist_iff] at h
  obtain ⟨r1, r2, rfl, h1, h2⟩ := h
  obtain ⟨A, B, rfl⟩ := List.append_of_mem h1
  obtain ⟨C, D, rfl⟩ := List.append_of_mem (List.singleton_sublist.1 h2)
  exact ⟨A, B ++ C, D, by simp⟩

theorem swaps_fold {conn : Prop} (S : List (List Name × List Name)) (L : List (List Name))
    (hh : HeadOK L) (hr : RIPL conn L) (h1 : ∀ p ∈ S, [p.2, p.1].Sublist L ∧ Tight p.1 p.2)
    (h2 : S.Pairwise fun p q => q.1 ≠ p.1 ∧ q.2 ≠ p.1 ∧ q.2 ≠ p.2) :
    ∃ L', S.foldlM applySwap L = .ok L' ∧ HeadOK L' ∧ RIPL conn L' ∧ (∀ c ∈ L', c ∈ L) ∧
      (∀ c ∈ L, ∃ d ∈ L', ∀ x ∈ c, x ∈ d) := by
  induction S generalizing L with
  | nil => exact ⟨L, rfl, hh, hr, fun _ h => h, fun c hc => ⟨c, hc, fun _ h => h⟩⟩
  | cons p S ih =>
    obtain ⟨r, m⟩ := p
    obtain ⟨hsub, ht⟩ := h1 (r, m) (by simp)
    obtain ⟨A, B, D, rfl⟩ := split_pair hsub
    obtain ⟨hh', hr'⟩ := swap_step hh hr ht
    rw [List.pairwise_cons] at h2
    obtain ⟨L', e1, e2, e3, e4, e5⟩ := ih (A ++ B ++ m :: D) hh' hr' (fun q hq => by
      obtain ⟨q1, q2⟩ := h1 q (by simp [hq])
      have := h2.1 q hq
      exact ⟨pending hh.nodup q1 this.1 this.2.1 this.2.2, q2⟩) h2.2
    refine ⟨L', ?_, e2, e3, fun c hc => ?_, fun c hc => ?_⟩
    · rw [List.foldlM_cons, applySwap_eq hh.nodup, ok_bind, e1]
    · have := e4 c hc
      simp at this ⊢; tauto
    · have : ∃ d ∈ A ++ B ++ m :: D, ∀ x ∈ c, x ∈ d := by
        by_cases h : c = r
        · subst h; exact ⟨m, by simp, ht.1⟩
        · exact ⟨c, by simp at hc ⊢; tauto, fun _ h => h⟩
      obtain ⟨d, hd, hcd⟩ := this
      obtain ⟨d', hd', hdd⟩ := e5 d hd
      exact ⟨d', hd', fun x hx => hdd x (hcd x hx)⟩

theorem swaps_concat (l : List (List Name)) (c : List Name) :
    swaps (l ++ [c]) = ((l.reverse.find? fun d => sub c d).map fun d => (c, d)).toList ++ swaps l := by
  unfold swaps
  rw [List.length_append, List.length_singleton, List.range_succ, List.reverse_append, List.reverse_singleton,
    List.singleton_append, List.filterMap_cons]
  have e1 : (l ++ [c]).take l.length = l := by simp
  have e2 : (l ++ [c]).getD l.length [] = c := by simp
  have e3 : (List.range l.length).reverse.filterMap (fun i =>
      (((l ++ [c]).take i).reverse.find? fun d => sub ((l ++ [c]).getD i []) d).map
        fun d => ((l ++ [c]).getD i [], d)) =
      (List.range l.length).reverse.filterMap (fun i =>
        ((l.take i).reverse.find? fun d => sub (l.getD i []) d).map fun d => (l.getD i [], d)) := by
    refine List.filterMap_congr fun i hi => ?_
    have hi' : i < l.length := by simpa using hi
    have a1 : (l ++ [c]).take i = l.take i := by
      rw [List.take_append_of_le_length (le_of_lt hi')]
    have a2 : (l ++ [c]).getD i [] = l.getD i [] := by
      simp [List.getD_eq_getElem?_getD, List.getElem?_append_left hi']
    rw [a1, a2]
  rw [e1, e2, e3]
  cases l.reverse.find? fun d => sub c d <;> rfl

theorem swaps_facts {conn : Prop} {L : List (List Name)} (hh : HeadOK L) (hr : RIPL conn L)
    (hcl : ClosedL L) (l : List (List Name)) (hl : l <+: L) :
    (∀ p ∈ swaps l, [p.2, p.1].Sublist l ∧ Tight p.1 p.2) ∧
    (swaps l).Pairwise fun p q => q.1 ≠ p.1 ∧ q.2 ≠ p.1 ∧ q.2 ≠ p.2 := by
  induction l using List.reverseRecOn with
  | nil => exact ⟨by simp [swaps], by simp [swaps]⟩
  | append_singleton l c ih =>
    have hl' : l <+: L := (List.prefix_append _ _).trans hl
    obtain ⟨i1, i2⟩ := ih hl'
    rw [swaps_concat]
    cases hf : l.reverse.find? fun d => sub c d with
    | none =>
      refine ⟨fun p hp => ?_, by simpa using i2⟩
      have hp' : p ∈ swaps l := by simpa using hp
      exact ⟨(i1 p hp').1.trans (List.sublist_append_left _ _), (i1 p hp').2⟩
    | some d =>
      obtain ⟨hcd, X, Y, hXY, hX⟩ := List.find?_eq_some_iff_append.1 hf
      have hlX : l = Y.reverse ++ d :: X.reverse := by
        rw [← List.reverse_reverse l, hXY]; simp
      obtain ⟨Z, hZ⟩ := hl
      have hL : L = Y.reverse ++ d :: (X.reverse ++ c :: Z) := by
        rw [← hZ, hlX]; simp
      have hcd' := sub_iff.1 hcd
      have hsuf : d :: (X.reverse ++ c :: Z) <:+ L := ⟨Y.reverse, hL.symm⟩
      have hpw := hh.after
      rw [hL, List.pairwise_append, List.pairwise_cons, List.pairwise_append, List.pairwise_cons] at hpw
      obtain ⟨-, ⟨pd, -, ⟨pc, -⟩, -⟩, -⟩ := hpw
      have hcne : c ≠ [] := hh.ne c (by rw [hL]; simp)
      have hdc : hd d ∉ c := pd c (by simp)
      have tight : Tight c d := by
        refine ⟨hcd', fun x hx => ?_⟩
        obtain ⟨-, e, he, hex⟩ := (hr.suffix hsuf).1 (by simp)
        have hde : ∀ y ∈ d, y = hd d ∨ y ∈ e := fun y hy =>
          ((hcl.suffix hsuf).1 y hy).imp_right fun h => hex y hy h
        have hce : ∀ y ∈ c, y ∈ e := by
          intro y hy
          rcases hde y (hcd' y hy) with h | h
          · exact absurd (h ▸ hy) hdc
          · exact h
        simp only [List.mem_append, List.mem_cons] at he
        rcases he with he | rfl | he
        · have := hX e (List.mem_reverse.1 he)
          rw [sub_iff.2 hce] at this
          simp at this
        · exact hde x hx
        · exact absurd (hce _ (hd_mem hcne)) (pc e he)
      have hnd : (l ++ [c]).Nodup := (hh.nodup.sublist (show (l ++ [c]).Sublist L from by
        rw [← hZ]; exact List.sublist_append_left _ _))
      have hcl' : c ∉ l := fun h => (List.nodup_append.1 hnd).2.2 c h c (by simp) rfl
      refine ⟨?_, ?_⟩
      · intro p hp
        simp only [Option.map_some, Option.toList_some, List.singleton_append, List.mem_cons] at hp
        rcases hp with rfl | hp
        · refine ⟨?_, tight⟩
          have : d ∈ l := by rw [hlX]; simp
          exact (List.singleton_sublist.2 this).append (List.Sublist.refl [c])
        · exact ⟨(i1 p hp).1.trans (List.sublist_append_left _ _), (i1 p hp).2⟩
      · simp only [Option.map_some, Option.toList_some, List.singleton_append, List.pairwise_cons]
        refine ⟨fun q hq => ?_, i2⟩
        obtain ⟨q1, q2⟩ := i1 q hq
        refine ⟨fun h => hcl' (h ▸ q1.subset (by simp)), fun h => hcl' (h ▸ q1.subset (by simp)), fun h => ?_⟩
        have hc1 : ∀ x ∈ c, x ∈ q.1 := by
          intro x hx
          rcases q2.2 x (h ▸ hcd' x hx) with hx' | hx'
          · rw [h] at hx'
            exact absurd (hx' ▸ hx) hdc
          · exact hx'
        have hmem : q.1 ∈ X.reverse := by
          have hq1 := q1
          have hnl : l.Nodup := (List.nodup_append.1 hnd).1
          rw [hlX, h, List.sublist_append_iff] at hq1
          rw [hlX, List.nodup_append, List.nodup_cons] at hnl
          obtain ⟨l1, l2, hl12, s1, s2⟩ := hq1
          cases l1 with
          | nil =>
            rw [List.nil_append] at hl12
            subst hl12
            cases s2 with
            | cons _ h' => exact absurd (h'.subset (by simp)) hnl.2.1.1
            | cons_cons _ h' => exact h'.subset (by simp)
          | cons a l1 =>
            simp only [List.cons_append, List.cons.injEq] at hl12
            exact absurd rfl (hnl.2.2 a (s1.subset (by simp)) d (by simp [hl12.1]) |> fun hne => hl12.1 ▸ hne)
        have := hX q.1 (List.mem_reverse.1 hmem)
        rw [sub_iff.2 hc1] at this
        simp at this

/-- the removal of non-maximal clusters keeps the running intersection property -/
theorem swaps_spec {conn : Prop} {L : List (List Name)} (hh : HeadOK L) (hr : RIPL conn L)
    (hcl : ClosedL L) :
    ∃ L', (swaps L).foldlM applySwap L = .ok L' ∧ HeadOK L' ∧ RIPL conn L' ∧ (∀ c ∈ L', c ∈ L) ∧
      (∀ c ∈ L, ∃ d ∈ L', ∀ x ∈ c, x ∈ d) := by
  obtain ⟨h1, h2⟩ := swaps_facts hh hr hcl L (List.prefix_refl _)
  exact swaps_fold _ L hh hr h1 h2

end Primo
