import Verif.Lemmas.HeapMake
import Verif.Spec.Heap

/-! # Programs on the memory behave as programs on values -/

namespace Primo.Mem

open Heap

/-- two arrays in different buffers -/
def Apart (p q : Pot) : Prop := ∀ v w, p = .arr v → q = .arr w → v.buf ≠ w.buf

theorem Apart.symm {p q : Pot} (a : Apart p q) : Apart q p := fun v w hv hw => (a w v hw hv).symm

/-- two factor objects without a common cell -/
structure Sep (h : Heap) (f g : Nat) : Prop where
  ne : f ≠ g
  order : (h.fac f).order ≠ (h.fac g).order
  values : (h.fac f).values ≠ (h.fac g).values
  pot : Apart (h.fac f).pot (h.fac g).pot

theorem Sep.symm {h : Heap} {f g : Nat} (s : Sep h f g) : Sep h g f :=
  ⟨s.ne.symm, s.order.symm, s.values.symm, s.pot.symm⟩

/-- the array `p` is `a` -/
def ArrAt (h : Heap) (p : Pot) (a : NDArray) : Prop := ∃ v, p = .arr v ∧ h.Contig v a

/-- the variables hold the values, and have no common cell -/
structure Inv (s : HState) (t : VState) : Prop where
  facs : List.Forall₂ s.heap.Holds s.facs t.facs
  arrs : List.Forall₂ (ArrAt s.heap) s.arrs t.arrs
  sep : s.facs.Pairwise (Sep s.heap)
  asep : s.arrs.Pairwise Apart
  fa : ∀ f ∈ s.facs, ∀ p ∈ s.arrs, Apart (s.heap.fac f).pot p

theorem Inv.contents {s : HState} {t : VState} (I : Inv s t) : s.contents = t := by
  obtain ⟨fs, as⟩ := t
  have h1 : ∀ {l : List Nat} {fs}, List.Forall₂ s.heap.Holds l fs → l.map s.heap.factor = fs := by
    intro l fs this
    induction this with
    | nil => rfl
    | cons h _ ih => rw [List.map_cons, h.factor, ih]
  have h2 : ∀ {l : List Pot} {as}, List.Forall₂ (ArrAt s.heap) l as → l.map s.heap.pot = as := by
    intro l as this
    induction this with
    | nil => rfl
    | cons h _ ih =>
      obtain ⟨v, rfl, c⟩ := h
      rw [List.map_cons, ih, Heap.pot, c.view]
  rw [HState.contents, h1 I.facs, h2 I.arrs]

theorem forall₂_get {α β : Type} {R : α → β → Prop} {l : List α} {l' : List β}
    (h : List.Forall₂ R l l') {i : Nat} {x : α} (hx : l[i]? = some x) :
    ∃ y, l'[i]? = some y ∧ R x y := by
  induction h generalizing i with
  | nil => simp at hx
  | cons h1 _ ih =>
    cases i with
    | zero =>
      simp only [List.getElem?_cons_zero, Option.some.injEq] at hx
      subst hx
      exact ⟨_, rfl, h1⟩
    | succ i => exact ih hx

theorem forall₂_get_none {α β : Type} {R : α → β → Prop} {l : List α} {l' : List β}
    (h : List.Forall₂ R l l') {i : Nat} (hx : l[i]? = none) : l'[i]? = none := by
  rw [List.getElem?_eq_none_iff] at hx ⊢
  rwa [← h.length_eq]

theorem forall₂_mem {α β : Type} {R : α → β → Prop} {l : List α} {l' : List β}
    (h : List.Forall₂ R l l') {x : α} (hx : x ∈ l) : ∃ y, R x y := by
  obtain ⟨i, hi⟩ := List.mem_iff_getElem?.1 hx
  obtain ⟨y, -, hy⟩ := forall₂_get h hi
  exact ⟨y, hy⟩

theorem forall₂_imp {α β : Type} {R S : α → β → Prop} {l : List α} {l' : List β}
    (h : List.Forall₂ R l l') (hi : ∀ x ∈ l, ∀ y, R x y → S x y) : List.Forall₂ S l l' := by
  induction h with
  | nil => exact .nil
  | cons h1 _ ih =>
    exact .cons (hi _ (by simp) _ h1) (ih fun x hx => hi x (List.mem_cons_of_mem _ hx))

theorem forall₂_set {α β : Type} {R S : α → β → Prop} {l : List α} {l' : List β}
    (h : List.Forall₂ R l l') {P : α → α → Prop} (hp : l.Pairwise P) (hs : ∀ x y, P x y → P y x)
    {i : Nat} {x : α} {y' : β}
    (hx : l[i]? = some x) (hy : S x y') (ho : ∀ z y, P x z → R z y → S z y) :
    List.Forall₂ S l (l'.set i y') := by
  induction h generalizing i with
  | nil => simp at hx
  | @cons a b l l' h1 hrest ih =>
    rw [List.pairwise_cons] at hp
    cases i with
    | zero =>
      simp only [List.getElem?_cons_zero, Option.some.injEq] at hx
      subst hx
      exact .cons hy (forall₂_imp hrest fun z hz y hr => ho z y (hp.1 z hz) hr)
    | succ i =>
      rw [List.getElem?_cons_succ] at hx
      exact .cons (ho a b (hs _ _ (hp.1 x (List.mem_of_getElem? hx))) h1) (ih hp.2 hx)

theorem list_set_same {α : Type} {l : List α} {i : Nat} {x : α} (h : l[i]? = some x) :
    l.set i x = l := by
  refine List.ext_getElem? fun j => ?_
  by_cases hj : i = j
  · subst hj
    rw [List.getElem?_set_self (List.getElem?_eq_some_iff.1 h).1, h]
  · rw [List.getElem?_set_ne hj]

theorem holds_lt {h : Heap} {f : Nat} {F : Factor} (hf : h.Holds f F) : f < h.facs.length := by
  obtain ⟨p, ⟨l, d, h1, -, -⟩, -⟩ := hf.ex
  exact (List.getElem?_eq_some_iff.1 h1).1

theorem holds_refs {h : Heap} {f : Nat} {F : Factor} (hf : h.Holds f F) :
    (h.fac f).order < h.lists.length ∧ (h.fac f).values < h.dicts.length ∧
      ∀ v, (h.fac f).pot = .arr v → v.buf < h.bufs.length := by
  obtain ⟨p, ⟨l, d, h1, h2, h3⟩, hp⟩ := hf.ex
  rw [fac_of_some h1]
  refine ⟨(List.getElem?_eq_some_iff.1 h2).1, (List.getElem?_eq_some_iff.1 h3).1, fun v hv => ?_⟩
  dsimp only at hv
  subst hv
  exact Contig.lt hp

theorem ext_fac {h h' : Heap} (e : Ext h h') {f : Nat} (hf : f < h.facs.length) :
    h'.fac f = h.fac f := by
  have h1 : h.facs[f]? = some h.facs[f] := List.getElem?_eq_getElem hf
  rw [fac_of_some (prefix_some e.facs h1), fac_of_some h1]

theorem Inv.ext {s : HState} {t : VState} (I : Inv s t) {h : Heap} (e : Ext s.heap h) :
    Inv { s with heap := h } t := by
  have hfac : ∀ f ∈ s.facs, h.fac f = s.heap.fac f := fun f hf => by
    obtain ⟨F, hF⟩ := forall₂_mem I.facs hf
    exact ext_fac e (holds_lt hF)
  refine ⟨forall₂_imp I.facs fun f _ F hF => hF.mono e, forall₂_imp I.arrs fun p _ a ha => ?_, ?_,
    I.asep, fun f hf p hp => ?_⟩
  · obtain ⟨v, rfl, c⟩ := ha
    exact ⟨v, rfl, e.contig c⟩
  · refine I.sep.imp_of_mem fun {f g} hf hg hs => ?_
    refine ⟨hs.ne, ?_, ?_, ?_⟩
    · rw [hfac f hf, hfac g hg]; exact hs.order
    · rw [hfac f hf, hfac g hg]; exact hs.values
    · rw [hfac f hf, hfac g hg]; exact hs.pot
  · change Apart (h.fac f).pot p
    rw [hfac f hf]
    exact I.fa f hf p hp

/-- the two runs of a statement agree -/
def Agree (r : HState × Option PyErr) (q : VState × Option PyErr) : Prop := Inv r.1 q.1 ∧ r.2 = q.2

theorem agree_push {s : HState} {t : VState} (I : Inv s t) {m : HM Nat} {k : Factor → Bool}
    {x : Except PyErr Factor} (y : Yields s.heap k (m s.heap) x) : Agree (s.push m) (t.push x) := by
  unfold HState.push VState.push
  cases x with
  | error e =>
    obtain ⟨h, hr, he⟩ := y
    rw [hr]
    exact ⟨I.ext he, rfl⟩
  | ok F =>
    obtain ⟨h, f, hr, hf⟩ := y
    rw [hr]
    have J := I.ext hf.ext
    obtain ⟨p, o, hp, -⟩ := hf.own
    obtain ⟨l, d, ho, hl, -, hd, -⟩ := o.ex
    have hfac : h.fac f = ⟨p, l, d⟩ := fac_of_some ho
    refine ⟨⟨?_, J.arrs, ?_, J.asep, ?_⟩, rfl⟩
    · exact List.rel_append J.facs (.cons hf.holds .nil)
    · change (s.facs ++ [f]).Pairwise (Sep h)
      rw [List.pairwise_append]
      refine ⟨J.sep, List.pairwise_singleton _ _, fun g hg f' hf' => ?_⟩
      rw [List.mem_singleton] at hf'
      subst hf'
      obtain ⟨G, hG⟩ := forall₂_mem I.facs hg
      have hlt := holds_lt hG
      obtain ⟨h1, h2, h3⟩ := holds_refs hG
      refine ⟨?_, ?_, ?_, ?_⟩
      · have := o.le
        omega
      · rw [ext_fac hf.ext hlt, hfac]
        dsimp only
        omega
      · rw [ext_fac hf.ext hlt, hfac]
        dsimp only
        omega
      · rw [ext_fac hf.ext hlt, hfac]
        intro v w hv hw
        have := h3 v hv
        have := hp.le w hw
        omega
    · intro g hg q hq
      change g ∈ s.facs ++ [f] at hg
      rcases List.mem_append.1 hg with hg | hg
      · exact J.fa g hg q hq
      · rw [List.mem_singleton] at hg
        subst hg
        change Apart (h.fac g).pot q
        rw [hfac]
        intro v w hv hw
        obtain ⟨a, v', hv', c⟩ := forall₂_mem I.arrs hq
        have hw' := hv'.symm.trans hw
        cases hw'
        have := c.lt
        have := hp.le v hv
        omega

theorem agree_pushArr {s : HState} {t : VState} (I : Inv s t) {m : HM Pot} {x : Except PyErr NDArray}
    (y : match x with
      | .ok a => ∃ h' v, m s.heap = (h', .ok (.arr v)) ∧ Ext s.heap h' ∧ h'.Contig v a ∧
          s.heap.bufs.length ≤ v.buf
      | .error e => ∃ h', m s.heap = (h', .error e) ∧ Ext s.heap h') :
    Agree (s.pushArr m) (t.pushArr x) := by
  unfold HState.pushArr VState.pushArr
  cases x with
  | error e =>
    obtain ⟨h, hr, he⟩ := y
    rw [hr]
    exact ⟨I.ext he, rfl⟩
  | ok a =>
    obtain ⟨h, v, hr, he, c, hle⟩ := y
    rw [hr]
    have J := I.ext he
    have key : ∀ q ∈ s.arrs, Apart q (.arr v) := by
      intro q hq w v' hw hv'
      cases hv'
      obtain ⟨b, w', hw', cw⟩ := forall₂_mem I.arrs hq
      have := hw'.symm.trans hw
      cases this
      have := cw.lt
      omega
    refine ⟨⟨J.facs, ?_, J.sep, ?_, ?_⟩, rfl⟩
    · exact List.rel_append J.arrs (.cons ⟨v, rfl, c⟩ .nil)
    · change (s.arrs ++ [Pot.arr v]).Pairwise Apart
      rw [List.pairwise_append]
      refine ⟨J.asep, List.pairwise_singleton _ _, fun q hq p hp => ?_⟩
      rw [List.mem_singleton] at hp
      subst hp
      exact key q hq
    · intro f hf q hq
      change q ∈ s.arrs ++ [Pot.arr v] at hq
      rcases List.mem_append.1 hq with hq | hq
      · exact J.fa f hf q hq
      · rw [List.mem_singleton] at hq
        subst hq
        obtain ⟨F, hF⟩ := forall₂_mem I.facs hf
        change Apart (h.fac f).pot _
        rw [ext_fac he (holds_lt hF)]
        intro w v' hw hv'
        cases hv'
        have := (holds_refs hF).2.2 w hw
        omega

/-- a change to the factor in variable `i` that leaves everything without a common cell alone -/
theorem Inv.put {s : HState} {t : VState} (I : Inv s t) {i f : Nat} {F : Factor} {h : Heap}
    (hi : s.facs[i]? = some f) (hf : h.Holds f F)
    (hother : ∀ g G, Sep s.heap f g → s.heap.Holds g G → h.Holds g G)
    (harr : ∀ v a, Apart (s.heap.fac f).pot (.arr v) → s.heap.Contig v a → h.Contig v a)
    (hrefs : ∀ g, (h.fac g).order = (s.heap.fac g).order ∧ (h.fac g).values = (s.heap.fac g).values)
    (hpot : ∀ g p, Apart (s.heap.fac g).pot p → Apart (h.fac g).pot p) :
    Inv { s with heap := h } { t with facs := t.facs.set i F } := by
  have hmem : f ∈ s.facs := List.mem_of_getElem? hi
  refine ⟨forall₂_set I.facs I.sep (fun _ _ => Sep.symm) hi hf hother, ?_, ?_, I.asep, ?_⟩
  · refine forall₂_imp I.arrs fun p hp a ha => ?_
    obtain ⟨v, rfl, c⟩ := ha
    exact ⟨v, rfl, harr v a (I.fa f hmem _ hp) c⟩
  · refine I.sep.imp fun {f g} hs => ?_
    refine ⟨hs.ne, ?_, ?_, ?_⟩
    · rw [(hrefs f).1, (hrefs g).1]; exact hs.order
    · rw [(hrefs f).2, (hrefs g).2]; exact hs.values
    · exact hpot f _ (hpot g _ hs.pot.symm).symm
  · intro g hg p hp
    exact hpot g p (I.fa g hg p hp)

theorem touched_fac {h h' : Heap} {b : Nat} (t : Touched h h' b) (f : Nat) : h'.fac f = h.fac f := by
  rw [Heap.fac, t.facs]; rfl

/-- a change to the table of the factor in variable `i` -/
theorem Inv.putTouched {s : HState} {t : VState} (I : Inv s t) {i f : Nat} {F : Factor}
    {a : NDArray} {v : View} {h : Heap} (hi : s.facs[i]? = some f) (hF : s.heap.Holds f F)
    (hv : (s.heap.fac f).pot = .arr v) (ht : Touched s.heap h v.buf) (hc : h.Contig v a)
    (hs : a.shape.length = F.potentials.shape.length) :
    Inv { s with heap := h } { t with facs := t.facs.set i { F with potentials := a } } := by
  refine I.put hi ?_ ?_ ?_ ?_ ?_
  · obtain ⟨p, o, hp⟩ := hF.ex
    have : p = .arr v := by rw [← o.pot, hv]
    subst this
    exact ⟨⟨_, ht.obj o, hc⟩, hs.trans hF.ndim⟩
  · intro g G hsep hG
    obtain ⟨p, o, hp⟩ := hG.ex
    refine ⟨⟨p, ht.obj o, ?_⟩, hG.ndim⟩
    cases p with
    | num x => exact hp
    | arr w => exact ht.contig hp (hsep.pot v w hv o.pot).symm
  · intro w b ha c
    exact ht.contig c (ha v w hv rfl).symm
  · intro g
    rw [touched_fac ht]
    exact ⟨rfl, rfl⟩
  · intro g p hp
    rw [touched_fac ht]
    exact hp

theorem holds_arr {h : Heap} {f : Nat} {F : Factor} (hF : h.Holds f F) (hne : F.variableOrder ≠ []) :
    ∃ v, (h.fac f).pot = .arr v ∧ h.Contig v F.potentials := by
  have hp := hF.pot
  cases hq : (h.fac f).pot with
  | num x =>
    rw [hq] at hp
    have h1 : F.potentials = NDArray.scalar x := hp
    have := hF.ndim
    rw [h1] at this
    exact absurd (List.length_eq_zero_iff.1 this.symm) hne
  | arr v =>
    rw [hq] at hp
    exact ⟨v, rfl, hp⟩

/-- a statement that changes the factor in variable `i` -/
theorem agree_exec {s : HState} {t : VState} (I : Inv s t) (i : Nat) {m : Nat → HM Unit}
    {x : Factor → Except PyErr Factor}
    (H : ∀ f F, s.facs[i]? = some f → t.facs[i]? = some F → s.heap.Holds f F →
      match x F with
      | .ok F' => ∃ h, m f s.heap = (h, .ok ()) ∧
          Inv { s with heap := h } { t with facs := t.facs.set i F' }
      | .error e => m f s.heap = (s.heap, .error e)) :
    Agree (s.exec (HM.lift (var s.facs i) >>= m)) (t.put i (var t.facs i >>= x)) := by
  unfold var
  cases hi : s.facs[i]? with
  | none =>
    rw [forall₂_get_none I.facs hi]
    exact ⟨I, rfl⟩
  | some f =>
    obtain ⟨F, hti, hF⟩ := forall₂_get I.facs hi
    have := H f F hi hti hF
    rw [hti]
    dsimp only
    rw [HState.exec, HM.lift_ok_bind, ok_bind]
    cases hx : x F with
    | error e =>
      rw [hx] at this
      dsimp only at this
      rw [this]
      exact ⟨I, rfl⟩
    | ok F' =>
      rw [hx] at this
      obtain ⟨h, hr, J⟩ := this
      rw [hr]
      exact ⟨J, rfl⟩

theorem require_true {b : Bool} (e : PyErr) (h : b = true) : require b e = .ok () := by
  rw [require, if_pos h]

theorem require_false {b : Bool} (e : PyErr) (h : ¬ b = true) : require b e = .error e := by
  rw [require, if_neg h]

theorem fac_setPot {h : Heap} {f : Nat} (hf : f < h.facs.length) (p : Pot) (g : Nat) :
    ({ h with facs := h.facs.set f { h.fac f with pot := p } } : Heap).fac g =
      if f = g then { h.fac f with pot := p } else h.fac g := by
  split
  · rename_i hg
    subst hg
    exact fac_of_some (List.getElem?_set_self hf)
  · rename_i hg
    unfold Heap.fac
    rw [List.getD_eq_getElem?_getD, List.getElem?_set_ne hg, List.getD_eq_getElem?_getD]

theorem agree_normalize {s : HState} {t : VState} (I : Inv s t) (i : Nat) :
    Agree (s.step (.normalize i)) (t.step (.normalize i)) := by
  refine agree_exec I i fun f F hi hti hF => ?_
  change ∃ h, normalize f s.heap = (h, .ok ()) ∧ Inv _ { t with facs := t.facs.set i F.normalize }
  rw [normalize, HM.read_bind, HM.read_bind, hF.pot.pot]
  by_cases hp : F.potentials.sumAll > 0
  · have hn : F.normalize =
        { F with potentials := F.potentials.map fun x => x / F.potentials.sumAll } := by
      unfold Factor.normalize
      exact if_pos hp
    rw [hn, if_pos hp]
    have hpot := hF.pot
    cases hq : (s.heap.fac f).pot with
    | num x =>
      rw [hq] at hpot
      have hx : F.potentials = NDArray.scalar x := hpot
      obtain ⟨p, ⟨l, d, h1, h2, h3⟩, -⟩ := hF.ex
      have hfac := fac_of_some h1
      have hpx : p = .num x := by rw [hfac] at hq; exact hq
      subst hpx
      refine ⟨_, rfl, I.put hi ⟨⟨.num (x / F.potentials.sumAll), ⟨l, d, ?_, h2, h3⟩, ?_⟩, hF.ndim⟩
        ?_ ?_ ?_ ?_⟩
      · dsimp only
        rw [List.getElem?_set_self (holds_lt hF), hfac]
      · change F.potentials.map _ = _
        rw [hx]
        rfl
      · rintro g G hsep ⟨⟨q, ⟨l', d', g1, g2, g3⟩, hq'⟩, hnd⟩
        refine ⟨⟨q, ⟨l', d', ?_, g2, g3⟩, ?_⟩, hnd⟩
        · dsimp only
          rw [List.getElem?_set_ne hsep.ne, g1]
        · cases q with
          | num y => exact hq'
          | arr w => exact ⟨hq'.lt, hq'.strides, hq'.shape, hq'.data⟩
      · intro v a _ c
        exact ⟨c.lt, c.strides, c.shape, c.data⟩
      · intro g
        rw [fac_setPot (holds_lt hF)]
        split
        · rename_i hg
          subst hg
          exact ⟨rfl, rfl⟩
        · exact ⟨rfl, rfl⟩
      · intro g p hp'
        rw [fac_setPot (holds_lt hF)]
        split
        · intro v w hv
          cases hv
        · exact hp'
    | arr v =>
      rw [hq] at hpot
      obtain ⟨h1, r1, t1, c1⟩ := run_updateView hpot fun x => x / F.potentials.sumAll
      exact ⟨h1, r1, I.putTouched hi hF hq t1 c1 rfl⟩
  · have hn : F.normalize = F := by
      unfold Factor.normalize
      exact if_neg hp
    rw [hn, if_neg hp]
    refine ⟨s.heap, rfl, ?_⟩
    rw [list_set_same hti]
    exact I

theorem agree_poke {s : HState} {t : VState} (I : Inv s t) (i : Nat) (idx : List Nat) (x : ℚ) :
    Agree (s.step (.poke i idx x)) (t.step (.poke i idx x)) := by
  refine agree_exec I i fun f F hi hti hF => ?_
  rw [HM.read_bind, hF.order]
  by_cases hne : F.variableOrder ≠ []
  · obtain ⟨v, hv, c⟩ := holds_arr hF hne
    rw [require_true _ (decide_eq_true hne), HM.lift_ok_bind, HM.read_bind, hv, ok_bind, assign,
      HState.store, c.shape]
    by_cases hr : idx ∈ allIdx F.potentials.shape
    · rw [require_true _ (decide_eq_true hr), HM.lift_ok_bind, ok_bind]
      obtain ⟨h1, r1, t1, c1⟩ := run_updateAt c (mem_allIdx.1 hr) fun _ => x
      exact ⟨h1, r1, I.putTouched hi hF hv t1 c1 rfl⟩
    · rw [require_false _ (by simpa using hr)]
      rfl
  · rw [require_false _ (by simpa using hne)]
    rfl

theorem agree_relabel {s : HState} {t : VState} (I : Inv s t) (i : Nat) (v : Name)
    (labels : List Val) : Agree (s.step (.relabel i v labels)) (t.step (.relabel i v labels)) := by
  refine agree_exec I i fun f F hi hti hF => ?_
  obtain ⟨p, ⟨l, d, h1, h2, h3⟩, hp⟩ := hF.ex
  have hfac := fac_of_some h1
  refine ⟨_, rfl, I.put hi ⟨⟨p, ⟨l, d, h1, h2, ?_⟩, ?_⟩, hF.ndim⟩ ?_ ?_ ?_ ?_⟩
  · dsimp only
    rw [hfac, hF.values]
    exact List.getElem?_set_self (List.getElem?_eq_some_iff.1 h3).1
  · refine PotAt.congr (h := s.heap) ?_ hp
    rfl
  · rintro g G hsep ⟨⟨q, ⟨l', d', g1, g2, g3⟩, hq⟩, hnd⟩
    refine ⟨⟨q, ⟨l', d', g1, g2, ?_⟩, ?_⟩, hnd⟩
    · have := hsep.values
      rw [fac_of_some g1] at this
      dsimp only
      rw [List.getElem?_set_ne this]
      exact g3
    · refine PotAt.congr (h := s.heap) ?_ hq
      rfl
  · intro w a _ c
    exact ⟨c.lt, c.strides, c.shape, c.data⟩
  · intro g
    exact ⟨rfl, rfl⟩
  · intro g q hq
    exact hq

theorem agree_reorder {s : HState} {t : VState} (I : Inv s t) (i : Nat) (order : List Name) :
    Agree (s.step (.reorder i order)) (t.step (.reorder i order)) := by
  refine agree_exec I i fun f F hi hti hF => ?_
  rw [HM.read_bind, hF.order]
  by_cases hl : order.length = F.variableOrder.length
  · rw [require_true _ (decide_eq_true hl), HM.lift_ok_bind, ok_bind]
    obtain ⟨p, ⟨l, d, h1, h2, h3⟩, hp⟩ := hF.ex
    have hfac := fac_of_some h1
    refine ⟨_, rfl, I.put hi ⟨⟨p, ⟨l, d, h1, ?_, h3⟩, ?_⟩, hF.ndim.trans hl.symm⟩ ?_ ?_ ?_ ?_⟩
    · dsimp only
      rw [hfac]
      exact List.getElem?_set_self (List.getElem?_eq_some_iff.1 h2).1
    · refine PotAt.congr (h := s.heap) ?_ hp
      rfl
    · rintro g G hsep ⟨⟨q, ⟨l', d', g1, g2, g3⟩, hq⟩, hnd⟩
      refine ⟨⟨q, ⟨l', d', g1, ?_, g3⟩, ?_⟩, hnd⟩
      · have := hsep.order
        rw [fac_of_some g1] at this
        dsimp only
        rw [List.getElem?_set_ne this]
        exact g2
      · refine PotAt.congr (h := s.heap) ?_ hq
        rfl
    · intro w a _ c
      exact ⟨c.lt, c.strides, c.shape, c.data⟩
    · intro g
      exact ⟨rfl, rfl⟩
    · intro g q hq
      exact hq
  · rw [require_false _ (by simpa using hl)]
    rfl

theorem agree_write {s : HState} {t : VState} (I : Inv s t) (k : Nat) (idx : List Nat) (x : ℚ) :
    Agree (s.step (.write k idx x)) (t.step (.write k idx x)) := by
  change Agree (s.exec (HM.lift (var s.arrs k) >>= fun p => HState.store p idx x))
    (t.putArr k (var t.arrs k >>= fun a => assign a idx x))
  unfold var
  cases hk : s.arrs[k]? with
  | none =>
    rw [forall₂_get_none I.arrs hk]
    exact ⟨I, rfl⟩
  | some p =>
    obtain ⟨a, htk, v, rfl, c⟩ := forall₂_get I.arrs hk
    rw [htk]
    dsimp only
    rw [HState.exec, HM.lift_ok_bind, ok_bind, HState.store, assign, c.shape]
    by_cases hr : idx ∈ allIdx a.shape
    · rw [require_true _ (decide_eq_true hr), HM.lift_ok_bind, ok_bind]
      obtain ⟨h1, r1, t1, c1⟩ := run_updateAt c (mem_allIdx.1 hr) fun _ => x
      rw [r1]
      have hmem : Pot.arr v ∈ s.arrs := List.mem_of_getElem? hk
      refine ⟨⟨?_, ?_, ?_, I.asep, ?_⟩, rfl⟩
      · refine forall₂_imp I.facs fun f hf F hF => ?_
        obtain ⟨q, o, hq⟩ := hF.ex
        refine ⟨⟨q, t1.obj o, ?_⟩, hF.ndim⟩
        cases q with
        | num y => exact hq
        | arr w => exact t1.contig hq (I.fa f hf _ hmem w v o.pot rfl)
      · refine forall₂_set I.arrs I.asep (fun _ _ => Apart.symm) hk ⟨v, rfl, c1⟩ ?_
        rintro q b hq ⟨w, rfl, cw⟩
        exact ⟨w, rfl, t1.contig cw (hq v w rfl rfl).symm⟩
      · refine I.sep.imp fun {f g} hs => ?_
        refine ⟨hs.ne, ?_, ?_, ?_⟩
        · rw [touched_fac t1, touched_fac t1]; exact hs.order
        · rw [touched_fac t1, touched_fac t1]; exact hs.values
        · rw [touched_fac t1, touched_fac t1]; exact hs.pot
      · intro f hf q hq
        rw [touched_fac t1]
        exact I.fa f hf q hq
    · rw [require_false _ (by simpa using hr)]
      exact ⟨I, rfl⟩

/-! ### all statements -/

/-- read a factor variable -/
theorem yields_fac {s : HState} {t : VState} (I : Inv s t) (i : Nat) {m : Nat → HM Nat}
    {k : Factor → Bool} {x : Factor → Except PyErr Factor}
    (H : ∀ f F, s.heap.Holds f F → Yields s.heap k (m f s.heap) (x F)) :
    Yields s.heap k ((HM.lift (var s.facs i) >>= m) s.heap) (var t.facs i >>= x) := by
  unfold var
  cases hi : s.facs[i]? with
  | none =>
    rw [forall₂_get_none I.facs hi]
    exact ⟨s.heap, rfl, Ext.refl _⟩
  | some f =>
    obtain ⟨F, hti, hF⟩ := forall₂_get I.facs hi
    rw [hti]
    exact H f F hF

/-- read an array variable -/
theorem yields_arr {s : HState} {t : VState} (I : Inv s t) (k : Nat) {m : Pot → HM Nat}
    {b : Factor → Bool} {x : NDArray → Except PyErr Factor}
    (H : ∀ p a, s.heap.PotAt p a → Yields s.heap b (m p s.heap) (x a)) :
    Yields s.heap b ((HM.lift (var s.arrs k) >>= m) s.heap) (var t.arrs k >>= x) := by
  unfold var
  cases hk : s.arrs[k]? with
  | none =>
    rw [forall₂_get_none I.arrs hk]
    exact ⟨s.heap, rfl, Ext.refl _⟩
  | some p =>
    obtain ⟨a, htk, v, rfl, c⟩ := forall₂_get I.arrs hk
    rw [htk]
    exact H (.arr v) a c

theorem yields_require {h : Heap} {b : Bool} {e : PyErr} {m : HM Nat} {k : Factor → Bool}
    {x : Except PyErr Factor} (H : b = true → Yields h k (m h) x) :
    Yields h k ((HM.lift (require b e) >>= fun _ => m) h) (require b e >>= fun _ => x) := by
  by_cases hb : b = true
  · rw [require_true e hb]
    exact H hb
  · rw [require_false e hb]
    exact ⟨h, rfl, Ext.refl h⟩

theorem agree_step {s : HState} {t : VState} (I : Inv s t) (c : Cmd) (hc : c.Exposes = false) :
    Agree (s.step c) (t.step c) := by
  cases c with
  | trivial x => exact agree_push I (yields_trivial x _)
  | const c order values => exact agree_push I (yields_constFactor c order values _)
  | fromNode node k =>
    refine agree_push (k := neverNum) I (yields_arr I k fun p a hp => ?_)
    rw [HM.read_bind, hp.pot]
    exact yields_require fun hb => yields_fromNode node hp (of_decide_eq_true hb)
  | hard v values e => exact agree_push I (yields_hard v values e none _)
  | soft v values k old =>
    cases old with
    | none =>
      refine agree_push (k := neverNum) I (yields_arr I k fun p a hp => ?_)
      rw [HM.read_bind, hp.pot]
      exact yields_require fun hb => yields_soft v values hp (of_decide_eq_true hb)
    | some q =>
      refine agree_push (k := neverNum) I (yields_arr I k fun p a hp => yields_arr I q fun r b hr => ?_)
      rw [HM.read_bind, hp.pot]
      refine yields_require fun _ => ?_
      rw [HM.read_bind, hr.pot]
      exact yields_require fun _ => yields_softOld v values hp hr
  | fromSamples samples values =>
    exact agree_push I (yields_require fun hb => yields_fromSamples samples (of_decide_eq_true hb) _)
  | copy i =>
    have := agree_push I (yields_fac I i (m := Heap.copy) (x := .ok) fun f F hF => yields_copy hF)
    have he : (var t.facs i >>= Except.ok) = var t.facs i := by
      cases var t.facs i <;> rfl
    rw [he] at this
    exact this
  | mul so i j =>
    exact agree_push I (yields_fac I i fun f F hF => yields_fac I j fun g G hG =>
      yields_binop _ so hF hG)
  | add so i j =>
    exact agree_push I (yields_fac I i fun f F hF => yields_fac I j fun g G hG =>
      yields_binop _ so hF hG)
  | div so i j =>
    exact agree_push I (yields_fac I i fun f F hF => yields_fac I j fun g G hG => yields_div so hF hG)
  | invert i => exact agree_push I (yields_fac I i fun f F hF => yields_invert hF)
  | marginalize i vars =>
    exact agree_push I (yields_fac I i fun f F hF => yields_marginalize hF vars)
  | normalize i => exact agree_normalize I i
  | getPotential i vars =>
    refine agree_pushArr I ?_
    unfold var
    cases hi : s.facs[i]? with
    | none =>
      rw [forall₂_get_none I.facs hi]
      exact ⟨s.heap, rfl, Ext.refl _⟩
    | some f =>
      obtain ⟨F, hti, hF⟩ := forall₂_get I.facs hi
      rw [hti]
      exact run_getPotential hF (of_decide_eq_false hc)
  | write k idx x => exact agree_write I k idx x
  | poke i idx x => exact agree_poke I i idx x
  | relabel i v labels => exact agree_relabel I i v labels
  | reorder i order => exact agree_reorder I i order

theorem agree_run : ∀ (cs : List Cmd) {s : HState} {t : VState}, Inv s t →
    (∀ c ∈ cs, c.Exposes = false) → Inv (s.run cs).1 (t.run cs).1 ∧ (s.run cs).2 = (t.run cs).2
  | [], _, _, I, _ => ⟨I, rfl⟩
  | c :: cs, s, t, I, hc => by
    obtain ⟨J, he⟩ := agree_step I c (hc c (by simp))
    obtain ⟨K, hr⟩ := agree_run cs J fun c' hc' => hc c' (List.mem_cons_of_mem _ hc')
    refine ⟨K, ?_⟩
    change (s.step c).2 :: ((s.step c).1.run cs).2 = (t.step c).2 :: ((t.step c).1.run cs).2
    rw [he, hr]

theorem inv_start (arrays : List NDArray) : Inv (HState.start arrays) { arrs := arrays } := by
  refine ⟨.nil, ?_, .nil, ?_, fun f hf => nomatch hf⟩
  · rw [List.forall₂_iff_get]
    refine ⟨by simp [HState.start], fun b h1 h2 => ?_⟩
    refine ⟨⟨b, arrays[b].shape, cStrides arrays[b].shape⟩, by simp [HState.start], ?_, rfl, rfl, ?_⟩
    · simpa [HState.start] using h2
    · refine buf_of_some ?_
      change (arrays.map NDArray.data)[b]? = _
      rw [List.getElem?_map, List.getElem?_eq_getElem h2]
      rfl
  · change (arrays.mapIdx fun b a => Pot.arr ⟨b, a.shape, cStrides a.shape⟩).Pairwise Apart
    rw [List.pairwise_iff_getElem]
    intro i j hi hj hij v w hv hw
    rw [List.getElem_mapIdx] at hv hw
    cases hv
    cases hw
    exact ne_of_lt hij

end Primo.Mem
