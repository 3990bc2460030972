import Verif.Lemmas.HeapTree
import Verif.Lemmas.HeapSim
import Verif.Spec.HeapQuery

/-! # Programs with queries on the memory behave as programs on values -/

namespace Primo.Query

open Heap Mem

/-- the number or array is the named table; `β` lists the arrays of the cells -/
def TabIs (β : List View) : Pot → Tab → Prop
  | .num x, .num y => x = y
  | .arr v, .cell c => β[c]? = some v
  | _, _ => False

/-- the factor object is the factor variable -/
structure FacIs (h : Heap) (β : List View) (cells : List NDArray) (f : Nat) (F : Fac) : Prop where
  obj : ∃ p, h.Obj f p F.order F.values ∧ TabIs β p F.tab
  ndim : (tableOf cells F.tab).shape.length = F.order.length

/-- different objects with different lists and dicts -/
structure Diff (h : Heap) (f g : Nat) : Prop where
  ne : f ≠ g
  order : (h.fac f).order ≠ (h.fac g).order
  values : (h.fac f).values ≠ (h.fac g).values

theorem Diff.symm {h : Heap} {f g : Nat} (d : Diff h f g) : Diff h g f :=
  ⟨d.ne.symm, d.order.symm, d.values.symm⟩

/-- the cells that the variables of the program can reach -/
def foot (β : List View) (h : Heap) (fs : List Nat) : Foot where
  fac x := x ∈ fs
  list x := ∃ f ∈ fs, (h.fac f).order = x
  dict x := ∃ f ∈ fs, (h.fac f).values = x
  buf x := ∃ v ∈ β, v.buf = x

/-- the variables hold the values, and share nothing but cells -/
structure Inv (β : List View) (s : QState) (t : CState) : Prop where
  cells : List.Forall₂ s.mem.heap.Contig β t.cells
  inj : β.Pairwise fun v w => v.buf ≠ w.buf
  facs : List.Forall₂ (FacIs s.mem.heap β t.cells) s.mem.facs t.facs
  arrs : List.Forall₂ (TabIs β) s.mem.arrs t.arrs
  diff : s.mem.facs.Pairwise (Diff s.mem.heap)
  trees : List.Forall₂ (TreeAt (foot β s.mem.heap s.mem.facs) s.mem.heap) s.trees t.trees

/-- the two runs of a statement agree -/
def Agree (r : QState × Option PyErr) (q : CState × Option PyErr) : Prop :=
  (∃ β, Inv β r.1 q.1) ∧ r.2 = q.2

/-! ## reading -/

theorem tab_pot {h : Heap} {β : List View} {cells : List NDArray} (hc : List.Forall₂ h.Contig β cells)
    {p : Pot} {tab : Tab} (ht : TabIs β p tab) : h.PotAt p (tableOf cells tab) := by
  cases p with
  | num x =>
    cases tab with
    | num y => obtain rfl : x = y := ht; rfl
    | cell c => exact absurd ht id
  | arr v =>
    cases tab with
    | num y => exact absurd ht id
    | cell c =>
      obtain ⟨a, ha, hv⟩ := forall₂_get hc ht
      have : tableOf cells (.cell c) = a := by
        rw [tableOf, List.getD_eq_getElem?_getD, ha]
        rfl
      rw [this]
      exact hv

theorem FacIs.holds {h : Heap} {β cells f F} (hc : List.Forall₂ h.Contig β cells)
    (x : FacIs h β cells f F) : h.Holds f ⟨tableOf cells F.tab, F.order, F.values⟩ := by
  obtain ⟨p, o, ht⟩ := x.obj
  exact ⟨⟨p, o, tab_pot hc ht⟩, x.ndim⟩

theorem FacIs.lt {h : Heap} {β cells f F} (x : FacIs h β cells f F) : f < h.facs.length := by
  obtain ⟨p, ⟨l, d, h1, -, -⟩, -⟩ := x.obj
  exact (List.getElem?_eq_some_iff.1 h1).1

theorem FacIs.refs {h : Heap} {β cells f F} (x : FacIs h β cells f F) :
    (h.fac f).order < h.lists.length ∧ (h.fac f).values < h.dicts.length := by
  obtain ⟨p, ⟨l, d, h1, h2, h3⟩, -⟩ := x.obj
  rw [fac_of_some h1]
  exact ⟨(List.getElem?_eq_some_iff.1 h2).1, (List.getElem?_eq_some_iff.1 h3).1⟩

variable {β : List View} {s : QState} {t : CState}

theorem Inv.holds (I : Inv β s t) : List.Forall₂ s.mem.heap.Holds s.mem.facs t.read.facs := by
  change List.Forall₂ _ _ (t.facs.map t.value)
  rw [List.forall₂_map_right_iff]
  exact I.facs.imp fun _ _ x => x.holds I.cells

theorem Inv.pots (I : Inv β s t) : List.Forall₂ s.mem.heap.PotAt s.mem.arrs t.read.arrs := by
  change List.Forall₂ _ _ (t.arrs.map (tableOf t.cells))
  rw [List.forall₂_map_right_iff]
  exact I.arrs.imp fun _ _ x => tab_pot I.cells x

theorem Inv.contents (I : Inv β s t) : s.contents = t.contents := by
  have h1 : ∀ {l : List Nat} {fs}, List.Forall₂ s.mem.heap.Holds l fs → l.map s.mem.heap.factor = fs := by
    intro l fs this
    induction this with
    | nil => rfl
    | cons h _ ih => rw [List.map_cons, h.factor, ih]
  have h2 : ∀ {l : List Pot} {as}, List.Forall₂ s.mem.heap.PotAt l as → l.map s.mem.heap.pot = as := by
    intro l as this
    induction this with
    | nil => rfl
    | cons h _ ih => rw [List.map_cons, ih, h.pot]
  have h3 : ∀ {l : List HTree} {ts}, List.Forall₂ (TreeAt (foot β s.mem.heap s.mem.facs) s.mem.heap) l ts →
      l.map (fun T => T.read s.mem.heap) = ts := by
    intro l ts this
    induction this with
    | nil => rfl
    | cons h _ ih => rw [List.map_cons, ih, h.read]
  unfold QState.contents HState.contents CState.contents
  dsimp only
  rw [h1 I.holds, h2 I.pots, h3 I.trees]

theorem Inv.below (I : Inv β s t) : Below (foot β s.mem.heap s.mem.facs) s.mem.heap := by
  refine ⟨fun x hx => ?_, fun x hx => ?_, fun x hx => ?_, fun x hx => ?_⟩
  · obtain ⟨F, hF⟩ := forall₂_mem I.facs hx
    exact hF.lt
  · obtain ⟨f, hf, rfl⟩ := hx
    obtain ⟨F, hF⟩ := forall₂_mem I.facs hf
    exact hF.refs.1
  · obtain ⟨f, hf, rfl⟩ := hx
    obtain ⟨F, hF⟩ := forall₂_mem I.facs hf
    exact hF.refs.2
  · obtain ⟨v, hv, rfl⟩ := hx
    obtain ⟨a, ha⟩ := forall₂_mem I.cells hv
    exact ha.lt

/-! ## new things -/

theorem FacIs.mono {h h' : Heap} (e : Ext h h') {cells f F} (x : FacIs h β cells f F) :
    FacIs h' β cells f F := by
  obtain ⟨p, ⟨l, d, h1, h2, h3⟩, ht⟩ := x.obj
  exact ⟨⟨p, ⟨l, d, prefix_some e.facs h1, prefix_some e.lists h2, prefix_some e.dicts h3⟩, ht⟩, x.ndim⟩

theorem Inv.fac_eq (I : Inv β s t) {h : Heap} (e : Ext s.mem.heap h) {f : Nat} (hf : f ∈ s.mem.facs) :
    h.fac f = s.mem.heap.fac f := by
  obtain ⟨F, hF⟩ := forall₂_mem I.facs hf
  exact ext_fac e hF.lt

theorem Inv.ext (I : Inv β s t) {h : Heap} (e : Ext s.mem.heap h) :
    Inv β ⟨{ s.mem with heap := h }, s.trees⟩ t := by
  refine ⟨I.cells.imp fun _ _ c => e.contig c, I.inj, I.facs.imp fun _ _ x => x.mono e, I.arrs, ?_, ?_⟩
  · refine I.diff.imp_of_mem fun {f g} hf hg d => ?_
    refine ⟨d.ne, ?_, ?_⟩
    · change (h.fac f).order ≠ (h.fac g).order
      rw [I.fac_eq e hf, I.fac_eq e hg]; exact d.order
    · change (h.fac f).values ≠ (h.fac g).values
      rw [I.fac_eq e hf, I.fac_eq e hg]; exact d.values
  · refine I.trees.imp fun T u x => x.change fun f F k => ?_
    obtain ⟨k1, k2⟩ := k.mono e
    refine ⟨k1, ⟨k2.fac, ?_, ?_, k2.buf⟩⟩
    · rintro ⟨g, hg, h1⟩
      change (h.fac g).order = _ at h1
      rw [I.fac_eq e hg] at h1
      exact k2.list ⟨g, hg, h1⟩
    · rintro ⟨g, hg, h1⟩
      change (h.fac g).values = _ at h1
      rw [I.fac_eq e hg] at h1
      exact k2.dict ⟨g, hg, h1⟩

theorem Inv.setTrees (I : Inv β s t) {Ts ts}
    (x : List.Forall₂ (TreeAt (foot β s.mem.heap s.mem.facs) s.mem.heap) Ts ts) :
    Inv β ⟨s.mem, Ts⟩ { t with trees := ts } :=
  ⟨I.cells, I.inj, I.facs, I.arrs, I.diff, x⟩

theorem TabIs.append {p tab} (x : TabIs β p tab) (v : View) : TabIs (β ++ [v]) p tab := by
  cases p with
  | num _ => cases tab <;> exact x
  | arr w =>
    cases tab with
    | num _ => exact x
    | cell c =>
      have hlt := (List.getElem?_eq_some_iff.1 (x : β[c]? = some w)).1
      change (β ++ [v])[c]? = some w
      rw [List.getElem?_append_left hlt]
      exact x

theorem tableOf_append {h : Heap} {cells : List NDArray} (hc : List.Forall₂ h.Contig β cells) {p tab}
    (x : TabIs β p tab) (a : NDArray) : tableOf (cells ++ [a]) tab = tableOf cells tab := by
  cases tab with
  | num _ => rfl
  | cell c =>
    cases p with
    | num _ => exact absurd x id
    | arr w =>
      have hlt := (List.getElem?_eq_some_iff.1 (x : β[c]? = some w)).1
      rw [hc.length_eq] at hlt
      rw [tableOf, tableOf, List.getD_eq_getElem?_getD, List.getD_eq_getElem?_getD,
        List.getElem?_append_left hlt]

theorem tree_cell {h h₀ : Heap} {fs : List Nat} {v : View} (hv : h₀.bufs.length ≤ v.buf) {T u}
    (x : TreeAt (foot β h fs) h₀ T u) : TreeAt (foot (β ++ [v]) h fs) h₀ T u := by
  refine x.change fun f F k => ?_
  have hlt := (holds_refs k.holds).2.2
  obtain ⟨k1, k2⟩ := k
  refine ⟨k1, ⟨k2.fac, k2.list, k2.dict, ?_⟩⟩
  rintro w hw ⟨w', hw', h1⟩
  rcases List.mem_append.1 hw' with hw' | hw'
  · exact k2.buf w hw ⟨w', hw', h1⟩
  · rw [List.mem_singleton] at hw'
    subst hw'
    have := hlt w hw
    omega

/-- a new cell -/
theorem Inv.newCell (I : Inv β s t) {v : View} {a : NDArray} {h₀ : Heap} (e : Ext h₀ s.mem.heap)
    (hv : h₀.bufs.length ≤ v.buf) (hb : ∀ w ∈ β, w.buf < h₀.bufs.length)
    (ht : List.Forall₂ (TreeAt (foot β s.mem.heap s.mem.facs) h₀) s.trees t.trees)
    (c : s.mem.heap.Contig v a) : Inv (β ++ [v]) s { t with cells := t.cells ++ [a] } := by
  refine ⟨List.rel_append I.cells (.cons c .nil), ?_, ?_, I.arrs.imp fun _ _ x => x.append v, I.diff, ?_⟩
  · rw [List.pairwise_append]
    refine ⟨I.inj, List.pairwise_singleton _ _, fun w hw v' hv' => ?_⟩
    rw [List.mem_singleton] at hv'
    subst hv'
    have := hb w hw
    omega
  · refine I.facs.imp fun f F x => ?_
    obtain ⟨p, o, hp⟩ := x.obj
    refine ⟨⟨p, o, hp.append v⟩, ?_⟩
    change (tableOf (t.cells ++ [a]) F.tab).shape.length = _
    rw [tableOf_append I.cells hp]
    exact x.ndim
  · exact ht.imp fun T u x => (tree_cell hv x).mono e

/-- a new factor variable -/
theorem Inv.newFac (I : Inv β s t) {f : Nat} {F : Fac} {h₀ : Heap} (e : Ext h₀ s.mem.heap)
    (hf : h₀.facs.length ≤ f) (ho : h₀.lists.length ≤ (s.mem.heap.fac f).order)
    (hd : h₀.dicts.length ≤ (s.mem.heap.fac f).values)
    {γ : List View} (hb : Below (foot γ s.mem.heap s.mem.facs) h₀)
    (ht : List.Forall₂ (TreeAt (foot β s.mem.heap s.mem.facs) h₀) s.trees t.trees)
    (x : FacIs s.mem.heap β t.cells f F) :
    Inv β ⟨{ s.mem with facs := s.mem.facs ++ [f] }, s.trees⟩ { t with facs := t.facs ++ [F] } := by
  refine ⟨I.cells, I.inj, List.rel_append I.facs (.cons x .nil), I.arrs, ?_, ?_⟩
  · change (s.mem.facs ++ [f]).Pairwise _
    rw [List.pairwise_append]
    refine ⟨I.diff, List.pairwise_singleton _ _, fun g hg f' hf' => ?_⟩
    rw [List.mem_singleton] at hf'
    subst hf'
    have h1 := hb.fac g hg
    have h2 : (s.mem.heap.fac g).order < _ := hb.list _ ⟨g, hg, rfl⟩
    have h3 : (s.mem.heap.fac g).values < _ := hb.dict _ ⟨g, hg, rfl⟩
    refine ⟨by omega, ?_, ?_⟩
    · change (s.mem.heap.fac g).order ≠ (s.mem.heap.fac f').order
      omega
    · change (s.mem.heap.fac g).values ≠ (s.mem.heap.fac f').values
      omega
  · refine ht.imp fun T u y => y.change fun g G k => ?_
    have hlt := holds_lt k.holds
    obtain ⟨h1, h2, -⟩ := holds_refs k.holds
    have hg := ext_fac e hlt
    obtain ⟨k1, k2⟩ := k.mono e
    refine ⟨k1, ⟨?_, ?_, ?_, k2.buf⟩⟩
    · intro hx
      rcases List.mem_append.1 hx with hx | hx
      · exact k2.fac hx
      · rw [List.mem_singleton] at hx
        omega
    · rintro ⟨g', hg', hx⟩
      rcases List.mem_append.1 hg' with hg' | hg'
      · exact k2.list ⟨g', hg', hx⟩
      · rw [List.mem_singleton] at hg'
        subst hg'
        dsimp only at hx
        rw [hg] at hx
        omega
    · rintro ⟨g', hg', hx⟩
      rcases List.mem_append.1 hg' with hg' | hg'
      · exact k2.dict ⟨g', hg', hx⟩
      · rw [List.mem_singleton] at hg'
        subst hg'
        dsimp only at hx
        rw [hg] at hx
        omega

theorem Inv.foot_eq (I : Inv β s t) {h : Heap} (e : Ext s.mem.heap h) :
    foot β h s.mem.facs = foot β s.mem.heap s.mem.facs := by
  unfold foot
  congr 1
  · funext x
    refine propext ⟨?_, ?_⟩
    · rintro ⟨g, hg, h1⟩
      exact ⟨g, hg, by rw [← I.fac_eq e hg]; exact h1⟩
    · rintro ⟨g, hg, h1⟩
      exact ⟨g, hg, by rw [I.fac_eq e hg]; exact h1⟩
  · funext x
    refine propext ⟨?_, ?_⟩
    · rintro ⟨g, hg, h1⟩
      exact ⟨g, hg, by rw [← I.fac_eq e hg]; exact h1⟩
    · rintro ⟨g, hg, h1⟩
      exact ⟨g, hg, by rw [I.fac_eq e hg]; exact h1⟩

theorem push_num (t : CState) {k : Factor → Bool} {F : Factor} (h : k F = true) : t.push k (.ok F) =
    ({ t with facs := t.facs ++ [⟨.num (F.potentials.get []), F.variableOrder, F.values⟩] }, none) := by
  unfold CState.push
  exact if_pos h

theorem push_cell (t : CState) {k : Factor → Bool} {F : Factor} (h : k F = false) : t.push k (.ok F) =
    ({ t with
        cells := t.cells ++ [F.potentials]
        facs := t.facs ++ [⟨.cell t.cells.length, F.variableOrder, F.values⟩] }, none) := by
  unfold CState.push
  exact if_neg (by rw [h]; exact Bool.false_ne_true)

theorem new_cell {h : Heap} {cells : List NDArray} (hc : List.Forall₂ h.Contig β cells) (v : View)
    (a : NDArray) : (β ++ [v])[cells.length]? = some v ∧ tableOf (cells ++ [a]) (.cell cells.length) = a := by
  refine ⟨?_, ?_⟩
  · rw [← hc.length_eq]
    exact List.getElem?_concat_length
  · rw [tableOf, List.getD_eq_getElem?_getD, List.getElem?_concat_length]
    rfl

theorem agree_push (I : Inv β s t) {m : HM Nat} {k : Factor → Bool}
    {x : Except PyErr Factor} (y : Yields s.mem.heap k (m s.mem.heap) x) :
    Agree (s.onMem (s.mem.push m)) (t.push k x) := by
  unfold QState.onMem HState.push
  cases x with
  | error e =>
    obtain ⟨h, hr, he⟩ := y
    rw [hr]
    exact ⟨⟨β, I.ext he⟩, rfl⟩
  | ok F =>
    obtain ⟨h, f, hr, hf⟩ := y
    rw [hr]
    have e := hf.ext
    have J := I.ext e
    obtain ⟨p, o, hp, hk⟩ := hf.own
    have hobj := o.obj
    have hle := o.le
    obtain ⟨l, d, ho, hl, -, hd, -⟩ := o.ex
    have hfac : h.fac f = ⟨p, l, d⟩ := fac_of_some ho
    have ht := I.trees
    have hb := I.below
    rw [← I.foot_eq e] at ht hb
    cases p with
    | num y =>
      have hy : F.potentials = NDArray.scalar y := hp.at_
      rw [push_num t hk.symm]
      refine ⟨⟨β, ?_⟩, rfl⟩
      refine J.newFac e hle (by rw [hfac]; exact hl) (by rw [hfac]; exact hd) hb ht ⟨⟨_, hobj, ?_⟩, ?_⟩
      · change y = F.potentials.get []
        rw [hy]
        rfl
      · change (NDArray.scalar (F.potentials.get [])).shape.length = _
        have := hf.ndim
        rw [hy] at this
        exact this
    | arr v =>
      have hv : h.Contig v F.potentials := hp.at_
      rw [push_cell t hk.symm]
      refine ⟨⟨β ++ [v], ?_⟩, rfl⟩
      have K := J.newCell e (hp.le v rfl) (fun w hw => by
        obtain ⟨a, ha⟩ := forall₂_mem I.cells hw
        exact ha.lt) ht hv
      obtain ⟨c1, c2⟩ := new_cell I.cells v F.potentials
      refine K.newFac (F := ⟨.cell t.cells.length, F.variableOrder, F.values⟩) e hle
        (by rw [hfac]; exact hl) (by rw [hfac]; exact hd) hb
        (ht.imp fun T u x => tree_cell (hp.le v rfl) x) ⟨⟨_, hobj, c1⟩, ?_⟩
      change (tableOf (t.cells ++ [F.potentials]) _).shape.length = _
      rw [c2]
      exact hf.ndim

theorem agree_pushArr (I : Inv β s t) {m : HM Pot} {x : Except PyErr NDArray}
    (y : match x with
      | .ok a => ∃ h' v, m s.mem.heap = (h', .ok (.arr v)) ∧ Ext s.mem.heap h' ∧ h'.Contig v a ∧
          s.mem.heap.bufs.length ≤ v.buf
      | .error e => ∃ h', m s.mem.heap = (h', .error e) ∧ Ext s.mem.heap h') :
    Agree (s.onMem (s.mem.pushArr m)) (t.pushArr x) := by
  unfold QState.onMem HState.pushArr CState.pushArr
  cases x with
  | error e =>
    obtain ⟨h, hr, he⟩ := y
    rw [hr]
    exact ⟨⟨β, I.ext he⟩, rfl⟩
  | ok a =>
    obtain ⟨h, v, hr, he, c, hle⟩ := y
    rw [hr]
    have J := I.ext he
    have ht := I.trees
    rw [← I.foot_eq he] at ht
    have K := J.newCell he hle (fun w hw => by
        obtain ⟨a, ha⟩ := forall₂_mem I.cells hw
        exact ha.lt) ht c
    refine ⟨⟨β ++ [v], K.cells, K.inj, K.facs, ?_, K.diff, K.trees⟩, rfl⟩
    exact List.rel_append K.arrs (.cons (new_cell I.cells v a).1 .nil)

/-! ## changes -/

/-- assign to a cell -/
theorem Inv.touch (I : Inv β s t) {c : Nat} {v : View} {a : NDArray} {h : Heap} (hv : β[c]? = some v)
    (ht : Touched s.mem.heap h v.buf) (hc : h.Contig v a)
    (hs : a.shape = (tableOf t.cells (.cell c)).shape) :
    Inv β ⟨{ s.mem with heap := h }, s.trees⟩ { t with cells := t.cells.set c a } := by
  have hfac : ∀ f, h.fac f = s.mem.heap.fac f := touched_fac ht
  refine ⟨?_, I.inj, ?_, I.arrs, ?_, ?_⟩
  · exact forall₂_set I.cells I.inj (fun _ _ => Ne.symm) hv hc fun w b hw hb => ht.contig hb hw.symm
  · refine I.facs.imp fun f F x => ?_
    obtain ⟨p, o, hp⟩ := x.obj
    refine ⟨⟨p, ht.obj o, hp⟩, ?_⟩
    have hlt := (List.getElem?_eq_some_iff.1 hv).1
    rw [I.cells.length_eq] at hlt
    have hsh : (tableOf (t.cells.set c a) F.tab).shape = (tableOf t.cells F.tab).shape := by
      cases F.tab with
      | num _ => rfl
      | cell c' =>
        by_cases hcc : c = c'
        · subst hcc
          rw [tableOf, List.getD_eq_getElem?_getD, List.getElem?_set_self hlt]
          exact hs
        · rw [tableOf, tableOf, List.getD_eq_getElem?_getD, List.getD_eq_getElem?_getD,
            List.getElem?_set_ne hcc]
    change (tableOf (t.cells.set c a) F.tab).shape.length = _
    rw [hsh]
    exact x.ndim
  · refine I.diff.imp fun {f g} d => ⟨d.ne, ?_, ?_⟩
    · change (h.fac f).order ≠ (h.fac g).order
      rw [hfac, hfac]; exact d.order
    · change (h.fac f).values ≠ (h.fac g).values
      rw [hfac, hfac]; exact d.values
  · have hfoot : foot β h s.mem.facs = foot β s.mem.heap s.mem.facs := by
      unfold foot
      simp only [hfac]
    refine I.trees.imp fun T u x => ?_
    change TreeAt (foot β h s.mem.facs) h T u
    rw [hfoot]
    refine x.change fun f F k => ?_
    obtain ⟨p, o, hp⟩ := k.holds.ex
    refine ⟨⟨⟨p, ht.obj o, ?_⟩, k.holds.ndim⟩, ⟨k.clear.fac, ?_, ?_, ?_⟩⟩
    · cases p with
      | num y => exact hp
      | arr w =>
        refine ht.contig hp fun hw => k.clear.buf w o.pot ⟨v, List.mem_of_getElem? hv, hw.symm⟩
    · rw [hfac]; exact k.clear.list
    · rw [hfac]; exact k.clear.dict
    · rw [hfac]; exact k.clear.buf

/-- a change to one factor object that keeps its table cell, list and dict -/
theorem Inv.putFac (I : Inv β s t) {i f : Nat} {F : Fac} {h : Heap} (hi : s.mem.facs[i]? = some f)
    (hbufs : h.bufs = s.mem.heap.bufs) (hF : FacIs h β t.cells f F)
    (hother : ∀ g p O D, Diff s.mem.heap f g → s.mem.heap.Obj g p O D → h.Obj g p O D)
    (hrefs : ∀ g, (h.fac g).order = (s.mem.heap.fac g).order ∧ (h.fac g).values = (s.mem.heap.fac g).values)
    (hpot : ∀ g, g ≠ f → (h.fac g).pot = (s.mem.heap.fac g).pot) :
    Inv β ⟨{ s.mem with heap := h }, s.trees⟩ { t with facs := t.facs.set i F } := by
  have hmem : f ∈ s.mem.facs := List.mem_of_getElem? hi
  have hcontig : ∀ {v a}, s.mem.heap.Contig v a → h.Contig v a := fun {v a} c => by
    refine ⟨by rw [hbufs]; exact c.lt, c.strides, c.shape, ?_⟩
    have : h.buf v.buf = s.mem.heap.buf v.buf := by unfold Heap.buf; rw [hbufs]
    rw [this]
    exact c.data
  refine ⟨I.cells.imp fun _ _ c => hcontig c, I.inj, ?_, I.arrs, ?_, ?_⟩
  · refine forall₂_set I.facs I.diff (fun _ _ => Diff.symm) hi hF fun g G hd x => ?_
    obtain ⟨p, o, hp⟩ := x.obj
    exact ⟨⟨p, hother g p _ _ hd o, hp⟩, x.ndim⟩
  · refine I.diff.imp fun {f g} d => ⟨d.ne, ?_, ?_⟩
    · change (h.fac f).order ≠ (h.fac g).order
      rw [(hrefs f).1, (hrefs g).1]; exact d.order
    · change (h.fac f).values ≠ (h.fac g).values
      rw [(hrefs f).2, (hrefs g).2]; exact d.values
  · have hfoot : foot β h s.mem.facs = foot β s.mem.heap s.mem.facs := by
      unfold foot
      simp only [(hrefs _).1, (hrefs _).2]
    refine I.trees.imp fun T u x => ?_
    change TreeAt (foot β h s.mem.facs) h T u
    rw [hfoot]
    refine x.change fun g G k => ?_
    obtain ⟨p, o, hp⟩ := k.holds.ex
    have hne : g ≠ f := fun hg => k.clear.fac (hg ▸ hmem)
    have hd : Diff s.mem.heap f g := ⟨hne.symm, fun hx => k.clear.list ⟨f, hmem, hx⟩,
      fun hx => k.clear.dict ⟨f, hmem, hx⟩⟩
    refine ⟨⟨⟨p, hother g p _ _ hd o, ?_⟩, k.holds.ndim⟩, ⟨k.clear.fac, ?_, ?_, ?_⟩⟩
    · cases p with
      | num y => exact hp
      | arr w => exact hcontig hp
    · rw [(hrefs g).1]; exact k.clear.list
    · rw [(hrefs g).2]; exact k.clear.dict
    · rw [hpot g hne]; exact k.clear.buf

/-! ## statements about factors and arrays -/

/-- use the factor variable `i` -/
theorem agree_exec (I : Inv β s t) (i : Nat) {m : Nat → HM Unit} {g : Fac → CState × Option PyErr}
    (H : ∀ f F, s.mem.facs[i]? = some f → t.facs[i]? = some F → FacIs s.mem.heap β t.cells f F →
      Agree (s.onMem (s.mem.exec (m f))) (g F)) :
    Agree (s.onMem (s.mem.exec (HM.lift (var s.mem.facs i) >>= m))) (t.withVar (var t.facs i) g) := by
  unfold var
  cases hi : s.mem.facs[i]? with
  | none =>
    rw [forall₂_get_none I.facs hi]
    exact ⟨⟨β, I.ext (Ext.refl _)⟩, rfl⟩
  | some f =>
    obtain ⟨F, hti, hF⟩ := forall₂_get I.facs hi
    rw [hti]
    exact H f F hi hti hF

theorem agree_store (I : Inv β s t) (idx : List Nat) (x : ℚ) {p : Pot} {tab : Tab} (hp : TabIs β p tab) :
    Agree (s.onMem (s.mem.exec (HState.store p idx x))) (t.assignTo idx x tab) := by
  have hpot := tab_pot I.cells hp
  cases p with
  | num y =>
    cases tab with
    | num z => exact ⟨⟨β, I.ext (Ext.refl _)⟩, rfl⟩
    | cell c => exact absurd hp id
  | arr v =>
    cases tab with
    | num z => exact absurd hp id
    | cell c =>
      have hcv : s.mem.heap.Contig v (tableOf t.cells (.cell c)) := hpot
      have hb : β[c]? = some v := hp
      unfold CState.assignTo QState.onMem HState.exec HState.store assign
      dsimp only
      rw [hcv.shape]
      generalize ha : tableOf t.cells (.cell c) = a at hcv
      by_cases hr : idx ∈ allIdx a.shape
      · rw [require_true _ (decide_eq_true hr), HM.lift_ok_bind, ok_bind]
        obtain ⟨h1, r1, t1, c1⟩ := run_updateAt hcv (mem_allIdx.1 hr) fun _ => x
        rw [r1]
        exact ⟨⟨β, I.touch hb t1 c1 (by rw [ha]; rfl)⟩, rfl⟩
      · rw [require_false _ (by simpa using hr)]
        exact ⟨⟨β, I.ext (Ext.refl _)⟩, rfl⟩

theorem agree_write (I : Inv β s t) (k : Nat) (idx : List Nat) (x : ℚ) :
    Agree (s.step (.factor (.write k idx x))) (t.step (.factor (.write k idx x))) := by
  change Agree (s.onMem (s.mem.exec (HM.lift (var s.mem.arrs k) >>= fun p => HState.store p idx x)))
    (t.withVar (var t.arrs k) (t.assignTo idx x))
  unfold var
  cases hk : s.mem.arrs[k]? with
  | none =>
    rw [forall₂_get_none I.arrs hk]
    exact ⟨⟨β, I.ext (Ext.refl _)⟩, rfl⟩
  | some p =>
    obtain ⟨tab, htk, hp⟩ := forall₂_get I.arrs hk
    rw [htk]
    exact agree_store I idx x hp

theorem agree_poke (I : Inv β s t) (i : Nat) (idx : List Nat) (x : ℚ) :
    Agree (s.step (.factor (.poke i idx x))) (t.step (.factor (.poke i idx x))) := by
  refine agree_exec I i fun f F hi hti hF => ?_
  obtain ⟨p, o, hp⟩ := hF.obj
  have : (HM.read (fun h => h.fac f) >>= fun o => HState.store o.pot idx x : HM Unit) s.mem.heap =
      HState.store p idx x s.mem.heap := by
    rw [HM.read_bind, o.pot]
  unfold HState.exec
  rw [this]
  exact agree_store I idx x hp

theorem agree_normalize (I : Inv β s t) (i : Nat) :
    Agree (s.step (.factor (.normalize i))) (t.step (.factor (.normalize i))) := by
  refine agree_exec I i fun f F hi hti hF => ?_
  have hH := hF.holds I.cells
  obtain ⟨p, o, hp⟩ := hF.obj
  have hpot := tab_pot I.cells hp
  have hrun : normalize f s.mem.heap =
      (if (tableOf t.cells F.tab).sumAll > 0 then normBy f (tableOf t.cells F.tab).sumAll p
      else pure () : HM Unit) s.mem.heap := by
    rw [normalize, HM.read_bind, HM.read_bind, o.pot, hpot.pot]
    cases p <;> rfl
  have hval : (t.value F).normalize.potentials = if (tableOf t.cells F.tab).sumAll > 0 then
      (tableOf t.cells F.tab).map (fun x => x / (tableOf t.cells F.tab).sumAll)
      else tableOf t.cells F.tab := by
    unfold Factor.normalize CState.value
    dsimp only
    split <;> rfl
  unfold QState.onMem HState.exec
  rw [hrun, hval]
  by_cases hpos : (tableOf t.cells F.tab).sumAll > 0
  · rw [if_pos hpos, if_pos hpos]
    cases p with
    | num y =>
      cases hT : F.tab with
      | cell c => rw [hT] at hp; exact absurd hp id
      | num z =>
        rw [hT] at hp
        obtain rfl : y = z := hp
        refine ⟨⟨β, ?_⟩, rfl⟩
        unfold CState.setTable
        rw [hT]
        obtain ⟨l, d, h1, h2, h3⟩ := o
        have hfac := fac_of_some h1
        have hflt := hF.lt
        refine I.putFac (f := f) hi rfl ⟨⟨.num (y / (NDArray.scalar y).sumAll), ⟨l, d, ?_, h2, h3⟩, ?_⟩, ?_⟩ ?_ ?_ ?_
        · dsimp only
          rw [hfac]
          exact List.getElem?_set_self hflt
        · rfl
        · have := hF.ndim
          rw [hT] at this
          exact this
        · rintro g q O D hd ⟨l', d', g1, g2, g3⟩
          refine ⟨l', d', ?_, g2, g3⟩
          dsimp only
          rw [List.getElem?_set_ne hd.ne, g1]
        · intro g
          rw [fac_setPot hflt]
          split
          · rename_i hg
            subst hg
            exact ⟨rfl, rfl⟩
          · exact ⟨rfl, rfl⟩
        · intro g hg
          rw [fac_setPot hflt, if_neg hg.symm]
    | arr v =>
      cases hT : F.tab with
      | num z => rw [hT] at hp; exact absurd hp id
      | cell c =>
        rw [hT] at hp hpot
        have hcv : s.mem.heap.Contig v (tableOf t.cells (.cell c)) := hpot
        obtain ⟨h1, r1, t1, c1⟩ := run_updateView hcv fun x => x / (tableOf t.cells (.cell c)).sumAll
        rw [show normBy f _ (.arr v) s.mem.heap = (h1, .ok ()) from r1]
        refine ⟨⟨β, ?_⟩, rfl⟩
        unfold CState.setTable
        rw [hT]
        exact I.touch hp t1 c1 rfl
  · rw [if_neg hpos, if_neg hpos]
    refine ⟨⟨β, ?_⟩, rfl⟩
    have : t.setTable i F (tableOf t.cells F.tab) = t := by
      unfold CState.setTable
      cases hT : F.tab with
      | num z =>
        have : ({ F with tab := .num ((tableOf t.cells (.num z)).get []) } : Fac) = F := by
          obtain ⟨tab, o, d⟩ := F
          dsimp only at hT ⊢
          rw [hT]
          rfl
        dsimp only
        rw [this, list_set_same hti]
      | cell c =>
        have hlt : c < t.cells.length := by
          cases p with
          | num y => rw [hT] at hp; exact absurd hp id
          | arr v =>
            rw [hT] at hp
            rw [← I.cells.length_eq]
            exact (List.getElem?_eq_some_iff.1 (hp : β[c]? = some v)).1
        dsimp only
        have : t.cells[c]? = some (tableOf t.cells (.cell c)) := by
          rw [tableOf, List.getD_eq_getElem?_getD, List.getElem?_eq_getElem hlt]
          rfl
        rw [list_set_same this]
    rw [this]
    exact I.ext (Ext.refl _)

theorem agree_relabel (I : Inv β s t) (i : Nat) (v : Name) (labels : List Val) :
    Agree (s.step (.factor (.relabel i v labels))) (t.step (.factor (.relabel i v labels))) := by
  refine agree_exec I i fun f F hi hti hF => ?_
  obtain ⟨p, ⟨l, d, h1, h2, h3⟩, hp⟩ := hF.obj
  have hfac := fac_of_some h1
  have hv : s.mem.heap.values f = F.values := (hF.holds I.cells).values
  refine ⟨⟨β, I.putFac (f := f) hi rfl ⟨⟨p, ⟨l, d, h1, h2, ?_⟩, hp⟩, hF.ndim⟩ ?_ (fun g => ⟨rfl, rfl⟩)
    fun g _ => rfl⟩, rfl⟩
  · dsimp only
    rw [hfac, hv]
    exact List.getElem?_set_self (List.getElem?_eq_some_iff.1 h3).1
  · rintro g q O D hd ⟨l', d', g1, g2, g3⟩
    refine ⟨l', d', g1, g2, ?_⟩
    have := hd.values
    rw [fac_of_some g1] at this
    dsimp only
    rw [List.getElem?_set_ne this]
    exact g3

theorem agree_reorder (I : Inv β s t) (i : Nat) (order : List Name) :
    Agree (s.step (.factor (.reorder i order))) (t.step (.factor (.reorder i order))) := by
  refine agree_exec I i fun f F hi hti hF => ?_
  have ho : s.mem.heap.order f = F.order := (hF.holds I.cells).order
  unfold QState.onMem HState.exec
  rw [HM.read_bind, ho]
  by_cases hl : order.length = F.order.length
  · rw [require_true _ (decide_eq_true hl), HM.lift_ok_bind]
    obtain ⟨p, ⟨l, d, h1, h2, h3⟩, hp⟩ := hF.obj
    have hfac := fac_of_some h1
    refine ⟨⟨β, I.putFac (f := f) hi rfl ⟨⟨p, ⟨l, d, h1, ?_, h3⟩, hp⟩, hF.ndim.trans hl.symm⟩ ?_
      (fun g => ⟨rfl, rfl⟩) fun g _ => rfl⟩, rfl⟩
    · dsimp only
      rw [hfac]
      exact List.getElem?_set_self (List.getElem?_eq_some_iff.1 h2).1
    · rintro g q O D hd ⟨l', d', g1, g2, g3⟩
      refine ⟨l', d', g1, ?_, g3⟩
      have := hd.order
      rw [fac_of_some g1] at this
      dsimp only
      rw [List.getElem?_set_ne this]
      exact g2
  · rw [require_false _ (by simpa using hl)]
    exact ⟨⟨β, I.ext (Ext.refl _)⟩, rfl⟩

theorem agree_getPotential (I : Inv β s t) (i : Nat) (vars : Dict (List Val)) :
    Agree (s.step (.factor (.getPotential i vars))) (t.step (.factor (.getPotential i vars))) := by
  change Agree (s.onMem (s.mem.pushArr (HM.lift (var s.mem.facs i) >>= fun f => Heap.getPotential f vars)))
    (t.withVar (var t.facs i) fun F => if vars.length = 0 then
        t.withVar ((t.value F).getPotential vars) fun _ => ({ t with arrs := t.arrs ++ [F.tab] }, none)
      else t.pushArr ((t.value F).getPotential vars))
  unfold var
  cases hi : s.mem.facs[i]? with
  | none =>
    rw [forall₂_get_none I.facs hi]
    exact ⟨⟨β, I.ext (Ext.refl _)⟩, rfl⟩
  | some f =>
    obtain ⟨F, hti, hF⟩ := forall₂_get I.facs hi
    rw [hti]
    have hH : s.mem.heap.Holds f (t.value F) := hF.holds I.cells
    change Agree (s.onMem (s.mem.pushArr (Heap.getPotential f vars)))
      (if vars.length = 0 then
        t.withVar ((t.value F).getPotential vars) fun _ => ({ t with arrs := t.arrs ++ [F.tab] }, none)
      else t.pushArr ((t.value F).getPotential vars))
    by_cases hv : vars.length = 0
    · rw [if_pos hv, Factor.getPotential, Factor.subTable]
      unfold QState.onMem HState.pushArr
      rw [Heap.getPotential, HM.read_bind, HM.read_bind, hH.order, hH.values]
      cases hm : (t.value F).variableOrder.mapM (fun v => do
          let vs ← (t.value F).values.getE v
          Factor.reqIndex vs (vars.get? v)) with
      | error e => exact ⟨⟨β, I.ext (Ext.refl _)⟩, rfl⟩
      | ok index =>
        rw [HM.lift_ok_bind, HM.read_bind, ok_bind, if_pos hv, if_pos hv, pure_eq_ok, ok_bind, if_pos hv]
        obtain ⟨p, o, hp⟩ := hF.obj
        rw [o.pot]
        refine ⟨⟨β, ?_⟩, rfl⟩
        exact ⟨I.cells, I.inj, I.facs, List.rel_append I.arrs (.cons hp .nil), I.diff, I.trees⟩
    · rw [if_neg hv]
      exact agree_pushArr I (run_getPotential hH hv)

/-- read a factor variable -/
theorem yields_fac {s : HState} {v : VState} (hf : List.Forall₂ s.heap.Holds s.facs v.facs) (i : Nat)
    {m : Nat → HM Nat} {k : Factor → Bool} {x : Factor → Except PyErr Factor}
    (H : ∀ f F, s.heap.Holds f F → Yields s.heap k (m f s.heap) (x F)) :
    Yields s.heap k ((HM.lift (var s.facs i) >>= m) s.heap) (var v.facs i >>= x) := by
  unfold var
  cases hi : s.facs[i]? with
  | none =>
    rw [forall₂_get_none hf hi]
    exact ⟨s.heap, rfl, Ext.refl _⟩
  | some f =>
    obtain ⟨F, hti, hF⟩ := forall₂_get hf hi
    rw [hti]
    exact H f F hF

/-- read an array variable -/
theorem yields_arr {s : HState} {v : VState} (ha : List.Forall₂ s.heap.PotAt s.arrs v.arrs) (k : Nat)
    {m : Pot → HM Nat} {b : Factor → Bool} {x : NDArray → Except PyErr Factor}
    (H : ∀ p a, s.heap.PotAt p a → Yields s.heap b (m p s.heap) (x a)) :
    Yields s.heap b ((HM.lift (var s.arrs k) >>= m) s.heap) (var v.arrs k >>= x) := by
  unfold var
  cases hk : s.arrs[k]? with
  | none =>
    rw [forall₂_get_none ha hk]
    exact ⟨s.heap, rfl, Ext.refl _⟩
  | some p =>
    obtain ⟨a, htk, hp⟩ := forall₂_get ha hk
    rw [htk]
    exact H p a hp

/-- the statements that assign a new factor variable -/
def makes : Cmd → Bool
  | .normalize _ | .getPotential .. | .write .. | .poke .. | .relabel .. | .reorder .. => false
  | _ => true

theorem yields_cmd {s : HState} {v : VState} (hf : List.Forall₂ s.heap.Holds s.facs v.facs)
    (ha : List.Forall₂ s.heap.PotAt s.arrs v.arrs) (c : Cmd) (hc : makes c = true) :
    ∃ m x, s.step c = s.push m ∧ v.step c = v.push x ∧ Yields s.heap (newIsNum c) (m s.heap) x := by
  cases c with
  | trivial x => exact ⟨_, _, rfl, rfl, yields_trivial x _⟩
  | const c order values => exact ⟨_, _, rfl, rfl, yields_constFactor c order values _⟩
  | fromNode node k =>
    refine ⟨_, _, rfl, rfl, yields_arr ha k fun p a hp => ?_⟩
    rw [HM.read_bind, hp.pot]
    exact yields_require fun hb => yields_fromNode node hp (of_decide_eq_true hb)
  | hard v values e => exact ⟨_, _, rfl, rfl, yields_hard v values e none _⟩
  | soft v values k old =>
    cases old with
    | none =>
      refine ⟨_, _, rfl, rfl, yields_arr ha k fun p a hp => ?_⟩
      rw [HM.read_bind, hp.pot]
      exact yields_require fun hb => yields_soft v values hp (of_decide_eq_true hb)
    | some q =>
      refine ⟨_, _, rfl, rfl, yields_arr ha k fun p a hp => yields_arr ha q fun r b hr => ?_⟩
      rw [HM.read_bind, hp.pot]
      refine yields_require fun _ => ?_
      rw [HM.read_bind, hr.pot]
      exact yields_require fun _ => yields_softOld v values hp hr
  | fromSamples samples values =>
    exact ⟨_, _, rfl, rfl, yields_require fun hb => yields_fromSamples samples (of_decide_eq_true hb) _⟩
  | copy i =>
    have := yields_fac hf i (m := Heap.copy) (x := .ok) fun f F hF => yields_copy hF
    have he : (var v.facs i >>= Except.ok) = var v.facs i := by
      cases var v.facs i <;> rfl
    rw [he] at this
    exact ⟨_, _, rfl, rfl, this⟩
  | mul so i j =>
    exact ⟨_, _, rfl, rfl, yields_fac hf i fun f F hF => yields_fac hf j fun g G hG =>
      yields_binop _ so hF hG⟩
  | add so i j =>
    exact ⟨_, _, rfl, rfl, yields_fac hf i fun f F hF => yields_fac hf j fun g G hG =>
      yields_binop _ so hF hG⟩
  | div so i j =>
    exact ⟨_, _, rfl, rfl, yields_fac hf i fun f F hF => yields_fac hf j fun g G hG => yields_div so hF hG⟩
  | invert i => exact ⟨_, _, rfl, rfl, yields_fac hf i fun f F hF => yields_invert hF⟩
  | marginalize i vars =>
    exact ⟨_, _, rfl, rfl, yields_fac hf i fun f F hF => yields_marginalize hF vars⟩
  | normalize i => cases hc
  | getPotential i vars => cases hc
  | write k idx x => cases hc
  | poke i idx x => cases hc
  | relabel i v labels => cases hc
  | reorder i order => cases hc

theorem made_push {v : VState} {c : Cmd} {x : Except PyErr Factor} (h : v.step c = v.push x) :
    made v c = x := by
  unfold made
  rw [h]
  cases x with
  | error e => rfl
  | ok F =>
    unfold VState.push
    dsimp only
    rw [List.getLast?_concat]

theorem agree_make (I : Inv β s t) (c : Cmd) (hc : makes c = true) :
    Agree (s.onMem (s.mem.step c)) (t.push (newIsNum c) (made t.read c)) := by
  obtain ⟨m, x, h1, h2, y⟩ := yields_cmd I.holds I.pots c hc
  rw [h1, made_push h2]
  exact agree_push I y

theorem agree_factor (I : Inv β s t) (c : Cmd) : Agree (s.step (.factor c)) (t.step (.factor c)) := by
  cases c with
  | normalize i => exact agree_normalize I i
  | getPotential i vars => exact agree_getPotential I i vars
  | write k idx x => exact agree_write I k idx x
  | poke i idx x => exact agree_poke I i idx x
  | relabel i v labels => exact agree_relabel I i v labels
  | reorder i order => exact agree_reorder I i order
  | _ => exact agree_make I _ rfl

/-! ## networks and evidence -/

/-- the same exception, or related values -/
def ERel {β γ : Type} (R : β → γ → Prop) (x : Except PyErr β) (y : Except PyErr γ) : Prop :=
  match y with
  | .ok c => ∃ b, x = .ok b ∧ R b c
  | .error e => x = .error e

theorem mapM_rel {α β γ : Type} {R : β → γ → Prop} {f : α → Except PyErr β} {g : α → Except PyErr γ}
    (H : ∀ a, ERel R (f a) (g a)) : ∀ l : List α, ERel (List.Forall₂ R) (l.mapM f) (l.mapM g)
  | [] => ⟨[], rfl, .nil⟩
  | a :: l => by
    have h1 := H a
    have h2 := mapM_rel H l
    rw [List.mapM_cons, List.mapM_cons]
    cases hg : g a with
    | error e =>
      rw [hg] at h1
      have h1 : f a = .error e := h1
      rw [h1]
      rfl
    | ok c =>
      rw [hg] at h1
      obtain ⟨b, hb, hr⟩ := h1
      rw [hb]
      cases hl : l.mapM g with
      | error e =>
        rw [hl] at h2
        have h2 : l.mapM f = .error e := h2
        rw [ok_bind, h2]
        rfl
      | ok cs =>
        rw [hl] at h2
        obtain ⟨bs, hbs, hrs⟩ := h2
        exact ⟨b :: bs, by rw [ok_bind, hbs]; rfl, .cons hr hrs⟩

theorem ref_net (I : Inv β s t) (net : List (NodeV × Nat)) :
    ERel (NetAt s.mem.heap) (refNet s.mem net) (netOf t.read.arrs net) := by
  refine mapM_rel (fun p => ?_) net
  obtain ⟨n, k⟩ := p
  dsimp only
  unfold var
  cases hk : s.mem.arrs[k]? with
  | none =>
    rw [forall₂_get_none I.pots hk]
    rfl
  | some q =>
    obtain ⟨a, ha, hp⟩ := forall₂_get I.pots hk
    rw [ha]
    dsimp only
    rw [ok_bind, ok_bind, hp.pot]
    by_cases hb : fits n a = true
    · rw [require_true _ hb]
      exact ⟨_, rfl, ⟨hp, rfl, hb⟩⟩
    · rw [require_false _ hb]
      rfl

theorem ref_evidence (I : Inv β s t) (ev : Dict (Val ⊕ Nat)) :
    ERel (DictRel (EvAt s.mem.heap)) (refEvidence s.mem ev) (evidenceOf t.read.arrs ev) := by
  refine mapM_rel (fun p => ?_) ev
  obtain ⟨n, k⟩ := p
  cases k with
  | inl x => exact ⟨_, rfl, rfl, rfl⟩
  | inr k =>
    dsimp only
    unfold var
    cases hk : s.mem.arrs[k]? with
    | none =>
      rw [forall₂_get_none I.pots hk]
      rfl
    | some q =>
      obtain ⟨a, ha, hp⟩ := forall₂_get I.pots hk
      rw [ha]
      dsimp only
      rw [ok_bind, ok_bind, hp.pot]
      by_cases hb : a.shape.length = 1
      · rw [require_true _ (decide_eq_true hb)]
        exact ⟨_, rfl, rfl, a, hp, hb, rfl⟩
      · rw [require_false _ (by simpa using hb)]
        rfl

theorem agree_net (I : Inv β s t) (net : List (NodeV × Nat)) {f : MNet → QState × Option PyErr}
    {g : BN → CState × Option PyErr} (H : ∀ n bn, NetAt s.mem.heap n bn → Agree (f n) (g bn)) :
    Agree (s.withVar (refNet s.mem net) f) (t.withVar (netOf t.read.arrs net) g) := by
  have := ref_net I net
  cases hb : netOf t.read.arrs net with
  | error e =>
    rw [hb] at this
    rw [(this : _ = Except.error e)]
    exact ⟨⟨β, I⟩, rfl⟩
  | ok bn =>
    rw [hb] at this
    obtain ⟨n, hn, ha⟩ := this
    rw [hn]
    exact H n bn ha

theorem agree_evidence (I : Inv β s t) (ev : Dict (Val ⊕ Nat)) {f : MEvidence → QState × Option PyErr}
    {g : Dict Evidence → CState × Option PyErr}
    (H : ∀ n d, DictRel (EvAt s.mem.heap) n d → Agree (f n) (g d)) :
    Agree (s.withVar (refEvidence s.mem ev) f) (t.withVar (evidenceOf t.read.arrs ev) g) := by
  have := ref_evidence I ev
  cases hb : evidenceOf t.read.arrs ev with
  | error e =>
    rw [hb] at this
    rw [(this : _ = Except.error e)]
    exact ⟨⟨β, I⟩, rfl⟩
  | ok bn =>
    rw [hb] at this
    obtain ⟨n, hn, ha⟩ := this
    rw [hn]
    exact H n bn ha

theorem yields_net (I : Inv β s t) (net : List (NodeV × Nat)) (ev : Dict (Val ⊕ Nat))
    {f : MNet → MEvidence → HM Nat} {g : BN → Dict Evidence → Except PyErr Factor} {k : Factor → Bool}
    (H : ∀ n bn d d', NetAt s.mem.heap n bn → DictRel (EvAt s.mem.heap) d d' →
      Yields s.mem.heap k (f n d s.mem.heap) (g bn d')) :
    Yields s.mem.heap k ((do
      let n ← HM.lift (refNet s.mem net)
      let d ← HM.lift (refEvidence s.mem ev)
      f n d : HM Nat) s.mem.heap) (do
      let bn ← netOf t.read.arrs net
      let d ← evidenceOf t.read.arrs ev
      g bn d) := by
  have h1 := ref_net I net
  have h2 := ref_evidence I ev
  cases hb : netOf t.read.arrs net with
  | error e =>
    rw [hb] at h1
    rw [(h1 : _ = Except.error e)]
    exact ⟨_, rfl, Ext.refl _⟩
  | ok bn =>
    rw [hb] at h1
    obtain ⟨n, hn, ha⟩ := h1
    rw [hn, HM.lift_ok_bind, ok_bind]
    cases hd : evidenceOf t.read.arrs ev with
    | error e =>
      rw [hd] at h2
      rw [(h2 : _ = Except.error e)]
      exact ⟨_, rfl, Ext.refl _⟩
    | ok d' =>
      rw [hd] at h2
      obtain ⟨d, hd', hr⟩ := h2
      rw [hd', HM.lift_ok_bind, ok_bind]
      exact H n bn d d' ha hr

/-! ## trees -/

theorem agree_tree (I : Inv β s t) (i : Nat) {f : HTree → QState × Option PyErr}
    {g : JTree → CState × Option PyErr}
    (H : ∀ T u, TreeAt (foot β s.mem.heap s.mem.facs) s.mem.heap T u → Agree (f T) (g u)) :
    Agree (s.withVar (var s.trees i) f) (t.withVar (var t.trees i) g) := by
  unfold var
  cases hi : s.trees[i]? with
  | none =>
    rw [forall₂_get_none I.trees hi]
    exact ⟨⟨β, I⟩, rfl⟩
  | some T =>
    obtain ⟨u, hu, hT⟩ := forall₂_get I.trees hi
    rw [hu]
    exact H T u hT

theorem forall₂_put {α β : Type} {R : α → β → Prop} {l : List α} {l' : List β}
    (h : List.Forall₂ R l l') (i : Nat) {x : α} {y : β} (hr : R x y) :
    List.Forall₂ R (l.set i x) (l'.set i y) := by
  induction h generalizing i with
  | nil => exact .nil
  | cons h1 h2 ih =>
    cases i with
    | zero => exact .cons hr h2
    | succ i => exact .cons h1 (ih i)

theorem agree_onTree (I : Inv β s t) (i : Nat) {r : HRes} {q : JRes}
    (y : TRun (foot β s.mem.heap s.mem.facs) s.mem.heap r q) :
    Agree (s.onTree i r) (t.setTree i q) := by
  refine ⟨⟨β, ?_⟩, y.exc⟩
  have J := I.ext y.ext
  refine J.setTrees (forall₂_put J.trees i ?_)
  change TreeAt (foot β r.1 s.mem.facs) r.1 r.2.1 q.1
  rw [I.foot_eq y.ext]
  exact y.tree

theorem agree_pushTree (I : Inv β s t) {r : Heap × Except PyErr HTree} {x : Except PyErr JTree}
    (y : Run s.mem.heap (TreeAt (foot β s.mem.heap s.mem.facs)) r x) :
    Agree (s.pushTree r) (t.withVar x fun u => ({ t with trees := t.trees ++ [u] }, none)) := by
  cases x with
  | error e =>
    obtain ⟨h, hr, he⟩ := y
    rw [hr]
    exact ⟨⟨β, I.ext he⟩, rfl⟩
  | ok u =>
    obtain ⟨h, T, hr, he, hT⟩ := y
    rw [hr]
    have J := I.ext he
    refine ⟨⟨β, J.setTrees (List.rel_append J.trees (.cons ?_ .nil))⟩, rfl⟩
    change TreeAt (foot β h s.mem.facs) h T u
    rw [I.foot_eq he]
    exact hT

theorem agree_marginals (I : Inv β s t) (so : SetOrder) (vars : List Name) (i : Nat)
    {r : Heap × HTree × Except PyErr Nat} {q : JTree × Except PyErr Factor}
    (y : MRun (foot β s.mem.heap s.mem.facs) so vars s.mem.heap r q) :
    Agree ({ s with trees := s.trees.set i r.2.1 }.onMem (s.mem.push fun _ => (r.1, r.2.2)))
      ({ t with trees := t.trees.set i q.1 }.push (answerIsNum so vars q.1) q.2) := by
  obtain ⟨h1, e1, x1, y1⟩ := y.mid
  have J := I.ext e1
  have K : Inv β ⟨{ s.mem with heap := h1 }, s.trees.set i r.2.1⟩ { t with trees := t.trees.set i q.1 } := by
    refine J.setTrees (forall₂_put J.trees i ?_)
    change TreeAt (foot β h1 s.mem.facs) h1 r.2.1 q.1
    rw [I.foot_eq e1]
    exact x1
  exact agree_push K (m := fun _ => (r.1, r.2.2)) y1

/-! ## programs -/

theorem agree_step (I : Inv β s t) (c : Stmt) : Agree (s.step c) (t.step c) := by
  cases c with
  | factor c => exact agree_factor I c
  | copyArr k =>
    change Agree (s.onMem (s.mem.pushArr (HM.lift (var s.mem.arrs k) >>= Heap.npCopy)))
      (t.pushArr (var t.read.arrs k))
    refine agree_pushArr I ?_
    unfold var
    cases hk : s.mem.arrs[k]? with
    | none =>
      rw [forall₂_get_none I.pots hk]
      exact ⟨_, rfl, Ext.refl _⟩
    | some p =>
      obtain ⟨a, ha, hp⟩ := forall₂_get I.pots hk
      rw [ha]
      exact run_npCopy hp.pot
  | naive so net vars ev =>
    exact agree_push I (yields_net I net ev fun n bn d d' hn hd => yields_naive so hn hd vars)
  | bucket so net vars ev order =>
    exact agree_push I (yields_net I net ev fun n bn d d' hn hd => yields_bucket so hn hd vars order)
  | tree so net order =>
    exact agree_net I net fun n bn hn => agree_pushTree I (run_create so I.below hn order)
  | reset so i net =>
    exact agree_net I net fun n bn hn => agree_tree I i fun T u x =>
      agree_onTree I i (run_reset so I.below hn x)
  | calculate so limit i =>
    exact agree_tree I i fun T u x => agree_onTree I i (run_calculate so limit I.below x)
  | setEvidence so limit i net ev soft =>
    exact agree_net I net fun n bn hn => agree_evidence I ev fun m d hd => agree_tree I i fun T u x =>
      agree_onTree I i (run_setEvidence so limit I.below hn hd soft x)
  | marginals so limit i vars =>
    exact agree_tree I i fun T u x => agree_marginals I so vars i (run_treeMarginals so limit vars I.below x)

theorem agree_run : ∀ (cs : List Stmt) {s : QState} {t : CState}, (∃ β, Inv β s t) →
    (∃ β, Inv β (s.run cs).1 (t.run cs).1) ∧ (s.run cs).2 = (t.run cs).2
  | [], _, _, I => ⟨I, rfl⟩
  | c :: cs, s, t, ⟨β, I⟩ => by
    obtain ⟨J, he⟩ := agree_step I c
    obtain ⟨K, hr⟩ := agree_run cs J
    refine ⟨K, ?_⟩
    change (s.step c).2 :: ((s.step c).1.run cs).2 = (t.step c).2 :: ((t.step c).1.run cs).2
    rw [he, hr]

theorem inv_start (arrays : List NDArray) : ∃ β, Inv β (QState.start arrays) (CState.start arrays) := by
  refine ⟨arrays.mapIdx fun b a => ⟨b, a.shape, cStrides a.shape⟩, ?_, ?_, .nil, ?_, .nil, .nil⟩
  · rw [List.forall₂_iff_get]
    refine ⟨by simp [CState.start], fun b h1 h2 => ?_⟩
    have h2' : b < arrays.length := h2
    have hg : (arrays.mapIdx fun b a => (⟨b, a.shape, cStrides a.shape⟩ : View)).get ⟨b, h1⟩ =
        ⟨b, arrays[b].shape, cStrides arrays[b].shape⟩ := by simp
    rw [hg]
    refine ⟨?_, rfl, rfl, ?_⟩
    · simpa [QState.start, HState.start] using h2'
    · refine buf_of_some ?_
      change (arrays.map NDArray.data)[b]? = _
      rw [List.getElem?_map, List.getElem?_eq_getElem h2']
      rfl
  · rw [List.pairwise_iff_getElem]
    intro i j hi hj hij
    rw [List.getElem_mapIdx, List.getElem_mapIdx]
    exact ne_of_lt hij
  · rw [List.forall₂_iff_get]
    refine ⟨by simp [CState.start, QState.start, HState.start], fun b h1 h2 => ?_⟩
    have h3 : b < arrays.length := by simpa [CState.start] using h2
    have e1 : (QState.start arrays).mem.arrs.get ⟨b, h1⟩ =
        .arr ⟨b, arrays[b].shape, cStrides arrays[b].shape⟩ := by
      simp [QState.start, HState.start]
    have e2 : (CState.start arrays).arrs.get ⟨b, h2⟩ = .cell b := by
      simp [CState.start]
    rw [e1, e2]
    change (arrays.mapIdx fun b a => (⟨b, a.shape, cStrides a.shape⟩ : View))[b]? = _
    rw [List.getElem?_mapIdx, List.getElem?_eq_getElem h3]
    rfl

/-! ## what a single call does -/

theorem forall₂_inj {α β : Type} {R : α → β → Prop} {f : α → β} (hR : ∀ a b, R a b → f a = b)
    {l : List α} {l' : List β} (h : List.Forall₂ R l l') : l.map f = l' := by
  induction h with
  | nil => rfl
  | cons h1 _ ih => rw [List.map_cons, ih, hR _ _ h1]

theorem Inv.same (I : Inv β s t) {h : Heap} (e : Ext s.mem.heap h) :
    (⟨{ s.mem with heap := h }, s.trees⟩ : QState).contents = s.contents :=
  (I.ext e).contents.trans I.contents.symm

theorem push_contents (I : Inv β s t) {m : HM Nat} {k : Factor → Bool} {x : Except PyErr Factor}
    (y : Yields s.mem.heap k (m s.mem.heap) x) :
    ((s.onMem (s.mem.push m)).1.contents, (s.onMem (s.mem.push m)).2) = s.contents.answer x := by
  unfold QState.onMem HState.push
  cases x with
  | error e =>
    obtain ⟨h, hr, he⟩ := y
    rw [hr]
    exact Prod.ext (I.same he) rfl
  | ok F =>
    obtain ⟨h, f, hr, hf⟩ := y
    rw [hr]
    refine Prod.ext ?_ rfl
    have hs := I.same hf.ext
    change (⟨(s.mem.facs ++ [f]).map h.factor, s.mem.arrs.map h.pot, s.trees.map fun T => T.read h⟩ : Contents) =
      { s.contents with facs := s.contents.facs ++ [F] }
    rw [← hs, List.map_append, List.map_cons, hf.holds.factor]
    rfl

theorem onTree_contents (I : Inv β s t) (i : Nat) {r : HRes} {q : JRes}
    (y : TRun (foot β s.mem.heap s.mem.facs) s.mem.heap r q) :
    ((s.onTree i r).1.contents, (s.onTree i r).2) = s.contents.setTree i q := by
  refine Prod.ext ?_ y.exc
  have hs := I.same y.ext
  change (⟨s.mem.facs.map r.1.factor, s.mem.arrs.map r.1.pot, (s.trees.set i r.2.1).map fun T => T.read r.1⟩ : Contents) =
    { s.contents with trees := s.contents.trees.set i q.1 }
  rw [← hs, List.map_set, y.tree.read]
  rfl

theorem pushTree_contents (I : Inv β s t) {r : Heap × Except PyErr HTree} {x : Except PyErr JTree}
    (y : Run s.mem.heap (TreeAt (foot β s.mem.heap s.mem.facs)) r x) :
    ((s.pushTree r).1.contents, (s.pushTree r).2) = s.contents.withVar x fun u =>
      ({ s.contents with trees := s.contents.trees ++ [u] }, none) := by
  cases x with
  | error e =>
    obtain ⟨h, hr, he⟩ := y
    rw [hr]
    exact Prod.ext (I.same he) rfl
  | ok u =>
    obtain ⟨h, T, hr, he, hT⟩ := y
    rw [hr]
    refine Prod.ext ?_ rfl
    have hs := I.same he
    change (⟨s.mem.facs.map h.factor, s.mem.arrs.map h.pot, (s.trees ++ [T]).map fun T => T.read h⟩ : Contents) =
      { s.contents with trees := s.contents.trees ++ [u] }
    rw [← hs, List.map_append, List.map_cons, hT.read]
    rfl

theorem marginals_contents (I : Inv β s t) (so : SetOrder) (vars : List Name) (i : Nat)
    {r : Heap × HTree × Except PyErr Nat} {q : JTree × Except PyErr Factor}
    (y : MRun (foot β s.mem.heap s.mem.facs) so vars s.mem.heap r q) :
    (({ s with trees := s.trees.set i r.2.1 }.onMem (s.mem.push fun _ => (r.1, r.2.2))).1.contents,
      ({ s with trees := s.trees.set i r.2.1 }.onMem (s.mem.push fun _ => (r.1, r.2.2))).2) =
      { s.contents with trees := s.contents.trees.set i q.1 }.answer q.2 := by
  obtain ⟨h1, e1, x1, y1⟩ := y.mid
  have J := I.ext e1
  have x2 : TreeAt (foot β h1 s.mem.facs) h1 r.2.1 q.1 := by
    rw [I.foot_eq e1]
    exact x1
  have K : Inv β ⟨{ s.mem with heap := h1 }, s.trees.set i r.2.1⟩ { t with trees := t.trees.set i q.1 } :=
    J.setTrees (forall₂_put J.trees i x2)
  have h := push_contents K (m := fun _ => (r.1, r.2.2)) y1
  have hc : (⟨{ s.mem with heap := h1 }, s.trees.set i r.2.1⟩ : QState).contents =
      { s.contents with trees := s.contents.trees.set i q.1 } := by
    have hs := I.same e1
    change (⟨s.mem.facs.map h1.factor, s.mem.arrs.map h1.pot,
      (s.trees.set i r.2.1).map fun T => T.read h1⟩ : Contents) = _
    rw [← hs, List.map_set, x1.read]
    rfl
  rw [hc] at h
  exact h

theorem net_contents (I : Inv β s t) (net : List (NodeV × Nat)) {f : MNet → QState × Option PyErr}
    {g : BN → Contents × Option PyErr}
    (H : ∀ n bn, NetAt s.mem.heap n bn → ((f n).1.contents, (f n).2) = g bn) :
    ((s.withVar (refNet s.mem net) f).1.contents, (s.withVar (refNet s.mem net) f).2) =
      s.contents.withVar (netOf s.contents.arrs net) g := by
  have := ref_net I net
  rw [I.contents]
  change _ = t.contents.withVar (netOf t.read.arrs net) g
  cases hb : netOf t.read.arrs net with
  | error e =>
    rw [hb] at this
    rw [(this : _ = Except.error e), ← I.contents]
    rfl
  | ok bn =>
    rw [hb] at this
    obtain ⟨n, hn, ha⟩ := this
    rw [hn]
    exact H n bn ha

theorem evidence_contents (I : Inv β s t) (ev : Dict (Val ⊕ Nat)) {f : MEvidence → QState × Option PyErr}
    {g : Dict Evidence → Contents × Option PyErr}
    (H : ∀ n d, DictRel (EvAt s.mem.heap) n d → ((f n).1.contents, (f n).2) = g d) :
    ((s.withVar (refEvidence s.mem ev) f).1.contents, (s.withVar (refEvidence s.mem ev) f).2) =
      s.contents.withVar (evidenceOf s.contents.arrs ev) g := by
  have := ref_evidence I ev
  rw [I.contents]
  change _ = t.contents.withVar (evidenceOf t.read.arrs ev) g
  cases hb : evidenceOf t.read.arrs ev with
  | error e =>
    rw [hb] at this
    rw [(this : _ = Except.error e), ← I.contents]
    rfl
  | ok bn =>
    rw [hb] at this
    obtain ⟨n, hn, ha⟩ := this
    rw [hn]
    exact H n bn ha

theorem tree_contents (I : Inv β s t) (i : Nat) {f : HTree → QState × Option PyErr}
    {g : JTree → Contents × Option PyErr}
    (H : ∀ T u, TreeAt (foot β s.mem.heap s.mem.facs) s.mem.heap T u → ((f T).1.contents, (f T).2) = g u) :
    ((s.withVar (var s.trees i) f).1.contents, (s.withVar (var s.trees i) f).2) =
      s.contents.withVar (var s.contents.trees i) g := by
  rw [I.contents]
  change _ = t.contents.withVar (var t.trees i) g
  unfold var
  cases hi : s.trees[i]? with
  | none =>
    rw [forall₂_get_none I.trees hi, ← I.contents]
    rfl
  | some T =>
    obtain ⟨u, hu, hT⟩ := forall₂_get I.trees hi
    rw [hu]
    exact H T u hT

theorem ask_step (I : Inv β s t) (c : Stmt) {r} (hr : s.contents.ask c = some r) : s.after c = r := by
  have harr : t.read.arrs = s.contents.arrs := by rw [I.contents]; rfl
  cases c with
  | factor c => cases hr
  | copyArr k => cases hr
  | naive so net vars ev =>
    have := push_contents I (yields_net I net ev fun n bn d d' hn hd => yields_naive so hn hd vars)
    rw [harr] at this
    exact this.trans (Option.some.inj hr)
  | bucket so net vars ev order =>
    have := push_contents I (yields_net I net ev fun n bn d d' hn hd => yields_bucket so hn hd vars order)
    rw [harr] at this
    exact this.trans (Option.some.inj hr)
  | tree so net order =>
    exact (net_contents I net fun n bn hn => pushTree_contents I (run_create so I.below hn order)).trans
      (Option.some.inj hr)
  | reset so i net =>
    exact (net_contents I net fun n bn hn => tree_contents I i fun T u x =>
      onTree_contents I i (run_reset so I.below hn x)).trans (Option.some.inj hr)
  | calculate so limit i =>
    exact (tree_contents I i fun T u x =>
      onTree_contents I i (run_calculate so limit I.below x)).trans (Option.some.inj hr)
  | setEvidence so limit i net ev soft =>
    exact (net_contents I net fun n bn hn => evidence_contents I ev fun m d hd =>
      tree_contents I i fun T u x =>
        onTree_contents I i (run_setEvidence so limit I.below hn hd soft x)).trans (Option.some.inj hr)
  | marginals so limit i vars =>
    exact (tree_contents I i fun T u x =>
      marginals_contents I so vars i (run_treeMarginals so limit vars I.below x)).trans (Option.some.inj hr)

/-! ## what stays -/

theorem push_trees (t : CState) (k : Factor → Bool) (x : Except PyErr Factor) :
    (t.push k x).1.trees = t.trees := by
  cases x with
  | error e => rfl
  | ok F =>
    unfold CState.push
    dsimp only
    split <;> rfl

theorem pushArr_trees (t : CState) (x : Except PyErr NDArray) : (t.pushArr x).1.trees = t.trees := by
  cases x <;> rfl

theorem withVar_ind {α : Type} {P : CState → Prop} (t : CState) (x : Except PyErr α)
    {f : α → CState × Option PyErr} (h0 : P t) (h : ∀ a, x = .ok a → P (f a).1) : P (t.withVar x f).1 := by
  cases x with
  | error e => exact h0
  | ok a => exact h a rfl

theorem assignTo_trees (t : CState) (idx : List Nat) (x : ℚ) (tab : Tab) :
    (t.assignTo idx x tab).1.trees = t.trees := by
  cases tab with
  | num _ => rfl
  | cell c =>
    unfold CState.assignTo
    dsimp only
    split <;> rfl

theorem stepFactor_trees (t : CState) (c : Cmd) : (t.stepFactor c).1.trees = t.trees := by
  cases c with
  | normalize i =>
    refine withVar_ind (P := fun u => u.trees = t.trees) t _ rfl fun F _ => ?_
    unfold CState.setTable
    dsimp only
    split <;> rfl
  | getPotential i vars =>
    refine withVar_ind (P := fun u => u.trees = t.trees) t _ rfl fun F _ => ?_
    split
    · exact withVar_ind (P := fun u => u.trees = t.trees) t _ rfl fun _ _ => rfl
    · exact pushArr_trees _ _
  | write k idx x => exact withVar_ind (P := fun u => u.trees = t.trees) t _ rfl fun _ _ => assignTo_trees _ _ _ _
  | poke i idx x => exact withVar_ind (P := fun u => u.trees = t.trees) t _ rfl fun _ _ => assignTo_trees _ _ _ _
  | relabel i v labels => exact withVar_ind (P := fun u => u.trees = t.trees) t _ rfl fun _ _ => rfl
  | reorder i order =>
    exact withVar_ind (P := fun u => u.trees = t.trees) t _ rfl fun _ _ =>
      withVar_ind (P := fun u => u.trees = t.trees) t _ rfl fun _ _ => rfl
  | _ => exact push_trees _ _ _

/-- the state grew -/
structure Grown (t u : CState) : Prop where
  cells : t.cells <+: u.cells
  facs : t.facs <+: u.facs
  arrs : t.arrs <+: u.arrs

theorem Grown.refl (t : CState) : Grown t t := ⟨List.prefix_rfl, List.prefix_rfl, List.prefix_rfl⟩

theorem Grown.trans {t u v : CState} (a : Grown t u) (b : Grown u v) : Grown t v :=
  ⟨a.cells.trans b.cells, a.facs.trans b.facs, a.arrs.trans b.arrs⟩

theorem grown_push (t : CState) (k : Factor → Bool) (x : Except PyErr Factor) :
    Grown t (t.push k x).1 := by
  cases x with
  | error e => exact Grown.refl t
  | ok F =>
    unfold CState.push
    dsimp only
    split
    · exact ⟨List.prefix_rfl, List.prefix_append _ _, List.prefix_rfl⟩
    · exact ⟨List.prefix_append _ _, List.prefix_append _ _, List.prefix_rfl⟩

theorem grown_pushArr (t : CState) (x : Except PyErr NDArray) : Grown t (t.pushArr x).1 := by
  cases x with
  | error e => exact Grown.refl t
  | ok F => exact ⟨List.prefix_append _ _, List.prefix_rfl, List.prefix_append _ _⟩

theorem grown_step (t : CState) (c : Stmt) (hc : c.Alters = false) : Grown t (t.step c).1 := by
  have W : ∀ {α : Type} (x : Except PyErr α) {f : α → CState × Option PyErr},
      (∀ a, Grown t (f a).1) → Grown t (t.withVar x f).1 := fun x f h =>
    withVar_ind t x (Grown.refl t) fun a _ => h a
  cases c with
  | factor c =>
    cases c with
    | getPotential i vars =>
      refine W _ fun F => ?_
      split
      · exact W _ fun _ => ⟨List.prefix_rfl, List.prefix_rfl, List.prefix_append _ _⟩
      · exact grown_pushArr _ _
    | normalize i => cases hc
    | write k idx x => cases hc
    | poke i idx x => cases hc
    | relabel i v labels => cases hc
    | reorder i order => cases hc
    | _ => exact grown_push _ _ _
  | copyArr k => exact grown_pushArr _ _
  | naive so net vars ev => exact grown_push _ _ _
  | bucket so net vars ev order => exact grown_push _ _ _
  | tree so net order => exact W _ fun _ => W _ fun _ => ⟨List.prefix_rfl, List.prefix_rfl, List.prefix_rfl⟩
  | reset so i net => exact W _ fun _ => W _ fun _ => ⟨List.prefix_rfl, List.prefix_rfl, List.prefix_rfl⟩
  | calculate so limit i => exact W _ fun _ => ⟨List.prefix_rfl, List.prefix_rfl, List.prefix_rfl⟩
  | setEvidence so limit i net ev soft =>
    exact W _ fun _ => W _ fun _ => W _ fun _ => ⟨List.prefix_rfl, List.prefix_rfl, List.prefix_rfl⟩
  | marginals so limit i vars =>
    refine W _ fun u => ?_
    have h0 : Grown t { t with trees := t.trees.set i (u.marginals so limit vars).1 } :=
      ⟨List.prefix_rfl, List.prefix_rfl, List.prefix_rfl⟩
    exact h0.trans (grown_push _ _ _)

theorem grown_run (cs : List Stmt) (hc : ∀ c ∈ cs, c.Alters = false) (t : CState) :
    Grown t (t.run cs).1 := by
  induction cs generalizing t with
  | nil => exact Grown.refl t
  | cons c cs ih =>
    exact (grown_step t c (hc c (by simp))).trans (ih (fun d hd => hc d (List.mem_cons_of_mem _ hd)) _)

theorem tableOf_prefix {cells cells' : List NDArray} (h : cells <+: cells') {tab : Tab}
    (hl : ∀ c, tab = .cell c → c < cells.length) : tableOf cells' tab = tableOf cells tab := by
  cases tab with
  | num x => rfl
  | cell c =>
    have := hl c rfl
    have hg : cells[c]? = some cells[c] := List.getElem?_eq_getElem this
    rw [tableOf, tableOf, List.getD_eq_getElem?_getD, List.getD_eq_getElem?_getD, prefix_some h hg, hg]

theorem TabIs.lt {h : Heap} {cells : List NDArray} (hc : List.Forall₂ h.Contig β cells) {p tab}
    (x : TabIs β p tab) : ∀ c, tab = .cell c → c < cells.length := by
  rintro c rfl
  cases p with
  | num _ => exact absurd x id
  | arr v =>
    rw [← hc.length_eq]
    exact (List.getElem?_eq_some_iff.1 (x : β[c]? = some v)).1

theorem forall₂_mem_right {α β : Type} {R : α → β → Prop} {l : List α} {l' : List β}
    (h : List.Forall₂ R l l') {y : β} (hy : y ∈ l') : ∃ x, R x y := by
  induction h with
  | nil => cases hy
  | cons h1 _ ih =>
    rcases List.mem_cons.1 hy with rfl | hy
    · exact ⟨_, h1⟩
    · exact ih hy

theorem Inv.grown (I : Inv β s t) {u : CState} (g : Grown t u) :
    t.contents.facs <+: u.contents.facs ∧ t.contents.arrs <+: u.contents.arrs := by
  constructor
  · change t.facs.map t.value <+: u.facs.map u.value
    have : t.facs.map t.value = t.facs.map u.value := by
      refine List.map_congr_left fun F hF => ?_
      obtain ⟨f, x⟩ := forall₂_mem_right I.facs hF
      obtain ⟨p, -, hp⟩ := x.obj
      unfold CState.value
      rw [tableOf_prefix g.cells (hp.lt I.cells)]
    rw [this]
    exact g.facs.map _
  · change t.arrs.map (tableOf t.cells) <+: u.arrs.map (tableOf u.cells)
    have : t.arrs.map (tableOf t.cells) = t.arrs.map (tableOf u.cells) := by
      refine List.map_congr_left fun F hF => ?_
      obtain ⟨p, hp⟩ := forall₂_mem_right I.arrs hF
      rw [tableOf_prefix g.cells (hp.lt I.cells)]
    rw [this]
    exact g.arrs.map _

theorem var_prefix {α : Type} {l l' : List α} (h : l <+: l') {k : Nat} {a : α} (hv : var l k = .ok a) :
    var l' k = .ok a := by
  unfold var at hv ⊢
  cases hk : l[k]? with
  | none => rw [hk] at hv; cases hv
  | some b =>
    rw [hk] at hv
    rw [prefix_some h hk]
    exact hv

theorem mapM_ok_imp {α β : Type} {f g : α → Except PyErr β} (H : ∀ a b, f a = .ok b → g a = .ok b) :
    ∀ {l : List α} {bs : List β}, l.mapM f = .ok bs → l.mapM g = .ok bs
  | [], bs, h => h
  | a :: l, bs, h => by
    rw [List.mapM_cons, bind_eq_ok] at h
    obtain ⟨b, h1, h⟩ := h
    rw [bind_eq_ok] at h
    obtain ⟨bs', h2, h⟩ := h
    rw [List.mapM_cons, H _ _ h1, ok_bind, mapM_ok_imp H h2, ok_bind]
    exact h

theorem netOf_prefix {l l' : List NDArray} (h : l <+: l') {net bn} (hn : netOf l net = .ok bn) :
    netOf l' net = .ok bn := by
  refine mapM_ok_imp (fun p n hp => ?_) hn
  rw [bind_eq_ok] at hp
  obtain ⟨a, h1, hp⟩ := hp
  rw [var_prefix h h1]
  exact hp

theorem evidenceOf_prefix {l l' : List NDArray} (h : l <+: l') {ev d} (hn : evidenceOf l ev = .ok d) :
    evidenceOf l' ev = .ok d := by
  refine mapM_ok_imp (fun p n hp => ?_) hn
  obtain ⟨v, e⟩ := p
  cases e with
  | inl x => exact hp
  | inr k =>
    dsimp only at hp ⊢
    rw [bind_eq_ok] at hp
    obtain ⟨a, h1, hp⟩ := hp
    rw [var_prefix h h1]
    exact hp

end Primo.Query
