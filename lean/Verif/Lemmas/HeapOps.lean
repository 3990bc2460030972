import Verif.Lemmas.Heap

/-! # The methods of `Factor` on the memory: results, and what they leave alone -/

namespace Primo

namespace HM
variable {α β : Type}

theorem bind_ok {m : HM α} {f : α → HM β} {h h' : Heap} {a : α} (hm : m h = (h', .ok a)) :
    (m >>= f) h = f a h' := by
  change (match m h with | (h', .ok a) => f a h' | (h', .error e) => (h', .error e)) = _
  rw [hm]

theorem bind_error {m : HM α} {f : α → HM β} {h h' : Heap} {e : PyErr} (hm : m h = (h', .error e)) :
    (m >>= f) h = (h', .error e) := by
  change (match m h with | (h', .ok a) => f a h' | (h', .error e) => (h', .error e)) = _
  rw [hm]

theorem read_bind (g : Heap → α) (f : α → HM β) (h : Heap) : (HM.read g >>= f) h = f (g h) h := rfl
theorem pure_bind' (a : α) (f : α → HM β) (h : Heap) : ((pure a : HM α) >>= f) h = f a h := rfl
theorem lift_ok_bind (a : α) (f : α → HM β) (h : Heap) : (HM.lift (.ok a) >>= f) h = f a h := rfl
theorem lift_error_bind (e : PyErr) (f : α → HM β) (h : Heap) :
    ((HM.lift (.error e) : HM α) >>= f) h = (h, .error e) := rfl
theorem pure_run (a : α) (h : Heap) : (pure a : HM α) h = (h, .ok a) := rfl

end HM

namespace Heap

/-! ## extension -/

/-- every cell of `h` is still there, unchanged -/
structure Ext (h h' : Heap) : Prop where
  bufs : h.bufs <+: h'.bufs
  lists : h.lists <+: h'.lists
  dicts : h.dicts <+: h'.dicts
  facs : h.facs <+: h'.facs

theorem Ext.refl (h : Heap) : Ext h h := ⟨List.prefix_rfl, List.prefix_rfl, List.prefix_rfl, List.prefix_rfl⟩

theorem Ext.trans {h₁ h₂ h₃ : Heap} (a : Ext h₁ h₂) (b : Ext h₂ h₃) : Ext h₁ h₃ :=
  ⟨a.1.trans b.1, a.2.trans b.2, a.3.trans b.3, a.4.trans b.4⟩

theorem prefix_some {α : Type} {l l' : List α} (h : l <+: l') {i : Nat} {x : α}
    (hx : l[i]? = some x) : l'[i]? = some x := by
  obtain ⟨t, rfl⟩ := h
  rw [List.getElem?_append_left (List.getElem?_eq_some_iff.1 hx).1, hx]

theorem prefix_set {α : Type} {l l' : List α} (h : l <+: l') {i : Nat} (hi : l.length ≤ i) (x : α) :
    l <+: l'.set i x := by
  obtain ⟨t, rfl⟩ := h
  rw [List.set_append_right _ _ hi]
  exact ⟨_, rfl⟩

theorem prefix_append {α : Type} {l l' : List α} (h : l <+: l') (t : List α) : l <+: l' ++ t :=
  h.trans ⟨t, rfl⟩

theorem buf_of_some {h : Heap} {b : Nat} {x : List ℚ} (hb : h.bufs[b]? = some x) : h.buf b = x := by
  rw [buf, List.getD_eq_getElem?_getD, hb]; rfl

theorem some_of_lt {h : Heap} {b : Nat} (hb : b < h.bufs.length) : h.bufs[b]? = some (h.buf b) := by
  rw [buf, List.getD_eq_getElem?_getD, List.getElem?_eq_getElem hb]; rfl

theorem Ext.buf {h h' : Heap} (e : Ext h h') {b : Nat} (hb : b < h.bufs.length) :
    h'.buf b = h.buf b := buf_of_some (prefix_some e.bufs (some_of_lt hb))

theorem Ext.contig {h h' : Heap} (e : Ext h h') {v : View} {a : NDArray} (c : h.Contig v a) :
    h'.Contig v a :=
  ⟨lt_of_lt_of_le c.lt e.bufs.length_le, c.strides, c.shape, (e.buf c.lt).trans c.data⟩

theorem view_congr {h h' : Heap} {v : View} (hb : h'.buf v.buf = h.buf v.buf) :
    h'.view v = h.view v := by
  unfold view
  rw [hb]

theorem Ext.view {h h' : Heap} (e : Ext h h') {v : View} (hv : v.buf < h.bufs.length) :
    h'.view v = h.view v := view_congr (e.buf hv)

/-! ## objects -/

/-- the number or array `p` is `a`, stored as numpy stores a new array -/
def PotAt (h : Heap) (p : Pot) (a : NDArray) : Prop :=
  match p with
  | .num x => a = NDArray.scalar x
  | .arr v => h.Contig v a

theorem PotAt.pot {h : Heap} {p : Pot} {a : NDArray} (hp : h.PotAt p a) : h.pot p = a := by
  cases p with
  | num x => exact Eq.symm hp
  | arr v => exact Contig.view hp

theorem PotAt.mono {h h' : Heap} (e : Ext h h') {p : Pot} {a : NDArray} (hp : h.PotAt p a) :
    h'.PotAt p a := by
  cases p with
  | num x => exact hp
  | arr v => exact e.contig hp

/-- the object `f` has the attributes `p`, a list with contents `O` and a dict with contents `D` -/
def Obj (h : Heap) (f : Nat) (p : Pot) (O : List Name) (D : Dict (List Val)) : Prop :=
  ∃ l d, h.facs[f]? = some ⟨p, l, d⟩ ∧ h.lists[l]? = some O ∧ h.dicts[d]? = some D

theorem fac_of_some {h : Heap} {f : Nat} {o : FacObj} (hf : h.facs[f]? = some o) : h.fac f = o := by
  rw [fac, List.getD_eq_getElem?_getD, hf]; rfl

theorem Obj.pot {h : Heap} {f p O D} (o : h.Obj f p O D) : (h.fac f).pot = p := by
  obtain ⟨l, d, hf, -, -⟩ := o
  rw [fac_of_some hf]

theorem Obj.order {h : Heap} {f p O D} (o : h.Obj f p O D) : h.order f = O := by
  obtain ⟨l, d, hf, hl, -⟩ := o
  rw [Heap.order, fac_of_some hf, List.getD_eq_getElem?_getD, hl]; rfl

theorem Obj.values {h : Heap} {f p O D} (o : h.Obj f p O D) : h.values f = D := by
  obtain ⟨l, d, hf, -, hd⟩ := o
  rw [Heap.values, fac_of_some hf, List.getD_eq_getElem?_getD, hd]; rfl

theorem Obj.factor {h : Heap} {f p O D} (o : h.Obj f p O D) : h.factor f = ⟨h.pot p, O, D⟩ := by
  rw [Heap.factor, o.pot, o.order, o.values]

theorem Obj.mono {h h' : Heap} (e : Ext h h') {f p O D} (o : h.Obj f p O D) : h'.Obj f p O D := by
  obtain ⟨l, d, hf, hl, hd⟩ := o
  exact ⟨l, d, prefix_some e.facs hf, prefix_some e.lists hl, prefix_some e.dicts hd⟩

/-- the object `f` is the factor `F`: the values of its attributes, a table with one axis per
variable -/
structure Holds (h : Heap) (f : Nat) (F : Factor) : Prop where
  ex : ∃ p, h.Obj f p F.variableOrder F.values ∧ h.PotAt p F.potentials
  ndim : F.potentials.shape.length = F.variableOrder.length

theorem Holds.factor {h : Heap} {f : Nat} {F : Factor} (hf : h.Holds f F) : h.factor f = F := by
  obtain ⟨p, ho, hp⟩ := hf.ex
  rw [ho.factor, hp.pot]

theorem Holds.mono {h h' : Heap} (e : Ext h h') {f : Nat} {F : Factor} (hf : h.Holds f F) :
    h'.Holds f F := by
  obtain ⟨p, ho, hp⟩ := hf.ex
  exact ⟨⟨p, ho.mono e, hp.mono e⟩, hf.ndim⟩

theorem Holds.order {h : Heap} {f : Nat} {F : Factor} (hf : h.Holds f F) :
    h.order f = F.variableOrder := by
  obtain ⟨p, ho, -⟩ := hf.ex
  exact ho.order

theorem Holds.values {h : Heap} {f : Nat} {F : Factor} (hf : h.Holds f F) :
    h.values f = F.values := by
  obtain ⟨p, ho, -⟩ := hf.ex
  exact ho.values

theorem Holds.pot {h : Heap} {f : Nat} {F : Factor} (hf : h.Holds f F) :
    h.PotAt (h.fac f).pot F.potentials := by
  obtain ⟨p, ho, hp⟩ := hf.ex
  rwa [ho.pot]

/-- an object made since `h₀`, with its own list and dict, all cells of `h₀` being unchanged -/
structure Own (h₀ h : Heap) (f : Nat) (p : Pot) (O : List Name) (D : Dict (List Val)) : Prop where
  ext : Ext h₀ h
  le : h₀.facs.length ≤ f
  ex : ∃ l d, h.facs[f]? = some ⟨p, l, d⟩ ∧ h₀.lists.length ≤ l ∧ h.lists[l]? = some O ∧
    h₀.dicts.length ≤ d ∧ h.dicts[d]? = some D

theorem Own.obj {h₀ h : Heap} {f p O D} (o : Own h₀ h f p O D) : h.Obj f p O D := by
  obtain ⟨l, d, hf, -, hl, -, hd⟩ := o.ex
  exact ⟨l, d, hf, hl, hd⟩

theorem Own.mono {h₀ h h' : Heap} (e : Ext h h') {f p O D} (o : Own h₀ h f p O D) :
    Own h₀ h' f p O D := by
  obtain ⟨l, d, hf, hle, hl, hde, hd⟩ := o.ex
  exact ⟨o.ext.trans e, o.le, l, d, prefix_some e.facs hf, hle, prefix_some e.lists hl, hde,
    prefix_some e.dicts hd⟩

theorem Own.base {h₀ h₁ h : Heap} (e : Ext h₀ h₁) {f p O D} (o : Own h₁ h f p O D) :
    Own h₀ h f p O D := by
  obtain ⟨l, d, hf, hle, hl, hde, hd⟩ := o.ex
  exact ⟨e.trans o.ext, e.facs.length_le.trans o.le, l, d, hf, e.lists.length_le.trans hle, hl,
    e.dicts.length_le.trans hde, hd⟩

/-! ### allocation -/

theorem run_newArr (a : NDArray) (h : Heap) : ∃ h' v, newArr a h = (h', .ok v) ∧ Ext h h' ∧
    h'.Contig v a ∧ h.bufs.length ≤ v.buf := by
  refine ⟨_, _, rfl, ⟨⟨_, rfl⟩, List.prefix_rfl, List.prefix_rfl, List.prefix_rfl⟩, ⟨by simp, rfl, rfl, ?_⟩, le_rfl⟩
  exact buf_of_some (by simp)

theorem run_newList (l : List Name) (h : Heap) : ∃ h' i, newList l h = (h', .ok i) ∧ Ext h h' ∧
    h'.lists[i]? = some l ∧ h.lists.length ≤ i :=
  ⟨_, _, rfl, ⟨List.prefix_rfl, ⟨_, rfl⟩, List.prefix_rfl, List.prefix_rfl⟩, by simp, le_rfl⟩

theorem run_newDict (d : Dict (List Val)) (h : Heap) : ∃ h' i, newDict d h = (h', .ok i) ∧ Ext h h' ∧
    h'.dicts[i]? = some d ∧ h.dicts.length ≤ i :=
  ⟨_, _, rfl, ⟨List.prefix_rfl, List.prefix_rfl, ⟨_, rfl⟩, List.prefix_rfl⟩, by simp, le_rfl⟩

theorem run_newFac (h : Heap) : ∃ h' f v, newFac h = (h', .ok f) ∧ Own h h' f (.arr v) [] [] := by
  refine ⟨_, _, ⟨h.bufs.length, [0], cStrides [0]⟩, rfl,
    ⟨⟨⟨_, rfl⟩, ⟨_, rfl⟩, ⟨_, rfl⟩, ⟨_, rfl⟩⟩, le_rfl, ?_⟩⟩
  exact ⟨_, _, by simp, le_rfl, by simp, le_rfl, by simp⟩

theorem own_setPot {h₀ h : Heap} {f p O D} (o : Own h₀ h f p O D) (p' : Pot) :
    ∃ h', setPot f p' h = (h', .ok ()) ∧ Own h₀ h' f p' O D ∧ h'.bufs = h.bufs := by
  obtain ⟨l, d, hf, hle, hl, hde, hd⟩ := o.ex
  refine ⟨_, rfl, ⟨⟨o.ext.1, o.ext.2, o.ext.3, prefix_set o.ext.4 o.le _⟩, o.le, l, d, ?_, hle, hl,
    hde, hd⟩, rfl⟩
  rw [List.getElem?_set_self (List.getElem?_eq_some_iff.1 hf).1, fac_of_some hf]

theorem own_setOrder {h₀ h : Heap} {f p O D} (o : Own h₀ h f p O D) {i : Nat} {O' : List Name}
    (hi : h.lists[i]? = some O') (hle' : h₀.lists.length ≤ i) :
    ∃ h', setOrder f i h = (h', .ok ()) ∧ Own h₀ h' f p O' D ∧ h'.bufs = h.bufs := by
  obtain ⟨l, d, hf, hle, hl, hde, hd⟩ := o.ex
  refine ⟨_, rfl, ⟨⟨o.ext.1, o.ext.2, o.ext.3, prefix_set o.ext.4 o.le _⟩, o.le, i, d, ?_, hle', hi,
    hde, hd⟩, rfl⟩
  rw [List.getElem?_set_self (List.getElem?_eq_some_iff.1 hf).1, fac_of_some hf]

theorem own_setValues {h₀ h : Heap} {f p O D} (o : Own h₀ h f p O D) {i : Nat}
    {D' : Dict (List Val)} (hi : h.dicts[i]? = some D') (hle' : h₀.dicts.length ≤ i) :
    ∃ h', setValues f i h = (h', .ok ()) ∧ Own h₀ h' f p O D' ∧ h'.bufs = h.bufs := by
  obtain ⟨l, d, hf, hle, hl, hde, hd⟩ := o.ex
  refine ⟨_, rfl, ⟨⟨o.ext.1, o.ext.2, o.ext.3, prefix_set o.ext.4 o.le _⟩, o.le, l, i, ?_, hle, hl,
    hle', hi⟩, rfl⟩
  rw [List.getElem?_set_self (List.getElem?_eq_some_iff.1 hf).1, fac_of_some hf]

theorem own_writeList {h₀ h : Heap} {f p O D} (o : Own h₀ h f p O D) (O' : List Name) :
    Own h₀ { h with lists := h.lists.set (h.fac f).order O' } f p O' D := by
  obtain ⟨l, d, hf, hle, hl, hde, hd⟩ := o.ex
  rw [fac_of_some hf]
  refine ⟨⟨o.ext.1, prefix_set o.ext.2 hle _, o.ext.3, o.ext.4⟩, o.le, l, d, hf, hle, ?_, hde, hd⟩
  exact List.getElem?_set_self (List.getElem?_eq_some_iff.1 hl).1

theorem own_writeDict {h₀ h : Heap} {f p O D} (o : Own h₀ h f p O D) (D' : Dict (List Val)) :
    Own h₀ { h with dicts := h.dicts.set (h.fac f).values D' } f p O D' := by
  obtain ⟨l, d, hf, hle, hl, hde, hd⟩ := o.ex
  rw [fac_of_some hf]
  refine ⟨⟨o.ext.1, o.ext.2, prefix_set o.ext.3 hde _, o.ext.4⟩, o.le, l, d, hf, hle, hl, hde, ?_⟩
  exact List.getElem?_set_self (List.getElem?_eq_some_iff.1 hd).1

theorem own_extendOrder {h₀ h : Heap} {f p O D} (o : Own h₀ h f p O D) (vs : List Name) :
    ∃ h', extendOrder f vs h = (h', .ok ()) ∧ Own h₀ h' f p (O ++ vs) D ∧ h'.bufs = h.bufs := by
  refine ⟨_, rfl, ?_, rfl⟩
  rw [o.obj.order]
  exact own_writeList o _

theorem own_setValue {h₀ h : Heap} {f p O D} (o : Own h₀ h f p O D) (v : Name) (vs : List Val) :
    ∃ h', setValue f v vs h = (h', .ok ()) ∧ Own h₀ h' f p O (D.set v vs) ∧ h'.bufs = h.bufs := by
  refine ⟨_, rfl, ?_, rfl⟩
  rw [o.obj.values]
  exact own_writeDict o _

/-! ### numpy -/

/-- a number, or a new array stored in a buffer made since `h₀` -/
structure PotNew (h₀ h : Heap) (p : Pot) (a : NDArray) : Prop where
  at_ : h.PotAt p a
  le : ∀ v, p = .arr v → h₀.bufs.length ≤ v.buf

theorem PotNew.mono {h₀ h h' : Heap} (e : Ext h h') {p a} (q : PotNew h₀ h p a) : PotNew h₀ h' p a :=
  ⟨q.at_.mono e, q.le⟩

theorem PotNew.base {h₀ h₁ h : Heap} (e : Ext h₀ h₁) {p a} (q : PotNew h₁ h p a) : PotNew h₀ h p a :=
  ⟨q.at_, fun v hv => e.bufs.length_le.trans (q.le v hv)⟩

theorem PotAt.congr {h h' : Heap} (e : h'.bufs = h.bufs) {p a} (q : h.PotAt p a) : h'.PotAt p a := by
  cases p with
  | num x => exact q
  | arr v => exact ⟨e ▸ q.lt, q.strides, q.shape, by rw [Heap.buf, e]; exact q.data⟩

theorem PotNew.congr {h₀ h h' : Heap} (e : h'.bufs = h.bufs) {p a} (q : PotNew h₀ h p a) :
    PotNew h₀ h' p a := ⟨q.at_.congr e, q.le⟩

theorem pot_congr {h h' : Heap} (e : h'.bufs = h.bufs) (p : Pot) : h'.pot p = h.pot p := by
  cases p with
  | num x => rfl
  | arr v => exact view_congr (by rw [Heap.buf, e]; rfl)

theorem scalar_of_shape {a : NDArray} (h : a.shape = []) : a = NDArray.scalar (a.get []) :=
  NDArray.ext_get h fun idx hr => by
    rw [h] at hr
    cases hr
    rfl

theorem run_result (a : NDArray) (h : Heap) :
    ∃ h' p, result a h = (h', .ok p) ∧ Ext h h' ∧ PotNew h h' p a ∧
      p.isNum = decide (a.shape = []) := by
  unfold result
  split
  · rename_i hs
    exact ⟨h, _, rfl, Ext.refl h, ⟨scalar_of_shape hs, fun v hv => nomatch hv⟩, by simp [Pot.isNum, hs]⟩
  · rename_i hs
    obtain ⟨h', v, hr, he, hc, hle⟩ := run_newArr a h
    refine ⟨h', .arr v, ?_, he, ⟨hc, ?_⟩, by simp [Pot.isNum, hs]⟩
    · rw [HM.bind_ok hr]; rfl
    · intro w hw
      cases hw
      exact hle

theorem run_npCopy {p : Pot} {h : Heap} {a : NDArray} (hp : h.pot p = a) :
    ∃ h' v, npCopy p h = (h', .ok (.arr v)) ∧ Ext h h' ∧ h'.Contig v a ∧ h.bufs.length ≤ v.buf := by
  obtain ⟨h', v, hr, he, hc, hle⟩ := run_newArr a h
  refine ⟨h', v, ?_, he, hc, hle⟩
  rw [npCopy, HM.read_bind, hp, HM.bind_ok hr]
  rfl

theorem run_npOp {op : ℚ → ℚ → ℚ} {p q : Pot} {h : Heap} {a b r : NDArray} (hp : h.pot p = a)
    (hq : h.pot q = b) (hr : NDArray.bop op a b = .ok r) :
    ∃ h' p', npOp op p q h = (h', .ok p') ∧ Ext h h' ∧ PotNew h h' p' r ∧
      p'.isNum = decide (r.shape = []) := by
  rw [npOp, HM.read_bind, HM.read_bind, hp, hq, hr]
  exact run_result r h

theorem run_npOp_error {op : ℚ → ℚ → ℚ} {p q : Pot} {h : Heap} {a b : NDArray} {e : PyErr}
    (hp : h.pot p = a) (hq : h.pot q = b) (hr : NDArray.bop op a b = .error e) :
    npOp op p q h = (h, .error e) := by
  rw [npOp, HM.read_bind, HM.read_bind, hp, hq, hr]
  rfl

/-! ### copy and the pieces of `__mul__` -/

theorem run_copy {h : Heap} {f p O D a} (o : h.Obj f p O D) (hp : h.PotAt p a) :
    ∃ h' g v, copy f h = (h', .ok g) ∧ Own h h' g (.arr v) O D ∧ h'.Contig v a ∧
      h.bufs.length ≤ v.buf := by
  obtain ⟨h1, g, v1, r1, o1⟩ := run_newFac h
  obtain ⟨h2, v, r2, e2, c2, le2⟩ := run_npCopy (hp.mono o1.ext).pot
  obtain ⟨h3, r3, o3, b3⟩ := own_setPot (o1.mono e2) (.arr v)
  obtain ⟨h4, d, r4, e4, c4, le4⟩ := run_newDict D h3
  obtain ⟨h5, r5, o5, b5⟩ := own_setValues (o3.mono e4) c4 (o3.ext.dicts.length_le.trans le4)
  obtain ⟨h6, l, r6, e6, c6, le6⟩ := run_newList O h5
  obtain ⟨h7, r7, o7, b7⟩ := own_setOrder (o5.mono e6) c6 (o5.ext.lists.length_le.trans le6)
  refine ⟨h7, g, v, ?_, o7, ?_, o1.ext.bufs.length_le.trans le2⟩
  · rw [copy, HM.bind_ok r1, HM.read_bind, (o.mono o1.ext).pot, HM.bind_ok r2, HM.bind_ok r3,
      HM.read_bind, (o.mono o3.ext).values, HM.bind_ok r4, HM.bind_ok r5, HM.read_bind,
      (o.mono o5.ext).order, HM.bind_ok r6, HM.bind_ok r7]
    rfl
  · have c3 : h3.PotAt (.arr v) a := PotAt.congr b3 (p := .arr v) c2
    have c5 : h5.PotAt (.arr v) a := PotAt.congr b5 (c3.mono e4)
    exact PotAt.congr b7 (p := .arr v) (c5.mono e6)

theorem run_newLike {h : Heap} {f p O D} (o : h.Obj f p O D) :
    ∃ h' g q, newLike f h = (h', .ok g) ∧ Own h h' g q O D := by
  obtain ⟨h1, g, v1, r1, o1⟩ := run_newFac h
  obtain ⟨h2, l, r2, e2, c2, le2⟩ := run_newList O h1
  obtain ⟨h3, r3, o3, b3⟩ := own_setOrder (o1.mono e2) c2 (o1.ext.lists.length_le.trans le2)
  obtain ⟨h4, d, r4, e4, c4, le4⟩ := run_newDict D h3
  obtain ⟨h5, r5, o5, b5⟩ := own_setValues (o3.mono e4) c4 (o3.ext.dicts.length_le.trans le4)
  refine ⟨h5, g, _, ?_, o5⟩
  rw [newLike, HM.bind_ok r1, HM.read_bind, (o.mono o1.ext).order, HM.bind_ok r2, HM.bind_ok r3,
    HM.read_bind, (o.mono o3.ext).values, HM.bind_ok r4, HM.bind_ok r5]
  rfl

/-- one step of copying labels, as in the value model -/
def labelStep (src : Dict (List Val)) (d : Dict (List Val)) (v : Name) :
    Except PyErr (Dict (List Val)) := do
  let vs ← src.getE v
  return d.set v vs

theorem run_copyValues {h₀ : Heap} {other : Nat} {q O' src} (ho : h₀.Obj other q O' src) {res : Nat}
    {p : Pot} {O : List Name} : ∀ (vs : List Name) {h : Heap} {D : Dict (List Val)},
    Own h₀ h res p O D →
    match vs.foldlM (labelStep src) D with
    | .ok D' => ∃ h', copyValues res other vs h = (h', .ok ()) ∧ Own h₀ h' res p O D' ∧
        h'.bufs = h.bufs
    | .error e => ∃ h', copyValues res other vs h = (h', .error e) ∧ Ext h₀ h'
  | [], h, D, o => ⟨h, rfl, o, rfl⟩
  | v :: vs, h, D, o => by
    rw [List.foldlM_cons, labelStep]
    have hrun : copyValues res other (v :: vs) h =
        ((HM.lift (src.getE v) >>= fun labels => setValue res v labels >>= fun _ =>
          copyValues res other vs : HM Unit)) h := by
      rw [copyValues, HM.read_bind, (ho.mono o.ext).values]
    rw [hrun]
    cases hg : src.getE v with
    | error e => exact ⟨h, rfl, o.ext⟩
    | ok labels =>
      obtain ⟨h1, r1, o1, b1⟩ := own_setValue o v labels
      have ih := run_copyValues ho vs o1
      rw [HM.lift_ok_bind, HM.bind_ok r1]
      simp only [ok_bind, pure_eq_ok]
      cases hf : vs.foldlM (labelStep src) (D.set v labels) with
      | error e => rw [hf] at ih; exact ih
      | ok D' =>
        rw [hf] at ih
        obtain ⟨h', r, o', b⟩ := ih
        exact ⟨h', r, o', b.trans b1⟩

/-- the array `p` can be read, and is `a` -/
structure PotReads (h : Heap) (p : Pot) (a : NDArray) : Prop where
  pot : h.pot p = a
  ok : ∀ v, p = .arr v → h.ViewOk v

theorem PotReads.mono {h h' : Heap} (e : Ext h h') {p a} (r : h.PotReads p a) : h'.PotReads p a := by
  refine ⟨?_, fun v hv => ⟨lt_of_lt_of_le (r.ok v hv).lt e.bufs.length_le, (r.ok v hv).length⟩⟩
  rw [← r.pot]
  cases p with
  | num x => rfl
  | arr v => exact e.view (r.ok v rfl).lt

theorem PotReads.congr {h h' : Heap} (e : h'.bufs = h.bufs) {p a} (r : h.PotReads p a) :
    h'.PotReads p a :=
  ⟨(pot_congr e p).trans r.pot, fun v hv => ⟨e ▸ (r.ok v hv).lt, (r.ok v hv).length⟩⟩

theorem Contig.ok_reads {h : Heap} {v a} (c : h.Contig v a) : h.PotReads (.arr v) a :=
  ⟨c.view, fun w hw => by cases hw; exact c.ok⟩

theorem PotAt.reads {h : Heap} {p a} (q : h.PotAt p a) : h.PotReads p a :=
  ⟨q.pot, fun v hv => by subst hv; exact Contig.ok q⟩

theorem run_npNewaxes {h : Heap} {p : Pot} {a : NDArray} (hp : h.PotReads p a) {n : Nat}
    (hn : n ≠ 0) (hl : a.shape.length = n) (k : Nat) :
    ∃ p' a', npNewaxes p n k h = (h, .ok p') ∧ a.newaxes n k = .ok a' ∧ h.PotReads p' a' := by
  cases p with
  | num x =>
    rw [← hp.pot] at hl
    exact absurd hl.symm hn
  | arr v =>
    have hs : v.shape.length = n := by rw [← hl, ← hp.pot]; rfl
    have hv := hp.ok v rfl
    refine ⟨.arr ⟨v.buf, v.shape.take n ++ List.replicate k 1 ++ v.shape.drop n,
      v.strides.take n ++ List.replicate k 0 ++ v.strides.drop n⟩, _, ?_, ?_, ⟨rfl, ?_⟩⟩
    · rw [npNewaxes, if_neg (by omega)]
      rfl
    · rw [← hp.pot]
      exact view_newaxes h hv.length hs.ge k
    · intro w hw
      cases hw
      exact ⟨hv.lt, by simp [hv.length]⟩

theorem run_npAll {h : Heap} {p : Pot} {a : NDArray} (hp : h.PotReads p a) (hl : a.shape.length ≠ 0) :
    npAll p h = (h, .ok p) := by
  cases p with
  | num x =>
    rw [← hp.pot] at hl
    exact absurd rfl hl
  | arr v =>
    rw [npAll, if_neg]
    · rfl
    · intro hs
      rw [← hp.pot] at hl
      exact hl (by rw [Heap.pot, view_shape, hs]; rfl)

theorem run_npTranspose {h : Heap} {p : Pot} {a : NDArray} (hp : h.PotReads p a) (perm : List Nat) :
    match a.transpose perm with
    | .ok a' => ∃ p', npTranspose p perm h = (h, .ok p') ∧ h.PotReads p' a'
    | .error e => npTranspose p perm h = (h, .error e) := by
  cases p with
  | num x =>
    obtain rfl : NDArray.scalar x = a := hp.pot
    by_cases hp0 : perm = []
    · subst hp0
      exact ⟨.num x, rfl, rfl, fun v hv => nomatch hv⟩
    · rw [NDArray.transpose, if_neg]
      · change npTranspose (.num x) perm h = _
        rw [npTranspose, if_neg hp0]
        rfl
      · rintro ⟨-, h2, -⟩
        exact hp0 (List.length_eq_zero_iff.1 h2)
  | arr v =>
    have hv := hp.ok v rfl
    have ha : h.view v = a := hp.pot
    by_cases hc : perm.Nodup ∧ perm.length = v.shape.length ∧ ∀ x ∈ perm, x < v.shape.length
    · rw [← ha, view_transpose h hv.length hc]
      refine ⟨_, by rw [npTranspose, if_pos hc]; rfl, rfl, fun w hw => ?_⟩
      cases hw
      exact ⟨hv.lt, by simp⟩
    · have ht : (h.view v).transpose perm = .error .valueError := by
        unfold NDArray.transpose
        exact if_neg hc
      rw [← ha, ht]
      unfold npTranspose
      dsimp only
      rw [if_neg hc]
      rfl

end Heap
end Primo
