import Verif.Lemmas.HeapOps

/-! # `__mul__`, `__add__`, `invert`, `__truediv__` and `marginalize` on the memory -/

namespace Primo

namespace NDArray

theorem bshapeRev_length : ∀ {s t r : List Nat}, bshapeRev s t = some r →
    r.length = max s.length t.length
  | [], t, r, h => by
    simp only [bshapeRev, Option.some.injEq] at h
    simp [← h]
  | a :: s, [], r, h => by
    simp only [bshapeRev, Option.some.injEq] at h
    simp [← h]
  | a :: s, b :: t, r, h => by
    simp only [bshapeRev] at h
    cases hr : bshapeRev s t with
    | none => rw [hr] at h; cases h
    | some q =>
      rw [hr] at h
      have ih := bshapeRev_length hr
      dsimp only at h
      split at h
      · cases h; simp [ih]
      · split at h
        · cases h; simp [ih]
        · split at h
          · cases h; simp [ih]
          · cases h

theorem bop_shape_length {op : ℚ → ℚ → ℚ} {a b r : NDArray} (h : bop op a b = .ok r) :
    r.shape.length = max a.shape.length b.shape.length := by
  unfold bop at h
  cases hs : bshape a.shape b.shape with
  | none => rw [hs] at h; cases h
  | some s =>
    rw [hs] at h
    cases h
    unfold bshape at hs
    obtain ⟨q, hq, rfl⟩ := Option.map_eq_some_iff.1 hs
    have := bshapeRev_length hq
    simpa using this

theorem newaxes_shape_length {a r : NDArray} {n k : Nat} (h : a.newaxes n k = .ok r) :
    r.shape.length = a.shape.length + k := by
  unfold newaxes at h
  split at h
  · cases h
  · rename_i hn
    cases h
    simp only [ndim, Nat.not_lt] at hn
    simp
    omega

theorem transpose_shape_length {a r : NDArray} {perm : List Nat} (h : a.transpose perm = .ok r) :
    r.shape.length = perm.length := by
  unfold transpose at h
  split at h
  · cases h; simp
  · cases h

theorem sumAxis_shape_length {a r : NDArray} {ax : Nat} (h : a.sumAxis ax = .ok r) :
    r.shape.length = a.shape.length - 1 := by
  unfold sumAxis at h
  split at h
  · rename_i hlt
    cases h
    simp [List.length_eraseIdx, show ax < a.shape.length from hlt]
  · cases h

end NDArray

namespace Heap

/-- a factor object made since `h`, with its own cells, holding the factor `F`; `b` tells whether its
potentials are a number and not an array -/
structure Fresh (h h' : Heap) (f : Nat) (F : Factor) (b : Bool) : Prop where
  own : ∃ p, Own h h' f p F.variableOrder F.values ∧ PotNew h h' p F.potentials ∧ p.isNum = b
  ndim : F.potentials.shape.length = F.variableOrder.length

theorem Fresh.ext {h h' : Heap} {f F b} (q : Fresh h h' f F b) : Ext h h' := by
  obtain ⟨p, o, -⟩ := q.own
  exact o.ext

theorem Fresh.holds {h h' : Heap} {f F b} (q : Fresh h h' f F b) : h'.Holds f F := by
  obtain ⟨p, o, hp, -⟩ := q.own
  exact ⟨⟨p, o.obj, hp.at_⟩, q.ndim⟩

theorem Fresh.base {h₀ h h' : Heap} (e : Ext h₀ h) {f F b} (q : Fresh h h' f F b) :
    Fresh h₀ h' f F b := by
  obtain ⟨p, o, hp, hb⟩ := q.own
  exact ⟨⟨p, o.base e, hp.base e, hb⟩, q.ndim⟩

theorem Fresh.mono {h₀ h h' : Heap} (e : Ext h h') {f F b} (q : Fresh h₀ h f F b) :
    Fresh h₀ h' f F b := by
  obtain ⟨p, o, hp, hb⟩ := q.own
  exact ⟨⟨p, o.mono e, hp.mono e, hb⟩, q.ndim⟩

/-- the program, run in memory `h`, makes a new factor object holding the result of the value
computation, or raises the same exception; in both cases all cells of `h` are unchanged.  `k` tells
which results are numbers. -/
def Yields (h : Heap) (k : Factor → Bool) (r : Heap × Except PyErr Nat) (x : Except PyErr Factor) :
    Prop :=
  match x with
  | .ok F => ∃ h' f, r = (h', .ok f) ∧ Fresh h h' f F (k F)
  | .error e => ∃ h', r = (h', .error e) ∧ Ext h h'

/-- results of arithmetic without axes are numbers -/
def numIfBare (F : Factor) : Bool := decide (F.potentials.shape = [])

/-- arrays, also those without axes -/
def neverNum (_ : Factor) : Bool := false

/-- `x.potentials = y.potentials op z.potentials` for an object `x` of our own -/
theorem run_opInto {op : ℚ → ℚ → ℚ} {h₀ h : Heap} {x y z : Nat} {p q r : Pot} {O D a b}
    (o : Own h₀ h x p O D) (hy : (h.fac y).pot = q) (hq : h.pot q = a)
    (hz : (h.fac z).pot = r) (hr : h.pot r = b) :
    match NDArray.bop op a b with
    | .ok c => ∃ h' p', opInto op x y z h = (h', .ok ()) ∧ Own h₀ h' x p' O D ∧ PotNew h₀ h' p' c ∧
        p'.isNum = decide (c.shape = [])
    | .error e => opInto op x y z h = (h, .error e) := by
  cases hb : NDArray.bop op a b with
  | error e =>
    change opInto op x y z h = (h, .error e)
    rw [opInto, HM.read_bind, HM.read_bind, hy, hz, HM.bind_error (run_npOp_error hq hr hb)]
  | ok c =>
    obtain ⟨h1, p', r1, e1, n1, k1⟩ := run_npOp hq hr hb
    obtain ⟨h2, r2, o2, b2⟩ := own_setPot (o.mono e1) p'
    refine ⟨h2, p', ?_, o2, (n1.congr b2).base o.ext, k1⟩
    rw [opInto, HM.read_bind, HM.read_bind, hy, hz, HM.bind_ok r1, r2]

theorem run_padSelf (so : SetOrder) {h₀ h : Heap} {self other res : Nat} {S O : Factor}
    (hs : h₀.Holds self S) (ho : h₀.Holds other O) (hne : S.variableOrder.length ≠ 0) {p : Pot}
    (o : Own h₀ h res p S.variableOrder S.values) :
    let extra := so.diff O.variableOrder S.variableOrder
    ∃ rp, Factor.padAxes S.potentials S.variableOrder.length extra.length = .ok rp ∧
      rp.shape.length = S.variableOrder.length + extra.length ∧
      match extra.foldlM (labelStep O.values) S.values with
      | .ok D => ∃ h' p', padSelf so self other res h = (h', .ok ()) ∧
          Own h₀ h' res p' (S.variableOrder ++ extra) D ∧ h'.PotReads p' rp
      | .error e => ∃ h', padSelf so self other res h = (h', .error e) ∧ Ext h₀ h' := by
  intro extra
  have hs' := hs.mono o.ext
  have ho' := ho.mono o.ext
  have hrun : padSelf so self other res h =
      ((if extra = [] then do
          let p ← npAll (h.fac self).pot
          setPot res p
        else do
          let p ← npNewaxes (h.fac self).pot S.variableOrder.length extra.length
          setPot res p
          extendOrder res extra
          copyValues res other extra : HM Unit)) h := by
    rw [padSelf, HM.read_bind, HM.read_bind, HM.read_bind, hs'.order, ho'.order]
  have hreads := hs'.pot.reads
  by_cases he : extra = []
  · have h0 : extra.length = 0 := by rw [he]; rfl
    refine ⟨S.potentials, by rw [Factor.padAxes, if_pos h0], by rw [h0, hs.ndim]; rfl, ?_⟩
    obtain ⟨h1, r1, o1, b1⟩ := own_setPot o (h.fac self).pot
    rw [hrun, if_pos he, HM.bind_ok (run_npAll hreads (by rw [hs.ndim]; exact hne)), he]
    refine ⟨h1, _, r1, ?_, hreads.congr b1⟩
    rw [List.append_nil]
    exact o1
  · have h0 : extra.length ≠ 0 := fun e => he (List.length_eq_zero_iff.1 e)
    obtain ⟨p', a', r1, hn, hr'⟩ := run_npNewaxes hreads hne hs.ndim extra.length
    refine ⟨a', by rw [Factor.padAxes, if_neg h0]; exact hn, ?_, ?_⟩
    · rw [NDArray.newaxes_shape_length hn, hs.ndim]
    obtain ⟨h1, r2, o1, b1⟩ := own_setPot o p'
    obtain ⟨h2, r3, o2, b2⟩ := own_extendOrder o1 extra
    obtain ⟨q, hobj, -⟩ := ho.ex
    have hcv := run_copyValues hobj extra o2
    rw [hrun, if_neg he, HM.bind_ok r1, HM.bind_ok r2, HM.bind_ok r3]
    cases hf : extra.foldlM (labelStep O.values) S.values with
    | error e => rw [hf] at hcv; exact hcv
    | ok D =>
      rw [hf] at hcv
      obtain ⟨h3, r4, o3, b3⟩ := hcv
      exact ⟨h3, p', r4, o3, hr'.congr ((b3.trans b2).trans b1)⟩

theorem run_padOther (so : SetOrder) {h₀ h : Heap} {res f2 : Nat} {R O : List Name} {D}
    {p : Pot} {a : NDArray} (hr : h.order res = R) (o : Own h₀ h f2 p O D)
    (hp : h.PotReads p a) (hne : O.length ≠ 0) (hnd : a.shape.length = O.length) :
    let extra := so.diff R O
    ∃ rp h' p', Factor.padAxes a O.length extra.length = .ok rp ∧
      rp.shape.length = O.length + extra.length ∧
      padOther so res f2 h = (h', .ok ()) ∧ Own h₀ h' f2 p' (O ++ extra) D ∧ h'.PotReads p' rp := by
  intro extra
  have hrun : padOther so res f2 h =
      ((if extra = [] then pure ()
        else do
          let p ← npNewaxes p O.length extra.length
          setPot f2 p
          extendOrder f2 extra : HM Unit)) h := by
    rw [padOther, HM.read_bind, HM.read_bind, hr, o.obj.order]
    change (if extra = [] then (pure () : HM Unit) else _) h = _
    split
    · rfl
    · rw [HM.read_bind, o.obj.pot]
  by_cases he : extra = []
  · have h0 : extra.length = 0 := by rw [he]; rfl
    refine ⟨a, h, p, by rw [Factor.padAxes, if_pos h0], by rw [h0, hnd]; rfl, ?_, ?_, hp⟩
    · rw [hrun, if_pos he]; rfl
    · rw [he, List.append_nil]; exact o
  · have h0 : extra.length ≠ 0 := fun e => he (List.length_eq_zero_iff.1 e)
    obtain ⟨p', a', r1, hn, hr'⟩ := run_npNewaxes hp hne hnd extra.length
    obtain ⟨h1, r2, o1, b1⟩ := own_setPot o p'
    obtain ⟨h2, r3, o2, b2⟩ := own_extendOrder o1 extra
    refine ⟨a', h2, p', by rw [Factor.padAxes, if_neg h0]; exact hn, ?_, ?_, o2,
      hr'.congr (b2.trans b1)⟩
    · rw [NDArray.newaxes_shape_length hn, hnd]
    · rw [hrun, if_neg he, HM.bind_ok r1, HM.bind_ok r2, r3]

theorem run_align {h₀ h : Heap} {res f2 : Nat} {R O : List Name} {D} {p : Pot} {a : NDArray}
    (hr : h.order res = R) (o : Own h₀ h f2 p O D) (hp : h.PotReads p a) :
    match (R.mapM fun v => pyIndex O v) >>= fun swap => a.transpose swap with
    | .ok a' => ∃ h' p', align res f2 h = (h', .ok ()) ∧ Own h₀ h' f2 p' O D ∧ h'.PotReads p' a' ∧
        a'.shape.length = R.length
    | .error e => ∃ h', align res f2 h = (h', .error e) ∧ Ext h₀ h' := by
  have hrun : align res f2 h = ((HM.lift (R.mapM fun v => pyIndex O v) >>= fun swap =>
      npTranspose p swap >>= fun p => setPot f2 p : HM Unit)) h := by
    rw [align, HM.read_bind, HM.read_bind, hr, o.obj.order]
    cases hm : R.mapM (fun v => pyIndex O v) with
    | error e => rfl
    | ok swap => rw [HM.lift_ok_bind, HM.lift_ok_bind, HM.read_bind, o.obj.pot]
  rw [hrun]
  cases hm : R.mapM (fun v => pyIndex O v) with
  | error e => exact ⟨h, rfl, o.ext⟩
  | ok swap =>
    rw [ok_bind, HM.lift_ok_bind]
    have ht := run_npTranspose hp swap
    cases ha : a.transpose swap with
    | error e =>
      rw [ha] at ht
      exact ⟨h, by rw [HM.bind_error ht], o.ext⟩
    | ok a' =>
      rw [ha] at ht
      obtain ⟨p', r1, hr1⟩ := ht
      obtain ⟨h1, r2, o1, b1⟩ := own_setPot o p'
      refine ⟨h1, p', by rw [HM.bind_ok r1, r2], o1, hr1.congr b1, ?_⟩
      rw [NDArray.transpose_shape_length ha, (mapM_eq_ok.1 hm).length_eq]

/-- `self * other` and `self + other` -/
theorem yields_binop (op : ℚ → ℚ → ℚ) (so : SetOrder) {h : Heap} {self other : Nat} {S O : Factor}
    (hs : h.Holds self S) (ho : h.Holds other O) :
    Yields h numIfBare (binop op so false self other h) (S.binop op so O) := by
  obtain ⟨ps, os, as⟩ := hs.ex
  obtain ⟨po, oo, ao⟩ := ho.ex
  rw [binop, HM.read_bind, HM.read_bind, hs.order, ho.order, Factor.binop]
  by_cases h0 : S.variableOrder.length = 0
  · rw [if_pos h0, if_pos h0]
    obtain ⟨h1, g, v, r1, o1, c1, le1⟩ := run_copy oo ao
    have hb := run_opInto (op := op) o1 (y := self) (z := g) (os.mono o1.ext).pot
      (as.mono o1.ext).pot o1.obj.pot c1.view
    change Yields h numIfBare ((copy other >>= fun res => opInto op res self res >>= fun _ => pure res : HM Nat) h) _
    rw [HM.bind_ok r1]
    cases hx : NDArray.bop op S.potentials O.potentials with
    | error e =>
      rw [hx] at hb
      exact ⟨h1, HM.bind_error hb, o1.ext⟩
    | ok c =>
      rw [hx] at hb
      obtain ⟨h2, p', r2, o2, n2, k2⟩ := hb
      refine ⟨h2, g, by rw [HM.bind_ok r2]; rfl, ⟨p', o2, n2, k2⟩, ?_⟩
      change c.shape.length = O.variableOrder.length
      rw [NDArray.bop_shape_length hx, hs.ndim, ho.ndim, h0]
      simp
  · rw [if_neg h0, if_neg h0]
    by_cases h1' : O.variableOrder.length = 0
    · rw [if_pos h1', if_pos h1']
      obtain ⟨h1, g, v, r1, o1, c1, le1⟩ := run_copy os as
      have hb := run_opInto (op := op) o1 (y := g) (z := other) o1.obj.pot c1.view
        (oo.mono o1.ext).pot (ao.mono o1.ext).pot
      rw [HM.bind_ok r1]
      cases hx : NDArray.bop op S.potentials O.potentials with
      | error e =>
        rw [hx] at hb
        exact ⟨h1, HM.bind_error hb, o1.ext⟩
      | ok c =>
        rw [hx] at hb
        obtain ⟨h2, p', r2, o2, n2, k2⟩ := hb
        refine ⟨h2, g, by rw [HM.bind_ok r2]; rfl, ⟨p', o2, n2, k2⟩, ?_⟩
        change c.shape.length = S.variableOrder.length
        rw [NDArray.bop_shape_length hx, hs.ndim, ho.ndim, h1']
        simp
    · rw [if_neg h1', if_neg h1']
      obtain ⟨h1, res, q1, r1, o1⟩ := run_newLike os
      rw [HM.bind_ok r1]
      obtain ⟨rp, hrp, hrl, hps⟩ := run_padSelf so hs ho h0 o1
      dsimp only
      rw [hrp, ok_bind]
      change Yields h numIfBare _ ((so.diff O.variableOrder S.variableOrder).foldlM (labelStep O.values) S.values
        >>= _)
      cases hf : (so.diff O.variableOrder S.variableOrder).foldlM (labelStep O.values) S.values with
      | error e =>
        rw [hf] at hps
        obtain ⟨h', r2, e2⟩ := hps
        exact ⟨h', HM.bind_error r2, e2⟩
      | ok D =>
        rw [hf] at hps
        obtain ⟨h2, p2, r2, o2, rd2⟩ := hps
        rw [HM.bind_ok r2, ok_bind]
        obtain ⟨h3, f2, v3, r3, o3, c3, le3⟩ := run_copy (oo.mono o2.ext) (ao.mono o2.ext)
        change Yields h numIfBare ((copy other >>= _ : HM Nat) h2) _
        rw [HM.bind_ok r3]
        obtain ⟨fp, h4, p4, hfp, hfl, r4, o4, rd4⟩ := run_padOther so (o2.mono o3.ext).obj.order o3 c3.ok_reads h1' ho.ndim
        rw [HM.bind_ok r4, hfp, ok_bind]
        have hal := run_align (o2.mono o4.ext).obj.order o4 rd4
        cases hm : (S.variableOrder ++ so.diff O.variableOrder S.variableOrder).mapM
            (fun v => pyIndex (O.variableOrder ++ so.diff (S.variableOrder ++
              so.diff O.variableOrder S.variableOrder) O.variableOrder) v) with
        | error e =>
          rw [hm] at hal
          obtain ⟨h5, r5, e5⟩ := hal
          exact ⟨h5, HM.bind_error r5, o2.ext.trans e5⟩
        | ok swap =>
          rw [hm, ok_bind] at hal
          rw [ok_bind]
          cases ht : fp.transpose swap with
          | error e =>
            rw [ht] at hal
            obtain ⟨h5, r5, e5⟩ := hal
            exact ⟨h5, HM.bind_error r5, o2.ext.trans e5⟩
          | ok fa =>
            rw [ht] at hal
            obtain ⟨h5, p5, r5, o5, rd5, hl5⟩ := hal
            rw [HM.bind_ok r5, ok_bind]
            have o2' := o2.mono o5.ext
            have hb := run_opInto (op := op) o2' (y := res) (z := f2) o2'.obj.pot
              (rd2.mono o5.ext).pot o5.obj.pot rd5.pot
            cases hx : NDArray.bop op rp fa with
            | error e =>
              rw [hx] at hb
              exact ⟨h5, HM.bind_error hb, o2'.ext⟩
            | ok c =>
              rw [hx] at hb
              obtain ⟨h6, p6, r6, o6, n6, k6⟩ := hb
              refine ⟨h6, res, by rw [HM.bind_ok r6]; rfl, ⟨p6, o6, n6, k6⟩, ?_⟩
              change c.shape.length = (S.variableOrder ++ so.diff O.variableOrder S.variableOrder).length
              rw [NDArray.bop_shape_length hx, hrl, hl5, List.length_append, max_self]

end Heap
end Primo
