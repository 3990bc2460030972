import Verif.Lemmas.HeapMake

/-! # `__mul__(self, other, useOther=True)` on the memory -/

namespace Primo.Heap

/-- everything is new compared with the empty memory -/
theorem Obj.own {h : Heap} {f p O D} (o : h.Obj f p O D) : Own {} h f p O D := by
  obtain ⟨l, d, hf, hl, hd⟩ := o
  exact ⟨⟨List.nil_prefix, List.nil_prefix, List.nil_prefix, List.nil_prefix⟩, Nat.zero_le _, l, d, hf,
    Nat.zero_le _, hl, Nat.zero_le _, hd⟩

/-- the objects `f` and `g` are different and have different lists -/
def Differ (h : Heap) (f g : Nat) : Prop := f ≠ g ∧ (h.fac f).order ≠ (h.fac g).order

theorem fac_ne {h : Heap} {f g : Nat} (hne : f ≠ g) (x : FacObj) :
    ({ h with facs := h.facs.set f x } : Heap).fac g = h.fac g := by
  unfold Heap.fac
  rw [List.getD_eq_getElem?_getD, List.getElem?_set_ne hne, List.getD_eq_getElem?_getD]

theorem obj_setPot {h h' : Heap} {f g : Nat} {q : Pot} (hr : setPot f q h = (h', .ok ()))
    (hne : f ≠ g) {p O D} (o : h.Obj g p O D) : h'.Obj g p O D := by
  obtain rfl : _ = h' := congrArg Prod.fst hr
  obtain ⟨l, d, hf, hl, hd⟩ := o
  refine ⟨l, d, ?_, hl, hd⟩
  change (h.facs.set f _)[g]? = _
  rw [List.getElem?_set_ne hne, hf]

theorem obj_extend {h h' : Heap} {f g : Nat} {vs : List Name}
    (hr : extendOrder f vs h = (h', .ok ())) (hne : Differ h f g) {p O D} (o : h.Obj g p O D) :
    h'.Obj g p O D := by
  obtain rfl : _ = h' := congrArg Prod.fst hr
  obtain ⟨l, d, hf, hl, hd⟩ := o
  refine ⟨l, d, hf, ?_, hd⟩
  have := hne.2
  rw [fac_of_some hf] at this
  change (h.lists.set _ _)[l]? = _
  rw [List.getElem?_set_ne this, hl]

theorem differ_setPot {h h' : Heap} {f g : Nat} {q : Pot} (hr : setPot f q h = (h', .ok ()))
    (hf : f < h.facs.length) (hne : Differ h f g) : Differ h' f g := by
  obtain rfl : _ = h' := congrArg Prod.fst hr
  refine ⟨hne.1, ?_⟩
  change (({ h with facs := h.facs.set f _ } : Heap).fac f).order ≠
    (({ h with facs := h.facs.set f _ } : Heap).fac g).order
  rw [fac_ne hne.1, fac_of_some (List.getElem?_set_self hf)]
  exact hne.2

theorem obj_lt {h : Heap} {f p O D} (o : h.Obj f p O D) : f < h.facs.length := by
  obtain ⟨l, d, hf, -⟩ := o
  exact (List.getElem?_eq_some_iff.1 hf).1

/-- `other` is given the missing axes itself -/
theorem pad_other (so : SetOrder) {h : Heap} {res other : Nat} {R O : List Name} {D D'}
    {p q : Pot} {a : NDArray} (hr : h.Obj res q R D') (o : h.Obj other p O D)
    (hne : Differ h other res) (hp : h.PotReads p a) (hn0 : O.length ≠ 0)
    (hnd : a.shape.length = O.length) :
    ∃ rp h' p', Factor.padAxes a O.length (so.diff R O).length = .ok rp ∧
      padOther so res other h = (h', .ok ()) ∧ h'.Obj other p' (O ++ so.diff R O) D ∧
      h'.PotReads p' rp ∧ h'.Obj res q R D' ∧ h'.bufs = h.bufs ∧ Differ h' other res := by
  have hrun : padOther so res other h =
      ((if so.diff R O = [] then pure ()
        else do
          let p ← npNewaxes p O.length (so.diff R O).length
          setPot other p
          extendOrder other (so.diff R O) : HM Unit)) h := by
    rw [padOther, HM.read_bind, HM.read_bind, hr.order, o.order]
    split
    · rfl
    · rw [HM.read_bind, o.pot]
  by_cases he : so.diff R O = []
  · have h0 : (so.diff R O).length = 0 := by rw [he]; rfl
    refine ⟨a, h, p, by rw [Factor.padAxes, if_pos h0], ?_, ?_, hp, hr, rfl, hne⟩
    · rw [hrun, if_pos he]; rfl
    · rw [he, List.append_nil]; exact o
  · have h0 : (so.diff R O).length ≠ 0 := fun e => he (List.length_eq_zero_iff.1 e)
    obtain ⟨p', a', r1, hn, hr'⟩ := run_npNewaxes hp hn0 hnd (so.diff R O).length
    obtain ⟨h1, r2, o1, b1⟩ := own_setPot o.own p'
    obtain ⟨h2, r3, o2, b2⟩ := own_extendOrder o1 (so.diff R O)
    have d1 := differ_setPot r2 (obj_lt o) hne
    refine ⟨a', h2, p', by rw [Factor.padAxes, if_neg h0]; exact hn, ?_, o2.obj,
      hr'.congr (b2.trans b1), obj_extend r3 d1 (obj_setPot r2 hne.1 hr), b2.trans b1, ?_⟩
    · rw [hrun, if_neg he, HM.bind_ok r1, HM.bind_ok r2, r3]
    · obtain rfl : _ = h2 := congrArg Prod.fst r3
      exact d1

/-- what `self.__mul__(other, useOther=True)` does: the result is the product, and the object `other`
now has the axes of the product, the variables it lacked, and no labels for them -/
theorem run_useOther (op : ℚ → ℚ → ℚ) (so : SetOrder) {h : Heap} {self other : Nat} {S O P : Factor}
    (hs : h.Holds self S) (ho : h.Holds other O) (h0 : S.variableOrder.length ≠ 0)
    (h1' : O.variableOrder.length ≠ 0) (hP : S.binop op so O = .ok P) :
    ∃ h' f, binop op so true self other h = (h', .ok f) ∧ h'.factor f = P ∧
      h'.order other = O.variableOrder ++ so.diff P.variableOrder O.variableOrder ∧
      h'.values other = O.values ∧
      P.variableOrder = S.variableOrder ++ so.diff O.variableOrder S.variableOrder := by
  obtain ⟨ps, os, as⟩ := hs.ex
  obtain ⟨po, oo, ao⟩ := ho.ex
  rw [binop, HM.read_bind, HM.read_bind, hs.order, ho.order, if_neg h0, if_neg h1']
  rw [Factor.binop, if_neg h0, if_neg h1'] at hP
  obtain ⟨h1, res, q1, r1, o1⟩ := run_newLike os
  rw [HM.bind_ok r1]
  obtain ⟨rp, hrp, hrl, hps⟩ := run_padSelf so hs ho h0 o1
  dsimp only at hP
  rw [hrp, ok_bind] at hP
  change ((so.diff O.variableOrder S.variableOrder).foldlM (labelStep O.values) S.values
    >>= _) = _ at hP
  cases hf : (so.diff O.variableOrder S.variableOrder).foldlM (labelStep O.values) S.values with
  | error e => rw [hf] at hP; cases hP
  | ok D =>
    rw [hf] at hps hP
    obtain ⟨h2, p2, r2, o2, rd2⟩ := hps
    rw [HM.bind_ok r2]
    rw [ok_bind] at hP
    have oo2 := oo.mono o2.ext
    have hdiff : Differ h2 other res := by
      obtain ⟨l, d, hl1, hl2, -, -, -⟩ := o2.ex
      obtain ⟨l', d', g1, g2, -⟩ := oo
      refine ⟨?_, ?_⟩
      · have := o2.le
        have := (List.getElem?_eq_some_iff.1 g1).1
        omega
      · rw [fac_of_some hl1, fac_of_some (prefix_some o2.ext.facs g1)]
        have := (List.getElem?_eq_some_iff.1 g2).1
        dsimp only
        omega
    obtain ⟨fp, h4, p4, hfp, r4, oo4, rd4, or4, b4, d4⟩ :=
      pad_other so o2.obj oo2 hdiff (ao.mono o2.ext).reads h1' ho.ndim
    change ∃ h' f, ((padOther so res other >>= fun _ => align res other >>= fun _ =>
      opInto op res res other >>= fun _ => pure res : HM Nat)) h2 = _ ∧ _
    rw [HM.bind_ok r4]
    rw [hfp, ok_bind] at hP
    cases hm : (S.variableOrder ++ so.diff O.variableOrder S.variableOrder).mapM
        (fun v => pyIndex (O.variableOrder ++ so.diff (S.variableOrder ++
          so.diff O.variableOrder S.variableOrder) O.variableOrder) v) with
    | error e => rw [hm] at hP; cases hP
    | ok swap =>
      rw [hm, ok_bind] at hP
      have rt := run_npTranspose rd4 swap
      cases ht : fp.transpose swap with
      | error e => rw [ht] at hP; cases hP
      | ok fa =>
        rw [ht] at rt hP
        rw [ok_bind] at hP
        obtain ⟨p5, rt, rd5⟩ := rt
        obtain ⟨h5, r5, o5, b5⟩ := own_setPot oo4.own p5
        have ral : align res other h4 = (h5, .ok ()) := by
          rw [align, HM.read_bind, HM.read_bind, or4.order, oo4.order, hm, HM.lift_ok_bind,
            HM.read_bind, oo4.pot, HM.bind_ok rt, r5]
        rw [HM.bind_ok ral]
        have or5 := obj_setPot r5 d4.1 or4
        cases hx : NDArray.bop op rp fa with
        | error e => rw [hx] at hP; cases hP
        | ok c =>
          rw [hx] at hP
          cases hP
          obtain ⟨h6, p6, r6, e6, n6, -⟩ := run_npOp (rd2.congr (b5.trans b4)).pot (rd5.congr b5).pot hx
          obtain ⟨h7, r7, o7, b7⟩ := own_setPot (or5.mono e6).own p6
          have rop : opInto op res res other h5 = (h7, .ok ()) := by
            rw [opInto, HM.read_bind, HM.read_bind, or5.pot, o5.obj.pot, HM.bind_ok r6, r7]
          have oo7 := obj_setPot r7 d4.1.symm (o5.obj.mono e6)
          refine ⟨h7, res, by rw [HM.bind_ok rop]; rfl, ?_, oo7.order, oo7.values, rfl⟩
          rw [o7.obj.factor, (n6.congr b7).at_.pot]

end Primo.Heap
