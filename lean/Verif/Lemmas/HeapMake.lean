import Verif.Lemmas.HeapMul
import Verif.Lemmas.FactorMisc

/-! # The other methods of `Factor` on the memory -/

namespace Primo

namespace NDArray

theorem ravel_getElem {s : List Nat} {i : Nat} (hi : i < (allIdx s).length) :
    ravel s (allIdx s)[i] = i := by
  have hm : InRange s (allIdx s)[i] := mem_allIdx.1 (List.getElem_mem hi)
  have h1 := allIdx_getElem? hm
  have hl2 : ravel s (allIdx s)[i] < (allIdx s).length := by
    rw [length_allIdx]; exact ravel_lt hm
  rw [List.getElem?_eq_getElem hl2, Option.some_inj] at h1
  exact (List.Nodup.getElem_inj_iff (nodup_allIdx s)).1 h1

theorem ravel_inj {s i j : List Nat} (hi : InRange s i) (hj : InRange s j)
    (h : ravel s i = ravel s j) : i = j := by
  have h1 := allIdx_getElem? hi
  have h2 := allIdx_getElem? hj
  rw [h, h2] at h1
  exact (Option.some.inj h1).symm

theorem data_modify {a : NDArray} {idx : List Nat} (hr : InRange a.shape idx) (g : ℚ → ℚ) :
    a.data.modify (ravel a.shape idx) g =
      (tabulate a.shape fun i => if i = idx then g (a.get i) else a.get i).data := by
  have hlen : (a.data.modify (ravel a.shape idx) g).length = a.shape.prod := by
    rw [List.length_modify, a.size_eq]
  have : (⟨a.shape, a.data.modify (ravel a.shape idx) g, hlen⟩ : NDArray) =
      tabulate a.shape fun i => if i = idx then g (a.get i) else a.get i := by
    refine ext_get rfl fun i hi => ?_
    rw [get_tabulate _ hi]
    have hlt : ravel a.shape i < a.data.length := by rw [a.size_eq]; exact ravel_lt hi
    have hget : a.data[ravel a.shape i]? = some (a.get i) := by
      rw [get, List.getD_eq_getElem?_getD, List.getElem?_eq_getElem hlt]; rfl
    change (a.data.modify (ravel a.shape idx) g).getD (ravel a.shape i) 0 = _
    rw [List.getD_eq_getElem?_getD, List.getElem?_modify, hget]
    by_cases he : i = idx
    · subst he; simp
    · have hne : ¬ ravel a.shape idx = ravel a.shape i := fun hh => he (ravel_inj hi hr hh.symm)
      simp [he, hne]
  exact congrArg NDArray.data this

end NDArray

namespace Heap

theorem Yields.base {h₀ h : Heap} (e : Ext h₀ h) {k r x} (y : Yields h k r x) : Yields h₀ k r x := by
  unfold Yields at y ⊢
  cases x with
  | error err =>
    obtain ⟨h', hr, he⟩ := y
    exact ⟨h', hr, e.trans he⟩
  | ok F =>
    obtain ⟨h', f, hr, hf⟩ := y
    exact ⟨h', f, hr, hf.base e⟩

theorem yields_copy {h : Heap} {f : Nat} {F : Factor} (hf : h.Holds f F) :
    Yields h neverNum (copy f h) (.ok F) := by
  obtain ⟨p, o, hp⟩ := hf.ex
  obtain ⟨h1, g, v, r1, o1, c1, le1⟩ := run_copy o hp
  exact ⟨h1, g, r1, ⟨.arr v, o1, ⟨c1, fun w hw => by cases hw; exact le1⟩, rfl⟩, hf.ndim⟩

/-- store a new array or number in an object of our own -/
theorem run_setResult {h₀ h : Heap} {f p O D} (o : Own h₀ h f p O D) (a : NDArray) :
    ∃ h' p', (result a >>= fun p => setPot f p >>= fun _ => pure f : HM Nat) h = (h', .ok f) ∧
      Own h₀ h' f p' O D ∧ PotNew h₀ h' p' a ∧ p'.isNum = decide (a.shape = []) := by
  obtain ⟨h1, p1, r1, e1, n1, k1⟩ := run_result a h
  obtain ⟨h2, r2, o2, b2⟩ := own_setPot (o.mono e1) p1
  refine ⟨h2, p1, ?_, o2, (n1.congr b2).base o.ext, k1⟩
  rw [HM.bind_ok r1, HM.bind_ok r2]
  rfl

theorem yields_invert {h : Heap} {f : Nat} {F : Factor} (hf : h.Holds f F) :
    Yields h numIfBare (invert f h) F.invert := by
  obtain ⟨p, o, hp⟩ := hf.ex
  obtain ⟨h1, g, v, r1, o1, c1, le1⟩ := run_copy o hp
  rw [invert, HM.bind_ok r1, HM.read_bind, HM.read_bind, HM.read_bind, o1.obj.order, o1.obj.pot]
  have hv : h1.pot (.arr v) = F.potentials := c1.view
  rw [hv, Factor.invert]
  by_cases h0 : F.variableOrder.length = 0
  · rw [if_pos h0, if_pos h0]
    by_cases hz : (0 : ℚ) ∈ F.potentials.data
    · rw [if_pos hz, if_pos hz]
      exact ⟨h1, rfl, o1.ext⟩
    · rw [if_neg hz, if_neg hz]
      obtain ⟨h2, p2, r2, o2, n2, k2⟩ := run_setResult o1 (F.potentials.map fun x => 1 / x)
      exact ⟨h2, g, r2, ⟨p2, o2, n2, k2⟩, hf.ndim⟩
  · rw [if_neg h0, if_neg h0]
    obtain ⟨h2, p2, r2, o2, n2, k2⟩ := run_setResult o1
      (F.potentials.map fun x => if x = 0 then 0 else 1 / x)
    exact ⟨h2, g, r2, ⟨p2, o2, n2, k2⟩, hf.ndim⟩

theorem yields_div (so : SetOrder) {h : Heap} {self other : Nat} {S O : Factor}
    (hs : h.Holds self S) (ho : h.Holds other O) :
    Yields h numIfBare (div so self other h) (S.div so O) := by
  rw [div, HM.read_bind, HM.read_bind, hs.values, ho.values, Factor.div]
  by_cases hc : ∀ v ∈ O.values.keys, v ∈ S.values.keys
  · rw [if_pos hc, if_pos hc]
    have hi := yields_invert ho
    cases hx : O.invert with
    | error e =>
      rw [hx] at hi
      obtain ⟨h1, r1, e1⟩ := hi
      exact ⟨h1, HM.bind_error r1, e1⟩
    | ok I =>
      rw [hx] at hi
      obtain ⟨h1, i, r1, f1⟩ := hi
      rw [HM.bind_ok r1]
      exact (yields_binop _ so (hs.mono f1.ext) f1.holds).base f1.ext
  · rw [if_neg hc, if_neg hc]
    exact ⟨h, rfl, Ext.refl h⟩

/-- `marginalize` copies if there is nothing to sum out -/
def numIfSummed (vars : List Name) (F : Factor) : Bool := !vars.isEmpty && numIfBare F

theorem run_sumOut {h₀ : Heap} {res : Nat} : ∀ (vars : List Name) {h : Heap} {p : Pot}
    {F : Factor}, Own h₀ h res p F.variableOrder F.values → PotNew h₀ h p F.potentials →
    F.potentials.shape.length = F.variableOrder.length →
    match vars.foldlM Factor.sumOut F with
    | .ok G => ∃ h' p', sumOut res vars h = (h', .ok ()) ∧
        Own h₀ h' res p' G.variableOrder G.values ∧ PotNew h₀ h' p' G.potentials ∧
        G.potentials.shape.length = G.variableOrder.length ∧
        p'.isNum = if vars = [] then p.isNum else numIfBare G
    | .error e => ∃ h', sumOut res vars h = (h', .error e) ∧ Ext h₀ h'
  | [], h, p, F, o, n, hnd => ⟨h, p, rfl, o, n, hnd, rfl⟩
  | v :: vars, h, p, F, o, n, hnd => by
    rw [List.foldlM_cons, sumOut, HM.read_bind, o.obj.order, Factor.sumOut]
    cases hi : pyIndex F.variableOrder v with
    | error e => exact ⟨h, rfl, o.ext⟩
    | ok ax =>
      rw [HM.lift_ok_bind, HM.read_bind, o.obj.pot, ok_bind]
      have hrun : npSum p ax h = (HM.lift (F.potentials.sumAxis ax) >>= result : HM Pot) h := by
        rw [npSum, HM.read_bind, n.at_.pot]
      cases hs : F.potentials.sumAxis ax with
      | error e =>
        refine ⟨h, ?_, o.ext⟩
        rw [HM.bind_error (h' := h) (e := e) (by rw [hrun, hs]; rfl)]
      | ok a =>
        rw [ok_bind]
        obtain ⟨h1, p1, r1, e1, n1, k1⟩ := run_result a h
        obtain ⟨h2, r2, o2, b2⟩ := own_setPot (o.mono e1) p1
        rw [HM.bind_ok (h' := h1) (a := p1) (by rw [hrun, hs]; exact r1), HM.bind_ok r2]
        cases hd : F.values.delE v with
        | error e =>
          refine ⟨h2, ?_, o2.ext⟩
          refine HM.bind_error ?_
          rw [delValue, o2.obj.values, hd]
        | ok D =>
          have r3 : delValue res v h2 =
              ({ h2 with dicts := h2.dicts.set (h2.fac res).values D }, .ok ()) := by
            rw [delValue, o2.obj.values, hd]
          have o3 := own_writeDict o2 D
          rw [HM.bind_ok r3, ok_bind]
          generalize hh3 : ({ h2 with dicts := h2.dicts.set (h2.fac res).values D } : Heap) = h3 at o3
          have b3 : h3.bufs = h2.bufs := by rw [← hh3]
          have hmem : v ∈ F.variableOrder := (pyIndex_eq_ok.1 hi).1
          have r4 : removeOrder res v h3 =
              ({ h3 with lists := h3.lists.set (h3.fac res).order (F.variableOrder.erase v) },
                .ok ()) := by
            rw [removeOrder, o3.obj.order, pyRemove, if_pos hmem]
          have o4 := own_writeList o3 (F.variableOrder.erase v)
          rw [HM.bind_ok r4]
          have hrec := run_sumOut vars (F := ⟨a, F.variableOrder.erase v, D⟩) o4 ?_ ?_
          · change match vars.foldlM Factor.sumOut ⟨a, F.variableOrder.erase v, D⟩ with
              | .ok _ => _
              | .error _ => _
            cases hg : vars.foldlM Factor.sumOut ⟨a, F.variableOrder.erase v, D⟩ with
            | error e => rw [hg] at hrec; exact hrec
            | ok G =>
              rw [hg] at hrec
              obtain ⟨h5, p5, r5, o5, n5, hnd5, k5⟩ := hrec
              refine ⟨h5, p5, r5, o5, n5, hnd5, ?_⟩
              rw [k5, if_neg (List.cons_ne_nil v vars)]
              split
              · rename_i hv
                subst hv
                cases hg
                exact k1
              · rfl
          · refine PotNew.base o.ext ?_
            refine PotNew.congr (h := h3) ?_ ((n1.congr b2).congr b3)
            rfl
          · change a.shape.length = (F.variableOrder.erase v).length
            rw [NDArray.sumAxis_shape_length hs, List.length_erase_of_mem hmem, hnd]

theorem yields_marginalize {h : Heap} {f : Nat} {F : Factor} (hf : h.Holds f F) (vars : List Name) :
    Yields h (numIfSummed vars) (marginalize f vars h) (F.marginalize vars) := by
  obtain ⟨p, o, hp⟩ := hf.ex
  obtain ⟨h1, g, v, r1, o1, c1, le1⟩ := run_copy o hp
  have hs := run_sumOut vars (F := F) o1 ⟨c1, fun w hw => by cases hw; exact le1⟩ hf.ndim
  rw [marginalize, HM.bind_ok r1, Factor.marginalize]
  cases hx : vars.foldlM Factor.sumOut F with
  | error e =>
    rw [hx] at hs
    obtain ⟨h2, r2, e2⟩ := hs
    exact ⟨h2, HM.bind_error r2, e2⟩
  | ok G =>
    rw [hx] at hs
    obtain ⟨h2, p2, r2, o2, n2, hnd, k2⟩ := hs
    refine ⟨h2, g, by rw [HM.bind_ok r2]; rfl, ⟨p2, o2, n2, ?_⟩, hnd⟩
    rw [k2]
    cases vars <;> rfl

/-! ### constructors -/

theorem yields_trivial (x : ℚ) (h : Heap) :
    Yields h numIfBare (trivial x h) (.ok (Factor.trivial x)) := by
  obtain ⟨h1, f, v1, r1, o1⟩ := run_newFac h
  obtain ⟨h2, r2, o2, b2⟩ := own_setPot o1 (.num x)
  refine ⟨h2, f, by rw [trivial, HM.bind_ok r1, HM.bind_ok r2]; rfl, ⟨.num x, o2, ⟨rfl, ?_⟩, rfl⟩, rfl⟩
  intro v hv
  cases hv

/-- store a new array in an object of our own -/
theorem run_setNew {h₀ h : Heap} {f p O D} (o : Own h₀ h f p O D) (a : NDArray) :
    ∃ h' v, (newArr a >>= fun v => setPot f (.arr v) : HM Unit) h = (h', .ok ()) ∧
      Own h₀ h' f (.arr v) O D ∧ h'.Contig v a ∧ h₀.bufs.length ≤ v.buf := by
  obtain ⟨h1, v, r1, e1, c1, le1⟩ := run_newArr a h
  obtain ⟨h2, r2, o2, b2⟩ := own_setPot (o.mono e1) (.arr v)
  exact ⟨h2, v, by rw [HM.bind_ok r1, r2], o2, PotAt.congr b2 (p := .arr v) c1,
    o.ext.bufs.length_le.trans le1⟩

theorem run_constLoop {h₀ : Heap} {res : Nat} {p : Pot} (values : Dict (List Val)) :
    ∀ (vs : List Name) {h : Heap} {O : List Name} {D : Dict (List Val)} {shape : List Nat},
    Own h₀ h res p O D →
    match vs.foldlM (fun (acc : Dict (List Val) × List Nat) v => do
        let vs ← values.getE v
        return (acc.1.set v vs, acc.2 ++ [vs.length])) (D, shape) with
    | .ok r => ∃ h', constLoop res values vs shape h = (h', .ok r.2) ∧ Own h₀ h' res p (O ++ vs) r.1 ∧
        r.2.length = shape.length + vs.length
    | .error e => ∃ h', constLoop res values vs shape h = (h', .error e) ∧ Ext h₀ h'
  | [], h, O, D, shape, o => ⟨h, rfl, by rw [List.append_nil]; exact o, rfl⟩
  | v :: vs, h, O, D, shape, o => by
    rw [List.foldlM_cons, constLoop]
    obtain ⟨h1, r1, o1, b1⟩ := own_extendOrder o [v]
    rw [HM.bind_ok r1]
    cases hg : values.getE v with
    | error e => exact ⟨h1, rfl, o1.ext⟩
    | ok labels =>
      obtain ⟨h2, r2, o2, b2⟩ := own_setValue o1 v labels
      rw [HM.lift_ok_bind, HM.bind_ok r2]
      simp only [ok_bind, pure_eq_ok]
      have ih := run_constLoop values vs (shape := shape ++ [labels.length]) o2
      simp only [pure_eq_ok] at ih
      split at ih
      · obtain ⟨h3, r3, o3, hl⟩ := ih
        refine ⟨h3, r3, ?_, ?_⟩
        · rw [List.append_assoc] at o3
          exact o3
        · rw [hl, List.length_append, List.length_cons]
          simp
          omega
      · exact ih

theorem yields_constFactor (c : ℚ) (order : List Name) (values : Dict (List Val)) (h : Heap) :
    Yields h neverNum (constFactor c order values h) (Factor.constFactor c order values) := by
  obtain ⟨h1, f, v1, r1, o1⟩ := run_newFac h
  have hl := run_constLoop values order (shape := []) o1
  rw [constFactor, HM.bind_ok r1, Factor.constFactor]
  split at hl
  · rename_i r hr
    obtain ⟨h2, r2, o2, hlen⟩ := hl
    rw [hr, HM.bind_ok r2]
    obtain ⟨h3, v, r3, o3, c3, le3⟩ := run_setNew o2 (NDArray.tabulate r.2 fun _ => c)
    refine ⟨h3, f, ?_, ⟨.arr v, o3, ⟨c3, fun w hw => by cases hw; exact le3⟩, rfl⟩, ?_⟩
    · change ((newArr _ >>= fun v => setPot f (.arr v) >>= fun _ => pure f : HM Nat)) h2 = _
      obtain ⟨h4, v4, r4, -⟩ := run_newArr (NDArray.tabulate r.2 fun _ => c) h2
      rw [HM.bind_ok r4] at r3 ⊢
      rw [HM.bind_ok r3]
      rfl
    · change r.2.length = _
      rw [hlen]
      simp
  · rename_i e hr
    obtain ⟨h2, r2, e2⟩ := hl
    rw [hr]
    exact ⟨h2, HM.bind_error r2, e2⟩

theorem run_parentLoop {h₀ : Heap} {res : Nat} {p : Pot} (parents : Dict (List Val)) :
    ∀ (ps : List Name) {h : Heap} {O : List Name} {D : Dict (List Val)},
    Own h₀ h res p O D →
    match ps.foldlM (labelStep parents) D with
    | .ok D' => ∃ h', parentLoop res parents ps h = (h', .ok ()) ∧ Own h₀ h' res p (O ++ ps) D' ∧
        h'.bufs = h.bufs
    | .error e => ∃ h', parentLoop res parents ps h = (h', .error e) ∧ Ext h₀ h'
  | [], h, O, D, o => ⟨h, rfl, by rw [List.append_nil]; exact o, rfl⟩
  | v :: vs, h, O, D, o => by
    rw [List.foldlM_cons, parentLoop, labelStep]
    obtain ⟨h1, r1, o1, b1⟩ := own_extendOrder o [v]
    rw [HM.bind_ok r1]
    cases hg : parents.getE v with
    | error e => exact ⟨h1, rfl, o1.ext⟩
    | ok labels =>
      obtain ⟨h2, r2, o2, b2⟩ := own_setValue o1 v labels
      rw [HM.lift_ok_bind, HM.bind_ok r2]
      simp only [ok_bind, pure_eq_ok]
      have ih := run_parentLoop parents vs o2
      cases hf : vs.foldlM (labelStep parents) (D.set v labels) with
      | error e => rw [hf] at ih; exact ih
      | ok D' =>
        rw [hf] at ih
        obtain ⟨h3, r3, o3, b3⟩ := ih
        refine ⟨h3, r3, ?_, (b3.trans b2).trans b1⟩
        rw [List.append_assoc] at o3
        exact o3

/-- the value computation that `fromNode` on the memory stands for -/
theorem yields_fromNode (node : NodeV) {cpd : Pot} {h : Heap} {a : NDArray} (hc : h.PotAt cpd a)
    (hnd : a.shape.length = (if node.kind = .utility then 0 else 1) + node.parentOrder.length) :
    Yields h neverNum (fromNode node cpd h)
      (if node.kind = .utility then Factor.fromUtilityNode { node with cpd := a }
        else Factor.fromNode { node with cpd := a }) := by
  obtain ⟨h1, f, v1, r1, o1⟩ := run_newFac h
  rw [fromNode, HM.bind_ok r1]
  by_cases hk : node.kind = .utility
  · rw [if_pos hk] at hnd ⊢
    rw [if_pos hk]
    obtain ⟨h2, d, r2, e2, c2, le2⟩ := run_newDict [] h1
    obtain ⟨h3, r3, o3, b3⟩ := own_setValues (o1.mono e2) c2 (o1.ext.dicts.length_le.trans le2)
    obtain ⟨h4, v, r4, e4, c4, le4⟩ := run_npCopy ((hc.mono o3.ext).pot)
    obtain ⟨h5, r5, o5, b5⟩ := own_setPot (o3.mono e4) (.arr v)
    have c5 : h5.Contig v a := PotAt.congr b5 (p := .arr v) c4
    have hl := run_parentLoop node.parents node.parentOrder o5
    rw [HM.bind_ok r2, HM.bind_ok r3, HM.bind_ok r4, HM.bind_ok r5]
    rw [Factor.fromUtilityNode, if_neg (not_not.2 hk), Factor.parentValues]
    change Yields h neverNum _ (node.parentOrder.foldlM (labelStep node.parents) [] >>= _)
    cases hf : node.parentOrder.foldlM (labelStep node.parents) [] with
    | error e =>
      rw [hf] at hl
      obtain ⟨h6, r6, e6⟩ := hl
      exact ⟨h6, HM.bind_error r6, e6⟩
    | ok D =>
      rw [hf] at hl
      obtain ⟨h6, r6, o6, b6⟩ := hl
      refine ⟨h6, f, (HM.bind_ok r6).trans rfl, ⟨.arr v, o6, ⟨?_, fun w hw => ?_⟩, rfl⟩, ?_⟩
      · exact PotAt.congr b6 (p := .arr v) c5
      · cases hw
        exact o3.ext.bufs.length_le.trans le4
      · change a.shape.length = node.parentOrder.length
        rw [hnd, Nat.zero_add]
  · rw [if_neg hk] at hnd ⊢
    rw [if_neg hk]
    obtain ⟨h2, r2, o2, b2⟩ := own_extendOrder o1 [node.name]
    obtain ⟨h3, r3, o3, b3⟩ := own_setValue o2 node.name node.values
    obtain ⟨h4, v, r4, e4, c4, le4⟩ := run_npCopy ((hc.mono o3.ext).pot)
    obtain ⟨h5, r5, o5, b5⟩ := own_setPot (o3.mono e4) (.arr v)
    have c5 : h5.Contig v a := PotAt.congr b5 (p := .arr v) c4
    have hl := run_parentLoop node.parents node.parentOrder o5
    rw [HM.bind_ok r2, HM.bind_ok r3, HM.bind_ok r4, HM.bind_ok r5]
    rw [Factor.fromNode, if_neg hk, Factor.parentValues]
    change Yields h neverNum _ (node.parentOrder.foldlM (labelStep node.parents) [(node.name, node.values)] >>= _)
    change match node.parentOrder.foldlM (labelStep node.parents) [(node.name, node.values)] with
      | .ok _ => _
      | .error _ => _ at hl
    cases hf : node.parentOrder.foldlM (labelStep node.parents) [(node.name, node.values)] with
    | error e =>
      rw [hf] at hl
      obtain ⟨h6, r6, e6⟩ := hl
      exact ⟨h6, HM.bind_error r6, e6⟩
    | ok D =>
      rw [hf] at hl
      obtain ⟨h6, r6, o6, b6⟩ := hl
      refine ⟨h6, f, (HM.bind_ok r6).trans rfl, ⟨.arr v, o6, ⟨?_, fun w hw => ?_⟩, rfl⟩, ?_⟩
      · exact PotAt.congr b6 (p := .arr v) c5
      · cases hw
        exact o3.ext.bufs.length_le.trans le4
      · change a.shape.length = (node.name :: node.parentOrder).length
        rw [hnd, List.length_cons, Nat.add_comm]

theorem ofList_data {a : NDArray} (h1 : a.shape.length = 1) : NDArray.ofList a.data = a := by
  obtain ⟨n, hn⟩ := List.length_eq_one_iff.1 h1
  obtain ⟨s, d, hs⟩ := a
  dsimp only at hn
  subst hn
  have : d.length = n := by simpa using hs
  subst this
  rfl

/-- the labels and variables of a new evidence factor -/
theorem own_evidence {h₀ h : Heap} {f p} (o : Own h₀ h f p [] []) (var : Name) (values : List Val) :
    ∃ h' h'', extendOrder f [var] h = (h', .ok ()) ∧ setValue f var values h' = (h'', .ok ()) ∧
      Own h₀ h'' f p [var] [(var, values)] := by
  obtain ⟨h1, r1, o1, b1⟩ := own_extendOrder o [var]
  obtain ⟨h2, r2, o2, b2⟩ := own_setValue o1 var values
  exact ⟨h1, h2, r1, r2, o2⟩

theorem asEvidence_ok {var : Name} {values : List Val} {ev : Evidence} {old : Option NDArray}
    {F : Factor} (h : Factor.asEvidence var values ev old = .ok F) :
    F.variableOrder = [var] ∧ F.values = [(var, values)] ∧ F.potentials.shape.length = 1 := by
  unfold Factor.asEvidence at h
  cases ev with
  | hard e =>
    dsimp only at h
    split at h
    · cases h; exact ⟨rfl, rfl, rfl⟩
    · cases h
  | soft e =>
    dsimp only at h
    split at h
    · cases h
    · cases old with
      | none => cases h; exact ⟨rfl, rfl, rfl⟩
      | some old =>
        dsimp only at h
        rw [bind_eq_ok] at h
        obtain ⟨r, -, h⟩ := h
        rw [bind_eq_ok] at h
        obtain ⟨pots, -, h⟩ := h
        cases h
        exact ⟨rfl, rfl, rfl⟩

/-- finish an evidence factor with a new array -/
theorem yields_evidence {h₀ h : Heap} {f p} {var : Name} {values : List Val}
    (o : Own h₀ h f p [var] [(var, values)]) {ev : Evidence} {old : Option NDArray} :
    Yields h₀ neverNum ((do
      let g ← HM.lift (Factor.asEvidence var values ev old)
      let v ← newArr g.potentials
      setPot f (.arr v)
      pure f : HM Nat) h) (Factor.asEvidence var values ev old) := by
  cases hx : Factor.asEvidence var values ev old with
  | error e => exact ⟨h, rfl, o.ext⟩
  | ok F =>
    obtain ⟨ho, hd, hl⟩ := asEvidence_ok hx
    obtain ⟨h1, v, r1, e1, c1, le1⟩ := run_newArr F.potentials h
    obtain ⟨h2, r2, o2, b2⟩ := own_setPot (o.mono e1) (.arr v)
    refine ⟨h2, f, ?_, ⟨.arr v, ho ▸ hd ▸ o2, ⟨PotAt.congr b2 (p := .arr v) c1, fun w hw => ?_⟩, rfl⟩,
      ?_⟩
    · rw [HM.lift_ok_bind, HM.bind_ok r1, HM.bind_ok r2]
      rfl
    · cases hw
      exact o.ext.bufs.length_le.trans le1
    · rw [hl, ho]; rfl

theorem yields_hard (var : Name) (values : List Val) (e : Val) (old : Option Pot) (h : Heap) :
    Yields h neverNum (asEvidence var values (.inl e) old h) (Factor.asEvidence var values (.hard e)) := by
  obtain ⟨h1, f, v1, r1, o1⟩ := run_newFac h
  obtain ⟨h2, h3, r2, r3, o3⟩ := own_evidence o1 var values
  rw [asEvidence, HM.bind_ok r1, HM.bind_ok r2, HM.bind_ok r3]
  exact yields_evidence o3

theorem yields_soft (var : Name) (values : List Val) {p : Pot} {h : Heap} {a : NDArray}
    (hp : h.PotAt p a) (h1d : a.shape.length = 1) :
    Yields h neverNum (asEvidence var values (.inr p) none h)
      (Factor.asEvidence var values (.soft a.data)) := by
  obtain ⟨h1, f, v1, r1, o1⟩ := run_newFac h
  obtain ⟨h2, h3, r2, r3, o3⟩ := own_evidence o1 var values
  rw [asEvidence, HM.bind_ok r1, HM.bind_ok r2, HM.bind_ok r3]
  dsimp only
  rw [HM.read_bind, (hp.mono o3.ext).pot, Factor.asEvidence]
  by_cases hl : a.data.length ≠ values.length
  · rw [if_pos hl, if_pos hl]
    exact ⟨h3, rfl, o3.ext⟩
  · rw [if_neg hl, if_neg hl]
    obtain ⟨h4, v, r4, e4, c4, le4⟩ := run_npCopy (hp.mono o3.ext).pot
    obtain ⟨h5, r5, o5, b5⟩ := own_setPot (o3.mono e4) (.arr v)
    refine ⟨h5, f, by rw [HM.bind_ok r4, HM.bind_ok r5]; rfl, ⟨.arr v, o5, ⟨?_, fun w hw => ?_⟩, rfl⟩, rfl⟩
    · rw [ofList_data h1d]
      exact PotAt.congr b5 (p := .arr v) c4
    · cases hw
      exact o3.ext.bufs.length_le.trans le4

theorem yields_softOld (var : Name) (values : List Val) {p q : Pot} {h : Heap} {a b : NDArray}
    (hp : h.PotAt p a) (hq : h.PotAt q b) :
    Yields h neverNum (asEvidence var values (.inr p) (some q) h)
      (Factor.asEvidence var values (.soft a.data) (some b)) := by
  obtain ⟨h1, f, v1, r1, o1⟩ := run_newFac h
  obtain ⟨h2, h3, r2, r3, o3⟩ := own_evidence o1 var values
  rw [asEvidence, HM.bind_ok r1, HM.bind_ok r2, HM.bind_ok r3]
  dsimp only
  rw [HM.read_bind, HM.read_bind, (hp.mono o3.ext).pot, (hq.mono o3.ext).pot]
  exact yields_evidence o3

/-! ### in-place changes -/

theorem buf_set_self {h : Heap} {b : Nat} (hb : b < h.bufs.length) (x : List ℚ) :
    ({ h with bufs := h.bufs.set b x } : Heap).buf b = x :=
  buf_of_some (List.getElem?_set_self hb)

theorem buf_set_ne {h : Heap} {b c : Nat} (hbc : b ≠ c) (x : List ℚ) :
    ({ h with bufs := h.bufs.set b x } : Heap).buf c = h.buf c := by
  unfold buf
  rw [List.getD_eq_getElem?_getD, List.getD_eq_getElem?_getD, List.getElem?_set_ne hbc]

/-- only the buffer `b` was changed -/
structure Touched (h h' : Heap) (b : Nat) : Prop where
  length : h'.bufs.length = h.bufs.length
  buf : ∀ c, c ≠ b → h'.buf c = h.buf c
  lists : h'.lists = h.lists
  dicts : h'.dicts = h.dicts
  facs : h'.facs = h.facs

theorem run_updateView {h : Heap} {v : View} {a : NDArray} (c : h.Contig v a) (g : ℚ → ℚ) :
    ∃ h', updateView v g h = (h', .ok ()) ∧ Touched h h' v.buf ∧ h'.Contig v (a.map g) := by
  refine ⟨_, rfl, ⟨by simp, fun b hb => buf_set_ne (Ne.symm hb) _, rfl, rfl, rfl⟩,
    by simpa using c.lt, c.strides, c.shape, ?_⟩
  rw [buf_set_self c.lt, c.data]
  change _ = a.data.map g
  refine List.ext_getElem (by simp) fun i h1 h2 => ?_
  rw [List.getElem_mapIdx, List.getElem_map, if_pos]
  have hi : i < (allIdx v.shape).length := by
    rw [length_allIdx, c.shape, ← a.size_eq]
    simpa using h1
  refine List.mem_map.2 ⟨(allIdx v.shape)[i], List.getElem_mem hi, ?_⟩
  have hr : InRange v.shape (allIdx v.shape)[i] := mem_allIdx.1 (List.getElem_mem hi)
  rw [View.pos, c.strides, pos_cStrides hr.length_eq, NDArray.ravel_getElem hi]

theorem run_updateAt {h : Heap} {v : View} {a : NDArray} (c : h.Contig v a) {idx : List Nat}
    (hr : InRange a.shape idx) (g : ℚ → ℚ) :
    ∃ h', updateAt v idx g h = (h', .ok ()) ∧ Touched h h' v.buf ∧
      h'.Contig v (NDArray.tabulate a.shape fun i => if i = idx then g (a.get i) else a.get i) := by
  refine ⟨_, rfl, ⟨by simp, fun b hb => buf_set_ne (Ne.symm hb) _, rfl, rfl, rfl⟩,
    by simpa using c.lt, c.strides, c.shape, ?_⟩
  rw [buf_set_self c.lt, c.data, View.pos, c.strides, c.shape, pos_cStrides hr.length_eq,
    NDArray.data_modify hr]

theorem Touched.ext {h₀ h h' : Heap} {b : Nat} (t : Touched h h' b) (e : Ext h₀ h)
    (hb : h₀.bufs.length ≤ b) : Ext h₀ h' := by
  refine ⟨?_, t.lists ▸ e.lists, t.dicts ▸ e.dicts, t.facs ▸ e.facs⟩
  refine List.prefix_iff_getElem?.2 fun i hi => ?_
  have h1 : i < h.bufs.length := lt_of_lt_of_le hi e.bufs.length_le
  rw [some_of_lt (by rw [t.length]; exact h1), t.buf i (by omega), e.buf hi,
    ← some_of_lt hi, List.getElem?_eq_getElem hi]

theorem Touched.own {h₀ h h' : Heap} {b : Nat} (t : Touched h h' b) (hb : h₀.bufs.length ≤ b)
    {f p O D} (o : Own h₀ h f p O D) : Own h₀ h' f p O D := by
  obtain ⟨l, d, hf, hle, hl, hde, hd⟩ := o.ex
  exact ⟨t.ext o.ext hb, o.le, l, d, t.facs ▸ hf, hle, t.lists ▸ hl, hde, t.dicts ▸ hd⟩

/-! ### `from_samples` -/

theorem run_samplesLoop {h₀ : Heap} {res : Nat} {p : Pot} :
    ∀ (vv : Dict (List Val)) {h : Heap} {O : List Name} {D : Dict (List Val)},
    Own h₀ h res p O D →
    ∃ h', samplesLoop res vv h = (h', .ok ()) ∧
      Own h₀ h' res p (O ++ vv.keys) (vv.foldl (fun d x => d.set x.1 x.2) D)
  | [], h, O, D, o => ⟨h, rfl, by simpa [Dict.keys] using o⟩
  | (v, vs) :: vv, h, O, D, o => by
    obtain ⟨h1, r1, o1, -⟩ := own_extendOrder o [v]
    obtain ⟨h2, r2, o2, -⟩ := own_setValue o1 v vs
    obtain ⟨h3, r3, o3⟩ := run_samplesLoop vv o2
    refine ⟨h3, by rw [samplesLoop, HM.bind_ok r1, HM.bind_ok r2, r3], ?_⟩
    simpa [Dict.keys] using o3

theorem foldl_set_new : ∀ (vv D : Dict (List Val)), vv.keys.Nodup →
    (∀ k ∈ vv.keys, k ∉ D.keys) → vv.foldl (fun d x => d.set x.1 x.2) D = D ++ vv
  | [], D, _, _ => by simp
  | (v, vs) :: vv, D, hn, hd => by
    have hv : v ∉ D.keys := hd v (by simp [Dict.keys])
    have hset : D.set v vs = D ++ [(v, vs)] := Dict.set_of_not_mem vs hv
    rw [List.foldl_cons, hset, foldl_set_new vv _ (by simpa [Dict.keys] using (List.nodup_cons.1 hn).2)]
    · simp
    · intro k hk
      have hkv : k ≠ v := fun he => (List.nodup_cons.1 hn).1 (he ▸ hk)
      have := hd k (by simp only [Dict.keys, List.map_cons]; exact List.mem_cons_of_mem _ hk)
      simpa [Dict.keys, hkv] using this

/-- the index of a sample is an index of the table -/
theorem sample_inRange {s : Dict Val} {vv : Dict (List Val)} (hn : vv.keys.Nodup) {idx : List Nat}
    (hm : vv.keys.mapM (fun v => do
      let labels ← vv.getE v
      let x ← s.getE v
      pyIndex labels x) = .ok idx) : InRange (vv.map fun p => p.2.length) idx := by
  rw [mapM_eq_ok, Dict.keys, List.forall₂_map_left_iff] at hm
  unfold InRange
  rw [List.forall₂_map_right_iff]
  have key : ∀ {l : Dict (List Val)} {idx : List Nat}, (∀ p ∈ l, p ∈ vv) →
      List.Forall₂ (fun (p : Name × List Val) i => (do
        let labels ← vv.getE p.1
        let x ← s.getE p.1
        pyIndex labels x) = .ok i) l idx → List.Forall₂ (fun i (p : Name × List Val) => i < p.2.length) idx l := by
    intro l idx hl hf
    induction hf with
    | nil => exact .nil
    | @cons p i l idx hp _ ih =>
      refine .cons ?_ (ih fun q hq => hl q (List.mem_cons_of_mem _ hq))
      have hg : vv.getE p.1 = .ok p.2 := Dict.getE_ok (Dict.get?_of_mem hn (hl p (by simp)))
      rw [hg, ok_bind, bind_eq_ok] at hp
      obtain ⟨x, -, hx⟩ := hp
      obtain ⟨hmem, rfl⟩ := pyIndex_eq_ok.1 hx
      exact List.idxOf_lt_length_of_mem hmem
  exact key (fun p hp => hp) hm

theorem run_countLoop {h₀ : Heap} {res : Nat} {v : View} {vv : Dict (List Val)}
    (hn : vv.keys.Nodup) (hle : h₀.bufs.length ≤ v.buf) :
    ∀ (ss : List (Dict Val)) {h : Heap} {a : NDArray}, Own h₀ h res (.arr v) vv.keys vv →
    h.Contig v a → a.shape = (vv.map fun p => p.2.length) →
    match ss.foldlM Factor.countSample ⟨a, vv.keys, vv⟩ with
    | .ok F => ∃ h', countLoop res ss h = (h', .ok ()) ∧ Own h₀ h' res (.arr v) vv.keys vv ∧
        h'.Contig v F.potentials ∧ F.potentials.shape = (vv.map fun p => p.2.length) ∧
        F.variableOrder = vv.keys ∧ F.values = vv
    | .error e => ∃ h', countLoop res ss h = (h', .error e) ∧ Ext h₀ h'
  | [], h, a, o, c, hs => ⟨h, rfl, o, c, hs, rfl, rfl⟩
  | s :: ss, h, a, o, c, hs => by
    rw [List.foldlM_cons, countLoop, HM.read_bind, HM.read_bind, o.obj.order, o.obj.values,
      Factor.countSample]
    cases hm : vv.keys.mapM (fun v => do
      let labels ← vv.getE v
      let x ← s.getE v
      pyIndex labels x) with
    | error e =>
      exact ⟨h, rfl, o.ext⟩
    | ok idx =>
      have hr : InRange a.shape idx := hs ▸ sample_inRange hn hm
      obtain ⟨h1, r1, t1, c1⟩ := run_updateAt c hr (· + 1)
      have ih := run_countLoop hn hle ss (t1.own hle o) c1 hs
      rw [HM.lift_ok_bind, HM.read_bind, o.obj.pot]
      have hrun : ((updateAt v idx (· + 1) >>= fun _ => countLoop res ss : HM Unit)) h =
          countLoop res ss h1 := HM.bind_ok r1
      simp only [ok_bind, pure_eq_ok]
      rw [← hrun] at ih
      exact ih

theorem zeros_shape (s : List Nat) : (NDArray.zeros s).shape = s := rfl

theorem yields_fromSamples (samples : List (Dict Val)) {vv : Dict (List Val)} (hn : vv.keys.Nodup)
    (h : Heap) : Yields h neverNum (fromSamples samples vv h) (Factor.fromSamples samples vv) := by
  obtain ⟨h1, f, v1, r1, o1⟩ := run_newFac h
  obtain ⟨h2, r2, o2⟩ := run_samplesLoop vv o1
  rw [foldl_set_new vv [] hn (by simp [Dict.keys]), List.nil_append, List.nil_append] at o2
  obtain ⟨h3, v, r3, e3, c3, le3⟩ := run_newArr (NDArray.zeros (vv.map fun p => p.2.length)) h2
  obtain ⟨h4, r4, o4, b4⟩ := own_setPot (o2.mono e3) (.arr v)
  have c4 : h4.Contig v _ := PotAt.congr b4 (p := .arr v) c3
  have hle : h.bufs.length ≤ v.buf := o2.ext.bufs.length_le.trans le3
  have hl := run_countLoop hn hle samples o4 c4 (zeros_shape _)
  rw [fromSamples, HM.bind_ok r1, HM.bind_ok r2, HM.bind_ok r3, HM.bind_ok r4, Factor.fromSamples]
  dsimp only
  cases hx : samples.foldlM Factor.countSample
      ⟨NDArray.zeros (vv.map fun p => p.2.length), vv.keys, vv⟩ with
  | error e =>
    rw [hx] at hl
    obtain ⟨h5, r5, e5⟩ := hl
    exact ⟨h5, HM.bind_error r5, e5⟩
  | ok F =>
    rw [hx] at hl
    obtain ⟨h5, r5, o5, c5, hs, ho, hd⟩ := hl
    rw [HM.bind_ok r5, HM.read_bind, c5.view, ok_bind]
    by_cases h0 : F.potentials.sumAll = 0
    · rw [if_pos h0, if_pos h0]
      exact ⟨h5, rfl, o5.ext⟩
    · rw [if_neg h0, if_neg h0]
      obtain ⟨h6, r6, t6, c6⟩ := run_updateView c5 fun x => x / F.potentials.sumAll
      refine ⟨h6, f, by rw [HM.bind_ok r6]; rfl, ⟨.arr v, ?_, ⟨c6, fun w hw => by cases hw; exact hle⟩, rfl⟩,
        ?_⟩
      · rw [ho, hd]
        exact t6.own hle o5
      · change F.potentials.shape.length = F.variableOrder.length
        rw [hs, ho, List.length_map, Dict.keys, List.length_map]

/-! ### `normalize` and `get_potential` -/

/-- a view into `h` shows the same after a change to another buffer -/
theorem Touched.contig {h h' : Heap} {b : Nat} (t : Touched h h' b) {v : View} {a : NDArray}
    (c : h.Contig v a) (hne : v.buf ≠ b) : h'.Contig v a :=
  ⟨by rw [t.length]; exact c.lt, c.strides, c.shape, (t.buf _ hne).trans c.data⟩

theorem Touched.obj {h h' : Heap} {b : Nat} (t : Touched h h' b) {f p O D} (o : h.Obj f p O D) :
    h'.Obj f p O D := by
  obtain ⟨l, d, hf, hl, hd⟩ := o
  exact ⟨l, d, t.facs ▸ hf, t.lists ▸ hl, t.dicts ▸ hd⟩

theorem run_getPotential {h : Heap} {f : Nat} {F : Factor} (hf : h.Holds f F)
    {vars : Dict (List Val)} (hv : vars.length ≠ 0) :
    match F.getPotential vars with
    | .ok a => ∃ h' v, getPotential f vars h = (h', .ok (.arr v)) ∧ Ext h h' ∧ h'.Contig v a ∧
        h.bufs.length ≤ v.buf
    | .error e => ∃ h', getPotential f vars h = (h', .error e) ∧ Ext h h' := by
  rw [Factor.getPotential, Factor.subTable, getPotential, HM.read_bind, HM.read_bind, hf.order,
    hf.values]
  cases hm : F.variableOrder.mapM (fun v => do
      let vs ← F.values.getE v
      Factor.reqIndex vs (vars.get? v)) with
  | error e => exact ⟨h, rfl, Ext.refl h⟩
  | ok index =>
    rw [HM.lift_ok_bind, HM.read_bind, ok_bind, if_neg hv, if_neg hv, HM.read_bind, hf.pot.pot]
    cases ht : F.potentials.ix index with
    | error e => exact ⟨h, rfl, Ext.refl h⟩
    | ok t =>
      rw [HM.lift_ok_bind, ok_bind, if_neg hv]
      obtain ⟨h1, v, r1, e1, c1, le1⟩ := run_newArr t.squeeze h
      exact ⟨h1, v, by rw [HM.bind_ok r1]; rfl, e1, c1, le1⟩

end Heap
end Primo
