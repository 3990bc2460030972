import Verif.Lemmas.HeapSim
import Verif.Lemmas.HeapOther

/-! # Sharing of memory between factors: C59, C60 -/

namespace Primo

open Mem Heap

/-! ## C59 -/

/-- Whatever a program does with factors and arrays, short of calling `get_potential()` without
variables: it raises the same exceptions, and finds the same contents in all its variables, as if every
variable held its own copy of everything. -/
theorem C59_no_sharing_partial (arrays : List NDArray) (cs : List Cmd) (hc : ∀ c ∈ cs, c.Exposes = false) :
    ((HState.start arrays).run cs).1.contents = (VState.run { arrs := arrays } cs).1 ∧
    ((HState.start arrays).run cs).2 = (VState.run { arrs := arrays } cs).2 := by
  obtain ⟨I, he⟩ := agree_run cs (inv_start arrays) hc
  exact ⟨I.contents, he⟩

theorem run_program_append (cs ds : List Cmd) : ∀ s : HState,
    (s.run (cs ++ ds)).1 = ((s.run cs).1.run ds).1 := by
  induction cs with
  | nil => intro s; rfl
  | cons c cs ih => intro s; exact ih _

/-- the statement `get_potential()` stores a reference to the table of the factor -/
theorem step_expose {s : HState} {t : VState} (I : Inv s t) {i : Nat} {F : Factor}
    (hF : t.facs[i]? = some F) (hg : F.getPotential [] = .ok F.potentials)
    (hne : F.variableOrder ≠ []) :
    ∃ f v, s.facs[i]? = some f ∧ s.heap.Holds f F ∧ (s.heap.fac f).pot = .arr v ∧
      s.heap.Contig v F.potentials ∧
      s.step (.getPotential i []) = ({ s with arrs := s.arrs ++ [.arr v] }, none) := by
  obtain ⟨f, hf⟩ : ∃ f, s.facs[i]? = some f := by
    cases hf : s.facs[i]? with
    | some f => exact ⟨f, rfl⟩
    | none => rw [forall₂_get_none I.facs hf] at hF; cases hF
  obtain ⟨F', hF', hH⟩ := forall₂_get I.facs hf
  obtain rfl : F = F' := Option.some.inj (hF.symm.trans hF')
  obtain ⟨v, hv, c⟩ := holds_arr hH hne
  refine ⟨f, v, hf, hH, hv, c, ?_⟩
  rw [Factor.getPotential, Factor.subTable, bind_eq_ok] at hg
  obtain ⟨t', ht, -⟩ := hg
  rw [bind_eq_ok] at ht
  obtain ⟨index, hi, -⟩ := ht
  have hrun : (HM.lift (var s.facs i) >>= fun f => Heap.getPotential f []) s.heap =
      (s.heap, .ok (.arr v)) := by
    unfold var
    rw [hf]
    dsimp only
    rw [HM.lift_ok_bind, Heap.getPotential, HM.read_bind, HM.read_bind, hH.order, hH.values, hi,
      HM.lift_ok_bind, HM.read_bind, if_pos List.length_nil, hv]
    rfl
  change s.pushArr (HM.lift (var s.facs i) >>= fun f => Heap.getPotential f []) = _
  rw [HState.pushArr, hrun]

/-- After `a = f.get_potential()`, an assignment to an element of `a` is an assignment to the table of
`f`. -/
theorem C59_exposed_write (arrays : List NDArray) (cs : List Cmd) (hc : ∀ c ∈ cs, c.Exposes = false)
    {i : Nat} {F : Factor} (hF : (VState.run { arrs := arrays } cs).1.facs[i]? = some F)
    (hg : F.getPotential [] = .ok F.potentials) (hne : F.variableOrder ≠ []) {idx : List Nat}
    (hidx : idx ∈ allIdx F.potentials.shape) (x : ℚ) :
    ((HState.start arrays).run (cs ++ [.getPotential i [],
        .write (VState.run { arrs := arrays } cs).1.arrs.length idx x])).1.contents.facs[i]? =
      some { F with potentials :=
        NDArray.tabulate F.potentials.shape fun j => if j = idx then x else F.potentials.get j } := by
  obtain ⟨I, -⟩ := agree_run cs (inv_start arrays) hc
  obtain ⟨f, v, hf, hH, hv, c, hstep⟩ := step_expose I hF hg hne
  obtain ⟨h1, r1, t1, c1⟩ := run_updateAt c (mem_allIdx.1 hidx) fun _ => x
  have J := I.putTouched hf hH hv t1 c1 rfl
  rw [run_program_append, HState.run, hstep]
  generalize (HState.start arrays).run cs = s at *
  have hw : HState.step { s.1 with arrs := s.1.arrs ++ [Pot.arr v] }
      (.write (VState.run { arrs := arrays } cs).1.arrs.length idx x) =
      ({ s.1 with heap := h1, arrs := s.1.arrs ++ [Pot.arr v] }, none) := by
    change HState.exec { s.1 with arrs := s.1.arrs ++ [Pot.arr v] }
      (HM.lift (var (s.1.arrs ++ [Pot.arr v]) _) >>= fun p => HState.store p idx x) = _
    unfold var
    rw [← I.arrs.length_eq, List.getElem?_concat_length]
    dsimp only
    rw [HState.exec, HM.lift_ok_bind, HState.store, c.shape, require_true _ (decide_eq_true hidx),
      HM.lift_ok_bind, r1]
  dsimp only
  rw [HState.run, hw]
  have hcon := congrArg VState.facs J.contents
  change (s.1.facs.map h1.factor)[i]? = _
  change s.1.facs.map h1.factor = _ at hcon
  rw [hcon]
  exact List.getElem?_set_self (List.getElem?_eq_some_iff.1 hF).1

/-- After `a = f.get_potential()`, `f.normalize()` changes the contents of `a`. -/
theorem C59_exposed_normalize (arrays : List NDArray) (cs : List Cmd)
    (hc : ∀ c ∈ cs, c.Exposes = false)
    {i : Nat} {F : Factor} (hF : (VState.run { arrs := arrays } cs).1.facs[i]? = some F)
    (hg : F.getPotential [] = .ok F.potentials) (hne : F.variableOrder ≠ []) :
    ((HState.start arrays).run (cs ++ [.getPotential i [], .normalize i])).1.contents.arrs[
        (VState.run { arrs := arrays } cs).1.arrs.length]? = some F.normalize.potentials := by
  obtain ⟨I, -⟩ := agree_run cs (inv_start arrays) hc
  obtain ⟨f, v, hf, hH, hv, c, hstep⟩ := step_expose I hF hg hne
  rw [run_program_append, HState.run, hstep]
  generalize (HState.start arrays).run cs = s at *
  obtain ⟨h1, r1, c1⟩ : ∃ h1, Heap.normalize f s.1.heap = (h1, .ok ()) ∧
      h1.Contig v F.normalize.potentials := by
    rw [Heap.normalize, HM.read_bind, HM.read_bind, hH.pot.pot, hv]
    by_cases hp : F.potentials.sumAll > 0
    · obtain ⟨h1, r1, t1, c1⟩ := run_updateView c fun x => x / F.potentials.sumAll
      have hn : F.normalize.potentials = F.potentials.map fun x => x / F.potentials.sumAll := by
        unfold Factor.normalize
        exact congrArg Factor.potentials (if_pos hp)
      rw [hn, if_pos hp]
      exact ⟨h1, r1, c1⟩
    · have hn : F.normalize = F := by
        unfold Factor.normalize
        exact if_neg hp
      rw [hn, if_neg hp]
      exact ⟨s.1.heap, rfl, c⟩
  have hw : HState.step { s.1 with arrs := s.1.arrs ++ [Pot.arr v] } (.normalize i) =
      ({ s.1 with heap := h1, arrs := s.1.arrs ++ [Pot.arr v] }, none) := by
    change HState.exec { s.1 with arrs := s.1.arrs ++ [Pot.arr v] }
      (HM.lift (var s.1.facs i) >>= fun f => Heap.normalize f) = _
    unfold var
    rw [hf]
    dsimp only
    rw [HState.exec, HM.lift_ok_bind, r1]
  dsimp only
  rw [HState.run, hw]
  change ((s.1.arrs ++ [Pot.arr v]).map h1.pot)[_]? = _
  rw [← I.arrs.length_eq, List.getElem?_map, List.getElem?_concat_length]
  change some (h1.view v) = _
  rw [c1.view]

/-! ## C60 -/

/-- Without `useOther`, multiplication and addition leave every factor as it is, also if they raise, and
the result is a new object. -/
theorem C60_operands_partial (op : ℚ → ℚ → ℚ) (so : SetOrder) {h : Heap} {self other : Nat}
    {S O : Factor} (hs : h.Holds self S) (ho : h.Holds other O) :
    (∀ g G, h.Holds g G → (binop op so false self other h).1.factor g = G) ∧
    match S.binop op so O with
    | .ok P => ∃ f, (binop op so false self other h).2 = .ok f ∧
        (binop op so false self other h).1.factor f = P ∧ ∀ g G, h.Holds g G → f ≠ g
    | .error e => (binop op so false self other h).2 = .error e := by
  have y := yields_binop op so hs ho
  cases hb : S.binop op so O with
  | error e =>
    rw [hb] at y
    obtain ⟨h', hr, e'⟩ := y
    rw [hr]
    exact ⟨fun g G hg => (hg.mono e').factor, rfl⟩
  | ok P =>
    rw [hb] at y
    obtain ⟨h', f, hr, q⟩ := y
    rw [hr]
    refine ⟨fun g G hg => (hg.mono q.ext).factor, f, rfl, q.holds.factor, fun g G hg hfg => ?_⟩
    obtain ⟨_, o, -, -⟩ := q.own
    obtain ⟨_, ⟨_, _, hf, -, -⟩, -⟩ := hg.ex
    have hlt := (List.getElem?_eq_some_iff.1 hf).1
    have hle := o.le
    omega

/-- `self.__mul__(other, useOther=True)` returns the product, but leaves `other` with the variables of
`self` in its variable list and without labels for them: `get_potential()` on it then raises
`KeyError`. -/
theorem C60_other_broken (op : ℚ → ℚ → ℚ) (so : SetOrder) {h : Heap} {self other : Nat}
    {S O P : Factor} (hs : h.Holds self S) (ho : h.Holds other O) (hO : O.variableOrder ≠ [])
    (hkeys : ∀ v, v ∈ O.values.keys ↔ v ∈ O.variableOrder) (hP : S.binop op so O = .ok P)
    {v : Name} (hv : v ∈ S.variableOrder) (hvO : v ∉ O.variableOrder) :
    ∃ h' f, binop op so true self other h = (h', .ok f) ∧ h'.factor f = P ∧
      v ∈ (h'.factor other).variableOrder ∧ (h'.factor other).values = O.values ∧
      (h'.factor other).getPotential [] = .error .keyError := by
  have h0 : S.variableOrder.length ≠ 0 := fun e => by
    rw [List.length_eq_zero_iff.1 e] at hv
    cases hv
  have h1 : O.variableOrder.length ≠ 0 := fun e => hO (List.length_eq_zero_iff.1 e)
  obtain ⟨h', f, hr, hf, ho', hd', hPo⟩ := run_useOther op so hs ho h0 h1 hP
  have hmem : v ∈ h'.order other := by
    rw [ho', List.mem_append, so.mem, hPo]
    exact Or.inr ⟨List.mem_append_left _ hv, hvO⟩
  refine ⟨h', f, hr, hf, hmem, hd', ?_⟩
  have herr : (h'.order other).mapM (fun v => do
      let vals ← (h'.values other).getE v
      Factor.reqIndex vals (Dict.get? [] v)) = .error .keyError := by
    refine mapM_error (fun w _ => ?_) ⟨v, hmem, ?_⟩
    · cases hw : (h'.values other).getE w with
      | ok vs => exact Or.inl ⟨_, rfl⟩
      | error e =>
        right
        unfold Dict.getE at hw
        cases hq : (h'.values other).get? w with
        | some x => rw [hq] at hw; cases hw
        | none => rw [hq] at hw; cases hw; rfl
    · have : (h'.values other).get? v = none := by
        rw [Dict.get?_eq_none, hd', hkeys]
        exact hvO
      rw [Dict.getE, this]
      rfl
  change (Factor.subTable (h'.factor other) [] >>= _) = _
  have : (h'.factor other).subTable [] = .error .keyError := by
    rw [Factor.subTable]
    exact congrArg (fun x => x >>= fun index =>
      if ([] : Dict (List Val)).length = 0 then pure (h'.factor other).potentials
        else (h'.factor other).potentials.ix index) herr
  rw [this]
  rfl

/-- If `self` has no variables, the result of `self.__mul__(other, useOther=True)` is the object
`other`, whose table is overwritten. -/
theorem C60_other_returned (op : ℚ → ℚ → ℚ) (so : SetOrder) {h : Heap} {self other : Nat}
    {S O P : Factor} (hs : h.Holds self S) (ho : h.Holds other O)
    (hS : S.variableOrder = []) (hP : S.binop op so O = .ok P) :
    ∃ h', binop op so true self other h = (h', .ok other) ∧ h'.factor other = P := by
  obtain ⟨po, oo, ao⟩ := ho.ex
  have h0 : S.variableOrder.length = 0 := by rw [hS]; rfl
  rw [Factor.binop, if_pos h0, bind_eq_ok] at hP
  obtain ⟨c, hc, hP⟩ := hP
  cases hP
  obtain ⟨h1, p1, r1, e1, n1, -⟩ := run_npOp hs.pot.pot ho.pot.pot hc
  obtain ⟨h2, r2, o2, b2⟩ := own_setPot (oo.mono e1).own p1
  refine ⟨h2, ?_, ?_⟩
  · rw [binop, HM.read_bind, HM.read_bind, hs.order, if_pos h0]
    change (opInto op other self other >>= fun _ => pure other : HM Nat) h = _
    have : opInto op other self other h = (h2, .ok ()) := by
      rw [opInto, HM.read_bind, HM.read_bind, HM.bind_ok r1, r2]
    rw [HM.bind_ok this]
    rfl
  · rw [o2.obj.factor, (n1.congr b2).at_.pot]

/-! ## concrete programs -/

section Examples

/-- the tables of two nodes -/
private def tables : List NDArray :=
  [⟨[2], [1/4, 3/4], rfl⟩, ⟨[2, 2], [1/2, 1/3, 1/2, 2/3], rfl⟩]

private def nodeA : NodeV :=
  { name := "A", values := ["t", "f"], parentOrder := [], parents := [], cpd := ⟨[0], [], rfl⟩ }

private def nodeB : NodeV :=
  { name := "B", values := ["t", "f"], parentOrder := ["A"], parents := [("A", ["t", "f"])],
    cpd := ⟨[0], [], rfl⟩ }

/-- factors of the nodes, their product (2), a marginal (3), evidence (4), the product of a factor with
itself (5); then assignments to the table of a node, to tables, labels and variable lists of factors,
an in-place normalisation, and two statements that raise -/
private def program : List Cmd :=
  [.fromNode nodeA 0, .fromNode nodeB 1, .mul .insertion 0 1, .marginalize 2 ["A"],
    .hard "B" ["t", "f"] "t", .mul .insertion 3 3, .getPotential 2 [("A", ["t"])],
    .write 0 [1] 9, .poke 0 [0] 5, .normalize 2, .poke 5 [1] 0, .relabel 3 "B" ["yes", "no"],
    .reorder 2 ["B", "A"], .write 2 [0] 7, .div .insertion 4 0, .marginalize 4 ["C"]]

/-- the program meets the hypothesis of `C59_no_sharing_partial` ... -/
example : ∀ c ∈ program, c.Exposes = false := by decide

/-- ... and what it computes: the node tables and the factors are changed by exactly the assignments
made to them. -/
example : (((HState.start tables).run program).2 =
      [none, none, none, none, none, none, none, none, none, none, none, none, none, none,
        some .valueError, some .valueError] ∧
    ((HState.start tables).run program).1.contents.arrs.map NDArray.data =
      [[1/4, 9], [1/2, 1/3, 1/2, 2/3], [7, 1/8]] ∧
    ((HState.start tables).run program).1.contents.facs.map (fun F => F.potentials.data) =
      [[5, 3/4], [1/2, 1/3, 1/2, 2/3], [1/8, 1/8, 1/4, 1/2], [3/8, 5/8], [1, 0], [9/64, 0]]) := by
  decide +kernel

/-- a program that meets the hypotheses of the two theorems about `get_potential()` -/
private def shortProgram : List Cmd := [.fromNode nodeA 0]

private def factorA : Factor := ⟨⟨[2], [1/4, 3/4], rfl⟩, ["A"], [("A", ["t", "f"])]⟩

example : (∀ c ∈ shortProgram, c.Exposes = false) ∧
    (VState.run { arrs := tables } shortProgram).1.facs[0]? = some factorA ∧
    factorA.getPotential [] = .ok factorA.potentials ∧ factorA.variableOrder ≠ [] ∧
    [1] ∈ allIdx factorA.potentials.shape := by decide +kernel

/-- Without the restriction the two meanings differ: `get_potential()` hands out the table itself. -/
theorem C59_get_potential_refuted : ¬ ∀ (arrays : List NDArray) (cs : List Cmd),
    ((HState.start arrays).run cs).1.contents = (VState.run { arrs := arrays } cs).1 := by
  intro h
  have := congrArg (fun s => s.facs.map fun F => F.potentials.data)
    (h tables [.fromNode nodeA 0, .getPotential 0 [], .write 2 [0] 7])
  revert this
  decide +kernel

/-- memory with the factors of the two nodes -/
private def twoFactors : Heap := ((HState.start tables).run [.fromNode nodeA 0, .fromNode nodeB 1]).1.heap

private theorem twoFactors_inv : Inv ((HState.start tables).run [.fromNode nodeA 0, .fromNode nodeB 1]).1
    (VState.run { arrs := tables } [.fromNode nodeA 0, .fromNode nodeB 1]).1 :=
  (agree_run _ (inv_start tables) (by decide)).1

private def factorB : Factor :=
  ⟨⟨[2, 2], [1/2, 1/3, 1/2, 2/3], rfl⟩, ["B", "A"], [("B", ["t", "f"]), ("A", ["t", "f"])]⟩

/-- the hypotheses of `C60_other_broken` hold for the factors of `B` and `A` -/
example : ∃ P, twoFactors.Holds 1 factorB ∧ twoFactors.Holds 0 factorA ∧ factorA.variableOrder ≠ [] ∧
    (∀ v, v ∈ factorA.values.keys ↔ v ∈ factorA.variableOrder) ∧
    factorB.binop (· * ·) .insertion factorA = .ok P ∧ "B" ∈ factorB.variableOrder ∧
    "B" ∉ factorA.variableOrder := by
  have hf : ((HState.start tables).run [.fromNode nodeA 0, .fromNode nodeB 1]).1.facs = [0, 1] := by
    decide +kernel
  have hv : (VState.run { arrs := tables } [.fromNode nodeA 0, .fromNode nodeB 1]).1.facs =
      [factorA, factorB] := by decide +kernel
  have hI := twoFactors_inv.facs
  rw [hf, hv] at hI
  cases hI with
  | cons h1 h2 =>
    cases h2 with
    | cons h2 _ =>
      exact ⟨⟨⟨[2, 2], [1/8, 1/4, 1/8, 1/2], rfl⟩, ["B", "A"], [("B", ["t", "f"]), ("A", ["t", "f"])]⟩,
        h2, h1, by decide, by simp [factorA, Dict.keys], by decide +kernel, by decide, by decide⟩

private def nodeA' : NodeV :=
  { name := "A", values := ["t", "f"], parentOrder := ["B"], parents := [("B", ["t", "f"])],
    cpd := ⟨[0], [], rfl⟩ }

private def factorBA : Factor :=
  ⟨⟨[2, 2], [1, 2, 3, 4], rfl⟩, ["B", "A"], [("B", ["t", "f"]), ("A", ["t", "f"])]⟩

private def factorAB : Factor :=
  ⟨⟨[2, 2], [1, 2, 3, 4], rfl⟩, ["A", "B"], [("A", ["t", "f"]), ("B", ["t", "f"])]⟩

private def tables' : List NDArray := [⟨[2, 2], [1, 2, 3, 4], rfl⟩]

private def twoFactors' : Heap :=
  ((HState.start tables').run [.fromNode nodeB 0, .fromNode nodeA' 0]).1.heap

/-- Without missing variables the damage is silent: after `f.__mul__(g, useOther=True)` for factors
over `B, A` and `A, B` the table of `g` is transposed, its variable list is not. -/
theorem C60_other_transposed : ∃ (h : Heap) (f g : Nat) (F G : Factor), h.Holds f F ∧ h.Holds g G ∧
    F.variableOrder = ["B", "A"] ∧ G.variableOrder = ["A", "B"] ∧
    G.potentials = ⟨[2, 2], [1, 2, 3, 4], rfl⟩ ∧
    ∃ h' r, binop (· * ·) .insertion true f g h = (h', .ok r) ∧
      h'.factor g = { G with potentials := ⟨[2, 2], [1, 3, 2, 4], rfl⟩ } := by
  have hI := (agree_run [.fromNode nodeB 0, .fromNode nodeA' 0] (inv_start tables') (by decide)).1.facs
  have hf : ((HState.start tables').run [.fromNode nodeB 0, .fromNode nodeA' 0]).1.facs = [0, 1] := by
    decide +kernel
  have hv : (VState.run { arrs := tables' } [.fromNode nodeB 0, .fromNode nodeA' 0]).1.facs =
      [factorBA, factorAB] := by decide +kernel
  rw [hf, hv] at hI
  cases hI with
  | cons h1 h2 =>
    cases h2 with
    | cons h2 _ =>
      refine ⟨twoFactors', 0, 1, factorBA, factorAB, h1, h2, rfl, rfl, rfl,
        (binop (· * ·) .insertion true 0 1 twoFactors').1, 2, ?_, ?_⟩
      · have : (binop (· * ·) .insertion true 0 1 twoFactors').2 = .ok 2 := by decide +kernel
        rw [← this]
      · decide +kernel

end Examples

end Primo
