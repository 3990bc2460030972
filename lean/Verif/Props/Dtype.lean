import Verif.Lemmas.DtypeProg
import Verif.Lemmas.DtypeDecision
import Verif.Props.Node
import Verif.Props.HeapQuery
import Verif.Props.Decision

/-! # Element types of tables: C67 -/

namespace Primo

open Typed Query Mem

/-! ## nodes -/

theorem TypedNode.put_node (n : TypedNode) (d : DType) (x : Except PyErr NDArray) :
    (n.put d x).1.node = (n.node.store x).1 ∧ (n.put d x).2 = (n.node.store x).2 ∧
      ((n.put d x).1.dt = d ∨ (n.put d x).1.dt = n.dt) := by
  cases x with
  | ok a => exact ⟨rfl, rfl, .inl rfl⟩
  | error e => exact ⟨rfl, rfl, .inr rfl⟩

/-- one call on a node with a float table -/
theorem TypedNode.call_float (n : TypedNode) (hn : n.dt = .float) (c : NodeCall) (hc : c.Float) :
    (n.call c).1.node = (n.node.call c).1 ∧ (n.call c).2 = (n.node.call c).2 ∧ (n.call c).1.dt = .float := by
  cases c with
  | restructure m => exact ⟨rfl, rfl, rfl⟩
  | setCpd c d =>
    obtain ⟨h1, h2, h3⟩ := n.put_node d (n.node.setCpd c)
    exact ⟨h1, h2, h3.elim (·.trans hc) (·.trans hn)⟩
  | setProbability v p pv =>
    obtain ⟨h1, h2, h3⟩ := n.put_node n.dt (n.node.setProbability v (n.dt.cast p) pv)
    have e : n.dt.cast p = p := by rw [hn]; rfl
    refine ⟨h1.trans ?_, h2.trans ?_, h3.elim (·.trans hn) (·.trans hn)⟩ <;> rw [e] <;> rfl
  | setUtilities u d =>
    obtain ⟨h1, h2, h3⟩ := n.put_node d (n.node.setUtilities u)
    exact ⟨h1, h2, h3.elim (·.trans hc) (·.trans hn)⟩
  | setUtility u pv =>
    obtain ⟨h1, h2, h3⟩ := n.put_node n.dt (n.node.setUtility (n.dt.cast u) pv)
    have e : n.dt.cast u = u := by rw [hn]; rfl
    refine ⟨h1.trans ?_, h2.trans ?_, h3.elim (·.trans hn) (·.trans hn)⟩ <;> rw [e] <;> rfl

/-- **C67** Any sequence of calls on a node, of which all arrays are arrays of floats, has the effect and the
exceptions that it has if tables can hold any numbers.  Missing for the full statement: arrays of integers
or truth values, for which it is false (`C67_assignment_refuted`); what happens then is said by
`C67_set_probability` and `C67_utilities`. -/
theorem C67_node_calls_partial (n : TypedNode) (hn : n.dt = .float) (cs : List NodeCall)
    (hc : ∀ c ∈ cs, c.Float) :
    (n.calls cs).1.node = (n.node.calls cs).1 ∧ (n.calls cs).2 = (n.node.calls cs).2 ∧
      (n.calls cs).1.dt = .float := by
  induction cs generalizing n with
  | nil => exact ⟨rfl, rfl, hn⟩
  | cons c cs ih =>
    obtain ⟨h1, h2, h3⟩ := n.call_float hn c (hc c List.mem_cons_self)
    obtain ⟨i1, i2, i3⟩ := ih (n.call c).1 h3 fun d hd => hc d (List.mem_cons_of_mem _ hd)
    unfold TypedNode.calls NodeV.calls
    dsimp only
    rw [← h1, ← h2]
    exact ⟨i1, by rw [i2], i3⟩

namespace Ex

/-- a node with two outcomes and the table of zeros that every new node has -/
def penny : NodeV := ⟨"a", .discrete, ["t", "f"], [], [], [], ⟨[2], [0, 0], rfl⟩, false⟩

/-- the outcomes of its only variable -/
def pennyLab : Name → List Val := fun _ => ["t", "f"]

theorem penny_ok (t : NDArray) (ht : t.shape = [2]) : ({ penny with cpd := t } : NodeV).TableOK pennyLab :=
  ⟨List.nodup_nil, by simp [penny], by rw [show ({ penny with cpd := t } : NodeV).cpd = t from rfl, ht]; rfl⟩

/-- a utility node with that parent -/
def gain : NodeV := ⟨"u", .utility, [], ["a"], [("a", ["t", "f"])], [], ⟨[2], [0, 0], rfl⟩, false⟩

theorem gain_ok : gain.TableOK pennyLab := ⟨by decide, by decide, by decide⟩

end Ex

/-- Two accepted calls and a rejected one. -/
example := C67_node_calls_partial ⟨Ex.penny, .float⟩ rfl
  [.setCpd ⟨[2], [0, 1], rfl⟩ .float, .setProbability "t" (3 / 10) [], .setProbability "?" 1 []]
  (by
    intro c hc
    rcases List.mem_cons.1 hc with rfl | hc
    · exact rfl
    rcases List.mem_cons.1 hc with rfl | hc
    · trivial
    · rw [List.mem_singleton.1 hc]
      trivial)

/-- **C67** `set_probability(value, prob, pv)` with known outcomes stores the number that the element type of
the table makes of `prob`: exactly `prob` in a table of floats, `prob` without its fractional part in a
table of integers, and 1 for anything but 0 in a table of truth values.  All other entries are kept. -/
theorem C67_set_probability {lab : Name → List Val} (n : TypedNode) (h : n.node.TableOK lab)
    (hkind : n.node.kind = .discrete)
    (value : Val) (prob : ℚ) (pv : Dict Val) (hv : n.node.values = [] ∨ value ∈ n.node.values)
    (hk : n.node.KnownValues lab pv) :
    (n.setProbability value prob pv).2 = none ∧ (n.setProbability value prob pv).1.dt = n.dt ∧
    ∀ w st y, n.node.getSingle w st = .ok y →
      (n.setProbability value prob pv).1.node.getSingle w st =
        .ok (if (n.node.values ≠ [] → w = value) ∧ ∀ p ∈ n.node.parentOrder, ∀ x, pv.get? p = some x →
            st.get? p = some x then
          match n.dt with
          | .float => prob
          | .int => if 0 ≤ prob then (prob.floor : ℚ) else (prob.ceil : ℚ)
          | .bool => if prob = 0 then 0 else 1
        else y) := by
  obtain ⟨a, ha, -, -⟩ := (C35_set_probability n.node h hkind value (n.dt.cast prob) pv).2 hv hk
  have e : n.setProbability value prob pv =
      (⟨{ n.node with cpd := a, plain := false }, n.dt⟩, none) := by
    unfold TypedNode.setProbability
    rw [ha]
    rfl
  rw [e]
  refine ⟨rfl, rfl, fun w st y hy => ?_⟩
  have r := C35_read_back n.node h hkind value (n.dt.cast prob) pv a ha w st y hy
  have g : ∀ b, ({ n.node with cpd := a, plain := b } : NodeV).getSingle w st =
      ({ n.node with cpd := a } : NodeV).getSingle w st := fun _ => rfl
  dsimp only
  rw [g]
  split
  · rename_i hc
    rw [r.1 hc]
    cases n.dt <;> rfl
  · rename_i hc
    exact r.2 hc

/-- A table of integers. -/
example := C67_set_probability (lab := Ex.pennyLab) ⟨{ Ex.penny with cpd := ⟨[2], [0, 1], rfl⟩ }, .int⟩
  (Ex.penny_ok _ rfl) rfl "t" (3 / 10) [] (.inr (by decide)) (by simp [NodeV.KnownValues, Ex.penny])

/-- a write to a utility node; arrays come with their element types -/
inductive TWrite
  | cells (u : ℚ) (pv : Dict Val)
  | table (t : NDArray) (d : DType)

/-- perform a write; a rejected write raises and leaves the node alone -/
def TypedNode.uwrite (n : TypedNode) : TWrite → TypedNode
  | .cells u pv => (n.setUtility u pv).1
  | .table t d => (n.setUtilities t d).1

open Classical in
/-- Specification: number and element type that are found in the cell of the parent instantiation `st`
after a write, if `cur` was found before. -/
noncomputable def stored (lab : Name → List Val) (ps : List Name) (st : Dict Val) (cur : ℚ × DType) :
    TWrite → ℚ × DType
  | .cells u pv =>
    if ∀ p ∈ ps, ∀ x, pv.get? p = some x → x ∈ lab p ∧ st.get? p = some x then (cur.2.cast u, cur.2) else cur
  | .table t d =>
    if t.shape = ps.map fun p => (lab p).length then
      (t.get (ps.map fun p => (lab p).idxOf ((st.get? p).getD "")), d)
    else cur

/-- one write -/
theorem TypedNode.uwrite_stored {lab : Name → List Val} (n : TypedNode) (h : n.node.TableOK lab)
    (hkind : n.node.kind = .utility) (hv : n.node.values = []) (hpl : n.node.plain = false) (w : TWrite) :
    (n.uwrite w).node.TableOK lab ∧ (n.uwrite w).node.kind = .utility ∧ (n.uwrite w).node.values = [] ∧
    (n.uwrite w).node.plain = false ∧ (n.uwrite w).node.parentOrder = n.node.parentOrder ∧
    ∀ st y, n.node.getUtility st = .ok y →
      ((n.uwrite w).node.getUtility st).map (·, (n.uwrite w).dt) =
        .ok (stored lab n.node.parentOrder st (y, n.dt) w) := by
  cases w with
  | cells u pv =>
    have key : (n.uwrite (.cells u pv)).node = n.node.uwrite (.cells (n.dt.cast u) pv) ∧
        (n.uwrite (.cells u pv)).dt = n.dt := by
      unfold TypedNode.uwrite TypedNode.setUtility NodeV.uwrite
      dsimp only
      cases n.node.setUtility (n.dt.cast u) pv with
      | error e => exact ⟨rfl, rfl⟩
      | ok a =>
        refine ⟨?_, rfl⟩
        unfold TypedNode.put
        dsimp only
        rw [← hpl]
    obtain ⟨h1, h2, h3, h4, h5, h6⟩ := C38_one_write_partial n.node h hkind hv hpl (.cells (n.dt.cast u) pv)
    rw [key.1, key.2]
    refine ⟨h1, h2, h3, h4, h5, fun st y hy => ?_⟩
    rw [h6 st y hy]
    unfold written stored
    dsimp only
    split
    · rfl
    · rfl
  | table t d =>
    have key : (n.uwrite (.table t d)).node = n.node.uwrite (.table t) := by
      unfold TypedNode.uwrite TypedNode.setUtilities NodeV.uwrite
      dsimp only
      cases n.node.setUtilities t with
      | error e => rfl
      | ok a =>
        unfold TypedNode.put
        dsimp only
        rw [← hpl]
    have kd : (n.uwrite (.table t d)).dt =
        if t.shape = n.node.parentOrder.map fun p => (lab p).length then d else n.dt := by
      have hs : n.node.cpd.shape = n.node.parentOrder.map fun p => (lab p).length := by
        rw [h.shape, if_pos hv, List.nil_append]
      unfold TypedNode.uwrite TypedNode.setUtilities NodeV.setUtilities
      dsimp only
      rw [if_neg (not_not_intro hkind), ← hs]
      by_cases ht : n.node.cpd.shape = t.shape
      · rw [if_neg (not_not_intro ht), if_pos ht.symm]
        rfl
      · rw [if_pos ht, if_neg (Ne.symm ht)]
        rfl
    obtain ⟨h1, h2, h3, h4, h5, h6⟩ := C38_one_write_partial n.node h hkind hv hpl (.table t)
    rw [key, kd]
    refine ⟨h1, h2, h3, h4, h5, fun st y hy => ?_⟩
    rw [h6 st y hy]
    unfold written stored
    dsimp only
    split
    · rfl
    · rfl

/-- **C67** Reading a utility after any sequence of writes gives the number of the last matching accepted
write, converted to the element type of the last accepted table. -/
theorem C67_utilities {lab : Name → List Val} (n : TypedNode) (h : n.node.TableOK lab)
    (hkind : n.node.kind = .utility) (hv : n.node.values = []) (hpl : n.node.plain = false)
    (ws : List TWrite) (st : Dict Val) (y : ℚ) (hy : n.node.getUtility st = .ok y) :
    ((ws.foldl TypedNode.uwrite n).node.getUtility st).map (·, (ws.foldl TypedNode.uwrite n).dt) =
      .ok (ws.foldl (stored lab n.node.parentOrder st) (y, n.dt)) := by
  induction ws generalizing n y with
  | nil =>
    change (n.node.getUtility st).map _ = _
    rw [hy]
    rfl
  | cons w ws ih =>
    obtain ⟨h1, h2, h3, h4, h5, h6⟩ := n.uwrite_stored h hkind hv hpl w
    have h7 := h6 st y hy
    cases hg : (n.uwrite w).node.getUtility st with
    | error e => rw [hg] at h7; cases h7
    | ok z =>
      rw [hg] at h7
      have h8 : (z, (n.uwrite w).dt) = stored lab n.node.parentOrder st (y, n.dt) w := Except.ok.inj h7
      rw [List.foldl_cons, List.foldl_cons, ih _ h1 h2 h3 h4 z hg, h5, h8]

/-- An array of integers, a number with a fractional part, an array of floats, and that number again. -/
example := C67_utilities (lab := Ex.pennyLab) ⟨Ex.gain, .float⟩ Ex.gain_ok rfl rfl rfl
  [.table ⟨[2], [10, 5], rfl⟩ .int, .cells (15 / 2) [("a", "t")], .table ⟨[2], [10, 5], rfl⟩ .float,
    .cells (15 / 2) [("a", "t")]] [("a", "t")] 0 (by decide +kernel)

/-- **C67** "A node stores the number that it is given" is false: after `set_cpd(np.array([0, 1]))` a
probability of 0.3 is stored as 0, and after `set_utilities(np.array([10, 5]))` a utility of 7.5 as 7, in
both cases without an exception. -/
theorem C67_assignment_refuted :
    (∃ (n : TypedNode) (t : NDArray), DType.int.Holds t ∧
      let m := n.calls [.setCpd t .int, .setProbability "t" (3 / 10) []]
      m.2 = [none, none] ∧ m.1.node.getSingle "t" [] = .ok 0) ∧
    ∃ (n : TypedNode) (t : NDArray), DType.int.Holds t ∧
      let m := n.calls [.setUtilities t .int, .setUtility (15 / 2) [("a", "t")]]
      m.2 = [none, none] ∧ m.1.node.getUtility [("a", "t")] = .ok 7 := by
  refine ⟨⟨⟨Ex.penny, .float⟩, ⟨[2], [0, 1], rfl⟩, ?_, ?_, ?_⟩,
    ⟨Ex.gain, .float⟩, ⟨[2], [10, 5], rfl⟩, ?_, ?_, ?_⟩
  · unfold DType.Holds; decide +kernel
  · decide +kernel
  · decide +kernel
  · unfold DType.Holds; decide +kernel
  · decide +kernel
  · decide +kernel

/-! ## inference -/

/-- **C67** Variable elimination does not depend on the element types of the tables of the network and of the
evidence: it raises the same exception or returns the same factor as for tables of any numbers, and that
factor is one of floats. -/
theorem C67_elimination (so : SetOrder) (tn : TBN) (vars : List Name) (ev : TEvidence)
    (order : Option (List Name)) :
    (TVE.naiveMarginals so tn vars ev).map TFactor.val = VE.naiveMarginals so tn.erase vars ev.erase ∧
    (TVE.bucketMarginals so tn vars ev order).map TFactor.val =
      VE.bucketMarginals so tn.erase vars ev.erase order ∧
    (∀ t, TVE.naiveMarginals so tn vars ev = .ok t → t.dt = .float) ∧
    ∀ t, TVE.bucketMarginals so tn vars ev order = .ok t → t.dt = .float := by
  have h1 := TVE.naive_fl so tn vars ev
  have h2 := TVE.bucket_fl so tn vars ev order
  exact ⟨h1.map_eq fun _ _ h => h.1, h2.map_eq fun _ _ h => h.1,
    DState.ensures_fl h1 fun _ _ h => h.2.1, DState.ensures_fl h2 fun _ _ h => h.2.1⟩

/-- **C67** The same for factor trees: whatever the element types of the tables and of the evidence, all
factors of the tree are floats, and all methods do what they do for tables of any numbers. -/
theorem C67_trees (so : SetOrder) (tn : TBN) (order : Option (List Name)) (limit : Nat) :
    (TTree.create so tn order).map TTree.erase = JoinTree.create so tn.erase order ∧
    (∀ t, TTree.create so tn order = .ok t → t.AllFloat) ∧
    ∀ t : TTree, t.AllFloat →
      (∀ r, (r = t.reset so tn → (r.1.erase, r.2) = t.erase.reset so tn.erase) ∧
        (r = t.calculate so limit → (r.1.erase, r.2) = t.erase.calculate so limit) ∧
        (∀ ev soft, r = t.setEvidence so limit tn ev soft →
          (r.1.erase, r.2) = t.erase.setEvidence so limit tn.erase ev.erase soft) ∧
        (r = t.reset so tn ∨ r = t.calculate so limit ∨ (∃ ev soft, r = t.setEvidence so limit tn ev soft) →
          r.1.AllFloat)) ∧
      ∀ vars, let r := t.marginals so limit vars
        (r.1.erase, r.2.map TFactor.val) = t.erase.marginals so limit vars ∧ r.1.AllFloat ∧
          ∀ f, r.2 = .ok f → f.dt = .float := by
  have hc := TTree.create_ft so tn order
  have fr : ∀ {r : TRes} {q : JRes}, TTree.FR r q → (r.1.erase, r.2) = q := fun {r q} h =>
    Prod.ext h.1.erase h.2
  refine ⟨hc.map_eq fun _ _ h => h.erase, ?_, fun t ht => ⟨fun r => ⟨?_, ?_, ?_, ?_⟩, fun vars => ⟨?_, ?_, ?_⟩⟩⟩
  · intro t ht
    rw [ht] at hc
    generalize JoinTree.create so _ order = y at hc
    cases hc with
    | ok hd => exact hd.allFloat
  · rintro rfl
    exact fr (TTree.reset_ft so tn ht.ft)
  · rintro rfl
    exact fr (TTree.calculate_ft so limit ht.ft)
  · rintro ev soft rfl
    exact fr (TTree.setEvidence_ft so limit tn ev soft ht.ft)
  · rintro (rfl | rfl | ⟨ev, soft, rfl⟩)
    · exact (TTree.reset_ft so tn ht.ft).1.allFloat
    · exact (TTree.calculate_ft so limit ht.ft).1.allFloat
    · exact (TTree.setEvidence_ft so limit tn ev soft ht.ft).1.allFloat
  · have := TTree.marginals_ft so limit vars ht.ft
    exact Prod.ext this.1.erase (this.2.map_eq fun _ _ h => h.1.1)
  · exact (TTree.marginals_ft so limit vars ht.ft).1.allFloat
  · exact DState.ensures_fl (TTree.marginals_ft so limit vars ht.ft).2 fun _ _ h => h.1.2

/-! ### the whole network -/

namespace Ex

/-- the network of the examples, with tables of truth values, integers and floats -/
def typedBn : TBN := [⟨nd, .float⟩, ⟨na, .float⟩, ⟨{ nb with cpd := ⟨nb.cpd.shape, nb.cpd.data.map fun _ => 1, by
  rw [List.length_map]; exact nb.cpd.size_eq⟩ }, .int⟩, ⟨nc, .float⟩]

/-- soft evidence with an array of truth values -/
def typedEv : TEvidence := [("d", (.hard "t", .float)), ("b", (.soft [1, 0, 1], .bool))]

end Ex

/-- A table of integers and an array of truth values. -/
example : ∃ t, TVE.bucketMarginals .insertion Ex.typedBn ["c"] Ex.typedEv none = .ok t ∧
    VE.bucketMarginals .insertion Ex.typedBn.erase ["c"] Ex.typedEv.erase none = .ok t.val := by
  obtain ⟨-, h, -, -⟩ := C67_elimination .insertion Ex.typedBn ["c"] Ex.typedEv none
  have hok : (TVE.bucketMarginals .insertion Ex.typedBn ["c"] Ex.typedEv none).isOk = true := by
    decide +kernel
  cases ht : TVE.bucketMarginals .insertion Ex.typedBn ["c"] Ex.typedEv none with
  | error e => rw [ht] at hok; cases hok
  | ok t =>
    rw [ht] at h
    exact ⟨t, rfl, h.symm⟩

/-- The tree exists, and soft evidence is set. -/
example : ∃ t, TTree.create .insertion Ex.typedBn none = .ok t ∧ t.AllFloat ∧
    (t.setEvidence .insertion 9 Ex.typedBn Ex.typedEv false).2 = none := by
  obtain ⟨-, h, h'⟩ := C67_trees .insertion Ex.typedBn none 9
  have hok : ((TTree.create .insertion Ex.typedBn none).map fun t =>
      (t.setEvidence .insertion 9 Ex.typedBn Ex.typedEv false).2) = .ok none := by decide +kernel
  cases ht : TTree.create .insertion Ex.typedBn none with
  | error e => rw [ht] at hok; cases hok
  | ok t =>
    rw [ht] at hok
    exact ⟨t, rfl, h t ht, Except.ok.inj hok⟩

/-! ## programs -/

theorem Typed.DState.start_erase (arrays : List (NDArray × DType)) :
    (DState.start arrays).erase = CState.start (arrays.map Prod.fst) := by
  unfold DState.start DState.erase CState.start
  simp [DTab.erase, Function.comp_def]

theorem Typed.DState.start_floats (arrays : List (NDArray × DType)) (h : ∀ a ∈ arrays, a.2 = .float) :
    (DState.start arrays).Floats := by
  refine ⟨h, ?_, ?_, ?_⟩
  · intro F hF
    exact absurd hF List.not_mem_nil
  · intro t ht x d hx
    obtain ⟨c, -, rfl⟩ := List.mem_map.1 ht
    cases hx
  · intro t ht
    exact absurd ht List.not_mem_nil

theorem Typed.DState.start_trees (arrays : List (NDArray × DType)) : (DState.start arrays).TreesFloat := by
  intro t ht
  exact absurd ht List.not_mem_nil

/-- **C67** A program, starting with arrays of any types, raises the same exceptions and finds the same
contents in its variables as in the memory of C66, which knows no types, as long as no statement depends on
the types when it is executed: `normalize` of an array of integers or truth values with a positive sum,
assignment of a number that the type of the table cannot hold, and the sum of two tables of truth values
do.  Missing for the full statement: these three, see `C67_programs_refuted` and `C67_int_statements`. -/
theorem C67_programs_partial (arrays : List (NDArray × DType)) (cs : List Stmt)
    (h : (DState.start arrays).AllHarmless cs) :
    ((DState.start arrays).run cs).1.erase.contents = (reach (arrays.map Prod.fst) cs).contents ∧
    ((DState.start arrays).run cs).2 = ((QState.start (arrays.map Prod.fst)).run cs).2 := by
  obtain ⟨h1, h2, -⟩ := DState.run_erase (DState.start_trees arrays) cs h
  obtain ⟨g1, g2⟩ := C66_programs_agree (arrays.map Prod.fst) cs
  rw [g1, g2, h1, h2, DState.start_erase]
  exact ⟨rfl, rfl⟩

/-- **C67** If all arrays that a program starts with are arrays of floats, no statement depends on the
types. -/
theorem C67_float_programs (arrays : List (NDArray × DType)) (ha : ∀ a ∈ arrays, a.2 = .float)
    (cs : List Stmt) :
    ((DState.start arrays).run cs).1.erase.contents = (reach (arrays.map Prod.fst) cs).contents ∧
    ((DState.start arrays).run cs).2 = ((QState.start (arrays.map Prod.fst)).run cs).2 :=
  C67_programs_partial arrays cs ((DState.start_floats arrays ha).allHarmless cs)

example := C67_float_programs (Ex.tables.map (·, .float))
  (by intro a ha; obtain ⟨b, -, rfl⟩ := List.mem_map.1 ha; rfl) Ex.asking

/-- **C67** Programs that only ask queries, use factor trees, and multiply, divide, marginalise, copy and
read factors never depend on the types. -/
theorem C67_queries (arrays : List (NDArray × DType)) (cs : List Stmt)
    (h : ∀ c ∈ cs, c.Alters = false ∧ ∀ so i j, c ≠ .factor (.add so i j)) :
    ((DState.start arrays).run cs).1.erase.contents = (reach (arrays.map Prod.fst) cs).contents ∧
    ((DState.start arrays).run cs).2 = ((QState.start (arrays.map Prod.fst)).run cs).2 := by
  refine C67_programs_partial arrays cs ?_
  generalize DState.start arrays = s
  induction cs generalizing s with
  | nil => trivial
  | cons c cs ih =>
    refine ⟨?_, ih (fun d hd => h d (List.mem_cons_of_mem _ hd)) _⟩
    obtain ⟨h1, h2⟩ := h c List.mem_cons_self
    cases c with
    | factor c =>
      cases c with
      | add so i j => exact absurd rfl (h2 so i j)
      | normalize => cases h1
      | write => cases h1
      | poke => cases h1
      | _ => trivial
    | _ => trivial

namespace Ex

/-- the tables of the examples, one of them with integers, and soft evidence with truth values -/
def typedTables : List (NDArray × DType) :=
  [(nd.cpd, .float), (na.cpd, .float), (⟨nb.cpd.shape, nb.cpd.data.map fun _ => 1, by
    rw [List.length_map]; exact nb.cpd.size_eq⟩, .int), (nc.cpd, .float), (⟨[3], [1, 0, 1], rfl⟩, .bool)]

end Ex

namespace Ex

/-- a tree, evidence, a query, and operations on the answer -/
def typedAsking : List Stmt := [.tree .insertion Ex.liveNet none,
  .setEvidence .insertion 9 0 Ex.liveNet Ex.liveEv false, .marginals .insertion 9 0 ["c"],
  .factor (.fromNode Ex.nb 2), .factor (.mul .insertion 0 1), .factor (.marginalize 2 ["c"])]

end Ex

/-- None of the statements raises. -/
example : ((DState.start Ex.typedTables).run Ex.typedAsking).2 = [none, none, none, none, none, none] := by
  decide +kernel
example := C67_queries Ex.typedTables Ex.typedAsking (by simp [Ex.typedAsking, Stmt.Alters])

/-- **C67** What the three statements do with other types.  `normalize` of an array (not a number) of
integers or truth values with a positive sum raises a `TypeError` and changes nothing.  An assignment stores
the number that the type makes of it.  The sum of two tables of truth values is their "or". -/
theorem C67_int_statements (s : DState) :
    (∀ i F, var s.facs i = .ok F → F.tab.isNum = false → (s.typed F.tab).2 ≠ .float →
      0 < (s.typed F.tab).1.sumAll → s.step (.factor (.normalize i)) = (s, some .typeError)) ∧
    (∀ k c a d idx x b, var s.arrs k = .ok (.cell c) → s.cells[c]? = some (a, d) →
      assign a idx (d.cast x) = .ok b →
      s.step (.factor (.write k idx x)) = ({ s with cells := s.cells.set c (b, d) }, none)) ∧
    ∀ (card : Name → Nat) (t u : TFactor) so, t.dt = .bool → u.dt = .bool → t.val.WF card → u.val.WF card →
      ∃ r, t.add so u = .ok r ∧ r.dt = .bool ∧ ∀ σ, Legal card r.val.variableOrder σ →
        r.val.eval σ = if t.val.eval σ = 0 ∧ u.val.eval σ = 0 then 0 else 1 := by
  refine ⟨?_, ?_, ?_⟩
  · intro i F hF hn hd hs
    have : (s.fac F).normalize = .error .typeError := by
      unfold TFactor.normalize
      rw [if_pos (show (s.fac F).val.potentials.sumAll > 0 from hs), if_neg]
      rw [Bool.or_eq_true_iff, not_or]
      exact ⟨by rw [show (s.fac F).num = F.tab.isNum from rfl, hn]; decide,
        by rw [show (s.fac F).dt = (s.typed F.tab).2 from rfl]; simpa using hd⟩
    change s.withVar _ _ = _
    rw [hF]
    change s.withVar (s.fac F).normalize _ = _
    rw [this]
    rfl
  · intro k c a d idx x b hk hc hb
    have ht : s.typed (.cell c) = (a, d) := by
      change s.cells.getD c _ = _
      rw [List.getD_eq_getElem?_getD, hc]
      rfl
    change s.withVar _ _ = _
    rw [hk]
    change s.assignTo idx x (.cell c) = _
    unfold DState.assignTo
    dsimp only
    rw [ht, hb]
  · intro card t u so ht hu hwt hwu
    obtain ⟨r, h1, -, -, -, -, h2⟩ := Factor.binop_spec (t.dt.plus u.dt) so hwt hwu
    refine ⟨TFactor.result (t.dt.join u.dt) r, ?_, ?_, fun σ hσ => ?_⟩
    · unfold TFactor.add
      rw [h1]
      rfl
    · rw [ht, hu]
      rfl
    · rw [show (TFactor.result (t.dt.join u.dt) r).val = r from rfl, h2 σ hσ, ht, hu]
      rfl

/-- **C67** Summing a table of truth values counts: after `marginalize` over at least one variable, adding
two such tables adds the counts. -/
theorem C67_counts (card : Name → Nat) (t u : TFactor) {vs ws : List Name} (so : SetOrder)
    (ht : t.val.WF card) (hu : u.val.WF card) (hv : vs.Nodup) (hw : ws.Nodup)
    (hvt : ∀ v ∈ vs, v ∈ t.val.variableOrder) (hwu : ∀ v ∈ ws, v ∈ u.val.variableOrder)
    (hne : vs ≠ []) :
    ∃ t' u' r, t.marginalize vs = .ok t' ∧ u.marginalize ws = .ok u' ∧ t'.add so u' = .ok r ∧
      ∀ σ, Legal card r.val.variableOrder σ → r.val.eval σ =
        sumOver card vs.toFinset t.val.eval σ + sumOver card ws.toFinset u.val.eval σ := by
  obtain ⟨f, f1, f2, f3, f4, f5⟩ := Factor.marginalize_spec ht hv hvt
  obtain ⟨g, g1, g2, g3, g4, g5⟩ := Factor.marginalize_spec hu hw hwu
  obtain ⟨r, h1, h2, h3, h4, h5, h6⟩ := Factor.binop_spec (· + ·) so f2 g2
  have hty : ¬ (TFactor.sumType t.dt vs = .bool ∧ TFactor.sumType u.dt ws = .bool) := by
    rintro ⟨h, -⟩
    cases vs with
    | nil => exact hne rfl
    | cons v vs =>
      change t.dt.sum = .bool at h
      cases hd : t.dt <;> rw [hd] at h <;> cases h
  refine ⟨_, _, TFactor.result ((TFactor.sumType t.dt vs).join (TFactor.sumType u.dt ws)) r, by rw [TFactor.marginalize, f1]; rfl,
    by rw [TFactor.marginalize, g1]; rfl, ?_, fun σ hσ => ?_⟩
  · unfold TFactor.add
    dsimp only
    rw [Typed.DState.plus_eq hty, h1]
    rfl
  · rw [show (TFactor.result ((TFactor.sumType t.dt vs).join (TFactor.sumType u.dt ws)) r).val = r from rfl,
      h6 σ hσ, f5 σ fun v hv => hσ v ((h3 v).2 (Or.inl hv)),
      g5 σ fun v hv => hσ v ((h3 v).2 (Or.inr hv))]

/-- Two tables of truth values over `a`, summed: 1 + 2, not "true or true". -/
example : let t : TFactor := ⟨⟨⟨[2], [1, 0], rfl⟩, ["a"], [("a", ["t", "f"])]⟩, .bool, false⟩
    let u : TFactor := ⟨⟨⟨[2], [1, 1], rfl⟩, ["a"], [("a", ["t", "f"])]⟩, .bool, false⟩
    (do let t' ← t.marginalize ["a"]; let u' ← u.marginalize ["a"]; let r ← t'.add .insertion u'
        return r.val.potentials.data) = Except.ok (ε := PyErr) [3] := by decide +kernel

/-- **C67** "A program does what it does if tables hold any numbers" is false: a program that asks for the
table of a factor of integers and assigns 0.3, normalises a factor of integers, and adds two factors of truth
values finds 0, catches a `TypeError`, and finds 1 where 1 + 1 is expected. -/
theorem C67_programs_refuted : ∃ (arrays : List (NDArray × DType)) (cs : List Stmt),
    (∀ a ∈ arrays, a.2.Holds a.1) ∧
    let r := (DState.start arrays).run cs
    r.2 = [none, none, some .typeError, none, none] ∧
    ((QState.start (arrays.map Prod.fst)).run cs).2 = [none, none, none, none, none] ∧
    r.1.erase.contents.facs.map (·.potentials.data) = [[0, 1], [1, 1], [1, 1]] ∧
    (reach (arrays.map Prod.fst) cs).contents.facs.map (·.potentials.data) =
      [[3 / 13, 10 / 13], [1, 1], [2, 2]] := by
  refine ⟨[(⟨[2], [1, 1], rfl⟩, .int), (⟨[2], [1, 1], rfl⟩, .bool)],
    [.factor (.fromNode Ex.penny 0), .factor (.poke 0 [0] (3 / 10)), .factor (.normalize 0),
      .factor (.fromNode Ex.penny 1), .factor (.add .insertion 1 1)], ?_, ?_, ?_, ?_, ?_⟩
  · intro a ha
    rcases List.mem_cons.1 ha with rfl | ha
    · unfold DType.Holds; decide +kernel
    · rw [List.mem_singleton.1 ha]
      unfold DType.Holds; decide +kernel
  · decide +kernel
  · rw [(C66_programs_agree _ _).2]
    decide +kernel
  · decide +kernel
  · rw [(C66_programs_agree _ _).1]
    decide +kernel

/-- The statements of `C67_int_statements` occur in that program. -/
example : let s := ((DState.start [(⟨[2], [1, 1], rfl⟩, .int)]).run [.factor (.fromNode Ex.penny 0)]).1
    ∃ F, var s.facs 0 = .ok F ∧ F.tab.isNum = false ∧ (s.typed F.tab).2 = .int ∧
      0 < (s.typed F.tab).1.sumAll :=
  ⟨⟨.cell 1, ["a"], [("a", ["t", "f"])]⟩, rfl, rfl, rfl, by decide +kernel⟩

/-! ## decision networks -/

/-- **C67** If at most one utility node has a table of truth values, expected utilities and local optima do
not depend on element types.  Missing for the full statement: several such nodes, for which it is false
(`C67_utility_tables_refuted`). -/
theorem C67_decisions_partial (so : SetOrder) (pp : PosPerm) (tn : TBN)
    (hb : (tn.filter fun n => n.node.kind = .utility ∧ n.dt = .bool).length ≤ 1) (v : Name) :
    TDecision.evaluate so pp tn = Decision.evaluate so pp.erase tn.erase ∧
    TDecision.optimizeLocally so pp tn v = Decision.optimizeLocally so pp.erase tn.erase v := by
  have hb : TDecision.boolNodes tn ≤ 1 := by
    unfold TDecision.boolNodes
    rwa [List.countP_eq_length_filter]
  have key : ∀ (vs : List Name) {β : Type} (f : Factor → Except PyErr β),
      (tn.mapM TFactor.joint >>= fun fs => TDecision.generalizedVE so pp fs vs >>= fun r => f r.2.val) =
      (Decision.factors tn.erase >>= fun fs => Decision.generalizedVE so pp.erase fs vs >>= fun r => f r.2) := by
    intro vs β f
    have h1 := TDecision.factors_is tn
    generalize tn.mapM TFactor.joint = x at h1
    generalize Decision.factors tn.erase = y at h1
    cases h1 with
    | error e => rfl
    | @ok l m h =>
      have h2 := TDecision.generalizedVE_is so pp vs h.1 (h.2.trans hb)
      rw [ok_bind, ok_bind]
      generalize TDecision.generalizedVE so pp l vs = x at h2
      generalize Decision.generalizedVE so pp.erase m vs = y at h2
      cases h2 with
      | error e => rfl
      | @ok r R hr => rw [ok_bind, ok_bind, hr.2]
  constructor
  · exact key _ fun F => .ok F.potentials
  · unfold TDecision.optimizeLocally Decision.optimizeLocally
    cases Decision.lookup tn.erase v with
    | error e => rfl
    | ok d => exact key _ fun F => if d.kind = .utility then .error .attributeError else Decision.pick F v d.values none

/-- **C67** In particular the expected utility is that of the definition. -/
theorem C67_expected_utility_partial (so : SetOrder) (pp : PosPerm) (tn : TBN)
    (hb : (tn.filter fun n => n.node.kind = .utility ∧ n.dt = .bool).length ≤ 1)
    (hc : DNConsistent tn.erase) (hnn : tn.erase.chance.NonNeg) (hne : tn ≠ []) :
    TDecision.evaluate so pp tn =
      if mass tn.erase = 0 then .error .floatingPointError
      else .ok (NDArray.scalar (utilityMass tn.erase / mass tn.erase)) := by
  rw [(C67_decisions_partial so pp tn hb "").1]
  exact evaluate_spec so pp.erase hc hnn fun h => hne (List.map_eq_nil_iff.1 h)

/-- Tables of integers. -/
example := C67_expected_utility_partial .insertion ⟨fun _ n => List.finRange n, fun _ _ => .refl _⟩
  [⟨Ex.rawC 1 1, .int⟩, ⟨Ex.rawU, .int⟩] (by decide +kernel) (Ex.raw_consistent 1 1)
  (by
    intro n hn x hx
    have hn : n ∈ [Ex.rawC 1 1] := hn
    rw [List.mem_singleton.1 hn] at hx
    have hx : x ∈ [(1 : ℚ), 1] := hx
    simp only [List.mem_cons, List.not_mem_nil, or_false, or_self] at hx
    rw [hx]
    decide)
  (by simp)

namespace Ex

/-- a fair coin -/
def toss : NodeV := ⟨"c", .discrete, ["t", "f"], [], [], ["u", "w"], ⟨[2], [1 / 2, 1 / 2], rfl⟩, false⟩

/-- a utility of one, whatever the outcome -/
def always (v : Name) : NodeV :=
  ⟨v, .utility, [], ["c"], [("c", ["t", "f"])], [], ⟨[2], [1, 1], rfl⟩, false⟩

/-- a coin and two utilities of truth values -/
def wins : TBN := [⟨toss, .float⟩, ⟨always "u", .bool⟩, ⟨always "w", .bool⟩]

theorem wins_consistent : DNConsistent wins.erase := by
  have h : wins.erase.chance = [toss] := rfl
  have h' : wins.erase.utils = [always "u", always "w"] := rfl
  constructor
  · show ["c", "u", "w"].Nodup; decide
  · rw [h]
    constructor <;> simp [toss, BN.names]
  · rw [h']; simp [always]
  · rw [h, h']; simp [toss, always, BN.names]
  · rw [h, h']; simp [toss, always, BN.lab, Dict.get?]
  · rw [h, h']; simp [toss, always, BN.lab, BN.card]

end Ex

/-- **C67** With two utility nodes that have tables of truth values this is false: the utilities of a coin
with `set_utilities(np.array([True, True]))` for both are 1 + 1, but the result is 2 or 1, depending on the
order in which Python iterates the set of factors. -/
theorem C67_utility_tables_refuted : ∃ tn : TBN, DNConsistent tn.erase ∧
    (∀ n ∈ tn, n.dt.Holds n.node.cpd) ∧ mass tn.erase = 1 ∧ utilityMass tn.erase = 2 ∧
    ∃ pp pp' : PosPerm, TDecision.evaluate .insertion pp tn = .ok (NDArray.scalar 2) ∧
      TDecision.evaluate .insertion pp' tn = .ok (NDArray.scalar 1) := by
  refine ⟨Ex.wins, Ex.wins_consistent, ?_, by decide +kernel, by decide +kernel,
    ⟨fun _ n => List.finRange n, fun _ _ => .refl _⟩,
    ⟨fun _ n => (List.finRange n).reverse, fun _ _ => List.reverse_perm _⟩,
    by decide +kernel, by decide +kernel⟩
  intro n hn
  simp only [Ex.wins, List.mem_cons, List.not_mem_nil, or_false] at hn
  rcases hn with rfl | rfl | rfl <;> (unfold DType.Holds; decide +kernel)

end Primo
