import Verif.Lemmas.QuerySim
import Verif.Props.JoinTree

/-! # Queries on live objects: C66 -/

namespace Primo

open Query Mem Heap

/-- the state of a program after the statements `cs` -/
abbrev Query.reach (arrays : List NDArray) (cs : List Stmt) : QState := ((QState.start arrays).run cs).1

theorem Query.reach_inv (arrays : List NDArray) (cs : List Stmt) : ∃ β,
    Query.Inv β (reach arrays cs) ((CState.start arrays).run cs).1 :=
  (Query.agree_run cs (Query.inv_start arrays)).1

theorem Query.reach_append (arrays : List NDArray) (cs ds : List Stmt) :
    reach arrays (cs ++ ds) = ((reach arrays cs).run ds).1 := by
  have : ∀ s : QState, (s.run (cs ++ ds)).1 = ((s.run cs).1.run ds).1 := by
    induction cs with
    | nil => intro s; rfl
    | cons c cs ih => intro s; exact ih _
  exact this _

theorem Query.reach_snoc (arrays : List NDArray) (cs : List Stmt) (c : Stmt) :
    reach arrays (cs ++ [c]) = ((reach arrays cs).step c).1 := reach_append arrays cs [c]

/-! ## C66 -/

namespace Ex

/-- the tables of the example network and an array of soft evidence, as the program holds them -/
def tables : List NDArray := [nd.cpd, na.cpd, nb.cpd, nc.cpd, ⟨[3], [1 / 2, 0, 2], rfl⟩]

/-- the example network with these tables -/
def liveNet : List (NodeV × Nat) := [(nd, 0), (na, 1), (nb, 2), (nc, 3)]

/-- the example evidence with that array -/
def liveEv : Dict (Val ⊕ Nat) := [("d", .inl "t"), ("b", .inr 4)]

theorem liveNet_bn : netOf tables liveNet = .ok bn := rfl

theorem liveEv_ev : evidenceOf tables liveEv = .ok ev := rfl

theorem reach_nil : (reach tables []).contents.arrs = tables := by
  obtain ⟨β, I⟩ := reach_inv tables []
  rw [I.contents]
  rfl

/-- A program that keeps what it gets: a query, a tree, evidence, answers of the tree, the table of an
answer, and assignments to that table. -/
def asking : List Stmt :=
  [.naive .insertion liveNet ["c"] liveEv, .tree .insertion liveNet none,
    .marginals .insertion 9 0 ["a"], .setEvidence .insertion 9 0 liveNet liveEv false,
    .marginals .insertion 9 0 ["c"], .factor (.getPotential 2 []), .factor (.write 5 [0] 7),
    .marginals .insertion 9 0 ["c"], .marginals .insertion 9 0 ["a", "zz"],
    .naive .insertion liveNet ["c"] liveEv]

end Ex


/-- **C66** Whatever a program does with factors, arrays, queries and factor trees: it raises the same
exceptions, and finds the same contents in all its variables, as if queries were functions of the
tables and evidence at that moment, factor trees were values, and only `get_potential()` without
variables made two variables share a table. -/
theorem C66_programs_agree (arrays : List NDArray) (cs : List Stmt) :
    (reach arrays cs).contents = ((CState.start arrays).run cs).1.contents ∧
    ((QState.start arrays).run cs).2 = ((CState.start arrays).run cs).2 := by
  obtain ⟨⟨β, I⟩, he⟩ := Query.agree_run cs (Query.inv_start arrays)
  exact ⟨I.contents, he⟩

/-- The program above: the assignment is seen through the answer whose table it took, and nowhere else. -/
example : ((QState.start Ex.tables).run Ex.asking).2 =
      [none, none, none, none, none, none, none, none, some .valueError, none] ∧
    (reach Ex.tables Ex.asking).contents.facs.map (·.potentials.data) =
      [[5 / 29, 24 / 29], [1 / 4, 3 / 4], [7, 24 / 29], [5 / 29, 24 / 29], [5 / 29, 24 / 29]] := by
  rw [(C66_programs_agree Ex.tables Ex.asking).1, (C66_programs_agree Ex.tables Ex.asking).2]
  constructor <;> decide +kernel

/-- **C66** A call of a function of `exact.py` does exactly what the function on values says: a query
adds its answer and changes nothing that can be read from any variable, and a method of a tree changes
that tree only, also when it raises. -/
theorem C66_call (arrays : List NDArray) (cs : List Stmt) (c : Stmt) {r : Contents × Option PyErr}
    (hr : (reach arrays cs).contents.ask c = some r) : (reach arrays cs).after c = r := by
  obtain ⟨β, I⟩ := reach_inv arrays cs
  exact Query.ask_step I c hr

/-- The exception of a query for variables that no node of the tree covers. -/
example := C66_call Ex.tables (Ex.asking.take 8) (.marginals .insertion 9 0 ["a", "zz"]) rfl

/-- **C66** No statement about factors and arrays changes a factor tree: not even assignments to the
tables of the network, to earlier answers, or to the arrays of the evidence. -/
theorem C66_trees_safe (arrays : List NDArray) (cs : List Stmt) (c : Cmd) :
    ((reach arrays cs).step (.factor c)).1.contents.trees = (reach arrays cs).contents.trees := by
  obtain ⟨β, I⟩ := reach_inv arrays cs
  obtain ⟨⟨γ, J⟩, -⟩ := Query.agree_step I (.factor c)
  rw [J.contents, I.contents]
  exact Query.stepFactor_trees _ c

example := C66_trees_safe Ex.tables Ex.asking (.write 0 [0, 0] 5)

/-- **C66** As long as a program assigns to no existing factor or array, all of them keep their
contents. -/
theorem C66_kept (arrays : List NDArray) (cs ds : List Stmt) (hd : ∀ c ∈ ds, c.Alters = false) :
    (reach arrays cs).contents.facs <+: (reach arrays (cs ++ ds)).contents.facs ∧
    (reach arrays cs).contents.arrs <+: (reach arrays (cs ++ ds)).contents.arrs := by
  obtain ⟨β, I⟩ := reach_inv arrays cs
  obtain ⟨⟨γ, J⟩, -⟩ := Query.agree_run ds ⟨β, I⟩
  rw [reach_append, J.contents, I.contents]
  exact I.grown (Query.grown_run ds hd _)

/-- The program above up to the first assignment. -/
example := C66_kept Ex.tables [] (Ex.asking.take 6) (by decide)

/-- the answer that a query leaves in a new variable -/
def Query.QState.answerTo (s : QState) (c : Stmt) : Option Factor :=
  match s.after c with
  | (r, none) => r.facs.getLast?
  | (_, some _) => none

theorem Query.answer_last {s : QState} {c : Stmt} {x : Except PyErr Factor}
    (h : s.after c = s.contents.answer x) : s.answerTo c = x.toOption := by
  unfold QState.answerTo
  rw [h]
  cases x with
  | error e => rfl
  | ok F => exact List.getLast?_concat

/-- **C66** A query that was answered is answered in the same way later, as long as nothing was
assigned to an existing factor or array in between: other queries and calculations leave no trace. -/
theorem C66_same_answer (arrays : List NDArray) (cs ds : List Stmt) (hd : ∀ c ∈ ds, c.Alters = false)
    (so : SetOrder) (net : List (NodeV × Nat)) (vars : List Name) (ev : Dict (Val ⊕ Nat))
    (order : Option (List Name)) :
    (∀ F, (reach arrays cs).answerTo (.naive so net vars ev) = some F →
      (reach arrays (cs ++ ds)).answerTo (.naive so net vars ev) = some F) ∧
    ∀ F, (reach arrays cs).answerTo (.bucket so net vars ev order) = some F →
      (reach arrays (cs ++ ds)).answerTo (.bucket so net vars ev order) = some F := by
  have hp := (C66_kept arrays cs ds hd).2
  have key : ∀ (g : BN → Dict Evidence → Except PyErr Factor) F,
      (do
        let bn ← netOf (reach arrays cs).contents.arrs net
        let ev ← evidenceOf (reach arrays cs).contents.arrs ev
        g bn ev).toOption = some F →
      (do
        let bn ← netOf (reach arrays (cs ++ ds)).contents.arrs net
        let ev ← evidenceOf (reach arrays (cs ++ ds)).contents.arrs ev
        g bn ev).toOption = some F := by
    intro g F h
    cases hn : netOf (reach arrays cs).contents.arrs net with
    | error e => rw [hn] at h; cases h
    | ok bn =>
      rw [hn, ok_bind] at h
      cases he : evidenceOf (reach arrays cs).contents.arrs ev with
      | error e => rw [he] at h; cases h
      | ok d =>
        rw [he] at h
        rw [Query.netOf_prefix hp hn, ok_bind, Query.evidenceOf_prefix hp he]
        exact h
  constructor
  · intro F h
    rw [Query.answer_last (C66_call arrays _ (.naive so net vars ev) rfl)] at h ⊢
    exact key (fun bn ev => VE.naiveMarginals so bn vars ev) F h
  · intro F h
    rw [Query.answer_last (C66_call arrays _ (.bucket so net vars ev order) rfl)] at h ⊢
    exact key (fun bn ev => VE.bucketMarginals so bn vars ev order) F h

example : (reach Ex.tables (Ex.asking.take 6)).answerTo (.naive .insertion Ex.liveNet ["c"] Ex.liveEv) =
    some ⟨⟨[2], [5 / 29, 24 / 29], rfl⟩, ["c"], [("c", ["t", "f"])]⟩ := by
  refine (C66_same_answer Ex.tables [] (Ex.asking.take 6) (by decide) .insertion Ex.liveNet ["c"]
    Ex.liveEv none).1 _ ?_
  rw [Query.answer_last (C66_call Ex.tables [] (.naive .insertion Ex.liveNet ["c"] Ex.liveEv) rfl),
    Ex.reach_nil, Ex.liveNet_bn, ok_bind, Ex.liveEv_ev, ok_bind]
  decide +kernel

/-- **C66** Both elimination algorithms answer with the posterior of the tables and the evidence at the
time of the call, whatever the program did before. -/
theorem C66_posterior (arrays : List NDArray) (cs : List Stmt) (so : SetOrder)
    (net : List (NodeV × Nat)) (ev : Dict (Val ⊕ Nat)) {bn : BN} {d : Dict Evidence}
    (hn : netOf (reach arrays cs).contents.arrs net = .ok bn)
    (he : evidenceOf (reach arrays cs).contents.arrs ev = .ok d) (hc : bn.Consistent)
    (hd : LegalEvidence bn d) (Q : List Name) (hQn : Q.Nodup) (hQ : ∀ v ∈ Q, v ∈ bn.names) :
    (∃ r, (reach arrays cs).after (.naive so net Q ev) =
        ({ (reach arrays cs).contents with facs := (reach arrays cs).contents.facs ++ [r] }, none) ∧
      (∀ v, v ∈ r.variableOrder ↔ v ∈ Q) ∧ ∀ σ, Legal bn.card Q σ → r.eval σ = posterior bn d Q σ) ∧
    ∀ order, order.Perm bn.names → ∃ r, (reach arrays cs).after (.bucket so net Q ev (some order)) =
        ({ (reach arrays cs).contents with facs := (reach arrays cs).contents.facs ++ [r] }, none) ∧
      (∀ v, v ∈ r.variableOrder ↔ v ∈ Q) ∧ ∀ σ, Legal bn.card Q σ → r.eval σ = posterior bn d Q σ := by
  constructor
  · obtain ⟨r, h1, -, -, h4, h5⟩ := C13_naive_exact so bn hc d hd Q hQ
    refine ⟨r, C66_call arrays cs _ ?_, h4, h5⟩
    change some (Contents.answer _ _) = _
    rw [hn, ok_bind, he, ok_bind, h1]
    rfl
  · intro order ho
    obtain ⟨r, h1, -, -, h4, h5⟩ := C14_bucket_exact so bn hc d hd Q hQn hQ order ho
    refine ⟨r, C66_call arrays cs _ ?_, h4, h5⟩
    change some (Contents.answer _ _) = _
    rw [hn, ok_bind, he, ok_bind, h1]
    rfl

/-- the example network with another table for `a` -/
def Ex.bnNew : BN := [nd, { na with cpd := ⟨[2], [1 / 3, 3 / 4], rfl⟩ }, nb, nc]

theorem Ex.bnNew_legal : LegalEvidence Ex.bnNew Ex.ev := by
  refine ⟨by decide, by decide, fun v x h => ?_, fun v l h => ?_⟩
  · simp only [ev, List.mem_cons, List.not_mem_nil, or_false, Prod.mk.injEq, Evidence.hard.injEq,
      reduceCtorEq, and_false] at h
    obtain ⟨rfl, rfl⟩ := h
    decide
  · simp only [ev, List.mem_cons, List.not_mem_nil, or_false, Prod.mk.injEq, Evidence.soft.injEq,
      reduceCtorEq, and_false, false_or] at h
    obtain ⟨rfl, rfl⟩ := h
    decide

/-- The tables are those of the time of the call: here the program has assigned to `P(a)`. -/
example := C66_posterior Ex.tables (Ex.asking ++ [.factor (.write 1 [0] (1 / 3))]) .insertion Ex.liveNet
  Ex.liveEv (bn := Ex.bnNew) (d := Ex.ev) (by rw [(C66_programs_agree _ _).1]; decide +kernel)
  (by rw [(C66_programs_agree _ _).1]; decide +kernel)
  (by constructor <;> decide) Ex.bnNew_legal ["c", "a"]
  (by decide) (by decide)

/-! ### factor trees -/

theorem Query.set_get {α : Type} {l : List α} {i j : Nat} {u x : α} (h : l[i]? = some u) :
    (l.set j x)[i]? = some (if j = i then x else u) := by
  by_cases hj : j = i
  · subst hj
    rw [List.getElem?_set_self (List.getElem?_eq_some_iff.1 h).1, if_pos rfl]
  · rw [List.getElem?_set_ne hj, if_neg hj, h]

theorem Query.var_ok {α : Type} {l : List α} {i : Nat} {u : α} (h : var l i = .ok u) : l[i]? = some u := by
  unfold var at h
  cases hi : l[i]? with
  | none => rw [hi] at h; cases h
  | some v =>
    rw [hi] at h
    rw [Except.ok.inj h]

theorem Query.step_tree (t : CState) (c : Stmt) {i : Nat} {u : JTree} (hu : t.trees[i]? = some u) :
    (t.step c).1.trees[i]? = some u ∨
      ∃ op : TreeOp, (t.step c).1.trees[i]? = some (op.run u) ∧
        (c.Changes i = false → ∃ so limit vs, op = .marginals so limit vs) := by
  have W : ∀ {α : Type} (x : Except PyErr α) {f : α → CState × Option PyErr},
      (∀ a, x = .ok a → (f a).1.trees[i]? = some u ∨ ∃ op : TreeOp, (f a).1.trees[i]? = some (op.run u) ∧
        (c.Changes i = false → ∃ so limit vs, op = .marginals so limit vs)) →
      ((t.withVar x f).1.trees[i]? = some u ∨ ∃ op : TreeOp,
        (t.withVar x f).1.trees[i]? = some (op.run u) ∧
        (c.Changes i = false → ∃ so limit vs, op = .marginals so limit vs)) := fun x f h =>
    Query.withVar_ind (P := fun v => v.trees[i]? = some u ∨ ∃ op : TreeOp,
      v.trees[i]? = some (op.run u) ∧
        (c.Changes i = false → ∃ so limit vs, op = .marginals so limit vs)) t x (.inl hu) h
  have S : ∀ (j : Nat) (u' : JTree) (x : JTree) (op : TreeOp), var t.trees j = .ok u' → x = op.run u' →
      (j = i → c.Changes i = false → ∃ so limit vs, op = .marginals so limit vs) →
      (t.trees.set j x)[i]? = some u ∨ ∃ op : TreeOp, (t.trees.set j x)[i]? = some (op.run u) ∧
        (c.Changes i = false → ∃ so limit vs, op = .marginals so limit vs) := by
    intro j u' x op hv hx hop
    rw [Query.set_get hu]
    by_cases hj : j = i
    · right
      subst hj
      have := Query.var_ok hv
      rw [hu] at this
      cases this
      exact ⟨op, by rw [if_pos rfl, hx], hop rfl⟩
    · left
      rw [if_neg hj]
  cases c with
  | factor c => exact .inl (by rw [← hu]; exact congrArg (·[i]?) (Query.stepFactor_trees t c))
  | copyArr k => exact .inl (by rw [← hu]; exact congrArg (·[i]?) (Query.pushArr_trees _ _))
  | naive so net vars ev => exact .inl (by rw [← hu]; exact congrArg (·[i]?) (Query.push_trees _ _ _))
  | bucket so net vars ev order =>
    exact .inl (by rw [← hu]; exact congrArg (·[i]?) (Query.push_trees _ _ _))
  | tree so net order =>
    refine W _ fun bn _ => W _ fun T _ => .inl ?_
    exact prefix_some (List.prefix_append _ _) hu
  | reset so j net =>
    refine W _ fun bn _ => W _ fun T hT => ?_
    exact S j T _ (.reset so bn) hT rfl fun hj hc => absurd hc (by simp [Stmt.Changes, hj])
  | calculate so limit j =>
    refine W _ fun T hT => ?_
    exact S j T _ (.calculate so limit) hT rfl fun hj hc => absurd hc (by simp [Stmt.Changes, hj])
  | setEvidence so limit j net ev soft =>
    refine W _ fun bn _ => W _ fun d _ =>
      W _ fun T hT => ?_
    exact S j T _ (.setEvidence so limit bn d soft) hT rfl fun hj hc => absurd hc (by simp [Stmt.Changes, hj])
  | marginals so limit j vars =>
    refine W _ fun T hT => ?_
    have := S j T (T.marginals so limit vars).1 (.marginals so limit vars) hT rfl fun _ _ => ⟨_, _, _, rfl⟩
    have hp := Query.push_trees { t with trees := t.trees.set j (T.marginals so limit vars).1 }
      (answerIsNum so vars (T.marginals so limit vars).1) (T.marginals so limit vars).2
    dsimp only at hp ⊢
    rw [hp]
    exact this

theorem Query.run_tree (cs : List Stmt) (t : CState) {i : Nat} {u : JTree} (hu : t.trees[i]? = some u) :
    ∃ ops, (t.run cs).1.trees[i]? = some (TreeOp.runs ops u) := by
  induction cs generalizing t u with
  | nil => exact ⟨[], hu⟩
  | cons c cs ih =>
    rcases Query.step_tree t c hu with h | ⟨op, h, -⟩
    · exact ih _ h
    · obtain ⟨ops, ho⟩ := ih _ h
      exact ⟨op :: ops, ho⟩

theorem Query.run_kept (cs : List Stmt) (t : CState) {i : Nat} {u : JTree} (hu : t.trees[i]? = some u)
    (hv : u.valid = true) (hc : ∀ c ∈ cs, c.Changes i = false) : (t.run cs).1.trees[i]? = some u := by
  induction cs generalizing t with
  | nil => exact hu
  | cons c cs ih =>
    refine ih _ ?_ fun d hd => hc d (List.mem_cons_of_mem _ hd)
    rcases Query.step_tree t c hu with h | ⟨op, h, ho⟩
    · exact h
    · obtain ⟨so, limit, vs, rfl⟩ := ho (hc c (by simp))
      have : (TreeOp.marginals so limit vs).run u = u := by
        change (u.marginals so limit vs).1 = u
        unfold JTree.marginals
        rw [if_pos hv]
      rw [this] at h
      exact h

/-- **C66** A calibrated tree keeps its factors, and so its answers, until it is reset or given other
evidence: whatever else the program does, also to the objects the tree was made from. -/
theorem C66_tree_kept (arrays : List NDArray) (cs ds : List Stmt) {i : Nat} {t : JTree}
    (ht : (reach arrays cs).contents.trees[i]? = some t) (hv : t.valid = true)
    (hd : ∀ c ∈ ds, c.Changes i = false) :
    (reach arrays (cs ++ ds)).contents.trees[i]? = some t ∧
    ∀ so limit vs, (reach arrays (cs ++ ds)).answerTo (.marginals so limit i vs) =
      (reach arrays cs).answerTo (.marginals so limit i vs) := by
  have key : ∀ {ds : List Stmt}, (reach arrays ds).contents.trees[i]? = some t → ∀ so limit vs,
      (reach arrays ds).answerTo (.marginals so limit i vs) = (t.marginals so limit vs).2.toOption := by
    intro ds ht so limit vs
    have hm : (t.marginals so limit vs).1 = t := by
      unfold JTree.marginals
      rw [if_pos hv]
    refine Query.answer_last (C66_call arrays ds _ ?_)
    change some (Contents.withVar _ (var (reach arrays ds).contents.trees i) _) = _
    unfold var
    rw [ht]
    change some (Contents.answer { (reach arrays ds).contents with
      trees := (reach arrays ds).contents.trees.set i _ } _) = _
    rw [hm, list_set_same ht]
  obtain ⟨β, I⟩ := reach_inv arrays cs
  obtain ⟨⟨γ, J⟩, -⟩ := Query.agree_run ds ⟨β, I⟩
  have h1 : (reach arrays (cs ++ ds)).contents.trees[i]? = some t := by
    rw [reach_append, J.contents]
    rw [I.contents] at ht
    exact Query.run_kept ds _ ht hv hd
  exact ⟨h1, fun so limit vs => by rw [key h1, key ht]⟩

example : ∃ t, (reach Ex.tables (Ex.asking.take 4)).contents.trees[0]? = some t ∧
    (reach Ex.tables (Ex.asking.take 4 ++
      (Ex.asking.drop 4 ++ [.factor (.write 0 [0, 0] 5), .factor (.write 4 [1] 1)]))).contents.trees[0]? =
        some t := by
  have h : ∃ t, (((CState.start Ex.tables).run (Ex.asking.take 4)).1.contents.trees)[0]? = some t ∧
      t.valid = true := by
    have h : ((((CState.start Ex.tables).run (Ex.asking.take 4)).1.contents.trees)[0]?.map (·.valid)) =
      some true := by decide +kernel
    obtain ⟨t, h1, h2⟩ := Option.map_eq_some_iff.1 h
    exact ⟨t, h1, h2⟩
  obtain ⟨t, h1, h2⟩ := h
  rw [← (C66_programs_agree _ _).1] at h1
  exact ⟨t, h1, (C66_tree_kept _ _ _ h1 h2 (by decide)).1⟩

/-- **C66** A tree in memory keeps its structure and its answers.  It was created at some time from the
tables of that time; any program may follow, using this tree, other trees and the same arrays; then
evidence is set, with the same tables; then any program may follow that does not reset this tree or
give it other evidence - it may overwrite the tables of the network, the arrays of the evidence and
earlier answers.  The answers are the posteriors for the evidence that was set. -/
theorem C66_tree_exact {arrays : List NDArray} {cs ds es : List Stmt} {so₁ so₂ : SetOrder}
    {net net' : List (NodeV × Nat)} {order0 : Option (List Name)} {limit : Nat} {bn : BN}
    {ev : Dict (Val ⊕ Nat)} {d : Dict Evidence}
    (hn : netOf (reach arrays cs).contents.arrs net = .ok bn)
    (hn' : netOf (reach arrays (cs ++ .tree so₁ net order0 :: ds)).contents.arrs net' = .ok bn)
    (he : evidenceOf (reach arrays (cs ++ .tree so₁ net order0 :: ds)).contents.arrs ev = .ok d)
    (h : TreeSetup bn order0) (hnn : bn.NonNeg) (hco : bn.Connected) (hd : LegalEvidence bn d)
    (hdn : NonNegEvidence d) (hl : bn.length ≤ limit)
    (hes : ∀ c ∈ es, c.Changes (reach arrays cs).contents.trees.length = false) :
    let i := (reach arrays cs).contents.trees.length
    let s := reach arrays
      (cs ++ .tree so₁ net order0 :: ds ++ .setEvidence so₂ limit i net' ev false :: es)
    ∃ t', s.contents.trees[i]? = some t' ∧ (∀ n ∈ bn, t'.Covers n.family) ∧
      ∀ vs, t'.Covers vs → ∀ so₃ limit', ∃ r, s.after (.marginals so₃ limit' i vs) =
          ({ s.contents with facs := s.contents.facs ++ [r] }, none) ∧
        (∀ v, v ∈ r.variableOrder ↔ v ∈ vs) ∧ ∀ σ, Legal bn.card vs σ → r.eval σ = posterior bn d vs σ := by
  intro i s
  obtain ⟨t, t', c1, c2, c3, c4⟩ := C21_tree_exact_partial h hnn hco hd hdn hl so₁ so₂
  -- the tree is created
  obtain ⟨β, I⟩ := reach_inv arrays cs
  have ha : (reach arrays cs).after (.tree so₁ net order0) =
      ({ (reach arrays cs).contents with trees := (reach arrays cs).contents.trees ++ [t] }, none) := by
    refine C66_call arrays cs _ ?_
    change some (Contents.withVar _ _ _) = _
    rw [hn]
    change some (Contents.withVar _ (JoinTree.create so₁ bn order0) _) = _
    rw [c1]
    rfl
  obtain ⟨β1, I1⟩ := reach_inv arrays (cs ++ [.tree so₁ net order0])
  have ht1 : ((CState.start arrays).run (cs ++ [.tree so₁ net order0])).1.trees[i]? = some t := by
    have e1 : ((CState.start arrays).run (cs ++ [.tree so₁ net order0])).1.trees =
        (reach arrays (cs ++ [.tree so₁ net order0])).contents.trees := by rw [I1.contents]; rfl
    have e2 : (reach arrays (cs ++ [.tree so₁ net order0])).contents =
        { (reach arrays cs).contents with trees := (reach arrays cs).contents.trees ++ [t] } := by
      rw [reach_snoc]
      exact congrArg Prod.fst ha
    rw [e1, e2]
    exact List.getElem?_concat_length
  -- programs on values compose
  have happ : ∀ (a b : List Stmt) (u : CState), (u.run (a ++ b)).1 = ((u.run a).1.run b).1 := by
    intro a b
    induction a with
    | nil => intro u; rfl
    | cons c a ih => intro u; exact ih _
  have hsplit : cs ++ .tree so₁ net order0 :: ds = (cs ++ [.tree so₁ net order0]) ++ ds := by simp
  obtain ⟨ops, ht2⟩ := Query.run_tree ds _ ht1
  rw [← happ, ← hsplit] at ht2
  -- the evidence is set
  obtain ⟨β2, I2⟩ := reach_inv arrays (cs ++ .tree so₁ net order0 :: ds)
  have ht2' : (reach arrays (cs ++ .tree so₁ net order0 :: ds)).contents.trees[i]? =
      some (TreeOp.runs ops t) := by
    rw [I2.contents]
    exact ht2
  have hset : (TreeOp.runs ops t).setEvidence so₂ limit bn d false = (t', none) := by
    obtain ⟨g1, g2⟩ := C26_no_accumulation t ops so₂ limit bn d false
    rw [c2] at g1 g2
    exact g2 g1
  have hb : (reach arrays (cs ++ .tree so₁ net order0 :: ds)).after
      (.setEvidence so₂ limit i net' ev false) =
      ({ (reach arrays (cs ++ .tree so₁ net order0 :: ds)).contents with
        trees := (reach arrays (cs ++ .tree so₁ net order0 :: ds)).contents.trees.set i t' }, none) := by
    refine C66_call arrays _ _ ?_
    change some (Contents.withVar _ _ _) = _
    rw [hn']
    change some (Contents.withVar _ (evidenceOf _ ev) _) = _
    rw [he]
    change some (Contents.withVar _ (var _ i) _) = _
    unfold var
    rw [ht2']
    change some (Contents.setTree _ i ((TreeOp.runs ops t).setEvidence so₂ limit bn d false)) = _
    rw [hset]
    rfl
  obtain ⟨β3, I3⟩ := reach_inv arrays
    (cs ++ .tree so₁ net order0 :: ds ++ [.setEvidence so₂ limit i net' ev false])
  have ht3 : ((CState.start arrays).run
      (cs ++ .tree so₁ net order0 :: ds ++ [.setEvidence so₂ limit i net' ev false])).1.trees[i]? =
        some t' := by
    have e1 : ((CState.start arrays).run
        (cs ++ .tree so₁ net order0 :: ds ++ [.setEvidence so₂ limit i net' ev false])).1.trees =
        (reach arrays (cs ++ .tree so₁ net order0 :: ds ++
          [.setEvidence so₂ limit i net' ev false])).contents.trees := by rw [I3.contents]; rfl
    have e2 : (reach arrays (cs ++ .tree so₁ net order0 :: ds ++
          [.setEvidence so₂ limit i net' ev false])).contents =
        { (reach arrays (cs ++ .tree so₁ net order0 :: ds)).contents with
          trees := (reach arrays (cs ++ .tree so₁ net order0 :: ds)).contents.trees.set i t' } := by
      rw [reach_snoc]
      exact congrArg Prod.fst hb
    rw [e1, e2]
    exact List.getElem?_set_self (List.getElem?_eq_some_iff.1 ht2').1
  -- the tree is calibrated
  have hvalid : t'.valid = true := by
    obtain ⟨n, hnb⟩ := List.exists_mem_of_ne_nil _ h.nonempty
    obtain ⟨r, hr, -⟩ := c4 n.family (c3 n hnb) .insertion 0
    by_contra hf
    obtain ⟨k, vars, ⟨f, hf'⟩, -⟩ := c3 n hnb
    unfold JTree.marginals at hr
    rw [if_neg hf] at hr
    unfold JTree.calculate at hr
    cases hns : t'.nodes with
    | nil => rw [hns] at hf'; cases hf'
    | cons p ps =>
      rw [hns] at hr
      exact absurd (congrArg Prod.snd hr) (by intro hx; cases hx)
  have ht4 := Query.run_kept es _ ht3 hvalid hes
  rw [← happ] at ht4
  have hs : cs ++ .tree so₁ net order0 :: ds ++ [.setEvidence so₂ limit i net' ev false] ++ es =
      cs ++ .tree so₁ net order0 :: ds ++ .setEvidence so₂ limit i net' ev false :: es := by simp
  rw [hs] at ht4
  obtain ⟨β4, I4⟩ := reach_inv arrays
    (cs ++ .tree so₁ net order0 :: ds ++ .setEvidence so₂ limit i net' ev false :: es)
  have ht5 : s.contents.trees[i]? = some t' := by
    change (reach arrays (cs ++ .tree so₁ net order0 :: ds ++
      .setEvidence so₂ limit i net' ev false :: es)).contents.trees[i]? = some t'
    rw [I4.contents]
    exact ht4
  refine ⟨t', ht5, c3, fun vs hvs so₃ limit' => ?_⟩
  obtain ⟨r, r1, -, -, r4, r5, -⟩ := c4 vs hvs so₃ limit'
  refine ⟨r, C66_call arrays _ _ ?_, r4, r5⟩
  change some (Contents.withVar _ (var s.contents.trees i) _) = _
  unfold var
  rw [ht5]
  change some (Contents.answer { s.contents with trees := s.contents.trees.set i _ } _) = _
  rw [r1, list_set_same ht5]
  rfl

/-- Between creation and evidence the tree is used with other evidence; afterwards the tables of the
network, the array of the evidence and an answer are overwritten. -/
example := C66_tree_exact (arrays := Ex.tables) (cs := [.naive .insertion Ex.liveNet ["c"] Ex.liveEv])
  (ds := [.setEvidence .insertion 9 0 Ex.liveNet [("a", .inl "t")] false, .marginals .insertion 9 0 ["a"]])
  (es := [.factor (.write 0 [0, 0] 5), .factor (.write 4 [1] 1), .marginals .insertion 9 0 ["c"],
    .factor (.poke 2 [0] 3)])
  (so₁ := .insertion) (so₂ := .insertion) (net := Ex.liveNet) (net' := Ex.liveNet) (order0 := none)
  (limit := 4) (ev := Ex.liveEv)
  (Query.netOf_prefix (C66_kept Ex.tables [] _ (by decide)).2 (Ex.reach_nil ▸ Ex.liveNet_bn))
  (Query.netOf_prefix (C66_kept Ex.tables [] _ (by decide)).2 (Ex.reach_nil ▸ Ex.liveNet_bn))
  (Query.evidenceOf_prefix (C66_kept Ex.tables [] _ (by decide)).2 (Ex.reach_nil ▸ Ex.liveEv_ev))
  Ex.bn_perfect.tree Ex.bn_nonneg Ex.bn_connected Ex.ev_legal Ex.ev_nonneg (by decide)
  (by
    rw [(C66_programs_agree _ _).1]
    decide +kernel)

end Primo
