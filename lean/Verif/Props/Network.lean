import Verif.Lemmas.NetLookup
import Verif.Lemmas.NetView
import Verif.Lemmas.NetSig
import Verif.Examples.History
import Verif.Props.Exact
import Verif.Props.Node

/-! # C20, C30-C34, C56: the mutable network -/

namespace Primo
open Net

/-! ## C20 -/

/-- **C20** After any history whatsoever, `get_random_order` lists exactly the names that `get_node`
accepts, each once. -/
theorem C20_random_order (ops : List Op) :
    (run ops Net.empty).randomOrder.Nodup ∧
      ∀ k, k ∈ (run ops Net.empty).randomOrder ↔ ∃ i, (run ops Net.empty).getNode k = .ok i := by
  refine ⟨run_lookup_nodup ops (by simp [Net.empty]), fun k => ?_⟩
  simp only [getNode_ok]
  exact Dict.get?_isSome.symm

/-- **C20** After a good history these are the names of the nodes of the graph, in graph order. -/
theorem C20_matches_graph (ops : List Op) (hg : GoodRun ops Net.empty) :
    (run ops Net.empty).randomOrder =
      (run ops Net.empty).gnode.map fun p => ((run ops Net.empty).heap p.2).name := by
  have h := Inv.empty.run hg
  generalize run ops Net.empty = s at *
  unfold randomOrder Dict.keys
  rw [h.graph]
  refine List.map_congr_left fun p hp => ?_
  exact (h.name p.1 p.2 (Dict.get?_of_mem h.nodup hp)).2.symm

example := C20_matches_graph Ex.ops Ex.ops_good
example : Ex.net.randomOrder = ["a", "b", "d", "c"] := by decide +kernel

/-! ## C30 -/

/-- **C30** (partial: good histories only; the excluded calls are refuted below)
After any good history the network is coherent. -/
theorem C30_coherent_partial (ops : List Op) (hg : GoodRun ops Net.empty) :
    (run ops Net.empty).Coherent := (Inv.empty.run hg).coherent

/-- **C30** The state after a good history, if it is usable at all, is a network in the sense of the
inference theorems. -/
theorem C30_usable_consistent (ops : List Op) (hg : GoodRun ops Net.empty)
    (hu : (run ops Net.empty).Usable) :
    (run ops Net.empty).view.Consistent ∧ (run ops Net.empty).view.Linked :=
  ⟨view_consistent (Inv.empty.run hg) hu, view_linked (Inv.empty.run hg)⟩

example := C30_coherent_partial Ex.ops Ex.ops_good

/-- a sufficient test for `Usable` -/
def Net.usableCheck (s : Net) : Bool := s.lookup.all fun p =>
  decide ((s.heap p.2).kind ≠ .utility ∧ (s.heap p.2).values ≠ [] ∧ p.1 ∉ (s.heap p.2).parentOrder)

theorem Net.usable_of_check {s : Net} (h : s.usableCheck = true) : s.Usable := by
  intro k i hi
  simp only [Net.usableCheck, List.all_eq_true, decide_eq_true_eq] at h
  exact h (k, i) (Dict.get?_mem (getNode_ok.1 hi))

theorem Ex.net_usable : (run Ex.ops Net.empty).Usable := Net.usable_of_check (by decide +kernel)

example := C30_usable_consistent Ex.ops Ex.ops_good Ex.net_usable

/-- two binary nodes `x → y` -/
def Ex.pair : List Op := [.create .discrete "x" ["t", "f"], .create .discrete "y" ["t", "f"],
  .addNode 0, .addNode 1, .addEdge "x" "y"]

/-- **C30 refuted** for `add_edge` of an edge that exists: the parent list gets a duplicate. -/
theorem C30_duplicate_edge_refuted : GoodRun Ex.pair Net.empty ∧
    ¬ (run (Ex.pair ++ [.addEdge "x" "y"]) Net.empty).Coherent := by
  refine ⟨goodRun_of_check (by decide +kernel), fun h => ?_⟩
  exact absurd (h.incoming "y" 1 (by decide +kernel)).1 (by decide +kernel)

/-- **C30 refuted** for re-adding a node object that kept its parents when it was removed: the node
lists a parent that the graph does not have. -/
theorem C30_stale_parents_refuted : GoodRun (Ex.pair ++ [.removeNode "y"]) Net.empty ∧
    ¬ (run (Ex.pair ++ [.removeNode "y", .addNode 1]) Net.empty).Coherent := by
  refine ⟨goodRun_of_check (by decide +kernel), fun h => ?_⟩
  exact absurd (h.incoming "y" 1 (by decide +kernel)).2 (by decide +kernel)

/-- **C30 refuted** the same after `clear`. -/
theorem C30_stale_after_clear_refuted : GoodRun (Ex.pair ++ [.clear]) Net.empty ∧
    ¬ (run (Ex.pair ++ [.clear, .addNode 1]) Net.empty).Coherent := by
  refine ⟨goodRun_of_check (by decide +kernel), fun h => ?_⟩
  exact absurd (h.incoming "y" 1 (by decide +kernel)).2 (by decide +kernel)

/-- **C30 refuted** for an edge that starts at a utility node: the call raises `AttributeError` after
the graph and the parent list have changed, and the table is left with too few axes. -/
theorem C30_utility_parent_refuted : ∃ ops a b, GoodRun ops Net.empty ∧
    (step (.addEdge a b) (run ops Net.empty)).2 = some .attributeError ∧
    ¬ (step (.addEdge a b) (run ops Net.empty)).1.Coherent := by
  refine ⟨[.create .utility "u" [], .create .discrete "y" ["t", "f"], .addNode 0, .addNode 1],
    "u", "y", goodRun_of_check (by decide +kernel), by decide +kernel, fun h => ?_⟩
  exact absurd (h.shape "y" 1 (by decide +kernel)) (by decide +kernel)

/-- **C30 refuted** for removing a node that has a decision child: `AttributeError` half-way, the
other child has lost the parent but the graph has not. -/
theorem C30_remove_decision_parent_refuted : ∃ ops k, GoodRun ops Net.empty ∧
    (step (.removeNode k) (run ops Net.empty)).2 = some .attributeError ∧
    ¬ (step (.removeNode k) (run ops Net.empty)).1.Coherent := by
  refine ⟨Ex.pair ++ [.create .decision "d" ["p", "q"], .addNode 2, .addEdge "x" "d"], "x",
    goodRun_of_check (by decide +kernel), by decide +kernel, fun h => ?_⟩
  exact absurd (h.incoming "y" 1 (by decide +kernel)).2 (by decide +kernel)

/-- **C30 refuted** for renaming by node object: `KeyError` after the graph node is gone. -/
theorem C30_rename_by_object_refuted : GoodRun Ex.pair Net.empty ∧
    (step (.changeName "y" "z" true) (run Ex.pair Net.empty)).2 = some .keyError ∧
    ¬ (step (.changeName "y" "z" true) (run Ex.pair Net.empty)).1.Coherent := by
  refine ⟨goodRun_of_check (by decide +kernel), by decide +kernel, fun h => ?_⟩
  exact absurd h.graph (by decide +kernel)

/-! ## C31 -/

theorem zeros_data (l : List Nat) : ∀ x ∈ (NDArray.zeros l).data, x = 0 := by
  intro x hx
  obtain ⟨_, _, rfl⟩ := List.mem_map.1 hx
  rfl

/-- **C31** Whenever a call changes what the table of a network node depends on (its outcomes, its
parents, a parent's outcomes), its table is all zero and its flag is cleared afterwards. -/
theorem C31_change_resets_partial (ops : List Op) (hg : GoodRun ops Net.empty) (op : Op)
    (hop : Good (run ops Net.empty) op) (i : Nat) (hi : (run ops Net.empty).InNet i)
    (hc : signature (step op (run ops Net.empty)).1 i ≠ signature (run ops Net.empty) i) :
    (∀ x ∈ ((step op (run ops Net.empty)).1.heap i).cpd.data, x = 0) ∧
      ((step op (run ops Net.empty)).1.heap i).valid = false := by
  have h := Inv.empty.run hg
  generalize run ops Net.empty = s at *
  obtain ⟨k, hk⟩ := hi
  rcases fate h hop (h.name k i (getNode_ok.1 hk)).1 (Or.inl ⟨k, hk⟩) with h1 | ⟨h1, h2⟩ | ⟨_, h1⟩
  · exact absurd h1 hc
  · refine ⟨?_, h2⟩
    rw [h1]
    exact zeros_data _
  · exact absurd h1 hc

theorem run_append (l l' : List Op) (s : Net) : run (l ++ l') s = run l' (run l s) :=
  List.foldl_append

theorem goodRun_append {l l' : List Op} {s : Net} :
    GoodRun (l ++ l') s ↔ GoodRun l s ∧ GoodRun l' (run l s) := by
  induction l generalizing s with
  | nil => simp [GoodRun, run]
  | cons op l ih => simp only [List.cons_append, GoodRun, ih, and_assoc]; rfl


theorem run_snoc (l : List Op) (op : Op) (s : Net) : run (l ++ [op]) s = (step op (run l s)).1 := by
  rw [run_append]; rfl

theorem valid_history (i : Nat) (ops : List Op) (hg : GoodRun ops Net.empty)
    (hi : i < (run ops Net.empty).next) (hv : ((run ops Net.empty).heap i).valid = true)
    (hin : (run ops Net.empty).InNet i ∨ ((run ops Net.empty).heap i).parentOrder = []) :
    ∃ pre op post, ops = pre ++ op :: post ∧ op.SetsTable i ∧
      (step op (run pre Net.empty)).2 = none ∧
      ∀ mid, mid <+: post → signature (run (pre ++ op :: mid) Net.empty) i =
        signature (run ops Net.empty) i := by
  induction ops using List.reverseRecOn with
  | nil => simp [run, Net.empty] at hi
  | append_singleton l op ih =>
    obtain ⟨hl, hop, -⟩ := goodRun_append.1 hg
    have hInv := Inv.empty.run hl
    rw [run_snoc] at hi hv hin
    obtain ⟨hi', hin'⟩ := frame hInv hop hi hv hin
    have extend : ((run l Net.empty).heap i).valid = true →
        signature (step op (run l Net.empty)).1 i = signature (run l Net.empty) i →
        ∃ pre op' post, l ++ [op] = pre ++ op' :: post ∧ op'.SetsTable i ∧
          (step op' (run pre Net.empty)).2 = none ∧
          ∀ mid, mid <+: post → signature (run (pre ++ op' :: mid) Net.empty) i =
            signature (run (l ++ [op]) Net.empty) i := by
      intro hv' hsig
      obtain ⟨pre, op', post, h1, h2, h3, h4⟩ := ih hl hi' hv' hin'
      refine ⟨pre, op', post ++ [op], by rw [h1]; simp, h2, h3, fun mid hmid => ?_⟩
      rw [run_snoc, hsig]
      rcases List.prefix_concat_iff.1 hmid with h | h
      · rw [h, ← List.cons_append, ← List.append_assoc, ← h1, run_snoc, hsig]
      · exact h4 mid h
    rcases fate hInv hop hi' hin' with ⟨h1, _, h3⟩ | ⟨_, h2⟩ | ⟨_, h1, _, h3⟩
    · exact extend (h3 ▸ hv) h1
    · rw [h2] at hv; cases hv
    · rcases h3 with h3 | ⟨h3, h4⟩
      · exact extend (h3 ▸ hv) h1
      · refine ⟨l, op, [], rfl, h3, h4, fun mid hmid => ?_⟩
        rw [List.prefix_nil.1 hmid]

/-- **C31** After a good history, if `valid` is set on a network node then some earlier call stored
its whole table successfully (`set_cpd`, or `set_utilities` on a utility node), and since that call
nothing the table depends on has changed. -/
theorem C31_valid_history_partial (ops : List Op) (hg : GoodRun ops Net.empty) (i : Nat)
    (hin : (run ops Net.empty).InNet i) (hv : ((run ops Net.empty).heap i).valid = true) :
    ∃ pre op post, ops = pre ++ op :: post ∧ op.SetsTable i ∧
      (step op (run pre Net.empty)).2 = none ∧
      ∀ mid, mid <+: post → signature (run (pre ++ op :: mid) Net.empty) i =
        signature (run ops Net.empty) i := by
  obtain ⟨k, hk⟩ := hin
  exact valid_history i ops hg ((Inv.empty.run hg).name k i (getNode_ok.1 hk)).1 hv
    (Or.inl ⟨k, hk⟩)

example := C31_valid_history_partial Ex.ops Ex.ops_good 2 ⟨"c", by decide +kernel⟩ (by decide +kernel)
example := C31_change_resets_partial Ex.ops Ex.ops_good (.changeValues "b" ["u"]) trivial 2
  ⟨"c", by decide +kernel⟩ (by decide +kernel)

/-! ## C32 -/

/-- **C32** In any coherent state a call of the interface that raises leaves everything as it was
(the calls excluded by `Good`, and `set_decision`, are refuted: `C30_*_refuted`,
`C37_rejected_decision_refuted`). -/
theorem C32_atomic_partial (ops : List Op) (hg : GoodRun ops Net.empty) (op : Op)
    (hop : Good (run ops Net.empty) op) (hd : ∀ i d, op ≠ .setDecision i d) (e : PyErr)
    (he : (step op (run ops Net.empty)).2 = some e) :
    (step op (run ops Net.empty)).1 = run ops Net.empty := by
  have h := Inv.empty.run hg
  generalize run ops Net.empty = s at *
  have tables : ∀ {q : Nat} {r : Except PyErr NDArray} {f : Bool → Bool},
      (putCpd q r f s).2 = some e → (putCpd q r f s).1 = s := by
    intro q r f hr
    cases r with
    | error e => rfl
    | ok a => cases hr
  cases op with
  | create k n v => cases he
  | addNode j =>
    change (addNode j s).2 = some e at he
    change (addNode j s).1 = s
    unfold addNode at he ⊢
    split
    · rfl
    · next h1 =>
      rw [if_neg h1] at he
      split
      · rfl
      · next h2 => rw [if_neg h2] at he; cases he
  | clear => cases he
  | removeNode k =>
    cases hk : s.lookup.get? k with
    | none =>
      have : step (.removeNode k) s = (s, none) := removeNode_unknown h hk
      rw [this] at he; cases he
    | some j =>
      have e2 : step (.removeNode k) s = _ := removeNode_effect h hk hop
      rw [e2] at he; cases he
  | removeEdge a b =>
    by_cases hno : ∃ i j, s.lookup.get? a = some i ∧ s.lookup.get? b = some j ∧ a ∈ s.parentsOf b ∧
      (s.heap j).kind = .discrete
    · obtain ⟨x, j, hx, hj, hold, hd⟩ := hno
      have e2 : step (.removeEdge a b) s = _ := removeEdge_effect h hx hj hold hd
      rw [e2] at he; cases he
    · exact removeEdge_noop h hno
  | addEdge a b =>
    by_cases hab : a ∈ s.gnode.keys ∧ b ∈ s.gnode.keys
    · obtain ⟨x, hx⟩ := h.mem_keys.1 hab.1
      obtain ⟨j, hj⟩ := h.mem_keys.1 hab.2
      have e2 : step (.addEdge a b) s = _ := addEdge_effect h hx hj hop.1 (hop.2 x hx)
      rw [e2] at he; cases he
    · have e2 : step (.addEdge a b) s = (s, some .exception) := if_neg hab
      rw [e2]
  | changeValues k v =>
    by_cases hno : ∃ i, s.lookup.get? k = some i ∧ (s.heap i).kind = .discrete
    · obtain ⟨j, hj, hd⟩ := hno
      have e2 : step (.changeValues k v) s = _ := changeValues_effect h hj v hd
      rw [e2] at he; cases he
    · exact changeValues_rejected hno
  | changeName old new b =>
    cases hk : s.lookup.get? old with
    | none =>
      have e2 : step (.changeName old new b) s = (s, some .exception) := changeName_unknown hk
      rw [e2]
    | some j =>
      have hnew1 : new = old ∨ s.lookup.get? new = none ∧ b = false :=
        Or.imp_right (And.imp_left Dict.get?_eq_none.2) hop
      obtain ⟨S, P, e2, -⟩ := changeName_effect h hk hnew1
      have e' : step (.changeName old new b) s = _ := e2
      rw [e'] at he; cases he
  | setCpd j c => exact tables he
  | setProbability j v p pv => exact tables he
  | setUtilities j u => exact tables he
  | setUtility j u pv => exact tables he
  | setDecision j d => exact absurd rfl (hd j d)
  | fullyMixed j =>
    by_cases hd : (s.heap j).kind ≠ .decision
    · have e2 : step (.fullyMixed j) s = (s, some .attributeError) := if_pos hd
      rw [e2]
    · have e2 : step (.fullyMixed j) s = putCpd j (s.objView j).fullyMixed id s := if_neg hd
      rw [e2] at he ⊢
      exact tables he

theorem Net.Inv.tableOK {s : Net} (h : s.Inv) {k : Name} {i : Nat} (hk : s.lookup.get? k = some i) :
    (s.objView i).TableOK s.labels := by
  constructor
  · have := h.order_nodup k
    rwa [parentsOf_of hk] at this
  · intro p hp
    obtain ⟨j, hj, _⟩ := h.known k p (by rw [parentsOf_of hk]; exact hp)
    change Dict.get? ((s.heap i).parents.map fun p => (p.1, (s.heap p.2).values)) p = _
    rw [Dict.get?_mapVal (s.heap i).parents (fun j => (s.heap j).values), h.parent_obj k i hk,
      if_pos (show p ∈ (s.heap i).parentOrder from hp), hj]
    unfold labels
    rw [hj]; rfl
  · exact h.coherent.shape k i (getNode_ok.2 hk)

theorem getNode_error {s : Net} {k : Name} : s.getNode k = .error .exception ↔
    s.lookup.get? k = none := by
  unfold getNode
  cases s.lookup.get? k <;> simp

/-- **C32** The mistakes named in the documentation are all rejected, each with its exception, and
change nothing; removing what is not there does nothing. -/
theorem C32_rejections_partial (ops : List Op) (hg : GoodRun ops Net.empty) :
    let s := run ops Net.empty
    (∀ i, i < s.next → (∃ j, s.getNode (s.heap i).name = .ok j) →
      step (.addNode i) s = (s, some .valueError)) ∧
    (∀ a b, (s.getNode a = .error .exception ∨ s.getNode b = .error .exception) →
      step (.addEdge a b) s = (s, some .exception) ∧ step (.removeEdge a b) s = (s, none)) ∧
    (∀ k, s.getNode k = .error .exception →
      (∀ vals, step (.changeValues k vals) s = (s, some .exception)) ∧
      (∀ new b, step (.changeName k new b) s = (s, some .exception)) ∧
      step (.removeNode k) s = (s, none)) ∧
    (∀ k i, s.getNode k = .ok i → (s.heap i).kind = .discrete →
      (∀ c, c.shape ≠ (s.heap i).values.length :: (s.heap i).parentOrder.map
          (fun p => (s.labels p).length) → (s.heap i).values ≠ [] →
        step (.setCpd i c) s = (s, some .valueError)) ∧
      (∀ x p pv, ((s.heap i).values ≠ [] ∧ x ∉ (s.heap i).values) ∨
          (∃ q ∈ (s.heap i).parentOrder, ∃ y, Dict.get? pv q = some y ∧ y ∉ s.labels q) →
        step (.setProbability i x p pv) s = (s, some .valueError))) := by
  have h := Inv.empty.run hg
  intro s
  change s.Inv at h
  generalize s = s at *
  refine ⟨?_, ?_, ?_, ?_⟩
  · rintro i hi ⟨j, hj⟩
    change addNode i s = _
    unfold addNode
    rw [if_neg (by omega), if_pos (Dict.mem_keys_of_get? (getNode_ok.1 hj))]
  · intro a b hab
    have : ¬ (a ∈ s.gnode.keys ∧ b ∈ s.gnode.keys) := by
      rintro ⟨h1, h2⟩
      obtain ⟨i, hi⟩ := h.mem_keys.1 h1
      obtain ⟨j, hj⟩ := h.mem_keys.1 h2
      rcases hab with hab | hab
      · rw [getNode_error, hi] at hab; cases hab
      · rw [getNode_error, hj] at hab; cases hab
    exact ⟨if_neg this, if_neg this⟩
  · intro k hk
    rw [getNode_error] at hk
    refine ⟨fun vals => ?_, fun new b => changeName_unknown hk, removeNode_unknown h hk⟩
    change changeValues k vals s = _
    unfold changeValues
    rw [hk]
  · intro k i hk hd
    rw [getNode_ok] at hk
    have hok := h.tableOK hk
    constructor
    · intro c hc hne
      have hs := h.coherent.shape k i (getNode_ok.2 hk)
      rw [if_neg hne] at hs
      have e : (s.objView i).setCpd c = .error .valueError := by
        unfold NodeV.setCpd
        rw [if_neg (not_not.2 (show (s.objView i).kind = .discrete from hd)), if_pos]
        change (s.heap i).cpd.shape ≠ _
        rw [hs]
        exact fun hh => hc hh.symm
      change putCpd i ((s.objView i).setCpd c) (fun _ => true) s = _
      rw [e]; rfl
    · intro x p pv hbad
      have e := ((C35_set_probability (s.objView i) hok hd x p pv).1).2 (by
        refine hbad.imp id ?_
        rintro ⟨q, hq, y, h1, h2⟩ hkn
        exact h2 (hkn q hq y h1))
      change putCpd i ((s.objView i).setProbability x p pv) id s = _
      rw [e]; rfl

example := C32_rejections_partial Ex.ops Ex.ops_good
example := C32_atomic_partial Ex.ops Ex.ops_good (.addEdge "a" "nope") ⟨by decide +kernel, by decide +kernel⟩
  (by simp) .exception (by decide +kernel)

/-! ## C33 -/

/-- **C33** (partial: a name that is not in use, given by name)
`change_node_name(old, new)` to an unused name succeeds and renames: the same objects are found under
the new names, no object changes its type, outcomes, table or flag, parent lists (with their order)
and edges are the old ones renamed. -/
theorem C33_rename_partial (ops : List Op) (hg : GoodRun ops Net.empty) (old new : Name) (i : Nat)
    (hi : (run ops Net.empty).getNode old = .ok i)
    (hnew : (run ops Net.empty).getNode new = .error .exception) :
    let s := run ops Net.empty
    let s' := (step (.changeName old new false) s).1
    let π := Equiv.swap old new
    (step (.changeName old new false) s).2 = none ∧
    (∀ x, s'.getNode (π x) = s.getNode x) ∧
    (∀ q, (s'.heap q).name = (if q = i then new else (s.heap q).name) ∧
      (s'.heap q).kind = (s.heap q).kind ∧ (s'.heap q).values = (s.heap q).values ∧
      (s'.heap q).cpd = (s.heap q).cpd ∧ (s'.heap q).valid = (s.heap q).valid) ∧
    (∀ q, s.InNet q → (s'.heap q).parentOrder = (s.heap q).parentOrder.map π) ∧
    (∀ a b j, (b, j) ∈ s.succOf a ↔ (π b, j) ∈ s'.succOf (π a)) ∧
    (∀ a b j, (a, j) ∈ s.predOf b ↔ (π a, j) ∈ s'.predOf (π b)) ∧
    s'.Coherent := by
  have h := Inv.empty.run hg
  intro s s' π
  change s.Inv at h
  change s.getNode old = .ok i at hi
  change s.getNode new = .error .exception at hnew
  rw [getNode_ok] at hi
  rw [getNode_error] at hnew
  obtain ⟨S, P, e, k1, k2, k3, k4, k5, k6⟩ :=
    changeName_effect (byObj := false) h hi (Or.inr ⟨hnew, rfl⟩)
  have hspec := heapRenamed_spec h hi (Or.inr hnew)
  have e1 : step (.changeName old new false) s = _ := e
  have e2 : s' = _ := congrArg Prod.fst e1
  have hinv : s'.Inv := h.changeName (Or.inr ⟨Dict.get?_eq_none.1 hnew, rfl⟩)
  have hsucc : ∀ x c, (s'.succOf x).get? c = (s.succOf (π x)).get? (π c) := by
    rw [e2]; exact k5
  have hpred : ∀ x c, (s'.predOf c).get? x = (s.predOf (π c)).get? (π x) := by
    rw [e2]; exact k6
  have hheap : s'.heap = s.heapRenamed i old new := by rw [e2]
  refine ⟨by rw [e1], fun x => ?_, fun q => ?_, fun q hq => ?_, fun a b j => ?_, fun a b j => ?_,
    hinv.coherent⟩
  · unfold getNode
    have : s'.lookup.get? (π x) = s.lookup.get? x := by
      rw [e2]
      refine (renamed_lookup h hi (Or.inr hnew) (π x)).trans ?_
      rw [show Equiv.swap old new (π x) = x from Equiv.swap_apply_self _ _ _]
    rw [this]
  · rw [hheap]
    obtain ⟨d1, d2, d3, d4, _⟩ := hspec.data q
    exact ⟨hspec.name q, d1, d2, d3, d4⟩
  · obtain ⟨c, hc⟩ := hq
    rw [hheap]
    exact hspec.order c q (getNode_ok.1 hc)
  · rw [Dict.mem_iff_get? (h.succ_nodup a), Dict.mem_iff_get? (hinv.succ_nodup (π a)), hsucc]
    simp only [π, Equiv.swap_apply_self]
  · rw [Dict.mem_iff_get? (h.pred_nodup b), Dict.mem_iff_get? (hinv.pred_nodup (π b)), hpred]
    simp only [π, Equiv.swap_apply_self]

/-- **C33** Every query answer is unchanged up to the renaming, for both elimination algorithms. -/
theorem C33_queries (ops : List Op) (hg : GoodRun ops Net.empty) (hu : (run ops Net.empty).Usable)
    (old new : Name) (i : Nat)
    (hi : (run ops Net.empty).getNode old = .ok i)
    (hnew : (run ops Net.empty).getNode new = .error .exception)
    (so so' : SetOrder) (ev : Dict Evidence)
    (he : LegalEvidence (run ops Net.empty).view ev) (Q : List Name) (hQn : Q.Nodup)
    (hQ : ∀ v ∈ Q, v ∈ (run ops Net.empty).view.names) :
    let s := run ops Net.empty
    let s' := (step (.changeName old new false) s).1
    let π := Equiv.swap old new
    ∃ r r' b b', VE.naiveMarginals so s.view Q ev = .ok r ∧
      VE.naiveMarginals so' s'.view (Q.map π) (renameEv π ev) = .ok r' ∧
      VE.bucketMarginals so s.view Q ev none = .ok b ∧
      VE.bucketMarginals so' s'.view (Q.map π) (renameEv π ev) none = .ok b' ∧
      (∀ v, π v ∈ r'.variableOrder ↔ v ∈ r.variableOrder) ∧
      (∀ v, π v ∈ b'.variableOrder ↔ v ∈ b.variableOrder) ∧
      ∀ σ, Legal s.view.card Q σ → r'.eval (σ ∘ π) = r.eval σ ∧ b'.eval (σ ∘ π) = b.eval σ := by
  have h := Inv.empty.run hg
  intro s s' π
  obtain ⟨_, c2, c3, c4, _⟩ := C33_rename_partial ops hg old new i hi hnew
  change s.Inv at h
  change s.Usable at hu
  rw [getNode_ok] at hi
  rw [getNode_error] at hnew
  have hinv : s'.Inv := h.changeName (Or.inr ⟨Dict.get?_eq_none.1 hnew, rfl⟩)
  have hu' : s'.Usable := by
    intro k q hk
    have hk2 : s.getNode (π k) = .ok q := by
      have := c2 (π k)
      rw [show Equiv.swap old new (π k) = k from Equiv.swap_apply_self _ _ _] at this
      exact this.symm.trans hk
    obtain ⟨u1, u2, u3⟩ := hu _ _ hk2
    obtain ⟨_, d1, d2, _⟩ := c3 q
    refine ⟨d1 ▸ u1, d2 ▸ u2, ?_⟩
    rw [c4 q ⟨_, hk2⟩]
    intro hm
    obtain ⟨p, hp, rfl⟩ := List.mem_map.1 hm
    simp only [π, Equiv.swap_apply_self] at u3
    exact u3 hp
  obtain ⟨n1, n2, n3⟩ := view_rename h hi hnew
  change s'.view.names.Perm _ at n1
  have hc := view_consistent h hu
  have hc' := view_consistent hinv hu'
  have hl := view_linked h
  have hl' := view_linked hinv
  have he' : LegalEvidence s'.view (renameEv π ev) := legalEvidence_rename π n1 n2 he
  have hQ' : ∀ v ∈ Q.map π, v ∈ s'.view.names := by
    intro v hv
    obtain ⟨w, hw, rfl⟩ := List.mem_map.1 hv
    exact n1.mem_iff.2 (List.mem_map.2 ⟨w, hQ w hw, rfl⟩)
  have hQn' : (Q.map π).Nodup := hQn.map π.injective
  obtain ⟨r, r1, _, _, r2, r3⟩ := C13_naive_exact so s.view hc ev he Q hQ
  obtain ⟨r', r1', _, _, r2', r3'⟩ := C13_naive_exact so' s'.view hc' _ he' _ hQ'
  obtain ⟨b, b1, _, _, b2, b3⟩ := C14_bucket_exact_default so s.view hc hl ev he Q hQn hQ
  obtain ⟨b', b1', _, _, b2', b3'⟩ := C14_bucket_exact_default so' s'.view hc' hl' _ he' _ hQn' hQ'
  have hmap : ∀ v, π v ∈ Q.map π ↔ v ∈ Q := fun v => List.mem_map_of_injective π.injective
  refine ⟨r, r', b, b', r1, r1', b1, b1', fun v => ?_, fun v => ?_, fun σ hσ => ?_⟩
  · rw [r2', r2, hmap]
  · rw [b2', b2, hmap]
  · have hσ' : Legal s'.view.card (Q.map π) (σ ∘ π) := by
      intro v hv
      obtain ⟨w, hw, rfl⟩ := List.mem_map.1 hv
      have : s'.view.card (π w) = s.view.card w := congrArg List.length (n2 w)
      rw [this]
      simpa [π, Function.comp] using hσ w hw
    have hp := (posterior_rename π n1 n2 n3 ev Q (σ ∘ π)).2
    have hσσ : (σ ∘ π) ∘ π = σ := by funext x; simp [π]
    rw [hσσ] at hp
    rw [r3 σ hσ, r3' _ hσ', b3 σ hσ, b3' _ hσ']
    exact ⟨hp, hp⟩

example := C33_rename_partial Ex.ops Ex.ops_good "c" "newName" 2 (by decide +kernel) (by decide +kernel)
example := C33_queries Ex.ops Ex.ops_good Ex.net_usable "c" "newName" 2 (by decide +kernel)
  (by decide +kernel) .insertion .reversed [("d", .hard "t")]
  ⟨by decide, by decide +kernel, by
    intro v x hx
    simp only [List.mem_singleton, Prod.mk.injEq, Evidence.hard.injEq] at hx
    obtain ⟨rfl, rfl⟩ := hx
    decide +kernel, by intro v l hx; simp at hx⟩ ["a", "c"] (by decide) (by decide +kernel)

/-- **C33 refuted** for a name already in use: the call succeeds and a node is lost.  (Two nodes,
rename the first to the second's name: one name is left, and the second object is unreachable.) -/
theorem C33_collision_refuted : ∃ ops old new, GoodRun ops Net.empty ∧
    (run ops Net.empty).randomOrder.length = 2 ∧
    (step (.changeName old new false) (run ops Net.empty)).2 = none ∧
    (step (.changeName old new false) (run ops Net.empty)).1.randomOrder.length = 1 ∧
    (run ops Net.empty).InNet 1 ∧
    ¬ (step (.changeName old new false) (run ops Net.empty)).1.InNet 1 := by
  refine ⟨[.create .discrete "x" ["t", "f"], .create .discrete "y" ["t", "f"], .addNode 0,
    .addNode 1], "x", "y", goodRun_of_check (by decide +kernel), by decide +kernel,
    by decide +kernel, by decide +kernel, ⟨"y", by decide +kernel⟩, ?_⟩
  rintro ⟨k, hk⟩
  have := Dict.get?_mem (getNode_ok.1 hk)
  have e : (step (.changeName "x" "y" false) (run [.create .discrete "x" ["t", "f"],
    .create .discrete "y" ["t", "f"], .addNode 0, .addNode 1] Net.empty)).1.lookup = [("y", 0)] := by
    decide +kernel
  rw [e] at this
  simp at this

/-! ## C34 -/

/-- **C34** (all nodes whose children are chance nodes; the rest is refuted by
`C30_remove_decision_parent_refuted`) `remove_node(k)` removes exactly that node and its edges; its
children lose exactly this parent, their tables are zeroed and their flags cleared; every other
object is untouched. -/
theorem C34_remove_node_partial (ops : List Op) (hg : GoodRun ops Net.empty) (k : Name) (i : Nat)
    (hk : (run ops Net.empty).getNode k = .ok i)
    (hd : ∀ c j, (run ops Net.empty).getNode c = .ok j → k ∈ ((run ops Net.empty).heap j).parentOrder →
      ((run ops Net.empty).heap j).kind = .discrete) :
    let s := run ops Net.empty
    let s' := (step (.removeNode k) s).1
    (step (.removeNode k) s).2 = none ∧
    (∀ c, s'.getNode c = if c = k then .error .exception else s.getNode c) ∧
    (∀ a b j, (b, j) ∈ s'.succOf a ↔ (b, j) ∈ s.succOf a ∧ a ≠ k ∧ b ≠ k) ∧
    (∀ a b j, (a, j) ∈ s'.predOf b ↔ (a, j) ∈ s.predOf b ∧ a ≠ k ∧ b ≠ k) ∧
    (∀ c j, s.getNode c = .ok j →
      (k ∈ (s.heap j).parentOrder →
        (s'.heap j).parentOrder = (s.heap j).parentOrder.erase k ∧
        (∀ x ∈ (s'.heap j).cpd.data, x = 0) ∧ (s'.heap j).valid = false ∧
        (s'.heap j).name = (s.heap j).name ∧ (s'.heap j).values = (s.heap j).values) ∧
      (k ∉ (s.heap j).parentOrder → s'.heap j = s.heap j)) ∧
    (∀ j, ¬ s.InNet j → s'.heap j = s.heap j) ∧
    s'.Coherent := by
  have h := Inv.empty.run hg
  intro s s'
  change s.Inv at h
  change s.getNode k = .ok i at hk
  rw [getNode_ok] at hk
  have hd' : Good s (.removeNode k) := fun c j hc hkj => hd c j (getNode_ok.2 hc) hkj
  have e := removeNode_effect h hk hd'
  have e1 : step (.removeNode k) s = _ := e
  have e2 : s' = _ := congrArg Prod.fst e1
  have hinv : s'.Inv := h.step hd'
  have hheap : s'.heap = s.heapWithout k := by rw [e2]
  have hlook : ∀ c, s'.lookup.get? c = if c = k then none else s.lookup.get? c := by
    intro c; rw [e2]; exact Dict.get?_erase h.nodup k c
  have hpar : ∀ b, b ≠ k → s'.parentsOf b = (s.parentsOf b).erase k := by
    intro b hb
    unfold parentsOf
    rw [hlook, if_neg hb]
    cases hl : s.lookup.get? b with
    | none => rfl
    | some j =>
      simp only [hheap, heapWithout]
      split
      · rfl
      · next hno =>
        refine (List.erase_of_not_mem fun hm => hno (h.mem_succ_ids.2 ⟨b, hl, hm⟩)).symm
  refine ⟨by rw [e1], fun c => ?_, fun a b j => ?_, fun a b j => ?_, fun c j hc => ⟨fun hkj => ?_,
    fun hkj => ?_⟩, fun j hj => ?_, hinv.coherent⟩
  · unfold getNode
    rw [hlook]
    by_cases hck : c = k
    · rw [if_pos hck, if_pos hck]
    · rw [if_neg hck, if_neg hck]
  · rw [Dict.mem_iff_get? (hinv.succ_nodup a), Dict.mem_iff_get? (h.succ_nodup a),
      hinv.succ_spec, h.succ_spec, hlook]
    by_cases hb : b = k
    · simp [hb]
    · simp only [hpar b hb, (h.order_nodup b).mem_erase_iff, hb, if_false, ne_eq,
        not_false_eq_true, and_true]
      by_cases ha : a = k <;> simp [ha]
  · rw [Dict.mem_iff_get? (hinv.pred_nodup b), Dict.mem_iff_get? (h.pred_nodup b),
      hinv.pred_spec, h.pred_spec, hlook]
    by_cases hb : b = k
    · have : s'.parentsOf b = [] := parentsOf_none (by rw [hlook, if_pos hb])
      subst hb
      simp [this]
    · simp only [hpar b hb, (h.order_nodup b).mem_erase_iff, hb, ne_eq, not_false_eq_true,
        and_true]
      by_cases ha : a = k <;> simp [ha]
  · have : s.heapWithout k j = dropped s.heap k (s.heap j) :=
      if_pos (h.mem_succ_ids.2 ⟨c, getNode_ok.1 hc, hkj⟩)
    rw [hheap, this]
    exact ⟨rfl, zeros_data _, rfl, rfl, rfl⟩
  · rw [hheap]
    refine if_neg fun hm => ?_
    obtain ⟨_, _, h2⟩ := h.mem_succ_ids.1 hm
    exact hkj h2
  · rw [hheap]
    refine if_neg fun hm => hj ?_
    obtain ⟨c, h1, _⟩ := h.mem_succ_ids.1 hm
    exact ⟨c, getNode_ok.2 h1⟩

/-- **C34** `remove_edge(a, b)` on an existing edge into a chance node removes exactly that edge;
the child loses exactly this parent, its table is zeroed and its flag cleared; every other object is
untouched. -/
theorem C34_remove_edge_partial (ops : List Op) (hg : GoodRun ops Net.empty) (a b : Name) (i j : Nat)
    (ha : (run ops Net.empty).getNode a = .ok i) (hb : (run ops Net.empty).getNode b = .ok j)
    (hab : a ∈ ((run ops Net.empty).heap j).parentOrder)
    (hd : ((run ops Net.empty).heap j).kind = .discrete) :
    let s := run ops Net.empty
    let s' := (step (.removeEdge a b) s).1
    (step (.removeEdge a b) s).2 = none ∧
    (∀ c, s'.getNode c = s.getNode c) ∧
    (∀ u v q, (v, q) ∈ s'.succOf u ↔ (v, q) ∈ s.succOf u ∧ ¬ (u = a ∧ v = b)) ∧
    (∀ u v q, (u, q) ∈ s'.predOf v ↔ (u, q) ∈ s.predOf v ∧ ¬ (u = a ∧ v = b)) ∧
    (s'.heap j).parentOrder = (s.heap j).parentOrder.erase a ∧
    (∀ x ∈ (s'.heap j).cpd.data, x = 0) ∧ (s'.heap j).valid = false ∧
    (s'.heap j).name = (s.heap j).name ∧ (s'.heap j).values = (s.heap j).values ∧
    (∀ q, q ≠ j → s'.heap q = s.heap q) ∧
    s'.Coherent := by
  have h := Inv.empty.run hg
  intro s s'
  change s.Inv at h
  change s.getNode a = .ok i at ha
  change s.getNode b = .ok j at hb
  rw [getNode_ok] at ha hb
  have hold : a ∈ s.parentsOf b := by rw [parentsOf_of hb]; exact hab
  have e1 : step (.removeEdge a b) s = _ := removeEdge_effect h ha hb hold hd
  have e2 : s' = _ := congrArg Prod.fst e1
  have hinv : s'.Inv := h.step (op := .removeEdge a b) trivial
  have hheap : s'.heap = Function.update s.heap j (dropped s.heap a (s.heap j)) := by rw [e2]
  have hlook : s'.lookup = s.lookup := by rw [e2]
  have hpar : ∀ v, s'.parentsOf v = if v = b then (s.parentsOf v).erase a else s.parentsOf v := by
    intro v
    unfold parentsOf
    rw [hlook, hheap]
    cases hl : s.lookup.get? v with
    | none => simp
    | some q =>
      by_cases hv : v = b
      · subst hv
        rw [hb] at hl; cases hl
        simp [dropped, redim]
      · have : q ≠ j := by rintro rfl; exact hv (h.inj hl hb)
        simp [hv, this]
  have hmem : ∀ u v, u ∈ s'.parentsOf v ↔ u ∈ s.parentsOf v ∧ ¬ (u = a ∧ v = b) := by
    intro u v
    rw [hpar]
    split
    · next hv =>
      rw [(h.order_nodup v).mem_erase_iff]
      simp only [hv, and_true]; tauto
    · next hv => simp [hv]
  refine ⟨by rw [e1], fun c => ?_, fun u v q => ?_, fun u v q => ?_, ?_, ?_, ?_, ?_, ?_,
    fun q hq => ?_, hinv.coherent⟩
  · unfold getNode; rw [hlook]
  · rw [Dict.mem_iff_get? (hinv.succ_nodup u), Dict.mem_iff_get? (h.succ_nodup u),
      hinv.succ_spec, h.succ_spec, hlook]
    simp only [hmem]
    by_cases hx : u = a ∧ v = b
    · simp [hx]
    · simp only [hx, not_false_eq_true, and_true]
  · rw [Dict.mem_iff_get? (hinv.pred_nodup v), Dict.mem_iff_get? (h.pred_nodup v),
      hinv.pred_spec, h.pred_spec, hlook]
    simp only [hmem]
    by_cases hx : u = a ∧ v = b
    · simp [hx]
    · simp only [hx, not_false_eq_true, and_true]
  · rw [hheap, Function.update_self]; rfl
  · rw [hheap, Function.update_self]; exact zeros_data _
  · rw [hheap, Function.update_self]; rfl
  · rw [hheap, Function.update_self]; rfl
  · rw [hheap, Function.update_self]; rfl
  · rw [hheap, Function.update_of_ne hq]

example := C34_remove_edge_partial Ex.ops Ex.ops_good "b" "c" 1 2 (by decide +kernel) (by decide +kernel)
  (by decide +kernel) (by decide +kernel)
theorem discrete_of_check {s : Net}
    (h : (s.lookup.all fun p => decide ((s.heap p.2).kind = .discrete)) = true) (k : Name) :
    ∀ c j, s.getNode c = .ok j → k ∈ (s.heap j).parentOrder → (s.heap j).kind = .discrete :=
  fun _ _ hc _ => of_decide_eq_true (List.all_eq_true.1 h _ (Dict.get?_mem (getNode_ok.1 hc)))

example := C34_remove_node_partial Ex.ops Ex.ops_good "c" 2 (by decide +kernel)
  (discrete_of_check (by decide +kernel) _)

/-- **C34 refuted** for an edge into a decision node (`DecisionNode` has no `remove_parent`): the call
raises `AttributeError` and the edge stays. -/
theorem C34_decision_edge_refuted : ∃ ops a b, GoodRun ops Net.empty ∧
    a ∈ ((run ops Net.empty).predOf b).keys ∧
    (step (.removeEdge a b) (run ops Net.empty)).2 = some .attributeError ∧
    a ∈ ((step (.removeEdge a b) (run ops Net.empty)).1.predOf b).keys :=
  ⟨[.create .discrete "x" ["t", "f"], .create .decision "d" ["p", "q"], .addNode 0, .addNode 1,
    .addEdge "x" "d"], "x", "d", goodRun_of_check (by decide +kernel), by decide +kernel,
    by decide +kernel, by decide +kernel⟩

/-! ## C56 -/

/-- **C56** Inference on whatever a good history has built is exact: if the final network is usable,
both elimination algorithms return the posterior that the stored tables define. -/
theorem C56_api_to_posterior (ops : List Op) (hg : GoodRun ops Net.empty)
    (hu : (run ops Net.empty).Usable) (so : SetOrder) (ev : Dict Evidence)
    (he : LegalEvidence (run ops Net.empty).view ev) (Q : List Name) (hQn : Q.Nodup)
    (hQ : ∀ v ∈ Q, ∃ i, (run ops Net.empty).getNode v = .ok i) :
    ∃ r b, VE.naiveMarginals so (run ops Net.empty).view Q ev = .ok r ∧
      VE.bucketMarginals so (run ops Net.empty).view Q ev none = .ok b ∧
      (∀ v, v ∈ r.variableOrder ↔ v ∈ Q) ∧ (∀ v, v ∈ b.variableOrder ↔ v ∈ Q) ∧
      ∀ σ, Legal (fun v => ((run ops Net.empty).labels v).length) Q σ →
        r.eval σ = posterior (run ops Net.empty).view ev Q σ ∧
        b.eval σ = posterior (run ops Net.empty).view ev Q σ := by
  have h := Inv.empty.run hg
  obtain ⟨hc, hl⟩ := C30_usable_consistent ops hg hu
  have hQ' : ∀ v ∈ Q, v ∈ (run ops Net.empty).view.names := by
    intro v hv
    obtain ⟨i, hi⟩ := hQ v hv
    rw [view_names h]
    exact Dict.mem_keys_of_get? (getNode_ok.1 hi)
  obtain ⟨r, r1, _, _, r2, r3⟩ := C13_naive_exact so _ hc ev he Q hQ'
  obtain ⟨b, b1, _, _, b2, b3⟩ := C14_bucket_exact_default so _ hc hl ev he Q hQn hQ'
  refine ⟨r, b, r1, b1, r2, b2, fun σ hσ => ?_⟩
  have : Legal (run ops Net.empty).view.card Q σ := by
    intro v hv
    rw [BN.card, view_lab h]
    exact hσ v hv
  exact ⟨r3 σ this, b3 σ this⟩

example := C56_api_to_posterior Ex.ops Ex.ops_good Ex.net_usable .insertion [] ⟨by decide, by simp,
  by simp, by simp⟩ ["d", "b"] (by decide) (by
    intro v hv
    rcases List.mem_cons.1 hv with rfl | hv
    · exact ⟨3, by decide +kernel⟩
    · rcases List.mem_singleton.1 hv with rfl
      exact ⟨1, by decide +kernel⟩)

end Primo
