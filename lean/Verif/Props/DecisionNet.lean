import Verif.Props.Decision
import Verif.Lemmas.DNet

/-! # C64: decision networks as they are built and asked -/

namespace Primo
open Net

namespace Ex

/-- a decision, a chance node that depends on it and a utility of both -/
def dops : List DOp :=
  [.create .decision "d" ["x", "y"], .create .discrete "c" ["0", "1"], .create .utility "u" [],
    .addNode 0, .addNode 1, .addNode 2, .addEdge "d" "c", .addEdge "c" "u", .addEdge "d" "u",
    .setCpd 1 ⟨[2, 2], [1 / 4, 3 / 4, 3 / 4, 1 / 4], rfl⟩,
    .setUtilities 2 ⟨[2, 2], [10, 8, 0, -2], rfl⟩]

/-- the network built by it -/
def dnet : Net := drun dops Net.empty

end Ex

theorem NDArray.zeros_get (sh idx : List Nat) : (NDArray.zeros sh).get idx = 0 := by
  have : ∀ x ∈ (NDArray.zeros sh).data, x = 0 := by
    intro x hx
    simp only [NDArray.zeros, NDArray.tabulate, List.mem_map] at hx
    obtain ⟨_, _, rfl⟩ := hx; rfl
  unfold NDArray.get
  rw [List.getD_eq_getElem?_getD]
  cases e : (NDArray.zeros sh).data[NDArray.ravel (NDArray.zeros sh).shape idx]? with
  | none => rfl
  | some x => exact this x (List.mem_of_getElem? e)

/-- A computable form of `DGood`. -/
def Net.dgoodB (s : Net) : DOp → Bool
  | .addNode i => decide (i < s.next) &&
      (s.lookup.get? (s.heap i).name).all fun j => decide (j = i)
  | .addEdge a b => (s.lookup.get? a).all fun i => (s.lookup.get? b).all fun j =>
      decide (a ≠ b) && decide (a ∉ (s.heap j).parentOrder) && decide ((s.heap i).kind ≠ .utility)
  | .removeParent i _ => decide (i < s.next)
  | .setValues i _ => decide (i < s.next) &&
      (List.range s.next).all fun j => (s.heap j).parents.all fun q => decide (q.2 ≠ i)
  | _ => true

theorem Net.dgood_of_bool {s : Net} {op : DOp} (h : s.dgoodB op = true) : DGood s op := by
  cases op with
  | addNode i =>
    simp only [dgoodB, Bool.and_eq_true, decide_eq_true_eq] at h
    refine ⟨h.1, fun j hj => ?_⟩
    have := h.2
    rw [hj] at this
    simpa using this
  | addEdge a b =>
    intro i j hi hj
    simp only [dgoodB, hi, hj, Option.all_some, Bool.and_eq_true, decide_eq_true_eq] at h
    exact ⟨h.1.1, h.1.2, h.2⟩
  | removeParent i j => exact (of_decide_eq_true h : i < s.next)
  | setValues i v =>
    simp only [dgoodB, Bool.and_eq_true, decide_eq_true_eq, List.all_eq_true, List.mem_range] at h
    exact ⟨h.1, fun j hj p e => h.2 j hj _ (Dict.get?_mem e) rfl⟩
  | _ => trivial

/-- A computable form of `DGoodRun`. -/
def Net.dgoodRunB : List DOp → Net → Bool
  | [], _ => true
  | op :: ops, s => s.dgoodB op && dgoodRunB ops (dstep op s).1

theorem Net.dgoodRun_of_bool {ops : List DOp} {s : Net} (h : dgoodRunB ops s = true) :
    DGoodRun ops s := by
  induction ops generalizing s with
  | nil => trivial
  | cons op ops ih =>
    rw [dgoodRunB, Bool.and_eq_true] at h
    exact ⟨dgood_of_bool h.1, ih h.2⟩

/-- A computable form of `DUsable`. -/
theorem Net.dusable_of_bool {s : Net}
    (h : (s.lookup.all fun p => decide ((s.heap p.2).kind = .utility ∨ (s.heap p.2).values ≠ [])) = true) :
    s.DUsable := by
  intro k i hk hu
  have := List.all_eq_true.1 h _ (Dict.get?_mem hk)
  simp only [decide_eq_true_eq] at this
  exact this.resolve_left hu

theorem Ex.dops_good : DGoodRun Ex.dops Net.empty := dgoodRun_of_bool (by decide +kernel)
theorem Ex.dnet_usable : Ex.dnet.DUsable := dusable_of_bool (by decide +kernel)

/-- **C64** A good history of a decision network leaves a consistent one, whatever exceptions were raised
and caught: the theorems C50 – C52 apply to it.  Missing for all histories: the calls excluded by `DGood`,
for which it is false (see below). -/
theorem C64_consistent_partial (ops : List DOp) (hg : DGoodRun ops Net.empty)
    (hu : (drun ops Net.empty).DUsable) : DNConsistent (drun ops Net.empty).view :=
  (DInv.empty.run hg).consistent hu

example := C64_consistent_partial Ex.dops Ex.dops_good Ex.dnet_usable

/-- **C64** `expected_utility(D)` on the node objects of a network built by a good history: the decisions
`D` are written into the decision nodes and nothing else changes, and the expected utility of the changed
network is returned. -/
theorem C64_expected_utility_partial (ops : List DOp) (hg : DGoodRun ops Net.empty)
    (hu : (drun ops Net.empty).DUsable) (hnn : (drun ops Net.empty).view.chance.NonNeg)
    (hne : (drun ops Net.empty).view ≠ []) (D : Dict Val)
    (hD : LegalDecisions (drun ops Net.empty).view D) (so : SetOrder) (sp : SetPerm) :
    (decideAll D (drun ops Net.empty)).2 = none ∧
    (decideAll D (drun ops Net.empty)).1.view = (drun ops Net.empty).view.decide D ∧
    Decision.evaluate so sp (decideAll D (drun ops Net.empty)).1.view =
      if mass ((drun ops Net.empty).view.decide D) = 0 then .error .floatingPointError
      else .ok (NDArray.scalar (utilityMass ((drun ops Net.empty).view.decide D) /
        mass ((drun ops Net.empty).view.decide D))) := by
  have h := DInv.empty.run hg
  have hc := h.consistent hu
  have e := view_decideAll D h
  have c := C51_expected_utility so sp _ D hc hnn hne hD
  unfold Decision.expectedUtility at c
  rw [Option.getD_some, ← e] at c
  cases e2 : (decideAll D (drun ops Net.empty)).2 with
  | some x =>
    rw [e2] at c
    simp only [Prod.mk.injEq] at c
    rw [e2, setDecisions_ok hc hD] at e
    simp at e
  | none =>
    rw [e2] at c
    simp only [Prod.mk.injEq] at c
    exact ⟨rfl, c.1, c.2⟩

theorem Ex.dnet_nonneg : Ex.dnet.view.chance.NonNeg := by
  intro n hn x hx
  have : ∀ n ∈ Ex.dnet.view.chance, ∀ x ∈ n.cpd.data, 0 ≤ x := by decide +kernel
  exact this n hn x hx

theorem Ex.dnet_legal : LegalDecisions Ex.dnet.view [("d", "y")] := by
  refine ⟨by decide, fun p hp => ?_⟩
  rw [List.mem_singleton] at hp
  subst hp
  exact ⟨Ex.dnet.objView 0, by decide +kernel, by decide +kernel, by decide +kernel, by decide +kernel⟩

example := C64_expected_utility_partial Ex.dops Ex.dops_good Ex.dnet_usable Ex.dnet_nonneg
  (by decide +kernel) [("d", "y")] Ex.dnet_legal .insertion .insertion
example : Decision.evaluate .insertion .insertion (decideAll [("d", "y")] Ex.dnet).1.view =
    .ok (NDArray.scalar (11 / 2)) := by decide +kernel

/-- **C64** More generally, whatever the decisions: the calls of `decision.VariableElimination` change the node
objects exactly as the functions of C50 – C52 change the network, and raise the same exceptions. -/
theorem C64_live_partial (ops : List DOp) (hg : DGoodRun ops Net.empty) (so : SetOrder) :
    (∀ (sp : SetPerm) (D : Dict Val),
      (decideAll D (drun ops Net.empty)).1.view =
        (Decision.expectedUtility so sp (drun ops Net.empty).view (some D)).1 ∧
      ∀ e, (decideAll D (drun ops Net.empty)).2 = some e →
        (Decision.expectedUtility so sp (drun ops Net.empty).view (some D)).2 = .error e) ∧
    ∀ (sps : Nat → SetPerm) (order : List Name) (F : Dict Val),
      (prepareAll order F (drun ops Net.empty)).1.view =
        (Decision.getOptimalDecisions so sps (drun ops Net.empty).view order (some F)).1 ∧
      ∀ e, (prepareAll order F (drun ops Net.empty)).2 = some e →
        (Decision.getOptimalDecisions so sps (drun ops Net.empty).view order (some F)).2 = .error e := by
  have h := DInv.empty.run hg
  refine ⟨fun sp D => ?_, fun sps order F => ?_⟩
  · have e := view_decideAll D h
    unfold Decision.expectedUtility
    rw [Option.getD_some, ← e]
    cases e2 : (decideAll D (drun ops Net.empty)).2 <;> simp
  · have e := view_prepareAll F order h
    unfold Decision.getOptimalDecisions
    rw [Option.getD_some, ← e]
    cases e2 : (prepareAll order F (drun ops Net.empty)).2 <;> simp

example := (C64_live_partial Ex.dops Ex.dops_good .insertion).1 .insertion [("d", "nonsense")]
example : (decideAll [("d", "nonsense")] Ex.dnet).2 = some .valueError := by decide +kernel

/-- **C64** An edge to a chance node resets its table to zero, so that `expected_utility` raises
`FloatingPointError` until the table is set again. -/
theorem C64_edge_resets (ops : List DOp) (a b : Name)
    (hg : DGoodRun (ops ++ [.addEdge a b]) Net.empty)
    (hu : (drun (ops ++ [.addEdge a b]) Net.empty).DUsable)
    (hnn : (drun (ops ++ [.addEdge a b]) Net.empty).view.chance.NonNeg)
    (i j : Nat) (ha : (drun ops Net.empty).lookup.get? a = some i)
    (hb : (drun ops Net.empty).lookup.get? b = some j)
    (hk : ((drun ops Net.empty).heap j).kind ≠ .utility) (so : SetOrder) (sp : SetPerm) :
    Decision.evaluate so sp (drun (ops ++ [.addEdge a b]) Net.empty).view =
      .error .floatingPointError := by
  have hrun : drun (ops ++ [.addEdge a b]) Net.empty =
      (dstep (.addEdge a b) (drun ops Net.empty)).1 := by
    simp [drun, List.foldl_append]
  have hsplit : ∀ (l : List DOp) (s : Net), DGoodRun (l ++ [.addEdge a b]) s →
      DGoodRun l s ∧ DGood (drun l s) (.addEdge a b) := by
    intro l
    induction l with
    | nil => intro s h; exact ⟨trivial, h.1⟩
    | cons op l ih => intro s h; obtain ⟨h1, h2⟩ := ih _ h.2; exact ⟨⟨h.1, h1⟩, h2⟩
  obtain ⟨g1, g2⟩ := hsplit ops _ hg
  have h0 := DInv.empty.run g1
  have h := DInv.empty.run hg
  obtain ⟨q1, q2, q3⟩ := g2 i j ha hb
  have hjn := h0.name b j hb
  have hst : drun (ops ++ [.addEdge a b]) Net.empty =
      (drun ops Net.empty).setObj j (grown (drun ops Net.empty).heap a i ((drun ops Net.empty).heap j)) := by
    rw [hrun]
    change (dnAddEdge a b (drun ops Net.empty)).1 = _
    unfold dnAddEdge
    rw [ha, hb]
    simp only
    rw [addParent_ok (h0.name a i ha).2 q3 q2 (h0.obj j hjn.1).parents]
  have hlk : (drun (ops ++ [.addEdge a b]) Net.empty).lookup.get? b = some j := by rw [hst]; exact hb
  have hm : (drun (ops ++ [.addEdge a b]) Net.empty).objView j ∈
      (drun (ops ++ [.addEdge a b]) Net.empty).view := h.mem_view.2 ⟨b, j, hlk, rfl⟩
  have hz : ∃ sh, ((drun (ops ++ [.addEdge a b]) Net.empty).objView j).cpd = NDArray.zeros sh := by
    change ∃ sh, ((drun (ops ++ [.addEdge a b]) Net.empty).heap j).cpd = NDArray.zeros sh
    rw [hst, setObj_heap, Function.update_self]
    exact ⟨_, rfl⟩
  have hk' : ((drun (ops ++ [.addEdge a b]) Net.empty).objView j).kind ≠ .utility := by
    change ((drun (ops ++ [.addEdge a b]) Net.empty).heap j).kind ≠ .utility
    rw [hst, setObj_heap, Function.update_self]
    exact hk
  have hne : (drun (ops ++ [.addEdge a b]) Net.empty).view ≠ [] := List.ne_nil_of_mem hm
  have hmass : mass (drun (ops ++ [.addEdge a b]) Net.empty).view = 0 := by
    have hall : joint (drun (ops ++ [.addEdge a b]) Net.empty).view.chance = fun _ => 0 := by
      funext σ
      unfold joint
      refine List.prod_eq_zero (List.mem_map.2 ⟨_, mem_chance.2 ⟨hm, hk'⟩, ?_⟩)
      obtain ⟨sh, e⟩ := hz
      unfold NodeV.entry
      rw [e]
      exact NDArray.zeros_get _ _
    unfold mass
    rw [hall]
    unfold sumOver
    simp
  have c := C51_no_decisions so sp _ (h.consistent hu) hnn hne
  rw [hmass, if_pos rfl] at c
  unfold Decision.expectedUtility at c
  simp only [Option.getD_none, Decision.setDecisions, Prod.mk.injEq, true_and] at c
  exact c

example := C64_edge_resets
  (Ex.dops ++ [.create .discrete "e" ["0"], .addNode 3, .setCpd 3 ⟨[1], [1], rfl⟩]) "e" "c"
  (dgoodRun_of_bool (by decide +kernel)) (dusable_of_bool (by decide +kernel))
  (by
    intro n hn x hx
    have : ∀ n ∈ (drun ((Ex.dops ++ [.create .discrete "e" ["0"], .addNode 3,
      .setCpd 3 ⟨[1], [1], rfl⟩]) ++ [.addEdge "e" "c"]) Net.empty).view.chance, ∀ x ∈ n.cpd.data, 0 ≤ x := by
      decide +kernel
    exact this n hn x hx)
  3 1 (by decide +kernel) (by decide +kernel) (by decide +kernel) .insertion .insertion

/-- **C64** An edge from a utility node raises `AttributeError`, but is recorded all the same; from then
on every edge to that node raises `AttributeError`, and its table does not get the new axes. -/
theorem C64_utility_parent (s : Net) (a b c : Name) (i j k : Nat) (ha : s.lookup.get? a = some i)
    (hb : s.lookup.get? b = some j) (hc : s.lookup.get? c = some k) (hij : i ≠ j)
    (hname : (s.heap i).name = a) (hcname : (s.heap k).name = c) (hca : c ≠ a)
    (hi : (s.heap i).kind = .utility)
    (hp : ∀ p ∈ (s.heap j).parentOrder, ∃ q, (s.heap j).parents.get? p = some q ∧
      (s.heap q).kind ≠ .utility) :
    (dnAddEdge a b s).2 = some .attributeError ∧
    ((dnAddEdge a b s).1.heap j).parentOrder = (s.heap j).parentOrder ++ [a] ∧
    ((dnAddEdge a b s).1.heap j).cpd = (s.heap j).cpd ∧
    (dnAddEdge c b (dnAddEdge a b s).1).2 = some .attributeError ∧
    ((dnAddEdge c b (dnAddEdge a b s).1).1.heap j).cpd = (s.heap j).cpd := by
  subst hname hcname
  -- a loop that meets good parents until the utility node
  have loop : ∀ (t : Net) (o : NodeObj) (l r : List Name),
      (∀ p ∈ l, ∃ q, o.parents.get? p = some q ∧ (t.heap q).kind ≠ .utility) →
      o.parents.get? (s.heap i).name = some i → (t.heap i).kind = .utility →
      (l ++ (s.heap i).name :: r).mapM (t.parentLen o) = .error .attributeError := by
    intro t o l r h1 h2 h3
    induction l with
    | nil =>
      rw [List.nil_append, List.mapM_cons]
      unfold parentLen
      rw [Dict.getE_ok h2, ok_bind, if_pos h3]; rfl
    | cons p l ih =>
      obtain ⟨q, q1, q2⟩ := h1 p (by simp)
      rw [List.cons_append, List.mapM_cons, ih fun p hp => h1 p (by simp [hp])]
      unfold parentLen
      rw [Dict.getE_ok q1, ok_bind, if_neg q2]; rfl
  -- the state after the refused edge
  set o1 : NodeObj := { s.heap j with
    parents := (s.heap j).parents.set (s.heap i).name i,
    parentOrder := (s.heap j).parentOrder ++ [(s.heap i).name] } with ho1
  have hkind : ∀ q, ((s.setObj j o1).heap q).kind = (s.heap q).kind := fun q => by
    by_cases e : q = j
    · subst e; simp [ho1]
    · simp [e]
  have hget1 : ∀ p ∈ (s.heap j).parentOrder, p = (s.heap i).name ∨
      ∃ q, o1.parents.get? p = some q ∧ (s.heap q).kind ≠ .utility := fun p hpp => by
    obtain ⟨q, q1, q2⟩ := hp p hpp
    by_cases e : p = (s.heap i).name
    · exact Or.inl e
    · exact Or.inr ⟨q, by rw [ho1]; simp only; rw [Dict.get?_set, if_neg (Ne.symm e)]; exact q1, q2⟩
  -- split the parent list at the first utility node
  have hsplit : ∀ x : List Name, ∃ l r, (s.heap j).parentOrder ++ (s.heap i).name :: x =
      l ++ (s.heap i).name :: r ∧ ∀ p ∈ l, p ∈ (s.heap j).parentOrder ∧ p ≠ (s.heap i).name := by
    intro x
    generalize (s.heap j).parentOrder = L
    induction L with
    | nil => exact ⟨[], x, rfl, by simp⟩
    | cons p L ih =>
      by_cases e : p = (s.heap i).name
      · exact ⟨[], L ++ (s.heap i).name :: x, by simp [e], by simp⟩
      · obtain ⟨l, r, h1, h2⟩ := ih
        refine ⟨p :: l, r, by simp [h1], fun q hq => ?_⟩
        rcases List.mem_cons.1 hq with rfl | hq
        · exact ⟨by simp, e⟩
        · exact ⟨by simp [(h2 q hq).1], (h2 q hq).2⟩
  have e1 : dnAddEdge (s.heap i).name b s = (s.setObj j o1, some .attributeError) := by
    unfold dnAddEdge
    rw [hb, ha]
    simp only
    unfold addParent updateDims
    have : ((s.setObj j o1).heap j).parentOrder.mapM
        ((s.setObj j o1).parentLen ((s.setObj j o1).heap j)) = .error .attributeError := by
      simp only [setObj_heap, Function.update_self]
      obtain ⟨l, r, h1, h2⟩ := hsplit []
      rw [show o1.parentOrder = (s.heap j).parentOrder ++ (s.heap i).name :: [] from rfl, h1]
      refine loop _ _ _ _ (fun p hpp => ?_) (by rw [ho1]; simp only; rw [Dict.get?_set, if_pos rfl])
        (by rw [hkind]; exact hi)
      obtain ⟨h3, h4⟩ := h2 p hpp
      obtain ⟨q, q1, q2⟩ := (hget1 p h3).resolve_left h4
      exact ⟨q, q1, by rwa [hkind]⟩
    rw [this]
  have hk1 : ((s.setObj j o1).heap k).name = (s.heap k).name := by
    by_cases e : k = j
    · subst e; simp [ho1]
    · simp [e]
  set o2 : NodeObj := { o1 with
    parents := o1.parents.set (s.heap k).name k,
    parentOrder := o1.parentOrder ++ [(s.heap k).name] } with ho2
  have hkind2 : ∀ q, ((s.setObj j o2).heap q).kind = (s.heap q).kind := fun q => by
    by_cases e : q = j
    · subst e; simp [ho2, ho1]
    · simp [e]
  have e2 : dnAddEdge (s.heap k).name b (s.setObj j o1) = (s.setObj j o2, some .attributeError) := by
    unfold dnAddEdge
    rw [show (s.setObj j o1).lookup.get? b = some j from hb,
      show (s.setObj j o1).lookup.get? (s.heap k).name = some k from hc]
    simp only
    unfold addParent updateDims
    rw [hk1]
    have hso : (s.setObj j o1).setObj j { (s.setObj j o1).heap j with
        parents := ((s.setObj j o1).heap j).parents.set (s.heap k).name k,
        parentOrder := ((s.setObj j o1).heap j).parentOrder ++ [(s.heap k).name] } = s.setObj j o2 := by
      rw [setObj_setObj, setObj_heap, Function.update_self]
    rw [hso]
    have : ((s.setObj j o2).heap j).parentOrder.mapM
        ((s.setObj j o2).parentLen ((s.setObj j o2).heap j)) = .error .attributeError := by
      simp only [setObj_heap, Function.update_self]
      obtain ⟨l, r, h1, h2⟩ := hsplit [(s.heap k).name]
      rw [show o2.parentOrder = (s.heap j).parentOrder ++ (s.heap i).name :: [(s.heap k).name] by
        rw [ho2]; simp [ho1], h1]
      have hex : ∀ p ∈ l, (∃ q, o2.parents.get? p = some q ∧ ((s.setObj j o2).heap q).kind ≠ .utility) ∨
          (p = (s.heap k).name ∧ (s.heap k).kind = .utility) := by
        intro p hpp
        obtain ⟨h3, h4⟩ := h2 p hpp
        obtain ⟨q, q1, q2⟩ := (hget1 p h3).resolve_left h4
        by_cases e : p = (s.heap k).name
        · by_cases hku : (s.heap k).kind = .utility
          · exact Or.inr ⟨e, hku⟩
          · exact Or.inl ⟨k, by rw [ho2]; simp only; rw [Dict.get?_set, if_pos e.symm], by rwa [hkind2]⟩
        · exact Or.inl ⟨q, by rw [ho2]; simp only; rw [Dict.get?_set, if_neg (Ne.symm e)]; exact q1,
            by rwa [hkind2]⟩
      have h2i : o2.parents.get? (s.heap i).name = some i := by
        rw [ho2]; simp only
        rw [Dict.get?_set, if_neg hca, ho1]; simp only
        rw [Dict.get?_set, if_pos rfl]
      have h2k : o2.parents.get? (s.heap k).name = some k := by
        rw [ho2]; simp only
        rw [Dict.get?_set, if_pos rfl]
      clear h1 h2
      induction l with
      | nil => exact loop _ _ [] _ (by simp) h2i (by rw [hkind2]; exact hi)
      | cons p l ih =>
        rcases hex p (by simp) with ⟨q, q1, q2⟩ | ⟨rfl, q2⟩
        · rw [List.cons_append, List.mapM_cons, ih fun p hp => hex p (by simp [hp])]
          unfold parentLen
          rw [Dict.getE_ok q1, ok_bind, if_neg q2]; rfl
        · rw [List.cons_append, List.mapM_cons]
          unfold parentLen
          rw [Dict.getE_ok h2k, ok_bind, if_pos (by rw [hkind2]; exact q2)]; rfl
    rw [this]
  rw [e1]
  simp only
  rw [e2]
  refine ⟨trivial, ?_, ?_, rfl, ?_⟩ <;> simp [ho1, ho2]

example := C64_utility_parent Ex.dnet "u" "c" "d" 2 1 0 (by decide +kernel) (by decide +kernel)
  (by decide +kernel) (by decide) (by decide +kernel) (by decide +kernel) (by decide) (by decide +kernel)
  (by
    intro p hp
    have : (Ex.dnet.heap 1).parentOrder = ["d"] := by decide +kernel
    rw [this, List.mem_singleton] at hp
    subst hp
    exact ⟨0, by decide +kernel⟩)

/-- C64 without conditions is false (1): adding a second node of the same name is accepted.  The network
then contains the new node, but its children still refer to the old one.  If the outcomes are the same in
another order, the expected utility returned for decision `x` is silently that of decision `y`. -/
theorem C64_same_name_refuted : ∃ ops : List DOp,
    (drun ops Net.empty).DUsable ∧
    (dstep (.addNode 3) (drun ops Net.empty)).2 = none ∧
    ¬ DNConsistent (drun (ops ++ [.addNode 3]) Net.empty).view ∧
    (Decision.expectedUtility .insertion .insertion (drun ops Net.empty).view
      (some [("d", "x")])).2 = .ok (NDArray.scalar (5 / 2)) ∧
    (Decision.expectedUtility .insertion .insertion (drun ops Net.empty).view
      (some [("d", "y")])).2 = .ok (NDArray.scalar (11 / 2)) ∧
    (Decision.expectedUtility .insertion .insertion (drun (ops ++ [.addNode 3]) Net.empty).view
      (some [("d", "x")])).2 = .ok (NDArray.scalar (11 / 2)) := by
  refine ⟨Ex.dops ++ [.create .decision "d" ["y", "x"]], dusable_of_bool (by decide +kernel),
    by decide +kernel, ?_, by decide +kernel, by decide +kernel, by decide +kernel⟩
  intro h
  have hv : (drun ((Ex.dops ++ [.create .decision "d" ["y", "x"]]) ++ [.addNode 3]) Net.empty).objView 1 ∈
      (drun ((Ex.dops ++ [.create .decision "d" ["y", "x"]]) ++ [.addNode 3]) Net.empty).view.chance := by
    decide +kernel
  exact absurd (h.chance.parents_val _ hv "d" (by decide +kernel)) (by decide +kernel)

/-- C64 without conditions is false (2): a repeated edge is accepted, and gives the node's table a
second axis for the same parent. -/
theorem C64_repeated_edge_refuted : ∃ ops : List DOp,
    DGoodRun ops Net.empty ∧ (drun ops Net.empty).DUsable ∧
    (dstep (.addEdge "d" "c") (drun ops Net.empty)).2 = none ∧
    ((drun (ops ++ [.addEdge "d" "c"]) Net.empty).heap 1).parentOrder = ["d", "d"] ∧
    ((drun (ops ++ [.addEdge "d" "c"]) Net.empty).heap 1).cpd.shape = [2, 2, 2] ∧
    ¬ DNConsistent (drun (ops ++ [.addEdge "d" "c"]) Net.empty).view := by
  refine ⟨Ex.dops, Ex.dops_good, Ex.dnet_usable, by decide +kernel, by decide +kernel,
    by decide +kernel, fun h => ?_⟩
  have hv : (drun (Ex.dops ++ [.addEdge "d" "c"]) Net.empty).objView 1 ∈
      (drun (Ex.dops ++ [.addEdge "d" "c"]) Net.empty).view.chance := by decide +kernel
  exact absurd (h.chance.parents_nodup _ hv) (by decide +kernel)

/-- C64 without conditions is false (3): `set_values` of a node that already has children leaves their
tables with the old number of outcomes. -/
theorem C64_set_values_refuted : ∃ ops : List DOp,
    DGoodRun ops Net.empty ∧ (drun ops Net.empty).DUsable ∧
    (dstep (.setValues 1 ["0", "1", "2"]) (drun ops Net.empty)).2 = none ∧
    ¬ DNConsistent (drun (ops ++ [.setValues 1 ["0", "1", "2"]]) Net.empty).view := by
  refine ⟨Ex.dops, Ex.dops_good, Ex.dnet_usable, by decide +kernel, fun h => ?_⟩
  have hv : (drun (Ex.dops ++ [.setValues 1 ["0", "1", "2"]]) Net.empty).objView 2 ∈
      (drun (Ex.dops ++ [.setValues 1 ["0", "1", "2"]]) Net.empty).view.utils := by decide +kernel
  exact absurd (h.shape _ hv) (by decide +kernel)

/-- C64: cycles are accepted.  Here two chance nodes are copies of each other: all tables are normalised,
but the weights of the instantiations sum to 2, and what `expected_utility` returns (3/2) is not the sum of
weight times utility (3). -/
theorem C64_cycle_refuted : ∃ ops : List DOp,
    DGoodRun ops Net.empty ∧ (drun ops Net.empty).DUsable ∧
    (∀ n ∈ (drun ops Net.empty).view.chance, n.cpd.data = [1, 0, 0, 1]) ∧
    mass (drun ops Net.empty).view = 2 ∧ utilityMass (drun ops Net.empty).view = 3 ∧
    ∀ so sp, Decision.evaluate so sp (drun ops Net.empty).view = .ok (NDArray.scalar (3 / 2)) := by
  set ops : List DOp :=
    [.create .discrete "a" ["0", "1"], .create .discrete "b" ["0", "1"], .create .utility "u" [],
      .addNode 0, .addNode 1, .addNode 2, .addEdge "a" "b", .addEdge "b" "a", .addEdge "b" "u",
      .setCpd 0 ⟨[2, 2], [1, 0, 0, 1], rfl⟩, .setCpd 1 ⟨[2, 2], [1, 0, 0, 1], rfl⟩,
      .setUtilities 2 ⟨[2], [1, 2], rfl⟩] with ho
  have hg : DGoodRun ops Net.empty := dgoodRun_of_bool (by decide +kernel)
  have hu : (drun ops Net.empty).DUsable := dusable_of_bool (by decide +kernel)
  have hd : ∀ n ∈ (drun ops Net.empty).view.chance, n.cpd.data = [1, 0, 0, 1] := by decide +kernel
  have hm : mass (drun ops Net.empty).view = 2 := by decide +kernel
  have hU : utilityMass (drun ops Net.empty).view = 3 := by decide +kernel
  refine ⟨ops, hg, hu, hd, hm, hU, fun so sp => ?_⟩
  have hnn : (drun ops Net.empty).view.chance.NonNeg := by
    intro n hn x hx
    rw [hd n hn] at hx
    revert x; decide
  have c := C51_no_decisions so sp _ ((DInv.empty.run hg).consistent hu) hnn (by decide +kernel)
  rw [hm, hU, if_neg two_ne_zero] at c
  unfold Decision.expectedUtility at c
  simp only [Option.getD_none, Decision.setDecisions, Prod.mk.injEq, true_and] at c
  exact c

end Primo
