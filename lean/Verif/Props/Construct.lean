import Verif.Lemmas.Construct

/-! # C89: every network can be built through the interface -/

namespace Primo
open Net

/-! ## Networks that are the same -/

theorem SameNodes.names {a b : BN} (h : SameNodes a b) : a.names = b.names := by
  induction h with
  | nil => rfl
  | cons h _ ih =>
    simp only [BN.names, List.map_cons] at ih ⊢
    rw [h.name, ih]

theorem SameNodes.lab {a b : BN} (h : SameNodes a b) (v : Name) : a.lab v = b.lab v := by
  unfold BN.lab
  induction h with
  | nil => rfl
  | @cons n n' _ _ h _ ih =>
    by_cases hv : n.name = v
    · rw [List.find?_cons_of_pos (by simpa using hv), List.find?_cons_of_pos (by simpa [h.name] using hv)]
      exact h.values
    · rw [List.find?_cons_of_neg (by simpa using hv), List.find?_cons_of_neg (by simpa [h.name] using hv)]
      exact ih

theorem SameNodes.card {a b : BN} (h : SameNodes a b) : a.card = b.card := by
  funext v; unfold BN.card; rw [h.lab]

theorem SameNodes.mem {a b : BN} (h : SameNodes a b) {n' : NodeV} (hn : n' ∈ b) : ∃ n ∈ a, n.Same n' := by
  induction h with
  | nil => simp at hn
  | cons h _ ih =>
    rcases List.mem_cons.1 hn with rfl | hn
    · exact ⟨_, by simp, h⟩
    · obtain ⟨n, h1, h2⟩ := ih hn
      exact ⟨n, by simp [h1], h2⟩

theorem NodeV.Same.symm {n n' : NodeV} (h : n.Same n') : n'.Same n :=
  ⟨h.name.symm, h.kind.symm, h.values.symm, h.order.symm, h.cpd.symm, h.plain.symm, h.parents.symm,
    h.children.symm⟩

theorem SameNodes.symm {a b : BN} (h : SameNodes a b) : SameNodes b a := by
  induction h with
  | nil => exact .nil
  | cons h _ ih => exact .cons h.symm ih

theorem SameNodes.isParent {a b : BN} (h : SameNodes a b) {u v : Name} (hb : b.IsParent u v) : a.IsParent u v := by
  obtain ⟨n', hn', e, hu⟩ := hb
  obtain ⟨n, hn, hs⟩ := h.mem hn'
  exact ⟨n, hn, hs.name.trans e, hs.order ▸ hu⟩

theorem SameNodes.proper {a b : BN} (h : SameNodes a b) (ha : a.Proper) : b.Proper := by
  have hkeys : ∀ {n n' : NodeV}, n.Same n' → n.parents.keys.Perm n'.parents.keys := fun hs => hs.parents.map _
  refine ⟨⟨h.names ▸ ha.consistent.nodup, ?_, ?_, ?_, ?_, ?_, ?_⟩, ⟨?_, ?_⟩, ?_, ?_, ?_⟩
  all_goals
    intro n' hn'
    obtain ⟨n, hn, hs⟩ := h.mem hn'
  · rw [← hs.kind]; exact ha.consistent.kind n hn
  · rw [← hs.order]; exact ha.consistent.parents_nodup n hn
  · rw [← hs.order, ← hs.name]; exact ha.consistent.self n hn
  · rw [← hs.order, ← h.names]; exact ha.consistent.parents_mem n hn
  · intro p hp
    rw [← hs.order] at hp
    rw [← h.lab]
    refine Dict.get?_of_mem ((hkeys hs).nodup_iff.1 (ha.dict n hn)) (hs.parents.mem_iff.1 ?_)
    exact Dict.get?_mem (ha.consistent.parents_val n hn p hp)
  · rw [← hs.cpd, ← hs.values, ← hs.order, ← h.card]; exact ha.consistent.shape n hn
  · exact hs.children.nodup_iff.1 (ha.linked.nodup n hn)
  · intro c
    rw [← hs.children.mem_iff, ha.linked.iff n hn, ← hs.name]
    constructor
    · rintro ⟨m, hm, h1, h2⟩
      obtain ⟨m', hm', hs'⟩ := h.symm.mem hm
      exact ⟨m', hm', hs'.name.trans h1, hs'.order ▸ h2⟩
    · rintro ⟨m, hm, h1, h2⟩
      obtain ⟨m', hm', hs'⟩ := h.mem hm
      exact ⟨m', hm', hs'.name.trans h1, hs'.order ▸ h2⟩
  · intro p
    rw [← (hkeys hs).mem_iff, ← hs.order]; exact ha.recorded n hn p
  · exact (hkeys hs).nodup_iff.1 (ha.dict n hn)
  · rw [← hs.values]; exact ha.values n hn

theorem SameNodes.weight {a b : BN} (h : SameNodes a b) (ev : Dict Evidence) : weight a ev = weight b ev := by
  funext σ
  unfold Primo.weight
  congr 1
  · induction h with
    | nil => rfl
    | cons h _ ih =>
      rw [List.map_cons, List.map_cons, List.prod_cons, List.prod_cons, ih]
      unfold NodeV.entry
      rw [h.name, h.order, h.cpd]
  · congr 1
    refine List.map_congr_left fun p _ => ?_
    rw [h.lab]

theorem SameNodes.posterior {a b : BN} (h : SameNodes a b) (ev : Dict Evidence) :
    posterior a ev = posterior b ev := by
  funext Q σ
  unfold Primo.posterior totalWeight
  rw [h.card, h.names, h.weight]

theorem SameNodes.legal {a b : BN} (h : SameNodes a b) {ev : Dict Evidence} (he : LegalEvidence a ev) :
    LegalEvidence b ev :=
  ⟨he.nodup, fun p hp => h.names ▸ he.mem p hp, fun v x hx => h.lab v ▸ he.hard v x hx,
    fun v l hl => by rw [← h.card]; exact he.soft v l hl⟩

/-! ## What a history can lead to -/

/-- the view of a usable state is a proper network -/
theorem view_proper {s : Net} (h : s.Inv) (hu : s.Usable) : s.view.Proper := by
  have hmem : ∀ n ∈ s.view, ∃ k i, s.lookup.get? k = some i ∧ n = s.objView i := by
    intro n hn
    obtain ⟨⟨k, i⟩, hp, rfl⟩ := List.mem_map.1 hn
    exact ⟨k, i, Dict.get?_of_mem h.nodup hp, rfl⟩
  have hkeys : ∀ i, (s.objView i).parents.keys = (s.heap i).parents.keys := by
    intro i
    simp [objView, Dict.keys, Function.comp_def]
  refine ⟨view_consistent h hu, view_linked h, ?_, ?_, ?_⟩
  all_goals
    intro n hn
    obtain ⟨k, i, hk, rfl⟩ := hmem n hn
  · intro p
    rw [hkeys]
    exact (h.coherent.own_parents k i (getNode_ok.2 hk)).1.mem_iff
  · rw [hkeys]
    exact h.parents_nodup i (h.name k i hk).1
  · exact (hu k i (getNode_ok.2 hk)).2.1

/-- **C89** The obvious program builds the network, whatever the order in which the arcs are added, as long as
the parents of each node are added in the order of its table, and whatever the order in which the tables
are set: no call raises, and the result is the given network. -/
theorem C89_program (bn : BN) (hp : bn.Proper) (hd : ∀ n ∈ bn, n.kind = .discrete ∧ n.plain = false)
    (es : List (Name × Name)) (ha : bn.Arcs es) (ts : List Nat) (ht : ∀ i < bn.length, i ∈ ts) :
    AllOk (bn.program es ts) Net.empty ∧ GoodRun (bn.program es ts) Net.empty ∧
      (run (bn.program es ts) Net.empty).Usable ∧ SameNodes (run (bn.program es ts) Net.empty).view bn ∧
      ∀ k i, (run (bn.program es ts) Net.empty).getNode k = .ok i →
        ((run (bn.program es ts) Net.empty).heap i).valid = true := by
  have hc := hp.consistent
  obtain ⟨s1, h1, h2⟩ := build_start bn hc.nodup
  obtain ⟨s2, h3, h4⟩ := build_arcs hc ha es [] s1 rfl h2
  obtain ⟨s3, h5, h6⟩ := build_tables hc hp.values ha ts [] s2 h4
  have hl : Leads (bn.program es ts) Net.empty s3 := by
    have := h1.append (h3.append h5)
    rwa [List.append_assoc] at this
  rw [hl.run]
  have hget : ∀ k i, s3.lookup.get? k = some i → ∃ n, bn[i]? = some n ∧ n ∈ bn ∧ n.name = k := by
    intro k i hk
    have hm := Dict.get?_mem hk
    rw [h6.lookup, List.mem_zipIdx_iff_getElem?] at hm
    simp only [BN.names, List.getElem?_map, Option.map_eq_some_iff] at hm
    obtain ⟨n, hn, e⟩ := hm
    exact ⟨n, hn, List.mem_of_getElem? hn, e⟩
  have hu : s3.Usable := by
    intro k i hk
    obtain ⟨n, hn, hm, e⟩ := hget k i (getNode_ok.1 hk)
    obtain ⟨-, o2, o3, -, o5⟩ := h6.obj i n hn
    refine ⟨by rw [o2]; decide, by rw [o3]; exact hp.values n hm, ?_⟩
    rw [o5, ha.order n hm, ← e]
    exact hc.self n hm
  have hpv := view_proper h6.inv hu
  have hnames : s3.view.names = bn.names := by
    rw [view_names h6.inv, h6.lookup, Dict.keys]
    exact List.zipIdx_map_fst 0 _
  have hobj : ∀ i n, bn[i]? = some n → s3.view[i]? = some (s3.objView i) := by
    intro i n hn
    unfold Net.view
    rw [h6.lookup]
    simp [BN.names, hn]
  have hlen : s3.view.length = bn.length := by
    have := congrArg List.length hnames
    simpa [BN.names] using this
  -- labels and parent lists are those of `bn`
  have hfields : ∀ i n, bn[i]? = some n → (s3.objView i).name = n.name ∧ (s3.objView i).values = n.values ∧
      (s3.objView i).parentOrder = n.parentOrder := by
    intro i n hn
    obtain ⟨o1, -, o3, -, o5⟩ := h6.obj i n hn
    exact ⟨o1, o3, by show (s3.heap i).parentOrder = _; rw [o5, ha.order n (List.mem_of_getElem? hn)]⟩
  have hlab : ∀ v ∈ bn.names, s3.view.lab v = bn.lab v := by
    intro v hv
    obtain ⟨n, hn, rfl⟩ := List.mem_map.1 hv
    obtain ⟨i, hi, e⟩ := List.getElem_of_mem hn
    have hi' : bn[i]? = some n := by rw [List.getElem?_eq_getElem hi, e]
    have hv' := List.mem_of_getElem? (hobj i n hi')
    rw [BN.lab_eq hc.nodup hn, ← (hfields i n hi').1, BN.lab_eq hpv.consistent.nodup hv', (hfields i n hi').2.1]
  refine ⟨hl.ok, hl.good, hu, ?_, fun k i hk => ?_⟩
  · refine List.forall₂_iff_get.2 ⟨hlen, fun i h1 h2 => ?_⟩
    have hi : bn[i]? = some bn[i] := List.getElem?_eq_getElem h2
    have hm : bn[i] ∈ bn := List.getElem_mem h2
    have e1 : s3.view.get ⟨i, h1⟩ = s3.objView i := by
      have := hobj i _ hi
      rw [List.getElem?_eq_getElem h1] at this
      exact Option.some.inj this
    have hvm : s3.objView i ∈ s3.view := e1 ▸ List.get_mem _ _
    rw [e1]
    show (s3.objView i).Same bn[i]
    obtain ⟨o1, o2, o3, o4, o5⟩ := h6.obj i _ hi
    obtain ⟨f1, f2, f3⟩ := hfields i _ hi
    refine ⟨f1, o2.trans (hd _ hm).1.symm, f2, f3, (h6.table i (by simpa using ht i h2) _ hi).1,
      o4.trans (hd _ hm).2.symm, ?_, ?_⟩
    · have hn1 := hpv.dict _ hvm
      have hn2 := hp.dict _ hm
      refine (List.perm_ext_iff_of_nodup (List.Nodup.of_map _ hn1) (List.Nodup.of_map _ hn2)).2 fun q => ?_
      obtain ⟨p, l⟩ := q
      rw [Dict.mem_iff_get? hn1, Dict.mem_iff_get? hn2]
      by_cases hpp : p ∈ bn[i].parentOrder
      · rw [hc.parents_val _ hm p hpp, hpv.consistent.parents_val _ hvm p (f3 ▸ hpp),
          hlab p (hc.parents_mem _ hm p hpp)]
      · have n1 : ¬ ∃ l, bn[i].parents.get? p = some l := fun ⟨l, h⟩ =>
          hpp ((hp.recorded _ hm p).1 (Dict.mem_keys_of_get? h))
        have n2 : ¬ ∃ l, (s3.objView i).parents.get? p = some l := fun ⟨l, h⟩ =>
          hpp (f3 ▸ (hpv.recorded _ hvm p).1 (Dict.mem_keys_of_get? h))
        exact ⟨fun h => absurd ⟨l, h⟩ n2, fun h => absurd ⟨l, h⟩ n1⟩
    · refine (List.perm_ext_iff_of_nodup (hpv.linked.nodup _ hvm) (hp.linked.nodup _ hm)).2 fun c => ?_
      rw [hpv.linked.iff _ hvm, hp.linked.iff _ hm, f1]
      constructor
      · rintro ⟨m, hm', e, h⟩
        obtain ⟨t, htl, e'⟩ := List.getElem_of_mem hm'
        have ht' : bn[t]? = some (bn[t]'(hlen ▸ htl)) := List.getElem?_eq_getElem _
        have e2 : s3.view[t] = s3.objView t := by
          have := hobj t _ ht'
          rw [List.getElem?_eq_getElem htl] at this
          exact Option.some.inj this
        obtain ⟨g1, -, g3⟩ := hfields t _ ht'
        rw [← e', e2] at e h
        exact ⟨_, List.getElem_mem (hlen ▸ htl), g1.symm.trans e, g3 ▸ h⟩
      · rintro ⟨m, hm', e, h⟩
        obtain ⟨t, htl, e'⟩ := List.getElem_of_mem hm'
        have ht' : bn[t]? = some m := by rw [List.getElem?_eq_getElem htl, e']
        obtain ⟨g1, -, g3⟩ := hfields t _ ht'
        exact ⟨_, List.mem_of_getElem? (hobj t _ ht'), g1.trans e, g3 ▸ h⟩
  · obtain ⟨n, hn, -, -⟩ := hget k i (getNode_ok.1 hk)
    have hi : i < bn.length := by
      by_contra hcon
      rw [List.getElem?_eq_none (by omega)] at hn
      cases hn
    exact (h6.table i (by simpa using ht i hi) n hn).2

/-- the arcs node by node -/
theorem arcs_exist {bn : BN} (hc : bn.Consistent) :
    bn.Arcs (bn.flatMap fun n => n.parentOrder.map fun p => (p, n.name)) := by
  refine ⟨fun e he => ?_, fun n hn => ?_⟩
  · obtain ⟨n, hn, he⟩ := List.mem_flatMap.1 he
    obtain ⟨p, -, rfl⟩ := List.mem_map.1 he
    exact List.mem_map_of_mem hn
  · have key : ∀ l : BN, l.names.Nodup →
        ((l.flatMap fun m => m.parentOrder.map fun p => (p, m.name)).filter
          fun e => decide (e.2 = n.name)).map Prod.fst =
          (l.filter fun m => decide (m.name = n.name)).flatMap NodeV.parentOrder := by
      intro l hl
      induction l with
      | nil => rfl
      | cons m l ih =>
        have hl' := List.nodup_cons.1 (by simpa [BN.names] using hl : (m.name :: BN.names l).Nodup)
        rw [List.flatMap_cons, List.filter_append, List.map_append, ih hl'.2]
        by_cases h : m.name = n.name
        · rw [List.filter_cons_of_pos (by simpa using h), List.flatMap_cons, List.filter_eq_self.2]
          · simp [Function.comp_def]
          · intro e he
            obtain ⟨p, -, rfl⟩ := List.mem_map.1 he
            simpa using h
        · rw [List.filter_cons_of_neg (by simpa using h), List.filter_eq_nil_iff.2]
          · simp
          · intro e he
            obtain ⟨p, -, rfl⟩ := List.mem_map.1 he
            simpa using h
    rw [key bn hc.nodup]
    have : bn.filter (fun m => decide (m.name = n.name)) = [n] := by
      obtain ⟨l1, l2, rfl⟩ := List.append_of_mem hn
      have hnd := hc.nodup
      simp only [BN.names, List.map_append, List.map_cons] at hnd
      have h1 : ∀ m ∈ l1, m.name ≠ n.name := fun m hm e =>
        (List.nodup_append.1 hnd).2.2 m.name (List.mem_map_of_mem hm) n.name (by simp) e
      have h2 : ∀ m ∈ l2, m.name ≠ n.name := fun m hm e =>
        (List.nodup_cons.1 (List.nodup_append.1 hnd).2.1).1 (e ▸ List.mem_map_of_mem hm)
      rw [List.filter_append, List.filter_cons_of_pos (by simp), List.filter_eq_nil_iff.2, List.filter_eq_nil_iff.2]
      · rfl
      · intro m hm; simpa using h2 m hm
      · intro m hm; simpa using h1 m hm
    rw [this]
    simp

/-- **C89** Exactly the proper networks can be built: those of chance nodes that a good history can lead to are
those which are consistent, whose graph agrees with their parent lists, and whose variables have outcomes. -/
theorem C89_reachable_iff (bn : BN) (hd : ∀ n ∈ bn, n.kind = .discrete ∧ n.plain = false) :
    (∃ ops, GoodRun ops Net.empty ∧ (run ops Net.empty).Usable ∧ SameNodes (run ops Net.empty).view bn) ↔
      bn.Proper := by
  constructor
  · rintro ⟨ops, h1, h2, h3⟩
    exact h3.proper (view_proper (Inv.empty.run h1) h2)
  · intro hp
    obtain ⟨-, h2, h3, h4, -⟩ := C89_program bn hp hd _ (arcs_exist hp.consistent) (List.range bn.length)
      (by simp)
    exact ⟨_, h2, h3, h4⟩

/-- **C89** Every proper network can be built without any rejected call, and both elimination algorithms then
return the posterior of that network. -/
theorem C89_build_and_query (bn : BN) (hp : bn.Proper) (hd : ∀ n ∈ bn, n.kind = .discrete ∧ n.plain = false) :
    ∃ ops, AllOk ops Net.empty ∧ GoodRun ops Net.empty ∧ SameNodes (run ops Net.empty).view bn ∧
      ∀ (so : SetOrder) (ev : Dict Evidence), LegalEvidence bn ev → ∀ Q : List Name, Q.Nodup →
        (∀ v ∈ Q, v ∈ bn.names) →
        ∃ r b, VE.naiveMarginals so (run ops Net.empty).view Q ev = .ok r ∧
          VE.bucketMarginals so (run ops Net.empty).view Q ev none = .ok b ∧
          (∀ v, v ∈ r.variableOrder ↔ v ∈ Q) ∧ (∀ v, v ∈ b.variableOrder ↔ v ∈ Q) ∧
          ∀ σ, Legal bn.card Q σ → r.eval σ = posterior bn ev Q σ ∧ b.eval σ = posterior bn ev Q σ := by
  obtain ⟨h1, h2, h3, h4, -⟩ := C89_program bn hp hd _ (arcs_exist hp.consistent) (List.range bn.length)
    (by simp)
  refine ⟨_, h1, h2, h4, fun so ev he Q hQn hQ => ?_⟩
  have hc := (C30_usable_consistent _ h2 h3).1
  have hl := (C30_usable_consistent _ h2 h3).2
  have he' := h4.symm.legal he
  have hQ' : ∀ v ∈ Q, v ∈ (run _ Net.empty).view.names := fun v hv => h4.names ▸ hQ v hv
  obtain ⟨r, r1, _, _, r2, r3⟩ := C13_naive_exact so _ hc ev he' Q hQ'
  obtain ⟨b, b1, _, _, b2, b3⟩ := C14_bucket_exact_default so _ hc hl ev he' Q hQn hQ'
  refine ⟨r, b, r1, b1, r2, b2, fun σ hσ => ?_⟩
  rw [← h4.posterior, ← h4.card] at *
  exact ⟨r3 σ hσ, b3 σ hσ⟩

/-! ## Concrete cases -/

theorem Ex.bn_proper : Ex.bn.Proper :=
  ⟨Ex.bn_consistent, Ex.bn_linked, by
    intro n hn
    simp only [Ex.bn, List.mem_cons, List.not_mem_nil, or_false] at hn
    rcases hn with rfl | rfl | rfl | rfl <;>
      simp [Ex.nd, Ex.na, Ex.nb, Ex.nc, Dict.keys, or_comm], by decide, by decide⟩

/-- arcs and tables in an unusual order, one table twice -/
example := C89_program Ex.bn Ex.bn_proper (by decide) [("b", "c"), ("c", "d"), ("a", "c")]
  ⟨by decide, by decide⟩ [3, 0, 2, 3, 1] (by decide)

example := (C89_reachable_iff Ex.bn (by decide)).2 Ex.bn_proper

example := C89_build_and_query Ex.bn Ex.bn_proper (by decide)

/-- two nodes, each the parent of the other -/
def Ex.loop : BN :=
  [⟨"x", .discrete, ["t", "f"], ["y"], [("y", ["t", "f"])], ["y"], ⟨[2, 2], [1, 0, 0, 1], rfl⟩, false⟩,
   ⟨"y", .discrete, ["t", "f"], ["x"], [("x", ["t", "f"])], ["x"], ⟨[2, 2], [1, 0, 0, 1], rfl⟩, false⟩]

theorem Ex.loop_proper : Ex.loop.Proper :=
  ⟨by constructor <;> decide, ⟨by decide, by
    intro n hn
    simp only [Ex.loop, List.mem_cons, List.not_mem_nil, or_false] at hn
    rcases hn with rfl | rfl <;> simp [Ex.loop, eq_comm]⟩, by
    intro n hn
    simp only [Ex.loop, List.mem_cons, List.not_mem_nil, or_false] at hn
    rcases hn with rfl | rfl <;> simp [Dict.keys], by decide, by decide⟩

/-- **C89** Not only directed acyclic graphs can be built: `add_edge` accepts the arc that closes a
cycle. -/
theorem C89_cycle_accepted : ∃ ops, AllOk ops Net.empty ∧ GoodRun ops Net.empty ∧
    (run ops Net.empty).Usable ∧ ¬ (run ops Net.empty).view.Acyclic := by
  obtain ⟨h1, h2, h3, h4, -⟩ := C89_program Ex.loop Ex.loop_proper (by decide) [("y", "x"), ("x", "y")]
    ⟨by decide, by decide⟩ [0, 1] (by decide)
  refine ⟨_, h1, h2, h3, fun ha => ?_⟩
  refine ha "x" (.tail (.single (h4.isParent (u := "x") (v := "y") ?_)) (h4.isParent ?_))
  · exact ⟨_, List.mem_cons_of_mem _ (List.mem_cons_self ..), rfl, by decide⟩
  · exact ⟨_, List.mem_cons_self .., rfl, by decide⟩

end Primo
