import Verif.Spec.Construct
import Verif.Lemmas.NetStep
import Verif.Lemmas.NetView
import Verif.Props.Network

/-! # The program that builds a given network -/

namespace Primo
open Net

/-- the history is accepted and good, and leads from `s` to `s'` -/
structure Leads (ops : List Op) (s s' : Net) : Prop where
  ok : AllOk ops s
  good : GoodRun ops s
  run : Net.run ops s = s'

namespace Leads

theorem nil (s : Net) : Leads [] s s := ⟨trivial, trivial, rfl⟩

theorem cons {op : Op} {ops : List Op} {s s' s'' : Net} (h : step op s = (s', none)) (hg : Good s op)
    (h' : Leads ops s' s'') : Leads (op :: ops) s s'' := by
  refine ⟨⟨by rw [h], ?_⟩, ⟨hg, ?_⟩, ?_⟩
  · rw [h]; exact h'.ok
  · rw [h]; exact h'.good
  · rw [← h'.run]
    show Net.run ops (step op s).1 = _
    rw [h]

theorem append {l l' : List Op} {s s' s'' : Net} (h : Leads l s s') (h' : Leads l' s' s'') :
    Leads (l ++ l') s s'' := by
  induction l generalizing s with
  | nil => obtain rfl : s = s' := h.run; exact h'
  | cons op l ih =>
    have := ih (s := (step op s).1) ⟨h.ok.2, h.good.2, h.run⟩
    exact ⟨⟨h.ok.1, this.ok⟩, ⟨h.good.1, this.good⟩, this.run⟩

theorem snoc {op : Op} {ops : List Op} {s s' s'' : Net} (h : Leads ops s s') (hg : Good s' op)
    (h' : step op s' = (s'', none)) : Leads (ops ++ [op]) s s'' := h.append (cons h' hg (nil _))

end Leads

/-- the objects as constructed -/
def freshHeap (bn : BN) (i : Nat) : NodeObj :=
  match bn[i]? with
  | some n => newObj .discrete n.name n.values
  | none => NodeObj.blank

theorem build_create (bn : BN) : Leads (bn.map fun n => Op.create .discrete n.name n.values) Net.empty
    ⟨freshHeap bn, bn.length, [], [], [], []⟩ := by
  induction bn using List.reverseRecOn with
  | nil => exact ⟨trivial, trivial, rfl⟩
  | append_singleton l n ih =>
    rw [List.map_append]
    refine ih.snoc trivial ?_
    simp only [step, Net.create, List.length_append, List.length_singleton]
    congr 2
    funext i
    unfold freshHeap
    by_cases h : i = l.length
    · subst h; simp
    · rw [Function.update_of_ne h]
      by_cases h' : i < l.length
      · rw [List.getElem?_append_left h']
      · rw [List.getElem?_eq_none (by omega), List.getElem?_eq_none (by simp; omega)]

theorem build_add (bn : BN) (hnd : bn.names.Nodup) : ∀ k ≤ bn.length,
    ∃ s, Leads ((List.range k).map Op.addNode) ⟨freshHeap bn, bn.length, [], [], [], []⟩ s ∧
      s.heap = freshHeap bn ∧ s.next = bn.length ∧ s.lookup = (bn.names.take k).zipIdx := by
  intro k
  induction k with
  | zero => intro _; exact ⟨_, Leads.nil _, rfl, rfl, by simp⟩
  | succ k ih =>
    intro hk
    obtain ⟨s, h1, h2, h3, h4⟩ := ih (by omega)
    have hkl : k < bn.length := hk
    have hname : (freshHeap bn k).name = bn[k].name := by
      unfold freshHeap; rw [List.getElem?_eq_getElem hkl]; rfl
    have hkeys : bn[k].name ∉ s.lookup.keys := by
      have e : s.lookup.keys = bn.names.take k := by
        rw [h4, Dict.keys]
        exact List.zipIdx_map_fst 0 _
      rw [e]
      intro h
      obtain ⟨j, hj, e⟩ := List.getElem_of_mem h
      rw [List.getElem_take] at e
      have hj' : j < k := by simp at hj; omega
      have hk' : bn[k].name = bn.names[k]'(by simpa [BN.names] using hkl) := by simp [BN.names]
      rw [hk'] at e
      have := (List.Nodup.getElem_inj_iff hnd).1 e
      omega
    refine ⟨({ s with lookup := s.lookup.set (s.heap k).name k } : Net).graphAddNode k, by
      rw [List.range_succ, List.map_append]
      refine h1.snoc (s'' := (({ s with lookup := s.lookup.set (s.heap k).name k } : Net).graphAddNode k)) ?_ ?_
      · show (s.heap k).parentOrder = []
        rw [h2]; unfold freshHeap; rw [List.getElem?_eq_getElem hkl]; rfl
      · show Net.addNode k s = _
        rw [Net.addNode, if_neg (by omega), if_neg (by rw [h2, hname]; exact hkeys)], h2, h3, ?_⟩
    show s.lookup.set (s.heap k).name k = _
    rw [h2, hname, Dict.set_of_not_mem _ hkeys, h4, List.take_succ_eq_append_getElem (by simpa [BN.names] using hkl),
      List.zipIdx_append]
    simp [BN.names, Nat.min_eq_left (le_of_lt hkl)]

/-- while the arcs `es` have been added -/
structure Stage (bn : BN) (es : List (Name × Name)) (ts : List Nat) (s : Net) : Prop where
  inv : s.Inv
  next : s.next = bn.length
  lookup : s.lookup = bn.names.zipIdx
  obj : ∀ i n, bn[i]? = some n → (s.heap i).name = n.name ∧ (s.heap i).kind = .discrete ∧
    (s.heap i).values = n.values ∧ (s.heap i).plain = false ∧
    (s.heap i).parentOrder = (es.filter fun e => decide (e.2 = n.name)).map Prod.fst
  table : ∀ i ∈ ts, ∀ n, bn[i]? = some n → (s.heap i).cpd = n.cpd ∧ (s.heap i).valid = true

theorem Stage.get {bn : BN} {es : List (Name × Name)} {ts : List Nat} {s : Net} (h : Stage bn es ts s) {i : Nat}
    {n : NodeV} (hn : bn[i]? = some n) : s.lookup.get? n.name = some i := by
  refine Dict.get?_of_mem h.inv.nodup ?_
  rw [h.lookup, List.mem_zipIdx_iff_getElem?]
  simp [BN.names, hn]

theorem build_start (bn : BN) (hnd : bn.names.Nodup) :
    ∃ s, Leads (bn.map (fun n => Op.create .discrete n.name n.values) ++ (List.range bn.length).map Op.addNode)
      Net.empty s ∧ Stage bn [] [] s := by
  obtain ⟨s, h1, h2, h3, h4⟩ := build_add bn hnd bn.length (le_refl _)
  have h := (build_create bn).append h1
  refine ⟨s, h, ?_, h3, by rw [h4, List.take_of_length_le (by simp [BN.names])], fun i n hi => ?_, by simp⟩
  · rw [← h.run]; exact Inv.empty.run h.good
  · rw [h2]; unfold freshHeap; rw [hi]
    exact ⟨rfl, rfl, rfl, rfl, rfl⟩

theorem build_arc {bn : BN} (hc : bn.Consistent) {es : List (Name × Name)} (hp : ∀ n ∈ bn,
      (es.filter fun e => decide (e.2 = n.name)).map Prod.fst <+: n.parentOrder)
    {s : Net} {ds : List (Name × Name)} {e : Name × Name} {fs : List (Name × Name)} (hes : es = ds ++ e :: fs)
    (he : e.2 ∈ bn.names) (h : Stage bn ds [] s) :
    ∃ s', Leads [Op.addEdge e.1 e.2] s s' ∧ Stage bn (ds ++ [e]) [] s' := by
  obtain ⟨a, b⟩ := e
  obtain ⟨m, hm, hmb⟩ := List.mem_map.1 he
  obtain ⟨j, hjl, hj⟩ := List.getElem_of_mem hm
  have hj' : bn[j]? = some m := by rw [List.getElem?_eq_getElem hjl, hj]
  simp only at hmb
  subst hmb
  have hpre := hp m hm
  rw [hes] at hpre
  simp only [List.filter_append, List.filter_cons_of_pos (p := fun e : Name × Name => decide (e.2 = m.name))
    (a := (a, m.name)) (l := fs) (by simp), List.map_append, List.map_cons] at hpre
  have hpn := hc.parents_nodup m hm
  have hnd := hpn.sublist hpre.sublist
  have ham : a ∈ m.parentOrder := hpre.subset (by simp)
  obtain ⟨q, hq, hqa⟩ := List.mem_map.1 (hc.parents_mem m hm a ham)
  obtain ⟨i, hil, hi⟩ := List.getElem_of_mem hq
  have hi' : bn[i]? = some q := by rw [List.getElem?_eq_getElem hil, hi]
  have gi : s.lookup.get? a = some i := hqa ▸ h.get hi'
  have gj := h.get hj'
  have hnew : a ∉ s.parentsOf m.name := by
    rw [parentsOf_of gj, (h.obj j m hj').2.2.2.2]
    intro ha
    rw [List.nodup_append] at hnd
    exact hnd.2.2 a ha a (by simp) rfl
  have hu : (s.heap i).kind ≠ .utility := by rw [(h.obj i q hi').2.1]; decide
  have hg : Good s (.addEdge a m.name) := ⟨hnew, fun i' hi' => by
    rw [gi] at hi'
    cases hi'
    exact hu⟩
  have heff := addEdge_effect h.inv gi gj hnew hu
  refine ⟨_, Leads.cons heff hg (Leads.nil _), ?_, h.next, h.lookup, fun t n ht => ?_, by simp⟩
  · have := h.inv.step hg
    simp only [step, heff] at this
    exact this
  · obtain ⟨o1, o2, o3, o4, o5⟩ := h.obj t n ht
    by_cases htj : t = j
    · subst htj
      rw [hj'] at ht
      cases ht
      simp only [Function.update_self]
      refine ⟨o1, o2, o3, rfl, ?_⟩
      show (s.heap t).parentOrder ++ [a] = _
      rw [o5]
      simp
    · simp only [Function.update_of_ne htj]
      refine ⟨o1, o2, o3, o4, ?_⟩
      rw [o5, List.filter_append]
      have : m.name ≠ n.name := fun e' => htj (by
        have := h.get ht
        rw [← e', gj] at this
        exact (Option.some.inj this).symm)
      simp [this]

theorem build_arcs {bn : BN} (hc : bn.Consistent) {es : List (Name × Name)} (ha : bn.Arcs es) :
    ∀ (fs ds : List (Name × Name)) (s : Net), es = ds ++ fs → Stage bn ds [] s →
      ∃ s', Leads (fs.map fun e => Op.addEdge e.1 e.2) s s' ∧ Stage bn es [] s'
  | [], ds, s, h, hs => ⟨s, Leads.nil _, by rw [h, List.append_nil]; exact hs⟩
  | e :: fs, ds, s, h, hs => by
    obtain ⟨s1, h1, h2⟩ := build_arc hc (fun n hn => by rw [ha.order n hn]) h
      (ha.into e (by rw [h]; simp)) hs
    obtain ⟨s2, h3, h4⟩ := build_arcs hc ha fs (ds ++ [e]) s1 (by simp [h]) h2
    exact ⟨s2, h1.append h3, h4⟩

theorem build_table {bn : BN} (hc : bn.Consistent) (hv : ∀ n ∈ bn, n.values ≠ []) {es : List (Name × Name)}
    (ha : bn.Arcs es) {ts : List Nat} {s : Net} (h : Stage bn es ts s) {i : Nat} {n : NodeV}
    (hi : bn[i]? = some n) : ∃ s', Leads [Op.setCpd i n.cpd] s s' ∧ Stage bn es (ts ++ [i]) s' := by
  have hn : n ∈ bn := List.mem_of_getElem? hi
  have gi := h.get hi
  obtain ⟨o1, o2, o3, o4, o5⟩ := h.obj i n hi
  rw [ha.order n hn] at o5
  have hsh : (s.heap i).cpd.shape = n.cpd.shape := by
    rw [h.inv.shape _ _ gi, hc.shape n hn, dimsOf, ownDim, o3, if_neg (hv n hn), o5, List.singleton_append]
    congr 1
    refine List.map_congr_left fun p hp => ?_
    rw [h.inv.parent_obj _ _ gi, if_pos (by rw [o5]; exact hp)]
    obtain ⟨q, hq, hqp⟩ := List.mem_map.1 (hc.parents_mem n hn p hp)
    obtain ⟨t, htl, ht⟩ := List.getElem_of_mem hq
    have ht' : bn[t]? = some q := by rw [List.getElem?_eq_getElem htl, ht]
    subst hqp
    rw [h.get ht']
    simp only
    rw [(h.obj t q ht').2.2.1, BN.card, BN.lab_eq hc.nodup hq]
  have hset : step (.setCpd i n.cpd) s = (s.setObj i { s.heap i with
      cpd := n.cpd, valid := true, plain := false }, none) := by
    show Net.setCpd i n.cpd s = _
    unfold Net.setCpd
    have : (s.objView i).setCpd n.cpd = .ok n.cpd := by
      unfold NodeV.setCpd
      rw [if_neg (by show ¬ (s.heap i).kind ≠ .discrete; rw [o2]; simp),
        if_neg (by show ¬ (s.heap i).cpd.shape ≠ n.cpd.shape; rw [hsh]; simp)]
    rw [this]
    rfl
  refine ⟨_, Leads.cons hset trivial (Leads.nil _), ?_, h.next, h.lookup, fun t m ht => ?_, fun t ht m hm => ?_⟩
  · have := h.inv.step (op := .setCpd i n.cpd) trivial
    rw [hset] at this
    exact this
  · by_cases hti : t = i
    · subst hti
      rw [hi] at ht
      cases ht
      simp only [setObj_heap, Function.update_self]
      exact ⟨o1, o2, o3, trivial, by rw [o5, ha.order n hn]⟩
    · simp only [setObj_heap, Function.update_of_ne hti]
      exact h.obj t m ht
  · by_cases hti : t = i
    · subst hti
      rw [hi] at hm
      cases hm
      simp only [setObj_heap, Function.update_self]
      exact ⟨trivial, trivial⟩
    · simp only [setObj_heap, Function.update_of_ne hti]
      exact h.table t (by simpa [hti] using ht) m hm

theorem build_tables {bn : BN} (hc : bn.Consistent) (hv : ∀ n ∈ bn, n.values ≠ []) {es : List (Name × Name)}
    (ha : bn.Arcs es) : ∀ (ts us : List Nat) (s : Net), Stage bn es us s →
      ∃ s', Leads (ts.filterMap fun i => bn[i]?.map fun n => Op.setCpd i n.cpd) s s' ∧ Stage bn es (us ++ ts) s'
  | [], us, s, h => ⟨s, Leads.nil _, by rw [List.append_nil]; exact h⟩
  | i :: ts, us, s, h => by
    cases hi : bn[i]? with
    | none =>
      have h' : Stage bn es (us ++ [i]) s := ⟨h.inv, h.next, h.lookup, h.obj, fun t ht n hn => by
        rcases List.mem_append.1 ht with ht | ht
        · exact h.table t ht n hn
        · rw [List.mem_singleton.1 ht, hi] at hn
          cases hn⟩
      obtain ⟨s', h1, h2⟩ := build_tables hc hv ha ts (us ++ [i]) s h'
      refine ⟨s', ?_, by simpa using h2⟩
      rw [List.filterMap_cons_none (by rw [hi]; rfl)]
      exact h1
    | some n =>
      obtain ⟨s1, h1, h2⟩ := build_table hc hv ha h hi
      obtain ⟨s', h3, h4⟩ := build_tables hc hv ha ts (us ++ [i]) s1 h2
      refine ⟨s', ?_, by simpa using h4⟩
      rw [List.filterMap_cons_some (b := Op.setCpd i n.cpd) (by rw [hi]; rfl)]
      exact h1.append h3

end Primo
