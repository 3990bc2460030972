import Verif.Lemmas.XmlDoc
import Mathlib.Algebra.BigOperators.Ring.List

/-!
# What `XMLBIFParser.parse` makes of a written document
-/

namespace Primo
namespace XMLBIF
open Xml Net

/-- records that make a network -/
structure RecsOk (rs : List NodeRec) : Prop where
  nodup : (rs.map NodeRec.name).Nodup
  order : ∀ r ∈ rs, r.parentOrder.Nodup
  known : ∀ r ∈ rs, ∀ p ∈ r.parentOrder, p ∈ rs.map NodeRec.name
  values : ∀ r ∈ rs, r.values ≠ []
  shape : ∀ r ∈ rs, ∀ f : Name → Nat, (∀ q ∈ rs, f q.name = q.values.length) →
    r.cpd.shape = r.values.length :: r.parentOrder.map f

/-- the ids of the nodes of a parsed network -/
def ids (rs : List NodeRec) : Dict Nat := rs.zipIdx.map fun p => (p.1.name, p.2)

theorem ids_keys (rs : List NodeRec) : (ids rs).keys = rs.map NodeRec.name := by
  unfold ids Dict.keys
  rw [List.map_map]
  conv_rhs => rw [← List.zipIdx_map_fst 0 rs]
  rw [List.map_map]
  rfl

theorem ids_get? {rs : List NodeRec} (h : (rs.map NodeRec.name).Nodup) {k : Name} {i : Nat} :
    (ids rs).get? k = some i ↔ ∃ r, rs[i]? = some r ∧ r.name = k := by
  rw [← Dict.mem_iff_get? (by rw [ids_keys]; exact h)]
  unfold ids
  simp only [List.mem_map, Prod.mk.injEq, Prod.exists]
  constructor
  · rintro ⟨r, j, hj, rfl, rfl⟩
    exact ⟨r, List.mem_zipIdx_iff_getElem?.1 hj, rfl⟩
  · rintro ⟨r, hr, rfl⟩
    exact ⟨r, i, List.mem_zipIdx_iff_getElem?.2 hr, rfl, rfl⟩

/-! ## variables -/

/-- the state after the variables `rs` have been read -/
structure VarsDone (ignore : Bool) (rs : List NodeRec) (d : NetDoc) : Prop where
  inv : d.net.Inv
  next : d.net.next = rs.length
  lookup : d.net.lookup = ids rs
  heap : ∀ i r, rs[i]? = some r → d.net.heap i = newObj .discrete r.name r.values
  info : ∀ i r, rs[i]? = some r → d.nodeInfo i = if ignore then [] else r.info
  fresh : ∀ i, rs.length ≤ i → d.nodeInfo i = []

theorem parseVar_step {ignore iw : Bool} {rs : List NodeRec} {d : NetDoc} {r : NodeRec}
    (h : VarsDone (iw || ignore) rs d) (hr : r.name ∉ rs.map NodeRec.name) :
    ∃ d', parseVar ignore d (varEl iw r) = .ok d' ∧ VarsDone (iw || ignore) (rs ++ [r]) d' ∧
      d'.name = d.name ∧ d'.info = d.info := by
  obtain ⟨f1, f2, f3⟩ := find_varEl iw r
  set s1 := (create .discrete r.name r.values d.net).1 with hs1
  have hinv1 : s1.Inv := h.inv.create .discrete r.name r.values
  have hheap : s1.heap d.net.next = newObj .discrete r.name r.values := by simp [hs1, create]
  have hn : (s1.heap d.net.next).name = r.name := by rw [hheap]; rfl
  have hl1 : s1.lookup = ids rs := h.lookup
  have hnew : (s1.heap d.net.next).name ∉ s1.lookup.keys := by
    rw [hn, hl1, ids_keys]; exact hr
  have hadd := addNode_effect hinv1 (i := d.net.next) (by simp [hs1, create]) hnew
  have hinv2 : (addNode d.net.next s1).1.Inv := hinv1.addNode (by rw [hheap]; rfl)
  refine ⟨{ d with
    net := (addNode d.net.next s1).1
    nodeInfo := if ignore then d.nodeInfo
      else Function.update d.nodeInfo d.net.next (((varEl iw r).findall "PROPERTY").map text) },
    ?_, ⟨hinv2, ?_, ?_, ?_, ?_, ?_⟩, rfl, rfl⟩
  · unfold parseVar
    rw [f1, f2]
    simp only [textOf, ok_bind, text_el]
    rw [show someText (some r.name) = .ok r.name from rfl, ok_bind, List.mapM_map, mapM_ok (f := (fun o : Xml => someText o.text) ∘ fun v => el "OUTCOME" (some v) []) (g := id)
      (fun _ _ => rfl), List.map_id, ok_bind, ← hs1]
    have : (addNode d.net.next s1).toExcept = .ok (addNode d.net.next s1).1 := by
      rw [hadd]; rfl
    rw [this]
    rfl
  · rw [hadd]; simp [hs1, create, h.next]
  · rw [hadd]
    simp only [hn, hl1]
    rw [h.next]
    unfold ids
    rw [List.zipIdx_append]
    simp
  · intro i q hq
    have hhe : (addNode d.net.next s1).1.heap = s1.heap := by rw [hadd]
    simp only [hhe]
    by_cases hi : i = rs.length
    · subst hi
      rw [← h.next, hheap]
      simp at hq; rw [hq]
    · have hlt : i < rs.length := by
        have := (List.getElem?_eq_some_iff.1 hq).1
        simp at this; omega
      have : s1.heap i = d.net.heap i := by
        simp only [hs1, create]
        rw [Function.update_of_ne (by rw [h.next]; exact hi)]
      rw [this]
      rw [List.getElem?_append_left hlt] at hq
      exact h.heap i q hq
  · intro i q hq
    by_cases hi : i = rs.length
    · subst hi
      simp only [List.getElem?_concat_length, Option.some.injEq] at hq
      subst hq
      rw [f3]
      cases ignore with
      | true => simp [h.fresh rs.length le_rfl]
      | false => rw [h.next]; simp
    · have hlt : i < rs.length := by
        have := (List.getElem?_eq_some_iff.1 hq).1
        simp at this; omega
      rw [List.getElem?_append_left hlt] at hq
      rw [← h.info i q hq]
      dsimp only
      split
      · rfl
      · rw [Function.update_of_ne (by rw [h.next]; exact hi)]
  · intro i hi
    simp only [List.length_append, List.length_singleton] at hi
    dsimp only
    split
    · exact h.fresh i (by omega)
    · rw [Function.update_of_ne (by rw [h.next]; omega)]
      exact h.fresh i (by omega)

theorem parseVars {ignore iw : Bool} : ∀ (rs pre : List NodeRec) {d : NetDoc},
    VarsDone (iw || ignore) pre d → ((pre ++ rs).map NodeRec.name).Nodup →
    ∃ d', (rs.map (varEl iw)).foldlM (parseVar ignore) d = .ok d' ∧
      VarsDone (iw || ignore) (pre ++ rs) d' ∧ d'.name = d.name ∧ d'.info = d.info
  | [], pre, d, h, _ => ⟨d, rfl, by simpa using h, rfl, rfl⟩
  | r :: rs, pre, d, h, hnd => by
    have hr : r.name ∉ pre.map NodeRec.name := by
      rw [List.map_append, List.nodup_append] at hnd
      intro hm
      exact hnd.2.2 _ hm _ (by simp) rfl
    obtain ⟨d1, e1, h1, n1, i1⟩ := parseVar_step h hr
    obtain ⟨d2, e2, h2, n2, i2⟩ := parseVars rs (pre ++ [r]) h1 (by simpa using hnd)
    refine ⟨d2, ?_, by simpa using h2, n2.trans n1, i2.trans i1⟩
    rw [List.map_cons, List.foldlM_cons, e1, ok_bind, e2]

/-! ## definitions -/

/-- the state while the definitions are read: the first `m` nodes are complete -/
structure DefsDone (rs : List NodeRec) (m : Nat) (s : Net) : Prop where
  inv : s.Inv
  lookup : s.lookup = ids rs
  core : ∀ i r, rs[i]? = some r → (s.heap i).kind = .discrete ∧ (s.heap i).name = r.name ∧
    (s.heap i).values = r.values
  done : ∀ i r, rs[i]? = some r → i < m → (s.heap i).parentOrder = r.parentOrder ∧
    (s.heap i).cpd = r.cpd ∧ (s.heap i).valid = true
  todo : ∀ i r, rs[i]? = some r → m < i → (s.heap i).parentOrder = []

theorem DefsDone.get? {rs : List NodeRec} {m : Nat} {s : Net} (h : DefsDone rs m s)
    (hrs : (rs.map NodeRec.name).Nodup) {k : Name} {i : Nat} :
    s.lookup.get? k = some i ↔ ∃ r, rs[i]? = some r ∧ r.name = k := by
  rw [h.lookup, ids_get? hrs]

theorem parseGivens {rs : List NodeRec} (hrs : RecsOk rs) {m : Nat} {r : NodeRec}
    (hm : rs[m]? = some r) : ∀ (ps acc : List Name) {s : Net}, DefsDone rs m s →
    (s.heap m).parentOrder = acc → (acc ++ ps).Nodup → (∀ p ∈ ps, p ∈ rs.map NodeRec.name) →
    ∃ s', (ps.map fun p => el "GIVEN" (some p) []).foldlM (parseGiven r.name) s = .ok s' ∧
      DefsDone rs m s' ∧ (s'.heap m).parentOrder = acc ++ ps
  | [], acc, s, h, hacc, _, _ => ⟨s, rfl, h, by simpa using hacc⟩
  | p :: ps, acc, s, h, hacc, hnd, hps => by
    obtain ⟨q, hq, hqn⟩ := List.mem_map.1 (hps p (by simp))
    obtain ⟨i, hi⟩ := List.mem_iff_getElem?.1 hq
    have hgi : s.lookup.get? p = some i := (h.get? hrs.nodup).2 ⟨q, hi, hqn⟩
    have hgm : s.lookup.get? r.name = some m := (h.get? hrs.nodup).2 ⟨r, hm, rfl⟩
    have hnew : p ∉ s.parentsOf r.name := by
      rw [parentsOf_of hgm, hacc]
      intro hp
      rw [List.nodup_append] at hnd
      exact hnd.2.2 _ hp _ (by simp) rfl
    have hk : (s.heap i).kind ≠ .utility := by rw [(h.core i q hi).1]; decide
    have heff := addEdge_effect h.inv hgi hgm hnew hk
    have hinv : (addEdge p r.name s).1.Inv := h.inv.addEdge hnew (by
      intro j hj; rw [hgi] at hj; cases hj; exact hk)
    have hs1 : DefsDone rs m (addEdge p r.name s).1 := by
      refine ⟨hinv, by rw [heff]; exact h.lookup, ?_, ?_, ?_⟩
      · intro j q' hj
        rw [heff]
        by_cases hjm : j = m
        · subst hjm; simpa [grown, redim] using h.core j q' hj
        · simpa [hjm] using h.core j q' hj
      · intro j q' hj hlt
        rw [heff]
        have hjm : j ≠ m := by omega
        simpa [hjm] using h.done j q' hj hlt
      · intro j q' hj hlt
        rw [heff]
        have hjm : j ≠ m := by omega
        simpa [hjm] using h.todo j q' hj hlt
    have hpo : ((addEdge p r.name s).1.heap m).parentOrder = acc ++ [p] := by
      rw [heff]; simp [grown, redim, hacc]
    obtain ⟨s', e', h', hp'⟩ := parseGivens hrs hm ps (acc ++ [p]) hs1 hpo
      (by simpa using hnd) (fun x hx => hps x (List.mem_cons_of_mem _ hx))
    refine ⟨s', ?_, h', by simpa using hp'⟩
    rw [List.map_cons, List.foldlM_cons]
    have : parseGiven r.name s (el "GIVEN" (some p) []) = .ok (addEdge p r.name s).1 := by
      simp only [parseGiven, text_el, nodeText, ok_bind]
      rw [heff]; rfl
    rw [this, ok_bind, e']

theorem parseDef_step {rs : List NodeRec} (hrs : RecsOk rs) (ft : FloatText) {m : Nat} {r : NodeRec}
    (hm : rs[m]? = some r) {s : Net} (h : DefsDone rs m s) (hpo : (s.heap m).parentOrder = []) :
    ∃ s', parseDef ft s (defEl ft r) = .ok s' ∧ DefsDone rs (m + 1) s' ∧
      ∀ q, rs[m + 1]? = some q → (s'.heap (m + 1)).parentOrder = [] := by
  obtain ⟨f1, f2, f3⟩ := find_defEl ft r
  have hmem : r ∈ rs := List.mem_of_getElem? hm
  have hgm : s.lookup.get? r.name = some m := (h.get? hrs.nodup).2 ⟨r, hm, rfl⟩
  obtain ⟨s1, e1, h1, hp1⟩ := parseGivens hrs hm r.parentOrder [] h hpo
    (by simpa using hrs.order r hmem) (hrs.known r hmem)
  simp only [List.nil_append] at hp1
  have hgm1 : s1.lookup.get? r.name = some m := (h1.get? hrs.nodup).2 ⟨r, hm, rfl⟩
  -- the labels of the parents
  have hlab : ∀ q ∈ rs, (s1.labels q.name).length = q.values.length := by
    intro q hq
    obtain ⟨i, hi⟩ := List.mem_iff_getElem?.1 hq
    unfold labels
    rw [(h1.get? hrs.nodup).2 ⟨q, hi, rfl⟩]
    simp only [(h1.core i q hi).2.2]
  have hshape : r.cpd.shape = r.values.length :: r.parentOrder.map fun p => (s1.labels p).length :=
    hrs.shape r hmem _ hlab
  have hdims : (s1.heap m).parentOrder.mapM (s1.parentLen (s1.heap m)) =
      .ok (r.parentOrder.map fun p => (s1.labels p).length) := by
    rw [hp1]
    refine mapM_ok fun p hp => ?_
    have hobj := h1.inv.parent_obj r.name m hgm1 p
    rw [hp1, if_pos hp] at hobj
    obtain ⟨j, hj, hjk⟩ := h1.inv.known r.name p (by rw [parentsOf_of hgm1, hp1]; exact hp)
    rw [hj] at hobj
    unfold parentLen
    rw [Dict.getE_ok hobj, ok_bind, if_neg hjk]
    unfold labels
    rw [hj]
  have hne : r.cpd.flattenF ≠ [] := by
    intro h0
    have hl := NDArray.length_flattenF r.cpd
    rw [h0, hshape, List.length_nil, List.prod_cons, eq_comm, Nat.mul_eq_zero] at hl
    rcases hl with hl | hl
    · exact hrs.values r hmem (List.length_eq_zero_iff.1 hl)
    · rw [List.prod_eq_zero_iff] at hl
      obtain ⟨p, hp, hp0⟩ := List.mem_map.1 hl
      obtain ⟨q, hq, rfl⟩ := List.mem_map.1 (hrs.known r hmem p hp)
      rw [hlab q hq] at hp0
      exact hrs.values q hq (List.length_eq_zero_iff.1 hp0)
  have hcore := h1.core m r hm
  have hcsh : (s1.heap m).cpd.shape = r.cpd.shape := by
    rw [h1.inv.coherent.shape r.name m (getNode_ok.2 hgm1), hcore.2.2,
      if_neg (hrs.values r hmem), hp1, hshape]
    rfl
  have hset : ((s1.objView m).setCpd r.cpd) = .ok r.cpd := by
    unfold NodeV.setCpd
    rw [if_neg (by simp [objView, hcore.1]), if_neg (by simp [objView, hcsh])]
  have hsc : setCpd m r.cpd s1 = (s1.setObj m { s1.heap m with
      cpd := r.cpd, valid := true, plain := false }, none) := by
    unfold Net.setCpd putCpd
    rw [hset]
  refine ⟨s1.setObj m { s1.heap m with cpd := r.cpd, valid := true, plain := false }, ?_, ?_, ?_⟩
  · unfold parseDef
    rw [f1, f2, f3]
    simp only [textOf, ok_bind, text_el, nodeText]
    rw [getNode_ok.2 hgm, ok_bind, ← List.map_reverse, List.reverse_reverse, e1, ok_bind]
    simp only [parseTable, textOf, ok_bind, text_el]
    rw [tableText, read_tableText ft hne, ok_bind]
    unfold parseCpd
    have hre : NDArray.reshapeF r.cpd.flattenF ((s1.heap m).values.length ::
        r.parentOrder.map fun p => (s1.labels p).length) = .ok r.cpd := by
      rw [hcore.2.2, ← hshape, NDArray.reshapeF_flattenF]
    rw [hdims, ok_bind, hre, ok_bind, hsc]
    rfl
  · refine ⟨h1.inv.setObj_same ⟨rfl, rfl, rfl, rfl, rfl, hcsh.symm⟩, h1.lookup, ?_, ?_, ?_⟩
    · intro j q hj
      by_cases hjm : j = m
      · subst hjm; simpa using h1.core j q hj
      · simpa [hjm] using h1.core j q hj
    · intro j q hj hlt
      by_cases hjm : j = m
      · subst hjm
        rw [hm] at hj; cases hj
        simpa using hp1
      · simpa [hjm] using h1.done j q hj (by omega)
    · intro j q hj hlt
      have hjm : j ≠ m := by omega
      simpa [hjm] using h1.todo j q hj (by omega)
  · intro q hq
    simpa using h1.todo (m + 1) q hq (by omega)

theorem parseDefs {rs : List NodeRec} (hrs : RecsOk rs) (ft : FloatText) :
    ∀ (suf pre : List NodeRec) {s : Net}, rs = pre ++ suf → DefsDone rs pre.length s →
    (∀ q, rs[pre.length]? = some q → (s.heap pre.length).parentOrder = []) →
    ∃ s', (suf.map (defEl ft)).foldlM (parseDef ft) s = .ok s' ∧ DefsDone rs rs.length s'
  | [], pre, s, hrp, h, _ => ⟨s, rfl, by simpa [hrp] using h⟩
  | r :: suf, pre, s, hrp, h, h0 => by
    have hm : rs[pre.length]? = some r := by simp [hrp]
    obtain ⟨s1, e1, h1, h01⟩ := parseDef_step hrs ft hm h (h0 r hm)
    obtain ⟨s2, e2, h2⟩ := parseDefs hrs ft suf (pre ++ [r]) (s := s1) (by simp [hrp])
      (by simpa using h1) (by simpa using h01)
    refine ⟨s2, ?_, h2⟩
    rw [List.map_cons, List.foldlM_cons, e1, ok_bind, e2]

/-! ## the whole document -/

theorem parse_docOf {rs : List NodeRec} (hrs : RecsOk rs) (ft : FloatText) (iw ignore : Bool)
    (name : Option String) (info : List (Option String)) :
    ∃ d, parse ft ignore (docOf ft iw name info rs) = .ok d ∧ d.name = name ∧
      d.info = (if iw || ignore then [] else info) ∧ DefsDone rs rs.length d.net ∧
      ∀ i r, rs[i]? = some r → d.nodeInfo i = if iw || ignore then [] else r.info := by
  obtain ⟨hv, hd⟩ := iter_docOf ft iw name info rs
  set d0 : NetDoc := { NetDoc.new with
    name := name
    info := if ignore then [] else if iw then [] else info } with hd0
  have hstart : VarsDone (iw || ignore) [] d0 := by
    refine ⟨Inv.empty, rfl, rfl, ?_, ?_, ?_⟩
    · intro i r h; simp at h
    · intro i r h; simp at h
    · intro i _; rfl
  obtain ⟨d1, e1, h1, n1, i1⟩ := parseVars (ignore := ignore) (iw := iw) rs [] hstart
    (by simpa using hrs.nodup)
  simp only [List.nil_append] at h1
  have hdef : DefsDone rs 0 d1.net := by
    refine ⟨h1.inv, h1.lookup, ?_, ?_, ?_⟩
    · intro i r hi; rw [h1.heap i r hi]; exact ⟨rfl, rfl, rfl⟩
    · intro i r _ h; omega
    · intro i r hi _; rw [h1.heap i r hi]; rfl
  obtain ⟨s, e2, h2⟩ := parseDefs hrs ft rs [] (s := d1.net) rfl hdef (by
    intro q hq
    simp only [List.length_nil] at hq ⊢
    rw [h1.heap 0 q hq]; rfl)
  refine ⟨{ d1 with net := s }, ?_, n1, ?_, h2, h1.info⟩
  · unfold parse
    rw [findBelow_docOf, info_docOf, hv, hd]
    simp only [textOf, text_el, ok_bind]
    rw [← hd0, e1, ok_bind, e2]
    rfl
  · rw [show ({ d1 with net := s } : NetDoc).info = d1.info from rfl, i1, hd0]
    cases ignore <;> cases iw <;> rfl

theorem nodes_of_defsDone {rs : List NodeRec} {d : NetDoc} {ign : Bool}
    (h : DefsDone rs rs.length d.net)
    (hi : ∀ i r, rs[i]? = some r → d.nodeInfo i = if ign then [] else r.info) :
    d.nodes = rs.map fun r => { r with info := if ign then [] else r.info } := by
  unfold NetDoc.nodes
  rw [h.inv.graph, h.lookup, ids, List.map_map]
  conv_rhs => rw [← List.zipIdx_map_fst 0 rs]
  rw [List.map_map]
  refine List.map_congr_left fun p hp => ?_
  have hp' := List.mem_zipIdx_iff_getElem?.1 hp
  obtain ⟨h1, h2, h3⟩ := h.core p.2 p.1 hp'
  obtain ⟨h4, h5, _⟩ := h.done p.2 p.1 hp' (List.getElem?_eq_some_iff.1 hp').1
  simp only [Function.comp_apply, h2, h3, h4, h5, hi p.2 p.1 hp']

end XMLBIF
end Primo
