import Verif.Lemmas.ParseDoc

/-!
# A written network comes back
-/

namespace Primo
namespace XMLBIF
open Xml Net

variable {d : NetDoc}

theorem mem_nodes {r : NodeRec} (hc : d.net.Coherent) :
    r ∈ d.nodes ↔ ∃ k i, d.net.getNode k = .ok i ∧ r = recOf d i := by
  unfold NetDoc.nodes
  rw [hc.graph]
  constructor
  · intro h
    obtain ⟨p, hp, rfl⟩ := List.mem_map.1 h
    exact ⟨p.1, p.2, getNode_ok.2 (Dict.get?_of_mem hc.nodup hp), rfl⟩
  · rintro ⟨k, i, h, rfl⟩
    exact List.mem_map.2 ⟨(k, i), Dict.get?_mem (getNode_ok.1 h), rfl⟩

theorem nodes_names (hc : d.net.Coherent) : d.nodes.map NodeRec.name = d.net.lookup.keys := by
  unfold NetDoc.nodes
  rw [hc.graph, List.map_map, Dict.keys]
  refine List.map_congr_left fun p hp => ?_
  exact hc.name p.1 p.2 (getNode_ok.2 (Dict.get?_of_mem hc.nodup hp))

theorem parent_known (hc : d.net.Coherent) {k : Name} {i : Nat} (hi : d.net.getNode k = .ok i)
    {p : Name} (hp : p ∈ (d.net.heap i).parentOrder) : ∃ j, d.net.getNode p = .ok j := by
  have h1 := (hc.incoming k i hi).2.mem_iff.1 hp
  obtain ⟨e, he, rfl⟩ := List.mem_map.1 h1
  exact ⟨e.2, hc.own_pred e.1 k e.2 he⟩

theorem recsOk (hc : d.net.Coherent) (hk : d.Chance) : RecsOk d.nodes := by
  constructor
  · rw [nodes_names hc]; exact hc.nodup
  · intro r hr
    obtain ⟨k, i, hi, rfl⟩ := (mem_nodes hc).1 hr
    exact (hc.incoming k i hi).1
  · intro r hr p hp
    obtain ⟨k, i, hi, rfl⟩ := (mem_nodes hc).1 hr
    obtain ⟨j, hj⟩ := parent_known hc hi hp
    rw [nodes_names hc]
    exact Dict.mem_keys_of_get? (getNode_ok.1 hj)
  · intro r hr
    obtain ⟨k, i, hi, rfl⟩ := (mem_nodes hc).1 hr
    exact (hk k i hi).2
  · intro r hr f hf
    obtain ⟨k, i, hi, rfl⟩ := (mem_nodes hc).1 hr
    have := hc.shape k i hi
    rw [if_neg (hk k i hi).2] at this
    show (d.net.heap i).cpd.shape = _
    rw [this]
    show _ :: _ = _ :: _
    congr 1
    refine List.map_congr_left fun p hp => ?_
    obtain ⟨j, hj⟩ := parent_known hc hi hp
    have h1 := hf (recOf d j) ((mem_nodes hc).2 ⟨p, j, hj, rfl⟩)
    have h2 : (recOf d j).name = p := hc.name p j hj
    rw [h2] at h1
    rw [h1]
    unfold labels
    rw [getNode_ok.1 hj]
    rfl

theorem recOk (hc : d.net.Coherent) (hs : d.Storable) {r : NodeRec} (hr : r ∈ d.nodes) : RecOk r := by
  obtain ⟨h1, h2, h3⟩ := hs.nodes r hr
  refine ⟨h1, h2, ?_, h3⟩
  intro p hp
  obtain ⟨k, i, hi, rfl⟩ := (mem_nodes hc).1 hr
  obtain ⟨j, hj⟩ := parent_known hc hi hp
  have := (hs.nodes (recOf d j) ((mem_nodes hc).2 ⟨p, j, hj, rfl⟩)).1
  rwa [show (recOf d j).name = p from hc.name p j hj] at this

theorem flattenF_ne_nil {rs : List NodeRec} (hrs : RecsOk rs) {r : NodeRec} (hr : r ∈ rs) :
    r.cpd.flattenF ≠ [] := by
  intro h0
  -- any function giving the numbers of outcomes
  let f : Name → Nat := fun p => match rs.find? (fun q => q.name = p) with
    | some q => q.values.length
    | none => 0
  have hf : ∀ q ∈ rs, f q.name = q.values.length := by
    intro q hq
    have : rs.find? (fun q' => q'.name = q.name) = some q := by
      obtain ⟨q', hq'⟩ : ∃ q', rs.find? (fun q' => q'.name = q.name) = some q' :=
        Option.isSome_iff_exists.1 (List.find?_isSome.2 ⟨q, hq, by simp⟩)
      have h1 := List.mem_of_find?_eq_some hq'
      have h2 := List.find?_some hq'
      simp only [decide_eq_true_eq] at h2
      rw [hq', List.inj_on_of_nodup_map hrs.nodup h1 hq h2]
    simp only [f, this]
  have hl := NDArray.length_flattenF r.cpd
  rw [h0, hrs.shape r hr f hf, List.length_nil, List.prod_cons, eq_comm, Nat.mul_eq_zero] at hl
  rcases hl with hl | hl
  · exact hrs.values r hr (List.length_eq_zero_iff.1 hl)
  · rw [List.prod_eq_zero_iff] at hl
    obtain ⟨p, hp, hp0⟩ := List.mem_map.1 hl
    obtain ⟨q, hq, rfl⟩ := List.mem_map.1 (hrs.known r hr p hp)
    rw [hf q hq] at hp0
    exact hrs.values q hq (List.length_eq_zero_iff.1 hp0)

theorem tableText_ne (ft : FloatText) {a : NDArray} (h : a.flattenF ≠ []) : tableText ft a ≠ "" := by
  intro h0
  have h1 := congrArg String.toList h0
  unfold tableText at h1
  rw [String.toList_intercalate] at h1
  cases hl : a.flattenF with
  | nil => exact h hl
  | cons q l =>
    rw [hl] at h1
    cases l with
    | nil => simp at h1; exact ft.nonempty q (by simp [h1])
    | cons q' l =>
      simp only [List.map_cons, List.intercalate_cons_cons] at h1
      simp at h1

/-- a node without outcomes and parents is rejected -/
theorem parseDef_hollow {ft : FloatText} {r : NodeRec} {s : Net} {i : Nat}
    (hget : s.getNode r.name = .ok i) (hheap : s.heap i = newObj .discrete r.name [])
    (hp : r.parentOrder = []) (hne : r.cpd.flattenF ≠ []) :
    parseDef ft s (defEl ft r) = .error .valueError := by
  obtain ⟨f1, f2, f3⟩ := find_defEl ft r
  unfold parseDef
  rw [f1, f2, f3, hp]
  have g1 : textOf (some (el "FOR" (some r.name) [])) = .ok (some r.name) := rfl
  have g2 : nodeText (some r.name) = .ok r.name := rfl
  have g3 : parseTable ft (some (el "TABLE" (some (tableText ft r.cpd)) [])) =
      .ok r.cpd.flattenF := by
    simp only [parseTable, textOf, ok_bind, text_el]
    rw [tableText, read_tableText ft hne]
  rw [g1, ok_bind, g2, ok_bind, hget, ok_bind, g3]
  simp only [List.reverse_nil, List.map_nil, List.foldlM_nil, pure_eq_ok, ok_bind]
  unfold parseCpd
  rw [hheap]
  simp only [newObj, List.mapM_nil, pure_eq_ok, ok_bind]
  unfold NDArray.reshapeF
  rw [if_neg]
  · rfl
  · simpa using hne

theorem recsOk_blank {rs : List NodeRec} (h : RecsOk rs) : RecsOk (rs.map blankRec) := by
  have hn : (rs.map blankRec).map NodeRec.name = rs.map NodeRec.name := by
    rw [List.map_map]; rfl
  constructor
  · rw [hn]; exact h.nodup
  · simp only [List.mem_map]; rintro _ ⟨r, hr, rfl⟩; exact h.order r hr
  · rw [hn]; simp only [List.mem_map (f := blankRec)]; rintro _ ⟨r, hr, rfl⟩; exact h.known r hr
  · simp only [List.mem_map]; rintro _ ⟨r, hr, rfl⟩; exact h.values r hr
  · intro r' hr' f hf
    obtain ⟨r, hr, rfl⟩ := List.mem_map.1 hr'
    exact h.shape r hr f fun q hq => hf (blankRec q) (List.mem_map_of_mem hq)

theorem write_eq (ft : FloatText) (iw : Bool) (hc : d.net.Coherent) (hk : d.Chance)
    (hs : d.Storable) : write ft iw d = .ok (docOf ft iw d.name d.info d.nodes) := by
  refine write_ok ft iw hs.name hs.info fun p hp => ?_
  rw [hc.graph] at hp
  have hp' := getNode_ok.2 (Dict.get?_of_mem hc.nodup hp)
  exact ⟨by rw [(hk _ _ hp').1]; decide, recOk hc hs ((mem_nodes hc).2 ⟨_, _, hp', rfl⟩)⟩

/-- writing and reading back, on the level of whole networks -/
theorem round_trip (ft : FloatText) (iw ip : Bool) (hc : d.net.Coherent) (hk : d.Chance)
    (hs : d.Storable) : ∃ x d', write ft iw d = .ok x ∧ parse ft ip x.load = .ok d' ∧
      d.Back (!(iw || ip)) d' := by
  have hrs := recsOk hc hk
  refine ⟨docOf ft iw d.name d.info d.nodes, ?_⟩
  have hload : load (docOf ft iw d.name d.info d.nodes) =
      docOf ft iw (blank d.name) (d.info.map blank) (d.nodes.map blankRec) :=
    load_docOf fun r hr => ⟨recOk hc hs hr, tableText_ne ft (flattenF_ne_nil hrs hr)⟩
  obtain ⟨d', e, hn, hi, hdone, hinfo⟩ := parse_docOf (recsOk_blank hrs) ft iw ip (blank d.name)
    (d.info.map blank)
  rw [hload]
  have hget : ∀ k i, d'.net.getNode k = .ok i → ∃ r, (d.nodes.map blankRec)[i]? = some r := by
    intro k i hki
    obtain ⟨r, hr, _⟩ := (hdone.get? (recsOk_blank hrs).nodup).1 (getNode_ok.1 hki)
    exact ⟨r, hr⟩
  refine ⟨d', write_eq ft iw hc hk hs, e, hn, ?_, ?_, hdone.inv.coherent, ?_, ?_⟩
  · rw [hi]; cases (iw || ip) <;> rfl
  · rw [nodes_of_defsDone hdone hinfo, List.map_map]
    refine List.map_congr_left fun r _ => ?_
    cases (iw || ip) <;> rfl
  · intro k i hki
    obtain ⟨r, hr⟩ := hget k i hki
    obtain ⟨h1, _, h2⟩ := hdone.core i r hr
    exact ⟨h1, by rw [h2]; exact (recsOk_blank hrs).values r (List.mem_of_getElem? hr)⟩
  · intro k i hki
    obtain ⟨r, hr⟩ := hget k i hki
    exact (hdone.done i r hr (List.getElem?_eq_some_iff.1 hr).1).2.2

end XMLBIF
end Primo
