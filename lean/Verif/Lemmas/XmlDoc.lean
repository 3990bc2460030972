import Verif.Lemmas.TableText
import Verif.Lemmas.NetStep

/-!
# The document that `XMLBIFParser.write` produces
-/

namespace Primo
open Xml

@[simp] theorem Xml.tag_el (t s k) : (el t s k).tag = t := rfl
@[simp] theorem Xml.text_el (t s k) : (el t s k).text = s := rfl
@[simp] theorem Xml.kids_el (t s k) : (el t s k).kids = k := rfl

theorem okChar_iff {c : Char} : okChar c = true ↔ XmlChar c := by
  unfold okChar XmlChar
  simp only [Bool.and_eq_true, Bool.not_eq_true', Bool.and_eq_false_iff, decide_eq_false_iff_not,
    decide_eq_true_eq, ne_eq, not_not, not_lt]
  tauto

theorem okText_iff {s : String} : okText s = true ↔ XmlText s := by
  simp [okText, XmlText, okChar_iff]

theorem leaf_ok {t : String} {s : Option String} (h : ∀ x, s = some x → XmlText x) :
    leaf t s = .ok (el t s []) := by
  unfold leaf
  rw [if_pos]
  cases s with
  | none => rfl
  | some x => simpa using okText_iff.2 (h x rfl)

namespace XMLBIF

/-- the written `VARIABLE` element -/
def varEl (ignore : Bool) (r : NodeRec) : Xml :=
  el "VARIABLE" none (el "NAME" (some r.name) [] :: r.values.map (fun v => el "OUTCOME" (some v) []) ++
    (if ignore then [] else r.info.map fun t => el "PROPERTY" t []))

/-- the written `DEFINITION` element -/
def defEl (ft : FloatText) (r : NodeRec) : Xml :=
  el "DEFINITION" none (el "FOR" (some r.name) [] ::
    r.parentOrder.reverse.map (fun p => el "GIVEN" (some p) []) ++
    [el "TABLE" (some (tableText ft r.cpd)) []])

/-- the written document -/
def docOf (ft : FloatText) (ignore : Bool) (name : Option String) (info : List (Option String))
    (rs : List NodeRec) : Xml :=
  el "BIF" none [el "NETWORK" none (el "NAME" name [] ::
    (if ignore then [] else info.map fun t => el "PROPERTY" t []) ++
    rs.flatMap fun r => [varEl ignore r, defEl ft r])]

theorem tableText_ok (ft : FloatText) (a : NDArray) : XmlText (tableText ft a) := by
  unfold tableText XmlText
  rw [String.toList_intercalate]
  generalize a.flattenF = l
  intro c hc
  rw [List.map_map] at hc
  have key : ∀ (l : List ℚ), c ∈ " ".toList.intercalate (l.map (String.toList ∘ ft.str)) →
      okChar c = true := by
    intro l
    induction l with
    | nil => simp
    | cons q l ih =>
      cases l with
      | nil =>
        simp only [List.map_cons, List.map_nil, List.intercalate_singleton]
        exact ft.okChars q c
      | cons q' l =>
        simp only [List.map_cons, List.intercalate_cons_cons] at ih ⊢
        simp only [List.mem_append]
        rintro ((h | h) | h)
        · exact ft.okChars q c h
        · have : c = ' ' := by simpa using h
          subst this; decide
        · exact ih h
  exact okChar_iff.1 (key l hc)

/-- all the texts of a record are XML text -/
def RecOk (r : NodeRec) : Prop := Storable r.name ∧ (∀ v ∈ r.values, Storable v) ∧
  (∀ p ∈ r.parentOrder, Storable p) ∧ ∀ t, some t ∈ r.info → XmlText t

/-- the record as it comes back -/
def blankRec (r : NodeRec) : NodeRec := { r with info := r.info.map blank }

/-- the record of a node object -/
def recOf (d : NetDoc) (i : Nat) : NodeRec := ⟨(d.net.heap i).name, (d.net.heap i).values,
    (d.net.heap i).parentOrder, (d.net.heap i).cpd, d.nodeInfo i⟩

theorem writeVar_ok {d : NetDoc} {i : Nat} (ignore : Bool) (hk : (d.net.heap i).kind ≠ .utility)
    (h : RecOk (recOf d i)) : writeVar d ignore i = .ok (varEl ignore (recOf d i)) := by
  obtain ⟨h1, h2, _, h3⟩ := h
  unfold writeVar
  rw [leaf_ok (by rintro x ⟨rfl⟩; exact h1.2), ok_bind, if_neg hk,
    mapM_ok (g := fun v => el "OUTCOME" (some v) [])
      (fun v hv => leaf_ok (by rintro x ⟨rfl⟩; exact (h2 v hv).2)), ok_bind]
  cases ignore with
  | true => rfl
  | false =>
    rw [if_neg (by simp), mapM_ok (g := fun t => el "PROPERTY" t [])
      (fun t ht => leaf_ok (by rintro x rfl; exact h3 x ht)), ok_bind]
    rfl

theorem writeDef_ok {d : NetDoc} {i : Nat} (ft : FloatText) (h : RecOk (recOf d i)) :
    writeDef ft d i = .ok (defEl ft (recOf d i)) := by
  obtain ⟨h1, _, h2, _⟩ := h
  unfold writeDef
  rw [leaf_ok (by rintro x ⟨rfl⟩; exact h1.2), ok_bind,
    mapM_ok (g := fun v => el "GIVEN" (some v) [])
      (fun v hv => leaf_ok (by rintro x ⟨rfl⟩; exact (h2 v (List.mem_reverse.1 hv)).2)), ok_bind,
    leaf_ok (by rintro x ⟨rfl⟩; exact tableText_ok ft _), ok_bind]
  rfl

theorem write_ok {d : NetDoc} (ft : FloatText) (ignore : Bool)
    (hname : ∀ t, d.name = some t → XmlText t) (hinfo : ∀ t, some t ∈ d.info → XmlText t)
    (hn : ∀ p ∈ d.net.gnode, (d.net.heap p.2).kind ≠ .utility ∧ RecOk (recOf d p.2)) :
    write ft ignore d = .ok (docOf ft ignore d.name d.info d.nodes) := by
  unfold write
  rw [leaf_ok hname, ok_bind]
  have hb : d.net.gnode.mapM (fun p => do
      let v ← writeVar d ignore p.2
      let f ← writeDef ft d p.2
      return [v, f]) = .ok (d.net.gnode.map fun p =>
        [varEl ignore (recOf d p.2), defEl ft (recOf d p.2)]) := by
    refine mapM_ok fun p hp => ?_
    rw [writeVar_ok ignore (hn p hp).1 (hn p hp).2, ok_bind, writeDef_ok ft (hn p hp).2, ok_bind]
    rfl
  have hf : (d.net.gnode.map fun p =>
        [varEl ignore (recOf d p.2), defEl ft (recOf d p.2)]).flatten =
      d.nodes.flatMap fun r => [varEl ignore r, defEl ft r] := by
    rw [NetDoc.nodes, List.flatMap_map]
    rfl
  cases ignore with
  | true =>
    rw [if_pos rfl]
    simp only [ok_bind]
    rw [hb, ok_bind, hf]
    rfl
  | false =>
    rw [if_neg (by simp), mapM_ok (g := fun t => el "PROPERTY" t [])
      (fun t ht => leaf_ok (by rintro x rfl; exact hinfo x ht))]
    simp only [ok_bind]
    rw [hb, ok_bind, hf]
    rfl

/-! ## reading it back -/

theorem loadAll_eq_map : ∀ l : List Xml, loadAll l = l.map load
  | [] => rfl
  | x :: l => by simp [loadAll, loadAll_eq_map l]

theorem iterAll_eq_flatMap (t : String) : ∀ l : List Xml, iterAll t l = l.flatMap (iter t)
  | [] => rfl
  | x :: l => by simp [iterAll, iterAll_eq_flatMap t l]

theorem iter_leaf {t tg : String} (h : tg ≠ t) (s : Option String) : iter t (el tg s []) = [] := by
  simp [iter, iterAll, h]

theorem load_leaf {t : String} {s : Option String} (h : s ≠ some "") :
    load (el t s []) = el t s [] := by
  simp [load, loadAll, h]

theorem map_load_leaf {α : Type} {t : String} {f : α → Option String} {l : List α}
    (h : ∀ x ∈ l, f x ≠ some "") :
    (l.map fun x => el t (f x) []).map load = l.map fun x => el t (f x) [] := by
  rw [List.map_map]
  exact List.map_congr_left fun x hx => load_leaf (h x hx)

theorem map_load_blank (t : String) (l : List (Option String)) :
    (l.map fun x => el t x []).map load = (l.map blank).map fun x => el t x [] := by
  rw [List.map_map, List.map_map]
  exact List.map_congr_left fun x _ => by simp [load, loadAll, blank]

theorem flatMap_iter_leaf {α : Type} {t tg : String} (h : tg ≠ t) {f : α → Option String}
    {l : List α} : (l.map fun x => el tg (f x) []).flatMap (iter t) = [] := by
  rw [List.flatMap_map, List.flatMap_eq_nil_iff]
  exact fun x _ => iter_leaf h _

theorem load_varEl {ignore : Bool} {r : NodeRec} (h : RecOk r) :
    load (varEl ignore r) = varEl ignore (blankRec r) := by
  obtain ⟨h1, h2, _, _⟩ := h
  unfold varEl blankRec
  rw [load, if_neg (by simp), loadAll_eq_map, List.map_append, List.map_cons,
    load_leaf (by simpa using h1.1), map_load_leaf (fun v hv => by simpa using (h2 v hv).1)]
  congr 2
  cases ignore with
  | true => rfl
  | false =>
    rw [if_neg (by simp), if_neg (by simp)]
    exact map_load_blank _ _

theorem load_defEl {ft : FloatText} {r : NodeRec} (h : RecOk r) (ht : tableText ft r.cpd ≠ "") :
    load (defEl ft r) = defEl ft r := by
  obtain ⟨h1, _, h2, _⟩ := h
  unfold defEl
  rw [load, if_neg (by simp), loadAll_eq_map, List.map_append, List.map_cons,
    load_leaf (by simpa using h1.1),
    map_load_leaf (fun v hv => by simpa using (h2 v (by simpa using hv)).1), List.map_singleton,
    load_leaf (by simpa using ht)]

theorem load_docOf {ft : FloatText} {ignore : Bool} {name : Option String}
    {info : List (Option String)} {rs : List NodeRec}
    (hr : ∀ r ∈ rs, RecOk r ∧ tableText ft r.cpd ≠ "") :
    load (docOf ft ignore name info rs) =
      docOf ft ignore (blank name) (info.map blank) (rs.map blankRec) := by
  have h1 : (rs.flatMap fun r => [varEl ignore r, defEl ft r]).map load =
      (rs.map blankRec).flatMap fun r => [varEl ignore r, defEl ft r] := by
    rw [List.map_flatMap, List.flatMap_map]
    refine List.flatMap_congr fun r hr' => ?_
    rw [List.map_cons, List.map_singleton, load_varEl (hr r hr').1,
      load_defEl (hr r hr').1 (hr r hr').2]
    rfl
  have h2 : (if ignore = true then [] else info.map fun t => el "PROPERTY" t []).map load =
      if ignore = true then [] else (info.map blank).map fun t => el "PROPERTY" t [] := by
    split
    · rfl
    · exact map_load_blank _ _
  unfold docOf
  rw [load, loadAll_eq_map, List.map_singleton, load, loadAll_eq_map, List.map_append,
    List.map_cons, h1, h2, load, loadAll]
  rfl

theorem iter_varEl (ignore : Bool) (r : NodeRec) : iter "VARIABLE" (varEl ignore r) =
    [varEl ignore r] ∧ iter "DEFINITION" (varEl ignore r) = [] := by
  unfold varEl
  constructor
  all_goals
    rw [iter, iterAll_eq_flatMap, List.flatMap_append, List.flatMap_cons, iter_leaf (by decide),
      flatMap_iter_leaf (by decide)]
    cases ignore <;> simp [flatMap_iter_leaf]

theorem iter_defEl (ft : FloatText) (r : NodeRec) : iter "DEFINITION" (defEl ft r) =
    [defEl ft r] ∧ iter "VARIABLE" (defEl ft r) = [] := by
  unfold defEl
  constructor
  all_goals
    rw [iter, iterAll_eq_flatMap, List.flatMap_append, List.flatMap_cons, iter_leaf (by decide),
      flatMap_iter_leaf (by decide), List.flatMap_singleton, iter_leaf (by decide)]
    simp

theorem iter_docOf (ft : FloatText) (ignore : Bool) (name : Option String)
    (info : List (Option String)) (rs : List NodeRec) :
    iter "VARIABLE" (docOf ft ignore name info rs) = rs.map (varEl ignore) ∧
    iter "DEFINITION" (docOf ft ignore name info rs) = rs.map (defEl ft) := by
  unfold docOf
  constructor
  all_goals
    rw [iter, iterAll, iterAll, iter, iterAll_eq_flatMap, List.flatMap_append, List.flatMap_cons,
      iter_leaf (by decide), List.flatMap_assoc]
    have h1 : ∀ t, t ≠ "PROPERTY" →
        (if ignore = true then [] else info.map fun t => el "PROPERTY" t []).flatMap (iter t) = [] := by
      intro t ht
      split
      · rfl
      · exact flatMap_iter_leaf (Ne.symm ht)
    rw [h1 _ (by decide)]
    simp [(iter_varEl ignore _).1, (iter_varEl ignore _).2, (iter_defEl ft _).1,
      (iter_defEl ft _).2]
    exact (List.map_eq_flatMap ..).symm

theorem findBelow_docOf (ft : FloatText) (ignore : Bool) (name : Option String)
    (info : List (Option String)) (rs : List NodeRec) :
    findBelow (docOf ft ignore name info rs) "NAME" = some (el "NAME" name []) := by
  simp [findBelow, docOf, kids, iterAll, iter]

theorem info_docOf (ft : FloatText) (ignore : Bool) (name : Option String)
    (info : List (Option String)) (rs : List NodeRec) :
    (((docOf ft ignore name info rs).findall "NETWORK").flatMap fun n => n.findall "PROPERTY").map
      text = if ignore then [] else info := by
  have h1 : (rs.flatMap fun r => [varEl ignore r, defEl ft r]).filter
      (fun k => k.tag = "PROPERTY") = [] := by
    rw [List.filter_eq_nil_iff]
    intro x hx
    obtain ⟨r, _, hx⟩ := List.mem_flatMap.1 hx
    simp only [List.mem_cons, List.not_mem_nil, or_false] at hx
    rcases hx with rfl | rfl <;> simp [varEl, defEl]
  have h2 : (docOf ft ignore name info rs).findall "NETWORK" =
      (docOf ft ignore name info rs).kids := by
    simp [findall, docOf, kids]
  rw [h2]
  simp only [docOf, kids_el, List.flatMap_singleton, findall, List.cons_append, List.filter_cons,
    List.filter_append, h1]
  cases ignore with
  | true => simp
  | false =>
    simp only [Bool.false_eq_true, if_false, List.append_nil]
    rw [if_neg (by simp), List.filter_eq_self.2 (by simp [tag_el]), List.map_map]
    exact List.map_id' info

theorem find_varEl (ignore : Bool) (r : NodeRec) :
    (varEl ignore r).find "NAME" = some (el "NAME" (some r.name) []) ∧
    (varEl ignore r).findall "OUTCOME" = r.values.map (fun v => el "OUTCOME" (some v) []) ∧
    ((varEl ignore r).findall "PROPERTY").map text = if ignore then [] else r.info := by
  refine ⟨by simp [find, findall, varEl, kids], ?_, ?_⟩
  · simp only [findall, varEl, kids_el, List.cons_append, List.filter_cons, List.filter_append]
    rw [if_neg (by simp), List.filter_eq_self.2 (by simp [tag_el]),
      List.filter_eq_nil_iff.2, List.append_nil]
    cases ignore <;> simp [tag_el]
  · simp only [findall, varEl, kids_el, List.cons_append, List.filter_cons, List.filter_append]
    rw [if_neg (by simp), List.filter_eq_nil_iff.2 (by simp [tag_el]), List.nil_append]
    cases ignore with
    | true => simp
    | false =>
      simp only [Bool.false_eq_true, if_false]
      rw [List.filter_eq_self.2 (by simp [tag_el]), List.map_map]
      exact List.map_id' r.info

theorem find_defEl (ft : FloatText) (r : NodeRec) :
    (defEl ft r).find "FOR" = some (el "FOR" (some r.name) []) ∧
    (defEl ft r).findall "GIVEN" = r.parentOrder.reverse.map (fun p => el "GIVEN" (some p) []) ∧
    (defEl ft r).find "TABLE" = some (el "TABLE" (some (tableText ft r.cpd)) []) := by
  refine ⟨by simp [find, findall, defEl, kids], ?_, ?_⟩
  · simp only [findall, defEl, kids_el, List.cons_append, List.filter_cons, List.filter_append]
    rw [if_neg (by simp), List.filter_eq_self.2 (by simp [tag_el])]
    simp
  · simp only [find, findall, defEl, kids_el, List.cons_append, List.filter_cons, List.filter_append,
      tag_el]
    rw [if_neg (by simp), List.filter_eq_nil_iff.2 (by simp [tag_el])]
    simp

end XMLBIF
end Primo
