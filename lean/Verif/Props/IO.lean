import Verif.Lemmas.DocView
import Verif.Lemmas.ParseAny
import Verif.Examples.IO

/-!
# C53–C55: files
-/

namespace Primo
open Xml Path

/-! ## C53 -/

/-- **C53** What is written is accepted, and comes back with the same nodes in the same order, with
the same outcomes, parent orders and tables, in a coherent network; the name and the properties (if
both calls keep them) come back too, except that an empty text comes back as `None`.  `Back` says
this.  (Partial: the full claim has no exception for empty texts, no restriction to chance nodes and
none to characters that XML has; see the refutations.) -/
theorem C53_round_trip_partial (ft : FloatText) (iw ip : Bool) {d : NetDoc} (hc : d.net.Coherent)
    (hk : d.Chance) (hs : d.Storable) : ∃ x d', XMLBIF.write ft iw d = .ok x ∧
      XMLBIF.parse ft ip x.load = .ok d' ∧ d.Back (!(iw || ip)) d' :=
  XMLBIF.round_trip ft iw ip hc hk hs

theorem map_blank_eq {l : List (Option String)} (h : some "" ∉ l) : l.map blank = l := by
  conv_rhs => rw [← List.map_id l]
  refine List.map_congr_left fun t ht => ?_
  unfold blank
  rw [if_neg (by rintro rfl; exact h ht)]; rfl

/-- **C53** With a non-empty (or missing) name and non-empty properties nothing is lost. -/
theorem C53_exact_partial (ft : FloatText) {d : NetDoc} (hc : d.net.Coherent) (hk : d.Chance)
    (hs : d.Storable) (hn : d.name ≠ some "") (hi : some "" ∉ d.info)
    (hni : ∀ r ∈ d.nodes, some "" ∉ r.info) : ∃ x d', XMLBIF.write ft false d = .ok x ∧
      XMLBIF.parse ft false x.load = .ok d' ∧ d'.name = d.name ∧ d'.info = d.info ∧
      d'.nodes = d.nodes ∧ d'.net.Coherent := by
  obtain ⟨x, d', h1, h2, h3⟩ := XMLBIF.round_trip ft false false hc hk hs
  refine ⟨x, d', h1, h2, ?_, ?_, ?_, h3.coherent⟩
  · rw [h3.name, blank, if_neg hn]
  · rw [h3.info]; exact map_blank_eq hi
  · rw [h3.nodes]
    conv_rhs => rw [← List.map_id d.nodes]
    refine List.map_congr_left fun r hr => ?_
    show ({ r with info := r.info.map blank } : NodeRec) = r
    rw [map_blank_eq (hni r hr)]

/-- **C53** The network that comes back has the posteriors of the one that was written, for every
evidence and every query. -/
theorem C53_posterior_partial (ft : FloatText) (iw ip : Bool) {d : NetDoc} (hc : d.net.Coherent)
    (hk : d.Chance) (hs : d.Storable) : ∃ x d', XMLBIF.write ft iw d = .ok x ∧
      XMLBIF.parse ft ip x.load = .ok d' ∧ d'.net.view.names = d.net.view.names ∧
      d'.net.view.lab = d.net.view.lab ∧
      ∀ ev Q σ, posterior d'.net.view ev Q σ = posterior d.net.view ev Q σ := by
  obtain ⟨x, d', h1, h2, h3⟩ := XMLBIF.round_trip ft iw ip hc hk hs
  have hcore : d'.net.view.map NodeV.core = d.net.view.map NodeV.core := by
    rw [core_view hc, core_view h3.coherent, h3.nodes, List.map_map]; rfl
  exact ⟨x, d', h1, h2, names_congr hcore, lab_congr hcore,
    fun ev Q σ => posterior_congr hcore ev Q σ⟩

/-- **C53 refuted** for the default name: every network whose name was never set comes back with the
name `None` instead of `""`. -/
theorem C53_unnamed_refuted (ft : FloatText) (iw ip : Bool) {d : NetDoc} (hc : d.net.Coherent)
    (hk : d.Chance) (hs : d.Storable) (hn : d.name = NetDoc.new.name) :
    ∃ x d', XMLBIF.write ft iw d = .ok x ∧ XMLBIF.parse ft ip x.load = .ok d' ∧
      d'.name = none ∧ d'.name ≠ d.name := by
  obtain ⟨x, d', h1, h2, h3⟩ := XMLBIF.round_trip ft iw ip hc hk hs
  have : d'.name = none := by rw [h3.name, hn]; rfl
  exact ⟨x, d', h1, h2, this, by rw [this, hn]; simp [NetDoc.new]⟩

/-- **C53 refuted** for empty properties: they come back as `None`. -/
theorem C53_empty_property_refuted (ft : FloatText) {d : NetDoc} (hc : d.net.Coherent)
    (hk : d.Chance) (hs : d.Storable) (hi : some "" ∈ d.info) :
    ∃ x d', XMLBIF.write ft false d = .ok x ∧ XMLBIF.parse ft false x.load = .ok d' ∧
      d'.info ≠ d.info := by
  obtain ⟨x, d', h1, h2, h3⟩ := XMLBIF.round_trip ft false false hc hk hs
  refine ⟨x, d', h1, h2, fun h => ?_⟩
  rw [← h, h3.info] at hi
  change _ ∈ d.info.map blank at hi
  obtain ⟨t, _, ht⟩ := List.mem_map.1 hi
  unfold blank at ht
  split at ht
  · cases ht
  · rename_i h0; exact h0 ht

/-- **C53 refuted** for a node without outcomes (`DiscreteNode("a", [])`): it is written, with the
single number of its zero-dimensional table, and then rejected by `parse`. -/
theorem C53_no_outcomes_refuted (ft : FloatText) (iw ip : Bool) :
    ∃ d x, d.net.Coherent ∧ XMLBIF.write ft iw d = .ok x ∧
      XMLBIF.parse ft ip x.load = .error .valueError := by
  have hok : ∀ p ∈ Ex.hollow.net.gnode, (Ex.hollow.net.heap p.2).kind ≠ .utility ∧
      XMLBIF.RecOk (XMLBIF.recOf Ex.hollow p.2) := by
    intro p hp
    have : p = ("a", 0) := by
      have h : Ex.hollow.net.gnode = [("a", 0)] := by decide +kernel
      rw [h] at hp; simpa using hp
    subst this
    refine ⟨by decide +kernel, ?_⟩
    have : XMLBIF.recOf Ex.hollow 0 = Ex.hollowRec := by decide +kernel
    simp only [this]
    refine ⟨⟨by decide, fun c hc => ?_⟩, by simp [Ex.hollowRec], by simp [Ex.hollowRec],
      by simp [Ex.hollowRec]⟩
    exact okText_iff.1 (by decide) c hc
  have hnodes : Ex.hollow.nodes = [Ex.hollowRec] := by decide +kernel
  have hw := XMLBIF.write_ok ft iw (d := Ex.hollow) (by simp [Ex.hollow, XmlText])
    (by simp [Ex.hollow]) hok
  rw [hnodes] at hw
  refine ⟨Ex.hollow, _, Ex.hollow_coherent, hw, ?_⟩
  have hflat : Ex.hollowRec.cpd.flattenF = [0] := by decide +kernel
  have hne : XMLBIF.tableText ft Ex.hollowRec.cpd ≠ "" :=
    XMLBIF.tableText_ne ft (by rw [hflat]; simp)
  have hrec : XMLBIF.RecOk Ex.hollowRec := by
    have := (hok ("a", 0) (by decide +kernel)).2
    have e : XMLBIF.recOf Ex.hollow 0 = Ex.hollowRec := by decide +kernel
    simpa only [e] using this
  rw [XMLBIF.load_docOf fun r hr => by rw [List.mem_singleton.1 hr]; exact ⟨hrec, hne⟩]
  unfold XMLBIF.parse
  rw [XMLBIF.findBelow_docOf, (XMLBIF.iter_docOf ..).1, (XMLBIF.iter_docOf ..).2]
  have hb : [Ex.hollowRec].map XMLBIF.blankRec = [Ex.hollowRec] := by decide +kernel
  rw [hb, show XMLBIF.textOf (some (el "NAME" (blank Ex.hollow.name) [])) = .ok none from rfl]
  simp only [ok_bind]
  generalize hinfo : (if ip = true then [] else _ : List (Option String)) = info
  obtain ⟨d', e1, hd, _, _⟩ := XMLBIF.parseVars (ignore := ip) (iw := iw) [Ex.hollowRec] []
    (d := { NetDoc.new with name := none, info }) ⟨Net.Inv.empty, rfl, rfl, by simp, by simp, fun _ _ => rfl⟩
    (by decide +kernel)
  rw [e1, ok_bind, List.map_singleton, List.foldlM_cons]
  rw [List.nil_append] at hd
  have hheap := hd.heap 0 _ rfl
  have hget : d'.net.getNode "a" = .ok 0 := by
    rw [Net.getNode_ok, hd.lookup]; decide +kernel
  have hnl : Ex.hollowRec.cpd.flattenF ≠ [] := by rw [hflat]; simp
  rw [XMLBIF.parseDef_hollow hget hheap rfl hnl]
  rfl

/-- **C53 refuted** for utility nodes: they have no `values`. -/
theorem C53_utility_refuted (ft : FloatText) (iw : Bool) : ∃ d : NetDoc, d.net.Coherent ∧ d.Storable ∧
    XMLBIF.write ft iw d = .error .attributeError := by
  refine ⟨⟨Net.run [.create .utility "u" [], .addNode 0] Net.empty, some "n", [], fun _ => []⟩,
    (Net.Inv.empty.run (Net.goodRun_of_check (by decide +kernel))).coherent,
    Ex.storable_of_check (by decide +kernel), ?_⟩
  cases iw <;> rfl

/-- **C53 refuted** for text that XML cannot hold: `write` raises. -/
theorem C53_control_character_refuted (ft : FloatText) (iw : Bool) :
    ∃ d : NetDoc, d.net.Coherent ∧ d.Chance ∧ XMLBIF.write ft iw d = .error .valueError := by
  refine ⟨⟨Net.run [.create .discrete "a\x01" ["t", "f"], .addNode 0] Net.empty, some "n", [],
    fun _ => []⟩, (Net.Inv.empty.run (Net.goodRun_of_check (by decide +kernel))).coherent,
    Ex.chance_of_check (by decide +kernel), ?_⟩
  cases iw <;> rfl

/-! ## C54 -/

/-- **C54** The written document has a `DEFINITION` for each node.  Its `GIVEN` elements are the
parents in reverse order, and its `TABLE` has one number for each combination of outcomes: the entry
for the combination `σ` stands at the position where the node's own outcome varies fastest, then the
last `GIVEN`, …, the first `GIVEN` slowest. -/
theorem C54_write (ft : FloatText) (iw : Bool) {d : NetDoc} (hc : d.net.Coherent) (hk : d.Chance)
    (hs : d.Storable) : ∃ x, XMLBIF.write ft iw d = .ok x ∧
      ∀ k i, d.net.getNode k = .ok i → ∃ (e : Xml) (f : Xml) (t : Xml) (gs : List Name)
        (toks : List String),
        e ∈ x.iter "DEFINITION" ∧ e.find "FOR" = some f ∧ f.text = some k ∧
        e.given = gs.map some ∧ (d.net.heap i).parentOrder = gs.reverse ∧
        e.find "TABLE" = some t ∧ t.text = some (String.intercalate " " toks) ∧
        toks.length = ((k :: gs.reverse).map fun v => (d.net.labels v).length).prod ∧
        ∀ σ : Assign, (∀ v ∈ k :: gs, σ v < (d.net.labels v).length) →
          toks[tablePos ((k :: gs.reverse).map fun v => (d.net.labels v).length)
            ((k :: gs.reverse).map σ)]? =
          some (ft.str ((d.net.heap i).cpd.get (σ k :: (d.net.heap i).parentOrder.map σ))) := by
  refine ⟨_, XMLBIF.write_eq ft iw hc hk hs, fun k i hi => ?_⟩
  obtain ⟨h1, h2, h3⟩ := XMLBIF.find_defEl ft (XMLBIF.recOf d i)
  have hshape : (d.net.heap i).cpd.shape =
      (k :: (d.net.heap i).parentOrder).map fun v => (d.net.labels v).length := by
    have hl : d.net.labels k = (d.net.heap i).values := by
      unfold Net.labels; rw [Net.getNode_ok.1 hi]
    rw [hc.shape k i hi, if_neg (hk k i hi).2, List.map_cons, hl]; rfl
  refine ⟨_, _, _, (d.net.heap i).parentOrder.reverse, (d.net.heap i).cpd.flattenF.map ft.str, ?_, h1,
    congrArg some (hc.name k i hi), ?_, by simp, h3, rfl, ?_, fun σ hσ => ?_⟩
  · rw [(XMLBIF.iter_docOf ft iw d.name d.info d.nodes).2]
    exact List.mem_map_of_mem ((XMLBIF.mem_nodes hc).2 ⟨k, i, hi, rfl⟩)
  · unfold Xml.given
    rw [h2, List.map_map]; rfl
  · rw [List.length_map, NDArray.length_flattenF, hshape, List.reverse_reverse]
  · rw [List.reverse_reverse, List.getElem?_map, ← hshape]
    have hr : InRange (d.net.heap i).cpd.shape ((k :: (d.net.heap i).parentOrder).map σ) := by
      rw [hshape, inRange_map]
      intro v hv
      exact hσ v (by simpa using hv)
    rw [NDArray.flattenF_tablePos _ hr]; rfl

/-- **C54** `parse` reads tables the same way: in any accepted document with one definition per
variable, the parents of a node are its `GIVEN` variables in reverse order, and the entry for the
combination `σ` is the number at the position where the node's own outcome varies fastest, then the
last `GIVEN`, …, the first `GIVEN` slowest. -/
theorem C54_read (ft : FloatText) (ip : Bool) {root : Xml} {d : NetDoc}
    (h : XMLBIF.parse ft ip root = .ok d)
    (hnd : ((root.iter "DEFINITION").map fun x => (x.find "FOR").bind text).Nodup) :
    ∀ e ∈ root.iter "DEFINITION", ∃ (f : Xml) (t : Xml) (s : String) (k : Name) (i : Nat)
      (gs : List Name),
      e.find "FOR" = some f ∧ f.text = some k ∧ d.net.getNode k = .ok i ∧
      e.given = gs.map some ∧ (d.net.heap i).parentOrder = gs.reverse ∧
      e.find "TABLE" = some t ∧ t.text = some s ∧
      ∀ toks : List String, toks ≠ [] → (∀ w ∈ toks, w ≠ "" ∧ ∀ c ∈ w.toList, pySpace c = false) →
        s = String.intercalate " " toks →
        toks.length = ((k :: gs.reverse).map fun v => (d.net.labels v).length).prod ∧
        ∀ σ : Assign, (∀ v ∈ k :: gs, σ v < (d.net.labels v).length) →
          ∃ w, toks[tablePos ((k :: gs.reverse).map fun v => (d.net.labels v).length)
            ((k :: gs.reverse).map σ)]? = some w ∧
          ft.float w = .ok ((d.net.heap i).cpd.get (σ k :: (d.net.heap i).parentOrder.map σ)) := by
  intro e he
  obtain ⟨f, k, i, gs, l, h1, h2, h3, h4, ⟨t, s, h5, h6, h7⟩, h8, h9⟩ := XMLBIF.parse_any h hnd e he
  refine ⟨f, t, s, k, i, gs, h1, h2, Net.getNode_ok.2 h3, h4, h8, h5, h6, ?_⟩
  intro toks hne htok hs
  have hsolid : ∀ w ∈ toks, Solid w.toList := by
    intro w hw
    refine ⟨?_, (htok w hw).2⟩
    intro h0
    exact (htok w hw).1 (by rw [← String.toList_inj, h0]; rfl)
  subst hs
  rw [pyStrip_join hsolid, pySplit_join hne hsolid, mapM_eq_ok] at h7
  obtain ⟨hl, hshape, hget⟩ := NDArray.reshapeF_ok h9
  have hlk : d.net.labels k = (d.net.heap i).values := by unfold Net.labels; rw [h3]
  have hsh : ((d.net.heap i).values.length :: gs.reverse.map fun p => (d.net.labels p).length) =
      (k :: gs.reverse).map fun v => (d.net.labels v).length := by
    rw [List.map_cons, hlk]
  rw [hsh] at hl hshape hget
  refine ⟨by rw [h7.length_eq, hl], fun σ hσ => ?_⟩
  have hr : InRange ((k :: gs.reverse).map fun v => (d.net.labels v).length)
      ((k :: gs.reverse).map σ) := by
    rw [inRange_map]
    intro v hv
    exact hσ v (by simpa using hv)
  have hlt : tablePos ((k :: gs.reverse).map fun v => (d.net.labels v).length)
      ((k :: gs.reverse).map σ) < l.length := by
    rw [hl, ← NDArray.ravel_reverse hr.length_eq, ← List.prod_reverse]
    exact NDArray.ravel_lt (NDArray.inRange_reverse hr)
  refine ⟨toks[_]'(by rw [h7.length_eq]; exact hlt), List.getElem?_eq_getElem _, ?_⟩
  have := (List.forall₂_iff_get.1 h7).2 _ (by rw [h7.length_eq]; exact hlt) hlt
  rw [List.get_eq_getElem, List.get_eq_getElem] at this
  rw [this, h8]
  have hg := hget _ hr
  rw [List.map_cons] at hg
  rw [hg, List.getD_eq_getElem?_getD, List.getElem?_eq_getElem (by exact hlt)]
  rfl

/-! ## C55 -/

/-- **C55** If `path` is empty or ends with a slash and `name` has none, and the transitions are
given by name, then `DBNSpec.parse(path + name + '.conf')` after `DBNSpec.write(dbn, path, name)`
gives back both networks (in the sense of C53) and the transitions, whatever files existed before.
(Partial: the full claim is for all paths and names; see the refutations.) -/
theorem C55_round_trip_partial (ft : FloatText) (iw ip : Bool) {d : DynDoc}
    (hc0 : d.b0.net.Coherent) (hk0 : d.b0.Chance) (hs0 : d.b0.Storable)
    (hc1 : d.twoTbn.net.Coherent) (hk1 : d.twoTbn.Chance) (hs1 : d.twoTbn.Storable)
    (ht : d.TransitionsOk) {cwd : List String} (hcwd : NormalDir cwd) {path name : String}
    (hp : FolderPrefix path) (hn : PlainName name) (fs : FileSys) :
    ∃ fs' d', DBNSpec.write ft iw d cwd path name fs = (fs', none) ∧
      DBNSpec.parse ft ip fs' cwd (path ++ name ++ ".conf") = .ok d' ∧
      d.b0.Back (!(iw || ip)) d'.b0 ∧ d.twoTbn.Back (!(iw || ip)) d'.twoTbn ∧
      d'.transitions = d.transitions :=
  DBNSpec.round_trip hc0 hk0 hs0 hc1 hk1 hs1 ht hcwd hp hn fs

/-- **C55 refuted** for every other path, that is a `path` without the final slash: the
specification names files that do not exist, and `parse` raises. -/
theorem C55_no_slash_refuted (ft : FloatText) (iw ip : Bool) {d : DynDoc}
    (hc0 : d.b0.net.Coherent) (hk0 : d.b0.Chance) (hs0 : d.b0.Storable)
    (hc1 : d.twoTbn.net.Coherent) (hk1 : d.twoTbn.Chance) (hs1 : d.twoTbn.Storable)
    (ht : d.TransitionsOk) {cwd : List String} (hcwd : NormalDir cwd) {path name : String}
    (hp : ¬ FolderPrefix path) (hn : PlainName name) :
    ∃ fs', DBNSpec.write ft iw d cwd path name (fun _ => none) = (fs', none) ∧
      DBNSpec.parse ft ip fs' cwd (path ++ name ++ ".conf") = .error .osError := by
  obtain ⟨fs', dir, _, h1, h2⟩ := DBNSpec.misnamed (ft := ft) (iw := iw) (ip := ip) hc0 hk0 hs0 hc1
    hk1 hs1 ht hcwd hp hn (fun _ => none)
  exact ⟨fs', h1, h2⟩

/-- **C55 refuted** silently: if another dynamic network with the same name had been written to the
same folder, `parse` gives back the networks of that one, with the transitions of the new one. -/
theorem C55_other_networks_refuted (ft : FloatText) (iw ip : Bool) {d e : DynDoc}
    (hc0 : d.b0.net.Coherent) (hk0 : d.b0.Chance) (hs0 : d.b0.Storable)
    (hc1 : d.twoTbn.net.Coherent) (hk1 : d.twoTbn.Chance) (hs1 : d.twoTbn.Storable)
    (ht : d.TransitionsOk) (ec0 : e.b0.net.Coherent) (ek0 : e.b0.Chance) (es0 : e.b0.Storable)
    (ec1 : e.twoTbn.net.Coherent) (ek1 : e.twoTbn.Chance) (es1 : e.twoTbn.Storable)
    (et : e.TransitionsOk) (hte : DynDoc.TransitionsOk ⟨e.b0, e.twoTbn, d.transitions⟩)
    {cwd : List String} (hcwd : NormalDir cwd) {path name : String}
    (hp : path ≠ "") (hpl : PlainName path) (hn : PlainName name) (fs : FileSys) :
    ∃ fs1 fs2 d', DBNSpec.write ft iw e cwd "" name fs = (fs1, none) ∧
      DBNSpec.write ft iw d cwd path name fs1 = (fs2, none) ∧
      DBNSpec.parse ft ip fs2 cwd (path ++ name ++ ".conf") = .ok d' ∧
      e.b0.Back (!(iw || ip)) d'.b0 ∧ e.twoTbn.Back (!(iw || ip)) d'.twoTbn ∧
      d'.transitions = d.transitions := 
  DBNSpec.other_networks hc0 hk0 hs0 hc1 hk1 hs1 ht ec0 ek0 es0 ec1 ek1 es1 et hte hcwd hp hpl hn fs

/-- **C55 refuted** for a name with a folder in it: `parse` looks for the networks in the folder
`a/a`. -/
theorem C55_folder_in_name_refuted (ft : FloatText) (iw ip : Bool) {d : DynDoc}
    (hc0 : d.b0.net.Coherent) (hk0 : d.b0.Chance) (hs0 : d.b0.Storable)
    (hc1 : d.twoTbn.net.Coherent) (hk1 : d.twoTbn.Chance) (hs1 : d.twoTbn.Storable)
    (ht : d.TransitionsOk) {cwd : List String} (hcwd : NormalDir cwd) (path : String)
    {a x : String} (ha : NormalDir [a]) (hx : PlainName x) :
    ∃ fs', DBNSpec.write ft iw d cwd path (a ++ "/" ++ x) (fun _ => none) = (fs', none) ∧
      DBNSpec.parse ft ip fs' cwd (path ++ (a ++ "/" ++ x) ++ ".conf") = .error .osError :=
  DBNSpec.subfolder hc0 hk0 hs0 hc1 hk1 hs1 ht hcwd (ha a (by simp)) hx

/-- **C55 refuted** for transitions given by node objects, which `add_transition` accepts: `write`
raises `TypeError` and leaves a broken specification behind. -/
theorem C55_node_objects_refuted (ft : FloatText) (iw ip : Bool) {d : DynDoc}
    (hc0 : d.b0.net.Coherent) (hk0 : d.b0.Chance) (hs0 : d.b0.Storable)
    (hc1 : d.twoTbn.net.Coherent) (hk1 : d.twoTbn.Chance) (hs1 : d.twoTbn.Storable)
    (ht : ∃ t ∈ d.transitions, ∃ n, t.1 = .obj n ∨ t.2 = .obj n) (cwd : List String)
    (path name : String) (fs : FileSys) :
    ∃ fs', DBNSpec.write ft iw d cwd path name fs = (fs', some .typeError) ∧
      DBNSpec.parse ft ip fs' cwd (path ++ name ++ ".conf") = .error .syntaxError :=
  DBNSpec.objects hc0 hk0 hs0 hc1 hk1 hs1 ht cwd path name fs

/-! ## non-vacuity -/

section examples
open Ex

example := C53_round_trip_partial unary false true doc_coherent doc_chance doc_storable
example := C53_posterior_partial unary false false doc_coherent doc_chance doc_storable

example := C53_exact_partial unary doc_coherent doc_chance doc_storable (by decide +kernel)
  (by decide +kernel) (by decide +kernel)

/-- the same network without a name -/
example := C53_unnamed_refuted unary false false (d := { doc with name := some "" })
  (by dsimp only; exact doc_coherent)
  (chance_of_check (by decide +kernel)) (storable_of_check (by decide +kernel)) rfl

example := C53_empty_property_refuted unary (d := { doc with info := [some ""] })
  (by dsimp only; exact doc_coherent)
  (chance_of_check (by decide +kernel)) (storable_of_check (by decide +kernel)) (by simp)

example := C54_write unary false doc_coherent doc_chance doc_storable

/-- `c` has 2 outcomes and the parents `b`, `a` with 3 and 2: the written table goes through the
outcomes of `c` first, then those of `b`, then those of `a`. -/
example : (doc.net.heap 2).parentOrder = ["b", "a"] ∧ (doc.net.heap 2).cpd.flattenF =
    [1, 0, 1 / 3, 2 / 3, 1 / 5, 4 / 5, 1 / 2, 1 / 2, 1 / 4, 3 / 4, 1 / 6, 5 / 6] := by decide +kernel

/-- what is written is accepted and has one definition per variable -/
example : ∃ root d, XMLBIF.parse unary false root = .ok d ∧ root.iter "DEFINITION" ≠ [] ∧
    ((root.iter "DEFINITION").map fun x => (x.find "FOR").bind text).Nodup := by
  have hs : ∀ r ∈ doc.nodes, XMLBIF.RecOk r ∧ XMLBIF.tableText unary r.cpd ≠ "" := fun r hr =>
    ⟨XMLBIF.recOk doc_coherent doc_storable hr, XMLBIF.tableText_ne _
      (XMLBIF.flattenF_ne_nil (XMLBIF.recsOk doc_coherent doc_chance) hr)⟩
  obtain ⟨x, d, h1, h2, _⟩ := C53_round_trip_partial unary false false doc_coherent doc_chance
    doc_storable
  rw [XMLBIF.write_eq unary false doc_coherent doc_chance doc_storable] at h1
  cases h1
  refine ⟨_, d, h2, ?_⟩
  rw [XMLBIF.load_docOf hs, (XMLBIF.iter_docOf ..).2]
  have hf : ∀ rs : List NodeRec, (rs.map (XMLBIF.defEl unary)).map
      (fun x : Xml => (x.find "FOR").bind text) = rs.map fun r => some r.name := by
    intro rs
    rw [List.map_map]
    refine List.map_congr_left fun r _ => ?_
    show ((XMLBIF.defEl unary r).find "FOR").bind text = _
    rw [(XMLBIF.find_defEl unary r).1]; rfl
  rw [hf]
  refine ⟨?_, by decide +kernel⟩
  rw [Ne, List.map_eq_nil_iff]
  exact (by decide +kernel)

theorem Ex.work : NormalDir ["home", "me"] := by
  intro c hc
  simp only [List.mem_cons, List.not_mem_nil, or_false] at hc
  rcases hc with rfl | rfl <;> decide

example (fs : FileSys) := C55_round_trip_partial unary false false (d := dynDoc) doc_coherent doc_chance
  doc_storable doc_coherent doc_chance doc_storable dynDoc_transitions work (path := "nets/") (name := "n")
  (.inr ⟨"nets", rfl⟩) (by unfold PlainName; decide) fs

example := C55_no_slash_refuted unary false false (d := dynDoc) doc_coherent doc_chance
  doc_storable doc_coherent doc_chance doc_storable dynDoc_transitions work (path := "nets") (name := "n")
  (by
    rintro (h | ⟨q, h⟩)
    · exact absurd h (by decide)
    · have := congrArg (fun s => s.toList.getLast?) h
      simp [String.toList_append] at this)
  (by unfold PlainName; decide)

example (fs : FileSys) := C55_other_networks_refuted unary false false (d := dynDoc) (e := dynDoc)
  doc_coherent doc_chance doc_storable doc_coherent doc_chance doc_storable dynDoc_transitions
  doc_coherent doc_chance doc_storable doc_coherent doc_chance doc_storable dynDoc_transitions
  dynDoc_transitions work (path := "nets") (name := "n") (by decide) (by unfold PlainName; decide)
  (by unfold PlainName; decide) fs

example := C55_folder_in_name_refuted unary false false (d := dynDoc) doc_coherent doc_chance
  doc_storable doc_coherent doc_chance doc_storable dynDoc_transitions work "" (a := "nets") (x := "n")
  (by intro c hc; rw [List.mem_singleton.1 hc]; decide) (by unfold PlainName; decide)

example (fs : FileSys) := C55_node_objects_refuted unary false false
  (d := { dynDoc with transitions := [(.obj "c", .str "a")] }) doc_coherent doc_chance
  doc_storable doc_coherent doc_chance doc_storable ⟨_, List.mem_singleton.2 rfl, "c", .inl rfl⟩
  ["home"] "nets" "n" fs

end examples

end Primo
