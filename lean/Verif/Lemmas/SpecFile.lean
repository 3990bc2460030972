import Verif.Lemmas.Path
import Verif.Lemmas.RoundTrip
import Verif.Lemmas.NetView

/-!
# The three files of a dynamic network
-/

namespace Primo
namespace DBNSpec
open Path

theorem literal_suffix {b name suf : String} (hb : '/' ∉ b.toList) (hn : PlainName name)
    (hs : '/' ∉ suf.toList) (hl : 2 < suf.toList.length) : Literal (b ++ (name ++ suf)) := by
  have key : ∀ c : String, c.toList.length ≤ 2 → b ++ (name ++ suf) ≠ c := by
    intro c hc h0
    have := congrArg (fun s => s.toList.length) h0
    simp only [String.toList_append, List.length_append] at this
    omega
  refine ⟨key _ (by decide), key _ (by decide), key _ (by decide), ?_⟩
  simp only [String.toList_append, List.mem_append]
  rintro (h | h | h)
  exacts [hb h, hn h, hs h]

/-- where `DBNSpec.write` puts a file -/
theorem resolve_written {cwd : List String} (hcwd : NormalDir cwd) {path b : String}
    (hb : '/' ∉ b.toList) (hp : path = b ∨ ∃ q, path = q ++ "/" ++ b) :
    ∃ dir, NormalDir dir ∧ ∀ name suf, PlainName name → '/' ∉ suf.toList → 2 < suf.toList.length →
      resolve cwd (path ++ name ++ suf) = dir ++ [b ++ (name ++ suf)] := by
  obtain ⟨dir, hd, h⟩ := resolve_file hcwd hb hp
  refine ⟨dir, hd, fun name suf hn hs hl => ?_⟩
  rw [String.append_assoc, h _ (literal_suffix hb hn hs hl)]

theorem isAbs_name {name suf : String} (hn : PlainName name) (hs : '/' ∉ suf.toList) :
    isAbs (name ++ suf) = false := by
  unfold isAbs
  simp only [decide_eq_false_iff_not]
  intro h
  have := List.mem_of_mem_head? h
  rw [String.toList_append, List.mem_append] at this
  rcases this with h | h
  exacts [hn h, hs h]

/-- without a slash in `path`, files are put in the working directory -/
theorem resolve_here {cwd : List String} {path name suf : String} (hp : PlainName path)
    (hn : PlainName name) (hs : '/' ∉ suf.toList) (hl : 2 < suf.toList.length) :
    resolve cwd (path ++ name ++ suf) = cwd ++ [path ++ (name ++ suf)] := by
  have h := literal_suffix hp hn hs hl
  have habs : isAbs (path ++ name ++ suf) = false := by
    rw [String.append_assoc]
    unfold isAbs
    simp only [decide_eq_false_iff_not]
    intro h0
    exact h.2.2.2 (List.mem_of_mem_head? h0)
  unfold resolve
  rw [habs, String.append_assoc, pySplit_plain h.2.2.2]
  exact walk_literal h

/-- where `DBNSpec.parse` looks for a network named in a specification in folder `dir` -/
theorem resolve_read {cwd dir : List String} (hd : NormalDir dir) {path b name suf : String}
    (hb : '/' ∉ b.toList) (hn : PlainName name) (hs : '/' ∉ suf.toList) (hl : 2 < suf.toList.length)
    (hconf : resolve cwd (path ++ name ++ ".conf") = dir ++ [b ++ (name ++ ".conf")]) :
    resolve cwd (refPath (dirname (abspath cwd (path ++ name ++ ".conf"))) (name ++ suf)) =
      dir ++ [name ++ suf] := by
  have hc := literal_suffix hb hn (suf := ".conf") (by decide) (by decide)
  have hlit := literal_suffix (b := "") (by decide) hn hs hl
  rw [String.empty_append] at hlit
  have h1 : abspath cwd (path ++ name ++ ".conf") = absPath (dir ++ [b ++ (name ++ ".conf")]) := by
    rw [abspath, hconf]; rfl
  rw [h1, dirname_absPath hd hc.2.2.2, resolve_ref hd (isAbs_name hn hs),
    pySplit_plain hlit.2.2.2]
  exact walk_literal hlit

/-- a specification file that can be written -/
theorem jsonTransitions_ok {ts : List (TNode × TNode)}
    (h : ∀ t ∈ ts, ∃ a b, t = (TNode.str a, TNode.str b)) :
    jsonTransitions ts = .ok (ts.map fun t => (t.1.name, t.2.name)) := by
  unfold jsonTransitions
  refine mapM_ok fun t ht => ?_
  obtain ⟨a, b, rfl⟩ := h t ht
  rfl

/-- the files after a successful `DBNSpec.write` -/
theorem write_ok {ft : FloatText} {ignore : Bool} {d : DynDoc} {cwd : List String}
    {path name : String} {fs : FileSys} {x1 x2 : Xml} {ts : List (Name × Name)}
    (h1 : XMLBIF.write ft ignore d.b0 = .ok x1) (h2 : XMLBIF.write ft ignore d.twoTbn = .ok x2)
    (h3 : jsonTransitions d.transitions = .ok ts) :
    DBNSpec.write ft ignore d cwd path name fs =
      (Function.update (Function.update (Function.update fs
        (resolve cwd (path ++ name ++ "-b0.xbif")) (some (.xml x1)))
        (resolve cwd (path ++ name ++ "-2tbn.xbif")) (some (.xml x2)))
        (resolve cwd (path ++ name ++ ".conf"))
        (some (.conf ⟨name ++ "-b0.xbif", name ++ "-2tbn.xbif", ts⟩)), none) := by
  unfold DBNSpec.write writeNet writeConf
  simp only [h1, h2, h3]

theorem append_left_inj' {a b c : String} : a ++ b = a ++ c ↔ b = c := by
  rw [← String.toList_inj, ← String.toList_inj, String.toList_append, String.toList_append,
    List.append_cancel_left_eq]

/-- transitions that fit the networks are accepted -/
theorem addTransitions_ok : ∀ {ts : List (Name × Name)} {d : DBN},
    (∀ t ∈ ts, t.2 ∈ d.b0.names ∧ t.2 ∈ d.twoTbn.names ∧ t.1 ∈ d.twoTbn.names) →
    (DBN.addTransitions d ts).2 = none
  | [], d, _ => rfl
  | t :: ts, d, h => by
    obtain ⟨h1, h2, h3⟩ := h t (by simp)
    have e : d.addTransition t.1 t.2 = ({ d with transitions := d.transitions ++ [(t.1, t.2)] }, none) := by
      unfold DBN.addTransition
      rw [if_neg (by simpa using h1), if_neg (by simpa using h2), if_neg (by simpa using h3)]
    rw [DBN.addTransitions, e]
    exact addTransitions_ok fun u hu => h u (List.mem_cons_of_mem _ hu)

theorem view_names' {s : Net} (h : s.Coherent) : s.view.names = s.lookup.keys := by
  unfold Net.view BN.names Dict.keys
  rw [List.map_map]
  refine List.map_congr_left fun p hp => ?_
  exact h.name p.1 p.2 (Net.getNode_ok.2 (Dict.get?_of_mem h.nodup hp))

theorem Back.keys {keep : Bool} {d d' : NetDoc} (hc : d.net.Coherent) (h : d.Back keep d') :
    d'.net.lookup.keys = d.net.lookup.keys := by
  rw [← XMLBIF.nodes_names hc, ← XMLBIF.nodes_names h.coherent, h.nodes, List.map_map]
  rfl

theorem addTransitions_back {keep : Bool} {d : DynDoc} {b0' b1' : NetDoc} (hc0 : d.b0.net.Coherent)
    (hc1 : d.twoTbn.net.Coherent) (k1 : d.b0.Back keep b0') (k2 : d.twoTbn.Back keep b1')
    (ht : d.TransitionsOk) :
    addTransitions ⟨b0', b1', []⟩ (d.transitions.map fun t => (t.1.name, t.2.name)) =
      .ok ⟨b0', b1', d.transitions⟩ := by
  unfold addTransitions
  rw [addTransitions_ok]
  · simp only [List.nil_append, List.map_map]
    congr 2
    conv_rhs => rw [← List.map_id d.transitions]
    refine List.map_congr_left fun t h => ?_
    obtain ⟨a, b, rfl, _⟩ := ht t h
    rfl
  · intro t h
    obtain ⟨u, hu, rfl⟩ := List.mem_map.1 h
    obtain ⟨a, b, rfl, h1, h2, h3⟩ := ht u hu
    simp only
    rw [view_names' k1.coherent, view_names' k2.coherent, Back.keys hc0 k1, Back.keys hc1 k2]
    exact ⟨h1, h2, h3⟩

theorem round_trip {ft : FloatText} {iw ip : Bool} {d : DynDoc} (hc0 : d.b0.net.Coherent)
    (hk0 : d.b0.Chance) (hs0 : d.b0.Storable) (hc1 : d.twoTbn.net.Coherent)
    (hk1 : d.twoTbn.Chance) (hs1 : d.twoTbn.Storable) (ht : d.TransitionsOk) {cwd : List String}
    (hcwd : NormalDir cwd) {path name : String} (hp : FolderPrefix path) (hn : PlainName name)
    (fs : FileSys) : ∃ fs' d', DBNSpec.write ft iw d cwd path name fs = (fs', none) ∧
      DBNSpec.parse ft ip fs' cwd (path ++ name ++ ".conf") = .ok d' ∧
      d.b0.Back (!(iw || ip)) d'.b0 ∧ d.twoTbn.Back (!(iw || ip)) d'.twoTbn ∧
      d'.transitions = d.transitions := by
  obtain ⟨x1, b0', w1, p1, k1⟩ := XMLBIF.round_trip ft iw ip hc0 hk0 hs0
  obtain ⟨x2, b1', w2, p2, k2⟩ := XMLBIF.round_trip ft iw ip hc1 hk1 hs1
  have hj := jsonTransitions_ok (ts := d.transitions) fun t h => by
    obtain ⟨a, b, e, _⟩ := ht t h
    exact ⟨a, b, e⟩
  have hp' : path = "" ∨ ∃ q, path = q ++ "/" ++ "" := by
    rcases hp with h | ⟨q, h⟩
    · exact .inl h
    · exact .inr ⟨q, by rw [h, String.append_empty]⟩
  obtain ⟨dir, hd, hres⟩ := resolve_written hcwd (b := "") (by decide) hp'
  have r1 := hres name "-b0.xbif" hn (by decide) (by decide)
  have r2 := hres name "-2tbn.xbif" hn (by decide) (by decide)
  have r3 := hres name ".conf" hn (by decide) (by decide)
  have q1 := resolve_read (cwd := cwd) hd (b := "") (by decide) hn (suf := "-b0.xbif") (by decide)
    (by decide) r3
  have q2 := resolve_read (cwd := cwd) hd (b := "") (by decide) hn (suf := "-2tbn.xbif") (by decide)
    (by decide) r3
  have hne : ∀ s t : String, s ≠ t → dir ++ [name ++ s] ≠ dir ++ [name ++ t] := by
    intro s t hst h0
    rw [List.append_cancel_left_eq, List.cons.injEq, append_left_inj'] at h0
    exact hst h0.1
  simp only [String.empty_append] at r1 r2 r3
  rw [write_ok w1 w2 hj, r1, r2, r3]
  refine ⟨_, ⟨b0', b1', d.transitions⟩, rfl, ?_, k1, k2, rfl⟩
  unfold DBNSpec.parse readFile
  rw [r3, Function.update_self]
  simp only [ok_bind]
  unfold readNet readFile
  rw [q1, q2, Function.update_of_ne (hne _ _ (by decide)), Function.update_of_ne (hne _ _ (by decide)),
    Function.update_self, Function.update_of_ne (hne _ _ (by decide)), Function.update_self]
  simp only [ok_bind, p1, p2]
  exact addTransitions_back hc0 hc1 k1 k2 ht

/-- If `path` lacks the final slash, `parse` looks for the networks under other names. -/
theorem misnamed {ft : FloatText} {iw ip : Bool} {d : DynDoc} (hc0 : d.b0.net.Coherent)
    (hk0 : d.b0.Chance) (hs0 : d.b0.Storable) (hc1 : d.twoTbn.net.Coherent)
    (hk1 : d.twoTbn.Chance) (hs1 : d.twoTbn.Storable) (ht : d.TransitionsOk) {cwd : List String}
    (hcwd : NormalDir cwd) {path name : String} (hp : ¬ FolderPrefix path) (hn : PlainName name)
    (fs : FileSys) : ∃ fs' dir, (PlainName path → dir = cwd) ∧
      DBNSpec.write ft iw d cwd path name fs = (fs', none) ∧
      DBNSpec.parse ft ip fs' cwd (path ++ name ++ ".conf") =
        (match fs (dir ++ [name ++ "-b0.xbif"]), fs (dir ++ [name ++ "-2tbn.xbif"]) with
        | some (.xml y1), some (.xml y2) => do
          let b0 ← XMLBIF.parse ft ip y1.load
          let tbn ← XMLBIF.parse ft ip y2.load
          addTransitions ⟨b0, tbn, []⟩ (d.transitions.map fun t => (t.1.name, t.2.name))
        | some (.xml y1), none => do
          let _ ← XMLBIF.parse ft ip y1.load
          .error .osError
        | some (.xml y1), some _ => do
          let _ ← XMLBIF.parse ft ip y1.load
          .error .syntaxError
        | none, _ => .error .osError
        | some _, _ => .error .syntaxError) := by
  obtain ⟨x1, b0', w1, p1, k1⟩ := XMLBIF.round_trip ft iw ip hc0 hk0 hs0
  obtain ⟨x2, b1', w2, p2, k2⟩ := XMLBIF.round_trip ft iw ip hc1 hk1 hs1
  have hj := jsonTransitions_ok (ts := d.transitions) fun t h => by
    obtain ⟨a, b, e, _⟩ := ht t h
    exact ⟨a, b, e⟩
  obtain ⟨b, hb, hpb⟩ := split_last path
  have hb0 : b.toList.length ≠ 0 := by
    intro h0
    have : b = "" := by rw [← String.toList_inj]; exact List.length_eq_zero_iff.1 h0
    subst this
    rcases hpb with h | ⟨q, h⟩
    · exact hp (.inl h)
    · exact hp (.inr ⟨q, by rw [h, String.append_empty]⟩)
  obtain ⟨dir, hd, hres⟩ := resolve_written hcwd hb hpb
  have r1 := hres name "-b0.xbif" hn (by decide) (by decide)
  have r2 := hres name "-2tbn.xbif" hn (by decide) (by decide)
  have r3 := hres name ".conf" hn (by decide) (by decide)
  have q1 := resolve_read (cwd := cwd) hd hb hn (suf := "-b0.xbif") (by decide) (by decide) r3
  have q2 := resolve_read (cwd := cwd) hd hb hn (suf := "-2tbn.xbif") (by decide) (by decide) r3
  -- a file written for one purpose is not looked up for another
  have hdiff : ∀ s t : String, (s.toList.length ≤ t.toList.length ∨
      (s.toList.drop (s.toList.length - 5) ≠ t.toList.drop (t.toList.length - 5) ∧
        5 ≤ s.toList.length ∧ 5 ≤ t.toList.length) ∨
      (s.toList.drop (s.toList.length - 6) ≠ t.toList.drop (t.toList.length - 6) ∧
        6 ≤ s.toList.length ∧ 6 ≤ t.toList.length)) →
      dir ++ [name ++ s] ≠ dir ++ [b ++ (name ++ t)] := by
    intro s t hst h0
    rw [List.append_cancel_left_eq, List.cons.injEq, ← String.toList_inj] at h0
    have h0 := h0.1
    have hlen := congrArg List.length h0
    simp only [String.toList_append, List.length_append] at hlen h0
    have hdrop : ∀ k, k ≤ s.toList.length → k ≤ t.toList.length →
        s.toList.drop (s.toList.length - k) = t.toList.drop (t.toList.length - k) := by
      intro k h1 h2
      have h3 := congrArg (fun l => l.drop (name.toList.length + s.toList.length - k)) h0
      rw [List.drop_append, List.drop_eq_nil_of_le (by omega), List.nil_append] at h3
      rw [show name.toList.length + s.toList.length - k - name.toList.length =
        s.toList.length - k by omega] at h3
      rw [h3, ← List.append_assoc, List.drop_append, List.drop_eq_nil_of_le (by simp; omega),
        List.nil_append]
      congr 1
      simp only [List.length_append]
      omega
    rcases hst with h1 | ⟨h1, h2, h3⟩ | ⟨h1, h2, h3⟩
    · omega
    · exact h1 (hdrop 5 h2 h3)
    · exact h1 (hdrop 6 h2 h3)
  refine ⟨_, dir, fun hpl => ?_, write_ok w1 w2 hj, ?_⟩
  · rcases hpb with rfl | ⟨q, rfl⟩
    · rw [resolve_here hpl hn (by decide) (by decide)] at r1
      exact (List.append_cancel_right r1).symm
    · exact absurd (by simp [String.toList_append]) hpl
  unfold DBNSpec.parse readFile
  rw [Function.update_self]
  simp only [ok_bind]
  unfold readNet readFile
  rw [q1, q2, r1, r2, r3, Function.update_of_ne (hdiff _ _ (by decide)),
    Function.update_of_ne (hdiff _ _ (by decide)), Function.update_of_ne (hdiff _ _ (by decide)),
    Function.update_of_ne (hdiff _ _ (by decide)), Function.update_of_ne (hdiff _ _ (by decide)),
    Function.update_of_ne (hdiff _ _ (by decide))]
  cases e1 : fs (dir ++ [name ++ "-b0.xbif"]) with
  | none => rfl
  | some f1 =>
    cases f1 with
    | xml y1 =>
      cases e2 : fs (dir ++ [name ++ "-2tbn.xbif"]) with
      | none => rfl
      | some f2 => cases f2 <;> simp only [ok_bind] <;> rfl
    | conf c => rfl
    | junk => rfl

/-- A name with a folder in it: `parse` looks for the networks one folder further down. -/
theorem subfolder {ft : FloatText} {iw ip : Bool} {d : DynDoc} (hc0 : d.b0.net.Coherent)
    (hk0 : d.b0.Chance) (hs0 : d.b0.Storable) (hc1 : d.twoTbn.net.Coherent)
    (hk1 : d.twoTbn.Chance) (hs1 : d.twoTbn.Storable) (ht : d.TransitionsOk) {cwd : List String}
    (hcwd : NormalDir cwd) {path a x : String} (ha : Literal a) (hx : PlainName x) :
    ∃ fs', DBNSpec.write ft iw d cwd path (a ++ "/" ++ x) (fun _ => none) = (fs', none) ∧
      DBNSpec.parse ft ip fs' cwd (path ++ (a ++ "/" ++ x) ++ ".conf") = .error .osError := by
  obtain ⟨x1, b0', w1, p1, k1⟩ := XMLBIF.round_trip ft iw ip hc0 hk0 hs0
  obtain ⟨x2, b1', w2, p2, k2⟩ := XMLBIF.round_trip ft iw ip hc1 hk1 hs1
  have hj := jsonTransitions_ok (ts := d.transitions) fun t h => by
    obtain ⟨a, b, e, _⟩ := ht t h
    exact ⟨a, b, e⟩
  obtain ⟨dir, hd, hres⟩ := resolve_written hcwd (b := "") (path := path ++ a ++ "/") (by simp)
    (.inr ⟨path ++ a, by rw [String.append_empty]⟩)
  have hpath : ∀ suf, path ++ (a ++ "/" ++ x) ++ suf = path ++ a ++ "/" ++ x ++ suf := by
    intro suf; simp only [String.append_assoc]
  have r1 := hres x "-b0.xbif" hx (by decide) (by decide)
  have r2 := hres x "-2tbn.xbif" hx (by decide) (by decide)
  have r3 := hres x ".conf" hx (by decide) (by decide)
  rw [← hpath, String.empty_append] at r1 r2 r3
  have q1 : resolve cwd (refPath (dirname (abspath cwd (path ++ (a ++ "/" ++ x) ++ ".conf")))
      ((a ++ "/" ++ x) ++ "-b0.xbif")) = dir ++ [a] ++ [x ++ "-b0.xbif"] := by
    have hc := literal_suffix (b := "") (by simp) hx (suf := ".conf") (by decide) (by decide)
    have hl := literal_suffix (b := "") (by simp) hx (suf := "-b0.xbif") (by decide) (by decide)
    rw [String.empty_append] at hc hl
    have h1 : abspath cwd (path ++ (a ++ "/" ++ x) ++ ".conf") = absPath (dir ++ [x ++ ".conf"]) := by
      unfold abspath absPath; rw [r3]
    have habs : isAbs (a ++ "/" ++ x ++ "-b0.xbif") = false := by
      unfold isAbs
      simp only [decide_eq_false_iff_not]
      intro h0
      cases hal : a.toList with
      | nil => exact ha.1 (by rw [← String.toList_inj, hal]; rfl)
      | cons c l =>
        simp only [String.toList_append, hal, List.cons_append, List.head?_cons,
          Option.some.injEq] at h0
        exact ha.2.2.2 (by rw [hal, h0]; simp)
    rw [h1, dirname_absPath hd hc.2.2.2, resolve_ref hd habs, String.append_assoc, slash_eq,
      pySplit_cons_sep, pySplit_plain ha.2.2.2, pySplit_plain hl.2.2.2, List.foldl_append,
      List.foldl_cons, List.foldl_nil, List.foldl_cons, List.foldl_nil, walk_literal ha,
      walk_literal hl]
  refine ⟨_, write_ok w1 w2 hj, ?_⟩
  have hne : ∀ f, dir ++ [a] ++ [x ++ "-b0.xbif"] ≠ dir ++ [f] := by
    intro f h0
    have := congrArg List.length h0
    simp at this
  unfold DBNSpec.parse readFile
  rw [Function.update_self]
  simp only [ok_bind]
  unfold readNet readFile
  rw [q1, r1, r2, r3, Function.update_of_ne (hne _), Function.update_of_ne (hne _),
    Function.update_of_ne (hne _)]
  rfl

/-- Transitions given by node objects: the networks are written, the specification is not. -/
theorem objects {ft : FloatText} {iw ip : Bool} {d : DynDoc} (hc0 : d.b0.net.Coherent)
    (hk0 : d.b0.Chance) (hs0 : d.b0.Storable) (hc1 : d.twoTbn.net.Coherent)
    (hk1 : d.twoTbn.Chance) (hs1 : d.twoTbn.Storable)
    (ht : ∃ t ∈ d.transitions, ∃ n, t.1 = .obj n ∨ t.2 = .obj n) (cwd : List String)
    (path name : String) (fs : FileSys) :
    ∃ fs', DBNSpec.write ft iw d cwd path name fs = (fs', some .typeError) ∧
      DBNSpec.parse ft ip fs' cwd (path ++ name ++ ".conf") = .error .syntaxError := by
  obtain ⟨x1, b0', w1, p1, k1⟩ := XMLBIF.round_trip ft iw ip hc0 hk0 hs0
  obtain ⟨x2, b1', w2, p2, k2⟩ := XMLBIF.round_trip ft iw ip hc1 hk1 hs1
  have hj : jsonTransitions d.transitions = .error .typeError := by
    unfold jsonTransitions
    refine mapM_error (fun t _ => ?_) ?_
    · obtain ⟨a, b⟩ := t
      cases a <;> cases b <;> first | exact .inr rfl | exact .inl ⟨_, rfl⟩
    · obtain ⟨⟨a, b⟩, ht, n, h⟩ := ht
      refine ⟨_, ht, ?_⟩
      rcases h with h | h
      · simp only at h; subst h; rfl
      · simp only at h; subst h; cases a <;> rfl
  refine ⟨Function.update (Function.update (Function.update fs
        (resolve cwd (path ++ name ++ "-b0.xbif")) (some (.xml x1)))
        (resolve cwd (path ++ name ++ "-2tbn.xbif")) (some (.xml x2)))
        (resolve cwd (path ++ name ++ ".conf")) (some .junk), ?_, ?_⟩
  · unfold DBNSpec.write writeNet writeConf
    rw [w1]
    simp only
    rw [w2]
    simp only
    rw [hj]
  · unfold DBNSpec.parse readFile
    rw [Function.update_self]
    rfl

/-- files of another dynamic network are taken for the missing ones -/
theorem other_networks {ft : FloatText} {iw ip : Bool} {d e : DynDoc}
    (hc0 : d.b0.net.Coherent) (hk0 : d.b0.Chance) (hs0 : d.b0.Storable)
    (hc1 : d.twoTbn.net.Coherent) (hk1 : d.twoTbn.Chance) (hs1 : d.twoTbn.Storable)
    (ht : d.TransitionsOk) (ec0 : e.b0.net.Coherent) (ek0 : e.b0.Chance) (es0 : e.b0.Storable)
    (ec1 : e.twoTbn.net.Coherent) (ek1 : e.twoTbn.Chance) (es1 : e.twoTbn.Storable)
    (et : e.TransitionsOk) (hte : DynDoc.TransitionsOk ⟨e.b0, e.twoTbn, d.transitions⟩)
    {cwd : List String} (hcwd : NormalDir cwd) {path name : String}
    (hp : path ≠ "") (hpl : PlainName path) (hn : PlainName name) (fs : FileSys) :
    ∃ fs1 fs2 d', DBNSpec.write ft iw e cwd "" name fs = (fs1, none) ∧
      DBNSpec.write ft iw d cwd path name fs1 = (fs2, none) ∧
      DBNSpec.parse ft ip fs2 cwd (path ++ name ++ ".conf") = .ok d' ∧
      e.b0.Back (!(iw || ip)) d'.b0 ∧ e.twoTbn.Back (!(iw || ip)) d'.twoTbn ∧
      d'.transitions = d.transitions := by
  obtain ⟨y1, c0, w1, p1, k1⟩ := XMLBIF.round_trip ft iw ip ec0 ek0 es0
  obtain ⟨y2, c1, w2, p2, k2⟩ := XMLBIF.round_trip ft iw ip ec1 ek1 es1
  have hj := jsonTransitions_ok (ts := e.transitions) fun t h => by
    obtain ⟨a, b, e, _⟩ := et t h
    exact ⟨a, b, e⟩
  have r1 := resolve_here (cwd := cwd) (path := "") (by simp [PlainName]) hn (suf := "-b0.xbif")
    (by decide) (by decide)
  have r2 := resolve_here (cwd := cwd) (path := "") (by simp [PlainName]) hn (suf := "-2tbn.xbif")
    (by decide) (by decide)
  have r3 := resolve_here (cwd := cwd) (path := "") (by simp [PlainName]) hn (suf := ".conf")
    (by decide) (by decide)
  have hw := write_ok (cwd := cwd) (path := "") (name := name) (fs := fs) w1 w2 hj
  rw [r1, r2, r3] at hw
  simp only [String.empty_append] at hw
  have hne : ∀ s t : String, s ≠ t → cwd ++ [name ++ s] ≠ cwd ++ [name ++ t] := by
    intro s t hst h0
    rw [List.append_cancel_left_eq, List.cons.injEq, append_left_inj'] at h0
    exact hst h0.1
  have hfp : ¬ FolderPrefix path := by
    rintro (h | ⟨q, rfl⟩)
    · exact hp h
    · exact hpl (by simp [String.toList_append])
  obtain ⟨fs2, dir, hdir, h1, h2⟩ := misnamed (ft := ft) (iw := iw) (ip := ip) hc0 hk0 hs0 hc1 hk1 hs1
    ht hcwd hfp hn _
  refine ⟨_, fs2, ⟨c0, c1, d.transitions⟩, hw, h1, ?_, k1, k2, rfl⟩
  rw [h2, hdir hpl, Function.update_of_ne (hne _ _ (by decide)),
    Function.update_of_ne (hne _ _ (by decide)),
    Function.update_self, Function.update_of_ne (hne _ _ (by decide)), Function.update_self]
  simp only [p1, p2, ok_bind]
  exact addTransitions_back (d := ⟨e.b0, e.twoTbn, d.transitions⟩) ec0 ec1 k1 k2 hte

end DBNSpec
end Primo
