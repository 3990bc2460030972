import Verif.Lemmas.ParseDoc

/-!
# What `XMLBIFParser.parse` makes of any document it accepts
-/

namespace Primo
namespace XMLBIF
open Xml Net

theorem toExcept_ok {r : Res} {s : Net} (h : r.toExcept = .ok s) : r = (s, none) := by
  obtain ⟨t, e⟩ := r
  cases e with
  | none => simp only [Res.toExcept, Except.ok.injEq] at h; rw [h]
  | some e => simp [Res.toExcept] at h

/-! ## variables -/

/-- all node objects are new -/
def Fresh (s : Net) : Prop := ∀ i < s.next, (s.heap i).parentOrder = []

theorem parseVar_inv {ignore : Bool} {d d' : NetDoc} {var : Xml}
    (h : parseVar ignore d var = .ok d') (hi : d.net.Inv) (hf : Fresh d.net) :
    d'.net.Inv ∧ Fresh d'.net := by
  unfold parseVar at h
  simp only [bind_eq_ok, pure_eq_ok, Except.ok.injEq] at h
  obtain ⟨t, _, name, _, values, _, s, hs, rfl⟩ := h
  have hs := toExcept_ok hs
  have hi1 : (create .discrete name values d.net).1.Inv := hi.create .discrete name values
  have hnew : ((create .discrete name values d.net).1.heap d.net.next).parentOrder = [] := by
    simp [create, newObj]
  have hi2 := hi1.addNode hnew
  rw [hs] at hi2
  refine ⟨hi2, fun i hin => ?_⟩
  -- `add_node` does not touch the objects
  have hheap : s.heap = (create .discrete name values d.net).1.heap ∧
      s.next = (create .discrete name values d.net).1.next := by
    unfold addNode at hs
    split at hs
    · cases hs
    · split at hs
      · cases hs
      · cases hs; exact ⟨rfl, rfl⟩
  show (s.heap i).parentOrder = []
  have hin : i < s.next := hin
  rw [hheap.1]
  rw [hheap.2] at hin
  simp only [create] at hin ⊢
  by_cases hid : i = d.net.next
  · subst hid; simp [newObj]
  · rw [Function.update_of_ne hid]; exact hf i (by omega)

theorem parseVars_inv {ignore : Bool} : ∀ {vars : List Xml} {d d' : NetDoc},
    vars.foldlM (parseVar ignore) d = .ok d' → d.net.Inv → Fresh d.net → d'.net.Inv ∧ Fresh d'.net
  | [], d, d', h, hi, hf => by cases h; exact ⟨hi, hf⟩
  | v :: vars, d, d', h, hi, hf => by
    rw [List.foldlM_cons, bind_eq_ok] at h
    obtain ⟨d1, h1, h2⟩ := h
    obtain ⟨hi1, hf1⟩ := parseVar_inv h1 hi hf
    exact parseVars_inv h2 hi1 hf1

/-! ## definitions -/

/-- What stays true while the definitions of any document are read: the names are bound to distinct
objects of these names, parents are recorded under their names. -/
structure Weak (L : Dict Nat) (V : Nat → List Val) (s : Net) : Prop where
  lookup : s.lookup = L
  name : ∀ k i, L.get? k = some i → (s.heap i).name = k
  values : ∀ i, (s.heap i).values = V i
  parents : ∀ k i, L.get? k = some i → ∀ p j, (s.heap i).parents.get? p = some j →
    L.get? p = some j

theorem graphAddEdge_heap' (i j : Nat) (s : Net) : (s.graphAddEdge i j).heap = s.heap ∧
    (s.graphAddEdge i j).lookup = s.lookup := ⟨rfl, rfl⟩

theorem addEdge_inv {a b : Name} {s s' : Net} (h : addEdge a b s = (s', none)) :
    ∃ i j, s.lookup.get? a = some i ∧ s.lookup.get? b = some j ∧ s'.lookup = s.lookup ∧
      (∀ q, q ≠ j → s'.heap q = s.heap q) ∧
      (s'.heap j).name = (s.heap j).name ∧ (s'.heap j).values = (s.heap j).values ∧
      (s'.heap j).parentOrder = (s.heap j).parentOrder ++ [(s.heap i).name] ∧
      (s'.heap j).parents = (s.heap j).parents.set (s.heap i).name i := by
  unfold addEdge at h
  split at h
  · split at h
    · rename_i i j hi hj
      refine ⟨i, j, hi, hj, ?_⟩
      unfold addParent updateDims at h
      split at h
      · cases h
      · simp only [setObj_setObj, Prod.mk.injEq, and_true] at h
        subst h
        refine ⟨rfl, fun q hq => ?_, ?_⟩
        · simp [hq, (graphAddEdge_heap' i j s).1]
        · simp [(graphAddEdge_heap' i j s).1]
    · cases h
  · cases h

theorem parseGiven_any {L : Dict Nat} {V : Nat → List Val} {s s' : Net} {cur : Name} {i : Nat}
    {g : Xml} (h : parseGiven cur s g = .ok s') (hw : Weak L V s) (hi : L.get? cur = some i) :
    Weak L V s' ∧ ∃ a, g.text = some a ∧
      (s'.heap i).parentOrder = (s.heap i).parentOrder ++ [a] ∧ ∀ q, q ≠ i → s'.heap q = s.heap q := by
  unfold parseGiven at h
  rw [bind_eq_ok] at h
  obtain ⟨a, ha, h⟩ := h
  have hg : g.text = some a := by
    unfold nodeText at ha
    split at ha
    · cases ha
    · rename_i t ht; cases ha; exact ht
  obtain ⟨p, j, h1, h2, h3, h4, h5, h6, h7, h8⟩ := addEdge_inv (toExcept_ok h)
  rw [hw.lookup] at h1 h2
  rw [hi] at h2; cases h2
  rw [hw.name a p h1] at h7 h8
  refine ⟨⟨h3.trans hw.lookup, ?_, ?_, ?_⟩, a, hg, h7, h4⟩
  · intro k q hq
    by_cases hqi : q = i
    · subst hqi; rw [h5]; exact hw.name k q hq
    · rw [h4 q hqi]; exact hw.name k q hq
  · intro q
    by_cases hqi : q = i
    · subst hqi; rw [h6]; exact hw.values q
    · rw [h4 q hqi]; exact hw.values q
  · intro k q hq x y hx
    by_cases hqi : q = i
    · subst hqi
      rw [h8, Dict.get?_set] at hx
      split at hx
      · rename_i e; subst e; cases hx; exact h1
      · exact hw.parents k q hq x y hx
    · rw [h4 q hqi] at hx; exact hw.parents k q hq x y hx

theorem parseGivens_any {L : Dict Nat} {V : Nat → List Val} {cur : Name} {i : Nat}
    (hi : L.get? cur = some i) : ∀ {gs : List Xml} {s s' : Net},
    gs.foldlM (parseGiven cur) s = .ok s' → Weak L V s →
    Weak L V s' ∧ (∃ as : List Name, gs.map text = as.map some ∧
      (s'.heap i).parentOrder = (s.heap i).parentOrder ++ as) ∧ ∀ q, q ≠ i → s'.heap q = s.heap q
  | [], s, s', h, hw => by cases h; exact ⟨hw, ⟨[], rfl, by simp⟩, fun _ _ => rfl⟩
  | g :: gs, s, s', h, hw => by
    rw [List.foldlM_cons, bind_eq_ok] at h
    obtain ⟨s1, h1, h2⟩ := h
    obtain ⟨hw1, a, ha, hp1, hq1⟩ := parseGiven_any h1 hw hi
    obtain ⟨hw2, ⟨as, has, hp2⟩, hq2⟩ := parseGivens_any hi h2 hw1
    refine ⟨hw2, ⟨a :: as, by simp [ha, has], by rw [hp2, hp1]; simp⟩, fun q hq => ?_⟩
    rw [hq2 q hq, hq1 q hq]

/-- the numbers in a `TABLE` element -/
def Numbers (ft : FloatText) (table : Option Xml) (l : List ℚ) : Prop :=
  ∃ e t, table = some e ∧ e.text = some t ∧ (pySplit ' ' (pyStrip t)).mapM ft.float = .ok l

theorem parseTable_ok {ft : FloatText} {table : Option Xml} {l : List ℚ}
    (h : parseTable ft table = .ok l) : Numbers ft table l := by
  unfold parseTable textOf at h
  cases table with
  | none => cases h
  | some e =>
    simp only [ok_bind] at h
    cases ht : e.text with
    | none => rw [ht] at h; cases h
    | some t => rw [ht] at h; exact ⟨e, t, rfl, ht, h⟩

theorem mapM_map_of_ok {α β : Type} {f : α → Except PyErr β} {g : α → β} :
    ∀ {l : List α} {r : List β}, l.mapM f = .ok r → (∀ x ∈ l, ∀ y, f x = .ok y → y = g x) →
    r = l.map g
  | [], r, h, _ => by cases h; rfl
  | x :: l, r, h, hg => by
    simp only [List.mapM_cons, bind_eq_ok, pure_eq_ok, Except.ok.injEq] at h
    obtain ⟨y, hy, r', hr, rfl⟩ := h
    rw [hg x (by simp) y hy, mapM_map_of_ok hr fun z hz => hg z (List.mem_cons_of_mem _ hz)]
    rfl

theorem parseCpd_any {L : Dict Nat} {V : Nat → List Val} {l : List ℚ} {i : Nat} {k : Name}
    {s s' : Net} (h : parseCpd l i s = .ok s') (hw : Weak L V s) (hi : L.get? k = some i) :
    Weak L V s' ∧ (s'.heap i).parentOrder = (s.heap i).parentOrder ∧
      NDArray.reshapeF l ((V i).length ::
        (s.heap i).parentOrder.map fun p => (s'.labels p).length) = .ok (s'.heap i).cpd ∧
      ∀ q, q ≠ i → s'.heap q = s.heap q := by
  unfold parseCpd at h
  simp only [bind_eq_ok] at h
  obtain ⟨dims, hdims, a, ha, hset⟩ := h
  have h := toExcept_ok hset
  clear hset
  unfold Net.setCpd putCpd at h
  split at h
  · cases h
  · rename_i c hc
    simp only [Prod.mk.injEq, and_true] at h
    have hca : c = a := by
      unfold NodeV.setCpd at hc
      split at hc
      · cases hc
      · split at hc
        · cases hc
        · cases hc; rfl
    subst hca
    have hq : ∀ q, q ≠ i → s'.heap q = s.heap q := fun q hq => by
      rw [← h]; simp [hq]
    have hci : (s'.heap i).cpd = c := by rw [← h]; simp
    have hsame : ∀ q, (s'.heap q).name = (s.heap q).name ∧ (s'.heap q).values = (s.heap q).values ∧
        (s'.heap q).parents = (s.heap q).parents ∧
        (s'.heap q).parentOrder = (s.heap q).parentOrder := by
      intro q
      by_cases hqi : q = i
      · subst hqi; rw [← h]; simp
      · rw [hq q hqi]; simp
    have hlook : s'.lookup = s.lookup := by rw [← h]; rfl
    refine ⟨⟨hlook.trans hw.lookup, ?_, ?_, ?_⟩, (hsame i).2.2.2, ?_, hq⟩
    · intro k q hk; rw [(hsame q).1]; exact hw.name k q hk
    · intro q; rw [(hsame q).2.1]; exact hw.values q
    · intro k q hk x y hx
      rw [(hsame q).2.2.1] at hx; exact hw.parents k q hk x y hx
    · rw [hci, ← ha, hw.values]
      congr 2
      symm
      refine mapM_map_of_ok hdims fun p hp y hy => ?_
      unfold parentLen at hy
      rw [bind_eq_ok] at hy
      obtain ⟨j, hj, hy⟩ := hy
      have hjg : (s.heap i).parents.get? p = some j := by
        unfold Dict.getE at hj
        split at hj
        · rename_i v hv; cases hj; exact hv
        · cases hj
      split at hy
      · cases hy
      · cases hy
        unfold labels
        rw [hlook, hw.lookup, hw.parents k i hi p j hjg]
        simp only [(hsame j).2.1]

theorem parseDef_any {L : Dict Nat} {V : Nat → List Val} {ft : FloatText} {s s' : Net} {defn : Xml}
    (h : parseDef ft s defn = .ok s') (hw : Weak L V s) :
    ∃ (e : Xml) (k : Name) (i : Nat) (gs : List Name) (l : List ℚ), defn.find "FOR" = some e ∧ e.text = some k ∧ L.get? k = some i ∧
      defn.given = gs.map some ∧ Numbers ft (defn.find "TABLE") l ∧ Weak L V s' ∧
      (s'.heap i).parentOrder = (s.heap i).parentOrder ++ gs.reverse ∧
      NDArray.reshapeF l ((V i).length ::
        (s'.heap i).parentOrder.map fun p => (s'.labels p).length) = .ok (s'.heap i).cpd ∧
      ∀ q, q ≠ i → s'.heap q = s.heap q := by
  unfold parseDef at h
  simp only [bind_eq_ok] at h
  obtain ⟨t, ht, k, hk, i, hi, s1, h1, l, hl, h2⟩ := h
  cases hf : defn.find "FOR" with
  | none => rw [hf] at ht; cases ht
  | some e =>
    rw [hf] at ht
    have ht : t = e.text := by cases ht; rfl
    have hk : e.text = some k := by
      rw [← ht]
      unfold nodeText at hk
      split at hk
      · cases hk
      · cases hk; rfl
    have hi : L.get? k = some i := by rw [← hw.lookup]; exact getNode_ok.1 hi
    obtain ⟨hw1, ⟨as, has, hp1⟩, hq1⟩ := parseGivens_any hi h1 hw
    obtain ⟨hw2, hp2, hr, hq2⟩ := parseCpd_any h2 hw1 hi
    refine ⟨e, k, i, as.reverse, l, rfl, hk, hi, ?_, parseTable_ok hl, hw2, ?_, ?_, fun q hq => ?_⟩
    · unfold Xml.given
      rw [List.map_reverse] at has
      rw [List.map_reverse, ← has, List.reverse_reverse]
    · rw [hp2, hp1, List.reverse_reverse]
    · rw [hp2]; exact hr
    · rw [hq2 q hq, hq1 q hq]

/-- what a definition has been turned into -/
def Read (ft : FloatText) (V : Nat → List Val) (L : Dict Nat) (defn : Xml) (s : Net) : Prop :=
  ∃ (e : Xml) (k : Name) (i : Nat) (gs : List Name) (l : List ℚ), defn.find "FOR" = some e ∧ e.text = some k ∧ L.get? k = some i ∧
    defn.given = gs.map some ∧ Numbers ft (defn.find "TABLE") l ∧
    (s.heap i).parentOrder = gs.reverse ∧
    NDArray.reshapeF l ((V i).length :: gs.reverse.map fun p => (s.labels p).length) =
      .ok (s.heap i).cpd

/-- the variable a definition is for -/
def forName (x : Xml) : Option String := (x.find "FOR").bind text

theorem labels_congr {L : Dict Nat} {V : Nat → List Val} {s s' : Net} (h : Weak L V s)
    (h' : Weak L V s') (p : Name) : s'.labels p = s.labels p := by
  unfold labels
  rw [h.lookup, h'.lookup]
  cases L.get? p with
  | none => rfl
  | some j => simp only [h.values, h'.values]

theorem parseDefs_any {L : Dict Nat} {V : Nat → List Val} {ft : FloatText}
    (hinj : ∀ k k' i, L.get? k = some i → L.get? k' = some i → k = k') :
    ∀ {defs done : List Xml} {s s' : Net}, defs.foldlM (parseDef ft) s = .ok s' →
    Weak L V s → ((done ++ defs).map forName).Nodup → (∀ x ∈ done, Read ft V L x s) →
    (∀ k i, L.get? k = some i → some k ∉ done.map forName → (s.heap i).parentOrder = []) →
    Weak L V s' ∧ ∀ x ∈ done ++ defs, Read ft V L x s'
  | [], done, s, s', h, hw, _, hd, _ => by cases h; exact ⟨hw, by simpa using hd⟩
  | x :: defs, done, s, s', h, hw, hnd, hd, hf => by
    rw [List.foldlM_cons, bind_eq_ok] at h
    obtain ⟨s1, h1, h2⟩ := h
    obtain ⟨e, k, i, gs, l, he, hk, hi, hg, hl, hw1, hp, hr, hq⟩ := parseDef_any h1 hw
    have hfor : forName x = some k := by unfold forName; rw [he]; exact hk
    have hnot : some k ∉ done.map forName := by
      rw [List.map_append, List.nodup_append] at hnd
      intro hm
      exact hnd.2.2 _ hm _ (by simp) hfor.symm
    rw [hf k i hi hnot, List.nil_append] at hp
    have hread : Read ft V L x s1 := ⟨e, k, i, gs, l, he, hk, hi, hg, hl, hp, by rw [← hp]; exact hr⟩
    have := parseDefs_any hinj (done := done ++ [x]) h2 hw1 (by simpa using hnd) ?_ ?_
    · simpa using this
    · intro y hy
      rcases List.mem_append.1 hy with hy | hy
      · obtain ⟨e', k', i', gs', l', he', hk', hi', hg', hl', hp', hr'⟩ := hd y hy
        have hne : i' ≠ i := by
          rintro rfl
          have := hinj k' k i' hi' hi
          subst this
          exact hnot (List.mem_map.2 ⟨y, hy, by unfold forName; rw [he']; exact hk'⟩)
        refine ⟨e', k', i', gs', l', he', hk', hi', hg', hl', by rw [hq i' hne]; exact hp', ?_⟩
        rw [hq i' hne, ← hr']
        congr 2
        exact List.map_congr_left fun p _ => by rw [labels_congr hw hw1]
      · rw [List.mem_singleton.1 hy]; exact hread
    · intro k' i' hi' hn'
      have hne : i' ≠ i := by
        rintro rfl
        have := hinj k' k i' hi' hi
        subst this
        exact hn' (by simp [hfor])
      rw [hq i' hne]
      exact hf k' i' hi' fun hm => hn' (by simp only [List.map_append, List.mem_append]; exact .inl hm)

theorem parse_any {ft : FloatText} {ignore : Bool} {root : Xml} {d : NetDoc}
    (h : parse ft ignore root = .ok d) (hnd : ((root.iter "DEFINITION").map forName).Nodup) :
    ∀ x ∈ root.iter "DEFINITION", Read ft (fun i => (d.net.heap i).values) d.net.lookup x d.net := by
  unfold parse at h
  simp only [bind_eq_ok, pure_eq_ok, Except.ok.injEq] at h
  obtain ⟨name, _, d1, h1, s, h2, rfl⟩ := h
  obtain ⟨hi, hf⟩ := parseVars_inv h1 Inv.empty (by intro i hi; exact absurd hi (by simp [NetDoc.new, Net.empty]))
  have hw : Weak d1.net.lookup (fun i => (d1.net.heap i).values) d1.net := by
    refine ⟨rfl, fun k i hk => (hi.name k i hk).2, fun _ => rfl, fun k i hk p j hp => ?_⟩
    rw [hi.parent_obj k i hk] at hp
    split at hp
    · exact hp
    · cases hp
  obtain ⟨hw', hr⟩ := parseDefs_any (fun k k' i hk hk' => hi.inj hk hk') (done := []) h2 hw
    (by simpa using hnd) (by simp) (fun k i hk _ => hf i (hi.name k i hk).1)
  intro x hx
  have := hr x (by simpa using hx)
  simp only
  rw [hw'.lookup]
  have hv : (fun i => (d1.net.heap i).values) = fun i => (s.heap i).values := by
    funext i; exact (hw'.values i).symm
  rw [← hv]
  exact this

end XMLBIF
end Primo
