import Verif.Lemmas.NetStep

/-! # What a call can do to one object -/

namespace Primo
namespace Net
open Res

variable {s : Net}

/-- the three things that can happen to a node object in a call -/
inductive Fate (s : Net) (op : Op) (i : Nat) : Prop
  | same (sig : signature (step op s).1 i = signature s i)
      (cpd : ((step op s).1.heap i).cpd = (s.heap i).cpd)
      (valid : ((step op s).1.heap i).valid = (s.heap i).valid)
  | reset (cpd : ((step op s).1.heap i).cpd = NDArray.zeros ((step op s).1.heap i).cpd.shape)
      (valid : ((step op s).1.heap i).valid = false)
  | written (writes : op.WritesTable i) (sig : signature (step op s).1 i = signature s i)
      (shape : ((step op s).1.heap i).cpd.shape = (s.heap i).cpd.shape)
      (valid : ((step op s).1.heap i).valid = (s.heap i).valid ∨
        (op.SetsTable i ∧ (step op s).2 = none))

theorem Fate.of_heap {op : Op} {i : Nat} (hv : ∀ j, ((step op s).1.heap j).values = (s.heap j).values)
    (ho : (step op s).1.heap i = s.heap i) : Fate s op i := by
  refine .same ?_ (by rw [ho]) (by rw [ho])
  unfold signature
  rw [ho]
  congr 1
  refine List.map_congr_left fun p _ => ?_
  congr 1
  funext j; rw [hv]

theorem fate_putCpd {op : Op} {i q : Nat} {r : Except PyErr NDArray} {f : Bool → Bool}
    (hs : step op s = putCpd q r f s) (hr : ∀ a, r = .ok a → a.shape = (s.heap q).cpd.shape)
    (hw : op.WritesTable q) (hf : f = id ∨ op.SetsTable q) : Fate s op i := by
  cases r with
  | error e =>
    have : (step op s).1 = s := by rw [hs]; rfl
    exact .of_heap (fun j => by rw [this]) (by rw [this])
  | ok a =>
    have h1 : (step op s).1 = s.setObj q { s.heap q with
      cpd := a, valid := f (s.heap q).valid, plain := false } := by rw [hs]; rfl
    have hval : ∀ j, ((step op s).1.heap j).values = (s.heap j).values := by
      intro j; rw [h1]
      by_cases hj : j = q
      · subst hj; simp
      · simp [hj]
    by_cases hi : i = q
    · subst hi
      refine .written hw ?_ ?_ ?_
      · unfold signature
        simp only [hval]
        rw [h1]; simp
      · rw [h1]; simpa using hr a rfl
      · rcases hf with hf | hf
        · left; rw [h1, hf]; simp
        · right; exact ⟨hf, by rw [hs]; rfl⟩
    · exact .of_heap hval (by rw [h1]; simp [hi])

theorem fate (h : s.Inv) {op : Op} (hg : Good s op) {i : Nat} (hi : i < s.next)
    (hin : s.InNet i ∨ (s.heap i).parentOrder = []) : Fate s op i := by
  cases op with
  | create k n v =>
    have hne : ∀ j, j ≠ s.next → (create k n v s).1.heap j = s.heap j := fun j hj => by
      simp [create, hj]
    have hio := hne i hi.ne
    refine .same ?_ (by change ((create k n v s).1.heap i).cpd = _; rw [hio])
      (by change ((create k n v s).1.heap i).valid = _; rw [hio])
    change signature (create k n v s).1 i = _
    unfold signature
    rw [hio]
    congr 1
    refine List.map_congr_left fun p hp => ?_
    rcases hin with ⟨c, hc⟩ | hin
    · rw [getNode_ok] at hc
      rw [h.parent_obj c i hc, if_pos hp]
      cases hl : s.lookup.get? p with
      | none => rfl
      | some j =>
        simp only [Option.map_some]
        rw [hne j (h.name p j hl).1.ne]
    · rw [hin] at hp; cases hp
  | addNode j =>
    have : (addNode j s).1.heap = s.heap := by
      unfold addNode
      split
      · rfl
      · split <;> rfl
    exact .of_heap (fun q => by change ((addNode j s).1.heap q).values = _; rw [this])
      (by change (addNode j s).1.heap i = _; rw [this])
  | clear => exact .of_heap (fun q => rfl) rfl
  | removeNode k =>
    cases hk : s.lookup.get? k with
    | none =>
      have : step (.removeNode k) s = (s, none) := removeNode_unknown h hk
      exact .of_heap (fun q => by rw [this]) (by rw [this])
    | some j =>
      have e : step (.removeNode k) s = _ := removeNode_effect h hk hg
      have hheap : (step (.removeNode k) s).1.heap = s.heapWithout k := by rw [e]
      by_cases hc : i ∈ (s.succOf k).map Prod.snd
      · have : s.heapWithout k i = dropped s.heap k (s.heap i) := if_pos hc
        exact .reset (by rw [hheap, this]; rfl) (by rw [hheap, this]; rfl)
      · refine .of_heap (fun q => ?_) ?_
        · rw [hheap]; exact (heapWithout_core s k q).2.1
        · rw [hheap]; exact if_neg hc
  | removeEdge a b =>
    by_cases hno : ∃ i j, s.lookup.get? a = some i ∧ s.lookup.get? b = some j ∧ a ∈ s.parentsOf b ∧
      (s.heap j).kind = .discrete
    swap
    · have : (step (.removeEdge a b) s).1 = s := removeEdge_noop h hno
      exact .of_heap (fun q => by rw [this]) (by rw [this])
    obtain ⟨x, j, hx, hj, hold, hd⟩ := hno
    have e : step (.removeEdge a b) s = _ := removeEdge_effect h hx hj hold hd
    have hheap : (step (.removeEdge a b) s).1.heap =
      Function.update s.heap j (dropped s.heap a (s.heap j)) := by rw [e]
    by_cases hij : i = j
    · subst hij
      exact .reset (by rw [hheap, Function.update_self]; rfl) (by rw [hheap, Function.update_self]; rfl)
    · refine .of_heap (fun q => ?_) ?_
      · rw [hheap]
        by_cases hq : q = j
        · subst hq; rw [Function.update_self]; rfl
        · rw [Function.update_of_ne hq]
      · rw [hheap, Function.update_of_ne hij]
  | addEdge a b =>
    by_cases hab : a ∈ s.gnode.keys ∧ b ∈ s.gnode.keys
    swap
    · have : step (.addEdge a b) s = (s, some .exception) := if_neg hab
      exact .of_heap (fun q => by rw [this]) (by rw [this])
    obtain ⟨x, hx⟩ := h.mem_keys.1 hab.1
    obtain ⟨j, hj⟩ := h.mem_keys.1 hab.2
    have e : step (.addEdge a b) s = _ := addEdge_effect h hx hj hg.1 (hg.2 x hx)
    have hheap : (step (.addEdge a b) s).1.heap =
      Function.update s.heap j (grown s.heap a x (s.heap j)) := by rw [e]
    by_cases hij : i = j
    · subst hij
      exact .reset (by rw [hheap, Function.update_self]; rfl) (by rw [hheap, Function.update_self]; rfl)
    · refine .of_heap (fun q => ?_) ?_
      · rw [hheap]
        by_cases hq : q = j
        · subst hq; rw [Function.update_self]; rfl
        · rw [Function.update_of_ne hq]
      · rw [hheap, Function.update_of_ne hij]
  | changeValues k v =>
    by_cases hno : ∃ i, s.lookup.get? k = some i ∧ (s.heap i).kind = .discrete
    swap
    · have : (step (.changeValues k v) s).1 = s := changeValues_rejected hno
      exact .of_heap (fun q => by rw [this]) (by rw [this])
    obtain ⟨j, hj, hd⟩ := hno
    have e : step (.changeValues k v) s = _ := changeValues_effect h hj v hd
    have hheap : (step (.changeValues k v) s).1.heap = s.heapRevalued k j v := by rw [e]
    have hdef : ∀ c, s.heapRevalued k j v c = if c = j ∨ c ∈ (s.succOf k).map Prod.snd then
        redim (Function.update s.heap j { s.heap j with values := v })
          (Function.update s.heap j { s.heap j with values := v } c) else s.heap c := fun c => rfl
    by_cases hc : i = j ∨ i ∈ (s.succOf k).map Prod.snd
    · have e2 := hdef i
      rw [if_pos hc] at e2
      exact .reset (by rw [hheap, e2]; rfl) (by rw [hheap, e2]; rfl)
    · have e2 := hdef i
      rw [if_neg hc] at e2
      refine .same ?_ (by rw [hheap, e2]) (by rw [hheap, e2])
      unfold signature
      rw [hheap, e2]
      congr 1
      refine List.map_congr_left fun p hp => ?_
      rcases hin with ⟨c, hcn⟩ | hin
      · rw [getNode_ok] at hcn
        rw [h.parent_obj c i hcn, if_pos hp]
        cases hl : s.lookup.get? p with
        | none => rfl
        | some q =>
          simp only [Option.map_some]
          have hqj : q ≠ j := by
            rintro rfl
            rw [h.inj hl hj] at hp
            exact hc (Or.inr (h.mem_succ_ids.2 ⟨c, hcn, hp⟩))
          rw [hdef]
          split
          · simp [redim, hqj]
          · rfl
      · rw [hin] at hp; cases hp
  | changeName old new b =>
    cases hk : s.lookup.get? old with
    | none =>
      have : step (.changeName old new b) s = (s, some .exception) := changeName_unknown hk
      exact .of_heap (fun q => by rw [this]) (by rw [this])
    | some j =>
      have hnew1 : new = old ∨ s.lookup.get? new = none ∧ b = false :=
        Or.imp_right (And.imp_left Dict.get?_eq_none.2) hg
      obtain ⟨S, P, e, -⟩ := changeName_effect h hk hnew1
      have hheap : (step (.changeName old new b) s).1.heap = s.heapRenamed j old new := by
        change (changeName old new b s).1.heap = _
        rw [e]
      have hspec := heapRenamed_spec h hk (hnew1.imp_right And.left)
      refine .same ?_ (by rw [hheap]; exact (hspec.data i).2.2.1)
        (by rw [hheap]; exact (hspec.data i).2.2.2.1)
      unfold signature
      rw [hheap]
      simp only [fun q => (hspec.data q).2.1]
      congr 1
      by_cases hnet : ∃ c, s.lookup.get? c = some i
      · obtain ⟨c, hc⟩ := hnet
        rw [hspec.order c i hc, List.map_map]
        refine List.map_congr_left fun p _ => ?_
        simp only [Function.comp]
        rw [hspec.parents c i hc, Equiv.swap_apply_self]
      · push Not at hnet
        rw [hspec.outside i hnet]
  | setCpd j c =>
    exact fate_putCpd (q := j) (r := (s.objView j).setCpd c) (f := fun _ => true) rfl
      (fun a ha => setCpd_shape (n := s.objView j) ha) rfl (Or.inr rfl)
  | setProbability j v p pv =>
    exact fate_putCpd rfl (fun a ha => setProbability_shape ha) rfl (Or.inl rfl)
  | setUtilities j u =>
    exact fate_putCpd (q := j) (r := (s.objView j).setUtilities u) (f := fun _ => true) rfl
      (fun a ha => setUtilities_shape (n := s.objView j) ha) rfl (Or.inr rfl)
  | setUtility j u pv =>
    exact fate_putCpd rfl (fun a ha => setUtility_shape ha) rfl (Or.inl rfl)
  | setDecision j d =>
    by_cases hd : (s.heap j).kind ≠ .decision
    · have : step (.setDecision j d) s = (s, some .attributeError) := if_pos hd
      exact .of_heap (fun q => by rw [this]) (by rw [this])
    · have h1 : (step (.setDecision j d) s).1 =
          s.setObj j { s.heap j with cpd := ((s.objView j).setDecision d).1 } := by
        change (setDecision j d s).1 = _
        unfold setDecision
        rw [if_neg hd]
      have hval : ∀ q, ((step (.setDecision j d) s).1.heap q).values = (s.heap q).values := by
        intro q; rw [h1]
        by_cases hq : q = j
        · subst hq; simp
        · simp [hq]
      by_cases hij : i = j
      · subst hij
        refine .written rfl ?_ ?_ (Or.inl ?_)
        · unfold signature
          simp only [hval]
          rw [h1]; simp
        · rw [h1, setObj_heap, Function.update_self]; exact setDecision_shape (s.objView i) d
        · rw [h1]; simp
      · exact .of_heap hval (by rw [h1]; simp [hij])
  | fullyMixed j =>
    by_cases hd : (s.heap j).kind ≠ .decision
    · have : step (.fullyMixed j) s = (s, some .attributeError) := if_pos hd
      exact .of_heap (fun q => by rw [this]) (by rw [this])
    · exact fate_putCpd (q := j) (r := (s.objView j).fullyMixed) (f := id)
        (if_neg hd) (fun a ha => fullyMixed_shape ha) rfl (Or.inl rfl)

/-- what a call does to the set of nodes: either the same objects stay in the network or one object
joins, is constructed, or some leave; objects outside keep their parents. -/
theorem frame (h : s.Inv) {op : Op} (hg : Good s op) {i : Nat} (hi : i < (step op s).1.next)
    (hv : ((step op s).1.heap i).valid = true)
    (hin : (step op s).1.InNet i ∨ ((step op s).1.heap i).parentOrder = []) :
    i < s.next ∧ (s.InNet i ∨ (s.heap i).parentOrder = []) := by
  have keep : ∀ {t : Net}, (t.InNet i ∨ (t.heap i).parentOrder = []) → i < t.next →
      t.next = s.next → (∀ k, t.lookup.get? k = some i → s.InNet i ∨
      (s.heap i).parentOrder = []) → (s.InNet i ∨ t.heap i = s.heap i) →
      i < s.next ∧ (s.InNet i ∨ (s.heap i).parentOrder = []) := by
    intro t h5 h4 h1 h2 h3
    refine ⟨h1 ▸ h4, ?_⟩
    rcases h5 with ⟨k, hk⟩ | h5
    · exact h2 k (getNode_ok.1 hk)
    · rcases h3 with h3 | h3
      · exact Or.inl h3
      · right; rw [← h3]; exact h5
  have same : ∀ {t : Net}, t = s → i < t.next → (t.InNet i ∨ (t.heap i).parentOrder = []) →
      i < s.next ∧ (s.InNet i ∨ (s.heap i).parentOrder = []) := by
    rintro t rfl h1 h2; exact ⟨h1, h2⟩
  have inn : ∀ {k : Name}, s.lookup.get? k = some i → s.InNet i := fun hk => ⟨_, getNode_ok.2 hk⟩
  have tables : ∀ {q : Nat} {r : Except PyErr NDArray} {f : Bool → Bool},
      i < (putCpd q r f s).1.next →
      ((putCpd q r f s).1.InNet i ∨ ((putCpd q r f s).1.heap i).parentOrder = []) →
      i < s.next ∧ (s.InNet i ∨ (s.heap i).parentOrder = []) := by
    intro q r f h1 h2
    cases r with
    | error e => exact ⟨h1, h2⟩
    | ok a =>
      refine ⟨h1, ?_⟩
      rcases h2 with h2 | h2
      · exact Or.inl h2
      · right
        simp only [putCpd, setObj_heap] at h2
        by_cases hq : i = q
        · subst hq; simpa using h2
        · simpa [hq] using h2
  cases op with
  | create k n v =>
    change i < s.next + 1 at hi
    change ((Function.update s.heap s.next (newObj k n v)) i).valid = true at hv
    have hne : i ≠ s.next := by
      rintro rfl
      rw [Function.update_self] at hv
      cases k <;> cases hv
    refine ⟨by omega, ?_⟩
    rcases hin with hin | hin
    · exact Or.inl hin
    · right
      change (Function.update s.heap s.next (newObj k n v) i).parentOrder = [] at hin
      rwa [Function.update_of_ne hne] at hin
  | addNode j =>
    change i < (addNode j s).1.next at hi
    change (addNode j s).1.InNet i ∨ ((addNode j s).1.heap i).parentOrder = [] at hin
    by_cases h1 : s.next ≤ j
    · have : (addNode j s).1 = s := by unfold addNode; rw [if_pos h1]
      exact same this hi hin
    by_cases h2 : (s.heap j).name ∈ s.lookup.keys
    · have : (addNode j s).1 = s := by unfold addNode; rw [if_neg h1, if_pos h2]
      exact same this hi hin
    rw [addNode_effect h (by omega) h2] at hi hin
    refine keep hin hi rfl (fun k hk => ?_) (Or.inr rfl)
    simp only [Dict.get?_append] at hk
    cases hl : s.lookup.get? k with
    | some q => rw [hl] at hk; cases hk; exact Or.inl (inn hl)
    | none =>
      rw [hl] at hk
      simp only [Dict.get?, Option.none_or] at hk
      split at hk
      · cases hk; exact Or.inr hg
      · cases hk
  | clear => exact ⟨hi, Or.inr (hin.resolve_left (by rintro ⟨k, hk⟩; cases hk))⟩
  | removeNode k =>
    cases hk : s.lookup.get? k with
    | none =>
      have : step (.removeNode k) s = (s, none) := removeNode_unknown h hk
      rw [this] at hi hin; exact ⟨hi, hin⟩
    | some j =>
      have e : step (.removeNode k) s = _ := removeNode_effect h hk hg
      rw [e] at hi hin
      refine keep hin hi rfl (fun c hc => ?_) ?_
      · simp only [Dict.get?_erase h.nodup] at hc
        split at hc
        · cases hc
        · exact Or.inl (inn hc)
      · by_cases hc : i ∈ (s.succOf k).map Prod.snd
        · obtain ⟨c, hc, _⟩ := h.mem_succ_ids.1 hc
          exact Or.inl (inn hc)
        · exact Or.inr (if_neg hc)
  | removeEdge a b =>
    by_cases hno : ∃ i j, s.lookup.get? a = some i ∧ s.lookup.get? b = some j ∧ a ∈ s.parentsOf b ∧
      (s.heap j).kind = .discrete
    swap
    · exact same (removeEdge_noop h hno) hi hin
    obtain ⟨x, j, hx, hj, hold, hd⟩ := hno
    have e : step (.removeEdge a b) s = _ := removeEdge_effect h hx hj hold hd
    rw [e] at hi hin
    refine keep hin hi rfl (fun c hc => Or.inl (inn hc)) ?_
    by_cases hij : i = j
    · exact Or.inl (inn (hij ▸ hj))
    · exact Or.inr (Function.update_of_ne hij _ _)
  | addEdge a b =>
    by_cases hab : a ∈ s.gnode.keys ∧ b ∈ s.gnode.keys
    swap
    · have : step (.addEdge a b) s = (s, some .exception) := if_neg hab
      rw [this] at hi hin; exact ⟨hi, hin⟩
    obtain ⟨x, hx⟩ := h.mem_keys.1 hab.1
    obtain ⟨j, hj⟩ := h.mem_keys.1 hab.2
    have e : step (.addEdge a b) s = _ := addEdge_effect h hx hj hg.1 (hg.2 x hx)
    rw [e] at hi hin
    refine keep hin hi rfl (fun c hc => Or.inl (inn hc)) ?_
    by_cases hij : i = j
    · exact Or.inl (inn (hij ▸ hj))
    · exact Or.inr (Function.update_of_ne hij _ _)
  | changeValues k v =>
    by_cases hno : ∃ i, s.lookup.get? k = some i ∧ (s.heap i).kind = .discrete
    swap
    · exact same (changeValues_rejected hno) hi hin
    obtain ⟨j, hj, hd⟩ := hno
    have e : step (.changeValues k v) s = _ := changeValues_effect h hj v hd
    rw [e] at hi hin
    refine keep hin hi rfl (fun c hc => Or.inl (inn hc)) ?_
    by_cases hc : i = j ∨ i ∈ (s.succOf k).map Prod.snd
    · rcases hc with hc | hc
      · exact Or.inl (inn (hc ▸ hj))
      · obtain ⟨c, hc, _⟩ := h.mem_succ_ids.1 hc
        exact Or.inl (inn hc)
    · exact Or.inr (if_neg hc)
  | changeName old new b =>
    cases hk : s.lookup.get? old with
    | none =>
      have : step (.changeName old new b) s = (s, some .exception) := changeName_unknown hk
      rw [this] at hi hin; exact ⟨hi, hin⟩
    | some j =>
      have hnew1 : new = old ∨ s.lookup.get? new = none ∧ b = false :=
        Or.imp_right (And.imp_left Dict.get?_eq_none.2) hg
      obtain ⟨S, P, e, -⟩ := changeName_effect h hk hnew1
      have e' : step (.changeName old new b) s = _ := e
      rw [e'] at hi hin
      refine keep hin hi rfl (fun c hc => ?_) ?_
      · simp only [renamed_lookup h hk (hnew1.imp_right And.left)] at hc
        exact Or.inl (inn hc)
      · by_cases hnet : ∃ c, s.lookup.get? c = some i
        · obtain ⟨c, hc⟩ := hnet
          exact Or.inl (inn hc)
        · push Not at hnet
          exact Or.inr ((heapRenamed_spec h hk (hnew1.imp_right And.left)).outside i hnet)
  | setCpd j c => exact tables hi hin
  | setProbability j v p pv => exact tables hi hin
  | setUtilities j u => exact tables hi hin
  | setUtility j u pv => exact tables hi hin
  | setDecision j d =>
    by_cases hd : (s.heap j).kind ≠ .decision
    · have : step (.setDecision j d) s = (s, some .attributeError) := if_pos hd
      rw [this] at hi hin; exact ⟨hi, hin⟩
    · have h1 : (step (.setDecision j d) s).1 =
          s.setObj j { s.heap j with cpd := ((s.objView j).setDecision d).1 } := by
        change (setDecision j d s).1 = _
        unfold setDecision
        rw [if_neg hd]
      rw [h1] at hi hin
      refine ⟨hi, ?_⟩
      rcases hin with hin | hin
      · exact Or.inl hin
      · right
        rw [setObj_heap] at hin
        by_cases hq : i = j
        · subst hq; simpa using hin
        · simpa [hq] using hin
  | fullyMixed j =>
    by_cases hd : (s.heap j).kind ≠ .decision
    · have : step (.fullyMixed j) s = (s, some .attributeError) := if_pos hd
      rw [this] at hi hin; exact ⟨hi, hin⟩
    · have : step (.fullyMixed j) s = putCpd j (s.objView j).fullyMixed id s := if_neg hd
      rw [this] at hi hin
      exact tables hi hin

end Net
end Primo
