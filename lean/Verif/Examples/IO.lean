import Verif.Spec.IO
import Verif.Examples.History
import Verif.Lemmas.XmlDoc

/-! # Concrete documents used in the non-vacuity examples -/

namespace Primo
namespace Ex
open Net

/-- A number notation with all the properties asked of `FloatText`: `-111/11` for -3/2. -/
def unary : FloatText where
  str q := String.ofList ((if q.num < 0 then ['-'] else []) ++ List.replicate q.num.natAbs '1' ++
    '/' :: List.replicate q.den '1')
  float s :=
    let neg := s.toList.head? = some '-'
    let l := if neg then s.toList.tail else s.toList
    let n : ℚ := (l.takeWhile (· = '1')).length
    let m := ((l.dropWhile (· = '1')).tail).length
    .ok ((if neg then -n else n) / m)
  float_str q := by
    have h1 : ∀ (k : Nat) (m : List Char),
        (List.replicate k '1' ++ '/' :: m).takeWhile (· = '1') = List.replicate k '1' := by
      intro k m
      rw [List.takeWhile_append_of_pos (by simp)]; simp
    have h2 : ∀ (k : Nat) (m : List Char),
        (List.replicate k '1' ++ '/' :: m).dropWhile (· = '1') = '/' :: m := by
      intro k m
      rw [List.dropWhile_append_of_pos (by simp)]; simp
    have h3 : ∀ (k : Nat) (m : List Char), (List.replicate k '1' ++ '/' :: m).head? ≠ some '-' := by
      intro k m
      cases k with
      | zero => simp
      | succ k => simp [List.replicate_succ]
    simp only [String.toList_ofList]
    by_cases hneg : q.num < 0
    · simp only [hneg, if_true, List.nil_append, List.cons_append, List.head?_cons,
        List.tail_cons, h1, h2, List.length_replicate]
      congr 1
      have : (q.num.natAbs : ℚ) = -(q.num : ℚ) := by
        rw [← Int.cast_natCast, Int.natCast_natAbs, abs_of_neg hneg]; push_cast; rfl
      rw [this, neg_neg, Rat.num_div_den]
    · simp only [hneg, if_false, List.nil_append, h3, h1, h2, List.tail_cons, List.length_replicate]
      congr 1
      have : (q.num.natAbs : ℚ) = (q.num : ℚ) := by
        rw [← Int.cast_natCast, Int.natCast_natAbs, abs_of_nonneg (not_lt.1 hneg)]
      rw [this, Rat.num_div_den]
  nonempty q := by simp
  noSpace q := by
    intro c hc
    simp only [String.toList_ofList, List.mem_append, List.mem_cons, List.mem_replicate] at hc
    have : c = '-' ∨ c = '1' ∨ c = '/' := by
      rcases hc with (h | h) | h | h
      · split at h <;> simp_all
      · exact .inr (.inl h.2)
      · exact .inr (.inr h)
      · exact .inr (.inl h.2)
    rcases this with rfl | rfl | rfl <;> decide
  okChars q := by
    intro c hc
    simp only [String.toList_ofList, List.mem_append, List.mem_cons, List.mem_replicate] at hc
    have : c = '-' ∨ c = '1' ∨ c = '/' := by
      rcases hc with (h | h) | h | h
      · split at h <;> simp_all
      · exact .inr (.inl h.2)
      · exact .inr (.inr h)
      · exact .inr (.inl h.2)
    rcases this with rfl | rfl | rfl <;> decide

/-- the network of `Ex.ops` with a name and properties -/
def doc : NetDoc := ⟨net, some "sprinkler & co", [some "author = me", none],
  fun i => if i = 3 then [some "position = (1, 2)"] else []⟩

/-- a sufficient test for `Chance` -/
def chanceCheck (d : NetDoc) : Bool := d.net.lookup.all fun p =>
  decide ((d.net.heap p.2).kind = .discrete) && decide ((d.net.heap p.2).values ≠ [])

theorem chance_of_check {d : NetDoc} (h : chanceCheck d = true) : d.Chance := by
  intro k i hi
  have := List.all_eq_true.1 h (k, i) (Dict.get?_mem (getNode_ok.1 hi))
  simpa using this

/-- a sufficient test for `Storable` -/
def storableCheck (d : NetDoc) : Bool :=
  (d.name.map Xml.okText).getD true && d.info.all (fun t => (t.map Xml.okText).getD true) &&
  d.nodes.all fun r => decide (r.name ≠ "") && Xml.okText r.name &&
    r.values.all (fun v => decide (v ≠ "") && Xml.okText v) &&
    r.info.all fun t => (t.map Xml.okText).getD true

theorem storable_of_check {d : NetDoc} (h : storableCheck d = true) : d.Storable := by
  simp only [storableCheck, Bool.and_eq_true, List.all_eq_true, decide_eq_true_eq] at h
  obtain ⟨⟨h1, h2⟩, h3⟩ := h
  refine ⟨?_, ?_, ?_⟩
  · intro t ht; rw [ht] at h1; exact okText_iff.1 h1
  · intro t ht; exact okText_iff.1 (h2 _ ht)
  · intro r hr
    obtain ⟨⟨⟨h4, h5⟩, h6⟩, h7⟩ := h3 r hr
    refine ⟨⟨h4, okText_iff.1 h5⟩, fun v hv => ?_, fun t ht => okText_iff.1 (h7 _ ht)⟩
    exact ⟨(h6 v hv).1, okText_iff.1 (h6 v hv).2⟩

theorem net_coherent : net.Coherent := by
  unfold net
  exact (Inv.empty.run ops_good).coherent

theorem doc_coherent : doc.net.Coherent := by
  dsimp only [doc]
  exact net_coherent

theorem doc_chance : doc.Chance := chance_of_check (by decide +kernel)
theorem doc_storable : doc.Storable := storable_of_check (by decide +kernel)

/-- a network with one node, which has no outcomes -/
def hollow : NetDoc :=
  ⟨run [.create .discrete "a" [], .addNode 0] Net.empty, some "", [], fun _ => []⟩

/-- its node -/
def hollowRec : NodeRec := ⟨"a", [], [], ⟨[], [0], rfl⟩, []⟩

theorem hollow_coherent : hollow.net.Coherent :=
  (Inv.empty.run (goodRun_of_check (by decide +kernel))).coherent

/-- a dynamic network: the network of `Ex.ops` twice -/
def dynDoc : DynDoc := ⟨doc, doc, [(.str "c", .str "a"), (.str "d", .str "d")]⟩

theorem dynDoc_transitions : dynDoc.TransitionsOk := by
  intro t ht
  simp only [dynDoc, List.mem_cons, List.not_mem_nil, or_false] at ht
  rcases ht with rfl | rfl
  · exact ⟨_, _, rfl, by decide +kernel⟩
  · exact ⟨_, _, rfl, by decide +kernel⟩

end Ex
end Primo
