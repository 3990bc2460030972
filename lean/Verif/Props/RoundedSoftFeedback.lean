import Verif.Lemmas.RoundedSoftFeedback
import Verif.Props.RoundedDynamic

/-! # C86: soft-evidence feedback with rounded arithmetic -/

namespace Primo
open JoinTree

/-- **C86, partial.** `SoftEvidenceExact` with rounded arithmetic, after any history of calls with evidence that can be
met in exact arithmetic: the calls succeed, the same variables get an array, and each entry of an answer is within
`softFilterRoundings` roundings of the posterior that C48 states for exact arithmetic, although the arrays that are
carried over, the priors by which they are divided and the trees are rounded.  Missing, as in C48: slices whose default
tree lacks the running intersection property or which are not connected. -/
theorem C86_soft_feedback_error_partial {d : DBN} (h : d.SoftReady) {ops : List DynOp}
    (ho : SoftFairHistory d ⟨[], none⟩ ops) {g : Diary} (hg : g = Diary.notes ⟨[], none⟩ ops) {A : Arith} {u : ℚ}
    (hA : A.Accurate u) {s : SoftFeedback} (hs : s = .runsR A ops (.create d)) :
    s.dbn = d ∧ s.t = g.past.length ∧ s.transitionEvidence.keys = (d.carried g.past).keys ∧
      (∀ op : DynOp, op.SoftFair d g → ¬ op.IsQuery → (SoftFeedback.callR A op s).2 = none) ∧
      (∀ e, g.now = some e →
        AnswersNear u (d.softFilterRoundings g.past e) (fun so limit vs => s.marginalsR A so limit vs) s
          (d.slice g.past.length) (softened (d.slice g.past.length) (overridden (d.carried g.past) e)) ∧
        AnswersDictNear u (d.softFilterRoundings g.past e) (fun so limit v => s.marginalProbabilitiesR A so limit v) s
          (d.slice g.past.length) (softened (d.slice g.past.length) (overridden (d.carried g.past) e))) ∧
      (g.now = none → (g.past = [] ∧ ∀ so limit vs, s.marginalsR A so limit vs = (s, .error .attributeError)) ∨
        ∃ past e, g.past = past ++ [e] ∧
        AnswersNear u (d.softFilterRoundings past e) (fun so limit vs => s.marginalsR A so limit vs) s
          (d.slice past.length) (softened (d.slice past.length) (overridden (d.carried past) e)) ∧
        AnswersDictNear u (d.softFilterRoundings past e) (fun so limit v => s.marginalProbabilitiesR A so limit v) s
          (d.slice past.length) (softened (d.slice past.length) (overridden (d.carried past) e))) := by
  have ht := (SoftFeedback.tracksR_create d).runs hA h ops ho
  rw [← hg, ← hs] at ht
  obtain ⟨κ, k1, -⟩ := ht.te
  refine ⟨ht.dbn, ht.time, by rw [← keys_arrays, k1.keys], fun op hop hq => (ht.call hA h hop).1 ?_,
    fun e he => SoftFeedback.answersR hA.lt_one (ht.now e he), fun hn => ?_⟩
  · rintro so limit vs rfl
    exact hq trivial
  · rcases ht.old hn with ⟨h1, h2⟩ | ⟨past, e, h1, h3⟩
    · refine Or.inl ⟨h1, fun so limit vs => ?_⟩
      unfold SoftFeedback.marginalsR
      rw [h2]
    · exact Or.inr ⟨past, e, h1, SoftFeedback.answersR hA.lt_one h3⟩

/-- **C86**: with exact arithmetic these are the functions of the exact model. -/
theorem C86_exact (ops : List DynOp) (d : DBN) :
    SoftFeedback.runsR .exact ops (.create d) = SoftFeedback.runs ops (.create d) :=
  SoftFeedback.runsR_exact ops _

/-- **C86**: with a single transition the roundings grow at most linearly with the number of slices. -/
theorem C86_linear {d : DBN} {tr : Name × Name} (ht : d.transitions = [tr]) {es : List (Dict Evidence)}
    {e : Dict Evidence} {vs : List Name} {m : Nat}
    (hm : ∀ k, ∀ e' ∈ es, treeRoundings (d.slice k) (d.entryRoundings k e') [tr.2] ≤ m) :
    d.softFilterRoundings es e vs ≤
      treeRoundings (d.slice es.length) (d.entryRoundings es.length e) vs + 2 * m * es.length := by
  refine Nat.add_le_add_left ?_ _
  induction es using List.reverseRecOn with
  | nil => simp [DBN.softDrift]
  | append_singleton es e ih =>
    have h1 := ih fun k e he => hm k e (by simp [he])
    have h2 := hm es.length e (by simp)
    rw [softDrift_snoc, ht]
    simp only [List.map_cons, List.map_nil, List.sum_cons, List.sum_nil, List.length_append, List.length_singleton]
    rw [Nat.mul_add]
    omega

namespace Ex

/-- the array of `a` after the calls with the lopsided arithmetic -/
def softArrayR (A : Arith) (ops : List DynOp) : Option (List ℚ) :=
  ((SoftFeedback.runsR A ops (.create Ex.dyn)).transitionEvidence.get? "a").map NDArray.data

/-- the answer for `d` after the calls -/
def softAnswerR (A : Arith) (ops : List DynOp) : Except PyErr (List ℚ) :=
  (((SoftFeedback.runsR A ops (.create Ex.dyn)).marginalsR A .insertion 1000 ["d"]).2).map fun f => f.potentials.data

end Ex

example := C86_soft_feedback_error_partial Ex.dyn_softReady Ex.soft_second rfl Ex.lopsided_accurate rfl

-- the roundings in the array that is carried over, and in the slice after
example : Ex.softArrayR Ex.lopsided [.unroll .insertion 1000 (some Ex.softEv) none] ≠ some [23 / 351, 328 / 351] ∧
    Ex.softArrayR .exact [.unroll .insertion 1000 (some Ex.softEv) none] = some [23 / 351, 328 / 351] := by
  decide +kernel
example : Ex.softAnswerR Ex.lopsided [.unroll .insertion 1000 (some Ex.softEv) none, .setEvidence .reversed 1000 none] ≠
    Ex.softAnswerR .exact [.unroll .insertion 1000 (some Ex.softEv) none, .setEvidence .reversed 1000 none] := by
  decide +kernel

example := C86_linear (d := Ex.dyn) (tr := ("a", "c")) rfl (es := [Ex.softEv]) (e := []) (vs := ["d"])
  (m := treeRoundings Ex.bn 3094 ["c"]) fun k e he => by
    rw [Ex.dyn_slice]
    simp only [List.mem_singleton] at he
    subst he
    unfold DBN.entryRoundings DBN.entered
    rw [Ex.dyn_slice]
    split <;> decide +kernel
example : Ex.dyn.entryRoundings 0 Ex.softEv = 2062 ∧ Ex.dyn.entryRoundings 1 Ex.softEv = 3094 ∧
    Ex.dyn.softFilterRoundings [Ex.softEv] [] ["d"] = 125286 := by decide +kernel

end Primo
