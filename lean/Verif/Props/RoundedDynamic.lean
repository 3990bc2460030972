import Verif.Lemmas.RoundedRun

/-! # C85: dynamic inference with rounded arithmetic -/

namespace Primo
open JoinTree

theorem DBN.filter_of_bare {d : DBN} {es : List (Dict Evidence)} {net : BN} (h : net.bare = (d.slice es.length).bare)
    (e : Dict Evidence) : (fun vs => treeRoundings net e.length vs + d.drift es) = d.filterRoundings es e := by
  funext vs
  unfold DBN.filterRoundings
  rw [treeRoundings_of_bare h]

/-- **C85, partial.** `PriorFeedbackExact` with rounded arithmetic, after any history of allowed calls: the calls
succeed as they do with exact arithmetic, and each entry of an answer is within `filterRoundings` roundings of the
posterior in the network that the definition of prior feedback prescribes with exact arithmetic (`Slices`), although
each slice starts from a prior that was itself rounded.  Missing, as in C47: slices whose default tree lacks the
running intersection property or which are not connected. -/
theorem C85_prior_feedback_error_partial {d : DBN} (h : d.Ready) {ops : List DynOp}
    (ho : FairHistory d ⟨[], none⟩ ops) {g : Diary} (hg : g = Diary.notes ⟨[], none⟩ ops) {A : Arith} {u : ℚ}
    (hA : A.Accurate u) {s : PriorFeedback} (hs : s = .runsR A ops (.create d)) :
    ∃ net two, Slices d g.past net two ∧
      (∃ twoR, s.dbn = { d with twoTbn := twoR } ∧ twoR.bare = two.bare) ∧ s.t = g.past.length ∧
      (∀ op : DynOp, op.Fair d g.past.length → ¬ op.IsQuery → (PriorFeedback.callR A op s).2 = none) ∧
      (∀ e, g.now = some e →
        AnswersNear u (d.filterRoundings g.past e) (fun so limit vs => s.marginalsR A so limit vs) s net e ∧
        AnswersDictNear u (d.filterRoundings g.past e) (fun so limit v => s.marginalProbabilitiesR A so limit v) s
          net e) ∧
      (g.now = none → (g.past = [] ∧ ∀ so limit vs, s.marginalsR A so limit vs = (s, .error .attributeError)) ∨
        ∃ past e net' two', g.past = past ++ [e] ∧ Slices d past net' two' ∧
        AnswersNear u (d.filterRoundings past e) (fun so limit vs => s.marginalsR A so limit vs) s net' e ∧
        AnswersDictNear u (d.filterRoundings past e) (fun so limit v => s.marginalProbabilitiesR A so limit v) s
          net' e) := by
  obtain ⟨net, two, h1, -⟩ := C47_prior_feedback_partial h ho hg rfl
  obtain ⟨netR, twoR, ht⟩ := (PriorFeedback.tracksR_create h).runs hA h ops ho
  rw [← hg, ← hs] at ht
  have h0 := hA.nonneg
  have hu := hA.lt_one
  have key : ∀ past e netR twoR net two, NearSlices u d past netR twoR → Slices d past net two →
      LegalEvidence netR e → NonNegEvidence e → PriorFeedback.Tree A u past.length s netR e →
      AnswersNear u (d.filterRoundings past e) (fun so limit vs => s.marginalsR A so limit vs) s net e ∧
        AnswersDictNear u (d.filterRoundings past e) (fun so limit v => s.marginalProbabilitiesR A so limit v) s
          net e := by
    intro past e netR twoR net two a1 a2 a3 a4 a5
    obtain ⟨b1, b2⟩ := a1.skew h0 hu h a2
    have c1 := (DBN.Good.nearNet h a1 (a1.good hu h)).2.2.2.1
    have c2 := (DBN.Good.net h a2 (a2.good h b1)).2.2.2.1
    have := PriorFeedback.answersR hu a5 (c1.trans c2.symm) (b2 e a3 a4)
    rwa [DBN.filter_of_bare c2] at this
  have hes := (ht.slices.skew h0 hu h h1).1
  refine ⟨net, two, h1, ⟨twoR, ht.dbn, ht.good.bare.trans (h1.good h hes).bare.symm⟩, ht.time,
    fun op hop hq => (ht.call hA h hop).1 ?_, fun e he => ?_, fun hn => ?_⟩
  · rintro so limit vs rfl
    exact hq trivial
  · obtain ⟨b1, b2, b3⟩ := ht.now e he
    exact key _ _ _ _ _ _ ht.slices h1 b1 b2 b3
  · rcases ht.old hn with ⟨b1, b2⟩ | ⟨past, e, netR', twoR', b1, b2, b3, b4, b5⟩
    · refine Or.inl ⟨b1, fun so limit vs => ?_⟩
      unfold PriorFeedback.marginalsR
      rw [b2]
    · rw [b1] at h1
      obtain ⟨-, net₁, two₁, c1, -⟩ := h1.snoc
      exact Or.inr ⟨past, e, net₁, two₁, b1, c1, key _ _ _ _ _ _ b2 c1 b3 b4 b5⟩

/-- **C85**: with exact arithmetic these are the functions of the exact model. -/
theorem C85_exact (ops : List DynOp) (d : DBN) :
    PriorFeedback.runsR .exact ops (.create d) = PriorFeedback.runs ops (.create d) :=
  PriorFeedback.runsR_exact ops _

theorem DBN.drift_single {d : DBN} {tr : Name × Name} (ht : d.transitions = [tr]) {es : List (Dict Evidence)} {m : Nat}
    (hm : ∀ k, ∀ e ∈ es, treeRoundings (d.slice k) e.length [tr.2] ≤ m) : d.drift es ≤ 2 * m * es.length := by
  induction es using List.reverseRecOn with
  | nil => simp [DBN.drift]
  | append_singleton es e ih =>
    have h1 := ih fun k e he => hm k e (by simp [he])
    have h2 := hm es.length e (by simp)
    rw [drift_snoc, ht]
    simp only [List.map_cons, List.map_nil, List.sum_cons, List.sum_nil, List.length_append, List.length_singleton]
    rw [Nat.mul_add]
    omega

/-- **C85**: with a single transition the roundings grow at most linearly with the number of slices. -/
theorem C85_linear {d : DBN} {tr : Name × Name} (ht : d.transitions = [tr]) {es : List (Dict Evidence)}
    {e : Dict Evidence} {vs : List Name} {m : Nat}
    (hm : ∀ k, ∀ e' ∈ es, treeRoundings (d.slice k) e'.length [tr.2] ≤ m) :
    d.filterRoundings es e vs ≤ treeRoundings (d.slice es.length) e.length vs + 2 * m * es.length :=
  Nat.add_le_add_left (DBN.drift_single ht hm) _

namespace Ex

/-- products of a small number are a thousandth too large; this favours some outcomes -/
def lopsided : Arith := { Arith.exact with mul := fun a b => if a < 1 / 2 then a * b * (1001 / 1000) else a * b }

theorem lopsided_accurate : lopsided.Accurate (1 / 1000) where
  nonneg := by norm_num
  lt_one := by norm_num
  add := (Arith.exact_accurate (by norm_num) (by norm_num)).add
  mul a b := by
    unfold lopsided
    dsimp only
    split
    · rw [show a * b * (1001 / 1000) - a * b = 1 / 1000 * (a * b) by ring, abs_mul]
      norm_num
    · rw [sub_self, abs_zero]
      positivity
  div := (Arith.exact_accurate (by norm_num) (by norm_num)).div
  sum_nil := rfl
  sum := (Arith.exact_accurate (u := 1 / 1000) (by norm_num) (by norm_num)).sum

/-- the prior of `a` in the two-slice network after the calls with that arithmetic -/
def fedPriorR (ops : List DynOp) : Option (List ℚ) :=
  ((PriorFeedback.runsR lopsided ops (.create Ex.dyn)).dbn.twoTbn.find? fun n => n.name = "a").map fun n => n.cpd.data

end Ex

example := C85_prior_feedback_error_partial Ex.dyn_ready Ex.dynOps_fair rfl Ex.lopsided_accurate rfl

-- the roundings in the prior that is fed back make a difference, also in the slice after
example : Ex.fedPriorR [.unroll .insertion 1000 none none] ≠ Ex.fedPrior [.unroll .insertion 1000 none none] := by
  decide +kernel

example := C85_linear (d := Ex.dyn) (tr := ("a", "c")) rfl (es := [Ex.ev, []]) (e := Ex.ev) (vs := ["d"])
  (m := treeRoundings Ex.bn 2 ["c"]) fun k e he => by
    rw [Ex.dyn_slice]
    simp only [List.mem_cons, List.not_mem_nil, or_false] at he
    rcases he with rfl | rfl
    · decide +kernel
    · decide +kernel
example : treeRoundings Ex.bn 2 ["c"] = 562 ∧ Ex.dyn.drift [Ex.ev, []] = 2152 ∧
    Ex.dyn.filterRoundings [Ex.ev, []] Ex.ev ["d"] = 2714 := by decide +kernel

end Primo
