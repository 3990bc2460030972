import Verif.Lemmas.SoftFeedback
import Verif.Lemmas.Leak
import Verif.Props.Exact

/-!
# Properties of dynamic networks and of the two classes that unroll them

C46 to C49.
-/

namespace Primo
open JoinTree

/-! ## Concrete dynamic networks -/

namespace Ex

/-- both networks are `a → c ← b, c → d`; the posterior of `c` becomes the prior of `a` -/
def dyn : DBN := ⟨bn, bn, [("a", "c")]⟩

theorem dyn_ready : dyn.Ready where
  b0 := bn_perfect.tree
  b0_nonneg := bn_nonneg
  b0_connected := bn_connected
  two := bn_perfect.tree
  two_nonneg := bn_nonneg
  two_connected := bn_connected
  targets := by decide
  node := fun tr h => by
    simp only [dyn, List.mem_singleton] at h
    subst h
    exact ⟨na, by simp [dyn, bn], rfl, rfl, rfl, by decide, by decide⟩
  source := by decide

theorem dyn_softReady : dyn.SoftReady where
  b0 := bn_perfect.tree
  b0_nonneg := bn_nonneg
  b0_connected := bn_connected
  two := bn_perfect.tree
  two_nonneg := bn_nonneg
  two_connected := bn_connected
  targets := by decide
  node := by decide
  source := by decide

theorem dyn_slice (k : Nat) : dyn.slice k = bn := by
  unfold DBN.slice; split <;> rfl

theorem dyn_allows (k : Nat) : dyn.Allows k 1000 (some ev) := by
  unfold DBN.Allows
  rw [dyn_slice]
  exact ⟨ev_legal, ev_nonneg, by decide⟩

theorem dyn_allows_none (k : Nat) : dyn.Allows k 1000 none := by
  unfold DBN.Allows
  rw [dyn_slice]
  exact ⟨legal_nil, by intro v l h; simp at h, by decide⟩

/-- five calls over three slices -/
def dynOps : List DynOp := [.setEvidence .insertion 1000 (some ev), .marginals .reversed 0 ["d", "a"],
  .unroll .reversed 1000 none none, .unroll .insertion 1000 none (some false),
  .setEvidence .reversed 1000 (some ev)]

theorem dynOps_fair : FairHistory dyn ⟨[], none⟩ dynOps :=
  ⟨dyn_allows 0, trivial, ⟨dyn_allows_none 0, by decide⟩, ⟨dyn_allows_none 1, by decide⟩, dyn_allows 2,
    trivial⟩

/-- a target distribution for `b` with an observation of `d` -/
def softEv : Dict Evidence := [("d", .hard "t"), ("b", .soft [1 / 4, 3 / 4, 0])]

/-- four calls over two slices -/
def softOps : List DynOp := [.unroll .insertion 1000 (some softEv) none, .marginals .reversed 0 ["c"],
  .setEvidence .insertion 1000 (some []), .unroll .reversed 1000 none none,
  .setEvidence .insertion 1000 (some softEv)]

end Ex

/-! ## C46 -/

/-- **C46**: `t` is the number of `unroll` calls that returned, whatever the calls were and whether or
not others raised. -/
theorem C46_prior_time (d : DBN) (ops : List DynOp) :
    (PriorFeedback.runs ops (.create d)).t = PriorFeedback.unrolls ops (.create d) := by
  rw [PriorFeedback.runs_t (PriorFeedback.create_inv d)]
  simp [PriorFeedback.create]

/-- **C46** for `SoftEvidenceExact`. -/
theorem C46_soft_time (d : DBN) (ops : List DynOp) :
    (SoftFeedback.runs ops (.create d)).t = SoftFeedback.unrolls ops (.create d) := by
  rw [SoftFeedback.runs_t (SoftFeedback.create_inv d)]
  simp [SoftFeedback.create]

example : (PriorFeedback.runs Ex.dynOps (.create Ex.dyn)).t = 2 := by decide +kernel
example : PriorFeedback.unrolls (Ex.dynOps ++ [.unroll .insertion 0 none none,
    .unroll .insertion 9 (some [("zzz", .hard "t")]) none]) (.create Ex.dyn) = 3 := by decide +kernel
example : SoftFeedback.unrolls (Ex.softOps ++ [.unroll .insertion 0 none none, .unroll .insertion 1000 none none,
    .unroll .insertion 9 (some [("zzz", .hard "t")]) none]) (.create Ex.dyn) = 4 := by decide +kernel

/-- **C46**: evidence is pending exactly if a call of `set_evidence` returned and no `unroll` returned
since. -/
theorem C46_prior_pending (d : DBN) (ops : List DynOp) :
    (PriorFeedback.runs ops (.create d)).evidence = true ↔
      ∃ pre op post, ops = pre ++ op :: post ∧ op.IsSet ∧
        (PriorFeedback.call op (PriorFeedback.runs pre (.create d))).2 = none ∧
        ∀ a op' b, post = a ++ op' :: b → op'.IsUnroll →
          (PriorFeedback.call op' (PriorFeedback.runs (pre ++ op :: a) (.create d))).2 ≠ none :=
  PriorFeedback.runs_flag ops rfl

/-- **C46** for `SoftEvidenceExact`. -/
theorem C46_soft_pending (d : DBN) (ops : List DynOp) :
    (SoftFeedback.runs ops (.create d)).evidence = true ↔
      ∃ pre op post, ops = pre ++ op :: post ∧ op.IsSet ∧
        (SoftFeedback.call op (SoftFeedback.runs pre (.create d))).2 = none ∧
        ∀ a op' b, post = a ++ op' :: b → op'.IsUnroll →
          (SoftFeedback.call op' (SoftFeedback.runs (pre ++ op :: a) (.create d))).2 ≠ none :=
  SoftFeedback.runs_flag ops rfl

example : (PriorFeedback.runs Ex.dynOps (.create Ex.dyn)).evidence = true ∧
    (PriorFeedback.runs (Ex.dynOps.take 3) (.create Ex.dyn)).evidence = false := by decide +kernel

/-- **C46**: without pending evidence, `unroll()` enters no evidence. -/
theorem C46_prior_unroll_none {s : PriorFeedback} (h : s.evidence = false) (so : SetOrder) (limit : Nat)
    (soft : Option Bool) : s.unroll so limit none soft = s.unroll so limit (some []) soft := by
  have : ∀ ev : Option (Dict Evidence), (¬ s.evidence = true ∨ ev ≠ none) := fun _ => Or.inl (by rw [h]; simp)
  unfold PriorFeedback.unroll
  rw [if_pos (this _), if_pos (this _)]
  rfl

/-- **C46** for `SoftEvidenceExact`. -/
theorem C46_soft_unroll_none {s : SoftFeedback} (h : s.evidence = false) (so : SetOrder) (limit : Nat)
    (kwargs : Bool) : s.unroll so limit none kwargs = s.unroll so limit (some []) kwargs := by
  have : ∀ ev : Option (Dict Evidence), (¬ s.evidence = true ∨ ev ≠ none) := fun _ => Or.inl (by rw [h]; simp)
  unfold SoftFeedback.unroll
  rw [if_pos (this _), if_pos (this _)]
  rfl

/-- **C46, partial**: with pending evidence, `unroll()` does what `unroll(evidence)` would have done
instead of `set_evidence(evidence)`.  Missing: a `set_evidence` that raised in between
(`C46_rejected_evidence_used`); queries in between are covered by `C47_prior_feedback_partial`. -/
theorem C46_prior_unroll_pending_partial {s s' : PriorFeedback} {so : SetOrder} {limit : Nat} {ev : Dict Evidence}
    (h : s.setEvidence so limit (some ev) = (s', none)) (soft : Option Bool) :
    (s'.unroll so limit none soft).2 = (s.unroll so limit (some ev) none).2 ∧
      ((s'.unroll so limit none soft).2 = none →
        s'.unroll so limit none soft = s.unroll so limit (some ev) none) := by
  unfold PriorFeedback.setEvidence at h
  cases hr : PriorFeedback.setInner so limit (some ev) false s with
  | mk s1 o =>
    rw [hr] at h
    cases o with
    | some e => cases h
    | none =>
      injection h with h
      have b : PriorFeedback.beforeUnroll so limit (some ev) none s = (s1, none) := by
        unfold PriorFeedback.beforeUnroll
        rw [if_pos (Or.inr (by simp))]
        exact hr
      have b' : PriorFeedback.beforeUnroll so limit none soft s' = (s', none) := by
        unfold PriorFeedback.beforeUnroll
        rw [if_neg (by rw [← h]; simp)]
      rw [PriorFeedback.unroll_ok b, PriorFeedback.unroll_ok b', ← h, PriorFeedback.unrollInner_flag]
      cases PriorFeedback.unrollInner so limit s1 with
      | mk s2 o => cases o with
        | some e => exact ⟨rfl, fun hh => by cases hh⟩
        | none => exact ⟨rfl, fun _ => rfl⟩

/-- **C46, partial**, for `SoftEvidenceExact`; the same is missing. -/
theorem C46_soft_unroll_pending_partial {s s' : SoftFeedback} {so : SetOrder} {limit : Nat} {ev : Dict Evidence}
    (h : s.setEvidence so limit (some ev) = (s', none)) (kwargs : Bool) :
    (s'.unroll so limit none kwargs).2 = (s.unroll so limit (some ev) false).2 ∧
      ((s'.unroll so limit none kwargs).2 = none →
        s'.unroll so limit none kwargs = s.unroll so limit (some ev) false) := by
  unfold SoftFeedback.setEvidence at h
  cases hr : SoftFeedback.setInner so limit (some ev) s with
  | mk s1 o =>
    rw [hr] at h
    cases o with
    | some e => cases h
    | none =>
      injection h with h
      have b : SoftFeedback.beforeUnroll so limit (some ev) false s = (s1, none) := by
        unfold SoftFeedback.beforeUnroll
        rw [if_pos (Or.inr (by simp)), if_neg (by simp)]
        exact hr
      have b' : SoftFeedback.beforeUnroll so limit none kwargs s' = (s', none) := by
        unfold SoftFeedback.beforeUnroll
        rw [if_neg (by rw [← h]; simp)]
      rw [SoftFeedback.unroll_ok b, SoftFeedback.unroll_ok b', ← h, SoftFeedback.unrollInner_flag]
      cases SoftFeedback.unrollInner so limit s1 with
      | mk s2 o => cases o with
        | some e => exact ⟨rfl, fun hh => by cases hh⟩
        | none => exact ⟨rfl, fun _ => rfl⟩

example : ((PriorFeedback.create Ex.dyn).setEvidence .insertion 1000 (some Ex.ev)).2 = none ∧
    ((SoftFeedback.create Ex.dyn).setEvidence .insertion 1000 (some [("d", .hard "t")])).2 = none := by
  decide +kernel

/-- **C46**: no evidence leaks.  After two histories that lead to the same time and the same fed-back
priors, `set_evidence(ev)` and `unroll(ev)` do the same: they raise the same exception or end in the
same state, including the tree.  What was entered before, in this or an earlier slice, plays no role. -/
theorem C46_prior_no_leak (d d' : DBN) (ops ops' : List DynOp) (s s' : PriorFeedback)
    (hs : s = .runs ops (.create d)) (hs' : s' = .runs ops' (.create d'))
    (hd : s'.dbn = s.dbn) (ht : s'.t = s.t) (so : SetOrder) (limit : Nat) (ev : Dict Evidence)
    (soft : Option Bool) :
    ((s'.setEvidence so limit (some ev)).2 = (s.setEvidence so limit (some ev)).2 ∧
      ((s.setEvidence so limit (some ev)).2 = none →
        s'.setEvidence so limit (some ev) = s.setEvidence so limit (some ev))) ∧
    (s'.unroll so limit (some ev) soft).2 = (s.unroll so limit (some ev) soft).2 ∧
      ((s.unroll so limit (some ev) soft).2 = none →
        s'.unroll so limit (some ev) soft = s.unroll so limit (some ev) soft) := by
  have h : s.Inv := hs ▸ PriorFeedback.runs_inv (PriorFeedback.create_inv d) ops
  have h' : s'.Inv := hs' ▸ PriorFeedback.runs_inv (PriorFeedback.create_inv d') ops'
  exact ⟨PriorFeedback.setEvidence_same h h' hd ht so limit _, PriorFeedback.unroll_same h h' hd ht so limit _ _⟩

/-- **C46** for `SoftEvidenceExact`: the arrays carried over from the last slice count as well. -/
theorem C46_soft_no_leak (d d' : DBN) (ops ops' : List DynOp) (s s' : SoftFeedback)
    (hs : s = .runs ops (.create d)) (hs' : s' = .runs ops' (.create d'))
    (hd : s'.dbn = s.dbn) (ht : s'.t = s.t) (hte : s'.transitionEvidence = s.transitionEvidence)
    (so : SetOrder) (limit : Nat) (ev : Dict Evidence) (kwargs : Bool) :
    ((s'.setEvidence so limit (some ev)).2 = (s.setEvidence so limit (some ev)).2 ∧
      ((s.setEvidence so limit (some ev)).2 = none →
        s'.setEvidence so limit (some ev) = s.setEvidence so limit (some ev))) ∧
    (s'.unroll so limit (some ev) kwargs).2 = (s.unroll so limit (some ev) kwargs).2 ∧
      ((s.unroll so limit (some ev) kwargs).2 = none →
        s'.unroll so limit (some ev) kwargs = s.unroll so limit (some ev) kwargs) := by
  have h : s.Inv := hs ▸ SoftFeedback.runs_inv (SoftFeedback.create_inv d) ops
  have h' : s'.Inv := hs' ▸ SoftFeedback.runs_inv (SoftFeedback.create_inv d') ops'
  exact ⟨SoftFeedback.setEvidence_same h h' hd ht hte so limit _,
    SoftFeedback.unroll_same h h' hd ht hte so limit _ _⟩

/-- **C46**: entering evidence, by `set_evidence` or by `unroll`, leaves the tree that a new tree of the
slice's network has after `set_evidence`. -/
theorem C46_prior_fresh (d : DBN) (ops : List DynOp) (s s' : PriorFeedback)
    (hs : s = .runs ops (.create d)) {so : SetOrder} {limit : Nat} {ev : Option (Dict Evidence)}
    (h : s.setEvidence so limit ev = (s', none)) :
    ∃ t0 t1, JoinTree.create so (if s.t = 0 then s.dbn.b0 else s.dbn.twoTbn) none = .ok t0 ∧
      t0.setEvidence so limit (if s.t = 0 then s.dbn.b0 else s.dbn.twoTbn) (ev.getD []) false =
        (t1, none) ∧ s' = { s with ft := some ⟨decide (s.t ≠ 0), t1⟩, evidence := true } := by
  have hi : s.Inv := hs ▸ PriorFeedback.runs_inv (PriorFeedback.create_inv d) ops
  unfold PriorFeedback.setEvidence at h
  cases hr : PriorFeedback.setInner so limit ev false s with
  | mk s1 o =>
    rw [hr] at h
    cases o with
    | some e => cases h
    | none =>
      injection h with h
      obtain ⟨t0, t1, h1, h2, h3⟩ := PriorFeedback.setInner_fresh hi hr
      exact ⟨t0, t1, h1, h2, by rw [← h, h3]⟩

/-- **C46** for `SoftEvidenceExact`. -/
theorem C46_soft_fresh (d : DBN) (ops : List DynOp) (s s' : SoftFeedback)
    (hs : s = .runs ops (.create d)) {so : SetOrder} {limit : Nat} {ev : Option (Dict Evidence)}
    (h : s.setEvidence so limit ev = (s', none)) :
    ∃ t0 t1, JoinTree.create so (if s.t = 0 then s.dbn.b0 else s.dbn.twoTbn) none = .ok t0 ∧
      t0.setEvidence so limit (if s.t = 0 then s.dbn.b0 else s.dbn.twoTbn)
        (if s.t = 0 then ev.getD [] else SoftFeedback.update (ev.getD []) s.transitionEvidence) true =
        (t1, none) ∧ s' = { s with ft := some ⟨decide (s.t ≠ 0), t1⟩, evidence := true } := by
  have hi : s.Inv := hs ▸ SoftFeedback.runs_inv (SoftFeedback.create_inv d) ops
  unfold SoftFeedback.setEvidence at h
  cases hr : SoftFeedback.setInner so limit ev s with
  | mk s1 o =>
    rw [hr] at h
    cases o with
    | some e => cases h
    | none =>
      injection h with h
      obtain ⟨t0, t1, h1, h2, h3⟩ := SoftFeedback.setInner_fresh hi hr
      exact ⟨t0, t1, h1, h2, by rw [← h, h3]⟩

/-- the prior of `a` in the two-slice network after the calls -/
def Ex.fedPrior (ops : List DynOp) : Option (List ℚ) :=
  ((PriorFeedback.runs ops (.create Ex.dyn)).dbn.twoTbn.find? fun n => n.name = "a").map fun n => n.cpd.data

/-- evidence whose second entry is rejected -/
def Ex.badEv : Dict Evidence := [("b", .hard "x"), ("c", .hard "zzz")]

/-- **C46, a case the claim leaves open**: `set_evidence(ev)` returns, a second `set_evidence(bad)`
raises.  A later `unroll()` uses neither `ev` nor nothing, but the entries of `bad` in front of the
offending one: the fed-back prior is that of `unroll({"b": "x"})`. -/
theorem C46_rejected_evidence_used :
    (PriorFeedback.call (.setEvidence .insertion 1000 (some Ex.badEv))
      (PriorFeedback.runs [.setEvidence .insertion 1000 (some Ex.ev)] (.create Ex.dyn))).2 =
        some .valueError ∧
    let after := Ex.fedPrior [.setEvidence .insertion 1000 (some Ex.ev),
      .setEvidence .insertion 1000 (some Ex.badEv), .unroll .insertion 1000 none none]
    after = Ex.fedPrior [.unroll .insertion 1000 (some [("b", .hard "x")]) none] ∧
    after ≠ Ex.fedPrior [.unroll .insertion 1000 (some Ex.ev) none] ∧
    after ≠ Ex.fedPrior [.unroll .insertion 1000 none none] := by
  decide +kernel


/-! ## exact answers -/

/-- The query `q` in state `s` returns, for variables inside one family, the posterior of `net` under
the evidence `e`, and changes nothing. -/
def Answers {S : Type} (q : SetOrder → Nat → List Name → S × Except PyErr Factor) (s : S) (net : BN)
    (e : Dict Evidence) : Prop :=
  ∀ n ∈ net, ∀ vs, (∀ v ∈ vs, v ∈ n.family) → ∀ so limit, ∃ r, q so limit vs = (s, .ok r) ∧
    r.WF net.card ∧ (∀ v ∈ r.variableOrder, r.values.get? v = some (net.lab v)) ∧
    (∀ v, v ∈ r.variableOrder ↔ v ∈ vs) ∧ ∀ σ, Legal net.card vs σ → r.eval σ = posterior net e vs σ

/-- `marginal_probabilities` returns the posterior of each outcome. -/
def AnswersDict {S : Type} (q : SetOrder → Nat → Name → S × Except PyErr (Dict ℚ)) (s : S) (net : BN)
    (e : Dict Evidence) : Prop :=
  ∀ v ∈ net.names, ∀ so limit, q so limit v = (s, .ok ((net.lab v).zip
    ((List.range (net.card v)).map fun i => posterior net e [v] fun _ => i)))

theorem JTree.Exactly.dict {bn : BN} {ev : Dict Evidence} {t : JTree} (h : t.Exactly bn ev)
    {v : Name} (hv : v ∈ bn.names) (so : SetOrder) (limit : Nat) :
    ∃ r, t.marginals so limit [v] = (t, .ok r) ∧ marginalDict v r = .ok ((bn.lab v).zip
      ((List.range (bn.card v)).map fun i => posterior bn ev [v] fun _ => i)) := by
  obtain ⟨r, r1, r2, r3, r4, r5, r6⟩ := h.table hv so limit
  refine ⟨r, r1, ?_⟩
  have hd : r.potentials.data = (List.range (bn.card v)).map fun i => posterior bn ev [v] fun _ => i := by
    rw [NDArray.data_of_shape r5]
    refine List.map_congr_left fun i hi => ?_
    exact r6 (fun _ => i) (List.mem_range.1 hi)
  unfold marginalDict
  rw [Dict.getE_ok r4, ok_bind, r2, ok_bind, hd]
  rfl

namespace PriorFeedback

theorem answers {s : PriorFeedback} {f : SliceTree} {net : BN} {e : Dict Evidence} (hf : s.ft = some f)
    (h : f.tree.Exactly net e) : Answers (fun so limit vs => s.marginals so limit vs) s net e ∧
      AnswersDict (fun so limit v => s.marginalProbabilities so limit v) s net e := by
  have key : ∀ so limit vs r, f.tree.marginals so limit vs = (f.tree, .ok r) →
      s.marginals so limit vs = (s, .ok r) := by
    intro so limit vs r hr
    unfold PriorFeedback.marginals
    rw [hf]
    dsimp only [SliceTree.marginals]
    rw [hr]
    obtain ⟨a, b, c, d⟩ := s
    dsimp only at hf ⊢
    rw [hf]
  refine ⟨fun n hn vs hvs so limit => ?_, fun v hv so limit => ?_⟩
  · obtain ⟨k, vars, hk, hf'⟩ := h.family n hn
    obtain ⟨r, r1, r2⟩ := h.answer vs ⟨k, vars, hk, fun x hx => hf' x (hvs x hx)⟩ so limit
    exact ⟨r, key _ _ _ _ r1, r2⟩
  · obtain ⟨r, r1, r2⟩ := h.dict hv so limit
    dsimp only [PriorFeedback.marginalProbabilities]
    rw [key _ _ _ _ r1]
    dsimp only
    rw [ok_bind, r2]

end PriorFeedback

namespace SoftFeedback

theorem answers {s : SoftFeedback} {f : SliceTree} {net : BN} {e : Dict Evidence} (hf : s.ft = some f)
    (h : f.tree.Exactly net e) : Answers (fun so limit vs => s.marginals so limit vs) s net e ∧
      AnswersDict (fun so limit v => s.marginalProbabilities so limit v) s net e := by
  have key : ∀ so limit vs r, f.tree.marginals so limit vs = (f.tree, .ok r) →
      s.marginals so limit vs = (s, .ok r) := by
    intro so limit vs r hr
    unfold SoftFeedback.marginals
    rw [hf]
    dsimp only [SliceTree.marginals]
    rw [hr]
    obtain ⟨a, b, c, d, g⟩ := s
    dsimp only at hf ⊢
    rw [hf]
  refine ⟨fun n hn vs hvs so limit => ?_, fun v hv so limit => ?_⟩
  · obtain ⟨k, vars, hk, hf'⟩ := h.family n hn
    obtain ⟨r, r1, r2⟩ := h.answer vs ⟨k, vars, hk, fun x hx => hf' x (hvs x hx)⟩ so limit
    exact ⟨r, key _ _ _ _ r1, r2⟩
  · obtain ⟨r, r1, r2⟩ := h.dict hv so limit
    dsimp only [SoftFeedback.marginalProbabilities]
    rw [key _ _ _ _ r1]
    dsimp only
    rw [ok_bind, r2]

end SoftFeedback

/-! ## C47 -/

/-- **C47, partial.**  After any history of allowed calls on a dynamic network whose slices have exact
trees, there are the networks that the definition of prior feedback prescribes (`Slices`) such that:
the two-slice network of the object is the prescribed one; the time is the number of slices left;
every further allowed call succeeds; queries return the posterior of the prescribed network of the
slice under the evidence set for it.  Between `unroll` and the next `set_evidence` queries still refer
to the slice just left.  Missing: slices whose default tree lacks the running intersection property
or which are not connected (the tree is wrong there, refuted below). -/
theorem C47_prior_feedback_partial {d : DBN} (h : d.Ready) {ops : List DynOp}
    (ho : FairHistory d ⟨[], none⟩ ops) {g : Diary} (hg : g = Diary.notes ⟨[], none⟩ ops)
    {s : PriorFeedback} (hs : s = .runs ops (.create d)) :
    ∃ net two, Slices d g.past net two ∧ s.dbn = { d with twoTbn := two } ∧ s.t = g.past.length ∧
      (∀ op : DynOp, op.Fair d g.past.length → ¬ op.IsQuery → (PriorFeedback.call op s).2 = none) ∧
      (∀ e, g.now = some e → Answers (fun so limit vs => s.marginals so limit vs) s net e ∧
        AnswersDict (fun so limit v => s.marginalProbabilities so limit v) s net e) ∧
      (g.now = none → (g.past = [] ∧ ∀ so limit vs, s.marginals so limit vs = (s, .error .attributeError)) ∨
        ∃ past e net' two', g.past = past ++ [e] ∧
        Slices d past net' two' ∧ Answers (fun so limit vs => s.marginals so limit vs) s net' e ∧
        AnswersDict (fun so limit v => s.marginalProbabilities so limit v) s net' e) := by
  obtain ⟨net, two, ht⟩ := (PriorFeedback.tracks_create d h).runs h ops ho
  rw [← hg, ← hs] at ht
  refine ⟨net, two, ht.slices, ht.dbn, ht.time, fun op hop hq => (ht.call h hop).1 ?_, fun e he => ?_,
    fun hn => ?_⟩
  · rintro so limit vs rfl
    exact hq trivial
  · obtain ⟨-, f, h1, h2⟩ := ht.now e he
    exact PriorFeedback.answers h1 h2
  · rcases ht.old hn with ⟨h1, h2⟩ | ⟨past, e, net', two', h1, h2, f, h3, h4⟩
    · refine Or.inl ⟨h1, fun so limit vs => ?_⟩
      unfold PriorFeedback.marginals
      rw [h2]
    · exact Or.inr ⟨past, e, net', two', h1, h2, PriorFeedback.answers h3 h4⟩

example := C47_prior_feedback_partial Ex.dyn_ready Ex.dynOps_fair rfl rfl

theorem Fed.unique {trs : List (Name × Name)} {net two two₁ two₂ : BN} {e : Dict Evidence}
    (hnd : two.names.Nodup) (h₁ : Fed trs net e two two₁) (h₂ : Fed trs net e two two₂) : two₁ = two₂ := by
  have hb : two₁.bare = two₂.bare := h₁.bare.trans h₂.bare.symm
  have hl : two₁.length = two₂.length := BN.length_of_bare hb
  refine List.ext_getElem hl fun i i1 i2 => ?_
  have hi := List.getElem_of_eq hb (i := i) (by simpa [BN.bare] using i1)
  simp only [BN.bare, List.getElem_map] at hi
  have m1 := List.getElem_mem i1
  have m2 := List.getElem_mem i2
  generalize two₁[i] = n at hi m1
  generalize two₂[i] = m at hi m2
  have hname : n.name = m.name := by injection hi
  by_cases ht : n.name ∈ trs.map Prod.fst
  · obtain ⟨tr, htr, he⟩ := List.mem_map.1 ht
    obtain ⟨a1, a2⟩ := h₁.fed tr htr n m1 he.symm
    obtain ⟨b1, b2⟩ := h₂.fed tr htr m m2 (hname.symm.trans he.symm)
    have hc : n.cpd = m.cpd := by
      have hd : n.cpd.data = m.cpd.data := by
        rw [NDArray.data_of_shape a1, NDArray.data_of_shape b1]
        refine List.map_congr_left fun i hi => ?_
        rw [a2 (fun _ => i) (List.mem_range.1 hi), b2 (fun _ => i) (List.mem_range.1 hi)]
      generalize n.cpd = x at *
      generalize m.cpd = y at *
      obtain ⟨xs, xd, xp⟩ := x
      obtain ⟨ys, yd, yp⟩ := y
      cases (a1.trans b1.symm : xs = ys)
      cases (hd : xd = yd)
      rfl
    obtain ⟨c1, c2, c3, c4, c5, c6, c7, c8⟩ := n
    obtain ⟨e1, e2, e3, e4, e5, e6, e7, e8⟩ := m
    injection hi with f1 f2 f3 f4 f5 f6 f7 f8
    dsimp only at hc
    subst f1 f2 f3 f4 f5 f6 f8 hc
    rfl
  · exact BN.eq_of_name hnd (h₁.kept n m1 ht) (h₂.kept m m2 (hname ▸ ht)) hname

/-- **C47**: the networks of the slices are determined by the evidence history. -/
theorem C47_slices_unique {d : DBN} (hnd : d.twoTbn.names.Nodup) {es : List (Dict Evidence)}
    {net₁ two₁ net₂ two₂ : BN} (h₁ : Slices d es net₁ two₁) (h₂ : Slices d es net₂ two₂) :
    net₁ = net₂ ∧ two₁ = two₂ := by
  have names : ∀ {es : List (Dict Evidence)} {net two : BN}, Slices d es net two →
      two.names = d.twoTbn.names := by
    intro es net two h
    induction h with
    | start => rfl
    | next _ hf ih => rw [BN.names_of_bare hf.bare, ih]
  induction h₁ generalizing net₂ two₂ with
  | start =>
    generalize hes : ([] : List (Dict Evidence)) = es at h₂
    cases h₂ with
    | start => exact ⟨rfl, rfl⟩
    | next _ _ => simp at hes
  | @next es net two two' e hs hf ih =>
    generalize hes : es ++ [e] = es' at h₂
    cases h₂ with
    | start => simp at hes
    | @next es₂ net₂ two₂ two₂' e₂ hs₂ hf₂ =>
      have := List.append_inj' hes rfl
      obtain ⟨rfl, he⟩ := this
      cases he
      obtain ⟨rfl, rfl⟩ := ih hs₂
      have := hf.unique (by rw [names hs]; exact hnd) hf₂
      exact ⟨this, this⟩


/-- the posterior of a concrete network, read off the result of `naive_marginals` -/
theorem Ex.posterior_naive {net : BN} (hc : net.Consistent) {e : Dict Evidence} (he : LegalEvidence net e)
    {v : Name} {xs : List ℚ}
    (h : (VE.naiveMarginals .insertion net [v] e).map (fun r => (r.variableOrder,
      (List.range (net.card v)).map fun i => r.potentials.get [i])) = .ok ([v], xs))
    (hv : ∀ x ∈ [v], x ∈ net.names) {i : Nat} (hi : i < net.card v) :
    posterior net e [v] (fun _ => i) = xs.getD i 0 := by
  obtain ⟨r, h1, -, -, -, h5⟩ := C13_naive_exact .insertion net hc e he [v] hv
  rw [h1] at h
  simp only [Except.map, Except.ok.injEq, Prod.mk.injEq] at h
  rw [← h5 (fun _ => i) (by simpa [Legal] using hi), ← h.2]
  unfold Factor.eval
  rw [h.1]
  simp [hi]

/-- the chordless cycle, with `a` fed by itself -/
def Ex.cycleDyn : DBN := ⟨Ex.cycle, Ex.cycle, [("a", "a")]⟩

theorem Ex.cycle_ev_legal : LegalEvidence Ex.cycle [("e", .hard "t")] := by
  refine ⟨by decide, by decide, fun v x h => ?_, fun v x h => ?_⟩
  · simp only [List.mem_cons, List.not_mem_nil, or_false, Prod.mk.injEq, Evidence.hard.injEq] at h
    obtain ⟨rfl, rfl⟩ := h
    decide
  · simp at h

theorem Ex.cycle_posterior : posterior Ex.cycle [("e", .hard "t")] ["a"] (fun _ => 0) = 43 / 50 := by
  rw [Ex.posterior_naive Ex.cycle_consistent Ex.cycle_ev_legal (xs := [43 / 50, 7 / 50])
    (by decide +kernel) (by decide) (by decide)]
  rfl

/-- **C47 is false in general**: in the chordless cycle the tree loses the evidence; the prior fed to
the next slice is 1/2, the posterior is 43/50. -/
theorem C47_chordless_refuted :
    ((PriorFeedback.runs [.unroll .insertion 1000 (some [("e", .hard "t")]) none]
      (.create Ex.cycleDyn)).dbn.twoTbn.find? fun n => n.name = "a").map (fun n => n.cpd.data) =
        some [1 / 2, 1 / 2] ∧
    posterior Ex.cycle [("e", .hard "t")] ["a"] (fun _ => 0) = 43 / 50 :=
  ⟨by decide +kernel, Ex.cycle_posterior⟩

/-! ## C28 and C48: posteriors as evidence -/

/-- **C28, any number of observations and target arrays.**  Each array acts as the likelihood
`array / prior` of its variable, whatever happened to the tree before. -/
theorem C28_soft_evidence {bn : BN} (h : TreeSetup bn none) (hn : bn.NonNeg) (hco : bn.Connected)
    {ev : Dict Evidence} (he : LegalEvidence bn ev) (hsup : Supported bn ev) {limit : Nat}
    (hl : bn.length ≤ limit) (so₁ so₂ : SetOrder) (ops : List TreeOp) :
    ∃ t t', create so₁ bn none = .ok t ∧
      (TreeOp.runs ops t).setEvidence so₂ limit bn ev true = (t', none) ∧
      Answers (fun so limit vs => t'.marginals so limit vs) t' bn (softened bn ev) := by
  obtain ⟨t, h1, h2⟩ := soft_exactly h hn hco he hsup hl so₁ so₂
  obtain ⟨t', h3, h4⟩ := h2 _ (TreeOp.runs_shape ops t)
  refine ⟨t, t', h1, h3, fun n hn vs hvs so limit => ?_⟩
  obtain ⟨k, vars, hk, hf'⟩ := h4.family n hn
  exact h4.answer vs ⟨k, vars, hk, fun x hx => hf' x (hvs x hx)⟩ so limit

/-- **C28**: a single target distribution is the posterior of its variable, and every other posterior
follows from it by Jeffrey's rule: the conditionals given the variable stay as they are. -/
theorem C28_jeffrey {bn : BN} (hc : bn.Consistent) (hn : bn.NonNeg) {v : Name} (hv : v ∈ bn.names)
    {e : List ℚ} (hlen : e.length = bn.card v) (hsum : e.sum = 1)
    (hsupp : ∀ i < bn.card v, priorAt bn v i = 0 → e.getD i 0 = 0) (σ : Assign) :
    (σ v < bn.card v → posterior bn (softened bn [(v, .soft e)]) [v] σ = e.getD (σ v) 0) ∧
    ∀ Q, v ∉ Q → posterior bn (softened bn [(v, .soft e)]) Q σ = ∑ i ∈ Finset.range (bn.card v),
      if priorAt bn v i = 0 then 0
      else e.getD i 0 * (posterior bn [] (v :: Q) (Function.update σ v i) / priorAt bn v i) :=
  ⟨posterior_softened_self hc hn hv hlen hsum hsupp, fun _ hq => posterior_softened hc hn hv hlen hsum hsupp hq σ⟩

theorem Ex.prior_b : priorAt Ex.bn "b" 0 = 1 / 2 ∧ priorAt Ex.bn "b" 1 = 1 / 2 := by
  have h := fun i => Ex.posterior_naive (i := i) Ex.bn_consistent legal_nil (v := "b") (xs := [1 / 2, 1 / 2, 0])
    (by decide +kernel) (by decide)
  exact ⟨h 0 (by decide), h 1 (by decide)⟩

theorem Ex.softEv_legal : LegalEvidence Ex.bn Ex.softEv := by
  refine ⟨by decide, by decide, fun v x h => ?_, fun v x h => ?_⟩
  · simp only [softEv, List.mem_cons, List.not_mem_nil, or_false, Prod.mk.injEq, Evidence.hard.injEq,
      reduceCtorEq, and_false] at h
    obtain ⟨rfl, rfl⟩ := h
    decide
  · simp only [softEv, List.mem_cons, List.not_mem_nil, or_false, Prod.mk.injEq, Evidence.soft.injEq,
      reduceCtorEq, and_false, false_or] at h
    obtain ⟨rfl, rfl⟩ := h
    decide

theorem Ex.supp_b : ∀ i < Ex.bn.card "b", priorAt Ex.bn "b" i = 0 →
    ([1 / 4, 3 / 4, 0] : List ℚ).getD i 0 = 0 := by
  intro i hi h
  have h3 : i < 3 := hi
  rcases (by omega : i = 0 ∨ i = 1 ∨ i = 2) with rfl | rfl | rfl
  · rw [Ex.prior_b.1] at h; norm_num at h
  · rw [Ex.prior_b.2] at h; norm_num at h
  · rfl

theorem Ex.softEv_supported : Supported Ex.bn Ex.softEv := by
  intro v e h
  simp only [softEv, List.mem_cons, List.not_mem_nil, or_false, Prod.mk.injEq, Evidence.soft.injEq,
    reduceCtorEq, and_false, false_or] at h
  obtain ⟨rfl, rfl⟩ := h
  exact ⟨by decide +kernel, ⟨1 / 4, by simp, by norm_num⟩, Ex.supp_b⟩

example := C28_soft_evidence Ex.bn_perfect.tree Ex.bn_nonneg Ex.bn_connected Ex.softEv_legal Ex.softEv_supported
  (limit := 1000) (by decide) .insertion .reversed Ex.history

example := C28_jeffrey Ex.bn_consistent Ex.bn_nonneg (v := "b") (by decide) (e := [1 / 4, 3 / 4, 0])
  (by decide) (by decide +kernel) Ex.supp_b


/-- two target arrays -/
def Ex.twoTargets : Dict Evidence := [("a", .soft [1 / 2, 1 / 2]), ("c", .soft [1 / 2, 1 / 2])]

/-- marginals of a factor tree after `set_evidence(ev, softPosteriors=True)` -/
def Ex.softAnswer (ev : Dict Evidence) (v : Name) : Except PyErr (List ℚ) := do
  let t ← create .insertion Ex.bn none
  let f ← (((t.setEvidence .insertion 1000 Ex.bn ev true).1).marginals .insertion 1000 [v]).2
  return f.potentials.data

/-- **C28 does not extend to two targets**: neither of the two distributions is met. -/
theorem C28_two_targets_refuted : Ex.softAnswer Ex.twoTargets "a" ≠ .ok [1 / 2, 1 / 2] ∧
    Ex.softAnswer Ex.twoTargets "c" ≠ .ok [1 / 2, 1 / 2] ∧
    Ex.softAnswer [("a", .soft [1 / 2, 1 / 2])] "a" = .ok [1 / 2, 1 / 2] := by
  decide +kernel

/-- **C48, for any number of transitions; partial.**  After any history of calls with evidence that can
be met, the object carries the posterior marginals of the transition sources in the slice just left
(`DBN.carried`), and queries return the posterior of the slice's network under these arrays and the
evidence set for the slice, each array acting as the likelihood `array / prior`; on a transition target
the array replaces other evidence.  Missing: slices whose default tree lacks the running intersection
property or which are not connected (refuted below). -/
theorem C48_soft_feedback_partial {d : DBN} (h : d.SoftReady) {ops : List DynOp}
    (ho : SoftFairHistory d ⟨[], none⟩ ops) {g : Diary} (hg : g = Diary.notes ⟨[], none⟩ ops)
    {s : SoftFeedback} (hs : s = .runs ops (.create d)) :
    s.dbn = d ∧ s.t = g.past.length ∧
      s.transitionEvidence.map (fun p => (p.1, p.2.data)) = d.carried g.past ∧
      (∀ op : DynOp, op.SoftFair d g → ¬ op.IsQuery → (SoftFeedback.call op s).2 = none) ∧
      (∀ e, g.now = some e → Answers (fun so limit vs => s.marginals so limit vs) s
          (d.slice g.past.length)
          (softened (d.slice g.past.length) (overridden (d.carried g.past) e)) ∧
        AnswersDict (fun so limit v => s.marginalProbabilities so limit v) s (d.slice g.past.length)
          (softened (d.slice g.past.length) (overridden (d.carried g.past) e))) ∧
      (g.now = none → (g.past = [] ∧ ∀ so limit vs, s.marginals so limit vs = (s, .error .attributeError)) ∨
        ∃ past e, g.past = past ++ [e] ∧
        Answers (fun so limit vs => s.marginals so limit vs) s (d.slice past.length)
          (softened (d.slice past.length) (overridden (d.carried past) e)) ∧
        AnswersDict (fun so limit v => s.marginalProbabilities so limit v) s (d.slice past.length)
          (softened (d.slice past.length) (overridden (d.carried past) e))) := by
  have ht := (SoftFeedback.tracks_create d).runs h ops ho
  rw [← hg, ← hs] at ht
  refine ⟨ht.dbn, ht.time, ht.te, fun op hop hq => (ht.call h hop).1 ?_, fun e he => ?_, fun hn => ?_⟩
  · rintro so limit vs rfl
    exact hq trivial
  · obtain ⟨f, h1, h2⟩ := ht.now e he
    exact SoftFeedback.answers h1 h2
  · rcases ht.old hn with ⟨h1, h2⟩ | ⟨past, e, h1, f, h3, h4⟩
    · refine Or.inl ⟨h1, fun so limit vs => ?_⟩
      unfold SoftFeedback.marginals
      rw [h2]
    · exact Or.inr ⟨past, e, h1, SoftFeedback.answers h3 h4⟩

theorem SoftFairHistory.append {d : DBN} {g : Diary} {ops ops' : List DynOp} :
    SoftFairHistory d g (ops ++ ops') ↔ SoftFairHistory d g ops ∧ SoftFairHistory d (g.notes ops) ops' := by
  induction ops generalizing g with
  | nil => simp [SoftFairHistory, Diary.notes]
  | cons op ops ih =>
    simp only [List.cons_append, SoftFairHistory, Diary.notes, List.foldl_cons]
    rw [ih, and_assoc]
    rfl

/-- the entries of a posterior that is not all zero sum to one -/
theorem posterior_list_sum {bn : BN} (hc : bn.Consistent) (hn : bn.NonNeg) {ev : Dict Evidence}
    (he : LegalEvidence bn ev) (hen : NonNegEvidence ev) {v : Name} (hv : v ∈ bn.names) {xs : List ℚ}
    (hx : xs = (List.range (bn.card v)).map fun i => posterior bn ev [v] fun _ => i)
    (hpos : ∃ x ∈ xs, x ≠ 0) : xs.sum = 1 := by
  obtain ⟨x, hm, hx0⟩ := hpos
  rw [hx] at hm
  obtain ⟨i, hi, rfl⟩ := List.mem_map.1 hm
  have hi' := List.mem_range.1 hi
  have hq : ∀ x ∈ [v], x ∈ bn.names := by simpa using hv
  have hZ : 0 < totalWeight bn ev fun _ => i := by
    refine lt_of_le_of_ne (sumOver_nonneg fun τ _ => weight_nonneg hn hen τ) fun h0 => hx0 ?_
    exact posterior_eq_zero hn hen hq (by simpa [Legal] using hi') h0.symm
  have hs := posterior_sum hc he hq hZ
  rw [(by simp : [v].toFinset = {v}), sumOver_singleton] at hs
  rw [← hs, hx, sum_map_range]
  refine Finset.sum_congr rfl fun j hj => posterior_dependsOn hc he _ _ fun x hx => ?_
  rw [Finset.mem_singleton] at hx
  rw [hx, Function.update_self]

/-- **C48, partial.**  With a single transition `(node, p)`: after any history, `unroll` and
`set_evidence()`, the marginal of `node` is the posterior marginal of `p` in the slice just left, which
is what `marginals([p])` returned after `unroll`.  The hypothesis on the history includes that this
marginal can be met by `node`, i.e. is zero where the prior of `node` is.  Missing: slices with
a default tree without the running intersection property or more than one component (refuted below). -/
theorem C48_single_transition_partial {d : DBN} (h : d.SoftReady) {node p : Name}
    (htr : d.transitions = [(node, p)]) {ops : List DynOp} {so₁ so₂ : SetOrder} {l₁ l₂ : Nat}
    {ev : Option (Dict Evidence)} {s₁ s₂ : SoftFeedback} {past : List (Dict Evidence)} {e : Dict Evidence}
    (ho : SoftFairHistory d ⟨[], none⟩ (ops ++ [.unroll so₁ l₁ ev none, .setEvidence so₂ l₂ none]))
    (hs₁ : s₁ = .runs (ops ++ [.unroll so₁ l₁ ev none]) (.create d))
    (hs₂ : s₂ = .runs (ops ++ [.unroll so₁ l₁ ev none, .setEvidence so₂ l₂ none]) (.create d))
    (hpast : (Diary.notes ⟨[], none⟩ (ops ++ [.unroll so₁ l₁ ev none])).past = past ++ [e])
    (so : SetOrder) (limit : Nat) :
    ∃ r₁ r₂, s₁.marginals so limit [p] = (s₁, .ok r₁) ∧ s₂.marginals so limit [node] = (s₂, .ok r₂) ∧
      r₁.variableOrder = [p] ∧ r₂.variableOrder = [node] ∧
      r₂.potentials.shape = r₁.potentials.shape ∧ r₂.potentials.data = r₁.potentials.data ∧
      r₁.potentials.data = (List.range ((d.slice past.length).card p)).map fun i =>
        posterior (d.slice past.length) (softened (d.slice past.length)
          (overridden (d.carried past) e)) [p] fun _ => i := by
  obtain ⟨ho1, ho2, ho3, -⟩ := SoftFairHistory.append.1 ho
  have ht0 := (SoftFeedback.tracks_create d).runs h ops ho1
  have ht1 := (SoftFeedback.tracks_create d).runs h (ops ++ [.unroll so₁ l₁ ev none])
    (SoftFairHistory.append.2 ⟨ho1, ho2, trivial⟩)
  have ht2 := (SoftFeedback.tracks_create d).runs h _ ho
  rw [← hs₁] at ht1
  rw [← hs₂] at ht2
  have hg1 : Diary.notes ⟨[], none⟩ (ops ++ [.unroll so₁ l₁ ev none]) = ⟨past ++ [e], none⟩ := by
    have : (Diary.notes ⟨[], none⟩ (ops ++ [.unroll so₁ l₁ ev none])).now = none := by
      simp [Diary.notes, Diary.note]
    cases hd : Diary.notes ⟨[], none⟩ (ops ++ [.unroll so₁ l₁ ev none]) with
    | mk a b => rw [hd] at this hpast; dsimp only at this hpast; rw [this, hpast]
  have hg1' : (Diary.notes ⟨[], none⟩ ops).note (.unroll so₁ l₁ ev none) = ⟨past ++ [e], none⟩ := by
    rw [← hg1]; simp [Diary.notes]
  have hg2 : Diary.notes ⟨[], none⟩ (ops ++ [.unroll so₁ l₁ ev none, .setEvidence so₂ l₂ none]) =
      ⟨past ++ [e], some []⟩ := by
    have : ops ++ [.unroll so₁ l₁ ev none, .setEvidence so₂ l₂ none] =
      (ops ++ [.unroll so₁ l₁ ev none]) ++ [.setEvidence so₂ l₂ none] := by simp
    rw [this, Diary.notes, List.foldl_append]
    have := hg1
    unfold Diary.notes at this
    rw [this]; rfl
  rw [hg1] at ht1
  rw [hg2] at ht2
  rw [hg1'] at ho3
  have hsl : d.slice (past ++ [e]).length = d.twoTbn := by unfold DBN.slice; rw [if_neg (by simp)]
  obtain ⟨f₁, hf₁, hx₁⟩ : ∃ f, s₁.ft = some f ∧ f.tree.Exactly (d.slice past.length)
      (softened (d.slice past.length) (overridden (d.carried past) e)) := by
    rcases ht1.old rfl with ⟨h1, -⟩ | ⟨past', e', h1, h2⟩
    · simp at h1
    · have := List.append_inj' h1 rfl
      obtain ⟨rfl, h3⟩ := this
      cases h3
      exact h2
  obtain ⟨f₂, hf₂, hx₂⟩ := ht2.now [] rfl
  dsimp only at hx₂
  obtain ⟨a1, a2, -⟩ := ho3
  dsimp only [Option.getD_none] at a1 a2
  rw [hsl] at hx₂ a1 a2
  have hnode := h.node (node, p) (by rw [htr]; simp)
  have hsrc := h.source (node, p) (by rw [htr]; simp)
  have hp : p ∈ (d.slice past.length).names := by
    unfold DBN.slice; split
    · exact hsrc.1
    · exact hsrc.2
  have hcard : d.twoTbn.card node = (d.slice past.length).card p := by
    unfold DBN.slice; split
    · exact hnode.2.1
    · exact hnode.2.2
  have hov : overridden (d.carried (past ++ [e])) [] = [(node, .soft
      ((List.range ((d.slice past.length).card p)).map fun i => posterior (d.slice past.length)
        (softened (d.slice past.length) (overridden (d.carried past) e)) [p] fun _ => i))] := by
    rw [DBN.carried_append, DBN.carry, htr]
    rfl
  rw [hov] at hx₂ a2
  generalize hxs : ((List.range ((d.slice past.length).card p)).map fun i => posterior (d.slice past.length)
        (softened (d.slice past.length) (overridden (d.carried past) e)) [p] fun _ => i) = xs at *
  have hlen : xs.length = d.twoTbn.card node := by rw [← hxs, hcard]; simp
  obtain ⟨b1, b2, b3⟩ := a2 node xs (by simp)
  obtain ⟨n1, n2, n3⟩ := h.net past.length
  have hleg : LegalEvidence (d.slice past.length) e ∧
      Supported (d.slice past.length) (overridden (d.carried past) e) := by
    have hu := ho2.1
    have hpe := hg1'
    simp only [Diary.note] at hpe
    have := congrArg Diary.past hpe
    dsimp only at this
    have := List.append_inj' this rfl
    obtain ⟨c1, c2⟩ := this
    injection c2 with c2
    rw [c1, c2] at hu
    exact ⟨hu.1, hu.2.1⟩
  have hsum : xs.sum = 1 := posterior_list_sum n1.consistent n2
    (LegalEvidence.overridden h hleg.1).softened (NonNegEvidence.softened n2 hleg.2) hp hxs.symm b2
  obtain ⟨r₁, q1, -, q3, -, q5, q6⟩ := hx₁.table hp so limit
  obtain ⟨r₂, w1, -, w3, -, w5, w6⟩ := hx₂.table hnode.1 so limit
  have hd1 : r₁.potentials.data = xs := by
    rw [NDArray.data_of_shape q5, ← hxs]
    exact List.map_congr_left fun i hi => q6 (fun _ => i) (List.mem_range.1 hi)
  have hd2 : r₂.potentials.data = xs := by
    rw [NDArray.data_of_shape w5]
    apply List.ext_getElem
    · simp [hlen]
    · intro i i1 i2
      simp only [List.length_map, List.length_range] at i1
      rw [List.getElem_map, List.getElem_range, w6 (fun _ => i) i1, posterior_softened_self
        h.two.consistent h.two_nonneg hnode.1 hlen hsum b3 (σ := fun _ => i) i1]
      simp [i2]
  have k1 : s₁.marginals so limit [p] = (s₁, .ok r₁) := by
    unfold SoftFeedback.marginals
    rw [hf₁]
    dsimp only [SliceTree.marginals]
    rw [q1]
    obtain ⟨a, b, c, d, g⟩ := s₁
    dsimp only at hf₁ ⊢
    rw [hf₁]
  have k2 : s₂.marginals so limit [node] = (s₂, .ok r₂) := by
    unfold SoftFeedback.marginals
    rw [hf₂]
    dsimp only [SliceTree.marginals]
    rw [w1]
    obtain ⟨a, b, c, d, g⟩ := s₂
    dsimp only at hf₂ ⊢
    rw [hf₂]
  exact ⟨r₁, r₂, k1, k2, q3, w3, by rw [q5, w5, hcard], by rw [hd1, hd2], hd1⟩

namespace Ex

theorem soft_first : SoftFairHistory dyn ⟨[], none⟩ [.unroll .insertion 1000 (some softEv) none] := by
  refine ⟨⟨⟨?_, ?_, by decide⟩, rfl⟩, trivial⟩
  · exact softEv_legal
  · have : overridden (dyn.carried ([] : List (Dict Evidence))) softEv = softEv := rfl
    show Supported bn (overridden (dyn.carried ([] : List (Dict Evidence))) softEv)
    rw [this]
    exact softEv_supported

/-- the posterior of `c` in the first slice -/
theorem carried_first : dyn.carried [softEv] = [("a", [23 / 351, 328 / 351])] := by
  have h := (C48_soft_feedback_partial dyn_softReady soft_first rfl rfl).2.2.1
  refine Eq.trans h.symm ?_
  decide +kernel

theorem prior_a : ∀ i < bn.card "a", priorAt bn "a" i ≠ 0 := fun i hi => prior_a_pos (fun _ => i) hi

theorem soft_second : SoftFairHistory dyn ⟨[], none⟩ ([] ++ [.unroll .insertion 1000 (some softEv) none,
    .setEvidence .reversed 1000 none]) := by
  refine ⟨soft_first.1, ⟨?_, ?_, by decide⟩, trivial⟩
  · exact legal_nil
  · show Supported bn (overridden (dyn.carried [softEv]) [])
    rw [carried_first]
    intro v e h
    simp only [overridden, List.filter_nil, List.map_cons, List.map_nil, List.nil_append, List.mem_cons,
      List.not_mem_nil, or_false, Prod.mk.injEq, Evidence.soft.injEq] at h
    obtain ⟨rfl, rfl⟩ := h
    exact ⟨by decide +kernel, ⟨23 / 351, by simp, by norm_num⟩, fun i hi h => absurd h (prior_a i hi)⟩

end Ex

example := C48_soft_feedback_partial Ex.dyn_softReady Ex.soft_second rfl rfl

example := C48_single_transition_partial Ex.dyn_softReady (node := "a") (p := "c") rfl Ex.soft_second rfl rfl
  (past := []) (e := Ex.softEv) rfl .insertion 0

/-- **C48 is false in general**: in the chordless cycle the tree loses the evidence; the marginal of
`a` in the next slice is 1/2, the posterior in the slice just left is 43/50. -/
theorem C48_chordless_refuted :
    ((SoftFeedback.runs [.unroll .insertion 1000 (some [("e", .hard "t")]) none,
      .setEvidence .insertion 1000 none] (.create Ex.cycleDyn)).marginals .insertion 1000 ["a"]).2.map
        (fun f => (f.variableOrder, f.potentials.data)) = .ok (["a"], [1 / 2, 1 / 2]) ∧
    posterior Ex.cycle [("e", .hard "t")] ["a"] (fun _ => 0) = 43 / 50 :=
  ⟨by decide +kernel, Ex.cycle_posterior⟩

/-- two transitions: `a` is fed by `a` and `d` by `c`; the slice just left and the next one -/
def Ex.twoTransitions (next : Bool) (v : Name) : Except PyErr (List ℚ) :=
  ((SoftFeedback.runs ([.unroll .insertion 1000 (some [("d", .hard "t")]) none] ++
    if next then [.setEvidence .insertion 1000 none] else [])
      (.create ⟨Ex.bn, Ex.bn, [("a", "a"), ("d", "c")]⟩)).marginals .insertion 1000 [v]).2.map
        fun f => f.potentials.data

/-- **C48 needs a single transition**: with two transitions neither marginal of the next slice is the
posterior of its source. -/
theorem C48_two_transitions_refuted :
    Ex.twoTransitions false "a" = .ok [80 / 467, 387 / 467] ∧
    Ex.twoTransitions false "c" = .ok [43 / 467, 424 / 467] ∧
    Ex.twoTransitions true "a" ≠ .ok [80 / 467, 387 / 467] ∧
    Ex.twoTransitions true "d" ≠ .ok [43 / 467, 424 / 467] := by
  decide +kernel

/-! ## C49 -/

/-- **C49, partial.**  `add_transition` appends the pair if its second node occurs in both networks and
its first in the two-slice network; otherwise it raises and changes nothing.  Missing: the exception
is a `StructureError` unless exactly the source is missing from the two-slice network (refuted
below). -/
theorem C49_add_transition_partial (d : DBN) (node p : Name) :
    ((p ∈ d.b0.names ∧ p ∈ d.twoTbn.names ∧ node ∈ d.twoTbn.names) ∧
      d.addTransition node p = ({ d with transitions := d.transitions ++ [(node, p)] }, none)) ∨
    (¬ (p ∈ d.b0.names ∧ p ∈ d.twoTbn.names ∧ node ∈ d.twoTbn.names) ∧
      d.addTransition node p = (d, some (if p ∈ d.b0.names ∧ p ∉ d.twoTbn.names then .keyError
        else .structureError))) := by
  unfold DBN.addTransition
  by_cases h1 : p ∈ d.b0.names <;> by_cases h2 : p ∈ d.twoTbn.names <;>
    by_cases h3 : node ∈ d.twoTbn.names <;> simp [h1, h2, h3]

example : (Ex.dyn.addTransition "d" "a").2 = none ∧
    (Ex.dyn.addTransition "zzz" "a").2 = some .structureError ∧
    (Ex.dyn.addTransition "a" "zzz").2 = some .structureError := by decide

/-- **C49 as stated is false**: the source occurs in `b0` but not in the two-slice network; the
exception is a `KeyError`, because the message contains the replacement field `{->}`. -/
theorem C49_key_error_refuted :
    (DBN.addTransition ⟨Ex.bn, [Ex.na], []⟩ "a" "c").2 = some .keyError := by decide

/-- **C49**: `add_transitions` appends the pairs in front of the first bad one, and raises iff there is
a bad one. -/
theorem C49_add_transitions (d : DBN) (ps : List (Name × Name)) :
    ∃ good rest, ps = good ++ rest ∧
      (d.addTransitions ps).1 = { d with transitions := d.transitions ++ good } ∧
      (∀ q ∈ good, q.2 ∈ d.b0.names ∧ q.2 ∈ d.twoTbn.names ∧ q.1 ∈ d.twoTbn.names) ∧
      (((d.addTransitions ps).2 = none ∧ rest = []) ∨
        ∃ q qs e, rest = q :: qs ∧ (d.addTransitions ps).2 = some e ∧
          ¬ (q.2 ∈ d.b0.names ∧ q.2 ∈ d.twoTbn.names ∧ q.1 ∈ d.twoTbn.names)) := by
  induction ps generalizing d with
  | nil => exact ⟨[], [], rfl, by simp [DBN.addTransitions], by simp, Or.inl ⟨rfl, rfl⟩⟩
  | cons q ps ih =>
    rw [DBN.addTransitions]
    rcases C49_add_transition_partial d q.1 q.2 with ⟨h1, h2⟩ | ⟨h1, h2⟩
    · rw [h2]
      obtain ⟨good, rest, e1, e2, e3, e4⟩ := ih { d with transitions := d.transitions ++ [(q.1, q.2)] }
      refine ⟨q :: good, rest, by rw [e1]; rfl, by rw [e2]; simp, ?_, e4⟩
      intro x hx
      rcases List.mem_cons.1 hx with rfl | hx
      · exact h1
      · exact e3 x hx
    · rw [h2]
      exact ⟨[], q :: ps, rfl, by simp, by simp, Or.inr ⟨q, ps, _, rfl, rfl, h1⟩⟩

/-- **C49**: the constructor returns a dynamic network with exactly the given networks (empty ones if
left out) and transitions if all transitions are good, and raises otherwise. -/
theorem C49_create (b0 two : Option BN) (ps : Option (List (Name × Name))) :
    (DBN.create b0 two ps = .ok ⟨b0.getD [], two.getD [], ps.getD []⟩ ∧ ∀ q ∈ ps.getD [],
      q.2 ∈ (b0.getD []).names ∧ q.2 ∈ (two.getD []).names ∧ q.1 ∈ (two.getD []).names) ∨
    ((∃ e, DBN.create b0 two ps = .error e) ∧ ∃ q ∈ ps.getD [],
      ¬ (q.2 ∈ (b0.getD []).names ∧ q.2 ∈ (two.getD []).names ∧ q.1 ∈ (two.getD []).names)) := by
  obtain ⟨good, rest, e1, e2, e3, e4⟩ := C49_add_transitions ⟨b0.getD [], two.getD [], []⟩ (ps.getD [])
  unfold DBN.create
  cases hr : DBN.addTransitions ⟨b0.getD [], two.getD [], []⟩ (ps.getD []) with
  | mk d o =>
    rw [hr] at e2 e4
    rcases e4 with ⟨h1, h2⟩ | ⟨q, qs, e, h1, h2, h3⟩
    · dsimp only at h1 e2
      subst h1 h2
      simp only [List.append_nil, List.nil_append] at e1 e2
      left
      exact ⟨by rw [e2, e1], by rw [e1]; exact e3⟩
    · dsimp only at h2
      subst h2
      right
      exact ⟨⟨e, rfl⟩, q, by rw [e1, h1]; simp, h3⟩

example : DBN.create (some Ex.bn) (some Ex.bn) (some [("a", "c")]) = .ok Ex.dyn := rfl
example : DBN.create none (some Ex.bn) (some [("a", "c")]) = .error .structureError := rfl

end Primo
