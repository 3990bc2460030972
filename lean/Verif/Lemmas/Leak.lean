import Verif.Lemmas.Dynamic

/-! # The evidence flag, and what a slice remembers -/

namespace Primo
open JoinTree

/-- a query -/
def DynOp.IsQuery : DynOp → Prop
  | .marginals _ _ _ => True
  | _ => False

/-- a call of `set_evidence` -/
def DynOp.IsSet : DynOp → Prop
  | .setEvidence _ _ _ => True
  | _ => False

/-- a call of `unroll` -/
def DynOp.IsUnroll : DynOp → Prop
  | .unroll _ _ _ _ => True
  | _ => False

namespace PriorFeedback

theorem marginals_flag (so : SetOrder) (limit : Nat) (vs : List Name) (s : PriorFeedback) :
    (s.marginals so limit vs).1.evidence = s.evidence := by
  unfold marginals
  split <;> rfl

theorem feed_flag (so : SetOrder) (limit : Nat) (trs : List (Name × Name)) (s : PriorFeedback) (b : Bool) :
    feed so limit trs { s with evidence := b } =
      ({ (feed so limit trs s).1 with evidence := b }, (feed so limit trs s).2) := by
  induction trs generalizing s with
  | nil => rfl
  | cons tr trs ih =>
    obtain ⟨node, p⟩ := tr
    obtain ⟨d, t, b', ft⟩ := s
    rw [feed, feed]
    dsimp only
    cases d.twoTbn.getNode node with
    | error e => rfl
    | ok n =>
      dsimp only
      cases ft with
      | none => rfl
      | some f =>
        dsimp only
        cases (f.table so limit p).2 with
        | error e => rfl
        | ok c =>
          dsimp only
          cases d.twoTbn.setNodeCpd node c with
          | error e => rfl
          | ok bn => exact ih ⟨_, _, b', _⟩

theorem unrollInner_flag (so : SetOrder) (limit : Nat) (s : PriorFeedback) (b : Bool) :
    unrollInner so limit { s with evidence := b } =
      ({ (unrollInner so limit s).1 with evidence := b }, (unrollInner so limit s).2) := by
  unfold unrollInner
  dsimp only
  rw [feed_flag]
  cases h : feed so limit s.dbn.transitions s with
  | mk s' o => cases o <;> rfl

theorem unroll_flag (so : SetOrder) (limit : Nat) (ev : Option (Dict Evidence)) (soft : Option Bool)
    (s : PriorFeedback) : (s.unroll so limit ev soft).1.evidence =
      if (s.unroll so limit ev soft).2 = none then false else s.evidence := by
  have hb : (beforeUnroll so limit ev soft s).1.evidence = s.evidence := by
    unfold beforeUnroll
    split
    · exact setInner_evidence ..
    · rfl
  cases h : beforeUnroll so limit ev soft s with
  | mk s1 o =>
    rw [h] at hb
    cases o with
    | some e => rw [unroll_error h, if_neg (by simp)]; exact hb
    | none =>
      rw [unroll_ok h]
      have hf := (feed_fields so limit s1.dbn.transitions s1).2.1
      unfold unrollInner
      cases hu : feed so limit s1.dbn.transitions s1 with
      | mk s2 o =>
        rw [hu] at hf
        cases o with
        | some e => exact (hf.trans hb)
        | none => rfl

theorem setEvidence_flag (so : SetOrder) (limit : Nat) (ev : Option (Dict Evidence))
    (s : PriorFeedback) : (s.setEvidence so limit ev).1.evidence =
      if (s.setEvidence so limit ev).2 = none then true else s.evidence := by
  have h := setInner_evidence so limit ev false s
  unfold setEvidence
  cases hr : setInner so limit ev false s with
  | mk s1 o =>
    rw [hr] at h
    cases o with
    | some e => exact h
    | none => rfl

theorem call_flag (op : DynOp) (s : PriorFeedback) : (call op s).1.evidence = true ↔
    (op.IsSet ∧ (call op s).2 = none) ∨
      (s.evidence = true ∧ ¬ (op.IsUnroll ∧ (call op s).2 = none)) := by
  cases op with
  | setEvidence so limit ev =>
    have := setEvidence_flag so limit ev s
    dsimp only [call, DynOp.IsSet, DynOp.IsUnroll]
    rw [this]
    by_cases h : (s.setEvidence so limit ev).2 = none <;> simp [h]
  | unroll so limit ev soft =>
    have := unroll_flag so limit ev soft s
    dsimp only [call, DynOp.IsSet, DynOp.IsUnroll]
    rw [this]
    by_cases h : (s.unroll so limit ev soft).2 = none <;> simp [h]
  | marginals so limit vs =>
    have := marginals_flag so limit vs s
    dsimp only [call, DynOp.IsSet, DynOp.IsUnroll]
    rw [this]
    simp

theorem runs_append (ops ops' : List DynOp) (s : PriorFeedback) :
    runs (ops ++ ops') s = runs ops' (runs ops s) := by
  unfold runs; rw [List.foldl_append]

/-- evidence is pending iff some `set_evidence` returned and no later `unroll` did -/
theorem runs_flag (ops : List DynOp) {s : PriorFeedback} (h0 : s.evidence = false) :
    (runs ops s).evidence = true ↔ ∃ pre op post, ops = pre ++ op :: post ∧ op.IsSet ∧
      (call op (runs pre s)).2 = none ∧ ∀ a op' b, post = a ++ op' :: b → op'.IsUnroll →
        (call op' (runs (pre ++ op :: a) s)).2 ≠ none := by
  induction ops using List.reverseRecOn with
  | nil =>
    refine ⟨fun h => ?_, ?_⟩
    · change s.evidence = true at h
      rw [h0] at h; cases h
    · rintro ⟨pre, op, post, h, -⟩
      simp at h
  | append_singleton ops op ih =>
    rw [runs_append]
    change (call op (runs ops s)).1.evidence = true ↔ _
    rw [call_flag, ih]
    constructor
    · rintro (⟨h1, h2⟩ | ⟨⟨pre, o, post, rfl, h2, h3, h4⟩, h5⟩)
      · exact ⟨ops, op, [], rfl, h1, h2, fun a op' b h => by simp at h⟩
      · refine ⟨pre, o, post ++ [op], by simp, h2, h3, fun a op' b hab hu => ?_⟩
        rcases List.eq_nil_or_concat' b with rfl | ⟨b, x, rfl⟩
        · obtain ⟨rfl, e⟩ := List.append_inj' hab rfl
          injection e with e
          subst e
          exact fun hh => h5 ⟨hu, hh⟩
        · rw [← List.cons_append, ← List.append_assoc] at hab
          obtain ⟨rfl, -⟩ := List.append_inj' hab rfl
          exact h4 a op' b rfl hu
    · rintro ⟨pre, o, post, h1, h2, h3, h4⟩
      rcases List.eq_nil_or_concat' post with rfl | ⟨post, x, rfl⟩
      · obtain ⟨rfl, e⟩ := List.append_inj' h1 rfl
        injection e with e
        subst e
        exact Or.inl ⟨h2, h3⟩
      · rw [← List.cons_append, ← List.append_assoc] at h1
        obtain ⟨rfl, e⟩ := List.append_inj' h1 rfl
        injection e with e
        subst e
        refine Or.inr ⟨⟨pre, o, post, rfl, h2, h3, fun a op' b hab hu => ?_⟩, fun ⟨hu, hh⟩ => ?_⟩
        · exact h4 a op' (b ++ [op]) (by rw [hab]; simp) hu
        · exact h4 post op [] rfl hu hh

/-- two reached states with the same networks and time do the same -/
theorem setEvidence_same {s s' : PriorFeedback} (h : s.Inv) (h' : s'.Inv) (hd : s'.dbn = s.dbn)
    (ht : s'.t = s.t) (so : SetOrder) (limit : Nat) (ev : Option (Dict Evidence)) :
    (s'.setEvidence so limit ev).2 = (s.setEvidence so limit ev).2 ∧
      ((s.setEvidence so limit ev).2 = none → s'.setEvidence so limit ev = s.setEvidence so limit ev) := by
  obtain ⟨h1, h2⟩ := setInner_same h h' hd ht so limit ev false
  have e1 := setInner_fields so limit ev false s
  have e2 := setInner_fields so limit ev false s'
  unfold setEvidence
  cases hr : setInner so limit ev false s with
  | mk s1 o =>
    cases hr' : setInner so limit ev false s' with
    | mk s1' o' =>
      rw [hr, hr'] at h1 h2
      rw [hr] at e1
      rw [hr'] at e2
      dsimp only at h1 h2 e1 e2
      subst h1
      cases o' with
      | some e => exact ⟨rfl, fun hh => by cases hh⟩
      | none =>
        refine ⟨rfl, fun _ => ?_⟩
        dsimp only
        rw [e1, e2, h2 rfl, hd, ht]

theorem unroll_same {s s' : PriorFeedback} (h : s.Inv) (h' : s'.Inv) (hd : s'.dbn = s.dbn)
    (ht : s'.t = s.t) (so : SetOrder) (limit : Nat) (ev : Dict Evidence) (soft : Option Bool) :
    (s'.unroll so limit (some ev) soft).2 = (s.unroll so limit (some ev) soft).2 ∧
      ((s.unroll so limit (some ev) soft).2 = none →
        s'.unroll so limit (some ev) soft = s.unroll so limit (some ev) soft) := by
  obtain ⟨h1, h2⟩ := setInner_same h h' hd ht so limit (some ev) (soft.getD false)
  have e1 := setInner_fields so limit (some ev) (soft.getD false) s
  have e2 := setInner_fields so limit (some ev) (soft.getD false) s'
  have b : ∀ s : PriorFeedback, beforeUnroll so limit (some ev) soft s =
      setInner so limit (some ev) (soft.getD false) s := fun s => by
    unfold beforeUnroll; rw [if_pos (Or.inr (by simp))]
  cases hr : setInner so limit (some ev) (soft.getD false) s with
  | mk s1 o =>
    cases hr' : setInner so limit (some ev) (soft.getD false) s' with
    | mk s1' o' =>
      rw [hr, hr'] at h1 h2
      rw [hr] at e1
      rw [hr'] at e2
      dsimp only at h1 h2 e1 e2
      subst h1
      cases o' with
      | some e =>
        rw [unroll_error ((b s).trans hr), unroll_error ((b s').trans hr')]
        exact ⟨rfl, fun hh => by cases hh⟩
      | none =>
        rw [unroll_ok ((b s).trans hr), unroll_ok ((b s').trans hr')]
        have : s1' = { s1 with evidence := s'.evidence } := by
          rw [e2, e1, h2 rfl, hd, ht]
        rw [this, unrollInner_flag]
        cases unrollInner so limit s1 with
        | mk s2 o => cases o with
          | some e => exact ⟨rfl, fun hh => by cases hh⟩
          | none => exact ⟨rfl, fun _ => rfl⟩

end PriorFeedback

namespace SoftFeedback

theorem marginals_flag (so : SetOrder) (limit : Nat) (vs : List Name) (s : SoftFeedback) :
    (s.marginals so limit vs).1.evidence = s.evidence := by
  unfold marginals
  split <;> rfl

theorem feed_flag (so : SetOrder) (limit : Nat) (trs : List (Name × Name)) (s : SoftFeedback) (b : Bool) :
    feed so limit trs { s with evidence := b } =
      ({ (feed so limit trs s).1 with evidence := b }, (feed so limit trs s).2) := by
  induction trs generalizing s with
  | nil => rfl
  | cons tr trs ih =>
    obtain ⟨node, p⟩ := tr
    obtain ⟨d, t, b', ft, te⟩ := s
    rw [feed, feed]
    dsimp only
    cases ft with
    | none => rfl
    | some f =>
      dsimp only
      cases (f.table so limit p).2 with
      | error e => rfl
      | ok c => exact ih ⟨d, t, b', some (f.table so limit p).1, te.set node c⟩

theorem unrollInner_flag (so : SetOrder) (limit : Nat) (s : SoftFeedback) (b : Bool) :
    unrollInner so limit { s with evidence := b } =
      ({ (unrollInner so limit s).1 with evidence := b }, (unrollInner so limit s).2) := by
  unfold unrollInner
  dsimp only
  have := feed_flag so limit s.dbn.transitions { s with transitionEvidence := [] } b
  dsimp only at this
  rw [this]
  cases h : feed so limit s.dbn.transitions { s with transitionEvidence := [] } with
  | mk s' o => cases o <;> rfl

theorem unroll_flag (so : SetOrder) (limit : Nat) (ev : Option (Dict Evidence)) (kwargs : Bool)
    (s : SoftFeedback) : (s.unroll so limit ev kwargs).1.evidence =
      if (s.unroll so limit ev kwargs).2 = none then false else s.evidence := by
  have hb : (beforeUnroll so limit ev kwargs s).1.evidence = s.evidence := by
    unfold beforeUnroll
    split
    · split
      · rfl
      · exact setInner_evidence ..
    · rfl
  cases h : beforeUnroll so limit ev kwargs s with
  | mk s1 o =>
    rw [h] at hb
    cases o with
    | some e => rw [unroll_error h, if_neg (by simp)]; exact hb
    | none =>
      rw [unroll_ok h]
      have hf := (feed_fields so limit s1.dbn.transitions { s1 with transitionEvidence := [] }).2.1
      unfold unrollInner
      cases hu : feed so limit s1.dbn.transitions { s1 with transitionEvidence := [] } with
      | mk s2 o =>
        rw [hu] at hf
        cases o with
        | some e => exact (hf.trans hb)
        | none => rfl

theorem setEvidence_flag (so : SetOrder) (limit : Nat) (ev : Option (Dict Evidence))
    (s : SoftFeedback) : (s.setEvidence so limit ev).1.evidence =
      if (s.setEvidence so limit ev).2 = none then true else s.evidence := by
  have h := setInner_evidence so limit ev s
  unfold setEvidence
  cases hr : setInner so limit ev s with
  | mk s1 o =>
    rw [hr] at h
    cases o with
    | some e => exact h
    | none => rfl

theorem call_flag (op : DynOp) (s : SoftFeedback) : (call op s).1.evidence = true ↔
    (op.IsSet ∧ (call op s).2 = none) ∨
      (s.evidence = true ∧ ¬ (op.IsUnroll ∧ (call op s).2 = none)) := by
  cases op with
  | setEvidence so limit ev =>
    have := setEvidence_flag so limit ev s
    dsimp only [call, DynOp.IsSet, DynOp.IsUnroll]
    rw [this]
    by_cases h : (s.setEvidence so limit ev).2 = none <;> simp [h]
  | unroll so limit ev soft =>
    have := unroll_flag so limit ev soft.isSome s
    dsimp only [call, DynOp.IsSet, DynOp.IsUnroll]
    rw [this]
    by_cases h : (s.unroll so limit ev soft.isSome).2 = none <;> simp [h]
  | marginals so limit vs =>
    have := marginals_flag so limit vs s
    dsimp only [call, DynOp.IsSet, DynOp.IsUnroll]
    rw [this]
    simp

theorem runs_append (ops ops' : List DynOp) (s : SoftFeedback) :
    runs (ops ++ ops') s = runs ops' (runs ops s) := by
  unfold runs; rw [List.foldl_append]

/-- evidence is pending iff some `set_evidence` returned and no later `unroll` did -/
theorem runs_flag (ops : List DynOp) {s : SoftFeedback} (h0 : s.evidence = false) :
    (runs ops s).evidence = true ↔ ∃ pre op post, ops = pre ++ op :: post ∧ op.IsSet ∧
      (call op (runs pre s)).2 = none ∧ ∀ a op' b, post = a ++ op' :: b → op'.IsUnroll →
        (call op' (runs (pre ++ op :: a) s)).2 ≠ none := by
  induction ops using List.reverseRecOn with
  | nil =>
    refine ⟨fun h => ?_, ?_⟩
    · change s.evidence = true at h
      rw [h0] at h; cases h
    · rintro ⟨pre, op, post, h, -⟩
      simp at h
  | append_singleton ops op ih =>
    rw [runs_append]
    change (call op (runs ops s)).1.evidence = true ↔ _
    rw [call_flag, ih]
    constructor
    · rintro (⟨h1, h2⟩ | ⟨⟨pre, o, post, rfl, h2, h3, h4⟩, h5⟩)
      · exact ⟨ops, op, [], rfl, h1, h2, fun a op' b h => by simp at h⟩
      · refine ⟨pre, o, post ++ [op], by simp, h2, h3, fun a op' b hab hu => ?_⟩
        rcases List.eq_nil_or_concat' b with rfl | ⟨b, x, rfl⟩
        · obtain ⟨rfl, e⟩ := List.append_inj' hab rfl
          injection e with e
          subst e
          exact fun hh => h5 ⟨hu, hh⟩
        · rw [← List.cons_append, ← List.append_assoc] at hab
          obtain ⟨rfl, -⟩ := List.append_inj' hab rfl
          exact h4 a op' b rfl hu
    · rintro ⟨pre, o, post, h1, h2, h3, h4⟩
      rcases List.eq_nil_or_concat' post with rfl | ⟨post, x, rfl⟩
      · obtain ⟨rfl, e⟩ := List.append_inj' h1 rfl
        injection e with e
        subst e
        exact Or.inl ⟨h2, h3⟩
      · rw [← List.cons_append, ← List.append_assoc] at h1
        obtain ⟨rfl, e⟩ := List.append_inj' h1 rfl
        injection e with e
        subst e
        refine Or.inr ⟨⟨pre, o, post, rfl, h2, h3, fun a op' b hab hu => ?_⟩, fun ⟨hu, hh⟩ => ?_⟩
        · exact h4 a op' (b ++ [op]) (by rw [hab]; simp) hu
        · exact h4 post op [] rfl hu hh

theorem setInner_same {s s' : SoftFeedback} (h : s.Inv) (h' : s'.Inv) (hd : s'.dbn = s.dbn)
    (ht : s'.t = s.t) (hte : s.t ≠ 0 → s'.transitionEvidence = s.transitionEvidence) (so : SetOrder)
    (limit : Nat) (ev : Option (Dict Evidence)) :
    (setInner so limit ev s').2 = (setInner so limit ev s).2 ∧
      ((setInner so limit ev s).2 = none →
        (setInner so limit ev s').1.ft = (setInner so limit ev s).1.ft) := by
  have hse : ∀ e, (if s.t = 0 then e else update e s'.transitionEvidence) =
      (if s.t = 0 then e else update e s.transitionEvidence) := by
    intro e
    split
    · rfl
    · rw [hte ‹_›]
  unfold setInner
  rw [ht, hd]
  split
  · cases SliceTree.create so s.dbn (decide (s.t = 1)) with
    | error e => exact ⟨rfl, fun hh => by cases hh⟩
    | ok f => dsimp only [enter]; rw [hd, hse]; exact ⟨rfl, fun _ => rfl⟩
  · rename_i h2
    obtain ⟨f, hf, f1, p, hp, fs⟩ := h (Or.inl (by omega))
    obtain ⟨f', hf', f1', p', hp', fs'⟩ := h' (Or.inl (by omega))
    rw [hd, hp] at hp'
    cases hp'
    rw [hf, hf', hte (by omega)]
    have hn : f'.net s.dbn = f.net s.dbn := by rw [SliceTree.net, f1', SliceTree.net, f1]
    obtain ⟨r1, r2⟩ := JTree.setEvidence_eq so limit (f.net s.dbn)
      (update (ev.getD []) s.transitionEvidence) true (fs'.trans fs.symm)
    dsimp only [enter, SliceTree.setEvidence]
    rw [hd, hn, f1, f1']
    refine ⟨r1, fun hh => ?_⟩
    have : (JTree.reset so (f.net s.dbn) f.tree).2 = none := by
      unfold JTree.setEvidence at hh
      cases hr : (JTree.reset so (f.net s.dbn) f.tree).2 with
      | none => rfl
      | some e => rw [JTree.andThen_some hr, hr] at hh; cases hh
    rw [r2 this]

theorem setEvidence_same {s s' : SoftFeedback} (h : s.Inv) (h' : s'.Inv) (hd : s'.dbn = s.dbn)
    (ht : s'.t = s.t) (hte : s'.transitionEvidence = s.transitionEvidence) (so : SetOrder) (limit : Nat)
    (ev : Option (Dict Evidence)) :
    (s'.setEvidence so limit ev).2 = (s.setEvidence so limit ev).2 ∧
      ((s.setEvidence so limit ev).2 = none → s'.setEvidence so limit ev = s.setEvidence so limit ev) := by
  obtain ⟨h1, h2⟩ := setInner_same h h' hd ht (fun _ => hte) so limit ev
  have e1 := setInner_fields so limit ev s
  have e2 := setInner_fields so limit ev s'
  unfold setEvidence
  cases hr : setInner so limit ev s with
  | mk s1 o =>
    cases hr' : setInner so limit ev s' with
    | mk s1' o' =>
      rw [hr, hr'] at h1 h2
      rw [hr] at e1
      rw [hr'] at e2
      dsimp only at h1 h2 e1 e2
      subst h1
      cases o' with
      | some e => exact ⟨rfl, fun hh => by cases hh⟩
      | none =>
        refine ⟨rfl, fun _ => ?_⟩
        dsimp only
        rw [e1, e2, h2 rfl, hd, ht, hte]

theorem unroll_same {s s' : SoftFeedback} (h : s.Inv) (h' : s'.Inv) (hd : s'.dbn = s.dbn)
    (ht : s'.t = s.t) (hte : s'.transitionEvidence = s.transitionEvidence) (so : SetOrder) (limit : Nat)
    (ev : Dict Evidence) (kwargs : Bool) :
    (s'.unroll so limit (some ev) kwargs).2 = (s.unroll so limit (some ev) kwargs).2 ∧
      ((s.unroll so limit (some ev) kwargs).2 = none →
        s'.unroll so limit (some ev) kwargs = s.unroll so limit (some ev) kwargs) := by
  have b : ∀ s : SoftFeedback, beforeUnroll so limit (some ev) kwargs s =
      if kwargs then (s, some .typeError) else setInner so limit (some ev) s := fun s => by
    unfold beforeUnroll; rw [if_pos (Or.inr (by simp))]
  cases kwargs with
  | true => rw [unroll_error (b s), unroll_error (b s')]; exact ⟨rfl, fun hh => by cases hh⟩
  | false =>
  obtain ⟨h1, h2⟩ := setInner_same h h' hd ht (fun _ => hte) so limit (some ev)
  have e1 := setInner_fields so limit (some ev) s
  have e2 := setInner_fields so limit (some ev) s'
  cases hr : setInner so limit (some ev) s with
  | mk s1 o =>
    cases hr' : setInner so limit (some ev) s' with
    | mk s1' o' =>
      rw [hr, hr'] at h1 h2
      rw [hr] at e1
      rw [hr'] at e2
      dsimp only at h1 h2 e1 e2
      subst h1
      cases o' with
      | some e =>
        rw [unroll_error ((b s).trans hr), unroll_error ((b s').trans hr')]
        exact ⟨rfl, fun hh => by cases hh⟩
      | none =>
        rw [unroll_ok ((b s).trans hr), unroll_ok ((b s').trans hr')]
        have : s1' = { s1 with evidence := s'.evidence } := by
          rw [e2, e1, h2 rfl, hd, ht, hte]
        rw [this, unrollInner_flag]
        cases unrollInner so limit s1 with
        | mk s2 o => cases o with
          | some e => exact ⟨rfl, fun hh => by cases hh⟩
          | none => exact ⟨rfl, fun _ => rfl⟩

end SoftFeedback
end Primo
