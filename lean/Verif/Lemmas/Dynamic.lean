import Verif.Lemmas.Frame

/-! # Call histories of the dynamic inference classes -/

namespace Primo
open JoinTree

namespace SliceTree

theorem marginals_two (so : SetOrder) (limit : Nat) (vs : List Name) (f : SliceTree) :
    (f.marginals so limit vs).1.two = f.two ∧
      (f.marginals so limit vs).1.tree.shape = f.tree.shape :=
  ⟨rfl, JTree.marginals_shape so limit vs f.tree⟩

theorem create_ok {so : SetOrder} {d : DBN} {two : Bool} {f : SliceTree}
    (h : create so d two = .ok f) :
    f.two = two ∧ JoinTree.create so (if two then d.twoTbn else d.b0) none = .ok f.tree := by
  unfold create at h
  cases ht : JoinTree.create so (if two then d.twoTbn else d.b0) none with
  | error e => rw [ht] at h; cases h
  | ok t => rw [ht] at h; cases h; exact ⟨rfl, rfl⟩

/-- a tree of the two-slice network, as far as its structure goes -/
def Fits (d : DBN) (f : SliceTree) : Prop :=
  f.two = true ∧ ∃ p, plan d.twoTbn none = .ok p ∧ f.tree.shape = p.shape

theorem Fits.of_shape {d : DBN} {f g : SliceTree} (h : f.Fits d) (h1 : g.two = f.two)
    (h2 : g.tree.shape = f.tree.shape) : g.Fits d := by
  obtain ⟨a, p, b, c⟩ := h
  exact ⟨h1.trans a, p, b, h2.trans c⟩

theorem Fits.of_bare {d d' : DBN} {f : SliceTree} (h : f.Fits d)
    (hb : d'.twoTbn.bare = d.twoTbn.bare) : f.Fits d' := by
  obtain ⟨a, p, b, c⟩ := h
  exact ⟨a, p, (plan_congr hb none).trans b, c⟩

theorem Fits.of_create {so : SetOrder} {d : DBN} {f : SliceTree} (h : create so d true = .ok f) :
    f.Fits d := by
  obtain ⟨h1, h2⟩ := create_ok h
  exact ⟨h1, plan_of_create h2⟩

end SliceTree

theorem BN.bare_putCpd (bn : BN) (v : Name) (c : NDArray) : (bn.putCpd v c).bare = bn.bare := by
  unfold bare putCpd
  rw [List.map_map]
  refine List.map_congr_left fun n _ => ?_
  simp only [Function.comp]
  split <;> rfl

theorem BN.setNodeCpd_ok {bn bn' : BN} {v : Name} {c : NDArray} (h : bn.setNodeCpd v c = .ok bn') :
    bn' = bn.putCpd v c := by
  unfold setNodeCpd at h
  cases h1 : bn.getNode v with
  | error e => rw [h1] at h; cases h
  | ok n =>
    rw [h1, ok_bind] at h
    cases h2 : n.setCpd c with
    | error e => rw [h2] at h; cases h
    | ok c' =>
      rw [h2, ok_bind] at h
      have : c' = c := by
        unfold NodeV.setCpd at h2
        split at h2
        · cases h2
        · split at h2
          · cases h2
          · injection h2 with h2; exact h2.symm
      injection h with h
      rw [← h, this]

/-! ## `PriorFeedbackExact` -/

namespace PriorFeedback

/-- the call: state afterwards, and the exception if it raised one -/
def call : DynOp → PriorFeedback → PRes
  | .setEvidence so limit ev, s => s.setEvidence so limit ev
  | .unroll so limit ev soft, s => s.unroll so limit ev soft
  | .marginals so limit vs, s =>
    let r := s.marginals so limit vs
    (r.1, match r.2 with
      | .ok _ => none
      | .error e => some e)

/-- the state after a history of calls, whether they raised or not -/
def runs (ops : List DynOp) (s : PriorFeedback) : PriorFeedback :=
  ops.foldl (fun s op => (call op s).1) s

/-- the number of `unroll` calls in a history that returned normally -/
def unrolls : List DynOp → PriorFeedback → Nat
  | [], _ => 0
  | op :: ops, s =>
    (match op with
      | .unroll _ _ _ _ => if (call op s).2 = none then 1 else 0
      | _ => 0) + unrolls ops (call op s).1

/-- the network of the current slice -/
def sliceNet (s : PriorFeedback) : BN := if s.t = 0 then s.dbn.b0 else s.dbn.twoTbn

theorem enter_fields (so : SetOrder) (limit : Nat) (ev : Option (Dict Evidence)) (soft : Bool)
    (f : SliceTree) (s : PriorFeedback) :
    (enter so limit ev soft f s).1 =
      { s with ft := some (f.setEvidence so limit s.dbn (ev.getD []) soft).1 } := rfl

/-- `_set_evidence` changes nothing but the tree -/
theorem setInner_fields (so : SetOrder) (limit : Nat) (ev : Option (Dict Evidence)) (soft : Bool)
    (s : PriorFeedback) : (setInner so limit ev soft s).1 =
      { s with ft := (setInner so limit ev soft s).1.ft } := by
  unfold setInner
  split
  · split <;> rfl
  · split
    · rfl
    · split <;> rfl

theorem setInner_dbn (so : SetOrder) (limit : Nat) (ev : Option (Dict Evidence)) (soft : Bool)
    (s : PriorFeedback) : (setInner so limit ev soft s).1.dbn = s.dbn := by
  rw [setInner_fields]

theorem setInner_t (so : SetOrder) (limit : Nat) (ev : Option (Dict Evidence)) (soft : Bool)
    (s : PriorFeedback) : (setInner so limit ev soft s).1.t = s.t := by
  rw [setInner_fields]

theorem setInner_evidence (so : SetOrder) (limit : Nat) (ev : Option (Dict Evidence)) (soft : Bool)
    (s : PriorFeedback) : (setInner so limit ev soft s).1.evidence = s.evidence := by
  rw [setInner_fields]

theorem feed_fields (so : SetOrder) (limit : Nat) (trs : List (Name × Name)) (s : PriorFeedback) :
    (feed so limit trs s).1.t = s.t ∧ (feed so limit trs s).1.evidence = s.evidence ∧
      (feed so limit trs s).1.dbn.b0 = s.dbn.b0 ∧
      (feed so limit trs s).1.dbn.transitions = s.dbn.transitions ∧
      (feed so limit trs s).1.dbn.twoTbn.bare = s.dbn.twoTbn.bare := by
  induction trs generalizing s with
  | nil => exact ⟨rfl, rfl, rfl, rfl, rfl⟩
  | cons tr trs ih =>
    obtain ⟨node, nodeP⟩ := tr
    rw [feed]
    split
    · exact ⟨rfl, rfl, rfl, rfl, rfl⟩
    · split
      · exact ⟨rfl, rfl, rfl, rfl, rfl⟩
      · dsimp only
        split
        · exact ⟨rfl, rfl, rfl, rfl, rfl⟩
        · split
          · exact ⟨rfl, rfl, rfl, rfl, rfl⟩
          · rename_i bn hbn
            obtain ⟨h1, h2, h3, h4, h5⟩ := ih _
            refine ⟨h1, h2, h3, h4, h5.trans ?_⟩
            dsimp only
            rw [BN.setNodeCpd_ok hbn, BN.bare_putCpd]

theorem feed_fits (so : SetOrder) (limit : Nat) (trs : List (Name × Name)) (s : PriorFeedback)
    {f : SliceTree} (hf : s.ft = some f) (h : f.Fits s.dbn) :
    ∃ g, (feed so limit trs s).1.ft = some g ∧ g.Fits (feed so limit trs s).1.dbn := by
  induction trs generalizing s f with
  | nil => exact ⟨f, hf, h⟩
  | cons tr trs ih =>
    obtain ⟨node, nodeP⟩ := tr
    have hg : (f.table so limit nodeP).1.Fits s.dbn := h.of_shape rfl (JTree.marginals_shape so limit _ _)
    rw [feed]
    split
    · exact ⟨f, hf, h⟩
    · rw [hf]
      dsimp only
      split
      · exact ⟨_, rfl, hg⟩
      · split
        · exact ⟨_, rfl, hg⟩
        · rename_i bn hbn
          refine ih _ rfl (hg.of_bare ?_)
          dsimp only
          rw [BN.setNodeCpd_ok hbn, BN.bare_putCpd]

/-- From the second slice on there is a tree with the structure of the two-slice network's tree. -/
def Inv (s : PriorFeedback) : Prop :=
  (2 ≤ s.t ∨ (s.t = 1 ∧ s.evidence = true)) → ∃ f, s.ft = some f ∧ f.Fits s.dbn

theorem setEvidence_fits {so : SetOrder} {limit : Nat} {d : DBN} {ev : Dict Evidence} {soft : Bool}
    {f : SliceTree} (h : f.Fits d) : (f.setEvidence so limit d ev soft).1.Fits d :=
  h.of_shape rfl (JTree.setEvidence_shape so limit _ ev soft _)

theorem reset_fits {so : SetOrder} {d : DBN} {f : SliceTree} (h : f.Fits d) :
    (f.reset so d).1.Fits d := h.of_shape rfl (JTree.reset_shape so _ _)

/-- `_set_evidence` keeps the structure of the tree; if it returns normally in the second slice or
later, the tree has it afterwards -/
theorem setInner_inv {s : PriorFeedback} (h : s.Inv) (so : SetOrder) (limit : Nat)
    (ev : Option (Dict Evidence)) (soft : Bool) :
    (setInner so limit ev soft s).1.Inv ∧ ((setInner so limit ev soft s).2 = none → 1 ≤ s.t →
      ∃ f, (setInner so limit ev soft s).1.ft = some f ∧ f.Fits s.dbn) := by
  by_cases ht : s.t ≤ 1
  · unfold setInner
    rw [if_pos ht]
    cases hc : SliceTree.create so s.dbn (decide (s.t = 1)) with
    | error e =>
      dsimp only
      exact ⟨h, fun hh => by cases hh⟩
    | ok f =>
      dsimp only
      have key : 1 ≤ s.t → f.Fits s.dbn := fun h1 => by
        have : s.t = 1 := le_antisymm ht h1
        rw [this] at hc
        exact SliceTree.Fits.of_create hc
      refine ⟨fun hh => ?_, fun _ h1 => ⟨_, rfl, setEvidence_fits (key h1)⟩⟩
      rw [enter_fields] at hh ⊢
      exact ⟨_, rfl, setEvidence_fits (key (by rcases hh with hh | hh <;> (dsimp only at hh; omega)))⟩
  · obtain ⟨f, hf, hfit⟩ := h (Or.inl (by omega))
    have : ∃ g, (setInner so limit ev soft s).1.ft = some g ∧ g.Fits s.dbn := by
      unfold setInner
      rw [if_neg ht, hf]
      dsimp only
      cases hr : f.reset so s.dbn with
      | mk g o =>
        have hg : g.Fits s.dbn := by have := reset_fits (so := so) hfit; rw [hr] at this; exact this
        cases o with
        | some e => exact ⟨g, rfl, hg⟩
        | none => exact ⟨_, rfl, setEvidence_fits hg⟩
    refine ⟨fun _ => ?_, fun _ _ => this⟩
    rw [setInner_dbn]
    exact this

theorem unrollInner_inv {s : PriorFeedback} (so : SetOrder) (limit : Nat)
    (h : 1 ≤ s.t → ∃ f, s.ft = some f ∧ f.Fits s.dbn) :
    ((unrollInner so limit s).2 = none → (unrollInner so limit s).1.t = s.t + 1 ∧
      ({ (unrollInner so limit s).1 with evidence := false } : PriorFeedback).Inv) ∧
      (∀ e, (unrollInner so limit s).2 = some e →
        (unrollInner so limit s).1.t = s.t ∧ (unrollInner so limit s).1.Inv) := by
  obtain ⟨f1, f2, f3, f4, f5⟩ := feed_fields so limit s.dbn.transitions s
  have hfit : 1 ≤ s.t → ∃ g, (feed so limit s.dbn.transitions s).1.ft = some g ∧
      g.Fits (feed so limit s.dbn.transitions s).1.dbn := fun h1 => by
    obtain ⟨f, hf, hh⟩ := h h1
    exact feed_fits so limit _ s hf hh
  unfold unrollInner
  cases hr : feed so limit s.dbn.transitions s with
  | mk s' o =>
    rw [hr] at f1 f2 f3 f4 f5 hfit
    dsimp only at f1 f2 f3 f4 f5 hfit
    cases o with
    | some e =>
      refine ⟨fun hh => (by cases hh), fun _ _ => ⟨f1, fun hh => hfit ?_⟩⟩
      change 2 ≤ s'.t ∨ s'.t = 1 ∧ s'.evidence = true at hh
      omega
    | none =>
      refine ⟨fun _ => ⟨by rw [← f1], fun hh => hfit ?_⟩, fun e hh => by cases hh⟩
      change 2 ≤ s'.t + 1 ∨ s'.t + 1 = 1 ∧ false = true at hh
      rcases hh with hh | ⟨-, he⟩
      · omega
      · cases he

/-- the state in which `_unroll` is called -/
def beforeUnroll (so : SetOrder) (limit : Nat) (ev : Option (Dict Evidence)) (soft : Option Bool)
    (s : PriorFeedback) : PRes :=
  if ¬ s.evidence ∨ ev ≠ none then setInner so limit ev (soft.getD false) s else (s, none)

theorem unroll_error {so : SetOrder} {limit : Nat} {ev : Option (Dict Evidence)} {soft : Option Bool}
    {s s' : PriorFeedback} {e : PyErr} (h : beforeUnroll so limit ev soft s = (s', some e)) :
    unroll so limit ev soft s = (s', some e) := by
  unfold beforeUnroll at h
  unfold unroll
  dsimp only
  rw [h]

theorem unroll_ok {so : SetOrder} {limit : Nat} {ev : Option (Dict Evidence)} {soft : Option Bool}
    {s s' : PriorFeedback} (h : beforeUnroll so limit ev soft s = (s', none)) :
    unroll so limit ev soft s = match unrollInner so limit s' with
      | (s, some e) => (s, some e)
      | (s, none) => ({ s with evidence := false }, none) := by
  unfold beforeUnroll at h
  unfold unroll
  dsimp only
  rw [h]
  rfl

theorem beforeUnroll_inv {s : PriorFeedback} (h : s.Inv) (so : SetOrder) (limit : Nat)
    (ev : Option (Dict Evidence)) (soft : Option Bool) :
    (beforeUnroll so limit ev soft s).1.Inv ∧ (beforeUnroll so limit ev soft s).1.t = s.t ∧
      ((beforeUnroll so limit ev soft s).2 = none → 1 ≤ s.t →
        ∃ f, (beforeUnroll so limit ev soft s).1.ft = some f ∧
          f.Fits (beforeUnroll so limit ev soft s).1.dbn) := by
  unfold beforeUnroll
  split
  · obtain ⟨h1, h2⟩ := setInner_inv h so limit ev (soft.getD false)
    refine ⟨h1, setInner_t .., ?_⟩
    rw [setInner_dbn]
    exact h2
  · rename_i hh
    push Not at hh
    refine ⟨h, rfl, fun _ h1 => h ?_⟩
    rcases Nat.lt_or_ge s.t 2 with h2 | h2
    · exact Or.inr ⟨by omega, hh.1⟩
    · exact Or.inl h2

theorem unroll_inv {s : PriorFeedback} (h : s.Inv) (so : SetOrder) (limit : Nat)
    (ev : Option (Dict Evidence)) (soft : Option Bool) :
    (unroll so limit ev soft s).1.Inv ∧ (unroll so limit ev soft s).1.t =
      s.t + if (unroll so limit ev soft s).2 = none then 1 else 0 := by
  obtain ⟨h1, h2, h3⟩ := beforeUnroll_inv h so limit ev soft
  cases hb : beforeUnroll so limit ev soft s with
  | mk s1 o =>
    rw [hb] at h1 h2 h3
    cases o with
    | some e => rw [unroll_error hb]; exact ⟨h1, by simpa using h2⟩
    | none =>
      dsimp only at h1 h2 h3
      obtain ⟨g1, g2⟩ := unrollInner_inv so limit (s := s1) fun hh => h3 rfl (h2 ▸ hh)
      rw [unroll_ok hb]
      cases hu : unrollInner so limit s1 with
      | mk s2 o =>
        rw [hu] at g1 g2
        cases o with
        | some e =>
          obtain ⟨g3, g4⟩ := g2 e rfl
          exact ⟨g4, by simpa [h2] using g3⟩
        | none =>
          obtain ⟨g3, g4⟩ := g1 rfl
          exact ⟨g4, by simpa [h2] using g3⟩

theorem setEvidence_inv {s : PriorFeedback} (h : s.Inv) (so : SetOrder) (limit : Nat)
    (ev : Option (Dict Evidence)) :
    (s.setEvidence so limit ev).1.Inv ∧ (s.setEvidence so limit ev).1.t = s.t := by
  obtain ⟨h1, h2⟩ := setInner_inv h so limit ev false
  have h3 := setInner_t so limit ev false s
  have h4 := setInner_dbn so limit ev false s
  unfold setEvidence
  cases hr : setInner so limit ev false s with
  | mk s' o =>
    rw [hr] at h1 h2 h3 h4
    dsimp only at h1 h2 h3 h4
    cases o with
    | some e => exact ⟨h1, h3⟩
    | none =>
      refine ⟨fun hh => ?_, h3⟩
      change 2 ≤ s'.t ∨ s'.t = 1 ∧ true = true at hh
      change ∃ f, s'.ft = some f ∧ f.Fits s'.dbn
      rw [h4]
      exact h2 rfl (by omega)

theorem marginals_inv {s : PriorFeedback} (h : s.Inv) (so : SetOrder) (limit : Nat) (vs : List Name) :
    (s.marginals so limit vs).1.Inv ∧ (s.marginals so limit vs).1.t = s.t := by
  unfold marginals
  cases hf : s.ft with
  | none => exact ⟨h, rfl⟩
  | some f =>
    refine ⟨fun hh => ?_, rfl⟩
    obtain ⟨g, g1, g2⟩ := h hh
    rw [hf] at g1
    cases g1
    exact ⟨_, rfl, g2.of_shape rfl (JTree.marginals_shape so limit vs _)⟩

theorem call_inv {s : PriorFeedback} (h : s.Inv) (op : DynOp) : (call op s).1.Inv := by
  cases op with
  | setEvidence so limit ev => exact (setEvidence_inv h so limit ev).1
  | unroll so limit ev soft => exact (unroll_inv h so limit ev soft).1
  | marginals so limit vs => exact (marginals_inv h so limit vs).1

theorem create_inv (d : DBN) : (create d).Inv := by
  intro h
  simp [create] at h

theorem runs_inv {s : PriorFeedback} (h : s.Inv) (ops : List DynOp) : (runs ops s).Inv := by
  induction ops generalizing s with
  | nil => exact h
  | cons op ops ih => exact ih (call_inv h op)

theorem runs_t {s : PriorFeedback} (h : s.Inv) (ops : List DynOp) :
    (runs ops s).t = s.t + unrolls ops s := by
  induction ops generalizing s with
  | nil => rfl
  | cons op ops ih =>
    have h1 := ih (call_inv h op)
    change (runs ops (call op s).1).t = _
    rw [h1]
    cases op with
    | setEvidence so limit ev =>
      have := (setEvidence_inv h so limit ev).2
      simp only [unrolls, call] at this ⊢
      omega
    | unroll so limit ev soft =>
      have := (unroll_inv h so limit ev soft).2
      simp only [unrolls, call]
      rw [this]
      by_cases hh : (unroll so limit ev soft s).2 = none <;> simp only [hh, if_true, if_false] <;> omega
    | marginals so limit vs =>
      have := (marginals_inv h so limit vs).2
      simp only [unrolls, call] at this ⊢
      omega

/-- entering evidence gives what it gives on a tree created for the purpose -/
theorem setInner_fresh {s : PriorFeedback} (h : s.Inv) {so : SetOrder} {limit : Nat}
    {ev : Option (Dict Evidence)} {soft : Bool} {s' : PriorFeedback}
    (he : setInner so limit ev soft s = (s', none)) :
    ∃ t0 t1, JoinTree.create so s.sliceNet none = .ok t0 ∧
      t0.setEvidence so limit s.sliceNet (ev.getD []) soft = (t1, none) ∧
      s' = { s with ft := some ⟨decide (s.t ≠ 0), t1⟩ } := by
  unfold setInner at he
  split at he
  · rename_i ht
    cases hc : SliceTree.create so s.dbn (decide (s.t = 1)) with
    | error e => rw [hc] at he; cases he
    | ok f =>
      rw [hc] at he
      dsimp only at he
      obtain ⟨h1, h2⟩ := SliceTree.create_ok hc
      have hd : decide (s.t = 1) = decide (s.t ≠ 0) := by
        rcases Nat.le_one_iff_eq_zero_or_eq_one.1 ht with h | h <;> simp [h]
      have hn : (if decide (s.t = 1) = true then s.dbn.twoTbn else s.dbn.b0) = s.sliceNet := by
        unfold sliceNet
        rcases Nat.le_one_iff_eq_zero_or_eq_one.1 ht with h | h <;> simp [h]
      rw [hn] at h2
      have hnet : f.net s.dbn = s.sliceNet := by rw [SliceTree.net, h1, hn]
      unfold enter SliceTree.setEvidence at he
      rw [hnet] at he
      injection he with e1 e2
      refine ⟨f.tree, _, h2, Prod.ext rfl e2, ?_⟩
      rw [← e1]
      dsimp only
      rw [h1, hd]
  · rename_i ht
    obtain ⟨f, hf, hfit⟩ := h (Or.inl (by omega))
    obtain ⟨h1, p, hp, hsh⟩ := hfit
    have hsn : s.sliceNet = s.dbn.twoTbn := by unfold sliceNet; rw [if_neg (by omega)]
    have hnet : f.net s.dbn = s.sliceNet := by rw [SliceTree.net, h1, hsn]; rfl
    rw [hf] at he
    dsimp only at he
    cases hr : f.reset so s.dbn with
    | mk g o =>
      rw [hr] at he
      cases o with
      | some e => cases he
      | none =>
        unfold SliceTree.reset at hr
        rw [hnet] at hr
        dsimp only at hr
        injection hr with e1 e2
        have hr' : f.tree.reset so s.sliceNet = ((f.tree.reset so s.sliceNet).1, none) :=
          Prod.ext rfl e2
        have hcr := create_of_reset (by rw [hsn]; exact hp) hsh hr'
        unfold enter SliceTree.setEvidence at he
        have hg : g.net s.dbn = s.sliceNet := by rw [← e1]; exact hnet
        dsimp only at he
        rw [hg, ← e1] at he
        injection he with e3 e4
        refine ⟨_, _, hcr, Prod.ext rfl e4, ?_⟩
        rw [← e3]
        dsimp only
        rw [h1]
        have : decide (s.t ≠ 0) = true := by simp; omega
        rw [this]

/-- what happens when evidence is entered depends on the networks and the time only -/
theorem setInner_same {s s' : PriorFeedback} (h : s.Inv) (h' : s'.Inv) (hd : s'.dbn = s.dbn)
    (ht : s'.t = s.t) (so : SetOrder) (limit : Nat) (ev : Option (Dict Evidence)) (soft : Bool) :
    (setInner so limit ev soft s').2 = (setInner so limit ev soft s).2 ∧
      ((setInner so limit ev soft s).2 = none →
        (setInner so limit ev soft s').1.ft = (setInner so limit ev soft s).1.ft) := by
  unfold setInner
  rw [ht, hd]
  split
  · cases SliceTree.create so s.dbn (decide (s.t = 1)) with
    | error e => exact ⟨rfl, fun hh => by cases hh⟩
    | ok f => dsimp only [enter]; rw [hd]; exact ⟨rfl, fun _ => rfl⟩
  · rename_i h2
    obtain ⟨f, hf, f1, p, hp, fs⟩ := h (Or.inl (by omega))
    obtain ⟨f', hf', f1', p', hp', fs'⟩ := h' (Or.inl (by omega))
    rw [hd, hp] at hp'
    cases hp'
    rw [hf, hf']
    have hn : f'.net s.dbn = f.net s.dbn := by rw [SliceTree.net, f1', SliceTree.net, f1]
    obtain ⟨r1, r2⟩ := JTree.reset_eq so (f.net s.dbn) (fs'.trans fs.symm)
    dsimp only
    have e1 : (f'.reset so s.dbn).2 = (f.reset so s.dbn).2 := by
      unfold SliceTree.reset; rw [hn]; exact r1
    have e2 : (f.reset so s.dbn).2 = none → f'.reset so s.dbn = f.reset so s.dbn := by
      intro hh
      refine Prod.ext ?_ e1
      unfold SliceTree.reset at hh ⊢
      rw [hn]
      dsimp only at hh ⊢
      rw [r2 hh, f1, f1']
    cases hr : (f.reset so s.dbn).2 with
    | some e =>
      have g : f.reset so s.dbn = ((f.reset so s.dbn).1, some e) := Prod.ext rfl hr
      have g' : f'.reset so s.dbn = ((f'.reset so s.dbn).1, some e) := Prod.ext rfl (e1.trans hr)
      rw [g, g']
      exact ⟨rfl, fun hh => by cases hh⟩
    | none =>
      have g : f.reset so s.dbn = ((f.reset so s.dbn).1, none) := Prod.ext rfl hr
      rw [e2 hr, g]
      dsimp only [enter]
      rw [hd]
      exact ⟨rfl, fun _ => rfl⟩

end PriorFeedback

/-! ## `SoftEvidenceExact` -/

namespace SoftFeedback

/-- the call: state afterwards, and the exception if it raised one; `soft` stands for a keyword
argument of any kind -/
def call : DynOp → SoftFeedback → SRes
  | .setEvidence so limit ev, s => s.setEvidence so limit ev
  | .unroll so limit ev soft, s => s.unroll so limit ev soft.isSome
  | .marginals so limit vs, s =>
    let r := s.marginals so limit vs
    (r.1, match r.2 with
      | .ok _ => none
      | .error e => some e)

/-- the state after a history of calls, whether they raised or not -/
def runs (ops : List DynOp) (s : SoftFeedback) : SoftFeedback :=
  ops.foldl (fun s op => (call op s).1) s

/-- the number of `unroll` calls in a history that returned normally -/
def unrolls : List DynOp → SoftFeedback → Nat
  | [], _ => 0
  | op :: ops, s =>
    (match op with
      | .unroll _ _ _ _ => if (call op s).2 = none then 1 else 0
      | _ => 0) + unrolls ops (call op s).1

/-- the network of the current slice -/
def sliceNet (s : SoftFeedback) : BN := if s.t = 0 then s.dbn.b0 else s.dbn.twoTbn

/-- the evidence of the caller and, after the first slice, the evidence on the transition targets -/
def sliceEvidence (s : SoftFeedback) (ev : Option (Dict Evidence)) : Dict Evidence :=
  if s.t = 0 then ev.getD [] else update (ev.getD []) s.transitionEvidence

theorem setInner_fields (so : SetOrder) (limit : Nat) (ev : Option (Dict Evidence))
    (s : SoftFeedback) : (setInner so limit ev s).1 =
      { s with ft := (setInner so limit ev s).1.ft } := by
  unfold setInner
  split
  · split <;> rfl
  · split <;> rfl

theorem setInner_dbn (so : SetOrder) (limit : Nat) (ev : Option (Dict Evidence)) (s : SoftFeedback) :
    (setInner so limit ev s).1.dbn = s.dbn := by
  rw [setInner_fields]

theorem setInner_t (so : SetOrder) (limit : Nat) (ev : Option (Dict Evidence)) (s : SoftFeedback) :
    (setInner so limit ev s).1.t = s.t := by
  rw [setInner_fields]

theorem setInner_evidence (so : SetOrder) (limit : Nat) (ev : Option (Dict Evidence))
    (s : SoftFeedback) : (setInner so limit ev s).1.evidence = s.evidence := by
  rw [setInner_fields]

theorem feed_fields (so : SetOrder) (limit : Nat) (trs : List (Name × Name)) (s : SoftFeedback) :
    (feed so limit trs s).1.t = s.t ∧ (feed so limit trs s).1.evidence = s.evidence ∧
      (feed so limit trs s).1.dbn = s.dbn := by
  induction trs generalizing s with
  | nil => exact ⟨rfl, rfl, rfl⟩
  | cons tr trs ih =>
    obtain ⟨node, nodeP⟩ := tr
    rw [feed]
    split
    · exact ⟨rfl, rfl, rfl⟩
    · dsimp only
      split
      · exact ⟨rfl, rfl, rfl⟩
      · exact ih _

theorem feed_fits (so : SetOrder) (limit : Nat) (trs : List (Name × Name)) (s : SoftFeedback)
    {f : SliceTree} (hf : s.ft = some f) (h : f.Fits s.dbn) :
    ∃ g, (feed so limit trs s).1.ft = some g ∧ g.Fits s.dbn := by
  induction trs generalizing s f with
  | nil => exact ⟨f, hf, h⟩
  | cons tr trs ih =>
    obtain ⟨node, nodeP⟩ := tr
    have hg : (f.table so limit nodeP).1.Fits s.dbn := h.of_shape rfl (JTree.marginals_shape so limit _ _)
    rw [feed, hf]
    dsimp only
    split
    · exact ⟨_, rfl, hg⟩
    · exact ih { s with ft := some _, transitionEvidence := _ } rfl hg

/-- From the second slice on there is a tree with the structure of the two-slice network's tree. -/
def Inv (s : SoftFeedback) : Prop :=
  (2 ≤ s.t ∨ (s.t = 1 ∧ s.evidence = true)) → ∃ f, s.ft = some f ∧ f.Fits s.dbn

theorem setInner_inv {s : SoftFeedback} (h : s.Inv) (so : SetOrder) (limit : Nat)
    (ev : Option (Dict Evidence)) :
    (setInner so limit ev s).1.Inv ∧ ((setInner so limit ev s).2 = none → 1 ≤ s.t →
      ∃ f, (setInner so limit ev s).1.ft = some f ∧ f.Fits s.dbn) := by
  by_cases ht : s.t ≤ 1
  · unfold setInner
    rw [if_pos ht]
    cases hc : SliceTree.create so s.dbn (decide (s.t = 1)) with
    | error e =>
      dsimp only
      exact ⟨h, fun hh => by cases hh⟩
    | ok f =>
      dsimp only
      have key : 1 ≤ s.t → f.Fits s.dbn := fun h1 => by
        have : s.t = 1 := le_antisymm ht h1
        rw [this] at hc
        exact SliceTree.Fits.of_create hc
      refine ⟨fun hh => ?_, fun _ h1 => ⟨_, rfl, PriorFeedback.setEvidence_fits (key h1)⟩⟩
      change 2 ≤ s.t ∨ s.t = 1 ∧ s.evidence = true at hh
      exact ⟨_, rfl, PriorFeedback.setEvidence_fits (key (by omega))⟩
  · obtain ⟨f, hf, hfit⟩ := h (Or.inl (by omega))
    have : ∃ g, (setInner so limit ev s).1.ft = some g ∧ g.Fits s.dbn := by
      unfold setInner
      rw [if_neg ht, hf]
      exact ⟨_, rfl, PriorFeedback.setEvidence_fits hfit⟩
    refine ⟨fun _ => ?_, fun _ _ => this⟩
    rw [setInner_dbn]
    exact this

theorem unrollInner_inv {s : SoftFeedback} (so : SetOrder) (limit : Nat)
    (h : 1 ≤ s.t → ∃ f, s.ft = some f ∧ f.Fits s.dbn) :
    ((unrollInner so limit s).2 = none → (unrollInner so limit s).1.t = s.t + 1 ∧
      ({ (unrollInner so limit s).1 with evidence := false } : SoftFeedback).Inv) ∧
      (∀ e, (unrollInner so limit s).2 = some e →
        (unrollInner so limit s).1.t = s.t ∧ (unrollInner so limit s).1.Inv) := by
  obtain ⟨f1, f2, f3⟩ := feed_fields so limit s.dbn.transitions { s with transitionEvidence := [] }
  have hfit : 1 ≤ s.t → ∃ g, (feed so limit s.dbn.transitions
      { s with transitionEvidence := [] }).1.ft = some g ∧ g.Fits s.dbn := fun h1 => by
    obtain ⟨f, hf, hh⟩ := h h1
    exact feed_fits so limit _ { s with transitionEvidence := [] } hf hh
  unfold unrollInner
  cases hr : feed so limit s.dbn.transitions { s with transitionEvidence := [] } with
  | mk s' o =>
    rw [hr] at f1 f2 f3 hfit
    dsimp only at f1 f2 f3 hfit
    rw [← f3] at hfit
    cases o with
    | some e =>
      refine ⟨fun hh => (by cases hh), fun _ _ => ⟨f1, fun hh => hfit ?_⟩⟩
      change 2 ≤ s'.t ∨ s'.t = 1 ∧ s'.evidence = true at hh
      omega
    | none =>
      refine ⟨fun _ => ⟨by rw [← f1], fun hh => hfit ?_⟩, fun e hh => by cases hh⟩
      change 2 ≤ s'.t + 1 ∨ s'.t + 1 = 1 ∧ false = true at hh
      rcases hh with hh | ⟨-, he⟩
      · omega
      · cases he

/-- the state in which `_unroll` is called -/
def beforeUnroll (so : SetOrder) (limit : Nat) (ev : Option (Dict Evidence)) (kwargs : Bool)
    (s : SoftFeedback) : SRes :=
  if ¬ s.evidence ∨ ev ≠ none then
    if kwargs then (s, some .typeError) else setInner so limit ev s
  else (s, none)

theorem unroll_error {so : SetOrder} {limit : Nat} {ev : Option (Dict Evidence)} {kwargs : Bool}
    {s s' : SoftFeedback} {e : PyErr} (h : beforeUnroll so limit ev kwargs s = (s', some e)) :
    unroll so limit ev kwargs s = (s', some e) := by
  unfold beforeUnroll at h
  unfold unroll
  dsimp only
  rw [h]

theorem unroll_ok {so : SetOrder} {limit : Nat} {ev : Option (Dict Evidence)} {kwargs : Bool}
    {s s' : SoftFeedback} (h : beforeUnroll so limit ev kwargs s = (s', none)) :
    unroll so limit ev kwargs s = match unrollInner so limit s' with
      | (s, some e) => (s, some e)
      | (s, none) => ({ s with evidence := false }, none) := by
  unfold beforeUnroll at h
  unfold unroll
  dsimp only
  rw [h]
  rfl

theorem beforeUnroll_inv {s : SoftFeedback} (h : s.Inv) (so : SetOrder) (limit : Nat)
    (ev : Option (Dict Evidence)) (kwargs : Bool) :
    (beforeUnroll so limit ev kwargs s).1.Inv ∧ (beforeUnroll so limit ev kwargs s).1.t = s.t ∧
      ((beforeUnroll so limit ev kwargs s).2 = none → 1 ≤ s.t →
        ∃ f, (beforeUnroll so limit ev kwargs s).1.ft = some f ∧
          f.Fits (beforeUnroll so limit ev kwargs s).1.dbn) := by
  unfold beforeUnroll
  split
  · split
    · exact ⟨h, rfl, fun hh => by cases hh⟩
    · obtain ⟨h1, h2⟩ := setInner_inv h so limit ev
      refine ⟨h1, setInner_t .., ?_⟩
      rw [setInner_dbn]
      exact h2
  · rename_i hh
    push Not at hh
    refine ⟨h, rfl, fun _ h1 => h ?_⟩
    rcases Nat.lt_or_ge s.t 2 with h2 | h2
    · exact Or.inr ⟨by omega, hh.1⟩
    · exact Or.inl h2

theorem unroll_inv {s : SoftFeedback} (h : s.Inv) (so : SetOrder) (limit : Nat)
    (ev : Option (Dict Evidence)) (kwargs : Bool) :
    (unroll so limit ev kwargs s).1.Inv ∧ (unroll so limit ev kwargs s).1.t =
      s.t + if (unroll so limit ev kwargs s).2 = none then 1 else 0 := by
  obtain ⟨h1, h2, h3⟩ := beforeUnroll_inv h so limit ev kwargs
  cases hb : beforeUnroll so limit ev kwargs s with
  | mk s1 o =>
    rw [hb] at h1 h2 h3
    cases o with
    | some e => rw [unroll_error hb]; exact ⟨h1, by simpa using h2⟩
    | none =>
      dsimp only at h1 h2 h3
      obtain ⟨g1, g2⟩ := unrollInner_inv so limit (s := s1) fun hh => h3 rfl (h2 ▸ hh)
      rw [unroll_ok hb]
      cases hu : unrollInner so limit s1 with
      | mk s2 o =>
        rw [hu] at g1 g2
        cases o with
        | some e =>
          obtain ⟨g3, g4⟩ := g2 e rfl
          exact ⟨g4, by simpa [h2] using g3⟩
        | none =>
          obtain ⟨g3, g4⟩ := g1 rfl
          exact ⟨g4, by simpa [h2] using g3⟩

theorem setEvidence_inv {s : SoftFeedback} (h : s.Inv) (so : SetOrder) (limit : Nat)
    (ev : Option (Dict Evidence)) :
    (s.setEvidence so limit ev).1.Inv ∧ (s.setEvidence so limit ev).1.t = s.t := by
  obtain ⟨h1, h2⟩ := setInner_inv h so limit ev
  have h3 := setInner_t so limit ev s
  have h4 := setInner_dbn so limit ev s
  unfold setEvidence
  cases hr : setInner so limit ev s with
  | mk s' o =>
    rw [hr] at h1 h2 h3 h4
    dsimp only at h1 h2 h3 h4
    cases o with
    | some e => exact ⟨h1, h3⟩
    | none =>
      refine ⟨fun hh => ?_, h3⟩
      change 2 ≤ s'.t ∨ s'.t = 1 ∧ true = true at hh
      change ∃ f, s'.ft = some f ∧ f.Fits s'.dbn
      rw [h4]
      exact h2 rfl (by omega)

theorem marginals_inv {s : SoftFeedback} (h : s.Inv) (so : SetOrder) (limit : Nat) (vs : List Name) :
    (s.marginals so limit vs).1.Inv ∧ (s.marginals so limit vs).1.t = s.t := by
  unfold marginals
  cases hf : s.ft with
  | none => exact ⟨h, rfl⟩
  | some f =>
    refine ⟨fun hh => ?_, rfl⟩
    obtain ⟨g, g1, g2⟩ := h hh
    rw [hf] at g1
    cases g1
    exact ⟨_, rfl, g2.of_shape rfl (JTree.marginals_shape so limit vs _)⟩

theorem call_inv {s : SoftFeedback} (h : s.Inv) (op : DynOp) : (call op s).1.Inv := by
  cases op with
  | setEvidence so limit ev => exact (setEvidence_inv h so limit ev).1
  | unroll so limit ev soft => exact (unroll_inv h so limit ev soft.isSome).1
  | marginals so limit vs => exact (marginals_inv h so limit vs).1

theorem create_inv (d : DBN) : (create d).Inv := by
  intro h
  simp [create] at h

theorem runs_inv {s : SoftFeedback} (h : s.Inv) (ops : List DynOp) : (runs ops s).Inv := by
  induction ops generalizing s with
  | nil => exact h
  | cons op ops ih => exact ih (call_inv h op)

theorem runs_t {s : SoftFeedback} (h : s.Inv) (ops : List DynOp) :
    (runs ops s).t = s.t + unrolls ops s := by
  induction ops generalizing s with
  | nil => rfl
  | cons op ops ih =>
    have h1 := ih (call_inv h op)
    change (runs ops (call op s).1).t = _
    rw [h1]
    cases op with
    | setEvidence so limit ev =>
      have := (setEvidence_inv h so limit ev).2
      simp only [unrolls, call] at this ⊢
      omega
    | unroll so limit ev soft =>
      have := (unroll_inv h so limit ev soft.isSome).2
      simp only [unrolls, call]
      rw [this]
      by_cases hh : (unroll so limit ev soft.isSome s).2 = none <;>
        simp only [hh, if_true, if_false] <;> omega
    | marginals so limit vs =>
      have := (marginals_inv h so limit vs).2
      simp only [unrolls, call] at this ⊢
      omega

/-- if the call of `set_evidence` on the tree returned, a new tree gives the same result -/
theorem fresh_tree {so : SetOrder} {limit : Nat} {bn : BN} {ev : Dict Evidence} {soft : Bool}
    {p t t' : JTree} (hp : plan bn none = .ok p) (hs : t.shape = p.shape)
    (he : t.setEvidence so limit bn ev soft = (t', none)) :
    ∃ t0, JoinTree.create so bn none = .ok t0 ∧ t0.setEvidence so limit bn ev soft = (t', none) := by
  cases hr : (t.reset so bn).2 with
  | some e =>
    unfold JTree.setEvidence at he
    rw [JTree.andThen_some hr] at he
    rw [he] at hr
    cases hr
  | none =>
    have hr' : t.reset so bn = ((t.reset so bn).1, none) := Prod.ext rfl hr
    refine ⟨_, create_of_reset hp hs hr', ?_⟩
    obtain ⟨-, h2⟩ := JTree.setEvidence_eq so limit bn ev soft (t := t)
      (t' := (t.reset so bn).1) (JTree.reset_shape so bn t)
    rw [h2 hr, he]

/-- entering evidence gives what it gives on a tree created for the purpose -/
theorem setInner_fresh {s : SoftFeedback} (h : s.Inv) {so : SetOrder} {limit : Nat}
    {ev : Option (Dict Evidence)} {s' : SoftFeedback}
    (he : setInner so limit ev s = (s', none)) :
    ∃ t0 t1, JoinTree.create so s.sliceNet none = .ok t0 ∧
      t0.setEvidence so limit s.sliceNet (s.sliceEvidence ev) true = (t1, none) ∧
      s' = { s with ft := some ⟨decide (s.t ≠ 0), t1⟩ } := by
  unfold setInner at he
  split at he
  · rename_i ht
    cases hc : SliceTree.create so s.dbn (decide (s.t = 1)) with
    | error e => rw [hc] at he; cases he
    | ok f =>
      rw [hc] at he
      dsimp only at he
      obtain ⟨h1, h2⟩ := SliceTree.create_ok hc
      have hd : decide (s.t = 1) = decide (s.t ≠ 0) := by
        rcases Nat.le_one_iff_eq_zero_or_eq_one.1 ht with h | h <;> simp [h]
      have hn : (if decide (s.t = 1) = true then s.dbn.twoTbn else s.dbn.b0) = s.sliceNet := by
        unfold sliceNet
        rcases Nat.le_one_iff_eq_zero_or_eq_one.1 ht with h | h <;> simp [h]
      rw [hn] at h2
      have hnet : f.net s.dbn = s.sliceNet := by rw [SliceTree.net, h1, hn]
      unfold enter SliceTree.setEvidence at he
      rw [hnet] at he
      injection he with e1 e2
      refine ⟨f.tree, _, h2, Prod.ext rfl e2, ?_⟩
      rw [← e1]
      dsimp only [sliceEvidence]
      rw [h1, hd]
  · rename_i ht
    obtain ⟨f, hf, hfit⟩ := h (Or.inl (by omega))
    obtain ⟨h1, p, hp, hsh⟩ := hfit
    have hsn : s.sliceNet = s.dbn.twoTbn := by unfold sliceNet; rw [if_neg (by omega)]
    have hse : s.sliceEvidence ev = update (ev.getD []) s.transitionEvidence := by
      unfold sliceEvidence; rw [if_neg (by omega)]
    have hnet : f.net s.dbn = s.sliceNet := by rw [SliceTree.net, h1, hsn]; rfl
    rw [hf] at he
    dsimp only [enter, SliceTree.setEvidence] at he
    rw [hnet, ← hse] at he
    injection he with e3 e4
    obtain ⟨t0, g1, g2⟩ := fresh_tree (bn := s.sliceNet) (by rw [hsn]; exact hp) hsh (Prod.ext rfl e4)
    refine ⟨t0, _, g1, g2, ?_⟩
    rw [← e3, h1]
    have : decide (s.t ≠ 0) = true := by simp; omega
    rw [this]

end SoftFeedback
end Primo
