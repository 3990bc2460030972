import Verif.Lemmas.Dtype

/-! # Element types: decisions -/

namespace Primo
open TFactor

/-- the values -/
def JR (t : TJoint) (J : JointFactor) : Prop := t.1.val = J.1 ∧ t.2.val = J.2

theorem PosPerm.list_rel (pp : PosPerm) (k : Nat) {α β : Type} {R : α → β → Prop} {l : List α} {m : List β}
    (h : List.Forall₂ R l m) : List.Forall₂ R (pp.list k l) (pp.list k m) := by
  have e : ∀ n (hn : l.length = n), pp.list k l = (pp.pos k n).map fun i => l.get (i.cast hn.symm) := by
    rintro n rfl
    rfl
  rw [e m.length h.length_eq]
  unfold PosPerm.list
  rw [List.forall₂_map_left_iff, List.forall₂_map_right_iff, List.forall₂_same]
  intro i _
  exact h.get _ i.2

theorem PosPerm.perm (pp : PosPerm) (k : Nat) {α : Type} (l : List α) : (pp.list k l).Perm l := by
  have := (pp.isPerm k l.length).map l.get
  rwa [show (List.finRange l.length).map l.get = l from List.ext_getElem (by simp) (by simp)] at this

/-- how many of the utility tables consist of truth values -/
def boolTables (l : List TJoint) : Nat := l.countP fun f => f.2.dt = .bool

namespace TDecision

theorem mul_is (so : SetOrder) {t u : TFactor} {F G : Factor} (h : t.Is F) (h' : u.Is G) :
    Both Is (t.mul so u) (F.mul so G) := by
  cases h; cases h'
  exact Both.map_left fun a _ => rfl

theorem marginalize_is {t : TFactor} {F : Factor} (h : t.Is F) (vars : List Name) :
    Both Is (t.marginalize vars) (F.marginalize vars) := by
  cases h
  exact Both.map_left fun a _ => rfl

theorem add_is (so : SetOrder) {t u : TFactor} {F G : Factor} (h : t.Is F) (h' : u.Is G)
    (hb : ¬ (t.dt = .bool ∧ u.dt = .bool)) :
    Both (fun r R => r.Is R ∧ r.dt ≠ .bool) (t.add so u) (F.add so G) := by
  cases h; cases h'
  have hp : t.dt.plus u.dt = (· + ·) := by
    funext x y
    cases ht : t.dt <;> cases hu : u.dt <;> first | rfl | exact absurd ⟨ht, hu⟩ hb
  unfold TFactor.add Factor.add
  rw [hp]
  refine Both.map_left fun a _ => ⟨rfl, ?_⟩
  change t.dt.join u.dt ≠ .bool
  by_cases ht : t.dt = .bool
  · have hu : u.dt ≠ .bool := fun hu => hb ⟨ht, hu⟩
    rw [ht]
    revert hu
    generalize u.dt = d
    cases d <;> decide
  · revert ht
    generalize t.dt = e
    generalize u.dt = d
    cases d <;> cases e <;> decide

theorem combineTwo_is (so : SetOrder) {f g : TJoint} {F G : JointFactor} (h : JR f F) (h' : JR g G)
    (hb : ¬ (f.2.dt = .bool ∧ g.2.dt = .bool)) :
    Both (fun r R => JR r R ∧ r.2.dt ≠ .bool) (combineTwo so f g) (Decision.combineTwo so F G) := by
  unfold combineTwo Decision.combineTwo
  refine (mul_is so h.1 h'.1).bind fun p P hp => ?_
  exact (add_is so h.2 h'.2 hb).bind fun u U hu => .ok ⟨⟨hp, hu.1⟩, hu.2⟩

theorem foldl_is (so : SetOrder) {l : List TJoint} {m : List JointFactor} (h : List.Forall₂ JR l m) :
    ∀ {f : TJoint} {F : JointFactor}, JR f F → boolTables (f :: l) ≤ 1 →
      Both JR (l.foldlM (combineTwo so) f) (m.foldlM (Decision.combineTwo so) F) := by
  induction h with
  | nil => exact fun hf _ => .ok hf
  | @cons g G l m hg _ ih =>
    intro f F hf hb
    rw [List.foldlM_cons, List.foldlM_cons]
    unfold boolTables at hb
    rw [List.countP_cons, List.countP_cons] at hb
    have hno : ¬ (f.2.dt = .bool ∧ g.2.dt = .bool) := by
      rintro ⟨h1, h2⟩
      simp only [h1, h2, decide_true, if_true] at hb
      omega
    refine (combineTwo_is so hf hg hno).bind fun r R hr => ih hr.1 ?_
    unfold boolTables
    rw [List.countP_cons, if_neg (by simp [hr.2])]
    omega

theorem combine_is (so : SetOrder) {l : List TJoint} {m : List JointFactor} (h : List.Forall₂ JR l m)
    (hb : boolTables l ≤ 1) : Both JR (combine so l) (Decision.combine so m) := by
  cases h with
  | nil => exact .error _
  | cons hf hl => exact foldl_is so hl hf hb

theorem marginalizeJoint_is (so : SetOrder) {f : TJoint} {F : JointFactor} (h : JR f F) (v : Name) :
    Both (fun r R => JR r R ∧ r.2.dt = .float) (marginalizeJoint so f v)
      (Decision.marginalizeJoint so F v) := by
  unfold marginalizeJoint Decision.marginalizeJoint
  refine (marginalize_is h.1 [v]).bind fun t T ht => ?_
  refine (mul_is so h.1 h.2).bind fun p P hp => ?_
  refine (marginalize_is hp [v]).bind fun q Q hq => ?_
  exact (div_fl so hq ht).bind fun u U hu => .ok ⟨⟨ht, hu.1⟩, hu.2.1⟩

theorem filter_rel {l : List TJoint} {m : List JointFactor} (h : List.Forall₂ JR l m) (q : List Name → Bool) :
    List.Forall₂ JR (l.filter fun f => q f.1.val.variableOrder) (m.filter fun F => q F.1.variableOrder) := by
  induction h with
  | nil => exact .nil
  | @cons f F l m hf _ ih =>
    rw [List.filter_cons, List.filter_cons, hf.1]
    split
    · exact .cons hf ih
    · exact ih

theorem bool_perm {l m : List TJoint} (h : l.Perm m) : boolTables l = boolTables m := h.countP_eq _

theorem bool_filter (l : List TJoint) (q : TJoint → Bool) : boolTables (l.filter q) ≤ boolTables l :=
  List.Sublist.countP_le List.filter_sublist

theorem eliminate_is (so : SetOrder) (pp : PosPerm) : ∀ (vs : List Name) (k : Nat) {l : List TJoint}
    {m : List JointFactor}, List.Forall₂ JR l m → boolTables l ≤ 1 →
    Both (fun r R => List.Forall₂ JR r R ∧ boolTables r ≤ 1) (eliminate so pp k vs l)
      (Decision.eliminate so pp.erase k vs m)
  | [], _, _, _, h, hb => .ok ⟨h, hb⟩
  | v :: vs, k, l, m, h, hb => by
    unfold eliminate Decision.eliminate
    have h1 := filter_rel h fun o => decide (v ∈ o)
    have h2 := filter_rel h fun o => decide (v ∉ o)
    refine (combine_is so (pp.list_rel k h1) ?_).bind fun t T ht => ?_
    · rw [bool_perm (pp.perm k _)]
      exact (bool_filter _ _).trans hb
    refine (marginalizeJoint_is so ht v).bind fun n N hn => ?_
    refine eliminate_is so pp vs (k + 1) (List.rel_append h2 (.cons hn.1 .nil)) ?_
    unfold boolTables
    rw [List.countP_append, List.countP_singleton, if_neg (by simp [hn.2])]
    exact (bool_filter _ _).trans hb

theorem generalizedVE_is (so : SetOrder) (pp : PosPerm) (vs : List Name) {l : List TJoint}
    {m : List JointFactor} (h : List.Forall₂ JR l m) (hb : boolTables l ≤ 1) :
    Both JR (generalizedVE so pp l vs) (Decision.generalizedVE so pp.erase m vs) := by
  unfold generalizedVE Decision.generalizedVE
  refine (eliminate_is so pp vs 0 h hb).bind fun r R hr => ?_
  refine combine_is so (pp.list_rel _ hr.1) ?_
  rw [bool_perm (pp.perm _ r)]
  exact hr.2

theorem joint_is (n : TypedNode) :
    Both (fun r R => JR r R ∧ (r.2.dt = .bool → n.node.kind = .utility ∧ n.dt = .bool)) (TFactor.joint n)
      (Factor.joint n.node) := by
  unfold TFactor.joint Factor.joint
  split
  · rename_i hk
    refine Both.bind (R := fun f F => f.val = F ∧ f.dt = n.dt) (Both.map_left fun _ _ => ⟨rfl, rfl⟩) ?_
    rintro u U ⟨rfl, hd⟩
    refine Both.bind (R := Is) (Both.map_left fun _ _ => rfl) ?_
    rintro p P rfl
    exact .ok ⟨⟨rfl, rfl⟩, fun h => ⟨hk, hd ▸ h⟩⟩
  · refine (fromNode_is n).bind ?_
    rintro p P rfl
    refine Both.bind (R := fun f F => f.val = F ∧ f.dt = .float) (Both.map_left fun _ _ => ⟨rfl, rfl⟩) ?_
    rintro u U ⟨rfl, hd⟩
    exact .ok ⟨⟨rfl, rfl⟩, fun h => by rw [hd] at h; cases h⟩

/-- how many utility nodes have a table of truth values -/
def boolNodes (tn : TBN) : Nat := tn.countP fun n => n.node.kind = .utility ∧ n.dt = .bool

theorem factors_is (tn : TBN) : Both (fun r R => List.Forall₂ JR r R ∧ boolTables r ≤ boolNodes tn)
    (tn.mapM TFactor.joint) (Decision.factors tn.erase) := by
  unfold Decision.factors TBN.erase
  induction tn with
  | nil => exact .ok ⟨.nil, Nat.zero_le _⟩
  | cons n tn ih =>
    rw [List.map_cons, List.mapM_cons, List.mapM_cons]
    refine (joint_is n).bind fun f F hf => ih.bind fun l m hl => .ok ⟨.cons hf.1 hl.1, ?_⟩
    unfold boolTables boolNodes at hl ⊢
    rw [List.countP_cons, List.countP_cons]
    have := hl.2
    split
    · rename_i h
      rw [if_pos (by simpa using hf.2 (by simpa using h))]
      omega
    · split <;> omega

end TDecision
end Primo
