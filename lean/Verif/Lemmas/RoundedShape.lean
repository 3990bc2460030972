import Verif.Lemmas.TreeHist
import Verif.Rounded

/-! # What every call on a join tree with any arithmetic leaves unchanged -/

namespace Primo
open JoinTree Factor

namespace JTree

theorem putFirstR_skel (A : Arith) (so : SetOrder) (p : List Name → Bool) (f : Factor) (ns : Dict JNode)
    {ns' : Dict JNode} (h : putFirstR A so p f ns = .ok ns') : skel ns' = skel ns := by
  induction ns generalizing ns' with
  | nil => injection h with h; rw [← h]
  | cons q ns ih =>
    obtain ⟨k, n⟩ := q
    rw [putFirstR] at h
    by_cases hp : p n.vars = true
    · rw [if_pos hp] at h
      cases hm : n.factor.mulR A so f with
      | error e => rw [hm] at h; cases h
      | ok g =>
        rw [hm, ok_bind] at h
        injection h with h
        rw [← h]; rfl
    · rw [if_neg hp] at h
      cases hm : putFirstR A so p f ns with
      | error e => rw [hm] at h; cases h
      | ok g =>
        rw [hm, ok_bind] at h
        injection h with h
        rw [← h]
        simp only [skel, List.map_cons]
        congr 1
        exact ih hm

theorem putFactorR_shape (A : Arith) (so : SetOrder) (f : Factor) (t : JTree) :
    (putFactorR A so f t).1.shape = t.shape := by
  unfold putFactorR
  cases h : putFirstR A so (fun vars => sub f.values.keys vars) f t.nodes with
  | error e => rfl
  | ok ns => exact shape_nodes (putFirstR_skel A so _ _ _ h)

theorem putEvidenceR_shape (A : Arith) (so : SetOrder) (bn : BN) (old : Dict NDArray) (e : Name × Evidence)
    (t : JTree) : (putEvidenceR A so bn old e t).1.shape = t.shape := by
  unfold putEvidenceR
  cases h0 : bn.getNode e.1 with
  | error x => rfl
  | ok n =>
    rw [ok_bind]
    cases h1 : Factor.asEvidenceR A e.1 n.values e.2 (old.get? e.1) with
    | error x => rfl
    | ok f =>
      rw [ok_bind]
      cases h : putFirstR A so (fun vars => vars.contains e.1) f t.nodes with
      | error x => rfl
      | ok ns => exact shape_nodes (putFirstR_skel A so _ _ _ h)

theorem resetR_shape (A : Arith) (so : SetOrder) (bn : BN) (t : JTree) : (resetR A so bn t).1.shape = t.shape := by
  unfold resetR
  cases h : bn.mapM Factor.fromNode with
  | error e => rfl
  | ok fs =>
    refine andThen_inv (P := fun t' => t'.shape = t.shape) ?_ fun t' ht => ht
    exact forEach_inv (P := fun t' => t'.shape = t.shape) _
      (fun x _ t' ht => (putFactorR_shape A so x t').trans ht) _ (blank_shape t)

theorem sendR_shape (A : Arith) (so : SetOrder) (a b : Name) (t : JTree) : (sendR A so a b t).1.shape = t.shape := by
  unfold sendR
  cases h0 : t.nodes.getE a with
  | error x => rfl
  | ok na =>
    rw [ok_bind]
    cases h1 : t.edge a b with
    | error x => rfl
    | ok e =>
      rw [ok_bind]
      cases h2 : na.factor.marginalizeR A (so.diff na.vars e.sep) with
      | error x => rfl
      | ok new =>
        rw [ok_bind]
        cases h3 : t.nodes.getE b with
        | error x => rfl
        | ok nb =>
          rw [ok_bind]
          cases h4 : new.divR A so e.factor with
          | error x => rfl
          | ok q =>
            rw [ok_bind]
            cases h5 : nb.factor.mulR A so q with
            | error x => rfl
            | ok g =>
              rw [ok_bind]
              have hg : t.nodes.get? b = some nb := by
                unfold Dict.getE at h3
                cases hx : t.nodes.get? b with
                | none => rw [hx] at h3; cases h3
                | some y => rw [hx] at h3; injection h3 with h3; rw [h3]
              have hsk := skel_set (n' := { nb with factor := g }) hg rfl
              unfold skel at hsk
              simp only [JRes.ofExcept, shape, pure, Except.pure]
              rw [hsk]
              congr 2
              rw [List.map_map]
              refine List.map_congr_left fun x _ => ?_
              simp only [Function.comp]
              split <;> rfl

theorem pullR_shape (A : Arith) (so : SetOrder) (d : Nat) (cur : Name) (parent : Option Name) (t : JTree) :
    (pullR A so d cur parent t).1.shape = t.shape := by
  induction d generalizing cur parent t with
  | zero => rfl
  | succ d ih =>
    rw [pullR]
    refine andThen_inv (P := fun t' => t'.shape = t.shape) ?_ fun t' ht => ?_
    · refine forEach_inv (P := fun t' => t'.shape = t.shape) _ (fun x _ t' ht => ?_) _ rfl
      split
      · exact ht
      · exact (ih _ _ _).trans ht
    · cases parent with
      | none => exact ht
      | some p =>
        dsimp only
        split
        · exact ht
        · exact (sendR_shape A so _ _ _).trans ht

theorem pushR_shape (A : Arith) (so : SetOrder) (d : Nat) (cur : Name) (parent : Option Name) (t : JTree) :
    (pushR A so d cur parent t).1.shape = t.shape := by
  induction d generalizing cur parent t with
  | zero => rfl
  | succ d ih =>
    rw [pushR]
    refine forEach_inv (P := fun t' => t'.shape = t.shape) _ (fun x _ t' ht => ?_) _ rfl
    split
    · exact ht
    · exact andThen_inv (P := fun t' => t'.shape = t.shape) ((sendR_shape A so _ _ _).trans ht)
        fun t'' h'' => (ih _ _ _).trans h''

theorem calculateR_shape (A : Arith) (so : SetOrder) (limit : Nat) (t : JTree) :
    (calculateR A so limit t).1.shape = t.shape := by
  have key : ∀ root, (((pullR A so limit root none t).andThen (pushR A so limit root none)).andThen
      (fun t => ({ t with valid := true }, none))).1.shape = t.shape := by
    intro root
    refine andThen_inv (P := fun t' => t'.shape = t.shape) ?_ fun t' ht => ht
    exact andThen_inv (P := fun t' => t'.shape = t.shape) (pullR_shape A so _ _ _ _)
      fun t' ht => (pushR_shape A so _ _ _ _).trans ht
  unfold calculateR
  split
  · rfl
  · rename_i root n rest _
    have := key root
    split
    · rename_i t' heq
      rw [heq] at this
      exact this
    · exact this

theorem marginalsR_shape (A : Arith) (so : SetOrder) (limit : Nat) (vs : List Name) (t : JTree) :
    (marginalsR A so limit vs t).1.shape = t.shape := by
  unfold marginalsR
  by_cases hv : t.valid = true
  · rw [if_pos hv]
  · rw [if_neg hv]
    have := calculateR_shape A so limit t
    cases hc : calculateR A so limit t with
    | mk t' o =>
      rw [hc] at this
      cases o with
      | none => exact this
      | some e => exact this

theorem oldMarginalsR_shape (A : Arith) (so : SetOrder) (limit : Nat) (es : List Name) (t : JTree) :
    (oldMarginalsR A so limit es t).1.shape = t.shape := by
  induction es generalizing t with
  | nil => rfl
  | cons e es ih =>
    rw [oldMarginalsR]
    have := marginalsR_shape A so limit [e] t
    cases hm : marginalsR A so limit [e] t with
    | mk t' o =>
      rw [hm] at this
      cases o with
      | error x => exact this
      | ok f =>
        dsimp only
        have h2 := ih t'
        cases ho : oldMarginalsR A so limit es t' with
        | mk t'' o' =>
          rw [ho] at h2
          cases o' with
          | error x => exact h2.trans this
          | ok d => exact h2.trans this

theorem setEvidenceR_shape (A : Arith) (so : SetOrder) (limit : Nat) (bn : BN) (ev : Dict Evidence) (soft : Bool)
    (t : JTree) : (setEvidenceR A so limit bn ev soft t).1.shape = t.shape := by
  have hput : ∀ old t', t'.shape = t.shape →
      ((JRes.forEach (putEvidenceR A so bn old) ev t').andThen (calculateR A so limit)).1.shape = t.shape := by
    intro old t' ht
    refine andThen_inv (P := fun t' => t'.shape = t.shape) ?_
      fun t'' h => (calculateR_shape A so limit t'').trans h
    exact forEach_inv (P := fun t' => t'.shape = t.shape) _
      (fun x _ t'' h => (putEvidenceR_shape A so bn old x t'').trans h) _ ht
  unfold setEvidenceR
  refine andThen_inv (P := fun t' => t'.shape = t.shape) (resetR_shape A so bn t) fun t1 h1 => ?_
  split
  · refine andThen_inv (P := fun t' => t'.shape = t.shape) ((calculateR_shape A so limit t1).trans h1)
      fun t2 h2 => ?_
    have h3 := (oldMarginalsR_shape A so limit ev.keys t2).trans h2
    cases ho : oldMarginalsR A so limit ev.keys t2 with
    | mk t' o =>
      rw [ho] at h3
      cases o with
      | error x => exact h3
      | ok old =>
        exact andThen_inv (P := fun t' => t'.shape = t.shape) ((resetR_shape A so bn t').trans h3) (hput old)
  · exact hput [] t1 h1

end JTree
end Primo
