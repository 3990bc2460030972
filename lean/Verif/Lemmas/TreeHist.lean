import Verif.Lemmas.Load

/-! # What every call on a join tree leaves unchanged -/

namespace Primo
open JoinTree Factor

namespace JTree

theorem andThen_none {r : JRes} (h : r.2 = none) (f : JTree → JRes) : r.andThen f = f r.1 := by
  rw [JRes.andThen, h]

theorem andThen_some {r : JRes} {e : PyErr} (h : r.2 = some e) (f : JTree → JRes) :
    r.andThen f = r := by
  rw [JRes.andThen, h]

theorem forEach_inv {α : Type} {P : JTree → Prop} {f : α → JTree → JRes} (l : List α)
    (h : ∀ x ∈ l, ∀ t, P t → P (f x t).1) (t : JTree) (ht : P t) : P (JRes.forEach f l t).1 := by
  induction l generalizing t with
  | nil => exact ht
  | cons x l ih =>
    rw [JRes.forEach, JRes.andThen]
    have hx := h x (by simp) t ht
    cases hr : (f x t).2 with
    | none => exact ih (fun y hy => h y (by simp [hy])) _ hx
    | some e => exact hx

theorem andThen_inv {P : JTree → Prop} {r : JRes} {f : JTree → JRes} (h : P r.1)
    (hf : ∀ t, P t → P (f t).1) : P (r.andThen f).1 := by
  rw [JRes.andThen]
  cases hr : r.2 with
  | none => exact hf _ h
  | some e => exact h

theorem putFirst_skel (so : SetOrder) (p : List Name → Bool) (f : Factor) (ns : Dict JNode)
    {ns' : Dict JNode} (h : putFirst so p f ns = .ok ns') : skel ns' = skel ns := by
  induction ns generalizing ns' with
  | nil => injection h with h; rw [← h]
  | cons q ns ih =>
    obtain ⟨k, n⟩ := q
    rw [putFirst] at h
    by_cases hp : p n.vars = true
    · rw [if_pos hp] at h
      cases hm : n.factor.mul so f with
      | error e => rw [hm] at h; cases h
      | ok g =>
        rw [hm, ok_bind] at h
        injection h with h
        rw [← h]; rfl
    · rw [if_neg hp] at h
      cases hm : putFirst so p f ns with
      | error e => rw [hm] at h; cases h
      | ok g =>
        rw [hm, ok_bind] at h
        injection h with h
        rw [← h]
        simp only [skel, List.map_cons]
        congr 1
        exact ih hm

theorem shape_nodes {t : JTree} {ns : Dict JNode} (h : skel ns = skel t.nodes) :
    ({ t with nodes := ns } : JTree).shape = t.shape := by
  unfold shape
  unfold skel at h
  dsimp only
  rw [h]

theorem putFactor_shape (so : SetOrder) (f : Factor) (t : JTree) :
    (putFactor so f t).1.shape = t.shape := by
  unfold putFactor
  cases h : putFirst so (fun vars => sub f.values.keys vars) f t.nodes with
  | error e => rfl
  | ok ns => exact shape_nodes (putFirst_skel so _ _ _ h)

theorem putEvidence_shape (so : SetOrder) (bn : BN) (old : Dict NDArray) (e : Name × Evidence)
    (t : JTree) : (putEvidence so bn old e t).1.shape = t.shape := by
  unfold putEvidence
  cases h0 : bn.getNode e.1 with
  | error x => rfl
  | ok n =>
    rw [ok_bind]
    cases h1 : Factor.asEvidence e.1 n.values e.2 (old.get? e.1) with
    | error x => rfl
    | ok f =>
      rw [ok_bind]
      cases h : putFirst so (fun vars => vars.contains e.1) f t.nodes with
      | error x => rfl
      | ok ns => exact shape_nodes (putFirst_skel so _ _ _ h)

theorem blank_shape (t : JTree) : t.blank.shape = t.shape := by
  simp [shape, blank, Function.comp_def]

theorem reset_shape (so : SetOrder) (bn : BN) (t : JTree) : (reset so bn t).1.shape = t.shape := by
  unfold reset
  cases h : bn.mapM Factor.fromNode with
  | error e => rfl
  | ok fs =>
    refine andThen_inv (P := fun t' => t'.shape = t.shape) ?_ fun t' ht => ht
    exact forEach_inv (P := fun t' => t'.shape = t.shape) _
      (fun x _ t' ht => (putFactor_shape so x t').trans ht) _ (blank_shape t)

theorem skel_set {ns : Dict JNode} {k : Name} {n n' : JNode} (h : ns.get? k = some n)
    (hv : n'.vars = n.vars) : skel (ns.set k n') = skel ns := by
  induction ns with
  | nil => cases h
  | cons q ns ih =>
    obtain ⟨k', m⟩ := q
    by_cases hk : k' = k
    · subst hk
      simp only [Dict.get?, if_true] at h
      injection h with h
      subst h
      simp [Dict.set, skel, hv]
    · simp only [Dict.get?, if_neg hk] at h
      simp only [Dict.set, if_neg hk, skel, List.map_cons]
      congr 1
      exact ih h

theorem send_shape (so : SetOrder) (a b : Name) (t : JTree) : (send so a b t).1.shape = t.shape := by
  unfold send
  cases h0 : t.nodes.getE a with
  | error x => rfl
  | ok na =>
    rw [ok_bind]
    cases h1 : t.edge a b with
    | error x => rfl
    | ok e =>
      rw [ok_bind]
      cases h2 : na.factor.marginalize (so.diff na.vars e.sep) with
      | error x => rfl
      | ok new =>
        rw [ok_bind]
        cases h3 : t.nodes.getE b with
        | error x => rfl
        | ok nb =>
          rw [ok_bind]
          cases h4 : new.div so e.factor with
          | error x => rfl
          | ok q =>
            rw [ok_bind]
            cases h5 : nb.factor.mul so q with
            | error x => rfl
            | ok g =>
              rw [ok_bind]
              have hg : t.nodes.get? b = some nb := by
                unfold Dict.getE at h3
                cases hx : t.nodes.get? b with
                | none => rw [hx] at h3; cases h3
                | some y => rw [hx] at h3; injection h3 with h3; rw [h3]
              have hsk := skel_set (n' := { nb with factor := g }) hg rfl
              unfold skel at hsk
              simp only [JRes.ofExcept, shape, pure, Except.pure]
              rw [hsk]
              congr 2
              rw [List.map_map]
              refine List.map_congr_left fun x _ => ?_
              simp only [Function.comp]
              split <;> rfl

theorem pull_shape (so : SetOrder) (d : Nat) (cur : Name) (parent : Option Name) (t : JTree) :
    (pull so d cur parent t).1.shape = t.shape := by
  induction d generalizing cur parent t with
  | zero => rfl
  | succ d ih =>
    rw [pull]
    refine andThen_inv (P := fun t' => t'.shape = t.shape) ?_ fun t' ht => ?_
    · refine forEach_inv (P := fun t' => t'.shape = t.shape) _ (fun x _ t' ht => ?_) _ rfl
      split
      · exact ht
      · exact (ih _ _ _).trans ht
    · cases parent with
      | none => exact ht
      | some p =>
        dsimp only
        split
        · exact ht
        · exact (send_shape so _ _ _).trans ht

theorem push_shape (so : SetOrder) (d : Nat) (cur : Name) (parent : Option Name) (t : JTree) :
    (push so d cur parent t).1.shape = t.shape := by
  induction d generalizing cur parent t with
  | zero => rfl
  | succ d ih =>
    rw [push]
    refine forEach_inv (P := fun t' => t'.shape = t.shape) _ (fun x _ t' ht => ?_) _ rfl
    split
    · exact ht
    · exact andThen_inv (P := fun t' => t'.shape = t.shape) ((send_shape so _ _ _).trans ht)
        fun t'' h'' => (ih _ _ _).trans h''

theorem calculate_shape (so : SetOrder) (limit : Nat) (t : JTree) :
    (calculate so limit t).1.shape = t.shape := by
  have key : ∀ root, (((pull so limit root none t).andThen (push so limit root none)).andThen
      (fun t => ({ t with valid := true }, none))).1.shape = t.shape := by
    intro root
    refine andThen_inv (P := fun t' => t'.shape = t.shape) ?_ fun t' ht => ht
    exact andThen_inv (P := fun t' => t'.shape = t.shape) (pull_shape so _ _ _ _)
      fun t' ht => (push_shape so _ _ _ _).trans ht
  unfold calculate
  split
  · rfl
  · rename_i root n rest _
    have := key root
    split
    · rename_i t' heq
      rw [heq] at this
      exact this
    · exact this

theorem marginals_shape (so : SetOrder) (limit : Nat) (vs : List Name) (t : JTree) :
    (marginals so limit vs t).1.shape = t.shape := by
  unfold marginals
  by_cases hv : t.valid = true
  · rw [if_pos hv]
  · rw [if_neg hv]
    have := calculate_shape so limit t
    cases hc : calculate so limit t with
    | mk t' o =>
      rw [hc] at this
      cases o with
      | none => exact this
      | some e => exact this

theorem oldMarginals_shape (so : SetOrder) (limit : Nat) (es : List Name) (t : JTree) :
    (oldMarginals so limit es t).1.shape = t.shape := by
  induction es generalizing t with
  | nil => rfl
  | cons e es ih =>
    rw [oldMarginals]
    have := marginals_shape so limit [e] t
    cases hm : marginals so limit [e] t with
    | mk t' o =>
      rw [hm] at this
      cases o with
      | error x => exact this
      | ok f =>
        dsimp only
        have h2 := ih t'
        cases ho : oldMarginals so limit es t' with
        | mk t'' o' =>
          rw [ho] at h2
          cases o' with
          | error x => exact h2.trans this
          | ok d => exact h2.trans this

theorem setEvidence_shape (so : SetOrder) (limit : Nat) (bn : BN) (ev : Dict Evidence) (soft : Bool)
    (t : JTree) : (setEvidence so limit bn ev soft t).1.shape = t.shape := by
  have hput : ∀ old t', t'.shape = t.shape →
      ((JRes.forEach (putEvidence so bn old) ev t').andThen (calculate so limit)).1.shape = t.shape := by
    intro old t' ht
    refine andThen_inv (P := fun t' => t'.shape = t.shape) ?_
      fun t'' h => (calculate_shape so limit t'').trans h
    exact forEach_inv (P := fun t' => t'.shape = t.shape) _
      (fun x _ t'' h => (putEvidence_shape so bn old x t'').trans h) _ ht
  unfold setEvidence
  refine andThen_inv (P := fun t' => t'.shape = t.shape) (reset_shape so bn t) fun t1 h1 => ?_
  split
  · refine andThen_inv (P := fun t' => t'.shape = t.shape) ((calculate_shape so limit t1).trans h1)
      fun t2 h2 => ?_
    have h3 := (oldMarginals_shape so limit ev.keys t2).trans h2
    cases ho : oldMarginals so limit ev.keys t2 with
    | mk t' o =>
      rw [ho] at h3
      cases o with
      | error x => exact h3
      | ok old =>
        exact andThen_inv (P := fun t' => t'.shape = t.shape) ((reset_shape so bn t').trans h3) (hput old)
  · exact hput [] t1 h1

/-- resetting forgets everything but the shape -/
theorem reset_eq (so : SetOrder) (bn : BN) {t t' : JTree} (h : t'.shape = t.shape) :
    (reset so bn t').2 = (reset so bn t).2 ∧
      ((reset so bn t).2 = none → (reset so bn t').1 = (reset so bn t).1) := by
  have hb : ∃ b, t'.blank = { t.blank with valid := b } := by
    refine ⟨t'.valid, ?_⟩
    have h1 : t'.nodes.map (fun p => (p.1, p.2.vars)) = t.nodes.map fun p => (p.1, p.2.vars) :=
      congrArg (fun x => x.1) h
    have h2 : t'.adj = t.adj := congrArg (fun x => x.2.1) h
    have h3 : t'.edges.map (fun e => (e.u, e.w, e.sep)) = t.edges.map fun e => (e.u, e.w, e.sep) :=
      congrArg (fun x => x.2.2) h
    have g1 := congrArg (List.map fun q : Name × List Name => (q.1, (⟨q.2, .trivial 1⟩ : JNode))) h1
    have g3 := congrArg (List.map fun q : Name × Name × List Name =>
      (⟨q.1, q.2.1, q.2.2, .trivial 1⟩ : JEdge)) h3
    simp only [List.map_map, Function.comp_def] at g1 g3
    unfold blank
    rw [g1, g3, h2]
  obtain ⟨b, hb⟩ := hb
  have step : ∀ (fs : List Factor) (s : JTree) (b : Bool),
      JRes.forEach (putFactor so) fs { s with valid := b } =
        ({ (JRes.forEach (putFactor so) fs s).1 with valid := b }, (JRes.forEach (putFactor so) fs s).2) := by
    intro fs
    induction fs with
    | nil => intro s b; rfl
    | cons f fs ih =>
      intro s b
      rw [JRes.forEach, JRes.forEach]
      have : putFactor so f { s with valid := b } =
          ({ (putFactor so f s).1 with valid := b }, (putFactor so f s).2) := by
        unfold putFactor
        dsimp only
        cases putFirst so (fun vars => sub f.values.keys vars) f s.nodes <;> rfl
      rw [this]
      cases hr : (putFactor so f s).2 with
      | none => rw [andThen_none rfl, andThen_none hr]; exact ih _ b
      | some e => rw [andThen_some rfl, andThen_some hr, hr]
  unfold reset
  cases hm : bn.mapM Factor.fromNode with
  | error e => exact ⟨rfl, fun h => by cases h⟩
  | ok fs =>
    dsimp only
    rw [hb, step fs t.blank b]
    cases hr : (JRes.forEach (putFactor so) fs t.blank).2 with
    | none => rw [andThen_none rfl, andThen_none hr]; exact ⟨rfl, fun _ => rfl⟩
    | some e =>
      rw [andThen_some rfl, andThen_some hr]
      exact ⟨hr.symm, fun h => by rw [hr] at h; cases h⟩

/-- setting evidence forgets everything but the shape -/
theorem setEvidence_eq (so : SetOrder) (limit : Nat) (bn : BN) (ev : Dict Evidence) (soft : Bool)
    {t t' : JTree} (h : t'.shape = t.shape) :
    (setEvidence so limit bn ev soft t').2 = (setEvidence so limit bn ev soft t).2 ∧
      ((reset so bn t).2 = none →
        setEvidence so limit bn ev soft t' = setEvidence so limit bn ev soft t) := by
  obtain ⟨h1, h2⟩ := reset_eq so bn h
  unfold setEvidence
  cases hr : (reset so bn t).2 with
  | some e =>
    rw [hr] at h1
    refine ⟨?_, fun h => by cases h⟩
    rw [andThen_some h1, andThen_some hr, h1, hr]
  | none =>
    rw [hr] at h1
    have he : reset so bn t' = reset so bn t := Prod.ext (h2 hr) (by rw [h1, hr])
    exact ⟨by rw [he], fun _ => by rw [he]⟩

end JTree
end Primo
