import Verif.Dtype
import Verif.Lemmas.Py
import Mathlib.Data.List.Forall2

/-! # Element types: inference computes with floats -/

namespace Primo

/-- two results that agree: related values, or the same exception -/
inductive Both {α β : Type} (R : α → β → Prop) : Except PyErr α → Except PyErr β → Prop
  | ok {a : α} {b : β} (h : R a b) : Both R (.ok a) (.ok b)
  | error (e : PyErr) : Both R (.error e) (.error e)

namespace Both
variable {α β γ δ : Type} {R : α → β → Prop} {S : γ → δ → Prop}

theorem bind {x : Except PyErr α} {y : Except PyErr β} {f : α → Except PyErr γ} {g : β → Except PyErr δ}
    (h : Both R x y) (hfg : ∀ a b, R a b → Both S (f a) (g b)) : Both S (x >>= f) (y >>= g) := by
  cases h with
  | ok h => exact hfg _ _ h
  | error e => exact .error e

theorem bindEq {x : Except PyErr α} {f : α → Except PyErr γ} {g : α → Except PyErr δ}
    (hfg : ∀ a, x = .ok a → Both S (f a) (g a)) : Both S (x >>= f) (x >>= g) := by
  cases x with
  | ok a => exact hfg _ rfl
  | error e => exact .error e

theorem imp {x : Except PyErr α} {y : Except PyErr β} {R' : α → β → Prop} (h : Both R x y)
    (hR : ∀ a b, R a b → R' a b) : Both R' x y := by
  cases h with
  | ok h => exact .ok (hR _ _ h)
  | error e => exact .error e

theorem map_left {x : Except PyErr α} {f : α → γ} {S : γ → α → Prop} (h : ∀ a, x = .ok a → S (f a) a) :
    Both S (x.map f) x := by
  cases x with
  | ok a => exact .ok (h a rfl)
  | error e => exact .error e

theorem map_eq {x : Except PyErr α} {y : Except PyErr β} {f : α → β} (h : Both R x y)
    (hf : ∀ a b, R a b → f a = b) : x.map f = y := by
  cases h with
  | ok h => exact congrArg _ (hf _ _ h)
  | error e => rfl

theorem mapM {l : List γ} {f : γ → Except PyErr α} {g : γ → Except PyErr β}
    (h : ∀ c ∈ l, Both R (f c) (g c)) : Both (List.Forall₂ R) (l.mapM f) (l.mapM g) := by
  induction l with
  | nil => exact .ok .nil
  | cons c l ih =>
    rw [List.mapM_cons, List.mapM_cons]
    exact (h c (by simp)).bind fun a b hab =>
      (ih fun d hd => h d (List.mem_cons_of_mem _ hd)).bind fun as bs hs => .ok (.cons hab hs)

theorem mapM₂ {l : List γ} {m : List δ} (hl : List.Forall₂ S l m) {f : γ → Except PyErr α}
    {g : δ → Except PyErr β} (h : ∀ c d, S c d → Both R (f c) (g d)) :
    Both (List.Forall₂ R) (l.mapM f) (m.mapM g) := by
  induction hl with
  | nil => exact .ok .nil
  | cons hcd _ ih =>
    rw [List.mapM_cons, List.mapM_cons]
    exact (h _ _ hcd).bind fun a b hab => ih.bind fun as bs hs => .ok (.cons hab hs)

theorem foldlM {l : List γ} {m : List δ} (hl : List.Forall₂ S l m) {f : α → γ → Except PyErr α}
    {g : β → δ → Except PyErr β} (h : ∀ a b, R a b → ∀ c d, S c d → Both R (f a c) (g b d)) {a : α} {b : β}
    (hab : R a b) : Both R (l.foldlM f a) (m.foldlM g b) := by
  induction hl generalizing a b with
  | nil => exact .ok hab
  | cons hcd _ ih =>
    rw [List.foldlM_cons, List.foldlM_cons]
    exact (h _ _ hab _ _ hcd).bind fun a' b' h' => ih h'

theorem foldlM_same {l : List γ} {f : α → γ → Except PyErr α}
    {g : β → γ → Except PyErr β} (h : ∀ a b, R a b → ∀ c, Both R (f a c) (g b c)) {a : α} {b : β}
    (hab : R a b) : Both R (l.foldlM f a) (l.foldlM g b) :=
  Both.foldlM (S := Eq) (List.forall₂_same.2 fun _ _ => rfl)
    (fun a b hab c d hcd => by subst hcd; exact h a b hab c) hab

end Both

/-! ## factors -/

namespace TFactor

/-- the value -/
def Is (t : TFactor) (F : Factor) : Prop := t.val = F

/-- a float factor with that value -/
def Fl (t : TFactor) (F : Factor) : Prop := t.val = F ∧ t.dt = .float

/-- a float factor with that value, as arithmetic makes it -/
def FlN (t : TFactor) (F : Factor) : Prop :=
  t.val = F ∧ t.dt = .float ∧ t.num = decide (F.potentials.shape = [])

theorem FlN.fl {t : TFactor} {F : Factor} (h : t.FlN F) : t.Fl F := ⟨h.1, h.2.1⟩
theorem Fl.is {t : TFactor} {F : Factor} (h : t.Fl F) : t.Is F := h.1
theorem FlN.is {t : TFactor} {F : Factor} (h : t.FlN F) : t.Is F := h.1

theorem trivial_fl (x : ℚ) : (trivial x).FlN (Factor.trivial x) := ⟨rfl, rfl, rfl⟩

theorem fromNode_is (n : TypedNode) : Both Is (fromNode n) (Factor.fromNode n.node) :=
  Both.map_left fun _ _ => rfl

theorem asEvidence_is (v : Name) (values : List Val) (e : Evidence × DType) (old : Option NDArray) :
    Both Is (asEvidence v values e old) (Factor.asEvidence v values e.1 old) := by
  obtain ⟨e, d⟩ := e
  cases e with
  | hard x => exact Both.map_left fun _ _ => rfl
  | soft l => cases old <;> exact Both.map_left fun _ _ => rfl

theorem join_float_left (d : DType) : DType.join .float d = .float := by cases d <;> rfl
theorem join_float_right (d : DType) : DType.join d .float = .float := by cases d <;> rfl

theorem mul_fl (so : SetOrder) {t u : TFactor} {F G : Factor} (h : t.Fl F) (h' : u.Is G) :
    Both FlN (t.mul so u) (F.mul so G) := by
  obtain ⟨rfl, hd⟩ := h
  cases h'
  exact Both.map_left fun a _ => ⟨rfl, by rw [hd]; exact join_float_left u.dt, rfl⟩

theorem div_fl (so : SetOrder) {t u : TFactor} {F G : Factor} (h : t.Is F) (h' : u.Is G) :
    Both FlN (t.div so u) (F.div so G) := by
  cases h; cases h'
  unfold div Factor.div
  split
  · refine Both.bind (R := fun i I => i.val = I ∧ i.dt = .float) (Both.map_left fun _ _ => ⟨rfl, rfl⟩) ?_
    rintro i I ⟨rfl, hd⟩
    exact Both.map_left fun a _ => ⟨rfl, by rw [hd]; exact join_float_right _, rfl⟩
  · exact .error _

theorem sumType_float (vars : List Name) : sumType .float vars = .float := by cases vars <;> rfl

theorem marginalize_fl {t : TFactor} {F : Factor} (h : t.Fl F) (vars : List Name) :
    Both Fl (t.marginalize vars) (F.marginalize vars) := by
  obtain ⟨rfl, hd⟩ := h
  exact Both.map_left fun a _ => ⟨rfl, by rw [hd]; exact sumType_float _⟩

theorem marginalize_one {t : TFactor} {F : Factor} (h : t.Fl F) (v : Name) :
    Both FlN (t.marginalize [v]) (F.marginalize [v]) := by
  obtain ⟨rfl, hd⟩ := h
  exact Both.map_left fun a _ => ⟨rfl, by rw [hd]; exact sumType_float [v], rfl⟩

theorem normalize_shape (F : Factor) : F.normalize.potentials.shape = F.potentials.shape := by
  unfold Factor.normalize
  dsimp only
  split <;> rfl

theorem normalize_val {t : TFactor} (hd : t.dt = .float) :
    ∃ u, t.normalize = .ok u ∧ u.val = t.val.normalize ∧ u.dt = .float ∧ u.num = t.num := by
  unfold normalize
  by_cases hs : t.val.potentials.sumAll > 0
  · rw [if_pos hs, if_pos (by simp [hd])]
    exact ⟨_, rfl, rfl, rfl, rfl⟩
  · rw [if_neg hs]
    refine ⟨t, rfl, ?_, hd, rfl⟩
    unfold Factor.normalize
    dsimp only
    rw [if_neg hs]

theorem normalize_fl {t : TFactor} {F : Factor} (h : t.Fl F) : Both Fl t.normalize (.ok F.normalize) := by
  obtain ⟨rfl, hd⟩ := h
  obtain ⟨u, h1, h2, h3, -⟩ := normalize_val hd
  rw [h1]
  exact .ok ⟨h2, h3⟩

theorem normalize_fln {t : TFactor} {F : Factor} (h : t.FlN F) :
    Both FlN t.normalize (.ok F.normalize) := by
  obtain ⟨rfl, hd, hn⟩ := h
  obtain ⟨u, h1, h2, h3, h4⟩ := normalize_val hd
  rw [h1]
  exact .ok ⟨h2, h3, by rw [h4, hn, normalize_shape]⟩

end TFactor

open TFactor

/-! ## variable elimination -/

theorem TBN.getNode_is (tn : TBN) (v : Name) :
    Both (fun n m => n.node = m) (tn.getNode v) (tn.erase.getNode v) := by
  unfold TBN.getNode BN.getNode TBN.erase
  induction tn with
  | nil => exact .error _
  | cons n tn ih =>
    rw [List.map_cons, List.find?_cons, List.find?_cons]
    by_cases h : n.node.name = v
    · simp only [h, decide_true]
      exact .ok rfl
    · simp only [h, decide_false]
      exact ih

theorem TEvidence.get_erase (ev : TEvidence) (v : Name) :
    ev.erase.get? v = (ev.get? v).map Prod.fst := by
  induction ev with
  | nil => rfl
  | cons p ev ih =>
    obtain ⟨k, e⟩ := p
    unfold TEvidence.erase at ih ⊢
    rw [List.map_cons]
    by_cases h : k = v
    · subst h; simp [Dict.get?]
    · simp only [Dict.get?] at ih ⊢
      simp only [h]
      exact ih

namespace TVE

theorem naiveStep_fl (so : SetOrder) (tn : TBN) (ev : TEvidence) {t : TFactor} {F : Factor} (h : t.FlN F)
    (v : Name) : Both FlN (naiveStep so tn ev t v) (VE.naiveStep so tn.erase ev.erase F v) := by
  unfold naiveStep VE.naiveStep
  refine (tn.getNode_is v).bind fun n m hn => ?_
  subst hn
  refine (fromNode_is n).bind fun f G hf => ?_
  refine (mul_fl so h.fl hf).bind fun r R hr => ?_
  rw [TEvidence.get_erase]
  cases ev.get? v with
  | none => exact .ok hr
  | some e => exact (asEvidence_is v n.node.values e none).bind fun g G hg => mul_fl so hr.fl hg

theorem naiveElim_fl (vars : List Name) {t : TFactor} {F : Factor} (h : t.FlN F) (v : Name) :
    Both FlN (naiveElim vars t v) (VE.naiveElim vars F v) := by
  unfold naiveElim VE.naiveElim
  split
  · exact .ok h
  · exact marginalize_one h.fl v

theorem naive_fl (so : SetOrder) (tn : TBN) (vars : List Name) (ev : TEvidence) :
    Both FlN (naiveMarginals so tn vars ev) (VE.naiveMarginals so tn.erase vars ev.erase) := by
  unfold naiveMarginals VE.naiveMarginals
  refine (Both.foldlM_same (fun t F h v => naiveStep_fl so tn ev h v) (trivial_fl 1)).bind fun t F h => ?_
  refine (Both.foldlM_same (fun t F h v => naiveElim_fl vars h v) h).bind fun t F h => ?_
  exact normalize_fln h

/-- buckets of float factors -/
def BF (bs : Buckets) (cs : VE.Buckets) : Prop := List.Forall₂ (fun p q => p.1 = q.1 ∧ p.2.FlN q.2) bs cs

theorem place_fl (so : SetOrder) {f : TFactor} {G : Factor} (hf : f.Is G) {bs : Buckets} {cs : VE.Buckets}
    (h : BF bs cs) : Both (Option.Rel BF) (place so f bs) (VE.place so G cs) := by
  induction h with
  | nil => exact .ok .none
  | @cons p q bs cs hpq hb ih =>
    obtain ⟨u, b⟩ := p
    obtain ⟨u', b'⟩ := q
    obtain ⟨h1, h2⟩ := hpq
    cases hf
    change u = u' at h1
    subst h1
    unfold place VE.place
    split
    · refine (mul_fl so h2.fl rfl).bind fun r R hr => ?_
      exact .ok (.some (.cons ⟨rfl, hr⟩ hb))
    · refine ih.bind fun r R hr => .ok ?_
      cases hr with
      | none => exact .none
      | some hr => exact .some (.cons ⟨rfl, h2⟩ hr)

theorem placeFactor_fl (so : SetOrder) {bs : Buckets} {cs : VE.Buckets} (h : BF bs cs) {f : TFactor}
    {G : Factor} (hf : f.Is G) : Both BF (placeFactor so bs f) (VE.placeFactor so cs G) := by
  unfold placeFactor VE.placeFactor
  refine (place_fl so hf h).bind fun r R hr => .ok ?_
  cases hr with
  | none => exact h
  | some hr => exact hr

theorem BF.names {bs : Buckets} {cs : VE.Buckets} (h : BF bs cs) : bs.map Prod.fst = cs.map Prod.fst := by
  induction h with
  | nil => rfl
  | cons hpq _ ih => rw [List.map_cons, List.map_cons, ih, hpq.1]

theorem BF.snds {bs : Buckets} {cs : VE.Buckets} (h : BF bs cs) :
    List.Forall₂ FlN (bs.map Prod.snd) (cs.map Prod.snd) := by
  induction h with
  | nil => exact .nil
  | cons hpq _ ih => exact .cons hpq.2 ih

theorem forall₂_set' {α β : Type} {R : α → β → Prop} {l : List α} {m : List β} (h : List.Forall₂ R l m)
    (i : Nat) {a : α} {b : β} (hab : R a b) : List.Forall₂ R (l.set i a) (m.set i b) := by
  induction h generalizing i with
  | nil => exact .nil
  | cons hcd hl ih =>
    cases i with
    | zero => exact .cons hab hl
    | succ i => exact .cons hcd (ih i)

theorem forall₂_opt {α β : Type} {R : α → β → Prop} {l : List α} {m : List β} (h : List.Forall₂ R l m)
    (i : Nat) : Option.Rel R l[i]? m[i]? := by
  induction h generalizing i with
  | nil => exact .none
  | cons hcd hl ih =>
    cases i with
    | zero => exact .some hcd
    | succ i => exact ih i

theorem placeEvidence_fl (so : SetOrder) (tn : TBN) {bs : Buckets} {cs : VE.Buckets} (h : BF bs cs)
    (e : Name × (Evidence × DType)) :
    Both BF (placeEvidence so tn bs e) (VE.placeEvidence so tn.erase cs (e.1, e.2.1)) := by
  unfold placeEvidence VE.placeEvidence
  rw [h.names]
  refine Both.bindEq fun i _ => ?_
  refine (tn.getNode_is e.1).bind fun n m hn => ?_
  subst hn
  refine (asEvidence_is e.1 n.node.values e.2 none).bind fun g G hg => ?_
  have := forall₂_opt h i
  generalize hx : bs[i]? = x at this
  generalize hy : cs[i]? = y at this
  cases this with
  | none => exact .error _
  | some hb => exact (mul_fl so hb.2.fl hg).bind fun r R hr => .ok (forall₂_set' h i ⟨hb.1, hr⟩)

theorem process_fl (so : SetOrder) (k : Nat) {bs : Buckets} {cs : VE.Buckets} (h : BF bs cs) {t : TFactor}
    {F : Factor} (ht : t.FlN F) :
    Both (fun p q => BF p.1 q.1 ∧ p.2.FlN q.2) (process so k bs t) (VE.process so k cs F) := by
  induction k generalizing bs cs t F with
  | zero => exact .ok ⟨h, ht⟩
  | succ k ih =>
    cases h with
    | nil => exact .error _
    | @cons p q bs cs hpq hb =>
      obtain ⟨u, b⟩ := p
      obtain ⟨u', b'⟩ := q
      obtain ⟨h1, h2⟩ := hpq
      change u = u' at h1
      subst h1
      unfold process VE.process
      refine (marginalize_one h2.fl u).bind fun r R hr => ?_
      refine (place_fl so hr.is hb).bind fun x y hxy => ?_
      cases hxy with
      | none => exact (mul_fl so ht.fl hr.is).bind fun l L hl => ih hb hl
      | some hx => exact ih hx ht

theorem combine_fl (so : SetOrder) {bs : List TFactor} {cs : List Factor} (h : List.Forall₂ FlN bs cs)
    {t : TFactor} {F : Factor} (ht : t.FlN F) : Both FlN (combine so bs t) (VE.combine so cs F) := by
  cases h with
  | nil => exact .ok ht
  | cons hb hl =>
    refine Both.foldlM (S := FlN) (List.rel_append hl (.cons ht .nil)) ?_ hb
    intro a b hab c d hcd
    exact mul_fl so hcd.fl hab.is

theorem getD_fl {bs : List TFactor} {cs : List Factor} (h : List.Forall₂ FlN bs cs) (i : Nat) :
    (bs.getD i (TFactor.trivial 1)).FlN (cs.getD i (Factor.trivial 1)) := by
  rw [List.getD_eq_getElem?_getD, List.getD_eq_getElem?_getD]
  have := forall₂_opt h i
  generalize bs[i]? = x at this
  generalize cs[i]? = y at this
  cases this with
  | none => exact trivial_fl 1
  | some h => exact h

theorem wrapStep_fl (so : SetOrder) {bs : List TFactor} {cs : List Factor} (h : List.Forall₂ FlN bs cs)
    (i : Int) : Both (List.Forall₂ FlN) (wrapStep so bs i) (VE.wrapStep so cs i) := by
  unfold wrapStep VE.wrapStep
  rw [h.length_eq]
  refine Both.bindEq fun t _ => Both.bindEq fun s _ => ?_
  exact (mul_fl so (getD_fl h t).fl (getD_fl h s).is).bind fun r R hr => .ok (forall₂_set' h t hr)

theorem getLastD_fl {bs : List TFactor} {cs : List Factor} (h : List.Forall₂ FlN bs cs) {t : TFactor}
    {F : Factor} (ht : t.FlN F) : (bs.getLastD t).FlN (cs.getLastD F) := by
  induction h generalizing t F with
  | nil => exact ht
  | cons hb hl ih =>
    cases hl with
    | nil => exact hb
    | cons hc hl => exact ih ht

theorem wrapCombine_fl (so : SetOrder) (d : Nat) {bs : List TFactor} {cs : List Factor}
    (h : List.Forall₂ FlN bs cs) : Both FlN (wrapCombine so d bs) (VE.wrapCombine so d cs) := by
  unfold wrapCombine VE.wrapCombine
  rw [h.length_eq]
  refine (Both.foldlM_same (fun a b hab i => wrapStep_fl so hab i) h).bind fun r R hr => .ok ?_
  exact getLastD_fl hr (trivial_fl 1)

theorem factors_is (tn : TBN) (order : List Name) : Both (List.Forall₂ Is)
    (order.mapM fun v => do
      let n ← tn.getNode v
      TFactor.fromNode n)
    (order.mapM fun v => do
      let n ← tn.erase.getNode v
      Factor.fromNode n) :=
  Both.mapM fun v _ => (tn.getNode_is v).bind fun n m hn => by
    subst hn
    exact fromNode_is n

theorem start_fl (order : List Name) : BF (order.map fun v => (v, TFactor.trivial 1))
    (order.map fun v => (v, Factor.trivial 1)) := by
  induction order with
  | nil => exact .nil
  | cons v l ih => exact .cons ⟨rfl, trivial_fl 1⟩ ih

theorem evidence_rel (ev : TEvidence) : List.Forall₂ (fun e f => f = (e.1, e.2.1)) ev ev.erase := by
  induction ev with
  | nil => exact .nil
  | cons p ev ih => exact .cons rfl ih

theorem bucket_fl (so : SetOrder) (tn : TBN) (vars : List Name) (ev : TEvidence)
    (order : Option (List Name)) : Both FlN (bucketMarginals so tn vars ev order)
      (VE.bucketMarginals so tn.erase vars ev.erase order) := by
  unfold bucketMarginals VE.bucketMarginals
  refine Both.bindEq fun o _ => Both.bindEq fun o _ => ?_
  refine (factors_is tn o).bind fun fs gs hfs => ?_
  refine (Both.foldlM hfs (fun a b hab c d hcd => placeFactor_fl so hab hcd) (start_fl o)).bind
    fun bs cs hb => ?_
  refine (Both.foldlM (evidence_rel ev) (fun a b hab c d hcd => by
    subst hcd
    exact placeEvidence_fl so tn hab c) hb).bind fun bs cs hb => ?_
  split
  · refine (wrapCombine_fl so _ (List.rel_append hb.snds (.cons (trivial_fl 1) .nil))).bind
      fun r R hr => normalize_fln hr
  · refine (process_fl so _ hb (trivial_fl 1)).bind fun p q hpq => ?_
    exact (combine_fl so hpq.1.snds hpq.2).bind fun r R hr => normalize_fln hr

end TVE

end Primo
