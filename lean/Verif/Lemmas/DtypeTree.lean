import Verif.Lemmas.Dtype
import Verif.Lemmas.HeapQuery

/-! # Element types: factor trees compute with floats -/

namespace Primo
namespace TTree
open TRes TFactor

/-- all factors of the tree are arrays of floats (or float numbers) -/
def AllFloat (t : TTree) : Prop :=
  (∀ p ∈ t.nodes, p.2.factor.dt = .float) ∧ ∀ e ∈ t.edges, e.factor.dt = .float

structure NR (n : TClique) (m : JNode) : Prop where
  vars : n.vars = m.vars
  fl : n.factor.Fl m.factor

structure ER (e : TSep) (d : JEdge) : Prop where
  u : e.u = d.u
  w : e.w = d.w
  sep : e.sep = d.sep
  fl : e.factor.Fl d.factor

theorem ER.joins {e d} (h : ER e d) (a b : Name) : e.joins a b = d.joins a b := by
  unfold TSep.joins JEdge.joins
  rw [h.u, h.w]

/-- a tree of floats with these values -/
structure FT (t : TTree) (u : JTree) : Prop where
  nodes : DictRel NR t.nodes u.nodes
  adj : t.adj = u.adj
  edges : List.Forall₂ ER t.edges u.edges
  valid : t.valid = u.valid

/-- the same for states with exceptions -/
def FR (r : TRes) (q : JRes) : Prop := r.1.FT q.1 ∧ r.2 = q.2

theorem FT.erase {t : TTree} {u : JTree} (h : t.FT u) : t.erase = u := by
  obtain ⟨ns, ad, es, va⟩ := t
  obtain ⟨ns', ad', es', va'⟩ := u
  obtain ⟨h1, h2, h3, h4⟩ := h
  dsimp only at h1 h2 h3 h4
  subst h2 h4
  unfold TTree.erase
  simp only [JTree.mk.injEq, true_and, and_true]
  constructor
  · clear h3
    induction h1 with
    | nil => rfl
    | @cons p q l l' h _ ih =>
      obtain ⟨a, n⟩ := p
      obtain ⟨b, m⟩ := q
      obtain ⟨rfl, h⟩ : a = b ∧ NR n m := h
      rw [List.map_cons, ih, h.vars, h.fl.1]
  · clear h1
    induction h3 with
    | nil => rfl
    | cons h _ ih => rw [List.map_cons, ih, h.u, h.w, h.sep, h.fl.1]

theorem FT.allFloat {t : TTree} {u : JTree} (h : t.FT u) : t.AllFloat := by
  obtain ⟨ns, ad, es, va⟩ := t
  obtain ⟨ns', ad', es', va'⟩ := u
  obtain ⟨h1, -, h3, -⟩ := h
  dsimp only at h1 h3
  refine ⟨?_, ?_⟩
  · clear h3
    induction h1 with
    | nil => simp
    | cons h _ ih =>
      intro p hp
      rcases List.mem_cons.1 hp with rfl | hp
      · exact h.2.fl.2
      · exact ih p hp
  · clear h1
    induction h3 with
    | nil => simp
    | cons h _ ih =>
      intro p hp
      rcases List.mem_cons.1 hp with rfl | hp
      · exact h.fl.2
      · exact ih p hp

theorem AllFloat.ft {t : TTree} (h : t.AllFloat) : t.FT t.erase := by
  refine ⟨?_, rfl, ?_, rfl⟩
  · have := h.1
    unfold TTree.erase DictRel
    rw [List.forall₂_map_right_iff, List.forall₂_same]
    exact fun p hp => ⟨rfl, rfl, rfl, this p hp⟩
  · have := h.2
    unfold TTree.erase
    rw [List.forall₂_map_right_iff, List.forall₂_same]
    exact fun p hp => ⟨rfl, rfl, rfl, rfl, this p hp⟩

/-! ## sequencing -/

theorem FR.done {t u} (h : FT t u) {o : Option PyErr} : FR (t, o) (u, o) := ⟨h, rfl⟩

theorem FR.andThen {r q} (h : FR r q) {f : TTree → TRes} {g : JTree → JRes}
    (hfg : ∀ t u, FT t u → FR (f t) (g u)) : FR (r.andThen f) (q.andThen g) := by
  obtain ⟨t, o⟩ := r
  obtain ⟨u, o'⟩ := q
  obtain ⟨h1, h2⟩ := h
  change o = o' at h2
  subst h2
  cases o with
  | none => exact hfg _ _ h1
  | some e => exact ⟨h1, rfl⟩

theorem FR.forEach {α β : Type} {A : α → β → Prop} {f : α → TTree → TRes} {g : β → JTree → JRes}
    (hfg : ∀ a b, A a b → ∀ t u, FT t u → FR (f a t) (g b u)) {l m} (hl : List.Forall₂ A l m) {t u}
    (h : FT t u) : FR (forEach f l t) (JRes.forEach g m u) := by
  induction hl generalizing t u with
  | nil => exact FR.done h
  | cons hab _ ih =>
    unfold TRes.forEach JRes.forEach
    exact (hfg _ _ hab _ _ h).andThen fun t' u' h' => ih h'

theorem FR.forNames {f : Name → TTree → TRes} {g : Name → JTree → JRes}
    (hfg : ∀ a t u, FT t u → FR (f a t) (g a u)) (l : List Name) {t u} (h : FT t u) :
    FR (TRes.forEach f l t) (JRes.forEach g l u) :=
  FR.forEach (A := Eq) (fun a b hab t u => by subst hab; exact hfg a t u)
    (List.forall₂_same.2 fun _ _ => rfl) h

theorem FR.ofExcept {t u} (h : FT t u) {x y} (hxy : Both FT x y) :
    FR (ofExcept t x) (JRes.ofExcept u y) := by
  cases hxy with
  | ok h' => exact ⟨h', rfl⟩
  | error e => exact ⟨h, rfl⟩

/-! ## construction -/

theorem addNode_ft (c : List Name) {t u} (h : FT t u) : FT (addNode c t) (JoinTree.addNode c u) := by
  unfold addNode JoinTree.addNode
  refine ⟨h.nodes.set _ ⟨rfl, (trivial_fl 1).fl⟩, ?_, h.edges, h.valid⟩
  dsimp only
  rw [h.adj]

theorem any_joins {es ds} (h : List.Forall₂ ER es ds) (a b : Name) :
    (es.any fun e => e.joins a b) = ds.any fun e => e.joins a b := by
  induction h with
  | nil => rfl
  | cons h _ ih => rw [List.any_cons, List.any_cons, ih, h.joins]

theorem addEdge_ft (a b : Name) (sep : List Name) {t u} (h : FT t u) :
    FT (addEdge a b sep t) (JoinTree.addEdge a b sep u) := by
  unfold addEdge JoinTree.addEdge
  refine ⟨h.nodes, by dsimp only; rw [h.adj], ?_, h.valid⟩
  dsimp only
  rw [any_joins h.edges]
  split
  · rw [List.forall₂_map_left_iff, List.forall₂_map_right_iff]
    refine h.edges.imp fun e d y => ?_
    rw [y.joins]
    split
    · exact ⟨y.u, y.w, rfl, (trivial_fl 1).fl⟩
    · exact y
  · exact List.rel_append h.edges (.cons ⟨rfl, rfl, rfl, (trivial_fl 1).fl⟩ .nil)

theorem build_ft : ∀ cls : List (List Name), FT (build cls) (JoinTree.build cls)
  | [] => ⟨.nil, rfl, .nil, rfl⟩
  | c :: cs => by
    unfold build JoinTree.build
    have := addNode_ft c (build_ft cs)
    dsimp only
    generalize cs.find? _ = x
    cases x with
    | none => exact this
    | some d => exact addEdge_ft _ _ _ this

theorem putFirst_ft (so : SetOrder) (p : List Name → Bool) {f : TFactor} {F : Factor} (hf : f.Is F) {ns ms}
    (h : DictRel NR ns ms) :
    Both (DictRel NR) (putFirst so p f ns) (JoinTree.putFirst so p F ms) := by
  induction h with
  | nil => exact .ok .nil
  | @cons x y l l' h hl ih =>
    obtain ⟨a, n⟩ := x
    obtain ⟨b, m⟩ := y
    obtain ⟨rfl, h⟩ : a = b ∧ NR n m := h
    unfold putFirst JoinTree.putFirst
    rw [h.vars]
    split
    · exact (mul_fl so h.fl hf).bind fun r R hr => .ok (.cons ⟨rfl, rfl, hr.fl⟩ hl)
    · exact ih.bind fun r R hr => .ok (.cons ⟨rfl, h⟩ hr)

theorem putFactor_ft (so : SetOrder) {f : TFactor} {F : Factor} (hf : f.Is F) {t u} (h : FT t u) :
    FR (putFactor so f t) (JoinTree.putFactor so F u) := by
  refine FR.ofExcept h ?_
  cases hf
  exact (putFirst_ft so _ rfl h.nodes).bind fun ns ms hn => .ok ⟨hn, h.adj, h.edges, h.valid⟩

theorem allFactors_is (tn : TBN) : Both (List.Forall₂ Is) (tn.mapM TFactor.fromNode)
    (tn.erase.mapM Factor.fromNode) :=
  Both.mapM₂ (S := fun n m => n.node = m)
    (by unfold TBN.erase; rw [List.forall₂_map_right_iff, List.forall₂_same]; exact fun _ _ => rfl)
    fun n m hn => by subst hn; exact fromNode_is n

theorem create_ft (so : SetOrder) (tn : TBN) (order : Option (List Name)) :
    Both FT (create so tn order) (JoinTree.create so tn.erase order) := by
  unfold create JoinTree.create
  refine Both.bindEq fun o _ => (allFactors_is tn).bind fun fs gs hf => ?_
  refine Both.bindEq fun c _ => Both.bindEq fun c _ => ?_
  have := FR.forEach (A := Is) (fun a b hab t u h => putFactor_ft so hab h) hf (build_ft c)
  generalize TRes.forEach (putFactor so) fs (build c) = r at this
  generalize JRes.forEach (JoinTree.putFactor so) gs (JoinTree.build c) = q at this
  obtain ⟨t, o⟩ := r
  obtain ⟨u, o'⟩ := q
  obtain ⟨h1, h2⟩ := this
  change o = o' at h2
  subst h2
  cases o with
  | none => exact .ok h1
  | some e => exact .error e

theorem blank_ft {t u} (h : FT t u) : FT t.blank u.blank := by
  unfold blank JTree.blank
  refine ⟨?_, h.adj, ?_, h.valid⟩
  · have := h.nodes
    unfold DictRel at this ⊢
    dsimp only
    rw [List.forall₂_map_left_iff, List.forall₂_map_right_iff]
    exact this.imp fun p q y => ⟨y.1, y.2.vars, (trivial_fl 1).fl⟩
  · dsimp only
    rw [List.forall₂_map_left_iff, List.forall₂_map_right_iff]
    exact h.edges.imp fun e d y => ⟨y.u, y.w, y.sep, (trivial_fl 1).fl⟩

theorem reset_ft (so : SetOrder) (tn : TBN) {t u} (h : FT t u) :
    FR (reset so tn t) (u.reset so tn.erase) := by
  unfold reset JTree.reset
  have hf := allFactors_is tn
  generalize tn.mapM TFactor.fromNode = x at hf
  generalize tn.erase.mapM Factor.fromNode = y at hf
  cases hf with
  | error e => exact ⟨h, rfl⟩
  | ok hf =>
    refine (FR.forEach (A := Is) (fun a b hab t u h => putFactor_ft so hab h) hf (blank_ft h)).andThen fun t u h => ?_
    exact ⟨⟨h.nodes, h.adj, h.edges, rfl⟩, rfl⟩

/-! ## messages -/

theorem edge_ft {t u} (h : FT t u) (a b : Name) : Both ER (t.edge a b) (u.edge a b) := by
  unfold edge JTree.edge
  have := h.edges
  generalize t.edges = es at this
  generalize u.edges = ds at this
  induction this with
  | nil => exact .error _
  | @cons e d _ _ h1 _ ih =>
    rw [List.find?_cons, List.find?_cons, h1.joins]
    cases hv : d.joins a b with
    | true => exact .ok h1
    | false => exact ih

theorem node_ft {t u} (h : FT t u) (a : Name) : Both NR (t.nodes.getE a) (u.nodes.getE a) := by
  unfold Dict.getE
  have := h.nodes.get? a
  generalize t.nodes.get? a = y at this
  generalize u.nodes.get? a = z at this
  cases this with
  | none => exact .error _
  | some hr => exact .ok hr

theorem send_ft (so : SetOrder) (a b : Name) {t u} (h : FT t u) :
    FR (send so a b t) (u.send so a b) := by
  refine FR.ofExcept h ?_
  refine (node_ft h a).bind fun n m y1 => ?_
  refine (edge_ft h a b).bind fun e d y2 => ?_
  rw [y1.vars, y2.sep]
  refine (marginalize_fl y1.fl _).bind fun new New y3 => ?_
  refine (node_ft h b).bind fun n' m' y4 => ?_
  refine (div_fl so y3.is y2.fl.is).bind fun q Q y5 => ?_
  refine (mul_fl so y4.fl y5.is).bind fun g G y6 => .ok ?_
  refine ⟨h.nodes.set b ⟨y4.vars, y6.fl⟩, h.adj, ?_, h.valid⟩
  dsimp only
  rw [List.forall₂_map_left_iff, List.forall₂_map_right_iff]
  refine h.edges.imp fun e d y => ?_
  rw [y.joins]
  split
  · exact ⟨y.u, y.w, y.sep, y3⟩
  · exact y

theorem pull_ft (so : SetOrder) : ∀ (d : Nat) (cur : Name) (parent : Option Name) {t u} (_ : FT t u),
    FR (pull so d cur parent t) (u.pull so d cur parent)
  | 0, _, _, _, _, h => FR.done h
  | d + 1, cur, parent, t, u, h => by
    unfold pull JTree.pull
    rw [h.adj]
    refine (FR.forNames (fun nb t u h => ?_) _ h).andThen fun t u h => ?_
    · split
      · exact FR.done h
      · exact pull_ft so d nb (some cur) h
    · cases parent with
      | none => exact FR.done h
      | some p =>
        dsimp only
        split
        · exact FR.done h
        · exact send_ft so cur p h

theorem push_ft (so : SetOrder) : ∀ (d : Nat) (cur : Name) (parent : Option Name) {t u} (_ : FT t u),
    FR (push so d cur parent t) (u.push so d cur parent)
  | 0, _, _, _, _, h => FR.done h
  | d + 1, cur, parent, t, u, h => by
    unfold push JTree.push
    rw [h.adj]
    refine FR.forNames (fun nb t u h => ?_) _ h
    split
    · exact FR.done h
    · exact (send_ft so cur nb h).andThen fun t u h => push_ft so d nb (some cur) h

theorem calculate_ft (so : SetOrder) (limit : Nat) {t u} (h : FT t u) :
    FR (calculate so limit t) (u.calculate so limit) := by
  unfold calculate JTree.calculate
  have hk := h.nodes
  cases ht : t.nodes with
  | nil =>
    rw [ht] at hk
    cases hu : u.nodes with
    | cons _ _ => rw [hu] at hk; cases hk
    | nil => exact FR.done h
  | cons p ps =>
    rw [ht] at hk
    cases hu : u.nodes with
    | nil => rw [hu] at hk; cases hk
    | cons q qs =>
      rw [hu] at hk
      obtain ⟨root, n⟩ := p
      obtain ⟨root', m⟩ := q
      have hr : root = root' := by
        cases hk with
        | cons h1 _ => exact h1.1
      subst hr
      dsimp only
      have y := ((pull_ft so limit root none h).andThen fun t u h =>
        push_ft so limit root none h).andThen
          (f := fun t => ({ t with valid := true }, none))
          (g := fun t => ({ t with valid := true }, none))
          fun t u h => ⟨⟨h.nodes, h.adj, h.edges, rfl⟩, rfl⟩
      generalize ((pull so limit root none t).andThen (push so limit root none)).andThen
        (fun t => ({ t with valid := true }, none)) = r at *
      generalize JRes.andThen ((JTree.pull so limit root none u).andThen
        (JTree.push so limit root none)) (fun t => ({ t with valid := true }, none)) = q at *
      obtain ⟨t3, o3⟩ := r
      obtain ⟨u3, q3⟩ := q
      obtain ⟨y1, y2⟩ := y
      dsimp only at y1 y2
      subst y2
      cases o3 with
      | none => exact ⟨y1, rfl⟩
      | some err => cases err <;> exact ⟨y1, rfl⟩

/-! ## questions -/

theorem find_ft (q : List Name → Bool) {ns ms} (h : DictRel NR ns ms) :
    Option.Rel (fun p p' => p.1 = p'.1 ∧ NR p.2 p'.2) (ns.find? fun p => q p.2.vars)
      (ms.find? fun p => q p.2.vars) := by
  induction h with
  | nil => exact .none
  | @cons p p' l l' h _ ih =>
    rw [List.find?_cons, List.find?_cons, h.2.vars]
    cases q p'.2.vars with
    | true => exact .some h
    | false => exact ih

/-- an answer: floats, a number if a sum left no axis -/
def Answer (so : SetOrder) (vs : List Name) (u : JTree) (f : TFactor) (F : Factor) : Prop :=
  f.Fl F ∧ f.num = match u.nodes.find? fun p => JoinTree.sub vs p.2.vars with
    | some p => !(so.diff p.2.vars vs).isEmpty && decide (F.potentials.shape = [])
    | none => false

theorem query_ft (so : SetOrder) (vs : List Name) {t u} (h : FT t u) :
    Both (Answer so vs u) (query so vs t) (u.query so vs) := by
  unfold query JTree.query Answer
  have := find_ft (fun v => JoinTree.sub vs v) h.nodes
  generalize t.nodes.find? (fun p => JoinTree.sub vs p.2.vars) = x at this ⊢
  generalize u.nodes.find? (fun p => JoinTree.sub vs p.2.vars) = y at this ⊢
  cases this with
  | none => exact .error _
  | @some p p' hp =>
    dsimp only
    rw [hp.2.vars]
    refine Both.bind (R := fun f F => f.Fl F ∧
      f.num = (!(so.diff p'.2.vars vs).isEmpty && decide (F.potentials.shape = []))) ?_ ?_
    · obtain ⟨hv, hd⟩ := hp.2.fl
      rw [← hv]
      refine Both.map_left fun a _ => ⟨⟨rfl, ?_⟩, rfl⟩
      rw [hd]
      exact sumType_float (so.diff p'.2.vars vs)
    · rintro f F ⟨⟨rfl, hd⟩, hn⟩
      obtain ⟨g, h1, h2, h3, h4⟩ := normalize_val hd
      rw [h1]
      exact .ok ⟨⟨h2, h3⟩, by rw [h4, hn, normalize_shape]⟩

theorem marginals_ft (so : SetOrder) (limit : Nat) (vs : List Name) {t u} (h : FT t u) :
    FT (marginals so limit vs t).1 (u.marginals so limit vs).1 ∧
      Both (Answer so vs (u.marginals so limit vs).1) (marginals so limit vs t).2
        (u.marginals so limit vs).2 := by
  unfold marginals JTree.marginals
  have y : FR (if t.valid then (t, none) else calculate so limit t)
      (if u.valid then (u, none) else u.calculate so limit) := by
    rw [h.valid]
    split
    · exact FR.done h
    · exact calculate_ft so limit h
  generalize (if t.valid then ((t, none) : TRes) else calculate so limit t) = r at *
  generalize (if u.valid then ((u, none) : JRes) else u.calculate so limit) = q at *
  obtain ⟨t', o⟩ := r
  obtain ⟨u', o'⟩ := q
  obtain ⟨h1, h2⟩ := y
  change o = o' at h2
  subst h2
  cases o with
  | none => exact ⟨h1, query_ft so vs h1⟩
  | some e => exact ⟨h1, .error e⟩

theorem old_ft (so : SetOrder) (limit : Nat) : ∀ (es : List Name) {t u} (_ : FT t u),
    FT (oldMarginals so limit es t).1 (u.oldMarginals so limit es).1 ∧
      (oldMarginals so limit es t).2 = (u.oldMarginals so limit es).2
  | [], _, _, h => ⟨h, rfl⟩
  | e :: es, t, u, h => by
    unfold oldMarginals JTree.oldMarginals
    have y := marginals_ft so limit [e] h
    generalize marginals so limit [e] t = r at *
    generalize u.marginals so limit [e] = q at *
    obtain ⟨t', x⟩ := r
    obtain ⟨u', x'⟩ := q
    obtain ⟨h1, h2⟩ := y
    dsimp only at h1 h2 ⊢
    cases h2 with
    | error e => exact ⟨h1, rfl⟩
    | ok hf =>
      have z := old_ft so limit es h1
      dsimp only
      generalize oldMarginals so limit es t' = r at *
      generalize u'.oldMarginals so limit es = q at *
      obtain ⟨t'', x⟩ := r
      obtain ⟨u'', x'⟩ := q
      obtain ⟨h3, h4⟩ := z
      dsimp only at h3 h4 ⊢
      subst h4
      cases x with
      | error e => exact ⟨h3, rfl⟩
      | ok d => exact ⟨h3, by rw [hf.1.1]⟩

/-! ## evidence -/

theorem putEvidence_ft (so : SetOrder) (tn : TBN) (old : Dict NDArray) (e : Name × (Evidence × DType))
    {t u} (h : FT t u) :
    FR (putEvidence so tn old e t) (u.putEvidence so tn.erase old (e.1, e.2.1)) := by
  refine FR.ofExcept h ?_
  refine (tn.getNode_is e.1).bind fun n m hn => ?_
  subst hn
  refine (asEvidence_is e.1 n.node.values e.2 (old.get? e.1)).bind fun f F hf => ?_
  exact (putFirst_ft so _ hf h.nodes).bind fun ns ms hn => .ok ⟨hn, h.adj, h.edges, h.valid⟩

theorem keys_erase (ev : TEvidence) : ev.erase.keys = ev.keys := by
  unfold TEvidence.erase Dict.keys
  rw [List.map_map]
  rfl

theorem putEvidences_ft (so : SetOrder) (tn : TBN) (old : Dict NDArray) (ev : TEvidence) {t u}
    (h : FT t u) : FR (forEach (putEvidence so tn old) ev t)
      (JRes.forEach (JTree.putEvidence so tn.erase old) ev.erase u) :=
  FR.forEach (fun a b hab t u h => by subst hab; exact putEvidence_ft so tn old a h)
    (TVE.evidence_rel ev) h

theorem setEvidence_ft (so : SetOrder) (limit : Nat) (tn : TBN) (ev : TEvidence) (soft : Bool) {t u}
    (h : FT t u) : FR (setEvidence so limit tn ev soft t)
      (u.setEvidence so limit tn.erase ev.erase soft) := by
  unfold setEvidence JTree.setEvidence
  refine (reset_ft so tn h).andThen fun t u h => ?_
  cases soft with
  | false =>
    exact (putEvidences_ft so tn [] ev h).andThen fun t u h => calculate_ft so limit h
  | true =>
    refine (calculate_ft so limit h).andThen fun t u h => ?_
    have y := old_ft so limit ev.keys h
    rw [keys_erase]
    generalize oldMarginals so limit ev.keys t = r at *
    generalize u.oldMarginals so limit ev.keys = q at *
    obtain ⟨t', x⟩ := r
    obtain ⟨u', x'⟩ := q
    obtain ⟨h1, h2⟩ := y
    dsimp only at h1 h2 ⊢
    subst h2
    cases x with
    | error e => exact ⟨h1, rfl⟩
    | ok old =>
      refine (reset_ft so tn h1).andThen fun t u h => ?_
      exact (putEvidences_ft so tn old ev h).andThen fun t u h => calculate_ft so limit h

end TTree
end Primo
