import Verif.Spec.JoinTree
import Verif.Lemmas.Forest
import Verif.Lemmas.Over
import Verif.Lemmas.Joint

/-! # `pull_messages` / `push_messages` on a junction tree -/

namespace Primo
open Finset Factor

namespace Forest

theorem All.imp {Q Q' : Name → Name → List Name → List Name → Forest → Prop} {p : Name} {f : Forest}
    (h : f.All Q p)
    (hq : ∀ p' nm vars sep kids, nm ∈ f.names → p' ∈ p :: f.names → Q p' nm vars sep kids →
      Q' p' nm vars sep kids) : f.All Q' p := by
  induction f generalizing p with
  | nil => trivial
  | cons nm vars sep kids rest ihk ihr =>
    obtain ⟨h1, h2, h3⟩ := h
    refine ⟨hq _ _ _ _ _ (by simp [names]) (by simp) h1, ihk h2 ?_, ihr h3 ?_⟩
    · intro p' nm' v s k hn hp
      refine hq _ _ _ _ _ (by simp [names, hn]) ?_
      rcases List.mem_cons.1 hp with rfl | hp
      · simp [names]
      · simp [names, hp]
    · intro p' nm' v s k hn hp
      refine hq _ _ _ _ _ (by simp [names, hn]) ?_
      rcases List.mem_cons.1 hp with rfl | hp
      · simp
      · simp [names, hp]

/-- the variables that the messages of the roots mention, if the table of clique `k` is over `own k` -/
def told (own : Name → Finset Name) : Forest → Finset Name
  | nil => ∅
  | cons nm _ sep kids rest => (own nm ∪ kids.told own) ∩ sep.toFinset ∪ rest.told own

theorem All.and {Q Q' : Name → Name → List Name → List Name → Forest → Prop} {p : Name} {f : Forest}
    (h : f.All Q p) (h' : f.All Q' p) : f.All (fun p n v s k => Q p n v s k ∧ Q' p n v s k) p := by
  induction f generalizing p with
  | nil => trivial
  | cons nm vars sep kids rest ihk ihr =>
    exact ⟨⟨h.1, h'.1⟩, ihk h.2.1 h'.2.1, ihr h.2.2 h'.2.2⟩

end Forest

namespace JTree
open JRes JoinTree

/-- everything but factors and the flag -/
def shape (t : JTree) : List (Name × List Name) × UGraph × List (Name × Name × List Name) :=
  (t.nodes.map fun p => (p.1, p.2.vars), t.adj, t.edges.map fun e => (e.u, e.w, e.sep))

theorem vars_of_shape {t t' : JTree} (h : t'.shape = t.shape) (k : Name) :
    (t'.nodes.get? k).map JNode.vars = (t.nodes.get? k).map JNode.vars := by
  have aux : ∀ d : Dict JNode, (d.get? k).map JNode.vars =
      Dict.get? (d.map fun p => (p.1, p.2.vars)) k := by
    intro d
    induction d with
    | nil => rfl
    | cons p d ih =>
      obtain ⟨k', n⟩ := p
      simp only [Dict.get?, List.map_cons]
      split
      · rfl
      · exact ih
  rw [aux, aux]
  have := congrArg Prod.fst h
  simp only [shape] at this
  rw [this]

theorem sep_of_shape {t t' : JTree} (h : t'.shape = t.shape) (a b : Name) :
    (t'.edge a b).map JEdge.sep = (t.edge a b).map JEdge.sep := by
  have aux : ∀ t : JTree, (t.edge a b).map JEdge.sep =
      match (t.edges.map fun e => (e.u, e.w, e.sep)).find?
        (fun e => (e.1 == a && e.2.1 == b) || (e.1 == b && e.2.1 == a)) with
      | some e => .ok e.2.2
      | none => .error .keyError := by
    intro t
    unfold edge
    induction t.edges with
    | nil => rfl
    | cons e es ih =>
      by_cases hj : e.joins a b = true
      · have hj' := hj
        unfold JEdge.joins at hj'
        simp only [List.map_cons, List.find?_cons, hj, hj']
        rfl
      · have hj' := hj
        unfold JEdge.joins at hj'
        simp only [Bool.not_eq_true] at hj hj'
        simp only [List.map_cons, List.find?_cons, hj, hj']
        exact ih
  rw [aux, aux]
  have := congrArg (fun x => x.2.2) h
  simp only [shape] at this
  rw [this]

theorem adj_of_shape {t t' : JTree} (h : t'.shape = t.shape) : t'.adj = t.adj :=
  congrArg (fun x => x.2.1) h

theorem keys_of_shape {t t' : JTree} (h : t'.shape = t.shape) : t'.nodes.keys = t.nodes.keys := by
  have := congrArg (fun x => x.1.map Prod.fst) h
  simpa [shape, Dict.keys, Function.comp_def] using this

theorem Fits.of_shape {t t' : JTree} (h : t'.shape = t.shape) {p nm : Name} {vars sep : List Name}
    {kids : Forest} (hf : t.Fits p nm vars sep kids) : t'.Fits p nm vars sep kids := by
  obtain ⟨h1, h2, h3, h4, h5⟩ := hf
  exact ⟨h1, by rw [vars_of_shape h, h2], by rw [sep_of_shape h, h3], by rw [adj_of_shape h, h4], h5⟩

theorem Junction.of_shape {t t' : JTree} (h : t'.shape = t.shape) {root : Name} {rvars : List Name}
    {kids : Forest} (hj : t.Junction root rvars kids) : t'.Junction root rvars kids where
  first := by rw [keys_of_shape h]; exact hj.first
  name := hj.name
  root_vars := by rw [vars_of_shape h]; exact hj.root_vars
  nbrs := by rw [adj_of_shape h]; exact hj.nbrs
  nodup := hj.nodup
  fits := hj.fits.imp fun _ _ _ _ _ _ _ hq => hq.of_shape h
  rip := hj.rip

theorem get?_of_vars {t : JTree} {k : Name} {vars : List Name}
    (h : (t.nodes.get? k).map JNode.vars = some vars) :
    ∃ f, t.nodes.get? k = some ⟨vars, f⟩ := by
  cases hk : t.nodes.get? k with
  | none => rw [hk] at h; simp at h
  | some n => rw [hk] at h; simp at h; exact ⟨n.factor, by rw [← h]⟩

theorem edge_of_sep {t : JTree} {a b : Name} {sep : List Name}
    (h : (t.edge a b).map JEdge.sep = .ok sep) : ∃ e, t.edge a b = .ok e ∧ e.sep = sep := by
  cases hk : t.edge a b with
  | error e => rw [hk] at h; cases h
  | ok e => rw [hk] at h; exact ⟨e, rfl, Except.ok.inj h⟩

/-! ### one message -/

/-- the state after a message from `a` to `b` -/
def sent (t : JTree) (a b : Name) (nb : JNode) (g new : Factor) : JTree :=
  { t with
    nodes := t.nodes.set b { nb with factor := g }
    edges := t.edges.map fun e => if e.joins a b then { e with factor := new } else e }

theorem joins_comm (e : JEdge) (a b : Name) : e.joins a b = e.joins b a := by
  simp only [JEdge.joins, Bool.or_comm]

theorem edge_comm (t : JTree) (a b : Name) : t.edge a b = t.edge b a := by
  simp only [edge, joins_comm _ a b]

theorem sent_shape {t : JTree} {a b : Name} {nb : JNode} (g new : Factor)
    (hb : t.nodes.get? b = some nb) : (t.sent a b nb g new).shape = t.shape := by
  have h1 : (t.nodes.set b { nb with factor := g }).map (fun p => (p.1, p.2.vars)) =
      t.nodes.map fun p => (p.1, p.2.vars) := by
    have : ∀ d : Dict JNode, d.get? b = some nb →
        (d.set b { nb with factor := g }).map (fun p => (p.1, p.2.vars)) =
          d.map fun p => (p.1, p.2.vars) := by
      intro d
      induction d with
      | nil => simp [Dict.get?]
      | cons p d ih =>
        obtain ⟨k, n⟩ := p
        by_cases hk : k = b
        · subst hk
          simp only [Dict.get?, if_true, Option.some.injEq]
          rintro rfl
          simp [Dict.set]
        · simp only [Dict.get?, hk, if_false]
          intro h
          simp [Dict.set, hk, ih h]
    exact this _ hb
  have h2 : (t.edges.map fun e => if e.joins a b then { e with factor := new } else e).map
      (fun e => (e.u, e.w, e.sep)) = t.edges.map fun e => (e.u, e.w, e.sep) := by
    rw [List.map_map]
    refine List.map_congr_left fun e _ => ?_
    simp only [Function.comp]
    split <;> rfl
  simp only [shape, sent, h1, h2]

theorem sent_get? {t : JTree} {a b : Name} {nb : JNode} {g new : Factor} (k : Name) :
    (t.sent a b nb g new).nodes.get? k =
      if b = k then some { nb with factor := g } else t.nodes.get? k := by
  simp only [sent, Dict.get?_set]

theorem sent_edge_self {t : JTree} {a b : Name} {nb : JNode} {g new : Factor} {e : JEdge}
    (he : t.edge a b = .ok e) :
    (t.sent a b nb g new).edge a b = .ok { e with factor := new } := by
  unfold edge at he ⊢
  simp only [sent]
  revert he
  induction t.edges with
  | nil => intro h; simp at h
  | cons e' es ih =>
    intro h
    by_cases hj : e'.joins a b = true
    · rw [List.find?_cons, hj] at h
      obtain rfl := Except.ok.inj h
      rw [List.map_cons, List.find?_cons, if_pos hj]
      have : JEdge.joins { e' with factor := new } a b = true := hj
      rw [this]
    · rw [List.map_cons, List.find?_cons, if_neg hj]
      simp only [Bool.not_eq_true] at hj
      rw [List.find?_cons, hj] at h
      rw [hj]
      exact ih h

theorem sent_edge_ne {t : JTree} {a b : Name} {nb : JNode} {g new : Factor} {c d : Name}
    (h1 : ¬ (a = c ∧ b = d)) (h2 : ¬ (a = d ∧ b = c)) :
    (t.sent a b nb g new).edge c d = t.edge c d := by
  unfold edge
  simp only [sent]
  have : ∀ l : List JEdge, (l.map fun e => if e.joins a b then { e with factor := new } else e).find?
      (fun e => e.joins c d) = l.find? fun e => e.joins c d := by
    intro l
    induction l with
    | nil => rfl
    | cons e es ih =>
      by_cases hj : e.joins a b = true
      · have hn : e.joins c d = false := by
          rw [Bool.eq_false_iff]
          intro hc
          simp only [JEdge.joins, Bool.or_eq_true, Bool.and_eq_true, beq_iff_eq] at hj hc
          rcases hj with ⟨rfl, rfl⟩ | ⟨rfl, rfl⟩ <;> rcases hc with ⟨rfl, rfl⟩ | ⟨rfl, rfl⟩ <;>
            simp_all
        have hn' : JEdge.joins { e with factor := new } c d = false := hn
        rw [List.map_cons, if_pos hj, List.find?_cons, hn', List.find?_cons, hn, ih]
      · rw [List.map_cons, if_neg hj, List.find?_cons, List.find?_cons, ih]
  rw [this]

variable {lab : Name → List Val}

/-- one message; the table of the sender may lack variables of the separator -/
theorem send_spec (so : SetOrder) {t : JTree} {a b : Name} {na nb : JNode} {e : JEdge}
    (ha : t.nodes.get? a = some na) (hb : t.nodes.get? b = some nb) (he : t.edge a b = .ok e)
    (hna : na.factor.Over lab) (hsub : ∀ v ∈ na.factor.variableOrder, v ∈ na.vars)
    (hscope : ∀ v ∈ na.vars, v ∈ na.factor.variableOrder ∨ v ∈ e.sep) (hef : e.factor.Over lab)
    (hes : ∀ v ∈ e.factor.variableOrder, v ∈ e.sep ∧ v ∈ na.factor.variableOrder)
    (he0 : e.factor.variableOrder ≠ [] ∨ ∀ σ, e.factor.eval σ ≠ 0) (hnb : nb.factor.Over lab) :
    ∃ new g, send so a b t = (t.sent a b nb g new, none) ∧
      new.Over lab ∧ (∀ v, v ∈ new.variableOrder ↔ v ∈ na.factor.variableOrder ∧ v ∈ e.sep) ∧
      (∀ σ, Legal (cardOf lab) new.variableOrder σ → new.eval σ =
        sumOver (cardOf lab) (na.vars.toFinset \ e.sep.toFinset) na.factor.eval σ) ∧
      g.Over lab ∧ (∀ v, v ∈ g.variableOrder ↔ v ∈ nb.factor.variableOrder ∨
        v ∈ na.factor.variableOrder ∧ v ∈ e.sep) ∧
      ∀ σ, Legal (cardOf lab) g.variableOrder σ →
        g.eval σ = nb.factor.eval σ * (new.eval σ / e.factor.eval σ) := by
  obtain ⟨new, n1, n2, n3, n4⟩ := marginalize_over hna (vs := so.diff na.vars e.sep)
    (so.nodup _ _) (fun v hv => by
      have := (so.mem _ _ _).1 hv
      exact (hscope v this.1).resolve_right this.2)
  have hnv : ∀ v, v ∈ new.variableOrder ↔ v ∈ na.factor.variableOrder ∧ v ∈ e.sep := by
    intro v
    rw [n3]
    simp only [List.mem_filter, so.mem, decide_eq_true_eq, not_and, not_not]
    exact ⟨fun h => ⟨h.1, h.2 (hsub v h.1)⟩, fun h => ⟨h.1, fun _ => h.2⟩⟩
  obtain ⟨i, i1, i2, i3, i4, i5⟩ := Factor.invert_spec hef.wf he0
  have hi : i.Over lab := ⟨i2, fun v hv => by rw [i4]; exact hef.val v (i3 ▸ hv)⟩
  obtain ⟨q, q1, q2, q3, q4⟩ := mul_over so n2 hi
  have hen : ∀ v ∈ e.factor.variableOrder, v ∈ new.variableOrder := fun v hv =>
    (hnv v).2 ⟨(hes v hv).2, (hes v hv).1⟩
  have hqv : ∀ v, v ∈ q.variableOrder ↔ v ∈ new.variableOrder := by
    intro v
    rw [q3, i3]
    exact ⟨fun h => h.elim id (hen v), Or.inl⟩
  obtain ⟨g, g1, g2, g3, g4⟩ := mul_over so hnb q2
  have hdiv : new.div so e.factor = .ok q := by
    rw [Factor.div, if_pos, i1, ok_bind, q1]
    intro v hv
    have := (hef.wf.mem_keys).1 hv
    exact (n2.wf.mem_keys).2 (hen v this)
  refine ⟨new, g, ?_, n2, hnv, fun σ hσ => ?_, g2, fun v => by rw [g3, hqv, hnv], fun σ hσ => ?_⟩
  · unfold send
    rw [Dict.getE_ok ha, ok_bind, he, ok_bind, n1, ok_bind, Dict.getE_ok hb, ok_bind, hdiv, ok_bind,
      g1]
    rfl
  · rw [n4 σ hσ]
    congr 1
    ext v; simp [so.mem]
  · rw [g4 σ hσ, q4 σ fun v hv => hσ v ((g3 v).2 (Or.inr hv)), i5 σ, div_eq_mul_inv]
    exact fun v hv => hσ v ((g3 v).2 (Or.inr ((hqv v).2 (hen v hv))))

/-! ### inward pass -/

/-- a clique before message passing: its potential is `φ nm`, a table over `own nm`; the variables it
lacks are in the messages of its children or in the separator; its message mentions a variable or is no
zero; and the edge to the parent is blank -/
def Fresh (lab : Name → List Val) (own : Name → Finset Name) (φ : Name → Assign → ℚ) (t : JTree)
    (p nm : Name) (vars sep : List Name) (kids : Forest) : Prop :=
  (∃ f, t.nodes.get? nm = some ⟨vars, f⟩ ∧ f.Over lab ∧ f.eval = φ nm ∧
    (∀ v, v ∈ f.variableOrder ↔ v ∈ own nm) ∧ own nm ⊆ vars.toFinset ∧
    (∀ v ∈ vars, v ∈ own nm ∨ v ∈ kids.told own ∨ v ∈ sep) ∧
    ((∃ v ∈ sep, v ∈ own nm ∨ v ∈ kids.told own) ∨
      ∀ σ, sumOver (cardOf lab) (vars.toFinset \ sep.toFinset)
        (Forest.belief (cardOf lab) φ nm kids) σ ≠ 0)) ∧
  ∃ e, t.edge nm p = .ok e ∧ e.factor = Factor.trivial 1

/-- a clique with potential `B nm` and edge potential `S nm`, over exactly its variables -/
def Holds (lab : Name → List Val) (B : Name → List Name → Forest → Assign → ℚ)
    (S : Name → List Name → List Name → Forest → Assign → ℚ) (t : JTree)
    (p nm : Name) (vars sep : List Name) (kids : Forest) : Prop :=
  (∃ f, t.nodes.get? nm = some ⟨vars, f⟩ ∧ f.Over lab ∧
    (∀ v, v ∈ f.variableOrder ↔ v ∈ vars) ∧
    ∀ σ, Legal (cardOf lab) vars σ → f.eval σ = B nm vars kids σ) ∧
  ∃ e, t.edge nm p = .ok e ∧ e.sep = sep ∧ e.factor.Over lab ∧
    (∀ v, v ∈ e.factor.variableOrder ↔ v ∈ sep) ∧
    ∀ σ, Legal (cardOf lab) sep σ → e.factor.eval σ = S nm vars sep kids σ

/-- after the inward pass -/
def Pulled (lab : Name → List Val) (φ : Name → Assign → ℚ) (t : JTree) (p nm : Name)
    (vars sep : List Name) (kids : Forest) : Prop :=
  (∃ f, t.nodes.get? nm = some ⟨vars, f⟩ ∧ f.Over lab ∧ (∀ v ∈ f.variableOrder, v ∈ vars) ∧
    (∀ v ∈ vars, v ∈ f.variableOrder ∨ v ∈ sep) ∧
    ∀ σ, Legal (cardOf lab) vars σ → f.eval σ = Forest.belief (cardOf lab) φ nm kids σ) ∧
  ∃ e, t.edge nm p = .ok e ∧ e.sep = sep ∧ e.factor.Over lab ∧
    (∀ v ∈ e.factor.variableOrder, v ∈ sep) ∧
    (e.factor.variableOrder ≠ [] ∨ ∀ σ, e.factor.eval σ ≠ 0) ∧
    ∀ σ, Legal (cardOf lab) sep σ → e.factor.eval σ =
      sumOver (cardOf lab) (vars.toFinset \ sep.toFinset) (Forest.belief (cardOf lab) φ nm kids) σ

/-- Nothing but the cliques `ks` and the edges at `es` changed. -/
def Frame (ks es : List Name) (t t' : JTree) : Prop :=
  t'.shape = t.shape ∧ t'.valid = t.valid ∧ (∀ k, k ∉ ks → t'.nodes.get? k = t.nodes.get? k) ∧
    ∀ a b, a ∉ es → b ∉ es → t'.edge a b = t.edge a b

theorem Frame.trans {ks es ks' es' : List Name} {t t' t'' : JTree} (h : Frame ks es t t')
    (h' : Frame ks' es' t' t'') : Frame (ks ++ ks') (es ++ es') t t'' := by
  refine ⟨h'.1.trans h.1, h'.2.1.trans h.2.1, fun k hk => ?_, fun a b ha hb => ?_⟩
  · simp only [List.mem_append, not_or] at hk
    rw [h'.2.2.1 k hk.2, h.2.2.1 k hk.1]
  · simp only [List.mem_append, not_or] at ha hb
    rw [h'.2.2.2 a b ha.2 hb.2, h.2.2.2 a b ha.1 hb.1]

theorem Frame.mono {ks es ks' es' : List Name} {t t' : JTree} (h : Frame ks es t t')
    (h1 : ∀ k ∈ ks, k ∈ ks') (h2 : ∀ k ∈ es, k ∈ es') : Frame ks' es' t t' :=
  ⟨h.1, h.2.1, fun k hk => h.2.2.1 k fun hk' => hk (h1 k hk'),
    fun a b ha hb => h.2.2.2 a b (fun h' => ha (h2 a h')) fun h' => hb (h2 b h')⟩

theorem Frame.refl (ks es : List Name) (t : JTree) : Frame ks es t t :=
  ⟨rfl, rfl, fun _ _ => rfl, fun _ _ _ _ => rfl⟩

theorem sent_frame {t : JTree} {a b : Name} {nb : JNode} {g new : Factor}
    (hb : t.nodes.get? b = some nb) : Frame [b] [a] t (t.sent a b nb g new) := by
  refine ⟨sent_shape g new hb, rfl, fun k hk => ?_, fun c d hc hd => ?_⟩
  · rw [sent_get?, if_neg]; simpa [eq_comm] using hk
  · refine sent_edge_ne ?_ ?_
    · rintro ⟨rfl, -⟩; simp at hc
    · rintro ⟨rfl, -⟩; simp at hd

theorem Fresh.frame {own : Name → Finset Name} {φ : Name → Assign → ℚ} {ks es : List Name} {t t' : JTree}
    (h : Frame ks es t t') {p nm : Name} {vars sep : List Name} {kids : Forest}
    (hf : Fresh lab own φ t p nm vars sep kids) (h1 : nm ∉ ks) (h2 : nm ∉ es) (h3 : p ∉ es) :
    Fresh lab own φ t' p nm vars sep kids := by
  unfold Fresh
  rw [h.2.2.1 nm h1, h.2.2.2 nm p h2 h3]
  exact hf

theorem Holds.frame {B : Name → List Name → Forest → Assign → ℚ}
    {S : Name → List Name → List Name → Forest → Assign → ℚ} {ks es : List Name}
    {t t' : JTree} (h : Frame ks es t t') {p nm : Name} {vars sep : List Name} {kids : Forest}
    (hf : Holds lab B S t p nm vars sep kids) (h1 : nm ∉ ks) (h2 : nm ∉ es) (h3 : p ∉ es) :
    Holds lab B S t' p nm vars sep kids := by
  unfold Holds
  rw [h.2.2.1 nm h1, h.2.2.2 nm p h2 h3]
  exact hf

theorem Pulled.frame {φ : Name → Assign → ℚ} {ks es : List Name}
    {t t' : JTree} (h : Frame ks es t t') {p nm : Name} {vars sep : List Name} {kids : Forest}
    (hf : Pulled lab φ t p nm vars sep kids) (h1 : nm ∉ ks) (h2 : nm ∉ es) (h3 : p ∉ es) :
    Pulled lab φ t' p nm vars sep kids := by
  unfold Pulled
  rw [h.2.2.1 nm h1, h.2.2.2 nm p h2 h3]
  exact hf

theorem forEach_append {α : Type} (f : α → JTree → JRes) (l l' : List α) (t : JTree) :
    forEach f (l ++ l') t = (forEach f l t).andThen (forEach f l') := by
  induction l generalizing t with
  | nil => rfl
  | cons x l ih =>
    rw [List.cons_append, forEach, forEach]
    cases hx : (f x t).2 with
    | none => simp only [JRes.andThen, hx, ih]
    | some e => simp only [JRes.andThen, hx]

theorem forEach_skip {α : Type} (P : α → Prop) [DecidablePred P] (f : α → JTree → JRes) (l : List α)
    (t : JTree) : forEach (fun x t => if P x then (t, none) else f x t) l t =
      forEach f (l.filter fun x => ¬ P x) t := by
  induction l generalizing t with
  | nil => rfl
  | cons x l ih =>
    by_cases hx : P x
    · rw [forEach, if_pos hx, List.filter_cons_of_neg (by simpa using hx)]
      exact ih t
    · rw [forEach, if_neg hx, List.filter_cons_of_pos (by simpa using hx), forEach]
      congr 1
      funext s
      exact ih s

theorem andThen_ok {t : JTree} {f : JTree → JRes} : JRes.andThen (t, none) f = f t := rfl

theorem filter_parent {l : List Name} {p : Name} :
    (l.filter fun x => decide ¬ some p = some x) = l.filter fun k => k ≠ p := by
  refine List.filter_congr fun x _ => ?_
  simp [eq_comm]

theorem seps_sub {P W : Finset Name} {f : Forest} (h : f.RIP P W) : f.seps ⊆ P := by
  induction f generalizing W with
  | nil => simp [Forest.seps]
  | cons nm vars sep kids rest ihk ihr =>
    obtain ⟨_, h2, _, h4⟩ := h
    rw [Forest.seps]
    exact union_subset (h2.trans inter_subset_right) (ihr h4)

theorem told_sub {own : Name → Finset Name} {P W : Finset Name} {f : Forest} (h : f.RIP P W) :
    f.told own ⊆ P := by
  induction f generalizing W with
  | nil => simp [Forest.told]
  | cons nm vars sep kids rest ihk ihr =>
    obtain ⟨_, h2, _, h4⟩ := h
    rw [Forest.told]
    exact union_subset (inter_subset_right.trans (h2.trans inter_subset_right)) (ihr h4)

/-- inward pass below the clique `p` -/
theorem pull_spec (so : SetOrder) {own : Name → Finset Name} {φ : Name → Assign → ℚ} (f : Forest) {P W : Finset Name}
    (d : Nat) (p : Name) (t : JTree) (hd : f.depth ≤ d) (hp : p ≠ "") (hrip : f.RIP P W)
    (hnd : (p :: f.names).Nodup) (hfit : f.All t.Fits p) (hfr : f.All (Fresh lab own φ t) p)
    {pv : List Name} {pf : Factor} (hpn : t.nodes.get? p = some ⟨pv, pf⟩) (hpo : pf.Over lab) :
    ∃ t' pf', forEach (fun nb t => pull so d nb (some p) t) f.tops t = (t', none) ∧
      Frame (p :: f.names) f.names t t' ∧ t'.nodes.get? p = some ⟨pv, pf'⟩ ∧ pf'.Over lab ∧
      (∀ v, v ∈ pf'.variableOrder ↔ v ∈ pf.variableOrder ∨ v ∈ f.told own) ∧
      (∀ σ, Legal (cardOf lab) pf'.variableOrder σ →
        pf'.eval σ = pf.eval σ * f.msgs (cardOf lab) φ σ) ∧
      f.All (Pulled lab φ t') p := by
  induction f generalizing P W d p t pv pf with
  | nil =>
    exact ⟨t, pf, rfl, Frame.refl _ _ _, hpn, hpo, by simp [Forest.told], by simp [Forest.msgs], trivial⟩
  | cons nm vars sep kids rest ihk ihr =>
    obtain ⟨r1, r2, r3, r4⟩ := hrip
    obtain ⟨⟨fit1, fit2, fit3, fit4, fit5⟩, fitk, fitr⟩ := hfit
    obtain ⟨⟨⟨nf, nf1, nf2, nf3, nf4, nf5, nf6, nf7⟩, e0, e1, e2⟩, frk, frr⟩ := hfr
    simp only [Forest.names, List.nodup_cons, List.mem_cons, List.mem_append, not_or,
      List.nodup_append] at hnd
    obtain ⟨⟨hpnm, hpk, hpr⟩, ⟨hnk, hnr⟩, hkn, hrn, hkr⟩ := hnd
    simp only [Forest.depth] at hd
    obtain ⟨d', rfl⟩ : ∃ d', d = d' + 1 := ⟨d - 1, by omega⟩
    obtain ⟨t1, nf', k1, k2, k3, k4, k5, k6, k7⟩ := ihk d' nm t (by omega) fit1 r3
      (by simp [hnk, hkn]) fitk frk nf1 nf2
    -- the clique is complete up to the separator
    have hsub : ∀ v ∈ nf'.variableOrder, v ∈ vars := by
      intro v hv
      rw [k5, nf4] at hv
      rcases hv with h | h
      · exact List.mem_toFinset.1 (nf5 h)
      · exact List.mem_toFinset.1 (told_sub r3 h)
    have hsc : ∀ v ∈ vars, v ∈ nf'.variableOrder ∨ v ∈ sep := by
      intro v hv
      rw [k5, nf4]
      rcases nf6 v hv with h | h | h
      · exact Or.inl (Or.inl h)
      · exact Or.inl (Or.inr h)
      · exact Or.inr h
    have hpn1 : t1.nodes.get? p = some ⟨pv, pf⟩ := by
      rw [k2.2.2.1 p (by simp [hpnm, hpk]), hpn]
    have he1 : t1.edge nm p = .ok e0 ∧ e0.sep = sep := by
      obtain ⟨e', h1, h2⟩ := edge_of_sep (t := t1) (a := nm) (b := p) (sep := sep)
        (by rw [sep_of_shape k2.1, fit3])
      have : t1.edge nm p = t.edge nm p := k2.2.2.2 nm p hnk hpk
      rw [h1, e1] at this
      have := Except.ok.inj this
      subst this
      exact ⟨h1, h2⟩
    obtain ⟨he1, hes⟩ := he1
    have hsepv : ∀ v ∈ sep, v ∈ vars := fun v hv => by
      have := mem_inter.1 (r2 (by simpa using hv)); simpa using this.1
    obtain ⟨new, g, s1, s2, s3, s4, s5, s6, s7⟩ := send_spec so k3 hpn1 he1 k4 hsub
      (by rw [hes]; exact hsc) (by rw [e2]; exact trivial_over 1) (by rw [e2]; simp)
      (Or.inr (by rw [e2]; simp)) hpo
    rw [hes] at s4
    simp only [hes] at s3 s6
    -- the message
    have hmsg' : ∀ σ, Legal (cardOf lab) new.variableOrder σ → new.eval σ =
        sumOver (cardOf lab) (vars.toFinset \ sep.toFinset)
          (Forest.belief (cardOf lab) φ nm kids) σ := by
      intro σ hσ
      rw [s4 σ hσ]
      refine sumOver_congr fun τ hτ => ?_
      have hl : Legal (cardOf lab) nf'.variableOrder τ := hτ.legal fun v hv hs => hσ v (by
        have := hsub v hv
        rw [s3]
        exact ⟨hv, by simpa [this] using hs⟩)
      rw [k6 τ hl, nf3]; rfl
    have hmsg : ∀ σ, Legal (cardOf lab) sep σ → new.eval σ =
        sumOver (cardOf lab) (vars.toFinset \ sep.toFinset)
          (Forest.belief (cardOf lab) φ nm kids) σ :=
      fun σ hσ => hmsg' σ fun v hv => hσ v ((s3 v).1 hv).2
    have hnz : new.variableOrder ≠ [] ∨ ∀ σ, new.eval σ ≠ 0 := by
      rcases nf7 with ⟨v, hv, h⟩ | h
      · left
        refine List.ne_nil_of_mem (a := v) ((s3 v).2 ⟨?_, hv⟩)
        rw [k5, nf4]
        exact h
      · by_cases hn0 : new.variableOrder = []
        · right
          intro σ
          rw [hmsg' σ (by rw [hn0]; simp [Legal])]
          exact h σ
        · exact Or.inl hn0
    have hfr1 : Frame [p] [nm] t1 (t1.sent nm p ⟨pv, pf⟩ g new) := sent_frame hpn1
    have hstep : pull so (d' + 1) nm (some p) t = (t1.sent nm p ⟨pv, pf⟩ g new, none) := by
      rw [pull, forEach_skip (fun nb => some p = some nb), filter_parent, fit4, k1, andThen_ok]
      simp only [hp, if_false, s1]
    have hF := k2.trans hfr1
    have hrest : ∀ q, q ∈ p :: rest.names → q ∉ kids.names ++ [nm] := by
      intro q hq
      simp only [List.mem_append, List.mem_singleton, not_or]
      rcases List.mem_cons.1 hq with rfl | hq
      · exact ⟨hpk, hpnm⟩
      · exact ⟨fun h => hkr q h q hq rfl, fun h => hnr (h ▸ hq)⟩
    have hg : (t1.sent nm p ⟨pv, pf⟩ g new).nodes.get? p = some ⟨pv, g⟩ := by
      rw [sent_get?, if_pos rfl]
    obtain ⟨t', pf', m1, m2, m3, m4, m5, m6, m7⟩ := ihr (d' + 1) p (t1.sent nm p ⟨pv, pf⟩ g new)
      (by omega) hp r4 (by simp [hpr, hrn])
      (fitr.imp fun _ _ _ _ _ _ _ h => h.of_shape hF.1)
      (frr.imp fun q nm' _ _ _ hn hq h => h.frame hF
        (by
          have := hrest nm' (by simp [hn])
          simp only [List.mem_append, List.mem_singleton, not_or] at this
          simp only [List.mem_append, not_or, List.mem_cons, List.not_mem_nil, not_false_eq_true,
            and_true]
          exact ⟨⟨this.2, this.1⟩, fun h => hpr (h ▸ hn)⟩)
        (hrest nm' (by simp [hn])) (hrest q hq))
      hg s5
    refine ⟨t', pf', ?_, ?_, m3, m4, fun v => ?_, fun σ hσ => ?_, ?_, ?_, m7⟩
    · rw [Forest.tops, forEach, hstep, andThen_ok, m1]
    · refine (hF.trans m2).mono ?_ ?_
      · intro k hk; simp only [Forest.names, List.mem_append, List.mem_cons, List.not_mem_nil] at hk ⊢; tauto
      · intro k hk; simp only [Forest.names, List.mem_append, List.mem_cons, List.not_mem_nil] at hk ⊢; tauto
    · have hsx := s6 v
      rw [k5, nf4] at hsx
      rw [m5, hsx, Forest.told, Finset.mem_union, Finset.mem_inter, Finset.mem_union, List.mem_toFinset]
      exact or_assoc
    · have hlg : Legal (cardOf lab) g.variableOrder σ := fun v hv => hσ v ((m5 v).2 (Or.inl hv))
      have hls : Legal (cardOf lab) new.variableOrder σ := fun v hv =>
        hlg v ((s6 v).2 (Or.inr ((s3 v).1 hv)))
      rw [m6 σ hσ, s7 σ hlg, hmsg' σ hls, e2, Forest.msgs, trivial_eval, div_one, mul_assoc]
      rfl
    · -- the first clique
      have hown : Pulled lab φ (t1.sent nm p ⟨pv, pf⟩ g new) p nm vars sep kids := by
        refine ⟨⟨nf', ?_, k4, hsub, hsc, fun σ hσ => ?_⟩, _, sent_edge_self he1, hes, s2,
          fun v hv => ((s3 v).1 hv).2, hnz, hmsg⟩
        · rw [sent_get?, if_neg hpnm, k3]
        · rw [k6 σ fun v hv => hσ v (hsub v hv), nf3]; rfl
      exact Pulled.frame m2 hown (by simp [hnr, Ne.symm hpnm]) hnr hpr
    · have hk7 : kids.All (Pulled lab φ (t1.sent nm p ⟨pv, pf⟩ g new)) nm := by
        refine k7.imp fun q nm' _ _ _ hn hq h => ?_
        unfold Pulled
        rw [sent_get?, if_neg (fun h : p = nm' => hpk (h ▸ hn)), sent_edge_ne (fun h : nm = nm' ∧ p = q => hnk (h.1 ▸ hn))
          (fun h : nm = q ∧ p = nm' => hpk (h.2 ▸ hn))]
        exact h
      refine hk7.imp fun q nm' _ _ _ hn hq h => Pulled.frame m2 h ?_ ?_ ?_
      · simp only [List.mem_cons, not_or]
        exact ⟨fun h => hpk (h ▸ hn), fun h => hkr nm' hn nm' h rfl⟩
      · exact fun h => hkr nm' hn nm' h rfl
      · rcases List.mem_cons.1 hq with rfl | hq
        · exact hnr
        · exact fun h => hkr q hq q h rfl

/-! ### outward pass -/

theorem sent_frame' {t : JTree} {a b : Name} {nb : JNode} {g new : Factor}
    (hb : t.nodes.get? b = some nb) : Frame [b] [b] t (t.sent a b nb g new) := by
  refine ⟨sent_shape g new hb, rfl, fun k hk => ?_, fun c d hc hd => ?_⟩
  · rw [sent_get?, if_neg]; simpa [eq_comm] using hk
  · refine sent_edge_ne ?_ ?_
    · rintro ⟨-, rfl⟩; simp at hd
    · rintro ⟨-, rfl⟩; simp at hc

/-- after the outward pass -/
abbrev Calibrated (lab : Name → List Val) (U : Finset Name) (Φ : Assign → ℚ) :=
  Holds lab (fun _ vars _ => sumOver (cardOf lab) (U \ vars.toFinset) Φ)
    (fun _ _ sep _ => sumOver (cardOf lab) (U \ sep.toFinset) Φ)

/-- outward pass below the clique `p` -/
theorem push_spec (so : SetOrder) {φ : Name → Assign → ℚ} (f : Forest) {W U : Finset Name}
    {Φ Ψ : Assign → ℚ} (d : Nat) (p : Name) (t : JTree) {pv : List Name} {pf : Factor}
    (hd : f.depth ≤ d) (hPW : pv.toFinset ⊆ W) (hrip : f.RIP pv.toFinset W)
    (hdep : f.Dep φ) (hΨ : DependsOn W Ψ) (hφ : ∀ k τ, 0 ≤ φ k τ) (hU : U = W ∪ f.scope)
    (hΦ : Φ = fun τ => Ψ τ * f.prod φ τ)
    (hnd : (p :: f.names).Nodup) (hfit : f.All t.Fits p) (hpl : f.All (Pulled lab φ t) p)
    (hpn : t.nodes.get? p = some ⟨pv, pf⟩) (hpo : pf.Over lab)
    (hps : ∀ v, v ∈ pf.variableOrder ↔ v ∈ pv)
    (hpe : ∀ σ, Legal (cardOf lab) pv σ →
      pf.eval σ = sumOver (cardOf lab) (U \ pv.toFinset) Φ σ) :
    ∃ t', forEach (fun nb t => (send so p nb t).andThen (push so d nb (some p))) f.tops t =
        (t', none) ∧ Frame f.names f.names t t' ∧ f.All (Calibrated lab U Φ t') p := by
  induction f generalizing W U Φ Ψ d p t pv pf with
  | nil => exact ⟨t, rfl, Frame.refl _ _ _, trivial⟩
  | cons nm vars sep kids rest ihk ihr =>
    have hrip0 := hrip
    have hdep0 := hdep
    obtain ⟨r1, r2, r3, r4⟩ := hrip
    obtain ⟨dp1, dp2, dp3⟩ := hdep
    obtain ⟨⟨fit1, fit2, fit3, fit4, fit5⟩, fitk, fitr⟩ := hfit
    obtain ⟨⟨⟨nf, nf1, nf2, nf3, nf3', nf4⟩, e0, e1, e2, e3, e4, e4', e5⟩, plk, plr⟩ := hpl
    simp only [Forest.names, List.nodup_cons, List.mem_cons, List.mem_append, not_or,
      List.nodup_append] at hnd
    obtain ⟨⟨hpnm, hpk, hpr⟩, ⟨hnk, hnr⟩, hkn, hrn, hkr⟩ := hnd
    simp only [Forest.depth] at hd
    obtain ⟨d', rfl⟩ : ∃ d', d = d' + 1 := ⟨d - 1, by omega⟩
    have hsepp : ∀ v ∈ sep, v ∈ pv := fun v hv => by
      have := mem_inter.1 (r2 (by simpa using hv)); simpa using this.2
    have hsepv : ∀ v ∈ sep, v ∈ vars := fun v hv => by
      have := mem_inter.1 (r2 (by simpa using hv)); simpa using this.1
    obtain ⟨new, g, s1, s2, s3, s4, s5, s6, s7⟩ := send_spec so hpn nf1
      (by rw [edge_comm]; exact e1) hpo (fun v hv => (hps v).1 hv) (fun v hv => Or.inl ((hps v).2 hv)) e3
      (by rw [e2]; exact fun v hv => ⟨e4 v hv, (hps v).2 (hsepp v (e4 v hv))⟩) e4' nf2
    rw [e2] at s4
    simp only [e2, hps] at s3 s6
    replace s3 : ∀ v, v ∈ new.variableOrder ↔ v ∈ sep := fun v => by
      rw [s3]
      exact ⟨fun h => h.2, fun h => ⟨hsepp v h, h⟩⟩
    have hgs : ∀ v, v ∈ g.variableOrder ↔ v ∈ vars := by
      intro v; rw [s6]
      refine ⟨fun h => h.elim (nf3 v) fun h => hsepv v h.2, fun h => ?_⟩
      rcases nf3' v h with h | h
      · exact Or.inl h
      · exact Or.inr ⟨hsepp v h, h⟩
    have hnew : ∀ σ, Legal (cardOf lab) sep σ → new.eval σ =
        sumOver (cardOf lab) (pv.toFinset \ sep.toFinset)
          (sumOver (cardOf lab) (U \ pv.toFinset) Φ) σ := by
      intro σ hσ
      rw [s4 σ fun v hv => hσ v ((s3 v).1 hv)]
      refine sumOver_congr fun τ hτ => hpe τ ?_
      exact hτ.legal fun v hv hs => hσ v (by simpa [hv] using hs)
    have hout : ∀ σ, Legal (cardOf lab) vars σ →
        (∀ τ, sumOver (cardOf lab) (pv.toFinset \ sep.toFinset)
          (sumOver (cardOf lab) (U \ pv.toFinset) Φ) τ =
            sumOver (cardOf lab) (U \ sep.toFinset) Φ τ) ∧
        g.eval σ = sumOver (cardOf lab) (U \ vars.toFinset) Φ σ := by
      intro σ hσ
      have := Forest.outward (card := cardOf lab) hPW hrip0 hdep0 hΨ hφ σ hσ
      simp only at this
      rw [← hU, ← hΦ] at this
      refine ⟨this.1, ?_⟩
      rw [← this.2, s7 σ fun v hv => hσ v ((hgs v).1 hv), nf4 σ hσ,
        hnew σ fun v hv => hσ v (hsepv v hv), e5 σ fun v hv => hσ v (hsepv v hv)]
    have hnew2 : ∀ σ, Legal (cardOf lab) sep σ →
        new.eval σ = sumOver (cardOf lab) (U \ sep.toFinset) Φ σ := by
      intro σ hσ
      rw [hnew σ hσ]
      have := Forest.outward_sep (card := cardOf lab) (Φ := Φ) hPW hrip0 σ
      rw [← hU] at this
      exact this
    have hF1 : Frame [nm] [nm] t (t.sent p nm ⟨vars, nf⟩ g new) := sent_frame' nf1
    have hown : Calibrated lab U Φ (t.sent p nm ⟨vars, nf⟩ g new) p nm vars sep kids := by
      refine ⟨⟨g, ?_, s5, hgs, fun σ hσ => (hout σ hσ).2⟩, { e0 with factor := new }, ?_, e2, s2, s3,
        hnew2⟩
      · rw [sent_get?, if_pos rfl]
      · rw [edge_comm]; exact sent_edge_self (by rw [edge_comm]; exact e1)
    -- kids
    have hplk : kids.All (Pulled lab φ (t.sent p nm ⟨vars, nf⟩ g new)) nm := by
      refine plk.imp fun q nm' _ _ _ hn hq h => ?_
      unfold Pulled
      rw [sent_get?, if_neg (fun h : nm = nm' => hnk (h ▸ hn)), sent_edge_ne (fun h : p = nm' ∧ nm = q => hpk (h.1 ▸ hn))
          (fun h : p = q ∧ nm = nm' => hnk (h.2 ▸ hn))]
      exact h
    obtain ⟨t1, k1, k2, k3⟩ := ihk (W := W ∪ rest.scope ∪ vars.toFinset) (U := U) (Φ := Φ)
      (Ψ := fun τ => Ψ τ * φ nm τ * rest.prod φ τ) d' nm (t.sent p nm ⟨vars, nf⟩ g new)
      (pv := vars) (pf := g) (by omega) subset_union_right r3 dp2
      (by
        refine ((hΨ.mono ?_).mul (dp1.mono ?_)).mul ((Forest.prod_dependsOn dp3).mono ?_)
        · intro x; simp +contextual
        · intro x; simp +contextual
        · intro x; simp +contextual)
      (by rw [hU]; ext x; simp only [Forest.scope, mem_union]; tauto)
      (by rw [hΦ]; funext τ; simp only [Forest.prod]; ring)
      (by simp [hnk, hkn]) (fitk.imp fun _ _ _ _ _ _ _ h => h.of_shape hF1.1) hplk
      (by rw [sent_get?, if_pos rfl]) s5 hgs (fun σ hσ => (hout σ hσ).2)
    have hstep : (send so p nm t).andThen (push so (d' + 1) nm (some p)) = (t1, none) := by
      rw [s1, andThen_ok, push, forEach_skip (fun nb => some p = some nb), filter_parent]
      have : (t.sent p nm ⟨vars, nf⟩ g new).adj = t.adj := rfl
      rw [this, fit4, k1]
    have hF := hF1.trans k2
    have hrest : ∀ q, q ∈ p :: rest.names → q ∉ [nm] ++ kids.names := by
      intro q hq
      simp only [List.mem_append, List.mem_singleton, not_or]
      rcases List.mem_cons.1 hq with rfl | hq
      · exact ⟨hpnm, hpk⟩
      · exact ⟨fun h => hnr (h ▸ hq), fun h => hkr q h q hq rfl⟩
    obtain ⟨t', m1, m2, m3⟩ := ihr (W := W ∪ vars.toFinset ∪ kids.scope) (U := U) (Φ := Φ)
      (Ψ := fun τ => Ψ τ * φ nm τ * kids.prod φ τ) (d' + 1) p t1 (pv := pv) (pf := pf)
      (by omega) (hPW.trans (by intro x; simp +contextual)) r4 dp3
      (by
        refine ((hΨ.mono ?_).mul (dp1.mono ?_)).mul ((Forest.prod_dependsOn dp2).mono ?_)
        · intro x; simp +contextual
        · intro x; simp +contextual
        · intro x; simp +contextual)
      (by rw [hU]; ext x; simp only [Forest.scope, mem_union]; tauto)
      (by rw [hΦ]; funext τ; simp only [Forest.prod]; ring)
      (by simp [hpr, hrn]) (fitr.imp fun _ _ _ _ _ _ _ h => h.of_shape hF.1)
      (plr.imp fun q nm' _ _ _ hn hq h => Pulled.frame hF h (hrest nm' (by simp [hn]))
        (hrest nm' (by simp [hn])) (hrest q hq))
      (by rw [hF.2.2.1 p (hrest p (by simp)), hpn]) hpo hps hpe
    refine ⟨t', ?_, ?_, ?_, ?_, m3⟩
    · rw [Forest.tops, forEach, hstep, andThen_ok, m1]
    · refine (hF.trans m2).mono ?_ ?_ <;> intro k hk <;>
        simp only [Forest.names, List.mem_append, List.mem_cons, List.not_mem_nil] at hk ⊢ <;> tauto
    · exact Holds.frame m2 (Holds.frame k2 hown hnk hnk hpk) hnr hnr hpr
    · refine k3.imp fun q nm' _ _ _ hn hq h => Holds.frame m2 h ?_ ?_ ?_
      · exact fun h => hkr nm' hn nm' h rfl
      · exact fun h => hkr nm' hn nm' h rfl
      · rcases List.mem_cons.1 hq with rfl | hq
        · exact hnr
        · exact fun h => hkr q hq q h rfl

/-! ### `calculate_messages` -/

theorem eval_dependsOn (f : Factor) : DependsOn f.variableOrder.toFinset f.eval := by
  intro σ τ h
  unfold Factor.eval
  rw [List.map_congr_left fun v hv => h v (by simpa using hv)]

theorem pot_eq {t : JTree} {k : Name} {vars : List Name} {f : Factor}
    (h : t.nodes.get? k = some ⟨vars, f⟩) : t.pot k = f.eval := by
  funext σ; simp only [pot, h]

theorem dep_of_fresh {t : JTree} {f : Forest} {p : Name} {own : Name → Finset Name}
    {φ : Name → Assign → ℚ} (h : f.All (Fresh lab own φ t) p) : f.Dep φ := by
  induction f generalizing p with
  | nil => trivial
  | cons nm vars sep kids rest ihk ihr =>
    obtain ⟨⟨⟨g, _, _, g3, g4, g5, _⟩, _⟩, h2, h3⟩ := h
    refine ⟨?_, ihk h2, ihr h3⟩
    rw [← g3]
    exact (eval_dependsOn g).mono fun v hv => g5 ((g4 v).1 (by simpa using hv))

/-- `calculate_messages` calibrates a junction tree with fresh factors. -/
theorem calculate_spec (so : SetOrder) {own : Name → Finset Name} {t : JTree} {root : Name} {rvars : List Name} {kids : Forest}
    (hj : t.Junction root rvars kids) {limit : Nat} (hl : kids.depth < limit) {rf : Factor}
    (hr : t.nodes.get? root = some ⟨rvars, rf⟩) (hro : rf.Over lab)
    (hrs : ∀ v ∈ rf.variableOrder, v ∈ rvars)
    (hrc : ∀ v ∈ rvars, v ∈ rf.variableOrder ∨ v ∈ kids.told own)
    (hfr : kids.All (Fresh lab own t.pot t) root) (hnn : ∀ k σ, 0 ≤ t.pot k σ) :
    let U := rvars.toFinset ∪ kids.scope
    let Φ := fun σ => t.pot root σ * kids.prod t.pot σ
    ∃ t', calculate so limit t = (t', none) ∧ t'.shape = t.shape ∧ t'.valid = true ∧
      (∀ k, k ≠ root → k ∉ kids.names → t'.nodes.get? k = t.nodes.get? k) ∧
      (∃ f, t'.nodes.get? root = some ⟨rvars, f⟩ ∧ f.Over lab ∧
        (∀ v, v ∈ f.variableOrder ↔ v ∈ rvars) ∧ ∀ σ, Legal (cardOf lab) rvars σ →
          f.eval σ = sumOver (cardOf lab) (U \ rvars.toFinset) Φ σ) ∧
      kids.All (Calibrated lab U Φ t') root := by
  intro U Φ
  obtain ⟨d, rfl⟩ : ∃ d, limit = d + 1 := ⟨limit - 1, by omega⟩
  obtain ⟨t1, rf', a1, a2, a3, a4, a5, a6, a7⟩ := pull_spec so (φ := t.pot) kids d root t (by omega)
    hj.name hj.rip hj.nodup hj.fits hfr hr hro
  have hnb : ∀ x ∈ t.adj.nbrs root, ¬ (none = some x) := by simp
  have hpull : pull so (d + 1) root none t = (t1, none) := by
    rw [pull, forEach_skip (fun nb => none = some nb)]
    have : ((t.adj.nbrs root).filter fun x => decide ¬ (none = some x)) = kids.tops := by
      rw [← hj.nbrs, List.filter_eq_self]; simp
    rw [this, a1]; rfl
  have hdep := dep_of_fresh hfr
  have hrd : DependsOn rvars.toFinset (t.pot root) := by
    rw [pot_eq hr]
    exact (eval_dependsOn rf).mono fun v hv => by simpa using hrs v (by simpa using hv)
  have hsc : ∀ v, v ∈ rf'.variableOrder ↔ v ∈ rvars := by
    intro v
    rw [a5]
    constructor
    · rintro (h | h)
      · exact hrs v h
      · simpa using told_sub hj.rip h
    · exact hrc v
  have hre : ∀ σ, Legal (cardOf lab) rvars σ →
      rf'.eval σ = sumOver (cardOf lab) (U \ rvars.toFinset) Φ σ := by
    intro σ hσ
    rw [a6 σ fun v hv => hσ v ((hsc v).1 hv), Forest.msgs_eq subset_rfl hj.rip hdep]
    simp only [U, Φ]
    rw [union_sdiff_left, sumOver_mul_left hrd disjoint_sdiff, pot_eq hr]
  obtain ⟨t2, b1, b2, b3⟩ := push_spec so (φ := t.pot) kids (W := rvars.toFinset) (U := U)
    (Φ := Φ) (Ψ := t.pot root) d root t1 (pv := rvars) (pf := rf') (by omega) subset_rfl hj.rip hdep
    hrd hnn rfl rfl hj.nodup (hj.fits.imp fun _ _ _ _ _ _ _ h => h.of_shape a2.1) a7 a3 a4 hsc hre
  have hpush : push so (d + 1) root none t1 = (t2, none) := by
    rw [push, forEach_skip (fun nb => none = some nb), adj_of_shape a2.1]
    have : ((t.adj.nbrs root).filter fun x => decide ¬ (none = some x)) = kids.tops := by
      rw [← hj.nbrs, List.filter_eq_self]; simp
    rw [this, b1]
  have hF := a2.trans b2
  have hroot : root ∉ kids.names := (List.nodup_cons.1 hj.nodup).1
  refine ⟨{ t2 with valid := true }, ?_, hF.1, rfl, fun k h1 h2 => ?_, ⟨rf', ?_, a4, hsc, hre⟩, b3⟩
  · unfold calculate
    have hne := hj.first
    cases hn : t.nodes with
    | nil => rw [hn] at hne; simp at hne
    | cons x xs =>
      obtain ⟨k, n⟩ := x
      rw [hn] at hne
      simp only [Dict.keys_cons, List.head?_cons, Option.some.injEq] at hne
      subst hne
      simp only
      rw [hpull, andThen_ok, hpush, andThen_ok]
  · exact hF.2.2.1 k (by simp [h1, h2])
  · show t2.nodes.get? root = _
    rw [b2.2.2.1 root hroot, a3]

end JTree
end Primo
