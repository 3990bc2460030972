import Verif.Lemmas.RoundedNet

/-! # The rounded `FactorTree` follows the exact one -/

namespace Primo
open JoinTree

/-! ## Exact arithmetic -/

namespace JoinTree

theorem putFirstR_exact (so : SetOrder) (p : List Name → Bool) (f : Factor) : ∀ ns : Dict JNode,
    putFirstR .exact so p f ns = putFirst so p f ns
  | [] => rfl
  | (k, n) :: ns => by
    unfold putFirstR putFirst
    rw [putFirstR_exact so p f ns]
    rfl

theorem putFactorR_exact (so : SetOrder) (f : Factor) (t : JTree) :
    putFactorR .exact so f t = putFactor so f t := by
  unfold putFactorR putFactor
  rw [putFirstR_exact]

theorem createR_exact (so : SetOrder) (bn : BN) (order : Option (List Name)) :
    createR .exact so bn order = create so bn order := by
  unfold createR create
  have : putFactorR .exact so = putFactor so := funext fun f => funext fun t => putFactorR_exact so f t
  rw [this]
  rfl

end JoinTree

namespace JTree
open JRes

theorem resetR_exact (so : SetOrder) (bn : BN) (t : JTree) : t.resetR .exact so bn = t.reset so bn := by
  unfold resetR reset
  have : putFactorR .exact so = putFactor so := funext fun f => funext fun t => putFactorR_exact so f t
  rw [this]
  rfl

theorem sendR_exact (so : SetOrder) (a b : Name) (t : JTree) : t.sendR .exact so a b = t.send so a b := rfl

theorem pullR_exact (so : SetOrder) : ∀ (d : Nat) (cur : Name) (parent : Option Name) (t : JTree),
    t.pullR .exact so d cur parent = t.pull so d cur parent
  | 0, _, _, _ => rfl
  | d + 1, cur, parent, t => by
    unfold pullR pull
    have : ∀ nb, pullR .exact so d nb (some cur) = pull so d nb (some cur) := fun nb =>
      funext fun t => pullR_exact so d nb (some cur) t
    simp only [this]
    rfl

theorem pushR_exact (so : SetOrder) : ∀ (d : Nat) (cur : Name) (parent : Option Name) (t : JTree),
    t.pushR .exact so d cur parent = t.push so d cur parent
  | 0, _, _, _ => rfl
  | d + 1, cur, parent, t => by
    unfold pushR push
    have : ∀ nb, pushR .exact so d nb (some cur) = push so d nb (some cur) := fun nb =>
      funext fun t => pushR_exact so d nb (some cur) t
    simp only [this]
    rfl

theorem calculateR_exact (so : SetOrder) (limit : Nat) (t : JTree) :
    t.calculateR .exact so limit = t.calculate so limit := by
  unfold calculateR calculate
  cases t.nodes with
  | nil => rfl
  | cons p ns =>
    have h1 : pullR .exact so limit p.1 none = pull so limit p.1 none :=
      funext fun t => pullR_exact so limit p.1 none t
    have h2 : pushR .exact so limit p.1 none = push so limit p.1 none :=
      funext fun t => pushR_exact so limit p.1 none t
    simp only [h1, h2]
    rfl

theorem queryR_exact (so : SetOrder) (vs : List Name) (t : JTree) :
    t.queryR .exact so vs = t.query so vs := rfl

theorem marginalsR_exact (so : SetOrder) (limit : Nat) (vs : List Name) (t : JTree) :
    t.marginalsR .exact so limit vs = t.marginals so limit vs := by
  unfold marginalsR marginals
  rw [calculateR_exact]
  rfl

theorem oldMarginalsR_exact (so : SetOrder) (limit : Nat) : ∀ (es : List Name) (t : JTree),
    t.oldMarginalsR .exact so limit es = t.oldMarginals so limit es
  | [], _ => rfl
  | e :: es, t => by
    unfold oldMarginalsR oldMarginals
    rw [marginalsR_exact]
    have : oldMarginalsR .exact so limit es = oldMarginals so limit es :=
      funext fun t => oldMarginalsR_exact so limit es t
    rw [this]
    rfl

theorem putEvidenceR_exact (so : SetOrder) (bn : BN) (old : Dict NDArray) (e : Name × Evidence)
    (t : JTree) : t.putEvidenceR .exact so bn old e = t.putEvidence so bn old e := by
  unfold putEvidenceR putEvidence
  have : ∀ f, putFirstR .exact so (fun vars => vars.contains e.1) f t.nodes =
    putFirst so (fun vars => vars.contains e.1) f t.nodes := fun f => putFirstR_exact so _ f _
  simp only [this]
  rfl

theorem setEvidenceR_exact (so : SetOrder) (limit : Nat) (bn : BN) (ev : Dict Evidence) (soft : Bool)
    (t : JTree) : t.setEvidenceR .exact so limit bn ev soft = t.setEvidence so limit bn ev soft := by
  unfold setEvidenceR setEvidence
  have h1 : calculateR .exact so limit = calculate so limit := funext fun t => calculateR_exact so limit t
  have h2 : ∀ old, putEvidenceR .exact so bn old = putEvidence so bn old := fun old =>
    funext fun e => funext fun t => putEvidenceR_exact so bn old e t
  simp only [resetR_exact, h1, h2, oldMarginalsR_exact]
  rfl

end JTree

/-! ## The simulation -/

/-- the additions in `marginalize` -/
def Factor.margCount : List Name → Factor → Nat
  | [], _ => 0
  | v :: vs, g => (g.potentials.shape.getD (g.variableOrder.idxOf v) 0 - 1) +
      match g.sumOut v with
      | .ok g' => margCount vs g'
      | .error _ => 0

theorem Factor.near_marginalize {A : Arith} {u : ℚ} (hA : A.Accurate u) : ∀ (vs : List Name) {k : Nat}
    {f g : Factor}, f.Near u k g →
      RelE (Near u (k + g.margCount vs)) (f.marginalizeR A vs) (g.marginalize vs)
  | [], _, _, _, h => h
  | v :: vs, k, f, g, h => by
    unfold marginalizeR marginalize
    rw [List.foldlM_cons, List.foldlM_cons]
    have h1 := near_sumOut hA h v
    rw [margCount]
    cases hg : g.sumOut v with
    | error e =>
      rw [hg] at h1
      cases hf : f.sumOutR A v with
      | error e' => rw [hf] at h1; exact h1
      | ok f' => rw [hf] at h1; exact h1.elim
    | ok g' =>
      rw [hg] at h1
      cases hf : f.sumOutR A v with
      | error e' => rw [hf] at h1; exact h1.elim
      | ok f' =>
        rw [hf] at h1
        have := near_marginalize hA vs h1
        rw [Nat.add_assoc] at this
        exact this

/-- the tables of the two trees are within `k` roundings, everything else is equal -/
structure JTree.Near (u : ℚ) (k : Nat) (t t₀ : JTree) : Prop where
  nodes : List.Forall₂ (fun p q : Name × JNode => p.1 = q.1 ∧ p.2.vars = q.2.vars ∧
    p.2.factor.Near u k q.2.factor) t.nodes t₀.nodes
  adj : t.adj = t₀.adj
  edges : List.Forall₂ (fun e f : JEdge => e.u = f.u ∧ e.w = f.w ∧ e.sep = f.sep ∧
    e.factor.Near u k f.factor) t.edges t₀.edges
  valid : t.valid = t₀.valid

/-- the same exception or none, and the trees are within `k` roundings -/
def JRes.Near (u : ℚ) (k : Nat) (r r₀ : JRes) : Prop := r.2 = r₀.2 ∧ r.1.Near u k r₀.1

/-- `F A` follows `G` for every accurate arithmetic, with a number of roundings that depends neither on
the arithmetic nor on its accuracy -/
def Tracks (F : Arith → JTree → JRes) (G : JTree → JRes) : Prop :=
  ∀ t₀ k, ∃ m, ∀ u A, Arith.Accurate A u → ∀ t, t.Near u k t₀ → (F A t).Near u m (G t₀)

theorem JTree.Near.mono {u : ℚ} (h0 : 0 ≤ u) (hu : u < 1) {k m : Nat} {t t₀ : JTree}
    (h : t.Near u k t₀) (hkm : k ≤ m) : t.Near u m t₀ :=
  ⟨h.nodes.imp fun _ _ h => ⟨h.1, h.2.1, h.2.2.mono h0 hu hkm⟩, h.adj,
    h.edges.imp fun _ _ h => ⟨h.1, h.2.1, h.2.2.1, h.2.2.2.mono h0 hu hkm⟩, h.valid⟩

namespace Tracks
open JRes
variable {F F' : Arith → JTree → JRes} {G G' : JTree → JRes}

theorem skip : Tracks (fun _ t => (t, none)) (fun t => (t, none)) :=
  fun _ k => ⟨k, fun _ _ _ _ h => ⟨rfl, h⟩⟩

theorem raise (e : PyErr) : Tracks (fun _ t => (t, some e)) (fun t => (t, some e)) :=
  fun _ k => ⟨k, fun _ _ _ _ h => ⟨rfl, h⟩⟩

theorem andThen (h : Tracks F G) (h' : Tracks F' G') :
    Tracks (fun A t => (F A t).andThen (F' A)) (fun t => (G t).andThen G') := by
  intro t₀ k
  obtain ⟨m, hm⟩ := h t₀ k
  obtain ⟨m', hm'⟩ := h' (G t₀).1 m
  cases hG : (G t₀).2 with
  | none =>
    refine ⟨m', fun u A hA t ht => ?_⟩
    obtain ⟨h1, h2⟩ := hm u A hA t ht
    simp only [JRes.andThen]
    rw [h1, hG]
    exact hm' u A hA _ h2
  | some e =>
    refine ⟨m, fun u A hA t ht => ?_⟩
    obtain ⟨h1, h2⟩ := hm u A hA t ht
    simp only [JRes.andThen]
    rw [h1, hG]
    exact ⟨by rw [h1], h2⟩

theorem forEach {α : Type} {F : Arith → α → JTree → JRes} {G : α → JTree → JRes} : ∀ {l : List α},
    (∀ x ∈ l, Tracks (fun A => F A x) (G x)) →
    Tracks (fun A => JRes.forEach (F A) l) (JRes.forEach G l)
  | [], _ => skip
  | x :: _, h => (h x (by simp)).andThen (forEach fun y hy => h y (by simp [hy]))

theorem ite {p : Prop} [Decidable p] (h : p → Tracks F G) (h' : ¬p → Tracks F' G') :
    Tracks (fun A t => if p then F A t else F' A t) (fun t => if p then G t else G' t) := by
  by_cases hp : p
  · simpa only [if_pos hp] using h hp
  · simpa only [if_neg hp] using h' hp

end Tracks

theorem JRes.near_ofExcept {A : Arith} {u : ℚ} (hA : A.Accurate u) {k m : Nat} (hkm : k ≤ m) {t t₀ : JTree}
    (ht : t.Near u k t₀) {x x₀ : Except PyErr JTree} (h : RelE (JTree.Near u m) x x₀) :
    (JRes.ofExcept t x).Near u m (JRes.ofExcept t₀ x₀) := by
  cases x <;> cases x₀
  · exact ⟨congrArg some h, ht.mono hA.nonneg hA.lt_one hkm⟩
  · exact h.elim
  · exact h.elim
  · exact ⟨rfl, h⟩

theorem near_putFirst {A : Arith} {u : ℚ} (hA : A.Accurate u) (so : SetOrder) (p : List Name → Bool)
    {k m : Nat} {f f₀ : Factor} (hf : f.Near u m f₀) {ns ns₀ : Dict JNode}
    (h : List.Forall₂ (fun p q : Name × JNode => p.1 = q.1 ∧ p.2.vars = q.2.vars ∧
      p.2.factor.Near u k q.2.factor) ns ns₀) :
    RelE (List.Forall₂ fun p q : Name × JNode => p.1 = q.1 ∧ p.2.vars = q.2.vars ∧
      p.2.factor.Near u (k + m + 1) q.2.factor) (putFirstR A so p f ns) (putFirst so p f₀ ns₀) := by
  have hmono : ∀ {ns ns₀ : Dict JNode},
      List.Forall₂ (fun p q : Name × JNode => p.1 = q.1 ∧ p.2.vars = q.2.vars ∧
        p.2.factor.Near u k q.2.factor) ns ns₀ →
      List.Forall₂ (fun p q : Name × JNode => p.1 = q.1 ∧ p.2.vars = q.2.vars ∧
        p.2.factor.Near u (k + m + 1) q.2.factor) ns ns₀ := fun h =>
    h.imp fun _ _ h => ⟨h.1, h.2.1, h.2.2.mono hA.nonneg hA.lt_one (by omega)⟩
  induction h with
  | nil => exact .nil
  | @cons a b as bs hab hrest ih =>
    obtain ⟨h1, h2, h3⟩ := hab
    unfold putFirstR putFirst
    simp only [h2]
    split
    · exact (Factor.near_mul hA so h3 hf).bind fun x y hxy =>
        RelE.pure (.cons ⟨h1, rfl, hxy⟩ (hmono hrest))
    · exact ih.bind fun x y hxy =>
        RelE.pure (.cons ⟨h1, h2, h3.mono hA.nonneg hA.lt_one (by omega)⟩ hxy)

theorem tracks_putFactor (so : SetOrder) {f : Factor} (hf : ∀ x ∈ f.potentials.data, 0 ≤ x) :
    Tracks (fun A => putFactorR A so f) (putFactor so f) := by
  intro t₀ k
  refine ⟨k + 0 + 1, fun u A hA t ht => JRes.near_ofExcept hA (by omega) ht ?_⟩
  exact (near_putFirst hA so _ (Factor.Near.rfl' hf) ht.nodes).bind fun ns ns₀ h =>
    RelE.pure ⟨h, ht.adj, ht.edges.imp fun _ _ h =>
      ⟨h.1, h.2.1, h.2.2.1, h.2.2.2.mono hA.nonneg hA.lt_one (by omega)⟩, ht.valid⟩

theorem factors_nonneg {bn : BN} (hp : bn.NonNeg) {fs : List Factor}
    (h : bn.mapM Factor.fromNode = .ok fs) : ∀ f ∈ fs, ∀ x ∈ f.potentials.data, 0 ≤ x := by
  rw [mapM_eq_ok] at h
  induction h with
  | nil => exact fun f hf => nomatch hf
  | @cons n g ns gs hn _ ih =>
    intro f hf
    rcases List.mem_cons.1 hf with rfl | hf
    · rw [Factor.fromNode_potentials hn]
      exact hp n (by simp)
    · exact ih (fun n hn => hp n (by simp [hn])) f hf

namespace JTree
open JRes

theorem tracks_blank : ∀ t₀ : JTree, ∀ k u, ∀ t : JTree, t.Near u k t₀ → t.blank.Near u 0 t₀.blank := by
  intro t₀ k u t ht
  have h1 : (Factor.trivial 1).Near u 0 (Factor.trivial 1) := Factor.Near.rfl' (by decide)
  refine ⟨?_, ht.adj, ?_, ht.valid⟩
  · have := ht.nodes
    unfold blank
    simp only
    generalize t.nodes = l at this
    generalize t₀.nodes = l₀ at this
    induction this with
    | nil => exact .nil
    | cons h _ ih => exact .cons ⟨h.1, h.2.1, h1⟩ ih
  · have := ht.edges
    unfold blank
    simp only
    generalize t.edges = l at this
    generalize t₀.edges = l₀ at this
    induction this with
    | nil => exact .nil
    | cons h _ ih => exact .cons ⟨h.1, h.2.1, h.2.2.1, h1⟩ ih

theorem tracks_valid (b : Bool) : Tracks (fun _ t => ({ t with valid := b }, none))
    (fun t => ({ t with valid := b }, none)) :=
  fun _ k => ⟨k, fun _ _ _ _ h => ⟨rfl, h.nodes, h.adj, h.edges, rfl⟩⟩

theorem tracks_reset (so : SetOrder) {bn : BN} (hp : bn.NonNeg) :
    Tracks (fun A => resetR A so bn) (reset so bn) := by
  intro t₀ k
  unfold resetR reset
  cases hm : bn.mapM Factor.fromNode with
  | error e => exact Tracks.raise e t₀ k
  | ok fs =>
    obtain ⟨m, hm⟩ := (Tracks.forEach (F := fun A => putFactorR A so) (G := putFactor so) fun f hf =>
      tracks_putFactor so (factors_nonneg hp hm f hf)).andThen (tracks_valid false) t₀.blank 0
    exact ⟨m, fun u A hA t ht => hm u A hA _ (tracks_blank t₀ k u t ht)⟩

theorem near_getE {u : ℚ} {k : Nat} {ns ns₀ : Dict JNode}
    (h : List.Forall₂ (fun p q : Name × JNode => p.1 = q.1 ∧ p.2.vars = q.2.vars ∧
      p.2.factor.Near u k q.2.factor) ns ns₀) (a : Name) :
    RelE (fun n n₀ => n.vars = n₀.vars ∧ n.factor.Near u k n₀.factor) (ns.getE a) (ns₀.getE a) := by
  induction h with
  | nil => exact rfl
  | @cons p q ps qs h _ ih =>
    obtain ⟨p1, p2⟩ := p
    obtain ⟨q1, q2⟩ := q
    obtain ⟨h1, h2⟩ := h
    simp only at h1 h2
    subst h1
    unfold Dict.getE at ih ⊢
    rw [Dict.get?, Dict.get?]
    by_cases hq : p1 = a
    · rw [if_pos hq, if_pos hq]; exact h2
    · rw [if_neg hq, if_neg hq]; exact ih

theorem near_set {u : ℚ} {k : Nat} {ns ns₀ : Dict JNode}
    (h : List.Forall₂ (fun p q : Name × JNode => p.1 = q.1 ∧ p.2.vars = q.2.vars ∧
      p.2.factor.Near u k q.2.factor) ns ns₀) (a : Name) {n n₀ : JNode}
    (hn : n.vars = n₀.vars ∧ n.factor.Near u k n₀.factor) :
    List.Forall₂ (fun p q : Name × JNode => p.1 = q.1 ∧ p.2.vars = q.2.vars ∧
      p.2.factor.Near u k q.2.factor) (ns.set a n) (ns₀.set a n₀) := by
  induction h with
  | nil => exact .cons ⟨rfl, hn⟩ .nil
  | @cons p q ps qs h hr ih =>
    unfold Dict.set
    simp only [h.1]
    by_cases hq : q.1 = a
    · rw [if_pos hq, if_pos hq]; exact .cons ⟨rfl, hn⟩ hr
    · rw [if_neg hq, if_neg hq]; exact .cons ⟨rfl, h.2⟩ ih

theorem near_edge {u : ℚ} {k : Nat} {t t₀ : JTree} (h : t.Near u k t₀) (a b : Name) :
    RelE (fun e e₀ => e.sep = e₀.sep ∧ e.factor.Near u k e₀.factor) (t.edge a b) (t₀.edge a b) := by
  unfold edge
  have := h.edges
  generalize t.edges = es at this
  generalize t₀.edges = es₀ at this
  induction this with
  | nil => exact rfl
  | @cons e e₀ es es₀ he _ ih =>
    have hj : e.joins a b = e₀.joins a b := by unfold JEdge.joins; rw [he.1, he.2.1]
    rw [List.find?_cons, List.find?_cons, hj]
    cases e₀.joins a b
    · exact ih
    · exact he.2.2

theorem tracks_send (so : SetOrder) (a b : Name) : Tracks (fun A => sendR A so a b) (send so a b) := by
  intro t₀ k
  have hc : ∃ c, ∀ na e, t₀.nodes.getE a = .ok na → t₀.edge a b = .ok e →
      na.factor.margCount (so.diff na.vars e.sep) = c := by
    cases h1 : t₀.nodes.getE a with
    | error x => exact ⟨0, fun _ _ h => nomatch h⟩
    | ok na =>
      cases h2 : t₀.edge a b with
      | error x => exact ⟨0, fun _ _ _ h => nomatch h⟩
      | ok e => exact ⟨_, fun _ _ h h' => by cases h; cases h'; rfl⟩
  obtain ⟨c, hc⟩ := hc
  refine ⟨k + ((k + c) + (k + 1) + 1) + 1, fun u A hA t ht => JRes.near_ofExcept hA (by omega) ht ?_⟩
  have hna := near_getE ht.nodes a
  have he := near_edge ht a b
  have hnb := near_getE ht.nodes b
  have hm : ∀ {j f g}, Factor.Near u j f g → j ≤ k + ((k + c) + (k + 1) + 1) + 1 →
      Factor.Near u (k + ((k + c) + (k + 1) + 1) + 1) f g := fun h h' => h.mono hA.nonneg hA.lt_one h'
  cases h1 : t₀.nodes.getE a with
  | error x =>
    rw [h1] at hna
    cases h2 : t.nodes.getE a with
    | error y => rw [h2] at hna; exact hna
    | ok y => rw [h2] at hna; exact hna.elim
  | ok na₀ =>
    obtain ⟨na, h2, h3, h4⟩ := hna.ok_right h1
    rw [h2]
    simp only [ok_bind]
    cases h5 : t₀.edge a b with
    | error x =>
      rw [h5] at he
      cases h6 : t.edge a b with
      | error y => rw [h6] at he; exact he
      | ok y => rw [h6] at he; exact he.elim
    | ok e₀ =>
      obtain ⟨e, h6, h7, h8⟩ := he.ok_right h5
      rw [h6]
      simp only [ok_bind]
      rw [h3, h7]
      have hmarg := Factor.near_marginalize hA (so.diff na₀.vars e₀.sep) h4
      rw [hc na₀ e₀ h1 h5] at hmarg
      refine hmarg.bind fun new new₀ hnew => ?_
      refine hnb.bind fun nb nb₀ hnb => ?_
      refine (Factor.near_div hA so hnew h8).bind fun q q₀ hq => ?_
      refine (Factor.near_mul hA so hnb.2 hq).bind fun g g₀ hg => ?_
      refine RelE.pure ⟨near_set ?_ b ⟨hnb.1, hg⟩, ht.adj, ?_, ht.valid⟩
      · exact ht.nodes.imp fun _ _ h => ⟨h.1, h.2.1, hm h.2.2 (by omega)⟩
      · have := ht.edges
        simp only
        generalize t.edges = es at this
        generalize t₀.edges = es₀ at this
        induction this with
        | nil => exact .nil
        | @cons x y es es₀ hx _ ih =>
          refine .cons ?_ ih
          have hj : x.joins a b = y.joins a b := by unfold JEdge.joins; rw [hx.1, hx.2.1]
          simp only [hj]
          split
          · exact ⟨hx.1, hx.2.1, hx.2.2.1, hm hnew (by omega)⟩
          · exact ⟨hx.1, hx.2.1, hx.2.2.1, hm hx.2.2.2 (by omega)⟩

theorem tracks_pull (so : SetOrder) : ∀ (d : Nat) (cur : Name) (parent : Option Name),
    Tracks (fun A => pullR A so d cur parent) (pull so d cur parent)
  | 0, _, _ => Tracks.raise _
  | d + 1, cur, parent => by
    intro t₀ k
    have h2 : Tracks (fun A t => match parent with
        | none => (t, none)
        | some p => if p = "" then (t, none) else sendR A so cur p t)
        (fun t => match parent with
        | none => (t, none)
        | some p => if p = "" then (t, none) else send so cur p t) := by
      cases parent with
      | none => exact Tracks.skip
      | some p =>
        exact Tracks.ite (p := p = "") (F' := fun A => sendR A so cur p) (fun _ => Tracks.skip)
          (fun _ => tracks_send so cur p)
    have h1 : Tracks (fun A => JRes.forEach
        (fun nb t => if parent = some nb then (t, none) else pullR A so d nb (some cur) t)
          (t₀.adj.nbrs cur))
        (JRes.forEach (fun nb t => if parent = some nb then (t, none) else pull so d nb (some cur) t)
          (t₀.adj.nbrs cur)) :=
      Tracks.forEach (F := fun A nb t =>
        if parent = some nb then (t, none) else pullR A so d nb (some cur) t) fun nb _ =>
          Tracks.ite (p := parent = some nb) (F' := fun A => pullR A so d nb (some cur)) (fun _ => Tracks.skip)
            fun _ => tracks_pull so d nb (some cur)
    obtain ⟨m, hm⟩ := h1.andThen h2 t₀ k
    refine ⟨m, fun u A hA t ht => ?_⟩
    have := hm u A hA t ht
    simp only at this ⊢
    unfold pullR pull
    rw [ht.adj]
    exact this

theorem tracks_push (so : SetOrder) : ∀ (d : Nat) (cur : Name) (parent : Option Name),
    Tracks (fun A => pushR A so d cur parent) (push so d cur parent)
  | 0, _, _ => Tracks.raise _
  | d + 1, cur, parent => by
    intro t₀ k
    have h1 : Tracks (fun A => JRes.forEach
        (fun nb t => if parent = some nb then (t, none) else
          (sendR A so cur nb t).andThen (pushR A so d nb (some cur))) (t₀.adj.nbrs cur))
        (JRes.forEach (fun nb t => if parent = some nb then (t, none) else
          (send so cur nb t).andThen (push so d nb (some cur))) (t₀.adj.nbrs cur)) :=
      Tracks.forEach (F := fun A nb t => if parent = some nb then (t, none) else
          (sendR A so cur nb t).andThen (pushR A so d nb (some cur))) fun nb _ =>
          Tracks.ite (p := parent = some nb) (F' := fun A t => (sendR A so cur nb t).andThen (pushR A so d nb (some cur)))
            (fun _ => Tracks.skip)
            fun _ => (tracks_send so cur nb).andThen (tracks_push so d nb (some cur))
    obtain ⟨m, hm⟩ := h1 t₀ k
    refine ⟨m, fun u A hA t ht => ?_⟩
    have := hm u A hA t ht
    simp only at this ⊢
    unfold pushR push
    rw [ht.adj]
    exact this

theorem tracks_calculate (so : SetOrder) (limit : Nat) :
    Tracks (fun A => calculateR A so limit) (calculate so limit) := by
  intro t₀ k
  cases hn : t₀.nodes with
  | nil =>
    refine ⟨k, fun u A hA t ht => ?_⟩
    have hn' : t.nodes = [] := by
      have := ht.nodes
      rw [hn] at this
      exact List.forall₂_nil_right_iff.1 this
    simp only
    unfold calculateR calculate
    rw [hn, hn']
    exact ⟨rfl, ht⟩
  | cons q qs =>
    obtain ⟨m, hm⟩ := ((tracks_pull so limit q.1 none).andThen
      (tracks_push so limit q.1 none)).andThen (tracks_valid true) t₀ k
    refine ⟨m, fun u A hA t ht => ?_⟩
    have h := hm u A hA t ht
    have hn' : ∃ n ps, t.nodes = (q.1, n) :: ps := by
      have := ht.nodes
      rw [hn] at this
      obtain ⟨p, ps, hp, _, h⟩ := List.forall₂_cons_right_iff.1 this
      exact ⟨p.2, ps, by rw [h, ← hp.1]⟩
    obtain ⟨n, ps, hn'⟩ := hn'
    obtain ⟨q1, q2⟩ := q
    simp only
    unfold calculateR calculate
    rw [hn, hn']
    simp only at h ⊢
    generalize ((pullR A so limit q1 none t).andThen (pushR A so limit q1 none)).andThen
      (fun t => ({ t with valid := true }, none)) = r at h
    generalize ((pull so limit q1 none t₀).andThen (push so limit q1 none)).andThen
      (fun t => ({ t with valid := true }, none)) = r₀ at h
    obtain ⟨a, o⟩ := r
    obtain ⟨b, o'⟩ := r₀
    obtain ⟨h1, h2⟩ := h
    simp only at h1 h2
    subst h1
    split
    · rename_i heq
      cases heq
      exact ⟨rfl, h2⟩
    · rename_i hne
      split
      · rename_i heq
        cases heq
        exact absurd rfl (hne a)
      · exact ⟨rfl, h2⟩

theorem near_find {u : ℚ} {k : Nat} {ns ns₀ : Dict JNode}
    (h : List.Forall₂ (fun p q : Name × JNode => p.1 = q.1 ∧ p.2.vars = q.2.vars ∧
      p.2.factor.Near u k q.2.factor) ns ns₀) (p : List Name → Bool) :
    ORel (fun p q : Name × JNode => p.2.vars = q.2.vars ∧ p.2.factor.Near u k q.2.factor)
      (ns.find? fun q => p q.2.vars) (ns₀.find? fun q => p q.2.vars) := by
  induction h with
  | nil => exact trivial
  | @cons a b as bs h _ ih =>
    rw [List.find?_cons, List.find?_cons, h.2.1]
    cases p b.2.vars
    · exact ih
    · exact h.2

theorem near_query (so : SetOrder) (vs : List Name) (t₀ : JTree) (k : Nat) :
    ∃ m, ∀ u A, Arith.Accurate A u → ∀ t : JTree, t.Near u k t₀ →
      RelE (Factor.Near u m) (t.queryR A so vs) (t₀.query so vs) := by
  unfold queryR query
  cases h : t₀.nodes.find? fun p => sub vs p.2.vars with
  | none =>
    refine ⟨0, fun u A hA t ht => ?_⟩
    have := near_find ht.nodes fun c => sub vs c
    rw [h] at this
    cases h' : t.nodes.find? fun p => sub vs p.2.vars with
    | none => exact rfl
    | some p => rw [h'] at this; exact this.elim
  | some q =>
    cases hm : q.2.factor.marginalize (so.diff q.2.vars vs) with
    | error e =>
      refine ⟨0, fun u A hA t ht => ?_⟩
      have := near_find ht.nodes fun c => sub vs c
      rw [h] at this
      cases h' : t.nodes.find? fun p => sub vs p.2.vars with
      | none => rw [h'] at this; exact this.elim
      | some p =>
        rw [h'] at this
        obtain ⟨h1, h2⟩ := this
        simp only [hm, h1]
        have := Factor.near_marginalize hA (so.diff q.2.vars vs) h2
        rw [hm] at this
        rw [this.error_iff.2 rfl]
        exact rfl
    | ok g =>
      refine ⟨(k + q.2.factor.margCount (so.diff q.2.vars vs)) +
        ((k + q.2.factor.margCount (so.diff q.2.vars vs)) + (g.potentials.data.length - 1)) + 1,
        fun u A hA t ht => ?_⟩
      · have := near_find ht.nodes fun c => sub vs c
        rw [h] at this
        cases h' : t.nodes.find? fun p => sub vs p.2.vars with
        | none => rw [h'] at this; exact this.elim
        | some p =>
          rw [h'] at this
          obtain ⟨h1, h2⟩ := this
          simp only [hm, h1]
          have := Factor.near_marginalize hA (so.diff q.2.vars vs) h2
          rw [hm] at this
          obtain ⟨f, hf, hfg⟩ := this.ok_right rfl
          rw [hf]
          exact Factor.near_normalize hA hfg

/-- the same result or exception, and the trees are within `m` roundings -/
def TracksQ {α : Type} (R : ℚ → Nat → α → α → Prop) (F : Arith → JTree → JTree × Except PyErr α)
    (G : JTree → JTree × Except PyErr α) : Prop :=
  ∀ t₀ k, ∃ m, ∀ u A, Arith.Accurate A u → ∀ t, t.Near u k t₀ →
    (F A t).1.Near u m (G t₀).1 ∧ RelE (R u m) (F A t).2 (G t₀).2

theorem tracks_marginals (so : SetOrder) (limit : Nat) (vs : List Name) :
    TracksQ Factor.Near (fun A => marginalsR A so limit vs) (marginals so limit vs) := by
  intro t₀ k
  have h1 : Tracks (fun A t => if t₀.valid then (t, none) else calculateR A so limit t)
      (fun t => if t₀.valid then (t, none) else calculate so limit t) :=
    Tracks.ite (p := t₀.valid = true) (F' := fun A => calculateR A so limit) (fun _ => Tracks.skip)
      (fun _ => tracks_calculate so limit)
  obtain ⟨m, hm⟩ := h1 t₀ k
  obtain ⟨m', hm'⟩ := near_query so vs (if t₀.valid then (t₀, none) else calculate so limit t₀).1 m
  refine ⟨m + m', fun u A hA t ht => ?_⟩
  have h := hm u A hA t ht
  simp only at h ⊢
  unfold marginalsR marginals
  rw [ht.valid]
  generalize (if t₀.valid then (t, none) else calculateR A so limit t : JRes) = r at h
  generalize (if t₀.valid then (t₀, none) else calculate so limit t₀ : JRes) = r₀ at h hm'
  obtain ⟨a, o⟩ := r
  obtain ⟨b, o'⟩ := r₀
  obtain ⟨h2, h3⟩ := h
  simp only at h2 h3
  subst h2
  cases o with
  | none => exact ⟨h3.mono hA.nonneg hA.lt_one (by omega), (hm' u A hA a h3).mono fun _ _ h =>
      h.mono hA.nonneg hA.lt_one (by omega)⟩
  | some e => exact ⟨h3.mono hA.nonneg hA.lt_one (by omega), rfl⟩

/-- dictionaries of arrays -/
def DNear (u : ℚ) (k : Nat) (d d₀ : Dict NDArray) : Prop :=
  List.Forall₂ (fun p q : Name × NDArray => p.1 = q.1 ∧ p.2.Near u k q.2) d d₀

theorem DNear.get? {u : ℚ} {k : Nat} {d d₀ : Dict NDArray} (h : DNear u k d d₀) (v : Name) :
    ORel (NDArray.Near u k) (d.get? v) (d₀.get? v) := by
  induction h with
  | nil => exact trivial
  | @cons p q ps qs h _ ih =>
    obtain ⟨p1, p2⟩ := p
    obtain ⟨q1, q2⟩ := q
    obtain ⟨h1, h2⟩ := h
    simp only at h1 h2
    subst h1
    rw [Dict.get?, Dict.get?]
    split
    · exact h2
    · exact ih

theorem DNear.mono {u : ℚ} (h0 : 0 ≤ u) (hu : u < 1) {k m : Nat} {d d₀ : Dict NDArray}
    (h : DNear u k d d₀) (hkm : k ≤ m) : DNear u m d d₀ :=
  h.imp fun _ _ h => ⟨h.1, h.2.mono h0 hu hkm⟩

theorem tracks_oldMarginals (so : SetOrder) (limit : Nat) : ∀ es : List Name,
    TracksQ DNear (fun A => oldMarginalsR A so limit es) (oldMarginals so limit es)
  | [] => fun _ k => ⟨k, fun _ _ _ _ ht => ⟨ht, List.Forall₂.nil⟩⟩
  | e :: es => by
    intro t₀ k
    obtain ⟨m, hm⟩ := tracks_marginals so limit [e] t₀ k
    obtain ⟨m', hm'⟩ := tracks_oldMarginals so limit es (marginals so limit [e] t₀).1 m
    refine ⟨m + m', fun u A hA t ht => ?_⟩
    obtain ⟨h1, h2⟩ := hm u A hA t ht
    simp only at h1 h2 ⊢
    unfold oldMarginalsR oldMarginals
    generalize marginalsR A so limit [e] t = r at h1 h2
    generalize marginals so limit [e] t₀ = r₀ at h1 h2 hm'
    obtain ⟨a, x⟩ := r
    obtain ⟨b, y⟩ := r₀
    cases x with
    | error x =>
      cases y with
      | ok y => exact h2.elim
      | error y =>
        cases (show x = y from h2)
        exact ⟨h1.mono hA.nonneg hA.lt_one (by omega), rfl⟩
    | ok x =>
      cases y with
      | error y => exact h2.elim
      | ok y =>
        obtain ⟨h3, h4⟩ := hm' u A hA a h1
        simp only at h3 h4 ⊢
        generalize oldMarginalsR A so limit es a = r at h3 h4
        generalize oldMarginals so limit es b = r₀ at h3 h4
        obtain ⟨a, z⟩ := r
        obtain ⟨b, w⟩ := r₀
        cases z with
        | error z =>
          cases w with
          | ok w => exact h4.elim
          | error w =>
            cases (show z = w from h4)
            exact ⟨h3.mono hA.nonneg hA.lt_one (by omega), rfl⟩
        | ok z =>
          cases w with
          | error w => exact h4.elim
          | ok w =>
            have h4 : DNear u m' z w := h4
            have h2 : x.Near u m y := h2
            exact ⟨h3.mono hA.nonneg hA.lt_one (by omega), List.Forall₂.cons
              ⟨rfl, h2.table.mono hA.nonneg hA.lt_one (by omega)⟩
              (h4.mono hA.nonneg hA.lt_one (by omega))⟩

theorem near_asEvidence {A : Arith} {u : ℚ} (hA : A.Accurate u) {k : Nat} (v : Name) (vals : List Val)
    {e : Evidence} (hs : ∀ l, e = .soft l → ∀ x ∈ l, 0 ≤ x) {o o₀ : Option NDArray}
    (ho : ORel (NDArray.Near u k) o o₀) :
    RelE (Factor.Near u (2 * k + 3)) (Factor.asEvidenceR A v vals e o) (Factor.asEvidence v vals e o₀) := by
  have h0 : ∀ {f : Factor}, (∀ x ∈ f.potentials.data, 0 ≤ x) → f.Near u (2 * k + 3) f := fun h =>
    (Factor.Near.rfl' h).mono hA.nonneg hA.lt_one (Nat.zero_le _)
  cases e with
  | hard x =>
    unfold Factor.asEvidenceR Factor.asEvidence
    simp only
    split
    · refine h0 fun y hy => ?_
      obtain ⟨i, _, rfl⟩ := List.mem_map.1 hy
      split <;> norm_num
    · exact rfl
  | soft l =>
    have hl := hs l rfl
    have hget : ∀ i, 0 ≤ l.getD i 0 := by
      intro i
      rw [List.getD_eq_getElem?_getD]
      cases h : l[i]? with
      | none => exact le_refl _
      | some x => exact hl x (List.mem_of_getElem? h)
    unfold Factor.asEvidenceR Factor.asEvidence
    simp only
    split
    · exact rfl
    · cases o with
      | none =>
        cases o₀ with
        | none => exact h0 hl
        | some b => exact ho.elim
      | some a =>
        cases o₀ with
        | none => exact ho.elim
        | some b =>
          have ho : a.Near u k b := ho
          refine RelE.bind_same fun ref _ => ?_
          have hlist : ∀ is : List Nat, RelE (List.Forall₂ (Primo.Near u (2 * k + 3)))
              (is.mapM fun i =>
                if i = ref then .ok 1
                else if a.shape.headD 0 ≤ i then .error PyErr.indexError
                else if a.get [i] = 0 then .ok 0
                else if a.shape.headD 0 ≤ ref then .error PyErr.indexError
                else if l.getD ref 0 = 0 then .error PyErr.nonFinite
                else .ok (A.div (A.mul (A.div (l.getD i 0) (a.get [i])) (a.get [ref])) (l.getD ref 0)))
              (is.mapM fun i =>
                if i = ref then .ok 1
                else if b.shape.headD 0 ≤ i then .error PyErr.indexError
                else if b.get [i] = 0 then .ok 0
                else if b.shape.headD 0 ≤ ref then .error PyErr.indexError
                else if l.getD ref 0 = 0 then .error PyErr.nonFinite
                else .ok (l.getD i 0 / b.get [i] * b.get [ref] / l.getD ref 0)) := by
            intro is
            induction is with
            | nil => exact List.Forall₂.nil
            | cons i is ih =>
              rw [List.mapM_cons, List.mapM_cons]
              refine RelE.bind (R := Primo.Near u (2 * k + 3)) ?_ fun x y hxy => ih.bind fun xs ys h =>
                RelE.pure (List.Forall₂.cons hxy h)
              rw [ho.shape]
              have hi := ho.get [i]
              have hr := ho.get [ref]
              have n1 : ∀ {x : ℚ}, 0 ≤ x → Primo.Near u (2 * k + 3) x x := fun h =>
                (Primo.Near.rfl' h).mono hA.nonneg hA.lt_one (Nat.zero_le _)
              by_cases c1 : i = ref
              · rw [if_pos c1, if_pos c1]; exact n1 (by norm_num)
              rw [if_neg c1, if_neg c1]
              by_cases c2 : b.shape.headD 0 ≤ i
              · rw [if_pos c2, if_pos c2]; exact rfl
              rw [if_neg c2, if_neg c2]
              by_cases c3 : b.get [i] = 0
              · rw [if_pos c3, if_pos ((hi.zero_iff hA.lt_one).2 c3)]; exact n1 (le_refl _)
              have c3' : a.get [i] ≠ 0 := fun h => c3 ((hi.zero_iff hA.lt_one).1 h)
              rw [if_neg c3, if_neg c3']
              by_cases c4 : b.shape.headD 0 ≤ ref
              · rw [if_pos c4, if_pos c4]; exact rfl
              rw [if_neg c4, if_neg c4]
              by_cases c5 : l.getD ref 0 = 0
              · rw [if_pos c5, if_pos c5]; exact rfl
              rw [if_neg c5, if_neg c5]
              have := hA.near_div (hA.near_mul (hA.near_div (Primo.Near.rfl' (hget i)) hi c3') hr)
                (Primo.Near.rfl' (hget ref)) c5
              exact this.mono hA.nonneg hA.lt_one (by omega)
          refine (hlist _).bind fun xs ys h => RelE.pure ⟨rfl, rfl, ?_, h⟩
          exact congrArg (fun n => [n]) h.length_eq

theorem tracks_putEvidence (so : SetOrder) (bn : BN) {e : Name × Evidence}
    (he : ∀ l, e.2 = .soft l → ∀ x ∈ l, 0 ≤ x) (t₀ : JTree) (k j : Nat) :
    ∃ m, ∀ u A, Arith.Accurate A u → ∀ old old₀, DNear u j old old₀ → ∀ t, t.Near u k t₀ →
      (putEvidenceR A so bn old e t).Near u m (putEvidence so bn old₀ e t₀) := by
  refine ⟨k + (2 * j + 3) + 1, fun u A hA old old₀ hold t ht => ?_⟩
  refine JRes.near_ofExcept hA (by omega) ht ?_
  refine RelE.bind_same fun n _ => ?_
  refine (near_asEvidence hA e.1 n.values he (hold.get? e.1)).bind fun f g hfg => ?_
  exact (near_putFirst hA so _ hfg ht.nodes).bind fun ns ns₀ h => RelE.pure ⟨h, ht.adj,
    ht.edges.imp fun _ _ h => ⟨h.1, h.2.1, h.2.2.1, h.2.2.2.mono hA.nonneg hA.lt_one (by omega)⟩, ht.valid⟩

theorem tracks_evidence (so : SetOrder) (bn : BN) : ∀ {ev : Dict Evidence}, NonNegEvidence ev →
    ∀ (t₀ : JTree) (k j : Nat) (old₀ : Dict NDArray),
    ∃ m, ∀ u A, Arith.Accurate A u → ∀ old, DNear u j old old₀ → ∀ t, t.Near u k t₀ →
      (forEach (putEvidenceR A so bn old) ev t).Near u m (forEach (putEvidence so bn old₀) ev t₀)
  | [], _ => fun _ k _ _ => ⟨k, fun _ _ _ _ _ _ ht => ⟨rfl, ht⟩⟩
  | e :: ev, h => by
    intro t₀ k j old₀
    obtain ⟨m, hm⟩ := tracks_putEvidence so bn (e := e) (by
      intro l hl
      exact h e.1 l (by rw [← hl]; simp)) t₀ k j
    obtain ⟨m', hm'⟩ := tracks_evidence so bn (ev := ev) (fun v l hl => h v l (by simp [hl]))
      (putEvidence so bn old₀ e t₀).1 m j old₀
    refine ⟨m + m', fun u A hA old hold t ht => ?_⟩
    obtain ⟨h1, h2⟩ := hm u A hA old old₀ hold t ht
    unfold forEach andThen
    rw [h1]
    cases hx : (putEvidence so bn old₀ e t₀).2 with
    | none =>
      obtain ⟨h3, h4⟩ := hm' u A hA old hold _ h2
      exact ⟨h3, h4.mono hA.nonneg hA.lt_one (by omega)⟩
    | some x => exact ⟨h1, h2.mono hA.nonneg hA.lt_one (by omega)⟩

theorem tracks_setEvidence (so : SetOrder) (limit : Nat) {bn : BN} (hp : bn.NonNeg) {ev : Dict Evidence}
    (hpe : NonNegEvidence ev) (soft : Bool) :
    Tracks (fun A => setEvidenceR A so limit bn ev soft) (setEvidence so limit bn ev soft) := by
  have hev : ∀ old₀ j, ∀ t₀ k, ∃ m, ∀ u A, Arith.Accurate A u → ∀ old, DNear u j old old₀ →
      ∀ t, t.Near u k t₀ →
      ((forEach (putEvidenceR A so bn old) ev t).andThen (calculateR A so limit)).Near u m
        ((forEach (putEvidence so bn old₀) ev t₀).andThen (calculate so limit)) := by
    intro old₀ j t₀ k
    obtain ⟨m, hm⟩ := tracks_evidence so bn hpe t₀ k j old₀
    obtain ⟨m', hm'⟩ := tracks_calculate so limit (forEach (putEvidence so bn old₀) ev t₀).1 m
    refine ⟨m + m', fun u A hA old hold t ht => ?_⟩
    obtain ⟨h1, h2⟩ := hm u A hA old hold t ht
    unfold andThen
    rw [h1]
    cases hx : (forEach (putEvidence so bn old₀) ev t₀).2 with
    | none =>
      obtain ⟨h3, h4⟩ := hm' u A hA _ h2
      exact ⟨h3, h4.mono hA.nonneg hA.lt_one (by omega)⟩
    | some x => exact ⟨h1, h2.mono hA.nonneg hA.lt_one (by omega)⟩
  unfold setEvidenceR setEvidence
  refine (tracks_reset so hp).andThen ?_
  cases soft with
  | false =>
    simp only [Bool.false_eq_true, if_false]
    intro t₀ k
    obtain ⟨m, hm⟩ := hev [] 0 t₀ k
    exact ⟨m, fun u A hA t ht => hm u A hA [] List.Forall₂.nil t ht⟩
  | true =>
    simp only [if_true]
    refine (tracks_calculate so limit).andThen ?_
    intro t₀ k
    obtain ⟨m, hm⟩ := tracks_oldMarginals so limit ev.keys t₀ k
    obtain ⟨m₁, hm₁⟩ := tracks_reset so hp (oldMarginals so limit ev.keys t₀).1 m
    cases hx : (oldMarginals so limit ev.keys t₀).2 with
    | error x =>
      refine ⟨m, fun u A hA t ht => ?_⟩
      obtain ⟨h1, h2⟩ := hm u A hA t ht
      simp only at h1 h2 ⊢
      rw [hx] at h2
      have h3 := h2.error_iff.2 rfl
      generalize oldMarginals so limit ev.keys t₀ = r₀ at h1 hx
      generalize oldMarginalsR A so limit ev.keys t = r at h1 h3
      obtain ⟨a, _⟩ := r₀
      obtain ⟨b, _⟩ := r
      simp only at hx h3
      subst hx h3
      exact ⟨rfl, h1⟩
    | ok old₀ =>
      obtain ⟨m₂, hm₂⟩ := hev old₀ m (reset so bn (oldMarginals so limit ev.keys t₀).1).1 m₁
      refine ⟨m₁ + m₂, fun u A hA t ht => ?_⟩
      obtain ⟨h1, h2⟩ := hm u A hA t ht
      simp only at h1 h2 ⊢
      obtain ⟨old, h3, hold⟩ := h2.ok_right hx
      clear h2
      generalize oldMarginals so limit ev.keys t₀ = r₀ at h1 hx hm₁ hm₂
      generalize oldMarginalsR A so limit ev.keys t = r at h1 h3
      obtain ⟨a, _⟩ := r₀
      obtain ⟨b, _⟩ := r
      simp only at hx h3 h1 hm₁ hm₂
      subst hx h3
      obtain ⟨h4, h5⟩ := hm₁ u A hA b h1
      simp only
      unfold andThen
      rw [h4]
      cases hy : (reset so bn a).2 with
      | none =>
        obtain ⟨h6, h7⟩ := hm₂ u A hA old hold _ h5
        exact ⟨h6, h7.mono hA.nonneg hA.lt_one (by omega)⟩
      | some x => exact ⟨h4, h5.mono hA.nonneg hA.lt_one (by omega)⟩

theorem near_build (u : ℚ) : ∀ cs : List (List Name), (build cs).Near u 0 (build cs)
  | [] => ⟨.nil, rfl, .nil, rfl⟩
  | c :: cs => by
    have h1 : (Factor.trivial 1).Near u 0 (Factor.trivial 1) := Factor.Near.rfl' (by decide)
    have hn := near_build u cs
    have ha : (addNode c (build cs)).Near u 0 (addNode c (build cs)) :=
      ⟨near_set hn.nodes _ ⟨rfl, h1⟩, rfl, hn.edges, rfl⟩
    unfold build
    simp only
    split
    · refine ⟨ha.nodes, rfl, ?_, rfl⟩
      unfold addEdge
      simp only
      split
      · have := ha.edges
        generalize (addNode c (build cs)).edges = es at this
        rw [List.forall₂_map_left_iff, List.forall₂_map_right_iff]
        refine this.imp fun a b h => ?_
        have hj : ∀ x y, a.joins x y = b.joins x y := fun x y => by
          unfold JEdge.joins; rw [h.1, h.2.1]
        rw [hj]
        split
        · exact ⟨h.1, h.2.1, rfl, h1⟩
        · exact h
      · have : ∀ {es es' : List JEdge}, List.Forall₂ (fun e f : JEdge => e.u = f.u ∧ e.w = f.w ∧
            e.sep = f.sep ∧ e.factor.Near u 0 f.factor) es es' → ∀ x : JEdge,
            x.factor.Near u 0 x.factor → List.Forall₂ (fun e f : JEdge => e.u = f.u ∧ e.w = f.w ∧
            e.sep = f.sep ∧ e.factor.Near u 0 f.factor) (es ++ [x]) (es' ++ [x]) := by
          intro es es' h x hx
          induction h with
          | nil => exact .cons ⟨rfl, rfl, rfl, hx⟩ .nil
          | cons h _ ih => exact .cons h ih
        exact this ha.edges _ h1
    · exact ha

theorem near_create (so : SetOrder) {bn : BN} (hp : bn.NonNeg) (order : Option (List Name)) :
    ∃ m, ∀ u A, Arith.Accurate A u → RelE (JTree.Near u m) (createR A so bn order) (create so bn order) := by
  unfold createR create
  cases h1 : VE.chooseOrder bn order with
  | error e => exact ⟨0, fun _ _ _ => rfl⟩
  | ok o =>
    cases h2 : bn.mapM Factor.fromNode with
    | error e => exact ⟨0, fun _ _ _ => rfl⟩
    | ok fs =>
      cases h3 : clusters o (moralGraph bn) with
      | error e => exact ⟨0, fun _ _ _ => by simp only [ok_bind, h3]; exact rfl⟩
      | ok cls =>
        cases h4 : (swaps cls).foldlM applySwap cls with
        | error e => exact ⟨0, fun _ _ _ => by simp only [ok_bind, h3, h4]; exact rfl⟩
        | ok cls' =>
          obtain ⟨m, hm⟩ := Tracks.forEach (F := fun A => putFactorR A so) (G := putFactor so)
            (fun f hf => tracks_putFactor so (factors_nonneg hp h2 f hf)) (build cls') 0
          refine ⟨m, fun u A hA => ?_⟩
          have h := hm u A hA _ (near_build u cls')
          simp only [ok_bind, h3, h4] at h ⊢
          generalize forEach (putFactorR A so) fs (build cls') = r at h
          generalize forEach (putFactor so) fs (build cls') = r₀ at h
          obtain ⟨a, o⟩ := r
          obtain ⟨b, o'⟩ := r₀
          obtain ⟨h5, h6⟩ := h
          simp only at h5 h6
          subst h5
          cases o with
          | none => exact h6
          | some e => exact rfl

end JTree
end Primo
