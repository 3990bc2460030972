import Verif.Lemmas.HeapQuery

/-! # Inference on the memory: factor trees -/

namespace Primo

/-! ## cells that are not used by the tree -/

/-- a set of cells of the memory -/
structure Foot where
  fac : Nat → Prop
  list : Nat → Prop
  dict : Nat → Prop
  buf : Nat → Prop

namespace Heap

/-- these cells exist -/
structure Below (U : Foot) (h : Heap) : Prop where
  fac : ∀ x, U.fac x → x < h.facs.length
  list : ∀ x, U.list x → x < h.lists.length
  dict : ∀ x, U.dict x → x < h.dicts.length
  buf : ∀ x, U.buf x → x < h.bufs.length

theorem Below.mono {U : Foot} {h h' : Heap} (e : Ext h h') (b : Below U h) : Below U h' :=
  ⟨fun x hx => lt_of_lt_of_le (b.fac x hx) e.facs.length_le,
    fun x hx => lt_of_lt_of_le (b.list x hx) e.lists.length_le,
    fun x hx => lt_of_lt_of_le (b.dict x hx) e.dicts.length_le,
    fun x hx => lt_of_lt_of_le (b.buf x hx) e.bufs.length_le⟩

/-- the factor object `f` uses none of these cells -/
structure Clear (U : Foot) (h : Heap) (f : Nat) : Prop where
  fac : ¬ U.fac f
  list : ¬ U.list (h.fac f).order
  dict : ¬ U.dict (h.fac f).values
  buf : ∀ v, (h.fac f).pot = .arr v → ¬ U.buf v.buf

/-- the object `f` is the factor `F` and uses none of these cells -/
structure Kept (U : Foot) (h : Heap) (f : Nat) (F : Factor) : Prop where
  holds : h.Holds f F
  clear : Clear U h f

theorem Kept.mono {U : Foot} {h h' : Heap} (e : Ext h h') {f F} (k : Kept U h f F) : Kept U h' f F := by
  have hf := Mem.ext_fac e (Mem.holds_lt k.holds)
  obtain ⟨c1, c2, c3, c4⟩ := k.clear
  exact ⟨k.holds.mono e, ⟨c1, by rw [hf]; exact c2, by rw [hf]; exact c3, by rw [hf]; exact c4⟩⟩

theorem Fresh.kept {U : Foot} {h₀ h : Heap} (b : Below U h₀) {f F c} (m : Fresh h₀ h f F c) :
    Kept U h f F := by
  obtain ⟨p, o, hp, -⟩ := m.own
  obtain ⟨l, d, ho, hl, -, hd, -⟩ := o.ex
  have hfac : h.fac f = ⟨p, l, d⟩ := fac_of_some ho
  refine ⟨m.holds, ⟨fun hx => ?_, fun hx => ?_, fun hx => ?_, fun v hv hx => ?_⟩⟩
  · exact absurd (b.fac _ hx) (Nat.not_lt.2 o.le)
  · rw [hfac] at hx
    exact absurd (b.list _ hx) (Nat.not_lt.2 hl)
  · rw [hfac] at hx
    exact absurd (b.dict _ hx) (Nat.not_lt.2 hd)
  · rw [hfac] at hv
    exact absurd (b.buf _ hx) (Nat.not_lt.2 (hp.le v hv))

/-! ## trees in memory -/

/-- a tree node of the memory is this one -/
structure NodeIs (U : Foot) (h : Heap) (n : HNode) (m : JNode) : Prop where
  vars : n.vars = m.vars
  kept : Kept U h n.factor m.factor

/-- a tree edge of the memory is this one -/
structure EdgeIs (U : Foot) (h : Heap) (e : HEdge) (d : JEdge) : Prop where
  u : e.u = d.u
  w : e.w = d.w
  sep : e.sep = d.sep
  kept : Kept U h e.factor d.factor

theorem EdgeIs.joins {U : Foot} {h : Heap} {e d} (x : EdgeIs U h e d) (a b : Name) :
    e.joins a b = d.joins a b := by
  unfold HEdge.joins JEdge.joins
  rw [x.u, x.w]

/-- the tree of the memory is this tree, and uses none of the cells of `U` -/
structure TreeAt (U : Foot) (h : Heap) (T : HTree) (t : JTree) : Prop where
  nodes : DictRel (NodeIs U h) T.nodes t.nodes
  adj : T.adj = t.adj
  edges : List.Forall₂ (EdgeIs U h) T.edges t.edges
  valid : T.valid = t.valid

theorem NodeIs.mono {U : Foot} {h h' : Heap} (e : Ext h h') {n m} (x : NodeIs U h n m) :
    NodeIs U h' n m := ⟨x.vars, x.kept.mono e⟩

theorem EdgeIs.mono {U : Foot} {h h' : Heap} (e : Ext h h') {n m} (x : EdgeIs U h n m) :
    EdgeIs U h' n m := ⟨x.u, x.w, x.sep, x.kept.mono e⟩

theorem TreeAt.mono {U : Foot} {h h' : Heap} (e : Ext h h') {T t} (x : TreeAt U h T t) :
    TreeAt U h' T t :=
  ⟨x.nodes.imp fun _ _ y => y.mono e, x.adj, x.edges.imp fun _ _ y => y.mono e, x.valid⟩

/-- memory, tree and exception after a call are as those of the value computation -/
structure TRun (U : Foot) (h : Heap) (r : HRes) (q : JRes) : Prop where
  ext : Ext h r.1
  tree : TreeAt U r.1 r.2.1 q.1
  exc : r.2.2 = q.2

namespace TRun
variable {U : Foot} {h : Heap}

theorem base {h₀ : Heap} (e : Ext h₀ h) {r q} (y : TRun U h r q) : TRun U h₀ r q :=
  ⟨e.trans y.ext, y.tree, y.exc⟩

theorem done {T t} (x : TreeAt U h T t) {o : Option PyErr} : TRun U h (h, T, o) (t, o) :=
  ⟨Ext.refl h, x, rfl⟩

theorem andThen {r q} (y : TRun U h r q) {f : HTree → Heap → HRes} {g : JTree → JRes}
    (H : ∀ h' T t, Ext h h' → TreeAt U h' T t → TRun U h' (f T h') (g t)) :
    TRun U h (r.andThen f) (q.andThen g) := by
  unfold HRes.andThen JRes.andThen
  rw [y.exc]
  cases hq : q.2 with
  | none => exact (H _ _ _ y.ext y.tree).base y.ext
  | some _ => exact y

theorem forEach {α β : Type} {A : Heap → α → β → Prop} (hA : ∀ h h' a b, Ext h h' → A h a b → A h' a b)
    {f : α → HTree → Heap → HRes} {g : β → JTree → JRes}
    (H : ∀ h' T t a b, Ext h h' → A h' a b → TreeAt U h' T t → TRun U h' (f a T h') (g b t)) :
    ∀ {l : List α} {l' : List β} (_ : List.Forall₂ (A h) l l') {h₁ : Heap} (_ : Ext h h₁) {T t}
      (_ : TreeAt U h₁ T t), TRun U h₁ (HRes.forEach f l T h₁) (JRes.forEach g l' t)
  | [], [], .nil, h₁, _, _, _, x => done x
  | a :: l, b :: l', .cons h1 h2, h₁, e, T, t, x => by
    unfold HRes.forEach JRes.forEach
    refine (H h₁ T t a b e (hA _ _ _ _ e h1) x).andThen fun h' T' t' e' x' => ?_
    exact forEach hA H h2 (e.trans e') x'

/-- a loop over names -/
theorem forNames {f : Name → HTree → Heap → HRes} {g : Name → JTree → JRes}
    (H : ∀ h' T t a, Ext h h' → TreeAt U h' T t → TRun U h' (f a T h') (g a t)) (l : List Name)
    {T t} (x : TreeAt U h T t) : TRun U h (HRes.forEach f l T h) (JRes.forEach g l t) := by
  refine forEach (A := fun _ a b => a = b) (fun _ _ _ _ _ e => e) ?_ ?_ (Ext.refl h) x
  · rintro h' T t a _ e rfl x
    exact H h' T t a e x
  · exact List.forall₂_same.2 fun _ _ => rfl

theorem ofHM {T t} (x : TreeAt U h T t) {m : HM HTree} {y : Except PyErr JTree}
    (r : Run h (TreeAt U) (m h) y) : TRun U h (HRes.ofHM T m h) (JRes.ofExcept t y) := by
  unfold HRes.ofHM JRes.ofExcept
  cases y with
  | error e =>
    obtain ⟨h', hr, he⟩ := r
    rw [hr]
    exact ⟨he, x.mono he, rfl⟩
  | ok t' =>
    obtain ⟨h', T', hr, he, hx⟩ := r
    rw [hr]
    exact ⟨he, hx, rfl⟩

end TRun

/-! ### factors of the tree -/

variable {U : Foot}

theorem keep_mul (so : SetOrder) {h : Heap} (b : Below U h) {f g : Nat} {F G : Factor}
    (hf : h.Holds f F) (hg : h.Holds g G) : Run h (Kept U) (mul so f g h) (F.mul so G) :=
  (run_mul so (Ext.refl h) hf hg).imp fun _ _ _ _ m => m.kept b

theorem keep_div (so : SetOrder) {h : Heap} (b : Below U h) {f g : Nat} {F G : Factor}
    (hf : h.Holds f F) (hg : h.Holds g G) : Run h (Kept U) (div so f g h) (F.div so G) :=
  (run_div so (Ext.refl h) hf hg).imp fun _ _ _ _ m => m.kept b

theorem keep_trivial {h : Heap} (b : Below U h) :
    Run h (Kept U) (trivial 1 h) (.ok (Factor.trivial 1)) :=
  (run_trivial (Ext.refl h)).imp fun _ _ _ _ m => m.kept b

theorem keep_marginalize {h : Heap} (b : Below U h) {f : Nat} {F : Factor} (hf : h.Holds f F)
    (vs : List Name) : Run h (Kept U) (marginalize f vs h) (F.marginalize vs) :=
  (yields_marginalize hf vs).run.imp fun _ _ _ _ m => m.kept b

/-! ### construction -/

theorem run_addNode {h : Heap} (b : Below U h) (c : List Name) {T t} (x : TreeAt U h T t) :
    Run h (TreeAt U) (addNode c T h) (.ok (JoinTree.addNode c t)) := by
  obtain ⟨h1, f, r1, e1, k1⟩ := keep_trivial b
  refine ⟨h1, _, by rw [addNode, HM.bind_ok r1]; rfl, e1, ?_⟩
  have x1 := x.mono e1
  refine ⟨x1.nodes.set _ ⟨rfl, k1⟩, ?_, x1.edges, x1.valid⟩
  unfold JoinTree.addNode
  dsimp only
  rw [x.adj]

theorem any_joins {h : Heap} {es ds} (x : List.Forall₂ (EdgeIs U h) es ds) (a b : Name) :
    (es.any fun e => e.joins a b) = ds.any fun e => e.joins a b := by
  induction x with
  | nil => rfl
  | cons h1 _ ih => rw [List.any_cons, List.any_cons, ih, h1.joins]

theorem run_addEdge {h : Heap} (b : Below U h) (u w : Name) (sep : List Name) {T t}
    (x : TreeAt U h T t) :
    Run h (TreeAt U) (addEdge u w sep T h) (.ok (JoinTree.addEdge u w sep t)) := by
  obtain ⟨h1, f, r1, e1, k1⟩ := keep_trivial b
  refine ⟨h1, _, by rw [addEdge, HM.bind_ok r1]; rfl, e1, ?_⟩
  have x1 := x.mono e1
  refine ⟨x1.nodes, ?_, ?_, x1.valid⟩
  · unfold JoinTree.addEdge
    dsimp only
    rw [x.adj]
  · unfold JoinTree.addEdge
    dsimp only
    rw [any_joins x1.edges]
    split
    · rw [List.forall₂_map_left_iff, List.forall₂_map_right_iff]
      refine x1.edges.imp fun e d y => ?_
      rw [y.joins]
      split
      · exact ⟨y.u, y.w, rfl, k1⟩
      · exact y
    · exact List.rel_append x1.edges (.cons ⟨rfl, rfl, rfl, k1⟩ .nil)

theorem run_build : ∀ (cls : List (List Name)) {h : Heap} (_ : Below U h),
    Run h (TreeAt U) (build cls h) (.ok (JoinTree.build cls))
  | [], h, _ => ⟨h, _, rfl, Ext.refl h, ⟨.nil, rfl, .nil, rfl⟩⟩
  | c :: cs, h, b => by
    obtain ⟨h1, T, r1, e1, x1⟩ := run_build cs b
    obtain ⟨h2, T2, r2, e2, x2⟩ := run_addNode (b.mono e1) c x1
    rw [build, HM.bind_ok r1, HM.bind_ok r2, JoinTree.build]
    cases cs.find? fun d => JoinTree.shared c cs ≠ [] && JoinTree.sub (JoinTree.shared c cs) d with
    | none => exact ⟨h2, T2, rfl, e1.trans e2, x2⟩
    | some d =>
      exact (run_addEdge (b.mono (e1.trans e2)) _ _ _ x2).base (e1.trans e2)

theorem run_putFirst (so : SetOrder) (p : List Name → Bool) {f : Nat} {F : Factor} :
    ∀ {ns : Dict HNode} {ms : Dict JNode} {h : Heap} (_ : Below U h) (_ : h.Holds f F)
      (_ : DictRel (NodeIs U h) ns ms),
      Run h (fun h => DictRel (NodeIs U h)) (putFirst so p f ns h) (JoinTree.putFirst so p F ms)
  | [], [], h, _, _, .nil => ⟨h, _, rfl, Ext.refl h, .nil⟩
  | (k, n) :: ns, (k', m) :: ms, h, b, hf, .cons h1 h2 => by
    obtain ⟨rfl, hn⟩ : k = k' ∧ NodeIs U h n m := h1
    rw [putFirst, JoinTree.putFirst, hn.vars]
    split
    · refine (keep_mul so b hn.kept.holds hf).bind fun h' g G e' k' => .ok ?_
      exact .cons ⟨rfl, rfl, k'⟩ (DictRel.imp h2 fun _ _ y => y.mono e')
    · refine (run_putFirst so p b hf h2).bind fun h' g G e' k' => .ok ?_
      exact .cons ⟨rfl, hn.mono e'⟩ k'

theorem run_putFactor (so : SetOrder) {h : Heap} (b : Below U h) {f : Nat} {F : Factor}
    (hf : h.Holds f F) {T t} (x : TreeAt U h T t) :
    TRun U h (putFactor so f T h) (JoinTree.putFactor so F t) := by
  unfold putFactor JoinTree.putFactor
  refine TRun.ofHM x ?_
  rw [HM.read_bind, hf.values]
  refine (run_putFirst so _ b hf x.nodes).bind fun h' ns ms e' y => .ok ?_
  exact ⟨y, x.adj, (x.mono e').edges, x.valid⟩

theorem run_putFactors (so : SetOrder) {h : Heap} (b : Below U h) {fs : List Nat} {Fs : List Factor}
    (hf : List.Forall₂ h.Holds fs Fs) {T t} (x : TreeAt U h T t) :
    TRun U h (HRes.forEach (putFactor so) fs T h) (JRes.forEach (JoinTree.putFactor so) Fs t) :=
  TRun.forEach (A := Holds) (fun _ _ _ _ e y => y.mono e)
    (fun _ _ _ _ _ e y z => run_putFactor so (b.mono e) y z) hf (Ext.refl h) x

theorem run_fromRandoms {net : MNet} {bn : BN} : ∀ {h : Heap} (_ : NetAt h net bn),
    Run h (fun h => List.Forall₂ h.Holds) (fromRandoms net h) (bn.mapM Factor.fromNode) := by
  induction net generalizing bn with
  | nil =>
    intro h hn
    cases hn
    exact ⟨h, _, rfl, Ext.refl h, .nil⟩
  | cons p net ih =>
    intro h hn
    cases hn with
    | cons h1 h2 =>
      rw [List.mapM_cons, fromRandoms]
      refine (run_fromRandom h1).bind fun h' f F e' hf => ?_
      refine (ih (NetAt.mono e' h2)).bind fun h'' fs Fs e'' hfs => .ok ?_
      exact .cons (hf.mono e'') hfs

theorem run_create (so : SetOrder) {h : Heap} (b : Below U h) {net bn} (hn : NetAt h net bn)
    (order : Option (List Name)) :
    Run h (TreeAt U) (createTree so net order h) (JoinTree.create so bn order) := by
  unfold createTree JoinTree.create
  rw [HM.read_bind, hn.snap]
  refine Run.lift _ fun o _ => ?_
  refine (run_fromRandoms hn).bind fun h1 fs Fs e1 hf => ?_
  refine Run.lift _ fun cls _ => ?_
  refine Run.lift _ fun cls' _ => ?_
  obtain ⟨h2, T, r2, e2, x2⟩ := run_build cls' (b.mono e1)
  refine Run.base (h := h2) e2 ?_
  refine Eq.mp (congrArg (fun r => Run h2 (TreeAt U) r _) (HM.bind_ok r2).symm) ?_
  have y := run_putFactors so (b.mono (e1.trans e2)) (hf.imp fun _ _ z => z.mono e2) x2
  generalize HRes.forEach (putFactor so) fs T h2 = r at *
  generalize JRes.forEach (JoinTree.putFactor so) Fs (JoinTree.build cls') = q at *
  obtain ⟨h3, T3, o3⟩ := r
  obtain ⟨t3, q3⟩ := q
  obtain ⟨y1, y2, y3⟩ := y
  dsimp only at y1 y2 y3
  subst y3
  cases o3 with
  | none => exact ⟨h3, T3, rfl, y1, y2⟩
  | some err => exact ⟨h3, rfl, y1⟩

/-! ### reset -/

theorem run_blankNodes : ∀ {ns : Dict HNode} {ms : Dict JNode} {h : Heap} (_ : Below U h)
    (_ : DictRel (NodeIs U h) ns ms), ∃ h' ns', blankNodes ns h = (h', .ok ns') ∧ Ext h h' ∧
      DictRel (NodeIs U h') ns' (ms.map fun p => (p.1, { p.2 with factor := Factor.trivial 1 }))
  | [], [], h, _, .nil => ⟨h, _, rfl, Ext.refl h, .nil⟩
  | (k, n) :: ns, (k', m) :: ms, h, b, .cons h1 h2 => by
    obtain ⟨rfl, hn⟩ : k = k' ∧ NodeIs U h n m := h1
    obtain ⟨h1, f, r1, e1, k1⟩ := keep_trivial b
    obtain ⟨h3, ns', r3, e3, x3⟩ := run_blankNodes (b.mono e1) (DictRel.imp h2 fun _ _ y => y.mono e1)
    refine ⟨h3, (k, { n with factor := f }) :: ns', ?_, e1.trans e3, ?_⟩
    · rw [blankNodes, HM.bind_ok r1, HM.bind_ok r3]
      rfl
    · exact .cons ⟨rfl, hn.vars, k1.mono e3⟩ x3

theorem run_blankEdges : ∀ {es : List HEdge} {ds : List JEdge} {h : Heap} (_ : Below U h)
    (_ : List.Forall₂ (EdgeIs U h) es ds), ∃ h' es', blankEdges es h = (h', .ok es') ∧ Ext h h' ∧
      List.Forall₂ (EdgeIs U h') es' (ds.map fun e => { e with factor := Factor.trivial 1 })
  | [], [], h, _, .nil => ⟨h, _, rfl, Ext.refl h, .nil⟩
  | e :: es, d :: ds, h, b, .cons h1 h2 => by
    obtain ⟨h3, f, r3, e3, k3⟩ := keep_trivial b
    obtain ⟨h4, es', r4, e4, x4⟩ := run_blankEdges (b.mono e3) (h2.imp fun _ _ y => y.mono e3)
    refine ⟨h4, { e with factor := f } :: es', ?_, e3.trans e4, ?_⟩
    · rw [blankEdges, HM.bind_ok r3, HM.bind_ok r4]
      rfl
    · exact .cons ⟨h1.u, h1.w, h1.sep, k3.mono e4⟩ x4

theorem run_reset (so : SetOrder) {h : Heap} (b : Below U h) {net bn} (hn : NetAt h net bn) {T t}
    (x : TreeAt U h T t) : TRun U h (reset so net T h) (JTree.reset so bn t) := by
  unfold reset JTree.reset
  have y := run_fromRandoms hn
  cases hf : bn.mapM Factor.fromNode with
  | error e =>
    rw [hf] at y
    obtain ⟨h', hr, he⟩ := y
    rw [hr]
    exact ⟨he, x.mono he, rfl⟩
  | ok Fs =>
    rw [hf] at y
    obtain ⟨h1, fs, hr, e1, hfs⟩ := y
    rw [hr]
    dsimp only
    have x1 := x.mono e1
    obtain ⟨h2, ns, r2, e2, x2⟩ := run_blankNodes (b.mono e1) x1.nodes
    obtain ⟨h3, es, r3, e3, x3⟩ := run_blankEdges (b.mono (e1.trans e2))
      (x1.edges.imp fun _ _ y => y.mono e2)
    have hblank : HRes.ofHM T (do
        let ns ← blankNodes T.nodes
        let es ← blankEdges T.edges
        pure { T with nodes := ns, edges := es }) h1 = (h3, { T with nodes := ns, edges := es }, none) := by
      unfold HRes.ofHM
      rw [HM.bind_ok r2, HM.bind_ok r3]
      rfl
    rw [hblank]
    have e13 := e1.trans (e2.trans e3)
    have x4 : TreeAt U h3 { T with nodes := ns, edges := es } t.blank :=
      ⟨x2.imp fun _ _ y => y.mono e3, x.adj, x3, x.valid⟩
    refine TRun.base e13 (TRun.andThen (r := (h3, { T with nodes := ns, edges := es }, none))
      (q := (t.blank, none)) (g := fun t => (JRes.forEach (JoinTree.putFactor so) Fs t).andThen
        fun t => ({ t with valid := false }, none)) (TRun.done x4) fun h3' T3 t3 e3' x4 => ?_)
    have e13 := e13.trans e3'
    refine (run_putFactors so (b.mono e13) (hfs.imp fun _ _ z => z.mono (e2.trans (e3.trans e3'))) x4).andThen
      fun h' T' t' e' y' => ?_
    exact ⟨Ext.refl _, ⟨y'.nodes, y'.adj, y'.edges, rfl⟩, rfl⟩

/-! ### messages -/

theorem run_treeEdge {h : Heap} {T t} (x : TreeAt U h T t) (a c : Name) :
    Run h (EdgeIs U) (HM.lift (treeEdge T a c) h) (t.edge a c) := by
  unfold treeEdge JTree.edge
  have := x.edges
  generalize T.edges = es at this
  generalize t.edges = ds at this
  induction this with
  | nil => exact ⟨h, rfl, Ext.refl h⟩
  | @cons e d _ _ h1 _ ih =>
    rw [List.find?_cons, List.find?_cons, h1.joins]
    cases hv : d.joins a c with
    | true => exact ⟨h, _, rfl, Ext.refl h, h1⟩
    | false => exact ih

theorem run_treeNode {h : Heap} {T t} (x : TreeAt U h T t) (a : Name) :
    Run h (NodeIs U) (HM.lift (T.nodes.getE a) h) (t.nodes.getE a) := by
  unfold Dict.getE
  have := x.nodes.get? a
  generalize T.nodes.get? a = y at this
  generalize t.nodes.get? a = z at this
  cases this with
  | none => exact ⟨h, rfl, Ext.refl h⟩
  | some hr => exact ⟨h, _, rfl, Ext.refl h, hr⟩

theorem run_send (so : SetOrder) {h : Heap} (b : Below U h) (a c : Name) {T t} (x : TreeAt U h T t) :
    TRun U h (send so a c T h) (JTree.send so a c t) := by
  unfold send JTree.send
  refine TRun.ofHM x ?_
  refine (run_treeNode x a).bind fun h1 n m e1 y1 => ?_
  refine (run_treeEdge (x.mono e1) a c).bind fun h2 e d e2 y2 => ?_
  have e12 := e1.trans e2
  rw [y1.vars, y2.sep]
  refine (keep_marginalize (b.mono e12) (y1.mono e2).kept.holds _).bind fun h3 new New e3 y3 => ?_
  have e13 := e12.trans e3
  refine (run_treeNode (x.mono e13) c).bind fun h4 n' m' e4 y4 => ?_
  have e14 := e13.trans e4
  refine (keep_div so (b.mono e14) (y3.mono e4).holds ((y2.mono e3).mono e4).kept.holds).bind
    fun h5 q Q e5 y5 => ?_
  refine (keep_mul so (b.mono (e14.trans e5)) (y4.mono e5).kept.holds y5.holds).bind
    fun h6 g G e6 y6 => .ok ?_
  have e16 := e14.trans (e5.trans e6)
  have x6 := x.mono e16
  refine ⟨x6.nodes.set c ⟨y4.vars, y6⟩, x6.adj, ?_, x6.valid⟩
  rw [List.forall₂_map_left_iff, List.forall₂_map_right_iff]
  refine x6.edges.imp fun e d y => ?_
  rw [y.joins]
  split
  · exact ⟨y.u, y.w, y.sep, y3.mono (e4.trans (e5.trans e6))⟩
  · exact y

theorem run_pull (so : SetOrder) : ∀ (d : Nat) (cur : Name) (parent : Option Name) {h : Heap}
    (_ : Below U h) {T t} (_ : TreeAt U h T t),
    TRun U h (pull so d cur parent T h) (JTree.pull so d cur parent t)
  | 0, _, _, h, _, _, _, x => TRun.done x
  | d + 1, cur, parent, h, b, T, t, x => by
    unfold pull JTree.pull
    rw [x.adj]
    refine (TRun.forNames (fun h' T' t' nb e' x' => ?_) _ x).andThen fun h' T' t' e' x' => ?_
    · split
      · exact TRun.done x'
      · exact run_pull so d nb (some cur) (b.mono e') x'
    · cases parent with
      | none => exact TRun.done x'
      | some p =>
        dsimp only
        split
        · exact TRun.done x'
        · exact run_send so (b.mono e') cur p x'

theorem run_push (so : SetOrder) : ∀ (d : Nat) (cur : Name) (parent : Option Name) {h : Heap}
    (_ : Below U h) {T t} (_ : TreeAt U h T t),
    TRun U h (push so d cur parent T h) (JTree.push so d cur parent t)
  | 0, _, _, h, _, _, _, x => TRun.done x
  | d + 1, cur, parent, h, b, T, t, x => by
    unfold push JTree.push
    rw [x.adj]
    refine TRun.forNames (fun h' T' t' nb e' x' => ?_) _ x
    split
    · exact TRun.done x'
    · refine (run_send so (b.mono e') cur nb x').andThen fun h'' T'' t'' e'' x'' => ?_
      exact run_push so d nb (some cur) (b.mono (e'.trans e'')) x''

theorem run_calculate (so : SetOrder) (limit : Nat) {h : Heap} (b : Below U h) {T t}
    (x : TreeAt U h T t) : TRun U h (calculate so limit T h) (JTree.calculate so limit t) := by
  unfold calculate JTree.calculate
  have hk := x.nodes
  cases hT : T.nodes with
  | nil =>
    rw [hT] at hk
    cases ht : t.nodes with
    | cons _ _ => rw [ht] at hk; cases hk
    | nil => exact TRun.done x
  | cons p ps =>
    rw [hT] at hk
    cases ht : t.nodes with
    | nil => rw [ht] at hk; cases hk
    | cons q qs =>
      rw [ht] at hk
      obtain ⟨root, n⟩ := p
      obtain ⟨root', m⟩ := q
      have hr : root = root' := by
        cases hk with
        | cons h1 _ => exact h1.1
      subst hr
      dsimp only
      have y := ((run_pull so limit root none b x).andThen fun h' T' t' e' x' =>
        run_push so limit root none (b.mono e') x').andThen
          (f := fun T h => (h, { T with valid := true }, none))
          (g := fun t => ({ t with valid := true }, none))
          fun h' T' t' e' x' => ⟨Ext.refl _, ⟨x'.nodes, x'.adj, x'.edges, rfl⟩, rfl⟩
      generalize ((pull so limit root none T h).andThen (push so limit root none)).andThen
        (fun T h => (h, { T with valid := true }, none)) = r at *
      generalize JRes.andThen ((JTree.pull so limit root none t).andThen
        (JTree.push so limit root none)) (fun t => ({ t with valid := true }, none)) = q at *
      obtain ⟨h3, T3, o3⟩ := r
      obtain ⟨t3, q3⟩ := q
      obtain ⟨y1, y2, y3⟩ := y
      dsimp only at y1 y2 y3
      subst y3
      cases o3 with
      | none => exact ⟨y1, y2, rfl⟩
      | some err => cases err <;> exact ⟨y1, y2, rfl⟩

/-! ### questions -/

/-- is the table of the answer a number -/
def treeKind (so : SetOrder) (vs : List Name) (t : JTree) (F : Factor) : Bool :=
  match t.nodes.find? fun p => JoinTree.sub vs p.2.vars with
  | some p => numIfSummed (so.diff p.2.vars vs) F
  | none => false

theorem find_node {h : Heap} (q : List Name → Bool) {ns ms} (x : DictRel (NodeIs U h) ns ms) :
    Option.Rel (fun p p' => p.1 = p'.1 ∧ NodeIs U h p.2 p'.2) (ns.find? fun p => q p.2.vars)
      (ms.find? fun p => q p.2.vars) := by
  induction x with
  | nil => exact .none
  | @cons a b _ _ h1 _ ih =>
    rw [List.find?_cons, List.find?_cons, h1.2.vars]
    cases q b.2.vars with
    | true => exact .some h1
    | false => exact ih

theorem run_treeQuery (so : SetOrder) (vs : List Name) {h : Heap} {T t} (x : TreeAt U h T t) :
    Yields h (treeKind so vs t) (treeQuery so vs T h) (JTree.query so vs t) := by
  unfold treeQuery JTree.query
  have hfd := find_node (JoinTree.sub vs) x.nodes
  have hk : ∀ F : Factor, treeKind so vs t F.normalize = treeKind so vs t F := by
    intro F
    unfold treeKind
    split
    · unfold numIfSummed
      rw [numIfBare_normalize]
    · rfl
  cases hT : T.nodes.find? fun p => JoinTree.sub vs p.2.vars with
  | none =>
    rw [hT] at hfd
    cases ht : t.nodes.find? fun p => JoinTree.sub vs p.2.vars with
    | some _ => rw [ht] at hfd; cases hfd
    | none => exact ⟨h, rfl, Ext.refl h⟩
  | some p =>
    rw [hT] at hfd
    cases ht : t.nodes.find? fun p => JoinTree.sub vs p.2.vars with
    | none => rw [ht] at hfd; cases hfd
    | some p' =>
      rw [ht] at hfd
      have hn : NodeIs U h p.2 p'.2 := by
        cases hfd with
        | some y => exact y.2
      dsimp only
      rw [hn.vars]
      refine (yields_marginalize hn.kept.holds _).run.bindYields (Ext.refl h) fun h' f F _ m => ?_
      refine run_finish (k := treeKind so vs t) ?_ (hk F)
      have : treeKind so vs t F = numIfSummed (so.diff p'.2.vars vs) F := by
        unfold treeKind
        rw [ht]
      rw [this]
      exact m

/-- memory, tree and answer after a call of `marginals` -/
structure MRun (U : Foot) (so : SetOrder) (vs : List Name) (h : Heap) (r : Heap × HTree × Except PyErr Nat)
    (q : JTree × Except PyErr Factor) : Prop where
  mid : ∃ h₁, Ext h h₁ ∧ TreeAt U h₁ r.2.1 q.1 ∧
    Yields h₁ (treeKind so vs q.1) (r.1, r.2.2) q.2

theorem run_treeMarginals (so : SetOrder) (limit : Nat) (vs : List Name) {h : Heap} (b : Below U h)
    {T t} (x : TreeAt U h T t) :
    MRun U so vs h (treeMarginals so limit vs T h) (JTree.marginals so limit vs t) := by
  unfold treeMarginals JTree.marginals
  have y : TRun U h (if T.valid then (h, T, none) else calculate so limit T h)
      (if t.valid then (t, none) else JTree.calculate so limit t) := by
    rw [x.valid]
    split
    · exact TRun.done x
    · exact run_calculate so limit b x
  generalize (if T.valid then (h, T, none) else calculate so limit T h) = r at y
  generalize (if t.valid then (t, none) else JTree.calculate so limit t) = q at y
  obtain ⟨h1, T1, o1⟩ := r
  obtain ⟨t1, q1⟩ := q
  obtain ⟨y1, y2, y3⟩ := y
  dsimp only at y1 y2 y3
  subst y3
  cases o1 with
  | none => exact ⟨h1, y1, y2, run_treeQuery so vs y2⟩
  | some e => exact ⟨h1, y1, y2, h1, rfl, Ext.refl _⟩

/-- the answers used for the evidence -/
theorem run_oldMarginals (so : SetOrder) (limit : Nat) : ∀ (es : List Name) {h : Heap} (_ : Below U h)
    {T t} (_ : TreeAt U h T t),
    Ext h (oldMarginals so limit es T h).1 ∧
    TreeAt U (oldMarginals so limit es T h).1 (oldMarginals so limit es T h).2.1
      (JTree.oldMarginals so limit es t).1 ∧
    match (JTree.oldMarginals so limit es t).2 with
    | .ok d' => ∃ d, (oldMarginals so limit es T h).2.2 = .ok d ∧
        DictRel (oldMarginals so limit es T h).1.PotAt d d'
    | .error e => (oldMarginals so limit es T h).2.2 = .error e
  | [], h, _, T, t, x => ⟨Ext.refl h, x, [], rfl, .nil⟩
  | e :: es, h, b, T, t, x => by
    obtain ⟨h1, e1, x1, y1⟩ := (run_treeMarginals so limit [e] b x).mid
    unfold oldMarginals JTree.oldMarginals
    generalize treeMarginals so limit [e] T h = r at *
    generalize JTree.marginals so limit [e] t = q at *
    obtain ⟨h2, T2, o2⟩ := r
    obtain ⟨t2, q2⟩ := q
    dsimp only at x1 y1
    cases q2 with
    | error x =>
      obtain ⟨h3, hr, e3⟩ := y1
      cases hr
      exact ⟨e1.trans e3, x1.mono e3, rfl⟩
    | ok F =>
      obtain ⟨h3, f, hr, m⟩ := y1
      cases hr
      have e2 := e1.trans m.ext
      obtain ⟨z1, z2, z3⟩ := run_oldMarginals so limit es (b.mono e2) (x1.mono m.ext)
      dsimp only
      generalize oldMarginals so limit es T2 h2 = r at *
      generalize JTree.oldMarginals so limit es t2 = q at *
      obtain ⟨h3, T3, o3⟩ := r
      obtain ⟨t3, q3⟩ := q
      dsimp only at z1 z2 z3
      cases q3 with
      | error x =>
        dsimp only at z3
        subst z3
        exact ⟨e2.trans z1, z2, rfl⟩
      | ok d' =>
        obtain ⟨d, rfl, hd⟩ := z3
        refine ⟨e2.trans z1, z2, _, rfl, .cons ⟨rfl, ?_⟩ hd⟩
        exact (m.holds.pot).mono z1

theorem run_putEvidence (so : SetOrder) {h : Heap} (b : Below U h) {net bn} (hn : NetAt h net bn)
    {old : Dict Pot} {old' : Dict NDArray} (ho : DictRel h.PotAt old old') {v : Name} {e ev}
    (he : EvAt h e ev) {T t} (x : TreeAt U h T t) :
    TRun U h (putEvidence so net old (v, e) T h) (JTree.putEvidence so bn old' (v, ev) t) := by
  unfold putEvidence JTree.putEvidence
  refine TRun.ofHM x ?_
  dsimp only
  refine (run_getNode hn v).bind fun h1 n m e1 y1 => ?_
  rw [show m.values = n.1.values by rw [y1.eq]]
  refine (run_asEvidence (he.mono e1) v n.1.values
    ((ho.imp fun _ _ z => z.mono e1).get? v)).bind fun h2 f F e2 y2 => ?_
  have e12 := e1.trans e2
  refine (run_putFirst so _ (b.mono e12) y2 (x.mono e12).nodes).bind fun h3 ns ms e3 y3 => .ok ?_
  exact ⟨y3, x.adj, (x.mono (e12.trans e3)).edges, x.valid⟩

theorem run_putEvidences (so : SetOrder) {h : Heap} (b : Below U h) {net bn} (hn : NetAt h net bn)
    {old : Dict Pot} {old' : Dict NDArray} (ho : DictRel h.PotAt old old') {ev ev'}
    (he : DictRel (EvAt h) ev ev') {T t} (x : TreeAt U h T t) :
    TRun U h (HRes.forEach (putEvidence so net old) ev T h)
      (JRes.forEach (JTree.putEvidence so bn old') ev' t) := by
  refine TRun.forEach (A := fun h (a : Name × (Val ⊕ Pot)) (b : Name × Evidence) =>
    a.1 = b.1 ∧ EvAt h a.2 b.2) (fun _ _ _ _ e y => ⟨y.1, y.2.mono e⟩) ?_ he (Ext.refl h) x
  rintro h' T t ⟨v, e⟩ ⟨v', ev⟩ e1 ⟨h1, h2⟩ x
  dsimp only at h1
  subst h1
  exact run_putEvidence so (b.mono e1) (hn.mono e1) (ho.imp fun _ _ z => z.mono e1) h2 x

theorem run_setEvidence (so : SetOrder) (limit : Nat) {h : Heap} (b : Below U h) {net bn}
    (hn : NetAt h net bn) {ev ev'} (he : DictRel (EvAt h) ev ev') (soft : Bool) {T t}
    (x : TreeAt U h T t) :
    TRun U h (setEvidence so limit net ev soft T h) (JTree.setEvidence so limit bn ev' soft t) := by
  unfold setEvidence JTree.setEvidence
  refine (run_reset so b hn x).andThen fun h1 T1 t1 e1 x1 => ?_
  have b1 := b.mono e1
  split
  · refine (run_calculate so limit b1 x1).andThen fun h2 T2 t2 e2 x2 => ?_
    have e12 := e1.trans e2
    obtain ⟨z1, z2, z3⟩ := run_oldMarginals so limit ev.keys (b.mono e12) x2
    rw [he.keys] at *
    generalize oldMarginals so limit ev'.keys T2 h2 = r at *
    generalize JTree.oldMarginals so limit ev'.keys t2 = q at *
    obtain ⟨h3, T3, o3⟩ := r
    obtain ⟨t3, q3⟩ := q
    dsimp only at z1 z2 z3
    cases q3 with
    | error x =>
      dsimp only at z3
      subst z3
      exact ⟨z1, z2, rfl⟩
    | ok old' =>
      obtain ⟨old, rfl, ho⟩ := z3
      have e13 := e12.trans z1
      refine TRun.base z1 ?_
      refine (run_reset so (b.mono e13) (hn.mono e13) z2).andThen fun h4 T4 t4 e4 x4 => ?_
      have e14 := e13.trans e4
      refine (run_putEvidences so (b.mono e14) (hn.mono e14) (ho.imp fun _ _ z => z.mono e4)
        (he.imp fun _ _ z => z.mono e14) x4).andThen fun h5 T5 t5 e5 x5 => ?_
      exact run_calculate so limit (b.mono (e14.trans e5)) x5
  · refine (run_putEvidences so b1 (hn.mono e1) (.nil) (he.imp fun _ _ z => z.mono e1)
      x1).andThen fun h5 T5 t5 e5 x5 => ?_
    exact run_calculate so limit (b1.mono e5) x5

/-! ### reading -/

theorem TreeAt.read {h : Heap} {T t} (x : TreeAt U h T t) : T.read h = t := by
  obtain ⟨ns, adj, es, valid⟩ := t
  obtain ⟨ns', adj', es', valid'⟩ := T
  obtain ⟨x1, x2, x3, x4⟩ := x
  dsimp only at x1 x2 x3 x4
  have h1 : (ns'.map fun p => (p.1, (⟨p.2.vars, h.factor p.2.factor⟩ : JNode))) = ns := by
    induction x1 with
    | nil => rfl
    | @cons a b _ _ h1 _ ih =>
      obtain ⟨k, n⟩ := a
      obtain ⟨k', m⟩ := b
      obtain ⟨rfl, hn⟩ : k = k' ∧ NodeIs U h n m := h1
      rw [List.map_cons, ih, hn.kept.holds.factor, hn.vars]
  have h2 : (es'.map fun e => (⟨e.u, e.w, e.sep, h.factor e.factor⟩ : JEdge)) = es := by
    induction x3 with
    | nil => rfl
    | @cons a b _ _ h1 _ ih => rw [List.map_cons, ih, h1.kept.holds.factor, h1.u, h1.w, h1.sep]
  unfold HTree.read
  dsimp only
  rw [h1, h2, x2, x4]

/-- a tree survives a change elsewhere in memory -/
theorem TreeAt.change {U' : Foot} {h h' : Heap} {T t} (x : TreeAt U h T t)
    (H : ∀ f F, Kept U h f F → Kept U' h' f F) : TreeAt U' h' T t :=
  ⟨x.nodes.imp fun _ _ y => ⟨y.vars, H _ _ y.kept⟩, x.adj,
    x.edges.imp fun _ _ y => ⟨y.u, y.w, y.sep, H _ _ y.kept⟩, x.valid⟩

end Heap
end Primo
