import Verif.HeapQuery
import Verif.Lemmas.HeapSim

/-! # Inference on the memory: variable elimination -/

namespace Primo

/-! ## relations between lists and dictionaries -/

/-- the same keys in the same order, related entries -/
def DictRel {α β : Type} (R : α → β → Prop) (d : Dict α) (d' : Dict β) : Prop :=
  List.Forall₂ (fun p q => p.1 = q.1 ∧ R p.2 q.2) d d'

namespace DictRel
variable {α β : Type} {R S : α → β → Prop} {d : Dict α} {d' : Dict β}

theorem keys (h : DictRel R d d') : d.keys = d'.keys := by
  induction h with
  | nil => rfl
  | cons h1 _ ih =>
    unfold Dict.keys at ih ⊢
    rw [List.map_cons, List.map_cons, h1.1, ih]

theorem get? (h : DictRel R d d') (k : Name) : Option.Rel R (d.get? k) (d'.get? k) := by
  induction h with
  | nil => exact .none
  | @cons p q l l' h1 _ ih =>
    obtain ⟨a, x⟩ := p
    obtain ⟨b, y⟩ := q
    obtain ⟨rfl, hr⟩ : a = b ∧ R x y := h1
    unfold Dict.get?
    split
    · exact .some hr
    · exact ih

theorem set (h : DictRel R d d') (k : Name) {x : α} {y : β} (hr : R x y) :
    DictRel R (d.set k x) (d'.set k y) := by
  induction h with
  | nil => exact .cons ⟨rfl, hr⟩ .nil
  | @cons p q l l' h1 h2 ih =>
    obtain ⟨a, x'⟩ := p
    obtain ⟨b, y'⟩ := q
    obtain ⟨rfl, hr'⟩ : a = b ∧ R x' y' := h1
    unfold Dict.set
    split
    · exact .cons ⟨rfl, hr⟩ h2
    · exact .cons ⟨rfl, hr'⟩ ih

theorem imp (h : DictRel R d d') (hi : ∀ x y, R x y → S x y) : DictRel S d d' :=
  List.Forall₂.imp (fun _ _ h => ⟨h.1, hi _ _ h.2⟩) h

end DictRel

namespace Heap

/-! ## runs -/

/-- The program, started in memory `h`, ended like the value computation: with the same exception, or
with a related result.  In both cases all cells of `h` are unchanged. -/
def Run (h : Heap) {α β : Type} (R : Heap → α → β → Prop) (r : Heap × Except PyErr α)
    (x : Except PyErr β) : Prop :=
  match x with
  | .ok b => ∃ h' a, r = (h', .ok a) ∧ Ext h h' ∧ R h' a b
  | .error e => ∃ h', r = (h', .error e) ∧ Ext h h'

namespace Run
variable {α β γ δ : Type} {h : Heap}

theorem ok {R : Heap → α → β → Prop} {a : α} {b : β} (hr : R h a b) :
    Run h R ((pure a : HM α) h) (pure b : Except PyErr β) := ⟨h, a, rfl, Ext.refl h, hr⟩

theorem err {R : Heap → α → β → Prop} (e : PyErr) :
    Run h R ((HM.throw e : HM α) h) (.error e : Except PyErr β) := ⟨h, rfl, Ext.refl h⟩

theorem bind {R : Heap → α → β → Prop} {S : Heap → γ → δ → Prop} {m : HM α} {x : Except PyErr β}
    {f : α → HM γ} {g : β → Except PyErr δ} (y : Run h R (m h) x)
    (H : ∀ h' a b, Ext h h' → R h' a b → Run h' S (f a h') (g b)) :
    Run h S ((m >>= f) h) (x >>= g) := by
  cases x with
  | error e =>
    obtain ⟨h', hr, he⟩ := y
    exact ⟨h', HM.bind_error hr, he⟩
  | ok b =>
    obtain ⟨h', a, hr, he, hR⟩ := y
    rw [HM.bind_ok hr, ok_bind]
    have := H h' a b he hR
    cases hg : g b with
    | error e =>
      rw [hg] at this
      obtain ⟨h2, h3, h4⟩ := this
      exact ⟨h2, h3, he.trans h4⟩
    | ok d =>
      rw [hg] at this
      obtain ⟨h2, a2, h3, h4, h5⟩ := this
      exact ⟨h2, a2, h3, he.trans h4, h5⟩

theorem imp {R S : Heap → α → β → Prop} {r x} (y : Run h R r x)
    (H : ∀ h' a b, Ext h h' → R h' a b → S h' a b) : Run h S r x := by
  cases x with
  | error e => exact y
  | ok b =>
    obtain ⟨h', a, hr, he, hR⟩ := y
    exact ⟨h', a, hr, he, H h' a b he hR⟩

theorem base {h₀ : Heap} (e : Ext h₀ h) {R : Heap → α → β → Prop} {r x} (y : Run h R r x) :
    Run h₀ R r x := by
  cases x with
  | error _ =>
    obtain ⟨h', hr, he⟩ := y
    exact ⟨h', hr, e.trans he⟩
  | ok b =>
    obtain ⟨h', a, hr, he, hR⟩ := y
    exact ⟨h', a, hr, e.trans he, hR⟩

/-- a pure step that is the same in both -/
theorem lift {S : Heap → γ → δ → Prop} (x : Except PyErr α) {f : α → HM γ} {g : α → Except PyErr δ}
    (H : ∀ a, x = .ok a → Run h S (f a h) (g a)) : Run h S ((HM.lift x >>= f) h) (x >>= g) := by
  cases x with
  | error e => exact ⟨h, rfl, Ext.refl h⟩
  | ok a => exact H a rfl

end Run

theorem Yields.run {h : Heap} {k r x} (y : Yields h k r x) :
    Run h (fun h' f F => Fresh h h' f F (k F)) r x := by
  cases x with
  | error e => exact y
  | ok F =>
    obtain ⟨h', f, hr, hf⟩ := y
    exact ⟨h', f, hr, hf.ext, hf⟩

/-- made since `h₀` by arithmetic -/
def Made (h₀ h : Heap) (f : Nat) (F : Factor) : Prop := Fresh h₀ h f F (numIfBare F)

theorem Made.mono {h₀ h h' : Heap} (e : Ext h h') {f F} (m : Made h₀ h f F) : Made h₀ h' f F :=
  Fresh.mono e m

theorem Made.holds {h₀ h : Heap} {f F} (m : Made h₀ h f F) : h.Holds f F := Fresh.holds m

theorem run_mul (so : SetOrder) {h₀ h : Heap} (e : Ext h₀ h) {a b : Nat} {A B : Factor}
    (ha : h.Holds a A) (hb : h.Holds b B) : Run h (Made h₀) (mul so a b h) (A.mul so B) :=
  (yields_binop (· * ·) so ha hb).run.imp fun _ _ _ _ q => q.base e

theorem run_div (so : SetOrder) {h₀ h : Heap} (e : Ext h₀ h) {a b : Nat} {A B : Factor}
    (ha : h.Holds a A) (hb : h.Holds b B) : Run h (Made h₀) (div so a b h) (A.div so B) :=
  (yields_div so ha hb).run.imp fun _ _ _ _ q => q.base e

theorem run_trivial {h₀ h : Heap} (e : Ext h₀ h) :
    Run h (Made h₀) (trivial 1 h) (.ok (Factor.trivial 1)) :=
  (yields_trivial 1 h).run.imp fun _ _ _ _ q => q.base e

theorem run_sumOne {h₀ h : Heap} (e : Ext h₀ h) {a : Nat} {A : Factor} (ha : h.Holds a A) (v : Name) :
    Run h (Made h₀) (marginalize a [v] h) (A.marginalize [v]) :=
  (yields_marginalize ha [v]).run.imp fun _ _ _ _ q => q.base e

/-- the assignment in `normalize` -/
def normBy (f : Nat) (x : ℚ) : Pot → HM Unit
  | .num y => setPot f (.num (y / x))
  | .arr v => updateView v fun y => y / x

/-- `normalize` on a factor of our own -/
theorem run_normalize {h₀ h : Heap} {f : Nat} {F : Factor} {b : Bool} (m : Fresh h₀ h f F b) :
    ∃ h', (normalize f >>= fun _ => pure f : HM Nat) h = (h', .ok f) ∧ Ext h₀ h' ∧
      Fresh h₀ h' f F.normalize b := by
  obtain ⟨p, o, n, k⟩ := m.own
  have hpot := n.at_.pot
  have hrun : normalize f h = (if F.potentials.sumAll > 0 then normBy f F.potentials.sumAll p
      else pure () : HM Unit) h := by
    rw [normalize, HM.read_bind, HM.read_bind, o.obj.pot, hpot]
    cases p <;> rfl
  by_cases hp : F.potentials.sumAll > 0
  · have hn : F.normalize =
        { F with potentials := F.potentials.map fun x => x / F.potentials.sumAll } := by
      unfold Factor.normalize
      exact if_pos hp
    rw [if_pos hp] at hrun
    rw [hn]
    cases p with
    | num x =>
      have hx : F.potentials = NDArray.scalar x := n.at_
      obtain ⟨h1, r1, o1, b1⟩ := own_setPot o (.num (x / F.potentials.sumAll))
      refine ⟨h1, by rw [HM.bind_ok (hrun.trans r1)]; rfl, o1.ext,
        ⟨⟨_, o1, ⟨?_, fun v hv => nomatch hv⟩, k⟩, m.ndim⟩⟩
      change F.potentials.map _ = _
      rw [hx]
      rfl
    | arr v =>
      have hc : h.Contig v F.potentials := n.at_
      have hle := n.le v rfl
      obtain ⟨h1, r1, t1, c1⟩ := run_updateView hc fun x => x / F.potentials.sumAll
      have o1 := t1.own hle o
      exact ⟨h1, by rw [HM.bind_ok (hrun.trans r1)]; rfl, o1.ext,
        ⟨⟨_, o1, ⟨c1, n.le⟩, k⟩, m.ndim⟩⟩
  · have hn : F.normalize = F := by
      unfold Factor.normalize
      exact if_neg hp
    rw [if_neg hp] at hrun
    rw [hn]
    exact ⟨h, by rw [HM.bind_ok hrun]; rfl, m.ext, m⟩

/-- the end of a query: normalise and return -/
theorem run_finish {h₀ h : Heap} {f : Nat} {F : Factor} {k : Factor → Bool} (m : Fresh h₀ h f F (k F))
    (hk : k F.normalize = k F) :
    Yields h₀ k ((normalize f >>= fun _ => pure f : HM Nat) h) (pure F.normalize) := by
  obtain ⟨h', hr, -, hf⟩ := run_normalize m
  refine ⟨h', f, hr, ?_⟩
  rw [hk]
  exact hf

theorem normalize_shape (F : Factor) : F.normalize.potentials.shape = F.potentials.shape := by
  unfold Factor.normalize
  dsimp only
  split <;> rfl

theorem numIfBare_normalize (F : Factor) : numIfBare F.normalize = numIfBare F := by
  unfold numIfBare
  rw [normalize_shape]

/-! ## networks and evidence in memory -/

/-- the node of the memory is this node -/
structure NodeAt (h : Heap) (p : NodeV × Pot) (n : NodeV) : Prop where
  pot : h.PotAt p.2 n.cpd
  eq : n = { p.1 with cpd := n.cpd }
  fits : Mem.fits p.1 n.cpd = true

theorem NodeAt.mono {h h' : Heap} (e : Ext h h') {p n} (a : NodeAt h p n) : NodeAt h' p n :=
  ⟨a.pot.mono e, a.eq, a.fits⟩

theorem NodeAt.name {h : Heap} {p n} (a : NodeAt h p n) : n.name = p.1.name := by
  rw [a.eq]

theorem NodeAt.values {h : Heap} {p n} (a : NodeAt h p n) : n.values = p.1.values := by
  rw [a.eq]

theorem NodeAt.kind {h : Heap} {p n} (a : NodeAt h p n) : n.kind = p.1.kind := by
  rw [a.eq]

/-- the network of the memory is this network -/
def NetAt (h : Heap) (net : MNet) (bn : BN) : Prop := List.Forall₂ (NodeAt h) net bn

theorem NetAt.mono {h h' : Heap} (e : Ext h h') {net bn} (a : NetAt h net bn) : NetAt h' net bn :=
  List.Forall₂.imp (fun _ _ x => x.mono e) a

theorem NetAt.snap {h : Heap} {net bn} (a : NetAt h net bn) : net.snap h = bn := by
  induction a with
  | nil => rfl
  | cons h1 _ ih =>
    unfold MNet.snap at ih ⊢
    rw [List.map_cons, ih, h1.pot.pot, ← h1.eq]

theorem NetAt.names {h : Heap} {net bn} (a : NetAt h net bn) :
    (net.map fun p => p.1.name) = bn.names := by
  unfold BN.names
  induction a with
  | nil => rfl
  | cons h1 _ ih => rw [List.map_cons, List.map_cons, ih, h1.name]

/-- a piece of evidence of the memory is this one -/
def EvAt (h : Heap) (e : Val ⊕ Pot) (ev : Evidence) : Prop :=
  match e with
  | .inl v => ev = .hard v
  | .inr p => ∃ a, h.PotAt p a ∧ a.shape.length = 1 ∧ ev = .soft a.data

theorem EvAt.mono {h h' : Heap} (x : Ext h h') {e ev} (a : EvAt h e ev) : EvAt h' e ev := by
  cases e with
  | inl v => exact a
  | inr p =>
    obtain ⟨b, h1, h2⟩ := a
    exact ⟨b, h1.mono x, h2⟩

theorem run_getNode {h : Heap} {net bn} (a : NetAt h net bn) (v : Name) :
    Run h NodeAt (HM.lift (net.getNode v) h) (bn.getNode v) := by
  unfold MNet.getNode BN.getNode
  induction a with
  | nil => exact ⟨h, rfl, Ext.refl h⟩
  | @cons p n _ _ h1 _ ih =>
    rw [List.find?_cons, List.find?_cons, h1.name]
    cases hv : decide (p.1.name = v) with
    | true => exact ⟨h, _, rfl, Ext.refl h, h1⟩
    | false => exact ih

theorem run_fromRandom {h : Heap} {p n} (a : NodeAt h p n) :
    Run h (fun h f F => h.Holds f F) (fromRandom p h) (Factor.fromNode n) := by
  unfold fromRandom
  by_cases hk : p.1.kind = .utility
  · rw [if_pos hk, Factor.fromNode, if_pos (by rw [a.kind]; exact hk)]
    exact .err _
  · rw [if_neg hk]
    have y := yields_fromNode p.1 a.pot (of_decide_eq_true a.fits)
    rw [if_neg hk, ← a.eq] at y
    exact y.run.imp fun _ _ _ _ q => q.holds

theorem run_asEvidence {h : Heap} {e ev} (a : EvAt h e ev) (var : Name) (values : List Val)
    {old : Option Pot} {old' : Option NDArray} (ho : Option.Rel h.PotAt old old') :
    Run h (fun h f F => h.Holds f F) (asEvidence var values e old h)
      (Factor.asEvidence var values ev old') := by
  cases e with
  | inl v =>
    obtain rfl : ev = .hard v := a
    exact (yields_hard var values v old h).run.imp fun _ _ _ _ q => q.holds
  | inr p =>
    obtain ⟨b, h1, h2, rfl⟩ := a
    cases ho with
    | none => exact (yields_soft var values h1 h2).run.imp fun _ _ _ _ q => q.holds
    | some h3 => exact (yields_softOld var values h1 h3).run.imp fun _ _ _ _ q => q.holds

/-! ## `naive_marginals` -/

theorem run_naiveStep (so : SetOrder) {h₀ h : Heap} (e : Ext h₀ h) {net bn} (hn : NetAt h net bn)
    {ev : MEvidence} {ev'} (he : DictRel (EvAt h) ev ev') {res : Nat} {F : Factor} (hf : h.Holds res F)
    (v : Name) : Run h (Made h₀) (naiveStep so net ev res v h) (VE.naiveStep so bn ev' F v) := by
  unfold naiveStep VE.naiveStep
  refine (run_getNode hn v).bind fun h1 p n e1 a => ?_
  refine (run_fromRandom a).bind fun h2 f F' e2 hf2 => ?_
  have e12 := e1.trans e2
  refine (run_mul so (e.trans e12) (hf.mono e12) hf2).bind fun h3 g G e3 m3 => ?_
  have e13 := e12.trans e3
  have hg := (he.imp fun _ _ x => x.mono e13).get? v
  cases hx : ev.get? v with
  | none =>
    rw [hx] at hg
    cases hy : ev'.get? v with
    | some _ => rw [hy] at hg; cases hg
    | none => exact .ok m3
  | some x =>
    rw [hx] at hg
    cases hy : ev'.get? v with
    | none => rw [hy] at hg; cases hg
    | some y =>
      rw [hy] at hg
      cases hg with
      | some hxy =>
        dsimp only
        rw [a.values]
        refine (run_asEvidence hxy v p.1.values (old := none) .none).bind fun h4 k K e4 hk => ?_
        exact run_mul so (e.trans (e13.trans e4)) (m3.holds.mono e4) hk

theorem run_naiveLoop (so : SetOrder) {h₀ : Heap} {net : MNet} {bn : BN} {ev : MEvidence} {ev'} :
    ∀ (vs : List Name) {h : Heap} (_ : Ext h₀ h) (_ : NetAt h net bn) (_ : DictRel (EvAt h) ev ev')
      {res : Nat} {F : Factor} (_ : Made h₀ h res F),
      Run h (Made h₀) (naiveLoop so net ev vs res h) (vs.foldlM (VE.naiveStep so bn ev') F)
  | [], h, _, _, _, _, _, hf => .ok hf
  | v :: vs, h, e, hn, he, res, F, hf => by
    rw [List.foldlM_cons]
    refine (run_naiveStep so e hn he hf.holds v).bind fun h1 g G e1 m1 => ?_
    exact run_naiveLoop so vs (e.trans e1) (hn.mono e1) (he.imp fun _ _ x => x.mono e1) m1

theorem run_naiveElim {h₀ : Heap} (vars : List Name) :
    ∀ (vs : List Name) {h : Heap} (_ : Ext h₀ h) {res : Nat} {F : Factor} (_ : Made h₀ h res F),
      Run h (Made h₀) (naiveElim vars vs res h) (vs.foldlM (VE.naiveElim vars) F)
  | [], h, _, _, _, hf => .ok hf
  | v :: vs, h, e, res, F, hf => by
    rw [List.foldlM_cons, naiveElim, VE.naiveElim]
    by_cases hv : v ∈ vars
    · rw [if_pos hv, if_pos hv]
      exact run_naiveElim vars vs e hf
    · rw [if_neg hv, if_neg hv]
      exact (run_sumOne e hf.holds v).bind fun h1 g G e1 m1 => run_naiveElim vars vs (e.trans e1) m1

/-- runs that end with a new factor -/
theorem Run.bindYields {α β : Type} {R : Heap → α → β → Prop} {h₀ h : Heap}
    {k : Factor → Bool} {m : HM α} {x : Except PyErr β}
    (y : Run h R (m h) x) (e : Ext h₀ h) {f : α → HM Nat} {g : β → Except PyErr Factor}
    (H : ∀ h' a b, Ext h h' → R h' a b → Yields h₀ k (f a h') (g b)) :
    Yields h₀ k ((m >>= f) h) (x >>= g) := by
  cases x with
  | error _ =>
    obtain ⟨h', hr, he⟩ := y
    exact ⟨h', HM.bind_error hr, e.trans he⟩
  | ok F =>
    obtain ⟨h', a, hr, he, hR⟩ := y
    rw [HM.bind_ok hr, ok_bind]
    exact H h' a F he hR

theorem yields_naive (so : SetOrder) {h : Heap} {net bn} (hn : NetAt h net bn)
    {ev : MEvidence} {ev'} (he : DictRel (EvAt h) ev ev') (vars : List Name) :
    Yields h numIfBare (naiveMarginals so net vars ev h) (VE.naiveMarginals so bn vars ev') := by
  unfold naiveMarginals VE.naiveMarginals
  dsimp only
  rw [hn.names]
  obtain ⟨h1, a, r1, e1, m1⟩ := run_trivial (Ext.refl h)
  rw [HM.bind_ok r1]
  refine (run_naiveLoop so _ e1 (hn.mono e1) (he.imp fun _ _ x => x.mono e1) m1).bindYields e1
    fun h2 b G e2 m2 => ?_
  have e02 := e1.trans e2
  refine (run_naiveElim vars _ e02 m2).bindYields e02 fun h3 c K e3 m3 => ?_
  exact run_finish m3 (numIfBare_normalize _)

end Heap
end Primo

/-! ## `bucket_marginals` -/

namespace Primo
namespace Heap

/-- the buckets of the memory are these -/
abbrev BucketsAt (h₀ h : Heap) : HBuckets → VE.Buckets → Prop := DictRel (Made h₀ h)

theorem DictRel.made_mono {h₀ h h' : Heap} (e : Ext h h') {bs Bs} (b : BucketsAt h₀ h bs Bs) :
    BucketsAt h₀ h' bs Bs := b.imp fun _ _ m => m.mono e

theorem run_place (so : SetOrder) {h₀ : Heap} {f : Nat} {F : Factor} :
    ∀ {bs : HBuckets} {Bs : VE.Buckets} {h : Heap} (_ : Ext h₀ h) (_ : h.Holds f F)
      (_ : BucketsAt h₀ h bs Bs),
      Run h (fun h' => Option.Rel (BucketsAt h₀ h')) (place so f bs h) (VE.place so F Bs)
  | [], [], h, _, _, .nil => ⟨h, none, rfl, Ext.refl h, .none⟩
  | (u, b) :: bs, (w, B) :: Bs, h, e, hf, .cons h1 h2 => by
    obtain ⟨rfl, hb⟩ : u = w ∧ Made h₀ h b B := h1
    rw [place, VE.place, HM.read_bind, hf.values]
    by_cases hu : u ∈ F.values.keys
    · rw [if_pos hu, if_pos (show F.contains u from decide_eq_true hu)]
      refine (run_mul so e hb.holds hf).bind fun h' g G e' m' => .ok ?_
      exact .some (.cons ⟨rfl, m'⟩ (DictRel.made_mono e' h2))
    · rw [if_neg hu, if_neg (show ¬ F.contains u by unfold Factor.contains; simpa using hu)]
      refine (run_place so e hf h2).bind fun h' g G e' m' => .ok ?_
      cases m' with
      | none => exact .none
      | some m => exact .some (.cons ⟨rfl, hb.mono e'⟩ m)

theorem run_placeFactors (so : SetOrder) {h₀ : Heap} :
    ∀ {fs : List Nat} {Fs : List Factor} {bs : HBuckets} {Bs : VE.Buckets} {h : Heap} (_ : Ext h₀ h)
      (_ : List.Forall₂ h.Holds fs Fs) (_ : BucketsAt h₀ h bs Bs),
      Run h (BucketsAt h₀) (placeFactors so fs bs h) (Fs.foldlM (VE.placeFactor so) Bs)
  | [], [], _, _, _, _, .nil, hb => .ok hb
  | f :: fs, F :: Fs, bs, Bs, h, e, .cons h1 h2, hb => by
    rw [List.foldlM_cons, placeFactors, VE.placeFactor]
    have hrun := (run_place so e h1 hb).bind (f := fun r => placeFactors so fs (r.getD bs))
      (g := fun r => Fs.foldlM (VE.placeFactor so) (r.getD Bs)) (S := BucketsAt h₀)
      fun h' r R e' m' => run_placeFactors so (e.trans e') (h2.imp fun _ _ x => x.mono e') ?_
    · have : (VE.place so F Bs >>= fun r => pure (r.getD Bs)) >>= Fs.foldlM (VE.placeFactor so) =
          VE.place so F Bs >>= fun r => Fs.foldlM (VE.placeFactor so) (r.getD Bs) := by
        cases VE.place so F Bs <;> rfl
      rw [this]
      exact hrun
    · cases m' with
      | none => exact DictRel.made_mono e' hb
      | some m => exact m

theorem DictRel.listSet {α β : Type} {R : α → β → Prop} {d : Dict α} {d' : Dict β} (h : DictRel R d d')
    (i : Nat) {k : Name} {x : α} {y : β} (hr : R x y) :
    DictRel R (List.set d i (k, x)) (List.set d' i (k, y)) := by
  induction h generalizing i with
  | nil => exact .nil
  | cons h1 h2 ih =>
    cases i with
    | zero => exact .cons ⟨rfl, hr⟩ h2
    | succ i => exact .cons h1 (ih i)

theorem run_placeEvidence (so : SetOrder) {h₀ h : Heap} (e : Ext h₀ h) {net bn} (hn : NetAt h net bn)
    {bs : HBuckets} {Bs : VE.Buckets} (hb : BucketsAt h₀ h bs Bs) {x : Name × (Val ⊕ Pot)}
    {y : Name × Evidence} (hk : x.1 = y.1) (hxy : EvAt h x.2 y.2) :
    Run h (BucketsAt h₀) (placeEvidence so net bs x h) (VE.placeEvidence so bn Bs y) := by
  obtain ⟨k, x⟩ := x
  obtain ⟨k', y⟩ := y
  obtain rfl : k = k' := hk
  unfold placeEvidence VE.placeEvidence
  have hkeys : bs.map Prod.fst = Bs.map Prod.fst := hb.keys
  dsimp only
  rw [hkeys]
  refine Run.lift _ fun i _ => ?_
  refine (run_getNode hn k).bind fun h1 p n e1 a => ?_
  rw [a.values]
  refine (run_asEvidence (hxy.mono e1) k p.1.values (old := none) .none).bind fun h2 f F e2 hf => ?_
  have e12 := e1.trans e2
  cases hi : bs[i]? with
  | none =>
    rw [Mem.forall₂_get_none hb hi]
    exact .err _
  | some b =>
    obtain ⟨B, hB, h3, h4⟩ := Mem.forall₂_get hb hi
    rw [hB]
    dsimp only
    rw [h3]
    refine (run_mul so (e.trans e12) (h4.mono e12).holds hf).bind fun h5 g G e5 m5 => .ok ?_
    exact DictRel.listSet (DictRel.made_mono (e12.trans e5) hb) i m5

theorem run_placeEvidences (so : SetOrder) {h₀ : Heap} {net : MNet} {bn : BN} :
    ∀ {ev : MEvidence} {ev' : Dict Evidence} {bs : HBuckets} {Bs : VE.Buckets} {h : Heap} (_ : Ext h₀ h)
      (_ : NetAt h net bn) (_ : DictRel (EvAt h) ev ev') (_ : BucketsAt h₀ h bs Bs),
      Run h (BucketsAt h₀) (placeEvidences so net ev bs h) (ev'.foldlM (VE.placeEvidence so bn) Bs)
  | [], [], _, _, _, _, _, .nil, hb => .ok hb
  | x :: ev, y :: ev', bs, Bs, h, e, hn, .cons h1 h2, hb => by
    rw [List.foldlM_cons, placeEvidences]
    refine (run_placeEvidence so e hn hb h1.1 h1.2).bind fun h' r R e' m' => ?_
    exact run_placeEvidences so (e.trans e') (hn.mono e') (DictRel.imp h2 fun _ _ z => z.mono e') m'

/-- the state of the elimination loop -/
def LoopAt (h₀ h : Heap) (r : HBuckets × Nat) (R : VE.Buckets × Factor) : Prop :=
  BucketsAt h₀ h r.1 R.1 ∧ Made h₀ h r.2 R.2

theorem run_process (so : SetOrder) {h₀ : Heap} :
    ∀ (k : Nat) {bs : HBuckets} {Bs : VE.Buckets} {last : Nat} {Last : Factor} {h : Heap} (_ : Ext h₀ h)
      (_ : BucketsAt h₀ h bs Bs) (_ : Made h₀ h last Last),
      Run h (LoopAt h₀) (process so k bs last h) (VE.process so k Bs Last)
  | 0, _, _, _, _, h, _, hb, hl => ⟨h, _, rfl, Ext.refl h, hb, hl⟩
  | k + 1, [], [], _, _, h, _, .nil, hl => ⟨h, rfl, Ext.refl h⟩
  | k + 1, (v, b) :: bs, (w, B) :: Bs, last, Last, h, e, .cons h1 h2, hl => by
    obtain ⟨rfl, hb⟩ : v = w ∧ Made h₀ h b B := h1
    rw [process, VE.process]
    refine (run_sumOne e hb.holds v).bind fun h3 t T e3 m3 => ?_
    refine (run_place so (e.trans e3) m3.holds (DictRel.made_mono e3 h2)).bind
      fun h4 r R e4 m4 => ?_
    have e34 := e3.trans e4
    cases m4 with
    | some m => exact run_process so k (e.trans e34) m (hl.mono e34)
    | none =>
      dsimp only
      refine (run_mul so (e.trans e34) (hl.mono e34).holds (m3.mono e4).holds).bind
        fun h5 g G e5 m5 => ?_
      exact run_process so k (e.trans (e34.trans e5)) (DictRel.made_mono (e34.trans e5) h2) m5

theorem forall₂_made_mono {h₀ h h' : Heap} (e : Ext h h') {bs Bs}
    (b : List.Forall₂ (Made h₀ h) bs Bs) : List.Forall₂ (Made h₀ h') bs Bs :=
  b.imp fun _ _ m => m.mono e

theorem run_combineLoop (so : SetOrder) {h₀ : Heap} :
    ∀ {bs : List Nat} {Bs : List Factor} {acc : Nat} {Acc : Factor} {h : Heap} (_ : Ext h₀ h)
      (_ : List.Forall₂ (Made h₀ h) bs Bs) (_ : Made h₀ h acc Acc),
      Run h (Made h₀) (combineLoop so bs acc h) (Bs.foldlM (fun acc b => b.mul so acc) Acc)
  | [], [], _, _, _, _, .nil, ha => .ok ha
  | b :: bs, B :: Bs, acc, Acc, h, e, .cons h1 h2, ha => by
    rw [List.foldlM_cons, combineLoop]
    refine (run_mul so e h1.holds ha.holds).bind fun h3 g G e3 m3 => ?_
    exact run_combineLoop so (e.trans e3) (forall₂_made_mono e3 h2) m3

theorem run_combine (so : SetOrder) {h₀ h : Heap} (e : Ext h₀ h) {bs : List Nat} {Bs : List Factor}
    {last : Nat} {Last : Factor} (hb : List.Forall₂ (Made h₀ h) bs Bs) (hl : Made h₀ h last Last) :
    Run h (Made h₀) (combine so bs last h) (VE.combine so Bs Last) := by
  cases hb with
  | nil => exact .ok hl
  | cons h1 h2 => exact run_combineLoop so e (List.rel_append h2 (.cons hl .nil)) h1

theorem forall₂_getD {α β : Type} {R : α → β → Prop} {l : List α} {l' : List β}
    (h : List.Forall₂ R l l') {i : Nat} (hi : i < l.length) (x : α) (y : β) :
    R (l.getD i x) (l'.getD i y) := by
  obtain ⟨b, hb, hr⟩ := Mem.forall₂_get h (List.getElem?_eq_getElem hi)
  rw [List.getD_eq_getElem?_getD, List.getD_eq_getElem?_getD, hb, List.getElem?_eq_getElem hi]
  exact hr

theorem forall₂_listSet {α β : Type} {R : α → β → Prop} {l : List α} {l' : List β}
    (h : List.Forall₂ R l l') (i : Nat) {x : α} {y : β} (hr : R x y) :
    List.Forall₂ R (l.set i x) (l'.set i y) := by
  induction h generalizing i with
  | nil => exact .nil
  | cons h1 h2 ih =>
    cases i with
    | zero => exact .cons hr h2
    | succ i => exact .cons h1 (ih i)

theorem pyPos_lt {n : Nat} {i : Int} {t : Nat} (h : VE.pyPos n i = .ok t) : t < n := by
  unfold VE.pyPos at h
  split at h
  · split at h
    · cases h; omega
    · cases h
  · split at h
    · cases h; omega
    · cases h

theorem run_wrapLoop (so : SetOrder) {h₀ : Heap} (n : Nat) :
    ∀ (is : List Int) {bl : List Nat} {Bl : List Factor} {h : Heap} (_ : Ext h₀ h)
      (_ : List.Forall₂ (Made h₀ h) bl Bl) (_ : bl.length = n),
      Run h (fun h bl Bl => List.Forall₂ (Made h₀ h) bl Bl ∧ bl.length = n) (wrapLoop so is bl h)
        (is.foldlM (VE.wrapStep so) Bl)
  | [], _, _, _, _, hb, hl => .ok ⟨hb, hl⟩
  | i :: is, bl, Bl, h, e, hb, hl => by
    rw [List.foldlM_cons, wrapLoop, VE.wrapStep, hb.length_eq]
    cases ht : VE.pyPos Bl.length (i + 1) with
    | error x => exact ⟨h, rfl, Ext.refl h⟩
    | ok t =>
      cases hs : VE.pyPos Bl.length i with
      | error x => exact ⟨h, rfl, Ext.refl h⟩
      | ok s =>
        rw [HM.lift_ok_bind, HM.lift_ok_bind, ok_bind, ok_bind]
        have h1 := forall₂_getD hb (hb.length_eq ▸ pyPos_lt ht) 0 (Factor.trivial 1)
        have h2 := forall₂_getD hb (hb.length_eq ▸ pyPos_lt hs) 0 (Factor.trivial 1)
        have hrun := (run_mul so e h1.holds h2.holds).bind
          (f := fun b => wrapLoop so is (bl.set t b))
          (g := fun b => is.foldlM (VE.wrapStep so) (Bl.set t b))
          (S := fun h bl Bl => List.Forall₂ (Made h₀ h) bl Bl ∧ bl.length = n)
          fun h' r R e' m' => run_wrapLoop so n is (e.trans e')
            (forall₂_listSet (forall₂_made_mono e' hb) t m') (by rw [List.length_set, hl])
        generalize (Bl.getD t (Factor.trivial 1)).mul so (Bl.getD s (Factor.trivial 1)) = z at *
        cases z with
        | error _ => exact hrun
        | ok _ => exact hrun

theorem forall₂_getLastD {α β : Type} {R : α → β → Prop} {l : List α} {l' : List β}
    (h : List.Forall₂ R l l') (hne : l ≠ []) (x : α) (y : β) : R (l.getLastD x) (l'.getLastD y) := by
  have h1 : l.getLastD x = l.getD (l.length - 1) x := by
    rw [List.getLastD_eq_getLast?, List.getLast?_eq_getElem?, List.getD_eq_getElem?_getD]
  have h2 : l'.getLastD y = l'.getD (l'.length - 1) y := by
    rw [List.getLastD_eq_getLast?, List.getLast?_eq_getElem?, List.getD_eq_getElem?_getD]
  have := List.length_pos_iff.2 hne
  rw [h1, h2, ← h.length_eq]
  exact forall₂_getD h (by omega) x y

theorem run_wrapCombine (so : SetOrder) {h₀ h : Heap} (e : Ext h₀ h) (d : Nat) {bl : List Nat}
    {Bl : List Factor} (hb : List.Forall₂ (Made h₀ h) bl Bl) (hne : bl ≠ []) :
    Run h (Made h₀) (wrapCombine so d bl h) (VE.wrapCombine so d Bl) := by
  unfold wrapCombine VE.wrapCombine
  rw [hb.length_eq]
  refine (run_wrapLoop so bl.length _ e hb rfl).bind fun h' r R e' m' => .ok ?_
  refine forall₂_getLastD m'.1 ?_ _ _
  intro h0
  have := m'.2
  rw [h0] at this
  exact hne (List.length_eq_zero_iff.1 this.symm)

theorem run_trivials {h₀ : Heap} : ∀ (n : Nat) {h : Heap} (_ : Ext h₀ h),
    Run h (fun h => List.Forall₂ (Made h₀ h)) (trivials n h)
      (.ok (List.replicate n (Factor.trivial 1)) : Except PyErr _)
  | 0, h, _ => ⟨h, _, rfl, Ext.refl h, .nil⟩
  | n + 1, h, e => by
    obtain ⟨h1, f, r1, e1, m1⟩ := run_trivial e
    obtain ⟨h2, fs, r2, e2, m2⟩ := run_trivials n (e.trans e1)
    refine ⟨h2, f :: fs, ?_, e1.trans e2, .cons (m1.mono e2) m2⟩
    rw [trivials, HM.bind_ok r1, HM.bind_ok r2]
    rfl

theorem run_bucketFactors {net : MNet} {bn : BN} : ∀ (vs : List Name) {h : Heap} (_ : NetAt h net bn),
    Run h (fun h => List.Forall₂ h.Holds) (bucketFactors net vs h) (vs.mapM fun v => do
      let n ← bn.getNode v
      Factor.fromNode n)
  | [], h, _ => ⟨h, _, rfl, Ext.refl h, .nil⟩
  | v :: vs, h, hn => by
    rw [List.mapM_cons, bucketFactors, bind_assoc]
    refine (run_getNode hn v).bind fun h1 p n e1 a => ?_
    refine (run_fromRandom a).bind fun h2 f F e2 hf => ?_
    refine (run_bucketFactors vs (hn.mono (e1.trans e2))).bind fun h3 fs Fs e3 hfs => .ok ?_
    exact .cons (hf.mono e3) hfs

theorem zip_replicate {α : Type} (l : List Name) (x : α) :
    l.zip (List.replicate l.length x) = l.map fun v => (v, x) := by
  induction l with
  | nil => rfl
  | cons v l ih => rw [List.length_cons, List.replicate_succ, List.zip_cons_cons, ih]; rfl

theorem dictRel_zip {α β : Type} {R : α → β → Prop} : ∀ (l : List Name) {a : List α} {b : List β},
    List.Forall₂ R a b → DictRel R (l.zip a) (l.zip b)
  | [], _, _, _ => .nil
  | _ :: _, _, _, .nil => .nil
  | _ :: l, _, _, .cons h1 h2 => .cons ⟨rfl, h1⟩ (dictRel_zip l h2)

theorem dictRel_snd {α β : Type} {R : α → β → Prop} {d : Dict α} {d' : Dict β} (h : DictRel R d d') :
    List.Forall₂ R (d.map Prod.snd) (d'.map Prod.snd) := by
  induction h with
  | nil => exact .nil
  | cons h1 _ ih => exact .cons h1.2 ih

theorem run_steps (so : SetOrder) {h : Heap} {net bn} (hn : NetAt h net bn)
    {ev : MEvidence} {ev'} (he : DictRel (EvAt h) ev ev') (order vars : List Name) :
    Yields h numIfBare ((do
      let factors ← bucketFactors net order
      let bl ← trivials order.length
      let last ← trivial 1
      let bs ← placeFactors so factors (order.zip bl)
      let bs ← placeEvidences so net ev bs
      if order.length < vars.length then do
        let r ← wrapCombine so (vars.length - order.length) (bs.map Prod.snd ++ [last])
        normalize r
        pure r
      else do
        let p ← process so (order.length - vars.length) bs last
        let r ← combine so (p.1.map Prod.snd) p.2
        normalize r
        pure r : HM Nat) h) (do
      let factors ← order.mapM fun v => do
        let n ← bn.getNode v
        Factor.fromNode n
      let bs := order.map fun v => (v, Factor.trivial 1)
      let bs ← factors.foldlM (VE.placeFactor so) bs
      let bs ← ev'.foldlM (VE.placeEvidence so bn) bs
      if order.length < vars.length then do
        let r ← VE.wrapCombine so (vars.length - order.length) (bs.map Prod.snd ++ [Factor.trivial 1])
        return r.normalize
      else do
        let (bs, last) ← VE.process so (order.length - vars.length) bs (Factor.trivial 1)
        let r ← VE.combine so (bs.map Prod.snd) last
        return r.normalize) := by
  refine (run_bucketFactors order hn).bindYields (Ext.refl h) fun h1 fs Fs e1 hfs => ?_
  obtain ⟨h2, bl, r2, e2, m2⟩ := run_trivials order.length e1
  obtain ⟨h3, last, r3, e3, m3⟩ := run_trivial (e1.trans e2)
  rw [HM.bind_ok r2, HM.bind_ok r3]
  have e23 := e2.trans e3
  have e03 := e1.trans e23
  have hb0 := dictRel_zip order (forall₂_made_mono e3 m2)
  rw [zip_replicate] at hb0
  refine (run_placeFactors so e03 (hfs.imp fun _ _ x => x.mono e23) hb0).bindYields e03
    fun h4 bs Bs e4 hb4 => ?_
  have e04 := e03.trans e4
  refine (run_placeEvidences so e04 (hn.mono e04) (he.imp fun _ _ x => x.mono e04) hb4).bindYields e04
    fun h5 bs Bs e5 hb5 => ?_
  have e05 := e04.trans e5
  have m5 := m3.mono (e4.trans e5)
  by_cases hl : order.length < vars.length
  · rw [if_pos hl, if_pos hl]
    refine (run_wrapCombine so e05 _ (List.rel_append (dictRel_snd hb5) (.cons m5 .nil))
      (by simp)).bindYields e05 fun h6 r R e6 m6 => ?_
    exact run_finish m6 (numIfBare_normalize _)
  · rw [if_neg hl, if_neg hl]
    refine (run_process so _ e05 hb5 m5).bindYields e05 fun h6 r R e6 m6 => ?_
    refine (run_combine so (e05.trans e6) (dictRel_snd m6.1) m6.2).bindYields (e05.trans e6)
      fun h7 r R e7 m7 => ?_
    exact run_finish m7 (numIfBare_normalize _)

theorem yields_bucket (so : SetOrder) {h : Heap} {net bn} (hn : NetAt h net bn)
    {ev : MEvidence} {ev'} (he : DictRel (EvAt h) ev ev') (vars : List Name)
    (order : Option (List Name)) :
    Yields h numIfBare (bucketMarginals so net vars ev order h)
      (VE.bucketMarginals so bn vars ev' order) := by
  unfold bucketMarginals VE.bucketMarginals
  rw [HM.read_bind, hn.snap]
  cases VE.chooseOrder bn order with
  | error x => exact ⟨h, rfl, Ext.refl h⟩
  | ok o =>
    rw [HM.lift_ok_bind, ok_bind]
    cases VE.moveQuery o vars with
    | error x => exact ⟨h, rfl, Ext.refl h⟩
    | ok o' =>
      rw [HM.lift_ok_bind, ok_bind]
      exact run_steps so hn he o' vars

end Heap
end Primo
