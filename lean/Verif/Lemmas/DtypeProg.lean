import Verif.Spec.Dtype
import Verif.Lemmas.DtypeTree

/-! # Element types: programs -/

namespace Primo.Typed
open Mem Query TFactor

namespace DState

/-- all factors of the trees are floats -/
def TreesFloat (s : DState) : Prop := ∀ t ∈ s.trees, t.AllFloat

/-- the same state and exception but for the types -/
structure DR (r : DState × Option PyErr) (q : CState × Option PyErr) : Prop where
  erase : r.1.erase = q.1
  exc : r.2 = q.2
  trees : r.1.TreesFloat

theorem typed_erase (s : DState) (t : DTab) : tableOf s.erase.cells t.erase = (s.typed t).1 := by
  cases t with
  | num x d => rfl
  | cell c =>
    unfold DState.erase DTab.erase tableOf typed
    dsimp only
    rw [List.getD_eq_getElem?_getD, List.getD_eq_getElem?_getD, List.getElem?_map]
    cases s.cells[c]? <;> rfl

theorem value_erase (s : DState) (F : DFac) : s.erase.value F.erase = (s.fac F).val := by
  unfold CState.value fac DFac.erase
  dsimp only
  rw [typed_erase]

theorem read_erase (s : DState) :
    s.erase.read = ⟨s.facs.map fun F => (s.fac F).val, s.arrs.map fun t => (s.typed t).1⟩ := by
  unfold CState.read
  congr 1
  · change List.map _ (List.map _ _) = _
    rw [List.map_map]
    exact List.map_congr_left fun F _ => value_erase s F
  · change List.map _ (List.map _ _) = _
    rw [List.map_map]
    exact List.map_congr_left fun t _ => typed_erase s t

theorem var_map {α β : Type} (f : α → β) (l : List α) (i : Nat) :
    Both (fun a b => b = f a ∧ a ∈ l ∧ var l i = .ok a) (var l i) (var (l.map f) i) := by
  unfold var
  rw [List.getElem?_map]
  cases h : l[i]? with
  | none => exact .error _
  | some a => exact .ok ⟨rfl, List.mem_of_getElem? h, rfl⟩

theorem withVar_dr {α β : Type} {R : α → β → Prop} {s : DState} (hs : s.TreesFloat) {x : Except PyErr α}
    {y : Except PyErr β} (h : Both R x y) {f : α → DState × Option PyErr} {g : β → CState × Option PyErr}
    (hfg : ∀ a b, R a b → DR (f a) (g b)) : DR (s.withVar x f) (s.erase.withVar y g) := by
  cases h with
  | ok h => exact hfg _ _ h
  | error e => exact ⟨rfl, rfl, hs⟩

theorem push_dr {s : DState} (hs : s.TreesFloat) {isNum : Factor → Bool} {x : Except PyErr TFactor}
    {y : Except PyErr Factor} (h : Both (fun t F => t.val = F ∧ t.num = isNum F) x y) :
    DR (s.push x) (s.erase.push isNum y) := by
  cases h with
  | error e => exact ⟨rfl, rfl, hs⟩
  | @ok t F h =>
    obtain ⟨rfl, hn⟩ := h
    unfold push CState.push
    dsimp only
    rw [← hn]
    split
    · refine ⟨?_, rfl, hs⟩
      unfold DState.erase
      simp [DFac.erase, DTab.erase]
    · refine ⟨?_, rfl, hs⟩
      unfold DState.erase
      simp [DFac.erase, DTab.erase]

theorem pushArr_dr {s : DState} (hs : s.TreesFloat) (d : DType) (x : Except PyErr NDArray) :
    DR (s.pushArr d x) (s.erase.pushArr x) := by
  cases x with
  | error e => exact ⟨rfl, rfl, hs⟩
  | ok a =>
    refine ⟨?_, rfl, hs⟩
    unfold pushArr CState.pushArr DState.erase
    simp [DTab.erase]

theorem setTable_dr {s : DState} (hs : s.TreesFloat) (i : Nat) (F : DFac) (a : NDArray × DType) :
    DR (s.setTable i F a, none) (s.erase.setTable i F.erase a.1, none) := by
  obtain ⟨tab, order, values⟩ := F
  cases tab with
  | num x d =>
    refine ⟨?_, rfl, hs⟩
    unfold setTable CState.setTable DState.erase DFac.erase DTab.erase
    simp [List.map_set, DFac.erase, DTab.erase]
  | cell c =>
    refine ⟨?_, rfl, hs⟩
    unfold setTable CState.setTable DState.erase DFac.erase DTab.erase
    simp [List.map_set]

theorem assignTo_dr {s : DState} (hs : s.TreesFloat) (idx : List Nat) (x : ℚ) (t : DTab)
    (hx : (s.typed t).2.cast x = x) : DR (s.assignTo idx x t) (s.erase.assignTo idx x t.erase) := by
  cases t with
  | num x d => exact ⟨rfl, rfl, hs⟩
  | cell c =>
    have hc : s.erase.assignTo idx x (DTab.cell c).erase =
        match assign (tableOf s.erase.cells (DTab.cell c).erase) idx x with
        | .error e => (s.erase, some e)
        | .ok a => ({ s.erase with cells := s.erase.cells.set c a }, none) := rfl
    rw [hc, typed_erase]
    unfold assignTo
    dsimp only
    rw [hx]
    cases assign (s.typed (.cell c)).1 idx x with
    | error e => exact ⟨rfl, rfl, hs⟩
    | ok a =>
      refine ⟨?_, rfl, hs⟩
      unfold DState.erase
      simp [List.map_set]

/-! ## new factors -/

theorem made_push {v : VState} {c : Cmd} {x : Except PyErr Factor} (h : v.step c = v.push x) :
    Query.made v c = x := by
  unfold Query.made
  rw [h]
  cases x with
  | error e => rfl
  | ok F => simp [VState.push]

theorem var_fac (s : DState) (i : Nat) :
    Both (fun F G => G = (s.fac F).val ∧ var s.facs i = .ok F) (var s.facs i) (var s.erase.read.facs i) := by
  rw [read_erase]
  exact (var_map _ s.facs i).imp fun a b h => ⟨h.1, h.2.2⟩

theorem var_arr (s : DState) (i : Nat) :
    Both (fun t a => a = (s.typed t).1) (var s.arrs i) (var s.erase.read.arrs i) := by
  rw [read_erase]
  exact (var_map _ s.arrs i).imp fun a b h => h.1

/-- the value, and whether it is a number -/
def NV (isNum : Factor → Bool) (t : TFactor) (F : Factor) : Prop := t.val = F ∧ t.num = isNum F

theorem map_nv {x : Except PyErr Factor} {f : Factor → TFactor} {isNum : Factor → Bool}
    (h : ∀ F, NV isNum (f F) F) : Both (NV isNum) (x.map f) x :=
  Both.map_left fun a _ => h a

theorem plus_eq {d e : DType} (h : ¬ (d = .bool ∧ e = .bool)) : d.plus e = (· + ·) := by
  funext x y
  cases d <;> cases e <;> first | rfl | exact absurd ⟨rfl, rfl⟩ h

/-- the statements that assign a new factor variable -/
def isNew : Cmd → Bool
  | .normalize _ | .getPotential .. | .write .. | .poke .. | .relabel .. | .reorder .. => false
  | _ => true

theorem made_rel (s : DState) (c : Cmd) (hc : s.Harmless (.factor c)) (hnew : isNew c = true) :
    Both (NV (newIsNum c)) (s.made c) (Query.made s.erase.read c) := by
  obtain ⟨x, hx⟩ : ∃ x, s.erase.read.step c = s.erase.read.push x := by
    cases c with
    | soft v values k old => cases old <;> exact ⟨_, rfl⟩
    | trivial y => exact ⟨.ok (Factor.trivial y), rfl⟩
    | normalize | getPotential | write | poke | relabel | reorder => cases hnew
    | _ => exact ⟨_, rfl⟩
  rw [made_push hx]
  have hinj : ∀ {y : Except PyErr Factor}, s.erase.read.push y = s.erase.read.push x → y = x := by
    intro y h
    have := made_push (c := c) (hx.trans h.symm)
    rw [← this, made_push hx]
  cases c with
  | trivial y =>
    obtain rfl := hinj (y := .ok (Factor.trivial y)) hx
    exact .ok ⟨rfl, rfl⟩
  | const c order values =>
    obtain rfl := hinj hx
    exact map_nv fun F => ⟨rfl, rfl⟩
  | fromNode node k =>
    obtain rfl := hinj hx
    refine (s.var_arr k).bind fun t a ha => ?_
    subst ha
    refine Both.bindEq fun _ _ => ?_
    split
    · exact map_nv fun F => ⟨rfl, rfl⟩
    · exact map_nv fun F => ⟨rfl, rfl⟩
  | hard v values e =>
    obtain rfl := hinj hx
    exact map_nv fun F => ⟨rfl, rfl⟩
  | soft v values k old =>
    cases old with
    | none =>
      obtain rfl := hinj hx
      refine (s.var_arr k).bind fun t a ha => ?_
      subst ha
      refine Both.bindEq fun _ _ => ?_
      exact map_nv fun F => ⟨rfl, rfl⟩
    | some q =>
      obtain rfl := hinj hx
      refine (s.var_arr k).bind fun t a ha => ?_
      subst ha
      refine (s.var_arr q).bind fun u b hb => ?_
      subst hb
      refine Both.bindEq fun _ _ => Both.bindEq fun _ _ => ?_
      exact map_nv fun F => ⟨rfl, rfl⟩
  | fromSamples samples values =>
    obtain rfl := hinj hx
    refine Both.bindEq fun _ _ => ?_
    exact map_nv fun F => ⟨rfl, rfl⟩
  | copy i =>
    obtain rfl := hinj hx
    have := (s.var_fac i).bind (S := NV (newIsNum (.copy i)))
      (f := fun F => .ok { s.fac F with num := false }) (g := .ok) fun F G h => .ok ⟨h.1.symm, rfl⟩
    have e : ∀ y : Except PyErr Factor, y >>= .ok = y := by
      intro y; cases y <;> rfl
    rw [e] at this
    exact this
  | mul so i j =>
    obtain rfl := hinj hx
    refine (s.var_fac i).bind fun F F' h => (s.var_fac j).bind fun G G' h' => ?_
    rw [h.1, h'.1]
    exact map_nv fun F => ⟨rfl, rfl⟩
  | add so i j =>
    obtain rfl := hinj hx
    refine (s.var_fac i).bind fun F F' h => (s.var_fac j).bind fun G G' h' => ?_
    rw [h.1, h'.1]
    unfold TFactor.add
    rw [show (s.fac F).dt.plus (s.fac G).dt = (· + ·) from plus_eq (hc F G h.2 h'.2)]
    exact map_nv fun F => ⟨rfl, rfl⟩
  | div so i j =>
    obtain rfl := hinj hx
    refine (s.var_fac i).bind fun F F' h => (s.var_fac j).bind fun G G' h' => ?_
    rw [h.1, h'.1]
    exact (div_fl so rfl rfl).imp fun t F h => ⟨h.1, h.2.2⟩
  | invert i =>
    obtain rfl := hinj hx
    refine (s.var_fac i).bind fun F F' h => ?_
    rw [h.1]
    exact map_nv fun F => ⟨rfl, rfl⟩
  | marginalize i vars =>
    obtain rfl := hinj hx
    refine (s.var_fac i).bind fun F F' h => ?_
    rw [h.1]
    exact map_nv fun F => ⟨rfl, rfl⟩
  | _ => cases hnew

/-! ## statements -/

theorem stepFactor_dr {s : DState} (hs : s.TreesFloat) (c : Cmd) (hc : s.Harmless (.factor c)) :
    DR (s.stepFactor c) (s.erase.stepFactor c) := by
  by_cases hnew : isNew c = true
  · have := push_dr hs (made_rel s c hc hnew)
    cases c with
    | normalize | getPotential | write | poke | relabel | reorder => cases hnew
    | _ => exact this
  · have hv : ∀ i, Both (fun F G => G = F.erase ∧ F ∈ s.facs ∧ var s.facs i = .ok F) (var s.facs i)
        (var s.erase.facs i) := fun i => var_map DFac.erase s.facs i
    have ha : ∀ i, Both (fun F G => G = F.erase ∧ F ∈ s.arrs ∧ var s.arrs i = .ok F) (var s.arrs i)
        (var s.erase.arrs i) := fun i => var_map DTab.erase s.arrs i
    cases c with
    | normalize i =>
      refine withVar_dr hs (hv i) fun F G h => ?_
      obtain ⟨rfl, -, h⟩ := h
      rw [value_erase]
      have hn : ∃ t, (s.fac F).normalize = .ok t ∧ t.val.potentials = (s.fac F).val.normalize.potentials := by
        unfold TFactor.normalize
        by_cases hp : (s.fac F).val.potentials.sumAll > 0
        · rw [if_pos hp, if_pos ?_]
          · exact ⟨_, rfl, rfl⟩
          · rcases hc F h with h | h | h
            · exact Bool.or_eq_true_iff.2 (.inl h)
            · exact Bool.or_eq_true_iff.2 (.inr (decide_eq_true h))
            · exact absurd hp (not_lt.2 h)
        · rw [if_neg hp]
          refine ⟨_, rfl, ?_⟩
          unfold Factor.normalize
          dsimp only
          rw [if_neg hp]
      obtain ⟨t, h1, h2⟩ := hn
      rw [h1, ← h2]
      exact setTable_dr hs i F (t.val.potentials, t.dt)
    | getPotential i vars =>
      refine withVar_dr hs (hv i) fun F G h => ?_
      obtain ⟨rfl, -, h⟩ := h
      rw [value_erase]
      split
      · refine withVar_dr (R := Eq) hs ?_ fun a b _ => ⟨?_, rfl, hs⟩
        · cases (s.fac F).val.getPotential vars with
          | error e => exact .error e
          | ok a => exact .ok rfl
        · unfold DState.erase
          simp [DFac.erase]
      · exact pushArr_dr hs _ _
    | write k idx x =>
      refine withVar_dr hs (ha k) fun F G h => ?_
      obtain ⟨rfl, -, h⟩ := h
      exact assignTo_dr hs idx x F (hc F h)
    | poke i idx x =>
      refine withVar_dr hs (hv i) fun F G h => ?_
      obtain ⟨rfl, -, h⟩ := h
      exact assignTo_dr hs idx x F.tab (hc F h)
    | relabel i v labels =>
      refine withVar_dr hs (hv i) fun F G h => ?_
      obtain ⟨rfl, -, h⟩ := h
      refine ⟨?_, rfl, hs⟩
      unfold DState.erase
      simp [List.map_set, DFac.erase]
    | reorder i order =>
      refine withVar_dr hs (hv i) fun F G h => ?_
      obtain ⟨rfl, -, h⟩ := h
      refine withVar_dr (R := Eq) hs ?_ fun a b _ => ⟨?_, rfl, hs⟩
      · change Both Eq (require (order.length = F.order.length) _) (require (order.length = F.order.length) _)
        cases require (order.length = F.order.length) .valueError with
        | error e => exact .error e
        | ok a => exact .ok rfl
      · unfold DState.erase
        simp [List.map_set, DFac.erase]
    | _ => exact absurd rfl hnew

theorem forall₂_netOf {l : List TypedNode} {m : List NodeV} (h : List.Forall₂ (fun n k => n.node = k) l m) :
    TBN.erase l = m := by
  induction h with
  | nil => rfl
  | cons h _ ih =>
    change _ :: TBN.erase _ = _
    rw [ih, h]

theorem netOf_erase (s : DState) (net : List (NodeV × Nat)) :
    Both (fun tn bn => TBN.erase tn = bn) (s.netOf net) (Query.netOf s.erase.read.arrs net) := by
  refine (Both.mapM (R := fun n k => TypedNode.node n = k) fun p _ => ?_).imp fun _ _ h => forall₂_netOf h
  refine (s.var_arr p.2).bind fun t a ha => ?_
  subst ha
  exact Both.bindEq fun _ _ => .ok rfl

theorem forall₂_evidenceOf {l : TEvidence} {m : Dict Evidence}
    (h : List.Forall₂ (fun (p : Name × (Evidence × DType)) (q : Name × Evidence) => (p.1, p.2.1) = q) l m) :
    TEvidence.erase l = m := by
  induction h with
  | nil => rfl
  | cons h _ ih =>
    change (_, _) :: TEvidence.erase _ = _
    rw [ih, h]

theorem evidenceOf_erase (s : DState) (ev : Dict (Val ⊕ Nat)) :
    Both (fun te e => TEvidence.erase te = e) (s.evidenceOf ev) (Query.evidenceOf s.erase.read.arrs ev) := by
  refine (Both.mapM (R := fun (p : Name × (Evidence × DType)) (q : Name × Evidence) => (p.1, p.2.1) = q)
    fun p _ => ?_).imp fun _ _ h => forall₂_evidenceOf h
  obtain ⟨v, x | k⟩ := p
  · exact .ok rfl
  · refine (s.var_arr k).bind fun t a ha => ?_
    subst ha
    exact Both.bindEq fun _ _ => .ok rfl

theorem setTree_dr {s : DState} (hs : s.TreesFloat) (i : Nat) {r : TRes} {q : JRes} (h : TTree.FR r q) :
    DR (s.setTree i r) (s.erase.setTree i q) := by
  refine ⟨?_, h.2, ?_⟩
  · unfold setTree CState.setTree DState.erase
    simp [List.map_set, h.1.erase]
  · intro t ht
    rcases List.mem_or_eq_of_mem_set ht with ht | rfl
    · exact hs t ht
    · exact h.1.allFloat

theorem var_tree {s : DState} (hs : s.TreesFloat) (i : Nat) :
    Both TTree.FT (var s.trees i) (var s.erase.trees i) :=
  (var_map TTree.erase s.trees i).imp fun t u h => by
    obtain ⟨rfl, h, -⟩ := h
    exact (hs t h).ft

theorem step_dr {s : DState} (hs : s.TreesFloat) (c : Stmt) (hc : s.Harmless c) :
    DR (s.step c) (s.erase.step c) := by
  cases c with
  | factor c => exact stepFactor_dr hs c hc
  | copyArr k =>
    change DR (s.withVar _ _) (s.erase.pushArr (var s.erase.read.arrs k))
    have h := s.var_arr k
    generalize var s.arrs k = x at h
    generalize var s.erase.read.arrs k = y at h
    cases h with
    | error e => exact ⟨rfl, rfl, hs⟩
    | @ok t a h => rw [h]; exact pushArr_dr hs (s.typed t).2 (.ok (s.typed t).1)
  | naive so net vars ev =>
    refine push_dr hs ?_
    refine (s.netOf_erase net).bind fun tn bn h => (s.evidenceOf_erase ev).bind fun te e h' => ?_
    subst h h'
    exact (TVE.naive_fl so tn vars te).imp fun t F h => ⟨h.1, h.2.2⟩
  | bucket so net vars ev order =>
    refine push_dr hs ?_
    refine (s.netOf_erase net).bind fun tn bn h => (s.evidenceOf_erase ev).bind fun te e h' => ?_
    subst h h'
    exact (TVE.bucket_fl so tn vars te order).imp fun t F h => ⟨h.1, h.2.2⟩
  | tree so net order =>
    refine withVar_dr hs (s.netOf_erase net) fun tn bn h => ?_
    subst h
    refine withVar_dr hs (TTree.create_ft so tn order) fun t u h => ⟨?_, rfl, ?_⟩
    · unfold DState.erase
      simp [h.erase]
    · intro t' ht'
      rcases List.mem_append.1 ht' with ht' | ht'
      · exact hs t' ht'
      · rw [List.mem_singleton.1 ht']
        exact h.allFloat
  | reset so i net =>
    refine withVar_dr hs (s.netOf_erase net) fun tn bn h => ?_
    subst h
    exact withVar_dr hs (var_tree hs i) fun t u h => setTree_dr hs i (TTree.reset_ft so tn h)
  | calculate so limit i =>
    exact withVar_dr hs (var_tree hs i) fun t u h => setTree_dr hs i (TTree.calculate_ft so limit h)
  | setEvidence so limit i net ev soft =>
    refine withVar_dr hs (s.netOf_erase net) fun tn bn h => ?_
    subst h
    refine withVar_dr hs (s.evidenceOf_erase ev) fun te e h' => ?_
    subst h'
    exact withVar_dr hs (var_tree hs i) fun t u h =>
      setTree_dr hs i (TTree.setEvidence_ft so limit tn te soft h)
  | marginals so limit i vars =>
    refine withVar_dr hs (var_tree hs i) fun t u h => ?_
    obtain ⟨h1, h2⟩ := TTree.marginals_ft so limit vars h
    have h3 := setTree_dr hs i (r := ((t.marginals so limit vars).1, none))
      (q := ((u.marginals so limit vars).1, none)) ⟨h1, rfl⟩
    have h4 := push_dr (s := { s with trees := s.trees.set i (t.marginals so limit vars).1 }) h3.trees
      (isNum := answerIsNum so vars (u.marginals so limit vars).1) (h2.imp fun t F h => ⟨h.1.1, h.2⟩)
    have h5 : DState.erase { s with trees := s.trees.set i (t.marginals so limit vars).1 } =
        { s.erase with trees := s.erase.trees.set i (u.marginals so limit vars).1 } := h3.erase
    rw [h5] at h4
    exact h4

theorem run_erase {s : DState} (hs : s.TreesFloat) (cs : List Stmt) (h : s.AllHarmless cs) :
    (s.run cs).1.erase = (s.erase.run cs).1 ∧ (s.run cs).2 = (s.erase.run cs).2 ∧
      (s.run cs).1.TreesFloat := by
  induction cs generalizing s with
  | nil => exact ⟨rfl, rfl, hs⟩
  | cons c cs ih =>
    obtain ⟨h1, h2⟩ := h
    have d := step_dr hs c h1
    obtain ⟨i1, i2, i3⟩ := ih d.trees h2
    unfold run CState.run
    dsimp only
    rw [← d.erase, ← d.exc]
    exact ⟨i1, by rw [i2], i3⟩

/-! ## float programs -/

/-- not a number of another type -/
def TabFloat (t : DTab) : Prop := ∀ x d, t = .num x d → d = .float

/-- every table is one of floats -/
structure Floats (s : DState) : Prop where
  cells : ∀ a ∈ s.cells, a.2 = .float
  facs : ∀ F ∈ s.facs, TabFloat F.tab
  arrs : ∀ t ∈ s.arrs, TabFloat t
  trees : s.TreesFloat

theorem Floats.typed {s : DState} (h : s.Floats) {t : DTab} (ht : TabFloat t) : (s.typed t).2 = .float := by
  cases t with
  | num x d => exact ht x d rfl
  | cell c =>
    unfold DState.typed
    dsimp only
    rw [List.getD_eq_getElem?_getD]
    cases hc : s.cells[c]? with
    | none => rfl
    | some a => exact h.cells a (List.mem_of_getElem? hc)

theorem var_mem {α : Type} {l : List α} {i : Nat} {a : α} (h : var l i = .ok a) : a ∈ l := by
  unfold var at h
  cases hc : l[i]? with
  | none => rw [hc] at h; cases h
  | some b =>
    rw [hc] at h
    cases h
    exact List.mem_of_getElem? hc

theorem Floats.harmless {s : DState} (h : s.Floats) (c : Stmt) : s.Harmless c := by
  cases c with
  | factor c =>
    cases c with
    | normalize i => exact fun F hF => .inr (.inl (h.typed (h.facs F (var_mem hF))))
    | write k idx x =>
      intro t ht
      rw [h.typed (h.arrs t (var_mem ht))]
      rfl
    | poke i idx x =>
      intro F hF
      rw [h.typed (h.facs F (var_mem hF))]
      rfl
    | add so i j =>
      intro F G hF _ hb
      rw [h.typed (h.facs F (var_mem hF))] at hb
      cases hb.1
    | _ => trivial
  | _ => trivial

/-- every result has the property -/
def Ensures {α : Type} (P : α → Prop) (x : Except PyErr α) : Prop := ∀ a, x = .ok a → P a

theorem Ensures.bind {α β : Type} {P : α → Prop} {Q : β → Prop} {x : Except PyErr α}
    {f : α → Except PyErr β} (h : Ensures P x) (hf : ∀ a, P a → Ensures Q (f a)) : Ensures Q (x >>= f) := by
  cases x with
  | error e => intro b hb; cases hb
  | ok a => exact hf a (h a rfl)

theorem Ensures.bindAny {α β : Type} {Q : β → Prop} {x : Except PyErr α}
    {f : α → Except PyErr β} (hf : ∀ a, Ensures Q (f a)) : Ensures Q (x >>= f) :=
  Ensures.bind (P := fun _ => True) (fun _ _ => trivial) fun a _ => hf a

theorem Ensures.map {α β : Type} {Q : β → Prop} {x : Except PyErr α} {f : α → β} (h : ∀ a, Q (f a)) :
    Ensures Q (x.map f) := by
  cases x with
  | error e => intro b hb; cases hb
  | ok a => intro b hb; cases hb; exact h a

theorem Ensures.pure {α : Type} {P : α → Prop} {a : α} (h : P a) : Ensures P (.ok a) := by
  intro b hb; cases hb; exact h

/-- a float factor -/
def IsFloat (t : TFactor) : Prop := t.dt = .float

theorem Floats.fac {s : DState} (h : s.Floats) (i : Nat) :
    Ensures (fun F => IsFloat (s.fac F)) (var s.facs i) :=
  fun F hF => h.typed (h.facs F (var_mem hF))

theorem Floats.arr {s : DState} (h : s.Floats) (i : Nat) :
    Ensures (fun t => (s.typed t).2 = .float) (var s.arrs i) :=
  fun F hF => h.typed (h.arrs F (var_mem hF))

theorem Floats.made {s : DState} (h : s.Floats) (c : Cmd) : Ensures IsFloat (s.made c) := by
  cases c with
  | trivial x => exact Ensures.pure rfl
  | const c order values => exact Ensures.map fun _ => rfl
  | fromNode node k =>
    refine (h.arr k).bind fun t ht => Ensures.bindAny fun _ => ?_
    split
    · exact Ensures.map fun _ => ht
    · exact Ensures.map fun _ => ht
  | hard v values e => exact Ensures.map fun _ => rfl
  | soft v values k old =>
    cases old with
    | none => exact (h.arr k).bind fun t ht => Ensures.bindAny fun _ => Ensures.map fun _ => ht
    | some q =>
      exact (h.arr k).bind fun t ht => Ensures.bindAny fun _ => Ensures.bindAny fun _ =>
        Ensures.bindAny fun _ => Ensures.map fun _ => rfl
  | fromSamples samples values => exact Ensures.bindAny fun _ => Ensures.map fun _ => rfl
  | copy i => exact (h.fac i).bind fun F hF => Ensures.pure hF
  | mul so i j =>
    refine (h.fac i).bind fun F hF => Ensures.bindAny fun G => Ensures.map fun _ => ?_
    change (s.fac F).dt.join _ = _
    rw [show (s.fac F).dt = .float from hF, join_float_left]
  | add so i j =>
    refine (h.fac i).bind fun F hF => Ensures.bindAny fun G => Ensures.map fun _ => ?_
    change (s.fac F).dt.join _ = _
    rw [show (s.fac F).dt = .float from hF, join_float_left]
  | div so i j =>
    refine (h.fac i).bind fun F hF => Ensures.bindAny fun G => ?_
    intro t ht
    have hd := div_fl so (t := s.fac F) (u := s.fac G) rfl rfl
    rw [ht] at hd
    generalize Factor.div so _ _ = y at hd
    cases hd with
    | ok hd => exact hd.2.1
  | invert i => exact (h.fac i).bind fun F hF => Ensures.map fun _ => rfl
  | marginalize i vars =>
    refine (h.fac i).bind fun F hF => Ensures.map fun _ => ?_
    change sumType (s.fac F).dt vars = _
    rw [show (s.fac F).dt = .float from hF, sumType_float]
  | _ => intro t ht; cases ht

theorem Floats.push {s : DState} (h : s.Floats) {x : Except PyErr TFactor} (hx : Ensures IsFloat x) :
    (s.push x).1.Floats := by
  cases x with
  | error e => exact h
  | ok t =>
    have ht := hx t rfl
    unfold DState.push
    dsimp only
    split
    · refine ⟨h.cells, ?_, h.arrs, h.trees⟩
      intro F hF
      rcases List.mem_append.1 hF with hF | hF
      · exact h.facs F hF
      · rw [List.mem_singleton.1 hF]
        intro x d hd
        cases hd
        exact ht
    · refine ⟨?_, ?_, h.arrs, h.trees⟩
      · intro a ha
        rcases List.mem_append.1 ha with ha | ha
        · exact h.cells a ha
        · rw [List.mem_singleton.1 ha]
          exact ht
      · intro F hF
        rcases List.mem_append.1 hF with hF | hF
        · exact h.facs F hF
        · rw [List.mem_singleton.1 hF]
          intro x d hd
          cases hd

theorem Floats.pushArr {s : DState} (h : s.Floats) {d : DType} (hd : d = .float) (x : Except PyErr NDArray) :
    (s.pushArr d x).1.Floats := by
  cases x with
  | error e => exact h
  | ok a =>
    refine ⟨?_, h.facs, ?_, h.trees⟩
    · intro a ha
      rcases List.mem_append.1 ha with ha | ha
      · exact h.cells a ha
      · rw [List.mem_singleton.1 ha]
        exact hd
    · intro t ht
      rcases List.mem_append.1 ht with ht | ht
      · exact h.arrs t ht
      · rw [List.mem_singleton.1 ht]
        intro x d hd
        cases hd

theorem Floats.setFac {s : DState} (h : s.Floats) (i : Nat) {F : DFac} (hF : TabFloat F.tab) :
    DState.Floats { s with facs := s.facs.set i F } := by
  refine ⟨h.cells, ?_, h.arrs, h.trees⟩
  intro G hG
  rcases List.mem_or_eq_of_mem_set hG with hG | rfl
  · exact h.facs G hG
  · exact hF

theorem Floats.setCell {s : DState} (h : s.Floats) (c : Nat) {a : NDArray × DType} (ha : a.2 = .float) :
    DState.Floats { s with cells := s.cells.set c a } := by
  refine ⟨?_, h.facs, h.arrs, h.trees⟩
  intro b hb
  rcases List.mem_or_eq_of_mem_set hb with hb | rfl
  · exact h.cells b hb
  · exact ha

theorem Floats.assignTo {s : DState} (h : s.Floats) (idx : List Nat) (x : ℚ) (t : DTab) :
    (s.assignTo idx x t).1.Floats := by
  cases t with
  | num y d => exact h
  | cell c =>
    unfold DState.assignTo
    dsimp only
    cases assign (s.typed (.cell c)).1 idx ((s.typed (.cell c)).2.cast x) with
    | error e => exact h
    | ok a => exact h.setCell c (h.typed (t := .cell c) (fun _ _ hh => by cases hh))

theorem Floats.withVar {s : DState} (h : s.Floats) {α : Type} {P : α → Prop} {x : Except PyErr α}
    (hx : Ensures P x) {f : α → DState × Option PyErr} (hf : ∀ a, P a → (f a).1.Floats) :
    (s.withVar x f).1.Floats := by
  cases x with
  | error e => exact h
  | ok a => exact hf a (hx a rfl)

theorem Floats.stepFactor {s : DState} (h : s.Floats) (c : Cmd) : (s.stepFactor c).1.Floats := by
  by_cases hnew : isNew c = true
  · have := h.push (h.made c)
    cases c with
    | normalize | getPotential | write | poke | relabel | reorder => cases hnew
    | _ => exact this
  · have hv : ∀ i, Ensures (fun F => F ∈ s.facs) (var s.facs i) := fun i F hF => var_mem hF
    have ha : ∀ i, Ensures (fun F => F ∈ s.arrs) (var s.arrs i) := fun i F hF => var_mem hF
    cases c with
    | normalize i =>
      refine h.withVar (hv i) fun F hF => ?_
      have hd : (s.fac F).dt = .float := h.typed (h.facs F hF)
      obtain ⟨u, h1, -, h3, -⟩ := normalize_val hd
      refine h.withVar (P := fun t => t = u) (fun t ht => by rw [h1] at ht; cases ht; rfl) fun t ht => ?_
      subst ht
      unfold setTable
      split
      · exact h.setFac i (fun x d hd => by cases hd; exact h3)
      · exact h.setCell _ h3
    | getPotential i vars =>
      refine h.withVar (hv i) fun F hF => ?_
      split
      · refine h.withVar (P := fun _ => True) (fun _ _ => trivial) fun _ _ => ⟨h.cells, h.facs, ?_, h.trees⟩
        intro t ht
        rcases List.mem_append.1 ht with ht | ht
        · exact h.arrs t ht
        · rw [List.mem_singleton.1 ht]
          exact h.facs F hF
      · exact h.pushArr (h.typed (h.facs F hF)) _
    | write k idx x => exact h.withVar (ha k) fun t ht => h.assignTo idx x t
    | poke i idx x => exact h.withVar (hv i) fun t ht => h.assignTo idx x t.tab
    | relabel i v labels => exact h.withVar (hv i) fun F hF => h.setFac i (h.facs F hF)
    | reorder i order =>
      exact h.withVar (hv i) fun F hF => h.withVar (P := fun _ => True) (fun _ _ => trivial) fun _ _ =>
        h.setFac i (h.facs F hF)
    | _ => exact absurd rfl hnew

theorem ensures_fl {x : Except PyErr TFactor} {y : Except PyErr Factor} {R : TFactor → Factor → Prop}
    (h : Both R x y) (hR : ∀ t F, R t F → t.dt = .float) : Ensures IsFloat x := by
  cases h with
  | ok h => exact Ensures.pure (hR _ _ h)
  | error e => intro a ha; cases ha

theorem Floats.setTree {s : DState} (h : s.Floats) (i : Nat) {r : TRes} {q : JRes} (hr : TTree.FR r q) :
    (s.setTree i r).1.Floats :=
  ⟨h.cells, h.facs, h.arrs, (setTree_dr h.trees i hr).trees⟩

theorem Floats.step {s : DState} (h : s.Floats) (c : Stmt) : (s.step c).1.Floats := by
  cases c with
  | factor c => exact h.stepFactor c
  | copyArr k => exact h.withVar (h.arr k) fun t ht => h.pushArr ht _
  | naive so net vars ev =>
    exact h.push (Ensures.bindAny fun tn => Ensures.bindAny fun te =>
      ensures_fl (TVE.naive_fl so tn vars te) fun t F h => h.2.1)
  | bucket so net vars ev order =>
    exact h.push (Ensures.bindAny fun tn => Ensures.bindAny fun te =>
      ensures_fl (TVE.bucket_fl so tn vars te order) fun t F h => h.2.1)
  | marginals so limit i vars =>
    refine h.withVar (P := fun t => t ∈ s.trees) (fun t ht => var_mem ht) fun t ht => ?_
    obtain ⟨h1, h2⟩ := TTree.marginals_ft so limit vars (h.trees t ht).ft
    refine Floats.push (s := { s with trees := s.trees.set i (t.marginals so limit vars).1 })
      ⟨h.cells, h.facs, h.arrs, ?_⟩ (ensures_fl h2 fun t F h => h.1.2)
    intro t' ht'
    rcases List.mem_or_eq_of_mem_set ht' with ht' | rfl
    · exact h.trees t' ht'
    · exact h1.allFloat
  | tree so net order =>
    refine h.withVar (P := fun _ => True) (fun _ _ => trivial) fun tn _ => ?_
    refine h.withVar (P := TTree.AllFloat) (fun t ht => ?_) fun t ht => ⟨h.cells, h.facs, h.arrs, ?_⟩
    · have := TTree.create_ft so tn order
      rw [ht] at this
      generalize JoinTree.create so _ order = y at this
      cases this with
      | ok hd => exact hd.allFloat
    · intro t' ht'
      rcases List.mem_append.1 ht' with ht' | ht'
      · exact h.trees t' ht'
      · rw [List.mem_singleton.1 ht']
        exact ht
  | reset so i net =>
    refine h.withVar (P := fun _ => True) (fun _ _ => trivial) fun tn _ => ?_
    exact h.withVar (P := fun t => t ∈ s.trees) (fun t ht => var_mem ht) fun t ht =>
      h.setTree i (TTree.reset_ft so tn (h.trees t ht).ft)
  | calculate so limit i =>
    exact h.withVar (P := fun t => t ∈ s.trees) (fun t ht => var_mem ht) fun t ht =>
      h.setTree i (TTree.calculate_ft so limit (h.trees t ht).ft)
  | setEvidence so limit i net ev soft =>
    refine h.withVar (P := fun _ => True) (fun _ _ => trivial) fun tn _ => ?_
    refine h.withVar (P := fun _ => True) (fun _ _ => trivial) fun te _ => ?_
    exact h.withVar (P := fun t => t ∈ s.trees) (fun t ht => var_mem ht) fun t ht =>
      h.setTree i (TTree.setEvidence_ft so limit tn te soft (h.trees t ht).ft)

theorem Floats.allHarmless {s : DState} (h : s.Floats) (cs : List Stmt) : s.AllHarmless cs := by
  induction cs generalizing s with
  | nil => trivial
  | cons c cs ih => exact ⟨h.harmless c, ih (h.step c)⟩

end DState
end Primo.Typed
