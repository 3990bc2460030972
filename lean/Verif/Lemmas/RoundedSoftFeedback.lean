import Verif.Lemmas.RoundedRun

/-! # Soft-evidence feedback with rounded arithmetic -/

namespace Primo
open JoinTree

theorem softDrift_snoc (d : DBN) (es : List (Dict Evidence)) (e : Dict Evidence) :
    d.softDrift (es ++ [e]) = (d.transitions.map fun tr =>
      d.softDrift es + 2 * treeRoundings (d.slice es.length) (d.entryRoundings es.length e) [tr.2]).sum := by
  unfold DBN.softDrift
  rw [List.foldl_append]
  have : ∀ (es : List (Dict Evidence)) (s : Nat × Nat),
      (es.foldl (fun s e => (s.1 + 1, (d.transitions.map fun tr =>
        s.2 + 2 * treeRoundings (d.slice s.1) (d.entryRoundings s.1 e) [tr.2]).sum)) s).1 = s.1 + es.length := by
    intro es
    induction es with
    | nil => intro s; rfl
    | cons e es ih => intro s; rw [List.foldl_cons, ih]; simp; omega
  simp only [List.foldl_cons, List.foldl_nil]
  rw [this]
  simp

theorem softRoundings_overridden (d : DBN) (es : List (Dict Evidence)) (e : Dict Evidence) {te : Dict (List ℚ)}
    (hk : te.keys = (d.carried es).keys) :
    softRoundings (d.slice es.length) (overridden te e) = d.entryRoundings es.length e := by
  rw [DBN.carried_keys] at hk
  have : (overridden te e).keys = d.entered es.length e := by
    unfold overridden Dict.keys at *
    unfold DBN.entered Dict.keys
    rw [List.map_append, List.map_map, hk]
    rw [show te.map (Prod.fst ∘ fun p => (p.1, Evidence.soft p.2)) = te.map Prod.fst from rfl, hk]
    by_cases h : es = []
    · subst h
      simp
    · rw [if_neg h, if_neg (by simpa using h), List.filter_map]
      rfl
  unfold softRoundings DBN.entryRoundings
  rw [← this]
  simp [Dict.keys, Function.comp_def]

theorem softRoundings_perm {bn : BN} {ev ev' : Dict Evidence} (h : ev.Perm ev') :
    softRoundings bn ev = softRoundings bn ev' := (h.map _).sum_eq

/-! ## evidence with arrays that have nearly the same ratios -/

/-- arrays of the same length with skewed entries -/
structure ArraySkew (u : ℚ) (k : Nat) (l l₀ : List ℚ) : Prop where
  length : l.length = l₀.length
  skew : Skew (fun i => i < l₀.length) u k (fun i => l.getD i 0) fun i => l₀.getD i 0

/-- the same variables, with the same evidence or skewed arrays -/
def EvSkew (u : ℚ) (κ : Name → Nat) (p q : Name × Evidence) : Prop :=
  p.1 = q.1 ∧ (p.2 = q.2 ∨ ∃ l l₀, p.2 = .soft l ∧ q.2 = .soft l₀ ∧ ArraySkew u (κ q.1) l l₀)

section
variable {u : ℚ} {κ : Name → Nat} {bn : BN} {ev ev₀ : Dict Evidence}

theorem EvSkew.keys (h : List.Forall₂ (EvSkew u κ) ev ev₀) : ev.keys = ev₀.keys := by
  unfold Dict.keys
  induction h with
  | nil => rfl
  | cons h _ ih => rw [List.map_cons, List.map_cons, h.1, ih]

theorem EvSkew.mem (h : List.Forall₂ (EvSkew u κ) ev ev₀) {p : Name × Evidence} (hp : p ∈ ev) :
    ∃ q ∈ ev₀, EvSkew u κ p q := by
  induction h with
  | nil => simp at hp
  | cons h _ ih =>
    rcases List.mem_cons.1 hp with rfl | hp
    · exact ⟨_, by simp, h⟩
    · obtain ⟨q, h1, h2⟩ := ih hp
      exact ⟨q, by simp [h1], h2⟩

theorem EvSkew.get (h : List.Forall₂ (EvSkew u κ) ev ev₀) (v : Name) :
    (ev.get? v = none ∧ ev₀.get? v = none) ∨
      ∃ e e₀, ev.get? v = some e ∧ ev₀.get? v = some e₀ ∧ (v, e₀) ∈ ev₀ ∧ EvSkew u κ (v, e) (v, e₀) := by
  induction h with
  | nil => exact Or.inl ⟨rfl, rfl⟩
  | @cons p q ev ev₀ h _ ih =>
    obtain ⟨a, e⟩ := p
    obtain ⟨b, e₀⟩ := q
    obtain ⟨h1, h2⟩ := h
    dsimp only at h1
    subst h1
    unfold Dict.get?
    by_cases hv : a = v
    · subst hv
      rw [if_pos rfl, if_pos rfl]
      exact Or.inr ⟨e, e₀, rfl, rfl, by simp, rfl, h2⟩
    · rw [if_neg hv, if_neg hv]
      rcases ih with ih | ⟨x, y, h3, h4, h5, h6⟩
      · exact Or.inl ih
      · exact Or.inr ⟨x, y, h3, h4, by simp [h5], h6⟩

theorem EvSkew.legal (h : List.Forall₂ (EvSkew u κ) ev ev₀) (he : LegalEvidence bn ev₀) : LegalEvidence bn ev := by
  refine ⟨by rw [EvSkew.keys h]; exact he.nodup, fun p hp => ?_, fun v x hm => ?_, fun v l hm => ?_⟩
  · obtain ⟨q, h1, h2⟩ := EvSkew.mem h hp
    rw [h2.1]
    exact he.mem q h1
  · obtain ⟨⟨v', e⟩, h1, h2, h3⟩ := EvSkew.mem h hm
    dsimp only at h2 h3
    subst h2
    rcases h3 with rfl | ⟨l, l₀, h3, -⟩
    · exact he.hard _ _ h1
    · cases h3
  · obtain ⟨⟨v', e⟩, h1, h2, h3⟩ := EvSkew.mem h hm
    dsimp only at h2 h3
    subst h2
    rcases h3 with rfl | ⟨l', l₀, h3, rfl, h4⟩
    · exact he.soft _ _ h1
    · cases h3
      rw [h4.length]
      exact he.soft _ _ h1

theorem getD_of_lt {l : List ℚ} {i : Nat} (h : i < l.length) : l.getD i 0 = l[i] := by
  rw [List.getD_eq_getElem?_getD, List.getElem?_eq_getElem h, Option.getD_some]

theorem ArraySkew.nonneg {k : Nat} {l l₀ : List ℚ} (h : ArraySkew u k l l₀) : ∀ x ∈ l, 0 ≤ x := by
  intro x hx
  obtain ⟨i, hi, rfl⟩ := List.getElem_of_mem hx
  have := h.skew.left i (h.length ▸ hi)
  rwa [getD_of_lt hi] at this

theorem EvSkew.supported (h : List.Forall₂ (EvSkew u κ) ev ev₀) (he : LegalEvidence bn ev₀) (hs : Supported bn ev₀) :
    Supported bn ev := by
  intro v l hm
  obtain ⟨⟨v', e⟩, h1, h2, h3⟩ := EvSkew.mem h hm
  dsimp only at h2 h3
  subst h2
  rcases h3 with rfl | ⟨l', l₀, h3, rfl, h4⟩
  · exact hs _ _ h1
  · cases h3
    obtain ⟨s1, ⟨x, hx, hx0⟩, s3⟩ := hs _ _ h1
    refine ⟨h4.nonneg, ?_, fun i hi hp => ?_⟩
    · obtain ⟨i, hi, rfl⟩ := List.getElem_of_mem hx
      have hi' : i < l.length := h4.length ▸ hi
      refine ⟨l[i], List.getElem_mem _, fun e => hx0 ?_⟩
      have := (h4.skew.zero i hi).1 (by rw [getD_of_lt hi', e])
      rwa [getD_of_lt hi] at this
    · have hi' : i < l₀.length := by rw [he.soft _ _ h1]; exact hi
      exact (h4.skew.zero i hi').2 (s3 i hi hp)

theorem ratio_getD (bn : BN) (v : Name) (l : List ℚ) {i : Nat} (hi : i < bn.card v) :
    (ratio bn v l).getD i 0 = l.getD i 0 * (if priorAt bn v i = 0 then 0 else 1 / priorAt bn v i) := by
  unfold ratio
  rw [getD_of_lt (by simpa using hi), List.getElem_map, List.getElem_range]
  split
  · rw [mul_zero]
  · rw [mul_one_div]

theorem get?_softened (bn : BN) (ev : Dict Evidence) (v : Name) : (softened bn ev).get? v = (ev.get? v).map fun e =>
    match e with
    | .hard x => .hard x
    | .soft l => .soft (ratio bn v l) := by
  induction ev with
  | nil => rfl
  | cons p ev ih =>
    obtain ⟨k, e⟩ := p
    change (if k = v then _ else _) = _
    rw [Dict.get?]
    by_cases h : k = v
    · subst h
      rw [if_pos rfl, if_pos rfl]
      rfl
    · rw [if_neg h, if_neg h]
      exact ih

theorem EvSkew.likAt (hu : u < 1) (hn : bn.NonNeg) (h : List.Forall₂ (EvSkew u κ) ev ev₀)
    (he : LegalEvidence bn ev₀) (hs : Supported bn ev₀) {v : Name} :
    Skew (fun i => i < bn.card v) u (κ v) (Primo.likAt bn (softened bn ev) v) (Primo.likAt bn (softened bn ev₀) v) ∨
    Skew (fun i => i < bn.card v) u 0 (Primo.likAt bn (softened bn ev) v) (Primo.likAt bn (softened bn ev₀) v) := by
  have hnn := NonNegEvidence.softened hn hs
  have same : Primo.likAt bn (softened bn ev) v = Primo.likAt bn (softened bn ev₀) v →
      Skew (fun i => i < bn.card v) u 0 (Primo.likAt bn (softened bn ev) v) (Primo.likAt bn (softened bn ev₀) v) := by
    intro e
    rw [e]
    exact .rfl' fun i _ => likAt_nonneg hnn v i
  rcases EvSkew.get h v with ⟨h1, h2⟩ | ⟨e, e₀, h1, h2, h3, -, h4⟩
  · refine Or.inr (same ?_)
    funext i
    unfold Primo.likAt
    rw [get?_softened, get?_softened, h1, h2]
  · dsimp only at h4
    rcases h4 with rfl | ⟨l, l₀, rfl, rfl, h4⟩
    · refine Or.inr (same ?_)
      funext i
      unfold Primo.likAt
      rw [get?_softened, get?_softened, h1, h2]
    · left
      have hlen := he.soft _ _ h3
      have hsk := h4.skew
      rw [hlen] at hsk
      have := hsk.mul hu (m := 0) (f' := fun i => if priorAt bn v i = 0 then 0 else 1 / priorAt bn v i)
        (g' := fun i => if priorAt bn v i = 0 then 0 else 1 / priorAt bn v i) (.rfl' fun i _ => by
          split
          · exact le_rfl
          · exact one_div_nonneg.2 (priorAt_nonneg hn v i))
      refine this.congr (fun i hi => ?_) fun i hi => ?_
      · unfold Primo.likAt
        rw [get?_softened, h1]
        exact ratio_getD bn v l hi
      · unfold Primo.likAt
        rw [get?_softened, h2]
        exact ratio_getD bn v l₀ hi

theorem EvSkew.nets (h0 : 0 ≤ u) (hu : u < 1) (hc : bn.Consistent) (hn : bn.NonNeg)
    (h : List.Forall₂ (EvSkew u κ) ev ev₀) (he : LegalEvidence bn ev₀) (hs : Supported bn ev₀) {k : Nat}
    (hk : (bn.names.map κ).sum ≤ k) : SkewNets u k bn (softened bn ev) bn (softened bn ev₀) := by
  refine skewNets h0 hu rfl rfl hc.nodup he.softened (EvSkew.legal h he).softened (κ := κ) (fun v hv => ?_) hk
  obtain ⟨n, hm, rfl⟩ := BN.exists_of_mem_names hv
  have h1 : Skew (fun i => i < bn.card n.name) u (κ n.name) (Primo.likAt bn (softened bn ev) n.name)
      (Primo.likAt bn (softened bn ev₀) n.name) := by
    rcases EvSkew.likAt hu hn h he hs (v := n.name) with h1 | h1
    · exact h1
    · exact h1.mono h0 hu (Nat.zero_le _)
  have h2 := h1.comap (Q := Legal bn.card bn.names) (p := fun ρ : Assign => ρ n.name) fun ρ hρ => hρ _ hv
  have h3 : Skew (Legal bn.card bn.names) u 0 (Primo.entryOf bn n.name) (Primo.entryOf bn n.name) :=
    .rfl' fun ρ _ => by
      rw [entryOf_of_mem hc.nodup hm]
      exact NDArray.get_nonneg (hn n hm) _
  have := h3.mul hu h2
  rwa [Nat.zero_add] at this

end

/-! ## arrays that are carried over -/

/-- arrays on the same variables with skewed entries -/
def CarriedSkew (u : ℚ) (κ : Name → Nat) (te te₀ : Dict (List ℚ)) : Prop :=
  List.Forall₂ (fun p q => p.1 = q.1 ∧ ArraySkew u (κ q.1) p.2 q.2) te te₀

theorem CarriedSkew.keys {u : ℚ} {κ : Name → Nat} {te te₀ : Dict (List ℚ)} (h : CarriedSkew u κ te te₀) :
    te.keys = te₀.keys := by
  unfold Dict.keys
  induction h with
  | nil => rfl
  | cons h _ ih => rw [List.map_cons, List.map_cons, h.1, ih]

theorem CarriedSkew.overridden {u : ℚ} {κ : Name → Nat} {te te₀ : Dict (List ℚ)} (h : CarriedSkew u κ te te₀)
    (ev : Dict Evidence) : List.Forall₂ (EvSkew u κ) (overridden te ev) (overridden te₀ ev) := by
  unfold Primo.overridden
  rw [h.keys]
  refine List.rel_append (List.forall₂_same.2 fun p _ => ⟨rfl, Or.inl rfl⟩) ?_
  rw [List.forall₂_map_left_iff, List.forall₂_map_right_iff]
  exact List.Forall₂.imp (fun p q hpq => ⟨hpq.1, Or.inr ⟨p.2, q.2, rfl, rfl, hpq.2⟩⟩) h

theorem forall₂_mem_right {α β : Type} {R : α → β → Prop} {l : List α} {m : List β} (h : List.Forall₂ R l m) :
    List.Forall₂ (fun a b => R a b ∧ b ∈ m) l m := by
  induction h with
  | nil => exact .nil
  | cons h _ ih => exact .cons ⟨h, by simp⟩ (ih.imp fun a b hab => ⟨hab.1, by simp [hab.2]⟩)

theorem JTree.Nearly.perm {A : Arith} {u : ℚ} {bn : BN} {t : JTree} {k : List Name → Nat} {ev ev' : Dict Evidence}
    (h : t.Nearly A u k bn ev) (hp : ev.Perm ev') : t.Nearly A u k bn ev' :=
  ⟨h.valid, h.sane, h.family, by rw [← posterior_perm hp]; exact h.answer⟩

/-- arrays that can be carried over when the answers of each slice are rounded -/
inductive CarriedNear (u : ℚ) (d : DBN) : List (Dict Evidence) → Dict (List ℚ) → Prop
  | start : CarriedNear u d [] []
  | next {es : List (Dict Evidence)} {te te' : Dict (List ℚ)} {e : Dict Evidence} : CarriedNear u d es te →
      LegalEvidence (d.slice es.length) (overridden te e) → Supported (d.slice es.length) (overridden te e) →
      List.Forall₂ (fun (p : Name × List ℚ) (tr : Name × Name) => p.1 = tr.1 ∧
        p.2.length = (d.slice es.length).card tr.2 ∧ ∀ i < (d.slice es.length).card tr.2,
          Near u (treeRoundings (d.slice es.length) (d.entryRoundings es.length e) [tr.2]) (p.2.getD i 0)
            (posterior (d.slice es.length) (softened (d.slice es.length) (overridden te e)) [tr.2] fun _ => i))
        te' d.transitions →
      CarriedNear u d (es ++ [e]) te'

namespace SoftFeedback

/-- the call with rounded arithmetic: state afterwards, and the exception if it raised one -/
def callR (A : Arith) : DynOp → SoftFeedback → SRes
  | .setEvidence so limit ev, s => s.setEvidenceR A so limit ev
  | .unroll so limit ev soft, s => s.unrollR A so limit ev soft.isSome
  | .marginals so limit vs, s =>
    let r := s.marginalsR A so limit vs
    (r.1, match r.2 with
      | .ok _ => none
      | .error e => some e)

/-- the state after a history of calls with rounded arithmetic, whether they raised or not -/
def runsR (A : Arith) (ops : List DynOp) (s : SoftFeedback) : SoftFeedback :=
  ops.foldl (fun s op => (callR A op s).1) s

theorem feedR_near {A : Arith} {u : ℚ} (so : SetOrder) (limit : Nat) {net : BN} {ev : Dict Evidence}
    {k : List Name → Nat} (trs : List (Name × Name)) (s : SoftFeedback) {f : SliceTree} (hf : s.ft = some f)
    (hx : f.tree.Nearly A u k net ev) (hnd : (trs.map Prod.fst).Nodup)
    (hnew : ∀ tr ∈ trs, tr.1 ∉ s.transitionEvidence.keys) (hsrc : ∀ tr ∈ trs, tr.2 ∈ net.names) :
    ∃ te L, feedR A so limit trs s = ({ s with transitionEvidence := te }, none) ∧
      arrays te = arrays s.transitionEvidence ++ L ∧
      List.Forall₂ (fun (p : Name × List ℚ) (tr : Name × Name) => p.1 = tr.1 ∧ p.2.length = net.card tr.2 ∧
        ∀ i < net.card tr.2, Near u (k [tr.2]) (p.2.getD i 0) (posterior net ev [tr.2] fun _ => i)) L trs := by
  induction trs generalizing s with
  | nil => exact ⟨s.transitionEvidence, [], rfl, by simp, .nil⟩
  | cons tr trs ih =>
    obtain ⟨node, p⟩ := tr
    obtain ⟨r, r1, r2, r3, r4, r5, r6⟩ := hx.table (hsrc (node, p) (by simp)) so limit
    dsimp only at r1 r3 r4 r5 r6
    have ht : f.tableR A so limit p = (f, .ok r.potentials) := by
      unfold SliceTree.tableR SliceTree.marginalsR
      dsimp only
      rw [r1]
      dsimp only
      rw [ok_bind, r2]
    have hnd' := List.nodup_cons.1 hnd
    dsimp only at hnd'
    have hset : s.transitionEvidence.set node r.potentials =
        s.transitionEvidence ++ [(node, r.potentials)] :=
      Dict.set_of_not_mem _ (hnew (node, p) (by simp))
    set s1 : SoftFeedback :=
      { s with ft := some f, transitionEvidence := s.transitionEvidence.set node r.potentials } with hs1
    obtain ⟨te, L, t1, t2, t3⟩ := ih s1 rfl hnd'.2
      (fun tr htr => by
        change tr.1 ∉ (s.transitionEvidence.set node r.potentials).keys
        rw [Dict.mem_keys_set]
        rintro (h | h)
        · exact hnd'.1 (h ▸ List.mem_map_of_mem htr)
        · exact hnew tr (by simp [htr]) h)
      (fun tr htr => hsrc tr (by simp [htr]))
    have hdata := NDArray.data_of_shape r5
    refine ⟨te, (node, r.potentials.data) :: L, ?_, ?_, .cons ⟨rfl, ?_, fun i hi => ?_⟩ t3⟩
    · rw [feedR, hf]
      dsimp only
      rw [ht]
      dsimp only
      rw [show ({ s with ft := some f, transitionEvidence :=
        s.transitionEvidence.set node r.potentials } : SoftFeedback) = s1 from rfl, t1]
    · rw [t2]
      change arrays (s.transitionEvidence.set node r.potentials) ++ _ = _
      rw [hset, arrays, List.map_append, ← arrays, List.append_assoc]
      rfl
    · dsimp only
      rw [hdata]
      simp
    · dsimp only at hi ⊢
      rw [hdata, getD_of_lt (by simpa using hi), List.getElem_map, List.getElem_range]
      exact r6 i hi

/-- the tree of the slice after `n` others -/
def Tree (A : Arith) (u : ℚ) (k : List Name → Nat) (n : Nat) (s : SoftFeedback) (net : BN) (e : Dict Evidence) : Prop :=
  ∃ f, s.ft = some f ∧ f.two = decide (n ≠ 0) ∧ f.tree.Nearly A u k net e

/-- the tree answers for this slice, with arrays that have nearly the right ratios -/
def Holds (A : Arith) (u : ℚ) (d : DBN) (es : List (Dict Evidence)) (e : Dict Evidence) (s : SoftFeedback) : Prop :=
  ∃ evR, Tree A u (treeRoundings (d.slice es.length) (d.entryRoundings es.length e)) es.length s (d.slice es.length)
      (softened (d.slice es.length) evR) ∧
    SkewNets u (d.softDrift es) (d.slice es.length) (softened (d.slice es.length) evR) (d.slice es.length)
      (softened (d.slice es.length) (overridden (d.carried es) e)) ∧
    LegalEvidence (d.slice es.length) evR ∧ LegalEvidence (d.slice es.length) (overridden (d.carried es) e) ∧
    ∃ te, CarriedNear u d es te ∧ evR = overridden te e ∧ Supported (d.slice es.length) evR

/-- the state agrees with the diary -/
structure TracksR (A : Arith) (u : ℚ) (d : DBN) (g : Diary) (s : SoftFeedback) : Prop where
  dbn : s.dbn = d
  time : s.t = g.past.length
  flag : s.evidence = g.now.isSome
  te : ∃ κ, CarriedSkew u κ (arrays s.transitionEvidence) (d.carried g.past) ∧
    ∀ names : List Name, names.Nodup → (names.map κ).sum ≤ d.softDrift g.past
  trace : CarriedNear u d g.past (arrays s.transitionEvidence)
  now : ∀ e, g.now = some e → Holds A u d g.past e s
  old : g.now = none → (g.past = [] ∧ s.ft = none) ∨ ∃ past e, g.past = past ++ [e] ∧ Holds A u d past e s

section
variable {A : Arith} {u : ℚ} {d : DBN} {g : Diary} {s : SoftFeedback} {limit : Nat} {ev : Option (Dict Evidence)}

theorem TracksR.tree (ht : TracksR A u d g s) (h2 : 2 ≤ s.t) :
    ∃ f, s.ft = some f ∧ f.two = true ∧ f.tree.Sane u d.twoTbn := by
  have hlen : 2 ≤ g.past.length := ht.time ▸ h2
  have key : ∀ past e, past ≠ [] → Holds A u d past e s →
      ∃ f, s.ft = some f ∧ f.two = true ∧ f.tree.Sane u d.twoTbn := by
    rintro past e hp ⟨evR, ⟨f, h1, h3, h4⟩, -⟩
    have hp' : past.length ≠ 0 := by simpa using hp
    refine ⟨f, h1, by rw [h3]; exact decide_eq_true hp', ?_⟩
    have := h4.sane
    unfold DBN.slice at this
    rwa [if_neg hp'] at this
  cases hn : g.now with
  | some e => exact key _ e (by rintro h; rw [h] at hlen; simp at hlen) (ht.now e hn)
  | none =>
    rcases ht.old hn with ⟨h1, -⟩ | ⟨past, e, h1, h3⟩
    · rw [h1] at hlen; simp at hlen
    · refine key past e ?_ h3
      rintro rfl
      rw [h1] at hlen
      simp at hlen

theorem setInnerR_near (hA : A.Accurate u) (h : d.SoftReady) (ht : TracksR A u d g s) (so : SetOrder)
    (ha : d.AllowsSoft g.past limit (ev.getD [])) :
    ∃ f, setInnerR A so limit ev s = ({ s with ft := some f }, none) ∧
      Holds A u d g.past (ev.getD []) { s with ft := some f } := by
  obtain ⟨a1, a2, a3⟩ := ha
  obtain ⟨n1, n2, n3⟩ := h.net g.past.length
  have hn : s.sliceNet = d.slice g.past.length := by
    unfold sliceNet DBN.slice; rw [ht.time, ht.dbn]
  obtain ⟨κ, k1, k2⟩ := ht.te
  have hkd : s.transitionEvidence.keys.Nodup := by
    rw [← keys_arrays, k1.keys, DBN.carried_keys]
    split
    · exact List.nodup_nil
    · exact h.targets
  set evR := overridden (arrays s.transitionEvidence) (ev.getD []) with hevR
  have hpm : (s.sliceEvidence ev).Perm evR := by
    unfold sliceEvidence
    split
    · rename_i h0
      have h0' : g.past = [] := List.length_eq_zero_iff.1 (ht.time ▸ h0)
      have : arrays s.transitionEvidence = [] := by
        have := k1.keys
        rw [h0'] at this
        simpa [DBN.carried, Dict.keys] using this
      rw [hevR, this]
      simp [Primo.overridden, Dict.keys]
    · exact update_perm _ _ a1.nodup hkd
  have hle₀ := LegalEvidence.overridden h a1
  have hsk := k1.overridden (ev.getD [])
  have hle := EvSkew.legal hsk hle₀
  have hsup := EvSkew.supported hsk hle₀ a2
  have hnets := EvSkew.nets hA.nonneg hA.lt_one n1.consistent n2 hsk hle₀ a2 (k2 _ n1.consistent.nodup)
  have hround : softRoundings (d.slice g.past.length) (s.sliceEvidence ev) =
      d.entryRoundings g.past.length (ev.getD []) := by
    rw [softRoundings_perm hpm]
    exact softRoundings_overridden d g.past _ k1.keys
  -- the evidence is entered into any sane tree
  have enter : ∀ t : JTree, t.Sane u (d.slice g.past.length) → ∃ t',
      t.setEvidenceR A so limit (d.slice g.past.length) (s.sliceEvidence ev) true = (t', none) ∧
      t'.Nearly A u (treeRoundings (d.slice g.past.length) (d.entryRoundings g.past.length (ev.getD [])))
        (d.slice g.past.length) (softened (d.slice g.past.length) evR) := by
    intro t hs
    obtain ⟨t', b1, b2⟩ := hs.setSoft hA n1 n2 n3 (hle.perm hpm.symm) (hsup.perm hpm.symm) a3 so
    rw [hround] at b2
    exact ⟨t', b1, b2.perm (softened_perm hpm)⟩
  by_cases h1 : s.t ≤ 1
  · have hn' : (if decide (s.t = 1) = true then s.dbn.twoTbn else s.dbn.b0) = d.slice g.past.length := by
      rw [← hn]
      unfold sliceNet
      rcases Nat.le_one_iff_eq_zero_or_eq_one.1 h1 with h | h <;> simp [h]
    obtain ⟨t0, b1, b2⟩ := sane_create hA n1 n2 so
    obtain ⟨t1, c1, c2⟩ := enter t0 b2
    refine ⟨⟨decide (s.t = 1), t1⟩, ?_, evR, ⟨_, rfl, ?_, c2⟩, hnets, hle, hle₀, _, ht.trace, hevR, hsup⟩
    · unfold setInnerR
      rw [if_pos h1]
      have : SliceTree.createR A so s.dbn (decide (s.t = 1)) = .ok ⟨decide (s.t = 1), t0⟩ := by
        unfold SliceTree.createR
        rw [hn', b1, ok_bind]
        rfl
      rw [this]
      dsimp only [enterR, SliceTree.setEvidenceR, SliceTree.net]
      unfold sliceEvidence at c1
      rw [hn', c1]
    · dsimp only
      rw [← ht.time, decide_eq_decide]
      omega
  · obtain ⟨f, hf, f1, f2⟩ := ht.tree (by omega)
    have hnt : d.twoTbn = d.slice g.past.length := by
      unfold DBN.slice; rw [if_neg (by rw [← ht.time]; omega)]
    have hnf : f.net s.dbn = d.slice g.past.length := by rw [SliceTree.net, f1, ht.dbn, ← hnt]; rfl
    rw [hnt] at f2
    obtain ⟨t1, c1, c2⟩ := enter f.tree f2
    refine ⟨⟨f.two, t1⟩, ?_, evR, ⟨_, rfl, ?_, c2⟩, hnets, hle, hle₀, _, ht.trace, hevR, hsup⟩
    · unfold setInnerR
      rw [if_neg h1, hf]
      dsimp only [enterR, SliceTree.setEvidenceR]
      unfold sliceEvidence at c1
      rw [if_neg (by omega)] at c1
      rw [hnf, c1]
    · dsimp only
      rw [f1, ← ht.time]
      exact (decide_eq_true (by omega)).symm

theorem tracksR_create (d : DBN) : TracksR A u d ⟨[], none⟩ (create d) :=
  ⟨rfl, rfl, rfl, ⟨fun _ => 0, List.Forall₂.nil, by simp⟩, .start, fun e he => (by cases he), fun _ => Or.inl ⟨rfl, rfl⟩⟩

theorem TracksR.setEvidence (hA : A.Accurate u) (h : d.SoftReady) (ht : TracksR A u d g s) (so : SetOrder)
    (ha : d.AllowsSoft g.past limit (ev.getD [])) :
    ∃ s', s.setEvidenceR A so limit ev = (s', none) ∧ TracksR A u d { g with now := some (ev.getD []) } s' := by
  obtain ⟨f, h1, evR, ⟨f', h2, h3⟩, h4⟩ := setInnerR_near hA h ht so ha
  have he : s.setEvidenceR A so limit ev = ({ s with ft := some f, evidence := true }, none) := by
    unfold SoftFeedback.setEvidenceR
    rw [h1]
  refine ⟨_, he, ht.dbn, ht.time, rfl, ht.te, ht.trace, fun e h => ?_, fun h => (by cases h)⟩
  injection h with h
  subst h
  exact ⟨evR, ⟨f', h2, h3⟩, h4⟩

theorem TracksR.marginals (ht : TracksR A u d g s) (so : SetOrder) (limit : Nat) (vs : List Name) :
    (s.marginalsR A so limit vs).1 = s := by
  have key : ∀ es e, Holds A u d es e s → (s.marginalsR A so limit vs).1 = s := by
    rintro es e ⟨evR, ⟨f, hf, -, hx⟩, -⟩
    unfold SoftFeedback.marginalsR
    rw [hf]
    dsimp only [SliceTree.marginalsR]
    rw [hx.fixed]
    obtain ⟨d, t, ev, ft, te⟩ := s
    dsimp only at hf ⊢
    rw [hf]
  cases hn : g.now with
  | some e => exact key _ _ (ht.now e hn)
  | none =>
    rcases ht.old hn with ⟨-, hf⟩ | ⟨past, e, -, hx⟩
    · unfold SoftFeedback.marginalsR
      rw [hf]
    · exact key _ _ hx

theorem TracksR.unroll (hA : A.Accurate u) (h : d.SoftReady) (ht : TracksR A u d g s) (so : SetOrder)
    (ha : d.AllowsSoft g.past limit ((ev.or g.now).getD [])) :
    ∃ s', s.unrollR A so limit ev false = (s', none) ∧
      TracksR A u d ⟨g.past ++ [(ev.or g.now).getD []], none⟩ s' := by
  have hb : ∃ f, (if ¬ s.evidence = true ∨ ev ≠ none then
        if false = true then (s, some .typeError) else setInnerR A so limit ev s else (s, none)) =
      ({ s with ft := some f }, none) ∧ Holds A u d g.past ((ev.or g.now).getD []) { s with ft := some f } := by
    by_cases hc : ¬ s.evidence = true ∨ ev ≠ none
    · rw [if_pos hc, if_neg (by simp)]
      have : (ev.or g.now).getD [] = ev.getD [] := by
        cases ev with
        | some e => rfl
        | none =>
          have hs : s.evidence = false := by
            rcases hc with hc | hc
            · simpa using hc
            · exact absurd rfl hc
          rw [ht.flag] at hs
          have : g.now = none := by simpa using hs
          rw [this]; rfl
      rw [this] at ha ⊢
      exact setInnerR_near hA h ht so ha
    · rw [if_neg hc]
      push Not at hc
      obtain ⟨hc, rfl⟩ := hc
      rw [ht.flag] at hc
      obtain ⟨e, he⟩ := Option.isSome_iff_exists.1 hc
      obtain ⟨evR, ⟨f, hf, hx⟩, hh⟩ := ht.now e he
      rw [he]
      have hs : s = { s with ft := some f } := by
        obtain ⟨d, t, ev, ft⟩ := s
        dsimp only at hf ⊢
        rw [hf]
      exact ⟨f, by rw [← hs], evR, ⟨f, rfl, hx⟩, hh⟩
  obtain ⟨f, b1, evR, ⟨f', b2, b3, b4⟩, b5, b6, b7, te₀, b8, b9, b10⟩ := hb
  injection b2 with b2
  subst b2
  set e := (ev.or g.now).getD [] with he
  set s1 : SoftFeedback := { s with ft := some f } with hs1
  set net := d.slice g.past.length with hnet
  obtain ⟨n1, n2, n3⟩ := h.net g.past.length
  obtain ⟨te, L, f1, f2, f3⟩ := feedR_near so limit d.transitions { s1 with transitionEvidence := [] }
    (f := f) rfl b4 h.targets (by simp [Dict.keys]) (fun tr htr => by
      rw [hnet]
      unfold DBN.slice
      split
      · exact (h.source tr htr).1
      · exact (h.source tr htr).2)
  have hu : unrollInnerR A so limit s1 = ({ s1 with transitionEvidence := te, t := s.t + 1 }, none) := by
    unfold unrollInnerR
    have : s1.dbn.transitions = d.transitions := by
      change s.dbn.transitions = _
      rw [ht.dbn]
    rw [this, f1]
  have hr : s.unrollR A so limit ev false =
      ({ s1 with transitionEvidence := te, t := s.t + 1, evidence := false }, none) := by
    unfold unrollR
    dsimp only
    rw [b1]
    dsimp only
    rw [hu]
  refine ⟨_, hr, ht.dbn, ?_, rfl, ?_, ?_, fun e he => (by cases he),
    fun _ => Or.inr ⟨g.past, e, rfl, evR, ⟨f, rfl, b3, b4⟩, b5, b6, b7, te₀, b8, b9, b10⟩⟩
  · dsimp only
    rw [ht.time]
    simp
  · dsimp only
    set c : Name × Name → Nat := fun tr =>
      d.softDrift g.past + 2 * treeRoundings net (d.entryRoundings g.past.length e) [tr.2] with hc
    refine ⟨fun v => (d.transitions.map fun tr => if tr.1 = v then c tr else 0).sum, ?_, fun names hnd => ?_⟩
    · unfold CarriedSkew
      have f2' : arrays te = L := f2
      rw [f2', DBN.carried_append, DBN.carry, List.forall₂_map_right_iff]
      refine (forall₂_mem_right f3).imp ?_
      rintro p tr ⟨⟨g1, g2, g3⟩, htr⟩
      refine ⟨g1, ⟨by rw [g2, List.length_map, List.length_range], ?_⟩⟩
      dsimp only
      rw [List.length_map, List.length_range]
      have s1 : Skew (fun i => i < net.card tr.2) u (2 * treeRoundings net (d.entryRoundings g.past.length e) [tr.2])
          (fun i => p.2.getD i 0) fun i => posterior net (softened net evR) [tr.2] fun _ => i :=
        Skew.of_near hA.lt_one g3
      have s2 := (b5.skew (Q := [tr.2]) n1.consistent n1.consistent b7.softened b6.softened).comap
        (Q := fun i => i < net.card tr.2) (p := fun i _ => i) fun i hi => by simpa [Legal] using hi
      have hle' : 2 * treeRoundings net (d.entryRoundings g.past.length e) [tr.2] + d.softDrift g.past ≤
          (d.transitions.map fun tr' => if tr'.1 = tr.1 then c tr' else 0).sum := by
        have := List.single_le_sum (fun _ _ => Nat.zero_le _) _
          (List.mem_map_of_mem (f := fun tr' : Name × Name => if tr'.1 = tr.1 then c tr' else 0) htr)
        rw [if_pos rfl] at this
        refine le_trans (le_of_eq ?_) this
        rw [hc]
        dsimp only
        omega
      refine ((s1.trans hA.lt_one s2).mono hA.nonneg hA.lt_one hle').congr (fun _ _ => rfl) fun i hi => ?_
      rw [getD_of_lt (by simpa using hi), List.getElem_map, List.getElem_range]
    · rw [softDrift_snoc]
      exact targets_sum c hnd
  · dsimp only
    have f2' : arrays te = L := f2
    rw [f2']
    rw [b9] at b6 b10 f3
    exact .next b8 b6 b10 f3

theorem TracksR.call (hA : A.Accurate u) (h : d.SoftReady) (ht : TracksR A u d g s) {op : DynOp}
    (ho : op.SoftFair d g) :
    ((∀ so limit vs, op ≠ .marginals so limit vs) → (SoftFeedback.callR A op s).2 = none) ∧
      TracksR A u d (g.note op) (SoftFeedback.callR A op s).1 := by
  cases op with
  | setEvidence so limit ev =>
    obtain ⟨s', h1, h2⟩ := ht.setEvidence hA h so ho
    dsimp only [SoftFeedback.callR]
    rw [h1]
    exact ⟨fun _ => rfl, h2⟩
  | unroll so limit ev soft =>
    obtain ⟨ho1, rfl⟩ := ho
    obtain ⟨s', h1, h3⟩ := ht.unroll hA h so ho1
    dsimp only [SoftFeedback.callR, Option.isSome_none]
    rw [h1]
    exact ⟨fun _ => rfl, h3⟩
  | marginals so limit vs =>
    refine ⟨fun hh => absurd rfl (hh so limit vs), ?_⟩
    have := ht.marginals so limit vs
    dsimp only [SoftFeedback.callR]
    rw [this]
    exact ht

theorem TracksR.runs (hA : A.Accurate u) (h : d.SoftReady) (ops : List DynOp) (ht : TracksR A u d g s)
    (ho : SoftFairHistory d g ops) : TracksR A u d (g.notes ops) (SoftFeedback.runsR A ops s) := by
  induction ops generalizing g s with
  | nil => exact ht
  | cons op ops ih => exact ih (ht.call hA h ho.1).2 ho.2

theorem Tree.answersR {n m : Nat} {k : List Name → Nat} {net : BN} {evR ev : Dict Evidence} (hu : u < 1)
    (h : Tree A u k n s net evR) (hs : SkewNets u m net evR net ev) :
    AnswersNear u (fun vs => k vs + m) (fun so limit vs => s.marginalsR A so limit vs) s net ev ∧
      AnswersDictNear u (fun vs => k vs + m) (fun so limit v => s.marginalProbabilitiesR A so limit v) s net ev := by
  obtain ⟨f, hf, -, hx⟩ := h
  have key : ∀ so limit vs r, f.tree.marginalsR A so limit vs = (f.tree, r) →
      s.marginalsR A so limit vs = (s, r) := by
    intro so limit vs r hr
    unfold SoftFeedback.marginalsR
    rw [hf]
    dsimp only [SliceTree.marginalsR]
    rw [hr]
    obtain ⟨a, b, c, d, g⟩ := s
    dsimp only at hf ⊢
    rw [hf]
  obtain ⟨h1, h2⟩ := hx.answers hu rfl hs
  refine ⟨fun n hn vs hvs so limit => ?_, fun v hv so limit => ?_⟩
  · obtain ⟨r, r1, r2⟩ := h1 n hn vs hvs so limit
    exact ⟨r, key _ _ _ _ r1, r2⟩
  · obtain ⟨ps, r1, r2⟩ := h2 v hv so limit
    refine ⟨ps, ?_, r2⟩
    have := congrArg Prod.fst r1
    dsimp only at this
    dsimp only [SoftFeedback.marginalProbabilitiesR]
    rw [key so limit [v] _ (Prod.ext this rfl)]
    have h3 := congrArg Prod.snd r1
    dsimp only at h3 ⊢
    rw [h3]

theorem answersR {es : List (Dict Evidence)} {e : Dict Evidence} (hu : u < 1) (h : Holds A u d es e s) :
    AnswersNear u (d.softFilterRoundings es e) (fun so limit vs => s.marginalsR A so limit vs) s (d.slice es.length)
        (softened (d.slice es.length) (overridden (d.carried es) e)) ∧
      AnswersDictNear u (d.softFilterRoundings es e) (fun so limit v => s.marginalProbabilitiesR A so limit v) s
        (d.slice es.length) (softened (d.slice es.length) (overridden (d.carried es) e)) := by
  obtain ⟨evR, ht, hs, -⟩ := h
  exact ht.answersR hu hs

end

/-! ### exact arithmetic gives the functions of `Verif/Dynamic.lean` -/

theorem setInnerR_exact (so : SetOrder) (limit : Nat) (ev : Option (Dict Evidence)) (s : SoftFeedback) :
    setInnerR .exact so limit ev s = setInner so limit ev s := by
  unfold setInnerR setInner enterR enter
  simp only [SliceTree.createR_exact, SliceTree.setEvidenceR_exact]
  rfl

theorem feedR_exact (so : SetOrder) (limit : Nat) : ∀ (trs : List (Name × Name)) (s : SoftFeedback),
    feedR .exact so limit trs s = feed so limit trs s
  | [], _ => rfl
  | (a, b) :: trs, s => by
    unfold feedR feed
    simp only [SliceTree.tableR_exact, feedR_exact so limit trs]
    rfl

theorem callR_exact (op : DynOp) (s : SoftFeedback) : callR .exact op s = call op s := by
  cases op with
  | setEvidence so limit ev =>
    simp only [callR, call, setEvidenceR, SoftFeedback.setEvidence, setInnerR_exact]
    rfl
  | unroll so limit ev soft =>
    simp only [callR, call, unrollR, SoftFeedback.unroll, unrollInnerR, unrollInner, setInnerR_exact, feedR_exact]
    rfl
  | marginals so limit vs =>
    simp only [callR, call, SoftFeedback.marginalsR, SoftFeedback.marginals, SliceTree.marginalsR_exact]
    rfl

theorem runsR_exact (ops : List DynOp) (s : SoftFeedback) : runsR .exact ops s = runs ops s := by
  unfold runsR runs
  simp only [callR_exact]

end SoftFeedback
end Primo
