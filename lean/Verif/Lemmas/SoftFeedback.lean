import Verif.Lemmas.Feedback
import Verif.Lemmas.Jeffrey

/-! # Histories of soft-evidence feedback -/

namespace Primo
open JoinTree Finset

/-- what soft-evidence feedback needs: as for prior feedback, but a transition target may have parents -/
structure DBN.SoftReady (d : DBN) : Prop where
  b0 : TreeSetup d.b0 none
  b0_nonneg : d.b0.NonNeg
  b0_connected : d.b0.Connected
  two : TreeSetup d.twoTbn none
  two_nonneg : d.twoTbn.NonNeg
  two_connected : d.twoTbn.Connected
  targets : (d.transitions.map Prod.fst).Nodup
  node : ∀ tr ∈ d.transitions, tr.1 ∈ d.twoTbn.names ∧ d.twoTbn.card tr.1 = d.b0.card tr.2 ∧
    d.twoTbn.card tr.1 = d.twoTbn.card tr.2
  source : ∀ tr ∈ d.transitions, tr.2 ∈ d.b0.names ∧ tr.2 ∈ d.twoTbn.names

theorem DBN.SoftReady.net {d : DBN} (h : d.SoftReady) (k : Nat) :
    TreeSetup (d.slice k) none ∧ (d.slice k).NonNeg ∧ (d.slice k).Connected := by
  unfold slice
  split
  · exact ⟨h.b0, h.b0_nonneg, h.b0_connected⟩
  · exact ⟨h.two, h.two_nonneg, h.two_connected⟩

theorem soft_exactly {bn : BN} (h : TreeSetup bn none) (hn : bn.NonNeg) (hco : bn.Connected)
    {ev : Dict Evidence} (he : LegalEvidence bn ev) (hsup : Supported bn ev) {limit : Nat}
    (hl : bn.length ≤ limit) (so so' : SetOrder) :
    ∃ t0, create so bn none = .ok t0 ∧ ∀ t : JTree, t.shape = t0.shape →
      ∃ t', t.setEvidence so' limit bn ev true = (t', none) ∧ t'.Exactly bn (softened bn ev) := by
  obtain ⟨t0, root, rvars, kids, others, a1, a3, a6, a7, -⟩ := h.made so
  have := a6 hco
  subst this
  refine ⟨t0, a1, fun t ht => ?_⟩
  obtain ⟨t', Φ, Ψ, c, b1, -, b3, b4⟩ := JTree.setEvidence_soft so' h.consistent hn (a3.of_shape ht) he hsup
    (lt_of_lt_of_le a7 hl)
  refine ⟨t', b1, b4.valid, fun n hn' => ?_, fun vs hvs so₃ limit' => ?_⟩
  · obtain ⟨q, hq, hqf⟩ := b4.sits.fam n hn'
    exact ⟨q.1, q.2, JTree.clique_iff_skel.2 hq, hqf⟩
  · obtain ⟨k, vars, hk, hkv⟩ := hvs
    obtain ⟨r, r1, r2, r3, r4⟩ := JTree.Ready.scaled so₃ b3 hn (NonNegEvidence.softened hn hsup) b4
      ⟨(k, vars), JTree.clique_iff_skel.1 hk, hkv⟩ limit'
    exact ⟨r, r1, r2.wf, r2.val, r3, r4⟩

/-! ## the order of the pieces of evidence does not matter -/

theorem weight_perm {bn : BN} {ev ev' : Dict Evidence} (h : ev.Perm ev') : weight bn ev = weight bn ev' := by
  funext σ
  unfold weight
  rw [(h.map _).prod_eq]

theorem posterior_perm {bn : BN} {ev ev' : Dict Evidence} (h : ev.Perm ev') :
    posterior bn ev = posterior bn ev' := by
  unfold posterior totalWeight
  rw [weight_perm h]

theorem softened_perm {bn : BN} {ev ev' : Dict Evidence} (h : ev.Perm ev') :
    (softened bn ev).Perm (softened bn ev') := h.map _

theorem JTree.Exactly.perm {bn : BN} {ev ev' : Dict Evidence} {t : JTree} (h : t.Exactly bn ev)
    (hp : ev.Perm ev') : t.Exactly bn ev' :=
  ⟨h.valid, h.family, by rw [← posterior_perm hp]; exact h.answer⟩

theorem LegalEvidence.perm {bn : BN} {ev ev' : Dict Evidence} (h : LegalEvidence bn ev)
    (hp : ev.Perm ev') : LegalEvidence bn ev' :=
  ⟨(hp.map Prod.fst).nodup_iff.1 h.nodup, fun p hm => h.mem p (hp.mem_iff.2 hm),
    fun v x hm => h.hard v x (hp.mem_iff.2 hm), fun v x hm => h.soft v x (hp.mem_iff.2 hm)⟩

theorem Supported.perm {bn : BN} {ev ev' : Dict Evidence} (h : Supported bn ev)
    (hp : ev.Perm ev') : Supported bn ev' := fun v e hm => h v e (hp.mem_iff.2 hm)

theorem Dict.set_perm {α : Type} {d : Dict α} (hd : d.keys.Nodup) (k : Name) (x : α) :
    (d.set k x).Perm (d.filter (fun p => p.1 ≠ k) ++ [(k, x)]) := by
  induction d with
  | nil => exact List.Perm.refl _
  | cons p d ih =>
    obtain ⟨k', w⟩ := p
    have hd' := List.nodup_cons.1 (by simpa [Dict.keys] using hd : (k' :: d.map Prod.fst).Nodup)
    rw [Dict.set]
    by_cases h : k' = k
    · subst h
      rw [if_pos rfl, List.filter_cons_of_neg (by simp)]
      have : d.filter (fun p => p.1 ≠ k') = d := by
        rw [List.filter_eq_self]
        intro p hp
        have : p.1 ≠ k' := fun e => hd'.1 (e ▸ List.mem_map_of_mem hp)
        simpa using this
      rw [this]
      exact (List.perm_append_singleton _ _).symm
    · rw [if_neg h, List.filter_cons_of_pos (by simpa using h)]
      exact (ih hd'.2).cons _

/-- the dictionary of arrays -/
def arrays (te : Dict NDArray) : Dict (List ℚ) := te.map fun p => (p.1, p.2.data)

theorem keys_arrays (te : Dict NDArray) : (arrays te).keys = te.keys := by
  simp [arrays, Dict.keys]

theorem update_perm (te : Dict NDArray) (ev : Dict Evidence) (he : ev.keys.Nodup) (ht : te.keys.Nodup) :
    (SoftFeedback.update ev te).Perm (overridden (arrays te) ev) := by
  unfold SoftFeedback.update overridden
  rw [keys_arrays]
  induction te generalizing ev with
  | nil => simp [arrays, Dict.keys]
  | cons p te ih =>
    obtain ⟨k, c⟩ := p
    have ht' := List.nodup_cons.1 (by simpa [Dict.keys] using ht : (k :: te.map Prod.fst).Nodup)
    rw [List.foldl_cons]
    refine (ih _ (Dict.nodup_keys_set he) ht'.2).trans ?_
    have h1 := (Dict.set_perm he k (Evidence.soft c.data)).filter fun p => decide (p.1 ∉ Dict.keys te)
    refine (h1.append_right _).trans ?_
    rw [List.filter_append, List.filter_filter]
    have h2 : List.filter (fun p => decide (p.1 ∉ Dict.keys te)) [(k, Evidence.soft c.data)] =
        [(k, Evidence.soft c.data)] := by
      rw [List.filter_eq_self]
      intro p hp
      rw [List.mem_singleton] at hp
      subst hp
      have : k ∉ Dict.keys te := ht'.1
      simp [this]
    rw [h2, List.append_assoc]
    have h3 : (ev.filter fun a => decide (a.1 ∉ Dict.keys te) && decide (a.1 ≠ k)) =
        ev.filter fun p => decide (p.1 ∉ Dict.keys ((k, c) :: te)) := by
      refine List.filter_congr fun p _ => ?_
      by_cases h1 : p.1 = k <;> by_cases h2 : p.1 ∈ te.map Prod.fst <;>
        simp only [Dict.keys, List.map_cons, List.mem_cons, h1, h2] <;> simp [h1]
    rw [h3]
    exact List.Perm.refl _

/-! ## tables as lists -/

theorem NDArray.data_of_shape {c : NDArray} {n : Nat} (h : c.shape = [n]) :
    c.data = (List.range n).map fun i => c.get [i] := by
  rw [NDArray.data_eq, h]
  simp [allIdx, List.flatMap, List.map_flatten]
  induction List.range n with
  | nil => rfl
  | cons x xs ih => simpa using ih

theorem DBN.carried_append (d : DBN) (es : List (Dict Evidence)) (e : Dict Evidence) :
    d.carried (es ++ [e]) = d.carry es.length (d.carried es) e := by
  unfold carried
  rw [List.foldl_append]
  have : ∀ (es : List (Dict Evidence)) (s : Nat × Dict (List ℚ)),
      (es.foldl (fun s e => (s.1 + 1, d.carry s.1 s.2 e)) s).1 = s.1 + es.length := by
    intro es
    induction es with
    | nil => intro s; rfl
    | cons e es ih => intro s; rw [List.foldl_cons, ih]; simp; omega
  simp only [List.foldl_cons, List.foldl_nil]
  rw [this]
  simp

theorem DBN.carried_keys (d : DBN) (es : List (Dict Evidence)) :
    (d.carried es).keys = if es = [] then [] else d.transitions.map Prod.fst := by
  rcases List.eq_nil_or_concat' es with rfl | ⟨es, e, rfl⟩
  · rfl
  · rw [carried_append, if_neg (by simp)]
    simp [carry, Dict.keys]

theorem LegalEvidence.overridden {d : DBN} (h : d.SoftReady) {es : List (Dict Evidence)}
    {ev : Dict Evidence} (he : LegalEvidence (d.slice es.length) ev) :
    LegalEvidence (d.slice es.length) (overridden (d.carried es) ev) := by
  rcases List.eq_nil_or_concat' es with rfl | ⟨es, e, rfl⟩
  · simpa [Primo.overridden, DBN.carried, Dict.keys] using he
  · have hk := DBN.carried_keys d (es ++ [e])
    rw [if_neg (by simp)] at hk
    have hs : d.slice (es ++ [e]).length = d.twoTbn := by
      unfold DBN.slice; rw [if_neg (by simp)]
    rw [hs] at he ⊢
    have key : ∀ p ∈ d.carried (es ++ [e]), ∃ tr ∈ d.transitions, p.1 = tr.1 ∧
        p.2.length = d.twoTbn.card tr.1 := by
      intro p hp
      rw [DBN.carried_append] at hp
      obtain ⟨tr, htr, rfl⟩ := List.mem_map.1 hp
      refine ⟨tr, htr, rfl, ?_⟩
      obtain ⟨-, h2, h3⟩ := h.node tr htr
      simp only [List.length_map, List.length_range]
      unfold DBN.slice
      split
      · exact h2.symm
      · exact h3.symm
    refine ⟨?_, fun p hp => ?_, fun v x hm => ?_, fun v l hm => ?_⟩
    · unfold Primo.overridden Dict.keys
      rw [List.map_append, List.map_map]
      refine List.Nodup.append ?_ ?_ ?_
      · exact (he.nodup.sublist (List.filter_sublist.map _))
      · change (Dict.keys (d.carried (es ++ [e]))).Nodup
        rw [hk]; exact h.targets
      · intro x hx hx'
        obtain ⟨p, hp, rfl⟩ := List.mem_map.1 hx
        have := (List.mem_filter.1 hp).2
        simp only [decide_eq_true_eq] at this
        exact this hx'
    · rcases List.mem_append.1 hp with hp | hp
      · exact he.mem p (List.mem_filter.1 hp).1
      · obtain ⟨q, hq, rfl⟩ := List.mem_map.1 hp
        obtain ⟨tr, htr, e1, -⟩ := key q hq
        dsimp only
        rw [e1]
        exact (h.node tr htr).1
    · rcases List.mem_append.1 hm with hp | hp
      · exact he.hard v x (List.mem_filter.1 hp).1
      · obtain ⟨q, hq, e2⟩ := List.mem_map.1 hp
        cases e2
    · rcases List.mem_append.1 hm with hp | hp
      · exact he.soft v l (List.mem_filter.1 hp).1
      · obtain ⟨q, hq, e2⟩ := List.mem_map.1 hp
        injection e2 with e3 e4
        injection e4 with e4
        obtain ⟨tr, htr, e1, e5⟩ := key q hq
        rw [← e4, ← e3, e1]
        exact e5

namespace SoftFeedback

/-- the state agrees with the diary -/
structure Tracks (d : DBN) (g : Diary) (s : SoftFeedback) : Prop where
  dbn : s.dbn = d
  time : s.t = g.past.length
  flag : s.evidence = g.now.isSome
  inv : s.Inv
  te : arrays s.transitionEvidence = d.carried g.past
  now : ∀ e, g.now = some e → ∃ f, s.ft = some f ∧ f.tree.Exactly (d.slice g.past.length)
    (softened (d.slice g.past.length) (overridden (d.carried g.past) e))
  old : g.now = none → (g.past = [] ∧ s.ft = none) ∨ ∃ past e, g.past = past ++ [e] ∧
    ∃ f, s.ft = some f ∧ f.tree.Exactly (d.slice past.length)
      (softened (d.slice past.length) (overridden (d.carried past) e))

theorem setInner_exact {d : DBN} (h : d.SoftReady) {s : SoftFeedback} {es : List (Dict Evidence)}
    (hd : s.dbn = d) (ht : s.t = es.length) (hi : s.Inv)
    (hte : arrays s.transitionEvidence = d.carried es) (so : SetOrder) {limit : Nat}
    {ev : Option (Dict Evidence)} (ha : d.AllowsSoft es limit (ev.getD [])) :
    ∃ f, setInner so limit ev s = ({ s with ft := some f }, none) ∧
      f.tree.Exactly (d.slice es.length)
        (softened (d.slice es.length) (overridden (d.carried es) (ev.getD []))) := by
  obtain ⟨a1, a2, a3⟩ := ha
  obtain ⟨n1, n2, n3⟩ := h.net es.length
  have hn : s.sliceNet = d.slice es.length := by
    unfold sliceNet DBN.slice; rw [ht, hd]
  have hkd : s.transitionEvidence.keys.Nodup := by
    rw [← keys_arrays, hte, DBN.carried_keys]
    split
    · exact List.nodup_nil
    · exact h.targets
  have hpm : (s.sliceEvidence ev).Perm (overridden (d.carried es) (ev.getD [])) := by
    unfold sliceEvidence
    split
    · rename_i h0
      have : es = [] := List.length_eq_zero_iff.1 (ht ▸ h0)
      subst this
      simp [Primo.overridden, DBN.carried, Dict.keys]
    · rw [← hte]; exact update_perm _ _ a1.nodup hkd
  have hle := LegalEvidence.overridden h a1
  obtain ⟨t0, b1, b2⟩ := soft_exactly n1 n2 n3 (hle.perm hpm.symm) (a2.perm hpm.symm) a3 so so
  by_cases h1 : s.t ≤ 1
  · have hn' : (if decide (s.t = 1) = true then s.dbn.twoTbn else s.dbn.b0) = d.slice es.length := by
      rw [← hn]
      unfold sliceNet
      rcases Nat.le_one_iff_eq_zero_or_eq_one.1 h1 with h | h <;> simp [h]
    obtain ⟨t1, c1, c2⟩ := b2 t0 rfl
    refine ⟨⟨decide (s.t = 1), t1⟩, ?_, c2.perm (softened_perm hpm)⟩
    unfold setInner
    rw [if_pos h1]
    have : SliceTree.create so s.dbn (decide (s.t = 1)) = .ok ⟨decide (s.t = 1), t0⟩ := by
      unfold SliceTree.create
      rw [hn', b1, ok_bind]
      rfl
    rw [this]
    dsimp only [enter, SliceTree.setEvidence, SliceTree.net]
    unfold sliceEvidence at c1
    rw [hn', c1]
  · obtain ⟨f, hf, f1, p, hp, hsh⟩ := hi (Or.inl (by omega))
    have hnt : s.dbn.twoTbn = d.slice es.length := by
      rw [← hn]; unfold sliceNet; rw [if_neg (by omega)]
    have hnf : f.net s.dbn = d.slice es.length := by rw [SliceTree.net, f1, ← hnt]; rfl
    obtain ⟨p', hp', hsh'⟩ := plan_of_create b1
    rw [hnt, hp'] at hp
    cases hp
    obtain ⟨t1, c1, c2⟩ := b2 f.tree (hsh.trans hsh'.symm)
    refine ⟨⟨f.two, t1⟩, ?_, c2.perm (softened_perm hpm)⟩
    unfold setInner
    rw [if_neg h1, hf]
    dsimp only [enter, SliceTree.setEvidence]
    unfold sliceEvidence at c1
    rw [if_neg (by omega)] at c1
    rw [hnf, c1]

theorem feed_exact (so : SetOrder) (limit : Nat) {net : BN} {ev : Dict Evidence}
    (trs : List (Name × Name)) (s : SoftFeedback) {f : SliceTree} (hf : s.ft = some f)
    (hx : f.tree.Exactly net ev) (hnd : (trs.map Prod.fst).Nodup)
    (hnew : ∀ tr ∈ trs, tr.1 ∉ s.transitionEvidence.keys) (hsrc : ∀ tr ∈ trs, tr.2 ∈ net.names) :
    ∃ te, feed so limit trs s = ({ s with transitionEvidence := te }, none) ∧
      arrays te = arrays s.transitionEvidence ++ trs.map fun tr =>
        (tr.1, (List.range (net.card tr.2)).map fun i => posterior net ev [tr.2] fun _ => i) := by
  induction trs generalizing s with
  | nil => exact ⟨s.transitionEvidence, rfl, by simp⟩
  | cons tr trs ih =>
    obtain ⟨node, p⟩ := tr
    obtain ⟨r, r1, r2, r3, r4, r5, r6⟩ := hx.table (hsrc (node, p) (by simp)) so limit
    dsimp only at r1 r3 r4 r5 r6
    have ht : f.table so limit p = (f, .ok r.potentials) := by
      unfold SliceTree.table SliceTree.marginals
      dsimp only
      rw [r1]
      dsimp only
      rw [ok_bind, r2]
    have hnd' := List.nodup_cons.1 hnd
    dsimp only at hnd'
    have hset : s.transitionEvidence.set node r.potentials =
        s.transitionEvidence ++ [(node, r.potentials)] :=
      Dict.set_of_not_mem _ (hnew (node, p) (by simp))
    set s1 : SoftFeedback :=
      { s with ft := some f, transitionEvidence := s.transitionEvidence.set node r.potentials } with hs1
    obtain ⟨te, t1, t2⟩ := ih s1 rfl hnd'.2
      (fun tr htr => by
        change tr.1 ∉ (s.transitionEvidence.set node r.potentials).keys
        rw [Dict.mem_keys_set]
        rintro (h | h)
        · exact hnd'.1 (h ▸ List.mem_map_of_mem htr)
        · exact hnew tr (by simp [htr]) h)
      (fun tr htr => hsrc tr (by simp [htr]))
    refine ⟨te, ?_, ?_⟩
    · rw [feed, hf]
      dsimp only
      rw [ht]
      dsimp only
      rw [show ({ s with ft := some f, transitionEvidence :=
        s.transitionEvidence.set node r.potentials } : SoftFeedback) = s1 from rfl, t1]
    · rw [t2]
      change arrays (s.transitionEvidence.set node r.potentials) ++ _ = _
      rw [hset, arrays, List.map_append, ← arrays, List.append_assoc]
      congr 1
      simp only [List.map_cons, List.map_nil, List.singleton_append]
      congr 2
      rw [NDArray.data_of_shape r5]
      refine List.map_congr_left fun i hi => ?_
      exact r6 (fun _ => i) (List.mem_range.1 hi)

theorem tracks_create (d : DBN) : Tracks d ⟨[], none⟩ (create d) :=
  ⟨rfl, rfl, rfl, create_inv d, rfl, fun e he => (by cases he), fun _ => Or.inl ⟨rfl, rfl⟩⟩

theorem Tracks.setEvidence {d : DBN} (h : d.SoftReady) {g : Diary} {s : SoftFeedback}
    (ht : Tracks d g s) (so : SetOrder) {limit : Nat} {ev : Option (Dict Evidence)}
    (ha : d.AllowsSoft g.past limit (ev.getD [])) :
    ∃ s', s.setEvidence so limit ev = (s', none) ∧ Tracks d { g with now := some (ev.getD []) } s' := by
  obtain ⟨f, h1, h2⟩ := setInner_exact h ht.dbn ht.time ht.inv ht.te so ha
  have he : s.setEvidence so limit ev = ({ s with ft := some f, evidence := true }, none) := by
    unfold SoftFeedback.setEvidence
    rw [h1]
  refine ⟨_, he, ht.dbn, ht.time, rfl, ?_, ht.te, fun e h => ?_, fun h => (by cases h)⟩
  · have := (setEvidence_inv ht.inv so limit ev).1
    rw [he] at this
    exact this
  · injection h with h
    subst h
    exact ⟨f, rfl, h2⟩

theorem Tracks.marginals {d : DBN} {g : Diary} {s : SoftFeedback}
    (ht : Tracks d g s) (so : SetOrder) (limit : Nat) (vs : List Name) :
    (s.marginals so limit vs).1 = s := by
  have key : ∀ f, s.ft = some f → (∃ net e, f.tree.Exactly net e) → (s.marginals so limit vs).1 = s := by
    rintro f hf ⟨net, e, hx⟩
    unfold SoftFeedback.marginals
    rw [hf]
    dsimp only [SliceTree.marginals]
    rw [hx.fixed]
    obtain ⟨d, t, ev, ft, te⟩ := s
    dsimp only at hf ⊢
    rw [hf]
  cases hn : g.now with
  | some e =>
    obtain ⟨f, hf, hx⟩ := ht.now e hn
    exact key f hf ⟨_, _, hx⟩
  | none =>
    rcases ht.old hn with ⟨-, hf⟩ | ⟨past, e, -, f, hf, hx⟩
    · unfold SoftFeedback.marginals
      rw [hf]
    · exact key f hf ⟨_, _, hx⟩

theorem Tracks.unroll {d : DBN} (h : d.SoftReady) {g : Diary} {s : SoftFeedback}
    (ht : Tracks d g s) (so : SetOrder) {limit : Nat} {ev : Option (Dict Evidence)}
    (ha : d.AllowsSoft g.past limit ((ev.or g.now).getD [])) :
    ∃ s', s.unroll so limit ev false = (s', none) ∧
      Tracks d ⟨g.past ++ [(ev.or g.now).getD []], none⟩ s' := by
  have hb : ∃ f, beforeUnroll so limit ev false s = ({ s with ft := some f }, none) ∧
      f.tree.Exactly (d.slice g.past.length) (softened (d.slice g.past.length)
        (overridden (d.carried g.past) ((ev.or g.now).getD []))) := by
    unfold beforeUnroll
    by_cases hc : ¬ s.evidence = true ∨ ev ≠ none
    · rw [if_pos hc, if_neg (by simp)]
      have : (ev.or g.now).getD [] = ev.getD [] := by
        cases ev with
        | some e => rfl
        | none =>
          have hs : s.evidence = false := by
            rcases hc with hc | hc
            · simpa using hc
            · exact absurd rfl hc
          rw [ht.flag] at hs
          have : g.now = none := by simpa using hs
          rw [this]; rfl
      rw [this] at ha ⊢
      exact setInner_exact h ht.dbn ht.time ht.inv ht.te so ha
    · rw [if_neg hc]
      push Not at hc
      obtain ⟨hc, rfl⟩ := hc
      rw [ht.flag] at hc
      obtain ⟨e, he⟩ := Option.isSome_iff_exists.1 hc
      obtain ⟨f, hf, hx⟩ := ht.now e he
      rw [he]
      refine ⟨f, ?_, hx⟩
      obtain ⟨d, t, ev, ft⟩ := s
      dsimp only at hf ⊢
      rw [hf]
  obtain ⟨f, b1, b2⟩ := hb
  set e := (ev.or g.now).getD [] with he
  set s1 : SoftFeedback := { s with ft := some f } with hs1
  obtain ⟨te, f1, f2⟩ := feed_exact so limit d.transitions { s1 with transitionEvidence := [] }
    (f := f) rfl b2 h.targets (by simp [Dict.keys]) (fun tr htr => by
      unfold DBN.slice
      split
      · exact (h.source tr htr).1
      · exact (h.source tr htr).2)
  have hu : unrollInner so limit s1 = ({ s1 with transitionEvidence := te, t := s.t + 1 }, none) := by
    unfold unrollInner
    have : s1.dbn.transitions = d.transitions := by
      change s.dbn.transitions = _
      rw [ht.dbn]
    rw [this, f1]
  have hr : s.unroll so limit ev false =
      ({ s1 with transitionEvidence := te, t := s.t + 1, evidence := false }, none) := by
    rw [unroll_ok b1, hu]
  refine ⟨_, hr, ht.dbn, ?_, rfl, ?_, ?_, fun e he => (by cases he),
    fun _ => Or.inr ⟨g.past, e, rfl, f, rfl, b2⟩⟩
  · dsimp only
    rw [ht.time]
    simp
  · have := (unroll_inv ht.inv so limit ev false).1
    rw [hr] at this
    exact this
  · dsimp only
    rw [f2, DBN.carried_append]
    rfl

theorem Tracks.call {d : DBN} (h : d.SoftReady) {g : Diary} {s : SoftFeedback}
    (ht : Tracks d g s) {op : DynOp} (ho : op.SoftFair d g) :
    ((∀ so limit vs, op ≠ .marginals so limit vs) → (SoftFeedback.call op s).2 = none) ∧
      Tracks d (g.note op) (SoftFeedback.call op s).1 := by
  cases op with
  | setEvidence so limit ev =>
    obtain ⟨s', h1, h2⟩ := ht.setEvidence h so ho
    dsimp only [SoftFeedback.call]
    rw [h1]
    exact ⟨fun _ => rfl, h2⟩
  | unroll so limit ev soft =>
    obtain ⟨ho1, rfl⟩ := ho
    obtain ⟨s', h1, h3⟩ := ht.unroll h so ho1
    dsimp only [SoftFeedback.call, Option.isSome_none]
    rw [h1]
    exact ⟨fun _ => rfl, h3⟩
  | marginals so limit vs =>
    refine ⟨fun hh => absurd rfl (hh so limit vs), ?_⟩
    have := ht.marginals so limit vs
    dsimp only [SoftFeedback.call]
    rw [this]
    exact ht

theorem Tracks.runs {d : DBN} (h : d.SoftReady) (ops : List DynOp) {g : Diary} {s : SoftFeedback}
    (ht : Tracks d g s) (ho : SoftFairHistory d g ops) :
    Tracks d (g.notes ops) (SoftFeedback.runs ops s) := by
  induction ops generalizing g s with
  | nil => exact ht
  | cons op ops ih => exact ih (ht.call h ho.1).2 ho.2

end SoftFeedback
end Primo
