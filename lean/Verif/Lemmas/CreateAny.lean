import Verif.Lemmas.Create
import Verif.Lemmas.TreeHist

/-! # `create_jointree` for arbitrary elimination orders: where the tables go -/

namespace Primo
open JoinTree Factor

theorem pyRemove_perm {α : Type} [DecidableEq α] {inst : BEq α} (hi : @LawfulBEq α inst) {l : List α}
    {r m : α} (hr : r ∈ l) :
    ∃ l', (do let i ← pyIndex l r; pyRemove ((@List.erase α inst l r).insertIdx i m) m) = .ok l' ∧
      l'.Perm (@List.erase α inst l r) := by
  obtain rfl : inst = instBEqOfDecidableEq := lawful_beq_subsingleton _ _
  rw [pyIndex, if_pos hr, ok_bind]
  have hlt := List.idxOf_lt_length_of_mem hr
  have hlen := List.length_erase_of_mem hr
  have hp := List.perm_insertIdx m (l.erase r) (i := l.idxOf r) (by omega)
  have hin : m ∈ (l.erase r).insertIdx (l.idxOf r) m := hp.symm.subset (by simp)
  refine ⟨_, by rw [pyRemove, if_pos hin], ?_⟩
  have := hp.erase m
  rwa [List.erase_cons_head] at this

theorem applySwap_perm {l : List (List Name)} {r m : List Name} (hr : r ∈ l) :
    ∃ l', applySwap l (r, m) = .ok l' ∧ l'.Perm (l.erase r) := by
  unfold applySwap
  exact pyRemove_perm inferInstance hr

theorem swaps_fold_any (S : List (List Name × List Name)) (L : List (List Name)) (hn : L.Nodup)
    (h1 : ∀ p ∈ S, p.1 ∈ L ∧ p.2 ∈ L ∧ p.1 ≠ p.2)
    (h2 : S.Pairwise fun p q => q.1 ≠ p.1 ∧ q.2 ≠ p.1) :
    ∃ L', S.foldlM applySwap L = .ok L' ∧ L'.Nodup ∧ ∀ c, c ∈ L' ↔ c ∈ L ∧ ∀ p ∈ S, p.1 ≠ c := by
  induction S generalizing L with
  | nil => exact ⟨L, rfl, hn, by simp⟩
  | cons p S ih =>
    obtain ⟨r, m⟩ := p
    obtain ⟨hr, hm, hne⟩ := h1 (r, m) (by simp)
    obtain ⟨l', e1, e2⟩ := applySwap_perm (m := m) hr
    rw [List.pairwise_cons] at h2
    have hmem : ∀ c, c ∈ l' ↔ c ∈ L ∧ c ≠ r := by
      intro c
      rw [e2.mem_iff, hn.mem_erase_iff, and_comm]
    obtain ⟨L', f1, f2, f3⟩ := ih l' (e2.symm.nodup (hn.erase _)) (fun q hq => by
      obtain ⟨q1, q2, q3⟩ := h1 q (by simp [hq])
      have := h2.1 q hq
      exact ⟨(hmem _).2 ⟨q1, this.1⟩, (hmem _).2 ⟨q2, this.2⟩, q3⟩) h2.2
    refine ⟨L', by rw [List.foldlM_cons, e1, ok_bind, f1], f2, fun c => ?_⟩
    rw [f3, hmem]
    simp only [List.mem_cons, forall_eq_or_imp]
    constructor
    · rintro ⟨⟨a, b⟩, d⟩; exact ⟨a, Ne.symm b, d⟩
    · rintro ⟨a, b, d⟩; exact ⟨⟨a, Ne.symm b⟩, d⟩

theorem swaps_facts_any (l : List (List Name)) (hn : l.Nodup) :
    (∀ p ∈ swaps l, [p.2, p.1].Sublist l ∧ ∀ x ∈ p.1, x ∈ p.2) ∧
    (swaps l).Pairwise fun p q => q.1 ≠ p.1 ∧ q.2 ≠ p.1 := by
  induction l using List.reverseRecOn with
  | nil => exact ⟨by simp [swaps], by simp [swaps]⟩
  | append_singleton l c ih =>
    obtain ⟨i1, i2⟩ := ih (hn.sublist (List.sublist_append_left _ _))
    have hcl : c ∉ l := fun h => (List.nodup_append.1 hn).2.2 c h c (by simp) rfl
    rw [swaps_concat]
    cases hf : l.reverse.find? fun d => sub c d with
    | none =>
      refine ⟨fun p hp => ?_, by simpa using i2⟩
      have hp' : p ∈ swaps l := by simpa using hp
      exact ⟨(i1 p hp').1.trans (List.sublist_append_left _ _), (i1 p hp').2⟩
    | some d =>
      have hd : d ∈ l := by simpa using List.mem_of_find?_eq_some hf
      refine ⟨fun p hp => ?_, ?_⟩
      · simp only [Option.map_some, Option.toList_some, List.singleton_append, List.mem_cons] at hp
        rcases hp with rfl | hp
        · exact ⟨(List.singleton_sublist.2 hd).append (List.Sublist.refl [c]),
            JTree.sub_iff.1 (by simpa using List.find?_some hf)⟩
        · exact ⟨(i1 p hp).1.trans (List.sublist_append_left _ _), (i1 p hp).2⟩
      · simp only [Option.map_some, Option.toList_some, List.singleton_append, List.pairwise_cons]
        exact ⟨fun q hq => ⟨fun h => hcl (h ▸ (i1 q hq).1.subset (by simp)),
          fun h => hcl (h ▸ (i1 q hq).1.subset (by simp))⟩, i2⟩

/-- removing the clusters that are contained in others, for any duplicate-free list -/
theorem swaps_any {L : List (List Name)} (hn : L.Nodup) :
    ∃ L', (swaps L).foldlM applySwap L = .ok L' ∧ L'.Nodup ∧ (∀ c ∈ L', c ∈ L) ∧
      ∀ c ∈ L, ∃ d ∈ L', ∀ x ∈ c, x ∈ d := by
  obtain ⟨h1, h2⟩ := swaps_facts_any L hn
  have hpair : ∀ p ∈ swaps L, p.1 ∈ L ∧ p.2 ∈ L ∧ p.1 ≠ p.2 := by
    intro p hp
    have hs := (h1 p hp).1
    refine ⟨hs.subset (by simp), hs.subset (by simp), fun e => ?_⟩
    have := hn.sublist hs
    simp [e] at this
  obtain ⟨L', e1, e2, e3⟩ := swaps_fold_any _ L hn hpair h2
  refine ⟨L', e1, e2, fun c hc => ((e3 c).1 hc).1, fun c hc => ?_⟩
  -- follow the removals towards the front of the list
  induction hk : L.idxOf c using Nat.strong_induction_on generalizing c with
  | _ k ih =>
    by_cases hrem : ∃ p ∈ swaps L, p.1 = c
    · obtain ⟨p, hp, rfl⟩ := hrem
      obtain ⟨A, B, D, hL⟩ := split_pair (h1 p hp).1
      have hlt : L.idxOf p.2 < L.idxOf p.1 := by
        have hn' := hn
        rw [hL] at hn'
        have hr : p.1 ∉ A ++ p.2 :: B := fun h => (List.nodup_append.1 hn').2.2 _ h _ (by simp) rfl
        have hm : p.2 ∉ A := fun h =>
          (List.nodup_append.1 (List.nodup_append.1 hn').1).2.2 _ h _ (by simp) rfl
        rw [hL, List.idxOf_append_of_notMem hr, List.append_assoc, List.idxOf_append_of_notMem hm]
        simp
      obtain ⟨d, hd, hcd⟩ := ih _ (hk ▸ hlt) p.2 (hpair p hp).2.1 rfl
      exact ⟨d, hd, fun x hx => hcd x ((h1 p hp).2 x hx)⟩
    · exact ⟨c, (e3 c).2 ⟨hc, fun p hp e => hrem ⟨p, hp, e⟩⟩, fun _ h => h⟩

theorem build_nodes (L : List (List Name)) (hn : (L.map clusterName).Nodup) :
    (build L).nodes = L.reverse.map fun c => (clusterName c, ⟨c, Factor.trivial 1⟩) := by
  induction L with
  | nil => rfl
  | cons c cs ih =>
    rw [List.map_cons, List.nodup_cons] at hn
    have ih' := ih hn.2
    have hk : clusterName c ∉ (build cs).nodes.keys := by
      rw [ih']
      simpa [Dict.keys] using hn.1
    have h0 : (addNode c (build cs)).nodes =
        (c :: cs).reverse.map fun c => (clusterName c, ⟨c, Factor.trivial 1⟩) := by
      rw [addNode]
      dsimp only
      rw [Dict.set_of_not_mem _ hk, ih']
      simp
    rw [build]
    split
    · exact h0
    · exact h0

/-- a freshly built tree carries the unit factor everywhere -/
theorem build_blank (L : List (List Name)) : (build L).blank = build L := by
  have hset : ∀ (d : Dict JNode) k c, (∀ q ∈ d, q.2.factor = Factor.trivial 1) →
      ∀ q ∈ Dict.set d k ⟨c, Factor.trivial 1⟩, q.2.factor = Factor.trivial 1 := by
    intro d k c h q hq
    induction d with
    | nil => simp [Dict.set] at hq; rw [hq]
    | cons a d ih =>
      rw [Dict.set] at hq
      split at hq
      · rcases List.mem_cons.1 hq with rfl | hq
        · rfl
        · exact h q (by simp [hq])
      · rcases List.mem_cons.1 hq with rfl | hq
        · exact h _ (by simp)
        · exact ih (fun q hq => h q (by simp [hq])) hq
  have key : (∀ q ∈ (build L).nodes, q.2.factor = Factor.trivial 1) ∧
      ∀ e ∈ (build L).edges, e.factor = Factor.trivial 1 := by
    induction L with
    | nil => simp [build, emptyTree]
    | cons c cs ih =>
      rw [build]
      split
      · refine ⟨hset _ _ _ ih.1, fun e he => ?_⟩
        rw [addEdge] at he
        dsimp only at he
        split at he
        · obtain ⟨e', he', rfl⟩ := List.mem_map.1 he
          split
          · rfl
          · exact ih.2 e' he'
        · rcases List.mem_append.1 he with he | he
          · exact ih.2 e he
          · rw [List.mem_singleton.1 he]
      · exact ⟨hset _ _ _ ih.1, ih.2⟩
  have h1 : (build L).nodes.map (fun p => (p.1, { p.2 with factor := Factor.trivial 1 })) = (build L).nodes := by
    conv => rhs; rw [← List.map_id (build L).nodes]
    refine List.map_congr_left fun q hq => ?_
    have := key.1 q hq
    obtain ⟨k, vars, f⟩ := q
    simp only at this
    rw [this]; rfl
  have h2 : (build L).edges.map (fun e => { e with factor := Factor.trivial 1 }) = (build L).edges := by
    conv => rhs; rw [← List.map_id (build L).edges]
    refine List.map_congr_left fun e he => ?_
    have := key.2 e he
    obtain ⟨u, w, sep, f⟩ := e
    simp only at this
    rw [this]; rfl
  unfold JTree.blank
  rw [h1, h2]

namespace JTree

/-- `create_jointree` for any elimination order that lists all nodes once. -/
theorem create_any (so : SetOrder) {bn : BN} (hc : bn.Consistent) (hl : bn.Linked) (hr : bn.Recorded)
    (hu : UniqueJoin bn.names) (order0 : Option (List Name)) {order : List Name}
    (hord : VE.chooseOrder bn order0 = .ok order) (ho : order.Perm bn.names) :
    ∃ t, create so bn order0 = .ok t ∧ t.nodes.keys.Nodup ∧
      Contents bn.lab (bn.map nodeItem) t.nodes ∧
      (∀ q ∈ skel t.nodes, ∀ x ∈ q.2, x ∈ bn.names) ∧
      ∀ n ∈ bn, ∃ q ∈ skel t.nodes, ∀ x ∈ n.family, x ∈ q.2 := by
  obtain ⟨L, e1, e2⟩ := bn_clusters hc hl hr ho
  have hn : order.Nodup := ho.symm.nodup hc.nodup
  obtain ⟨L', h1, h2, h3, h4⟩ := swaps_any (e2.headOK hn).nodup
  have hLn : ∀ c ∈ L', ∀ x ∈ c, x ∈ bn.names := fun c hc x hx =>
    ho.subset ((e2.mem c (h3 c hc)).2.1 x hx)
  have hnames := hu.inj hLn h2
  have hb := build_nodes L' hnames
  have hsk : skel (build L').nodes = L'.reverse.map fun c => (clusterName c, c) := by
    rw [hb]; simp [skel, Function.comp_def]
  have hkn : (build L').nodes.keys.Nodup := by
    rw [hb]
    have := List.nodup_reverse.2 hnames
    simpa [Dict.keys, Function.comp_def, List.map_reverse] using this
  obtain ⟨fs, ns', f1, f2, f3, f4⟩ := loadTables so hc (t := build L') hkn (by
    rw [hb]
    intro k n hm
    obtain ⟨c, -, e⟩ := List.mem_map.1 hm
    injection e with e1 e2
    subst e2
    exact ⟨trivial_over 1, by simp, by simp⟩)
  have hskm : ∀ q, q ∈ skel ns' ↔ ∃ c ∈ L', q = (clusterName c, c) := by
    intro q
    rw [f3, hsk]
    simp only [List.mem_map, List.mem_reverse]
    constructor
    · rintro ⟨c, h, rfl⟩; exact ⟨c, h, rfl⟩
    · rintro ⟨c, h, rfl⟩; exact ⟨c, h, rfl⟩
  refine ⟨{ build L' with nodes := ns' }, ?_, by rw [keys_of_skel f3]; exact hkn, f4, ?_, ?_⟩
  · unfold create
    rw [hord, ok_bind, f1, ok_bind, e1, ok_bind, h1, ok_bind, f2]
    rfl
  · intro q hq
    obtain ⟨c, hc', rfl⟩ := (hskm q).1 hq
    exact hLn c hc'
  · intro n hn'
    obtain ⟨c, hc', hcx⟩ := e2.clique (fun x => x ∈ n.family) ⟨n.name, by simp [NodeV.family]⟩
      (fun x hx => ho.symm.subset (by
        rcases List.mem_cons.1 hx with rfl | hx
        · exact List.mem_map_of_mem hn'
        · exact hc.parents_mem n hn' x hx))
      (fun x y hx hy hxy => ⟨hxy, n, hn', hx, hy⟩)
    obtain ⟨d, hd, hdx⟩ := h4 c hc'
    exact ⟨_, (hskm _).2 ⟨d, hd, rfl⟩, fun x hx => hdx x (hcx x hx)⟩

/-- `reset_factors` restores exactly the tree that `create_jointree` returned. -/
theorem reset_create (so : SetOrder) {bn : BN} {order0 : Option (List Name)} {t t' : JTree}
    (h : create so bn order0 = .ok t) (hs : t'.shape = t.shape) : reset so bn t' = (t, none) := by
  unfold create at h
  cases h1 : VE.chooseOrder bn order0 with
  | error e => rw [h1] at h; cases h
  | ok order =>
  rw [h1, ok_bind] at h
  cases h2 : bn.mapM Factor.fromNode with
  | error e => rw [h2] at h; cases h
  | ok fs =>
  rw [h2, ok_bind] at h
  cases h3 : clusters order (moralGraph bn) with
  | error e => rw [h3] at h; cases h
  | ok L =>
  rw [h3, ok_bind] at h
  cases h4 : (swaps L).foldlM applySwap L with
  | error e => rw [h4] at h; cases h
  | ok L' =>
  rw [h4, ok_bind] at h
  cases h5 : JRes.forEach (putFactor so) fs (build L') with
  | mk t0 o =>
  rw [h5] at h
  cases o with
  | some e => cases h
  | none =>
  dsimp only at h
  injection h with h
  subst h
  have hsh : t0.shape = (build L').shape := by
    have := forEach_inv (P := fun t' => t'.shape = (build L').shape) fs
      (fun x _ t' ht => (putFactor_shape so x t').trans ht) _ rfl
    rw [h5] at this; exact this
  have hval : t0.valid = false := by
    have := forEach_inv (P := fun t' => t'.valid = false) (f := putFactor so) fs (fun x _ t' ht => by
      unfold putFactor
      cases putFirst so (fun vars => sub x.values.keys vars) x t'.nodes <;> exact ht) _ (build_valid L')
    rw [h5] at this; exact this
  have hreset : reset so bn (build L') = (t0, none) := by
    unfold reset
    rw [h2]
    dsimp only
    rw [build_blank, h5, andThen_ok, ← hval]
  obtain ⟨r1, r2⟩ := reset_eq so bn (hs.trans hsh)
  rw [hreset] at r1 r2
  exact Prod.ext (r2 rfl) r1

end JTree
end Primo
