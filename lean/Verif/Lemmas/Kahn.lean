import Verif.Lemmas.MarkovBlanket

/-! # The topological sort of networkx yields a topological order of an acyclic network -/

namespace Primo
open Finset

variable {bn : BN}

/-- the parents of a node that have not been yielded yet -/
def kahnPending (out : List Name) (n : NodeV) : List Name := n.parentOrder.filter (· ∉ out)

theorem inDegree_eq (hc : bn.Consistent) (hl : bn.Linked) {n : NodeV} (hn : n ∈ bn) :
    bn.inDegree n.name = n.parentOrder.length := by
  unfold BN.inDegree
  rw [List.countP_eq_length_filter, ← List.length_map (f := NodeV.name)]
  refine List.Perm.length_eq ((List.perm_ext_iff_of_nodup
    (List.Nodup.sublist (List.Sublist.map _ List.filter_sublist) hc.nodup)
    (hc.parents_nodup n hn)).2 fun p => ?_)
  rw [List.mem_map]
  constructor
  · rintro ⟨m, hm, rfl⟩
    obtain ⟨h1, h2⟩ := List.mem_filter.1 hm
    obtain ⟨n', h3, h4, h5⟩ := (hl.iff m h1 n.name).1 (by simpa using h2)
    have : n' = n := by
      have := BN.lab_of_mem hc.nodup h3
      rw [h4, BN.lab_of_mem hc.nodup hn] at this
      exact (Option.some.inj this).symm
    exact this ▸ h5
  · intro hp
    obtain ⟨m, hm, rfl⟩ := BN.exists_of_mem_names (hc.parents_mem n hn p hp)
    exact ⟨m, List.mem_filter.2 ⟨hm, by simpa using (hl.iff m hm n.name).2 ⟨n, hn, rfl, hp⟩⟩, rfl⟩

theorem pending_snoc (hc : bn.Consistent) {n : NodeV} (hn : n ∈ bn) (out : List Name) (v : Name) :
    kahnPending (out ++ [v]) n = (kahnPending out n).erase v := by
  have hnd : (kahnPending out n).Nodup := (hc.parents_nodup n hn).filter _
  rw [hnd.erase_eq_filter]
  unfold kahnPending
  rw [List.filter_filter]
  refine List.filter_congr fun p _ => ?_
  rw [Bool.eq_iff_iff]
  simp [and_comm]

theorem dropArcs_spec : ∀ (cs : List Name) (zero : List Name) (m : Dict Nat), cs.Nodup →
    m.keys.Nodup → (∀ c ∈ cs, ∃ k, m.get? c = some (k + 1)) →
    ∃ zero' m', cs.foldlM BN.dropArc (zero, m) = .ok (zero', m') ∧
      (zero' ++ m'.keys).Perm (zero ++ m.keys) ∧ m'.keys.Nodup ∧
      (∀ c k, m'.get? c = some k →
        (c ∈ cs → m.get? c = some (k + 1) ∧ 0 < k) ∧ (c ∉ cs → m.get? c = some k)) ∧
      ∀ x ∈ zero', x ∈ zero ∨ (x ∈ cs ∧ m.get? x = some 1)
  | [], zero, m, _, hm, _ => ⟨zero, m, rfl, List.Perm.refl _, hm, by simp, by simp⟩
  | c :: cs, zero, m, hcs, hm, hk => by
    obtain ⟨hccs, hcs'⟩ := List.nodup_cons.1 hcs
    obtain ⟨k, hck⟩ := hk c (by simp)
    have hcm : c ∈ m.keys := Dict.mem_keys_of_get? hck
    rw [List.foldlM_cons]
    by_cases h0 : k = 0
    · subst h0
      have hstep : BN.dropArc (zero, m) c = .ok (zero ++ [c], m.erase c) := by
        unfold BN.dropArc; simp only [hck]; rfl
      obtain ⟨z', m', a1, a2, a3, a4, a5⟩ := dropArcs_spec cs (zero ++ [c]) (m.erase c) hcs'
        (by rw [Dict.keys_erase]; exact hm.erase _) (fun d hd => by
          rw [Dict.get?_erase_of_ne (by rintro rfl; exact hccs hd)]
          exact hk d (List.mem_cons_of_mem _ hd))
      refine ⟨z', m', by rw [hstep, ok_bind]; exact a1, a2.trans ?_, a3, fun d k hd => ?_, ?_⟩
      · rw [Dict.keys_erase, List.append_assoc]
        exact List.Perm.append_left _ (List.perm_cons_erase hcm).symm
      · have hdc : c ≠ d := by
          rintro rfl
          have h2 := (a4 c k hd).2 hccs
          rw [Dict.get?_erase_self hm] at h2
          cases h2
        obtain ⟨b1, b2⟩ := a4 d k hd
        rw [Dict.get?_erase_of_ne hdc] at b1 b2
        exact ⟨fun h => b1 ((List.mem_cons.1 h).resolve_left (Ne.symm hdc)),
          fun h => b2 fun h' => h (List.mem_cons_of_mem _ h')⟩
      · intro x hx
        rcases a5 x hx with h | ⟨h1, h2⟩
        · rcases List.mem_append.1 h with h | h
          · exact Or.inl h
          · rw [List.mem_singleton.1 h]
            exact Or.inr ⟨by simp, hck⟩
        · refine Or.inr ⟨List.mem_cons_of_mem _ h1, ?_⟩
          rwa [Dict.get?_erase_of_ne (by rintro rfl; exact hccs h1)] at h2
    · have hstep : BN.dropArc (zero, m) c = .ok (zero, m.set c k) := by
        unfold BN.dropArc
        simp only [hck, Nat.add_sub_cancel, if_neg h0]
      obtain ⟨z', m', a1, a2, a3, a4, a5⟩ := dropArcs_spec cs zero (m.set c k) hcs'
        (Dict.nodup_keys_set hm) (fun d hd => by
          rw [Dict.get?_set, if_neg (by rintro rfl; exact hccs hd)]
          exact hk d (List.mem_cons_of_mem _ hd))
      rw [Dict.keys_set_of_mem _ hcm] at a2
      refine ⟨z', m', by rw [hstep, ok_bind]; exact a1, a2, a3, fun d j hd => ?_, ?_⟩
      · obtain ⟨b1, b2⟩ := a4 d j hd
        rw [Dict.get?_set] at b1 b2
        by_cases hdc : c = d
        · subst hdc
          have := b2 hccs
          rw [if_pos rfl] at this
          cases this
          exact ⟨fun _ => ⟨hck, Nat.pos_of_ne_zero h0⟩, fun h => absurd (by simp) h⟩
        · rw [if_neg hdc] at b1 b2
          exact ⟨fun h => b1 ((List.mem_cons.1 h).resolve_left (Ne.symm hdc)),
            fun h => b2 fun h' => h (List.mem_cons_of_mem _ h')⟩
      · intro x hx
        rcases a5 x hx with h | ⟨h1, h2⟩
        · exact Or.inl h
        · refine Or.inr ⟨List.mem_cons_of_mem _ h1, ?_⟩
          rwa [Dict.get?_set, if_neg (by rintro rfl; exact hccs h1)] at h2

/-- the state of the sort after yielding `out` -/
structure KahnInv (bn : BN) (out zero : List Name) (m : Dict Nat) : Prop where
  perm : (out ++ (zero ++ m.keys)).Perm bn.names
  ready : ∀ n ∈ bn, n.name ∈ out ++ zero → kahnPending out n = []
  count : ∀ n ∈ bn, ∀ k, m.get? n.name = some k → k = (kahnPending out n).length ∧ 0 < k
  topo : ∀ pre v post, out = pre ++ v :: post → ∀ p, bn.IsParent p v → p ∈ pre

theorem exists_source (ha : bn.Acyclic) {S : Finset Name} (hS : S.Nonempty) :
    ∃ v ∈ S, ∀ u ∈ S, ¬ bn.IsParent u v := by
  let r : S → S → Prop := fun a b => Relation.TransGen bn.IsParent a.1 b.1
  have : IsTrans S r := ⟨fun a b c h1 h2 => h1.trans h2⟩
  have : Std.Irrefl r := ⟨fun a h => ha a.1 h⟩
  have hwf : WellFounded r := Finite.wellFounded_of_trans_of_irrefl r
  obtain ⟨v, hv⟩ := hS
  obtain ⟨m, _, hm⟩ := hwf.has_min Set.univ ⟨⟨v, hv⟩, trivial⟩
  exact ⟨m.1, m.2, fun u hu h => hm ⟨u, hu⟩ trivial (.single h)⟩

theorem KahnInv.finish (hc : bn.Consistent) (ha : bn.Acyclic) {out : List Name}
    {m : Dict Nat} (h : KahnInv bn out [] m) : m = [] := by
  by_contra hne
  have hS : (m.keys.toFinset).Nonempty := by
    obtain ⟨p, m', rfl⟩ := List.exists_cons_of_ne_nil hne
    exact ⟨p.1, by simp⟩
  obtain ⟨v, hv, hmin⟩ := exists_source ha hS
  have hv' : v ∈ m.keys := by simpa using hv
  have hvn : v ∈ bn.names := h.perm.subset (by simp [hv'])
  obtain ⟨n, hn, rfl⟩ := BN.exists_of_mem_names hvn
  obtain ⟨k, hk⟩ := Dict.get?_isSome.2 hv'
  obtain ⟨h1, h2⟩ := h.count n hn k hk
  obtain ⟨p, hp⟩ := List.exists_mem_of_length_pos (h1 ▸ h2)
  obtain ⟨hp1, hp2⟩ := List.mem_filter.1 hp
  have hpm := h.perm.symm.subset (hc.parents_mem n hn p hp1)
  rcases List.mem_append.1 hpm with h' | h'
  · exact absurd h' (by simpa using hp2)
  · exact hmin p (by simpa using h') ⟨n, hn, rfl, hp1⟩

theorem kahn_spec (hc : bn.Consistent) (hl : bn.Linked) (ha : bn.Acyclic) :
    ∀ (fuel : Nat) (out zero : List Name) (m : Dict Nat), KahnInv bn out zero m →
      zero.length + m.length ≤ fuel →
      (BN.kahn bn fuel zero m).2 = none ∧ bn.TopoOrder (out ++ (BN.kahn bn fuel zero m).1) := by
  intro fuel
  have hend : ∀ out (m : Dict Nat), KahnInv bn out [] m → m = [] ∧ bn.TopoOrder (out ++ []) := by
    intro out m h
    have hm := h.finish hc ha
    subst hm
    exact ⟨rfl, by simpa using h.perm, by simpa using h.topo⟩
  induction fuel with
  | zero =>
    intro out zero m h hf
    have hz : zero = [] := List.length_eq_zero_iff.1 (by omega)
    subst hz
    obtain ⟨rfl, h2⟩ := hend out m h
    exact ⟨rfl, h2⟩
  | succ fuel ih =>
    intro out zero m h hf
    rcases List.eq_nil_or_concat' zero with rfl | ⟨zs, v, rfl⟩
    · obtain ⟨rfl, h2⟩ := hend out m h
      exact ⟨rfl, h2⟩
    · have hnd : (out ++ ((zs ++ [v]) ++ m.keys)).Nodup := h.perm.nodup_iff.2 hc.nodup
      have hvn : v ∈ bn.names := h.perm.subset (by simp)
      obtain ⟨n, hn, rfl⟩ := BN.exists_of_mem_names hvn
      have hvout : n.name ∉ out := by
        intro h'
        exact (List.nodup_append.1 hnd).2.2 _ h' _ (by simp) rfl
      have hmnd : m.keys.Nodup :=
        (List.nodup_append.1 (List.nodup_append.1 hnd).2.1).2.1
      have hchild : ∀ c ∈ n.children, ∃ nc ∈ bn, nc.name = c ∧ n.name ∈ kahnPending out nc := by
        intro c hcc
        obtain ⟨nc, h1, h2, h3⟩ := (hl.iff n hn c).1 hcc
        exact ⟨nc, h1, h2, List.mem_filter.2 ⟨h3, by simpa using hvout⟩⟩
      have hpre : ∀ c ∈ n.children, ∃ k, m.get? c = some (k + 1) := by
        intro c hcc
        obtain ⟨nc, h1, rfl, h3⟩ := hchild c hcc
        have hm : nc.name ∈ m.keys := by
          have := h.perm.symm.subset (List.mem_map_of_mem (f := NodeV.name) h1)
          rw [← List.append_assoc] at this
          rcases List.mem_append.1 this with h' | h'
          · rw [h.ready nc h1 h'] at h3
            cases h3
          · exact h'
        obtain ⟨k, hk⟩ := Dict.get?_isSome.2 hm
        obtain ⟨_, h5⟩ := h.count nc h1 k hk
        exact ⟨k - 1, by rw [hk]; congr 1; omega⟩
      obtain ⟨z', m', a1, a2, a3, a4, a5⟩ := dropArcs_spec n.children zs m (hl.nodup n hn) hmnd hpre
      have hrun : BN.kahn bn (fuel + 1) (zs ++ [n.name]) m =
          (n.name :: (BN.kahn bn fuel z' m').1, (BN.kahn bn fuel z' m').2) := by
        rw [BN.kahn]
        simp only [List.getLast?_append, List.getLast?_singleton, Option.some_or,
          List.dropLast_concat, BN.lab_of_mem hc.nodup hn, Option.map_some, Option.getD_some, a1]
      have hpend : ∀ nc ∈ bn, (n.name ∈ kahnPending out nc ↔ nc.name ∈ n.children) := by
        intro nc h1
        constructor
        · intro h2
          exact (hl.iff n hn nc.name).2 ⟨nc, h1, rfl, (List.mem_filter.1 h2).1⟩
        · intro h2
          obtain ⟨nc', b1, b2, b3⟩ := hchild _ h2
          have : nc' = nc := by
            have := BN.lab_of_mem hc.nodup b1
            rw [b2, BN.lab_of_mem hc.nodup h1] at this
            exact (Option.some.inj this).symm
          exact this ▸ b3
      have hinv : KahnInv bn (out ++ [n.name]) z' m' := by
        constructor
        · refine List.Perm.trans ?_ h.perm
          rw [List.append_assoc]
          refine List.Perm.append_left _ ?_
          rw [List.append_assoc]
          refine (List.Perm.append_left _ a2).trans ?_
          rw [List.singleton_append, List.singleton_append]
          exact List.perm_middle.symm
        · intro nc h1 h2
          rw [pending_snoc hc h1]
          have hcases : nc.name ∈ out ++ (zs ++ [n.name]) ∨
              (nc.name ∈ n.children ∧ m.get? nc.name = some 1) := by
            rcases List.mem_append.1 h2 with h' | h'
            · left
              rcases List.mem_append.1 h' with h' | h' <;> simp at h' ⊢ <;> tauto
            · rcases a5 _ h' with h' | h'
              · left; simp; tauto
              · exact Or.inr h'
          rcases hcases with h' | ⟨h3, h4⟩
          · rw [h.ready nc h1 (by simpa using h')]; rfl
          · have hlen := (h.count nc h1 1 h4).1
            have hmem := (hpend nc h1).2 h3
            refine List.length_eq_zero_iff.1 ?_
            rw [List.length_erase_of_mem hmem]
            omega
        · intro nc h1 k hk
          rw [pending_snoc hc h1]
          obtain ⟨b1, b2⟩ := a4 _ k hk
          by_cases hcc : nc.name ∈ n.children
          · obtain ⟨b3, b4⟩ := b1 hcc
            have := (h.count nc h1 _ b3).1
            rw [List.length_erase_of_mem ((hpend nc h1).2 hcc)]
            exact ⟨by omega, b4⟩
          · have := h.count nc h1 _ (b2 hcc)
            rw [List.erase_of_not_mem (mt (hpend nc h1).1 hcc)]
            exact this
        · intro pre w post hsp p hp
          rcases List.eq_nil_or_concat' post with rfl | ⟨post', x, rfl⟩
          · obtain ⟨e1, e2⟩ := List.append_inj' (s₁ := out) (t₁ := [n.name]) (s₂ := pre) (t₂ := [w]) hsp rfl
            cases e2
            subst e1
            obtain ⟨n', q1, q2, q3⟩ := hp
            have : n' = n := by
              have := BN.lab_of_mem hc.nodup q1
              rw [q2, BN.lab_of_mem hc.nodup hn] at this
              exact (Option.some.inj this).symm
            subst this
            by_contra hcon
            have hmem : p ∈ kahnPending out n' := List.mem_filter.2 ⟨q3, by simpa using hcon⟩
            rw [h.ready n' q1 (by simp)] at hmem
            cases hmem
          · have hsp' : out ++ [n.name] = (pre ++ w :: post') ++ [x] := by simpa using hsp
            obtain ⟨e1, _⟩ := List.append_inj' hsp' rfl
            exact h.topo pre w post' e1 p hp
      have hlen := a2.length_eq
      simp only [List.length_append, Dict.keys, List.length_map, List.length_cons,
        List.length_nil] at hlen hf
      obtain ⟨r1, r2⟩ := ih (out ++ [n.name]) z' m' hinv (by omega)
      rw [hrun]
      exact ⟨r1, by simpa using r2⟩

/-- **topological sort** on an acyclic network -/
theorem topologicalSort_spec (hc : bn.Consistent) (hl : bn.Linked) (ha : bn.Acyclic) :
    bn.topologicalSort.2 = none ∧ bn.TopoOrder bn.topologicalSort.1 := by
  have hkeys : Dict.keys ((bn.names.filter fun v => 0 < bn.inDegree v).map
      fun v => (v, bn.inDegree v)) = bn.names.filter fun v => 0 < bn.inDegree v := by
    unfold Dict.keys
    rw [List.map_map]
    exact List.map_id _
  have hperm := List.filter_append_perm (fun v => decide (bn.inDegree v = 0)) bn.names
  have hfil : (bn.names.filter fun v => !decide (bn.inDegree v = 0)) =
      bn.names.filter fun v => 0 < bn.inDegree v := by
    refine List.filter_congr fun v _ => ?_
    rw [Bool.eq_iff_iff]
    simp [Nat.pos_iff_ne_zero]
  rw [hfil] at hperm
  have hinv : KahnInv bn [] (bn.names.filter fun v => bn.inDegree v = 0)
      ((bn.names.filter fun v => 0 < bn.inDegree v).map fun v => (v, bn.inDegree v)) := by
    have hp0 : ∀ n, kahnPending [] n = n.parentOrder := fun n => by simp [kahnPending]
    constructor
    · rw [List.nil_append, hkeys]; exact hperm
    · intro n hn h
      rw [List.nil_append] at h
      have := (List.mem_filter.1 h).2
      rw [hp0]
      rw [decide_eq_true_eq, inDegree_eq hc hl hn] at this
      exact List.length_eq_zero_iff.1 this
    · intro n hn k hk
      obtain ⟨v, hv, e⟩ := List.mem_map.1 (Dict.get?_mem hk)
      cases e
      rw [hp0]
      have := (List.mem_filter.1 hv).2
      exact ⟨inDegree_eq hc hl hn, by simpa using this⟩
    · intro pre v post h
      simp at h
  have := kahn_spec hc hl ha bn.length [] _ _ hinv (by
    have := hperm.length_eq
    rw [List.length_append] at this
    simp only [List.length_map, BN.names] at this ⊢
    omega)
  simpa [BN.topologicalSort] using this

end Primo
