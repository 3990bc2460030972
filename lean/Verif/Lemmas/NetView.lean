import Verif.Lemmas.NetStep
import Verif.Lemmas.Over
import Verif.Lemmas.Sum
import Verif.Spec.Graph

/-! # Good histories produce networks that the inference theorems apply to -/

namespace Primo

/-- Renaming the summed variables. -/
theorem sumOver_rename {card card' : Name → Nat} (π : Equiv.Perm Name)
    (hc : ∀ v, card' (π v) = card v) {F F' : Assign → ℚ} (hF : ∀ τ, F' τ = F (τ ∘ π))
    (S : Finset Name) (σ : Assign) :
    sumOver card' (S.image π) F' σ = sumOver card S F (σ ∘ π) := by
  induction S using Finset.induction generalizing σ with
  | empty => simp [sumOver, hF]; rfl
  | insert a S ha ih =>
    rw [Finset.image_insert, sumOver_insert (by simpa using ha), sumOver_insert ha, hc]
    refine Finset.sum_congr rfl fun i _ => ?_
    rw [ih]
    congr 1
    funext v
    by_cases hv : v = a
    · subst hv; simp
    · simp [hv]

namespace Net

variable {s : Net}

theorem view_names (h : s.Inv) : s.view.names = s.lookup.keys := by
  unfold view BN.names Dict.keys
  rw [List.map_map]
  refine List.map_congr_left fun p hp => ?_
  obtain ⟨k, i⟩ := p
  exact (h.name k i (Dict.get?_of_mem h.nodup hp)).2

theorem mem_view (h : s.Inv) {n : NodeV} : n ∈ s.view ↔
    ∃ k i, s.lookup.get? k = some i ∧ n = s.objView i := by
  unfold view
  rw [List.mem_map]
  constructor
  · rintro ⟨⟨k, i⟩, hp, rfl⟩
    exact ⟨k, i, Dict.get?_of_mem h.nodup hp, rfl⟩
  · rintro ⟨k, i, hk, rfl⟩
    exact ⟨(k, i), Dict.get?_mem hk, rfl⟩

theorem view_lab (h : s.Inv) (v : Name) : s.view.lab v = s.labels v := by
  have hnd : s.view.names.Nodup := by rw [view_names h]; exact h.nodup
  unfold labels
  cases hv : s.lookup.get? v with
  | some i =>
    have hm : s.objView i ∈ s.view := (mem_view h).2 ⟨v, i, hv, rfl⟩
    have := BN.lab_eq hnd hm
    have hn : (s.objView i).name = v := (h.name v i hv).2
    rw [hn] at this; exact this
  | none =>
    unfold BN.lab
    rw [List.find?_eq_none.2]
    intro n hn
    obtain ⟨k, i, hk, rfl⟩ := (mem_view h).1 hn
    simp only [decide_eq_true_eq]
    intro e
    have : (s.objView i).name = k := (h.name k i hk).2
    rw [← e, this, hk] at hv; cases hv

theorem view_consistent (h : s.Inv) (hu : s.Usable) : s.view.Consistent := by
  have hnode : ∀ n ∈ s.view, ∃ k i, s.lookup.get? k = some i ∧ n = s.objView i ∧
      (s.heap i).name = k ∧ (s.heap i).kind ≠ .utility ∧ (s.heap i).values ≠ [] ∧
      k ∉ (s.heap i).parentOrder := by
    intro n hn
    obtain ⟨k, i, hk, rfl⟩ := (mem_view h).1 hn
    obtain ⟨h1, h2, h3⟩ := hu k i (getNode_ok.2 hk)
    exact ⟨k, i, hk, rfl, (h.name k i hk).2, h1, h2, h3⟩
  constructor
  · rw [view_names h]; exact h.nodup
  · intro n hn
    obtain ⟨k, i, hk, rfl, _, h1, _⟩ := hnode n hn
    exact h1
  · intro n hn
    obtain ⟨k, i, hk, rfl, _⟩ := hnode n hn
    have := h.order_nodup k
    rwa [parentsOf_of hk] at this
  · intro n hn
    obtain ⟨k, i, hk, rfl, hname, _, _, h1⟩ := hnode n hn
    change (s.heap i).name ∉ (s.heap i).parentOrder
    rw [hname]; exact h1
  · intro n hn p hp
    obtain ⟨k, i, hk, rfl, _⟩ := hnode n hn
    obtain ⟨j, hj, _⟩ := h.known k p (by rw [parentsOf_of hk]; exact hp)
    rw [view_names h]; exact Dict.mem_keys_of_get? hj
  · intro n hn p hp
    obtain ⟨k, i, hk, rfl, _⟩ := hnode n hn
    obtain ⟨j, hj, _⟩ := h.known k p (by rw [parentsOf_of hk]; exact hp)
    change Dict.get? ((s.heap i).parents.map fun p => (p.1, (s.heap p.2).values)) p = _
    rw [Dict.get?_mapVal (s.heap i).parents (fun j => (s.heap j).values), h.parent_obj k i hk,
      if_pos (show p ∈ (s.heap i).parentOrder from hp), hj, view_lab h]
    unfold labels
    rw [hj]; rfl
  · intro n hn
    obtain ⟨k, i, hk, rfl, _, _, h1, _⟩ := hnode n hn
    have := h.coherent.shape k i (getNode_ok.2 hk)
    rw [if_neg h1] at this
    change (s.heap i).cpd.shape = (s.heap i).values.length :: (s.heap i).parentOrder.map s.view.card
    rw [this]
    simp only [List.singleton_append, List.cons.injEq, true_and]
    refine List.map_congr_left fun p _ => ?_
    rw [BN.card, view_lab h]

theorem view_linked (h : s.Inv) : s.view.Linked := by
  have hch : ∀ k i, s.lookup.get? k = some i → (s.objView i).children = (s.succOf k).keys := by
    intro k i hk
    change (s.succOf (s.heap i).name).map (fun c => (s.heap c.2).name) = _
    rw [(h.name k i hk).2]
    unfold Dict.keys
    refine List.map_congr_left fun c hc => ?_
    obtain ⟨c, j⟩ := c
    exact (h.name c j (h.mem_succOf.1 hc).1).2
  constructor
  · intro n hn
    obtain ⟨k, i, hk, rfl⟩ := (mem_view h).1 hn
    rw [hch k i hk]; exact h.succ_nodup k
  · intro n hn c
    obtain ⟨k, i, hk, rfl⟩ := (mem_view h).1 hn
    rw [hch k i hk, h.mem_succ]
    have hname : (s.objView i).name = k := (h.name k i hk).2
    rw [hname]
    constructor
    · intro hc
      cases hl : s.lookup.get? c with
      | none => rw [parentsOf_none hl] at hc; cases hc
      | some j =>
        exact ⟨s.objView j, (mem_view h).2 ⟨c, j, hl, rfl⟩, (h.name c j hl).2, by
          rw [parentsOf_of hl] at hc; exact hc⟩
    · rintro ⟨m, hm, hmn, hmp⟩
      obtain ⟨c', j, hc', rfl⟩ := (mem_view h).1 hm
      have : (s.objView j).name = c' := (h.name c' j hc').2
      rw [this] at hmn; subst hmn
      rw [parentsOf_of hc']; exact hmp

/-! ## renaming -/

theorem view_rename (h : s.Inv) {old new : Name} {i : Nat} (hi : s.lookup.get? old = some i)
    (hnew : s.lookup.get? new = none) :
    let s' := (changeName old new false s).1
    (s'.view.names.Perm (s.view.names.map (Equiv.swap old new))) ∧
    (∀ v, s'.view.lab (Equiv.swap old new v) = s.view.lab v) ∧
    (∀ σ, (s'.view.map fun n => n.entry σ).prod =
      (s.view.map fun n => n.entry (σ ∘ Equiv.swap old new)).prod) := by
  intro s'
  have hinv : s'.Inv := h.changeName (Or.inr ⟨Dict.get?_eq_none.1 hnew, rfl⟩)
  obtain ⟨S, P, e, -⟩ := changeName_effect (byObj := false) h hi (Or.inr ⟨hnew, rfl⟩)
  have hs' : s' = _ := congrArg Prod.fst e
  have hspec := heapRenamed_spec h hi (Or.inr hnew)
  have hlook := renamed_lookup h hi (Or.inr hnew)
  set L := (s.lookup.erase old ++ [(new, i)] : Dict Nat) with hL
  set H := s.heapRenamed i old new with hH
  have hL' : s'.lookup = L := by rw [hs']
  have hH' : s'.heap = H := by rw [hs']
  -- the entries of both dictionaries correspond
  have hperm : L.Perm (s.lookup.map fun p => (Equiv.swap old new p.1, p.2)) := by
    refine (List.perm_ext_iff_of_nodup ?_ ?_).2 ?_
    · have := hinv.nodup
      rw [hL'] at this
      exact List.Nodup.of_map _ this
    · refine List.Nodup.map ?_ (List.Nodup.of_map _ h.nodup)
      rintro ⟨a, b⟩ ⟨c, d⟩ e
      simp only [Prod.mk.injEq, EmbeddingLike.apply_eq_iff_eq] at e
      exact Prod.ext e.1 e.2
    · rintro ⟨k, j⟩
      rw [Dict.mem_iff_get? (by rw [← hL']; exact hinv.nodup), hlook, ← Dict.mem_iff_get? h.nodup,
        List.mem_map]
      constructor
      · intro hm; exact ⟨_, hm, by simp⟩
      · rintro ⟨⟨a, b⟩, hm, e⟩
        simp only [Prod.mk.injEq] at e
        rw [← e.1, ← e.2, Equiv.swap_apply_self]; exact hm
  refine ⟨?_, ?_, ?_⟩
  · rw [view_names hinv, view_names h, hL']
    have := hperm.map Prod.fst
    unfold Dict.keys
    refine this.trans ?_
    rw [List.map_map, List.map_map]; exact List.Perm.refl _
  · intro v
    rw [view_lab hinv, view_lab h]
    unfold labels
    rw [hL', hlook, Equiv.swap_apply_self, hH']
    cases s.lookup.get? v with
    | none => rfl
    | some q => exact (hspec.data q).2.1
  · intro σ
    unfold view
    rw [hL', List.map_map, List.map_map]
    refine (List.Perm.prod_eq (hperm.map _)).trans ?_
    rw [List.map_map]
    congr 1
    refine List.map_congr_left fun p hp => ?_
    obtain ⟨k, q⟩ := p
    have hq := Dict.get?_of_mem h.nodup hp
    simp only [Function.comp, NodeV.entry, objView, hH', (hspec.data q).2.2.1, hspec.order k q hq,
      List.map_map]
    have hn : (H q).name = Equiv.swap old new (s.heap q).name := by
      rw [hspec.name, (h.name k q hq).2]
      by_cases hqi : q = i
      · subst hqi
        rw [if_pos rfl, h.inj hq hi, Equiv.swap_apply_left]
      · rw [if_neg hqi, Equiv.swap_apply_of_ne_of_ne]
        · rintro rfl; rw [hi] at hq; cases hq; exact hqi rfl
        · rintro rfl; rw [hnew] at hq; cases hq
    rw [hn]

/-- evidence with renamed variables -/
def renameEv (π : Equiv.Perm Name) (ev : Dict Evidence) : Dict Evidence :=
  ev.map fun p => (π p.1, p.2)

theorem posterior_rename {bn bn' : BN} (π : Equiv.Perm Name)
    (hn : bn'.names.Perm (bn.names.map π)) (hl : ∀ v, bn'.lab (π v) = bn.lab v)
    (hp : ∀ σ, (bn'.map fun n => n.entry σ).prod = (bn.map fun n => n.entry (σ ∘ π)).prod)
    (ev : Dict Evidence) (Q : List Name) (σ : Assign) :
    totalWeight bn' (renameEv π ev) σ = totalWeight bn ev (σ ∘ π) ∧
    posterior bn' (renameEv π ev) (Q.map π) σ = posterior bn ev Q (σ ∘ π) := by
  have hw : ∀ τ, weight bn' (renameEv π ev) τ = weight bn ev (τ ∘ π) := by
    intro τ
    unfold weight
    rw [hp]
    congr 2
    unfold renameEv
    rw [List.map_map]
    refine List.map_congr_left fun p _ => ?_
    simp only [Function.comp, hl]
  have hcard : ∀ v, bn'.card (π v) = bn.card v := fun v => by rw [BN.card, hl, BN.card]
  have hset : bn'.names.toFinset = bn.names.toFinset.image π := by
    ext v
    rw [List.mem_toFinset, hn.mem_iff]; simp
  have hset2 : bn'.names.toFinset \ (Q.map π).toFinset = (bn.names.toFinset \ Q.toFinset).image π := by
    rw [hset, Finset.image_sdiff _ _ π.injective]
    congr 1
    ext v; simp
  have hZ : totalWeight bn' (renameEv π ev) σ = totalWeight bn ev (σ ∘ π) := by
    unfold totalWeight
    rw [hset]
    exact sumOver_rename π hcard hw _ σ
  refine ⟨hZ, ?_⟩
  unfold posterior
  simp only [hZ]
  rw [hset2, sumOver_rename π hcard hw]

theorem legalEvidence_rename {bn bn' : BN} (π : Equiv.Perm Name)
    (hn : bn'.names.Perm (bn.names.map π)) (hl : ∀ v, bn'.lab (π v) = bn.lab v)
    {ev : Dict Evidence} (h : LegalEvidence bn ev) : LegalEvidence bn' (renameEv π ev) := by
  have hmem : ∀ v e, (v, e) ∈ renameEv π ev → ∃ w, v = π w ∧ (w, e) ∈ ev := by
    intro v e hv
    obtain ⟨⟨w, e'⟩, h1, h2⟩ := List.mem_map.1 hv
    simp only [Prod.mk.injEq] at h2
    exact ⟨w, h2.1.symm, h2.2 ▸ h1⟩
  constructor
  · unfold renameEv Dict.keys
    rw [List.map_map]
    have : ((Prod.fst : Name × Evidence → Name) ∘ fun p : Name × Evidence => (π p.1, p.2)) = π ∘ Prod.fst := rfl
    rw [this, ← List.map_map]
    exact h.nodup.map π.injective
  · rintro ⟨v, e⟩ hv
    obtain ⟨w, rfl, hw⟩ := hmem v e hv
    rw [hn.mem_iff]
    exact List.mem_map_of_mem (h.mem _ hw)
  · intro v x hv
    obtain ⟨w, rfl, hw⟩ := hmem v _ hv
    rw [hl]; exact h.hard w x hw
  · intro v l hv
    obtain ⟨w, rfl, hw⟩ := hmem v _ hv
    rw [BN.card, hl]; exact h.soft w l hw

end Net
end Primo
