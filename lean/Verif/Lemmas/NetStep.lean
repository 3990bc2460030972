import Verif.Lemmas.NetRename

/-! # Every good history keeps the invariant -/

namespace Primo
namespace Net
open Res

variable {s : Net}

theorem changeName_unknown {old new : Name} {b : Bool} (h : s.lookup.get? old = none) :
    changeName old new b s = (s, some .exception) := by
  unfold changeName; rw [h]

theorem Inv.changeName (h : s.Inv) {old new : Name} {byObj : Bool}
    (hnew : new = old ∨ (new ∉ s.lookup.keys ∧ byObj = false)) :
    (changeName old new byObj s).1.Inv := by
  cases hi : s.lookup.get? old with
  | none => rw [changeName_unknown hi]; exact h
  | some i =>
  have hnew1 : new = old ∨ s.lookup.get? new = none ∧ byObj = false :=
    hnew.imp_right (And.imp_left Dict.get?_eq_none.2)
  have hnew' : new = old ∨ s.lookup.get? new = none := hnew1.imp_right And.left
  obtain ⟨S, P, e, hS, hP, hSn, hPn, hSs, hPs⟩ := changeName_effect h hi hnew1
  rw [e]
  have hspec := heapRenamed_spec h hi hnew'
  have hlook := renamed_lookup h hi hnew'
  set L := (s.lookup.erase old ++ [(new, i)] : Dict Nat) with hL
  set H := s.heapRenamed i old new with hH
  set π := Equiv.swap old new with hπ
  set s' : Net := { s with heap := H, lookup := L, gnode := L, succ := S, pred := P } with hs'
  have horder : ∀ c q, s.lookup.get? c = some q →
      (H q).parentOrder = (s.heap q).parentOrder.map π := hspec.order
  have hparents : ∀ c q, s.lookup.get? c = some q → ∀ p,
      (H q).parents.get? p = (s.heap q).parents.get? (π p) := hspec.parents
  have hinv : ∀ x, π (π x) = x := fun x => Equiv.swap_apply_self _ _ _
  have hget : ∀ x q, s'.lookup.get? x = some q → s.lookup.get? (π x) = some q := by
    intro x q hq; rw [← hlook]; exact hq
  have hlook' : ∀ x, s'.lookup.get? x = s.lookup.get? (π x) := hlook
  have hp : ∀ c, s'.parentsOf c = (s.parentsOf (π c)).map π := by
    intro c
    unfold parentsOf
    rw [hlook']
    cases hl : s.lookup.get? (π c) with
    | none => rfl
    | some q => exact horder _ q hl
  have hmem : ∀ x c, x ∈ (s.parentsOf c).map π ↔ π x ∈ s.parentsOf c := by
    intro x c
    rw [List.mem_map]
    constructor
    · rintro ⟨y, hy, rfl⟩; rw [hinv]; exact hy
    · intro hx; exact ⟨_, hx, hinv x⟩
  constructor
  · change L.keys.Nodup
    rw [hL, Dict.keys_append]
    refine List.nodup_append.2 ⟨Dict.nodup_erase h.nodup _, by simp, ?_⟩
    intro a ha b hb e3
    simp at hb
    subst hb; subst e3
    rw [Dict.keys_erase, h.nodup.mem_erase_iff] at ha
    rcases hnew with e | ⟨hn, _⟩
    · exact ha.1 e
    · exact hn ha.2
  · intro k q hq
    have hq' := hget k q hq
    refine ⟨(h.name _ q hq').1, ?_⟩
    change (H q).name = k
    rw [hspec.name]
    by_cases hqi : q = i
    · subst hqi
      rw [if_pos rfl]
      have := h.inj hq' hi
      rw [← hinv k, this, hπ, Equiv.swap_apply_left]
    · rw [if_neg hqi, (h.name _ q hq').2]
      have h1 : π k ≠ old := by
        intro e1; rw [e1, hi] at hq'; cases hq'; exact hqi rfl
      have h2 : π k ≠ new := by
        intro e1
        rcases hnew' with e2 | hn
        · exact h1 (e1.trans e2)
        · rw [e1, hn] at hq'; cases hq'
      have h3 := Equiv.swap_apply_of_ne_of_ne h1 h2
      rw [← hπ, hinv] at h3; exact h3.symm
  · rfl
  · exact hS
  · exact hP
  · exact hSn
  · exact hPn
  · intro k c
    change ((S.get? k).getD []).get? c = _
    rw [hSs, h.succ_spec, hp, hlook']
    simp only [hmem]
  · intro k c
    change ((P.get? c).getD []).get? k = _
    rw [hPs, h.pred_spec, hp, hlook']
    simp only [hmem]
  · intro c
    rw [hp]
    exact (h.order_nodup _).map π.injective
  · intro c p hc
    rw [hp, hmem] at hc
    obtain ⟨j, h1, h2⟩ := h.known _ _ hc
    exact ⟨j, by rw [hlook']; exact h1, by
      change (H j).kind ≠ _
      rw [(hspec.data j).1]; exact h2⟩
  · intro c q hq p
    have hq' := hget c q hq
    change (H q).parents.get? p = if p ∈ (H q).parentOrder then _ else _
    rw [hparents _ q hq', horder _ q hq', hlook', h.parent_obj _ q hq']
    have := hmem p (π c)
    rw [parentsOf_of hq'] at this
    simp only [this]
  · exact hspec.nodup
  · intro c q hq
    have hq' := hget c q hq
    change (H q).cpd.shape = dimsOf H (H q)
    rw [dimsOf_congr (H := s.heap) fun j => (hspec.data j).2.1, (hspec.data q).2.2.1,
      h.shape _ q hq']
    unfold dimsOf ownDim
    rw [(hspec.data q).2.1, horder _ q hq', List.map_map]
    congr 1
    refine List.map_congr_left fun p _ => ?_
    simp only [Function.comp]
    rw [hparents _ q hq', hinv]
  · intro q hq hk
    change (H q).values = []
    rw [(hspec.data q).2.1]
    exact h.util_values q hq (by rw [← (hspec.data q).1]; exact hk)
  · intro q hq hk
    change (H q).parentOrder = [] at hk
    change (H q).parents = [] ∧ (H q).cpd.shape = ownDim (H q)
    by_cases hin : ∃ c, s.lookup.get? c = some q
    · obtain ⟨c, hc⟩ := hin
      rw [horder c q hc, List.map_eq_nil_iff] at hk
      obtain ⟨h1, h2⟩ := h.loose q hq hk
      constructor
      · have : ∀ p, (H q).parents.get? p = none := by
          intro p; rw [hparents c q hc, h1]; rfl
        cases hl : (H q).parents with
        | nil => rfl
        | cons p l => have := this p.1; rw [hl] at this; simp [Dict.get?] at this
      · rw [(hspec.data q).2.2.1, h2]; unfold ownDim; rw [(hspec.data q).2.1]
    · push Not at hin
      rw [hspec.outside q hin] at hk ⊢
      exact h.loose q hq hk

/-- Every good call keeps the invariant, whether it succeeds or raises. -/
theorem Inv.step (h : s.Inv) {op : Op} (hg : Good s op) : (step op s).1.Inv := by
  cases op with
  | create k n v => exact h.create k n v
  | addNode i => exact h.addNode hg
  | removeNode k => exact h.removeNode hg
  | removeEdge a b => exact h.removeEdge a b
  | addEdge a b => exact h.addEdge hg.1 hg.2
  | changeValues k v => exact h.changeValues k v
  | changeName o n b => exact h.changeName hg
  | clear => exact h.clear
  | setCpd i c => exact putCpd_sameStruct (fun a ha => setCpd_shape ha) h
  | setProbability i v p pv => exact putCpd_sameStruct (fun a ha => setProbability_shape ha) h
  | setUtilities i u => exact putCpd_sameStruct (fun a ha => setUtilities_shape ha) h
  | setUtility i u pv => exact putCpd_sameStruct (fun a ha => setUtility_shape ha) h
  | setDecision i d =>
    change (Net.setDecision i d s).1.Inv
    unfold Net.setDecision
    split
    · exact h
    · exact h.setObj_same ⟨rfl, rfl, rfl, rfl, rfl, setDecision_shape (s.objView i) d⟩
  | fullyMixed i =>
    change (Net.fullyMixed i s).1.Inv
    unfold Net.fullyMixed
    split
    · exact h
    · exact putCpd_sameStruct (fun a ha => fullyMixed_shape ha) h

theorem Inv.run (h : s.Inv) {ops : List Op} (hg : GoodRun ops s) : (run ops s).Inv := by
  induction ops generalizing s with
  | nil => exact h
  | cons op ops ih => exact ih (h.step hg.1) hg.2

theorem getNode_ok {k : Name} {i : Nat} : s.getNode k = .ok i ↔ s.lookup.get? k = some i := by
  unfold getNode
  cases s.lookup.get? k <;> simp

theorem Inv.coherent (h : s.Inv) : s.Coherent := by
  constructor
  · exact h.nodup
  · intro k i hk; exact (h.name k i (getNode_ok.1 hk)).2
  · exact h.graph
  · exact ⟨h.succ_keys, h.pred_keys⟩
  · intro k i hk
    rw [getNode_ok] at hk
    rw [← parentsOf_of hk]
    refine ⟨h.order_nodup k, (List.perm_ext_iff_of_nodup (h.order_nodup k) (h.pred_nodup k)).2 ?_⟩
    intro a; exact h.mem_pred.symm
  · intro a b; rw [h.mem_succ, h.mem_pred]
  · intro a b j hb; exact getNode_ok.2 (h.mem_succOf.1 hb).1
  · intro a b j hb; exact getNode_ok.2 (h.mem_predOf.1 hb).1
  · intro k i hk
    rw [getNode_ok] at hk
    have hi := (h.name k i hk).1
    constructor
    · refine (List.perm_ext_iff_of_nodup (h.parents_nodup i hi)
        (by rw [← parentsOf_of hk]; exact h.order_nodup k)).2 ?_
      intro p
      rw [← Dict.get?_isSome, h.parent_obj k i hk]
      constructor
      · rintro ⟨j, hj⟩
        by_contra hn
        rw [if_neg hn] at hj; cases hj
      · intro hp
        rw [if_pos hp]
        obtain ⟨j, hj, _⟩ := h.known k p (by rw [parentsOf_of hk]; exact hp)
        exact ⟨j, hj⟩
    · intro p j hp
      have h1 := Dict.get?_of_mem (h.parents_nodup i hi) hp
      rw [h.parent_obj k i hk] at h1
      split at h1
      · exact getNode_ok.2 h1
      · cases h1
  · intro k i hk
    rw [getNode_ok] at hk
    rw [h.shape k i hk]
    unfold dimsOf ownDim
    congr 1
    refine List.map_congr_left fun p hp => ?_
    rw [h.parent_obj k i hk, if_pos hp]
    unfold labels
    cases s.lookup.get? p <;> rfl

end Net
end Primo
