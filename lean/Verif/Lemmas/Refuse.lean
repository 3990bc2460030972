import Verif.Lemmas.Bucket
import Verif.Lemmas.Load

/-! # Requests that the exact algorithms refuse or ignore -/

namespace Primo

/-- one piece of evidence that the documentation allows -/
def LegalPiece (bn : BN) (p : Name × Evidence) : Prop :=
  p.1 ∈ bn.names ∧ (∀ x, p.2 = .hard x → x ∈ bn.lab p.1) ∧
    ∀ l, p.2 = .soft l → l.length = bn.card p.1

theorem legalEvidence_iff {bn : BN} {ev : Dict Evidence} :
    LegalEvidence bn ev ↔ ev.keys.Nodup ∧ ∀ p ∈ ev, LegalPiece bn p := by
  constructor
  · intro h
    exact ⟨h.nodup, fun p hp => ⟨h.mem p hp, fun x hx => h.hard p.1 x (hx ▸ hp),
      fun l hl => h.soft p.1 l (hl ▸ hp)⟩⟩
  · rintro ⟨h1, h2⟩
    exact ⟨h1, fun p hp => (h2 p hp).1, fun v x hx => (h2 _ hx).2.1 x rfl,
      fun v l hl => (h2 _ hl).2.2 l rfl⟩

/-- split evidence at the first illegal piece -/
theorem exists_first_illegal {bn : BN} {ev : Dict Evidence} (h : ¬ ∀ p ∈ ev, LegalPiece bn p) :
    ∃ pre p post, ev = pre ++ p :: post ∧ (∀ q ∈ pre, LegalPiece bn q) ∧ ¬ LegalPiece bn p := by
  induction ev with
  | nil => exact absurd (by simp) h
  | cons q ev ih =>
    by_cases hq : LegalPiece bn q
    · obtain ⟨pre, p, post, rfl, h1, h2⟩ := ih fun hall => h fun p hp => by
        rcases List.mem_cons.1 hp with rfl | hp
        · exact hq
        · exact hall p hp
      refine ⟨q :: pre, p, post, rfl, fun p hp => ?_, h2⟩
      rcases List.mem_cons.1 hp with rfl | hp
      · exact hq
      · exact h1 p hp
    · exact ⟨[], q, ev, rfl, by simp, hq⟩

/-- an illegal piece for a known variable is refused by `as_evidence` -/
theorem asEvidence_illegal {bn : BN} {p : Name × Evidence} (hp : p.1 ∈ bn.names)
    (h : ¬ LegalPiece bn p) : Factor.asEvidence p.1 (bn.lab p.1) p.2 = .error .valueError := by
  obtain ⟨v, e⟩ := p
  cases e with
  | hard x =>
    rw [Factor.asEvidence, if_neg]
    exact fun hx => h ⟨hp, fun y hy => by cases hy; exact hx, fun l hl => by cases hl⟩
  | soft l =>
    rw [Factor.asEvidence, if_pos]
    refine fun hl => h ⟨hp, ⟨fun y hy => ?_, fun l' hl' => ?_⟩⟩
    · cases hy
    · cases hl'; exact hl

open Factor

namespace VE

/-! ### the query -/

/-- an unknown query variable -/
theorem moveQuery_error {order Q : List Name} {v : Name} (hv : v ∈ Q) (ho : v ∉ order) :
    moveQuery order Q = .error .valueError := by
  induction Q generalizing order with
  | nil => cases hv
  | cons u Q ih =>
    rw [moveQuery, List.foldlM_cons]
    by_cases hu : u ∈ order
    · have hne : v ≠ u := fun e => ho (e ▸ hu)
      have hv' : v ∈ Q := (List.mem_cons.1 hv).resolve_left hne
      have ho' : v ∉ order.erase u ++ [u] := fun hm => by
        rcases List.mem_append.1 hm with hm | hm
        · exact ho (List.mem_of_mem_erase hm)
        · exact hne (List.mem_singleton.1 hm)
      have := ih hv' ho'
      rw [moveQuery] at this
      simp only [pyRemove, hu, if_true, ok_bind, pure_eq_ok] at this ⊢
      exact this
    · simp only [pyRemove, hu, if_false]
      rfl

theorem moveQueryIn_perm (Q : List Name) : ∀ order : List Name, (moveQueryIn order Q).Perm order := by
  induction Q with
  | nil => exact fun _ => .refl _
  | cons v Q ih =>
    intro order
    unfold moveQueryIn
    by_cases hv : v ∈ order
    · rw [pyRemove, if_pos hv]
      exact (ih _).trans ((List.perm_append_singleton v _).trans (List.perm_cons_erase hv).symm)
    · rw [pyRemove, if_neg hv]

theorem moveQueryIn_of_ok (Q : List Name) : ∀ {order o : List Name}, moveQuery order Q = .ok o →
    moveQueryIn order Q = o := by
  induction Q with
  | nil =>
    intro order o h
    cases h
    rfl
  | cons v Q ih =>
    intro order o h
    rw [moveQuery, List.foldlM_cons, bind_eq_ok] at h
    obtain ⟨o', h1, h2⟩ := h
    rw [bind_eq_ok] at h1
    obtain ⟨o'', h3, h4⟩ := h1
    cases h4
    unfold moveQueryIn
    rw [h3]
    exact ih h2

/-! ### bucket elimination -/

theorem placeEvidence_illegal (so : SetOrder) {bn : BN} (hn : bn.names.Nodup) {bs : Buckets}
    (hb : (bnames bs).Perm bn.names) {p : Name × Evidence} (hp : ¬ LegalPiece bn p) :
    placeEvidence so bn bs p = .error .valueError := by
  unfold placeEvidence
  by_cases hm : p.1 ∈ bn.names
  · obtain ⟨n, hnm, hname⟩ := BN.exists_of_mem_names hm
    have hlab : n.values = bn.lab p.1 := by rw [← hname, BN.lab_eq hn hnm]
    have hg : bn.getNode p.1 = .ok n := by rw [← hname]; exact BN.getNode_ok hn hnm
    rw [pyIndex_ok (by exact hb.mem_iff.2 hm), ok_bind, hg, ok_bind, hlab, asEvidence_illegal hm hp]
    rfl
  · have : p.1 ∉ bs.map Prod.fst := fun h => hm (hb.mem_iff.1 h)
    rw [pyIndex, if_neg this]
    rfl

theorem bucket_refuses (so : SetOrder) {bn : BN} (hc : bn.Consistent) {ev : Dict Evidence}
    (order0 : Option (List Name)) {order : List Name} (hord : chooseOrder bn order0 = .ok order)
    (hperm : order.Perm bn.names) {Q : List Name}
    (h : ¬ ((∀ v ∈ Q, v ∈ bn.names) ∧ ∀ p ∈ ev, LegalPiece bn p)) :
    bucketMarginals so bn Q ev order0 = .error .valueError := by
  unfold bucketMarginals
  rw [hord, ok_bind]
  by_cases hQ : ∀ v ∈ Q, v ∈ bn.names
  · have hev : ¬ ∀ p ∈ ev, LegalPiece bn p := fun he => h ⟨hQ, he⟩
    obtain ⟨pre, p, post, rfl, h1, h2⟩ := exists_first_illegal hev
    have hnd : order.Nodup := hperm.nodup_iff.2 hc.nodup
    have hmove := moveQuery_dedup hnd fun v hv => hperm.mem_iff.2 (hQ v hv)
    have hop : (order.filter (fun v => decide (v ∉ Q)) ++ Q.dedup).Perm bn.names := by
      have := moveQueryIn_perm Q order
      rw [moveQueryIn_of_ok Q hmove] at this
      exact this.trans hperm
    obtain ⟨fs, b1, f1, f2, f3, f4, f5, -⟩ := fill_spec so hc hop
    obtain ⟨b2, j1, j2, -⟩ := placeEvidences_spec so hc.nodup (ev := pre) (bs := b1)
      (fun q hq => ⟨(h1 q hq).1, by rw [f3]; exact hop.mem_iff.2 (h1 q hq).1, (h1 q hq).2⟩) f4 f5
    rw [hmove, ok_bind, f1, ok_bind]
    simp only
    rw [f2, ok_bind, List.foldlM_append, j1, ok_bind, List.foldlM_cons,
      placeEvidence_illegal so hc.nodup (by rw [j2, f3]; exact hop) h2]
    rfl
  · push Not at hQ
    obtain ⟨v, hv, hv'⟩ := hQ
    rw [moveQuery_error hv fun hm => hv' (hperm.mem_iff.1 hm)]
    rfl

/-! ### `naive_marginals` -/

theorem foldlM_congr {α β : Type} {f g : β → α → Except PyErr β} {l : List α}
    (h : ∀ b, ∀ x ∈ l, f b x = g b x) (b : β) : l.foldlM f b = l.foldlM g b := by
  induction l generalizing b with
  | nil => rfl
  | cons x l ih =>
    rw [List.foldlM_cons, List.foldlM_cons, h b x (by simp)]
    congr 1
    funext b'
    exact ih (fun b y hy => h b y (by simp [hy])) b'

theorem get?_filter (ev : Dict Evidence) (P : Name → Bool) {v : Name} (hv : P v = true) :
    Dict.get? (ev.filter fun p => P p.1) v = ev.get? v := by
  induction ev with
  | nil => rfl
  | cons p ev ih =>
    obtain ⟨k, e⟩ := p
    by_cases hk : k = v
    · subst hk
      rw [List.filter_cons_of_pos (p := fun p : Name × Evidence => P p.1) hv]
      simp [Dict.get?]
    · by_cases hP : P k = true
      · rw [List.filter_cons_of_pos (p := fun p : Name × Evidence => P p.1) hP]
        simp [Dict.get?, hk, ih]
      · rw [List.filter_cons_of_neg (p := fun p : Name × Evidence => P p.1) hP]
        simp [Dict.get?, hk, ih]

theorem naiveStep_congr (so : SetOrder) (bn : BN) {ev ev' : Dict Evidence} {v : Name}
    (h : ev.get? v = ev'.get? v) (res : Factor) :
    naiveStep so bn ev res v = naiveStep so bn ev' res v := by
  unfold naiveStep
  rw [h]

/-- names that are not in the network are ignored, in the query and in the evidence -/
theorem naive_ignores (so : SetOrder) (bn : BN) (Q : List Name) (ev : Dict Evidence) :
    naiveMarginals so bn Q ev =
      naiveMarginals so bn (Q.filter fun v => decide (v ∈ bn.names))
        (ev.filter fun p => decide (p.1 ∈ bn.names)) := by
  unfold naiveMarginals
  simp only
  rw [foldlM_congr (g := naiveStep so bn (ev.filter fun p => decide (p.1 ∈ bn.names)))
    fun b v hv => naiveStep_congr so bn
      (get?_filter ev (fun v => decide (v ∈ bn.names)) (decide_eq_true hv)).symm b]
  congr 1
  funext res
  rw [foldlM_congr (g := naiveElim (Q.filter fun v => decide (v ∈ bn.names))) fun b v hv => ?_]
  unfold naiveElim
  have : v ∈ Q.filter (fun v => decide (v ∈ bn.names)) ↔ v ∈ Q := by
    rw [List.mem_filter, decide_eq_true_eq]
    exact and_iff_left hv
  simp only [this]

theorem naive_refuses (so : SetOrder) {bn : BN} (hc : bn.Consistent) {ev : Dict Evidence}
    (hn : ev.keys.Nodup) (Q : List Name) {p : Name × Evidence} (hp : p ∈ ev) (hm : p.1 ∈ bn.names)
    (hbad : ¬ LegalPiece bn p) : naiveMarginals so bn Q ev = .error .valueError := by
  -- the first node whose evidence is illegal
  let bad : Name → Prop := fun v => ∃ e, ev.get? v = some e ∧ ¬ LegalPiece bn (v, e)
  have hex : ∃ pre v post, bn.names = pre ++ v :: post ∧ (∀ u ∈ pre, ¬ bad u) ∧ bad v := by
    have hb : ∃ v ∈ bn.names, bad v := ⟨p.1, hm, p.2, Dict.get?_of_mem hn hp, hbad⟩
    generalize bn.names = l at hb
    induction l with
    | nil =>
      obtain ⟨v, hv, -⟩ := hb
      cases hv
    | cons u l ih =>
      by_cases hu : bad u
      · exact ⟨[], u, l, rfl, by simp, hu⟩
      · obtain ⟨v, hv, hbv⟩ := hb
        obtain ⟨pre, w, post, rfl, h1, h2⟩ := ih ⟨v, (List.mem_cons.1 hv).resolve_left
          (fun e => hu (e ▸ hbv)), hbv⟩
        refine ⟨u :: pre, w, post, rfl, fun x hx => ?_, h2⟩
        rcases List.mem_cons.1 hx with rfl | hx
        · exact hu
        · exact h1 x hx
  obtain ⟨pre, v, post, hsplit, hpre, e, hev, hbv⟩ := hex
  have hvm : v ∈ bn.names := by rw [hsplit]; simp
  -- up to there only legal evidence is used
  have hleg : LegalEvidence bn (ev.filter fun p => decide (p.1 ∈ pre)) := by
    refine legalEvidence_iff.2 ⟨?_, fun q hq => ?_⟩
    · exact (List.filter_sublist.map Prod.fst).nodup hn
    · obtain ⟨hq1, hq2⟩ := List.mem_filter.1 hq
      by_contra hbad'
      exact hpre q.1 (of_decide_eq_true hq2) ⟨q.2, Dict.get?_of_mem hn hq1, hbad'⟩
  obtain ⟨r, a1, a2, -⟩ := naiveProduct_spec so hc hleg pre
    (fun u hu => by rw [hsplit]; simp [hu]) (res := Factor.trivial 1) (trivial_over 1) (by simp)
  have a1' : pre.foldlM (naiveStep so bn ev) (Factor.trivial 1) = .ok r := by
    rw [← a1]
    exact foldlM_congr (fun b u hu => naiveStep_congr so bn
      (get?_filter ev (fun v => decide (v ∈ pre)) (decide_eq_true hu)).symm b) _
  obtain ⟨n, hnm, hname⟩ := BN.exists_of_mem_names hvm
  obtain ⟨f, f1, f2, -⟩ := fromNode_over hc hnm
  obtain ⟨r1, m1, -⟩ := mul_over so a2 f2
  have hlab : n.values = bn.lab v := by rw [← hname, BN.lab_eq hc.nodup hnm]
  have hg : bn.getNode v = .ok n := by rw [← hname]; exact BN.getNode_ok hc.nodup hnm
  have hstep : naiveStep so bn ev r v = .error .valueError := by
    unfold naiveStep
    rw [hg, ok_bind, f1, ok_bind, m1, ok_bind, hev]
    simp only
    rw [hlab, asEvidence_illegal (p := (v, e)) hvm hbv]
    rfl
  unfold naiveMarginals
  simp only
  rw [hsplit, List.foldlM_append, a1', ok_bind, List.foldlM_cons, hstep]
  rfl

end VE

namespace JTree
open JRes

/-! ### factor trees -/

theorem putEvidence_illegal (so : SetOrder) {bn : BN} (hn : bn.names.Nodup) {p : Name × Evidence}
    (hp : ¬ LegalPiece bn p) (t : JTree) :
    putEvidence so bn [] p t = (t, some (if p.1 ∈ bn.names then .valueError else .exception)) := by
  unfold putEvidence
  by_cases hm : p.1 ∈ bn.names
  · obtain ⟨n, hnm, hname⟩ := BN.exists_of_mem_names hm
    have hlab : n.values = bn.lab p.1 := by rw [← hname, BN.lab_eq hn hnm]
    have hg : bn.getNode p.1 = .ok n := by rw [← hname]; exact BN.getNode_ok hn hnm
    rw [hg, ok_bind, hlab, show Dict.get? ([] : Dict NDArray) p.1 = none from rfl,
      asEvidence_illegal hm hp, if_pos hm]
    rfl
  · have : bn.getNode p.1 = .error .exception := by
      unfold BN.getNode
      rw [List.find?_eq_none.2 fun n hn' => by
        simp only [decide_eq_true_eq]
        exact fun e => hm (e ▸ List.mem_map_of_mem hn')]
    rw [this, if_neg hm]
    rfl

/-- `set_evidence` raises at the first illegal piece of evidence -/
theorem setEvidence_refuses (so : SetOrder) (limit : Nat) {bn : BN} (hc : bn.Consistent) {t : JTree}
    (hn : t.nodes.keys.Nodup) {pre post : Dict Evidence} {p : Name × Evidence}
    (hk : pre.keys.Nodup) (h1 : ∀ q ∈ pre, LegalPiece bn q) (h2 : ¬ LegalPiece bn p) :
    (setEvidence so limit bn (pre ++ p :: post) false t).2 =
      some (if p.1 ∈ bn.names then .valueError else .exception) := by
  obtain ⟨ns, r1, r2, r3⟩ := reset_spec so hc hn
  have hkeys : ({ t.blank with nodes := ns, valid := false } : JTree).nodes.keys.Nodup := by
    show ns.keys.Nodup
    rw [keys_of_skel r2]
    exact hn
  obtain ⟨ns', l1, -⟩ := loadEvidence so hc (legalEvidence_iff.2 ⟨hk, h1⟩) hkeys r3
  rw [setEvidence, r1, andThen_ok, if_neg (by decide), forEach_append, l1, andThen_ok,
    JRes.forEach, putEvidence_illegal so hc.nodup h2]
  rfl

end JTree
end Primo
