import Verif.BucketState
import Verif.Lemmas.Bucket
import Verif.Lemmas.Order
import Verif.Spec.BucketSize

/-! # The variables of the tables in `bucket_marginals` -/

namespace Primo
open Factor

namespace VE
variable {lab : Name → List Val}

/-- tables only grow, by variables that `T` allows -/
structure Grow (T : Name → Name → Prop) (bs bs' : Buckets) : Prop where
  new : ∀ p' ∈ bs', ∀ w ∈ p'.2.variableOrder, T p'.1 w ∨ ∃ p ∈ bs, p.1 = p'.1 ∧ w ∈ p.2.variableOrder
  old : ∀ p ∈ bs, ∃ p' ∈ bs', ∀ w ∈ p.2.variableOrder, w ∈ p'.2.variableOrder

theorem Grow.refl {T : Name → Name → Prop} (bs : Buckets) : Grow T bs bs :=
  ⟨fun p hp w hw => .inr ⟨p, hp, rfl, hw⟩, fun p hp => ⟨p, hp, fun _ h => h⟩⟩

theorem Grow.mono {T S : Name → Name → Prop} {bs bs' : Buckets} (h : Grow T bs bs')
    (hTS : ∀ u w, T u w → S u w) : Grow S bs bs' :=
  ⟨fun p hp w hw => (h.new p hp w hw).imp_left (hTS _ _), h.old⟩

theorem Grow.trans {T : Name → Name → Prop} {bs bs' bs'' : Buckets} (h : Grow T bs bs')
    (h' : Grow T bs' bs'') : Grow T bs bs'' := by
  refine ⟨fun p hp w hw => ?_, fun p hp => ?_⟩
  · rcases h'.new p hp w hw with h1 | ⟨q, hq, e, h1⟩
    · exact .inl h1
    · exact e ▸ h.new q hq w h1
  · obtain ⟨q, hq, h1⟩ := h.old p hp
    obtain ⟨r, hr, h2⟩ := h'.old q hq
    exact ⟨r, hr, fun w hw => h2 w (h1 w hw)⟩

theorem Grow.cons {T : Name → Name → Prop} {bs bs' : Buckets} (h : Grow T bs bs') (p : Name × Factor) :
    Grow T (p :: bs) (p :: bs') := by
  refine ⟨fun q hq w hw => ?_, fun q hq => ?_⟩
  · rcases List.mem_cons.1 hq with rfl | hq
    · exact .inr ⟨q, by simp, rfl, hw⟩
    · exact (h.new q hq w hw).imp_right fun ⟨r, h1, h2⟩ => ⟨r, by simp [h1], h2⟩
  · rcases List.mem_cons.1 hq with rfl | hq
    · exact ⟨q, by simp, fun _ h => h⟩
    · obtain ⟨r, h1, h2⟩ := h.old q hq
      exact ⟨r, by simp [h1], h2⟩

theorem place_grow (so : SetOrder) {f : Factor} (hf : f.Over lab) (bs : Buckets)
    (hov : ∀ p ∈ bs, p.2.Over lab) {bs' : Buckets} (h : place so f bs = .ok (some bs')) :
    Grow (fun u w => u ∈ f.variableOrder ∧ w ∈ f.variableOrder) bs bs' ∧
      ∃ p ∈ bs', ∀ w ∈ f.variableOrder, w ∈ p.2.variableOrder := by
  induction bs generalizing bs' with
  | nil => simp [place] at h
  | cons q bs ih =>
    obtain ⟨v, b⟩ := q
    rw [place] at h
    by_cases hc : f.contains v = true
    · obtain ⟨r, r1, r2, r3, r4⟩ := mul_over so (hov (v, b) (by simp)) hf
      rw [if_pos hc, r1, ok_bind] at h
      injection h with h
      injection h with h
      subst h
      have hv := hf.wf.contains_iff.1 hc
      refine ⟨⟨fun p hp w hw => ?_, fun p hp => ?_⟩, (v, r), by simp, fun w hw => (r3 w).2 (.inr hw)⟩
      · rcases List.mem_cons.1 hp with rfl | hp
        · rcases (r3 w).1 hw with h | h
          · exact .inr ⟨(v, b), by simp, rfl, h⟩
          · exact .inl ⟨hv, h⟩
        · exact .inr ⟨p, by simp [hp], rfl, hw⟩
      · rcases List.mem_cons.1 hp with rfl | hp
        · exact ⟨(v, r), by simp, fun w hw => (r3 w).2 (.inl hw)⟩
        · exact ⟨p, by simp [hp], fun _ h => h⟩
    · rw [if_neg hc] at h
      cases hp : place so f bs with
      | error e => rw [hp] at h; cases h
      | ok o =>
        rw [hp, ok_bind] at h
        injection h with h
        obtain ⟨b1, rfl, rfl⟩ := Option.map_eq_some_iff.1 h
        obtain ⟨h1, p, h2, h3⟩ := ih (fun p hp => hov p (by simp [hp])) hp
        exact ⟨h1.cons _, p, by simp [h2], h3⟩

theorem placeAll_grow (so : SetOrder) (fs : List Factor) (bs : Buckets)
    (hfs : ∀ f ∈ fs, f.Over lab ∧ f.variableOrder ≠ [] ∧ ∀ u ∈ f.variableOrder, u ∈ bnames bs)
    (hov : ∀ p ∈ bs, p.2.Over lab) (hord : Ordered bs) {bs' : Buckets}
    (h : fs.foldlM (placeFactor so) bs = .ok bs') :
    Grow (fun u w => ∃ f ∈ fs, u ∈ f.variableOrder ∧ w ∈ f.variableOrder) bs bs' ∧
      ∀ f ∈ fs, ∃ p ∈ bs', ∀ w ∈ f.variableOrder, w ∈ p.2.variableOrder := by
  induction fs generalizing bs with
  | nil =>
    injection h with h
    subst h
    exact ⟨.refl _, by simp⟩
  | cons f fs ih =>
    obtain ⟨h1, h2, h3⟩ := hfs f (by simp)
    obtain ⟨b1, i1, i2, i3, i4, i5, i6⟩ := place_spec so h1 bs hov hord h3 h2
    rw [List.foldlM_cons, placeFactor, i1] at h
    obtain ⟨j1, j2⟩ := ih b1 (fun g hg => by rw [i2]; exact hfs g (by simp [hg])) i3 i4 h
    obtain ⟨k1, p, k2, k3⟩ := place_grow so h1 bs hov i1
    refine ⟨(k1.mono fun u w h => ⟨f, by simp, h⟩).trans (j1.mono fun u w ⟨g, hg, h⟩ => ⟨g, by simp [hg], h⟩),
      fun g hg => ?_⟩
    rcases List.mem_cons.1 hg with rfl | hg
    · obtain ⟨p', m1, m2⟩ := j1.old p k2
      exact ⟨p', m1, fun w hw => m2 w (k3 w hw)⟩
    · exact j2 g hg

theorem set_grow {bs : Buckets} {i : Nat} {v : Name} {b b' : Factor} (hi : bs[i]? = some (v, b))
    (hscope : ∀ u, u ∈ b'.variableOrder ↔ u ∈ b.variableOrder ∨ u = v) :
    Grow (fun u w => w = u) bs (bs.set i (v, b')) := by
  induction bs generalizing i with
  | nil => simp at hi
  | cons p bs ih =>
    cases i with
    | zero =>
      simp only [List.getElem?_cons_zero, Option.some.injEq] at hi
      subst hi
      simp only [List.set_cons_zero]
      refine ⟨fun p hp w hw => ?_, fun p hp => ?_⟩
      · rcases List.mem_cons.1 hp with rfl | hp
        · rcases (hscope w).1 hw with h | h
          · exact .inr ⟨(v, b), by simp, rfl, h⟩
          · exact .inl h
        · exact .inr ⟨p, by simp [hp], rfl, hw⟩
      · rcases List.mem_cons.1 hp with rfl | hp
        · exact ⟨(v, b'), by simp, fun w hw => (hscope w).2 (.inl hw)⟩
        · exact ⟨p, by simp [hp], fun _ h => h⟩
    | succ i =>
      simp only [List.getElem?_cons_succ] at hi
      simp only [List.set_cons_succ]
      exact (ih hi).cons p

theorem placeEvidence_grow (so : SetOrder) {bn : BN} (hn : bn.names.Nodup) {bs : Buckets}
    {e : Name × Evidence} (hmem : e.1 ∈ bn.names) (hin : e.1 ∈ bnames bs)
    (hhard : ∀ x, e.2 = .hard x → x ∈ bn.lab e.1) (hsoft : ∀ l, e.2 = .soft l → l.length = bn.card e.1)
    (hov : ∀ p ∈ bs, p.2.Over bn.lab) {bs' : Buckets} (h : placeEvidence so bn bs e = .ok bs') :
    Grow (fun u w => w = u) bs bs' := by
  obtain ⟨n, hnm, hname⟩ := BN.exists_of_mem_names hmem
  obtain ⟨ef, f1, f2, f3, f4⟩ := asEvidence_over hhard hsoft
  have hidx := List.getElem?_idxOf hin
  rw [List.getElem?_map] at hidx
  obtain ⟨⟨w, b⟩, hb, hw⟩ := Option.map_eq_some_iff.1 hidx
  simp only at hw
  subst hw
  have hbm : (e.1, b) ∈ bs := List.mem_of_getElem? hb
  obtain ⟨r, r1, r2, r3, r4⟩ := mul_over so (hov _ hbm) f2
  unfold placeEvidence at h
  rw [pyIndex_ok hin, ok_bind, ← hname, BN.getNode_ok hn hnm, ok_bind, ← BN.lab_eq hn hnm, hname,
    f1, ok_bind, hb] at h
  simp only at h
  rw [r1] at h
  injection h with h
  subst h
  exact set_grow hb fun u => by rw [r3, f3]; simp

theorem placeEvidences_grow (so : SetOrder) {bn : BN} (hn : bn.names.Nodup) {ev : Dict Evidence}
    {bs : Buckets} (hev : ∀ p ∈ ev, p.1 ∈ bn.names ∧ p.1 ∈ bnames bs ∧
      (∀ x, p.2 = .hard x → x ∈ bn.lab p.1) ∧ (∀ l, p.2 = .soft l → l.length = bn.card p.1))
    (hov : ∀ p ∈ bs, p.2.Over bn.lab) (hord : Ordered bs) {bs' : Buckets}
    (h : ev.foldlM (placeEvidence so bn) bs = .ok bs') : Grow (fun u w => w = u) bs bs' := by
  induction ev generalizing bs with
  | nil =>
    injection h with h
    subst h
    exact .refl _
  | cons e ev ih =>
    obtain ⟨h1, h2, h3, h4⟩ := hev e (by simp)
    obtain ⟨b1, i1, i2, i3, i4, i5, i6⟩ := placeEvidence_spec so hn h1 h2 h3 h4 hov hord
    rw [List.foldlM_cons, i1] at h
    exact (placeEvidence_grow so hn h1 h2 h3 h4 hov i1).trans
      (ih (fun p hp => by rw [i2]; exact hev p (by simp [hp])) i3 i4 h)

/-- the tables are those of the elimination graph -/
structure Scopes (adj : Name → Name → Prop) (E : List Name) (bs : Buckets) : Prop where
  sound : ∀ p ∈ bs, ∀ w ∈ p.2.variableOrder, w = p.1 ∨ Via adj E p.1 w
  full : ∀ x ∈ bnames bs, ∀ y ∈ bnames bs, Via adj E x y →
    ∃ p ∈ bs, x ∈ p.2.variableOrder ∧ y ∈ p.2.variableOrder

theorem Scopes.congr {adj : Name → Name → Prop} {E F : List Name} {bs : Buckets} (h : Scopes adj E bs)
    (hEF : ∀ x, x ∈ E ↔ x ∈ F) : Scopes adj F bs :=
  ⟨fun p hp w hw => (h.sound p hp w hw).imp_right (via_congr hEF).1,
    fun x hx y hy hv => h.full x hx y hy ((via_congr hEF).2 hv)⟩

/-- only the first bucket mentions its variable -/
theorem Ordered.head {v : Name} {b : Factor} {bs : Buckets} (h : Ordered ((v, b) :: bs)) (hv : v ∉ bnames bs)
    {p : Name × Factor} (hp : p ∈ (v, b) :: bs) (hw : v ∈ p.2.variableOrder) : p = (v, b) := by
  rcases List.mem_cons.1 hp with h' | h'
  · exact h'
  · exact absurd (h.2.scope p h' v hw) hv

theorem Scopes.step {adj : Name → Name → Prop} (hs : ∀ a b, adj a b → adj b a) {E : List Name} {v : Name}
    {b tmp : Factor} {bs bs' : Buckets} (h : Scopes adj E ((v, b) :: bs)) (hord : Ordered ((v, b) :: bs))
    (hv : v ∉ bnames bs) (hmem : ∀ u, u ∈ tmp.variableOrder ↔ u ∈ b.variableOrder ∧ u ≠ v)
    (hn : bnames bs' = bnames bs)
    (hg : Grow (fun u w => u ∈ tmp.variableOrder ∧ w ∈ tmp.variableOrder) bs bs')
    (ht : tmp.variableOrder ≠ [] → ∃ p ∈ bs', ∀ w ∈ tmp.variableOrder, w ∈ p.2.variableOrder) :
    Scopes adj (v :: E) bs' := by
  have hb : ∀ u ∈ tmp.variableOrder, Via adj E v u := fun u hu => by
    obtain ⟨h1, h2⟩ := (hmem u).1 hu
    exact (h.sound (v, b) (by simp) u h1).resolve_left h2
  have hput : ∀ x ∈ bnames bs, ∀ y ∈ bnames bs, x ∈ b.variableOrder → y ∈ b.variableOrder →
      ∃ p ∈ bs', x ∈ p.2.variableOrder ∧ y ∈ p.2.variableOrder := by
    intro x hx y hy h1 h2
    have hx' : x ∈ tmp.variableOrder := (hmem x).2 ⟨h1, fun e => hv (e ▸ hx)⟩
    have hy' : y ∈ tmp.variableOrder := (hmem y).2 ⟨h2, fun e => hv (e ▸ hy)⟩
    obtain ⟨p, hp, h3⟩ := ht (List.ne_nil_of_mem hx')
    exact ⟨p, hp, h3 x hx', h3 y hy'⟩
  refine ⟨fun p hp w hw => ?_, fun x hx y hy hxy => ?_⟩
  · rcases hg.new p hp w hw with ⟨h1, h2⟩ | ⟨q, hq, e, h1⟩
    · exact .inr (via_cons.2 (.inr ⟨(hb _ h1).symm hs, hb _ h2⟩))
    · exact (e ▸ h.sound q (by simp [hq]) w h1).imp_right fun h => via_cons.2 (.inl h)
  · rw [hn] at hx hy
    have hx1 : x ∈ bnames ((v, b) :: bs) := by simp only [bnames, List.map_cons, List.mem_cons]; exact .inr hx
    have hy1 : y ∈ bnames ((v, b) :: bs) := by simp only [bnames, List.map_cons, List.mem_cons]; exact .inr hy
    have hv1 : v ∈ bnames ((v, b) :: bs) := by simp
    rcases via_cons.1 hxy with h1 | ⟨h1, h2⟩
    · obtain ⟨p, hp, h2, h3⟩ := h.full x hx1 y hy1 h1
      rcases List.mem_cons.1 hp with rfl | hp
      · exact hput x hx y hy h2 h3
      · obtain ⟨q, hq, h4⟩ := hg.old p hp
        exact ⟨q, hq, h4 x h2, h4 y h3⟩
    · obtain ⟨p, hp, h3, h4⟩ := h.full x hx1 v hv1 h1
      obtain ⟨q, hq, h5, h6⟩ := h.full v hv1 y hy1 h2
      rw [hord.head hv hp h4] at h3
      rw [hord.head hv hq h5] at h6
      exact hput x hx y hy h3 h6

/-- the buckets after processing the first `k` -/
theorem process_scopes {adj : Name → Name → Prop} (hs : ∀ a b, adj a b → adj b a) (so : SetOrder) (k : Nat)
    (bs : Buckets) (last : Factor) (E : List Name)
    (hk : k ≤ bs.length) (hnd : (bnames bs).Nodup) (hov : ∀ p ∈ bs, p.2.Over lab) (hord : Ordered bs)
    (hcov : Cov (fun _ => False) bs) (hlast : last.Over lab) (hls : last.variableOrder = [])
    (hsc : Scopes adj E bs) :
    ∃ bs' last', process so k bs last = .ok (bs', last') ∧ bnames bs' = (bnames bs).drop k ∧
      (∀ p ∈ bs', p.2.Over lab) ∧ Ordered bs' ∧ Cov (fun _ => False) bs' ∧ last'.Over lab ∧
      last'.variableOrder = [] ∧ Scopes adj ((bnames bs).take k ++ E) bs' := by
  induction k generalizing bs last E with
  | zero => exact ⟨bs, last, rfl, by simp, hov, hord, hcov, hlast, hls, by simpa using hsc⟩
  | succ k ih =>
    cases bs with
    | nil => simp at hk
    | cons p bs =>
      obtain ⟨v, b⟩ := p
      have hnd' := List.nodup_cons.1 (by simpa [bnames] using hnd : (v :: bnames bs).Nodup)
      have hvb : v ∈ b.variableOrder := by
        rcases hcov.1 with h | h
        · exact h.elim
        · exact h
      have hbo := hov (v, b) (by simp)
      obtain ⟨tmp, t1, t2, t3, t4⟩ := marginalize_over hbo (vs := [v]) (by simp) (by simpa using hvb)
      have hmem : ∀ u, u ∈ tmp.variableOrder ↔ u ∈ b.variableOrder ∧ u ≠ v := by
        intro u; rw [t3]; simp
      have htsub : ∀ u ∈ tmp.variableOrder, u ∈ bnames bs := by
        intro u hu
        obtain ⟨h1, h2⟩ := (hmem u).1 hu
        exact (hord.1 u h1).resolve_left h2
      have hov' : ∀ p ∈ bs, p.2.Over lab := fun p hp => hov p (by simp [hp])
      have hk' : k ≤ bs.length := by simpa using hk
      have hcov' : Cov (fun u => False ∨ u ∈ tmp.variableOrder) bs := by
        refine hcov.2.mono fun u hu h => ?_
        rcases h with h | h
        · exact Or.inl h
        · exact Or.inr ((hmem u).2 ⟨h, by rintro rfl; exact hnd'.1 hu⟩)
      have hE : ∀ {bs1 : Buckets}, bnames bs1 = bnames bs → ∀ x, x ∈ (bnames bs1).take k ++ v :: E ↔
          x ∈ (bnames ((v, b) :: bs)).take (k + 1) ++ E := fun e x => by
        rw [e]
        simp only [bnames, List.map_cons, List.take_succ_cons, List.mem_append, List.mem_cons]
        tauto
      by_cases hne : tmp.variableOrder = []
      · obtain ⟨l', m1, m2, m3, m4⟩ := mul_over so hlast t2
        have hl' : l'.variableOrder = [] := by
          apply List.eq_nil_iff_forall_not_mem.2
          intro u hu
          rcases (m3 u).1 hu with h | h
          · rw [hls] at h; simp at h
          · rw [hne] at h; simp at h
        obtain ⟨bs', last', i1, i2, i3, i4, i5, i6, i7, i8⟩ := ih bs l' (v :: E) hk' hnd'.2 hov' hord.2
          (hcov'.mono fun u _ h => by rcases h with h | h; exact h; rw [hne] at h; simp at h) m2 hl'
          (hsc.step hs hord hnd'.1 hmem rfl (.refl _) fun h => absurd hne h)
        refine ⟨bs', last', ?_, by rw [i2]; simp [bnames], i3, i4, i5, i6, i7, i8.congr (hE rfl)⟩
        rw [process, t1, ok_bind, place_none t2 bs (by rw [hne]; simp), ok_bind]
        simp only
        rw [m1, ok_bind, i1]
      · obtain ⟨b1, j1, j2, j3, j4, j5, j6⟩ := place_spec so t2 bs hov' hord.2 htsub hne
        obtain ⟨g1, g2⟩ := place_grow so t2 bs hov' j1
        obtain ⟨bs', last', i1, i2, i3, i4, i5, i6, i7, i8⟩ := ih b1 last (v :: E)
          (by have := congrArg List.length j2; simp [bnames] at this; omega) (j2 ▸ hnd'.2) j3 j4
          (j5 _ hcov') hlast hls (hsc.step hs hord hnd'.1 hmem j2 g1 fun _ => g2)
        refine ⟨bs', last', ?_, by rw [i2, j2]; simp [bnames], i3, i4, i5, i6, i7, i8.congr (hE j2)⟩
        rw [process, t1, ok_bind, j1, ok_bind]; exact i1

end VE

open VE

theorem BN.Moral.symm {bn : BN} {u v : Name} (h : bn.Moral u v) : bn.Moral v u := by
  obtain ⟨h1, n, h2, h3, h4⟩ := h
  exact ⟨h1.symm, n, h2, h4, h3⟩

theorem forall₂_exists {α β : Type} {R : α → β → Prop} {l : List α} {m : List β} (h : List.Forall₂ R l m) {a : α}
    (ha : a ∈ l) : ∃ b ∈ m, R a b := by
  induction h with
  | nil => simp at ha
  | cons h1 _ ih =>
    rcases List.mem_cons.1 ha with rfl | ha
    · exact ⟨_, by simp, h1⟩
    · obtain ⟨b, hb, h2⟩ := ih ha
      exact ⟨b, by simp [hb], h2⟩

/-- distributing the tables of the nodes: lines 129-140 -/
theorem fill_scopes (so : SetOrder) {bn : BN} (hc : bn.Consistent) {o : List Name} (hop : o.Perm bn.names) :
    ∃ fs b1, o.mapM (fun v => do let n ← bn.getNode v; Factor.fromNode n) = .ok fs ∧
      fs.foldlM (placeFactor so) (o.map fun v => (v, Factor.trivial 1)) = .ok b1 ∧ bnames b1 = o ∧
      (∀ p ∈ b1, p.2.Over bn.lab) ∧ Ordered b1 ∧ Cov (fun _ => False) b1 ∧ Scopes bn.Moral [] b1 := by
  obtain ⟨fs, b1, h1, h2, h3, h4, h5, h6, -⟩ := fill_spec so hc hop
  refine ⟨fs, b1, h1, h2, h3, h4, h5, h6, ?_⟩
  have hF := mapM_eq_ok.1 h1
  have hfam : ∀ {v f}, v ∈ o → (bn.getNode v >>= fun n => Factor.fromNode n) = .ok f →
      ∃ n ∈ bn, n.name = v ∧ f.Over bn.lab ∧ f.variableOrder = n.family := by
    intro v f hv h
    obtain ⟨n, hn, rfl⟩ := BN.exists_of_mem_names (hop.mem_iff.1 hv)
    obtain ⟨g, g1, g2, g3, g4⟩ := fromNode_over hc hn
    rw [BN.getNode_ok hc.nodup hn, ok_bind, g1] at h
    injection h with h
    exact ⟨n, hn, rfl, h ▸ g2, h ▸ g3⟩
  have hleft : ∀ f ∈ fs, ∃ n ∈ bn, f.Over bn.lab ∧ f.variableOrder = n.family := by
    intro f hf
    obtain ⟨v, hv, h⟩ := forall₂_exists hF.flip hf
    obtain ⟨n, hn, -, h1, h2⟩ := hfam hv h
    exact ⟨n, hn, h1, h2⟩
  have hright : ∀ n ∈ bn, ∃ f ∈ fs, f.variableOrder = n.family := by
    intro n hn
    obtain ⟨f, hf, h⟩ := forall₂_exists hF (hop.mem_iff.2 (List.mem_map_of_mem hn))
    obtain ⟨m, hm, e, h1, h2⟩ := hfam (hop.mem_iff.2 (List.mem_map_of_mem hn)) h
    exact ⟨f, hf, by rw [h2, List.inj_on_of_nodup_map hc.nodup hm hn e]⟩
  obtain ⟨g1, g2⟩ := placeAll_grow (lab := bn.lab) so fs _ (by
      intro f hf
      obtain ⟨n, hn, h1, h2⟩ := hleft f hf
      refine ⟨h1, by rw [h2]; simp [NodeV.family], fun u hu => ?_⟩
      rw [h2] at hu
      have : u ∈ bn.names := by
        rcases List.mem_cons.1 hu with rfl | hu
        · exact List.mem_map_of_mem hn
        · exact hc.parents_mem n hn u hu
      simpa [bnames, Function.comp_def] using hop.mem_iff.2 this)
    (by
      intro p hp
      obtain ⟨v, _, rfl⟩ := List.mem_map.1 hp
      exact trivial_over 1)
    (ordered_trivial o) h2
  refine ⟨fun p hp w hw => ?_, fun x hx y hy hxy => ?_⟩
  · rcases g1.new p hp w hw with ⟨f, hf, h1, h2⟩ | ⟨q, hq, -, h⟩
    · obtain ⟨n, hn, -, e⟩ := hleft f hf
      rw [e] at h1 h2
      by_cases hwp : w = p.1
      · exact .inl hwp
      · exact .inr (via_nil.2 ⟨Ne.symm hwp, n, hn, h1, h2⟩)
    · obtain ⟨v, _, rfl⟩ := List.mem_map.1 hq
      simp at h
  · obtain ⟨-, n, hn, h1, h2⟩ := via_nil.1 hxy
    obtain ⟨f, hf, e⟩ := hright n hn
    obtain ⟨p, hp, h3⟩ := g2 f hf
    rw [← e] at h1 h2
    exact ⟨p, hp, h3 x h1, h3 y h2⟩

/-- the state of `bucket_marginals` before iteration `i` -/
theorem bucketsBefore_spec (so : SetOrder) {bn : BN} (hc : bn.Consistent) {ev : Dict Evidence}
    (he : LegalEvidence bn ev) {Q : List Name} (hQn : Q.Nodup) (hQ : ∀ v ∈ Q, v ∈ bn.names)
    (order0 : Option (List Name)) {order : List Name}
    (hord : VE.chooseOrder bn order0 = .ok order) (hperm : order.Perm bn.names) (i : Nat)
    (hi : i ≤ bn.length) :
    ∃ bs last, bucketsBefore so bn Q ev order0 i = .ok (bs, last) ∧
      bnames bs = (order.filter (fun v => decide (v ∉ Q)) ++ Q).drop i ∧
      (∀ p ∈ bs, p.2.Over bn.lab) ∧ Ordered bs ∧ Cov (fun _ => False) bs ∧ last.Over bn.lab ∧
      last.variableOrder = [] ∧
      Scopes bn.Moral ((order.filter (fun v => decide (v ∉ Q)) ++ Q).take i) bs := by
  have hnd : order.Nodup := hperm.nodup_iff.2 hc.nodup
  have hQo : ∀ v ∈ Q, v ∈ order := fun v hv => hperm.mem_iff.2 (hQ v hv)
  have hmove := moveQuery_dedup hnd hQo
  rw [hQn.dedup] at hmove
  set front := order.filter (fun v => decide (v ∉ Q)) with hfront
  set o := front ++ Q with ho
  have hop : o.Perm bn.names := by
    refine ((List.perm_ext_iff_of_nodup ?_ hc.nodup).2 fun v => ?_)
    · rw [ho, List.nodup_append]
      refine ⟨hnd.filter _, hQn, fun a ha b hb e => ?_⟩
      simp only [hfront, List.mem_filter, decide_eq_true_eq] at ha
      exact ha.2 (e ▸ hb)
    · rw [ho, List.mem_append, ← hperm.mem_iff]
      simp only [hfront, List.mem_filter, decide_eq_true_eq]
      constructor
      · rintro (h | h)
        · exact h.1
        · exact hQo v h
      · intro h
        by_cases hv : v ∈ Q
        · exact Or.inr hv
        · exact Or.inl ⟨h, hv⟩
  have hond : o.Nodup := hop.nodup_iff.2 hc.nodup
  obtain ⟨fs, b1, hmapM, i1, i2, i3, i4, i5, i6⟩ := fill_scopes so hc hop
  have hev : ∀ p ∈ ev, p.1 ∈ bn.names ∧ p.1 ∈ bnames b1 ∧
      (∀ x, p.2 = .hard x → x ∈ bn.lab p.1) ∧ (∀ l, p.2 = .soft l → l.length = bn.card p.1) := by
    intro p hp
    refine ⟨he.mem p hp, by rw [i2]; exact hop.mem_iff.2 (he.mem p hp),
      fun x hx => he.hard p.1 x (by rw [← hx]; exact hp),
      fun l hl => he.soft p.1 l (by rw [← hl]; exact hp)⟩
  obtain ⟨b2, j1, j2, j3, j4, j5, j6⟩ := placeEvidences_spec so hc.nodup hev i3 i4
  have hg := placeEvidences_grow so hc.nodup hev i3 i4 j1
  have hb2n : bnames b2 = o := by rw [j2, i2]
  have hsc : Scopes bn.Moral [] b2 := by
    refine ⟨fun p hp w hw => ?_, fun x hx y hy hxy => ?_⟩
    · rcases hg.new p hp w hw with h | ⟨q, hq, e, h⟩
      · exact .inl h
      · exact e ▸ i6.sound q hq w h
    · obtain ⟨p, hp, h1, h2⟩ := i6.full x (j2 ▸ hx) y (j2 ▸ hy) hxy
      obtain ⟨q, hq, h3⟩ := hg.old p hp
      exact ⟨q, hq, h3 x h1, h3 y h2⟩
  have hl : b2.length = bn.length := by
    have h1 : b2.length = o.length := by rw [← hb2n]; simp [bnames]
    rw [h1, hop.length_eq]; simp [BN.names]
  obtain ⟨bs, last, k1, k2, k3, k4, k5, k6, k7, k8⟩ := process_scopes (lab := bn.lab) (adj := bn.Moral)
    (fun _ _ h => h.symm) so i b2 (Factor.trivial 1) [] (by omega) (hb2n ▸ hond) j3 j4 (j5 _ i5)
    (trivial_over 1) rfl hsc
  rw [hb2n] at k2 k8
  refine ⟨bs, last, ?_, k2, k3, k4, k5, k6, k7, by simpa using k8⟩
  unfold bucketsBefore
  rw [hord, ok_bind, hmove, ok_bind, hmapM, ok_bind]
  simp only
  rw [i1, ok_bind, j1, ok_bind, k1]

end Primo
