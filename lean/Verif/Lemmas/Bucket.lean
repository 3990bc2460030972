import Verif.Lemmas.Naive

/-! # `bucket_marginals` -/

namespace Primo
open Finset Factor

namespace VE
variable {lab : Name → List Val}

/-- bucket variables -/
abbrev bnames (bs : Buckets) : List Name := bs.map Prod.fst

/-- product of all buckets -/
def prodB (bs : Buckets) (σ : Assign) : ℚ := (bs.map fun p => p.2.eval σ).prod

/-- a bucket only mentions its own variable and those of later buckets -/
def Ordered : Buckets → Prop
  | [] => True
  | (v, b) :: bs => (∀ u ∈ b.variableOrder, u = v ∨ u ∈ bnames bs) ∧ Ordered bs

/-- each bucket variable is in `A` or mentioned in its own or an earlier bucket -/
def Cov (A : Name → Prop) : Buckets → Prop
  | [] => True
  | (v, b) :: bs => (A v ∨ v ∈ b.variableOrder) ∧ Cov (fun u => A u ∨ u ∈ b.variableOrder) bs

theorem Cov.mono {A B : Name → Prop} {bs : Buckets} (h : Cov A bs)
    (hAB : ∀ v ∈ bnames bs, A v → B v) : Cov B bs := by
  induction bs generalizing A B with
  | nil => trivial
  | cons p bs ih =>
    obtain ⟨v, b⟩ := p
    refine ⟨h.1.imp (hAB v (by simp)) id, ih h.2 fun u hu => ?_⟩
    exact Or.imp (hAB u (by simp [hu])) id

theorem Ordered.scope {bs : Buckets} (h : Ordered bs) : ∀ p ∈ bs, ∀ u ∈ p.2.variableOrder,
    u ∈ bnames bs := by
  induction bs with
  | nil => simp
  | cons q bs ih =>
    obtain ⟨v, b⟩ := q
    intro p hp u hu
    rcases List.mem_cons.1 hp with rfl | hp
    · rcases h.1 u hu with rfl | h'
      · simp
      · simp only [bnames, List.map_cons, List.mem_cons]; exact Or.inr h'
    · simp only [bnames, List.map_cons, List.mem_cons]
      exact Or.inr (ih h.2 p hp u hu)

theorem prodB_dependsOn {bs : Buckets} (h : Ordered bs) :
    DependsOn (bnames bs).toFinset (prodB bs) := by
  intro σ τ hst
  unfold prodB
  congr 1
  refine List.map_congr_left fun p hp => eval_congr fun u hu => hst u ?_
  simpa using h.scope p hp u hu

theorem place_none {so : SetOrder} {f : Factor} (hf : f.Over lab) (bs : Buckets)
    (hs : ∀ u ∈ bnames bs, u ∉ f.variableOrder) : place so f bs = .ok none := by
  induction bs with
  | nil => rfl
  | cons p bs ih =>
    obtain ⟨v, b⟩ := p
    have hc : f.contains v = false := by
      have := hs v (by simp)
      rw [← hf.wf.contains_iff] at this
      simpa using this
    rw [place]
    simp [hc, ih fun u hu => hs u (by simp only [bnames, List.map_cons, List.mem_cons]; exact Or.inr hu)]

theorem place_spec (so : SetOrder) {f : Factor} (hf : f.Over lab) (bs : Buckets)
    (hov : ∀ p ∈ bs, p.2.Over lab) (hord : Ordered bs)
    (hsub : ∀ u ∈ f.variableOrder, u ∈ bnames bs) (hne : f.variableOrder ≠ []) :
    ∃ bs', place so f bs = .ok (some bs') ∧ bnames bs' = bnames bs ∧ (∀ p ∈ bs', p.2.Over lab) ∧
      Ordered bs' ∧ (∀ A, Cov (fun v => A v ∨ v ∈ f.variableOrder) bs → Cov A bs') ∧
      ∀ σ, Legal (cardOf lab) (bnames bs) σ → prodB bs' σ = prodB bs σ * f.eval σ := by
  induction bs with
  | nil =>
    obtain ⟨u, hu⟩ := List.exists_mem_of_ne_nil _ hne
    simpa using hsub u hu
  | cons p bs ih =>
    obtain ⟨v, b⟩ := p
    by_cases hc : v ∈ f.variableOrder
    · obtain ⟨r, r1, r2, r3, r4⟩ := mul_over so (hov (v, b) (by simp)) hf
      refine ⟨(v, r) :: bs, ?_, rfl, ?_, ⟨?_, hord.2⟩, ?_, ?_⟩
      · rw [place, if_pos (hf.wf.contains_iff.2 hc), r1]; rfl
      · intro p hp
        rcases List.mem_cons.1 hp with rfl | hp
        · exact r2
        · exact hov p (by simp [hp])
      · intro u hu
        rcases (r3 u).1 hu with h | h
        · exact hord.1 u h
        · simpa [bnames] using hsub u h
      · intro A hA
        refine ⟨Or.inr ((r3 v).2 (Or.inr hc)), hA.2.mono fun u _ h => ?_⟩
        rcases h with (h | h) | h
        · exact Or.inl h
        · exact Or.inr ((r3 u).2 (Or.inr h))
        · exact Or.inr ((r3 u).2 (Or.inl h))
      · intro σ hσ
        simp only [prodB, List.map_cons, List.prod_cons]
        rw [r4 σ fun u hu => hσ u ?_]
        · ring
        · rcases (r3 u).1 hu with h | h
          · exact hord.scope (v, b) (by simp) u h
          · exact hsub u h
    · have hsub' : ∀ u ∈ f.variableOrder, u ∈ bnames bs := by
        intro u hu
        have := hsub u hu
        simp only [bnames, List.map_cons, List.mem_cons] at this
        exact this.resolve_left fun e => hc (e ▸ hu)
      obtain ⟨bs', i1, i2, i3, i4, i5, i6⟩ := ih (fun p hp => hov p (by simp [hp])) hord.2 hsub'
      have hcf : f.contains v = false := by
        have := hc
        rw [← hf.wf.contains_iff] at this
        simpa using this
      refine ⟨(v, b) :: bs', ?_, ?_, ?_, ⟨?_, i4⟩, ?_, ?_⟩
      · rw [place, if_neg (by simp [hcf]), i1]; rfl
      · simp only [bnames, List.map_cons]; rw [← bnames, i2]
      · intro p hp
        rcases List.mem_cons.1 hp with rfl | hp
        · exact hov _ (by simp)
        · exact i3 p hp
      · intro u hu; rw [i2]; exact hord.1 u hu
      · intro A hA
        refine ⟨?_, i5 _ (hA.2.mono fun u _ h => ?_)⟩
        · rcases hA.1 with (h | h) | h
          · exact Or.inl h
          · exact absurd h hc
          · exact Or.inr h
        · rcases h with (h | h) | h
          · exact Or.inl (Or.inl h)
          · exact Or.inr h
          · exact Or.inl (Or.inr h)
      · intro σ hσ
        have := i6 σ fun u hu => hσ u (by
          simp only [bnames, List.map_cons, List.mem_cons]; exact Or.inr hu)
        simp only [prodB, List.map_cons, List.prod_cons] at this ⊢
        rw [this]; ring

/-- initial placement of all node tables -/
theorem placeAll_spec (so : SetOrder) (fs : List Factor) (bs : Buckets)
    (hfs : ∀ f ∈ fs, f.Over lab ∧ f.variableOrder ≠ [] ∧ ∀ u ∈ f.variableOrder, u ∈ bnames bs)
    (hov : ∀ p ∈ bs, p.2.Over lab) (hord : Ordered bs) :
    ∃ bs', fs.foldlM (placeFactor so) bs = .ok bs' ∧ bnames bs' = bnames bs ∧
      (∀ p ∈ bs', p.2.Over lab) ∧ Ordered bs' ∧
      (∀ A, Cov (fun v => A v ∨ ∃ f ∈ fs, v ∈ f.variableOrder) bs → Cov A bs') ∧
      ∀ σ, Legal (cardOf lab) (bnames bs) σ →
        prodB bs' σ = prodB bs σ * (fs.map fun f => f.eval σ).prod := by
  induction fs generalizing bs with
  | nil => exact ⟨bs, rfl, rfl, hov, hord, fun A h => h.mono (by simp), by simp⟩
  | cons f fs ih =>
    obtain ⟨h1, h2, h3⟩ := hfs f (by simp)
    obtain ⟨b1, i1, i2, i3, i4, i5, i6⟩ := place_spec so h1 bs hov hord h3 h2
    obtain ⟨b2, j1, j2, j3, j4, j5, j6⟩ := ih b1 (fun g hg => by
      rw [i2]; exact hfs g (by simp [hg])) i3 i4
    refine ⟨b2, ?_, j2.trans i2, j3, j4, fun A hA => j5 A (i5 _ (hA.mono fun v _ h => ?_)), ?_⟩
    · rw [List.foldlM_cons, placeFactor, i1]; exact j1
    · rcases h with h | ⟨g, hg, hv⟩
      · exact Or.inl (Or.inl h)
      · rcases List.mem_cons.1 hg with rfl | hg
        · exact Or.inr hv
        · exact Or.inl (Or.inr ⟨g, hg, hv⟩)
    · intro σ hσ
      rw [j6 σ (i2 ▸ hσ), i6 σ hσ, List.map_cons, List.prod_cons]; ring

theorem set_getElem?_spec {bs : Buckets} {i : Nat} {v : Name} {b b' : Factor}
    (hi : bs[i]? = some (v, b)) (hord : Ordered bs) (hov : ∀ p ∈ bs, p.2.Over lab)
    (hb' : b'.Over lab) (hscope : ∀ u, u ∈ b'.variableOrder ↔ u ∈ b.variableOrder ∨ u = v) :
    bnames (bs.set i (v, b')) = bnames bs ∧ (∀ p ∈ bs.set i (v, b'), p.2.Over lab) ∧
      Ordered (bs.set i (v, b')) ∧ (∀ A, Cov A bs → Cov A (bs.set i (v, b'))) ∧
      ∀ σ x, b'.eval σ = b.eval σ * x → prodB (bs.set i (v, b')) σ = prodB bs σ * x := by
  induction bs generalizing i with
  | nil => simp at hi
  | cons p bs ih =>
    cases i with
    | zero =>
      simp only [List.getElem?_cons_zero, Option.some.injEq] at hi
      subst hi
      refine ⟨rfl, ?_, ⟨?_, hord.2⟩, ?_, ?_⟩
      · intro p hp
        rcases List.mem_cons.1 hp with rfl | hp
        · exact hb'
        · exact hov p (by simp [hp])
      · intro u hu
        rcases (hscope u).1 hu with h | h
        · exact hord.1 u h
        · exact Or.inl h
      · intro A hA
        exact ⟨Or.inr ((hscope v).2 (Or.inr rfl)),
          hA.2.mono fun u _ => Or.imp id fun h => (hscope u).2 (Or.inl h)⟩
      · intro σ x hx
        simp only [List.set_cons_zero, prodB, List.map_cons, List.prod_cons, hx]; ring
    | succ i =>
      obtain ⟨w, c⟩ := p
      simp only [List.getElem?_cons_succ] at hi
      obtain ⟨h1, h2, h3, h4, h5⟩ := ih hi hord.2 fun p hp => hov p (by simp [hp])
      simp only [List.set_cons_succ]
      refine ⟨?_, ?_, ⟨?_, h3⟩, ?_, ?_⟩
      · simp only [bnames, List.map_cons]; rw [← bnames, h1]
      · intro p hp
        rcases List.mem_cons.1 hp with rfl | hp
        · exact hov _ (by simp)
        · exact h2 p hp
      · rw [h1]; exact hord.1
      · exact fun A hA => ⟨hA.1, h4 _ hA.2⟩
      · intro σ x hx
        have := h5 σ x hx
        simp only [prodB, List.map_cons, List.prod_cons] at this ⊢
        rw [this]; ring

theorem placeEvidence_spec (so : SetOrder) {bn : BN} (hn : bn.names.Nodup) {bs : Buckets}
    {e : Name × Evidence} (hmem : e.1 ∈ bn.names) (hin : e.1 ∈ bnames bs)
    (hhard : ∀ x, e.2 = .hard x → x ∈ bn.lab e.1) (hsoft : ∀ l, e.2 = .soft l → l.length = bn.card e.1)
    (hov : ∀ p ∈ bs, p.2.Over bn.lab) (hord : Ordered bs) :
    ∃ bs', placeEvidence so bn bs e = .ok bs' ∧ bnames bs' = bnames bs ∧
      (∀ p ∈ bs', p.2.Over bn.lab) ∧ Ordered bs' ∧ (∀ A, Cov A bs → Cov A bs') ∧
      ∀ σ, Legal bn.card (bnames bs) σ →
        prodB bs' σ = prodB bs σ * lik (bn.lab e.1) e.2 (σ e.1) := by
  obtain ⟨n, hnm, hname⟩ := BN.exists_of_mem_names hmem
  obtain ⟨ef, f1, f2, f3, f4⟩ := asEvidence_over hhard hsoft
  have hidx := List.getElem?_idxOf hin
  rw [List.getElem?_map] at hidx
  obtain ⟨⟨w, b⟩, hb, hw⟩ := Option.map_eq_some_iff.1 hidx
  simp only at hw
  subst hw
  have hbm : (e.1, b) ∈ bs := List.mem_of_getElem? hb
  obtain ⟨r, r1, r2, r3, r4⟩ := mul_over so (hov _ hbm) f2
  obtain ⟨s1, s2, s3, s4, s5⟩ := set_getElem?_spec hb hord hov r2
    (fun u => by rw [r3, f3]; simp)
  refine ⟨_, ?_, s1, s2, s3, s4, fun σ hσ => s5 σ _ ?_⟩
  · unfold placeEvidence
    rw [pyIndex_ok hin, ok_bind, ← hname, BN.getNode_ok hn hnm, ok_bind, ← BN.lab_eq hn hnm, hname,
      f1, ok_bind, hb]
    simp only
    rw [r1]; rfl
  · rw [r4 σ fun u hu => hσ u ?_, f4 σ (hσ _ hin)]
    rcases (r3 u).1 hu with h | h
    · exact hord.scope _ hbm u h
    · rw [f3] at h; rw [List.mem_singleton.1 h]; exact hin

theorem placeEvidences_spec (so : SetOrder) {bn : BN} (hn : bn.names.Nodup) {ev : Dict Evidence}
    {bs : Buckets} (hev : ∀ p ∈ ev, p.1 ∈ bn.names ∧ p.1 ∈ bnames bs ∧
      (∀ x, p.2 = .hard x → x ∈ bn.lab p.1) ∧ (∀ l, p.2 = .soft l → l.length = bn.card p.1))
    (hov : ∀ p ∈ bs, p.2.Over bn.lab) (hord : Ordered bs) :
    ∃ bs', ev.foldlM (placeEvidence so bn) bs = .ok bs' ∧ bnames bs' = bnames bs ∧
      (∀ p ∈ bs', p.2.Over bn.lab) ∧ Ordered bs' ∧ (∀ A, Cov A bs → Cov A bs') ∧
      ∀ σ, Legal bn.card (bnames bs) σ →
        prodB bs' σ = prodB bs σ * (ev.map fun p => lik (bn.lab p.1) p.2 (σ p.1)).prod := by
  induction ev generalizing bs with
  | nil => exact ⟨bs, rfl, rfl, hov, hord, fun _ h => h, by simp⟩
  | cons e ev ih =>
    obtain ⟨h1, h2, h3, h4⟩ := hev e (by simp)
    obtain ⟨b1, i1, i2, i3, i4, i5, i6⟩ := placeEvidence_spec so hn h1 h2 h3 h4 hov hord
    obtain ⟨b2, j1, j2, j3, j4, j5, j6⟩ := ih (bs := b1) (fun p hp => by
      rw [i2]; exact hev p (by simp [hp])) i3 i4
    refine ⟨b2, ?_, j2.trans i2, j3, j4, fun A hA => j5 A (i5 A hA), fun σ hσ => ?_⟩
    · rw [List.foldlM_cons, i1]; exact j1
    · rw [j6 σ (i2 ▸ hσ), i6 σ hσ, List.map_cons, List.prod_cons]; ring

/-- processing the first `k` buckets sums out their variables -/
theorem process_spec (so : SetOrder) (k : Nat) (bs : Buckets) (last : Factor)
    (hk : k ≤ bs.length) (hnd : (bnames bs).Nodup) (hov : ∀ p ∈ bs, p.2.Over lab) (hord : Ordered bs)
    (hcov : Cov (fun _ => False) bs) (hlast : last.Over lab) (hls : last.variableOrder = []) :
    ∃ bs' last', process so k bs last = .ok (bs', last') ∧ bnames bs' = (bnames bs).drop k ∧
      (∀ p ∈ bs', p.2.Over lab) ∧ Ordered bs' ∧ Cov (fun _ => False) bs' ∧ last'.Over lab ∧
      last'.variableOrder = [] ∧
      ∀ σ, Legal (cardOf lab) (bnames bs') σ → prodB bs' σ * last'.eval σ =
        sumOver (cardOf lab) ((bnames bs).take k).toFinset
          (fun τ => prodB bs τ * last.eval τ) σ := by
  induction k generalizing bs last with
  | zero => exact ⟨bs, last, rfl, by simp, hov, hord, hcov, hlast, hls, by simp⟩
  | succ k ih =>
    cases bs with
    | nil => simp at hk
    | cons p bs =>
      obtain ⟨v, b⟩ := p
      have hnd' := List.nodup_cons.1 (by simpa [bnames] using hnd :
        (v :: bnames bs).Nodup)
      have hvb : v ∈ b.variableOrder := by
        rcases hcov.1 with h | h
        · exact h.elim
        · exact h
      have hbo := hov (v, b) (by simp)
      obtain ⟨tmp, t1, t2, t3, t4⟩ := marginalize_over hbo (vs := [v]) (by simp) (by simpa using hvb)
      have hmem : ∀ u, u ∈ tmp.variableOrder ↔ u ∈ b.variableOrder ∧ u ≠ v := by
        intro u; rw [t3]; simp
      have htsub : ∀ u ∈ tmp.variableOrder, u ∈ bnames bs := by
        intro u hu
        obtain ⟨h1, h2⟩ := (hmem u).1 hu
        exact (hord.1 u h1).resolve_left h2
      have hov' : ∀ p ∈ bs, p.2.Over lab := fun p hp => hov p (by simp [hp])
      have hk' : k ≤ bs.length := by simpa using hk
      have hcov' : Cov (fun u => False ∨ u ∈ tmp.variableOrder) bs := by
        refine hcov.2.mono fun u hu h => ?_
        rcases h with h | h
        · exact Or.inl h
        · exact Or.inr ((hmem u).2 ⟨h, by rintro rfl; exact hnd'.1 hu⟩)
      -- summing out `v` from the whole product
      have hsumv : ∀ σ, Legal (cardOf lab) (bnames bs) σ →
          sumOver (cardOf lab) {v} (fun τ => prodB ((v, b) :: bs) τ * last.eval τ) σ =
            tmp.eval σ * prodB bs σ * last.eval σ := by
        intro σ hσ
        have hdep : DependsOn (bnames bs).toFinset (fun τ => prodB bs τ * last.eval τ) := by
          refine (prodB_dependsOn hord.2).mul ?_
          refine (eval_dependsOn last).mono ?_
          rw [hls]; simp
        have e : (fun τ => prodB ((v, b) :: bs) τ * last.eval τ) =
            fun τ => b.eval τ * (prodB bs τ * last.eval τ) := by
          funext τ; simp only [prodB, List.map_cons, List.prod_cons]; ring
        rw [e, sumOver_mul_right hdep (by simpa using hnd'.1)]
        rw [t4 σ fun u hu => hσ u (htsub u hu)]
        simp only [List.toFinset_cons, List.toFinset_nil, insert_empty_eq]
        ring
      have hfin : ∀ (bs₁ : Buckets) (last₁ : Factor),
          (∀ σ, Legal (cardOf lab) (bnames bs) σ →
            prodB bs₁ σ * last₁.eval σ = tmp.eval σ * prodB bs σ * last.eval σ) →
          ∀ σ, Legal (cardOf lab) ((bnames bs).drop k) σ →
          sumOver (cardOf lab) ((bnames bs).take k).toFinset
            (fun τ => prodB bs₁ τ * last₁.eval τ) σ =
          sumOver (cardOf lab) ((bnames ((v, b) :: bs)).take (k + 1)).toFinset
            (fun τ => prodB ((v, b) :: bs) τ * last.eval τ) σ := by
        intro bs₁ last₁ h σ hσ
        have : (bnames ((v, b) :: bs)).take (k + 1) = v :: (bnames bs).take k := by simp [bnames]
        rw [this, List.toFinset_cons, insert_eq, union_comm, sumOver_union (by
          simp only [disjoint_singleton_right, List.mem_toFinset]
          exact fun h => hnd'.1 (List.mem_of_mem_take h))]
        refine sumOver_congr fun τ hτ => ?_
        have hlegτ : Legal (cardOf lab) (bnames bs) τ := by
          refine hτ.legal fun u hu hs => hσ u ?_
          rw [← List.take_append_drop k (bnames bs)] at hu
          rcases List.mem_append.1 hu with h' | h'
          · exact absurd (by simpa using h') hs
          · exact h'
        rw [hsumv τ hlegτ, h τ hlegτ]
      by_cases hne : tmp.variableOrder = []
      · obtain ⟨l', m1, m2, m3, m4⟩ := mul_over so hlast t2
        have hl' : l'.variableOrder = [] := by
          apply List.eq_nil_iff_forall_not_mem.2
          intro u hu
          rcases (m3 u).1 hu with h | h
          · rw [hls] at h; simp at h
          · rw [hne] at h; simp at h
        obtain ⟨bs', last', i1, i2, i3, i4, i5, i6, i7, i8⟩ := ih bs l' hk' hnd'.2 hov' hord.2
          (hcov'.mono fun u _ h => by rcases h with h | h; exact h; rw [hne] at h; simp at h) m2 hl'
        refine ⟨bs', last', ?_, by rw [i2]; simp [bnames], i3, i4, i5, i6, i7, fun σ hσ => ?_⟩
        · rw [process, t1, ok_bind, place_none t2 bs (by rw [hne]; simp), ok_bind]
          simp only
          rw [m1, ok_bind, i1]
        · rw [i8 σ hσ]
          refine hfin bs l' (fun τ hτ => ?_) σ (i2 ▸ hσ)
          rw [m4 τ (by rw [hl']; intro u hu; simp at hu)]; ring
      · obtain ⟨b1, j1, j2, j3, j4, j5, j6⟩ := place_spec so t2 bs hov' hord.2 htsub hne
        obtain ⟨bs', last', i1, i2, i3, i4, i5, i6, i7, i8⟩ := ih b1 last
          (by have := congrArg List.length j2; simp [bnames] at this; omega) (j2 ▸ hnd'.2) j3 j4
          (j5 _ hcov') hlast hls
        refine ⟨bs', last', ?_, by rw [i2, j2]; simp [bnames], i3, i4, i5, i6, i7, fun σ hσ => ?_⟩
        · rw [process, t1, ok_bind, j1, ok_bind]; exact i1
        · rw [i8 σ hσ, j2]
          refine hfin b1 last (fun τ hτ => ?_) σ (by rw [i2, j2] at hσ; exact hσ)
          rw [j6 τ hτ]; ring

theorem combine_fold (so : SetOrder) (bs : List Factor) (acc : Factor)
    (hov : ∀ b ∈ bs, b.Over lab) (hacc : acc.Over lab) :
    ∃ r, bs.foldlM (fun acc b => b.mul so acc) acc = .ok r ∧ r.Over lab ∧
      (∀ u, u ∈ r.variableOrder ↔ u ∈ acc.variableOrder ∨ ∃ b ∈ bs, u ∈ b.variableOrder) ∧
      ∀ σ, Legal (cardOf lab) r.variableOrder σ →
        r.eval σ = acc.eval σ * (bs.map fun b => b.eval σ).prod := by
  induction bs generalizing acc with
  | nil => exact ⟨acc, rfl, hacc, by simp, by simp⟩
  | cons b bs ih =>
    obtain ⟨r1, a1, a2, a3, a4⟩ := mul_over so (hov b (by simp)) hacc
    obtain ⟨r, b1, b2, b3, b4⟩ := ih r1 (fun c hc => hov c (by simp [hc])) a2
    refine ⟨r, by rw [List.foldlM_cons, a1]; exact b1, b2, fun u => ?_, fun σ hσ => ?_⟩
    · rw [b3, a3]
      simp only [List.mem_cons, exists_eq_or_imp]
      tauto
    · rw [b4 σ hσ, a4 σ fun u hu => hσ u ((b3 u).2 (Or.inl hu)), List.map_cons, List.prod_cons]
      ring

theorem combine_spec (so : SetOrder) (bs : List Factor) (last : Factor)
    (hov : ∀ b ∈ bs, b.Over lab) (hlast : last.Over lab) :
    ∃ r, combine so bs last = .ok r ∧ r.Over lab ∧
      (∀ u, u ∈ r.variableOrder ↔ u ∈ last.variableOrder ∨ ∃ b ∈ bs, u ∈ b.variableOrder) ∧
      ∀ σ, Legal (cardOf lab) r.variableOrder σ →
        r.eval σ = (bs.map fun b => b.eval σ).prod * last.eval σ := by
  cases bs with
  | nil => exact ⟨last, rfl, hlast, by simp, by simp⟩
  | cons b bs =>
    obtain ⟨r, b1, b2, b3, b4⟩ := combine_fold so (bs ++ [last]) b
      (fun c hc => by
        rcases List.mem_append.1 hc with h | h
        · exact hov c (by simp [h])
        · rw [List.mem_singleton.1 h]; exact hlast) (hov b (by simp))
    refine ⟨r, b1, b2, fun u => ?_, fun σ hσ => ?_⟩
    · rw [b3]
      simp only [List.mem_append, List.mem_cons, List.not_mem_nil, or_false, exists_eq_or_imp]
      constructor
      · rintro (h | ⟨c, h | rfl, hc⟩)
        · exact Or.inr (Or.inl h)
        · exact Or.inr (Or.inr ⟨c, h, hc⟩)
        · exact Or.inl hc
      · rintro (h | h | ⟨c, h, hc⟩)
        · exact Or.inr ⟨last, Or.inr rfl, h⟩
        · exact Or.inl h
        · exact Or.inr ⟨c, Or.inl h, hc⟩
    · rw [b4 σ hσ]; simp; ring

theorem Cov.exists_mem {bs : Buckets} {A : Name → Prop} (h : Cov A bs) :
    ∀ v ∈ bnames bs, A v ∨ ∃ p ∈ bs, v ∈ p.2.variableOrder := by
  induction bs generalizing A with
  | nil => simp
  | cons p bs ih =>
    obtain ⟨w, b⟩ := p
    intro v hv
    simp only [bnames, List.map_cons, List.mem_cons] at hv
    rcases hv with rfl | hv
    · exact h.1.imp id fun h => ⟨(v, b), by simp, h⟩
    · rcases ih h.2 v hv with (h' | h') | ⟨p, hp, h'⟩
      · exact Or.inl h'
      · exact Or.inr ⟨(w, b), by simp, h'⟩
      · exact Or.inr ⟨p, by simp [hp], h'⟩

/-- moving the query variables to the end, possibly several times -/
theorem moveQuery_dedup {order Q : List Name} (ho : order.Nodup) (hsub : ∀ v ∈ Q, v ∈ order) :
    moveQuery order Q = .ok (order.filter (fun v => decide (v ∉ Q)) ++ Q.dedup) := by
  induction Q generalizing order with
  | nil => simp [moveQuery]
  | cons v Q ih =>
    have hv : v ∈ order := hsub v (by simp)
    have hmem : ∀ u, u ∈ order.erase v ++ [v] ↔ u ∈ order := by
      intro u
      simp only [List.mem_append, List.mem_singleton, ho.mem_erase_iff]
      constructor
      · rintro (⟨_, h⟩ | rfl) <;> assumption
      · intro h
        by_cases hu : u = v
        · exact Or.inr hu
        · exact Or.inl ⟨hu, h⟩
    have ho' : (order.erase v ++ [v]).Nodup := by
      rw [List.nodup_append]
      refine ⟨ho.erase v, by simp, ?_⟩
      intro a ha b hb
      rw [List.mem_singleton.1 hb]
      exact (ho.mem_erase_iff.1 ha).1
    have hi := ih ho' fun u hu => (hmem u).2 (hsub u (by simp [hu]))
    rw [moveQuery, List.foldlM_cons]
    simp only [pyRemove, hv, if_true, ok_bind, pure_eq_ok]
    rw [moveQuery] at hi
    simp only [pyRemove, pure_eq_ok] at hi
    have hfil : (order.erase v).filter (fun u => decide (u ∉ Q)) =
        order.filter (fun u => decide (u ∉ v :: Q)) := by
      rw [ho.erase_eq_filter, List.filter_filter]
      refine List.filter_congr fun u _ => ?_
      by_cases hu : u = v <;> simp [hu]
    rw [hi, List.filter_append, hfil]
    by_cases hvQ : v ∈ Q
    · rw [List.dedup_cons_of_mem hvQ, List.filter_cons_of_neg (by simpa using hvQ), List.filter_nil,
        List.append_nil]
    · rw [List.dedup_cons_of_notMem hvQ, List.filter_cons_of_pos (by simpa using hvQ),
        List.filter_nil, List.append_assoc, List.singleton_append]

theorem ordered_trivial (l : List Name) : Ordered (l.map fun v => (v, Factor.trivial 1)) := by
  induction l with
  | nil => trivial
  | cons v l ih => exact ⟨by simp, ih⟩

theorem cov_of_forall {A : Name → Prop} (bs : Buckets) (h : ∀ v ∈ bnames bs, A v) : Cov A bs := by
  induction bs generalizing A with
  | nil => trivial
  | cons p bs ih =>
    obtain ⟨v, b⟩ := p
    refine ⟨Or.inl (h v (by simp)), ih fun u hu => Or.inl (h u ?_)⟩
    simp only [bnames, List.map_cons, List.mem_cons]; exact Or.inr hu

end VE

open VE

/-- creating the buckets and distributing the tables of the nodes: lines 129-140 -/
theorem fill_spec (so : SetOrder) {bn : BN} (hc : bn.Consistent) {o : List Name}
    (hop : o.Perm bn.names) :
    ∃ fs b1, o.mapM (fun v => do let n ← bn.getNode v; Factor.fromNode n) = .ok fs ∧
      fs.foldlM (placeFactor so) (o.map fun v => (v, Factor.trivial 1)) = .ok b1 ∧ bnames b1 = o ∧
      (∀ p ∈ b1, p.2.Over bn.lab) ∧ Ordered b1 ∧ Cov (fun _ => False) b1 ∧
      ∀ ρ, Legal bn.card o ρ → prodB b1 ρ = (bn.map fun n => n.entry ρ).prod := by
  -- the factor of each node
  have hfac : ∀ v ∈ o, ∃ f : Factor, (bn.getNode v >>= fun n => Factor.fromNode n) = .ok f ∧
      f.Over bn.lab ∧ v ∈ f.variableOrder ∧ (∀ u ∈ f.variableOrder, u ∈ bn.names) ∧
      ∀ σ, f.eval σ = entryOf bn v σ := by
    intro v hv
    obtain ⟨n, hn, rfl⟩ := BN.exists_of_mem_names (hop.mem_iff.1 hv)
    obtain ⟨f, f1, f2, f3, f4⟩ := fromNode_over hc hn
    refine ⟨f, by rw [BN.getNode_ok hc.nodup hn, ok_bind, f1], f2, by simp [f3], ?_, ?_⟩
    · intro u hu
      rw [f3] at hu
      rcases List.mem_cons.1 hu with rfl | hu
      · exact hop.mem_iff.1 hv
      · exact hc.parents_mem n hn u hu
    · intro σ; rw [f4]; simp only [entryOf, BN.lab_of_mem hc.nodup hn]
  let F : Name → Factor := fun v => if h : v ∈ o then (hfac v h).choose else Factor.trivial 1
  have hF : ∀ v ∈ o, (bn.getNode v >>= fun n => Factor.fromNode n) = .ok (F v) ∧
      (F v).Over bn.lab ∧ v ∈ (F v).variableOrder ∧ (∀ u ∈ (F v).variableOrder, u ∈ bn.names) ∧
      ∀ σ, (F v).eval σ = entryOf bn v σ := by
    intro v hv
    simp only [F, hv, dif_pos]
    exact (hfac v hv).choose_spec
  have hmapM : o.mapM (fun v => do let n ← bn.getNode v; Factor.fromNode n) = .ok (o.map F) :=
    mapM_ok fun v hv => (hF v hv).1
  set b0 : Buckets := o.map fun v => (v, Factor.trivial 1) with hb0
  have hb0n : bnames b0 = o := by simp [hb0, bnames, Function.comp_def]
  obtain ⟨b1, i1, i2, i3, i4, i5, i6⟩ := placeAll_spec (lab := bn.lab) so (o.map F) b0
    (by
      intro f hf
      obtain ⟨v, hv, rfl⟩ := List.mem_map.1 hf
      refine ⟨(hF v hv).2.1, List.ne_nil_of_mem (hF v hv).2.2.1, fun u hu => ?_⟩
      rw [hb0n]; exact hop.mem_iff.2 ((hF v hv).2.2.2.1 u hu))
    (by
      intro p hp
      obtain ⟨v, _, rfl⟩ := List.mem_map.1 hp
      exact trivial_over 1)
    (ordered_trivial o)
  refine ⟨o.map F, b1, hmapM, i1, by rw [i2, hb0n], i3, i4, i5 _ (cov_of_forall _ fun v hv => by
    rw [hb0n] at hv
    exact Or.inr ⟨F v, List.mem_map_of_mem hv, (hF v hv).2.2.1⟩), fun ρ hρ => ?_⟩
  rw [i6 ρ (by rw [hb0n]; exact hρ)]
  have h0 : prodB b0 ρ = 1 := by
    rw [prodB, hb0, List.map_map]
    apply List.prod_eq_one
    intro x hx
    obtain ⟨v, _, rfl⟩ := List.mem_map.1 hx
    rfl
  have h1 : ((o.map F).map fun f => f.eval ρ).prod = (bn.map fun n => n.entry ρ).prod := by
    rw [List.map_map, ← prod_entryOf hc.nodup]
    refine Eq.trans ?_ (hop.map fun v => entryOf bn v ρ).prod_eq
    congr 1
    exact List.map_congr_left fun v hv => (hF v hv).2.2.2.2 ρ
  rw [h0, one_mul, h1]

/-- `bucket_marginals` with an elimination order that lists every node once, for a query that may
repeat variables: the posterior of the last `len(variables)` variables of the rearranged order. -/
theorem bucketMarginals_repeated (so : SetOrder) {bn : BN} (hc : bn.Consistent) {ev : Dict Evidence}
    (he : LegalEvidence bn ev) {Q : List Name} (hQ : ∀ v ∈ Q, v ∈ bn.names)
    (hQl : Q.length ≤ bn.names.length)
    (order0 : Option (List Name)) {order : List Name}
    (hord : VE.chooseOrder bn order0 = .ok order) (hperm : order.Perm bn.names) {R : List Name}
    (hR : R = (order.filter (fun v => decide (v ∉ Q)) ++ Q.dedup).drop
      (bn.names.length - Q.length)) :
    ∃ r, VE.bucketMarginals so bn Q ev order0 = .ok r ∧ r.Over bn.lab ∧
      (∀ v, v ∈ r.variableOrder ↔ v ∈ R) ∧
      ∀ σ, Legal bn.card R σ → r.eval σ = posterior bn ev R σ := by
  have hnd : order.Nodup := hperm.nodup_iff.2 hc.nodup
  have hQo : ∀ v ∈ Q, v ∈ order := fun v hv => hperm.mem_iff.2 (hQ v hv)
  have hmove := moveQuery_dedup hnd hQo
  set front := order.filter (fun v => decide (v ∉ Q)) with hfront
  set o := front ++ Q.dedup with ho
  have hop : o.Perm bn.names := by
    refine ((List.perm_ext_iff_of_nodup ?_ hc.nodup).2 fun v => ?_)
    · rw [ho, List.nodup_append]
      refine ⟨hnd.filter _, List.nodup_dedup Q, fun a ha b hb e => ?_⟩
      simp only [hfront, List.mem_filter, decide_eq_true_eq] at ha
      exact ha.2 (e ▸ List.mem_dedup.1 hb)
    · rw [ho, List.mem_append, ← hperm.mem_iff, List.mem_dedup]
      simp only [hfront, List.mem_filter, decide_eq_true_eq]
      constructor
      · rintro (h | h)
        · exact h.1
        · exact hQo v h
      · intro h
        by_cases hv : v ∈ Q
        · exact Or.inr hv
        · exact Or.inl ⟨h, hv⟩
  have hond : o.Nodup := hop.nodup_iff.2 hc.nodup
  obtain ⟨fs, b1, hmapM, i1, i2, i3, i4, i5, i6⟩ := fill_spec so hc hop
  obtain ⟨b2, j1, j2, j3, j4, j5, j6⟩ := placeEvidences_spec so hc.nodup (ev := ev) (bs := b1)
    (by
      intro p hp
      refine ⟨he.mem p hp, by rw [i2]; exact hop.mem_iff.2 (he.mem p hp),
        fun x hx => he.hard p.1 x (by rw [← hx]; exact hp),
        fun l hl => he.soft p.1 l (by rw [← hl]; exact hp)⟩) i3 i4
  have hb2n : bnames b2 = o := by rw [j2, i2]
  have hcov : Cov (fun _ => False) b2 := j5 _ i5
  have hol : o.length = bn.names.length := hop.length_eq
  have hRn : ∀ v ∈ R, v ∈ bn.names := fun v hv => hop.mem_iff.1 (List.mem_of_mem_drop (hR ▸ hv))
  obtain ⟨b3, last, k1, k2, k3, k4, k5, k6, k7, k8⟩ := process_spec so (o.length - Q.length) b2
    (Factor.trivial 1) (by
      have : b2.length = o.length := by rw [← hb2n]; simp [bnames]
      rw [this]; exact Nat.sub_le _ _) (hb2n ▸ hond) j3 j4 hcov (trivial_over 1) rfl
  have hb3n : bnames b3 = R := by rw [k2, hb2n, hR, hol]
  obtain ⟨r, c1, c2, c3, c4⟩ := combine_spec so (b3.map Prod.snd) last
    (by
      intro b hb
      obtain ⟨p, hp, rfl⟩ := List.mem_map.1 hb
      exact k3 p hp) k6
  have hmem : ∀ v, v ∈ r.variableOrder ↔ v ∈ R := by
    intro v
    rw [c3, k7]
    simp only [List.not_mem_nil, false_or, List.mem_map, exists_exists_and_eq_and]
    constructor
    · rintro ⟨p, hp, hv⟩
      rw [← hb3n]; exact k4.scope p hp v hv
    · intro hv
      rcases k5.exists_mem v (hb3n ▸ hv) with h | h
      · exact h.elim
      · exact h
  refine ⟨r.normalize, ?_, c2.normalize, by simpa using hmem, fun σ hσ => ?_⟩
  · unfold VE.bucketMarginals
    rw [hord, ok_bind, hmove, ok_bind, hmapM, ok_bind]
    simp only
    rw [i1, ok_bind, j1, ok_bind, if_neg (by omega), k1, ok_bind]
    simp only
    rw [c1]; rfl
  · refine normalize_posterior c2 hmem hRn (fun τ hτ => ?_) hσ
    have hτr : Legal bn.card r.variableOrder τ := fun v hv => hτ v ((hmem v).1 hv)
    rw [c4 τ hτr]
    have hp3 : ((b3.map Prod.snd).map fun b => b.eval τ).prod = prodB b3 τ := by
      rw [List.map_map]; rfl
    rw [hp3, k8 τ (hb3n ▸ hτ), hb2n]
    have hset : (o.take (o.length - Q.length)).toFinset = bn.names.toFinset \ R.toFinset := by
      have hR' : R = o.drop (o.length - Q.length) := by rw [hol]; exact hR
      have hsplit := List.take_append_drop (o.length - Q.length) o
      ext v
      rw [List.mem_toFinset, mem_sdiff, List.mem_toFinset, List.mem_toFinset, hR', ← hop.mem_iff]
      constructor
      · intro hv
        refine ⟨List.mem_of_mem_take hv, fun hd => ?_⟩
        rw [← hsplit] at hond
        exact (List.nodup_append.1 hond).2.2 v hv v hd rfl
      · rintro ⟨hv, hd⟩
        rw [← hsplit, List.mem_append] at hv
        exact hv.resolve_right hd
    rw [hset]
    refine sumOver_congr fun ρ hρ => ?_
    have hlegρ : Legal bn.card o ρ := by
      refine hρ.legal fun v hv hs => hτ v ?_
      have := hop.mem_iff.1 hv
      simpa [this] using hs
    rw [trivial_eval, mul_one, j6 ρ (by rw [i2]; exact hlegρ), i6 ρ hlegρ, weight]

/-- `bucket_marginals` with an elimination order that lists every node once. -/
theorem bucketMarginals_spec (so : SetOrder) {bn : BN} (hc : bn.Consistent) {ev : Dict Evidence}
    (he : LegalEvidence bn ev) {Q : List Name} (hQn : Q.Nodup) (hQ : ∀ v ∈ Q, v ∈ bn.names)
    (order0 : Option (List Name)) {order : List Name}
    (hord : VE.chooseOrder bn order0 = .ok order) (hperm : order.Perm bn.names) :
    ∃ r, VE.bucketMarginals so bn Q ev order0 = .ok r ∧ r.Over bn.lab ∧
      (∀ v, v ∈ r.variableOrder ↔ v ∈ Q) ∧
      ∀ σ, Legal bn.card Q σ → r.eval σ = posterior bn ev Q σ := by
  have hnd : order.Nodup := hperm.nodup_iff.2 hc.nodup
  have hperm' : (order.filter (fun v => decide (v ∉ Q)) ++ Q).Perm order := by
    refine ((List.perm_ext_iff_of_nodup ?_ hnd).2 fun v => ?_)
    · rw [List.nodup_append]
      refine ⟨hnd.filter _, hQn, fun a ha b hb e => ?_⟩
      simp only [List.mem_filter, decide_eq_true_eq] at ha
      exact ha.2 (e ▸ hb)
    · rw [List.mem_append, List.mem_filter, decide_eq_true_eq]
      constructor
      · rintro (h | h)
        · exact h.1
        · exact hperm.mem_iff.2 (hQ v h)
      · intro h
        by_cases hv : v ∈ Q
        · exact Or.inr hv
        · exact Or.inl ⟨h, hv⟩
  have hl := hperm'.length_eq.trans hperm.length_eq
  rw [List.length_append] at hl
  refine bucketMarginals_repeated so hc he hQ (by omega) order0 hord hperm ?_
  rw [hQn.dedup, ← hl, Nat.add_sub_cancel, List.drop_left]

end Primo
