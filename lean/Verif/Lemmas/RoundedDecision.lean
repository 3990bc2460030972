import Verif.Lemmas.RoundedOff
import Verif.Lemmas.Decision
import Mathlib.Data.List.Perm.Basic

/-! # Generalised variable elimination with rounded arithmetic -/

namespace Primo
open Finset

variable {lab : Name → List Val} {u : ℚ} {A : Arith}

/-- a joint factor in the three runs, and the number of roundings of its probabilities -/
structure Quad where
  k : Nat
  r : JointFactor
  e : JointFactor
  b : JointFactor

/-- the three joint factors belong together; the utilities have seen at most `m` roundings -/
structure Quad.Ok (lab : Name → List Val) (u : ℚ) (m : Nat) (q : Quad) : Prop where
  over : JointOver lab q.e
  prob : Factor.PT u q.k q.r.1 q.e.1 q.b.1
  util : Factor.UT u m q.r.2 q.e.2 q.b.2

theorem Quad.Ok.mono {m m' : Nat} {q : Quad} (h0 : 0 ≤ u) (h1 : u < 1) (h : q.Ok lab u m)
    (hm : m ≤ m') : q.Ok lab u m' := ⟨h.over, h.prob, Factor.UT.mono h0 h1 h.util hm⟩

theorem combineTwoR_spec (hA : A.Accurate u) (so : SetOrder) {m : Nat} {q q' : Quad}
    (hq : q.Ok lab u m) (hq' : q'.Ok lab u m) :
    ∃ t : Quad, Decision.combineTwoR A so q.r q'.r = .ok t.r ∧ Decision.combineTwo so q.e q'.e = .ok t.e ∧
      Decision.combineTwo so q.b q'.b = .ok t.b ∧ t.k = q.k + q'.k + 1 ∧ t.Ok lab u (m + 1) := by
  obtain ⟨e, e1, e2, -, -⟩ := combineTwo_spec so hq.over hq'.over
  have h : Rel3 (fun r e b => Factor.PT u (q.k + q'.k + 1) r.1 e.1 b.1 ∧ Factor.UT u (m + 1) r.2 e.2 b.2)
      (Decision.combineTwoR A so q.r q'.r) (Decision.combineTwo so q.e q'.e)
      (Decision.combineTwo so q.b q'.b) :=
    (Factor.pt_mul hA so hq.prob hq'.prob).bind fun _ _ _ hp =>
      (Factor.ut_add hA so hq.util hq'.util).bind fun _ _ _ hu => Rel3.pure ⟨hp, hu⟩
  obtain ⟨r, b, h1, h2, h3, h4⟩ := h.ok_mid e1
  exact ⟨⟨q.k + q'.k + 1, r, e, b⟩, h1, e1, h2, rfl, e2, h3, h4⟩

theorem foldlM_combineR (hA : A.Accurate u) (so : SetOrder) {qs : List Quad} {m : Nat} {q : Quad}
    (hq : q.Ok lab u m) (hqs : ∀ t ∈ qs, t.Ok lab u m) :
    ∃ t : Quad, (qs.map Quad.r).foldlM (Decision.combineTwoR A so) q.r = .ok t.r ∧
      (qs.map Quad.e).foldlM (Decision.combineTwo so) q.e = .ok t.e ∧
      (qs.map Quad.b).foldlM (Decision.combineTwo so) q.b = .ok t.b ∧
      t.k = q.k + (qs.map Quad.k).sum + qs.length ∧ t.Ok lab u (m + qs.length) := by
  induction qs generalizing q m with
  | nil => exact ⟨q, rfl, rfl, rfl, rfl, hq⟩
  | cons p qs ih =>
    obtain ⟨t, t1, t2, t3, t4, t5⟩ := combineTwoR_spec hA so hq (hqs p (by simp))
    obtain ⟨s, s1, s2, s3, s4, s5⟩ := ih t5 fun x hx =>
      (hqs x (by simp [hx])).mono hA.nonneg hA.lt_one (by omega)
    refine ⟨s, ?_, ?_, ?_, ?_, ?_⟩
    · rw [List.map_cons, List.foldlM_cons, t1, ok_bind, s1]
    · rw [List.map_cons, List.foldlM_cons, t2, ok_bind, s2]
    · rw [List.map_cons, List.foldlM_cons, t3, ok_bind, s3]
    · rw [s4, t4, List.map_cons, List.sum_cons, List.length_cons]; omega
    · rw [List.length_cons, Nat.add_comm qs.length, ← Nat.add_assoc]; exact s5

theorem combineR_spec (hA : A.Accurate u) (so : SetOrder) {qs : List Quad} {m : Nat} (hne : qs ≠ [])
    (hqs : ∀ t ∈ qs, t.Ok lab u m) :
    ∃ t : Quad, Decision.combineR A so (qs.map Quad.r) = .ok t.r ∧
      Decision.combine so (qs.map Quad.e) = .ok t.e ∧ Decision.combine so (qs.map Quad.b) = .ok t.b ∧
      t.k + 1 = (qs.map Quad.k).sum + qs.length ∧ t.Ok lab u (m + qs.length - 1) := by
  cases qs with
  | nil => exact absurd rfl hne
  | cons q qs =>
    obtain ⟨t, t1, t2, t3, t4, t5⟩ := foldlM_combineR hA so (qs := qs) (hqs q (by simp)) fun x hx =>
      hqs x (List.mem_cons_of_mem _ hx)
    refine ⟨t, t1, t2, t3, ?_, ?_⟩
    · rw [t4, List.map_cons, List.sum_cons, List.length_cons]; omega
    · rw [List.length_cons, ← Nat.add_assoc, Nat.add_sub_cancel]; exact t5

theorem over_axis {f : Factor} (hf : f.Over lab) {v : Name} (hv : v ∈ f.variableOrder) :
    f.potentials.shape.getD (f.variableOrder.idxOf v) 0 = (lab v).length := by
  rw [hf.wf.shape, List.getD_eq_getElem?_getD, List.getElem?_map,
    List.getElem?_eq_getElem (List.idxOf_lt_length_of_mem hv), List.getElem_idxOf]
  rfl

theorem marginalizeJointR_spec (hA : A.Accurate u) (so : SetOrder) {m : Nat} {q : Quad}
    (hq : q.Ok lab u m) {v : Name} (hv : v ∈ q.e.1.variableOrder) :
    (Decision.marginalizeJointR A so q.r v = .error .floatingPointError ∧
      Decision.marginalizeJoint so q.e v = .error .floatingPointError) ∨
    ∃ t : Quad, Decision.marginalizeJointR A so q.r v = .ok t.r ∧
      Decision.marginalizeJoint so q.e v = .ok t.e ∧ Decision.marginalizeJoint so q.b v = .ok t.b ∧
      t.k = q.k + ((lab v).length - 1) ∧ t.Ok lab u (m + 2 * q.k + 2 * ((lab v).length - 1) + 3) := by
  obtain ⟨pu, p1, p2, p3, -⟩ := Factor.mul_over so hq.over.prob hq.over.util
  have h : Rel3 (fun r e b => Factor.PT u (q.k + ((lab v).length - 1)) r.1 e.1 b.1 ∧
      Factor.UT u (m + 2 * q.k + 2 * ((lab v).length - 1) + 3) r.2 e.2 b.2)
      (Decision.marginalizeJointR A so q.r v) (Decision.marginalizeJoint so q.e v)
      (Decision.marginalizeJoint so q.b v) := by
    have h1 := Factor.pt_sumOut hA v hq.prob
    rw [over_axis hq.over.prob hv] at h1
    refine h1.bind fun tr te tb ht => ?_
    obtain ⟨pr, pb, k1, k2, k3⟩ := (Factor.put_mul hA so hq.prob hq.util).ok_mid p1
    rw [k1, p1, k2, ok_bind, ok_bind, ok_bind]
    have h2 := Factor.ut_sumOut hA v k3
    rw [over_axis p2 ((p3 v).2 (Or.inl hv))] at h2
    refine h2.bind fun sr se sb hs => ?_
    exact (Factor.upt_div hA so hs ht).bind fun _ _ _ hd => Rel3.pure ⟨ht,
      Factor.UT.mono hA.nonneg hA.lt_one hd (by omega)⟩
  rcases marginalizeJoint_spec so hq.over hv with ⟨e1, -, -⟩ | ⟨e, e1, e2, -, -, -⟩
  · exact Or.inl ⟨h.error_mid e1, e1⟩
  · obtain ⟨r, b, h1, h2, h3, h4⟩ := h.ok_mid e1
    exact Or.inr ⟨⟨_, r, e, b⟩, h1, e1, h2, rfl, e2, h3, h4⟩

/-! ## the same order of the sets in the other runs -/

theorem perm_lift {α β : Type} {f : α → β} {l : List β} {qs : List α} (h : l.Perm (qs.map f)) :
    ∃ qs' : List α, qs'.Perm qs ∧ l = qs'.map f := by
  have h2 : List.Forall₂ (fun (b : β) (q : α) => b = f q) (qs.map f) qs := by
    rw [List.forall₂_map_left_iff, List.forall₂_same]
    exact fun _ _ => rfl
  obtain ⟨qs', h3, h4⟩ := List.perm_comp_forall₂ h h2
  refine ⟨qs', h4, ?_⟩
  clear h4 h2 h
  induction h3 with
  | nil => rfl
  | cons h _ ih => rw [List.map_cons, h, ih]

/-- iterate `l` in the order `l'` in iteration `k`, otherwise as before -/
noncomputable def SetPerm.fix (sp : SetPerm) (k : Nat) {l l' : List JointFactor} (h : l'.Perm l) : SetPerm := by
  classical
  exact ⟨fun j x => if j = k ∧ x = l then l' else sp.perm j x, fun j x => by
    split
    · rename_i hx; rw [hx.2]; exact h
    · exact sp.isPerm j x⟩

theorem SetPerm.fix_self (sp : SetPerm) (k : Nat) {l l' : List JointFactor} (h : l'.Perm l) :
    (sp.fix k h).perm k l = l' := by simp [SetPerm.fix]

theorem SetPerm.fix_ne (sp : SetPerm) {k j : Nat} {l l' : List JointFactor} (h : l'.Perm l) (hj : j ≠ k) :
    (sp.fix k h).perm j = sp.perm j := by
  funext x; simp [SetPerm.fix, hj]

theorem eliminate_congr (so : SetOrder) {sp sp' : SetPerm} (vs : List Name) (k : Nat) (W : List JointFactor)
    (h : ∀ j, k ≤ j → j < k + vs.length → sp.perm j = sp'.perm j) :
    Decision.eliminate so sp k vs W = Decision.eliminate so sp' k vs W := by
  induction vs generalizing k W with
  | nil => rfl
  | cons v vs ih =>
    unfold Decision.eliminate
    rw [h k le_rfl (by simp)]
    simp only [ih (k + 1) _ fun j h1 h2 => h j (by omega) (by simp only [List.length_cons]; omega)]

theorem map_filter_quads {m : Nat} {qs : List Quad} (hqs : ∀ q ∈ qs, q.Ok lab u m) (p : List Name → Bool) :
    (qs.map Quad.r).filter (fun f => p f.1.variableOrder) =
        (qs.filter fun q => p q.e.1.variableOrder).map Quad.r ∧
      (qs.map Quad.e).filter (fun f => p f.1.variableOrder) =
        (qs.filter fun q => p q.e.1.variableOrder).map Quad.e ∧
      (qs.map Quad.b).filter (fun f => p f.1.variableOrder) =
        (qs.filter fun q => p q.e.1.variableOrder).map Quad.b := by
  refine ⟨?_, ?_, ?_⟩
  · rw [List.filter_map]
    congr 1
    refine List.filter_congr fun q hq => ?_
    rw [Function.comp_apply, (hqs q hq).prob.order]
  · rw [List.filter_map]; rfl
  · rw [List.filter_map]
    congr 1
    refine List.filter_congr fun q hq => ?_
    rw [Function.comp_apply, (hqs q hq).prob.order']

/-- the additions in the sums over `vs` -/
def adds (lab : Name → List Val) (vs : List Name) : Nat := (vs.map fun v => (lab v).length - 1).sum

theorem eliminateR_spec (hA : A.Accurate u) (so : SetOrder) (sp : SetPerm) (B : Nat) (vs : List Name)
    (hnd : vs.Nodup) (k m : Nat) (qs : List Quad) (hqs : ∀ q ∈ qs, q.Ok lab u m)
    (hin : ∀ v ∈ vs, InScope (qs.map Quad.e) v)
    (hB : (qs.map Quad.k).sum + qs.length + adds lab vs ≤ B) :
    ∃ sp₁ : SetPerm,
      (Decision.eliminateR A so sp k vs (qs.map Quad.r) = .error .floatingPointError ∧
        Decision.eliminate so sp₁ k vs (qs.map Quad.e) = .error .floatingPointError) ∨
      ∃ (sp₂ : SetPerm) (qs' : List Quad) (m' : Nat),
        Decision.eliminateR A so sp k vs (qs.map Quad.r) = .ok (qs'.map Quad.r) ∧
        Decision.eliminate so sp₁ k vs (qs.map Quad.e) = .ok (qs'.map Quad.e) ∧
        Decision.eliminate so sp₂ k vs (qs.map Quad.b) = .ok (qs'.map Quad.b) ∧
        (∀ q ∈ qs', q.Ok lab u m') ∧ (qs ≠ [] → qs' ≠ []) ∧
        m' + qs'.length ≤ m + qs.length + vs.length * (2 * B + 3) + 2 * adds lab vs := by
  induction vs generalizing k m qs with
  | nil => exact ⟨sp, Or.inr ⟨sp, qs, m, rfl, rfl, rfl, hqs, id, by simp⟩⟩
  | cons v vs ih =>
    obtain ⟨hvvs, hnd⟩ := List.nodup_cons.1 hnd
    obtain ⟨fr, fe, fb⟩ := map_filter_quads hqs fun l => decide (v ∈ l)
    obtain ⟨gr, ge, gb⟩ := map_filter_quads hqs fun l => decide (v ∉ l)
    set rel := qs.filter fun q => decide (v ∈ q.e.1.variableOrder) with hrel
    set rest := qs.filter fun q => decide (v ∉ q.e.1.variableOrder) with hrest
    obtain ⟨ps, hp1, hp2⟩ := perm_lift (f := Quad.r) (qs := rel) (l := sp.perm k (rel.map Quad.r)) (sp.isPerm _ _)
    have hpm : ∀ q ∈ ps, q ∈ qs ∧ v ∈ q.e.1.variableOrder := fun q hq => by
      have := hp1.mem_iff.1 hq
      simpa [hrel] using this
    have hpe : (ps.map Quad.e).Perm (rel.map Quad.e) := hp1.map _
    have hpb : (ps.map Quad.b).Perm (rel.map Quad.b) := hp1.map _
    have hne : ps ≠ [] := by
      obtain ⟨f, hf, hvf⟩ := hin v (by simp)
      obtain ⟨q, hq, rfl⟩ := List.mem_map.1 hf
      intro e
      have : q ∈ ps := hp1.mem_iff.2 (by simp [hrel, hq, hvf])
      rw [e] at this
      simp at this
    -- counting
    have hcount : (rest.map Quad.k).sum + rest.length + ((ps.map Quad.k).sum + ps.length) =
        (qs.map Quad.k).sum + qs.length := by
      have h1 : (rel ++ rest).Perm qs := by
        have := List.filter_append_perm (fun q : Quad => decide (v ∈ q.e.1.variableOrder)) qs
        rw [hrel, hrest]
        simpa using this
      have h2 := (h1.map Quad.k).sum_eq
      have h3 := h1.length_eq
      have h4 := (hp1.map Quad.k).sum_eq
      have h5 := hp1.length_eq
      rw [List.map_append, List.sum_append] at h2
      rw [List.length_append] at h3
      omega
    have hlen : rest.length + ps.length = qs.length := by
      have h1 : (rel ++ rest).Perm qs := by
        have := List.filter_append_perm (fun q : Quad => decide (v ∈ q.e.1.variableOrder)) qs
        rw [hrel, hrest]
        simpa using this
      have h3 := h1.length_eq
      have h5 := hp1.length_eq
      rw [List.length_append] at h3
      omega
    have hadd : adds lab (v :: vs) = ((lab v).length - 1) + adds lab vs := by simp [adds]
    obtain ⟨t, t1, t2, t3, t4, t5⟩ := combineR_spec hA so hne fun q hq => hqs q (hpm q hq).1
    have hvt : v ∈ t.e.1.variableOrder := by
      obtain ⟨r, r1, -, r3, -⟩ := combine_spec so (fs := ps.map Quad.e) (by simpa using hne)
        (lab := lab) fun g hg => by
          obtain ⟨q, hq, rfl⟩ := List.mem_map.1 hg
          exact (hqs q (hpm q hq).1).over
      rw [t2] at r1
      obtain rfl := Except.ok.inj r1
      obtain ⟨q, hq⟩ := List.exists_mem_of_ne_nil _ hne
      exact (r3 v).2 ⟨q.e, List.mem_map_of_mem hq, (hpm q hq).2⟩
    have hperm : (ps.map Quad.e).Perm
        ((qs.map Quad.e).filter fun f => decide (v ∈ f.1.variableOrder)) := by rw [fe]; exact hpe
    rcases marginalizeJointR_spec hA so t5 hvt with ⟨e1, e2⟩ | ⟨w, w1, w2, w3, w4, w5⟩
    · refine ⟨sp.fix k hpe, Or.inl ⟨?_, ?_⟩⟩
      · rw [Decision.eliminateR, fr, hp2]
        simp only [t1, ok_bind, e1]; rfl
      · rw [Decision.eliminate, fe, SetPerm.fix_self]
        simp only [t2, ok_bind, e2]; rfl
    · have hscope : ∀ x ∈ vs, InScope ((rest ++ [w]).map Quad.e) x := by
        intro x hx
        rcases step_spec so (B := qs.map Quad.e) (lab := lab) (fun f hf => by
            obtain ⟨q, hq, rfl⟩ := List.mem_map.1 hf
            exact (hqs q hq).over) (hin v (by simp)) hperm with ⟨e1, -⟩ | ⟨new, n1, -, n3, -, -⟩
        · rw [t2, ok_bind, w2] at e1; exact absurd e1 (by simp)
        · rw [t2, ok_bind, w2] at n1
          obtain rfl := Except.ok.inj n1
          rw [List.map_append, ← ge]
          exact (n3 x).2 ⟨hin x (by simp [hx]), fun e => hvvs (e ▸ hx)⟩
      set m₁ := m + ps.length - 1 + 2 * t.k + 2 * ((lab v).length - 1) + 3 with hm₁
      have hpos : 0 < ps.length := List.length_pos_of_ne_nil hne
      obtain ⟨sp₁, h⟩ := ih hnd (k + 1) m₁ (rest ++ [w]) (fun q hq => by
          rcases List.mem_append.1 hq with h | h
          · exact (hqs q (List.mem_of_mem_filter h)).mono hA.nonneg hA.lt_one (by omega)
          · rw [List.mem_singleton.1 h]; exact w5) hscope (by
          rw [List.map_append, List.sum_append, List.length_append, List.map_singleton,
            List.sum_singleton, List.length_singleton, w4]
          rw [hadd] at hB
          omega)
      have er : Decision.eliminateR A so sp k (v :: vs) (qs.map Quad.r) =
          Decision.eliminateR A so sp (k + 1) vs ((rest ++ [w]).map Quad.r) := by
        rw [Decision.eliminateR, fr, gr, hp2]
        simp only [t1, ok_bind, w1, List.map_append, List.map_singleton]
      have ee : Decision.eliminate so (sp₁.fix k hpe) k (v :: vs) (qs.map Quad.e) =
          Decision.eliminate so sp₁ (k + 1) vs ((rest ++ [w]).map Quad.e) := by
        rw [Decision.eliminate, fe, ge, SetPerm.fix_self]
        simp only [t2, ok_bind, w2, List.map_append, List.map_singleton]
        exact eliminate_congr so vs _ _ fun j h1 _ => SetPerm.fix_ne _ _ (by omega)
      refine ⟨sp₁.fix k hpe, ?_⟩
      rcases h with ⟨e1, e2⟩ | ⟨sp₂, qs', m', h1, h2, h3, h4, h5, h6⟩
      · exact Or.inl ⟨by rw [er, e1], by rw [ee, e2]⟩
      · refine Or.inr ⟨sp₂.fix k hpb, qs', m', by rw [er, h1], by rw [ee, h2], ?_, h4,
          fun _ => h5 (by simp), ?_⟩
        · rw [Decision.eliminate, fb, gb, SetPerm.fix_self]
          simp only [t3, ok_bind, w3]
          rw [eliminate_congr so (sp' := sp₂) vs _ _ fun j h1 _ => SetPerm.fix_ne _ _ (by omega)]
          rw [List.map_append, List.map_singleton] at h3
          exact h3
        · rw [List.length_append, List.length_singleton] at h6
          rw [List.length_cons, hadd, Nat.add_mul, Nat.one_mul]
          rw [hadd] at hB
          omega

theorem generalizedVER_spec (hA : A.Accurate u) (so : SetOrder) (sp : SetPerm) {vs : List Name}
    (hnd : vs.Nodup) {m : Nat} {qs : List Quad} (hne : qs ≠ []) (hqs : ∀ q ∈ qs, q.Ok lab u m)
    (hin : ∀ v ∈ vs, InScope (qs.map Quad.e) v) :
    ∃ sp₁ : SetPerm,
      (Decision.generalizedVER A so sp (qs.map Quad.r) vs = .error .floatingPointError ∧
        Decision.generalizedVE so sp₁ (qs.map Quad.e) vs = .error .floatingPointError) ∨
      ∃ (sp₂ : SetPerm) (q : Quad),
        Decision.generalizedVER A so sp (qs.map Quad.r) vs = .ok q.r ∧
        Decision.generalizedVE so sp₁ (qs.map Quad.e) vs = .ok q.e ∧
        Decision.generalizedVE so sp₂ (qs.map Quad.b) vs = .ok q.b ∧
        q.Ok lab u (m + qs.length +
          vs.length * (2 * ((qs.map Quad.k).sum + qs.length + adds lab vs) + 3) + 2 * adds lab vs) := by
  obtain ⟨sp₁, h⟩ := eliminateR_spec hA so sp _ vs hnd 0 m qs hqs hin le_rfl
  rcases h with ⟨e1, e2⟩ | ⟨sp₂, qs', m', h1, h2, h3, h4, h5, h6⟩
  · refine ⟨sp₁, Or.inl ⟨?_, ?_⟩⟩
    · rw [Decision.generalizedVER, e1]; rfl
    · rw [Decision.generalizedVE, e2]; rfl
  · obtain ⟨ps, hp1, hp2⟩ := perm_lift (f := Quad.r) (qs := qs')
      (l := sp.perm vs.length (qs'.map Quad.r)) (sp.isPerm _ _)
    have hpe : (ps.map Quad.e).Perm (qs'.map Quad.e) := hp1.map _
    have hpb : (ps.map Quad.b).Perm (qs'.map Quad.b) := hp1.map _
    have hpne : ps ≠ [] := fun e => h5 hne (by rw [e] at hp1; exact hp1.symm.eq_nil)
    obtain ⟨t, t1, t2, t3, t4, t5⟩ := combineR_spec hA so hpne fun q hq => h4 q (hp1.mem_iff.1 hq)
    refine ⟨sp₁.fix vs.length hpe, Or.inr ⟨sp₂.fix vs.length hpb, t, ?_, ?_, ?_, t5.mono hA.nonneg hA.lt_one ?_⟩⟩
    · rw [Decision.generalizedVER, h1, ok_bind, hp2, t1]
    · rw [Decision.generalizedVE, eliminate_congr so (sp' := sp₁) vs _ _
        fun j _ h => SetPerm.fix_ne _ _ (by omega), h2, ok_bind, SetPerm.fix_self, t2]
    · rw [Decision.generalizedVE, eliminate_congr so (sp' := sp₂) vs _ _
        fun j _ h => SetPerm.fix_ne _ _ (by omega), h3, ok_bind, SetPerm.fix_self, t3]
    · rw [hp1.length_eq]
      omega

end Primo
