import Verif.Lemmas.Blind
import Verif.Lemmas.CliqueSize
import Verif.Lemmas.RoundedNet

/-! # Tables of a factor tree stay within their cliques -/

namespace Primo
open JoinTree Factor Finset

namespace Factor
variable {lab : Name → List Val}

/-- a table with the given labels over some of the variables `V` -/
def Within (lab : Name → List Val) (V : List Name) (f : Factor) : Prop :=
  f.Over lab ∧ ∀ x ∈ f.variableOrder, x ∈ V

theorem Within.trivial {V : List Name} : Within lab V (Factor.trivial 1) :=
  ⟨trivial_over 1, by simp⟩

theorem Within.mono {V W : List Name} {f : Factor} (h : Within lab V f) (hs : ∀ x ∈ V, x ∈ W) :
    Within lab W f := ⟨h.1, fun x hx => hs x (h.2 x hx)⟩

theorem Within.mul (so : SetOrder) {V : List Name} {f g r : Factor} (hf : Within lab V f)
    (hg : Within lab V g) (hr : f.mul so g = .ok r) : Within lab V r := by
  obtain ⟨r', r1, r2, r3, -⟩ := mul_over so hf.1 hg.1
  rw [hr] at r1
  cases r1
  exact ⟨r2, fun x hx => ((r3 x).1 hx).elim (hf.2 x) (hg.2 x)⟩

theorem Within.invert {V : List Name} {f r : Factor} (h : Within lab V f) (hr : f.invert = .ok r) :
    Within lab V r := by
  unfold Factor.invert at hr
  have key : ∀ (φ : ℚ → ℚ), Within lab V { f with potentials := f.potentials.map φ } := fun φ =>
    ⟨⟨⟨h.1.wf.nodup, h.1.wf.keys, h.1.wf.labels, h.1.wf.shape⟩, h.1.val⟩, h.2⟩
  split at hr
  · split at hr
    · cases hr
    · cases hr; exact key _
  · cases hr; exact key _

theorem Within.div (so : SetOrder) {V : List Name} {f g r : Factor} (hf : Within lab V f)
    (hg : Within lab V g) (hr : f.div so g = .ok r) : Within lab V r := by
  rw [Factor.div] at hr
  split at hr
  · rw [bind_eq_ok] at hr
    obtain ⟨i, hi, hr⟩ := hr
    exact hf.mul so (hg.invert hi) hr
  · cases hr

theorem Within.marginalize {V D : List Name} {f r : Factor} (h : Within lab V f)
    (hr : f.marginalize D = .ok r) : Within lab (V.filter fun v => decide (v ∉ D)) r := by
  have hsub : D.Nodup ∧ ∀ v ∈ D, v ∈ f.variableOrder := by
    by_contra hh
    rw [marginalize_not_mem h.1.wf hh] at hr
    cases hr
  obtain ⟨r', r1, r2, r3, -⟩ := marginalize_over h.1 hsub.1 hsub.2
  rw [hr] at r1
  cases r1
  refine ⟨r2, fun x hx => ?_⟩
  rw [r3, List.mem_filter] at hx
  exact List.mem_filter.2 ⟨h.2 x hx.1, hx.2⟩

theorem Over.congr {lab' : Name → List Val} {f : Factor} (h : f.Over lab)
    (he : ∀ v ∈ f.variableOrder, lab v = lab' v) : f.Over lab' := by
  refine ⟨⟨h.wf.nodup, h.wf.keys, fun v hv => ?_, ?_⟩, fun v hv => by rw [h.val v hv, he v hv]⟩
  · exact ⟨_, h.val v hv, by rw [he v hv]⟩
  · rw [h.wf.shape]
    exact List.map_congr_left fun v hv => by rw [he v hv]

/-- whatever `as_evidence` returns is a table of the one variable -/
theorem asEvidence_within {v : Name} {e : Evidence} {old : Option NDArray} {f : Factor}
    (h : Factor.asEvidence v (lab v) e old = .ok f) : Within lab [v] f := by
  have key : ∀ a : NDArray, a.shape = [(lab v).length] → Within lab [v] ⟨a, [v], [(v, lab v)]⟩ := by
    intro a ha
    exact ⟨⟨⟨by simp, by simp, by simp [Dict.get?], by simpa using ha⟩, by simp [Dict.get?]⟩, by simp⟩
  cases e with
  | hard x =>
    rw [Factor.asEvidence] at h
    split at h
    · cases h; exact key _ rfl
    · cases h
  | soft l =>
    unfold Factor.asEvidence at h
    dsimp only at h
    split at h
    · cases h
    · rename_i hl
      cases old with
      | none => cases h; exact key _ (by simpa using hl)
      | some o =>
        dsimp only at h
        rw [bind_eq_ok] at h
        obtain ⟨ref, -, h⟩ := h
        rw [bind_eq_ok] at h
        obtain ⟨pots, hp, h⟩ := h
        cases h
        refine key _ ?_
        have := (mapM_eq_ok.1 hp).length_eq
        simpa using this.symm

end Factor

namespace JTree
variable {lab : Name → List Val}

/-- the tables of cliques and separators have no other variables than these -/
structure Room (lab : Name → List Val) (t : JTree) : Prop where
  nodes : ∀ q ∈ t.nodes, Within lab q.2.vars q.2.factor
  edges : ∀ e ∈ t.edges, Within lab e.sep e.factor

/-- separators are contained in the cliques they join -/
structure Seps (t : JTree) : Prop where
  sub : ∀ e ∈ t.edges, ∀ a b, e.joins a b = true → ∀ vars, t.Clique b vars → ∀ x ∈ e.sep, x ∈ vars
  same : ∀ e ∈ t.edges, ∀ e' ∈ t.edges, ∀ a b, e.joins a b = true → e'.joins a b = true → e.sep = e'.sep

theorem Seps.of_shape {t t' : JTree} (h : t'.shape = t.shape) (hs : t.Seps) : t'.Seps := by
  have h3 : t'.edges.map (fun e => (e.u, e.w, e.sep)) = t.edges.map fun e => (e.u, e.w, e.sep) :=
    congrArg (fun x => x.2.2) h
  have get : ∀ e ∈ t'.edges, ∃ e' ∈ t.edges, e'.sep = e.sep ∧ ∀ a b, e.joins a b = true → e'.joins a b = true := by
    intro e he
    have : (e.u, e.w, e.sep) ∈ t.edges.map fun e => (e.u, e.w, e.sep) :=
      h3 ▸ List.mem_map_of_mem (f := fun e : JEdge => (e.u, e.w, e.sep)) he
    obtain ⟨e', he', heq⟩ := List.mem_map.1 this
    simp only [Prod.mk.injEq] at heq
    refine ⟨e', he', heq.2.2, fun a b hj => ?_⟩
    unfold JEdge.joins at hj ⊢
    rw [heq.1, heq.2.1]
    exact hj
  refine ⟨fun e he a b hj vars hv x hx => ?_, fun e he e' he' a b hj hj' => ?_⟩
  · obtain ⟨e1, m1, s1, j1⟩ := get e he
    exact hs.sub e1 m1 a b (j1 a b hj) vars ((clique_of_shape h _ _).1 hv) x (s1 ▸ hx)
  · obtain ⟨e1, m1, s1, j1⟩ := get e he
    obtain ⟨e2, m2, s2, j2⟩ := get e' he'
    rw [← s1, ← s2]
    exact hs.same e1 m1 e2 m2 a b (j1 a b hj) (j2 a b hj')

theorem joins_symm {e : JEdge} {a b : Name} (h : e.joins a b = true) : e.joins b a = true := by
  simp only [JEdge.joins, Bool.or_eq_true, Bool.and_eq_true, beq_iff_eq] at h ⊢
  exact h.symm

theorem Room.send (so : SetOrder) {t : JTree} (hs : t.Seps) (h : Room lab t) (a b : Name) :
    Room lab (send so a b t).1 := by
  unfold JTree.send
  cases h0 : t.nodes.getE a with
  | error x => exact h
  | ok na =>
    rw [ok_bind]
    cases h1 : t.edge a b with
    | error x => exact h
    | ok e =>
      rw [ok_bind]
      cases h2 : na.factor.marginalize (so.diff na.vars e.sep) with
      | error x => exact h
      | ok new =>
        rw [ok_bind]
        cases h3 : t.nodes.getE b with
        | error x => exact h
        | ok nb =>
          rw [ok_bind]
          cases h4 : new.div so e.factor with
          | error x => exact h
          | ok q =>
            rw [ok_bind]
            cases h5 : nb.factor.mul so q with
            | error x => exact h
            | ok g =>
              rw [ok_bind]
              have get : ∀ k n, t.nodes.getE k = .ok n → (k, n) ∈ t.nodes := by
                intro k n hk
                unfold Dict.getE at hk
                cases hx : t.nodes.get? k with
                | none => rw [hx] at hk; cases hk
                | some y => rw [hx] at hk; injection hk with hk; exact hk ▸ Dict.get?_mem hx
              have ha := get a na h0
              have hbm := get b nb h3
              have hej : e ∈ t.edges ∧ e.joins a b = true := by
                unfold edge at h1
                split at h1
                · rename_i e' he'
                  cases h1
                  exact ⟨List.mem_of_find?_eq_some he', by simpa using List.find?_some he'⟩
                · cases h1
              have hnew : Within lab e.sep new := by
                refine ((h.nodes _ ha).marginalize h2).mono fun x hx => ?_
                simp only [List.mem_filter, so.mem, decide_eq_true_eq, not_and, not_not] at hx
                exact hx.2 hx.1
              have hq := hnew.div so (h.edges e hej.1) h4
              have hg : Within lab nb.vars g := (h.nodes _ hbm).mul so
                (hq.mono (hs.sub e hej.1 a b hej.2 nb.vars ⟨_, hbm⟩)) h5
              refine ⟨fun p hp => ?_, fun e' he' => ?_⟩
              · rcases mem_set_cases hp with rfl | hp
                · exact hg
                · exact h.nodes p hp
              · obtain ⟨e'', hm, rfl⟩ := List.mem_map.1 he'
                by_cases hj : e''.joins a b = true
                · rw [if_pos hj]
                  have := hs.same e hej.1 e'' hm a b hej.2 hj
                  exact this ▸ hnew
                · rw [if_neg hj]
                  exact h.edges e'' hm

theorem Room.calculate (so : SetOrder) (limit : Nat) {t : JTree} (hs : t.Seps) (h : Room lab t) :
    Room lab (calculate so limit t).1 := by
  let P : JTree → Prop := fun t' => t'.Seps ∧ Room lab t'
  have hsend : ∀ a b t, P t → P (JTree.send so a b t).1 := fun a b t ht =>
    ⟨ht.1.of_shape (send_shape so a b t), ht.2.send so ht.1 a b⟩
  have hpull : ∀ d cur parent t, P t → P (pull so d cur parent t).1 := by
    intro d
    induction d with
    | zero => exact fun _ _ _ h => h
    | succ d ih =>
      intro cur parent t ht
      rw [pull]
      refine andThen_inv (P := P) ?_ fun t' ht => ?_
      · refine forEach_inv (P := P) _ (fun x hx t' ht' => ?_) _ ht
        split
        · exact ht'
        · exact ih _ _ _ ht'
      · cases parent with
        | none => exact ht
        | some p =>
          dsimp only
          split
          · exact ht
          · exact hsend _ _ _ ht
  have hpush : ∀ d cur parent t, P t → P (push so d cur parent t).1 := by
    intro d
    induction d with
    | zero => exact fun _ _ _ h => h
    | succ d ih =>
      intro cur parent t ht
      rw [push]
      refine forEach_inv (P := P) _ (fun x hx t' ht' => ?_) _ ht
      split
      · exact ht'
      · exact andThen_inv (P := P) (hsend _ _ _ ht') fun t'' h'' => ih _ _ _ h''
  have key : ∀ root, P (((pull so limit root none t).andThen (push so limit root none)).andThen
      (fun t => ({ t with valid := true }, none))).1 := by
    intro root
    refine andThen_inv (P := P) ?_ fun t' ht => ⟨⟨ht.1.sub, ht.1.same⟩, ⟨ht.2.nodes, ht.2.edges⟩⟩
    exact andThen_inv (P := P) (hpull _ _ _ _ ⟨hs, h⟩) fun t' ht => hpush _ _ _ _ ht
  unfold JTree.calculate
  split
  · exact h
  · rename_i root n rest heq
    have := key root
    split
    · rename_i t' heq
      rw [heq] at this
      exact this.2
    · exact this.2

theorem putFirst_room (so : SetOrder) {p : List Name → Bool} {f : Factor} (hp : ∀ vars, p vars = true → Within lab vars f)
    {ns ns' : Dict JNode} (hn : ∀ q ∈ ns, Within lab q.2.vars q.2.factor) (h : putFirst so p f ns = .ok ns') :
    ∀ q ∈ ns', Within lab q.2.vars q.2.factor := by
  induction ns generalizing ns' with
  | nil => cases h; simp
  | cons q ns ih =>
    obtain ⟨k, n⟩ := q
    rw [putFirst] at h
    split at h
    · rename_i hpn
      rw [bind_eq_ok] at h
      obtain ⟨g, hg, h⟩ := h
      cases h
      intro q hq
      rcases List.mem_cons.1 hq with rfl | hq
      · exact (hn (k, n) (by simp)).mul so (hp _ hpn) hg
      · exact hn q (by simp [hq])
    · rw [bind_eq_ok] at h
      obtain ⟨r, hr, h⟩ := h
      cases h
      intro q hq
      rcases List.mem_cons.1 hq with rfl | hq
      · exact hn _ (by simp)
      · exact ih (fun q hq => hn q (by simp [hq])) hr q hq

theorem Room.putFactor (so : SetOrder) {t : JTree} (h : Room lab t) {f : Factor} (hf : f.Over lab) :
    Room lab (putFactor so f t).1 := by
  unfold JoinTree.putFactor
  cases hp : putFirst so (fun vars => sub f.values.keys vars) f t.nodes with
  | error e => exact h
  | ok ns =>
    refine ⟨putFirst_room so (fun vars hv => ⟨hf, fun x hx => ?_⟩) h.nodes hp, h.edges⟩
    exact JTree.sub_iff.1 hv x (hf.wf.keys.symm.subset hx)

/-- all networks of the calls have these labels -/
structure Labelled (lab : Name → List Val) (bn : BN) : Prop where
  consistent : bn.Consistent
  lab : ∀ v ∈ bn.names, bn.lab v = lab v

theorem Labelled.fromNode {bn : BN} (h : Labelled lab bn) {fs : List Factor}
    (hm : bn.mapM Factor.fromNode = .ok fs) : ∀ f ∈ fs, f.Over lab := by
  intro f hf
  obtain ⟨n, hn, hnf⟩ : ∃ n ∈ bn, Factor.fromNode n = .ok f := by
    have h2 := mapM_eq_ok.1 hm
    clear hm h
    induction h2 with
    | nil => simp at hf
    | cons h1 _ ih =>
      rcases List.mem_cons.1 hf with rfl | hf
      · exact ⟨_, by simp, h1⟩
      · obtain ⟨n, hn, h⟩ := ih hf
        exact ⟨n, by simp [hn], h⟩
  obtain ⟨f', h1, h2, h3, -⟩ := fromNode_over h.consistent hn
  rw [hnf] at h1
  cases h1
  refine h2.congr fun v hv => h.lab v ?_
  rw [h3] at hv
  rcases List.mem_cons.1 hv with rfl | hv
  · exact List.mem_map_of_mem hn
  · exact h.consistent.parents_mem n hn v hv

theorem Room.reset (so : SetOrder) {bn : BN} (hl : Labelled lab bn) {t : JTree} (h : Room lab t) :
    Room lab (reset so bn t).1 := by
  unfold JTree.reset
  cases hm : bn.mapM Factor.fromNode with
  | error e => exact h
  | ok fs =>
    refine andThen_inv (P := Room lab) ?_ fun t' ht => ⟨ht.nodes, ht.edges⟩
    refine forEach_inv (P := Room lab) _ (fun f hf t' ht => ht.putFactor so (hl.fromNode hm f hf)) _ ?_
    refine ⟨fun q hq => ?_, fun e he => ?_⟩
    · obtain ⟨q', -, rfl⟩ := List.mem_map.1 hq
      exact Within.trivial
    · obtain ⟨e', -, rfl⟩ := List.mem_map.1 he
      exact Within.trivial

theorem Room.putEvidence (so : SetOrder) {bn : BN} (hl : Labelled lab bn) {old : Dict NDArray}
    {e : Name × Evidence} {t : JTree} (h : Room lab t) : Room lab (putEvidence so bn old e t).1 := by
  unfold JTree.putEvidence
  cases h0 : bn.getNode e.1 with
  | error x => exact h
  | ok n =>
    rw [ok_bind]
    cases h1 : Factor.asEvidence e.1 n.values e.2 (old.get? e.1) with
    | error x => exact h
    | ok f =>
      rw [ok_bind]
      cases hp : putFirst so (fun vars => vars.contains e.1) f t.nodes with
      | error x => exact h
      | ok ns =>
        have hn := BN.getNode_mem h0
        have hnm := BN.getNode_name h0
        have hv : n.values = lab e.1 := by
          rw [← hl.lab e.1 (hnm ▸ List.mem_map_of_mem hn), ← hnm]
          exact (BN.lab_eq hl.consistent.nodup hn).symm
        rw [hv] at h1
        have hf := asEvidence_within h1
        exact ⟨putFirst_room so (fun vars hv => hf.mono fun x hx => by
          rw [List.mem_singleton.1 hx]; simpa using hv) h.nodes hp, h.edges⟩

theorem Room.marginals (so : SetOrder) (limit : Nat) (vs : List Name) {t : JTree} (hs : t.Seps) (h : Room lab t) :
    Room lab (marginals so limit vs t).1 := by
  unfold JTree.marginals
  by_cases hv : t.valid = true
  · rw [if_pos hv]; exact h
  · rw [if_neg hv]
    have := h.calculate so limit hs
    cases hc : JTree.calculate so limit t with
    | mk t' o =>
      rw [hc] at this
      cases o with
      | none => exact this
      | some e => exact this

theorem Room.oldMarginals (so : SetOrder) (limit : Nat) (es : List Name) {t : JTree} (hs : t.Seps)
    (h : Room lab t) : Room lab (oldMarginals so limit es t).1 := by
  induction es generalizing t with
  | nil => exact h
  | cons e es ih =>
    rw [JTree.oldMarginals]
    have h1 := h.marginals so limit [e] hs
    have s1 := hs.of_shape (marginals_shape so limit [e] t)
    cases hm : JTree.marginals so limit [e] t with
    | mk t' o =>
      rw [hm] at h1 s1
      cases o with
      | error x => exact h1
      | ok f =>
        dsimp only
        have h2 := ih s1 h1
        cases ho : JTree.oldMarginals so limit es t' with
        | mk t'' o' =>
          rw [ho] at h2
          cases o' with
          | error x => exact h2
          | ok d => exact h2

theorem Room.setEvidence (so : SetOrder) (limit : Nat) {bn : BN} (hl : Labelled lab bn) (ev : Dict Evidence)
    (soft : Bool) {t : JTree} (hs : t.Seps) (h : Room lab t) :
    Room lab (setEvidence so limit bn ev soft t).1 := by
  let P : JTree → Prop := fun t' => t'.Seps ∧ Room lab t'
  have hcalc : ∀ t', P t' → P (JTree.calculate so limit t').1 := fun t' ht =>
    ⟨ht.1.of_shape (calculate_shape so limit t'), ht.2.calculate so limit ht.1⟩
  have hreset : ∀ t', P t' → P (JTree.reset so bn t').1 := fun t' ht =>
    ⟨ht.1.of_shape (reset_shape so bn t'), ht.2.reset so hl⟩
  have hput : ∀ old t', P t' →
      P ((JRes.forEach (JTree.putEvidence so bn old) ev t').andThen (JTree.calculate so limit)).1 := by
    intro old t' ht
    refine andThen_inv (P := P) ?_ hcalc
    exact forEach_inv (P := P) _
      (fun x _ t'' h => ⟨h.1.of_shape (putEvidence_shape so bn old x t''), h.2.putEvidence so hl⟩) _ ht
  suffices P (JTree.setEvidence so limit bn ev soft t).1 from this.2
  unfold JTree.setEvidence
  refine andThen_inv (P := P) (hreset t ⟨hs, h⟩) fun t1 h1 => ?_
  split
  · refine andThen_inv (P := P) (hcalc t1 h1) fun t2 h2 => ?_
    have h3 : P (JTree.oldMarginals so limit ev.keys t2).1 :=
      ⟨h2.1.of_shape (oldMarginals_shape so limit ev.keys t2), h2.2.oldMarginals so limit ev.keys h2.1⟩
    cases ho : JTree.oldMarginals so limit ev.keys t2 with
    | mk t' o =>
      rw [ho] at h3
      cases o with
      | error x => exact h3
      | ok old => exact andThen_inv (P := P) (hreset t' h3) (hput old)
  · exact hput [] t1 h1

/-! ### the created tree -/

theorem build_seps (L : List (List Name)) (hn : (L.map clusterName).Nodup) :
    (build L).Seps ∧ (∀ e ∈ (build L).edges, e.u ∈ L.map clusterName ∧ e.w ∈ L.map clusterName) := by
  induction L with
  | nil => exact ⟨⟨by simp [build, emptyTree], by simp [build, emptyTree]⟩, by simp [build, emptyTree]⟩
  | cons c cs ih =>
    have hn' := hn
    rw [List.map_cons, List.nodup_cons] at hn'
    obtain ⟨i1, i2⟩ := ih hn'.2
    have hcl : ∀ k vars, (build (c :: cs)).Clique k vars ↔ ∃ d ∈ c :: cs, k = clusterName d ∧ vars = d := by
      intro k vars
      rw [clique_iff_skel, build_nodes _ hn]
      simp only [skel, List.map_map, Function.comp_def, List.mem_map, List.mem_reverse, Prod.mk.injEq]
      constructor
      · rintro ⟨d, h1, h2, h3⟩; exact ⟨d, h1, h2.symm, h3.symm⟩
      · rintro ⟨d, h1, h2, h3⟩; exact ⟨d, h1, h2.symm, h3.symm⟩
    have hcl' : ∀ k vars, (build cs).Clique k vars ↔ ∃ d ∈ cs, k = clusterName d ∧ vars = d := by
      intro k vars
      rw [clique_iff_skel, build_nodes _ hn'.2]
      simp only [skel, List.map_map, Function.comp_def, List.mem_map, List.mem_reverse, Prod.mk.injEq]
      constructor
      · rintro ⟨d, h1, h2, h3⟩; exact ⟨d, h1, h2.symm, h3.symm⟩
      · rintro ⟨d, h1, h2, h3⟩; exact ⟨d, h1, h2.symm, h3.symm⟩
    have hold : ∀ e ∈ (build cs).edges, ∀ a b, e.joins a b = true →
        a ∈ cs.map clusterName ∧ b ∈ cs.map clusterName := by
      intro e he a b hj
      simp only [JEdge.joins, Bool.or_eq_true, Bool.and_eq_true, beq_iff_eq] at hj
      obtain ⟨hu, hw⟩ := i2 e he
      rcases hj with ⟨rfl, rfl⟩ | ⟨rfl, rfl⟩
      · exact ⟨hu, hw⟩
      · exact ⟨hw, hu⟩
    -- the edges: the old ones, and possibly one from the new clique
    have hed : (build (c :: cs)).edges = (build cs).edges ∨ ∃ d ∈ cs, (∀ x ∈ shared c cs, x ∈ d) ∧
        (build (c :: cs)).edges =
          (build cs).edges ++ [⟨clusterName c, clusterName d, shared c cs, .trivial 1⟩] := by
      rw [build]
      cases hf : cs.find? fun d => shared c cs ≠ [] && sub (shared c cs) d with
      | none => left; rfl
      | some d =>
        right
        have hd := List.mem_of_find?_eq_some hf
        have hp := List.find?_some hf
        rw [Bool.and_eq_true] at hp
        refine ⟨d, hd, JTree.sub_iff.1 hp.2, ?_⟩
        dsimp only
        rw [addEdge]
        dsimp only
        rw [if_neg]
        · rfl
        · intro hany
          rw [List.any_eq_true] at hany
          obtain ⟨e, he, hj⟩ := hany
          exact hn'.1 (hold e he _ _ hj).1
    have hsub : ∀ e ∈ (build cs).edges, ∀ a b, e.joins a b = true → ∀ vars,
        (build (c :: cs)).Clique b vars → ∀ x ∈ e.sep, x ∈ vars := by
      intro e he a b hj vars hv
      obtain ⟨d, hd, rfl, rfl⟩ := (hcl _ _).1 hv
      rcases List.mem_cons.1 hd with rfl | hd
      · exact absurd (hold e he _ _ hj).2 hn'.1
      · exact i1.sub e he a _ hj _ ((hcl' _ _).2 ⟨vars, hd, rfl, rfl⟩)
    rcases hed with hed | ⟨d, hd, hds, hed⟩
    · refine ⟨⟨fun e he => hsub e (hed ▸ he), fun e he e' he' => ?_⟩, fun e he => ?_⟩
      · rw [hed] at he he'
        exact i1.same e he e' he'
      · rw [hed] at he
        exact ⟨by simp [(i2 e he).1], by simp [(i2 e he).2]⟩
    · have hnew : ∀ a b, (⟨clusterName c, clusterName d, shared c cs, .trivial 1⟩ : JEdge).joins a b = true →
          (a = clusterName c ∧ b = clusterName d) ∨ (a = clusterName d ∧ b = clusterName c) := by
        intro a b hj
        simp only [JEdge.joins, Bool.or_eq_true, Bool.and_eq_true, beq_iff_eq] at hj
        rcases hj with ⟨h1, h2⟩ | ⟨h1, h2⟩
        · exact Or.inl ⟨h1.symm, h2.symm⟩
        · exact Or.inr ⟨h2.symm, h1.symm⟩
      have hdiff : ∀ e ∈ (build cs).edges, ∀ a b, e.joins a b = true →
          ¬ (⟨clusterName c, clusterName d, shared c cs, .trivial 1⟩ : JEdge).joins a b = true := by
        intro e he a b hj hj'
        rcases hnew a b hj' with ⟨rfl, -⟩ | ⟨-, rfl⟩
        · exact hn'.1 (hold e he _ _ hj).1
        · exact hn'.1 (hold e he _ _ hj).2
      refine ⟨⟨fun e he => ?_, fun e he e' he' a b hj hj' => ?_⟩, fun e he => ?_⟩
      · rw [hed, List.mem_append, List.mem_singleton] at he
        rcases he with he | rfl
        · exact hsub e he
        · intro a b hj vars hv x hx
          obtain ⟨k, hk, rfl, rfl⟩ := (hcl _ _).1 hv
          rcases hnew a _ hj with ⟨-, hb⟩ | ⟨-, hb⟩
          · have := List.inj_on_of_nodup_map hn hk (List.mem_cons_of_mem _ hd) hb
            rw [this]; exact hds x hx
          · have := List.inj_on_of_nodup_map hn hk (List.mem_cons_self ..) hb
            rw [this]; exact (mem_shared.1 hx).1
      · rw [hed, List.mem_append, List.mem_singleton] at he he'
        rcases he with he | rfl
        · rcases he' with he' | rfl
          · exact i1.same e he e' he' a b hj hj'
          · exact absurd hj' (hdiff e he a b hj)
        · rcases he' with he' | rfl
          · exact absurd hj (hdiff e' he' a b hj')
          · rfl
      · rw [hed, List.mem_append, List.mem_singleton] at he
        rcases he with he | rfl
        · exact ⟨by simp [(i2 e he).1], by simp [(i2 e he).2]⟩
        · exact ⟨by simp, by simp only [List.map_cons, List.mem_cons]; exact Or.inr (List.mem_map_of_mem hd)⟩

theorem create_room {so : SetOrder} {bn : BN} (hc : bn.Consistent) (hl : bn.Linked) (hr : bn.Recorded)
    (hu : UniqueJoin bn.names) {order0 : Option (List Name)} {order : List Name}
    (hord : VE.chooseOrder bn order0 = .ok order) (ho : order.Perm bn.names) {t : JTree}
    (h : create so bn order0 = .ok t) : t.Seps ∧ Room bn.lab t := by
  obtain ⟨L, e1, e2⟩ := bn_clusters hc hl hr ho
  have hn : order.Nodup := ho.symm.nodup hc.nodup
  obtain ⟨L', h1, h2, h3, h4⟩ := swaps_any (e2.headOK hn).nodup
  have hLn : ∀ c ∈ L', ∀ x ∈ c, x ∈ bn.names := fun c hc x hx =>
    ho.subset ((e2.mem c (h3 c hc)).2.1 x hx)
  have hnames := hu.inj hLn h2
  unfold create at h
  rw [hord, ok_bind, bind_eq_ok] at h
  obtain ⟨fs, hfs, h⟩ := h
  rw [e1, ok_bind, h1, ok_bind] at h
  have hb : Room bn.lab (build L') := by
    rw [← build_blank]
    refine ⟨fun q hq => ?_, fun e he => ?_⟩
    · obtain ⟨q', -, rfl⟩ := List.mem_map.1 hq
      exact Within.trivial
    · obtain ⟨e', -, rfl⟩ := List.mem_map.1 he
      exact Within.trivial
  have key := forEach_inv (P := fun t' => t'.Seps ∧ Room bn.lab t') (f := putFactor so) fs
    (fun f hf t' ht => ⟨ht.1.of_shape (putFactor_shape so f t'),
      ht.2.putFactor so (Labelled.fromNode ⟨hc, fun _ _ => rfl⟩ hfs f hf)⟩) _ ⟨(build_seps L' hnames).1, hb⟩
  cases h5 : JRes.forEach (putFactor so) fs (build L') with
  | mk t0 o =>
  rw [h5] at h key
  cases o with
  | some e => cases h
  | none =>
  dsimp only at h
  cases h
  exact key

/-- fewer variables, fewer entries -/
theorem prod_le_of_subset {card : Name → Nat} {l m : List Name} (hl : l.Nodup)
    (hs : ∀ x ∈ l, x ∈ m) (hpos : ∀ x ∈ m, 0 < card x) : (l.map card).prod ≤ (m.map card).prod := by
  obtain ⟨l', hp, hsub⟩ := hl.subperm hs
  rw [← (hp.map card).prod_eq]
  have hsub := hsub.map card
  have hpos' : ∀ y ∈ m.map card, 0 < y := by
    intro y hy
    obtain ⟨x, hx, rfl⟩ := List.mem_map.1 hy
    exact hpos x hx
  clear hp hs hl hpos
  generalize l'.map card = a at hsub
  generalize m.map card = b at hsub hpos'
  induction hsub with
  | slnil => exact le_rfl
  | cons y _ ih =>
    rw [List.prod_cons]
    have h1 := ih fun z hz => hpos' z (by simp [hz])
    exact h1.trans (Nat.le_mul_of_pos_left _ (hpos' y (by simp)))
  | cons_cons y _ ih =>
    rw [List.prod_cons, List.prod_cons]
    exact Nat.mul_le_mul_left _ (ih fun z hz => hpos' z (by simp [hz]))

theorem Within.size {V : List Name} {lab : Name → List Val} {f : Factor} (h : Within lab V f)
    (hpos : ∀ x ∈ V, lab x ≠ []) : f.potentials.data.length ≤ (V.map (cardOf lab)).prod := by
  rw [f.potentials.size_eq, h.1.wf.shape]
  exact prod_le_of_subset h.1.wf.nodup h.2 fun x hx => List.length_pos_of_ne_nil (hpos x hx)

end JTree
end Primo
