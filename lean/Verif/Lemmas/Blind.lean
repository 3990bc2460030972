import Verif.Lemmas.Sharp

/-! # Message passing never tells some cliques about an observation

If the cliques that contain a variable are not connected through cliques containing it, then with
uniform tables the cliques out of reach keep constant tables whatever is observed. -/

namespace Primo
open JoinTree Factor Finset

namespace JTree

variable {lab : Name → List Val} {x : Name} {i0 : Nat}

/-- a table that depends on `x` only and is positive at the outcome `i0`; constant unless `p` -/
def Tame (lab : Name → List Val) (x : Name) (i0 : Nat) (p : Prop) (f : Factor) : Prop :=
  f.Over lab ∧ (∀ v ∈ f.variableOrder, 0 < cardOf lab v) ∧ ∃ g : Nat → ℚ, (∀ j, 0 ≤ g j) ∧ 0 < g i0 ∧ (¬ p → ∀ j, g j = g i0) ∧
    ∀ σ, Legal (cardOf lab) f.variableOrder σ → f.eval σ = g (σ x)

theorem Tame.mono {p q : Prop} {f : Factor} (h : Tame lab x i0 p f) (hpq : p → q) : Tame lab x i0 q f := by
  obtain ⟨h1, h0, g, g1, g2, g3, g4⟩ := h
  exact ⟨h1, h0, g, g1, g2, fun hq => g3 fun hp => hq (hpq hp), g4⟩

theorem Tame.const {p : Prop} {f : Factor} (h : f.Over lab)
    (h0 : ∀ v ∈ f.variableOrder, 0 < cardOf lab v) {c : ℚ} (hc : 0 < c)
    (he : ∀ σ, Legal (cardOf lab) f.variableOrder σ → f.eval σ = c) : Tame lab x i0 p f :=
  ⟨h, h0, fun _ => c, fun _ => hc.le, hc, fun _ _ => rfl, he⟩

theorem Tame.trivial {p : Prop} : Tame lab x i0 p (Factor.trivial 1) :=
  Tame.const (trivial_over 1) (by simp) one_pos fun _ _ => rfl

theorem Tame.mul (so : SetOrder) {p q : Prop} {f f' r : Factor} (h : Tame lab x i0 p f)
    (h' : Tame lab x i0 q f') (hr : f.mul so f' = .ok r) : Tame lab x i0 (p ∨ q) r := by
  obtain ⟨h1, h0, g, g1, g2, g3, g4⟩ := h
  obtain ⟨h1', h0', g', g1', g2', g3', g4'⟩ := h'
  obtain ⟨r', r1, r2, r3, r4⟩ := mul_over so h1 h1'
  rw [hr] at r1
  cases r1
  refine ⟨r2, fun v hv => ((r3 v).1 hv).elim (h0 v) (h0' v), fun j => g j * g' j, fun j => mul_nonneg (g1 j) (g1' j), mul_pos g2 g2', fun hn j => ?_,
    fun σ hσ => ?_⟩
  · rw [not_or] at hn
    dsimp only
    rw [g3 hn.1 j, g3' hn.2 j]
  · rw [r4 σ hσ, g4 σ fun v hv => hσ v ((r3 v).2 (Or.inl hv)), g4' σ fun v hv => hσ v ((r3 v).2 (Or.inr hv))]

theorem Tame.invert {p : Prop} {f r : Factor} (h : Tame lab x i0 p f) (hr : f.invert = .ok r) :
    Tame lab x i0 p r := by
  obtain ⟨h1, h0, g, g1, g2, g3, g4⟩ := h
  obtain ⟨i, i1, i2, i3, i4, i5⟩ := Factor.invert_spec h1.wf (by
    by_cases hv : f.variableOrder = []
    · right
      intro σ
      have e1 : f.eval σ = f.eval fun _ => i0 := by simp [Factor.eval, hv]
      rw [e1, g4 _ (by rw [hv]; intro v hv; simp at hv)]
      exact g2.ne'
    · exact Or.inl hv)
  rw [hr] at i1
  cases i1
  refine ⟨⟨i2, fun v hv => by rw [i4]; exact h1.val v (i3 ▸ hv)⟩, by rw [i3]; exact h0, fun j => (g j)⁻¹,
    fun j => inv_nonneg.2 (g1 j), inv_pos.2 g2, fun hn j => ?_, fun σ hσ => ?_⟩
  · dsimp only; rw [g3 hn j]
  · rw [i3] at hσ
    rw [i5 σ hσ, g4 σ hσ]

theorem Tame.div (so : SetOrder) {p q : Prop} {f f' r : Factor} (h : Tame lab x i0 p f)
    (h' : Tame lab x i0 q f') (hr : f.div so f' = .ok r) : Tame lab x i0 (p ∨ q) r := by
  rw [Factor.div] at hr
  split at hr
  · rw [bind_eq_ok] at hr
    obtain ⟨i, hi, hr⟩ := hr
    exact h.mul so (h'.invert hi) hr
  · cases hr

theorem Tame.marginalize {p q : Prop} {f r : Factor} (h : Tame lab x i0 p f) {D : List Name}
    (hr : f.marginalize D = .ok r) (hD : ∀ v ∈ D, 0 < cardOf lab v) (hi : i0 < cardOf lab x)
    (hq : p → q ∨ x ∈ D) : Tame lab x i0 q r := by
  obtain ⟨h1, h0, g, g1, g2, g3, g4⟩ := h
  have hsub : D.Nodup ∧ ∀ v ∈ D, v ∈ f.variableOrder := by
    by_contra hh
    rw [marginalize_not_mem h1.wf hh] at hr
    cases hr
  obtain ⟨r', r1, r2, r3, r4⟩ := marginalize_over h1 hsub.1 hsub.2
  rw [hr] at r1
  cases r1
  set F : Assign → ℚ := fun τ => g (τ x) with hF
  set H := sumOver (cardOf lab) D.toFinset F with hH
  have hdep : DependsOn {x} F := fun σ τ hst => by
    show g (σ x) = g (τ x)
    rw [hst x (by simp)]
  have hdep' := hdep.sumOver (card := cardOf lab) (s := D.toFinset)
  have hpos : ∀ σ : Assign, σ x = i0 → 0 < H σ := by
    intro σ hσ
    set τ : Assign := fun v => if v = x then i0 else if v ∈ D then 0 else σ v with hτ
    have hvar : Varies (cardOf lab) D.toFinset σ τ := by
      refine ⟨fun v hv => ?_, fun v hv => ?_⟩
      · have hv' : v ∉ D := by simpa using hv
        simp only [hτ]
        by_cases hvx : v = x
        · rw [if_pos hvx, hvx, hσ]
        · rw [if_neg hvx, if_neg hv']
      · have hv' : v ∈ D := by simpa using hv
        simp only [hτ]
        by_cases hvx : v = x
        · rw [if_pos hvx, hvx]; exact hi
        · rw [if_neg hvx, if_pos hv']; exact hD v hv'
    have h0 : F τ = g i0 := by simp [hF, hτ]
    exact lt_of_lt_of_le (h0 ▸ g2) (le_sumOver (fun τ _ => g1 _) hvar)
  refine ⟨r2, fun v hv => h0 v (by rw [r3] at hv; simpa using (List.mem_filter.1 hv).1), fun j => H fun _ => j, fun j => sumOver_nonneg fun τ _ => g1 _, hpos _ rfl, fun hn j => ?_,
    fun σ hσ => ?_⟩
  · dsimp only
    by_cases hxD : x ∈ D
    · refine hdep' _ _ fun v hv => ?_
      simp only [mem_sdiff, mem_singleton, List.mem_toFinset] at hv
      exact absurd (hv.1 ▸ hxD) hv.2
    · have hnp : ¬ p := fun hp => (hq hp).elim hn hxD
      have hc : DependsOn ∅ F := fun σ τ _ => by
        show g (σ x) = g (τ x)
        rw [g3 hnp (σ x), g3 hnp (τ x)]
      exact hc.sumOver (card := cardOf lab) (s := D.toFinset) _ _ fun v hv => by simp at hv
  · rw [r4 σ hσ]
    have e1 : sumOver (cardOf lab) D.toFinset f.eval σ = H σ := by
      refine sumOver_congr fun τ hτ => g4 τ (hτ.legal fun v hv hn => hσ v ?_)
      rw [r3]
      simpa [hv] using hn
    rw [e1]
    refine hdep' _ _ fun v hv => ?_
    simp only [mem_sdiff, mem_singleton] at hv
    rw [hv.1]

theorem mem_set_cases {α : Type} {d : Dict α} {k : Name} {a : α} {p : Name × α} (h : p ∈ d.set k a) :
    p = (k, a) ∨ p ∈ d := by
  induction d with
  | nil => simpa [Dict.set] using h
  | cons q d ih =>
    rw [Dict.set] at h
    by_cases hq : q.1 = k
    · rw [if_pos hq] at h
      rcases List.mem_cons.1 h with h | h
      · exact Or.inl (by rw [h, hq])
      · exact Or.inr (by simp [h])
    · rw [if_neg hq] at h
      rcases List.mem_cons.1 h with h | h
      · exact Or.inr (by simp [h])
      · exact (ih h).imp_right fun h => by simp [h]

/-! ### the invariant -/

/-- the cliques outside `S` carry constant tables -/
structure Blind (lab : Name → List Val) (x : Name) (i0 : Nat) (S : Name → Prop) (t : JTree) : Prop where
  nodes : ∀ q ∈ t.nodes, Tame lab x i0 (S q.1) q.2.factor
  edges : ∀ e ∈ t.edges, Tame lab x i0 (S e.u ∧ S e.w) e.factor

/-- the separators at the border of `S` lack `x`, which is in the cliques of `S`; only cliques in `R`
get and send messages -/
structure Border (lab : Name → List Val) (x : Name) (R S : Name → Prop) (t : JTree) : Prop where
  pos : ∀ k vars, t.Clique k vars → ∀ v ∈ vars, 0 < cardOf lab v
  border : ∀ e ∈ t.edges, ∀ a b, e.joins a b = true → ∀ va, t.Clique a va → R a → S a → ¬ S b →
    x ∈ va ∧ x ∉ e.sep
  first : ∀ root, t.nodes.keys.head? = some root → R root
  closed : ∀ a b, R a → b ∈ t.adj.nbrs a → R b

theorem Border.of_shape {R S : Name → Prop} {t t' : JTree} (h : t'.shape = t.shape)
    (hb : Border lab x R S t) : Border lab x R S t' := by
  refine ⟨fun k vars hk => hb.pos k vars ((clique_of_shape h _ _).1 hk), fun e he a b hj va ha => ?_,
    fun root hr => hb.first root (keys_of_shape h ▸ hr), fun a b ha hab => hb.closed a b ha (adj_of_shape h ▸ hab)⟩
  have h3 : t'.edges.map (fun e => (e.u, e.w, e.sep)) = t.edges.map fun e => (e.u, e.w, e.sep) :=
    congrArg (fun x => x.2.2) h
  have : (e.u, e.w, e.sep) ∈ t.edges.map fun e => (e.u, e.w, e.sep) :=
    h3 ▸ List.mem_map_of_mem (f := fun e : JEdge => (e.u, e.w, e.sep)) he
  obtain ⟨e', he', heq⟩ := List.mem_map.1 this
  simp only [Prod.mk.injEq] at heq
  rw [← heq.2.2]
  refine hb.border e' he' a b ?_ va ((clique_of_shape h _ _).1 ha)
  unfold JEdge.joins at hj ⊢
  rw [heq.1, heq.2.1]
  exact hj

theorem Blind.send (so : SetOrder) {R S : Name → Prop} (hi : i0 < cardOf lab x) {t : JTree}
    (hb : Border lab x R S t) (h : Blind lab x i0 S t) {a : Name} (hRa : R a) (b : Name) : Blind lab x i0 S (send so a b t).1 := by
  unfold JTree.send
  cases h0 : t.nodes.getE a with
  | error x => exact h
  | ok na =>
    rw [ok_bind]
    cases h1 : t.edge a b with
    | error x => exact h
    | ok e =>
      rw [ok_bind]
      cases h2 : na.factor.marginalize (so.diff na.vars e.sep) with
      | error x => exact h
      | ok new =>
        rw [ok_bind]
        cases h3 : t.nodes.getE b with
        | error x => exact h
        | ok nb =>
          rw [ok_bind]
          cases h4 : new.div so e.factor with
          | error x => exact h
          | ok q =>
            rw [ok_bind]
            cases h5 : nb.factor.mul so q with
            | error x => exact h
            | ok g =>
              rw [ok_bind]
              have get : ∀ k n, t.nodes.getE k = .ok n → (k, n) ∈ t.nodes := by
                intro k n hk
                unfold Dict.getE at hk
                cases hx : t.nodes.get? k with
                | none => rw [hx] at hk; cases hk
                | some y => rw [hx] at hk; injection hk with hk; exact hk ▸ Dict.get?_mem hx
              have ha := get a na h0
              have hbm := get b nb h3
              have hej : e ∈ t.edges ∧ e.joins a b = true := by
                unfold edge at h1
                split at h1
                · rename_i e' he'
                  cases h1
                  exact ⟨List.mem_of_find?_eq_some he', by simpa using List.find?_some he'⟩
                · cases h1
              have hSe : ∀ e' : JEdge, e'.joins a b = true → (S a ∧ S b ↔ S e'.u ∧ S e'.w) := by
                intro e' he'
                simp only [JEdge.joins, Bool.or_eq_true, Bool.and_eq_true, beq_iff_eq] at he'
                rcases he' with ⟨rfl, rfl⟩ | ⟨rfl, rfl⟩
                · rfl
                · exact and_comm
              have hnew : Tame lab x i0 (S a ∧ S b) new := by
                refine (h.nodes _ ha).marginalize h2 (fun v hv => ?_) hi fun hSa => ?_
                · exact hb.pos a na.vars ⟨_, ha⟩ v ((so.mem _ _ _).1 hv).1
                · by_cases hSb : S b
                  · exact Or.inl ⟨hSa, hSb⟩
                  · have := hb.border e hej.1 a b hej.2 na.vars ⟨_, ha⟩ hRa hSa hSb
                    exact Or.inr ((so.mem _ _ _).2 this)
              have he := h.edges e hej.1
              have hq := hnew.div so he h4
              have hg : Tame lab x i0 (S b) g := ((h.nodes _ hbm).mul so hq h5).mono (by
                rintro (h | h | h)
                · exact h
                · exact h.2
                · exact ((hSe e hej.2).2 h).2)
              refine ⟨fun p hp => ?_, fun e' he' => ?_⟩
              · rcases mem_set_cases hp with rfl | hp
                · exact hg
                · exact h.nodes p hp
              · obtain ⟨e'', hm, rfl⟩ := List.mem_map.1 he'
                by_cases hj : e''.joins a b = true
                · rw [if_pos hj]
                  exact hnew.mono (hSe e'' hj).1
                · rw [if_neg hj]
                  exact h.edges e'' hm

/-- messages keep the invariant, whether an exception stops them or not -/
theorem Blind.calculate (so : SetOrder) {R S : Name → Prop} (hi : i0 < cardOf lab x) (limit : Nat) {t : JTree}
    (hb : Border lab x R S t) (h : Blind lab x i0 S t) : Blind lab x i0 S (calculate so limit t).1 := by
  let P : JTree → Prop := fun t' => Border lab x R S t' ∧ Blind lab x i0 S t'
  have hsend : ∀ a b t, R a → P t → P (JTree.send so a b t).1 := fun a b t ha ht =>
    ⟨ht.1.of_shape (send_shape so a b t), ht.2.send so hi ht.1 ha b⟩
  have hpull : ∀ d cur parent t, R cur → P t → P (pull so d cur parent t).1 := by
    intro d
    induction d with
    | zero => exact fun _ _ _ _ h => h
    | succ d ih =>
      intro cur parent t hR ht
      rw [pull]
      refine andThen_inv (P := P) ?_ fun t' ht => ?_
      · refine forEach_inv (P := P) _ (fun x hx t' ht' => ?_) _ ht
        split
        · exact ht'
        · exact ih _ _ _ (ht.1.closed cur x hR hx) ht'
      · cases parent with
        | none => exact ht
        | some p =>
          dsimp only
          split
          · exact ht
          · exact hsend _ _ _ hR ht
  have hpush : ∀ d cur parent t, R cur → P t → P (push so d cur parent t).1 := by
    intro d
    induction d with
    | zero => exact fun _ _ _ _ h => h
    | succ d ih =>
      intro cur parent t hR ht
      rw [push]
      refine forEach_inv (P := P) _ (fun x hx t' ht' => ?_) _ ht
      split
      · exact ht'
      · exact andThen_inv (P := P) (hsend _ _ _ hR ht') fun t'' h'' => ih _ _ _ (ht.1.closed cur x hR hx) h''
  have key : ∀ root, R root → P (((pull so limit root none t).andThen (push so limit root none)).andThen
      (fun t => ({ t with valid := true }, none))).1 := by
    intro root hR
    refine andThen_inv (P := P) ?_ fun t' ht => ⟨⟨ht.1.pos, ht.1.border, ht.1.first, ht.1.closed⟩,
      ⟨ht.2.nodes, ht.2.edges⟩⟩
    exact andThen_inv (P := P) (hpull _ _ _ _ hR ⟨hb, h⟩) fun t' ht => hpush _ _ _ _ hR ht
  unfold JTree.calculate
  split
  · exact h
  · rename_i root n rest heq
    have := key root (hb.first root (by rw [heq]; rfl))
    split
    · rename_i t' heq
      rw [heq] at this
      exact this.2
    · exact this.2

end JTree
end Primo
