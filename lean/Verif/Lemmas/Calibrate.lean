import Verif.Lemmas.Load

/-! # Message passing on the join tree of a network -/

namespace Primo
open JoinTree Factor Finset

theorem Forest.All.mem {Q : Name → Name → List Name → List Name → Forest → Prop} {f : Forest}
    {p k : Name} (h : f.All Q p) (hk : k ∈ f.names) :
    ∃ p' vars sep kids, Q p' k vars sep kids ∧ vars.toFinset ⊆ f.scope := by
  induction f generalizing p with
  | nil => simp [names] at hk
  | cons a b c kids rest ihk ihr =>
    simp only [names, List.mem_cons, List.mem_append] at hk
    rcases hk with rfl | hk | hk
    · exact ⟨p, b, c, kids, h.1, by rw [scope, union_assoc]; exact subset_union_left⟩
    · obtain ⟨p', v, s, ks, h1, h2⟩ := ihk h.2.1 hk
      exact ⟨p', v, s, ks, h1, fun x hx => by simp [scope, h2 hx]⟩
    · obtain ⟨p', v, s, ks, h1, h2⟩ := ihr h.2.2 hk
      exact ⟨p', v, s, ks, h1, fun x hx => by simp [scope, h2 hx]⟩

theorem Forest.prod_names (φ : Name → Assign → ℚ) (f : Forest) (σ : Assign) :
    f.prod φ σ = (f.names.map fun k => φ k σ).prod := by
  induction f with
  | nil => rfl
  | cons a b c kids rest ihk ihr =>
    simp only [prod, names, List.map_cons, List.map_append, List.prod_cons, List.prod_append, ihk, ihr]
    ring

theorem Forest.mem_seps {f : Forest} {P W : Finset Name} (h : f.RIP P W) {x : Name} (hx : x ∈ W)
    (hs : x ∈ f.scope) : x ∈ f.seps := by
  induction f generalizing W with
  | nil => simp [scope] at hs
  | cons a b c kids rest ihk ihr =>
    obtain ⟨h1, h2, h3, h4⟩ := h
    simp only [scope, mem_union] at hs
    simp only [seps, mem_union]
    rcases hs with hs | hs
    · exact Or.inl (h1 (by simp only [mem_inter, mem_union]; exact ⟨hs, Or.inl hx⟩))
    · exact Or.inr (ihr h4 (by simp [hx]) hs)

namespace JTree

/-- how the stored tree relates to the network: depends on the shape only -/
structure Sits (bn : BN) (t : JTree) (root : Name) (rvars : List Name) (kids : Forest)
    (others : List Name) : Prop where
  junction : t.Junction root rvars kids
  nodup : t.nodes.keys.Nodup
  keys : t.nodes.keys.Perm (root :: kids.names ++ others)
  disj : ∀ q ∈ skel t.nodes, q.1 ∈ others → Disjoint q.2.toFinset (rvars.toFinset ∪ kids.scope)
  sub : ∀ q ∈ skel t.nodes, ∀ x ∈ q.2, x ∈ bn.names
  fam : ∀ n ∈ bn, ∃ q ∈ skel t.nodes, ∀ x ∈ n.family, x ∈ q.2
  head : kids.All (fun _ _ vars _ _ => ∃ h ∈ vars,
    ∀ x ∈ vars, ∃ n ∈ bn, h ∈ n.family ∧ x ∈ n.family) root

theorem skel_of_shape {t t' : JTree} (h : t'.shape = t.shape) : skel t'.nodes = skel t.nodes :=
  congrArg (fun x => x.1) h

theorem Sits.of_shape {bn : BN} {t t' : JTree} {root : Name} {rvars : List Name} {kids : Forest}
    {others : List Name} (hs : Sits bn t root rvars kids others) (h : t'.shape = t.shape) :
    Sits bn t' root rvars kids others where
  junction := hs.junction.of_shape h
  nodup := by rw [keys_of_shape h]; exact hs.nodup
  keys := by rw [keys_of_shape h]; exact hs.keys
  disj := by rw [skel_of_shape h]; exact hs.disj
  sub := by rw [skel_of_shape h]; exact hs.sub
  fam := by rw [skel_of_shape h]; exact hs.fam
  head := hs.head

/-- an additional item that fits into the tree -/
structure ItemOK (lab : Name → List Val) (sk : List (Name × List Name)) (it : Item) : Prop where
  over : it.f.Over lab
  scope : ∀ vars, it.p vars = true → ∀ v ∈ it.f.variableOrder, v ∈ vars
  home : ∃ k, home sk it = some k
  nonneg : ∀ σ, Legal (cardOf lab) it.f.variableOrder σ → 0 ≤ it.f.eval σ
  ne : it.f.variableOrder ≠ []

theorem mem_skel {ns : Dict JNode} (hn : ns.keys.Nodup) {k : Name} {vars : List Name} :
    (k, vars) ∈ skel ns ↔ ∃ f, ns.get? k = some ⟨vars, f⟩ := by
  unfold skel
  rw [List.mem_map]
  constructor
  · rintro ⟨⟨k', n⟩, h1, h2⟩
    injection h2 with e1 e2
    subst e1; subst e2
    exact ⟨n.factor, Dict.get?_of_mem hn h1⟩
  · rintro ⟨f, h⟩
    exact ⟨(k, ⟨vars, f⟩), Dict.get?_mem h, rfl⟩

theorem prod_single {ks : List Name} (hk : ks.Nodup) {k0 : Name} (h : k0 ∈ ks) (x : ℚ) :
    (ks.map fun k => if k = k0 then x else 1).prod = x := by
  induction ks with
  | nil => simp at h
  | cons a ks ih =>
    rw [List.nodup_cons] at hk
    rw [List.map_cons, List.prod_cons]
    by_cases ha : a = k0
    · subst ha
      have : (ks.map fun k => if k = a then x else (1 : ℚ)).prod = 1 := by
        refine List.prod_eq_one fun y hy => ?_
        obtain ⟨k, hk', rfl⟩ := List.mem_map.1 hy
        exact if_neg fun e : k = a => hk.1 (e ▸ hk')
      rw [if_pos rfl, this, mul_one]
    · rw [if_neg ha, one_mul, ih hk.2 ((List.mem_cons.1 h).resolve_left fun e => ha e.symm)]

/-- the items that go to the cliques of a duplicate-free list, or to none -/
theorem prod_homes {sk : List (Name × List Name)} {items : List Item} (ks : List Name) (hk : ks.Nodup)
    (h : ∀ it ∈ items, ∃ k ∈ ks, home sk it = some k) (F : Item → ℚ) :
    (ks.map fun k => ((items.filter fun it => home sk it = some k).map F).prod).prod =
      (items.map F).prod := by
  induction items with
  | nil => simp
  | cons it items ih =>
    rw [List.map_cons, List.prod_cons, ← ih fun i hi => h i (by simp [hi])]
    obtain ⟨k0, hk0, hh⟩ := h it (by simp)
    have : (ks.map fun k => (((it :: items).filter fun it => home sk it = some k).map F).prod) =
        ks.map fun k => (if k = k0 then F it else 1) *
          ((items.filter fun it => home sk it = some k).map F).prod := by
      refine List.map_congr_left fun k _ => ?_
      rw [List.filter_cons]
      by_cases hkk : k = k0
      · subst hkk; simp [hh]
      · have : ¬ (home sk it = some k) := by rw [hh]; simpa using Ne.symm hkk
        simp [this, hkk]
    rw [this, List.prod_map_mul]
    rw [prod_single hk hk0]

/-- a variable that a table below knows and the rest of the tree, too, is mentioned in a message -/
theorem told_of_own {own : Name → Finset Name} {f : Forest} {p : Name} {P W : Finset Name}
    (hr : f.RIP P W) (ho : f.All (fun _ nm vars _ _ => own nm ⊆ vars.toFinset) p) {q x : Name}
    (hq : q ∈ f.names) (hx : x ∈ own q) (hW : x ∈ W) : x ∈ f.told own := by
  induction f generalizing p P W with
  | nil => simp [Forest.names] at hq
  | cons nm vars sep kids rest ihk ihr =>
    obtain ⟨r1, r2, r3, r4⟩ := hr
    obtain ⟨o1, o2, o3⟩ := ho
    have hsep : x ∈ vars.toFinset ∪ kids.scope → x ∈ sep.toFinset := fun h =>
      r1 (mem_inter.2 ⟨h, mem_union_left _ hW⟩)
    simp only [Forest.names, List.mem_cons, List.mem_append] at hq
    rw [Forest.told, mem_union, mem_inter, mem_union]
    rcases hq with rfl | hq | hq
    · exact Or.inl ⟨Or.inl hx, hsep (mem_union_left _ (o1 hx))⟩
    · obtain ⟨p', vs, s, ks, h1, h2⟩ := o2.mem hq
      have hs := hsep (mem_union_right _ (h2 (h1 hx)))
      exact Or.inl ⟨Or.inr (ihk r3 o2 hq (mem_union_right _ (mem_inter.1 (r2 hs)).1)), hs⟩
    · exact Or.inr (ihr r4 o3 hq (mem_union_left _ (mem_union_left _ hW)))

/-- messages that mention no variable are not zero -/
theorem msgs_ne {card : Name → Nat} {own : Name → Finset Name} {φ : Name → Assign → ℚ} {f : Forest}
    {p : Name} (h : f.All (fun _ nm vars sep kids => (∃ v ∈ sep, v ∈ own nm ∨ v ∈ kids.told own) ∨
      ∀ σ, sumOver card (vars.toFinset \ sep.toFinset) (Forest.belief card φ nm kids) σ ≠ 0) p)
    (h0 : f.told own = ∅) (σ : Assign) : f.msgs card φ σ ≠ 0 := by
  induction f generalizing p with
  | nil => simp [Forest.msgs]
  | cons nm vars sep kids rest ihk ihr =>
    obtain ⟨h1, -, h3⟩ := h
    rw [Forest.told, union_eq_empty] at h0
    rw [Forest.msgs]
    refine mul_ne_zero ?_ (ihr h3 h0.2)
    rcases h1 with ⟨v, hv, hv'⟩ | h1
    · exact absurd (h0.1 ▸ mem_inter.2 ⟨mem_union.2 hv', List.mem_toFinset.2 hv⟩) (notMem_empty v)
    · exact h1 σ

/-- a clique of a subtree lacks only variables that are in the messages of its children or in its
separator, and its message is over some variable or not zero -/
theorem coverage {bn : BN} {t : JTree} {card : Name → Nat} {own : Name → Finset Name}
    {φ : Name → Assign → ℚ} {f : Forest} {p : Name} {P W : Finset Name}
    (hn : t.nodes.keys.Nodup) (hfit : f.All t.Fits p) (hr : f.RIP P W)
    (hloc : ∀ q ∈ skel t.nodes, q.1 ∈ f.names ∨ ∀ x ∈ q.2, x ∈ f.scope → x ∈ W)
    (hfam : ∀ n ∈ bn, ∃ q ∈ skel t.nodes, (∀ x ∈ n.family, x ∈ own q.1) ∧ ∀ x ∈ n.family, x ∈ q.2)
    (ho : f.All (fun _ nm vars _ _ => own nm ⊆ vars.toFinset) p)
    (hφ : ∀ k ∈ f.names, own k = ∅ → ∀ σ, φ k σ ≠ 0)
    (hh : f.All (fun _ _ vars _ _ => ∃ h ∈ vars,
      ∀ x ∈ vars, ∃ n ∈ bn, h ∈ n.family ∧ x ∈ n.family) p) :
    f.All (fun _ nm vars sep kids => (∀ x ∈ vars, x ∈ own nm ∨ x ∈ kids.told own ∨ x ∈ sep) ∧
      ((∃ v ∈ sep, v ∈ own nm ∨ v ∈ kids.told own) ∨
        ∀ σ, sumOver card (vars.toFinset \ sep.toFinset) (Forest.belief card φ nm kids) σ ≠ 0)) p := by
  induction f generalizing p P W with
  | nil => trivial
  | cons nm vars sep kids rest ihk ihr =>
    obtain ⟨r1, r2, r3, r4⟩ := hr
    obtain ⟨fit, fitk, fitr⟩ := hfit
    obtain ⟨⟨h, hv, hx⟩, hhk, hhr⟩ := hh
    obtain ⟨o1, o2, o3⟩ := ho
    have hvars : ∀ q ∈ skel t.nodes, q.1 = nm → q.2 = vars := by
      intro q hq e
      obtain ⟨g, hg⟩ := (mem_skel hn (k := q.1) (vars := q.2)).1 hq
      have := fit.2.1
      rw [← e, hg] at this
      exact Option.some.inj this
    have hsub : ∀ (F : Forest) (p' : Name), F.All t.Fits p' → ∀ q ∈ skel t.nodes, q.1 ∈ F.names →
        ∀ x ∈ q.2, x ∈ F.scope := by
      intro F p' hF q hq hm x hxq
      obtain ⟨g, hg⟩ := (mem_skel hn (k := q.1) (vars := q.2)).1 hq
      exact (varsOf hF hm (by rw [hg]; rfl)).sub (List.mem_toFinset.2 hxq)
    have hcommon : ∀ y : Name, y ∈ vars.toFinset ∪ kids.scope → y ∈ W ∪ rest.scope → y ∈ sep :=
      fun y h1 h2 => List.mem_toFinset.1 (r1 (mem_inter.2 ⟨h1, h2⟩))
    -- a table with a variable that occurs only here is here or below
    have star : ∀ n ∈ bn, ∀ y ∈ n.family, y ∈ vars → y ∉ sep → ∀ x ∈ n.family, x ∈ vars →
        x ∈ own nm ∨ x ∈ kids.told own := by
      intro n hnb y hy hyv hys x hxf hxv
      obtain ⟨q, hq, hq1, hq2⟩ := hfam n hnb
      have hyv' : y ∈ vars.toFinset ∪ kids.scope := mem_union_left _ (List.mem_toFinset.2 hyv)
      rcases hloc q hq with hm | hm
      · simp only [Forest.names, List.mem_cons, List.mem_append] at hm
        rcases hm with hm | hm | hm
        · exact Or.inl (hm ▸ hq1 x hxf)
        · exact Or.inr (told_of_own r3 o2 hm (hq1 x hxf) (mem_union_right _ (List.mem_toFinset.2 hxv)))
        · exact absurd (hcommon y hyv' (mem_union_right _ (hsub rest p fitr q hq hm y (hq2 y hy)))) hys
      · refine absurd (hcommon y hyv' (mem_union_left _ (hm y (hq2 y hy) ?_))) hys
        rw [Forest.scope]
        exact mem_union_left _ hyv'
    have hsepv : ∀ x ∈ sep, x ∈ vars := fun x hs => by
      have := mem_inter.1 (r2 (List.mem_toFinset.2 hs)); simpa using this.1
    have hK := ihk fitk r3 (by
      intro q hq
      by_cases hm : q.1 ∈ kids.names
      · exact Or.inl hm
      · right
        intro x hxq hxk
        rcases hloc q hq with h' | h'
        · simp only [Forest.names, List.mem_cons, List.mem_append] at h'
          rcases h' with h' | h' | h'
          · exact mem_union_right _ (List.mem_toFinset.2 (hvars q hq h' ▸ hxq))
          · exact absurd h' hm
          · exact mem_union_left _ (mem_union_right _ (hsub rest p fitr q hq h' x hxq))
        · exact mem_union_left _ (mem_union_left _ (h' x hxq (by simp [Forest.scope, hxk])))) o2
      (fun k hk => hφ k (by simp [Forest.names, hk])) hhk
    refine ⟨⟨fun x hxv => ?_, ?_⟩, hK, ihr fitr r4 ?_ o3
      (fun k hk => hφ k (by simp [Forest.names, hk])) hhr⟩
    · by_cases hs : x ∈ sep
      · exact Or.inr (Or.inr hs)
      · obtain ⟨n, hnb, -, hn2⟩ := hx x hxv
        rcases star n hnb x hn2 hxv hs x hn2 hxv with h' | h'
        · exact Or.inl h'
        · exact Or.inr (Or.inl h')
    · by_cases hall : ∀ y ∈ vars, y ∈ sep
      · by_cases h1 : own nm = ∅
        · by_cases h2 : kids.told own = ∅
          · right
            intro σ
            have : vars.toFinset \ sep.toFinset = ∅ := by
              rw [sdiff_eq_empty_iff_subset]
              intro y hy
              exact List.mem_toFinset.2 (hall y (List.mem_toFinset.1 hy))
            rw [this, sumOver_empty]
            exact mul_ne_zero (hφ nm (by simp [Forest.names]) h1 σ)
              (msgs_ne (hK.imp fun _ _ _ _ _ _ _ h => h.2) h2 σ)
          · obtain ⟨v, hv'⟩ := nonempty_iff_ne_empty.2 h2
            exact Or.inl ⟨v, hall v (List.mem_toFinset.1 (told_sub r3 hv')), Or.inr hv'⟩
        · obtain ⟨v, hv'⟩ := nonempty_iff_ne_empty.2 h1
          exact Or.inl ⟨v, hall v (List.mem_toFinset.1 (o1 hv')), Or.inl hv'⟩
      · left
        push Not at hall
        obtain ⟨y, hyv, hys⟩ := hall
        by_cases hhs : h ∈ sep
        · obtain ⟨n, hnb, hn1, hn2⟩ := hx y hyv
          exact ⟨h, hhs, star n hnb y hn2 hyv hys h hn1 hv⟩
        · obtain ⟨s, hs⟩ := List.exists_mem_of_ne_nil _ fit.2.2.2.2
          obtain ⟨n, hnb, hn1, hn2⟩ := hx s (hsepv s hs)
          exact ⟨s, hs, star n hnb h hn1 hv hhs s hn2 (hsepv s hs)⟩
    · intro q hq
      by_cases hm : q.1 ∈ rest.names
      · exact Or.inl hm
      · right
        intro x hxq hxk
        rcases hloc q hq with h' | h'
        · simp only [Forest.names, List.mem_cons, List.mem_append] at h'
          rcases h' with h' | h' | h'
          · exact mem_union_left _ (mem_union_right _ (List.mem_toFinset.2 (hvars q hq h' ▸ hxq)))
          · exact mem_union_right _ (hsub kids nm fitk q hq h' x hxq)
          · exact absurd h' hm
        · exact mem_union_left _ (mem_union_left _ (h' x hxq (by simp [Forest.scope, hxk])))

theorem prod_dependsOn {A : Finset Name} {ks : List Name} {φ : Name → Assign → ℚ}
    (h : ∀ k ∈ ks, DependsOn A (φ k)) : DependsOn A fun σ => (ks.map fun k => φ k σ).prod := by
  intro σ τ hst
  dsimp only
  congr 1
  exact List.map_congr_left fun k hk => h k hk σ τ hst

/-- the variables of the table stored at a clique -/
def own (t : JTree) (k : Name) : Finset Name :=
  match t.nodes.get? k with
  | some n => n.factor.variableOrder.toFinset
  | none => ∅

theorem own_eq {t : JTree} {k : Name} {vars : List Name} {f : Factor}
    (h : t.nodes.get? k = some ⟨vars, f⟩) : t.own k = f.variableOrder.toFinset := by
  simp only [own, h]

/-- Message passing on a tree that holds the tables of the network and some additional items. -/
theorem calibrate (so : SetOrder) {bn : BN} (hc : bn.Consistent) (hnn : bn.NonNeg) {t : JTree}
    {root : Name} {rvars : List Name} {kids : Forest} {others : List Name}
    (hs : Sits bn t root rvars kids others) {extra : List Item}
    (hct : Contents bn.lab (bn.map nodeItem ++ extra) t.nodes)
    (hex : ∀ it ∈ extra, ItemOK bn.lab (skel t.nodes) it)
    (het : ∀ e ∈ t.edges, e.factor = Factor.trivial 1) {limit : Nat} (hl : kids.depth < limit) :
    let U := rvars.toFinset ∪ kids.scope
    ∃ t' Φ Ψ, calculate so limit t = (t', none) ∧ t'.shape = t.shape ∧ t'.valid = true ∧
      U ⊆ bn.names.toFinset ∧
      DependsOn U Φ ∧ DependsOn (bn.names.toFinset \ U) Ψ ∧ (∀ σ, 0 ≤ Φ σ) ∧ (∀ σ, 0 ≤ Ψ σ) ∧
      (others = [] → (∀ σ, Ψ σ = 1) ∧ U = bn.names.toFinset) ∧
      (∀ σ, Legal bn.card bn.names σ →
        Φ σ * Ψ σ = (bn.map fun n => n.entry σ).prod * (extra.map fun it => it.f.eval σ).prod) ∧
      (∀ k, k ≠ root → k ∉ kids.names → t'.nodes.get? k = t.nodes.get? k) ∧
      (∃ f, t'.nodes.get? root = some ⟨rvars, f⟩ ∧ f.Over bn.lab ∧
        (∀ v, v ∈ f.variableOrder ↔ v ∈ rvars) ∧ ∀ σ, Legal bn.card rvars σ →
          f.eval σ = sumOver bn.card (U \ rvars.toFinset) Φ σ) ∧
      kids.All (Calibrated bn.lab U Φ t') root := by
  intro U
  have hcard : cardOf bn.lab = bn.card := rfl
  -- homes
  have hitems : ∀ it ∈ bn.map nodeItem ++ extra, it.f.Over bn.lab ∧
      (∀ vars, it.p vars = true → ∀ v ∈ it.f.variableOrder, v ∈ vars) ∧
      (∃ k, home (skel t.nodes) it = some k) ∧
      (∀ σ, Legal (cardOf bn.lab) it.f.variableOrder σ → 0 ≤ it.f.eval σ) ∧
      it.f.variableOrder ≠ [] := by
    intro it hit
    rcases List.mem_append.1 hit with h | h
    · obtain ⟨n, hn, rfl⟩ := List.mem_map.1 h
      obtain ⟨h1, h2, h3, h4, h5, h6⟩ := nodeItem_spec hc hn
      refine ⟨h2, fun vars hv v hvv => (h6 vars).1 hv v (h3 ▸ hvv), ?_, fun σ _ => ?_,
        by rw [h3]; simp [NodeV.family]⟩
      · obtain ⟨q, hq, hq'⟩ := hs.fam n hn
        exact home_some (k := q.1) (vars := q.2) hq ((h6 q.2).2 hq')
      · rw [h4]
        exact NDArray.get_nonneg (hnn n hn) _
    · have := hex it h
      exact ⟨this.over, this.scope, this.home, this.nonneg, this.ne⟩
  have hget : ∀ {k : Name} {vars : List Name} {f : Factor}, t.nodes.get? k = some ⟨vars, f⟩ →
      f.Over bn.lab ∧ (∀ v ∈ f.variableOrder, v ∈ vars) ∧ (∀ σ, 0 ≤ f.eval σ) ∧
      (∀ n ∈ bn, home (skel t.nodes) (nodeItem n) = some k → ∀ x ∈ n.family, x ∈ f.variableOrder) ∧
      (f.variableOrder = [] → ∀ σ, f.eval σ ≠ 0) ∧
      ∀ σ, Legal bn.card bn.names σ → f.eval σ = (((bn.map nodeItem ++ extra).filter fun it =>
        home (skel t.nodes) it = some k).map fun it => it.f.eval σ).prod := by
    intro k vars f hk
    obtain ⟨c1, c2, c3⟩ := hct k _ (Dict.get?_mem hk)
    dsimp only at c1 c2 c3
    have hsc : ∀ v ∈ f.variableOrder, v ∈ vars := by
      intro v hv
      obtain ⟨it, hit, h1, h2⟩ := (c2 v).1 hv
      obtain ⟨vars', h3, h4⟩ := home_mem h1
      have : vars' = vars := by
        obtain ⟨g, hg⟩ := (mem_skel hs.nodup).1 h3
        rw [hk] at hg
        injection hg with hg
        injection hg with hg
        exact hg.symm
      exact this ▸ (hitems it hit).2.1 vars' h4 v h2
    refine ⟨c1, hsc, c1.nonneg fun σ hσ => ?_, fun n hn hh x hx => ?_, fun h0 σ => ?_,
      fun σ hσ => c3 σ fun v hv => ?_⟩
    · rw [c3 σ hσ]
      refine list_prod_nonneg fun x hx => ?_
      obtain ⟨it, hit, rfl⟩ := List.mem_map.1 hx
      have hit' := List.mem_filter.1 hit
      refine (hitems it hit'.1).2.2.2.1 σ fun v hv => hσ v ((c2 v).2 ⟨it, hit'.1, by simpa using hit'.2, hv⟩)
    · refine (c2 x).2 ⟨nodeItem n, List.mem_append_left _ (List.mem_map_of_mem hn), hh, ?_⟩
      rw [(nodeItem_spec hc hn).2.2.1]; exact hx
    · rw [c3 σ (by rw [h0]; simp [Legal])]
      refine List.prod_ne_zero fun h => ?_
      obtain ⟨it, hit, -⟩ := List.mem_map.1 h
      have hit' := List.mem_filter.1 hit
      obtain ⟨v, hv⟩ := List.exists_mem_of_ne_nil _ (hitems it hit'.1).2.2.2.2
      have := (c2 v).2 ⟨it, hit'.1, by simpa using hit'.2, hv⟩
      rw [h0] at this
      simp at this
    · exact hσ v (hs.sub (k, vars) ((mem_skel hs.nodup).2 ⟨f, hk⟩) v (hsc v hv))
  have hfam : ∀ n ∈ bn, ∃ q ∈ skel t.nodes, home (skel t.nodes) (nodeItem n) = some q.1 ∧
      ∀ x ∈ n.family, x ∈ q.2 := by
    intro n hn
    obtain ⟨k, hk⟩ := (hitems (nodeItem n) (List.mem_append_left _ (List.mem_map_of_mem hn))).2.2.1
    obtain ⟨vars, h1, h2⟩ := home_mem hk
    exact ⟨(k, vars), h1, hk, ((nodeItem_spec hc hn).2.2.2.2.2 vars).1 h2⟩
  obtain ⟨rf, hr⟩ := get?_of_vars hs.junction.root_vars
  have hrootv : ∀ q ∈ skel t.nodes, q.1 = root → q.2 = rvars := by
    intro q hq e
    obtain ⟨g, hg⟩ := (mem_skel hs.nodup (k := q.1) (vars := q.2)).1 hq
    rw [e, hr] at hg
    injection hg with hg
    injection hg with hg
    exact hg.symm
  have hqk : ∀ q ∈ skel t.nodes, q.1 ∈ t.nodes.keys := by
    intro q hq
    obtain ⟨g, hg⟩ := (mem_skel hs.nodup (k := q.1) (vars := q.2)).1 hq
    exact Dict.mem_keys_of_get? hg
  have hloc : ∀ q ∈ skel t.nodes, q.1 ∈ kids.names ∨ ∀ x ∈ q.2, x ∈ kids.scope → x ∈ rvars.toFinset := by
    intro q hq
    have hm := hs.keys.subset (hqk q hq)
    simp only [List.cons_append, List.mem_cons, List.mem_append] at hm
    rcases hm with hm | hm | hm
    · exact Or.inr fun x hx _ => List.mem_toFinset.2 (hrootv q hq hm ▸ hx)
    · exact Or.inl hm
    · right
      intro x hx hk
      exact absurd (mem_union_right _ hk) (disjoint_left.1 (hs.disj q hq hm) (List.mem_toFinset.2 hx))
  have hownq : ∀ n ∈ bn, ∀ k, home (skel t.nodes) (nodeItem n) = some k → ∀ x ∈ n.family,
      x ∈ t.own k := by
    intro n hn k hk x hx
    obtain ⟨vars, h1, -⟩ := home_mem hk
    obtain ⟨g, hg⟩ := (mem_skel hs.nodup).1 h1
    rw [own_eq hg]
    exact List.mem_toFinset.2 ((hget hg).2.2.2.1 n hn hk x hx)
  have hown : kids.All (fun _ nm vars _ _ => t.own nm ⊆ vars.toFinset) root := by
    refine hs.junction.fits.imp fun p nm vars sep ks _ _ hf => ?_
    obtain ⟨g, hg⟩ := get?_of_vars hf.2.1
    rw [own_eq hg]
    intro v hv
    exact List.mem_toFinset.2 ((hget hg).2.1 v (List.mem_toFinset.1 hv))
  have hne0 : ∀ k, t.own k = ∅ → ∀ σ, t.pot k σ ≠ 0 := by
    intro k h0 σ
    cases hk : t.nodes.get? k with
    | none => simp [pot, hk]
    | some n =>
      rw [pot_eq (vars := n.vars) (f := n.factor) hk]
      rw [own_eq (vars := n.vars) (f := n.factor) hk, List.toFinset_eq_empty_iff] at h0
      exact (hget (vars := n.vars) (f := n.factor) hk).2.2.2.2.1 h0 σ
  have hcov := coverage (card := cardOf bn.lab) (φ := t.pot) hs.nodup hs.junction.fits hs.junction.rip hloc
    (fun n hn => by
      obtain ⟨q, hq, h1, h2⟩ := hfam n hn
      exact ⟨q, hq, hownq n hn q.1 h1, h2⟩) hown (fun k _ => hne0 k) hs.head
  -- every clique's variables are variables of the network
  have hUn : U ⊆ bn.names.toFinset := by
    have hsc : ∀ x ∈ kids.scope, x ∈ bn.names := by
      have aux : ∀ (F : Forest) (p' : Name), F.All t.Fits p' → ∀ x ∈ F.scope, x ∈ bn.names := by
        intro F
        induction F with
        | nil => intro p' _ x hx; simp [Forest.scope] at hx
        | cons a b c kids rest ihk ihr =>
          intro p' hF x hx
          simp only [Forest.scope, mem_union, List.mem_toFinset] at hx
          rcases hx with (hx | hx) | hx
          · obtain ⟨g, hg⟩ := get?_of_vars hF.1.2.1
            exact hs.sub (a, b) ((mem_skel hs.nodup).2 ⟨g, hg⟩) x hx
          · exact ihk a hF.2.1 x hx
          · exact ihr p' hF.2.2 x hx
      exact aux kids root hs.junction.fits
    intro x hx
    rw [List.mem_toFinset]
    rcases mem_union.1 hx with hx | hx
    · exact hs.sub (root, rvars) ((mem_skel hs.nodup).2 ⟨rf, hr⟩) x (List.mem_toFinset.1 hx)
    · exact hsc x hx
  have hrg := hget hr
  -- Fresh
  have hfresh : kids.All (Fresh bn.lab t.own t.pot t) root := by
    refine ((hs.junction.fits.and hown).and hcov).imp fun p nm vars sep ks _ _ ⟨⟨hf, how⟩, hcv⟩ => ?_
    obtain ⟨g, hg⟩ := get?_of_vars hf.2.1
    obtain ⟨g1, g2, g3, g4, g5, g6⟩ := hget hg
    refine ⟨⟨g, hg, g1, (pot_eq hg).symm, fun v => by rw [own_eq hg, List.mem_toFinset], how, hcv.1,
      hcv.2⟩, ?_⟩
    · obtain ⟨e, he, -⟩ := edge_of_sep hf.2.2.1
      refine ⟨e, he, het e ?_⟩
      unfold edge at he
      cases hfnd : t.edges.find? (fun e => e.joins nm p) with
      | none => rw [hfnd] at he; cases he
      | some e' =>
        rw [hfnd] at he
        injection he with he
        exact he ▸ List.mem_of_find?_eq_some hfnd
  have hrc : ∀ v ∈ rvars, v ∈ rf.variableOrder ∨ v ∈ kids.told t.own := by
    intro v hv
    obtain ⟨m, hm, rfl⟩ := BN.exists_of_mem_names
      (List.mem_toFinset.1 (hUn (mem_union_left _ (List.mem_toFinset.2 hv))))
    obtain ⟨q, hq, hq1, hq2⟩ := hfam m hm
    have hvq : m.name ∈ q.2 := hq2 _ (by simp [NodeV.family])
    have hm' := hs.keys.subset (hqk q hq)
    simp only [List.cons_append, List.mem_cons, List.mem_append] at hm'
    rcases hm' with hm' | hm' | hm'
    · exact Or.inl (hrg.2.2.2.1 m hm (by rw [hq1, hm']) _ (by simp [NodeV.family]))
    · right
      exact told_of_own hs.junction.rip hown hm' (hownq m hm q.1 hq1 _ (by simp [NodeV.family]))
        (List.mem_toFinset.2 hv)
    · exact absurd (mem_union_left _ (List.mem_toFinset.2 hv))
        (disjoint_left.1 (hs.disj q hq hm') (List.mem_toFinset.2 hvq))
  have hpos : ∀ k σ, 0 ≤ t.pot k σ := by
    intro k σ
    cases hk : t.nodes.get? k with
    | none => simp [pot, hk]
    | some n => rw [pot_eq (vars := n.vars) (f := n.factor) hk]; exact (hget (vars := n.vars) (f := n.factor) hk).2.2.1 σ
  obtain ⟨t', e1, e2, e3, e4, e5, e6⟩ := calculate_spec so hs.junction hl hr hrg.1 hrg.2.1 hrc hfresh hpos
  have hdep : ∀ k vars f, t.nodes.get? k = some ⟨vars, f⟩ → DependsOn vars.toFinset (t.pot k) := by
    intro k vars f hk
    rw [pot_eq hk]
    exact (eval_dependsOn f).mono fun v hv => by simpa using (hget hk).2.1 v (by simpa using hv)
  have hkmem : ∀ k ∈ root :: kids.names ++ others, ∃ vars f, t.nodes.get? k = some ⟨vars, f⟩ := by
    intro k hk
    obtain ⟨n, hn⟩ := Dict.get?_isSome.2 (hs.keys.symm.subset hk)
    exact ⟨n.vars, n.factor, hn⟩
  refine ⟨t', _, fun σ => (others.map fun k => t.pot k σ).prod, e1, e2, e3, hUn, ?_, ?_, ?_, ?_, ?_, ?_,
    e4, e5, e6⟩
  · refine DependsOn.mul ?_ ?_
    · exact (hdep root rvars rf hr).mono subset_union_left
    · exact (Forest.prod_dependsOn (dep_of_fresh hfresh)).mono subset_union_right
  · refine prod_dependsOn fun k hk => ?_
    obtain ⟨vars, f, hkf⟩ := hkmem k (List.mem_append_right _ hk)
    have hsk := (mem_skel hs.nodup).2 ⟨f, hkf⟩
    refine (hdep k vars f hkf).mono fun x hx => mem_sdiff.2 ⟨?_, ?_⟩
    · exact List.mem_toFinset.2 (hs.sub _ hsk x (List.mem_toFinset.1 hx))
    · exact disjoint_left.1 (hs.disj _ hsk hk) hx
  · intro σ
    refine mul_nonneg (hpos _ _) ?_
    rw [Forest.prod_names]
    refine list_prod_nonneg fun x hx => ?_
    obtain ⟨k, _, rfl⟩ := List.mem_map.1 hx
    exact hpos _ _
  · intro σ
    refine list_prod_nonneg fun x hx => ?_
    obtain ⟨k, _, rfl⟩ := List.mem_map.1 hx
    exact hpos _ _
  · intro ho
    refine ⟨fun σ => by simp [ho], Finset.Subset.antisymm hUn fun x hx => ?_⟩
    obtain ⟨m, hm, rfl⟩ := BN.exists_of_mem_names (List.mem_toFinset.1 hx)
    obtain ⟨q, hq, -, hq2⟩ := hfam m hm
    have hvq : m.name ∈ q.2 := hq2 _ (by simp [NodeV.family])
    have hm' := hs.keys.subset (hqk q hq)
    rw [ho] at hm'
    simp only [List.append_nil, List.mem_cons] at hm'
    rcases hm' with hm' | hm'
    · exact mem_union_left _ (List.mem_toFinset.2 (hrootv q hq hm' ▸ hvq))
    · obtain ⟨g, hg⟩ := (mem_skel hs.nodup (k := q.1) (vars := q.2)).1 hq
      exact mem_union_right _ ((varsOf hs.junction.fits hm' (by rw [hg]; rfl)).sub (List.mem_toFinset.2 hvq))
  · intro σ hσ
    have h1 : t.pot root σ * kids.prod t.pot σ * (others.map fun k => t.pot k σ).prod =
        ((root :: kids.names ++ others).map fun k => t.pot k σ).prod := by
      rw [Forest.prod_names, List.map_append, List.prod_append, List.map_cons, List.prod_cons]
    have hnd : (root :: kids.names ++ others).Nodup := hs.keys.nodup hs.nodup
    have h2 : ((root :: kids.names ++ others).map fun k => t.pot k σ) =
        (root :: kids.names ++ others).map fun k => (((bn.map nodeItem ++ extra).filter fun it =>
          home (skel t.nodes) it = some k).map fun it => it.f.eval σ).prod := by
      refine List.map_congr_left fun k hk => ?_
      obtain ⟨vars, f, hkf⟩ := hkmem k hk
      rw [pot_eq hkf, (hget hkf).2.2.2.2.2 σ hσ]
    rw [h1, h2, prod_homes _ hnd ?_ fun it => it.f.eval σ]
    · rw [List.map_append, List.prod_append, List.map_map]
      congr 2
      exact List.map_congr_left fun n hn => (nodeItem_spec hc hn).2.2.2.1 σ
    · intro it hit
      obtain ⟨k, hk⟩ := (hitems it hit).2.2.1
      refine ⟨k, ?_, hk⟩
      obtain ⟨vars, h1, -⟩ := home_mem hk
      exact hs.keys.subset (hqk (k, vars) h1)

end JTree
end Primo
