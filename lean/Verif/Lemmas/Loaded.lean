import Verif.Lemmas.Create

/-! # The tree of a network satisfies the hypotheses of message passing -/

namespace Primo
open JoinTree Factor Finset

namespace JTree

/-- A junction tree with non-negative tables before message passing.  `whole`: it has one component.
`full`: a variable of a clique that its table lacks is in the separator of a child. -/
structure Loaded (lab : Name → List Val) (t : JTree) (root : Name) (rvars : List Name)
    (kids : Forest) : Prop where
  junction : t.Junction root rvars kids
  whole : t.nodes.keys.Perm (root :: kids.names)
  blank : ∀ e ∈ t.edges, e.factor = Factor.trivial 1
  tables : ∀ k vars f, (k, JNode.mk vars f) ∈ t.nodes → f.Over lab ∧
    (∀ v ∈ f.variableOrder, v ∈ vars) ∧ ∀ σ, Legal (Factor.cardOf lab) f.variableOrder σ → 0 ≤ f.eval σ
  fullRoot : ∀ f, (root, JNode.mk rvars f) ∈ t.nodes → ∀ v ∈ rvars, v ∈ f.variableOrder ∨ v ∈ kids.seps
  full : kids.All (fun _ nm vars _ ks => ∀ f, (nm, JNode.mk vars f) ∈ t.nodes →
    ∀ v ∈ vars, v ∈ f.variableOrder ∨ v ∈ ks.seps) root

/-- a clique of a subtree lacks only variables of its children -/
theorem coverage_apart {bn : BN} {t : JTree} {f : Forest} {p : Name} {P W : Finset Name}
    (hn : t.nodes.keys.Nodup) (hfit : f.All t.Fits p) (hr : f.RIP P W)
    (hloc : ∀ q ∈ skel t.nodes, q.1 ∈ f.names ∨ ∀ x ∈ q.2, x ∈ f.scope → x ∈ W)
    (hfam : ∀ n ∈ bn, ∃ q ∈ skel t.nodes, home (skel t.nodes) (nodeItem n) = some q.1 ∧
      ∀ x ∈ n.family, x ∈ q.2)
    (hh : Apart bn f p) :
    f.All (fun _ nm vars _ kids => ∀ x ∈ vars, x ∈ kids.seps ∨
      ∃ n ∈ bn, home (skel t.nodes) (nodeItem n) = some nm ∧ x ∈ n.family) p := by
  induction f generalizing p P W with
  | nil => trivial
  | cons nm vars sep kids rest ihk ihr =>
    obtain ⟨r1, r2, r3, r4⟩ := hr
    obtain ⟨fit, fitk, fitr⟩ := hfit
    obtain ⟨⟨h, hv, hsep, hx⟩, hhk, hhr⟩ := hh
    have hvars : ∀ q ∈ skel t.nodes, q.1 = nm → q.2 = vars := by
      intro q hq e
      obtain ⟨g, hg⟩ := (mem_skel hn (k := q.1) (vars := q.2)).1 hq
      have := fit.2.1
      rw [← e, hg] at this
      exact Option.some.inj this
    have hsub : ∀ (F : Forest) (p' : Name), F.All t.Fits p' → ∀ q ∈ skel t.nodes, q.1 ∈ F.names →
        ∀ x ∈ q.2, x ∈ F.scope := by
      intro F p' hF q hq hm x hxq
      obtain ⟨g, hg⟩ := (mem_skel hn (k := q.1) (vars := q.2)).1 hq
      exact (varsOf hF hm (by rw [hg]; rfl)).sub (List.mem_toFinset.2 hxq)
    refine ⟨fun x hxv => ?_, ihk fitk r3 ?_ hhk, ihr fitr r4 ?_ hhr⟩
    · obtain ⟨n, hnb, hn1, hn2⟩ := hx x hxv
      obtain ⟨q, hq, hq1, hq2⟩ := hfam n hnb
      have hcommon : ∀ y : Name, y ∈ vars.toFinset ∪ kids.scope → y ∈ W ∪ rest.scope → y ∈ sep :=
        fun y h1 h2 => List.mem_toFinset.1 (r1 (mem_inter.2 ⟨h1, h2⟩))
      have hhv : h ∈ vars.toFinset ∪ kids.scope := mem_union_left _ (List.mem_toFinset.2 hv)
      rcases hloc q hq with hm | hm
      · simp only [Forest.names, List.mem_cons, List.mem_append] at hm
        rcases hm with hm | hm | hm
        · exact Or.inr ⟨n, hnb, by rw [hq1, hm], hn2⟩
        · left
          refine Forest.mem_seps r3 ?_ (hsub kids nm fitk q hq hm x (hq2 x hn2))
          exact mem_union_right _ (List.mem_toFinset.2 hxv)
        · exact absurd (hcommon h hhv (mem_union_right _ (hsub rest p fitr q hq hm h (hq2 h hn1)))) hsep
      · refine absurd (hcommon h hhv (mem_union_left _ (hm h (hq2 h hn1) ?_))) hsep
        rw [Forest.scope]
        exact mem_union_left _ hhv
    · intro q hq
      by_cases hm : q.1 ∈ kids.names
      · exact Or.inl hm
      · right
        intro x hxq hxk
        rcases hloc q hq with h' | h'
        · simp only [Forest.names, List.mem_cons, List.mem_append] at h'
          rcases h' with h' | h' | h'
          · exact mem_union_right _ (List.mem_toFinset.2 (hvars q hq h' ▸ hxq))
          · exact absurd h' hm
          · exact mem_union_left _ (mem_union_right _ (hsub rest p fitr q hq h' x hxq))
        · exact mem_union_left _ (mem_union_left _ (h' x hxq (by simp [Forest.scope, hxk])))
    · intro q hq
      by_cases hm : q.1 ∈ rest.names
      · exact Or.inl hm
      · right
        intro x hxq hxk
        rcases hloc q hq with h' | h'
        · simp only [Forest.names, List.mem_cons, List.mem_append] at h'
          rcases h' with h' | h' | h'
          · exact mem_union_left _ (mem_union_right _ (List.mem_toFinset.2 (hvars q hq h' ▸ hxq)))
          · exact mem_union_right _ (hsub kids nm fitk q hq h' x hxq)
          · exact absurd h' hm
        · exact mem_union_left _ (mem_union_left _ (h' x hxq (by simp [Forest.scope, hxk])))

/-- A tree with one component that holds the tables of the network (and further items). -/
theorem loaded_of_sits {bn : BN} (hc : bn.Consistent) (hnn : bn.NonNeg) {t : JTree}
    {root : Name} {rvars : List Name} {kids : Forest}
    (hs : Sits bn t root rvars kids []) (hap : Apart bn kids root) {extra : List Item}
    (hct : Contents bn.lab (bn.map nodeItem ++ extra) t.nodes)
    (hex : ∀ it ∈ extra, ItemOK bn.lab (skel t.nodes) it)
    (het : ∀ e ∈ t.edges, e.factor = Factor.trivial 1) : Loaded bn.lab t root rvars kids := by
  have hitems : ∀ it ∈ bn.map nodeItem ++ extra,
      (∀ vars, it.p vars = true → ∀ v ∈ it.f.variableOrder, v ∈ vars) ∧
      ∀ σ, Legal (cardOf bn.lab) it.f.variableOrder σ → 0 ≤ it.f.eval σ := by
    intro it hit
    rcases List.mem_append.1 hit with h | h
    · obtain ⟨n, hn, rfl⟩ := List.mem_map.1 h
      obtain ⟨h1, h2, h3, h4, h5, h6⟩ := nodeItem_spec hc hn
      refine ⟨fun vars hv v hvv => (h6 vars).1 hv v (h3 ▸ hvv), fun σ _ => ?_⟩
      rw [h4]
      exact NDArray.get_nonneg (hnn n hn) _
    · have := hex it h
      exact ⟨this.scope, this.nonneg⟩
  have hget : ∀ k vars f, (k, JNode.mk vars f) ∈ t.nodes →
      f.Over bn.lab ∧ (∀ v ∈ f.variableOrder, v ∈ vars) ∧
      (∀ σ, Legal (cardOf bn.lab) f.variableOrder σ → 0 ≤ f.eval σ) ∧
      (∀ n ∈ bn, home (skel t.nodes) (nodeItem n) = some k → ∀ x ∈ n.family, x ∈ f.variableOrder) := by
    intro k vars f hm
    obtain ⟨c1, c2, c3⟩ := hct k _ hm
    have hk := Dict.get?_of_mem hs.nodup hm
    dsimp only at c1 c2 c3
    refine ⟨c1, fun v hv => ?_, fun σ hσ => ?_, fun n hn hh x hx => ?_⟩
    · obtain ⟨it, hit, h1, h2⟩ := (c2 v).1 hv
      obtain ⟨vars', h3, h4⟩ := home_mem h1
      have : vars' = vars := by
        obtain ⟨g, hg⟩ := (mem_skel hs.nodup).1 h3
        rw [hk] at hg
        injection hg with hg
        injection hg with hg
        exact hg.symm
      exact this ▸ (hitems it hit).1 vars' h4 v h2
    · rw [c3 σ hσ]
      refine list_prod_nonneg fun x hx => ?_
      obtain ⟨it, hit, rfl⟩ := List.mem_map.1 hx
      have hit' := List.mem_filter.1 hit
      refine (hitems it hit'.1).2 σ fun v hv => hσ v ((c2 v).2 ⟨it, hit'.1, by simpa using hit'.2, hv⟩)
    · refine (c2 x).2 ⟨nodeItem n, List.mem_append_left _ (List.mem_map_of_mem hn), hh, ?_⟩
      rw [(nodeItem_spec hc hn).2.2.1]; exact hx
  have hfam : ∀ n ∈ bn, ∃ q ∈ skel t.nodes, home (skel t.nodes) (nodeItem n) = some q.1 ∧
      ∀ x ∈ n.family, x ∈ q.2 := by
    intro n hn
    obtain ⟨q, hq, hq'⟩ := hs.fam n hn
    have h6 := (nodeItem_spec hc hn).2.2.2.2.2
    obtain ⟨k, hk⟩ := home_some (k := q.1) (vars := q.2) hq ((h6 q.2).2 hq')
    obtain ⟨vars, h1, h2⟩ := home_mem hk
    exact ⟨(k, vars), h1, hk, (h6 vars).1 h2⟩
  have hrootv : ∀ q ∈ skel t.nodes, q.1 = root → q.2 = rvars := by
    intro q hq e
    obtain ⟨g, hg⟩ := (mem_skel hs.nodup (k := q.1) (vars := q.2)).1 hq
    have := hs.junction.root_vars
    rw [← e, hg] at this
    exact Option.some.inj this
  have hqk : ∀ q ∈ skel t.nodes, q.1 = root ∨ q.1 ∈ kids.names := by
    intro q hq
    obtain ⟨g, hg⟩ := (mem_skel hs.nodup (k := q.1) (vars := q.2)).1 hq
    simpa using hs.keys.subset (Dict.mem_keys_of_get? hg)
  have hloc : ∀ q ∈ skel t.nodes, q.1 ∈ kids.names ∨ ∀ x ∈ q.2, x ∈ kids.scope → x ∈ rvars.toFinset := by
    intro q hq
    rcases hqk q hq with hm | hm
    · exact Or.inr fun x hx _ => List.mem_toFinset.2 (hrootv q hq hm ▸ hx)
    · exact Or.inl hm
  have hcov := coverage_apart hs.nodup hs.junction.fits hs.junction.rip hloc hfam hap
  refine ⟨hs.junction, by simpa using hs.keys, het, fun k vars f hm => ?_, fun f hm v hv => ?_,
    hcov.imp fun p nm vars sep ks _ _ hh f hm v hv => ?_⟩
  · obtain ⟨h1, h2, h3, -⟩ := hget k vars f hm
    exact ⟨h1, h2, h3⟩
  · have hsk := (mem_skel hs.nodup).2 ⟨f, Dict.get?_of_mem hs.nodup hm⟩
    obtain ⟨m, hm', rfl⟩ := BN.exists_of_mem_names (hs.sub _ hsk v hv)
    obtain ⟨q, hq, hq1, hq2⟩ := hfam m hm'
    have hvq : m.name ∈ q.2 := hq2 _ (by simp [NodeV.family])
    rcases hqk q hq with h' | h'
    · exact Or.inl ((hget root rvars f hm).2.2.2 m hm' (by rw [hq1, h']) _ (by simp [NodeV.family]))
    · right
      refine Forest.mem_seps hs.junction.rip (List.mem_toFinset.2 hv) ?_
      obtain ⟨g, hg⟩ := (mem_skel hs.nodup (k := q.1) (vars := q.2)).1 hq
      exact (varsOf hs.junction.fits h' (by rw [hg]; rfl)).sub (List.mem_toFinset.2 hvq)
  · rcases hh v hv with h | ⟨n, hn, h1, h2⟩
    · exact Or.inr h
    · exact Or.inl ((hget nm vars f hm).2.2.2 n hn h1 v h2)

end JTree
end Primo
