import Verif.Order
import Verif.Spec.Graph
import Verif.Spec.Network
import Verif.Lemmas.Over

/-! # The interaction graph of `get_min_degree_order` -/

namespace Primo

theorem Via.mono {adj : Name → Name → Prop} {E F : List Name} (h : ∀ x ∈ E, x ∈ F) {u v : Name}
    (hv : Via adj E u v) : Via adj F u v := by
  induction hv with
  | base h => exact .base h
  | step h1 h2 _ ih => exact .step h1 (h _ h2) ih

theorem Via.trans {adj : Name → Name → Prop} {E : List Name} {u w v : Name}
    (h1 : Via adj E u w) (hw : w ∈ E) (h2 : Via adj E w v) : Via adj E u v := by
  induction h1 with
  | base h => exact .step h hw h2
  | step h he _ ih => exact .step h he (ih hw h2)

theorem Via.symm {adj : Name → Name → Prop} (hs : ∀ a b, adj a b → adj b a) {E : List Name}
    {u v : Name} (h : Via adj E u v) : Via adj E v u := by
  induction h with
  | base h => exact .base (hs _ _ h)
  | step h he _ ih => exact ih.trans he (.base (hs _ _ h))

theorem via_cons {adj : Name → Name → Prop} {E : List Name} {v x y : Name} :
    Via adj (v :: E) x y ↔ Via adj E x y ∨ (Via adj E x v ∧ Via adj E v y) := by
  constructor
  · intro h
    induction h with
    | base h => exact Or.inl (.base h)
    | step h he _ ih =>
      rcases List.mem_cons.1 he with rfl | he
      · rcases ih with ih | ih
        · exact Or.inr ⟨.base h, ih⟩
        · exact Or.inr ⟨.base h, ih.2⟩
      · rcases ih with ih | ih
        · exact Or.inl (.step h he ih)
        · exact Or.inr ⟨.step h he ih.1, ih.2⟩
  · rintro (h | ⟨h1, h2⟩)
    · exact h.mono (by simp +contextual)
    · exact (h1.mono (by simp +contextual)).trans (by simp) (h2.mono (by simp +contextual))

theorem via_nil {adj : Name → Name → Prop} {x y : Name} : Via adj [] x y ↔ adj x y :=
  ⟨fun h => by cases h with | base h => exact h | step _ h _ => simp at h, .base⟩

theorem via_congr {adj : Name → Name → Prop} {E F : List Name} (h : ∀ x, x ∈ E ↔ x ∈ F)
    {x y : Name} : Via adj E x y ↔ Via adj F x y :=
  ⟨Via.mono fun a ha => (h a).1 ha, Via.mono fun a ha => (h a).2 ha⟩

namespace UGraph

theorem nbrs_set (g : UGraph) (u : Name) (l : List Name) (x : Name) :
    UGraph.nbrs (g.set u l) x = if u = x then l else g.nbrs x := by
  unfold nbrs
  rw [Dict.get?_set]
  split <;> rfl

theorem mem_nbrs_addArc {g : UGraph} {u v x y : Name} :
    y ∈ (g.addArc u v).nbrs x ↔ y ∈ g.nbrs x ∨ (x = u ∧ y = v) := by
  unfold addArc
  by_cases h : v ∈ g.nbrs u
  · rw [if_pos h]
    constructor
    · exact Or.inl
    · rintro (h' | ⟨rfl, rfl⟩) <;> assumption
  · rw [if_neg h, nbrs_set]
    by_cases hx : u = x
    · subst hx; simp
    · simp only [hx, if_false]
      constructor
      · exact Or.inl
      · rintro (h' | ⟨h', -⟩)
        · exact h'
        · exact absurd h'.symm hx

theorem nodup_addArc {g : UGraph} {u v : Name} (h : ∀ x, (g.nbrs x).Nodup) (x : Name) :
    ((g.addArc u v).nbrs x).Nodup := by
  unfold addArc
  by_cases hv : v ∈ g.nbrs u
  · rw [if_pos hv]; exact h x
  · rw [if_neg hv, nbrs_set]
    by_cases hx : u = x
    · rw [if_pos hx, List.nodup_append]
      refine ⟨h u, by simp, fun a ha b hb e => ?_⟩
      rw [List.mem_singleton.1 hb] at e
      exact hv (e ▸ ha)
    · rw [if_neg hx]; exact h x

theorem nodes_addArc {g : UGraph} {u v : Name} (h : u ∈ g.nodes) : (g.addArc u v).nodes = g.nodes := by
  unfold addArc
  by_cases hv : v ∈ g.nbrs u
  · rw [if_pos hv]
  · rw [if_neg hv]; exact Dict.keys_set_of_mem _ h

theorem nbrs_addArc_of_ne {g : UGraph} {u v x : Name} (h : x ≠ u) :
    (g.addArc u v).nbrs x = g.nbrs x := by
  unfold addArc
  by_cases hv : v ∈ g.nbrs u
  · rw [if_pos hv]
  · rw [if_neg hv, nbrs_set, if_neg (Ne.symm h)]

theorem mem_nbrs_addEdge {g : UGraph} {u v x y : Name} :
    y ∈ (g.addEdge u v).nbrs x ↔ y ∈ g.nbrs x ∨ (x = u ∧ y = v) ∨ (x = v ∧ y = u) := by
  unfold addEdge
  rw [mem_nbrs_addArc, mem_nbrs_addArc, or_assoc]

theorem nodup_addEdge {g : UGraph} {u v : Name} (h : ∀ x, (g.nbrs x).Nodup) (x : Name) :
    ((g.addEdge u v).nbrs x).Nodup := nodup_addArc (nodup_addArc h) x

theorem nodes_addEdge {g : UGraph} {u v : Name} (hu : u ∈ g.nodes) (hv : v ∈ g.nodes) :
    (g.addEdge u v).nodes = g.nodes := by
  unfold addEdge
  rw [nodes_addArc (by rw [nodes_addArc hu]; exact hv), nodes_addArc hu]

theorem nbrs_addEdge_of_ne {g : UGraph} {u v x : Name} (hu : x ≠ u) (hv : x ≠ v) :
    (g.addEdge u v).nbrs x = g.nbrs x := by
  unfold addEdge
  rw [nbrs_addArc_of_ne hv, nbrs_addArc_of_ne hu]

/-- symmetric adjacency between nodes, without repetitions -/
structure Good (g : UGraph) : Prop where
  nodup : g.nodes.Nodup
  nbrs_nodup : ∀ x, (g.nbrs x).Nodup
  symm : ∀ x y, y ∈ g.nbrs x → x ∈ g.nbrs y
  mem : ∀ x y, y ∈ g.nbrs x → y ∈ g.nodes

theorem Good.addEdge {g : UGraph} (h : g.Good) {u v : Name} (hu : u ∈ g.nodes) (hv : v ∈ g.nodes) :
    (g.addEdge u v).Good where
  nodup := by rw [nodes_addEdge hu hv]; exact h.nodup
  nbrs_nodup := nodup_addEdge h.nbrs_nodup
  symm x y hy := by
    rw [mem_nbrs_addEdge] at hy ⊢
    rcases hy with hy | ⟨h1, h2⟩ | ⟨h1, h2⟩
    · exact Or.inl (h.symm _ _ hy)
    · exact Or.inr (Or.inr ⟨h2, h1⟩)
    · exact Or.inr (Or.inl ⟨h2, h1⟩)
  mem x y hy := by
    rw [nodes_addEdge hu hv]
    rw [mem_nbrs_addEdge] at hy
    rcases hy with hy | ⟨_, h2⟩ | ⟨_, h2⟩
    · exact h.mem _ _ hy
    · rwa [h2]
    · rwa [h2]

theorem nbrs_map_erase (g : UGraph) (v x : Name) :
    UGraph.nbrs (List.map (fun p => (p.1, p.2.erase v)) g) x = (g.nbrs x).erase v := by
  unfold nbrs
  induction g with
  | nil => rfl
  | cons p g ih =>
    obtain ⟨k, l⟩ := p
    simp only [List.map_cons, Dict.get?]
    split
    · rfl
    · exact ih

theorem nbrs_removeNode {g : UGraph} (h : g.nodes.Nodup) (v x : Name) :
    (g.removeNode v).nbrs x = if x = v then [] else (g.nbrs x).erase v := by
  unfold removeNode
  rw [nbrs_map_erase]
  by_cases hx : x = v
  · rw [if_pos hx, hx]
    unfold nbrs
    rw [Dict.get?_erase_self h]; rfl
  · rw [if_neg hx]
    unfold nbrs
    rw [Dict.get?_erase_of_ne (Ne.symm hx)]

theorem nodes_removeNode (g : UGraph) (v : Name) : (g.removeNode v).nodes = g.nodes.erase v := by
  unfold removeNode nodes
  rw [← Dict.keys_erase]
  simp [Dict.keys, Function.comp_def]

end UGraph

namespace Orderer
open UGraph

theorem pickMin_spec (g : UGraph) (l : List Name) (hl : l ≠ []) :
    ∃ v, pickMin g l = some v ∧ v ∈ l ∧ (∀ u ∈ l, g.degree v ≤ g.degree u) ∧
      ∀ u ∈ l, g.degree u = g.degree v → l.idxOf v ≤ l.idxOf u := by
  induction l with
  | nil => exact absurd rfl hl
  | cons a l ih =>
    by_cases hl' : l = []
    · subst hl'
      exact ⟨a, rfl, by simp, by simp, by simp⟩
    · obtain ⟨w, h1, h2, h3, h4⟩ := ih hl'
      rw [pickMin, h1]
      by_cases hd : g.degree a ≤ g.degree w
      · refine ⟨a, by simp [hd], by simp, ?_, by simp⟩
        intro u hu
        rcases List.mem_cons.1 hu with rfl | hu
        · exact le_refl _
        · exact hd.trans (h3 u hu)
      · have haw : a ≠ w := by rintro rfl; exact hd (le_refl _)
        refine ⟨w, by simp [hd], by simp [h2], ?_, ?_⟩
        · intro u hu
          rcases List.mem_cons.1 hu with rfl | hu
          · exact (not_le.1 hd).le
          · exact h3 u hu
        · intro u hu he
          rcases List.mem_cons.1 hu with rfl | hu
          · omega
          · by_cases hua : u = a
            · subst hua; omega
            · rw [List.idxOf_cons_ne _ haw, List.idxOf_cons_ne _ (Ne.symm hua)]
              exact Nat.succ_le_succ (h4 u hu he)

/-- the inner loop over `p2` -/
theorem fillInner {v p : Name} (hpv : p ≠ v) (l : List Name) (g : UGraph) (hg : g.Good)
    (hp : p ∈ g.nodes) (hl : ∀ q ∈ l, q ∈ g.nodes ∧ q ≠ v) :
    let g' := l.foldl (fun g p2 => if p ≠ p2 ∧ p2 ∉ g.nbrs p then g.addEdge p p2 else g) g
    g'.Good ∧ g'.nodes = g.nodes ∧ g'.nbrs v = g.nbrs v ∧
      ∀ x y, y ∈ g'.nbrs x ↔ y ∈ g.nbrs x ∨ (x ≠ y ∧ ((x = p ∧ y ∈ l) ∨ (y = p ∧ x ∈ l))) := by
  induction l generalizing g with
  | nil => simp [hg]
  | cons q l ih =>
    have hq := hl q (by simp)
    rw [List.foldl_cons]
    by_cases hc : p ≠ q ∧ q ∉ g.nbrs p
    · rw [if_pos hc]
      have hn := nodes_addEdge hp hq.1
      obtain ⟨i1, i2, i3, i4⟩ := ih (g.addEdge p q) (hg.addEdge hp hq.1) (by rw [hn]; exact hp)
        (fun r hr => by rw [hn]; exact hl r (by simp [hr]))
      refine ⟨i1, i2.trans hn, ?_, fun x y => ?_⟩
      · rw [i3, nbrs_addEdge_of_ne (Ne.symm hpv) (Ne.symm hq.2)]
      · rw [i4, mem_nbrs_addEdge]
        simp only [List.mem_cons]
        have := hc.1
        constructor
        · rintro ((h | ⟨rfl, rfl⟩ | ⟨rfl, rfl⟩) | ⟨h, h' | h'⟩)
          · exact Or.inl h
          · exact Or.inr ⟨this, Or.inl ⟨rfl, Or.inl rfl⟩⟩
          · exact Or.inr ⟨this.symm, Or.inr ⟨rfl, Or.inl rfl⟩⟩
          · exact Or.inr ⟨h, Or.inl ⟨h'.1, Or.inr h'.2⟩⟩
          · exact Or.inr ⟨h, Or.inr ⟨h'.1, Or.inr h'.2⟩⟩
        · rintro (h | ⟨h, ⟨rfl, rfl | h'⟩ | ⟨rfl, rfl | h'⟩⟩)
          · exact Or.inl (Or.inl h)
          · exact Or.inl (Or.inr (Or.inl ⟨rfl, rfl⟩))
          · exact Or.inr ⟨h, Or.inl ⟨rfl, h'⟩⟩
          · exact Or.inl (Or.inr (Or.inr ⟨rfl, rfl⟩))
          · exact Or.inr ⟨h, Or.inr ⟨rfl, h'⟩⟩
    · rw [if_neg hc]
      obtain ⟨i1, i2, i3, i4⟩ := ih g hg hp (fun r hr => hl r (by simp [hr]))
      refine ⟨i1, i2, i3, fun x y => ?_⟩
      rw [i4]
      simp only [List.mem_cons]
      have hpq : p = q ∨ q ∈ g.nbrs p := by
        by_cases h : p = q
        · exact Or.inl h
        · exact Or.inr (by by_contra h'; exact hc ⟨h, h'⟩)
      constructor
      · rintro (h | ⟨h, h' | h'⟩)
        · exact Or.inl h
        · exact Or.inr ⟨h, Or.inl ⟨h'.1, Or.inr h'.2⟩⟩
        · exact Or.inr ⟨h, Or.inr ⟨h'.1, Or.inr h'.2⟩⟩
      · rintro (h | ⟨h, ⟨rfl, rfl | h'⟩ | ⟨rfl, rfl | h'⟩⟩)
        · exact Or.inl h
        · exact Or.inl (hpq.resolve_left h)
        · exact Or.inr ⟨h, Or.inl ⟨rfl, h'⟩⟩
        · exact Or.inl (hg.symm _ _ (hpq.resolve_left (Ne.symm h)))
        · exact Or.inr ⟨h, Or.inr ⟨rfl, h'⟩⟩

/-- the outer loop over `p` -/
theorem fillOuter {v : Name} (N : List Name) (l : List Name) (g : UGraph) (hg : g.Good)
    (hN : g.nbrs v = N) (hNv : v ∉ N) (hl : ∀ p ∈ l, p ∈ N) :
    let g' := l.foldl (fun g p =>
      (g.nbrs v).foldl (fun g p2 => if p ≠ p2 ∧ p2 ∉ g.nbrs p then g.addEdge p p2 else g) g) g
    g'.Good ∧ g'.nodes = g.nodes ∧ g'.nbrs v = N ∧
      ∀ x y, y ∈ g'.nbrs x ↔ y ∈ g.nbrs x ∨ (x ≠ y ∧ ((x ∈ l ∧ y ∈ N) ∨ (y ∈ l ∧ x ∈ N))) := by
  induction l generalizing g with
  | nil => simp [hg, hN]
  | cons p l ih =>
    rw [List.foldl_cons]
    have hp := hl p (by simp)
    have hpn : p ∈ g.nodes := hg.mem v p (by rw [hN]; exact hp)
    obtain ⟨a1, a2, a3, a4⟩ := fillInner (v := v) (p := p) (by rintro rfl; exact hNv hp) (g.nbrs v) g
      hg hpn (fun q hq => ⟨hg.mem v q hq, by rintro rfl; exact hNv (hN ▸ hq)⟩)
    obtain ⟨i1, i2, i3, i4⟩ := ih _ a1 (a3.trans hN) (fun q hq => hl q (by simp [hq]))
    refine ⟨i1, i2.trans a2, i3, fun x y => ?_⟩
    rw [i4, a4, hN]
    simp only [List.mem_cons]
    constructor
    · rintro ((h | ⟨h, ⟨rfl, h'⟩ | ⟨rfl, h'⟩⟩) | ⟨h, h' | h'⟩)
      · exact Or.inl h
      · exact Or.inr ⟨h, Or.inl ⟨Or.inl rfl, h'⟩⟩
      · exact Or.inr ⟨h, Or.inr ⟨Or.inl rfl, h'⟩⟩
      · exact Or.inr ⟨h, Or.inl ⟨Or.inr h'.1, h'.2⟩⟩
      · exact Or.inr ⟨h, Or.inr ⟨Or.inr h'.1, h'.2⟩⟩
    · rintro (h | ⟨h, ⟨rfl | h', h2⟩ | ⟨rfl | h', h2⟩⟩)
      · exact Or.inl (Or.inl h)
      · exact Or.inl (Or.inr ⟨h, Or.inl ⟨rfl, h2⟩⟩)
      · exact Or.inr ⟨h, Or.inl ⟨h', h2⟩⟩
      · exact Or.inl (Or.inr ⟨h, Or.inr ⟨rfl, h2⟩⟩)
      · exact Or.inr ⟨h, Or.inr ⟨h', h2⟩⟩

theorem fillIn_spec {g : UGraph} (hg : g.Good) {v : Name} (hv : v ∉ g.nbrs v) :
    (fillIn g v).Good ∧ (fillIn g v).nodes = g.nodes ∧
      ∀ x y, y ∈ (fillIn g v).nbrs x ↔
        y ∈ g.nbrs x ∨ (x ≠ y ∧ x ∈ g.nbrs v ∧ y ∈ g.nbrs v) := by
  obtain ⟨h1, h2, _, h4⟩ := fillOuter (v := v) (g.nbrs v) (g.nbrs v) g hg rfl hv (fun _ h => h)
  refine ⟨h1, h2, fun x y => ?_⟩
  unfold fillIn
  rw [h4]
  constructor
  · rintro (h | ⟨h, h' | h'⟩)
    · exact Or.inl h
    · exact Or.inr ⟨h, h'⟩
    · exact Or.inr ⟨h, h'.2, h'.1⟩
  · rintro (h | ⟨h, h'⟩)
    · exact Or.inl h
    · exact Or.inr ⟨h, Or.inl h'⟩

theorem Good.removeNode {g : UGraph} (hg : g.Good) (v : Name) : (g.removeNode v).Good where
  nodup := by rw [nodes_removeNode]; exact hg.nodup.erase v
  nbrs_nodup x := by
    rw [nbrs_removeNode hg.nodup]
    split
    · exact List.nodup_nil
    · exact (hg.nbrs_nodup x).erase v
  symm x y h := by
    rw [nbrs_removeNode hg.nodup] at h ⊢
    by_cases hx : x = v
    · simp [hx] at h
    · rw [if_neg hx, (hg.nbrs_nodup x).mem_erase_iff] at h
      rw [if_neg h.1, (hg.nbrs_nodup y).mem_erase_iff]
      exact ⟨hx, hg.symm _ _ h.2⟩
  mem x y h := by
    rw [nbrs_removeNode hg.nodup] at h
    by_cases hx : x = v
    · simp [hx] at h
    · rw [if_neg hx, (hg.nbrs_nodup x).mem_erase_iff] at h
      rw [nodes_removeNode, hg.nodup.mem_erase_iff]
      exact ⟨h.1, hg.mem _ _ h.2⟩

/-- the interaction graph after eliminating `E` -/
structure Inv (names : List Name) (adj : Name → Name → Prop) (E : List Name) (g : UGraph) : Prop where
  good : g.Good
  nodes : g.nodes = names.filter (fun w => decide (w ∉ E))
  nbrs : ∀ x y, y ∈ g.nbrs x ↔ x ∈ g.nodes ∧ y ∈ g.nodes ∧ x ≠ y ∧ Via adj E x y

theorem Inv.elim {names : List Name} {adj : Name → Name → Prop} (hs : ∀ a b, adj a b → adj b a)
    {E : List Name} {g : UGraph} (h : Inv names adj E g) {v : Name} (hv : v ∈ g.nodes) :
    Inv names adj (v :: E) ((fillIn g v).removeNode v) := by
  have hvv : v ∉ g.nbrs v := fun hh => ((h.nbrs v v).1 hh).2.2.1 rfl
  obtain ⟨f1, f2, f3⟩ := fillIn_spec h.good hvv
  have hnodes : ((fillIn g v).removeNode v).nodes = g.nodes.erase v := by
    rw [nodes_removeNode, f2]
  refine ⟨Good.removeNode f1 v, ?_, fun x y => ?_⟩
  · rw [hnodes, h.good.nodup.erase_eq_filter, h.nodes, List.filter_filter]
    refine List.filter_congr fun u _ => ?_
    by_cases hu : u = v <;> simp [hu]
  · rw [nbrs_removeNode f1.nodup, hnodes, h.good.nodup.mem_erase_iff, h.good.nodup.mem_erase_iff,
      via_cons]
    by_cases hx : x = v
    · simp [hx]
    · rw [if_neg hx, (f1.nbrs_nodup x).mem_erase_iff, f3]
      have e1 := h.nbrs x y
      have e2 := h.nbrs v x
      have e3 := h.nbrs v y
      constructor
      · rintro ⟨hy, h' | ⟨h1, h2, h3⟩⟩
        · rw [e1] at h'
          exact ⟨⟨hx, h'.1⟩, ⟨hy, h'.2.1⟩, h'.2.2.1, Or.inl h'.2.2.2⟩
        · rw [e2] at h2; rw [e3] at h3
          exact ⟨⟨hx, h2.2.1⟩, ⟨hy, h3.2.1⟩, h1, Or.inr ⟨h2.2.2.2.symm hs, h3.2.2.2⟩⟩
      · rintro ⟨⟨_, h1⟩, ⟨hy, h2⟩, h3, h4 | ⟨h4, h5⟩⟩
        · exact ⟨hy, Or.inl (e1.2 ⟨h1, h2, h3, h4⟩)⟩
        · exact ⟨hy, Or.inr ⟨h3, e2.2 ⟨hv, h1, Ne.symm hx, h4.symm hs⟩,
            e3.2 ⟨hv, h2, Ne.symm hy, h5⟩⟩⟩

theorem Inv.degree {names : List Name} (hnd : names.Nodup) {adj : Name → Name → Prop}
    {E : List Name} {g : UGraph} (h : Inv names adj E g) {u : Name} (hu : u ∈ g.nodes) :
    g.degree u = elimDegree names adj E u := by
  classical
  have hvv : u ∉ g.nbrs u := fun hh => ((h.nbrs u u).1 hh).2.2.1 rfl
  unfold UGraph.degree elimDegree
  rw [if_neg hvv, add_zero]
  apply List.Perm.length_eq
  rw [List.perm_ext_iff_of_nodup (h.good.nbrs_nodup u) (hnd.filter _)]
  intro w
  rw [h.nbrs, h.nodes]
  have : u ∈ names ∧ u ∉ E := by simpa [h.nodes] using hu
  simp only [List.mem_filter, decide_eq_true_eq]
  constructor
  · rintro ⟨_, ⟨h1, h2⟩, h3, h4⟩; exact ⟨h1, h2, Ne.symm h3, h4⟩
  · rintro ⟨h1, h2, h3, h4⟩; exact ⟨this, ⟨h1, h2⟩, Ne.symm h3, h4⟩

theorem elimDegree_congr {names : List Name} {adj : Name → Name → Prop} {E F : List Name}
    (h : ∀ x, x ∈ E ↔ x ∈ F) (u : Name) : elimDegree names adj E u = elimDegree names adj F u := by
  unfold elimDegree
  congr 1
  refine List.filter_congr fun w _ => ?_
  rw [decide_eq_decide, h, via_congr h]

theorem _root_.Primo.MinDegree.congr {names : List Name} {adj : Name → Name → Prop} {E F : List Name} {v : Name}
    (h : ∀ x, x ∈ E ↔ x ∈ F) (hm : MinDegree names adj E v) : MinDegree names adj F v := by
  intro u hu huF
  rw [← elimDegree_congr h, ← elimDegree_congr h]
  exact hm u hu fun hE => huF ((h u).1 hE)

theorem idxOf_filter_le {l : List Name} (p : Name → Bool) {a b : Name} (ha : p a) (hb : p b)
    (h : (l.filter p).idxOf a ≤ (l.filter p).idxOf b) (hmem : b ∈ l) : l.idxOf a ≤ l.idxOf b := by
  induction l with
  | nil => simp
  | cons c l ih =>
    by_cases hca : c = a
    · subst hca; simp
    · by_cases hcb : c = b
      · subst hcb
        rw [List.filter_cons_of_pos hb] at h
        rw [List.idxOf_cons_ne _ hca] at h
        simp at h
      · have hm : b ∈ l := by
          rcases List.mem_cons.1 hmem with h' | h'
          · exact absurd h'.symm hcb
          · exact h'
        rw [List.idxOf_cons_ne _ hca, List.idxOf_cons_ne _ hcb]
        refine Nat.succ_le_succ (ih ?_ hm)
        by_cases hc : p c
        · rw [List.filter_cons_of_pos hc, List.idxOf_cons_ne _ hca, List.idxOf_cons_ne _ hcb] at h
          exact Nat.le_of_succ_le_succ h
        · rwa [List.filter_cons_of_neg hc] at h

theorem elimLoop_spec {names : List Name} (hnd : names.Nodup) {adj : Name → Name → Prop}
    (hs : ∀ a b, adj a b → adj b a) (n : Nat) (E : List Name) (g : UGraph)
    (h : Inv names adj E g) (hn : n = g.nodes.length) :
    ∃ o, elimLoop n g = .ok o ∧ o.Perm g.nodes ∧
      ∀ o1 v o2, o = o1 ++ v :: o2 → MinDegree names adj (o1.reverse ++ E) v := by
  induction n generalizing E g with
  | zero =>
    refine ⟨[], rfl, ?_, by simp⟩
    rw [List.length_eq_zero_iff.1 hn.symm]
  | succ n ih =>
    have hne : g.nodes ≠ [] := by intro e; rw [e] at hn; simp at hn
    obtain ⟨v, p1, p2, p3, p4⟩ := pickMin_spec g g.nodes hne
    have hI := h.elim hs p2
    have hnodes : ((fillIn g v).removeNode v).nodes = g.nodes.erase v := by
      rw [nodes_removeNode, (fillIn_spec h.good fun hh => ((h.nbrs v v).1 hh).2.2.1 rfl).2.1]
    obtain ⟨o, i1, i2, i3⟩ := ih (v :: E) _ hI (by
      rw [hnodes, List.length_erase_of_mem p2]; omega)
    refine ⟨v :: o, ?_, ?_, ?_⟩
    · rw [elimLoop, elimStep, p1]
      simp only [ok_bind]
      rw [i1]; rfl
    · exact ((i2.trans (by rw [hnodes])).cons v).trans (List.perm_cons_erase p2).symm
    · intro o1 w o2 he
      cases o1 with
      | nil =>
        simp only [List.nil_append, List.cons.injEq] at he
        obtain ⟨rfl, rfl⟩ := he
        intro u hu huE
        simp only [List.reverse_nil, List.nil_append] at huE ⊢
        have hun : u ∈ g.nodes := by rw [h.nodes]; simp [hu, huE]
        rw [← h.degree hnd hun, ← h.degree hnd p2]
        rcases Nat.lt_or_eq_of_le (p3 u hun) with h' | h'
        · exact Or.inl h'
        · refine Or.inr ⟨h', ?_⟩
          have := p4 u hun h'.symm
          rw [h.nodes] at this
          have hv' : v ∈ names ∧ v ∉ E := by simpa [h.nodes] using p2
          exact idxOf_filter_le _ (by simpa using hv'.2) (by simpa using huE) this hu
      | cons a o1 =>
        simp only [List.cons_append, List.cons.injEq] at he
        obtain ⟨rfl, he⟩ := he
        have := i3 o1 w o2 he
        simpa using this

/-- `to_undirected` -/
theorem inner_toUndirected (u : Name) (cs : List Name) (g : UGraph) (hg : g.Good) (hu : u ∈ g.nodes)
    (hcs : ∀ c ∈ cs, c ∈ g.nodes) :
    let g' := cs.foldl (fun g c => g.addEdge u c) g
    g'.Good ∧ g'.nodes = g.nodes ∧
      ∀ x y, y ∈ g'.nbrs x ↔ y ∈ g.nbrs x ∨ (x = u ∧ y ∈ cs) ∨ (y = u ∧ x ∈ cs) := by
  induction cs generalizing g with
  | nil => simp [hg]
  | cons c cs ih =>
    rw [List.foldl_cons]
    have hn := nodes_addEdge hu (hcs c (by simp))
    obtain ⟨i1, i2, i3⟩ := ih (g.addEdge u c) (hg.addEdge hu (hcs c (by simp)))
      (by rw [hn]; exact hu) (fun d hd => by rw [hn]; exact hcs d (by simp [hd]))
    refine ⟨i1, i2.trans hn, fun x y => ?_⟩
    rw [i3, mem_nbrs_addEdge]
    simp only [List.mem_cons]
    tauto

theorem outer_toUndirected (ns : List NodeV) (g : UGraph) (hg : g.Good)
    (hns : ∀ n ∈ ns, n.name ∈ g.nodes ∧ ∀ c ∈ n.children, c ∈ g.nodes) :
    let g' := ns.foldl (fun g n => n.children.foldl (fun g c => g.addEdge n.name c) g) g
    g'.Good ∧ g'.nodes = g.nodes ∧
      ∀ x y, y ∈ g'.nbrs x ↔ y ∈ g.nbrs x ∨
        ∃ n ∈ ns, (x = n.name ∧ y ∈ n.children) ∨ (y = n.name ∧ x ∈ n.children) := by
  induction ns generalizing g with
  | nil => simp [hg]
  | cons n ns ih =>
    rw [List.foldl_cons]
    obtain ⟨a1, a2, a3⟩ := inner_toUndirected n.name n.children g hg (hns n (by simp)).1
      (hns n (by simp)).2
    obtain ⟨i1, i2, i3⟩ := ih _ a1 (fun m hm => by rw [a2]; exact hns m (by simp [hm]))
    refine ⟨i1, i2.trans a2, fun x y => ?_⟩
    rw [i3, a3]
    simp only [List.mem_cons, exists_eq_or_imp]
    rw [or_assoc]

theorem toUndirected_spec {bn : BN} (hc : bn.Consistent) (hl : bn.Linked) :
    Inv bn.names bn.Skel [] bn.toUndirected := by
  set g0 : UGraph := bn.names.map fun v => (v, []) with hg0
  have hnodes0 : UGraph.nodes g0 = bn.names := by
    simp [UGraph.nodes, Dict.keys, hg0, Function.comp_def]
  have hnbrs0 : ∀ x, UGraph.nbrs g0 x = [] := by
    intro x
    unfold UGraph.nbrs
    rcases h : Dict.get? g0 x with _ | l
    · rfl
    · have := Dict.get?_mem h
      simp only [hg0, List.mem_map, Prod.mk.injEq] at this
      obtain ⟨_, _, _, h'⟩ := this
      simp [← h']
  have hgood0 : UGraph.Good g0 := ⟨by rw [hnodes0]; exact hc.nodup, by simp [hnbrs0],
    by simp [hnbrs0], by simp [hnbrs0]⟩
  have hch : ∀ n ∈ bn, ∀ c ∈ n.children, c ∈ bn.names := by
    intro n hn c hcm
    obtain ⟨m, hm, rfl, _⟩ := (hl.iff n hn c).1 hcm
    exact List.mem_map_of_mem hm
  obtain ⟨h1, h2, h3⟩ := outer_toUndirected bn g0 hgood0 (fun n hn => by
    rw [hnodes0]; exact ⟨List.mem_map_of_mem hn, hch n hn⟩)
  refine ⟨h1, ?_, fun x y => ?_⟩
  · unfold BN.toUndirected
    rw [h2, hnodes0]; simp
  · unfold BN.toUndirected
    rw [h3, h2, hnodes0, via_nil, hnbrs0]
    simp only [List.not_mem_nil, false_or, BN.Skel, BN.IsParent]
    constructor
    · rintro ⟨n, hn, ⟨rfl, hy⟩ | ⟨rfl, hx⟩⟩
      · obtain ⟨m, hm, rfl, hp⟩ := (hl.iff n hn y).1 hy
        refine ⟨List.mem_map_of_mem hn, List.mem_map_of_mem hm, ?_, Or.inl ⟨m, hm, rfl, hp⟩⟩
        intro e; exact hc.self m hm (e ▸ hp)
      · obtain ⟨m, hm, rfl, hp⟩ := (hl.iff n hn x).1 hx
        refine ⟨List.mem_map_of_mem hm, List.mem_map_of_mem hn, ?_, Or.inr ⟨m, hm, rfl, hp⟩⟩
        intro e; exact hc.self m hm (e ▸ hp)
    · rintro ⟨hx, hy, hne, ⟨m, hm, rfl, hp⟩ | ⟨m, hm, rfl, hp⟩⟩
      · obtain ⟨n, hn, rfl⟩ := BN.exists_of_mem_names hx
        exact ⟨n, hn, Or.inl ⟨rfl, (hl.iff n hn _).2 ⟨m, hm, rfl, hp⟩⟩⟩
      · obtain ⟨n, hn, rfl⟩ := BN.exists_of_mem_names hy
        exact ⟨n, hn, Or.inr ⟨rfl, (hl.iff n hn _).2 ⟨m, hm, rfl, hp⟩⟩⟩

theorem minDegreeOrder_spec {bn : BN} (hc : bn.Consistent) (hl : bn.Linked) :
    ∃ o, minDegreeOrder bn = .ok o ∧ o.Perm bn.names ∧
      ∀ o1 v o2, o = o1 ++ v :: o2 → MinDegree bn.names bn.Skel o1 v := by
  have hI := toUndirected_spec hc hl
  have hn : bn.toUndirected.nodes = bn.names := by rw [hI.nodes]; simp
  obtain ⟨o, h1, h2, h3⟩ := elimLoop_spec hc.nodup (adj := bn.Skel) (fun a b h => Or.symm h) bn.names.length []
    bn.toUndirected hI (by rw [hn])
  exact ⟨o, h1, hn ▸ h2, fun o1 v o2 h => (h3 o1 v o2 h).congr (by simp)⟩

end Orderer
end Primo
