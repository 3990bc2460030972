import Verif.Lemmas.Unroll

/-! # Lemmas: the unrolled network is a network -/

namespace Primo
open Finset

theorem Dict.get?_map_key {α : Type} {f : Name → Name} (hf : Function.Injective f) (d : Dict α) (v : Name) :
    Dict.get? (d.map fun p => (f p.1, p.2)) (f v) = d.get? v := by
  induction d with
  | nil => rfl
  | cons p d ih =>
    obtain ⟨w, x⟩ := p
    rw [List.map_cons, Dict.get?, Dict.get?, ih]
    by_cases hv : w = v
    · simp [hv]
    · simp [hv, hf.ne hv]

namespace DBN
variable {d : DBN} {tag : Nat → Name → Name}

theorem nodup_unrolled (ht : Tagging tag) (h0 : d.b0.names.Nodup) (h2 : d.twoTbn.names.Nodup) (k : Nat) :
    (d.unrolled tag k).names.Nodup := by
  induction k with
  | zero => rw [names_unrolled_zero]; exact h0.map (ht.injective 0)
  | succ k ih =>
    rw [names_unrolled_succ, List.nodup_append]
    refine ⟨ih, h2.map (ht.injective _), fun a ha b hb e => ?_⟩
    obtain ⟨v, -, rfl⟩ := List.mem_map.1 hb
    have := ((tag_mem_unrolled ht).1 (e ▸ ha)).1
    omega

/-- where a node of the unrolled network comes from -/
theorem mem_unrolled_node {k : Nat} {m : NodeV} (hm : m ∈ d.unrolled tag k) :
    (∃ j ≤ k, ∃ n ∈ d.slice j, m = n.tagged (tag j)) ∨
    ∃ j < k, ∃ n ∈ d.twoTbn, ∃ p, d.sourceOf n.name = some p ∧ m = d.linked tag j n := by
  induction k with
  | zero =>
    obtain ⟨n, hn, rfl⟩ := List.mem_map.1 hm
    exact Or.inl ⟨0, le_rfl, n, hn, rfl⟩
  | succ k ih =>
    rw [unrolled, List.mem_append] at hm
    rcases hm with hm | hm
    · rcases ih hm with ⟨j, hj, n, hn, e⟩ | ⟨j, hj, n, hn, p, hp, e⟩
      · exact Or.inl ⟨j, by omega, n, hn, e⟩
      · exact Or.inr ⟨j, by omega, n, hn, p, hp, e⟩
    · obtain ⟨n, hn, rfl⟩ := List.mem_map.1 hm
      cases hs : d.sourceOf n.name with
      | none =>
        refine Or.inl ⟨k + 1, le_rfl, n, by rw [slice_succ]; exact hn, ?_⟩
        unfold linked; rw [hs]
      | some p => exact Or.inr ⟨k, by omega, n, hn, p, hs, rfl⟩

theorem mem_of_sourceOf {v p : Name} (h : d.sourceOf v = some p) : (v, p) ∈ d.transitions := by
  unfold sourceOf at h
  obtain ⟨tr, h1, rfl⟩ := Option.map_eq_some_iff.1 h
  have h2 := List.find?_some h1
  have h3 := List.mem_of_find?_eq_some h1
  have : tr.1 = v := by simpa using h2
  subst this
  exact h3

theorem consistent_unrolled (h : d.Ready) (ht : Tagging tag) (k : Nat) :
    (d.unrolled tag k).Consistent := by
  have hcs : ∀ j, (d.slice j).Consistent := fun j => by
    unfold slice; split
    · exact h.b0.consistent
    · exact h.two.consistent
  have hlen : ∀ j, ∀ n ∈ d.twoTbn, ∀ p, d.sourceOf n.name = some p →
      p ∈ (d.slice j).names ∧ n.values.length = (d.slice j).card p := by
    intro j n hn p hp
    have htr := mem_of_sourceOf hp
    obtain ⟨m, m1, m2, -, -, m5, m6⟩ := h.node _ htr
    have : m = n := BN.eq_of_name h.two.consistent.nodup m1 hn m2
    subst this
    unfold slice; split
    · exact ⟨(h.source _ htr).1, m5⟩
    · exact ⟨(h.source _ htr).2, m6⟩
  refine ⟨nodup_unrolled ht h.b0.consistent.nodup h.two.consistent.nodup k, ?_, ?_, ?_, ?_, ?_, ?_⟩ <;>
    intro m hm <;>
    rcases mem_unrolled_node hm with ⟨j, hj, n, hn, rfl⟩ | ⟨j, hj, n, hn, p, hp, rfl⟩
  · exact (hcs j).kind n hn
  · unfold linked; rw [hp]; simp
  · exact ((hcs j).parents_nodup n hn).map (ht.injective j)
  · unfold linked; rw [hp]; simp
  · intro hc
    obtain ⟨q, hq, e⟩ := List.mem_map.1 hc
    exact (hcs j).self n hn (ht.injective j e ▸ hq)
  · unfold linked; rw [hp]
    simp only [List.mem_singleton]
    intro e
    have := (ht _ _ _ _ e).1
    omega
  · intro x hx
    obtain ⟨q, hq, rfl⟩ := List.mem_map.1 hx
    exact (tag_mem_unrolled ht).2 ⟨hj, (hcs j).parents_mem n hn q hq⟩
  · unfold linked; rw [hp]
    simp only [List.mem_singleton, forall_eq]
    exact (tag_mem_unrolled ht).2 ⟨by omega, (hlen j n hn p hp).1⟩
  · intro x hx
    obtain ⟨q, hq, rfl⟩ := List.mem_map.1 hx
    rw [lab_unrolled ht hj, ← (hcs j).parents_val n hn q hq]
    exact Dict.get?_map_key (ht.injective j) n.parents q
  · unfold linked; rw [hp]
    simp only [List.mem_singleton, forall_eq]
    rw [lab_unrolled ht (by omega)]
    simp [Dict.get?]
  · unfold NodeV.tagged
    simp only [List.map_map]
    rw [(hcs j).shape n hn]
    congr 1
    exact List.map_congr_left fun q _ => (card_unrolled ht hj q).symm
  · unfold linked; rw [hp]
    simp only [List.map_cons, List.map_nil]
    rw [card_unrolled ht (by omega), ← (hlen j n hn p hp).2]
    rfl

theorem nonneg_unrolled (h0 : d.b0.NonNeg) (h2 : d.twoTbn.NonNeg) (k : Nat) :
    (d.unrolled tag k).NonNeg := by
  intro m hm x hx
  rcases mem_unrolled_node hm with ⟨j, hj, n, hn, rfl⟩ | ⟨j, hj, n, hn, p, hp, rfl⟩
  · unfold slice at hn
    split at hn
    · exact h0 n hn x hx
    · exact h2 n hn x hx
  · unfold linked copyingTable at hx
    rw [hp] at hx
    obtain ⟨idx, -, rfl⟩ := List.mem_map.1 hx
    split <;> norm_num

theorem stochastic_unrolled (h : d.Ready) (ht : Tagging tag) (h0 : d.b0.Stochastic)
    (h2 : d.twoTbn.Stochastic) (k : Nat) : (d.unrolled tag k).Stochastic := by
  intro m hm σ hσ
  rcases mem_unrolled_node hm with ⟨j, hj, n, hn, rfl⟩ | ⟨j, hj, n, hn, p, hp, rfl⟩
  · have hs : (d.slice j).Stochastic := by
      unfold slice; split
      · exact h0
      · exact h2
    rw [← hs n hn (σ ∘ tag j) fun q hq => ?_]
    · unfold NodeV.tagged
      simp only [List.map_map]
    · rw [← card_unrolled ht hj]
      exact hσ _ (List.mem_map_of_mem hq)
  · have htr := mem_of_sourceOf hp
    obtain ⟨m, m1, m2, -, -, m5, m6⟩ := h.node _ htr
    have : m = n := BN.eq_of_name h.two.consistent.nodup m1 hn m2
    subst this
    have hlen : m.values.length = (d.slice j).card p := by
      unfold slice; split
      · exact m5
      · exact m6
    have hlt : σ (tag j p) < m.values.length := by
      rw [hlen, ← card_unrolled ht (show j ≤ k by omega)]
      refine hσ _ ?_
      unfold linked; rw [hp]; simp
    unfold linked
    rw [hp]
    simp only [List.map_cons, List.map_nil]
    rw [Finset.sum_congr rfl fun i hi => copy_get (Finset.mem_range.1 hi) hlt]
    simp [hlt]

theorem edge_unrolled (ht : Tagging tag) {k : Nat} {x y : Name} (hxy : (d.unrolled tag k).IsParent x y) :
    ∃ i u j v, x = tag i u ∧ y = tag j v ∧ i ≤ j ∧ (i = j → (d.slice j).IsParent u v) := by
  obtain ⟨m, hm, rfl, hx⟩ := hxy
  rcases mem_unrolled_node hm with ⟨j, hj, n, hn, rfl⟩ | ⟨j, hj, n, hn, p, hp, rfl⟩
  · obtain ⟨q, hq, rfl⟩ := List.mem_map.1 hx
    exact ⟨j, q, j, n.name, rfl, rfl, le_rfl, fun _ => ⟨n, hn, rfl, hq⟩⟩
  · have : x = tag j p := by
      unfold linked at hx; rw [hp] at hx; simpa using hx
    exact ⟨j, p, j + 1, n.name, this, linked_name j n, by omega, fun e => by omega⟩

theorem acyclic_unrolled (ht : Tagging tag) (h0 : d.b0.Acyclic) (h2 : d.twoTbn.Acyclic) (k : Nat) :
    (d.unrolled tag k).Acyclic := by
  have key : ∀ x y, Relation.TransGen (d.unrolled tag k).IsParent x y →
      ∃ i u j v, x = tag i u ∧ y = tag j v ∧ i ≤ j ∧
        (i = j → Relation.TransGen (d.slice j).IsParent u v) := by
    intro x y hxy
    induction hxy with
    | single h =>
      obtain ⟨i, u, j, v, e1, e2, h1, h3⟩ := edge_unrolled ht h
      exact ⟨i, u, j, v, e1, e2, h1, fun e => .single (h3 e)⟩
    | tail _ h ih =>
      obtain ⟨i, u, j, v, e1, e2, h1, h3⟩ := ih
      obtain ⟨i', u', j', v', e1', e2', h1', h3'⟩ := edge_unrolled ht h
      obtain ⟨rfl, rfl⟩ := ht _ _ _ _ (e2.symm.trans e1')
      refine ⟨i, u, j', v', e1, e2', by omega, fun e => ?_⟩
      have hj : j = j' := by omega
      subst hj
      exact (h3 e).tail (h3' rfl)
  intro x hx
  obtain ⟨i, u, j, v, e1, e2, -, h3⟩ := key x x hx
  obtain ⟨rfl, rfl⟩ := ht _ _ _ _ (e1.symm.trans e2)
  have := h3 rfl
  unfold slice at this
  split at this
  · exact h0 u this
  · exact h2 u this

end DBN

/-- all evidence together is legal in the unrolled network -/
theorem legal_taggedEvidence {d : DBN} {tag : Nat → Name → Name} (ht : Tagging tag)
    {es : List (Dict Evidence)} {k : Nat} (hk : es.length ≤ k + 1)
    (h : ∀ j e, es[j]? = some e → LegalEvidence (d.slice j) e) :
    LegalEvidence (d.unrolled tag k) (taggedEvidence tag es) := by
  have hj : ∀ j e, es[j]? = some e → j ≤ k := fun j e he => by
    by_contra hc
    rw [List.getElem?_eq_none (by omega)] at he
    simp at he
  refine ⟨?_, fun q hq => ?_, fun v x hq => ?_, fun v l hq => ?_⟩
  · clear hj hk
    induction es using List.reverseRecOn with
    | nil => exact List.nodup_nil
    | append_singleton es e ih =>
      rw [taggedEvidence_append]
      unfold Dict.keys
      rw [List.map_append, List.nodup_append]
      refine ⟨ih fun j e' he => h j e' ?_, ?_, fun a ha b hb hab => ?_⟩
      · rw [List.getElem?_append_left]
        · exact he
        · by_contra hc
          rw [List.getElem?_eq_none (by omega)] at he
          simp at he
      · rw [List.map_map]
        have := (h es.length e (by simp)).nodup
        have h2 := this.map (ht.injective es.length)
        unfold Dict.keys at h2
        rw [List.map_map] at h2
        exact h2
      · obtain ⟨q, hq, rfl⟩ := List.mem_map.1 ha
        obtain ⟨j, e', he, p, -, rfl⟩ := mem_taggedEvidence.1 hq
        obtain ⟨q', hq', rfl⟩ := List.mem_map.1 hb
        obtain ⟨p', -, rfl⟩ := List.mem_map.1 hq'
        have := (ht _ _ _ _ hab).1
        have hlt : j < es.length := by
          by_contra hc
          rw [List.getElem?_eq_none (by omega)] at he
          simp at he
        omega
  · obtain ⟨j, e, he, p, hp, rfl⟩ := mem_taggedEvidence.1 hq
    exact (DBN.tag_mem_unrolled ht).2 ⟨hj j e he, (h j e he).mem p hp⟩
  · obtain ⟨j, e, he, p, hp, e1⟩ := mem_taggedEvidence.1 hq
    obtain ⟨p1, p2⟩ := p
    injection e1 with e1 e2
    subst e1; subst e2
    rw [DBN.lab_unrolled ht (hj j e he)]
    exact (h j e he).hard _ _ hp
  · obtain ⟨j, e, he, p, hp, e1⟩ := mem_taggedEvidence.1 hq
    obtain ⟨p1, p2⟩ := p
    injection e1 with e1 e2
    subst e1; subst e2
    rw [DBN.card_unrolled ht (hj j e he)]
    exact (h j e he).soft _ _ hp

end Primo
