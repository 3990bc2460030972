import Verif.Lemmas.Blind

namespace Primo
open JoinTree Factor Finset

theorem mem_swaps {L : List (List Name)} {c d : List Name} (hs : [d, c].Sublist L)
    (hsub : ∀ x ∈ c, x ∈ d) : ∃ p ∈ swaps L, p.1 = c := by
  induction L using List.reverseRecOn with
  | nil => simp at hs
  | append_singleton l a ih =>
    rw [swaps_concat]
    obtain ⟨l1, l2, h1, h2, h3⟩ := List.sublist_append_iff.1 hs
    by_cases hc : l2 = []
    · subst hc
      rw [List.append_nil] at h1
      obtain ⟨p, hp, e⟩ := ih (h1 ▸ h2)
      exact ⟨p, by simp [hp], e⟩
    · have : l2 = [a] := by
        rcases List.sublist_singleton.1 h3 with h | h
        · exact absurd h hc
        · exact h
      subst this
      have h4 : [d] ++ [c] = l1 ++ [a] := h1
      obtain ⟨rfl, h5⟩ := List.append_inj' h4 rfl
      injection h5 with h5
      subst h5
      cases hf : l.reverse.find? fun d => sub c d with
      | none =>
        have := List.find?_eq_none.1 hf d (by simpa using h2.subset (by simp : d ∈ [d]))
        exact absurd (JTree.sub_iff.2 hsub) this
      | some e => exact ⟨(c, e), by simp, rfl⟩

theorem swaps_antichain {L L' : List (List Name)} (hh : HeadOK L)
    (h : (swaps L).foldlM applySwap L = .ok L') :
    ∀ c ∈ L', ∀ d ∈ L', (∀ x ∈ c, x ∈ d) → c = d := by
  obtain ⟨h1, h2⟩ := swaps_facts_any L hh.nodup
  obtain ⟨K, e1, -, e3⟩ := swaps_fold_any _ L hh.nodup (fun p hp => by
    have hs := (h1 p hp).1
    refine ⟨hs.subset (by simp), hs.subset (by simp), fun e => ?_⟩
    have := hh.nodup.sublist hs
    simp [e] at this) h2
  rw [h] at e1
  cases e1
  intro c hc d hd hsub
  by_contra hne
  obtain ⟨hcL, hcs⟩ := (e3 c).1 hc
  obtain ⟨hdL, -⟩ := (e3 d).1 hd
  obtain ⟨A, B, rfl⟩ := List.append_of_mem hcL
  rcases List.mem_append.1 hdL with hm | hm
  · obtain ⟨p, hp, e⟩ := mem_swaps (c := c) (d := d)
      ((List.singleton_sublist.2 hm).append (List.singleton_sublist.2 (by simp : c ∈ c :: B))) hsub
    exact hcs p hp e
  · rcases List.mem_cons.1 hm with rfl | hm
    · exact hne rfl
    · have hp := hh.after.sublist (List.sublist_append_right A (c :: B))
      exact (List.pairwise_cons.1 hp).1 d hm (hsub _ (hd_mem (hh.ne c hcL)))

end Primo
