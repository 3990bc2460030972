import Verif.Lemmas.Separation
import Verif.Lemmas.Unroll

/-!
# Transition sources that the graph separates
-/

namespace Primo

theorem BN.isParent_iff_bare {bn bn' : BN} (h : bn'.bare = bn.bare) (p v : Name) :
    bn'.IsParent p v ↔ bn.IsParent p v := by
  constructor
  · rintro ⟨n, hn, e, hp⟩
    obtain ⟨m, hm, e1, -, -, e4, -⟩ := BN.mem_bare h hn
    exact ⟨m, hm, e1.trans e, by rw [e4]; exact hp⟩
  · rintro ⟨n, hn, e, hp⟩
    obtain ⟨m, hm, e1, -, -, e4, -⟩ := BN.mem_bare h.symm hn
    exact ⟨m, hm, e1.trans e, by rw [e4]; exact hp⟩

theorem BN.Acyclic.of_bare {bn bn' : BN} (h : bn'.bare = bn.bare) (ha : bn.Acyclic) : bn'.Acyclic := by
  have e : bn'.IsParent = bn.IsParent := by funext p v; exact propext (BN.isParent_iff_bare h p v)
  unfold BN.Acyclic at ha ⊢
  rwa [e]

/-- the priors carried over are normalised unless the evidence was impossible -/
theorem Slices.stochastic {d : DBN} (h : d.Ready) (hne : d.transitions ≠ [])
    (h2 : d.twoTbn.Stochastic) {past : List (Dict Evidence)} {net two : BN}
    (hs : Slices d past net two)
    (hev : ∀ j e, past[j]? = some e → LegalEvidence (d.slice j) e ∧ NonNegEvidence e) :
    d.Good two ∧ (∀ n ∈ two, n.name ∉ d.transitions.map Prod.fst → n ∈ d.twoTbn) ∧
    (two.Stochastic ∨ ∀ ρ, Legal two.card two.names ρ → joint two ρ = 0) := by
  induction hs with
  | start => exact ⟨.start h, fun n hn _ => hn, .inl h2⟩
  | @next es net two two' e0 hs hf ih =>
    obtain ⟨hg, hk, hst⟩ := ih fun j e he => hev j e (by
      rw [List.getElem?_append_left]
      · exact he
      · by_contra hc
        rw [List.getElem?_eq_none (by omega)] at he
        simp at he)
    obtain ⟨hset, hnn, -, hbare, -⟩ := hg.net h hs
    obtain ⟨hl0, hn0⟩ := hev es.length e0 (by simp)
    have hl0' : LegalEvidence net e0 := hl0.of_bare hbare
    have hcard : net.card = (d.slice es.length).card := BN.card_of_bare hbare
    have hgood : d.Good two' := hg.fed h hnn (fun tr _ => by
      rw [hcard]; unfold DBN.slice; split
      · exact Or.inl rfl
      · exact Or.inr rfl) hn0 hf
    have hk' : ∀ n ∈ two', n.name ∉ d.transitions.map Prod.fst → n ∈ d.twoTbn :=
      fun n hn hnt => hk n (hf.kept n hn hnt) hnt
    have hsrc : ∀ tr ∈ d.transitions, tr.2 ∈ net.names := by
      intro tr htr
      rw [BN.names_of_bare hbare]
      unfold DBN.slice; split
      · exact (h.source tr htr).1
      · exact (h.source tr htr).2
    have hnode : ∀ tr ∈ d.transitions, ∀ n ∈ two', n.name = tr.1 → n.parentOrder = [] ∧
        n.values.length = net.card tr.2 := by
      intro tr htr n hn e
      obtain ⟨m, m1, m2, -, m4, m5, m6⟩ := h.node tr htr
      obtain ⟨m', m1', f1, -, f3, f4, -⟩ := BN.mem_bare hgood.bare hn
      have : m' = m := BN.eq_of_name h.two.consistent.nodup m1' m1 (by rw [f1, e, m2])
      subst this
      refine ⟨by rw [← f4, m4], ?_⟩
      rw [← f3, hcard]
      unfold DBN.slice; split
      · exact m5
      · exact m6
    refine ⟨hgood, hk', ?_⟩
    have hZc : ∀ ρ, totalWeight net e0 ρ = totalWeight net e0 fun _ => 0 :=
      fun ρ => totalWeight_const hset.consistent hl0' _ _
    have hZ0 : 0 ≤ totalWeight net e0 fun _ => 0 := sumOver_nonneg fun τ _ => weight_nonneg hnn hn0 τ
    rcases hZ0.lt_or_eq with hp | hp
    · left
      intro n hn σ hσ
      by_cases ht : n.name ∈ d.transitions.map Prod.fst
      · obtain ⟨tr, htr, e⟩ := List.mem_map.1 ht
        obtain ⟨e1, e2⟩ := hnode tr htr n hn e.symm
        rw [e1, e2, List.map_nil]
        have := posterior_sum hset.consistent hl0' (Q := [tr.2]) (by simpa using hsrc tr htr)
          (σ := fun _ => 0) hp
        rw [← this, List.toFinset_cons, List.toFinset_nil, insert_empty_eq, sumOver_singleton]
        refine Finset.sum_congr rfl fun i hi => ?_
        have hi' : i < net.card tr.2 := Finset.mem_range.1 hi
        have := (hf.fed tr htr n hn e.symm).2 (Function.update (fun _ => 0) tr.2 i) (by simpa using hi')
        simpa using this
      · have hm := hk' n hn ht
        exact h2 n hm σ (by rwa [BN.card_of_bare hgood.bare] at hσ)
    · right
      intro ρ hρ
      obtain ⟨tr, htr⟩ := List.exists_mem_of_ne_nil _ hne
      obtain ⟨m, m1, m2, -⟩ := h.node tr htr
      obtain ⟨n, hn, e1⟩ := BN.exists_of_mem_names (bn := two') (v := tr.1) (by
        rw [BN.names_of_bare hgood.bare]; exact List.mem_map.2 ⟨m, m1, m2⟩)
      obtain ⟨f1, f2⟩ := hnode tr htr n hn e1
      have hlt : ρ tr.1 < net.card tr.2 := by
        rw [← f2]
        have := hρ n.name (List.mem_map_of_mem hn)
        rwa [BN.card, BN.lab_eq hgood.setup.consistent.nodup hn, e1] at this
      have h0 : n.entry ρ = 0 := by
        rw [NodeV.entry, f1, List.map_nil, e1]
        have := (hf.fed tr htr n hn e1).2 (fun _ => ρ tr.1) hlt
        rw [this]
        exact posterior_eq_zero hnn hn0 (by simpa using hsrc tr htr)
          (by simpa [Legal] using hlt) (by rw [hZc, ← hp])
      exact List.prod_eq_zero (List.mem_map.2 ⟨n, hn, h0⟩)

/-- If the graph separates the transition sources in every slice left, their posteriors split. -/
theorem DBN.Splits.of_scattered {d : DBN} (h : d.Ready) (hne : d.transitions ≠ [])
    (a0 : d.b0.Acyclic) (a2 : d.twoTbn.Acyclic) (s0 : d.b0.Stochastic) (s2 : d.twoTbn.Stochastic)
    {es : List (Dict Evidence)}
    (hev : ∀ (j : Nat) e, es[j]? = some e → LegalEvidence (d.slice j) e ∧ NonNegEvidence e)
    (hsc : ∀ (j : Nat) e, es[j]? = some e → (d.slice j).Scattered e (d.transitions.map Prod.snd)) :
    d.Splits es := by
  intro past e rest net two hes hs σ hσ
  have hpast : ∀ (j : Nat) e', past[j]? = some e' → es[j]? = some e' := by
    intro j e' he
    rw [hes, List.getElem?_append_left]
    · exact he
    · by_contra hc
      rw [List.getElem?_eq_none (by omega)] at he
      simp at he
  have he : es[past.length]? = some e := by rw [hes]; simp
  obtain ⟨hg, -, hst⟩ := hs.stochastic h hne s2 fun j e' h' => hev j e' (hpast j e' h')
  obtain ⟨hset, hnn, -, hbare, hnet⟩ := hg.net h hs
  obtain ⟨hl, hn⟩ := hev _ _ he
  have hl' : LegalEvidence net e := hl.of_bare hbare
  have hsrc : ∀ v ∈ d.transitions.map Prod.snd, v ∈ net.names := by
    intro v hv
    obtain ⟨tr, htr, rfl⟩ := List.mem_map.1 hv
    rw [BN.names_of_bare hbare]
    unfold DBN.slice; split
    · exact (h.source tr htr).1
    · exact (h.source tr htr).2
  have hac : net.Acyclic := .of_bare hbare (by unfold DBN.slice; split <;> assumption)
  have hscn : net.Scattered e (d.transitions.map Prod.snd) :=
    (hsc _ _ he).congr fun p v => (BN.isParent_iff_bare hbare p v).symm
  have hor : net.Stochastic ∨ ∀ ρ, Legal net.card net.names ρ → joint net ρ = 0 := by
    split at hnet
    · rw [hnet]; exact .inl s0
    · rw [hnet]; exact hst
  rcases hor with hst | hz
  · rw [hscn.splits hset.consistent hac hst hnn hl' hn (by simpa using hne) hsrc hσ, List.map_map]
    rfl
  · have h0 : ∀ σ, totalWeight net e σ = 0 := by
      intro σ
      rw [totalWeight, sumOver_congr (G := fun _ => 0), sumOver_zero]
      intro τ hτ
      rw [weight_joint, hz τ fun v hv => hτ.2 v (by simpa using hv), zero_mul]
    rw [posterior_eq_zero hnn hn hsrc hσ (h0 σ)]
    obtain ⟨tr, htr⟩ := List.exists_mem_of_ne_nil _ hne
    refine (List.prod_eq_zero (List.mem_map.2 ⟨tr, htr, ?_⟩)).symm
    exact posterior_eq_zero hnn hn (by simpa using hsrc _ (List.mem_map_of_mem htr))
      (by simpa [Legal] using hσ _ (List.mem_map_of_mem htr)) (h0 σ)

end Primo
