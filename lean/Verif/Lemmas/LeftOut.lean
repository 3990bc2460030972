import Verif.Lemmas.Isolated
import Verif.Lemmas.Exchange
import Verif.Spec.LeftOut

/-! # Cliques that no message reaches -/

namespace Primo
open JoinTree Factor Finset

namespace JTree

variable {bn : BN} {t : JTree} {root : Name} {rvars : List Name} {kids : Forest} {others : List Name}

theorem find?_fst_map {α β : Type} (g : Name × α → β) (p : β → Bool) (l : List (Name × α)) (fst : β → Name)
    (hg : ∀ q, fst (g q) = q.1) :
    ((l.map g).find? p).map fst = (l.find? fun q => p (g q)).map Prod.fst := by
  induction l with
  | nil => rfl
  | cons a as ih =>
    rw [List.map_cons, List.find?_cons, List.find?_cons]
    cases p (g a)
    · exact ih
    · simp [hg]

theorem keeper_eq_skel (t : JTree) (scope : List Name) :
    t.keeper scope = ((skel t.nodes).find? fun q => decide (∀ x ∈ scope, x ∈ q.2)).map Prod.fst := by
  unfold keeper skel
  rw [find?_fst_map (fun q : Name × JNode => (q.1, q.2.vars))
    (fun q : Name × List Name => decide (∀ x ∈ scope, x ∈ q.2)) t.nodes Prod.fst fun _ => rfl]

theorem keeper_of_shape {t t' : JTree} (h : t'.shape = t.shape) (scope : List Name) :
    t'.keeper scope = t.keeper scope := by
  rw [keeper_eq_skel, keeper_eq_skel, skel_of_shape h]

theorem home_node (hc : bn.Consistent) {n : NodeV} (hn : n ∈ bn) :
    home (skel t.nodes) (nodeItem n) = t.keeper n.family := by
  rw [keeper_eq_skel]
  unfold home
  congr 2
  funext q
  rw [Bool.eq_iff_iff, (nodeItem_spec hc hn).2.2.2.2.2 q.2, decide_eq_true_iff]

theorem home_ev {ev : Dict Evidence} (he : LegalEvidence bn ev) {e : Name × Evidence} (hm : e ∈ ev) :
    home (skel t.nodes) (evItem bn e) = t.keeper [e.1] := by
  rw [keeper_eq_skel]
  unfold home
  congr 2
  funext q
  rw [Bool.eq_iff_iff, (evItem_spec he hm).2.2.2.2.2 q.2, decide_eq_true_iff]
  simp

theorem keeper_sub {k : Name} {vars scope : List Name} (hn : t.nodes.keys.Nodup) (hk : t.Clique k vars)
    (h : t.keeper scope = some k) : ∀ x ∈ scope, x ∈ vars := by
  unfold keeper at h
  rw [Option.map_eq_some_iff] at h
  obtain ⟨p, h1, rfl⟩ := h
  obtain ⟨f, hf⟩ := hk
  have e1 := Dict.get?_of_mem hn hf
  rw [Dict.get?_of_mem hn (List.mem_of_find?_eq_some h1)] at e1
  cases p
  simp only [Option.some.injEq] at e1
  subst e1
  simpa using List.find?_some h1

theorem told_vars {k : Name} {vars : List Name} {ev : Dict Evidence} (hn : t.nodes.keys.Nodup)
    (hk : t.Clique k vars) : ∀ x ∈ t.told bn ev k, x ∈ vars := by
  intro x hx
  unfold told at hx
  rw [List.mem_append, List.mem_flatMap, List.mem_map] at hx
  rcases hx with ⟨n, h1, h2⟩ | ⟨e, h1, rfl⟩
  · exact keeper_sub hn hk (by simpa using (List.mem_filter.1 h1).2) x h2
  · exact keeper_sub hn hk (scope := [e.1]) (by simpa using (List.mem_filter.1 h1).2) _ (by simp)

theorem Sits.left_out (hs : Sits bn t root rvars kids others) {k : Name} {vars : List Name}
    (hk : t.Clique k vars) (hr : ¬ t.Reached k) : k ∈ others := by
  obtain ⟨f, hf⟩ := hk
  have : k ∈ t.nodes.keys := List.mem_map_of_mem (f := Prod.fst) hf
  have := hs.keys.subset this
  simp only [List.cons_append, List.mem_cons, List.mem_append] at this
  rcases this with rfl | h | h
  · exact absurd ⟨_, hs.junction.first, .refl⟩ hr
  · exact absurd ⟨_, hs.junction.first, names_reached hs.junction.fits .refl k h⟩ hr
  · exact h

/-- what a query to such a clique answers -/
theorem left_out_spec (so : SetOrder) (hc : bn.Consistent) (hnn : bn.NonNeg)
    (hs : Sits bn t root rvars kids others) {ev : Dict Evidence} (he : LegalEvidence bn ev)
    (hen : NonNegEvidence ev) {limit : Nat} (hl : kids.depth < limit) :
    ∃ t', setEvidence so limit bn ev false t = (t', none) ∧
      ∀ k vars, t.Clique k vars → k ∈ others → ∀ vs, t.keeper vs = some k → ∀ so' limit',
        ((∃ x ∈ vars, x ∉ vs ∧ x ∉ t.told bn ev k) →
          t'.marginals so' limit' vs = (t', .error .valueError)) ∧
        ((∀ x ∈ vars, x ∈ vs ∨ x ∈ t.told bn ev k) →
          ∃ r, t'.marginals so' limit' vs = (t', .ok r) ∧ r.Over bn.lab ∧
            (∀ v, v ∈ r.variableOrder ↔ v ∈ vs ∧ v ∈ t.told bn ev k) ∧
            ∀ σ, Legal bn.card vs σ → r.eval σ =
              if 0 < sumOver bn.card (t.told bn ev k).toFinset (t.ownWeight bn ev k) σ then
                sumOver bn.card (vars.toFinset \ vs.toFinset) (t.ownWeight bn ev k) σ /
                  sumOver bn.card (t.told bn ev k).toFinset (t.ownWeight bn ev k) σ
              else sumOver bn.card (vars.toFinset \ vs.toFinset) (t.ownWeight bn ev k) σ) := by
  obtain ⟨t', a1, a2, a3, a4⟩ := setEvidence_others so hc hnn hs he hen hl
  refine ⟨t', a1, fun k vars hk hko vs hvk so' limit' => ?_⟩
  have hs' := hs.of_shape a2
  have hsk : skel t'.nodes = skel t.nodes := skel_of_shape a2
  obtain ⟨f, hf⟩ := (mem_skel hs'.nodup).1 (hsk ▸ clique_iff_skel.1 hk)
  obtain ⟨f1, f2, f3⟩ := a4 k hko _ hf
  dsimp only at f1 f2 f3
  have hvs := keeper_sub hs.nodup hk hvk
  have hts := told_vars (bn := bn) (ev := ev) hs.nodup hk
  -- the table of the clique
  have hscope : ∀ v, v ∈ f.variableOrder ↔ v ∈ t.told bn ev k := by
    intro v
    rw [f2]
    unfold told
    simp only [List.mem_append, List.mem_map, List.mem_flatMap, List.mem_filter, decide_eq_true_eq]
    constructor
    · rintro ⟨it, ⟨n, hn, rfl⟩ | ⟨e, hm, rfl⟩, h2, h3⟩
      · rw [home_node hc hn] at h2
        rw [(nodeItem_spec hc hn).2.2.1] at h3
        exact .inl ⟨n, ⟨hn, h2⟩, h3⟩
      · rw [home_ev he hm] at h2
        rw [(evItem_spec he hm).2.2.1, List.mem_singleton] at h3
        exact .inr ⟨e, ⟨hm, h2⟩, h3.symm⟩
    · rintro (⟨n, ⟨hn, h2⟩, h3⟩ | ⟨e, ⟨hm, h2⟩, rfl⟩)
      · exact ⟨_, .inl ⟨n, hn, rfl⟩, by rw [home_node hc hn]; exact h2,
          by rw [(nodeItem_spec hc hn).2.2.1]; exact h3⟩
      · exact ⟨_, .inr ⟨e, hm, rfl⟩, by rw [home_ev he hm]; exact h2,
          by rw [(evItem_spec he hm).2.2.1]; simp⟩
  have heval : ∀ σ, Legal bn.card f.variableOrder σ → f.eval σ = t.ownWeight bn ev k σ := by
    intro σ hσ
    rw [f3 σ hσ, List.filter_append, List.map_append, List.prod_append, List.filter_map, List.filter_map,
      List.map_map, List.map_map]
    unfold ownWeight
    congr 2
    · have e : (bn.filter ((fun it => decide (home (skel t.nodes) it = some k)) ∘ nodeItem)) =
          bn.filter fun n => decide (t.keeper n.family = some k) :=
        List.filter_congr fun n hn => by rw [Function.comp_apply, home_node hc hn]
      rw [e]
      exact List.map_congr_left fun n hn => (nodeItem_spec hc (List.mem_of_mem_filter hn)).2.2.2.1 σ
    · have e : (ev.filter ((fun it => decide (home (skel t.nodes) it = some k)) ∘ evItem bn)) =
          ev.filter fun e => decide (t.keeper [e.1] = some k) :=
        List.filter_congr fun e hm => by rw [Function.comp_apply, home_ev he hm]
      rw [e]
      refine List.map_congr_left fun e hm => (evItem_spec he (List.mem_of_mem_filter hm)).2.2.2.1 σ ?_
      refine hσ _ ((hscope _).2 ?_)
      unfold told
      exact List.mem_append_right _ (List.mem_map_of_mem hm)
  -- the query
  have hfind : ∃ p, t'.nodes.find? (fun p => sub vs p.2.vars) = some p ∧ p.2 = ⟨vars, f⟩ := by
    have e : t'.keeper vs = some k := by rw [keeper_of_shape a2]; exact hvk
    unfold keeper at e
    rw [Option.map_eq_some_iff] at e
    obtain ⟨p, h1, rfl⟩ := e
    refine ⟨p, ?_, ?_⟩
    · rw [← h1]
      congr 1
      funext q
      rw [Bool.eq_iff_iff, sub_iff, decide_eq_true_iff]
    · have := Dict.get?_of_mem hs'.nodup (k := p.1) (v := p.2) (List.mem_of_find?_eq_some h1)
      rw [hf] at this
      injection this with this
      exact this.symm
  obtain ⟨p, hp, hpe⟩ := hfind
  have hq : t'.marginals so' limit' vs = (t', f.marginalize (so'.diff vars vs) >>= fun r =>
      .ok r.normalize) := by
    unfold JTree.marginals
    rw [if_pos a3]
    dsimp only
    unfold JTree.query
    rw [hp]
    dsimp only
    rw [hpe]
    rfl
  rw [hq]
  constructor
  · rintro ⟨x, hx, hxv, hxt⟩
    rw [Factor.marginalize_not_mem f1.wf fun hh => hxt ((hscope x).1 (hh.2 x ((so'.mem _ _ _).2 ⟨hx, hxv⟩)))]
    rfl
  · intro hcov
    obtain ⟨s, s1, s2, s3, s4⟩ := marginalize_over f1 (so'.nodup vars vs) (fun v hv => by
      have := (so'.mem _ _ _).1 hv
      exact (hscope v).2 ((hcov v this.1).resolve_left this.2))
    have hso : ∀ v, v ∈ s.variableOrder ↔ v ∈ vs ∧ v ∈ t.told bn ev k := by
      intro v
      rw [s3]
      simp only [List.mem_filter, hscope, so'.mem, decide_eq_true_eq]
      constructor
      · rintro ⟨a, b⟩; exact ⟨by by_contra hv; exact b ⟨hts v a, hv⟩, a⟩
      · rintro ⟨hv, ht⟩; exact ⟨ht, fun hh => hh.2 hv⟩
    have e1 : (so'.diff vars vs).toFinset = vars.toFinset \ vs.toFinset := by
      ext x; simp [so'.mem]
    have hse : ∀ σ, Legal bn.card s.variableOrder σ →
        s.eval σ = sumOver bn.card (vars.toFinset \ vs.toFinset) (t.ownWeight bn ev k) σ := by
      intro σ hσ
      rw [s4 σ hσ, e1]
      refine sumOver_congr fun τ hτ => heval τ fun v hv => ?_
      by_cases h : v ∈ vars.toFinset \ vs.toFinset
      · exact hτ.2 v h
      · rw [hτ.1 v h]
        refine hσ v ((hso v).2 ⟨?_, (hscope v).1 hv⟩)
        by_contra hn
        exact h (by simp [hts v ((hscope v).1 hv), hn])
    refine ⟨s.normalize, by rw [s1]; rfl, s2.normalize, by simpa using hso, fun σ hσ => ?_⟩
    have hσ' : Legal bn.card s.variableOrder σ := fun v hv => hσ v ((hso v).1 hv).1
    have hZ : s.potentials.sumAll = sumOver bn.card (t.told bn ev k).toFinset (t.ownWeight bn ev k) σ := by
      rw [Factor.sumAll_eq_sumOver s2.wf σ]
      have hu : (t.told bn ev k).toFinset = s.variableOrder.toFinset ∪ (vars.toFinset \ vs.toFinset) := by
        ext x
        simp only [List.mem_toFinset, mem_union, mem_sdiff, hso]
        have a := hts x
        have b := hcov x
        tauto
      rw [hu, sumOver_union (disjoint_left.2 fun x h1 h2 => by
        simp only [List.mem_toFinset, mem_sdiff, hso] at h1 h2
        exact h2.2 h1.1)]
      exact sumOver_congr fun τ hτ => hse τ fun v hv => hτ.2 v (by simpa using hv)
    rw [Factor.eval_normalize s2.wf hσ', hZ, hse σ hσ']

/-- the table of such a clique does not depend on evidence about other variables -/
theorem own_congr {k : Name} {vars : List Name} (hn : t.nodes.keys.Nodup) (hk : t.Clique k vars)
    {ev ev' : Dict Evidence} (h : ev.filter (fun e => decide (e.1 ∈ vars)) =
      ev'.filter fun e => decide (e.1 ∈ vars)) :
    t.told bn ev k = t.told bn ev' k ∧ ∀ σ, t.ownWeight bn ev k σ = t.ownWeight bn ev' k σ := by
  have key : ∀ l : Dict Evidence, l.filter (fun e => decide (t.keeper [e.1] = some k)) =
      (l.filter fun e => decide (e.1 ∈ vars)).filter fun e => decide (t.keeper [e.1] = some k) := by
    intro l
    rw [List.filter_filter]
    refine List.filter_congr fun e _ => ?_
    by_cases he : t.keeper [e.1] = some k
    · simp [he, keeper_sub hn hk he e.1 (by simp)]
    · simp [he]
  have e : ev.filter (fun e => decide (t.keeper [e.1] = some k)) =
      ev'.filter fun e => decide (t.keeper [e.1] = some k) := by rw [key, key ev', h]
  unfold told ownWeight
  rw [e]
  exact ⟨rfl, fun _ => rfl⟩

end JTree
end Primo
