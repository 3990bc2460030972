import Verif.Lemmas.Unroll
import Verif.Lemmas.SoftFeedback

/-! # Lemmas: soft-evidence feedback and prior feedback -/

namespace Primo
open Finset

/-- without evidence a parentless node is distributed as its table says -/
theorem priorAt_root {bn : BN} (hc : bn.Consistent) (ha : bn.Acyclic) (hs : bn.Stochastic) {n : NodeV}
    (hn : n ∈ bn) (hp : n.parentOrder = []) {i : Nat} (hi : i < bn.card n.name) :
    priorAt bn n.name i = n.cpd.get [i] := by
  have hA := sumOver_joint_closed hc ha hs (A := {n.name})
    (by rw [singleton_subset_iff, List.mem_toFinset]; exact List.mem_map_of_mem hn)
    (by
      intro v hv p hpar
      rw [mem_singleton] at hv
      subst hv
      obtain ⟨m, hm, e, hpm⟩ := hpar
      rw [BN.eq_of_name hc.nodup hm hn e, hp] at hpm
      simp at hpm) (σ := fun _ => i) (by simpa using hi)
  unfold priorAt posterior
  simp only
  rw [totalWeight_nil hc ha hs, if_pos one_pos, div_one, weight_nil]
  have : [n.name].toFinset = {n.name} := by simp
  rw [this, hA, prod_singleton, entryOf_mem hc.nodup hn, NodeV.entry, hp]
  rfl

/-- the two-slice network with the posteriors of `net` as tables of the targets -/
def DBN.fedNet (d : DBN) (net : BN) (e : Dict Evidence) (two : BN) : BN :=
  two.map fun n => match d.sourceOf n.name with
    | some p => { n with cpd := .tabulate [net.card p] fun idx => posterior net e [p] fun _ => idx.headD 0 }
    | none => n

theorem DBN.fedNet_fed {d : DBN} (hnd : (d.transitions.map Prod.fst).Nodup) {net : BN}
    (hc : net.Consistent) {e : Dict Evidence} (he : LegalEvidence net e) (two : BN) :
    Fed d.transitions net e two (d.fedNet net e two) := by
  refine ⟨?_, fun tr htr n hn hname => ?_, fun n hn hname => ?_⟩
  · unfold fedNet BN.bare
    rw [List.map_map]
    refine List.map_congr_left fun n _ => ?_
    simp only [Function.comp_apply]
    split <;> rfl
  · obtain ⟨m, hm, rfl⟩ := List.mem_map.1 hn
    have hs := sourceOf_mem hnd htr
    have hmn : m.name = tr.1 := by
      rw [← hname]; split <;> rfl
    rw [← hmn] at hs
    simp only [hs]
    refine ⟨rfl, fun σ hσ => ?_⟩
    rw [NDArray.get_tabulate _ (.cons hσ .nil)]
    refine posterior_dependsOn hc he _ _ fun x hx => ?_
    rw [mem_singleton] at hx
    simp [hx]
  · obtain ⟨m, hm, rfl⟩ := List.mem_map.1 hn
    have hmn : m.name ∉ d.transitions.map Prod.fst := by
      intro h
      refine hname ?_
      split <;> exact h
    simp only [sourceOf_none hmn]
    exact hm

theorem DBN.Ready.soft {d : DBN} (h : d.Ready) : d.SoftReady :=
  ⟨h.b0, h.b0_nonneg, h.b0_connected, h.two, h.two_nonneg, h.two_connected, h.targets,
    fun tr htr => by
      obtain ⟨m, m1, m2, -, -, m5, m6⟩ := h.node tr htr
      have : d.twoTbn.card tr.1 = m.values.length := by
        rw [← m2, BN.card, BN.lab_eq h.two.consistent.nodup m1]
      exact ⟨List.mem_map.2 ⟨m, m1, m2⟩, by rw [this, m5], by rw [this, m6]⟩,
    h.source⟩

/-- the posterior depends on the weights of legal assignments only -/
theorem posterior_of_lik {bn bn' : BN} {e e' : Dict Evidence} (hn : bn.names = bn'.names)
    (hcd : bn.card = bn'.card)
    (hw : ∀ ρ, Legal bn.card bn.names ρ → weight bn e ρ = weight bn' e' ρ) {vs : List Name} {σ : Assign}
    (hσ : Legal bn.card vs σ) : posterior bn e vs σ = posterior bn' e' vs σ := by
  have h1 : sumOver bn.card (bn.names.toFinset \ vs.toFinset) (weight bn e) σ =
      sumOver bn'.card (bn'.names.toFinset \ vs.toFinset) (weight bn' e') σ := by
    rw [← hn, ← hcd]
    refine sumOver_congr fun τ hτ => hw τ (hτ.legal fun v hv hv' => hσ v ?_)
    simpa [hv] using hv'
  have h2 : totalWeight bn e σ = totalWeight bn' e' σ := by
    unfold totalWeight
    rw [← hn, ← hcd]
    exact sumOver_congr fun τ hτ => hw τ (hτ.legal fun v hv hv' => absurd (by simpa using hv) hv')
  unfold posterior
  simp only
  rw [h1, h2]

/-- evidence that soft-evidence feedback can enter, in all slices -/
structure DBN.SoftPast (d : DBN) (es : List (Dict Evidence)) : Prop where
  legal : ∀ pre e post, es = pre ++ e :: post → LegalEvidence (d.slice pre.length) e
  sup : ∀ pre e post, es = pre ++ e :: post →
    Supported (d.slice pre.length) (overridden (d.carried pre) e)

theorem DBN.SoftPast.init {d : DBN} {es : List (Dict Evidence)} {e : Dict Evidence}
    (h : d.SoftPast (es ++ [e])) : d.SoftPast es :=
  ⟨fun pre e' post he => h.legal pre e' (post ++ [e]) (by rw [he]; simp),
    fun pre e' post he => h.sup pre e' (post ++ [e]) (by rw [he]; simp)⟩

theorem DBN.Spares.init {d : DBN} {es : List (Dict Evidence)} {e : Dict Evidence}
    (h : d.Spares (es ++ [e])) : d.Spares es := by
  intro j e' hj he
  refine h j e' hj ?_
  rw [List.getElem?_append_left]
  · exact he
  · by_contra hc
    rw [List.getElem?_eq_none (by omega)] at he
    simp at he

theorem DBN.softenedAll_snoc (d : DBN) (es : List (Dict Evidence)) (e : Dict Evidence) :
    d.softenedAll (es ++ [e]) = d.softenedAll es ++ [softened (d.slice es.length) e] := by
  unfold softenedAll
  rw [List.mapIdx_append]
  simp

theorem DBN.softenedAll_length (d : DBN) (es : List (Dict Evidence)) :
    (d.softenedAll es).length = es.length := by
  simp [softenedAll]

/-- without evidence on the targets nothing is overridden -/
theorem DBN.Spares.overridden {d : DBN} {es : List (Dict Evidence)} {e : Dict Evidence}
    (h : d.Spares (es ++ [e])) : overridden (d.carried es) e =
      e ++ (d.carried es).map fun p => (p.1, .soft p.2) := by
  unfold Primo.overridden
  congr 1
  rw [List.filter_eq_self]
  intro p hp
  rw [d.carried_keys]
  by_cases hn : es = []
  · rw [if_pos hn]; simp
  · rw [if_neg hn, decide_eq_true_eq, List.mem_map]
    rintro ⟨tr, htr, e1⟩
    refine h es.length e (List.length_pos_iff.2 hn) (by simp) tr htr ?_
    rw [e1]
    exact List.mem_map_of_mem hp

/-- Parentless targets, tables of probabilities, no evidence on targets: carrying the posteriors over
as soft evidence or as priors is the same. -/
theorem soft_prior {d : DBN} (h : d.Ready) (ha : d.twoTbn.Acyclic) (hst : d.twoTbn.Stochastic)
    (es : List (Dict Evidence)) (e : Dict Evidence) (hes : d.SoftPast (es ++ [e]))
    (hsp : d.Spares (es ++ [e])) :
    ∃ net two, Slices d (d.softenedAll es) net two ∧ d.Good two ∧
      (∀ n ∈ two, n.name ∉ d.transitions.map Prod.fst → n ∈ d.twoTbn) ∧
      ∀ vs σ, Legal net.card vs σ →
        posterior (d.slice es.length) (softened (d.slice es.length) (overridden (d.carried es) e)) vs σ =
          posterior net (softened (d.slice es.length) e) vs σ := by
  induction es using List.reverseRecOn generalizing e with
  | nil =>
    refine ⟨d.b0, d.twoTbn, .start, .start h, fun n hn _ => hn, fun vs σ _ => ?_⟩
    have : overridden (d.carried []) e = e := by
      simp [overridden, DBN.carried, Dict.keys]
    simp only [List.length_nil]
    rw [this]
    rfl
  | append_singleton es e0 ih =>
    obtain ⟨net, two, hs, hg, hk, hpost⟩ := ih e0 hes.init hsp.init
    obtain ⟨hset, hnn, -, hbare, -⟩ := hg.net h hs
    rw [d.softenedAll_length] at hbare
    have hl0 : LegalEvidence (d.slice es.length) e0 := hes.legal es e0 [e] (by simp)
    have hs0 : Supported (d.slice es.length) (overridden (d.carried es) e0) := hes.sup es e0 [e] (by simp)
    have hsup0 : Supported (d.slice es.length) e0 := fun v l hm => hs0 v l (by
      rw [hsp.init.overridden]; exact List.mem_append_left _ hm)
    set e1 := softened (d.slice es.length) e0 with he1
    have hnnk : (d.slice es.length).NonNeg := (h.soft.net es.length).2.1
    have hl1 : LegalEvidence net e1 := hl0.softened.of_bare hbare
    have hn1 : NonNegEvidence e1 := NonNegEvidence.softened hnnk hsup0
    have hf := DBN.fedNet_fed h.targets hset.consistent hl1 two
    have hcard : net.card = (d.slice es.length).card := BN.card_of_bare hbare
    have hgood : d.Good (d.fedNet net e1 two) := hg.fed h hnn (fun tr _ => by
      rw [hcard]; unfold DBN.slice; split
      · exact Or.inl rfl
      · exact Or.inr rfl) hn1 hf
    have hk' : ∀ n ∈ d.fedNet net e1 two, n.name ∉ d.transitions.map Prod.fst → n ∈ d.twoTbn :=
      fun n hn hnt => hk n (hf.kept n hn hnt) hnt
    have hsl : d.slice (es ++ [e0]).length = d.twoTbn := by
      rw [List.length_append, List.length_singleton, DBN.slice_succ]
    refine ⟨d.fedNet net e1 two, d.fedNet net e1 two, ?_, hgood, hk', fun vs σ hσ => ?_⟩
    · rw [d.softenedAll_snoc]; exact .next hs hf
    rw [hsp.overridden]
    have hsup := hes.sup (es ++ [e0]) e [] (by simp)
    rw [hsp.overridden] at hsup
    rw [hsl] at hsup ⊢
    have hcar : d.carried (es ++ [e0]) = d.transitions.map fun tr =>
        (tr.1, (List.range (net.card tr.2)).map fun i => posterior net e1 [tr.2] fun _ => i) := by
      rw [d.carried_append, DBN.carry]
      refine List.map_congr_left fun tr _ => ?_
      rw [← hcard]
      congr 1
      refine List.map_congr_left fun i hi => hpost _ _ ?_
      simpa [Legal] using hi
    have hnm := BN.names_of_bare hgood.bare
    have hcd := BN.card_of_bare hgood.bare
    refine posterior_of_lik hnm.symm hcd.symm (fun ρ hρ => ?_) (by rw [← hcd]; exact hσ)
    have hsoft : softened d.twoTbn (e ++ (d.carried (es ++ [e0])).map fun p => (p.1, Evidence.soft p.2)) =
        softened d.twoTbn e ++ d.transitions.map fun tr => (tr.1, .soft (ratio d.twoTbn tr.1
          ((List.range (net.card tr.2)).map fun i => posterior net e1 [tr.2] fun _ => i))) := by
      rw [hcar]
      unfold softened
      rw [List.map_append, List.map_map, List.map_map]
      rfl
    rw [hsoft, weight_append, weight_joint, weight_joint, BN.lab_of_bare hgood.bare,
      DBN.prod_fed h rfl (fun n hn _ => hn) ρ, DBN.prod_fed h hgood.bare hk' ρ, List.map_map]
    have hpair : ((d.transitions.map fun tr => entryOf d.twoTbn tr.1 ρ).prod) *
        (d.transitions.map ((fun p : Name × Evidence => lik (d.twoTbn.lab p.1) p.2 (ρ p.1)) ∘ fun tr =>
          (tr.1, Evidence.soft (ratio d.twoTbn tr.1 ((List.range (net.card tr.2)).map fun i =>
            posterior net e1 [tr.2] fun _ => i))))).prod =
        (d.transitions.map fun tr => entryOf (d.fedNet net e1 two) tr.1 ρ).prod := by
      rw [← List.prod_map_mul]
      congr 1
      refine List.map_congr_left fun tr htr => ?_
      obtain ⟨m, m1, m2, -, m4, m5, m6⟩ := h.node tr htr
      have hnd2 := h.two.consistent.nodup
      have hmlen : d.twoTbn.card tr.1 = m.values.length := by
        rw [← m2, BN.card, BN.lab_eq hnd2 m1]
      have hlt : ρ tr.1 < d.twoTbn.card tr.1 := hρ tr.1 (List.mem_map.2 ⟨m, m1, m2⟩)
      have hlt' : ρ tr.1 < net.card tr.2 := by
        rw [hmlen] at hlt
        rw [hcard]; unfold DBN.slice; split
        · rw [← m5]; exact hlt
        · rw [← m6]; exact hlt
      obtain ⟨n, hn, e2⟩ := BN.exists_of_mem_names (bn := d.fedNet net e1 two) (v := tr.1) (by
        rw [hnm]; exact List.mem_map.2 ⟨m, m1, m2⟩)
      obtain ⟨m', m1', f1, -, -, f4, -⟩ := BN.mem_bare hgood.bare hn
      have : m' = m := BN.eq_of_name hnd2 m1' m1 (by rw [f1, e2, m2])
      subst this
      have hent : entryOf (d.fedNet net e1 two) tr.1 ρ = posterior net e1 [tr.2] fun _ => ρ tr.1 := by
        rw [← e2, entryOf_mem (by rw [hnm]; exact hnd2) hn, NodeV.entry, ← f4, m4, e2]
        exact (hf.fed tr htr n hn e2).2 (fun _ => ρ tr.1) hlt'
      have hent2 : entryOf d.twoTbn tr.1 ρ = priorAt d.twoTbn tr.1 (ρ tr.1) := by
        rw [← m2, priorAt_root h.two.consistent ha hst m1 m4 (by rw [m2]; exact hlt),
          entryOf_mem hnd2 m1, NodeV.entry, m4]
        rfl
      have hz := (hsup tr.1 _ (List.mem_append_right _ (List.mem_map.2 ⟨_, by
        rw [hcar]; exact List.mem_map.2 ⟨tr, htr, rfl⟩, rfl⟩))).2.2 (ρ tr.1) hlt
      have hget : ((List.range (net.card tr.2)).map fun i => posterior net e1 [tr.2] fun _ => i).getD
          (ρ tr.1) 0 = posterior net e1 [tr.2] fun _ => ρ tr.1 := by
        simp [List.getD_eq_getElem?_getD, hlt']
      rw [hget] at hz
      simp only [Function.comp_apply]
      rw [lik_softened hlt, hget, hent, hent2]
      by_cases h0 : priorAt d.twoTbn tr.1 (ρ tr.1) = 0
      · rw [if_pos h0, hz h0, mul_zero]
      · rw [if_neg h0, mul_div_cancel₀ _ h0]
    rw [← hpair]
    ring

end Primo
