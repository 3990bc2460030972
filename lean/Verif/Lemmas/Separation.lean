import Verif.Spec.Separation
import Verif.Spec.Moral
import Verif.Lemmas.Joint

/-! # Sums over the relevant part of a network; separation and factorisation -/

namespace Primo
open Finset

/-! ### the relevant part -/

/-- tables and likelihoods of the variables in `A` -/
def part (bn : BN) (ev : Dict Evidence) (A : Finset Name) (τ : Assign) : ℚ :=
  ∏ v ∈ A, entryOf bn v τ * likOf bn ev v τ

theorem likOf_dependsOn {bn : BN} {ev : Dict Evidence} (v : Name) : DependsOn {v} (likOf bn ev v) := by
  intro σ τ h
  simp only [likOf, h v (by simp)]

theorem finprod_dependsOn {A B : Finset Name} {f : Name → Assign → ℚ} (h : ∀ v ∈ A, DependsOn B (f v)) :
    DependsOn B (fun τ => ∏ v ∈ A, f v τ) :=
  fun σ τ hst => prod_congr rfl fun v hv => h v hv σ τ hst

theorem marginal_closed {bn : BN} (hc : bn.Consistent) (ha : bn.Acyclic) (hs : bn.Stochastic)
    {ev : Dict Evidence} (he : LegalEvidence bn ev) {A S : Finset Name} (hAn : A ⊆ bn.names.toFinset)
    (hA : ∀ v ∈ A, ∀ p, bn.IsParent p v → p ∈ A) (hev : ∀ v ∈ ev.keys, v ∈ A) (hS : S ⊆ A)
    {σ : Assign} (hσ : ∀ v ∈ S, σ v < bn.card v) :
    sumOver bn.card (bn.names.toFinset \ S) (weight bn ev) σ =
      sumOver bn.card (A \ S) (part bn ev A) σ := by
  have hU : bn.names.toFinset \ S = (A \ S) ∪ (bn.names.toFinset \ A) := by
    ext v
    simp only [mem_union, mem_sdiff]
    constructor
    · rintro ⟨h1, h2⟩
      by_cases h : v ∈ A
      · exact Or.inl ⟨h, h2⟩
      · exact Or.inr ⟨h1, h⟩
    · rintro (⟨h1, h2⟩ | ⟨h1, h2⟩)
      · exact ⟨hAn h1, h2⟩
      · exact ⟨h1, fun h => h2 (hS h)⟩
  have hd : Disjoint (A \ S) (bn.names.toFinset \ A) :=
    disjoint_left.2 fun v h1 h2 => (mem_sdiff.1 h2).2 (mem_sdiff.1 h1).1
  rw [hU, sumOver_union hd]
  refine sumOver_congr fun τ hτ => ?_
  have hw : weight bn ev = fun ρ => (∏ v ∈ A, likOf bn ev v ρ) * joint bn ρ := by
    funext ρ
    rw [weight_eq_prod hc.nodup he, List.prod_map_mul, prod_entryOf hc.nodup, joint, mul_comm,
      ← List.prod_toFinset _ hc.nodup]
    congr 1
    refine (prod_subset hAn fun v _ hv => ?_).symm
    have : ev.get? v = none := Dict.get?_eq_none.2 fun h => hv (hev v h)
    simp [likOf, this]
  rw [hw, sumOver_mul_left (A := A) (finprod_dependsOn fun v hv => (likOf_dependsOn v).mono (by simpa using hv))
    disjoint_sdiff, sumOver_joint_closed hc ha hs hAn hA, part, prod_mul_distrib, mul_comm]
  intro v hv
  by_cases h : v ∈ S
  · rw [hτ.1 v (by simp [h])]; exact hσ v h
  · exact hτ.2 v (by simp [h, hv])

open Classical in
/-- the relevant variables -/
noncomputable def BN.relevantSet (bn : BN) (vs : List Name) : Finset Name :=
  bn.names.toFinset.filter fun v => bn.Relevant vs v

theorem BN.mem_relevantSet {bn : BN} {vs : List Name} {v : Name} :
    v ∈ bn.relevantSet vs ↔ v ∈ bn.names ∧ bn.Relevant vs v := by
  simp [BN.relevantSet]

theorem BN.Relevant.parent {bn : BN} {vs : List Name} {p v : Name} (h : bn.Relevant vs v)
    (hp : bn.IsParent p v) : bn.Relevant vs p := by
  obtain ⟨w, hw, h⟩ := h
  exact ⟨w, hw, h.head hp⟩

theorem BN.Relevant.self {bn : BN} {vs : List Name} {v : Name} (h : v ∈ vs) : bn.Relevant vs v :=
  ⟨v, h, .refl⟩

theorem BN.Relevant.mono {bn : BN} {vs ws : List Name} {v : Name} (h : bn.Relevant vs v)
    (hvw : ∀ x ∈ vs, x ∈ ws) : bn.Relevant ws v := by
  obtain ⟨w, hw, h⟩ := h
  exact ⟨w, hvw w hw, h⟩

theorem marginal_relevant {bn : BN} (hc : bn.Consistent) (ha : bn.Acyclic) (hs : bn.Stochastic)
    {ev : Dict Evidence} (he : LegalEvidence bn ev) {vs : List Name} (hev : ∀ v ∈ ev.keys, v ∈ vs)
    {S : Finset Name} (hSn : S ⊆ bn.names.toFinset) (hS : ∀ v ∈ S, v ∈ vs)
    {σ : Assign} (hσ : ∀ v ∈ S, σ v < bn.card v) :
    sumOver bn.card (bn.names.toFinset \ S) (weight bn ev) σ =
      sumOver bn.card (bn.relevantSet vs \ S) (part bn ev (bn.relevantSet vs)) σ := by
  refine marginal_closed hc ha hs he (fun v hv => ?_) (fun v hv p hp => ?_) (fun v hv => ?_)
    (fun v hv => ?_) hσ
  · simpa using (BN.mem_relevantSet.1 hv).1
  · exact BN.mem_relevantSet.2 ⟨isParent_mem hc hp, (BN.mem_relevantSet.1 hv).2.parent hp⟩
  · obtain ⟨p, hp, rfl⟩ := List.mem_map.1 hv
    exact BN.mem_relevantSet.2 ⟨he.mem p hp, .self (hev _ hv)⟩
  · exact BN.mem_relevantSet.2 ⟨by simpa using hSn hv, .self (hS v hv)⟩

/-! ### networks with the same relevant part -/

theorem BN.find_of_name {bn : BN} (hn : bn.names.Nodup) {n : NodeV} (h : n ∈ bn) {v : Name}
    (hv : n.name = v) : bn.find? (fun m => m.name = v) = some n := by
  subst hv; exact BN.lab_of_mem hn h

theorem isParent_iff {bn : BN} (hn : bn.names.Nodup) {n : NodeV} (h : n ∈ bn) {p : Name} :
    bn.IsParent p n.name ↔ p ∈ n.parentOrder := by
  refine ⟨?_, fun hp => ⟨n, h, rfl, hp⟩⟩
  rintro ⟨m, hm, hname, hp⟩
  have := BN.find_of_name hn hm hname
  rw [BN.lab_of_mem hn h] at this
  cases this; exact hp

section keeps
variable {bn bn' : BN} {vs : List Name}

theorem BN.Keeps.relevant (hc : bn.Consistent) (hc' : bn'.Consistent) (h : bn.Keeps bn' vs) {v : Name} (hv : v ∈ bn.names ∧ bn.Relevant vs v) :
    v ∈ bn'.names ∧ bn'.Relevant vs v := by
  obtain ⟨hv1, w, hw, hp⟩ := hv
  induction hp using Relation.ReflTransGen.head_induction_on with
  | refl =>
    obtain ⟨n, hn, rfl⟩ := BN.exists_of_mem_names hv1
    obtain ⟨m, hm, e, -⟩ := h n hn ⟨_, hw, .refl⟩
    exact ⟨e ▸ List.mem_map_of_mem hm, .self hw⟩
  | @head a c hac hcw ih =>
    have hcn : c ∈ bn.names := by obtain ⟨n, hn, e, -⟩ := hac; exact e ▸ List.mem_map_of_mem hn
    obtain ⟨n, hn, rfl⟩ := BN.exists_of_mem_names hcn
    obtain ⟨m, hm, e1, -, e3, -⟩ := h n hn ⟨_, hw, hcw⟩
    have hpm : bn'.IsParent a n.name := ⟨m, hm, e1, e3 ▸ (isParent_iff hc.nodup hn).1 hac⟩
    exact ⟨isParent_mem hc' hpm, (ih hcn).2.parent hpm⟩

theorem BN.Keeps.relevant' (hc : bn.Consistent) (hc' : bn'.Consistent) (h : bn.Keeps bn' vs)
    (hvs : ∀ v ∈ vs, v ∈ bn.names) {v : Name} (hv : v ∈ bn'.names ∧ bn'.Relevant vs v) :
    v ∈ bn.names ∧ bn.Relevant vs v := by
  obtain ⟨hv1, w, hw, hp⟩ := hv
  induction hp using Relation.ReflTransGen.head_induction_on with
  | refl => exact ⟨hvs _ hw, .self hw⟩
  | @head a c hac hcw ih =>
    have hcn : c ∈ bn'.names := by obtain ⟨n, hn, e, -⟩ := hac; exact e ▸ List.mem_map_of_mem hn
    obtain ⟨g1, g2⟩ := ih hcn
    obtain ⟨n, hn, rfl⟩ := BN.exists_of_mem_names g1
    obtain ⟨m, hm, e1, -, e3, -⟩ := h n hn g2
    have hpm : a ∈ m.parentOrder := (isParent_iff hc'.nodup hm).1 (e1 ▸ hac)
    have : bn.IsParent a n.name := ⟨n, hn, rfl, e3 ▸ hpm⟩
    exact ⟨isParent_mem hc this, g2.parent this⟩

theorem BN.Keeps.relevantSet (hc : bn.Consistent) (hc' : bn'.Consistent) (h : bn.Keeps bn' vs)
    (hvs : ∀ v ∈ vs, v ∈ bn.names) : bn'.relevantSet vs = bn.relevantSet vs := by
  ext v
  rw [BN.mem_relevantSet, BN.mem_relevantSet]
  exact ⟨h.relevant' hc hc' hvs, h.relevant hc hc'⟩

theorem BN.Keeps.lab (hc : bn.Consistent) (hc' : bn'.Consistent) (h : bn.Keeps bn' vs) {v : Name}
    (hv : v ∈ bn.relevantSet vs) : bn'.lab v = bn.lab v := by
  obtain ⟨h1, h2⟩ := BN.mem_relevantSet.1 hv
  obtain ⟨n, hn, rfl⟩ := BN.exists_of_mem_names h1
  obtain ⟨m, hm, e1, e2, -⟩ := h n hn h2
  rw [BN.lab_eq hc.nodup hn, ← e1, BN.lab_eq hc'.nodup hm, e2]

theorem BN.Keeps.part (hc : bn.Consistent) (hc' : bn'.Consistent) (h : bn.Keeps bn' vs)
    (ev : Dict Evidence) (τ : Assign) :
    part bn' ev (bn.relevantSet vs) τ = part bn ev (bn.relevantSet vs) τ := by
  refine prod_congr rfl fun v hv => ?_
  have hl := h.lab hc hc' hv
  obtain ⟨h1, h2⟩ := BN.mem_relevantSet.1 hv
  obtain ⟨n, hn, rfl⟩ := BN.exists_of_mem_names h1
  obtain ⟨m, hm, e1, e2, e3, e4⟩ := h n hn h2
  congr 1
  · simp only [entryOf, BN.lab_of_mem hc.nodup hn, BN.find_of_name hc'.nodup hm e1, NodeV.entry, e1,
      e3, e4]
  · simp only [likOf, hl]

theorem sumOver_card_eq {card card' : Name → Nat} {s : Finset Name} (h : ∀ v ∈ s, card v = card' v)
    (F : Assign → ℚ) (σ : Assign) : sumOver card s F σ = sumOver card' s F σ := by
  unfold sumOver
  have : (s.pi fun v => range (card v)) = s.pi fun v => range (card' v) := by
    ext p
    simp only [mem_pi, mem_range]
    exact ⟨fun hp a ha => h a ha ▸ hp a ha, fun hp a ha => h a ha ▸ hp a ha⟩
  rw [this]

/-- evidence that is legal for one network is legal for the other -/
theorem BN.Keeps.legal (hc : bn.Consistent) (hc' : bn'.Consistent) (h : bn.Keeps bn' vs)
    {ev : Dict Evidence} (hev : ∀ v ∈ ev.keys, v ∈ vs) (hvs : ∀ v ∈ vs, v ∈ bn.names)
    (he : LegalEvidence bn ev) : LegalEvidence bn' ev := by
  have key : ∀ v e, (v, e) ∈ ev → v ∈ bn.relevantSet vs := fun v e hm =>
    have := hev v (List.mem_map_of_mem (f := Prod.fst) hm)
    BN.mem_relevantSet.2 ⟨hvs v this, .self this⟩
  refine ⟨he.nodup, fun p hp => ?_, fun v x hm => ?_, fun v l hm => ?_⟩
  · exact (h.relevant hc hc' (BN.mem_relevantSet.1 (key p.1 p.2 hp))).1
  · rw [h.lab hc hc' (key _ _ hm)]; exact he.hard v x hm
  · rw [BN.card, h.lab hc hc' (key _ _ hm)]; exact he.soft v l hm

theorem BN.Keeps.marginal (hc : bn.Consistent) (hc' : bn'.Consistent) (ha : bn.Acyclic)
    (ha' : bn'.Acyclic) (hs : bn.Stochastic) (hs' : bn'.Stochastic) (h : bn.Keeps bn' vs)
    (hvs : ∀ v ∈ vs, v ∈ bn.names) {ev : Dict Evidence} (he : LegalEvidence bn ev)
    (hev : ∀ v ∈ ev.keys, v ∈ vs) {S : Finset Name} (hS : ∀ v ∈ S, v ∈ vs) {σ : Assign}
    (hσ : ∀ v ∈ S, σ v < bn.card v) :
    sumOver bn'.card (bn'.names.toFinset \ S) (weight bn' ev) σ =
      sumOver bn.card (bn.names.toFinset \ S) (weight bn ev) σ := by
  have hcard : ∀ v ∈ bn.relevantSet vs, bn'.card v = bn.card v := fun v hv => by
    rw [BN.card, h.lab hc hc' hv, BN.card]
  have hrel : ∀ v ∈ S, v ∈ bn.relevantSet vs := fun v hv =>
    BN.mem_relevantSet.2 ⟨hvs v (hS v hv), .self (hS v hv)⟩
  rw [marginal_relevant hc ha hs he hev (fun v hv => by simpa using hvs v (hS v hv)) hS hσ,
    marginal_relevant hc' ha' hs' (h.legal hc hc' hev hvs he) hev (fun v hv => by
      simpa using (h.relevant hc hc' (BN.mem_relevantSet.1 (hrel v hv))).1) hS (fun v hv => by
      rw [hcard v (hrel v hv)]; exact hσ v hv), h.relevantSet hc hc' hvs]
  rw [sumOver_card_eq (card' := bn.card) fun v hv => hcard v (mem_sdiff.1 hv).1]
  exact sumOver_congr fun τ _ => h.part hc hc' ev τ

theorem BN.Keeps.posterior (hc : bn.Consistent) (hc' : bn'.Consistent) (ha : bn.Acyclic)
    (ha' : bn'.Acyclic) (hs : bn.Stochastic) (hs' : bn'.Stochastic) (h : bn.Keeps bn' vs)
    (hvs : ∀ v ∈ vs, v ∈ bn.names) {ev : Dict Evidence} (he : LegalEvidence bn ev)
    (hev : ∀ v ∈ ev.keys, v ∈ vs) {Q : List Name} (hQ : ∀ v ∈ Q, v ∈ vs) {σ : Assign}
    (hσ : Legal bn.card Q σ) : posterior bn' ev Q σ = posterior bn ev Q σ := by
  have h1 := h.marginal hc hc' ha ha' hs hs' hvs he hev (S := Q.toFinset)
    (fun v hv => hQ v (by simpa using hv)) (σ := σ) (fun v hv => hσ v (by simpa using hv))
  have h2 := h.marginal hc hc' ha ha' hs hs' hvs he hev (S := ∅) (by simp) (σ := σ) (by simp)
  simp only [sdiff_empty] at h2
  unfold Primo.posterior totalWeight
  simp only [h1, h2]

end keeps

/-! ### open paths in the moral graph of the relevant part -/

/-- `v` is connected with `Q` in the moral graph of the relevant part, through unobserved variables -/
inductive Open (bn : BN) (ev : Dict Evidence) (Q vs : List Name) : Name → Prop
  | start {q : Name} : q ∈ Q → ¬ Observed ev q → Open bn ev Q vs q
  | step {u w : Name} {n : NodeV} : Open bn ev Q vs u → n ∈ bn → bn.Relevant vs n.name →
      u ∈ n.family → w ∈ n.family → ¬ Observed ev w → Open bn ev Q vs w

theorem Open.unobserved {bn : BN} {ev : Dict Evidence} {Q vs : List Name} {v : Name}
    (h : Open bn ev Q vs v) : ¬ Observed ev v := by
  cases h with
  | start _ h => exact h
  | step _ _ _ _ _ h => exact h

theorem Observed.key {ev : Dict Evidence} {v : Name} (h : Observed ev v) : v ∈ ev.keys := by
  obtain ⟨x, hx⟩ := h
  exact List.mem_map_of_mem (f := Prod.fst) hx

section trails
variable {bn : BN} {ev : Dict Evidence} {Q R : List Name}

/-- an active trail can go on from `v` in all directions (if `v` is not observed) -/
def Loose (bn : BN) (ev : Dict Evidence) (Q : List Name) (v : Name) : Prop :=
  Trail bn ev Q true v ∨ (Trail bn ev Q false v ∧ bn.Relevant ev.keys v)

theorem Loose.up {v p : Name} (h : Loose bn ev Q v) (ho : ¬ Observed ev v) (hp : bn.IsParent p v) :
    Trail bn ev Q true p := by
  rcases h with h | ⟨h, hr⟩
  · exact h.up ho hp
  · exact h.collider hr hp

theorem Loose.down {v c : Name} (h : Loose bn ev Q v) (ho : ¬ Observed ev v) (hp : bn.IsParent v c) :
    Trail bn ev Q false c := by
  rcases h with h | ⟨h, -⟩ <;> exact h.down ho hp

theorem BN.DSeparated.loose (hd : bn.DSeparated ev Q R) {d : Bool} {v : Name}
    (ht : Trail bn ev Q d v) (hr : bn.Relevant (Q ++ R ++ ev.keys) v) : Loose bn ev Q v := by
  cases d with
  | true => exact Or.inl ht
  | false =>
    by_cases hi : bn.Relevant ev.keys v
    · exact Or.inr ⟨ht, hi⟩
    obtain ⟨w, hw, hp⟩ := hr
    have hun : ∀ u, Relation.ReflTransGen bn.IsParent v u → ¬ Observed ev u := fun u hu ho =>
      hi ⟨u, ho.key, hu⟩
    rcases List.mem_append.1 hw with hw | hw
    · rcases List.mem_append.1 hw with hw | hw
      · left
        clear ht hi
        induction hp using Relation.ReflTransGen.head_induction_on with
        | refl => exact .start hw
        | @head a c hac hcw ih =>
          exact (ih fun u hu => hun u (hu.head hac)).up (hun c (.single hac)) hac
      · exfalso
        have : ∀ u, Relation.ReflTransGen bn.IsParent v u → Trail bn ev Q false u := by
          intro u hu
          induction hu with
          | refl => exact ht
          | tail h1 h2 ih => exact ih.down (hun _ h1) h2
        exact hun w hp (hd w hw _ (this w hp))
    · exact absurd ⟨w, hw, hp⟩ hi

theorem BN.DSeparated.open_loose (hd : bn.DSeparated ev Q R) {v : Name}
    (h : Open bn ev Q (Q ++ R ++ ev.keys) v) : Loose bn ev Q v := by
  induction h with
  | start hq _ => exact Or.inl (.start hq)
  | @step u w n hu hnm hrel huf hwf ho ih =>
    have hun := hu.unobserved
    have hw : ∀ {d}, Trail bn ev Q d w → Loose bn ev Q w := fun ht => hd.loose ht (by
      rcases List.mem_cons.1 hwf with rfl | hwp
      · exact hrel
      · exact hrel.parent ⟨n, hnm, rfl, hwp⟩)
    have hm : Loose bn ev Q n.name := by
      rcases List.mem_cons.1 huf with rfl | hup
      · exact ih
      · exact hd.loose (ih.down hun ⟨n, hnm, rfl, hup⟩) hrel
    rcases List.mem_cons.1 hwf with rfl | hwp
    · exact hm
    · -- `w` is a parent of `n`
      have hpw : bn.IsParent w n.name := ⟨n, hnm, rfl, hwp⟩
      rcases hm with hm | ⟨hm, hr⟩
      · by_cases hob : Observed ev n.name
        · rcases List.mem_cons.1 huf with rfl | hup
          · exact absurd hob hun
          · exact hw ((ih.down hun ⟨n, hnm, rfl, hup⟩).collider (.self hob.key) hpw)
        · exact hw (hm.up hob hpw)
      · exact hw (hm.collider hr hpw)

theorem BN.DSeparated.closed (hd : bn.DSeparated ev Q R) {r : Name} (hr : r ∈ R) : ¬ Open bn ev Q (Q ++ R ++ ev.keys) r := by
  intro h
  rcases hd.open_loose h with h' | ⟨h', -⟩ <;> exact h.unobserved (hd r hr _ h')

end trails

/-! ### factorisation -/

theorem sumOver_blocks {card : Name → Nat} {C D H S : Finset Name} (hCD : Disjoint C D)
    (hCH : Disjoint C H) (hDH : Disjoint D H) {F G L : Assign → ℚ} (hF : DependsOn C F)
    (hG : DependsOn D G) (hL : DependsOn H L) (σ : Assign) :
    sumOver card ((C ∪ D ∪ H) \ S) (fun τ => F τ * (G τ * L τ)) σ =
      sumOver card (C \ S) F σ * (sumOver card (D \ S) G σ * sumOver card (H \ S) L σ) := by
  have e : (C ∪ D ∪ H) \ S = (C \ S) ∪ ((D \ S) ∪ (H \ S)) := by
    rw [union_sdiff_distrib, union_sdiff_distrib, union_assoc]
  have dCD := hCD.mono (sdiff_subset (t := S)) (sdiff_subset (t := S))
  have dCH := hCH.mono (sdiff_subset (t := S)) (sdiff_subset (t := S))
  have dDH := hDH.mono (sdiff_subset (t := S)) (sdiff_subset (t := S))
  rw [e, sumOver_union (disjoint_union_right.2 ⟨dCD, dCH⟩)]
  have inner : ∀ τ, sumOver card ((D \ S) ∪ (H \ S)) (fun τ => F τ * (G τ * L τ)) τ =
      F τ * (sumOver card (D \ S) G τ * sumOver card (H \ S) L τ) := by
    intro τ
    rw [sumOver_mul_left hF (disjoint_union_right.2
      ⟨hCD.mono_right sdiff_subset, hCH.mono_right sdiff_subset⟩), sumOver_union dDH]
    congr 1
    have : ∀ ρ, sumOver card (H \ S) (fun τ => G τ * L τ) ρ = G ρ * sumOver card (H \ S) L ρ :=
      fun ρ => sumOver_mul_left hG (hDH.mono_right sdiff_subset) L ρ
    rw [sumOver_congr fun ρ _ => this ρ]
    exact sumOver_mul_right (hL.sumOver (s := H \ S)) (disjoint_left.2 fun v h1 h2 =>
      disjoint_left.1 hDH (mem_sdiff.1 h2).1 (mem_sdiff.1 h1).1) G τ
  rw [sumOver_congr fun τ _ => inner τ]
  refine sumOver_mul_right (A := D ∪ H) (DependsOn.mul ?_ ?_) ?_ F σ
  · exact (hG.sumOver).mono (sdiff_subset.trans subset_union_left)
  · exact (hL.sumOver).mono (sdiff_subset.trans subset_union_right)
  · exact disjoint_left.2 fun v h1 h2 => by
      have h3 := (mem_sdiff.1 h2).1
      rcases mem_union.1 h1 with h | h
      · exact disjoint_left.1 hCD h3 h
      · exact disjoint_left.1 hCH h3 h

theorem sumOver_prod_single {card : Name → Nat} (H T : Finset Name) (hT : T ⊆ H) (g : Name → Nat → ℚ)
    (σ : Assign) : sumOver card T (fun τ => ∏ v ∈ H, g v (τ v)) σ =
      (∏ v ∈ T, ∑ i ∈ range (card v), g v i) * ∏ v ∈ H \ T, g v (σ v) := by
  induction T using Finset.induction generalizing σ with
  | empty => simp
  | insert a T ha ih =>
    rw [sumOver_insert ha, prod_insert ha]
    have hTH : T ⊆ H := (subset_insert a T).trans hT
    have haH : a ∈ H := hT (mem_insert_self a T)
    have e : H \ T = insert a (H \ insert a T) := by
      ext v
      simp only [mem_sdiff, mem_insert, not_or]
      constructor
      · rintro ⟨h1, h2⟩
        by_cases h : v = a
        · exact Or.inl h
        · exact Or.inr ⟨h1, h, h2⟩
      · rintro (rfl | ⟨h1, -, h2⟩)
        · exact ⟨haH, ha⟩
        · exact ⟨h1, h2⟩
    have : ∀ i ∈ range (card a), sumOver card T (fun τ => ∏ v ∈ H, g v (τ v)) (Function.update σ a i) =
        g a i * ((∏ v ∈ T, ∑ i ∈ range (card v), g v i) * ∏ v ∈ H \ insert a T, g v (σ v)) := by
      intro i _
      rw [ih hTH, e, prod_insert (by simp), Function.update_self]
      have : ∏ v ∈ H \ insert a T, g v (Function.update σ a i v) = ∏ v ∈ H \ insert a T, g v (σ v) :=
        prod_congr rfl fun v hv => by
          rw [Function.update_of_ne]
          rintro rfl
          simp at hv
      rw [this]; ring
    rw [sum_congr rfl this, ← sum_mul]; ring

theorem lik_hard {values : List Val} {x : Val} (hx : x ∈ values) (i : Nat) :
    lik values (.hard x) i = if i = values.idxOf x then 1 else 0 := by
  unfold lik
  simp only
  congr 1
  apply propext
  have hlt := List.idxOf_lt_length_of_mem hx
  have hget : values[values.idxOf x]? = some x := by
    rw [List.getElem?_eq_getElem hlt, List.getElem_idxOf hlt]
  constructor
  · rintro ⟨h1, h2⟩
    rcases lt_trichotomy i (values.idxOf x) with h | h | h
    · exact absurd h1 (by
        intro h1
        obtain ⟨h3, h4⟩ := List.getElem?_eq_some_iff.1 h1
        exact absurd h4 (by simpa using List.not_of_lt_findIdx h))
    · exact h
    · exact absurd hget (h2 _ h)
  · rintro rfl
    refine ⟨hget, fun j hj h1 => ?_⟩
    obtain ⟨h3, h4⟩ := List.getElem?_eq_some_iff.1 h1
    exact absurd h4 (by simpa using List.not_of_lt_findIdx hj)

open Classical in
/-- `τ` with the observed outcomes at the observed variables -/
noncomputable def fixed (bn : BN) (ev : Dict Evidence) (τ : Assign) : Assign := fun v =>
  if h : Observed ev v then (bn.lab v).idxOf h.choose else τ v

theorem likOf_observed {bn : BN} {ev : Dict Evidence} (he : LegalEvidence bn ev) {v : Name}
    (h : Observed ev v) (τ : Assign) :
    likOf bn ev v τ = if τ v = fixed bn ev τ v then 1 else 0 := by
  have hm := h.choose_spec
  have hg := Dict.get?_of_mem he.nodup hm
  simp only [likOf, hg, fixed, dif_pos h]
  exact lik_hard (he.hard v _ hm) _

theorem fixed_lt {bn : BN} {ev : Dict Evidence} (he : LegalEvidence bn ev) {v : Name}
    (h : Observed ev v) (τ : Assign) : fixed bn ev τ v < bn.card v := by
  simp only [fixed, dif_pos h]
  exact List.idxOf_lt_length_of_mem (he.hard v _ h.choose_spec)

theorem fixed_const {bn : BN} {ev : Dict Evidence} {v : Name} (h : Observed ev v) (σ τ : Assign) :
    fixed bn ev σ v = fixed bn ev τ v := by
  simp only [fixed, dif_pos h]

/-- The three blocks of a separated network: variables connected with `Q`, the others, the observed. -/
structure Blocks (bn : BN) (ev : Dict Evidence) (A C D H : Finset Name) : Prop where
  union : A = C ∪ D ∪ H
  cd : Disjoint C D
  ch : Disjoint C H
  dh : Disjoint D H
  obs : ∀ v ∈ A, Observed ev v ↔ v ∈ H
  fam : ∀ n ∈ bn, n.name ∈ A → (∀ u ∈ n.family, u ∈ C ∪ H) ∨ (∀ u ∈ n.family, u ∈ D ∪ H)

/-- the observed part of the weight -/
def Blocks.obsPart (bn : BN) (ev : Dict Evidence) (H : Finset Name) (τ : Assign) : ℚ :=
  ∏ v ∈ H, likOf bn ev v τ

theorem Blocks.factor {bn : BN} (hc : bn.Consistent) {ev : Dict Evidence} (he : LegalEvidence bn ev)
    {A C D H : Finset Name} (hAn : A ⊆ bn.names.toFinset) (h : Blocks bn ev A C D H) :
    ∃ F G : Assign → ℚ, DependsOn C F ∧ DependsOn D G ∧
      ∀ τ, part bn ev A τ = F τ * (G τ * Blocks.obsPart bn ev H τ) := by
  classical
  let P : Name → Prop := fun v => ∀ n ∈ bn, n.name = v → ∀ u ∈ n.family, u ∈ C ∪ H
  have fixC : ∀ σ τ : Assign, (∀ v ∈ C, σ v = τ v) → ∀ v ∈ C ∪ H, fixed bn ev σ v = fixed bn ev τ v := by
    intro σ τ hst v hv
    by_cases ho : Observed ev v
    · exact fixed_const ho σ τ
    · simp only [fixed, dif_neg ho]
      rcases mem_union.1 hv with hv | hv
      · exact hst v hv
      · exact absurd ((h.obs v (h.union ▸ mem_union_right _ hv)).2 hv) ho
  have fixD : ∀ σ τ : Assign, (∀ v ∈ D, σ v = τ v) → ∀ v ∈ D ∪ H, fixed bn ev σ v = fixed bn ev τ v := by
    intro σ τ hst v hv
    by_cases ho : Observed ev v
    · exact fixed_const ho σ τ
    · simp only [fixed, dif_neg ho]
      rcases mem_union.1 hv with hv | hv
      · exact hst v hv
      · exact absurd ((h.obs v (h.union ▸ mem_union_right _ hv)).2 hv) ho
  refine ⟨fun τ => (∏ v ∈ A.filter P, entryOf bn v (fixed bn ev τ)) * ∏ v ∈ C, likOf bn ev v τ,
    fun τ => (∏ v ∈ A.filter (fun v => ¬ P v), entryOf bn v (fixed bn ev τ)) * ∏ v ∈ D, likOf bn ev v τ,
    ?_, ?_, fun τ => ?_⟩
  · refine DependsOn.mul (fun σ τ hst => prod_congr rfl fun v hv => ?_)
      (finprod_dependsOn fun v hv => (likOf_dependsOn v).mono (by simpa using hv))
    obtain ⟨hvA, hP⟩ := mem_filter.1 hv
    obtain ⟨n, hn, rfl⟩ := BN.exists_of_mem_names (by simpa using hAn hvA)
    refine entryOf_dependsOn (A := C ∪ H) (hP n hn rfl _ (by simp [NodeV.family])) (fun p hp => ?_) _ _
      (fixC σ τ hst)
    exact hP n hn rfl p (by simp [NodeV.family, (isParent_iff hc.nodup hn).1 hp])
  · refine DependsOn.mul (fun σ τ hst => prod_congr rfl fun v hv => ?_)
      (finprod_dependsOn fun v hv => (likOf_dependsOn v).mono (by simpa using hv))
    obtain ⟨hvA, hP⟩ := mem_filter.1 hv
    obtain ⟨n, hn, rfl⟩ := BN.exists_of_mem_names (by simpa using hAn hvA)
    have hD : ∀ u ∈ n.family, u ∈ D ∪ H := by
      refine (h.fam n hn hvA).resolve_left fun hC => hP fun m hm e => ?_
      have := BN.find_of_name hc.nodup hm e
      rw [BN.lab_of_mem hc.nodup hn] at this
      cases this; exact hC
    refine entryOf_dependsOn (A := D ∪ H) (hD _ (by simp [NodeV.family])) (fun p hp => ?_) _ _
      (fixD σ τ hst)
    exact hD p (by simp [NodeV.family, (isParent_iff hc.nodup hn).1 hp])
  · have hlik : ∏ v ∈ A, likOf bn ev v τ = (∏ v ∈ C, likOf bn ev v τ) * ((∏ v ∈ D, likOf bn ev v τ) *
        Blocks.obsPart bn ev H τ) := by
      rw [h.union, prod_union (disjoint_union_left.2 ⟨h.ch, h.dh⟩), prod_union h.cd, mul_assoc,
        Blocks.obsPart]
    rw [part, prod_mul_distrib, hlik]
    by_cases hz : Blocks.obsPart bn ev H τ = 0
    · simp [hz]
    have hfix : ∀ v ∈ A, fixed bn ev τ v = τ v := by
      intro v hv
      by_cases ho : Observed ev v
      · have h1 := prod_ne_zero_iff.1 hz v ((h.obs v hv).1 ho)
        rw [likOf_observed he ho] at h1
        by_contra hne
        exact h1 (if_neg fun e => hne e.symm)
      · simp only [fixed, dif_neg ho]
    have hent : ∀ v ∈ A, entryOf bn v (fixed bn ev τ) = entryOf bn v τ := by
      intro v hv
      obtain ⟨n, hn, rfl⟩ := BN.exists_of_mem_names (by simpa using hAn hv)
      refine entryOf_dependsOn (A := A) hv (fun p hp => ?_) _ _ hfix
      have hp' : p ∈ n.family := by simp [NodeV.family, (isParent_iff hc.nodup hn).1 hp]
      rw [h.union]
      rcases h.fam n hn hv with hf | hf
      · rcases mem_union.1 (hf p hp') with h' | h'
        · exact mem_union_left _ (mem_union_left _ h')
        · exact mem_union_right _ h'
      · rcases mem_union.1 (hf p hp') with h' | h'
        · exact mem_union_left _ (mem_union_right _ h')
        · exact mem_union_right _ h'
    rw [← prod_filter_mul_prod_filter_not A P, prod_congr rfl fun v hv => (hent v (mem_filter.1 hv).1).symm,
      prod_congr (s₁ := A.filter fun v => ¬ P v) rfl fun v hv => (hent v (mem_filter.1 hv).1).symm]
    ring

theorem Blocks.marginal {bn : BN} {ev : Dict Evidence} (he : LegalEvidence bn ev)
    {A C D H : Finset Name} (h : Blocks bn ev A C D H) {F G : Assign → ℚ} (hF : DependsOn C F)
    (hG : DependsOn D G) (hpart : ∀ τ, part bn ev A τ = F τ * (G τ * Blocks.obsPart bn ev H τ))
    (S : Finset Name) (σ : Assign) :
    sumOver bn.card (A \ S) (part bn ev A) σ = sumOver bn.card (C \ S) F σ *
      (sumOver bn.card (D \ S) G σ * ∏ v ∈ H ∩ S, likOf bn ev v σ) := by
  have hobs : ∀ v ∈ H, Observed ev v := fun v hv => (h.obs v (h.union ▸ mem_union_right _ hv)).2 hv
  rw [sumOver_congr fun τ _ => hpart τ]
  conv_lhs => rw [h.union]
  rw [sumOver_blocks h.cd h.ch h.dh hF hG (L := Blocks.obsPart bn ev H)
    (finprod_dependsOn fun v hv => (likOf_dependsOn v).mono (by simpa using hv))]
  congr 2
  have hg : (fun τ => Blocks.obsPart bn ev H τ) =
      fun τ : Assign => ∏ v ∈ H, (fun v i => if i = fixed bn ev σ v then (1 : ℚ) else 0) v (τ v) := by
    funext τ
    refine prod_congr rfl fun v hv => ?_
    rw [likOf_observed he (hobs v hv), fixed_const (hobs v hv) τ σ]
  have := sumOver_prod_single (card := bn.card) H (H \ S) sdiff_subset
    (fun v i => if i = fixed bn ev σ v then (1 : ℚ) else 0) σ
  rw [← hg] at this
  change sumOver bn.card (H \ S) (fun τ => Blocks.obsPart bn ev H τ) σ = _
  rw [this, prod_eq_one, one_mul]
  · rw [sdiff_sdiff_right_self]
    refine prod_congr rfl fun v hv => ?_
    rw [likOf_observed he (hobs v (mem_inter.1 hv).1)]
  · intro v hv
    rw [sum_ite_eq' (range (bn.card v)) (fixed bn ev σ v) fun _ => (1 : ℚ), if_pos]
    exact mem_range.2 (fixed_lt he (hobs v (mem_sdiff.1 hv).1) σ)

/-- sums over the other variables factorise -/
theorem BN.DSeparated.marginal {bn : BN} (hc : bn.Consistent) (ha : bn.Acyclic) (hs : bn.Stochastic)
    {ev : Dict Evidence} (he : LegalEvidence bn ev) {Q R : List Name} (hQ : ∀ v ∈ Q, v ∈ bn.names)
    (hR : ∀ v ∈ R, v ∈ bn.names) (hd : bn.DSeparated ev Q R) {σ : Assign}
    (hσ : Legal bn.card (Q ++ R) σ) :
    sumOver bn.card (bn.names.toFinset \ (Q ++ R).toFinset) (weight bn ev) σ * totalWeight bn ev σ =
      sumOver bn.card (bn.names.toFinset \ Q.toFinset) (weight bn ev) σ *
        sumOver bn.card (bn.names.toFinset \ R.toFinset) (weight bn ev) σ := by
  classical
  let vs := Q ++ R ++ ev.keys
  let A := bn.relevantSet vs
  let C := A.filter fun v => Open bn ev Q vs v
  let H := A.filter fun v => Observed ev v
  let D := A.filter fun v => ¬ Open bn ev Q vs v ∧ ¬ Observed ev v
  have hAn : A ⊆ bn.names.toFinset := fun v hv => by simpa using (BN.mem_relevantSet.1 hv).1
  have hb : Blocks bn ev A C D H := by
    refine ⟨?_, ?_, ?_, ?_, fun v hv => ?_, fun n hn hnA => ?_⟩
    · ext v
      simp only [C, D, H, mem_union, mem_filter]
      tauto
    · exact disjoint_left.2 fun v h1 h2 => (mem_filter.1 h2).2.1 (mem_filter.1 h1).2
    · exact disjoint_left.2 fun v h1 h2 => (mem_filter.1 h1).2.unobserved (mem_filter.1 h2).2
    · exact disjoint_left.2 fun v h1 h2 => (mem_filter.1 h1).2.2 (mem_filter.1 h2).2
    · simp only [H, mem_filter, hv, true_and]
    · obtain ⟨-, hrel⟩ := BN.mem_relevantSet.1 hnA
      have hA : ∀ u ∈ n.family, u ∈ A := by
        intro u hu
        rcases List.mem_cons.1 hu with rfl | hu
        · exact hnA
        · exact BN.mem_relevantSet.2 ⟨hc.parents_mem n hn u hu, hrel.parent ⟨n, hn, rfl, hu⟩⟩
      by_cases hex : ∃ u ∈ n.family, Open bn ev Q vs u
      · obtain ⟨u, hu, hou⟩ := hex
        left
        intro w hw
        by_cases ho : Observed ev w
        · exact mem_union_right _ (mem_filter.2 ⟨hA w hw, ho⟩)
        · exact mem_union_left _ (mem_filter.2 ⟨hA w hw, hou.step hn hrel hu hw ho⟩)
      · right
        intro w hw
        by_cases ho : Observed ev w
        · exact mem_union_right _ (mem_filter.2 ⟨hA w hw, ho⟩)
        · exact mem_union_left _ (mem_filter.2 ⟨hA w hw, fun h => hex ⟨w, hw, h⟩, ho⟩)
  obtain ⟨F, G, hF, hG, hpart⟩ := hb.factor hc he hAn
  have key : ∀ S : Finset Name, (∀ v ∈ S, v ∈ Q ++ R) →
      sumOver bn.card (bn.names.toFinset \ S) (weight bn ev) σ = sumOver bn.card (C \ S) F σ *
        (sumOver bn.card (D \ S) G σ * ∏ v ∈ H ∩ S, likOf bn ev v σ) := by
    intro S hS
    rw [marginal_relevant hc ha hs he (vs := vs) (fun v hv => List.mem_append_right _ hv)
      (fun v hv => ?_) (fun v hv => List.mem_append_left _ (hS v hv)) (fun v hv => hσ v (hS v hv))]
    · exact hb.marginal he hF hG hpart S σ
    · rcases List.mem_append.1 (hS v hv) with h | h
      · simpa using hQ v h
      · simpa using hR v h
  have hCR : ∀ v ∈ R, v ∉ C := fun v hv hvC => hd.closed hv (mem_filter.1 hvC).2
  have hDQ : ∀ v ∈ Q, v ∉ D := fun v hv hvD =>
    (mem_filter.1 hvD).2.1 (.start hv (mem_filter.1 hvD).2.2)
  have eC1 : C \ (Q ++ R).toFinset = C \ Q.toFinset := by
    ext v; simp only [mem_sdiff, List.mem_toFinset, List.mem_append]
    exact ⟨fun h => ⟨h.1, fun h' => h.2 (Or.inl h')⟩,
      fun h => ⟨h.1, fun h' => h'.elim h.2 fun h' => hCR v h' h.1⟩⟩
  have eC2 : C \ R.toFinset = C := by
    ext v; simp only [mem_sdiff, List.mem_toFinset]
    exact ⟨fun h => h.1, fun h => ⟨h, fun h' => hCR v h' h⟩⟩
  have eD1 : D \ (Q ++ R).toFinset = D \ R.toFinset := by
    ext v; simp only [mem_sdiff, List.mem_toFinset, List.mem_append]
    exact ⟨fun h => ⟨h.1, fun h' => h.2 (Or.inr h')⟩,
      fun h => ⟨h.1, fun h' => h'.elim (fun h' => hDQ v h' h.1) h.2⟩⟩
  have eD2 : D \ Q.toFinset = D := by
    ext v; simp only [mem_sdiff, List.mem_toFinset]
    exact ⟨fun h => h.1, fun h => ⟨h, fun h' => hDQ v h' h⟩⟩
  have eH : ∏ v ∈ H ∩ (Q ++ R).toFinset, likOf bn ev v σ =
      (∏ v ∈ H ∩ Q.toFinset, likOf bn ev v σ) * ∏ v ∈ H ∩ R.toFinset, likOf bn ev v σ := by
    have e : H ∩ (Q ++ R).toFinset = H ∩ Q.toFinset ∪ H ∩ R.toFinset := by
      rw [List.toFinset_append, inter_union_distrib_left]
    rw [e, ← prod_union_inter]
    rw [← prod_sdiff (s₁ := H ∩ Q.toFinset ∩ (H ∩ R.toFinset)) (s₂ := H ∩ Q.toFinset ∪ H ∩ R.toFinset)
      (fun v hv => mem_union_left _ (mem_inter.1 hv).1), mul_assoc, ← prod_mul_distrib]
    congr 1
    refine prod_congr rfl fun v hv => ?_
    rw [likOf_observed he (mem_filter.1 (mem_inter.1 (mem_inter.1 hv).1).1).2]
    split <;> simp
  have k0 := key ∅ (by simp)
  simp only [sdiff_empty, inter_empty, prod_empty] at k0
  rw [totalWeight, k0, key _ (by simp), key Q.toFinset (by simp; tauto), key R.toFinset (by simp; tauto),
    eC1, eC2, eD1, eD2, eH]
  ring

theorem BN.DSeparated.splits {bn : BN} (hc : bn.Consistent) (ha : bn.Acyclic) (hs : bn.Stochastic)
    (hn : bn.NonNeg) {ev : Dict Evidence} (he : LegalEvidence bn ev) (hen : NonNegEvidence ev)
    {Q R : List Name} (hQ : ∀ v ∈ Q, v ∈ bn.names) (hR : ∀ v ∈ R, v ∈ bn.names)
    (hd : bn.DSeparated ev Q R) {σ : Assign} (hσ : Legal bn.card (Q ++ R) σ) :
    posterior bn ev (Q ++ R) σ = posterior bn ev Q σ * posterior bn ev R σ := by
  by_cases hZ : 0 < totalWeight bn ev σ
  · have := hd.marginal hc ha hs he hQ hR hσ
    unfold Primo.posterior
    simp only [if_pos hZ]
    rw [div_mul_div_comm, ← this, mul_div_mul_right _ _ hZ.ne']
  · have hZ0 : totalWeight bn ev σ = 0 := le_antisymm (not_lt.1 hZ)
      (sumOver_nonneg fun τ _ => weight_nonneg hn hen τ)
    rw [posterior_eq_zero hn hen (by simp; rintro v (h | h); exacts [hQ v h, hR v h]) hσ hZ0,
      posterior_eq_zero hn hen hQ (fun v hv => hσ v (by simp [hv])) hZ0, zero_mul]

/-! ### evidence on separated variables -/

theorem weight_append_mul (bn : BN) (ev ev' : Dict Evidence) (τ : Assign) :
    weight bn (ev ++ ev') τ = (ev'.map fun p => lik (bn.lab p.1) p.2 (τ p.1)).prod * weight bn ev τ := by
  simp only [weight, List.map_append, List.prod_append]
  ring

theorem LegalEvidence.append_left {bn : BN} {ev ev' : Dict Evidence} (h : LegalEvidence bn (ev ++ ev')) :
    LegalEvidence bn ev := by
  refine ⟨?_, fun p hp => h.mem p (List.mem_append_left _ hp), fun v x hv => h.hard v x
    (List.mem_append_left _ hv), fun v l hv => h.soft v l (List.mem_append_left _ hv)⟩
  have := h.nodup
  simp only [Dict.keys, List.map_append] at this ⊢
  exact (List.nodup_append.1 this).1

theorem BN.DSeparated.more_evidence {bn : BN} (hc : bn.Consistent) (ha : bn.Acyclic)
    (hs : bn.Stochastic) {ev ev' : Dict Evidence} (he : LegalEvidence bn (ev ++ ev'))
    {Q : List Name} (hQ : ∀ v ∈ Q, v ∈ bn.names) (hd : bn.DSeparated ev Q ev'.keys) {σ : Assign}
    (hσ : Legal bn.card Q σ) :
    sumOver bn.card (bn.names.toFinset \ Q.toFinset) (weight bn (ev ++ ev')) σ * totalWeight bn ev σ =
      sumOver bn.card (bn.names.toFinset \ Q.toFinset) (weight bn ev) σ *
        totalWeight bn (ev ++ ev') σ := by
  have he1 := he.append_left
  let K := ev'.keys
  have hK : ∀ v ∈ K, v ∈ bn.names := by
    intro v hv
    obtain ⟨p, hp, rfl⟩ := List.mem_map.1 hv
    exact he.mem p (List.mem_append_right _ hp)
  have hdis : ∀ v ∈ K, v ∉ Q := by
    intro v hv hq
    have := (hd v hv _ (.start hq)).key
    have hnd := he.nodup
    simp only [Dict.keys, List.map_append] at hnd
    exact (List.nodup_append.1 hnd).2.2 v this v hv rfl
  have hlam : DependsOn K.toFinset
      (fun τ : Assign => (ev'.map fun p => lik (bn.lab p.1) p.2 (τ p.1)).prod) := by
    intro σ τ h
    simp only
    congr 1
    refine List.map_congr_left fun p hp => ?_
    rw [h p.1 (List.mem_toFinset.2 (List.mem_map_of_mem (f := Prod.fst) hp))]
  set lam : Assign → ℚ := fun τ => (ev'.map fun p => lik (bn.lab p.1) p.2 (τ p.1)).prod with hlamdef
  have hw : weight bn (ev ++ ev') = fun τ => lam τ * weight bn ev τ := by
    funext τ; exact weight_append_mul bn ev ev' τ
  -- sums with the new evidence, by the observed variables
  have hsplit : ∀ S : Finset Name, (∀ v ∈ S, v ∉ K) →
      sumOver bn.card (bn.names.toFinset \ S) (weight bn (ev ++ ev')) σ =
        sumOver bn.card K.toFinset (fun τ => lam τ *
          sumOver bn.card (bn.names.toFinset \ (S ∪ K.toFinset)) (weight bn ev) τ) σ := by
    intro S hS
    have e : bn.names.toFinset \ S = K.toFinset ∪ (bn.names.toFinset \ (S ∪ K.toFinset)) := by
      ext v
      simp only [mem_sdiff, mem_union, List.mem_toFinset]
      constructor
      · rintro ⟨h1, h2⟩
        by_cases h : v ∈ K
        · exact Or.inl h
        · exact Or.inr ⟨h1, fun h' => h'.elim h2 h⟩
      · rintro (h | ⟨h1, h2⟩)
        · exact ⟨hK v h, fun h' => hS v h' h⟩
        · exact ⟨h1, fun h' => h2 (Or.inl h')⟩
    have hdj : Disjoint K.toFinset (bn.names.toFinset \ (S ∪ K.toFinset)) :=
      disjoint_left.2 fun v h1 h2 => (mem_sdiff.1 h2).2 (mem_union_right _ h1)
    rw [e, sumOver_union hdj, hw]
    exact sumOver_congr fun τ _ => sumOver_mul_left hlam hdj _ τ
  have hQ' : ∀ v ∈ Q.toFinset, v ∉ K := fun v hv hk => hdis v hk (by simpa using hv)
  have h1 := hsplit Q.toFinset hQ'
  have h2 := hsplit ∅ (by simp)
  simp only [sdiff_empty, empty_union] at h2
  rw [totalWeight, totalWeight, h1, h2, ← sumOver_mul_const, ← sumOver_const_mul]
  refine sumOver_congr fun τ hτ => ?_
  have hleg : Legal bn.card (Q ++ K) τ := by
    intro v hv
    by_cases hk : v ∈ K
    · exact hτ.2 v (by simpa using hk)
    · rw [hτ.1 v (by simpa using hk)]
      exact hσ v ((List.mem_append.1 hv).resolve_right hk)
  have hm := hd.marginal hc ha hs he1 hQ hK hleg
  rw [List.toFinset_append, totalWeight_const hc he1 τ σ] at hm
  rw [sumOver_congr_left (σ := σ) (τ := τ) (s := bn.names.toFinset \ Q.toFinset) fun v hv => ?_]
  · rw [totalWeight] at hm
    rw [mul_assoc, hm]; ring
  · refine (hτ.1 v fun h => hv ?_).symm
    simp only [List.mem_toFinset] at h
    exact mem_sdiff.2 ⟨by simpa using hK v h, by simpa using hdis v h⟩

theorem totalWeight_pos_append {bn : BN} (hn : bn.NonNeg) {ev ev' : Dict Evidence}
    (hen : NonNegEvidence ev) {σ : Assign}
    (hZ : 0 < totalWeight bn (ev ++ ev') σ) : 0 < totalWeight bn ev σ := by
  have h0 : ∀ τ, 0 ≤ weight bn ev τ := weight_nonneg hn hen
  refine lt_of_le_of_ne (sumOver_nonneg fun τ _ => h0 τ) fun h => hZ.ne' ?_
  have : ∀ τ, Varies bn.card bn.names.toFinset σ τ → weight bn (ev ++ ev') τ = 0 := fun τ hτ => by
    rw [weight_append_mul, eq_zero_of_sumOver_eq_zero (fun τ _ => h0 τ) h.symm hτ, mul_zero]
  rw [totalWeight, sumOver_congr this, sumOver_zero]

theorem BN.DSeparated.posterior_append {bn : BN} (hc : bn.Consistent) (ha : bn.Acyclic)
    (hs : bn.Stochastic) (hn : bn.NonNeg) {ev ev' : Dict Evidence} (he : LegalEvidence bn (ev ++ ev'))
    (hen : NonNegEvidence ev) {Q : List Name} (hQ : ∀ v ∈ Q, v ∈ bn.names)
    (hd : bn.DSeparated ev Q ev'.keys) {σ : Assign} (hσ : Legal bn.card Q σ)
    (hZ : 0 < totalWeight bn (ev ++ ev') σ) :
    posterior bn (ev ++ ev') Q σ = posterior bn ev Q σ := by
  have hZ' := totalWeight_pos_append hn hen hZ
  have := hd.more_evidence hc ha hs he hQ hσ
  unfold Primo.posterior
  simp only [if_pos hZ, if_pos hZ']
  rw [div_eq_div_iff hZ.ne' hZ'.ne', this]

/-! ### several variables, local separations -/

theorem BN.Scattered.splits {bn : BN} (hc : bn.Consistent) (ha : bn.Acyclic) (hs : bn.Stochastic)
    (hn : bn.NonNeg) {ev : Dict Evidence} (he : LegalEvidence bn ev) (hen : NonNegEvidence ev)
    {Q : List Name} (hne : Q ≠ []) (hQ : ∀ v ∈ Q, v ∈ bn.names) (hd : bn.Scattered ev Q) {σ : Assign}
    (hσ : Legal bn.card Q σ) :
    posterior bn ev Q σ = (Q.map fun v => posterior bn ev [v] σ).prod := by
  induction Q with
  | nil => exact absurd rfl hne
  | cons v vs ih =>
    rcases eq_or_ne vs [] with rfl | hvs
    · simp
    · have h1 := hd.1.splits hc ha hs hn he hen (by simpa using hQ v (by simp))
        (fun u hu => hQ u (by simp [hu])) (σ := σ) hσ
      rw [List.singleton_append] at h1
      rw [h1, ih hvs (fun u hu => hQ u (by simp [hu])) hd.2 (fun u hu => hσ u (by simp [hu])),
        List.map_cons, List.prod_cons]

/-- d-separation depends on the arcs only -/
theorem BN.DSeparated.congr {bn bn' : BN} (h : ∀ p v, bn.IsParent p v ↔ bn'.IsParent p v)
    {ev : Dict Evidence} {Q R : List Name} (hd : bn.DSeparated ev Q R) : bn'.DSeparated ev Q R := by
  have e : bn.IsParent = bn'.IsParent := by funext p v; exact propext (h p v)
  have ht : ∀ d v, Trail bn' ev Q d v → Trail bn ev Q d v := by
    intro d v ht
    induction ht with
    | start h => exact .start h
    | up _ ho hp ih => exact ih.up ho (e ▸ hp)
    | down _ ho hp ih => exact ih.down ho (e ▸ hp)
    | collider _ hr hp ih => exact ih.collider (by unfold BN.Relevant at hr ⊢; rwa [e]) (e ▸ hp)
  exact fun r hr d hr' => hd r hr d (ht d r hr')

theorem BN.Scattered.congr {bn bn' : BN} (h : ∀ p v, bn.IsParent p v ↔ bn'.IsParent p v)
    {ev : Dict Evidence} : ∀ {vs : List Name}, bn.Scattered ev vs → bn'.Scattered ev vs
  | [], _ => trivial
  | _ :: _, hd => ⟨hd.1.congr h, hd.2.congr h⟩

theorem dseparated_of_parents {bn : BN} {ev : Dict Evidence} {v : Name}
    (hpar : ∀ p, bn.IsParent p v → Observed ev p)
    (hdesc : ∀ w, Relation.TransGen bn.IsParent v w → w ∉ ev.keys) {R : List Name}
    (hR : ∀ r ∈ R, ¬ Relation.ReflTransGen bn.IsParent v r) : bn.DSeparated ev [v] R := by
  have key : ∀ d u, Trail bn ev [v] d u →
      (d = true ∧ (u = v ∨ Observed ev u)) ∨ (d = false ∧ Relation.TransGen bn.IsParent v u) := by
    intro d u ht
    induction ht with
    | start h => exact Or.inl ⟨rfl, Or.inl (by simpa using h)⟩
    | up ht ho hp ih =>
      rcases ih with ⟨-, rfl | h⟩ | ⟨h, -⟩
      · exact Or.inl ⟨rfl, Or.inr (hpar _ hp)⟩
      · exact absurd h ho
      · cases h
    | down ht ho hp ih =>
      rcases ih with ⟨-, rfl | h⟩ | ⟨-, h⟩
      · exact Or.inr ⟨rfl, .single hp⟩
      · exact absurd h ho
      · exact Or.inr ⟨rfl, h.tail hp⟩
    | collider ht hr hp ih =>
      rcases ih with ⟨h, -⟩ | ⟨-, h⟩
      · cases h
      · obtain ⟨w, hw, hrw⟩ := hr
        exact absurd hw (hdesc w (h.trans_left hrw))
  intro r hr d ht
  rcases key d r ht with ⟨-, rfl | h⟩ | ⟨-, h⟩
  · exact absurd .refl (hR r hr)
  · exact h
  · exact absurd h.to_reflTransGen (hR r hr)

theorem dseparated_of_blanket {bn : BN} {ev : Dict Evidence} {v : Name}
    (hpar : ∀ p, bn.IsParent p v → Observed ev p) (hch : ∀ c, bn.IsParent v c → Observed ev c)
    (hco : ∀ c p, bn.IsParent v c → bn.IsParent p c → p = v ∨ Observed ev p) {R : List Name}
    (hR : v ∉ R) : bn.DSeparated ev [v] R := by
  have key : ∀ d u, Trail bn ev [v] d u →
      (d = true ∧ (u = v ∨ Observed ev u)) ∨ (d = false ∧ bn.IsParent v u) := by
    intro d u ht
    induction ht with
    | start h => exact Or.inl ⟨rfl, Or.inl (by simpa using h)⟩
    | up ht ho hp ih =>
      rcases ih with ⟨-, rfl | h⟩ | ⟨h, -⟩
      · exact Or.inl ⟨rfl, Or.inr (hpar _ hp)⟩
      · exact absurd h ho
      · cases h
    | down ht ho hp ih =>
      rcases ih with ⟨-, rfl | h⟩ | ⟨-, h⟩
      · exact Or.inr ⟨rfl, hp⟩
      · exact absurd h ho
      · exact absurd (hch _ h) ho
    | collider ht hr hp ih =>
      rcases ih with ⟨h, -⟩ | ⟨-, h⟩
      · cases h
      · exact Or.inl ⟨rfl, hco _ _ h hp⟩
  intro r hr d ht
  rcases key d r ht with ⟨-, rfl | h⟩ | ⟨-, h⟩
  · exact absurd hr hR
  · exact h
  · exact hch _ h

end Primo
