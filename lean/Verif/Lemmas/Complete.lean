import Verif.Lemmas.Separation
import Verif.Lemmas.Dependent
import Verif.Lemmas.Unroll
import Verif.Spec.Converge

/-!
# Completeness of d-separation

The tables of `exists_dependent` as tables of a network.  Arrays of likelihoods become observed
children.
-/

namespace Primo
open Finset Dep

theorem exists_fresh (l : List Name) : ∃ φ : Name → Name, Function.Injective φ ∧ ∀ v, φ v ∉ l := by
  let N := (l.map String.length).sum + 1
  refine ⟨fun v => String.ofList (List.replicate N 'x') ++ v, fun v w h => ?_, fun v hv => ?_⟩
  · simpa using h
  · have h1 : (String.ofList (List.replicate N 'x') ++ v).length ≤ (l.map String.length).sum :=
      List.single_le_sum (by simp) _ (List.mem_map_of_mem hv)
    simp at h1
    omega

/-! ### networks with given tables -/

/-- the assignment with the values `idx` for the variables `vs` -/
def decode (vs : List Name) (idx : List Nat) : Assign := fun v => idx.getD (vs.idxOf v) 0

theorem decode_map {vs : List Name} (σ : Assign) {v : Name} (hv : v ∈ vs) :
    decode vs (vs.map σ) v = σ v := by
  have h := List.idxOf_lt_length_of_mem hv
  simp [decode, List.getD_eq_getElem?_getD, h]

namespace BN

/-- the same network with other tables -/
def retable (bn : BN) (θ : Name → Assign → ℚ) : BN := bn.map fun n =>
  { n with
    cpd := NDArray.tabulate (n.values.length :: n.parentOrder.map bn.card) fun idx =>
      θ n.name (decode (n.name :: n.parentOrder) idx) }

variable {bn : BN} {θ : Name → Assign → ℚ}

theorem retable_bare (bn : BN) (θ : Name → Assign → ℚ) : (bn.retable θ).bare = bn.bare := by
  unfold retable bare
  rw [List.map_map]
  exact List.map_congr_left fun n _ => rfl

theorem retable_consistent (hc : bn.Consistent) : (bn.retable θ).Consistent :=
  hc.of_bare (retable_bare bn θ) fun n' hn' => by
    obtain ⟨n, hn, rfl⟩ := List.mem_map.1 hn'
    rfl

theorem retable_positive (h : ∀ v ∈ bn.names, ∀ σ, 0 < θ v σ) : (bn.retable θ).Positive := by
  intro n' hn' x hx
  obtain ⟨n, hn, rfl⟩ := List.mem_map.1 hn'
  simp only [NDArray.tabulate, List.mem_map] at hx
  obtain ⟨_, -, rfl⟩ := hx
  exact h _ (List.mem_map_of_mem hn) _

theorem retable_get (hc : bn.Consistent)
    (hdep : ∀ n ∈ bn, DependsOn (n.name :: n.parentOrder).toFinset (θ n.name)) {n : NodeV}
    (hn : n ∈ bn.retable θ) {σ : Assign} (hσ : Legal bn.card (n.name :: n.parentOrder) σ) :
    n.cpd.get (σ n.name :: n.parentOrder.map σ) = θ n.name σ := by
  obtain ⟨m, hm, rfl⟩ := List.mem_map.1 hn
  have hr : InRange (m.values.length :: m.parentOrder.map bn.card)
      (σ m.name :: m.parentOrder.map σ) := by
    refine List.Forall₂.cons ?_ ?_
    · have := hσ m.name (by simp)
      rwa [BN.card, BN.lab_eq hc.nodup hm] at this
    · rw [List.forall₂_map_left_iff, List.forall₂_map_right_iff]
      exact List.forall₂_same.2 fun v hv => hσ v (List.mem_cons_of_mem _ hv)
  refine (NDArray.get_tabulate _ hr).trans (hdep m hm _ _ fun v hv => ?_)
  exact decode_map (vs := m.name :: m.parentOrder) σ (List.mem_toFinset.1 hv)

theorem retable_stochastic (hc : bn.Consistent)
    (hdep : ∀ n ∈ bn, DependsOn (n.name :: n.parentOrder).toFinset (θ n.name))
    (hsum : ∀ v ∈ bn.names, ∀ σ, ∑ i ∈ range (bn.card v), θ v (Function.update σ v i) = 1) :
    (bn.retable θ).Stochastic := by
  intro n hn σ hσ
  rw [card_of_bare (retable_bare bn θ)] at hσ
  obtain ⟨m, hm, rfl⟩ := List.mem_map.1 hn
  have hcard : bn.card m.name = m.values.length := by rw [BN.card, BN.lab_eq hc.nodup hm]
  rw [← hsum m.name (List.mem_map_of_mem hm) σ, hcard]
  refine sum_congr rfl fun i hi => ?_
  have hself := hc.self m hm
  have := retable_get hc hdep hn (σ := Function.update σ m.name i) fun v hv => by
    rcases List.mem_cons.1 hv with rfl | hv
    · simpa [hcard] using hi
    · rw [Function.update_of_ne (by rintro rfl; exact hself hv)]; exact hσ v hv
  rw [← this]
  simp only [Function.update_self]
  congr 2
  refine List.map_congr_left fun v hv => ?_
  rw [Function.update_of_ne (by rintro rfl; exact hself hv)]

theorem retable_entryOf (hc : bn.Consistent)
    (hdep : ∀ n ∈ bn, DependsOn (n.name :: n.parentOrder).toFinset (θ n.name)) {v : Name}
    (hv : v ∈ bn.names) {σ : Assign} (hσ : Legal bn.card bn.names σ) :
    entryOf (bn.retable θ) v σ = θ v σ := by
  have hv' : v ∈ (bn.retable θ).names := by rwa [names_of_bare (retable_bare bn θ)]
  obtain ⟨n, hn, rfl⟩ := BN.exists_of_mem_names hv'
  simp only [entryOf, BN.lab_of_mem (retable_consistent hc).nodup hn]
  refine retable_get hc hdep hn fun v hv => hσ v ?_
  obtain ⟨m, hm, rfl⟩ := List.mem_map.1 hn
  rcases List.mem_cons.1 hv with rfl | hv
  · exact (List.mem_map_of_mem hm : m.name ∈ bn.names)
  · exact hc.parents_mem m hm v hv

end BN

/-! ### marginals -/

theorem posterior_dependsOn' {bn : BN} (hc : bn.Consistent) {ev : Dict Evidence}
    (he : LegalEvidence bn ev) (Q : List Name) : DependsOn Q.toFinset (posterior bn ev Q) := by
  intro τ ρ h
  have hd := weight_dependsOn (ev := ev) hc he
  unfold posterior
  dsimp only
  have h1 : totalWeight bn ev τ = totalWeight bn ev ρ := by
    unfold totalWeight
    exact hd.sumOver τ ρ fun x hx => absurd hx (by simp)
  have h2 := hd.sumOver (s := bn.names.toFinset \ Q.toFinset) (card := bn.card) τ ρ fun x hx =>
    h x (by simp at hx ⊢; tauto)
  rw [h1, h2]

/-- summing out query variables -/
theorem posterior_sumOut {bn : BN} (hc : bn.Consistent) {ev : Dict Evidence} (he : LegalEvidence bn ev)
    {Q S : List Name} (hQ : ∀ v ∈ Q, v ∈ bn.names) (hS : ∀ v ∈ S, v ∈ Q) (σ : Assign) :
    sumOver bn.card (Q.toFinset \ S.toFinset) (posterior bn ev Q) σ = posterior bn ev S σ := by
  have hU : bn.names.toFinset \ S.toFinset =
      (Q.toFinset \ S.toFinset) ∪ (bn.names.toFinset \ Q.toFinset) := by
    ext v
    simp only [mem_union, mem_sdiff, List.mem_toFinset]
    have := hQ v; have := hS v
    tauto
  have hd : Disjoint (Q.toFinset \ S.toFinset) (bn.names.toFinset \ Q.toFinset) :=
    disjoint_left.2 fun v h1 h2 => (mem_sdiff.1 h2).2 (mem_sdiff.1 h1).1
  set c : ℚ := if 0 < totalWeight bn ev σ then (totalWeight bn ev σ)⁻¹ else 1 with hcdef
  have key : ∀ (T : List Name) τ, posterior bn ev T τ =
      c * sumOver bn.card (bn.names.toFinset \ T.toFinset) (weight bn ev) τ := by
    intro T τ
    unfold posterior
    simp only [totalWeight_const hc he τ σ, hcdef]
    split <;> ring
  rw [key, hU, sumOver_union hd, ← sumOver_const_mul]
  exact sumOver_congr fun τ _ => key Q τ

/-! ### the witness -/

/-- variables with an array as evidence -/
def softKeys (ev : Dict Evidence) : Finset Name :=
  ((ev.filter fun p => match p.2 with | .soft _ => true | .hard _ => false).map Prod.fst).toFinset

theorem mem_softKeys {ev : Dict Evidence} {v : Name} : v ∈ softKeys ev ↔ ∃ l, (v, Evidence.soft l) ∈ ev := by
  simp only [softKeys, List.mem_toFinset, List.mem_map, List.mem_filter]
  constructor
  · rintro ⟨⟨v, e⟩, ⟨h1, h2⟩, rfl⟩
    cases e with
    | hard x => simp at h2
    | soft l => exact ⟨l, h1⟩
  · rintro ⟨l, h⟩
    exact ⟨_, ⟨h, rfl⟩, rfl⟩

/-- observed variables -/
def hardKeys (ev : Dict Evidence) : Finset Name :=
  ((ev.filter fun p => match p.2 with | .soft _ => false | .hard _ => true).map Prod.fst).toFinset

theorem mem_hardKeys {ev : Dict Evidence} {v : Name} : v ∈ hardKeys ev ↔ Observed ev v := by
  simp only [hardKeys, List.mem_toFinset, List.mem_map, List.mem_filter, Observed]
  constructor
  · rintro ⟨⟨v, e⟩, ⟨h1, h2⟩, rfl⟩
    cases e with
    | hard x => exact ⟨x, h1⟩
    | soft l => simp at h2
  · rintro ⟨l, h⟩
    exact ⟨_, ⟨h, rfl⟩, rfl⟩

/-- other entries for the arrays -/
def relik (bn : BN) (lam : Name → Nat → ℚ) (ev : Dict Evidence) : Dict Evidence := ev.map fun p =>
  (p.1, match p.2 with
    | .hard x => .hard x
    | .soft _ => .soft ((List.range (bn.card p.1)).map (lam p.1)))

theorem relik_hard {bn : BN} {lam : Name → Nat → ℚ} {ev : Dict Evidence} {v : Name} {x : Val} :
    (v, Evidence.hard x) ∈ relik bn lam ev ↔ (v, Evidence.hard x) ∈ ev := by
  simp only [relik, List.mem_map]
  constructor
  · rintro ⟨⟨w, e⟩, h, h2⟩
    cases e <;> simp at h2
    obtain ⟨rfl, rfl⟩ := h2
    exact h
  · intro h
    exact ⟨_, h, rfl⟩

theorem relik_soft {bn : BN} {lam : Name → Nat → ℚ} {ev : Dict Evidence} {v : Name} {l : List ℚ} :
    (v, Evidence.soft l) ∈ relik bn lam ev ↔
      v ∈ softKeys ev ∧ l = (List.range (bn.card v)).map (lam v) := by
  simp only [relik, List.mem_map, mem_softKeys]
  constructor
  · rintro ⟨⟨w, e⟩, h, h2⟩
    cases e with
    | hard x => simp at h2
    | soft l' =>
      simp at h2
      obtain ⟨rfl, rfl⟩ := h2
      exact ⟨⟨_, h⟩, rfl⟩
  · rintro ⟨⟨l', h⟩, rfl⟩
    exact ⟨_, h, rfl⟩

theorem relik_keys {bn : BN} {lam : Name → Nat → ℚ} {ev : Dict Evidence} :
    (relik bn lam ev).keys = ev.keys := by
  simp [relik, Dict.keys]

theorem relik_sameKind (bn : BN) (lam : Name → Nat → ℚ) (ev : Dict Evidence) :
    SameKind ev (relik bn lam ev) := by
  unfold SameKind relik
  rw [List.forall₂_map_right_iff]
  refine List.forall₂_same.2 fun p _ => ⟨rfl, ?_⟩
  rcases p with ⟨v, e⟩
  cases e with
  | hard x => exact .inl rfl
  | soft l => exact .inr ⟨_, _, rfl, rfl⟩

theorem relik_legal {bn : BN} {lam : Name → Nat → ℚ} {ev : Dict Evidence} (he : LegalEvidence bn ev) :
    LegalEvidence bn (relik bn lam ev) := by
  refine ⟨by rw [relik_keys]; exact he.nodup, fun p hp => ?_, fun v x h => he.hard v x (relik_hard.1 h),
    fun v l h => ?_⟩
  · obtain ⟨q, hq, rfl⟩ := List.mem_map.1 hp
    exact he.mem q hq
  · rw [(relik_soft.1 h).2]; simp

theorem relik_likOf {bn : BN} {lam : Name → Nat → ℚ} {ev : Dict Evidence} (he : LegalEvidence bn ev)
    {v : Name} {τ : Assign} (hτ : τ v < bn.card v) :
    likOf bn (relik bn lam ev) v τ = (if v ∈ hardKeys ev then
      if τ v = fixed bn ev (fun _ => 0) v then 1 else 0 else 1) *
      (if v ∈ softKeys ev then lam v (τ v) else 1) := by
  have hl := relik_legal (lam := lam) he
  have hobs : Observed (relik bn lam ev) v ↔ Observed ev v := by simp [Observed, relik_hard]
  by_cases h1 : v ∈ hardKeys ev
  · have ho := mem_hardKeys.1 h1
    have hns : v ∉ softKeys ev := fun h2 => by
      obtain ⟨l, h2⟩ := mem_softKeys.1 h2
      obtain ⟨x, ho⟩ := ho
      have a := Dict.get?_of_mem he.nodup h2
      rw [Dict.get?_of_mem he.nodup ho] at a
      cases a
    rw [if_pos h1, if_neg hns, mul_one]
    obtain ⟨x, hx⟩ := ho
    have e1 : fixed bn ev (fun _ => 0) v = (bn.lab v).idxOf x := by
      have ho : Observed ev v := ⟨x, hx⟩
      have a := Dict.get?_of_mem he.nodup ho.choose_spec
      rw [Dict.get?_of_mem he.nodup hx] at a
      simp only [Option.some.injEq, Evidence.hard.injEq] at a
      simp only [fixed, dif_pos ho, ← a]
    rw [e1]
    simp only [likOf, Dict.get?_of_mem hl.nodup (relik_hard.2 hx)]
    exact lik_hard (he.hard v x hx) _
  · rw [if_neg h1, one_mul]
    by_cases h2 : v ∈ softKeys ev
    · rw [if_pos h2]
      simp only [likOf, Dict.get?_of_mem hl.nodup (relik_soft.2 ⟨h2, rfl⟩), lik]
      simp [List.getD_eq_getElem?_getD, hτ]
    · rw [if_neg h2]
      have : (relik bn lam ev).get? v = none := by
        refine Dict.get?_eq_none.2 fun h => ?_
        rw [relik_keys] at h
        obtain ⟨⟨w, e⟩, hp, rfl⟩ := List.mem_map.1 h
        cases e with
        | hard x => exact h1 (mem_hardKeys.2 ⟨x, hp⟩)
        | soft l => exact h2 (mem_softKeys.2 ⟨l, hp⟩)
      simp [likOf, this]

open Classical in
/-- number of ancestors -/
noncomputable def BN.depth (bn : BN) (v : Name) : Nat :=
  (bn.names.toFinset.filter fun p => Relation.TransGen bn.IsParent p v).card

theorem BN.depth_lt {bn : BN} (hc : bn.Consistent) (ha : bn.Acyclic) {p v : Name} (h : bn.IsParent p v) :
    bn.depth p < bn.depth v := by
  classical
  refine card_lt_card ⟨fun w hw => ?_, fun hs => ?_⟩
  · simp only [mem_filter] at hw ⊢
    exact ⟨hw.1, hw.2.tail h⟩
  · have := hs (mem_filter.2 ⟨List.mem_toFinset.2 (isParent_mem hc h), .single h⟩)
    exact ha p (mem_filter.1 this).2

theorem BN.depth_le (bn : BN) (v : Name) : bn.depth v ≤ bn.names.toFinset.card :=
  by classical exact card_le_card (filter_subset _ _)

open Classical in
/-- parents of `v` in the network in which each variable `w` with an array has the child `φ w` -/
noncomputable def BN.virtualParents (bn : BN) (ev : Dict Evidence) (φ : Name → Name) (v : Name) : Finset Name :=
  (bn.names.toFinset.filter fun p => bn.IsParent p v) ∪ (softKeys ev).filter fun w => φ w = v

theorem BN.mem_virtualParents {bn : BN} (hc : bn.Consistent) {ev : Dict Evidence} {φ : Name → Name}
    {p v : Name} : p ∈ bn.virtualParents ev φ v ↔ bn.IsParent p v ∨ (p ∈ softKeys ev ∧ φ p = v) := by
  simp only [virtualParents, mem_union, mem_filter, List.mem_toFinset]
  exact or_congr_left ⟨fun h => h.2, fun h => ⟨isParent_mem hc h, h⟩⟩

theorem isParent_mem' {bn : BN} {p v : Name} (h : bn.IsParent p v) : v ∈ bn.names := by
  obtain ⟨n, hn, rfl, -⟩ := h
  exact List.mem_map_of_mem hn

theorem softKeys_mem {bn : BN} {ev : Dict Evidence} (he : LegalEvidence bn ev) {v : Name}
    (h : v ∈ softKeys ev) : v ∈ bn.names := by
  obtain ⟨l, h⟩ := mem_softKeys.1 h
  exact he.mem _ h

theorem hardKeys_mem {bn : BN} {ev : Dict Evidence} (he : LegalEvidence bn ev) {v : Name}
    (h : v ∈ hardKeys ev) : v ∈ bn.names := by
  obtain ⟨l, h⟩ := mem_hardKeys.1 h
  exact he.mem _ h

/-- an active trail is one in the network with the additional children -/
theorem Trail.act {bn : BN} (hc : bn.Consistent) {ev : Dict Evidence}
    {φ : Name → Name} (hφ : ∀ v, φ v ∉ bn.names) {q r : Name} {d : Bool} (ht : Trail bn ev [q] d r) :
    Act (fun p v => v ∈ bn.names.toFinset ∪ (softKeys ev).image φ ∧ p ∈ bn.virtualParents ev φ v)
      (· ∈ hardKeys ev ∪ (softKeys ev).image φ) q d r := by
  have harc : ∀ p v, bn.IsParent p v →
      v ∈ bn.names.toFinset ∪ (softKeys ev).image φ ∧ p ∈ bn.virtualParents ev φ v := fun p v h =>
    ⟨mem_union_left _ (List.mem_toFinset.2 (isParent_mem' h)), (BN.mem_virtualParents hc).2 (.inl h)⟩
  have hobs : ∀ v ∈ bn.names, ¬ Observed ev v → v ∉ hardKeys ev ∪ (softKeys ev).image φ := by
    intro v hv ho h
    rcases mem_union.1 h with h | h
    · exact ho (mem_hardKeys.1 h)
    · obtain ⟨w, -, rfl⟩ := mem_image.1 h
      exact hφ w hv
  induction ht with
  | start hq => rw [List.mem_singleton.1 hq]; exact .start
  | up _ ho hp ih => exact ih.up (hobs _ (isParent_mem' hp) ho) (harc _ _ hp)
  | down _ ho hp ih => exact ih.down (hobs _ (isParent_mem hc hp) ho) (harc _ _ hp)
  | @collider v p _ hr hp ih =>
    refine ih.collider ?_ (harc _ _ hp)
    obtain ⟨w, hw, hpath⟩ := hr
    have hpath' := Relation.ReflTransGen.mono (fun p v h => harc p v h) _ _ hpath
    obtain ⟨⟨w, e⟩, hm, rfl⟩ := List.mem_map.1 hw
    cases e with
    | hard x => exact ⟨w, mem_union_left _ (mem_hardKeys.2 ⟨x, hm⟩), hpath'⟩
    | soft l =>
      have hs := mem_softKeys.2 ⟨l, hm⟩
      have hi : φ w ∈ (softKeys ev).image φ := mem_image_of_mem _ hs
      exact ⟨φ w, mem_union_right _ hi, hpath'.tail
        ⟨mem_union_right _ hi, (BN.mem_virtualParents hc).2 (.inr ⟨hs, rfl⟩)⟩⟩

/-- **Connected variables are dependent for some tables.** -/
theorem exists_tables {bn : BN} (hc : bn.Consistent) (ha : bn.Acyclic) {ev : Dict Evidence}
    (he : LegalEvidence bn ev) (h2 : ∀ v ∈ bn.names, 2 ≤ bn.card v) {q r : Name} (hq : q ∈ bn.names)
    (hr : r ∈ bn.names) (hqo : ¬ Observed ev q) (hro : ¬ Observed ev r) {d : Bool}
    (ht : Trail bn ev [q] d r) :
    ∃ bn' ev', bn'.bare = bn.bare ∧ bn'.Consistent ∧ bn'.Stochastic ∧ bn'.Positive ∧ SameKind ev ev' ∧
      LegalEvidence bn' ev' ∧ PositiveEvidence ev' ∧ 0 < totalWeight bn' ev' (fun _ => 0) ∧
      posterior bn' ev' [q, r] (fun _ => 0) ≠
        posterior bn' ev' [q] (fun _ => 0) * posterior bn' ev' [r] fun _ => 0 := by
  classical
  obtain ⟨φ, hinj, hφ⟩ := exists_fresh bn.names
  set N := bn.names.toFinset with hN
  set W := (softKeys ev).image φ with hW
  set V := N ∪ W with hV
  set pa := bn.virtualParents ev φ with hpa
  set O := hardKeys ev ∪ W with hO
  set o := fixed bn ev fun _ => 0 with ho
  set card' : Name → Nat := fun v => if v ∈ bn.names then bn.card v else 2 with hcard
  have hWN : ∀ v ∈ W, v ∉ bn.names := fun v hv h => by
    obtain ⟨w, -, rfl⟩ := mem_image.1 hv
    exact hφ w h
  have hNW : Disjoint N W := disjoint_left.2 fun v h1 h2 => hWN v h2 (List.mem_toFinset.1 h1)
  have hc2 : ∀ v, 2 ≤ card' v := fun v => by
    simp only [hcard]; split
    · exact h2 v ‹_›
    · exact le_rfl
  have hcN : ∀ v ∈ bn.names, card' v = bn.card v := fun v hv => if_pos hv
  have hrank : ∀ v, ∀ p ∈ pa v, (if p ∈ bn.names then bn.depth p else N.card + 1) <
      (if v ∈ bn.names then bn.depth v else N.card + 1) := by
    intro v p hp
    rcases (BN.mem_virtualParents hc).1 hp with h | ⟨h, rfl⟩
    · rw [if_pos (isParent_mem hc h), if_pos (isParent_mem' h)]
      exact BN.depth_lt hc ha h
    · rw [if_pos (softKeys_mem he h), if_neg (hφ p)]
      exact Nat.lt_succ_of_le (bn.depth_le p)
  have hcl : ∀ v ∈ V, pa v ⊆ V := by
    intro v _ p hp
    refine mem_union_left _ (List.mem_toFinset.2 ?_)
    rcases (BN.mem_virtualParents hc).1 hp with h | ⟨h, rfl⟩
    · exact isParent_mem hc h
    · exact softKeys_mem he h
  have hON : O ⊆ V := by
    intro v hv
    rcases mem_union.1 hv with h | h
    · exact mem_union_left _ (List.mem_toFinset.2 (hardKeys_mem he h))
    · exact mem_union_right _ h
  have ho0 : ∀ v, ¬ Observed ev v → o v = 0 := fun v h => by simp only [ho, fixed, dif_neg h]
  have holt : ∀ v, o v < card' v := by
    intro v
    by_cases h : Observed ev v
    · have := fixed_lt he h fun _ => 0
      rwa [hcN v (hardKeys_mem he (mem_hardKeys.2 h))]
    · rw [ho0 v h]; have := hc2 v; omega
  have hunobs : ∀ v ∈ bn.names, ¬ Observed ev v → v ∉ O := by
    intro v hv h h'
    rcases mem_union.1 h' with h' | h'
    · exact h (mem_hardKeys.1 h')
    · exact hWN v h' hv
  obtain ⟨θ, hθ, hcov⟩ := exists_dependent hrank V hcl (fun v _ => hc2 v) O hON o (fun v _ => holt v) q r
    (mem_union_left _ (List.mem_toFinset.2 hq)) (hunobs q hq hqo)
    (mem_union_left _ (List.mem_toFinset.2 hr)) (hunobs r hr hro) d (ht.act hc hφ)
  set lam : Name → Nat → ℚ := fun v i => θ (φ v) (Function.update (fun _ => 0) v i) with hlam
  set bn' := bn.retable θ with hbn'
  set ev' := relik bn lam ev with hev'
  have hb : bn'.bare = bn.bare := BN.retable_bare bn θ
  have hmemV : ∀ v ∈ bn.names, v ∈ V := fun v hv => mem_union_left _ (List.mem_toFinset.2 hv)
  have hdep : ∀ n ∈ bn, DependsOn (n.name :: n.parentOrder).toFinset (θ n.name) := by
    intro n hn
    have hnn : n.name ∈ bn.names := List.mem_map_of_mem hn
    refine (hθ.dep n.name (hmemV _ hnn)).mono fun v hv => ?_
    rcases mem_insert.1 hv with rfl | hv
    · simp
    · rcases (BN.mem_virtualParents hc).1 hv with h | ⟨-, h⟩
      · simp [(isParent_iff hc.nodup hn).1 h]
      · exact absurd (h ▸ hnn) (hφ v)
  have hc' : bn'.Consistent := BN.retable_consistent hc
  have he' : LegalEvidence bn' ev' := (relik_legal he).of_bare hb
  have hwt : ∀ τ, Varies card' N (fun _ => 0) τ → weight bn' ev' τ = (∏ v ∈ N, θ v τ) *
      ((if ∀ v ∈ hardKeys ev, τ v = o v then 1 else 0) * ∏ v ∈ W, θ v τ) := by
    intro τ hτ
    have hleg : Legal bn.card bn.names τ := fun v hv => by
      rw [← hcN v hv]; exact hτ.2 v (List.mem_toFinset.2 hv)
    rw [weight_eq_prod hc'.nodup he', BN.names_of_bare hb, ← List.prod_toFinset _ hc.nodup,
      prod_mul_distrib]
    congr 1
    · exact prod_congr rfl fun v hv => BN.retable_entryOf hc hdep (List.mem_toFinset.1 hv) hleg
    · have hlik : ∀ v ∈ N, likOf bn' ev' v τ = (if v ∈ hardKeys ev then if τ v = o v then 1 else 0 else 1) *
          (if v ∈ softKeys ev then lam v (τ v) else 1) := by
        intro v hv
        rw [← relik_likOf he (hleg v (List.mem_toFinset.1 hv))]
        simp only [likOf, BN.lab_of_bare hb, hev']
      rw [prod_congr rfl hlik, prod_mul_distrib]
      congr 1
      · rw [prod_ite_mem, inter_eq_right.2 fun v hv => List.mem_toFinset.2 (hardKeys_mem he hv)]
        by_cases h : ∀ v ∈ hardKeys ev, τ v = o v
        · rw [if_pos h, prod_eq_one fun v hv => if_pos (h v hv)]
        · rw [if_neg h]
          push Not at h
          obtain ⟨v, hv, hne⟩ := h
          exact prod_eq_zero hv (if_neg hne)
      · rw [prod_ite_mem, inter_eq_right.2 fun v hv => List.mem_toFinset.2 (softKeys_mem he hv), hW,
          prod_image fun x _ y _ e => hinj e]
        refine prod_congr rfl fun w hw => ?_
        refine hθ.dep (φ w) (mem_union_right _ (mem_image_of_mem _ hw)) _ _ fun u hu => ?_
        have hwne : φ w ≠ w := fun e => hφ w (e.symm ▸ softKeys_mem he hw)
        rcases mem_insert.1 hu with rfl | hu
        · rw [Function.update_of_ne hwne, hτ.1 _ fun h => hφ w (List.mem_toFinset.1 h)]
        · rcases (BN.mem_virtualParents hc).1 hu with h | ⟨-, h⟩
          · exact absurd (isParent_mem' h) (hφ w)
          · rw [hinj h, Function.update_self]
  have hmass : ∀ F : Assign → ℚ, DependsOn N F →
      sumOver bn'.card bn'.names.toFinset (fun τ => weight bn' ev' τ * F τ) (fun _ => 0) =
        mass card' V θ fun τ => seen O o τ * F τ := by
    intro F hF
    rw [BN.names_of_bare hb, BN.card_of_bare hb, ← hN,
      sumOver_card_eq (card' := card') fun v hv => (hcN v (List.mem_toFinset.1 hv)).symm]
    have hWl : W.toList.toFinset = W := by simp
    have e1 : mass card' V θ (fun τ => seen O o τ * F τ) = sumOver card' V (fun τ =>
        ((∏ v ∈ N, θ v τ) * ((if ∀ v ∈ hardKeys ev, τ v = o v then 1 else 0) * ∏ v ∈ W, θ v τ) * F τ) *
          if ∀ v ∈ W.toList, τ v = 0 then 1 else 0) fun _ => 0 := by
      refine sumOver_congr fun τ _ => ?_
      have e2 : seen O o τ = (if ∀ v ∈ hardKeys ev, τ v = o v then 1 else 0) *
          if ∀ v ∈ W.toList, τ v = 0 then 1 else 0 := by
        unfold seen
        have hw0 : ∀ v ∈ W, o v = 0 := fun v hv => ho0 v fun h =>
          hWN v hv (hardKeys_mem he (mem_hardKeys.2 h))
        by_cases h1 : ∀ v ∈ hardKeys ev, τ v = o v
        · rw [if_pos h1, one_mul]
          refine if_congr ?_ rfl rfl
          constructor
          · intro h v hv
            rw [h v (mem_union_right _ (mem_toList.1 hv)), hw0 v (mem_toList.1 hv)]
          · intro h v hv
            rcases mem_union.1 hv with hv | hv
            · exact h1 v hv
            · rw [h v (mem_toList.2 hv), hw0 v hv]
        · rw [if_neg h1, zero_mul, if_neg]
          exact fun h => h1 fun v hv => h v (mem_union_left _ hv)
      beta_reduce
      rw [e2, prod_union hNW]
      ring
    rw [e1, sumOver_pin V W.toList _ _ (fun v _ => by have := hc2 v; omega), hWl,
      show V \ W = N by rw [hV, union_sdiff_right]; exact sdiff_eq_self_of_disjoint hNW]
    exact sumOver_congr fun τ hτ => by rw [hwt τ hτ]
  have hone : ∀ Q : List Name, (∀ v ∈ Q, v ∈ bn.names) →
      sumOver bn'.card (bn'.names.toFinset \ Q.toFinset) (weight bn' ev') (fun _ => 0) =
        mass card' V θ fun τ => seen O o τ * if ∀ v ∈ Q, τ v = 0 then 1 else 0 := by
    intro Q hQ
    rw [← hmass _ fun σ τ h => ?_, sumOver_pin]
    · intro v hv
      rw [BN.card_of_bare hb]
      have := h2 v (hQ v hv)
      simp only; omega
    · refine if_congr ?_ rfl rfl
      exact forall₂_congr fun v hv => by rw [h v (List.mem_toFinset.2 (hQ v hv))]
  have hZ : totalWeight bn' ev' (fun _ => 0) = mass card' V θ (seen O o) := by
    have := hone [] (by simp)
    simpa [totalWeight] using this
  have hZpos : 0 < totalWeight bn' ev' (fun _ => 0) := by
    rw [hZ]
    refine mass_pos hθ (seen_nonneg O o) (τ := o) ⟨fun v hv => ho0 v fun h => hv ?_, fun v _ => holt v⟩ ?_
    · exact hON (mem_union_left _ (mem_hardKeys.2 h))
    · simp [seen]
  refine ⟨bn', ev', hb, hc', ?_, ?_, relik_sameKind bn lam ev, he', ?_, hZpos, ?_⟩
  · refine BN.retable_stochastic hc hdep fun v hv σ => ?_
    rw [← hcN v hv]
    exact hθ.sum v (hmemV v hv) σ
  · exact BN.retable_positive fun v hv => hθ.pos v (hmemV v hv)
  · intro v l hl x hx
    obtain ⟨h1, rfl⟩ := relik_soft.1 hl
    obtain ⟨i, -, rfl⟩ := List.mem_map.1 hx
    exact hθ.pos _ (mem_union_right _ (mem_image_of_mem _ h1)) _
  · intro heq
    apply hcov
    simp only [posterior, if_pos hZpos] at heq
    rw [hone [q, r] (by simp [hq, hr]), hone [q] (by simp [hq]), hone [r] (by simp [hr])] at heq
    have hZne := hZpos.ne'
    rw [div_mul_div_comm, div_eq_div_iff hZne (mul_ne_zero hZne hZne)] at heq
    unfold cov
    have e1 : mass card' V θ (fun τ => seen O o τ * (ind q τ * ind r τ)) =
        mass card' V θ fun τ => seen O o τ * if ∀ v ∈ [q, r], τ v = 0 then 1 else 0 := by
      refine mass_congr fun τ => ?_
      congr 1
      by_cases a : τ q = 0 <;> by_cases b : τ r = 0 <;> simp [ind, a, b]
    have e2 : ∀ v, mass card' V θ (fun τ => seen O o τ * ind v τ) =
        mass card' V θ fun τ => seen O o τ * if ∀ u ∈ [v], τ u = 0 then 1 else 0 := fun v =>
      mass_congr fun τ => by simp [ind]
    rw [e1, e2 q, e2 r, ← hZ, sub_eq_zero]
    refine mul_right_cancel₀ hZne ?_
    linear_combination heq

end Primo
