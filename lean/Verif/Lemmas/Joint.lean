import Verif.Spec.Joint
import Verif.Lemmas.Bucket
import Verif.Lemmas.Order
import Mathlib.Order.WellFounded
import Mathlib.Data.Fintype.Order

/-! # Non-negativity, normalisation and the joint of an acyclic network -/

namespace Primo
open Finset

theorem NDArray.get_nonneg {a : NDArray} (h : ∀ x ∈ a.data, 0 ≤ x) (idx : List Nat) :
    0 ≤ a.get idx := by
  unfold NDArray.get
  rw [List.getD_eq_getElem?_getD]
  rcases h' : a.data[ravel a.shape idx]? with _ | x
  · simp
  · simpa using h x (List.mem_of_getElem? h')

theorem lik_nonneg {values : List Val} {e : Evidence} (h : ∀ l, e = .soft l → ∀ x ∈ l, 0 ≤ x)
    (i : Nat) : 0 ≤ lik values e i := by
  cases e with
  | hard x => unfold lik; simp only; split <;> norm_num
  | soft l =>
    unfold lik
    simp only [List.getD_eq_getElem?_getD]
    rcases h' : l[i]? with _ | x
    · simp
    · simpa using h l rfl x (List.mem_of_getElem? h')

theorem list_prod_nonneg {l : List ℚ} (h : ∀ x ∈ l, 0 ≤ x) : 0 ≤ l.prod := by
  induction l with
  | nil => simp
  | cons a l ih =>
    rw [List.prod_cons]
    exact mul_nonneg (h a (by simp)) (ih fun x hx => h x (by simp [hx]))

theorem weight_nonneg {bn : BN} (hn : bn.NonNeg) {ev : Dict Evidence} (he : NonNegEvidence ev)
    (σ : Assign) : 0 ≤ weight bn ev σ := by
  unfold weight
  refine mul_nonneg (list_prod_nonneg ?_) (list_prod_nonneg ?_)
  · intro x hx
    obtain ⟨n, hnm, rfl⟩ := List.mem_map.1 hx
    exact NDArray.get_nonneg (hn n hnm) _
  · intro x hx
    obtain ⟨p, hp, rfl⟩ := List.mem_map.1 hx
    exact lik_nonneg (fun l hl => he p.1 l (by rw [← hl]; exact hp)) _

theorem entry_dependsOn (n : NodeV) : DependsOn (n.name :: n.parentOrder).toFinset n.entry := by
  intro σ τ h
  unfold NodeV.entry
  rw [h n.name (by simp), List.map_congr_left fun p hp => h p (by simp [hp])]

theorem weight_dependsOn {bn : BN} (hc : bn.Consistent) {ev : Dict Evidence}
    (he : LegalEvidence bn ev) : DependsOn bn.names.toFinset (weight bn ev) := by
  intro σ τ h
  unfold weight
  congr 2
  · refine List.map_congr_left fun n hn => entry_dependsOn n σ τ fun v hv => h v ?_
    simp only [List.toFinset_cons, mem_insert, List.mem_toFinset] at hv ⊢
    rcases hv with rfl | hv
    · exact List.mem_map_of_mem hn
    · exact hc.parents_mem n hn v hv
  · exact List.map_congr_left fun p hp => by rw [h p.1 (by simpa using he.mem p hp)]

theorem totalWeight_const {bn : BN} (hc : bn.Consistent) {ev : Dict Evidence}
    (he : LegalEvidence bn ev) (σ τ : Assign) : totalWeight bn ev σ = totalWeight bn ev τ := by
  have := (weight_dependsOn hc he).sumOver (card := bn.card) (s := bn.names.toFinset)
  exact this σ τ (by simp)

theorem totalWeight_split {bn : BN} {ev : Dict Evidence} {Q : List Name}
    (hQ : ∀ v ∈ Q, v ∈ bn.names) (σ : Assign) :
    totalWeight bn ev σ = sumOver bn.card Q.toFinset
      (sumOver bn.card (bn.names.toFinset \ Q.toFinset) (weight bn ev)) σ := by
  have hsub : Q.toFinset ⊆ bn.names.toFinset := fun v hv => by
    simpa using hQ v (by simpa using hv)
  rw [totalWeight]
  nth_rw 1 [← Finset.union_sdiff_of_subset hsub]
  rw [sumOver_union Finset.disjoint_sdiff]

theorem posterior_nonneg {bn : BN} (hn : bn.NonNeg) {ev : Dict Evidence} (he : NonNegEvidence ev)
    (Q : List Name) (σ : Assign) : 0 ≤ posterior bn ev Q σ := by
  unfold posterior
  have hM := sumOver_nonneg (card := bn.card) (s := bn.names.toFinset \ Q.toFinset) (σ := σ)
    (F := weight bn ev) fun τ _ => weight_nonneg hn he τ
  simp only
  split
  · rename_i h; exact div_nonneg hM h.le
  · exact hM

theorem posterior_sum {bn : BN} (hc : bn.Consistent) {ev : Dict Evidence} (he : LegalEvidence bn ev)
    {Q : List Name} (hQ : ∀ v ∈ Q, v ∈ bn.names) {σ : Assign} (hZ : 0 < totalWeight bn ev σ) :
    sumOver bn.card Q.toFinset (posterior bn ev Q) σ = 1 := by
  have : sumOver bn.card Q.toFinset (posterior bn ev Q) σ =
      sumOver bn.card Q.toFinset (fun τ => sumOver bn.card (bn.names.toFinset \ Q.toFinset)
        (weight bn ev) τ / totalWeight bn ev σ) σ := by
    refine sumOver_congr fun τ _ => ?_
    unfold posterior
    simp only
    rw [totalWeight_const hc he τ σ, if_pos hZ]
  rw [this, sumOver_div_const, ← totalWeight_split hQ, div_self hZ.ne']

theorem posterior_eq_zero {bn : BN} (hn : bn.NonNeg) {ev : Dict Evidence} (hn' : NonNegEvidence ev) {Q : List Name}
    (hQ : ∀ v ∈ Q, v ∈ bn.names) {σ : Assign} (hσ : Legal bn.card Q σ)
    (hZ : totalWeight bn ev σ = 0) : posterior bn ev Q σ = 0 := by
  unfold posterior
  simp only
  rw [if_neg (by rw [hZ]; exact lt_irrefl _)]
  rw [totalWeight_split hQ] at hZ
  refine eq_zero_of_sumOver_eq_zero (τ := σ) (fun τ _ => sumOver_nonneg fun ρ _ =>
    weight_nonneg hn hn' ρ) hZ ⟨fun _ _ => rfl, fun v hv => hσ v (by simpa using hv)⟩

/-! ### acyclic networks -/

theorem exists_sink {bn : BN} (ha : bn.Acyclic) {S : Finset Name} (hS : S.Nonempty) :
    ∃ v ∈ S, ∀ u ∈ S, ¬ bn.IsParent v u := by
  let r : S → S → Prop := fun a b => Relation.TransGen bn.IsParent b.1 a.1
  have : IsTrans S r := ⟨fun a b c h1 h2 => Relation.TransGen.trans h2 h1⟩
  have : Std.Irrefl r := ⟨fun a h => ha a.1 h⟩
  have hwf : WellFounded r := Finite.wellFounded_of_trans_of_irrefl r
  obtain ⟨v, hv⟩ := hS
  obtain ⟨m, _, hm⟩ := hwf.has_min Set.univ ⟨⟨v, hv⟩, trivial⟩
  exact ⟨m.1, m.2, fun u hu h => hm ⟨u, hu⟩ trivial (.single h)⟩

theorem entryOf_dependsOn {bn : BN} {v : Name} {A : Finset Name} (hv : v ∈ A)
    (hp : ∀ p, bn.IsParent p v → p ∈ A) : DependsOn A (entryOf bn v) := by
  intro σ τ hst
  rcases h : bn.find? (fun n => n.name = v) with _ | n
  · simp only [entryOf, h]
  · have hn := List.mem_of_find?_eq_some h
    have hname : n.name = v := by simpa using List.find?_some h
    simp only [entryOf, h]
    refine ((entry_dependsOn n).mono fun u hu => ?_) σ τ hst
    simp only [List.toFinset_cons, mem_insert, List.mem_toFinset] at hu
    rcases hu with rfl | hu
    · rw [hname]; exact hv
    · exact hp u ⟨n, hn, hname, hu⟩

theorem entryOf_sum {bn : BN} (hc : bn.Consistent) (hs : bn.Stochastic) {v : Name}
    (hv : v ∈ bn.names) {σ : Assign} (hσ : ∀ p, bn.IsParent p v → σ p < bn.card p) :
    sumOver bn.card {v} (entryOf bn v) σ = 1 := by
  obtain ⟨n, hn, rfl⟩ := BN.exists_of_mem_names hv
  rw [sumOver_singleton]
  have hcard : bn.card n.name = n.values.length := by rw [BN.card, BN.lab_eq hc.nodup hn]
  rw [hcard, ← hs n hn σ fun p hp => hσ p ⟨n, hn, rfl, hp⟩]
  refine sum_congr rfl fun i _ => ?_
  simp only [entryOf, BN.lab_of_mem hc.nodup hn, NodeV.entry, Function.update_self]
  congr 2
  refine List.map_congr_left fun p hp => Function.update_of_ne ?_ _ _
  rintro rfl
  exact hc.self n hn hp

/-- Summing out everything outside an ancestrally closed set leaves the tables of that set. -/
theorem sumOver_joint {bn : BN} (hc : bn.Consistent) (ha : bn.Acyclic) (hs : bn.Stochastic)
    (A : Finset Name) (hA : ∀ v ∈ A, ∀ p, bn.IsParent p v → p ∈ A) (S : Finset Name)
    (hSn : S ⊆ bn.names.toFinset) (hdis : Disjoint A S)
    (hclosed : ∀ v ∈ S, ∀ p, bn.IsParent p v → p ∈ A ∪ S) {σ : Assign}
    (hσ : ∀ v ∈ A, σ v < bn.card v) :
    sumOver bn.card S (fun τ => ∏ v ∈ A ∪ S, entryOf bn v τ) σ = ∏ v ∈ A, entryOf bn v σ := by
  induction hk : S.card generalizing S with
  | zero => rw [card_eq_zero.1 hk]; simp
  | succ k ih =>
    have hne : S.Nonempty := card_pos.1 (by omega)
    obtain ⟨v, hv, hsink⟩ := exists_sink ha hne
    have hvA : v ∉ A := fun h => disjoint_left.1 hdis h hv
    have hcl' : ∀ u ∈ S.erase v, ∀ p, bn.IsParent p u → p ∈ A ∪ S.erase v := by
      intro u hu p hp
      rcases mem_union.1 (hclosed u (mem_of_mem_erase hu) p hp) with h | h
      · exact mem_union_left _ h
      · refine mem_union_right _ (mem_erase.2 ⟨?_, h⟩)
        rintro rfl
        exact hsink u (mem_of_mem_erase hu) hp
    have hi := ih (S.erase v) ((erase_subset _ _).trans hSn) (hdis.mono_right (erase_subset _ _)) hcl'
      (by rw [card_erase_of_mem hv]; omega)
    rw [← hi]
    have hSe : S = S.erase v ∪ {v} := by
      ext u
      simp only [mem_union, mem_erase, mem_singleton]
      constructor
      · intro h
        by_cases e : u = v
        · exact Or.inr e
        · exact Or.inl ⟨e, h⟩
      · rintro (h | rfl)
        · exact h.2
        · exact hv
    have hd : Disjoint (S.erase v) {v} := by simp
    nth_rw 1 [hSe]
    rw [sumOver_union hd]
    refine sumOver_congr fun τ hτ => ?_
    have hprod : ∀ ρ, ∏ u ∈ A ∪ S, entryOf bn u ρ =
        entryOf bn v ρ * ∏ u ∈ A ∪ S.erase v, entryOf bn u ρ := by
      intro ρ
      have : A ∪ S = insert v (A ∪ S.erase v) := by
        rw [← union_insert, insert_erase hv]
      rw [this, prod_insert (by simp [hvA])]
    simp only [hprod]
    have hdep : DependsOn (A ∪ S.erase v) (fun ρ => ∏ u ∈ A ∪ S.erase v, entryOf bn u ρ) := by
      intro ρ ρ' h
      refine prod_congr rfl fun u hu => ?_
      refine entryOf_dependsOn (A := A ∪ S.erase v) hu (fun p hp => ?_) ρ ρ' h
      rcases mem_union.1 hu with h' | h'
      · exact mem_union_left _ (hA u h' p hp)
      · exact hcl' u h' p hp
    rw [sumOver_mul_right hdep (by simp [hvA]), entryOf_sum hc hs (by simpa using hSn hv), one_mul]
    intro p hp
    have hpv : p ≠ v := by
      rintro rfl
      exact hsink p hv hp
    rcases mem_union.1 (hclosed v hv p hp) with h | h
    · rw [hτ.1 p fun hh => disjoint_left.1 hdis h (mem_of_mem_erase hh)]
      exact hσ p h
    · exact hτ.2 p (mem_erase.2 ⟨hpv, h⟩)

theorem joint_eq_prod {bn : BN} (hc : bn.Consistent) (σ : Assign) :
    joint bn σ = ∏ v ∈ bn.names.toFinset, entryOf bn v σ := by
  rw [joint, ← prod_entryOf hc.nodup, List.prod_toFinset _ hc.nodup]

theorem weight_nil (bn : BN) : weight bn [] = joint bn := by
  funext σ; simp [weight, joint]

theorem isParent_mem {bn : BN} (hc : bn.Consistent) {p v : Name} (h : bn.IsParent p v) :
    p ∈ bn.names := by
  obtain ⟨n, hn, _, hp⟩ := h
  exact hc.parents_mem n hn p hp

/-- marginal of an ancestrally closed set of variables -/
theorem sumOver_joint_closed {bn : BN} (hc : bn.Consistent) (ha : bn.Acyclic) (hs : bn.Stochastic)
    {A : Finset Name} (hAn : A ⊆ bn.names.toFinset)
    (hA : ∀ v ∈ A, ∀ p, bn.IsParent p v → p ∈ A) {σ : Assign} (hσ : ∀ v ∈ A, σ v < bn.card v) :
    sumOver bn.card (bn.names.toFinset \ A) (joint bn) σ = ∏ v ∈ A, entryOf bn v σ := by
  have hU := Finset.union_sdiff_of_subset hAn
  have := sumOver_joint hc ha hs A hA (bn.names.toFinset \ A) sdiff_subset disjoint_sdiff
    (fun v hv p hp => by rw [hU]; simpa using isParent_mem hc hp) hσ
  rw [hU] at this
  rw [← this]
  exact sumOver_congr fun τ _ => joint_eq_prod hc τ

theorem totalWeight_nil {bn : BN} (hc : bn.Consistent) (ha : bn.Acyclic) (hs : bn.Stochastic)
    (σ : Assign) : totalWeight bn [] σ = 1 := by
  have := sumOver_joint_closed hc ha hs (A := ∅) (by simp) (by simp) (σ := σ) (by simp)
  rw [totalWeight, weight_nil]
  simpa using this

end Primo
