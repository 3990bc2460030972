import Verif.Spec.Unroll
import Verif.Lemmas.Feedback

/-! # Lemmas: sums over the unrolled network -/

namespace Primo
open Finset

/-- renaming the summed variables -/
theorem sumOver_image {card : Name → Nat} {f : Name → Name} (hf : Function.Injective f)
    (s : Finset Name) (F : Assign → ℚ) (σ : Assign) :
    sumOver card (s.image f) (fun τ => F (τ ∘ f)) σ = sumOver (card ∘ f) s F (σ ∘ f) := by
  induction s using Finset.induction generalizing σ with
  | empty => simp
  | insert a s ha ih =>
    have h1 : f a ∉ s.image f := by
      intro h
      obtain ⟨b, hb, e⟩ := Finset.mem_image.1 h
      exact ha (hf e ▸ hb)
    rw [Finset.image_insert, sumOver_insert h1, sumOver_insert ha]
    refine Finset.sum_congr rfl fun i _ => ?_
    rw [ih]
    congr 1
    funext v
    by_cases hv : v = a
    · subst hv; simp
    · simp [hv, hf.ne hv]

/-- fixing variables by indicators instead of leaving them out of the sum -/
theorem sumOver_pin {card : Name → Nat} (s : Finset Name) (Q : List Name) (F : Assign → ℚ)
    (σ : Assign) (hσ : Legal card Q σ) :
    sumOver card s (fun τ => F τ * if ∀ v ∈ Q, τ v = σ v then 1 else 0) σ =
      sumOver card (s \ Q.toFinset) F σ := by
  have hs : s = (s ∩ Q.toFinset) ∪ (s \ Q.toFinset) := by
    ext v; simp only [mem_union, mem_inter, mem_sdiff]; tauto
  have hd : Disjoint (s ∩ Q.toFinset) (s \ Q.toFinset) :=
    Finset.disjoint_left.2 fun v h1 h2 => (mem_sdiff.1 h2).2 (mem_inter.1 h1).2
  conv_lhs => rw [hs]
  rw [sumOver_union hd]
  have key : ∀ (A : Finset Name), (∀ v ∈ A, v ∈ Q) → A ⊆ s → ∀ ρ : Assign, (∀ v, v ∉ A → ρ v = σ v) →
      sumOver card A (sumOver card (s \ Q.toFinset)
        (fun τ => F τ * if ∀ v ∈ Q, τ v = σ v then 1 else 0)) ρ =
      sumOver card (s \ Q.toFinset) F σ := by
    intro A
    induction A using Finset.induction with
    | empty =>
      intro _ _ ρ hρ
      have : ρ = σ := funext fun v => hρ v (by simp)
      subst this
      rw [sumOver_empty]
      refine sumOver_congr fun τ hτ => ?_
      rw [if_pos fun v hv => hτ.1 v (by simp [hv]), mul_one]
    | insert a A ha ih =>
      intro hA hsub ρ hρ
      rw [sumOver_insert ha, Finset.sum_eq_single (σ a)]
      · refine ih (fun v hv => hA v (by simp [hv])) (fun v hv => hsub (by simp [hv])) _ fun v hv => ?_
        by_cases hva : v = a
        · subst hva; simp
        · rw [Function.update_of_ne hva]; exact hρ v (by simp [hva, hv])
      · intro i _ hi
        have h0 : ∀ τ, Varies card A (Function.update ρ a i) τ → ∀ τ', Varies card (s \ Q.toFinset) τ τ' →
            (F τ' * if ∀ v ∈ Q, τ' v = σ v then 1 else 0) = 0 := by
          intro τ hτ τ' hτ'
          rw [if_neg, mul_zero]
          intro h
          have h1 := h a (hA a (by simp))
          rw [hτ'.1 a (by simp [hA a]), hτ.1 a ha, Function.update_self] at h1
          exact hi h1
        rw [sumOver_congr (G := fun _ => 0), sumOver_zero]
        intro τ hτ
        rw [sumOver_congr (G := fun _ => 0) (h0 τ hτ), sumOver_zero]
      · intro h
        exact absurd (Finset.mem_range.2 (hσ a (hA a (by simp)))) h
  exact key _ (fun v hv => List.mem_toFinset.1 (mem_inter.1 hv).2) Finset.inter_subset_left σ
    fun _ _ => rfl

/-- only the numbers of outcomes of the summed variables matter -/
theorem sumOver_card_congr {card card' : Name → Nat} {s : Finset Name} (h : ∀ v ∈ s, card v = card' v)
    (F : Assign → ℚ) (σ : Assign) : sumOver card s F σ = sumOver card' s F σ := by
  induction s using Finset.induction generalizing σ with
  | empty => simp
  | insert a s ha ih =>
    rw [sumOver_insert ha, sumOver_insert ha, h a (by simp)]
    exact Finset.sum_congr rfl fun i _ => ih (fun v hv => h v (by simp [hv])) _

/-! ## the unrolled network -/

namespace BN

theorem lab_map {bn : BN} {g : NodeV → NodeV} {f : Name → Name} (hf : Function.Injective f)
    (h1 : ∀ n ∈ bn, (g n).name = f n.name) (h2 : ∀ n ∈ bn, (g n).values = n.values) (v : Name) :
    lab (bn.map g) (f v) = bn.lab v := by
  induction bn with
  | nil => rfl
  | cons n bn ih =>
    have ih := ih (fun m hm => h1 m (by simp [hm])) fun m hm => h2 m (by simp [hm])
    unfold lab at ih ⊢
    rw [List.map_cons, List.find?_cons, List.find?_cons, h1 n (by simp)]
    by_cases hv : n.name = v
    · simp [hv, h2 n]
    · have : f n.name ≠ f v := hf.ne hv
      simp only [hv, this, decide_false]
      exact ih

theorem lab_append_left {a b : BN} {v : Name} (h : v ∈ a.names) : lab (a ++ b) v = a.lab v := by
  unfold lab
  rw [List.find?_append]
  have : (a.find? fun n => n.name = v).isSome := by
    rw [List.find?_isSome]
    obtain ⟨n, hn, e⟩ := List.mem_map.1 h
    exact ⟨n, hn, by simpa using e⟩
  obtain ⟨n, hn⟩ := Option.isSome_iff_exists.1 this
  rw [hn]; rfl

theorem lab_append_right {a b : BN} {v : Name} (h : v ∉ a.names) : lab (a ++ b) v = b.lab v := by
  unfold lab
  rw [List.find?_append]
  have : (a.find? fun n => n.name = v) = none := by
    rw [List.find?_eq_none]
    intro n hn hv
    exact h (List.mem_map.2 ⟨n, hn, by simpa using hv⟩)
  rw [this]; rfl

theorem lab_of_not_mem {bn : BN} {v : Name} (h : v ∉ bn.names) : bn.lab v = [] := by
  have := lab_append_right (b := []) h
  rw [List.append_nil] at this
  rw [this]; rfl

end BN

theorem Tagging.injective {tag : Nat → Name → Name} (h : Tagging tag) (k : Nat) :
    Function.Injective (tag k) := fun _ _ e => (h _ _ _ _ e).2

theorem NodeV.entry_tagged (f : Name → Name) (n : NodeV) (σ : Assign) :
    (n.tagged f).entry σ = n.entry (σ ∘ f) := by
  unfold NodeV.entry NodeV.tagged
  simp [List.map_map]

namespace DBN
variable {d : DBN} {tag : Nat → Name → Name}

theorem linked_name (k : Nat) (n : NodeV) : (d.linked tag k n).name = tag (k + 1) n.name := by
  unfold linked; split <;> rfl

theorem linked_values (k : Nat) (n : NodeV) : (d.linked tag k n).values = n.values := by
  unfold linked; split <;> rfl

theorem slice_succ (k : Nat) : d.slice (k + 1) = d.twoTbn := by
  unfold slice; rw [if_neg (by simp)]

theorem names_linked (k : Nat) :
    BN.names (d.twoTbn.map (d.linked tag k)) = d.twoTbn.names.map (tag (k + 1)) := by
  unfold BN.names
  rw [List.map_map, List.map_map]
  exact List.map_congr_left fun n _ => linked_name k n

theorem names_unrolled_succ (k : Nat) : (d.unrolled tag (k + 1)).names =
    (d.unrolled tag k).names ++ d.twoTbn.names.map (tag (k + 1)) := by
  rw [unrolled, ← names_linked]
  simp [BN.names]

theorem names_unrolled_zero : (d.unrolled tag 0).names = d.b0.names.map (tag 0) := by
  simp [unrolled, BN.names, NodeV.tagged]

theorem mem_unrolled {k : Nat} {x : Name} : x ∈ (d.unrolled tag k).names ↔
    ∃ j ≤ k, ∃ v ∈ (d.slice j).names, tag j v = x := by
  induction k with
  | zero =>
    rw [names_unrolled_zero, List.mem_map]
    constructor
    · rintro ⟨v, hv, rfl⟩; exact ⟨0, le_refl _, v, hv, rfl⟩
    · rintro ⟨j, hj, v, hv, rfl⟩
      obtain rfl : j = 0 := by omega
      exact ⟨v, hv, rfl⟩
  | succ k ih =>
    rw [names_unrolled_succ, List.mem_append, ih, List.mem_map]
    constructor
    · rintro (⟨j, hj, v, hv, rfl⟩ | ⟨v, hv, rfl⟩)
      · exact ⟨j, by omega, v, hv, rfl⟩
      · exact ⟨k + 1, le_refl _, v, by rw [slice_succ]; exact hv, rfl⟩
    · rintro ⟨j, hj, v, hv, rfl⟩
      by_cases hjk : j ≤ k
      · exact Or.inl ⟨j, hjk, v, hv, rfl⟩
      · obtain rfl : j = k + 1 := by omega
        rw [slice_succ] at hv
        exact Or.inr ⟨v, hv, rfl⟩

theorem tag_mem_unrolled (ht : Tagging tag) {k j : Nat} {v : Name} :
    tag j v ∈ (d.unrolled tag k).names ↔ j ≤ k ∧ v ∈ (d.slice j).names := by
  rw [mem_unrolled]
  constructor
  · rintro ⟨i, hi, u, hu, e⟩
    obtain ⟨rfl, rfl⟩ := ht _ _ _ _ e
    exact ⟨hi, hu⟩
  · rintro ⟨hj, hv⟩; exact ⟨j, hj, v, hv, rfl⟩

theorem lab_unrolled (ht : Tagging tag) {k j : Nat} (hj : j ≤ k) (v : Name) :
    (d.unrolled tag k).lab (tag j v) = (d.slice j).lab v := by
  by_cases hv : v ∈ (d.slice j).names
  · induction k with
    | zero =>
      obtain rfl : j = 0 := by omega
      exact BN.lab_map (g := NodeV.tagged (tag 0)) (ht.injective 0) (fun _ _ => rfl) (fun _ _ => rfl) v
    | succ k ih =>
      rw [unrolled]
      by_cases hjk : j ≤ k
      · rw [BN.lab_append_left ((tag_mem_unrolled ht).2 ⟨hjk, hv⟩)]
        exact ih hjk
      · obtain rfl : j = k + 1 := by omega
        rw [BN.lab_append_right (fun h => by have := ((tag_mem_unrolled ht).1 h).1; omega), slice_succ]
        exact BN.lab_map (ht.injective _) (fun n _ => linked_name k n) (fun n _ => linked_values k n) v
  · rw [BN.lab_of_not_mem hv, BN.lab_of_not_mem fun h => hv ((tag_mem_unrolled ht).1 h).2]

theorem card_unrolled (ht : Tagging tag) {k j : Nat} (hj : j ≤ k) (v : Name) :
    (d.unrolled tag k).card (tag j v) = (d.slice j).card v := by
  unfold BN.card; rw [lab_unrolled ht hj]

end DBN

theorem taggedEvidence_append (tag : Nat → Name → Name) (es : List (Dict Evidence)) (e : Dict Evidence) :
    taggedEvidence tag (es ++ [e]) = taggedEvidence tag es ++ e.map fun p => (tag es.length p.1, p.2) := by
  unfold taggedEvidence
  rw [List.zipIdx_append, List.flatMap_append]
  simp

theorem mem_taggedEvidence {tag : Nat → Name → Name} {es : List (Dict Evidence)} {q : Name × Evidence} :
    q ∈ taggedEvidence tag es ↔ ∃ j e, es[j]? = some e ∧ ∃ p ∈ e, q = (tag j p.1, p.2) := by
  unfold taggedEvidence
  simp only [List.mem_flatMap, List.mem_map, List.mem_zipIdx_iff_getElem?, Prod.exists]
  constructor
  · rintro ⟨e, j, h, a, b, hp, rfl⟩; exact ⟨j, e, h, a, b, hp, rfl⟩
  · rintro ⟨j, e, h, a, b, hp, rfl⟩; exact ⟨e, j, h, a, b, hp, rfl⟩

/-! ## one slice more -/

theorem entryOf_mem {bn : BN} (h : bn.names.Nodup) {n : NodeV} (hn : n ∈ bn) (σ : Assign) :
    entryOf bn n.name σ = n.entry σ := by
  simp only [entryOf, BN.lab_of_mem h hn]

namespace DBN
variable {d : DBN} {tag : Nat → Name → Name}

theorem sourceOf_mem (h : (d.transitions.map Prod.fst).Nodup) {tr : Name × Name}
    (htr : tr ∈ d.transitions) : d.sourceOf tr.1 = some tr.2 := by
  unfold sourceOf
  generalize d.transitions = l at *
  induction l with
  | nil => simp at htr
  | cons t l ih =>
    rw [List.map_cons, List.nodup_cons] at h
    rw [List.find?_cons]
    rcases List.mem_cons.1 htr with rfl | hm
    · simp
    · have : t.1 ≠ tr.1 := fun e => h.1 (e ▸ List.mem_map_of_mem hm)
      simp only [this, decide_false]
      exact ih h.2 hm

theorem sourceOf_none {v : Name} (h : v ∉ d.transitions.map Prod.fst) : d.sourceOf v = none := by
  unfold sourceOf
  rw [Option.map_eq_none_iff, List.find?_eq_none]
  intro tr htr e
  exact h (List.mem_map.2 ⟨tr, htr, by simpa using e⟩)

theorem copy_get {n i j : Nat} (hi : i < n) (hj : j < n) :
    (copyingTable n).get [i, j] = if i = j then 1 else 0 := by
  unfold copyingTable
  rw [NDArray.get_tabulate _ (.cons hi (.cons hj .nil))]
  simp

/-- the table entries of slice `k + 1` of the unrolled network -/
theorem prod_linked (h : d.Ready) (k : Nat) {τ : Assign}
    (hu : ∀ v ∈ d.twoTbn.names, τ (tag (k + 1) v) < d.twoTbn.card v)
    (hφ : ∀ tr ∈ d.transitions, τ (tag k tr.2) < (d.slice k).card tr.2) :
    ((d.twoTbn.map (d.linked tag k)).map fun n => n.entry τ).prod =
      (∏ v ∈ d.twoTbn.names.toFinset \ (d.transitions.map Prod.fst).toFinset,
        entryOf d.twoTbn v (τ ∘ tag (k + 1))) *
      if ∀ tr ∈ d.transitions, τ (tag k tr.2) = τ (tag (k + 1) tr.1) then 1 else 0 := by
  have hnd := h.two.consistent.nodup
  set T := (d.transitions.map Prod.fst).toFinset with hT
  let q : Name → Prop := fun v => ∀ tr ∈ d.transitions, tr.1 = v → τ (tag k tr.2) = τ (tag (k + 1) v)
  classical
  let g : Name → ℚ := fun v => if v ∈ T then (if q v then 1 else 0) else
    entryOf d.twoTbn v (τ ∘ tag (k + 1))
  have h1 : ((d.twoTbn.map (d.linked tag k)).map fun n => n.entry τ) = d.twoTbn.names.map g := by
    unfold BN.names
    rw [List.map_map, List.map_map]
    refine List.map_congr_left fun n hn => ?_
    simp only [Function.comp_apply, g]
    by_cases hv : n.name ∈ T
    · rw [if_pos hv]
      obtain ⟨tr, htr, e⟩ := List.mem_map.1 (List.mem_toFinset.1 hv)
      have hsrc := sourceOf_mem h.targets htr
      rw [e] at hsrc
      obtain ⟨m, m1, m2, -, -, m5, m6⟩ := h.node tr htr
      have : m = n := BN.eq_of_name hnd m1 hn (by rw [m2, e])
      subst this
      have hlen : m.values.length = (d.slice k).card tr.2 := by
        unfold slice; split
        · exact m5
        · exact m6
      have hown : τ (tag (k + 1) m.name) < m.values.length := by
        have := hu m.name (List.mem_map_of_mem hn)
        rwa [BN.card, BN.lab_eq hnd hn] at this
      have hent : (d.linked tag k m).entry τ =
          if τ (tag (k + 1) m.name) = τ (tag k tr.2) then 1 else 0 := by
        unfold linked NodeV.entry
        simp only [hsrc, List.map_cons, List.map_nil]
        exact copy_get hown (by rw [hlen]; exact hφ tr htr)
      rw [hent]
      refine if_congr ⟨fun hq tr' htr' e' => ?_, fun hq => (hq tr htr e).symm⟩ rfl rfl
      have : tr' = tr := by
        have h3 := sourceOf_mem h.targets htr'
        rw [e', hsrc] at h3
        exact Prod.ext (by rw [e', e]) (Option.some.inj h3).symm
      rw [this, hq]
    · rw [if_neg hv]
      have hsrc := sourceOf_none (d := d) (v := n.name) (by simpa [hT] using hv)
      unfold linked
      simp only [hsrc]
      rw [NodeV.entry_tagged, entryOf_mem hnd hn]
  have hTs : T ⊆ d.twoTbn.names.toFinset := by
    intro v hv
    obtain ⟨tr, htr, e⟩ := List.mem_map.1 (List.mem_toFinset.1 hv)
    obtain ⟨m, m1, m2, -⟩ := h.node tr htr
    exact List.mem_toFinset.2 (List.mem_map.2 ⟨m, m1, by rw [m2, e]⟩)
  rw [h1, ← List.prod_toFinset _ hnd, ← Finset.prod_sdiff hTs]
  congr 1
  · refine Finset.prod_congr rfl fun v hv => ?_
    exact if_neg (Finset.mem_sdiff.1 hv).2
  · rw [Finset.prod_congr rfl (g := fun v => if q v then (1 : ℚ) else 0) fun v hv => if_pos hv,
      Finset.prod_boole]
    refine if_congr ⟨fun hq tr htr => ?_, fun hq v _ tr htr e => ?_⟩ rfl rfl
    · exact hq tr.1 (List.mem_toFinset.2 (List.mem_map_of_mem htr)) tr htr rfl
    · rw [hq tr htr, e]

/-- the table entries of a slice of prior feedback -/
theorem prod_fed (h : d.Ready) {two : BN} (hb : two.bare = d.twoTbn.bare)
    (hk : ∀ n ∈ two, n.name ∉ d.transitions.map Prod.fst → n ∈ d.twoTbn) (u : Assign) :
    joint two u =
      (∏ v ∈ d.twoTbn.names.toFinset \ (d.transitions.map Prod.fst).toFinset,
        entryOf d.twoTbn v u) * (d.transitions.map fun tr => entryOf two tr.1 u).prod := by
  have hnm := BN.names_of_bare hb
  have hnd' : d.twoTbn.names.Nodup := h.two.consistent.nodup
  have hnd : two.names.Nodup := by rw [hnm]; exact hnd'
  have hTs : (d.transitions.map Prod.fst).toFinset ⊆ d.twoTbn.names.toFinset := by
    intro v hv
    obtain ⟨tr, htr, e⟩ := List.mem_map.1 (List.mem_toFinset.1 hv)
    obtain ⟨m, m1, m2, -⟩ := h.node tr htr
    exact List.mem_toFinset.2 (List.mem_map.2 ⟨m, m1, by rw [m2, e]⟩)
  rw [joint, ← prod_entryOf hnd, ← List.prod_toFinset _ hnd, hnm, ← Finset.prod_sdiff hTs]
  congr 1
  · refine Finset.prod_congr rfl fun v hv => ?_
    have hv' := Finset.mem_sdiff.1 hv
    obtain ⟨n, hn, rfl⟩ := BN.exists_of_mem_names (bn := two) (by rw [hnm]; exact List.mem_toFinset.1 hv'.1)
    rw [entryOf_mem hnd hn, entryOf_mem hnd' (hk n hn (by simpa using hv'.2))]
  · rw [List.prod_toFinset _ h.targets, List.map_map]
    rfl

end DBN

theorem DBN.Splits.init {d : DBN} {es : List (Dict Evidence)} {e : Dict Evidence}
    (h : d.Splits (es ++ [e])) : d.Splits es := by
  intro past e' rest net two he
  exact h past e' (rest ++ [e]) net two (by rw [he]; simp)

theorem weight_append (bn : BN) (ev ev' : Dict Evidence) (σ : Assign) :
    weight bn (ev ++ ev') σ = weight bn ev σ * (ev'.map fun p => lik (bn.lab p.1) p.2 (σ p.1)).prod := by
  unfold weight
  rw [List.map_append, List.prod_append, mul_assoc]

theorem weight_joint (bn : BN) (ev : Dict Evidence) (σ : Assign) :
    weight bn ev σ = joint bn σ * (ev.map fun p => lik (bn.lab p.1) p.2 (σ p.1)).prod := rfl

section
variable {d : DBN} {tag : Nat → Name → Name}

/-- one slice more, given the slices before: all tables and the evidence before the new slice -/
theorem weight_unrolled_succ (h : d.Ready) (ht : Tagging tag) {es : List (Dict Evidence)}
    {e : Dict Evidence} {τ : Assign} {k : Nat} (hk : es.length = k + 1)
    (hu : ∀ v ∈ d.twoTbn.names, τ (tag (k + 1) v) < d.twoTbn.card v)
    (hφ : ∀ tr ∈ d.transitions, τ (tag k tr.2) < (d.slice k).card tr.2) :
    weight (d.unrolled tag (k + 1)) (taggedEvidence tag (es ++ [e])) τ =
      weight (d.unrolled tag k) (taggedEvidence tag es) τ *
      ((∏ v ∈ d.twoTbn.names.toFinset \ (d.transitions.map Prod.fst).toFinset,
        entryOf d.twoTbn v (τ ∘ tag (k + 1))) *
      (if ∀ tr ∈ d.transitions, τ (tag k tr.2) = τ (tag (k + 1) tr.1) then 1 else 0)) *
      (e.map fun p => lik (d.twoTbn.lab p.1) p.2 (τ (tag (k + 1) p.1))).prod := by
  rw [taggedEvidence_append, weight_append, hk, List.map_map]
  congr 1
  · rw [← DBN.prod_linked h k hu hφ]
    unfold weight
    have : (taggedEvidence tag es).map (fun p => lik ((d.unrolled tag (k + 1)).lab p.1) p.2 (τ p.1)) =
        (taggedEvidence tag es).map fun p => lik ((d.unrolled tag k).lab p.1) p.2 (τ p.1) := by
      refine List.map_congr_left fun q hq => ?_
      obtain ⟨j, e', he, p, -, rfl⟩ := mem_taggedEvidence.1 hq
      have hj : j < es.length := by
        by_contra hc
        rw [List.getElem?_eq_none (by omega)] at he
        simp at he
      dsimp only
      rw [DBN.lab_unrolled ht (by omega), DBN.lab_unrolled ht (by omega)]
    rw [this, DBN.unrolled, List.map_append, List.prod_append]
    ring
  · congr 1
    refine List.map_congr_left fun p _ => ?_
    simp only [Function.comp_apply]
    rw [DBN.lab_unrolled ht le_rfl, DBN.slice_succ]

/-- the joint posterior of the sources from indicators -/
theorem sum_agree {net : BN} {e : Dict Evidence} {trs : List (Name × Name)}
    (hsn : (trs.map Prod.snd).Nodup) (hsrc : ∀ tr ∈ trs, tr.2 ∈ net.names) {u ρ : Assign}
    (hu : ∀ tr ∈ trs, u tr.1 < net.card tr.2) :
    ∃ σ' : Assign, (∀ tr ∈ trs, σ' tr.2 = u tr.1) ∧ Legal net.card (trs.map Prod.snd) σ' ∧
      sumOver net.card net.names.toFinset
        (fun φ => weight net e φ * if ∀ tr ∈ trs, φ tr.2 = u tr.1 then 1 else 0) ρ =
      sumOver net.card (net.names.toFinset \ (trs.map Prod.snd).toFinset) (weight net e) σ' := by
  let σ' : Assign := fun v => match trs.find? fun tr => decide (tr.2 = v) with
    | some tr => u tr.1
    | none => ρ v
  have h1 : ∀ tr ∈ trs, σ' tr.2 = u tr.1 := by
    intro tr htr
    have : trs.find? (fun t => decide (t.2 = tr.2)) = some tr := by
      clear_value σ'
      induction trs with
      | nil => simp at htr
      | cons t l ih =>
        rw [List.map_cons, List.nodup_cons] at hsn
        rw [List.find?_cons]
        rcases List.mem_cons.1 htr with rfl | hm
        · simp
        · have : t.2 ≠ tr.2 := fun e => hsn.1 (e ▸ List.mem_map_of_mem hm)
          simp only [this, decide_false]
          exact ih hsn.2 (fun t ht => hsrc t (by simp [ht])) (fun t ht => hu t (by simp [ht])) hm
    simp only [σ', this]
  have h2 : ∀ v, v ∉ net.names → σ' v = ρ v := by
    intro v hv
    have : trs.find? (fun t => decide (t.2 = v)) = none := by
      rw [List.find?_eq_none]
      intro t ht e
      have e : t.2 = v := by simpa using e
      exact hv (e ▸ hsrc t ht)
    simp only [σ', this]
  have hleg : Legal net.card (trs.map Prod.snd) σ' := by
    intro v hv
    obtain ⟨tr, htr, rfl⟩ := List.mem_map.1 hv
    rw [h1 tr htr]; exact hu tr htr
  refine ⟨σ', h1, hleg, ?_⟩
  rw [← sumOver_pin _ _ _ _ hleg, sumOver_congr_left (τ := σ') fun v hv => (h2 v (by simpa using hv)).symm]
  refine sumOver_congr fun φ _ => ?_
  have hiff : (∀ v ∈ trs.map Prod.snd, φ v = σ' v) ↔ ∀ tr ∈ trs, φ tr.2 = u tr.1 := by
    refine ⟨fun hq tr htr => ?_, fun hq v hv => ?_⟩
    · rw [hq tr.2 (List.mem_map_of_mem htr), h1 tr htr]
    · obtain ⟨tr, htr, rfl⟩ := List.mem_map.1 hv
      rw [hq tr htr, h1 tr htr]
  by_cases hq : ∀ tr ∈ trs, φ tr.2 = u tr.1
  · rw [if_pos hq, if_pos (hiff.2 hq)]
  · rw [if_neg hq, if_neg fun h => hq (hiff.1 h)]

theorem Slices.unrolled (h : d.Ready) (ht : Tagging tag) (hne : d.transitions ≠ [])
    (hsn : (d.transitions.map Prod.snd).Nodup) {past : List (Dict Evidence)} {net two : BN}
    (hs : Slices d past net two)
    (hev : ∀ j e, past[j]? = some e → LegalEvidence (d.slice j) e ∧ NonNegEvidence e)
    (hsp : d.Splits past) :
    d.Good two ∧ (∀ n ∈ two, n.name ∉ d.transitions.map Prod.fst → n ∈ d.twoTbn) ∧
    ∃ c : ℚ, 0 ≤ c ∧ (c = 0 → ∀ ρ, Legal net.card net.names ρ → joint net ρ = 0) ∧
      ∀ (e : Dict Evidence) (G : Assign → ℚ) (σ : Assign), sumOver (d.unrolled tag past.length).card (d.unrolled tag past.length).names.toFinset
        (fun τ => weight (d.unrolled tag past.length) (taggedEvidence tag (past ++ [e])) τ *
          G (τ ∘ tag past.length)) σ =
        c * sumOver net.card net.names.toFinset (fun ρ => weight net e ρ * G ρ) (σ ∘ tag past.length) := by
  induction hs with
  | start =>
    refine ⟨.start h, fun n hn _ => hn, 1, by norm_num, fun h1 => absurd h1 (by norm_num), ?_⟩
    intro e G σ
    have h1 : (d.unrolled tag 0).names.toFinset = d.b0.names.toFinset.image (tag 0) := by
      rw [DBN.names_unrolled_zero]; ext v; simp
    have h2 : (d.unrolled tag 0).card ∘ tag 0 = d.b0.card :=
      funext fun v => DBN.card_unrolled ht le_rfl v
    simp only [List.length_nil, List.nil_append, one_mul]
    rw [h1, ← h2, ← sumOver_image (ht.injective 0)]
    refine sumOver_congr fun τ _ => ?_
    congr 1
    unfold weight
    congr 2
    · rw [DBN.unrolled, List.map_map]
      exact List.map_congr_left fun n _ => NodeV.entry_tagged _ n τ
    · rw [show [e] = [] ++ [e] from rfl, taggedEvidence_append]
      simp only [taggedEvidence, List.zipIdx_nil, List.flatMap_nil, List.nil_append, List.length_nil,
        List.map_map]
      refine List.map_congr_left fun p _ => ?_
      simp only [Function.comp_apply]
      rw [DBN.lab_unrolled ht le_rfl]
      rfl
  | @next es net two two' e0 hs hf ih =>
    obtain ⟨hg, hk, c, c0, cz, hsum⟩ := ih
      (fun j e he => hev j e (by
        rw [List.getElem?_append_left]
        · exact he
        · by_contra hc
          rw [List.getElem?_eq_none (by omega)] at he
          simp at he)) hsp.init
    obtain ⟨hset, hnn, -, hbare, -⟩ := hg.net h hs
    obtain ⟨hl0, hn0⟩ := hev es.length e0 (by simp)
    have hl0' : LegalEvidence net e0 := hl0.of_bare hbare
    have hcard : net.card = (d.slice es.length).card := BN.card_of_bare hbare
    have hcard2 : ∀ tr ∈ d.transitions, net.card tr.2 = d.twoTbn.card tr.1 := by
      intro tr htr
      obtain ⟨m, m1, m2, -, -, m5, m6⟩ := h.node tr htr
      rw [hcard, ← m2, BN.card, BN.card, BN.lab_eq h.two.consistent.nodup m1]
      unfold DBN.slice; split
      · exact m5.symm
      · exact m6.symm
    have hgood : d.Good two' := hg.fed h hnn (fun tr _ => by
      rw [hcard]; unfold DBN.slice; split
      · exact Or.inl rfl
      · exact Or.inr rfl) hn0 hf
    have hk' : ∀ n ∈ two', n.name ∉ d.transitions.map Prod.fst → n ∈ d.twoTbn :=
      fun n hn hnt => hk n (hf.kept n hn hnt) hnt
    have hsrc : ∀ tr ∈ d.transitions, tr.2 ∈ net.names := by
      intro tr htr
      rw [BN.names_of_bare hbare]
      unfold DBN.slice; split
      · exact (h.source tr htr).1
      · exact (h.source tr htr).2
    have hnd' : two'.names.Nodup := hgood.setup.consistent.nodup
    have hfed : ∀ tr ∈ d.transitions, ∀ (u σ' : Assign), σ' tr.2 = u tr.1 → u tr.1 < net.card tr.2 →
        entryOf two' tr.1 u = posterior net e0 [tr.2] σ' := by
      intro tr htr u σ' he hlt
      obtain ⟨m, m1, m2, -, m4, -⟩ := h.node tr htr
      obtain ⟨n, hn, e1⟩ := BN.exists_of_mem_names (bn := two') (v := tr.1) (by
        rw [BN.names_of_bare hgood.bare]; exact List.mem_map.2 ⟨m, m1, m2⟩)
      obtain ⟨m', m1', f1, -, -, f4, -⟩ := BN.mem_bare hgood.bare hn
      have : m' = m := BN.eq_of_name h.two.consistent.nodup m1' m1 (by rw [f1, e1, m2])
      subst this
      rw [← e1, entryOf_mem hnd' hn, NodeV.entry, ← f4, m4, e1, List.map_nil, ← he]
      exact (hf.fed tr htr n hn e1).2 σ' (by rw [he]; exact hlt)
    set Z := totalWeight net e0 fun _ => 0 with hZ
    have hZc : ∀ ρ, totalWeight net e0 ρ = Z := fun ρ => totalWeight_const hset.consistent hl0' _ _
    have hZ0 : 0 ≤ Z := sumOver_nonneg fun τ _ => weight_nonneg hnn hn0 τ
    have hM : ∀ Q σ', (∀ v ∈ Q, v ∈ net.names) → Legal net.card Q σ' →
        sumOver net.card (net.names.toFinset \ Q.toFinset) (weight net e0) σ' =
          Z * posterior net e0 Q σ' := by
      intro Q σ' hQ hσ'
      rcases hZ0.lt_or_eq with hp | hp
      · unfold posterior
        simp only
        rw [hZc, if_pos hp, mul_div_cancel₀ _ hp.ne']
      · have h0 : totalWeight net e0 σ' = 0 := by rw [hZc, ← hp]
        rw [posterior_eq_zero hnn hn0 hQ hσ' h0, mul_zero]
        have := posterior_eq_zero hnn hn0 hQ hσ' h0
        unfold posterior at this
        simp only at this
        rwa [if_neg (by rw [h0]; exact lt_irrefl _)] at this
    refine ⟨hgood, hk', c * Z, mul_nonneg c0 hZ0, ?_, ?_⟩
    · intro hcz ρ hρ
      have hZz : Z = 0 := by
        rcases mul_eq_zero.1 hcz with h0 | h0
        · rw [hZ, totalWeight, sumOver_congr (G := fun _ => 0), sumOver_zero]
          intro τ hτ
          rw [weight_joint, cz h0 τ fun v hv => hτ.2 v (by simpa using hv), zero_mul]
        · exact h0
      obtain ⟨tr, htr⟩ := List.exists_mem_of_ne_nil _ hne
      rw [DBN.prod_fed h hgood.bare hk' ρ]
      have hlt : ρ tr.1 < net.card tr.2 := by
        rw [hcard2 tr htr, ← BN.card_of_bare hgood.bare]
        refine hρ tr.1 ?_
        obtain ⟨m, m1, m2, -⟩ := h.node tr htr
        rw [BN.names_of_bare hgood.bare]; exact List.mem_map.2 ⟨m, m1, m2⟩
      have h0 : entryOf two' tr.1 ρ = 0 := by
        rw [hfed tr htr ρ (fun _ => ρ tr.1) rfl hlt]
        exact posterior_eq_zero hnn hn0 (by simpa using hsrc tr htr)
          (by simpa [Legal] using hlt) (by rw [hZc, hZz])
      rw [List.prod_eq_zero (List.mem_map.2 ⟨tr, htr, h0⟩), mul_zero]
    · intro e G σ
      simp only [List.length_append, List.length_singleton]
      set k := es.length with hkk
      have hN : (d.unrolled tag (k + 1)).names.toFinset =
          d.twoTbn.names.toFinset.image (tag (k + 1)) ∪ (d.unrolled tag k).names.toFinset := by
        rw [DBN.names_unrolled_succ]
        ext v
        simp only [List.mem_toFinset, List.mem_append, Finset.mem_union, Finset.mem_image, List.mem_map]
        exact or_comm
      have hdis : Disjoint (d.twoTbn.names.toFinset.image (tag (k + 1))) (d.unrolled tag k).names.toFinset := by
        rw [Finset.disjoint_left]
        intro v h1 h2
        obtain ⟨w, -, rfl⟩ := Finset.mem_image.1 h1
        have := ((DBN.tag_mem_unrolled ht).1 (List.mem_toFinset.1 h2)).1
        omega
      have hct : (d.unrolled tag (k + 1)).card ∘ tag (k + 1) = two'.card := by
        funext v
        rw [Function.comp_apply, DBN.card_unrolled ht le_rfl, DBN.slice_succ, BN.card_of_bare hgood.bare]
      rw [hN, sumOver_union hdis, BN.names_of_bare hgood.bare, ← hct, ← sumOver_const_mul,
        ← sumOver_image (ht.injective (k + 1))]
      refine sumOver_congr fun τ hτ => ?_
      set u : Assign := τ ∘ tag (k + 1) with hu
      have hul : ∀ v ∈ d.twoTbn.names, u v < d.twoTbn.card v := by
        intro v hv
        have := hτ.2 (tag (k + 1) v) (Finset.mem_image.2 ⟨v, by simpa using hv, rfl⟩)
        rwa [DBN.card_unrolled ht le_rfl, DBN.slice_succ] at this
      have hult : ∀ tr ∈ d.transitions, u tr.1 < net.card tr.2 := by
        intro tr htr
        rw [hcard2 tr htr]
        obtain ⟨m, m1, m2, -⟩ := h.node tr htr
        exact hul tr.1 (List.mem_map.2 ⟨m, m1, m2⟩)
      set R : ℚ := (∏ v ∈ d.twoTbn.names.toFinset \ (d.transitions.map Prod.fst).toFinset,
        entryOf d.twoTbn v u) * (e.map fun p => lik (d.twoTbn.lab p.1) p.2 (u p.1)).prod * G u with hR
      have hin : sumOver (d.unrolled tag (k + 1)).card (d.unrolled tag k).names.toFinset
          (fun τ => weight (d.unrolled tag (k + 1)) (taggedEvidence tag (es ++ [e0] ++ [e])) τ *
            G (τ ∘ tag (k + 1))) τ =
          R * sumOver (d.unrolled tag k).card (d.unrolled tag k).names.toFinset
            (fun τ' => weight (d.unrolled tag k) (taggedEvidence tag (es ++ [e0])) τ' *
              (fun φ : Assign => if ∀ tr ∈ d.transitions, φ tr.2 = u tr.1 then (1 : ℚ) else 0)
                (τ' ∘ tag k)) τ := by
        rw [sumOver_card_congr (card' := (d.unrolled tag k).card), ← sumOver_const_mul]
        · refine sumOver_congr fun τ' hτ' => ?_
          have hsame : τ' ∘ tag (k + 1) = u := by
            funext v
            refine hτ'.1 _ fun hm => ?_
            have := ((DBN.tag_mem_unrolled ht).1 (List.mem_toFinset.1 hm)).1
            omega
          have hsame' : ∀ v, τ' (tag (k + 1) v) = u v := fun v => congrFun hsame v
          rw [weight_unrolled_succ h ht (by simp [hkk]) (fun v hv => by rw [hsame']; exact hul v hv)
            (fun tr htr => by
              have := hτ'.2 (tag k tr.2) (by
                rw [List.mem_toFinset, DBN.tag_mem_unrolled ht]
                refine ⟨le_rfl, ?_⟩
                rw [← BN.names_of_bare hbare]; exact hsrc tr htr)
              rwa [DBN.card_unrolled ht le_rfl] at this)]
          simp only [hsame, hsame', Function.comp_apply, hR]
          ring
        · intro v hv
          obtain ⟨j, hj, w, -, rfl⟩ := DBN.mem_unrolled.1 (List.mem_toFinset.1 hv)
          rw [DBN.card_unrolled ht (by omega), DBN.card_unrolled ht hj]
      have hih := hsum e0 (fun φ : Assign => if ∀ tr ∈ d.transitions, φ tr.2 = u tr.1 then (1 : ℚ) else 0) τ
      refine hin.trans ((congrArg (R * ·) hih).trans ?_)
      obtain ⟨σ', s1, s2, s3⟩ := sum_agree (e := e0) hsn hsrc (u := u) (ρ := τ ∘ tag k) hult
      rw [s3, hM _ _ (by
        intro v hv
        obtain ⟨tr, htr, rfl⟩ := List.mem_map.1 hv
        exact hsrc tr htr) s2, hsp es e0 [] net two rfl hs σ' s2, weight_joint,
        DBN.prod_fed h hgood.bare hk' u, BN.lab_of_bare hgood.bare, hR,
        List.map_congr_left fun tr htr => hfed tr htr u σ' (s1 tr htr) (hult tr htr)]
      ring

/-- the posterior of the unrolled network is the posterior of the slice's network -/
theorem Slices.posterior (h : d.Ready) (ht : Tagging tag) (hne : d.transitions ≠ [])
    (hsn : (d.transitions.map Prod.snd).Nodup) {past : List (Dict Evidence)} {net two : BN}
    (hs : Slices d past net two)
    (hev : ∀ j e, past[j]? = some e → LegalEvidence (d.slice j) e ∧ NonNegEvidence e)
    (hsp : d.Splits past) {e : Dict Evidence} (hen : NonNegEvidence e) {vs : List Name}
    (hvs : ∀ v ∈ vs, v ∈ net.names) {σ : Assign} (hσ : Legal net.card vs (σ ∘ tag past.length)) :
    Primo.posterior (d.unrolled tag past.length) (taggedEvidence tag (past ++ [e]))
      (vs.map (tag past.length)) σ = Primo.posterior net e vs (σ ∘ tag past.length) := by
  obtain ⟨hg, -, c, c0, cz, hsum⟩ := hs.unrolled h ht hne hsn hev hsp
  obtain ⟨-, hnn, -, hbare, -⟩ := hg.net h hs
  set k := past.length with hk
  set U := d.unrolled tag k with hU
  set E := taggedEvidence tag (past ++ [e]) with hE
  have hcU : ∀ v, U.card (tag k v) = net.card v := fun v => by
    rw [DBN.card_unrolled ht le_rfl, BN.card_of_bare hbare]
  have hσU : Legal U.card (vs.map (tag k)) σ := by
    intro x hx
    obtain ⟨v, hv, rfl⟩ := List.mem_map.1 hx
    rw [hcU]; exact hσ v hv
  have hM : sumOver U.card (U.names.toFinset \ (vs.map (tag k)).toFinset) (weight U E) σ =
      c * sumOver net.card (net.names.toFinset \ vs.toFinset) (weight net e) (σ ∘ tag k) := by
    rw [← sumOver_pin _ _ _ _ hσU, ← sumOver_pin _ _ _ _ hσ,
      ← hsum e (fun ρ => if ∀ v ∈ vs, ρ v = (σ ∘ tag k) v then 1 else 0)]
    refine sumOver_congr fun τ _ => ?_
    have hiff : (∀ x ∈ vs.map (tag k), τ x = σ x) ↔ ∀ v ∈ vs, (τ ∘ tag k) v = (σ ∘ tag k) v := by
      simp
    by_cases hq : ∀ v ∈ vs, (τ ∘ tag k) v = (σ ∘ tag k) v
    · rw [if_pos hq, if_pos (hiff.2 hq)]
    · rw [if_neg hq, if_neg fun h => hq (hiff.1 h)]
  have hZ : totalWeight U E σ = c * totalWeight net e (σ ∘ tag k) := by
    have := hsum e (fun _ => 1) σ
    simp only [mul_one] at this
    exact this
  have hZ0 : 0 ≤ totalWeight net e (σ ∘ tag k) := sumOver_nonneg fun τ _ => weight_nonneg hnn hen τ
  unfold Primo.posterior
  simp only
  rw [hM, hZ]
  rcases hZ0.lt_or_eq with hp | hp
  · have hcp : 0 < c := by
      refine lt_of_le_of_ne c0 fun h0 => hp.ne' ?_
      rw [totalWeight, sumOver_congr (G := fun _ => 0), sumOver_zero]
      intro τ hτ
      rw [weight_joint, cz h0.symm τ fun v hv => hτ.2 v (by simpa using hv), zero_mul]
    rw [if_pos (mul_pos hcp hp), if_pos hp, mul_div_mul_left _ _ hcp.ne']
  · have h0 := posterior_eq_zero hnn hen hvs hσ hp.symm
    unfold Primo.posterior at h0
    simp only at h0
    rw [← hp, if_neg (lt_irrefl _)] at h0
    rw [← hp, mul_zero, if_neg (lt_irrefl _), if_neg (lt_irrefl _), h0, mul_zero]

end

/-! ## histories -/

/-- the evidence of a diary is as the documentation allows -/
structure Diary.Legal (d : DBN) (g : Diary) : Prop where
  past : ∀ j e, g.past[j]? = some e → LegalEvidence (d.slice j) e ∧ NonNegEvidence e
  now : ∀ e, g.now = some e → LegalEvidence (d.slice g.past.length) e ∧ NonNegEvidence e

theorem getElem?_snoc {α : Type} {l : List α} {a b : α} {j : Nat} (h : (l ++ [a])[j]? = some b) :
    l[j]? = some b ∨ (j = l.length ∧ b = a) := by
  rcases lt_trichotomy j l.length with hj | hj | hj
  · rw [List.getElem?_append_left hj] at h; exact Or.inl h
  · subst hj; simp at h; exact Or.inr ⟨rfl, h.symm⟩
  · rw [List.getElem?_eq_none (by simp; omega)] at h; simp at h

theorem legalEvidence_nil (bn : BN) : LegalEvidence bn [] :=
  ⟨List.nodup_nil, by simp, by simp, by simp⟩

theorem FairHistory.legal {d : DBN} {ops : List DynOp} {g : Diary} (hg : g.Legal d)
    (ho : FairHistory d g ops) : (g.notes ops).Legal d := by
  induction ops generalizing g with
  | nil => exact hg
  | cons op ops ih =>
    refine ih (g := g.note op) ?_ ho.2
    have hop := ho.1
    cases op with
    | setEvidence so limit ev =>
      exact ⟨hg.past, fun e he => by
        injection he with he; subst he; exact ⟨hop.1, hop.2.1⟩⟩
    | unroll so limit ev soft =>
      refine ⟨fun j e he => ?_, fun e he => by cases he⟩
      rcases getElem?_snoc he with h | ⟨rfl, rfl⟩
      · exact hg.past j e h
      · cases ev with
        | some ev => exact ⟨hop.1.1, hop.1.2.1⟩
        | none =>
          cases hn : g.now with
          | none => exact ⟨legalEvidence_nil _, fun v l h => by simp at h⟩
          | some e => exact hg.now e hn
    | marginals so limit vs => exact hg

theorem Diary.legal_start (d : DBN) : Diary.Legal d ⟨[], none⟩ :=
  ⟨fun j e h => by simp at h, fun e h => by cases h⟩

/-- a single source splits -/
theorem DBN.Splits.single {d : DBN} {tr : Name × Name} (h : d.transitions = [tr])
    (es : List (Dict Evidence)) : d.Splits es := by
  intro past e rest net two _ _ σ _
  rw [h]
  simp

end Primo
