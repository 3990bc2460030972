import Verif.Spec.Rewrite
import Verif.Lemmas.Scale
import Verif.Lemmas.Connected

/-! # The same model written down differently -/

namespace Primo
open Finset
variable {bn bn' : BN}

/-- the positions in `bn'` of the outcomes at the positions `σ` in `bn` -/
def trans (bn bn' : BN) (σ : Assign) : Assign := fun v => (bn'.lab v).idxOf ((bn.lab v).getD (σ v) "")

theorem trans_update (σ : Assign) (v : Name) (i : Nat) : trans bn bn' (Function.update σ v i) =
    Function.update (trans bn bn' σ) v ((bn'.lab v).idxOf ((bn.lab v).getD i "")) := by
  funext u
  by_cases h : u = v
  · subst h; simp [trans]
  · simp [trans, h]

theorem sum_trans {α : Type} [AddCommMonoid α] {l l' : List Val} (hp : l.Perm l') (hd : l.Nodup) (f : Nat → α) :
    ∑ i ∈ range l.length, f (l'.idxOf (l.getD i "")) = ∑ j ∈ range l'.length, f j := by
  refine sum_bij (fun i _ => l'.idxOf (l.getD i "")) ?_ ?_ ?_ fun _ _ => rfl
  · intro i hi
    have hi := mem_range.1 hi
    rw [mem_range]
    refine List.idxOf_lt_length_of_mem (hp.mem_iff.1 ?_)
    simp [List.getD_eq_getElem?_getD, hi]
  · intro i hi j hj h
    have hi := mem_range.1 hi
    have hj := mem_range.1 hj
    simp only [List.getD_eq_getElem?_getD, List.getElem?_eq_getElem hi, List.getElem?_eq_getElem hj,
      Option.getD_some] at h
    have h1 : l[i] ∈ l' := hp.mem_iff.1 (List.getElem_mem hi)
    exact (hd.getElem_inj_iff).1 ((List.idxOf_inj h1).1 h)
  · intro j hj
    have hj := mem_range.1 hj
    have h1 : l'[j] ∈ l := hp.mem_iff.2 (List.getElem_mem hj)
    refine ⟨l.idxOf l'[j], mem_range.2 (List.idxOf_lt_length_of_mem h1), ?_⟩
    have h2 := List.idxOf_lt_length_of_mem h1
    simp only [List.getD_eq_getElem?_getD, List.getElem?_eq_getElem h2, Option.getD_some, List.getElem_idxOf]
    exact (hp.nodup_iff.1 hd).idxOf_getElem j hj

theorem Rewritten.sumOver (h : Rewritten bn bn') {F F' : Assign → ℚ}
    (hF : ∀ τ, Legal bn.card bn.names τ → F τ = F' (trans bn bn' τ)) (S : Finset Name) :
    (∀ v ∈ S, v ∈ bn.names) → ∀ σ, (∀ v ∈ bn.names, v ∉ S → σ v < bn.card v) →
      sumOver bn.card S F σ = sumOver bn'.card S F' (trans bn bn' σ) := by
  induction S using Finset.induction_on with
  | empty =>
    intro _ σ hσ
    rw [sumOver_empty, sumOver_empty]
    exact hF σ fun v hv => hσ v hv (by simp)
  | insert v S hv ih =>
    intro hS σ hσ
    have hvn := hS v (by simp)
    rw [sumOver_insert hv, sumOver_insert hv]
    rw [show range (bn'.card v) = range (bn'.lab v).length from rfl,
      ← sum_trans (h.labels v hvn) (h.distinct v hvn)
        fun j => Primo.sumOver bn'.card S F' (Function.update (trans bn bn' σ) v j)]
    refine sum_congr rfl fun i hi => ?_
    rw [ih (fun u hu => hS u (by simp [hu])) _ fun u hu huS => ?_, trans_update]
    by_cases huv : u = v
    · subst huv; simpa [BN.card] using hi
    · simpa [huv] using hσ u hu (by simp [huv, huS])

theorem entryOf_of_mem (hn : bn.names.Nodup) {n : NodeV} (hm : n ∈ bn) (σ : Assign) :
    entryOf bn n.name σ = n.entry σ := by
  simp only [entryOf, BN.lab_of_mem hn hm]

theorem Rewritten.weight (h : Rewritten bn bn') (hc : bn.Consistent) (hc' : bn'.Consistent)
    {ev ev' : Dict Evidence} (he : LegalEvidence bn ev) (he' : LegalEvidence bn' ev')
    (hev : SameEvidence bn bn' ev ev') {σ : Assign} (hσ : Legal bn.card bn.names σ) :
    weight bn ev σ = Primo.weight bn' ev' (trans bn bn' σ) := by
  rw [weight_eq_likAt hc.nodup he, weight_eq_likAt hc'.nodup he', ← (h.names.map _).prod_eq]
  congr 1
  refine List.map_congr_left fun v hv => ?_
  -- the outcomes of `σ`
  let α : Name → Val := fun v => (bn.lab v).getD (σ v) ""
  have hα : ∀ u ∈ bn.names, α u ∈ bn.lab u ∧ bn.index α u = σ u := by
    intro u hu
    have hlt : σ u < (bn.lab u).length := hσ u hu
    have e : α u = (bn.lab u)[σ u] := by simp [α, List.getD_eq_getElem?_getD, hlt]
    refine ⟨by rw [e]; exact List.getElem_mem hlt, ?_⟩
    rw [BN.index, e]
    exact (h.distinct u hu).idxOf_getElem _ hlt
  have hidx : bn'.index α = trans bn bn' σ := rfl
  congr 1
  · obtain ⟨n, hn, rfl⟩ := BN.exists_of_mem_names hv
    obtain ⟨n', hn', e⟩ := BN.exists_of_mem_names (h.names.mem_iff.1 hv)
    rw [entryOf_of_mem hc.nodup hn, ← e, entryOf_of_mem hc'.nodup hn', ← hidx, ← h.entries n hn n' hn' e.symm α]
    · unfold NodeV.entry
      congr 1
      rw [(hα _ hv).2]
      congr 1
      exact List.map_congr_left fun p hp => ((hα p (hc.parents_mem n hn p hp)).2).symm
    · intro u hu
      rcases List.mem_cons.1 hu with rfl | hu
      · exact (hα _ hv).1
      · exact (hα u (hc.parents_mem n hn u hu)).1
  · have := hev v hv (α v) (hα v hv).1
    rw [show (bn.lab v).idxOf (α v) = σ v from (hα v hv).2] at this
    exact this

theorem Rewritten.posterior (h : Rewritten bn bn') (hc : bn.Consistent) (hc' : bn'.Consistent)
    {ev ev' : Dict Evidence} (he : LegalEvidence bn ev) (he' : LegalEvidence bn' ev')
    (hev : SameEvidence bn bn' ev ev') {Q : List Name} {α : Name → Val}
    (hα : bn.Outcomes Q α) :
    posterior bn ev Q (bn.index α) = Primo.posterior bn' ev' Q (bn'.index α) := by
  have hF := fun τ (hτ : Legal bn.card bn.names τ) => h.weight hc hc' he he' hev hτ
  have hnm : bn'.names.toFinset = bn.names.toFinset := (List.toFinset_eq_of_perm _ _ h.names).symm
  have hlt : ∀ v ∈ Q, bn.index α v < bn.card v := fun v hv => List.idxOf_lt_length_of_mem (hα v hv)
  have hM := h.sumOver hF (bn.names.toFinset \ Q.toFinset) (by simp +contextual) (bn.index α)
    fun v hv hv' => hlt v (by simpa [hv] using hv')
  have hZ := h.sumOver hF bn.names.toFinset (by simp) (bn.index α)
    fun v hv hv' => absurd (by simpa using hv) hv'
  have h1 : Primo.posterior bn ev Q (bn.index α) = Primo.posterior bn' ev' Q (trans bn bn' (bn.index α)) := by
    unfold Primo.posterior totalWeight
    simp only
    rw [hM, hZ, hnm]
  rw [h1]
  refine posterior_query_congr hc' he' fun v hv => ?_
  unfold trans BN.index
  have h2 := List.idxOf_lt_length_of_mem (hα v hv)
  simp [List.getD_eq_getElem?_getD, h2]

end Primo
