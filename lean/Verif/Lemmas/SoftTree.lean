import Verif.Lemmas.SetEvidence
import Verif.Props.FactorQuery

/-! # `set_evidence` with `softPosteriors=True` for one variable -/

namespace Primo
open JoinTree Factor Finset

namespace JTree

variable {bn : BN} {t : JTree} {root : Name} {rvars : List Name} {kids : Forest} {others : List Name}

theorem eq_singleton_of_mem {l : List Name} {v : Name} (hn : l.Nodup) (h : ∀ x, x ∈ l ↔ x ∈ [v]) :
    l = [v] := by
  have : l.Perm [v] := (List.perm_ext_iff_of_nodup hn (by simp)).2 h
  simpa using this

theorem soft_spec (so : SetOrder) (hc : bn.Consistent) (hnn : bn.NonNeg)
    (hs : Sits bn t root rvars kids others) {v : Name} (hv : v ∈ bn.names)
    (hroot : ∃ q ∈ skel t.nodes, q.1 ∉ others ∧ ∀ x ∈ [v], x ∈ q.2) {e : List ℚ}
    (hlen : e.length = bn.card v) (hnne : ∀ x ∈ e, 0 ≤ x) (hsum : e.sum = 1)
    (hsupp : ∀ σ, σ v < bn.card v → Primo.posterior bn [] [v] σ = 0 → e.getD (σ v) 0 = 0)
    (hcv : others = [] ∨ ∀ σ, 0 < totalWeight bn [] σ)
    {limit : Nat} (hl : kids.depth < limit) (so' : SetOrder) (limit' : Nat) :
    ∃ t', setEvidence so limit bn [(v, .soft e)] true t = (t', none) ∧ t'.shape = t.shape ∧
      ∃ r, t'.marginals so' limit' [v] = (t', .ok r) ∧ r.Over bn.lab ∧ r.variableOrder = [v] ∧
        ∀ σ, σ v < bn.card v → r.eval σ = e.getD (σ v) 0 := by
  obtain ⟨t0, a1, a2, a3, a4, a5⟩ := hs.reset so hc
  have hs0 := hs.of_shape a2
  obtain ⟨t1, Φ, Ψ, b1, b2, b3⟩ := calculate_tables so hc hnn hs0 a4 a5 hl
  have hroot1 : ∃ q ∈ skel t1.nodes, q.1 ∉ others ∧ ∀ x ∈ [v], x ∈ q.2 := by
    rw [skel_of_shape (b2.trans a2)]; exact hroot
  obtain ⟨m, c1, c2, c3, c4⟩ := b3.posterior so (ev := []) hroot1 hcv limit
  have hmv : m.variableOrder = [v] := eq_singleton_of_mem c2.wf.nodup c3
  have hmsh : m.potentials.shape = [(bn.lab v).length] := by
    have := c2.wf.shape
    rw [hmv] at this
    simpa using this
  have hcv' : bn.card v = (bn.lab v).length := rfl
  have hvn : [v].toFinset ⊆ bn.names.toFinset := by simpa using hv
  have hnn0 : NonNegEvidence [] := by intro v l h; simp at h
  have hnd : LegalEvidence bn [] := ⟨by simp [Dict.keys], by simp, by simp, by simp⟩
  set M := sumOver bn.card (bn.names.toFinset \ [v].toFinset) (weight bn []) with hM
  have hMnn : ∀ σ, 0 ≤ M σ := fun σ => sumOver_nonneg fun τ _ => weight_nonneg hnn hnn0 τ
  have hZ : ∀ σ i, totalWeight bn [] (Function.update σ v i) = totalWeight bn [] σ := fun σ i =>
    sumOver_congr_left fun x hx => by
      rw [Function.update_of_ne]
      rintro rfl
      exact hx (by simpa using hv)
  have hget : ∀ σ, σ v < bn.card v → m.potentials.get [σ v] =
      if 0 < totalWeight bn [] σ then M σ / totalWeight bn [] σ else M σ := by
    intro σ hσ
    have := c4 σ (by simpa [Legal] using hσ)
    rw [Factor.eval, hmv] at this
    exact this
  have hm0 : ∀ i < (bn.lab v).length, 0 ≤ m.potentials.get [i] := by
    intro i hi
    have := hget (fun _ => i) hi
    rw [this]
    split
    · exact div_nonneg (hMnn _) (le_of_lt ‹_›)
    · exact hMnn _
  obtain ⟨L, l1, l2, l3, l4, l5, l6, l7⟩ := C11_soft_posterior v (bn.lab v) e m.potentials hmsh hlen hnne
    hsum (fun i hi h0 => by
      have := hsupp (fun _ => i) hi
      rw [hget (fun _ => i) hi] at h0
      exact this h0)
  have hLo : L.Over bn.lab := ⟨by
    refine ⟨l2.nodup, l2.keys, fun x hx => ?_, ?_⟩
    · rw [l3, List.mem_singleton] at hx; subst hx; exact l2.labels x (by rw [l3]; simp)
    · rw [l2.shape, l3]; rfl, by
    intro x hx; rw [l3, List.mem_singleton] at hx; rw [l4, hx]; simp [Dict.get?]⟩
  have hsplit : ∀ σ (G : Assign → ℚ), sumOver bn.card bn.names.toFinset G σ =
      ∑ i ∈ range (bn.card v), sumOver bn.card (bn.names.toFinset \ [v].toFinset) G
        (Function.update σ v i) := by
    intro σ G
    have : bn.names.toFinset = insert v (bn.names.toFinset \ [v].toFinset) := by
      ext x
      by_cases hx : x = v <;> simp [hx, hv]
    conv_lhs => rw [this]
    rw [sumOver_insert (by simp)]
  have hZpos : ∀ σ, 0 < totalWeight bn [] σ := by
    intro σ
    by_contra hcon
    refine l5 (Finset.sum_eq_zero fun i hi => ?_)
    have hi' : i < bn.card v := mem_range.1 hi
    have h0 : M (Function.update σ v i) = 0 := by
      have h1 := hsplit σ (weight bn [])
      have h2 : ∑ i ∈ range (bn.card v), M (Function.update σ v i) = 0 :=
        le_antisymm (by rw [← h1]; exact not_lt.1 hcon) (Finset.sum_nonneg fun i _ => hMnn _)
      exact (Finset.sum_eq_zero_iff_of_nonneg fun i _ => hMnn _).1 h2 i hi
    have := hget (Function.update σ v i) (by simpa using hi')
    rw [hZ, if_neg hcon, h0, Function.update_self] at this
    rw [this, zero_mul]
  have hget' : ∀ σ, σ v < bn.card v → M σ = m.potentials.get [σ v] * totalWeight bn [] σ := by
    intro σ hσ
    rw [hget σ hσ, if_pos (hZpos σ), div_mul_cancel₀ _ (hZpos σ).ne']
  -- the second round
  obtain ⟨t2, d1, d2, d3, d4, d5⟩ := (hs.of_shape (b2.trans a2)).reset so hc
  have hs2 := hs.of_shape (d2.trans (b2.trans a2))
  set it : Item := ⟨fun vars => vars.contains v, L⟩ with hit
  obtain ⟨n, hn, hnm⟩ := BN.exists_of_mem_names hv
  have hgn : bn.getNode v = .ok n := by rw [← hnm]; exact BN.getNode_ok hc.nodup hn
  have hlab : n.values = bn.lab v := by rw [← hnm, BN.lab_eq hc.nodup hn]
  obtain ⟨ns, e1, e2, e3⟩ := forEach_put (lab := bn.lab) so
    (putEvidence so bn [(v, m.potentials)]) (fun _ => it) [(v, .soft e)] t2 _ hs2.nodup d4
    (fun x hx t => by
      rw [List.mem_singleton] at hx
      subst hx
      unfold putEvidence
      dsimp only
      rw [hgn, ok_bind, hlab]
      have : Dict.get? [(v, m.potentials)] v = some m.potentials := by simp [Dict.get?]
      rw [this, l1, ok_bind])
    (fun _ _ => hLo)
  set t3 : JTree := { t2 with nodes := ns } with ht3
  have hsh : t3.shape = t2.shape := by
    unfold shape
    have := e2
    unfold skel at this
    rw [ht3]
    dsimp only
    rw [this]
  have hs3 := hs2.of_shape hsh
  have hLe : ∀ σ, L.eval σ = L.potentials.get [σ v] := by
    intro σ; rw [Factor.eval, l3]; rfl
  obtain ⟨t', Φ', Ψ', f1, f2, f3⟩ := ready_of_calibrate so hc hnn hs3 (extra := [it]) (by simpa using e3)
    (by
      intro it' hit'
      rw [List.mem_singleton] at hit'
      subst hit'
      refine ⟨hLo, fun vars hvs x hx => ?_, hs3.home hv fun vars h => by simpa [hit] using h, fun σ hσ => ?_,
        by change L.variableOrder ≠ []; rw [l3]; simp⟩
      · change x ∈ L.variableOrder at hx
        rw [l3, List.mem_singleton] at hx
        rw [hx]; simpa [hit] using hvs
      · change 0 ≤ L.eval σ
        rw [hLe]
        exact l7 hm0 _ (hσ v (by change v ∈ L.variableOrder; rw [l3]; simp))) d5 hl
  have hshape : t'.shape = t.shape := f2.trans (hsh.trans (d2.trans (b2.trans a2)))
  refine ⟨t', ?_, hshape, ?_⟩
  · unfold setEvidence
    rw [a1, andThen_ok, if_pos rfl, b1, andThen_ok]
    have : oldMarginals so limit (Dict.keys [(v, Evidence.soft e)]) t1 =
        (t1, .ok [(v, m.potentials)]) := by
      simp only [Dict.keys, List.map_cons, List.map_nil, oldMarginals, c1]
    rw [this]
    dsimp only
    rw [d1, andThen_ok, e1, andThen_ok, f1]
  -- the answer
  set W' : Assign → ℚ := fun σ => (bn.map fun n => n.entry σ).prod * ([it].map fun it => it.f.eval σ).prod
    with hW'
  have hW : ∀ σ, W' σ = weight bn [] σ * L.eval σ := by
    intro σ; simp [hW', weight, hit]
  have hLd : DependsOn {v} L.eval := by
    intro σ τ h; rw [hLe, hLe, h v (by simp)]
  have hA : ∀ σ, sumOver bn.card (bn.names.toFinset \ [v].toFinset) W' σ = M σ * L.eval σ := by
    intro σ
    rw [sumOver_congr fun τ _ => hW τ, sumOver_mul_right hLd (by simp)]
  have hB : ∀ σ, sumOver bn.card bn.names.toFinset W' σ = totalWeight bn [] σ *
      ∑ i ∈ range (bn.lab v).length, m.potentials.get [i] * L.potentials.get [i] := by
    intro σ
    rw [hsplit, mul_sum]
    refine Finset.sum_congr rfl fun i hi => ?_
    have hi' : i < bn.card v := mem_range.1 hi
    rw [hA, hget' _ (by simpa using hi'), hZ, hLe, Function.update_self]
    ring
  set S := ∑ i ∈ range (bn.lab v).length, m.potentials.get [i] * L.potentials.get [i] with hS
  have hSpos : 0 < S := lt_of_le_of_ne (Finset.sum_nonneg fun i hi =>
    mul_nonneg (hm0 i (mem_range.1 hi)) (l7 hm0 i (mem_range.1 hi))) (Ne.symm l5)
  obtain ⟨r, g1, g2, g3, g4⟩ := f3.exact so' (vs := [v]) (by rw [skel_of_shape hshape]; exact hroot)
    (Or.inr fun σ => by rw [hB]; exact mul_pos (hZpos σ) hSpos)
  refine ⟨r, ?_, g2, eq_singleton_of_mem g2.wf.nodup g3, fun σ hσ => ?_⟩
  · unfold JTree.marginals
    rw [if_pos f3.valid]
    dsimp only
    rw [g1]
  · rw [g4 σ (by simpa [Legal] using hσ), hB, if_pos (mul_pos (hZpos σ) hSpos), hA, hget' σ hσ, hLe]
    rw [← l6 (σ v) hσ, mul_right_comm, mul_comm (totalWeight bn [] σ), mul_div_mul_right _ _ (hZpos σ).ne']

end JTree
end Primo
