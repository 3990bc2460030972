import Verif.Lemmas.WideOrder

/-!
# C88: the default order of elimination can be exponentially worse than another one

`get_min_degree_order` (`order.py:32-80`) eliminates nodes from the undirected version of the network's graph.
The tables of `bucket_marginals` grow along the moral graph, in which the parents of a node are also linked
(`C88_bucket_table`).
-/

namespace Primo
open VE Factor Wide

/-- **C88** (refuted) that the default order keeps the tables small. For every `n ≥ 2` there is a network of
`2 n + 3` variables with two outcomes each and at most four parents for which `bucket_marginals` with the
default order builds a table of at least `2 ^ (n + 1)` entries, though with another order no bucket ever has
more than 32. -/
theorem C88_default_order_refuted (n : Nat) (hn : 2 ≤ n) :
    ∃ bn : BN, bn.Consistent ∧ bn.Linked ∧ bn.Acyclic ∧ bn.Stochastic ∧ bn.length = 2 * n + 3 ∧
      (∀ m ∈ bn, m.values.length = 2 ∧ m.parentOrder.length ≤ 4) ∧
      ∃ q ∈ bn.names, ∃ order : List Name, order.Perm bn.names ∧ ∀ (so : SetOrder) (ev : Dict Evidence),
        LegalEvidence bn ev →
        (∃ i v b bs last, bucketsBefore so bn [q] ev none i = .ok ((v, b) :: bs, last) ∧
          2 ^ (n + 1) ≤ b.potentials.data.length) ∧
        ∀ i ≤ bn.length - 1, ∃ bs last, bucketsBefore so bn [q] ev (some order) i = .ok (bs, last) ∧
          last.potentials.data.length ≤ 32 ∧ ∀ u c, (u, c) ∈ bs → c.potentials.data.length ≤ 32 := by
  have hz : z 1 ∈ (wide n).names := mem_names.2 (by simp)
  have hlen : (wide n).length = 2 * n + 3 := by
    simp [wide]
    omega
  refine ⟨wide n, consistent, linked, acyclic, stochastic, hlen, fun m hm => ?_, z 1, hz, better n, better_perm,
    fun so ev he => ⟨?_, fun i hi => ?_⟩⟩
  · rcases mem_wide.1 hm with ⟨i, -, rfl⟩ | ⟨j, -, rfl⟩ | rfl | rfl <;> simp [node, pars]
  · obtain ⟨o, o1, o2, o3⟩ := Orderer.minDegreeOrder_spec (consistent (n := n)) linked
    have hcf := causes_first hn o2 o3 (n + 1) (le_refl _)
    have ho : o.length = 2 * n + 3 := by rw [o2.length_eq, BN.names, List.length_map, hlen]
    have hno : n < o.length := by omega
    have hnd : o.Nodup := o2.nodup_iff.2 names_nodup
    have hsplit : o = o.take n ++ o[n] :: o.drop (n + 1) := by
      rw [← List.drop_eq_getElem_cons hno, List.take_append_drop]
    rw [List.take_succ_eq_append_getElem hno] at hcf
    obtain ⟨i, hi, e⟩ := hcf o[n] (List.mem_append_right _ (List.mem_singleton_self _))
    have hE' : ∀ x ∈ o.take n, ∃ t, x = p t := fun x hx => by
      obtain ⟨t, -, h⟩ := hcf x (List.mem_append_left _ hx)
      exact ⟨t, h⟩
    -- all causes are there by then
    have hall : ∀ t < n + 1, t ≠ i → p t ∈ o.take n := by
      have hsub : ∀ x ∈ o.take n ++ [o[n]], x ∈ (List.range (n + 1)).map p := fun x hx => by
        obtain ⟨t, ht, rfl⟩ := hcf x hx
        exact List.mem_map_of_mem (List.mem_range.2 ht)
      have hnd' : (o.take n ++ [o[n]]).Nodup := by
        rw [← List.take_succ_eq_append_getElem hno]
        exact hnd.sublist (List.take_sublist _ _)
      have hperm : (o.take n ++ [o[n]]).Perm ((List.range (n + 1)).map p) :=
        (List.subperm_of_subset hnd' hsub).perm_of_length_le (by simp; omega)
      intro t ht hti
      have : p t ∈ o.take n ++ [o[n]] := hperm.mem_iff.2 (List.mem_map_of_mem (List.mem_range.2 ht))
      rcases List.mem_append.1 this with h | h
      · exact h
      · rw [List.mem_singleton, e, tag_inj] at h
        exact absurd h.2 hti
    have hf : o.filter (fun v => decide (v ∉ [z 1])) =
        o.take n ++ o[n] :: (o.drop (n + 1)).filter (fun v => decide (v ∉ [z 1])) := by
      conv_lhs => rw [hsplit]
      rw [List.filter_append, List.filter_cons_of_pos (by rw [e]; simp [tag_inj]), List.filter_eq_self.2]
      intro x hx
      obtain ⟨t, rfl⟩ := hE' x hx
      simp [tag_inj]
    obtain ⟨b, bs, last, h1, -, h2, h3⟩ := turn_spec so consistent he (Q := [z 1]) (by simp) (by simpa using hz)
      none (by exact o1) o2 hf
    refine ⟨_, _, b, bs, last, h1, ?_⟩
    have hmem : ∀ x ∈ o[n] :: (List.range n).map c, x ∈ b.variableOrder := by
      intro x hx
      rcases List.mem_cons.1 hx with rfl | hx
      · exact (h3 _).2 (.inl rfl)
      · obtain ⟨j, hj, rfl⟩ := List.mem_map.1 hx
        refine (h3 _).2 ?_
        rw [e]
        exact last_cause hi hall hE' (List.mem_range.1 hj)
    have hl := (List.subperm_of_subset (by
      rw [List.nodup_cons]
      refine ⟨by rw [e]; simp [tag_inj], map_nodup 1 n⟩) hmem).length_le
    have hb : ∀ v ∈ b.variableOrder, v ∈ (wide n).names := fun v hv =>
      around_mem (o2.mem_iff.1 (List.getElem_mem hno)) ((h3 v).1 hv)
    rw [over_length h2.wf, tableSize_eq hb h2.wf.nodup]
    refine Nat.pow_le_pow_right (by norm_num) ?_
    simpa using hl
  · have hord : chooseOrder (wide n) (some (better n)) = .ok (better n) := by
      cases h : better n with
      | nil => simp [better] at h
      | cons v vs => rfl
    obtain ⟨bs, last, h1, hbs, -, h2, h3⟩ := C88_no_larger so (wide n) consistent
      (fun v hv => by rw [lab_eq hv]; simp) ev he [z 1] (by simp) (by simpa using hz) (some (better n)) hord
      better_perm i (by simpa using hi)
    refine ⟨bs, last, h1, by omega, fun u d hud => ?_⟩
    obtain ⟨h4, h5, h6⟩ := h3 u d hud
    by_cases hu : u = z 1
    · have := (h5 (by simp [hu])).2
      rw [tableSize_eq (by simpa using hz) (by simp)] at this
      simp at this
      omega
    · have hb : better n = (better n).filter (fun v => decide (v ∉ [z 1])) ++ [z 1] := by
        have : (better n).filter (fun v => decide (v ∉ [z 1])) =
            (List.range n).map c ++ ((List.range (n + 1)).map p ++ [z 0]) := by
          rw [better, List.filter_append, List.filter_append, List.filter_eq_self.2, List.filter_eq_self.2]
          · simp [tag_inj]
          · intro x hx
            obtain ⟨t, -, rfl⟩ := List.mem_map.1 hx
            simp [tag_inj]
          · intro x hx
            obtain ⟨t, -, rfl⟩ := List.mem_map.1 hx
            simp [tag_inj]
        rw [this, better]
        simp
      have hum : u ∈ bs.map Prod.fst := List.mem_map_of_mem (f := Prod.fst) hud
      rw [hbs] at hum
      have hum := (List.mem_append.1 (List.mem_of_mem_drop hum)).resolve_right (by simpa using hu)
      obtain ⟨E, rest, hs⟩ := List.append_of_mem hum
      obtain ⟨l, hl, hw⟩ := around_better (n := n) (E := E) (u := u) (r := rest ++ [z 1]) (by
        rw [hb, hs]
        simp)
      have hun : u ∈ (wide n).names := better_perm.mem_iff.1 (List.mem_of_mem_filter hum)
      have h7 := (h6 E rest hs).1
      rw [over_length h4, tableSize_eq (fun v hv => around_mem hun (h7 v hv)) h4.nodup]
      have := (List.subperm_of_subset h4.nodup fun w hw' => hw w (h7 w hw')).length_le
      exact (Nat.pow_le_pow_right (by norm_num) (this.trans hl)).trans (by norm_num)

/-- 23 variables and a table of more than two thousand entries -/
example := C88_default_order_refuted 10 (by norm_num)

/-- the first of these networks: seven variables, all three causes first -/
example : Orderer.minDegreeOrder (wide 2) = .ok [p 0, p 2, p 1, z 0, c 0, c 1, z 1] := by decide +kernel

end Primo
