import Verif.Lemmas.RoundedChain

/-! # Forward sampling with rounded arithmetic, compared with the exact one -/

namespace Primo
open Finset

variable {bn : BN} {A : Arith} {u : ℚ} {N : Nat}

/-- one draw of forward sampling -/
theorem resample_forward_near (hA : A.Accurate u) (hN : 0 < N) (huN : u * N ≤ 1) (hc : bn.Consistent)
    (hd : bn.Discrete) (hnn : bn.NonNeg) (hs : bn.Stochastic) {n : NodeV} (hn : n ∈ bn)
    {ρ : Assign} (hρ : Legal bn.card n.parentOrder ρ) {d : Dict Val}
    (hr : ReadsOn bn n.parentOrder d ρ) (ch : List NodeV) {G H : Except PyErr (Dict Val) → ℝ} {e : ℝ}
    (hG0 : ∀ r, 0 ≤ G r) (hG1 : ∀ r, G r ≤ 1)
    (hGH : ∀ o ∈ n.values, |G (.ok (d.set n.name o)) - H (.ok (d.set n.name o))| ≤ e) :
    |(n.resampleR A N d ch true).expect G - (n.resample d ch true).expect H| ≤
      n.values.length * (2 * ((drawError u N bn.drawRoundings : ℚ) : ℝ)) + e := by
  set ws := n.values.map fun o => rowEntry n ρ (n.values.idxOf o) with hws
  have hsum : ws.sum = 1 := rowEntry_sum hd hs hn hρ
  have h0 : ∀ w ∈ ws, 0 ≤ w := fun w hw => by
    obtain ⟨o, _, rfl⟩ := List.mem_map.1 hw
    exact NDArray.get_nonneg (hnn n hn) _
  have hlen : ws.length = n.values.length := by simp [hws]
  have hv : n.values ≠ [] := by
    rintro h
    rw [hws, h] at hsum
    simp at hsum
  have hw : n.weightsR A d ch true = .ok ws := by
    rw [weightsR_forward, weights_forward hc hd hn hρ hr]
  have hnear : List.Forall₂ (Near u 0) ws ws :=
    List.forall₂_same.2 fun w hw => Near.rfl' (h0 w hw)
  rw [expect_resampleR hA huN (hd.kind n hn) hv hw hnear hlen G,
    expect_resample_forward hc hd hnn hs hn hρ hr]
  have hval : ∀ o ∈ n.values, n.values.getD (n.values.idxOf o) "" = o := fun o ho => by
    rw [List.getD_eq_getElem?_getD, List.getElem?_idxOf ho]; rfl
  rw [show (n.values.map fun o => ((rowEntry n ρ (n.values.idxOf o) : ℚ) : ℝ) *
      H (.ok (d.set n.name o))) = n.values.map fun o => (fun b => ((rowEntry n ρ b : ℚ) : ℝ) *
        H (.ok (d.set n.name (n.values.getD b "")))) (n.values.idxOf o) from
    List.map_congr_left fun o ho => by simp only [hval o ho],
    sum_idxOf (hd.labels n hn) (fun b => ((rowEntry n ρ b : ℚ) : ℝ) *
        H (.ok (d.set n.name (n.values.getD b "")))), ← sum_sub_distrib]
  set K : ℕ → ℝ := fun b => (((range N).filter fun k : ℕ =>
    stopR A ws 0 (A.mul ((k : ℚ) / N) (ws.foldl A.add 0)) = b).card : ℝ) / N with hK
  have herr : ∀ b < n.values.length, |K b - ((rowEntry n ρ b : ℚ) : ℝ)| ≤
      2 * ((drawError u N bn.drawRoundings : ℚ) : ℝ) := by
    intro b hb
    have h1 := wheel_error hA hN hnear h0 (by rw [hsum]; exact one_pos) (i := b) (by omega)
    have h2 : ws[b]'(by omega) = rowEntry n ρ b := by
      simp only [hws, List.getElem_map]
      rw [(hd.labels n hn).idxOf_getElem b hb]
    rw [h2, hsum, div_one] at h1
    have h3 : drawError u N (2 * (0 + ws.length) + 1) ≤ drawError u N bn.drawRoundings :=
      drawError_mono hA.nonneg hA.lt_one N (le_trans (by rw [hlen, NodeV.drawRoundings]; omega)
        (drawRoundings_le hn))
    have h4 := h1.trans (mul_le_mul_of_nonneg_left h3 zero_le_two)
    have h5 : ((|_| : ℚ) : ℝ) ≤ _ := Rat.cast_le.2 h4
    simp only [hK]
    push_cast at h5 ⊢
    exact h5
  have hone : ∑ b ∈ range n.values.length, ((rowEntry n ρ b : ℚ) : ℝ) = 1 := by
    rw [← sum_idxOf (hd.labels n hn) fun b => ((rowEntry n ρ b : ℚ) : ℝ)]
    have : ((ws.sum : ℚ) : ℝ) = 1 := by rw [hsum]; norm_num
    rw [← this, hws, Rat.cast_list_sum, List.map_map]
    rfl
  refine (abs_sum_le_sum_abs _ _).trans ?_
  have hterm : ∀ b ∈ range n.values.length, |K b * G (.ok (d.set n.name (n.values.getD b ""))) -
      ((rowEntry n ρ b : ℚ) : ℝ) * H (.ok (d.set n.name (n.values.getD b "")))| ≤
      2 * ((drawError u N bn.drawRoundings : ℚ) : ℝ) + ((rowEntry n ρ b : ℚ) : ℝ) * e := by
    intro b hb
    have hb' := mem_range.1 hb
    have hmem : n.values.getD b "" ∈ n.values := by
      rw [List.getD_eq_getElem?_getD, List.getElem?_eq_getElem hb']
      exact List.getElem_mem _
    have hr0 : (0 : ℝ) ≤ ((rowEntry n ρ b : ℚ) : ℝ) := by
      exact_mod_cast NDArray.get_nonneg (hnn n hn) _
    set g := G (.ok (d.set n.name (n.values.getD b ""))) with hg
    set h := H (.ok (d.set n.name (n.values.getD b ""))) with hh
    rw [show K b * g - ((rowEntry n ρ b : ℚ) : ℝ) * h = (K b - ((rowEntry n ρ b : ℚ) : ℝ)) * g +
      ((rowEntry n ρ b : ℚ) : ℝ) * (g - h) by ring]
    refine (abs_add_le _ _).trans (add_le_add ?_ ?_)
    · rw [abs_mul, abs_of_nonneg (hG0 _ : 0 ≤ g)]
      exact (mul_le_of_le_one_right (abs_nonneg _) (hG1 _)).trans (herr b hb')
    · rw [abs_mul, abs_of_nonneg hr0]
      exact mul_le_mul_of_nonneg_left (hGH _ hmem) hr0
  refine (sum_le_sum hterm).trans (le_of_eq ?_)
  rw [sum_add_distrib, ← sum_mul _ _ e, hone, sum_const, card_range, nsmul_eq_mul, one_mul]

/-- forward sampling along a topological order -/
theorem sampleAlong_near (hA : A.Accurate u) (hN : 0 < N) (huN : u * N ≤ 1) (hc : bn.Consistent)
    (hd : bn.Discrete) (hnn : bn.NonNeg) (hs : bn.Stochastic) (ev : Dict Val)
    {G : Except PyErr (Dict Val) → ℝ} (hG0 : ∀ r, 0 ≤ G r) (hG1 : ∀ r, G r ≤ 1) :
    ∀ (rest pre : List Name) (d : Dict Val), bn.TopoOrder (pre ++ rest) →
      Settled bn (fun v => v ∈ pre ∨ v ∈ ev.keys) d →
      |(BN.sampleAlongR A N bn ev rest none d).expect G - (BN.sampleAlong bn ev rest none d).expect G| ≤
        ((rest.filter (· ∉ ev.keys)).map fun v => (bn.lab v).length).sum *
          (2 * ((drawError u N bn.drawRoundings : ℚ) : ℝ)) := by
  intro rest
  induction rest with
  | nil =>
    intro pre d _ _
    unfold BN.sampleAlong BN.sampleAlongR
    simp
  | cons v rest ih =>
    intro pre d hto hset
    have hto' : bn.TopoOrder ((pre ++ [v]) ++ rest) := by simpa using hto
    have hvn : v ∈ bn.names := hto.perm.subset (by simp)
    by_cases hvev : v ∈ ev.keys
    · rw [BN.sampleAlong, BN.sampleAlongR, if_pos hvev, if_pos hvev,
        List.filter_cons_of_neg (by simpa using hvev)]
      refine ih (pre ++ [v]) d hto' fun w hw hS => hset w hw ?_
      beta_reduce at hS ⊢
      rw [List.mem_append, List.mem_singleton] at hS
      rcases hS with (h | rfl) | h
      · exact Or.inl h
      · exact Or.inr hvev
      · exact Or.inr h
    · obtain ⟨n, hn, rfl⟩ := BN.exists_of_mem_names hvn
      have hpar : ∀ p ∈ n.parentOrder, p ∈ bn.names ∧ (p ∈ pre ∨ p ∈ ev.keys) := fun p hp =>
        ⟨hc.parents_mem n hn p hp, Or.inl (hto.parents pre n.name rest rfl p ⟨n, hn, rfl, hp⟩)⟩
      obtain ⟨ρ, hρ, hr⟩ := hset.reads hpar
      rw [BN.sampleAlong, BN.sampleAlongR, if_neg hvev, if_neg hvev, BN.getNode_ok hc.nodup hn,
        Rand.andThen_ok, Rand.andThen_ok, Rand.expect_andThen, Rand.expect_andThen,
        List.filter_cons_of_pos (by simpa using hvev), List.map_cons, List.sum_cons,
        BN.lab_eq hc.nodup hn]
      have hfin : ∀ d', (BN.sampleAlongR A N bn ev rest none d').Finite := fun d' =>
        finite_sampleAlongR A hN bn ev rest none d'
      refine (resample_forward_near hA hN huN hc hd hnn hs hn hρ hr (bn.childNodes n)
        (e := ((rest.filter (· ∉ ev.keys)).map fun v => (bn.lab v).length).sum *
          (2 * ((drawError u N bn.drawRoundings : ℚ) : ℝ))) (fun r => ?_) (fun r => ?_)
        fun o ho => ?_).trans (le_of_eq ?_)
      · cases r with
        | error e => exact hG0 _
        | ok d' => exact Rand.le_expect (hfin d') ((Rand.all_true _).mono fun _ _ => hG0 _)
      · cases r with
        | error e => exact hG1 _
        | ok d' => exact Rand.expect_le (hfin d') ((Rand.all_true _).mono fun _ _ => hG1 _)
      · refine ih (pre ++ [n.name]) (d.set n.name o) hto' fun w hw hS => ?_
        refine (hset.set hc hn ho) w hw ?_
        beta_reduce at hS ⊢
        rw [List.mem_append, List.mem_singleton] at hS
        tauto
      · push_cast
        ring

end Primo
