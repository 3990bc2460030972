import Verif.Lemmas.ForgetSoft
import Verif.Lemmas.ForgetMany

/-! # Several transitions with soft evidence: the arrays are exchanged one after the other -/

namespace Primo
open JoinTree

/-! ## evidence that differs in one array -/

section
variable {bn : BN} {a : Name} {ev ev' : Dict Evidence}

/-- evidence that differs in what it says about a variable without parents -/
theorem soft_oneFactor_of (hc : bn.Consistent) (hnn : bn.NonNeg) {n : NodeV} (hn : n ∈ bn) (hname : n.name = a)
    (hpa : n.parentOrder = []) {ρ : ℚ} (hρ : 1 ≤ ρ) (hi : bn.Influence a ρ) (hl : LegalEvidence bn ev)
    (hl' : LegalEvidence bn ev') (hs : Supported bn ev) (hsame : ∀ v, v ≠ a → ev'.get? v = ev.get? v) :
    OneFactor a (bn.grip a ρ) bn (softened bn ev) bn (softened bn ev')
      (fun i => priorOf bn a i * likAt bn (softened bn ev) a i)
      (fun i => priorOf bn a i * likAt bn (softened bn ev') a i) (restOf bn (softened bn ev) a) := by
  have hen := NonNegEvidence.softened hnn hs
  have hm : a ∈ bn.names := hname ▸ List.mem_map_of_mem hn
  have hpr : ∀ σ : Assign, entryOf bn a σ = priorOf bn a (σ a) := by
    intro σ
    unfold priorOf
    rw [← hname, entryOf_of_mem hc.nodup hn, entryOf_of_mem hc.nodup hn]
    unfold NodeV.entry
    rw [hpa]
    rfl
  refine ⟨rfl, hc, hc, hl.softened, hl'.softened, hm, bn.one_le_grip a hρ, restOf_nonneg hc hnn hen a,
    fun i _ => mul_nonneg ?_ (likAt_nonneg hen a i), fun τ hτ i hia => restOf_le hc hnn hen hρ hi hτ hia, fun τ _ => ?_,
    fun τ _ => ?_⟩
  · unfold priorOf
    rw [← hname, entryOf_of_mem hc.nodup hn]
    exact NDArray.get_nonneg (hnn n hn) _
  · rw [weight_restOf hc.nodup hl.softened hm, hpr]
  · rw [weight_restOf hc.nodup hl'.softened hm, hpr]
    congr 1
    unfold restOf
    congr 1
    refine List.map_congr_left fun v _ => ?_
    by_cases hva : v = a
    · rw [if_pos hva, if_pos hva]
    · rw [if_neg hva, if_neg hva]
      unfold likAt
      rw [get?_softened, get?_softened, hsame v hva]

/-- evidence that is possible stays so with another factor that is possible -/
theorem OneFactor.total_pos {R : ℚ} {bn' : BN} {P P' : Nat → ℚ} {F : Assign → ℚ}
    (h : OneFactor a R bn ev bn' ev' P P' F) (hnn : bn.NonNeg) (hen : NonNegEvidence ev) (hnn' : bn'.NonNeg)
    (hen' : NonNegEvidence ev') {i : Nat} (hia : i < bn.card a) (hp : 0 < P' i) {σ : Assign}
    (hz : 0 < totalWeight bn ev σ) : 0 < totalWeight bn' ev' σ := by
  obtain ⟨τ, hτ, hw⟩ := exists_weight_pos hnn hen hz
  rw [h.weight τ hτ] at hw
  have hF : 0 < F τ := by
    refine lt_of_le_of_ne (h.nonneg τ) fun e => ?_
    rw [← e, mul_zero] at hw
    exact lt_irrefl _ hw
  have hτ' : Legal bn.card bn.names (Function.update τ a i) := fun v hv => by
    by_cases hva : v = a
    · subst hva; rw [Function.update_self]; exact hia
    · rw [Function.update_of_ne hva]; exact hτ v hv
  have hle := h.influence _ hτ' (τ a) (hτ a h.mem)
  rw [Function.update_idem, Function.update_eq_self] at hle
  have hF' : 0 < F (Function.update τ a i) := by
    refine lt_of_le_of_ne (h.nonneg _) fun e => ?_
    rw [← e, mul_zero] at hle
    exact absurd hF (not_lt.2 hle)
  refine totalWeight_pos_of h.consistent' hnn' h.legal' hen' (τ := Function.update τ a i) ?_ ?_ σ
  · rw [BN.card_of_bare h.bare, BN.names_of_bare h.bare]; exact hτ'
  · rw [h.weight' _ hτ', Function.update_self]
    exact mul_pos hp hF'

end

/-! ## arrays for the transition targets -/

/-- arrays for the transition targets, as they are carried over -/
def DBN.arrays (d : DBN) (arr : Name → List ℚ) : Dict (List ℚ) := d.transitions.map fun tr => (tr.1, arr tr.1)

/-- the evidence of a slice with arrays for the transition targets -/
def DBN.fedEv (d : DBN) (arr : Name → List ℚ) (e : Dict Evidence) : Dict Evidence := overridden (d.arrays arr) e

/-- the array of a variable -/
def arrOf (te : Dict (List ℚ)) (v : Name) : List ℚ := (te.get? v).getD []

/-- the arrays of the variables in `S` are exchanged -/
def mixArr (S : List Name) (arr arr' : Name → List ℚ) (v : Name) : List ℚ := if v ∈ S then arr' v else arr v

section
variable {d : DBN} {arr arr' : Name → List ℚ} {e : Dict Evidence} {S : List Name} {tr : Name × Name}

theorem DBN.arrays_keys (d : DBN) (arr : Name → List ℚ) : (d.arrays arr).keys = d.transitions.map Prod.fst := by
  simp [arrays, Dict.keys]

theorem DBN.eq_arrays (hn : (d.transitions.map Prod.fst).Nodup) {te : Dict (List ℚ)}
    (hk : te.keys = d.transitions.map Prod.fst) : te = d.arrays (arrOf te) := by
  have h1 : te = te.keys.map fun v => (v, arrOf te v) := by
    unfold Dict.keys
    rw [List.map_map]
    conv_lhs => rw [← List.map_id te]
    refine List.map_congr_left fun p hp => ?_
    have := Dict.get?_of_mem (d := te) (by rw [hk]; exact hn) (k := p.1) (v := p.2) hp
    simp [arrOf, this]
  rw [hk, List.map_map] at h1
  exact h1

theorem DBN.get?_arrays (d : DBN) (arr : Name → List ℚ) (v : Name) :
    (d.arrays arr).get? v = if v ∈ d.transitions.map Prod.fst then some (arr v) else none := by
  unfold arrays
  induction d.transitions with
  | nil => rfl
  | cons tr T ih =>
    rw [List.map_cons, Dict.get?, ih]
    by_cases hv : tr.1 = v
    · subst hv; simp
    · have hv' : v ≠ tr.1 := Ne.symm hv
      rw [if_neg hv]
      simp only [List.map_cons, List.mem_cons, hv', false_or]

theorem DBN.get?_fedEv (d : DBN) (arr : Name → List ℚ) (e : Dict Evidence) (v : Name) :
    (d.fedEv arr e).get? v = if v ∈ d.transitions.map Prod.fst then some (.soft (arr v)) else e.get? v := by
  unfold fedEv overridden
  rw [Dict.get?_append, d.arrays_keys]
  have h1 : Dict.get? ((d.arrays arr).map fun p => (p.1, Evidence.soft p.2)) v =
      ((d.arrays arr).get? v).map Evidence.soft := Dict.get?_mapVal _ _ _
  rw [h1, d.get?_arrays]
  by_cases hv : v ∈ d.transitions.map Prod.fst
  · have h2 : Dict.get? (e.filter fun p => p.1 ∉ d.transitions.map Prod.fst) v = none := by
      rw [Dict.get?_eq_none]
      intro hm
      obtain ⟨p, hp, rfl⟩ := List.mem_map.1 hm
      have := (List.mem_filter.1 hp).2
      simp only [decide_eq_true_eq] at this
      exact this hv
    rw [h2, if_pos hv, if_pos hv]
    rfl
  · rw [if_neg hv, if_neg hv]
    have h2 : Dict.get? (e.filter fun p => p.1 ∉ d.transitions.map Prod.fst) v = e.get? v := by
      induction e with
      | nil => rfl
      | cons p e ih =>
        obtain ⟨k, x⟩ := p
        by_cases hk : k ∈ d.transitions.map Prod.fst
        · rw [List.filter_cons_of_neg (by simpa using hk), ih, Dict.get?, if_neg]
          rintro rfl
          exact hv hk
        · rw [List.filter_cons_of_pos (by simpa using hk), Dict.get?, Dict.get?, ih]
    rw [h2]
    simp

theorem DBN.mem_fedEv_mix {p : Name × Evidence} (hp : p ∈ d.fedEv (mixArr S arr arr') e) :
    p ∈ d.fedEv arr e ∨ p ∈ d.fedEv arr' e := by
  unfold fedEv overridden at hp ⊢
  rw [d.arrays_keys] at hp ⊢
  rw [d.arrays_keys]
  rcases List.mem_append.1 hp with hp | hp
  · exact .inl (List.mem_append_left _ hp)
  · obtain ⟨q, hq, rfl⟩ := List.mem_map.1 hp
    obtain ⟨tr, ht, rfl⟩ := List.mem_map.1 hq
    dsimp only
    unfold mixArr
    split
    · exact .inr (List.mem_append_right _ (List.mem_map.2 ⟨_, List.mem_map.2 ⟨tr, ht, rfl⟩, rfl⟩))
    · exact .inl (List.mem_append_right _ (List.mem_map.2 ⟨_, List.mem_map.2 ⟨tr, ht, rfl⟩, rfl⟩))

theorem DBN.fedEv_keys (d : DBN) (arr arr' : Name → List ℚ) (e : Dict Evidence) :
    (d.fedEv arr e).keys = (d.fedEv arr' e).keys := by
  unfold fedEv overridden
  rw [d.arrays_keys, d.arrays_keys]
  simp [Dict.keys, arrays]

/-- two families of arrays that can both be entered with the evidence `e` -/
structure BothFed (d : DBN) (arr arr' : Name → List ℚ) (e : Dict Evidence) : Prop where
  legal : LegalEvidence d.twoTbn (d.fedEv arr e)
  legal' : LegalEvidence d.twoTbn (d.fedEv arr' e)
  sup : Supported d.twoTbn (d.fedEv arr e)
  sup' : Supported d.twoTbn (d.fedEv arr' e)

namespace BothFed
variable {ρ : Name → ℚ} {κ : ℚ} {L : List (Name × Name)}

theorem mix_legal (p : BothFed d arr arr' e) (S : List Name) : LegalEvidence d.twoTbn (d.fedEv (mixArr S arr arr') e) := by
  refine ⟨?_, fun q hq => ?_, fun v x hq => ?_, fun v l hq => ?_⟩
  · rw [d.fedEv_keys _ arr]; exact p.legal.nodup
  · rcases DBN.mem_fedEv_mix hq with hq | hq
    · exact p.legal.mem q hq
    · exact p.legal'.mem q hq
  · rcases DBN.mem_fedEv_mix hq with hq | hq
    · exact p.legal.hard v x hq
    · exact p.legal'.hard v x hq
  · rcases DBN.mem_fedEv_mix hq with hq | hq
    · exact p.legal.soft v l hq
    · exact p.legal'.soft v l hq

theorem mix_sup (p : BothFed d arr arr' e) (S : List Name) : Supported d.twoTbn (d.fedEv (mixArr S arr arr') e) := by
  intro v l hq
  rcases DBN.mem_fedEv_mix hq with hq | hq
  · exact p.sup v l hq
  · exact p.sup' v l hq

theorem mix_nonneg (h : d.Ready) (p : BothFed d arr arr' e) (S : List Name) :
    NonNegEvidence (softened d.twoTbn (d.fedEv (mixArr S arr arr') e)) :=
  NonNegEvidence.softened h.two_nonneg (p.mix_sup S)

theorem likAt_congr (ht : tr ∈ d.transitions) (ha : arr tr.1 = arr' tr.1) (i : Nat) :
    likAt d.twoTbn (softened d.twoTbn (d.fedEv arr e)) tr.1 i =
      likAt d.twoTbn (softened d.twoTbn (d.fedEv arr' e)) tr.1 i := by
  have hm : tr.1 ∈ d.transitions.map Prod.fst := List.mem_map_of_mem ht
  unfold likAt
  rw [get?_softened, get?_softened, d.get?_fedEv, d.get?_fedEv, if_pos hm, if_pos hm, ha]

theorem alike_factor (h : d.Ready) (ht : tr ∈ d.transitions)
    (ha : Alike (· < d.twoTbn.card tr.1) κ (fun i => (arr' tr.1).getD i 0) fun i => (arr tr.1).getD i 0) :
    Alike (· < d.twoTbn.card tr.1) κ
      (fun i => priorOf d.twoTbn tr.1 i * likAt d.twoTbn (softened d.twoTbn (d.fedEv arr' e)) tr.1 i)
      fun i => priorOf d.twoTbn tr.1 i * likAt d.twoTbn (softened d.twoTbn (d.fedEv arr e)) tr.1 i := by
  have hm : tr.1 ∈ d.transitions.map Prod.fst := List.mem_map_of_mem ht
  have key : ∀ arr : Name → List ℚ, ∀ i < d.twoTbn.card tr.1,
      likAt d.twoTbn (softened d.twoTbn (d.fedEv arr e)) tr.1 i =
        (arr tr.1).getD i 0 * (if priorAt d.twoTbn tr.1 i = 0 then 0 else 1 / priorAt d.twoTbn tr.1 i) := by
    intro arr i hi
    unfold likAt
    rw [get?_softened, d.get?_fedEv, if_pos hm]
    exact ratio_getD _ _ _ hi
  refine (ha.mul_right (h := fun i => priorOf d.twoTbn tr.1 i *
    if priorAt d.twoTbn tr.1 i = 0 then 0 else 1 / priorAt d.twoTbn tr.1 i)
    fun i _ => mul_nonneg ?_ ?_).congr (fun i hi => ?_) fun i hi => ?_
  · exact DBN.Reprior.priorOf_nonneg h ht ⟨DBN.Good.start h, fun _ hn _ => hn⟩ i
  · split
    · exact le_rfl
    · exact one_div_nonneg.2 (priorAt_nonneg h.two_nonneg _ i)
  · rw [key _ _ hi]; ring
  · rw [key _ _ hi]; ring

/-- one array is exchanged -/
theorem oneFactor (h : d.Ready) (hb : d.Bounded ρ) (p : BothFed d arr arr' e) (ht : tr ∈ d.transitions)
    (hS : tr.1 ∉ S) : OneFactor tr.1 (d.twoTbn.grip tr.1 (ρ tr.1)) d.twoTbn
      (softened d.twoTbn (d.fedEv (mixArr S arr arr') e)) d.twoTbn
      (softened d.twoTbn (d.fedEv (mixArr (tr.1 :: S) arr arr') e))
      (fun i => priorOf d.twoTbn tr.1 i * likAt d.twoTbn (softened d.twoTbn (d.fedEv arr e)) tr.1 i)
      (fun i => priorOf d.twoTbn tr.1 i * likAt d.twoTbn (softened d.twoTbn (d.fedEv arr' e)) tr.1 i)
      (restOf d.twoTbn (softened d.twoTbn (d.fedEv (mixArr S arr arr') e)) tr.1) := by
  obtain ⟨n, n1, n2, -, n3, -⟩ := h.node tr ht
  have := soft_oneFactor_of h.two.consistent h.two_nonneg n1 n2 n3 (hb.one_le tr ht) (hb.influence tr ht)
    (p.mix_legal S) (p.mix_legal (tr.1 :: S)) (p.mix_sup S) fun v hv => by
      rw [d.get?_fedEv, d.get?_fedEv]
      simp [mixArr, hv]
  have e1 := likAt_congr (arr := mixArr S arr arr') (arr' := arr) (e := e) ht (if_neg hS)
  have e2 := likAt_congr (arr := mixArr (tr.1 :: S) arr arr') (arr' := arr') (e := e) ht (if_pos (by simp))
  simp only [e1, e2] at this
  exact this

theorem mix_nil (arr arr' : Name → List ℚ) : mixArr [] arr arr' = arr := by
  funext v; simp [mixArr]

theorem mix_all (d : DBN) (arr arr' : Name → List ℚ) (e : Dict Evidence) :
    d.fedEv (mixArr (d.transitions.map Prod.fst) arr arr') e = d.fedEv arr' e := by
  unfold DBN.fedEv
  congr 1
  unfold DBN.arrays
  refine List.map_congr_left fun tr ht => ?_
  rw [mixArr, if_pos (List.mem_map_of_mem ht)]

/-- the arrays of the targets in `L` are exchanged -/
theorem posterior_mix (h : d.Ready) (hb : d.Bounded ρ) (p : BothFed d arr arr' e) (hκ : 1 ≤ κ)
    (hp : ∀ tr ∈ d.transitions, Alike (· < d.twoTbn.card tr.1) κ (fun i => (arr' tr.1).getD i 0)
      fun i => (arr tr.1).getD i 0)
    (hL : ∀ tr ∈ L, tr ∈ d.transitions) (hnd : (L.map Prod.fst).Nodup) {b : Name} (hbL : ∀ tr ∈ L, b ≠ tr.1) :
    Alike (Legal d.twoTbn.card [b]) ((L.map fun tr => fade (d.twoTbn.grip tr.1 (ρ tr.1)) κ 1).prod)
      (posterior d.twoTbn (softened d.twoTbn (d.fedEv (mixArr (L.map Prod.fst) arr arr') e)) [b])
      (posterior d.twoTbn (softened d.twoTbn (d.fedEv arr e)) [b]) := by
  induction L with
  | nil =>
    simp only [List.map_nil, List.prod_nil]
    rw [mix_nil]
    exact Alike.rfl' fun σ _ => posterior_nonneg h.two_nonneg (NonNegEvidence.softened h.two_nonneg p.sup) _ _
  | cons tr L ih =>
    have ht := hL tr List.mem_cons_self
    simp only [List.map_cons, List.nodup_cons] at hnd
    have ih := ih (fun t ht => hL t (List.mem_cons_of_mem _ ht)) hnd.2 fun t ht => hbL t (List.mem_cons_of_mem _ ht)
    have := (p.oneFactor h hb ht hnd.1).posterior (hbL tr List.mem_cons_self) hκ (alike_factor h ht (hp tr ht))
    rw [List.map_cons, List.map_cons, List.prod_cons]
    exact this.trans (le_trans zero_le_one (one_le_fade (BN.one_le_grip _ _ (hb.one_le tr ht)) hκ 1)) ih

theorem total_mix (h : d.Ready) (hb : d.Bounded ρ) (p : BothFed d arr arr' e) {σ : Assign}
    (hz : 0 < totalWeight d.twoTbn (softened d.twoTbn (d.fedEv arr e)) σ)
    (hz' : 0 < totalWeight d.twoTbn (softened d.twoTbn (d.fedEv arr' e)) σ)
    (hL : ∀ tr ∈ L, tr ∈ d.transitions) (hnd : (L.map Prod.fst).Nodup) :
    0 < totalWeight d.twoTbn (softened d.twoTbn (d.fedEv (mixArr (L.map Prod.fst) arr arr') e)) σ := by
  induction L with
  | nil => rw [List.map_nil, mix_nil]; exact hz
  | cons tr L ih =>
    have ht := hL tr List.mem_cons_self
    simp only [List.map_cons, List.nodup_cons] at hnd
    have ih := ih (fun t ht => hL t (List.mem_cons_of_mem _ ht)) hnd.2
    have hen' := NonNegEvidence.softened h.two_nonneg p.sup'
    obtain ⟨τ, hτ, hw⟩ := exists_weight_pos h.two_nonneg hen' hz'
    have hm : tr.1 ∈ d.twoTbn.names := DBN.Reprior.target_mem h ht
    have r : d.Reprior d.twoTbn := ⟨DBN.Good.start h, fun _ hn _ => hn⟩
    rw [weight_restOf h.two.consistent.nodup p.legal'.softened hm, r.prior h ht] at hw
    have h0 : 0 ≤ priorOf d.twoTbn tr.1 (τ tr.1) *
        likAt d.twoTbn (softened d.twoTbn (d.fedEv arr' e)) tr.1 (τ tr.1) :=
      mul_nonneg (r.priorOf_nonneg h ht _) (likAt_nonneg hen' _ _)
    refine (p.oneFactor h hb ht hnd.1).total_pos h.two_nonneg (p.mix_nonneg h _) h.two_nonneg (p.mix_nonneg h _)
      (i := τ tr.1) (hτ _ hm) ?_ ih
    refine lt_of_le_of_ne h0 fun e => ?_
    rw [← e, zero_mul] at hw
    exact lt_irrefl _ hw

theorem posterior_mix_any (h : d.Ready) (hb : d.Bounded ρ) (p : BothFed d arr arr' e) {σ : Assign}
    (hz : 0 < totalWeight d.twoTbn (softened d.twoTbn (d.fedEv arr e)) σ)
    (hz' : 0 < totalWeight d.twoTbn (softened d.twoTbn (d.fedEv arr' e)) σ)
    (hL : ∀ tr ∈ L, tr ∈ d.transitions) (hnd : (L.map Prod.fst).Nodup) {b : Name} (hbL : ∀ tr ∈ L, b ≠ tr.1) :
    Alike (Legal d.twoTbn.card [b]) ((L.map fun tr => d.twoTbn.grip tr.1 (ρ tr.1) ^ 2).prod)
      (posterior d.twoTbn (softened d.twoTbn (d.fedEv (mixArr (L.map Prod.fst) arr arr') e)) [b])
      (posterior d.twoTbn (softened d.twoTbn (d.fedEv arr e)) [b]) := by
  induction L with
  | nil =>
    simp only [List.map_nil, List.prod_nil]
    rw [mix_nil]
    exact Alike.rfl' fun σ _ => posterior_nonneg h.two_nonneg (NonNegEvidence.softened h.two_nonneg p.sup) _ _
  | cons tr L ih =>
    have ht := hL tr List.mem_cons_self
    have z1 := total_mix h hb p hz hz' hL hnd
    simp only [List.map_cons, List.nodup_cons] at hnd
    have hL' : ∀ tr ∈ L, tr ∈ d.transitions := fun t ht => hL t (List.mem_cons_of_mem _ ht)
    have ih := ih hL' hnd.2 fun t ht => hbL t (List.mem_cons_of_mem _ ht)
    have r : d.Reprior d.twoTbn := ⟨DBN.Good.start h, fun _ hn _ => hn⟩
    have := (p.oneFactor h hb ht hnd.1).posterior_any (hbL tr List.mem_cons_self)
      (fun i _ => mul_nonneg (r.priorOf_nonneg h ht i)
        (likAt_nonneg (NonNegEvidence.softened h.two_nonneg p.sup') _ _))
      (total_mix h hb p hz hz' hL' hnd.2) z1
    rw [List.map_cons, List.map_cons, List.prod_cons]
    exact this.trans (sq_nonneg _) ih

theorem answers_mix (h : d.Ready) (hb : d.Bounded ρ) (p : BothFed d arr arr' e) (hκ : 1 ≤ κ)
    (hp : ∀ tr ∈ d.transitions, Alike (· < d.twoTbn.card tr.1) κ (fun i => (arr' tr.1).getD i 0)
      fun i => (arr tr.1).getD i 0)
    (hL : ∀ tr ∈ L, tr ∈ d.transitions) (hnd : (L.map Prod.fst).Nodup) {vs : List Name} {σ : Assign}
    (hσ : Legal d.twoTbn.card vs σ) :
    posterior d.twoTbn (softened d.twoTbn (d.fedEv (mixArr (L.map Prod.fst) arr arr') e)) vs σ ≤
        κ ^ L.length * posterior d.twoTbn (softened d.twoTbn (d.fedEv arr e)) vs σ ∧
      posterior d.twoTbn (softened d.twoTbn (d.fedEv arr e)) vs σ ≤ κ ^ L.length *
        posterior d.twoTbn (softened d.twoTbn (d.fedEv (mixArr (L.map Prod.fst) arr arr') e)) vs σ := by
  induction L with
  | nil =>
    rw [List.map_nil, mix_nil, List.length_nil, pow_zero, one_mul]
    exact ⟨le_rfl, le_rfl⟩
  | cons tr L ih =>
    have ht := hL tr List.mem_cons_self
    simp only [List.map_cons, List.nodup_cons] at hnd
    obtain ⟨i1, i2⟩ := ih (fun t ht => hL t (List.mem_cons_of_mem _ ht)) hnd.2
    obtain ⟨j1, j2⟩ := (p.oneFactor h hb ht hnd.1).answers hκ (alike_factor h ht (hp tr ht)) hσ
    have hk : (0 : ℚ) ≤ κ := by linarith
    rw [List.map_cons, List.length_cons]
    constructor
    · calc _ ≤ κ * _ := j1
        _ ≤ κ * (κ ^ L.length * posterior d.twoTbn (softened d.twoTbn (d.fedEv arr e)) vs σ) :=
            mul_le_mul_of_nonneg_left i1 hk
        _ = _ := by ring
    · calc _ ≤ κ ^ L.length * _ := i2
        _ ≤ κ ^ L.length * (κ * _) := mul_le_mul_of_nonneg_left j2 (pow_nonneg hk _)
        _ = _ := by ring

/-- one more slice -/
theorem step (h : d.Ready) (hb : d.Bounded ρ) (p : BothFed d arr arr' e) (hκ : 1 ≤ κ)
    (hp : ∀ tr ∈ d.transitions, Alike (· < d.twoTbn.card tr.1) κ (fun i => (arr' tr.1).getD i 0)
      fun i => (arr tr.1).getD i 0) (ht : tr ∈ d.transitions) :
    Alike (· < d.twoTbn.card tr.1) (d.blur ρ κ)
      (fun i => posterior d.twoTbn (softened d.twoTbn (d.fedEv arr' e)) [tr.2] fun _ => i)
      fun i => posterior d.twoTbn (softened d.twoTbn (d.fedEv arr e)) [tr.2] fun _ => i := by
  have := posterior_mix h hb p hκ hp (L := d.transitions) (fun _ h => h) h.targets (b := tr.2)
    fun t ht' => hb.sources tr ht t ht'
  rw [mix_all] at this
  refine this.comap (p := fun i _ => i) fun i hi => ?_
  simpa [Legal, ← h.card_sources ht] using hi

theorem step_any (h : d.Ready) (hb : d.Bounded ρ) (p : BothFed d arr arr' e) {σ : Assign}
    (hz : 0 < totalWeight d.twoTbn (softened d.twoTbn (d.fedEv arr e)) σ)
    (hz' : 0 < totalWeight d.twoTbn (softened d.twoTbn (d.fedEv arr' e)) σ) (ht : tr ∈ d.transitions) :
    Alike (· < d.twoTbn.card tr.1) (d.reach ρ)
      (fun i => posterior d.twoTbn (softened d.twoTbn (d.fedEv arr' e)) [tr.2] fun _ => i)
      fun i => posterior d.twoTbn (softened d.twoTbn (d.fedEv arr e)) [tr.2] fun _ => i := by
  have := posterior_mix_any h hb p hz hz' (L := d.transitions) (fun _ h => h) h.targets (b := tr.2)
    fun t ht' => hb.sources tr ht t ht'
  rw [mix_all] at this
  refine this.comap (p := fun i _ => i) fun i hi => ?_
  simpa [Legal, ← h.card_sources ht] using hi

/-- Every posterior is at most as far off as the arrays together. -/
theorem answers (h : d.Ready) (hb : d.Bounded ρ) (p : BothFed d arr arr' e) (hκ : 1 ≤ κ)
    (hp : ∀ tr ∈ d.transitions, Alike (· < d.twoTbn.card tr.1) κ (fun i => (arr' tr.1).getD i 0)
      fun i => (arr tr.1).getD i 0) {vs : List Name} {σ : Assign} (hσ : Legal d.twoTbn.card vs σ) :
    posterior d.twoTbn (softened d.twoTbn (d.fedEv arr' e)) vs σ ≤
        κ ^ d.transitions.length * posterior d.twoTbn (softened d.twoTbn (d.fedEv arr e)) vs σ ∧
      posterior d.twoTbn (softened d.twoTbn (d.fedEv arr e)) vs σ ≤
        κ ^ d.transitions.length * posterior d.twoTbn (softened d.twoTbn (d.fedEv arr' e)) vs σ := by
  have := answers_mix h hb p hκ hp (L := d.transitions) (fun _ h => h) h.targets hσ
  rwa [mix_all] at this

end BothFed
end

/-! ## the arrays that are carried over -/

section
variable {d : DBN} {ρ : Name → ℚ} {κ : ℚ} {b : BN} {es es₀ : List (Dict Evidence)} {e : Dict Evidence}

theorem DBN.Ready.fed_carried (h : d.Ready) (hes : es ≠ []) (e : Dict Evidence) :
    overridden (d.carried es) e = d.fedEv (arrOf (d.carried es)) e := by
  unfold DBN.fedEv
  rw [← DBN.eq_arrays h.targets]
  rw [d.carried_keys, if_neg hes]

theorem arrOf_map {T : List (Name × Name)} (hn : (T.map Prod.fst).Nodup) {tr : Name × Name} (ht : tr ∈ T)
    (g : Name × Name → List ℚ) : arrOf (T.map fun t => (t.1, g t)) tr.1 = g tr := by
  unfold arrOf
  rw [Dict.get?_of_mem (v := g tr) (by simpa [Dict.keys, Function.comp_def] using hn) (List.mem_map.2 ⟨tr, ht, rfl⟩)]
  rfl

theorem DBN.slice_card_source (h : d.Ready) {tr : Name × Name} (ht : tr ∈ d.transitions) (k : Nat) :
    (d.slice k).card tr.2 = d.twoTbn.card tr.1 := by
  obtain ⟨-, c1, c2⟩ := h.soft.node tr ht
  unfold DBN.slice
  split
  · exact c1.symm
  · exact c2.symm

theorem DBN.carried_entry (h : d.Ready) (es : List (Dict Evidence)) (e : Dict Evidence) {tr : Name × Name}
    (ht : tr ∈ d.transitions) {i : Nat} (hi : i < d.twoTbn.card tr.1) :
    (arrOf (d.carried (es ++ [e])) tr.1).getD i 0 =
      posterior (d.slice es.length) (softened (d.slice es.length) (overridden (d.carried es) e)) [tr.2] fun _ => i := by
  rw [d.carried_append, carry, arrOf_map h.targets ht,
    getD_of_lt (by simpa [slice_card_source h ht] using hi), List.getElem_map, List.getElem_range]

/-- the same evidence in two dynamic networks -/
theorem DBN.SoftPast.bothFed (h : d.Ready) (h' : ({ d with b0 := b } : DBN).Ready) (hes : es ≠ [])
    (hp : d.SoftPast (es ++ [e])) (hp' : ({ d with b0 := b } : DBN).SoftPast (es ++ [e])) :
    BothFed d (arrOf (d.carried es)) (arrOf (({ d with b0 := b } : DBN).carried es)) e := by
  obtain ⟨a1, a2⟩ := DBN.SoftPast.at_later (es := []) hp hes
  obtain ⟨-, a2'⟩ := DBN.SoftPast.at_later (es := []) hp' hes
  have e1 := LegalEvidence.overridden h.soft (es := es) (ev := e) (by rw [d.slice_later hes]; exact a1)
  have e2 := LegalEvidence.overridden h'.soft (es := es) (ev := e) (by rw [DBN.slice_later _ hes]; exact a1)
  rw [DBN.slice_later _ hes, h.fed_carried hes] at e1
  rw [DBN.slice_later _ hes, h'.fed_carried hes] at e2
  rw [h.fed_carried hes] at a2
  rw [h'.fed_carried hes] at a2'
  exact ⟨e1, e2, a2, a2'⟩

/-- Arrays that differ by a factor, after more slices. -/
theorem soft_blur (h : d.Ready) (h' : ({ d with b0 := b } : DBN).Ready) (hb : d.Bounded ρ) (hκ : 1 ≤ κ) (h₀ : es₀ ≠ [])
    (hp : d.SoftPast (es₀ ++ es)) (hp' : ({ d with b0 := b } : DBN).SoftPast (es₀ ++ es))
    (ha : ∀ tr ∈ d.transitions, Alike (· < d.twoTbn.card tr.1) κ
      (fun i => (arrOf (({ d with b0 := b } : DBN).carried es₀) tr.1).getD i 0)
      fun i => (arrOf (d.carried es₀) tr.1).getD i 0) :
    ∀ tr ∈ d.transitions, Alike (· < d.twoTbn.card tr.1) ((d.blur ρ)^[es.length] κ)
      (fun i => (arrOf (({ d with b0 := b } : DBN).carried (es₀ ++ es)) tr.1).getD i 0)
      fun i => (arrOf (d.carried (es₀ ++ es)) tr.1).getD i 0 := by
  induction es using List.reverseRecOn with
  | nil => rw [List.append_nil]; exact ha
  | append_singleton es e ih =>
    intro tr ht
    have h1 : es₀ ++ es ≠ [] := by simp [h₀]
    rw [← List.append_assoc] at hp hp' ⊢
    have ih := ih hp.init hp'.init
    rw [List.length_append, List.length_singleton, Function.iterate_succ_apply']
    refine ((hp.bothFed h h' h1 hp').step h hb (hb.one_le_iterate hκ _) ih ht).congr (fun i hi => ?_) fun i hi => ?_
    · rw [DBN.carried_entry h' _ _ ht hi, DBN.slice_later _ h1, h'.fed_carried h1]; rfl
    · rw [DBN.carried_entry h _ _ ht hi, DBN.slice_later _ h1, h.fed_carried h1]

/-- arbitrary arrays, after a slice whose evidence is possible with both -/
theorem soft_any_many (h : d.Ready) (h' : ({ d with b0 := b } : DBN).Ready) (hb : d.Bounded ρ) (h₀ : es₀ ≠ [])
    (hp : d.SoftPast (es₀ ++ [e])) (hp' : ({ d with b0 := b } : DBN).SoftPast (es₀ ++ [e])) {σ : Assign}
    (hz : 0 < totalWeight d.twoTbn (softened d.twoTbn (overridden (d.carried es₀) e)) σ)
    (hz' : 0 < totalWeight d.twoTbn (softened d.twoTbn (overridden (({ d with b0 := b } : DBN).carried es₀) e)) σ) :
    ∀ tr ∈ d.transitions, Alike (· < d.twoTbn.card tr.1) (d.reach ρ)
      (fun i => (arrOf (({ d with b0 := b } : DBN).carried (es₀ ++ [e])) tr.1).getD i 0)
      fun i => (arrOf (d.carried (es₀ ++ [e])) tr.1).getD i 0 := by
  intro tr ht
  rw [h.fed_carried h₀] at hz
  rw [h'.fed_carried h₀] at hz'
  refine ((hp.bothFed h h' h₀ hp').step_any h hb hz hz' ht).congr (fun i hi => ?_) fun i hi => ?_
  · rw [DBN.carried_entry h' _ _ ht hi, DBN.slice_later _ h₀, h'.fed_carried h₀]; rfl
  · rw [DBN.carried_entry h _ _ ht hi, DBN.slice_later _ h₀, h.fed_carried h₀]

/-! ## rounded arrays -/

theorem CarriedNear.keys {u : ℚ} {te : Dict (List ℚ)} (h : CarriedNear u d es te) (hes : es ≠ []) :
    te.keys = d.transitions.map Prod.fst := by
  cases h with
  | start => exact absurd rfl hes
  | next _ _ _ h4 =>
    clear hes
    unfold Dict.keys
    generalize d.transitions = T at h4
    induction h4 with
    | nil => rfl
    | cons h1 _ ih => rw [List.map_cons, List.map_cons, h1.1, ih]

theorem CarriedNear.fed {u : ℚ} {te : Dict (List ℚ)} (hR : CarriedNear u d es te) (h : d.Ready) (hes : es ≠ [])
    (e : Dict Evidence) : overridden te e = d.fedEv (arrOf te) e := by
  unfold DBN.fedEv
  rw [← DBN.eq_arrays h.targets (hR.keys hes)]

/-- The arrays that are carried over stay close to those prescribed, however many slices there are. -/
theorem CarriedNear.alike_many {u ε : ℚ} (h0 : 0 ≤ u) (hu : u < 1) (h : d.Ready) (hb : d.Bounded ρ) {m : Nat}
    (hm : ∀ k, ∀ e ∈ es, ∀ tr ∈ d.transitions, treeRoundings (d.slice k) (d.entryRoundings k e) [tr.2] ≤ m)
    (hε : 0 ≤ ε) (h1 : 1 ≤ (1 + ε) * (1 - u) ^ (2 * m)) (hκ : 1 ≤ κ) (h2 : (1 + ε) * d.blur ρ κ ≤ κ)
    (hp : d.SoftPast es) {te : Dict (List ℚ)} (hR : CarriedNear u d es te) (hes : es ≠ []) :
    ∀ tr ∈ d.transitions, Alike (· < d.twoTbn.card tr.1) κ (fun i => (arrOf te tr.1).getD i 0)
      fun i => (arrOf (d.carried es) tr.1).getD i 0 := by
  induction hR with
  | start => exact absurd rfl hes
  | @next es te te' e hR hle hsup hf ih =>
    have ih := ih (fun k e' he' => hm k e' (List.mem_append_left _ he')) hp.init
    intro tr ht
    have hcard := DBN.slice_card_source h ht es.length
    have hkeys : te'.keys = d.transitions.map Prod.fst := (hR.next hle hsup hf).keys (by simp)
    have f3 : ∀ i < d.twoTbn.card tr.1,
        Near u (treeRoundings (d.slice es.length) (d.entryRoundings es.length e) [tr.2]) ((arrOf te' tr.1).getD i 0)
          (posterior (d.slice es.length) (softened (d.slice es.length) (overridden te e)) [tr.2] fun _ => i) := by
      intro i hi
      obtain ⟨j, hj, rfl⟩ := List.getElem_of_mem ht
      have hj' : j < te'.length := by rw [hf.length_eq]; exact hj
      obtain ⟨g1, -, g3⟩ := hf.get hj' hj
      have : arrOf te' d.transitions[j].1 = te'[j].2 := by
        unfold arrOf
        rw [Dict.get?_of_mem (v := te'[j].2) (by rw [hkeys]; exact h.targets)]
        · rfl
        · have g1 : te'[j].1 = d.transitions[j].1 := g1
          rw [← g1]
          exact List.getElem_mem hj'
      rw [this]
      exact g3 i (by
        change i < (d.slice es.length).card d.transitions[j].2
        rw [hcard]; exact hi)
    have hle₀ := LegalEvidence.overridden h.soft (hp.legal es e [] rfl)
    have hsup₀ := hp.sup es e [] rfl
    -- the rounding of the answer
    have a1 : Alike (· < d.twoTbn.card tr.1) (1 + ε) (fun i => (arrOf te' tr.1).getD i 0) fun i =>
        posterior (d.slice es.length) (softened (d.slice es.length) (overridden te e)) [tr.2] fun _ => i := by
      refine Alike.of_near hu (h1.trans ?_) f3
      have := hm es.length e (by simp) tr ht
      exact mul_le_mul_of_nonneg_left (pow_le_pow_of_le_one (by linarith) (by linarith) (by omega)) (by linarith)
    -- the difference that was there before
    have a2 : Alike (· < d.twoTbn.card tr.1) (d.blur ρ κ)
        (fun i => posterior (d.slice es.length) (softened (d.slice es.length) (overridden te e)) [tr.2] fun _ => i)
        fun i => posterior (d.slice es.length) (softened (d.slice es.length) (overridden (d.carried es) e)) [tr.2]
          fun _ => i := by
      by_cases hes : es = []
      · subst hes
        have : te = d.carried [] := by
          generalize hh : ([] : List (Dict Evidence)) = es at hR
          cases hR with
          | start => rfl
          | next => simp at hh
        rw [this]
        refine (Alike.rfl' fun i _ => ?_).mono (hb.one_le_blur hκ)
        exact posterior_nonneg (h.soft.net _).2.1 (NonNegEvidence.softened (h.soft.net _).2.1 hsup₀) _ _
      · have ih := ih hes
        rw [hR.fed h hes, d.slice_later hes] at hle hsup
        rw [h.fed_carried hes, d.slice_later hes] at hle₀ hsup₀
        rw [hR.fed h hes, h.fed_carried hes, d.slice_later hes]
        exact BothFed.step h hb ⟨hle₀, hle, hsup₀, hsup⟩ hκ ih ht
    refine ((a1.trans (by linarith) a2).mono h2).congr (fun _ _ => rfl) fun i hia => ?_
    exact DBN.carried_entry h _ _ ht hia

end

end Primo
