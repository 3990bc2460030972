import Verif.Lemmas.ForgetSlices
import Verif.Lemmas.RoundedSoftFeedback
import Verif.Lemmas.UnrollSoft
import Verif.Lemmas.Network

/-! # Soft-evidence feedback forgets its past -/

namespace Primo
open JoinTree

theorem get?_filter_one {α : Type} (e : Dict α) (a v : Name) :
    Dict.get? (e.filter fun p => p.1 ∉ [a]) v = if v = a then none else e.get? v := by
  induction e with
  | nil => simp [Dict.get?]
  | cons p e ih =>
    obtain ⟨k, x⟩ := p
    by_cases hk : k = a
    · subst hk
      rw [List.filter_cons_of_neg (by simp), ih]
      by_cases hv : v = k
      · rw [if_pos hv, if_pos hv]
      · rw [if_neg hv, if_neg hv, Dict.get?, if_neg (Ne.symm hv)]
    · rw [List.filter_cons_of_pos (by simpa using hk), Dict.get?, ih, Dict.get?]
      by_cases hv : k = v
      · subst hv
        rw [if_pos rfl, if_neg hk, if_pos rfl]
      · rw [if_neg hv, if_neg hv]

theorem get?_overridden_one (a : Name) (l : List ℚ) (e : Dict Evidence) (v : Name) :
    (overridden [(a, l)] e).get? v = if v = a then some (.soft l) else e.get? v := by
  unfold overridden
  rw [Dict.get?_append]
  change ((Dict.get? (e.filter fun p => p.1 ∉ [a]) v).or (Dict.get? [(a, Evidence.soft l)] v)) = _
  rw [get?_filter_one]
  by_cases hv : v = a
  · subst hv
    simp [Dict.get?]
  · rw [if_neg hv, if_neg hv, Dict.get?, if_neg (Ne.symm hv)]
    simp [Dict.get?]

section
variable {bn : BN} {a : Name} {l l' : List ℚ} {e : Dict Evidence}

theorem likAt_fed {i : Nat} (hi : i < bn.card a) :
    likAt bn (softened bn (overridden [(a, l)] e)) a i =
      l.getD i 0 * (if priorAt bn a i = 0 then 0 else 1 / priorAt bn a i) := by
  unfold likAt
  rw [get?_softened, get?_overridden_one, if_pos rfl]
  exact ratio_getD bn a l hi

theorem likAt_unfed {v : Name} (hv : v ≠ a) (i : Nat) :
    likAt bn (softened bn (overridden [(a, l)] e)) v i = likAt bn (softened bn (overridden [(a, l')] e)) v i := by
  unfold likAt
  rw [get?_softened, get?_softened, get?_overridden_one, get?_overridden_one, if_neg hv, if_neg hv]

/-- the same evidence with two arrays for a variable without parents -/
theorem soft_oneFactor (hc : bn.Consistent) (hnn : bn.NonNeg) {n : NodeV} (hn : n ∈ bn) (hname : n.name = a)
    (hpa : n.parentOrder = []) {ρ : ℚ} (hρ : 1 ≤ ρ) (hi : bn.Influence a ρ)
    (hl : LegalEvidence bn (overridden [(a, l)] e)) (hl' : LegalEvidence bn (overridden [(a, l')] e))
    (hs : Supported bn (overridden [(a, l)] e)) :
    OneFactor a (bn.grip a ρ) bn (softened bn (overridden [(a, l)] e)) bn (softened bn (overridden [(a, l')] e))
      (fun i => priorOf bn a i * likAt bn (softened bn (overridden [(a, l)] e)) a i)
      (fun i => priorOf bn a i * likAt bn (softened bn (overridden [(a, l')] e)) a i)
      (restOf bn (softened bn (overridden [(a, l)] e)) a) := by
  have hen := NonNegEvidence.softened hnn hs
  have hm : a ∈ bn.names := hname ▸ List.mem_map_of_mem hn
  have hpr : ∀ σ : Assign, entryOf bn a σ = priorOf bn a (σ a) := by
    intro σ
    unfold priorOf
    rw [← hname, entryOf_of_mem hc.nodup hn, entryOf_of_mem hc.nodup hn]
    unfold NodeV.entry
    rw [hpa]
    rfl
  refine ⟨rfl, hc, hc, hl.softened, hl'.softened, hm, bn.one_le_grip a hρ, restOf_nonneg hc hnn hen a,
    fun i _ => mul_nonneg ?_ (likAt_nonneg hen a i), fun τ hτ i hia => restOf_le hc hnn hen hρ hi hτ hia, fun τ _ => ?_,
    fun τ _ => ?_⟩
  · unfold priorOf
    rw [← hname, entryOf_of_mem hc.nodup hn]
    exact NDArray.get_nonneg (hnn n hn) _
  · rw [weight_restOf hc.nodup hl.softened hm, hpr]
  · rw [weight_restOf hc.nodup hl'.softened hm, hpr]
    congr 1
    unfold restOf
    congr 1
    refine List.map_congr_left fun v _ => ?_
    by_cases hva : v = a
    · rw [if_pos hva, if_pos hva]
    · rw [if_neg hva, if_neg hva, likAt_unfed hva]

theorem soft_alike (hnn : bn.NonNeg) (hc : bn.Consistent) (hm : a ∈ bn.names) {κ : ℚ}
    (h : Alike (· < bn.card a) κ (fun i => l'.getD i 0) fun i => l.getD i 0) :
    Alike (· < bn.card a) κ (fun i => priorOf bn a i * likAt bn (softened bn (overridden [(a, l')] e)) a i)
      fun i => priorOf bn a i * likAt bn (softened bn (overridden [(a, l)] e)) a i := by
  refine (h.mul_right (h := fun i => priorOf bn a i * if priorAt bn a i = 0 then 0 else 1 / priorAt bn a i)
    fun i _ => mul_nonneg ?_ ?_).congr (fun i hi => ?_) fun i hi => ?_
  · unfold priorOf
    obtain ⟨n, hn, rfl⟩ := BN.exists_of_mem_names hm
    rw [entryOf_of_mem hc.nodup hn]
    exact NDArray.get_nonneg (hnn n hn) _
  · split
    · exact le_rfl
    · exact one_div_nonneg.2 (priorAt_nonneg hnn a i)
  · rw [likAt_fed hi]; ring
  · rw [likAt_fed hi]; ring

end

/-! ## the arrays that are carried over -/

section
variable {d : DBN} {tr : Name × Name} {ρ κ : ℚ} {b : BN} {es es₀ : List (Dict Evidence)} {e : Dict Evidence}

theorem DBN.carried_one (ht : d.transitions = [tr]) (es : List (Dict Evidence)) (e : Dict Evidence) :
    d.carried (es ++ [e]) = [(tr.1, (List.range ((d.slice es.length).card tr.2)).map fun i =>
      posterior (d.slice es.length) (softened (d.slice es.length) (overridden (d.carried es) e)) [tr.2] fun _ => i)] := by
  rw [carried_append, carry, ht]
  rfl

theorem DBN.carried_exists (ht : d.transitions = [tr]) (h : es ≠ []) : ∃ l, d.carried es = [(tr.1, l)] := by
  rcases List.eq_nil_or_concat' es with rfl | ⟨es, e, rfl⟩
  · exact absurd rfl h
  · exact ⟨_, carried_one ht es e⟩

theorem DBN.slice_later (d : DBN) (h : es ≠ []) : d.slice es.length = d.twoTbn := by
  unfold slice
  rw [if_neg (by simpa using h)]

/-- the evidence of a slice that is not the first, with what is carried over in two dynamic networks -/
theorem soft_pair (h : d.Ready) (h' : ({ d with b0 := b } : DBN).Ready) (ht : d.transitions = [tr]) (hρ : 1 ≤ ρ)
    (hi : d.twoTbn.Influence tr.1 ρ) (hes : es ≠ []) {l l' : List ℚ} (hl : d.carried es = [(tr.1, l)])
    (hl' : ({ d with b0 := b } : DBN).carried es = [(tr.1, l')]) (he : LegalEvidence d.twoTbn e)
    (hs : Supported d.twoTbn (overridden [(tr.1, l)] e)) :
    OneFactor tr.1 (d.twoTbn.grip tr.1 ρ) d.twoTbn (softened d.twoTbn (overridden [(tr.1, l)] e)) d.twoTbn
      (softened d.twoTbn (overridden [(tr.1, l')] e))
      (fun i => priorOf d.twoTbn tr.1 i * likAt d.twoTbn (softened d.twoTbn (overridden [(tr.1, l)] e)) tr.1 i)
      (fun i => priorOf d.twoTbn tr.1 i * likAt d.twoTbn (softened d.twoTbn (overridden [(tr.1, l')] e)) tr.1 i)
      (restOf d.twoTbn (softened d.twoTbn (overridden [(tr.1, l)] e)) tr.1) := by
  obtain ⟨n, n1, n2, -, n3, -⟩ := h.node tr (by simp [ht])
  have e1 := LegalEvidence.overridden h.soft (es := es) (ev := e) (by rw [d.slice_later hes]; exact he)
  have e2 := LegalEvidence.overridden h'.soft (es := es) (ev := e) (by rw [DBN.slice_later _ hes]; exact he)
  rw [DBN.slice_later _ hes, hl] at e1
  rw [DBN.slice_later _ hes, hl'] at e2
  exact soft_oneFactor h.two.consistent h.two_nonneg n1 n2 n3 hρ hi e1 e2 hs

theorem DBN.Ready.card_source (h : d.Ready) (ht : d.transitions = [tr]) :
    d.twoTbn.card tr.2 = d.twoTbn.card tr.1 := (h.soft.node tr (by simp [ht])).2.2.symm

theorem DBN.Ready.target_mem (h : d.Ready) (ht : d.transitions = [tr]) : tr.1 ∈ d.twoTbn.names :=
  (h.soft.node tr (by simp [ht])).1

/-- the array that leaves a slice which is not the first -/
theorem DBN.carried_getD (h : d.Ready) (ht : d.transitions = [tr]) (hes : es ≠ []) {l l₁ : List ℚ}
    (hl : d.carried es = [(tr.1, l)]) (hl₁ : d.carried (es ++ [e]) = [(tr.1, l₁)]) {i : Nat}
    (hi : i < d.twoTbn.card tr.1) : l₁.getD i 0 =
      posterior d.twoTbn (softened d.twoTbn (overridden [(tr.1, l)] e)) [tr.2] fun _ => i := by
  have := carried_one ht es e
  rw [hl₁, d.slice_later hes, hl] at this
  simp only [List.cons.injEq, Prod.mk.injEq, true_and, and_true] at this
  rw [this, getD_of_lt (by simpa [h.card_source ht] using hi), List.getElem_map, List.getElem_range]

/-- one more slice -/
theorem soft_step (h : d.Ready) (h' : ({ d with b0 := b } : DBN).Ready) (ht : d.transitions = [tr])
    (hab : tr.2 ≠ tr.1) (hρ : 1 ≤ ρ) (hi : d.twoTbn.Influence tr.1 ρ) (hκ : 1 ≤ κ) (hes : es ≠ [])
    (he : LegalEvidence d.twoTbn e) {l l' l₁ l₁' : List ℚ} (hl : d.carried es = [(tr.1, l)])
    (hl' : ({ d with b0 := b } : DBN).carried es = [(tr.1, l')])
    (hs : Supported d.twoTbn (overridden [(tr.1, l)] e)) (hl₁ : d.carried (es ++ [e]) = [(tr.1, l₁)])
    (hl₁' : ({ d with b0 := b } : DBN).carried (es ++ [e]) = [(tr.1, l₁')])
    (hp : Alike (· < d.twoTbn.card tr.1) κ (fun i => l'.getD i 0) fun i => l.getD i 0) :
    Alike (· < d.twoTbn.card tr.1) (fade (d.twoTbn.grip tr.1 ρ) κ 1) (fun i => l₁'.getD i 0)
      fun i => l₁.getD i 0 := by
  have := (soft_pair h h' ht hρ hi hes hl hl' he hs).posterior hab hκ
    (soft_alike h.two_nonneg h.two.consistent (h.target_mem ht) hp)
  refine (this.comap (Q := (· < d.twoTbn.card tr.1)) (p := fun i _ => i) fun i hi => ?_).congr (fun i hi => ?_)
    fun i hi => ?_
  · simpa [Legal, h.card_source ht] using hi
  · exact DBN.carried_getD h' ht hes hl' hl₁' hi
  · exact DBN.carried_getD h ht hes hl hl₁ hi

/-- arbitrary arrays, after a slice whose evidence is possible with both -/
theorem soft_step_any (h : d.Ready) (h' : ({ d with b0 := b } : DBN).Ready) (ht : d.transitions = [tr])
    (hab : tr.2 ≠ tr.1) (hρ : 1 ≤ ρ) (hi : d.twoTbn.Influence tr.1 ρ) (hes : es ≠ [])
    (he : LegalEvidence d.twoTbn e) {l l' l₁ l₁' : List ℚ} (hl : d.carried es = [(tr.1, l)])
    (hl' : ({ d with b0 := b } : DBN).carried es = [(tr.1, l')])
    (hs : Supported d.twoTbn (overridden [(tr.1, l)] e)) (hs' : Supported d.twoTbn (overridden [(tr.1, l')] e))
    (hl₁ : d.carried (es ++ [e]) = [(tr.1, l₁)])
    (hl₁' : ({ d with b0 := b } : DBN).carried (es ++ [e]) = [(tr.1, l₁')]) {σ σ' : Assign}
    (hz : 0 < totalWeight d.twoTbn (softened d.twoTbn (overridden [(tr.1, l)] e)) σ)
    (hz' : 0 < totalWeight d.twoTbn (softened d.twoTbn (overridden [(tr.1, l')] e)) σ') :
    Alike (· < d.twoTbn.card tr.1) (d.twoTbn.grip tr.1 ρ ^ 2) (fun i => l₁'.getD i 0) fun i => l₁.getD i 0 := by
  have := (soft_pair h h' ht hρ hi hes hl hl' he hs).posterior_any hab
    (soft_pair h' h ht hρ hi hes hl' hl he hs').factor hz hz'
  refine (this.comap (Q := (· < d.twoTbn.card tr.1)) (p := fun i _ => i) fun i hi => ?_).congr (fun i hi => ?_)
    fun i hi => ?_
  · simpa [Legal, h.card_source ht] using hi
  · exact DBN.carried_getD h' ht hes hl' hl₁' hi
  · exact DBN.carried_getD h ht hes hl hl₁ hi

theorem DBN.SoftPast.at_later (hp : d.SoftPast (es₀ ++ e :: es)) (h₀ : es₀ ≠ []) :
    LegalEvidence d.twoTbn e ∧ Supported d.twoTbn (overridden (d.carried es₀) e) := by
  have h1 := hp.legal es₀ e es rfl
  have h2 := hp.sup es₀ e es rfl
  rw [d.slice_later h₀] at h1 h2
  exact ⟨h1, h2⟩

theorem DBN.SoftPast.append (hp : d.SoftPast (es₀ ++ es)) : d.SoftPast es₀ :=
  ⟨fun pre e post he => hp.legal pre e (post ++ es) (by rw [he]; simp),
    fun pre e post he => hp.sup pre e (post ++ es) (by rw [he]; simp)⟩

/-- Arrays that differ by a factor, after more slices. -/
theorem soft_fade (h : d.Ready) (h' : ({ d with b0 := b } : DBN).Ready) (ht : d.transitions = [tr])
    (hab : tr.2 ≠ tr.1) (hρ : 1 ≤ ρ) (hi : d.twoTbn.Influence tr.1 ρ) (hκ : 1 ≤ κ) (h₀ : es₀ ≠ [])
    (hp : d.SoftPast (es₀ ++ es)) {l₀ l₀' : List ℚ} (hl₀ : d.carried es₀ = [(tr.1, l₀)])
    (hl₀' : ({ d with b0 := b } : DBN).carried es₀ = [(tr.1, l₀')])
    (ha : Alike (· < d.twoTbn.card tr.1) κ (fun i => l₀'.getD i 0) fun i => l₀.getD i 0) {l l' : List ℚ}
    (hl : d.carried (es₀ ++ es) = [(tr.1, l)]) (hl' : ({ d with b0 := b } : DBN).carried (es₀ ++ es) = [(tr.1, l')]) :
    Alike (· < d.twoTbn.card tr.1) (fade (d.twoTbn.grip tr.1 ρ) κ es.length) (fun i => l'.getD i 0)
      fun i => l.getD i 0 := by
  induction es using List.reverseRecOn generalizing l l' with
  | nil =>
    rw [List.append_nil] at hl hl'
    rw [hl₀] at hl
    rw [hl₀'] at hl'
    simp only [List.cons.injEq, Prod.mk.injEq, true_and, and_true] at hl hl'
    subst hl hl'
    rw [List.length_nil, fade_zero]
    exact ha
  | append_singleton es e ih =>
    have h1 : es₀ ++ es ≠ [] := by simp [h₀]
    obtain ⟨m, hm⟩ := DBN.carried_exists ht h1
    obtain ⟨m', hm'⟩ := DBN.carried_exists (d := { d with b0 := b }) ht h1
    rw [← List.append_assoc] at hl hl' hp
    have ih := ih hp.init hm hm'
    obtain ⟨a1, a2⟩ := hp.at_later h1
    rw [hm] at a2
    rw [List.length_append, List.length_singleton, fade_succ]
    exact soft_step h h' ht hab hρ hi (one_le_fade (BN.one_le_grip _ _ hρ) hκ _) h1 a1 hm hm' a2 hl hl' ih

/-! ## rounded arrays -/

theorem CarriedNear.one {u : ℚ} {te : Dict (List ℚ)} (h : CarriedNear u d es te) (ht : d.transitions = [tr])
    (hes : es ≠ []) : ∃ l, te = [(tr.1, l)] := by
  cases h with
  | start => exact absurd rfl hes
  | next _ _ _ h4 =>
    rw [ht] at h4
    cases h4 with
    | cons h5 h6 =>
      cases h6
      exact ⟨_, congrArg (fun x => [x]) (Prod.ext h5.1 rfl)⟩

/-- The arrays that are carried over stay close to those prescribed, however many slices there are. -/
theorem CarriedNear.alike {u ε : ℚ} (h0 : 0 ≤ u) (hu : u < 1) (h : d.Ready) (ht : d.transitions = [tr])
    (hab : tr.2 ≠ tr.1) (hρ : 1 ≤ ρ) (hi : d.twoTbn.Influence tr.1 ρ) {m : Nat}
    (hm : ∀ k, ∀ e ∈ es, treeRoundings (d.slice k) (d.entryRoundings k e) [tr.2] ≤ m)
    (hε : 0 ≤ ε) (h1 : 1 ≤ (1 + ε) * (1 - u) ^ (2 * m)) (h2 : ε * (d.twoTbn.grip tr.1 ρ - 1) ≤ 1 / 2)
    (hp : d.SoftPast es) {te : Dict (List ℚ)} (hR : CarriedNear u d es te) :
    ∀ l lR, d.carried es = [(tr.1, l)] → te = [(tr.1, lR)] →
      Alike (· < d.twoTbn.card tr.1) (1 + 2 * d.twoTbn.grip tr.1 ρ * ε) (fun i => lR.getD i 0)
        fun i => l.getD i 0 := by
  have hg := BN.one_le_grip d.twoTbn tr.1 hρ
  have hκ : 1 ≤ 1 + 2 * d.twoTbn.grip tr.1 ρ * ε := by
    have : 0 ≤ 2 * d.twoTbn.grip tr.1 ρ * ε := by positivity
    linarith
  induction hR with
  | start => intro l lR _ hh; cases hh
  | @next es te te' e hR hle hsup hf ih =>
    have ih := ih (fun k e' he' => hm k e' (List.mem_append_left _ he')) hp.init
    intro l lR hl hlR
    subst hlR
    rw [ht] at hf
    obtain ⟨⟨-, f2, f3⟩, -⟩ := List.forall₂_cons.1 hf
    dsimp only at f2 f3
    have hcard : (d.slice es.length).card tr.2 = d.twoTbn.card tr.1 := by
      obtain ⟨-, c1, c2⟩ := h.soft.node tr (by simp [ht])
      unfold DBN.slice
      split
      · exact c1.symm
      · exact c2.symm
    have hle₀ := LegalEvidence.overridden h.soft (hp.legal es e [] rfl)
    have hsup₀ := hp.sup es e [] rfl
    -- the rounding of the answer
    have a1 : Alike (· < d.twoTbn.card tr.1) (1 + ε) (fun i => lR.getD i 0) fun i =>
        posterior (d.slice es.length) (softened (d.slice es.length) (overridden te e)) [tr.2] fun _ => i := by
      refine Alike.of_near hu (h1.trans ?_) fun i hia => f3 i (by rw [hcard]; exact hia)
      have := hm es.length e (by simp)
      exact mul_le_mul_of_nonneg_left (pow_le_pow_of_le_one (by linarith) (by linarith) (by omega)) (by linarith)
    -- the difference that was there before
    have a2 : Alike (· < d.twoTbn.card tr.1) (fade (d.twoTbn.grip tr.1 ρ) (1 + 2 * d.twoTbn.grip tr.1 ρ * ε) 1)
        (fun i => posterior (d.slice es.length) (softened (d.slice es.length) (overridden te e)) [tr.2] fun _ => i)
        fun i => posterior (d.slice es.length) (softened (d.slice es.length) (overridden (d.carried es) e)) [tr.2]
          fun _ => i := by
      by_cases hes : es = []
      · subst hes
        have : te = d.carried [] := by
          generalize hh : ([] : List (Dict Evidence)) = es at hR
          cases hR with
          | start => rfl
          | next => simp at hh
        rw [this]
        refine (Alike.rfl' fun i _ => ?_).mono (one_le_fade hg hκ _)
        exact posterior_nonneg (h.soft.net _).2.1 (NonNegEvidence.softened (h.soft.net _).2.1 hsup₀) _ _
      · obtain ⟨k, hk⟩ := DBN.carried_exists ht hes
        obtain ⟨kR, rfl⟩ := hR.one ht hes
        have ih := ih k kR hk rfl
        rw [hk] at hle₀ hsup₀ ⊢
        rw [d.slice_later hes] at hle hle₀ hsup₀ ⊢
        obtain ⟨n, n1, n2, -, n3, -⟩ := h.node tr (by simp [ht])
        have := (soft_oneFactor h.two.consistent h.two_nonneg n1 n2 n3 hρ hi hle₀ hle hsup₀).posterior hab hκ
          (soft_alike h.two_nonneg h.two.consistent (h.target_mem ht) ih)
        refine this.comap (Q := (· < d.twoTbn.card tr.1)) (p := fun i _ => i) fun i hi => ?_
        simpa [Legal, h.card_source ht] using hi
    refine ((a1.trans (by linarith) a2).mono (fade_round hg hε h2)).congr (fun _ _ => rfl) fun i hia => ?_
    have := DBN.carried_one ht es e
    rw [hl] at this
    simp only [List.cons.injEq, Prod.mk.injEq, true_and, and_true] at this
    rw [this, getD_of_lt (by simpa [hcard] using hia), List.getElem_map, List.getElem_range]

end

end Primo
