import Verif.Lemmas.ForgetSlices
import Verif.Spec.ForgetMany

/-! # Several transitions: the priors are changed one after the other -/

namespace Primo
open JoinTree

/-- the network `two` with the nodes named in `S` taken from `two'` -/
def splice (S : List Name) (two two' : BN) : BN :=
  List.zipWith (fun n n' => if n.name ∈ S then n' else n) two two'

theorem splice_bare (S : List Name) {two two' : BN} (h : two'.bare = two.bare) :
    (splice S two two').bare = two.bare := by
  induction two generalizing two' with
  | nil => rfl
  | cons n two ih =>
    cases two' with
    | nil => simp [BN.bare] at h
    | cons n' two' =>
      simp only [BN.bare, List.map_cons, List.cons.injEq] at h
      have ih := ih h.2
      unfold splice at ih
      simp only [BN.bare] at ih
      simp only [splice, BN.bare, List.zipWith_cons_cons, List.map_cons, List.cons.injEq]
      refine ⟨?_, ih⟩
      split
      · exact h.1
      · rfl

theorem mem_splice {S : List Name} {two two' : BN} (h : two'.bare = two.bare) {n : NodeV} (hn : n ∈ splice S two two') :
    (n ∈ two ∧ n.name ∉ S) ∨ (n ∈ two' ∧ n.name ∈ S) := by
  induction two generalizing two' with
  | nil => cases hn
  | cons m two ih =>
    cases two' with
    | nil => cases hn
    | cons m' two' =>
      simp only [BN.bare, List.map_cons, List.cons.injEq] at h
      have hname := congrArg NodeV.name h.1
      dsimp only at hname
      simp only [splice, List.zipWith_cons_cons, List.mem_cons] at hn
      rcases hn with rfl | hn
      · split_ifs with hS
        · exact .inr ⟨List.mem_cons_self, by rwa [hname]⟩
        · exact .inl ⟨List.mem_cons_self, hS⟩
      · rcases ih h.2 hn with h1 | h1
        · exact .inl ⟨List.mem_cons_of_mem _ h1.1, h1.2⟩
        · exact .inr ⟨List.mem_cons_of_mem _ h1.1, h1.2⟩

namespace DBN.Reprior
variable {d : DBN} {two two' : BN} {tr : Name × Name} {ρ κ : ℚ} {S : List Name}

theorem same_bare (r : d.Reprior two) (r' : d.Reprior two') : two'.bare = two.bare :=
  r'.good.bare.trans r.good.bare.symm

theorem splice (h : d.Ready) (r : d.Reprior two) (r' : d.Reprior two') (S : List Name) :
    d.Reprior (splice S two two') := by
  have hb := r.same_bare r'
  have hb' := (splice_bare S hb).trans r.good.bare
  refine ⟨⟨hb', h.two.of_bare hb' fun n hn => ?_, fun n hn => ?_⟩, fun n hn hnt => ?_⟩
  · rcases mem_splice hb hn with ⟨h1, -⟩ | ⟨h1, -⟩
    · rw [r.good.setup.consistent.shape n h1, BN.card_of_bare r.good.bare]
    · rw [r'.good.setup.consistent.shape n h1, BN.card_of_bare r'.good.bare]
  · rcases mem_splice hb hn with ⟨h1, -⟩ | ⟨h1, -⟩
    · exact r.good.nonneg n h1
    · exact r'.good.nonneg n h1
  · rcases mem_splice hb hn with ⟨h1, -⟩ | ⟨h1, -⟩
    · exact r.kept n h1 hnt
    · exact r'.kept n h1 hnt

theorem entry_splice (h : d.Ready) (r : d.Reprior two) (r' : d.Reprior two') (S : List Name) {v : Name}
    (hv : v ∈ d.twoTbn.names) (σ : Assign) :
    entryOf (Primo.splice S two two') v σ = if v ∈ S then entryOf two' v σ else entryOf two v σ := by
  have rs := r.splice h r' S
  obtain ⟨n, hn, rfl⟩ := BN.exists_of_mem_names (bn := Primo.splice S two two')
    (by rw [BN.names_of_bare rs.good.bare]; exact hv)
  rw [entryOf_of_mem rs.good.setup.consistent.nodup hn]
  rcases mem_splice (r.same_bare r') hn with ⟨h1, h2⟩ | ⟨h1, h2⟩
  · rw [if_neg h2, entryOf_of_mem r.good.setup.consistent.nodup h1]
  · rw [if_pos h2, entryOf_of_mem r'.good.setup.consistent.nodup h1]

/-- nodes that are no transition targets are those of the dynamic network -/
theorem entry_kept (h : d.Ready) (r : d.Reprior two) {v : Name} (hv : v ∈ d.twoTbn.names)
    (hnt : v ∉ d.transitions.map Prod.fst) (σ : Assign) : entryOf two v σ = entryOf d.twoTbn v σ := by
  obtain ⟨n, hn, rfl⟩ := BN.exists_of_mem_names (bn := two) (by rw [BN.names_of_bare r.good.bare]; exact hv)
  rw [entryOf_of_mem r.good.setup.consistent.nodup hn, entryOf_of_mem h.two.consistent.nodup (r.kept n hn hnt)]

theorem splice_all (h : d.Ready) (r : d.Reprior two) (r' : d.Reprior two') :
    Primo.splice (d.transitions.map Prod.fst) two two' = two' := by
  have hb := r.same_bare r'
  have hl : two'.length = two.length := BN.length_of_bare hb
  refine List.ext_getElem (by simp [Primo.splice, hl]) fun i i1 i2 => ?_
  simp only [Primo.splice, List.getElem_zipWith]
  split_ifs with hS
  · rfl
  · have i3 : i < two.length := hl ▸ i2
    have hi := List.getElem_of_eq hb (i := i) (by simpa [BN.bare] using i2)
    simp only [BN.bare, List.getElem_map] at hi
    have e := congrArg NodeV.name hi
    dsimp only at e
    exact BN.eq_of_name h.two.consistent.nodup (r.kept _ (List.getElem_mem i3) hS)
      (r'.kept _ (List.getElem_mem i2) (by rw [e]; exact hS)) e.symm

/-- two networks that agree in the priors of all targets but one -/
theorem onePrior_of (h : d.Ready) (ht : tr ∈ d.transitions) (r : d.Reprior two) (r' : d.Reprior two')
    (hs : ∀ tr' ∈ d.transitions, tr'.1 ≠ tr.1 → ∀ σ, entryOf two' tr'.1 σ = entryOf two tr'.1 σ) :
    OnePrior tr.1 two two' (priorOf two tr.1) (priorOf two' tr.1) where
  bare := r.same_bare r'
  consistent := r.good.setup.consistent
  consistent' := r'.good.setup.consistent
  nonneg := r.good.nonneg
  nonneg' := r'.good.nonneg
  mem := by
    obtain ⟨n, hn, e, -⟩ := r.node h ht
    rw [← e]
    exact List.mem_map_of_mem hn
  prior := r.prior h ht
  prior' := r'.prior h ht
  same v hv hva σ := by
    rw [BN.names_of_bare r.good.bare] at hv
    by_cases hnt : v ∈ d.transitions.map Prod.fst
    · obtain ⟨tr', h1, rfl⟩ := List.mem_map.1 hnt
      exact hs tr' h1 hva σ
    · rw [r.entry_kept h hv hnt, r'.entry_kept h hv hnt]

theorem influence_of (h : d.Ready) (r : d.Reprior two) {a : Name} (hi : d.twoTbn.Influence a ρ) : two.Influence a ρ := by
  intro n hn ha σ hσ i hia
  rw [BN.card_of_bare r.good.bare] at hσ hia
  rw [BN.names_of_bare r.good.bare] at hσ
  refine hi n (r.kept n hn fun hm => ?_) ha σ hσ i hia
  obtain ⟨tr, ht, e⟩ := List.mem_map.1 hm
  obtain ⟨m, hm, e', hp, -⟩ := r.node h ht
  rw [BN.eq_of_name r.good.setup.consistent.nodup hn hm (by rw [← e, e']), hp] at ha
  cases ha

theorem target_mem (h : d.Ready) (ht : tr ∈ d.transitions) : tr.1 ∈ d.twoTbn.names := by
  obtain ⟨p, p1, p2, -⟩ := h.node tr ht
  rw [← p2]
  exact List.mem_map_of_mem p1

/-- one prior of the spliced network is exchanged -/
theorem onePrior_splice (h : d.Ready) (ht : tr ∈ d.transitions) (r : d.Reprior two) (r' : d.Reprior two')
    (hS : tr.1 ∉ S) : OnePrior tr.1 (Primo.splice S two two') (Primo.splice (tr.1 :: S) two two') (priorOf two tr.1)
      (priorOf two' tr.1) := by
  have := (r.splice h r' S).onePrior_of h ht (r.splice h r' (tr.1 :: S)) fun tr' ht' hne σ => by
    rw [r.entry_splice h r' _ (target_mem h ht'), r.entry_splice h r' _ (target_mem h ht')]
    simp [hne]
  have e1 : priorOf (Primo.splice S two two') tr.1 = priorOf two tr.1 := by
    funext i
    unfold priorOf
    rw [r.entry_splice h r' _ (target_mem h ht), if_neg hS]
  have e2 : priorOf (Primo.splice (tr.1 :: S) two two') tr.1 = priorOf two' tr.1 := by
    funext i
    unfold priorOf
    rw [r.entry_splice h r' _ (target_mem h ht), if_pos (by simp)]
  rwa [e1, e2] at this

end DBN.Reprior

theorem exists_weight_pos {bn : BN} (hnn : bn.NonNeg) {ev : Dict Evidence} (hen : NonNegEvidence ev) {σ : Assign}
    (hz : 0 < totalWeight bn ev σ) : ∃ τ, Legal bn.card bn.names τ ∧ 0 < weight bn ev τ := by
  by_contra hc
  push Not at hc
  refine hz.ne' ?_
  unfold totalWeight
  rw [sumOver_congr (G := fun _ => 0), sumOver_zero]
  intro τ hτ
  exact le_antisymm (hc τ fun v hv => hτ.2 v (List.mem_toFinset.2 hv)) (weight_nonneg hnn hen τ)

theorem totalWeight_pos_of {bn : BN} (hcon : bn.Consistent) (hnn : bn.NonNeg) {ev : Dict Evidence}
    (he : LegalEvidence bn ev) (hen : NonNegEvidence ev) {τ : Assign} (hτ : Legal bn.card bn.names τ)
    (hw : 0 < weight bn ev τ) (σ : Assign) : 0 < totalWeight bn ev σ := by
  rw [totalWeight_const hcon he σ τ]
  exact hw.trans_le (le_sumOver (fun τ _ => weight_nonneg hnn hen τ)
    ⟨fun _ _ => rfl, fun v hv => hτ v (List.mem_toFinset.1 hv)⟩)

/-- evidence that is possible stays so with another prior that allows the evidence about `a` -/
theorem OnePrior.total_pos {a : Name} {bn bn' : BN} {p p' : Nat → ℚ} {ev : Dict Evidence} {ρ : ℚ}
    (h : OnePrior a bn bn' p p') (he : LegalEvidence bn ev) (hen : NonNegEvidence ev) (hρ : 1 ≤ ρ)
    (hi : bn.Influence a ρ) {i : Nat} (hia : i < bn.card a) (hp : 0 < p' i * Primo.likAt bn ev a i) {σ : Assign}
    (hz : 0 < totalWeight bn ev σ) : 0 < totalWeight bn' ev σ := by
  obtain ⟨τ, hτ, hw⟩ := exists_weight_pos h.nonneg hen hz
  rw [h.weight_left he] at hw
  have hF : 0 < restOf bn ev a τ := by
    refine lt_of_le_of_ne (restOf_nonneg h.consistent h.nonneg hen a τ) fun e => ?_
    rw [← e, mul_zero] at hw
    exact lt_irrefl _ hw
  have hτ' : Legal bn.card bn.names (Function.update τ a i) := fun v hv => by
    by_cases hva : v = a
    · subst hva; rw [Function.update_self]; exact hia
    · rw [Function.update_of_ne hva]; exact hτ v hv
  have hle := restOf_le h.consistent h.nonneg hen hρ hi hτ' (hτ a h.mem)
  rw [Function.update_idem, Function.update_eq_self] at hle
  have hR := bn.one_le_grip a hρ
  have hF' : 0 < restOf bn ev a (Function.update τ a i) := by
    refine lt_of_le_of_ne (restOf_nonneg h.consistent h.nonneg hen a _) fun e => ?_
    rw [← e, mul_zero] at hle
    exact absurd hF (not_lt.2 hle)
  refine totalWeight_pos_of h.consistent' h.nonneg' (he.of_bare h.bare) hen (τ := Function.update τ a i) ?_ ?_ σ
  · rw [BN.card_of_bare h.bare, BN.names_of_bare h.bare]; exact hτ'
  · rw [h.weight_right he, Function.update_self]
    exact mul_pos hp hF'

theorem splice_nil {two two' : BN} (h : two'.bare = two.bare) : splice [] two two' = two := by
  have hl : two'.length = two.length := BN.length_of_bare h
  refine List.ext_getElem (by simp [splice, hl]) fun i i1 i2 => ?_
  simp [splice]

namespace DBN.Reprior
variable {d : DBN} {two two' : BN} {ρ : Name → ℚ} {κ : ℚ} {L : List (Name × Name)} {e : Dict Evidence}

/-- the priors of the targets in `L` are exchanged -/
theorem posterior_splice (h : d.Ready) (hρ : ∀ tr ∈ d.transitions, 1 ≤ ρ tr.1 ∧ d.twoTbn.Influence tr.1 (ρ tr.1))
    (r : d.Reprior two) (r' : d.Reprior two') (he : LegalEvidence d.twoTbn e) (hen : NonNegEvidence e) (hκ : 1 ≤ κ)
    (hp : ∀ tr ∈ d.transitions, Alike (· < d.twoTbn.card tr.1) κ (priorOf two' tr.1) (priorOf two tr.1))
    (hL : ∀ tr ∈ L, tr ∈ d.transitions) (hnd : (L.map Prod.fst).Nodup) {b : Name} (hb : ∀ tr ∈ L, b ≠ tr.1) :
    Alike (Legal d.twoTbn.card [b]) ((L.map fun tr => fade (d.twoTbn.grip tr.1 (ρ tr.1)) κ 1).prod)
      (posterior (Primo.splice (L.map Prod.fst) two two') e [b]) (posterior two e [b]) := by
  induction L with
  | nil =>
    simp only [List.map_nil, List.prod_nil]
    rw [splice_nil (r.same_bare r')]
    exact Alike.rfl' fun σ _ => posterior_nonneg r.good.nonneg hen _ _
  | cons tr L ih =>
    have ht := hL tr List.mem_cons_self
    simp only [List.map_cons, List.nodup_cons] at hnd
    have ih := ih (fun t ht => hL t (List.mem_cons_of_mem _ ht)) hnd.2 fun t ht => hb t (List.mem_cons_of_mem _ ht)
    have rs := r.splice h r' (L.map Prod.fst)
    have hpp := hp tr ht
    rw [← BN.card_of_bare rs.good.bare] at hpp
    have := (r.onePrior_splice h ht r' hnd.1).posterior (he.of_bare rs.good.bare) hen (hb tr List.mem_cons_self) hκ
      (hρ tr ht).1 (rs.influence_of h (hρ tr ht).2) hpp
    rw [rs.grip, BN.card_of_bare rs.good.bare] at this
    rw [List.map_cons, List.map_cons, List.prod_cons]
    exact this.trans (le_trans zero_le_one (one_le_fade (BN.one_le_grip _ _ (hρ tr ht).1) hκ 1)) ih

theorem total_splice (h : d.Ready) (hρ : ∀ tr ∈ d.transitions, 1 ≤ ρ tr.1 ∧ d.twoTbn.Influence tr.1 (ρ tr.1))
    (r : d.Reprior two) (r' : d.Reprior two') (he : LegalEvidence d.twoTbn e) (hen : NonNegEvidence e) {σ : Assign}
    (hz : 0 < totalWeight two e σ) (hz' : 0 < totalWeight two' e σ)
    (hL : ∀ tr ∈ L, tr ∈ d.transitions) (hnd : (L.map Prod.fst).Nodup) :
    0 < totalWeight (Primo.splice (L.map Prod.fst) two two') e σ := by
  induction L with
  | nil => rw [List.map_nil, splice_nil (r.same_bare r')]; exact hz
  | cons tr L ih =>
    have ht := hL tr List.mem_cons_self
    simp only [List.map_cons, List.nodup_cons] at hnd
    have ih := ih (fun t ht => hL t (List.mem_cons_of_mem _ ht)) hnd.2
    have rs := r.splice h r' (L.map Prod.fst)
    obtain ⟨τ, hτ, hw⟩ := exists_weight_pos r'.good.nonneg hen hz'
    have hm : tr.1 ∈ two'.names := by rw [BN.names_of_bare r'.good.bare]; exact target_mem h ht
    have hτa := hτ tr.1 hm
    rw [weight_restOf r'.good.setup.consistent.nodup (he.of_bare r'.good.bare) hm, r'.prior h ht] at hw
    have h0 : 0 ≤ priorOf two' tr.1 (τ tr.1) * likAt two' e tr.1 (τ tr.1) :=
      mul_nonneg (r'.priorOf_nonneg h ht _) (likAt_nonneg hen _ _)
    have hpos : 0 < priorOf two' tr.1 (τ tr.1) * likAt two' e tr.1 (τ tr.1) := by
      refine lt_of_le_of_ne h0 fun e => ?_
      rw [← e, zero_mul] at hw
      exact lt_irrefl _ hw
    refine (r.onePrior_splice h ht r' hnd.1).total_pos (he.of_bare rs.good.bare) hen (hρ tr ht).1
      (rs.influence_of h (hρ tr ht).2) (i := τ tr.1) ?_ ?_ ih
    · rwa [BN.card_of_bare rs.good.bare, ← BN.card_of_bare r'.good.bare]
    · unfold likAt at hpos ⊢
      rwa [BN.lab_of_bare (rs.good.bare.trans r'.good.bare.symm)]

theorem posterior_splice_any (h : d.Ready) (hρ : ∀ tr ∈ d.transitions, 1 ≤ ρ tr.1 ∧ d.twoTbn.Influence tr.1 (ρ tr.1))
    (r : d.Reprior two) (r' : d.Reprior two') (he : LegalEvidence d.twoTbn e) (hen : NonNegEvidence e) {σ : Assign}
    (hz : 0 < totalWeight two e σ) (hz' : 0 < totalWeight two' e σ)
    (hL : ∀ tr ∈ L, tr ∈ d.transitions) (hnd : (L.map Prod.fst).Nodup) {b : Name} (hb : ∀ tr ∈ L, b ≠ tr.1) :
    Alike (Legal d.twoTbn.card [b]) ((L.map fun tr => d.twoTbn.grip tr.1 (ρ tr.1) ^ 2).prod)
      (posterior (Primo.splice (L.map Prod.fst) two two') e [b]) (posterior two e [b]) := by
  induction L with
  | nil =>
    simp only [List.map_nil, List.prod_nil]
    rw [splice_nil (r.same_bare r')]
    exact Alike.rfl' fun σ _ => posterior_nonneg r.good.nonneg hen _ _
  | cons tr L ih =>
    have ht := hL tr List.mem_cons_self
    have z1 := total_splice h hρ r r' he hen hz hz' hL hnd
    simp only [List.map_cons, List.nodup_cons] at hnd
    have hL' : ∀ tr ∈ L, tr ∈ d.transitions := fun t ht => hL t (List.mem_cons_of_mem _ ht)
    have ih := ih hL' hnd.2 fun t ht => hb t (List.mem_cons_of_mem _ ht)
    have rs := r.splice h r' (L.map Prod.fst)
    have := (r.onePrior_splice h ht r' hnd.1).posterior_any (he.of_bare rs.good.bare) hen (hb tr List.mem_cons_self)
      (hρ tr ht).1 (rs.influence_of h (hρ tr ht).2) (fun i _ => r.priorOf_nonneg h ht i)
      (fun i _ => r'.priorOf_nonneg h ht i) (total_splice h hρ r r' he hen hz hz' hL' hnd.2) z1
    rw [rs.grip, BN.card_of_bare rs.good.bare] at this
    rw [List.map_cons, List.map_cons, List.prod_cons]
    exact this.trans (sq_nonneg _) ih

theorem answers_splice (h : d.Ready) (hρ : ∀ tr ∈ d.transitions, 1 ≤ ρ tr.1 ∧ d.twoTbn.Influence tr.1 (ρ tr.1))
    (r : d.Reprior two) (r' : d.Reprior two') (he : LegalEvidence d.twoTbn e) (hen : NonNegEvidence e) (hκ : 1 ≤ κ)
    (hp : ∀ tr ∈ d.transitions, Alike (· < d.twoTbn.card tr.1) κ (priorOf two' tr.1) (priorOf two tr.1))
    (hL : ∀ tr ∈ L, tr ∈ d.transitions) (hnd : (L.map Prod.fst).Nodup) {vs : List Name} {σ : Assign}
    (hσ : Legal d.twoTbn.card vs σ) :
    posterior (Primo.splice (L.map Prod.fst) two two') e vs σ ≤ κ ^ L.length * posterior two e vs σ ∧
      posterior two e vs σ ≤ κ ^ L.length * posterior (Primo.splice (L.map Prod.fst) two two') e vs σ := by
  induction L with
  | nil =>
    rw [List.map_nil, splice_nil (r.same_bare r'), List.length_nil, pow_zero, one_mul]
    exact ⟨le_rfl, le_rfl⟩
  | cons tr L ih =>
    have ht := hL tr List.mem_cons_self
    simp only [List.map_cons, List.nodup_cons] at hnd
    obtain ⟨i1, i2⟩ := ih (fun t ht => hL t (List.mem_cons_of_mem _ ht)) hnd.2
    have rs := r.splice h r' (L.map Prod.fst)
    have hpp := hp tr ht
    rw [← BN.card_of_bare rs.good.bare] at hpp
    obtain ⟨j1, j2⟩ := (r.onePrior_splice h ht r' hnd.1).answers (he.of_bare rs.good.bare) hen
      (hρ tr ht).1 (rs.influence_of h (hρ tr ht).2) hκ hpp (Q := vs) (σ := σ) (by rwa [BN.card_of_bare rs.good.bare])
    have hk : (0 : ℚ) ≤ κ := by linarith
    rw [List.map_cons, List.length_cons]
    constructor
    · calc _ ≤ κ * _ := j1
        _ ≤ κ * (κ ^ L.length * posterior two e vs σ) := mul_le_mul_of_nonneg_left i1 hk
        _ = _ := by ring
    · calc _ ≤ κ ^ L.length * _ := i2
        _ ≤ κ ^ L.length * (κ * _) := mul_le_mul_of_nonneg_left j2 (pow_nonneg hk _)
        _ = _ := by ring

end DBN.Reprior

section
variable {d : DBN} {ρ : Name → ℚ} {κ : ℚ} {b : BN} {es es₀ : List (Dict Evidence)} {e : Dict Evidence} {two two' : BN}

theorem DBN.Bounded.both (hb : d.Bounded ρ) : ∀ tr ∈ d.transitions, 1 ≤ ρ tr.1 ∧ d.twoTbn.Influence tr.1 (ρ tr.1) :=
  fun tr ht => ⟨hb.one_le tr ht, hb.influence tr ht⟩

theorem one_le_prod_map {α : Type} {l : List α} {f : α → ℚ} (h : ∀ x ∈ l, 1 ≤ f x) : 1 ≤ (l.map f).prod := by
  induction l with
  | nil => simp
  | cons a l ih =>
    rw [List.map_cons, List.prod_cons]
    exact one_le_mul_of_one_le_of_one_le (h a List.mem_cons_self) (ih fun x hx => h x (List.mem_cons_of_mem _ hx))

theorem DBN.Bounded.one_le_blur (hb : d.Bounded ρ) (hκ : 1 ≤ κ) : 1 ≤ d.blur ρ κ :=
  one_le_prod_map fun tr ht => one_le_fade (BN.one_le_grip _ _ (hb.one_le tr ht)) hκ 1

theorem DBN.Bounded.one_le_iterate (hb : d.Bounded ρ) (hκ : 1 ≤ κ) (n : Nat) : 1 ≤ (d.blur ρ)^[n] κ := by
  induction n with
  | zero => exact hκ
  | succ n ih => rw [Function.iterate_succ_apply']; exact hb.one_le_blur ih

theorem DBN.Bounded.one_le_reach (hb : d.Bounded ρ) : 1 ≤ d.reach ρ :=
  one_le_prod_map fun tr ht => one_le_pow₀ (BN.one_le_grip _ _ (hb.one_le tr ht))

theorem DBN.Ready.card_sources (h : d.Ready) {tr : Name × Name} (ht : tr ∈ d.transitions) :
    d.twoTbn.card tr.1 = d.twoTbn.card tr.2 := by
  obtain ⟨n, -, -, -, -, -, h2⟩ := DBN.Reprior.node (two := d.twoTbn) h ht ⟨DBN.Good.start h, fun _ hn _ => hn⟩
  exact h2

/-- one more slice -/
theorem DBN.Reprior.step_many (h : d.Ready) (hb : d.Bounded ρ) (r : d.Reprior two) (r' : d.Reprior two')
    (he : LegalEvidence d.twoTbn e) (hen : NonNegEvidence e) (hκ : 1 ≤ κ)
    (hp : ∀ tr ∈ d.transitions, Alike (· < d.twoTbn.card tr.1) κ (priorOf two' tr.1) (priorOf two tr.1))
    {tr : Name × Name} (ht : tr ∈ d.transitions) :
    Alike (· < d.twoTbn.card tr.1) (d.blur ρ κ) (fun i => posterior two' e [tr.2] fun _ => i)
      fun i => posterior two e [tr.2] fun _ => i := by
  have := posterior_splice h hb.both r r' he hen hκ hp (L := d.transitions) (fun _ h => h) h.targets (b := tr.2)
    fun t ht' => hb.sources tr ht t ht'
  rw [r.splice_all h r'] at this
  refine this.comap (p := fun i _ => i) fun i hi => ?_
  simpa [Legal, ← h.card_sources ht] using hi

theorem DBN.Reprior.step_many_any (h : d.Ready) (hb : d.Bounded ρ) (r : d.Reprior two) (r' : d.Reprior two')
    (he : LegalEvidence d.twoTbn e) (hen : NonNegEvidence e) {σ : Assign} (hz : 0 < totalWeight two e σ)
    (hz' : 0 < totalWeight two' e σ) {tr : Name × Name} (ht : tr ∈ d.transitions) :
    Alike (· < d.twoTbn.card tr.1) (d.reach ρ) (fun i => posterior two' e [tr.2] fun _ => i)
      fun i => posterior two e [tr.2] fun _ => i := by
  have := posterior_splice_any h hb.both r r' he hen hz hz' (L := d.transitions) (fun _ h => h) h.targets (b := tr.2)
    fun t ht' => hb.sources tr ht t ht'
  rw [r.splice_all h r'] at this
  refine this.comap (p := fun i _ => i) fun i hi => ?_
  simpa [Legal, ← h.card_sources ht] using hi

/-- Every posterior is at most as far off as the priors together. -/
theorem DBN.Reprior.answers_many (h : d.Ready) (hb : d.Bounded ρ) (r : d.Reprior two) (r' : d.Reprior two')
    (he : LegalEvidence d.twoTbn e) (hen : NonNegEvidence e) (hκ : 1 ≤ κ)
    (hp : ∀ tr ∈ d.transitions, Alike (· < d.twoTbn.card tr.1) κ (priorOf two' tr.1) (priorOf two tr.1))
    {vs : List Name} {σ : Assign} (hσ : Legal d.twoTbn.card vs σ) :
    posterior two' e vs σ ≤ κ ^ d.transitions.length * posterior two e vs σ ∧
      posterior two e vs σ ≤ κ ^ d.transitions.length * posterior two' e vs σ := by
  have := answers_splice h hb.both r r' he hen hκ hp (L := d.transitions) (fun _ h => h) h.targets hσ
  rwa [r.splice_all h r'] at this

/-- Priors that differ by a factor, after more slices. -/
theorem Slices.blur (h : d.Ready) (h' : ({ d with b0 := b } : DBN).Ready) (hb : d.Bounded ρ) (hκ : 1 ≤ κ)
    (h₀ : es₀ ≠ []) (hn₀ : ∀ e ∈ es₀, NonNegEvidence e) (hes : ∀ e ∈ es, LegalEvidence d.twoTbn e ∧ NonNegEvidence e)
    (hp : ∀ net two net' two', Slices d es₀ net two → Slices { d with b0 := b } es₀ net' two' →
      ∀ tr ∈ d.transitions, Alike (· < d.twoTbn.card tr.1) κ (priorOf two' tr.1) (priorOf two tr.1)) :
    ∀ net two net' two', Slices d (es₀ ++ es) net two → Slices { d with b0 := b } (es₀ ++ es) net' two' →
      ∀ tr ∈ d.transitions, Alike (· < d.twoTbn.card tr.1) ((d.blur ρ)^[es.length] κ) (priorOf two' tr.1)
        (priorOf two tr.1) := by
  induction es using List.reverseRecOn with
  | nil =>
    intro net two net' two' hs hs'
    rw [List.append_nil] at hs hs'
    exact hp _ _ _ _ hs hs'
  | append_singleton es e ih =>
    intro net two net' two' hs hs' tr ht
    have hn : ∀ e' ∈ es₀ ++ (es ++ [e]), NonNegEvidence e' := fun e' he' => by
      rcases List.mem_append.1 he' with he' | he'
      · exact hn₀ e' he'
      · exact (hes e' he').2
    have r := hs.reprior h hn
    have r' := (hs'.reprior h' hn).start
    rw [← List.append_assoc] at hs hs'
    obtain ⟨rfl, net₁, two₁, s₁, f₁⟩ := hs.snoc
    obtain ⟨rfl, net₁', two₁', s₁', f₁'⟩ := hs'.snoc
    have hn₁ : ∀ e' ∈ es₀ ++ es, NonNegEvidence e' := fun e' he' => hn e' (by
      rw [← List.append_assoc]; exact List.mem_append_left _ he')
    have r₁ := s₁.reprior h hn₁
    have r₁' := (s₁'.reprior h' hn₁).start
    have ih := ih (fun e' he' => hes e' (List.mem_append_left _ he')) _ _ _ _ s₁ s₁'
    obtain ⟨he, hen⟩ := hes e (by simp)
    have e1 : net₁ = two₁ := by
      rcases s₁.cases with ⟨hh, -⟩ | ⟨-, hh⟩
      · simp [h₀] at hh
      · exact hh
    have e1' : net₁' = two₁' := by
      rcases s₁'.cases with ⟨hh, -⟩ | ⟨-, hh⟩
      · simp [h₀] at hh
      · exact hh
    subst e1 e1'
    rw [List.length_append, List.length_singleton, Function.iterate_succ_apply']
    refine (DBN.Reprior.step_many h hb r₁ r₁' he hen (hb.one_le_iterate hκ _) ih ht).congr
      (fun i hia => ?_) fun i hia => ?_
    · refine r'.priorOf_fed h ht f₁' ?_ (.inr (by rw [BN.card_of_bare r₁'.good.bare]))
      rwa [BN.card_of_bare r'.good.bare]
    · refine r.priorOf_fed h ht f₁ ?_ (.inr (by rw [BN.card_of_bare r₁.good.bare]))
      rwa [BN.card_of_bare r.good.bare]

/-- Arbitrary priors, after a slice whose evidence is possible with both. -/
theorem Slices.any_many (h : d.Ready) (h' : ({ d with b0 := b } : DBN).Ready) (hb : d.Bounded ρ) (h₀ : es₀ ≠ [])
    (hn₀ : ∀ e ∈ es₀, NonNegEvidence e) (he : LegalEvidence d.twoTbn e) (hen : NonNegEvidence e)
    {σ : Assign} (hz : ∀ net two, Slices d es₀ net two → 0 < totalWeight net e σ)
    (hz' : ∀ net two, Slices { d with b0 := b } es₀ net two → 0 < totalWeight net e σ) :
    ∀ net two net' two', Slices d (es₀ ++ [e]) net two → Slices { d with b0 := b } (es₀ ++ [e]) net' two' →
      ∀ tr ∈ d.transitions, Alike (· < d.twoTbn.card tr.1) (d.reach ρ) (priorOf two' tr.1) (priorOf two tr.1) := by
  intro net two net' two' hs hs' tr ht
  have hn : ∀ e' ∈ es₀ ++ [e], NonNegEvidence e' := fun e' he' => by
    rcases List.mem_append.1 he' with he' | he'
    · exact hn₀ e' he'
    · rw [List.mem_singleton.1 he']; exact hen
  have r := hs.reprior h hn
  have r' := (hs'.reprior h' hn).start
  obtain ⟨rfl, net₁, two₁, s₁, f₁⟩ := hs.snoc
  obtain ⟨rfl, net₁', two₁', s₁', f₁'⟩ := hs'.snoc
  have r₁ := s₁.reprior h hn₀
  have r₁' := (s₁'.reprior h' hn₀).start
  have e1 : net₁ = two₁ := by
    rcases s₁.cases with ⟨hh, -⟩ | ⟨-, hh⟩
    · exact absurd hh h₀
    · exact hh
  have e1' : net₁' = two₁' := by
    rcases s₁'.cases with ⟨hh, -⟩ | ⟨-, hh⟩
    · exact absurd hh h₀
    · exact hh
  subst e1 e1'
  refine (DBN.Reprior.step_many_any h hb r₁ r₁' he hen (hz _ _ s₁) (hz' _ _ s₁') ht).congr
    (fun i hia => ?_) fun i hia => ?_
  · refine r'.priorOf_fed h ht f₁' ?_ (.inr (by rw [BN.card_of_bare r₁'.good.bare]))
    rwa [BN.card_of_bare r'.good.bare]
  · refine r.priorOf_fed h ht f₁ ?_ (.inr (by rw [BN.card_of_bare r₁.good.bare]))
    rwa [BN.card_of_bare r.good.bare]

/-- The priors of the computed slices stay close to those prescribed, however many slices there are. -/
theorem NearSlices.alike_many {u ε : ℚ} (hu : u < 1) (h : d.Ready) (hb : d.Bounded ρ) {m : Nat}
    (hm : ∀ k, ∀ e ∈ es, ∀ tr ∈ d.transitions, treeRoundings (d.slice k) e.length [tr.2] ≤ m) (h0 : 0 ≤ u)
    (hε : 0 ≤ ε) (h1 : 1 ≤ (1 + ε) * (1 - u) ^ (2 * m)) (hκ : 1 ≤ κ) (h2 : (1 + ε) * d.blur ρ κ ≤ κ) {netR twoR : BN}
    (hR : NearSlices u d es netR twoR) : (∀ e ∈ es, NonNegEvidence e) ∧ ∀ net two, Slices d es net two →
      ∀ tr ∈ d.transitions, Alike (· < d.twoTbn.card tr.1) κ (priorOf twoR tr.1) (priorOf two tr.1) := by
  induction hR with
  | start =>
    refine ⟨by simp, fun net two hs tr ht => ?_⟩
    rcases hs.cases with ⟨-, -, rfl⟩ | ⟨hh, -⟩
    · exact (Alike.rfl' fun i _ => (hs.reprior h (by simp)).priorOf_nonneg h ht i).mono hκ
    · exact absurd rfl hh
  | @next es netR twoR₀ twoR e hR hle hen hf ih =>
    obtain ⟨ihn, ih⟩ := ih fun k e' he' => hm k e' (List.mem_append_left _ he')
    have hn : ∀ e' ∈ es ++ [e], NonNegEvidence e' := fun e' he' => by
      rcases List.mem_append.1 he' with he' | he'
      · exact ihn e' he'
      · rw [List.mem_singleton.1 he']; exact hen
    refine ⟨hn, fun net two hs tr ht => ?_⟩
    have r := hs.reprior h hn
    have rR := (hR.next hle hen hf).reprior hu h
    obtain ⟨rfl, net₁, two₁, s₁, f₁⟩ := hs.snoc
    have r₁ := s₁.reprior h ihn
    have rR₁ := hR.reprior hu h
    have bR := (DBN.Good.nearNet h hR rR₁.good).2.2.2.1
    have b1 := (DBN.Good.net h s₁ r₁.good).2.2.2.1
    -- the rounding of the answer
    have a1 : Alike (· < d.twoTbn.card tr.1) (1 + ε) (priorOf twoR tr.1) fun i => posterior netR e [tr.2] fun _ => i := by
      have hk : treeRoundings netR e.length [tr.2] ≤ m := by
        rw [treeRoundings_of_bare bR]; exact hm _ e (by simp) tr ht
      refine Alike.of_near (u := u) (k := treeRoundings netR e.length [tr.2]) hu (h1.trans ?_) fun i hia => ?_
      · exact mul_le_mul_of_nonneg_left (pow_le_pow_of_le_one (by linarith) (by linarith) (by omega)) (by linarith)
      · refine rR.priorOf_fedNear h ht hf ?_ (DBN.slice_card bR tr ht)
        rwa [BN.card_of_bare rR.good.bare]
    -- the difference that was there before
    have a2 : Alike (· < d.twoTbn.card tr.1) (d.blur ρ κ)
        (fun i => posterior netR e [tr.2] fun _ => i) fun i => posterior net₁ e [tr.2] fun _ => i := by
      rcases hR.cases with ⟨rfl, rfl, -⟩ | ⟨hne, e1⟩
      · rcases s₁.cases with ⟨-, rfl, -⟩ | ⟨hh, -⟩
        · refine (Alike.rfl' fun i _ => ?_).mono (hb.one_le_blur hκ)
          exact posterior_nonneg h.b0_nonneg hen _ _
        · exact absurd rfl hh
      · rcases s₁.cases with ⟨hh, -⟩ | ⟨-, e2⟩
        · exact absurd hh hne
        · subst e1 e2
          exact DBN.Reprior.step_many h hb r₁ rR₁ (hle.of_bare rR₁.good.bare.symm) hen hκ (ih _ _ s₁) ht
    refine ((a1.trans (by linarith) a2).mono h2).congr (fun _ _ => rfl) fun i hia => ?_
    refine r.priorOf_fed h ht f₁ ?_ (DBN.slice_card b1 tr ht)
    rwa [BN.card_of_bare r.good.bare]

end

/-! ## the factor shrinks -/

theorem prod_convex {α : Type} (l : List α) {a : α → ℚ} (ha : ∀ x ∈ l, 0 ≤ a x) {t : ℚ} (h0 : 0 ≤ t) (h1 : t ≤ 1) :
    (l.map fun x => 1 + t * a x).prod ≤ 1 + t * ((l.map fun x => 1 + a x).prod - 1) ∧
      1 ≤ (l.map fun x => 1 + a x).prod := by
  induction l with
  | nil => simp
  | cons x l ih =>
    obtain ⟨i1, i2⟩ := ih fun y hy => ha y (List.mem_cons_of_mem _ hy)
    have hx := ha x List.mem_cons_self
    simp only [List.map_cons, List.prod_cons]
    set P := (l.map fun x => 1 + a x).prod
    refine ⟨?_, one_le_mul_of_one_le_of_one_le (by linarith) i2⟩
    have hq : 0 ≤ t * a x := mul_nonneg h0 hx
    have key := mul_le_mul_of_nonneg_left i1 (show 0 ≤ 1 + t * a x by linarith)
    refine key.trans ?_
    have : 0 ≤ t * (1 - t) * (a x * (P - 1)) :=
      mul_nonneg (mul_nonneg h0 (by linarith)) (mul_nonneg hx (by linarith))
    nlinarith

/-- if the factor shrinks once, it goes on shrinking at the same rate -/
theorem DBN.Bounded.blur_iterate {d : DBN} {ρ : Name → ℚ} (hb : d.Bounded ρ) {κ θ : ℚ} (hκ : 1 ≤ κ) (h0 : 0 ≤ θ)
    (h1 : θ ≤ 1) (h : d.blur ρ κ ≤ 1 + (κ - 1) * θ) (n : Nat) : (d.blur ρ)^[n] κ ≤ 1 + (κ - 1) * θ ^ n := by
  have key : ∀ x, 1 ≤ x → x ≤ κ → d.blur ρ x ≤ 1 + (x - 1) * θ := by
    intro x hx hxκ
    rcases hκ.eq_or_lt with rfl | hκ'
    · obtain rfl : x = 1 := le_antisymm hxκ hx
      exact h
    · have hpos : 0 < κ - 1 := by linarith
      have e1 : ∀ y, d.blur ρ y = (d.transitions.map fun tr =>
          1 + (y - 1) / (κ - 1) * ((κ - 1) * (1 - 1 / d.twoTbn.grip tr.1 (ρ tr.1)))).prod := by
        intro y
        unfold DBN.blur
        congr 1
        refine List.map_congr_left fun tr _ => ?_
        unfold fade
        field_simp
      have e2 : d.blur ρ κ = (d.transitions.map fun tr =>
          1 + (κ - 1) * (1 - 1 / d.twoTbn.grip tr.1 (ρ tr.1))).prod := by
        rw [e1 κ, div_self hpos.ne']
        simp only [one_mul]
      have := (prod_convex d.transitions
        (a := fun tr => (κ - 1) * (1 - 1 / d.twoTbn.grip tr.1 (ρ tr.1))) (fun tr ht => by
          have hR := BN.one_le_grip d.twoTbn tr.1 (hb.one_le tr ht)
          refine mul_nonneg hpos.le ?_
          rw [sub_nonneg, div_le_one (by linarith)]
          exact hR) (t := (x - 1) / (κ - 1)) (div_nonneg (by linarith) hpos.le)
          ((div_le_one hpos).2 (by linarith))).1
      rw [← e1, ← e2] at this
      refine this.trans ?_
      have h3 : (x - 1) / (κ - 1) * (d.blur ρ κ - 1) ≤ (x - 1) / (κ - 1) * ((κ - 1) * θ) :=
        mul_le_mul_of_nonneg_left (by linarith) (div_nonneg (by linarith) hpos.le)
      have h4 : (x - 1) / (κ - 1) * ((κ - 1) * θ) = (x - 1) * θ := by field_simp
      linarith
  induction n with
  | zero => simp
  | succ n ih =>
    rw [Function.iterate_succ_apply']
    have i1 := hb.one_le_iterate hκ n
    have i2 : (d.blur ρ)^[n] κ ≤ κ := by
      have : (κ - 1) * θ ^ n ≤ (κ - 1) * 1 := mul_le_mul_of_nonneg_left (pow_le_one₀ h0 h1) (by linarith)
      linarith
    refine (key _ i1 i2).trans ?_
    have : ((d.blur ρ)^[n] κ - 1) * θ ≤ (κ - 1) * θ ^ n * θ := mul_le_mul_of_nonneg_right (by linarith) h0
    rw [pow_succ]
    linarith

end Primo
