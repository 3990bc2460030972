import Verif.Lemmas.Forget

/-! # The slices of a dynamic network forget their past -/

namespace Primo
open JoinTree

/-- the table of a variable without parents -/
def priorOf (bn : BN) (a : Name) (i : Nat) : ℚ := entryOf bn a fun _ => i

/-- a two-slice network with new priors of the transition targets -/
structure DBN.Reprior (d : DBN) (two : BN) : Prop where
  good : d.Good two
  kept : ∀ n ∈ two, n.name ∉ d.transitions.map Prod.fst → n ∈ d.twoTbn

namespace DBN.Reprior
variable {d : DBN} {two two' : BN} {tr : Name × Name} {ρ : ℚ}

theorem node (h : d.Ready) (ht : tr ∈ d.transitions) (r : d.Reprior two) :
    ∃ n ∈ two, n.name = tr.1 ∧ n.parentOrder = [] ∧ n.values.length = two.card tr.1 ∧
      two.card tr.1 = d.b0.card tr.2 ∧ two.card tr.1 = d.twoTbn.card tr.2 := by
  obtain ⟨p, p1, p2, p3, p4, p5, p6⟩ := h.node tr ht
  have ha : tr.1 ∈ two.names := by
    rw [BN.names_of_bare r.good.bare, ← p2]
    exact List.mem_map_of_mem p1
  obtain ⟨n, hn, e⟩ := BN.exists_of_mem_names ha
  obtain ⟨q, q1, q2, -, q3, q4, -⟩ := BN.mem_bare r.good.bare hn
  have hq : q = p := BN.eq_of_name h.two.consistent.nodup q1 p1 (by rw [q2, p2, e])
  subst hq
  have hl : n.values.length = two.card tr.1 := by
    rw [← e, BN.card, BN.lab, BN.lab_of_mem r.good.setup.consistent.nodup hn]
  have hv : n.values.length = q.values.length := by rw [q3]
  exact ⟨n, hn, e, by rw [← q4, p4], hl, by rw [← hl, hv, p5], by rw [← hl, hv, p6]⟩

theorem prior (h : d.Ready) (ht : tr ∈ d.transitions) (r : d.Reprior two) (σ : Assign) :
    entryOf two tr.1 σ = priorOf two tr.1 (σ tr.1) := by
  obtain ⟨n, hn, e, hp, -⟩ := r.node h ht
  unfold priorOf
  rw [← e, entryOf_of_mem r.good.setup.consistent.nodup hn, entryOf_of_mem r.good.setup.consistent.nodup hn]
  unfold NodeV.entry
  rw [hp]
  rfl

theorem onePrior (h : d.Ready) (ht : d.transitions = [tr]) (r : d.Reprior two) (r' : d.Reprior two') :
    OnePrior tr.1 two two' (priorOf two tr.1) (priorOf two' tr.1) where
  bare := r'.good.bare.trans r.good.bare.symm
  consistent := r.good.setup.consistent
  consistent' := r'.good.setup.consistent
  nonneg := r.good.nonneg
  nonneg' := r'.good.nonneg
  mem := by
    obtain ⟨n, hn, e, -⟩ := r.node h (tr := tr) (by simp [ht])
    rw [← e]
    exact List.mem_map_of_mem hn
  prior := r.prior h (by simp [ht])
  prior' := r'.prior h (by simp [ht])
  same v hv hva σ := by
    have hb := r'.good.bare.trans r.good.bare.symm
    have hv' : v ∈ two'.names := by rw [BN.names_of_bare hb]; exact hv
    obtain ⟨n, hn, rfl⟩ := BN.exists_of_mem_names hv
    obtain ⟨n', hn', hnn⟩ := BN.exists_of_mem_names hv'
    have hnt : n.name ∉ d.transitions.map Prod.fst := by simpa [ht] using hva
    have : n' = n := BN.eq_of_name h.two.consistent.nodup (r'.kept n' hn' (by rw [hnn]; exact hnt)) (r.kept n hn hnt) hnn
    subst this
    rw [entryOf_of_mem r.good.setup.consistent.nodup hn, entryOf_of_mem r'.good.setup.consistent.nodup hn']

theorem influence (h : d.Ready) (ht : d.transitions = [tr]) (r : d.Reprior two) (hi : d.twoTbn.Influence tr.1 ρ) :
    two.Influence tr.1 ρ := by
  intro n hn ha σ hσ i hia
  rw [BN.card_of_bare r.good.bare] at hσ hia
  rw [BN.names_of_bare r.good.bare] at hσ
  refine hi n (r.kept n hn fun hm => ?_) ha σ hσ i hia
  have e : n.name = tr.1 := by simpa [ht] using hm
  obtain ⟨m, hm, e', hp, -⟩ := r.node h (tr := tr) (by simp [ht])
  rw [BN.eq_of_name r.good.setup.consistent.nodup hn hm (by rw [e, e']), hp] at ha
  cases ha

theorem grip (r : d.Reprior two) (a : Name) (ρ : ℚ) : two.grip a ρ = d.twoTbn.grip a ρ := by
  unfold BN.grip BN.childCount
  have key : ∀ bn : BN, (bn.filter fun m => decide (a ∈ m.parentOrder)).length =
      (bn.bare.filter fun m => decide (a ∈ m.parentOrder)).length := by
    intro bn
    unfold BN.bare
    rw [List.filter_map, List.length_map]
    rfl
  rw [key, key d.twoTbn, r.good.bare]

theorem priorOf_nonneg (h : d.Ready) (ht : tr ∈ d.transitions) (r : d.Reprior two) (i : Nat) :
    0 ≤ priorOf two tr.1 i := by
  obtain ⟨n, hn, e, -⟩ := r.node h ht
  unfold priorOf
  rw [← e, entryOf_of_mem r.good.setup.consistent.nodup hn]
  exact NDArray.get_nonneg (r.good.nonneg n hn) _

theorem priorOf_fed (h : d.Ready) (ht : tr ∈ d.transitions) (r : d.Reprior two) {two₀ net : BN} {e : Dict Evidence}
    (hf : Fed d.transitions net e two₀ two) {i : Nat} (hi : i < two.card tr.1)
    (hcard : net.card tr.2 = d.b0.card tr.2 ∨ net.card tr.2 = d.twoTbn.card tr.2) :
    priorOf two tr.1 i = posterior net e [tr.2] fun _ => i := by
  obtain ⟨n, hn, e, hp, hl, h1, h2⟩ := r.node h ht
  have hc : net.card tr.2 = two.card tr.1 := by
    rcases hcard with hc | hc
    · rw [hc, h1]
    · rw [hc, h2]
  unfold priorOf
  rw [← e, entryOf_of_mem r.good.setup.consistent.nodup hn, ← (hf.fed tr ht n hn e).2 (fun _ => i) (by rw [hc]; exact hi)]
  unfold NodeV.entry
  rw [hp]
  rfl

theorem priorOf_fedNear {u : ℚ} (h : d.Ready) (ht : tr ∈ d.transitions) (r : d.Reprior two) {two₀ net : BN}
    {e : Dict Evidence} (hf : FedNear u d.transitions net e two₀ two) {i : Nat} (hi : i < two.card tr.1)
    (hcard : net.card tr.2 = d.b0.card tr.2 ∨ net.card tr.2 = d.twoTbn.card tr.2) :
    Near u (treeRoundings net e.length [tr.2]) (priorOf two tr.1 i) (posterior net e [tr.2] fun _ => i) := by
  obtain ⟨n, hn, e, hp, hl, h1, h2⟩ := r.node h ht
  have hc : net.card tr.2 = two.card tr.1 := by
    rcases hcard with hc | hc
    · rw [hc, h1]
    · rw [hc, h2]
  have := (hf.fed tr ht n hn e).2 i (by rw [hc]; exact hi)
  unfold priorOf
  rw [← e, entryOf_of_mem r.good.setup.consistent.nodup hn]
  unfold NodeV.entry
  rw [hp]
  exact this

end DBN.Reprior

theorem Slices.reprior {d : DBN} (h : d.Ready) {es : List (Dict Evidence)} {net two : BN} (hs : Slices d es net two)
    (hes : ∀ e ∈ es, NonNegEvidence e) : d.Reprior two := ⟨hs.good h hes, hs.kept⟩

theorem NearSlices.reprior {u : ℚ} (hu : u < 1) {d : DBN} (h : d.Ready) {es : List (Dict Evidence)} {net two : BN}
    (hs : NearSlices u d es net two) : d.Reprior two := ⟨hs.good hu h, hs.kept⟩

/-- the same priors, for a dynamic network with another first slice -/
theorem DBN.Reprior.start {d : DBN} {b : BN} {two : BN} (r : ({ d with b0 := b } : DBN).Reprior two) : d.Reprior two :=
  ⟨⟨r.good.bare, r.good.setup, r.good.nonneg⟩, r.kept⟩

section
variable {d : DBN} {tr : Name × Name} {ρ κ : ℚ} {two two' : BN} {e : Dict Evidence}

/-- one more slice -/
theorem DBN.Reprior.step (h : d.Ready) (ht : d.transitions = [tr]) (hab : tr.2 ≠ tr.1) (hρ : 1 ≤ ρ)
    (hi : d.twoTbn.Influence tr.1 ρ) (r : d.Reprior two) (r' : d.Reprior two') (he : LegalEvidence d.twoTbn e)
    (hen : NonNegEvidence e) (hκ : 1 ≤ κ)
    (hp : Alike (· < d.twoTbn.card tr.1) κ (priorOf two' tr.1) (priorOf two tr.1)) :
    Alike (· < d.twoTbn.card tr.1) (fade (d.twoTbn.grip tr.1 ρ) κ 1) (fun i => posterior two' e [tr.2] fun _ => i)
      fun i => posterior two e [tr.2] fun _ => i := by
  rw [← BN.card_of_bare r.good.bare] at hp ⊢
  have := (r.onePrior h ht r').posterior (he.of_bare r.good.bare) hen hab hκ hρ (r.influence h ht hi) hp
  rw [r.grip] at this
  refine this.comap (p := fun i _ => i) fun i hi => ?_
  obtain ⟨n, -, -, -, -, -, h2⟩ := r.node h (tr := tr) (by simp [ht])
  simpa [Legal, BN.card_of_bare r.good.bare, ← h2] using hi

theorem DBN.Reprior.step_any (h : d.Ready) (ht : d.transitions = [tr]) (hab : tr.2 ≠ tr.1) (hρ : 1 ≤ ρ)
    (hi : d.twoTbn.Influence tr.1 ρ) (r : d.Reprior two) (r' : d.Reprior two') (he : LegalEvidence d.twoTbn e)
    (hen : NonNegEvidence e) {σ : Assign} (hz : 0 < totalWeight two e σ) (hz' : 0 < totalWeight two' e σ) :
    Alike (· < d.twoTbn.card tr.1) (d.twoTbn.grip tr.1 ρ ^ 2) (fun i => posterior two' e [tr.2] fun _ => i)
      fun i => posterior two e [tr.2] fun _ => i := by
  rw [← BN.card_of_bare r.good.bare]
  have := (r.onePrior h ht r').posterior_any (he.of_bare r.good.bare) hen hab hρ (r.influence h ht hi)
    (fun i _ => r.priorOf_nonneg h (by simp [ht]) i) (fun i _ => r'.priorOf_nonneg h (by simp [ht]) i) hz hz'
  rw [r.grip] at this
  refine this.comap (p := fun i _ => i) fun i hi => ?_
  obtain ⟨n, -, -, -, -, -, h2⟩ := r.node h (tr := tr) (by simp [ht])
  simpa [Legal, BN.card_of_bare r.good.bare, ← h2] using hi

end

section
variable {d : DBN} {tr : Name × Name} {ρ κ : ℚ} {b : BN} {es es₀ : List (Dict Evidence)}

/-- Priors that differ by a factor, after more slices. -/
theorem Slices.fade (h : d.Ready) (h' : ({ d with b0 := b } : DBN).Ready) (ht : d.transitions = [tr])
    (hab : tr.2 ≠ tr.1) (hρ : 1 ≤ ρ) (hi : d.twoTbn.Influence tr.1 ρ) (hκ : 1 ≤ κ) (h₀ : es₀ ≠ [])
    (hn₀ : ∀ e ∈ es₀, NonNegEvidence e) (hes : ∀ e ∈ es, LegalEvidence d.twoTbn e ∧ NonNegEvidence e)
    (hp : ∀ net two net' two', Slices d es₀ net two → Slices { d with b0 := b } es₀ net' two' →
      Alike (· < d.twoTbn.card tr.1) κ (priorOf two' tr.1) (priorOf two tr.1)) :
    ∀ net two net' two', Slices d (es₀ ++ es) net two → Slices { d with b0 := b } (es₀ ++ es) net' two' →
      Alike (· < d.twoTbn.card tr.1) (fade (d.twoTbn.grip tr.1 ρ) κ es.length) (priorOf two' tr.1)
        (priorOf two tr.1) := by
  induction es using List.reverseRecOn with
  | nil =>
    intro net two net' two' hs hs'
    rw [List.append_nil] at hs hs'
    rw [List.length_nil, fade_zero]
    exact hp _ _ _ _ hs hs'
  | append_singleton es e ih =>
    intro net two net' two' hs hs'
    have hn : ∀ e' ∈ es₀ ++ (es ++ [e]), NonNegEvidence e' := fun e' he' => by
      rcases List.mem_append.1 he' with he' | he'
      · exact hn₀ e' he'
      · exact (hes e' he').2
    have r := hs.reprior h hn
    have r' := (hs'.reprior h' hn).start
    rw [← List.append_assoc] at hs hs'
    obtain ⟨rfl, net₁, two₁, s₁, f₁⟩ := hs.snoc
    obtain ⟨rfl, net₁', two₁', s₁', f₁'⟩ := hs'.snoc
    have hn₁ : ∀ e' ∈ es₀ ++ es, NonNegEvidence e' := fun e' he' => hn e' (by
      rw [← List.append_assoc]; exact List.mem_append_left _ he')
    have r₁ := s₁.reprior h hn₁
    have r₁' := (s₁'.reprior h' hn₁).start
    have ih := ih (fun e' he' => hes e' (List.mem_append_left _ he')) _ _ _ _ s₁ s₁'
    obtain ⟨he, hen⟩ := hes e (by simp)
    have e1 : net₁ = two₁ := by
      rcases s₁.cases with ⟨hh, -⟩ | ⟨-, hh⟩
      · simp [h₀] at hh
      · exact hh
    have e1' : net₁' = two₁' := by
      rcases s₁'.cases with ⟨hh, -⟩ | ⟨-, hh⟩
      · simp [h₀] at hh
      · exact hh
    subst e1 e1'
    rw [List.length_append, List.length_singleton, fade_succ]
    refine (DBN.Reprior.step h ht hab hρ hi r₁ r₁' he hen (one_le_fade (BN.one_le_grip _ _ hρ) hκ _) ih).congr
      (fun i hia => ?_) fun i hia => ?_
    · refine r'.priorOf_fed h (by simp [ht]) f₁' ?_ (.inr (by rw [BN.card_of_bare r₁'.good.bare]))
      rwa [BN.card_of_bare r'.good.bare]
    · refine r.priorOf_fed h (by simp [ht]) f₁ ?_ (.inr (by rw [BN.card_of_bare r₁.good.bare]))
      rwa [BN.card_of_bare r.good.bare]

/-- Arbitrary priors, after a slice whose evidence is possible with both. -/
theorem Slices.any (h : d.Ready) (h' : ({ d with b0 := b } : DBN).Ready) (ht : d.transitions = [tr])
    (hab : tr.2 ≠ tr.1) (hρ : 1 ≤ ρ) (hi : d.twoTbn.Influence tr.1 ρ) (h₀ : es₀ ≠ [])
    (hn₀ : ∀ e ∈ es₀, NonNegEvidence e) {e : Dict Evidence} (he : LegalEvidence d.twoTbn e) (hen : NonNegEvidence e)
    {σ : Assign} (hz : ∀ net two, Slices d es₀ net two → 0 < totalWeight net e σ)
    (hz' : ∀ net two, Slices { d with b0 := b } es₀ net two → 0 < totalWeight net e σ) :
    ∀ net two net' two', Slices d (es₀ ++ [e]) net two → Slices { d with b0 := b } (es₀ ++ [e]) net' two' →
      Alike (· < d.twoTbn.card tr.1) (d.twoTbn.grip tr.1 ρ ^ 2) (priorOf two' tr.1) (priorOf two tr.1) := by
  intro net two net' two' hs hs'
  have hn : ∀ e' ∈ es₀ ++ [e], NonNegEvidence e' := fun e' he' => by
    rcases List.mem_append.1 he' with he' | he'
    · exact hn₀ e' he'
    · rw [List.mem_singleton.1 he']; exact hen
  have r := hs.reprior h hn
  have r' := (hs'.reprior h' hn).start
  obtain ⟨rfl, net₁, two₁, s₁, f₁⟩ := hs.snoc
  obtain ⟨rfl, net₁', two₁', s₁', f₁'⟩ := hs'.snoc
  have r₁ := s₁.reprior h hn₀
  have r₁' := (s₁'.reprior h' hn₀).start
  have e1 : net₁ = two₁ := by
    rcases s₁.cases with ⟨hh, -⟩ | ⟨-, hh⟩
    · exact absurd hh h₀
    · exact hh
  have e1' : net₁' = two₁' := by
    rcases s₁'.cases with ⟨hh, -⟩ | ⟨-, hh⟩
    · exact absurd hh h₀
    · exact hh
  subst e1 e1'
  refine (DBN.Reprior.step_any h ht hab hρ hi r₁ r₁' he hen (hz _ _ s₁) (hz' _ _ s₁')).congr
    (fun i hia => ?_) fun i hia => ?_
  · refine r'.priorOf_fed h (by simp [ht]) f₁' ?_ (.inr (by rw [BN.card_of_bare r₁'.good.bare]))
    rwa [BN.card_of_bare r'.good.bare]
  · refine r.priorOf_fed h (by simp [ht]) f₁ ?_ (.inr (by rw [BN.card_of_bare r₁.good.bare]))
    rwa [BN.card_of_bare r.good.bare]

/-- rounding an answer adds a little to a difference that has shrunk -/
theorem fade_round {R ε : ℚ} (hR : 1 ≤ R) (hε : 0 ≤ ε) (h : ε * (R - 1) ≤ 1 / 2) :
    (1 + ε) * Primo.fade R (1 + 2 * R * ε) 1 ≤ 1 + 2 * R * ε := by
  unfold Primo.fade
  have hR0 : R ≠ 0 := by positivity
  have e : 1 + (1 + 2 * R * ε - 1) * (1 - 1 / R) ^ 1 = 1 + 2 * R * ε - 2 * ε := by field_simp; ring
  rw [e]
  nlinarith [mul_le_mul_of_nonneg_left h hε]

/-- The priors of the computed slices stay close to those prescribed, however many slices there are. -/
theorem NearSlices.alike {u ε : ℚ} (hu : u < 1) (h : d.Ready) (ht : d.transitions = [tr])
    (hab : tr.2 ≠ tr.1) (hρ : 1 ≤ ρ) (hi : d.twoTbn.Influence tr.1 ρ) {m : Nat}
    (hm : ∀ k, ∀ e ∈ es, treeRoundings (d.slice k) e.length [tr.2] ≤ m) (h0 : 0 ≤ u)
    (hε : 0 ≤ ε) (h1 : 1 ≤ (1 + ε) * (1 - u) ^ (2 * m)) (h2 : ε * (d.twoTbn.grip tr.1 ρ - 1) ≤ 1 / 2) {netR twoR : BN}
    (hR : NearSlices u d es netR twoR) : (∀ e ∈ es, NonNegEvidence e) ∧ ∀ net two, Slices d es net two →
      Alike (· < d.twoTbn.card tr.1) (1 + 2 * d.twoTbn.grip tr.1 ρ * ε) (priorOf twoR tr.1) (priorOf two tr.1) := by
  have hg := BN.one_le_grip d.twoTbn tr.1 hρ
  have hκ : 1 ≤ 1 + 2 * d.twoTbn.grip tr.1 ρ * ε := by
    have : 0 ≤ 2 * d.twoTbn.grip tr.1 ρ * ε := by positivity
    linarith
  induction hR with
  | start =>
    refine ⟨by simp, fun net two hs => ?_⟩
    rcases hs.cases with ⟨-, -, rfl⟩ | ⟨hh, -⟩
    · exact (Alike.rfl' fun i _ => (hs.reprior h (by simp)).priorOf_nonneg h (by simp [ht]) i).mono hκ
    · exact absurd rfl hh
  | @next es netR twoR₀ twoR e hR hle hen hf ih =>
    obtain ⟨ihn, ih⟩ := ih fun k e' he' => hm k e' (List.mem_append_left _ he')
    have hn : ∀ e' ∈ es ++ [e], NonNegEvidence e' := fun e' he' => by
      rcases List.mem_append.1 he' with he' | he'
      · exact ihn e' he'
      · rw [List.mem_singleton.1 he']; exact hen
    refine ⟨hn, fun net two hs => ?_⟩
    have r := hs.reprior h hn
    have rR := (hR.next hle hen hf).reprior hu h
    obtain ⟨rfl, net₁, two₁, s₁, f₁⟩ := hs.snoc
    have r₁ := s₁.reprior h ihn
    have rR₁ := hR.reprior hu h
    have bR := (DBN.Good.nearNet h hR rR₁.good).2.2.2.1
    have b1 := (DBN.Good.net h s₁ r₁.good).2.2.2.1
    -- the rounding of the answer
    have a1 : Alike (· < d.twoTbn.card tr.1) (1 + ε) (priorOf twoR tr.1) fun i => posterior netR e [tr.2] fun _ => i := by
      have hk : treeRoundings netR e.length [tr.2] ≤ m := by
        rw [treeRoundings_of_bare bR]; exact hm _ e (by simp)
      refine Alike.of_near (u := u) (k := treeRoundings netR e.length [tr.2]) hu (h1.trans ?_) fun i hia => ?_
      · exact mul_le_mul_of_nonneg_left (pow_le_pow_of_le_one (by linarith) (by linarith) (by omega)) (by linarith)
      · refine rR.priorOf_fedNear h (by simp [ht]) hf ?_ (DBN.slice_card bR tr (by simp [ht]))
        rwa [BN.card_of_bare rR.good.bare]
    -- the difference that was there before
    have a2 : Alike (· < d.twoTbn.card tr.1) (fade (d.twoTbn.grip tr.1 ρ) (1 + 2 * d.twoTbn.grip tr.1 ρ * ε) 1)
        (fun i => posterior netR e [tr.2] fun _ => i) fun i => posterior net₁ e [tr.2] fun _ => i := by
      rcases hR.cases with ⟨rfl, rfl, -⟩ | ⟨hne, e1⟩
      · rcases s₁.cases with ⟨-, rfl, -⟩ | ⟨hh, -⟩
        · refine (Alike.rfl' fun i _ => ?_).mono (one_le_fade hg hκ _)
          exact posterior_nonneg h.b0_nonneg hen _ _
        · exact absurd rfl hh
      · rcases s₁.cases with ⟨hh, -⟩ | ⟨-, e2⟩
        · exact absurd hh hne
        · subst e1 e2
          refine DBN.Reprior.step h ht hab hρ hi r₁ rR₁ ?_ hen hκ (ih _ _ s₁)
          exact hle.of_bare rR₁.good.bare.symm
    refine ((a1.trans (by linarith) a2).mono (fade_round hg hε h2)).congr (fun _ _ => rfl) fun i hia => ?_
    refine r.priorOf_fed h (by simp [ht]) f₁ ?_ (DBN.slice_card b1 tr (by simp [ht]))
    rwa [BN.card_of_bare r.good.bare]

end

end Primo
