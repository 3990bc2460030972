import Verif.Lemmas.Complete
import Verif.Props.Separation
import Verif.Lemmas.Splits

/-! # C73: the graph decides which answers are independent for all tables -/

namespace Primo
open Finset

theorem BN.Positive.nonNeg {bn : BN} (h : bn.Positive) : bn.NonNeg := fun n hn x hx => (h n hn x hx).le

theorem PositiveEvidence.nonNeg {ev : Dict Evidence} (h : PositiveEvidence ev) : NonNegEvidence ev :=
  fun v l hl x hx => (h v l hl x hx).le

theorem SameKind.keys {ev ev' : Dict Evidence} (h : SameKind ev ev') : ev'.keys = ev.keys := by
  unfold SameKind at h
  induction h with
  | nil => rfl
  | cons h _ ih => simp only [Dict.keys, List.map_cons] at ih ⊢; rw [h.1, ih]

theorem SameKind.observed {ev ev' : Dict Evidence} (h : SameKind ev ev') (v : Name) :
    Observed ev' v ↔ Observed ev v := by
  unfold SameKind at h
  induction h with
  | nil => rfl
  | @cons p q _ _ h _ ih =>
    simp only [Observed, List.mem_cons, exists_or] at ih ⊢
    refine or_congr ?_ ih
    obtain ⟨a, e⟩ := p
    obtain ⟨b, e'⟩ := q
    obtain ⟨h1, h2⟩ := h
    simp only at h1 h2
    subst h1
    rcases h2 with rfl | ⟨l, l', rfl, rfl⟩
    · rfl
    · simp

theorem BN.DSeparated.sameKind {bn : BN} {ev ev' : Dict Evidence} (h : SameKind ev ev') {Q R : List Name}
    (hd : bn.DSeparated ev Q R) : bn.DSeparated ev' Q R := by
  have ht : ∀ d v, Trail bn ev' Q d v → Trail bn ev Q d v := by
    intro d v ht
    induction ht with
    | start hq => exact .start hq
    | up _ ho hp ih => exact ih.up (fun h' => ho ((h.observed _).2 h')) hp
    | down _ ho hp ih => exact ih.down (fun h' => ho ((h.observed _).2 h')) hp
    | collider _ hr hp ih => exact ih.collider (by rwa [h.keys] at hr) hp
  exact fun r hr d hv => (h.observed r).2 (hd r hr d (ht d r hv))

/-- a trail from a set starts in one variable -/
theorem Trail.single {bn : BN} {ev : Dict Evidence} {Q : List Name} {d : Bool} {v : Name}
    (h : Trail bn ev Q d v) : ∃ q ∈ Q, Trail bn ev [q] d v := by
  induction h with
  | @start q hq => exact ⟨q, hq, .start (by simp)⟩
  | up _ ho hp ih => obtain ⟨q, hq, ih⟩ := ih; exact ⟨q, hq, ih.up ho hp⟩
  | down _ ho hp ih => obtain ⟨q, hq, ih⟩ := ih; exact ⟨q, hq, ih.down ho hp⟩
  | collider _ hr hp ih => obtain ⟨q, hq, ih⟩ := ih; exact ⟨q, hq, ih.collider hr hp⟩

/-- nothing leaves an observed variable in which the trail starts -/
theorem Trail.of_observed {bn : BN} {ev : Dict Evidence} {q : Name} (hq : Observed ev q) {d : Bool}
    {v : Name} (h : Trail bn ev [q] d v) : v = q ∧ d = true := by
  induction h with
  | start h => exact ⟨List.mem_singleton.1 h, rfl⟩
  | up _ ho _ ih => exact absurd (ih.1 ▸ hq) ho
  | down _ ho _ ih => exact absurd (ih.1 ▸ hq) ho
  | collider _ _ _ ih => exact absurd ih.2 (by simp)

/-- **C73** If the evidence does not d-separate two disjoint sets of variables with at least two outcomes
each, then there are positive normalised tables for the same graph, and positive entries for the arrays in
the evidence, such that the joint answer is not the product of the single answers, whichever exact methods
are asked. -/
theorem C73_complete {bn : BN} (hc : bn.Consistent) (ha : bn.Acyclic)
    (h2 : ∀ v ∈ bn.names, 2 ≤ (bn.lab v).length) {ev : Dict Evidence} (he : LegalEvidence bn ev)
    {Q R : List Name} (hQ : ∀ v ∈ Q, v ∈ bn.names) (hR : ∀ v ∈ R, v ∈ bn.names)
    (hQR : ∀ v ∈ Q, v ∉ R) (hd : ¬ bn.DSeparated ev Q R) :
    ∃ bn' ev', bn'.bare = bn.bare ∧ bn'.Consistent ∧ bn'.Stochastic ∧ bn'.Positive ∧ SameKind ev ev' ∧
      LegalEvidence bn' ev' ∧ PositiveEvidence ev' ∧ (∀ σ, 0 < totalWeight bn' ev' σ) ∧
      ∃ σ, Legal bn.card (Q ++ R) σ ∧ ∀ f g h, ExactAnswer bn' ev' (Q ++ R) f → ExactAnswer bn' ev' Q g →
        ExactAnswer bn' ev' R h → f.eval σ ≠ g.eval σ * h.eval σ := by
  unfold BN.DSeparated at hd
  push Not at hd
  obtain ⟨r, hr, d, ht, hro⟩ := hd
  obtain ⟨q, hq, ht⟩ := ht.single
  have hqo : ¬ Observed ev q := fun ho => by
    obtain ⟨rfl, -⟩ := ht.of_observed ho
    exact hro ho
  obtain ⟨bn', ev', hb, hc', hs', hp', hk, he', hpe, hZ, hne⟩ := exists_tables hc ha he h2 (hQ q hq) (hR r hr)
    hqo hro ht
  refine ⟨bn', ev', hb, hc', hs', hp', hk, he', hpe, fun σ => by
    rwa [totalWeight_const hc' he' σ fun _ => 0], ?_⟩
  have hn : bn'.names = bn.names := BN.names_of_bare hb
  have hcard : bn'.card = bn.card := BN.card_of_bare hb
  have hQ' : ∀ v ∈ Q, v ∈ bn'.names := by rwa [hn]
  have hR' : ∀ v ∈ R, v ∈ bn'.names := by rwa [hn]
  have hQR' : ∀ v ∈ Q ++ R, v ∈ bn'.names := fun v hv => (List.mem_append.1 hv).elim (hQ' v) (hR' v)
  by_contra hall
  push Not at hall
  refine hne ?_
  have key : ∀ σ, Legal bn'.card (Q ++ R) σ →
      posterior bn' ev' (Q ++ R) σ = posterior bn' ev' Q σ * posterior bn' ev' R σ := by
    intro σ hσ
    obtain ⟨f, g, h, hf, hg, hh, e⟩ := hall σ (hcard ▸ hσ)
    rwa [(hf.spec hc' hp'.nonNeg he' hpe.nonNeg hQR').2 σ hσ,
      (hg.spec hc' hp'.nonNeg he' hpe.nonNeg hQ').2 σ fun v hv => hσ v (List.mem_append_left _ hv),
      (hh.spec hc' hp'.nonNeg he' hpe.nonNeg hR').2 σ fun v hv => hσ v (List.mem_append_right _ hv)] at e
  have h0 : ∀ v ∈ bn'.names, 0 < bn'.card v := fun v hv => by
    rw [hcard]; rw [hn] at hv; have : 2 ≤ bn.card v := h2 v hv; omega
  have hqR : q ∉ R := hQR q hq
  have hdis : Disjoint Q.toFinset R.toFinset :=
    disjoint_left.2 fun v h1 h2 => hQR v (List.mem_toFinset.1 h1) (List.mem_toFinset.1 h2)
  rw [← posterior_sumOut hc' he' hQR' (S := [q, r]) (by simp [hq, hr]),
    ← posterior_sumOut hc' he' hQ' (S := [q]) (by simp [hq]),
    ← posterior_sumOut hc' he' hR' (S := [r]) (by simp [hr]),
    sumOver_mul_sumOver (posterior_dependsOn' hc' he' Q) (posterior_dependsOn' hc' he' R)
      (hdis.mono sdiff_subset sdiff_subset) (hdis.mono_right sdiff_subset)
      (hdis.symm.mono_right sdiff_subset)]
  have hset : (Q ++ R).toFinset \ [q, r].toFinset =
      Q.toFinset \ [q].toFinset ∪ R.toFinset \ [r].toFinset := by
    ext v
    simp only [mem_sdiff, mem_union, List.mem_toFinset, List.mem_append, List.mem_cons, List.not_mem_nil,
      or_false]
    have e1 : v = q → v ∈ Q := fun e => e ▸ hq
    have e2 : v = r → v ∈ R := fun e => e ▸ hr
    have e3 := hQR v
    tauto
  rw [hset]
  refine sumOver_congr fun τ hτ => key τ fun v hv => ?_
  by_cases hm : v ∈ Q.toFinset \ [q].toFinset ∪ R.toFinset \ [r].toFinset
  · exact hτ.2 v hm
  · rw [hτ.1 v hm]; exact h0 v (hQR' v hv)

/-- **C73** d-separation is exact: the answers for two disjoint sets of variables are independent for all
tables on the graph, and all entries of arrays in the evidence, exactly if the evidence d-separates the
sets. -/
theorem C73_iff {bn : BN} (hc : bn.Consistent) (ha : bn.Acyclic)
    (h2 : ∀ v ∈ bn.names, 2 ≤ (bn.lab v).length) {ev : Dict Evidence} (he : LegalEvidence bn ev)
    {Q R : List Name} (hQ : ∀ v ∈ Q, v ∈ bn.names) (hR : ∀ v ∈ R, v ∈ bn.names)
    (hQR : ∀ v ∈ Q, v ∉ R) :
    bn.DSeparated ev Q R ↔ ∀ bn' ev', bn'.bare = bn.bare → bn'.Consistent → bn'.Stochastic → bn'.NonNeg →
      SameKind ev ev' → LegalEvidence bn' ev' → NonNegEvidence ev' → ∀ f g h,
        ExactAnswer bn' ev' (Q ++ R) f → ExactAnswer bn' ev' Q g → ExactAnswer bn' ev' R h →
          ∀ σ, Legal bn.card (Q ++ R) σ → f.eval σ = g.eval σ * h.eval σ := by
  constructor
  · intro hd bn' ev' hb hc' hs hn hk he' hen f g h hf hg hh σ hσ
    have hna := BN.names_of_bare hb
    have hd' : bn'.DSeparated ev' Q R := (hd.congr fun p v => (BN.isParent_iff_bare hb p v).symm).sameKind hk
    exact C72_independent hc' (ha.of_bare hb) hs hn he' hen (by rwa [hna]) (by rwa [hna]) hd' hf hg hh σ
      (by rwa [BN.card_of_bare hb])
  · intro hall
    by_contra hd
    obtain ⟨bn', ev', hb, hc', hs', hp', hk, he', hpe, -, σ, hσ, hne⟩ := C73_complete hc ha h2 he hQ hR hQR hd
    have hna := BN.names_of_bare hb
    have hQ' : ∀ v ∈ Q, v ∈ bn'.names := by rwa [hna]
    have hR' : ∀ v ∈ R, v ∈ bn'.names := by rwa [hna]
    obtain ⟨f, hf, -⟩ := C13_naive_exact .insertion _ hc' ev' he' (Q ++ R) fun v hv =>
      (List.mem_append.1 hv).elim (hQ' v) (hR' v)
    obtain ⟨g, hg, -⟩ := C13_naive_exact .insertion _ hc' ev' he' Q hQ'
    obtain ⟨h, hh, -⟩ := C13_naive_exact .insertion _ hc' ev' he' R hR'
    exact hne f g h (.naive _ hf) (.naive _ hg) (.naive _ hh)
      (hall bn' ev' hb hc' hs' hp'.nonNeg hk he' hpe.nonNeg f g h (.naive _ hf) (.naive _ hg) (.naive _ hh) σ hσ)

/-- **C73** d-separation does not depend on which of the two sets is asked first. -/
theorem C73_symm {bn : BN} (hc : bn.Consistent) (ha : bn.Acyclic)
    (h2 : ∀ v ∈ bn.names, 2 ≤ (bn.lab v).length) {ev : Dict Evidence} (he : LegalEvidence bn ev)
    {Q R : List Name} (hQ : ∀ v ∈ Q, v ∈ bn.names) (hR : ∀ v ∈ R, v ∈ bn.names)
    (hQR : ∀ v ∈ Q, v ∉ R) : bn.DSeparated ev Q R ↔ bn.DSeparated ev R Q := by
  have half : ∀ {Q R : List Name}, (∀ v ∈ Q, v ∈ bn.names) → (∀ v ∈ R, v ∈ bn.names) →
      (∀ v ∈ Q, v ∉ R) → bn.DSeparated ev Q R → bn.DSeparated ev R Q := by
    intro Q R hQ hR hQR hd
    by_contra hd'
    obtain ⟨bn', ev', hb, hc', hs', hp', hk, he', hpe, -, σ, hσ, hne⟩ := C73_complete hc ha h2 he hR hQ
      (fun v hv hv' => hQR v hv' hv) hd'
    have hna := BN.names_of_bare hb
    have hQ' : ∀ v ∈ Q, v ∈ bn'.names := by rwa [hna]
    have hR' : ∀ v ∈ R, v ∈ bn'.names := by rwa [hna]
    have hRQ' : ∀ v ∈ R ++ Q, v ∈ bn'.names := fun v hv => (List.mem_append.1 hv).elim (hR' v) (hQ' v)
    obtain ⟨f, hf, -⟩ := C13_naive_exact .insertion _ hc' ev' he' (R ++ Q) hRQ'
    obtain ⟨g, hg, -⟩ := C13_naive_exact .insertion _ hc' ev' he' R hR'
    obtain ⟨h, hh, -⟩ := C13_naive_exact .insertion _ hc' ev' he' Q hQ'
    refine hne f g h (.naive _ hf) (.naive _ hg) (.naive _ hh) ?_
    have hcard := BN.card_of_bare hb
    rw [← hcard] at hσ
    have hσ' : Legal bn'.card (Q ++ R) σ := fun v hv => hσ v (by simpa [or_comm] using hv)
    have hd'' : bn'.DSeparated ev' Q R := (hd.congr fun p v => (BN.isParent_iff_bare hb p v).symm).sameKind hk
    have hsp := hd''.splits hc' (ha.of_bare hb) hs' hp'.nonNeg he' hpe.nonNeg hQ' hR' hσ'
    rw [((ExactAnswer.naive _ hf).spec hc' hp'.nonNeg he' hpe.nonNeg hRQ').2 σ hσ,
      ((ExactAnswer.naive _ hg).spec hc' hp'.nonNeg he' hpe.nonNeg hR').2 σ fun v hv =>
        hσ v (List.mem_append_left _ hv),
      ((ExactAnswer.naive _ hh).spec hc' hp'.nonNeg he' hpe.nonNeg hQ').2 σ fun v hv =>
        hσ v (List.mem_append_right _ hv), mul_comm, ← hsp]
    unfold posterior
    rw [show (R ++ Q).toFinset = (Q ++ R).toFinset by ext v; simp [or_comm]]
  exact ⟨half hQ hR hQR, half hR hQ fun v hv hv' => hQR v hv' hv⟩

end Primo
