import Verif.Lemmas.Fit
import Verif.Lemmas.SoftFeedback
import Verif.Props.Separation
import Verif.Props.Factor

/-! # Property theorems: answers to different queries fit together (C74)

Each answer below may come from a different exact method (`ExactAnswer`): the theorems relate numbers the
library returns for different calls, with the posterior nowhere in the statements. -/

namespace Primo
open Finset
variable {bn : BN}

theorem ExactAnswer.wf (hc : bn.Consistent) (hn : bn.NonNeg) {ev : Dict Evidence}
    (he : LegalEvidence bn ev) (hen : NonNegEvidence ev) {Q : List Name} (hQ : ∀ v ∈ Q, v ∈ bn.names)
    {r : Factor} (h : ExactAnswer bn ev Q r) : r.WF bn.card := by
  cases h with
  | naive so h =>
    obtain ⟨r', h1, h2, -⟩ := C13_naive_exact so bn hc ev he Q hQ
    rw [h] at h1; cases h1; exact h2
  | bucket so o hQn ho h =>
    obtain ⟨r', h1, h2, -⟩ := C14_bucket_exact so bn hc ev he Q hQn hQ o ho
    rw [h] at h1; cases h1; exact h2
  | default so hQn hl h =>
    obtain ⟨r', h1, h2, -⟩ := C14_bucket_exact_default so bn hc hl ev he Q hQn hQ
    rw [h] at h1; cases h1; exact h2
  | tree order0 so₁ so₂ so₃ limit limit' t t' hs hco hl h1 h2 h3 h4 =>
    obtain ⟨t₁, t₁', a1, a2, -, a4⟩ := C21_tree_exact_partial hs hn hco he hen hl so₁ so₂
    rw [h1] at a1; cases a1
    rw [h2] at a2; cases a2
    obtain ⟨r', r1, r2, -⟩ := a4 Q h3 so₃ limit'
    rw [r1] at h4
    cases h4
    exact r2

/-- there is an exact answer for every legal query -/
theorem ExactAnswer.exists (hc : bn.Consistent) {ev : Dict Evidence} (he : LegalEvidence bn ev)
    {Q : List Name} (hQ : ∀ v ∈ Q, v ∈ bn.names) : ∃ r, ExactAnswer bn ev Q r := by
  obtain ⟨r, h, -⟩ := C13_naive_exact .insertion bn hc ev he Q hQ
  exact ⟨r, .naive _ h⟩

/-! ## C74 -/

/-- **C74** `marginalize` of an answer gives the answer to the smaller query. -/
theorem C74_marginalize (hc : bn.Consistent) (hn : bn.NonNeg) {ev : Dict Evidence}
    (he : LegalEvidence bn ev) (hen : NonNegEvidence ev) {Q vs S : List Name}
    (hQ : ∀ v ∈ Q, v ∈ bn.names) (hvs : vs.Nodup) (hsub : ∀ v ∈ vs, v ∈ Q)
    (hS : ∀ v, v ∈ S ↔ v ∈ Q ∧ v ∉ vs) {r s : Factor} (hr : ExactAnswer bn ev Q r)
    (hs : ExactAnswer bn ev S s) : ∃ m, r.marginalize vs = .ok m ∧ SameTable bn.card m s := by
  obtain ⟨a1, a2⟩ := hr.spec hc hn he hen hQ
  obtain ⟨b1, b2⟩ := hs.spec hc hn he hen fun v hv => hQ v ((hS v).1 hv).1
  obtain ⟨m, m1, -, m3, -, m5⟩ := C04_marginalize r (hr.wf hc hn he hen hQ) vs hvs
    fun v hv => (a1 v).2 (hsub v hv)
  have hm : ∀ v, v ∈ m.variableOrder ↔ v ∈ S := by
    intro v
    rw [m3, List.mem_filter, a1, hS]
    simp
  refine ⟨m, m1, fun v => by rw [hm, b1], fun σ hσ => ?_⟩
  have hσS : Legal bn.card S σ := fun v hv => hσ v ((hm v).2 hv)
  rw [m5 σ hσ, b2 σ hσS, ← posterior_sumOut hc he hQ (fun v hv => ((hS v).1 hv).1) σ]
  have hset : vs.toFinset = Q.toFinset \ S.toFinset := by
    ext v
    simp only [List.mem_toFinset, mem_sdiff, hS, not_and, not_not]
    exact ⟨fun h => ⟨hsub v h, fun _ => h⟩, fun h => h.2 h.1⟩
  rw [hset]
  refine sumOver_congr fun τ hτ => a2 τ fun v hv => ?_
  by_cases hvS : v ∈ S
  · rw [hτ.1 v (by simp [hvS])]; exact hσS v hvS
  · exact hτ.2 v (by simp [hv, hvS])

/-- **C74** Further evidence, hard or soft, on variables of the query multiplies the answer with the
likelihoods and divides it by the probability of the further evidence, which is itself made of numbers in an
answer. -/
theorem C74_update (hc : bn.Consistent) (hn : bn.NonNeg) {ev ev' : Dict Evidence}
    (he : LegalEvidence bn (ev ++ ev')) (hen : NonNegEvidence (ev ++ ev')) {Q : List Name}
    (hQ : ∀ v ∈ Q, v ∈ bn.names) (hk : ∀ v ∈ ev'.keys, v ∈ Q) {r r' k : Factor}
    (hr : ExactAnswer bn ev Q r) (hr' : ExactAnswer bn (ev ++ ev') Q r')
    (hkk : ExactAnswer bn ev ev'.keys k) : ∀ σ, Legal bn.card Q σ →
      r'.eval σ * sumOver bn.card ev'.keys.toFinset (fun τ => evLik bn ev' τ * k.eval τ) σ =
        evLik bn ev' σ * r.eval σ := by
  intro σ hσ
  rw [(hr.spec hc hn he.append_left hen.left hQ).2 σ hσ, (hr'.spec hc hn he hen hQ).2 σ hσ,
    ← posterior_update hc hn he hen hQ hk hσ]
  congr 1
  refine sumOver_congr fun τ hτ => ?_
  rw [(hkk.spec hc hn he.append_left hen.left fun v hv => hQ v (hk v hv)).2 τ fun v hv =>
    hτ.2 v (by simpa using hv)]

theorem posterior_product (hc : bn.Consistent) (hn : bn.NonNeg) {ev : Dict Evidence} {v : Name} {x : Val}
    (he : LegalEvidence bn (ev ++ [(v, .hard x)])) (hen : NonNegEvidence ev) {Q : List Name}
    (hQ : ∀ u ∈ Q, u ∈ bn.names) (hv : v ∉ Q) {σ : Assign} (hσ : Legal bn.card Q σ) :
    posterior bn ev (v :: Q) (Function.update σ v ((bn.lab v).idxOf x)) =
      posterior bn (ev ++ [(v, .hard x)]) Q σ *
        posterior bn ev [v] (Function.update σ v ((bn.lab v).idxOf x)) := by
  have hx : (v, Evidence.hard x) ∈ ev ++ [(v, Evidence.hard x)] := by simp
  have hvn : v ∈ bn.names := he.mem _ hx
  have hxl : x ∈ bn.lab v := he.hard v x hx
  have hen' : NonNegEvidence (ev ++ [(v, .hard x)]) := by
    intro u l h
    rcases List.mem_append.1 h with h | h
    · exact hen u l h
    · simp at h
  have hlt : (bn.lab v).idxOf x < bn.card v := List.idxOf_lt_length_of_mem hxl
  have hσ' : Legal bn.card (v :: Q) (Function.update σ v ((bn.lab v).idxOf x)) := by
    intro u hu
    by_cases huv : u = v
    · subst huv; simpa using hlt
    · simpa [huv] using hσ u (by simpa [huv] using hu)
  have hup := posterior_update hc hn he hen' (Q := v :: Q) (by simpa using ⟨hvn, hQ⟩) (by simp [Dict.keys]) hσ'
  have hk : Dict.keys [(v, Evidence.hard x)] = [v] := rfl
  have hl : ∀ τ, evLik bn [(v, .hard x)] τ = if τ v = (bn.lab v).idxOf x then 1 else 0 := by
    intro τ
    simp [evLik, lik_hard hxl]
  rw [posterior_observed hc he hx hQ hv, if_pos rfl, hk, hl, if_pos (by simp), one_mul] at hup
  rw [← hup]
  congr 1
  have : ([v] : List Name).toFinset = {v} := by simp
  rw [this, sumOver_singleton, sum_eq_single ((bn.lab v).idxOf x)]
  · simp [hl]
  · intro j _ hj
    simp [hl, hj]
  · intro h
    exact absurd (mem_range.2 hlt) h

/-- **C74** Product rule: P(Q, v = x | ev) = P(Q | v = x, ev) · P(v = x | ev). -/
theorem C74_product_rule (hc : bn.Consistent) (hn : bn.NonNeg) {ev : Dict Evidence} {v : Name} {x : Val}
    (he : LegalEvidence bn (ev ++ [(v, .hard x)])) (hen : NonNegEvidence ev) {Q : List Name}
    (hQ : ∀ u ∈ Q, u ∈ bn.names) (hv : v ∉ Q) {r r' k : Factor} (hr : ExactAnswer bn ev (v :: Q) r)
    (hr' : ExactAnswer bn (ev ++ [(v, .hard x)]) Q r') (hk : ExactAnswer bn ev [v] k) :
    ∀ σ, Legal bn.card (v :: Q) σ → σ v = (bn.lab v).idxOf x → r.eval σ = r'.eval σ * k.eval σ := by
  intro σ hσ hx
  have hvn : v ∈ bn.names := he.mem (v, .hard x) (by simp)
  have hen' : NonNegEvidence (ev ++ [(v, .hard x)]) := by
    intro u l h
    rcases List.mem_append.1 h with h | h
    · exact hen u l h
    · simp at h
  have hσQ : Legal bn.card Q σ := fun u hu => hσ u (List.mem_cons_of_mem _ hu)
  rw [(hr.spec hc hn he.append_left hen (by simpa using ⟨hvn, hQ⟩)).2 σ hσ,
    (hr'.spec hc hn he hen' hQ).2 σ hσQ,
    (hk.spec hc hn he.append_left hen (by simpa using hvn)).2 σ (by simpa [Legal] using hσ v (by simp))]
  have hself : Function.update σ v ((bn.lab v).idxOf x) = σ := by rw [← hx]; simp
  have := posterior_product hc hn he hen hQ hv hσQ
  rwa [hself] at this

/-- **C74** Bayes' rule: P(v = x | u = y) · P(u = y) = P(u = y | v = x) · P(v = x). -/
theorem C74_bayes (hc : bn.Consistent) (hn : bn.NonNeg) {ev : Dict Evidence} {u v : Name} {x y : Val}
    (he : LegalEvidence bn (ev ++ [(v, .hard x)])) (he' : LegalEvidence bn (ev ++ [(u, .hard y)]))
    (hen : NonNegEvidence ev) (huv : u ≠ v) {f g h k : Factor}
    (hf : ExactAnswer bn (ev ++ [(u, .hard y)]) [v] f) (hg : ExactAnswer bn ev [u] g)
    (hh : ExactAnswer bn (ev ++ [(v, .hard x)]) [u] h) (hk : ExactAnswer bn ev [v] k) :
    ∀ σ, σ v = (bn.lab v).idxOf x → σ u = (bn.lab u).idxOf y →
      f.eval σ * g.eval σ = h.eval σ * k.eval σ := by
  intro σ hx hy
  have hvn : v ∈ bn.names := he.mem (v, .hard x) (by simp)
  have hun : u ∈ bn.names := he'.mem (u, .hard y) (by simp)
  have lx : σ v < bn.card v := by
    rw [hx]; exact List.idxOf_lt_length_of_mem (he.hard v x (by simp))
  have ly : σ u < bn.card u := by
    rw [hy]; exact List.idxOf_lt_length_of_mem (he'.hard u y (by simp))
  obtain ⟨a, ha⟩ := ExactAnswer.exists hc he.append_left (Q := [u, v]) (by simp [hvn, hun])
  obtain ⟨b, hb⟩ := ExactAnswer.exists hc he.append_left (Q := [v, u]) (by simp [hvn, hun])
  have h1 := C74_product_rule hc hn he' hen (by simpa using hvn) (by simpa using huv) ha hf hg σ
    (by simp [Legal, lx, ly]) hy
  have h2 := C74_product_rule hc hn he hen (by simpa using hun) (by simpa using huv.symm) hb hh hk σ
    (by simp [Legal, lx, ly]) hx
  rw [← h1, ← h2, (ha.spec hc hn he.append_left hen (by simp [hvn, hun])).2 σ (by simp [Legal, lx, ly]),
    (hb.spec hc hn he.append_left hen (by simp [hvn, hun])).2 σ (by simp [Legal, lx, ly])]
  have : ([u, v] : List Name).toFinset = [v, u].toFinset := by
    ext w; simp [or_comm]
  unfold posterior
  rw [this]

/-- **C74** Law of total probability: P(Q | ev) = Σₓ P(Q | v = x, ev) · P(v = x | ev). -/
theorem C74_total_probability (hc : bn.Consistent) (hn : bn.NonNeg) {ev : Dict Evidence} {v : Name}
    (hd : (bn.lab v).Nodup) (hvn : v ∈ bn.names) (he : LegalEvidence bn ev) (hen : NonNegEvidence ev)
    (hv : v ∉ ev.keys) {Q : List Name} (hQ : ∀ u ∈ Q, u ∈ bn.names) (hvQ : v ∉ Q) {r k : Factor}
    {g : Val → Factor} (hr : ExactAnswer bn ev Q r) (hk : ExactAnswer bn ev [v] k)
    (hg : ∀ x ∈ bn.lab v, ExactAnswer bn (ev ++ [(v, .hard x)]) Q (g x)) :
    ∀ σ, Legal bn.card Q σ → r.eval σ = ((bn.lab v).map fun x =>
      (g x).eval σ * k.eval (Function.update σ v ((bn.lab v).idxOf x))).sum := by
  intro σ hσ
  have hle : ∀ x ∈ bn.lab v, LegalEvidence bn (ev ++ [(v, .hard x)]) := by
    intro x hx
    refine ⟨?_, ?_, ?_, ?_⟩
    · have : Dict.keys (ev ++ [(v, .hard x)]) = ev.keys ++ [v] := by simp [Dict.keys]
      rw [this]
      exact List.nodup_append.2 ⟨he.nodup, by simp, by
        intro a ha b hb; rw [List.mem_singleton.1 hb]; rintro rfl; exact hv ha⟩
    · intro p hp
      rcases List.mem_append.1 hp with hp | hp
      · exact he.mem p hp
      · rw [List.mem_singleton.1 hp]; exact hvn
    · intro u y h
      rcases List.mem_append.1 h with h | h
      · exact he.hard u y h
      · simp only [List.mem_singleton, Prod.mk.injEq, Evidence.hard.injEq] at h
        obtain ⟨rfl, rfl⟩ := h
        exact hx
    · intro u l h
      rcases List.mem_append.1 h with h | h
      · exact he.soft u l h
      · simp at h
  have hset : (v :: Q).toFinset \ Q.toFinset = {v} := by
    ext u
    simp only [List.toFinset_cons, mem_sdiff, mem_insert, List.mem_toFinset, mem_singleton]
    constructor
    · rintro ⟨h | h, h'⟩
      · exact h
      · exact absurd h h'
    · rintro rfl; exact ⟨.inl rfl, hvQ⟩
  have hsum := posterior_sumOut hc he (Q := v :: Q) (S := Q)
    (by simpa using ⟨hvn, hQ⟩) (fun u hu => List.mem_cons_of_mem _ hu) σ
  rw [hset, sumOver_singleton] at hsum
  rw [(hr.spec hc hn he hen hQ).2 σ hσ, ← hsum]
  have hlen : bn.card v = (bn.lab v).length := rfl
  rw [hlen, ← Fin.sum_univ_eq_sum_range, ← List.sum_ofFn]
  congr 1
  refine List.ext_getElem (by simp) fun i h1 h2 => ?_
  simp only [List.getElem_ofFn, List.getElem_map]
  have hi : i < (bn.lab v).length := by simpa using h1
  have hx : (bn.lab v)[i] ∈ bn.lab v := List.getElem_mem hi
  have hidx : (bn.lab v).idxOf (bn.lab v)[i] = i := hd.idxOf_getElem i hi
  have hen' : NonNegEvidence (ev ++ [(v, .hard (bn.lab v)[i])]) := by
    intro u l h
    rcases List.mem_append.1 h with h | h
    · exact hen u l h
    · simp at h
  have := posterior_product hc hn (hle _ hx) hen hQ hvQ hσ
  rw [hidx] at this ⊢
  rw [this, ((hg _ hx).spec hc hn (hle _ hx) hen' hQ).2 σ hσ,
    (hk.spec hc hn he hen (by simpa using hvn)).2 _ (by simpa [Legal, BN.card] using hi)]

/-- **C74** The order in which evidence is given does not matter. -/
theorem C74_evidence_order (hc : bn.Consistent) (hn : bn.NonNeg) {ev ev' : Dict Evidence}
    (he : LegalEvidence bn ev) (hen : NonNegEvidence ev) (hp : ev.Perm ev') {Q : List Name}
    (hQ : ∀ v ∈ Q, v ∈ bn.names) {r r' : Factor} (hr : ExactAnswer bn ev Q r)
    (hr' : ExactAnswer bn ev' Q r') : SameTable bn.card r r' := by
  have he' : LegalEvidence bn ev' := ⟨(hp.map Prod.fst).nodup_iff.1 he.nodup,
    fun p h => he.mem p (hp.mem_iff.2 h), fun v x h => he.hard v x (hp.mem_iff.2 h),
    fun v l h => he.soft v l (hp.mem_iff.2 h)⟩
  obtain ⟨a1, a2⟩ := hr.spec hc hn he hen hQ
  obtain ⟨b1, b2⟩ := hr'.spec hc hn he' (fun v l h => hen v l (hp.mem_iff.2 h)) hQ
  refine ⟨fun v => by rw [a1, b1], fun σ hσ => ?_⟩
  have hσ' : Legal bn.card Q σ := fun v hv => hσ v ((a1 v).2 hv)
  rw [a2 σ hσ', b2 σ hσ', posterior_perm hp]

end Primo
