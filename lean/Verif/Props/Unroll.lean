import Verif.Lemmas.UnrollNet
import Verif.Lemmas.UnrollSoft
import Verif.Props.Dynamic

/-!
# Dynamic inference against the network of all slices

C70: unrolling slice by slice gives the posterior of the unrolled network under the evidence of all
slices so far.
-/

namespace Primo

/-- The query `q` in state `s` returns, for variables inside one family of slice `k`, the posterior of
the network unrolled over the slices `0, …, k` under the evidence `es` of these slices, whatever the
nodes of the unrolled network are called. -/
def Filters {S : Type} (q : SetOrder → Nat → List Name → S × Except PyErr Factor) (s : S) (d : DBN)
    (k : Nat) (es : List (Dict Evidence)) : Prop :=
  ∀ n ∈ d.slice k, ∀ vs, (∀ v ∈ vs, v ∈ n.family) → ∀ so limit, ∃ r, q so limit vs = (s, .ok r) ∧
    r.WF (d.slice k).card ∧ (∀ v ∈ r.variableOrder, r.values.get? v = some ((d.slice k).lab v)) ∧
    (∀ v, v ∈ r.variableOrder ↔ v ∈ vs) ∧
    ∀ tag, Tagging tag → ∀ σ, Legal (d.unrolled tag k).card (vs.map (tag k)) σ →
      r.eval (fun v => σ (tag k v)) =
        posterior (d.unrolled tag k) (taggedEvidence tag es) (vs.map (tag k)) σ

/-- `marginal_probabilities` returns these posteriors for each outcome. -/
def FiltersDict {S : Type} (q : SetOrder → Nat → Name → S × Except PyErr (Dict ℚ)) (s : S) (d : DBN)
    (k : Nat) (es : List (Dict Evidence)) : Prop :=
  ∀ v ∈ (d.slice k).names, ∀ so limit tag, Tagging tag → q so limit v = (s, .ok (((d.slice k).lab v).zip
    ((List.range ((d.slice k).card v)).map fun i =>
      posterior (d.unrolled tag k) (taggedEvidence tag es) [tag k v] fun _ => i)))

/-- the tag `...:v` with as many dots as slices before -/
def dotTag (k : Nat) (v : Name) : Name := String.ofList (List.replicate k '.' ++ ':' :: v.toList)

theorem dotTag_tagging : Tagging dotTag := by
  intro k v k' v' h
  have h := String.ofList_injective h
  induction k generalizing k' with
  | zero =>
    cases k' with
    | zero => simpa [String.toList_inj] using h
    | succ k' => simp [List.replicate_succ] at h
  | succ k ih =>
    cases k' with
    | zero => simp [List.replicate_succ] at h
    | succ k' =>
      simp only [List.replicate_succ, List.cons_append, List.cons.injEq, true_and] at h
      have := ih k' (by exact congrArg String.ofList h) h
      exact ⟨by rw [this.1], this.2⟩

/-- **C70**: the unrolled network is a network: consistent, with non-negative tables, and acyclic and
with normalised tables if both given networks are; all evidence together is legal in it. -/
theorem C70_unrolled {d : DBN} (h : d.Ready) {tag : Nat → Name → Name} (ht : Tagging tag) (k : Nat) :
    (d.unrolled tag k).Consistent ∧ (d.unrolled tag k).NonNeg ∧
      (d.b0.Acyclic → d.twoTbn.Acyclic → (d.unrolled tag k).Acyclic) ∧
      (d.b0.Stochastic → d.twoTbn.Stochastic → (d.unrolled tag k).Stochastic) ∧
      ∀ es : List (Dict Evidence), es.length ≤ k + 1 →
        (∀ j e, es[j]? = some e → LegalEvidence (d.slice j) e) →
        LegalEvidence (d.unrolled tag k) (taggedEvidence tag es) :=
  ⟨DBN.consistent_unrolled h ht k, DBN.nonneg_unrolled h.b0_nonneg h.two_nonneg k,
    fun h0 h2 => DBN.acyclic_unrolled ht h0 h2 k, fun h0 h2 => DBN.stochastic_unrolled h ht h0 h2 k,
    fun _ hk he => legal_taggedEvidence ht hk he⟩

example := (C70_unrolled Ex.dyn_ready dotTag_tagging 2).2.2.1 Ex.bn_acyclic Ex.bn_acyclic
example : (Ex.dyn.unrolled dotTag 1).names =
    [":d", ":a", ":b", ":c", ".:d", ".:a", ".:b", ".:c"] := by decide
example : (Ex.dyn.unrolled dotTag 1)[5]?.map (fun n => (n.name, n.parentOrder, n.cpd.data)) =
    some (".:a", [":c"], [1, 0, 0, 1]) := by decide +kernel

theorem Filters.of_slices {S : Type} {q : SetOrder → Nat → List Name → S × Except PyErr Factor} {s : S}
    {d : DBN} (h : d.Ready) (hne : d.transitions ≠ []) (hsn : (d.transitions.map Prod.snd).Nodup)
    {past : List (Dict Evidence)} {net two : BN} (hs : Slices d past net two)
    (hev : ∀ j e, past[j]? = some e → LegalEvidence (d.slice j) e ∧ NonNegEvidence e)
    (hsp : d.Splits past) {e : Dict Evidence} (hen : NonNegEvidence e) (ha : Answers q s net e) :
    Filters q s d past.length (past ++ [e]) := by
  obtain ⟨hg, -⟩ := hs.unrolled h dotTag_tagging hne hsn hev hsp
  obtain ⟨hset, hnn, -, hbare, -⟩ := hg.net h hs
  intro n hn vs hvs so limit
  obtain ⟨m, hm, e1, -, -, e4, -⟩ := BN.mem_bare hbare.symm hn
  have hfam : ∀ v ∈ vs, v ∈ m.family := fun v hv => by
    have := hvs v hv
    unfold NodeV.family at this ⊢
    rw [e1, e4]; exact this
  obtain ⟨r, r1, r2, r3, r4, r5⟩ := ha m hm vs hfam so limit
  refine ⟨r, r1, ?_, ?_, r4, fun tag ht σ hσ => ?_⟩
  · rw [← BN.card_of_bare hbare]; exact r2
  · rw [← BN.lab_of_bare hbare]; exact r3
  · have hσ' : Legal net.card vs (σ ∘ tag past.length) := fun v hv => by
      have := hσ _ (List.mem_map_of_mem hv)
      rwa [DBN.card_unrolled ht le_rfl, ← BN.card_of_bare hbare] at this
    rw [hs.posterior h ht hne hsn hev hsp hen (fun v hv => ?_) hσ']
    · exact r5 _ hσ'
    · have := hfam v hv
      unfold NodeV.family at this
      rcases List.mem_cons.1 this with rfl | hp
      · exact List.mem_map_of_mem hm
      · exact hset.consistent.parents_mem m hm v hp

theorem FiltersDict.of_slices {S : Type} {q : SetOrder → Nat → Name → S × Except PyErr (Dict ℚ)} {s : S}
    {d : DBN} (h : d.Ready) (hne : d.transitions ≠ []) (hsn : (d.transitions.map Prod.snd).Nodup)
    {past : List (Dict Evidence)} {net two : BN} (hs : Slices d past net two)
    (hev : ∀ j e, past[j]? = some e → LegalEvidence (d.slice j) e ∧ NonNegEvidence e)
    (hsp : d.Splits past) {e : Dict Evidence} (hen : NonNegEvidence e) (ha : AnswersDict q s net e) :
    FiltersDict q s d past.length (past ++ [e]) := by
  obtain ⟨hg, -⟩ := hs.unrolled h dotTag_tagging hne hsn hev hsp
  obtain ⟨-, -, -, hbare, -⟩ := hg.net h hs
  intro v hv so limit tag ht
  rw [← BN.names_of_bare hbare] at hv
  rw [ha v hv so limit, ← BN.lab_of_bare hbare, ← BN.card_of_bare hbare]
  congr 3
  refine List.map_congr_left fun i hi => ?_
  have := hs.posterior h ht hne hsn hev hsp hen (vs := [v]) (by simpa using hv) (σ := fun _ => i)
    (by simpa [Legal] using hi)
  rw [List.map_singleton] at this
  exact this.symm

/-- **C70 for prior feedback, partial.**  After any history of allowed calls: if in every slice left the
joint posterior of the transition sources is the product of their marginals, queries return the
posterior of the network unrolled over all slices so far under all evidence so far.  Between `unroll`
and the next `set_evidence` they refer to the slice just left.  Missing: sources that are dependent in
a slice (only their marginals are carried over: refuted below), and networks for which the trees are
not exact. -/
theorem C70_prior_feedback_partial {d : DBN} (h : d.Ready) (hne : d.transitions ≠ [])
    (hsn : (d.transitions.map Prod.snd).Nodup) {ops : List DynOp}
    (ho : FairHistory d ⟨[], none⟩ ops) {g : Diary} (hg : g = Diary.notes ⟨[], none⟩ ops)
    {s : PriorFeedback} (hs : s = .runs ops (.create d)) (hsp : d.Splits g.past) :
    (∀ e, g.now = some e →
      Filters (fun so limit vs => s.marginals so limit vs) s d g.past.length (g.past ++ [e]) ∧
      FiltersDict (fun so limit v => s.marginalProbabilities so limit v) s d g.past.length
        (g.past ++ [e])) ∧
    (g.now = none → ∀ past e, g.past = past ++ [e] →
      Filters (fun so limit vs => s.marginals so limit vs) s d past.length g.past ∧
      FiltersDict (fun so limit v => s.marginalProbabilities so limit v) s d past.length g.past) := by
  obtain ⟨net, two, h1, -, -, -, h5, h6⟩ := C47_prior_feedback_partial h ho hg hs
  have hl := ho.legal (Diary.legal_start d)
  rw [← hg] at hl
  refine ⟨fun e he => ?_, fun hn past e hp => ?_⟩
  · obtain ⟨a1, a2⟩ := h5 e he
    exact ⟨.of_slices h hne hsn h1 hl.past hsp (hl.now e he).2 a1,
      .of_slices h hne hsn h1 hl.past hsp (hl.now e he).2 a2⟩
  · rcases h6 hn with ⟨h7, -⟩ | ⟨past', e', net', two', h7, h8, a1, a2⟩
    · rw [h7] at hp; simp at hp
    · obtain ⟨rfl, h9⟩ := List.append_inj' (hp.symm.trans h7) rfl
      cases h9
      have hlp : ∀ j e', past[j]? = some e' → LegalEvidence (d.slice j) e' ∧ NonNegEvidence e' := by
        intro j e' he
        refine hl.past j e' ?_
        rw [hp, List.getElem?_append_left]
        · exact he
        · by_contra hc
          rw [List.getElem?_eq_none (by omega)] at he
          simp at he
      have hen := (hl.past past.length e (by rw [hp]; simp)).2
      rw [hp] at hsp ⊢
      exact ⟨.of_slices h hne hsn h8 hlp hsp.init hen a1, .of_slices h hne hsn h8 hlp hsp.init hen a2⟩

/-- **C70 for prior feedback with one transition, partial.**  After any history of allowed calls, queries
return the posterior of the network unrolled over all slices so far under all evidence so far.
Missing: networks for which the trees are not exact. -/
theorem C70_single_transition_partial {d : DBN} (h : d.Ready) {tr : Name × Name}
    (htr : d.transitions = [tr]) {ops : List DynOp}
    (ho : FairHistory d ⟨[], none⟩ ops) {g : Diary} (hg : g = Diary.notes ⟨[], none⟩ ops)
    {s : PriorFeedback} (hs : s = .runs ops (.create d)) :
    (∀ e, g.now = some e →
      Filters (fun so limit vs => s.marginals so limit vs) s d g.past.length (g.past ++ [e]) ∧
      FiltersDict (fun so limit v => s.marginalProbabilities so limit v) s d g.past.length
        (g.past ++ [e])) ∧
    (g.now = none → ∀ past e, g.past = past ++ [e] →
      Filters (fun so limit vs => s.marginals so limit vs) s d past.length g.past ∧
      FiltersDict (fun so limit v => s.marginalProbabilities so limit v) s d past.length g.past) :=
  C70_prior_feedback_partial h (by rw [htr]; simp) (by rw [htr]; simp) ho hg hs (.single htr _)

example := C70_single_transition_partial Ex.dyn_ready rfl Ex.dynOps_fair rfl rfl

/-- two roots carried over -/
def Ex.pairDyn : DBN := ⟨Ex.bn, Ex.bn, [("a", "a"), ("b", "b")]⟩

theorem Ex.pairDyn_ready : Ex.pairDyn.Ready where
  b0 := bn_perfect.tree
  b0_nonneg := bn_nonneg
  b0_connected := bn_connected
  two := bn_perfect.tree
  two_nonneg := bn_nonneg
  two_connected := bn_connected
  targets := by decide
  node := fun tr h => by
    simp only [pairDyn, List.mem_cons, List.not_mem_nil, or_false] at h
    rcases h with rfl | rfl
    · exact ⟨na, by simp [pairDyn, bn], rfl, rfl, rfl, by decide, by decide⟩
    · exact ⟨nb, by simp [pairDyn, bn], rfl, rfl, rfl, by decide, by decide⟩
  source := by decide

theorem Ex.pairDyn_slice (k : Nat) : Ex.pairDyn.slice k = Ex.bn := by
  unfold DBN.slice; split <;> rfl

theorem Ex.pairDyn_allows (k : Nat) {ev : Option (Dict Evidence)} (h : ev = some Ex.ev ∨ ev = none) :
    Ex.pairDyn.Allows k 1000 ev := by
  unfold DBN.Allows
  rw [pairDyn_slice]
  rcases h with rfl | rfl
  · exact ⟨ev_legal, ev_nonneg, by decide⟩
  · exact ⟨legal_nil, by intro v l h; simp at h, by decide⟩

/-- without evidence the two roots are independent -/
theorem Ex.pairDyn_splits : Ex.pairDyn.Splits [[]] := by
  intro past e rest net two he hs σ hσ
  obtain ⟨rfl, h2⟩ : past = [] ∧ [[]] = e :: rest := by
    cases past with
    | nil => exact ⟨rfl, he⟩
    | cons a l => simp at he
  cases h2
  obtain ⟨-, rfl, -⟩ | ⟨h, -⟩ := hs.cases
  · have hroot : ∀ A : Finset Name, A ⊆ {"a", "b"} → (∀ v ∈ A, σ v < bn.card v) →
        sumOver bn.card (bn.names.toFinset \ A) (weight bn []) σ = ∏ v ∈ A, entryOf bn v σ := by
      intro A hA hl
      rw [weight_nil]
      refine sumOver_joint_closed bn_consistent bn_acyclic bn_stochastic (fun v hv => ?_) (fun v hv p hp => ?_) hl
      · have : ({"a", "b"} : Finset Name) ⊆ bn.names.toFinset := by decide
        exact this (hA hv)
      · obtain ⟨n, hn, e, hpn⟩ := hp
        have : ∀ n ∈ bn, n.name ∈ ({"a", "b"} : Finset Name) → n.parentOrder = [] := by decide
        rw [this n hn (e ▸ hA hv)] at hpn
        simp at hpn
    have ha : σ "a" < bn.card "a" := hσ "a" (by decide)
    have hb : σ "b" < bn.card "b" := hσ "b" (by decide)
    have key : ∀ Q : List Name, Q.toFinset ⊆ {"a", "b"} →
        posterior bn [] Q σ = ∏ v ∈ Q.toFinset, entryOf bn v σ := by
      intro Q hQ
      unfold posterior
      simp only
      rw [totalWeight_nil bn_consistent bn_acyclic bn_stochastic, if_pos one_pos, div_one]
      refine hroot _ hQ fun v hv => ?_
      have := hQ hv
      rw [Finset.mem_insert, Finset.mem_singleton] at this
      rcases this with rfl | rfl
      · exact ha
      · exact hb
    change posterior bn [] ["a", "b"] σ = [posterior bn [] ["a"] σ, posterior bn [] ["b"] σ].prod
    rw [key _ (by decide), key _ (by decide), key _ (by decide)]
    simp
  · exact absurd rfl h

example := C70_prior_feedback_partial Ex.pairDyn_ready (by decide) (by decide)
  (ops := [.unroll .insertion 1000 none none, .setEvidence .reversed 1000 (some Ex.ev)])
  ⟨⟨Ex.pairDyn_allows 0 (.inr rfl), by decide⟩, Ex.pairDyn_allows 1 (.inl rfl), trivial⟩ rfl rfl
  Ex.pairDyn_splits

/-- `c` in the second slice after evidence in the first: from prior feedback, and from the unrolled
network -/
def Ex.pairFed : Except PyErr (List ℚ) :=
  ((PriorFeedback.runs [.unroll .insertion 1000 (some [("d", .hard "t")]) none,
    .setEvidence .insertion 1000 none] (.create Ex.pairDyn)).marginals .insertion 1000 ["c"]).2.map
      fun f => f.potentials.data

def Ex.pairUnrolled : Except PyErr (List ℚ) :=
  (VE.naiveMarginals .insertion (Ex.pairDyn.unrolled dotTag 1) [".:c"]
    (taggedEvidence dotTag [[("d", .hard "t")], []])).map fun f => f.potentials.data

/-- **C70 is false for dependent sources**: `a` and `b` are dependent given `d`, but only their marginals
are carried over. -/
theorem C70_two_transitions_refuted : Ex.pairDyn.Ready ∧
    FairHistory Ex.pairDyn ⟨[], none⟩ [.unroll .insertion 1000 (some [("d", .hard "t")]) none,
      .setEvidence .insertion 1000 none] ∧
    Ex.pairFed = .ok [1005001 / 2617068, 1612067 / 2617068] ∧
    posterior (Ex.pairDyn.unrolled dotTag 1) (taggedEvidence dotTag [[("d", .hard "t")], []]) [".:c"]
      (fun _ => 0) = 2063 / 5604 := by
  have hl : LegalEvidence Ex.bn [("d", .hard "t")] :=
    ⟨by decide, by decide, by
      intro v x h
      simp only [List.mem_singleton, Prod.mk.injEq, Evidence.hard.injEq] at h
      obtain ⟨rfl, rfl⟩ := h
      decide, by intro v l h; simp at h⟩
  refine ⟨Ex.pairDyn_ready, ⟨⟨⟨?_, by intro v l h; simp at h, by decide⟩, by decide⟩,
    Ex.pairDyn_allows 1 (.inr rfl), trivial⟩, by decide +kernel, ?_⟩
  · rw [Ex.pairDyn_slice]; exact hl
  · obtain ⟨c1, -, -, -, c5⟩ := C70_unrolled Ex.pairDyn_ready dotTag_tagging 1
    have hle := c5 [[("d", .hard "t")], []] (by simp) (by
      intro j e he
      rw [Ex.pairDyn_slice]
      rcases j with _ | _ | j
      · simp only [List.getElem?_cons_zero, Option.some.injEq] at he
        rw [← he]; exact hl
      · simp only [zero_add, List.getElem?_cons_succ, List.getElem?_cons_zero, Option.some.injEq] at he
        rw [← he]; exact legalEvidence_nil _
      · simp at he)
    obtain ⟨r, r1, r2, r3, r4, r5⟩ := C13_naive_exact .insertion _ c1 _ hle [".:c"] (by decide)
    rw [← r5 (fun _ => 0) (by intro v hv; rw [List.mem_singleton] at hv; subst hv; decide)]
    have : Except.map (fun r : Factor => r.eval fun _ => 0) (VE.naiveMarginals .insertion
        (Ex.pairDyn.unrolled dotTag 1) [".:c"] (taggedEvidence dotTag [[("d", .hard "t")], []])) =
        .ok (2063 / 5604) := by
      decide +kernel
    rw [r1] at this
    injection this

/-- **C70**: prior feedback with one transition and `naive_marginals` on the unrolled network return the
same numbers. -/
theorem C70_naive_partial {d : DBN} (h : d.Ready) {tr : Name × Name}
    (htr : d.transitions = [tr]) {ops : List DynOp}
    (ho : FairHistory d ⟨[], none⟩ ops) {g : Diary} (hg : g = Diary.notes ⟨[], none⟩ ops)
    {s : PriorFeedback} (hs : s = .runs ops (.create d)) {e : Dict Evidence} (he : g.now = some e)
    {tag : Nat → Name → Name} (ht : Tagging tag) {n : NodeV} (hn : n ∈ d.slice g.past.length)
    {vs : List Name} (hvs : ∀ v ∈ vs, v ∈ n.family) (so so' : SetOrder) (limit : Nat) :
    ∃ r r', s.marginals so limit vs = (s, .ok r) ∧
      VE.naiveMarginals so' (d.unrolled tag g.past.length) (vs.map (tag g.past.length))
        (taggedEvidence tag (g.past ++ [e])) = .ok r' ∧
      (∀ v, v ∈ r.variableOrder ↔ v ∈ vs) ∧
      (∀ x, x ∈ r'.variableOrder ↔ x ∈ vs.map (tag g.past.length)) ∧
      ∀ σ, Legal (d.unrolled tag g.past.length).card (vs.map (tag g.past.length)) σ →
        r'.eval σ = r.eval fun v => σ (tag g.past.length v) := by
  obtain ⟨r, r1, -, -, r4, r5⟩ :=
    ((C70_single_transition_partial h htr ho hg hs).1 e he).1 n hn vs hvs so limit
  have hl := ho.legal (Diary.legal_start d)
  rw [← hg] at hl
  obtain ⟨c1, -, -, -, c5⟩ := C70_unrolled h ht g.past.length
  have hle := c5 (g.past ++ [e]) (by simp) (fun j e' he' => by
    rcases getElem?_snoc he' with h' | ⟨rfl, rfl⟩
    · exact (hl.past j e' h').1
    · exact (hl.now e' he).1)
  have hcs : (d.slice g.past.length).Consistent := (h.soft.net _).1.consistent
  obtain ⟨r', q1, -, -, q4, q5⟩ := C13_naive_exact so' _ c1 _ hle (vs.map (tag g.past.length)) (by
    intro x hx
    obtain ⟨v, hv, rfl⟩ := List.mem_map.1 hx
    refine (DBN.tag_mem_unrolled ht).2 ⟨le_rfl, ?_⟩
    have := hvs v hv
    unfold NodeV.family at this
    rcases List.mem_cons.1 this with rfl | hp
    · exact List.mem_map_of_mem hn
    · exact hcs.parents_mem n hn v hp)
  exact ⟨r, r', r1, q1, r4, q4, fun σ hσ => by rw [q5 σ hσ, ← r5 tag ht σ hσ]⟩

example := C70_naive_partial Ex.dyn_ready rfl Ex.dynOps_fair rfl rfl (e := Ex.ev) rfl dotTag_tagging
  (n := Ex.nc) (by rw [Ex.dyn_slice]; simp [Ex.bn]) (vs := ["a", "c"]) (by decide) .insertion .reversed 0

/-! ## soft-evidence feedback -/

theorem DBN.SoftPast.snoc {d : DBN} {es : List (Dict Evidence)} {e : Dict Evidence} (h : d.SoftPast es)
    (h1 : LegalEvidence (d.slice es.length) e)
    (h2 : Supported (d.slice es.length) (overridden (d.carried es) e)) : d.SoftPast (es ++ [e]) := by
  have key : ∀ pre e' post, es ++ [e] = pre ++ e' :: post →
      (∃ post', es = pre ++ e' :: post') ∨ (pre = es ∧ e' = e) := by
    intro pre e' post he
    rcases List.eq_nil_or_concat' post with rfl | ⟨p, x, rfl⟩
    · obtain ⟨h3, h4⟩ := List.append_inj' he rfl
      cases h4
      exact Or.inr ⟨h3.symm, rfl⟩
    · rw [← List.cons_append, ← List.append_assoc] at he
      obtain ⟨h3, -⟩ := List.append_inj' he rfl
      exact Or.inl ⟨p, h3⟩
  refine ⟨fun pre e' post he => ?_, fun pre e' post he => ?_⟩ <;>
    rcases key pre e' post he with ⟨p, hp⟩ | ⟨rfl, rfl⟩
  · exact h.legal pre e' p hp
  · exact h1
  · exact h.sup pre e' p hp
  · exact h2

/-- the evidence of the diary can be entered -/
structure Diary.Soft (d : DBN) (g : Diary) : Prop where
  past : d.SoftPast g.past
  now : ∀ e, g.now = some e → d.SoftPast (g.past ++ [e])

theorem Diary.soft_start (d : DBN) : Diary.Soft d ⟨[], none⟩ :=
  ⟨⟨fun pre e post h => by simp at h, fun pre e post h => by simp at h⟩, fun e h => by cases h⟩

theorem SoftFairHistory.soft {d : DBN} {ops : List DynOp} {g : Diary} (hg : g.Soft d)
    (ho : SoftFairHistory d g ops) : (g.notes ops).Soft d := by
  induction ops generalizing g with
  | nil => exact hg
  | cons op ops ih =>
    refine ih (g := g.note op) ?_ ho.2
    have hop := ho.1
    cases op with
    | setEvidence so limit ev =>
      exact ⟨hg.past, fun e he => by
        injection he with he; subst he; exact hg.past.snoc hop.1 hop.2.1⟩
    | unroll so limit ev soft =>
      exact ⟨hg.past.snoc hop.1.1 hop.1.2.1, fun e he => by cases he⟩
    | marginals so limit vs => exact hg

theorem DBN.Spares.split {d : DBN} {pre post : List (Dict Evidence)} {e : Dict Evidence}
    (h : d.Spares (pre ++ e :: post)) : d.Spares (pre ++ [e]) := by
  intro j e' hj he
  refine h j e' hj ?_
  rw [show pre ++ e :: post = (pre ++ [e]) ++ post by simp, List.getElem?_append_left]
  · exact he
  · by_contra hc
    rw [List.getElem?_eq_none (by omega)] at he
    simp at he

theorem DBN.SoftPast.legal_softened {d : DBN} (h : d.Ready) {es : List (Dict Evidence)}
    (hes : d.SoftPast es) (hsp : d.Spares es) : ∀ j e, (d.softenedAll es)[j]? = some e →
      LegalEvidence (d.slice j) e ∧ NonNegEvidence e := by
  intro j e he
  unfold softenedAll at he
  rw [List.getElem?_mapIdx] at he
  obtain ⟨e0, he0, rfl⟩ := Option.map_eq_some_iff.1 he
  obtain ⟨hj, hj'⟩ := List.getElem?_eq_some_iff.1 he0
  have hsplit : es = es.take j ++ e0 :: es.drop (j + 1) := by
    rw [← hj', List.cons_getElem_drop_succ, List.take_append_drop]
  have hlen : (es.take j).length = j := by simp; omega
  have h1 := hes.legal _ _ _ hsplit
  have h2 := hes.sup _ _ _ hsplit
  rw [hsplit] at hsp
  rw [hsp.split.overridden] at h2
  rw [hlen] at h1 h2
  exact ⟨h1.softened, NonNegEvidence.softened (h.soft.net j).2.1 fun v l hm =>
    h2 v l (List.mem_append_left _ hm)⟩

theorem Filters.of_soft {S : Type} {q : SetOrder → Nat → List Name → S × Except PyErr Factor}
    {q' : SetOrder → Nat → Name → S × Except PyErr (Dict ℚ)} {s : S} {d : DBN} (h : d.Ready)
    (hac : d.twoTbn.Acyclic) (hst : d.twoTbn.Stochastic) (hne : d.transitions ≠ [])
    (hsn : (d.transitions.map Prod.snd).Nodup) {past : List (Dict Evidence)} {e : Dict Evidence}
    (hes : d.SoftPast (past ++ [e])) (hspa : d.Spares (past ++ [e]))
    (hsp : d.Splits (d.softenedAll past))
    (ha : Answers q s (d.slice past.length)
      (softened (d.slice past.length) (overridden (d.carried past) e)))
    (ha' : AnswersDict q' s (d.slice past.length)
      (softened (d.slice past.length) (overridden (d.carried past) e))) :
    Filters q s d past.length (d.softenedAll (past ++ [e])) ∧
      FiltersDict q' s d past.length (d.softenedAll (past ++ [e])) := by
  obtain ⟨net, two, hs, hg, -, hpost⟩ := soft_prior h hac hst past e hes hspa
  obtain ⟨-, -, -, hbare, -⟩ := hg.net h hs
  rw [d.softenedAll_length] at hbare
  have hleg := hes.legal_softened h hspa
  have hlp : ∀ j e, (d.softenedAll past)[j]? = some e → LegalEvidence (d.slice j) e ∧ NonNegEvidence e :=
    hes.init.legal_softened h hspa.init
  have hen : NonNegEvidence (softened (d.slice past.length) e) :=
    (hleg past.length _ (by rw [d.softenedAll_snoc, ← d.softenedAll_length past]; simp)).2
  have h1 : Answers q s net (softened (d.slice past.length) e) := by
    intro n hn vs hvs so limit
    obtain ⟨m, hm, e1, -, -, e4, -⟩ := BN.mem_bare hbare hn
    obtain ⟨r, r1, r2, r3, r4, r5⟩ := ha m hm vs (fun v hv => by
      have := hvs v hv
      unfold NodeV.family at this ⊢
      rw [e1, e4]; exact this) so limit
    rw [← BN.card_of_bare hbare] at r2 r5
    rw [← BN.lab_of_bare hbare] at r3
    exact ⟨r, r1, r2, r3, r4, fun σ hσ => by rw [r5 σ hσ, hpost vs σ hσ]⟩
  have h2 : AnswersDict q' s net (softened (d.slice past.length) e) := by
    intro v hv so limit
    rw [BN.names_of_bare hbare] at hv
    rw [ha' v hv so limit, ← BN.lab_of_bare hbare, ← BN.card_of_bare hbare]
    congr 3
    refine List.map_congr_left fun i hi => hpost _ _ ?_
    simpa [Legal] using hi
  have f1 := Filters.of_slices h hne hsn hs hlp hsp hen h1
  have f2 := FiltersDict.of_slices h hne hsn hs hlp hsp hen h2
  rw [← d.softenedAll_snoc, d.softenedAll_length] at f1 f2
  exact ⟨f1, f2⟩

/-- **C70 for soft-evidence feedback, partial.**  After any history of calls with evidence that can be
entered: if the tables of the two-slice network are normalised, its targets have no parents and are not
given evidence themselves, and in every slice left the joint posterior of the transition sources is the
product of their marginals, queries return the posterior of the unrolled network under all evidence so
far; arrays are read as posteriors to be produced within their slice (`softenedAll`).  Missing:
dependent sources, evidence on targets (discarded: refuted below), networks without exact trees. -/
theorem C70_soft_feedback_partial {d : DBN} (h : d.Ready) (hac : d.twoTbn.Acyclic)
    (hst : d.twoTbn.Stochastic) (hne : d.transitions ≠ [])
    (hsn : (d.transitions.map Prod.snd).Nodup) {ops : List DynOp}
    (ho : SoftFairHistory d ⟨[], none⟩ ops) {g : Diary} (hg : g = Diary.notes ⟨[], none⟩ ops)
    {s : SoftFeedback} (hs : s = .runs ops (.create d)) (hsp : d.Splits (d.softenedAll g.past)) :
    (∀ e, g.now = some e → d.Spares (g.past ++ [e]) →
      Filters (fun so limit vs => s.marginals so limit vs) s d g.past.length
        (d.softenedAll (g.past ++ [e])) ∧
      FiltersDict (fun so limit v => s.marginalProbabilities so limit v) s d g.past.length
        (d.softenedAll (g.past ++ [e]))) ∧
    (g.now = none → ∀ past e, g.past = past ++ [e] → d.Spares g.past →
      Filters (fun so limit vs => s.marginals so limit vs) s d past.length (d.softenedAll g.past) ∧
      FiltersDict (fun so limit v => s.marginalProbabilities so limit v) s d past.length
        (d.softenedAll g.past)) := by
  obtain ⟨-, -, -, -, h5, h6⟩ := C48_soft_feedback_partial h.soft ho hg hs
  have hl := ho.soft (Diary.soft_start d)
  rw [← hg] at hl
  refine ⟨fun e he hspa => ?_, fun hn past e hp hspa => ?_⟩
  · obtain ⟨a1, a2⟩ := h5 e he
    exact Filters.of_soft h hac hst hne hsn (hl.now e he) hspa hsp a1 a2
  · rcases h6 hn with ⟨h7, -⟩ | ⟨past', e', h7, a1, a2⟩
    · rw [h7] at hp; simp at hp
    · obtain ⟨rfl, h9⟩ := List.append_inj' (hp.symm.trans h7) rfl
      cases h9
      have hpast := hl.past
      rw [hp] at hpast hspa hsp ⊢
      rw [d.softenedAll_snoc] at hsp
      exact Filters.of_soft h hac hst hne hsn hpast hspa hsp.init a1 a2

/-- observed outcomes only -/
def HardOnly (e : Dict Evidence) : Prop := ∀ p ∈ e, ∃ x, p.2 = .hard x

theorem DBN.softenedAll_hard {d : DBN} {es : List (Dict Evidence)} (h : ∀ e ∈ es, HardOnly e) :
    d.softenedAll es = es := by
  unfold softenedAll
  refine List.ext_getElem (by simp) fun j h1 h2 => ?_
  rw [List.getElem_mapIdx]
  unfold softened
  conv_rhs => rw [← List.map_id es[j]]
  refine List.map_congr_left fun p hp => ?_
  obtain ⟨x, hx⟩ := h _ (List.getElem_mem h2) p hp
  obtain ⟨v, y⟩ := p
  dsimp only at hx ⊢
  rw [hx]; rfl

/-- **C70: both methods agree**, for any number of transitions and dependent sources too: after the same
history of calls with observed outcomes only, none on a transition target after the first slice,
`PriorFeedbackExact` and `SoftEvidenceExact` return the same marginals, if the tables of the two-slice
network are normalised and its targets have no parents.  Partial: networks without exact trees are
missing. -/
theorem C70_methods_agree_partial {d : DBN} (h : d.Ready) (hac : d.twoTbn.Acyclic)
    (hst : d.twoTbn.Stochastic) {ops : List DynOp} (ho : SoftFairHistory d ⟨[], none⟩ ops)
    (ho' : FairHistory d ⟨[], none⟩ ops) {g : Diary} (hg : g = Diary.notes ⟨[], none⟩ ops)
    {s : SoftFeedback} (hs : s = .runs ops (.create d))
    {s' : PriorFeedback} (hs' : s' = .runs ops (.create d)) {e : Dict Evidence} (he : g.now = some e)
    (hspa : d.Spares (g.past ++ [e])) (hh : ∀ e' ∈ g.past ++ [e], HardOnly e')
    {n : NodeV} (hn : n ∈ d.slice g.past.length) {vs : List Name} (hvs : ∀ v ∈ vs, v ∈ n.family)
    (so so' : SetOrder) (limit limit' : Nat) :
    ∃ r r', s.marginals so limit vs = (s, .ok r) ∧ s'.marginals so' limit' vs = (s', .ok r') ∧
      (∀ v, v ∈ r.variableOrder ↔ v ∈ vs) ∧ (∀ v, v ∈ r'.variableOrder ↔ v ∈ vs) ∧
      ∀ σ, Legal (d.slice g.past.length).card vs σ → r.eval σ = r'.eval σ := by
  obtain ⟨-, -, -, -, h5, -⟩ := C48_soft_feedback_partial h.soft ho hg hs
  obtain ⟨net', two', k1, -, -, -, k5, -⟩ := C47_prior_feedback_partial h ho' hg hs'
  have hl := ho.soft (Diary.soft_start d)
  rw [← hg] at hl
  obtain ⟨net, two, hsl, hgood, -, hpost⟩ := soft_prior h hac hst g.past e (hl.now e he) hspa
  rw [DBN.softenedAll_hard fun e' he' => hh e' (by simp [he'])] at hsl
  obtain ⟨rfl, rfl⟩ := C47_slices_unique h.two.consistent.nodup hsl k1
  obtain ⟨-, -, -, hbare, -⟩ := hgood.net h hsl
  have hsoft : softened (d.slice g.past.length) e = e := by
    have h1 := d.softenedAll_snoc g.past e
    rw [DBN.softenedAll_hard hh, DBN.softenedAll_hard fun e' he' => hh e' (by simp [he'])] at h1
    have := List.append_cancel_left h1
    injection this with this
    exact this.symm
  rw [hsoft] at hpost
  obtain ⟨r, r1, -, -, r4, r5⟩ := (h5 e he).1 n hn vs hvs so limit
  obtain ⟨m, hm, e1, -, -, e4, -⟩ := BN.mem_bare hbare.symm hn
  obtain ⟨r', q1, -, -, q4, q5⟩ := (k5 e he).1 m hm vs (fun v hv => by
    have := hvs v hv
    unfold NodeV.family at this ⊢
    rw [e1, e4]; exact this) so' limit'
  refine ⟨r, r', r1, q1, r4, q4, fun σ hσ => ?_⟩
  have hσ' : Legal net.card vs σ := by rw [BN.card_of_bare hbare]; exact hσ
  rw [r5 σ hσ, q5 σ hσ', hpost vs σ hσ']

/-- **C70 for soft-evidence feedback and one transition, partial** (no condition on independence). -/
theorem C70_soft_single_transition_partial {d : DBN} (h : d.Ready) (hac : d.twoTbn.Acyclic)
    (hst : d.twoTbn.Stochastic) {tr : Name × Name} (htr : d.transitions = [tr]) {ops : List DynOp}
    (ho : SoftFairHistory d ⟨[], none⟩ ops) {g : Diary} (hg : g = Diary.notes ⟨[], none⟩ ops)
    {s : SoftFeedback} (hs : s = .runs ops (.create d)) :
    (∀ e, g.now = some e → d.Spares (g.past ++ [e]) →
      Filters (fun so limit vs => s.marginals so limit vs) s d g.past.length
        (d.softenedAll (g.past ++ [e])) ∧
      FiltersDict (fun so limit v => s.marginalProbabilities so limit v) s d g.past.length
        (d.softenedAll (g.past ++ [e]))) ∧
    (g.now = none → ∀ past e, g.past = past ++ [e] → d.Spares g.past →
      Filters (fun so limit vs => s.marginals so limit vs) s d past.length (d.softenedAll g.past) ∧
      FiltersDict (fun so limit v => s.marginalProbabilities so limit v) s d past.length
        (d.softenedAll g.past)) :=
  C70_soft_feedback_partial h hac hst (by rw [htr]; simp) (by rw [htr]; simp) ho hg hs (.single htr _)

namespace Ex

/-- an observed outcome -/
def hardEv : Dict Evidence := [("d", .hard "t")]

theorem hardEv_legal : LegalEvidence bn hardEv :=
  ⟨by decide, by decide, by
    intro v x h
    simp only [hardEv, List.mem_singleton, Prod.mk.injEq, Evidence.hard.injEq] at h
    obtain ⟨rfl, rfl⟩ := h
    decide, by intro v l h; simp [hardEv] at h⟩

theorem hard_first : SoftFairHistory dyn ⟨[], none⟩ [.unroll .insertion 1000 (some hardEv) none] := by
  refine ⟨⟨⟨hardEv_legal, ?_, by decide⟩, rfl⟩, trivial⟩
  intro v l h
  have h' : (v, Evidence.soft l) ∈ hardEv := h
  simp [hardEv] at h'

theorem carried_hard : dyn.carried [hardEv] = [("a", [43 / 467, 424 / 467])] := by
  refine Eq.trans (C48_soft_feedback_partial dyn_softReady hard_first rfl rfl).2.2.1.symm ?_
  decide +kernel

theorem hard_second : SoftFairHistory dyn ⟨[], none⟩ [.unroll .insertion 1000 (some hardEv) none,
    .setEvidence .reversed 1000 (some hardEv)] := by
  refine ⟨hard_first.1, ⟨hardEv_legal, ?_, by decide⟩, trivial⟩
  show Supported bn (overridden (dyn.carried [hardEv]) hardEv)
  rw [carried_hard]
  intro v e h
  have h' : (v, Evidence.soft e) ∈
    [("d", Evidence.hard "t"), ("a", Evidence.soft [43 / 467, 424 / 467])] := h
  simp only [List.mem_cons, List.not_mem_nil, or_false, Prod.mk.injEq, Evidence.soft.injEq,
    reduceCtorEq, and_false, false_or] at h'
  obtain ⟨rfl, rfl⟩ := h'
  exact ⟨by decide +kernel, ⟨43 / 467, by simp, by norm_num⟩, fun i hi h => absurd h (prior_a i hi)⟩

theorem hard_fair : FairHistory dyn ⟨[], none⟩ [.unroll .insertion 1000 (some hardEv) none,
    .setEvidence .reversed 1000 (some hardEv)] := by
  refine ⟨⟨⟨hardEv_legal, by intro v l h; simp [hardEv] at h, by decide⟩, by decide⟩,
    ⟨?_, by intro v l h; simp [hardEv] at h, by decide⟩, trivial⟩
  rw [dyn_slice]; exact hardEv_legal

theorem spares_hard : dyn.Spares [hardEv, hardEv] := by
  intro j e _ he tr htr
  have he' := List.mem_of_getElem? he
  simp only [List.mem_cons, List.not_mem_nil, or_false, or_self] at he'
  subst he'
  revert htr
  revert tr
  decide

theorem spares_soft : dyn.Spares [softEv, []] := by
  intro j e hj he tr htr
  rcases j with _ | _ | j
  · omega
  · simp only [zero_add, List.getElem?_cons_succ, List.getElem?_cons_zero, Option.some.injEq] at he
    subst he; simp [Dict.keys]
  · simp at he

end Ex

example := (C70_soft_single_transition_partial Ex.dyn_ready Ex.bn_acyclic Ex.bn_stochastic rfl
  Ex.soft_second rfl rfl).1 [] rfl Ex.spares_soft

example := (C70_soft_feedback_partial Ex.dyn_ready Ex.bn_acyclic Ex.bn_stochastic (by decide) (by decide)
  Ex.hard_second rfl rfl (.single rfl _)).1 Ex.hardEv rfl Ex.spares_hard

example := C70_methods_agree_partial Ex.dyn_ready Ex.bn_acyclic Ex.bn_stochastic Ex.hard_second
  Ex.hard_fair rfl rfl rfl (e := Ex.hardEv) rfl Ex.spares_hard
  (by intro e h
      simp only [Diary.notes, Diary.note, List.foldl_cons, List.foldl_nil] at h
      have h' : e = Ex.hardEv := by simpa using h
      subst h'
      intro p hp
      simp only [Ex.hardEv, List.mem_singleton] at hp
      subst hp
      exact ⟨_, rfl⟩)
  (n := Ex.nc) (by rw [Ex.dyn_slice]; simp [Ex.bn]) (vs := ["a", "c"]) (by decide) .insertion .reversed 0 9

/-- the target `a` observed in the second slice -/
def Ex.targetOps : List DynOp := [.unroll .insertion 1000 (some Ex.hardEv) none,
  .setEvidence .insertion 1000 (some [("a", .hard "f")])]

/-- **C70 is false of soft-evidence feedback with evidence on a transition target**: the observation
`a = f` is dropped without notice in favour of the posterior carried over; prior feedback and the unrolled
network keep it. -/
theorem C70_soft_target_refuted :
    ((SoftFeedback.runs Ex.targetOps (.create Ex.dyn)).marginals .insertion 1000 ["a"]).2.map
      (fun r => r.potentials.data) = .ok [43 / 467, 424 / 467] ∧
    ((PriorFeedback.runs Ex.targetOps (.create Ex.dyn)).marginals .insertion 1000 ["a"]).2.map
      (fun r => r.potentials.data) = .ok [0, 1] ∧
    (VE.naiveMarginals .insertion (Ex.dyn.unrolled dotTag 1) [".:a"]
      (taggedEvidence dotTag [Ex.hardEv, [("a", .hard "f")]])).map
      (fun r => r.potentials.data) = .ok [0, 1] := by
  decide +kernel

end Primo
