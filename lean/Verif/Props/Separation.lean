import Verif.Lemmas.Separation
import Verif.Lemmas.NetView
import Verif.Props.JoinTree
import Verif.Props.Network
import Verif.Examples.Tree

/-! # C71, C72: what the answers do not depend on -/

namespace Primo
open Net

/-- `r` is what one of the exact methods returns for the query `Q` under the evidence `ev`:
`naive_marginals`, `bucket_marginals` with a given or the default order, or a factor tree that is exact
(C21). -/
inductive ExactAnswer (bn : BN) (ev : Dict Evidence) (Q : List Name) (r : Factor) : Prop
  | naive (so : SetOrder) : VE.naiveMarginals so bn Q ev = .ok r → ExactAnswer bn ev Q r
  | bucket (so : SetOrder) (o : List Name) : Q.Nodup → o.Perm bn.names →
      VE.bucketMarginals so bn Q ev (some o) = .ok r → ExactAnswer bn ev Q r
  | default (so : SetOrder) : Q.Nodup → bn.Linked → VE.bucketMarginals so bn Q ev none = .ok r →
      ExactAnswer bn ev Q r
  | tree (order0 : Option (List Name)) (so₁ so₂ so₃ : SetOrder) (limit limit' : Nat) (t t' : JTree) :
      TreeSetup bn order0 → bn.Connected → bn.length ≤ limit → JoinTree.create so₁ bn order0 = .ok t →
      t.setEvidence so₂ limit bn ev false = (t', none) → t'.Covers Q →
      (t'.marginals so₃ limit' Q).2 = .ok r → ExactAnswer bn ev Q r

theorem ExactAnswer.spec {bn : BN} (hc : bn.Consistent) (hn : bn.NonNeg) {ev : Dict Evidence}
    (he : LegalEvidence bn ev) (hen : NonNegEvidence ev) {Q : List Name} (hQ : ∀ v ∈ Q, v ∈ bn.names)
    {r : Factor} (h : ExactAnswer bn ev Q r) : (∀ v, v ∈ r.variableOrder ↔ v ∈ Q) ∧
      ∀ σ, Legal bn.card Q σ → r.eval σ = posterior bn ev Q σ := by
  cases h with
  | naive so h =>
    obtain ⟨r', h1, -, -, h3, h4⟩ := C13_naive_exact so bn hc ev he Q hQ
    rw [h] at h1; cases h1; exact ⟨h3, h4⟩
  | bucket so o hQn ho h =>
    obtain ⟨r', h1, -, -, h3, h4⟩ := C14_bucket_exact so bn hc ev he Q hQn hQ o ho
    rw [h] at h1; cases h1; exact ⟨h3, h4⟩
  | default so hQn hl h =>
    obtain ⟨r', h1, -, -, h3, h4⟩ := C14_bucket_exact_default so bn hc hl ev he Q hQn hQ
    rw [h] at h1; cases h1; exact ⟨h3, h4⟩
  | tree order0 so₁ so₂ so₃ limit limit' t t' hs hco hl h1 h2 h3 h4 =>
    obtain ⟨t₁, t₁', a1, a2, -, a4⟩ := C21_tree_exact_partial hs hn hco he hen hl so₁ so₂
    rw [h1] at a1; cases a1
    rw [h2] at a2; cases a2
    obtain ⟨r', r1, -, -, r4, r5, -⟩ := a4 Q h3 so₃ limit'
    rw [r1] at h4
    cases h4
    exact ⟨r4, r5⟩

/-! ## C71 -/

/-- **C71, partial.**  If two networks have the query variables, the variables with evidence and all
ancestors of these in common, with their tables, then every exact method gives the same answer on both.
Everything else may differ.  Missing: networks in which some column of a table does not sum to one
(refuted below). -/
theorem C71_relevant_partial {bn bn' : BN} (hc : bn.Consistent) (hc' : bn'.Consistent) (ha : bn.Acyclic)
    (ha' : bn'.Acyclic) (hs : bn.Stochastic) (hs' : bn'.Stochastic) (hn : bn.NonNeg) (hn' : bn'.NonNeg)
    {ev : Dict Evidence} (he : LegalEvidence bn ev) (hen : NonNegEvidence ev) {Q : List Name}
    (hQ : ∀ v ∈ Q, v ∈ bn.names) (hk : bn.Keeps bn' (Q ++ ev.keys)) :
    LegalEvidence bn' ev ∧ (∀ v ∈ Q, v ∈ bn'.names ∧ bn'.lab v = bn.lab v) ∧
      ∀ r r', ExactAnswer bn ev Q r → ExactAnswer bn' ev Q r' → SameTable bn.card r r' := by
  have hvs : ∀ v ∈ Q ++ ev.keys, v ∈ bn.names := by
    intro v hv
    rcases List.mem_append.1 hv with hv | hv
    · exact hQ v hv
    · obtain ⟨p, hp, rfl⟩ := List.mem_map.1 hv
      exact he.mem p hp
  have hev : ∀ v ∈ ev.keys, v ∈ Q ++ ev.keys := fun v hv => List.mem_append_right _ hv
  have he' := hk.legal hc hc' hev hvs he
  have hQr : ∀ v ∈ Q, v ∈ bn.relevantSet (Q ++ ev.keys) := fun v hv =>
    BN.mem_relevantSet.2 ⟨hQ v hv, .self (List.mem_append_left _ hv)⟩
  have hQ' : ∀ v ∈ Q, v ∈ bn'.names ∧ bn'.lab v = bn.lab v := fun v hv =>
    ⟨(hk.relevant hc hc' (BN.mem_relevantSet.1 (hQr v hv))).1, hk.lab hc hc' (hQr v hv)⟩
  refine ⟨he', hQ', fun r r' h h' => ?_⟩
  obtain ⟨a1, a2⟩ := h.spec hc hn he hen hQ
  obtain ⟨b1, b2⟩ := h'.spec hc' hn' he' hen fun v hv => (hQ' v hv).1
  refine ⟨fun v => by rw [a1, b1], fun σ hσ => ?_⟩
  have hσ1 : Legal bn.card Q σ := fun v hv => hσ v ((a1 v).2 hv)
  have hσ2 : Legal bn'.card Q σ := fun v hv => by
    rw [BN.card, (hQ' v hv).2]; exact hσ1 v hv
  rw [a2 σ hσ1, b2 σ hσ2, hk.posterior hc hc' ha ha' hs hs' hvs he hev
    (fun v hv => List.mem_append_left _ hv) hσ1]

/-! ### removing a node -/

theorem Net.view_find {s : Net} (h : s.Inv) {k : Name} {i : Nat} (hk : s.getNode k = .ok i) :
    s.objView i ∈ s.view ∧ (s.objView i).name = k := by
  rw [getNode_ok] at hk
  exact ⟨(mem_view h).2 ⟨k, i, hk, rfl⟩, (h.name k i hk).2⟩

/-- **C71** Removing a childless node that is neither queried nor observed changes no answer.  `s` is any
state that good calls have built, with usable, acyclic tables that sum to one. -/
theorem C71_remove_leaf (ops : List Op) (hg : GoodRun ops Net.empty) {s s' : Net}
    (hs : s = run ops Net.empty) (hu : s.Usable) (ha : s.view.Acyclic) (hst : s.view.Stochastic)
    (hnn : s.view.NonNeg) {k : Name} {i : Nat} (hk : s.getNode k = .ok i) (hleaf : s.succOf k = [])
    (hs' : s' = (step (.removeNode k) s).1) {ev : Dict Evidence} (he : LegalEvidence s.view ev)
    (hen : NonNegEvidence ev) (hkev : k ∉ ev.keys) {Q : List Name} (hQ : ∀ v ∈ Q, v ∈ s.view.names)
    (hkQ : k ∉ Q) :
    (step (.removeNode k) s).2 = none ∧ s'.getNode k = .error .exception ∧
      (∃ r', ExactAnswer s'.view ev Q r') ∧
      ∀ r r', ExactAnswer s.view ev Q r → ExactAnswer s'.view ev Q r' → SameTable s.view.card r r' := by
  have hinv : s.Inv := hs ▸ Inv.empty.run hg
  have hcoh : s.Coherent := hs ▸ C30_coherent_partial ops hg
  have hpar : ∀ c j, s.getNode c = .ok j → k ∉ (s.heap j).parentOrder := by
    intro c j hc hp
    have h1 := ((hcoh.incoming c j hc).2.mem_iff).1 hp
    have h2 := (hcoh.mirror k c).2 h1
    rw [hleaf] at h2
    simp at h2
  have hgood : GoodRun (ops ++ [.removeNode k]) Net.empty := by
    refine goodRun_append.2 ⟨hg, fun c j hc hp => ?_, trivial⟩
    rw [← hs] at hc hp
    exact absurd hp (hpar c j (getNode_ok.2 hc))
  have hrun : s' = run (ops ++ [.removeNode k]) Net.empty := by rw [run_snoc, ← hs, hs']
  have hinv' : s'.Inv := hrun ▸ Inv.empty.run hgood
  subst hs
  obtain ⟨e1, e2, -, -, e5, -, -⟩ := C34_remove_node_partial ops hg k i hk (fun c j hc hp =>
    absurd hp (hpar c j hc))
  set s := run ops Net.empty with hsdef
  rw [← hs'] at e2 e5
  have hget : ∀ c j, s'.getNode c = .ok j → c ≠ k ∧ s.getNode c = .ok j ∧ s'.heap j = s.heap j := by
    intro c j hc
    rw [e2] at hc
    split at hc
    · cases hc
    · rename_i hne
      exact ⟨hne, hc, (e5 c j hc).2 (hpar c j hc)⟩
  have hget' : ∀ c j, c ≠ k → s.getNode c = .ok j → s'.getNode c = .ok j := fun c j hne hc => by
    rw [e2, if_neg hne, hc]
  have hu' : s'.Usable := fun c j hc => by
    obtain ⟨-, h2, h3⟩ := hget c j hc
    rw [h3]; exact hu c j h2
  have hc := (C30_usable_consistent ops hg hu).1
  have hc' := (C30_usable_consistent _ hgood (hrun ▸ hu')).1
  rw [← hrun] at hc'
  have hnode : ∀ n ∈ s'.view, ∃ m ∈ s.view, m.name = n.name ∧ m.values = n.values ∧
      m.parentOrder = n.parentOrder ∧ m.cpd = n.cpd := by
    intro n hn
    obtain ⟨c, j, hj, rfl⟩ := (mem_view hinv').1 hn
    obtain ⟨-, h2, h3⟩ := hget c j (getNode_ok.2 hj)
    refine ⟨s.objView j, (Net.view_find hinv h2).1, ?_, ?_, ?_, ?_⟩ <;> simp only [objView, h3]
  have hkeep : ∀ n ∈ s.view, n.name ≠ k → ∃ m ∈ s'.view, m.name = n.name ∧ m.values = n.values ∧
      m.parentOrder = n.parentOrder ∧ m.cpd = n.cpd := by
    intro n hn hne
    obtain ⟨c, j, hj, rfl⟩ := (mem_view hinv).1 hn
    have hcn : (s.objView j).name = c := (Net.view_find hinv (getNode_ok.2 hj)).2
    have h2 := hget' c j (hcn ▸ hne) (getNode_ok.2 hj)
    have h3 := (hget c j h2).2.2
    refine ⟨s'.objView j, (Net.view_find hinv' h2).1, ?_, ?_, ?_, ?_⟩ <;> simp only [objView, h3]
  have hparent : ∀ p v, s'.view.IsParent p v → s.view.IsParent p v := by
    rintro p v ⟨n, hn, rfl, hp⟩
    obtain ⟨m, hm, a1, -, a3, -⟩ := hnode n hn
    exact ⟨m, hm, a1, a3 ▸ hp⟩
  have ha' : s'.view.Acyclic := fun v hv => ha v (Relation.TransGen.mono (fun p q h => hparent p q h) _ _ hv)
  have hlab : ∀ v ∈ s'.view.names, s'.view.lab v = s.view.lab v := by
    intro v hv
    obtain ⟨n, hn, rfl⟩ := BN.exists_of_mem_names hv
    obtain ⟨m, hm, a1, a2, -, -⟩ := hnode n hn
    rw [BN.lab_eq hc'.nodup hn, ← a1, BN.lab_eq hc.nodup hm, a2]
  have hst' : s'.view.Stochastic := by
    intro n hn σ hσ
    obtain ⟨m, hm, -, a2, a3, a4⟩ := hnode n hn
    rw [← a2, ← a3, ← a4]
    refine hst m hm σ fun p hp => ?_
    rw [a3] at hp
    have := hσ p hp
    rwa [BN.card, hlab p (hc'.parents_mem n hn p hp)] at this
  have hnn' : s'.view.NonNeg := fun n hn => by
    obtain ⟨m, hm, -, -, -, a4⟩ := hnode n hn
    rw [← a4]; exact hnn m hm
  have hch : ∀ c, ¬ s.view.IsParent k c := by
    rintro c ⟨n, hn, rfl, hp⟩
    obtain ⟨c, j, hj, rfl⟩ := (mem_view hinv).1 hn
    exact hpar c j (getNode_ok.2 hj) hp
  have hk' : s.view.Keeps s'.view (Q ++ ev.keys) := by
    rintro n hn ⟨w, hw, hr⟩
    refine hkeep n hn fun e => ?_
    rw [e] at hr
    rcases Relation.ReflTransGen.cases_head hr with rfl | ⟨c, h, -⟩
    · rcases List.mem_append.1 hw with h | h
      · exact hkQ h
      · exact hkev h
    · exact hch c h
  obtain ⟨b1, b2, b3⟩ := C71_relevant_partial hc hc' ha ha' hst hst' hnn hnn' he hen hQ hk'
  obtain ⟨r', hr', -⟩ := C13_naive_exact .insertion _ hc' ev b1 Q fun v hv => (b2 v hv).1
  exact ⟨e1, by rw [e2, if_pos rfl], ⟨r', .naive _ hr'⟩, b3⟩

/-- a node whose table was never set makes all answers 0 -/
theorem C71_unset_table_refuted : ∃ ops ops', GoodRun ops Net.empty ∧ GoodRun (ops ++ ops') Net.empty ∧
    (run (ops ++ ops') Net.empty).Usable ∧
    (run ops Net.empty).view.Keeps (run (ops ++ ops') Net.empty).view ["a"] ∧
    (VE.naiveMarginals .insertion (run ops Net.empty).view ["a"] []).map (fun r => r.potentials.data) =
      .ok [1 / 4, 3 / 4] ∧
    (VE.naiveMarginals .insertion (run (ops ++ ops') Net.empty).view ["a"] []).map
      (fun r => r.potentials.data) = .ok [0, 0] := by
  refine ⟨[.create .discrete "a" ["t", "f"], .addNode 0, .setCpd 0 ⟨[2], [1 / 4, 3 / 4], rfl⟩],
    [.create .discrete "b" ["t", "f"], .addNode 1, .addEdge "a" "b"], goodRun_of_check (by decide +kernel),
    goodRun_of_check (by decide +kernel), usable_of_check (by decide +kernel), ?_, by decide +kernel,
    by decide +kernel⟩
  intro n hn _
  have : ∀ n ∈ (run [.create .discrete "a" ["t", "f"], .addNode 0,
      .setCpd 0 ⟨[2], [1 / 4, 3 / 4], rfl⟩] Net.empty).view,
      ∃ m ∈ (run ([.create .discrete "a" ["t", "f"], .addNode 0,
        .setCpd 0 ⟨[2], [1 / 4, 3 / 4], rfl⟩] ++ [.create .discrete "b" ["t", "f"], .addNode 1,
        .addEdge "a" "b"]) Net.empty).view, m.name = n.name ∧ m.values = n.values ∧
        m.parentOrder = n.parentOrder ∧ m.cpd = n.cpd := by decide +kernel
  exact this n hn

/-! ## C72 -/

/-- **C72** If the evidence d-separates `R` from `Q`, the joint answer for `Q` and `R` is the product of
the two single answers, whichever exact methods are asked. -/
theorem C72_independent {bn : BN} (hc : bn.Consistent) (ha : bn.Acyclic) (hs : bn.Stochastic)
    (hn : bn.NonNeg) {ev : Dict Evidence} (he : LegalEvidence bn ev) (hen : NonNegEvidence ev)
    {Q R : List Name} (hQ : ∀ v ∈ Q, v ∈ bn.names) (hR : ∀ v ∈ R, v ∈ bn.names)
    (hd : bn.DSeparated ev Q R) {f g h : Factor} (hf : ExactAnswer bn ev (Q ++ R) f)
    (hg : ExactAnswer bn ev Q g) (hh : ExactAnswer bn ev R h) :
    ∀ σ, Legal bn.card (Q ++ R) σ → f.eval σ = g.eval σ * h.eval σ := by
  intro σ hσ
  have hQR : ∀ v ∈ Q ++ R, v ∈ bn.names := fun v hv => (List.mem_append.1 hv).elim (hQ v) (hR v)
  rw [(hf.spec hc hn he hen hQR).2 σ hσ,
    (hg.spec hc hn he hen hQ).2 σ fun v hv => hσ v (List.mem_append_left _ hv),
    (hh.spec hc hn he hen hR).2 σ fun v hv => hσ v (List.mem_append_right _ hv)]
  exact hd.splits hc ha hs hn he hen hQ hR hσ

/-- **C72** Further evidence, of either kind, on variables that are d-separated from the query by the
evidence so far does not change the answer (unless it contradicts the evidence so far). -/
theorem C72_more_evidence {bn : BN} (hc : bn.Consistent) (ha : bn.Acyclic) (hs : bn.Stochastic)
    (hn : bn.NonNeg) {ev ev' : Dict Evidence} (he : LegalEvidence bn (ev ++ ev'))
    (hen : NonNegEvidence (ev ++ ev')) {Q : List Name} (hQ : ∀ v ∈ Q, v ∈ bn.names)
    (hd : bn.DSeparated ev Q ev'.keys) {σ₀ : Assign} (hZ : 0 < totalWeight bn (ev ++ ev') σ₀)
    {f g : Factor} (hf : ExactAnswer bn ev Q f) (hg : ExactAnswer bn (ev ++ ev') Q g) :
    SameTable bn.card f g := by
  have hen1 : NonNegEvidence ev := fun v l h => hen v l (List.mem_append_left _ h)
  obtain ⟨f1, f2⟩ := hf.spec hc hn he.append_left hen1 hQ
  obtain ⟨g1, g2⟩ := hg.spec hc hn he hen hQ
  refine ⟨fun v => by rw [f1, g1], fun σ hσ => ?_⟩
  have hσ' : Legal bn.card Q σ := fun v hv => hσ v ((f1 v).2 hv)
  rw [f2 σ hσ', g2 σ hσ', hd.posterior_append hc ha hs hn he hen1 hQ hσ'
    (by rwa [totalWeight_const hc he σ σ₀])]

/-- **C72** Local Markov property: observed parents separate a variable from everything that is not its
descendant, as long as there is no evidence on descendants. -/
theorem C72_local_markov {bn : BN} {ev : Dict Evidence} {v : Name}
    (hpar : ∀ p, bn.IsParent p v → Observed ev p)
    (hdesc : ∀ w, Relation.TransGen bn.IsParent v w → w ∉ ev.keys) {R : List Name}
    (hR : ∀ r ∈ R, ¬ Relation.ReflTransGen bn.IsParent v r) : bn.DSeparated ev [v] R :=
  dseparated_of_parents hpar hdesc hR

/-- **C72** Markov blanket: observed parents, children and parents of children separate a variable from all
others. -/
theorem C72_markov_blanket {bn : BN} {ev : Dict Evidence} {v : Name}
    (hpar : ∀ p, bn.IsParent p v → Observed ev p) (hch : ∀ c, bn.IsParent v c → Observed ev c)
    (hco : ∀ c p, bn.IsParent v c → bn.IsParent p c → p = v ∨ Observed ev p) {R : List Name}
    (hR : v ∉ R) : bn.DSeparated ev [v] R :=
  dseparated_of_blanket hpar hch hco hR

/-- **C72** Without evidence, variables with no common ancestor are independent. -/
theorem C72_no_common_ancestor {bn : BN} {Q R : List Name}
    (h : ∀ q ∈ Q, ∀ r ∈ R, ∀ w, Relation.ReflTransGen bn.IsParent w q →
      ¬ Relation.ReflTransGen bn.IsParent w r) : bn.DSeparated [] Q R := by
  have key : ∀ d v, Trail bn [] Q d v → ∃ q ∈ Q, ∃ w, Relation.ReflTransGen bn.IsParent w q ∧
      Relation.ReflTransGen bn.IsParent w v ∧ (d = true → w = v) := by
    intro d v ht
    induction ht with
    | start hq => exact ⟨_, hq, _, .refl, .refl, fun _ => rfl⟩
    | up _ _ hp ih =>
      obtain ⟨q, hq, w, h1, -, h3⟩ := ih
      cases h3 rfl
      exact ⟨q, hq, _, h1.head hp, .refl, fun _ => rfl⟩
    | down _ _ hp ih =>
      obtain ⟨q, hq, w, h1, h2, -⟩ := ih
      exact ⟨q, hq, w, h1, h2.tail hp, fun h => by cases h⟩
    | collider _ hr =>
      obtain ⟨w, hw, -⟩ := hr
      simp at hw
  intro r hr d ht
  obtain ⟨q, hq, w, h1, h2, -⟩ := key d r ht
  exact absurd h2 (h q hq r hr w h1)

/-- **C72** Variables each of which is d-separated from the later ones are mutually independent. -/
theorem C72_scattered {bn : BN} (hc : bn.Consistent) (ha : bn.Acyclic) (hs : bn.Stochastic)
    (hn : bn.NonNeg) {ev : Dict Evidence} (he : LegalEvidence bn ev) (hen : NonNegEvidence ev)
    {Q : List Name} (hne : Q ≠ []) (hQ : ∀ v ∈ Q, v ∈ bn.names) (hd : bn.Scattered ev Q) {f : Factor}
    (hf : ExactAnswer bn ev Q f) {g : Name → Factor} (hg : ∀ v ∈ Q, ExactAnswer bn ev [v] (g v)) :
    ∀ σ, Legal bn.card Q σ → f.eval σ = (Q.map fun v => (g v).eval σ).prod := by
  intro σ hσ
  rw [(hf.spec hc hn he hen hQ).2 σ hσ, hd.splits hc ha hs hn he hen hne hQ hσ]
  congr 1
  refine List.map_congr_left fun v hv => ?_
  rw [((hg v hv).spec hc hn he hen (by simpa using hQ v hv)).2 σ fun u hu => by
    rw [List.mem_singleton.1 hu]; exact hσ v hv]

end Primo
