import Verif.Lemmas.SharpCount
import Verif.Lemmas.BlindState

/-!
# When `FactorTree` is exact

C68: for connected networks, the running intersection property of the tree is necessary and
sufficient, and counting edges decides it.  For all networks: also cliques to which no messages are
sent must not share variables with others.
-/

namespace Primo
open JoinTree Factor Finset

/-- `FactorTree` answers every covered query with the posterior: for this network structure with any
conditional probability tables, for any evidence, iteration orders of sets and recursion limits that
suffice. -/
def TreeExact (bn : BN) (order0 : Option (List Name)) : Prop :=
  ∀ bn' : BN, bn'.bare = bn.bare → bn'.Consistent → bn'.NonNeg → bn'.Stochastic →
  ∀ ev, LegalEvidence bn' ev → NonNegEvidence ev →
  ∀ so₁ t, create so₁ bn' order0 = .ok t → ∀ so₂ limit, bn'.length ≤ limit →
    ∃ t', t.setEvidence so₂ limit bn' ev false = (t', none) ∧
      ∀ vs, t'.Covers vs → ∀ so₃ limit', ∃ r, t'.marginals so₃ limit' vs = (t', .ok r) ∧
        ∀ σ, Legal bn'.card vs σ → r.eval σ = posterior bn' ev vs σ

/-- **C68, exactness.**  If the tree made by `create_jointree` happens to have the running intersection
property, all answers are exact, whether or not the elimination order is perfect. -/
theorem C68_exact {bn : BN} {order0 : Option (List Name)} (h : OrderSetup bn order0) (hn : bn.NonNeg)
    (hco : bn.Connected) {so₁ : SetOrder} {t : JTree} (ht : create so₁ bn order0 = .ok t)
    (hrip : t.RunningIntersection) {ev : Dict Evidence} (he : LegalEvidence bn ev)
    (hen : NonNegEvidence ev) {limit : Nat} (hl : bn.length ≤ limit) (so₂ : SetOrder) :
    ∃ t', t.setEvidence so₂ limit bn ev false = (t', none) ∧ (∀ n ∈ bn, t'.Covers n.family) ∧
      ∀ vs, t'.Covers vs → ∀ so₃ limit', ∃ r, t'.marginals so₃ limit' vs = (t', .ok r) ∧
        r.WF bn.card ∧ (∀ v ∈ r.variableOrder, r.values.get? v = some (bn.lab v)) ∧
        (∀ v, v ∈ r.variableOrder ↔ v ∈ vs) ∧
        ∀ σ, Legal bn.card vs σ → r.eval σ = posterior bn ev vs σ := by
  obtain ⟨order, o1, o2⟩ := h.order
  obtain ⟨root, rvars, kids, others, a1, a2, a3⟩ := JTree.create_rip so₁ h.consistent h.linked h.recorded
    h.names h.nonempty order0 o1 o2 ht hrip
  obtain ⟨t', Φ, Ψ, b1, b2, b3⟩ := JTree.setEvidence_spec so₂ h.consistent hn a1 he hen
    (lt_of_lt_of_le a3 hl)
  refine ⟨t', b1, fun n hn' => ?_, fun vs hvs so₃ limit' => ?_⟩
  · obtain ⟨q, hq, hqf⟩ := b3.sits.fam n hn'
    exact ⟨q.1, q.2, JTree.clique_iff_skel.2 hq, hqf⟩
  · obtain ⟨k, vars, hk, hkv⟩ := hvs
    obtain ⟨r, r1, r2, r3, r4⟩ := b3.posterior so₃
      ⟨(k, vars), JTree.clique_iff_skel.1 hk, by rw [a2 hco]; simp, hkv⟩ (Or.inl (a2 hco)) limit'
    exact ⟨r, r1, r2.wf, r2.val, r3, r4⟩

/-- **C68, wrong answers.**  If two cliques contain `x`, and messages do not get from one to the other
through cliques containing `x` (because there is no such path, or because it is not connected to the
first clique), then with uniform tables and `x` observed there is a clique whose answer — if there is
one — is not the posterior: it takes equal values where the posteriors differ.  This holds for all
iteration orders of sets and all recursion limits, also if `set_evidence` raised an exception. -/
theorem C68_wrong {bn : BN} {order0 : Option (List Name)} (h : OrderSetup bn order0)
    (hpos : ∀ v ∈ bn.names, 0 < bn.card v) {so : SetOrder} {t : JTree} (ht : create so bn order0 = .ok t)
    {x k k' : Name} {vars vars' : List Name} (hk : t.Clique k vars) (hx : x ∈ vars)
    (hk' : t.Clique k' vars') (hx' : x ∈ vars') (hno : ¬ Relation.ReflTransGen (t.Informs x) k k')
    (hcx : 2 ≤ bn.card x) :
    bn.uniform.bare = bn.bare ∧ bn.uniform.Consistent ∧ bn.uniform.NonNeg ∧ bn.uniform.Stochastic ∧
    ∃ y vs, LegalEvidence bn.uniform [(x, .hard y)] ∧
      (∀ σ, 0 < totalWeight bn.uniform [(x, .hard y)] σ) ∧ t.Covers vs ∧ x ∈ vs ∧
      (∃ so₁ t₁, create so₁ bn.uniform order0 = .ok t₁) ∧
      ∀ so₁ t₁, create so₁ bn.uniform order0 = .ok t₁ → t₁.Covers vs ∧ ∀ so₂ limit so₃ limit' r,
        ((t₁.setEvidence so₂ limit bn.uniform [(x, .hard y)] false).1.marginals so₃ limit' vs).2 = .ok r →
        ∃ σ τ, Legal bn.card vs σ ∧ Legal bn.card vs τ ∧ r.eval σ = r.eval τ ∧
          posterior bn.uniform [(x, .hard y)] vs σ ≠ posterior bn.uniform [(x, .hard y)] vs τ := by
  obtain ⟨order, o1, o2⟩ := h.order
  have hb := BN.uniform_bare bn
  have hm := JTree.create_made so h.consistent h.linked h.recorded h.names order0 o1 o2 ht
  have hnx : x ∈ bn.names := hm.mem k vars hk x hx
  have hval : ∀ n ∈ bn, n.values ≠ [] := by
    intro n hn e
    have := hpos n.name (List.mem_map_of_mem hn)
    unfold BN.card at this
    rw [BN.lab_eq h.consistent.nodup hn, e] at this
    simp at this
  obtain ⟨y, hy⟩ : ∃ y, (bn.lab x)[0]? = some y := ⟨(bn.lab x)[0]'(by unfold BN.card at hcx; omega), by simp⟩
  obtain ⟨q, vs, hq, hxq, hflat⟩ := JTree.blind_flat h.consistent h.linked h.recorded h.names order0 o1 o2
    hpos ht hk hx hk' hx' hno hcx hy
  have hne := posterior_not_flat h.consistent hpos hy hxq
  have hev : LegalEvidence bn.uniform [(x, .hard y)] := by
    refine LegalEvidence.of_bare ⟨by simp [Dict.keys], by simpa using hnx, fun v z hv => ?_, by simp⟩ hb
    simp only [List.mem_singleton, Prod.mk.injEq, Evidence.hard.injEq] at hv
    obtain ⟨rfl, rfl⟩ := hv
    exact List.mem_of_getElem? hy
  refine ⟨hb, BN.uniform_consistent h.consistent, BN.uniform_nonneg bn, BN.uniform_stochastic hval, y, vs,
    hev, uniform_total_pos h.consistent hpos hy hev, ⟨q, vs, hq, fun _ h => h⟩, hxq, ?_, fun so₁ t₁ h₁ => ?_⟩
  · obtain ⟨t₁, a1, -⟩ := JTree.create_any so (BN.uniform_consistent h.consistent) (h.linked.of_bare hb)
      (h.recorded.of_bare hb) (by rw [BN.names_of_bare hb]; exact h.names) order0
      (by rw [← BN.chooseOrder_bare, hb, BN.chooseOrder_bare]; exact o1)
      (by rw [BN.names_of_bare hb]; exact o2)
    exact ⟨so, t₁, a1⟩
  · have hsh : t₁.shape = t.shape := by
      obtain ⟨p, p1, p2⟩ := plan_of_create ht
      obtain ⟨p', p1', p2'⟩ := plan_of_create h₁
      rw [plan_congr hb, p1] at p1'
      cases p1'
      rw [p2, p2']
    refine ⟨⟨q, vs, (JTree.clique_of_shape hsh _ _).2 hq, fun _ h => h⟩, fun so₂ limit so₃ limit' r hr => ?_⟩
    have l0 : Legal bn.card vs fun _ => 0 := fun v hv => hpos v (hm.mem q vs hq v hv)
    refine ⟨fun _ => 0, Function.update (fun _ => 0) x 1, l0, fun v hv => ?_,
      hflat so₁ t₁ h₁ so₂ limit so₃ limit' r hr, hne⟩
    by_cases hvx : v = x
    · rw [hvx, Function.update_self]; omega
    · rw [Function.update_of_ne hvx]; exact l0 v hv

/-- **C68**  For connected networks whose variables have at least two outcomes, `FactorTree` is exact
for all tables, evidence and queries if and only if the tree has the running intersection property; and
that is so if and only if it has one edge less than cliques. -/
theorem C68_sharp {bn : BN} {order0 : Option (List Name)} (h : OrderSetup bn order0) (hco : bn.Connected)
    (hcard : ∀ v ∈ bn.names, 2 ≤ bn.card v) {so : SetOrder} {t : JTree} (ht : create so bn order0 = .ok t) :
    (t.RunningIntersection ↔ TreeExact bn order0) ∧ (t.IsTree ↔ TreeExact bn order0) ∧
      (t.edges.length + 1 = t.nodes.length ↔ TreeExact bn order0) ∧ t.edges.length + 1 ≤ t.nodes.length := by
  obtain ⟨order, o1, o2⟩ := h.order
  have hm := JTree.create_made so h.consistent h.linked h.recorded h.names order0 o1 o2 ht
  obtain ⟨n1, n2, n3⟩ := JTree.create_count so h.consistent h.linked h.recorded h.names h.nonempty hco order0 o1
    o2 ht
  have key : t.RunningIntersection ↔ TreeExact bn order0 := by
    constructor
    · intro hrip bn' hb hc' hn' hs' ev he hen so₁ t₁ h₁ so₂ limit hl
      have hsh : t₁.shape = t.shape := by
        obtain ⟨p, p1, p2⟩ := plan_of_create ht
        obtain ⟨p', p1', p2'⟩ := plan_of_create h₁
        rw [plan_congr hb, p1] at p1'
        cases p1'
        rw [p2, p2']
      have hset : OrderSetup bn' order0 := by
        refine ⟨hc', h.linked.of_bare hb, h.recorded.of_bare hb, by rw [BN.names_of_bare hb]; exact h.names,
          fun e => ?_, order, by rw [← BN.chooseOrder_bare, hb, BN.chooseOrder_bare]; exact o1,
          by rw [BN.names_of_bare hb]; exact o2⟩
        have := BN.length_of_bare hb
        rw [e] at this
        exact h.nonempty (List.length_eq_zero_iff.1 this.symm)
      obtain ⟨t', b1, -, b3⟩ := C68_exact hset hn' (hco.of_bare hb) h₁ (hrip.of_shape hsh) he hen hl so₂
      refine ⟨t', b1, fun vs hvs so₃ limit' => ?_⟩
      obtain ⟨r, r1, -, -, -, r5⟩ := b3 vs hvs so₃ limit'
      exact ⟨r, r1, r5⟩
    · intro hex
      refine ⟨hm.sep, fun x k vars k' vars' hk hx hk' hx' => ?_⟩
      by_contra hno
      have hpos : ∀ v ∈ bn.names, 0 < bn.card v := fun v hv => lt_of_lt_of_le (by omega) (hcard v hv)
      obtain ⟨w1, w2, w3, w4, y, vs, w5, -, w6, w7, ⟨so₁, t₁, w8⟩, w9⟩ := C68_wrong h hpos ht hk hx hk' hx'
        (fun hh => hno (rtg_mono hh fun a b hab => hab.1))
        (hcard x (hm.mem k vars hk x hx))
      obtain ⟨g1, g2⟩ := w9 so₁ t₁ w8
      obtain ⟨t', b1, b2⟩ := hex bn.uniform w1 w2 w3 w4 _ w5 (by simp [NonNegEvidence]) so₁ t₁ w8 so
        bn.uniform.length le_rfl
      have hsh : t'.shape = t₁.shape := by
        have := JTree.setEvidence_shape so bn.uniform.length bn.uniform [(x, .hard y)] false t₁
        rw [b1] at this
        exact this
      obtain ⟨q, vars, hq, hqs⟩ := g1
      obtain ⟨r, r1, r2⟩ := b2 vs ⟨q, vars, (JTree.clique_of_shape hsh _ _).2 hq, hqs⟩ so 0
      obtain ⟨σ, τ, l1, l2, l3, l4⟩ := g2 so bn.uniform.length so 0 r (by rw [b1, r1])
      rw [← BN.card_of_bare w1] at l1 l2
      exact l4 (by rw [← r2 σ l1, ← r2 τ l2, l3])
  exact ⟨key, n3.symm.trans key, n2.symm.trans key, n1⟩

/-- As `TreeExact`, for evidence that is possible. -/
def TreeExactPossible (bn : BN) (order0 : Option (List Name)) : Prop :=
  ∀ bn' : BN, bn'.bare = bn.bare → bn'.Consistent → bn'.NonNeg → bn'.Stochastic →
  ∀ ev, LegalEvidence bn' ev → NonNegEvidence ev → (∀ σ, 0 < totalWeight bn' ev σ) →
  ∀ so₁ t, create so₁ bn' order0 = .ok t → ∀ so₂ limit, bn'.length ≤ limit →
    ∃ t', t.setEvidence so₂ limit bn' ev false = (t', none) ∧
      ∀ vs, t'.Covers vs → ∀ so₃ limit', ∃ r, t'.marginals so₃ limit' vs = (t', .ok r) ∧
        ∀ σ, Legal bn'.card vs σ → r.eval σ = posterior bn' ev vs σ

/-- **C68**  For all networks whose variables have at least two outcomes, connected or not: `FactorTree`
is exact for all tables, possible evidence and queries if and only if its tree has the running
intersection property and each clique is connected to the first one or shares no variable with another
clique. -/
theorem C68_any {bn : BN} {order0 : Option (List Name)} (h : OrderSetup bn order0)
    (hcard : ∀ v ∈ bn.names, 2 ≤ bn.card v) {so : SetOrder} {t : JTree} (ht : create so bn order0 = .ok t) :
    (t.RunningIntersection ∧ ∀ k vars, t.Clique k vars → t.Reached k ∨
      ∀ k' vars', t.Clique k' vars' → k' ≠ k → ∀ x ∈ vars', x ∉ vars) ↔ TreeExactPossible bn order0 := by
  obtain ⟨order, o1, o2⟩ := h.order
  have hm := JTree.create_made so h.consistent h.linked h.recorded h.names order0 o1 o2 ht
  constructor
  · rintro ⟨hrip, hloc⟩ bn' hb hc' hn' hs' ev he hen hposs so₁ t₁ h₁ so₂ limit hl
    have hsh : t₁.shape = t.shape := by
      obtain ⟨p, p1, p2⟩ := plan_of_create ht
      obtain ⟨p', p1', p2'⟩ := plan_of_create h₁
      rw [plan_congr hb, p1] at p1'
      cases p1'
      rw [p2, p2']
    have hset : TreeSetup bn' order0 := by
      refine ⟨⟨hc', h.linked.of_bare hb, h.recorded.of_bare hb, by rw [BN.names_of_bare hb]; exact h.names,
        fun e => ?_, order, by rw [← BN.chooseOrder_bare, hb, BN.chooseOrder_bare]; exact o1,
        by rw [BN.names_of_bare hb]; exact o2⟩, so₁, t₁, h₁, hrip.of_shape hsh⟩
      have := BN.length_of_bare hb
      rw [e] at this
      exact h.nonempty (List.length_eq_zero_iff.1 this.symm)
    obtain ⟨u, t', root, a1, a2, a3, a4⟩ := C29_root_component_partial hset hn' he hen hposs hl so₁ so₂
    rw [h₁] at a1
    cases a1
    obtain ⟨u, t'', b1, b2, b3⟩ := C29_single_clique_partial hset hn' he hen hposs hl so₁ so₂
    rw [h₁] at b1
    cases b1
    rw [a2] at b2
    cases b2
    have hsh' : t'.shape = t.shape := by
      have := JTree.setEvidence_shape so₂ limit bn' ev false t₁
      rw [a2] at this
      exact this.trans hsh
    refine ⟨t', a2, fun vs ⟨k, vars, hk, hvs⟩ so₃ limit' => ?_⟩
    have hk' := (JTree.clique_of_shape hsh' _ _).1 hk
    rcases hloc k vars hk' with hr | hiso
    · obtain ⟨root', r1, r2⟩ := hr.of_shape hsh'
      rw [a3] at r1
      cases r1
      obtain ⟨r, c1, -, -, -, c5⟩ := a4 k vars vs hk r2 hvs so₃ limit'
      exact ⟨r, c1, c5⟩
    · by_cases hv : vs = []
      · subst hv
        obtain ⟨n0, hn0⟩ : ∃ n, (root, n) ∈ t'.nodes := by
          have : root ∈ t'.nodes.keys := List.mem_of_head? a3
          obtain ⟨p, hp, rfl⟩ := List.mem_map.1 this
          exact ⟨p.2, hp⟩
        obtain ⟨r, c1, -, -, -, c5⟩ := a4 root n0.vars [] ⟨n0.factor, hn0⟩ .refl (by simp) so₃ limit'
        exact ⟨r, c1, c5⟩
      · obtain ⟨r, c1, -, -, -, c5⟩ := b3 k vars vs hk (fun k' vars' hk'' hne => hiso k' vars'
          ((JTree.clique_of_shape hsh' _ _).1 hk'') hne) hvs hv so₃ limit'
        exact ⟨r, c1, c5⟩
  · intro hex
    have key : ∀ x k vars k' vars', t.Clique k vars → x ∈ vars → t.Clique k' vars' → x ∈ vars' →
        Relation.ReflTransGen (t.Informs x) k k' := by
      intro x k vars k' vars' hk hx hk' hx'
      by_contra hno
      have hpos : ∀ v ∈ bn.names, 0 < bn.card v := fun v hv => lt_of_lt_of_le (by omega) (hcard v hv)
      obtain ⟨w1, w2, w3, w4, y, vs, w5, w5', w6, w7, ⟨so₁, t₁, w8⟩, w9⟩ := C68_wrong h hpos ht hk hx hk' hx'
        hno (hcard x (hm.mem k vars hk x hx))
      obtain ⟨g1, g2⟩ := w9 so₁ t₁ w8
      obtain ⟨t', b1, b2⟩ := hex bn.uniform w1 w2 w3 w4 _ w5 (by simp [NonNegEvidence]) w5' so₁ t₁ w8 so
        bn.uniform.length le_rfl
      have hsh : t'.shape = t₁.shape := by
        have := JTree.setEvidence_shape so bn.uniform.length bn.uniform [(x, .hard y)] false t₁
        rw [b1] at this
        exact this
      obtain ⟨q, vars, hq, hqs⟩ := g1
      obtain ⟨r, r1, r2⟩ := b2 vs ⟨q, vars, (JTree.clique_of_shape hsh _ _).2 hq, hqs⟩ so 0
      obtain ⟨σ, τ, l1, l2, l3, l4⟩ := g2 so bn.uniform.length so 0 r (by rw [b1, r1])
      rw [← BN.card_of_bare w1] at l1 l2
      exact l4 (by rw [← r2 σ l1, ← r2 τ l2, l3])
    refine ⟨⟨hm.sep, fun x k vars k' vars' hk hx hk' hx' =>
      rtg_mono (key x k vars k' vars' hk hx hk' hx') fun a b hab => hab.1⟩, fun k vars hk => ?_⟩
    by_contra hh
    rw [not_or] at hh
    obtain ⟨hr, hd⟩ := hh
    push Not at hd
    obtain ⟨k', vars', hk', hne, x, hx', hx⟩ := hd
    rcases Relation.ReflTransGen.cases_head (key x k vars k' vars' hk hx hk' hx') with e | ⟨c, hc, -⟩
    · exact hne e.symm
    · exact hr hc.2

/-! ### examples: two orders for the same network -/

theorem Ex.cycle_connected : Ex.cycle.Connected := by
  have key : ∀ u ∈ Ex.cycle.names, ∀ v ∈ Ex.cycle.names, u ≠ v →
      Ex.cycle.Skel u v ∨ ∃ w ∈ Ex.cycle.names, Ex.cycle.Skel u w ∧ Ex.cycle.Skel w v := by decide
  intro u hu v hv huv
  rcases key u hu v hv huv with h | ⟨w, hw, h1, h2⟩
  · exact .base h
  · exact .step h1 hw (.base h2)

theorem Ex.cycle_default : OrderSetup Ex.cycle none :=
  ⟨Ex.cycle_consistent, Ex.cycle_linked, Ex.cycle_recorded, Ex.cycle_join, by decide,
    _, rfl, by decide +kernel⟩

/-- An order that is not perfect. -/
theorem Ex.cycle_other : OrderSetup Ex.cycle (some ["e", "b", "c", "a", "d"]) ∧
    ¬ Perfect Ex.cycle.Moral ["e", "b", "c", "a", "d"] := by
  refine ⟨⟨Ex.cycle_consistent, Ex.cycle_linked, Ex.cycle_recorded, Ex.cycle_join, by decide,
    _, rfl, by decide⟩, fun h => ?_⟩
  have := h ["e"] "b" ["c", "a", "d"] rfl "a" (by decide) "d" (by decide) (by decide) (by decide) (by decide)
  revert this
  decide

/-- With this order the tree of the cycle is exact; -/
theorem C68_cycle_other_exact : TreeExact Ex.cycle (some ["e", "b", "c", "a", "d"]) := by
  have h : (create .insertion Ex.cycle (some ["e", "b", "c", "a", "d"])).map
      (fun t => (t.nodes.length, t.edges.length)) = .ok (3, 2) := by decide +kernel
  cases hc : create .insertion Ex.cycle (some ["e", "b", "c", "a", "d"]) with
  | error e => rw [hc] at h; cases h
  | ok t =>
    rw [hc] at h
    simp only [Except.map, Except.ok.injEq, Prod.mk.injEq] at h
    exact (C68_sharp Ex.cycle_other.1 Ex.cycle_connected (by decide) hc).2.2.1.1 (by rw [h.1, h.2])

/-- so all properties of exact trees apply to it: -/
theorem Ex.cycle_tree : TreeSetup Ex.cycle (some ["e", "b", "c", "a", "d"]) := by
  have h : (create .insertion Ex.cycle (some ["e", "b", "c", "a", "d"])).map
      (fun t => (t.nodes.length, t.edges.length)) = .ok (3, 2) := by decide +kernel
  cases hc : create .insertion Ex.cycle (some ["e", "b", "c", "a", "d"]) with
  | error e => rw [hc] at h; cases h
  | ok t =>
    rw [hc] at h
    simp only [Except.map, Except.ok.injEq, Prod.mk.injEq] at h
    refine ⟨Ex.cycle_other.1, .insertion, t, hc, ?_⟩
    exact (C68_sharp Ex.cycle_other.1 Ex.cycle_connected (by decide) hc).1.2 C68_cycle_other_exact

theorem Ex.cycle_nonneg : Ex.cycle.NonNeg := by
  unfold BN.NonNeg; decide +kernel

theorem Ex.cycle_e_legal : LegalEvidence Ex.cycle [("e", .hard "t")] :=
  ⟨by decide, by simp [Ex.cycle, BN.names], fun v y h => by
    simp only [List.mem_singleton, Prod.mk.injEq, Evidence.hard.injEq] at h
    obtain ⟨rfl, rfl⟩ := h
    decide, by simp⟩

example := C21_tree_exact_partial Ex.cycle_tree Ex.cycle_nonneg Ex.cycle_connected Ex.cycle_e_legal
  (by simp [NonNegEvidence]) (limit := 1000) (by decide) .insertion .reversed
example := C26_evidence_alone Ex.cycle_tree Ex.cycle_nonneg Ex.cycle_connected Ex.cycle_e_legal
  (by simp [NonNegEvidence]) (limit := 1000) (by decide) .insertion .reversed Ex.history

/-- with the default order it is not. -/
theorem C68_cycle_default_wrong : ¬ TreeExact Ex.cycle none := by
  have h : (create .insertion Ex.cycle none).map (fun t => (t.nodes.length, t.edges.length)) = .ok (3, 1) := by
    decide +kernel
  cases hc : create .insertion Ex.cycle none with
  | error e => rw [hc] at h; cases h
  | ok t =>
    rw [hc] at h
    simp only [Except.map, Except.ok.injEq, Prod.mk.injEq] at h
    intro hex
    have := (C68_sharp Ex.cycle_default Ex.cycle_connected (by decide) hc).2.2.1.2 hex
    rw [h.1, h.2] at this
    omega

/-! ### examples: two orders for a disconnected network -/

theorem Ex.parts_default : OrderSetup Ex.parts none := Ex.parts_perfect.tree.toOrderSetup

/-- an order that ends in the component `a → b → c` -/
theorem Ex.parts_other : PerfectSetup Ex.parts (some ["z", "d", "e", "a", "b", "c"]) :=
  ⟨Ex.parts_consistent, Ex.parts_linked, Ex.parts_recorded, Ex.parts_join, by decide, _, rfl, by decide,
    Ex.perfect_of_tails (by decide)⟩

/-- With the default order the network with the components `a → b → c`, `d → e` and `z` is not answered
exactly; -/
theorem C68_parts_default_wrong : ¬ TreeExactPossible Ex.parts none := by
  have h : (create .insertion Ex.parts none).map (fun t => (t.nodes.map (fun p => (p.1, p.2.vars)),
      t.edges.map fun e => (e.u, e.w))) =
      .ok ([("de", ["d", "e"]), ("bc", ["b", "c"]), ("ab", ["a", "b"]), ("z", ["z"])], [("ab", "bc")]) := by
    decide +kernel
  cases hc : create .insertion Ex.parts none with
  | error e => rw [hc] at h; cases h
  | ok t =>
    rw [hc] at h
    simp only [Except.map, Except.ok.injEq, Prod.mk.injEq] at h
    intro hex
    have hcl : ∀ k vars, (k, vars) ∈ [("de", ["d", "e"]), ("bc", ["b", "c"]), ("ab", ["a", "b"]),
        ("z", ["z"])] → t.Clique k vars := by
      intro k vars hm
      rw [← h.1] at hm
      exact JTree.clique_iff_skel.2 hm
    have hkeys : t.nodes.keys = ["de", "bc", "ab", "z"] := by
      have := congrArg (List.map Prod.fst) h.1
      simpa [Dict.keys, Function.comp_def] using this
    have hno : ∀ k, Relation.ReflTransGen t.Joined "de" k → k = "de" := by
      intro k hk
      induction hk with
      | refl => rfl
      | tail _ hj ih =>
        subst ih
        obtain ⟨e, he, hej⟩ := hj
        have : (e.u, e.w) ∈ t.edges.map fun e => (e.u, e.w) := List.mem_map_of_mem he
        rw [h.2, List.mem_singleton] at this
        injection this with e1 e2
        simp [JEdge.joins, e1, e2] at hej
    rcases ((C68_any Ex.parts_default (by decide) hc).2 hex).2 "ab" ["a", "b"] (hcl _ _ (by decide)) with hr | hr
    · obtain ⟨root, r1, r2⟩ := hr
      rw [hkeys] at r1
      cases r1
      exact absurd (hno _ r2) (by decide)
    · exact hr "bc" ["b", "c"] (hcl _ _ (by decide)) (by decide) "b" (by decide) (by decide)

/-- with the other order it is. -/
theorem C68_parts_other_exact : TreeExactPossible Ex.parts (some ["z", "d", "e", "a", "b", "c"]) := by
  have h : (create .insertion Ex.parts (some ["z", "d", "e", "a", "b", "c"])).map
      (fun t => (t.nodes.map (fun p => (p.1, p.2.vars)), t.edges.map fun e => (e.u, e.w))) =
      .ok ([("bc", ["b", "c"]), ("ab", ["a", "b"]), ("de", ["d", "e"]), ("z", ["z"])], [("ab", "bc")]) := by
    decide +kernel
  obtain ⟨t, root, rvars, kids, others, a1, -, -, -, a5, -⟩ := Ex.parts_other.tree.made .insertion
  rw [a1] at h
  simp only [Except.map, Except.ok.injEq, Prod.mk.injEq] at h
  refine (C68_any Ex.parts_other.tree.toOrderSetup (by decide) a1).1 ⟨a5, fun k vars hk => ?_⟩
  have hcl : ∀ k vars, t.Clique k vars → (k, vars) ∈ [("bc", ["b", "c"]), ("ab", ["a", "b"]),
      ("de", ["d", "e"]), ("z", ["z"])] := by
    intro k vars hm
    rw [← h.1]
    exact JTree.clique_iff_skel.1 hm
  have hkeys : t.nodes.keys = ["bc", "ab", "de", "z"] := by
    have := congrArg (List.map Prod.fst) h.1
    simpa [Dict.keys, Function.comp_def] using this
  have hj : t.Joined "bc" "ab" := by
    have : ("ab", "bc") ∈ t.edges.map fun e => (e.u, e.w) := by rw [h.2]; simp
    obtain ⟨e, he, heq⟩ := List.mem_map.1 this
    simp only [Prod.mk.injEq] at heq
    exact ⟨e, he, by simp [JEdge.joins, heq.1, heq.2]⟩
  have hroot : t.nodes.keys.head? = some "bc" := by rw [hkeys]; rfl
  have hm := hcl k vars hk
  simp only [List.mem_cons, Prod.mk.injEq, List.not_mem_nil, or_false] at hm
  have rest : ∀ p ∈ [("de", ["d", "e"]), ("z", ["z"])], ∀ q ∈ [("bc", ["b", "c"]), ("ab", ["a", "b"]),
      ("de", ["d", "e"]), ("z", ["z"])], q.1 ≠ p.1 → ∀ x ∈ q.2, x ∉ p.2 := by decide
  rcases hm with ⟨rfl, rfl⟩ | ⟨rfl, rfl⟩ | ⟨rfl, rfl⟩ | ⟨rfl, rfl⟩
  · exact Or.inl ⟨_, hroot, .refl⟩
  · exact Or.inl ⟨_, hroot, .single hj⟩
  · exact Or.inr fun k' vars' hk' hne x hx => rest ("de", ["d", "e"]) (by simp) _ (hcl k' vars' hk') hne x hx
  · exact Or.inr fun k' vars' hk' hne x hx => rest ("z", ["z"]) (by simp) _ (hcl k' vars' hk') hne x hx

end Primo
