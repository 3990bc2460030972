import Verif.Lemmas.BlindLoad
import Verif.Lemmas.Uniform
import Mathlib.Algebra.Order.BigOperators.GroupWithZero.List

/-! # Trees without the running intersection property give wrong answers for uniform tables -/

namespace Primo
open JoinTree Factor Finset

namespace JTree

theorem JoinedAt.symm {t : JTree} {x a b : Name} (h : t.JoinedAt x a b) : t.JoinedAt x b a :=
  ⟨h.1.symm, h.2.2, h.2.1⟩

/-- what every tree made by `create_jointree` looks like -/
structure Made (names : List Name) (t : JTree) : Prop where
  nodup : t.nodes.keys.Nodup
  sep : ∀ e ∈ t.edges, ∃ a b, t.Clique e.u a ∧ t.Clique e.w b ∧ ∀ x, x ∈ e.sep ↔ x ∈ a ∧ x ∈ b
  mem : ∀ k vars, t.Clique k vars → ∀ v ∈ vars, v ∈ names
  anti : ∀ k vars k' vars', t.Clique k vars → t.Clique k' vars' → (∀ v ∈ vars, v ∈ vars') → k = k'
  nbrs : ∀ a b, b ∈ t.adj.nbrs a → t.Joined a b

theorem Reached.of_shape {t t' : JTree} (h : t'.shape = t.shape) {k : Name} (hr : t.Reached k) :
    t'.Reached k := by
  obtain ⟨root, h1, h2⟩ := hr
  exact ⟨root, keys_of_shape h ▸ h1, rtg_mono h2 fun a b hj => (joined_of_shape h a b).2 hj⟩

theorem Informs.symm {t : JTree} {x a b : Name} (h : t.Informs x a b) : t.Informs x b a := by
  obtain ⟨h1, root, h2, h3⟩ := h
  exact ⟨h1.symm, root, h2, h3.tail h1.1⟩

theorem nbrs_addNode (c : List Name) (t : JTree) (a : Name) : (addNode c t).adj.nbrs a = t.adj.nbrs a := by
  unfold addNode
  dsimp only
  split
  · rfl
  · rename_i hc
    unfold UGraph.nbrs
    generalize t.adj = g at hc
    induction g with
    | nil => by_cases h : clusterName c = a <;> simp [Dict.get?, h]
    | cons p g ih =>
      have hc' : clusterName c ∉ UGraph.nodes g := fun h => hc (List.mem_cons_of_mem _ h)
      rw [List.cons_append]
      by_cases h : p.1 = a
      · simp [Dict.get?, h]
      · have := ih hc'
        simpa [Dict.get?, h] using this

/-- neighbours are joined by an edge -/
theorem build_nbrs (L : List (List Name)) : ∀ a b, b ∈ (build L).adj.nbrs a → (build L).Joined a b := by
  induction L with
  | nil => intro a b h; simp [build, emptyTree, UGraph.nbrs, Dict.get?] at h
  | cons c cs ih =>
    intro a b h
    rw [build] at h ⊢
    cases hd : cs.find? fun d => shared c cs ≠ [] && sub (shared c cs) d with
    | none =>
      rw [hd] at h
      dsimp only at h ⊢
      rw [nbrs_addNode] at h
      exact ih a b h
    | some d =>
      rw [hd] at h
      dsimp only at h ⊢
      have h' := UGraph.mem_nbrs_addEdge.1 h
      rw [nbrs_addNode] at h'
      have hold : ∀ e ∈ (build cs).edges, e.joins a b = true →
          (addEdge (clusterName c) (clusterName d) (shared c cs) (addNode c (build cs))).Joined a b := by
        intro e he hj
        unfold JTree.Joined addEdge
        dsimp only
        split
        · refine ⟨_, List.mem_map_of_mem he, ?_⟩
          split <;> exact hj
        · exact ⟨e, List.mem_append_left _ he, hj⟩
      rcases h' with h' | h'
      · obtain ⟨e, he, hj⟩ := ih a b h'
        exact hold e he hj
      · have hj : (JEdge.mk (clusterName c) (clusterName d) (shared c cs) (.trivial 1)).joins a b = true := by
          simp only [JEdge.joins, Bool.or_eq_true, Bool.and_eq_true, beq_iff_eq]
          rcases h' with ⟨rfl, rfl⟩ | ⟨rfl, rfl⟩
          · exact Or.inl ⟨rfl, rfl⟩
          · exact Or.inr ⟨rfl, rfl⟩
        by_cases hany : (build cs).edges.any (fun e => e.joins (clusterName c) (clusterName d)) = true
        · obtain ⟨e, he, hej⟩ := List.any_eq_true.1 hany
          refine hold e he ?_
          simp only [JEdge.joins, Bool.or_eq_true, Bool.and_eq_true, beq_iff_eq] at hej hj ⊢
          rcases h' with ⟨rfl, rfl⟩ | ⟨rfl, rfl⟩
          · exact hej
          · exact hej.symm.imp (fun h => h) fun h => h
        · unfold JTree.Joined addEdge
          dsimp only
          rw [if_neg (show ¬ (addNode c (build cs)).edges.any _ = true from hany)]
          exact ⟨_, List.mem_append_right _ (List.mem_singleton.2 rfl), hj⟩

theorem Made.of_shape {names : List Name} {t t' : JTree} (h : t'.shape = t.shape) (hm : Made names t) :
    Made names t' := by
  refine ⟨keys_of_shape h ▸ hm.nodup, fun e he => ?_,
    fun k vars hk => hm.mem k vars ((clique_of_shape h _ _).1 hk), fun k vars k' vars' hk hk' =>
      hm.anti k vars k' vars' ((clique_of_shape h _ _).1 hk) ((clique_of_shape h _ _).1 hk'),
    fun a b hab => (joined_of_shape h a b).2 (hm.nbrs a b (adj_of_shape h ▸ hab))⟩
  have h3 : t'.edges.map (fun e => (e.u, e.w, e.sep)) = t.edges.map fun e => (e.u, e.w, e.sep) :=
    congrArg (fun x => x.2.2) h
  have : (e.u, e.w, e.sep) ∈ t.edges.map fun e => (e.u, e.w, e.sep) :=
    h3 ▸ List.mem_map_of_mem (f := fun e : JEdge => (e.u, e.w, e.sep)) he
  obtain ⟨e', he', heq⟩ := List.mem_map.1 this
  simp only [Prod.mk.injEq] at heq
  obtain ⟨a, b, h1, h2, hs⟩ := hm.sep e' he'
  rw [heq.1] at h1
  rw [heq.2.1] at h2
  rw [heq.2.2] at hs
  exact ⟨a, b, (clique_of_shape h _ _).2 h1, (clique_of_shape h _ _).2 h2, hs⟩

theorem create_made (so : SetOrder) {bn : BN} (hc : bn.Consistent) (hl : bn.Linked) (hr : bn.Recorded)
    (hu : UniqueJoin bn.names) (order0 : Option (List Name)) {order : List Name}
    (hord : VE.chooseOrder bn order0 = .ok order) (ho : order.Perm bn.names) {t : JTree}
    (ht : create so bn order0 = .ok t) : Made bn.names t := by
  obtain ⟨L, e1, e2⟩ := bn_clusters hc hl hr ho
  have hhd := e2.headOK (ho.symm.nodup hc.nodup)
  obtain ⟨L', h1, h2, h3, -⟩ := swaps_any hhd.nodup
  have hLn : ∀ c ∈ L', ∀ x ∈ c, x ∈ bn.names := fun c hc x hx =>
    ho.subset ((e2.mem c (h3 c hc)).2.1 x hx)
  have hn := hu.inj hLn h2
  refine Made.of_shape (create_shape so hord e1 h1 ht) ⟨?_, fun e he => ?_, fun k vars hk => ?_,
    fun k vars k' vars' hk hk' hs => ?_, build_nbrs L'⟩
  · rw [build_nodes L' hn]
    simpa [Dict.keys, Function.comp_def] using List.nodup_reverse.2 hn
  · obtain ⟨c, cs, d, hs, hd, ⟨hsub, -⟩, g1, g2, g3⟩ := build_edges L' hn e he
    refine ⟨c, d, (build_cliques hn _ _).2 ⟨hs.subset (by simp), g1⟩,
      (build_cliques hn _ _).2 ⟨hs.subset (by simp [hd]), g2⟩, fun x => ?_⟩
    rw [g3]
    constructor
    · intro hx; exact ⟨(mem_shared.1 hx).1, hsub x hx⟩
    · rintro ⟨hx, hxd⟩; exact mem_shared.2 ⟨hx, d, hd, hxd⟩
  · exact hLn vars ((build_cliques hn _ _).1 hk).1
  · obtain ⟨m1, rfl⟩ := (build_cliques hn _ _).1 hk
    obtain ⟨m2, rfl⟩ := (build_cliques hn _ _).1 hk'
    rw [swaps_antichain hhd h1 vars m1 vars' m2 hs]

theorem Made.unique {names : List Name} {t : JTree} (hm : Made names t) {k : Name} {vars vars' : List Name}
    (h : t.Clique k vars) (h' : t.Clique k vars') : vars = vars' := by
  obtain ⟨f, h⟩ := h
  obtain ⟨f', h'⟩ := h'
  have := (Dict.get?_of_mem hm.nodup h).symm.trans (Dict.get?_of_mem hm.nodup h')
  simp only [Option.some.injEq, JNode.mk.injEq] at this
  exact this.1

theorem Made.border {lab : Name → List Val} {names : List Name} {t : JTree} (hm : Made names t)
    (hpos : ∀ v ∈ names, 0 < cardOf lab v) {x k0 : Name} {v0 : List Name} (h0 : t.Clique k0 v0) (hx : x ∈ v0) :
    Border lab x t.Reached (fun k => Relation.ReflTransGen (t.Informs x) k0 k) t := by
  refine ⟨fun k vars hk v hv => hpos v (hm.mem k vars hk v hv), fun e he a b hj va ha hRa hSa hSb => ?_,
    fun root hr => ⟨root, hr, .refl⟩, fun a b ha hab => ?_⟩
  swap
  · obtain ⟨root, h1, h2⟩ := ha
    exact ⟨root, h1, h2.tail (hm.nbrs a b hab)⟩
  have hxa : x ∈ va := by
    cases hSa with
    | refl => exact hm.unique h0 ha ▸ hx
    | tail _ h =>
      obtain ⟨⟨-, -, vb, hb, hxb⟩, -⟩ := h
      exact hm.unique hb ha ▸ hxb
  refine ⟨hxa, fun hs => hSb (Relation.ReflTransGen.tail hSa ⟨⟨⟨e, he, hj⟩, ⟨va, ha, hxa⟩, ?_⟩, hRa⟩)⟩
  obtain ⟨p, q, h1, h2, h3⟩ := hm.sep e he
  simp only [JEdge.joins, Bool.or_eq_true, Bool.and_eq_true, beq_iff_eq] at hj
  rcases hj with ⟨rfl, rfl⟩ | ⟨rfl, rfl⟩
  · exact ⟨q, h2, ((h3 x).1 hs).2⟩
  · exact ⟨p, h1, ((h3 x).1 hs).1⟩

/-! ### loading the tables and one observation -/

theorem blind_of_contents {bn : BN} (hc : bn.Consistent) (hpos : ∀ v ∈ bn.names, 0 < bn.card v) {x : Name}
    {y : Val} (he : LegalEvidence bn.uniform [(x, Evidence.hard y)]) (hy : (bn.lab x)[0]? = some y)
    {S : Name → Prop} {t : JTree}
    (hct : Contents bn.uniform.lab (bn.uniform.map nodeItem ++ [(x, Evidence.hard y)].map (evItem bn.uniform))
      t.nodes) (het : ∀ e ∈ t.edges, e.factor = Factor.trivial 1)
    (hS : ∀ k vars, t.Clique k vars → x ∈ vars →
      home (skel t.nodes) (evItem bn.uniform (x, Evidence.hard y)) = some k → S k) :
    Blind bn.lab x 0 S t := by
  have hb := BN.uniform_bare bn
  have hlab := BN.lab_of_bare hb
  have hcard := BN.card_of_bare hb
  have hcu := BN.uniform_consistent hc
  have hposu : ∀ n ∈ bn.uniform, 0 < n.values.length := by
    intro n hn
    have := hpos n.name (by rw [← BN.names_of_bare hb]; exact List.mem_map_of_mem hn)
    rw [← hcard] at this
    unfold BN.card at this
    rwa [BN.lab_eq hcu.nodup hn] at this
  obtain ⟨v1, v2, v3, v4, v5, v6⟩ := evItem_spec he (e := (x, Evidence.hard y)) (by simp)
  dsimp only at v3 v4
  refine ⟨fun q hq => ?_, fun e hee => ?_⟩
  · obtain ⟨k, n⟩ := q
    obtain ⟨c1, c2, c3⟩ := hct k n hq
    rw [hlab] at c1 c3
    have hfam : ∀ v ∈ n.factor.variableOrder, v ∈ bn.names := by
      intro v hv
      obtain ⟨it, hit, -, hv⟩ := (c2 v).1 hv
      rcases List.mem_append.1 hit with hit | hit
      · obtain ⟨m, hm, rfl⟩ := List.mem_map.1 hit
        rw [(nodeItem_spec hcu hm).2.2.1] at hv
        rw [← BN.names_of_bare hb]
        rcases List.mem_cons.1 hv with rfl | hv
        · exact List.mem_map_of_mem hm
        · exact hcu.parents_mem m hm v hv
      · simp only [List.map_cons, List.map_nil, List.mem_singleton] at hit
        subst hit
        rw [v3, List.mem_singleton] at hv
        rw [hv, ← BN.names_of_bare hb]
        exact he.mem _ (List.mem_singleton.2 rfl)
    have hval : ∀ m ∈ bn.uniform, ∀ σ, Legal bn.card m.family σ →
        (nodeItem m).f.eval σ = 1 / (m.values.length : ℚ) := by
      intro m hm σ hσ
      rw [(nodeItem_spec hcu hm).2.2.2.1 σ]
      refine BN.uniform_get hm ?_ fun v hv => hσ v (by simp [NodeV.family, hv])
      have := hσ m.name (by simp [NodeV.family])
      rw [← hcard] at this
      unfold BN.card at this
      rwa [BN.lab_eq hcu.nodup hm] at this
    set C : ℚ := (((bn.uniform.map nodeItem).filter fun it => home (skel t.nodes) it = some k).map
      fun it => it.f.eval fun _ => 0).prod with hC
    have hzero : ∀ m ∈ bn.uniform, Legal bn.card m.family fun _ => 0 := by
      intro m hm v hv
      refine hpos v ?_
      rw [← BN.names_of_bare hb]
      rcases List.mem_cons.1 hv with rfl | hv
      · exact List.mem_map_of_mem hm
      · exact hcu.parents_mem m hm v hv
    have hCpos : 0 < C := by
      refine List.prod_pos fun c hc => ?_
      obtain ⟨it, hit, rfl⟩ := List.mem_map.1 hc
      obtain ⟨m, hm, rfl⟩ := List.mem_map.1 (List.mem_filter.1 hit).1
      rw [hval m hm _ (hzero m hm)]
      have := hposu m hm
      positivity
    have hprod : ∀ σ, Legal bn.card n.factor.variableOrder σ →
        (((bn.uniform.map nodeItem).filter fun it => home (skel t.nodes) it = some k).map
          fun it => it.f.eval σ).prod = C := by
      intro σ hσ
      rw [hC]
      congr 1
      refine List.map_congr_left fun it hit => ?_
      obtain ⟨h1, h2⟩ := List.mem_filter.1 hit
      obtain ⟨m, hm, rfl⟩ := List.mem_map.1 h1
      rw [hval m hm _ (hzero m hm), hval m hm]
      intro v hv
      refine hσ v ((c2 v).2 ⟨nodeItem m, by simp [List.mem_map_of_mem hm], by simpa using h2, ?_⟩)
      rw [(nodeItem_spec hcu hm).2.2.1]
      exact hv
    have hl0 : lik (bn.lab x) (.hard y) 0 = 1 := by simp [lik, hy]
    by_cases hh : home (skel t.nodes) (evItem bn.uniform (x, Evidence.hard y)) = some k
    · obtain ⟨vars, g1, g2⟩ := home_mem hh
      refine ⟨c1, fun v hv => hpos v (hfam v hv), fun j => C * lik (bn.lab x) (.hard y) j,
        fun j => mul_nonneg hCpos.le (lik_nonneg (by simp) j), by dsimp only; rw [hl0, mul_one]; exact hCpos,
        fun hn => absurd (hS k vars (clique_iff_skel.2 g1) ((v6 vars).1 g2) hh) hn, fun σ hσ => ?_⟩
      rw [c3 σ hσ, List.filter_append, List.map_append, List.prod_append, hprod σ hσ]
      congr 1
      simp only [List.map_cons, List.map_nil, List.filter_cons, hh, decide_true, if_true, List.filter_nil,
        List.prod_cons, List.prod_nil, mul_one]
      rw [v4 σ, hlab]
      rw [hcard]
      refine hσ x ((c2 x).2 ⟨_, List.mem_append_right _ (by simp), hh, by rw [v3]; simp⟩)
    · refine Tame.const c1 (fun v hv => hpos v (hfam v hv)) hCpos fun σ hσ => ?_
      rw [c3 σ hσ, List.filter_append, List.map_append, List.prod_append, hprod σ hσ]
      simp [hh]
  · rw [het e hee]
    exact Tame.trivial

/-! ### the answer -/

theorem Blind.query {lab : Name → List Val} {x : Name} {S : Name → Prop} {names : List Name} {t : JTree}
    (hi : 1 < cardOf lab x) (hm : Made names t) (hpos : ∀ v ∈ names, 0 < cardOf lab v)
    (hb : Blind lab x 0 S t) {k : Name} {vs : List Name} (hk : t.Clique k vs) (hS : ¬ S k)
    (so : SetOrder) {r : Factor} (hr : query so vs t = .ok r) :
    r.eval (fun _ => 0) = r.eval (Function.update (fun _ => 0) x 1) := by
  unfold JTree.query at hr
  split at hr
  · rename_i p hp
    have h1 := List.mem_of_find?_eq_some hp
    have h2 : sub vs p.2.vars = true := by simpa using List.find?_some hp
    have hkp := hm.anti k vs p.1 p.2.vars hk ⟨p.2.factor, h1⟩ (sub_iff.1 h2)
    rw [bind_eq_ok] at hr
    obtain ⟨r', h3, h4⟩ := hr
    cases h4
    have h5 : Tame lab x 0 (S p.1) r' := (hb.nodes p h1).marginalize h3 (fun v hv =>
      hpos v (hm.mem p.1 p.2.vars ⟨_, h1⟩ v ((so.mem _ _ _).1 hv).1)) (by omega) Or.inl
    obtain ⟨o1, o2, g, g1, g2, g3, g4⟩ := h5
    have l0 : Legal (cardOf lab) r'.variableOrder fun _ => 0 := fun v hv => o2 v hv
    have l1 : Legal (cardOf lab) r'.variableOrder (Function.update (fun _ => 0) x 1) := by
      intro v hv
      by_cases hvx : v = x
      · rw [hvx, Function.update_self]; exact hi
      · rw [Function.update_of_ne hvx]; exact o2 v hv
    have e : r'.eval (fun _ => 0) = r'.eval (Function.update (fun _ => 0) x 1) := by
      rw [g4 _ l0, g4 _ l1]
      exact (g3 (hkp ▸ hS) _).symm
    rw [eval_normalize o1.wf l0, eval_normalize o1.wf l1, e]
  · cases hr

/-- With uniform tables, an observation of `x` does not reach the cliques to which the first clique
containing `x` sends no messages through cliques containing `x`. -/
theorem blind_flat {bn : BN} (hc : bn.Consistent) (hl : bn.Linked) (hr : bn.Recorded)
    (hu : UniqueJoin bn.names) (order0 : Option (List Name)) {order : List Name}
    (hord : VE.chooseOrder bn order0 = .ok order) (ho : order.Perm bn.names)
    (hpos : ∀ v ∈ bn.names, 0 < bn.card v) {so : SetOrder} {t : JTree} (ht : create so bn order0 = .ok t)
    {x : Name} {k k' : Name} {vars vars' : List Name} (hk : t.Clique k vars) (hx : x ∈ vars)
    (hk' : t.Clique k' vars') (hx' : x ∈ vars') (hno : ¬ Relation.ReflTransGen (t.Informs x) k k')
    (hcx : 1 < bn.card x) {y : Val} (hy : (bn.lab x)[0]? = some y) :
    ∃ q vs, t.Clique q vs ∧ x ∈ vs ∧ ∀ so₁ t₁, create so₁ bn.uniform order0 = .ok t₁ →
      ∀ so₂ limit so₃ limit' r,
        ((t₁.setEvidence so₂ limit bn.uniform [(x, .hard y)] false).1.marginals so₃ limit' vs).2 = .ok r →
          r.eval (fun _ => 0) = r.eval (Function.update (fun _ => 0) x 1) := by
  have hb := BN.uniform_bare bn
  have hcu := BN.uniform_consistent hc
  have hm := create_made so hc hl hr hu order0 hord ho ht
  have hnx : x ∈ bn.names := hm.mem k vars hk x hx
  -- the clique that receives the evidence
  set it := evItem bn.uniform (x, Evidence.hard y) with hit
  have he : LegalEvidence bn.uniform [(x, Evidence.hard y)] := by
    refine LegalEvidence.of_bare ⟨by simp [Dict.keys], by simpa using hnx, fun v z hv => ?_, by simp⟩ hb
    simp only [List.mem_singleton, Prod.mk.injEq, Evidence.hard.injEq] at hv
    obtain ⟨rfl, rfl⟩ := hv
    exact List.mem_of_getElem? hy
  obtain ⟨v1, v2, v3, v4, v5, v6⟩ := evItem_spec he (e := (x, Evidence.hard y)) (by simp)
  obtain ⟨k0, hk0⟩ := home_some (it := it) (clique_iff_skel.1 hk) ((v6 vars).2 hx)
  obtain ⟨vars0, w1, w2⟩ := home_mem hk0
  have hx0 : x ∈ vars0 := (v6 vars0).1 w2
  have hq0 : t.Clique k0 vars0 := clique_iff_skel.2 w1
  have hex : ∃ q vs, t.Clique q vs ∧ x ∈ vs ∧ ¬ Relation.ReflTransGen (t.Informs x) k0 q := by
    by_contra hh
    push Not at hh
    have a := hh k vars hk hx
    have b := hh k' vars' hk' hx'
    have a' : Relation.ReflTransGen (t.Informs x) k k0 := by
      clear hh b hk hno
      induction a with
      | refl => exact .refl
      | tail _ h ih => exact Relation.ReflTransGen.head h.symm ih
    exact hno (a'.trans b)
  obtain ⟨q, vs, hq, hxq, hnq⟩ := hex
  refine ⟨q, vs, hq, hxq, fun so₁ t₁ h₁ so₂ limit so₃ limit' r hres => ?_⟩
  set S : Name → Prop := fun k => Relation.ReflTransGen (t.Informs x) k0 k with hSdef
  -- same shape
  have hsh : t₁.shape = t.shape := by
    obtain ⟨p, p1, p2⟩ := plan_of_create ht
    obtain ⟨p', p1', p2'⟩ := plan_of_create h₁
    rw [plan_congr hb, p1] at p1'
    cases p1'
    rw [p2, p2']
  have hbor : Border bn.lab x t.Reached S t := hm.border hpos hq0 hx0
  have hm₁ := hm.of_shape hsh
  obtain ⟨ns, a1, a2, a3⟩ := reset_spec so₂ hcu hm₁.nodup
  set t2 : JTree := { t₁.blank with nodes := ns, valid := false } with ht2
  have hsh2 : t2.shape = t.shape := (skel_shape a2 rfl).trans hsh
  have hm2 := hm.of_shape hsh2
  obtain ⟨ns', b1, b2, b3⟩ := loadEvidence so₂ hcu he (t := t2) hm2.nodup a3
  set t3 : JTree := { t2 with nodes := ns' } with ht3
  have hsh3 : t3.shape = t.shape := by
    refine Eq.trans ?_ hsh2
    unfold shape
    have := b2
    unfold skel at this
    rw [ht3]
    dsimp only
    rw [this]
  have hbl3 : Blind bn.lab x 0 S t3 := by
    refine blind_of_contents hc hpos he hy b3 (fun e hee => ?_) fun k1 vars1 _ _ hh => ?_
    · obtain ⟨e', -, rfl⟩ := List.mem_map.1 hee
      rfl
    · rw [skel_of_shape hsh3] at hh
      rw [show home (skel t.nodes) (evItem bn.uniform (x, Evidence.hard y)) = some k0 from hk0] at hh
      cases hh
      exact .refl
  have hset : t₁.setEvidence so₂ limit bn.uniform [(x, .hard y)] false = t3.calculate so₂ limit := by
    unfold setEvidence
    rw [a1, andThen_ok, if_neg (by simp), b1, andThen_ok]
  rw [hset] at hres
  have hi : 0 < cardOf bn.lab x := by unfold BN.card at hcx; show 0 < (bn.lab x).length; omega
  set t4 := (t3.calculate so₂ limit).1 with ht4
  have hsh4 : t4.shape = t.shape := (calculate_shape so₂ limit t3).trans hsh3
  have hbl4 : Blind bn.lab x 0 S t4 := hbl3.calculate so₂ hi limit (hbor.of_shape hsh3)
  have fin : ∀ t5 : JTree, t5.shape = t.shape → Blind bn.lab x 0 S t5 → JTree.query so₃ vs t5 = .ok r →
      r.eval (fun _ => 0) = r.eval (Function.update (fun _ => 0) x 1) := fun t5 h5 hbl hqr =>
    hbl.query hcx (hm.of_shape h5) hpos ((clique_of_shape h5 q vs).2 hq) hnq so₃ hqr
  unfold JTree.marginals at hres
  split at hres
  · rename_i t5 h5
    dsimp only at hres
    split at h5
    · cases h5
      exact fin t4 hsh4 hbl4 hres
    · have e5 : t5 = (t4.calculate so₃ limit').1 := by rw [h5]
      refine fin t5 ?_ ?_ hres
      · rw [e5]; exact (calculate_shape so₃ limit' t4).trans hsh4
      · rw [e5]; exact hbl4.calculate so₃ hi limit' (hbor.of_shape hsh4)
  · cases hres

end JTree

theorem uniform_weight_pos {bn : BN} (hc : bn.Consistent) (hpos : ∀ v ∈ bn.names, 0 < bn.card v) {x : Name}
    {y : Val} (hy : (bn.lab x)[0]? = some y) : 0 < weight bn.uniform [(x, .hard y)] fun _ => 0 := by
  have hb := BN.uniform_bare bn
  have hcu := BN.uniform_consistent hc
  have hcard := BN.card_of_bare hb
  unfold weight
  refine mul_pos (List.prod_pos fun c hc' => ?_) (by simp [lik, BN.lab_of_bare hb, hy])
  obtain ⟨n, hn, rfl⟩ := List.mem_map.1 hc'
  have hl : 0 < n.values.length := by
    have := hpos n.name (by rw [← BN.names_of_bare hb]; exact List.mem_map_of_mem hn)
    rw [← hcard] at this
    unfold BN.card at this
    rwa [BN.lab_eq hcu.nodup hn] at this
  have := BN.uniform_get hn (σ := fun _ => 0) hl fun v hv => hpos v (by
    rw [← BN.names_of_bare hb]; exact hcu.parents_mem n hn v hv)
  show 0 < n.cpd.get _
  rw [this]
  positivity

/-- With uniform tables the observation is possible. -/
theorem uniform_total_pos {bn : BN} (hc : bn.Consistent) (hpos : ∀ v ∈ bn.names, 0 < bn.card v) {x : Name}
    {y : Val} (hy : (bn.lab x)[0]? = some y) (he : LegalEvidence bn.uniform [(x, .hard y)]) (σ : Assign) :
    0 < totalWeight bn.uniform [(x, .hard y)] σ := by
  have hb := BN.uniform_bare bn
  have hcard := BN.card_of_bare hb
  have hnn : ∀ σ, 0 ≤ weight bn.uniform [(x, .hard y)] σ :=
    weight_nonneg (BN.uniform_nonneg bn) (by simp [NonNegEvidence])
  rw [totalWeight_const (BN.uniform_consistent hc) he σ fun _ => 0]
  refine lt_of_lt_of_le (uniform_weight_pos hc hpos hy) (le_sumOver (fun τ _ => hnn τ) ⟨fun v _ => rfl,
    fun v hv => ?_⟩)
  rw [hcard]
  refine hpos v ?_
  rw [← BN.names_of_bare hb]
  exact List.mem_toFinset.1 hv

/-- With uniform tables and the first outcome of `x` observed, the posterior is not flat. -/
theorem posterior_not_flat {bn : BN} (hc : bn.Consistent) (hpos : ∀ v ∈ bn.names, 0 < bn.card v) {x : Name}
    {y : Val} (hy : (bn.lab x)[0]? = some y) {vs : List Name} (hxv : x ∈ vs) :
    posterior bn.uniform [(x, .hard y)] vs (fun _ => 0) ≠
      posterior bn.uniform [(x, .hard y)] vs (Function.update (fun _ => 0) x 1) := by
  have hb := BN.uniform_bare bn
  have hcu := BN.uniform_consistent hc
  have hcard := BN.card_of_bare hb
  have hnn : ∀ σ, 0 ≤ weight bn.uniform [(x, .hard y)] σ :=
    weight_nonneg (BN.uniform_nonneg bn) (by simp [NonNegEvidence])
  have h0 := uniform_weight_pos hc hpos hy
  have h1 : ∀ σ : Assign, σ x = 1 → weight bn.uniform [(x, .hard y)] σ = 0 := by
    intro σ hσ
    unfold weight
    have : lik (bn.uniform.lab x) (.hard y) 1 = 0 := by
      unfold lik
      rw [BN.lab_of_bare hb]
      dsimp only
      rw [if_neg]
      exact fun h => h.2 0 (by omega) hy
    simp [hσ, this]
  have m0 : 0 < sumOver bn.uniform.card (bn.uniform.names.toFinset \ vs.toFinset)
      (weight bn.uniform [(x, .hard y)]) fun _ => 0 := by
    refine lt_of_lt_of_le h0 (le_sumOver (fun τ _ => hnn τ) ⟨fun v _ => rfl, fun v hv => ?_⟩)
    rw [hcard]
    refine hpos v ?_
    rw [← BN.names_of_bare hb]
    exact List.mem_toFinset.1 (mem_sdiff.1 hv).1
  have m1 : sumOver bn.uniform.card (bn.uniform.names.toFinset \ vs.toFinset)
      (weight bn.uniform [(x, .hard y)]) (Function.update (fun _ => 0) x 1) = 0 := by
    have : sumOver bn.uniform.card (bn.uniform.names.toFinset \ vs.toFinset)
        (weight bn.uniform [(x, .hard y)]) (Function.update (fun _ => 0) x 1) =
      sumOver bn.uniform.card (bn.uniform.names.toFinset \ vs.toFinset) (fun _ => 0)
        (Function.update (fun _ => 0) x 1) :=
      sumOver_congr fun τ hτ => h1 τ (by
        rw [hτ.1 x (by simp [hxv]), Function.update_self])
    rw [this]
    simp [sumOver]
  have p0 : 0 < posterior bn.uniform [(x, .hard y)] vs fun _ => 0 := by
    unfold posterior
    dsimp only
    split
    · rename_i hz; exact div_pos m0 hz
    · exact m0
  have p1 : posterior bn.uniform [(x, .hard y)] vs (Function.update (fun _ => 0) x 1) = 0 := by
    unfold posterior
    dsimp only
    rw [m1]
    simp
  rw [p1]
  exact p0.ne'

end Primo
