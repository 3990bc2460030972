import Verif.Lemmas.Rules
import Verif.Props.FactorQuery

/-! # Choosing decisions -/

namespace Primo
open Finset

theorem FirstMax.mem {g : Val → ℚ} {l : List Val} {z : Val} (h : FirstMax g l z) : z ∈ l := by
  obtain ⟨pre, post, rfl, _⟩ := h; simp

theorem FirstMax.le {g : Val → ℚ} {l : List Val} {z : Val} (h : FirstMax g l z) {w : Val}
    (hw : w ∈ l) : g w ≤ g z := by
  obtain ⟨pre, post, rfl, h1, h2⟩ := h
  rcases List.mem_append.1 hw with hw | hw
  · exact (h1 w hw).le
  · rcases List.mem_cons.1 hw with rfl | hw
    · exact le_rfl
    · exact h2 w hw

theorem FirstMax.congr {g g' : Val → ℚ} {l : List Val} {z : Val} (h : FirstMax g l z)
    (e : ∀ w ∈ l, g w = g' w) : FirstMax g' l z := by
  obtain ⟨pre, post, rfl, h1, h2⟩ := h
  refine ⟨pre, post, rfl, fun w hw => ?_, fun w hw => ?_⟩
  · rw [← e w (by simp [hw]), ← e z (by simp)]; exact h1 w hw
  · rw [← e w (by simp [hw]), ← e z (by simp)]; exact h2 w hw

theorem pick_some {r : Factor} {d : Name} {g : Val → ℚ} (xs : List Val) (y : Val)
    (h : ∀ x ∈ xs, r.getPotential [(d, [x])] = .ok (NDArray.scalar (g x))) :
    ∃ z, Decision.pick r d xs (some (y, NDArray.scalar (g y))) = .ok (some z) ∧
      FirstMax g (y :: xs) z := by
  induction xs generalizing y with
  | nil => exact ⟨y, rfl, [], [], rfl, by simp, by simp⟩
  | cons x xs ih =>
    have hg : Decision.greater (NDArray.scalar (g x)) (NDArray.scalar (g y)) =
        .ok (decide (g x > g y)) := rfl
    rw [Decision.pick, h x (by simp), ok_bind]
    simp only
    rw [hg, ok_bind]
    by_cases hxy : g x > g y
    · rw [if_pos (by simpa using hxy)]
      obtain ⟨z, z1, z2⟩ := ih x fun w hw => h w (by simp [hw])
      refine ⟨z, z1, ?_⟩
      have hxz := z2.le (w := x) (by simp)
      obtain ⟨pre, post, e, a, b⟩ := z2
      refine ⟨y :: pre, post, by rw [e]; rfl, fun w hw => ?_, b⟩
      rcases List.mem_cons.1 hw with rfl | hw
      · exact lt_of_lt_of_le hxy hxz
      · exact a w hw
    · rw [if_neg (by simpa using hxy)]
      obtain ⟨z, z1, pre, post, e, a, b⟩ := ih y fun w hw => h w (by simp [hw])
      refine ⟨z, z1, ?_⟩
      cases pre with
      | nil =>
        simp only [List.nil_append, List.cons.injEq] at e
        obtain ⟨rfl, rfl⟩ := e
        refine ⟨[], x :: xs, rfl, by simp, fun w hw => ?_⟩
        rcases List.mem_cons.1 hw with rfl | hw
        · exact not_lt.1 hxy
        · exact b w hw
      | cons p pre =>
        simp only [List.cons_append, List.cons.injEq] at e
        obtain ⟨rfl, rfl⟩ := e
        refine ⟨y :: x :: pre, post, rfl, fun w hw => ?_, b⟩
        have hy := a y (by simp)
        rcases List.mem_cons.1 hw with rfl | hw
        · exact hy
        rcases List.mem_cons.1 hw with rfl | hw
        · exact lt_of_le_of_lt (not_lt.1 hxy) hy
        · exact a w (by simp [hw])

theorem pick_spec {r : Factor} {d : Name} {g : Val → ℚ} {xs : List Val} (hne : xs ≠ [])
    (h : ∀ x ∈ xs, r.getPotential [(d, [x])] = .ok (NDArray.scalar (g x))) :
    ∃ z, Decision.pick r d xs none = .ok (some z) ∧ FirstMax g xs z := by
  cases xs with
  | nil => exact absurd rfl hne
  | cons x xs =>
    obtain ⟨z, z1, z2⟩ := pick_some xs x fun w hw => h w (by simp [hw])
    refine ⟨z, ?_, z2⟩
    rw [Decision.pick, h x (by simp), ok_bind]
    exact z1

/-- splitting a correspondence at an element -/
theorem forall2_split {α β : Type} {R : α → β → Prop} {l₁ l₂ : List α} {a : α} {m : List β}
    (h : List.Forall₂ R (l₁ ++ a :: l₂) m) :
    ∃ m₁ b m₂, m = m₁ ++ b :: m₂ ∧ R a b ∧ List.Forall₂ R (l₁ ++ l₂) (m₁ ++ m₂) := by
  induction l₁ generalizing m with
  | nil =>
    cases h with
    | cons h1 h2 => exact ⟨[], _, _, rfl, h1, h2⟩
  | cons x l₁ ih =>
    cases h with
    | cons h1 h2 =>
      obtain ⟨m₁, b, m₂, rfl, hb, h3⟩ := ih h2
      exact ⟨_ :: m₁, b, m₂, rfl, hb, .cons h1 h3⟩

/-- product of the tables and rules of some nodes -/
def restProb (l : BN) (σ : Assign) : ℚ := (l.map fun n => n.prob σ).prod

/-- the other nodes of the network -/
def BN.without (dn : BN) (d : NodeV) : BN := dn.filter fun n => n.name ≠ d.name

section split
variable {l₁ l₂ : BN} {d : NodeV}

theorem split_ne (hnd : BN.names (l₁ ++ d :: l₂) |>.Nodup) : ∀ n ∈ l₁ ++ l₂, n.name ≠ d.name := by
  intro n hn e
  simp only [BN.names, List.map_append, List.map_cons] at hnd
  have h := (List.nodup_middle.1 hnd)
  rw [List.nodup_cons] at h
  refine h.1 ?_
  rw [← e, ← List.map_append]
  exact List.mem_map_of_mem hn

theorem putCpd_split (hnd : BN.names (l₁ ++ d :: l₂) |>.Nodup) (c : NDArray) :
    BN.putCpd (l₁ ++ d :: l₂) d.name c = l₁ ++ { d with cpd := c } :: l₂ := by
  have hne := split_ne hnd
  unfold BN.putCpd
  rw [List.map_append, List.map_cons, if_pos rfl]
  congr 1
  · rw [List.map_congr_left (g := id) fun n hn => ?_, List.map_id]
    simp [hne n (by simp [hn])]
  · congr 1
    rw [List.map_congr_left (g := id) fun n hn => ?_, List.map_id]
    simp [hne n (by simp [hn])]

theorem without_split (hnd : BN.names (l₁ ++ d :: l₂) |>.Nodup) :
    BN.without (l₁ ++ d :: l₂) d = l₁ ++ l₂ := by
  have hne := split_ne hnd
  unfold BN.without
  rw [List.filter_append, List.filter_cons_of_neg (by simp),
    List.filter_eq_self.2 fun n hn => by simpa using hne n (by simp [hn]),
    List.filter_eq_self.2 fun n hn => by simpa using hne n (by simp [hn])]

end split

section
variable {dn : BN} {d : NodeV}

theorem joint_putCpd (hc : DNConsistent dn) (hd : d ∈ dn) (hk : d.kind ≠ .utility)
    (c : NDArray) (τ : Assign) :
    joint (dn.putCpd d.name c).chance τ =
      c.get (τ d.name :: d.parentOrder.map τ) * restProb (dn.without d) τ := by
  obtain ⟨l₁, l₂, rfl⟩ := List.append_of_mem hd
  rw [putCpd_split hc.nodup, without_split hc.nodup, ← prod_prob, restProb, List.map_append,
    List.map_cons, List.prod_append, List.prod_cons, List.map_append, List.prod_append]
  have : NodeV.prob { d with cpd := c } τ = c.get (τ d.name :: d.parentOrder.map τ) := by
    rw [NodeV.prob, if_neg hk]; rfl
  rw [this]; ring

theorem putCpd_recpd (dn : BN) (v : Name) (c : NDArray) :
    dn.putCpd v c = dn.recpd fun m => if m.name = v then c else m.cpd := by
  unfold BN.putCpd BN.recpd
  refine List.map_congr_left fun m _ => ?_
  dsimp only
  by_cases h : m.name = v
  · rw [if_pos h, if_pos h]
  · rw [if_neg h, if_neg h]

theorem putCpd_chance_card (dn : BN) (v : Name) (c : NDArray) :
    (dn.putCpd v c).chance.card = dn.chance.card := by
  rw [putCpd_recpd, recpd_chance, recpd_card]

theorem putCpd_chance_names (dn : BN) (v : Name) (c : NDArray) :
    (dn.putCpd v c).chance.names = dn.chance.names := by
  rw [putCpd_recpd, recpd_chance, recpd_names]

theorem putCpd_utility (hc : DNConsistent dn) (hd : d ∈ dn) (hk : d.kind ≠ .utility) (c : NDArray)
    (σ : Assign) : totalUtility (dn.putCpd d.name c) σ = totalUtility dn σ := by
  rw [putCpd_recpd]
  refine recpd_utility (fun n hn => if_neg fun e => ?_) σ
  obtain ⟨h1, h2⟩ := mem_utils.1 hn
  rw [List.inj_on_of_nodup_map hc.nodup h1 hd e] at h2
  exact hk h2

/-- total of `G` over the other variables, weighted with the other tables, for outcome `i` of `d` -/
def restSum (dn : BN) (d : NodeV) (G : Assign → ℚ) (i : Nat) : ℚ :=
  sumOver dn.chance.card (dn.chance.names.toFinset.erase d.name)
    (fun τ => restProb (dn.without d) τ * G τ) (Function.update (fun _ => 0) d.name i)

/-- The total is linear in the rule of a node without parents. -/
theorem sum_putCpd (hc : DNConsistent dn) (hd : d ∈ dn) (hk : d.kind ≠ .utility)
    (hp : d.parentOrder = []) (c : NDArray) (G : Assign → ℚ) :
    sumOver dn.chance.card dn.chance.names.toFinset
      (fun τ => joint (dn.putCpd d.name c).chance τ * G τ) (fun _ => 0) =
    ∑ i ∈ range d.values.length, c.get [i] * restSum dn d G i := by
  have hdn : d.name ∈ dn.chance.names := List.mem_map_of_mem (mem_chance.2 ⟨hd, hk⟩)
  have hcard : dn.chance.card d.name = d.values.length := by
    rw [BN.card, BN.lab_eq hc.chance.nodup (mem_chance.2 ⟨hd, hk⟩)]
  have hset : dn.chance.names.toFinset = {d.name} ∪ dn.chance.names.toFinset.erase d.name := by
    rw [← insert_eq, insert_erase (by simpa using hdn)]
  rw [hset, sumOver_union (by simp), sumOver_singleton, hcard]
  refine sum_congr rfl fun i _ => ?_
  rw [restSum, ← sumOver_const_mul]
  refine sumOver_congr fun τ hτ => ?_
  have hτd : τ d.name = i := by rw [hτ.1 d.name (by simp), Function.update_self]
  rw [joint_putCpd hc hd hk, hp, hτd, List.map_nil]
  ring

theorem utilityMass_putCpd (hc : DNConsistent dn) (hd : d ∈ dn) (hk : d.kind ≠ .utility)
    (hp : d.parentOrder = []) (c : NDArray) :
    utilityMass (dn.putCpd d.name c) =
      ∑ i ∈ range d.values.length, c.get [i] * restSum dn d (totalUtility dn) i := by
  rw [← sum_putCpd hc hd hk hp, utilityMass, putCpd_chance_card, putCpd_chance_names]
  simp only [putCpd_utility hc hd hk]

theorem mass_putCpd (hc : DNConsistent dn) (hd : d ∈ dn) (hk : d.kind ≠ .utility)
    (hp : d.parentOrder = []) (c : NDArray) :
    mass (dn.putCpd d.name c) =
      ∑ i ∈ range d.values.length, c.get [i] * restSum dn d (fun _ => 1) i := by
  rw [← sum_putCpd hc hd hk hp, mass, putCpd_chance_card, putCpd_chance_names]
  simp only [mul_one]

theorem decide_putCpd (hc : DNConsistent dn) (hd : d ∈ dn) (x : Val) :
    dn.decide [(d.name, x)] = dn.putCpd d.name (d.pureRule x) := by
  rw [putCpd_eq d.name (fun m => m.pureRule x) hc.nodup hd rfl, decide_eq]
  congr 1
  funext m
  by_cases h : m.name = d.name
  · simp [decideCpd, Dict.get?, h]
  · simp [decideCpd, Dict.get?, h, Ne.symm h]

theorem pureRule_pick (hc : DNConsistent dn) (hd : d ∈ dn) (hf : d.FreeDecision) {x : Val}
    (hx : x ∈ d.values) (f : Nat → ℚ) :
    ∑ i ∈ range d.values.length, (d.pureRule x).get [i] * f i = f (d.values.idxOf x) := by
  have hs := hc.cpd_shape hd hf.kind
  rw [hf.order] at hs
  have hlt := List.idxOf_lt_length_of_mem hx
  rw [sum_congr rfl fun i hi => by
    rw [get_pureRule (show InRange d.cpd.shape [i] by rw [hs]; exact .cons (mem_range.1 hi) .nil)]]
  simp only [List.head?_cons, Option.some.injEq, ite_mul, one_mul, zero_mul, sum_ite_eq',
    mem_range, hlt, if_true]

theorem utilityMass_decide (hc : DNConsistent dn) (hd : d ∈ dn) (hf : d.FreeDecision) {x : Val}
    (hx : x ∈ d.values) :
    utilityMass (dn.decide [(d.name, x)]) =
      restSum dn d (totalUtility dn) (d.values.idxOf x) := by
  rw [decide_putCpd hc hd, utilityMass_putCpd hc hd (by rw [hf.kind]; decide) hf.order,
    pureRule_pick hc hd hf hx]

theorem mass_decide (hc : DNConsistent dn) (hd : d ∈ dn) (hf : d.FreeDecision) {x : Val}
    (hx : x ∈ d.values) :
    mass (dn.decide [(d.name, x)]) = restSum dn d (fun _ => 1) (d.values.idxOf x) := by
  rw [decide_putCpd hc hd, mass_putCpd hc hd (by rw [hf.kind]; decide) hf.order,
    pureRule_pick hc hd hf hx]

theorem mass_eq_one {dn : BN} (hc : DNConsistent dn) (ha : dn.chance.Acyclic)
    (hs : dn.chance.Stochastic) : mass dn = 1 := by
  have := totalWeight_nil hc.chance ha hs fun _ => 0
  rwa [totalWeight, weight_nil] at this

theorem legal_single (hd : d ∈ dn) (hf : d.FreeDecision) {x : Val} (hx : x ∈ d.values) :
    LegalDecisions dn [(d.name, x)] :=
  ⟨by simp, fun p hp => by
    rw [List.mem_singleton.1 hp]
    exact ⟨d, hd, rfl, hf.kind, hx⟩⟩

/-- the table from which `_optimize_locally` chooses -/
theorem localTable (so : SetOrder) (sp : SetPerm) (hc : DNConsistent dn)
    (hnn : dn.chance.NonNeg) (ha : dn.chance.Acyclic) (hd : d ∈ dn) (hf : d.FreeDecision)
    (hs : ∀ n ∈ dn.chance, n.name = d.name ∨ n.Normalised dn.chance.card) :
    ∃ fs r, Decision.factors dn = .ok fs ∧
      Decision.generalizedVE so sp fs (Decision.othersOf dn d) = .ok r ∧ JointOver dn.chance.lab r ∧
      (∀ u, u ∈ r.1.variableOrder ↔ u = d.name) ∧
      ∀ x ∈ d.values, r.2.eval (Function.update (fun _ => 0) d.name (d.values.idxOf x)) =
        utilityMass (dn.decide [(d.name, x)]) := by
  have hk : d.kind ≠ .utility := by rw [hf.kind]; decide
  have hdc : d ∈ dn.chance := mem_chance.2 ⟨hd, hk⟩
  obtain ⟨fs, g1, g2⟩ := factors_over hc hnn dn fun _ h => h
  obtain ⟨l₁, l₂, hsp⟩ := List.append_of_mem hd
  have hwo : dn.without d = l₁ ++ l₂ := by
    rw [hsp]; exact without_split (hsp ▸ hc.nodup)
  rw [hsp] at g2
  obtain ⟨m₁, fd, m₂, rfl, hfd, g3⟩ := forall2_split g2
  rw [← hsp] at hfd g3
  rw [← hwo] at g3
  have hvs : Decision.othersOf dn d = (dn.without d).chance.names := by
    unfold Decision.othersOf BN.without BN.chance
    rw [List.filter_filter, hf.parents]
    congr 2
    funext n
    simp [Bool.and_comm]
  have hnd : (dn.without d).chance.names.Nodup := by
    refine (List.Nodup.sublist ?_ hc.nodup)
    exact List.Sublist.map _ ((List.filter_sublist).trans List.filter_sublist)
  have hvmem : ∀ v, v ∈ (dn.without d).chance.names ↔ v ∈ dn.chance.names ∧ v ≠ d.name := by
    intro v
    simp only [BN.names, BN.chance, BN.without, List.mem_map, List.mem_filter, decide_eq_true_eq]
    constructor
    · rintro ⟨n, ⟨⟨a, b⟩, c⟩, rfl⟩; exact ⟨⟨n, ⟨a, c⟩, rfl⟩, b⟩
    · rintro ⟨⟨n, ⟨a, c⟩, rfl⟩, b⟩; exact ⟨n, ⟨⟨a, b⟩, c⟩, rfl⟩
  have hset : (dn.without d).chance.names.toFinset = dn.chance.names.toFinset.erase d.name := by
    ext v
    simp only [List.mem_toFinset, hvmem, mem_erase]
    exact and_comm
  have hscd : fd.1.variableOrder = [d.name] := by
    rw [hfd.2.1, NodeV.scope, if_neg hk, hf.order]
  have hB := forall2_over g3
  have hin := forall2_inScope g3
  have hsub : ∀ n ∈ dn.without d, n ∈ dn := fun n hn => List.mem_of_mem_filter hn
  have hcardd : dn.chance.card d.name = d.values.length := by
    rw [BN.card, BN.lab_eq hc.chance.nodup hdc]
  have hinB : ∀ v ∈ (dn.without d).chance.names, InScope (m₁ ++ m₂) v := by
    intro v hv
    rw [hin]
    obtain ⟨n, hn, rfl⟩ := List.mem_map.1 hv
    obtain ⟨h1, h2⟩ := mem_chance.1 hn
    exact ⟨n, h1, by simp [NodeV.scope, h2]⟩
  have hBscope : ∀ u, InScope (m₁ ++ m₂) u → u ∉ (dn.without d).chance.names → u = d.name := by
    intro u hu hm
    obtain ⟨n, hn, hv⟩ := (hin u).1 hu
    by_contra hne
    exact hm ((hvmem u).2 ⟨scope_mem hc (hsub n hn) hv, hne⟩)
  -- the two totals for outcome number `i`
  have heval : ∀ i < d.values.length,
      sumOver (Factor.cardOf dn.chance.lab) (dn.without d).chance.names.toFinset
        (probOf (m₁ ++ m₂)) (Function.update (fun _ => 0) d.name i) =
          restSum dn d (fun _ => 1) i ∧
      sumOver (Factor.cardOf dn.chance.lab) (dn.without d).chance.names.toFinset
        (fun τ => probOf (m₁ ++ m₂) τ * utilOf (m₁ ++ m₂) τ) (Function.update (fun _ => 0) d.name i) =
          restSum dn d (totalUtility dn) i := by
    intro i hi
    have hleg : ∀ τ, Varies (Factor.cardOf dn.chance.lab)
        (dn.without d).chance.names.toFinset (Function.update (fun _ => 0) d.name i) τ →
        ∀ n ∈ dn.without d, Legal dn.chance.card n.scope τ := by
      intro τ hτ n hn v hv
      by_cases hm : v ∈ (dn.without d).chance.names
      · exact hτ.2 v (by simpa using hm)
      · have : v = d.name := hBscope v ((hin v).2 ⟨n, hn, hv⟩) hm
        rw [hτ.1 v (by simpa using hm), this, Function.update_self, hcardd]
        exact hi
    have hU : ∀ τ, ((dn.without d).map fun n => n.util τ).sum = totalUtility dn τ := by
      intro τ
      rw [← sum_util, hwo]
      conv_rhs => rw [hsp]
      rw [List.map_append, List.map_append, List.map_cons, List.sum_append, List.sum_append,
        List.sum_cons, NodeV.util, if_neg hk, zero_add]
    unfold restSum
    rw [hset] at hleg ⊢
    constructor
    · refine sumOver_congr fun τ hτ => ?_
      rw [(forall2_eval g3 τ (hleg τ hτ)).1, mul_one]; rfl
    · refine sumOver_congr fun τ hτ => ?_
      obtain ⟨a, b⟩ := forall2_eval g3 τ (hleg τ hτ)
      rw [a, b, hU]; rfl
  have hone : ∀ x ∈ d.values, restSum dn d (fun _ => 1) (d.values.idxOf x) = 1 := by
    intro x hx
    rw [← mass_decide hc hd hf hx]
    refine mass_eq_one (decide_dnConsistent hc _) (decide_acyclic ha _)
      (decide_stochastic hc (legal_single hd hf hx) fun n hn => ?_)
    rcases hs n hn with h | h
    · exact Or.inl (by simp [h])
    · exact Or.inr h
  have hlegσ : ∀ i < d.values.length, ∀ u, InScope (m₁ ++ m₂) u →
      u ∉ (dn.without d).chance.names →
      Function.update (fun _ => 0) d.name i u < Factor.cardOf dn.chance.lab u := by
    intro i hi u hu hm
    rw [hBscope u hu hm, Function.update_self]
    show i < dn.chance.card d.name
    rw [hcardd]; exact hi
  refine ⟨m₁ ++ fd :: m₂, ?_⟩
  rw [hvs]
  rcases generalizedVE_spec so sp hnd (lab := dn.chance.lab) (A := [fd]) (B := m₁ ++ m₂)
      (W := m₁ ++ fd :: m₂) (by simp) (by simp)
      (by
        intro f hf' v hv
        rw [List.mem_singleton.1 hf', hscd, List.mem_singleton]
        exact ((hvmem v).1 hv).2)
      (by intro f hf'; rw [List.mem_singleton.1 hf']; exact hfd.1) hB hinB with
    ⟨_, e2⟩ | ⟨r, B', r1, r2, r3, _, r5, r6⟩
  · exfalso
    obtain ⟨x, hx⟩ := List.exists_mem_of_ne_nil _ hf.values_ne
    have hlt := List.idxOf_lt_length_of_mem hx
    have := e2 _ (hlegσ _ hlt)
    rw [(heval _ hlt).1, hone x hx] at this
    exact one_ne_zero this
  · have hsc : ∀ u, u ∈ r.1.variableOrder ↔ u = d.name := by
      intro u
      rw [r3]
      constructor
      · rintro (⟨f, hf', hu⟩ | h)
        · rw [List.mem_singleton.1 hf', hscd] at hu; simpa using hu
        · exact hBscope u ((r5 u).1 h).1 ((r5 u).1 h).2
      · rintro rfl
        exact Or.inl ⟨fd, by simp, by rw [hscd]; simp⟩
    have hval : ∀ x ∈ d.values, r.2.eval (Function.update (fun _ => 0) d.name (d.values.idxOf x)) =
        utilityMass (dn.decide [(d.name, x)]) := by
      intro x hx
      have hlt := List.idxOf_lt_length_of_mem hx
      have hl : Legal (Factor.cardOf dn.chance.lab) r.1.variableOrder
          (Function.update (fun _ => 0) d.name (d.values.idxOf x)) := by
        intro u hu
        rw [(hsc u).1 hu, Function.update_self]
        show _ < dn.chance.card d.name
        rw [hcardd]; exact hlt
      obtain ⟨_, b, c, e⟩ := r6 _ hl
      rw [c, (heval _ hlt).1, hone x hx, one_mul, (heval _ hlt).2] at e
      have hA : utilOf [fd] (Function.update (fun _ => 0) d.name (d.values.idxOf x)) = 0 := by
        have := (hfd.2.2 (Function.update (fun _ => 0) d.name (d.values.idxOf x)) (by
          rw [← hfd.2.1, hscd]
          intro u hu
          rw [List.mem_singleton.1 hu, Function.update_self, hcardd]; exact hlt)).2
        rw [NodeV.util, if_neg hk] at this
        simpa [utilOf] using this
      rw [b, hA, zero_add, e, utilityMass_decide hc hd hf hx]
    exact ⟨r, g1, r1, r2, hsc, hval⟩

theorem getPotential_single {lab : Name → List Val} {r : Factor} (hr : r.Over lab) {v : Name}
    (hsc : ∀ u, u ∈ r.variableOrder ↔ u = v) (hnd : (lab v).Nodup) {x : Val} (hx : x ∈ lab v) :
    r.getPotential [(v, [x])] =
      .ok (NDArray.scalar (r.eval (Function.update (fun _ => 0) v ((lab v).idxOf x)))) := by
  refine C08_single r hr.wf lab hr.val ?_ _ _ ?_ ?_
  · intro h
    have := (hsc v).2 rfl
    rw [h] at this
    simp at this
  · intro w hw
    rw [(hsc w).1 hw]; exact hnd
  · intro w hw
    rw [(hsc w).1 hw]
    refine ⟨x, by simp [Dict.get?], ?_⟩
    rw [Function.update_self]
    exact (firstAt_idxOf hx).1

/-- `_optimize_locally` for a decision node without information -/
theorem optimizeLocally_spec (so : SetOrder) (sp : SetPerm) (hc : DNConsistent dn)
    (hnn : dn.chance.NonNeg) (ha : dn.chance.Acyclic) (hd : d ∈ dn) (hf : d.FreeDecision)
    (hs : ∀ n ∈ dn.chance, n.name = d.name ∨ n.Normalised dn.chance.card) :
    ∃ x, Decision.optimizeLocally so sp dn d.name = .ok (some x) ∧
      FirstMax (fun y => utilityMass (dn.decide [(d.name, y)])) d.values x := by
  have hk : d.kind ≠ .utility := by rw [hf.kind]; decide
  obtain ⟨fs, r, h1, h2, h3, h4, h5⟩ := localTable so sp hc hnn ha hd hf hs
  have hlab : dn.chance.lab d.name = d.values := BN.lab_eq hc.chance.nodup (mem_chance.2 ⟨hd, hk⟩)
  unfold Decision.optimizeLocally
  rw [lookup_ok hc.nodup hd, ok_bind, h1, ok_bind, h2, ok_bind, if_neg hk]
  refine pick_spec hf.values_ne fun x hx => ?_
  rw [← h5 x hx, ← hlab]
  exact getPotential_single h3.util (fun u => by rw [h3.scope, h4]) (hlab ▸ hf.values_nodup) (hlab.symm ▸ hx)

end

end Primo
