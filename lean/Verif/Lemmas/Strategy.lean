import Mathlib.Algebra.BigOperators.Field
import Verif.Lemmas.Optimize

/-! # Pure and mixed strategies -/

namespace Primo
open Finset

theorem recpd_recpd (dn : BN) (c c' : NodeV → NDArray) :
    (dn.recpd c).recpd c' = dn.recpd fun n => c' { n with cpd := c n } := by
  unfold BN.recpd
  rw [List.map_map]
  rfl

theorem recpd_congr {dn : BN} {c c' : NodeV → NDArray} (h : ∀ n ∈ dn, c n = c' n) :
    dn.recpd c = dn.recpd c' := by
  unfold BN.recpd
  refine List.map_congr_left fun n hn => ?_
  rw [h n hn]

theorem pureRule_congr {n : NodeV} {c : NDArray} (h : c.shape = n.cpd.shape) (x : Val) :
    NodeV.pureRule { n with cpd := c } x = n.pureRule x := by
  simp only [NodeV.pureRule, h]

theorem mixedRule_congr {n : NodeV} {c : NDArray} (h : c.shape = n.cpd.shape) :
    NodeV.mixedRule { n with cpd := c } = n.mixedRule := by
  simp only [NodeV.mixedRule, h]

theorem decideCpd_congr {n : NodeV} {c : NDArray} (h : c.shape = n.cpd.shape) (D : Dict Val) :
    decideCpd D { n with cpd := c } = if n.name ∈ D.keys then decideCpd D n else c := by
  unfold decideCpd
  cases e : D.get? n.name with
  | none => simp [Dict.get?_eq_none.1 e]
  | some x => rw [if_pos (Dict.get?_isSome.1 ⟨x, e⟩)]; exact pureRule_congr h x

theorem mixCpd_congr {n : NodeV} {c : NDArray} (h : c.shape = n.cpd.shape) (F : Dict Val)
    (o : List Name) :
    mixCpd F o { n with cpd := c } = if n.name ∈ o then mixCpd F o n else c := by
  unfold mixCpd
  by_cases e : n.name ∈ o
  · rw [if_pos e, if_pos e, if_pos e]
    cases F.get? n.name with
    | none => exact mixedRule_congr h
    | some x => exact pureRule_congr h x
  · rw [if_neg e, if_neg e]

section
variable {dn : BN}

theorem mix_mix (dn : BN) (F : Dict Val) (v : Name) (o : List Name) :
    (dn.mix F [v]).mix F o = dn.mix F (v :: o) := by
  rw [mix_eq, mix_eq, mix_eq, recpd_recpd]
  refine recpd_congr fun n _ => ?_
  rw [mixCpd_congr (mixCpd_shape F [v] n)]
  by_cases h : n.name ∈ o <;> by_cases h' : n.name = v
  · subst h'; simp [mixCpd, h]
  · simp [mixCpd, h, h']
  · subst h'; simp [mixCpd, h]
  · simp [mixCpd, h, h']

theorem mix_cons (dn : BN) (F : Dict Val) (v : Name) (o : List Name) :
    (dn.mix F o).mix F [v] = dn.mix F (v :: o) := by
  rw [mix_eq, mix_eq, mix_eq, recpd_recpd]
  refine recpd_congr fun n _ => ?_
  rw [mixCpd_congr (mixCpd_shape F o n)]
  by_cases h : n.name ∈ o <;> by_cases h' : n.name = v
  · subst h'; simp [mixCpd, h]
  · simp [mixCpd, h, h']
  · subst h'; simp [mixCpd, h]
  · simp [mixCpd, h, h']

theorem mix_decide (dn : BN) (v : Name) (x : Val) (o : List Name) :
    (dn.mix [] o).decide [(v, x)] = (dn.decide [(v, x)]).mix [] (o.filter (· ≠ v)) := by
  rw [mix_eq, decide_eq, decide_eq, mix_eq, recpd_recpd, recpd_recpd]
  refine recpd_congr fun n _ => ?_
  rw [decideCpd_congr (mixCpd_shape [] o n), mixCpd_congr (decideCpd_shape _ n)]
  by_cases h : n.name ∈ o <;> by_cases h' : n.name = v
  · subst h'; simp
  · simp [mixCpd, h, h']
  · subst h'; simp
  · have : ¬ v = n.name := fun e => h' e.symm
    simp [mixCpd, decideCpd, Dict.get?, h, h', this]

theorem get?_strategy (dn : BN) (o : List Name) (σ : Assign) (v : Name) :
    (dn.strategy o σ).get? v =
      if v ∈ o then some ((dn.chance.lab v).getD (σ v) "") else none := by
  unfold BN.strategy
  induction o with
  | nil => rfl
  | cons u o ih =>
    simp only [List.map_cons, Dict.get?, ih, List.mem_cons]
    by_cases h : u = v
    · subst h; simp
    · simp [h, Ne.symm h]

theorem keys_strategy (dn : BN) (o : List Name) (σ : Assign) : (dn.strategy o σ).keys = o := by
  simp [BN.strategy, Dict.keys, Function.comp_def]

theorem decide_strategy (dn : BN) {d : Name} {o : List Name} (hd : d ∈ o) {σ : Assign} {y : Val}
    (hy : (dn.chance.lab d).getD (σ d) "" = y) :
    (dn.decide [(d, y)]).decide (dn.strategy (o.filter (· ≠ d)) σ) =
      dn.decide (dn.strategy o σ) := by
  rw [decide_eq, decide_eq, decide_eq, recpd_recpd]
  refine recpd_congr fun n _ => ?_
  rw [decideCpd_congr (decideCpd_shape _ n), keys_strategy]
  by_cases h' : n.name = d
  · subst h'; simp [decideCpd, Dict.get?, get?_strategy, hd]; rw [← hy]; rfl
  · have : ¬ d = n.name := fun e => h' e.symm
    by_cases h : n.name ∈ o <;> simp [decideCpd, Dict.get?, get?_strategy, h, h', this]

theorem decide_lab (dn : BN) (D : Dict Val) : (dn.decide D).chance.lab = dn.chance.lab := by
  rw [decide_eq, recpd_chance, recpd_lab]

theorem decide_card (dn : BN) (D : Dict Val) : (dn.decide D).chance.card = dn.chance.card := by
  rw [decide_eq, recpd_chance, recpd_card]

theorem mix_card (dn : BN) (F : Dict Val) (o : List Name) :
    (dn.mix F o).chance.card = dn.chance.card := by
  rw [mix_eq, recpd_chance, recpd_card]

theorem mix_dnConsistent (hc : DNConsistent dn) (F : Dict Val) (o : List Name) :
    DNConsistent (dn.mix F o) := by
  rw [mix_eq]; exact recpd_dnConsistent hc fun n _ => mixCpd_shape F o n

theorem mix_nonneg (h : dn.chance.NonNeg) (F : Dict Val) (o : List Name) :
    (dn.mix F o).chance.NonNeg := by
  rw [mix_eq, recpd_chance]
  intro m hm
  obtain ⟨n, hn, rfl⟩ := mem_recpd.1 hm
  show ∀ x ∈ (mixCpd F o n).data, 0 ≤ x
  unfold mixCpd
  split
  · cases F.get? n.name with
    | none => exact mixedRule_nonneg n
    | some x => exact pureRule_nonneg n x
  · exact h n hn

theorem mix_acyclic (h : dn.chance.Acyclic) (F : Dict Val) (o : List Name) :
    (dn.mix F o).chance.Acyclic := by
  rw [mix_eq, recpd_chance]; exact recpd_acyclic h

theorem FreeOrder.recpd {o : List Name} (h : FreeOrder dn o) (c : NodeV → NDArray) :
    FreeOrder (dn.recpd c) o := by
  intro v hv
  obtain ⟨d, hd, h1, h2⟩ := h v hv
  exact ⟨_, mem_recpd.2 ⟨d, hd, rfl⟩, h1, ⟨h2.1, h2.2, h2.3, h2.4, h2.5⟩⟩

theorem FreeOrder.mix {o : List Name} (h : FreeOrder dn o) (F : Dict Val) (o' : List Name) :
    FreeOrder (dn.mix F o') o := by rw [mix_eq]; exact h.recpd _

theorem FreeOrder.decide {o : List Name} (h : FreeOrder dn o) (D : Dict Val) :
    FreeOrder (dn.decide D) o := by rw [decide_eq]; exact h.recpd _

/-- Fixed decisions are decisions the nodes have. -/
theorem mix_normalised (hc : DNConsistent dn) {F : Dict Val} {o : List Name}
    (ho : ∀ v ∈ o, ∃ d ∈ dn, d.name = v ∧ d.kind = .decision ∧ d.values ≠ [])
    (hF : ∀ d ∈ dn, d.name ∈ o → ∀ x, F.get? d.name = some x → x ∈ d.values)
    (hs : ∀ n ∈ dn.chance, n.name ∈ o ∨ n.Normalised dn.chance.card) :
    ∀ n ∈ (dn.mix F o).chance, n.Normalised (dn.mix F o).chance.card := by
  rw [mix_card, mix_eq, recpd_chance]
  intro m hm
  obtain ⟨n, hn, rfl⟩ := mem_recpd.1 hm
  intro σ hσ
  show ∑ i ∈ range n.values.length, (mixCpd F o n).get (i :: n.parentOrder.map σ) = 1
  unfold mixCpd
  by_cases h : n.name ∈ o
  · rw [if_pos h]
    obtain ⟨d, hd, e, hk, hv⟩ := ho _ h
    have hn' := (mem_chance.1 hn).1
    have : d = n := List.inj_on_of_nodup_map hc.nodup hd hn' e
    subst this
    cases e' : F.get? d.name with
    | none => exact mixedRule_sum (hc.cpd_shape hd hk) hv hσ
    | some x => exact pureRule_sum (hc.cpd_shape hd hk) (hF d hd h x e') hσ
  · rw [if_neg h]
    exact (hs n hn).resolve_left h σ hσ

theorem mix_putCpd (hc : DNConsistent dn) {d : NodeV} (hd : d ∈ dn) :
    dn.mix [] [d.name] = dn.putCpd d.name d.mixedRule := by
  rw [putCpd_eq d.name (fun m => m.mixedRule) hc.nodup hd rfl, mix_eq]
  refine recpd_congr fun n _ => ?_
  by_cases h : n.name = d.name <;> simp [mixCpd, h, Dict.get?]

/-- preparing one node -/
theorem prepareOne_ok (hc : DNConsistent dn) {d : NodeV} (hd : d ∈ dn) (hk : d.kind = .decision)
    (hv : d.values ≠ []) {F : Dict Val} (hF : ∀ x, F.get? d.name = some x → x ∈ d.values) :
    Decision.prepareOne dn F d.name = (dn.mix F [d.name], none) := by
  unfold Decision.prepareOne
  cases e : F.get? d.name with
  | none =>
    simp only
    rw [lookup_ok hc.nodup hd]
    simp only [hk, ne_eq, not_true_eq_false, if_false]
    rw [fullyMixed_eq hv]
    simp only
    rw [← mix_putCpd hc hd, mix_eq, mix_eq]
    congr 1
    refine recpd_congr fun n _ => ?_
    by_cases h : n.name = d.name
    · simp [mixCpd, h, e, Dict.get?]
    · simp [mixCpd, h]
  | some x =>
    simp only
    rw [setDecision_ok hc hd hk (hF x e), decide_eq, mix_eq]
    congr 1
    refine recpd_congr fun n _ => ?_
    by_cases h : n.name = d.name
    · simp [mixCpd, decideCpd, Dict.get?, h, e]
    · simp [mixCpd, decideCpd, Dict.get?, h, Ne.symm h]

theorem prepare_ok (hc : DNConsistent dn) {F : Dict Val} {o : List Name}
    (ho : ∀ v ∈ o, ∃ d ∈ dn, d.name = v ∧ d.kind = .decision ∧ d.values ≠ [] ∧
      ∀ x, F.get? v = some x → x ∈ d.values) :
    Decision.prepare dn F o = (dn.mix F o, none) := by
  induction o generalizing dn with
  | nil =>
    simp only [Decision.prepare, mix_eq, BN.recpd, mixCpd, List.not_mem_nil, if_false]
    simp
  | cons v o ih =>
    obtain ⟨d, hd, rfl, h1, h2, h3⟩ := ho _ List.mem_cons_self
    rw [Decision.prepare, prepareOne_ok hc hd h1 h2 h3]
    simp only
    rw [ih (mix_dnConsistent hc _ _) ?_, mix_mix]
    intro u hu
    obtain ⟨e, he, g1, g2, g3, g4⟩ := ho u (by simp [hu])
    rw [mix_eq]
    exact ⟨_, mem_recpd.2 ⟨e, he, rfl⟩, g1, g2, g3, g4⟩

theorem FirstMax.unique {g : Val → ℚ} {l : List Val} {z z' : Val} (h : FirstMax g l z)
    (h' : FirstMax g l z') : z = z' := by
  obtain ⟨p, q, e, h1, h2⟩ := h
  obtain ⟨p', q', e', h1', h2'⟩ := h'
  rw [e] at e'
  rcases List.append_eq_append_iff.1 e' with ⟨a, ha, hb⟩ | ⟨a, ha, hb⟩
  · cases a with
    | nil => simpa using (List.cons.inj hb).1
    | cons w a =>
      obtain ⟨rfl, rfl⟩ := List.cons.inj hb
      exact absurd (h1' z (by rw [ha]; simp)) (not_lt.2 (h2 z' (by simp)))
  · cases a with
    | nil => simpa using (List.cons.inj hb).1.symm
    | cons w a =>
      obtain ⟨rfl, rfl⟩ := List.cons.inj hb
      exact absurd (h1 z' (by rw [ha]; simp)) (not_lt.2 (h2' z (by simp)))

theorem optimizeAll_ok {so : SetOrder} {sps : Nat → SetPerm} {f : Name → Val} {o : List Name}
    (hf : ∀ v ∈ o, ∀ k, Decision.optimizeLocally so (sps k) dn v = .ok (some (f v))) (hnd : o.Nodup)
    (k : Nat) (sol : Dict (Option Val)) (hs : ∀ v ∈ o, v ∉ sol.keys) :
    Decision.optimizeAll so sps dn k o sol = .ok (sol ++ o.map fun v => (v, some (f v))) := by
  induction o generalizing k sol with
  | nil => simp [Decision.optimizeAll]
  | cons v o ih =>
    obtain ⟨h1, h2⟩ := List.nodup_cons.1 hnd
    rw [Decision.optimizeAll, hf v (by simp), ok_bind,
      ih (fun u hu => hf u (by simp [hu])) h2 _ _ fun u hu => ?_]
    · rw [Dict.set_of_not_mem _ (hs v (by simp))]
      simp
    · rw [Dict.set_of_not_mem _ (hs v (by simp)), Dict.keys_append]
      simp only [List.mem_append, not_or]
      refine ⟨hs u (by simp [hu]), ?_⟩
      simp only [Dict.keys, List.map_cons, List.map_nil, List.mem_singleton]
      exact fun e => h1 (e ▸ hu)

theorem FreeOrder.decisions {o : List Name} (h : FreeOrder dn o) :
    ∀ v ∈ o, ∃ d ∈ dn, d.name = v ∧ d.kind = .decision ∧ d.values ≠ [] := fun v hv => by
  obtain ⟨d, hd, e, hf⟩ := h v hv
  exact ⟨d, hd, e, hf.kind, hf.values_ne⟩

/-- Comparing two tables with several entries fails. -/
theorem greater_error {a b : NDArray} (h : 2 ≤ a.data.length) :
    Decision.greater a b = .error .valueError := by
  unfold Decision.greater
  match ha : a.data with
  | [] => rw [ha] at h; simp at h
  | [x] => rw [ha] at h; simp at h
  | x :: y :: l => rfl

/-- `_optimize_locally` for a decision node with a parent that has several outcomes -/
theorem optimizeLocally_information (so : SetOrder) (sp : SetPerm) (hc : DNConsistent dn)
    (hnn : dn.chance.NonNeg) (ha : dn.chance.Acyclic) (hs : dn.chance.Stochastic)
    {d : NodeV} (hd : d ∈ dn) (hk : d.kind = .decision) (hval : 2 ≤ d.values.length)
    (hkeys : ∀ p, p ∈ d.parents.keys ↔ p ∈ d.parentOrder)
    (hpos : ∀ n ∈ dn.chance, n.values ≠ [])
    (hp : ∃ p ∈ d.parentOrder, 2 ≤ dn.chance.card p) :
    Decision.optimizeLocally so sp dn d.name = .error .valueError := by
  have hk' : d.kind ≠ .utility := by rw [hk]; decide
  have hdc : d ∈ dn.chance := mem_chance.2 ⟨hd, hk'⟩
  have hlab : dn.chance.lab d.name = d.values := BN.lab_eq hc.chance.nodup hdc
  obtain ⟨fs, g1, g2⟩ := factors_over hc hnn dn fun _ h => h
  have hin := forall2_inScope g2
  have hov := forall2_over g2
  have hmem : ∀ v, InScope fs v ↔ v ∈ dn.chance.names := by
    intro v
    rw [hin]
    constructor
    · rintro ⟨n, hn, hv⟩; exact scope_mem hc hn hv
    · intro h
      obtain ⟨n, hn, rfl⟩ := List.mem_map.1 h
      obtain ⟨h1, h2⟩ := mem_chance.1 hn
      exact ⟨n, h1, by simp [NodeV.scope, h2]⟩
  have hoth : ∀ v, v ∈ Decision.othersOf dn d ↔
      v ∈ dn.chance.names ∧ v ≠ d.name ∧ v ∉ d.parentOrder := by
    intro v
    simp only [Decision.othersOf, BN.names, BN.chance, List.mem_map, List.mem_filter,
      decide_eq_true_eq, hkeys]
    constructor
    · rintro ⟨n, ⟨a, b, c, e⟩, rfl⟩; exact ⟨⟨n, ⟨a, c⟩, rfl⟩, b, e⟩
    · rintro ⟨⟨n, ⟨a, c⟩, rfl⟩, b, e⟩; exact ⟨n, ⟨a, b, c, e⟩, rfl⟩
  have hnd : (Decision.othersOf dn d).Nodup :=
    List.Nodup.sublist (List.Sublist.map _ List.filter_sublist) hc.nodup
  have hcardpos : ∀ v ∈ dn.chance.names, 0 < dn.chance.card v := by
    intro v hv
    obtain ⟨n, hn, rfl⟩ := List.mem_map.1 hv
    rw [BN.card, BN.lab_eq hc.chance.nodup hn]
    exact List.length_pos_of_ne_nil (hpos n hn)
  unfold Decision.optimizeLocally
  rw [lookup_ok hc.nodup hd, ok_bind, g1, ok_bind]
  have hfsne : fs ≠ [] := by
    rintro rfl
    exact absurd ((hmem d.name).2 (List.mem_map_of_mem hdc)) (by simp [InScope])
  rcases generalizedVE_spec so sp hnd (lab := dn.chance.lab) (A := []) (B := fs)
      (W := fs) (by simp) hfsne (by simp) (by simp) hov
      (fun v hv => (hmem v).2 ((hoth v).1 hv).1) with
    ⟨_, e2⟩ | ⟨r, B', r1, r2, r3, _, r5, r6⟩
  · exfalso
    have hm := mass_eq_one hc ha hs
    have hsub : (Decision.othersOf dn d).toFinset ⊆ dn.chance.names.toFinset := by
      intro v hv
      simp only [List.mem_toFinset] at hv ⊢
      exact ((hoth v).1 hv).1
    rw [mass, ← sdiff_union_of_subset hsub, sumOver_union sdiff_disjoint] at hm
    have : sumOver dn.chance.card (dn.chance.names.toFinset \ (Decision.othersOf dn d).toFinset)
        (sumOver dn.chance.card (Decision.othersOf dn d).toFinset (joint dn.chance)) (fun _ => 0) =
        sumOver dn.chance.card (dn.chance.names.toFinset \ (Decision.othersOf dn d).toFinset)
        (fun _ => 0) (fun _ => 0) := by
      refine sumOver_congr fun τ hτ => ?_
      have hlegτ : ∀ u ∈ dn.chance.names, u ∉ Decision.othersOf dn d → τ u < dn.chance.card u := by
        intro u hu hu'
        exact hτ.2 u (by simp [hu, hu'])
      rw [← e2 τ fun u hu hu' => hlegτ u ((hmem u).1 hu) hu']
      refine sumOver_congr fun ρ hρ => ?_
      rw [(forall2_eval g2 ρ fun n hn v hv => ?_).1, prod_prob]
      by_cases hm' : v ∈ Decision.othersOf dn d
      · exact hρ.2 v (by simpa using hm')
      · rw [hρ.1 v (by simpa using hm')]
        exact hlegτ v (scope_mem hc hn hv) hm'
    rw [this, sumOver_zero] at hm
    exact zero_ne_one hm
  · rw [r1, ok_bind, if_neg hk']
    have hsc : ∀ u, u ∈ r.2.variableOrder ↔ u = d.name ∨ u ∈ d.parentOrder := by
      intro u
      rw [r2.scope, r3, r5, hmem, hoth]
      have h1 : d.name ∈ dn.chance.names := List.mem_map_of_mem hdc
      have h2 : ∀ p ∈ d.parentOrder, p ∈ dn.chance.names := hc.chance.parents_mem d hdc
      constructor
      · rintro (⟨f, hf, _⟩ | ⟨h, h'⟩)
        · simp at hf
        · by_contra hcon
          push Not at hcon
          exact h' ⟨h, hcon.1, hcon.2⟩
      · rintro (rfl | h)
        · exact Or.inr ⟨h1, fun h => h.2.1 rfl⟩
        · exact Or.inr ⟨h2 u h, fun h' => h'.2.2 h⟩
    have hget : ∀ x ∈ d.values, ∃ a, r.2.getPotential [(d.name, [x])] = .ok a ∧
        2 ≤ a.data.length := by
      intro x hx
      obtain ⟨t, t1, t2, _⟩ := (C08_sub_table r.2 r2.util.wf dn.chance.lab r2.util.val
        [(d.name, [x])]).2 (by
          intro v hv req hreq y hy
          by_cases e : d.name = v
          · subst e
            simp only [Dict.get?, if_true, Option.some.injEq] at hreq
            subst hreq
            rw [List.mem_singleton.1 hy, hlab]; exact hx
          · simp [Dict.get?, e] at hreq)
      obtain ⟨t', u1, u2, _⟩ := C08_get_potential r.2 _ t t1
      refine ⟨t', u1, ?_⟩
      rw [u2, t.size_eq, t2]
      obtain ⟨p, hp1, hp2⟩ := hp
      have hpd : ¬ d.name = p := fun e => hc.chance.self d hdc (e ▸ hp1)
      refine hp2.trans (Nat.le_of_dvd (Nat.pos_of_ne_zero ?_) (List.dvd_prod ?_))
      · intro h0
        obtain ⟨v, hv, h0⟩ := List.mem_map.1 (List.prod_eq_zero_iff.1 h0)
        by_cases e : d.name = v
        · simp [Dict.get?, e] at h0
        · simp only [Dict.get?, e, if_false] at h0
          have hvn : v ∈ dn.chance.names := by
            rcases (hsc v).1 hv with h | h
            · exact absurd h.symm e
            · exact hc.chance.parents_mem d hdc v h
          exact absurd h0 (hcardpos v hvn).ne'
      · refine List.mem_map.2 ⟨p, (hsc p).2 (Or.inr hp1), ?_⟩
        simp [Dict.get?, hpd]; rfl
    match hv : d.values, hval with
    | x :: y :: l, _ =>
      obtain ⟨a, a1, _⟩ := hget x (by rw [hv]; simp)
      obtain ⟨b, b1, b2⟩ := hget y (by rw [hv]; simp)
      rw [Decision.pick, a1, ok_bind]
      simp only
      rw [Decision.pick, b1, ok_bind]
      simp only
      rw [greater_error b2]
      rfl

/-- Mixing one decision averages. -/
theorem utilityMass_mix_one (hc : DNConsistent dn) {d : NodeV} (hd : d ∈ dn) (hf : d.FreeDecision) :
    utilityMass (dn.mix [] [d.name]) =
      (∑ i ∈ range d.values.length, utilityMass (dn.decide [(d.name, d.values.getD i "")])) /
        d.values.length := by
  have hk : d.kind ≠ .utility := by rw [hf.kind]; decide
  have hs := hc.cpd_shape hd hf.kind
  rw [hf.order] at hs
  rw [mix_putCpd hc hd, utilityMass_putCpd hc hd hk hf.order, sum_div]
  refine sum_congr rfl fun i hi => ?_
  have hi' := mem_range.1 hi
  rw [get_mixedRule (show InRange d.cpd.shape [i] by rw [hs]; exact .cons hi' .nil)]
  have hm : d.values.getD i "" = d.values[i] := by simp [hi']
  rw [hm, utilityMass_decide hc hd hf (List.getElem_mem _), hf.values_nodup.idxOf_getElem i hi']
  ring

theorem strategy_congr {dn dn' : BN} (h : dn.chance.lab = dn'.chance.lab) (o : List Name)
    (σ : Assign) : dn.strategy o σ = dn'.strategy o σ := by
  simp only [BN.strategy, h]

/-- Mixing several decisions averages over all combinations. -/
theorem utilityMass_mix (hc : DNConsistent dn) {o : List Name} (ho : FreeOrder dn o)
    (hnd : o.Nodup) (σ : Assign) :
    utilityMass (dn.mix [] o) =
      sumOver dn.chance.card o.toFinset (fun τ => utilityMass (dn.decide (dn.strategy o τ))) σ /
        ∏ v ∈ o.toFinset, (dn.chance.card v : ℚ) := by
  induction o generalizing dn σ with
  | nil =>
    have h1 : dn.mix [] [] = dn := by simp [BN.mix]
    have h2 : dn.decide [] = dn := by simp [BN.decide, Dict.get?]
    simp [h1, BN.strategy, h2]
  | cons v o ih =>
    obtain ⟨d, hd, rfl, hf⟩ := ho _ (List.mem_cons_self)
    obtain ⟨h1, h2⟩ := List.nodup_cons.1 hnd
    have ho' : FreeOrder dn o := fun u hu => ho u (by simp [hu])
    have hk : d.kind ≠ .utility := by rw [hf.kind]; decide
    have hlab : dn.chance.lab d.name = d.values :=
      BN.lab_eq hc.chance.nodup (mem_chance.2 ⟨hd, hk⟩)
    have hcard : dn.chance.card d.name = d.values.length := by rw [BN.card, hlab]
    have hni : d.name ∉ o.toFinset := by simpa using h1
    rw [← mix_cons, List.toFinset_cons, prod_insert hni, sumOver_insert hni, hcard]
    have hdm : { d with cpd := mixCpd [] o d } ∈ dn.mix [] o := by
      rw [mix_eq]; exact mem_recpd.2 ⟨d, hd, rfl⟩
    have := utilityMass_mix_one (mix_dnConsistent hc [] o) hdm ⟨hf.1, hf.2, hf.3, hf.4, hf.5⟩
    simp only at this
    rw [this, ← div_div, div_right_comm]
    congr 1
    rw [sum_div]
    refine sum_congr rfl fun i hi => ?_
    have hfil : o.filter (· ≠ d.name) = o :=
      List.filter_eq_self.2 fun u hu => by simpa using fun e : u = d.name => h1 (e ▸ hu)
    have hfil' : (d.name :: o).filter (· ≠ d.name) = o := by
      rw [List.filter_cons_of_neg (by simp), hfil]
    rw [mix_decide, hfil, ih (decide_dnConsistent hc _) (ho'.decide _) h2
      (Function.update σ d.name i), decide_card]
    congr 1
    refine sumOver_congr fun τ hτ => ?_
    rw [strategy_congr (decide_lab dn _) o τ]
    conv_lhs => rw [← hfil']
    rw [decide_strategy dn (by simp)]
    rw [hτ.1 _ hni, Function.update_self, hlab]

/-- All complete decisions are strategies. -/
theorem decide_as_strategy {order : List Name} (hc : DNConsistent dn) {D : Dict Val}
    (hD : LegalDecisions dn D) (hk : D.keys.Perm order) :
    ∃ σ, Legal dn.chance.card order σ ∧ dn.decide D = dn.decide (dn.strategy order σ) ∧
      ∀ v x, D.get? v = some x → σ v = (dn.chance.lab v).idxOf x := by
  refine ⟨fun v => (dn.chance.lab v).idxOf ((D.get? v).getD ""), fun v hv => ?_, ?_, ?_⟩
  · obtain ⟨x, hx⟩ := Dict.get?_isSome.2 (hk.mem_iff.2 hv)
    obtain ⟨n, hn, e, k, hxv⟩ := hD.legal _ (Dict.get?_mem hx)
    have hlab := BN.lab_eq hc.chance.nodup (mem_chance.2 ⟨hn, by rw [k]; decide⟩)
    simp only at e
    subst e
    show List.idxOf ((D.get? n.name).getD "") _ < (dn.chance.lab n.name).length
    rw [hx, Option.getD_some, hlab]
    exact List.idxOf_lt_length_of_mem hxv
  · rw [decide_eq, decide_eq]
    refine recpd_congr fun n _ => ?_
    unfold decideCpd
    rw [get?_strategy]
    cases h : D.get? n.name with
    | none => rw [if_neg fun hm => Dict.get?_eq_none.1 h (hk.mem_iff.2 hm)]
    | some x =>
      rw [if_pos (hk.mem_iff.1 (Dict.get?_isSome.1 ⟨x, h⟩))]
      obtain ⟨m, hm, e, k, hxv⟩ := hD.legal _ (Dict.get?_mem h)
      simp only at e hxv
      have hlab := BN.lab_eq hc.chance.nodup (mem_chance.2 ⟨hm, by rw [k]; decide⟩)
      rw [e] at hlab
      simp only [Option.getD_some, hlab]
      have hlt := List.idxOf_lt_length_of_mem hxv
      simp [hlt]
  · intro v x h
    simp [h]

end

end Primo
