import Verif.Props.Ascent
import Verif.Props.RoundedDecision
import Verif.Props.RoundedRange
import Verif.Spec.RoundedAscent

/-! # C99: optimising one decision after the other with rounded arithmetic -/

namespace Primo
open Finset

section
variable {u : ℚ} {A : Arith} {dn : BN}

theorem mixR_decide (A : Arith) (dn : BN) (v : Name) (x : Val) :
    (dn.mixR A [] [v]).decide [(v, x)] = dn.decide [(v, x)] := by
  rw [mixR_eq, decide_eq, decide_eq, recpd_recpd]
  refine recpd_congr fun n _ => ?_
  rw [decideCpd_congr (mixCpdR_shape A _ _ n)]
  by_cases h : n.name = v
  · rw [if_pos (by simp [Dict.keys, h])]
  · rw [if_neg (by simp [Dict.keys, h]), mixCpdR, if_neg (by simpa using h)]
    unfold decideCpd
    rw [Dict.get?_eq_none.2 (by simp [Dict.keys, h])]

/-- one round of the loop -/
theorem ascendR_step (hA : A.Accurate u) (so : Nat → SetOrder) (sps : Nat → Nat → SetPerm) (sp : Nat → SetPerm)
    (k : Nat) (hc : DNConsistent dn) (hnn : dn.chance.NonNeg) (ha : dn.chance.Acyclic) {D : Dict Val}
    (hD : LegalDecisions dn D) (hs : ∀ n ∈ dn.chance, n.name ∈ D.keys ∨ n.Normalised dn.chance.card)
    {d : NodeV} (hd : d ∈ dn) (hf : d.FreeDecision) (hm : d.name ∈ D.keys) {M : ℚ}
    (hM : ∀ σ, Legal dn.chance.card dn.chance.names σ → absUtility dn σ ≤ M) :
    ∃ x ∈ d.values, (∀ vs, Decision.ascendR A so sps sp k (d.name :: vs) (dn.decide D) =
        Decision.ascendR A so sps sp (k + 1) vs (dn.decide (D.set d.name x))) ∧
      ∀ y ∈ d.values, utilityMass (dn.decide (D.set d.name y)) ≤
        utilityMass (dn.decide (D.set d.name x)) + 2 * (dn.utilityError u * M) := by
  have hc' := decide_dnConsistent hc D
  have ho : FreeOrder (dn.decide D) [d.name] :=
    FreeOrder.decide (fun v hv => by rw [List.mem_singleton.1 hv]; exact ⟨d, hd, rfl, hf⟩) D
  have hst := decide_stochastic hc hD hs
  obtain ⟨d', hd', e1, hf'⟩ := ho d.name (by simp)
  have hv : d'.values = d.values := by
    rw [decide_eq] at hd'
    obtain ⟨n, hn, rfl⟩ := mem_recpd.1 hd'
    obtain rfl : n = d := List.inj_on_of_nodup_map hc.nodup hn hd e1
    rfl
  obtain ⟨f, f1, f2⟩ := C82_local_optimum hA (so k) (sps k) [] hc' (decide_nonneg hnn D) (decide_acyclic ha D)
    (List.nodup_singleton d.name) ho (by simp [Dict.get?]) (fun n hn => .inr (hst n hn))
  obtain ⟨k1, k2⟩ := f2 d' hd' (by simp [e1])
  rw [e1, hv] at k1
  rw [e1, hv] at k2
  have hnet : ∀ y, ((dn.decide D).mix [] [d.name]).decide [(d.name, y)] = dn.decide (D.set d.name y) := by
    intro y
    rw [mix_decide]
    simp only [ne_eq, not_true_eq_false, decide_false, List.filter_cons_of_neg, List.filter_nil, Bool.false_eq_true,
      not_false_eq_true]
    rw [mix_empty, decide_set]
  have hleg : ∀ y ∈ d.values, LegalDecisions dn (D.set d.name y) := fun y hy => hD.set hd hf.kind hy hm
  have hs' : ∀ y, ∀ n ∈ dn.chance, n.name ∈ (D.set d.name y).keys ∨ n.Normalised dn.chance.card := by
    intro y; rw [Dict.keys_set_of_mem _ hm]; exact hs
  have hone : ∀ y ∈ d.values, mass (dn.decide (D.set d.name y)) = 1 := fun y hy =>
    mass_eq_one (decide_dnConsistent hc _) (decide_acyclic ha _) (decide_stochastic hc (hleg y hy) (hs' y))
  have hab : ∀ y ∈ d.values, absUtilityMass (dn.decide (D.set d.name y)) ≤ M := fun y hy => by
    have := absUtilityMass_le hc hnn (hleg y hy) hM
    rwa [hone y hy, mul_one] at this
  have hlm : LegalDecisions ((dn.decide D).mixR A [] [d.name]) [(d.name, f d.name)] := by
    refine ⟨by simp [Dict.keys], fun p hp => ?_⟩
    rw [List.mem_singleton.1 hp, mixR_eq]
    exact ⟨_, mem_recpd.2 ⟨d', hd', rfl⟩, e1, hf'.kind, by rw [hv]; exact k1⟩
  have hEU : ∃ e, Decision.expectedUtilityR A (so k) (sp k) ((dn.decide D).mixR A [] [d.name])
      (some [(d.name, f d.name)]) = (dn.decide (D.set d.name (f d.name)), .ok e) := by
    have h1 : Decision.expectedUtilityR A (so k) (sp k) ((dn.decide D).mixR A [] [d.name])
        (some [(d.name, f d.name)]) = Decision.expectedUtilityR A (so k) (sp k) dn
          (some (D.set d.name (f d.name))) := by
      unfold Decision.expectedUtilityR
      simp only [Option.getD_some]
      rw [setDecisions_ok (mixR_dnConsistent hc' A _ _) hlm, setDecisions_ok hc (hleg _ k1), mixR_decide, decide_set]
    rw [h1]
    rcases C82_expected_utility hA (so k) (so k) (sp k) (sp k) (D.set d.name (f d.name)) hc hnn
      (List.ne_nil_of_mem hd) (hleg _ k1) with ⟨-, h⟩ | ⟨e, e', h, -⟩
    · rw [C51_expected_utility_partial _ _ _ _ hc hnn (List.ne_nil_of_mem hd) ha (hleg _ k1) (hs' _)] at h
      simp at h
    · exact ⟨_, h⟩
  obtain ⟨e, hEU⟩ := hEU
  refine ⟨f d.name, k1, fun vs => ?_, fun y hy => ?_⟩
  · have f1' : Decision.getOptimalDecisionsR A (so k) (sps k) (dn.decide D) [d.name] none =
        ((dn.decide D).mixR A [] [d.name], .ok [(d.name, some (f d.name))]) := f1
    rw [Decision.ascendR, f1']
    dsimp only
    rw [hEU]
  · have h := k2 y hy
    rw [hnet, hnet, decide_eq dn D, recpd_utilityError] at h
    have := mul_le_mul_of_nonneg_left (add_le_add (hab y hy) (hab _ k1))
      (utilityError_nonneg hA.nonneg hA.lt_one dn)
    linarith

/-- **C99**  With rounded arithmetic the loop does not fail either, and loses at most `2 · utilityError · M` of the
(exact) expected utility in each round, if the absolute values of the utilities never add up to more than `M`.  If
a pass over distinct nodes leaves all decisions as they are, no change of a single one gains more than this. -/
theorem C99_rounded (hA : A.Accurate u) (so : Nat → SetOrder) (sps : Nat → Nat → SetPerm) (sp : Nat → SetPerm)
    (so' : SetOrder) (sp' : SetPerm) (hc : DNConsistent dn) (hnn : dn.chance.NonNeg) (ha : dn.chance.Acyclic)
    (hne : dn ≠ []) {M : ℚ} (hM : ∀ σ, Legal dn.chance.card dn.chance.names σ → absUtility dn σ ≤ M)
    {D : Dict Val} (hD : LegalDecisions dn D)
    (hs : ∀ n ∈ dn.chance, n.name ∈ D.keys ∨ n.Normalised dn.chance.card)
    {vs : List Name} (ho : FreeOrder dn vs) (hvs : ∀ v ∈ vs, v ∈ D.keys) (k : Nat) :
    ∃ (D' : Dict Val) (e e' : ℚ), Decision.ascendR A so sps sp k vs (dn.decide D) = (dn.decide D', .ok ()) ∧
      LegalDecisions dn D' ∧ D'.keys = D.keys ∧ (∀ v, v ∉ vs → D'.get? v = D.get? v) ∧
      (Decision.expectedUtility so' sp' dn (some D)).2 = .ok (NDArray.scalar e) ∧
      (Decision.expectedUtility so' sp' dn (some D')).2 = .ok (NDArray.scalar e') ∧
      e ≤ e' + vs.length * (2 * (dn.utilityError u * M)) ∧
      (vs.Nodup → D' = D → ∀ d ∈ dn, d.name ∈ vs → ∀ y ∈ d.values, ∃ e'' : ℚ,
        (Decision.expectedUtility so' sp' dn (some (D.set d.name y))).2 = .ok (NDArray.scalar e'') ∧
          e'' ≤ e + 2 * (dn.utilityError u * M)) := by
  have key : ∀ (vs : List Name) (k : Nat) (D : Dict Val), LegalDecisions dn D →
      (∀ n ∈ dn.chance, n.name ∈ D.keys ∨ n.Normalised dn.chance.card) → FreeOrder dn vs →
      (∀ v ∈ vs, v ∈ D.keys) →
      ∃ D' : Dict Val, Decision.ascendR A so sps sp k vs (dn.decide D) = (dn.decide D', .ok ()) ∧
        LegalDecisions dn D' ∧ D'.keys = D.keys ∧ (∀ v, v ∉ vs → D'.get? v = D.get? v) ∧
        utilityMass (dn.decide D) ≤ utilityMass (dn.decide D') + vs.length * (2 * (dn.utilityError u * M)) ∧
        (vs.Nodup → D' = D → ∀ d ∈ dn, d.name ∈ vs → ∀ y ∈ d.values,
          utilityMass (dn.decide (D.set d.name y)) ≤ utilityMass (dn.decide D) + 2 * (dn.utilityError u * M)) := by
    intro vs
    induction vs with
    | nil =>
      intro k D hD _ _ _
      exact ⟨D, rfl, hD, rfl, fun _ _ => rfl, by simp, by simp⟩
    | cons v vs ih =>
      intro k D hD hs ho hvs
      obtain ⟨d, hd, rfl, hf⟩ := ho v (by simp)
      have hm := hvs d.name (by simp)
      obtain ⟨x, hx, s1, s2⟩ := ascendR_step hA so sps sp k hc hnn ha hD hs hd hf hm hM
      have hkeys : (D.set d.name x).keys = D.keys := Dict.keys_set_of_mem _ hm
      obtain ⟨D', a1, a2, a3, a4, a5, a6⟩ := ih (k + 1) (D.set d.name x) (hD.set hd hf.kind hx hm)
        (by rw [hkeys]; exact hs) (fun u hu => ho u (by simp [hu])) (by
          rw [hkeys]; exact fun u hu => hvs u (by simp [hu]))
      obtain ⟨y, hyv, hy⟩ := hD.get hc hd hm
      refine ⟨D', by rw [s1, a1], a2, a3.trans hkeys, fun u hu => ?_, ?_, fun hnd e => ?_⟩
      · rw [List.mem_cons, not_or] at hu
        rw [a4 u hu.2, Dict.get?_set, if_neg fun h => hu.1 h.symm]
      · have := s2 y hyv
        rw [Dict.set_same hy] at this
        rw [List.length_cons, Nat.cast_add, Nat.cast_one, add_mul, one_mul]
        linarith
      · rw [List.nodup_cons] at hnd
        have hgx : D.get? d.name = some x := by
          have := a4 d.name hnd.1
          rw [e, Dict.get?_set, if_pos rfl] at this
          exact this
        have hDx := Dict.set_same hgx
        intro n hn hnv z hz
        rcases List.mem_cons.1 hnv with h | h
        · obtain rfl : n = d := List.inj_on_of_nodup_map hc.nodup hn hd h
          have := s2 z hz
          rwa [hDx] at this
        · have := a6 hnd.2 (e.trans hDx.symm) n hn h z hz
          rwa [hDx] at this
  obtain ⟨D', a1, a2, a3, a4, a5, a6⟩ := key vs k D hD hs ho hvs
  refine ⟨D', utilityMass (dn.decide D), utilityMass (dn.decide D'), a1, a2, a3, a4,
    by rw [C51_expected_utility_partial so' sp' dn D hc hnn hne ha hD hs],
    by rw [C51_expected_utility_partial so' sp' dn D' hc hnn hne ha a2 (by rw [a3]; exact hs)], a5,
    fun hnd e d hd hv y hy => ⟨utilityMass (dn.decide (D.set d.name y)), ?_, a6 hnd e d hd hv y hy⟩⟩
  obtain ⟨d', hd', e', hf⟩ := ho _ hv
  obtain rfl : d' = d := List.inj_on_of_nodup_map hc.nodup hd' hd e'
  have hm := hvs _ hv
  rw [C51_expected_utility_partial so' sp' dn _ hc hnn hne ha (hD.set hd hf.kind hy hm)
    (by rw [Dict.keys_set_of_mem _ hm]; exact hs)]

/-- **C99**  With exact arithmetic this is the program of C98. -/
theorem C99_exact (so : Nat → SetOrder) (sps : Nat → Nat → SetPerm) (sp : Nat → SetPerm) (vs : List Name) :
    ∀ (k : Nat) (dn : BN), Decision.ascendR .exact so sps sp k vs dn = Decision.ascend so sps sp k vs dn := by
  induction vs with
  | nil => exact fun _ _ => rfl
  | cons v vs ih =>
    intro k dn
    rw [Decision.ascendR, Decision.ascend, (C82_exact (so k) (sp k) (sps k) [] [] dn none [v]).2.2]
    simp only [ih, (C82_exact (so k) (sp k) (sps k) [] [] _ _ []).2.1]
    rfl

end

/-- **C99**  Rounding can make a pass lower the expected utility. -/
theorem C99_lower_refuted : ∃ (A : Arith) (dn : BN) (vs : List Name) (D D' : Dict Val), A.Accurate (1 / 1000) ∧
    DNConsistent dn ∧ FreeOrder dn vs ∧ LegalDecisions dn D ∧ D.keys = vs ∧
    ∃ (so : Nat → SetOrder) (sps : Nat → Nat → SetPerm) (sp : Nat → SetPerm) (e e' : ℚ),
      Decision.ascendR A so sps sp 0 vs (dn.decide D) = (dn.decide D', .ok ()) ∧
      (Decision.expectedUtility (so 0) (sp 0) dn (some D)).2 = .ok (NDArray.scalar e) ∧
      (Decision.expectedUtility (so 0) (sp 0) dn (some D')).2 = .ok (NDArray.scalar e') ∧ e' < e :=
  ⟨Ex.biased, Ex.close, ["d"], [("d", "x")], [("d", "y")], Ex.biased_accurate, Ex.close_consistent,
    fun v hv => by rw [List.mem_singleton.1 hv]; exact ⟨Ex.closeD, by simp [Ex.close], rfl, Ex.closeD_free⟩,
    Ex.close_legal, rfl, fun _ => .insertion, fun _ _ => .insertion, fun _ => .insertion, 1 + 1 / 2000, 1,
    by decide +kernel, by decide +kernel, by decide +kernel, by norm_num⟩

/-! ## two decisions with utilities whose computed sum depends on the order of the additions -/

def Ex.evenD : NodeV := ⟨"d", .decision, ["x", "y"], [], [], ["u", "v", "w"], ⟨[2], [0, 0], rfl⟩, false⟩
def Ex.evenU : NodeV := ⟨"u", .utility, [], ["d"], [("d", ["x", "y"])], [], ⟨[2], [1, 1 + 1 / 2 ^ 52], rfl⟩, false⟩
def Ex.evenV : NodeV := ⟨"v", .utility, [], ["d"], [("d", ["x", "y"])], [], ⟨[2], [1 / 2 ^ 53, 0], rfl⟩, false⟩
def Ex.evenW : NodeV := ⟨"w", .utility, [], ["d"], [("d", ["x", "y"])], [], ⟨[2], [1 / 2 ^ 53, 0], rfl⟩, false⟩
def Ex.even : BN := [Ex.evenD, Ex.evenU, Ex.evenV, Ex.evenW]

theorem Ex.even_consistent : DNConsistent Ex.even := by
  constructor
  · decide
  · constructor <;> decide
  · decide
  · decide
  · decide
  · decide

/-- alternating orders of the factors -/
def Ex.turns (k : Nat) (_ : Nat) : SetPerm := if k % 2 = 0 then .insertion else .reversed

theorem Ex.even_first {k : Nat} (hk : k % 2 = 0) (vs : List Name) :
    Decision.ascendR (.double id Ex.leftTree) (fun _ => .insertion) Ex.turns (fun _ => .insertion) k ("d" :: vs)
      (Ex.even.decide [("d", "x")]) =
    Decision.ascendR (.double id Ex.leftTree) (fun _ => .insertion) Ex.turns (fun _ => .insertion) (k + 1) vs
      (Ex.even.decide [("d", "y")]) := by
  have h1 : Ex.turns k = fun _ => SetPerm.insertion := by funext j; simp [Ex.turns, hk]
  have h2 : Decision.getOptimalDecisionsR (.double id Ex.leftTree) .insertion (fun _ => .insertion)
      (Ex.even.decide [("d", "x")]) ["d"] none =
      (Ex.even.mixR (.double id Ex.leftTree) [] ["d"], .ok [("d", some "y")]) := by decide +kernel
  have h3 : Decision.expectedUtilityR (.double id Ex.leftTree) .insertion .insertion
      (Ex.even.mixR (.double id Ex.leftTree) [] ["d"]) (some [("d", "y")]) =
      (Ex.even.decide [("d", "y")], .ok (NDArray.scalar (1 + 1 / 2 ^ 52))) := by decide +kernel
  rw [Decision.ascendR, h1, h2]
  dsimp only
  rw [h3]

theorem Ex.even_second {k : Nat} (hk : k % 2 = 1) (vs : List Name) :
    Decision.ascendR (.double id Ex.leftTree) (fun _ => .insertion) Ex.turns (fun _ => .insertion) k ("d" :: vs)
      (Ex.even.decide [("d", "y")]) =
    Decision.ascendR (.double id Ex.leftTree) (fun _ => .insertion) Ex.turns (fun _ => .insertion) (k + 1) vs
      (Ex.even.decide [("d", "x")]) := by
  have h1 : Ex.turns k = fun _ => SetPerm.reversed := by funext j; simp [Ex.turns, hk]
  have h2 : Decision.getOptimalDecisionsR (.double id Ex.leftTree) .insertion (fun _ => .reversed)
      (Ex.even.decide [("d", "y")]) ["d"] none =
      (Ex.even.mixR (.double id Ex.leftTree) [] ["d"], .ok [("d", some "x")]) := by decide +kernel
  have h3 : Decision.expectedUtilityR (.double id Ex.leftTree) .insertion .insertion
      (Ex.even.mixR (.double id Ex.leftTree) [] ["d"]) (some [("d", "x")]) =
      (Ex.even.decide [("d", "x")], .ok (NDArray.scalar 1)) := by decide +kernel
  rw [Decision.ascendR, h1, h2]
  dsimp only
  rw [h3]

/-- **C99**  In double precision the passes need not come to rest: the sums of the utilities depend on the order in
which the set of factors is iterated, and if it differs from call to call the decision can change in every pass. -/
theorem C99_restless_refuted : ∃ (dn : BN) (so : Nat → SetOrder) (sps : Nat → Nat → SetPerm) (sp : Nat → SetPerm)
    (tree : List ℚ → SumTree) (D D' : Dict Val), DNConsistent dn ∧ FreeOrder dn ["d"] ∧ SumsUp tree ∧
    LegalDecisions dn D ∧ LegalDecisions dn D' ∧ dn.decide D ≠ dn.decide D' ∧ ∀ m,
      Decision.ascendR (.double id tree) so sps sp 0 (List.replicate (2 * m) "d") (dn.decide D) =
        (dn.decide D, .ok ()) ∧
      Decision.ascendR (.double id tree) so sps sp 0 (List.replicate (2 * m + 1) "d") (dn.decide D) =
        (dn.decide D', .ok ()) := by
  have hf : Ex.evenD.FreeDecision := ⟨rfl, rfl, rfl, by decide, by decide⟩
  have key : ∀ m k, k % 2 = 0 →
      Decision.ascendR (.double id Ex.leftTree) (fun _ => .insertion) Ex.turns (fun _ => .insertion) k
        (List.replicate (2 * m) "d") (Ex.even.decide [("d", "x")]) = (Ex.even.decide [("d", "x")], .ok ()) ∧
      Decision.ascendR (.double id Ex.leftTree) (fun _ => .insertion) Ex.turns (fun _ => .insertion) k
        (List.replicate (2 * m + 1) "d") (Ex.even.decide [("d", "x")]) = (Ex.even.decide [("d", "y")], .ok ()) := by
    intro m
    induction m with
    | zero => exact fun k hk => ⟨rfl, Ex.even_first hk []⟩
    | succ m ih =>
      intro k hk
      obtain ⟨i1, i2⟩ := ih (k + 1 + 1) (by omega)
      rw [show 2 * (m + 1) = 2 * m + 1 + 1 by ring, List.replicate_succ, List.replicate_succ,
        show 2 * m + 1 + 1 + 1 = (2 * m + 1) + 1 + 1 by ring, List.replicate_succ (n := 2 * m + 1 + 1),
        List.replicate_succ (n := 2 * m + 1), Ex.even_first hk, Ex.even_second (by omega), Ex.even_first hk,
        Ex.even_second (by omega)]
      exact ⟨i1, i2⟩
  exact ⟨Ex.even, fun _ => .insertion, Ex.turns, fun _ => .insertion, Ex.leftTree, [("d", "x")], [("d", "y")],
    Ex.even_consistent,
    fun v hv => by rw [List.mem_singleton.1 hv]; exact ⟨Ex.evenD, by simp [Ex.even], rfl, hf⟩, Ex.leftTree_sums,
    legal_single (d := Ex.evenD) (by simp [Ex.even]) hf (by decide),
    legal_single (d := Ex.evenD) (by simp [Ex.even]) hf (by decide), by decide +kernel, fun m => key m 0 rfl⟩

example := C99_rounded Ex.biased_accurate (fun _ => .insertion) (fun _ _ => .insertion) (fun _ => .reversed)
  .insertion .reversed Ex.close_consistent Ex.close_nonneg Ex.close_acyclic (by simp [Ex.close]) Ex.close_bound
  Ex.close_legal (fun n hn => by
    have hn : n ∈ [Ex.closeD] := hn
    rw [List.mem_singleton.1 hn]; exact Or.inl (by decide)) (vs := ["d", "d"])
  (fun v hv => by
    have : v = "d" := by simpa using hv
    rw [this]; exact ⟨Ex.closeD, by simp [Ex.close], rfl, Ex.closeD_free⟩) (by decide) 0

end Primo
