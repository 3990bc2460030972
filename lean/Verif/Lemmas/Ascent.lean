import Verif.Props.Decision
import Verif.Spec.Ascent
import Mathlib.Data.Prod.Lex

/-! # Lemmas for C98: the loop over the decisions, and the order in which it climbs -/

namespace Primo
open Finset

theorem Dict.set_same {α : Type} {d : Dict α} {k : Name} {v : α} (h : d.get? k = some v) : d.set k v = d := by
  induction d with
  | nil => simp [Dict.get?] at h
  | cons p d ih =>
    obtain ⟨k', v'⟩ := p
    by_cases e : k' = k
    · subst e
      simp only [Dict.get?, if_true, Option.some.injEq] at h
      subst h
      simp [Dict.set]
    · simp only [Dict.get?, e, if_false] at h
      simp [Dict.set, e, ih h]

section
variable {dn : BN}

theorem mix_empty (dn : BN) : dn.mix [] [] = dn := by
  simp [BN.mix]

theorem decide_set (dn : BN) (D : Dict Val) (v : Name) (x : Val) :
    (dn.decide D).decide [(v, x)] = dn.decide (D.set v x) := by
  rw [decide_eq, decide_eq, decide_eq, recpd_recpd]
  refine recpd_congr fun n _ => ?_
  rw [decideCpd_congr (decideCpd_shape _ n)]
  by_cases h : n.name = v
  · subst h
    simp [decideCpd, Dict.get?, Dict.get?_set]
  · have : ¬ v = n.name := fun e => h e.symm
    simp [decideCpd, Dict.get?_set, h, this]

theorem LegalDecisions.set {D : Dict Val} (hD : LegalDecisions dn D) {d : NodeV} (hd : d ∈ dn)
    (hk : d.kind = .decision) {x : Val} (hx : x ∈ d.values) (hm : d.name ∈ D.keys) :
    LegalDecisions dn (D.set d.name x) := by
  have hn : (D.set d.name x).keys.Nodup := by rw [Dict.keys_set_of_mem _ hm]; exact hD.nodup
  refine ⟨hn, fun p hp => ?_⟩
  have := Dict.get?_of_mem hn (k := p.1) (v := p.2) hp
  rw [Dict.get?_set] at this
  by_cases h : d.name = p.1
  · rw [if_pos h, Option.some.injEq] at this
    exact ⟨d, hd, h, hk, this ▸ hx⟩
  · rw [if_neg h] at this
    exact hD.legal p (Dict.get?_mem this)

/-- one round of the loop -/
theorem ascend_step (so : Nat → SetOrder) (sps : Nat → Nat → SetPerm) (sp : Nat → SetPerm)
    (k : Nat) (hc : DNConsistent dn) (hnn : dn.chance.NonNeg) (ha : dn.chance.Acyclic) {D : Dict Val}
    (hD : LegalDecisions dn D) (hs : ∀ n ∈ dn.chance, n.name ∈ D.keys ∨ n.Normalised dn.chance.card)
    {d : NodeV} (hd : d ∈ dn) (hf : d.FreeDecision) (hm : d.name ∈ D.keys) :
    ∃ x, (∀ vs, Decision.ascend so sps sp k (d.name :: vs) (dn.decide D) =
        Decision.ascend so sps sp (k + 1) vs (dn.decide (D.set d.name x))) ∧
      FirstMax (fun y => utilityMass (dn.decide (D.set d.name y))) d.values x := by
  have hc' := decide_dnConsistent hc D
  have hnn' := decide_nonneg hnn D
  have ha' := decide_acyclic ha D
  have ho : FreeOrder (dn.decide D) [d.name] :=
    FreeOrder.decide (fun v hv => by rw [List.mem_singleton.1 hv]; exact ⟨d, hd, rfl, hf⟩) D
  have hst := decide_stochastic hc hD hs
  obtain ⟨d', hd', e1, hf'⟩ := ho d.name (by simp)
  have hv : d'.values = d.values := by
    rw [decide_eq] at hd'
    obtain ⟨n, hn, rfl⟩ := mem_recpd.1 hd'
    obtain rfl : n = d := List.inj_on_of_nodup_map hc.nodup hn hd e1
    rfl
  obtain ⟨f, f1, f2⟩ := C52_local_optimum (so k) (sps k) [] hc' hnn' ha' (List.nodup_singleton d.name) ho
    (by simp [Dict.get?]) (fun n hn => .inr (hst n hn))
  have hmx := f2 d' hd' (by simp [e1])
  rw [e1, hv] at hmx
  have hnet : ∀ y, ((dn.decide D).mix [] [d.name]).decide [(d.name, y)] = dn.decide (D.set d.name y) := by
    intro y
    rw [mix_decide]
    simp only [ne_eq, not_true_eq_false, decide_false, List.filter_cons_of_neg, List.filter_nil, Bool.false_eq_true,
      not_false_eq_true]
    rw [mix_empty, decide_set]
  have hleg := hD.set hd hf.kind hmx.mem hm
  have hlm : LegalDecisions ((dn.decide D).mix [] [d.name]) [(d.name, f d.name)] := by
    refine ⟨by simp [Dict.keys], fun p hp => ?_⟩
    rw [List.mem_singleton.1 hp]
    obtain ⟨d'', hd'', e2, hf''⟩ := FreeOrder.mix ho [] [d.name] d.name (by simp)
    refine ⟨d'', hd'', e2, hf''.kind, ?_⟩
    rw [mix_eq] at hd''
    obtain ⟨n, hn, rfl⟩ := mem_recpd.1 hd''
    obtain rfl : n = d' := List.inj_on_of_nodup_map hc'.nodup hn hd' (e2.trans e1.symm)
    show f d.name ∈ n.values
    rw [hv]
    exact hmx.mem
  have hEU := C51_expected_utility_partial (so k) (sp k) ((dn.decide D).mix [] [d.name]) [(d.name, f d.name)]
    (mix_dnConsistent hc' _ _) (mix_nonneg hnn' _ _) (List.ne_nil_of_mem (FreeOrder.mix ho [] [d.name] d.name
      (by simp)).choose_spec.1) (mix_acyclic ha' _ _) hlm (fun n hn => .inr (mix_normalised hc'
        (fun v hv => by
          obtain ⟨n, h1, h2, h3⟩ := ho v hv
          exact ⟨n, h1, h2, h3.kind, h3.values_ne⟩) (by simp [Dict.get?]) (fun n hn => .inr (hst n hn)) n hn))
  rw [hnet] at hEU
  refine ⟨f d.name, fun vs => ?_, ?_⟩
  · have f1' : Decision.getOptimalDecisions (so k) (sps k) (dn.decide D) [d.name] none =
        ((dn.decide D).mix [] [d.name], .ok [(d.name, some (f d.name))]) := f1
    rw [Decision.ascend, f1']
    dsimp only
    rw [hEU]
  · simp only [hnet] at hmx
    exact hmx

/-- sweeps follow each other -/
theorem ascend_append (so : Nat → SetOrder) (sps : Nat → Nat → SetPerm) (sp : Nat → SetPerm) (us vs : List Name) :
    ∀ (k : Nat) (dn dn' : BN), Decision.ascend so sps sp k us dn = (dn', .ok ()) →
      Decision.ascend so sps sp k (us ++ vs) dn = Decision.ascend so sps sp (k + us.length) vs dn' := by
  induction us with
  | nil =>
    intro k dn dn' h
    simp only [Decision.ascend, Prod.mk.injEq, and_true] at h
    subst h
    rfl
  | cons u us ih =>
    intro k dn dn' h
    rw [List.cons_append, Decision.ascend]
    rw [Decision.ascend] at h
    split at h
    · split at h
      · have := ih _ _ _ h
        rw [this, List.length_cons, Nat.add_assoc, Nat.add_comm 1]
      · simp at h
    · simp at h
    · simp at h

theorem FirstMax.before {g : Val → ℚ} {l : List Val} {z y : Val} (h : FirstMax g l z) (hy : y ∈ l)
    (e : g y = g z) (hne : y ≠ z) : l.idxOf z < l.idxOf y := by
  obtain ⟨pre, post, rfl, h1, h2⟩ := h
  have hz : z ∉ pre := fun hm => lt_irrefl _ (h1 z hm)
  have hy' : y ∉ pre := fun hm => (h1 y hm).ne e
  rw [List.idxOf_append_of_notMem hz, List.idxOf_append_of_notMem hy', List.idxOf_cons_self,
    List.idxOf_cons_ne _ hne.symm]
  omega

/-- sum of weights of the entries of a dict -/
def dictSum (w : Name → Val → Nat) (D : Dict Val) : Nat := (D.map fun p => w p.1 p.2).sum

theorem dictSum_set (w : Name → Val → Nat) {D : Dict Val} {v : Name} {x y : Val} (h : D.get? v = some y)
    (hw : w v x < w v y) : dictSum w (D.set v x) < dictSum w D := by
  induction D with
  | nil => simp [Dict.get?] at h
  | cons p D ih =>
    obtain ⟨k, z⟩ := p
    by_cases e : k = v
    · subst e
      simp only [Dict.get?, if_true, Option.some.injEq] at h
      subst h
      simp [Dict.set, dictSum, hw]
    · simp only [Dict.get?, e, if_false] at h
      have := ih h
      simp only [dictSum] at this
      simpa [Dict.set, e, dictSum] using this

open Classical in
/-- the position of a value among the values of its node -/
noncomputable def position (dn : BN) (v : Name) (x : Val) : Nat :=
  if h : ∃ d ∈ dn, d.name = v then h.choose.values.idxOf x else 0

theorem position_eq (hc : DNConsistent dn) {d : NodeV} (hd : d ∈ dn) (x : Val) :
    position dn d.name x = d.values.idxOf x := by
  have h : ∃ n ∈ dn, n.name = d.name := ⟨d, hd, rfl⟩
  have : h.choose = d := List.inj_on_of_nodup_map hc.nodup h.choose_spec.1 hd h.choose_spec.2
  rw [position, dif_pos h, this]

/-- the expected utility, and among equal ones the smaller positions -/
noncomputable def height (dn : BN) (D : Dict Val) : ℚ ×ₗ ℕᵒᵈ :=
  toLex (utilityMass (dn.decide D), OrderDual.toDual (dictSum (position dn) D))

theorem height_le {D D' : Dict Val} (h : height dn D ≤ height dn D') :
    utilityMass (dn.decide D) ≤ utilityMass (dn.decide D') := by
  rcases (Prod.Lex.toLex_le_toLex).1 h with h | h
  · exact h.le
  · exact h.1.le

/-- each listed decision is the first of the best ones given the others -/
def SettledDecisions (dn : BN) (vs : List Name) (D : Dict Val) : Prop :=
  ∀ d ∈ dn, d.name ∈ vs → ∃ y, D.get? d.name = some y ∧
    FirstMax (fun y => utilityMass (dn.decide (D.set d.name y))) d.values y

theorem LegalDecisions.get {D : Dict Val} (hc : DNConsistent dn) (hD : LegalDecisions dn D) {d : NodeV}
    (hd : d ∈ dn) (hm : d.name ∈ D.keys) : ∃ y ∈ d.values, D.get? d.name = some y := by
  obtain ⟨y, hy⟩ := Dict.get?_isSome.2 hm
  obtain ⟨n, hn, e, -, h⟩ := hD.legal _ (Dict.get?_mem hy)
  obtain rfl : n = d := List.inj_on_of_nodup_map hc.nodup hn hd e
  exact ⟨y, h, hy⟩

variable (so : Nat → SetOrder) (sps : Nat → Nat → SetPerm) (sp : Nat → SetPerm)
  (hc : DNConsistent dn) (hnn : dn.chance.NonNeg) (ha : dn.chance.Acyclic)
include hc hnn ha

/-- a run leaves the decisions as they are or climbs -/
theorem ascend_run : ∀ (vs : List Name) (k : Nat) (D : Dict Val), LegalDecisions dn D →
    (∀ n ∈ dn.chance, n.name ∈ D.keys ∨ n.Normalised dn.chance.card) → FreeOrder dn vs →
    (∀ v ∈ vs, v ∈ D.keys) →
    ∃ D' : Dict Val, Decision.ascend so sps sp k vs (dn.decide D) = (dn.decide D', .ok ()) ∧
      LegalDecisions dn D' ∧ D'.keys = D.keys ∧ (∀ v, v ∉ vs → D'.get? v = D.get? v) ∧
      (D' = D ∧ SettledDecisions dn vs D ∨ height dn D < height dn D') := by
  intro vs
  induction vs with
  | nil =>
    intro k D hD _ _ _
    exact ⟨D, rfl, hD, rfl, fun _ _ => rfl, .inl ⟨rfl, fun _ _ h => by simp at h⟩⟩
  | cons v vs ih =>
    intro k D hD hs ho hvs
    obtain ⟨d, hd, rfl, hf⟩ := ho v (by simp)
    have hm := hvs d.name (by simp)
    obtain ⟨x, s1, s2⟩ := ascend_step so sps sp k hc hnn ha hD hs hd hf hm
    have hkeys : (D.set d.name x).keys = D.keys := Dict.keys_set_of_mem _ hm
    obtain ⟨D', a1, a2, a3, a4, a5⟩ := ih (k + 1) (D.set d.name x) (hD.set hd hf.kind s2.mem hm)
      (by rw [hkeys]; exact hs) (fun u hu => ho u (by simp [hu])) (by
        rw [hkeys]; exact fun u hu => hvs u (by simp [hu]))
    obtain ⟨y, hyv, hy⟩ := hD.get hc hd hm
    refine ⟨D', by rw [s1, a1], a2, a3.trans hkeys, fun u hu => ?_, ?_⟩
    · rw [List.mem_cons, not_or] at hu
      rw [a4 u hu.2, Dict.get?_set, if_neg fun h => hu.1 h.symm]
    · by_cases hxy : y = x
      · subst hxy
        rw [Dict.set_same hy] at a5
        refine a5.imp (fun h => ⟨h.1, fun n hn hnv => ?_⟩) id
        rcases List.mem_cons.1 hnv with e | e
        · obtain rfl : n = d := List.inj_on_of_nodup_map hc.nodup hn hd e
          exact ⟨y, hy, s2⟩
        · exact h.2 n hn e
      · right
        have h1 : height dn D < height dn (D.set d.name x) := by
          have hle := s2.le hyv
          simp only [Dict.set_same hy] at hle
          rw [height, height, Prod.Lex.toLex_lt_toLex]
          rcases hle.lt_or_eq with h | h
          · exact .inl h
          · refine .inr ⟨h, ?_⟩
            rw [OrderDual.toDual_lt_toDual]
            refine dictSum_set _ hy ?_
            rw [position_eq hc hd, position_eq hc hd]
            exact s2.before hyv (by simp only [Dict.set_same hy]; exact h) hxy
        rcases a5 with h | h
        · rw [h.1]; exact h1
        · exact h1.trans h

/-- settled decisions stay -/
theorem ascend_settled {us : List Name} {D : Dict Val} (hD : LegalDecisions dn D)
    (hs : ∀ n ∈ dn.chance, n.name ∈ D.keys ∨ n.Normalised dn.chance.card) (ho : FreeOrder dn us)
    (hvs : ∀ v ∈ us, v ∈ D.keys) (hset : SettledDecisions dn us D) : ∀ (vs : List Name) (k : Nat), (∀ v ∈ vs, v ∈ us) →
    Decision.ascend so sps sp k vs (dn.decide D) = (dn.decide D, .ok ()) := by
  intro vs
  induction vs with
  | nil => exact fun _ _ => rfl
  | cons v vs ih =>
    intro k hv
    obtain ⟨d, hd, rfl, hf⟩ := ho v (hv v (by simp))
    obtain ⟨x, s1, s2⟩ := ascend_step so sps sp k hc hnn ha hD hs hd hf (hvs _ (hv _ (by simp)))
    obtain ⟨y, hy, s3⟩ := hset d hd (hv _ (by simp))
    obtain rfl := s2.unique s3
    rw [s1, Dict.set_same hy]
    exact ih (k + 1) fun u hu => hv u (by simp [hu])

omit hc hnn ha in
/-- all dicts with given keys and values -/
def allDicts (lab : Name → List Val) : List Name → List (Dict Val)
  | [] => [[]]
  | k :: ks => (lab k).flatMap fun x => (allDicts lab ks).map fun D => (k, x) :: D

omit hc hnn ha in
theorem length_allDicts (lab : Name → List Val) (ks : List Name) :
    (allDicts lab ks).length = (ks.map fun v => (lab v).length).prod := by
  induction ks with
  | nil => rfl
  | cons k ks ih => simp [allDicts, List.length_flatMap, ih]

omit hc hnn ha in
theorem mem_allDicts (lab : Name → List Val) : ∀ (ks : List Name) (D : Dict Val), D.keys = ks →
    (∀ p ∈ D, p.2 ∈ lab p.1) → D ∈ allDicts lab ks := by
  intro ks
  induction ks with
  | nil =>
    intro D h1 _
    have : D = [] := by simpa [Dict.keys] using h1
    simp [this, allDicts]
  | cons k ks ih =>
    intro D h1 h2
    cases D with
    | nil => simp [Dict.keys] at h1
    | cons p D =>
      simp only [Dict.keys, List.map_cons, List.cons.injEq] at h1
      refine List.mem_flatMap.2 ⟨p.2, h1.1 ▸ h2 p (by simp), List.mem_map.2 ⟨D, ih D h1.2 fun q hq =>
        h2 q (by simp [hq]), ?_⟩⟩
      rw [← h1.1]

open Classical in
/-- sweeps settle -/
theorem ascend_settles {vs : List Name} (ho : FreeOrder dn vs) (ks : List Name) (hvs : ∀ v ∈ vs, v ∈ ks)
    (hs : ∀ n ∈ dn.chance, n.name ∈ ks ∨ n.Normalised dn.chance.card) (D : Dict Val)
    (hD : LegalDecisions dn D) (hk : D.keys = ks) (k : Nat) : ∃ (N : Nat) (D' : Dict Val),
      N < (ks.map fun v => (dn.lab v).length).prod ∧
      LegalDecisions dn D' ∧ D'.keys = ks ∧ (∀ v, v ∉ vs → D'.get? v = D.get? v) ∧ SettledDecisions dn vs D' ∧
      height dn D ≤ height dn D' ∧ ∀ m, N ≤ m →
        Decision.ascend so sps sp k (List.replicate m vs).flatten (dn.decide D) = (dn.decide D', .ok ()) := by
  let S : Finset (Dict Val) := (allDicts dn.lab ks).toFinset
  let above : Dict Val → Finset (Dict Val) := fun D => S.filter fun z => height dn D < height dn z
  have hval : ∀ D : Dict Val, LegalDecisions dn D → D.keys = ks → D ∈ S := by
    intro D hD hk
    refine List.mem_toFinset.2 (mem_allDicts _ _ _ hk fun p hp => ?_)
    obtain ⟨n, hn, e, -, h⟩ := hD.legal p hp
    rw [← e, BN.lab_eq hc.nodup hn]
    exact h
  have key : ∀ (c : Nat) (D : Dict Val), (above D).card = c → LegalDecisions dn D → D.keys = ks → ∀ k,
      ∃ (N : Nat) (D' : Dict Val), N ≤ c ∧
        LegalDecisions dn D' ∧ D'.keys = ks ∧ (∀ v, v ∉ vs → D'.get? v = D.get? v) ∧ SettledDecisions dn vs D' ∧
        height dn D ≤ height dn D' ∧ ∀ m, N ≤ m →
          Decision.ascend so sps sp k (List.replicate m vs).flatten (dn.decide D) = (dn.decide D', .ok ()) := by
    intro c
    induction c using Nat.strong_induction_on with
    | _ c ih =>
      intro D hcard hD hk k
      obtain ⟨D1, a1, a2, a3, a4, a5⟩ := ascend_run so sps sp hc hnn ha vs k D hD (by rw [hk]; exact hs) ho
        (by rw [hk]; exact hvs)
      rcases a5 with ⟨-, h⟩ | h
      · refine ⟨0, D, Nat.zero_le _, hD, hk, fun _ _ => rfl, h, le_rfl, fun m _ => ?_⟩
        refine ascend_settled so sps sp hc hnn ha hD (by rw [hk]; exact hs) ho (by rw [hk]; exact hvs) h _ _ ?_
        intro v hv
        obtain ⟨l, hl, hv⟩ := List.mem_flatten.1 hv
        rw [List.eq_of_mem_replicate hl] at hv
        exact hv
      · have hlt : (above D1).card < c := by
          rw [← hcard]
          refine Finset.card_lt_card (Finset.ssubset_iff_subset_ne.2 ⟨fun z hz => ?_, fun e => ?_⟩)
          · obtain ⟨z1, z2⟩ := Finset.mem_filter.1 hz
            exact Finset.mem_filter.2 ⟨z1, h.trans z2⟩
          · have : D1 ∈ above D := Finset.mem_filter.2 ⟨hval D1 a2 (a3.trans hk), h⟩
            rw [← e] at this
            exact lt_irrefl _ (Finset.mem_filter.1 this).2
        obtain ⟨N, D', b0, b1, b2, b3, b4, b5, b6⟩ := ih _ hlt D1 rfl a2 (a3.trans hk) (k + vs.length)
        refine ⟨N + 1, D', by omega, b1, b2, fun v hv => (b3 v hv).trans (a4 v hv), b4, h.le.trans b5, fun m hm => ?_⟩
        obtain ⟨m, rfl⟩ : ∃ m', m = m' + 1 := ⟨m - 1, by omega⟩
        rw [List.replicate_succ, List.flatten_cons, ascend_append _ _ _ _ _ _ _ _ a1]
        exact b6 m (by omega)
  obtain ⟨N, D', b0, b⟩ := key _ D rfl hD hk k
  refine ⟨N, D', lt_of_le_of_lt b0 ?_, b⟩
  rw [← length_allDicts]
  refine lt_of_lt_of_le (Finset.card_lt_card (t := S) (Finset.ssubset_iff_subset_ne.2
    ⟨Finset.filter_subset _ _, fun e => ?_⟩)) (List.toFinset_card_le _)
  have := hval D hD hk
  rw [← e] at this
  exact lt_irrefl _ (Finset.mem_filter.1 this).2

end

end Primo
