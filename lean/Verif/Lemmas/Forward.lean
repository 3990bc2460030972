import Verif.Lemmas.Kahn
import Verif.Lemmas.Chain

/-! # Forward sampling along a topological order -/

namespace Primo
open Finset

variable {bn : BN}

/-- the table entry for own outcome `i` under the parent instantiation `ρ` -/
def rowEntry (n : NodeV) (ρ : Assign) (i : Nat) : ℚ := n.cpd.get (i :: n.parentOrder.map ρ)

theorem weights_forward (hc : bn.Consistent) (hd : bn.Discrete) {n : NodeV} (hn : n ∈ bn)
    {ρ : Assign} (hρ : Legal bn.card n.parentOrder ρ) {d : Dict Val}
    (hr : ReadsOn bn n.parentOrder d ρ) (ch : List NodeV) :
    n.weights d ch true = .ok (n.values.map fun o => rowEntry n ρ (n.values.idxOf o)) := by
  refine mapM_ok fun o ho => ?_
  have hlt := List.idxOf_lt_length_of_mem ho
  have hoi : n.values[n.values.idxOf o]? = some o := List.getElem?_idxOf ho
  have hne : ∀ p ∈ n.parentOrder, p ≠ n.name := by
    rintro p hp rfl; exact hc.self n hn hp
  rw [markovProb_forward, getSingle_reads hc hd hn (σ := Function.update ρ n.name (n.values.idxOf o))]
  · unfold NodeV.entry rowEntry
    rw [Function.update_self, List.map_congr_left fun p hp => Function.update_of_ne (hne p hp) _ _]
  · intro v hv
    rcases List.mem_cons.1 hv with rfl | h
    · rw [Function.update_self, card_eq hc hn]; exact hlt
    · rw [Function.update_of_ne (hne v h)]; exact hρ v h
  · exact (ReadsOn.set hr (by rw [lab_get hc hn]; exact hoi)).mono fun v hv =>
      List.mem_cons_of_mem _ hv
  · rw [Function.update_self]; exact hoi

theorem rowEntry_sum (hd : bn.Discrete) (hs : bn.Stochastic) {n : NodeV} (hn : n ∈ bn)
    {ρ : Assign} (hρ : Legal bn.card n.parentOrder ρ) :
    (n.values.map fun o => rowEntry n ρ (n.values.idxOf o)).sum = 1 := by
  rw [sum_idxOf_rat (hd.labels n hn) (rowEntry n ρ)]
  exact hs n hn ρ hρ

theorem zip_map_self {β : Type} (l : List Val) (f : Val → β) :
    l.zip (l.map f) = l.map fun o => (o, f o) := by
  rw [show l.map (fun o => (o, f o)) = (l.map id).zip (l.map f) from (List.zip_map' ..).symm,
    List.map_id]

theorem expect_resample_forward (hc : bn.Consistent) (hd : bn.Discrete) (hnn : bn.NonNeg)
    (hs : bn.Stochastic) {n : NodeV} (hn : n ∈ bn)
    {ρ : Assign} (hρ : Legal bn.card n.parentOrder ρ) {d : Dict Val}
    (hr : ReadsOn bn n.parentOrder d ρ) (ch : List NodeV) (G : Except PyErr (Dict Val) → ℝ) :
    (n.resample d ch true).expect G = (n.values.map fun o =>
      ((rowEntry n ρ (n.values.idxOf o) : ℚ) : ℝ) * G (.ok (d.set n.name o))).sum := by
  let G' : Option Val → ℝ := fun r => match r with
    | none => G (.error .noneValue)
    | some x => G (.ok (d.set n.name x))
  have hE : (n.resample d ch true).expect G = ∫ u in (0 : ℝ)..1,
      G' (roulette (n.values.map fun o => (o, rowEntry n ρ (n.values.idxOf o))) 0
        (u * ((1 : ℚ) : ℝ))) := by
    unfold NodeV.resample NodeV.sampleValue
    rw [if_neg (by simp [hd.kind n hn]), weights_forward hc hd hn hρ hr, Rand.andThen_ok,
      Rand.andThen_uniform, Rand.expect_uniform, rowEntry_sum hd hs hn hρ, zip_map_self]
    simp only [Rand.andThen_pure_ok]
    congr 1
    funext u
    cases roulette (n.values.map fun o => (o, rowEntry n ρ (n.values.idxOf o))) 0
      (u * ((1 : ℚ) : ℝ)) <;> rfl
  rw [hE]
  have := (roulette_integral G' one_pos (n.values.map fun o => (o, rowEntry n ρ (n.values.idxOf o)))
    (by
      intro p hp
      obtain ⟨o, _, rfl⟩ := List.mem_map.1 hp
      exact NDArray.get_nonneg (hnn n hn) _) 0 (by
        rw [zero_add, List.map_map]; exact rowEntry_sum hd hs hn hρ)).2
  rw [zero_div, Rat.cast_zero] at this
  rw [this, List.map_map]
  congr 1
  refine List.map_congr_left fun o _ => ?_
  simp [G']

theorem all_resample_forward (hc : bn.Consistent) (hd : bn.Discrete) (hnn : bn.NonNeg)
    {n : NodeV} (hn : n ∈ bn) (hv : n.values ≠ [])
    {ρ : Assign} (hρ : Legal bn.card n.parentOrder ρ) {d : Dict Val}
    (hr : ReadsOn bn n.parentOrder d ρ) (ch : List NodeV) :
    (n.resample d ch true).All fun r => ∃ d', r = .ok d' ∧ ∃ x ∈ n.values, d' = d.set n.name x := by
  unfold NodeV.resample NodeV.sampleValue
  rw [if_neg (by simp [hd.kind n hn]), weights_forward hc hd hn hρ hr, Rand.andThen_ok]
  set ws := n.values.map fun o => rowEntry n ρ (n.values.idxOf o) with hws
  intro u h0 h1
  have hz : (n.values.zip ws).map Prod.snd = ws := by
    rw [List.map_snd_zip]; simp [hws]
  have hne : n.values.zip ws ≠ [] := by
    rw [hws, zip_map_self]; simpa using hv
  have hsum : 0 ≤ ws.sum := List.sum_nonneg (by
    intro x hx
    obtain ⟨o, _, rfl⟩ := List.mem_map.1 hx
    exact NDArray.get_nonneg (hnn n hn) _)
  obtain ⟨p, hp, hrl⟩ := roulette_isSome (s := 0) (r := u * ((ws.sum : ℚ) : ℝ)) hne (by
    rw [hz, zero_add]
    have : (0 : ℝ) ≤ ((ws.sum : ℚ) : ℝ) := by exact_mod_cast hsum
    nlinarith)
  simp only [Rand.bind, hrl]
  exact ⟨_, rfl, _, (List.of_mem_zip hp).1, rfl⟩

/-- `d` gives every variable of `S` one of its outcomes -/
def Settled (bn : BN) (S : Name → Prop) (d : Dict Val) : Prop :=
  ∀ v ∈ bn.names, S v → ∃ x ∈ bn.lab v, d.get? v = some x

theorem Settled.reads {S : Name → Prop} {d : Dict Val} (h : Settled bn S d) {l : List Name}
    (hl : ∀ v ∈ l, v ∈ bn.names ∧ S v) :
    ∃ ρ, Legal bn.card l ρ ∧ ReadsOn bn l d ρ := by
  refine ⟨fun v => (bn.lab v).idxOf ((d.get? v).getD ""), fun v hv => ?_, fun v hv => ?_⟩
  · obtain ⟨x, h1, h2⟩ := h v (hl v hv).1 (hl v hv).2
    simp only [h2, Option.getD_some]
    exact List.idxOf_lt_length_of_mem h1
  · obtain ⟨x, h1, h2⟩ := h v (hl v hv).1 (hl v hv).2
    simp only [h2, Option.getD_some]
    exact (List.getElem?_idxOf h1).symm

theorem Settled.set (hc : bn.Consistent) {S : Name → Prop} {d : Dict Val} (h : Settled bn S d)
    {n : NodeV} (hn : n ∈ bn) {x : Val} (hx : x ∈ n.values) :
    Settled bn (fun v => S v ∨ v = n.name) (d.set n.name x) := by
  intro v hv hS
  rw [Dict.get?_set]
  by_cases e : n.name = v
  · subst e
    rw [if_pos rfl]
    exact ⟨x, by rw [BN.lab_eq hc.nodup hn]; exact hx, rfl⟩
  · rw [if_neg e]
    exact h v hv (hS.resolve_right (Ne.symm e))

/-- The probability of ending in `τ` when the variables `pre` and the evidence are settled. -/
theorem prob_sampleAlong (hc : bn.Consistent) (hd : bn.Discrete) (hnn : bn.NonNeg)
    (hs : bn.Stochastic) (ev : Dict Val) {τ : Assign} (hτ : Legal bn.card bn.names τ) :
    ∀ (rest pre : List Name) (d : Dict Val), bn.TopoOrder (pre ++ rest) →
      Settled bn (fun v => v ∈ pre ∨ v ∈ ev.keys) d →
      ((∀ v ∈ bn.names, v ∈ pre ∨ v ∈ ev.keys → d.get? v = (bn.lab v)[τ v]?) →
        (BN.sampleAlong bn ev rest none d).prob (Returns bn τ) =
          (((rest.filter (· ∉ ev.keys)).map fun v => entryOf bn v τ).prod : ℚ)) ∧
      (¬ (∀ v ∈ bn.names, v ∈ pre ∨ v ∈ ev.keys → d.get? v = (bn.lab v)[τ v]?) →
        (BN.sampleAlong bn ev rest none d).prob (Returns bn τ) = 0) := by
  classical
  intro rest
  induction rest with
  | nil =>
    intro pre d hto hset
    have hin : ∀ v ∈ bn.names, v ∈ pre := fun v hv => by
      have := hto.perm.symm.subset hv
      simpa using this
    have hiff : Returns bn τ (.ok d) ↔
        ∀ v ∈ bn.names, v ∈ pre ∨ v ∈ ev.keys → d.get? v = (bn.lab v)[τ v]? := by
      constructor
      · rintro ⟨d', e, h⟩ v hv _
        cases e
        exact h v hv
      · exact fun h => ⟨d, rfl, fun v hv => h v hv (Or.inl (hin v hv))⟩
    constructor
    · intro h
      unfold BN.sampleAlong Rand.prob
      rw [Rand.expect_pure, if_pos (hiff.2 h)]
      simp
    · intro h
      unfold BN.sampleAlong Rand.prob
      rw [Rand.expect_pure, if_neg (mt hiff.1 h)]
  | cons v rest ih =>
    intro pre d hto hset
    have hto' : bn.TopoOrder ((pre ++ [v]) ++ rest) := by simpa using hto
    have hvn : v ∈ bn.names := hto.perm.subset (by simp)
    have hnd : (pre ++ v :: rest).Nodup := hto.perm.nodup_iff.2 hc.nodup
    have hvpre : v ∉ pre := fun h => (List.nodup_append.1 hnd).2.2 v h v (by simp) rfl
    by_cases hvev : v ∈ ev.keys
    · have heq : ∀ w, (w ∈ pre ++ [v] ∨ w ∈ ev.keys) ↔ (w ∈ pre ∨ w ∈ ev.keys) := by
        intro w
        rw [List.mem_append, List.mem_singleton]
        constructor
        · rintro ((h | rfl) | h)
          · exact Or.inl h
          · exact Or.inr hvev
          · exact Or.inr h
        · rintro (h | h)
          · exact Or.inl (Or.inl h)
          · exact Or.inr h
      have := ih (pre ++ [v]) d hto' fun w hw hS => hset w hw ((heq w).1 hS)
      simp only [heq] at this
      rw [BN.sampleAlong, if_pos hvev, List.filter_cons_of_neg (by simpa using hvev)]
      exact this
    · obtain ⟨n, hn, rfl⟩ := BN.exists_of_mem_names hvn
      have hpar : ∀ p ∈ n.parentOrder, p ∈ bn.names ∧ (p ∈ pre ∨ p ∈ ev.keys) := fun p hp =>
        ⟨hc.parents_mem n hn p hp, Or.inl (hto.parents pre n.name rest rfl p ⟨n, hn, rfl, hp⟩)⟩
      obtain ⟨ρ, hρ, hr⟩ := hset.reads hpar
      have heq : ∀ w, (w ∈ pre ++ [n.name] ∨ w ∈ ev.keys) ↔
          ((w ∈ pre ∨ w ∈ ev.keys) ∨ w = n.name) := by
        intro w
        rw [List.mem_append, List.mem_singleton]
        tauto
      have hrun : (BN.sampleAlong bn ev (n.name :: rest) none d).prob (Returns bn τ) =
          (n.values.map fun o => ((rowEntry n ρ (n.values.idxOf o) : ℚ) : ℝ) *
            (BN.sampleAlong bn ev rest none (d.set n.name o)).prob (Returns bn τ)).sum := by
        rw [BN.sampleAlong, if_neg hvev, BN.getNode_ok hc.nodup hn, Rand.andThen_ok]
        unfold Rand.prob
        rw [Rand.expect_andThen, expect_resample_forward hc hd hnn hs hn hρ hr]
        rfl
      have hih := fun o (ho : o ∈ n.values) => ih (pre ++ [n.name]) (d.set n.name o) hto'
        (fun w hw hS => (hset.set hc hn ho) w hw ((heq w).1 hS))
      have hcond : ∀ o ∈ n.values,
          ((∀ w ∈ bn.names, w ∈ pre ++ [n.name] ∨ w ∈ ev.keys →
            (d.set n.name o).get? w = (bn.lab w)[τ w]?) ↔
          (∀ w ∈ bn.names, w ∈ pre ∨ w ∈ ev.keys → d.get? w = (bn.lab w)[τ w]?) ∧
            n.values.idxOf o = τ n.name) := by
        intro o ho
        rw [idxOf_eq_iff_of_nodup (hd.labels n hn) ho, ← lab_get hc hn]
        constructor
        · intro h
          refine ⟨fun w hw hS => ?_, ?_⟩
          · have := h w hw ((heq w).2 (Or.inl hS))
            rwa [Dict.get?_set, if_neg (by
              rintro rfl
              rcases hS with h' | h'
              · exact hvpre h'
              · exact hvev h')] at this
          · have := h n.name hvn (by simp)
            rw [Dict.get?_set, if_pos rfl] at this
            exact this.symm
        · rintro ⟨h1, h2⟩ w hw hS
          rw [Dict.get?_set]
          by_cases e : n.name = w
          · subst e
            rw [if_pos rfl, h2]
          · rw [if_neg e]
            exact h1 w hw (((heq w).1 hS).resolve_right (Ne.symm e))
      constructor
      · intro hA
        rw [hrun, List.filter_cons_of_pos (by simpa using hvev), List.map_cons, List.prod_cons]
        have hterm : (n.values.map fun o => ((rowEntry n ρ (n.values.idxOf o) : ℚ) : ℝ) *
            (BN.sampleAlong bn ev rest none (d.set n.name o)).prob (Returns bn τ)) =
            n.values.map fun o => (fun i => if i = τ n.name then ((rowEntry n ρ i : ℚ) : ℝ) *
              ((((rest.filter (· ∉ ev.keys)).map fun v => entryOf bn v τ).prod : ℚ) : ℝ) else 0)
                (n.values.idxOf o) := by
          refine List.map_congr_left fun o ho => ?_
          by_cases e : n.values.idxOf o = τ n.name
          · rw [(hih o ho).1 ((hcond o ho).2 ⟨hA, e⟩)]
            exact (if_pos e).symm
          · rw [(hih o ho).2 (fun h => e ((hcond o ho).1 h).2), mul_zero]
            exact (if_neg e).symm
        rw [hterm, sum_idxOf (hd.labels n hn) (fun i => if i = τ n.name then
          ((rowEntry n ρ i : ℚ) : ℝ) *
            ((((rest.filter (· ∉ ev.keys)).map fun v => entryOf bn v τ).prod : ℚ) : ℝ) else 0),
          sum_ite_eq', if_pos (mem_range.2
          (card_eq hc hn ▸ hτ _ hvn))]
        rw [← Rat.cast_mul]
        congr 2
        have hagree : ∀ p ∈ n.parentOrder, ρ p = τ p := by
          intro p hp
          have h1 := hA p (hpar p hp).1 (hpar p hp).2
          have h2 := hr p hp
          exact (List.getElem?_inj (hρ p hp) (hd.lab_nodup p)).1 (h2.symm.trans h1)
        simp only [entryOf, BN.lab_of_mem hc.nodup hn, NodeV.entry, rowEntry]
        rw [List.map_congr_left hagree]
      · intro hA
        rw [hrun]
        apply List.sum_eq_zero
        intro x hx
        obtain ⟨o, ho, rfl⟩ := List.mem_map.1 hx
        rw [(hih o ho).2 (fun h => hA ((hcond o ho).1 h).1), mul_zero]

/-- whatever the random numbers, forward sampling ends in a state that respects the evidence -/
theorem all_sampleAlong (hc : bn.Consistent) (hd : bn.Discrete) (hnn : bn.NonNeg)
    (hv : ∀ n ∈ bn, n.values ≠ []) (ev : Dict Val) :
    ∀ (rest pre : List Name) (d : Dict Val), bn.TopoOrder (pre ++ rest) →
      Settled bn (fun v => v ∈ pre ∨ v ∈ ev.keys) d →
      (∀ v x, ev.get? v = some x → d.get? v = some x) →
      (BN.sampleAlong bn ev rest none d).All fun r => ∃ d', r = .ok d' ∧ GoodState bn ev d' := by
  intro rest
  induction rest with
  | nil =>
    intro pre d hto hset hev
    refine ⟨d, rfl, fun n hn => ?_, hev⟩
    have hvn : n.name ∈ bn.names := List.mem_map_of_mem hn
    have := hset n.name hvn (Or.inl (by simpa using hto.perm.symm.subset hvn))
    rwa [BN.lab_eq hc.nodup hn] at this
  | cons v rest ih =>
    intro pre d hto hset hev
    have hto' : bn.TopoOrder ((pre ++ [v]) ++ rest) := by simpa using hto
    have hvn : v ∈ bn.names := hto.perm.subset (by simp)
    by_cases hvev : v ∈ ev.keys
    · rw [BN.sampleAlong, if_pos hvev]
      refine ih (pre ++ [v]) d hto' (fun w hw hS => hset w hw ?_) hev
      replace hS : w ∈ pre ++ [v] ∨ w ∈ ev.keys := hS
      rw [List.mem_append, List.mem_singleton] at hS
      rcases hS with (h | rfl) | h
      · exact Or.inl h
      · exact Or.inr hvev
      · exact Or.inr h
    · obtain ⟨n, hn, rfl⟩ := BN.exists_of_mem_names hvn
      obtain ⟨ρ, hρ, hr⟩ := hset.reads (l := n.parentOrder) fun p hp =>
        ⟨hc.parents_mem n hn p hp, Or.inl (hto.parents pre n.name rest rfl p ⟨n, hn, rfl, hp⟩)⟩
      rw [BN.sampleAlong, if_neg hvev, BN.getNode_ok hc.nodup hn, Rand.andThen_ok]
      refine Rand.all_andThen (all_resample_forward hc hd hnn hn (hv n hn) hρ hr _) ?_
      rintro _ ⟨x, hx, rfl⟩
      refine ih (pre ++ [n.name]) _ hto' (fun w hw hS => (hset.set hc hn hx) w hw ?_)
        fun w y hy => ?_
      · replace hS : w ∈ pre ++ [n.name] ∨ w ∈ ev.keys := hS
        rw [List.mem_append, List.mem_singleton] at hS
        show (w ∈ pre ∨ w ∈ ev.keys) ∨ w = n.name
        tauto
      · rw [Dict.get?_set, if_neg (by rintro rfl; exact hvev (Dict.mem_keys_of_get? hy))]
        exact hev w y hy

theorem LegalHard.settled {ev : Dict Val} (he : LegalHard bn ev) :
    Settled bn (fun v => v ∈ ([] : List Name) ∨ v ∈ ev.keys) ev := by
  intro v _ hS
  obtain ⟨x, hx⟩ := Dict.get?_isSome.2 (hS.resolve_left (by simp))
  exact ⟨x, he.label (v, x) (Dict.get?_mem hx), hx⟩

theorem all_getSample (hc : bn.Consistent) (hl : bn.Linked) (ha : bn.Acyclic) (hd : bn.Discrete)
    (hnn : bn.NonNeg) (hv : ∀ n ∈ bn, n.values ≠ []) {ev : Dict Val} (he : LegalHard bn ev) :
    (bn.getSample ev).All fun r => ∃ d', r = .ok d' ∧ GoodState bn ev d' := by
  obtain ⟨h1, h2⟩ := topologicalSort_spec hc hl ha
  unfold BN.getSample
  rw [h1]
  exact all_sampleAlong hc hd hnn hv ev _ [] ev (by simpa using h2) he.settled fun _ _ h => h

end Primo
