import Verif.Lemmas.RoundedKernel
import Verif.Lemmas.Perturb
import Verif.Lemmas.Connected

/-! # The samplers with rounded arithmetic, compared with the exact ones -/

namespace Primo
open Finset Markov

variable {bn : BN} {A : Arith} {u : ℚ} {N : Nat}

/-! ## the distance between the matrices -/

theorem rowDist_site {v : Name} (hv : v ∈ bn.names) {K K' : Assign → Nat → ℝ} {e : ℝ}
    (h : ∀ σ ∈ states bn, ∀ b < bn.card v, |K' σ b - K σ b| ≤ e) :
    RowDist (states bn) (siteMatrix bn v K) (siteMatrix bn v K') (bn.card v * e) := by
  classical
  intro σ hσ
  have h1 : ∀ τ ∈ states bn, |siteMatrix bn v K' σ τ - siteMatrix bn v K σ τ| ≤
      siteMatrix bn v (fun σ b => |K' σ b - K σ b|) σ τ * 1 := by
    intro τ _
    unfold siteMatrix
    rw [← sum_sub_distrib, mul_one]
    refine (abs_sum_le_sum_abs _ _).trans (sum_le_sum fun b _ => ?_)
    split <;> simp
  refine (sum_le_sum h1).trans ?_
  have h2 := act_siteMatrix hv (fun σ b => |K' σ b - K σ b|) (fun _ => 1) hσ
  rw [act] at h2
  rw [h2]
  refine (sum_le_sum fun b hb => (mul_one _).le.trans (h σ hσ b (mem_range.1 hb))).trans ?_
  rw [sum_const, card_range, nsmul_eq_mul]

theorem rowDist_mul {S : Finset Assign} {P P' Q Q' : Assign → Assign → ℝ} {e e' : ℝ}
    (h : RowDist S P P' e) (h' : RowDist S Q Q' e') (hP : Stoch S P) (hQ : Stoch S Q') :
    RowDist S (mulM S P Q) (mulM S P' Q') (e + e') := by
  intro σ hσ
  have h1 : ∀ τ ∈ S, |mulM S P' Q' σ τ - mulM S P Q σ τ| ≤
      (∑ ρ ∈ S, |P' σ ρ - P σ ρ| * Q' ρ τ) + ∑ ρ ∈ S, P σ ρ * |Q' ρ τ - Q ρ τ| := by
    intro τ hτ
    unfold mulM
    rw [← sum_sub_distrib, ← sum_add_distrib]
    refine (abs_sum_le_sum_abs _ _).trans (sum_le_sum fun ρ hρ => ?_)
    rw [show P' σ ρ * Q' ρ τ - P σ ρ * Q ρ τ = (P' σ ρ - P σ ρ) * Q' ρ τ +
      P σ ρ * (Q' ρ τ - Q ρ τ) by ring]
    refine (abs_add_le _ _).trans (le_of_eq ?_)
    rw [abs_mul, abs_mul, abs_of_nonneg (hQ.nonneg ρ hρ τ hτ), abs_of_nonneg (hP.nonneg σ hσ ρ hρ)]
  refine (sum_le_sum h1).trans ?_
  rw [sum_add_distrib]
  refine add_le_add ?_ ?_
  · rw [sum_comm]
    refine le_trans (le_of_eq (sum_congr rfl fun ρ hρ => ?_)) (h σ hσ)
    rw [← mul_sum, hQ.sum ρ hρ, mul_one]
  · rw [sum_comm]
    calc ∑ ρ ∈ S, ∑ τ ∈ S, P σ ρ * |Q' ρ τ - Q ρ τ| = ∑ ρ ∈ S, P σ ρ * ∑ τ ∈ S, |Q' ρ τ - Q ρ τ| :=
          sum_congr rfl fun ρ _ => (mul_sum _ _ _).symm
      _ ≤ ∑ ρ ∈ S, P σ ρ * e' := sum_le_sum fun ρ hρ =>
          mul_le_mul_of_nonneg_left (h' ρ hρ) (hP.nonneg σ hσ ρ hρ)
      _ = e' := by rw [← sum_mul, hP.sum σ hσ, one_mul]

section
variable {F : List Name} {π π' : Assign → ℝ}
  {site site' : NodeV → Dict Val → Rand (Except PyErr (Dict Val))} {ns : List NodeV}
  {P P' : NodeV → Assign → Assign → ℝ} {e : NodeV → ℝ}

theorem rowDist_step (hk : ∀ n ∈ ns, Kern bn F π (site n) (P n))
    (hk' : ∀ n ∈ ns, Kern bn F π' (site' n) (P' n))
    (h : ∀ n ∈ ns, RowDist (states bn) (P n) (P' n) (e n)) (he : ∀ n ∈ ns, 0 ≤ e n) (full : Bool) :
    RowDist (states bn) (stepM bn P ns full) (stepM bn P' ns full) (ns.map e).sum := by
  cases full with
  | true =>
    show RowDist (states bn) (sweepM (states bn) P ns) (sweepM (states bn) P' ns) _
    induction ns with
    | nil => intro σ _; simp [sweepM]
    | cons n ns ih =>
      rw [List.map_cons, List.sum_cons]
      exact rowDist_mul (h n (by simp))
        (ih (fun m hm => hk m (List.mem_cons_of_mem _ hm)) (fun m hm => hk' m (List.mem_cons_of_mem _ hm))
          (fun m hm => h m (List.mem_cons_of_mem _ hm)) fun m hm => he m (List.mem_cons_of_mem _ hm))
        (hk n (by simp)).stoch (Kern.sweep fun m hm => hk' m (List.mem_cons_of_mem _ hm)).stoch
  | false =>
    intro σ hσ
    show ∑ τ ∈ states bn, |avgM ns P' σ τ - avgM ns P σ τ| ≤ _
    rcases ns.eq_nil_or_concat with rfl | ⟨l, x, hx⟩
    · simp [avgM]
    have hpos : (1 : ℝ) ≤ ns.length := by
      rw [hx, List.length_concat]; push_cast; linarith [Nat.cast_nonneg (α := ℝ) l.length]
    have hs0 : 0 ≤ (ns.map e).sum := List.sum_nonneg fun y hy => by
      obtain ⟨n, hn, rfl⟩ := List.mem_map.1 hy
      exact he n hn
    have h1 : ∀ τ, |avgM ns P' σ τ - avgM ns P σ τ| ≤
        (ns.map fun n => |P' n σ τ - P n σ τ|).sum / ns.length := by
      intro τ
      unfold avgM
      rw [← sub_div, abs_div, abs_of_pos (by linarith : (0 : ℝ) < ns.length)]
      refine div_le_div_of_nonneg_right ?_ (by linarith)
      clear hpos hs0 hx h hk hk' he
      induction ns with
      | nil => simp
      | cons n ns ih =>
        simp only [List.map_cons, List.sum_cons]
        rw [add_sub_add_comm]
        exact (abs_add_le _ _).trans (by linarith)
    refine (sum_le_sum fun τ _ => h1 τ).trans ?_
    rw [← sum_div, sum_list_comm]
    refine le_trans (div_le_div_of_nonneg_right (List.sum_le_sum fun n hn => h n hn σ hσ) (by linarith))
      (div_le_self hs0 hpos)

end

theorem rowDist_restrict {α : Type} {S C : Finset α} (hC : C ⊆ S) {P Q : α → α → ℝ} {e : ℝ}
    (h : RowDist S P Q e) : RowDist C P Q e := fun x hx =>
  (sum_le_sum_of_subset_of_nonneg hC fun _ _ _ => abs_nonneg _).trans (h x (hC hx))

/-- the matrix of a program is determined by the program -/
theorem Kern.unique (hc : bn.Consistent) (hd : bn.Discrete) {F F' : List Name} {π π' : Assign → ℝ}
    {m : Dict Val → Rand (Except PyErr (Dict Val))} {P P' : Assign → Assign → ℝ}
    (h : Kern bn F π m P) (h' : Kern bn F' π' m P') {σ : Assign} (hσ : σ ∈ states bn) {τ : Assign}
    (hτ : τ ∈ states bn) : P σ τ = P' σ τ := by
  classical
  obtain ⟨d, hr⟩ := exists_dict hc (mem_states.1 hσ).1
  have key : ∀ Q : Assign → Assign → ℝ, act (states bn) Q (sameState bn τ) σ = Q σ τ := by
    intro Q
    unfold act
    rw [sum_eq_single_of_mem τ hτ]
    · rw [sameState, if_pos fun _ _ => rfl, mul_one]
    · intro ρ hρ hne
      rw [sameState, if_neg, mul_zero]
      intro e
      refine hne (funext fun v => ?_)
      by_cases hv : v ∈ bn.names
      · exact e v hv
      · rw [(mem_states.1 hρ).2 v hv, (mem_states.1 hτ).2 v hv]
  have hG : CompatS bn (fun r => by classical exact if Returns bn τ r then 1 else 0)
      (sameState bn τ) := fun d' ρ hρ hr' => compat_returns hd τ d' ρ (mem_states.1 hρ).1 hr'
  rw [← key P, ← key P', ← h.acts _ _ hG σ hσ d hr, ← h'.acts _ _ hG σ hσ d hr]

/-! ## programs that draw finitely often among finitely many -/

namespace Rand
variable {α β : Type}

/-- the program draws from finite non-empty ranges only -/
def Finite : Rand α → Prop
  | .pure _ => True
  | .choice n k => 0 < n ∧ ∀ i < n, (k i).Finite
  | .uniform _ => False

theorem finite_bind {f : α → Rand β} (hf : ∀ a, (f a).Finite) : ∀ {m : Rand α}, m.Finite →
    (m.bind f).Finite
  | .pure a, _ => hf a
  | .choice _ _, h => ⟨h.1, fun i hi => finite_bind hf (h.2 i hi)⟩

theorem finite_andThen {m : Rand (Except PyErr α)} {f : α → Rand (Except PyErr β)} (hm : m.Finite)
    (hf : ∀ a, (f a).Finite) : (m.andThen f).Finite :=
  finite_bind (fun r => by cases r <;> first | exact hf _ | trivial) hm

theorem le_expect {g : α → ℝ} {c : ℝ} : ∀ {m : Rand α}, m.Finite → m.All (fun a => c ≤ g a) →
    c ≤ m.expect g
  | .pure _, _, h => h
  | .choice n k, h, ha => by
    have hn : (0 : ℝ) < n := by exact_mod_cast h.1
    rw [expect_choice, le_div_iff₀ hn]
    calc c * n = ∑ _i ∈ range n, c := by rw [sum_const, card_range, nsmul_eq_mul]; ring
      _ ≤ _ := sum_le_sum fun i hi => le_expect (h.2 i (mem_range.1 hi)) (ha i (mem_range.1 hi))

theorem expect_le {g : α → ℝ} {c : ℝ} : ∀ {m : Rand α}, m.Finite → m.All (fun a => g a ≤ c) →
    m.expect g ≤ c
  | .pure _, _, h => h
  | .choice n k, h, ha => by
    have hn : (0 : ℝ) < n := by exact_mod_cast h.1
    rw [expect_choice, div_le_iff₀ hn]
    calc _ ≤ ∑ _i ∈ range n, c :=
          sum_le_sum fun i hi => expect_le (h.2 i (mem_range.1 hi)) (ha i (mem_range.1 hi))
      _ = c * n := by rw [sum_const, card_range, nsmul_eq_mul]; ring

theorem all_true : ∀ (m : Rand α), m.All fun _ => True
  | .pure _ => trivial
  | .choice _ k => fun i _ => all_true (k i)
  | .uniform k => fun u _ _ => all_true (k u)

end Rand

theorem finite_resampleR (A : Arith) (hN : 0 < N) (n : NodeV) (d : Dict Val) (ch : List NodeV)
    (fw : Bool) : (n.resampleR A N d ch fw).Finite := by
  unfold NodeV.resampleR NodeV.sampleValueR
  refine Rand.finite_andThen ?_ fun r => by cases r <;> trivial
  split
  · trivial
  · exact Rand.finite_andThen trivial fun ws => ⟨hN, fun _ _ => trivial⟩

theorem finite_sampleAlongR (A : Arith) (hN : 0 < N) (bn : BN) (ev : Dict Val) :
    ∀ (order : List Name) (e : Option PyErr) (d : Dict Val),
      (BN.sampleAlongR A N bn ev order e d).Finite
  | [], none, _ => trivial
  | [], some _, _ => trivial
  | v :: order, e, d => by
    rw [BN.sampleAlongR]
    split
    · exact finite_sampleAlongR A hN bn ev order e d
    · exact Rand.finite_andThen trivial fun n => Rand.finite_andThen (finite_resampleR A hN ..)
        fun d => finite_sampleAlongR A hN bn ev order e d

/-! ## legal states -/

theorem all_gibbsSiteR (hA : A.Accurate u) (huN : u * N ≤ 1) (hc : bn.Consistent) (hl : bn.Linked)
    (hd : bn.Discrete) (hnn : bn.NonNeg) {ev d : Dict Val} (h : GoodState bn ev d) {n : NodeV}
    (hn : n ∈ bn) (hev : n.name ∉ ev.keys) :
    (Mcmc.gibbsSiteR A N bn n d).All fun r => ∃ d', r = .ok d' ∧ GoodState bn ev d' := by
  obtain ⟨σ, hσ, hr⟩ := exists_reads hc h.1
  have hv : n.values ≠ [] := by
    obtain ⟨x, hx, _⟩ := h.1 n hn
    exact List.ne_nil_of_mem hx
  refine (all_resampleR hA huN (hd.kind n hn) hv (weightsR_reads A hc hl hd hn hσ hr)
    (siteWeightsR_near hA hc hl hnn hn σ) (by simp)).mono ?_
  rintro r ⟨x, hx, rfl⟩
  exact ⟨_, rfl, h.set hc hn hev hx⟩

theorem all_mhSiteR (A : Arith) (N : Nat) (hc : bn.Consistent) (hl : bn.Linked) (hd : bn.Discrete)
    {ev d : Dict Val} (h : GoodState bn ev d) {n : NodeV} (hn : n ∈ bn) (hev : n.name ∉ ev.keys) :
    (Mcmc.mhSiteR A N bn n d).All fun r => ∃ d', r = .ok d' ∧ GoodState bn ev d' := by
  obtain ⟨σ, hσ, hr⟩ := exists_reads hc h.1
  obtain ⟨x, hx1, hx2⟩ := hr.get hc hσ hn
  have hv : n.values ≠ [] := List.ne_nil_of_mem (List.mem_of_getElem? hx2)
  unfold Mcmc.mhSiteR
  rw [if_neg (by simp [hd.kind n hn]), Dict.getE_ok hx1, Rand.andThen_ok]
  unfold NodeV.sampleLocal
  rw [if_neg (by simp [hd.kind n hn])]
  refine Rand.all_andThen (Rand.all_choose hv) fun o ho => ?_
  have hlt := List.idxOf_lt_length_of_mem ho
  have hoi : n.values[n.values.idxOf o]? = some o := List.getElem?_idxOf ho
  rw [markovProbR_reads A hc hl hd hn (hσ.update (v := n.name) (b := n.values.idxOf o)
      (card_eq hc hn ▸ hlt)) (hr.set (by rw [lab_get hc hn]; exact hoi))
      (by rw [Function.update_self]; exact hoi), Rand.andThen_ok,
    markovProbR_reads A hc hl hd hn hσ hr hx2, Rand.andThen_ok]
  intro k _
  beta_reduce
  split
  · exact ⟨_, rfl, h.set hc hn hev ho⟩
  · exact ⟨_, rfl, h⟩

theorem all_stepR (hA : A.Accurate u) (huN : u * N ≤ 1) (hc : bn.Consistent) (hl : bn.Linked)
    (hd : bn.Discrete) (hnn : bn.NonNeg) {tm : Mcmc.Transition} (htm : tm ≠ .base) {ev : Dict Val}
    {full : Bool} (hne : full = false → ∃ n ∈ bn, n.name ∉ ev.keys) {d : Dict Val}
    (h : GoodState bn ev d) : (Mcmc.stepR A N tm bn (freeNodes bn ev) full d).All
      fun r => ∃ d', r = .ok d' ∧ GoodState bn ev d' := by
  have hne' := freeNodes_ne hne
  cases tm with
  | base => exact absurd rfl htm
  | gibbs =>
    refine all_siteStep (fun n hn d hd' => ?_) hne' h
    obtain ⟨h1, h2⟩ := mem_freeNodes.1 hn
    exact all_gibbsSiteR hA huN hc hl hd hnn hd' h1 h2
  | metropolisHastings =>
    refine all_siteStep (fun n hn d hd' => ?_) hne' h
    obtain ⟨h1, h2⟩ := mem_freeNodes.1 hn
    exact all_mhSiteR A N hc hl hd hd' h1 h2

theorem all_sampleAlongR (hA : A.Accurate u) (huN : u * N ≤ 1) (hc : bn.Consistent) (hd : bn.Discrete)
    (hnn : bn.NonNeg) (hv : ∀ n ∈ bn, n.values ≠ []) (ev : Dict Val) :
    ∀ (rest pre : List Name) (d : Dict Val), bn.TopoOrder (pre ++ rest) →
      Settled bn (fun v => v ∈ pre ∨ v ∈ ev.keys) d →
      (∀ v x, ev.get? v = some x → d.get? v = some x) →
      (BN.sampleAlongR A N bn ev rest none d).All fun r => ∃ d', r = .ok d' ∧ GoodState bn ev d' := by
  intro rest
  induction rest with
  | nil =>
    intro pre d hto hset hev
    refine ⟨d, rfl, fun n hn => ?_, hev⟩
    have hvn : n.name ∈ bn.names := List.mem_map_of_mem hn
    have := hset n.name hvn (Or.inl (by simpa using hto.perm.symm.subset hvn))
    rwa [BN.lab_eq hc.nodup hn] at this
  | cons v rest ih =>
    intro pre d hto hset hev
    have hto' : bn.TopoOrder ((pre ++ [v]) ++ rest) := by simpa using hto
    have hvn : v ∈ bn.names := hto.perm.subset (by simp)
    by_cases hvev : v ∈ ev.keys
    · rw [BN.sampleAlongR, if_pos hvev]
      refine ih (pre ++ [v]) d hto' (fun w hw hS => hset w hw ?_) hev
      replace hS : w ∈ pre ++ [v] ∨ w ∈ ev.keys := hS
      rw [List.mem_append, List.mem_singleton] at hS
      rcases hS with (h | rfl) | h
      · exact Or.inl h
      · exact Or.inr hvev
      · exact Or.inr h
    · obtain ⟨n, hn, rfl⟩ := BN.exists_of_mem_names hvn
      obtain ⟨ρ, hρ, hr⟩ := hset.reads (l := n.parentOrder) fun p hp =>
        ⟨hc.parents_mem n hn p hp, Or.inl (hto.parents pre n.name rest rfl p ⟨n, hn, rfl, hp⟩)⟩
      rw [BN.sampleAlongR, if_neg hvev, BN.getNode_ok hc.nodup hn, Rand.andThen_ok]
      have hw : n.weightsR A d (bn.childNodes n) true =
          .ok (n.values.map fun o => rowEntry n ρ (n.values.idxOf o)) := by
        rw [weightsR_forward]
        exact weights_forward hc hd hn hρ hr _
      refine Rand.all_andThen (Q := fun d' => ∃ x ∈ n.values, d' = d.set n.name x)
        ((all_resampleR (D := 0) hA huN (hd.kind n hn) (hv n hn) hw
          (List.forall₂_same.2 fun w hw => by
            obtain ⟨o, _, rfl⟩ := List.mem_map.1 hw
            exact Near.rfl' (NDArray.get_nonneg (hnn n hn) _)) (by simp)).mono (by
              rintro r ⟨x, hx, rfl⟩
              exact ⟨_, rfl, x, hx, rfl⟩)) ?_
      rintro _ ⟨x, hx, rfl⟩
      refine ih (pre ++ [n.name]) _ hto' (fun w hw hS => (hset.set hc hn hx) w hw ?_)
        fun w y hy => ?_
      · replace hS : w ∈ pre ++ [n.name] ∨ w ∈ ev.keys := hS
        rw [List.mem_append, List.mem_singleton] at hS
        show (w ∈ pre ∨ w ∈ ev.keys) ∨ w = n.name
        tauto
      · rw [Dict.get?_set, if_neg (by rintro rfl; exact hvev (Dict.mem_keys_of_get? hy))]
        exact hev w y hy

theorem all_getSampleR (hA : A.Accurate u) (huN : u * N ≤ 1) (hc : bn.Consistent) (hl : bn.Linked)
    (ha : bn.Acyclic) (hd : bn.Discrete) (hnn : bn.NonNeg) (hv : ∀ n ∈ bn, n.values ≠ [])
    {ev : Dict Val} (he : LegalHard bn ev) :
    (bn.getSampleR A N ev).All fun r => ∃ d', r = .ok d' ∧ GoodState bn ev d' := by
  obtain ⟨h1, h2⟩ := topologicalSort_spec hc hl ha
  unfold BN.getSampleR
  rw [h1]
  exact all_sampleAlongR hA huN hc hd hnn hv ev _ [] ev (by simpa using h2) he.settled fun _ _ h => h

/-! ## the estimated table -/

theorem fromSamplesR_of_ok (hA : A.Accurate u) {ds : List (Dict Val)} {vv : Dict (List Val)}
    {f : Factor} (h : Factor.fromSamples ds vv = .ok f) :
    ∃ f', Factor.fromSamplesR A ds vv = .ok f' ∧ f'.variableOrder = f.variableOrder ∧
      f'.values = f.values ∧ f'.potentials.shape = f.potentials.shape ∧
      ∀ σ, |f'.eval σ - f.eval σ| ≤ u * |f.eval σ| := by
  unfold Factor.fromSamples at h
  unfold Factor.fromSamplesR
  dsimp only at h ⊢
  cases hr : ds.foldlM Factor.countSample
    (⟨NDArray.zeros (vv.map fun p => p.2.length), vv.keys, vv⟩ : Factor) with
  | error e => rw [hr] at h; cases h
  | ok res =>
    rw [hr, ok_bind] at h
    rw [ok_bind]
    by_cases hs : res.potentials.sumAll = 0
    · rw [if_pos hs] at h; cases h
    · rw [if_neg hs] at h ⊢
      cases h
      refine ⟨_, rfl, rfl, rfl, rfl, fun σ => ?_⟩
      have hmap : ∀ g : ℚ → ℚ, (Factor.mk (res.potentials.map g) res.variableOrder res.values).eval σ =
          ((res.potentials.data[NDArray.ravel res.potentials.shape (res.variableOrder.map σ)]?).map
            g).getD 0 := fun g => by simp [Factor.eval, NDArray.get, NDArray.map]
      rw [hmap, hmap]
      generalize res.potentials.data[NDArray.ravel res.potentials.shape (res.variableOrder.map σ)]? = o
      generalize res.potentials.sumAll = s at hs
      cases o with
      | none => simp
      | some x => exact hA.div x s hs

theorem mapM_congr {α β : Type} {f g : α → Except PyErr β} : ∀ {l : List α}, (∀ a ∈ l, f a = g a) →
    l.mapM f = l.mapM g
  | [], _ => rfl
  | a :: l, h => by
    rw [List.mapM_cons, List.mapM_cons, h a (by simp),
      mapM_congr fun b hb => h b (List.mem_cons_of_mem _ hb)]

theorem countSample_congr {res : Factor} {s s' : Dict Val}
    (h : ∀ v ∈ res.variableOrder, s.get? v = s'.get? v) :
    Factor.countSample res s = Factor.countSample res s' := by
  unfold Factor.countSample
  congr 1
  refine mapM_congr fun v hv => ?_
  unfold Dict.getE
  rw [h v hv]

theorem countSample_order {res r : Factor} {s : Dict Val} (h : Factor.countSample res s = .ok r) :
    r.variableOrder = res.variableOrder := by
  unfold Factor.countSample at h
  obtain ⟨idx, -, h⟩ := bind_eq_ok.1 h
  cases h
  rfl

/-- the samples are read at the variables of the table only -/
theorem fromSamplesR_congr (A : Arith) {vv : Dict (List Val)} {ds ds' : List (Dict Val)}
    (h : List.Forall₂ (fun d d' => ∀ v ∈ vv.keys, d.get? v = d'.get? v) ds ds') :
    Factor.fromSamplesR A ds vv = Factor.fromSamplesR A ds' vv := by
  have key : ∀ (res : Factor), res.variableOrder = vv.keys →
      ds.foldlM Factor.countSample res = ds'.foldlM Factor.countSample res := by
    induction h with
    | nil => intro _ _; rfl
    | @cons d d' ds ds' hd _ ih =>
      intro res hres
      rw [List.foldlM_cons, List.foldlM_cons, countSample_congr (s' := d') (by rw [hres]; exact hd)]
      cases hr : Factor.countSample res d' with
      | error e => rfl
      | ok r => exact ih r ((countSample_order hr).trans hres)
  unfold Factor.fromSamplesR
  dsimp only
  rw [key _ rfl]

/-- the table that the rounded `from_samples` computes from a list of states -/
theorem closeTo_fromSamplesR (hA : A.Accurate u) (hd : bn.Discrete) {ev : Dict Val} {vars : List Name}
    (hvars : ∀ v ∈ vars, v ∈ bn.names) {vv : Dict (List Val)} (v2 : vv.keys.Nodup)
    (v3 : ∀ v, v ∈ vv.keys ↔ v ∈ vars) (v4 : ∀ p ∈ vv, p.2 = bn.lab p.1) (t : ℝ) {k : Nat}
    (hk : 0 < k) {ds : List (Dict Val)} {τs : List Assign} (hlen : τs.length = k)
    (hf : List.Forall₂ (fun d τ => τ ∈ states bn ∧ Reads bn d τ) ds τs)
    (hclose : ∀ σ, Legal bn.card vars σ →
      |(τs.countP fun τ => decide (∀ v ∈ vars, τ v = σ v) : ℕ) / (k : ℝ) -
        ((posterior bn (hardEvidence ev) vars σ : ℚ) : ℝ)| < t) :
    CloseTo bn ev vars (t + ((u : ℚ) : ℝ)) (Factor.fromSamplesR A ds vv) := by
  obtain ⟨f, f1, f2, f3⟩ := fromSamples_freq hd hvars v2 v3 v4 hk hlen hf
  obtain ⟨f', g1, g2, _, _, g5⟩ := fromSamplesR_of_ok hA f1
  refine ⟨f', g1, fun v => by rw [g2]; exact f2 v, fun σ hσ => ?_⟩
  have hkQ : (0 : ℚ) < k := by exact_mod_cast hk
  have h1 := g5 σ
  have h0 : 0 ≤ f.eval σ := by rw [f3 σ hσ]; positivity
  have hle : f.eval σ ≤ 1 := by
    rw [f3 σ hσ, div_le_one hkQ]
    exact_mod_cast hlen ▸ List.countP_le_length
  rw [abs_of_nonneg h0] at h1
  have h2 : |f'.eval σ - f.eval σ| ≤ u := h1.trans (by nlinarith [hA.nonneg])
  have h3 : |((f'.eval σ : ℚ) : ℝ) - ((f.eval σ : ℚ) : ℝ)| ≤ ((u : ℚ) : ℝ) := by exact_mod_cast h2
  have h4 := hclose σ hσ
  rw [show ((τs.countP fun τ => decide (∀ v ∈ vars, τ v = σ v) : ℕ) : ℝ) / (k : ℝ) =
    ((f.eval σ : ℚ) : ℝ) by rw [f3 σ hσ]; push_cast; rfl] at h4
  have h5 := abs_sub_le ((f'.eval σ : ℚ) : ℝ) ((f.eval σ : ℚ) : ℝ)
    ((posterior bn (hardEvidence ev) vars σ : ℚ) : ℝ)
  linarith

/-! ## the two chains -/

theorem drawRoundings_le {n : NodeV} (hn : n ∈ bn) : n.drawRoundings ≤ bn.drawRoundings := by
  unfold BN.drawRoundings
  induction bn with
  | nil => cases hn
  | cons m bn ih =>
    rw [List.map_cons, List.foldr_cons]
    rcases List.mem_cons.1 hn with rfl | hn
    · exact le_max_left _ _
    · exact (ih hn).trans (le_max_right _ _)

/-- how far one step with rounded arithmetic can be from an exact one, in units of `drawError` -/
noncomputable def stepSize (bn : BN) (ev : Dict Val) : ℝ :=
  ((freeNodes bn ev).map fun n => 2 * (n.values.length : ℝ)).sum

theorem stepSize_nonneg (bn : BN) (ev : Dict Val) : 0 ≤ stepSize bn ev :=
  List.sum_nonneg fun x hx => by
    obtain ⟨n, _, rfl⟩ := List.mem_map.1 hx
    positivity

/-- one step of the two chains -/
theorem step_near (hc : bn.Consistent) (hl : bn.Linked) (hd : bn.Discrete) (hnn : bn.NonNeg)
    {ev : Dict Val} (he : LegalHard bn ev) {tm : Mcmc.Transition} (htm : tm ≠ .base) {full : Bool}
    (hfull : full = false → ∃ n ∈ bn, n.name ∉ ev.keys) :
    ∃ P, Kern bn (freeNames bn ev) (fullPosterior bn ev) (Mcmc.step tm bn (freeNodes bn ev) full) P ∧
      ∀ (A : Arith) (u : ℚ) (N : Nat), A.Accurate u → 0 < N → u * N ≤ 1 →
        ∃ P', Kern bn (freeNames bn ev) (fun _ => 0)
            (Mcmc.stepR A N tm bn (freeNodes bn ev) full) P' ∧
          RowDist (states bn) P P'
            (stepSize bn ev * ((drawError u N bn.drawRoundings : ℚ) : ℝ)) := by
  have main : ∀ (site : NodeV → Dict Val → Rand (Except PyErr (Dict Val)))
      (K : NodeV → Assign → Nat → ℝ)
      (siteR : Arith → Nat → NodeV → Dict Val → Rand (Except PyErr (Dict Val)))
      (KR : Arith → Nat → NodeV → Assign → Nat → ℝ),
      (∀ n ∈ freeNodes bn ev, IsKernel bn (fullPosterior bn ev) n.name (site n) (K n)) →
      (∀ (A : Arith) (u : ℚ) (N : Nat), A.Accurate u → 0 < N → u * N ≤ 1 →
        ∀ n ∈ freeNodes bn ev, IsKernel bn (fun _ => 0) n.name (siteR A N n) (KR A N n) ∧
          ∀ σ, ∀ b < n.values.length, |KR A N n σ b - K n σ b| ≤
            2 * ((drawError u N n.drawRoundings : ℚ) : ℝ)) →
      ∃ P, Kern bn (freeNames bn ev) (fullPosterior bn ev)
          (Mcmc.siteStep site (freeNodes bn ev) full) P ∧
        ∀ (A : Arith) (u : ℚ) (N : Nat), A.Accurate u → 0 < N → u * N ≤ 1 →
          ∃ P', Kern bn (freeNames bn ev) (fun _ => 0)
              (Mcmc.siteStep (siteR A N) (freeNodes bn ev) full) P' ∧
            RowDist (states bn) P P'
              (stepSize bn ev * ((drawError u N bn.drawRoundings : ℚ) : ℝ)) := by
    intro site K siteR KR hK hR
    have hk := kern_of hK
    refine ⟨_, Kern.step hk (freeNodes_ne hfull), fun A u N hA hN huN => ?_⟩
    have hk' : ∀ n ∈ freeNodes bn ev, Kern bn (freeNames bn ev) (fun _ => 0) (siteR A N n)
        (siteMatrix bn n.name (KR A N n)) := fun n hn =>
      (hR A u N hA hN huN n hn).1.kern (List.mem_map_of_mem (mem_freeNodes.1 hn).1)
        (List.mem_map_of_mem hn)
    refine ⟨_, Kern.step hk' (freeNodes_ne hfull), ?_⟩
    have hη : (0 : ℝ) ≤ ((drawError u N bn.drawRoundings : ℚ) : ℝ) := by
      exact_mod_cast drawError_nonneg hA.nonneg hA.lt_one N _
    have h1 := rowDist_step hk hk' (e := fun n => bn.card n.name *
      (2 * ((drawError u N bn.drawRoundings : ℚ) : ℝ))) (fun n hn => by
        have hnb := (mem_freeNodes.1 hn).1
        refine rowDist_site (List.mem_map_of_mem hnb) fun σ _ b hb => ?_
        refine ((hR A u N hA hN huN n hn).2 σ b (card_eq hc hnb ▸ hb)).trans ?_
        have := drawError_mono hA.nonneg hA.lt_one N (drawRoundings_le hnb)
        have h2 : ((drawError u N n.drawRoundings : ℚ) : ℝ) ≤
          ((drawError u N bn.drawRoundings : ℚ) : ℝ) := by exact_mod_cast this
        linarith) (fun n _ => by positivity) full
    refine h1.mono (le_of_eq ?_)
    unfold stepSize
    rw [← List.sum_map_mul_right]
    congr 1
    refine List.map_congr_left fun n hn => ?_
    rw [card_eq hc (mem_freeNodes.1 hn).1]
    ring
  cases tm with
  | base => exact absurd rfl htm
  | gibbs =>
    refine main (Mcmc.gibbsSite bn) (gibbsK bn) (fun A N => Mcmc.gibbsSiteR A N bn)
      (fun A N => gibbsKR A N bn) (fun n hn => ?_) fun A u N hA hN huN n hn => ?_
    · obtain ⟨h1, h2⟩ := mem_freeNodes.1 hn
      obtain ⟨K, rfl, h, _⟩ := gibbs_moves_eq hc hl hd hnn h1 (fullPosterior_proportional hc hl he h1 h2)
      exact h
    · obtain ⟨h1, h2⟩ := mem_freeNodes.1 hn
      exact ⟨gibbsR_kernel hA hN huN hc hl hd hnn h1, fun σ b hb =>
        gibbsKR_error hA hN hc hl hd hnn h1 σ hb⟩
  | metropolisHastings =>
    refine main (Mcmc.mhSite bn) (mhK bn) (fun A N => Mcmc.mhSiteR A N bn)
      (fun A N => mhKR A N bn) (fun n hn => ?_) fun A u N hA hN huN n hn => ?_
    · obtain ⟨h1, h2⟩ := mem_freeNodes.1 hn
      obtain ⟨K, rfl, h, _⟩ := mh_moves_eq hc hl hd hnn h1 (fullPosterior_proportional hc hl he h1 h2)
      exact h
    · obtain ⟨h1, h2⟩ := mem_freeNodes.1 hn
      exact ⟨mhR_kernel hN hc hl hd h1, fun σ b hb => mhKR_error hA hN hc hl hnn h1 σ hb⟩

/-- the chain with rounded arithmetic beside the exact one, which mixes -/
theorem Ergodic.near (hc : bn.Consistent) (hl : bn.Linked) (hd : bn.Discrete) (hnn : bn.NonNeg)
    {ev : Dict Val} (he : LegalHard bn ev) {tm : Mcmc.Transition} (htm : tm ≠ .base) {full : Bool}
    (hfull : full = false → ∃ n ∈ bn, n.name ∉ ev.keys) {P : Assign → Assign → ℝ} {m : Nat} {δ : ℝ}
    (h : Ergodic bn (freeNames bn ev) (evStates bn ev) (fullPosterior bn ev)
      (Mcmc.step tm bn (freeNodes bn ev) full) P m δ) (hA : A.Accurate u) (hN : 0 < N)
    (huN : u * N ≤ 1) :
    ∃ P', Kern bn (freeNames bn ev) (fun _ => 0)
        (Mcmc.stepR A N tm bn (freeNodes bn ev) full) P' ∧
      (∀ σ ∈ evStates bn ev, ∀ τ ∈ states bn, τ ∉ evStates bn ev → P' σ τ = 0) ∧
      Stoch (evStates bn ev) P' ∧
      RowDist (evStates bn ev) P P' (stepSize bn ev * ((drawError u N bn.drawRoundings : ℚ) : ℝ)) := by
  obtain ⟨P₀, h1, h2⟩ := step_near hc hl hd hnn he htm hfull
  obtain ⟨P', h3, h4⟩ := h2 A u N hA hN huN
  have hcl : ∀ σ ∈ evStates bn ev, ∀ τ ∈ states bn, τ ∉ evStates bn ev → P' σ τ = 0 :=
    fun σ hσ τ hτ hτ' => evStates_closed h3 hσ hτ hτ'
  refine ⟨P', h3, hcl, stoch_restrict h.sub hcl h3.stoch, fun σ hσ => ?_⟩
  refine le_trans (le_of_eq (sum_congr rfl fun τ hτ => ?_)) (rowDist_restrict h.sub h4 σ hσ)
  rw [Kern.unique hc hd h.kern h1 (h.sub hσ) (h.sub hτ)]

/-- the law of the chain with rounded arithmetic -/
theorem law_near (hc : bn.Consistent) (hl : bn.Linked) (hd : bn.Discrete) (hnn : bn.NonNeg)
    {ev : Dict Val} (he : LegalHard bn ev)
    (hmass : ∑ σ ∈ states bn, fullPosterior bn ev σ = 1) {tm : Mcmc.Transition} (htm : tm ≠ .base)
    {full : Bool} (hfull : full = false → ∃ n ∈ bn, n.name ∉ ev.keys) {P : Assign → Assign → ℝ}
    {m : Nat} {δ : ℝ} (h : Ergodic bn (freeNames bn ev) (evStates bn ev) (fullPosterior bn ev)
      (Mcmc.step tm bn (freeNodes bn ev) full) P m δ) (hA : A.Accurate u) (hN : 0 < N)
    (huN : u * N ≤ 1) {d : Dict Val} (hgood : GoodState bn ev d) (k : Nat) {τ : Assign}
    (hτ : Legal bn.card bn.names τ) :
    |(Mcmc.burn (Mcmc.stepR A N tm bn (freeNodes bn ev) full) k d).prob (Returns bn τ) -
        fullPosterior bn ev τ| ≤
      (1 - δ) ^ (k / m) +
        stepSize bn ev * (m / δ) * ((drawError u N bn.drawRoundings : ℚ) : ℝ) := by
  obtain ⟨P', h1, h2, h3, h4⟩ := h.near hc hl hd hnn he htm hfull hA hN huN
  obtain ⟨σ, hσ, hr⟩ := hgood.state hc he
  have e1 : (Mcmc.burn (Mcmc.stepR A N tm bn (freeNodes bn ev) full) k d).prob (Returns bn τ) =
      (act (evStates bn ev) P')^[k] (sameState bn τ) σ := by
    rw [← iter_restrict h.sub h2 _ k σ hσ]
    exact h1.burn k (fun d' ρ hρ hr' => compat_returns hd τ d' ρ (mem_states.1 hρ).1 hr') (h.sub hσ) hr
  have e2 : (Mcmc.burn (Mcmc.step tm bn (freeNodes bn ev) full) k d).prob (Returns bn τ) =
      (act (evStates bn ev) P)^[k] (sameState bn τ) σ := by
    rw [← iter_restrict h.sub h.closed _ k σ hσ]
    exact h.kern.burn k (fun d' ρ hρ hr' => compat_returns hd τ d' ρ (mem_states.1 hρ).1 hr')
      (h.sub hσ) hr
  have h5 := law_of_ergodic hc hd hnn he hmass h hσ hr k hτ
  have h6 := h4.iter_mixing h.stoch h3 h.ne h.pos h.mixing (sameState bn τ) k σ hσ
  rw [e2] at h5
  rw [e1]
  have hosc : osc h.ne (sameState bn τ) ≤ 1 := by
    refine osc_le h.ne (a := 0) fun ρ _ => ?_
    unfold sameState
    split <;> norm_num
  have h7 : m * osc h.ne (sameState bn τ) / δ ≤ m / δ :=
    div_le_div_of_nonneg_right (mul_le_of_le_one_right (Nat.cast_nonneg _) hosc) h.pos.le
  have hη : (0 : ℝ) ≤ ((drawError u N bn.drawRoundings : ℚ) : ℝ) := by
    exact_mod_cast drawError_nonneg hA.nonneg hA.lt_one N _
  have h8 := mul_le_mul_of_nonneg_left h7 (mul_nonneg (stepSize_nonneg bn ev) hη)
  have h9 := abs_sub_le ((act (evStates bn ev) P')^[k] (sameState bn τ) σ)
    ((act (evStates bn ev) P)^[k] (sameState bn τ) σ) (fullPosterior bn ev τ)
  linarith

/-- a run of `MCMC.marginals` from a given initial state -/
theorem runR_eq {ev : Dict Val} {F : List Name} {π : Assign → ℝ} {tm : Mcmc.Transition} {full : Bool}
    {P' : Assign → Assign → ℝ}
    (h1 : Kern bn F π (Mcmc.stepR A N tm bn (freeNodes bn ev) full) P') {vars : List Name}
    (hvars : ∀ v ∈ vars, v ∈ bn.names) {vv : Dict (List Val)}
    (v1 : Mcmc.variableValues bn vars = .ok vv) (v3 : ∀ v, v ∈ vv.keys ↔ v ∈ vars)
    {dict : Assign → Dict Val} (hdict : ∀ τ ∈ states bn, Reads bn (dict τ) τ) {σ : Assign}
    (hσ : σ ∈ states bn) {d : Dict Val} (hr : Reads bn d σ) (burnIn k : Nat)
    (G : Except PyErr Factor → ℝ) :
    Rand.expect G (Rand.andThen (Rand.lift (Mcmc.variableValues bn vars)) fun vv =>
      Rand.andThen (Mcmc.Sampler.generateR A N ⟨tm, burnIn, full⟩ bn k d (some ev)) fun chain =>
        .lift (Factor.fromSamplesR A chain vv)) =
      (act (states bn) P')^[burnIn] (path (states bn) P' k
        fun τs => G (Factor.fromSamplesR A (τs.map dict) vv)) σ := by
  rw [v1, Rand.andThen_ok, Rand.expect_andThen]
  unfold Mcmc.Sampler.generateR
  rw [variablesToChange_some, Rand.andThen_ok, Rand.expect_andThen]
  refine h1.burn burnIn (fun d' σ' hσ' hr' => ?_) hσ hr
  refine h1.collect k (fun ds τs hlen hf => ?_) hσ' hr'
  show G (Factor.fromSamplesR A ds vv) = _
  rw [fromSamplesR_congr A (ds' := τs.map dict) ?_]
  rw [List.forall₂_map_right_iff]
  refine hf.imp fun d τ hdτ v hv => ?_
  have hvn := hvars v ((v3 v).1 hv)
  rw [hdτ.2 v hvn, hdict τ hdτ.1 v hvn]

/-- the estimate with rounded arithmetic -/
theorem marginals_near (hc : bn.Consistent) (hl : bn.Linked) (ha : bn.Acyclic) (hd : bn.Discrete)
    (hnn : bn.NonNeg) (hval : ∀ n ∈ bn, n.values ≠ [])
    {tm : Mcmc.Transition} (htm : tm ≠ .base) {full : Bool} {vars : List Name}
    (hvars : ∀ v ∈ vars, v ∈ bn.names) {evidence : Option (Dict Val)}
    (he : LegalHard bn (evidence.getD []))
    (hfull : full = false → ∃ n ∈ bn, n.name ∉ (evidence.getD []).keys)
    (hmass : ∑ σ ∈ states bn, fullPosterior bn (evidence.getD []) σ = 1)
    {P : Assign → Assign → ℝ} {m : Nat} {δ : ℝ}
    (h : Ergodic bn (freeNames bn (evidence.getD [])) (evStates bn (evidence.getD []))
      (fullPosterior bn (evidence.getD []))
      (Mcmc.step tm bn (freeNodes bn (evidence.getD [])) full) P m δ) :
    ∃ c : ℝ, 0 ≤ c ∧ ∀ (A : Arith) (u : ℚ) (N : Nat), A.Accurate u → 0 < N → u * N ≤ 1 →
      ∀ (burnIn k : Nat) (t : ℝ), 0 < k → 0 < t →
        1 - c / (k * t ^ 2) - c * ((drawError u N bn.drawRoundings : ℚ) : ℝ) / t ^ 2 ≤
          (Mcmc.marginalsR A N bn ⟨tm, burnIn, full⟩ k vars evidence).prob
            (CloseTo bn (evidence.getD []) vars (t + ((u : ℚ) : ℝ))) := by
  classical
  set ev := evidence.getD [] with hev
  have hne := h.ne
  have hδ := h.pos
  have hinv := h.inv (fun σ _ => fullPosterior_nonneg hnn ev σ) hmass
  set o : Assign → ℝ := fun ρ => osc hne (deviation bn ev vars ρ) with ho
  have ho0 : ∀ ρ, 0 ≤ o ρ := fun ρ => osc_nonneg hne _
  set B : Assign → ℝ := fun ρ => o ρ ^ 2 + 2 * o ρ * (m * o ρ / δ) with hB
  set D : Assign → ℝ := fun ρ => 2 * o ρ * (stepSize bn ev * (m * o ρ / δ)) with hD
  have hs0 := stepSize_nonneg bn ev
  have hB0 : 0 ≤ ∑ ρ ∈ states bn, B ρ := sum_nonneg fun ρ _ => by
    have := ho0 ρ
    simp only [hB]
    positivity
  have hD0 : 0 ≤ ∑ ρ ∈ states bn, D ρ := sum_nonneg fun ρ _ => by
    have := ho0 ρ
    simp only [hD]
    positivity
  refine ⟨(∑ ρ ∈ states bn, B ρ) + ∑ ρ ∈ states bn, D ρ, add_nonneg hB0 hD0,
    fun A u N hA hN huN burnIn k t hk ht => ?_⟩
  set η : ℝ := ((drawError u N bn.drawRoundings : ℚ) : ℝ) with hη
  have hη0 : 0 ≤ η := by
    rw [hη]; exact_mod_cast drawError_nonneg hA.nonneg hA.lt_one N _
  have hkR : (0 : ℝ) < k := by exact_mod_cast hk
  obtain ⟨P', h1, h2, h3, h4⟩ := h.near hc hl hd hnn he htm hfull hA hN huN
  -- the probability that the frequencies are close, from any state
  have hpath : ∀ σ ∈ evStates bn ev, 1 - (∑ ρ ∈ states bn, (k * B ρ + k ^ 2 * (D ρ * η))) /
      (k * t) ^ 2 ≤ path (states bn) P' k (closeFreq bn ev vars t k) σ := by
    intro σ hσ
    refine close_of_moment hc hval he h.sub h2 h3 hvars hk ht hσ fun ρ hρ => ?_
    have := second_moment_near h4 h.stoch h3 hinv hne hδ h.mixing (g := deviation bn ev vars ρ) (by
      rw [h.sum]
      exact mean_deviation hc he hmass hvars fun v hv => (mem_states.1 hρ).1 v (hvars v hv)) k hσ
    refine this.trans (le_of_eq ?_)
    simp only [hB, hD, ho]
    ring
  obtain ⟨vv, v1, v2, v3, v4⟩ := variableValues_spec hc hvars
  -- the run from any initial state
  have hstart : ∀ d, GoodState bn ev d → 1 - (∑ ρ ∈ states bn, (k * B ρ + k ^ 2 * (D ρ * η))) /
      (k * t) ^ 2 ≤ Rand.expect (fun r => if CloseTo bn ev vars (t + ((u : ℚ) : ℝ)) r then (1 : ℝ) else 0)
        (Rand.andThen (Rand.lift (Mcmc.variableValues bn vars)) fun vv =>
          Rand.andThen (Mcmc.Sampler.generateR A N ⟨tm, burnIn, full⟩ bn k d (some ev)) fun chain =>
            .lift (Factor.fromSamplesR A chain vv)) := by
    intro d hgood
    obtain ⟨σ, hσ, hr⟩ := hgood.state hc he
    choose! dict hdict using fun (τ : Assign) (hτ : τ ∈ states bn) => exists_dict hc (mem_states.1 hτ).1
    let q : List Assign → ℝ := fun τs => if CloseTo bn ev vars (t + ((u : ℚ) : ℝ))
      (Factor.fromSamplesR A (τs.map dict) vv) then 1 else 0
    rw [runR_eq h1 hvars v1 v3 hdict (h.sub hσ) hr]
    show _ ≤ (act (states bn) P')^[burnIn] (path (states bn) P' k q) σ
    have hq : ∀ ρ ∈ evStates bn ev, 1 - (∑ ρ ∈ states bn, (k * B ρ + k ^ 2 * (D ρ * η))) /
        (k * t) ^ 2 ≤ path (states bn) P' k q ρ := fun ρ hρ => by
      refine (hpath ρ hρ).trans (h1.stoch.path_mono k (fun τs hlen hmem => ?_) (h.sub hρ))
      unfold closeFreq
      split
      · next hcl =>
        refine le_of_eq (if_pos ?_).symm
        refine closeTo_fromSamplesR hA hd hvars v2 v3 v4 t hk hlen ?_ hcl
        rw [List.forall₂_map_left_iff, List.forall₂_same]
        exact fun τ hτ => ⟨hmem τ hτ, hdict τ (hmem τ hτ)⟩
      · simp only [q]
        split <;> norm_num
    rw [iter_restrict h.sub h2 _ burnIn σ hσ]
    have := h3.iter_mono hq burnIn σ hσ
    rwa [h3.iter_const _ burnIn σ hσ] at this
  have hall := all_getSampleR hA huN hc hl ha hd hnn hval he
  have hfin := finite_sampleAlongR A hN bn ev bn.topologicalSort.1 bn.topologicalSort.2 ev
  have hprob : 1 - (∑ ρ ∈ states bn, (k * B ρ + k ^ 2 * (D ρ * η))) / (k * t) ^ 2 ≤
      (Mcmc.marginalsR A N bn ⟨tm, burnIn, full⟩ k vars evidence).prob
        (CloseTo bn ev vars (t + ((u : ℚ) : ℝ))) := by
    unfold Mcmc.marginalsR
    rw [show (Rand.prob _ _ : ℝ) = Rand.expect _ _ from rfl]
    simp only
    rw [Rand.expect_andThen]
    refine Rand.le_expect hfin (hall.mono ?_)
    rintro _ ⟨d, rfl, hgood⟩
    exact hstart d hgood
  refine le_trans ?_ hprob
  have e1 : (∑ ρ ∈ states bn, (k * B ρ + k ^ 2 * (D ρ * η))) / (k * t) ^ 2 =
      (∑ ρ ∈ states bn, B ρ) / (k * t ^ 2) + (∑ ρ ∈ states bn, D ρ) * η / t ^ 2 := by
    rw [sum_add_distrib, ← mul_sum, ← mul_sum, ← sum_mul]
    field_simp
  rw [e1]
  have e2 : (∑ ρ ∈ states bn, B ρ) / (k * t ^ 2) ≤
      ((∑ ρ ∈ states bn, B ρ) + ∑ ρ ∈ states bn, D ρ) / (k * t ^ 2) :=
    div_le_div_of_nonneg_right (by linarith) (by positivity)
  have e3 : (∑ ρ ∈ states bn, D ρ) * η / t ^ 2 ≤
      ((∑ ρ ∈ states bn, B ρ) + ∑ ρ ∈ states bn, D ρ) * η / t ^ 2 :=
    div_le_div_of_nonneg_right (mul_le_mul_of_nonneg_right (by linarith) hη0) (by positivity)
  linarith

end Primo
