import Verif.Lemmas.Schedule
import Mathlib.Data.Sym.Sym2

/-! # Counting the roundings of message passing clique by clique -/

namespace Primo
open JoinTree Factor Finset

/-- the additions in a sum over the variables `s` -/
def addsOver (card : Name → Nat) (s : Finset Name) : Nat := ∑ v ∈ s, (card v - 1)

theorem addsOver_mono {card : Name → Nat} {s s' : Finset Name} (h : s ⊆ s') :
    addsOver card s ≤ addsOver card s' := Finset.sum_le_sum_of_subset h

theorem addsOver_union {card : Name → Nat} {s s' : Finset Name} (h : Disjoint s s') :
    addsOver card (s ∪ s') = addsOver card s + addsOver card s' := Finset.sum_union h

theorem BN.additions_eq (bn : BN) (hn : bn.names.Nodup) (Q : List Name) :
    bn.additions Q = addsOver bn.card (bn.names.toFinset \ Q.toFinset) := by
  unfold BN.additions addsOver
  have h : (bn.names.filter fun v => decide (v ∉ Q)).Nodup := hn.filter _
  rw [← List.sum_toFinset _ h]
  refine Finset.sum_congr ?_ fun _ _ => rfl
  ext v
  simp

theorem Factor.margCount_le {lab : Name → List Val} : ∀ {D : List Name} {f : Factor}, f.Over lab → D.Nodup →
    f.margCount D ≤ addsOver (cardOf lab) D.toFinset
  | [], _, _, _ => by simp [margCount]
  | v :: D, f, hf, hn => by
    obtain ⟨hv, hn⟩ := List.nodup_cons.1 hn
    rw [margCount, List.toFinset_cons]
    have hsplit : addsOver (cardOf lab) (insert v D.toFinset) = (cardOf lab v - 1) + addsOver (cardOf lab) D.toFinset :=
      Finset.sum_insert (by simpa using hv)
    rw [hsplit]
    by_cases hm : v ∈ f.variableOrder
    · obtain ⟨g, g1, g2, g3, -⟩ := marginalize_over hf (vs := [v]) (by simp) (by simpa using hm)
      have g1' : f.sumOut v = .ok g := by
        unfold marginalize at g1
        rw [List.foldlM_cons] at g1
        cases hs : f.sumOut v with
        | error e => rw [hs] at g1; cases g1
        | ok g' => rw [hs, ok_bind] at g1; cases g1; rfl
      rw [g1']
      refine Nat.add_le_add (le_of_eq ?_) (margCount_le g2 hn)
      rw [hf.wf.shape, List.getD_eq_getElem?_getD, List.getElem?_map, List.getElem?_idxOf hm]
      rfl
    · have h0 : f.potentials.shape.getD (f.variableOrder.idxOf v) 0 = 0 := by
        rw [hf.wf.shape, List.getD_eq_getElem?_getD, List.getElem?_map, List.idxOf_eq_length hm]
        simp
      rw [h0, sumOut_not_mem hm]
      simp

namespace JTree
open JRes

/-- the table of clique `k` is within `κ k` roundings and that of the edge `e` within `μ e`; everything else
is equal -/
structure NearBy (u : ℚ) (κ : Name → Nat) (μ : Sym2 Name → Nat) (t t₀ : JTree) : Prop where
  nodes : List.Forall₂ (fun p q : Name × JNode => p.1 = q.1 ∧ p.2.vars = q.2.vars ∧
    p.2.factor.Near u (κ q.1) q.2.factor) t.nodes t₀.nodes
  adj : t.adj = t₀.adj
  edges : List.Forall₂ (fun e f : JEdge => e.u = f.u ∧ e.w = f.w ∧ e.sep = f.sep ∧
    e.factor.Near u (μ s(f.u, f.w)) f.factor) t.edges t₀.edges
  valid : t.valid = t₀.valid

theorem NearBy.near {u : ℚ} (h0 : 0 ≤ u) (hu : u < 1) {κ : Name → Nat} {μ : Sym2 Name → Nat} {t t₀ : JTree}
    (h : t.NearBy u κ μ t₀) {m : Nat} (hκ : ∀ k ∈ t₀.nodes.keys, κ k ≤ m)
    (hμ : ∀ e ∈ t₀.edges, μ s(e.u, e.w) ≤ m) : t.Near u m t₀ := by
  refine ⟨?_, h.adj, ?_, h.valid⟩
  · have := h.nodes
    unfold Dict.keys at hκ
    generalize t.nodes = l at this
    generalize t₀.nodes = l₀ at this hκ
    induction this with
    | nil => exact .nil
    | cons h _ ih =>
      exact .cons ⟨h.1, h.2.1, h.2.2.mono h0 hu (hκ _ (by simp))⟩ (ih fun k hk => hκ k (by
        rw [List.map_cons]; exact List.mem_cons_of_mem _ hk))
  · have := h.edges
    generalize t.edges = l at this
    generalize t₀.edges = l₀ at this hμ
    induction this with
    | nil => exact .nil
    | cons h _ ih =>
      exact .cons ⟨h.1, h.2.1, h.2.2.1, h.2.2.2.mono h0 hu (hμ _ (by simp))⟩ (ih fun k hk => hμ k (by simp [hk]))

theorem joins_iff {e : JEdge} {a b : Name} : e.joins a b = true ↔ s(e.u, e.w) = s(a, b) := by
  simp only [JEdge.joins, Bool.or_eq_true, Bool.and_eq_true, beq_iff_eq, Sym2.eq_iff]

theorem nearBy_getE {u : ℚ} {κ : Name → Nat} {ns ns₀ : Dict JNode}
    (h : List.Forall₂ (fun p q : Name × JNode => p.1 = q.1 ∧ p.2.vars = q.2.vars ∧
      p.2.factor.Near u (κ q.1) q.2.factor) ns ns₀) (a : Name) :
    RelE (fun n n₀ => n.vars = n₀.vars ∧ n.factor.Near u (κ a) n₀.factor) (ns.getE a) (ns₀.getE a) := by
  induction h with
  | nil => exact rfl
  | @cons p q ps qs h _ ih =>
    obtain ⟨p1, p2⟩ := p
    obtain ⟨q1, q2⟩ := q
    obtain ⟨h1, h2⟩ := h
    simp only at h1 h2
    subst h1
    unfold Dict.getE at ih ⊢
    rw [Dict.get?, Dict.get?]
    by_cases hq : p1 = a
    · rw [if_pos hq, if_pos hq]; subst hq; exact h2
    · rw [if_neg hq, if_neg hq]; exact ih

theorem nearBy_edge {u : ℚ} {κ : Name → Nat} {μ : Sym2 Name → Nat} {t t₀ : JTree} (h : t.NearBy u κ μ t₀)
    (a b : Name) :
    RelE (fun e e₀ => e.sep = e₀.sep ∧ e.factor.Near u (μ s(a, b)) e₀.factor) (t.edge a b) (t₀.edge a b) := by
  unfold edge
  have := h.edges
  generalize t.edges = es at this
  generalize t₀.edges = es₀ at this
  induction this with
  | nil => exact rfl
  | @cons e e₀ es es₀ he _ ih =>
    have hj : e.joins a b = e₀.joins a b := by unfold JEdge.joins; rw [he.1, he.2.1]
    rw [List.find?_cons, List.find?_cons, hj]
    cases h : e₀.joins a b
    · exact ih
    · rw [joins_iff] at h
      rw [← h]
      exact he.2.2

/-- one message -/
theorem NearBy.send {A : Arith} {u : ℚ} (hA : A.Accurate u) (so : SetOrder) {κ : Name → Nat} {μ : Sym2 Name → Nat}
    {t t₀ : JTree} (ht : t.NearBy u κ μ t₀) {a b : Name} {c : Nat}
    (hc : ∀ na e, t₀.nodes.getE a = .ok na → t₀.edge a b = .ok e →
      na.factor.margCount (so.diff na.vars e.sep) ≤ c) {t₁ : JTree} (hok : send so a b t₀ = (t₁, none)) :
    ∃ t', sendR A so a b t = (t', none) ∧
      t'.NearBy u (Function.update κ b (κ b + (κ a + c + (μ s(a, b) + 1) + 1) + 1))
        (Function.update μ s(a, b) (κ a + c)) t₁ := by
  have hna := nearBy_getE ht.nodes a
  have he := nearBy_edge ht a b
  have hnb := nearBy_getE ht.nodes b
  unfold JTree.send at hok
  unfold sendR
  cases h1 : t₀.nodes.getE a with
  | error x => rw [h1] at hok; cases hok
  | ok na₀ =>
    obtain ⟨na, h2, h3, h4⟩ := hna.ok_right h1
    rw [h2]
    rw [h1] at hok
    simp only [ok_bind] at hok ⊢
    cases h5 : t₀.edge a b with
    | error x => rw [h5] at hok; cases hok
    | ok e₀ =>
      obtain ⟨e, h6, h7, h8⟩ := he.ok_right h5
      rw [h6]
      rw [h5] at hok
      simp only [ok_bind] at hok ⊢
      rw [h3, h7]
      have hmarg := (Factor.near_marginalize hA (so.diff na₀.vars e₀.sep) h4).mono fun _ _ h =>
        h.mono hA.nonneg hA.lt_one (Nat.add_le_add_left (hc na₀ e₀ h1 h5) (κ a))
      cases k1 : na₀.factor.marginalize (so.diff na₀.vars e₀.sep) with
      | error x => rw [k1] at hok; cases hok
      | ok new₀ =>
        obtain ⟨new, k2, k3⟩ := hmarg.ok_right k1
        rw [k2]
        rw [k1] at hok
        simp only [ok_bind] at hok ⊢
        cases l1 : t₀.nodes.getE b with
        | error x => rw [l1] at hok; cases hok
        | ok nb₀ =>
          obtain ⟨nb, l2, l3, l4⟩ := hnb.ok_right l1
          rw [l2]
          rw [l1] at hok
          simp only [ok_bind] at hok ⊢
          cases m1 : new₀.div so e₀.factor with
          | error x => rw [m1] at hok; cases hok
          | ok q₀ =>
            obtain ⟨q, m2, m3⟩ := (Factor.near_div hA so k3 h8).ok_right m1
            rw [m2]
            rw [m1] at hok
            simp only [ok_bind] at hok ⊢
            cases n1 : nb₀.factor.mul so q₀ with
            | error x => rw [n1] at hok; cases hok
            | ok g₀ =>
              obtain ⟨g, n2, n3⟩ := (Factor.near_mul hA so l4 m3).ok_right n1
              rw [n2]
              rw [n1] at hok
              simp only [ok_bind] at hok ⊢
              cases hok
              refine ⟨_, rfl, ?_, ht.adj, ?_, ht.valid⟩
              · have := ht.nodes
                dsimp only
                generalize t.nodes = ns at this
                generalize t₀.nodes = ns₀ at this
                have hmono : ∀ {ns ns₀ : Dict JNode}, List.Forall₂ (fun p q : Name × JNode => p.1 = q.1 ∧
                      p.2.vars = q.2.vars ∧ p.2.factor.Near u (κ q.1) q.2.factor) ns ns₀ →
                    List.Forall₂ (fun p q : Name × JNode => p.1 = q.1 ∧ p.2.vars = q.2.vars ∧
                      p.2.factor.Near u (Function.update κ b (κ b + (κ a + c + (μ s(a, b) + 1) + 1) + 1) q.1)
                        q.2.factor) ns ns₀ := fun h => h.imp fun p q h => by
                  refine ⟨h.1, h.2.1, h.2.2.mono hA.nonneg hA.lt_one ?_⟩
                  by_cases hq : q.1 = b
                  · rw [hq, Function.update_self]; omega
                  · rw [Function.update_of_ne hq]
                induction this with
                | nil =>
                  refine .cons ⟨rfl, l3, ?_⟩ .nil
                  rw [Function.update_self]
                  exact n3
                | @cons p q ps qs h hr ih =>
                  unfold Dict.set
                  simp only [h.1]
                  by_cases hq : q.1 = b
                  · rw [if_pos hq, if_pos hq]
                    refine .cons ⟨rfl, l3, ?_⟩ (hmono hr)
                    simp only
                    rw [hq, Function.update_self]
                    exact n3
                  · rw [if_neg hq, if_neg hq]
                    refine .cons ⟨rfl, h.2.1, ?_⟩ ih
                    rw [Function.update_of_ne hq]
                    exact h.2.2
              · have := ht.edges
                dsimp only
                generalize t.edges = es at this
                generalize t₀.edges = es₀ at this
                induction this with
                | nil => exact .nil
                | @cons x y es es₀ hx _ ih =>
                  refine .cons ?_ ih
                  have hj : x.joins a b = y.joins a b := by unfold JEdge.joins; rw [hx.1, hx.2.1]
                  simp only [hj]
                  by_cases hy : y.joins a b = true
                  · rw [if_pos hy, if_pos hy]
                    refine ⟨hx.1, hx.2.1, hx.2.2.1, ?_⟩
                    dsimp only
                    rw [joins_iff.1 hy, Function.update_self]
                    exact k3
                  · rw [if_neg hy, if_neg hy]
                    refine ⟨hx.1, hx.2.1, hx.2.2.1, ?_⟩
                    rw [Function.update_of_ne (fun h => hy (joins_iff.2 h))]
                    exact hx.2.2.2

/-- exact messages keep the shape, and the tables within their cliques -/
theorem sends_inv (so : SetOrder) {lab : Name → List Val} (l : List (Name × Name)) {t : JTree} (hs : t.Seps)
    (hr : Room lab t) : (sendsR .exact so l t).1.Seps ∧ Room lab (sendsR .exact so l t).1 ∧
      (sendsR .exact so l t).1.shape = t.shape :=
  forEach_inv (P := fun s : JTree => s.Seps ∧ Room lab s ∧ s.shape = t.shape) l (fun m _ s h =>
    ⟨h.1.of_shape (send_shape so m.1 m.2 s), h.2.1.send so h.1 m.1 m.2,
      (send_shape so m.1 m.2 s).trans h.2.2⟩) t ⟨hs, hr, rfl⟩

theorem sends_append_ok {so : SetOrder} {l l' : List (Name × Name)} {t t₁ : JTree}
    (h : sendsR .exact so (l ++ l') t = (t₁, none)) :
    ∃ s, sendsR .exact so l t = (s, none) ∧ sendsR .exact so l' s = (t₁, none) := by
  rw [sendsR_append] at h
  unfold andThen at h
  cases hx : (sendsR .exact so l t).2 with
  | some e =>
    rw [hx] at h
    have := congrArg Prod.snd h
    simp only at this
    rw [hx] at this
    cases this
  | none => rw [hx] at h; exact ⟨_, Prod.ext rfl hx, h⟩

theorem sends_cons_ok {so : SetOrder} {m : Name × Name} {l : List (Name × Name)} {t t₁ : JTree}
    (h : sendsR .exact so (m :: l) t = (t₁, none)) :
    ∃ s, JTree.send so m.1 m.2 t = (s, none) ∧ sendsR .exact so l s = (t₁, none) := by
  obtain ⟨s, h1, h2⟩ := sends_append_ok (l := [m]) (l' := l) h
  refine ⟨s, ?_, h2⟩
  unfold sendsR forEach at h1
  unfold andThen at h1
  cases hx : (sendR .exact so m.1 m.2 t).2 with
  | some e =>
    rw [hx] at h1
    have := congrArg Prod.snd h1
    simp only at this
    rw [hx] at this
    cases this
  | none =>
    rw [hx] at h1
    have h3 : (sendR .exact so m.1 m.2 t).1 = s := congrArg Prod.fst h1
    rw [← sendR_exact]
    exact Prod.ext h3 hx

/-- the additions of the message from `a` to `b` -/
theorem count_le {lab : Name → List Val} (so : SetOrder) {t : JTree} (hr : Room lab t) {a b : Name}
    {vars sep : List Name} (ha : (t.nodes.get? a).map JNode.vars = some vars)
    (hb : (t.edge a b).map JEdge.sep = .ok sep) : ∀ na e, t.nodes.getE a = .ok na → t.edge a b = .ok e →
      na.factor.margCount (so.diff na.vars e.sep) ≤ addsOver (cardOf lab) (vars.toFinset \ sep.toFinset) := by
  intro na e h1 h2
  unfold Dict.getE at h1
  cases hx : t.nodes.get? a with
  | none => rw [hx] at h1; cases h1
  | some y =>
    rw [hx] at h1 ha
    injection h1 with h1
    injection ha with ha
    rw [h2] at hb
    injection hb with hb
    subst h1
    refine (margCount_le (hr.nodes _ (Dict.get?_mem hx)).1 (so.nodup _ _)).trans (addsOver_mono ?_)
    intro v hv
    rw [List.mem_toFinset, so.mem] at hv
    rw [mem_sdiff, List.mem_toFinset, List.mem_toFinset, ← ha, ← hb]
    exact hv

end JTree

/-- additions and other roundings of the messages towards the root -/
def Forest.toll (card : Name → Nat) : Forest → Nat
  | nil => 0
  | cons _ vars sep kids rest =>
    addsOver card (vars.toFinset \ sep.toFinset) + 3 + kids.toll card + rest.toll card

theorem Forest.toll_le {card : Name → Nat} {f : Forest} {P W : Finset Name} (h : f.RIP P W) :
    f.toll card ≤ 3 * f.names.length + addsOver card (f.scope \ W) := by
  induction f generalizing P W with
  | nil => simp [toll]
  | cons nm vars sep kids rest ihk ihr =>
    obtain ⟨r1, r2, r3, r4⟩ := h
    have hk := ihk r3
    have hr := ihr r4
    simp only [toll, names, List.length_cons, List.length_append]
    have key : addsOver card (vars.toFinset \ sep.toFinset) +
        addsOver card (kids.scope \ (W ∪ rest.scope ∪ vars.toFinset)) +
        addsOver card (rest.scope \ (W ∪ vars.toFinset ∪ kids.scope)) ≤
        addsOver card ((cons nm vars sep kids rest).scope \ W) := by
      rw [← addsOver_union, ← addsOver_union]
      · refine addsOver_mono fun v hv => ?_
        simp only [scope, mem_union, mem_sdiff] at hv ⊢
        rcases hv with (⟨h1, h2⟩ | ⟨h1, h2⟩) | ⟨h1, h2⟩
        · refine ⟨Or.inl (Or.inl h1), fun hw => h2 (r1 ?_)⟩
          simp only [mem_inter, mem_union]
          exact ⟨Or.inl h1, Or.inl hw⟩
        · exact ⟨Or.inl (Or.inr h1), fun hw => h2 (Or.inl (Or.inl hw))⟩
        · exact ⟨Or.inr h1, fun hw => h2 (Or.inl (Or.inl hw))⟩
      · rw [Finset.disjoint_left]
        intro v hv hv'
        simp only [mem_union, mem_sdiff] at hv hv'
        rcases hv with ⟨h1, h2⟩ | ⟨h1, h2⟩
        · exact hv'.2 (Or.inl (Or.inr h1))
        · exact hv'.2 (Or.inr h1)
      · rw [Finset.disjoint_left]
        intro v hv hv'
        simp only [mem_union, mem_sdiff] at hv hv'
        exact hv'.2 (Or.inr hv.1)
    omega

namespace JTree
open JRes

/-- the messages towards `p` -/
theorem collect_near {A : Arith} {u : ℚ} (hA : A.Accurate u) (so : SetOrder) {lab : Name → List Val} (f : Forest)
    (p : Name) (t t₀ : JTree) (κ : Name → Nat) (μ : Sym2 Name → Nat) (ht : t.NearBy u κ μ t₀)
    (hs : t₀.Seps) (hr : Room lab t₀) (hfit : f.All t₀.Fits p) (hnd : (p :: f.names).Nodup)
    (hμ : f.All (fun p nm _ _ _ => μ s(nm, p) = 0) p) {t₁ : JTree}
    (hok : sendsR .exact so (f.collect p) t₀ = (t₁, none)) :
    ∃ t' κ' μ', sendsR A so (f.collect p) t = (t', none) ∧ t'.NearBy u κ' μ' t₁ ∧
      κ' p ≤ κ p + ((f.names.map κ).sum + f.toll (cardOf lab)) ∧
      (∀ k ∈ f.names, κ' k ≤ (f.names.map κ).sum + f.toll (cardOf lab)) ∧
      f.All (fun p nm _ _ _ => μ' s(nm, p) + 3 ≤ (f.names.map κ).sum + f.toll (cardOf lab)) p ∧
      (∀ k, k ∉ p :: f.names → κ' k = κ k) ∧
      (∀ a b, a ∉ f.names → b ∉ f.names → μ' s(a, b) = μ s(a, b)) ∧
      ∀ e, μ' e = μ e ∨ μ' e ≤ (f.names.map κ).sum + f.toll (cardOf lab) := by
  induction f generalizing p t t₀ κ μ t₁ with
  | nil =>
    cases hok
    exact ⟨t, κ, μ, rfl, ht, by simp [Forest.names], by simp [Forest.names], trivial, fun _ _ => rfl,
      fun _ _ _ _ => rfl, fun _ => Or.inl rfl⟩
  | cons nm vars sep kids rest ihk ihr =>
    obtain ⟨fit, fitk, fitr⟩ := hfit
    obtain ⟨μ0, μk, μr⟩ := hμ
    simp only [Forest.names, List.nodup_cons, List.mem_cons, List.mem_append, not_or,
      List.nodup_append] at hnd
    obtain ⟨⟨hpnm, hpk, hpr⟩, ⟨hnk, hnr⟩, hkn, hrn, hkr⟩ := hnd
    rw [Forest.collect] at hok
    obtain ⟨s₀, ok1, ok2⟩ := sends_append_ok hok
    obtain ⟨r₀, ok3, ok4⟩ := sends_cons_ok ok2
    -- the subtree
    obtain ⟨s, κ1, μ1, a1, a2, a3, a4, a5, a6, a7, a8⟩ := ihk nm t t₀ κ μ ht hs hr fitk
      (by simp [hnk, hkn]) μk ok1
    obtain ⟨hs1, hr1, sh1⟩ := sends_inv so (kids.collect nm) hs hr
    rw [ok1] at hs1 hr1 sh1
    -- the message
    have hfit1 := fit.of_shape sh1
    obtain ⟨r, b1, b2⟩ := a2.send hA so (a := nm) (b := p)
      (count_le so hr1 hfit1.2.1 hfit1.2.2.1) ok3
    have hs2 : r₀.Seps ∧ Room lab r₀ ∧ r₀.shape = s₀.shape := by
      have h1 := hs1.of_shape (send_shape so nm p s₀)
      have h2 := hr1.send so hs1 nm p
      have h3 := send_shape so nm p s₀
      rw [ok3] at h1 h2 h3
      exact ⟨h1, h2, h3⟩
    obtain ⟨hs2, hr2, sh2⟩ := hs2
    have hμ1 : μ1 s(nm, p) = 0 := by rw [a7 nm p hnk hpk]; exact μ0
    have hκp : κ1 p = κ p := a6 p (by simp [hpnm, hpk])
    rw [hμ1, hκp] at b2
    -- the other subtrees
    set c := addsOver (cardOf lab) (vars.toFinset \ sep.toFinset) with hcdef
    set κ2 := Function.update κ1 p (κ p + (κ1 nm + c + (0 + 1) + 1) + 1) with hκ2
    set μ2 := Function.update μ1 s(nm, p) (κ1 nm + c) with hμ2
    have hne : ∀ {a b : Name}, a ≠ nm → b ≠ nm → s(a, b) ≠ s(nm, p) := by
      intro a b h1 h2 h
      rcases Sym2.eq_iff.1 h with ⟨e, -⟩ | ⟨-, e⟩
      · exact h1 e
      · exact h2 e
    have hfr2 : ∀ k ∈ rest.names, κ2 k = κ k := by
      intro k hk
      have h1 : k ≠ p := fun e => hpr (e ▸ hk)
      have h2 : k ≠ nm := fun e => hnr (e ▸ hk)
      rw [hκ2, Function.update_of_ne h1]
      refine a6 k ?_
      simp only [List.mem_cons, not_or]
      exact ⟨h2, fun h => hkr k h k hk rfl⟩
    obtain ⟨t', κ3, μ3, c1, c2, c3, c4, c5, c6, c7, c8⟩ := ihr p r r₀ κ2 μ2 b2 hs2 hr2
      (fitr.imp fun _ _ _ _ _ _ _ h => h.of_shape (sh2.trans sh1)) (by simp [hpr, hrn])
      (μr.imp fun q nm' _ _ _ hn hq h => by
        have h1 : nm' ≠ nm := fun e => hnr (e ▸ hn)
        have h2 : q ≠ nm := by
          rcases List.mem_cons.1 hq with rfl | hq
          · exact hpnm
          · exact fun e => hnr (e ▸ hq)
        rw [hμ2, Function.update_of_ne (hne h1 h2)]
        rw [a7 nm' q (fun h => hkr nm' h nm' hn rfl) ?_]
        · exact h
        · rcases List.mem_cons.1 hq with rfl | hq
          · exact hpk
          · exact fun h => hkr q h q hq rfl) ok4
    have hsum : (rest.names.map κ2).sum = (rest.names.map κ).sum := by
      congr 1
      exact List.map_congr_left hfr2
    rw [hsum] at c3 c4 c5 c8
    have hκ2p : κ2 p = κ p + (κ1 nm + c + (0 + 1) + 1) + 1 := by rw [hκ2, Function.update_self]
    rw [hκ2p] at c3
    have htoll : (Forest.cons nm vars sep kids rest).toll (cardOf lab) =
        c + 3 + kids.toll (cardOf lab) + rest.toll (cardOf lab) := rfl
    have hnames : ((Forest.cons nm vars sep kids rest).names.map κ).sum =
        κ nm + ((kids.names.map κ).sum + (rest.names.map κ).sum) := by
      simp [Forest.names, List.map_append, List.sum_append]
    rw [htoll, hnames]
    refine ⟨t', κ3, μ3, ?_, c2, by omega, fun k hk => ?_, ⟨?_, ?_, ?_⟩, fun k hk => ?_, fun a b ha hb => ?_,
      fun e => ?_⟩
    · rw [Forest.collect, sendsR_append, a1, andThen_ok]
      change (sendR A so nm p s).andThen (sendsR A so (rest.collect p)) = _
      rw [b1, andThen_ok, c1]
    · simp only [Forest.names, List.mem_cons, List.mem_append] at hk
      rcases hk with rfl | hk | hk
      · rw [c6 k (by simp only [List.mem_cons, not_or]; exact ⟨Ne.symm hpnm, hnr⟩), hκ2,
          Function.update_of_ne (Ne.symm hpnm)]
        omega
      · have h1 : k ≠ p := fun e => hpk (e ▸ hk)
        rw [c6 k (by simp only [List.mem_cons, not_or]; exact ⟨h1, fun h => hkr k hk k h rfl⟩), hκ2,
          Function.update_of_ne h1]
        have := a4 k hk
        omega
      · have := c4 k hk
        omega
    · beta_reduce
      rw [c7 nm p hnr hpr, hμ2, Function.update_self]
      omega
    · refine a5.imp fun q nm' _ _ _ hn hq h => ?_
      have h1 : nm' ≠ nm := fun e => hnk (e ▸ hn)
      have h3 : nm' ≠ p := fun e => hpk (e ▸ hn)
      have h4 : s(nm', q) ≠ s(nm, p) := by
        intro h
        rcases Sym2.eq_iff.1 h with ⟨e, -⟩ | ⟨e, -⟩
        · exact h1 e
        · exact h3 e
      have h5 : q ∉ rest.names := by
        rcases List.mem_cons.1 hq with rfl | hq
        · exact hnr
        · exact fun h => hkr q hq q h rfl
      rw [c7 nm' q (fun h => hkr nm' hn nm' h rfl) h5, hμ2, Function.update_of_ne h4]
      omega
    · exact c5.imp fun q nm' _ _ _ hn hq h => by omega
    · simp only [Forest.names, List.mem_cons, List.mem_append, not_or] at hk
      rw [c6 k (by simp only [List.mem_cons, not_or]; exact ⟨hk.1, hk.2.2.2⟩), hκ2,
        Function.update_of_ne hk.1]
      exact a6 k (by simp only [List.mem_cons, not_or]; exact ⟨hk.2.1, hk.2.2.1⟩)
    · simp only [Forest.names, List.mem_cons, List.mem_append, not_or] at ha hb
      rw [c7 a b ha.2.2 hb.2.2, hμ2, Function.update_of_ne (hne ha.1 hb.1)]
      exact a7 a b ha.2.1 hb.2.1
    · rcases c8 e with h | h
      · rw [h, hμ2]
        by_cases he : e = s(nm, p)
        · rw [he, Function.update_self]
          right
          omega
        · rw [Function.update_of_ne he]
          rcases a8 e with h' | h'
          · exact Or.inl h'
          · right
            omega
      · right
        omega

/-- the messages away from `p` -/
theorem distribute_near {A : Arith} {u : ℚ} (hA : A.Accurate u) (so : SetOrder) {lab : Name → List Val}
    {V : Finset Name} {T : Nat} (f : Forest) (p : Name) (X : Nat) (t t₀ : JTree) (κ : Name → Nat) (μ : Sym2 Name → Nat)
    (ht : t.NearBy u κ μ t₀) (hs : t₀.Seps) (hr : Room lab t₀) {pv : List Name}
    (hpv : (t₀.nodes.get? p).map JNode.vars = some pv) (hsub : pv.toFinset ⊆ V) (hscope : f.scope ⊆ V)
    (hfit : f.All t₀.Fits p) (hnd : (p :: f.names).Nodup) (hX : κ p ≤ X) (hκ : ∀ k ∈ f.names, κ k ≤ T)
    (hμ : f.All (fun p nm _ _ _ => μ s(nm, p) + 3 ≤ T) p) {t₁ : JTree}
    (hok : sendsR .exact so (f.distribute p) t₀ = (t₁, none)) :
    ∃ t' κ' μ', sendsR A so (f.distribute p) t = (t', none) ∧ t'.NearBy u κ' μ' t₁ ∧
      (∀ k ∈ f.names, κ' k ≤ X + f.depth * (addsOver (cardOf lab) V + 2 * T)) ∧
      f.All (fun p nm _ _ _ => μ' s(nm, p) ≤ X + f.depth * (addsOver (cardOf lab) V + 2 * T)) p ∧
      (∀ k, k ∉ f.names → κ' k = κ k) ∧
      (∀ a b, a ∉ f.names → b ∉ f.names → μ' s(a, b) = μ s(a, b)) ∧
      ∀ e, μ' e = μ e ∨ μ' e ≤ X + f.depth * (addsOver (cardOf lab) V + 2 * T) := by
  induction f generalizing p X t t₀ κ μ pv t₁ with
  | nil =>
    cases hok
    exact ⟨t, κ, μ, rfl, ht, by simp [Forest.names], trivial, fun _ _ => rfl, fun _ _ _ _ => rfl,
      fun _ => Or.inl rfl⟩
  | cons nm vars sep kids rest ihk ihr =>
    obtain ⟨fit, fitk, fitr⟩ := hfit
    obtain ⟨μ0, μk, μr⟩ := hμ
    simp only [Forest.names, List.nodup_cons, List.mem_cons, List.mem_append, not_or,
      List.nodup_append] at hnd
    obtain ⟨⟨hpnm, hpk, hpr⟩, ⟨hnk, hnr⟩, hkn, hrn, hkr⟩ := hnd
    rw [Forest.distribute] at hok
    obtain ⟨s₀, ok1, ok2⟩ := sends_cons_ok hok
    obtain ⟨r₀, ok3, ok4⟩ := sends_append_ok ok2
    simp only [Forest.scope] at hscope
    have hvV : vars.toFinset ⊆ V := (subset_union_left.trans subset_union_left).trans hscope
    have hkV : kids.scope ⊆ V := (subset_union_right.trans subset_union_left).trans hscope
    have hrV : rest.scope ⊆ V := subset_union_right.trans hscope
    set L := addsOver (cardOf lab) V with hL
    -- the message
    have hcount := count_le so hr (a := p) (b := nm) hpv (by rw [edge_comm]; exact fit.2.2.1)
    obtain ⟨s, a1, a2⟩ := ht.send hA so (a := p) (b := nm) (c := L)
      (fun na e h1 h2 => (hcount na e h1 h2).trans (addsOver_mono (sdiff_subset.trans hsub))) ok1
    have hs1 : s₀.Seps ∧ Room lab s₀ ∧ s₀.shape = t₀.shape := by
      have h1 := hs.of_shape (send_shape so p nm t₀)
      have h2 := hr.send so hs p nm
      have h3 := send_shape so p nm t₀
      rw [ok1] at h1 h2 h3
      exact ⟨h1, h2, h3⟩
    obtain ⟨hs1, hr1, sh1⟩ := hs1
    set κ1 := Function.update κ nm (κ nm + (κ p + L + (μ s(p, nm) + 1) + 1) + 1) with hκ1
    set μ1 := Function.update μ s(p, nm) (κ p + L) with hμ1
    have hμ0 : μ s(p, nm) + 3 ≤ T := by rw [Sym2.eq_swap]; exact μ0
    have hκnm : κ nm ≤ T := hκ nm (by simp [Forest.names])
    have hX1 : κ1 nm ≤ X + L + 2 * T := by rw [hκ1, Function.update_self]; omega
    have hne : ∀ {a b : Name}, a ≠ nm → b ≠ nm → s(a, b) ≠ s(p, nm) := by
      intro a b h1 h2 h
      rcases Sym2.eq_iff.1 h with ⟨-, e⟩ | ⟨e, -⟩
      · exact h2 e
      · exact h1 e
    have hne' : ∀ {a b : Name}, a ≠ nm → a ≠ p → s(a, b) ≠ s(p, nm) := by
      intro a b h1 h2 h
      rcases Sym2.eq_iff.1 h with ⟨e, -⟩ | ⟨e, -⟩
      · exact h2 e
      · exact h1 e
    have hfit1 := fit.of_shape sh1
    -- the subtree
    obtain ⟨r, κ2, μ2, b1, b2, b3, b4, b5, b6, b7⟩ := ihk nm (X + L + 2 * T) s s₀ κ1 μ1 a2 hs1 hr1 hfit1.2.1 hvV hkV
      (fitk.imp fun _ _ _ _ _ _ _ h => h.of_shape sh1) (by simp [hnk, hkn]) hX1
      (fun k hk => by
        rw [hκ1, Function.update_of_ne (fun e : k = nm => hnk (e ▸ hk))]
        exact hκ k (by simp [Forest.names, hk]))
      (μk.imp fun q nm' _ _ _ hn hq h => by
        rw [hμ1, Function.update_of_ne (hne' (fun e => hnk (e ▸ hn)) fun e => hpk (e ▸ hn))]
        exact h) ok3
    obtain ⟨hs2, hr2, sh2⟩ := sends_inv so (kids.distribute nm) hs1 hr1
    rw [ok3] at hs2 hr2 sh2
    -- the other subtrees
    have hshape := sh2.trans sh1
    obtain ⟨t', κ3, μ3, c1, c2, c3, c4, c5, c6, c7⟩ := ihr p X r r₀ κ2 μ2 b2 hs2 hr2
      (by rw [vars_of_shape hshape]; exact hpv) hsub hrV
      (fitr.imp fun _ _ _ _ _ _ _ h => h.of_shape hshape) (by simp [hpr, hrn])
      (by rw [b5 p hpk, hκ1, Function.update_of_ne hpnm]; exact hX)
      (fun k hk => by
        rw [b5 k (fun h => hkr k h k hk rfl), hκ1, Function.update_of_ne (fun e : k = nm => hnr (e ▸ hk))]
        exact hκ k (by simp [Forest.names, hk]))
      (μr.imp fun q nm' _ _ _ hn hq h => by
        have h2 : q ≠ nm := by
          rcases List.mem_cons.1 hq with rfl | hq
          · exact hpnm
          · exact fun e => hnr (e ▸ hq)
        have h3 : q ∉ kids.names := by
          rcases List.mem_cons.1 hq with rfl | hq
          · exact hpk
          · exact fun h => hkr q h q hq rfl
        rw [b6 nm' q (fun h => hkr nm' h nm' hn rfl) h3, hμ1,
          Function.update_of_ne (hne (fun e => hnr (e ▸ hn)) h2)]
        exact h) ok4
    have hdk : X + L + 2 * T + kids.depth * (L + 2 * T) ≤
        X + (Forest.cons nm vars sep kids rest).depth * (L + 2 * T) := by
      have : kids.depth + 1 ≤ (Forest.cons nm vars sep kids rest).depth := le_max_left _ _
      have := Nat.mul_le_mul_right (L + 2 * T) this
      rw [Nat.add_mul, Nat.one_mul] at this
      omega
    have hdr : X + rest.depth * (L + 2 * T) ≤
        X + (Forest.cons nm vars sep kids rest).depth * (L + 2 * T) :=
      Nat.add_le_add_left (Nat.mul_le_mul_right _ (le_max_right _ _)) _
    refine ⟨t', κ3, μ3, ?_, c2, fun k hk => ?_, ⟨?_, ?_, ?_⟩, fun k hk => ?_, fun a b ha hb => ?_,
      fun e => ?_⟩
    · rw [Forest.distribute]
      change (sendR A so p nm t).andThen (sendsR A so (kids.distribute nm ++ rest.distribute p)) = _
      rw [a1, andThen_ok, sendsR_append, b1, andThen_ok, c1]
    · simp only [Forest.names, List.mem_cons, List.mem_append] at hk
      rcases hk with rfl | hk | hk
      · rw [c5 k hnr, b5 k hnk]
        omega
      · rw [c5 k fun h => hkr k hk k h rfl]
        exact (b3 k hk).trans hdk
      · exact (c3 k hk).trans hdr
    · beta_reduce
      rw [c6 nm p hnr hpr, b6 nm p hnk hpk, hμ1, Sym2.eq_swap, Function.update_self]
      omega
    · refine b4.imp fun q nm' _ _ _ hn hq h => ?_
      have h5 : q ∉ rest.names := by
        rcases List.mem_cons.1 hq with rfl | hq
        · exact hnr
        · exact fun h => hkr q hq q h rfl
      rw [c6 nm' q (fun h => hkr nm' hn nm' h rfl) h5]
      exact h.trans hdk
    · exact c4.imp fun q nm' _ _ _ hn hq h => h.trans hdr
    · simp only [Forest.names, List.mem_cons, List.mem_append, not_or] at hk
      rw [c5 k hk.2.2, b5 k hk.2.1, hκ1, Function.update_of_ne hk.1]
    · simp only [Forest.names, List.mem_cons, List.mem_append, not_or] at ha hb
      rw [c6 a b ha.2.2 hb.2.2, b6 a b ha.2.1 hb.2.1, hμ1, Function.update_of_ne (hne ha.1 hb.1)]
    · rcases c7 e with h | h
      · rw [h]
        rcases b7 e with h' | h'
        · rw [h', hμ1]
          by_cases he : e = s(p, nm)
          · rw [he, Function.update_self]
            right
            omega
          · exact Or.inl (Function.update_of_ne he _ _)
        · exact Or.inr (h'.trans hdk)
      · exact Or.inr (h.trans hdr)

end JTree
end Primo
