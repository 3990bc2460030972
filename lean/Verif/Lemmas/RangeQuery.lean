import Verif.Lemmas.RangeLoad

/-! # Messages and queries of a tree in a limited range of numbers -/

namespace Primo
open JoinTree Factor Finset

/-! ### the exact tables after the messages -/

/-- zero or in the range -/
def In (lo hi y : ℚ) : Prop := y = 0 ∨ lo ≤ y ∧ y ≤ hi

theorem In.mul {a b c e x y : ℚ} (ha : 0 ≤ a) (hc : 0 ≤ c) (hx : In a b x) (hy : In c e y) :
    In (a * c) (b * e) (x * y) := by
  rcases hx with rfl | ⟨h1, h2⟩
  · exact .inl (zero_mul _)
  · rcases hy with rfl | ⟨h3, h4⟩
    · exact .inl (mul_zero _)
    · exact .inr ⟨mul_le_mul h1 h3 hc (ha.trans h1), mul_le_mul h2 h4 (hc.trans h3) ((ha.trans h1).trans h2)⟩

theorem In.prod {α : Type} {m M : ℚ} (hm : 0 ≤ m) {l : List α} {f : α → ℚ} (h : ∀ x ∈ l, In m M (f x)) :
    In (m ^ l.length) (M ^ l.length) (l.map f).prod := by
  induction l with
  | nil => exact .inr (by simp)
  | cons x l ih =>
    rw [List.map_cons, List.prod_cons, List.length_cons, pow_succ', pow_succ']
    exact In.mul hm (pow_nonneg hm _) (h x (by simp)) (ih fun y hy => h y (by simp [hy]))

theorem In.sum {α : Type} {lo hi : ℚ} (hlo : 0 < lo) {s : Finset α} {f : α → ℚ} (h : ∀ x ∈ s, In lo hi (f x)) :
    In lo (hi * s.card) (∑ x ∈ s, f x) := by
  have h0 : ∀ x ∈ s, 0 ≤ f x := fun x hx => by
    rcases h x hx with e | ⟨h1, -⟩
    · rw [e]
    · exact hlo.le.trans h1
  by_cases hz : ∀ x ∈ s, f x = 0
  · exact .inl (sum_eq_zero hz)
  · push_neg at hz
    obtain ⟨x, hx, hfx⟩ := hz
    have hxx := (h x hx).resolve_left hfx
    have hhi : 0 ≤ hi := hlo.le.trans (hxx.1.trans hxx.2)
    refine .inr ⟨hxx.1.trans (single_le_sum h0 hx), ?_⟩
    refine (sum_le_card_nsmul s f hi fun y hy => ?_).trans ?_
    · rcases h y hy with e | ⟨-, h2⟩
      · rw [e]; exact hhi
      · exact h2
    · rw [nsmul_eq_mul, mul_comm]

theorem In.sumOver {card : Name → Nat} {lo hi : ℚ} (hlo : 0 < lo) (hhi : 0 ≤ hi) {s : Finset Name} {F : Assign → ℚ}
    {σ : Assign} (h : ∀ τ, Varies card s σ τ → In lo hi (F τ)) :
    In lo (hi * 2 ^ addsOver card s) (sumOver card s F σ) := by
  have := In.sum hlo (s := s.pi fun v => range (card v))
    (f := fun τ => F (fun v => if h : v ∈ s then τ v h else σ v)) (fun τ hτ => h _ ⟨fun v hv => by simp [hv],
      fun v hv => by
        simp only [hv, dif_pos]
        exact Finset.mem_range.1 (Finset.mem_pi.1 hτ v hv)⟩)
  refine this.imp_right fun ⟨h1, h2⟩ => ⟨h1, h2.trans (mul_le_mul_of_nonneg_left ?_ hhi)⟩
  rw [card_pi]
  simp only [card_range]
  rw [addsOver, ← prod_pow_eq_pow_sum]
  push_cast
  refine prod_le_prod (fun v _ => Nat.cast_nonneg _) fun v _ => ?_
  have h3 : card v ≤ 2 ^ (card v - 1) := by
    rcases Nat.eq_zero_or_pos (card v) with e | e
    · rw [e]; exact Nat.zero_le _
    · have := Nat.lt_two_pow_self (n := card v - 1)
      omega
  exact_mod_cast h3

theorem NDArray.get_in {m M : ℚ} {a : NDArray} (h : Entries m M a.data) (idx : List Nat) : In m M (a.get idx) := by
  unfold NDArray.get
  rw [List.getD_eq_getElem?_getD]
  cases hx : a.data[NDArray.ravel a.shape idx]? with
  | none => exact .inl rfl
  | some x => exact h x (List.mem_of_getElem? hx)

theorem In.weight {bn : BN} {ev : Dict Evidence} {m M : ℚ} (hm : 0 < m) (h1 : m ≤ 1) (hM : 1 ≤ M)
    (hp : bn.EntriesIn m M) (hpe : EvidenceIn m M ev) (σ : Assign) :
    In (m ^ (bn.length + ev.length)) (M ^ (bn.length + ev.length)) (weight bn ev σ) := by
  unfold Primo.weight
  rw [pow_add, pow_add]
  refine In.mul (pow_pos hm _).le (pow_pos hm _).le (In.prod hm.le fun n hn => NDArray.get_in (hp n hn) _)
    (In.prod hm.le fun p hpm => ?_)
  obtain ⟨v, e⟩ := p
  cases e with
  | hard x =>
    unfold lik
    simp only
    split
    · exact .inr ⟨h1, hM⟩
    · exact .inl rfl
  | soft l =>
    unfold lik
    simp only
    rw [List.getD_eq_getElem?_getD]
    cases hx : l[σ v]? with
    | none => exact .inl rfl
    | some x => exact hpe v l hpm x (List.mem_of_getElem? hx)

namespace JTree
open JRes

variable {A : Arith} {u δ m M : ℚ} {D J K : Nat}

theorem Ready.ranged {bn : BN} {t : JTree} {root : Name} {rvars : List Name} {kids : Forest} {Φ Ψ W : Assign → ℚ}
    (hr : Ready bn t root rvars kids [] Φ Ψ W) {lo hi : ℚ} (hlo : 0 < lo) (hhi : 0 ≤ hi)
    (hW : ∀ σ, Legal bn.card bn.names σ → In lo hi (W σ)) {k : Name} (hk : k = root ∨ k ∈ kids.names) :
    t.Ranged lo (hi * 2 ^ addsOver bn.card bn.names.toFinset) k := by
  obtain ⟨vars, f, h1, h2, h3, h4, h5⟩ := hr.clique hk
  obtain ⟨hΨ, hS⟩ := hr.all rfl
  intro n hn y hy
  rw [h1] at hn
  cases hn
  dsimp only at hy
  rw [NDArray.data_eq, List.mem_map] at hy
  obtain ⟨idx, hidx, rfl⟩ := hy
  rw [mem_allIdx, h2.wf.shape] at hidx
  obtain ⟨σ, hσ, h6⟩ := exists_assign h2.wf.nodup hidx
  have hσv : Legal bn.card vars σ := fun v hv => hσ v ((h3 v).2 hv)
  have he := h5 σ hσv
  rw [hS] at he
  rw [h6]
  change In _ _ (f.eval σ)
  rw [he]
  have hmono : addsOver bn.card (bn.names.toFinset \ vars.toFinset) ≤ addsOver bn.card bn.names.toFinset :=
    addsOver_mono sdiff_subset
  have := In.sumOver (card := bn.card) (s := bn.names.toFinset \ vars.toFinset) (F := Φ) (σ := σ) hlo hhi
    (fun τ hτ => by
      have hl : Legal bn.card bn.names τ := fun v hv => by
        by_cases hvv : v ∈ vars
        · rw [hτ.1 v (by simp [hvv])]
          exact hσv v hvv
        · exact hτ.2 v (by simp [hv, hvv])
      have := hr.prod τ hl
      rw [hΨ, mul_one] at this
      rw [this]
      exact hW τ hl)
  exact this.imp_right fun ⟨h7, h8⟩ => ⟨h7, h8.trans (Span.pow_mono hhi hmono)⟩

/-! ### `calculate_messages` -/

theorem Like.setValid {R : Name → ℚ → ℚ → Prop} {S : Sym2 Name → ℚ → ℚ → Prop} {t t₀ : JTree} (h : t.Like R S t₀)
    (b : Bool) : Like R S { t with valid := b } { t₀ with valid := b } := ⟨h.nodes, h.adj, h.edges, rfl⟩

theorem Like.shape {R : Name → ℚ → ℚ → Prop} {S : Sym2 Name → ℚ → ℚ → Prop} {t t₀ : JTree} (h : t.Like R S t₀) :
    t.shape = t₀.shape := by
  unfold JTree.shape
  refine Prod.ext ?_ (Prod.ext h.adj ?_)
  · have := h.nodes
    simp only
    generalize t.nodes = l at this
    generalize t₀.nodes = l₀ at this
    induction this with
    | nil => rfl
    | cons h _ ih => rw [List.map_cons, List.map_cons, h.1, h.2.1, ih]
  · have := h.edges
    simp only
    generalize t.edges = l at this
    generalize t₀.edges = l₀ at this
    induction this with
    | nil => rfl
    | cons h _ ih => rw [List.map_cons, List.map_cons, h.1, h.2.1, h.2.2.1, ih]

/-- clique tables in the range, with `k` roundings -/
def Good (u lo hi : ℚ) (k : Nat) (t t₀ : JTree) : Prop := t.Like (fun _ => Fit u lo hi k) (fun _ _ _ => True) t₀

theorem calculate_range (hB : Bounds A u δ m M D J K) (so : SetOrder) {lab : Name → List Val}
    {V : Finset Name} {T N limit : Nat} {t t₀ t₁ : JTree} {d κ : Name → Nat} (ht : t.Filled u m M d κ t₀) (hs : t₀.Seps)
    (hr : Room lab t₀) {root : Name} {rvars : List Name} {kids : Forest} (hj : t₀.Junction root rvars kids)
    (hkeys : t₀.nodes.keys.Perm (root :: kids.names)) (hkn : t₀.nodes.keys.Nodup)
    (hrV : rvars.toFinset ⊆ V) (hkV : kids.scope ⊆ V) (hD : tally d t₀ ≤ D)
    (hT : tally κ t₀ + 3 * kids.names.length + addsOver (cardOf lab) V ≤ T)
    (hJ : T + addsOver (cardOf lab) V ≤ J) (hK : 3 * N * T ≤ K) (hN : kids.depth < N)
    (hl : kids.depth < limit) (hv : t₀.valid = false) (hok : calculate so limit t₀ = (t₁, none))
    (hv1 : t₁.valid = true) (hfin : ∀ k ∈ kids.names, t₁.Ranged (m ^ D) (M ^ D * 2 ^ T) k) :
    ∃ t', calculateR A so limit t = (t', none) ∧ t'.Good u (m ^ D) (M ^ D * 2 ^ T) (3 * N * T) t₁ := by
  have hM := hB.one_le
  have hex : ∃ s₀, sendsR .exact so (kids.collect root ++ kids.distribute root) t₀ = (s₀, none) ∧
      t₁ = { s₀ with valid := true } := by
    rw [← calculateR_exact, calculateR_sends .exact so hj.first hj.name hj.nbrs hj.hangs hl] at hok
    have hvv := (sendsR_adj .exact so (kids.collect root ++ kids.distribute root) t₀).2
    rw [hv] at hvv
    generalize sendsR .exact so (kids.collect root ++ kids.distribute root) t₀ = r at hok hvv
    obtain ⟨s₀, o⟩ := r
    cases o with
    | none =>
      rw [andThen_ok] at hok
      injection hok with h1 h2
      exact ⟨s₀, rfl, h1.symm⟩
    | some e =>
      exfalso
      simp only [JRes.andThen] at hok
      split at hok
      · rename_i heq
        cases heq
        cases hok
        rw [hvv] at hv1
        cases hv1
      · cases hok
  obtain ⟨s₀, ok, rfl⟩ := hex
  obtain ⟨r₀, ok1, ok2⟩ := sends_append_ok ok
  have htally : ∀ κ : Name → Nat, tally κ t₀ = κ root + (kids.names.map κ).sum := by
    intro κ
    unfold tally
    rw [(hkeys.map κ).sum_eq]
    rfl
  rw [htally] at hD hT
  have htoll := Forest.toll_le (card := cardOf lab) hj.rip
  have hadd : addsOver (cardOf lab) (kids.scope \ rvars.toFinset) ≤ addsOver (cardOf lab) V :=
    addsOver_mono (sdiff_subset.trans hkV)
  have hS : κ root + ((kids.names.map κ).sum + kids.toll (cardOf lab)) ≤ T := by omega
  obtain ⟨r, d1, κ1, ν1, μ1, a1, a2, a3, a4, a5, a6, a7, a8⟩ := collect_range hB so (lab := lab) kids root t t₀ d κ
    (fun _ => 0) (fun _ => 0) ht hkn hs hr hj.fits hj.nodup (hj.fits.imp fun _ _ _ _ _ _ _ _ => ⟨rfl, rfl⟩) hD
    (by omega) ok1
  obtain ⟨hs1, hr1, sh1⟩ := sends_inv so (kids.collect root) hs hr
  rw [ok1] at hs1 hr1 sh1
  have hj1 := hj.of_shape sh1
  have hkeys1 : r₀.nodes.keys = t₀.nodes.keys := keys_of_shape sh1
  have hall : ∀ k ∈ r₀.nodes.keys, d1 k ≤ D ∧ κ1 k ≤ T := by
    intro k hk
    rw [hkeys1] at hk
    rcases List.mem_cons.1 (hkeys.subset hk) with rfl | hk
    · omega
    · have := a4 k hk
      omega
  have hu : r.Like (Uniform u (m ^ D) (M ^ D * 2 ^ T) κ1) (Uniform u (m ^ D) (M ^ D * 2 ^ J) μ1) r₀ := by
    refine a2.imp (fun k hk x y h => ?_) fun e x y h => ?_
    · exact hB.mono h (hall k hk).1 (hall k hk).2 (le_refl _)
    · rcases a8 e with h' | h'
      · exact hB.mono h (by omega) (by omega) (le_refl _)
      · exact hB.mono h (by omega) (by omega) (le_refl _)
  have hbig : T + kids.depth * (addsOver (cardOf lab) V + 2 * T) ≤ 3 * N * T := by
    have h1 : addsOver (cardOf lab) V + 2 * T ≤ 3 * T := by omega
    have h2 : kids.depth * (addsOver (cardOf lab) V + 2 * T) ≤ kids.depth * (3 * T) := Nat.mul_le_mul_left _ h1
    have h3 : (kids.depth + 1) * (3 * T) ≤ N * (3 * T) := Nat.mul_le_mul_right _ hN
    have h4 : 3 * N * T = N * (3 * T) := by ring
    rw [Nat.add_mul] at h3
    omega
  have hT1 : T ≤ 3 * N * T := by omega
  have htop : M ^ D * 2 ^ T * 2 ^ addsOver (cardOf lab) V ≤ M ^ D * 2 ^ J := by
    rw [mul_assoc, ← pow_add]
    exact Span.pow_mono (by positivity) hJ
  obtain ⟨s, κ2, μ2, b1, b2, b3, b4, b5⟩ := distribute_range hB.span (by positivity) so (V := V) (T := T) htop kids root T
    r r₀ κ1 μ1 hu (by rw [hkeys1]; exact hkn) hs1 hr1 hj1.root_vars hrV hkV hj1.fits hj1.nodup (by omega)
    (fun k hk => (a4 k hk).1.trans (by omega)) (a5.imp fun _ _ _ _ _ _ _ h => by omega) (hbig.trans hK) ok2 hfin
  refine ⟨{ s with valid := true }, ?_, ?_⟩
  · have hfirst : t.nodes.keys.head? = some root := by rw [ht.keys]; exact hj.first
    rw [calculateR_sends A so hfirst hj.name (by rw [ht.adj]; exact hj.nbrs) (by rw [ht.adj]; exact hj.hangs) hl,
      sendsR_append, a1, andThen_ok, b1, andThen_ok]
  · refine (b2.setValid true).imp (fun k hk x y h => ?_) fun _ _ _ _ => trivial
    refine h.imp hB.span.acc.nonneg hB.span.acc.lt_one (le_refl _) (le_refl _) ?_
    have hsh := (sends_inv so (kids.distribute root) hs1 hr1).2.2
    rw [ok2] at hsh
    have hk' : k ∈ root :: kids.names := by
      have h0 : s₀.nodes.keys = t₀.nodes.keys := by
        rw [keys_of_shape hsh, keys_of_shape sh1]
      exact hkeys.subset (h0 ▸ hk)
    rcases List.mem_cons.1 hk' with rfl | hk'
    · rw [b4 k (List.nodup_cons.1 hj.nodup).1]
      omega
    · exact (b3 k hk').trans hbig

/-! ### queries -/

theorem like_find {R : ℚ → ℚ → Prop} {ns ns₀ : Dict JNode}
    (h : List.Forall₂ (fun p q : Name × JNode => p.1 = q.1 ∧ p.2.vars = q.2.vars ∧
      p.2.factor.Matches R q.2.factor) ns ns₀) (p : List Name → Bool) :
    ORel (fun p q : Name × JNode => p.2.vars = q.2.vars ∧ p.2.factor.Matches R q.2.factor)
      (ns.find? fun q => p q.2.vars) (ns₀.find? fun q => p q.2.vars) := by
  induction h with
  | nil => exact trivial
  | @cons a b as bs h _ ih =>
    rw [List.find?_cons, List.find?_cons, h.2.1]
    cases p b.2.vars
    · exact ih
    · exact h.2

theorem query_range {lo hi top : ℚ} (hA : Span A u δ lo top K) (h0 : 0 ≤ hi) (so : SetOrder) {bn : BN}
    {t t₀ : JTree} {root : Name} {rvars : List Name} {kids : Forest}
    (h : Placed bn t₀ root rvars kids) (hr : Room bn.lab t₀) {k : Nat} (ht : t.Good u lo hi k t₀)
    {vs : List Name} {r₀ : Factor} (hok : t₀.query so vs = .ok r₀)
    (htop : hi * 2 ^ (bn.additions vs + r₀.potentials.data.length) ≤ top)
    (hK : 2 * (k + bn.additions vs) + r₀.potentials.data.length ≤ K) :
    ∃ r, t.queryR A so vs = .ok r ∧ r.Near u (2 * (k + bn.additions vs) + r₀.potentials.data.length) r₀ := by
  unfold JTree.query at hok
  unfold queryR
  have hfind := like_find ht.nodes fun c => sub vs c
  cases hq : t₀.nodes.find? fun p => sub vs p.2.vars with
  | none => rw [hq] at hok; cases hok
  | some q =>
    rw [hq] at hok hfind
    dsimp only at hok
    cases hp : t.nodes.find? fun p => sub vs p.2.vars with
    | none => rw [hp] at hfind; exact hfind.elim
    | some p =>
      rw [hp] at hfind
      obtain ⟨f1, f2⟩ := hfind
      rw [bind_eq_ok] at hok
      obtain ⟨g₀, hg₀, hok⟩ := hok
      cases hok
      rw [normalize_length] at htop hK ⊢
      have hqm := List.mem_of_find?_eq_some hq
      have hcount : q.2.factor.margCount (so.diff q.2.vars vs) ≤ bn.additions vs := by
        refine (margCount_le (hr.nodes q hqm).1 (so.nodup _ _)).trans ?_
        rw [BN.additions_eq bn h.consistent.nodup]
        refine addsOver_mono fun v hv => ?_
        rw [List.mem_toFinset, so.mem] at hv
        rw [mem_sdiff, List.mem_toFinset, List.mem_toFinset]
        exact ⟨h.vars q hqm v hv.1, hv.2⟩
      obtain ⟨g, hg, hgg⟩ := (hA.marginalize h0 (le_refl _) (so.diff q.2.vars vs) (k := k) (j := 0)
        (f2.imp fun x y h => by rw [pow_zero, mul_one]; exact h) (by omega)
        ((Span.pow_mono h0 (by omega)).trans htop)).ok_right hg₀
      dsimp only
      rw [f1, hg]
      refine ⟨_, rfl, ?_⟩
      by_cases hz : g₀.potentials.data.length = 0
      · have e1 : g₀.potentials.data = [] := List.length_eq_zero_iff.1 hz
        have e2 : g.potentials.data = [] := by
          have := hgg.table.data.length_eq
          rw [e1] at this
          exact List.length_eq_zero_iff.1 this
        unfold Factor.normalizeR Factor.normalize NDArray.sumAll
        simp only [e1, e2, hA.acc.sum_nil, List.sum_nil, gt_iff_lt, lt_irrefl, if_false]
        exact ⟨hgg.order, hgg.values, hgg.table.shape, by rw [e1, e2]; exact .nil⟩
      · have hn := hA.normalize hgg (by positivity) (by
          rw [mul_assoc, ← pow_add]
          exact (Span.pow_mono h0 (by omega)).trans htop) (by omega)
        exact hn.mono hA.acc.nonneg hA.acc.lt_one (by omega)

end JTree
end Primo
