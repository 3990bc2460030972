import Verif.Lemmas.RangeTree
import Verif.Lemmas.RoundedShape
import Verif.Props.RoundedTree

/-! # Loading the tables of a tree in a limited range of numbers -/

namespace Primo
open JoinTree Factor Finset

theorem Fit.entry {u m M x : ℚ} (hm : 0 < m) (hx : (x = 0 ∨ m ≤ x ∧ x ≤ M)) : Fit u (m ^ 1) (M ^ 1 * 2 ^ 0) 0 x x := by
  refine ⟨.rfl' ?_, ?_⟩
  · rcases hx with rfl | ⟨h, -⟩
    · exact le_refl _
    · linarith
  · rw [pow_one, pow_one, pow_zero, mul_one]
    exact hx

namespace JTree
open JRes

variable {A : Arith} {u δ m M : ℚ} {D J K : Nat}

theorem like_congr {d κ d' κ' : Name → Nat} {ns ns₀ : Dict JNode} (hk : ∀ k ∈ ns₀.keys, d k = d' k ∧ κ k = κ' k)
    (h : List.Forall₂ (fun p q : Name × JNode => p.1 = q.1 ∧ p.2.vars = q.2.vars ∧
      p.2.factor.Matches (Span.entries u m M d κ q.1) q.2.factor) ns ns₀) :
    List.Forall₂ (fun p q : Name × JNode => p.1 = q.1 ∧ p.2.vars = q.2.vars ∧
      p.2.factor.Matches (Span.entries u m M d' κ' q.1) q.2.factor) ns ns₀ := by
  unfold Dict.keys at hk
  induction h with
  | nil => exact .nil
  | @cons p q ps qs h _ ih =>
    refine .cons ⟨h.1, h.2.1, h.2.2.imp fun x y hxy => ?_⟩ (ih fun k hk' => hk k (by
      rw [List.map_cons]; exact List.mem_cons_of_mem _ hk'))
    have := hk q.1 (by simp)
    unfold Span.entries at hxy ⊢
    rw [← this.1, ← this.2]
    exact hxy

theorem like_putFirst (hB : Bounds A u δ m M D J K) (so : SetOrder) (p : List Name → Bool)
    {f f₀ : Factor} (hf : f.Matches (Fit u (m ^ 1) (M ^ 1 * 2 ^ 0) 0) f₀) {d κ : Name → Nat}
    {ns ns₀ ns₁ : Dict JNode} (hnd : ns₀.keys.Nodup)
    (h : List.Forall₂ (fun p q : Name × JNode => p.1 = q.1 ∧ p.2.vars = q.2.vars ∧
      p.2.factor.Matches (Span.entries u m M d κ q.1) q.2.factor) ns ns₀)
    (hD : (ns₀.keys.map d).sum + 1 ≤ D) (hJ : (ns₀.keys.map κ).sum + 1 ≤ J)
    (hok : putFirst so p f₀ ns₀ = .ok ns₁) :
    ∃ ns' d' κ', putFirstR A so p f ns = .ok ns' ∧
      List.Forall₂ (fun p q : Name × JNode => p.1 = q.1 ∧ p.2.vars = q.2.vars ∧
        p.2.factor.Matches (Span.entries u m M d' κ' q.1) q.2.factor) ns' ns₁ ∧
      ns₁.keys = ns₀.keys ∧ (ns₀.keys.map d').sum ≤ (ns₀.keys.map d).sum + 1 ∧
      (ns₀.keys.map κ').sum ≤ (ns₀.keys.map κ).sum + 1 := by
  induction h generalizing ns₁ with
  | nil => cases hok; exact ⟨[], d, κ, rfl, .nil, rfl, by simp, by simp⟩
  | @cons a b as bs hab hrest ih =>
    obtain ⟨h1, h2, h3⟩ := hab
    obtain ⟨a1, a2⟩ := a
    obtain ⟨b1, b2⟩ := b
    simp only at h1 h2 h3
    subst h1
    have hkeys : ∀ (x : JNode) (l : Dict JNode), Dict.keys ((a1, x) :: l) = a1 :: l.keys := fun _ _ => rfl
    rw [hkeys, List.nodup_cons] at hnd
    obtain ⟨hn1, hn2⟩ := hnd
    rw [hkeys, List.map_cons, List.sum_cons] at hD hJ
    have hJK := hB.le
    have hup : ∀ (x : Name → Nat) (i : Nat), (Dict.keys bs).map (Function.update x a1 i) = (Dict.keys bs).map x :=
      fun x i => List.map_congr_left fun k hk => Function.update_of_ne (fun e : k = a1 => hn1 (e ▸ hk)) _ _
    rw [putFirst] at hok
    rw [putFirstR, h2]
    by_cases hp : p b2.vars = true
    · rw [if_pos hp, bind_eq_ok] at hok
      obtain ⟨g, hg, hok⟩ := hok
      cases hok
      obtain ⟨g', hg', hgg⟩ := (Factor.matches_mul (A := A)
        (T := Fit u (m ^ (d a1 + 1)) (M ^ (d a1 + 1) * 2 ^ (κ a1 + 1)) (κ a1 + 1)) so .zero .zero
        (fun x y z w h h' => hB.mono (hB.mul h h' (by omega) (by omega) (by omega)) (le_refl _) (by omega) (by omega))
        h3 hf).ok_right hg
      rw [if_pos hp, hg']
      refine ⟨_, Function.update d a1 (d a1 + 1), Function.update κ a1 (κ a1 + 1), rfl,
        .cons ⟨rfl, rfl, ?_⟩ ?_, rfl, ?_, ?_⟩
      · unfold Span.entries
        simp only [Function.update_self]
        exact hgg
      · refine like_congr (fun k hk => ?_) hrest
        have : k ≠ a1 := fun e : k = a1 => hn1 (e ▸ hk)
        rw [Function.update_of_ne this, Function.update_of_ne this]
        exact ⟨rfl, rfl⟩
      · rw [hkeys, List.map_cons, List.sum_cons, List.map_cons, List.sum_cons, hup, Function.update_self]
        omega
      · rw [hkeys, List.map_cons, List.sum_cons, List.map_cons, List.sum_cons, hup, Function.update_self]
        omega
    · rw [if_neg hp, bind_eq_ok] at hok
      obtain ⟨r, hr, hok⟩ := hok
      cases hok
      obtain ⟨ns', d', κ', i1, i2, i3, i4, i5⟩ := ih hn2 (by omega) (by omega) hr
      rw [if_neg hp, i1]
      refine ⟨_, Function.update d' a1 (d a1), Function.update κ' a1 (κ a1), rfl, .cons ⟨rfl, h2, ?_⟩ ?_, ?_, ?_, ?_⟩
      · unfold Span.entries at h3 ⊢
        simp only [Function.update_self]
        exact h3
      · refine like_congr (fun k hk => ?_) i2
        rw [i3] at hk
        have : k ≠ a1 := fun e : k = a1 => hn1 (e ▸ hk)
        rw [Function.update_of_ne this, Function.update_of_ne this]
        exact ⟨rfl, rfl⟩
      · rw [hkeys, hkeys, i3]
      · rw [hkeys, List.map_cons, List.sum_cons, List.map_cons, List.sum_cons, hup, Function.update_self]
        omega
      · rw [hkeys, List.map_cons, List.sum_cons, List.map_cons, List.sum_cons, hup, Function.update_self]
        omega

/-- the messages have not been used, each clique `k` has `κ k` roundings and products of `d k` entries -/
def Filled (u m M : ℚ) (d κ : Name → Nat) (t t₀ : JTree) : Prop :=
  t.Like (Span.entries u m M d κ) (Span.entries u m M (fun _ => 0) (fun _ => 0)) t₀

/-- a step that multiplies `c` tables into cliques -/
def Fills (u m M : ℚ) (D J : Nat) (F G : JTree → JRes) (c : Nat) : Prop :=
  ∀ (t t₀ t₁ : JTree) d κ, t.Filled u m M d κ t₀ → t₀.nodes.keys.Nodup → tally d t₀ + c ≤ D → tally κ t₀ + c ≤ J →
    G t₀ = (t₁, none) →
    ∃ t' d' κ', F t = (t', none) ∧ t'.Filled u m M d' κ' t₁ ∧ t₁.nodes.keys = t₀.nodes.keys ∧
      tally d' t₁ ≤ tally d t₀ + c ∧ tally κ' t₁ ≤ tally κ t₀ + c

theorem Fills.forEach {α : Type} {F G : α → JTree → JRes} : ∀ {l : List α},
    (∀ x ∈ l, Fills u m M D J (F x) (G x) 1) → Fills u m M D J (forEach F l) (forEach G l) l.length
  | [], _ => by
    intro t t₀ t₁ d κ h _ _ _ hok
    cases hok
    exact ⟨t, d, κ, rfl, h, rfl, by simp, by simp⟩
  | x :: l, hl => by
    intro t t₀ t₁ d κ h hn hD hJ hok
    rw [List.length_cons] at hD hJ
    rw [JRes.forEach] at hok
    obtain ⟨s₀, h1, h2⟩ := andThen_eq_ok hok
    obtain ⟨s, d1, κ1, a1, a2, a3, a4, a5⟩ := hl x (by simp) t t₀ s₀ d κ h hn (by omega) (by omega) h1
    obtain ⟨t', d2, κ2, b1, b2, b3, b4, b5⟩ := Fills.forEach (fun y hy => hl y (by simp [hy])) s s₀ t₁ d1 κ1 a2
      (by rw [a3]; exact hn) (by omega) (by omega) h2
    refine ⟨t', d2, κ2, by rw [JRes.forEach, a1, andThen_ok, b1], b2, b3.trans a3, ?_, ?_⟩
    · rw [List.length_cons]; omega
    · rw [List.length_cons]; omega

theorem loads_put (hB : Bounds A u δ m M D J K) (so : SetOrder) (p : List Name → Bool)
    {x x₀ : Except PyErr Factor} (hx : RelE (Factor.Matches (Fit u (m ^ 1) (M ^ 1 * 2 ^ 0) 0)) x x₀) :
    Fills u m M D J (fun t => JRes.ofExcept t (do
        let f ← x
        let ns ← putFirstR A so p f t.nodes
        return { t with nodes := ns }))
      (fun t => JRes.ofExcept t (do
        let f ← x₀
        let ns ← putFirst so p f t.nodes
        return { t with nodes := ns })) 1 := by
  intro t t₀ t₁ d κ h hn hD hJ hok
  cases hx0 : x₀ with
  | error e => rw [hx0] at hok; cases hok
  | ok f₀ =>
    obtain ⟨f, hf, hff⟩ := hx.ok_right hx0
    rw [hx0] at hok
    simp only [ok_bind] at hok
    cases hp : putFirst so p f₀ t₀.nodes with
    | error e => rw [hp] at hok; cases hok
    | ok ns₁ =>
      rw [hp] at hok
      cases hok
      obtain ⟨ns', d', κ', a1, a2, a3, a4, a5⟩ := like_putFirst hB so p hff hn h.nodes hD hJ hp
      refine ⟨{ t with nodes := ns' }, d', κ', ?_, ⟨a2, h.adj, h.edges, h.valid⟩, a3, ?_, ?_⟩
      · dsimp only
        rw [hf, ok_bind, a1]
        rfl
      · unfold tally
        dsimp only
        rw [a3]
        exact a4
      · unfold tally
        dsimp only
        rw [a3]
        exact a5

theorem loads_putFactor (hB : Bounds A u δ m M D J K) (so : SetOrder) {f : Factor}
    (hf : ∀ x ∈ f.potentials.data, (x = 0 ∨ m ≤ x ∧ x ≤ M)) : Fills u m M D J (putFactorR A so f) (putFactor so f) 1 := by
  have := loads_put hB so (fun vars => sub f.values.keys vars) (x := .ok f) (x₀ := .ok f)
    (show f.Matches _ f from .refl fun x hx => Fit.entry hB.pos (hf x hx))
  exact this

theorem loads_putEvidence (hB : Bounds A u δ m M D J K) (so : SetOrder) (bn : BN) {e : Name × Evidence}
    (he : ∀ l, e.2 = .soft l → ∀ x ∈ l, (x = 0 ∨ m ≤ x ∧ x ≤ M)) :
    Fills u m M D J (putEvidenceR A so bn [] e) (putEvidence so bn [] e) 1 := by
  intro t t₀ t₁ d κ ht hn hD hJ hok
  unfold putEvidence at hok
  unfold putEvidenceR
  cases hg : bn.getNode e.1 with
  | error x => rw [hg] at hok; cases hok
  | ok n =>
    rw [hg] at hok
    refine loads_put hB so (fun vars => vars.contains e.1) ?_ t t₀ t₁ d κ ht hn hD hJ hok
    rw [show Dict.get? ([] : Dict NDArray) e.1 = none from rfl]
    cases h : e.2 with
    | hard x =>
      unfold Factor.asEvidenceR Factor.asEvidence
      simp only
      split
      · refine Factor.Matches.refl fun y hy => Fit.entry hB.pos ?_
        obtain ⟨i, _, rfl⟩ := List.mem_map.1 hy
        split
        · exact .inr ⟨hB.le_one, hB.one_le⟩
        · exact .inl rfl
      · exact rfl
    | soft l =>
      unfold Factor.asEvidenceR Factor.asEvidence
      simp only
      split
      · exact rfl
      · exact Factor.Matches.refl fun y hy => Fit.entry hB.pos (he l h y hy)

theorem fit_trivial : (Factor.trivial 1).Matches (Fit u (m ^ 0) (M ^ 0 * 2 ^ 0) 0) (Factor.trivial 1) := by
  refine .refl fun x hx => ?_
  have : x = 1 := by simpa [Factor.trivial, NDArray.scalar] using hx
  subst this
  rw [pow_zero, pow_zero, pow_zero, mul_one]
  exact .one

theorem Filled.self {t : JTree} (hn : ∀ q ∈ t.nodes, q.2.factor = Factor.trivial 1)
    (he : ∀ e ∈ t.edges, e.factor = Factor.trivial 1) : t.Filled u m M (fun _ => 0) (fun _ => 0) t := by
  refine ⟨?_, rfl, ?_, rfl⟩
  · rw [List.forall₂_same]
    exact fun q hq => ⟨rfl, rfl, by rw [hn q hq]; exact fit_trivial⟩
  · rw [List.forall₂_same]
    exact fun e h => ⟨rfl, rfl, rfl, by rw [he e h]; exact fit_trivial⟩

theorem Filled.blank (t : JTree) : t.blank.Filled u m M (fun _ => 0) (fun _ => 0) t.blank := by
  refine .self (fun q hq => ?_) fun e he => ?_
  · obtain ⟨q', -, rfl⟩ := List.mem_map.1 hq
    rfl
  · obtain ⟨e', -, rfl⟩ := List.mem_map.1 he
    rfl

theorem factors_entries {bn : BN} (hp : bn.EntriesIn m M) {fs : List Factor}
    (h : bn.mapM Factor.fromNode = .ok fs) : ∀ f ∈ fs, ∀ x ∈ f.potentials.data, (x = 0 ∨ m ≤ x ∧ x ≤ M) := by
  have := mapM_eq_ok.1 h
  clear h
  intro f hf
  induction this with
  | nil => cases hf
  | @cons n g ns gs hg _ ih =>
    rcases List.mem_cons.1 hf with rfl | hf
    · rw [Factor.fromNode_potentials hg]
      exact hp n (by simp)
    · exact ih (fun n hn => hp n (by simp [hn])) hf

/-- `reset_factors` -/
theorem like_reset (hB : Bounds A u δ m M D J K) (so : SetOrder) {bn : BN} (hp : bn.EntriesIn m M)
    {t t₁ : JTree} (hn : t.nodes.keys.Nodup) (hD : bn.length ≤ D) (hJ : bn.length ≤ J)
    (hok : reset so bn t = (t₁, none)) :
    ∃ t' d κ, resetR A so bn t = (t', none) ∧ t'.Filled u m M d κ t₁ ∧ t₁.nodes.keys = t.nodes.keys ∧
      tally d t₁ ≤ bn.length ∧ tally κ t₁ ≤ bn.length := by
  unfold reset at hok
  unfold resetR
  cases hm : bn.mapM Factor.fromNode with
  | error e => rw [hm] at hok; cases hok
  | ok fs =>
    rw [hm] at hok
    dsimp only at hok ⊢
    have hlen : fs.length = bn.length := (mapM_eq_ok.1 hm).length_eq.symm
    obtain ⟨s₀, h1, h2⟩ := andThen_eq_ok hok
    obtain ⟨s, d, κ, a1, a2, a3, a4, a5⟩ := Fills.forEach (F := putFactorR A so) (G := putFactor so)
      (l := fs) (fun f hf => loads_putFactor hB so (factors_entries hp hm f hf)) t.blank t.blank s₀ (fun _ => 0)
      (fun _ => 0) (.blank t) (by rw [keys_blank]; exact hn) (by rw [tally_zero]; omega) (by rw [tally_zero]; omega) h1
    cases h2
    rw [tally_zero, Nat.zero_add, hlen] at a4 a5
    exact ⟨{ s with valid := false }, d, κ, by rw [a1, andThen_ok], ⟨a2.nodes, a2.adj, a2.edges, rfl⟩,
      a3.trans (keys_blank t), a4, a5⟩

/-- `create_jointree` -/
theorem like_create (hB : Bounds A u δ m M D J K) (so : SetOrder) {bn : BN} (hp : bn.EntriesIn m M)
    (hD : bn.length ≤ D) (hJ : bn.length ≤ J) {t₀ : JTree}
    {order0 : Option (List Name)} (hn : t₀.nodes.keys.Nodup) (hok : create so bn order0 = .ok t₀) :
    ∃ t d κ, createR A so bn order0 = .ok t ∧ t.Filled u m M d κ t₀ ∧ tally d t₀ ≤ bn.length ∧
      tally κ t₀ ≤ bn.length := by
  unfold create at hok
  unfold createR
  cases h1 : VE.chooseOrder bn order0 with
  | error e => rw [h1] at hok; cases hok
  | ok o =>
  rw [h1, ok_bind] at hok
  cases h2 : bn.mapM Factor.fromNode with
  | error e => rw [h2] at hok; cases hok
  | ok fs =>
  rw [h2, ok_bind] at hok
  cases h3 : clusters o (moralGraph bn) with
  | error e => rw [h3] at hok; cases hok
  | ok L =>
  rw [h3, ok_bind] at hok
  cases h4 : (swaps L).foldlM applySwap L with
  | error e => rw [h4] at hok; cases hok
  | ok L' =>
  rw [h4, ok_bind] at hok
  cases h5 : JRes.forEach (putFactor so) fs (build L') with
  | mk t0 o =>
  rw [h5] at hok
  cases o with
  | some e => cases hok
  | none =>
  dsimp only at hok
  injection hok with hok
  subst hok
  have hsh : t0.shape = (build L').shape := by
    have := forEach_inv (P := fun t' => t'.shape = (build L').shape) fs
      (fun x _ t' ht => (putFactor_shape so x t').trans ht) _ rfl
    rw [h5] at this; exact this
  have hlen : fs.length = bn.length := (mapM_eq_ok.1 h2).length_eq.symm
  obtain ⟨s, d, κ, a1, a2, a3, a4, a5⟩ := Fills.forEach (F := putFactorR A so) (G := putFactor so)
    (l := fs) (fun f hf => loads_putFactor hB so (factors_entries hp h2 f hf)) (build L') (build L') t0 (fun _ => 0)
    (fun _ => 0) (by have := Filled.blank (u := u) (m := m) (M := M) (build L'); rwa [build_blank] at this) (by rw [← keys_of_shape hsh]; exact hn)
    (by rw [tally_zero]; omega) (by rw [tally_zero]; omega) h5
  rw [tally_zero, Nat.zero_add, hlen] at a4 a5
  refine ⟨s, d, κ, ?_, a2, a4, a5⟩
  simp only [ok_bind, h3, h4, a1]
  rfl

end JTree
end Primo
