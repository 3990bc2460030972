import Verif.Lemmas.RoundedCount
import Verif.Lemmas.SoftEvidence
import Verif.Spec.RoundedTree
import Verif.Props.JoinTree

/-! # A bound for the roundings in the tables of a tree -/

namespace Primo
open JoinTree Factor Finset

namespace JTree
open JRes

theorem andThen_eq_ok {r : JRes} {F : JTree → JRes} {t : JTree} (h : r.andThen F = (t, none)) :
    ∃ s, r = (s, none) ∧ F s = (t, none) := by
  obtain ⟨s, o⟩ := r
  cases o with
  | none => exact ⟨s, rfl, h⟩
  | some e => cases h

/-! ### loading the tables -/

/-- roundings in the tables of all cliques -/
def tally (κ : Name → Nat) (t : JTree) : Nat := (t.nodes.keys.map κ).sum

theorem forall₂_congr {u : ℚ} {κ κ' : Name → Nat} {ns ns₀ : Dict JNode} (hk : ∀ k ∈ ns₀.keys, κ k = κ' k)
    (h : List.Forall₂ (fun p q : Name × JNode => p.1 = q.1 ∧ p.2.vars = q.2.vars ∧
      p.2.factor.Near u (κ q.1) q.2.factor) ns ns₀) :
    List.Forall₂ (fun p q : Name × JNode => p.1 = q.1 ∧ p.2.vars = q.2.vars ∧
      p.2.factor.Near u (κ' q.1) q.2.factor) ns ns₀ := by
  unfold Dict.keys at hk
  induction h with
  | nil => exact .nil
  | @cons p q ps qs h _ ih =>
    refine .cons ⟨h.1, h.2.1, ?_⟩ (ih fun k hk' => hk k (by rw [List.map_cons]; exact List.mem_cons_of_mem _ hk'))
    rw [← hk q.1 (by simp)]
    exact h.2.2

theorem nearBy_putFirst {A : Arith} {u : ℚ} (hA : A.Accurate u) (so : SetOrder) (p : List Name → Bool)
    {m : Nat} {f f₀ : Factor} (hf : f.Near u m f₀) {κ : Name → Nat} {ns ns₀ ns₁ : Dict JNode} (hnd : ns₀.keys.Nodup)
    (h : List.Forall₂ (fun p q : Name × JNode => p.1 = q.1 ∧ p.2.vars = q.2.vars ∧
      p.2.factor.Near u (κ q.1) q.2.factor) ns ns₀) (hok : putFirst so p f₀ ns₀ = .ok ns₁) :
    ∃ ns' κ', putFirstR A so p f ns = .ok ns' ∧
      List.Forall₂ (fun p q : Name × JNode => p.1 = q.1 ∧ p.2.vars = q.2.vars ∧
        p.2.factor.Near u (κ' q.1) q.2.factor) ns' ns₁ ∧
      ns₁.keys = ns₀.keys ∧ (ns₀.keys.map κ').sum ≤ (ns₀.keys.map κ).sum + (m + 1) := by
  induction h generalizing ns₁ with
  | nil => cases hok; exact ⟨[], κ, rfl, .nil, rfl, by simp⟩
  | @cons a b as bs hab hrest ih =>
    obtain ⟨h1, h2, h3⟩ := hab
    obtain ⟨a1, a2⟩ := a
    obtain ⟨b1, b2⟩ := b
    simp only at h1 h2 h3
    subst h1
    have hkeys : ∀ (x : JNode) (l : Dict JNode), Dict.keys ((a1, x) :: l) = a1 :: l.keys := fun _ _ => rfl
    rw [hkeys, List.nodup_cons] at hnd
    obtain ⟨hn1, hn2⟩ := hnd
    rw [putFirst] at hok
    rw [putFirstR, h2]
    by_cases hp : p b2.vars = true
    · rw [if_pos hp, bind_eq_ok] at hok
      obtain ⟨g, hg, hok⟩ := hok
      cases hok
      obtain ⟨g', hg', hgg⟩ := (Factor.near_mul hA so h3 hf).ok_right hg
      rw [if_pos hp, hg']
      refine ⟨_, Function.update κ a1 (κ a1 + m + 1), rfl, .cons ⟨rfl, rfl, ?_⟩ ?_, rfl, ?_⟩
      · rw [Function.update_self]; exact hgg
      · refine forall₂_congr (fun k hk => ?_) hrest
        rw [Function.update_of_ne fun e : k = a1 => hn1 (e ▸ hk)]
      · rw [hkeys]
        simp only [List.map_cons, List.sum_cons, Function.update_self]
        have : (Dict.keys bs).map (Function.update κ a1 (κ a1 + m + 1)) = (Dict.keys bs).map κ :=
          List.map_congr_left fun k hk => Function.update_of_ne (fun e : k = a1 => hn1 (e ▸ hk)) _ _
        rw [this]
        omega
    · rw [if_neg hp, bind_eq_ok] at hok
      obtain ⟨r, hr, hok⟩ := hok
      cases hok
      obtain ⟨ns', κ', i1, i2, i3, i4⟩ := ih hn2 hr
      rw [if_neg hp, i1]
      refine ⟨_, Function.update κ' a1 (κ a1), rfl, .cons ⟨rfl, h2, ?_⟩ ?_, ?_, ?_⟩
      · rw [Function.update_self]; exact h3
      · refine forall₂_congr (fun k hk => ?_) i2
        rw [i3] at hk
        rw [Function.update_of_ne fun e : k = a1 => hn1 (e ▸ hk)]
      · rw [hkeys, hkeys, i3]
      · rw [hkeys]
        simp only [List.map_cons, List.sum_cons, Function.update_self]
        have : (Dict.keys bs).map (Function.update κ' a1 (κ a1)) = (Dict.keys bs).map κ' :=
          List.map_congr_left fun k hk => Function.update_of_ne (fun e : k = a1 => hn1 (e ▸ hk)) _ _
        rw [this]
        omega

/-- a step that multiplies a table into a clique -/
def Adds (u : ℚ) (F G : JTree → JRes) (c : Nat) : Prop :=
  ∀ (t t₀ t₁ : JTree) κ, t.NearBy u κ (fun _ => 0) t₀ → t₀.nodes.keys.Nodup → G t₀ = (t₁, none) →
    ∃ t' κ', F t = (t', none) ∧ t'.NearBy u κ' (fun _ => 0) t₁ ∧ t₁.nodes.keys = t₀.nodes.keys ∧
      tally κ' t₁ ≤ tally κ t₀ + c

theorem Adds.forEach {u : ℚ} {α : Type} {F G : α → JTree → JRes} {c : α → Nat} : ∀ {l : List α},
    (∀ x ∈ l, Adds u (F x) (G x) (c x)) → Adds u (forEach F l) (forEach G l) (l.map c).sum
  | [], _ => by
    intro t t₀ t₁ κ h _ hok
    cases hok
    exact ⟨t, κ, rfl, h, rfl, by simp⟩
  | x :: l, hl => by
    intro t t₀ t₁ κ h hn hok
    rw [JRes.forEach] at hok
    obtain ⟨s₀, h1, h2⟩ := andThen_eq_ok hok
    obtain ⟨s, κ1, a1, a2, a3, a4⟩ := hl x (by simp) t t₀ s₀ κ h hn h1
    obtain ⟨t', κ2, b1, b2, b3, b4⟩ := Adds.forEach (fun y hy => hl y (by simp [hy])) s s₀ t₁ κ1 a2
      (by rw [a3]; exact hn) h2
    refine ⟨t', κ2, by rw [JRes.forEach, a1, andThen_ok, b1], b2, b3.trans a3, ?_⟩
    rw [List.map_cons, List.sum_cons]
    omega

theorem adds_put {A : Arith} {u : ℚ} (hA : A.Accurate u) (so : SetOrder) (p : List Name → Bool) {m : Nat}
    {x x₀ : Except PyErr Factor} (hx : RelE (Factor.Near u m) x x₀) :
    Adds u (fun t => JRes.ofExcept t (do
        let f ← x
        let ns ← putFirstR A so p f t.nodes
        return { t with nodes := ns }))
      (fun t => JRes.ofExcept t (do
        let f ← x₀
        let ns ← putFirst so p f t.nodes
        return { t with nodes := ns })) (m + 1) := by
  intro t t₀ t₁ κ h hn hok
  cases hx0 : x₀ with
  | error e => rw [hx0] at hok; cases hok
  | ok f₀ =>
    obtain ⟨f, hf, hff⟩ := hx.ok_right hx0
    rw [hx0] at hok
    simp only [ok_bind] at hok
    cases hp : putFirst so p f₀ t₀.nodes with
    | error e => rw [hp] at hok; cases hok
    | ok ns₁ =>
      rw [hp] at hok
      cases hok
      obtain ⟨ns', κ', a1, a2, a3, a4⟩ := nearBy_putFirst hA so p hff hn h.nodes hp
      refine ⟨{ t with nodes := ns' }, κ', ?_, ⟨a2, h.adj, h.edges, h.valid⟩, a3, ?_⟩
      · dsimp only
        rw [hf, ok_bind, a1]
        rfl
      · unfold tally
        dsimp only
        rw [a3]
        exact a4

theorem adds_putFactor {A : Arith} {u : ℚ} (hA : A.Accurate u) (so : SetOrder) {f : Factor}
    (hf : ∀ x ∈ f.potentials.data, 0 ≤ x) : Adds u (putFactorR A so f) (putFactor so f) 1 := by
  have := adds_put hA so (fun vars => sub f.values.keys vars) (x := .ok f) (x₀ := .ok f) (m := 0)
    (show f.Near u 0 f from Factor.Near.rfl' hf)
  exact this

theorem adds_putEvidence {A : Arith} {u : ℚ} (hA : A.Accurate u) (so : SetOrder) (bn : BN) {m : Nat}
    {old old₀ : Dict NDArray} {e : Name × Evidence}
    (h : ∀ n, bn.getNode e.1 = .ok n → RelE (Factor.Near u m) (Factor.asEvidenceR A e.1 n.values e.2 (old.get? e.1))
      (Factor.asEvidence e.1 n.values e.2 (old₀.get? e.1))) :
    Adds u (putEvidenceR A so bn old e) (putEvidence so bn old₀ e) (m + 1) := by
  intro t t₀ t₁ κ ht hn hok
  unfold putEvidence at hok
  unfold putEvidenceR
  cases hg : bn.getNode e.1 with
  | error x => rw [hg] at hok; cases hok
  | ok n =>
    rw [hg] at hok
    exact adds_put hA so (fun vars => vars.contains e.1) (h n hg) t t₀ t₁ κ ht hn hok

theorem NearBy.blank {u : ℚ} {k : Nat} {t t₀ : JTree} (h : t.Near u k t₀) :
    t.blank.NearBy u (fun _ => 0) (fun _ => 0) t₀.blank := by
  have := tracks_blank t₀ k u t h
  exact ⟨this.nodes, this.adj, this.edges, this.valid⟩

theorem keys_blank (t : JTree) : t.blank.nodes.keys = t.nodes.keys := keys_of_skel (skel_blank t)

theorem tally_zero (t : JTree) : tally (fun _ => 0) t = 0 := by
  unfold tally
  rw [List.sum_eq_zero]
  intro x hx
  obtain ⟨k, -, rfl⟩ := List.mem_map.1 hx
  rfl

/-- `reset_factors`: one rounding for each table -/
theorem near_reset {A : Arith} {u : ℚ} (hA : A.Accurate u) (so : SetOrder) {bn : BN} (hp : bn.NonNeg) {k : Nat}
    {t t₀ t₁ : JTree} (ht : t.Near u k t₀) (hn : t₀.nodes.keys.Nodup) (hok : reset so bn t₀ = (t₁, none)) :
    ∃ t' κ, resetR A so bn t = (t', none) ∧ t'.NearBy u κ (fun _ => 0) t₁ ∧ t₁.nodes.keys = t₀.nodes.keys ∧
      tally κ t₁ ≤ bn.length := by
  unfold reset at hok
  unfold resetR
  cases hm : bn.mapM Factor.fromNode with
  | error e => rw [hm] at hok; cases hok
  | ok fs =>
    rw [hm] at hok
    dsimp only at hok ⊢
    obtain ⟨s₀, h1, h2⟩ := andThen_eq_ok hok
    obtain ⟨s, κ, a1, a2, a3, a4⟩ := Adds.forEach (F := putFactorR A so) (G := putFactor so) (c := fun _ => 1)
      (l := fs) (fun f hf => adds_putFactor hA so (factors_nonneg hp hm f hf)) t.blank t₀.blank s₀ (fun _ => 0)
      (NearBy.blank ht) (by rw [keys_blank]; exact hn) h1
    cases h2
    refine ⟨{ s with valid := false }, κ, by rw [a1, andThen_ok], ⟨a2.nodes, a2.adj, a2.edges, rfl⟩,
      a3.trans (keys_blank t₀), ?_⟩
    rw [tally_zero, Nat.zero_add] at a4
    have hlen : fs.length = bn.length := (mapM_eq_ok.1 hm).length_eq.symm
    rw [List.map_const', List.sum_replicate, smul_eq_mul, Nat.mul_one, hlen] at a4
    exact a4

theorem room_reset (so : SetOrder) {lab : Name → List Val} {bn : BN} (hl : Labelled lab bn) {t t' : JTree}
    (h : reset so bn t = (t', none)) : Room lab t' := by
  unfold reset at h
  cases hm : bn.mapM Factor.fromNode with
  | error e => rw [hm] at h; cases h
  | ok fs =>
    rw [hm] at h
    dsimp only at h
    have hb : Room lab t.blank := by
      refine ⟨fun q hq => ?_, fun e he => ?_⟩
      · obtain ⟨q', -, rfl⟩ := List.mem_map.1 hq
        exact Within.trivial
      · obtain ⟨e', -, rfl⟩ := List.mem_map.1 he
        exact Within.trivial
    have key : Room lab ((forEach (putFactor so) fs t.blank).andThen fun t => ({ t with valid := false }, none)).1 :=
      andThen_inv (P := Room lab)
        (forEach_inv (P := Room lab) _ (fun f hf t' ht => ht.putFactor so (hl.fromNode hm f hf)) _ hb)
        fun t' ht => ⟨ht.nodes, ht.edges⟩
    rw [h] at key
    exact key

/-! ### the messages -/

theorem NearBy.setValid {u : ℚ} {κ : Name → Nat} {μ : Sym2 Name → Nat} {t t₀ : JTree} (h : t.NearBy u κ μ t₀)
    (b : Bool) : NearBy u κ μ { t with valid := b } { t₀ with valid := b } := ⟨h.nodes, h.adj, h.edges, rfl⟩

theorem NearBy.keys {u : ℚ} {κ : Name → Nat} {μ : Sym2 Name → Nat} {t t₀ : JTree} (h : t.NearBy u κ μ t₀) :
    t.nodes.keys = t₀.nodes.keys := by
  have := h.nodes
  unfold Dict.keys
  generalize t.nodes = l at this
  generalize t₀.nodes = l₀ at this
  induction this with
  | nil => rfl
  | cons h _ ih => rw [List.map_cons, List.map_cons, h.1, ih]

/-- `calculate_messages`, if the first clique reaches all others -/
theorem calculate_near {A : Arith} {u : ℚ} (hA : A.Accurate u) (so : SetOrder) {lab : Name → List Val}
    {V : Finset Name} {T N limit : Nat} {t t₀ t₁ : JTree} {κ : Name → Nat} (ht : t.NearBy u κ (fun _ => 0) t₀) (hs : t₀.Seps)
    (hr : Room lab t₀) {root : Name} {rvars : List Name} {kids : Forest} (hj : t₀.Junction root rvars kids)
    (hkeys : t₀.nodes.keys.Perm (root :: kids.names)) (hrV : rvars.toFinset ⊆ V) (hkV : kids.scope ⊆ V)
    (hT : tally κ t₀ + 3 * kids.names.length + addsOver (cardOf lab) V ≤ T) (hN : kids.depth < N)
    (hl : kids.depth < limit) (hv : t₀.valid = false) (hok : calculate so limit t₀ = (t₁, none))
    (hv1 : t₁.valid = true) :
    ∃ t', calculateR A so limit t = (t', none) ∧ t'.Near u (3 * N * T) t₁ := by
  have hex : ∃ s₀, sendsR .exact so (kids.collect root ++ kids.distribute root) t₀ = (s₀, none) ∧
      t₁ = { s₀ with valid := true } := by
    rw [← calculateR_exact, calculateR_sends .exact so hj.first hj.name hj.nbrs hj.hangs hl] at hok
    have hvv := (sendsR_adj .exact so (kids.collect root ++ kids.distribute root) t₀).2
    rw [hv] at hvv
    generalize sendsR .exact so (kids.collect root ++ kids.distribute root) t₀ = r at hok hvv
    obtain ⟨s₀, o⟩ := r
    cases o with
    | none =>
      rw [andThen_ok] at hok
      injection hok with h1 h2
      exact ⟨s₀, rfl, h1.symm⟩
    | some e =>
      exfalso
      simp only [JRes.andThen] at hok
      split at hok
      · rename_i heq
        cases heq
        cases hok
        rw [hvv] at hv1
        cases hv1
      · cases hok
  obtain ⟨s₀, ok, rfl⟩ := hex
  obtain ⟨r₀, ok1, ok2⟩ := sends_append_ok ok
  obtain ⟨r, κ1, μ1, a1, a2, a3, a4, a5, a6, a7, a8⟩ := collect_near hA so kids root t t₀ κ (fun _ => 0) ht hs hr hj.fits
    hj.nodup (hj.fits.imp fun _ _ _ _ _ _ _ _ => rfl) ok1
  obtain ⟨hs1, hr1, sh1⟩ := sends_inv so (kids.collect root) hs hr
  rw [ok1] at hs1 hr1 sh1
  have hj1 := hj.of_shape sh1
  have htally : tally κ t₀ = κ root + (kids.names.map κ).sum := by
    unfold tally
    rw [(hkeys.map κ).sum_eq]
    rfl
  have htoll := Forest.toll_le (card := cardOf lab) hj.rip
  have hadd : addsOver (cardOf lab) (kids.scope \ rvars.toFinset) ≤ addsOver (cardOf lab) V :=
    addsOver_mono (sdiff_subset.trans hkV)
  have hS : (kids.names.map κ).sum + kids.toll (cardOf lab) ≤ T := by omega
  have hroot : κ1 root ≤ T := by omega
  obtain ⟨s, κ2, μ2, b1, b2, b3, b4, b5, b6, b7⟩ := distribute_near hA so (V := V) (T := T) kids root T r r₀ κ1 μ1 a2 hs1
    hr1 hj1.root_vars hrV hkV hj1.fits hj1.nodup hroot (fun k hk => (a4 k hk).trans hS)
    (a5.imp fun _ _ _ _ _ _ _ h => h.trans hS) ok2
  have hbig : T + kids.depth * (addsOver (cardOf lab) V + 2 * T) ≤ 3 * N * T := by
    have h1 : addsOver (cardOf lab) V + 2 * T ≤ 3 * T := by omega
    have h2 : kids.depth * (addsOver (cardOf lab) V + 2 * T) ≤ kids.depth * (3 * T) := Nat.mul_le_mul_left _ h1
    have h3 : (kids.depth + 1) * (3 * T) ≤ N * (3 * T) := Nat.mul_le_mul_right _ hN
    have h4 : 3 * N * T = N * (3 * T) := by ring
    rw [Nat.add_mul] at h3
    omega
  have hT1 : T ≤ 3 * N * T := by omega
  refine ⟨{ s with valid := true }, ?_, ?_⟩
  · have hfirst : t.nodes.keys.head? = some root := by rw [ht.keys]; exact hj.first
    rw [calculateR_sends A so hfirst hj.name (by rw [ht.adj]; exact hj.nbrs) (by rw [ht.adj]; exact hj.hangs) hl,
      sendsR_append, a1, andThen_ok, b1, andThen_ok]
  · refine (b2.setValid true).near hA.nonneg hA.lt_one (fun k hk => ?_) fun e _ => ?_
    · have hsh := (sends_inv so (kids.distribute root) hs1 hr1).2.2
      rw [ok2] at hsh
      have hk' : k ∈ root :: kids.names := by
        have h0 : s₀.nodes.keys = t₀.nodes.keys := by
          rw [keys_of_shape hsh, keys_of_shape sh1]
        exact hkeys.subset (h0 ▸ hk)
      rcases List.mem_cons.1 hk' with rfl | hk'
      · rw [b5 k (List.nodup_cons.1 hj.nodup).1]
        exact hroot.trans hT1
      · exact (b3 k hk').trans hbig
    · rcases b7 s(e.u, e.w) with h | h
      · rw [h]
        rcases a8 s(e.u, e.w) with h' | h'
        · rw [h']; exact Nat.zero_le _
        · exact (h'.trans hS).trans hT1
      · exact h.trans hbig

/-! ### `set_evidence` -/

/-- a tree of the network with running intersections, all of whose cliques are reached from the first one -/
structure Placed (bn : BN) (t : JTree) (root : Name) (rvars : List Name) (kids : Forest) : Prop where
  consistent : bn.Consistent
  nonneg : bn.NonNeg
  sits : Sits bn t root rvars kids []
  seps : t.Seps
  depth : kids.depth < bn.length
  size : kids.names.length < bn.length

section
variable {bn : BN} {root : Name} {rvars : List Name} {kids : Forest} {t t₀ t₁ : JTree} {limit : Nat}

theorem Placed.of_shape (h : Placed bn t root rvars kids) {t' : JTree} (hs : t'.shape = t.shape) :
    Placed bn t' root rvars kids :=
  ⟨h.consistent, h.nonneg, h.sits.of_shape hs, h.seps.of_shape hs, h.depth, h.size⟩

theorem Placed.labelled (h : Placed bn t root rvars kids) : Labelled bn.lab bn := ⟨h.consistent, fun _ _ => rfl⟩

theorem Placed.dom (h : Placed bn t root rvars kids) : rvars.toFinset ∪ kids.scope ⊆ bn.names.toFinset := by
  obtain ⟨t', a1, a2, a3, a4, a5⟩ := h.sits.reset .insertion h.consistent
  obtain ⟨t'', Φ, Ψ, b1, b2, b3⟩ := calculate_tables .insertion h.consistent h.nonneg (h.sits.of_shape a2) a4 a5
    (limit := kids.depth + 1) (Nat.lt_succ_self _)
  exact b3.dom

theorem Placed.vars (h : Placed bn t root rvars kids) : ∀ q ∈ t.nodes, ∀ x ∈ q.2.vars, x ∈ bn.names := fun q hq =>
  h.sits.sub (q.1, q.2.vars) (List.mem_map.2 ⟨q, hq, rfl⟩)

/-- computing the messages of a tree whose tables have `e` roundings on top of those of `reset_factors` -/
theorem Placed.calculate {A : Arith} {u : ℚ} (hA : A.Accurate u) (so : SetOrder)
    (h : Placed bn t₀ root rvars kids) (hr : Room bn.lab t₀) {κ : Name → Nat} (ht : t.NearBy u κ (fun _ => 0) t₀)
    {e : Nat} (he : tally κ t₀ ≤ bn.length + e) (hl : kids.depth < limit) (hv : t₀.valid = false)
    (hok : JTree.calculate so limit t₀ = (t₁, none)) (hv1 : t₁.valid = true) :
    ∃ t', calculateR A so limit t = (t', none) ∧ t'.Near u (cliqueRoundings bn e) t₁ := by
  refine calculate_near hA so (V := bn.names.toFinset) ht h.seps hr h.sits.junction (by simpa using h.sits.keys)
    (subset_union_left.trans h.dom) (subset_union_right.trans h.dom) ?_ h.depth hl hv hok hv1
  have h1 : bn.additions [] = addsOver (cardOf bn.lab) bn.names.toFinset := by
    rw [BN.additions_eq bn h.consistent.nodup]
    simp
    rfl
  have := h.size
  omega

theorem room_evidence (so : SetOrder) (hl : Labelled bn.lab bn) (old : Dict NDArray) (ev : Dict Evidence)
    (hr : Room bn.lab t) {t' : JTree} (h : forEach (putEvidence so bn old) ev t = (t', none)) : Room bn.lab t' := by
  have := forEach_inv (P := Room bn.lab) ev (f := putEvidence so bn old) (fun e _ t' ht => ht.putEvidence so hl) t hr
  rw [h] at this
  exact this

/-- the second half of `set_evidence` -/
theorem Placed.evidence {A : Arith} {u : ℚ} (hA : A.Accurate u) (so : SetOrder)
    (h : Placed bn t₀ root rvars kids) {k : Nat} (ht : t.Near u k t₀) {ev : Dict Evidence} {old old₀ : Dict NDArray}
    {c : Name × Evidence → Nat} (hold : ∀ e ∈ ev, ∀ n, bn.getNode e.1 = .ok n →
      RelE (Factor.Near u (c e)) (Factor.asEvidenceR A e.1 n.values e.2 (old.get? e.1))
        (Factor.asEvidence e.1 n.values e.2 (old₀.get? e.1)))
    (hl : kids.depth < limit)
    (hok : (JTree.reset so bn t₀).andThen (fun t => (forEach (putEvidence so bn old₀) ev t).andThen
      (JTree.calculate so limit)) = (t₁, none)) (hv1 : t₁.valid = true) :
    ∃ t', (resetR A so bn t).andThen (fun t => (forEach (putEvidenceR A so bn old) ev t).andThen
      (calculateR A so limit)) = (t', none) ∧ t'.Near u (cliqueRoundings bn (ev.map fun e => c e + 1).sum) t₁ := by
  obtain ⟨r₀, h1, h2⟩ := andThen_eq_ok hok
  obtain ⟨s₀, h3, h4⟩ := andThen_eq_ok h2
  have hsh : r₀.shape = t₀.shape := by
    have := reset_shape so bn t₀
    rw [h1] at this
    exact this
  have hp1 := h.of_shape hsh
  have hr1 := room_reset so h.labelled h1
  have hv0 : r₀.valid = false := by
    obtain ⟨t', a1, -, a3, -⟩ := h.sits.reset so h.consistent
    rw [h1] at a1
    cases a1
    exact a3
  obtain ⟨r, κ, a1, a2, a3, a4⟩ := near_reset hA so h.nonneg ht h.sits.nodup h1
  obtain ⟨s, κ', b1, b2, b3, b4⟩ := Adds.forEach (c := fun e => c e + 1)
    (fun e he => adds_putEvidence hA so bn (hold e he)) r r₀ s₀ κ a2 hp1.sits.nodup h3
  have hsh2 : s₀.shape = r₀.shape := by
    have := forEach_inv (P := fun t => t.shape = r₀.shape) ev (f := putEvidence so bn old₀)
      (fun e _ t' ht => (putEvidence_shape so bn old₀ e t').trans ht) r₀ rfl
    rw [h3] at this
    exact this
  have hv2 : s₀.valid = false := by
    have := forEach_inv (P := fun t => t.valid = false) ev (f := putEvidence so bn old₀)
      (fun e _ t' ht => by
        unfold putEvidence JRes.ofExcept
        cases bn.getNode e.1 with
        | error x => exact ht
        | ok n =>
          rw [ok_bind]
          cases Factor.asEvidence e.1 n.values e.2 (old₀.get? e.1) with
          | error x => exact ht
          | ok f =>
            rw [ok_bind]
            cases putFirst so (fun vars => vars.contains e.1) f t'.nodes with
            | error x => exact ht
            | ok ns => exact ht) r₀ hv0
    rw [h3] at this
    exact this
  obtain ⟨t', c1, c2⟩ := (hp1.of_shape hsh2).calculate hA so (room_evidence so h.labelled old₀ ev hr1 h3) b2
    (e := (ev.map fun e => c e + 1).sum) (by omega) hl hv2 h4 hv1
  exact ⟨t', by rw [a1, andThen_ok, b1, andThen_ok, c1], c2⟩

end

theorem asEvidence_plain {A : Arith} {u : ℚ} (v : Name) (vals : List Val) {e : Evidence}
    (hs : ∀ l, e = .soft l → ∀ x ∈ l, 0 ≤ x) :
    RelE (Factor.Near u 0) (Factor.asEvidenceR A v vals e none) (Factor.asEvidence v vals e none) := by
  cases e with
  | hard x =>
    unfold Factor.asEvidenceR Factor.asEvidence
    simp only
    split
    · refine Factor.Near.rfl' fun y hy => ?_
      obtain ⟨i, _, rfl⟩ := List.mem_map.1 hy
      split <;> norm_num
    · exact rfl
  | soft l =>
    unfold Factor.asEvidenceR Factor.asEvidence
    simp only
    split
    · exact rfl
    · exact Factor.Near.rfl' (hs l rfl)

section
variable {bn : BN} {root : Name} {rvars : List Name} {kids : Forest} {t t₀ t₁ : JTree} {limit : Nat}

/-- `set_evidence` without `softPosteriors` -/
theorem Placed.setEvidence {A : Arith} {u : ℚ} (hA : A.Accurate u) (so : SetOrder)
    (h : Placed bn t₀ root rvars kids) {k : Nat} (ht : t.Near u k t₀) {ev : Dict Evidence} (hen : NonNegEvidence ev)
    (hl : kids.depth < limit) (hok : JTree.setEvidence so limit bn ev false t₀ = (t₁, none)) (hv1 : t₁.valid = true) :
    ∃ t', setEvidenceR A so limit bn ev false t = (t', none) ∧ t'.Near u (cliqueRoundings bn ev.length) t₁ := by
  obtain ⟨t', h1, h2⟩ := h.evidence hA so ht (old := []) (old₀ := []) (c := fun _ => 0)
    (fun e he n _ => asEvidence_plain e.1 n.values fun l hl => hen e.1 l (hl ▸ he)) hl
    (by unfold JTree.setEvidence at hok; simpa using hok) hv1
  refine ⟨t', by unfold setEvidenceR; simpa using h1, ?_⟩
  simpa using h2

/-! ### queries -/

theorem Factor.Near.len {u : ℚ} {k : Nat} {f g : Factor} (h : f.Near u k g) :
    f.potentials.data.length = g.potentials.data.length := h.table.data.length_eq

/-- `marginals` on a tree with computed messages -/
theorem Placed.query {A : Arith} {u : ℚ} (hA : A.Accurate u) (so : SetOrder)
    (h : Placed bn t₀ root rvars kids) (hr : Room bn.lab t₀) {k : Nat} (ht : t.Near u k t₀) {vs : List Name} {r₀ : Factor}
    (hok : t₀.query so vs = .ok r₀) :
    ∃ r, t.queryR A so vs = .ok r ∧ r.Near u (2 * (k + bn.additions vs) + r₀.potentials.data.length) r₀ := by
  unfold JTree.query at hok
  unfold queryR
  have hfind := near_find ht.nodes fun c => sub vs c
  cases hq : t₀.nodes.find? fun p => sub vs p.2.vars with
  | none => rw [hq] at hok; cases hok
  | some q =>
    rw [hq] at hok hfind
    dsimp only at hok
    cases hp : t.nodes.find? fun p => sub vs p.2.vars with
    | none => rw [hp] at hfind; exact hfind.elim
    | some p =>
      rw [hp] at hfind
      obtain ⟨f1, f2⟩ := hfind
      rw [bind_eq_ok] at hok
      obtain ⟨g₀, hg₀, hok⟩ := hok
      cases hok
      have hqm := List.mem_of_find?_eq_some hq
      have hcount : q.2.factor.margCount (so.diff q.2.vars vs) ≤ bn.additions vs := by
        refine (margCount_le (hr.nodes q hqm).1 (so.nodup _ _)).trans ?_
        rw [BN.additions_eq bn h.consistent.nodup]
        refine addsOver_mono fun v hv => ?_
        rw [List.mem_toFinset, so.mem] at hv
        rw [mem_sdiff, List.mem_toFinset, List.mem_toFinset]
        exact ⟨h.vars q hqm v hv.1, hv.2⟩
      obtain ⟨g, hg, hgg⟩ := (Factor.near_marginalize hA (so.diff q.2.vars vs) f2).ok_right hg₀
      dsimp only
      rw [f1, hg]
      refine ⟨_, rfl, ?_⟩
      have hn := Factor.near_normalize hA hgg
      rw [normalize_length]
      by_cases h0 : g₀.potentials.data.length = 0
      · refine ⟨hn.order, hn.values, hn.table.shape, ?_⟩
        have e1 : g₀.normalize.potentials.data = [] := by
          rw [← List.length_eq_zero_iff, normalize_length, h0]
        have e2 : (g.normalizeR A).potentials.data = [] := by
          rw [← List.length_eq_zero_iff, hn.table.data.length_eq, e1]
          rfl
        rw [e1, e2]
        exact .nil
      · exact hn.mono hA.nonneg hA.lt_one (by omega)

theorem Placed.length (h : Placed bn t₀ root rvars kids) {vs : List Name} {r₀ : Factor} (hw : r₀.WF bn.card)
    (hv : ∀ v, v ∈ r₀.variableOrder ↔ v ∈ vs) : r₀.potentials.data.length = bn.tableSize vs := by
  rw [NDArray.size_eq, hw.shape, BN.tableSize]
  have e : r₀.variableOrder.toFinset = vs.toFinset := by ext v; simp [hv]
  rw [← e, List.prod_toFinset _ hw.nodup]

/-- a query on a tree with computed messages -/
theorem Placed.marginals {A : Arith} {u : ℚ} (hA : A.Accurate u) (so : SetOrder)
    (h : Placed bn t₀ root rvars kids) (hr : Room bn.lab t₀) {e : Nat} (ht : t.Near u (cliqueRoundings bn e) t₀)
    (hv : t₀.valid = true) {vs : List Name} {r₀ : Factor} {limit : Nat}
    (hok : t₀.marginals so limit vs = (t₀, .ok r₀)) (hw : r₀.WF bn.card)
    (hvs : ∀ v, v ∈ r₀.variableOrder ↔ v ∈ vs) :
    ∃ r, t.marginalsR A so limit vs = (t, .ok r) ∧ r.Near u (treeRoundings bn e vs) r₀ := by
  have hq : t₀.query so vs = .ok r₀ := by
    unfold JTree.marginals at hok
    rw [if_pos hv] at hok
    injection hok
  obtain ⟨r, h1, h2⟩ := h.query hA so hr ht hq
  rw [h.length hw hvs] at h2
  refine ⟨r, ?_, h2⟩
  unfold marginalsR
  rw [ht.valid, if_pos hv]
  dsimp only
  rw [h1]

theorem oldMarginalsR_near {A : Arith} {so : SetOrder} {u : ℚ} {c : Name → Nat} {m : Name → NDArray} :
    ∀ (vs : List Name), (∀ v ∈ vs, ∃ r, t.marginalsR A so limit [v] = (t, .ok r) ∧ r.potentials.Near u (c v) (m v)) →
    ∃ old, oldMarginalsR A so limit vs t = (t, .ok old) ∧
      List.Forall₂ (fun (p : Name × NDArray) v => p.1 = v ∧ p.2.Near u (c v) (m v)) old vs
  | [], _ => ⟨[], rfl, .nil⟩
  | v :: vs, h => by
    obtain ⟨r, h1, h2⟩ := h v (by simp)
    obtain ⟨old, h3, h4⟩ := oldMarginalsR_near vs fun w hw => h w (by simp [hw])
    exact ⟨(v, r.potentials) :: old, by simp only [oldMarginalsR, h1, h3], .cons ⟨rfl, h2⟩ h4⟩

theorem get?_old {u : ℚ} {c : Name → Nat} {m : Name → NDArray} {old : Dict NDArray} {vs : List Name}
    (h : List.Forall₂ (fun (p : Name × NDArray) v => p.1 = v ∧ p.2.Near u (c v) (m v)) old vs) {v : Name} (hv : v ∈ vs) :
    ∃ a, old.get? v = some a ∧ a.Near u (c v) (m v) := by
  induction h with
  | nil => simp at hv
  | @cons p w ps ws h _ ih =>
    obtain ⟨p1, p2⟩ := p
    obtain ⟨h1, h2⟩ := h
    simp only at h1 h2
    subst h1
    by_cases e : p1 = v
    · subst e
      exact ⟨p2, by simp [Dict.get?], h2⟩
    · obtain ⟨a, h3, h4⟩ := ih ((List.mem_cons.1 hv).resolve_left fun x => e x.symm)
      exact ⟨a, by rw [Dict.get?, if_neg e]; exact h3, h4⟩

/-- computing the messages of a tree with the tables only -/
theorem Placed.tables {A : Arith} {u : ℚ} (hA : A.Accurate u) (so so' : SetOrder) {r r₀ : JTree}
    (h : Placed bn t₀ root rvars kids) (hr : JTree.reset so bn t₀ = (r₀, none)) {κ : Name → Nat}
    (ht : r.NearBy u κ (fun _ => 0) r₀) (hκ : tally κ r₀ ≤ bn.length) (hl : kids.depth < limit) :
    ∃ s₀ s, JTree.calculate so' limit r₀ = (s₀, none) ∧ r₀.valid = false ∧
      s₀.shape = t₀.shape ∧ s₀.valid = true ∧ Room bn.lab s₀ ∧
      calculateR A so' limit r = (s, none) ∧ s.Near u (cliqueRoundings bn 0) s₀ ∧
      ∀ vs so' limit', (∃ q ∈ skel s₀.nodes, ∀ x ∈ vs, x ∈ q.2) → ∃ m r, s₀.marginals so' limit' vs = (s₀, .ok m) ∧
        m.Over bn.lab ∧ (∀ v, v ∈ m.variableOrder ↔ v ∈ vs) ∧
        (∀ σ, Legal bn.card vs σ → m.eval σ = Primo.posterior bn [] vs σ) ∧
        s.marginalsR A so' limit' vs = (s, .ok r) ∧ r.Near u (treeRoundings bn 0 vs) m := by
  obtain ⟨r₀, a1, a2, a3, a4, a5⟩ := h.sits.reset so h.consistent
  rw [hr] at a1
  cases a1
  obtain ⟨s₀, Φ, Ψ, b1, b2, b3⟩ := calculate_tables so' h.consistent h.nonneg (h.sits.of_shape a2) a4 a5 hl
  have hr0 := room_reset so h.labelled hr
  obtain ⟨s, d1, d2⟩ := (h.of_shape a2).calculate hA so' hr0 ht (e := 0) (by omega) hl a3 b1 b3.valid
  have hp := h.of_shape (b2.trans a2)
  have hr1 : Room bn.lab s₀ := by
    have := hr0.calculate so' limit (h.seps.of_shape a2)
    rw [b1] at this
    exact this
  refine ⟨s₀, s, b1, a3, b2.trans a2, b3.valid, hr1, d1, d2, fun vs so' limit' hvs => ?_⟩
  obtain ⟨q, hq, hqv⟩ := hvs
  obtain ⟨m, e1, e2, e3, e4⟩ := b3.posterior so' (ev := []) (vs := vs) ⟨q, hq, by simp, hqv⟩ (Or.inl rfl) limit'
  obtain ⟨x, f1, f2⟩ := hp.marginals hA so' hr1 d2 b3.valid e1 e2.wf e3
  exact ⟨m, x, e1, e2, e3, e4, f1, f2⟩

/-- the marginals of a tree without evidence -/
theorem Placed.prior {A : Arith} {u : ℚ} (hA : A.Accurate u) (so : SetOrder)
    (h : Placed bn t₀ root rvars kids) {k : Nat} (ht : t.Near u k t₀) (hl : kids.depth < limit) :
    ∃ r₀ s₀ s, JTree.reset so bn t₀ = (r₀, none) ∧ JTree.calculate so limit r₀ = (s₀, none) ∧
      s₀.shape = t₀.shape ∧ s₀.valid = true ∧ Room bn.lab s₀ ∧
      (resetR A so bn t).andThen (calculateR A so limit) = (s, none) ∧ s.Near u (cliqueRoundings bn 0) s₀ ∧
      ∀ vs so' limit', (∃ q ∈ skel s₀.nodes, ∀ x ∈ vs, x ∈ q.2) → ∃ m r, s₀.marginals so' limit' vs = (s₀, .ok m) ∧
        m.Over bn.lab ∧ (∀ v, v ∈ m.variableOrder ↔ v ∈ vs) ∧
        (∀ σ, Legal bn.card vs σ → m.eval σ = Primo.posterior bn [] vs σ) ∧
        s.marginalsR A so' limit' vs = (s, .ok r) ∧ r.Near u (treeRoundings bn 0 vs) m := by
  obtain ⟨r₀, a1, -⟩ := h.sits.reset so h.consistent
  obtain ⟨r, κ, c1, c2, c3, c4⟩ := near_reset hA so h.nonneg ht h.sits.nodup a1
  obtain ⟨s₀, s, b1, -, b2, b3, b4, b5, b6, b7⟩ := h.tables hA so so a1 c2 c4 hl
  exact ⟨r₀, s₀, s, a1, b1, b2, b3, b4, by rw [c1, andThen_ok, b5], b6, b7⟩

/-- `create_jointree`: one rounding for each table -/
theorem nearBy_create {A : Arith} {u : ℚ} (hA : A.Accurate u) (so : SetOrder) (hp : bn.NonNeg)
    {order0 : Option (List Name)} (hn : t₀.nodes.keys.Nodup) (hok : create so bn order0 = .ok t₀) :
    ∃ t κ, createR A so bn order0 = .ok t ∧ t.NearBy u κ (fun _ => 0) t₀ ∧ tally κ t₀ ≤ bn.length := by
  unfold create at hok
  unfold createR
  cases h1 : VE.chooseOrder bn order0 with
  | error e => rw [h1] at hok; cases hok
  | ok o =>
  rw [h1, ok_bind] at hok
  cases h2 : bn.mapM Factor.fromNode with
  | error e => rw [h2] at hok; cases hok
  | ok fs =>
  rw [h2, ok_bind] at hok
  cases h3 : clusters o (moralGraph bn) with
  | error e => rw [h3] at hok; cases hok
  | ok L =>
  rw [h3, ok_bind] at hok
  cases h4 : (swaps L).foldlM applySwap L with
  | error e => rw [h4] at hok; cases hok
  | ok L' =>
  rw [h4, ok_bind] at hok
  cases h5 : JRes.forEach (putFactor so) fs (build L') with
  | mk t0 o =>
  rw [h5] at hok
  cases o with
  | some e => cases hok
  | none =>
  dsimp only at hok
  injection hok with hok
  subst hok
  have hsh : t0.shape = (build L').shape := by
    have := forEach_inv (P := fun t' => t'.shape = (build L').shape) fs
      (fun x _ t' ht => (putFactor_shape so x t').trans ht) _ rfl
    rw [h5] at this; exact this
  have hb := near_build u L'
  obtain ⟨s, κ, a1, a2, a3, a4⟩ := Adds.forEach (F := putFactorR A so) (G := putFactor so) (c := fun _ => 1)
    (l := fs) (fun f hf => adds_putFactor hA so (factors_nonneg hp h2 f hf)) (build L') (build L') t0 (fun _ => 0)
    ⟨hb.nodes, hb.adj, hb.edges, hb.valid⟩ (by rw [← keys_of_shape hsh]; exact hn) h5
  refine ⟨s, κ, ?_, a2, ?_⟩
  · simp only [ok_bind, h3, h4, a1]
    rfl
  · rw [tally_zero, Nat.zero_add, List.map_const', List.sum_replicate, smul_eq_mul, Nat.mul_one,
      ← (mapM_eq_ok.1 h2).length_eq] at a4
    exact a4

/-- `set_evidence` with `softPosteriors` -/
theorem Placed.setSoft {A : Arith} {u : ℚ} (hA : A.Accurate u) (so : SetOrder)
    (h : Placed bn t₀ root rvars kids) {k : Nat} (ht : t.Near u k t₀) {ev : Dict Evidence} (hen : NonNegEvidence ev)
    (hmem : ∀ e ∈ ev, e.1 ∈ bn.names) (hl : kids.depth < limit)
    (hok : JTree.setEvidence so limit bn ev true t₀ = (t₁, none)) (hv1 : t₁.valid = true) :
    ∃ t', setEvidenceR A so limit bn ev true t = (t', none) ∧
      t'.Near u (cliqueRoundings bn (softRoundings bn ev)) t₁ := by
  obtain ⟨r₀, s₀, s, a1, b1, hsh, hv, hr1, hrun, d2, hq⟩ := h.prior hA so ht hl
  have hp := h.of_shape hsh
  obtain ⟨r, c1, d1⟩ := andThen_eq_ok hrun
  have hold : ∀ v ∈ bn.names, ∃ m r, s₀.marginals so limit [v] = (s₀, .ok m) ∧
      s.marginalsR A so limit [v] = (s, .ok r) ∧ r.potentials.Near u (treeRoundings bn 0 [v]) m.potentials := by
    intro v hv
    obtain ⟨n, hn, hnm⟩ := BN.exists_of_mem_names hv
    obtain ⟨q, hqm, hqf⟩ := hp.sits.fam n hn
    obtain ⟨m, r, e1, -, -, -, e5, e6⟩ := hq [v] so limit
      ⟨q, hqm, by simpa [← hnm] using hqf n.name (by simp [NodeV.family])⟩
    exact ⟨m, r, e1, e5, e6.table⟩
  set m : Name → NDArray := fun v => match (s₀.marginals so limit [v]).2 with
    | .ok r => r.potentials
    | .error _ => NDArray.scalar 0 with hmdef
  have hm : ∀ v ∈ bn.names, (∃ r, s₀.marginals so limit [v] = (s₀, .ok r) ∧ r.potentials = m v) ∧
      ∃ r, s.marginalsR A so limit [v] = (s, .ok r) ∧ r.potentials.Near u (treeRoundings bn 0 [v]) (m v) := by
    intro v hv
    obtain ⟨x, r, r1, r2, r3⟩ := hold v hv
    have : m v = x.potentials := by rw [hmdef]; dsimp only; rw [r1]
    exact ⟨⟨x, r1, this.symm⟩, r, r2, by rw [this]; exact r3⟩
  have hkn : ∀ v ∈ ev.keys, v ∈ bn.names := by
    intro v hv
    obtain ⟨e, he, rfl⟩ := List.mem_map.1 hv
    exact hmem e he
  have hold₀ := oldMarginals_eq (t := s₀) (so := so) (limit := limit) (m := m) ev.keys fun v hv => (hm v (hkn v hv)).1
  obtain ⟨old, o1, o2⟩ := oldMarginalsR_near (t := s) (A := A) (so := so) (limit := limit) (u := u)
    (c := fun v => treeRoundings bn 0 [v]) (m := m) ev.keys fun v hv => (hm v (hkn v hv)).2
  unfold JTree.setEvidence at hok
  rw [a1, andThen_ok, if_pos rfl, b1, andThen_ok, hold₀] at hok
  dsimp only at hok
  obtain ⟨t', h1, h2⟩ := hp.evidence hA so d2 (old := old) (c := fun e => 2 * treeRoundings bn 0 [e.1] + 3)
    (fun e he n _ => by
      obtain ⟨a, g1, g2⟩ := get?_old o2 (List.mem_map_of_mem he)
      rw [get?_map_keys he, g1]
      exact near_asEvidence hA e.1 n.values (fun l hl => hen e.1 l (hl ▸ he)) (show ORel _ (some a) (some _) from g2)) hl hok hv1
  refine ⟨t', ?_, h2⟩
  unfold setEvidenceR
  rw [c1, andThen_ok, if_pos rfl, d1, andThen_ok, o1]
  exact h1

end

end JTree
end Primo
