import Verif.Lemmas.Rounded
import Mathlib.Algebra.Order.Monoid.Canonical.Defs
import Mathlib.Tactic.Abel

/-! # The rounded elimination algorithms follow the exact ones -/

namespace Primo

set_option linter.unusedSectionVars false

variable {ι : Type} [AddCommMonoid ι] [PartialOrder ι] [IsOrderedAddMonoid ι] [CanonicallyOrderedAdd ι]

theorem RelE.foldlM_count {α β γ : Type} {R : ι → α → β → Prop} {f : α → γ → Except PyErr α}
    {g : β → γ → Except PyErr β} (c : γ → ι) : ∀ {l : List γ} {k : ι} {a : α} {b : β},
      (∀ k a b, ∀ x ∈ l, R k a b → RelE (R (k + c x)) (f a x) (g b x)) → R k a b →
      RelE (R (k + (l.map c).sum)) (l.foldlM f a) (l.foldlM g b)
  | [], _, _, _, _, h => by rw [List.map_nil, List.sum_nil, add_zero]; exact h
  | x :: l, k, a, b, hs, h => by
    rw [List.foldlM_cons, List.foldlM_cons, List.map_cons, List.sum_cons, ← add_assoc]
    exact (hs k a b x (by simp) h).bind fun a' b' h' =>
      foldlM_count c (fun k a b x hx => hs k a b x (by simp [hx])) h'

/-- What the simulation of the elimination algorithms needs: a relation between rounded and exact
factors, indexed by what is to be counted (for example, the number of roundings): `t` for each table and
observation, `w` for each product, and `c v` for each sum over `v`. -/
structure Sim (A : Arith) (so : SetOrder) (bn : BN) (ev : Dict Evidence) (w t : ι) (c : Name → ι)
    (R : ι → Factor → Factor → Prop) : Prop where
  mono : ∀ {k m f g}, R k f g → k ≤ m → R m f g
  contains : ∀ {k f g}, R k f g → ∀ v, f.contains v = g.contains v
  mul : ∀ {k m f f' g g'}, R k f f' → R m g g' → RelE (R (k + m + w)) (f.mulR A so g) (f'.mul so g')
  sumOut : ∀ {k f g} v, R k f g → RelE (R (k + c v)) (f.sumOutR A v) (g.sumOut v)
  one : R 0 (Factor.trivial 1) (Factor.trivial 1)
  table : ∀ {v n f}, bn.getNode v = .ok n → Factor.fromNode n = .ok f → R t f f
  evidence : ∀ {v n e f}, (v, e) ∈ ev → bn.getNode v = .ok n → Factor.asEvidence v n.values e = .ok f →
    R t f f

namespace Sim
open VE
variable {A : Arith} {so : SetOrder} {bn : BN} {ev : Dict Evidence} {w t : ι} {c : Name → ι}
  {R : ι → Factor → Factor → Prop} (S : Sim A so bn ev w t c R)
include S

theorem marginalize_one {k : ι} {f g : Factor} (v : Name) (h : R k f g) :
    RelE (R (k + c v)) (f.marginalizeR A [v]) (g.marginalize [v]) := by
  unfold Factor.marginalizeR Factor.marginalize
  rw [List.foldlM_cons, List.foldlM_cons]
  exact (S.sumOut v h).bind fun _ _ h => h

theorem naiveStep {k : ι} {f g : Factor} (v : Name) (h : R k f g) :
    RelE (R (k + (t + w + if (ev.get? v).isSome then t + w else 0))) (naiveStepR A so bn ev f v)
      (VE.naiveStep so bn ev g v) := by
  unfold naiveStepR VE.naiveStep
  refine RelE.bind_same fun n hn => ?_
  refine RelE.bind_same fun f hf => ?_
  refine (S.mul h (S.table hn hf)).bind fun a b hab => ?_
  cases he : ev.get? v with
  | none =>
    rw [Option.isSome_none, if_neg Bool.false_ne_true, add_zero, ← add_assoc]
    exact hab
  | some e =>
    refine RelE.bind_same fun ef hef => ?_
    have := S.mul hab (S.evidence (Dict.get?_mem he) hn hef)
    rw [Option.isSome_some, if_pos rfl, show k + (t + w + (t + w)) = k + t + w + t + w by abel]
    exact this

theorem naive_raw (Q : List Name) :
    RelE (R ((bn.names.map fun v => t + w + if (ev.get? v).isSome then t + w else 0).sum +
        ((bn.names.filter fun v => decide (v ∉ Q)).map c).sum))
      (bn.names.foldlM (naiveStepR A so bn ev) (Factor.trivial 1) >>= fun r =>
        bn.names.foldlM (naiveElimR A Q) r)
      (bn.names.foldlM (VE.naiveStep so bn ev) (Factor.trivial 1) >>= fun r =>
        bn.names.foldlM (VE.naiveElim Q) r) := by
  have h1 := RelE.foldlM_count (l := bn.names) (R := R) (f := naiveStepR A so bn ev)
    (g := VE.naiveStep so bn ev) (fun v => t + w + if (ev.get? v).isSome then t + w else 0)
    (fun k a b v _ h => S.naiveStep v h) S.one
  rw [zero_add] at h1
  refine h1.bind fun a b hab => ?_
  have h2 := RelE.foldlM_count (l := bn.names) (R := R) (f := naiveElimR A Q)
    (g := VE.naiveElim Q) (fun v => if v ∈ Q then 0 else c v) (fun k a b v _ h => by
      unfold naiveElimR VE.naiveElim
      by_cases hv : v ∈ Q
      · rw [if_pos hv, if_pos hv, if_pos hv, add_zero]; exact h
      · rw [if_neg hv, if_neg hv, if_neg hv]; exact S.marginalize_one v h) hab
  have hc : (bn.names.map fun v => if v ∈ Q then 0 else c v).sum =
      ((bn.names.filter fun v => decide (v ∉ Q)).map c).sum := by
    generalize bn.names = l
    induction l with
    | nil => rfl
    | cons v l ih =>
      by_cases hv : v ∈ Q
      · simp [hv, ih]
      · simp [hv, ih]
  rwa [hc] at h2

end Sim

/-- the buckets of the two computations; the index is the sum of their roundings -/
inductive BRel (R : ι → Factor → Factor → Prop) : ι → VE.Buckets → VE.Buckets → Prop
  | nil : BRel R 0 [] []
  | cons {k m b b' bs bs'} (v : Name) : R k b b' → BRel R m bs bs' →
      BRel R (k + m) ((v, b) :: bs) ((v, b') :: bs')

/-- both `none`, or related -/
def ORel {α β : Type} (R : α → β → Prop) : Option α → Option β → Prop
  | some a, some b => R a b
  | none, none => True
  | _, _ => False

namespace BRel
variable {R : ι → Factor → Factor → Prop} {k : ι} {bs bs' : VE.Buckets}

theorem names (h : BRel R k bs bs') : bs.map Prod.fst = bs'.map Prod.fst := by
  induction h with
  | nil => rfl
  | cons v _ _ ih => rw [List.map_cons, List.map_cons, ih]

theorem length (h : BRel R k bs bs') : bs.length = bs'.length := by
  have := congrArg List.length h.names
  rwa [List.length_map, List.length_map] at this

end BRel

namespace Sim
open VE
variable {A : Arith} {so : SetOrder} {bn : BN} {ev : Dict Evidence} {w t : ι} {c : Name → ι}
  {R : ι → Factor → Factor → Prop} (S : Sim A so bn ev w t c R)
include S

theorem place {k m : ι} {f g : Factor} (hf : R k f g) {bs bs' : Buckets} (h : BRel R m bs bs') :
    RelE (ORel fun p q => BRel R (m + k + w) p q ∧ q.map Prod.fst = bs'.map Prod.fst)
      (placeR A so f bs) (VE.place so g bs') := by
  induction h with
  | nil => exact (trivial : ORel (fun _ _ => _) none none)
  | @cons k1 m1 b b' bs bs' v hb hbs ih =>
    rw [placeR, VE.place, S.contains hf v]
    by_cases hc : g.contains v = true
    · rw [if_pos hc, if_pos hc]
      refine (S.mul hb hf).bind fun x y hxy => RelE.pure ?_
      have : BRel R (k1 + k + w + m1) ((v, x) :: bs) ((v, y) :: bs') := .cons v hxy hbs
      have e : k1 + k + w + m1 = k1 + m1 + k + w := by abel
      rw [e] at this
      exact ⟨this, rfl⟩
    · rw [if_neg hc, if_neg hc]
      refine ih.bind fun x y hxy => RelE.pure ?_
      cases x <;> cases y
      · trivial
      · exact hxy.elim
      · exact hxy.elim
      · rename_i x y
        have : BRel R (k1 + (m1 + k + w)) ((v, b) :: x) ((v, b') :: y) := .cons v hb hxy.1
        have e : k1 + (m1 + k + w) = k1 + m1 + k + w := by abel
        rw [e] at this
        refine ⟨this, ?_⟩
        rw [List.map_cons, List.map_cons, hxy.2]

/-- the index may be larger than the sum -/
def _root_.Primo.BLe (R : ι → Factor → Factor → Prop) (N : List Name) (K : ι)
    (bs bs' : Buckets) : Prop :=
  ∃ k, k ≤ K ∧ BRel R k bs bs' ∧ bs'.map Prod.fst = N

theorem placeFactor {N : List Name} {m : ι} {f : Factor} (hf : R t f f) {bs bs' : Buckets}
    (h : BLe R N m bs bs') :
    RelE (BLe R N (m + (t + w))) (placeFactorR A so bs f) (VE.placeFactor so bs' f) := by
  obtain ⟨k, hk, h, hN⟩ := h
  unfold placeFactorR VE.placeFactor
  refine (S.place hf h).bind fun x y hxy => RelE.pure ?_
  cases x <;> cases y
  · exact ⟨k, hk.trans le_self_add, h, hN⟩
  · exact hxy.elim
  · exact hxy.elim
  · exact ⟨k + t + w, by rw [add_assoc]; exact add_le_add_left hk _, hxy.1, hxy.2.trans hN⟩

theorem set_bucket {k m : ι} {bs bs' : Buckets} (h : BRel R m bs bs') {ef : Factor}
    (hf : R k ef ef) (i : Nat) :
    RelE (fun p q => BRel R (m + k + w) p q ∧ q.map Prod.fst = bs'.map Prod.fst)
      (match bs[i]? with
        | some b => do
          let b' ← b.2.mulR A so ef
          return bs.set i (b.1, b')
        | none => .error .indexError)
      (match bs'[i]? with
        | some b => do
          let b' ← b.2.mul so ef
          return bs'.set i (b.1, b')
        | none => .error .indexError) := by
  induction h generalizing i with
  | nil => exact rfl
  | @cons k1 m1 b b' bs bs' v hb hbs ih =>
    cases i with
    | zero =>
      simp only [List.getElem?_cons_zero, List.set_cons_zero]
      refine (S.mul hb hf).bind fun x y hxy => RelE.pure ?_
      have : BRel R (k1 + k + w + m1) ((v, x) :: bs) ((v, y) :: bs') := .cons v hxy hbs
      have e : k1 + k + w + m1 = k1 + m1 + k + w := by abel
      rw [e] at this
      exact ⟨this, rfl⟩
    | succ i =>
      have := ih i
      simp only [List.getElem?_cons_succ, List.set_cons_succ]
      cases h1 : bs[i]? with
      | none =>
        have hl := hbs.length
        have : bs'[i]? = none := by
          rw [List.getElem?_eq_none_iff] at h1 ⊢
          omega
        rw [this]
        exact rfl
      | some p =>
        have hl := hbs.length
        obtain ⟨q, hq⟩ : ∃ q, bs'[i]? = some q := by
          have := (List.getElem?_eq_some_iff.1 h1).1
          exact ⟨bs'[i]'(by omega), List.getElem?_eq_getElem _⟩
        rw [h1, hq] at this
        rw [hq]
        simp only at this ⊢
        cases hp : p.2.mulR A so ef with
        | error e =>
          cases hq' : q.2.mul so ef with
          | error e' => rw [hp, hq'] at this; exact this
          | ok y => rw [hp, hq'] at this; exact this.elim
        | ok x =>
          cases hq' : q.2.mul so ef with
          | error e' => rw [hp, hq'] at this; exact this.elim
          | ok y =>
            rw [hp, hq'] at this
            have this : BRel R (m1 + k + w) (bs.set i (p.1, x)) (bs'.set i (q.1, y)) ∧
              (bs'.set i (q.1, y)).map Prod.fst = bs'.map Prod.fst := this
            have e : k1 + m1 + k + w = k1 + (m1 + k + w) := by abel
            rw [e]
            refine ⟨(BRel.cons v hb this.1 : BRel R (k1 + (m1 + k + w)) _ _), ?_⟩
            rw [List.map_cons, List.map_cons, this.2]

theorem placeEvidence {N : List Name} {m : ι} {bs bs' : Buckets} (h : BLe R N m bs bs')
    {e : Name × Evidence} (he : e ∈ ev) :
    RelE (BLe R N (m + (t + w))) (placeEvidenceR A so bn bs e) (VE.placeEvidence so bn bs' e) := by
  obtain ⟨k, hk, h, hN⟩ := h
  unfold placeEvidenceR VE.placeEvidence
  rw [h.names]
  refine RelE.bind_same fun i hi => ?_
  refine RelE.bind_same fun n hn => ?_
  refine RelE.bind_same fun ef hef => ?_
  exact (S.set_bucket h (S.evidence he hn hef) i).mono fun a b hab =>
    ⟨k + t + w, by rw [add_assoc]; exact add_le_add_left hk _, hab.1, hab.2.trans hN⟩

/-- the state of the elimination loop -/
def _root_.Primo.PRel (R : ι → Factor → Factor → Prop) (K : ι) (s s' : Buckets × Factor) : Prop :=
  ∃ k m, k + m ≤ K ∧ BRel R k s.1 s'.1 ∧ R m s.2 s'.2

theorem process : ∀ (j : Nat) {K : ι} {bs bs' : Buckets} {last last' : Factor},
    PRel R K (bs, last) (bs', last') →
    RelE (fun p q => PRel R (K + (((bs'.map Prod.fst).take j).map fun v => c v + w).sum) p q ∧
        q.1.length + j = bs'.length)
      (processR A so j bs last) (VE.process so j bs' last')
  | 0, K, bs, bs', last, last', h => ⟨by rw [List.take_zero, List.map_nil, List.sum_nil, add_zero]; exact h, rfl⟩
  | j + 1, K, bs, bs', last, last', ⟨k, m, hkm, hb, hl⟩ => by
    cases hb with
    | nil => exact rfl
    | @cons k1 m1 b b' bs bs' v h1 h2 =>
      rw [processR, VE.process]
      refine (S.marginalize_one v h1).bind fun x y hxy => ?_
      refine (S.place hxy h2).bind fun p q hpq => ?_
      simp only at hl
      rw [List.map_cons, List.take_succ_cons, List.map_cons, List.sum_cons, ← add_assoc]
      have hstep : k1 + m1 + m + (c v + w) ≤ K + (c v + w) := add_le_add_left hkm _
      cases p <;> cases q
      · refine (S.mul hl hxy).bind fun l l' hll => ?_
        refine (process j (K := K + (c v + w)) ⟨m1, _, le_trans (le_of_eq (by abel)) hstep, h2, hll⟩).mono fun _ _ h => ⟨h.1, ?_⟩
        rw [List.length_cons, ← h.2]
        omega
      · exact hpq.elim
      · exact hpq.elim
      · rename_i p q
        obtain ⟨hpq, hn⟩ : BRel R (m1 + (k1 + c v) + w) p q ∧ q.map Prod.fst = bs'.map Prod.fst := hpq
        have := process j (K := K + (c v + w)) (bs := p) (bs' := q) (last := last) (last' := last')
          ⟨_, _, le_trans (le_of_eq (by abel)) hstep, hpq, hl⟩
        rw [hn] at this
        refine this.mono fun _ _ h => ⟨h.1, ?_⟩
        have hq := congrArg List.length hn
        rw [List.length_map, List.length_map] at hq
        rw [List.length_cons, ← hq, ← h.2]
        omega

/-- all buckets and the last one, multiplied together -/
theorem combine {K : ι} {bs bs' : Buckets} {last last' : Factor}
    (h : PRel R K (bs, last) (bs', last')) :
    RelE (R (K + bs'.length • w)) (combineR A so (bs.map Prod.snd) last)
      (VE.combine so (bs'.map Prod.snd) last') := by
  obtain ⟨k, m, hkm, hb, hl⟩ := h
  have key : ∀ {k : ι} {bs bs' : Buckets}, BRel R k bs bs' → ∀ {a : ι} {x y : Factor}, R a x y →
      RelE (R (a + k + m + (bs'.length + 1) • w))
        ((bs.map Prod.snd ++ [last]).foldlM (fun acc b => b.mulR A so acc) x)
        ((bs'.map Prod.snd ++ [last']).foldlM (fun acc b => b.mul so acc) y) := by
    intro k bs bs' hb
    induction hb with
    | nil =>
      intro a x y hxy
      rw [List.map_nil, List.nil_append, List.nil_append, List.foldlM_cons,
        List.foldlM_cons]
      refine (S.mul hl hxy).bind fun p q hpq => ?_
      exact S.mono hpq (le_of_eq (by rw [List.length_nil, zero_add, one_nsmul]; abel))
    | @cons k1 m1 b b' bs bs' v h1 h2 ih =>
      intro a x y hxy
      rw [List.map_cons, List.map_cons, List.cons_append, List.cons_append, List.foldlM_cons,
        List.foldlM_cons]
      refine (S.mul h1 hxy).bind fun p q hpq => ?_
      refine (ih hpq).mono fun _ _ h => S.mono h (le_of_eq ?_)
      rw [List.length_cons, add_nsmul w (bs'.length + 1) 1, one_nsmul]
      abel
  cases hb with
  | nil => exact S.mono hl (le_trans le_add_self (hkm.trans le_self_add))
  | @cons k1 m1 b b' bs bs' v h1 h2 =>
    rw [List.map_cons, List.map_cons]
    refine (key h2 h1).mono fun _ _ h => S.mono h ?_
    rw [List.length_cons]
    exact add_le_add_left hkm _

theorem wrapStep {bl bl' : List Factor} (h : List.Forall₂ (fun f g => ∃ k, R k f g) bl bl') (i : Int) :
    RelE (List.Forall₂ fun f g => ∃ k, R k f g) (wrapStepR A so bl i) (VE.wrapStep so bl' i) := by
  have hget : ∀ (t : Nat) {bl bl' : List Factor}, List.Forall₂ (fun f g => ∃ k, R k f g) bl bl' →
      ∃ k, R k (bl.getD t (Factor.trivial 1)) (bl'.getD t (Factor.trivial 1)) := by
    intro t bl bl' h
    induction h generalizing t with
    | nil => exact ⟨0, S.one⟩
    | cons h _ ih =>
      cases t with
      | zero => exact h
      | succ t => exact ih t
  have hset : ∀ (t : Nat) {bl bl' : List Factor}, List.Forall₂ (fun f g => ∃ k, R k f g) bl bl' →
      ∀ {x y : Factor}, (∃ k, R k x y) →
        List.Forall₂ (fun f g => ∃ k, R k f g) (bl.set t x) (bl'.set t y) := by
    intro t bl bl' h x y hxy
    induction h generalizing t with
    | nil => exact .nil
    | cons h h' ih =>
      cases t with
      | zero => exact .cons hxy h'
      | succ t => exact .cons h (ih t)
  unfold wrapStepR VE.wrapStep
  rw [h.length_eq]
  refine RelE.bind_same fun t _ => RelE.bind_same fun s _ => ?_
  obtain ⟨k, hk⟩ := hget t h
  obtain ⟨m, hm⟩ := hget s h
  exact (S.mul hk hm).bind fun x y hxy => RelE.pure (hset t h ⟨_, hxy⟩)

theorem wrapCombine (d : Nat) {bl bl' : List Factor}
    (h : List.Forall₂ (fun f g => ∃ k, R k f g) bl bl') :
    RelE (fun f g => ∃ k, R k f g) (wrapCombineR A so d bl) (VE.wrapCombine so d bl') := by
  unfold wrapCombineR VE.wrapCombine
  rw [h.length_eq]
  refine (RelE.foldlM (R := List.Forall₂ fun f g => ∃ k, R k f g)
    (fun a b i _ hab => S.wrapStep hab i) h).bind fun a b hab => RelE.pure ?_
  clear h
  have : ∀ {a b : List Factor}, List.Forall₂ (fun f g => ∃ k, R k f g) a b → ∀ {x y : Factor},
      (∃ k, R k x y) → ∃ k, R k (a.getLastD x) (b.getLastD y) := by
    intro a b h
    induction h with
    | nil => exact fun h => h
    | cons h _ ih =>
      intro x y _
      rw [List.getLastD_cons, List.getLastD_cons]
      exact ih h
  exact this hab ⟨0, S.one⟩

theorem start (o : List Name) : BRel R 0 (o.map fun v => (v, Factor.trivial 1))
    (o.map fun v => (v, Factor.trivial 1)) := by
  induction o with
  | nil => exact .nil
  | cons v o ih =>
    have := BRel.cons v S.one ih
    rwa [add_zero] at this

theorem bucket (Q : List Name) (order : Option (List Name)) :
    RelE (fun f g => ∃ k f₀ g₀, R k f₀ g₀ ∧ f = f₀.normalizeR A ∧ g = g₀.normalize ∧
        ∀ o o', chooseOrder bn order = .ok o → moveQuery o Q = .ok o' → Q.length ≤ o'.length →
          k ≤ o'.length • (t + w + w) + ev.length • (t + w) + ((o'.take (o'.length - Q.length)).map c).sum)
      (bucketMarginalsR A so bn Q ev order) (bucketMarginals so bn Q ev order) := by
  unfold bucketMarginalsR bucketMarginals
  refine RelE.bind_same fun o ho => RelE.bind_same fun o' ho' => RelE.bind_same fun fs hfs => ?_
  simp only
  rw [mapM_eq_ok] at hfs
  have hlen : fs.length = o'.length := hfs.length_eq.symm
  have hR : ∀ f ∈ fs, R t f f := by
    clear hlen ho'
    induction hfs with
    | nil => exact fun f hf => nomatch hf
    | cons hv _ ih =>
      intro f hf
      rcases List.mem_cons.1 hf with rfl | hf
      · obtain ⟨n, h1, h2⟩ := bind_eq_ok.1 hv
        exact S.table h1 h2
      · exact ih f hf
  have h1 := RelE.foldlM_count (l := fs) (R := BLe R o') (f := placeFactorR A so)
    (g := VE.placeFactor so) (fun _ => t + w) (fun k a b f hf h => S.placeFactor (hR f hf) h)
    (k := 0) ⟨0, le_refl _, S.start o', by rw [List.map_map]; exact List.map_id o'⟩
  have hs : ∀ {γ : Type} (l : List γ), (l.map fun _ => t + w).sum = l.length • (t + w) := by simp
  rw [hs, hlen, zero_add] at h1
  refine h1.bind fun bs bs' hbs => ?_
  have h2 := RelE.foldlM_count (l := ev) (R := BLe R o') (f := placeEvidenceR A so bn)
    (g := VE.placeEvidence so bn) (fun _ => t + w) (fun k a b e he h => S.placeEvidence h he) hbs
  rw [hs] at h2
  refine h2.bind fun bs bs' hbs => ?_
  obtain ⟨k, hk, hbs, hN⟩ := hbs
  by_cases hlt : o'.length < Q.length
  · rw [if_pos hlt, if_pos hlt]
    have hbl : List.Forall₂ (fun f g => ∃ k, R k f g) (bs.map Prod.snd ++ [Factor.trivial 1])
        (bs'.map Prod.snd ++ [Factor.trivial 1]) := by
      clear hN hk
      induction hbs with
      | nil => exact .cons ⟨0, S.one⟩ .nil
      | cons v h _ ih => exact .cons ⟨_, h⟩ ih
    refine (S.wrapCombine _ hbl).bind fun f g ⟨k, hk⟩ => RelE.pure ⟨k, f, g, hk, rfl, rfl, ?_⟩
    intro o₁ o₂ h1 h2 h3
    rw [ho] at h1
    cases h1
    rw [ho'] at h2
    cases h2
    omega
  · rw [if_neg hlt, if_neg hlt]
    have h3 := S.process (o'.length - Q.length) (K := o'.length • (t + w) + ev.length • (t + w)) (bs := bs) (bs' := bs')
      (last := Factor.trivial 1) (last' := Factor.trivial 1) ⟨k, 0, by rw [add_zero]; exact hk, hbs, S.one⟩
    refine h3.bind fun p q hpq => ?_
    obtain ⟨hpq, hl⟩ := hpq
    refine (S.combine hpq).bind fun f g hfg => RelE.pure ⟨_, f, g, hfg, rfl, rfl, ?_⟩
    intro o₁ o₂ h1 h2 h3
    rw [ho] at h1
    cases h1
    rw [ho'] at h2
    cases h2
    have hbl : bs'.length = o'.length := by rw [← hN, List.length_map]
    have hsum : ∀ l : List Name, (l.map fun v => c v + w).sum = (l.map c).sum + l.length • w := by
      intro l
      induction l with
      | nil => simp
      | cons v l ih => simp only [List.map_cons, List.sum_cons, List.length_cons, ih, add_nsmul, one_nsmul]; abel
    rw [hN, hsum, List.length_take, Nat.min_eq_left (by omega)]
    have hn : o'.length • w = (o'.length - Q.length) • w + q.1.length • w := by
      rw [← add_nsmul]
      congr 1
      omega
    rw [nsmul_add (t + w) w, hn]
    exact le_of_eq (by abel)

end Sim
end Primo
