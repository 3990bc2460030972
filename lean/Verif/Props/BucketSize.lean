import Verif.Lemmas.BucketSize
import Verif.Lemmas.RoundedBound
import Verif.Props.Exact
import Verif.Examples.Tree

/-!
# C88: how large the tables of `bucket_marginals` get

`Verif.Props.WideOrder` has the networks for which the default order is a bad one.
-/

namespace Primo
open VE Factor

theorem around_mem {bn : BN} {E : List Name} {v w : Name} (hv : v ∈ bn.names) (h : bn.Around E v w) :
    w ∈ bn.names := by
  rcases h with rfl | h
  · exact hv
  · exact h.2.1

theorem over_length {bn : BN} {b : Factor} (h : b.WF bn.card) :
    b.potentials.data.length = bn.tableSize b.variableOrder := by
  rw [NDArray.size_eq, h.shape, BN.tableSize, List.prod_toFinset _ h.nodup]

theorem tableSize_congr {bn : BN} {l l' : List Name} (h : ∀ v, v ∈ l ↔ v ∈ l') : bn.tableSize l = bn.tableSize l' := by
  unfold BN.tableSize
  congr 1
  ext v
  simp [h]

theorem tableSize_mono {bn : BN} (hlab : ∀ v ∈ bn.names, bn.lab v ≠ []) {l l' : List Name} (h : ∀ v ∈ l, v ∈ l')
    (hn : ∀ v ∈ l', v ∈ bn.names) : bn.tableSize l ≤ bn.tableSize l' := by
  unfold BN.tableSize
  refine Finset.prod_le_prod_of_subset_of_one_le' (fun v hv => ?_) fun v hv _ => ?_
  · simp only [List.mem_toFinset] at hv ⊢
    exact h v hv
  · exact List.length_pos_iff.2 (hlab v (hn v (List.mem_toFinset.1 hv)))

open Classical in
theorem aroundSize_eq {bn : BN} {E : List Name} {v : Name} (hv : v ∈ bn.names) {l : List Name}
    (h : ∀ w, w ∈ l ↔ bn.Around E v w) : bn.tableSize l = bn.aroundSize E v := by
  unfold BN.aroundSize
  refine tableSize_congr fun w => ?_
  rw [h, List.mem_filter, decide_eq_true_eq]
  exact ⟨fun h => ⟨around_mem hv h, h⟩, fun h => h.2⟩

/-- **C88** `bucket_marginals` is the loop followed by the multiplication of the remaining buckets. -/
theorem C88_loop (so : SetOrder) (bn : BN) (Q : List Name) (ev : Dict Evidence) (order0 : Option (List Name))
    {order order' : List Name} (h : chooseOrder bn order0 = .ok order) (h' : moveQuery order Q = .ok order')
    (hQ : Q.length ≤ order'.length) :
    bucketMarginals so bn Q ev order0 = (do
      let s ← bucketsBefore so bn Q ev order0 (order'.length - Q.length)
      let r ← combine so (s.1.map Prod.snd) s.2
      return r.normalize) := by
  unfold bucketMarginals bucketsBefore
  rw [h, ok_bind, h', ok_bind, ok_bind, h', ok_bind]
  simp only [bind_assoc, if_neg (Nat.not_lt.2 hQ)]

/-- the state at the turn of `v` -/
theorem turn_spec (so : SetOrder) {bn : BN} (hc : bn.Consistent) {ev : Dict Evidence}
    (he : LegalEvidence bn ev) {Q : List Name} (hQn : Q.Nodup) (hQ : ∀ v ∈ Q, v ∈ bn.names)
    (order0 : Option (List Name)) {order : List Name} (hord : chooseOrder bn order0 = .ok order)
    (ho : order.Perm bn.names) {E rest : List Name} {v : Name}
    (hs : order.filter (fun v => decide (v ∉ Q)) = E ++ v :: rest) :
    ∃ b bs last, bucketsBefore so bn Q ev order0 E.length = .ok ((v, b) :: bs, last) ∧
      bnames bs = rest ++ Q ∧ b.Over bn.lab ∧ ∀ w, w ∈ b.variableOrder ↔ bn.Around E v w := by
  have hlen : E.length ≤ bn.length := by
    have h1 : (order.filter (fun v => decide (v ∉ Q))).length ≤ order.length := List.length_filter_le _ _
    rw [hs, ho.length_eq, BN.names, List.length_map, List.length_append] at h1
    omega
  obtain ⟨bs, last, h1, h2, h3, h4, h5, h6, h7, h8⟩ := bucketsBefore_spec so hc he hQn hQ order0 hord ho
    E.length hlen
  rw [hs, List.append_assoc, List.drop_left] at h2
  rw [hs, List.append_assoc, List.take_left] at h8
  cases bs with
  | nil => simp [bnames] at h2
  | cons p bs =>
    obtain ⟨v', b⟩ := p
    have h2' : v' :: bnames bs = v :: (rest ++ Q) := h2
    injection h2' with e1 e2
    subst e1
    refine ⟨b, bs, last, h1, e2, h3 (v', b) (by simp), fun w => ?_⟩
    have hall : ∀ w, w ∈ E ∨ w ∈ bnames ((v', b) :: bs) ↔ w ∈ bn.names := by
      intro w
      rw [h2, ← ho.mem_iff]
      have : w ∈ order.filter (fun v => decide (v ∉ Q)) ↔ w ∈ E ++ v' :: rest := by rw [hs]
      rw [List.mem_filter, decide_eq_true_eq, List.mem_append] at this
      rw [List.cons_append, List.mem_cons, List.mem_append]
      have hw : w ∈ Q → w ∈ order := fun h => ho.mem_iff.2 (hQ w h)
      simp only [List.mem_cons] at this
      tauto
    have hnd : (E ++ (v' :: rest) ++ Q).Nodup := by
      rw [← hs, List.nodup_append]
      refine ⟨(ho.nodup_iff.2 hc.nodup).filter _, hQn, fun a ha b hb e => ?_⟩
      simp only [List.mem_filter, decide_eq_true_eq] at ha
      exact ha.2 (e ▸ hb)
    have hE : ∀ w ∈ bnames ((v', b) :: bs), w ∉ E := by
      intro w hw hwE
      rw [h2] at hw
      rw [List.append_assoc, List.nodup_append] at hnd
      exact hnd.2.2 w hwE w hw rfl
    have hvbs : v' ∉ bnames bs := by
      rw [e2]
      rw [List.append_assoc, List.nodup_append] at hnd
      have := hnd.2.1
      rw [List.cons_append, List.nodup_cons] at this
      exact this.1
    constructor
    · intro hw
      have hwn := h4.scope (v', b) (by simp) w hw
      rcases h8.sound _ (List.mem_cons_self ..) w hw with h | h
      · exact .inl h
      · by_cases hwv : w = v'
        · exact .inl hwv
        · exact .inr ⟨hwv, (hall w).1 (.inr hwn), hE w hwn, h⟩
    · rintro (rfl | ⟨g1, g2, g3, g4⟩)
      · rcases h5.1 with h | h
        · exact h.elim
        · exact h
      · have hwn : w ∈ bnames ((v', b) :: bs) := ((hall w).2 g2).resolve_left g3
        obtain ⟨p, hp, i1, i2⟩ := h8.full v' (by simp) w hwn g4
        rw [h4.head hvbs hp i1] at i2
        exact i2

/-- **C88** The table that is summed out when it is the turn of `v` is over `v` and the variables around it
in the moral graph in which the earlier variables have been eliminated with fill-in. -/
theorem C88_bucket_table (so : SetOrder) (bn : BN) (hc : bn.Consistent) (ev : Dict Evidence)
    (he : LegalEvidence bn ev) (Q : List Name) (hQn : Q.Nodup) (hQ : ∀ v ∈ Q, v ∈ bn.names)
    (order0 : Option (List Name)) {order : List Name} (hord : chooseOrder bn order0 = .ok order)
    (ho : order.Perm bn.names) {E rest : List Name} {v : Name}
    (hs : order.filter (fun v => decide (v ∉ Q)) = E ++ v :: rest) :
    ∃ b bs last, bucketsBefore so bn Q ev order0 E.length = .ok ((v, b) :: bs, last) ∧ b.WF bn.card ∧
      (∀ w, w ∈ b.variableOrder ↔ bn.Around E v w) ∧ b.potentials.data.length = bn.aroundSize E v := by
  obtain ⟨b, bs, last, h1, -, h2, h3⟩ := turn_spec so hc he hQn hQ order0 hord ho hs
  have hv : v ∈ bn.names := by
    have : v ∈ order.filter (fun v => decide (v ∉ Q)) := by rw [hs]; simp
    exact ho.mem_iff.1 (List.mem_of_mem_filter this)
  exact ⟨b, bs, last, h1, h2.wf, h3, by rw [over_length h2.wf, aroundSize_eq hv h3]⟩

/-- **C88** No table is larger: before every iteration, the extra bucket is a number, the buckets of the
queried variables have no others, and every other bucket is no larger than it will be at its turn. -/
theorem C88_no_larger (so : SetOrder) (bn : BN) (hc : bn.Consistent) (hlab : ∀ v ∈ bn.names, bn.lab v ≠ [])
    (ev : Dict Evidence) (he : LegalEvidence bn ev) (Q : List Name) (hQn : Q.Nodup)
    (hQ : ∀ v ∈ Q, v ∈ bn.names) (order0 : Option (List Name)) {order : List Name}
    (hord : chooseOrder bn order0 = .ok order) (ho : order.Perm bn.names) (i : Nat)
    (hi : i ≤ bn.length - Q.length) :
    ∃ bs last, bucketsBefore so bn Q ev order0 i = .ok (bs, last) ∧
      bs.map Prod.fst = (order.filter (fun v => decide (v ∉ Q)) ++ Q).drop i ∧ last.WF bn.card ∧
      last.potentials.data.length = 1 ∧ ∀ u c, (u, c) ∈ bs → c.WF bn.card ∧
        (u ∈ Q → (∀ w ∈ c.variableOrder, w ∈ Q) ∧ c.potentials.data.length ≤ bn.tableSize Q) ∧
        ∀ E rest, order.filter (fun v => decide (v ∉ Q)) = E ++ u :: rest →
          (∀ w ∈ c.variableOrder, bn.Around E u w) ∧ c.potentials.data.length ≤ bn.aroundSize E u := by
  obtain ⟨bs, last, h1, h2, h3, h4, h5, h6, h7, h8⟩ := bucketsBefore_spec so hc he hQn hQ order0 hord ho
    i (by omega)
  refine ⟨bs, last, h1, h2, h6.wf, by rw [over_length h6.wf, h7]; simp [BN.tableSize], fun u c huc => ?_⟩
  have hwf := (h3 _ huc).wf
  have hnd : (order.filter (fun v => decide (v ∉ Q)) ++ Q).Nodup := by
    rw [List.nodup_append]
    refine ⟨(ho.nodup_iff.2 hc.nodup).filter _, hQn, fun a ha b hb e => ?_⟩
    simp only [List.mem_filter, decide_eq_true_eq] at ha
    exact ha.2 (e ▸ hb)
  -- a bucket mentions its own variable and later ones
  have hlater : ∀ {bs : Buckets}, Ordered bs → ∀ {u c}, (u, c) ∈ bs → ∀ A B, bnames bs = A ++ u :: B →
      (bnames bs).Nodup → ∀ w ∈ c.variableOrder, w = u ∨ w ∈ B := by
    intro bs
    induction bs with
    | nil => simp
    | cons p bs ih =>
      obtain ⟨x, d⟩ := p
      intro ho u c huc A B hAB hn w hw
      have hn' := List.nodup_cons.1 (by simpa [bnames] using hn : (x :: bnames bs).Nodup)
      have hAB' : x :: bnames bs = A ++ u :: B := by simpa [bnames] using hAB
      rcases List.mem_cons.1 huc with h | h
      · injection h with e1 e2
        subst e1 e2
        have hA : A = [] := by
          cases A with
          | nil => rfl
          | cons a A =>
            rw [List.cons_append] at hAB'
            injection hAB' with e1 e2
            exact absurd (by rw [e2]; simp) hn'.1
        subst hA
        rw [List.nil_append] at hAB'
        injection hAB' with _ e2
        exact e2 ▸ ho.1 w hw
      · have hux : u ∈ bnames bs := List.mem_map_of_mem (f := Prod.fst) h
        cases A with
        | nil =>
          rw [List.nil_append] at hAB'
          injection hAB' with e1 e2
          exact absurd (e1 ▸ hux) hn'.1
        | cons a A =>
          rw [List.cons_append] at hAB'
          injection hAB' with e1 e2
          exact ih ho.2 h A B e2 hn'.2 w hw
  have hndrop := hnd.sublist (List.drop_sublist i _)
  rw [← h2] at hndrop
  have hfl : (order.filter (fun v => decide (v ∉ Q))).length + Q.length = bn.length := by
    rw [← List.length_append]
    have : (order.filter (fun v => decide (v ∉ Q)) ++ Q).Perm bn.names := by
      refine (List.perm_ext_iff_of_nodup hnd hc.nodup).2 fun v => ?_
      rw [List.mem_append, List.mem_filter, decide_eq_true_eq, ← ho.mem_iff]
      have := hQ v
      rw [← ho.mem_iff] at this
      tauto
    rw [this.length_eq, BN.names, List.length_map]
  refine ⟨hwf, fun hu => ?_, fun E rest hs => ?_⟩
  · obtain ⟨A, B, hAB⟩ := List.append_of_mem hu
    have hw : ∀ w ∈ c.variableOrder, w ∈ Q := by
      intro w hw
      have := hlater h4 huc ((order.filter (fun v => decide (v ∉ Q))).drop i ++ A) B (by
        rw [h2, List.drop_append_of_le_length (by omega), List.append_assoc, ← hAB]) hndrop w hw
      rw [hAB]
      rcases this with rfl | h
      · simp
      · simp [h]
    exact ⟨hw, by rw [over_length hwf]; exact tableSize_mono hlab hw hQ⟩
  · have hun : u ∈ bn.names := by
      have : u ∈ order.filter (fun v => decide (v ∉ Q)) := by rw [hs]; simp
      exact ho.mem_iff.1 (List.mem_of_mem_filter this)
    have hubs : u ∈ bnames bs := List.mem_map_of_mem (f := Prod.fst) huc
    -- `u` has not been processed
    have hiE : i ≤ E.length := by
      by_contra hlt
      rw [h2, hs, List.append_assoc] at hubs
      rw [hs, List.append_assoc] at hnd
      have h9 : ((E ++ [u]) ++ (rest ++ Q)).Nodup := by simpa using hnd
      have h10 : u ∈ ((E ++ [u]) ++ (rest ++ Q)).drop i := by simpa using hubs
      rw [List.drop_append, List.drop_of_length_le (by simp; omega), List.nil_append] at h10
      rw [List.nodup_append] at h9
      exact h9.2.2 u (by simp) u (List.mem_of_mem_drop h10) rfl
    have hw : ∀ w ∈ c.variableOrder, bn.Around E u w := by
      intro w hw
      have h9 := hlater h4 huc (E.drop i) (rest ++ Q) (by
        rw [h2, hs, List.append_assoc, List.drop_append_of_le_length hiE]; rfl) hndrop w hw
      by_cases hwu : w = u
      · exact .inl hwu
      · have hwr := h9.resolve_left hwu
        rw [hs, List.append_assoc] at hnd
        refine .inr ⟨hwu, ?_, fun hE => ?_, ?_⟩
        · rw [← ho.mem_iff]
          rcases List.mem_append.1 hwr with h | h
          · exact List.mem_of_mem_filter (p := fun v => decide (v ∉ Q)) (by rw [hs]; simp [h])
          · exact ho.mem_iff.2 (hQ w h)
        · rw [List.nodup_append] at hnd
          exact hnd.2.2 w hE w (by simp only [List.cons_append, List.mem_cons]; exact .inr hwr) rfl
        · have h10 := (h8.sound _ huc w hw).resolve_left hwu
          rw [hs, List.append_assoc, List.take_append_of_le_length hiE] at h10
          exact h10.mono fun x hx => List.mem_of_mem_take hx
    refine ⟨hw, ?_⟩
    classical
    rw [over_length hwf, BN.aroundSize]
    refine tableSize_mono hlab (fun w h => ?_) fun w h => List.mem_of_mem_filter h
    rw [List.mem_filter, decide_eq_true_eq]
    exact ⟨around_mem hun (hw w h), hw w h⟩

/-- **C88** A query for `Q` puts at most the variables of `Q` into a table in addition to those it has if all
variables are summed out in the same order. -/
theorem C88_query (so so' : SetOrder) (bn : BN) (hc : bn.Consistent) (ev ev' : Dict Evidence)
    (he : LegalEvidence bn ev) (he' : LegalEvidence bn ev') (Q : List Name) (hQn : Q.Nodup)
    (hQ : ∀ v ∈ Q, v ∈ bn.names) (order0 : Option (List Name)) {order : List Name}
    (hord : chooseOrder bn order0 = .ok order) (ho : order.Perm bn.names) {o1 o2 : List Name} {v : Name}
    (hs : order = o1 ++ v :: o2) (hv : v ∉ Q) :
    ∃ b bs last b' bs' last',
      bucketsBefore so bn Q ev order0 (o1.filter fun v => decide (v ∉ Q)).length = .ok ((v, b) :: bs, last) ∧
      bucketsBefore so' bn [] ev' order0 o1.length = .ok ((v, b') :: bs', last') ∧
      ∀ w ∈ b.variableOrder, w ∈ b'.variableOrder ∨ w ∈ Q := by
  obtain ⟨b, bs, last, h1, -, -, h2⟩ := turn_spec so hc he hQn hQ order0 hord ho
    (E := o1.filter fun v => decide (v ∉ Q)) (v := v) (rest := o2.filter fun v => decide (v ∉ Q))
    (by rw [hs, List.filter_append, List.filter_cons_of_pos (by simpa using hv)])
  obtain ⟨b', bs', last', h3, -, -, h4⟩ := turn_spec so' hc he' (Q := []) (by simp) (by simp) order0 hord ho
    (E := o1) (v := v) (rest := o2) (by rw [hs]; simp)
  refine ⟨b, bs, last, b', bs', last', h1, h3, fun w hw => ?_⟩
  rcases (h2 w).1 hw with h | ⟨g1, g2, g3, g4⟩
  · exact .inl ((h4 w).2 (.inl h))
  · by_cases hwQ : w ∈ Q
    · exact .inr hwQ
    · refine .inl ((h4 w).2 (.inr ⟨g1, g2, fun h => g3 ?_, g4.mono fun x hx => List.mem_of_mem_filter hx⟩))
      rw [List.mem_filter, decide_eq_true_eq]
      exact ⟨h, hwQ⟩

/-- **C88** If the parents of each node are linked with each other, the tables are as small as
`get_min_degree_order` thinks: when all variables are summed out in the default order, each table has one
variable more than the degree of the variable chosen, which is the smallest one there is. -/
theorem C88_married_partial (so : SetOrder) (bn : BN) (hc : bn.Consistent) (hl : bn.Linked) (hm : bn.Married)
    (ev : Dict Evidence) (he : LegalEvidence bn ev) :
    ∃ o, Orderer.minDegreeOrder bn = .ok o ∧ o.Perm bn.names ∧ ∀ E v rest, o = E ++ v :: rest →
      ∃ b bs last, bucketsBefore so bn [] ev none E.length = .ok ((v, b) :: bs, last) ∧
        b.variableOrder.length = elimDegree bn.names bn.Skel E v + 1 ∧
        ∀ u ∈ bn.names, u ∉ E → elimDegree bn.names bn.Skel E v ≤ elimDegree bn.names bn.Skel E u := by
  obtain ⟨o, o1, o2, o3⟩ := Orderer.minDegreeOrder_spec hc hl
  refine ⟨o, o1, o2, fun E v rest hs => ?_⟩
  obtain ⟨b, bs, last, h1, -, h2, h3⟩ := turn_spec so hc he (Q := []) (by simp) (by simp) none
    (by exact o1) o2 (E := E) (v := v) (rest := rest) (by rw [hs]; simp)
  refine ⟨b, bs, last, h1, ?_, fun u hu hE => ?_⟩
  · have hv : v ∈ bn.names := o2.mem_iff.1 (by rw [hs]; simp)
    have hvia : ∀ w, w ≠ v → (Via bn.Moral E v w ↔ Via bn.Skel E v w) := by
      have himp : ∀ {u w}, Via bn.Moral E u w → Via bn.Skel E u w := by
        intro u w h
        induction h with
        | base h => exact .base (hm _ _ h)
        | step h1 h2 _ ih => exact .step (hm _ _ h1) h2 ih
      have hskel : ∀ {u w}, u ≠ w → bn.Skel u w → bn.Moral u w := by
        rintro u w hne (⟨n, hn, e, h⟩ | ⟨n, hn, e, h⟩)
        · exact ⟨hne, n, hn, by simp [NodeV.family, h], by simp [NodeV.family, e]⟩
        · exact ⟨hne, n, hn, by simp [NodeV.family, e], by simp [NodeV.family, h]⟩
      have hback : ∀ {u w}, Via bn.Skel E u w → u = w ∨ Via bn.Moral E u w := by
        intro u w h
        induction h with
        | @base u w h =>
          by_cases e : u = w
          · exact .inl e
          · exact .inr (.base (hskel e h))
        | @step u x w h1 h2 _ ih =>
          by_cases e : u = x
          · exact e ▸ ih
          · rcases ih with e' | ih
            · exact .inr (.base (hskel (e' ▸ e) (e' ▸ h1)))
            · exact .inr (.step (hskel e h1) h2 ih)
      exact fun w hw => ⟨himp, fun h => (hback h).resolve_left (Ne.symm hw)⟩
    classical
    have hp : b.variableOrder.Perm (v :: bn.names.filter fun w => w ∉ E ∧ w ≠ v ∧ Via bn.Skel E v w) := by
      refine (List.perm_ext_iff_of_nodup h2.wf.nodup ?_).2 fun w => ?_
      · rw [List.nodup_cons]
        exact ⟨by simp, hc.nodup.filter _⟩
      · rw [h3, List.mem_cons, List.mem_filter, decide_eq_true_eq]
        refine or_congr Iff.rfl ?_
        constructor
        · rintro ⟨g1, g2, g3, g4⟩
          exact ⟨g2, g3, g1, (hvia w g1).1 g4⟩
        · rintro ⟨g1, g2, g3, g4⟩
          exact ⟨g3, g1, g2, (hvia w g3).2 g4⟩
    rw [hp.length_eq, List.length_cons, elimDegree]
  · rcases o3 E v rest hs u hu hE with h | h
    · exact h.le
    · exact h.1.le

/-- **C88** `naive_marginals`, in contrast, builds the table over all variables of the network, whatever is
asked. -/
theorem C88_naive (so : SetOrder) (bn : BN) (hc : bn.Consistent) (ev : Dict Evidence)
    (he : LegalEvidence bn ev) (order : List Name) (ho : order.Perm bn.names) :
    ∃ f, order.foldlM (naiveStep so bn ev) (Factor.trivial 1) = .ok f ∧ (∀ v, v ∈ f.variableOrder ↔ v ∈ bn.names) ∧
      f.potentials.data.length = bn.tableSize bn.names := by
  obtain ⟨f, h1, h2, -, h3, h4, -⟩ := naiveProduct_spec so hc he order (fun v hv => ho.mem_iff.1 hv)
    (trivial_over (lab := bn.lab) 1) (by simp)
  have hm : ∀ v, v ∈ f.variableOrder ↔ v ∈ bn.names := fun v => ⟨h4 v, fun h => h3 v (ho.mem_iff.2 h)⟩
  exact ⟨f, h1, hm, by rw [over_length h2.wf, tableSize_congr hm]⟩

/-! ## Concrete cases -/

example := C88_loop .insertion Ex.bn ["a"] Ex.ev (some ["a", "b", "c", "d"]) (order := ["a", "b", "c", "d"])
  (order' := ["b", "c", "d", "a"]) rfl (by decide) (by decide)

example := C88_bucket_table .insertion Ex.bn Ex.bn_consistent Ex.ev Ex.ev_legal ["a"] (by decide) (by decide)
  (some ["a", "b", "c", "d"]) rfl (by decide) (E := ["b"]) (v := "c") (rest := ["d"]) (by decide)

/-- `b` and the variables around it: itself, its child, and the other parent of its child -/
example : (bucketsBefore .insertion Ex.bn ["a"] Ex.ev (some ["a", "b", "c", "d"]) 0).map (fun s =>
    (s.1.head?).map fun q => (q.1, q.2.variableOrder, q.2.potentials.data.length)) =
    .ok (some ("b", ["b", "c", "a"], 12)) := by
  decide +kernel

example := C88_no_larger .reversed Ex.bn Ex.bn_consistent (by decide) Ex.ev Ex.ev_legal ["a"] (by decide)
  (by decide) (some ["a", "b", "c", "d"]) rfl (by decide) 2 (by decide)

example := C88_query .insertion .reversed Ex.bn Ex.bn_consistent Ex.ev [] Ex.ev_legal
  ⟨by simp, by simp, by simp, by simp⟩ ["a"] (by decide) (by decide) (some ["a", "b", "c", "d"]) rfl (by decide)
  (o1 := ["a", "b"]) (v := "c") (o2 := ["d"]) rfl (by decide)

example := C88_naive .insertion Ex.bn Ex.bn_consistent Ex.ev Ex.ev_legal ["a", "b", "c", "d"] (by decide)

/-- the parents of `c` are linked -/
def Ex.tied : BN :=
  [⟨"a", .discrete, ["t", "f"], [], [], ["b", "c"], ⟨[2], [1 / 4, 3 / 4], rfl⟩, false⟩,
   ⟨"b", .discrete, ["t", "f"], ["a"], [("a", ["t", "f"])], ["c"],
     ⟨[2, 2], [1 / 2, 1 / 3, 1 / 2, 2 / 3], rfl⟩, false⟩,
   ⟨"c", .discrete, ["t", "f"], ["a", "b"], [("a", ["t", "f"]), ("b", ["t", "f"])], [],
     ⟨[2, 2, 2], [1, 1 / 2, 1 / 3, 1 / 4, 0, 1 / 2, 2 / 3, 3 / 4], rfl⟩, false⟩]

theorem Ex.tied_married : Ex.tied.Married := by
  have h : ∀ n ∈ Ex.tied, ∀ u ∈ n.family, ∀ v ∈ n.family, u ≠ v →
      (∃ m ∈ Ex.tied, v = m.name ∧ u ∈ m.parentOrder) ∨ ∃ m ∈ Ex.tied, u = m.name ∧ v ∈ m.parentOrder := by
    decide
  rintro u v ⟨hne, n, hn, hu, hv⟩
  rcases h n hn u hu v hv hne with ⟨m, hm, e, h⟩ | ⟨m, hm, e, h⟩
  · exact .inl ⟨m, hm, e.symm, h⟩
  · exact .inr ⟨m, hm, e.symm, h⟩

example := C88_married_partial .insertion Ex.tied (by constructor <;> decide) (Ex.linked_of_check (by decide))
  Ex.tied_married [("c", .hard "t")] ⟨by decide, by decide, by
    rintro v x h
    obtain ⟨rfl, rfl⟩ : v = "c" ∧ x = "t" := by simpa using h
    decide, by simp⟩

end Primo
