import Verif.Lemmas.Refuse
import Verif.Props.Exact
import Verif.Spec.Requests

/-! # Reused orders, illegal and repeated requests: C61, C62 -/

namespace Primo
open VE

/-! ## C61 -/

/-- **C61** Whatever the call, also if it raises, the caller's list contains the same names afterwards,
each as often as before. -/
theorem C61_same_names (so : SetOrder) (bn : BN) (Q : List Name) (ev : Dict Evidence)
    (order : List Name) : (bucketMarginalsIn so bn Q ev order).1.Perm order := by
  unfold bucketMarginalsIn
  split
  · rename_i h; rw [h]
  · exact moveQueryIn_perm Q order

/-- **C61** After a call with known query variables the list ends with them. -/
theorem C61_order_after (so : SetOrder) (bn : BN) {Q : List Name} (ev : Dict Evidence)
    {order : List Name} (ho : order.Nodup) (hQ : ∀ v ∈ Q, v ∈ order) :
    (bucketMarginalsIn so bn Q ev order).1 = order.filter (fun v => decide (v ∉ Q)) ++ Q.dedup := by
  have h := moveQueryIn_of_ok Q (moveQuery_dedup ho hQ)
  unfold bucketMarginalsIn
  by_cases h0 : order = []
  · subst h0
    have : Q = [] := List.eq_nil_iff_forall_not_mem.2 fun v hv => List.not_mem_nil (hQ v hv)
    subst this
    rfl
  · rw [if_neg h0]
    exact h

/-- **C61** The list is left as it was exactly if it already ends with the query variables. -/
theorem C61_unchanged_iff (so : SetOrder) (bn : BN) {Q : List Name} (ev : Dict Evidence)
    {order : List Name} (ho : order.Nodup) (hQ : ∀ v ∈ Q, v ∈ order) :
    (bucketMarginalsIn so bn Q ev order).1 = order ↔ Q.dedup <:+ order := by
  rw [C61_order_after so bn ev ho hQ]
  constructor
  · intro h
    rw [← h]
    exact List.suffix_append _ _
  · rintro ⟨l, hl⟩
    rw [← hl] at ho
    have hdis := (List.nodup_append.1 ho).2.2
    rw [← hl, List.filter_append]
    have h1 : l.filter (fun v => decide (v ∉ Q)) = l := by
      rw [List.filter_eq_self]
      intro v hv
      exact decide_eq_true fun hvQ => hdis v hv v (List.mem_dedup.2 hvQ) rfl
    have h2 : Q.dedup.filter (fun v => decide (v ∉ Q)) = [] := by
      rw [List.filter_eq_nil_iff]
      intro v hv
      simpa using List.mem_dedup.1 hv
    rw [h1, h2, List.append_nil]

/-- **C61** (partial: the answers; the list itself does change, see `C61_order_refuted`)  However often
the same list is used as elimination order, with failing calls in between, every legal call returns the
posterior. -/
theorem C61_reuse_partial {bn : BN} (hc : bn.Consistent) (qs : List Request) : ∀ {order : List Name},
    order.Perm bn.names → ∀ (i : Nat) (q : Request), qs[i]? = some q → q.vars.Nodup →
      (∀ v ∈ q.vars, v ∈ bn.names) → LegalEvidence bn q.evidence →
      ∃ r, (answers bn order qs)[i]? = some (.ok r) ∧ (∀ v, v ∈ r.variableOrder ↔ v ∈ q.vars) ∧
        ∀ σ, Legal bn.card q.vars σ → r.eval σ = posterior bn q.evidence q.vars σ := by
  induction qs with
  | nil => intro order _ i q h; cases h
  | cons q' qs ih =>
    intro order ho i q hi hn hQ he
    cases i with
    | zero =>
      obtain rfl : q' = q := Option.some.inj hi
      obtain ⟨r, h1, -, -, h4, h5⟩ := C14_bucket_exact q'.sets bn hc q'.evidence he q'.vars hn hQ order ho
      exact ⟨r, congrArg some h1, h4, h5⟩
    | succ i =>
      exact ih ((C61_same_names q'.sets bn q'.vars q'.evidence order).trans ho) i q hi hn hQ he

/-- **C61** refuted: `bucket_marginals` changes the list it is given. -/
theorem C61_order_refuted : ¬ ∀ (so : SetOrder) (bn : BN) (Q : List Name) (ev : Dict Evidence)
    (order : List Name), bn.Consistent → order.Perm bn.names → (∀ v ∈ Q, v ∈ bn.names) →
    (bucketMarginalsIn so bn Q ev order).1 = order := by
  intro h
  have := h .insertion Ex.bn ["a"] Ex.ev ["a", "b", "c", "d"] Ex.bn_consistent (by decide) (by decide)
  revert this
  decide

/-- a session with a failing call in the middle -/
private def requests : List Request :=
  [⟨.insertion, ["a"], Ex.ev⟩, ⟨.insertion, ["b", "e"], []⟩, ⟨.reversed, ["c", "a"], Ex.ev⟩]

example := C61_reuse_partial Ex.bn_consistent requests (order := ["a", "b", "c", "d"]) (by decide) 2
  ⟨.reversed, ["c", "a"], Ex.ev⟩ rfl (by decide) (by decide) Ex.ev_legal
example : (answers Ex.bn ["a", "b", "c", "d"] requests)[1]? = some (.error .valueError) := by
  decide +kernel
-- the failing call has moved "b" before it raised
example : (bucketMarginalsIn .insertion Ex.bn ["b", "e"] [] ["b", "c", "d", "a"]).1 =
    ["c", "d", "a", "b"] := by decide
example : (["b", "a", "b"] : List Name).dedup = ["a", "b"] := by decide

/-! ## C62 -/

/-- **C62** (partial: repeated variables and `naive_marginals` see below)  `bucket_marginals` raises
`ValueError` if the query or the evidence is illegal. -/
theorem C62_bucket_refuses_partial (so : SetOrder) {bn : BN} (hc : bn.Consistent)
    {ev : Dict Evidence} (hk : ev.keys.Nodup) {Q : List Name} {order : List Name}
    (ho : order.Perm bn.names) (h : ¬ ((∀ v ∈ Q, v ∈ bn.names) ∧ LegalEvidence bn ev)) :
    bucketMarginals so bn Q ev (some order) = .error .valueError := by
  have hord : chooseOrder bn (some order) = .ok order := by
    cases order with
    | cons v vs => rfl
    | nil =>
      have : bn = [] := by
        have := List.nil_perm.1 ho
        simpa [BN.names] using this
      subst this; rfl
  refine bucket_refuses so hc (some order) hord ho fun h' => h ⟨h'.1, ?_⟩
  exact legalEvidence_iff.2 ⟨hk, h'.2⟩

/-- ... also with the default order. -/
theorem C62_bucket_refuses_default_partial (so : SetOrder) {bn : BN} (hc : bn.Consistent)
    (hl : bn.Linked) {ev : Dict Evidence} (hk : ev.keys.Nodup) {Q : List Name}
    (h : ¬ ((∀ v ∈ Q, v ∈ bn.names) ∧ LegalEvidence bn ev)) :
    bucketMarginals so bn Q ev none = .error .valueError := by
  obtain ⟨o, o1, o2, _⟩ := Orderer.minDegreeOrder_spec hc hl
  refine bucket_refuses so hc none o1 o2 fun h' => h ⟨h'.1, ?_⟩
  exact legalEvidence_iff.2 ⟨hk, h'.2⟩

/-- **C62** (partial: illegal outcomes and array lengths; unknown names are ignored, see
`C62_naive_ignores`)  `naive_marginals` raises `ValueError` if the evidence for the variables of the
network is illegal. -/
theorem C62_naive_refuses_partial (so : SetOrder) {bn : BN} (hc : bn.Consistent)
    {ev : Dict Evidence} (hk : ev.keys.Nodup) (Q : List Name)
    (h : ¬ LegalEvidence bn (ev.filter fun p => decide (p.1 ∈ bn.names))) :
    naiveMarginals so bn Q ev = .error .valueError := by
  rw [legalEvidence_iff] at h
  have hk' : Dict.keys (ev.filter fun p => decide (p.1 ∈ bn.names)) |>.Nodup :=
    (List.filter_sublist.map Prod.fst).nodup hk
  have : ¬ ∀ p ∈ ev.filter (fun p => decide (p.1 ∈ bn.names)), LegalPiece bn p := fun h' => h ⟨hk', h'⟩
  push Not at this
  obtain ⟨p, hp, hbad⟩ := this
  obtain ⟨h1, h2⟩ := List.mem_filter.1 hp
  exact naive_refuses so hc hk Q h1 (of_decide_eq_true h2) hbad

/-- **C62** refuted for `naive_marginals`: unknown names in the query and in the evidence are silently
ignored, in every network. -/
theorem C62_naive_ignores (so : SetOrder) (bn : BN) (Q : List Name) (ev : Dict Evidence) :
    naiveMarginals so bn Q ev =
      naiveMarginals so bn (Q.filter fun v => decide (v ∈ bn.names))
        (ev.filter fun p => decide (p.1 ∈ bn.names)) :=
  naive_ignores so bn Q ev

/-- **C62** refuted: a misspelt evidence variable does not make `naive_marginals` raise. -/
theorem C62_naive_unknown_refuted : ¬ ∀ (so : SetOrder) (bn : BN) (Q : List Name) (ev : Dict Evidence),
    bn.Consistent → ev.keys.Nodup → ¬ LegalEvidence bn ev →
    ∃ e, naiveMarginals so bn Q ev = .error e := by
  intro h
  obtain ⟨e, he⟩ := h .insertion Ex.bn ["a"] [("e", .hard "t")] Ex.bn_consistent (by decide) fun hl => by
    have := hl.mem ("e", .hard "t") (by simp)
    revert this
    decide
  have : (naiveMarginals .insertion Ex.bn ["a"] [("e", .hard "t")]).map (fun _ => ()) = .ok () := by
    decide +kernel
  rw [he] at this
  cases this

/-- **C62** `FactorTree.set_evidence` raises if the evidence is illegal: a plain `Exception` or a
`ValueError`, depending on whether the first illegal piece is about an unknown variable. -/
theorem C62_tree_refuses (so : SetOrder) (limit : Nat) {bn : BN} (hc : bn.Consistent) {t : JTree}
    (hn : t.nodes.keys.Nodup) {ev : Dict Evidence} (hk : ev.keys.Nodup)
    (h : ¬ LegalEvidence bn ev) :
    (t.setEvidence so limit bn ev false).2 = some .valueError ∨
      ((t.setEvidence so limit bn ev false).2 = some .exception ∧ ∃ v ∈ ev.keys, v ∉ bn.names) := by
  rw [legalEvidence_iff] at h
  obtain ⟨pre, p, post, rfl, h1, h2⟩ := exists_first_illegal fun h' => h ⟨hk, h'⟩
  have hpre : Dict.keys pre |>.Nodup := by
    rw [Dict.keys_append] at hk
    exact (List.nodup_append.1 hk).1
  rw [JTree.setEvidence_refuses so limit hc hn hpre h1 h2]
  by_cases hm : p.1 ∈ bn.names
  · rw [if_pos hm]; exact Or.inl rfl
  · rw [if_neg hm]; exact Or.inr ⟨rfl, p.1, by simp [Dict.keys], hm⟩

/-- **C62** Repetitions and the order of the query do not matter to `naive_marginals`. -/
theorem C62_naive_repeated (so : SetOrder) (bn : BN) {Q Q' : List Name} (ev : Dict Evidence)
    (h : ∀ v, v ∈ Q ↔ v ∈ Q') : naiveMarginals so bn Q ev = naiveMarginals so bn Q' ev := by
  have : naiveElim Q = naiveElim Q' := by
    funext res v
    unfold naiveElim
    simp only [h v]
  unfold naiveMarginals
  rw [this]

/-- **C62** A query that repeats variables makes `bucket_marginals` return the posterior of more
variables than were asked for: as many of the last variables of the order as there are repetitions. -/
theorem C62_repeated (so : SetOrder) {bn : BN} (hc : bn.Consistent) {ev : Dict Evidence}
    (he : LegalEvidence bn ev) {Q : List Name} (hQ : ∀ v ∈ Q, v ∈ bn.names)
    (hl : Q.length ≤ bn.names.length) {order : List Name} (ho : order.Perm bn.names) :
    ∃ r extra, bucketMarginals so bn Q ev (some order) = .ok r ∧
      extra <:+ order.filter (fun v => decide (v ∉ Q)) ∧
      extra.length + Q.dedup.length = Q.length ∧
      (∀ v, v ∈ r.variableOrder ↔ v ∈ extra ++ Q) ∧
      ∀ σ, Legal bn.card (extra ++ Q) σ → r.eval σ = posterior bn ev (extra ++ Q) σ := by
  have hord : chooseOrder bn (some order) = .ok order := by
    cases order with
    | cons v vs => rfl
    | nil =>
      have : bn = [] := by
        have := List.nil_perm.1 ho
        simpa [BN.names] using this
      subst this; rfl
  have hnd : order.Nodup := ho.nodup_iff.2 hc.nodup
  have hlen : (order.filter (fun v => decide (v ∉ Q))).length + Q.dedup.length = bn.names.length := by
    have := moveQueryIn_perm Q order
    rw [moveQueryIn_of_ok Q (moveQuery_dedup hnd fun v hv => ho.mem_iff.2 (hQ v hv))] at this
    rw [← List.length_append]
    exact (this.trans ho).length_eq
  have hdl : Q.dedup.length ≤ Q.length := (List.dedup_sublist Q).length_le
  obtain ⟨r, h1, h2, h3, h4⟩ := bucketMarginals_repeated so hc he hQ hl (some order) hord ho rfl
  rw [List.drop_append_of_le_length (by omega)] at h3 h4
  refine ⟨r, (order.filter (fun v => decide (v ∉ Q))).drop (bn.names.length - Q.length), h1,
    List.drop_suffix _ _, ?_, fun v => ?_, fun σ hσ => ?_⟩
  · rw [List.length_drop]; omega
  · rw [h3, List.mem_append, List.mem_append, List.mem_dedup]
  · rw [h4 σ fun v hv => hσ v ?_]
    · unfold posterior
      have : (((order.filter (fun v => decide (v ∉ Q))).drop (bn.names.length - Q.length)) ++
          Q.dedup).toFinset = (((order.filter (fun v => decide (v ∉ Q))).drop
            (bn.names.length - Q.length)) ++ Q).toFinset := by
        ext v; simp
      rw [this]
    · rw [List.mem_append, List.mem_dedup] at hv
      exact List.mem_append.2 hv

/-- **C62** Consequently the scope of the answer is the query only if no variable is repeated. -/
theorem C62_scope_iff (so : SetOrder) {bn : BN} (hc : bn.Consistent) {ev : Dict Evidence}
    (he : LegalEvidence bn ev) {Q : List Name} (hQ : ∀ v ∈ Q, v ∈ bn.names)
    (hl : Q.length ≤ bn.names.length) {order : List Name} (ho : order.Perm bn.names) {r : Factor}
    (hr : bucketMarginals so bn Q ev (some order) = .ok r) :
    (∀ v, v ∈ r.variableOrder ↔ v ∈ Q) ↔ Q.Nodup := by
  obtain ⟨r', extra, h1, h2, h3, h4, -⟩ := C62_repeated so hc he hQ hl ho
  obtain rfl : r = r' := Except.ok.inj (hr.symm.trans h1)
  have hex : ∀ v ∈ extra, v ∉ Q := fun v hv => by
    have := h2.subset hv
    simpa using (List.mem_filter.1 this).2
  constructor
  · intro h
    have : extra = [] := List.eq_nil_iff_forall_not_mem.2 fun v hv =>
      hex v hv ((h v).1 ((h4 v).2 (List.mem_append_left _ hv)))
    rw [this, List.length_nil, Nat.zero_add] at h3
    exact List.dedup_eq_self.1 ((List.dedup_sublist Q).eq_of_length h3)
  · intro h v
    rw [h.dedup] at h3
    have : extra = [] := List.length_eq_zero_iff.1 (by omega)
    rw [h4, this, List.nil_append]

/-- a network with one node -/
private def single : BN := [⟨"a", .discrete, ["t", "f"], [], [], [], ⟨[2], [1 / 4, 3 / 4], rfl⟩, false⟩]

/-- **C62** refuted for repeated variables: asking a network with one node for `a, a, a` gives the cube of
its distribution, normalised. -/
theorem C62_repeated_refuted :
    (bucketMarginals .insertion single ["a"] [] none).map (fun r => r.potentials.data) =
      .ok [1 / 4, 3 / 4] ∧
    (bucketMarginals .insertion single ["a", "a", "a"] [] none).map (fun r => r.potentials.data) =
      .ok [1 / 28, 27 / 28] := by decide +kernel

private theorem bad_value : ¬ LegalEvidence Ex.bn [("d", .hard "x")] := fun h => by
  have := h.hard "d" "x" (by simp)
  revert this
  decide

private theorem bad_name : ¬ LegalEvidence Ex.bn [("d", .hard "t"), ("e", .hard "t")] := fun h => by
  have := h.mem ("e", .hard "t") (by simp)
  revert this
  decide

example := C62_bucket_refuses_partial .insertion Ex.bn_consistent (ev := [("d", .hard "x")]) (by decide)
  (Q := ["a"]) (order := ["a", "b", "c", "d"]) (by decide) fun h => bad_value h.2
example := C62_bucket_refuses_default_partial .insertion Ex.bn_consistent Ex.bn_linked
  (ev := [("d", .hard "t"), ("e", .hard "t")]) (by decide) (Q := ["a"]) fun h => bad_name h.2
example := C62_naive_refuses_partial .insertion Ex.bn_consistent
  (ev := [("e", .hard "t"), ("d", .hard "x")]) (by decide) ["a"] bad_value
example : (naiveMarginals .insertion Ex.bn ["a", "e"] [("e", .hard "t"), ("d", .hard "t"),
    ("b", .soft [1 / 2, 0, 2])]).map (fun r => (r.variableOrder, r.potentials.data)) =
    .ok (["a"], [2 / 29, 27 / 29]) := by decide +kernel
example := C62_naive_repeated .insertion Ex.bn (Q := ["a", "b", "a"]) (Q' := ["b", "a"]) Ex.ev (by simp)
example := C62_repeated .insertion Ex.bn_consistent Ex.ev_legal (Q := ["a", "a"]) (by decide)
  (by decide) (order := ["a", "b", "c", "d"]) (by decide)
example : (bucketMarginals .insertion Ex.bn ["a", "a"] Ex.ev (some ["a", "b", "c", "d"])).map
    (fun r => r.variableOrder) = .ok ["a", "d"] := by decide +kernel
example : ∃ t : JTree, t.nodes.keys.Nodup ∧
    (t.setEvidence .insertion 10 Ex.bn [("d", .hard "t"), ("e", .hard "t")] false).2 =
      some .exception := by
  refine ⟨{ nodes := [("dc", ⟨["d", "c"], Factor.trivial 1⟩)], edges := [], adj := [("dc", [])], valid := false }, by decide, ?_⟩
  decide +kernel

end Primo
