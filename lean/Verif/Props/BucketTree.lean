import Verif.Props.BucketSize
import Verif.Props.CliqueSize
import Verif.Lemmas.WideOrder

/-!
# C88: tables of bucket elimination along a perfect order, and on polytrees
-/

namespace Primo
open VE Factor

/-- along a perfect order nothing is connected through eliminated nodes that is not linked anyway -/
theorem Perfect.via {adj : Name → Name → Prop} (hs : ∀ a b, adj a b → adj b a) :
    ∀ (E R : List Name), Perfect adj (E ++ R) → ∀ a ∈ R, ∀ b ∈ R, a ≠ b → Via adj E a b → adj a b := by
  intro E
  induction E using List.reverseRecOn with
  | nil => intro R _ a _ b _ _ h; exact via_nil.1 h
  | append_singleton E e ih =>
    intro R hp a ha b hb hab h
    have hp' : Perfect adj (E ++ e :: R) := by simpa using hp
    have ih := ih (e :: R) hp'
    have h' : Via adj (e :: E) a b := h.mono (by simp +contextual [or_imp])
    by_cases hae : a = e
    · subst hae
      rcases via_cons.1 h' with h | ⟨-, h⟩
      · exact ih a (by simp) b (by simp [hb]) hab h
      · exact ih a (by simp) b (by simp [hb]) hab h
    by_cases hbe : b = e
    · subst hbe
      rcases via_cons.1 h' with h | ⟨h, -⟩
      · exact ih a (by simp [ha]) b (by simp) hab h
      · exact ih a (by simp [ha]) b (by simp) hab h
    rcases via_cons.1 h' with h | ⟨h1, h2⟩
    · exact ih a (by simp [ha]) b (by simp [hb]) hab h
    · exact hp' E e R rfl a ha b hb (hs _ _ (ih a (by simp [ha]) e (by simp) hae h1))
        (ih e (by simp) b (by simp [hb]) (Ne.symm hbe) h2) hab

theorem moral_symm {bn : BN} (a b : Name) (h : bn.Moral a b) : bn.Moral b a := by
  obtain ⟨h1, n, h2, h3, h4⟩ := h
  exact ⟨h1.symm, n, h2, h4, h3⟩

theorem around_perfect (bn : BN) (hc : bn.Consistent) (Q : List Name) {order : List Name}
    (ho : order.Perm bn.names) (hp : Perfect bn.Moral order) {E rest : List Name} {v : Name}
    (hs : order.filter (fun v => decide (v ∉ Q)) = E ++ v :: rest) {w : Name} (h : bn.Around E v w) :
    bn.Bucket order v w ∨ w ∈ Q := by
  rcases h with rfl | ⟨h1, h2, h3, h4⟩
  · exact .inl (.inl rfl)
  by_cases hw : w ∈ Q
  · exact .inr hw
  have hon : order.Nodup := ho.nodup_iff.2 hc.nodup
  have hvo : v ∈ order ∧ v ∉ Q := by
    have : v ∈ order.filter (fun v => decide (v ∉ Q)) := by rw [hs]; simp
    simpa using this
  obtain ⟨o1, o2, rfl⟩ := List.append_of_mem hvo.1
  have hE : E = o1.filter (fun v => decide (v ∉ Q)) := by
    refine Wide.split_unique (hon.filter (fun v => decide (v ∉ Q))) hs
      (r' := o2.filter (fun v => decide (v ∉ Q))) ?_
    rw [List.filter_append, List.filter_cons_of_pos (by simpa using hvo.2)]
  have hw2 : w ∈ o2 := by
    have := ho.mem_iff.2 h2
    rw [List.mem_append, List.mem_cons] at this
    rcases this with h | h | h
    · exact absurd (by rw [hE, List.mem_filter]; simp [h, hw]) h3
    · exact absurd h h1
    · exact h
  refine .inl (.inr ⟨later_of_split hw2, ?_⟩)
  refine Perfect.via moral_symm o1 (v :: o2) hp v (by simp) w (by simp [hw2]) h1.symm (h4.mono fun x hx => ?_)
  rw [hE] at hx
  exact List.mem_of_mem_filter hx

/-- **C88** If the order is perfect, each table has only the variable summed out, its neighbours in the moral
graph that come later, and queried variables. -/
theorem C88_perfect (so : SetOrder) (bn : BN) (hc : bn.Consistent) (ev : Dict Evidence)
    (he : LegalEvidence bn ev) (Q : List Name) (hQn : Q.Nodup) (hQ : ∀ v ∈ Q, v ∈ bn.names)
    (order0 : Option (List Name)) {order : List Name} (hord : chooseOrder bn order0 = .ok order)
    (ho : order.Perm bn.names) (hp : Perfect bn.Moral order) {E rest : List Name} {v : Name}
    (hs : order.filter (fun v => decide (v ∉ Q)) = E ++ v :: rest) :
    ∃ b bs last, bucketsBefore so bn Q ev order0 E.length = .ok ((v, b) :: bs, last) ∧
      ∀ w ∈ b.variableOrder, bn.Bucket order v w ∨ w ∈ Q := by
  obtain ⟨b, bs, last, h1, -, -, h2⟩ := turn_spec so hc he hQn hQ order0 hord ho hs
  exact ⟨b, bs, last, h1, fun w hw => around_perfect bn hc Q ho hp hs ((h2 w).1 hw)⟩

theorem tableSize_family {bn : BN} (hc : bn.Consistent) {n : NodeV} (hn : n ∈ bn) :
    bn.tableSize n.family = n.cpd.data.length := by
  rw [n.cpd.size_eq, hc.shape n hn, BN.tableSize, List.prod_toFinset, NodeV.family, List.map_cons, BN.card,
    BN.lab_eq hc.nodup hn]
  exact List.nodup_cons.2 ⟨hc.self n hn, hc.parents_nodup n hn⟩

theorem tableSize_append {bn : BN} (hlab : ∀ v ∈ bn.names, bn.lab v ≠ []) {l l' : List Name}
    (h' : ∀ v ∈ l', v ∈ bn.names) : bn.tableSize (l ++ l') ≤ bn.tableSize l * bn.tableSize l' := by
  unfold BN.tableSize
  rw [List.toFinset_append, ← Finset.prod_union_inter]
  refine Nat.le_mul_of_pos_right _ (Finset.prod_pos fun v hv => ?_)
  rw [Finset.mem_inter, List.mem_toFinset, List.mem_toFinset] at hv
  exact List.length_pos_iff.2 (hlab v (h' v hv.2))

/-- **C88** On polytrees the default order is a good one: no bucket ever has more variables than those of one
table of the network and the queried ones. -/
theorem C88_polytree_partial (so : SetOrder) (bn : BN) (hc : bn.Consistent) (hl : bn.Linked) (ht : bn.Polytree)
    (hlab : ∀ v ∈ bn.names, bn.lab v ≠ []) (ev : Dict Evidence) (he : LegalEvidence bn ev) (Q : List Name)
    (hQn : Q.Nodup) (hQ : ∀ v ∈ Q, v ∈ bn.names) (i : Nat) (hi : i ≤ bn.length - Q.length) :
    ∃ bs last, bucketsBefore so bn Q ev none i = .ok (bs, last) ∧ last.potentials.data.length = 1 ∧
      ∀ u c, (u, c) ∈ bs → ∃ n ∈ bn, (∀ w ∈ c.variableOrder, w ∈ n.family ∨ w ∈ Q) ∧
        c.potentials.data.length ≤ n.cpd.data.length * bn.tableSize Q := by
  obtain ⟨o, h1, h2, h3⟩ := polytree_leafOrder hc hl ht
  obtain ⟨bs, last, a1, a2, -, a3, a4⟩ := C88_no_larger so bn hc hlab ev he Q hQn hQ none h1 h2 i hi
  refine ⟨bs, last, a1, a3, fun u c huc => ?_⟩
  obtain ⟨b1, b2, b3⟩ := a4 u c huc
  have hu : u ∈ o.filter (fun v => decide (v ∉ Q)) ++ Q :=
    List.mem_of_mem_drop (a2 ▸ List.mem_map_of_mem (f := Prod.fst) huc)
  have key : ∃ n ∈ bn, ∀ w ∈ c.variableOrder, w ∈ n.family ∨ w ∈ Q := by
    rcases List.mem_append.1 hu with hu | hu
    · obtain ⟨E, rest, hs⟩ := List.append_of_mem hu
      obtain ⟨n, hn, hb⟩ := bucket_family h2 hc.nodup h3 (h2.mem_iff.1 (List.mem_of_mem_filter hu))
      refine ⟨n, hn, fun w hw => ?_⟩
      exact (around_perfect bn hc Q h2 (perfect_of_leafOrder h2 hc.nodup h3) hs ((b3 E rest hs).1 w hw)).imp
        (hb w) id
    · obtain ⟨n, hn, -⟩ := List.mem_map.1 (hQ u hu)
      exact ⟨n, hn, fun w hw => .inr ((b2 hu).1 w hw)⟩
  obtain ⟨n, hn, hw⟩ := key
  have hfam : ∀ v ∈ n.family, v ∈ bn.names := by
    intro v hv
    rcases List.mem_cons.1 hv with rfl | hv
    · exact List.mem_map_of_mem hn
    · exact hc.parents_mem _ hn v hv
  refine ⟨n, hn, hw, ?_⟩
  rw [over_length b1, ← tableSize_family hc hn]
  refine (tableSize_mono hlab (l' := n.family ++ Q) (fun w h => List.mem_append.2 (hw w h)) fun v hv => ?_).trans
    (tableSize_append hlab hQ)
  rcases List.mem_append.1 hv with h | h
  · exact hfam v h
  · exact hQ v h

example := C88_perfect .insertion Ex.bn Ex.bn_consistent Ex.ev Ex.ev_legal ["a"] (by decide) (by decide)
  (some ["d", "a", "b", "c"]) rfl (by decide) (Ex.perfect_of_tails (by decide)) (E := ["d"]) (v := "b")
  (rest := ["c"]) (by decide)

example := C88_polytree_partial .insertion Ex.bn Ex.bn_consistent Ex.bn_linked Ex.bn_polytree (by decide) Ex.ev
  Ex.ev_legal ["a"] (by decide) (by decide) 2 (by decide)

end Primo
