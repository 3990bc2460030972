import Verif.Examples.Network
import Verif.Lemmas.Classic
import Verif.Lemmas.Polytree
import Verif.Exact

/-! # Concrete networks for the join tree properties -/

namespace Primo.Ex
open JoinTree

instance (bn : BN) (u v : Name) : Decidable (bn.IsParent u v) := by
  unfold BN.IsParent; infer_instance

instance (bn : BN) (u v : Name) : Decidable (bn.Skel u v) := by
  unfold BN.Skel; infer_instance

instance (bn : BN) (u v : Name) : Decidable (bn.Moral u v) := by
  unfold BN.Moral; infer_instance

theorem skel_mem {bn : BN} (hc : bn.Consistent) {u v : Name} (h : bn.Skel u v) : u ∈ bn.names := by
  rcases h with ⟨n, hn, -, hp⟩ | ⟨n, hn, rfl, -⟩
  · exact hc.parents_mem n hn u hp
  · exact List.mem_map_of_mem hn

theorem of_tails {o : List Name} {P : Name → List Name → Prop}
    (h : ∀ l ∈ o.tails, ∀ v ∈ l.head?, P v l.tail) : ∀ o1 v o2, o = o1 ++ v :: o2 → P v o2 := by
  intro o1 v o2 e
  refine h (v :: o2) ?_ v rfl
  rw [List.mem_tails, e]
  exact List.suffix_append _ _

/-- a criterion for polytrees -/
theorem polytree_of_order {bn : BN} (hc : bn.Consistent) (o : List Name) (ho : ∀ v ∈ bn.names, v ∈ o)
    (h : ∀ l ∈ o.tails, ∀ v ∈ l.head?, ∀ x ∈ l.tail, ∀ y ∈ l.tail, bn.Skel v x → bn.Skel v y → x = y) :
    bn.Polytree := by
  refine acyclic_of_leafOrder (o := o) (fun u v huv => ho u (skel_mem hc huv.2)) ?_
  intro o1 v o2 e x hx y hy h1 h2
  exact of_tails (P := fun v o2 => ∀ x ∈ o2, ∀ y ∈ o2, bn.Skel v x → bn.Skel v y → x = y) h o1 v o2 e
    x hx y hy h1.2 h2.2

/-- a criterion for perfect orders -/
theorem perfect_of_tails {bn : BN} {o : List Name}
    (h : ∀ l ∈ o.tails, ∀ v ∈ l.head?, ∀ x ∈ l.tail, ∀ y ∈ l.tail, bn.Moral v x → bn.Moral v y →
      x ≠ y → bn.Moral x y) : Perfect bn.Moral o :=
  of_tails (P := fun v o2 => ∀ x ∈ o2, ∀ y ∈ o2, bn.Moral v x → bn.Moral v y → x ≠ y → bn.Moral x y) h

/-- a criterion for connected networks -/
theorem connected_of_hub {bn : BN} {c : Name} (hc : c ∈ bn.names)
    (h : ∀ v ∈ bn.names, v ≠ c → bn.Skel v c) : bn.Connected := by
  intro u hu v hv huv
  by_cases h1 : u = c
  · subst h1
    exact .base (h v hv (Ne.symm huv)).symm
  · by_cases h2 : v = c
    · subst h2
      exact .base (h u hu huv)
    · exact .step (h u hu h1) hc (.base (h v hv h2).symm)

theorem recorded_of_check {bn : BN} (h : ∀ n ∈ bn, (∀ p ∈ n.parents.keys, p ∈ n.parentOrder) ∧
    ∀ p ∈ n.parentOrder, p ∈ n.parents.keys) : bn.Recorded :=
  fun n hn p => ⟨(h n hn).1 p, (h n hn).2 p⟩

theorem linked_of_check {bn : BN} (h : ∀ n ∈ bn, n.children.Nodup ∧
    (∀ c ∈ n.children, ∃ m ∈ bn, m.name = c ∧ n.name ∈ m.parentOrder) ∧
    ∀ m ∈ bn, n.name ∈ m.parentOrder → m.name ∈ n.children) : bn.Linked :=
  ⟨fun n hn => (h n hn).1, fun n hn c => ⟨(h n hn).2.1 c, by
    rintro ⟨m, hm, rfl, hp⟩
    exact (h n hn).2.2 m hm hp⟩⟩

/-- a tree, evidence and a query in one go -/
def answer (so : SetOrder) (bn : BN) (ev : Dict Evidence) (vs : List Name) : Except PyErr Factor := do
  let t ← create so bn none
  match t.setEvidence so 1000 bn ev false with
  | (_, some e) => throw e
  | (t', none) => (t'.marginals so 1000 vs).2

theorem answer_ok {so : SetOrder} {bn : BN} {ev : Dict Evidence} {vs : List Name} {d : List ℚ}
    (h : (answer so bn ev vs).map (fun r => (r.variableOrder, r.potentials.data)) = .ok (vs, d)) :
    ∃ t t' r, create so bn none = .ok t ∧ t.setEvidence so 1000 bn ev false = (t', none) ∧
      (t'.marginals so 1000 vs).2 = .ok r ∧ r.variableOrder = vs ∧ r.potentials.data = d := by
  unfold answer at h
  cases hc : create so bn none with
  | error e => rw [hc] at h; cases h
  | ok t =>
    rw [hc] at h
    cases hs : t.setEvidence so 1000 bn ev false with
    | mk t' e =>
      cases e with
      | some e => simp only [Except.bind, bind, hs] at h; cases h
      | none =>
        simp only [Except.bind, bind, hs] at h
        cases hm : (t'.marginals so 1000 vs).2 with
        | error e => rw [hm] at h; cases h
        | ok r =>
          rw [hm] at h
          simp only [Except.map, Except.ok.injEq, Prod.mk.injEq] at h
          exact ⟨t, t', r, rfl, hs, hm, h.1, h.2⟩

/-! ### `Ex.bn` is a connected polytree -/

theorem bn_recorded : bn.Recorded := recorded_of_check (by decide)

theorem bn_join : UniqueJoin bn.names := uniqueJoin_of_length (k := 1) (by decide) (by decide)

theorem bn_connected : bn.Connected := connected_of_hub (c := "c") (by decide) (by decide)

theorem bn_polytree : bn.Polytree :=
  polytree_of_order bn_consistent ["d", "a", "b", "c"] (by decide) (by decide)

/-! ### a network with a chordless cycle: `a → b → d → e ← c ← a` -/

/-- `P(v | parent) = 9/10` if the values agree -/
def copyTable : NDArray := ⟨[2, 2], [9 / 10, 1 / 10, 1 / 10, 9 / 10], rfl⟩

def cycle : BN := [
  ⟨"a", .discrete, ["t", "f"], [], [], ["b", "c"], ⟨[2], [1 / 2, 1 / 2], rfl⟩, false⟩,
  ⟨"b", .discrete, ["t", "f"], ["a"], [("a", ["t", "f"])], ["d"], copyTable, false⟩,
  ⟨"c", .discrete, ["t", "f"], ["a"], [("a", ["t", "f"])], ["e"], copyTable, false⟩,
  ⟨"d", .discrete, ["t", "f"], ["b"], [("b", ["t", "f"])], ["e"], copyTable, false⟩,
  ⟨"e", .discrete, ["t", "f"], ["c", "d"], [("c", ["t", "f"]), ("d", ["t", "f"])], [],
    ⟨[2, 2, 2], [1, 1 / 2, 1 / 2, 0, 0, 1 / 2, 1 / 2, 1], rfl⟩, false⟩]

theorem cycle_consistent : cycle.Consistent :=
  ⟨by decide, by decide, by decide, by decide, by decide, by decide, by decide⟩

theorem cycle_linked : cycle.Linked := linked_of_check (by decide)

theorem cycle_recorded : cycle.Recorded := recorded_of_check (by decide)

theorem cycle_join : UniqueJoin cycle.names := uniqueJoin_of_length (k := 1) (by decide) (by decide)

/-! ### a disconnected network: `a → b → c`, `d → e`, `z` -/

def parts : BN := [
  ⟨"a", .discrete, ["t", "f"], [], [], ["b"], ⟨[2], [1 / 4, 3 / 4], rfl⟩, false⟩,
  ⟨"b", .discrete, ["t", "f"], ["a"], [("a", ["t", "f"])], ["c"], copyTable, false⟩,
  ⟨"c", .discrete, ["t", "f"], ["b"], [("b", ["t", "f"])], [], copyTable, false⟩,
  ⟨"d", .discrete, ["t", "f"], [], [], ["e"], ⟨[2], [1 / 4, 3 / 4], rfl⟩, false⟩,
  ⟨"e", .discrete, ["t", "f"], ["d"], [("d", ["t", "f"])], [], copyTable, false⟩,
  ⟨"z", .discrete, ["t", "f"], [], [], [], ⟨[2], [1 / 3, 2 / 3], rfl⟩, false⟩]

theorem parts_consistent : parts.Consistent :=
  ⟨by decide, by decide, by decide, by decide, by decide, by decide, by decide⟩

theorem parts_linked : parts.Linked := linked_of_check (by decide)

theorem parts_recorded : parts.Recorded := recorded_of_check (by decide)

theorem parts_join : UniqueJoin parts.names := uniqueJoin_of_length (k := 1) (by decide) (by decide)

theorem parts_polytree : parts.Polytree :=
  polytree_of_order parts_consistent ["z", "a", "b", "c", "d", "e"] (by decide) (by decide)

/-! ### names whose concatenations coincide: `a → bc`, `ab → c` -/

def clash : BN := [
  ⟨"a", .discrete, ["t", "f"], [], [], ["bc"], ⟨[2], [1 / 4, 3 / 4], rfl⟩, false⟩,
  ⟨"bc", .discrete, ["t", "f"], ["a"], [("a", ["t", "f"])], [], copyTable, false⟩,
  ⟨"ab", .discrete, ["t", "f"], [], [], ["c"], ⟨[2], [1 / 4, 3 / 4], rfl⟩, false⟩,
  ⟨"c", .discrete, ["t", "f"], ["ab"], [("ab", ["t", "f"])], [], copyTable, false⟩]

theorem clash_consistent : clash.Consistent :=
  ⟨by decide, by decide, by decide, by decide, by decide, by decide, by decide⟩

theorem clash_linked : clash.Linked := linked_of_check (by decide)

theorem clash_recorded : clash.Recorded := recorded_of_check (by decide)

end Primo.Ex
