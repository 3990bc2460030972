import Verif.Props.Separation

/-! # Concrete cases for C71 and C72 -/

namespace Primo
namespace Ex
open Net

/-! ### the network of the example history -/

/-- `c` as the history leaves it -/
def nc' : NodeV := { nc with parents := [("b", ["x", "y", "z"]), ("a", ["t", "f"])] }

theorem net_view : net.view = [na, nb, nd, nc'] := by decide +kernel

theorem net_acyclic : net.view.Acyclic := by
  rw [net_view]; exact acyclic_of_rank rank (by decide)

theorem net_stochastic : net.view.Stochastic := by
  rw [net_view]
  intro n hn σ hσ
  simp only [List.mem_cons, List.not_mem_nil, or_false] at hn
  rcases hn with rfl | rfl | rfl | rfl
  · exact bn_stochastic na (by simp [bn]) σ (fun v hv => by simp [na] at hv)
  · exact bn_stochastic nb (by simp [bn]) σ (fun v hv => by simp [nb] at hv)
  · have : ∀ v ∈ nd.parentOrder, BN.card [na, nb, nd, nc'] v = bn.card v := by decide +kernel
    exact bn_stochastic nd (by simp [bn]) σ fun v hv => this v hv ▸ hσ v hv
  · have : ∀ v ∈ nc.parentOrder, BN.card [na, nb, nd, nc'] v = bn.card v := by decide +kernel
    exact bn_stochastic nc (by simp [bn]) σ fun v hv => this v hv ▸ hσ v hv

theorem net_nonneg : net.view.NonNeg := by
  rw [net_view]
  intro n hn
  simp only [List.mem_cons, List.not_mem_nil, or_false] at hn
  rcases hn with rfl | rfl | rfl | rfl <;> decide +kernel

-- removing `d` and asking for `a` given soft evidence on `b`
example := C71_remove_leaf ops ops_good (s := net) rfl net_usable net_acyclic net_stochastic net_nonneg
  (k := "d") (i := 3) (by decide +kernel) (by decide +kernel) rfl
  (ev := [("b", .soft [1 / 2, 0, 2])]) (by rw [net_view]; exact ⟨by decide, by decide, by simp, by
    intro v l h
    simp only [List.mem_singleton, Prod.mk.injEq, Evidence.soft.injEq] at h
    obtain ⟨rfl, rfl⟩ := h
    decide⟩) (by
    intro v l h
    simp only [List.mem_singleton, Prod.mk.injEq, Evidence.soft.injEq] at h
    obtain ⟨rfl, rfl⟩ := h
    decide +kernel) (by decide) (Q := ["a"]) (by rw [net_view]; decide) (by decide)

/-! ### another network with the same relevant part -/

/-- `d` replaced by a node with three outcomes and another table, and a node `e` added -/
def other : BN := [na, nb, nc,
  ⟨"d", .discrete, ["u", "v", "w"], ["a"], [("a", ["t", "f"])], [],
    ⟨[3, 2], [1 / 2, 0, 1 / 4, 1, 1 / 4, 0], rfl⟩, false⟩,
  ⟨"e", .discrete, ["t", "f"], [], [], [], ⟨[2], [1 / 3, 2 / 3], rfl⟩, false⟩]

theorem other_consistent : other.Consistent := by
  constructor <;> decide

theorem other_acyclic : other.Acyclic := acyclic_of_rank rank (by decide)

theorem other_stochastic : other.Stochastic := by
  intro n hn σ hσ
  simp only [other, List.mem_cons, List.not_mem_nil, or_false] at hn
  rcases hn with rfl | rfl | rfl | rfl | rfl
  · exact bn_stochastic na (by simp [bn]) σ (fun v hv => by simp [na] at hv)
  · exact bn_stochastic nb (by simp [bn]) σ (fun v hv => by simp [nb] at hv)
  · have : ∀ v ∈ nc.parentOrder, other.card v = bn.card v := by decide +kernel
    exact bn_stochastic nc (by simp [bn]) σ fun v hv => this v hv ▸ hσ v hv
  · have h : σ "a" < 2 := hσ "a" (by simp)
    have : ∀ i < 2, ∑ j ∈ Finset.range 3,
        NDArray.get ⟨[3, 2], [1 / 2, 0, 1 / 4, 1, 1 / 4, 0], rfl⟩ [j, i] = 1 := by decide +kernel
    exact this _ h
  · have : ∑ j ∈ Finset.range 2, NDArray.get ⟨[2], [1 / 3, 2 / 3], rfl⟩ [j] = 1 := by decide +kernel
    exact this

theorem other_nonneg : other.NonNeg := by
  intro n hn
  simp only [other, List.mem_cons, List.not_mem_nil, or_false] at hn
  rcases hn with rfl | rfl | rfl | rfl | rfl <;> decide +kernel

/-- evidence on `c` -/
def cEv : Dict Evidence := [("c", .hard "t")]

theorem cEv_legal : LegalEvidence bn cEv :=
  ⟨by decide, by decide, by
    intro v x h
    simp only [cEv, List.mem_singleton, Prod.mk.injEq, Evidence.hard.injEq] at h
    obtain ⟨rfl, rfl⟩ := h
    decide, by intro v l h; simp [cEv] at h⟩

theorem cEv_nonneg : NonNegEvidence cEv := by intro v l h; simp [cEv] at h

theorem bn_parent {p v : Name} : bn.IsParent p v ↔ (p = "c" ∧ v = "d") ∨ (p = "a" ∧ v = "c") ∨
    (p = "b" ∧ v = "c") := by
  constructor
  · rintro ⟨n, hn, rfl, hp⟩
    simp only [bn, List.mem_cons, List.not_mem_nil, or_false] at hn
    rcases hn with rfl | rfl | rfl | rfl <;> simp [nd, na, nb, nc] at hp ⊢
    · exact hp
    · exact hp.symm
  · rintro (⟨rfl, rfl⟩ | ⟨rfl, rfl⟩ | ⟨rfl, rfl⟩)
    · exact ⟨nd, by simp [bn], rfl, by decide⟩
    · exact ⟨nc, by simp [bn], rfl, by decide⟩
    · exact ⟨nc, by simp [bn], rfl, by decide⟩

theorem bn_keeps : bn.Keeps other (["a"] ++ cEv.keys) := by
  rintro n hn ⟨w, hw, hr⟩
  have hd : n.name ≠ "d" := by
    intro e
    rw [e] at hr
    rcases Relation.ReflTransGen.cases_head hr with rfl | ⟨c, h, -⟩
    · revert hw; decide
    · have := bn_parent.1 h
      simp at this
  have : ∀ n ∈ bn, n.name ≠ "d" → ∃ m ∈ other, m.name = n.name ∧ m.values = n.values ∧
    m.parentOrder = n.parentOrder ∧ m.cpd = n.cpd := by decide +kernel
  exact this n hn hd

example := C71_relevant_partial bn_consistent other_consistent bn_acyclic other_acyclic bn_stochastic
  other_stochastic bn_nonneg other_nonneg cEv_legal cEv_nonneg (Q := ["a"]) (by decide) bn_keeps
example : (VE.naiveMarginals .insertion bn ["a"] cEv).map (fun r => r.potentials.data) =
    (VE.naiveMarginals .reversed other ["a"] cEv).map (fun r => r.potentials.data) := by decide +kernel

/-! ### separated variables -/

/-- `c` separates `d` from the roots -/
theorem c_separates : bn.DSeparated cEv ["d"] ["b", "a"] := by
  have key : ∀ d v, Trail bn cEv ["d"] d v → v = "d" ∨ v = "c" ∧ d = true := by
    intro d v ht
    have hobs : Observed cEv "c" := ⟨"t", by decide⟩
    induction ht with
    | start hq => exact Or.inl (by simpa using hq)
    | up _ ho hp ih =>
      rcases ih with rfl | ⟨rfl, -⟩
      · have := bn_parent.1 hp
        simp at this
        exact Or.inr ⟨this, rfl⟩
      · exact absurd hobs ho
    | down _ ho hp ih =>
      rcases ih with rfl | ⟨rfl, -⟩
      · have := bn_parent.1 hp
        simp at this
      · exact absurd hobs ho
    | collider _ hr hp ih =>
      rcases ih with rfl | ⟨-, h⟩
      · have := bn_parent.1 hp
        simp at this
        exact Or.inr ⟨this, rfl⟩
      · cases h
  intro r hr d ht
  rcases key d r ht with rfl | ⟨rfl, -⟩
  · simp at hr
  · exact ⟨"t", by decide⟩

example {f g h : Factor} := C72_independent bn_consistent bn_acyclic bn_stochastic bn_nonneg cEv_legal
  cEv_nonneg (Q := ["d"]) (R := ["b", "a"]) (by decide) (by decide) c_separates (f := f) (g := g) (h := h)

-- the local Markov property and the blanket give the same separation
example : bn.DSeparated cEv ["d"] ["b", "a"] := C72_local_markov
  (fun p hp => by have := bn_parent.1 hp; simp at this; rw [this]; exact ⟨"t", by decide⟩)
  (fun w hw => by
    rcases Relation.TransGen.head'_iff.1 hw with ⟨c, h, -⟩
    have := bn_parent.1 h; simp at this)
  (fun r hr h => by
    rcases Relation.ReflTransGen.cases_head h with rfl | ⟨c, h, -⟩
    · revert hr; decide
    · have := bn_parent.1 h; simp at this)
example : bn.DSeparated cEv ["d"] ["b", "a"] := C72_markov_blanket
  (fun p hp => by have := bn_parent.1 hp; simp at this; rw [this]; exact ⟨"t", by decide⟩)
  (fun w h => by have := bn_parent.1 h; simp at this)
  (fun c p h => by have := bn_parent.1 h; simp at this) (by decide)

/-- the two roots have no common ancestor -/
theorem roots_separated : bn.DSeparated [] ["a"] ["b"] := by
  refine C72_no_common_ancestor fun q hq r hr w h1 h2 => ?_
  rw [List.mem_singleton] at hq hr
  subst hq hr
  have root : ∀ u v : Name, (v = "a" ∨ v = "b") → Relation.ReflTransGen bn.IsParent u v → u = v := by
    intro u v hv h
    rcases Relation.ReflTransGen.cases_tail h with rfl | ⟨c, -, h⟩
    · rfl
    · have := bn_parent.1 h
      rcases hv with rfl | rfl <;> simp at this
  have := (root w "a" (by decide) h1).symm.trans (root w "b" (by decide) h2)
  revert this; decide

example {f : Factor} {g : Name → Factor} := C72_scattered bn_consistent bn_acyclic bn_stochastic bn_nonneg
  (ev := []) ⟨by decide, by simp, by simp, by simp⟩ (by intro v l h; simp at h) (Q := ["a", "b"]) (by decide)
  (by decide) ⟨roots_separated, by intro r hr; simp at hr, trivial⟩ (f := f) (g := g)

/-- further evidence on `b`, of which the values `x` and `z` are possible -/
example {f g : Factor} := C72_more_evidence bn_consistent bn_acyclic bn_stochastic bn_nonneg
  (ev := cEv) (ev' := [("b", .soft [1 / 2, 0, 2])]) (σ₀ := fun _ => 0)
  ⟨by decide, by decide, by
    intro v x h
    simp only [cEv, List.mem_append, List.mem_singleton, Prod.mk.injEq, Evidence.hard.injEq, reduceCtorEq,
      and_false, or_false] at h
    obtain ⟨rfl, rfl⟩ := h
    decide, by
    intro v l h
    simp only [cEv, List.mem_append, List.mem_singleton, Prod.mk.injEq, Evidence.soft.injEq, reduceCtorEq,
      and_false, false_or] at h
    obtain ⟨rfl, rfl⟩ := h
    decide⟩ (by
    intro v l h
    simp only [cEv, List.mem_append, List.mem_singleton, Prod.mk.injEq, Evidence.soft.injEq, reduceCtorEq,
      and_false, false_or] at h
    obtain ⟨rfl, rfl⟩ := h
    decide +kernel) (Q := ["d"]) (by decide)
  (fun r hr => c_separates r (by simp only [Dict.keys, List.map_cons, List.map_nil, List.mem_singleton] at hr; simp [hr]))
  (by decide +kernel) (f := f) (g := g)

/-- Evidence on the common descendant `d` opens the trail between the roots, and they are dependent: the
answer for both differs from the product of the single answers. -/
theorem roots_connected : ¬ bn.DSeparated [("d", .hard "t")] ["a"] ["b"] := by
  intro h
  obtain ⟨x, hx⟩ := h "b" (by simp) true (.collider (v := "c") (.down (.start (q := "a") (by simp))
    (by rintro ⟨x, hx⟩; simp at hx) (bn_parent.2 (by simp)))
    ⟨"d", by decide, .single (bn_parent.2 (by simp))⟩ (bn_parent.2 (by simp)))
  simp at hx

example : (VE.naiveMarginals .insertion bn ["a", "b"] [("d", .hard "t")]).map
    (fun f => f.eval fun _ => 0) = .ok (12 / 467) ∧
    (VE.naiveMarginals .insertion bn ["a"] [("d", .hard "t")]).map (fun f => f.eval fun _ => 0) =
      .ok (80 / 467) ∧
    (VE.naiveMarginals .insertion bn ["b"] [("d", .hard "t")]).map (fun f => f.eval fun _ => 0) =
      .ok (174 / 467) := by decide +kernel

end Ex
end Primo
