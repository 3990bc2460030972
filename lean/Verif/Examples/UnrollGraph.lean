import Verif.Props.UnrollGraph
import Verif.Examples.Separation

/-! # Concrete cases for C70 with separated sources -/

namespace Primo
namespace Ex

/-- two slices without evidence -/
theorem pairDyn_separated : pairDyn.SourcesSeparated [[], []] := by
  intro j e he
  have he' := List.mem_of_getElem? he
  simp only [List.mem_cons, List.not_mem_nil, or_false, or_self] at he'
  subst he'
  rw [pairDyn_slice]
  exact ⟨roots_separated, by intro r hr; simp at hr, trivial⟩

example := C70_separated_partial pairDyn_ready bn_acyclic bn_acyclic bn_stochastic bn_stochastic (by decide)
  (by decide) (ops := [.unroll .insertion 1000 none none, .unroll .reversed 1000 none none,
    .setEvidence .reversed 1000 (some ev)])
  ⟨⟨pairDyn_allows 0 (.inr rfl), by decide⟩, ⟨pairDyn_allows 1 (.inr rfl), by decide⟩,
    pairDyn_allows 2 (.inl rfl), trivial⟩ rfl rfl pairDyn_separated

theorem pair_first : SoftFairHistory pairDyn ⟨[], none⟩ [.unroll .insertion 1000 none none] :=
  ⟨⟨⟨legal_nil, fun v l h => by
    have h' : (v, Evidence.soft l) ∈ ([] : Dict Evidence) := h
    simp at h', by decide⟩, rfl⟩, trivial⟩

theorem carried_pair : pairDyn.carried [[]] = [("a", [1 / 4, 3 / 4]), ("b", [1 / 2, 1 / 2, 0])] := by
  refine Eq.trans (C48_soft_feedback_partial pairDyn_ready.soft pair_first rfl rfl).2.2.1.symm ?_
  decide +kernel

theorem prior_b_support : ∀ i < bn.card "b", priorAt bn "b" i = 0 → [1 / 2, 1 / 2, (0 : ℚ)].getD i 0 = 0 := by
  obtain ⟨r, r1, -, -, -, r5⟩ := C13_naive_exact .insertion bn bn_consistent [] legal_nil ["b"] (by decide)
  have h : ∀ i < bn.card "b", Except.map (fun r : Factor => decide (r.eval (fun _ => i) = 0 →
      [1 / 2, 1 / 2, (0 : ℚ)].getD i 0 = 0)) (VE.naiveMarginals .insertion bn ["b"] []) = .ok true := by
    decide +kernel
  intro i hi h0
  have h1 := h i hi
  rw [r1] at h1
  injection h1 with h1
  refine of_decide_eq_true h1 ?_
  rw [r5 (fun _ => i) (by intro v hv; rw [List.mem_singleton] at hv; subst hv; exact hi)]
  exact h0

theorem pair_second : SoftFairHistory pairDyn ⟨[], none⟩ [.unroll .insertion 1000 none none,
    .setEvidence .reversed 1000 (some hardEv)] := by
  refine ⟨pair_first.1, ⟨hardEv_legal, ?_, by decide⟩, trivial⟩
  show Supported bn (overridden (pairDyn.carried [[]]) hardEv)
  rw [carried_pair]
  intro v e h
  have h' : (v, Evidence.soft e) ∈ [("d", Evidence.hard "t"), ("a", Evidence.soft [1 / 4, 3 / 4]),
    ("b", Evidence.soft [1 / 2, 1 / 2, 0])] := h
  simp only [List.mem_cons, List.not_mem_nil, or_false, Prod.mk.injEq, Evidence.soft.injEq,
    reduceCtorEq, and_false, false_or] at h'
  rcases h' with ⟨rfl, rfl⟩ | ⟨rfl, rfl⟩
  · exact ⟨by decide +kernel, ⟨1 / 4, by simp, by norm_num⟩, fun i hi h => absurd h (prior_a i hi)⟩
  · exact ⟨by decide +kernel, ⟨1 / 2, by simp, by norm_num⟩, prior_b_support⟩

example := (C70_soft_separated_partial pairDyn_ready bn_acyclic bn_acyclic bn_stochastic bn_stochastic
  (by decide) (by decide) pair_second rfl rfl
  (fun j e he => pairDyn_separated j e (by
    rcases j with _ | j
    · exact he
    · simp [Diary.notes, Diary.note] at he))).1 hardEv rfl (by
    intro j e _ he tr htr
    have he' := List.mem_of_getElem? he
    simp only [Diary.notes, Diary.note, List.foldl_cons, List.foldl_nil, List.nil_append,
      List.cons_append, List.mem_cons, List.not_mem_nil, or_false] at he'
    rcases he' with rfl | rfl
    · simp [Dict.keys]
    · revert htr; revert tr; decide)

end Ex
end Primo
