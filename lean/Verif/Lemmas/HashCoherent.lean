import Verif.Lemmas.HashLocal
import Verif.Lemmas.NetStep

/-! # Lemmas: coherence of networks that share no node objects -/

namespace Primo

theorem Net.GoodBy.run {ops : List HOp} {s : Net} (h : Net.GoodBy ops s) :
    ∃ l, Net.GoodRun l s ∧ Net.run l s = (Net.runBy ops s).1 := by
  induction ops generalizing s with
  | nil => exact ⟨[], trivial, rfl⟩
  | cons op ops ih =>
    obtain ⟨l, h1, h2⟩ := ih h.2
    exact ⟨op.resolve s :: l, ⟨h.1, h1⟩, h2⟩

namespace HNet
variable {κ : Type} [DecidableEq κ] {P : Nat → Prop} {s t : HNet κ}

theorem Loc.forget (h : Loc P s t) : s.forget.lookup = t.forget.lookup ∧
    s.forget.gnode = t.forget.gnode ∧ s.forget.succ = t.forget.succ ∧
    s.forget.pred = t.forget.pred := by
  refine ⟨h.lookup, ?_, ?_, ?_⟩
  · show HDict.names s.heap s.gnode = HDict.names t.heap t.gnode
    rw [← h.gnode]
    exact HDict.names_congr fun e he => by rw [h.heap.eq _ (h.kgnode e he)]
  · show HAdj.names s.heap s.succ = HAdj.names t.heap t.succ
    rw [← h.succ]
    exact HAdj.names_congr fun e he => ⟨by rw [h.heap.eq _ (h.ksucc.1 e he)],
      fun x hx => by rw [h.heap.eq _ (h.ksucc.2 e he x hx)]⟩
  · show HAdj.names s.heap s.pred = HAdj.names t.heap t.pred
    rw [← h.pred]
    exact HAdj.names_congr fun e he => ⟨by rw [h.heap.eq _ (h.kpred.1 e he)],
      fun x hx => by rw [h.heap.eq _ (h.kpred.2 e he x hx)]⟩

theorem Loc.coherent (h : Loc P s t) (hc : t.forget.Coherent) : s.forget.Coherent := by
  obtain ⟨e1, e2, e3, e4⟩ := h.forget
  have hg : ∀ k, s.forget.getNode k = t.forget.getNode k := fun k => by
    simp only [Net.getNode, e1]
  have hs : ∀ k, s.forget.succOf k = t.forget.succOf k := fun k => by simp only [Net.succOf, e3]
  have hp : ∀ k, s.forget.predOf k = t.forget.predOf k := fun k => by simp only [Net.predOf, e4]
  have hh : ∀ k i, t.forget.getNode k = .ok i → s.forget.heap i = t.forget.heap i := by
    intro k i hi
    rw [← hg] at hi
    exact h.heap.eq _ (h.look _ (Dict.get?_mem (Net.getNode_ok.1 hi)))
  have hl : ∀ k, s.forget.labels k = t.forget.labels k := by
    intro k
    unfold Net.labels
    rw [e1]
    cases hi : t.forget.lookup.get? k with
    | none => rfl
    | some i => simp only; rw [hh k i (Net.getNode_ok.2 hi)]
  refine ⟨e1 ▸ hc.nodup, ?_, ?_, ?_, ?_, ?_, ?_, ?_, ?_, ?_⟩
  · intro k i hi
    rw [hg] at hi
    rw [hh k i hi]; exact hc.name k i hi
  · rw [e1, e2]; exact hc.graph
  · rw [e1, e3, e4]; exact hc.adjacency
  · intro k i hi
    rw [hg] at hi
    rw [hh k i hi, hp]; exact hc.incoming k i hi
  · intro a b; rw [hs, hp]; exact hc.mirror a b
  · intro a b j; rw [hs, hg]; exact hc.own_succ a b j
  · intro a b j; rw [hp, hg]; exact hc.own_pred a b j
  · intro k i hi
    rw [hg] at hi
    rw [hh k i hi]
    simp only [hg]
    exact hc.own_parents k i hi
  · intro k i hi
    rw [hg] at hi
    rw [hh k i hi]
    simp only [hl]
    exact hc.shape k i hi

theorem Loc.empty : Loc (κ := κ) P (World.empty.slice 0) HNet.empty := by
  refine ⟨⟨fun _ _ => rfl, ?_⟩, rfl, rfl, rfl, rfl, rfl, ?_, ?_, ⟨?_, ?_⟩, ⟨?_, ?_⟩⟩
  · intro i _ p hp; cases hp
  all_goals intro x hx; cases hx

end HNet
end Primo
