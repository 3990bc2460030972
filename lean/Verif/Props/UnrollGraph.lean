import Verif.Lemmas.Splits
import Verif.Props.Unroll

/-!
# Dynamic inference where the graph separates the transition sources

C70 with a condition that mentions neither tables nor numbers.
-/

namespace Primo

/-- In every slice left so far the evidence d-separates the transition sources from each other. -/
def DBN.SourcesSeparated (d : DBN) (es : List (Dict Evidence)) : Prop :=
  ∀ (j : Nat) e, es[j]? = some e → (d.slice j).Scattered e (d.transitions.map Prod.snd)

/-- **C70 for prior feedback and separated sources, partial.**  After any history of allowed calls: if
in every slice left the evidence d-separates the transition sources, queries return the posterior of
the unrolled network under all evidence so far, whatever the (normalised) tables are.  Missing: sources
that are not separated, and networks for which the trees are not exact. -/
theorem C70_separated_partial {d : DBN} (h : d.Ready) (a0 : d.b0.Acyclic) (a2 : d.twoTbn.Acyclic)
    (s0 : d.b0.Stochastic) (s2 : d.twoTbn.Stochastic) (hne : d.transitions ≠ [])
    (hsn : (d.transitions.map Prod.snd).Nodup) {ops : List DynOp}
    (ho : FairHistory d ⟨[], none⟩ ops) {g : Diary} (hg : g = Diary.notes ⟨[], none⟩ ops)
    {s : PriorFeedback} (hs : s = .runs ops (.create d)) (hsep : d.SourcesSeparated g.past) :
    (∀ e, g.now = some e →
      Filters (fun so limit vs => s.marginals so limit vs) s d g.past.length (g.past ++ [e]) ∧
      FiltersDict (fun so limit v => s.marginalProbabilities so limit v) s d g.past.length
        (g.past ++ [e])) ∧
    (g.now = none → ∀ past e, g.past = past ++ [e] →
      Filters (fun so limit vs => s.marginals so limit vs) s d past.length g.past ∧
      FiltersDict (fun so limit v => s.marginalProbabilities so limit v) s d past.length g.past) := by
  have hl := ho.legal (Diary.legal_start d)
  rw [← hg] at hl
  exact C70_prior_feedback_partial h hne hsn ho hg hs (.of_scattered h hne a0 a2 s0 s2 hl.past hsep)

theorem observed_softened {bn : BN} {e : Dict Evidence} {v : Name} :
    Observed (softened bn e) v ↔ Observed e v := by
  unfold Observed softened
  constructor
  · rintro ⟨x, hx⟩
    obtain ⟨⟨w, y⟩, hy, e1⟩ := List.mem_map.1 hx
    cases y with
    | hard y => simp only [Prod.mk.injEq, Evidence.hard.injEq] at e1; exact ⟨y, e1.1 ▸ hy⟩
    | soft l => simp at e1
  · rintro ⟨x, hx⟩
    exact ⟨x, List.mem_map.2 ⟨_, hx, rfl⟩⟩

theorem BN.DSeparated.softened {bn bn' : BN} {e : Dict Evidence} {Q R : List Name}
    (h : bn.DSeparated e Q R) : bn.DSeparated (softened bn' e) Q R := by
  have hk : (Primo.softened bn' e).keys = e.keys := by
    simp [Primo.softened, Dict.keys, Function.comp_def]
  have ht : ∀ d v, Trail bn (Primo.softened bn' e) Q d v → Trail bn e Q d v := by
    intro d v ht
    induction ht with
    | start h => exact .start h
    | up _ ho hp ih => exact ih.up (fun h => ho (observed_softened.2 h)) hp
    | down _ ho hp ih => exact ih.down (fun h => ho (observed_softened.2 h)) hp
    | collider _ hr hp ih => exact ih.collider (hk ▸ hr) hp
  exact fun r hr d hd => observed_softened.2 (h r hr d (ht d r hd))

theorem BN.Scattered.softened {bn bn' : BN} {e : Dict Evidence} :
    ∀ {vs : List Name}, bn.Scattered e vs → bn.Scattered (Primo.softened bn' e) vs
  | [], _ => trivial
  | _ :: _, h => ⟨h.1.softened, h.2.softened⟩

/-- **C70 for soft-evidence feedback and separated sources, partial**: as above; arrays are read as
posteriors to be produced, and there is no evidence on targets. -/
theorem C70_soft_separated_partial {d : DBN} (h : d.Ready) (a0 : d.b0.Acyclic) (a2 : d.twoTbn.Acyclic)
    (s0 : d.b0.Stochastic) (s2 : d.twoTbn.Stochastic) (hne : d.transitions ≠ [])
    (hsn : (d.transitions.map Prod.snd).Nodup) {ops : List DynOp}
    (ho : SoftFairHistory d ⟨[], none⟩ ops) {g : Diary} (hg : g = Diary.notes ⟨[], none⟩ ops)
    {s : SoftFeedback} (hs : s = .runs ops (.create d)) (hsep : d.SourcesSeparated g.past) :
    (∀ e, g.now = some e → d.Spares (g.past ++ [e]) →
      Filters (fun so limit vs => s.marginals so limit vs) s d g.past.length
        (d.softenedAll (g.past ++ [e])) ∧
      FiltersDict (fun so limit v => s.marginalProbabilities so limit v) s d g.past.length
        (d.softenedAll (g.past ++ [e]))) ∧
    (g.now = none → ∀ past e, g.past = past ++ [e] → d.Spares g.past →
      Filters (fun so limit vs => s.marginals so limit vs) s d past.length (d.softenedAll g.past) ∧
      FiltersDict (fun so limit v => s.marginalProbabilities so limit v) s d past.length
        (d.softenedAll g.past)) := by
  have hl := ho.soft (Diary.soft_start d)
  rw [← hg] at hl
  have hsp : d.Spares g.past → d.Splits (d.softenedAll g.past) := fun hspa =>
    .of_scattered h hne a0 a2 s0 s2 (hl.past.legal_softened h hspa) fun j e he => by
      unfold DBN.softenedAll at he
      rw [List.getElem?_mapIdx] at he
      obtain ⟨e0, he0, rfl⟩ := Option.map_eq_some_iff.1 he
      exact (hsep j e0 he0).softened
  refine ⟨fun e he hspa => ?_, fun hn past e hp hspa => ?_⟩
  · exact (C70_soft_feedback_partial h a2 s2 hne hsn ho hg hs (hsp hspa.init)).1 e he hspa
  · exact (C70_soft_feedback_partial h a2 s2 hne hsn ho hg hs (hsp hspa)).2 hn past e hp hspa

end Primo
