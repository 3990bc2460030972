import Verif.Spec.Separation

/-!
# Active trails when a childless node is removed

Abstract version of `Trail` for one starting point and observed variables only.
-/

namespace Primo

/-- `Trail` for a graph given by its arcs -/
inductive Act (arc : Name → Name → Prop) (O : Name → Prop) (q : Name) : Bool → Name → Prop
  | start : Act arc O q true q
  | up {v p : Name} : Act arc O q true v → ¬ O v → arc p v → Act arc O q true p
  | down {d : Bool} {v c : Name} : Act arc O q d v → ¬ O v → arc v c → Act arc O q false c
  | collider {v p : Name} : Act arc O q false v → (∃ w, O w ∧ Relation.ReflTransGen arc v w) →
      arc p v → Act arc O q true p

/-- nothing leaves an observed starting point -/
theorem Act.of_observed {arc : Name → Name → Prop} {O : Name → Prop} {q : Name} (hq : O q) {d : Bool}
    {v : Name} (h : Act arc O q d v) : v = q ∧ d = true := by
  induction h with
  | start => exact ⟨rfl, rfl⟩
  | up _ ho _ ih => exact absurd (ih.1 ▸ hq) ho
  | down _ ho _ ih => exact absurd (ih.1 ▸ hq) ho
  | collider _ _ _ ih => exact absurd ih.2 (by simp)

/-- `arc` is `arc'` with a childless node `s` added, whose parents are given by `P` -/
structure Sink (arc arc' : Name → Name → Prop) (s : Name) (P : Name → Prop) : Prop where
  iff : ∀ p v, arc p v ↔ arc' p v ∨ (v = s ∧ P p)
  out : ∀ v, ¬ arc' s v
  into : ∀ v, ¬ arc' v s
  self : ¬ P s

namespace Sink

variable {arc arc' : Name → Name → Prop} {s : Name} {P : Name → Prop}

theorem childless (h : Sink arc arc' s P) (v : Name) : ¬ arc s v := fun hv => by
  rcases (h.iff s v).1 hv with hv | hv
  · exact h.out v hv
  · exact h.self hv.2

theorem reach_self (h : Sink arc arc' s P) {w : Name} (hw : Relation.ReflTransGen arc s w) : w = s := by
  rcases Relation.ReflTransGen.cases_head hw with rfl | ⟨c, hc, -⟩
  · rfl
  · exact absurd hc (h.childless c)

/-- a path leads into `s` or stays in the smaller graph -/
theorem path (h : Sink arc arc' s P) {v w : Name} (hw : Relation.ReflTransGen arc v w) :
    Relation.ReflTransGen arc' v w ∨ (w = s ∧ ∃ p, P p ∧ Relation.ReflTransGen arc' v p) := by
  induction hw with
  | refl => exact .inl .refl
  | tail _ hb ih =>
    rcases ih with ih | ⟨rfl, -⟩
    · rcases (h.iff _ _).1 hb with hb | ⟨rfl, hb⟩
      · exact .inl (ih.tail hb)
      · exact .inr ⟨rfl, _, hb, ih⟩
    · exact absurd hb (h.childless _)

theorem isolated (h : Sink arc arc' s P) {O : Name → Prop} {q : Name} (hq : q ≠ s) {d : Bool}
    (ha : Act arc' O q d s) : False := by
  have key : ∀ d v, Act arc' O q d v → v ≠ s := by
    intro d v ha
    induction ha with
    | start => exact hq
    | up _ _ hp => rintro rfl; exact h.out _ hp
    | down _ _ hp => rintro rfl; exact h.into _ hp
    | collider _ _ hp => rintro rfl; exact h.out _ hp
  exact key d s ha rfl

/-- an unobserved childless node is a dead end -/
theorem barren (h : Sink arc arc' s P) {O : Name → Prop} (hs : ¬ O s) {q : Name} (hq : q ≠ s) {d : Bool}
    {v : Name} (ha : Act arc O q d v) : Act arc' O q d v ∨
      (v = s ∧ d = false ∧ ∃ p, P p ∧ ¬ O p ∧ ∃ d', Act arc' O q d' p) := by
  induction ha with
  | start => exact .inl .start
  | up _ ho hp ih =>
    rcases ih with ih | ⟨-, h1, -⟩
    · rcases (h.iff _ _).1 hp with hp | ⟨rfl, -⟩
      · exact .inl (ih.up ho hp)
      · exact (h.isolated hq ih).elim
    · exact absurd h1 (by simp)
  | down _ ho hp ih =>
    rcases ih with ih | ⟨rfl, -⟩
    · rcases (h.iff _ _).1 hp with hp | ⟨rfl, hp⟩
      · exact .inl (ih.down ho hp)
      · exact .inr ⟨rfl, rfl, _, hp, ho, _, ih⟩
    · exact absurd hp (h.childless _)
  | collider _ hw hp ih =>
    obtain ⟨w, hw, hr⟩ := hw
    rcases ih with ih | ⟨rfl, -⟩
    · rcases (h.iff _ _).1 hp with hp | ⟨rfl, -⟩
      · rcases h.path hr with hr | ⟨rfl, -⟩
        · exact .inl (ih.collider ⟨w, hw, hr⟩ hp)
        · exact absurd hw hs
      · exact (h.isolated hq ih).elim
    · exact absurd (h.reach_self hr ▸ hw) hs

/-- starting in an unobserved childless node -/
theorem first (h : Sink arc arc' s P) {O : Name → Prop} (hs : ¬ O s) {d : Bool} {v : Name}
    (ha : Act arc O s d v) : v = s ∨ ∃ p, P p ∧ Act arc' O p d v := by
  induction ha with
  | start => exact .inl rfl
  | up _ ho hp ih =>
    rcases (h.iff _ _).1 hp with hp' | ⟨-, hp'⟩
    · rcases ih with rfl | ⟨p, h1, ih⟩
      · exact absurd hp' (h.into _)
      · exact .inr ⟨p, h1, ih.up ho hp'⟩
    · exact .inr ⟨_, hp', .start⟩
  | down _ ho hp ih =>
    rcases ih with rfl | ⟨p, h1, ih⟩
    · exact absurd hp (h.childless _)
    · rcases (h.iff _ _).1 hp with hp | ⟨rfl, -⟩
      · exact .inr ⟨p, h1, ih.down ho hp⟩
      · exact .inl rfl
  | collider _ hw hp ih =>
    obtain ⟨w, hw, hr⟩ := hw
    rcases ih with rfl | ⟨p, h1, ih⟩
    · exact absurd (h.reach_self hr ▸ hw) hs
    · rcases (h.iff _ _).1 hp with hp | ⟨rfl, hp⟩
      · rcases h.path hr with hr | ⟨rfl, -⟩
        · exact .inr ⟨p, h1, ih.collider ⟨w, hw, hr⟩ hp⟩
        · exact absurd hw hs
      · exact .inr ⟨_, hp, .start⟩

end Sink

theorem Act.descend {arc : Name → Name → Prop} {O : Name → Prop} {q : Name} {d : Bool} {v u : Name}
    (h : Act arc O q d v) (hp : Relation.ReflTransGen arc v u)
    (ho : ∀ w, Relation.ReflTransGen arc v w → ¬ O w) : ∃ d', Act arc O q d' u := by
  induction hp with
  | refl => exact ⟨d, h⟩
  | tail h1 h2 ih =>
    obtain ⟨d', ih⟩ := ih
    exact ⟨false, ih.down (ho _ h1) h2⟩

theorem Act.ascend {arc : Name → Name → Prop} {O : Name → Prop} {v u : Name}
    (hp : Relation.ReflTransGen arc v u) (ho : ∀ w, Relation.ReflTransGen arc v w → ¬ O w) :
    Act arc O u true v := by
  induction hp using Relation.ReflTransGen.head_induction_on with
  | refl => exact .start
  | head h1 h2 ih => exact (ih fun w hw => ho w (.head h1 hw)).up (ho _ (.single h1)) h1

/-- An observed childless node: a trail avoids it or leads from both sides to parents of it. -/
theorem Sink.observed {arc arc' : Name → Name → Prop} {s : Name} {P : Name → Prop}
    (h : Sink arc arc' s P) {O : Name → Prop} (hs : O s) {q : Name} (hq : q ≠ s) {d : Bool} {v : Name}
    (ha : Act arc O q d v) : Act arc' (fun w => O w ∧ w ≠ s) q d v ∨
      ((∃ p, P p ∧ ¬ (O p ∧ p ≠ s) ∧ ∃ d', Act arc' (fun w => O w ∧ w ≠ s) q d' p) ∧
        ((v = s ∧ d = false) ∨ ∃ p, P p ∧ Act arc' (fun w => O w ∧ w ≠ s) p d v)) := by
  set O' := fun w => O w ∧ w ≠ s with hO'
  have hne : ∀ p, P p → p ≠ s := fun p hp e => h.self (e ▸ hp)
  have hobs : ∀ w, ¬ O w → ¬ O' w := fun w hw hw' => hw hw'.1
  -- a collider
  have coll : ∀ q', q' ≠ s → ∀ v p, Act arc' O' q' false v → (∃ w, O w ∧ Relation.ReflTransGen arc v w) →
      arc' p v → Act arc' O' q' true p ∨ ∃ u, P u ∧ ¬ O' u ∧ (∃ d', Act arc' O' q' d' u) ∧
        Act arc' O' u true p := by
    intro q' hq' v p hv hw hp
    by_cases hr : ∃ w, O' w ∧ Relation.ReflTransGen arc' v w
    · exact .inl (hv.collider hr hp)
    · have hun : ∀ w, Relation.ReflTransGen arc' v w → ¬ O' w := fun w h1 h2 => hr ⟨w, h2, h1⟩
      obtain ⟨w, hw, hvw⟩ := hw
      rcases h.path hvw with hvw | ⟨rfl, u, hu, hvu⟩
      · by_cases hws : w = s
        · subst hws
          rcases Relation.ReflTransGen.cases_tail hvw with rfl | ⟨c, -, hc⟩
          · exact (h.isolated hq' hv).elim
          · exact absurd hc (h.into _)
        · exact absurd ⟨hw, hws⟩ (hun w hvw)
      · exact .inr ⟨u, hu, hun u hvu, hv.descend hvu hun, (Act.ascend hvu hun).up (hun v .refl) hp⟩
  induction ha with
  | start => exact .inl .start
  | up _ ho hp ih =>
    rcases (h.iff _ _).1 hp with hp' | ⟨rfl, -⟩
    · rcases ih with ih | ⟨h1, ⟨-, h2⟩ | ⟨p, h2, ih⟩⟩
      · exact .inl (ih.up (hobs _ ho) hp')
      · exact absurd h2 (by simp)
      · exact .inr ⟨h1, .inr ⟨p, h2, ih.up (hobs _ ho) hp'⟩⟩
    · exact absurd hs ho
  | down _ ho hp ih =>
    rcases (h.iff _ _).1 hp with hp' | ⟨rfl, hp'⟩
    · rcases ih with ih | ⟨h1, ⟨rfl, -⟩ | ⟨p, h2, ih⟩⟩
      · exact .inl (ih.down (hobs _ ho) hp')
      · exact absurd hs ho
      · exact .inr ⟨h1, .inr ⟨p, h2, ih.down (hobs _ ho) hp'⟩⟩
    · rcases ih with ih | ⟨h1, -⟩
      · exact .inr ⟨⟨_, hp', hobs _ ho, _, ih⟩, .inl ⟨rfl, rfl⟩⟩
      · exact .inr ⟨h1, .inl ⟨rfl, rfl⟩⟩
  | collider _ hw hp ih =>
    rcases ih with ih | ⟨h1, ⟨rfl, -⟩ | ⟨p, h2, ih⟩⟩
    · rcases (h.iff _ _).1 hp with hp' | ⟨rfl, -⟩
      · rcases coll q hq _ _ ih hw hp' with h' | ⟨u, u1, u2, u3, u4⟩
        · exact .inl h'
        · exact .inr ⟨⟨u, u1, u2, u3⟩, .inr ⟨u, u1, u4⟩⟩
      · exact (h.isolated hq ih).elim
    · rcases (h.iff _ _).1 hp with hp' | ⟨-, hp'⟩
      · exact absurd hp' (h.into _)
      · exact .inr ⟨h1, .inr ⟨_, hp', .start⟩⟩
    · rcases (h.iff _ _).1 hp with hp' | ⟨rfl, -⟩
      · rcases coll p (hne p h2) _ _ ih hw hp' with h' | ⟨u, u1, u2, u3, u4⟩
        · exact .inr ⟨h1, .inr ⟨p, h2, h'⟩⟩
        · exact .inr ⟨h1, .inr ⟨u, u1, u4⟩⟩
      · exact (h.isolated (hne p h2) ih).elim

end Primo
