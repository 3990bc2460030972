import Verif.Spec.Generator
import Verif.Lemmas.Rand

/-! # Generators: the steps in place are the steps; references against values -/

namespace Primo

namespace Rand
variable {α β γ : Type}

theorem bind_pure_left (a : α) (f : α → Rand β) : (Rand.pure a).bind f = f a := rfl

theorem bind_pure_right : ∀ m : Rand α, m.bind Rand.pure = m
  | .pure _ => rfl
  | .choice n k => by
    simp only [bind]
    congr 1
    funext i
    exact bind_pure_right _
  | .uniform k => by
    simp only [bind]
    congr 1
    funext u
    exact bind_pure_right _

theorem bind_congr {f g : α → Rand β} (m : Rand α) (h : ∀ a, f a = g a) : m.bind f = m.bind g := by
  rw [funext h]

end Rand

namespace Mcmc

/-- forget the contents left behind by an exception -/
def outcome (x : Dict Val × Option PyErr) : Except PyErr (Dict Val) :=
  match x.2 with
  | none => .ok x.1
  | some e => .error e

/-- the tree of `m`, without the contents left behind by exceptions -/
def forget (m : Rand (Dict Val × Option PyErr)) : Rand (Except PyErr (Dict Val)) :=
  m.bind fun x => .pure (outcome x)

theorem forget_inPlace {m : Rand (Dict Val × Option PyErr)}
    {f : Dict Val → Rand (Dict Val × Option PyErr)} :
    forget (inPlace m f) = (forget m).andThen fun d => forget (f d) := by
  unfold forget inPlace Rand.andThen
  simp only [Rand.bind_assoc]
  refine Rand.bind_congr m fun x => ?_
  rcases x with ⟨d, _ | e⟩ <;> rfl

theorem forget_siteIn (site : NodeV → Dict Val → Rand (Except PyErr (Dict Val))) (n : NodeV)
    (d : Dict Val) : forget (siteIn site n d) = site n d := by
  unfold forget siteIn
  simp only [Rand.bind_assoc]
  conv_rhs => rw [← Rand.bind_pure_right (site n d)]
  refine Rand.bind_congr _ fun x => ?_
  rcases x with e | d <;> rfl

theorem forget_sweepIn (site : NodeV → Dict Val → Rand (Except PyErr (Dict Val))) :
    ∀ (ns : List NodeV) (d : Dict Val), forget (sweepIn site ns d) = sweep site ns d
  | [], _ => rfl
  | n :: ns, d => by
    simp only [sweepIn, sweep, forget_inPlace, forget_siteIn, forget_sweepIn site ns]

theorem forget_siteStepIn (site : NodeV → Dict Val → Rand (Except PyErr (Dict Val)))
    (vars : List NodeV) (full : Bool) (d : Dict Val) :
    forget (siteStepIn site vars full d) = siteStep site vars full d := by
  unfold siteStepIn siteStep
  split
  · exact forget_sweepIn site vars d
  · unfold forget Rand.andThen
    simp only [Rand.bind_assoc]
    refine Rand.bind_congr _ fun x => ?_
    rcases x with e | n
    · rfl
    · exact forget_siteIn site n d

theorem forget_stepIn (tm : Transition) (bn : BN) (vars : List NodeV) (full : Bool) (d : Dict Val) :
    forget (stepIn tm bn vars full d) = step tm bn vars full d := by
  cases tm
  · rfl
  · exact forget_siteStepIn _ _ _ _
  · exact forget_siteStepIn _ _ _ _

theorem forget_burnInPlace {stpIn : Dict Val → Rand (Dict Val × Option PyErr)}
    {stp : Dict Val → Rand (Except PyErr (Dict Val))} (h : ∀ d, forget (stpIn d) = stp d) :
    ∀ (k : Nat) (d : Dict Val), forget (burnInPlace stpIn k d) = burn stp k d
  | 0, _ => rfl
  | k + 1, d => by
    simp only [burnInPlace, burn, forget_inPlace, h, forget_burnInPlace h k]

/-! ### references against values -/

open Client

/-- who may write into a dict object -/
inductive Owner
  | client (h : Nat)
  | gen (g : Nat)

/-- the places of corresponding generators correspond -/
def FrameSim (w : World) (own : Nat → Owner) (st : List Status) (g : Nat) : Frame → VFrame → Prop
  | .fresh i ev, .fresh i' ev' => st[i']? = some .own ∧ i = w.handles.getD i' 0 ∧
      (∀ e ∈ ev', st[e]? = some .own) ∧ ev = ev'.map fun h => w.handles.getD h 0
  | .paused vars r left, .paused vars' d left' => vars = vars' ∧ left = left' ∧
      r < w.mem.length ∧ own r = .gen g ∧ w.dict r = d
  | .done, .done => True
  | _, _ => False

/-- the memory `w` shows a disciplined program the same as the values `v` -/
structure Sim (own : Nat → Owner) (st : List Status) (n : Nat) (w : World) (v : VWorld) : Prop where
  hst : w.handles.length = st.length
  vst : v.vals.length = st.length
  hn : w.gens.length = n
  vn : v.gens.length = n
  bound : ∀ h, h < st.length → w.handles.getD h 0 < w.mem.length
  mine : ∀ h, st[h]? = some .own → own (w.handles.getD h 0) = .client h ∧ w.read h = v.read h
  states : ∀ h g, st[h]? = some (.state g) → own (w.handles.getD h 0) = .gen g ∧
    w.read h = v.read h
  gens : ∀ g (o : GenObj), w.gens[g]? = some o → ∃ o' : VGen, v.gens[g]? = some o' ∧
    o.sampler = o'.sampler ∧ o.bn = o'.bn ∧ o.numSamples = o'.numSamples ∧
    FrameSim w own st g o.frame o'.frame

theorem getD_append_left {α : Type} {l m : List α} {i : Nat} (h : i < l.length) (d : α) :
    (l ++ m).getD i d = l.getD i d := by
  simp [List.getD, List.getElem?_append_left h]

theorem getD_append_self {α : Type} {l : List α} {x : α} (d : α) :
    (l ++ [x]).getD l.length d = x := by
  simp [List.getD]

theorem lt_of_getElem? {α : Type} {l : List α} {i : Nat} {x : α} (h : l[i]? = some x) :
    i < l.length := (List.getElem?_eq_some_iff.1 h).1

theorem getElem?_append_one {α : Type} {l : List α} {y : α} {i : Nat} {x : α}
    (h : (l ++ [y])[i]? = some x) : l[i]? = some x ∨ i = l.length ∧ y = x := by
  rcases lt_or_ge i l.length with hi | hi
  · left
    rwa [List.getElem?_append_left hi] at h
  · right
    have := lt_of_getElem? h
    simp only [List.length_append, List.length_singleton] at this
    have hi' : i = l.length := by omega
    subst hi'
    simpa using h

theorem dict_write (w : World) (r : Nat) (d : Dict Val) (r' : Nat) (hr : r < w.mem.length) :
    (w.write r d).dict r' = if r' = r then d else w.dict r' := by
  unfold World.write World.dict
  simp only [List.getD, List.getElem?_set]
  by_cases h : r' = r
  · subst h
    simp [hr]
  · simp [h, Ne.symm h]

theorem Sim.live {own : Nat → Owner} {st : List Status} {n : Nat} {w : World} {v : VWorld}
    (hs : Sim own st n w v) {h : Nat} (hh : st[h]? = some .own ∨ ∃ g, st[h]? = some (.state g)) :
    w.read h = v.read h := by
  rcases hh with hh | ⟨g, hh⟩
  · exact (hs.mine h hh).2
  · exact (hs.states h g hh).2

/-- a new dict of the program -/
theorem Sim.alloc {own : Nat → Owner} {st : List Status} {n : Nat} {w : World} {v : VWorld}
    (hs : Sim own st n w v) (d : Dict Val) :
    Sim (Function.update own w.mem.length (.client st.length)) (st ++ [.own]) n (w.alloc d)
      { v with vals := v.vals ++ [d] } := by
  have hold : ∀ h, h < st.length → (w.alloc d).handles.getD h 0 = w.handles.getD h 0 := fun h hh =>
    getD_append_left (by rw [hs.hst]; exact hh) 0
  have hdict : ∀ r, r < w.mem.length → (w.alloc d).dict r = w.dict r := fun r hr =>
    getD_append_left hr []
  have hread : ∀ h, h < st.length → (w.alloc d).read h = w.read h := fun h hh => by
    unfold World.read
    rw [hold h hh, hdict _ (hs.bound h hh)]
  have hvread : ∀ h, h < st.length →
      VWorld.read { v with vals := v.vals ++ [d] } h = v.read h := fun h hh =>
    getD_append_left (by rw [hs.vst]; exact hh) []
  have hown : ∀ h, h < st.length → Function.update own w.mem.length (.client st.length)
      (w.handles.getD h 0) = own (w.handles.getD h 0) := fun h hh =>
    Function.update_of_ne (hs.bound h hh).ne _ _
  refine ⟨by simp [World.alloc, hs.hst], by simp [hs.vst], hs.hn, hs.vn, ?_, ?_, ?_, ?_⟩
  · intro h hh
    have hlen : (w.alloc d).mem.length = w.mem.length + 1 := by simp [World.alloc]
    rw [hlen]
    simp only [List.length_append, List.length_singleton] at hh
    rcases lt_or_ge h st.length with hl | hl
    · rw [hold h hl]
      exact Nat.lt_succ_of_lt (hs.bound h hl)
    · have : h = w.handles.length := by rw [hs.hst]; omega
      subst this
      have : (w.alloc d).handles.getD w.handles.length 0 = w.mem.length := getD_append_self 0
      rw [this]
      exact Nat.lt_succ_self _
  · intro h hh
    rcases getElem?_append_one hh with hh | ⟨rfl, -⟩
    · have hl := lt_of_getElem? hh
      rw [hold h hl, hown h hl, hread h hl, hvread h hl]
      exact hs.mine h hh
    · have hlast : (w.alloc d).handles.getD st.length 0 = w.mem.length := by
        rw [← hs.hst]
        exact getD_append_self 0
      refine ⟨by rw [hlast]; exact Function.update_self _ _ _, ?_⟩
      unfold World.read
      rw [hlast]
      have : VWorld.read { v with vals := v.vals ++ [d] } st.length = d := by
        rw [← hs.vst]
        exact getD_append_self []
      rw [this]
      exact getD_append_self []
  · intro h g hh
    rcases getElem?_append_one hh with hh | ⟨-, h'⟩
    · have hl := lt_of_getElem? hh
      rw [hold h hl, hown h hl, hread h hl, hvread h hl]
      exact hs.states h g hh
    · cases h'
  · intro g o ho
    obtain ⟨o', h1, h2, h3, h4, h5⟩ := hs.gens g o ho
    refine ⟨o', h1, h2, h3, h4, ?_⟩
    revert h5
    cases o.frame <;> cases o'.frame <;> intro h5 <;> try exact h5
    · obtain ⟨a, b, c, e⟩ := h5
      have ha := lt_of_getElem? a
      refine ⟨by rw [List.getElem?_append_left ha]; exact a, by rw [hold _ ha]; exact b, ?_, ?_⟩
      · intro x hx
        have := c x hx
        rw [List.getElem?_append_left (lt_of_getElem? this)]
        exact this
      · rw [e]
        refine Option.map_congr fun x hx => ?_
        rw [hold _ (lt_of_getElem? (c x hx))]
    · obtain ⟨a, b, c, e, f⟩ := h5
      refine ⟨a, b, by simp only [World.alloc, List.length_append, List.length_singleton]; omega,
        ?_, by rw [hdict _ c]; exact f⟩
      rw [Function.update_of_ne c.ne]
      exact e

/-- a write into a dict of the program -/
theorem Sim.put {own : Nat → Owner} {st : List Status} {n : Nat} {w : World} {v : VWorld}
    (hs : Sim own st n w v) {h : Nat} (hh : st[h]? = some .own) (d : Dict Val) :
    Sim own st n (w.write (w.handles.getD h 0) d) { v with vals := v.vals.set h d } := by
  have hl := lt_of_getElem? hh
  have hb := hs.bound h hl
  have ho := (hs.mine h hh).1
  have hread : ∀ h', own (w.handles.getD h' 0) ≠ .client h →
      (w.write (w.handles.getD h 0) d).read h' = w.read h' := by
    intro h' hne
    unfold World.read
    show (w.write (w.handles.getD h 0) d).dict (w.handles.getD h' 0) = _
    rw [dict_write _ _ _ _ hb, if_neg]
    intro e
    rw [e] at hne
    exact hne ho
  have hvread : ∀ h', h' ≠ h → VWorld.read { v with vals := v.vals.set h d } h' = v.read h' := by
    intro h' hne
    unfold VWorld.read
    simp only [List.getD, List.getElem?_set]
    simp [Ne.symm hne]
  refine ⟨hs.hst, by simpa using hs.vst, hs.hn, hs.vn, ?_, ?_, ?_, ?_⟩
  · intro h' hh'
    simp only [World.write, List.length_set]
    exact hs.bound h' hh'
  · intro h' hh'
    refine ⟨(hs.mine h' hh').1, ?_⟩
    by_cases e : h' = h
    · subst e
      unfold World.read
      show (w.write (w.handles.getD h' 0) d).dict (w.handles.getD h' 0) = _
      rw [dict_write _ _ _ _ hb, if_pos rfl]
      unfold VWorld.read
      have : h' < v.vals.length := by rw [hs.vst]; exact hl
      simp [List.getD, this]
    · rw [hread h' (by rw [(hs.mine h' hh').1]; intro e'; cases e'; exact e rfl), hvread h' e]
      exact (hs.mine h' hh').2
  · intro h' g hh'
    refine ⟨(hs.states h' g hh').1, ?_⟩
    have e : h' ≠ h := by
      rintro rfl
      rw [hh] at hh'
      cases hh'
    rw [hread h' (by rw [(hs.states h' g hh').1]; intro e'; cases e'), hvread h' e]
    exact (hs.states h' g hh').2
  · intro g o ho'
    obtain ⟨o', h1, h2, h3, h4, h5⟩ := hs.gens g o ho'
    refine ⟨o', h1, h2, h3, h4, ?_⟩
    revert h5
    cases o.frame <;> cases o'.frame <;> intro h5 <;> try exact h5
    obtain ⟨a, b, c, e, f⟩ := h5
    refine ⟨a, b, by simpa [World.write] using c, e, ?_⟩
    rw [dict_write _ _ _ _ hb, if_neg]
    · exact f
    · rintro rfl
      rw [ho] at e
      cases e

/-- a new generator -/
theorem Sim.start {own : Nat → Owner} {st : List Status} {n : Nat} {w : World} {v : VWorld}
    (hs : Sim own st n w v) (s : Sampler) (bn : BN) (m i : Nat) (ev : Option Nat)
    (hi : st[i]? = some .own) (he : ∀ e ∈ ev, st[e]? = some .own) :
    Sim own st (n + 1) { w with gens := w.gens ++
        [⟨s, bn, m, .fresh (w.handles.getD i 0) (ev.map fun h => w.handles.getD h 0)⟩] }
      { v with gens := v.gens ++ [⟨s, bn, m, .fresh i ev⟩] } := by
  refine ⟨hs.hst, hs.vst, by simp [hs.hn], by simp [hs.vn], hs.bound, hs.mine, hs.states, ?_⟩
  intro g o ho
  rcases getElem?_append_one ho with ho | ⟨rfl, rfl⟩
  · obtain ⟨o', h1, h2⟩ := hs.gens g o ho
    refine ⟨o', ?_, h2⟩
    rw [List.getElem?_append_left (lt_of_getElem? h1)]
    exact h1
  · refine ⟨⟨s, bn, m, .fresh i ev⟩, ?_, rfl, rfl, rfl, hi, rfl, he, rfl⟩
    rw [hs.hn, ← hs.vn]
    simp

theorem leave_own (g : Nat) {s : Status} : s.leave g = .own ↔ s = .own := by
  unfold Status.leave
  split
  · next h => simp [h]
  · rfl

theorem leave_state (g g' : Nat) {s : Status} : s.leave g = .state g' ↔ s = .state g' ∧ g' ≠ g := by
  unfold Status.leave
  split
  · next h =>
    subst h
    simp only [reduceCtorEq, Status.state.injEq, false_iff, not_and, not_not]
    exact fun h => h.symm
  · next h =>
    constructor
    · rintro rfl
      exact ⟨rfl, fun e => h (e ▸ rfl)⟩
    · exact And.left

theorem map_leave_own {st : List Status} {g h : Nat} :
    (st.map (Status.leave g))[h]? = some .own ↔ st[h]? = some .own := by
  rw [List.getElem?_map]
  cases st[h]? with
  | none => simp
  | some s => simpa using leave_own g

theorem map_leave_state {st : List Status} {g g' h : Nat} :
    (st.map (Status.leave g))[h]? = some (.state g') ↔ st[h]? = some (.state g') ∧ g' ≠ g := by
  rw [List.getElem?_map]
  cases st[h]? with
  | none => simp
  | some s => simpa using leave_state g g'

theorem FrameSim.mono {w w' : World} {own own' : Nat → Owner} {st st' : List Status} {g : Nat}
    {f : Frame} {f' : VFrame} (hf : FrameSim w own st g f f')
    (hst : ∀ h, st[h]? = some .own → st'[h]? = some .own ∧
      w'.handles.getD h 0 = w.handles.getD h 0)
    (hr : ∀ r, r < w.mem.length → own r = .gen g → r < w'.mem.length ∧ own' r = .gen g ∧
      w'.dict r = w.dict r) : FrameSim w' own' st' g f f' := by
  revert hf
  cases f <;> cases f' <;> intro hf <;> try exact hf
  · obtain ⟨a, b, c, e⟩ := hf
    refine ⟨(hst _ a).1, by rw [(hst _ a).2]; exact b, fun x hx => (hst _ (c x hx)).1, ?_⟩
    rw [e]
    exact Option.map_congr fun x hx => ((hst _ (c x hx)).2).symm
  · obtain ⟨a, b, c, e, f⟩ := hf
    obtain ⟨h1, h2, h3⟩ := hr _ c e
    exact ⟨a, b, h1, h2, by rw [h3]; exact f⟩

/-- a generator makes its dict -/
theorem Sim.grow {own : Nat → Owner} {st : List Status} {n : Nat} {w : World} {v : VWorld}
    (hs : Sim own st n w v) (d : Dict Val) (g : Nat) :
    Sim (Function.update own w.mem.length (.gen g)) st n { w with mem := w.mem ++ [d] } v := by
  have hdict : ∀ r, r < w.mem.length → World.dict { w with mem := w.mem ++ [d] } r = w.dict r :=
    fun r hr => getD_append_left hr []
  have hread : ∀ h, h < st.length → World.read { w with mem := w.mem ++ [d] } h = w.read h :=
    fun h hh => hdict _ (hs.bound h hh)
  have hown : ∀ h, h < st.length → Function.update own w.mem.length (.gen g)
      (w.handles.getD h 0) = own (w.handles.getD h 0) := fun h hh =>
    Function.update_of_ne (hs.bound h hh).ne _ _
  refine ⟨hs.hst, hs.vst, hs.hn, hs.vn, ?_, ?_, ?_, ?_⟩
  · intro h hh
    simp only [List.length_append, List.length_singleton]
    exact Nat.lt_succ_of_lt (hs.bound h hh)
  · intro h hh
    have hl := lt_of_getElem? hh
    refine ⟨(hown h hl).trans (hs.mine h hh).1, (hread h hl).trans (hs.mine h hh).2⟩
  · intro h g' hh
    have hl := lt_of_getElem? hh
    exact ⟨(hown h hl).trans (hs.states h g' hh).1, (hread h hl).trans (hs.states h g' hh).2⟩
  · intro g' o ho
    obtain ⟨o', h1, h2, h3, h4, h5⟩ := hs.gens g' o ho
    refine ⟨o', h1, h2, h3, h4, h5.mono (fun h hh => ⟨hh, rfl⟩) fun r hr ho => ?_⟩
    exact ⟨by simp only [List.length_append, List.length_singleton]; omega,
      by rw [Function.update_of_ne hr.ne]; exact ho, hdict r hr⟩

/-- a generator ends without having changed anything -/
theorem Sim.stop {own : Nat → Owner} {st : List Status} {n : Nat} {w : World} {v : VWorld}
    (hs : Sim own st n w v) (g : Nat) (o : GenObj) (o' : VGen) (ho : o.sampler = o'.sampler)
    (hb : o.bn = o'.bn) (hn : o.numSamples = o'.numSamples) :
    Sim own st n (w.goto g o .done) (v.goto g o' .done) := by
  refine ⟨hs.hst, hs.vst, by simpa [World.goto] using hs.hn, by simpa [VWorld.goto] using hs.vn,
    hs.bound, hs.mine, hs.states, ?_⟩
  intro g' p hp
  simp only [World.goto, List.getElem?_set] at hp
  by_cases e : g = g'
  · subst e
    simp only [if_true] at hp
    split at hp
    · next hlt =>
      cases hp
      refine ⟨{ o' with frame := .done }, ?_, ho, hb, hn, trivial⟩
      have : g < v.gens.length := by rw [hs.vn, ← hs.hn]; exact hlt
      simp [VWorld.goto, this]
    · cases hp
  · simp only [e, if_false] at hp
    obtain ⟨p', h1, h2⟩ := hs.gens g' p hp
    refine ⟨p', ?_, h2⟩
    simpa [VWorld.goto, e] using h1

/-- a generator changes its dict and moves on -/
theorem Sim.move {own : Nat → Owner} {st : List Status} {n : Nat} {w : World} {v : VWorld}
    (hs : Sim own st n w v) {g : Nat} {o : GenObj} {o' : VGen} (ho : o.sampler = o'.sampler)
    (hb : o.bn = o'.bn) (hn : o.numSamples = o'.numSamples) {r : Nat} (hr : r < w.mem.length)
    (hor : own r = .gen g) (d : Dict Val) {f : Frame} {f' : VFrame}
    (hf : f = .done ∧ f' = .done ∨ ∃ vars left, f = .paused vars r left ∧
      f' = .paused vars d left) :
    Sim own (st.map (Status.leave g)) n ((w.write r d).goto g o f) (v.goto g o' f') := by
  have hread : ∀ h, own (w.handles.getD h 0) ≠ .gen g →
      World.read ((w.write r d).goto g o f) h = w.read h := by
    intro h hne
    show (w.write r d).dict (w.handles.getD h 0) = w.dict (w.handles.getD h 0)
    rw [dict_write _ _ _ _ hr, if_neg]
    intro e
    rw [e] at hne
    exact hne hor
  refine ⟨by simpa [World.goto, World.write] using hs.hst, by simpa [VWorld.goto] using hs.vst,
    by simpa [World.goto, World.write] using hs.hn, by simpa [VWorld.goto] using hs.vn, ?_, ?_, ?_,
    ?_⟩
  · intro h hh
    simp only [List.length_map] at hh
    simpa [World.goto, World.write] using hs.bound h hh
  · intro h hh
    rw [map_leave_own] at hh
    refine ⟨(hs.mine h hh).1, ?_⟩
    rw [hread h (by rw [(hs.mine h hh).1]; intro e; cases e)]
    exact (hs.mine h hh).2
  · intro h g' hh
    rw [map_leave_state] at hh
    refine ⟨(hs.states h g' hh.1).1, ?_⟩
    rw [hread h (by rw [(hs.states h g' hh.1).1]; intro e; cases e; exact hh.2 rfl)]
    exact (hs.states h g' hh.1).2
  · intro g' p hp
    simp only [World.goto, World.write, List.getElem?_set] at hp
    by_cases e : g = g'
    · subst e
      simp only [if_true] at hp
      split at hp
      · next hlt =>
        cases hp
        refine ⟨{ o' with frame := f' }, ?_, ho, hb, hn, ?_⟩
        · have : g < v.gens.length := by rw [hs.vn, ← hs.hn]; exact hlt
          simp [VWorld.goto, this]
        · rcases hf with ⟨rfl, rfl⟩ | ⟨vars, left, rfl, rfl⟩
          · trivial
          · refine ⟨rfl, rfl, by simpa [World.goto, World.write] using hr, hor, ?_⟩
            show (w.write r d).dict r = d
            rw [dict_write _ _ _ _ hr, if_pos rfl]
      · cases hp
    · simp only [e, if_false] at hp
      obtain ⟨p', h1, h2, h3, h4, h5⟩ := hs.gens g' p hp
      refine ⟨p', by simpa [VWorld.goto, e] using h1, h2, h3, h4,
        h5.mono (fun h hh => ⟨map_leave_own.2 hh, rfl⟩) fun r' hr' ho' => ?_⟩
      refine ⟨by simpa [World.goto, World.write] using hr', ho', ?_⟩
      show (w.write r d).dict r' = _
      rw [dict_write _ _ _ _ hr, if_neg]
      rintro rfl
      rw [hor] at ho'
      cases ho'
      exact e rfl

/-- the state is handed out -/
theorem Sim.handOut {own : Nat → Owner} {st : List Status} {n : Nat} {w : World} {v : VWorld}
    (hs : Sim own st n w v) {g r : Nat} (hr : r < w.mem.length) (hor : own r = .gen g) :
    Sim own (st ++ [.state g]) n { w with handles := w.handles ++ [r] }
      { v with vals := v.vals ++ [w.dict r] } := by
  have hold : ∀ h, h < st.length →
      (w.handles ++ [r]).getD h 0 = w.handles.getD h 0 :=
    fun h hh => getD_append_left (by rw [hs.hst]; exact hh) 0
  have hread : ∀ h, h < st.length →
      World.read { w with handles := w.handles ++ [r] } h = w.read h := fun h hh => by
    show w.dict ((w.handles ++ [r]).getD h 0) = _
    rw [hold h hh]
    rfl
  have hvread : ∀ h, h < st.length →
      VWorld.read { v with vals := v.vals ++ [w.dict r] } h = v.read h := fun h hh =>
    getD_append_left (by rw [hs.vst]; exact hh) []
  have hlast : (w.handles ++ [r]).getD st.length 0 = r := by
    rw [← hs.hst]
    exact getD_append_self 0
  refine ⟨by simp [hs.hst], by simp [hs.vst], hs.hn, hs.vn, ?_, ?_, ?_, ?_⟩
  · intro h hh
    simp only [List.length_append, List.length_singleton] at hh
    rcases lt_or_ge h st.length with hl | hl
    · rw [hold h hl]
      exact hs.bound h hl
    · have : h = st.length := by omega
      subst this
      rw [hlast]
      exact hr
  · intro h hh
    rcases getElem?_append_one hh with hh | ⟨-, h'⟩
    · have hl := lt_of_getElem? hh
      rw [hold h hl, hread h hl, hvread h hl]
      exact hs.mine h hh
    · cases h'
  · intro h g' hh
    rcases getElem?_append_one hh with hh | ⟨rfl, h'⟩
    · have hl := lt_of_getElem? hh
      rw [hold h hl, hread h hl, hvread h hl]
      exact hs.states h g' hh
    · cases h'
      refine ⟨by rw [hlast]; exact hor, ?_⟩
      unfold World.read
      rw [hlast]
      have : VWorld.read { v with vals := v.vals ++ [w.dict r] } st.length = w.dict r := by
        rw [← hs.vst]
        exact getD_append_self []
      rw [this]
      rfl
  · intro g' o ho
    obtain ⟨o', h1, h2, h3, h4, h5⟩ := hs.gens g' o ho
    refine ⟨o', h1, h2, h3, h4, h5.mono (fun h hh => ?_) fun r' hr' ho' => ⟨hr', ho', rfl⟩⟩
    have hl := lt_of_getElem? hh
    exact ⟨by rw [List.getElem?_append_left hl]; exact hh, hold h hl⟩

theorem advance_sim {β : Type} {own : Nat → Owner} {st : List Status} {n : Nat} {w : World}
    {v : VWorld} (hs : Sim own st n w v) {g : Nat} {o : GenObj} {o' : VGen}
    (ho : o.sampler = o'.sampler) (hb : o.bn = o'.bn) (hn : o.numSamples = o'.numSamples)
    (vars : List NodeV) {r : Nat} (hr : r < w.mem.length) (hor : own r = .gen g) (left : Nat)
    {F : World × Yield → Rand β} {G : VWorld × Yield → Rand β}
    (hstop : ∀ own w' v', Sim own st n w' v' → F (w', .stop) = G (v', .stop))
    (hraise : ∀ own w' v' e, Sim own (st.map (Status.leave g)) n w' v' →
      F (w', .raise e) = G (v', .raise e))
    (hval : ∀ own w' v', Sim own (st.map (Status.leave g) ++ [.state g]) n w' v' →
      F (w', .value st.length) = G (v', .value st.length)) :
    (w.advance g o vars r left).bind F = (v.advance g o' vars (w.dict r) left).bind G := by
  cases left with
  | zero => exact hstop own _ _ (hs.stop g o o' ho hb hn)
  | succ left =>
    simp only [World.advance, VWorld.advance, ← forget_stepIn, forget, ← ho, ← hb]
    simp only [Rand.bind_assoc, Rand.bind_pure_left]
    refine Rand.bind_congr _ fun x => ?_
    rcases x with ⟨d, _ | e⟩
    · simp only [outcome, Rand.bind_pure_left]
      have h1 := hs.move (f := .paused vars r left) (f' := .paused vars d left) ho hb hn hr hor d
        (.inr ⟨vars, left, rfl, rfl⟩)
      have hr' : r < ((w.write r d).goto g o (.paused vars r left)).mem.length := by
        simpa [World.goto, World.write] using hr
      have hd : World.dict ((w.write r d).goto g o (.paused vars r left)) r = d := by
        show (w.write r d).dict r = d
        rw [dict_write _ _ _ _ hr, if_pos rfl]
      have h2 := h1.handOut hr' hor
      rw [hd] at h2
      have := hval own _ _ h2
      rw [hs.hst, hs.vst]
      exact this
    · simp only [outcome, Rand.bind_pure_left]
      exact hraise own _ _ e (hs.move ho hb hn hr hor d (.inl ⟨rfl, rfl⟩))

theorem Sim.left {own : Nat → Owner} {st : List Status} {n : Nat} {w : World} {v : VWorld}
    (hs : Sim own st n w v) (g : Nat) : Sim own (st.map (Status.leave g)) n w v := by
  refine ⟨by simpa using hs.hst, by simpa using hs.vst, hs.hn, hs.vn, by simpa using hs.bound,
    fun h hh => hs.mine h (map_leave_own.1 hh), fun h g' hh => hs.states h g' (map_leave_state.1 hh).1,
    ?_⟩
  intro g' o ho
  obtain ⟨o', h1, h2, h3, h4, h5⟩ := hs.gens g' o ho
  exact ⟨o', h1, h2, h3, h4, h5.mono (fun h hh => ⟨map_leave_own.2 hh, rfl⟩)
    fun r hr ho => ⟨hr, ho, rfl⟩⟩

theorem next_sim {β : Type} {own : Nat → Owner} {st : List Status} {n : Nat} {w : World}
    {v : VWorld} (hs : Sim own st n w v) {g : Nat} (hg : g < n)
    {F : World × Yield → Rand β} {G : VWorld × Yield → Rand β}
    (hstop : ∀ own w' v', Sim own st n w' v' → F (w', .stop) = G (v', .stop))
    (hraise : ∀ own w' v' e, Sim own (st.map (Status.leave g)) n w' v' →
      F (w', .raise e) = G (v', .raise e))
    (hval : ∀ own w' v', Sim own (st.map (Status.leave g) ++ [.state g]) n w' v' →
      F (w', .value st.length) = G (v', .value st.length)) :
    (w.next g).bind F = (v.next g).bind G := by
  obtain ⟨o, ho⟩ : ∃ o, w.gens[g]? = some o := by
    rw [← hs.hn] at hg
    exact ⟨_, List.getElem?_eq_getElem hg⟩
  obtain ⟨o', h1, h2, h3, h4, h5⟩ := hs.gens g o ho
  unfold World.next VWorld.next
  rw [ho, h1]
  obtain ⟨s, bn, m, f⟩ := o
  obtain ⟨s', bn', m', f'⟩ := o'
  simp only at h2 h3 h4 h5 ⊢
  subst h2 h3 h4
  cases f <;> cases f' <;> try exact absurd h5 id
  · obtain ⟨a, b, c, e⟩ := h5
    subst b e
    have hev : ∀ ev' : Option Nat, (∀ e ∈ ev', st[e]? = some .own) →
        (ev'.map fun h => w.handles.getD h 0).map w.dict = ev'.map v.read := by
      intro ev' c
      cases ev' with
      | none => rfl
      | some e => exact congrArg some (hs.mine e (c e rfl)).2
    have hi := (hs.mine _ a).2
    simp only [World.read] at hi
    simp only [hev _ c]
    cases variablesToChange bn (Option.map v.read _) with
    | error e => exact hraise own _ _ e ((hs.stop _ _ _ rfl rfl rfl).left g)
    | ok vars =>
      simp only [← hi]
      rw [← forget_burnInPlace (fun d => forget_stepIn s.transitionModel bn vars s.fullChange d)]
      unfold forget
      simp only [Rand.bind_assoc, Rand.bind_pure_left]
      refine Rand.bind_congr _ fun x => ?_
      rcases x with ⟨d, _ | e⟩
      · simp only [outcome]
        rename_i i0 ev0
        have := advance_sim (hs.grow d g)
          (o := ⟨s, bn, m, .fresh (w.handles.getD i0 0) (ev0.map fun h => w.handles.getD h 0)⟩)
          (o' := ⟨s, bn, m, .fresh i0 ev0⟩) rfl rfl rfl vars
          (r := w.mem.length) (by simp) (Function.update_self _ _ _) m hstop hraise hval
        have hd : World.dict { w with mem := w.mem ++ [d] } w.mem.length = d := getD_append_self []
        rw [hd] at this
        exact this
      · simp only [outcome, Rand.bind_pure_left]
        exact hraise _ _ _ e (((hs.grow d g).stop _ _ _ rfl rfl rfl).left g)
  · obtain ⟨a, b, c, e, f⟩ := h5
    subst a b f
    exact advance_sim hs rfl rfl rfl _ c e _ hstop hraise hval
  · exact hstop own _ _ hs

/-- a disciplined program cannot tell references from values -/
theorem run_sim {α : Type} : ∀ (c : Client α) {own : Nat → Owner} {st : List Status} {n : Nat}
    {w : World} {v : VWorld}, Sim own st n w v → c.Disciplined st n →
    ((c.run w).bind fun r => Rand.pure r.2) = (c.runV v).bind fun r => .pure r.2
  | .ret a, _, _, _, _, _, _, _ => rfl
  | .new d k, _, st, _, w, v, hs, hc => by
    simp only [run, runV, hs.hst, hs.vst]
    exact run_sim _ (hs.alloc d) hc
  | .read h k, _, _, _, w, v, hs, hc => by
    simp only [run, runV, hs.live hc.1]
    exact run_sim _ hs (hc.2 _)
  | .put h key x k, _, _, _, w, v, hs, hc => by
    simp only [run, runV, hs.live (.inl hc.1)]
    exact run_sim _ (hs.put hc.1 _) hc.2
  | .copy h k, _, _, _, w, v, hs, hc => by
    simp only [run, runV, hs.hst, hs.vst, hs.live hc.1]
    exact run_sim _ (hs.alloc _) hc.2
  | .start s bn m i ev k, _, _, _, w, v, hs, hc => by
    simp only [run, runV, hs.hn, hs.vn]
    exact run_sim _ (hs.start s bn m i ev hc.1 hc.2.1) hc.2.2
  | .next g k, _, _, _, w, v, hs, hc => by
    simp only [run, runV, Rand.bind_assoc]
    exact next_sim hs hc.1 (fun _ _ _ h => run_sim _ h hc.2.2.1)
      (fun _ _ _ e h => run_sim _ h (hc.2.2.2 e)) (fun _ _ _ h => run_sim _ h hc.2.1)

end Mcmc
end Primo
