import Verif.Lemmas.Generator

/-! # Loops over a generator: one by one, `list`, copies; the order of exceptions -/

namespace Primo

namespace Rand
variable {α β γ : Type}

theorem andThen_congr (m : Rand (Except PyErr α)) {f g : α → Rand (Except PyErr β)}
    (h : ∀ a, f a = g a) : m.andThen f = m.andThen g := by rw [funext h]

theorem bind_andThen (m : Rand α) (f : α → Rand (Except PyErr β))
    (g : β → Rand (Except PyErr γ)) :
    (m.bind f).andThen g = m.bind fun a => (f a).andThen g := bind_assoc _ _ _

/-- there is a possible result -/
def Live : Rand α → Prop
  | .pure _ => True
  | .choice n k => 0 < n ∧ ∀ i < n, (k i).Live
  | .uniform k => ∀ u : ℝ, 0 ≤ u → u < 1 → (k u).Live

theorem Live.not_all : ∀ {m : Rand α}, m.Live → ¬ m.All fun _ => False
  | .pure _, _ => id
  | .choice _ _, h => fun ha => (h.2 0 h.1).not_all (ha 0 h.1)
  | .uniform _, h => fun ha => (h 0 le_rfl one_pos).not_all (ha 0 le_rfl one_pos)

theorem Live.bind {f : α → Rand β} (hf : ∀ a, (f a).Live) : ∀ {m : Rand α}, m.Live → (m.bind f).Live
  | .pure a, _ => hf a
  | .choice _ _, h => ⟨h.1, fun i hi => (h.2 i hi).bind hf⟩
  | .uniform _, h => fun u h0 h1 => (h u h0 h1).bind hf

theorem Live.andThen {f : α → Rand (Except PyErr β)} (hf : ∀ a, (f a).Live)
    {m : Rand (Except PyErr α)} (hm : m.Live) : (m.andThen f).Live :=
  hm.bind fun r => by
    rcases r with e | a
    · trivial
    · exact hf a

theorem live_choose [Inhabited α] (l : List α) : (choose l).Live := by
  unfold choose
  split
  · trivial
  · next h => exact ⟨List.length_pos_iff.2 h, fun _ _ => trivial⟩

theorem expect_zero : ∀ (m : Rand α), (m.expect fun _ => (0 : ℝ)) = 0
  | .pure _ => rfl
  | .choice n k => by
    rw [expect_choice, Finset.sum_eq_zero fun i _ => expect_zero (k i), zero_div]
  | .uniform k => by
    rw [expect_uniform]
    simp only [expect_zero, intervalIntegral.integral_zero]

end Rand

namespace Mcmc

theorem live_resample (n : NodeV) (d : Dict Val) (ch : List NodeV) (fw : Bool) :
    (n.resample d ch fw).Live := by
  refine Rand.Live.andThen (fun r => by cases r <;> trivial) ?_
  unfold NodeV.sampleValue
  split
  · trivial
  · refine Rand.Live.andThen (fun _ => ?_) trivial
    exact fun _ _ _ => trivial

theorem live_mhSite (bn : BN) (n : NodeV) (d : Dict Val) : (mhSite bn n d).Live := by
  unfold mhSite
  split
  · trivial
  · refine Rand.Live.andThen (fun _ => ?_) trivial
    refine Rand.Live.andThen (fun _ => ?_) ?_
    · refine Rand.Live.andThen (fun _ => ?_) trivial
      refine Rand.Live.andThen (fun _ => ?_) trivial
      exact fun _ _ _ => trivial
    · unfold NodeV.sampleLocal
      split
      · trivial
      · exact Rand.live_choose _

theorem live_sweep {site : NodeV → Dict Val → Rand (Except PyErr (Dict Val))}
    (h : ∀ n d, (site n d).Live) : ∀ ns d, (sweep site ns d).Live
  | [], _ => trivial
  | n :: ns, d => Rand.Live.andThen (fun d => live_sweep h ns d) (h n d)

theorem live_siteStep {site : NodeV → Dict Val → Rand (Except PyErr (Dict Val))}
    (h : ∀ n d, (site n d).Live) (vars : List NodeV) (full : Bool) (d : Dict Val) :
    (siteStep site vars full d).Live := by
  unfold siteStep
  split
  · exact live_sweep h vars d
  · exact Rand.Live.andThen (fun n => h n d) (Rand.live_choose vars)

theorem live_step (tm : Transition) (bn : BN) (vars : List NodeV) (full : Bool) (d : Dict Val) :
    (step tm bn vars full d).Live := by
  cases tm
  · trivial
  · exact live_siteStep (fun n d => live_resample _ _ _ _) _ _ _
  · exact live_siteStep (live_mhSite bn) _ _ _

theorem live_collect {stp : Dict Val → Rand (Except PyErr (Dict Val))} (h : ∀ d, (stp d).Live) :
    ∀ k d, (collect stp k d).Live
  | 0, _ => trivial
  | k + 1, d => by
    refine Rand.Live.andThen (fun d => ?_) (h d)
    refine Rand.Live.andThen (fun _ => ?_) (live_collect h k d)
    trivial

/-- counting along the way or afterwards: the same law of the results -/
theorem expect_foldChain {β : Type} {stp : Dict Val → Rand (Except PyErr (Dict Val))}
    {f : β → Dict Val → Except PyErr β} {g : Except PyErr β → ℝ} (hg : ∀ e, g (.error e) = 0) :
    ∀ (k : Nat) (acc : β) (d : Dict Val), (foldChain stp f k acc d).expect g =
      ((collect stp k d).andThen fun chain => .lift (chain.foldlM f acc)).expect g
  | 0, _, _ => rfl
  | k + 1, acc, d => by
    simp only [foldChain, collect, Rand.andThen_assoc]
    unfold Rand.andThen
    rw [Rand.expect_bind, Rand.expect_bind]
    congr 1
    funext x
    rcases x with e | d'
    · rfl
    · show (Rand.andThen (Rand.lift (f acc d')) fun acc => foldChain stp f k acc d').expect g =
        (Rand.andThen (collect stp k d') fun rest => Rand.lift ((d' :: rest).foldlM f acc)).expect g
      cases hf : f acc d' with
      | error e =>
        rw [Rand.andThen_error, Rand.expect_pure, hg]
        have : (fun rest : List (Dict Val) =>
            Rand.lift ((d' :: rest).foldlM f acc)) = fun _ => Rand.pure (.error e) := by
          funext rest
          rw [List.foldlM_cons, hf]
          rfl
        rw [this]
        unfold Rand.andThen
        rw [Rand.expect_bind]
        symm
        refine Eq.trans ?_ (Rand.expect_zero (collect stp k d'))
        congr 1
        funext a
        cases a <;> exact hg _
      | ok acc' =>
        rw [Rand.andThen_ok, expect_foldChain hg k acc' d']
        congr 1
        refine Rand.andThen_congr _ fun rest => ?_
        rw [List.foldlM_cons, hf]
        rfl

/-- counting along the way or afterwards: the same possible results, when no exception is possible -/
theorem all_foldChain {β : Type} {stp : Dict Val → Rand (Except PyErr (Dict Val))}
    (hl : ∀ d, (stp d).Live) {f : β → Dict Val → Except PyErr β} {P : β → Prop} :
    ∀ (k : Nat) (acc : β) (d : Dict Val),
      ((collect stp k d).andThen fun chain => .lift (chain.foldlM f acc)).All
        (fun r => ∃ b, r = .ok b ∧ P b) →
      (foldChain stp f k acc d).All fun r => ∃ b, r = .ok b ∧ P b
  | 0, _, _, h => h
  | k + 1, acc, d, h => by
    simp only [foldChain]
    simp only [collect, Rand.andThen_assoc] at h
    unfold Rand.andThen at h ⊢
    rw [Rand.all_bind] at h ⊢
    refine h.mono fun x hx => ?_
    rcases x with e | d'
    · exact hx
    · show ((Rand.lift (f acc d')).andThen fun acc => foldChain stp f k acc d').All _
      replace hx : ((collect stp k d').andThen fun rest =>
        Rand.lift ((d' :: rest).foldlM f acc)).All _ := hx
      cases hf : f acc d' with
      | error e =>
        exfalso
        have : (fun rest : List (Dict Val) =>
            Rand.lift ((d' :: rest).foldlM f acc)) = fun _ => Rand.pure (.error e) := by
          funext rest
          rw [List.foldlM_cons, hf]
          rfl
        rw [this] at hx
        unfold Rand.andThen at hx
        rw [Rand.all_bind] at hx
        refine (live_collect hl k d').not_all (hx.mono fun a ha => ?_)
        cases a <;> · obtain ⟨b, hb, -⟩ := ha; cases hb
      | ok acc' =>
        rw [Rand.andThen_ok]
        refine all_foldChain hl k acc' d' ?_
        have : (fun rest : List (Dict Val) =>
            Rand.lift ((d' :: rest).foldlM f acc)) = fun rest => Rand.lift (rest.foldlM f acc') := by
          funext rest
          rw [List.foldlM_cons, hf]
          rfl
        rwa [this] at hx

/-- nothing raises while counting: the fold of the states -/
theorem foldChain_total {β : Type} {stp : Dict Val → Rand (Except PyErr (Dict Val))}
    (f : β → Dict Val → β) : ∀ (k : Nat) (acc : β) (d : Dict Val),
      foldChain stp (fun a d => .ok (f a d)) k acc d =
        (collect stp k d).andThen fun chain => .pure (.ok (chain.foldl f acc))
  | 0, _, _ => rfl
  | k + 1, acc, d => by
    simp only [foldChain, collect, Rand.andThen_assoc]
    refine Rand.andThen_congr _ fun d' => ?_
    rw [Rand.andThen_ok, foldChain_total f k]
    exact Rand.andThen_congr _ fun rest => rfl

/-! ### loops -/

open Client

/-- the step of a generator object -/
noncomputable def GenObj.step (o : GenObj) (vars : List NodeV) (d : Dict Val) :
    Rand (Except PyErr (Dict Val)) :=
  Mcmc.step o.sampler.transitionModel o.bn vars o.sampler.fullChange d

/-- the world after a generator has moved on with the new contents `d` -/
def World.moved (w : World) (g : Nat) (o : GenObj) (vars : List NodeV) (r : Nat) (left : Nat)
    (d : Dict Val) : World :=
  { (w.write r d).goto g o (.paused vars r left) with handles := w.handles ++ [r] }

/-- the next state of a suspended generator -/
theorem bind_advance {β : Type} {w : World} {g : Nat} {o : GenObj} {vars : List NodeV} {r : Nat}
    {left : Nat} {F : World × Yield → Rand (Except PyErr β)}
    (hF : ∀ w e, F (w, .raise e) = .pure (.error e)) :
    (w.advance g o vars r (left + 1)).bind F = (o.step vars (w.dict r)).andThen fun d =>
      F (w.moved g o vars r left d, .value w.handles.length) := by
  unfold GenObj.step
  rw [← forget_stepIn]
  unfold forget Rand.andThen World.advance
  simp only [Rand.bind_assoc, Rand.bind_pure_left]
  refine Rand.bind_congr _ fun x => ?_
  rcases x with ⟨d, _ | e⟩
  · rfl
  · exact hF _ e

/-- the first state of a generator -/
theorem bind_fresh {β : Type} {w : World} {g : Nat} {o : GenObj} {i : Nat} {ev : Option Nat}
    (ho : w.gens[g]? = some o) (hf : o.frame = .fresh i ev)
    {F : World × Yield → Rand (Except PyErr β)}
    (hF : ∀ w e, F (w, .raise e) = .pure (.error e)) :
    (w.next g).bind F =
      (Rand.lift (variablesToChange o.bn (ev.map w.dict))).andThen fun vars =>
      (burn (o.step vars) o.sampler.burnIn (w.dict i)).andThen fun d =>
      (World.advance { w with mem := w.mem ++ [d] } g o vars w.mem.length o.numSamples).bind F := by
  unfold World.next
  rw [ho]
  simp only [hf]
  cases variablesToChange o.bn (ev.map w.dict) with
  | error e => exact hF _ e
  | ok vars =>
    rw [Rand.andThen_ok]
    simp only
    have : burn (o.step vars) o.sampler.burnIn (w.dict i) = forget (burnInPlace
        (stepIn o.sampler.transitionModel o.bn vars o.sampler.fullChange) o.sampler.burnIn
        (w.dict i)) := (forget_burnInPlace (fun d => forget_stepIn _ _ _ _ d) _ _).symm
    rw [this]
    unfold forget Rand.andThen
    simp only [Rand.bind_assoc, Rand.bind_pure_left]
    refine Rand.bind_congr _ fun x => ?_
    rcases x with ⟨d, _ | e⟩
    · rfl
    · exact hF _ e

theorem moved_gens {w : World} {g : Nat} {o : GenObj} (hg : g < w.gens.length) (vars : List NodeV)
    (r left : Nat) (d : Dict Val) :
    (w.moved g o vars r left d).gens[g]? = some { o with frame := .paused vars r left } := by
  simp [World.moved, World.goto, World.write, hg]

theorem moved_mem {w : World} {g : Nat} {o : GenObj} (vars : List NodeV) (r left : Nat)
    (d : Dict Val) : (w.moved g o vars r left d).mem.length = w.mem.length := by
  simp [World.moved, World.goto, World.write]

theorem moved_dict {w : World} {g : Nat} {o : GenObj} (vars : List NodeV) {r : Nat} (left : Nat)
    (d : Dict Val) (hr : r < w.mem.length) (r' : Nat) :
    (w.moved g o vars r left d).dict r' = if r' = r then d else w.dict r' :=
  dict_write w r d r' hr

/-- what a suspended generator does, by cases -/
theorem next_paused {w : World} {g : Nat} {o : GenObj} {vars : List NodeV} {r left : Nat}
    (ho : w.gens[g]? = some o) (hf : o.frame = .paused vars r left) :
    w.next g = w.advance g o vars r left := by
  unfold World.next
  rw [ho]
  simp only [hf]

/-- the loop `for s in g`, from a suspended generator on -/
theorem run_forEach {β : Type} (f : β → Dict Val → Except PyErr β) {g : Nat} {vars : List NodeV}
    {r : Nat} : ∀ {left k : Nat} (acc : β) {w : World} {o o' : GenObj}, left ≤ k →
    w.gens[g]? = some o' → r < w.mem.length →
    (w.advance g o vars r left).bind (fun y => ((match y.2 with
      | .stop => .ret (.ok acc)
      | .raise e => .ret (.error e)
      | .value h => .read h fun d => match f acc d with
        | .ok acc => forEach g f k acc
        | .error e => .ret (.error e) : Client (Except PyErr β)).run y.1).bind
          fun x => Rand.pure x.2) =
      foldChain (o.step vars) f left acc (w.dict r) := by
  intro left
  induction left with
  | zero => intro k acc w o o' hk ho hr; rfl
  | succ left ih =>
    intro k acc w o o' hk ho hr
    rw [bind_advance (fun _ _ => rfl)]
    simp only [foldChain]
    refine Rand.andThen_congr _ fun d => ?_
    have hread : (w.moved g o vars r left d).read w.handles.length = d := by
      show (w.moved g o vars r left d).dict ((w.handles ++ [r]).getD w.handles.length 0) = d
      rw [getD_append_self, moved_dict vars left d hr, if_pos rfl]
    simp only [run, hread]
    cases f acc d with
    | error e => rfl
    | ok acc' =>
      obtain ⟨k, rfl⟩ : ∃ k', k = k' + 1 := ⟨k - 1, by omega⟩
      rw [Rand.andThen_ok]
      simp only [forEach, run, Rand.bind_assoc]
      have hg := moved_gens (o := o) (lt_of_getElem? ho) vars r left d
      rw [next_paused hg rfl]
      have := ih (k := k) (o := { o with frame := .paused vars r left }) acc' (by omega) hg
        (by rw [moved_mem]; exact hr)
      rw [moved_dict vars left d hr, if_pos rfl] at this
      exact this

/-- what the dicts with these handles contain in the end -/
def contents (x : World × Except PyErr (List Nat)) : Except PyErr (List (Dict Val)) :=
  x.2.map fun hs => hs.map x.1.read

theorem read_moved_old {w : World} {g : Nat} {o : GenObj} {vars : List NodeV} {r left : Nat}
    {d : Dict Val} (hr : r < w.mem.length) {h : Nat} (hh : h < w.handles.length) :
    (w.moved g o vars r left d).read h = if w.handles.getD h 0 = r then d else w.read h := by
  show (w.moved g o vars r left d).dict ((w.handles ++ [r]).getD h 0) = _
  rw [getD_append_left hh, moved_dict vars left d hr]
  rfl

theorem read_moved_new {w : World} {g : Nat} {o : GenObj} {vars : List NodeV} {r left : Nat}
    {d : Dict Val} (hr : r < w.mem.length) :
    (w.moved g o vars r left d).read w.handles.length = d := by
  show (w.moved g o vars r left d).dict ((w.handles ++ [r]).getD w.handles.length 0) = d
  rw [getD_append_self, moved_dict vars left d hr, if_pos rfl]

/-- `list(g)`, from a suspended generator on: all entries are the same dict -/
theorem run_listAll {g : Nat} {vars : List NodeV} {r : Nat} :
    ∀ {left k : Nat} (acc : List Nat) {w : World} {o o' : GenObj}, left ≤ k →
    w.gens[g]? = some o' → r < w.mem.length →
    (∀ h ∈ acc, h < w.handles.length ∧ w.handles.getD h 0 = r) →
    (w.advance g o vars r left).bind (fun y => ((match y.2 with
      | .stop => .ret (.ok acc)
      | .raise e => .ret (.error e)
      | .value h => listAll g k (acc ++ [h]) : Client (Except PyErr (List Nat))).run y.1).bind
          fun x => Rand.pure (contents x)) =
      (collect (o.step vars) left (w.dict r)).andThen fun chain => .pure (.ok
        (List.replicate (acc.length + chain.length) (chain.getLastD (w.dict r)))) := by
  intro left
  induction left with
  | zero =>
    intro k acc w o o' hk ho hr hacc
    refine congrArg Rand.pure (congrArg Except.ok ?_)
    show acc.map (w.goto g o .done).read = _
    rw [List.eq_replicate_iff]
    refine ⟨by simp, fun d hd => ?_⟩
    obtain ⟨h, hh, rfl⟩ := List.mem_map.1 hd
    show w.dict (w.handles.getD h 0) = _
    rw [(hacc h hh).2]
    rfl
  | succ left ih =>
    intro k acc w o o' hk ho hr hacc
    rw [bind_advance (fun _ _ => rfl)]
    simp only [collect, Rand.andThen_assoc]
    refine Rand.andThen_congr _ fun d => ?_
    obtain ⟨k, rfl⟩ : ∃ k', k = k' + 1 := ⟨k - 1, by omega⟩
    simp only [listAll, run, Rand.bind_assoc]
    have hg := moved_gens (o := o) (lt_of_getElem? ho) vars r left d
    rw [next_paused hg rfl]
    have := ih (k := k) (o := { o with frame := .paused vars r left }) (acc ++ [w.handles.length])
      (by omega) hg (by rw [moved_mem]; exact hr) (by
        intro h hh
        have hlen : (w.moved g o vars r left d).handles = w.handles ++ [r] := rfl
        rw [hlen]
        rcases List.mem_append.1 hh with hh | hh
        · obtain ⟨h1, h2⟩ := hacc h hh
          exact ⟨by simp; omega, by rw [getD_append_left h1]; exact h2⟩
        · rw [List.mem_singleton.1 hh]
          exact ⟨by simp, getD_append_self 0⟩)
    rw [moved_dict vars left d hr, if_pos rfl] at this
    refine Eq.trans this (Rand.andThen_congr _ fun rest => ?_)
    show Rand.pure _ = Rand.pure _
    congr 2
    congr 1
    · simp
      omega
    · cases rest <;> simp [List.getLastD]

/-- `[dict(s) for s in g]`, from a suspended generator on: the states of the chain -/
theorem run_copyAll {g : Nat} {vars : List NodeV} {r : Nat} :
    ∀ {left k : Nat} (acc : List Nat) {w : World} {o o' : GenObj}, left ≤ k →
    w.gens[g]? = some o' → r < w.mem.length →
    (∀ h ∈ acc, h < w.handles.length ∧ w.handles.getD h 0 ≠ r ∧
      w.handles.getD h 0 < w.mem.length) →
    (w.advance g o vars r left).bind (fun y => ((match y.2 with
      | .stop => .ret (.ok acc)
      | .raise e => .ret (.error e)
      | .value h => .copy h fun h' => copyAll g k (acc ++ [h']) :
        Client (Except PyErr (List Nat))).run y.1).bind fun x => Rand.pure (contents x)) =
      (collect (o.step vars) left (w.dict r)).andThen fun chain => .pure (.ok
        (acc.map w.read ++ chain)) := by
  intro left
  induction left with
  | zero =>
    intro k acc w o o' hk ho hr hacc
    show Rand.pure (contents (w.goto g o .done, .ok acc)) = .pure (.ok _)
    congr 2
    rw [List.append_nil]
    rfl
  | succ left ih =>
    intro k acc w o o' hk ho hr hacc
    rw [bind_advance (fun _ _ => rfl)]
    simp only [collect, Rand.andThen_assoc]
    refine Rand.andThen_congr _ fun d => ?_
    obtain ⟨k, rfl⟩ : ∃ k', k = k' + 1 := ⟨k - 1, by omega⟩
    simp only [copyAll, run, Rand.bind_assoc, read_moved_new hr]
    set w1 := w.moved g o vars r left d with hw1
    have hmem : w1.mem.length = w.mem.length := moved_mem vars r left d
    have hhan : w1.handles = w.handles ++ [r] := rfl
    have hg : (w1.alloc d).gens[g]? = some { o with frame := .paused vars r left } :=
      moved_gens (o := o) (lt_of_getElem? ho) vars r left d
    have hhan' : (w1.alloc d).handles = w.handles ++ [r] ++ [w.mem.length] := by
      show w1.handles ++ [w1.mem.length] = _
      rw [hhan, hmem]
    have hlen' : (w1.alloc d).mem.length = w.mem.length + 1 := by
      simp [World.alloc, hmem]
    have hdict' : ∀ r', r' < w.mem.length → (w1.alloc d).dict r' = w1.dict r' := fun r' h' =>
      getD_append_left (by rw [hmem]; exact h') []
    rw [next_paused hg rfl]
    have hl1 : w1.handles.length = w.handles.length + 1 := by rw [hhan]; simp
    have hlast : (w.handles ++ [r] ++ [w.mem.length]).getD w1.handles.length 0 = w.mem.length := by
      rw [hhan]
      exact getD_append_self 0
    have := ih (k := k) (o := { o with frame := .paused vars r left })
      (acc ++ [w1.handles.length]) (by omega) hg (by rw [hlen']; omega) (by
        intro h hh
        rw [hhan', hlen']
        rcases List.mem_append.1 hh with hh | hh
        · obtain ⟨h1, h2, h3⟩ := hacc h hh
          have e : (w.handles ++ [r] ++ [w.mem.length]).getD h 0 = w.handles.getD h 0 := by
            rw [getD_append_left (by simp; omega), getD_append_left h1]
          rw [e]
          exact ⟨by simp; omega, h2, by omega⟩
        · rw [List.mem_singleton.1 hh, hlast, hl1]
          exact ⟨by simp, by omega, by omega⟩)
    rw [hdict' r hr, hw1, moved_dict vars left d hr, if_pos rfl] at this
    refine Eq.trans this (Rand.andThen_congr _ fun rest => ?_)
    show Rand.pure _ = Rand.pure _
    congr 2
    rw [List.map_append, List.append_assoc]
    congr 1
    · refine List.map_congr_left fun h hh => ?_
      obtain ⟨h1, h2, h3⟩ := hacc h hh
      show (w1.alloc d).dict ((w1.alloc d).handles.getD h 0) = _
      rw [hhan', getD_append_left (by simp; omega), getD_append_left h1, hdict' _ h3, hw1,
        moved_dict vars left d hr, if_neg h2]
      rfl
    · show [(w1.alloc d).dict ((w1.alloc d).handles.getD w1.handles.length 0)] ++ rest = d :: rest
      rw [hhan', hlast]
      have : (w1.alloc d).dict w.mem.length = d := by
        show (w1.mem ++ [d]).getD w.mem.length [] = d
        rw [← hmem]
        exact getD_append_self []
      rw [this]
      rfl

/-- a generator just started -/
def World.started (w : World) (s : Sampler) (bn : BN) (n i : Nat) (ev : Option Nat) : World :=
  { w with gens := w.gens ++
      [⟨s, bn, n, .fresh (w.handles.getD i 0) (ev.map fun h => w.handles.getD h 0)⟩] }

/-- the first `next` of a loop over a generator just started -/
theorem bind_started {β : Type} (w : World) (s : Sampler) (bn : BN) (n i : Nat) (ev : Option Nat)
    {F : World × Yield → Rand (Except PyErr β)}
    (hF : ∀ w e, F (w, .raise e) = .pure (.error e)) :
    ((w.started s bn n i ev).next w.gens.length).bind F =
      (Rand.lift (variablesToChange bn (ev.map w.read))).andThen fun vars =>
      (burn (step s.transitionModel bn vars s.fullChange) s.burnIn (w.read i)).andThen fun d =>
      (World.advance { w.started s bn n i ev with mem := w.mem ++ [d] } w.gens.length
        ⟨s, bn, n, .fresh (w.handles.getD i 0) (ev.map fun h => w.handles.getD h 0)⟩ vars
        w.mem.length n).bind F := by
  have := bind_fresh (w := w.started s bn n i ev) (g := w.gens.length)
    (o := ⟨s, bn, n, .fresh (w.handles.getD i 0) (ev.map fun h => w.handles.getD h 0)⟩)
    (by simp [World.started]) rfl hF
  rw [this]
  have : (ev.map fun h => w.handles.getD h 0).map (w.started s bn n i ev).dict = ev.map w.read := by
    cases ev <;> rfl
  rw [this]
  rfl

end Mcmc
end Primo
