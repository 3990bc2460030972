import Verif.Lemmas.GeneratorUse
import Verif.Props.Sampling

/-!
# C65: programs that use the chain

`generate_markov_chain` is a generator that hands out the same dict object every time.
-/

namespace Primo
open Mcmc Client

variable {bn : BN}

/-! ## every disciplined program -/

/-- **C65** A program that reads every state before it asks the same generator for the next one, and
writes only into dicts of its own, has the same results, for the same random numbers, as if every
dict it gets were its own copy.  It may run several chains at once, interleaved in any way, and may
change the dicts it called the generator with.  Missing from the full claim: programs that keep the
dicts they are given (`C65_list`, `C65_list_refuted`) or write into them (`C65_write_back`,
`C65_write_back_refuted`). -/
theorem C65_disciplined_partial {α : Type} (c : Client α) (hc : c.Disciplined [] 0) :
    ((c.run {}).bind fun r => Rand.pure r.2) = (c.runV {}).bind fun r => .pure r.2 :=
  run_sim c (own := fun _ => .gen 0)
    ⟨rfl, rfl, rfl, rfl, fun h hh => by simp at hh, fun h hh => by simp at hh,
      fun h g hh => by simp at hh, fun g o ho => by simp at ho⟩ hc

/-- two chains on the same initial dict, resumed in turn; the initial dict is changed in between -/
example (s : Sampler) (bn : BN) (d ev : Dict Val) :=
  C65_disciplined_partial
    (.new d fun i => .new ev fun e =>
      .start s bn 2 i (some e) fun g => .start s bn 3 i none fun g' =>
      .next g fun y => match y with
        | .value h => .put i "a" "t" (.next g' fun y' => match y' with
          | .value h' => .read h fun d => .read h' fun d' => .next g fun _ => .read h' fun d'' =>
              .ret [d, d', d'']
          | _ => .ret [])
        | _ => .ret [])
    (by simp [Disciplined, Status.leave])

/-! ## the usual loops, in any memory -/

/-- **C65** `for s in s.generate_markov_chain(…): acc = f(acc, s)` folds the states of the chain, each
before the next one is drawn; the first exception ends it. -/
theorem C65_for_each {β : Type} (w : World) (s : Sampler) (bn : BN) (n i : Nat) (ev : Option Nat)
    (f : β → Dict Val → Except PyErr β) (acc : β) :
    ((Client.run (.start s bn n i ev fun g => forEach g f (n + 1) acc) w).bind
      fun r => Rand.pure r.2) =
    (Rand.lift (variablesToChange bn (ev.map w.read))).andThen fun vars =>
    (burn (step s.transitionModel bn vars s.fullChange) s.burnIn (w.read i)).andThen fun d =>
    foldChain (step s.transitionModel bn vars s.fullChange) f n acc d := by
  simp only [run, forEach, Rand.bind_assoc]
  refine Eq.trans (bind_started w s bn n i ev (fun _ _ => rfl)) ?_
  refine Rand.andThen_congr _ fun vars => Rand.andThen_congr _ fun d => ?_
  have := run_forEach f (g := w.gens.length) (vars := vars) (r := w.mem.length) (left := n) (k := n)
    acc (w := { w.started s bn n i ev with mem := w.mem ++ [d] })
    (o := ⟨s, bn, n, .fresh (w.handles.getD i 0) (ev.map fun h => w.handles.getD h 0)⟩)
    (o' := ⟨s, bn, n, .fresh (w.handles.getD i 0) (ev.map fun h => w.handles.getD h 0)⟩)
    le_rfl (by simp [World.started]) (by simp)
  have hd : World.dict { w.started s bn n i ev with mem := w.mem ++ [d] } w.mem.length = d :=
    getD_append_self []
  rw [hd] at this
  exact this

/-- **C65** With an `f` that never raises, the loop computes the fold of the states the chain runs
through. -/
theorem C65_for_each_total {β : Type} (w : World) (s : Sampler) (bn : BN) (n i : Nat)
    (ev : Option Nat) (f : β → Dict Val → β) (acc : β) :
    ((Client.run (.start s bn n i ev fun g =>
        forEach g (fun a d => .ok (f a d)) (n + 1) acc) w).bind fun r => Rand.pure r.2) =
    (s.generate bn n (w.read i) (ev.map w.read)).andThen fun chain =>
      .pure (.ok (chain.foldl f acc)) := by
  rw [C65_for_each]
  unfold Sampler.generate
  simp only [Rand.andThen_assoc, foldChain_total]

/-- **C65** `[dict(s) for s in s.generate_markov_chain(…)]` is the list of the states of the chain. -/
theorem C65_copies (w : World) (s : Sampler) (bn : BN) (n i : Nat) (ev : Option Nat) :
    ((Client.run (.start s bn n i ev fun g => copyAll g (n + 1) []) w).bind
      fun r => Rand.pure (contents r)) = s.generate bn n (w.read i) (ev.map w.read) := by
  simp only [run, copyAll, Rand.bind_assoc]
  refine Eq.trans (bind_started w s bn n i ev (fun _ _ => rfl)) ?_
  unfold Sampler.generate
  refine Rand.andThen_congr _ fun vars => Rand.andThen_congr _ fun d => ?_
  have := run_copyAll (g := w.gens.length) (vars := vars) (r := w.mem.length) (left := n) (k := n)
    [] (w := { w.started s bn n i ev with mem := w.mem ++ [d] })
    (o := ⟨s, bn, n, .fresh (w.handles.getD i 0) (ev.map fun h => w.handles.getD h 0)⟩)
    (o' := ⟨s, bn, n, .fresh (w.handles.getD i 0) (ev.map fun h => w.handles.getD h 0)⟩)
    le_rfl (by simp [World.started]) (by simp) (by simp)
  have hd : World.dict { w.started s bn n i ev with mem := w.mem ++ [d] } w.mem.length = d :=
    getD_append_self []
  rw [hd] at this
  refine Eq.trans this ?_
  conv_rhs => rw [← Rand.bind_pure_right (collect _ n d)]
  refine Rand.bind_congr _ fun x => ?_
  rcases x with e | chain <;> rfl

/-- **C65** `list(s.generate_markov_chain(…))` has the right length, but all its entries show the last
state. -/
theorem C65_list (w : World) (s : Sampler) (bn : BN) (n i : Nat) (ev : Option Nat) :
    ((Client.run (.start s bn n i ev fun g => listAll g (n + 1) []) w).bind
      fun r => Rand.pure (contents r)) =
    (s.generate bn n (w.read i) (ev.map w.read)).andThen fun chain =>
      .pure (.ok (List.replicate chain.length (chain.getLastD []))) := by
  simp only [run, listAll, Rand.bind_assoc]
  refine Eq.trans (bind_started w s bn n i ev (fun _ _ => rfl)) ?_
  unfold Sampler.generate
  simp only [Rand.andThen_assoc]
  refine Rand.andThen_congr _ fun vars => Rand.andThen_congr _ fun d => ?_
  have := run_listAll (g := w.gens.length) (vars := vars) (r := w.mem.length) (left := n) (k := n)
    [] (w := { w.started s bn n i ev with mem := w.mem ++ [d] })
    (o := ⟨s, bn, n, .fresh (w.handles.getD i 0) (ev.map fun h => w.handles.getD h 0)⟩)
    (o' := ⟨s, bn, n, .fresh (w.handles.getD i 0) (ev.map fun h => w.handles.getD h 0)⟩)
    le_rfl (by simp [World.started]) (by simp) (by simp)
  have hd : World.dict { w.started s bn n i ev with mem := w.mem ++ [d] } w.mem.length = d :=
    getD_append_self []
  rw [hd] at this
  refine Eq.trans this (Rand.andThen_congr _ fun chain => ?_)
  show Rand.pure _ = Rand.pure _
  congr 2
  rw [List.length_nil, Nat.zero_add]
  cases chain <;> rfl

/-! ## `list(chain)` -/

/-- **C65** An estimate made from `list(chain)` puts all its mass on the last state, however many
samples there are. -/
theorem C65_list_point_mass (hc : bn.Consistent) (hl : bn.Linked) (hd : bn.Discrete)
    (hnn : bn.NonNeg) (s : Sampler) (htm : s.transitionModel ≠ .base) {n : Nat} (hn : 0 < n)
    (w : World) (i e : Nat) (hi : GoodState bn (w.read e) (w.read i))
    (hne : s.fullChange = false → ∃ m ∈ bn, m.name ∉ (w.read e).keys)
    {vars : List Name} (hvars : ∀ v ∈ vars, v ∈ bn.names) {vv : Dict (List Val)}
    (hvv : variableValues bn vars = .ok vv) :
    (Client.run (.start s bn n i (some e) fun g => listAll g (n + 1) []) w).All fun r =>
      ∃ ds f, contents r = .ok ds ∧ Factor.fromSamples ds vv = .ok f ∧
        ∀ σ, Legal bn.card vars σ → f.eval σ = 0 ∨ f.eval σ = 1 := by
  have h := C65_list w s bn n i (some e)
  have hall : ((Client.run (.start s bn n i (some e) fun g => listAll g (n + 1) []) w).bind
      fun r => Rand.pure (contents r)).All fun r => ∃ d, GoodState bn (w.read e) d ∧
        r = .ok (List.replicate n d) := by
    rw [h]
    refine Rand.all_andThen (C43_chain_legal_partial hc hl hd hnn s htm n hi hne)
      fun chain ⟨hlen, hgood⟩ => ?_
    have hcne : chain ≠ [] := by
      rintro rfl
      rw [List.length_nil] at hlen
      omega
    refine ⟨chain.getLastD [], ?_, by rw [hlen]⟩
    rw [List.getLastD_eq_getLast?, List.getLast?_eq_some_getLast hcne]
    exact hgood _ (List.getLast_mem hcne)
  rw [Rand.all_bind] at hall
  refine hall.mono fun r hr => ?_
  obtain ⟨d, hgood, hr⟩ := hr
  obtain ⟨vv', v1, v2, v3, v4⟩ := variableValues_spec hc hvars
  rw [hvv] at v1
  cases v1
  have hmemv : ∀ p ∈ vv, p.1 ∈ bn.names := fun p hp =>
    hvars _ ((v3 _).1 (List.mem_map_of_mem hp))
  obtain ⟨f, f1, f2, f3, f4, f5, -⟩ := C12_from_samples (card := bn.card) vv (List.replicate n d) v2
    (fun p hp => by rw [v4 p hp]; exact hd.lab_nodup _)
    (fun p hp => by rw [v4 p hp]; rfl) (by simpa using hn.ne') (by
      intro st hst p hp
      rw [List.eq_of_mem_replicate hst]
      obtain ⟨m, hm, e'⟩ := BN.exists_of_mem_names (hmemv p hp)
      obtain ⟨x, h1, h2⟩ := hgood.1 m hm
      exact ⟨x, e' ▸ h2, by rw [v4 p hp, ← e', BN.lab_eq hc.nodup hm]; exact h1⟩)
  refine ⟨_, f, hr, f1, fun σ hσ => ?_⟩
  rw [f5 σ fun v hv => hσ v ((v3 v).1 hv)]
  unfold agreeing
  rw [List.countP_replicate, List.length_replicate]
  split
  · right
    have : (n : ℚ) ≠ 0 := Nat.cast_ne_zero.2 hn.ne'
    exact div_self this
  · left
    rw [Nat.cast_zero, zero_div]

/-- a program memory with an initial state and evidence -/
def Ex.chainWorld : World := { mem := [Ex.state, Ex.hard], handles := [0, 1] }

example (burnIn : Nat) (full : Bool) := C65_list_point_mass Ex.bn_consistent Ex.bn_linked
  Ex.bn_discrete Ex.bn_nonneg ⟨.gibbs, burnIn, full⟩ (by simp) (n := 1000) (by decide) Ex.chainWorld 0 1
  Ex.state_good (fun _ => ⟨Ex.na, Ex.na_mem, by decide⟩) (vars := ["d", "b"]) (by decide) rfl

/-! ## writing into the states -/

/-- **C65** A program that writes a value of an observed variable into a state it was handed out
changes the evidence: all later states are legal states for the changed evidence. -/
theorem C65_write_back (hc : bn.Consistent) (hl : bn.Linked) (hd : bn.Discrete)
    (hnn : bn.NonNeg) (s : Sampler) (htm : s.transitionModel ≠ .base) (n : Nat)
    (w : World) (i e : Nat) (hi : GoodState bn (w.read e) (w.read i))
    (hne : s.fullChange = false → ∃ m ∈ bn, m.name ∉ (w.read e).keys) {v : Name} {x : Val}
    (hv : v ∈ (w.read e).keys) (hx : ∀ m ∈ bn, m.name = v → x ∈ m.values) :
    (Client.run (.start s bn (n + 1) i (some e) fun g => .next g fun y => match y with
      | .value h => .put h v x (forEach g (fun acc d => .ok (acc ++ [d])) (n + 1) [])
      | .stop => .ret (.ok [])
      | .raise err => .ret (.error err)) w).All fun r => ∃ ds, r.2 = .ok ds ∧ ds.length = n ∧
        ∀ d ∈ ds, GoodState bn ((w.read e).set v x) d := by
  suffices h : ((Client.run (.start s bn (n + 1) i (some e) fun g => .next g fun y => match y with
      | .value h => .put h v x (forEach g (fun acc d => .ok (acc ++ [d])) (n + 1) [])
      | .stop => .ret (.ok [])
      | .raise err => .ret (.error err)) w).bind fun r => Rand.pure r.2).All
        fun r => ∃ ds, r = .ok ds ∧ ds.length = n ∧
          ∀ d ∈ ds, GoodState bn ((w.read e).set v x) d by
    rw [Rand.all_bind] at h
    exact h
  simp only [run, Rand.bind_assoc]
  refine Eq.mp (congrArg _ (bind_started w s bn (n + 1) i (some e) (fun _ _ => rfl)).symm) ?_
  rw [Option.map_some, variablesToChange_some, Rand.andThen_ok]
  set vars := bn.filter fun m => m.name ∉ (w.read e).keys with hvars
  have hkeys : ∀ u, u ∈ ((w.read e).set v x).keys ↔ u ∈ (w.read e).keys := by
    intro u
    rw [Dict.mem_keys_set]
    constructor
    · rintro (rfl | h)
      · exact hv
      · exact h
    · exact Or.inr
  have hvars' : bn.filter (fun m => m.name ∉ ((w.read e).set v x).keys) = vars := by
    rw [hvars]
    congr 1
    funext m
    simp only [hkeys]
  refine Rand.all_andThen (all_burn (fun d h => all_step hc hl hd hnn htm hne h) _ hi)
    fun d hgood => ?_
  rw [bind_advance (fun _ _ => rfl)]
  have hd0 : World.dict { w.started s bn (n + 1) i (some e) with mem := w.mem ++ [d] } w.mem.length
    = d := getD_append_self []
  rw [hd0]
  refine Rand.all_andThen (all_step hc hl hd hnn htm hne hgood) fun d1 hgood1 => ?_
  set o : GenObj := ⟨s, bn, n + 1, .fresh (w.handles.getD i 0)
    ((some e).map fun h => w.handles.getD h 0)⟩ with ho
  set w0 : World := { w.started s bn (n + 1) i (some e) with mem := w.mem ++ [d] } with hw0
  set w1 := w0.moved w.gens.length o vars w.mem.length n d1 with hw1
  have hr0 : w.mem.length < w0.mem.length := by simp [hw0]
  have hread : w1.read w0.handles.length = d1 := read_moved_new hr0
  have hh : w1.handles.getD w0.handles.length 0 = w.mem.length :=
    getD_append_self (l := w0.handles) 0
  simp only [hread, hh, forEach, run, Rand.bind_assoc]
  set w2 := w1.write w.mem.length (d1.set v x) with hw2
  have hr1 : w.mem.length < w1.mem.length := by rw [hw1, moved_mem]; exact hr0
  have hg : w2.gens[w.gens.length]? = some { o with frame := .paused vars w.mem.length n } :=
    moved_gens (o := o) (w := w0) (by simp [hw0, World.started]) vars w.mem.length n d1
  have hd2 : w2.dict w.mem.length = d1.set v x := by
    rw [hw2, dict_write _ _ _ _ hr1, if_pos rfl]
  have hr2 : w.mem.length < w2.mem.length := by
    simpa [hw2, World.write] using hr1
  rw [next_paused hg rfl]
  have key := run_forEach (fun (acc : List (Dict Val)) d => Except.ok (acc ++ [d]))
    (g := w.gens.length) (vars := vars) (r := w.mem.length) (left := n) (k := n) [] (w := w2)
    (o := { o with frame := .paused vars w.mem.length n }) le_rfl hg hr2
  rw [hd2, foldChain_total] at key
  refine Eq.mp (congrArg _ key.symm) ?_
  have hgood2 : GoodState bn ((w.read e).set v x) (d1.set v x) := by
    constructor
    · intro m hm
      rw [Dict.get?_set]
      by_cases h : v = m.name
      · rw [if_pos h]
        exact ⟨x, hx m hm h.symm, rfl⟩
      · rw [if_neg h]
        exact hgood1.1 m hm
    · intro u y hu
      rw [Dict.get?_set] at hu ⊢
      split at hu
      · next h => rw [if_pos h]; exact hu
      · next h => rw [if_neg h]; exact hgood1.2 u y hu
  have hne' : s.fullChange = false → ∃ m ∈ bn, m.name ∉ ((w.read e).set v x).keys := by
    intro hf
    obtain ⟨m, h1, h2⟩ := hne hf
    exact ⟨m, h1, fun h => h2 ((hkeys _).1 h)⟩
  have hfold : ∀ (l acc : List (Dict Val)),
      l.foldl (fun acc d => acc ++ [d]) acc = acc ++ l := by
    intro l
    induction l with
    | nil => intro acc; simp
    | cons a l ih => intro acc; rw [List.foldl_cons, ih]; simp
  refine Rand.all_andThen (all_collect (fun d h => ?_) n hgood2) fun chain hchain => ?_
  · have := all_step hc hl hd hnn htm hne' h
    rw [hvars'] at this
    exact this
  · refine ⟨chain, ?_, hchain⟩
    rw [hfold, List.nil_append]

/-- **C65** is false of the code without the discipline: one write into a state handed out, and no
later state agrees with the evidence the chain was started with. -/
theorem C65_write_back_refuted (burnIn n : Nat) (full : Bool) :
    GoodState Ex.bn (Ex.chainWorld.read 1) (Ex.chainWorld.read 0) ∧
    (Client.run (.start ⟨.gibbs, burnIn, full⟩ Ex.bn (n + 1) 0 (some 1) fun g => .next g fun y =>
      match y with
      | .value h => .put h "d" "f" (forEach g (fun acc d => .ok (acc ++ [d])) (n + 1) [])
      | .stop => .ret (.ok [])
      | .raise err => .ret (.error err)) Ex.chainWorld).All fun r => ∃ ds, r.2 = .ok ds ∧
        ds.length = n ∧ ∀ d ∈ ds, ¬ GoodState Ex.bn (Ex.chainWorld.read 1) d := by
  refine ⟨Ex.state_good, (C65_write_back Ex.bn_consistent Ex.bn_linked Ex.bn_discrete Ex.bn_nonneg
    ⟨.gibbs, burnIn, full⟩ (by simp) n Ex.chainWorld 0 1 Ex.state_good
    (fun _ => ⟨Ex.na, Ex.na_mem, by decide⟩) (v := "d") (x := "f") (by decide)
    (by decide)).mono ?_⟩
  rintro r ⟨ds, h1, h2, h3⟩
  refine ⟨ds, h1, h2, fun d hd hgood => ?_⟩
  have a := hgood.2 "d" "t" (by decide)
  have b := (h3 d hd).2 "d" "f" (by decide)
  rw [a] at b
  exact absurd b (by decide)

/-! ## laziness and the end of a generator -/

/-- **C65** Calling `generate_markov_chain` runs nothing: whatever the program does with dicts between
the call and the first `next`, it has the same effect as before the call.  In particular the initial
state and the evidence are those at the first `next`. -/
theorem C65_lazy {α β : Type} (s : Sampler) (bn : BN) (n i : Nat) (ev : Option Nat)
    (k : Nat → α → Client β) : ∀ (p : Client α), p.Plain → ∀ (w : World), i < w.handles.length →
    (∀ e ∈ ev, e < w.handles.length) →
    (Client.run (.start s bn n i ev fun g => p.bind (k g)) w) =
      Client.run (p.bind fun a => .start s bn n i ev fun g => k g a) w := by
  intro p
  induction p with
  | ret a => intro _ w _ _; rfl
  | new d f ih =>
    intro hp w hi he
    have := ih w.handles.length (hp _) (w.alloc d) (by simp [World.alloc]; omega)
      (fun e h => by have := he e h; simp [World.alloc]; omega)
    simp only [Client.bind, run] at this ⊢
    rw [← this]
    have h1 : ∀ h, h < w.handles.length →
        (w.handles ++ [w.mem.length]).getD h 0 = w.handles.getD h 0 := fun h hh =>
      getD_append_left hh 0
    simp only [World.alloc, h1 i hi]
    have h2 : ev.map (fun h => (w.handles ++ [w.mem.length]).getD h 0) =
        ev.map fun h => w.handles.getD h 0 := Option.map_congr fun e h => h1 e (he e h)
    rw [h2]
  | read h f ih =>
    intro hp w hi he
    exact ih _ (hp _) w hi he
  | put h key x f ih =>
    intro hp w hi he
    exact ih hp (w.write (w.handles.getD h 0) ((w.read h).set key x)) hi he
  | copy h f ih =>
    intro hp w hi he
    have := ih w.handles.length (hp _) (w.alloc (w.read h)) (by simp [World.alloc]; omega)
      (fun e h => by have := he e h; simp [World.alloc]; omega)
    simp only [Client.bind, run] at this ⊢
    rw [← this]
    have h1 : ∀ h, h < w.handles.length →
        (w.handles ++ [w.mem.length]).getD h 0 = w.handles.getD h 0 := fun h hh =>
      getD_append_left hh 0
    simp only [World.alloc, h1 i hi]
    have h2 : ev.map (fun h => (w.handles ++ [w.mem.length]).getD h 0) =
        ev.map fun h => w.handles.getD h 0 := Option.map_congr fun e h => h1 e (he e h)
    rw [h2]
    rfl
  | start => intro hp; exact hp.elim
  | next => intro hp; exact hp.elim

example (s : Sampler) (bn : BN) := C65_lazy s bn 10 0 (some 1) (fun g _ => copyAll g 11 [])
  (.put 0 "a" "f" (.put 1 "a" "f" (.ret ()))) trivial Ex.chainWorld (by decide) (by decide)

theorem all_of_forall {α : Type} {P : α → Prop} (h : ∀ a, P a) : ∀ m : Rand α, m.All P
  | .pure a => h a
  | .choice _ k => fun i _ => all_of_forall h (k i)
  | .uniform k => fun u _ _ => all_of_forall h (k u)

/-- **C65** After its end, or after an exception, a generator only says `StopIteration` and changes
nothing. -/
theorem C65_after_end (w : World) (g : Nat) : (w.next g).All fun r =>
    (∀ h, r.2 ≠ .value h) → r.1.next g = .pure (r.1, .stop) := by
  have hdone : ∀ (w : World) (o : GenObj), g < w.gens.length →
      (w.goto g o .done).next g = .pure (w.goto g o .done, .stop) := by
    intro w o hg
    unfold World.next
    have : (w.goto g o .done).gens[g]? = some { o with frame := .done } := by
      simp [World.goto, hg]
    rw [this]
  have hadv : ∀ (w : World) (o : GenObj) (vars : List NodeV) (r left : Nat), g < w.gens.length →
      (w.advance g o vars r left).All fun r =>
        (∀ h, r.2 ≠ .value h) → r.1.next g = .pure (r.1, .stop) := by
    intro w o vars r left hg
    cases left with
    | zero => exact fun _ => hdone w o hg
    | succ left =>
      refine Rand.all_bind.2 (all_of_forall (fun x => ?_) _)
      rcases x with ⟨d, _ | e⟩
      · exact fun h => absurd rfl (h _)
      · exact fun _ => hdone _ o hg
  cases hg : w.gens[g]? with
  | none =>
    have h : w.next g = .pure (w, .stop) := by
      unfold World.next
      rw [hg]
    rw [h]
    exact fun _ => h
  | some o =>
    have hlt := lt_of_getElem? hg
    cases hf : o.frame with
    | done =>
      have h : w.next g = .pure (w, .stop) := by
        unfold World.next
        rw [hg]
        simp only [hf]
      rw [h]
      exact fun _ => h
    | paused vars r left =>
      rw [next_paused hg hf]
      exact hadv w o vars r left hlt
    | fresh i ev =>
      cases hv : variablesToChange o.bn (ev.map w.dict) with
      | error e =>
        have h : w.next g = .pure (w.goto g o .done, .raise e) := by
          unfold World.next
          rw [hg]
          simp only [hf, hv]
        rw [h]
        exact fun _ => hdone w o hlt
      | ok vars =>
        have h : w.next g = (burnInPlace (stepIn o.sampler.transitionModel o.bn vars
            o.sampler.fullChange) o.sampler.burnIn (w.dict i)).bind fun x => match x.2 with
          | some e => .pure (World.goto { w with mem := w.mem ++ [x.1] } g o .done, .raise e)
          | none => World.advance { w with mem := w.mem ++ [x.1] } g o vars w.mem.length
              o.numSamples := by
          unfold World.next
          rw [hg]
          simp only [hf, hv]
          refine Rand.bind_congr _ fun x => ?_
          rcases x with ⟨d, _ | e⟩ <;> rfl
        rw [h]
        refine Rand.all_bind.2 (all_of_forall (fun x => ?_) _)
        rcases x with ⟨d, _ | e⟩
        · exact hadv _ o vars _ _ hlt
        · exact fun _ => hdone { w with mem := w.mem ++ [d] } o hlt

/-- **C65** With the documented default `evidence=None` the call succeeds and the first `next` raises
`TypeError`, on every network with a node. -/
theorem C65_no_evidence (w : World) (s : Sampler) {bn : BN} (hbn : bn ≠ []) (n i : Nat) :
    ((Client.run (.start s bn n i none fun g => .next g fun y => .ret y) w).bind
      fun r => Rand.pure r.2) = .pure (.raise .typeError) := by
  simp only [run, World.next, World.started, List.getElem?_append_right le_rfl, Nat.sub_self,
    List.getElem?_cons_zero, Option.map_none, variablesToChange, if_neg hbn]
  rfl

example (s : Sampler) := C65_no_evidence Ex.chainWorld s (bn := Ex.bn) (by decide) 10 0

/-! ## `MCMC.marginals` -/

theorem run_bind {α β : Type} (f : α → Client β) : ∀ (c : Client α) (w : World),
    (c.bind f).run w = (c.run w).bind fun r => (f r.2).run r.1
  | .ret _, _ => rfl
  | .new _ k, w => run_bind f (k _) _
  | .read _ k, w => run_bind f (k _) _
  | .put _ _ _ k, w => run_bind f k _
  | .copy _ k, w => run_bind f (k _) _
  | .start _ _ _ _ _ k, w => run_bind f (k _) _
  | .next g k, w => by
    simp only [Client.bind, run, Rand.bind_assoc]
    exact Rand.bind_congr _ fun r => run_bind f (k r.2) r.1

/-- the counting of `from_samples`, along the chain -/
theorem marginalsGen_eq (bn : BN) (s : Sampler) (n : Nat) (vars : List Name)
    (evidence : Option (Dict Val)) :
    marginalsGen bn s n vars evidence =
      Rand.andThen (bn.getSample (evidence.getD [])) fun initial =>
      Rand.andThen (.lift (variableValues bn vars)) fun vv =>
      Rand.andThen (.lift (variablesToChange bn (some (evidence.getD [])))) fun vs =>
      Rand.andThen (burn (step s.transitionModel bn vs s.fullChange) s.burnIn initial) fun d =>
      Rand.andThen (foldChain (step s.transitionModel bn vs s.fullChange) Factor.countSample n
        ⟨NDArray.zeros (vv.map fun p => p.2.length), vv.keys, vv⟩ d) fun res =>
      .lift (if res.potentials.sumAll = 0 then .error .nonFinite
        else .ok { res with potentials := res.potentials.map fun x => x / res.potentials.sumAll }) := by
  unfold marginalsGen
  refine Rand.andThen_congr _ fun initial => Rand.andThen_congr _ fun vv => ?_
  have h := C65_for_each (World.alloc (World.alloc {} initial) (evidence.getD [])) s bn n 0 (some 1)
    Factor.countSample ⟨NDArray.zeros (vv.map fun p => p.2.length), vv.keys, vv⟩
  have h1 : Client.run (.new initial fun i => .new (evidence.getD []) fun e =>
      .start s bn n i (some e) fun g => Client.fromGenerator g vv (n + 1)) {} =
      Client.run ((Client.start s bn n 0 (some 1) fun g => forEach g Factor.countSample (n + 1)
        ⟨NDArray.zeros (vv.map fun p => p.2.length), vv.keys, vv⟩).bind fun r =>
          .ret (r.bind fun res => if res.potentials.sumAll = 0 then .error .nonFinite
            else .ok { res with
              potentials := res.potentials.map fun x => x / res.potentials.sumAll }))
        (World.alloc (World.alloc {} initial) (evidence.getD [])) := rfl
  rw [h1, run_bind, Rand.bind_assoc]
  have h2 : ∀ (m : Rand (World × Except PyErr Factor)) (F : Except PyErr Factor → Rand (Except PyErr Factor)),
      (m.bind fun r => F r.2) = (m.bind fun r => Rand.pure r.2).bind F := by
    intro m F
    rw [Rand.bind_assoc]
    rfl
  refine Eq.trans (h2 _ fun r => .pure (r.bind fun res =>
    if res.potentials.sumAll = 0 then .error .nonFinite
      else .ok { res with
        potentials := res.potentials.map fun x => x / res.potentials.sumAll })) ?_
  rw [h]
  have h3 : ∀ (m : Rand (Except PyErr Factor)) (F : Factor → Except PyErr Factor),
      (m.bind fun r => Rand.pure (r.bind F)) = m.andThen fun a => Rand.lift (F a) := by
    intro m F
    unfold Rand.andThen
    refine Rand.bind_congr _ fun r => ?_
    cases r <;> rfl
  rw [h3]
  simp only [Rand.andThen_assoc]
  rfl

/-- the counting after the chain -/
theorem marginals_eq (bn : BN) (s : Sampler) (n : Nat) (vars : List Name)
    (evidence : Option (Dict Val)) :
    marginals bn s n vars evidence =
      Rand.andThen (bn.getSample (evidence.getD [])) fun initial =>
      Rand.andThen (.lift (variableValues bn vars)) fun vv =>
      Rand.andThen (.lift (variablesToChange bn (some (evidence.getD [])))) fun vs =>
      Rand.andThen (burn (step s.transitionModel bn vs s.fullChange) s.burnIn initial) fun d =>
      Rand.andThen ((collect (step s.transitionModel bn vs s.fullChange) n d).andThen fun chain =>
        .lift (chain.foldlM Factor.countSample
          ⟨NDArray.zeros (vv.map fun p => p.2.length), vv.keys, vv⟩)) fun res =>
      .lift (if res.potentials.sumAll = 0 then .error .nonFinite
        else .ok { res with potentials := res.potentials.map fun x => x / res.potentials.sumAll }) := by
  unfold marginals Sampler.generate
  simp only [Rand.andThen_assoc]
  refine Rand.andThen_congr _ fun initial => Rand.andThen_congr _ fun vv =>
    Rand.andThen_congr _ fun vs => Rand.andThen_congr _ fun d => Rand.andThen_congr _ fun chain => ?_
  unfold Factor.fromSamples
  simp only [Rand.lift]
  cases chain.foldlM Factor.countSample
    ⟨NDArray.zeros (vv.map fun p => p.2.length), vv.keys, vv⟩ <;> rfl

/-- **C65** `MCMC.marginals` counts every state before the next one is drawn, so that the first
exception wins; but it returns every table with the same probability as if it counted a finished list
of states (`Mcmc.marginals`, of C45, C57 and C58). -/
theorem C65_marginals_law (bn : BN) (s : Sampler) (n : Nat) (vars : List Name)
    (evidence : Option (Dict Val)) (g : Except PyErr Factor → ℝ) (hg : ∀ e, g (.error e) = 0) :
    (marginalsGen bn s n vars evidence).expect g = (marginals bn s n vars evidence).expect g := by
  rw [marginalsGen_eq, marginals_eq]
  unfold Rand.andThen
  simp only [Rand.expect_bind]
  congr 1
  funext r
  rcases r with e | initial
  · rfl
  simp only [Rand.expect_bind]
  congr 1
  funext r
  rcases r with e | vv
  · rfl
  simp only [Rand.expect_bind]
  congr 1
  funext r
  rcases r with e | vs
  · rfl
  simp only [Rand.expect_bind]
  congr 1
  funext r
  rcases r with e | d
  · rfl
  simp only [Rand.expect_bind]
  refine Eq.trans (expect_foldChain ?_ n _ d) ?_
  · exact fun e => hg e
  · unfold Rand.andThen
    rw [Rand.expect_bind]

theorem all_andThen_ok {α β : Type} {m : Rand (Except PyErr α)} {f : α → Rand (Except PyErr β)}
    {P : β → Prop} : (m.andThen f).All (fun r => ∃ b, r = .ok b ∧ P b) ↔
      m.All fun r => ∃ a, r = .ok a ∧ (f a).All fun r => ∃ b, r = .ok b ∧ P b := by
  unfold Rand.andThen
  rw [Rand.all_bind]
  constructor <;> refine fun h => h.mono fun r hr => ?_
  · rcases r with e | a
    · obtain ⟨b, hb, -⟩ := hr
      cases hb
    · exact ⟨a, rfl, hr⟩
  · obtain ⟨a, rfl, ha⟩ := hr
    exact ha

/-- **C65** Whatever can be said about every table `marginals` may return when no exception is
possible holds for the generator version too. -/
theorem C65_marginals_all (bn : BN) (s : Sampler) (n : Nat) (vars : List Name)
    (evidence : Option (Dict Val)) {P : Factor → Prop}
    (h : (marginals bn s n vars evidence).All fun r => ∃ f, r = .ok f ∧ P f) :
    (marginalsGen bn s n vars evidence).All fun r => ∃ f, r = .ok f ∧ P f := by
  rw [marginals_eq] at h
  rw [marginalsGen_eq]
  rw [all_andThen_ok] at h ⊢
  refine h.mono ?_
  rintro _ ⟨initial, rfl, h⟩
  refine ⟨initial, rfl, ?_⟩
  rw [all_andThen_ok] at h ⊢
  refine h.mono ?_
  rintro _ ⟨vv, rfl, h⟩
  refine ⟨vv, rfl, ?_⟩
  rw [all_andThen_ok] at h ⊢
  refine h.mono ?_
  rintro _ ⟨vs, rfl, h⟩
  refine ⟨vs, rfl, ?_⟩
  rw [all_andThen_ok] at h ⊢
  refine h.mono ?_
  rintro _ ⟨d, rfl, h⟩
  refine ⟨d, rfl, ?_⟩
  rw [all_andThen_ok] at h ⊢
  exact all_foldChain (fun d => live_step _ _ _ _ d) n _ d h

/-- what C45 says, for the generator version -/
example (burnIn : Nat) (full : Bool) := C65_marginals_all Ex.bn ⟨.gibbs, burnIn, full⟩ 1000 ["d", "b"]
  (some Ex.hard) (C45_marginals_partial Ex.bn_consistent Ex.bn_linked Ex.bn_acyclic Ex.bn_discrete
    Ex.bn_nonneg (by decide) ⟨.gibbs, burnIn, full⟩ (by simp) (numSamples := 1000) (by decide)
    (vars := ["d", "b"]) (by decide) (some Ex.hard) Ex.hard_legal
    (fun _ => ⟨Ex.na, Ex.na_mem, by decide⟩))

/-! ## `list` is not the list of states -/

/-- a coin -/
def Ex.oneCoinNode : NodeV :=
  ⟨"c", .discrete, ["t", "f"], [], [], [], NDArray.ofList [1 / 2, 1 / 2], true⟩

/-- a network with one node -/
def Ex.oneCoin : BN := [Ex.oneCoinNode]

theorem Ex.oneCoin_weights (d : Dict Val) :
    Ex.oneCoinNode.weights d [] false = .ok [1 / 2, 1 / 2] := rfl

theorem Ex.oneCoin_step (d : Dict Val) :
    Mcmc.step .gibbs Ex.oneCoin [Ex.oneCoinNode] true d = .uniform fun u =>
      match roulette [("t", 1 / 2), ("f", 1 / 2)] 0 (u * (([1 / 2, 1 / 2] : List ℚ).sum : ℚ)) with
      | none => .pure (.error .noneValue)
      | some x => .pure (.ok (d.set "c" x)) := by
  show Rand.andThen (Ex.oneCoinNode.resample d [] false) _ = _
  unfold NodeV.resample NodeV.sampleValue
  rw [if_neg (by decide), Ex.oneCoin_weights, Rand.andThen_ok, Rand.andThen_uniform,
    Rand.andThen_uniform]
  congr 1
  funext u
  show Rand.andThen (match roulette [("t", 1 / 2), ("f", 1 / 2)] 0 _ with
    | none => Rand.pure (.error .noneValue)
    | some x => Rand.pure (.ok (d.set "c" x))) _ = _
  cases roulette [("t", 1 / 2), ("f", 1 / 2)] 0 (u * (([1 / 2, 1 / 2] : List ℚ).sum : ℚ)) <;> rfl

/-- a program memory with an initial state of the coin and no evidence -/
def Ex.oneCoinWorld : World := { mem := [[("c", "t")], []], handles := [0, 1] }

/-- **C65** is false of the code without the discipline: the states of the chain may differ, the
entries of `list(chain)` never do. -/
theorem C65_list_refuted :
    ¬ (Sampler.generate ⟨.gibbs, 0, true⟩ Ex.oneCoin 2 (Ex.oneCoinWorld.read 0)
        (some (Ex.oneCoinWorld.read 1))).All (fun r => ∀ ds, r = .ok ds → ∀ a ∈ ds, ∀ b ∈ ds, a = b) ∧
    (Client.run (.start ⟨.gibbs, 0, true⟩ Ex.oneCoin 2 0 (some 1) fun g => listAll g 3 [])
        Ex.oneCoinWorld).All fun r => ∀ ds, contents r = .ok ds → ∀ a ∈ ds, ∀ b ∈ ds, a = b := by
  have hs : (([1 / 2, 1 / 2] : List ℚ).sum : ℚ) = 1 := by norm_num
  have h0 : roulette [("t", 1 / 2), ("f", 1 / 2)] 0 ((0 : ℝ) * (([1 / 2, 1 / 2] : List ℚ).sum : ℚ))
      = some "t" := by
    rw [hs]
    simp [roulette]
  have h1 : roulette [("t", 1 / 2), ("f", 1 / 2)] 0
      ((3 / 4 : ℝ) * (([1 / 2, 1 / 2] : List ℚ).sum : ℚ)) = some "f" := by
    rw [hs]
    unfold roulette roulette
    norm_num
  constructor
  · intro h
    unfold Sampler.generate at h
    have hv : variablesToChange Ex.oneCoin (some (Ex.oneCoinWorld.read 1)) = .ok [Ex.oneCoinNode] := rfl
    rw [hv, Rand.andThen_ok] at h
    simp only [burn, collect, Rand.andThen_pure_ok, Ex.oneCoin_step, Rand.andThen_uniform] at h
    have h2 := h 0 le_rfl one_pos
    simp only [h0] at h2
    have h3 := h2 (3 / 4) (by norm_num) (by norm_num)
    simp only [h1] at h3
    have h4 := h3 _ rfl _ (List.mem_cons_self ..) _ (List.mem_cons_of_mem _ (List.mem_cons_self ..))
    exact absurd h4 (by decide)
  · have h := C65_list Ex.oneCoinWorld ⟨.gibbs, 0, true⟩ Ex.oneCoin 2 0 (some 1)
    have : ((Client.run (.start ⟨.gibbs, 0, true⟩ Ex.oneCoin 2 0 (some 1) fun g => listAll g 3 [])
        Ex.oneCoinWorld).bind fun r => Rand.pure (contents r)).All
          fun r => ∀ ds, r = .ok ds → ∀ a ∈ ds, ∀ b ∈ ds, a = b := by
      rw [h]
      refine Rand.all_bind.2 (all_of_forall (fun r => ?_) _)
      rcases r with e | chain
      · intro ds hds
        cases hds
      · intro ds hds a ha b hb
        cases hds
        rw [List.eq_of_mem_replicate ha, List.eq_of_mem_replicate hb]
    rw [Rand.all_bind] at this
    exact this

end Primo
