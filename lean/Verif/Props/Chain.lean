import Verif.Props.Sampling

/-! # Which states of the chain are yielded: C58 -/

namespace Primo

variable {bn : BN}

namespace Rand
variable {α β γ : Type}

theorem andThen_pure (m : Rand (Except PyErr α)) :
    (m.andThen fun a => .pure (.ok a)) = m := by
  unfold andThen
  induction m with
  | pure a => cases a <;> rfl
  | choice n k ih => exact congrArg (Rand.choice n) (funext ih)
  | uniform k ih => exact congrArg Rand.uniform (funext ih)

end Rand

/-- dropping the first `b` of `b + n` collected states is burning `b` steps -/
theorem drop_collect (stp : Dict Val → Rand (Except PyErr (Dict Val))) (n : Nat) :
    ∀ (b : Nat) (d : Dict Val),
      (Mcmc.collect stp (b + n) d).andThen (fun l => .pure (.ok (l.drop b))) =
        (Mcmc.burn stp b d).andThen fun d => Mcmc.collect stp n d
  | 0, d => by
    rw [Mcmc.burn, Rand.andThen_pure_ok, Nat.zero_add]
    exact Rand.andThen_pure _
  | b + 1, d => by
    rw [Nat.succ_add, Mcmc.collect, Mcmc.burn, Rand.andThen_assoc, Rand.andThen_assoc]
    congr 1
    funext d'
    rw [Rand.andThen_assoc]
    exact drop_collect stp n b d'

/-- collecting `m + n` states is collecting `m` and going on from the last of them -/
theorem collect_add (stp : Dict Val → Rand (Except PyErr (Dict Val))) (n : Nat) :
    ∀ (m : Nat) (d : Dict Val), Mcmc.collect stp (m + n) d =
      (Mcmc.collect stp m d).andThen fun l₁ =>
        (Mcmc.collect stp n (l₁.getLast?.getD d)).andThen fun l₂ => .pure (.ok (l₁ ++ l₂))
  | 0, d => by
    rw [Mcmc.collect, Rand.andThen_pure_ok, Nat.zero_add]
    exact (Rand.andThen_pure _).symm
  | m + 1, d => by
    rw [Nat.succ_add, Mcmc.collect, Mcmc.collect, Rand.andThen_assoc]
    congr 1
    funext d'
    rw [collect_add stp n m d', Rand.andThen_assoc, Rand.andThen_assoc]
    congr 1
    funext l₁
    rw [Rand.andThen_assoc, Rand.andThen_pure_ok]
    have : (d' :: l₁).getLast?.getD d = l₁.getLast?.getD d' := by
      cases l₁ <;> simp [List.getLast?_cons]
    rw [this]
    rfl

/-- **C58** Burn-in: a chain with burn-in `b` yields what the same chain without burn-in yields
after its first `b` states — for the same random numbers, errors included. -/
theorem C58_burn_in (tm : Mcmc.Transition) (b : Nat) (full : Bool) (bn : BN) (n : Nat)
    (initial : Dict Val) (ev : Option (Dict Val)) :
    Mcmc.Sampler.generate ⟨tm, b, full⟩ bn n initial ev =
      (Mcmc.Sampler.generate ⟨tm, 0, full⟩ bn (b + n) initial ev).andThen
        fun l => .pure (.ok (l.drop b)) := by
  unfold Mcmc.Sampler.generate
  rw [Rand.andThen_assoc]
  congr 1
  funext vars
  rw [Mcmc.burn, Rand.andThen_pure_ok, drop_collect]

/-- **C58** The chain has no memory but its current state: `m + n` states are `m` states followed
by the `n` states of a chain started, without burn-in, in the last of them. -/
theorem C58_restart (tm : Mcmc.Transition) (b : Nat) (full : Bool) (bn : BN) {m : Nat} (n : Nat)
    (hm : 0 < m) (initial : Dict Val) (ev : Option (Dict Val)) :
    Mcmc.Sampler.generate ⟨tm, b, full⟩ bn (m + n) initial ev =
      (Mcmc.Sampler.generate ⟨tm, b, full⟩ bn m initial ev).andThen fun l₁ =>
        (Mcmc.Sampler.generate ⟨tm, 0, full⟩ bn n (l₁.getLast?.getD initial) ev).andThen fun l₂ =>
          .pure (.ok (l₁ ++ l₂)) := by
  obtain ⟨m, rfl⟩ : ∃ k, m = k + 1 := ⟨m - 1, by omega⟩
  unfold Mcmc.Sampler.generate
  rw [Rand.andThen_assoc]
  cases h : Mcmc.variablesToChange bn ev with
  | error e => rfl
  | ok vars =>
    rw [Rand.andThen_ok, Rand.andThen_ok, Rand.andThen_assoc]
    congr 1
    funext d
    rw [collect_add, Mcmc.collect, Rand.andThen_assoc, Rand.andThen_assoc]
    congr 1
    funext d'
    rw [Rand.andThen_assoc, Rand.andThen_assoc]
    congr 1

/-- **C58** The first state yielded without burn-in is the result of one step of the transition
model from the initial state, over the nodes that are not observed. -/
theorem C58_one_step (tm : Mcmc.Transition) (full : Bool) (bn : BN) (initial ev : Dict Val) :
    Mcmc.Sampler.generate ⟨tm, 0, full⟩ bn 1 initial (some ev) =
      (Mcmc.step tm bn (bn.filter fun n => n.name ∉ ev.keys) full initial).andThen
        fun d => .pure (.ok [d]) := by
  unfold Mcmc.Sampler.generate
  rw [variablesToChange_some, Rand.andThen_ok, Mcmc.burn, Rand.andThen_pure_ok]
  rfl

/-- **C58** Corollary for expectations: the law of the yielded states. -/
theorem C58_law (tm : Mcmc.Transition) (b : Nat) (full : Bool) (bn : BN) (n : Nat)
    (initial : Dict Val) (ev : Option (Dict Val)) (P : List (Dict Val) → Prop) :
    (Mcmc.Sampler.generate ⟨tm, b, full⟩ bn n initial ev).prob (fun r => ∃ l, r = .ok l ∧ P l) =
      (Mcmc.Sampler.generate ⟨tm, 0, full⟩ bn (b + n) initial ev).prob
        (fun r => ∃ l, r = .ok l ∧ P (l.drop b)) := by
  rw [C58_burn_in]
  unfold Rand.prob Rand.andThen
  rw [Rand.expect_bind]
  congr 1
  funext r
  cases r with
  | error e => simp [Rand.expect]
  | ok l =>
    have h : (∃ l', (Except.ok (l.drop b) : Except PyErr _) = .ok l' ∧ P l') ↔
        ∃ l', (Except.ok l : Except PyErr _) = .ok l' ∧ P (l'.drop b) :=
      ⟨fun ⟨_, h, hP⟩ => ⟨l, rfl, Except.ok.inj h ▸ hP⟩, fun ⟨_, h, hP⟩ => ⟨_, rfl, Except.ok.inj h ▸ hP⟩⟩
    simp only [Rand.expect]
    split_ifs with h₁ h₂ h₂
    · rfl
    · exact absurd (h.1 h₁) h₂
    · exact absurd (h.2 h₂) h₁
    · rfl

/-- the hypothesis of `C58_restart` is met by the defaults of `MCMC` (1000 samples, burn-in 1000) -/
example (full : Bool) := C58_restart .metropolisHastings 1000 full Ex.bn (m := 1) 999 (by decide)
  Ex.state (some Ex.hard)
/-- and none of the programs involved is degenerate: the chain of the example network yields
`numSamples` legal states. -/
example (b n : Nat) (full : Bool) := C43_chain_legal_partial Ex.bn_consistent
  Ex.bn_linked Ex.bn_discrete Ex.bn_nonneg ⟨.gibbs, b, full⟩ (by simp) (b + n)
  Ex.state_good (fun _ => ⟨Ex.na, Ex.na_mem, by decide⟩)

end Primo
