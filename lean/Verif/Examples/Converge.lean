import Verif.Spec.Converge
import Verif.Examples.Sampling

/-! # Networks for the convergence results: one with positive tables, one with a deterministic
node -/

namespace Primo.Ex

/-! ## `rain → wet ← sprinkler`, all entries positive -/

def pr : NodeV := ⟨"r", .discrete, ["t", "f"], [], [], ["w"], ⟨[2], [1 / 5, 4 / 5], rfl⟩, false⟩
def ps : NodeV :=
  ⟨"s", .discrete, ["lo", "mid", "hi"], [], [], ["w"], ⟨[3], [1 / 2, 1 / 4, 1 / 4], rfl⟩, false⟩
def pw : NodeV :=
  ⟨"w", .discrete, ["t", "f"], ["s", "r"], [("r", ["t", "f"]), ("s", ["lo", "mid", "hi"])], [],
    ⟨[2, 3, 2], [9 / 10, 1 / 10, 19 / 20, 1 / 2, 99 / 100, 4 / 5,
      1 / 10, 9 / 10, 1 / 20, 1 / 2, 1 / 100, 1 / 5], rfl⟩, false⟩

/-- the network -/
def wet : BN := [pw, pr, ps]

theorem wet_consistent : wet.Consistent := by
  constructor <;> decide

theorem wet_linked : wet.Linked := by
  constructor
  · decide
  · intro n hn c
    simp only [wet, List.mem_cons, List.not_mem_nil, or_false] at hn ⊢
    rcases hn with rfl | rfl | rfl <;> simp [pr, ps, pw, eq_comm]

theorem wet_discrete : wet.Discrete := by
  constructor <;> decide

theorem wet_positive : wet.Positive := by
  intro n hn
  simp only [wet, List.mem_cons, List.not_mem_nil, or_false] at hn
  rcases hn with rfl | rfl | rfl <;> decide +kernel

theorem wet_nonneg : wet.NonNeg := fun n hn x hx => (wet_positive n hn x hx).le

theorem wet_acyclic : wet.Acyclic :=
  acyclic_of_rank (fun v => if v = "w" then 1 else 0) (by decide)

theorem wet_stochastic : wet.Stochastic := by
  intro n hn σ hσ
  simp only [wet, List.mem_cons, List.not_mem_nil, or_false] at hn
  rcases hn with rfl | rfl | rfl
  · have h1 : σ "s" < 3 := hσ "s" (by decide)
    have h2 : σ "r" < 2 := hσ "r" (by decide)
    simp only [pw, List.map_cons, List.map_nil]
    generalize σ "s" = i at *
    generalize σ "r" = j at *
    interval_cases i <;> interval_cases j <;> decide +kernel
  · simp only [pr, List.map_nil]; decide +kernel
  · simp only [ps, List.map_nil]; decide +kernel

/-- `w` observed -/
def wetEv : Dict Val := [("w", "t")]

theorem wetEv_legal : LegalHard wet wetEv := by
  constructor <;> decide

/-- a state of the network -/
def wetState : Dict Val := [("w", "t"), ("r", "f"), ("s", "hi")]

theorem wetState_good : GoodState wet wetEv wetState := by
  refine ⟨by decide, ?_⟩
  intro v x h
  simp only [wetEv, Dict.get?] at h
  split at h
  · rename_i e; cases h; subst e; decide
  · cases h

/-! ## `a → b`, where `b` is a copy of `a` -/

def ka : NodeV := ⟨"a", .discrete, ["t", "f"], [], [], ["b"], ⟨[2], [1 / 2, 1 / 2], rfl⟩, false⟩
def kb : NodeV :=
  ⟨"b", .discrete, ["t", "f"], ["a"], [("a", ["t", "f"])], [], ⟨[2, 2], [1, 0, 0, 1], rfl⟩, false⟩

/-- the network -/
def copyNet : BN := [ka, kb]

theorem copyNet_consistent : copyNet.Consistent := by
  constructor <;> decide

theorem copyNet_linked : copyNet.Linked := by
  constructor
  · decide
  · intro n hn c
    simp only [copyNet, List.mem_cons, List.not_mem_nil, or_false] at hn ⊢
    rcases hn with rfl | rfl <;> simp [ka, kb, eq_comm]

theorem copyNet_discrete : copyNet.Discrete := by
  constructor <;> decide

theorem copyNet_nonneg : copyNet.NonNeg := by
  intro n hn
  simp only [copyNet, List.mem_cons, List.not_mem_nil, or_false] at hn
  rcases hn with rfl | rfl <;> decide +kernel

theorem copyNet_acyclic : copyNet.Acyclic :=
  acyclic_of_rank (fun v => if v = "b" then 1 else 0) (by decide)

theorem copyNet_stochastic : copyNet.Stochastic := by
  intro n hn σ hσ
  simp only [copyNet, List.mem_cons, List.not_mem_nil, or_false] at hn
  rcases hn with rfl | rfl
  · simp only [ka, List.map_nil]; decide +kernel
  · have h1 : σ "a" < 2 := hσ "a" (by decide)
    simp only [kb, List.map_cons, List.map_nil]
    generalize σ "a" = i at *
    interval_cases i <;> decide +kernel

/-- both nodes in outcome `x` -/
def copyState (x : Val) : Dict Val := [("a", x), ("b", x)]

/-- both nodes in outcome number `i` -/
def copyσ (i : Nat) : Assign := fun v => if v = "a" ∨ v = "b" then i else 0

theorem copyσ_legal {i : Nat} (h : i < 2) : Legal copyNet.card copyNet.names (copyσ i) := by
  unfold Legal
  interval_cases i <;> decide

theorem noEv_legal {bn : BN} : LegalHard bn [] := ⟨by simp [Dict.keys], by simp, by simp⟩

theorem copyNet_joint (σ : Assign) :
    joint copyNet σ = ka.cpd.get [σ "a"] * (kb.cpd.get [σ "b", σ "a"] * 1) := rfl

theorem copyNet_possible {σ : Assign} (h : Possible copyNet [] σ) : σ "a" = σ "b" := by
  have ha : σ "a" < 2 := h.1 "a" (by decide)
  have hb : σ "b" < 2 := h.1 "b" (by decide)
  have hj := h.2.2
  rw [copyNet_joint] at hj
  generalize σ "a" = i at *
  generalize σ "b" = j at *
  revert hj
  interval_cases i <;> interval_cases j <;> decide +kernel

theorem copyNet_not_connected : ¬ Connected copyNet [] := by
  have hp : ∀ i < 2, Possible copyNet [] (copyσ i) := by
    intro i hi
    refine ⟨copyσ_legal hi, fun _ _ h => (by cases h), ?_⟩
    interval_cases i <;> decide +kernel
  intro h
  have key : ∀ τ, Relation.ReflTransGen
      (fun a b => Possible copyNet [] b ∧ OneChange copyNet a b) (copyσ 0) τ → τ "a" = 0 ∧ τ "b" = 0 := by
    intro τ hτ
    induction hτ with
    | refl => decide
    | tail _ hbc ih =>
      obtain ⟨h1, v, h2⟩ := hbc
      have e := copyNet_possible h1
      by_cases hv : "a" = v
      · have := h2 "b" (by decide) (by subst hv; decide)
        omega
      · have := h2 "a" (by decide) hv
        omega
  exact absurd (key _ (h _ _ (hp 0 (by decide)) (hp 1 (by decide)))).1 (by decide)

/-! ## `a → b`, where `b` is never `t` without `a` -/

def ga : NodeV := ⟨"a", .discrete, ["t", "f"], [], [], ["b"], ⟨[2], [1 / 2, 1 / 2], rfl⟩, false⟩
def gb : NodeV :=
  ⟨"b", .discrete, ["t", "f"], ["a"], [("a", ["t", "f"])], [],
    ⟨[2, 2], [1 / 2, 0, 1 / 2, 1], rfl⟩, false⟩

/-- the network -/
def gateNet : BN := [ga, gb]

theorem gateNet_consistent : gateNet.Consistent := by
  constructor <;> decide

theorem gateNet_linked : gateNet.Linked := by
  constructor
  · decide
  · intro n hn c
    simp only [gateNet, List.mem_cons, List.not_mem_nil, or_false] at hn ⊢
    rcases hn with rfl | rfl <;> simp [ga, gb, eq_comm]

theorem gateNet_discrete : gateNet.Discrete := by
  constructor <;> decide

theorem gateNet_nonneg : gateNet.NonNeg := by
  intro n hn
  simp only [gateNet, List.mem_cons, List.not_mem_nil, or_false] at hn
  rcases hn with rfl | rfl <;> decide +kernel

theorem gateNet_acyclic : gateNet.Acyclic :=
  acyclic_of_rank (fun v => if v = "b" then 1 else 0) (by decide)

theorem gateNet_stochastic : gateNet.Stochastic := by
  intro n hn σ hσ
  simp only [gateNet, List.mem_cons, List.not_mem_nil, or_false] at hn
  rcases hn with rfl | rfl
  · simp only [ga, List.map_nil]; decide +kernel
  · have h1 : σ "a" < 2 := hσ "a" (by decide)
    simp only [gb, List.map_cons, List.map_nil]
    generalize σ "a" = i at *
    interval_cases i <;> decide +kernel

theorem gateNet_joint (σ : Assign) :
    joint gateNet σ = ga.cpd.get [σ "a"] * (gb.cpd.get [σ "b", σ "a"] * 1) := rfl

theorem gateNet_possible {σ : Assign} :
    Possible gateNet [] σ ↔ σ "a" < 2 ∧ σ "b" < 2 ∧ (σ "b" = 0 → σ "a" = 0) := by
  constructor
  · intro h
    have ha : σ "a" < 2 := h.1 "a" (by decide)
    have hb : σ "b" < 2 := h.1 "b" (by decide)
    refine ⟨ha, hb, ?_⟩
    have hj := h.2.2
    rw [gateNet_joint] at hj
    generalize σ "a" = i at *
    generalize σ "b" = j at *
    revert hj
    interval_cases i <;> interval_cases j <;> decide +kernel
  · rintro ⟨ha, hb, hab⟩
    refine ⟨fun v hv => ?_, fun _ _ h => (by cases h), ?_⟩
    · have : v = "a" ∨ v = "b" := by simpa [gateNet, BN.names, ga, gb] using hv
      rcases this with rfl | rfl
      · exact ha
      · exact hb
    · rw [gateNet_joint]
      generalize σ "a" = i at *
      generalize σ "b" = j at *
      revert hab
      interval_cases i <;> interval_cases j <;> decide +kernel

theorem gateNet_connected : Connected gateNet [] := by
  intro σ τ hσ hτ
  rw [gateNet_possible] at hσ
  have hτ' := gateNet_possible.1 hτ
  have h1 : Possible gateNet [] (Function.update σ "b" 1) := gateNet_possible.2
    ⟨by simpa using hσ.1, by simp, by simp⟩
  have h2 : Possible gateNet [] (Function.update τ "b" 1) := gateNet_possible.2
    ⟨by simpa using hτ'.1, by simp, by simp⟩
  have hn : ∀ w ∈ gateNet.names, w = "a" ∨ w = "b" := by decide
  refine ((Relation.ReflTransGen.single ⟨h1, "b", fun w _ hw => Function.update_of_ne hw ..⟩).tail
    ⟨h2, "a", fun w hw hwa => ?_⟩).tail ⟨hτ, "b", fun w _ hw => (Function.update_of_ne hw ..).symm⟩
  obtain rfl := (hn w hw).resolve_left hwa
  simp

/-! ## `a → b ← c`, where `b` is the conjunction of two fair coins, observed to be true -/

def aa : NodeV := ⟨"a", .discrete, ["f", "t"], [], [], ["b"], ⟨[2], [1 / 2, 1 / 2], rfl⟩, false⟩
def ac : NodeV := ⟨"c", .discrete, ["f", "t"], [], [], ["b"], ⟨[2], [1 / 2, 1 / 2], rfl⟩, false⟩
def ab : NodeV :=
  ⟨"b", .discrete, ["f", "t"], ["a", "c"], [("a", ["f", "t"]), ("c", ["f", "t"])], [],
    ⟨[2, 2, 2], [1, 1, 1, 0, 0, 0, 0, 1], rfl⟩, false⟩

/-- the network -/
def andNet : BN := [aa, ac, ab]

theorem andNet_consistent : andNet.Consistent := by
  constructor <;> decide

theorem andNet_linked : andNet.Linked := by
  constructor
  · decide
  · intro n hn c
    simp only [andNet, List.mem_cons, List.not_mem_nil, or_false] at hn ⊢
    rcases hn with rfl | rfl | rfl <;> simp [aa, ac, ab, eq_comm]

theorem andNet_discrete : andNet.Discrete := by
  constructor <;> decide

theorem andNet_nonneg : andNet.NonNeg := by
  intro n hn
  simp only [andNet, List.mem_cons, List.not_mem_nil, or_false] at hn
  rcases hn with rfl | rfl | rfl <;> decide +kernel

theorem andNet_acyclic : andNet.Acyclic :=
  acyclic_of_rank (fun v => if v = "b" then 1 else 0) (by decide)

theorem andNet_stochastic : andNet.Stochastic := by
  intro n hn σ hσ
  simp only [andNet, List.mem_cons, List.not_mem_nil, or_false] at hn
  rcases hn with rfl | rfl | rfl
  · simp only [aa, List.map_nil]; decide +kernel
  · simp only [ac, List.map_nil]; decide +kernel
  · have h1 : σ "a" < 2 := hσ "a" (by decide)
    have h2 : σ "c" < 2 := hσ "c" (by decide)
    simp only [ab, List.map_cons, List.map_nil]
    generalize σ "a" = i at *
    generalize σ "c" = j at *
    interval_cases i <;> interval_cases j <;> decide +kernel

/-- the conjunction is true -/
def andEv : Dict Val := [("b", "t")]

theorem andEv_legal : LegalHard andNet andEv := by
  constructor <;> decide

/-- both coins in outcome number `i` -/
def andσ (i : Nat) : Assign := fun v =>
  if v = "a" ∨ v = "c" ∨ v = "b" then (if v = "b" then 1 else i) else 0

theorem andσ_legal {i : Nat} (h : i < 2) : Legal andNet.card andNet.names (andσ i) := by
  unfold Legal
  interval_cases i <;> decide

theorem andNet_joint (σ : Assign) : joint andNet σ =
    aa.cpd.get [σ "a"] * (ac.cpd.get [σ "c"] * (ab.cpd.get [σ "b", σ "a", σ "c"] * 1)) := rfl

theorem andNet_possible {σ : Assign} :
    Possible andNet andEv σ ↔ σ "a" = 1 ∧ σ "c" = 1 ∧ σ "b" = 1 := by
  constructor
  · intro h
    have ha : σ "a" < 2 := h.1 "a" (by decide)
    have hc : σ "c" < 2 := h.1 "c" (by decide)
    have hb : σ "b" < 2 := h.1 "b" (by decide)
    have he := h.2.1 "b" "t" rfl
    have hj := h.2.2
    rw [andNet_joint] at hj
    have hl : andNet.lab "b" = ["f", "t"] := by decide
    rw [hl] at he
    generalize σ "a" = i at *
    generalize σ "b" = j at *
    generalize σ "c" = k at *
    revert hj he
    interval_cases i <;> interval_cases j <;> interval_cases k <;> decide +kernel
  · rintro ⟨ha, hc, hb⟩
    refine ⟨fun v hv => ?_, fun v x h => ?_, ?_⟩
    · have : v = "a" ∨ v = "c" ∨ v = "b" := by simpa [andNet, BN.names, aa, ac, ab] using hv
      rcases this with rfl | rfl | rfl
      · rw [ha]; decide
      · rw [hc]; decide
      · rw [hb]; decide
    · simp only [andEv, Dict.get?] at h
      split at h
      · rename_i e; cases h; subst e; rw [hb]; decide
      · cases h
    · rw [andNet_joint, ha, hc, hb]
      decide +kernel

theorem andNet_connected : Connected andNet andEv := by
  intro σ τ hσ hτ
  refine .single ⟨hτ, "", fun w hw _ => ?_⟩
  rw [andNet_possible] at hσ hτ
  have : w = "a" ∨ w = "c" ∨ w = "b" := by simpa [andNet, BN.names, aa, ac, ab] using hw
  rcases this with rfl | rfl | rfl
  · rw [hσ.1, hτ.1]
  · rw [hσ.2.1, hτ.2.1]
  · rw [hσ.2.2, hτ.2.2]

theorem andNet_stuck : ∀ n ∈ andNet, n.name ∉ andEv.keys → andσ 0 n.name = 0 ∧
    ∀ b < andNet.card n.name,
      LocallyImpossible andNet n (Function.update (andσ 0) n.name b) := by
  intro n hn hn'
  simp only [andNet, List.mem_cons, List.not_mem_nil, or_false] at hn
  rcases hn with rfl | rfl | rfl
  · refine ⟨by decide, fun b hb => ⟨ab, by simp [andNet], Or.inr (by decide), ?_⟩⟩
    replace hb : b < 2 := hb
    interval_cases b <;> decide +kernel
  · refine ⟨by decide, fun b hb => ⟨ab, by simp [andNet], Or.inr (by decide), ?_⟩⟩
    replace hb : b < 2 := hb
    interval_cases b <;> decide +kernel
  · exact absurd hn' (by decide)

/-! ### the same network, the conjunction observed to be false -/

/-- the conjunction is false -/
def nandEv : Dict Val := [("b", "f")]

theorem nandEv_legal : LegalHard andNet nandEv := by
  constructor <;> decide

theorem nand_possible {σ : Assign} : Possible andNet nandEv σ ↔
    σ "a" < 2 ∧ σ "c" < 2 ∧ σ "b" = 0 ∧ (σ "a" = 0 ∨ σ "c" = 0) := by
  constructor
  · intro h
    have ha : σ "a" < 2 := h.1 "a" (by decide)
    have hc : σ "c" < 2 := h.1 "c" (by decide)
    have hb : σ "b" < 2 := h.1 "b" (by decide)
    have he := h.2.1 "b" "f" rfl
    have hj := h.2.2
    rw [andNet_joint] at hj
    have hl : andNet.lab "b" = ["f", "t"] := by decide
    rw [hl] at he
    refine ⟨ha, hc, ?_⟩
    generalize σ "a" = i at *
    generalize σ "b" = j at *
    generalize σ "c" = k at *
    revert hj he
    interval_cases i <;> interval_cases j <;> interval_cases k <;> decide +kernel
  · rintro ⟨ha, hc, hb, hac⟩
    refine ⟨fun v hv => ?_, fun v x h => ?_, ?_⟩
    · have : v = "a" ∨ v = "c" ∨ v = "b" := by simpa [andNet, BN.names, aa, ac, ab] using hv
      rcases this with rfl | rfl | rfl
      · exact ha
      · exact hc
      · rw [hb]; decide
    · simp only [nandEv, Dict.get?] at h
      split at h
      · rename_i e; cases h; subst e; rw [hb]; decide
      · cases h
    · rw [andNet_joint, hb]
      generalize σ "a" = i at *
      generalize σ "c" = k at *
      revert hac
      interval_cases i <;> interval_cases k <;> decide +kernel

theorem nand_connected : Connected andNet nandEv := by
  intro σ τ hσ hτ
  have hσ' := nand_possible.1 hσ
  have hτ' := nand_possible.1 hτ
  have h1 : Possible andNet nandEv (Function.update σ "a" 0) := nand_possible.2
    ⟨by simp, by simpa using hσ'.2.1, by simpa using hσ'.2.2.1, by simp⟩
  have h2 : Possible andNet nandEv (Function.update τ "a" 0) := nand_possible.2
    ⟨by simp, by simpa using hτ'.2.1, by simpa using hτ'.2.2.1, by simp⟩
  have hn : ∀ w ∈ andNet.names, w = "a" ∨ w = "c" ∨ w = "b" := by decide
  refine ((Relation.ReflTransGen.single ⟨h1, "a", fun w _ hw => Function.update_of_ne hw ..⟩).tail
    ⟨h2, "c", fun w hw hwc => ?_⟩).tail ⟨hτ, "a", fun w _ hw => (Function.update_of_ne hw ..).symm⟩
  rcases hn w hw with rfl | rfl | rfl
  · simp
  · exact absurd rfl hwc
  · simp [hσ'.2.2.1, hτ'.2.2.1]

/-- Forward sampling may return the impossible state with both coins heads, which Gibbs sampling
leaves. -/
theorem nand_escapes : Escapes andNet nandEv false := by
  intro σ hσ ρ hρ
  have hinv : ρ "a" < 2 ∧ ρ "c" < 2 ∧ ρ "b" = 0 := by
    induction hρ with
    | refl =>
      refine ⟨hσ.1 "a" (by decide), hσ.1 "c" (by decide), ?_⟩
      have hb : σ "b" < 2 := hσ.1 "b" (by decide)
      have he := hσ.2.1 "b" "f" rfl
      have hl : andNet.lab "b" = ["f", "t"] := by decide
      rw [hl] at he
      generalize σ "b" = j at *
      revert he
      interval_cases j <;> decide
    | tail _ h ih =>
      obtain ⟨n, hn, hn', b, hb, rfl, _⟩ := h
      simp only [andNet, List.mem_cons, List.not_mem_nil, or_false] at hn
      rcases hn with rfl | rfl | rfl
      · replace hb : b < 2 := hb
        exact ⟨by simpa [aa] using Nat.le_of_lt_succ hb, by simpa [aa] using ih.2.1, by simpa [aa] using ih.2.2⟩
      · replace hb : b < 2 := hb
        exact ⟨by simpa [ac] using ih.1, by simpa [ac] using Nat.le_of_lt_succ hb, by simpa [ac] using ih.2.2⟩
      · exact absurd hn' (by decide)
  refine ⟨Function.update ρ "a" 0, ?_, .single ⟨aa, by simp [andNet], by decide, 0, by decide, rfl,
    Or.inl ?_⟩⟩
  · exact nand_possible.2 ⟨by simp, by simpa using hinv.2.1, by simpa using hinv.2.2, by simp⟩
  · rintro ⟨m, hm, hp, h0⟩
    simp only [andNet, List.mem_cons, List.not_mem_nil, or_false] at hm
    obtain ⟨-, hc, hb⟩ := hinv
    rcases hm with rfl | rfl | rfl
    · simp only [NodeV.entry, aa, List.map_nil, Function.update_self] at h0
      exact absurd h0 (by decide +kernel)
    · rcases hp with hp | hp
      · exact absurd (congrArg NodeV.name hp) (by decide)
      · exact absurd hp (by decide)
    · simp only [NodeV.entry, ab, List.map_cons, List.map_nil, Function.update_self] at h0
      rw [Function.update_of_ne (by decide), Function.update_of_ne (by decide), hb] at h0
      generalize ρ "c" = k at *
      revert h0
      interval_cases k <;> decide +kernel

theorem nand_not_starts : ¬ StartsPossible andNet nandEv := by
  intro h
  have := h (fun v => if v = "b" then 0 else 1) (by unfold Legal; decide) (fun v x h => by
    simp only [nandEv, Dict.get?] at h
    split at h
    · rename_i e; cases h; subst e; decide
    · cases h) (fun n hn hn' => by
      simp only [andNet, List.mem_cons, List.not_mem_nil, or_false] at hn
      rcases hn with rfl | rfl | rfl
      · decide +kernel
      · decide +kernel
      · exact absurd hn' (by decide))
  revert this
  decide +kernel

end Primo.Ex
