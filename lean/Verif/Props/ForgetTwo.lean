import Verif.Props.ForgetSoft

/-! # C92, C93: with two transitions the start need not be forgotten -/

namespace Primo
open JoinTree

namespace Ex

/-- a prior -/
def nandPrior (q : ℚ) : NDArray := ⟨[2], [q, 1 - q], rfl⟩

/-- `s` is a copy of `r` -/
def nandCopy : NodeV :=
  ⟨"s", .discrete, ["t", "f"], ["r"], [("r", ["t", "f"])], [], ⟨[2, 2], [1, 0, 0, 1], rfl⟩, false⟩

/-- the first slice: `r` and its copy `s` -/
def nandFirst (q : ℚ) : BN := [⟨"r", .discrete, ["t", "f"], [], [], ["s"], nandPrior q, false⟩, nandCopy]

/-- a later slice: `x` and `y` are the variables `r` and `s` of the slice before, and `r` is, with probability 19/20,
true iff they are not both true -/
def nandTwo (q : ℚ) : BN :=
  [⟨"x", .discrete, ["t", "f"], [], [], ["r"], nandPrior q, false⟩,
   ⟨"y", .discrete, ["t", "f"], [], [], ["r"], nandPrior q, false⟩,
   ⟨"r", .discrete, ["t", "f"], ["x", "y"], [("x", ["t", "f"]), ("y", ["t", "f"])], ["s"],
     ⟨[2, 2, 2], [1 / 20, 19 / 20, 19 / 20, 19 / 20, 19 / 20, 1 / 20, 1 / 20, 1 / 20], rfl⟩, false⟩,
   nandCopy]

/-- the first slice is one of two -/
def nandStart (b : Bool) : ℚ := if b then 3 / 4 else 9 / 20

def nand (b : Bool) : DBN := ⟨nandFirst (nandStart b), nandTwo (1 / 2), [("x", "r"), ("y", "s")]⟩

/-- the prior after one more slice -/
def nandNext (q : ℚ) : ℚ := 19 / 20 - 9 / 10 * q ^ 2

theorem nandFirst_tree (b : Bool) : TreeSetup (nandFirst (nandStart b)) none := by
  refine PerfectSetup.tree ⟨?_, ⟨?_, ?_⟩, recorded_of_check ?_,
    uniqueJoin_of_length (k := 1) ?_ ?_, by simp [nandFirst], ["r", "s"], ?_, ?_, perfect_of_tails ?_⟩
  · constructor <;> revert b <;> decide +kernel
  · revert b; decide +kernel
  · intro n hn c
    simp only [nandFirst, List.mem_cons, List.not_mem_nil, or_false] at hn ⊢
    rcases hn with rfl | rfl <;> simp [nandCopy, eq_comm]
  all_goals revert b; decide +kernel

theorem nandTwo_tree : TreeSetup (nandTwo (1 / 2)) none := by
  refine PerfectSetup.tree ⟨?_, ⟨?_, ?_⟩, recorded_of_check ?_,
    uniqueJoin_of_length (k := 1) ?_ ?_, by simp [nandTwo], ["x", "y", "r", "s"], ?_, ?_, perfect_of_tails ?_⟩
  · constructor <;> decide +kernel
  · decide +kernel
  · intro n hn c
    simp only [nandTwo, List.mem_cons, List.not_mem_nil, or_false] at hn ⊢
    rcases hn with rfl | rfl | rfl | rfl <;> simp [nandCopy, eq_comm]
  all_goals decide +kernel

theorem nand_facts : ∀ b : Bool,
    (∀ n ∈ nandFirst (nandStart b), ∀ x ∈ n.cpd.data, 0 ≤ x) ∧
    ("r" ∈ (nandFirst (nandStart b)).names ∧
      ∀ v ∈ (nandFirst (nandStart b)).names, v ≠ "r" → (nandFirst (nandStart b)).Skel v "r") ∧
    (nandFirst (nandStart b)).card "r" = 2 ∧ (nandFirst (nandStart b)).card "s" = 2 := by
  decide +kernel

theorem nand_facts' :
    (∀ n ∈ nandTwo (1 / 2), ∀ x ∈ n.cpd.data, 0 ≤ x) ∧
    ("r" ∈ (nandTwo (1 / 2)).names ∧
      ∀ v ∈ (nandTwo (1 / 2)).names, v ≠ "r" → (nandTwo (1 / 2)).Skel v "r") := by
  decide +kernel

theorem nandTwo_card (q : ℚ) : (nandTwo q).card "x" = 2 ∧ (nandTwo q).card "y" = 2 ∧ (nandTwo q).card "r" = 2 ∧
    (nandTwo q).card "s" = 2 := ⟨rfl, rfl, rfl, rfl⟩

theorem nandFirst_card (q : ℚ) : (nandFirst q).card "r" = 2 ∧ (nandFirst q).card "s" = 2 := ⟨rfl, rfl⟩

theorem nand_ready (b : Bool) : (nand b).Ready where
  b0 := nandFirst_tree b
  b0_nonneg := (nand_facts b).1
  b0_connected := connected_of_hub (c := "r") (nand_facts b).2.1.1 (nand_facts b).2.1.2
  two := nandTwo_tree
  two_nonneg := nand_facts'.1
  two_connected := connected_of_hub (c := "r") nand_facts'.2.1 nand_facts'.2.2
  targets := by simp [nand]
  node := fun tr h => by
    simp only [nand, List.mem_cons, List.not_mem_nil, or_false] at h
    rcases h with rfl | rfl
    · exact ⟨_, List.mem_cons_self, rfl, rfl, rfl, rfl, rfl⟩
    · exact ⟨_, List.mem_cons_of_mem _ List.mem_cons_self, rfl, rfl, rfl, rfl, rfl⟩
  source := by revert b; decide +kernel

theorem nand_influence (b : Bool) (a : Name) (ha : a ∈ ["x", "y"]) : (nand b).twoTbn.Influence a 19 :=
  BN.Influence.of_data nandTwo_tree.consistent (by revert a; decide +kernel)
    (by revert a; decide +kernel)

/-- the table of `r` -/
def nandTable : NDArray := ⟨[2, 2, 2], [1 / 20, 19 / 20, 19 / 20, 19 / 20, 19 / 20, 1 / 20, 1 / 20, 1 / 20], rfl⟩

theorem nandTwo_weight (q : ℚ) (σ : Assign) : weight (nandTwo q) [] σ =
    (nandPrior q).get [σ "x"] * ((nandPrior q).get [σ "y"] *
      (nandTable.get [σ "r", σ "x", σ "y"] * nandCopy.cpd.get [σ "s", σ "r"])) := by
  simp [weight, nandTwo, nandCopy, NodeV.entry, nandTable]

theorem nandFirst_weight (q : ℚ) (σ : Assign) : weight (nandFirst q) [] σ =
    (nandPrior q).get [σ "r"] * nandCopy.cpd.get [σ "s", σ "r"] := by
  simp [weight, nandFirst, nandCopy, NodeV.entry]

theorem nandPrior_get (q : ℚ) : (nandPrior q).get [0] = q ∧ (nandPrior q).get [1] = 1 - q := ⟨rfl, rfl⟩

theorem nand_tables : nandCopy.cpd.get [0, 0] = 1 ∧ nandCopy.cpd.get [0, 1] = 0 ∧ nandCopy.cpd.get [1, 0] = 0 ∧
    nandCopy.cpd.get [1, 1] = 1 ∧ nandTable.get [0, 0, 0] = 1 / 20 ∧ nandTable.get [0, 0, 1] = 19 / 20 ∧
    nandTable.get [0, 1, 0] = 19 / 20 ∧ nandTable.get [0, 1, 1] = 19 / 20 ∧ nandTable.get [1, 0, 0] = 19 / 20 ∧
    nandTable.get [1, 0, 1] = 1 / 20 ∧ nandTable.get [1, 1, 0] = 1 / 20 ∧ nandTable.get [1, 1, 1] = 1 / 20 := by
  decide +kernel

theorem nandTwo_names (q : ℚ) : (nandTwo q).names.toFinset = {"x", "y", "r", "s"} := rfl

theorem nandFirst_names (q : ℚ) : (nandFirst q).names.toFinset = {"r", "s"} := rfl

theorem nandTwo_total (q : ℚ) (σ : Assign) : totalWeight (nandTwo q) [] σ = 1 := by
  obtain ⟨t1, t2, t3, t4, t5, t6, t7, t8, t9, t10, t11, t12⟩ := nand_tables
  obtain ⟨c1, c2, c3, c4⟩ := nandTwo_card q
  obtain ⟨p1, p2⟩ := nandPrior_get q
  unfold totalWeight
  rw [nandTwo_names, sumOver_insert (by decide)]
  simp only [sumOver_insert (show "y" ∉ ({"r", "s"} : Finset Name) by decide),
    sumOver_insert (show "r" ∉ ({"s"} : Finset Name) by decide), sumOver_singleton, c1, c2, c3, c4,
    Finset.sum_range_succ, Finset.sum_range_zero, nandTwo_weight]
  simp [p1, p2, t1, t2, t3, t4, t5, t6, t7, t8, t9, t10, t11, t12]
  ring

theorem nandFirst_total (q : ℚ) (σ : Assign) : totalWeight (nandFirst q) [] σ = 1 := by
  obtain ⟨t1, t2, t3, t4, -⟩ := nand_tables
  obtain ⟨c3, c4⟩ := nandFirst_card q
  obtain ⟨p1, p2⟩ := nandPrior_get q
  unfold totalWeight
  rw [nandFirst_names, sumOver_insert (by decide)]
  simp only [sumOver_singleton, c3, c4, Finset.sum_range_succ, Finset.sum_range_zero, nandFirst_weight]
  simp [p1, p2, t1, t2, t3, t4]

/-- the posteriors of `r` and `s` in the first slice -/
theorem nandFirst_posterior (q : ℚ) {v : Name} (hv : v ∈ ["r", "s"]) {σ : Assign} (hσ : σ v < 2) :
    posterior (nandFirst q) [] [v] σ = (nandPrior q).get [σ v] := by
  obtain ⟨t1, t2, t3, t4, -⟩ := nand_tables
  obtain ⟨c3, c4⟩ := nandFirst_card q
  obtain ⟨p1, p2⟩ := nandPrior_get q
  unfold posterior
  rw [nandFirst_total, if_pos one_pos, div_one, nandFirst_names]
  simp only [List.mem_cons, List.not_mem_nil, or_false] at hv
  rcases hv with rfl | rfl
  · rw [show ({"r", "s"} : Finset Name) \ ["r"].toFinset = {"s"} by decide]
    simp only [sumOver_singleton, c4, Finset.sum_range_succ, Finset.sum_range_zero, nandFirst_weight]
    generalize hi : σ "r" = i at hσ
    interval_cases i <;> simp [hi, p1, p2, t1, t2, t3, t4]
  · rw [show ({"r", "s"} : Finset Name) \ ["s"].toFinset = {"r"} by decide]
    simp only [sumOver_singleton, c3, Finset.sum_range_succ, Finset.sum_range_zero, nandFirst_weight]
    generalize hi : σ "s" = i at hσ
    interval_cases i <;> simp [hi, p1, p2, t1, t2, t3, t4]

/-- the posteriors of `r` and `s` in a later slice -/
theorem nandTwo_posterior (q : ℚ) {v : Name} (hv : v ∈ ["r", "s"]) {σ : Assign} (hσ : σ v < 2) :
    posterior (nandTwo q) [] [v] σ = (nandPrior (nandNext q)).get [σ v] := by
  obtain ⟨t1, t2, t3, t4, t5, t6, t7, t8, t9, t10, t11, t12⟩ := nand_tables
  obtain ⟨c1, c2, c3, c4⟩ := nandTwo_card q
  obtain ⟨p1, p2⟩ := nandPrior_get q
  obtain ⟨p1', p2'⟩ := nandPrior_get (nandNext q)
  unfold posterior
  rw [nandTwo_total, if_pos one_pos, div_one, nandTwo_names]
  simp only [List.mem_cons, List.not_mem_nil, or_false] at hv
  rcases hv with rfl | rfl
  · rw [show ({"x", "y", "r", "s"} : Finset Name) \ ["r"].toFinset = {"x", "y", "s"} by decide,
      sumOver_insert (by decide)]
    simp only [sumOver_insert (show "y" ∉ ({"s"} : Finset Name) by decide), sumOver_singleton, c1, c2, c4,
      Finset.sum_range_succ, Finset.sum_range_zero, nandTwo_weight]
    generalize hi : σ "r" = i at hσ
    interval_cases i <;>
      simp [hi, p1, p2, p1', p2', t1, t2, t3, t4, t5, t6, t7, t8, t9, t10, t11, t12] <;> unfold nandNext <;> ring
  · rw [show ({"x", "y", "r", "s"} : Finset Name) \ ["s"].toFinset = {"x", "y", "r"} by decide,
      sumOver_insert (by decide)]
    simp only [sumOver_insert (show "y" ∉ ({"r"} : Finset Name) by decide), sumOver_singleton, c1, c2, c3,
      Finset.sum_range_succ, Finset.sum_range_zero, nandTwo_weight]
    generalize hi : σ "s" = i at hσ
    interval_cases i <;>
      simp [hi, p1, p2, p1', p2', t1, t2, t3, t4, t5, t6, t7, t8, t9, t10, t11, t12] <;> unfold nandNext <;> ring

theorem nandTwo_bare (q q' : ℚ) : (nandTwo q).bare = (nandTwo q').bare := rfl

/-- feeding the posteriors of `r` and `s` back -/
theorem nand_fed {net : BN} {q q' : ℚ} (hr : net.card "r" = 2) (hs : net.card "s" = 2)
    (h : ∀ v ∈ ["r", "s"], ∀ σ : Assign, σ v < 2 → posterior net [] [v] σ = (nandPrior q').get [σ v]) :
    Fed [("x", "r"), ("y", "s")] net [] (nandTwo q) (nandTwo q') where
  bare := rfl
  fed tr htr n hn e := by
    simp only [List.mem_cons, List.not_mem_nil, or_false] at htr
    simp only [nandTwo, List.mem_cons, List.not_mem_nil, or_false] at hn
    rcases htr with rfl | rfl <;> rcases hn with rfl | rfl | rfl | rfl <;> simp [nandCopy] at e
    · rw [hr]; exact ⟨rfl, fun σ hσ => (h "r" (by simp) σ hσ).symm⟩
    · rw [hs]; exact ⟨rfl, fun σ hσ => (h "s" (by simp) σ hσ).symm⟩
  kept n hn ht := by
    simp only [nandTwo, List.mem_cons, List.not_mem_nil, or_false] at hn ⊢
    rcases hn with rfl | rfl | rfl | rfl <;> simp at ht ⊢

theorem nand_slices (b : Bool) (n : Nat) : Slices (nand b) (List.replicate (n + 1) [])
    (nandTwo (nandNext^[n] (nandStart b))) (nandTwo (nandNext^[n] (nandStart b))) := by
  induction n with
  | zero =>
    exact .next (es := []) .start (nand_fed rfl rfl fun v hv σ hσ => nandFirst_posterior _ hv hσ)
  | succ n ih =>
    rw [List.replicate_succ', Function.iterate_succ_apply']
    exact .next ih (nand_fed rfl rfl fun v hv σ hσ => nandTwo_posterior _ hv hσ)

/-- the prior jumps to and fro -/
theorem nandNext_side {q : ℚ} (h0 : 0 ≤ q) (h1 : q ≤ 1) : 0 ≤ nandNext q ∧ nandNext q ≤ 1 ∧
    (3 / 4 ≤ q → nandNext q ≤ 9 / 20) ∧ (q ≤ 9 / 20 → 3 / 4 ≤ nandNext q) := by
  unfold nandNext
  refine ⟨by nlinarith, by nlinarith, fun h => by nlinarith, fun h => by nlinarith⟩

theorem nand_sides (b : Bool) (n : Nat) : 0 ≤ nandNext^[n] (nandStart b) ∧ nandNext^[n] (nandStart b) ≤ 1 ∧
    if b = decide (n % 2 = 0) then 3 / 4 ≤ nandNext^[n] (nandStart b) else nandNext^[n] (nandStart b) ≤ 9 / 20 := by
  induction n with
  | zero => cases b <;> norm_num [nandStart]
  | succ n ih =>
    rw [Function.iterate_succ_apply']
    obtain ⟨i1, i2, i3⟩ := ih
    obtain ⟨j1, j2, j3, j4⟩ := nandNext_side i1 i2
    refine ⟨j1, j2, ?_⟩
    rcases Nat.mod_two_eq_zero_or_one n with hn | hn
    · have hn' : (n + 1) % 2 = 1 := by omega
      rw [hn] at i3; rw [hn']
      cases b
      · simpa using j4 (by simpa using i3)
      · simpa using j3 (by simpa using i3)
    · have hn' : (n + 1) % 2 = 0 := by omega
      rw [hn] at i3; rw [hn']
      cases b
      · simpa using j3 (by simpa using i3)
      · simpa using j4 (by simpa using i3)

theorem nand_apart (n : Nat) : if n % 2 = 1 then
      3 / 4 ≤ nandNext^[n + 1] (nandStart true) ∧ nandNext^[n + 1] (nandStart false) ≤ 9 / 20
    else nandNext^[n + 1] (nandStart true) ≤ 9 / 20 ∧ 3 / 4 ≤ nandNext^[n + 1] (nandStart false) := by
  have k := (nand_sides true (n + 1)).2.2
  have k' := (nand_sides false (n + 1)).2.2
  rcases Nat.mod_two_eq_zero_or_one n with hn | hn
  · have hn' : (n + 1) % 2 = 1 := by omega
    rw [hn'] at k k'
    rw [hn]
    exact ⟨by simpa using k, by simpa using k'⟩
  · have hn' : (n + 1) % 2 = 0 := by omega
    rw [hn'] at k k'
    rw [hn]
    exact ⟨by simpa using k, by simpa using k'⟩

/-- any number of slices without evidence, then the next one -/
def nandOps (n : Nat) : List DynOp :=
  List.replicate (n + 1) (.unroll .insertion 10 none none) ++ [.setEvidence .insertion 10 none]

theorem nand_allows (b : Bool) (k : Nat) : (nand b).Allows k 10 none := by
  refine ⟨legal_nil, fun v e h => by simp at h, ?_⟩
  unfold DBN.slice
  split
  · simp [nand, nandFirst]
  · simp [nand, nandTwo]

theorem nand_notes (k m : Nat) : Diary.notes ⟨List.replicate k [], none⟩
    (List.replicate m (.unroll .insertion 10 none none)) = ⟨List.replicate (k + m) [], none⟩ := by
  induction m generalizing k with
  | zero => rfl
  | succ m ih =>
    rw [List.replicate_succ]
    change Diary.notes ⟨List.replicate k [] ++ [[]], none⟩ _ = _
    rw [← List.replicate_succ', ih, Nat.add_right_comm, Nat.add_assoc]

theorem nandOps_notes (n : Nat) : Diary.notes ⟨[], none⟩ (nandOps n) = ⟨List.replicate (n + 1) [], some []⟩ := by
  have := nand_notes 0 (n + 1)
  unfold Diary.notes at this ⊢
  rw [nandOps, List.foldl_append]
  rw [List.replicate_zero, Nat.zero_add] at this
  rw [this]
  rfl

theorem nandOps_fair (b : Bool) (n : Nat) : FairHistory (nand b) ⟨[], none⟩ (nandOps n) := by
  have key : ∀ (m : Nat) (g : Diary), FairHistory (nand b) g
      (List.replicate m (.unroll .insertion 10 none none) ++ [.setEvidence .insertion 10 none]) := by
    intro m
    induction m with
    | zero => exact fun g => ⟨nand_allows b _, trivial⟩
    | succ m ih => exact fun g => ⟨⟨nand_allows b _, by simp⟩, ih _⟩
  exact key _ _

/-- the answer of a `PriorFeedbackExact` object for `r` -/
theorem nand_answer (b : Bool) (n : Nat) {s : PriorFeedback} (hs : s = .runs (nandOps n) (.create (nand b)))
    (so : SetOrder) (limit : Nat) : ∃ r, s.marginals so limit ["r"] = (s, .ok r) ∧
      r.eval (fun _ => 0) = nandNext^[n + 1] (nandStart b) := by
  obtain ⟨net, two, a1, -, -, -, a5, -⟩ := C47_prior_feedback_partial (nand_ready b) (nandOps_fair b n) rfl hs
  rw [nandOps_notes] at a1 a5
  obtain ⟨rfl, rfl⟩ := C47_slices_unique nandTwo_tree.consistent.nodup a1 (nand_slices b n)
  obtain ⟨r, r1, -, -, -, r2⟩ := (a5 [] rfl).1 _
    (List.mem_cons_of_mem _ (List.mem_cons_of_mem _ List.mem_cons_self)) ["r"] (by simp [NodeV.family]) so limit
  refine ⟨r, r1, ?_⟩
  rw [r2 _ (fun v hv => by obtain rfl : v = "r" := by simpa using hv
                           rw [(nandTwo_card _).2.2.1]; decide),
    nandTwo_posterior _ (by simp) (by decide), (nandPrior_get _).1, Function.iterate_succ_apply']

end Ex

/-- **C92 is false for several transitions**: although no table entry of a later slice changes by more than the factor
19 with the variables of the slice before, the posteriors of two dynamic networks that differ in the first slice only
stay apart for ever, being in turn at least 3/4 and at most 9/20. -/
theorem C92_two_transitions_refuted : (Ex.nand true).Ready ∧ (Ex.nand false).Ready ∧
    Ex.nand false = { Ex.nand true with b0 := (Ex.nand false).b0 } ∧
    (∀ tr ∈ (Ex.nand true).transitions, tr.2 ≠ tr.1 ∧ (Ex.nand true).twoTbn.Influence tr.1 19) ∧
    ∀ n, ∃ s s' : PriorFeedback, s = .runs (Ex.nandOps n) (.create (Ex.nand true)) ∧
      s' = .runs (Ex.nandOps n) (.create (Ex.nand false)) ∧ ∀ so limit, ∃ r r' : Factor,
        s.marginals so limit ["r"] = (s, .ok r) ∧ s'.marginals so limit ["r"] = (s', .ok r') ∧
        if n % 2 = 1 then 3 / 4 ≤ r.eval (fun _ => 0) ∧ r'.eval (fun _ => 0) ≤ 9 / 20
        else r.eval (fun _ => 0) ≤ 9 / 20 ∧ 3 / 4 ≤ r'.eval (fun _ => 0) := by
  refine ⟨Ex.nand_ready _, Ex.nand_ready _, rfl, fun tr h => ?_, fun n => ⟨_, _, rfl, rfl, fun so limit => ?_⟩⟩
  · simp only [Ex.nand, List.mem_cons, List.not_mem_nil, or_false] at h
    rcases h with rfl | rfl
    · exact ⟨by decide, Ex.nand_influence true "x" (by simp)⟩
    · exact ⟨by decide, Ex.nand_influence true "y" (by simp)⟩
  · obtain ⟨r, r1, r2⟩ := Ex.nand_answer true n rfl so limit
    obtain ⟨r', r1', r2'⟩ := Ex.nand_answer false n rfl so limit
    refine ⟨r, r', r1, r1', ?_⟩
    rw [r2, r2']
    exact Ex.nand_apart n

namespace Ex

theorem nand_priorAt {v : Name} (hv : v ∈ ["x", "y"]) {i : Nat} (hi : i < 2) : priorAt (nandTwo (1 / 2)) v i = 1 / 2 := by
  have key : ∀ v ∈ ["x", "y"], (VE.naiveMarginals .insertion (nandTwo (1 / 2)) [v] []).map (fun r => (r.variableOrder,
      (List.range ((nandTwo (1 / 2)).card v)).map fun i => r.potentials.get [i])) = .ok ([v], [1 / 2, 1 / 2]) ∧
      (∀ x ∈ [v], x ∈ (nandTwo (1 / 2)).names) ∧ (nandTwo (1 / 2)).card v = 2 := by decide +kernel
  obtain ⟨h1, h2, h3⟩ := key v hv
  unfold priorAt
  rw [posterior_read (σ := fun _ => i) nandTwo_tree.consistent legal_nil h1 h2 (by rwa [h3])]
  interval_cases i <;> rfl

theorem nand_ratio {v : Name} (hv : v ∈ ["x", "y"]) (x y : ℚ) : ratio (nandTwo (1 / 2)) v [x, y] = [2 * x, 2 * y] := by
  have h3 : ∀ v ∈ ["x", "y"], (nandTwo (1 / 2)).card v = 2 := by decide +kernel
  unfold ratio
  rw [h3 v hv, show List.range 2 = [0, 1] from rfl]
  simp only [List.map_cons, List.map_nil]
  rw [nand_priorAt hv (by decide), nand_priorAt hv (by decide)]
  norm_num
  constructor <;> ring

/-- the array on `x` and `y` acts like the prior -/
theorem nand_soft_posterior (q : ℚ) {v : Name} (hv : v ∈ ["r", "s"]) {σ : Assign} (hσ : σ v < 2) :
    posterior (nandTwo (1 / 2)) (softened (nandTwo (1 / 2)) (overridden [("x", [q, 1 - q]), ("y", [q, 1 - q])] [])) [v] σ =
      (nandPrior (nandNext q)).get [σ v] := by
  rw [← nandTwo_posterior q hv hσ]
  have hw : ∀ τ : Assign, τ "x" < 2 → τ "y" < 2 → weight (nandTwo (1 / 2))
      (softened (nandTwo (1 / 2)) (overridden [("x", [q, 1 - q]), ("y", [q, 1 - q])] [])) τ = weight (nandTwo q) [] τ := by
    intro τ hx hy
    have e1 : softened (nandTwo (1 / 2)) (overridden [("x", [q, 1 - q]), ("y", [q, 1 - q])] []) =
        [("x", .soft [2 * q, 2 * (1 - q)]), ("y", .soft [2 * q, 2 * (1 - q)])] := by
      change [("x", Evidence.soft (ratio (nandTwo (1 / 2)) "x" [q, 1 - q])),
        ("y", Evidence.soft (ratio (nandTwo (1 / 2)) "y" [q, 1 - q]))] = _
      rw [nand_ratio (by simp), nand_ratio (by simp)]
    have e2 : ∀ ev, weight (nandTwo (1 / 2)) ev τ = weight (nandTwo (1 / 2)) [] τ *
        (ev.map fun p => lik ((nandTwo (1 / 2)).lab p.1) p.2 (τ p.1)).prod := fun ev => by simp [weight]
    obtain ⟨p1, p2⟩ := nandPrior_get q
    obtain ⟨p1', p2'⟩ := nandPrior_get (1 / 2)
    rw [e2, e1, nandTwo_weight, nandTwo_weight]
    simp only [List.map_cons, List.map_nil, List.prod_cons, List.prod_nil, lik, mul_one]
    generalize τ "x" = i at hx ⊢
    generalize τ "y" = j at hy ⊢
    interval_cases i <;> interval_cases j <;> simp only [p1, p2, p1', p2', List.getD_cons_zero, List.getD_cons_succ] <;> ring
  have hs : ∀ S : Finset Name, "x" ∈ S → "y" ∈ S → ∀ σ, sumOver (nandTwo (1 / 2)).card S (weight (nandTwo (1 / 2))
      (softened (nandTwo (1 / 2)) (overridden [("x", [q, 1 - q]), ("y", [q, 1 - q])] []))) σ =
        sumOver (nandTwo q).card S (weight (nandTwo q) []) σ := by
    intro S h1 h2 σ
    rw [BN.card_of_bare (nandTwo_bare (1 / 2) q)]
    exact sumOver_congr fun τ hτ => hw τ (hτ.2 "x" h1) (hτ.2 "y" h2)
  have hm : "x" ∈ ({"x", "y", "r", "s"} : Finset Name) \ [v].toFinset ∧
      "y" ∈ ({"x", "y", "r", "s"} : Finset Name) \ [v].toFinset := by
    clear hσ hs hw
    revert v
    decide
  unfold posterior totalWeight
  rw [nandTwo_names, nandTwo_names, hs _ hm.1 hm.2 σ, hs _ (by decide) (by decide) σ]

theorem nand_carried (b : Bool) (n : Nat) : (nand b).carried (List.replicate (n + 1) []) =
    [("x", [nandNext^[n] (nandStart b), 1 - nandNext^[n] (nandStart b)]),
     ("y", [nandNext^[n] (nandStart b), 1 - nandNext^[n] (nandStart b)])] := by
  induction n with
  | zero =>
    change (nand b).carried ([] ++ [[]]) = _
    rw [DBN.carried_append]
    change [("x", (List.range 2).map fun i => posterior (nandFirst (nandStart b)) [] ["r"] fun _ => i),
      ("y", (List.range 2).map fun i => posterior (nandFirst (nandStart b)) [] ["s"] fun _ => i)] = _
    rw [show List.range 2 = [0, 1] from rfl]
    simp only [List.map_cons, List.map_nil]
    rw [nandFirst_posterior _ (by simp) (by decide), nandFirst_posterior _ (by simp) (by decide),
      nandFirst_posterior _ (by simp) (by decide), nandFirst_posterior _ (by simp) (by decide)]
    rfl
  | succ n ih =>
    rw [List.replicate_succ', DBN.carried_append, DBN.carry, ih, DBN.slice_later _ (by simp), Function.iterate_succ_apply']
    change [("x", (List.range 2).map fun i => posterior (nandTwo (1 / 2)) (softened (nandTwo (1 / 2)) _) ["r"] fun _ => i),
      ("y", (List.range 2).map fun i => posterior (nandTwo (1 / 2)) (softened (nandTwo (1 / 2)) _) ["s"] fun _ => i)] = _
    rw [show List.range 2 = [0, 1] from rfl]
    simp only [List.map_cons, List.map_nil]
    rw [nand_soft_posterior _ (by simp) (by decide), nand_soft_posterior _ (by simp) (by decide),
      nand_soft_posterior _ (by simp) (by decide), nand_soft_posterior _ (by simp) (by decide)]
    rfl

theorem nand_supported {q : ℚ} (h0 : 0 ≤ q) (h1 : q ≤ 1) :
    Supported (nandTwo (1 / 2)) (overridden [("x", [q, 1 - q]), ("y", [q, 1 - q])] []) := by
  have key : ∀ v ∈ ["x", "y"], (∀ x ∈ [q, 1 - q], 0 ≤ x) ∧ (∃ x ∈ [q, 1 - q], x ≠ 0) ∧
      ∀ i < (nandTwo (1 / 2)).card v, priorAt (nandTwo (1 / 2)) v i = 0 → [q, 1 - q].getD i 0 = 0 := by
    intro v hv
    refine ⟨by simp [h0, h1], ?_, fun i hi hz => ?_⟩
    · by_cases hq : q = 0
      · exact ⟨1 - q, by simp, by simp [hq]⟩
      · exact ⟨q, by simp, hq⟩
    · have h3 : ∀ v ∈ ["x", "y"], (nandTwo (1 / 2)).card v = 2 := by decide +kernel
      rw [nand_priorAt hv (by rwa [h3 v hv] at hi)] at hz
      norm_num at hz
  intro v l hm
  simp only [overridden, List.filter_nil, List.nil_append, List.map_cons, List.map_nil, List.mem_cons, Prod.mk.injEq,
    Evidence.soft.injEq, List.not_mem_nil, or_false] at hm
  rcases hm with ⟨rfl, rfl⟩ | ⟨rfl, rfl⟩
  · exact key _ (by simp)
  · exact key _ (by simp)

theorem nand_allowsSoft (b : Bool) (k : Nat) : (nand b).AllowsSoft (List.replicate k []) 10 [] := by
  refine ⟨legal_nil, ?_, (nand_allows b _).2.2⟩
  cases k with
  | zero => intro v l h; simp [overridden, DBN.carried] at h
  | succ k =>
    rw [DBN.slice_later _ (by simp), nand_carried]
    exact nand_supported (nand_sides b k).1 (nand_sides b k).2.1

theorem nandOps_softFair (b : Bool) (n : Nat) : SoftFairHistory (nand b) ⟨[], none⟩ (nandOps n) := by
  have key : ∀ (m k : Nat), SoftFairHistory (nand b) ⟨List.replicate k [], none⟩
      (List.replicate m (.unroll .insertion 10 none none) ++ [.setEvidence .insertion 10 none]) := by
    intro m
    induction m with
    | zero => exact fun k => ⟨nand_allowsSoft b k, trivial⟩
    | succ m ih =>
      refine fun k => ⟨⟨nand_allowsSoft b k, rfl⟩, ?_⟩
      have := ih (k + 1)
      rwa [List.replicate_succ' (n := k)] at this
  exact key _ 0

/-- the answer of a `SoftEvidenceExact` object for `r` -/
theorem nand_soft_answer (b : Bool) (n : Nat) {s : SoftFeedback} (hs : s = .runs (nandOps n) (.create (nand b)))
    (so : SetOrder) (limit : Nat) : ∃ r, s.marginals so limit ["r"] = (s, .ok r) ∧
      r.eval (fun _ => 0) = nandNext^[n + 1] (nandStart b) := by
  obtain ⟨-, -, -, -, a5, -⟩ := C48_soft_feedback_partial (nand_ready b).soft (nandOps_softFair b n) rfl hs
  rw [nandOps_notes] at a5
  have a5 := (a5 [] rfl).1
  rw [DBN.slice_later _ (by simp), nand_carried] at a5
  obtain ⟨r, r1, -, -, -, r2⟩ := a5 _
    (List.mem_cons_of_mem _ (List.mem_cons_of_mem _ List.mem_cons_self)) ["r"] (by simp [NodeV.family]) so limit
  refine ⟨r, r1, ?_⟩
  rw [r2 _ (fun v hv => by obtain rfl : v = "r" := by simpa using hv
                           exact (by decide : 0 < 2))]
  exact (nand_soft_posterior _ (by simp) (by decide)).trans (by
    rw [(nandPrior_get _).1, Function.iterate_succ_apply'])

end Ex

/-- **C93 is false for several transitions**: the same two dynamic networks with soft-evidence feedback. -/
theorem C93_two_transitions_refuted : (Ex.nand true).Ready ∧ (Ex.nand false).Ready ∧
    Ex.nand false = { Ex.nand true with b0 := (Ex.nand false).b0 } ∧
    (∀ tr ∈ (Ex.nand true).transitions, tr.2 ≠ tr.1 ∧ (Ex.nand true).twoTbn.Influence tr.1 19) ∧
    ∀ n, ∃ s s' : SoftFeedback, s = .runs (Ex.nandOps n) (.create (Ex.nand true)) ∧
      s' = .runs (Ex.nandOps n) (.create (Ex.nand false)) ∧ ∀ so limit, ∃ r r' : Factor,
        s.marginals so limit ["r"] = (s, .ok r) ∧ s'.marginals so limit ["r"] = (s', .ok r') ∧
        if n % 2 = 1 then 3 / 4 ≤ r.eval (fun _ => 0) ∧ r'.eval (fun _ => 0) ≤ 9 / 20
        else r.eval (fun _ => 0) ≤ 9 / 20 ∧ 3 / 4 ≤ r'.eval (fun _ => 0) := by
  obtain ⟨h1, h2, h3, h4, h5⟩ := C92_two_transitions_refuted
  refine ⟨h1, h2, h3, h4, fun n => ⟨_, _, rfl, rfl, fun so limit => ?_⟩⟩
  obtain ⟨r, r1, r2⟩ := Ex.nand_soft_answer true n rfl so limit
  obtain ⟨r', r1', r2'⟩ := Ex.nand_soft_answer false n rfl so limit
  refine ⟨r, r', r1, r1', ?_⟩
  rw [r2, r2']
  exact Ex.nand_apart n

end Primo
