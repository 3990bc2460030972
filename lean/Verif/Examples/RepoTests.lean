import Verif.DecisionNet
import Verif.Examples.IO
import Verif.JoinTree
import Verif.Exact
import Verif.Order

/-!
# The repository's own tests, replayed on the model

`/repo/primo2/tests/*_test.py`, rewritten as calls of the model's functions.  These are tests of the
model, not proofs of properties: they check that the transcription computes, on the inputs chosen by
the authors of the code, the results the authors expect.  Tests of the random samplers and of
arguments outside the model (strings where networks are expected, ragged arrays) are left out.
-/

namespace Primo.RepoTests

/-- a numpy array literal, given its shape and entries in C order -/
def arr (shape : List Nat) (l : List ℚ) : NDArray := NDArray.tabulate shape fun idx => l.getD (NDArray.ravel shape idx) 0

/-- entries of a result -/
def data (r : Except PyErr Factor) : Except PyErr (List ℚ) := r.map fun f => f.potentials.data

/-- shape and entries of an array result -/
def tab (r : Except PyErr NDArray) : Except PyErr (List Nat × List ℚ) := r.map fun a => (a.shape, a.data)

/-- `assert_array_almost_equal` (6 decimals) -/
def near (r : Except PyErr (List ℚ)) (l : List ℚ) : Bool :=
  match r with
  | .ok m => m.length == l.length && (m.zip l).all fun p => decide (|p.1 - p.2| < 3 / 2000000)
  | .error _ => false

def tf : List Val := ["True", "False"]

/-! ## `Factor_test.py` -/
section Factor
open Factor

def n1 : NodeV := ⟨"Node1", .discrete, tf, [], [], ["Node2"], arr [2] [3/10, 7/10], false⟩
def n2 : NodeV := ⟨"Node2", .discrete, ["ValueA", "ValueB", "ValueC"], ["Node1"], [("Node1", tf)], [],
  arr [3, 2] [2/10, 4/10, 4/10, 1/10, 4/10, 5/10], false⟩
def n3 : NodeV := ⟨"Node3", .discrete, ["High", "Low"], [], [], ["gains"], arr [2] [8/10, 2/10], false⟩
def un : NodeV := ⟨"gains", .utility, [], ["Node3"], [("Node3", ["High", "Low"])], [], arr [2] [100, 10], false⟩

-- test_create_from_discrete_node, ..._with_parents, ..._utility_node (27-58)
example : fromNode n1 = .ok ⟨n1.cpd, ["Node1"], [("Node1", tf)]⟩ := by decide +kernel
example : fromNode n2 = .ok ⟨n2.cpd, ["Node2", "Node1"],
    [("Node2", ["ValueA", "ValueB", "ValueC"]), ("Node1", tf)]⟩ := by decide +kernel
example : fromUtilityNode un = .ok ⟨arr [2] [100, 10], ["Node3"], [("Node3", ["High", "Low"])]⟩ := by
  decide +kernel

-- test_create_from_samples
def samples : List (Dict Val) := [[("A", "True"), ("B", "True")], [("A", "True"), ("B", "False")],
  [("A", "False"), ("B", "False")], [("A", "True"), ("B", "True")]]
def sampled : Except PyErr Factor := fromSamples samples [("A", tf), ("B", tf)]
example : [("True", "True"), ("False", "True"), ("True", "False"), ("False", "False")].map (fun p =>
      tab (sampled.bind fun f => f.getPotential [("A", [p.1]), ("B", [p.2])]))
    = [.ok ([], [1/2]), .ok ([], [0]), .ok ([], [1/4]), .ok ([], [1/4])] := by decide +kernel

-- test_as_evidence
example : data (asEvidence "E" tf (.hard "True")) = .ok [1, 0] := by decide +kernel
example : data (asEvidence "E" tf (.soft [8/10, 2/10])) = .ok [8/10, 2/10] := by decide +kernel
example : data (asEvidence "E" tf (.hard "NotThere")) = .error .valueError := by decide +kernel
example : data (asEvidence "E" tf (.soft [1/10, 2/10, 3/10])) = .error .valueError := by decide +kernel

-- test_invert
example : data ((fromNode n1).bind invert) = .ok [10/3, 10/7] := by decide +kernel

/-- factors of two nodes, combined -/
def both (g : Factor → Factor → Except PyErr Factor) (a b : NodeV) : Except PyErr Factor :=
  (fromNode a).bind fun f => (fromNode b).bind fun h => g f h

-- test_division_with_trivial_factor, _same_vars, _zeros, _different_vars
example : data ((fromNode n1).bind fun f => f.div .insertion trivial) = .ok [3/10, 7/10] := by decide +kernel
example : data (both (div .insertion) n2 n2) = .ok [1, 1, 1, 1, 1, 1] := by decide +kernel
example : data (both (div .insertion) n2 { n2 with cpd := arr [3, 2] [0, 4/10, 4/10, 1/10, 4/10, 5/10] })
    = .ok [0, 1, 1, 1, 1, 1] := by decide +kernel
example : data (both (div .insertion) n1 n2) = .error .valueError := by decide +kernel

-- test_multiplication_with_trivial_factor
example : data ((fromNode n1).bind fun f => mul .insertion trivial f) = .ok [3/10, 7/10] := by decide +kernel
example : data ((fromNode n1).bind fun f => mul .insertion f trivial) = .ok [3/10, 7/10] := by decide +kernel

-- test_multiplication_conditionals
example : both (mul .insertion) n1 n2 = .ok ⟨arr [2, 3] [6/100, 12/100, 12/100, 28/100, 7/100, 35/100],
    ["Node1", "Node2"], [("Node1", tf), ("Node2", ["ValueA", "ValueB", "ValueC"])]⟩ := by decide +kernel

-- test_division_partial_divisor
def fab : Factor := ⟨arr [3, 2] [5/10, 2/10, 0, 0, 3/10, 45/100], ["a", "b"],
  [("a", ["a1", "a2", "a3"]), ("b", ["b1", "b2"])]⟩
def fa : Factor := ⟨arr [3] [8/10, 0, 6/10], ["a"], [("a", ["a1", "a2", "a3"])]⟩
example : data (fab.div .insertion fa) = .ok [625/1000, 1/4, 0, 0, 1/2, 3/4] := by decide +kernel

-- test_multiplication_error
def wetN (v : List Val) : NodeV := ⟨"wet_grass", .discrete, v, ["sprinkler", "rain"], [("sprinkler", v), ("rain", v)], [],
  arr [2, 2, 2] [95/100, 1/10, 8/10, 0, 5/100, 9/10, 2/10, 1], false⟩
def sprN (v : List Val) : NodeV := ⟨"sprinkler", .discrete, v, ["winter"], [("winter", v)], ["wet_grass"],
  arr [2, 2] [2/10, 75/100, 8/10, 25/100], false⟩
def chained : Except PyErr Factor := do
  let wg ← fromNode (wetN tf)
  let ev ← asEvidence "wet_grass" tf (.hard "False")
  let sp ← fromNode (sprN tf)
  let t ← mul .insertion wg ev
  let m ← t.marginalize ["wet_grass"]
  mul .insertion sp m
example : tab (chained.map (·.potentials))
    = .ok ([2, 2, 2], [1/100, 18/100, 375/10000, 675/1000, 16/100, 8/10, 5/100, 25/100]) := by decide +kernel

-- test_multiplication_unrelated_factors
example : tab ((both (mul .insertion) n2 n3).map (·.potentials)) = .ok ([3, 2, 2],
    [16/100, 4/100, 32/100, 8/100, 32/100, 8/100, 8/100, 2/100, 32/100, 8/100, 4/10, 1/10]) := by
  decide +kernel

-- test_marginalisation, _multiple, _with_node
example : (both (mul .insertion) n1 n2).bind (fun f => f.marginalize ["Node1"])
    = .ok ⟨arr [3] [34/100, 19/100, 47/100], ["Node2"], [("Node2", ["ValueA", "ValueB", "ValueC"])]⟩ := by
  decide +kernel
example : data ((both (mul .insertion) n1 n2).bind fun f => f.marginalize ["Node1", "Node2"]) = .ok [1] := by
  decide +kernel

-- test_get_potential
example : tab ((fromNode n1).bind (·.getPotential)) = .ok ([2], [3/10, 7/10]) := by decide +kernel
example : tab ((fromNode n2).bind (·.getPotential [("Node1", ["False"]), ("Node2", ["ValueNotThere"])]))
    = .error .valueError := by decide +kernel
example : tab ((fromNode n2).bind (·.getPotential [("Node1", ["False"])])) = .ok ([3], [4/10, 1/10, 5/10]) := by
  decide +kernel

-- test_normalize
example : ((fromNode n2).map fun f =>
      ({ f with potentials := f.potentials.map (· * 2) } : Factor).normalize.potentials.sumAll) = .ok 1 := by
  decide +kernel

-- test_joint_factor_*
example : (joint n2).map (fun p => (p.1.potentials, p.2.potentials))
    = .ok (n2.cpd, NDArray.zeros [3, 2]) := by decide +kernel
example : (joint ((Net.run [.create .decision "dNode" ["yes", "no"]] Net.empty).objView 0)).map
      (fun p => (p.1.potentials, p.2.potentials)) = .ok (NDArray.zeros [2], NDArray.zeros [2]) := by
  decide +kernel
example : (joint ((Net.run [.create .utility "uNode" []] Net.empty).objView 0)).map
      (fun p => (p.1.potentials.data, p.2.potentials.data)) = .ok ([1], [1]) := by decide +kernel

end Factor

/-! ## `Node_test.py` -/
section Node

def hist (ops : List Net.Op) : Net := Net.run ops Net.empty

/-- node objects of `Node_test.py` have no network; `add_parent` is called directly -/
def childOf (own : List Val) (ps : List (Name × List Val)) : Res :=
  (Net.create .discrete "Node1" own Net.empty).andThen fun s =>
    Res.forEach (fun (p : Nat × Name × List Val) s =>
      (Net.create .discrete p.2.1 p.2.2 s).andThen (Net.addParent 0 p.1))
      ((List.range ps.length).map (· + 1) |>.zip ps) s

-- test_create_with_values, test_create_with_default_values (the default is `discreteDefault`)
example : ((hist [.create .discrete "Node" ["Value1", "Value"]]).heap 0).values = ["Value1", "Value"] := by
  decide +kernel

-- test_set_cpd, test_set_cpd_invalid
example : ((hist [.create .discrete "Node1" ["Value1", "Value2"], .setCpd 0 (arr [2] [2/10, 8/10])]).heap 0).valid
    = true := by decide +kernel
example : (Net.setCpd 0 (arr [2] [2/10, 8/10])
    (hist [.create .discrete "Node1" ["Value1", "Value2", "Value3"]])).2 = some .valueError := by decide +kernel

-- test_set_invalid_cpd_parents, test_set_cpd_two_parents
example : (Net.setCpd 0 (arr [3, 2] [2/10, 3/10, 4/10, 8/10, 7/10, 6/10])
    (childOf ["Value1", "Value2"] [("Node2", ["Value3", "Value4", "Value5"])]).1).2 = some .valueError := by
  decide +kernel
example : (((Net.setCpd 0 (arr [2, 3, 2] [2/10, 4/10, 3/10, 6/10, 4/10, 5/10, 8/10, 6/10, 7/10, 4/10, 6/10, 5/10])
    (childOf ["Value1", "Value2"] [("Node2", ["Value3", "Value4", "Value5"]), ("Node3", ["Value6", "Value7"])]).1).1).heap
      0).valid = true := by decide +kernel

-- test_set_values, test_set_values_with_parent
example : let o := ((Net.setValues 0 ["Value1", "Value2", "Value3"] (childOf tf []).1).1).heap 0
    (o.cpd.shape, o.values, o.valid) = ([3], ["Value1", "Value2", "Value3"], false) := by decide +kernel
example : let o := ((Net.setValues 0 ["Value1", "Value2", "Value3"] (childOf tf [("Node2", tf)]).1).1).heap 0
    (o.cpd.shape, o.values, o.valid) = ([3, 2], ["Value1", "Value2", "Value3"], false) := by decide +kernel

/-- `Node1` with parent `Node2` and a table -/
def child : Net := (Net.setCpd 0 (arr [2, 3] [2/10, 3/10, 4/10, 8/10, 7/10, 6/10])
  (childOf ["Value1", "Value2"] [("Node2", ["Value3", "Value4", "Value5"])]).1).1

-- test_add_parent, test_remove_parent
example : ((childOf ["Value1", "Value2"] [("Node2", ["Value3", "Value4", "Value5"])]).1.heap 0).valid = false
    ∧ (child.heap 0).valid = true ∧ ((Net.removeParent 0 1 child).1.heap 0).valid = false := by decide +kernel

-- test_set_probability*
example : tab (((Net.setProbability 0 "True" (2/10) [] (childOf tf []).1).1.objView 0).getProbability "True" [])
    = .ok ([], [2/10]) := by decide +kernel
example : let n := (Net.setProbability 0 "False" (4/10) [("Node2", "True")] (childOf tf [("Node2", tf)]).1).1.objView 0
    tab (n.getProbability "False" [("Node2", .many ["True"])]) = .ok ([], [4/10])
      ∧ n.cpd.data = [0, 0, 4/10, 0] := by decide +kernel
example : let n := (Net.setProbability 0 "True" (2/10) [] (childOf tf [("Node2", tf)]).1).1.objView 0
    tab (n.getProbability "True" []) = .ok ([2], [2/10, 2/10]) ∧ n.cpd.data = [2/10, 2/10, 0, 0] := by
  decide +kernel
example : let s := (Net.setProbability 0 "True" (5/10) [("Node2", "False"), ("Node3", "True")]
      (childOf tf [("Node2", tf), ("Node3", tf)]).1).1
    (s.heap 0).cpd.data = [0, 0, 5/10, 0, 0, 0, 0, 0]
      ∧ ((Net.setProbability 0 "False" (7/10) [("Node3", "False")] s).1.heap 0).cpd.data
        = [0, 0, 5/10, 0, 0, 7/10, 0, 7/10] := by decide +kernel
example : (Net.setProbability 0 "False" (4/10) [("Node2", "NotThere")] (childOf tf [("Node2", tf)]).1).2
    = some .valueError := by decide +kernel
example : (Net.setProbability 0 "NotThere" (2/10) [] (childOf tf []).1).2 = some .valueError := by decide +kernel

-- test_get_single_probability*, test_get_probability*
example : tab ((child.objView 0).getProbability "Value1" []) = .ok ([3], [2/10, 3/10, 4/10]) := by decide +kernel
example : (child.objView 0).getSingle "Value1" [("Node2", "Value4")] = .ok (3/10) := by decide +kernel
example : tab ((child.objView 0).getProbability "Value1" [("Node2", .many ["Value4"])]) = .ok ([], [3/10]) := by
  decide +kernel
example : tab ((child.objView 0).getProbability "Value1" [("Node2", .many ["Value3", "Value5"])])
    = .ok ([2], [2/10, 4/10]) := by decide +kernel
example : tab ((child.objView 0).getProbability "Value1" [("Node2", .one "Value4")]) = .ok ([], [3/10]) := by
  decide +kernel
example : (wetN tf).getSingle "False" [("rain", "True"), ("sprinkler", "False")] = .ok (2/10)
    ∧ (wetN tf).getSingle "True" [("rain", "False"), ("sprinkler", "True")] = .ok (1/10) := by decide +kernel
/-- the other parent order -/
def wetT : NodeV := { wetN tf with
  parentOrder := ["rain", "sprinkler"]
  cpd := arr [2, 2, 2] [95/100, 8/10, 1/10, 0, 5/100, 2/10, 9/10, 1] }
example : wetT.getSingle "False" [("rain", "True"), ("sprinkler", "False")] = .ok (2/10)
    ∧ wetT.getSingle "True" [("rain", "False"), ("sprinkler", "True")] = .ok (1/10) := by decide +kernel
example : tab ((wetN tf).getProbability "False" [("rain", .many ["True"]), ("sprinkler", .many ["False"])])
    = .ok ([], [2/10])
    ∧ tab (wetT.getProbability "True" [("rain", .many ["False"]), ("sprinkler", .many ["True"])])
    = .ok ([], [1/10]) := by decide +kernel
example : (child.objView 0).getSingle "Value3" [] = .error .valueError
    ∧ (child.objView 0).getSingle "Value1" [("Node2", "Value6")] = .error .valueError
    ∧ (child.objView 0).getSingle "Value1" [] = .error .keyError := by decide +kernel
example : tab ((child.objView 0).getProbability "Value3" []) = .error .valueError
    ∧ tab ((child.objView 0).getProbability "Value1" [("Node2", .many ["Value6"])]) = .error .valueError
    ∧ tab ((child.objView 0).getProbability "Value1" [("Node2", .one "Value6")]) = .error .valueError := by
  decide +kernel
example : tab ((wetN tf).getProbability "True" [("sprinkler", .many tf), ("rain", .many tf)])
    = .ok ([2, 2], [95/100, 1/10, 8/10, 0]) := by decide +kernel

-- test_get_markov_prob*
def child2 : Net := (Net.setCpd 1 (arr [3] [3/10, 5/10, 2/10]) child).1
example : (child.objView 0).markovProb "Value1" [] [("Node2", "Value4")] true = .ok (3/10)
    ∧ (child2.objView 1).markovProb "Value5" [child2.objView 0] [("Node1", "Value2")] true = .ok (2/10)
    ∧ (child2.objView 1).markovProb "Value5" [child2.objView 0] [("Node1", "Value2"), ("Node2", "Value5")] false
      = .ok (12/100) := by decide +kernel

-- UtilityNode
def gain : Net := ((Net.create .utility "Node1" [] Net.empty).andThen fun s =>
  (Net.create .discrete "Node2" ["Value3", "Value4", "Value5"] s).andThen (Net.addParent 0 1)).1
example : (gain.objView 0).getUtility [("Node2", "Value6")] = .error .valueError := by decide +kernel
example : let s := (Net.setUtilities 0 (arr [3] [5, 10, 35]) gain).1
    (s.objView 0).getUtility [("Node2", "Value4")] = .ok 10
      ∧ (s.objView 0).getUtility [("Node2", "Value6")] = .error .valueError := by decide +kernel
example : ((Net.setUtility 0 100 [("Node2", "Value3")] gain).1.objView 0).getUtility [("Node2", "Value3")]
    = .ok 100 ∧ (Net.setUtility 0 100 [("Node2", "Value6")] gain).2 = some .valueError := by decide +kernel
example : (Net.setUtilities 0 (arr [2] [10, 20]) gain).2 = some .valueError := by decide +kernel

end Node

/-! ## `Network_test.py` -/
section Network

-- test_add_node_same_name
def named : Net := hist [.create .discrete "Node1" tf, .create .discrete "Node2" tf, .create .discrete "Node1" tf,
  .addNode 0]
example : named.lookup.length = 1 ∧ (Net.addNode 2 named).2 = some .valueError
    ∧ (Net.addNode 2 named).1.lookup.length = 1 ∧ (Net.addNode 1 (Net.addNode 2 named).1).1.lookup.length = 2 := by
  decide +kernel

-- test_change_node_values_of_parent
def pair : Net := hist [.create .discrete "Node1" tf, .create .discrete "Node2" tf, .addNode 0, .addNode 1,
  .addEdge "Node2" "Node1"]
example : (pair.heap 0).cpd.shape = [2, 2] ∧
    let s := (Net.changeValues "Node2" ["Value1", "Value2", "Value3"] pair).1
    (s.heap 1).values = ["Value1", "Value2", "Value3"] ∧ (s.heap 0).valid = false ∧ (s.heap 0).cpd.shape = [2, 3] := by
  decide +kernel

-- test_change_node_name, test_change_node_name_twice
def line : Net := hist [.create .discrete "Node1" tf, .create .discrete "Node2" tf, .create .discrete "Node3" tf,
  .addNode 0, .addNode 1, .addNode 2, .addEdge "Node2" "Node1", .addEdge "Node3" "Node2",
  .changeName "Node2" "NewName" false]
example : (line.heap 1).name = "NewName" ∧ line.getNode "Node2" = .error .exception ∧ line.getNode "NewName" = .ok 1
    ∧ (line.heap 0).parentOrder = ["NewName"] ∧ "NewName" ∈ line.gnode.keys ∧ "NewName" ∈ line.lookup.keys
    ∧ "Node1" ∈ (line.succOf "NewName").keys ∧ "Node3" ∈ (line.predOf "NewName").keys
    ∧ "NewName" ∈ (line.succOf "Node3").keys := by decide +kernel
example : let s := (Net.changeName "NewName" "2ndNewName" false line).1
    (s.heap 1).name = "2ndNewName" ∧ s.getNode "NewName" = .error .exception := by decide +kernel

end Network

/-! ## `IO_test.py` -/
section IO
open XMLBIF

/-- reading the decimals of the test files: digits, possibly with a point -/
def decimal (s : List Char) : ℚ :=
  let digit (n : ℚ) (c : Char) : ℚ := 10 * n + (c.toNat - '0'.toNat : Nat)
  let frac := (s.dropWhile (· ≠ '.')).tail
  (s.takeWhile (· ≠ '.')).foldl digit 0 + frac.foldl digit 0 / 10 ^ frac.length

/-- the notation of `Ex.unary` for writing; reading also understands decimals -/
def dec : FloatText where
  str := Ex.unary.str
  float s := if '.' ∈ s.toList then .ok (decimal s.toList) else Ex.unary.float s
  float_str q := by
    rw [if_neg, Ex.unary.float_str]
    intro h
    simp only [Ex.unary, String.toList_ofList, List.mem_append, List.mem_cons, List.mem_replicate] at h
    rcases h with (h | h) | h | h
    · split at h <;> simp_all
    · exact absurd h.2 (by decide)
    · exact absurd h (by decide)
    · exact absurd h.2 (by decide)
  nonempty := Ex.unary.nonempty
  noSpace := Ex.unary.noSpace
  okChars := Ex.unary.okChars

def name (s : String) : Xml := .el "NAME" (some s) []
def outcome (s : String) : Xml := .el "OUTCOME" (some s) []
def property (s : String) : Xml := .el "PROPERTY" (some s) []
def for' (s : String) : Xml := .el "FOR" (some s) []
def given (s : String) : Xml := .el "GIVEN" (some s) []
def table (s : String) : Xml := .el "TABLE" (some s) []

/-- `slippery.xbif` -/
def slipperyXml : Xml := .el "BIF" none [.el "NETWORK" none [name "bayesiannetwork",
      .el "VARIABLE" none [name "slippery_road",
        outcome "true",
        outcome "false",
        property "position = (689, -29)"],
      .el "VARIABLE" none [name "sprinkler",
        outcome "true",
        outcome "false",
        property "position = (102, -243)"],
      .el "VARIABLE" none [name "rain",
        outcome "true",
        outcome "false",
        property "position = (520, -237)"],
      .el "VARIABLE" none [name "wet_grass",
        outcome "true",
        outcome "false",
        property "position = (326, -20)"],
      .el "VARIABLE" none [name "winter",
        outcome "true",
        outcome "false",
        property "position = (318, -399)"],
      .el "DEFINITION" none [for' "slippery_road",
        given "rain",
        table "0.7 0.3 0.0 1.0 "],
      .el "DEFINITION" none [for' "sprinkler",
        given "winter",
        table "0.2 0.8 0.75 0.25 "],
      .el "DEFINITION" none [for' "rain",
        given "winter",
        table "0.8 0.2 0.1 0.9 "],
      .el "DEFINITION" none [for' "wet_grass",
        given "sprinkler",
        given "rain",
        table "0.95 0.05 0.1 0.9 0.8 0.2 0.0 1.0 "],
      .el "DEFINITION" none [for' "winter",
        table "0.6 0.4 "]]]

/-- `testfile.xbif` -/
def testXml : Xml := .el "BIF" none [.el "NETWORK" none [property "Random network property",
      property "Author jpoeppel",
      name "Test Net",
      .el "VARIABLE" none [name "Burglary",
        outcome "Intruder",
        outcome "Safe",
        property "position = (450, 100)"],
      .el "VARIABLE" none [name "Alarm",
        outcome "Ringing",
        outcome "Silent",
        outcome "Kaputt",
        property "position = (300, 100)",
        property "Random meta test"],
      .el "VARIABLE" none [name "John_calls",
        outcome "Calling",
        outcome "Not Calling",
        property "position = (150, 200)"],
      .el "DEFINITION" none [for' "Burglary",
        table "0.4 0.6 "],
      .el "DEFINITION" none [for' "Alarm",
        table "0.2 0.3 0.5 "],
      .el "DEFINITION" none [for' "John_calls",
        given "Alarm",
        given "Burglary",
        table "0.8 0.2 0.6 0.4 0.5 0.5 0.2 0.8 0.7 0.3 0.1 0.9 "]]]

/-- `dbn-test-b0.xbif` -/
def b0Xml : Xml := .el "BIF" none [.el "NETWORK" none [name "Test_DBN_B0",
      .el "VARIABLE" none [name "A",
        outcome "True",
        outcome "False",
        property "position = (300, 0)"],
      .el "VARIABLE" none [name "B",
        outcome "True",
        outcome "False",
        property "position = (400, 0)"],
      .el "VARIABLE" none [name "C",
        outcome "True",
        outcome "False",
        property "position = (300, 0)"],
      .el "DEFINITION" none [for' "B",
        table "0.5 0.5 "],
      .el "DEFINITION" none [for' "C",
        table "0.2 0.8 "]]]

/-- `dbn-test-2tbn.xbif` -/
def tbnXml : Xml := .el "BIF" none [.el "NETWORK" none [name "Test_DBN_2TBN",
      .el "VARIABLE" none [name "A",
        outcome "True",
        outcome "False",
        property "position = (300, 0)"],
      .el "VARIABLE" none [name "B",
        outcome "True",
        outcome "False",
        property "position = (400, 0)"],
      .el "VARIABLE" none [name "B_t0",
        outcome "True",
        outcome "False",
        property "position = (400, 0)"],
      .el "VARIABLE" none [name "C",
        outcome "True",
        outcome "False",
        property "position = (300, 0)"],
      .el "VARIABLE" none [name "C_t0",
        outcome "True",
        outcome "False",
        property "position = (300, 0)"],
      .el "DEFINITION" none [for' "A",
        given "B_t0",
        given "C_t0",
        table "0.8 0.2 0.6 0.4 0.65 0.25 0.5 0.5 "],
      .el "DEFINITION" none [for' "B",
        given "B_t0",
        given "A",
        table "0.2 0.8 0.3 0.7 0.4 0.6 0.75 0.25"],
      .el "DEFINITION" none [for' "B_t0",
        table "0.5 0.5 "],
      .el "DEFINITION" none [for' "C",
        given "C_t0",
        table "0.7 0.3 0.45 0.55"],
      .el "DEFINITION" none [for' "C_t0",
        table "0.1 0.9 "]]]


/-- the parsed file, or an empty document -/
def read (ignore : Bool) (x : Xml) : NetDoc := match parse dec ignore x.load with
  | .ok d => d
  | .error _ => NetDoc.new

/-- the node of a given name -/
def node (d : NetDoc) (k : Name) : NodeObj := d.net.heap ((d.net.lookup.get? k).getD 0)

/-- its properties -/
def info (d : NetDoc) (k : Name) : List (Option String) := d.nodeInfo ((d.net.lookup.get? k).getD 0)

-- test_readXMLBIF
example : (read true slipperyXml).net.lookup.keys
    = ["slippery_road", "sprinkler", "rain", "wet_grass", "winter"] := by decide +kernel
example : let d := read true slipperyXml
    (node d "slippery_road").parents.keys = ["rain"] ∧ (node d "sprinkler").parents.keys = ["winter"]
    ∧ (node d "rain").parents.keys = ["winter"] ∧ (node d "rain").cpd.data = [8/10, 1/10, 2/10, 9/10]
    ∧ "sprinkler" ∈ (node d "wet_grass").parents.keys ∧ "rain" ∈ (node d "wet_grass").parents.keys
    ∧ "true" ∈ (node d "wet_grass").values := by decide +kernel
example : let n := (read true slipperyXml).net.objView 3
    tab (n.getProbability "false" [("rain", .many ["true"]), ("sprinkler", .many ["false"])]) = .ok ([], [2/10])
    ∧ tab (n.getProbability "true" [("rain", .many ["false"]), ("sprinkler", .many ["true"])]) = .ok ([], [1/10]) := by
  decide +kernel

-- test_readXMLBIF_different_parent_sizes
example : (node (read true testXml) "John_calls").cpd = arr [2, 2, 3]
    [8/10, 5/10, 7/10, 6/10, 2/10, 1/10, 2/10, 5/10, 3/10, 4/10, 8/10, 9/10] := by decide +kernel

-- test_readXMLBIF_with_*_properties*
example : let d := read false testXml
    info d "John_calls" = [some "position = (150, 200)"]
    ∧ info d "Alarm" = [some "position = (300, 100)", some "Random meta test"]
    ∧ d.info = [some "Random network property", some "Author jpoeppel"] := by decide +kernel
example : let d := read true testXml
    info d "John_calls" = [] ∧ info d "Alarm" = [] ∧ d.info = [] ∧ (read false slipperyXml).info = [] := by
  decide +kernel

/-- write and read again -/
def again (i j : Bool) (d : NetDoc) : NetDoc := match write dec i d with
  | .ok x => read j x
  | .error _ => NetDoc.new

/-- same outcomes, parents and tables, node by node -/
def same (d e : NetDoc) : Bool := d.net.lookup.keys == e.net.lookup.keys && d.net.lookup.keys.all fun k =>
  decide ((node d k).values = (node e k).values ∧ (node d k).parentOrder = (node e k).parentOrder
    ∧ (node d k).cpd = (node e k).cpd)

-- test_writeXMLBIF_simple, test_writeXMLBIF
def simple : NetDoc := { NetDoc.new with
  net := hist [.create .discrete "a" tf, .create .discrete "b" ["happy", "sad"], .addNode 0, .addNode 1, .addEdge "a" "b"] }
example : same simple (again true true simple) = true := by decide +kernel
example : same (read true slipperyXml) (again true true (read true slipperyXml)) = true := by decide +kernel

-- test_writeXMLBIF_with_*_properties*
def dummy : NetDoc := { read true slipperyXml with info := [some "Dummy property"] }
example : (again true false dummy).info = [] ∧ (again false false dummy).info = [some "Dummy property"] := by
  decide +kernel
example : let d := again true false (read false testXml)
    info d "John_calls" = [] ∧ info d "Alarm" = [] := by decide +kernel
example : let d := again false false (read false testXml)
    info d "John_calls" = [some "position = (150, 200)"]
    ∧ info d "Alarm" = [some "position = (300, 100)", some "Random meta test"] := by decide +kernel

/-- the files of `DBNSpecTest`, as the tests arrange them, in a repository at `/r` -/
def files : FileSys := fun p =>
  let xml := [(["r", "primo2", "tests", "dbn-test-b0.xbif"], b0Xml), (["r", "primo2", "tests", "dbn-test-2tbn.xbif"], tbnXml),
    (["r", "primo2", "dbn-test-b0.xbif"], b0Xml), (["r", "primo2", "dbn-test-2tbn.xbif"], tbnXml),
    (["tmp", "dbn-test-b0.xbif"], b0Xml), (["tmp", "dbn-test-2tbn.xbif"], tbnXml)]
  let ts := [("C_t0", "C"), ("B_t0", "B")]
  let conf := [(["r", "primo2", "tests", "dbn-test.conf"], (⟨"dbn-test-b0.xbif", "dbn-test-2tbn.xbif", ts⟩ : Conf)),
    (["r", "primo2", "tests", "dbn-test-relative.conf"], ⟨"../dbn-test-b0.xbif", "../dbn-test-2tbn.xbif", ts⟩),
    (["r", "primo2", "tests", "dbn-test-abs.conf"], ⟨"/tmp/dbn-test-b0.xbif", "/tmp/dbn-test-2tbn.xbif", ts⟩),
    (["r", "primo2", "tests", "dbn-test-mixed.conf"], ⟨"/tmp/dbn-test-b0.xbif", "dbn-test-2tbn.xbif", ts⟩)]
  ((xml.find? fun e => e.1 = p).map fun e => File.xml e.2).or ((conf.find? fun e => e.1 = p).map fun e => File.conf e.2)

/-- the names of the two networks -/
def names (r : Except PyErr DynDoc) : Except PyErr (Option String × Option String) :=
  r.map fun d => (d.b0.name, d.twoTbn.name)

-- test_parseDBN, _local_dir, _relative, _absolute_path, _mixed_path
example : (["dbn-test", "dbn-test-relative", "dbn-test-abs", "dbn-test-mixed"].map fun f =>
      names (DBNSpec.parse dec true files ["r"] ("primo2/tests/" ++ f ++ ".conf")))
    = List.replicate 4 (.ok (some "Test_DBN_B0", some "Test_DBN_2TBN")) := by decide +kernel
example : names (DBNSpec.parse dec true files ["r", "primo2", "tests"] "dbn-test.conf")
    = .ok (some "Test_DBN_B0", some "Test_DBN_2TBN") := by decide +kernel

-- test_parseDBN_load_properties
def dbn : Except PyErr DynDoc := DBNSpec.parse dec false files ["r"] "primo2/tests/dbn-test.conf"
example : dbn.map (fun d => (info d.twoTbn "A", info d.b0 "B"))
    = .ok ([some "position = (300, 0)"], [some "position = (400, 0)"]) := by decide +kernel

/-- write to `primo2/tests/test-dbn` and read again -/
def dbnAgain (i : Bool) (d : DynDoc) : Except PyErr DynDoc :=
  match DBNSpec.write dec i d ["r"] "primo2/tests/" "test-dbn" files with
  | (_, some e) => .error e
  | (fs, none) => DBNSpec.parse dec false fs ["r"] "primo2/tests/test-dbn.conf"

-- test_writeDBN, test_writeDBN_with_properties
example : (dbn.bind fun d => (dbnAgain true d).map fun e =>
      (info e.twoTbn "A", same d.b0 e.b0, same d.twoTbn e.twoTbn)) = .ok ([], true, true) := by decide +kernel
example : (dbn.bind fun d => (dbnAgain false d).map fun e =>
      (info e.twoTbn "A", same d.b0 e.b0, same d.twoTbn e.twoTbn))
    = .ok ([some "position = (300, 0)"], true, true) := by decide +kernel

end IO

/-! ## `Inference_test.py` -/
section Inference

/-- the network of `slippery.xbif`, as the parser builds it -/
def slippery : BN := (read true slipperyXml).net.view

-- test_min_degree_elimination_order, test_random_elimination_order
example : (Orderer.minDegreeOrder slippery).map (·.headD "") = .ok "slippery_road" := by decide +kernel

def emptyPair : BN := (hist [.create .discrete "a" tf, .create .discrete "b" tf, .addNode 0, .addNode 1,
  .addEdge "a" "b"]).view

-- VariableEliminationTest
example : data (VE.naiveMarginals .insertion emptyPair ["a"] []) = .ok [0, 0] := by decide +kernel
example : data (VE.naiveMarginals .insertion slippery ["winter"] []) = .ok [6/10, 4/10] := by decide +kernel
example : data (VE.naiveMarginals .insertion slippery ["rain"] [("winter", .hard "true")]) = .ok [8/10, 2/10] := by
  decide +kernel
example : data (VE.naiveMarginals .insertion slippery ["wet_grass"] [("sprinkler", .hard "true"), ("rain", .hard "false")])
    = .ok [1/10, 9/10] := by decide +kernel
example : data (VE.naiveMarginals .insertion slippery ["wet_grass"] [("winter", .hard "true")])
    = .ok [668/1000, 332/1000] := by decide +kernel
example : data (VE.naiveMarginals .insertion slippery ["wet_grass"] [("winter", .hard "true"), ("rain", .hard "false")])
    = .ok [2/100, 98/100] := by decide +kernel
example : data (VE.bucketMarginals .insertion slippery ["winter"] [] none) = .ok [6/10, 4/10] := by decide +kernel
example : near (data (VE.bucketMarginals .insertion slippery ["rain"] [("wet_grass", .hard "false")] none))
    [158858/1000000, 841142/1000000] = true := by decide +kernel
example : data (VE.bucketMarginals .insertion slippery ["wet_grass"] [("sprinkler", .hard "true"), ("rain", .hard "false")]
    none) = .ok [1/10, 9/10] := by decide +kernel
example : data (VE.bucketMarginals .insertion slippery ["wet_grass"] [("winter", .hard "true")] none)
    = .ok [668/1000, 332/1000] := by decide +kernel
example : data (VE.bucketMarginals .insertion slippery ["wet_grass"] [("winter", .hard "true"), ("rain", .hard "false")] none)
    = .ok [2/100, 98/100] := by decide +kernel

/-- create the tree, set the evidence, ask -/
def treeAsk (bn : BN) (ev : Dict Evidence) (soft : Bool) (vs : List Name) : Except PyErr (List ℚ) := do
  let t ← JoinTree.create .insertion bn none
  let r := t.setEvidence .insertion 1000 bn ev soft
  match r.2 with
  | some e => .error e
  | none => data (r.1.marginals .insertion 1000 vs).2


/-- the network with an unconnected node that has no table -/
def lonely : BN := ((Net.create .discrete "a" tf (read true slipperyXml).net).andThen fun s => Net.addNode 5 s).1.view

-- test_not_connected_node_without_cpt, test_empty_cpt
example : lonely.length = 6 ∧ treeAsk lonely [("a", .hard "False")] false ["a"] = .ok [0, 0] := by decide +kernel
example : (JoinTree.create .insertion emptyPair none).bind (fun t => data (t.marginals .insertion 1000 ["a"]).2)
    = .ok [0, 0] := by decide +kernel

-- test_create_jointree
example : (JoinTree.create .insertion slippery (some ["slippery_road", "wet_grass", "sprinkler", "winter", "rain"])).map
      (fun t => t.nodes.length == 3 && t.nodes.all fun n => ["slippery_roadrain", "wet_grasssprinklerrain",
        "wet_grassrainsprinkler", "sprinklerwinterrain", "sprinklerrainwinter", "wintersprinklerrain",
        "winterrainsprinkler", "rainsprinklerwinter", "rainwintersprinkler"].contains n.1) = .ok true := by
  decide +kernel

-- test_jointree_marginals*, test_jointree_evidence_*, test_jointree_marginal_evidence*
example : ["winter", "slippery_road", "sprinkler"].map (fun v =>
      (JoinTree.create .insertion slippery none).bind fun t => data (t.marginals .insertion 1000 [v]).2)
    = [.ok [6/10, 4/10], .ok [364/1000, 636/1000], .ok [42/100, 58/100]] := by decide +kernel
example : treeAsk slippery [("slippery_road", .hard "true")] false ["slippery_road"] = .ok [1, 0] := by decide +kernel
example : near (treeAsk slippery [("wet_grass", .hard "false")] false ["rain"])
    [158858/1000000, 841142/1000000] = true := by decide +kernel
example : treeAsk slippery [("sprinkler", .hard "true"), ("rain", .hard "false")] false ["wet_grass"]
    = .ok [1/10, 9/10] := by decide +kernel
example : treeAsk slippery [("winter", .hard "true")] false ["wet_grass"] = .ok [668/1000, 332/1000] := by
  decide +kernel
example : treeAsk slippery [("winter", .hard "true"), ("rain", .hard "false")] false ["wet_grass"]
    = .ok [2/100, 98/100] := by decide +kernel

-- test_jointree_marginal_soft_evidence
def cloth : BN := (hist [.create .discrete "cloth" ["green", "blue", "red"], .create .discrete "sold" tf, .addNode 0,
  .addNode 1, .addEdge "cloth" "sold", .setCpd 0 (arr [3] [3/10, 3/10, 4/10]),
  .setCpd 1 (arr [2, 3] [4/10, 4/10, 8/10, 6/10, 6/10, 2/10])]).view
example : treeAsk cloth [("cloth", .soft [7/10, 25/100, 5/100])] true ["cloth"] = .ok [7/10, 25/100, 5/100]
    ∧ treeAsk cloth [("cloth", .soft [7/10, 25/100, 5/100])] true ["sold"] = .ok [42/100, 58/100] := by
  decide +kernel

end Inference

/-! ## `Decision_test.py` -/
section Decision
open Factor Decision

/-- the network of `setUp` -/
def dnet : Net := Net.drun [
  .create .decision "education" ["do Phd", "no Phd"], .create .decision "startup" ["start up", "no start up"],
  .create .discrete "income" ["low", "average", "high"], .create .discrete "nobel" ["prize", "no prize"],
  .create .utility "costsE" [], .create .utility "costsS" [], .create .utility "gains" [],
  .addNode 0, .addNode 1, .addNode 2, .addNode 3, .addNode 4, .addNode 5, .addNode 6,
  .addEdge "education" "costsE", .addEdge "education" "nobel", .addEdge "startup" "income",
  .addEdge "startup" "costsS", .addEdge "nobel" "income", .addEdge "income" "gains",
  .setProbability 2 "low" (1/10) [("startup", "start up"), ("nobel", "no prize")],
  .setProbability 2 "low" (2/10) [("startup", "no start up"), ("nobel", "no prize")],
  .setProbability 2 "low" (5/1000) [("startup", "start up"), ("nobel", "prize")],
  .setProbability 2 "low" (5/100) [("startup", "no start up"), ("nobel", "prize")],
  .setProbability 2 "average" (5/10) [("startup", "start up"), ("nobel", "no prize")],
  .setProbability 2 "average" (6/10) [("startup", "no start up"), ("nobel", "no prize")],
  .setProbability 2 "average" (5/1000) [("startup", "start up"), ("nobel", "prize")],
  .setProbability 2 "average" (15/100) [("startup", "no start up"), ("nobel", "prize")],
  .setProbability 2 "high" (4/10) [("startup", "start up"), ("nobel", "no prize")],
  .setProbability 2 "high" (2/10) [("startup", "no start up"), ("nobel", "no prize")],
  .setProbability 2 "high" (99/100) [("startup", "start up"), ("nobel", "prize")],
  .setProbability 2 "high" (8/10) [("startup", "no start up"), ("nobel", "prize")],
  .setProbability 3 "prize" (1/10000000) [("education", "no Phd")],
  .setProbability 3 "prize" (1/1000) [("education", "do Phd")],
  .setProbability 3 "no prize" (9999999/10000000) [("education", "no Phd")],
  .setProbability 3 "no prize" (999/1000) [("education", "do Phd")],
  .setUtility 4 (-50000) [("education", "do Phd")], .setUtility 4 0 [("education", "no Phd")],
  .setUtility 5 (-200000) [("startup", "start up")], .setUtility 5 0 [("startup", "no start up")],
  .setUtility 6 100000 [("income", "low")], .setUtility 6 200000 [("income", "average")],
  .setUtility 6 500000 [("income", "high")]] Net.empty

def dn : BN := dnet.view

/-- joint factors of two nodes, combined -/
def comb (a b : Nat) : Except PyErr JointFactor :=
  (joint (dnet.objView a)).bind fun f => (joint (dnet.objView b)).bind fun g => combine .insertion [f, g]

-- test_combine_factors_chance_nodes
example : (comb 2 3).map (fun r => r.1.variableOrder) = .ok ["income", "startup", "nobel", "education"]
    ∧ (comb 2 3).map (fun r => r.1.potentials)
      = (both (mul .insertion) (dnet.objView 2) (dnet.objView 3)).map (fun f => f.potentials)
    ∧ (comb 2 3).map (fun r => r.2.potentials) = .ok (NDArray.zeros [3, 2, 2, 2]) := by decide +kernel

-- test_combine_factors_utility_nodes
example : (comb 6 5).map (fun r => (r.1.variableOrder, r.1.potentials)) = .ok (["income", "startup"], NDArray.ones [3, 2])
    ∧ (comb 6 5).map (fun r => r.2.potentials) = ((fromUtilityNode (dnet.objView 6)).bind fun f =>
      (fromUtilityNode (dnet.objView 5)).bind fun g => add .insertion f g).map (fun f => f.potentials) := by
  decide +kernel

-- test_combine_factors_mixed (the utilities repeat along the new axes)
example : (comb 6 2).map (fun r => (r.1.variableOrder, r.2.potentials.data)) = .ok (["income", "startup", "nobel"],
    [100000, 100000, 100000, 100000, 200000, 200000, 200000, 200000, 500000, 500000, 500000, 500000])
    ∧ (comb 6 2).map (fun r => r.1.potentials) = .ok (dnet.objView 2).cpd := by decide +kernel

-- test_marginalize_joint_factor
example : let r := (joint (dnet.objView 2)).bind fun f => marginalizeJoint .insertion f "income"
    r.map (fun r => (r.1.variableOrder, r.2.potentials.shape)) = .ok (["startup", "nobel"], [2, 2])
    ∧ r.map (fun r => r.1.potentials)
      = ((fromNode (dnet.objView 2)).bind fun f => f.marginalize ["income"]).map (fun f => f.potentials) := by
  decide +kernel

/-- the utilities expected in the next two tests -/
def desired : Except PyErr NDArray := do
  let u ← fromUtilityNode (dnet.objView 6)
  let p ← fromNode (dnet.objView 2)
  let m ← p.marginalize ["income"]
  let t ← mul .insertion u p
  let t ← t.marginalize ["income"]
  let q ← t.div .insertion m
  return q.potentials

-- test_marginalize_joint_factor_complex, test_generalized_VE
example : ((comb 6 2).bind fun r => marginalizeJoint .insertion r "income").map (fun r => r.2.potentials) = desired
    := by decide +kernel
example : (((joint (dnet.objView 6)).bind fun f => (joint (dnet.objView 2)).bind fun g =>
      generalizedVE .insertion .insertion [f, g] ["income"]).map fun r => r.2.potentials) = desired := by
  decide +kernel

-- test_expected_utility
example : [("no start up", "do Phd"), ("no start up", "no Phd"), ("start up", "do Phd"), ("start up", "no Phd")].map
      (fun p => ((expectedUtility .insertion .insertion dn (some [("startup", p.1), ("education", p.2)])).2).map
        fun a => a.data)
    = [.ok [190195], .ok [24000002/100 - 1/2000], .ok [601865/10], .ok [11000001865/100000]] := by decide +kernel

-- test_get_optimal_decisions
example : ((getOptimalDecisions .insertion (fun _ => .insertion) dn ["startup", "education"] none).2)
    = .ok [("startup", some "no start up"), ("education", some "no Phd")] := by decide +kernel

end Decision
end Primo.RepoTests
