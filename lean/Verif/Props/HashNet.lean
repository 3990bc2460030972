import Verif.Lemmas.HashCoherent
import Verif.Props.Network

/-!
# C69: node objects as dictionary keys

networkx keys its dictionaries by node objects, which hash and compare by their *current* name; a
dictionary keeps the hash a key had when it was inserted.  Proved here: within one network this never
shows.  Whatever the hash function, a network behaves as if its graph were keyed by names (the model
of C30–C34), also if several networks live side by side, as long as no node object is used with two
networks.  Sharing a node object breaks a network (`C69_shared_…_refuted`).
-/

namespace Primo
open Net

namespace Ex

/-- calls by name and by node object: nodes `x`, `y`, `z`, edges, a rename, a removal -/
def keyed : List HOp :=
  [.create .discrete "x" ["t", "f"], .create .discrete "y" ["a", "b", "c"],
   .create .discrete "z" ["0", "1"], .addNode 0, .addNode 1, .addNode 2,
   .addEdge (.str "x") (.obj 1), .addEdge (.obj 1) (.str "z"), .addEdge (.str "x") (.str "z"),
   .changeName (.str "y") "w", .removeEdge (.obj 0) (.obj 2), .changeValues (.obj 1) ["p", "q"],
   .removeNode (.str "nobody"), .removeNode (.obj 0)]

/-- string hashing without any collision; `b`: identical objects are always (never) met -/
def plainHash (b : Bool) : Hashing Name := ⟨id, fun _ _ => b⟩

/-- string hashing with as many collisions as possible -/
def poorHash : Hashing Unit := ⟨fun _ => (), fun _ _ => true⟩

end Ex

/-- **C69** One network, any history of calls with names or node objects as arguments, any hash
function: nodes, lookup, graph and every exception are those of the network whose graph is keyed by
names. -/
theorem C69_names {κ : Type} [DecidableEq κ] (S : Hashing κ) (ops : List HOp) :
    (HNet.run S ops HNet.empty).1.forget = (runBy ops Net.empty).1 ∧
    (HNet.run S ops HNet.empty).2 = (runBy ops Net.empty).2 := by
  obtain ⟨h1, h2, _⟩ := (HNet.Rel.empty (S := S)).run ops
  exact ⟨h1, h2⟩

/-- **C69** No dictionary of the graph ever holds a key under an outdated hash. -/
theorem C69_fresh {κ : Type} [DecidableEq κ] (S : Hashing κ) (ops : List HOp) :
    let s := (HNet.run S ops HNet.empty).1
    (∀ e ∈ s.gnode, e.hash = S.hash (s.heap e.key).name) ∧
    ∀ a ∈ [s.succ, s.pred], ∀ e ∈ a, e.hash = S.hash (s.heap e.key).name ∧
      ∀ x ∈ e.val, x.hash = S.hash (s.heap x.key).name := by
  intro s
  have h := ((HNet.Rel.empty (S := S)).run ops).2.2
  refine ⟨fun e he => (h.gnode e he).2, fun a ha e he => ?_⟩
  simp only [List.mem_cons, List.not_mem_nil, or_false] at ha
  rcases ha with rfl | rfl
  · exact ⟨(h.succ.1 e he).2, fun x hx => (h.succ.2 e he x hx).2⟩
  · exact ⟨(h.pred.1 e he).2, fun x hx => (h.pred.2 e he x hx).2⟩

/-- **C69** What the network answers is what the name-keyed network answers: `in graph`, `get_node`,
`get_children`, `get_all_nodes`, `len`. -/
theorem C69_readers {κ : Type} [DecidableEq κ] (S : Hashing κ) (ops : List HOp) (q : Key) :
    let s := (HNet.run S ops HNet.empty).1
    let t := (runBy ops Net.empty).1
    (HNet.inGraph S q s = true ↔ q.name t.heap ∈ t.gnode.keys) ∧
    HNet.getNode q s = t.getNode (q.name t.heap) ∧
    HNet.getChildren S q s = (match t.succ.get? (q.name t.heap) with
      | some d => .ok (d.map Prod.snd)
      | none => .error .keyError) ∧
    HNet.allNodes s = t.gnode.map Prod.snd ∧
    HNet.len s = t.gnode.length := by
  intro s t
  obtain ⟨h1, _, h⟩ := (HNet.Rel.empty (S := S)).run ops
  have e : t = s.forget := h1.symm
  rw [e]
  refine ⟨?_, ?_, ?_, ?_, ?_⟩
  · rw [h.inGraph]; simp only [decide_eq_true_eq]; rfl
  · rfl
  · have h2 := HAdj.get?_names h.succ q
    have h3 : s.forget.succ.get? (q.name s.forget.heap) =
        (HDict.get? S s.heap s.succ q).map (HDict.names s.heap) := h2
    rw [h3]
    unfold HNet.getChildren
    cases HDict.get? S s.heap s.succ q with
    | none => rfl
    | some d => exact congrArg _ (HDict.names_objs d).symm
  · exact (HDict.names_objs _).symm
  · exact (List.length_map ..).symm

example := C69_names (Ex.plainHash false) Ex.keyed
example := C69_readers Ex.poorHash Ex.keyed (.obj 1)

/-- the history ends with two nodes and an edge -/
example : (runBy Ex.keyed Net.empty).1.lookup = [("z", 2), ("w", 1)] ∧
    (runBy Ex.keyed Net.empty).1.succ = [("z", []), ("w", [("z", 2)])] := by decide +kernel

/-- as the object-keyed dictionaries have it, whatever the collisions -/
example : HNet.getChildren Ex.poorHash (.str "w") (HNet.run Ex.poorHash Ex.keyed HNet.empty).1 =
    .ok [2] := by decide +kernel

/-! ## several networks -/

/-- **C69** Any number of networks that use no node object in common: each of them, its node objects
and all exceptions it raises are as if the other networks did not exist, hence those of the name-keyed
network. -/
theorem C69_separate {κ : Type} [DecidableEq κ] (S : Hashing κ) (own : Nat → Nat)
    (ops : List (Nat × HOp)) (hs : World.Separate own ops) (k : Nat) :
    let s := ((World.run S ops World.empty).1.slice k).forget
    let t := runBy ((World.forNet k ops).map Prod.snd) Net.empty
    (s.lookup = t.1.lookup ∧ s.gnode = t.1.gnode ∧ s.succ = t.1.succ ∧ s.pred = t.1.pred) ∧
    (∀ i, own i = k → s.heap i = t.1.heap i) ∧
    World.answersFor k ops (World.run S ops World.empty).2 = t.2 := by
  intro s t
  obtain ⟨h1, h2⟩ := World.run_local (S := S) hs World.empty (fun _ => HNet.empty)
    (fun _ => HNet.Loc.empty) k
  obtain ⟨n1, n2⟩ := C69_names S ((World.forNet k ops).map Prod.snd)
  obtain ⟨f1, f2, f3, f4⟩ := h1.forget
  rw [n1] at f1 f2 f3 f4
  exact ⟨⟨f1, f2, f3, f4⟩, fun i hi => (h1.heap.eq i hi).trans (congrArg (fun n => n.heap i) n1),
    h2.trans n2⟩

/-- **C69** So every network with a good history of its own is coherent (C30), whatever happens to
the other networks. -/
theorem C69_coherent {κ : Type} [DecidableEq κ] (S : Hashing κ) (own : Nat → Nat)
    (ops : List (Nat × HOp)) (hs : World.Separate own ops) (k : Nat)
    (hg : GoodBy ((World.forNet k ops).map Prod.snd) Net.empty) :
    ((World.run S ops World.empty).1.slice k).forget.Coherent := by
  obtain ⟨h1, _⟩ := World.run_local (S := S) hs World.empty (fun _ => HNet.empty)
    (fun _ => HNet.Loc.empty) k
  refine h1.coherent ?_
  rw [(C69_names S _).1]
  obtain ⟨l, g1, g2⟩ := hg.run
  rw [← g2]
  exact C30_coherent_partial l g1

/-- a sufficient test for `GoodBy` -/
def Net.goodByCheck : List HOp → Net → Bool
  | [], _ => true
  | op :: ops, s => goodCheck s (op.resolve s) && goodByCheck ops (step (op.resolve s) s).1

theorem Net.goodBy_of_check {ops : List HOp} {s : Net} (h : goodByCheck ops s = true) :
    GoodBy ops s := by
  induction ops generalizing s with
  | nil => trivial
  | cons op ops ih =>
    simp only [goodByCheck, Bool.and_eq_true] at h
    exact ⟨good_of_check h.1, ih h.2⟩

namespace Ex

/-- two networks built in turns; both have nodes called `x` and `y` -/
def worlds : List (Nat × HOp) :=
  [(0, .create .discrete "x" ["t", "f"]), (1, .create .discrete "x" ["0", "1", "2"]),
   (0, .create .discrete "y" ["t", "f"]), (1, .create .discrete "y" ["0", "1"]),
   (1, .addNode 1), (0, .addNode 0), (0, .addNode 2), (1, .addNode 3),
   (0, .addEdge (.str "x") (.str "y")), (1, .addEdge (.obj 3) (.obj 1)),
   (1, .changeName (.str "y") "z"), (0, .removeNode (.str "x")), (0, .removeNode (.str "z"))]

end Ex

example := C69_separate (Ex.plainHash false) (· % 2) Ex.worlds (by unfold World.Separate; decide)
example := C69_coherent Ex.poorHash (· % 2) Ex.worlds (by unfold World.Separate; decide) 1
  (goodBy_of_check (by decide +kernel))
example : ((World.run Ex.poorHash Ex.worlds World.empty).1.slice 1).forget.pred =
    [("x", [("z", 3)]), ("z", [])] := by decide +kernel

/-! ## a node object in two networks -/

namespace Ex

/-- The node object `a` is in two networks and gets renamed to `b` in the first one. -/
def sharedRename : List (Nat × HOp) :=
  [(0, .create .discrete "a" ["t", "f"]), (0, .create .discrete "c" ["t", "f"]),
   (0, .addNode 0), (1, .addNode 0), (1, .addNode 1), (0, .changeName (.str "a") "b")]

/-- The node object `c` is in two networks and gets a parent in the first one. -/
def sharedEdge : List (Nat × HOp) :=
  [(0, .create .discrete "a" ["t", "f"]), (0, .create .discrete "c" ["t", "f"]),
   (0, .addNode 0), (0, .addNode 1), (1, .addNode 1), (0, .addEdge (.str "a") (.str "c"))]

end Ex

/-- **C69 refuted** for a node object in two networks that is renamed in one of them.  In the other
network every call is in order by itself; yet `get_node("a")` answers with a node called `b`, the graph
knows neither `a` nor `b` although it has two nodes, `add_edge("a", "c")` raises, `remove_node("a")` does
nothing, and the network is not coherent. -/
theorem C69_shared_rename_refuted (met : Bool) :
    let S := Ex.plainHash met
    let s := (World.run S Ex.sharedRename World.empty).1.slice 1
    GoodBy ((World.forNet 0 Ex.sharedRename).map Prod.snd) Net.empty ∧
    GoodBy ((World.forNet 1 Ex.sharedRename).map Prod.snd) Net.empty ∧
    HNet.getNode (.str "a") s = .ok 0 ∧ (s.heap 0).name = "b" ∧
    HNet.inGraph S (.str "a") s = false ∧ HNet.inGraph S (.str "b") s = false ∧
    HNet.allNodes s = [0, 1] ∧
    (HNet.addEdge S (.str "a") (.str "c") s).2 = some .exception ∧
    HNet.removeNode S (.str "a") s = (s, none) ∧
    ¬ s.forget.Coherent := by
  intro S s
  have h : HNet.inGraph S (.str "a") s = false := by cases met <;> decide +kernel
  refine ⟨goodBy_of_check (by decide +kernel), goodBy_of_check (by decide +kernel), ?_, ?_, h, ?_, ?_,
    ?_, ?_, fun hc => ?_⟩
  iterate 5 · cases met <;> decide +kernel
  · unfold HNet.removeNode; rw [if_neg (by rw [h]; decide)]
  · have := hc.name "a" 0 (by cases met <;> decide +kernel)
    revert this
    cases met <;> decide +kernel

/-- **C69 refuted** for a node object in two networks that gets a parent in one of them: the other
network has a node whose parent it does not know. -/
theorem C69_shared_edge_refuted (met : Bool) :
    let S := Ex.plainHash met
    let s := (World.run S Ex.sharedEdge World.empty).1.slice 1
    GoodBy ((World.forNet 0 Ex.sharedEdge).map Prod.snd) Net.empty ∧
    GoodBy ((World.forNet 1 Ex.sharedEdge).map Prod.snd) Net.empty ∧
    HNet.getNode (.str "c") s = .ok 1 ∧ (s.heap 1).parentOrder = ["a"] ∧
    HNet.getNode (.str "a") s = .error .exception ∧
    ¬ s.forget.Coherent := by
  intro S s
  refine ⟨goodBy_of_check (by decide +kernel), goodBy_of_check (by decide +kernel), ?_, ?_, ?_,
    fun hc => ?_⟩
  iterate 3 · cases met <;> decide +kernel
  · have := (hc.incoming "c" 1 (by cases met <;> decide +kernel)).2.length_eq
    revert this
    cases met <;> decide +kernel

end Primo
