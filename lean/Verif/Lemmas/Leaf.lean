import Verif.Lemmas.Sensor
import Verif.Lemmas.NetView

/-! # Adding a leaf through the interface -/

namespace Primo
namespace Net
variable {s : Net}

/-- none of the calls raises an exception -/
def Quiet : List Op → Net → Prop
  | [], _ => True
  | op :: ops, s => (step op s).2 = none ∧ Quiet ops (step op s).1

/-- `c = DiscreteNode(c, vals); bn.add_node(c); bn.add_edge(v, c); c.set_cpd(tab)`; the new object gets the id `i` -/
def leafOps (i : Nat) (v c : Name) (vals : List Val) (tab : NDArray) : List Op :=
  [.create .discrete c vals, .addNode i, .addEdge v c, .setCpd i tab]

theorem leaf_run (h : s.Inv) {v c : Name} {j : Nat} (hv : s.lookup.get? v = some j)
    (hk : (s.heap j).kind ≠ .utility) (hc : c ∉ s.lookup.keys) {vals : List Val} (hvals : vals ≠ []) {tab : NDArray}
    (ht : tab.shape = [vals.length, (s.heap j).values.length]) :
    Quiet (leafOps s.next v c vals tab) s ∧ GoodRun (leafOps s.next v c vals tab) s ∧
      (run (leafOps s.next v c vals tab) s).lookup = s.lookup ++ [(c, s.next)] ∧
      (run (leafOps s.next v c vals tab) s).heap = Function.update s.heap s.next
        ⟨.discrete, c, vals, [(v, j)], [v], tab, true, false⟩ := by
  obtain ⟨hj, hjn⟩ := h.name v j hv
  have hvc : v ≠ c := by rintro rfl; exact hc (Dict.get?_isSome.1 ⟨_, hv⟩)
  have hjne : j ≠ s.next := hj.ne
  -- after the second call
  set s1 : Net := (step (.create .discrete c vals) s).1 with hs1
  have n1 : s1.heap s.next = newObj .discrete c vals := by simp [hs1, step, create]
  have n1' : (s1.heap s.next).name = c := by rw [n1]; rfl
  have e1 : s1.lookup = s.lookup := rfl
  have g1 : s1.gnode = s.gnode := rfl
  have x1 : s1.next = s.next + 1 := rfl
  have h1 : s1.heap = Function.update s.heap s.next (newObj .discrete c vals) := rfl
  have p2 : step (.addNode s.next) s1 =
      (({ s1 with lookup := s1.lookup.set (s1.heap s.next).name s.next } : Net).graphAddNode s.next, none) := by
    show addNode s.next s1 = _
    unfold addNode
    rw [if_neg (by rw [x1]; omega), if_neg (by rw [n1', e1]; exact hc)]
  set s2 : Net := (step (.addNode s.next) s1).1 with hs2
  have e2 : s2.lookup = s.lookup ++ [(c, s.next)] := by
    rw [hs2, p2]
    show s1.lookup.set (s1.heap s.next).name s.next = _
    rw [n1', e1, Dict.set_of_not_mem _ hc]
  have h2 : s2.heap = s1.heap := by rw [hs2, p2]; rfl
  have g2 : s2.gnode = s.lookup ++ [(c, s.next)] := by
    rw [hs2, p2]
    show s1.gnode.insertNew (s1.heap s.next).name s.next = _
    rw [n1', g1, h.graph, Dict.insertNew, if_neg hc]
  have lv : s2.lookup.get? v = some j := by rw [e2, Dict.get?_append, hv]; rfl
  have lc : s2.lookup.get? c = some s.next := by
    rw [e2, Dict.get?_append, Dict.get?_eq_none.2 hc]; simp [Dict.get?]
  have p3 : step (.addEdge v c) s2 = addParent s.next j (s2.graphAddEdge j s.next) := by
    show addEdge v c s2 = _
    unfold addEdge
    rw [if_pos ⟨by rw [g2, ← e2]; exact Dict.get?_isSome.1 ⟨_, lv⟩, by rw [g2, ← e2]; exact Dict.get?_isSome.1 ⟨_, lc⟩⟩,
      lv, lc]
  have hh : (s2.graphAddEdge j s.next).heap = s1.heap := h2
  have hl : (s2.graphAddEdge j s.next).lookup = s2.lookup := rfl
  have hj1 : s1.heap j = s.heap j := by rw [h1, Function.update_of_ne hjne]
  generalize hG : s2.graphAddEdge j s.next = G at p3 hh hl
  have hGn : (G.heap s.next) = newObj .discrete c vals := by rw [hh, n1]
  have hGj : (G.heap j) = s.heap j := by rw [hh, hj1]
  have p4 : addParent s.next j G = (((G.setObj s.next { newObj .discrete c vals with parents := [(v, j)], parentOrder := [v] })).setObj s.next
      { newObj .discrete c vals with parents := [(v, j)], parentOrder := [v], cpd := NDArray.zeros [vals.length, (s.heap j).values.length], valid := false, plain := false }, none) := by
    unfold addParent
    have : ({ G.heap s.next with parents := (G.heap s.next).parents.set (G.heap j).name j, parentOrder := (G.heap s.next).parentOrder ++ [(G.heap j).name] } : NodeObj) = { newObj .discrete c vals with parents := [(v, j)], parentOrder := [v] } := by
      rw [hGn, hGj, hjn]; rfl
    rw [this]
    unfold updateDims
    have hob : (G.setObj s.next { newObj .discrete c vals with parents := [(v, j)], parentOrder := [v] }).heap s.next = { newObj .discrete c vals with parents := [(v, j)], parentOrder := [v] } := by
      simp [setObj]
    have hobj : (G.setObj s.next { newObj .discrete c vals with parents := [(v, j)], parentOrder := [v] }).heap j = s.heap j := by
      simp [setObj, Function.update_of_ne hjne, hGj]
    rw [hob]
    have hm : List.mapM (parentLen (G.setObj s.next { newObj .discrete c vals with parents := [(v, j)], parentOrder := [v] }) { newObj .discrete c vals with parents := [(v, j)], parentOrder := [v] }) [v] = .ok [(s.heap j).values.length] := by
      have hp : parentLen (G.setObj s.next { newObj .discrete c vals with parents := [(v, j)], parentOrder := [v] }) { newObj .discrete c vals with parents := [(v, j)], parentOrder := [v] } v = .ok (s.heap j).values.length := by
        have hg : Dict.getE ([(v, j)] : Dict Nat) v = .ok j := by simp [Dict.getE, Dict.get?]
        unfold parentLen
        rw [hg]
        simp only [bind, Except.bind]
        rw [hobj, if_neg hk]
      rw [List.mapM_cons, hp]
      rfl
    simp only [hm]
    simp [ownDim, newObj, hvals]
  set s3 : Net := (step (.addEdge v c) s2).1 with hs3
  have r3 : (step (.addEdge v c) s2).2 = none := by rw [p3, p4]
  have e3 : s3.lookup = s.lookup ++ [(c, s.next)] := by rw [hs3, p3, p4]; exact hl.trans e2
  have h3 : s3.heap = Function.update s.heap s.next
      { newObj .discrete c vals with parents := [(v, j)], parentOrder := [v], cpd := NDArray.zeros [vals.length, (s.heap j).values.length], valid := false, plain := false } := by
    rw [hs3, p3, p4]
    simp only [setObj, Function.update_idem, hh, h1]
  have p5 : step (.setCpd s.next tab) s3 = (s3.setObj s.next { s3.heap s.next with
      cpd := tab, valid := true, plain := false }, none) := by
    show setCpd s.next tab s3 = _
    unfold setCpd putCpd NodeV.setCpd
    have hn3 : s3.heap s.next = { newObj .discrete c vals with parents := [(v, j)], parentOrder := [v], cpd := NDArray.zeros [vals.length, (s.heap j).values.length], valid := false, plain := false } := by
      rw [h3, Function.update_self]
    have hk3 : (s3.objView s.next).kind = .discrete := by simp only [objView, hn3]; rfl
    have hs3 : (s3.objView s.next).cpd.shape = tab.shape := by
      simp only [objView, hn3]; rw [ht]; rfl
    rw [if_neg (by simp [hk3]), if_neg (by simp [hs3])]
  refine ⟨⟨rfl, by rw [← hs1, p2], r3, by rw [← hs1, ← hs2, ← hs3, p5], trivial⟩,
    ⟨trivial, ?_, ⟨?_, ?_⟩, trivial, trivial⟩, ?_, ?_⟩
  · show (s1.heap s.next).parentOrder = []
    rw [n1]; rfl
  · show v ∉ s2.parentsOf c
    unfold parentsOf
    rw [lc]
    simp only []
    rw [h2, n1]
    simp [newObj]
  · show ∀ i, s2.lookup.get? v = some i → (s2.heap i).kind ≠ .utility
    intro i hi
    rw [lv] at hi
    cases hi
    rw [h2, hj1]; exact hk
  · show (step (.setCpd s.next tab) s3).1.lookup = _
    rw [p5]; exact e3
  · show (step (.setCpd s.next tab) s3).1.heap = _
    rw [p5]
    simp only [setObj, h3, Function.update_idem, Function.update_self]
    rfl

/-- what inference sees afterwards -/
theorem leaf_view (h : s.Inv) {s' : Net} {v c : Name} {j : Nat} (hv : s.lookup.get? v = some j)
    (hc : c ∉ s.lookup.keys) {vals : List Val} {tab : NDArray}
    (hl : s'.lookup = s.lookup ++ [(c, s.next)])
    (hh : s'.heap = Function.update s.heap s.next ⟨.discrete, c, vals, [(v, j)], [v], tab, true, false⟩)
    {y : Val} (hy : y ∈ vals) {l : List ℚ} {q : ℚ} (hq : 0 < q)
    (hrow : ∀ i < s.view.card v, tab.get [vals.idxOf y, i] = q * l.getD i 0) (h' : s'.Inv) :
    Sensor s.view s'.view v c y l := by
  have hold : ∀ k i, s.lookup.get? k = some i → s'.heap i = s.heap i := by
    intro k i hi
    rw [hh, Function.update_of_ne (h.name k i hi).1.ne]
  refine ⟨?_, fun n hn => ?_, ?_⟩
  · rw [view_names h, view_names h', hl]
    simp [Dict.keys]
  · obtain ⟨k, i, hk, rfl⟩ := (mem_view h).1 hn
    have e := hold k i hk
    refine ⟨s'.objView i, (mem_view h').2 ⟨k, i, by rw [hl, Dict.get?_append, hk]; rfl, rfl⟩, ?_⟩
    simp only [objView, e, and_self]
  · have e : s'.heap s.next = ⟨.discrete, c, vals, [(v, j)], [v], tab, true, false⟩ := by
      rw [hh, Function.update_self]
    refine ⟨s'.objView s.next, (mem_view h').2 ⟨c, s.next, ?_, rfl⟩, ?_⟩
    · rw [hl, Dict.get?_append, Dict.get?_eq_none.2 hc]; simp [Dict.get?]
    · simp only [objView, e]
      exact ⟨trivial, trivial, hy, q, hq, hrow⟩

end Net
end Primo
