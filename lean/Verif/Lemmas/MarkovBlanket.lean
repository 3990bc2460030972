import Verif.Spec.Sampling
import Verif.Lemmas.Node
import Verif.Lemmas.Joint

/-! # The Markov-blanket weight of a node -/

namespace Primo
open Finset

variable {bn : BN}

theorem ReadsOn.mono {S T : List Name} {d : Dict Val} {σ : Assign} (h : ReadsOn bn T d σ)
    (hST : ∀ v ∈ S, v ∈ T) : ReadsOn bn S d σ := fun v hv => h v (hST v hv)

theorem lab_get (hc : bn.Consistent) {n : NodeV} (hn : n ∈ bn) {i : Nat} :
    (bn.lab n.name)[i]? = n.values[i]? := by rw [BN.lab_eq hc.nodup hn]

theorem card_eq (hc : bn.Consistent) {n : NodeV} (hn : n ∈ bn) :
    bn.card n.name = n.values.length := by rw [BN.card, BN.lab_eq hc.nodup hn]

theorem BN.Discrete.lab_nodup (hd : bn.Discrete) (v : Name) : (bn.lab v).Nodup := by
  unfold BN.lab
  rcases h : bn.find? (fun n => n.name = v) with _ | n
  · simp only [h]; exact List.nodup_nil
  · simp only [h]; exact hd.labels n (List.mem_of_find?_eq_some h)

theorem ReadsOn.set {S : List Name} {d : Dict Val} {σ : Assign} (h : ReadsOn bn S d σ) {v : Name}
    {x : Val} {a : Nat} (hx : (bn.lab v)[a]? = some x) :
    ReadsOn bn (v :: S) (d.set v x) (Function.update σ v a) := by
  intro w hw
  rw [Dict.get?_set]
  by_cases e : v = w
  · subst e
    rw [if_pos rfl, Function.update_self, hx]
  · rw [if_neg e, Function.update_of_ne (Ne.symm e)]
    exact h w ((List.mem_cons.1 hw).resolve_left (Ne.symm e))

theorem Reads.set {d : Dict Val} {σ : Assign} (h : Reads bn d σ) {v : Name}
    {x : Val} {a : Nat} (hx : (bn.lab v)[a]? = some x) :
    Reads bn (d.set v x) (Function.update σ v a) :=
  (ReadsOn.set h hx).mono fun _ hw => List.mem_cons_of_mem _ hw

/-- reading a state off the table of a node -/
theorem getSingle_reads (hc : bn.Consistent) (hd : bn.Discrete) {n : NodeV} (hn : n ∈ bn)
    {σ : Assign} (hσ : Legal bn.card (n.name :: n.parentOrder) σ) {d : Dict Val}
    (hr : ReadsOn bn n.parentOrder d σ) {x : Val} (hx : n.values[σ n.name]? = some x) :
    n.getSingle x d = .ok (n.entry σ) := by
  have hi : σ n.name < n.values.length := card_eq hc hn ▸ hσ n.name (by simp)
  have hne : n.values ≠ [] := by rintro h; simp [h] at hi
  have hp : n.parentOrder.mapM (n.parentIndex d) = .ok (n.parentOrder.map σ) := by
    refine mapM_ok fun p hp => ?_
    have hlt : σ p < (bn.lab p).length := hσ p (by simp [hp])
    have hg := hr p hp
    rw [List.getElem?_eq_getElem hlt] at hg
    unfold NodeV.parentIndex
    rw [Dict.getE_ok (hc.parents_val n hn p hp), ok_bind, Dict.getE_ok hg, ok_bind,
      pyIndex_ok (List.getElem_mem _)]
    congr 1
    exact (idxOf_eq_iff_of_nodup (hd.lab_nodup p) (List.getElem_mem _)).2
      (List.getElem?_eq_getElem hlt)
  have hown : n.ownIndex x = .ok [σ n.name] := by
    rw [NodeV.ownIndex_ok (Or.inr (List.mem_of_getElem? hx)), if_neg hne]
    congr 2
    exact (idxOf_eq_iff_of_nodup (hd.labels n hn) (List.mem_of_getElem? hx)).2 hx
  unfold NodeV.getSingle
  rw [if_neg (by simp [hd.kind n hn]), hown, ok_bind, hp, ok_bind, NDArray.item, if_pos]
  · rfl
  · rw [hc.shape n hn, mem_allIdx]
    exact .cons hi (inRange_map.2 fun p hp => hσ p (by simp [hp]))

theorem mem_childNodes (hc : bn.Consistent) (hl : bn.Linked) {n m : NodeV} (hn : n ∈ bn) :
    m ∈ bn.childNodes n ↔ m ∈ bn ∧ n.name ∈ m.parentOrder := by
  unfold BN.childNodes
  rw [List.mem_filterMap]
  constructor
  · rintro ⟨c, hcm, hf⟩
    have hm := List.mem_of_find?_eq_some hf
    have hname : m.name = c := by simpa using List.find?_some hf
    obtain ⟨m', h1, h2, h3⟩ := (hl.iff n hn c).1 hcm
    have : m' = m := by
      have := BN.lab_of_mem hc.nodup h1
      rw [h2] at this
      exact Option.some.inj (this.symm.trans hf)
    exact ⟨hm, this ▸ h3⟩
  · rintro ⟨hm, hp⟩
    exact ⟨m.name, (hl.iff n hn m.name).2 ⟨m, hm, rfl, hp⟩, BN.lab_of_mem hc.nodup hm⟩

theorem childNodes_nodup (hl : bn.Linked) {n : NodeV} (hn : n ∈ bn) :
    (bn.childNodes n).Nodup := by
  unfold BN.childNodes
  refine (hl.nodup n hn).filterMap ?_
  intro a b m ha hb
  have h1 : m.name = a := by simpa using List.find?_some (Option.mem_def.1 ha)
  have h2 : m.name = b := by simpa using List.find?_some (Option.mem_def.1 hb)
  exact h1.symm.trans h2

/-- own table entry times the entries of the children -/
def blanket (bn : BN) (n : NodeV) (σ : Assign) : ℚ :=
  n.entry σ * ((bn.childNodes n).map fun m => m.entry σ).prod

/-- the entries of all other nodes -/
def others (bn : BN) (n : NodeV) (σ : Assign) : ℚ :=
  ((bn.filter fun m => ¬ (m.name = n.name ∨ n.name ∈ m.parentOrder)).map fun m => m.entry σ).prod

theorem joint_blanket (hc : bn.Consistent) (hl : bn.Linked) {n : NodeV} (hn : n ∈ bn)
    (σ : Assign) : joint bn σ = blanket bn n σ * others bn n σ := by
  have hnd : bn.Nodup := List.Nodup.of_map _ hc.nodup
  have hp : (bn.filter fun m => m.name = n.name ∨ n.name ∈ m.parentOrder).Perm
      (n :: bn.childNodes n) := by
    refine (List.perm_ext_iff_of_nodup (hnd.filter _) (List.nodup_cons.2
      ⟨fun h => hc.self n hn ((mem_childNodes hc hl hn).1 h).2, childNodes_nodup hl hn⟩)).2 fun m => ?_
    rw [List.mem_filter, List.mem_cons, mem_childNodes hc hl hn, decide_eq_true_eq]
    constructor
    · rintro ⟨h1, h2 | h2⟩
      · left
        have := BN.lab_of_mem hc.nodup h1
        rw [h2, BN.lab_of_mem hc.nodup hn] at this
        exact (Option.some.inj this).symm
      · exact Or.inr ⟨h1, h2⟩
    · rintro (rfl | h)
      · exact ⟨hn, Or.inl rfl⟩
      · exact ⟨h.1, Or.inr h.2⟩
  have hsplit := List.filter_append_perm
    (fun m : NodeV => decide (m.name = n.name ∨ n.name ∈ m.parentOrder)) bn
  unfold joint
  rw [← (hsplit.map fun m => m.entry σ).prod_eq, List.map_append, List.prod_append,
    (hp.map fun m => m.entry σ).prod_eq, List.map_cons, List.prod_cons]
  unfold blanket others
  congr 3
  refine List.filter_congr fun m _ => ?_
  simp

theorem others_update (n : NodeV) (σ : Assign) (a : Nat) :
    others bn n (Function.update σ n.name a) = others bn n σ := by
  unfold others
  congr 1
  refine List.map_congr_left fun m hm => ?_
  have h := (List.mem_filter.1 hm).2
  rw [decide_eq_true_eq, not_or] at h
  refine entry_dependsOn m _ _ fun v hv => Function.update_of_ne ?_ _ _
  simp only [List.toFinset_cons, mem_insert, List.mem_toFinset] at hv
  rintro rfl
  rcases hv with e | e
  · exact h.1 e.symm
  · exact h.2 e

theorem legal_family (hc : bn.Consistent) {σ : Assign} (hσ : Legal bn.card bn.names σ) {m : NodeV}
    (hm : m ∈ bn) : Legal bn.card (m.name :: m.parentOrder) σ := by
  intro v hv
  rcases List.mem_cons.1 hv with rfl | h
  · exact hσ _ (List.mem_map_of_mem hm)
  · exact hσ _ (hc.parents_mem m hm v h)

theorem Reads.get (hc : bn.Consistent) {d : Dict Val} {σ : Assign} (hr : Reads bn d σ)
    (hσ : Legal bn.card bn.names σ) {m : NodeV} (hm : m ∈ bn) :
    ∃ x, d.get? m.name = some x ∧ m.values[σ m.name]? = some x := by
  have hv : m.name ∈ bn.names := List.mem_map_of_mem hm
  have hlt : σ m.name < m.values.length := card_eq hc hm ▸ hσ _ hv
  refine ⟨m.values[σ m.name], ?_, List.getElem?_eq_getElem hlt⟩
  rw [hr _ hv, lab_get hc hm, List.getElem?_eq_getElem hlt]

/-- `get_markov_prob` in the state `σ` -/
theorem markovProb_reads (hc : bn.Consistent) (hl : bn.Linked) (hd : bn.Discrete) {n : NodeV}
    (hn : n ∈ bn) {σ : Assign} (hσ : Legal bn.card bn.names σ) {d : Dict Val} (hr : Reads bn d σ)
    {x : Val} (hx : n.values[σ n.name]? = some x) :
    n.markovProb x (bn.childNodes n) d false = .ok (blanket bn n σ) := by
  have hp : ∀ m ∈ bn, ∀ y, m.values[σ m.name]? = some y → m.getSingle y d = .ok (m.entry σ) :=
    fun m hm y hy => getSingle_reads hc hd hm (legal_family hc hσ hm)
      (ReadsOn.mono hr fun v hv => hc.parents_mem m hm v hv) hy
  have hfold : ∀ (l : List NodeV) (p : ℚ), (∀ m ∈ l, m ∈ bn) →
      l.foldlM (fun prob c => do
        let x ← d.getE c.name
        let q ← c.getSingle x d
        return prob * q) p = (.ok (p * (l.map fun m => m.entry σ).prod) : Except PyErr ℚ) := by
    intro l
    induction l with
    | nil => intro p _; simp
    | cons m l ih =>
      intro p hl
      have hm := hl m (by simp)
      obtain ⟨y, h1, h2⟩ := hr.get hc hσ hm
      rw [List.foldlM_cons, Dict.getE_ok h1, ok_bind, hp m hm y h2, ok_bind, pure_eq_ok, ok_bind,
        ih _ fun m hm => hl m (List.mem_cons_of_mem _ hm)]
      rw [List.map_cons, List.prod_cons, mul_assoc]
  unfold NodeV.markovProb
  rw [hp n hn x hx, ok_bind]
  simp only [Bool.false_eq_true, if_false]
  exact hfold _ _ fun m hm => ((mem_childNodes hc hl hn).1 hm).1

theorem markovProb_forward {n : NodeV} {x : Val} {ch : List NodeV} {d : Dict Val} :
    n.markovProb x ch d true = n.getSingle x d := by
  unfold NodeV.markovProb
  cases n.getSingle x d <;> rfl

end Primo
