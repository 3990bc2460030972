import Verif.Lemmas.Network

/-! # Facts that hold in every state, good or not -/

namespace Primo
namespace Net
open Res

variable {s : Net}

theorem andThen_inv {P : Net → Prop} {r : Res} {f : Net → Res} (h1 : P r.1)
    (h2 : ∀ t, P t → P (f t).1) : P (r.andThen f).1 := by
  unfold andThen
  split
  · exact h2 _ h1
  · exact h1

theorem forEach_inv {α : Type} {P : Net → Prop} {f : α → Net → Res}
    (h : ∀ a t, P t → P (f a t).1) : ∀ (l : List α) (t : Net), P t → P (forEach f l t).1
  | [], _, ht => ht
  | a :: l, t, ht => andThen_inv (h a t ht) fun t' ht' => forEach_inv h l t' ht'

theorem updateDims_lookup (i : Nat) (s : Net) : (updateDims i s).1.lookup = s.lookup := by
  unfold updateDims; split <;> rfl

theorem addParent_lookup (i j : Nat) (s : Net) : (addParent i j s).1.lookup = s.lookup := by
  unfold addParent; rw [updateDims_lookup]; rfl

theorem removeParent_lookup (i j : Nat) (s : Net) : (removeParent i j s).1.lookup = s.lookup := by
  unfold removeParent
  split
  · rfl
  · split
    · rfl
    · simp only
      split
      · rfl
      · rw [updateDims_lookup]; rfl

theorem setValues_lookup (i : Nat) (v : List Val) (s : Net) :
    (setValues i v s).1.lookup = s.lookup := by
  unfold setValues
  split
  · rfl
  · rw [updateDims_lookup]; rfl

theorem graphRemoveNode_lookup (k : Name) (s : Net) :
    (graphRemoveNode k s).1.lookup = s.lookup := by
  unfold graphRemoveNode; split <;> rfl

theorem graphRemoveEdge_lookup (u v : Name) (s : Net) :
    (graphRemoveEdge u v s).1.lookup = s.lookup := by
  unfold graphRemoveEdge; split <;> rfl

theorem putCpd_lookup (i : Nat) (r : Except PyErr NDArray) (f : Bool → Bool) (s : Net) :
    (putCpd i r f s).1.lookup = s.lookup := by
  unfold putCpd; split <;> rfl

theorem delLookup_nodup {k : Name} (h : s.lookup.keys.Nodup) :
    (delLookup k s).1.lookup.keys.Nodup := by
  unfold delLookup
  split
  · exact Dict.nodup_erase h _
  · exact h

/-- `node_lookup` is a dictionary: whatever is called, its keys stay distinct. -/
theorem step_lookup_nodup (op : Op) (h : s.lookup.keys.Nodup) :
    (step op s).1.lookup.keys.Nodup := by
  cases op with
  | create k n v => exact h
  | addNode i =>
    change (addNode i s).1.lookup.keys.Nodup
    unfold addNode
    split
    · exact h
    · split
      · exact h
      · exact Dict.nodup_keys_set h
  | removeNode k =>
    change (removeNode k s).1.lookup.keys.Nodup
    unfold removeNode
    split
    · refine andThen_inv (P := fun t => t.lookup.keys.Nodup) (andThen_inv
        (P := fun t => t.lookup.keys.Nodup) (forEach_inv
        (P := fun t => t.lookup.keys.Nodup) ?_ _ _ h) ?_) ?_
      · intro c t ht
        unfold dropParent
        split
        · exact ht
        · rw [removeParent_lookup]; exact ht
      · intro t ht; rw [graphRemoveNode_lookup]; exact ht
      · intro t ht; exact delLookup_nodup ht
    · exact h
  | removeEdge a b =>
    change (removeEdge a b s).1.lookup.keys.Nodup
    unfold removeEdge
    split
    · split
      · refine andThen_inv (P := fun t => t.lookup.keys.Nodup) ?_ ?_
        · rw [removeParent_lookup]; exact h
        · intro t ht; rw [graphRemoveEdge_lookup]; exact ht
      · exact h
    · exact h
  | addEdge a b =>
    change (addEdge a b s).1.lookup.keys.Nodup
    unfold addEdge
    split
    · split
      · rw [addParent_lookup]; exact h
      · exact h
    · exact h
  | changeValues k v =>
    change (changeValues k v s).1.lookup.keys.Nodup
    unfold changeValues
    split
    · exact h
    · refine andThen_inv (P := fun t => t.lookup.keys.Nodup) ?_ ?_
      · rw [setValues_lookup]; exact h
      · intro t ht
        split
        · refine forEach_inv (P := fun t => t.lookup.keys.Nodup) ?_ _ _ ht
          intro c t ht; rw [updateDims_lookup]; exact ht
        · exact ht
  | changeName o n b =>
    change (changeName o n b s).1.lookup.keys.Nodup
    unfold changeName
    split
    · exact h
    · split
      · exact h
      · refine andThen_inv (P := fun t => t.lookup.keys.Nodup) (andThen_inv
          (P := fun t => t.lookup.keys.Nodup) (andThen_inv (P := fun t => t.lookup.keys.Nodup)
          (andThen_inv (P := fun t => t.lookup.keys.Nodup) (forEach_inv
          (P := fun t => t.lookup.keys.Nodup) ?_ _ _ h) ?_) ?_) ?_) ?_
        · intro c t ht
          unfold renameParent
          split
          · exact ht
          · simp only
            split <;> exact ht
        · intro t ht; rw [graphRemoveNode_lookup]; exact ht
        · intro t ht
          unfold rebind
          refine andThen_inv (P := fun t => t.lookup.keys.Nodup) (delLookup_nodup ht) ?_
          intro t ht; exact Dict.nodup_keys_set ht
        · intro t ht
          refine forEach_inv (P := fun t => t.lookup.keys.Nodup) ?_ _ _ ht
          intro c t ht
          unfold relinkChild
          split <;> exact ht
        · intro t ht
          refine forEach_inv (P := fun t => t.lookup.keys.Nodup) ?_ _ _ ht
          intro c t ht
          unfold relinkParent
          split <;> exact ht
  | clear => simp [step, clear]
  | setCpd i c => change (putCpd i _ _ s).1.lookup.keys.Nodup; rw [putCpd_lookup]; exact h
  | setProbability i v p pv =>
    change (putCpd i _ _ s).1.lookup.keys.Nodup; rw [putCpd_lookup]; exact h
  | setUtilities i u => change (putCpd i _ _ s).1.lookup.keys.Nodup; rw [putCpd_lookup]; exact h
  | setUtility i u pv => change (putCpd i _ _ s).1.lookup.keys.Nodup; rw [putCpd_lookup]; exact h
  | setDecision i d =>
    change (setDecision i d s).1.lookup.keys.Nodup
    unfold setDecision
    split <;> exact h
  | fullyMixed i =>
    change (fullyMixed i s).1.lookup.keys.Nodup
    unfold fullyMixed
    split
    · exact h
    · rw [putCpd_lookup]; exact h

theorem run_lookup_nodup (ops : List Op) (h : s.lookup.keys.Nodup) :
    (run ops s).lookup.keys.Nodup := by
  induction ops generalizing s with
  | nil => exact h
  | cons op ops ih => exact ih (step_lookup_nodup op h)

end Net
end Primo
