import Verif.Lemmas.CreateAny
import Verif.Spec.Dynamic

/-! # The structure of a network without its tables, and what depends on nothing else -/

namespace Primo
open JoinTree

namespace BN

theorem names_bare (bn : BN) : bn.bare.names = bn.names := by
  simp [names, bare, Function.comp_def]

theorem length_bare (bn : BN) : bn.bare.length = bn.length := by simp [bare]

theorem lab_bare (bn : BN) : bn.bare.lab = bn.lab := by
  funext v
  unfold lab bare
  rw [List.find?_map]
  simp only [Function.comp_def]
  cases bn.find? fun n => decide (n.name = v) <;> rfl

theorem toUndirected_bare (bn : BN) : bn.bare.toUndirected = bn.toUndirected := by
  unfold toUndirected
  rw [names_bare]
  unfold bare
  rw [List.foldl_map]

theorem moralGraph_bare (bn : BN) : moralGraph bn.bare = moralGraph bn := by
  unfold moralGraph
  rw [toUndirected_bare]
  unfold bare
  rw [List.foldl_map]

theorem chooseOrder_bare (bn : BN) (o : Option (List Name)) :
    VE.chooseOrder bn.bare o = VE.chooseOrder bn o := by
  have : Orderer.minDegreeOrder bn.bare = Orderer.minDegreeOrder bn := by
    unfold Orderer.minDegreeOrder
    rw [names_bare, toUndirected_bare]
  rcases o with _ | _ | ⟨v, vs⟩
  · exact this
  · exact this
  · rfl

end BN

namespace JoinTree

/-- the tree that `create_jointree` builds before the tables are entered -/
def plan (bn : BN) (o : Option (List Name)) : Except PyErr JTree := do
  let order ← VE.chooseOrder bn o
  let cls ← clusters order (moralGraph bn)
  let cls ← (swaps cls).foldlM applySwap cls
  return build cls

theorem plan_bare (bn : BN) (o : Option (List Name)) : plan bn.bare o = plan bn o := by
  unfold plan
  rw [BN.chooseOrder_bare, BN.moralGraph_bare]

theorem plan_congr {bn bn' : BN} (h : bn.bare = bn'.bare) (o : Option (List Name)) :
    plan bn o = plan bn' o := by
  rw [← plan_bare bn, h, plan_bare]

theorem plan_of_create {so : SetOrder} {bn : BN} {o : Option (List Name)} {t : JTree}
    (h : create so bn o = .ok t) : ∃ p, plan bn o = .ok p ∧ t.shape = p.shape := by
  unfold create at h
  unfold plan
  cases h1 : VE.chooseOrder bn o with
  | error e => rw [h1] at h; cases h
  | ok order =>
  rw [h1, ok_bind] at h
  cases h2 : bn.mapM Factor.fromNode with
  | error e => rw [h2] at h; cases h
  | ok fs =>
  rw [h2, ok_bind] at h
  rw [ok_bind]
  cases h3 : clusters order (moralGraph bn) with
  | error e => rw [h3] at h; cases h
  | ok L =>
  rw [h3, ok_bind] at h
  rw [ok_bind]
  cases h4 : (swaps L).foldlM applySwap L with
  | error e => rw [h4] at h; cases h
  | ok L' =>
  rw [h4, ok_bind] at h
  rw [ok_bind]
  refine ⟨build L', rfl, ?_⟩
  have := JTree.forEach_inv (P := fun t' => t'.shape = (build L').shape) fs
    (fun x _ t' ht => (JTree.putFactor_shape so x t').trans ht) _ rfl
  cases h5 : JRes.forEach (putFactor so) fs (build L') with
  | mk t0 o =>
  rw [h5] at h this
  cases o with
  | some e => cases h
  | none =>
    dsimp only at h
    injection h with h
    rw [← h]
    exact this

/-- a tree of the right shape that can be reset could have been created anew -/
theorem create_of_reset {so : SetOrder} {bn : BN} {o : Option (List Name)} {p t t' : JTree}
    (hp : plan bn o = .ok p) (hs : t.shape = p.shape) (hr : t.reset so bn = (t', none)) :
    create so bn o = .ok t' := by
  unfold plan at hp
  unfold create
  cases h1 : VE.chooseOrder bn o with
  | error e => rw [h1] at hp; cases hp
  | ok order =>
  rw [h1, ok_bind] at hp
  rw [ok_bind]
  cases h3 : clusters order (moralGraph bn) with
  | error e => rw [h3] at hp; cases hp
  | ok L =>
  rw [h3, ok_bind] at hp
  cases h4 : (swaps L).foldlM applySwap L with
  | error e => rw [h4] at hp; cases hp
  | ok L' =>
  rw [h4, ok_bind] at hp
  injection hp with hp
  subst hp
  have hr2 : (build L').reset so bn = (t', none) := by
    obtain ⟨e1, e2⟩ := JTree.reset_eq so bn (t := t) (t' := build L') hs.symm
    rw [hr] at e1 e2
    exact Prod.ext (e2 rfl) e1
  cases h2 : bn.mapM Factor.fromNode with
  | error e =>
    unfold JTree.reset at hr2
    rw [h2] at hr2
    cases hr2
  | ok fs =>
    rw [ok_bind, ok_bind, h4, ok_bind]
    unfold JTree.reset at hr2
    rw [h2] at hr2
    dsimp only at hr2
    have hb : (build L').blank = build L' := build_blank L'
    rw [hb] at hr2
    cases h5 : JRes.forEach (putFactor so) fs (build L') with
    | mk t0 o =>
    rw [h5] at hr2
    cases o with
    | some e => cases hr2
    | none =>
      have hval : t0.valid = false := by
        have := JTree.forEach_inv (P := fun t' => t'.valid = false) (f := putFactor so) fs
          (fun x _ t' ht => by
            unfold putFactor
            cases putFirst so (fun vars => sub x.values.keys vars) x t'.nodes <;> exact ht) _
          (build_valid L')
        rw [h5] at this; exact this
      rw [JTree.andThen_none rfl] at hr2
      injection hr2 with hr2
      rw [← hr2]
      dsimp only
      rw [← hval]
      rfl

end JoinTree
end Primo
