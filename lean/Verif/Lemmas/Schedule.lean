import Verif.Spec.Schedule
import Verif.Lemmas.RoundedTree
import Verif.Lemmas.TableRoom

/-! # `calculate_messages` as a list of messages -/

namespace Primo
open JoinTree Factor Finset

namespace JTree
open JRes

/-- the messages of a list, one after the other -/
def sendsR (A : Arith) (so : SetOrder) (l : List (Name × Name)) : JTree → JRes :=
  forEach (fun m => sendR A so m.1 m.2) l

theorem sendR_adj (A : Arith) (so : SetOrder) (a b : Name) (t : JTree) :
    (sendR A so a b t).1.adj = t.adj ∧ (sendR A so a b t).1.valid = t.valid := by
  unfold sendR
  cases h0 : t.nodes.getE a with
  | error x => exact ⟨rfl, rfl⟩
  | ok na =>
    rw [ok_bind]
    cases h1 : t.edge a b with
    | error x => exact ⟨rfl, rfl⟩
    | ok e =>
      rw [ok_bind]
      cases h2 : na.factor.marginalizeR A (so.diff na.vars e.sep) with
      | error x => exact ⟨rfl, rfl⟩
      | ok new =>
        rw [ok_bind]
        cases h3 : t.nodes.getE b with
        | error x => exact ⟨rfl, rfl⟩
        | ok nb =>
          rw [ok_bind]
          cases h4 : new.divR A so e.factor with
          | error x => exact ⟨rfl, rfl⟩
          | ok q =>
            rw [ok_bind]
            cases h5 : nb.factor.mulR A so q with
            | error x => exact ⟨rfl, rfl⟩
            | ok g => exact ⟨rfl, rfl⟩

theorem sendsR_adj (A : Arith) (so : SetOrder) (l : List (Name × Name)) (t : JTree) :
    (sendsR A so l t).1.adj = t.adj ∧ (sendsR A so l t).1.valid = t.valid := by
  refine forEach_inv (P := fun s : JTree => s.adj = t.adj ∧ s.valid = t.valid) l (fun m _ s hs => ?_) t
    ⟨rfl, rfl⟩
  have := sendR_adj A so m.1 m.2 s
  exact ⟨this.1.trans hs.1, this.2.trans hs.2⟩

theorem sendsR_append (A : Arith) (so : SetOrder) (l l' : List (Name × Name)) (t : JTree) :
    sendsR A so (l ++ l') t = (sendsR A so l t).andThen (sendsR A so l') := forEach_append _ _ _ _

theorem andThen_congr {r : JRes} {F G : JTree → JRes} (h : F r.1 = G r.1) : r.andThen F = r.andThen G := by
  unfold andThen
  cases r.2 with
  | none => exact h
  | some e => rfl

theorem andThen_assoc (r : JRes) (F G : JTree → JRes) :
    (r.andThen F).andThen G = r.andThen fun t => (F t).andThen G := by
  unfold andThen
  cases h : r.2 with
  | none => rfl
  | some e => simp only [h]

/-- how the stored graph relates to the forest -/
def Hangs (g : UGraph) (p nm : Name) (_ _ : List Name) (kids : Forest) : Prop :=
  nm ≠ "" ∧ (g.nbrs nm).filter (fun k => k ≠ p) = kids.tops

theorem pullR_sends (A : Arith) (so : SetOrder) (f : Forest) (d : Nat) (p : Name) (t : JTree)
    (hd : f.depth ≤ d) (hp : p ≠ "") (hf : f.All (Hangs t.adj) p) :
    forEach (fun nb t => pullR A so d nb (some p) t) f.tops t = sendsR A so (f.collect p) t := by
  induction f generalizing d p t with
  | nil => rfl
  | cons nm vars sep kids rest ihk ihr =>
    obtain ⟨⟨h1, h2⟩, hk, hr⟩ := hf
    simp only [Forest.depth] at hd
    obtain ⟨d', rfl⟩ : ∃ d', d = d' + 1 := ⟨d - 1, by omega⟩
    have hstep : pullR A so (d' + 1) nm (some p) t =
        (sendsR A so (kids.collect nm) t).andThen (sendR A so nm p) := by
      rw [pullR, forEach_skip (fun nb => some p = some nb), filter_parent, h2,
        ihk d' nm t (by omega) h1 hk]
      simp only [hp, if_false]
    rw [Forest.tops, Forest.collect, sendsR_append, forEach, hstep, andThen_assoc]
    refine andThen_congr ?_
    have hcons : ∀ s, sendsR A so ((nm, p) :: rest.collect p) s =
        (sendR A so nm p s).andThen (sendsR A so (rest.collect p)) := fun s => rfl
    rw [hcons]
    refine andThen_congr ?_
    refine ihr (d' + 1) p _ (by omega) hp ?_
    rw [(sendR_adj _ _ _ _ _).1, (sendsR_adj _ _ _ _).1]
    exact hr

theorem pushR_sends (A : Arith) (so : SetOrder) (f : Forest) (d : Nat) (p : Name) (t : JTree)
    (hd : f.depth ≤ d) (hf : f.All (Hangs t.adj) p) :
    forEach (fun nb t => (sendR A so p nb t).andThen (pushR A so d nb (some p))) f.tops t =
      sendsR A so (f.distribute p) t := by
  induction f generalizing d p t with
  | nil => rfl
  | cons nm vars sep kids rest ihk ihr =>
    obtain ⟨⟨h1, h2⟩, hk, hr⟩ := hf
    simp only [Forest.depth] at hd
    obtain ⟨d', rfl⟩ : ∃ d', d = d' + 1 := ⟨d - 1, by omega⟩
    rw [Forest.tops, Forest.distribute, forEach, sendsR, forEach]
    rw [andThen_assoc]
    refine andThen_congr ?_
    have ha := (sendR_adj A so p nm t).1
    generalize (sendR A so p nm t).1 = s at ha
    have hstep : pushR A so (d' + 1) nm (some p) s = sendsR A so (kids.distribute nm) s := by
      rw [pushR, forEach_skip (fun nb => some p = some nb), filter_parent, ha, h2,
        ihk d' nm s (by omega) (ha ▸ hk)]
    have := sendsR_append A so (kids.distribute nm) (rest.distribute p) s
    unfold sendsR at this hstep
    rw [this, hstep]
    refine andThen_congr ?_
    refine ihr (d' + 1) p _ (by omega) ?_
    have := (sendsR_adj A so (kids.distribute nm) s).1
    unfold sendsR at this
    rw [this, ha]
    exact hr

theorem Junction.hangs {t : JTree} {root : Name} {rvars : List Name} {kids : Forest}
    (h : t.Junction root rvars kids) : kids.All (Hangs t.adj) root :=
  h.fits.imp fun _ _ _ _ _ _ _ hq => ⟨hq.1, hq.2.2.2.1⟩

/-- `calculate_messages` sends the messages of the schedule -/
theorem calculateR_sends (A : Arith) (so : SetOrder) {limit : Nat} {t : JTree} {root : Name} {kids : Forest}
    (hfirst : t.nodes.keys.head? = some root) (hroot : root ≠ "") (hnbrs : t.adj.nbrs root = kids.tops)
    (hh : kids.All (Hangs t.adj) root) (hl : kids.depth < limit) :
    calculateR A so limit t =
      match (sendsR A so (kids.collect root ++ kids.distribute root) t).andThen
          (fun t => ({ t with valid := true }, none)) with
      | (t, some .indexError) => (t, none)
      | r => r := by
  unfold calculateR
  obtain ⟨n, ns, hn⟩ : ∃ n ns, t.nodes = (root, n) :: ns := by
    cases h : t.nodes with
    | nil => rw [h] at hfirst; simp [Dict.keys] at hfirst
    | cons q ns =>
      rw [h] at hfirst
      obtain ⟨k, n⟩ := q
      simp only [Dict.keys, List.map_cons, List.head?_cons, Option.some.injEq] at hfirst
      exact ⟨n, ns, by rw [hfirst]⟩
  have key : (pullR A so limit root none t).andThen (pushR A so limit root none) =
      sendsR A so (kids.collect root ++ kids.distribute root) t := by
    obtain ⟨d, rfl⟩ : ∃ d, limit = d + 1 := ⟨limit - 1, by omega⟩
    rw [sendsR_append, pullR]
    simp only [reduceCtorEq, if_false]
    rw [hnbrs, pullR_sends A so kids d root t (by omega) hroot hh]
    have h0 : ∀ r : JRes, r.andThen (fun t => (t, none)) = r := by
      intro r
      obtain ⟨a, o⟩ := r
      cases o <;> rfl
    rw [h0]
    refine andThen_congr ?_
    rw [pushR]
    simp only [reduceCtorEq, if_false]
    have ha := (sendsR_adj A so (kids.collect root) t).1
    generalize (sendsR A so (kids.collect root) t).1 = s at ha
    rw [ha, hnbrs]
    exact pushR_sends A so kids d root s (by omega) (ha ▸ hh)
  rw [hn]
  dsimp only
  rw [key]
  rfl

end JTree
end Primo
