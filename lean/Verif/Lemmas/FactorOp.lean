import Verif.Spec.Sum
import Verif.Lemmas.Py
import Verif.Lemmas.NDArray

/-! # The numpy pipeline of `__mul__` / `__add__` is pointwise -/

namespace Primo

theorem inRange_map {l : List Name} {c σ : Name → Nat} :
    InRange (l.map c) (l.map σ) ↔ ∀ v ∈ l, σ v < c v := by
  induction l with
  | nil => simp [InRange]
  | cons a l ih =>
    simp only [InRange, List.map_cons, List.forall₂_cons, List.forall_mem_cons]
    rw [← ih]; rfl

theorem bc_map {l : List Name} {c1 c2 c : Name → Nat}
    (h : ∀ v ∈ l, (c1 v = c v ∧ c2 v = c v) ∨ (c1 v = 1 ∧ c2 v = c v) ∨ (c1 v = c v ∧ c2 v = 1)) :
    NDArray.BC (l.map c1) (l.map c2) (l.map c) := by
  induction l with
  | nil => exact .nil
  | cons a l ih =>
    have ih := ih fun v hv => h v (by simp [hv])
    simp only [List.map_cons]
    rcases h a (by simp) with ⟨h1, h2⟩ | ⟨h1, h2⟩ | ⟨h1, h2⟩ <;> rw [h1, h2]
    · exact .eq ih
    · exact .left ih
    · exact .right ih

theorem bidx_map (l : List Name) (c σ : Name → Nat) :
    NDArray.bidx (l.map c) (l.map σ) = l.map fun v => if c v = 1 then 0 else σ v := by
  rw [NDArray.bidx_of_length (by simp)]
  induction l with
  | nil => rfl
  | cons a l ih => simp [ih]

theorem transpose_map {a : NDArray} {l m : List Name} {c : Name → Nat} (hl : l.Nodup)
    (hp : m.Perm l) (hs : a.shape = l.map c) :
    ∃ r, a.transpose (m.map fun v => l.idxOf v) = .ok r ∧ r.shape = m.map c ∧
      ∀ σ : Assign, (∀ v ∈ m, σ v < c v) → r.get (m.map σ) = a.get (l.map σ) := by
  have hm : m.Nodup := hp.nodup_iff.2 hl
  have hlen : a.ndim = l.length := by simp [NDArray.ndim, hs]
  have hinj : ∀ x ∈ m, ∀ y ∈ m, l.idxOf x = l.idxOf y → x = y := by
    intro x hx y hy h
    have := congrArg (fun i => l[i]?) h
    have hxl := hp.mem_iff.1 hx
    have hyl := hp.mem_iff.1 hy
    simpa [List.getElem?_idxOf hxl, List.getElem?_idxOf hyl] using this
  have hnd : (m.map fun v => l.idxOf v).Nodup := List.Nodup.map_on hinj hm
  have hlt : ∀ x ∈ m.map (fun v => l.idxOf v), x < a.ndim := by
    intro x hx
    obtain ⟨v, hv, rfl⟩ := List.mem_map.1 hx
    rw [hlen]; exact List.idxOf_lt_length_of_mem (hp.mem_iff.1 hv)
  have hshape : (m.map fun v => l.idxOf v).map (fun ax => a.shape.getD ax 0) = m.map c := by
    rw [List.map_map]
    apply List.map_congr_left
    intro v hv
    have hvl := hp.mem_iff.1 hv
    simp [hs, List.getElem?_map, List.getElem?_idxOf hvl]
  refine ⟨_, by rw [NDArray.transpose, if_pos ⟨hnd, by simp [hlen, hp.length_eq], hlt⟩], ?_, ?_⟩
  · exact hshape
  · intro σ hσ
    rw [NDArray.get_tabulate _ (by rw [hshape]; exact inRange_map.2 hσ)]
    · congr 1
      clear hσ
      apply List.ext_getElem?
      intro i
      by_cases hi : i < l.length
      · have hv : l[i] ∈ m := hp.mem_iff.2 (List.getElem_mem hi)
        have hidx : (m.map fun v => l.idxOf v).idxOf i = m.idxOf l[i] := by
          have h1 : i = (fun v => l.idxOf v) l[i] := (hl.idxOf_getElem i hi).symm
          conv_lhs => rw [h1]
          clear h1
          generalize l[i] = v at hv
          clear hm hlt hshape hnd hp
          induction m with
          | nil => simp at hv
          | cons b m ih =>
            by_cases hb : b = v
            · subst hb; simp
            · have hne : ¬ l.idxOf b = l.idxOf v := fun e =>
                hb (hinj b (by simp) v hv e)
              have hv' : v ∈ m := by simpa [fun e : v = b => hb e.symm, Ne.symm hb] using hv
              simp only [List.map_cons]
              rw [List.idxOf_cons_ne _ hne, List.idxOf_cons_ne _ hb,
                ih (fun x hx y hy => hinj x (by simp [hx]) y (by simp [hy])) hv']
        simp [hlen, hi, hidx, List.getElem?_idxOf hv]
      · simp [hlen, hi]

theorem foldlM_setValues {d0 : Dict (List Val)} {src : Dict (List Val)} {l : List Name}
    (hl : l.Nodup) (hd : ∀ v ∈ l, v ∉ d0.keys) (hs : ∀ v ∈ l, v ∈ src.keys) :
    ∃ d, l.foldlM (fun d v => do
        let vs ← src.getE v
        return Dict.set d v vs) d0 = (.ok d : Except PyErr (Dict (List Val))) ∧
      d.keys = d0.keys ++ l ∧
      ∀ k, d.get? k = if k ∈ l then src.get? k else d0.get? k := by
  induction l generalizing d0 with
  | nil => exact ⟨d0, rfl, by simp, by simp⟩
  | cons v l ih =>
    obtain ⟨vs, hvs⟩ := Dict.get?_isSome.2 (hs v (by simp))
    have hnd := List.nodup_cons.1 hl
    obtain ⟨d, h1, h2, h3⟩ := ih (d0 := d0.set v vs) hnd.2
      (by
        intro u hu h
        rcases Dict.mem_keys_set.1 h with h | h
        · exact hnd.1 (h ▸ hu)
        · exact hd u (by simp [hu]) h)
      (fun u hu => hs u (by simp [hu]))
    refine ⟨d, ?_, ?_, ?_⟩
    · rw [List.foldlM_cons]
      rw [Dict.getE_ok hvs]; exact h1
    · rw [h2, Dict.keys_set_of_not_mem _ (hd v (by simp))]; simp
    · intro k
      rw [h3, Dict.get?_set]
      by_cases hk : k ∈ l
      · simp [hk]
      · by_cases hv : v = k
        · subst hv; simp [hk, hvs]
        · simp [hk, hv, Ne.symm hv]

/-- newaxis on a table whose axes are the variables `l`: axes of length one for `extra` -/
theorem newaxes_map {a : NDArray} {l extra : List Name} {c c' : Name → Nat} (hs : a.shape = l.map c)
    (hc : ∀ v ∈ l, c' v = c v) (he : ∀ v ∈ extra, c' v = 1) :
    ∃ r, Factor.padAxes a l.length extra.length = .ok r ∧ r.shape = (l ++ extra).map c' ∧
      ∀ σ : Assign, (∀ v ∈ l ++ extra, σ v < c' v) →
        r.get ((l ++ extra).map σ) = a.get (l.map σ) := by
  by_cases h : extra = []
  · subst h
    refine ⟨a, by simp [Factor.padAxes], ?_, by simp⟩
    simp only [List.append_nil, hs]
    exact List.map_congr_left fun v hv => (hc v hv).symm
  · have hlen : a.ndim = l.length := by simp [NDArray.ndim, hs]
    have hsh : a.shape ++ List.replicate extra.length 1 = (l ++ extra).map c' := by
      rw [List.map_append, hs]
      congr 1
      · exact List.map_congr_left fun v hv => (hc v hv).symm
      · symm
        refine List.eq_replicate_iff.2 ⟨by simp, fun b hb => ?_⟩
        obtain ⟨v, hv, rfl⟩ := List.mem_map.1 hb
        exact he v hv
    refine ⟨_, by
      rw [Factor.padAxes, if_neg (by simpa using h), ← hlen, NDArray.newaxes_end], hsh, ?_⟩
    intro σ hσ
    rw [NDArray.get_tabulate]
    · congr 1
      rw [hlen]
      simp
    · rw [hsh]; exact inRange_map.2 hσ

namespace Factor

theorem WF.mem_keys {card : Name → Nat} {f : Factor} (h : f.WF card) {v : Name} :
    v ∈ f.values.keys ↔ v ∈ f.variableOrder := h.keys.mem_iff

theorem WF.contains_iff {card : Name → Nat} {f : Factor} (h : f.WF card) {v : Name} :
    f.contains v = true ↔ v ∈ f.variableOrder := by simp [contains, h.mem_keys]

theorem WF.get?_none {card : Name → Nat} {f : Factor} (h : f.WF card) {v : Name}
    (hv : v ∉ f.variableOrder) : f.values.get? v = none :=
  Dict.get?_eq_none.2 fun hk => hv (h.mem_keys.1 hk)

theorem eval_congr {f : Factor} {σ τ : Assign} (h : ∀ v ∈ f.variableOrder, σ v = τ v) :
    f.eval σ = f.eval τ := by
  unfold eval; rw [List.map_congr_left h]

/-- The result of `__mul__`/`__add__` on compatible well-formed factors. -/
theorem binop_spec (op : ℚ → ℚ → ℚ) (so : SetOrder) {card : Name → Nat} {f g : Factor}
    (hf : f.WF card) (hg : g.WF card) :
    ∃ r, f.binop op so g = .ok r ∧ r.WF card ∧
      (∀ v, v ∈ r.variableOrder ↔ v ∈ f.variableOrder ∨ v ∈ g.variableOrder) ∧
      f.variableOrder <+: r.variableOrder ∧
      (∀ v, r.values.get? v = (f.values.get? v).or (g.values.get? v)) ∧
      (∀ σ, Legal card r.variableOrder σ → r.eval σ = op (f.eval σ) (g.eval σ)) := by
  by_cases hf0 : f.variableOrder.length = 0
  · have hfn : f.variableOrder = [] := List.length_eq_zero_iff.1 hf0
    have hfs : f.potentials.shape = [] := by rw [hf.shape, hfn]; rfl
    have hfk : f.values = [] := by
      have := hf.keys; rw [hfn] at this
      have := List.Perm.eq_nil this
      simpa [Dict.keys] using this
    refine ⟨_, by rw [binop, if_pos hf0, NDArray.bop, hfs, NDArray.bshape_nil_left]; simp; rfl, ?_⟩
    refine ⟨⟨hg.nodup, hg.keys, hg.labels, hg.shape⟩, ?_, ?_, ?_, ?_⟩
    · simp [hfn]
    · simp [hfn]
    · intro v; simp [hfk, Dict.get?]
    · intro σ hσ
      simp only [eval]
      have hr : InRange g.potentials.shape (g.variableOrder.map σ) := by
        rw [hg.shape]; exact inRange_map.2 hσ
      rw [NDArray.get_tabulate _ hr, NDArray.bidx_nil, NDArray.bidx_self hr, hfn]; rfl
  by_cases hg0 : g.variableOrder.length = 0
  · have hgn : g.variableOrder = [] := List.length_eq_zero_iff.1 hg0
    have hgs : g.potentials.shape = [] := by rw [hg.shape, hgn]; rfl
    have hgk : g.values = [] := by
      have := hg.keys; rw [hgn] at this
      have := List.Perm.eq_nil this
      simpa [Dict.keys] using this
    refine ⟨_, by
      rw [binop, if_neg hf0, if_pos hg0, NDArray.bop, hgs, NDArray.bshape_nil_right]; simp; rfl, ?_⟩
    refine ⟨⟨hf.nodup, hf.keys, hf.labels, hf.shape⟩, ?_, ?_, ?_, ?_⟩
    · simp [hgn]
    · simp
    · intro v; simp [hgk, Dict.get?]
    · intro σ hσ
      simp only [eval]
      have hr : InRange f.potentials.shape (f.variableOrder.map σ) := by
        rw [hf.shape]; exact inRange_map.2 hσ
      rw [NDArray.get_tabulate _ hr, NDArray.bidx_nil, NDArray.bidx_self hr, hgn]; rfl
  -- the general case
  set extra := so.diff g.variableOrder f.variableOrder with hextra
  set resOrder := f.variableOrder ++ extra with hres
  set extra2 := so.diff resOrder g.variableOrder with hextra2
  set f2Order := g.variableOrder ++ extra2 with hf2
  have hresNd : resOrder.Nodup := so.nodup_append hf.nodup
  have hf2Nd : f2Order.Nodup := so.nodup_append hg.nodup
  have hmemExtra : ∀ v, v ∈ extra ↔ v ∈ g.variableOrder ∧ v ∉ f.variableOrder := fun v => so.mem _ _ _
  have hmemRes : ∀ v, v ∈ resOrder ↔ v ∈ f.variableOrder ∨ v ∈ g.variableOrder := by
    intro v
    rw [hres, List.mem_append, hmemExtra]
    by_cases hv : v ∈ f.variableOrder <;> simp [hv]
  have hmemF2 : ∀ v, v ∈ f2Order ↔ v ∈ resOrder := by
    intro v
    rw [hf2, List.mem_append, hextra2, so.mem]
    by_cases hv : v ∈ g.variableOrder
    · simp [hv, hmemRes]
    · simp [hv]
  have hperm : resOrder.Perm f2Order := (List.perm_ext_iff_of_nodup hresNd hf2Nd).2
    fun v => (hmemF2 v).symm
  let c1 : Name → Nat := fun v => if v ∈ f.variableOrder then card v else 1
  let c2 : Name → Nat := fun v => if v ∈ g.variableOrder then card v else 1
  obtain ⟨p1, hp1, hp1s, hp1g⟩ := newaxes_map (extra := extra) (c' := c1) hf.shape
    (fun v hv => by simp [c1, hv]) (fun v hv => by simp [c1, ((hmemExtra v).1 hv).2])
  obtain ⟨p2, hp2, hp2s, hp2g⟩ := newaxes_map (extra := extra2) (c' := c2) hg.shape
    (fun v hv => by simp [c2, hv]) (fun v hv => by simp [c2, ((so.mem _ _ _).1 hv).2])
  obtain ⟨vals, hv1, hv2, hv3⟩ := foldlM_setValues (d0 := f.values) (src := g.values) (l := extra)
    (so.nodup _ _) (fun v hv hk => ((hmemExtra v).1 hv).2 (hf.mem_keys.1 hk))
    (fun v hv => hg.mem_keys.2 ((hmemExtra v).1 hv).1)
  have hswap : resOrder.mapM (fun v => pyIndex f2Order v) =
      .ok (resOrder.map fun v => f2Order.idxOf v) :=
    mapM_ok fun v hv => pyIndex_ok ((hmemF2 v).2 hv)
  obtain ⟨p3, hp3, hp3s, hp3g⟩ := transpose_map hf2Nd hperm hp2s
  have hbc : NDArray.bshape p1.shape p3.shape = some (resOrder.map card) := by
    rw [hp1s, hp3s]
    apply NDArray.BC.bshape
    apply bc_map
    intro v hv
    simp only [c1, c2]
    rcases (hmemRes v).1 hv with h | h <;> simp only [h, if_true]
    · by_cases h' : v ∈ g.variableOrder <;> simp [h']
    · by_cases h' : v ∈ f.variableOrder <;> simp [h']
  refine ⟨⟨NDArray.tabulate (resOrder.map card) fun idx =>
      op (p1.get (NDArray.bidx p1.shape idx)) (p3.get (NDArray.bidx p3.shape idx)),
      resOrder, vals⟩, ?_, ?_, ?_, ?_, ?_, ?_⟩
  · rw [binop, if_neg hf0, if_neg hg0]
    simp only [← hextra, ← hres, ← hextra2, ← hf2]
    rw [hp1, ok_bind, hv1, ok_bind, hp2, ok_bind, hswap, ok_bind, hp3, ok_bind, NDArray.bop, hbc]
    rfl
  · refine ⟨hresNd, ?_, ?_, rfl⟩
    · rw [hv2]; exact hf.keys.append_right _
    · intro v hv
      simp only at hv ⊢
      rw [hv3]
      by_cases he : v ∈ extra
      · simp only [he, if_true]; exact hg.labels v ((hmemExtra v).1 he).1
      · simp only [he, if_false]
        rcases List.mem_append.1 hv with h | h
        · exact hf.labels v h
        · exact absurd h he
  · exact hmemRes
  · exact ⟨extra, rfl⟩
  · intro v
    simp only [hv3]
    by_cases he : v ∈ extra
    · simp [he, hf.get?_none ((hmemExtra v).1 he).2]
    · simp only [he, if_false]
      by_cases hvf : v ∈ f.variableOrder
      · obtain ⟨vs, hvs, _⟩ := hf.labels v hvf
        simp [hvs]
      · have hvg : v ∉ g.variableOrder := fun h => he ((hmemExtra v).2 ⟨h, hvf⟩)
        simp [hf.get?_none hvf, hg.get?_none hvg]
  · intro σ hσ
    have hleg : ∀ v ∈ resOrder, σ v < card v := hσ
    simp only [eval]
    rw [NDArray.get_tabulate _ (inRange_map.2 hleg), hp1s, hp3s, bidx_map, bidx_map]
    have e1 : p1.get (resOrder.map fun v => if c1 v = 1 then 0 else σ v) =
        f.potentials.get (f.variableOrder.map σ) := by
      rw [hp1g]
      · congr 1
        apply List.map_congr_left
        intro v hv
        have := hleg v ((hmemRes v).2 (Or.inl hv))
        simp only [c1, hv, if_true]
        split <;> omega
      · intro v hv
        have := hleg v hv
        by_cases h1 : c1 v = 1
        · simp [h1]
        · simp only [h1, if_false]
          have hvf : v ∈ f.variableOrder := by
            by_contra hn; exact h1 (by simp [c1, hn])
          simp only [c1, hvf, if_true]; exact this
    have e2 : p3.get (resOrder.map fun v => if c2 v = 1 then 0 else σ v) =
        g.potentials.get (g.variableOrder.map σ) := by
      have hlt : ∀ v ∈ resOrder, (if c2 v = 1 then 0 else σ v) < c2 v := by
        intro v hv
        have := hleg v hv
        by_cases h1 : c2 v = 1
        · simp [h1]
        · simp only [h1, if_false]
          have hvg : v ∈ g.variableOrder := by
            by_contra hn; exact h1 (by simp [c2, hn])
          simp only [c2, hvg, if_true]; exact this
      rw [hp3g _ hlt, hp2g _ (fun v hv => hlt v ((hmemF2 v).1 hv))]
      congr 1
      apply List.map_congr_left
      intro v hv
      have := hleg v ((hmemRes v).2 (Or.inr hv))
      simp only [c2, hv, if_true]
      split <;> omega
    rw [e1, e2]

end Factor
end Primo
