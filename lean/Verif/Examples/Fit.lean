import Verif.Props.Scale

/-! # Concrete cases for C74 and C75 -/

namespace Primo
namespace Ex

/-- evidence on `d` only -/
def evD : Dict Evidence := [("d", .hard "t")]

theorem legal_of {bn : BN} {ev : Dict Evidence} (h1 : ev.keys.Nodup) (h2 : ∀ p ∈ ev, p.1 ∈ bn.names)
    (h3 : ∀ p ∈ ev, match p.2 with | .hard x => x ∈ bn.lab p.1 | .soft l => l.length = bn.card p.1) :
    LegalEvidence bn ev :=
  ⟨h1, h2, fun v x h => h3 (v, .hard x) h, fun v l h => h3 (v, .soft l) h⟩

theorem nonneg_of {ev : Dict Evidence}
    (h : ∀ p ∈ ev, match p.2 with | .hard _ => True | .soft l => ∀ x ∈ l, 0 ≤ x) : NonNegEvidence ev :=
  fun v l hm => h (v, .soft l) hm

theorem evD_legal : LegalEvidence bn evD := legal_of (by decide) (by decide) (by simp [evD]; decide)
theorem evD_nonneg : NonNegEvidence evD := nonneg_of (by simp [evD])

/-- the answer of `naive_marginals` -/
def ask (Q : List Name) (e : Dict Evidence) : Except PyErr (List Name × List ℚ) :=
  (VE.naiveMarginals .insertion bn Q e).map fun r => (r.variableOrder, r.potentials.data)

-- P(a, b | d = t), P(b | a = t, d = t), P(a | d = t)
example : ask ["a", "b"] evD = .ok (["a", "b"], [12 / 467, 68 / 467, 0, 162 / 467, 225 / 467, 0]) ∧
    ask ["b"] (evD ++ [("a", .hard "t")]) = .ok (["b"], [3 / 20, 17 / 20, 0]) ∧
    ask ["a"] evD = .ok (["a"], [80 / 467, 387 / 467]) := by decide +kernel

section
variable {r r' k s : Factor}

-- summing `b` out of the answer about `a` and `b`
example (hr : ExactAnswer bn ev ["a", "b"] r) (hs : ExactAnswer bn ev ["a"] s) :=
  C74_marginalize bn_consistent bn_nonneg ev_legal ev_nonneg (vs := ["b"]) (by decide) (by decide) (by decide)
    (by intro v; simp only [List.mem_cons, List.not_mem_nil, or_false]; constructor
        · rintro rfl; decide
        · rintro ⟨rfl | rfl, h⟩
          · rfl
          · exact absurd rfl h) hr hs

-- soft evidence on `b` and a hard observation of `c`, entered after `d = t`
example (hr : ExactAnswer bn evD ["c", "a", "b"] r)
    (hr' : ExactAnswer bn (evD ++ [("b", .soft [1 / 2, 0, 2]), ("c", .hard "f")]) ["c", "a", "b"] r')
    (hk : ExactAnswer bn evD ["b", "c"] k) :=
  C74_update bn_consistent bn_nonneg (legal_of (by decide) (by decide) (by simp [evD]; decide))
    (nonneg_of (by simp [evD])) (by decide) (by decide) hr hr' hk

example (hr : ExactAnswer bn ev ["a", "c"] r) (hr' : ExactAnswer bn (ev ++ [("a", .hard "f")]) ["c"] r')
    (hk : ExactAnswer bn ev ["a"] k) :=
  C74_product_rule bn_consistent bn_nonneg (legal_of (by decide) (by decide) (by simp [ev]; decide)) ev_nonneg
    (by decide) (by decide) hr hr' hk

example (hr : ExactAnswer bn (ev ++ [("c", .hard "t")]) ["a"] r) (hr' : ExactAnswer bn ev ["c"] r')
    (hk : ExactAnswer bn (ev ++ [("a", .hard "f")]) ["c"] k) (hs : ExactAnswer bn ev ["a"] s) :=
  C74_bayes bn_consistent bn_nonneg (legal_of (by decide) (by decide) (by simp [ev]; decide))
    (legal_of (by decide) (by decide) (by simp [ev]; decide)) ev_nonneg (by decide) hr hr' hk hs

example {g : Val → Factor} (hr : ExactAnswer bn evD ["a", "c"] r) (hk : ExactAnswer bn evD ["b"] k)
    (hg : ∀ x ∈ bn.lab "b", ExactAnswer bn (evD ++ [("b", .hard x)]) ["a", "c"] (g x)) :=
  C74_total_probability bn_consistent bn_nonneg (by decide) (by decide) evD_legal evD_nonneg (by decide)
    (by decide) (by decide) hr hk hg

example (hr : ExactAnswer bn ev ["a"] r)
    (hr' : ExactAnswer bn [("b", .soft [1 / 2, 0, 2]), ("d", .hard "t")] ["a"] r') :=
  C74_evidence_order bn_consistent bn_nonneg ev_legal ev_nonneg (.swap _ _ _) (by decide) hr hr'

-- a factor 3 on `b`, an array for the hard observation of `d`, and an array without information on `a`
theorem scaled : SameUpToScale bn ev
    [("a", .soft [5, 5]), ("b", .soft [3 / 2, 0, 6]), ("d", .soft [7, 0])] := by
  intro v hv
  have : v = "d" ∨ v = "a" ∨ v = "b" ∨ v = "c" := by
    simpa [BN.names, bn, nd, na, nb, nc] using hv
  rcases this with rfl | rfl | rfl | rfl
  · exact ⟨7, by norm_num, by decide +kernel⟩
  · exact ⟨5, by norm_num, by decide +kernel⟩
  · exact ⟨3, by norm_num, by decide +kernel⟩
  · exact ⟨1, by norm_num, by decide +kernel⟩

example (hr : ExactAnswer bn ev ["a", "c"] r)
    (hr' : ExactAnswer bn [("a", .soft [5, 5]), ("b", .soft [3 / 2, 0, 6]), ("d", .soft [7, 0])] ["a", "c"] r') :=
  C75_scale bn_consistent bn_nonneg ev_legal ev_nonneg (legal_of (by decide) (by decide) (by simp; decide))
    (nonneg_of (by simp; norm_num)) scaled (by decide) hr hr'
end

-- both sides of C75_iff
example := (C75_iff bn_consistent ev_legal ev_nonneg (legal_of (by decide) (by decide) (by simp; decide))
  (nonneg_of (by simp; norm_num)) (by decide +kernel)).1 scaled
theorem not_scaled : ¬ SameUpToScale bn ev [("d", .hard "t"), ("b", .soft [1, 0, 2])] := by
  intro h
  obtain ⟨c, -, h1⟩ := h "b" (by decide)
  have h0 := h1 0 (by decide)
  have h2 := h1 2 (by decide)
  have e : likAt bn [("d", .hard "t"), ("b", .soft [1, 0, 2])] "b" 0 = 1 ∧
    likAt bn [("d", .hard "t"), ("b", .soft [1, 0, 2])] "b" 2 = 2 ∧
    likAt bn ev "b" 0 = 1 / 2 ∧ likAt bn ev "b" 2 = 2 := by decide +kernel
  rw [e.1, e.2.2.1] at h0
  rw [e.2.1, e.2.2.2] at h2
  linarith
example := fun h => not_scaled ((C75_iff bn_consistent ev_legal ev_nonneg
  (legal_of (by decide) (by decide) (by simp; decide)) (nonneg_of (by simp)) (by decide +kernel)).2 h)

example : SameUpToScale bn evD (evD ++ [("b", .soft [4, 4, 4])]) := C75_constant (v := "b") (c := 4) (by norm_num) (by decide)
example : SameUpToScale bn ([] ++ ("d", .hard "f") :: []) [("d", .soft [0, 2])] :=
  C75_one_hot (pre := []) (post := []) (v := "d") (x := "f") (c := 2) (by decide) (by decide) (by norm_num)

end Ex
end Primo
