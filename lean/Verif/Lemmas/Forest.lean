import Verif.Spec.Forest
import Verif.Lemmas.Sum

/-! # Sum-product on a clique tree with running intersection (no code involved) -/

namespace Primo
open Finset

theorem DependsOn.const (A : Finset Name) (c : ℚ) : DependsOn A fun _ => c := fun _ _ _ => rfl

theorem DependsOn.sumOver' {A s : Finset Name} {card : Name → Nat} {F : Assign → ℚ}
    (h : DependsOn A F) : DependsOn A (Primo.sumOver card s F) := h.sumOver.mono sdiff_subset

/-- product of two sums over disjoint sets of variables -/
theorem sumOver_mul_sumOver {card : Name → Nat} {s t A B : Finset Name} {F G : Assign → ℚ}
    (hF : DependsOn A F) (hG : DependsOn B G) (hst : Disjoint s t) (hA : Disjoint A t)
    (hB : Disjoint B s) (σ : Assign) :
    sumOver card s F σ * sumOver card t G σ = sumOver card (s ∪ t) (fun τ => F τ * G τ) σ := by
  rw [sumOver_union hst]
  rw [← sumOver_mul_right (G := sumOver card t G) hG.sumOver' hB]
  exact sumOver_congr fun τ _ => (sumOver_mul_left hF hA G τ).symm

namespace Forest
variable {card : Name → Nat} {φ : Name → Assign → ℚ}

/-- product of the clique potentials -/
def prod (φ : Name → Assign → ℚ) : Forest → Assign → ℚ
  | nil, _ => 1
  | cons nm _ _ kids rest, σ => φ nm σ * kids.prod φ σ * rest.prod φ σ

/-- product of the messages of the roots -/
def msgs (card : Name → Nat) (φ : Name → Assign → ℚ) : Forest → Assign → ℚ
  | nil, _ => 1
  | cons nm vars sep kids rest, σ =>
    sumOver card (vars.toFinset \ sep.toFinset) (fun τ => φ nm τ * kids.msgs card φ τ) σ *
      rest.msgs card φ σ

/-- every clique potential depends on the clique's variables only -/
def Dep (φ : Name → Assign → ℚ) : Forest → Prop
  | nil => True
  | cons nm vars _ kids rest => DependsOn vars.toFinset (φ nm) ∧ Dep φ kids ∧ Dep φ rest

theorem prod_dependsOn {f : Forest} (h : f.Dep φ) : DependsOn f.scope (f.prod φ) := by
  induction f with
  | nil => exact DependsOn.const _ _
  | cons nm vars sep kids rest ihk ihr =>
    obtain ⟨h1, h2, h3⟩ := h
    refine ((h1.mono ?_).mul ((ihk h2).mono ?_)).mul ((ihr h3).mono ?_)
    · intro x; simp +contextual [scope]
    · intro x; simp +contextual [scope]
    · intro x; simp +contextual [scope]

theorem RIP.mono {P W W' : Finset Name} {f : Forest} (h : f.RIP P W) (hW : W' ⊆ W) :
    f.RIP P W' := by
  induction f generalizing P W W' with
  | nil => trivial
  | cons nm vars sep kids rest ihk ihr =>
    obtain ⟨h1, h2, h3, h4⟩ := h
    refine ⟨?_, h2, ihk h3 ?_, ihr h4 ?_⟩
    · exact (inter_subset_inter_left (union_subset_union_left hW)).trans h1
    · exact union_subset_union_left (union_subset_union_left hW)
    · exact union_subset_union_left (union_subset_union_left hW)

/-- The messages of a forest are its marginal on the parent clique. -/
theorem msgs_eq {P W : Finset Name} {f : Forest} (hPW : P ⊆ W) (h : f.RIP P W) (hd : f.Dep φ)
    (σ : Assign) : f.msgs card φ σ = sumOver card (f.scope \ P) (f.prod φ) σ := by
  induction f generalizing P W σ with
  | nil => simp [msgs, scope, prod]
  | cons nm vars sep kids rest ihk ihr =>
    obtain ⟨h1, h2, h3, h4⟩ := h
    obtain ⟨d1, d2, d3⟩ := hd
    have e1 : sumOver card (vars.toFinset \ sep.toFinset) (fun τ => φ nm τ * kids.msgs card φ τ) σ
        = sumOver card ((vars.toFinset ∪ kids.scope) \ P) (fun τ => φ nm τ * kids.prod φ τ) σ := by
      have hset : (vars.toFinset ∪ kids.scope) \ P =
          (vars.toFinset \ sep.toFinset) ∪ (kids.scope \ vars.toFinset) := by
        ext x
        have a1 := @h1 x
        have a2 := @h2 x
        have a3 := @hPW x
        simp only [mem_inter, mem_union, mem_sdiff] at a1 a2 a3 ⊢
        tauto
      rw [hset, sumOver_union]
      · refine sumOver_congr fun τ _ => ?_
        rw [ihk subset_union_right h3 d2, sumOver_mul_left d1 disjoint_sdiff]
      · rw [disjoint_left]; intro x; simp +contextual
    have e2 := ihr (hPW.trans (by intro x; simp +contextual)) h4 d3 σ
    have dk : DependsOn (vars.toFinset ∪ kids.scope) fun τ => φ nm τ * kids.prod φ τ :=
      (d1.mono subset_union_left).mul ((prod_dependsOn d2).mono subset_union_right)
    rw [msgs, e1, e2, sumOver_mul_sumOver dk (prod_dependsOn d3)]
    · congr 1
      simp only [scope]
      rw [union_sdiff_distrib (_ ∪ _)]
    all_goals
      rw [disjoint_left]
      intro x
      have a1 := @h1 x
      have a2 := @h2 x
      simp only [mem_inter, mem_union, mem_sdiff] at a1 a2 ⊢
      tauto

/-- the clique factor after the inward pass -/
def belief (card : Name → Nat) (φ : Name → Assign → ℚ) (nm : Name) (kids : Forest) (σ : Assign) :
    ℚ := φ nm σ * kids.msgs card φ σ

theorem outward_sep {P W : Finset Name} {nm : Name} {vars sep : List Name} {kids rest : Forest}
    {Φ : Assign → ℚ} (hPW : P ⊆ W) (h : (cons nm vars sep kids rest).RIP P W) (τ : Assign) :
    sumOver card (P \ sep.toFinset)
      (sumOver card ((W ∪ (cons nm vars sep kids rest).scope) \ P) Φ) τ =
      sumOver card ((W ∪ (cons nm vars sep kids rest).scope) \ sep.toFinset) Φ τ := by
  obtain ⟨-, h2, -, -⟩ := h
  have hset : (W ∪ (cons nm vars sep kids rest).scope) \ sep.toFinset = (P \ sep.toFinset) ∪
      ((W ∪ (cons nm vars sep kids rest).scope) \ P) := by
    ext x
    have a2 := @h2 x
    have a3 := @hPW x
    simp only [mem_inter, mem_union, mem_sdiff] at a2 a3 ⊢
    tauto
  rw [hset, sumOver_union]
  rw [disjoint_left]; intro x; simp +contextual

/-- The outward step at the first root: with `B` the marginal of everything on the parent clique,
multiplying the clique factor by the quotient of the new and the old message gives the marginal of
everything on the clique, and the new message is the marginal on the separator. -/
theorem outward {P W : Finset Name} {nm : Name} {vars sep : List Name} {kids rest : Forest}
    {Ψ : Assign → ℚ} (hPW : P ⊆ W) (h : (cons nm vars sep kids rest).RIP P W)
    (hd : (cons nm vars sep kids rest).Dep φ) (hΨ : DependsOn W Ψ)
    (hφ : ∀ k τ, 0 ≤ φ k τ) (σ : Assign) (hσ : ∀ v ∈ vars, σ v < card v) :
    let Φ := fun τ => Ψ τ * (cons nm vars sep kids rest).prod φ τ
    let U := W ∪ (cons nm vars sep kids rest).scope
    let new := fun τ => sumOver card (P \ sep.toFinset) (sumOver card (U \ P) Φ) τ
    let old := sumOver card (vars.toFinset \ sep.toFinset) (belief card φ nm kids)
    (∀ τ, new τ = sumOver card (U \ sep.toFinset) Φ τ) ∧
    belief card φ nm kids σ * (new σ / old σ) = sumOver card (U \ vars.toFinset) Φ σ := by
  intro Φ U new old
  have hnew : ∀ τ, new τ = sumOver card (U \ sep.toFinset) Φ τ := outward_sep hPW h
  refine ⟨hnew, ?_⟩
  obtain ⟨h1, h2, h3, h4⟩ := h
  obtain ⟨d1, d2, d3⟩ := hd
  -- everything outside the subtree, and the subtree
  let Ψ' := fun τ => Ψ τ * rest.prod φ τ
  let S := fun τ => φ nm τ * kids.prod φ τ
  have hΨ' : DependsOn (W ∪ rest.scope) Ψ' :=
    (hΨ.mono subset_union_left).mul ((prod_dependsOn d3).mono subset_union_right)
  have hS : DependsOn (vars.toFinset ∪ kids.scope) S :=
    (d1.mono subset_union_left).mul ((prod_dependsOn d2).mono subset_union_right)
  have hΦ : Φ = fun τ => Ψ' τ * S τ := by
    funext τ; simp only [Φ, Ψ', S, prod]; ring
  have hbel : ∀ τ, belief card φ nm kids τ = sumOver card (kids.scope \ vars.toFinset) S τ := by
    intro τ
    rw [belief, msgs_eq subset_union_right h3 d2, ← sumOver_mul_left d1 disjoint_sdiff]
  have hold : ∀ τ, old τ = sumOver card ((vars.toFinset ∪ kids.scope) \ sep.toFinset) S τ := by
    intro τ
    have hset : (vars.toFinset ∪ kids.scope) \ sep.toFinset =
        (vars.toFinset \ sep.toFinset) ∪ (kids.scope \ vars.toFinset) := by
      ext x
      have a1 := @h1 x
      have a2 := @h2 x
      simp only [mem_inter, mem_union, mem_sdiff] at a1 a2 ⊢
      tauto
    simp only [old]
    rw [hset, sumOver_union]
    · exact sumOver_congr fun ρ _ => hbel ρ
    · rw [disjoint_left]; intro x; simp +contextual
  let T := sumOver card ((W ∪ rest.scope) \ sep.toFinset) Ψ'
  have hnew2 : ∀ τ, new τ = T τ * old τ := by
    intro τ
    rw [hnew, hold, sumOver_mul_sumOver hΨ' hS, hΦ]
    · congr 1
      simp only [U, scope]
      ext x; simp only [mem_union, mem_sdiff]; tauto
    all_goals
      rw [disjoint_left]
      intro x
      have a1 := @h1 x
      simp only [mem_inter, mem_union, mem_sdiff] at a1 ⊢
      tauto
  have htarget : sumOver card (U \ vars.toFinset) Φ σ = T σ * belief card φ nm kids σ := by
    rw [hbel, sumOver_mul_sumOver hΨ' hS, hΦ]
    · congr 1
      simp only [U, scope]
      ext x
      have a1 := @h1 x
      have a2 := @h2 x
      simp only [mem_inter, mem_union, mem_sdiff] at a1 a2 ⊢
      tauto
    all_goals
      rw [disjoint_left]
      intro x
      have a1 := @h1 x
      have a2 := @h2 x
      simp only [mem_inter, mem_union, mem_sdiff] at a1 a2 ⊢
      tauto
  rw [htarget, hnew2]
  by_cases h0 : old σ = 0
  · have hb0 : belief card φ nm kids σ = 0 := by
      have hk : ∀ (f : Forest) τ, 0 ≤ f.prod φ τ := by
        intro f
        induction f with
        | nil => intro τ; simp [prod]
        | cons nm _ _ _ _ i1 i2 => intro τ; exact mul_nonneg (mul_nonneg (hφ _ _) (i1 τ)) (i2 τ)
      refine eq_zero_of_sumOver_eq_zero (card := card) (s := vars.toFinset \ sep.toFinset) (σ := σ)
        (fun τ _ => ?_) h0 ⟨fun _ _ => rfl, fun v hv => hσ v ?_⟩
      · rw [hbel]; exact sumOver_nonneg fun ρ _ => mul_nonneg (hφ _ _) (hk _ _)
      · simp at hv; exact hv.1
    rw [hb0]; simp
  · rw [mul_div_assoc, div_self h0, mul_one, mul_comm]

end Forest
end Primo
