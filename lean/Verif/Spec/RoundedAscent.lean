import Verif.Spec.RoundedDecision
import Verif.RoundedDecision

/-! # The program of `Verif/Spec/Ascent.lean` with rounded arithmetic -/

namespace Primo

/-- `Decision.ascend` with rounded arithmetic: `for v in vs: x = vi.get_optimal_decisions([v])[v];
vi.expected_utility({v: x})` -/
def Decision.ascendR (A : Arith) (so : Nat → SetOrder) (sps : Nat → Nat → SetPerm) (sp : Nat → SetPerm) (k : Nat) :
    List Name → BN → BN × Except PyErr Unit
  | [], dn => (dn, .ok ())
  | v :: vs, dn =>
    match Decision.getOptimalDecisionsR A (so k) (sps k) dn [v] none with
    | (dn₁, .ok [(_, some x)]) =>
      match Decision.expectedUtilityR A (so k) (sp k) dn₁ (some [(v, x)]) with
      | (dn₂, .ok _) => ascendR A so sps sp (k + 1) vs dn₂
      | (dn₂, .error e) => (dn₂, .error e)
    | (dn₁, .ok _) => (dn₁, .error .keyError)
    | (dn₁, .error e) => (dn₁, .error e)

end Primo
