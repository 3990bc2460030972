import Verif.Spec.Decision
import Verif.Decision

/-! # A program that optimises one decision after the other

The code of a user of `decision.py`; it calls the methods of `decision.py` only. -/

namespace Primo

/-- `for v in vs: x = vi.get_optimal_decisions([v])[v]; vi.expected_utility({v: x})`: each decision is
optimised given the current ones, and taken; sets may be iterated differently in each round, rounds are
counted from `k` -/
def Decision.ascend (so : Nat → SetOrder) (sps : Nat → Nat → SetPerm) (sp : Nat → SetPerm) (k : Nat) :
    List Name → BN → BN × Except PyErr Unit
  | [], dn => (dn, .ok ())
  | v :: vs, dn =>
    match Decision.getOptimalDecisions (so k) (sps k) dn [v] none with
    | (dn₁, .ok [(_, some x)]) =>
      match Decision.expectedUtility (so k) (sp k) dn₁ (some [(v, x)]) with
      | (dn₂, .ok _) => ascend so sps sp (k + 1) vs dn₂
      | (dn₂, .error e) => (dn₂, .error e)
    | (dn₁, .ok _) => (dn₁, .error .keyError)
    | (dn₁, .error e) => (dn₁, .error e)

end Primo
