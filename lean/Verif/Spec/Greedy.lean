import Verif.Decision
import Verif.Spec.Rewrite

/-! # A program that fixes the most probable outcome of one variable after the other

The code of a user of `exact.py` who looks for a probable instantiation of several variables; it calls
`VariableElimination.naive_marginals` (`exact.py:33-82`) and `Factor.get_potential` (`factor.py:543-582`)
only. -/

namespace Primo

/-- `for v in vs: r = naive_marginals(bn, [v], ev); x = (the first outcome of v with the largest
r.get_potential({v: [x]})); ev[v] = x`.  The variables are not in the evidence before, so that `ev[v] = x`
appends.  `Decision.pick` is the loop for the first maximum (`decision.py:166-174` has the same one); sets may
be iterated differently in each round, rounds are counted from `k`. -/
def VE.greedy (so : Nat → SetOrder) (bn : BN) (k : Nat) :
    List Name → Dict Evidence → Except PyErr (Dict Evidence)
  | [], ev => .ok ev
  | v :: vs, ev => do
    let r ← VE.naiveMarginals (so k) bn [v] ev
    let best ← Decision.pick r v (bn.lab v) none
    match best with
    | none => .error .keyError
    | some x => VE.greedy so bn (k + 1) vs (ev ++ [(v, .hard x)])

end Primo
