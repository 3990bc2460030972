import Verif.Sampling
import Verif.Exact
import Verif.Spec.Rewrite

/-! # A program that draws from the posterior, one variable after the other

The code of a user of `exact.py` who needs samples given evidence; it calls
`VariableElimination.naive_marginals` (`exact.py:33-82`) and `Factor.get_potential` (`factor.py:543-582`), and
draws with the loop of `DiscreteNode.sample_value` (`nodes.py:384-390`). -/

namespace Primo

/-- `[float(r.get_potential({v: [x]})) for x in xs]`; `float` of an array with another number of entries than
one raises `TypeError` -/
def Factor.column (r : Factor) (v : Name) (xs : List Val) : Except PyErr (List ℚ) :=
  xs.mapM fun x => do
    let a ← r.getPotential [(v, [x])]
    match a.data with
    | [p] => .ok p
    | _ => .error .typeError

/-- `r = naive_marginals(bn, [v], ev)`, and its entries -/
def VE.column (so : SetOrder) (bn : BN) (v : Name) (ev : Dict Evidence) : Except PyErr (List ℚ) := do
  let r ← VE.naiveMarginals so bn [v] ev
  r.column v (bn.lab v)

/-- `for v in vs: ev[v] = (an outcome drawn with the entries of naive_marginals(bn, [v], ev) as weights)`.  The
variables are not in the evidence before, so that `ev[v] = x` appends; sets may be iterated differently in each
round, rounds are counted from `k`.  (Storing `None` is reported as the pseudo error `noneValue`.) -/
noncomputable def VE.draw (so : Nat → SetOrder) (bn : BN) (k : Nat) :
    List Name → Dict Evidence → Rand (Except PyErr (Dict Evidence))
  | [], ev => .pure (.ok ev)
  | v :: vs, ev => Rand.andThen (.lift (VE.column (so k) bn v ev)) fun ws =>
      .uniform fun u => match roulette ((bn.lab v).zip ws) 0 (u * (ws.sum : ℚ)) with
        | none => .pure (.error .noneValue)
        | some x => VE.draw so bn (k + 1) vs (ev ++ [(v, .hard x)])

end Primo
