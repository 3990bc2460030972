import Verif.Exact

/-! # What `bucket_marginals` keeps in memory while it runs -/

namespace Primo
namespace VE

/-- The buckets and the extra bucket `buckets[-1]` before iteration `i` of the loop that processes the
buckets : `exact.py:118-148`, and `exact.py:148-157` for the earlier iterations.  With
`i = len(order) - len(variables)` this is what the loop leaves (`bucketMarginals`). -/
def bucketsBefore (so : SetOrder) (bn : BN) (vars : List Name) (evidence : Dict Evidence)
    (order : Option (List Name)) (i : Nat) : Except PyErr (Buckets × Factor) := do
  let order ← chooseOrder bn order
  let order ← moveQuery order vars
  let factors ← order.mapM fun v => do
    let n ← bn.getNode v
    Factor.fromNode n
  let bs := order.map fun v => (v, Factor.trivial 1)
  let bs ← factors.foldlM (placeFactor so) bs
  let bs ← evidence.foldlM (placeEvidence so bn) bs
  process so i bs (Factor.trivial 1)

end VE
end Primo
