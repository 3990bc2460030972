import Verif.Exact

/-! # Specification vocabulary: several queries with the same elimination order -/

namespace Primo

/-- a call of `bucket_marginals`; the set iteration order may differ from call to call -/
structure Request where
  sets : SetOrder
  vars : List Name
  evidence : Dict Evidence

/-- Calls of `bucket_marginals` one after the other, all with the same list object as `order`: what each
call returns or raises. -/
def answers (bn : BN) : List Name → List Request → List (Except PyErr Factor)
  | _, [] => []
  | order, q :: qs =>
    (VE.bucketMarginalsIn q.sets bn q.vars q.evidence order).2 ::
      answers bn (VE.bucketMarginalsIn q.sets bn q.vars q.evidence order).1 qs

end Primo
