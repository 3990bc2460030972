import Verif.Order

/-!
# `VariableElimination` in `primo2/inference/exact.py`

`evidence=None` and `evidence={}` are both the empty dictionary here.
-/

namespace Primo
namespace VE

/-- lines 67-71: multiply in one node's table and, if there is any, its evidence. -/
def naiveStep (so : SetOrder) (bn : BN) (evidence : Dict Evidence) (res : Factor) (v : Name) :
    Except PyErr Factor := do
  let n ← bn.getNode v
  let f ← Factor.fromNode n
  let res ← res.mul so f
  match evidence.get? v with
  | some e => do
    let ef ← Factor.asEvidence v n.values e
    res.mul so ef
  | none => return res

/-- lines 75-77 -/
def naiveElim (vars : List Name) (res : Factor) (v : Name) : Except PyErr Factor :=
  if v ∈ vars then return res else res.marginalize [v]

/-- `naive_marginals` : `exact.py:33-82` -/
def naiveMarginals (so : SetOrder) (bn : BN) (vars : List Name) (evidence : Dict Evidence) :
    Except PyErr Factor := do
  let order := bn.names
  let res ← order.foldlM (naiveStep so bn evidence) (Factor.trivial 1)
  let res ← order.foldlM (naiveElim vars) res
  return res.normalize

/-- lines 124-127: move the query variables to the end of the order. -/
def moveQuery (order vars : List Name) : Except PyErr (List Name) :=
  vars.foldlM (fun o v => do
    let o ← pyRemove o v
    return o ++ [v]) order

/-- The buckets `0 .. len(order)-1` paired with their variable. -/
abbrev Buckets := List (Name × Factor)

/-- lines 137-140 and 151-154: multiply `f` into the first bucket whose variable it mentions;
`none` if there is no such bucket (the `for` loop ends without `break`). -/
def place (so : SetOrder) (f : Factor) : Buckets → Except PyErr (Option Buckets)
  | [] => .ok none
  | (u, b) :: rest =>
    if f.contains u then do
      let b' ← b.mul so f
      return some ((u, b') :: rest)
    else do
      let r ← place so f rest
      return r.map ((u, b) :: ·)

/-- lines 136-140: a factor without bucket is dropped. -/
def placeFactor (so : SetOrder) (bs : Buckets) (f : Factor) : Except PyErr Buckets := do
  let r ← place so f bs
  return r.getD bs

/-- lines 143-145: `order.index(e)` raises `ValueError` for a name outside the order. -/
def placeEvidence (so : SetOrder) (bn : BN) (bs : Buckets) (e : Name × Evidence) :
    Except PyErr Buckets := do
  let i ← pyIndex (bs.map Prod.fst) e.1
  let n ← bn.getNode e.1
  let ef ← Factor.asEvidence e.1 n.values e.2
  match bs[i]? with
  | some b => do
    let b' ← b.2.mul so ef
    return bs.set i (b.1, b')
  | none => .error .indexError

/-- lines 147-157: process the first `k` buckets; `last` is the extra bucket `buckets[-1]`. -/
def process (so : SetOrder) : Nat → Buckets → Factor → Except PyErr (Buckets × Factor)
  | 0, bs, last => .ok (bs, last)
  | _ + 1, [], _ => .error .indexError
  | k + 1, (v, b) :: bs, last => do
    let tmp ← b.marginalize [v]
    match ← place so tmp bs with
    | some bs' => process so k bs' last
    | none => do
      let last' ← last.mul so tmp
      process so k bs last'

/-- lines 160-161: `buckets[i+1] = buckets[i+1] * buckets[i]` over the remaining buckets and the
last one. -/
def combine (so : SetOrder) (bs : List Factor) (last : Factor) : Except PyErr Factor :=
  match bs with
  | [] => .ok last
  | b :: bs => (bs ++ [last]).foldlM (fun acc b => b.mul so acc) b

/-- lines 118-119: the caller's order, or the min-degree order if that is `None` or empty. -/
def chooseOrder (bn : BN) : Option (List Name) → Except PyErr (List Name)
  | some (v :: vs) => .ok (v :: vs)
  | _ => Orderer.minDegreeOrder bn

/-- `l[i]` for a possibly negative `i`: the position Python means, or `IndexError`. -/
def pyPos (n : Nat) (i : Int) : Except PyErr Nat :=
  if 0 ≤ i then (if i < n then .ok i.toNat else .error .indexError)
  else if -(n : Int) ≤ i then .ok (n + i).toNat
  else .error .indexError

/-- `buckets[i+1] = buckets[i+1] * buckets[i]` : line 161 for any integer `i` -/
def wrapStep (so : SetOrder) (bl : List Factor) (i : Int) : Except PyErr (List Factor) := do
  let t ← pyPos bl.length (i + 1)
  let s ← pyPos bl.length i
  let b ← (bl.getD t (Factor.trivial 1)).mul so (bl.getD s (Factor.trivial 1))
  return bl.set t b

/-- lines 147-161 if the query is `d` longer than the order: nothing is eliminated, and the loop over
`range(-d, len(buckets)-1)` starts with negative indices, which wrap around. -/
def wrapCombine (so : SetOrder) (d : Nat) (bl : List Factor) : Except PyErr Factor := do
  let r ← ((List.range (d + (bl.length - 1))).map fun k => (k : Int) - d).foldlM (wrapStep so) bl
  return r.getLastD (Factor.trivial 1)

/-- `bucket_marginals` : `exact.py:86-166`; `order = none` is `order=None`.  The code changes the
caller's order list in place: see `bucketMarginalsIn`.  A query with more variables than the order has
(which needs a repeated variable) is the case of `wrapCombine`. -/
def bucketMarginals (so : SetOrder) (bn : BN) (vars : List Name) (evidence : Dict Evidence)
    (order : Option (List Name)) : Except PyErr Factor := do
  let order ← chooseOrder bn order
  let order ← moveQuery order vars
  let factors ← order.mapM fun v => do
    let n ← bn.getNode v
    Factor.fromNode n
  let bs := order.map fun v => (v, Factor.trivial 1)
  let bs ← factors.foldlM (placeFactor so) bs
  let bs ← evidence.foldlM (placeEvidence so bn) bs
  if order.length < vars.length then do
    let r ← wrapCombine so (vars.length - order.length) (bs.map Prod.snd ++ [Factor.trivial 1])
    return r.normalize
  else do
    let (bs, last) ← process so (order.length - vars.length) bs (Factor.trivial 1)
    let r ← combine so (bs.map Prod.snd) last
    return r.normalize

/-- lines 124-127 as the caller of `bucket_marginals` sees them: what the list `order` contains when the
loop ends or raises. -/
def moveQueryIn : List Name → List Name → List Name
  | order, [] => order
  | order, v :: vars =>
    match pyRemove order v with
    | .ok o => moveQueryIn (o ++ [v]) vars
    | .error _ => order

/-- `bucket_marginals(bn, variables, evidence, order)` for a list object `order`: what the list contains
afterwards, and the result.  An empty list is replaced by the min-degree order (118-119) and stays as it
is; nothing after line 127 changes the list. -/
def bucketMarginalsIn (so : SetOrder) (bn : BN) (vars : List Name) (evidence : Dict Evidence)
    (order : List Name) : List Name × Except PyErr Factor :=
  (if order = [] then [] else moveQueryIn order vars,
    bucketMarginals so bn vars evidence (some order))

end VE
end Primo
