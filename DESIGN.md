# Formal model of PRIMO (primo2) in Lean 4

## 1. Trusted base

* Lean 4.33.0's kernel. No `sorry`, no own axioms, no `native_decide`/`bv_decide`.
  Every property theorem depends on at most `propext`, `Classical.choice`, `Quot.sound`
  (see `lean/Verif/Audit.lean`, which prints the axioms of each property theorem).
* The reading of the Python source: every model definition cites the file and lines it models.
* Idealisations that hold everywhere:
  * numbers are exact rationals (`ℚ`), not IEEE doubles (rounding is the subject of C63, C81 to C83, C85 to C87, C91 and C99, see §12);
    NaN, infinities and negative zero are not modelled (where numpy's `1/0 = inf` is observable the model has an
    explicit branch); tables can hold any number (tables of integers or truth values are the subject of C67
    only, see §13);
  * numpy arrays are a shape and a C-order buffer of the right size; only the numpy
    operations the code uses are modelled (`newaxis` indexing, `transpose`, broadcasting `*`
    and `+`, `sum(axis)`, `ix_` indexing, `squeeze`, F-order `reshape`, slice assignment);
  * Python `dict`s iterate in insertion order (CPython >= 3.6); `set`s iterate in an
    *arbitrary* order: the model is parametrised by an iteration oracle and theorems quantify
    over all oracles;
  * a `RandomNode` and its name are interchangeable as keys (`__eq__`, `__hash__`), so the
    model uses names (that this is right although the hash of a node object changes when it is renamed, and
    that networks do not disturb each other, is C69; see §14);
  * networkx graphs are insertion-ordered adjacency dictionaries (networkx 2.x, < 2.4);
  * exceptions are values carrying the exception class, not the message text.
* Not modelled: lxml/JSON byte syntax (documents are trees), file-system errors, the
  `abc`/`six` machinery, Python 2 behaviour, performance.  Sharing of memory is modelled for
  `factor.py` (`Verif/Heap.lean`) and for node objects (`Verif/Network.lean`), not elsewhere.

## 2. Layout

| module | models |
|---|---|
| `Verif/Py.lean` | exceptions, insertion-ordered dict, list `index`/`remove`, set-iteration oracle |
| `Verif/NDArray.lean` | numpy arrays |
| `Verif/Factor.lean` | `primo2/inference/factor.py` |
| `Verif/Heap.lean` | `factor.py` once more, with objects, views and buffers in a memory |
| `Verif/Node.lean`, `Verif/Network.lean` | `primo2/nodes.py`, `primo2/networks.py` (object heap) |
| `Verif/HashNet.lean` | `networks.py` once more, with node objects and stored hashes as dictionary keys, and several networks |
| `Verif/Exact.lean`, `BucketState.lean` | `VariableElimination` of `exact.py`; the state of its loop |
| `Verif/Order.lean` | `order.py` |
| `Verif/JoinTree.lean` | `FactorTree` of `exact.py` |
| `Verif/Rounded.lean` | the functions of `factor.py` and `exact.py` once more, with rounded arithmetic |
| `Verif/RoundedDecision.lean` | the functions of `Verif/Decision.lean` once more, with rounded arithmetic |
| `Verif/RoundedDynamic.lean` | the classes of `Verif/Dynamic.lean` once more, with rounded arithmetic |
| `Verif/RoundedSampling.lean` | the functions of `Verif/Sampling.lean` once more, with rounded arithmetic and finitely many random numbers |
| `Verif/Sampling.lean` | `sample_value`, `get_sample`, `mcmc.py` |
| `Verif/HeapQuery.lean` | `exact.py` on the memory model |
| `Verif/Dtype.lean` | nodes, `factor.py`, `exact.py` and `decision.py` once more, with element types of tables |
| `Verif/Generator.lean` | `generate_markov_chain` as a generator on dict objects, and arbitrary programs using it |
| `Verif/Dynamic.lean` | `dynamic.py` |
| `Verif/Decision.lean` | `decision.py` |
| `Verif/DecisionNet.lean` | `DecisionNetwork` of `networks.py` and the writes of `decision.py` on node objects |
| `Verif/IO.lean` | `io.py` |
| `Verif/Spec/*.lean` | the independent specification: assignments, sums over assignments, joint weight, posterior, junction trees, expected utility |
| `Verif/Lemmas/*.lean` | helper lemmas |
| `Verif/Props/*.lean` | the property theorems, each with a non-vacuity example |
| `Verif/Examples/RepoTests.lean` | the repository's own tests, replayed on the model (tests of the transcription, not proofs) |

## 3. Plan per property

Specification vocabulary: an assignment maps variables to outcome indices; `sumOver card s F`
is the sum of `F` over all re-assignments of the finite set `s` of variables.

* C01-C05 factor algebra: `Factor.at f σ` is the potential stored for assignment `σ`. Model the
  numpy pipeline (newaxis, transpose, broadcast) literally, prove that the result is `ok`,
  well-formed and has the pointwise value. C02 and C05 are corollaries.
* C06 division: same; the trivial zero divisor raises FloatingPointError in the code (numpy
  raises that class, the handler catches ZeroDivisionError): refutation plus partial theorem.
* C07-C12: direct, by list induction.
* C13 naive: fold invariant, then marginalisation. C14 bucket: invariant "product of all
  unprocessed buckets, summed over processed variables, is the joint weight". C15-C17 corollaries.
* C18: induction over a topological order.
* C19/C20: loop invariant on the elimination graph.
* C21-C29 join tree: create_jointree adds no fill-in edges, so C21 and C23 are false in general
  (a chordless cycle) and C29 is false (messages start at the first clique only): concrete
  refutations, and positive theorems for (a) any tree that is a junction tree, (b) perfect
  elimination orders, (c) polytrees with the default order (C24), (d) the root's component.
* C30-C34 networks: heap of node objects, network state, invariant over all operation lists;
  duplicate add_edge and rename onto an existing name break the invariant: refutations + partial.
* C35-C38 nodes: array update lemmas.
* C39 roulette wheel: interval lemma for all u, Lebesgue measure of the preimage.
* C40-C45 MCMC: a random program is a tree of choices and uniform draws; safety by quantifying
  over all draws, invariance by its expectation.
* C57 convergence: Doeblin minorisation from the site kernels, law of large numbers by second moments;
  false without positivity (a copying node); the sharp condition is that the possible states are
  connected by changes of single variables (then the chain mixes; otherwise a class is never left).
* C58 yielded states: associativity of sequencing of random programs, induction over the loops;
* C46-C49 dynamic: state machine over histories, on top of the join-tree theorem.
* C50-C52 decisions: invariant of generalized VE; C52 is false for several decisions (solutions are
  never installed as decision rules): refutation + single-decision theorem.
* C59 no sharing: simulation between the memory semantics of a small language of factor programs and a
  semantics in which variables hold values; false for `get_potential()`, which returns the table.
* C60 operands: frame property of the memory semantics; false for `useOther=True`.
* C61 reused order: the list after a call is a permutation of the list before (also after an exception),
  so C14 applies to the next call; induction over the calls.
* C62 malformed requests: the first illegal piece of evidence raises; the elimination invariant of C14 is
  proved for queries with repetitions.
* C53-C55 IO: documents as trees, write/parse inverse; C55 with a file-system map.
* C63 rounding: the functions of the exact model with the arithmetic as parameter (`Verif/Rounded.lean`),
  proved equal to the exact model for exact arithmetic; a simulation that counts roundings
  (`Lemmas/Rounded*.lean`).  `Near u k x y` is a two-sided factor `(1-u)^k`, which is closed under
  products, quotients and sums of non-negative numbers, so no step can cancel.
* C64 building decision networks: `Verif/DecisionNet.lean` on the object heap of `Verif/Network.lean`; an
  invariant over all allocated objects (`Lemmas/DNet.lean`), and `view` commutes with the writes of
  `decision.VariableElimination`.
* C65 generators: programs are trees of calls (`Client`), run once with references to dict objects
  (`Verif/Generator.lean`) and once with values (`Verif/Spec/Generator.lean`); a simulation in which every
  dict object has one owner, the program or a generator.
* C66 queries on live objects: `exact.py` on the memory model (`Verif/HeapQuery.lean`); a simulation with a
  value semantics in which a query is a function of the current tables and a tree is a value
  (`Spec/HeapQuery.lean`).  The invariant gives every tree a set of memory cells (`Foot`) that no variable
  of the program and no other tree can reach.
* C67 element types: `Verif/Dtype.lean` repeats the functions that meet tables of integers or truth values;
  relations between results with and without types (`Both`, `Lemmas/Dtype*.lean`) show where types cannot
  matter: all results of inference are floats since the trivial factor and `np.ones` are.  The three places
  where they matter are refuted and described.
* C68 when trees are exact: a tree with running intersection comes from a list of clusters each of which hangs
  on a later one (`Lemmas/Sharp.lean`), so message passing is exact as in C21 although the order is not
  perfect.  Otherwise (`Lemmas/Blind*.lean`): start with uniform tables and one observation of `x`; an
  invariant of `send` says that cliques not connected to the clique that received the evidence through
  cliques containing `x` keep constant tables, so their answers do not depend on the observation.  The same
  holds for cliques outside the component of the first clique, where no messages are sent, so C68_any covers
  networks that are not connected.
* C69 node objects as keys: `Verif/HashNet.lean` spells out networkx' loops over dictionaries that store hash and
  key object.  Invariant (`HNet.Rel`): all stored hashes are those of the current names and the three
  dictionaries fit together; under it every step simulates the step of `Verif/Network.lean`
  (`Lemmas/HashGraph.lean`, `HashStep.lean`).  Independence: a call reads and writes only objects of its own
  network (`Lemmas/HashLocal.lean`), so the other networks' calls can be dropped from the history.
* C70 filtering: `Spec/Unroll.lean` defines the unrolled network.  Its weight factors into the weight of the
  slices left and that of the two-slice network with copied targets; summing the former out leaves the joint
  posterior of the sources, which under `DBN.Splits` is the product that `Slices` puts into the targets
  (`Lemmas/Unroll.lean`).  Soft feedback enters `posterior / prior` at a parentless target, which has the same
  effect as replacing its prior (`Lemmas/UnrollSoft.lean`).  If the evidence d-separates the sources in every
  slice (`DBN.SourcesSeparated`), `DBN.Splits` follows from C72: the fed tables are normalised unless the
  evidence was impossible, and then all posteriors are 0 (`Lemmas/Splits.lean`).
* C71 relevance: a set of variables closed under parents keeps its joint when the rest is summed out
  (`marginal_relevant`), so posteriors depend only on the relevant part (`BN.Keeps.posterior`).
* C72 d-separation: `Spec/Separation.lean` defines active trails.  In the network of relevant variables the
  factors (tables and evidence) are split into two blocks by which side an open moral path from `Q` reaches;
  they share only observed variables, so the weight is a product (`Lemmas/Separation.lean`).
* C73 completeness: `Lemmas/Dependent.lean` builds the tables by induction over the variables, last one first.
  The covariance of the indicators of the first outcomes is a polynomial in each table parameter; if it is not
  zero for some tables then it is not zero for some positive ones.  Removing a childless variable shortens the
  trail or turns it into one of two trails that both have to be realised by the same tables
  (`Lemmas/Active.lean`).  `Lemmas/Complete.lean` puts the tables into a network; arrays among the evidence
  become observed additional children.
* C74 coherence of answers: one lemma about the posterior with and without the further evidence
  (`posterior_update` in `Lemmas/Fit.lean`), which holds for total weight 0 too because all weights are
  non-negative.
* C75 evidence up to scale: the weight changes by the product of the factors.  Converse: with uniform tables the
  answer about one variable is its normalised likelihood (`Lemmas/Scale.lean`).
* C76 other order: sums over outcomes are carried over along the permutation of the labels, one variable at a
  time (`Lemmas/Rewrite.lean`).
* C77 sizes of factor trees: an invariant of every call (`Room` in `Lemmas/TableRoom.lean`), which also holds
  where an exception stops the messages; separators lie in the cliques they join for any order (`build_seps`).
  For polytrees the default order removes leaves, so a variable and its later neighbours lie in one family
  (`bucket_family` in `Lemmas/CliqueSize.lean`).
* C78 sensitivity: weights and hence sums of weights stay within the products of the factors; the bound for
  differences follows from the one for odds by summing over the other outcomes (`Lemmas/Sensitive.lean`).  Sharp
  for independent variables with the first outcome tilted.
* C79 similar utilities: `utilityMass` is linear in the utilities and `mass` does not depend on them; installing
  rules changes both networks alike (`AffineUtility.recpd` in `Lemmas/Utility.lean`), so the first maximum stays.
* C80 soft evidence as a leaf: the weight of the larger network with the observation is a multiple of the weight of
  the smaller one with the array, and summing over the leaf picks the observed outcome (`Lemmas/Sensor.lean`).  The
  four calls that add it are run symbolically on any invariant state (`leaf_run` in `Lemmas/Leaf.lean`).
* C81 rounded sampling: `Verif/RoundedSampling.lean` takes the arithmetic and the number `N` of results of
  `random.random()` as parameters.  Simplifications: no under- and overflow, table entries and counts exact,
  `random.choice` exact, `random.random()` uniform on the multiples of `1/N` below 1 (CPython: `N = 2^53`); Python's
  `sum` and the loop of `sample_value` are the same left fold.  The wheel stops at a threshold, so its cumulative
  probabilities are off by the roundings and `1/N` (`Lemmas/RoundedWheel.lean`); this gives row distances between the
  matrices of the two chains (`Lemmas/RoundedKernel.lean`, `RoundedChain.lean`), and the mixing of the exact chain turns
  them into a bound for all times (`Lemmas/Perturb.lean`).
* C82 rounded decisions: `Verif/RoundedDecision.lean` repeats `Verif/Decision.lean` for an arithmetic; comparisons
  of expected utilities and the rules that set a decision are exact, the mixed rule is one division.  Utilities
  have signs, so relative errors are not preserved by additions.  The proof (`Lemmas/RoundedOff`,
  `Lemmas/RoundedDecision`) follows three runs: the rounded one, the exact one and an exact one on the network
  with absolute utilities, whose values bound the error.  The iteration order of the sets may depend on the
  contents of the tables, therefore the two exact runs use other orders; their results do not depend on them (C50).
  The number of roundings is quadratic in the size of the network because every elimination divides by the
  probability.  Under- and overflow are not modelled.
* C83 roundings of a tree, C84 exchange of messages: `calculate_messages` is turned into a list of messages
  (`Spec/Schedule`, `Lemmas/Schedule`), first towards the first clique, then away from it; C84 says that the list is
  an orderly exchange, without reference to the recursion (that the part reached is a tree needs no running
  intersections: `build` only ever hangs a new clique below one existing one, `build_grafted`).  For C83 the roundings in each clique and each separator are
  counted (`NearBy` in `Lemmas/RoundedCount`): on the way in the counts of a subtree add up, and the additions of all sums
  together are bounded by those of one sum over all variables, because running intersections let each variable be summed out once;
  on the way out each level adds at most three times the total.  `reset_factors` starts all counts again
  (`Lemmas/RoundedBound`), which is why the history does not matter.
* C85 prior feedback with rounding: relative errors of priors do not carry over to posteriors unchanged, because the
  probability of the evidence changes as well.  What does carry over are errors of ratios: `Skew` (`Lemmas/Skew`) says
  that `f a * g b` and `f b * g a` differ by `k` roundings for all `a`, `b`, and that `f` and `g` have the same zeros.
  A table that is `Near k` is `Skew (2k)`; products add the numbers, sums and normalisation keep them, and posteriors of
  networks with skewed weights are `Near` again.  `NearSlices` are the networks that occur, each fed with a prior that is
  `Near` a posterior of the one before; `NearSlices.skew` compares them with `Slices` of C47.
* C86 soft-evidence feedback with rounding: the likelihood of a variable is a rounded array divided by the exact prior
  (`ratio`), so arrays whose ratios are skewed by `κ v` give weights that are skewed by the sum of the `κ v`
  (`EvSkew.nets`); that the code divides by a rounded prior is part of the roundings of one call of `set_evidence`
  (`softRoundings`, C83).  The entries of an array have exactly the zeros of the exact array, so what can be met in exact
  arithmetic can be met with the rounded arrays.  The state holds a tree for some rounded evidence `evR`; the theorem
  compares it with the evidence of C48 (`SoftFeedback.Holds`).
* C87 elimination in double precision: `Arith.AccurateWithin u δ` asks for accuracy only where the exact result is zero
  or between `δ` and `1/δ`.  A number computed with `k` roundings from products of `d` entries between `m ≤ 1` and
  `M ≥ 1` lies between `m^d` and `M^d * 2^k` (`NearIn`): products add the `d`, an addition costs one more factor two.
  At most one entry per node and per piece of evidence enters a product, so `d` stays below `n + e`, and in the
  quotients of `normalize` this counts once above and once below.  The simulation of C63 (`Sim`) is used with this relation,
  which is required only up to the total numbers of entries and roundings (`Roomy`); its index is the pair `(d, k)`.  `toDouble` is the IEEE rounding function;
  `Arith.double_accurate` shows that it has the accuracy asked for.
* C88 sizes of the tables of bucket elimination: `bucketsBefore` is the state of the loop of `bucket_marginals`
  before iteration `i` (`C88_loop` ties it to `bucketMarginals`).  `BN.Around bn E v w` is the reference: what `v`
  is connected to in the moral graph through eliminated variables (`Via`).  `Lemmas/BucketSize` keeps as an
  invariant that the scopes of the buckets are sound and complete for `Via`; `Lemmas/WideOrder` has, for each
  `n`, a network of `2 n + 3` binary variables for which the default order needs a table of `2^(n+1)` entries
  and another order none of more than 32.
* C89 completeness of the interface: `BN.program` is the list of calls, `Leads` an accepted good history between
  two states, `Stage` the invariant while arcs and tables are added (lookup, and name, outcomes, parents and table
  of each object); the rest (children, dictionaries of parents) follows from the invariant of C30 on both sides.
* C90 rates of the samplers: `roundShare` and `roundSteps` are the constants.  `Mixing S P m δ` says that the chain
  forgets its state in `m` steps with probability `δ`; for a sweep every unobserved variable contributes the smallest
  probability of its outcomes (`Lower.sweep`), and if variables are drawn at random there are `m!` ways out of `m^m` to
  draw each of them once (`Lower.single`).  `Examples/Rate` is the slow network of `C90_slow`.
* C91 factor trees in double precision: the relation of C87 is not enough for trees, because messages are divided by
  messages.  Here the rounded tree is compared with the exact one entry by entry: `Near u k` for the error, as in C83,
  and beside it the range of the *exact* numbers, which are sums of products of entries (`In lo hi`): what a clique
  holds after `pull` is a marginal of the product of the tables below it, and after `push` a marginal of the
  joint weight (`collect_range`, `distribute_range`), so quotients never leave the range of the numerators.  The
  exact run used for the comparison starts from the rounded tree itself, of which only the shape matters
  (`TreeOp.runsR_shape`), so the history may have underflowed.
* C92 forgetting: `Alike P κ f g` says that `f` and `g` are proportional up to the factor `κ`.  The posterior of the
  source is a mixture, weighted by the prior of the target, of vectors that differ by at most the factor `R`; mixing
  shrinks the excess of `κ` over one by `1 - 1 / R` (`Alike.mix`).  `OnePrior` are two networks that differ in one prior,
  `DBN.Reprior` what the slices have in common.  For rounded arithmetic the shrinking in each slice makes up for the
  roundings of the answer that is fed back (`fade_round`).  `Ex.rain` is the example, with a copying variant.
* C93 forgetting with soft evidence: for a target without parents the array divided by the prior and multiplied by
  the prior is the array again, so two arrays give weights that differ in one factor (`OneFactor`, of which `OnePrior` is
  a case too).  `CarriedNear` lists the arrays that a rounded run may carry over, slice by slice.
  `Ex.nand` in `Props/ForgetTwo.lean` is the counterexample with two transitions for both methods.
* C94 forgetting with several transitions: the priors are exchanged one at a time (`splice`), each exchange is a case
  of C92, and the factors multiply.  `Ex.mood` is the example.
* C95 the same with soft evidence: `BothFed` are two families of arrays that can both be entered with the evidence of
  the slice, and the arrays are exchanged one at a time (`mixArr`).
* C96 several targets for set_evidence(softPosteriors=True): `BN.Target` are the distributions that can be asked for,
  `BN.Met` says that all of them are obtained, `BN.Independent` that the joint prior is the product of the priors.
  Forward: with independence the normalising constant is 1 (`independent_norm`).  Converse: ask for the prior of one
  variable and single outcomes of the others (`met_spikes`); then joint / product of priors does not change with the
  outcome of this variable, so it is constant, hence 1.  The graph version combines this with C72 and C73.
* C97 independent forward samples: `iid` is the expected value of a function of N independent states; variances add up
  (`iid_square`), and since a state agrees with one instantiation of the query at most, the variances of all entries of
  the table add up to 1 at most (`iid_near`), so the bound does not contain the size of the table.  `BN.forced` is the
  distribution of the samples (an intervention); a table cannot be close to two distributions that are far apart
  (`iid_apart`), which gives the converse.
* C98 one decision after the other: a round replaces one decision by the first of the best ones (`ascend_step`), so
  (expected utility, sum of the positions of the values) goes up in the lexicographic order, with positions reversed,
  unless nothing changes (`height`, `ascend_run`); the number of dicts of decisions above the current one bounds the
  number of passes (`ascend_settles`).  Decision nodes with parents are excluded (C52_information_error).
* C99 the same with rounded arithmetic: a round is `C82_local_optimum` for one decision in the current network
  (`ascendR_step`).  The decision that is taken has an exact table of zeros and ones, so errors do not accumulate in the
  network, only in the choices.
* C100 fixing one outcome after the other: the largest of `card` probabilities that sum to one is at least `1 / card`
  (`posterior_average`), so it is positive and the evidence stays possible (`greedy_step`); the product rule
  (`posterior_product`) gives the bound.  For independent variables conditioning on the outcomes fixed before changes
  nothing (`greedy_maximal`).  Outcomes of a variable have to be distinct, as for C08.
* C101 drawing one outcome after the other: the integral over the random number of a round is the sum over the outcomes
  (`roulette_integral`), only the outcome of the instantiation contributes (`draw_other`), and the product rule does
  the rest.  Random numbers are real, as in C39 to C45.

## 4. What the proofs found in the code

Each item is a theorem with a concrete witness (names in brackets).

* `Factor.invert` of a scope-less factor with potential 0 raises `FloatingPointError`
  [C06_invert_trivial_zero_refuted].
* `DecisionNode.set_decision` with an unknown decision zeroes the rule before it raises
  [C37_rejected_decision_refuted]; a parentless `UtilityNode` holds a Python int and both accessors
  raise `TypeError` [C38_parentless_refuted].
* `add_edge` of an existing edge appends the parent a second time [C30_duplicate_edge_refuted].
* A node object that is removed (or survives `clear`) keeps its parents; adding it again gives a node
  whose parent list disagrees with the graph [C30_stale_parents_refuted,
  C30_stale_after_clear_refuted].
* `add_edge` from a utility node raises after graph and parent list changed
  [C30_utility_parent_refuted]; `remove_node` of a node with a decision or utility child raises
  half-way [C30_remove_decision_parent_refuted]; `remove_edge` into such a child raises
  [C34_decision_edge_refuted].
* `change_node_name` by node object raises `KeyError` half-way [C30_rename_by_object_refuted]; renaming
  to a name in use silently loses a node [C33_collision_refuted].
* `create_jointree` adds no fill-in edges: for a chordless cycle of five nodes the result is not a
  tree and evidence is lost [C21_chordless_refuted, C23_chordless_refuted].  The number of edges tells: the tree is
  exact for all tables if and only if it has one edge less than cliques [C68_sharp]; for that cycle the order
  `e, b, c, a, d` works [C68_cycle_other_exact], the default order does not [C68_cycle_default_wrong].  Cliques are keyed by the
  concatenation of their names, so `{a, bc}` and `{ab, c}` collide [C22_name_collision_refuted].
  Messages are passed in the component of the first clique only [C29_disconnected_refuted]; whether that
  matters depends on the elimination order [C68_parts_default_wrong, C68_parts_other_exact].  A clique
  elsewhere answers from the tables and evidence it is the first to contain [C29_left_out]; it ignores
  evidence about related variables [C29_evidence_ignored] and can raise `ValueError` for a variable of the
  network, because it was never told of a variable it has to sum out [C29_refused_refuted].
* With every node observed, single-site MCMC steps (the default) call `random.choice([])` and raise
  `IndexError` [C43_all_observed_refuted, C45_all_observed_refuted].
* MCMC does not converge to the posterior when tables contain zeros: for a node that copies its parent
  no sampler ever leaves the initial state [C57_law_refuted, C57_consistent_refuted].  Metropolis-Hastings
  converges exactly if the possible states are connected by changes of single variables
  [C57_mh_consistent_iff]; Gibbs sampling can in addition be caught in an impossible initial state,
  since the roulette wheel with all weights 0 returns the first outcome [C57_gibbs_stuck, C57_gibbs_refuted];
  exactly when is said by [C57_gibbs_consistent_iff].
* `sample_value` tests `s >= rndVal`, so a random number 0 selects the first outcome even if its probability is 0
  [C81_first_outcome]; Gibbs sampling can thus leave the possible states and be caught outside, also where it
  converges with real random numbers [C81_gibbs_trap].  With probability `2^-53` per draw this matters in theory only.
* Target distributions for several variables (`softPosteriors=True`) are in general not met
  [C28_two_targets_refuted]; hence soft-evidence feedback does not transfer the posteriors when there
  are several transitions [C48_two_transitions_refuted].
* A `set_evidence` that raises half-way after a successful one leaves `_evidence` set, and `unroll()`
  uses the part of the rejected evidence [C46_rejected_evidence_used].
* `add_transition` with a source that is missing from the 2-TBN only: `KeyError` from the format
  string instead of `StructureError` [C49_key_error_refuted].
* The factor tree's errors (no fill-in) carry over to both dynamic methods [C47_chordless_refuted,
  C48_chordless_refuted].
* `expected_utility` divides by the total weight, so for tables that are not normalised it is not the
  weighted sum [C51_unnormalised_refuted].
* `get_optimal_decisions` optimises every decision against fully mixed rules of the others and never
  installs what it found: two interacting decisions are not optimised jointly [C52_refuted]; decisions
  in `fixedDecisions` are optimised all the same and returned with another value [C52_fixed_refuted];
  a decision with a parent raises `ValueError` [C52_information_error].  The returned combination can even be the
  strictly worst of all [C98_worst_refuted]; calling it with one decision at a time and taking the result avoids this
  [C98_converges].  The factors are kept in a set of tuples that hash by memory address, so utilities are added in an order
  that can differ from call to call; for decisions that are equally good up to rounding, `get_optimal_decisions` can
  return another one each time it is called [C99_restless_refuted].
* `XMLBIFParser`: the default network name `""` and empty properties come back as `None`
  [C53_unnamed_refuted, C53_empty_property_refuted]; a node without outcomes is written but rejected
  by `parse` [C53_no_outcomes_refuted]; utility nodes raise `AttributeError`
  [C53_utility_refuted]; control characters in a name raise `ValueError`
  [C53_control_character_refuted].
* `DBNSpec.write` prefixes the file names with `path` but the references inside the specification
  only with `name`: for every `path` without final slash `DBNSpec.parse` fails [C55_no_slash_refuted],
  or picks up the networks of another specification [C55_other_networks_refuted].  A folder in `name`
  is applied twice [C55_folder_in_name_refuted].  Transitions given by node objects (documented for
  `add_transition`) are not JSON: `TypeError`, and a broken file stays behind
  [C55_node_objects_refuted].
* `Factor.get_potential()` without variables returns the table of the factor, not a copy: assignments to
  the result change the factor and `normalize` changes the array handed out
  [C59_exposed_write, C59_exposed_normalize, C59_get_potential_refuted].
* `__mul__(other, useOther=True)` modifies `other` although the docstring excludes this: variables
  without labels [C60_other_broken], a transposed table [C60_other_transposed], or the result is `other`
  itself [C60_other_returned].  No caller in the repository passes `useOther=True`.

* `bucket_marginals` reorders the list the caller passes as `order` [C61_order_refuted]; it stays usable.
* `naive_marginals` silently ignores unknown names in query and evidence [C62_naive_ignores,
  C62_naive_unknown_refuted], where `bucket_marginals` raises.  A query with `k` repetitions makes
  `bucket_marginals` return the posterior of `k` further variables [C62_repeated]; if the query is longer
  than the network, negative bucket indices wrap around and the distribution is multiplied several times
  [C62_repeated_refuted].
* Exact inference works with plain products of probabilities.  If products can underflow, possible
  evidence gives a table of zeros instead of the posterior, for any smallest positive number
  [C63_underflow_refuted].  Without underflow the computed answers have a small relative error
  [C63_naive, C63_bucket, C63_tree], unless a table has negative entries, which `set_cpd` does not
  refuse [C63_negative_refuted].
* `DecisionNetwork.add_node`/`add_edge` check nothing (unlike `BayesianNetwork`): a second node of the same
  name replaces the first, but children keep the first as parent, and decisions can silently be mixed up
  [C64_same_name_refuted]; repeated edges [C64_repeated_edge_refuted] and cycles [C64_cycle_refuted] are
  accepted; an edge from a utility node raises but stays recorded and blocks the node [C64_utility_parent].
* `generate_markov_chain` yields the same dict every time: `list(chain)` is a list of equal states
  [C65_list_refuted] and an estimate made from it is a point mass [C65_list_point_mass]; a write into a
  yielded state can change the evidence [C65_write_back_refuted].  Its documented default `evidence=None`
  raises `TypeError`, at the first `next` [C65_no_evidence].  `MCMC.marginals` uses it correctly.
* `set_cpd` and `set_utilities` keep the element type of the array they are given.  After
  `set_cpd(np.array([0, 1]))`, `set_probability(..., 0.3)` silently stores 0, and after integer utilities
  `set_utility(7.5)` stores 7 [C67_assignment_refuted].  `normalize` of a factor made from an integer table
  raises `TypeError` [C67_int_statements].  Utility tables of truth values are combined with "or", so the
  expected utility depends on the iteration order of a set [C67_utility_tables_refuted].  Exact inference is
  not affected [C67_elimination, C67_trees].
* A node object that is in two networks: renaming it through one of them leaves the other with a node that
  `get_node` finds under the old name but the graph under neither name, so that `add_edge` raises and
  `remove_node` silently does nothing [C69_shared_rename_refuted]; an edge added in one gives the node a parent
  the other does not know [C69_shared_edge_refuted].
* With several transitions, both dynamic methods carry over marginals only: if the sources are dependent given
  the evidence, the answers are not the posterior of the unrolled network [C70_two_transitions_refuted].  The product of the
  marginals that is carried over need not even settle: two first slices can give answers that stay apart for ever,
  jumping to and fro, although every table is noisy [C92_two_transitions_refuted, C93_two_transitions_refuted].
* `SoftEvidenceExact` silently drops evidence on a transition target after the first slice
  [C70_soft_target_refuted]; `PriorFeedbackExact` uses it.
* A node whose table has not been set (all zeros) makes all answers of the whole network 0, also for variables
  it has nothing to do with [C71_unset_table_refuted].  No method raises.
* `get_min_degree_order` counts neighbours in the undirected graph of the network, in which two parents of a
  node are not linked, whereas the tables of `bucket_marginals` grow along the moral graph.  The default order can
  therefore need exponentially larger tables than another one [C88_default_order_refuted]; if parents of a
  common child are linked anyway it does what its name says [C88_married_partial], and on polytrees it is as good
  as can be [C88_polytree_partial].
* `BayesianNetwork.add_edge` accepts an arc that closes a cycle [C89_cycle_accepted].
* In double precision a `FactorTree` can answer evidence of positive probability with a table of zeros, without an
  error, as the elimination methods can [C91_room_refuted, C87_room_refuted].
* `get_sample(evidence)` accepts evidence on any variables, but takes into account only what it means for the
  descendants: its samples are those of an intervention.  For the conjunction of two fair coins, observed to be true, the
  frequencies of the coins tend to 1/2 instead of 1 [C97_effect_refuted].  `MCMC.marginals` uses it for the initial state
  only, where this does no harm if the chain forgets it (C57).

## 5. Notes on the network model

Node objects live in a heap (`Nat → NodeObj`); the network holds object ids, as Python holds
references.  A history is a list of `Op`; `run` performs it, and a call that raises leaves whatever
state the code leaves at that point.  `Good` (in `Spec/NetState.lean`) lists the calls the code
handles correctly; all network theorems hold for every history of such calls.  `view` is the
snapshot that the inference code reads.

## 6. Notes on the join tree model

`JTree` holds cliques (insertion ordered), adjacency and separators; recursion of `pull`/`push` has an
explicit depth limit (Python's recursion limit) and theorems ask for a limit of at least the number of
nodes.  `TreeSetup` collects the hypotheses under which the tree is exact: a complete elimination order,
node names with unambiguous concatenations (for instance names of equal length), and the running
intersection property of the created tree.  `PerfectSetup` (an order that needs no fill-in in the moral
graph) implies it, and by C68 it cannot be weakened.  `JTree.Loaded` is the state before message passing for an arbitrary
junction tree, not only for one built by `create_jointree`.  `TreeOp` histories include failing calls.

## 7. Notes on the sampling model

A program that draws random numbers is a tree `Rand` (result, uniform choice among `n`, real number of
`[0,1)`).  `Rand.All` quantifies over all draws; `Rand.expect`/`Rand.prob` is the finite average /
Lebesgue integral.  `random.random()` is idealised to a real number; the weights stay rational.
`get_sample` runs along `networkx.topological_sort` (networkx < 2.4, modelled and proved to return a
topological order of every acyclic network).  `generate_markov_chain` yields the same dict object each
time; the model lists its contents at each `yield`, which is what `from_samples` reads.  Storing
Python's `None` (the wheel running through) is the pseudo error `noneValue`; it is proved not to occur.
Decision and utility nodes have no sampling methods (`AttributeError`), so the theorems are about
networks of discrete nodes.  A zero denominator in the acceptance ratio gives numpy's `inf`/`nan` and
acceptance 1.

Convergence (C57): `Lemmas/Markov.lean` develops finite Markov chains abstractly (contraction of the
oscillation under a Doeblin condition, second moment of path sums); `Lemmas/Ergodic.lean` shows that
one step of each sampler acts on the states of the network as a stochastic matrix (`Kern`);
`Lemmas/Connected.lean` shows which states it reaches (`Possible`, `Connected`); `CloseTo` (Spec/Converge.lean) says that a
returned table is within `ε` of the posterior.  The bounds are stated as lower bounds of
probabilities, which the convention "non-integrable gives 0" cannot make true.

## 8. Notes on the dynamic model

`PriorFeedback` and `SoftFeedback` hold the fields of the two classes; a history is a list of `DynOp`
(each call with its own set order and recursion limit), and raising calls leave the state the code
leaves.  `Diary` is the specification's record of the evidence per slice, `Slices` the networks that
prior feedback prescribes for it, `DBN.carried` the arrays that soft-evidence feedback prescribes.
`softened` turns target arrays into likelihoods `array / prior`; `Supported` says that this is
possible.  `C46` theorems need no assumption on the networks; `DBN.Ready`/`DBN.SoftReady` collect the
assumptions under which the trees of the slices are exact.  `PriorFeedbackExact` deep-copies the
dynamic network; `SoftEvidenceExact` shares it, and the model assumes nobody else changes it.
Of the keyword arguments of `unroll` only `soft_posteriors` is modelled (others raise `TypeError` in Python).

## 9. Notes on the decision model

A decision network is a list of nodes, as for inference; utility nodes have no outcomes.  Sets of joint
factors are lists whose iteration order an oracle `SetPerm` chooses anew at each step (joint factors
hash by identity, so nothing is merged).  `BN.decide`/`BN.mix` (Spec/Decision.lean) are the networks
with the decisions taken, respectively fixed or fully mixed; `utilityMass` is the sum over all
instantiations of the product of all tables and rules times the sum of the utilities, `mass` the same
without the utilities.  `BN.strategy` numbers the combinations of decisions.  `NodeV.FreeDecision` is
a decision node without parents.

## 10. Notes on the file model

`Xml` is the element tree (tag, text, children; attributes are written but never read).  lxml itself is
trusted: serialising and reading gives the same tree, except that empty text becomes `None`
(`Xml.load`), and text with characters outside XML is refused (`Xml.okChar`).  The indentation that
`pretty_print` adds goes only into tails and texts that are not read.  Decimal notation is a parameter `FloatText`: any notation with
`float(str(x)) == x`, non-empty and without white space (Python's `repr`-style notation of doubles has
this; with numpy ≥ 2 `str(np.float64)` is unchanged).  A table element that is missing or `None` texts
for names are the pseudo-error `noneValue` or the exception that Python raises at that place.

The file system maps component lists of absolute paths to contents; all folders exist, there are no
symbolic links.  `resolve` is `os.path.abspath` as a component list, `refPath` the lookup of referenced
files.  JSON and the text of the specification are trusted (`File.conf`).

## 11. Notes on the memory model

`Heap` has cells for buffers, lists, dicts and factor objects; references are indices, nothing is freed.
An array object is a view (buffer, shape, strides; no offset, since no modelled operation makes one).
`newaxis` indexing and `transpose` make views, arithmetic, `sum`, `np.copy` and fancy indexing make new
buffers, `/=` writes in place.  A table that is a Python or numpy number is a value (`Pot.num`).  Label
tuples are immutable and therefore values.  `Cmd` (Spec/Heap.lean) is a language of straight-line
programs with variables for factors and arrays: the factor operations and in-place changes by the caller
(`write` to an array, `poke` to a table, `relabel` of a dict entry, `reorder` of a variable list).
Commands guard what the value model of `factor.py` does not cover: `fromNode` needs a table with one axis
per variable, evidence arrays have one axis, sample dicts have distinct keys, `poke` needs a factor with
variables.  `HState` is the memory semantics, `VState` the semantics without sharing; the latter uses the
functions of `Verif/Factor.lean`, so C59 also says that the two models of `factor.py` agree.

Programs that ask queries (C66) are lists of `Stmt` (Spec/HeapQuery.lean): all of `Cmd`, `np.copy`, and the
functions of `exact.py` on memory.  The tables of the network and the arrays of soft evidence are array
variables of the program, so they may be shared with anything; a network is given anew with each call, so a
tree may be asked to reset with another network than it was made from.  A call with a table whose number of
axes does not fit the node, or with evidence that is not one-dimensional, is refused with `TypeError` before
it starts (`require`).  Trees are only changed by their own methods: attributes of a `FactorTree` are not
assigned by programs.  `Tab` records which variables share a table, which only `get_potential()` causes, so
C66 needs no restriction to programs without it.  `newIsNum`/`answerIsNum` record which tables are numbers:
assignment to an element of a number raises `TypeError`.

## 12. Notes on the rounding model

All theorems but C63 compute with rational numbers.  C63 replaces the arithmetic on potentials (`*`, `/`,
`np.sum`) by any `Arith` that is `Accurate u`: the standard model of floating point without over- and
underflow, `u = 2⁻⁵³` for IEEE doubles.  `np.sum` is any tree of additions of the numbers in any order, and
may be a different one for each list.  Inputs (tables and likelihoods) are taken as they are, i.e. as the
doubles that are stored.  Sampling, decision and file functions are not covered.

C87 removes the assumption on over- and underflow for variable elimination: `Arith.double over tree` rounds as IEEE
doubles do (53 bits, nearest even, denormalised numbers from `2⁻¹⁰²²` on); `over` stands for what happens above
`2¹⁰²³`, where numpy has infinities and the model any number at all.  The theorems show that no such number occurs.
C91 does the same for factor trees (not for `softPosteriors=True`).  C81, C82, C85 and C86 still assume that nothing
over- or underflows.

## 13. Notes on element types

Only C67 knows element types: `bool`, `int` (unbounded; numpy has 64 bits and wraps around) and `float` (exact
rationals).  Other types (strings, objects, single precision) are not modelled.  `np.zeros`, `np.ones` and all
quotients are floats; `np.copy` keeps the type; `*` and `+` take the larger type; `np.sum` of truth values is
an integer; an assignment to an element converts the number; `/=` on an array of another type raises
`TypeError`, on a number it replaces it.  `DState` (Spec/Dtype.lean) runs the programs of C66 with types.
Decision nodes have no method that stores an array, so their tables are floats.  The network-level histories of
C30-C34 and C64 are not repeated with types: node calls are (`NodeCall`).

## 14. Notes on node objects as dictionary keys

`HDict` is a list of slots in insertion order, each with the hash stored at insertion and the key object.  A
query (a name or a node object) matches a slot if the stored hash and the key's current name are those of the
query, or if the query is the key object itself and the probe sequence passes its slot; CPython does not
compare hashes in that case.  Whether it passes depends on the table; in the model it is an arbitrary function
`meet` of the two hashes.  If several slots match, the first one is taken (this happens only to dictionaries with
stale keys).  `node_lookup` has string keys (`new_name` is a string).  Errors of a call on an object that does
not exist stand for `TypeError` as in `Verif/Network.lean`.  In histories with several networks, all of them exist
from the start.  The networkx methods follow networkx 2: `add_node` and `add_edge` ask `_succ` whether a node
is known, `__contains__` asks `_node`, `remove_node` loops over `_succ[n]` and `_pred[n]`.  `HOp.resolve` reads
node arguments as names, at the time of the call.

## 15. Notes on the unrolled network

The code never builds the unrolled network; it is specification.  `add_transition` documents `node` as a node "in the
next time-slice" and `node_p` as "the corresponding node in the current time-slice", hence the copying tables.  The
names of the unrolled nodes are an arbitrary injective function (`Tagging`).  `DBN.Splits` speaks about the slice
networks of `Slices` (the priors replaced by carried marginals); it holds trivially with one transition.
`DBN.softenedAll` reads arrays as `softened` does (posteriors to be produced, relative to the priors of the slice
network); for observed outcomes it changes nothing.

## 16. Notes on relevance and separation

`Trail` follows the textbook definition of active trails for hard evidence.  An array given as evidence is a
likelihood: it makes its variable's ancestors dependent like an observation of a descendant would, but does not
fix the value, so it opens colliders and blocks nothing.  `ExactAnswer` collects what the exact methods return
(results with exceptions are not answers; C13, C14 and C21 say when there is one).
