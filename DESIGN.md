# Formal model of OrpailleCC in Lean 4 — design

## 1. What is modelled and how

The library is a set of independent C++11 class templates (`/repo/src/*.hpp`).
Each class becomes a group of Lean modules under `lean/Verif/<Component>/`:

* `Model.lean` — the code, function by function; every definition cites file and lines;
* `Spec.lean` (where useful) — a small independent specification (bag, stream positions, network function, inductive tree …);
* `Lemmas.lean` (or several) — helper lemmas;
* `Props.lean` — the property theorems, named after the property ids, each with an `example` that shows
  its hypotheses are satisfiable on a non-trivial case.

Conventions of the models:

* **State** is a structure, a mutating member function returns the new state. Loops are structural
  recursions or folds. Template parameters are parameters of the model.
* **Undefined behaviour and failed assertions are outcomes**: a function which can reach them returns
  `Res α` (= `Except Err α`) with `Err.assert` (a failed `assert`, i.e. abort in a build with asserts)
  and `Err.ub` (out-of-bounds access, use of an indeterminate value, null dereference …).
* **Randomness** is an explicit input (a stream or list of values, or one argument per draw). Theorems quantify over all values in the
  documented range. Where the property is about probability, the draw is given an ideal distribution.
* **Floating point**: `double` is modelled by exact rationals `ℚ` (or an arbitrary linear ordered field, or `ℝ` where
  calculus is needed). Rounding is *not* modelled unless a module says so. Where NaN/infinity decides the behaviour
  (0/0 in an empty statistic, infinite boxes) the extended type `Dbl` (finite rational | +inf | -inf | NaN) is used, with IEEE rules
  except for signed zeros and rounding.
* **Machine integers**: unbounded unless the property is about wrap-around or the code relies on it
  (reservoir counters are taken modulo 2^32; hash values are 32 bit; cuckoo fingerprints are 8 bit).
* External functions (hash, fingerprint, exp, log, sqrt, activation…) are parameters; assumptions on them are hypotheses of theorems.

## 2. Trusted base

* Lean 4.33.0 kernel; axioms `propext`, `Classical.choice`, `Quot.sound` only (checked by `vcheck`).
* Mathlib definitions used in statements (`ℚ`, `ℝ`, `Finset.sum`, `Multiset`, `HasDerivAt`, …).
* The faithfulness of the models, i.e. my reading of the cited lines; the C++ was not run.
* Not modelled: floating point rounding (except in `Verif/Rounding/`), compiler behaviour after UB, template instantiation errors, performance,
  printing code, and the functions listed as not modelled in section 4.

## 3. Plan per property

| id | what is modelled | how it is proved |
|----|------------------|------------------|
| C01 | whole BloomFilter class over a byte array, hashes as functions to `UInt32`-range naturals | invariant over histories: bits set by an element persist |
| C02 | same | exact characterisation of the bit array after a list of adds |
| C03 | same | clear gives the initial array; rest by determinism |
| C04 | same | direct from set/get on bytes |
| C05 | same | bit array after adds is a function of the set of elements |
| C06 | same, with assertion failure and out-of-bounds as outcomes | histories never yield an error; out-of-range hash gives `assert` |
| C07 | CuckooFilter get_entry/set_entry on the byte array (one byte per bit) | index arithmetic, bit round trip |
| C08 | whole CuckooFilter | corollary of C09 |
| C09 | same | refinement to a multiset of keys; add loop by induction over iterations |
| C10 | same | false of the code: the last displaced fingerprint is lost. Negation with witness; partial: exactly one key lost |
| C11 | same | case analysis of the first iteration; counting |
| C12 | same with error outcomes | xor of numbers below a power of two |
| C13 | same with parameter empty_value | false for nonzero empty_value (negation); proved for 0 |
| C14 | ReservoirSampling with explicit random inputs | case analysis; negation for random value 1 |
| C15 | same | invariant: slots hold distinct positions |
| C16 | same with ideal uniform draws | law of one step from Lebesgue measure / counting, then induction on N |
| C17 | counter modulo 2^32 | induction |
| C18 | ExponentialReservoirSampling | case analysis + invariant; negation for random value 1 |
| C19 | same | invariant |
| C20–C24 | ChainedReservoirSampling with an explicit heap (cells, next links, timestamps), C++ reference semantics of shift_chain | heap invariant (chains are lists of disjoint cells); C21/C22 are violated by the code: negations + partial theorems |
| C25–C28 | LTC over integers with C++ truncating conversions, slopes as exact rationals | C25 is false with truncation: negation; partial for exact rounding. C26, C28 by invariants; C26 is false for double slopes with gaps between the timestamps (C111) |
| C29–C33 | Utils | list inductions; C30 has u=0 exception (negation), C31: Sattolo, only cycles (negation of "every permutation") |
| C34–C36 | metrics | algebra over ℚ |
| C37–C39 | NaiveBayes | Welford invariant, permutation invariance, argmax over `Dbl` scores |
| C40–C43 | MultiLayerPerceptron flat arrays | refinement to layered network; derivative by chain rule over ℝ; C43 violated (reads layer_size[-1]), value proved irrelevant |
| C44–C47 | MCNN | invariants over train histories; C45 violated (negation), C44 last clause violated (distance cap) |
| C48–C51, C73 | HoeffdingTree | invariant over all histories: one leaf, or one split with NaN limits; C48, C49, C73 violated: negations for every history (C49: witness over ℝ and an exact criterion); C50 partial; C51 concavity of x log x |
| C52–C58 | MondrianForest node pool | refinement of the pool to inductive trees, invariants by induction over the stream; C55 leak, C57 u=0, C58 uninitialised: negations + partials |
| C69 | the same, prediction on a tree as a function | copies of one point give a leaf; exact scores; violated for few copies |
| C59–C60, C70, C72 | MondrianForestUnbound: heap of nodes, refined to the same inductive trees | both classes are compared with one training function on trees; counters, node counts and destructor by invariants |
| C71 | MondrianForest | simulation between two bounded forests whose trees differ in places and unrefreshed counters |
| C61–C62, C74–C90 | CoarseMondrianForest: all five tree managements, six ways to extend, four ways to trim, the split triggers, helpers and distributions; node pool refined to the inductive trees of mondrian.hpp | relations `Grows`, `Trimmed` between trees before and after a call, one induction over histories for all invariants; C90 by a simulation that leaves out random numbers; C62, C74, C75, C77, C82–C84 violated: witnesses and partial theorems |
| C91 | BloomFilter with hash functions drawn uniformly among all families | the families that map all k places of x into the set of occupied places are counted, after exchanging the sums; power mean inequality for the lower bound |
| C92 | CuckooFilter | the bag of keys of C09 has at most one key per add, and a key is shared by at most two combinations of a fingerprint and a bucket |
| C93 | ReservoirSampling with ideal uniform draws | the Markov walk of C16; the probability of a sample is followed through one call, with a sum over the position that is replaced |
| C94 | MondrianForest with ideal uniform draws and the real logarithm | the growth of a tree as a function of the draws: each event is the set of the draws that lie, one after the other, in given sets; the probability is the product of their measures (infinite product measure) |
| C95 | MondrianForest with ideal uniform draws and the real logarithm | the growth of the trees as a program that asks for random numbers; the probability that the points of a group are together, given the tree so far, is written down for every tree (a martingale) and its expectation is computed over the time, the dimension and the value of a split; the event is measurable because the outcome has countably many shapes with measurable numbers; the unbounded and the coarse forest by the coupling with the bounded one (C59, C113) |
| C96 | CoarseMondrianForest with and without `UNBOUND_OPTIMIZE` | both programs run side by side: the memories are equal up to the counters of split nodes, on which nothing but `predict` depends; in the optimised program the counters are those `predict` would compute, because only the split nodes above the leaf of the new point change, and the loop does not stop early because node 0 stays a leaf; witnesses where this fails |
| C97 | `print_nodes` of CoarseMondrianForest | model of `scory`, `printy`, `tree_printy` with the output as a list of lines; the walk over a tree in memory is the listing of the tree it holds (induction over the tree with the stack), for trees of height at most 101; `scory` changes nothing but counters of split nodes |
| C98 | units and origin, MondrianForest and MondrianForestUnbound | the functions on trees (`draw`, `grow`, `scores`) commute with the map of trees into the new units; lifted to histories by a simulation of two states (bounded) or through the histories on trees (unbounded) |
| C99 | names of the labels, MondrianForest and MondrianForestUnbound | the same map with a permutation of the counters; partial because the first of several best labels is returned, with a witness |
| C100 | origin of the features, MC-NN | simulation of two histories: corresponding clusters have sums and squared sums that differ by the terms of the offsets, so centroids are translated and variances and distances are equal |
| C101 | names of the labels, MC-NN | the same simulation with renamed labels and no offsets |
| C102 | units and origin, naive Bayes | the estimators of the transformed values are the transformed estimators; all scores change by the same number. Partial: false for constant features, with a witness |
| C103 | names of the labels, naive Bayes | from the closed form of the scores (C39); partial because the first of several best labels is returned, with a witness |
| C104 | `time_unit_difference` | the protocol by an invariant on times only; the error bound is refuted by a stream for every unit above 1 |
| C105 | labels without training points | induction over the tree: the smoothed mean plus the remaining weight times the base measure is constant along the path; for the coarse forest exchanging two such labels changes nothing (C127) |
| C106 | samplers with floating-point rounding | a rounded copy of each function, `fl` any rounding to nearest; each rounded call equals an exact call with another random number |
| C107 | `turn_array_into_probability`, `pick_from_distribution` with rounding | rounded copies; error bound by induction over the array; witness for the out-of-range draw |
| C108 | Mondrian training with rounding | training with an arbitrary choice of cuts (`Mondrian/Choose.lean`), invariants from properties of the choice, which are proved of the rounded choice; witnesses for the two failures |
| C109 | naive Bayes training with rounding | rounded copy; each update of the mean stays between the old mean and the value, and the update of the variance multiplies numbers of the same sign; witnesses for large weights and for a lost variance |
| C110 | MC-NN with rounding and NaN | rounded copy with features in `Option ℚ`; memory invariant for any rounding; error bound of sums, means and variances; witness history in doubles; the copy without rounding is the exact model |
| C111 | LTC with rounded slopes | rounded copy of `need_transmit`; quotients of small integers are compared correctly, and truncation does not see an error smaller than the distance to the integers; for gaps, monotonicity of rounding and exactness on integers; witness with slope 1/49 |
| C112 | `otter`: judging the forest | model of `predict_tree` with a depth limit, equal to a prediction with the tree without its deepest level; the counters as in C97; margins are homogeneous, so the comparison is expressed with means; faded sums by induction over the history |
| C113 | coarse forest with EXTEND_ORIGINAL against the other two forests | step-by-step agreement of `extend_block` with `grow` under a zipper invariant, then the ideal forest of C59 as the common reference; free nodes counted by the cover of the pool |
| C114 | descent of the perceptron | derivative of the error along the line of weights given by the step, by induction over the layers (`slope`, `deltas_slope`): it is minus the sum of the squared changes |
| C115 | when the Hoeffding tree splits | the sums of gains of the root are the sums of the gains reported after each point (`gainHistory`, `OneLeaf.history`); `bestTwo` finds the two largest; entropy bounded by log2 of the number of labels (`entropy_le`); witness with five labels |
| C116 | Hoeffding tree in other units | the states of both runs correspond (`Twins`): not split with corresponding counters, or both split (`exec_other`, `run_other`) |
| C117 | Hoeffding tree with renamed labels | the same relation with permuted counters; sums over the labels are reindexed (`gains_ren`); ties by witness |
| C118 | Sending a point down | the tree with extended boxes and one more point (`Received`) is held by the new nodes (`passDown_tree`, by induction over the tree); counters, nesting and sides by induction over `Received` |
| C119 | Confining a tree | walk invariant of the loop of `adjust_boxes` while no box collapses (`adjust_tree`); cut boxes described by their points (`clip_has`); violation by witness |
| C120 | Forced extensions | every function keeps all numbers at least 0 (`fine_runSplit`); bounds of the truncated shares (`trunc_parts`); violations by witnesses |
| C121 | Cleaning of MC-NN | times of clusters in use are between 0 and now (`timed_run`); the difference of triangular numbers is the sum of the times in between (`triangular_sub`) |
| C122 | Reservoir on endless streams | the counter wraps (`incr`), `adds_fill`, `adds_forget`: after `2^32` items any history ends like that of a new object |
| C123 | Chained reservoir on endless streams | potential `n * used + (counter + n - next)` of a slot grows by one per add that samples nothing (`quiet_grow`), a chain with more than 5000 cells in use aborts the next push (`quiet_stuck`); product measure for the probability |
| C124 | Metrics under rounding | rounded versions of the scores (`errScoreR`, `kappaR`, `kappaScoreR`); counts are exact in doubles (`fold_exact`, `kappaR_eq`), so each score is the exact one rounded once or twice |
| C125 | Other coarse forests | a simulation between two objects whose trees are the same up to the places of the nodes (`seen`, `Both`, `Moved`, `Couple`): every step of `extend_block`, trimming, fading, training and prediction does the same in both; histories with different `Op.other` entries are aligned on the object's own calls |
| C126 | Coarse forest in other units | the same simulation, with the points, boxes, splits and times in the other units |
| C127 | Coarse forest with renamed labels | the same simulation, with the counters permuted; ties are a violation |
| C128 | The votes of a Mondrian forest as a distribution | the sum of the means along the way of a query, with `Right` for the boxes and counters of the nodes; exact sums for points at one place, and monotonicity of `(1 - exp(-a t)) / a` for the violation |
| C129 | Counters on long streams | the metrics executed with 32-bit counters (`run32`) against the exact ones, by induction from the end of the history; bounds of all counters and times of MC-NN (`Small`) and of the leaves of the forests (`Right`), reached by copies of one point; the times as doubles with rounding of every operation |
| C130 | MC-NN learns well separated classes | induction over the training sequence: one cluster per seen label, a summary of the points of the label (`OneEach`); the distance to a mean is the mean distance minus the spread (`sqDist_mean`), which bounds the distance to the own and to other centroids |
| C131 | Copies of a chained reservoir | two objects over the same allocated cells (`World`, `runBoth`); every pointer goes to a later allocated cell of the same family (`Lin`), every call writes only to families of its own slots (`Grow`), which gives back the chains of both objects after each call; counterexamples by evaluation |
| C132 | Settings read back | Naive Bayes: histories of all public calls (`session`), induction over the history with the last value set as state; MC-NN: every function that builds a new state keeps the three settings (`SameSettings`) |
| C133 | Perceptron convergence | `learn` runs the two calls for a list of examples; with two layers every output neuron evolves for itself (`learn_rows`, from the specifications of both calls); scalar product with the separating hyperplane grows linearly and the squared length at most linearly with the wrong answers, Cauchy-Schwarz gives the bound; a pass without wrong answers leaves the weights unchanged |
| C134 | Total error of a linear network | the squared distance to a solution drops by `rate (2 - rate |x|^2) error^2` in each step; summed over the sequence; exact factor for a repeated example |
| C135 | LTC symmetries | simulation: each function commutes with moving and with mirroring of points, limits and state (upper and lower limit change places); truncation is odd; what a new object contains does not matter (`Alike`); counterexample by evaluation |
| C136 | Transmitted points lie on the signal; epsilon 0 loses nothing | invariant: both limits are between the limits of the last sample alone, because truncation keeps what is between two integers (`Near`, `run_near`); with epsilon 0 no limit is ever extended, the run equals that of exact arithmetic (`run_lossless`) and C25 applies |
| C137 | Where the average splits a leaf | the relation between a tree before and after training (`GrowsS`) carries the barycenter and the place of the split; induction on the history gives the faded sums the object remembers (`runSplit_sums`); counterexample by evaluation |
| C138 | Copies of a HoeffdingTree | a pair of a tree and the nodes of its copy (`Pair`), with the calls on the copy using the blocks and the memory of the original; simulation of every interleaving by one tree that gets all calls (`Linked`) |
| C139 | MC-NN with integer features | the class again with 32-bit integer arithmetic (`Orp.McnnInt`: overflow is undefined, conversions truncate or wrap); invariant: every cluster in use has the exact sums of a sublist of the points with its label, and its error count has fallen by at most one per point |
| C140 | order and signs of the neurons of a perceptron do not matter | relation between two networks (a permutation and signs per layer) kept by every example: layer outputs and deltas are reindexed sums; twins: the exchange of two equal neurons is a symmetry of the network itself |
| C141 | naive Bayes takes the Bayes decision | score formula of C39 over ℝ: the density of the code is the normal density times a constant, which cancels; logarithms are monotone |
| C142 | weights of naive Bayes are repetitions | estimators are functions of the weighted sums (C37), equal for equal weighted collections; an estimator of weight 0 is never consulted |
| C143 | the gain reported for a limit is that of the split made there | invariant: the first `n` bins of a feature hold the points whose bin is below `n`; with sorted limits these are the points below the limit; entropies rewritten as Shannon entropies of the label counts; witness with a point on the limit |
| C144 | the law of the time at which a group is separated | the tree cut at the time `T` grows in expectation like a tree of a forest with lifetime `T`: what happens after `T` is worth the same as no split; then the martingale of C95 for the cut trees, with a time for every tree |
| C145 | the law of the trained trees is that of Mondrian trees sampled at once | expectation operators `batch` (a tree sampled at once, in `BatchSpec`) and `addPt` (one training step, as an integral over split times and values); main identity `batch_addPt`: sampling for `pts` and then adding `z` is sampling for `pts ++ [z]`, by induction on the depth with the memoryless property of the exponential law and Fubini; the program is connected by changes of variables from the uniform numbers |
| C146 | the law of the predictions does not depend on the training order | the events of C145 are a sigma-algebra on trees, the trained trees are a measurable function of the random numbers, their law is a product measure (`Measure.pi_eq` with C145); the predicted label is a measurable function of the trees |
| C147 | the coarse forest with the original extension is a Mondrian forest in law | almost surely the coarse forest has the same trees and predictions as the unbounded one (C113); the laws of C144, C145, C146 are carried over |
| C148 | expected number of nodes bounded by the box and the lifetime only | by C145 the trees have the law of Mondrian trees sampled at once; induction on the sampler with the bound prod (1 + (lifetime - r) side), which solves the equation of the first split exactly when the two halves are as large as possible; then Markov's inequality and C59, C113 |
| C149 | consistency of naive Bayes on independent examples | sums over the examples of a label (C37) divided by n converge by the strong law of large numbers; mean, variance and posterior are continuous in them; C141 |
| C150 | the leaf of a point has only points of its label, and its label is predicted, up to a probability that does not depend on the stream | 2 F imaginary points around q are trained at the end of the history; training keeps points together, and a point of another label in the leaf of q would have one of the imaginary points between, which by C95 has probability exp(-lifetime d); with discount 0 a split at most halves the distance of the votes to 1, the number of splits is bounded by C148 |
| C151 | transmissions are at most the changes of slope of the signal | while the samples since the kept point are on one line, the limits leave room for the corridor between that line and its parallel through the kept point, clipped to the range; its edges are integers, so truncation keeps the room; hence every transmission is paid for by a change of slope since the one before |
| C152 | mean of the sample: unbiased, variance of simple random sampling, Chebyshev bound | the code treats items as opaque, so the run on numbers is the image of the run on positions; by C93 expectations are averages over all k-subsets; one or two given positions are in k/N and k(k-1)/(N(N-1)) of them |
| C153 | the root is split after finitely many i.i.d. examples if one limit is best; never if limits tie in pairs | the gain of a limit is a continuous function of the shares, so gains and their averages converge (strong law and Cesaro) to the true gains while epsilon tends to 0, and the split rule of C115 fires; with ties the difference of the two best averages is always 0 |
| C154 | predictions on i.i.d. examples: violated (witness in which the tree splits and still predicts one label); in the long run the most probable label is predicted for every query | the counters of the labels differ from those of the stream by a constant (the points before the split), so by the strong law the scores converge to the shares of the labels; C153 gives the split in the witness |
| C155 | the scores as estimates: Hoeffding bound and almost sure limits | C34 and C35 give the scores as functions of counts; Hoeffding's inequality for the errors, strong law for the counts, continuity of kappa |
| C156 | sum and number of the items of the exponential reservoir as random variables | the sum is a sum of indicators of positions; C63 gives their probabilities; Markov for the free slots |
| C157 | Hoeffding bound for the mean over the reservoir (sampling without replacement) | C93 makes the moment generating function a mean over subsets; Maclaurin's inequality for elementary symmetric sums; Hoeffding's lemma; Chernoff |
| C158 | majority of many trees: probability of the label with the largest expected vote | C146/C147 make the trees independent Mondrian trees sampled from scratch; the votes of a tree are bounded by induction; Hoeffding's inequality for the differences of the votes and a union bound over the labels |
| C159 | relocation makes room; the last place of a bucket is never relocated | two iterations of the loop of add for the positive part; inductions over the loop for the last place and for a bucket without a way out |
| C160 | copies of kappa metrics | closed form of the copy loops; invariant over programs: every object has the members that its own history leaves in a new object |
| C161 | `feed_forward` with rounding | rounded copy of the loops; error of a rounded scalar product by induction over its terms, then by induction over the layers with the Lipschitz constant |
| C162 | reservoir sampling with a random function of `R` values | coupling with ideal random numbers: the decisions differ only if a number falls into one of `k` cells of the grid; product measure for the long run |
| C163 | random functions that can return exactly 1 | the loop of `shuffle` with indices at most `i`; the split value is the upper end of the gap exactly if the number is 1; witnesses for reservoirs and training; histories of both forests by induction, with the number of points in every leaf instead of the separation as invariant |
| C164 | `shuffle` with a random function of `R` values | coupling with ideal random numbers as in C162; pigeonhole principle for the first exchange |
| C165 | the exponential reservoir with a random function of `R` values | coupling along the random walk of the reservoir: in every state the step differs only on a set of probability `k/R` (Fubini for the last draw); invariant for the number of items |
| C166 | number of cells of the heap of the chained reservoir | what a call allocates is the growth of the chains by `push_on_chain`; without obsolete the lengths of the chains add up to the heap and stay below 5002 by the assertion; with obsolete a history by induction on the number of rounds |
| C167 | `pick` and the split of the Mondrian trees with the grid `0, 1/R, …, (R-1)/R` of C162 | the set of numbers with a given index is the difference of two sets `grid u ≤ x`, whose probability is the share of the grid points; 0 is a grid point and is at most every probability |
| C168 | the chained reservoir with a random function of `R` values | coupling with ideal random numbers as in C162: an item makes a difference only if a number is in one of `n` grid cells; what a slot shows is determined by the items that replace it |
| C169 | `rand_exponential` with a random function of `R` values | the value is at most `x` iff the number is at most `1-exp(-rate·x)`, then the count of grid numbers of C167; the negations (value 0, bound `log R/rate`, Mondrian split always made) with their probabilities |
| C170 | training with a point inside the boxes on its way | the box of a leaf is the hull of points that reach it, so it is inside the boxes above; there the extents are all 0 and nothing is drawn; induction on the tree and on the loop over the trees |
| C171 | number of random numbers used by `train` | position in the random sequence before and after: at most three numbers at each node on the way down, induction on the tree, the loop over the trees and the history; the levels are at most the nodes, and in the unbounded forest at most the points |
| C63 | ExponentialReservoirSampling with ideal uniform draws | one-step law, Markov walk over positions |
| C64 | Utils::shuffle_array | bijection between draw indices and cyclic permutations; measure of each index cell |
| C65 | Utils::rand_exponential over ℝ | measure of the preimage of an interval |
| C66 | ChainedReservoirSampling with ideal draws | false of the code: law of the first replacement; exact joint law of the shown items: a slot shows the last item that hit it (`absRun_item`), so the events are products over the items |
| C67 | MCNN | description of the two halves of a split; false if the cluster is its own victim |
| C68 | MultiLayerPerceptron | arithmetic; false by up to 8 bytes |

## 4. Status, findings and parts not modelled

MANIFEST.json has the status of each property. This section records what was found while proving.

### 4.1 Defects and surprises established by theorems

| where | what | theorem |
|-------|------|---------|
| bloom_filter.hpp:87-91 | `set` reads `bit_size` bytes, one per bit (BYTE_SIZE is `sizeof(unsigned char)` = 1): a caller passing a packed array of bit_size/8 bytes is read out of bounds | `Bloom.C04_set_reads_bitSize_bytes` |
| cuckoo_filter.hpp add | a failed add has stored the new fingerprint and dropped another element's | `Cuckoo.C10_…` |
| cuckoo_filter.hpp | with a nonzero `empty_value` a new filter is not empty for its own test, every add fails | `Cuckoo.C13_…` |
| reservoir_sampling.hpp | if the generator may return exactly 1, the slot is one past the end | `Reservoir.C14_…`, `C18_…` |
| utils.hpp pick_from_distribution | `u = 0` picks index 0 even if its probability is 0 | `Utils.C30_…` |
| utils.hpp shuffle_array | Sattolo's variant: only n-cycles are produced, the identity never | `Utils.C31_…`, `C64_…` |
| KappaMetrics | with one label the penalty of `increase_error` indexes out of bounds; kappa is NaN if all weight is in one cell | `Metrics.C35_…` |
| ltc.hpp:72,76 | the limits are extended with truncation toward zero, so slopes below 1 are lost: with epsilon 1 and the default range the reconstruction error can exceed 32761 | `Ltc.C25_error_unbounded`, `C25_not_error_bounded`, `C27_fails_with_truncation` |
| ltc.hpp:122-124 | the new segment starts at `t-1` with the value of the limits at the previous sample: wrong when timestamps have gaps, also in exact arithmetic | `Ltc.C25_gaps_break_the_bound` |
| chained_reservoir.hpp:86-104 | `shift_chain` copies cells through references instead of moving pointers: `obsolete` shows the last element of the chain, not the oldest live one, and can show an element discarded long ago | `Chained.C21_violated`, `C21_stale_element`, `C21_shows_last` |
| chained_reservoir.hpp:173 | the timestamp given to `obsolete` is not itself obsolete, against the comment | `Chained.C22_kept` |
| chained_reservoir.hpp:60 | timestamp 0 marks a free cell: elements with timestamp 0 are overwritten; `shift_chain` can leave the shown element with timestamp 0 | `Chained.C24_timestamp_zero`, `C24_overwrite_after_obsolete` |
| chained_reservoir.hpp:130-133 | threshold `n/counter` is off by one (item n+1 always enters), `round` picks the end slots with half probability | `Chained.C66_…` |
| naive_bayes.hpp:49,78-97 | `smoothing` never influences a prediction | `Bayes.C39_smoothing_ignored` |
| naive_bayes.hpp:87-91 | an untrained label 0 is returned when every score is -inf (or NaN, before training) | `Bayes.C39_unseen_returned`, `C39_no_training` |
| mc_nn.hpp:224,252 | the search starts at distance 1000000 and distances are squared: queries 1000 away from every cluster get `empty_class`, and training points as far from their clusters open new ones | `Mcnn.C44_violated` |
| mc_nn.hpp:191 | a split that evicts a cluster increments the number of clusters: `count_clusters()` exceeds `max_cluster` | `Mcnn.C45_violated_split` |
| mc_nn.hpp:157-160, 187-188 | without a free place a split takes that of the cluster with the lowest participation, even if it is the cluster being split: the second half overwrites the first | `Mcnn.C67_half_lost`, `C67_violated` |
| mc_nn.hpp:157-160, 345-353 | the split of the nearest cluster can evict the cluster that has just absorbed the training point: train returns true and its label is gone | `Mcnn.C46_absorbed_and_evicted` |
| mc_nn.hpp:282-286 | cleaning deactivates clusters without decrementing the number of clusters | `Mcnn.C45_violated_clean` |
| perceptron.hpp:168,177,186 | every `backpropagate` reads `layer_size[-1]` (the value cancels out) | `Mlp.C43_violated`, `C43_only_one_partial` |
| perceptron.hpp:12 | the size is rounded up by a whole `double` even when it is a multiple: the arrays can exceed `max_size` | `Mlp.C68_violated` |
| mondrian.hpp:126 | a random number 0 introduces a split node with the time of its parent | `Mondrian.C52_times_not_strict` |
| mondrian.hpp:147-163 | a random number 0 chooses dimension 0 even if the point is inside the box in it; `lower_value` and `upper_value` are then read uninitialised | `Mondrian.C57_uninitialised` |
| mondrian.hpp:166-224 | when one node is left it is marked as used before the second one is asked for, and lost | `Mondrian.C55_leak` |
| mondrian.hpp:283-290 | with fewer nodes than trees the first `train` writes `nodes[-1]` | `Mondrian.C55_fewer_nodes_than_trees` |
| mondrian.hpp:450-456 | `train` returns an uninitialised variable | `Mondrian.C58_returns_indeterminate` |
| mondrian.hpp:309 | the discount has the wrong sign, `exp(+discount·Δτ)`, and labels without points keep the whole mean of the parent: after one training point the forest predicts any label but that of the point | `Mondrian.C69_single_point` |
| mondrian_unbound.hpp:250,462 | the same two defects: uninitialised values for the random number 0, uninitialised result of `train` | `Unbound.C72_uninitialised`, `C72_returns_indeterminate` |
| mondrian_unbound.hpp:499 | no copy constructor although the destructor deletes: a copy leads to a double delete | `Unbound.C70_copies_unsafe` |
| hoeffding_tree.hpp:51-52,329-337 | `buffer_preset` is never decreased: all leaves share one block of counters, so predictions do not depend on the features | `Hoeffding.C48_prediction_ignores_features` |
| hoeffding_tree.hpp:235-242 | the feature of a limit is looked up with the numbers of bins instead of the numbers of limits: wrong split feature | `Hoeffding.C49_wrong_feature`, `C49_split_partial` |
| hoeffding_tree.hpp:127-131,490 | `operator new` returns `nullptr` without being `noexcept`: the constructor of the node runs on a null pointer when memory is exhausted | `Hoeffding.C50_split_without_memory`, `C50_constructor_without_memory` |
| hoeffding_tree.hpp:211-214 | fewer than two limits: `info_gain[1]` is read out of bounds | `Hoeffding.C50_one_limit_ub` |
| hoeffding_tree.hpp:55-58,315-318 | boxes start at infinity and never shrink: limits after a split are NaN and the tree never splits again | `Hoeffding.C73_at_most_one_split` |
| mondrian_coarse.hpp:2837-2852 | with the default parameters (`EXTEND_NONE`) every tree is one leaf with one point; `train` returns true for points it drops. With `EXTEND_ORIGINAL` and the default limit -1 no node is ever split | `Coarse.C62_default_learns_nothing`, `C62_default_violation`, `C62_default_limit_never_splits` |
| mondrian_coarse.hpp:200-231 | the member `size` of a tree is never initialised nor updated: the node limits of robur and pausing phoenix are not enforced, or stop all growth, depending on what was in memory before | `Coarse.C74_size_never_updated`, `C74_limit_exceeded`, `C74_depends_on_old_memory` |
| mondrian_coarse.hpp:2285-2325 | `node_depth` has a stack of 100 entries and no check: with a depth limit above 101, trees of height 102 are reached and are undefined behaviour | `Coarse.C75_deep_tree` |
| mondrian_coarse.hpp:338-354 | as in mondrian.hpp, a random number 0 can choose a feature without range, and `lower_value`, `upper_value` are read uninitialised | `Coarse.C61_random_zero` |
| mondrian_coarse.hpp:2861-2866 | the constructor does not check that the trees fit into the buffer | `Coarse.C76_no_check` |
| mondrian_coarse.hpp:682-805 | `EXTEND_COUNTER_NO_UPDATE` counts a point that gets a new leaf also in the old subtree | `Coarse.C77_counted_twice` |
| mondrian_coarse.hpp:428-551 | `EXTEND_PARTIAL_UPDATE` drops points when no node can be added, and `train` returns true | `Coarse.C77_dropped` |
| mondrian_coarse.hpp:2347-2416 | `node_reset` returns false when it succeeds | `Coarse.C78_reset_returns_false` |
| mondrian_coarse.hpp:3264-3293 | `predict` with more trees than there are reads past the roots; with 0 trees it divides by zero | `Coarse.C79_too_many_trees` |
| mondrian_coarse.hpp:1309-1437 | `adjust_boxes` makes nodes available while other nodes still refer to them: with `SPLIT_TRIGGER_POSITIVE` children can be available nodes, and after they are taken again the links form a cycle on which `predict` never ends | `Coarse.C82_dangling`, `C82_cycle` |
| mondrian_coarse.hpp:1050-1085, 1481-1497 | the box of the split node is clipped before `adjust_counters` computes the shares: a split leaf keeps all its counters | `Coarse.C83_nothing_moved`, `C83_never_moved` |
| mondrian_coarse.hpp:1190-1231 | a point that splits a leaf and goes to the side with the old counters leaves the other side empty; `predict` divides by the number of points of an empty leaf | `Coarse.C79_empty_leaf` |
| mondrian_coarse.hpp:868-890 | `split_barycenter` is called without regard to the depth limit | `Coarse.C75_split_helper` |
| mondrian_coarse.hpp:257, 2924 | `sum_features` is never initialised: with `SPLIT_HELPER_AVG` the trees and predictions depend on what was in memory before | `Coarse.C84_uninitialised`, `Coarse.C137_violated` |
| mondrian_coarse.hpp:3249-3258 | `eval_scores` looks for the best other label starting from label 0, also if that is the label itself | `Coarse.C85_first_label` |
| mondrian_coarse.hpp:1293-1296 | `count_sides` counts the leaves above the split on the left, and those below on the right | `Coarse.C87_wrong_side` |
| mondrian_coarse.hpp:1489-1496 | `adjust_counters` rounds the kept and the removed part of a counter separately; both can be rounded up (the code then only prints a message) | `Coarse.C88_duplicated` |
| mondrian_coarse.hpp:682-805, 806-979 | with `EXTEND_COUNTER_NO_UPDATE`, and with `EXTEND_BARYCENTER` and a parameter other than 1, boxes are not inside the box of their parent, and on both sides of splits above | `Coarse.C89_no_update`, `C89_barycenter` |
| mondrian_coarse.hpp:2173-2210, 2937-2944 | with `UNBOUND_OPTIMIZE` the loop that updates the counters ends at node 0, trimming and the other ways to extend change counters without an update above, and an empty tree is read at index -1: the labels differ from those without the macro | `Coarse.C96_other_object`, `C96_trim`, `C96_extend`, `C96_too_few_nodes` |
| mondrian_coarse.hpp:3167-3225, 2986-2988 | `tree_printy` keeps 100 levels and starts at the root without a test: with `print_nodes` an empty tree or a tree of height above 101 is undefined behaviour | `Coarse.C97_unprintable`, `C97_deep`, `C97_too_few_nodes` |
| mondrian_coarse.hpp:3226-3249, 2913-2915 | `scory` assigns the scores of a tree instead of adding them, so the line of the forest shows the last tree (and nothing initialised without trees); it counts anew also with `EXTEND_GHOST`, which changes labels | `Coarse.C97_forest_line`, `C97_no_tree`, `C97_ghost` |
| naive_bayes.hpp:32-39 | a label with a constant feature (or a single example) gets the density 1 at that value in all units, while the densities of other labels depend on the units: the predicted label depends on the units | `C102_units_matter` |
| mc_nn.hpp:224,252 | the searches start from the squared distance 1000000, whatever the units: the predicted label depends on the units | `C100_units` |
| ltc.hpp:63-66,72,76 | the slopes are divided by `time_unit_difference`, and so are the elapsed times (as integers): for a unit above 1 the limits are not extended enough, with consecutive timestamps not at all | `Ltc.C104_error_unbounded` |
| utils.hpp:13-22, 30-42 | the last cumulative probability can be below 1 by rounding, so that `pick_from_distribution` returns `size` for random numbers just below 1 | `C107_out_of_range` |
| mondrian.hpp:148-163 | when that happens the dimension is drawn among all, and `lower_value`/`upper_value` are read uninitialised if the point is inside the box in this dimension | `C108_uninitialised` |
| mondrian.hpp:163 | the split value can be rounded up to `upper_value`; the point (or the box) on that side is then routed to the other child | `C108_wrong_leaf` |
| naive_bayes.hpp:16-28 | with weights of very different size the incremental variance becomes negative (its square root is NaN) and the mean leaves the range of the values; a variance of zero computed for different values makes the density 0 at a training point | `C109_negative`, `C109_degenerate` |
| mc_nn.hpp:35-40, 165-184 | the variance `CF2/n - (CF1/n)^2` can be negative by rounding (three points at 0.1); the split then takes the square root of a negative number, both halves get NaN centroids and are never nearest again, so the label is lost | `C110_label_lost` |
| ltc.hpp:72, 76 | with gaps between timestamps, `49 * (1.0 / 49)` is below 1 and is truncated to 0: the upper limit drops by one and the next sample is transmitted needlessly | `C111_needless` |
| mondrian_coarse.hpp:3073-3098 | `otter` compares the margin of the sum of the scores of the shorter trees with a mean of margins of means: for equal forests the direction goes up whenever the margin is positive; with one tree 0/0 is compared | `C112_equal`, `C112_equal_reached`, `C112_values_partial` |
| mondrian_coarse.hpp:3054 | `otter` recounts split nodes also with EXTEND_GHOST, and labels change | `C112_ghost` |
| hoeffding_tree.hpp:229 | the bound uses `4 * log(1/delta) / (2 n)`, i.e. the range 2 of the information gain, whatever the number of labels: with five labels or more the tree splits on less evidence than `delta` promises | `C115_bound_violated` |
| mondrian_coarse.hpp:1337, 1362-1381 | adjust_boxes takes a box without width for a box on the other side: leaves with a single point are removed on the side that should be kept, while the last leaf of the other side may be left | C119_wrong_side |
| mondrian_coarse.hpp:1072-1075, 1210-1213 | FE_DISTRIBUTION_DECREMENT subtracts one also when a helper triggers the split of a leaf without forced extensions, so the number becomes -1 | C120_negative |
| mondrian_coarse.hpp:1066-1071, 1204-1209 | FE_DISTRIBUTION_PROPORTIONAL uses the share of the left side for the node on either side (both branches of the conditional are the same) | C120_wrong_share |
| reservoir_sampling.hpp:39, 65, 71 | the number of items seen is 32 bits wide: after 2^32 items the sampler starts again and the sample is the latest items | C122_restart, C122_latest, C122_not_uniform |
| chained_reservoir.hpp:59, 78 | without obsolete a chain gets a cell about every sample_size/2 items; the assertion aborts the program after 5001 of them, almost surely on a long stream | C123_abort, C123_almost_surely |
| mondrian_coarse.hpp:3264-3293 | of several labels with the same votes the one with the smallest number is predicted | `C127_ties` |
| mondrian.hpp:310, 320-326, 372, mondrian_unbound.hpp (same functions) | the discount has the wrong sign, labels absent from a node keep the whole mean of the parent, and the mean of the hypothetical parent lacks a factor `new_node_discount`: votes are negative or do not add up to 1 | `C128_negative`, `C128_less`, `C128_more` |
| metrics.hpp:4-5, 49-50, 106, mc_nn.hpp:24, mondrian.hpp:36 | counters of type `int` overflow on streams of `2^31` items | `C129_error`, `C129_kappa`, `C129_reservoir`, `C129_reached`, `Orp.Mondrian.C129_forest` |
| chained_reservoir.hpp:13-29 | no copy constructor: a copy shares the chained cells with the original, each changes what the other shows after `obsolete` | `C131_violated`, `C131_violated_original` |
| mc_nn.hpp:393-395 | `get_performance_thr` returns `unsigned int`: 0.5 comes back as 0, negative thresholds are undefined behaviour | `C132_performance_thr_violated`, `C132_performance_thr_ub` |
| ltc.hpp:72, 76, 122 | the conversion to an integer truncates toward zero: whether a point is transmitted depends on the origin of the values | `C135_value_origin_violated` |
| hoeffding_tree.hpp:31, 47, 73 | the class has no copy constructor, and each node keeps the address of its tree: the nodes of a copy use the counters and the memory of the original, so that training the copy trains the original, and a split made through the copy leaves it with children it does not have (undefined behaviour at the next call) | `C138_never_independent`, `C138_original_learns_from_copy`, `C138_split_destroys_copy` |
| mc_nn.hpp:178 | with `int` features, the sum of a coordinate (signed) is divided by the number of points (unsigned): a negative sum becomes a value near 2^32/n, whose square overflows: undefined behaviour at every split of such a cluster | `C139_violated`, `C139_negative_split` |
| hoeffding_tree.hpp:186-193,504,551 | Training puts a point into the bin left of a limit if `x < limit`, but the split at the limit sends a point to the left child if `x <= limit`. Points on a limit (common with integer-valued features) are counted on one side and go to the other: a split can be made for a gain of one bit although it divides nothing. | C143_violated |
| hoeffding_tree.hpp:51-52,329-337 | On a stream of independent examples the tree converges to the classifier that predicts the most frequent label for every query, even if a feature determines the label and the root is split on it. | `Hoeffding.Witness.C154_violated` |
| hoeffding_tree.hpp:228-231 | No rule for ties: if every limit divides the examples like some other limit, for instance because every feature is given twice, the root is never split. | `Hoeffding.C153_ties` |
| cuckoo_filter.hpp:194 | the place of the fingerprint to relocate is `floor(random*(bucket_size-1))`: never the last one. add fails although the fingerprint there could move, even in a nearly empty filter | `Cuckoo.C159_violated`, `C159_last_place_stays` |
| reservoir_sampling.hpp:66-70 | with a random function of `R` values the threshold `sample_size/(counter+1)` has no effect from `sample_size*R` items on: every item is taken with probability `1/R` | `Reservoir.C162_long`, `C162_forgets` |
| mondrian.hpp:163, README.md:199 | with `rand()/RAND_MAX` the number can be 1; the split value is then the larger side of the gap, and the points that are there are routed to the left although the node made for them is on the right | `Mondrian.C163_mondrian_split`, `C163_mondrian_not_separated` |
| utils.hpp:86 | with a random function of `R` values (32768 on many small systems) an array of more than `R+1` elements is not shuffled fairly: some element can never come to the last place | `Utils.C164_never_last` |
| reservoir_sampling.hpp:113-116 | with a random function of `R` values a reservoir with more than `R` places never gets full: the filling ratio exceeds the greatest random number before | `Reservoir.C165_never_full` |
| chained_reservoir.hpp:86-104 | `obsolete` loses the cells it skips: they are neither freed nor used again, so rounds of two items and one `obsolete` take one more cell each, without end | `Chained.C166_leak` |
| utils.hpp:13-21, mondrian.hpp:147-163 | the random number 0, of probability 1/R for a random function of R values, draws the first index even if its probability is 0; the split of a Mondrian tree then uses uninitialised values | `Utils.C167_first_weight_zero`, `Mondrian.C167_mondrian_split`, `C167_mondrian_two_points`, `Unbound.C167_unbound_two_points`, `Coarse.C167_coarse_split` |
| utils.hpp:60-64, mondrian.hpp:141, mondrian_unbound.hpp:233-264, mondrian_coarse.hpp:318 | with a random function of R values `rand_exponential` is 0 with probability 1/R and never above log(R)/rate; a point far outside a Mondrian box is always given a split | `Utils.C169_zero`, `Utils.C169_bounded`, `Mondrian.C169_mondrian_always`, `Unbound.C169_unbound_always`, `Coarse.C169_coarse_time` |

Observed in the source, not stated as theorems: The static `last_returned_node` is shared by all objects
(harmless, C125), a new leaf starts with the fading score 0 although it holds a point, `tree_delete` does not give the nodes it frees back to `node_available` (dead code).

### 4.2 Not modelled

* Floating-point rounding, except in `Verif/Rounding/` (C106 on): elsewhere `double` is an ordered field (ℚ or ℝ). There `Rounding/Float.lean` defines binary formats with gradual underflow, roundings to nearest (any tie-breaking) and the ties-to-even rounding `rn`; exponent overflow is not modelled. Overflow of `int` arithmetic where not mentioned.
* `MCNN` with `feature_type` other than `double` (exact reals) and `int` (32 bits, `Mcnn/IntModel.lean`, C139).
* The overflow of `(layer_size[-1]+1)*layer_size[0]` in the perceptron: the value read out of bounds is an arbitrary integer, computed with exactly.
* `MondrianForest`: the `int` counters are natural numbers; `compute_branching_probability` and the copy constructor of `Node` are not used by the class and not modelled. `exp` and `log` are parameters; the hypotheses of the theorems say what is needed of them (`exp 0 = 1`, `log u < 0` for `0 < u < 1`).
* `MondrianForestUnbound`: pointers are places in a list of all nodes allocated so far; allocation never fails; the virtual functions of leaf and split nodes are one record with the split dimension present or not. The unused parameter `scores` of `predict` is left out.
* `HoeffdingTree`: alignment of nodes and counters in the `char` buffer; `sizeof(Node)` is a parameter; `int` counters are natural numbers; the logarithms are parameters, in the theorems on information gain those of the real numbers; a quotient 0/0 whose NaN the code replaces by 0 is 0.
* `CoarseMondrianForest`: the functions that are only called under `if(false && …)` or not at all (`tree_reset`, `tree_add`, `tree_delete`, `tree_chop`, `tree_reshape`, `split_leaf`, `relocate_node`); the members used only by these.
* Null pointers passed by the caller; the `DEBUG`/`TEST` printing code; `print`-like functions.
