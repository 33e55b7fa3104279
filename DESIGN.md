# Formal model of staglibrary/stag in Lean 4

## Layout

The model lives in `lean/Verif/`.  Every definition that models code cites the C++ file and lines in
`/repo/stag_lib`.  Property theorems are in `lean/Verif/Props/*.lean` and are called `Cxx_...`; they are kept
apart from models (`Verif/*.lean`) and helper lemmas (`Verif/*Lemmas.lean`).  The small specifications a
reader needs to read a theorem are in `Verif/Spec/*.lean` or at the top of the property file.  `AXIOMS.txt`
lists the axioms of every theorem of `MANIFEST.json` (`tools/axioms.py`).  `seeded/LOG.jsonl` records wrong
programs the theorems were tested against.

## Conventions

* **Outcomes.**  `Outcome α` = `ok a | throw e | ub`: exceptions are values, and undefined behaviour
  (out-of-range raw access, integer conversion of an infinity, ...) is a distinct outcome.  Calls that may
  not return have type `Option (Outcome α)` with a fuel argument, and a theorem says which fuel suffices.
* **Reals.**  `double` is an arbitrary ordered field `K`, or `ℝ` where `sqrt`, `exp`, `log`, `erf` are needed,
  with exact arithmetic.  Rounding is modelled only where said so (C76, C77, C79, C81 - C83, C88, C90: every operation followed by a rounding
  `fl`); overflow to infinity and underflow are not modelled, except in C114, which shows that the local algorithms meet neither; division by zero is made
  visible (`XReal`, NaN cases) where the code can do it, and C91 takes graphs whose weights may be infinite or NaN.
* **Integers.**  `int64_t`, `int` are unbounded unless a theorem is about overflow (`stoi` is 32-bit;
  C38 shows the first 64-bit overflow of the Rand index).
* **Eigen.**  Sparse matrices are concrete compressed-column lists with explicit zeros
  (`Verif/Sparse.lean`); the Eigen operations stag uses are re-implemented on them.
* **Files** are lists of characters.  `safeGetline`, `stoi` and integer printing are concrete.
  `stod`/`operator<<(double)` are a record `Fmt` with laws (what is printed is read back, printed numbers
  contain no separators, an empty string is not a number); `natFmt` and `doubleFmt` are concrete instances that meet
  them.  `doubleFmt` (`Decimal`, C78) is the library's format: `%g` with six significant digits, and `strtod` with
  correct rounding to 53 bits; no infinities, NaNs, negative zeros, hexadecimal texts or locales, and texts of numbers
  below `2^-1022` are all rejected (glibc accepts the exact ones).
* **Nondeterminism.**  Random draws, hash-table iteration order, thread schedules and uninitialised memory
  are universally quantified.
* **Asserts** are compiled out (release build) unless a theorem says otherwise.

## Per property

Status: P proved, p partial (the full statement is false of the code; what holds is proved, and what does
not is proved by counterexample).

| Id | Model | Proof | |
|----|-------|-------|-|
| C01 | `Graph`: `adjacency_from_adj_or_lap`, both constructors, `self_test_` | decision logic, exact acceptance conditions | P |
| C02 | Laplacian + constructor | sparse extensionality | P |
| C03 | `GraphCache`: object with 7 caches and 7 flags | invariant over histories | P |
| C04, C05 | `GraphMutate`: `add_edge`, `remove_edge` | refinement to (n, w), invariant over histories | P |
| C06, C07 | edge count, degrees, volume | counting identities over sorted columns | P |
| C08, C09, C10 | Laplacians, normalised versions over `ℝ`, lazy walk | finite sums, quadratic forms | P |
| C11 | inverse degree matrix with visible division by zero | equation; isolated vertex gives infinity | p |
| C12 - C15 | `==`, named graphs, `+`, `*`, `subgraph` (any hash order) | extensionality, triplet sums | P |
| C16 | `disjoint_union` on the raw arrays | true if the first vertex of the second graph has an edge; else counterexample | p |
| C17 - C19 | raw array conversions, `isSymmetric`, neighbour queries | round trip, equivalences | P |
| C20 - C24 | `Text`, `GraphIO`: line reading, parsers, load/save | induction on streams, round trips | P |
| C25 | `SortEdgelist` | invariant on the blocks of the file, measure | P |
| C26, C27 | `Convert` | composition of C22 - C25 | P |
| C28, C29 | `LocalGraph`: byte-offset binary search with caches | invariant on the offset interval; id -1 and trailing non-vertex lines are counterexamples | p |
| C30, C31 | `Components`: BFS, in memory and on disk | loop invariant, measure | P |
| C32 - C34 | `Cluster`: symmetric difference, conductance, sweep | list lemmas, finite sums, loop invariant | P |
| C35 - C37 | approximate PageRank as a state machine, local clustering | invariants, potential argument, linear algebra | P |
| C38, C39 | `Metrics`: contingency table, ARI, MI, NMI | sums, permutation invariance, convexity of x log x | P |
| C40 - C42 | `Random`: SBM generators with an arbitrary source | invariant over draws | P |
| C43, C44 | `Lsh`, `LshProb`: tables, collision probability with `erf` | set equality; integrals | P |
| C45, C46 | `Kde`: distances, exact KDE | induction, sums | P |
| C47, C49, C56, C60 | `ThreadPool`, `Batch`: transition system; batch queries | invariants over interleavings, termination measure, refinement to sequential runs | P |
| C48, C49 | `Ckns`: shells, hash units, initialisation, query | finite sums over permutations; commuting updates | P |
| C50 - C52 | `Kde`, `Similarity`: sampling, similarity graphs, KDE tree | prefix sums, arithmetic of slots, recursion on the tree | P |
| C53, C62 | `Spectrum`: matrices handed to the solver | shifts of symmetric matrices, spectral theorem, dimension count | P |
| C54 | power method, Rayleigh quotient | eigenbasis expansion | P |
| C55 | `Mersenne`, `KMeans`: generator, seeding, Lloyd iteration | MT19937 recurrence; argmin; cost monotonicity; pigeonhole | P |
| C57, C58 | `Data`: CSV IO, data points | round trip | P |
| C59 | `SpectralCluster` | composition of C53, C62, C55; orthogonal matrices | P |
| C61 | `Cheeger`, `CheegerMath` | discrete Cheeger inequality for the code's sweep | P |
| C63 - C65 | `FileSystem`: the disk as a map from paths to contents, each function as a list of disk operations | invariant on the passes of the sort, case split on the crash point, induction on interleavings | P |
| C66 | `Random` with coins that compare independent uniform numbers with `p`; measure theory of Mathlib | each pair of vertices uses its own random number; product of the measures | P |
| C67 | `Ckns` (constructors, table parameters), `PermStats` (variance of a sum over a random permutation) | variance of one copy, Chebyshev/Markov, median of K1 copies, union over the iterations; explicit counterexamples | P |
| C68 | `Lsh` with Mathlib measures: product of Gaussians, uniform offsets, uniform coefficients | Fubini, image of the Gaussian product under a linear form, product measure of rectangles | P |
| C69 | `AsgLaw`: the distribution of the samples of the KDE tree (uniform numbers at the leaves, binomial numbers at the inner nodes); `RandomDraws` | product measures at the leaves; splitting a number of independent draws binomially between two sources; recursion on the tree; linearity of expectation | P |
| C70 | `StepLaw` (programs with random state and their laws), `SbmLaw` (rejection loop, normal number of edges, coins) | geometric series for the rejection loop, monotone limits, composition of laws, linearity of expectation; a concrete generator from infinite product measures | P |
| C71 | `WeightCache`: mutexes, maps of cached weights and threads of the KDE tree as a step machine; all schedules | invariant (every cached weight is the weight; a mutex is held exactly by the thread between lock and unlock), measure that every step decreases | P |
| C72 | `KMeans` with independent uniform draws (infinite product measure), `PlusPlus` (analysis of the seeding), `StepLaw` | law of the draws; Arthur-Vassilvitskii induction on the uncovered clusters; C55 (Lloyd never increases the cost); Markov; geometric series for the rejection loop of the initialisation "random" | P |
| C73 | `Cluster` (PageRank pushes, sweep, conductance) over the reals, `AclMath` (analysis) | Andersen-Chung-Lang: concave bound on the sweep sets extends to all fractional sets, induction over the steps of the lazy walk; Markov over the seeds for the mass kept inside T; C35 (error of p), C37 (best sweep set), C33 | P |
| C74 | `Tools`: the three `main` functions, with arguments, exit code and effect on the disk | C26, C27, C64 for the conversions, C40, C42 for `stag_sbm` | P |
| C75 | `Vectors`, `Sparse` (`toVec`) | induction over the loop; C12 for graphs | P |
| C76 | `Rounding`: `approximate_pagerank` with a rounding after every operation; rounding to p bits, ties to even | invariant with accumulated perturbations of p and r (backward error), PageRank is a contraction in the 1-norm, mass of r as a potential; negative result by an invariant | P |
| C77 | `RoundingSweep`: degrees, conductance, sweep sets and `local_cluster_acl` with a rounding after every operation | error of the running cut relative to the volume by induction over the sweep; exactness for weights with a common unit; composition with C76; negative result by evaluation in the kernel | P |
| C78 | `Decimal`: `operator<<(double)` and `std::stod` character by character, `doubleFmt` as the format of the model of the file functions | the printed number is the nearest with six digits (as for binary rounding); the text determines and is determined by it; a 53-bit rounding does not change the six digits; the round trips C23, C24, C57 applied to the rounded graph, which has the same file | P |
| C79 | `RoundingGraph`: degree matrix, Laplacian and the constructor with a rounding after every operation | the entries of the computed Laplacian; rounded sums over stored entries and over all coefficients agree; error by induction over the column; exactness for weights with a common unit; negative results by evaluation in the kernel | P |
| C80 | `GraphCache` with the members as memory (`Props/Pointers`): what dereferencing a returned pointer shows after any later history | invariant: set flags imply right contents and the flags of the matrices used; each call either leaves a member or writes the matrix of the current graph | P |
| C81 | `RoundingMetrics`: the counts on 64-bit integers (overflow is undefined behaviour), the last line in doubles | the integer model agrees with C38 where nothing overflows; expected agreement is at most n times the denominator (a second cluster separates n-1 pairs), hence no cancellation; numerator and denominator are rounded alike for equal clusterings | P |
| C82 | `RoundingKde`: distances, kernel, exact estimator and the loop of a hash unit, rounded; `exp` is any function with given relative and absolute error | `Near k` calculus; a rounded running sum of squares never decreases, so the early exit agrees with the full sum; `x exp(-x) <= 1/e` turns the relative error of the exponent into an absolute error of the kernel; rounded radii are monotone in the level, so the shells partition | P |
| C83 | `RoundingLsh`: hash functions and tables with rounded projections (any summation order) and 64-bit keys, overflow is undefined | the table invariant of C43 with computed keys; prefix sums of the key are bounded; a floor is stable away from the cell border | P |
| C84 | no new code: the labels of `spectral_cluster`, the embedding of C59, the eigenvectors of C53; `Spec/Recovery` defines agreement, irregularity and defect | residual of a vector against orthonormal eigenvectors ≤ form / gap; Frobenius distance of three projections; matching from row and column sums; dimension argument for the gap; C72 for the probability | P |
| C85 | no new code: as C84; `Spec/Equitable` defines the normalised weight between a vertex and a cluster, the unevenness and the strength | Davis-Kahan: the part of the cluster indicators outside the span of the returned eigenvectors solves a Sylvester equation with the defect on the right-hand side; C72 (Markov) for the probability | P |
| C86 | `sbm` in exact mode with independent uniform draws (C66), then `compute_eigensystem` and k-means with independent uniform draws; `Spec/Typical` defines typical graphs, visible clusters and the defect | `SbmCoupling`: which draw decides which pair; `Concentration`: Hoeffding (Mathlib), independence of disjoint products; union bound; `TypicalMath`: the second moment of the noise bounds the form on vectors with cluster sums zero; C85 for the span, C72 for k-means; explicit constants, then the limit | P |
| C87 | `general_sbm` and `erdos_renyi` in exact mode with independent uniform draws (C66); `number_of_edges`, degrees, cuts, `is_connected` | Hoeffding for the draws of the pairs of a set, union bound over cuts and vertices; a graph that is not connected has a set of at most half the vertices without an edge to the rest (C31), and the probability that given pairs are all absent is a product | P |
| C88 | `RoundingIndex`: integers obtained from doubles (`floor`/`ceil`/cast of a quotient or product): chunk sizes, cluster sizes, `randint`, matrix growth, numbers of samples of the hash units, default `min_mu` | monotonicity and relative error of rounding to 53 bits; exact scaling by powers of two; evaluation of `fl(1/49)` | P |
| C89 | `Spectrum.powerMethodRandom`, `powerMethodRandomDefault`, `rayleighQuotient`; the start is `n` independent standard normal numbers | the component of the start along the top eigenvector is again normal, so rarely small; Markov for its length; log-convexity of the moments `v' M^k v` (C54); a reflection for the indefinite counterexample | P |
| C90 | the derived matrices, graph sum and scalar multiple, and histories of `add_edge`/`remove_edge` with a rounding after every operation (`RoundingMatrices.lean`) | relative error calculus (`Rounding.Near`), counting roundings per entry; refinement of the rounded abstract graph for histories; counterexamples (asymmetric normalised Laplacian, non-associative sum, order of calls) in binary64 by evaluation in the kernel | P |
| C91 | the constructor, `add_edge`/`remove_edge`, degree, Laplacian, sum, scalar multiple, `==` and the edge list loader on IEEE numbers with infinities and NaN (`Special.lean`, `XReal` with IEEE comparisons, exact finite arithmetic) | exact characterisation of acceptance and of the weights (`clean`); refinement of the abstract graph with IEEE addition for histories; agreement with the finite model (`C91_conservative`) | P |
| C92 | no new code: `similarity_graph` (C51) followed by `spectral_cluster` (C59, C85) and `connected_components` (C30); `GroupedPoints` describes the data, `Spec/Points` the two levels of weights and the error | two-level graphs are nearly equitable (`PointsMath`): bounds on the normalised weights give the unevenness and, by test vectors, the gap; then C85 and the Markov bound of C72 | P |
| C93 | no new code: the models of `approximate_pagerank`, sweep sets, `conductance` and `local_cluster_acl` (C33 - C37) on two `LocalGraph`s | non-interference: every query is about a vertex that ends up with an entry in `p` or a neighbour of one (induction over the queue); for graphs in memory, edits elsewhere leave the columns of explored vertices as they are | P |
| C94 | `similarity_graph` again with the rounded kernel of C82 and the rounded constructor of C79 / C90 (`Verif/RoundingSimilarity.lean`) | the triplets have pairwise different places, so `setFromTriplets` adds nothing; symmetry from oddness of the rounding; error bounds from C82; clustering by the lemmas of C92 for graphs with two levels of weights | P |
| C95 | `RoundingKMeans`: the functions of `KMeans` with a rounding after every operation; sums of Eigen are any bracketing of any order (`SumOf`), sums in loops in loop order; `1e-100` is kept | relative errors of sums of non-negative terms and absolute errors of the others; `means_optimal` for the cost; for doubles `n + 1e-100 = n`, `g^(2N) u < 1`; explicit example of a rounded mean | P |
| C96 | `cheegerCut`, `spectralCluster` for an arbitrary solver; `Spec/Inexact`: residuals, distance from an orthonormal family | the sweep bound needs only the Rayleigh quotient of the part of the vector orthogonal to the root degrees; Davis-Kahan for the span of approximate eigenvectors, Minkowski for the change of the k-means cost; examples with solvers that break the exact contract | P |
| C97 | `AsgFrom` (the graph built from given samples, split off `ApproxSimilarityGraph`), `IndependentDraws` (samples of different rows independent, each with the law of C69) | a cut is a linear function of the samples; each row's part is sub-Gaussian (Hoeffding's lemma for one draw, product formula for the two); union bound over the family; a leaf misses at most one average kernel; existence of independent draws; example with 1000 points | P |
| C98 | `AsgFrom`, `IndependentDraws` as in C97, `Graph.connectedComponents` | union bound over draws between clusters and over the subsets of a cluster whose draws stay inside; for these independence and `C(m,s) (s/m)^s ((m-s)/m)^(m-s) <= 1`, a geometric series for small subsets (`ComponentsMath`); a union of components that is not the cluster is such a subset; C30 for `connected_components`; example with 2 x 1000 points | P |
| C99 | `runKMeansFl` of C95 with `streamLaw word32` (independent uniform 32-bit integers) and `runKMeans` of C72 with uniform reals | coupling: the integer is the first 32 bits of the real; outside a set of draws within `w` of the end of an interval (union bound, measure `2 w N` per draw) the rounded and the exact choice are the same row; then C72's expected seeding cost with Markov and C95's monotonicity | P |
| C100 | `ApproxSimilarityGraphFl` with `KdeTree.weightFl`, `KdeTree.SampleFl`, `sampleLoopFl`, `chunkWritesFl`, `graphOfTripletsFl` (RoundingAsg, RoundingSimilarity): the model of C52 with a rounding after every operation | the running totals are monotone and a rounded degree stays below the rounded total (`2 u n < 1`), so no sample is missing; induction over the tree; the triplets at `(i, j)` and `(j, i)` have the same values in the same order, so rounded sums are equal; at most four triplets share a place | P |
| C101 | `ExactKde.sampleNeighborsFl`, `KdeTree.weightFl`, `AsgFromFl` (RoundingAsg) driven by the same independent uniform numbers (`UniformDraws`) as the exact `sampleNeighbors` | the returned lists are the sorted rows the numbers fall on in both models; the rounded running totals and targets are within `tau` times the total of the exact ones (C100_totals), so the rows agree for every number farther than `2 tau` times the total from each of the `n` boundaries; the measure of the other numbers is at most `8 n tau`; on the event that all samples agree the two graphs have the same edges, so the components of C98 carry over; `tau` bounded in double precision | P |
| C102 | `computeEigensystemFl`, `maxDegreeFl`, `shiftDiagFl`, `eigensystemLargestmagFl`, `spectralClusterFl` (RoundingSpectral), on top of `laplacianFl`/`normLaplacianFl` (C90) and `runKMeansFl` (C95); the inner solver is a parameter that is given the rounded matrix; `OpClose` (Spec/Inexact) | entrywise error bounds relative to a nonnegative matrix with known row sums give an operator-norm bound (Schur test, SpectralPerturb); Weyl's inequality for the values ordered by magnitude; residuals over the gap give an `ApproxSystem` (C96), which with the k-means guarantee of C99 gives the clusters; the kernel of a graph with `k` components (C62) gives the end-to-end statement | P |
| C103 | `cheegerScaleFl`, `cheegerCutFl` (RoundingCheeger), on top of `computeEigensystemFl` (C102) and `sweepSetGraphFl` (C77); the inner solver is a parameter | the rounded sweep is an exact sweep up to a factor `1/(1-u)^2` (C77), over a vector whose entries have relative error `(1/(1-u))^3 - 1`; triangle inequalities in the Laplacian seminorm and for the projection; Cheeger's inequality over any vector (C61); the residual of the solver's pair for the exact matrix (C102) bounds its Rayleigh quotient and its overlap with the kernel | P |
| C104 | `mulVecFl`, `normalizeVecFl`, `powerLoopFl`, `powerMethodFl`, `powerMethodRandomDefaultFl`, `rayleighQuotientFl` (RoundingPower): a rounding after every operation, any order of summation; the start is the exact normals rounded once | one product has backward error `eta` in the norm of `B`; the loop is `A^t v` times a positive number plus an error that grows like `(L + eta)^t - L^t`; with a gap the tangent of the angle obeys a contraction with an additive term; moments of the exact start (C89) and stability of the Rayleigh quotient under perturbations; the probability over the start is that of C89; the graph matrices by C90 and Schur's test | P |
| C105 | `entropyFl`, `mutualInformationFl`, `normalisedMutualInformationFl` (RoundingInfo): a rounding after every operation and conversion; the library's `log2` is a parameter with a relative error of `j` roundings | counts up to `n^2` are exact; a rounding of the argument moves a logarithm by at most `(g-1)/ln 2`; the absolute values of the summands of the mutual information add up to at most `2 min(H1,H2) - I`; the entropy of a clustering with two clusters is at least `1/n`, which turns absolute errors into relative ones for the quotient | P |
| C106 | as C100, C101 (the rounded `AsgFromFl`, `sampleNeighborsFl`, `weightFl`) and `conductanceFl` (C77); uniform random numbers as in C101 | the computed degrees have relative error `tau`, hence the weights `g^4 (1+tau) - 1` on the same edges, when no draw is changed by rounding (C101); then C97 for the exact graph, and `C77_conductance_value` | P |
| C107 | as C102 (the rounded matrix, `computeEigensystemFl`, `spectralClusterFl`) and C85, C86 (`Strength`, `unevenness`, `SimpleTypical`); 32-bit random words, and uniform numbers for `sbm` | the `k` smallest eigenvalues are at most `1 - a + √U` (a `k`-dimensional subspace on which the form is small), so the computed matrix has its `k` smallest below the test bound `l` and its eigenvectors are an approximate system (C102); their distance from the clusters is that of the exact system (C85) plus the error; then the core of `C102_probability` and, for `sbm`, `C86_typical` | P |
| C108 | as C94 (`SimilarityGraphFl`) and C107 (`spectralClusterFl`); points in groups as in C92 with a margin for the kernel's rounding error | the computed graph has two levels of weights (C94) and `double` weights, hence strength and a small unevenness (C92, `√U ≤ √error · gap`), so C107 applies | P |
| C109 | as C76 and C77 (`localClusterAclFl`, `conductanceFl`); `localClusterFl` | the quotients by which the sweep sorts, times the degrees, differ from `pr(s - r)` by at most η in the 1-norm (C76), so they satisfy the PageRank equation up to an error of 1-norm 2η; the mixing argument of C73 goes through with such an error; C77 for the set returned | P |
| C110 | as C66, with `canonical` (`std::generate_canonical` of libstdc++ on one 64-bit word) instead of an ideal uniform number; the words are independent and uniform on `0 .. 2^64 - 1` (`UniformWords`) | `canonical` is monotone, so a coin is a threshold on the word, near `2^64 p`; coupling: the first 64 bits of independent uniform reals are such words and the law of the words is determined, so the results differ with at most the probability that one of `n(n-1)/2` coins does | P |
| C111 | as C101, with `canonical` of a 64-bit word instead of a uniform real number (`WordDraws`; there is no row beyond the last, so its words are zero by convention) | the rows are separated by boundaries for the number drawn, the double made of the first 64 bits of a number is within `2^-53 + 2^-64` of it, so a draw changes with probability at most `n (2^-52 + 2^-63)`; the law of the words is determined | P |
| C112 | as C107, with the coins of C110 (`canonical` of 64-bit words); the inner eigen solver is a parameter (`SolverSpec`) | C110 transports C107 from exact coins to words: the set of results is the complement of "a graph that is clustered right" | P |
| C113 | `diskLocalFl`: the object of C28 with `degree` rounded after every operation, on the file that the model of `save_adjacencylist` writes with six digits (C78); histories of queries are arbitrary | the sum is near the exact degree, so C109 holds for the graph with rounded weights; degrees, volumes, cuts and conductances of the two graphs differ by factors of at most `1 ± 13e-6` | P |
| C114 | `Ieee`: `flIEEE ovf` rounds as IEEE 754 does, to multiples of `2^-1074` below `2^-1022`, to the arbitrary `ovf x` on overflow; the programs are those of C76, C77, C109 and C113 with `flIEEE ovf` for `fl` | every intermediate result is a multiple of a power of two (`Grid`) or between two powers of two (`Within`), by induction over the loops and, for the residual of approximate PageRank, over executions (queued entries are at least `ε deg`, total mass at most doubles); so `flIEEE` and `flBin 53` agree on it; on disk (`IeeeDisk.lean`) the weights read back are doubles in the range | P |
| C115 | the programs of C90 with `flIEEE ovf` for `fl` | every stored entry is within a range preserved by the matrix operations (`SprsMat.All`, one lemma for Eigen's merge, map and update each), so the rounded matrices are equal as stored; induction over histories, the range growing by two units for every call | P |

## Trusted base

* Lean 4.33.0's kernel; only the axioms `propext`, `Classical.choice`, `Quot.sound` (see `AXIOMS.txt`).
  No axiom is declared, no `native_decide`/`bv_decide`.
* The reading of the C++ code recorded in the citations, and the simplifications stated there.
* The behaviour of Eigen's sparse matrices, the C++ standard library and the file system as modelled.
* Hypotheses that stand for code outside the repository, each shown satisfiable:
  * `Fmt` (number formatting) - instances `natFmt`, `doubleFmt`; the CSV/edgelist round trips need the weights involved to be
    printed so that reading gives them back (`printable`), and `hone` (that "1" is what is read back as 1)
    where the SBM writer prints unit weights;
  * `Rng` laws for the binomial and uniform distributions of the standard library (ranges only);
  * `SolverSpec` (the Spectra eigenvalue solver: if it converges on a symmetric matrix it returns
    orthonormal eigenpairs of largest magnitude) - `C53_contract_satisfiable`;
  * laws of random draws, where a property is about probabilities: C66, C68, C69, C70, C72, C84 - C87, C89, C92, C96 - C99, C101, C102, C104 and C106 - C108 (and, for its 64-bit words, C110 - C112) take the numbers drawn by the library to
    be independent, with the distributions named in the code (Mathlib's measures; `streamRng_source` is a generator that meets the assumptions of C70); C67 counts permutations; C110 models libstdc++'s `bernoulli_distribution` (one word per coin, converted by `canonical`), C111 `uniform_real_distribution` likewise;
  * `LogAccurate` (C105: the library's `log2` has a relative error of at most two roundings; glibc documents less than one ulp) - `C105_satisfiable`;
  * thread pool: sequential consistency, one client thread, each modelled action atomic (lock regions are
    single actions, as the mutex allows; the unlock at the end of a region is merged with it).

## Not modelled

Floating-point rounding outside C76 - C79, C81 - C83, C88, C90, C94, C95 and C99 - C115 (the eigenvectors and k-means of C94 are exact), underflow and overflow outside C114 (and C91), fused or extended-precision arithmetic; directories, permissions, links and full disks (C63 - C65 model paths and contents only); the inside of Spectra, Eigen and the standard library; the constructors and accessors that only forward;
the Python bindings (not in this repository); printing of progress messages.

## Where the code disagrees with its documentation (each proved)

* C02, C06, C12: an edge added with weight 0 is stored: it is counted, breaks `==` and the Laplacian round
  trip; C30: and it connects; C09, C10: at a vertex of degree zero it makes entries of the normalised
  Laplacians and of the lazy walk matrix NaN.
* C05: a zero-weight self-loop sets `has_self_loops`.
* C10, C35: a self-loop makes the walk lose probability mass.
* C11: `inverse_degree_matrix` of an isolated vertex is infinite, not 0.
* C13: `cycle_graph(2)` has an edge of weight 2.  C14: a negative scalar raises a domain error.
* C16: `disjoint_union` corrupts the matrix if the first vertex of the second graph is isolated.
* C21: an unreadable last field is ignored.  C22: `out_of_range` escapes instead of `runtime_error`.
* C24: a negative id in an adjacency list is undefined behaviour.  C25: debug assertions fail on valid files.
* C27: a self-loop comes back with double weight.
* C28: `vertex_exists(-1)` is true.  C29: queries never return on files that end with a comment or blank line.
* C33: `conductance` counts a self-loop once and a repeated vertex twice.
* C34: the sweep sorts in decreasing order though the documentation says increasing.
* C36: `alpha = 0` never returns.  C37: the result is empty when the target volume is below the seed's degree.
* C38: NaN for trivial clusterings; 64-bit overflow from 77937 points on.
* C40: `sbm(n, k, ...)` has only `k * floor(n/k)` vertices.  C42: trailing isolated vertices are lost.
* C43: points can collide without agreeing on any full set of hash functions.
* C44: the documented density is off by a factor of two; the formula jumps at distance 1.
* C45: with no coordinates the distance bound is ignored.  C46: no data gives NaN.
* C47, C51: if `hardware_concurrency()` is 0 all answers are 0 / the graph has no edges.
* C48: points at distance 0 are never counted; the outermost ring is never sampled unless n is a power of 2.
* C49: without threads the constructor hangs; with one data point queries are undefined.
* C50: fewer samples than asked for when the degree estimate is too large.
* C52: off-by-one in the node size: the last point of a leaf may never be drawn; fewer than two points is UB.
* C69: the expected weight in `approximate_similarity_graph` is at most 4/5 of the kernel, and smaller still for the last
  rows of a leaf.
* C70: in approximate mode `general_sbm` takes `m²/2` for the number of possible edges inside a cluster of `m` vertices, so
  their expected weight is about `p m/(m-1)`; large blocks with less than one expected edge always stay empty.
* C71: the cached weights are keyed by the id only: asking with the same id and another point returns the old weight
  (the library itself never does that).
* C55: the generator can return 1, and then the seeding reads a row that does not exist; an emptied cluster
  moves to the origin.
* C72: with the initialisation "random" and more clusters than points `RunKMeans` never returns (the library itself only uses
  "plusplus", with the fixed seed 42, so the probabilities of C72 are over idealised draws).
* C56: without workers nothing runs.  C57: exceptions of `stod` escape, a bad last field is dropped.
* C58: row indices are not checked.
* C59: spectral clustering can split a connected component although k is the number of components.
* C60: worker tasks draw from the global generator without protection.
* C61: the Cheeger bound fails on disconnected graphs.
* C63: there are moments during `sort_edgelist` when the file is gone or empty; interrupted saves load as smaller
  graphs without an error.
* C64: `adjacencylist_to_edgelist` empties its output before it looks for its input; in place it destroys the
  graph without an error; a failed `edgelist_to_adjacencylist` leaves a temporary file behind.
* C65: two processes use the same temporary names; two sorts of unrelated files can destroy both files.
* C76: if `1 - alpha` rounds to 1, `approximate_pagerank` may never return although `alpha > 0`.
* C77: because of rounding, `sweep_set_conductance(Graph*)` can return the whole vertex set (complement of volume 0).
* C83: points with coordinates around 10^11 make the combined hash value of `MultiLSHFunction` overflow (undefined behaviour).
* C91: a graph with a NaN edge (possible through `add_edge` only) differs from itself; one NaN line of an edge list silently
  removes the edge; the Laplacian of a graph with an infinite edge loses the self-loops at its ends.
* C81: `adjusted_rand_index` of two one-cluster labellings is NaN or 1.0 depending on the number of points; undefined behaviour from 77937 points on.
* C79: because of rounding, `Graph(*g.laplacian())` can throw `std::domain_error` (two edges of weight 0.2 and 0.5 at one
  vertex) or add self-loops (weights 10000000 and 0.3).
* C78: files keep six significant digits of weights and data: `16777217` is read back as `16777200`; an edge of weight
  barely above `EPSILON` is written as `1e-10` and lost; the smallest normal `double` is written as `2.22507e-308`,
  on which `load_matrix` lets `std::out_of_range` escape.
* C67: the (1+eps) guarantee fails for points equal to the query (answer 0, density 1) and for points of the outermost
  ring (answer 0, density at least `min_mu`); the default `eps` is 1 although the documentation says 0.5.
* C74: `stag_sbm` accepts `n/2 < k <= n`, which `sbm` rejects, although documented as equivalent; with bad numbers it has already overwritten the file when it fails; it makes `k * (n / k)` vertices, not `n`;
  exceptions of the library are not caught by any of the tools.
* C88: `1/49*49 < 1` in doubles, so with 49, 98, 196, ... rows the outermost level of the density estimator samples no row
  at all (instead of one), and `min_log_nmu` is -1 instead of 0.
* C90: in doubles the computed normalised Laplacian need not be symmetric (degrees 9 and 49, weight 7/2), and sums of graphs and orders of `add_edge` calls are not interchangeable
