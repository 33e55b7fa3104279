import Verif.Kde
import Verif.Graph

/-!
# Model of `stag_lib/cluster.cpp`: similarity graphs

As in `Verif.Kde`, the points are the rows of the data matrix and arithmetic is real.
`threads` is `std::thread::hardware_concurrency()`.  (With 0 threads the chunk size is the conversion
of an infinity to an integer, formally undefined; its value is not used.)
-/

namespace Stag

open Pool Graph

/-! ## `similarity_graph` -/

/-- The loop over `j` for one `i` (`stag_lib/cluster.cpp:944-953`, `stag_lib/cluster.cpp:978-986`). -/
noncomputable def simRow (a : ℝ) (data : Mat ℝ) (i : Nat) : List (Triplet ℝ) :=
  (List.range' i (data.rows - i)).flatMap (fun j =>
    let weight := kernelOf a (data.row i) (data.row j)
    ⟨i, j, weight⟩ :: (if i ≠ j then [⟨j, i, weight⟩] else []))

/-- The edges of the rows `lo ≤ i < hi` (`stag_lib/cluster.cpp:943-955`,
`stag_lib/cluster.cpp:976-989`). -/
noncomputable def simEdges (a : ℝ) (data : Mat ℝ) (lo hi : Nat) : List (Triplet ℝ) :=
  (List.range' lo (hi - lo)).flatMap (simRow a data)

/-- `setFromTriplets` and the constructor of the graph (`stag_lib/cluster.cpp:920-923`,
`stag_lib/cluster.cpp:1001-1004`). -/
noncomputable def graphOfTriplets (n : Nat) (l : List (Triplet ℝ)) : Outcome (Graph ℝ) :=
  SprsMat.setFromTriplets n n l >>= ofMatrix

/-- `similarity_graph` (`stag_lib/cluster.cpp:935-1005`): the possible results. -/
def SimilarityGraph (data : Mat ℝ) (a : ℝ) (threads : Nat) (out : Outcome (Graph ℝ)) : Prop :=
  if data.rows ≤ threads * 2 then out = graphOfTriplets data.rows (simEdges a data 0 data.rows)
  else ∃ (m k : Nat) (s : State Unit (List (Triplet ℝ))),
    Exec (chunkTasks (simEdges a data) data.rows threads) (init threads () (libProg threads [true]))
      m k s ∧ Complete s ∧
    out = graphOfTriplets data.rows ((List.range threads).flatMap (futureValue s.finished))

/-! ## `approximate_similarity_graph` -/

/-- `KDETreeEntry` (`stag_lib/cluster.cpp:628-789`): a node for the rows `lo, ..., hi` (both
included).  A leaf has an exact estimator; an inner node may have a CKNS estimator, given by the
answers it gives. -/
inductive KdeTree where
  | leaf (lo hi : Nat)
  | node (lo hi : Nat) (est : Option (List ℝ → ℝ)) (left right : KdeTree)

/-- The constructor of `KDETreeEntry` (`stag_lib/cluster.cpp:630-658`) with `node_cutoff ≥ 1` (with a
cutoff of 0 or less the recursion never ends; the test `lo < hi` is there for Lean only).
`est lo hi` are the answers of the CKNS estimator made for the node. -/
noncomputable def KdeTree.build (est : Nat → Nat → List ℝ → ℝ) (cutoff : Nat) (depthCutoff : Int)
    (lo hi depth : Nat) : KdeTree :=
  if cutoff ≤ hi - lo ∧ lo < hi then
    .node lo hi (if (depth : Int) > depthCutoff then some (est lo hi) else none)
      (KdeTree.build est cutoff depthCutoff lo ((lo + hi) / 2) (depth + 1))
      (KdeTree.build est cutoff depthCutoff ((lo + hi) / 2 + 1) hi (depth + 1))
  else .leaf lo hi
termination_by hi - lo
decreasing_by all_goals omega

/-- `initialise_exact` (`stag_lib/cluster.cpp:670-672`): the estimator on the rows `lo, ..., hi`
(`exactOn_eq` shows that this is what the constructor makes). -/
noncomputable def exactOn (data : Mat ℝ) (a : ℝ) (lo hi : Nat) : ExactKde :=
  ⟨lo, hi + 1, (List.range (hi + 1 - lo)).map (fun t => data.row (lo + t)), a⟩

/-- `estimate_weight` (`stag_lib/cluster.cpp:674-702`) and, row by row, `estimate_weights`
(`stag_lib/cluster.cpp:704-745`; the batch queries answer like the single ones, C47).  The cache
returns what was computed before, a value that does not change; its accesses are under a mutex.
`n_node` is `max_idx - min_idx`: one less than the number of rows. -/
noncomputable def KdeTree.weight (data : Mat ℝ) (a : ℝ) (q : List ℝ) : KdeTree → ℝ
  | .leaf lo hi => ((hi - lo : Nat) : ℝ) * (((exactOn data a lo hi).query q).getD 0)
  | .node lo hi (some est) _ _ => ((hi - lo : Nat) : ℝ) * est q
  | .node _ _ none left right => left.weight data a q + right.weight data a q

/-- `sample_neighbors` (`stag_lib/cluster.cpp:747-777`): the possible results.  The uniform draws are
in `[0, 1)`; a binomial draw with probability 0 or 1 is certain, and the distribution is undefined
unless its parameter is a number in `[0, 1]`. -/
def KdeTree.Sample (data : Mat ℝ) (a : ℝ) (q : List ℝ) : KdeTree → Nat → Outcome (List Int) → Prop
  | .leaf lo hi, num, out => ∃ rs : List ℝ, rs.length = num ∧ (∀ r ∈ rs, 0 ≤ r ∧ r < 1) ∧
      out = .ok ((exactOn data a lo hi).sampleNeighbors q ((KdeTree.leaf lo hi).weight data a q) rs)
  | .node _ _ _ left right, num, out =>
    let leftEst := left.weight data a q
    let rightEst := right.weight data a q
    let myEst := leftEst + rightEst
    if ¬ (myEst ≠ 0 ∧ 0 ≤ leftEst / myEst ∧ leftEst / myEst ≤ 1) then out = .ub
    else ∃ numLeft ≤ num, (leftEst / myEst = 0 → numLeft = 0) ∧ (leftEst / myEst = 1 → numLeft = num) ∧
      ∃ l r, (if numLeft > 0 then left.Sample data a q numLeft l else l = .ok []) ∧
        (if numLeft < num then right.Sample data a q (num - numLeft) r else r = .ok []) ∧
        out = l.bind (fun x => r.bind (fun y => .ok (x ++ y)))

/-- The writes `edges[next_index] = ...; next_index++` for one node
(`stag_lib/cluster.cpp:815-823`): index and value. -/
noncomputable def nodeWrites (epn i : Nat) (samples : List Int) (w : ℝ) (next : Nat) :
    List (Nat × Triplet ℝ) :=
  (List.range epn).flatMap (fun j =>
    [(next + 2 * j, ⟨i, (samples.getD j 0).toNat, w⟩), (next + 2 * j + 1, ⟨(samples.getD j 0).toNat, i, w⟩)])

/-- The loop of `sample_asg_edges` (`stag_lib/cluster.cpp:806-832`), `count` nodes from `i` on. -/
noncomputable def chunkWritesLoop (epn : Nat) (samples : Nat → List Int) (degrees : Nat → ℝ) :
    Nat → Nat → Nat → List (Nat × Triplet ℝ)
  | _, 0, _ => []
  | i, count + 1, next => nodeWrites epn i (samples i) (degrees i / 5) next
      ++ chunkWritesLoop epn samples degrees (i + 1) count (next + 2 * epn)

/-- `sample_asg_edges` (`stag_lib/cluster.cpp:791-833`) on the nodes `lo ≤ i < hi`: its writes. -/
noncomputable def chunkWrites (epn : Nat) (samples : Nat → List Int) (degrees : Nat → ℝ)
    (lo hi : Nat) : List (Nat × Triplet ℝ) :=
  chunkWritesLoop epn samples degrees lo (hi - lo) (2 * (lo * epn))

/-- The tasks of `approximate_similarity_graph` (`stag_lib/cluster.cpp:885-905`): each write to the
shared vector is an action. -/
noncomputable def asgTasks (epn : Nat) (samples : Nat → List Int) (degrees : Nat → ℝ)
    (rows threads : Nat) : Tasks (List (Triplet ℝ)) Unit where
  acts := fun c => (chunkWrites epn samples degrees (chunkStart rows threads c)
    (chunkEnd rows threads c)).map (fun x edges => edges.set x.1 x.2)
  val := fun _ _ => ()

/-- `edges_per_node` (`stag_lib/cluster.cpp:838`). -/
noncomputable def edgesPerNode (n : Nat) : Nat := min ⌊3 * Real.log n⌋₊ 2

/-- `approximate_similarity_graph` after the samples have been drawn (`stag_lib/cluster.cpp:877-924`
with the writes of `sample_asg_edges`, `stag_lib/cluster.cpp:791-833`): the possible results when vertex `i` has the
neighbours `ss i`.  Undefined: missing samples and indices outside the vectors. -/
def AsgFrom (n threads epn : Nat) (degrees : Nat → ℝ) (ss : Nat → List Int) (out : Outcome (Graph ℝ)) : Prop :=
  if (∃ i < n, (ss i).length < epn ∨ ∃ v ∈ ss i, v < 0) then out = .ub
  else if n ≤ threads * 2 then
    let writes := chunkWrites epn ss degrees 0 n
    if (∃ x ∈ writes, 2 * (n * epn) ≤ x.1) then out = .ub
    else out = graphOfTriplets n (writes.foldl (fun edges x => edges.set x.1 x.2)
      (List.replicate (2 * (n * epn)) ⟨0, 0, 0⟩))
  else if (∃ c < threads, ∃ x ∈ chunkWrites epn ss degrees (chunkStart n threads c)
      (chunkEnd n threads c), 2 * (n * epn) ≤ x.1) then out = .ub
  else ∃ (m k : Nat) (s : State (List (Triplet ℝ)) Unit),
    Exec (asgTasks epn ss degrees n threads)
      (init threads (List.replicate (2 * (n * epn)) ⟨0, 0, 0⟩) (libProg threads [true])) m k s ∧
    Complete s ∧ out = graphOfTriplets n s.shared

/-- `approximate_similarity_graph(data, a, show_progress, cutoff)` (`stag_lib/cluster.cpp:835-924`):
the possible results, for estimators of the inner nodes that answer `est`.  Undefined: a cutoff of 0
(endless recursion); fewer than two rows (a logarithm of zero is converted to an integer); missing
samples and indices outside the vectors.  The progress bar is not modelled, and neither is the data
race on the random generator (C60): the samples of each node are arbitrary possible ones.  The overloads
without a cutoff (`stag_lib/cluster.cpp:926-932`) use 5000. -/
def ApproxSimilarityGraph (data : Mat ℝ) (a : ℝ) (cutoff threads : Nat)
    (est : Nat → Nat → List ℝ → ℝ) (out : Outcome (Graph ℝ)) : Prop :=
  let n := data.rows
  let epn := edgesPerNode n
  let tree := KdeTree.build est cutoff ⌊Real.log epn⌋ 0 (n - 1) 0
  let degrees := fun i => tree.weight data a (data.row i)
  if cutoff = 0 ∨ epn = 0 then out = .ub
  else ∃ samples : Nat → Outcome (List Int),
    (∀ i < n, tree.Sample data a (data.row i) epn (samples i)) ∧
    ((∃ i < n, samples i = .ub) ∧ out = .ub ∨
    ∃ ss : Nat → List Int, (∀ i < n, samples i = .ok (ss i)) ∧ AsgFrom n threads epn degrees ss out)

end Stag
