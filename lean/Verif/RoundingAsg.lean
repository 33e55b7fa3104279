import Verif.RoundingSimilarity

/-!
# `approximate_similarity_graph` in rounded arithmetic (`stag_lib/cluster.cpp`)

The functions of `Verif.Similarity` that build the approximate similarity graph again, with a rounding `fl` after every operation
on `double`s, the rounded kernel of `Verif.RoundingKde` and the rounded graph constructor of `Verif.RoundingGraph`.  The answers
of the CKNS estimators and the random draws are arbitrary numbers, so nothing is rounded there.
-/

namespace Stag

open Pool Graph

/-- The loop of `sample_neighbors` (`stag_lib/kde.cpp:670-689`), rounded. -/
noncomputable def sampleLoopFl (fl : ℝ → ℝ) (E : LibExp) (a : ℝ) (q : List ℝ) :
    Int → List (List ℝ) → ℝ → List ℝ → List Int → List Int
  | _, [], _, _, samples => samples
  | i, x :: xs, total, targets, samples =>
    let total := fl (total + kernelOfFl fl E a q x)
    let count := (targets.takeWhile (fun t => decide (t < total))).length
    let targets := targets.drop count
    let samples := samples ++ List.replicate count i
    if targets.isEmpty then samples else sampleLoopFl fl E a q (i + 1) xs total targets samples

/-- `ExactGaussianKDE::sample_neighbors` (`stag_lib/kde.cpp:661-696`), rounded. -/
noncomputable def ExactKde.sampleNeighborsFl (fl : ℝ → ℝ) (E : LibExp) (e : ExactKde) (q : List ℝ) (degree : ℝ)
    (rs : List ℝ) : List Int :=
  let targets := (rs.map (fun r => fl (degree * r))).mergeSort (fun x y => decide (x ≤ y))
  sampleLoopFl fl E e.a q e.minId e.allData 0 targets []

/-- `estimate_weight` (`stag_lib/cluster.cpp:674-702`) and `estimate_weights` (`stag_lib/cluster.cpp:704-745`), rounded; the
conversion of `n_node` to a `double` is rounded too. -/
noncomputable def KdeTree.weightFl (fl : ℝ → ℝ) (E : LibExp) (data : Mat ℝ) (a : ℝ) (q : List ℝ) : KdeTree → ℝ
  | .leaf lo hi => fl (fl ((hi - lo : Nat) : ℝ) *
      ((gaussianKdeExactFl fl E (exactOn data a lo hi).a (exactOn data a lo hi).allData q).getD 0))
  | .node lo hi (some est) _ _ => fl (fl ((hi - lo : Nat) : ℝ) * est q)
  | .node _ _ none left right => fl (left.weightFl fl E data a q + right.weightFl fl E data a q)

/-- `sample_neighbors` (`stag_lib/cluster.cpp:747-777`), rounded: the possible results, as in `KdeTree.Sample`. -/
def KdeTree.SampleFl (fl : ℝ → ℝ) (E : LibExp) (data : Mat ℝ) (a : ℝ) (q : List ℝ) :
    KdeTree → Nat → Outcome (List Int) → Prop
  | .leaf lo hi, num, out => ∃ rs : List ℝ, rs.length = num ∧ (∀ r ∈ rs, 0 ≤ r ∧ r < 1) ∧
      out = .ok ((exactOn data a lo hi).sampleNeighborsFl fl E q ((KdeTree.leaf lo hi).weightFl fl E data a q) rs)
  | .node _ _ _ left right, num, out =>
    let leftEst := left.weightFl fl E data a q
    let rightEst := right.weightFl fl E data a q
    let myEst := fl (leftEst + rightEst)
    let p := fl (leftEst / myEst)
    if ¬ (myEst ≠ 0 ∧ 0 ≤ p ∧ p ≤ 1) then out = .ub
    else ∃ numLeft ≤ num, (p = 0 → numLeft = 0) ∧ (p = 1 → numLeft = num) ∧
      ∃ l r, (if numLeft > 0 then left.SampleFl fl E data a q numLeft l else l = .ok []) ∧
        (if numLeft < num then right.SampleFl fl E data a q (num - numLeft) r else r = .ok []) ∧
        out = l.bind (fun x => r.bind (fun y => .ok (x ++ y)))

/-- The loop of `sample_asg_edges` (`stag_lib/cluster.cpp:806-832`), `count` nodes from `i` on; the added weight is rounded. -/
noncomputable def chunkWritesLoopFl (fl : ℝ → ℝ) (epn : Nat) (samples : Nat → List Int) (degrees : Nat → ℝ) :
    Nat → Nat → Nat → List (Nat × Triplet ℝ)
  | _, 0, _ => []
  | i, count + 1, next => nodeWrites epn i (samples i) (fl (degrees i / 5)) next
      ++ chunkWritesLoopFl fl epn samples degrees (i + 1) count (next + 2 * epn)

/-- `sample_asg_edges` (`stag_lib/cluster.cpp:791-833`) on the nodes `lo ≤ i < hi`: its writes. -/
noncomputable def chunkWritesFl (fl : ℝ → ℝ) (epn : Nat) (samples : Nat → List Int) (degrees : Nat → ℝ)
    (lo hi : Nat) : List (Nat × Triplet ℝ) :=
  chunkWritesLoopFl fl epn samples degrees lo (hi - lo) (2 * (lo * epn))

/-- The tasks of `approximate_similarity_graph` (`stag_lib/cluster.cpp:885-905`), rounded. -/
noncomputable def asgTasksFl (fl : ℝ → ℝ) (epn : Nat) (samples : Nat → List Int) (degrees : Nat → ℝ)
    (rows threads : Nat) : Tasks (List (Triplet ℝ)) Unit where
  acts := fun c => (chunkWritesFl fl epn samples degrees (chunkStart rows threads c)
    (chunkEnd rows threads c)).map (fun x edges => edges.set x.1 x.2)
  val := fun _ _ => ()

/-- `approximate_similarity_graph` after the samples have been drawn (`stag_lib/cluster.cpp:877-924`), rounded: the possible
results, as in `AsgFrom`. -/
def AsgFromFl (fl : ℝ → ℝ) (n threads epn : Nat) (degrees : Nat → ℝ) (ss : Nat → List Int) (out : Outcome (Graph ℝ)) : Prop :=
  if (∃ i < n, (ss i).length < epn ∨ ∃ v ∈ ss i, v < 0) then out = .ub
  else if n ≤ threads * 2 then
    let writes := chunkWritesFl fl epn ss degrees 0 n
    if (∃ x ∈ writes, 2 * (n * epn) ≤ x.1) then out = .ub
    else out = graphOfTripletsFl fl n (writes.foldl (fun edges x => edges.set x.1 x.2)
      (List.replicate (2 * (n * epn)) ⟨0, 0, 0⟩))
  else if (∃ c < threads, ∃ x ∈ chunkWritesFl fl epn ss degrees (chunkStart n threads c)
      (chunkEnd n threads c), 2 * (n * epn) ≤ x.1) then out = .ub
  else ∃ (m k : Nat) (s : State (List (Triplet ℝ)) Unit),
    Exec (asgTasksFl fl epn ss degrees n threads)
      (init threads (List.replicate (2 * (n * epn)) ⟨0, 0, 0⟩) (libProg threads [true])) m k s ∧
    Complete s ∧ out = graphOfTripletsFl fl n s.shared

/-- `approximate_similarity_graph(data, a, show_progress, cutoff)` (`stag_lib/cluster.cpp:835-924`), rounded: the possible results,
as in `ApproxSimilarityGraph`.  `edges_per_node` and the depth cutoff are computed from a library logarithm; here they are the exact
`edgesPerNode n` and `⌊log epn⌋`, 2 and 0 for every `n ≥ 2`: `3 log 2 = 2.07...` and `log 2 = 0.69...` are far from an integer. -/
def ApproxSimilarityGraphFl (fl : ℝ → ℝ) (E : LibExp) (data : Mat ℝ) (a : ℝ) (cutoff threads : Nat)
    (est : Nat → Nat → List ℝ → ℝ) (out : Outcome (Graph ℝ)) : Prop :=
  let n := data.rows
  let epn := edgesPerNode n
  let tree := KdeTree.build est cutoff ⌊Real.log epn⌋ 0 (n - 1) 0
  let degrees := fun i => tree.weightFl fl E data a (data.row i)
  if cutoff = 0 ∨ epn = 0 then out = .ub
  else ∃ samples : Nat → Outcome (List Int),
    (∀ i < n, tree.SampleFl fl E data a (data.row i) epn (samples i)) ∧
    ((∃ i < n, samples i = .ub) ∧ out = .ub ∨
    ∃ ss : Nat → List Int, (∀ i < n, samples i = .ok (ss i)) ∧ AsgFromFl fl n threads epn degrees ss out)

end Stag
