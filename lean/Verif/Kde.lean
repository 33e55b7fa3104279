import Verif.Lsh
import Verif.Batch
import Verif.Props.Data
import Mathlib.Analysis.SpecialFunctions.Log.Base

/-!
# Model of `stag_lib/kde.cpp`: kernel density estimation

A data point is the list of its coordinates (what `DataPoint` views, see C58); all points have the
same dimension (the assertion of `stag_lib/kde.cpp:53,75` is compiled out; points of different
dimensions are outside the model).  Real arithmetic instead of floating point.  The data matrix is
not modified while an estimator is in use.
-/

namespace Stag

/-! ## Distances -/

section
variable {K : Type} [Field K] [LinearOrder K]

/-- The loop of `squared_distance` (`stag_lib/kde.cpp:56-59`). -/
def sqDistLoop (u v : List K) : Nat → Nat → K → K
  | _, 0, result => result
  | i, n + 1, result =>
    let diff := u.getD i 0 - v.getD i 0
    sqDistLoop u v (i + 1) n (result + diff * diff)

/-- `squared_distance` (`stag_lib/kde.cpp:52-62`). -/
def squaredDistance (u v : List K) : K := sqDistLoop u v 0 u.length 0

/-- The loop of `squared_distance_at_most` (`stag_lib/kde.cpp:78-82`). -/
def sqDistAtMostLoop (u v : List K) (max : K) : Nat → Nat → K → K
  | _, 0, result => result
  | i, n + 1, result =>
    let diff := u.getD i 0 - v.getD i 0
    let result := result + diff * diff
    if result > max then -1 else sqDistAtMostLoop u v max (i + 1) n result

/-- `squared_distance_at_most` (`stag_lib/kde.cpp:72-84`). -/
def squaredDistanceAtMost (u v : List K) (max : K) : K := sqDistAtMostLoop u v max 0 u.length 0

end

open Real

/-! ## The kernel and the exact estimator -/

/-- `gaussian_kernel(a, c)` (`stag_lib/kde.cpp:86-88`). -/
noncomputable def gaussianKernel (a c : ℝ) : ℝ := exp (-(a * c))

/-- `gaussian_kernel(a, u, v)` (`stag_lib/kde.cpp:90-93`). -/
noncomputable def kernelOf (a : ℝ) (u v : List ℝ) : ℝ := gaussianKernel a (squaredDistance u v)

/-- `gaussian_kde_exact` (`stag_lib/kde.cpp:629-637`); `none` is the NaN of `0 / 0`. -/
noncomputable def gaussianKdeExact (a : ℝ) (data : List (List ℝ)) (query : List ℝ) : Option ℝ :=
  let total := data.foldl (fun total i => total + kernelOf a query i) 0
  if data.length = 0 then none else some (total / data.length)

/-- `ExactGaussianKDE` (`stag_lib/kde.h`). -/
structure ExactKde where
  minId : Int
  maxId : Int
  allData : List (List ℝ)
  a : ℝ

/-- `ExactGaussianKDE(data, a)` (`stag_lib/kde.cpp:639-644`). -/
noncomputable def ExactKde.create (data : Mat ℝ) (param : ℝ) : ExactKde :=
  ⟨0, data.rows, (List.range data.rows).map data.row, param⟩

/-- `ExactGaussianKDE(data, a, min_idx, max_idx)` (`stag_lib/kde.cpp:646-655`): rows outside the
matrix are undefined. -/
noncomputable def ExactKde.createRange (data : Mat ℝ) (param : ℝ) (minIdx maxIdx : Int) :
    Outcome ExactKde :=
  if minIdx < maxIdx ∧ (minIdx < 0 ∨ data.rows < maxIdx) then .ub
  else .ok ⟨minIdx, maxIdx,
    (List.range (maxIdx - minIdx).toNat).map (fun t => data.row (minIdx.toNat + t)), param⟩

/-- `ExactGaussianKDE::query(q)` (`stag_lib/kde.cpp:657-659`). -/
noncomputable def ExactKde.query (e : ExactKde) (q : List ℝ) : Option ℝ :=
  gaussianKdeExact e.a e.allData q

/-- The loop of `sample_neighbors` (`stag_lib/kde.cpp:670-689`).  `std::lower_bound` on the sorted
targets finds the first one that is not below the total. -/
noncomputable def sampleLoop (a : ℝ) (q : List ℝ) :
    Int → List (List ℝ) → ℝ → List ℝ → List Int → List Int
  | _, [], _, _, samples => samples
  | i, x :: xs, total, targets, samples =>
    let total := total + kernelOf a q x
    let count := (targets.takeWhile (fun t => decide (t < total))).length
    let targets := targets.drop count
    let samples := samples ++ List.replicate count i
    if targets.isEmpty then samples else sampleLoop a q (i + 1) xs total targets samples

/-- `ExactGaussianKDE::sample_neighbors` (`stag_lib/kde.cpp:661-696`). -/
noncomputable def ExactKde.sampleNeighbors (e : ExactKde) (q : List ℝ) (degree : ℝ)
    (rs : List ℝ) : List Int :=
  let targets := (rs.map (fun r => degree * r)).mergeSort (fun x y => decide (x ≤ y))
  sampleLoop e.a q e.minId e.allData 0 targets []

/-- The answers of one chunk (`stag_lib/kde.cpp:735-741`). -/
noncomputable def ExactKde.answers (e : ExactKde) (points : List (List ℝ)) (lo hi : Nat) :
    List (Option ℝ) :=
  (List.range (hi - lo)).map (fun t => e.query (points.getD (lo + t) []))

/-- `ExactGaussianKDE::query(DenseMat*)` (`stag_lib/kde.cpp:698-764`) with `threads` threads: the
possible results. -/
def ExactKde.BatchQuery (e : ExactKde) (points : List (List ℝ)) (threads : Nat)
    (out : Outcome (List (Option ℝ))) : Prop :=
  if points.length < threads then out = .ok (points.map e.query)
  else ParallelBatch (e.answers points) (some 0) points.length threads out

/-! ## CKNS hash units -/

/-- `ckns_J` (`stag_lib/kde.cpp:107-110`). -/
noncomputable def cknsJ (n : Nat) (logNmu : Int) : Int := ⌈logb 2 n⌉ - logNmu

/-- `ckns_p_sampling` (`stag_lib/kde.cpp:120-125`). -/
noncomputable def cknsPSampling (j logNmu : Int) (n : Nat) (offset : Int) : ℝ :=
  if j = 0 then min 1 ((2 : ℝ) ^ (-offset) / n)
  else min 1 ((2 : ℝ) ^ (-(j + offset)) * (2 : ℝ) ^ (-logNmu))

/-- `ckns_gaussian_rj_squared` (`stag_lib/kde.cpp:127-129`) with `LOG_TWO` of
`stag_lib/kde.cpp:18`. -/
noncomputable def rjSquared (j : Int) (a : ℝ) : ℝ := j * 0.69314718056 / a

/-- `CKNSGaussianKDEHashUnit` (`stag_lib/kde.h`). -/
structure HashUnit where
  n : Nat
  a : ℝ
  logNmu : Int
  j : Int
  J : Int
  offset : Int
  finalShell : Bool
  belowCutoff : Bool
  allData : List (List ℝ)
  lsh : E2Lsh ℝ

/-- `starting_idx` (`stag_lib/kde.cpp:193-195`): the cast applies to `1 - 2 p`, not to the
product. -/
noncomputable def startingIdx (p : ℝ) (n : Nat) : Int :=
  if p ≤ 1 / 2 then ⌊1 - 2 * p⌋ * n else 0

/-- `CKNSGaussianKDEHashUnit(...)` (`stag_lib/kde.cpp:169-230`) on the rows `data`; `fs` are the
random hash functions of the E2LSH table (`stag_lib/kde.cpp:222-228`). -/
noncomputable def HashUnit.create (a : ℝ) (data : List (List ℝ)) (logNmu j offset : Int)
    (fs : List (MultiLsh ℝ)) : Outcome HashUnit :=
  let n := data.length
  let J := cknsJ n logNmu
  let p := cknsPSampling j logNmu n offset
  let numSampled := ⌊p * n⌋
  let start := startingIdx p n
  if start < 0 ∨ n < start + numSampled then .ub
  else
    let lshData := (data.drop start.toNat).take numSampled.toNat
    if j = 0 then .ok ⟨n, a, logNmu, j, J, offset, true, false, lshData, E2Lsh.create [] []⟩
    else if lshData.length ≤ 3000 then
      .ok ⟨n, a, logNmu, j, J, offset, false, true, lshData, E2Lsh.create [] []⟩
    else .ok ⟨n, a, logNmu, j, J, offset, false, false, [], E2Lsh.create fs lshData⟩

/-- `query_neighbors` (`stag_lib/kde.cpp:232-269`). -/
noncomputable def HashUnit.queryNeighbors (h : HashUnit) (q : List ℝ) (neighbors : List (List ℝ)) :
    ℝ :=
  let p := cknsPSampling h.j h.logNmu h.n h.offset
  let rj := rjSquared h.j h.a
  let rjm1 := if h.j > 1 then rjSquared (h.j - 1) h.a
    else if h.j = 0 then rjSquared h.J h.a else 0
  if h.finalShell then
    neighbors.foldl (fun total x =>
      let d := squaredDistance q x
      if d > rjm1 then total + gaussianKernel h.a d / p else total) 0
  else
    neighbors.foldl (fun total x =>
      let d := squaredDistanceAtMost q x rj
      if d > rjm1 then total + gaussianKernel h.a d / p else total) 0

/-- `CKNSGaussianKDEHashUnit::query` (`stag_lib/kde.cpp:271-278`). -/
noncomputable def HashUnit.query (h : HashUnit) (q : List ℝ) : ℝ :=
  if h.belowCutoff || h.finalShell then h.queryNeighbors q h.allData
  else h.queryNeighbors q (h.lsh.getNearNeighbors q)

end Stag
