import Verif.RoundingKde
import Verif.Mersenne

/-!
# Integers computed through `double`s

Several sizes and indices of the library are integers that go through floating point: a quotient of two integers, a product
with a random number, or a sampling probability times a number of rows, followed by `floor`, `ceil` or a cast.  Here these
computations are modelled with a rounding `fl` after every operation, and after every conversion from an integer.
-/

namespace Stag

section
variable {K : Type} [Field K] [LinearOrder K] [FloorRing K]

/-- `floor((StagReal) a / (StagReal) b)` (`stag_lib/kde.cpp:468`, `stag_lib/kde.cpp:715`, `stag_lib/cluster.cpp:885`,
`stag_lib/cluster.cpp:959`, `stag_lib/random.cpp:210`, `stag_lib/random.cpp:393`). -/
def floorDivFl (fl : K → K) (a b : Nat) : Int := ⌊fl (fl (a : K) / fl (b : K))⌋

/-- `ceil((StagReal) a / b)` (`stag_lib/cluster.cpp:800`, `stag_lib/kde.cpp:314`). -/
def ceilDivFl (fl : K → K) (a b : Nat) : Int := ⌈fl (fl (a : K) / fl (b : K))⌉

/-- `this_chunk_start` (`stag_lib/kde.cpp:474`, `stag_lib/kde.cpp:724`, `stag_lib/cluster.cpp:888`,
`stag_lib/cluster.cpp:962`) with the chunk size as computed. -/
def chunkStartFl (fl : K → K) (rows threads c : Nat) : Int := c * floorDivFl fl rows threads

/-- `this_chunk_end` (`stag_lib/kde.cpp:475-478`, `stag_lib/kde.cpp:725-728`, `stag_lib/cluster.cpp:889-890`,
`stag_lib/cluster.cpp:963-964`) with the chunk size as computed. -/
def chunkEndFl (fl : K → K) (rows threads c : Nat) : Int :=
  if c = threads - 1 then rows else chunkStartFl fl rows threads c + floorDivFl fl rows threads

/-- The cluster sizes of `sbm` (`stag_lib/random.cpp:207-210`) and `sbm_gt_labels` (`stag_lib/random.cpp:390-393`), as
computed. -/
def sbmSizesFl (fl : K → K) (n k : Nat) : List Int := List.replicate k (floorDivFl fl n k)

/-- `my_genrand_double` (`stag_lib/KMeansRex/mersenneTwister2002.h:185`) with the 32-bit output `y`: `y*(1.0/4294967295.0)`. -/
def genrandDoubleFl (fl : K → K) (y : Nat) : K := fl (fl (y : K) * fl (1 / fl 4294967295))

/-- `randint(0, high)` (`stag_lib/KMeansRex/KMeansRexCore.cpp:86-90`) when `my_genrand_double` returns `r ≥ 0`. -/
def randintFl (fl : K → K) (high : Nat) (r : K) : Int := ⌊fl (fl (high : K) * r)⌋

/-- The new number of rows of the data matrix, `ceil(1.1 * (StagReal) num_rows)` (`stag_lib/data.cpp:182`). -/
def grownRowsFl (fl : K → K) (numRows : Nat) : Int := ⌈fl (fl (11 / 10) * fl (numRows : K))⌉

/-- The argument of the logarithm in `min_log_nmu = floor(log2((StagReal) n * min_mu))` (`stag_lib/kde.cpp:310`) with the
default `min_mu = 1.0 / (StagReal) n` (`stag_lib/kde.cpp:396`, `stag_lib/kde.cpp:405`). -/
def defaultNmuFl (fl : K → K) (n : Nat) : K := fl (fl (n : K) * fl (1 / fl (n : K)))

end

/-- `num_sampled_points = floor(p_sampling * n)` (`stag_lib/kde.cpp:188-191`), as computed. -/
noncomputable def numSampledFl (fl : ℝ → ℝ) (j logNmu : Int) (n : Nat) (offset : Int) : Int :=
  ⌊fl (cknsPSamplingFl fl j logNmu n offset * fl n)⌋

/-- `starting_idx` (`stag_lib/kde.cpp:194-196`), as computed; doubling is exact. -/
noncomputable def startingIdxFl (fl : ℝ → ℝ) (p : ℝ) (n : Nat) : Int :=
  if p ≤ 1 / 2 then ⌊fl (1 - 2 * p)⌋ * n else 0

/-- `CKNSGaussianKDEHashUnit(...)` (`stag_lib/kde.cpp:169-230`) with the number of sampled points and the starting index as
computed. -/
noncomputable def HashUnit.createFl (fl : ℝ → ℝ) (a : ℝ) (data : List (List ℝ)) (logNmu j offset : Int)
    (fs : List (MultiLsh ℝ)) : Outcome HashUnit :=
  let n := data.length
  let J := cknsJ n logNmu
  let p := cknsPSamplingFl fl j logNmu n offset
  let numSampled := numSampledFl fl j logNmu n offset
  let start := startingIdxFl fl p n
  if start < 0 ∨ n < start + numSampled then .ub
  else
    let lshData := (data.drop start.toNat).take numSampled.toNat
    if j = 0 then .ok ⟨n, a, logNmu, j, J, offset, true, false, lshData, E2Lsh.create [] []⟩
    else if lshData.length ≤ 3000 then
      .ok ⟨n, a, logNmu, j, J, offset, false, true, lshData, E2Lsh.create [] []⟩
    else .ok ⟨n, a, logNmu, j, J, offset, false, false, [], E2Lsh.create fs lshData⟩

end Stag
