import Verif.Graph
import Mathlib.Analysis.SpecialFunctions.Log.Base

/-!
# Model of the clustering metrics (`stag_lib/cluster.cpp:374-516`)

Integers are unbounded here; `Props/Metrics.lean` says when the 64-bit products of the code cannot
overflow.
-/

namespace Stag

/-- `nChoose2` (`stag_lib/cluster.cpp:377-383`). -/
def nChoose2 (n : Int) : Outcome Int :=
  if n < 0 then .throw .invalidArgument else if n < 2 then .ok 0 else .ok (n * (n - 1) / 2)

/-- One of the loops which find the number of clusters (`stag_lib/cluster.cpp:394-405`). -/
def labelLoop : List Int → Int → Outcome Int
  | [], k => .ok k
  | l :: ls, k =>
    if l < 0 then .throw .invalidArgument else labelLoop ls (if k - 1 < l then l + 1 else k)

/-- `contingency(x, y)++` for each pair of labels (`stag_lib/cluster.cpp:417-419`). -/
def tally (t : Int → Int → Int) (p : Int × Int) : Int → Int → Int :=
  fun i j => if i = p.1 ∧ j = p.2 then t i j + 1 else t i j

/-- `contingency_table` (`stag_lib/cluster.cpp:385-422`): the number of rows and the entries. -/
def contingencyTable (gt lab : List Int) : Outcome (Int × (Int → Int → Int)) :=
  if lab.length ≠ gt.length then .throw .invalidArgument
  else do
    let k ← labelLoop gt 1
    let k ← labelLoop lab k
    .ok (k, (gt.zip lab).foldl tally (fun _ _ => 0))

/-- `compute_cluster_sizes` (`stag_lib/cluster.cpp:424-431`); a missing key reads as `0`
(`operator[]`). -/
def clusterSizes (l : List Int) : Int → Int :=
  l.foldl (fun m x => fun i => if i = x then m i + 1 else m i) (fun _ => 0)

/-- The loop `for (i = 0; i < k; i++) c += f(i)`. -/
def sumLoop (f : Int → Outcome Int) (k : Nat) : Outcome Int := do
  let xs ← Outcome.mapM' (fun i : Nat => f (i : Int)) (List.range k)
  .ok xs.sum

section
variable {K : Type} [Field K] [LinearOrder K]

/-- IEEE quotient up to rounding (zeros are taken to be `+0.0`). -/
def XReal.div : XReal K → XReal K → XReal K
  | .nan, _ => .nan
  | _, .nan => .nan
  | .fin a, .fin b =>
    if b ≠ 0 then .fin (a / b) else if a = 0 then .nan else if 0 < a then .posInf else .negInf
  | .fin _, .posInf => .fin 0
  | .fin _, .negInf => .fin 0
  | .posInf, .fin b => if b < 0 then .negInf else .posInf
  | .negInf, .fin b => if b < 0 then .posInf else .negInf
  | .posInf, .posInf => .nan
  | .posInf, .negInf => .nan
  | .negInf, .posInf => .nan
  | .negInf, .negInf => .nan

/-- The integers `c1`, `c2`, `c3`, `nC2` of `adjusted_rand_index`
(`stag_lib/cluster.cpp:433-459`). -/
def ariCounts (gt lab : List Int) : Outcome (Int × Int × Int × Int) := do
  let gs := clusterSizes gt
  let ls := clusterSizes lab
  let t ← contingencyTable gt lab
  let c1 ← sumLoop (fun i => sumLoop (fun j => nChoose2 (t.2 i j)) t.1.toNat) t.1.toNat
  let c2 ← sumLoop (fun i => nChoose2 (gs i)) t.1.toNat
  let c3 ← sumLoop (fun i => nChoose2 (ls i)) t.1.toNat
  let nc ← nChoose2 (gt.length : Int)
  .ok (c1, c2, c3, nc)

/-- `stag::adjusted_rand_index` (`stag_lib/cluster.cpp:433-463`). -/
def adjustedRandIndex (gt lab : List Int) : Outcome (XReal K) := do
  let c ← ariCounts gt lab
  let q := XReal.div (.fin ((c.2.1 * c.2.2.1 : Int) : K)) (.fin (c.2.2.2 : K))
  .ok (XReal.div (XReal.fin (c.1 : K) - q) (XReal.fin (((c.2.1 + c.2.2.1 : Int) : K) / 2) - q))

end

/-- `entropy` (`stag_lib/cluster.cpp:465-484`).  `order` is the iteration order of the
`unordered_map`: any arrangement of its keys. -/
noncomputable def entropy (order l : List Int) : ℝ :=
  (order.map (fun x =>
    if 0 < clusterSizes l x then
      ((clusterSizes l x : ℝ) / (l.length : ℝ)) *
        Real.logb 2 ((l.length : ℝ) / (clusterSizes l x : ℝ))
    else 0)).sum

/-- `stag::mutual_information` (`stag_lib/cluster.cpp:486-507`). -/
noncomputable def mutualInformation (gt lab : List Int) : Outcome ℝ := do
  let gs := clusterSizes gt
  let ls := clusterSizes lab
  let t ← contingencyTable gt lab
  let n : ℝ := (lab.length : ℝ)
  .ok (((List.range t.1.toNat).map (fun i : Nat => ((List.range t.1.toNat).map (fun j : Nat =>
    if 0 < t.2 i j then
      ((t.2 i j : ℝ) / n) * Real.logb 2 ((n * (t.2 i j : ℝ)) / ((gs i : ℝ) * (ls j : ℝ)))
    else 0)).sum)).sum)

/-- `stag::normalised_mutual_information` (`stag_lib/cluster.cpp:509-516`). -/
noncomputable def normalisedMutualInformation (orderGt orderLab gt lab : List Int) :
    Outcome (XReal ℝ) := do
  let mi ← mutualInformation gt lab
  .ok (XReal.div (.fin mi) (.fin ((entropy orderGt gt + entropy orderLab lab) / 2)))

end Stag
