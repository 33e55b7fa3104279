import Verif.Metrics
import Verif.Rounding

/-!
# The adjusted Rand index in machine arithmetic (`stag_lib/cluster.cpp:374-463`)

The counts are 64-bit integers: an operation whose result does not fit is undefined behaviour
(`.ub`).  The last line of the function computes with `double`s, every operation (and every
conversion of an integer) followed by a rounding `fl`.  Not modelled: the memory for the `k` by `k`
table, which is taken to suffice.
-/

namespace Stag

/-- The result of an operation on `StagInt` (`int64_t`, `stag_lib/definitions.h`): signed overflow is
undefined. -/
def int64 (x : Int) : Outcome Int := if -2 ^ 63 ≤ x ∧ x < 2 ^ 63 then .ok x else .ub

/-- `nChoose2` (`stag_lib/cluster.cpp:377-383`) on 64-bit integers. -/
def nChoose2Int (n : Int) : Outcome Int :=
  if n < 0 then .throw .invalidArgument else if n < 2 then .ok 0
  else do
    let m ← int64 (n * (n - 1))
    .ok (m / 2)

/-- `c += f(x)` for `x` in a list, on 64-bit integers. -/
def accLoop {α : Type} (f : α → Outcome Int) : List α → Int → Outcome Int
  | [], c => .ok c
  | x :: xs, c => do
    let y ← f x
    let c ← int64 (c + y)
    accLoop f xs c

/-- `c1`, `c2`, `c3`, `nC2` of `adjusted_rand_index` (`stag_lib/cluster.cpp:433-460`) on 64-bit
integers.  The loop of `contingency_table` over the points counts with an `int` (line 417), which
overflows from `2^31` points on. -/
def ariCountsInt (gt lab : List Int) : Outcome (Int × Int × Int × Int) := do
  let gs := clusterSizes gt
  let ls := clusterSizes lab
  let t ← contingencyTable gt lab
  if 2 ^ 31 ≤ gt.length then .ub
  else do
    let idx := List.range t.1.toNat
    let c1 ← accLoop (fun p : Nat × Nat => nChoose2Int (t.2 p.1 p.2))
      (idx.flatMap (fun i => idx.map (fun j => (i, j)))) 0
    let c2 ← accLoop (fun i : Nat => nChoose2Int (gs i)) idx 0
    let c3 ← accLoop (fun i : Nat => nChoose2Int (ls i)) idx 0
    let nc ← nChoose2Int (gt.length : Int)
    .ok (c1, c2, c3, nc)

section
variable {K : Type} [Field K] [LinearOrder K]

/-- Rounding of a finite result; NaN and infinities stay. -/
def XReal.round (fl : K → K) : XReal K → XReal K
  | .fin a => .fin (fl a)
  | x => x

/-- `stag::adjusted_rand_index` (`stag_lib/cluster.cpp:433-463`) in machine arithmetic. -/
def adjustedRandIndexFl (fl : K → K) (gt lab : List Int) : Outcome (XReal K) := do
  let c ← ariCountsInt gt lab
  let prod ← int64 (c.2.1 * c.2.2.1)
  let sum ← int64 (c.2.1 + c.2.2.1)
  let q := (XReal.div (.fin (fl prod)) (.fin (fl c.2.2.2))).round fl
  let num := (XReal.fin (fl c.1) - q).round fl
  let den := ((XReal.div (.fin (fl sum)) (.fin 2)).round fl - q).round fl
  .ok ((XReal.div num den).round fl)

end
end Stag
