import Verif.Base
import Verif.Mersenne
import Mathlib.Algebra.Order.Floor.Ring
import Mathlib.Algebra.BigOperators.Group.Finset.Basic

/-!
# Model of `stag_lib/KMeansRex/KMeansRexCore.cpp`

Exact arithmetic in an ordered field.  A matrix is a function of row and column, used below its
dimensions; `u i` is the `i`-th value of `my_genrand_double`.  Simplification: `int` is unbounded.
-/

namespace Stag
namespace KMeans

variable {K : Type} [Field K] [LinearOrder K] [IsStrictOrderedRing K]

/-- `randint(0, high)` (`KMeansRexCore.cpp:86-90`): truncation of `high * u`. -/
def randint [FloorRing K] (high : Nat) (u : K) : Int := ⌊(high : K) * u⌋

/-- The loop of `discrete_rand` (`KMeansRexCore.cpp:98-103`); the first argument is `K - 1 - newk`. -/
def discreteLoop (p : Nat → K) (r : K) : Nat → Nat → K → Nat
  | 0, newk, _ => newk
  | left + 1, newk, cursum =>
    if cursum ≤ r then discreteLoop p r left (newk + 1) (cursum + p (newk + 1)) else newk

/-- `discrete_rand` on the `n` weights `p` (`KMeansRexCore.cpp:92-109`). -/
def discreteRand (p : Nat → K) (n : Nat) (u : K) : Nat :=
  let total := ((List.range n).map p).sum
  discreteLoop p (total * u) (n - 1) 0 (p 0)

/-- `(X.row(i) - Mu.row(c)).square().sum()` (`KMeansRexCore.cpp:156`, `184`). -/
def sqDist (D : Nat) (x y : Nat → K) : K := ((List.range D).map (fun d => (x d - y d) * (x d - y d))).sum

/-- `M.row(i) = r`. -/
def setRow (M : Nat → Nat → K) (i : Nat) (r : Nat → K) : Nat → Nat → K :=
  fun a => if a = i then r else M a

/-- Iterations `1, ..., m` of the loop of `sampleRowsPlusPlus` (`KMeansRexCore.cpp:155-164`): the centres
and `minDist` (a value of the vector before the first iteration is never used). -/
def plusPlusLoop (X : Nat → Nat → K) (N D : Nat) (u : Nat → K) (Mu : Nat → Nat → K) (junk : Nat → K) :
    Nat → (Nat → Nat → K) × (Nat → K)
  | 0 => (Mu, junk)
  | m + 1 =>
    let (Mu, minDist) := plusPlusLoop X N D u Mu junk m
    let kk := m + 1
    let curDist := fun i => sqDist D (X i) (Mu (kk - 1))
    let minDist := if kk = 1 then curDist else fun i => min (curDist i) (minDist i)
    let choice := discreteRand minDist N (u kk)
    (setRow Mu kk (X choice), minDist)

/-- `sampleRowsPlusPlus` (`KMeansRexCore.cpp:142-165`): undefined behaviour if the first choice is not a
row of `X`, or if there is no row 0 of `Mu`.  `SampleRowsPlusPlus` (`255-262`) is this function after seeding the
generator. -/
def sampleRowsPlusPlus [FloorRing K] (X : Nat → Nat → K) (N D k : Nat) (u : Nat → K)
    (Mu : Nat → Nat → K) (junk : Nat → K) : Outcome (Nat → Nat → K) :=
  let kk := if k > N then N else k
  let choice := randint N (u 0)
  if choice < 0 ∨ (N : Int) ≤ choice ∨ k = 0 then .ub
  else .ok (plusPlusLoop X N D u (setRow Mu 0 (X choice.toNat)) junk (kk - 1)).1

/-- One entry of `pairwise_distance` (`KMeansRexCore.cpp:176-190`). -/
def pairDist (X : Nat → Nat → K) (D : Nat) (Mu : Nat → Nat → K) (i c : Nat) : K :=
  if D ≤ 16 then sqDist D (X i) (Mu c)
  else -2 * ((List.range D).map (fun d => X i d * Mu c d)).sum
    + ((List.range D).map (fun d => Mu c d * Mu c d)).sum

/-- `minCoeff(&minRowID)` on a row of `k ≥ 1` entries: the first minimum. -/
def argmin (f : Nat → K) (k : Nat) : Nat :=
  (List.range k).foldl (fun best c => if f c < f best then c else best) 0

/-- `assignClosest` (`KMeansRexCore.cpp:192-203`): the assignment and `totalDist`. -/
def assignClosest (X : Nat → Nat → K) (N D k : Nat) (Mu : Nat → Nat → K) (Z : Nat → Nat) :
    (Nat → Nat) × K :=
  (List.range N).foldl (fun (s : (Nat → Nat) × K) i =>
    let c := argmin (pairDist X D Mu i) k
    (fun j => if j = i then c else s.1 j, s.2 + pairDist X D Mu i c)) (Z, 0)

/-- `calc_Mu` (`KMeansRexCore.cpp:206-218`).  In double precision `n + 1e-100 = n` for every count
`n ≥ 1`, and a cluster without points has sum 0, so its centre is `0 / 1e-100 = 0`. -/
def calcMu (X : Nat → Nat → K) (N : Nat) (Z : Nat → Nat) : Nat → Nat → K := fun c d =>
  let sum := ((List.range N).map (fun i => if Z i = c then X i d else 0)).sum
  let count : K := ((List.range N).map (fun i => if Z i = c then (1 : K) else 0)).sum
  if count = 0 then 0 else sum / count

/-- The loop of `run_lloyd` (`KMeansRexCore.cpp:226-233`), with the number of iterations left and
`prevDist`. -/
def lloydLoop (X : Nat → Nat → K) (N D k : Nat) :
    Nat → (Nat → Nat → K) → (Nat → Nat) → K → (Nat → Nat → K) × (Nat → Nat)
  | 0, Mu, Z, _ => (Mu, Z)
  | left + 1, Mu, Z, prevDist =>
    let a := assignClosest X N D k Mu Z
    let Mu := calcMu X N a.1
    if prevDist = a.2 then (Mu, a.1) else lloydLoop X N D k left Mu a.1 a.2

/-- `run_lloyd` (`KMeansRexCore.cpp:221-234`). -/
def runLloyd (X : Nat → Nat → K) (N D k : Nat) (Mu : Nat → Nat → K) (Z : Nat → Nat) (Niter : Int) :
    (Nat → Nat → K) × (Nat → Nat) := lloydLoop X N D k Niter.toNat Mu Z 0

/-- `RunKMeans` with the initialisation "plusplus" (`KMeansRexCore.cpp:242-253`), `u` being the draws
for the seed; `Mu₀`, `Z₀` are the output arrays as the caller passed them. -/
def runKMeans [FloorRing K] (X : Nat → Nat → K) (N D k : Nat) (Niter : Int) (u : Nat → K)
    (Mu₀ : Nat → Nat → K) (Z₀ : Nat → Nat) (junk : Nat → K) :
    Outcome ((Nat → Nat → K) × (Nat → Nat)) :=
  (sampleRowsPlusPlus X N D k u Mu₀ junk).bind (fun Mu => .ok (runLloyd X N D k Mu Z₀ Niter))

/-! ## The initialisation "random" -/

/-- The `while` loop of `select_without_replacement` (`KMeansRexCore.cpp:113-126`): draw until the choice is not among the
previous ones; at most the given number of rounds, `none` if they do not suffice.  The state is the sequence of draws to
come.  All weights are 1. -/
def pickNew (N : Nat) (prev : List Nat) : Nat → (Nat → K) → Option (Nat × (Nat → K))
  | 0, _ => none
  | fuel + 1, s =>
    let choice := discreteRand (fun _ => 1) N (s 0)
    if choice ∈ prev then pickNew N prev fuel (fun i => s (i + 1)) else some (choice, fun i => s (i + 1))

/-- `select_without_replacement` (`KMeansRexCore.cpp:110-129`): `m` more choices after those in `prev`. -/
def selectRows (N fuel : Nat) : Nat → List Nat → (Nat → K) → Option (List Nat × (Nat → K))
  | 0, prev, s => some (prev, s)
  | m + 1, prev, s =>
    match pickNew N prev fuel s with
    | none => none
    | some (choice, s') => selectRows N fuel m (prev ++ [choice]) s'

/-- `sampleRowsRandom` (`KMeansRexCore.cpp:132-140`).  Without data, `discrete_rand` reads the first of no weights. -/
def sampleRowsRandom (fuel : Nat) (X : Nat → Nat → K) (N k : Nat) (s : Nat → K) (Mu : Nat → Nat → K) :
    Option (Outcome (Nat → Nat → K)) :=
  if N = 0 ∧ k ≠ 0 then some .ub
  else (selectRows N fuel k [] s).map fun r => .ok fun c => if c < k then X (r.1.getD c 0) else Mu c

/-- `RunKMeans` with the initialisation "random" (`KMeansRexCore.cpp:242-253`, `167-170`). -/
def runKMeansRandom (fuel : Nat) (X : Nat → Nat → K) (N D k : Nat) (Niter : Int) (s : Nat → K)
    (Mu₀ : Nat → Nat → K) (Z₀ : Nat → Nat) : Option (Outcome ((Nat → Nat → K) × (Nat → Nat))) :=
  (sampleRowsRandom fuel X N k s Mu₀).map fun o => o.bind fun Mu => .ok (runLloyd X N D k Mu Z₀ Niter)

end KMeans
end Stag
