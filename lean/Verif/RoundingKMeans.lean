import Verif.KMeans
import Verif.Rounding
import Verif.RoundingIndex

/-!
# k-means in rounded arithmetic (`stag_lib/KMeansRex/KMeansRexCore.cpp`)

The functions of `Verif.KMeans` again, with a rounding `fl` after every operation on `double`s.  Sums that Eigen computes
(`sum()`, `rowwise().sum()`, matrix products) may be taken in any order, which depends on the number of terms and on the
vector instructions of the machine; sums in the loops of the file are taken in the order of the loop.  Fused multiply-add
instructions are not modelled.
-/

namespace Stag

/-- `s` is a sum of the list `l` with one rounding for each addition, in some order and with some bracketing. -/
inductive SumOf {K : Type} [Add K] [Zero K] (fl : K → K) : List K → K → Prop where
  | nil : SumOf fl [] 0
  | single (x : K) : SumOf fl [x] x
  | add {l l' l'' : List K} {a b : K} : SumOf fl l a → SumOf fl l' b → l ≠ [] → l' ≠ [] → l''.Perm (l ++ l') →
      SumOf fl l'' (fl (a + b))

/-- A way in which Eigen computes sums. -/
structure EigenSum {K : Type} [Add K] [Zero K] (fl : K → K) where
  sum : List K → K
  spec : ∀ l, SumOf fl l (sum l)

namespace KMeans

variable {K : Type} [Field K] [LinearOrder K]

/-- The loop of `discrete_rand` (`KMeansRexCore.cpp:98-103`), rounded. -/
def discreteLoopFl (fl : K → K) (p : Nat → K) (r : K) : Nat → Nat → K → Nat
  | 0, newk, _ => newk
  | left + 1, newk, cursum =>
    if cursum ≤ r then discreteLoopFl fl p r left (newk + 1) (fl (cursum + p (newk + 1))) else newk

/-- `discrete_rand` (`KMeansRexCore.cpp:92-109`), rounded. -/
def discreteRandFl {fl : K → K} (S : EigenSum fl) (p : Nat → K) (n : Nat) (u : K) : Nat :=
  let total := S.sum ((List.range n).map p)
  discreteLoopFl fl p (fl (total * u)) (n - 1) 0 (p 0)

/-- `(X.row(i) - Mu.row(c)).square().sum()` (`KMeansRexCore.cpp:156`, `184`), rounded. -/
def sqDistFl {fl : K → K} (S : EigenSum fl) (D : Nat) (x y : Nat → K) : K :=
  S.sum ((List.range D).map (fun d => fl (fl (x d - y d) * fl (x d - y d))))

/-- The loop of `sampleRowsPlusPlus` (`KMeansRexCore.cpp:155-164`), rounded. -/
def plusPlusLoopFl {fl : K → K} (S : EigenSum fl) (X : Nat → Nat → K) (N D : Nat) (u : Nat → K) (Mu : Nat → Nat → K)
    (junk : Nat → K) : Nat → (Nat → Nat → K) × (Nat → K)
  | 0 => (Mu, junk)
  | m + 1 =>
    let (Mu, minDist) := plusPlusLoopFl S X N D u Mu junk m
    let kk := m + 1
    let curDist := fun i => sqDistFl S D (X i) (Mu (kk - 1))
    let minDist := if kk = 1 then curDist else fun i => min (curDist i) (minDist i)
    let choice := discreteRandFl S minDist N (u kk)
    (setRow Mu kk (X choice), minDist)

/-- `sampleRowsPlusPlus` (`KMeansRexCore.cpp:142-165`), rounded. -/
def sampleRowsPlusPlusFl [FloorRing K] {fl : K → K} (S : EigenSum fl) (X : Nat → Nat → K) (N D k : Nat) (u : Nat → K)
    (Mu : Nat → Nat → K) (junk : Nat → K) : Outcome (Nat → Nat → K) :=
  let kk := if k > N then N else k
  let choice := randintFl fl N (u 0)
  if choice < 0 ∨ (N : Int) ≤ choice ∨ k = 0 then .ub
  else .ok (plusPlusLoopFl S X N D u (setRow Mu 0 (X choice.toNat)) junk (kk - 1)).1

/-- One entry of `pairwise_distance` (`KMeansRexCore.cpp:176-190`), rounded. -/
def pairDistFl {fl : K → K} (S : EigenSum fl) (X : Nat → Nat → K) (D : Nat) (Mu : Nat → Nat → K) (i c : Nat) : K :=
  if D ≤ 16 then sqDistFl S D (X i) (Mu c)
  else fl (fl (-2 * S.sum ((List.range D).map (fun d => fl (X i d * Mu c d))))
    + S.sum ((List.range D).map (fun d => fl (Mu c d * Mu c d))))

/-- `assignClosest` (`KMeansRexCore.cpp:192-203`), rounded. -/
def assignClosestFl {fl : K → K} (S : EigenSum fl) (X : Nat → Nat → K) (N D k : Nat) (Mu : Nat → Nat → K)
    (Z : Nat → Nat) : (Nat → Nat) × K :=
  (List.range N).foldl (fun (s : (Nat → Nat) × K) i =>
    let c := argmin (pairDistFl S X D Mu i) k
    (fun j => if j = i then c else s.1 j, fl (s.2 + pairDistFl S X D Mu i c))) (Z, 0)

/-- `calc_Mu` (`KMeansRexCore.cpp:206-218`), rounded, with the constant `1e-100` added to the counts. -/
def calcMuFl (fl : K → K) (X : Nat → Nat → K) (N : Nat) (Z : Nat → Nat) : Nat → Nat → K := fun c d =>
  let sum := (List.range N).foldl (fun s i => if Z i = c then fl (s + X i d) else s) 0
  let count : K := (List.range N).foldl (fun s i => if Z i = c then fl (s + 1) else s) 0
  fl (sum / fl (count + fl (1 / 10 ^ 100)))

/-- The loop of `run_lloyd` (`KMeansRexCore.cpp:226-233`), rounded. -/
def lloydLoopFl {fl : K → K} (S : EigenSum fl) (X : Nat → Nat → K) (N D k : Nat) :
    Nat → (Nat → Nat → K) → (Nat → Nat) → K → (Nat → Nat → K) × (Nat → Nat)
  | 0, Mu, Z, _ => (Mu, Z)
  | left + 1, Mu, Z, prevDist =>
    let a := assignClosestFl S X N D k Mu Z
    let Mu := calcMuFl fl X N a.1
    if prevDist = a.2 then (Mu, a.1) else lloydLoopFl S X N D k left Mu a.1 a.2

/-- `run_lloyd` (`KMeansRexCore.cpp:221-234`), rounded. -/
def runLloydFl {fl : K → K} (S : EigenSum fl) (X : Nat → Nat → K) (N D k : Nat) (Mu : Nat → Nat → K) (Z : Nat → Nat)
    (Niter : Int) : (Nat → Nat → K) × (Nat → Nat) := lloydLoopFl S X N D k Niter.toNat Mu Z 0

/-- `RunKMeans` with the initialisation "plusplus" (`KMeansRexCore.cpp:242-253`), rounded; `y i` is the `i`-th 32-bit
integer of the generator, from which `my_genrand_double` makes a `double` (`mersenneTwister2002.h:185`). -/
def runKMeansFl [FloorRing K] {fl : K → K} (S : EigenSum fl) (X : Nat → Nat → K) (N D k : Nat) (Niter : Int)
    (y : Nat → Nat) (Mu₀ : Nat → Nat → K) (Z₀ : Nat → Nat) (junk : Nat → K) :
    Outcome ((Nat → Nat → K) × (Nat → Nat)) :=
  (sampleRowsPlusPlusFl S X N D k (fun i => genrandDoubleFl fl (y i)) Mu₀ junk).bind
    (fun Mu => .ok (runLloydFl S X N D k Mu Z₀ Niter))

end KMeans
end Stag
