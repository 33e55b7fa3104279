import Verif.Graph
import Mathlib.Analysis.SpecialFunctions.Sqrt
import Mathlib.Analysis.SpecialFunctions.Log.Base
import Mathlib.Algebra.Order.Floor.Ring

/-!
# Model of `stag_lib/spectrum.cpp`

Exact real arithmetic; `XReal` makes the infinities of the normalised Laplacian visible.  The inner
solver (`Spectra::SymEigsSolver`) is not modelled: it is a parameter, a function of the symmetric
matrix it is given that returns pairs of numbers and vectors, or nothing when it does not converge.
A vector is a function on indices below the dimension.
-/

namespace Stag

open Graph

/-- `stag::EigenSortRule` (`stag_lib/spectrum.h:70`). -/
inductive EigenSortRule where
  | largest
  | smallest
  deriving DecidableEq, Repr

/-- `stag::GraphMatrix` (`stag_lib/spectrum.h:76`). -/
inductive GraphMatrix where
  | adjacency
  | laplacian
  | normalisedLaplacian
  deriving DecidableEq, Repr

/-- Eigenvalues and eigenvectors (`stag::EigenSystem`, `stag_lib/spectrum.h:61`). -/
abbrev EigenPairs := List (ℝ × (Nat → ℝ))

/-- The inner solver: dimension, matrix, number of pairs. -/
abbrev EigenSolver := Nat → (Nat → Nat → XReal ℝ) → Nat → Option EigenPairs

/-- What the product operator `Spectra::SparseSymMatProd<..., Eigen::Upper, ...>` reads of a matrix
(`stag_lib/spectrum.h:50`, `stag_lib/spectrum.cpp:29`): the upper triangle, mirrored. -/
noncomputable def symUpper (m : SprsMat (XReal ℝ)) (i j : Nat) : XReal ℝ :=
  if i ≤ j then m.coeff i j else m.coeff j i

/-- `compute_eigensystem_largestmag` (`stag_lib/spectrum.cpp:23-60`). -/
noncomputable def eigensystemLargestmag (solve : EigenSolver) (m : SprsMat (XReal ℝ)) (num : Int)
    (offset : ℝ) (invert : Bool) : Outcome EigenPairs :=
  if num < 1 ∨ (m.rows : Int) ≤ num then .throw .invalidArgument
  else match solve m.rows (symUpper m) num.toNat with
    | none => .throw .runtimeError
    | some raw =>
      if offset ≠ 0 ∨ invert = true then
        .ok (raw.map (fun p =>
          let value := p.1 + offset
          (if invert then value * -1 else value, p.2)))
      else .ok raw

/-- The loop computing `max_degree` (`stag_lib/spectrum.cpp:68-72`). -/
noncomputable def maxDegree (g : Graph ℝ) : Outcome ℝ :=
  (List.range g.n).foldl (fun acc (i : Nat) => acc.bind (fun m => (g.degree i).bind (fun d =>
    .ok (max d m)))) (.ok 0)

/-- The loop `adjusted.coeffRef(i, i) += d` over the `n` vertices (`stag_lib/spectrum.cpp:79-81`,
`88-90`, `104-106`, `121-123`). -/
noncomputable def shiftDiag (n : Nat) (m : SprsMat (XReal ℝ)) (d : ℝ) : SprsMat (XReal ℝ) :=
  (List.range n).foldl (fun m i => m.update i i (fun v => v + XReal.fin d)) m

/-- `compute_eigensystem` (`stag_lib/spectrum.cpp:62-130`). -/
noncomputable def computeEigensystem (solve : EigenSolver) (g : Graph ℝ) (mat : GraphMatrix)
    (num : Int) (which : EigenSortRule) : Outcome EigenPairs :=
  if num < 1 ∨ (g.n : Int) ≤ num then .throw .invalidArgument
  else (maxDegree g).bind (fun dmax =>
    match mat, which with
    | .adjacency, .largest =>
      eigensystemLargestmag solve (shiftDiag g.n (g.adj.mapVal XReal.fin) dmax) num (-dmax) false
    | .adjacency, .smallest =>
      eigensystemLargestmag solve (shiftDiag g.n ((g.adj.mapVal XReal.fin).mapVal XReal.neg) dmax)
        num (-dmax) true
    | .laplacian, .largest => eigensystemLargestmag solve (g.laplacian.mapVal XReal.fin) num 0 false
    | .laplacian, .smallest =>
      eigensystemLargestmag solve
        (shiftDiag g.n ((g.laplacian.mapVal XReal.fin).mapVal XReal.neg) (2 * dmax)) num
        (-(2 * dmax)) true
    | .normalisedLaplacian, .largest =>
      eigensystemLargestmag solve (g.normLaplacian Real.sqrt) num 0 false
    | .normalisedLaplacian, .smallest =>
      eigensystemLargestmag solve (shiftDiag g.n ((g.normLaplacian Real.sqrt).mapVal XReal.neg) 2)
        num (-2) true)

/-- `compute_eigenvectors` (`stag_lib/spectrum.cpp:132-135`). -/
noncomputable def computeEigenvectors (solve : EigenSolver) (g : Graph ℝ) (mat : GraphMatrix)
    (num : Int) (which : EigenSortRule) : Outcome (List (Nat → ℝ)) :=
  (computeEigensystem solve g mat num which).bind (fun l => .ok (l.map Prod.snd))

/-- `compute_eigenvalues` (`stag_lib/spectrum.cpp:137-140`). -/
noncomputable def computeEigenvalues (solve : EigenSolver) (g : Graph ℝ) (mat : GraphMatrix)
    (num : Int) (which : EigenSortRule) : Outcome (List ℝ) :=
  (computeEigensystem solve g mat num which).bind (fun l => .ok (l.map Prod.fst))

/-! ## Power method and Rayleigh quotient -/

/-- The product of a sparse matrix and a vector (Eigen adds up the stored entries only; the others
contribute zero). -/
noncomputable def SprsMat.mulVec (m : SprsMat ℝ) (v : List ℝ) : List ℝ :=
  (List.range m.rows).map (fun i =>
    ((List.range m.cols).map (fun j => m.coeff i j * v.getD j 0)).sum)

/-- `squaredNorm()`. -/
noncomputable def squaredNorm (v : List ℝ) : ℝ := (v.map (fun x => x * x)).sum

/-- Eigen's `normalize()`: nothing is done to the zero vector. -/
noncomputable def normalizeVec (v : List ℝ) : List ℝ :=
  if 0 < squaredNorm v then v.map (fun x => x / Real.sqrt (squaredNorm v)) else v

/-- The loop of `power_method` (`stag_lib/spectrum.cpp:171-174`). -/
noncomputable def powerLoop (m : SprsMat ℝ) : Nat → List ℝ → List ℝ
  | 0, v => v
  | t + 1, v => powerLoop m t (normalizeVec (m.mulVec v))

/-- `power_method(mat, num_iterations, initial_vector)` (`stag_lib/spectrum.cpp:165-177`). -/
noncomputable def powerMethod (m : SprsMat ℝ) (t : Int) (v : List ℝ) : Outcome (List ℝ) :=
  if t < 0 then .throw .invalidArgument
  else if m.rows ≠ m.cols then .throw .invalidArgument
  else if v.length ≠ m.rows then .throw .invalidArgument
  else .ok (powerLoop m t.toNat v)

/-- `power_method(mat, initial_vector)` (`stag_lib/spectrum.cpp:179-184`).  Simplification: the
logarithm and its ceiling are exact; for an empty matrix (logarithm of zero) the conversion on line
182 is undefined behaviour. -/
noncomputable def powerMethodDefault (m : SprsMat ℝ) (v : List ℝ) : Outcome (List ℝ) :=
  if m.rows = 0 then .ub else powerMethod m (10 * ⌈Real.log m.rows⌉) v

/-- `random_unit_vector` (`stag_lib/spectrum.cpp:148-163`), `gs` being the normal draws. -/
noncomputable def randomUnitVector (gs : List ℝ) : List ℝ := normalizeVec gs

/-- `power_method(mat, num_iterations)` (`stag_lib/spectrum.cpp:186-188`), `gs` being the normal
draws. -/
noncomputable def powerMethodRandom (m : SprsMat ℝ) (t : Int) (gs : List ℝ) : Outcome (List ℝ) :=
  powerMethod m t (randomUnitVector gs)

/-- `power_method(mat)` (`stag_lib/spectrum.cpp:190-192`), `gs` being the normal draws. -/
noncomputable def powerMethodRandomDefault (m : SprsMat ℝ) (gs : List ℝ) : Outcome (List ℝ) :=
  powerMethodDefault m (randomUnitVector gs)

/-- `rayleigh_quotient` (`stag_lib/spectrum.cpp:194-202`). -/
noncomputable def rayleighQuotient (m : SprsMat ℝ) (v : List ℝ) : Outcome ℝ :=
  if m.rows ≠ m.cols then .throw .invalidArgument
  else if v.length ≠ m.rows then .throw .invalidArgument
  else if Real.sqrt (squaredNorm v) = 0 then .throw .invalidArgument
  else
    let numerator := ((List.range v.length).map (fun i => v.getD i 0 * (m.mulVec v).getD i 0)).sum
    let denominator := Real.sqrt (squaredNorm v) ^ 2
    .ok (numerator / denominator)

end Stag
