import Verif.Spectrum
import Verif.SpectralCluster
import Verif.RoundingMatrices
import Verif.RoundingKMeans

/-!
# `compute_eigensystem` and `spectral_cluster` in rounded arithmetic

The functions of `Verif.Spectrum` and `Verif.SpectralCluster` again, with a rounding `fl` after every operation on
`double`s.  The inner solver is a parameter, as there: it is given the rounded matrix and returns pairs of numbers and
vectors, or nothing.  The graphs have no isolated vertex when the normalised Laplacian is asked for, so that all entries
are finite.
-/

namespace Stag

open Graph

/-- What `Spectra::SparseSymMatProd<..., Eigen::Upper, ...>` reads of a matrix (`stag_lib/spectrum.h:50`,
`stag_lib/spectrum.cpp:29`): the upper triangle, mirrored. -/
noncomputable def upperFl (m : SprsMat ℝ) (i j : Nat) : ℝ := if i ≤ j then m.coeff i j else m.coeff j i

/-- `compute_eigensystem_largestmag` (`stag_lib/spectrum.cpp:23-60`), rounded. -/
noncomputable def eigensystemLargestmagFl (fl : ℝ → ℝ) (solve : EigenSolver) (m : SprsMat ℝ) (num : Int)
    (offset : ℝ) (invert : Bool) : Outcome EigenPairs :=
  if num < 1 ∨ (m.rows : Int) ≤ num then .throw .invalidArgument
  else match solve m.rows (fun i j => .fin (upperFl m i j)) num.toNat with
    | none => .throw .runtimeError
    | some raw =>
      if offset ≠ 0 ∨ invert = true then
        .ok (raw.map (fun p =>
          let value := fl (p.1 + offset)
          (if invert then fl (value * -1) else value, p.2)))
      else .ok raw

/-- The loop computing `max_degree` (`stag_lib/spectrum.cpp:68-72`) with rounded degrees (`stag_lib/graph.cpp:332-339`). -/
noncomputable def maxDegreeFl (fl : ℝ → ℝ) (g : Graph ℝ) : Outcome ℝ :=
  (List.range g.n).foldl (fun acc (i : Nat) => acc.bind (fun m => (g.checkVertex i).bind (fun _ =>
    .ok (max ((g.degreeMatrixFl fl).coeff i i) m)))) (.ok 0)

/-- The loop `adjusted.coeffRef(i, i) += d` over the `n` vertices (`stag_lib/spectrum.cpp:79-81`,
`88-90`, `104-106`, `121-123`), rounded. -/
noncomputable def shiftDiagFl (fl : ℝ → ℝ) (n : Nat) (m : SprsMat ℝ) (d : ℝ) : SprsMat ℝ :=
  (List.range n).foldl (fun m i => m.update i i (fun v => fl (v + d))) m

/-- `compute_eigensystem` (`stag_lib/spectrum.cpp:62-130`), rounded; changing a sign is exact. -/
noncomputable def computeEigensystemFl (fl : ℝ → ℝ) (solve : EigenSolver) (g : Graph ℝ) (mat : GraphMatrix)
    (num : Int) (which : EigenSortRule) : Outcome EigenPairs :=
  if num < 1 ∨ (g.n : Int) ≤ num then .throw .invalidArgument
  else (maxDegreeFl fl g).bind (fun dmax =>
    match mat, which with
    | .adjacency, .largest =>
      eigensystemLargestmagFl fl solve (shiftDiagFl fl g.n g.adj dmax) num (-dmax) false
    | .adjacency, .smallest =>
      eigensystemLargestmagFl fl solve (shiftDiagFl fl g.n (g.adj.mapVal (fun v => -v)) dmax) num (-dmax) true
    | .laplacian, .largest => eigensystemLargestmagFl fl solve (g.laplacianFl fl) num 0 false
    | .laplacian, .smallest =>
      eigensystemLargestmagFl fl solve (shiftDiagFl fl g.n ((g.laplacianFl fl).mapVal (fun v => -v)) (fl (2 * dmax)))
        num (-(fl (2 * dmax))) true
    | .normalisedLaplacian, .largest =>
      eigensystemLargestmagFl fl solve (g.normLaplacianFl fl Real.sqrt) num 0 false
    | .normalisedLaplacian, .smallest =>
      eigensystemLargestmagFl fl solve (shiftDiagFl fl g.n ((g.normLaplacianFl fl Real.sqrt).mapVal (fun v => -v)) 2)
        num (-2) true)

/-- `compute_eigenvectors` (`stag_lib/spectrum.cpp:132-135`), rounded. -/
noncomputable def computeEigenvectorsFl (fl : ℝ → ℝ) (solve : EigenSolver) (g : Graph ℝ) (mat : GraphMatrix)
    (num : Int) (which : EigenSortRule) : Outcome (List (Nat → ℝ)) :=
  (computeEigensystemFl fl solve g mat num which).bind (fun l => .ok (l.map Prod.snd))

/-- `compute_eigenvalues` (`stag_lib/spectrum.cpp:137-140`), rounded. -/
noncomputable def computeEigenvaluesFl (fl : ℝ → ℝ) (solve : EigenSolver) (g : Graph ℝ) (mat : GraphMatrix)
    (num : Int) (which : EigenSortRule) : Outcome (List ℝ) :=
  (computeEigensystemFl fl solve g mat num which).bind (fun l => .ok (l.map Prod.fst))

/-- `stag::spectral_cluster` (`stag_lib/cluster.cpp:37-65`), rounded; `y` are the 32-bit integers of the random number
generator, `S` is the order in which Eigen adds, `junk` the uninitialised `minDist` of the seeding.  Simplification:
`k * 100` does not overflow `int`. -/
noncomputable def spectralClusterFl {fl : ℝ → ℝ} (S : EigenSum fl) (solve : EigenSolver) (g : Graph ℝ) (k : Int)
    (y : Nat → Nat) (junk : Nat → ℝ) : Outcome (List Nat) :=
  if k < 1 ∨ ((g.n / 2 : Nat) : Int) < k then .throw .invalidArgument
  else (computeEigenvectorsFl fl solve g .normalisedLaplacian k .smallest).bind (fun vs =>
    if vs.length < k.toNat then .ub
    else (KMeans.runKMeansFl S (fun i j => vs.getD j (fun _ => 0) i) g.n k.toNat k.toNat (k * 100)
        y (fun _ _ => 0) (fun _ => 0) junk).bind (fun r =>
      .ok ((List.range g.n).map r.2)))

end Stag
