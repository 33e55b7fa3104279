import Verif.Spectrum
import Verif.KMeans

/-!
# Model of `stag::spectral_cluster` (`stag_lib/cluster.cpp:37-65`)
-/

namespace Stag

/-- `stag::spectral_cluster` (`stag_lib/cluster.cpp:37-65`).  The eigenvectors are the columns of the
data matrix; `junk` is the uninitialised `minDist` of the seeding.  A solver that returns fewer than `k`
vectors would make k-means read outside the matrix.  Simplifications: exact arithmetic; `k * 100` does
not overflow `int`. -/
noncomputable def spectralCluster (solve : EigenSolver) (g : Graph ℝ) (k : Int) (junk : Nat → ℝ) :
    Outcome (List Nat) :=
  if k < 1 ∨ ((g.n / 2 : Nat) : Int) < k then .throw .invalidArgument
  else (computeEigenvectors solve g .normalisedLaplacian k .smallest).bind (fun vs =>
    if vs.length < k.toNat then .ub
    else (KMeans.runKMeans (fun i j => vs.getD j (fun _ => 0) i) g.n k.toNat k.toNat (k * 100)
        (MT.draw 42) (fun _ _ => 0) (fun _ => 0) junk).bind (fun r =>
      .ok ((List.range g.n).map r.2)))

end Stag
