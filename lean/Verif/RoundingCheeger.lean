import Verif.Cheeger
import Verif.RoundingSpectral
import Verif.RoundingSweep

/-!
# `cheeger_cut` in rounded arithmetic
-/

namespace Stag

open Graph

/-- The loop scaling the entries by the square roots of the degrees (`stag_lib/cluster.cpp:86-88`), with a rounding after the
division, the square root and the product, and the rounded degrees of `stag_lib/graph.cpp:332-339`.  Simplification: the
degrees are not 0. -/
noncomputable def cheegerScaleFl (fl : ℝ → ℝ) (g : Graph ℝ) : List Nat → SVec ℝ → Outcome (SVec ℝ)
  | [], vec => .ok vec
  | i :: is, vec => do
    let d ← (g.asLocalFl fl).degree (i : Int)
    let vec ← vec.set i (fl (fl (Real.sqrt (fl (1 / d))) * vec.get i))
    cheegerScaleFl fl g is vec

/-- `stag::cheeger_cut` (`stag_lib/cluster.cpp:67-94`), rounded.  A solver that returns fewer than two pairs would make line 78
read outside the vector. -/
noncomputable def cheegerCutFl (fl : ℝ → ℝ) (solve : EigenSolver) (g : Graph ℝ) : Outcome (List Nat) := do
  let sys ← computeEigensystemFl fl solve g .normalisedLaplacian 2 .smallest
  match sys with
  | p :: q :: _ =>
    let v := if q.1 < p.1 then p.2 else q.2
    let vec ← cheegerScaleFl fl g (List.range g.n) (sparseView g.n v)
    let cut ← sweepSetGraphFl fl g vec
    markCut cut (List.replicate g.n 0)
  | _ => .ub

end Stag
