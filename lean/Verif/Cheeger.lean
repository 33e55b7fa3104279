import Verif.Spectrum
import Verif.Cluster

/-!
# Model of `stag::cheeger_cut` (`stag_lib/cluster.cpp:67-94`)
-/

namespace Stag

open Graph

/-- `col(k).sparseView()` (`stag_lib/cluster.cpp:79-83`): the entries that are not zero. -/
noncomputable def sparseView (n : Nat) (v : Nat → ℝ) : SVec ℝ :=
  ⟨n, (List.range n).filterMap (fun i => if v i = 0 then none else some (i, v i))⟩

/-- The loop scaling the entries by the square roots of the degrees (`stag_lib/cluster.cpp:86-88`).
Simplification: real division, so the infinity of a vertex of degree 0 is not modelled. -/
noncomputable def cheegerScale (g : Graph ℝ) : List Nat → SVec ℝ → Outcome (SVec ℝ)
  | [], vec => .ok vec
  | i :: is, vec => do
    let d ← g.degree (i : Int)
    let vec ← vec.set i (Real.sqrt (1 / d) * vec.get i)
    cheegerScale g is vec

/-- The loop `clusters.at(i) = 1` (`stag_lib/cluster.cpp:91-92`). -/
def markCut : List Nat → List Nat → Outcome (List Nat)
  | [], clusters => .ok clusters
  | i :: is, clusters => if i < clusters.length then markCut is (clusters.set i 1)
    else .throw .outOfRange

/-- `stag::cheeger_cut` (`stag_lib/cluster.cpp:67-94`).  A solver that returns fewer than two pairs
would make line 78 read outside the vector. -/
noncomputable def cheegerCut (solve : EigenSolver) (g : Graph ℝ) : Outcome (List Nat) := do
  let sys ← computeEigensystem solve g .normalisedLaplacian 2 .smallest
  match sys with
  | p :: q :: _ =>
    let v := if q.1 < p.1 then p.2 else q.2
    let vec ← cheegerScale g (List.range g.n) (sparseView g.n v)
    let cut ← sweepSetGraph g vec
    markCut cut (List.replicate g.n 0)
  | _ => .ub

end Stag
