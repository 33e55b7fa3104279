import Verif.RoundingSweep

/-!
# The Laplacian and the graph constructor in rounded arithmetic
-/

set_option linter.unusedSectionVars false

namespace Stag

section
variable {K : Type} [Field K] [LinearOrder K]

/-- `Graph::degree_matrix` (`stag_lib/graph.cpp:566-583`) in rounded arithmetic. -/
def Graph.degreeMatrixFl (fl : K → K) (g : Graph K) : SprsMat K :=
  SprsMat.diag g.adj.cols (g.degFl fl)

/-- `Graph::laplacian` (`stag_lib/graph.cpp:482-496`) in rounded arithmetic: `D - A`, one rounding
for each entry. -/
def Graph.laplacianFl (fl : K → K) (g : Graph K) : SprsMat K :=
  SprsMat.zipWith (fun a b => fl (a - b)) (g.degreeMatrixFl fl) g.adj

/-- `diagonally_dominant` (`stag_lib/graph.cpp:41-52`): no column total is negative.  The stored
entries of a column are added from the top to the bottom, every sum rounded. -/
def diagonallyDominantFl (fl : K → K) (m : SprsMat K) : Bool :=
  (List.range m.cols).all (fun k => !decide (sumFl fl ((m.col k).map Prod.snd) 0 < 0))

/-- `(matrix * Ones)(i)` (`stag_lib/graph.cpp:67`): Eigen adds the columns of a column-major matrix
from left to right.  Entries which are not stored are added as zeros here, which changes nothing. -/
def rowSumFl (fl : K → K) (m : SprsMat K) (i : Nat) : K :=
  sumFl fl ((List.range m.cols).map (fun c => m.coeff i c)) 0

/-- The branch for a Laplacian matrix (`stag_lib/graph.cpp:60-70`) in rounded arithmetic; changing a
sign is exact. -/
def lapToAdjFl (fl : K → K) (m : SprsMat K) : SprsMat K :=
  (List.range m.cols).foldl (fun a i => a.update i i (fun _ => rowSumFl fl m i))
    (m.mapVal (fun v => -v))

/-- `adjacency_from_adj_or_lap` (`stag_lib/graph.cpp:26-85`) in rounded arithmetic. -/
def adjFromAdjOrLapFl (fl : K → K) (m : SprsMat K) : Outcome (SprsMat K) := do
  let a ←
    if foundNegative m then
      if positiveOffDiagonal m then Outcome.throw .domainError
      else if !diagonallyDominantFl fl m then Outcome.throw .domainError
      else Outcome.ok (lapToAdjFl fl m)
    else Outcome.ok m
  Outcome.ok (a.prune (fun v => decide (epsilon < v)))

/-- `Graph::Graph(const SprsMat&)` (`stag_lib/graph.cpp:87-114`) in rounded arithmetic, with the
simplifications of `Graph.ofMatrix`. -/
def Graph.ofMatrixFl (fl : K → K) (m : SprsMat K) : Outcome (Graph K) :=
  if m.rows ≠ m.cols ∨ m.inRange = false then .ub
  else do
    let a ← adjFromAdjOrLapFl fl m
    if a.isSymmetric then Outcome.ok ⟨a.cols, a, anySelfLoop a.cols a⟩
    else Outcome.throw .domainError

end
end Stag
