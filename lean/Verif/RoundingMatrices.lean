import Verif.RoundingGraph
import Verif.Spec.WGraph

/-!
# The derived matrices, graph arithmetic and edge mutation in rounded arithmetic

The derived matrices are those of graphs whose computed degrees are positive, so that no infinity or NaN appears
(for the others see C09 and C11).
-/

set_option linter.unusedSectionVars false

namespace Stag

section
variable {K : Type} [Field K] [LinearOrder K]

/-- `A * diag(d)` in rounded arithmetic: one product for every stored entry (Eigen's sparse product stores the first product
of an entry and would add further ones; here there is one). -/
def SprsMat.mulDiagFl (fl : K → K) (m : SprsMat K) (d : Nat → K) : SprsMat K :=
  SprsMat.ofCols m.rows m.cols (fun j => (m.col j).map (fun e => (e.1, fl (e.2 * d j))))

/-- `diag(d) * A` in rounded arithmetic. -/
def SprsMat.diagMulFl (fl : K → K) (d : Nat → K) (m : SprsMat K) : SprsMat K :=
  SprsMat.ofCols m.rows m.cols (fun j => (m.col j).map (fun e => (e.1, fl (d e.1 * e.2))))

namespace Graph

/-- `initialise_signless_laplacian_` (`stag_lib/graph.cpp:498-512`) in rounded arithmetic. -/
def signlessLaplacianFl (fl : K → K) (g : Graph K) : SprsMat K :=
  SprsMat.zipWith (fun a b => fl (a + b)) (g.degreeMatrixFl fl) g.adj

/-- `1 / sqrt(degree_matrix_.coeff(i, i))` (`stag_lib/graph.cpp:525-527`, 551-553), `sq` being the exact square root
(the function of the C++ library rounds it correctly). -/
def invSqrtDegFl (fl sq : K → K) (g : Graph K) (i : Nat) : K := fl (1 / fl (sq ((g.degreeMatrixFl fl).coeff i i)))

/-- `sqrt_inv_deg_mat * adjacency_matrix_ * sqrt_inv_deg_mat` (`stag_lib/graph.cpp:533`, 559), from left to right. -/
def normAdjFl (fl sq : K → K) (g : Graph K) : SprsMat K :=
  (SprsMat.diagMulFl fl (g.invSqrtDegFl fl sq) g.adj).mulDiagFl fl (g.invSqrtDegFl fl sq)

/-- `initialise_normalised_laplacian_` (`stag_lib/graph.cpp:514-538`) in rounded arithmetic. -/
def normLaplacianFl (fl sq : K → K) (g : Graph K) : SprsMat K :=
  SprsMat.zipWith (fun a b => fl (a - b)) (SprsMat.diag g.n (fun _ => 1)) (g.normAdjFl fl sq)

/-- `initialise_normalised_signless_laplacian_` (`stag_lib/graph.cpp:540-564`) in rounded arithmetic. -/
def normSignlessLaplacianFl (fl sq : K → K) (g : Graph K) : SprsMat K :=
  SprsMat.zipWith (fun a b => fl (a + b)) (SprsMat.diag g.n (fun _ => 1)) (g.normAdjFl fl sq)

/-- `initialise_inverse_degree_matrix_` (`stag_lib/graph.cpp:585-600`) in rounded arithmetic. -/
def inverseDegreeFl (fl : K → K) (g : Graph K) : SprsMat K :=
  SprsMat.diag g.adj.cols (fun i => fl (1 / (g.degreeMatrixFl fl).coeff i i))

/-- `initialise_lazy_random_walk_matrix_` (`stag_lib/graph.cpp:602-619`) in rounded arithmetic:
`(1./2) * I + ((1./2) * A) * D^{-1}`. -/
def lazyRandomWalkFl (fl : K → K) (g : Graph K) : SprsMat K :=
  SprsMat.zipWith (fun a b => fl (a + b)) ((SprsMat.diag g.n (fun _ => (1 : K))).mapVal (fun v => fl (1 / 2 * v)))
    ((g.adj.mapVal (fun v => fl (1 / 2 * v))).mulDiagFl fl (fun j => (g.inverseDegreeFl fl).coeff j j))

/-- `stag::operator+(Graph, Graph)` (`stag_lib/graph.cpp:906-911`) in rounded arithmetic. -/
def addFl (fl : K → K) (g h : Graph K) : Outcome (Graph K) :=
  if g.n ≠ h.n then .throw .invalidArgument
  else ofMatrixFl fl (SprsMat.zipWith (fun a b => fl (a + b)) g.adj h.adj)

/-- `stag::operator*(Scalar, Graph)` (`stag_lib/graph.h:707-720`) in rounded arithmetic. -/
def smulFl (fl : K → K) (c : K) (g : Graph K) : Outcome (Graph K) := ofMatrixFl fl (g.adj.mapVal (fun v => fl (c * v)))

/-- `Graph::add_edge` (`stag_lib/graph.cpp:231-250`) in rounded arithmetic. -/
def addEdgeFl (fl : K → K) (g : Graph K) (i j : Int) (w : K) : Outcome (Graph K) :=
  if i < 0 ∨ j < 0 then .ub
  else
    let i := i.toNat
    let j := j.toNat
    let n := max g.n (max i j + 1)
    let a := g.adj.conservativeResize n n
    let a := a.update i j (fun v => fl (v + w))
    let a := a.update j i (fun v => fl (v + w))
    .ok ⟨n, a, if i = j then true else g.selfLoops⟩

/-- One mutating call in rounded arithmetic; `remove_edge` does not compute. -/
def stepFl (fl : K → K) (g : Graph K) : GOp K → Outcome (Graph K)
  | .add i j x => g.addEdgeFl fl i j x
  | .remove i j => g.removeEdge i j

/-- A history of mutating calls in rounded arithmetic. -/
def runFl (fl : K → K) (g : Graph K) : List (GOp K) → Outcome (Graph K)
  | [] => .ok g
  | op :: ops => do
    let g' ← g.stepFl fl op
    runFl fl g' ops

end Graph
end
end Stag
