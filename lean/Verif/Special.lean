import Verif.GraphIO
import Verif.SparseLemmas
import Verif.Spec.WGraph

/-!
# Graphs with infinite and undefined weights

A `double` is a finite number, an infinity or NaN (`XReal`).  This module is the model of the graph constructor, of `add_edge` and
`remove_edge`, of the sum, the scalar multiple, `==`, the degree and the Laplacian on such weights, with the comparisons of
IEEE 754 (every comparison with NaN is false, NaN differs from itself).  Finite arithmetic is exact, zeros have no sign.
-/

set_option linter.unusedSectionVars false

namespace Stag

namespace XReal
variable {K : Type} [Field K] [LinearOrder K]

/-- IEEE `a < b`. -/
def lt : XReal K → XReal K → Bool
  | fin a, fin b => decide (a < b)
  | negInf, fin _ => true
  | negInf, posInf => true
  | fin _, posInf => true
  | _, _ => false

/-- IEEE `a == b` (`a != b` is its negation). -/
def eq : XReal K → XReal K → Bool
  | nan, _ => false
  | a, b => decide (a = b)

/-- Sums of IEEE numbers without rounding can be taken in any order. -/
instance : AddCommMonoid (XReal K) where
  add := add
  zero := fin 0
  add_assoc a b c := by
    cases a <;> cases b <;> cases c <;> first | rfl | exact congrArg fin (add_assoc _ _ _)
  zero_add a := by cases a <;> first | rfl | exact congrArg fin (zero_add _)
  add_zero a := by cases a <;> first | rfl | exact congrArg fin (add_zero _)
  add_comm a b := by cases a <;> cases b <;> first | rfl | exact congrArg fin (add_comm _ _)
  nsmul := nsmulRec

end XReal

section
variable {K : Type} [Field K] [LinearOrder K]

/-- `found_negative_value` (`stag_lib/graph.cpp:41-52`). -/
def foundNegativeX (m : SprsMat (XReal K)) : Bool :=
  (List.range m.cols).any (fun k => (m.col k).any (fun e => e.2.lt (.fin 0)))

/-- `positive_off_diagonal_value` (`stag_lib/graph.cpp:41-52`). -/
def positiveOffDiagonalX (m : SprsMat (XReal K)) : Bool :=
  (List.range m.cols).any (fun k => (m.col k).any (fun e => !e.2.lt (.fin 0) && decide (e.1 ≠ k)))

/-- `diagonally_dominant` (`stag_lib/graph.cpp:41-52`). -/
def diagonallyDominantX (m : SprsMat (XReal K)) : Bool :=
  (List.range m.cols).all (fun k => !(((m.col k).map Prod.snd).sum.lt (.fin 0)))

/-- The branch for a Laplacian matrix (`stag_lib/graph.cpp:60-70`). -/
def lapToAdjX (m : SprsMat (XReal K)) : SprsMat (XReal K) :=
  (List.range m.cols).foldl (fun a i => a.update i i (fun _ => m.rowSum i)) (m.mapVal XReal.neg)

/-- The pruning at the end (`stag_lib/graph.cpp:76-81`). -/
def pruneX (m : SprsMat (XReal K)) : SprsMat (XReal K) := m.prune (fun v => (XReal.fin epsilon).lt v)

/-- `adjacency_from_adj_or_lap` (`stag_lib/graph.cpp:26-85`). -/
def adjFromAdjOrLapX (m : SprsMat (XReal K)) : Outcome (SprsMat (XReal K)) :=
  if foundNegativeX m then
    if positiveOffDiagonalX m then .throw .domainError
    else if !diagonallyDominantX m then .throw .domainError
    else .ok (pruneX (lapToAdjX m))
  else .ok (pruneX m)

/-- `stag::isSymmetric` (`stag_lib/utility.cpp:87-102`). -/
def isSymmetricX (m : SprsMat (XReal K)) : Bool :=
  (List.range m.cols).all (fun k => (m.col k).all (fun e => e.2.eq (m.coeff k e.1)))

/-- The loop setting `has_self_loops_` (`stag_lib/graph.cpp:94-101`). -/
def anySelfLoopX (n : Nat) (a : SprsMat (XReal K)) : Bool :=
  (List.range n).any (fun i => !(a.coeff i i).eq (.fin 0))

namespace Graph

/-- `Graph::Graph(const SprsMat&)` (`stag_lib/graph.cpp:87-114`), with the simplifications of `Graph.ofMatrix`. -/
def ofMatrixX (m : SprsMat (XReal K)) : Outcome (Graph (XReal K)) :=
  if m.rows ≠ m.cols ∨ m.inRange = false then .ub
  else match adjFromAdjOrLapX m with
    | .ok a => if isSymmetricX a then .ok ⟨a.cols, a, anySelfLoopX a.cols a⟩ else .throw .domainError
    | .throw e => .throw e
    | .ub => .ub

/-- The graph of the edges read by `load_edgelist` (`stag_lib/graphio.cpp:105-139`); `std::stod` also reads `inf` and `nan`. -/
def ofEdgesX (es : List (Edge (XReal K))) : Outcome (Graph (XReal K)) :=
  match SprsMat.setFromTriplets (maxVertex es) (maxVertex es) (es.flatMap bothTriplets) with
  | .ok m => ofMatrixX m
  | .throw e => .throw e
  | .ub => .ub

/-- `Graph::add_edge` (`stag_lib/graph.cpp:231-250`) for vertices that are not negative. -/
def addEdgeX (g : Graph (XReal K)) (i j : Nat) (w : XReal K) : Graph (XReal K) :=
  let n := max g.n (max i j + 1)
  let a := g.adj.conservativeResize n n
  let a := a.update i j (fun v => v + w)
  let a := a.update j i (fun v => v + w)
  ⟨n, a, if i = j then true else g.selfLoops⟩

/-- `Graph::remove_edge` (`stag_lib/graph.cpp:252-282`) for vertices that are not negative; `prune(0.0)` drops the zeros. -/
def removeEdgeX (g : Graph (XReal K)) (i j : Nat) : Graph (XReal K) :=
  if g.n ≤ i ∨ g.n ≤ j then g
  else
    let a := g.adj.update i j (fun _ => .fin 0)
    let a := a.update j i (fun _ => .fin 0)
    let a := a.prune (fun v => !v.eq (.fin 0))
    ⟨g.n, a, if i = j then anySelfLoopX g.n a else g.selfLoops⟩

/-- One mutating call. -/
def stepX (g : Graph (XReal K)) : GOp (XReal K) → Graph (XReal K)
  | .add i j x => g.addEdgeX i j x
  | .remove i j => g.removeEdgeX i j

/-- `Graph::degree` (`stag_lib/graph.cpp:332-339, 566-583`): the row sum plus the weight of the self-loop. -/
def degreeX (g : Graph (XReal K)) (v : Nat) : XReal K := g.adj.rowSum v + g.adj.coeff v v

/-- `initialise_laplacian_` (`stag_lib/graph.cpp:482-496`). -/
def laplacianX (g : Graph (XReal K)) : SprsMat (XReal K) :=
  SprsMat.zipWith (· - ·) (SprsMat.diag g.adj.cols g.degreeX) g.adj

/-- `stag::operator+(Graph, Graph)` (`stag_lib/graph.cpp:906-911`). -/
def addX (g h : Graph (XReal K)) : Outcome (Graph (XReal K)) :=
  if g.n ≠ h.n then .throw .invalidArgument
  else ofMatrixX (SprsMat.zipWith (· + ·) g.adj h.adj)

/-- `stag::operator*(Scalar, Graph)` (`stag_lib/graph.h:707-720`). -/
def smulX (c : XReal K) (g : Graph (XReal K)) : Outcome (Graph (XReal K)) := ofMatrixX (g.adj.mapVal (fun v => c * v))

/-- `==` of two `std::vector<double>`. -/
def eqVec : List (XReal K) → List (XReal K) → Bool
  | [], [] => true
  | a :: l, b :: l' => a.eq b && eqVec l l'
  | _, _ => false

/-- `operator==(Graph, Graph)` (`stag_lib/graph.cpp:624-629`). -/
def beqX (g h : Graph (XReal K)) : Bool :=
  decide (g.adj.outerStarts = h.adj.outerStarts) && decide (g.adj.innerIndices = h.adj.innerIndices) &&
    eqVec g.adj.values h.adj.values

end Graph
end
end Stag
