import Verif.Sparse

/-!
# Model of `stag::Graph` (`stag_lib/graph.h`, `stag_lib/graph.cpp`)

`Graph` holds the observable data of the C++ object: `number_of_vertices_`,
`adjacency_matrix_` and `has_self_loops_`.  The lazily computed matrices are
given here as functions of that data (the value written when the cache is
empty); `Verif/GraphCache.lean` models the object with its seven caches.
-/

namespace Stag

/-- `EPSILON` (`stag_lib/definitions.h:68`): the `double` nearest to `0.0000000001`
(`flBin_epsilon` in `Verif/Props/Decimal.lean`). -/
def epsilon {K : Type} [Field K] : K := 7737125245533627 / 2 ^ 86

/-- `stag::edge` (`stag_lib/graph.h`, struct edge): two vertices and a weight. -/
structure Edge (K : Type) where
  v1 : Nat
  v2 : Nat
  w : K
  deriving DecidableEq, Repr

/-- A `double` with the special values made visible: used where the code can
divide by zero.  Finite arithmetic is exact. -/
inductive XReal (K : Type) where
  | fin (a : K)
  | posInf
  | negInf
  | nan
  deriving DecidableEq, Repr

namespace XReal
variable {K : Type} [Field K] [LinearOrder K]

instance : Zero (XReal K) := ⟨fin 0⟩

/-- Infinity with the sign of a finite factor, `0 * inf = nan`. -/
def scaleInf (a : K) (pos : Bool) : XReal K :=
  if a = 0 then nan else if (decide (0 < a)) = pos then posInf else negInf

/-- IEEE product up to rounding. -/
def mul : XReal K → XReal K → XReal K
  | fin a, fin b => fin (a * b)
  | nan, _ => nan
  | _, nan => nan
  | fin a, posInf => scaleInf a true
  | fin a, negInf => scaleInf a false
  | posInf, fin a => scaleInf a true
  | negInf, fin a => scaleInf a false
  | posInf, posInf => posInf
  | negInf, negInf => posInf
  | posInf, negInf => negInf
  | negInf, posInf => negInf

/-- IEEE sum up to rounding. -/
def add : XReal K → XReal K → XReal K
  | fin a, fin b => fin (a + b)
  | nan, _ => nan
  | _, nan => nan
  | posInf, negInf => nan
  | negInf, posInf => nan
  | posInf, _ => posInf
  | _, posInf => posInf
  | negInf, _ => negInf
  | _, negInf => negInf

/-- Sign change. -/
def neg : XReal K → XReal K
  | fin a => fin (-a)
  | posInf => negInf
  | negInf => posInf
  | nan => nan

/-- IEEE difference up to rounding. -/
def sub (a b : XReal K) : XReal K := add a (neg b)

instance : Mul (XReal K) := ⟨mul⟩
instance : Add (XReal K) := ⟨add⟩
instance : Sub (XReal K) := ⟨sub⟩

/-- `1. / d` for a finite `d` (a zero is taken to be `+0.0`). -/
def inv (d : K) : XReal K := if d = 0 then posInf else fin (1 / d)

/-- `1 / sqrt(d)`; the square root of a negative number is NaN. -/
def invSqrt (sq : K → K) (d : K) : XReal K := if d < 0 then nan else inv (sq d)

end XReal

/-- The observable state of a `stag::Graph` (`stag_lib/graph.h:491-540`, private members). -/
structure Graph (K : Type) where
  n : Nat
  adj : SprsMat K
  selfLoops : Bool
  deriving DecidableEq, Repr

section
variable {K : Type} [Field K] [LinearOrder K]

/-- `found_negative_value` in `adjacency_from_adj_or_lap` (`stag_lib/graph.cpp:41-52`). -/
def foundNegative (m : SprsMat K) : Bool :=
  (List.range m.cols).any (fun k => (m.col k).any (fun e => decide (e.2 < 0)))

/-- `positive_off_diagonal_value` (`stag_lib/graph.cpp:41-52`): set by any stored
off-diagonal value that is not negative, including an explicit zero. -/
def positiveOffDiagonal (m : SprsMat K) : Bool :=
  (List.range m.cols).any (fun k =>
    (m.col k).any (fun e => !decide (e.2 < 0) && decide (e.1 ≠ k)))

/-- `diagonally_dominant` (`stag_lib/graph.cpp:41-52`): no column total is negative. -/
def diagonallyDominant (m : SprsMat K) : Bool :=
  (List.range m.cols).all (fun k => !decide (((m.col k).map Prod.snd).sum < 0))

/-- The branch for a Laplacian matrix (`stag_lib/graph.cpp:60-70`): negate, then
overwrite the diagonal with the row sums. -/
def lapToAdj (m : SprsMat K) : SprsMat K :=
  (List.range m.cols).foldl (fun a i => a.update i i (fun _ => m.rowSum i))
    (m.mapVal (fun v => -v))

/-- `adjacency_from_adj_or_lap` (`stag_lib/graph.cpp:26-85`). -/
def adjFromAdjOrLap (m : SprsMat K) : Outcome (SprsMat K) := do
  let a ←
    if foundNegative m then
      if positiveOffDiagonal m then Outcome.throw .domainError
      else if !diagonallyDominant m then Outcome.throw .domainError
      else Outcome.ok (lapToAdj m)
    else Outcome.ok m
  Outcome.ok (a.prune (fun v => decide (epsilon < v)))

/-- The loop setting `has_self_loops_` (`stag_lib/graph.cpp:94-101`). -/
def anySelfLoop (n : Nat) (a : SprsMat K) : Bool :=
  (List.range n).any (fun i => decide (a.coeff i i ≠ 0))

namespace Graph

/-- `Graph::Graph(const SprsMat&)` (`stag_lib/graph.cpp:87-114`) with `self_test_`
(`stag_lib/graph.cpp:475-480`).  Simplification: every non-square matrix is `ub`
(the C++ indexes out of range, `coeffRef(i,i)` or `coeff(col,row)`, whenever that matters),
and so is every matrix with a stored row index out of range (`isSymmetric` reads
`coeff(col, row)`, `stag_lib/utility.cpp:91-96`). -/
def ofMatrix (m : SprsMat K) : Outcome (Graph K) :=
  if m.rows ≠ m.cols ∨ m.inRange = false then .ub
  else do
    let a ← adjFromAdjOrLap m
    if a.isSymmetric then Outcome.ok ⟨a.cols, a, anySelfLoop a.cols a⟩
    else Outcome.throw .domainError

/-- `Graph::Graph(outerStarts, innerIndices, values)` (`stag_lib/graph.cpp:116-145`). -/
def ofVectors (starts inner : List Nat) (vals : List K) : Outcome (Graph K) := do
  let m ← SprsMat.fromVectors starts inner vals
  ofMatrix m

/-- `Graph::add_edge` (`stag_lib/graph.cpp:231-250`); a negative index is undefined
behaviour (Eigen assertion).  `conservativeResize` and the two `coeffRef +=`. -/
def addEdge (g : Graph K) (i j : Int) (w : K) : Outcome (Graph K) :=
  if i < 0 ∨ j < 0 then .ub
  else
    let i := i.toNat
    let j := j.toNat
    let n := max g.n (max i j + 1)
    let a := g.adj.conservativeResize n n
    let a := a.update i j (· + w)
    let a := a.update j i (· + w)
    .ok ⟨n, a, if i = j then true else g.selfLoops⟩

/-- `Graph::remove_edge` (`stag_lib/graph.cpp:252-282`), release build: the
`assert(has_self_loops_)` on line 261 is not modelled here (see
`removeEdgeAsserts`).  A negative index is undefined behaviour unless the other
index is too large. -/
def removeEdge (g : Graph K) (i j : Int) : Outcome (Graph K) :=
  if (g.n : Int) ≤ i ∨ (g.n : Int) ≤ j then .ok g
  else if i < 0 ∨ j < 0 then .ub
  else
    let i := i.toNat
    let j := j.toNat
    let a := g.adj.update i j (fun _ => 0)
    let a := a.update j i (fun _ => 0)
    let a := a.prune (fun v => decide (v ≠ 0))
    .ok ⟨g.n, a, if i = j then anySelfLoop g.n a else g.selfLoops⟩

/-- The condition asserted by `remove_edge` (`stag_lib/graph.cpp:261`). -/
def removeEdgeAsserts (g : Graph K) (i j : Int) : Bool :=
  decide ((g.n : Int) ≤ i ∨ (g.n : Int) ≤ j ∨ i ≠ j) || g.selfLoops

/-- `Graph::number_of_edges` (`stag_lib/graph.cpp:212-229`). -/
def numberOfEdges (g : Graph K) : Nat :=
  if g.selfLoops then
    (g.adj.nnz + ((List.range g.n).filter (fun i => decide (g.adj.coeff i i ≠ 0))).length) / 2
  else g.adj.nnz / 2

/-- `Graph::check_vertex_argument` (`stag_lib/graph.cpp:294-304`). -/
def checkVertex (g : Graph K) (v : Int) : Outcome Unit :=
  if (g.n : Int) ≤ v then .throw .invalidArgument
  else if v < 0 then .throw .invalidArgument
  else .ok ()

/-- `initialise_degree_matrix_` (`stag_lib/graph.cpp:566-583`). -/
def degreeMatrix (g : Graph K) : SprsMat K :=
  SprsMat.diag g.adj.cols (fun i => g.adj.rowSum i + g.adj.coeff i i)

/-- `initialise_laplacian_` (`stag_lib/graph.cpp:482-496`). -/
def laplacian (g : Graph K) : SprsMat K := SprsMat.zipWith (· - ·) g.degreeMatrix g.adj

/-- `initialise_signless_laplacian_` (`stag_lib/graph.cpp:498-512`). -/
def signlessLaplacian (g : Graph K) : SprsMat K :=
  SprsMat.zipWith (· + ·) g.degreeMatrix g.adj

/-- `D^{-1/2} A D^{-1/2}` as computed in `stag_lib/graph.cpp:522-533`. -/
def normAdj (sq : K → K) (g : Graph K) : SprsMat (XReal K) :=
  let d := fun i => XReal.invSqrt sq (g.degreeMatrix.coeff i i)
  (SprsMat.diagMul d (g.adj.mapVal XReal.fin)).mulDiag d

/-- `initialise_normalised_laplacian_` (`stag_lib/graph.cpp:514-538`). -/
def normLaplacian (sq : K → K) (g : Graph K) : SprsMat (XReal K) :=
  SprsMat.zipWith (· - ·) (SprsMat.diag g.n (fun _ => XReal.fin 1)) (g.normAdj sq)

/-- `initialise_normalised_signless_laplacian_` (`stag_lib/graph.cpp:540-564`). -/
def normSignlessLaplacian (sq : K → K) (g : Graph K) : SprsMat (XReal K) :=
  SprsMat.zipWith (· + ·) (SprsMat.diag g.n (fun _ => XReal.fin 1)) (g.normAdj sq)

/-- `initialise_inverse_degree_matrix_` (`stag_lib/graph.cpp:585-600`). -/
def inverseDegreeMatrix (g : Graph K) : SprsMat (XReal K) :=
  SprsMat.diag g.adj.cols (fun i => XReal.inv (g.degreeMatrix.coeff i i))

/-- `initialise_lazy_random_walk_matrix_` (`stag_lib/graph.cpp:602-619`):
`(1/2) I + (1/2) A D^{-1}`. -/
def lazyRandomWalk (g : Graph K) : SprsMat (XReal K) :=
  SprsMat.zipWith (· + ·)
    ((SprsMat.diag g.n (fun _ => XReal.fin (1 : K))).mapVal (fun v => XReal.fin (1 / 2) * v))
    ((g.adj.mapVal (fun v => XReal.fin (1 / 2) * XReal.fin v)).mulDiag
      (fun j => g.inverseDegreeMatrix.coeff j j))

/-- `Graph::total_volume` (`stag_lib/graph.cpp:190-202`). -/
def totalVolume (g : Graph K) : K :=
  ((List.range g.degreeMatrix.cols).map (fun k =>
    ((g.degreeMatrix.col k).map Prod.snd).sum)).sum

/-- `Graph::average_degree` (`stag_lib/graph.cpp:204-206`); `0/0` on the empty graph
is NaN. -/
def averageDegree (g : Graph K) : XReal K :=
  if g.n = 0 then .nan else .fin (g.totalVolume / (g.n : K))

/-- `Graph::degree` (`stag_lib/graph.cpp:332-339`). -/
def degree (g : Graph K) (v : Int) : Outcome K := do
  g.checkVertex v
  Outcome.ok (g.degreeMatrix.coeff v.toNat v.toNat)

/-- `Graph::degrees` (`stag_lib/graph.cpp:310-318`). -/
def degrees (g : Graph K) (vs : List Int) : Outcome (List K) := Outcome.mapM' g.degree vs

/-- `self_loop` in `degree_unweighted`/`neighbors` (`stag_lib/graph.cpp:349-350`, 367-368). -/
def selfLoopAt (g : Graph K) (v : Nat) : Nat := if g.adj.coeff v v ≠ 0 then 1 else 0

/-- `Graph::degree_unweighted` (`stag_lib/graph.cpp:341-353`). -/
def degreeUnweighted (g : Graph K) (v : Int) : Outcome Nat := do
  g.checkVertex v
  Outcome.ok ((g.adj.col v.toNat).length + g.selfLoopAt v.toNat)

/-- `Graph::degrees_unweighted` (`stag_lib/graph.cpp:320-329`). -/
def degreesUnweighted (g : Graph K) (vs : List Int) : Outcome (List Nat) :=
  Outcome.mapM' g.degreeUnweighted vs

/-- `Graph::neighbors` (`stag_lib/graph.cpp:355-378`): the first
`degree_unweighted(v) - self_loop` stored entries of column `v`, zeros skipped. -/
def neighbors (g : Graph K) (v : Int) : Outcome (List (Edge K)) := do
  g.checkVertex v
  let d ← g.degreeUnweighted v
  let es := (g.adj.col v.toNat).take (d - g.selfLoopAt v.toNat)
  Outcome.ok ((es.filter (fun e => decide (e.2 ≠ 0))).map (fun e => ⟨v.toNat, e.1, e.2⟩))

/-- `Graph::neighbors_unweighted` (`stag_lib/graph.cpp:380-395`). -/
def neighborsUnweighted (g : Graph K) (v : Int) : Outcome (List Nat) := do
  g.checkVertex v
  let d ← g.degreeUnweighted v
  Outcome.ok (((g.adj.col v.toNat).take (d - g.selfLoopAt v.toNat)).map Prod.fst)

/-- `Graph::vertex_exists` (`stag_lib/graph.cpp:397-399`). -/
def vertexExists (g : Graph K) (v : Int) : Bool := decide (0 ≤ v ∧ v < (g.n : Int))

/-- `operator==(Graph, Graph)` (`stag_lib/graph.cpp:624-629`). -/
def beq (g h : Graph K) : Bool :=
  decide (g.adj.outerStarts = h.adj.outerStarts) &&
  decide (g.adj.innerIndices = h.adj.innerIndices) &&
  decide (g.adj.values = h.adj.values)

/-- `stag::operator+(Graph, Graph)` (`stag_lib/graph.cpp:906-911`). -/
def add (g h : Graph K) : Outcome (Graph K) :=
  if g.n ≠ h.n then .throw .invalidArgument
  else ofMatrix (SprsMat.zipWith (· + ·) g.adj h.adj)

/-- `stag::operator*(Scalar, Graph)` (`stag_lib/graph.h:707-720`). -/
def smul (c : K) (g : Graph K) : Outcome (Graph K) := ofMatrix (g.adj.mapVal (fun v => c * v))

/-- The distinct vertices of the argument of `subgraph` in order of first
occurrence (`stag_lib/graph.cpp:402-413`); the new id of a vertex is its position. -/
def firstOccurrences : List Int → List Int
  | [] => []
  | v :: l => v :: (firstOccurrences l).filter (fun u => decide (u ≠ v))

/-- The triplets pushed for vertex `v` (`stag_lib/graph.cpp:417-431`). -/
def subgraphEntries (g : Graph K) (ids : List Int) (v : Int) : Outcome (List (Triplet K)) := do
  let es ← g.neighbors v
  Outcome.ok (es.flatMap (fun e =>
    if v ≤ (e.v2 : Int) ∧ (e.v2 : Int) ∈ ids then
      ⟨ids.idxOf v, ids.idxOf (e.v2 : Int), e.w⟩ ::
        (if v < (e.v2 : Int) then [⟨ids.idxOf (e.v2 : Int), ids.idxOf v, e.w⟩] else [])
    else []))

/-- `Graph::subgraph` (`stag_lib/graph.cpp:401-437`).  `order` is the iteration order of
the `std::unordered_set` `vertex_set`: any permutation of its elements. -/
def subgraph (g : Graph K) (vertices order : List Int) : Outcome (Graph K) := do
  let ids := firstOccurrences vertices
  let es ← Outcome.mapM' (g.subgraphEntries ids) order
  let m ← SprsMat.setFromTriplets ids.length ids.length es.flatten
  ofMatrix m

/-- `Graph::disjoint_union` (`stag_lib/graph.cpp:439-469`). -/
def disjointUnion (g h : Graph K) : Outcome (Graph K) :=
  let vals := g.adj.values ++ h.adj.values
  let gs := g.adj.outerStarts
  let off := gs.getLastD 0
  let starts := gs ++ (h.adj.outerStarts.filter (fun s => decide (s ≠ 0))).map (· + off)
  let inner := g.adj.innerIndices ++ h.adj.innerIndices.map (· + g.n)
  ofVectors starts inner vals

end Graph

/-- `stag::cycle_graph` (`stag_lib/graph.cpp:825-836`). -/
def cycleGraph (n : Int) : Outcome (Graph K) :=
  if n < 2 then .throw .invalidArgument
  else do
    let n := n.toNat
    let m ← SprsMat.setFromTriplets n n ((List.range n).flatMap (fun i =>
      [⟨i, (i + n + 1) % n, 1⟩, ⟨i, (i + n - 1) % n, 1⟩]))
    Graph.ofMatrix m

/-- `stag::complete_graph` (`stag_lib/graph.cpp:838-852`). -/
def completeGraph (n : Int) : Outcome (Graph K) :=
  if n < 2 then .throw .invalidArgument
  else do
    let n := n.toNat
    let m ← SprsMat.setFromTriplets n n ((List.range n).flatMap (fun i =>
      (List.range n).flatMap (fun j => if i ≠ j then [⟨i, j, 1⟩] else [])))
    Graph.ofMatrix m

/-- `stag::barbell_graph` (`stag_lib/graph.cpp:854-877`). -/
def barbellGraph (n : Int) : Outcome (Graph K) :=
  if n < 2 then .throw .invalidArgument
  else do
    let n := n.toNat
    let m ← SprsMat.setFromTriplets (2 * n) (2 * n) ((List.range n).flatMap (fun i =>
      (List.range n).flatMap (fun j =>
        if i ≠ j then [⟨i, j, 1⟩, ⟨n + i, n + j, 1⟩] else [])) ++
      [⟨n - 1, n, 1⟩, ⟨n, n - 1, 1⟩])
    Graph.ofMatrix m

/-- `stag::star_graph` (`stag_lib/graph.cpp:879-893`). -/
def starGraph (n : Int) : Outcome (Graph K) :=
  if n < 2 then .throw .invalidArgument
  else do
    let n := n.toNat
    let m ← SprsMat.setFromTriplets n n ((List.range' 1 (n - 1)).flatMap (fun i =>
      [⟨0, i, 1⟩, ⟨i, 0, 1⟩]))
    Graph.ofMatrix m

/-- `stag::identity_graph` (`stag_lib/graph.cpp:895-901`). -/
def identityGraph (n : Int) : Outcome (Graph K) :=
  if n < 1 then .throw .invalidArgument
  else Graph.ofMatrix (SprsMat.diag n.toNat (fun _ => 1))

end
end Stag
