import Verif.Base
import Mathlib.Algebra.Order.Field.Basic

/-!
# Model of the Eigen sparse matrices used by stag

`SprsMat` is `Eigen::SparseMatrix<StagReal, Eigen::ColMajor, StagInt>`
(`stag_lib/definitions.h:46`).  A matrix is kept in compressed form: one list of
`(row, value)` pairs per column, rows strictly increasing.  A stored value may
be zero ("explicit zero"), exactly as in Eigen.

Simplification: values live in an arbitrary type `K` with exact arithmetic
(theorems take an ordered field), IEEE rounding is not modelled.
-/

namespace Stag

/-- One compressed column: the stored `(row, value)` pairs. -/
abbrev Col (K : Type) := List (Nat × K)

namespace Col
variable {K : Type}

/-- `SparseMatrix::coeff` restricted to one column (Eigen: binary search in the
sorted column; here: linear search, same result on sorted columns). -/
def coeff [Zero K] : Col K → Nat → K
  | [], _ => 0
  | (r, v) :: t, i => if r = i then v else coeff t i

/-- `SparseMatrix::coeffRef(i, ·) = f(old)` restricted to one column: updates
the stored entry or inserts a new one (old value `0`) at its sorted place. -/
def update [Zero K] (i : Nat) (f : K → K) : Col K → Col K
  | [] => [(i, f 0)]
  | (r, v) :: t =>
    if i < r then (i, f 0) :: (r, v) :: t
    else if i = r then (r, f v) :: t
    else (r, v) :: update i f t

/-- Inner loop of the merge in Eigen's sparse binary expressions
(first column's head is `(r, v)`, `k` merges the rest). -/
def mergeGo [Zero K] (f : K → K → K) (r : Nat) (v : K) (k : Col K → Col K) : Col K → Col K
  | [] => (r, f v 0) :: k []
  | (s, w) :: d =>
    if r < s then (r, f v 0) :: k ((s, w) :: d)
    else if s < r then (s, f 0 w) :: mergeGo f r v k d
    else (r, f v w) :: k d

/-- Eigen's evaluation of a coefficient-wise sum or difference of two sorted
columns: the union of the two patterns. -/
def merge [Zero K] (f : K → K → K) : Col K → Col K → Col K
  | [], d => d.map (fun e => (e.1, f 0 e.2))
  | (r, v) :: c, d => mergeGo f r v (merge f c) d

/-- Coefficient-wise unary expression (`-M`, `c * M`): same pattern. -/
def mapVal {L : Type} (f : K → L) (c : Col K) : Col L := c.map (fun e => (e.1, f e.2))

/-- Rows strictly increasing. -/
def Sorted (c : Col K) : Prop := c.Pairwise (fun a b => a.1 < b.1)

end Col

/-- `SprsMat` (`stag_lib/definitions.h:46`), compressed column-major. -/
structure SprsMat (K : Type) where
  rows : Nat
  cols : Nat
  data : List (Col K)
  deriving DecidableEq, Repr

/-- A matrix entry given to `setFromTriplets` (`EdgeTriplet`,
`stag_lib/definitions.h:58`). -/
structure Triplet (K : Type) where
  row : Nat
  col : Nat
  val : K
  deriving DecidableEq, Repr

namespace SprsMat
variable {K : Type}

/-- Build a matrix from its columns. -/
def ofCols (rows cols : Nat) (f : Nat → Col K) : SprsMat K :=
  ⟨rows, cols, (List.range cols).map f⟩

/-- The `j`-th column (Eigen `InnerIterator(m, j)`). -/
def col (m : SprsMat K) (j : Nat) : Col K := m.data.getD j []

/-- `SparseMatrix::coeff(i, j)`. -/
def coeff [Zero K] (m : SprsMat K) (i j : Nat) : K := (m.col j).coeff i

/-- Well-formed compressed storage: one list per column, sorted, in range. -/
def WF (m : SprsMat K) : Prop :=
  m.data.length = m.cols ∧ ∀ j, (m.col j).Sorted ∧ ∀ e ∈ m.col j, e.1 < m.rows

/-- Every stored row index is in range. -/
def inRange (m : SprsMat K) : Bool :=
  (List.range m.cols).all (fun j => (m.col j).all (fun e => decide (e.1 < m.rows)))

/-- No explicit zero is stored. -/
def NoZeros [Zero K] (m : SprsMat K) : Prop := ∀ j, ∀ e ∈ m.col j, e.2 ≠ 0

/-- `SparseMatrix(rows, cols)`: no stored entries. -/
def empty (rows cols : Nat) : SprsMat K := ofCols rows cols (fun _ => [])

/-- `SparseMatrix::nonZeros()`: the number of stored entries. -/
def nnz (m : SprsMat K) : Nat := (m.data.map List.length).sum

/-- `SparseMatrix::coeffRef(i, j) = f(old)`; callers guarantee the indices are
in range (otherwise Eigen asserts / undefined behaviour). -/
def update [Zero K] (m : SprsMat K) (i j : Nat) (f : K → K) : SprsMat K :=
  ofCols m.rows m.cols (fun k => if k = j then (m.col k).update i f else m.col k)

/-- `SparseMatrix::conservativeResize(rows, cols)`: keep the entries that still
fit. -/
def conservativeResize (m : SprsMat K) (rows cols : Nat) : SprsMat K :=
  ofCols rows cols (fun j => (m.col j).filter (fun e => e.1 < rows))

/-- `SparseMatrix::prune(keep)` with `keep` depending on the value only. -/
def prune (keep : K → Bool) (m : SprsMat K) : SprsMat K :=
  ofCols m.rows m.cols (fun j => (m.col j).filter (fun e => keep e.2))

/-- Coefficient-wise binary expression (`A + B`, `A - B`). -/
def zipWith [Zero K] (f : K → K → K) (a b : SprsMat K) : SprsMat K :=
  ofCols a.rows a.cols (fun j => Col.merge f (a.col j) (b.col j))

/-- Coefficient-wise unary expression (`-A`, `c * A`). -/
def mapVal {L : Type} (f : K → L) (m : SprsMat K) : SprsMat L :=
  ofCols m.rows m.cols (fun j => (m.col j).mapVal f)

/-- `A * Ones`: the row sums, accumulated over stored entries column by
column (exact arithmetic, so the accumulation order is irrelevant). -/
def rowSum [Zero K] [Add K] (m : SprsMat K) (i : Nat) : K :=
  ((List.range m.cols).map (fun j =>
    ((m.col j).map (fun e => if e.1 = i then e.2 else 0)).sum)).sum

/-- A diagonal matrix all of whose diagonal entries are stored
(`insert(i, i) = d i` for every `i`, or `setIdentity`). -/
def diag (n : Nat) (d : Nat → K) : SprsMat K := ofCols n n (fun j => [(j, d j)])

/-- Product `A * diag(d)` of a sparse matrix with a fully stored diagonal
matrix: Eigen's sparse product multiplies each stored entry of column `j` by
the single stored entry of column `j` of the diagonal matrix. -/
def mulDiag [Mul K] (m : SprsMat K) (d : Nat → K) : SprsMat K :=
  ofCols m.rows m.cols (fun j => (m.col j).map (fun e => (e.1, e.2 * d j)))

/-- Product `diag(d) * A`. -/
def diagMul [Mul K] (d : Nat → K) (m : SprsMat K) : SprsMat K :=
  ofCols m.rows m.cols (fun j => (m.col j).map (fun e => (e.1, d e.1 * e.2)))

/-- `setFromTriplets`: duplicates are summed; an out-of-range index is
undefined behaviour (Eigen assertion). -/
def setFromTriplets [Zero K] [Add K] (rows cols : Nat) (l : List (Triplet K)) :
    Outcome (SprsMat K) :=
  if l.all (fun t => decide (t.row < rows) && decide (t.col < cols)) then
    .ok (l.foldl (fun m t => m.update t.row t.col (· + t.val)) (empty rows cols))
  else .ub

/-- `stag::sprsMatInnerIndices` (`stag_lib/utility.cpp:9-17`). -/
def innerIndices (m : SprsMat K) : List Nat := m.data.flatMap (fun c => c.map Prod.fst)

/-- `stag::sprsMatValues` (`stag_lib/utility.cpp:29-37`). -/
def values (m : SprsMat K) : List K := m.data.flatMap (fun c => c.map Prod.snd)

/-- Prefix sums starting from `s`. -/
def prefixSums (s : Nat) : List Nat → List Nat
  | [] => [s]
  | a :: l => s :: prefixSums (s + a) l

/-- `stag::sprsMatOuterStarts` (`stag_lib/utility.cpp:19-27`). -/
def outerStarts (m : SprsMat K) : List Nat := prefixSums 0 (m.data.map List.length)

/-- `stag::isSymmetric` (`stag_lib/utility.cpp:87-102`): every stored entry is
compared with the opposite coefficient. -/
def isSymmetric [Zero K] [DecidableEq K] (m : SprsMat K) : Bool :=
  (List.range m.cols).all (fun k =>
    (m.col k).all (fun e => decide (e.2 = m.coeff k e.1)))

/-- Cut consecutive pieces `[starts k, starts (k+1))` out of a list. -/
def slices {α : Type} : List Nat → List α → List (List α)
  | a :: b :: s, l => (l.drop a).take (b - a) :: slices (b :: s) l
  | _, _ => []

/-- `stag::sprsMatFromVectors` (`stag_lib/utility.cpp:63-85`).  The C++ checks
only the two length conditions, in this order; `column_starts.back()` on an empty vector is
undefined behaviour.  The `Eigen::Map` copies column `k` from positions
`column_starts[k] ..< column_starts[k+1]`.  A map whose first start is not 0 or
whose starts decrease reads out of the described ranges: `ub`. -/
def fromVectors (starts inner : List Nat) (vals : List K) : Outcome (SprsMat K) :=
  if inner.length ≠ vals.length then .throw .invalidArgument
  else match starts.getLast? with
    | none => .ub
    | some last =>
      if last ≠ inner.length then .throw .invalidArgument
      else if starts.head? ≠ some 0 ∨ ¬ starts.Pairwise (· ≤ ·) then .ub
      else .ok ⟨starts.length - 1, starts.length - 1, slices starts (inner.zip vals)⟩

/-- `stag::sprsMatToVec(matrix, n)` (`stag_lib/utility.cpp:45-61`).  Reading the first column of a matrix
without columns is undefined behaviour. -/
def toVec [Zero K] (m : SprsMat K) (n : Int) : Outcome (List K) :=
  if n < 1 then .throw .invalidArgument
  else if m.cols = 0 ∧ 0 < m.rows then .ub
  else .ok ((List.range n.toNat).map (fun i => if i < m.rows then m.coeff i 0 else 0))

/-- `stag::sprsMatToVec(matrix)` (`stag_lib/utility.cpp:39-43`). -/
def toVecRows [Zero K] (m : SprsMat K) : Outcome (List K) := m.toVec m.rows

end SprsMat
end Stag
