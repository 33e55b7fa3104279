import Verif.Text
import Mathlib.Data.List.GetD

/-!
# Model of `stag_lib/data.cpp`: dense matrices in files, data points
-/

namespace Stag

/-- `DenseMat` (`stag_lib/definitions.h:51-52`): a dense matrix in row-major storage. -/
structure Mat (K : Type) where
  rows : Nat
  cols : Nat
  mem : List K
  deriving DecidableEq, Repr

namespace Mat
variable {K : Type}

/-- The storage has the right size (an invariant of Eigen). -/
def Ok (m : Mat K) : Prop := m.mem.length = m.rows * m.cols

variable [Zero K]

/-- `mat(i, j)` for indices in range: row-major addressing. -/
def coeff (m : Mat K) (i j : Nat) : K := m.mem.getD (i * m.cols + j) 0

/-- `mat.coeffRef(i, j) = x`; out of range is undefined (the assertion is compiled out). -/
def set (m : Mat K) (i j : Nat) (x : K) : Outcome (Mat K) :=
  if i < m.rows ∧ j < m.cols then .ok { m with mem := m.mem.set (i * m.cols + j) x } else .ub

/-- `mat.conservativeResize(r, c)`: entries that stay are kept, new entries are uninitialised
(`junk`). -/
def resize (junk : Nat → Nat → K) (m : Mat K) (r c : Nat) : Mat K :=
  ⟨r, c, (List.range (r * c)).map (fun t =>
    if t / c < m.rows ∧ t % c < m.cols then m.coeff (t / c) (t % c) else junk (t / c) (t % c))⟩

end Mat

section
variable {K : Type} [Zero K]

/-! ## Data points -/

/-- `DataPoint` (`stag_lib/data.h:34-90`): a dimension and a pointer, here an offset into the
storage the point was created from. -/
structure DataPoint where
  dimension : Nat
  base : Nat
  deriving DecidableEq, Repr

/-- `DataPoint(DenseMat&, StagInt)` (`stag_lib/data.cpp:26-29`): the row index is not checked, a
row outside the matrix is undefined behaviour. -/
def DataPoint.ofMatrix (m : Mat K) (row : Int) : Outcome DataPoint :=
  if 0 ≤ row ∧ row < m.rows then .ok ⟨m.cols, row.toNat * m.cols⟩ else .ub

/-- `DataPoint(std::vector&)` (`stag_lib/data.cpp:31-34`): `&v[0]` of an empty vector is undefined
behaviour. -/
def DataPoint.ofVector (v : List K) : Outcome DataPoint :=
  if v = [] then .ub else .ok ⟨v.length, 0⟩

/-- `DataPoint::to_vector` (`stag_lib/data.cpp:36-42`), reading the storage as it is now. -/
def DataPoint.toVector (p : DataPoint) (mem : List K) : Outcome (List K) :=
  Outcome.mapM' (fun t => match mem[p.base + t]? with
    | some x => .ok x
    | none => .ub) (List.range p.dimension)

/-- `stag::matrix_to_datapoints` (`stag_lib/data.cpp:47-56`). -/
def matrixToDatapoints (m : Mat K) : List DataPoint :=
  (List.range m.rows).map (fun i => ⟨m.cols, i * m.cols⟩)

/-! ## Files -/

/-- `stag::save_matrix` (`stag_lib/data.cpp:61-80`): contents of the file. -/
def saveMatrix (F : Fmt K) (m : Mat K) : Str :=
  unlines ((List.range m.rows).map (fun i =>
    (List.range m.cols).flatMap (fun j => F.print (m.coeff i j) ++ [' '])))

/-- The inner loop over the tokens (`stag_lib/data.cpp:107-121`). -/
def csvTokens (F : Fmt K) (acc : List K) : List Str → Outcome (List K)
  | [] => .ok acc
  | t :: ts =>
    if t = [] then csvTokens F acc ts
    else do
      let x ← F.stod t
      csvTokens F (acc ++ [x]) ts

/-- One delimiter (`stag_lib/data.cpp:103-123`); the number of tokens found is the length of the
list. -/
def csvDelim (F : Fmt K) (s : List K × Str) (d : Char) : Outcome (List K × Str) :=
  if s.1.length = 0 then do
    let ts ← csvTokens F s.1 (splitDelim d s.2).1
    .ok (ts, (splitDelim d s.2).2)
  else .ok s

/-- `parse_numeric_csv_content_line` (`stag_lib/data.cpp:91-137`). -/
def parseCsvLine (F : Fmt K) (line : Str) : Outcome (List K) := do
  let s ← csvDelim F ([], line) ','
  let s ← csvDelim F s ' '
  let s ← csvDelim F s '\t'
  match F.stod s.2 with
  | .ok x => .ok (s.1 ++ [x])
  | .throw _ => .ok s.1
  | .ub => .ub

/-- `num_cols` (-1 before the first row), `num_rows` and `data` of `load_matrix`. -/
structure LoadState (K : Type) where
  numCols : Option Nat
  numRows : Nat
  data : Mat K

/-- Writing a row (`stag_lib/data.cpp:175-177,183-185`). -/
def setRow (m : Mat K) (i : Nat) : Nat → List K → Outcome (Mat K)
  | _, [] => .ok m
  | j, x :: xs => do
    let m ← m.set i j x
    setRow m i (j + 1) xs

/-- Storing the tokens of one line (`stag_lib/data.cpp:160-187`).  Simplification: `1.1 * num_rows`
is exact (the surplus rows are cut off at the end anyway). -/
def loadRow (junk : Nat → Nat → K) (s : LoadState K) (tokens : List K) : Outcome (LoadState K) :=
  let numCols := s.numCols.getD tokens.length
  let data := match s.numCols with
    | none => s.data.resize junk s.data.rows tokens.length
    | some _ => s.data
  if numCols ≠ tokens.length then .throw .runtimeError
  else
    let numRows := s.numRows + 1
    let data := if numRows ≤ data.rows then data
      else data.resize junk ((11 * numRows + 9) / 10) data.cols
    do
      let data ← setRow data (numRows - 1) 0 tokens
      .ok ⟨some numCols, numRows, data⟩

/-- The loop over the lines (`stag_lib/data.cpp:156-189`). -/
def loadRows (F : Fmt K) (junk : Nat → Nat → K) (s : LoadState K) : List Str → Outcome (LoadState K)
  | [] => .ok s
  | l :: ls =>
    if isContent l then do
      let ts ← parseCsvLine F l
      let s ← loadRow junk s ts
      loadRows F junk s ls
    else loadRows F junk s ls

/-- `stag::load_matrix` (`stag_lib/data.cpp:139-196`). -/
def loadMatrix (F : Fmt K) (junk : Nat → Nat → K) (file : Str) : Outcome (Mat K) := do
  let s ← loadRows F junk ⟨none, 0, ⟨1, 1, [junk 0 0]⟩⟩ (fileLines file)
  .ok (s.data.resize junk s.numRows s.data.cols)

end
end Stag
