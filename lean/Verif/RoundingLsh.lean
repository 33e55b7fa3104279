import Verif.Lsh
import Verif.RoundingMetrics

/-!
# Locality sensitive hashing in machine arithmetic (`stag_lib/lsh.cpp`)

The functions of `Verif.Lsh` again, with a rounding `fl` after every operation on `double`s and with
64-bit integers: the conversion of a `double` outside their range and an overflow are undefined.  The
order of the additions in Eigen's product of a matrix and a vector is not specified: `dot` is any
function that computes such a product.
-/

namespace Stag

section
variable {K : Type} [Field K] [LinearOrder K] [FloorRing K]

/-- The loop of `LSHFunction::apply` (`stag_lib/lsh.cpp:80-83`), every operation rounded. -/
def dotLoopFl (fl : K → K) (point a : List K) : Nat → Nat → K → K
  | _, 0, value => value
  | d, n + 1, value =>
    dotLoopFl fl point a (d + 1) n (fl (value + fl (point.getD d 0 * a.getD d 0)))

/-- `LSHFunction::apply` (`stag_lib/lsh.cpp:76-86`) in machine arithmetic; a point of another
dimension fails the assertion. -/
def LshFunction.applyFl (fl : K → K) (f : LshFunction K) (point : List K) : Outcome Int :=
  if point.length ≠ f.dim then .ub
  else int64 ⌊fl (dotLoopFl fl point f.a 0 f.dim 0 + f.b)⌋

/-- The loop of `MultiLSHFunction::apply` (`stag_lib/lsh.cpp:130-133`) in machine arithmetic. -/
def keyLoopFl (fl : K → K) (dot : List K → List K → K) (point : List K) :
    List (List K × K × Int) → Int → Outcome Int
  | [], h => .ok h
  | f :: fs, h => do
    let v ← int64 ⌊fl (dot f.1 point + f.2.1)⌋
    let m ← int64 (f.2.2 * v)
    let h ← int64 (h + m)
    keyLoopFl fl dot point fs h

/-- `MultiLSHFunction::apply` (`stag_lib/lsh.cpp:126-135`) in machine arithmetic. -/
def MultiLsh.applyFl (fl : K → K) (dot : List K → List K → K) (f : MultiLsh K) (point : List K) :
    Outcome Int :=
  keyLoopFl fl dot point f.fns 0

/-- One point added to every table (`stag_lib/lsh.cpp:161-167`) in machine arithmetic. -/
def addPointFl (fl : K → K) (dot : List K → List K → K) (i : Nat) (point : List K) :
    List (MultiLsh K × HashTable) → Outcome (List (MultiLsh K × HashTable))
  | [] => .ok []
  | t :: ts => do
    let key ← t.1.applyFl fl dot point
    let ts ← addPointFl fl dot i point ts
    .ok ((t.1, t.2.add key i) :: ts)

/-- The loop over the points (`stag_lib/lsh.cpp:160-168`) in machine arithmetic. -/
def addPointsFl (fl : K → K) (dot : List K → List K → K) : List (MultiLsh K × HashTable) → Nat →
    List (List K) → Outcome (List (MultiLsh K × HashTable))
  | ts, _, [] => .ok ts
  | ts, i, p :: ps => do
    let ts ← addPointFl fl dot i p ts
    addPointsFl fl dot ts (i + 1) ps

/-- `E2LSH::E2LSH` (`stag_lib/lsh.cpp:139-170`) in machine arithmetic. -/
def E2Lsh.createFl (fl : K → K) (dot : List K → List K → K) (fs : List (MultiLsh K))
    (points : List (List K)) : Outcome (E2Lsh K) := do
  let ts ← addPointsFl fl dot (fs.map (fun f => (f, fun _ => none))) 0 points
  .ok ⟨points, ts⟩

/-- The loop over the tables (`stag_lib/lsh.cpp:192-204`) in machine arithmetic. -/
def nearIndicesFl (fl : K → K) (dot : List K → List K → K) (query : List K) :
    List (MultiLsh K × HashTable) → List Nat → Outcome (List Nat)
  | [], near => .ok near
  | t :: ts, near => do
    let key ← t.1.applyFl fl dot query
    match t.2 key with
    | none => nearIndicesFl fl dot query ts near
    | some bucket => nearIndicesFl fl dot query ts (collect near bucket)

/-- `E2LSH::get_near_neighbors` (`stag_lib/lsh.cpp:188-207`) in machine arithmetic. -/
def E2Lsh.getNearNeighborsFl (fl : K → K) (dot : List K → List K → K) (e : E2Lsh K)
    (query : List K) : Outcome (List (List K)) := do
  let near ← nearIndicesFl fl dot query e.tables []
  .ok (near.map (fun i => e.points.getD i []))

end
end Stag
