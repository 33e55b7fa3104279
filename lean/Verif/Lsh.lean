import Verif.Base
import Mathlib.Algebra.Order.Floor.Defs
import Mathlib.Algebra.Order.Floor.Ring
import Mathlib.Algebra.Order.Field.Basic

/-!
# Model of `stag_lib/lsh.cpp`: locality sensitive hashing

A data point is the list of its coordinates.  The random numbers drawn by the constructors are
fields of the structures: all results hold for every value of them.
Simplification: `StagInt` is unbounded.
-/

namespace Stag

section
variable {K : Type} [Field K] [LinearOrder K] [FloorRing K]

/-- The loop of `LSHFunction::apply` (`stag_lib/lsh.cpp:80-83`). -/
def dotLoop (point a : List K) : Nat → Nat → K → K
  | _, 0, value => value
  | d, n + 1, value => dotLoop point a (d + 1) n (value + point.getD d 0 * a.getD d 0)

/-- `LSHFunction` (`stag_lib/lsh.h`, `stag_lib/lsh.cpp:62-74`): the vector `a` is drawn from a
Gaussian and divided by `LSH_PARAMETER_W`, `b` is uniform in `[0, 1]`. -/
structure LshFunction (K : Type) where
  dim : Nat
  a : List K
  b : K

/-- The constructor, given the Gaussian draws `g` and the uniform draw `b`
(`stag_lib/lsh.cpp:62-74`). -/
def LshFunction.create (dim : Nat) (g : Nat → K) (b : K) : LshFunction K :=
  ⟨dim, (List.range dim).map (fun d => g d / 4), b⟩

/-- `LSHFunction::apply` (`stag_lib/lsh.cpp:76-86`); a point of another dimension fails the
assertion. -/
def LshFunction.apply (f : LshFunction K) (point : List K) : Outcome Int :=
  if point.length ≠ f.dim then .ub
  else .ok ⌊dotLoop point f.a 0 f.dim 0 + f.b⌋

/-- `MultiLSHFunction` (`stag_lib/lsh.h`, `stag_lib/lsh.cpp:106-124`): `rand_proj`, `rand_offset`,
`uhash_vector`, row by row. -/
structure MultiLsh (K : Type) where
  cols : Nat
  fns : List (List K × K × Int)

/-- The constructor `MultiLSHFunction::MultiLSHFunction` (`stag_lib/lsh.cpp:106-124`), given the Gaussian
draws `g`, the uniform draws `b` in `[0, 1]` and the draws `u` in `[1, MAX_HASH_RND]`. -/
def MultiLsh.create (dim num : Nat) (g : Nat → Nat → K) (b : Nat → K) (u : Nat → Int) : MultiLsh K :=
  ⟨dim, (List.range num).map (fun i => ((List.range dim).map (fun d => g i d / 4), b i, u i))⟩

/-- The product of a row of `rand_proj` and the point (`stag_lib/lsh.cpp:129`). -/
def rowDot (row point : List K) : K := (List.zipWith (· * ·) row point).sum

/-- The `i`-th hash function of the tuple. -/
def hashOne (f : List K × K × Int) (point : List K) : Int := ⌊rowDot f.1 point + f.2.1⌋

/-- `MultiLSHFunction::apply` (`stag_lib/lsh.cpp:126-135`). -/
def MultiLsh.apply (f : MultiLsh K) (point : List K) : Int :=
  f.fns.foldl (fun h g => h + g.2.2 * hashOne g point) 0

/-- The hash tables: `std::unordered_map<StagInt, std::vector<StagUInt>>`. -/
abbrev HashTable := Int → Option (List Nat)

/-- `E2LSH` (`stag_lib/lsh.h`): the points, one function and one table for each of the `L` tables. -/
structure E2Lsh (K : Type) where
  points : List (List K)
  tables : List (MultiLsh K × HashTable)

/-- Adding index `i` to the bucket of `key` (`stag_lib/lsh.cpp:163-166`). -/
def HashTable.add (t : HashTable) (key : Int) (i : Nat) : HashTable :=
  let t := if (t key).isNone then (fun k => if k = key then some [] else t k) else t
  fun k => if k = key then some ((t key).getD [] ++ [i]) else t k

/-- One point added to every table (`stag_lib/lsh.cpp:161-167`). -/
def addPoint (ts : List (MultiLsh K × HashTable)) (i : Nat) (point : List K) :
    List (MultiLsh K × HashTable) :=
  ts.map (fun t => (t.1, t.2.add (t.1.apply point) i))

/-- The loop over the points (`stag_lib/lsh.cpp:160-168`). -/
def addPoints (ts : List (MultiLsh K × HashTable)) : Nat → List (List K) →
    List (MultiLsh K × HashTable)
  | _, [] => ts
  | i, p :: ps => addPoints (addPoint ts i p) (i + 1) ps

/-- `E2LSH::E2LSH` (`stag_lib/lsh.cpp:139-170`) with the hash functions `fs` drawn by
`initialise_hash_functions` (`stag_lib/lsh.cpp:172-182`); the numbers `rnd_vec` drawn there are never read. -/
def E2Lsh.create (fs : List (MultiLsh K)) (points : List (List K)) : E2Lsh K :=
  ⟨points, addPoints (fs.map (fun f => (f, fun _ => none))) 0 points⟩

/-- The loop over a bucket (`stag_lib/lsh.cpp:196-202`): `near_points` (as indices, in order) and
`near_indices` hold the same indices. -/
def collect : List Nat → List Nat → List Nat
  | near, [] => near
  | near, i :: is => if i ∈ near then collect near is else collect (near ++ [i]) is

/-- The loop over the tables (`stag_lib/lsh.cpp:192-204`). -/
def nearIndices (query : List K) : List (MultiLsh K × HashTable) → List Nat → List Nat
  | [], near => near
  | t :: ts, near =>
    match t.2 (t.1.apply query) with
    | none => nearIndices query ts near
    | some bucket => nearIndices query ts (collect near bucket)

/-- `E2LSH::get_near_neighbors` (`stag_lib/lsh.cpp:188-207`). -/
def E2Lsh.getNearNeighbors (e : E2Lsh K) (query : List K) : List (List K) :=
  (nearIndices query e.tables []).map (fun i => e.points.getD i [])

end
end Stag
