import Verif.Graph

/-!
# Model of `stag_lib/cluster.cpp`: sets, conductance, sweep sets, local clustering

A `LocalGraph*` is given by its answers; vertex ids inside edges are natural numbers (negative
ids only occur in malformed files).  Values live in an exact ordered field.
-/

namespace Stag

/-! ## Symmetric difference -/

/-- Insertion into a sorted vector. -/
def insertInt (a : Int) : List Int → List Int
  | [] => [a]
  | b :: l => if b < a then b :: insertInt a l else a :: b :: l

/-- `std::sort` on integers.  Simplification: the sorted vector is unique, so any algorithm will
do. -/
def sortInts (l : List Int) : List Int := l.foldr insertInt []

/-- `std::unique` followed by `erase`: of each run of equal elements the first one is kept. -/
def uniqueInts : List Int → List Int
  | [] => []
  | [a] => [a]
  | a :: b :: l => if a = b then uniqueInts (a :: l) else a :: uniqueInts (b :: l)
termination_by l => l.length

/-- `std::set_symmetric_difference` on sorted ranges. -/
def setSymDiff : List Int → List Int → List Int
  | [], t => t
  | a :: s, [] => a :: s
  | a :: s, b :: t =>
    if a < b then a :: setSymDiff s (b :: t)
    else if b < a then b :: setSymDiff (a :: s) t
    else setSymDiff s t
termination_by s t => s.length + t.length

/-- `stag::symmetric_difference` (`stag_lib/cluster.cpp:548-566`): the result, and the two
arguments after the call (they are passed by reference, sorted and stripped of duplicates). -/
def symmetricDifference (S T : List Int) : List Int × List Int × List Int :=
  let S' := uniqueInts (sortInts S)
  let T' := uniqueInts (sortInts T)
  (setSymDiff S' T', S', T')

/-! ## The `LocalGraph` interface -/

/-- The answers of a `LocalGraph` (`stag_lib/graph.h:52-130`). -/
structure LGraph (K : Type) where
  neighbors : Int → Outcome (List (Edge K))
  neighborsUnweighted : Int → Outcome (List Nat)
  degree : Int → Outcome K
  vertexExists : Int → Bool

/-- `LocalGraph::degrees` (`stag_lib/graph.cpp:310-318`, 793-799): one answer per vertex. -/
def LGraph.degrees {K : Type} (lg : LGraph K) (vs : List Nat) : Outcome (List K) :=
  Outcome.mapM' (fun v : Nat => lg.degree (v : Int)) vs

/-- A `Graph` as a `LocalGraph`. -/
def Graph.asLocal {K : Type} [Field K] [LinearOrder K] (g : Graph K) : LGraph K :=
  ⟨g.neighbors, g.neighborsUnweighted, g.degree, g.vertexExists⟩

section
variable {K : Type} [Field K] [LinearOrder K]

/-! ## Conductance -/

/-- Inner loop of `conductance` (`stag_lib/cluster.cpp:530-538`); accumulates `this_deg` and
`cut`. -/
def condInner (cluster : List Int) : List (Edge K) → K × K → K × K
  | [], s => s
  | e :: es, (d, c) =>
    condInner cluster es (d + e.w, if (e.v2 : Int) ∈ cluster then c else c + e.w)

/-- Outer loop of `conductance` (`stag_lib/cluster.cpp:527-540`); accumulates `cut` and
`volume`. -/
def condLoop (lg : LGraph K) (cluster : List Int) : List Int → K × K → Outcome (K × K)
  | [], s => .ok s
  | v :: vs, (c, vol) => do
    let es ← lg.neighbors v
    let r := condInner cluster es (0, c)
    condLoop lg cluster vs (r.2, vol + r.1)

/-- `stag::conductance` (`stag_lib/cluster.cpp:518-546`). -/
def conductance (lg : LGraph K) (cluster : List Int) : Outcome K := do
  let r ← condLoop lg cluster cluster (0, 0)
  .ok (if r.2 = 0 then 0 else r.1 / r.2)

/-! ## Sparse vectors -/

/-- A sparse matrix with one column. -/
structure SVec (K : Type) where
  rows : Nat
  col : Col K
  deriving DecidableEq

/-- `coeff(i, 0)`. -/
def SVec.get (x : SVec K) (i : Nat) : K := x.col.coeff i

/-- `coeffRef(i, 0) = v`; outside the vector this is undefined behaviour. -/
def SVec.set (x : SVec K) (i : Nat) (v : K) : Outcome (SVec K) :=
  if i < x.rows then .ok ⟨x.rows, x.col.update i (fun _ => v)⟩ else .ub

/-- `if (i >= x.rows()) x.conservativeResize(i + 1, 1)`. -/
def SVec.grow (x : SVec K) (i : Nat) : SVec K :=
  if x.rows ≤ i then ⟨i + 1, x.col.filter (fun e => e.1 < i + 1)⟩ else x

/-- `stag::sprsMatInnerIndices` of a compressed vector. -/
def SVec.indices (x : SVec K) : List Nat := x.col.map Prod.fst

/-! ## Sweep sets -/

/-- Insertion keeping decreasing values and the order of equal ones. -/
def insertDesc (f : Nat → K) (i : Nat) : List Nat → List Nat
  | [] => [i]
  | j :: l => if f i < f j then j :: insertDesc f i l else i :: j :: l

/-- `std::stable_sort` by decreasing value (`stag_lib/cluster.cpp:308-309`). -/
def sortDesc (f : Nat → K) (l : List Nat) : List Nat := l.foldr (insertDesc f) []

/-- The variables of the sweep (`stag_lib/cluster.cpp:316-322`). -/
structure SweepState (K : Type) where
  set : List Nat
  cut : K
  vol : K
  best : K
  bestIdx : Nat
  idx : Nat

/-- The cut weight after the loop over the neighbours (`stag_lib/cluster.cpp:338-340`). -/
def sweepCut (set : List Nat) : List (Edge K) → K → K
  | [], c => c
  | e :: es, c => sweepCut set es (if e.v2 ∈ set then c - 2 * e.w else c)

/-- One round of the sweep (`stag_lib/cluster.cpp:323-352`). -/
def sweepStep (lg : LGraph K) (total : K) (s : SweepState K) (v : Nat) (d : K) :
    Outcome (SweepState K) := do
  let set := v :: s.set
  let vol := s.vol + d
  let es ← lg.neighbors (v : Int)
  let cut := sweepCut set es (s.cut + d)
  let den := if total = 0 then vol else min vol (total - vol)
  if 0 < den ∧ cut / den < s.best then .ok ⟨set, cut, vol, cut / den, s.idx + 1, s.idx + 1⟩
  else .ok ⟨set, cut, vol, s.best, s.bestIdx, s.idx + 1⟩

/-- The loop of the sweep; the second list holds the degrees. -/
def sweepLoop (lg : LGraph K) (total : K) : List Nat → List K → SweepState K →
    Outcome (SweepState K)
  | [], _, s => .ok s
  | _ :: _, [], _ => .throw .outOfRange
  | v :: vs, d :: ds, s => do
    let s' ← sweepStep lg total s v d
    sweepLoop lg total vs ds s'

/-- `sweep_set_conductance_inner` (`stag_lib/cluster.cpp:296-357`). -/
def sweepInner (lg : LGraph K) (vec : SVec K) (total : K) : Outcome (List Nat) := do
  let sorted := sortDesc vec.get vec.indices
  let ds ← lg.degrees sorted
  let s ← sweepLoop lg total sorted ds ⟨[], 0, 0, 2, 0, 0⟩
  .ok (sorted.take s.bestIdx)

/-- `sweep_set_conductance(LocalGraph*, vec)` (`stag_lib/cluster.cpp:359-362`, 369-372). -/
def sweepSetLocal (lg : LGraph K) (vec : SVec K) : Outcome (List Nat) := sweepInner lg vec 0

/-- `sweep_set_conductance(Graph*, vec)` (`stag_lib/cluster.cpp:364-367`). -/
def sweepSetGraph (g : Graph K) (vec : SVec K) : Outcome (List Nat) :=
  sweepInner g.asLocal vec g.totalVolume

/-! ## Approximate PageRank -/

/-- The loop over the neighbours in `push` (`stag_lib/cluster.cpp:183-194`).  The `assert` on
line 185 is compiled out. -/
def pushNbrs (α deg : K) (u : Nat) : List (Edge K) → SVec K → Outcome (SVec K)
  | [], r => .ok r
  | e :: es, r => do
    let r := r.grow e.v2
    let r ← r.set e.v2 (r.get e.v2 + (1 - α) * e.w * r.get u / (deg * 2))
    pushNbrs α deg u es r

/-- `push` (`stag_lib/cluster.cpp:171-199`). -/
def push (lg : LGraph K) (α : K) (p r : SVec K) (u : Nat) : Outcome (SVec K × SVec K) := do
  let p := p.grow u
  let p ← p.set u (p.get u + α * r.get u)
  let deg ← lg.degree (u : Int)
  let es ← lg.neighbors (u : Int)
  let r ← pushNbrs α deg u es r
  let r ← r.set u ((1 - α) * r.get u / 2)
  .ok (p, r)

/-- The variables of `approximate_pagerank` (`stag_lib/cluster.cpp:219-235`). -/
structure AprState (K : Type) where
  p : SVec K
  r : SVec K
  queue : List Nat
  members : List Nat

/-- The queue at the start (`stag_lib/cluster.cpp:237-246`). -/
def aprInitQueue (ε : K) (r : SVec K) : List Nat → List K → Outcome (List Nat)
  | [], _ => .ok []
  | _ :: _, [] => .throw .outOfRange
  | u :: us, d :: ds => do
    let rest ← aprInitQueue ε r us ds
    .ok (if ε * d ≤ r.get u ∧ d ≠ 0 then u :: rest else rest)

/-- The loop which queues the neighbours (`stag_lib/cluster.cpp:277-285`). -/
def aprQueueNbrs (ε : K) (r : SVec K) : List (Edge K) → List K → List Nat × List Nat →
    Outcome (List Nat × List Nat)
  | [], _, s => .ok s
  | _ :: _, [], _ => .throw .outOfRange
  | e :: es, d :: ds, (q, m) =>
    if ε * d ≤ r.get e.v2 ∧ e.v2 ∉ m then aprQueueNbrs ε r es ds (q ++ [e.v2], e.v2 :: m)
    else aprQueueNbrs ε r es ds (q, m)

/-- One round of the `while` loop (`stag_lib/cluster.cpp:250-286`); `u` is the front of the
queue, `rest` the others. -/
def aprStep (lg : LGraph K) (α ε : K) (s : AprState K) (u : Nat) (rest : List Nat) :
    Outcome (AprState K) := do
  let m := s.members.filter (fun v => decide (v ≠ u))
  let pr ← push lg α s.p s.r u
  let d ← lg.degree (u : Int)
  let qm := if ε * d ≤ pr.2.get u then (u :: rest, u :: m) else (rest, m)
  let ns ← lg.neighborsUnweighted (u : Int)
  let nd ← lg.degrees ns
  let es ← lg.neighbors (u : Int)
  let qm ← aprQueueNbrs ε pr.2 es nd qm
  .ok ⟨pr.1, pr.2, qm.1, qm.2⟩

/-- The `while` loop; `none` after more than `fuel` rounds. -/
def aprLoop (lg : LGraph K) (α ε : K) : Nat → AprState K → Option (Outcome (SVec K × SVec K))
  | _, ⟨p, r, [], _⟩ => some (.ok (p, r))
  | 0, ⟨_, _, _ :: _, _⟩ => none
  | fuel + 1, ⟨p, r, u :: rest, m⟩ =>
    match aprStep lg α ε ⟨p, r, u :: rest, m⟩ u rest with
    | .ok s => aprLoop lg α ε fuel s
    | .throw e => some (.throw e)
    | .ub => some .ub

/-- The checks and the initial state (`stag_lib/cluster.cpp:205-246`).  The seed is a column
vector, so the check on line 206 succeeds. -/
def aprInit (lg : LGraph K) (seed : SVec K) (α ε : K) : Outcome (AprState K) :=
  if lg.vertexExists ((seed.rows : Int) - 1) = false then .throw .invalidArgument
  else if α < 0 ∨ 1 < α then .throw .invalidArgument
  else if ε ≤ 0 then .throw .invalidArgument
  else do
    let ds ← lg.degrees seed.indices
    let q ← aprInitQueue ε seed seed.indices ds
    .ok ⟨⟨seed.rows, []⟩, seed, q, q⟩

/-- `stag::approximate_pagerank` (`stag_lib/cluster.cpp:201-291`). -/
def approximatePagerank (lg : LGraph K) (fuel : Nat) (seed : SVec K) (α ε : K) :
    Option (Outcome (SVec K × SVec K)) :=
  match aprInit lg seed α ε with
  | .ok s => aprLoop lg α ε fuel s
  | .throw e => some (.throw e)
  | .ub => some .ub

/-! ## Local clustering -/

/-- The normalisation of `p` (`stag_lib/cluster.cpp:140-145`). -/
def normalise (c : Col K) (ds : List K) : Outcome (Col K) :=
  match c, ds with
  | [], _ => .ok []
  | _ :: _, [] => .throw .outOfRange
  | e :: c, d :: ds => do
    let c' ← normalise c ds
    .ok ((e.1, e.2 / d) :: c')

/-- The end of `local_cluster_acl` (`stag_lib/cluster.cpp:136-149`). -/
def sweepNormalised (lg : LGraph K) (p : SVec K) : Outcome (List Nat) := do
  let ds ← lg.degrees p.indices
  let c ← normalise p.col ds
  sweepSetLocal lg ⟨p.rows, c⟩

/-- `stag::local_cluster_acl` (`stag_lib/cluster.cpp:117-150`). -/
def localClusterAcl (lg : LGraph K) (fuel : Nat) (seed : Int) (locality error : K) :
    Option (Outcome (List Nat)) :=
  if lg.vertexExists seed = false then some (.throw .invalidArgument)
  else if locality < 0 ∨ 1 < locality then some (.throw .invalidArgument)
  else if error ≤ 0 then some (.throw .invalidArgument)
  else
    match approximatePagerank lg fuel ⟨seed.toNat + 1, [(seed.toNat, 1)]⟩ locality error with
    | some (.ok pr) => some (sweepNormalised lg pr.1)
    | some (.throw e) => some (.throw e)
    | some .ub => some .ub
    | none => none

/-- `stag::local_cluster_acl` without an error parameter (`stag_lib/cluster.cpp:111-115`): the error is
`0.001`. -/
def localClusterAclDefault (lg : LGraph K) (fuel : Nat) (seed : Int) (locality : K) :
    Option (Outcome (List Nat)) :=
  localClusterAcl lg fuel seed locality (1 / 1000)

/-- `stag::local_cluster` (`stag_lib/cluster.cpp:96-106`). -/
def localCluster (lg : LGraph K) (fuel : Nat) (seed : Int) (target : K) :
    Option (Outcome (List Nat)) :=
  if target ≤ 0 then some (.throw .invalidArgument)
  else localClusterAcl lg fuel seed (1 / 100) (1 / target)

end
end Stag
