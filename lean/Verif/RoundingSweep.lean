import Verif.Rounding

/-!
# Conductance and sweep sets in rounded arithmetic
-/

set_option linter.unusedSectionVars false

namespace Stag

section
variable {K : Type} [Field K] [LinearOrder K]

/-! ## Degrees -/

/-- `Graph::degree` in rounded arithmetic (`stag_lib/graph.cpp:332-339, 566-583`): the product of the
matrix with the vector of ones adds the entries of row `v` from left to right, and the diagonal entry
is added at the end.  Entries which are not stored are added as zeros here, which changes nothing. -/
def Graph.degFl (fl : K → K) (g : Graph K) (v : Nat) : K :=
  fl (sumFl fl ((List.range g.adj.cols).map (fun c => g.adj.coeff v c)) 0 + g.adj.coeff v v)

/-- A `Graph` as a `LocalGraph`, with rounded degrees (`stag_lib/graph.cpp:332-339`). -/
def Graph.asLocalFl (fl : K → K) (g : Graph K) : LGraph K :=
  ⟨g.neighbors, g.neighborsUnweighted,
    fun v => do
      g.checkVertex v
      .ok (g.degFl fl v.toNat),
    g.vertexExists⟩

/-- `Graph::total_volume` in rounded arithmetic (`stag_lib/graph.cpp:190-202`). -/
def Graph.totalVolumeFl (fl : K → K) (g : Graph K) : K :=
  sumFl fl ((List.range g.n).map (g.degFl fl)) 0

/-! ## Conductance -/

/-- Inner loop of `conductance` (`stag_lib/cluster.cpp:530-538`), every operation rounded. -/
def condInnerFl (fl : K → K) (cluster : List Int) : List (Edge K) → K × K → K × K
  | [], s => s
  | e :: es, (d, c) =>
    condInnerFl fl cluster es (fl (d + e.w), if (e.v2 : Int) ∈ cluster then c else fl (c + e.w))

/-- Outer loop of `conductance` (`stag_lib/cluster.cpp:527-540`), every operation rounded. -/
def condLoopFl (fl : K → K) (lg : LGraph K) (cluster : List Int) :
    List Int → K × K → Outcome (K × K)
  | [], s => .ok s
  | v :: vs, (c, vol) => do
    let es ← lg.neighbors v
    let r := condInnerFl fl cluster es (0, c)
    condLoopFl fl lg cluster vs (r.2, fl (vol + r.1))

/-- `stag::conductance` (`stag_lib/cluster.cpp:518-546`) in rounded arithmetic. -/
def conductanceFl (fl : K → K) (lg : LGraph K) (cluster : List Int) : Outcome K := do
  let r ← condLoopFl fl lg cluster cluster (0, 0)
  .ok (if r.2 = 0 then 0 else fl (r.1 / r.2))

/-! ## Sweep sets -/

/-- The cut weight after the loop over the neighbours (`stag_lib/cluster.cpp:338-340`), every
operation rounded. -/
def sweepCutFl (fl : K → K) (set : List Nat) : List (Edge K) → K → K
  | [], c => c
  | e :: es, c => sweepCutFl fl set es (if e.v2 ∈ set then fl (c - fl (2 * e.w)) else c)

/-- One round of the sweep (`stag_lib/cluster.cpp:323-352`), every operation rounded. -/
def sweepStepFl (fl : K → K) (lg : LGraph K) (total : K) (s : SweepState K) (v : Nat) (d : K) :
    Outcome (SweepState K) := do
  let set := v :: s.set
  let vol := fl (s.vol + d)
  let es ← lg.neighbors (v : Int)
  let cut := sweepCutFl fl set es (fl (s.cut + d))
  let den := if total = 0 then vol else min vol (fl (total - vol))
  if 0 < den ∧ fl (cut / den) < s.best then
    .ok ⟨set, cut, vol, fl (cut / den), s.idx + 1, s.idx + 1⟩
  else .ok ⟨set, cut, vol, s.best, s.bestIdx, s.idx + 1⟩

/-- The loop of the sweep (`stag_lib/cluster.cpp:323-352`); the second list holds the degrees. -/
def sweepLoopFl (fl : K → K) (lg : LGraph K) (total : K) : List Nat → List K → SweepState K →
    Outcome (SweepState K)
  | [], _, s => .ok s
  | _ :: _, [], _ => .throw .outOfRange
  | v :: vs, d :: ds, s => do
    let s' ← sweepStepFl fl lg total s v d
    sweepLoopFl fl lg total vs ds s'

/-- `sweep_set_conductance_inner` (`stag_lib/cluster.cpp:296-357`) in rounded arithmetic. -/
def sweepInnerFl (fl : K → K) (lg : LGraph K) (vec : SVec K) (total : K) : Outcome (List Nat) := do
  let sorted := sortDesc vec.get vec.indices
  let ds ← lg.degrees sorted
  let s ← sweepLoopFl fl lg total sorted ds ⟨[], 0, 0, 2, 0, 0⟩
  .ok (sorted.take s.bestIdx)

/-- `sweep_set_conductance(LocalGraph*, vec)` (`stag_lib/cluster.cpp:359-362`, 369-372) in rounded
arithmetic. -/
def sweepSetLocalFl (fl : K → K) (lg : LGraph K) (vec : SVec K) : Outcome (List Nat) :=
  sweepInnerFl fl lg vec 0

/-- `sweep_set_conductance(Graph*, vec)` (`stag_lib/cluster.cpp:364-367`) in rounded arithmetic. -/
def sweepSetGraphFl (fl : K → K) (g : Graph K) (vec : SVec K) : Outcome (List Nat) :=
  sweepInnerFl fl (g.asLocalFl fl) vec (g.totalVolumeFl fl)

/-! ## Local clustering -/

/-- The normalisation of `p` (`stag_lib/cluster.cpp:140-145`), with a rounded quotient. -/
def normaliseFl (fl : K → K) (c : Col K) (ds : List K) : Outcome (Col K) :=
  match c, ds with
  | [], _ => .ok []
  | _ :: _, [] => .throw .outOfRange
  | e :: c, d :: ds => do
    let c' ← normaliseFl fl c ds
    .ok ((e.1, fl (e.2 / d)) :: c')

/-- The end of `local_cluster_acl` (`stag_lib/cluster.cpp:136-149`) in rounded arithmetic. -/
def sweepNormalisedFl (fl : K → K) (lg : LGraph K) (p : SVec K) : Outcome (List Nat) := do
  let ds ← lg.degrees p.indices
  let c ← normaliseFl fl p.col ds
  sweepSetLocalFl fl lg ⟨p.rows, c⟩

/-- `stag::local_cluster_acl` (`stag_lib/cluster.cpp:117-150`) in rounded arithmetic. -/
def localClusterAclFl (fl : K → K) (lg : LGraph K) (fuel : Nat) (seed : Int) (locality error : K) :
    Option (Outcome (List Nat)) :=
  if lg.vertexExists seed = false then some (.throw .invalidArgument)
  else if locality < 0 ∨ 1 < locality then some (.throw .invalidArgument)
  else if error ≤ 0 then some (.throw .invalidArgument)
  else
    match approximatePagerankFl fl lg fuel ⟨seed.toNat + 1, [(seed.toNat, 1)]⟩ locality error with
    | some (.ok pr) => some (sweepNormalisedFl fl lg pr.1)
    | some (.throw e) => some (.throw e)
    | some .ub => some .ub
    | none => none

end
end Stag
