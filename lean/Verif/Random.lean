import Verif.GraphIO

/-!
# Model of `stag_lib/random.cpp`: random graphs

The global random number generator is a state which every draw advances.  Nothing is assumed about
the values drawn except that they lie in the support of the distribution.

Not modelled: `estimate_sbm_neighbours` (`stag_lib/random.cpp:36-70`), which only reserves memory.
-/

namespace Stag

/-- `DenseMat` (`stag_lib/definitions.h`): an Eigen dense matrix. -/
structure DenseMat (K : Type) where
  rows : Nat
  cols : Nat
  entry : Nat → Nat → K

/-- The random number generator with the distributions used by the library, as functions of the
generator's state `Ω`. -/
structure Rng (K Ω : Type) [Field K] where
  /-- `std::bernoulli_distribution(p)`. -/
  coin : K → Ω → Bool × Ω
  /-- `(StagInt) floor(std::normal_distribution(mean, sqrt(variance)))`. -/
  normal : K → K → Ω → Int × Ω
  /-- `std::uniform_int_distribution(0, m)`. -/
  unif : Nat → Ω → Nat × Ω
  coin_zero : ∀ s, (coin 0 s).1 = false
  coin_one : ∀ s, (coin 1 s).1 = true
  unif_le : ∀ m s, (unif m s).1 ≤ m

/-- One sampled edge: `direct` if it comes from `sample_edges_directly`. -/
structure Emit where
  u : Nat
  v : Nat
  direct : Bool
  deriving DecidableEq, Repr

/-- One iteration of the loops over the clusters (`stag_lib/random.cpp:254-296`): indices, first
vertices and sizes of the two clusters. -/
structure SbmBlock where
  ci : Nat
  cj : Nat
  s1 : Nat
  s2 : Nat
  m1 : Nat
  m2 : Nat
  deriving DecidableEq, Repr

/-- The inner loop over `other_cluster_idx` (`stag_lib/random.cpp:259-292`). -/
def innerBlocks (ci s1 m1 cj s2 : Nat) : List Nat → List SbmBlock
  | [] => []
  | m2 :: rest => ⟨ci, cj, s1, s2, m1, m2⟩ :: innerBlocks ci s1 m1 (cj + 1) (s2 + m2) rest

/-- The outer loop over `cluster_idx` (`stag_lib/random.cpp:253-296`).  Simplification: the two
loops are unfolded into the list of their iterations. -/
def outerBlocks (ci s1 : Nat) : List Nat → List SbmBlock
  | [] => []
  | m1 :: rest => innerBlocks ci s1 m1 ci s1 (m1 :: rest) ++ outerBlocks (ci + 1) (s1 + m1) rest

section
variable {K Ω : Type} [Field K] [LinearOrder K]

/-- The loops of `sample_edges_directly` over the pairs of vertices
(`stag_lib/random.cpp:101-119`). -/
def directLoop (R : Rng K Ω) (same : Bool) (p : K) : List (Nat × Nat) → Ω → List Emit × Ω
  | [], ω => ([], ω)
  | (i, j) :: ps, ω =>
    if same = true ∧ j ≤ i then directLoop R same p ps ω
    else
      let c := R.coin p ω
      let r := directLoop R same p ps c.2
      (if c.1 then ⟨i, j, true⟩ :: r.1 else r.1, r.2)

/-- The pairs of vertices in the order of the two loops. -/
def blockPairs (b : SbmBlock) : List (Nat × Nat) :=
  (List.range b.m1).flatMap (fun i => (List.range b.m2).map (fun j => (b.s1 + i, b.s2 + j)))

/-- `sample_edges_directly` (`stag_lib/random.cpp:86-120`).  Simplification: the edges are
collected in order and written to the matrix or to the file afterwards (sampling never reads
either). -/
def sampleDirectly (R : Rng K Ω) (b : SbmBlock) (p : K) (ω : Ω) : List Emit × Ω :=
  directLoop R (decide (b.ci = b.cj)) p (blockPairs b) ω

/-- The `while (randU == randV)` loop (`stag_lib/random.cpp:172-176`); `none` after more than
`fuel` rounds. -/
def pickPair (R : Rng K Ω) (b : SbmBlock) : Nat → Ω → Option ((Nat × Nat) × Ω)
  | 0, _ => none
  | fuel + 1, ω =>
    let a := R.unif (b.m1 - 1) ω
    let c := R.unif (b.m2 - 1) a.2
    if b.s1 + a.1 = b.s2 + c.1 then pickPair R b fuel c.2
    else some ((b.s1 + a.1, b.s2 + c.1), c.2)

/-- The loop over the edges (`stag_lib/random.cpp:168-187`). -/
def pickPairs (R : Rng K Ω) (b : SbmBlock) (fuel : Nat) : Nat → Ω → Option (List Emit × Ω)
  | 0, ω => some ([], ω)
  | n + 1, ω =>
    match pickPair R b fuel ω with
    | none => none
    | some (q, ω) =>
      match pickPairs R b fuel n ω with
      | none => none
      | some (es, ω) => some (⟨q.1, q.2, false⟩ :: es, ω)

/-- `max_edges` (`stag_lib/random.cpp:145-146`). -/
def maxEdges (b : SbmBlock) : Nat := if b.s1 = b.s2 then b.m1 * b.m2 / 2 else b.m1 * b.m2

/-- `sample_edges_binomial` (`stag_lib/random.cpp:134-188`). -/
def sampleBinomial (R : Rng K Ω) (fuel : Nat) (b : SbmBlock) (p : K) (ω : Ω) :
    Option (List Emit × Ω) :=
  let expected := p * (maxEdges b : K)
  if expected < 1 then some ([], ω)
  else
    let r := R.normal expected ((1 - p) * expected) ω
    pickPairs R b fuel (max 0 (min (maxEdges b : Int) r.1)).toNat r.2

/-- The choice between the two ways of sampling (`stag_lib/random.cpp:265-288`). -/
def sampleBlock (R : Rng K Ω) (fuel : Nat) (P : DenseMat K) (exact : Bool) (b : SbmBlock) (ω : Ω) :
    Option (List Emit × Ω) :=
  if 10000 ≤ b.m1 * b.m2 ∧ P.entry b.ci b.cj < 1 / 2 ∧ exact = false then
    sampleBinomial R fuel b (P.entry b.ci b.cj) ω
  else some (sampleDirectly R b (P.entry b.ci b.cj) ω)

/-- All blocks in order. -/
def sampleBlocks (R : Rng K Ω) (fuel : Nat) (P : DenseMat K) (exact : Bool) :
    List SbmBlock → Ω → Option (List Emit × Ω)
  | [], ω => some ([], ω)
  | b :: bs, ω =>
    match sampleBlock R fuel P exact b ω with
    | none => none
    | some (es, ω) =>
      match sampleBlocks R fuel P exact bs ω with
      | none => none
      | some (fs, ω) => some (es ++ fs, ω)

/-- The checks of `general_sbm_internal` (`stag_lib/random.cpp:229-242`). -/
def sbmChecks (sizes : List Int) (P : DenseMat K) : Outcome Unit :=
  if sizes.any (fun s => decide (s < 1)) then .throw .invalidArgument
  else if P.rows ≠ sizes.length ∨ P.cols ≠ sizes.length then .throw .invalidArgument
  else if (List.range sizes.length).any (fun i => (List.range sizes.length).any (fun j =>
      decide (P.entry i j < 0 ∨ 1 < P.entry i j))) then .throw .invalidArgument
  else .ok ()

/-- `general_sbm_internal` (`stag_lib/random.cpp:222-301`): the sampled edges in order. -/
def sbmInternal (R : Rng K Ω) (fuel : Nat) (sizes : List Int) (P : DenseMat K) (exact : Bool)
    (ω : Ω) : Option (Outcome (List Emit) × Ω) :=
  match sbmChecks sizes P with
  | .ok _ =>
    match sampleBlocks R fuel P exact (outerBlocks 0 0 (sizes.map Int.toNat)) ω with
    | none => none
    | some (es, ω) => some (.ok es, ω)
  | .throw e => some (.throw e, ω)
  | .ub => some (.ub, ω)

/-- `SparseMatrix::insert(i, j) = v`: the entry must not exist yet and must be in range. -/
def SprsMat.insertNew (m : SprsMat K) (i j : Nat) (v : K) : Outcome (SprsMat K) :=
  if m.rows ≤ i ∨ m.cols ≤ j then .ub
  else if (m.col j).any (fun e => decide (e.1 = i)) then .ub
  else .ok (m.update i j (fun _ => v))

/-- Writing an edge to the matrix (`stag_lib/random.cpp:111-112,180-181`). -/
def emitToMatrix (m : SprsMat K) (e : Emit) : Outcome (SprsMat K) :=
  if e.direct then do
    let m ← m.insertNew e.u e.v 1
    m.insertNew e.v e.u 1
  else if m.rows ≤ max e.u e.v ∨ m.cols ≤ max e.u e.v then .ub
  else .ok ((m.update e.u e.v (· + 1)).update e.v e.u (· + 1))

/-- Writing all edges. -/
def emitAll : List Emit → SprsMat K → Outcome (SprsMat K)
  | [], m => .ok m
  | e :: es, m => do
    let m ← emitToMatrix m e
    emitAll es m

/-- `stag::general_sbm` (`stag_lib/random.cpp:303-323`).  A negative number of vertices is given to
the constructor of the matrix before any check: undefined behaviour. -/
def generalSbm (R : Rng K Ω) (fuel : Nat) (sizes : List Int) (P : DenseMat K) (exact : Bool)
    (ω : Ω) : Option (Outcome (Graph K) × Ω) :=
  if sizes.sum < 0 then some (.ub, ω)
  else
    match sbmInternal R fuel sizes P exact ω with
    | none => none
    | some (r, ω) => some (do
        let es ← r
        let m ← emitAll es (SprsMat.empty sizes.sum.toNat sizes.sum.toNat)
        Graph.ofMatrix m, ω)

/-- The sizes and probabilities of `sbm` (`stag_lib/random.cpp:206-217`). -/
def sbmSizes (n k : Int) : List Int := List.replicate k.toNat (n / k)

/-- The probability matrix of `sbm` (`stag_lib/random.cpp:206-217`). -/
def sbmProbs (k : Int) (p q : K) : DenseMat K :=
  ⟨k.toNat, k.toNat, fun i j => if i = j then p else q⟩

/-- `stag::sbm` (`stag_lib/random.cpp:190-220`). -/
def sbm (R : Rng K Ω) (fuel : Nat) (n k : Int) (p q : K) (exact : Bool) (ω : Ω) :
    Option (Outcome (Graph K) × Ω) :=
  if n < 1 then some (.throw .invalidArgument, ω)
  else if k < 1 ∨ n / 2 < k then some (.throw .invalidArgument, ω)
  else if p < 0 ∨ 1 < p then some (.throw .invalidArgument, ω)
  else if q < 0 ∨ 1 < q then some (.throw .invalidArgument, ω)
  else generalSbm R fuel (sbmSizes n k) (sbmProbs k p q) exact ω

/-- `stag::erdos_renyi` (`stag_lib/random.cpp:325-331`). -/
def erdosRenyi (R : Rng K Ω) (fuel : Nat) (n : Int) (p : K) (exact : Bool) (ω : Ω) :
    Option (Outcome (Graph K) × Ω) := sbm R fuel n 1 p 0 exact ω

/-! ## Labels -/

/-- The loop of `general_sbm_gt_labels` (`stag_lib/random.cpp:406-412`). -/
def labelsFrom (c : Int) : List Int → List Int
  | [] => []
  | s :: ss => List.replicate s.toNat c ++ labelsFrom (c + 1) ss

/-- `stag::general_sbm_gt_labels` (`stag_lib/random.cpp:399-415`). -/
def generalSbmGtLabels (sizes : List Int) : Outcome (List Int) :=
  if sizes.any (fun s => decide (s < 1)) then .throw .invalidArgument
  else .ok (labelsFrom 0 sizes)

/-- `stag::sbm_gt_labels` (`stag_lib/random.cpp:384-397`). -/
def sbmGtLabels (n k : Int) : Outcome (List Int) :=
  if n < 1 then .throw .invalidArgument
  else if k < 1 ∨ n / 2 < k then .throw .invalidArgument
  else generalSbmGtLabels (sbmSizes n k)

/-! ## Writing to disk -/

/-- The header of the file (`stag_lib/random.cpp:347-367`). -/
def sbmHeader (F : Fmt K) (sizes : List Int) (P : DenseMat K) : List Str :=
  ["# This graph was generated from a stochastic block model with the following parameters.".toList,
   "#    n = ".toList ++ printInt sizes.sum,
   "#    k = ".toList ++ printNat sizes.length] ++
  (if sizes.length ≤ 20 then
    ["#    cluster sizes = ".toList ++ sizes.flatMap (fun s => printInt s ++ [' ']),
     "#    probability matrix = ".toList] ++
    (List.range sizes.length).map (fun i => "#        ".toList ++
      (List.range sizes.length).flatMap (fun j => F.print (P.entry i j) ++ [' ']))
   else ["# (Probability matrix omitted as it is too large.)".toList])

/-- `i << " " << j << " " << 1` (`stag_lib/random.cpp:115,184`). -/
def emitLine (e : Emit) : Str := printNat e.u ++ ' ' :: (printNat e.v ++ [' ', '1'])

/-- `stag::general_sbm_edgelist` (`stag_lib/random.cpp:333-382`): the outcome and the contents of
the file.  Reading `probabilities` outside its range is undefined behaviour; opening the file is
assumed to succeed. -/
def generalSbmEdgelist (R : Rng K Ω) (F : Fmt K) (fuel : Nat) (sizes : List Int) (P : DenseMat K)
    (exact : Bool) (ω : Ω) : Option (Outcome Str × Ω) :=
  if sizes.length ≤ 20 ∧ (P.rows < sizes.length ∨ P.cols < sizes.length) then some (.ub, ω)
  else
    match sbmInternal R fuel sizes P exact ω with
    | none => none
    | some (r, ω) => some (do
        let es ← r
        .ok (unlines (sbmHeader F sizes P ++ es.map emitLine)), ω)

end
end Stag
