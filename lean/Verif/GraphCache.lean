import Verif.Graph

/-!
# The `stag::Graph` object with its lazily initialised matrices

`stag_lib/graph.h:491-540` (members) and `stag_lib/graph.cpp:482-619`
(`initialise_*`).  Each derived matrix has a flag; an accessor recomputes the
matrix only if the flag is unset, and uses the *cached* degree (or inverse
degree) matrix in doing so.  The mutators reset the flags one by one.
-/

namespace Stag

/-- A cached matrix: the `*_init_` flag and the stored matrix (garbage while the
flag is unset). -/
structure Cached (α : Type) where
  init : Bool
  val : α

/-- A graph object: core data plus the seven caches (`stag_lib/graph.h:491-540`). -/
structure GraphObj (K : Type) where
  g : Graph K
  lap : Cached (SprsMat K)
  signless : Cached (SprsMat K)
  deg : Cached (SprsMat K)
  inv : Cached (SprsMat (XReal K))
  norm : Cached (SprsMat (XReal K))
  signlessNorm : Cached (SprsMat (XReal K))
  lazy : Cached (SprsMat (XReal K))

namespace GraphObj
variable {K : Type} [Field K] [LinearOrder K]

/-- `initialise_degree_matrix_` (`stag_lib/graph.cpp:566-583`). -/
def initDeg (o : GraphObj K) : GraphObj K :=
  if o.deg.init then o else { o with deg := ⟨true,
    SprsMat.diag o.g.adj.cols (fun i => o.g.adj.rowSum i + o.g.adj.coeff i i)⟩ }

/-- `initialise_laplacian_` (`stag_lib/graph.cpp:482-496`). -/
def initLap (o : GraphObj K) : GraphObj K :=
  if o.lap.init then o else
    let o := o.initDeg
    { o with lap := ⟨true, SprsMat.zipWith (· - ·) o.deg.val o.g.adj⟩ }

/-- `initialise_signless_laplacian_` (`stag_lib/graph.cpp:498-512`). -/
def initSignless (o : GraphObj K) : GraphObj K :=
  if o.signless.init then o else
    let o := o.initDeg
    { o with signless := ⟨true, SprsMat.zipWith (· + ·) o.deg.val o.g.adj⟩ }

/-- `sqrt_inv_deg_mat * adjacency_matrix_ * sqrt_inv_deg_mat` computed from the cached degree
matrix (`stag_lib/graph.cpp:522-533`, `548-559`). -/
def normAdj (sq : K → K) (o : GraphObj K) : SprsMat (XReal K) :=
  let d := fun i => XReal.invSqrt sq (o.deg.val.coeff i i)
  (SprsMat.diagMul d (o.g.adj.mapVal XReal.fin)).mulDiag d

/-- `initialise_normalised_laplacian_` (`stag_lib/graph.cpp:514-538`). -/
def initNorm (sq : K → K) (o : GraphObj K) : GraphObj K :=
  if o.norm.init then o else
    let o := o.initDeg
    { o with norm := ⟨true, SprsMat.zipWith (· - ·)
      (SprsMat.diag o.g.n (fun _ => XReal.fin 1)) (o.normAdj sq)⟩ }

/-- `initialise_normalised_signless_laplacian_` (`stag_lib/graph.cpp:540-564`). -/
def initSignlessNorm (sq : K → K) (o : GraphObj K) : GraphObj K :=
  if o.signlessNorm.init then o else
    let o := o.initDeg
    { o with signlessNorm := ⟨true, SprsMat.zipWith (· + ·)
      (SprsMat.diag o.g.n (fun _ => XReal.fin 1)) (o.normAdj sq)⟩ }

/-- `initialise_inverse_degree_matrix_` (`stag_lib/graph.cpp:585-600`). -/
def initInv (o : GraphObj K) : GraphObj K :=
  if o.inv.init then o else
    let o := o.initDeg
    { o with inv := ⟨true, SprsMat.diag o.g.adj.cols
      (fun i => XReal.inv (o.deg.val.coeff i i))⟩ }

/-- `initialise_lazy_random_walk_matrix_` (`stag_lib/graph.cpp:602-619`). -/
def initLazy (o : GraphObj K) : GraphObj K :=
  if o.lazy.init then o else
    let o := o.initInv
    { o with lazy := ⟨true, SprsMat.zipWith (· + ·)
      ((SprsMat.diag o.g.n (fun _ => XReal.fin (1 : K))).mapVal (fun v => XReal.fin (1 / 2) * v))
      ((o.g.adj.mapVal (fun v => XReal.fin (1 / 2) * XReal.fin v)).mulDiag
        (fun j => o.inv.val.coeff j j))⟩ }

/-- A freshly constructed object (`stag_lib/graph.cpp:103-110`): all flags unset, the
matrices hold arbitrary values `junk`. -/
def construct (g : Graph K) (junk : GraphObj K) : GraphObj K where
  g := g
  lap := ⟨false, junk.lap.val⟩
  signless := ⟨false, junk.signless.val⟩
  signlessNorm := ⟨false, junk.signlessNorm.val⟩
  deg := ⟨false, junk.deg.val⟩
  inv := ⟨false, junk.inv.val⟩
  norm := ⟨false, junk.norm.val⟩
  lazy := ⟨false, junk.lazy.val⟩

/-- The flag resets at the end of `add_edge` (`stag_lib/graph.cpp:242-249`); the stale
matrices stay in memory. -/
def resetAfterAdd (o : GraphObj K) : GraphObj K :=
  { o with
    lap := { o.lap with init := false }
    signless := { o.signless with init := false }
    signlessNorm := { o.signlessNorm with init := false }
    deg := { o.deg with init := false }
    inv := { o.inv with init := false }
    norm := { o.norm with init := false }
    lazy := { o.lazy with init := false } }

/-- The flag resets at the end of `remove_edge` (`stag_lib/graph.cpp:274-281`). -/
def resetAfterRemove (o : GraphObj K) : GraphObj K :=
  { o with
    lap := { o.lap with init := false }
    signless := { o.signless with init := false }
    signlessNorm := { o.signlessNorm with init := false }
    deg := { o.deg with init := false }
    inv := { o.inv with init := false }
    norm := { o.norm with init := false }
    lazy := { o.lazy with init := false } }

/-- `add_edge` on the object (`stag_lib/graph.cpp:231-250`). -/
def addEdge (o : GraphObj K) (i j : Int) (w : K) : Outcome (GraphObj K) := do
  let g ← o.g.addEdge i j w
  Outcome.ok ({ o with g := g } : GraphObj K).resetAfterAdd

/-- `remove_edge` on the object (`stag_lib/graph.cpp:252-282`); the early return on line 253
leaves the flags alone. -/
def removeEdge (o : GraphObj K) (i j : Int) : Outcome (GraphObj K) := do
  let g ← o.g.removeEdge i j
  if (o.g.n : Int) ≤ i ∨ (o.g.n : Int) ≤ j then Outcome.ok o
  else Outcome.ok ({ o with g := g } : GraphObj K).resetAfterRemove

end GraphObj

/-- The matrix- or number-valued questions that go through a cache. -/
inductive GQuery where
  | laplacian | signlessLaplacian | normalisedLaplacian | normalisedSignlessLaplacian
  | degreeMatrix | inverseDegreeMatrix | lazyRandomWalk | totalVolume | degree (v : Int)
  deriving DecidableEq, Repr

/-- Answers. -/
inductive GAnswer (K : Type) where
  | mat (m : SprsMat K)
  | xmat (m : SprsMat (XReal K))
  | num (x : Outcome K)

/-- An event of a history. -/
inductive GEvent (K : Type) where
  | add (i j : Int) (w : K)
  | remove (i j : Int)
  | ask (q : GQuery)

namespace GraphObj
variable {K : Type} [Field K] [LinearOrder K]

/-- The accessors (`stag_lib/graph.cpp:151-202`, `332-339`). -/
def ask (sq : K → K) (o : GraphObj K) : GQuery → GraphObj K × GAnswer K
  | .laplacian => (o.initLap, .mat o.initLap.lap.val)
  | .signlessLaplacian => (o.initSignless, .mat o.initSignless.signless.val)
  | .normalisedLaplacian => (o.initNorm sq, .xmat (o.initNorm sq).norm.val)
  | .normalisedSignlessLaplacian =>
    (o.initSignlessNorm sq, .xmat (o.initSignlessNorm sq).signlessNorm.val)
  | .degreeMatrix => (o.initDeg, .mat o.initDeg.deg.val)
  | .inverseDegreeMatrix => (o.initInv, .xmat o.initInv.inv.val)
  | .lazyRandomWalk => (o.initLazy, .xmat o.initLazy.lazy.val)
  | .totalVolume =>
    let o := o.initDeg
    (o, .num (.ok ((List.range o.deg.val.cols).map (fun k =>
      ((o.deg.val.col k).map Prod.snd).sum)).sum))
  | .degree v =>
    match o.g.checkVertex v with
    | .ok _ => (o.initDeg, .num (.ok (o.initDeg.deg.val.coeff v.toNat v.toNat)))
    | .throw e => (o, .num (.throw e))
    | .ub => (o, .num .ub)

/-- Run a history, collecting the answers. -/
def runEvents (sq : K → K) (o : GraphObj K) : List (GEvent K) → Outcome (List (GAnswer K))
  | [] => .ok []
  | .add i j w :: l => do
    let o ← o.addEdge i j w
    runEvents sq o l
  | .remove i j :: l => do
    let o ← o.removeEdge i j
    runEvents sq o l
  | .ask q :: l => do
    let as ← runEvents sq (o.ask sq q).1 l
    Outcome.ok ((o.ask sq q).2 :: as)

end GraphObj

namespace Graph
variable {K : Type} [Field K] [LinearOrder K]

/-- Specification of the answers: computed afresh from the current graph. -/
def answer (sq : K → K) (g : Graph K) : GQuery → GAnswer K
  | .laplacian => .mat g.laplacian
  | .signlessLaplacian => .mat g.signlessLaplacian
  | .normalisedLaplacian => .xmat (g.normLaplacian sq)
  | .normalisedSignlessLaplacian => .xmat (g.normSignlessLaplacian sq)
  | .degreeMatrix => .mat g.degreeMatrix
  | .inverseDegreeMatrix => .xmat g.inverseDegreeMatrix
  | .lazyRandomWalk => .xmat g.lazyRandomWalk
  | .totalVolume => .num (.ok g.totalVolume)
  | .degree v => .num (g.degree v)

/-- Specification of a history: no caches, every question answered afresh. -/
def runFresh (sq : K → K) (g : Graph K) : List (GEvent K) → Outcome (List (GAnswer K))
  | [] => .ok []
  | .add i j w :: l => do
    let g ← g.addEdge i j w
    runFresh sq g l
  | .remove i j :: l => do
    let g ← g.removeEdge i j
    runFresh sq g l
  | .ask q :: l => do
    let as ← runFresh sq g l
    Outcome.ok (g.answer sq q :: as)

end Graph
end Stag
