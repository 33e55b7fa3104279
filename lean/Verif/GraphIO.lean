import Verif.Text
import Verif.Graph

/-!
# Model of `stag_lib/graphio.cpp`

A file is its contents (`Str`); opening a file is assumed to succeed and a written file is
returned as a value.  `std::endl` is a line feed.
-/

namespace Stag

section
variable {K : Type} [Field K] [LinearOrder K]

/-- The variables of `parse_edgelist_content_line` (`stag_lib/graphio.cpp:29-32`). -/
structure PState (K : Type) where
  num : Nat
  u : Int
  v : Int
  w : K

/-- One round of the inner loop (`stag_lib/graphio.cpp:46-56`). -/
def eatToken (F : Fmt K) (s : PState K) (t : Str) : Outcome (PState K) :=
  if t = [] then .ok s
  else do
    let u ← if s.num = 0 then stoi t else .ok s.u
    let v ← if s.num = 1 then stoi t else .ok s.v
    let w ← if s.num = 2 then F.stod t else .ok s.w
    .ok ⟨s.num + 1, u, v, w⟩

/-- The inner loop over the tokens (`stag_lib/graphio.cpp:41-57`). -/
def eatTokens (F : Fmt K) (s : PState K) : List Str → Outcome (PState K)
  | [] => .ok s
  | t :: ts => do
    let s' ← eatToken F s t
    eatTokens F s' ts

/-- One delimiter (`stag_lib/graphio.cpp:37-59`): split only while no token has been found;
the unsplit remainder stays in `line`. -/
def tryDelim (F : Fmt K) (s : PState K × Str) (d : Char) : Outcome (PState K × Str) :=
  if s.1.num = 0 then do
    let s' ← eatTokens F s.1 (splitDelim d s.2).1
    .ok (s', (splitDelim d s.2).2)
  else .ok s

/-- The last token of the line (`stag_lib/graphio.cpp:61-74`). -/
def lastToken (F : Fmt K) (s : PState K) (line : Str) : Outcome (PState K) :=
  if s.num = 1 then do
    let v ← stoi line
    .ok { s with num := 2, v := v }
  else if s.num = 2 then
    match F.stod line with
    | .ok w => .ok { s with num := 3, w := w }
    | .throw _ => .ok s
    | .ub => .ub
  else .ok s

/-- `parse_edgelist_content_line` (`stag_lib/graphio.cpp:22-88`). -/
def parseEdgelistLine (F : Fmt K) (line : Str) : Outcome (Edge K) := do
  let s ← tryDelim F (⟨0, -1, -1, 1⟩, line) ','
  let s ← tryDelim F s ' '
  let s ← tryDelim F s '\t'
  let p ← lastToken F s.1 s.2
  if p.num < 2 ∨ 3 < p.num then .throw .invalidArgument
  else if p.u < 0 ∨ p.v < 0 then .throw .invalidArgument
  else .ok ⟨p.u.toNat, p.v.toNat, p.w⟩

/-- Parsing with `invalid_argument` turned into `runtime_error` (the `try`/`catch` around
every parse, e.g. `stag_lib/graphio.cpp:109-126`). -/
def parseEdgeRT (F : Fmt K) (line : Str) : Outcome (Edge K) :=
  (parseEdgelistLine F line).rethrow .invalidArgument .runtimeError

/-- The lines of a file which are neither empty nor comments. -/
def contentLines (s : Str) : List Str := (fileLines s).filter isContent

/-- The `number_of_vertices` accumulated while reading (`stag_lib/graphio.cpp:119-122`). -/
def maxVertex (es : List (Edge K)) : Nat :=
  es.foldl (fun n e => max (max n (e.v1 + 1)) (e.v2 + 1)) 0

/-- The two triplets of an edge (`stag_lib/graphio.cpp:113-117`). -/
def bothTriplets (e : Edge K) : List (Triplet K) := [⟨e.v1, e.v2, e.w⟩, ⟨e.v2, e.v1, e.w⟩]

/-- `stag::load_edgelist` (`stag_lib/graphio.cpp:90-139`). -/
def loadEdgelist (F : Fmt K) (file : Str) : Outcome (Graph K) := do
  let es ← Outcome.mapM' (parseEdgeRT F) (contentLines file)
  let m ← SprsMat.setFromTriplets (maxVertex es) (maxVertex es) (es.flatMap bothTriplets)
  Graph.ofMatrix m

/-- `v1 << " " << v2 << " " << weight` (`stag_lib/graphio.cpp:162,198,199,612`). -/
def edgeLine (F : Fmt K) (e : Edge K) : Str :=
  printNat e.v1 ++ ' ' :: (printNat e.v2 ++ ' ' :: F.print e.w)

/-- First header line (`stag_lib/graphio.cpp:151,562`). -/
def headerGen : Str := "# This file was automatically generated by the STAG library.".toList

/-- Header line with the number of vertices (`stag_lib/graphio.cpp:152,563`). -/
def headerN (n : Nat) : Str := "#   number of vertices = ".toList ++ printNat n

/-- Header line with the number of edges (`stag_lib/graphio.cpp:153,564`). -/
def headerM (n : Nat) : Str := "#   number of edges = ".toList ++ printNat n

/-- The entries written by `save_edgelist` (`stag_lib/graphio.cpp:157-165`): column by column,
strictly above the diagonal. -/
def upperEdges (g : Graph K) : List (Edge K) :=
  (List.range g.adj.cols).flatMap (fun k =>
    ((g.adj.col k).filter (fun e => decide (e.1 < k))).map (fun e => ⟨e.1, k, e.2⟩))

/-- `stag::save_edgelist` (`stag_lib/graphio.cpp:141-169`). -/
def saveEdgelist (F : Fmt K) (g : Graph K) : Str :=
  unlines ([headerGen, headerN g.n, headerM g.numberOfEdges] ++ (upperEdges g).map (edgeLine F))

/-- `stag::copy_edgelist_duplicate_edges` (`stag_lib/graphio.cpp:175-213`); result: the lines
written. -/
def duplicateLines (F : Fmt K) : List Str → Outcome (List Str)
  | [] => .ok []
  | l :: ls => do
    let out ←
      if isContent l then do
        let e ← parseEdgeRT F l
        .ok [edgeLine F e, edgeLine F ⟨e.v2, e.v1, e.w⟩]
      else .ok [l]
    let rest ← duplicateLines F ls
    .ok (out ++ rest)

/-- `stag::copy_edgelist_duplicate_edges` (`stag_lib/graphio.cpp:175-213`): contents of the output
file. -/
def copyDuplicate (F : Fmt K) (file : Str) : Outcome Str := do
  let ls ← duplicateLines F (fileLines file)
  .ok (unlines ls)

/-! ## Adjacency lists -/

/-- `stag::edge` as parsed from an adjacency list: the ids are not checked. -/
structure IEdge (K : Type) where
  v1 : Int
  v2 : Int
  w : K
  deriving DecidableEq, Repr

/-- `line.find(':')` with the parts before and after. -/
def cutColon : Str → Option (Str × Str)
  | [] => none
  | c :: s => if c = ':' then some ([], s) else (cutColon s).map (fun p => (c :: p.1, p.2))

/-- `parse_adjacencylist_edge` (`stag_lib/graphio.cpp:435-454`). -/
def parseAdjEdge (F : Fmt K) (src : Int) (token : Str) : Outcome (IEdge K) :=
  match cutColon token with
  | none => do
    let v ← stoi token
    .ok ⟨src, v, 1⟩
  | some (a, b) => do
    let v ← stoi a
    let w ← F.stod b
    .ok ⟨src, v, w⟩

/-- The tokens split off the line (`stag_lib/graphio.cpp:477-484`). -/
def adjTokens (F : Fmt K) (src : Int) (ts : List Str) : Outcome (List (IEdge K)) :=
  Outcome.mapM' (parseAdjEdge F src) (ts.filter (fun t => !t.isEmpty))

/-- The last token, whose errors are ignored (`stag_lib/graphio.cpp:486-491`). -/
def adjLast (F : Fmt K) (src : Int) (t : Str) : List (IEdge K) :=
  match parseAdjEdge F src t with
  | .ok e => [e]
  | _ => []

/-- Insertion of one edge, keeping the order of equal keys (`cmp_neighbors`,
`stag_lib/graphio.cpp:459-461`). -/
def insertEdge (e : IEdge K) : List (IEdge K) → List (IEdge K)
  | [] => [e]
  | f :: l => if f.v2 < e.v2 then f :: insertEdge e l else e :: f :: l

/-- `std::stable_sort(edges.begin(), edges.end(), cmp_neighbors)` (`stag_lib/graphio.cpp:496`).
Simplification: a stable sort is unique, so any stable algorithm will do. -/
def sortEdges (l : List (IEdge K)) : List (IEdge K) := l.foldr insertEdge []

/-- `stag::parse_adjacencylist_content_line` (`stag_lib/graphio.cpp:464-499`). -/
def parseAdjLine (F : Fmt K) (line : Str) : Outcome (List (IEdge K)) :=
  match cutColon line with
  | none => .throw .invalidArgument
  | some (a, b) => do
    let src ← stoi a
    let es ← adjTokens F src (splitDelim ' ' b).1
    .ok (sortEdges (es ++ adjLast F src (splitDelim ' ' b).2))

/-- Parsing with `invalid_argument` turned into `runtime_error`
(`stag_lib/graphio.cpp:520-537`). -/
def parseAdjRT (F : Fmt K) (line : Str) : Outcome (List (IEdge K)) :=
  (parseAdjLine F line).rethrow .invalidArgument .runtimeError

/-- Triplet of a parsed edge; a negative index given to `setFromTriplets` is undefined
behaviour. -/
def toTriplet (e : IEdge K) : Outcome (Triplet K) :=
  if e.v1 < 0 ∨ e.v2 < 0 then .ub else .ok ⟨e.v1.toNat, e.v2.toNat, e.w⟩

/-- The `number_of_vertices` accumulated while reading (`stag_lib/graphio.cpp:529-532`). -/
def maxTriplet (es : List (Triplet K)) : Nat :=
  es.foldl (fun n e => max (max n (e.row + 1)) (e.col + 1)) 0

/-- `stag::load_adjacencylist` (`stag_lib/graphio.cpp:501-550`). -/
def loadAdjacencylist (F : Fmt K) (file : Str) : Outcome (Graph K) := do
  let es ← Outcome.mapM' (parseAdjRT F) (contentLines file)
  let ts ← Outcome.mapM' toTriplet es.flatten
  let m ← SprsMat.setFromTriplets (maxTriplet ts) (maxTriplet ts) ts
  Graph.ofMatrix m

/-- One neighbour in an adjacency list line: `" " << v2 << ":" << weight`
(`stag_lib/graphio.cpp:576,666`). -/
def nbrText (F : Fmt K) (v : Nat) (w : K) : Str := ' ' :: (printNat v ++ ':' :: F.print w)

/-- One line of the adjacency list file (`stag_lib/graphio.cpp:573-577`). -/
def adjLine (F : Fmt K) (u : Nat) (nb : List (Nat × K)) : Str :=
  printNat u ++ ':' :: nb.flatMap (fun e => nbrText F e.1 e.2)

/-- The header of a saved adjacency list (`stag_lib/graphio.cpp:562-568`). -/
def adjHeader (n m : Nat) : List Str :=
  [headerGen, headerN n, headerM m, ['#'],
   "# This file is formatted as a STAG adjacency list. For more information,".toList,
   "# see the STAG documentation.".toList, ['#']]

/-- `stag::save_adjacencylist` (`stag_lib/graphio.cpp:552-584`). -/
def saveAdjacencylist (F : Fmt K) (g : Graph K) : Outcome Str := do
  let ls ← Outcome.mapM' (fun u : Nat => do
    let es ← g.neighbors (u : Int)
    Outcome.ok (adjLine F u (es.map (fun e => (e.v2, e.w))))) (List.range g.n)
  .ok (unlines (adjHeader g.n g.numberOfEdges ++ ls))

end
end Stag
