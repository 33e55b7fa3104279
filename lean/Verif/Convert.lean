import Verif.SortEdgelist

/-!
# Model of the conversions between the two file formats (`stag_lib/graphio.cpp:586-684`)
-/

namespace Stag

section
variable {K : Type} [Field K]

/-- The line written for one edge (`stag_lib/graphio.cpp:612`). -/
def iedgeLine (F : Fmt K) (e : IEdge K) : Str :=
  printInt e.v1 ++ ' ' :: (printInt e.v2 ++ ' ' :: F.print e.w)

/-- The read loop of `adjacencylist_to_edgelist` (`stag_lib/graphio.cpp:601-624`): the lines
written; `written` is `written_content`. -/
def adjToEdgeLines (F : Fmt K) : Bool → List Str → Outcome (List Str)
  | _, [] => .ok []
  | written, l :: ls =>
    if isContent l then do
      let es ← parseAdjRT F l
      let rest ← adjToEdgeLines F true ls
      .ok ((es.filter (fun e => decide (e.v1 ≤ e.v2))).map (iedgeLine F) ++ rest)
    else do
      let rest ← adjToEdgeLines F written ls
      .ok ((if written then [] else [l]) ++ rest)

/-- `stag::adjacencylist_to_edgelist` (`stag_lib/graphio.cpp:586-629`): contents of the output
file. -/
def adjacencylistToEdgelist (F : Fmt K) (file : Str) : Outcome Str := do
  let ls ← adjToEdgeLines F false (fileLines file)
  .ok (unlines ls)

/-- The read loop of `edgelist_to_adjacencylist` (`stag_lib/graphio.cpp:648-675`): the text
written; `cur` is `current_node`.  The `assert` (line 657) is compiled out. -/
def edgeToAdjText (F : Fmt K) : Int → Bool → List Str → Outcome Str
  | _, _, [] => .ok []
  | cur, written, l :: ls =>
    if isContent l then do
      let e ← parseEdgeRT F l
      let rest ← edgeToAdjText F (if cur < (e.v1 : Int) then (e.v1 : Int) else cur) true ls
      .ok ((if cur < (e.v1 : Int) then '\n' :: (printNat e.v1 ++ [':']) else []) ++
        (nbrText F e.v2 e.w ++ rest))
    else do
      let rest ← edgeToAdjText F cur written ls
      .ok ((if written then [] else l ++ ['\n']) ++ rest)

/-- `stag::edgelist_to_adjacencylist` (`stag_lib/graphio.cpp:631-684`): contents of the output
file; `fuel` bounds the number of passes of the sort.  The temporary file is private. -/
def edgelistToAdjacencylist (F : Fmt K) (fuel : Nat) (file : Str) : Option (Outcome Str) :=
  match copyDuplicate F file with
  | .ok dup =>
    match sortEdgelist F fuel dup with
    | some (.ok sorted) => some (edgeToAdjText F (-1) false (fileLines sorted))
    | some (.throw e) => some (.throw e)
    | some .ub => some .ub
    | none => none
  | .throw e => some (.throw e)
  | .ub => some .ub

end
end Stag
