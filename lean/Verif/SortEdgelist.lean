import Verif.GraphIO

/-!
# Model of `stag::sort_edgelist` (`stag_lib/graphio.cpp:215-429`)

The quicksort on disk.  Each pass reads the file line by line and writes a new one.  The
`assert`s are compiled out (release build); the one about the stream position is kept as `ub`.
-/

namespace Stag

section
variable {K : Type} [Field K]

/-- `EdgelistSortInterval` (`stag_lib/graphio.cpp:262-267`); ids are never negative. -/
structure SortIv where
  start : Nat
  stop : Nat
  lo : Nat
  hi : Nat
  deriving DecidableEq, Repr

/-- The lines with index `a ≤ i < b` delivered by `safeGetline`; past the end of the file it
delivers empty lines. -/
def lineRange (ls : List Str) (a b : Nat) : List Str :=
  (List.range (b - a)).map (fun k => ls.getD (a + k) [])

/-- The variables of one scan of an interval: lines written, `new_interval_min_id`,
`new_interval_max_id`, `written_content`. -/
structure ScanState where
  out : List Str
  mn : Nat
  mx : Nat
  written : Bool

/-- First scan of an interval (`stag_lib/graphio.cpp:325-353`): lines with `2 * v1` below the
doubled pivot, and comments as long as no content has been seen. -/
def scanLeft (F : Fmt K) (pivot : Nat) : List Str → ScanState → Outcome ScanState
  | [], s => .ok s
  | l :: ls, s =>
    if isContent l then do
      let e ← parseEdgeRT F l
      if 2 * e.v1 < pivot then
        scanLeft F pivot ls ⟨s.out ++ [l], if e.v1 < s.mn then e.v1 else s.mn,
          if s.mx < e.v1 then e.v1 else s.mx, true⟩
      else scanLeft F pivot ls { s with written := true }
    else if s.written = false then scanLeft F pivot ls { s with out := s.out ++ [l] }
    else scanLeft F pivot ls s

/-- Second scan of an interval (`stag_lib/graphio.cpp:373-395`): lines with `2 * v1` at least the
doubled pivot. -/
def scanRight (F : Fmt K) (pivot : Nat) : List Str → ScanState → Outcome ScanState
  | [], s => .ok s
  | l :: ls, s =>
    if isContent l then do
      let e ← parseEdgeRT F l
      if pivot ≤ 2 * e.v1 then
        scanRight F pivot ls ⟨s.out ++ [l], if e.v1 < s.mn then e.v1 else s.mn,
          if s.mx < e.v1 then e.v1 else s.mx, s.written⟩
      else scanRight F pivot ls s
    else scanRight F pivot ls s

/-- The interval pushed after a scan (`stag_lib/graphio.cpp:356-363`, 398-405). -/
def newIv (start stop mn mx : Nat) : List SortIv :=
  if 1 < stop - start ∧ mn < mx then [⟨start, stop, mn, mx⟩] else []

/-- The variables of one pass: `current_input_line`, the lines written so far
(`current_output_line` is their number), `written_content`, `new_intervals`. -/
structure PassState where
  inLine : Nat
  out : List Str
  written : Bool
  news : List SortIv

/-- The loop body for one interval (`stag_lib/graphio.cpp:304-406`). -/
def passInterval (F : Fmt K) (ls : List Str) (s : PassState) (iv : SortIv) : Outcome PassState :=
  if iv.start < s.inLine then .ub
  else do
    let out := s.out ++ lineRange ls s.inLine iv.start
    let seg := lineRange ls iv.start iv.stop
    let l ← scanLeft F (iv.lo + iv.hi) seg ⟨[], iv.hi, iv.lo, s.written⟩
    let out1 := out ++ l.out
    let r ← scanRight F (iv.lo + iv.hi) seg ⟨[], iv.hi, iv.lo, l.written⟩
    let out2 := out1 ++ r.out
    .ok ⟨max iv.start iv.stop, out2, r.written,
      s.news ++ newIv out.length out1.length l.mn l.mx ++ newIv out1.length out2.length r.mn r.mx⟩

/-- The loop over the intervals (`stag_lib/graphio.cpp:304-406`). -/
def passIntervals (F : Fmt K) (ls : List Str) : PassState → List SortIv → Outcome PassState
  | s, [] => .ok s
  | s, iv :: ivs => do
    let s' ← passInterval F ls s iv
    passIntervals F ls s' ivs

/-- One pass over the file (`stag_lib/graphio.cpp:280-428`): the new contents and intervals.
`total` is `num_lines - 1`. -/
def sortPass (F : Fmt K) (total : Nat) (text : Str) (ivs : List SortIv) :
    Outcome (Str × List SortIv) := do
  let s ← passIntervals F (fileLines text) ⟨0, [], false, []⟩ ivs
  .ok (unlines (s.out ++ lineRange (fileLines text) s.inLine total), s.news)

/-- The `while (!intervals.empty())` loop (`stag_lib/graphio.cpp:280-428`) with a bound on the
number of passes; `none` means the bound was reached. -/
def sortLoop (F : Fmt K) (total : Nat) : Nat → Str → List SortIv → Option (Outcome Str)
  | _, text, [] => some (.ok text)
  | 0, _, _ :: _ => none
  | fuel + 1, text, iv :: ivs =>
    match sortPass F total text (iv :: ivs) with
    | .ok (text', ivs') => sortLoop F total fuel text' ivs'
    | .throw e => some (.throw e)
    | .ub => some .ub

/-- `stag::sort_edgelist` (`stag_lib/graphio.cpp:269-429`) with
`get_edgelist_lines_and_nodes` (`stag_lib/graphio.cpp:221-256`): the new contents of the file, or
`none` if more than `fuel` passes are needed. -/
def sortEdgelist (F : Fmt K) (fuel : Nat) (file : Str) : Option (Outcome Str) :=
  match Outcome.mapM' (parseEdgeRT F) (contentLines file) with
  | .ok es =>
    sortLoop F ((fileLines file).length - 1) fuel file
      [⟨0, (fileLines file).length - 1, 0, maxVertex es⟩]
  | .throw e => some (.throw e)
  | .ub => some .ub

end
end Stag
