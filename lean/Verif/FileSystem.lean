import Verif.Convert

/-!
# The files on disk while `stag_lib/graphio.cpp` and `stag_lib/utility.cpp` work on them

The other models treat a file as its contents.  Here the disk itself is modelled: a map from paths to
contents, changed by small operations.  A function of the library is the list of operations it performs;
the disk after a crash is what the first `k` of them leave, for any `k`.

Simplifications: single characters reach the disk in the order they are written (buffering only makes
some of these crash points impossible); directories, permissions and a full disk are not modelled, so
opening a file for writing always succeeds; different paths are different files (no links).
-/

namespace Stag

abbrev Path := Str

/-- The disk. -/
abbrev FS := Path → Option Str

/-- What a process does to the disk. -/
inductive FsOp where
  /-- opening a `std::ofstream`: the file is created or emptied -/
  | truncate (p : Path)
  /-- one character written to the open stream reaches the disk -/
  | put (p : Path) (c : Char)
  /-- `std::filesystem::remove` -/
  | remove (p : Path)
  /-- `std::filesystem::copy` under way: the first `k` characters are there -/
  | copyPart (src dst : Path) (k : Nat)
  /-- `std::filesystem::copy` finished -/
  | copyAll (src dst : Path)
  deriving DecidableEq, Repr

/-- Change of one file. -/
def FS.set (fs : FS) (p : Path) (x : Option Str) : FS := fun q => if q = p then x else fs q

/-- The effect of an operation.  Writing to a file that was removed meanwhile, or copying one, changes
no path. -/
def FsOp.exec (fs : FS) : FsOp → FS
  | .truncate p => fs.set p (some [])
  | .put p c => match fs p with
    | some s => fs.set p (some (s ++ [c]))
    | none => fs
  | .remove p => fs.set p none
  | .copyPart src dst k => match fs src with
    | some s => fs.set dst (some (s.take k))
    | none => fs
  | .copyAll src dst => match fs src with
    | some s => fs.set dst (some s)
    | none => fs

/-- The effect of a sequence of operations. -/
def execAll (fs : FS) (ops : List FsOp) : FS := ops.foldl FsOp.exec fs

/-- The disk after a crash: the first `k` operations have been performed. -/
def crashAfter (fs : FS) (ops : List FsOp) (k : Nat) : FS := execAll fs (ops.take k)

/-- Opening an `std::ofstream` and writing `s` (`save_edgelist`, `stag_lib/graphio.cpp:143-168`,
`save_adjacencylist`, `stag_lib/graphio.cpp:554-583`, `save_matrix`, `stag_lib/data.cpp:61-80`,
`general_sbm_edgelist`, `stag_lib/random.cpp:333-382`). -/
def writeOps (p : Path) (s : Str) : List FsOp := .truncate p :: s.map (.put p)

/-- `std::filesystem::copy` of a file with contents `s`. -/
def copyOps (src dst : Path) (s : Str) : List FsOp :=
  (List.range s.length).map (.copyPart src dst) ++ [.copyAll src dst]

/-! ## Temporary files -/

/-- The characters of `random_string` (`stag_lib/utility.cpp:141-144`). -/
def charset : Str := "0123456789ABCDEFGHIJKLMNOPQRSTUVWXYZabcdefghijklmnopqrstuvwxyz".toList

/-- `getTempFilename` (`stag_lib/utility.cpp:137-163`): the `i`-th name a process makes, `rand n` being
the `n`-th value of `std::rand()`.  The library never calls `srand`, so every process starts with the same
`rand`.  The directory is fixed. -/
def tempName (rand : Nat → Nat) (i : Nat) : Path :=
  "/tmp/stag_temp_file.".toList ++
    (List.range 20).map (fun j => charset.getD (rand (20 * i + j) % 62) ' ')

section
variable {K : Type} [Field K] [LinearOrder K]

/-! ## `sort_edgelist` -/

/-- One pass: the new contents are written to the temporary file, the edgelist is removed, the temporary
file is copied to its place and removed (`stag_lib/graphio.cpp:281-284,420-427`). -/
def passOps (file tmp : Path) (text : Str) : List FsOp :=
  writeOps tmp text ++ .remove file :: (copyOps tmp file text ++ [.remove tmp])

/-- The passes (`stag_lib/graphio.cpp:280-428`), `i` being the number of temporary names made before;
`text` are the contents of the file, as read by the pass.  Simplification: a pass that fails is recorded
with the opening of its temporary file only (`C63_sort_done` shows that no pass fails). -/
def sortLoopOps (F : Fmt K) (total : Nat) (file : Path) (tmp : Nat → Path) :
    Nat → Nat → Str → List SortIv → Option (List FsOp × Outcome Unit)
  | _, _, _, [] => some ([], .ok ())
  | 0, _, _, _ :: _ => none
  | fuel + 1, i, text, iv :: ivs =>
    match sortPass F total text (iv :: ivs) with
    | .ok (text', ivs') =>
      (sortLoopOps F total file tmp fuel (i + 1) text' ivs').map
        (fun r => (passOps file (tmp i) text' ++ r.1, r.2))
    | .throw e => some ([.truncate (tmp i)], .throw e)
    | .ub => some ([.truncate (tmp i)], .ub)

/-- `stag::sort_edgelist` (`stag_lib/graphio.cpp:269-429`) on the file `file` with contents `text`: the
operations and the outcome.  `i` temporary names were made before. -/
def sortEdgelistOps (F : Fmt K) (fuel : Nat) (file : Path) (tmp : Nat → Path) (i : Nat) (text : Str) :
    Option (List FsOp × Outcome Unit) :=
  match Outcome.mapM' (parseEdgeRT F) (contentLines text) with
  | .ok es =>
    sortLoopOps F ((fileLines text).length - 1) file tmp fuel i text
      [⟨0, (fileLines text).length - 1, 0, maxVertex es⟩]
  | .throw e => some ([], .throw e)
  | .ub => some ([], .ub)

/-! ## Conversions -/

/-- The loop of `copy_edgelist_duplicate_edges` (`stag_lib/graphio.cpp:189-208`): the lines written until
the end of the file or the first error. -/
def duplicateWritten (F : Fmt K) : List Str → List Str × Outcome Unit
  | [] => ([], .ok ())
  | l :: ls =>
    if isContent l then
      match parseEdgeRT F l with
      | .ok e =>
        let r := duplicateWritten F ls
        (edgeLine F e :: edgeLine F ⟨e.v2, e.v1, e.w⟩ :: r.1, r.2)
      | .throw e => ([], .throw e)
      | .ub => ([], .ub)
    else
      let r := duplicateWritten F ls
      (l :: r.1, r.2)

/-- `copy_edgelist_duplicate_edges` (`stag_lib/graphio.cpp:175-213`): the input is opened first, then the
output is opened (and emptied), then the input is read. -/
def copyDuplicateOps (F : Fmt K) (inp out : Path) (fs : FS) : List FsOp × Outcome Unit :=
  match fs inp with
  | none => ([], .throw .runtimeError)
  | some text =>
    let r := duplicateWritten F (fileLines (if inp = out then [] else text))
    (writeOps out (unlines r.1), r.2)

/-- The loop of `adjacencylist_to_edgelist` (`stag_lib/graphio.cpp:601-624`): the lines written until the
end of the file or the first error. -/
def adjToEdgeWritten (F : Fmt K) : Bool → List Str → List Str × Outcome Unit
  | _, [] => ([], .ok ())
  | written, l :: ls =>
    if isContent l then
      match parseAdjRT F l with
      | .ok es =>
        let r := adjToEdgeWritten F true ls
        ((es.filter (fun e => decide (e.v1 ≤ e.v2))).map (iedgeLine F) ++ r.1, r.2)
      | .throw e => ([], .throw e)
      | .ub => ([], .ub)
    else
      let r := adjToEdgeWritten F written ls
      ((if written then [] else [l]) ++ r.1, r.2)

/-- `adjacencylist_to_edgelist` (`stag_lib/graphio.cpp:586-629`): both streams are opened before either is
checked, so the output is emptied even if there is no input. -/
def adjToEdgeOps (F : Fmt K) (inp out : Path) (fs : FS) : List FsOp × Outcome Unit :=
  match fs inp with
  | none => ([.truncate out], .throw .runtimeError)
  | some text =>
    let r := adjToEdgeWritten F false (fileLines (if inp = out then [] else text))
    (writeOps out (unlines r.1), r.2)

/-- The read loop of `edgelist_to_adjacencylist` (`stag_lib/graphio.cpp:648-675`): the text written until
the end of the file or the first error. -/
def edgeToAdjWritten (F : Fmt K) : Int → Bool → List Str → Str × Outcome Unit
  | _, _, [] => ([], .ok ())
  | cur, written, l :: ls =>
    if isContent l then
      match parseEdgeRT F l with
      | .ok e =>
        let r := edgeToAdjWritten F (if cur < (e.v1 : Int) then (e.v1 : Int) else cur) true ls
        ((if cur < (e.v1 : Int) then '\n' :: (printNat e.v1 ++ [':']) else []) ++
          (nbrText F e.v2 e.w ++ r.1), r.2)
      | .throw e => ([], .throw e)
      | .ub => ([], .ub)
    else
      let r := edgeToAdjWritten F cur written ls
      ((if written then [] else l ++ ['\n']) ++ r.1, r.2)

/-- `edgelist_to_adjacencylist` (`stag_lib/graphio.cpp:631-684`): the duplicated edges are written to the
temporary file `tmp i`, which is sorted (with further temporary files) and converted; the temporary file
is removed at the end, unless there was an error. -/
def edgeToAdjOps (F : Fmt K) (fuel : Nat) (inp out : Path) (tmp : Nat → Path) (i : Nat) (fs : FS) :
    Option (List FsOp × Outcome Unit) :=
  let c := copyDuplicateOps F inp (tmp i) fs
  match c.2 with
  | .ok _ =>
    match sortEdgelistOps F fuel (tmp i) tmp (i + 1) ((execAll fs c.1 (tmp i)).getD []) with
    | none => none
    | some (ops, .ok _) =>
      let sorted := (execAll fs (c.1 ++ ops) (tmp i)).getD []
      let r := edgeToAdjWritten F (-1) false (fileLines (if tmp i = out then [] else sorted))
      some (c.1 ++ (ops ++ (writeOps out r.1 ++
        match r.2 with
        | .ok _ => [.remove (tmp i)]
        | _ => [])), r.2)
    | some (ops, r) => some (c.1 ++ ops, r)
  | r => some (c.1, r)

end

/-! ## Several processes -/

/-- The operations of two processes, interleaved. -/
inductive Interleave : List FsOp → List FsOp → List FsOp → Prop where
  | nil : Interleave [] [] []
  | left {o : FsOp} {a b c : List FsOp} : Interleave a b c → Interleave (o :: a) b (o :: c)
  | right {o : FsOp} {a b c : List FsOp} : Interleave a b c → Interleave a (o :: b) (o :: c)

end Stag
