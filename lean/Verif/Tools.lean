import Verif.FileSystem
import Verif.Random

/-!
# The command-line tools (`stagtools/*.cpp`)

A run of a tool is what it does to the disk, whether it prints the usage text, and how it ends.
-/

namespace Stag

/-- How a process ends: it returns from `main`, or an exception leaves `main` (`std::terminate`), or its
behaviour is undefined. -/
inductive Exit where
  | code (n : Nat)
  | uncaught (e : Exn)
  | badAlloc
  | ub
  deriving DecidableEq, Repr

/-- A run of a tool. -/
structure ToolRun where
  ops : List FsOp
  usage : Bool
  exit : Exit

/-- `EINVAL`. -/
def einval : Nat := 22

/-- The usage text is printed and the tool gives up (`stagtools/adj2edge.cpp:23-26,33-36`,
`stagtools/edge2adj.cpp:24-27,34-37`, `stagtools/sbm.cpp:31-34,44-47`). -/
def usageRun : ToolRun := ⟨[], true, .code einval⟩

/-- `main` returns 0 after the library call, unless the call raised an exception. -/
def exitOf : Outcome Unit → Exit
  | .ok _ => .code 0
  | .throw e => .uncaught e
  | .ub => .ub

section
variable {K Ω : Type} [Field K] [LinearOrder K]

/-- `stag_adj2edge` (`stagtools/adj2edge.cpp:20-42`); `args` are all of `argv`, the name of the program
included. -/
def adj2edgeMain (F : Fmt K) (args : List Str) (fs : FS) : ToolRun :=
  match args with
  | [_, adj, edge] =>
    let r := adjToEdgeOps F adj edge fs
    ⟨r.1, false, exitOf r.2⟩
  | _ => usageRun

/-- `stag_edge2adj` (`stagtools/edge2adj.cpp:21-43`); `tmp` are the temporary names of the process. -/
def edge2adjMain (F : Fmt K) (fuel : Nat) (tmp : Nat → Path) (args : List Str) (fs : FS) :
    Option ToolRun :=
  match args with
  | [_, edge, adj] => (edgeToAdjOps F fuel edge adj tmp 0 fs).map fun r => ⟨r.1, false, exitOf r.2⟩
  | _ => some usageRun

/-- `general_sbm_edgelist` on the disk (`stag_lib/random.cpp:333-382`): the file is opened and the header
written before the arguments are checked.  The reads of `probabilities` in the header are in range for
the caller below. -/
def sbmEdgelistOps (R : Rng K Ω) (F : Fmt K) (fuel : Nat) (file : Path) (sizes : List Int)
    (P : DenseMat K) (exact : Bool) (ω : Ω) : Option (List FsOp × Outcome Unit) :=
  match sbmInternal R fuel sizes P exact ω with
  | none => none
  | some (.ok es, _) => some (writeOps file (unlines (sbmHeader F sizes P ++ es.map emitLine)), .ok ())
  | some (.throw e, _) => some (writeOps file (unlines (sbmHeader F sizes P)), .throw e)
  | some (.ub, _) => some (writeOps file (unlines (sbmHeader F sizes P)), .ub)

/-- The numbers on the command line (`stagtools/sbm.cpp:38-48`): `none` if any of them raises an
exception. -/
def sbmNumbers (F : Fmt K) (n k p q : Str) : Option (Int × Int × K × K) :=
  match stoi n, stoi k, F.stod p, F.stod q with
  | .ok n, .ok k, .ok p, .ok q => some (n, k, p, q)
  | _, _, _, _ => none

/-- `stag_sbm` (`stagtools/sbm.cpp:24-67`).  For `k = 0` the conversion of `floor(n / 0.0)` to an integer is
undefined; for `k < 0` Eigen cannot allocate a `k × k` matrix.  `n / k` is exact in double precision for
32-bit numbers. -/
def sbmMain (R : Rng K Ω) (F : Fmt K) (fuel : Nat) (args : List Str) (ω : Ω) : Option ToolRun :=
  match args with
  | [_, file, n, k, p, q] =>
    match sbmNumbers F n k p q with
    | none => some usageRun
    | some (n, k, p, q) =>
      if k = 0 then some ⟨[], false, .ub⟩
      else if k < 0 then some ⟨[], false, .badAlloc⟩
      else
        (sbmEdgelistOps R F fuel file (sbmSizes n k) (sbmProbs k p q) false ω).map fun r =>
          ⟨r.1, false, exitOf r.2⟩
  | _ => some usageRun

end
end Stag
