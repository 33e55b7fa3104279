import Verif.Base
import Verif.Props.ThreadPool

/-!
# Model of the batch queries of `stag_lib/kde.cpp`: splitting a batch over the thread pool

`single i` stands for the answer for row `i` of the query matrix.  The number of threads is
`std::thread::hardware_concurrency()`, any number: the C++ standard allows it to be 0.
-/

namespace Stag

open Pool

/-- `this_chunk_start` (`stag_lib/kde.cpp:474`, `stag_lib/kde.cpp:724`), with
`chunk_size = floor(rows / threads)`. -/
def chunkStart (rows threads c : Nat) : Nat := c * (rows / threads)

/-- `this_chunk_end` (`stag_lib/kde.cpp:475-478`, `stag_lib/kde.cpp:725-728`). -/
def chunkEnd (rows threads c : Nat) : Nat :=
  if c = threads - 1 then rows else chunkStart rows threads c + rows / threads

/-- The tasks of a batch: task `c` computes the answers for the rows of chunk `c`; they share
nothing. -/
def chunkTasks {β : Type} (answers : Nat → Nat → List β) (rows threads : Nat) :
    Tasks Unit (List β) where
  acts := fun _ => []
  val := fun c _ => answers (chunkStart rows threads c) (chunkEnd rows threads c)

/-- `results[next_index] = res; next_index++` for the results of one chunk
(`stag_lib/kde.cpp:497-500`, `stag_lib/kde.cpp:753-756`); outside the vector is undefined. -/
def writeChunk {β : Type} : List β → Nat → List β → Outcome (List β × Nat)
  | results, next, [] => .ok (results, next)
  | results, next, r :: rs =>
    if next < results.length then writeChunk (results.set next r) (next + 1) rs else .ub

/-- Collecting the futures (`stag_lib/kde.cpp:492-501`, `stag_lib/kde.cpp:748-757`). -/
def collectChunks {β : Type} (future : Nat → List β) (results : List β) (next : Nat) :
    List Nat → Outcome (List β × Nat)
  | [] => .ok (results, next)
  | c :: cs => do
    let x ← writeChunk results next (future c)
    collectChunks future x.1 x.2 cs

/-- `futures[c].get()`: the value of the ready future. -/
def futureValue {β : Type} (finished : List (Nat × List β)) (c : Nat) : List β :=
  ((finished.find? (fun x => x.1 = c)).map Prod.snd).getD []

/-- A possible run of the parallel branch of a batch query (`stag_lib/kde.cpp:463-507`,
`stag_lib/kde.cpp:712-760`): an execution of the pool with `threads` workers, at whose end the
chunks are collected (the code copies chunk `c` right after its `get`, before the next `get`; the
copies touch only the local vector, so this is the same).  `zero` is the initial value of the results. -/
def ParallelBatch {β : Type} (answers : Nat → Nat → List β) (zero : β) (rows threads : Nat)
    (out : Outcome (List β)) : Prop :=
  ∃ (m k : Nat) (s : State Unit (List β)),
    Exec (chunkTasks answers rows threads) (init threads () (libProg threads [false, true])) m k s ∧
    Complete s ∧
    out = (collectChunks (futureValue s.finished) (List.replicate rows zero) 0
      (List.range threads)).bind (fun x => .ok x.1)

end Stag
