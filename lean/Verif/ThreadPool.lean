import Mathlib.Algebra.BigOperators.Group.Finset.Basic

/-!
# Model of `stag_lib/multithreading/ctpl_stl.h`: the thread pool

A small-step interleaving semantics: one client thread that owns the pool (as everywhere in
`stag_lib`), `N` worker threads, the queue, the mutex, the condition variable and the atomic flags.
Each access to a shared object is one step; the scheduler (which thread moves next, which waiting
thread `notify_one` wakes, spurious wake-ups of `cv.wait`) is arbitrary.

A task is a list of atomic actions on the memory `S` shared by the tasks, and a returned value.
Simplifications: the tasks read no shared memory another task writes except in atomic actions;
releasing the mutex is merged with the last step before it (no shared access in between);
`nWaiting` (only reported by `n_idle`) and `resize` to fewer threads (unused) are left out;
sequentially consistent memory (all shared objects are atomics or protected by a mutex).
-/

namespace Stag.Pool

/-- What the client thread calls: `push` (`ctpl_stl.h:180-191`), `future::get`, `stop(isWait)`
(`ctpl_stl.h:135-163`; the destructor is `stop(true)`, `ctpl_stl.h:69-71`). -/
inductive Op where
  | push (t : Nat)
  | get (t : Nat)
  | stop (wait : Bool)
  deriving DecidableEq, Repr

/-- Where the client is inside a call. -/
inductive CPc where
  /-- between two calls -/
  | ready
  /-- `push`: the task is in the queue, the mutex is to be locked (`ctpl_stl.h:188`) -/
  | pushed
  /-- `push`: mutex locked, before `notify_one` (`ctpl_stl.h:189`) -/
  | notifyOne
  /-- `stop(false)`: setting the flag of thread `i` (`ctpl_stl.h:140-142`) -/
  | stopFlags (i : Nat)
  /-- `stop(false)`: `clear_queue` (`ctpl_stl.h:143`) -/
  | stopClear
  /-- `stop`: about to lock the mutex (`ctpl_stl.h:151`) -/
  | stopLock
  /-- `stop`: mutex locked, before `notify_all` (`ctpl_stl.h:152`) -/
  | stopNotify
  /-- `stop`: joining thread `i` (`ctpl_stl.h:154-157`) -/
  | stopJoin (i : Nat)
  /-- `stop`: the final `clear_queue` (`ctpl_stl.h:160`) -/
  | stopClear2
  deriving DecidableEq, Repr

/-- Where a worker is in the loop of `set_thread` (`ctpl_stl.h:202-227`). -/
inductive WPc where
  /-- about to `q.pop` without the pool mutex (`ctpl_stl.h:207,215`) -/
  | pop
  /-- running task `t`, `k` of its actions done (`ctpl_stl.h:211`) -/
  | running (t k : Nat)
  /-- the task has returned, about to read the flag (`ctpl_stl.h:212`) -/
  | ran
  /-- about to lock the mutex: before the wait, or after a wake-up (`ctpl_stl.h:218,220`) -/
  | lock
  /-- mutex locked, about to pop in the wait predicate (`ctpl_stl.h:220`) -/
  | test
  /-- mutex locked, the queue was empty, about to read `isDone` (`ctpl_stl.h:220`) -/
  | sawEmpty
  /-- mutex locked, `isDone` was false, about to read the flag (`ctpl_stl.h:220`) -/
  | sawNotDone
  /-- waiting on the condition variable, mutex released -/
  | blocked
  /-- the thread function has returned -/
  | exited
  deriving DecidableEq, Repr

/-- Owner of the pool mutex. -/
inductive Who where
  | client
  | worker (i : Nat)
  deriving DecidableEq, Repr

/-- State of the pool, its threads and its client.  `finished` are the futures that are ready, with
their values, in the order they became ready; `dropped` the tasks deleted by `clear_queue`; `trace`
the actions `(t, k)` executed so far, in order. -/
structure State (S α : Type) where
  prog : List Op
  cpc : CPc
  q : List Nat
  wpc : Nat → WPc
  mutex : Option Who
  isDone : Bool
  isStop : Bool
  flag : Nat → Bool
  nThreads : Nat
  shared : S
  finished : List (Nat × α)
  dropped : List Nat
  trace : List (Nat × Nat)

/-- The pool constructed with `N` threads (`ctpl_stl.h:66,86-94`), the client about to run `prog`. -/
def init {S α : Type} (N : Nat) (S₀ : S) (prog : List Op) : State S α where
  prog := prog
  cpc := .ready
  q := []
  wpc := fun i => if i < N then .pop else .exited
  mutex := none
  isDone := false
  isStop := false
  flag := fun _ => false
  nThreads := N
  shared := S₀
  finished := []
  dropped := []
  trace := []

/-- The tasks: their atomic actions and the value they return. -/
structure Tasks (S α : Type) where
  acts : Nat → List (S → S)
  val : Nat → S → α

/-- Update of a table of threads. -/
def upd {β : Type} (f : Nat → β) (i : Nat) (b : β) : Nat → β := fun j => if j = i then b else f j

variable {S α : Type}

/-- One step of one thread; the label is `true` for a spurious wake-up. -/
inductive Step (T : Tasks S α) : State S α → Bool → State S α → Prop where
  -- workers
  | popSome (s : State S α) (i t : Nat) (q' : List Nat) : s.wpc i = .pop → s.q = t :: q' →
      Step T s false { s with q := q', wpc := upd s.wpc i (.running t 0) }
  | popNone (s : State S α) (i : Nat) : s.wpc i = .pop → s.q = [] →
      Step T s false { s with wpc := upd s.wpc i .lock }
  | act (s : State S α) (i t k : Nat) (f : S → S) : s.wpc i = .running t k →
      (T.acts t)[k]? = some f →
      Step T s false { s with shared := f s.shared, trace := s.trace ++ [(t, k)],
                              wpc := upd s.wpc i (.running t (k + 1)) }
  | fin (s : State S α) (i t k : Nat) : s.wpc i = .running t k → k = (T.acts t).length →
      Step T s false { s with finished := s.finished ++ [(t, T.val t s.shared)],
                              wpc := upd s.wpc i .ran }
  | ranStop (s : State S α) (i : Nat) : s.wpc i = .ran → s.flag i = true →
      Step T s false { s with wpc := upd s.wpc i .exited }
  | ranLoop (s : State S α) (i : Nat) : s.wpc i = .ran → s.flag i = false →
      Step T s false { s with wpc := upd s.wpc i .pop }
  | wLock (s : State S α) (i : Nat) : s.wpc i = .lock → s.mutex = none →
      Step T s false { s with mutex := some (.worker i), wpc := upd s.wpc i .test }
  | testSome (s : State S α) (i t : Nat) (q' : List Nat) : s.wpc i = .test → s.q = t :: q' →
      Step T s false { s with q := q', mutex := none, wpc := upd s.wpc i (.running t 0) }
  | testNone (s : State S α) (i : Nat) : s.wpc i = .test → s.q = [] →
      Step T s false { s with wpc := upd s.wpc i .sawEmpty }
  | doneYes (s : State S α) (i : Nat) : s.wpc i = .sawEmpty → s.isDone = true →
      Step T s false { s with mutex := none, wpc := upd s.wpc i .exited }
  | doneNo (s : State S α) (i : Nat) : s.wpc i = .sawEmpty → s.isDone = false →
      Step T s false { s with wpc := upd s.wpc i .sawNotDone }
  | flagYes (s : State S α) (i : Nat) : s.wpc i = .sawNotDone → s.flag i = true →
      Step T s false { s with mutex := none, wpc := upd s.wpc i .exited }
  | flagNo (s : State S α) (i : Nat) : s.wpc i = .sawNotDone → s.flag i = false →
      Step T s false { s with mutex := none, wpc := upd s.wpc i .blocked }
  | spurious (s : State S α) (i : Nat) : s.wpc i = .blocked →
      Step T s true { s with wpc := upd s.wpc i .lock }
  -- the client: `push`
  | push (s : State S α) (t : Nat) (p : List Op) : s.cpc = .ready → s.prog = .push t :: p →
      Step T s false { s with prog := p, q := s.q ++ [t], cpc := .pushed }
  | pushLock (s : State S α) : s.cpc = .pushed → s.mutex = none →
      Step T s false { s with mutex := some .client, cpc := .notifyOne }
  | notifyWake (s : State S α) (i : Nat) : s.cpc = .notifyOne → s.wpc i = .blocked →
      Step T s false { s with mutex := none, cpc := .ready, wpc := upd s.wpc i .lock }
  | notifyNone (s : State S α) : s.cpc = .notifyOne → (∀ i, s.wpc i ≠ .blocked) →
      Step T s false { s with mutex := none, cpc := .ready }
  -- the client: `future::get`
  | get (s : State S α) (t : Nat) (p : List Op) : s.cpc = .ready → s.prog = .get t :: p →
      t ∈ s.finished.map Prod.fst → Step T s false { s with prog := p }
  -- the client: `stop`
  | stopFalseAgain (s : State S α) (p : List Op) : s.cpc = .ready → s.prog = .stop false :: p →
      s.isStop = true → Step T s false { s with prog := p }
  | stopFalse (s : State S α) (p : List Op) : s.cpc = .ready → s.prog = .stop false :: p →
      s.isStop = false →
      Step T s false { s with prog := p, isStop := true, cpc := .stopFlags 0 }
  | setFlag (s : State S α) (i : Nat) : s.cpc = .stopFlags i → i < s.nThreads →
      Step T s false { s with flag := upd s.flag i true, cpc := .stopFlags (i + 1) }
  | flagsDone (s : State S α) (i : Nat) : s.cpc = .stopFlags i → ¬ i < s.nThreads →
      Step T s false { s with cpc := .stopClear }
  | clear (s : State S α) (t : Nat) (q' : List Nat) : s.cpc = .stopClear → s.q = t :: q' →
      Step T s false { s with q := q', dropped := s.dropped ++ [t] }
  | clearDone (s : State S α) : s.cpc = .stopClear → s.q = [] →
      Step T s false { s with cpc := .stopLock }
  | stopTrueAgain (s : State S α) (p : List Op) : s.cpc = .ready → s.prog = .stop true :: p →
      (s.isDone = true ∨ s.isStop = true) → Step T s false { s with prog := p }
  | stopTrue (s : State S α) (p : List Op) : s.cpc = .ready → s.prog = .stop true :: p →
      s.isDone = false → s.isStop = false →
      Step T s false { s with prog := p, isDone := true, cpc := .stopLock }
  | stopLock (s : State S α) : s.cpc = .stopLock → s.mutex = none →
      Step T s false { s with mutex := some .client, cpc := .stopNotify }
  | notifyAll (s : State S α) : s.cpc = .stopNotify →
      Step T s false { s with mutex := none, cpc := .stopJoin 0,
                              wpc := fun i => if s.wpc i = .blocked then .lock else s.wpc i }
  | join (s : State S α) (i : Nat) : s.cpc = .stopJoin i → i < s.nThreads → s.wpc i = .exited →
      Step T s false { s with cpc := .stopJoin (i + 1) }
  | joinDone (s : State S α) (i : Nat) : s.cpc = .stopJoin i → ¬ i < s.nThreads →
      Step T s false { s with cpc := .stopClear2 }
  | clear2 (s : State S α) (t : Nat) (q' : List Nat) : s.cpc = .stopClear2 → s.q = t :: q' →
      Step T s false { s with q := q', dropped := s.dropped ++ [t] }
  | clear2Done (s : State S α) : s.cpc = .stopClear2 → s.q = [] →
      Step T s false { s with nThreads := 0, cpc := .ready }

/-- Executions: `n` steps, `k` of them spurious wake-ups. -/
inductive Exec (T : Tasks S α) (s₀ : State S α) : Nat → Nat → State S α → Prop where
  | nil : Exec T s₀ 0 0 s₀
  | snoc {n k : Nat} {s s' : State S α} {b : Bool} : Exec T s₀ n k s → Step T s b s' →
      Exec T s₀ (n + 1) (k + b.toNat) s'

/-- The client has finished its program. -/
def Complete (s : State S α) : Prop := s.prog = [] ∧ s.cpc = .ready

/-- The tasks pushed by a program. -/
def pushes : List Op → List Nat
  | [] => []
  | .push t :: p => t :: pushes p
  | _ :: p => pushes p

/-- Programs that use the pool as intended: every task is pushed once, a future is only waited for
after its task was pushed, nothing is pushed or waited for after the first `stop`.  `P` are the
tasks pushed before. -/
def Proper (P : List Nat) : List Op → Prop
  | [] => True
  | .push t :: p => t ∉ P ∧ Proper (t :: P) p
  | .get t :: p => t ∈ P ∧ Proper P p
  | .stop _ :: p => ∀ o ∈ p, ∃ w, o = .stop w

end Stag.Pool
