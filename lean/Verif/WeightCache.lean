import Verif.Similarity

/-!
# Model of `stag_lib/cluster.cpp`: the cached weights of the KDE tree

Several threads call `estimate_weight` on the nodes of one tree (`sample_asg_edges` runs in the thread pool).  Every node
has a map of cached weights and a mutex.  A state of the system is the state of the mutexes, the maps and the threads;
each action of a thread is a step and any thread may take the next step.
-/

namespace Stag
namespace WCache

/-- The way from the root to a node: `false` for the left child. -/
abbrev Path := List Bool

/-- A pointer to a node: where it is, and the node. -/
structure Node where
  path : Path
  tree : KdeTree

/-- One call of `estimate_weight(q, q_id)` on a node. -/
structure Call where
  node : Node
  id : Int
  q : List ℝ

/-- Where a thread is in `estimate_weight` (`stag_lib/cluster.cpp:674-702`). -/
inductive Ctl where
  /-- Not in a call. -/
  | idle
  /-- Line 676: before `cache_mutex.lock()`. -/
  | call (n : Node)
  /-- Line 677: the mutex is locked, before the look-up. -/
  | look (n : Node)
  /-- Line 679: the weight was not there, the mutex is unlocked again. -/
  | comp (n : Node)
  /-- Line 692: the weight is computed, before the second `cache_mutex.lock()`. -/
  | put (n : Node) (w : ℝ)
  /-- Line 693: the mutex is locked. -/
  | write (n : Node) (w : ℝ)
  /-- Line 701: returning. -/
  | ret (w : ℝ)

/-- What remains to be done after a recursive call (line 686). -/
inductive Frame where
  | left (n : Node)
  | right (n : Node) (leftWeight : ℝ)

/-- A thread: the call it is in (with the point and its id), where it is, the recursive calls it is inside of, and the
calls that have returned, with their results. -/
structure Thread where
  cur : Option Call
  ctl : Ctl
  stack : List Frame
  log : List (Call × ℝ)

/-- Mutexes, maps, threads. -/
structure State where
  lock : Path → Option Nat
  cache : Path → Int → Option ℝ
  thr : Nat → Thread

/-- Change one mutex. -/
def setLock (l : Path → Option Nat) (p : Path) (o : Option Nat) : Path → Option Nat := fun p' => if p' = p then o else l p'

/-- `cached_weights[q_id] = weight`. -/
def setCache (c : Path → Int → Option ℝ) (p : Path) (id : Int) (w : ℝ) : Path → Int → Option ℝ :=
  fun p' id' => if p' = p ∧ id' = id then some w else c p' id'

/-- Change one thread. -/
def setThr (f : Nat → Thread) (i : Nat) (t : Thread) : Nat → Thread := fun j => if j = i then t else f j

/-- One action of thread `i` (`stag_lib/cluster.cpp:674-702`).  What each thread calls next may depend on all its earlier
calls and their results: `client i log`.  A step that cannot be taken (a mutex held by somebody) is missing: the thread
waits.  Releasing a mutex is part of the action before it.  C++ leaves open which operand of the sum in line 686 is
evaluated first; the model takes the left one. -/
inductive Step (data : Mat ℝ) (a : ℝ) (client : Nat → List (Call × ℝ) → Option Call) (i : Nat) : State → State → Prop
  /-- The next call. -/
  | start {s log c} (h : s.thr i = ⟨none, .idle, [], log⟩) (hc : client i log = some c) :
      Step data a client i s ⟨s.lock, s.cache, setThr s.thr i ⟨some c, .call c.node, [], log⟩⟩
  /-- Line 676. -/
  | lock1 {s c n st log} (h : s.thr i = ⟨some c, .call n, st, log⟩) (hl : s.lock n.path = none) :
      Step data a client i s ⟨setLock s.lock n.path (some i), s.cache, setThr s.thr i ⟨some c, .look n, st, log⟩⟩
  /-- Lines 697-698: the weight is there. -/
  | hit {s c n st log w} (h : s.thr i = ⟨some c, .look n, st, log⟩) (hw : s.cache n.path c.id = some w) :
      Step data a client i s ⟨setLock s.lock n.path none, s.cache, setThr s.thr i ⟨some c, .ret w, st, log⟩⟩
  /-- Line 678. -/
  | miss {s c n st log} (h : s.thr i = ⟨some c, .look n, st, log⟩) (hw : s.cache n.path c.id = none) :
      Step data a client i s ⟨setLock s.lock n.path none, s.cache, setThr s.thr i ⟨some c, .comp n, st, log⟩⟩
  /-- Line 689: a leaf. -/
  | leaf {s c p lo hi st log} (h : s.thr i = ⟨some c, .comp ⟨p, .leaf lo hi⟩, st, log⟩) :
      Step data a client i s ⟨s.lock, s.cache, setThr s.thr i
        ⟨some c, .put ⟨p, .leaf lo hi⟩ (((hi - lo : Nat) : ℝ) * (((exactOn data a lo hi).query c.q).getD 0)), st, log⟩⟩
  /-- Line 682: a node with an estimator. -/
  | est {s c p lo hi e l r st log} (h : s.thr i = ⟨some c, .comp ⟨p, .node lo hi (some e) l r⟩, st, log⟩) :
      Step data a client i s ⟨s.lock, s.cache, setThr s.thr i
        ⟨some c, .put ⟨p, .node lo hi (some e) l r⟩ (((hi - lo : Nat) : ℝ) * e c.q), st, log⟩⟩
  /-- Line 686: the call for the left child. -/
  | goLeft {s c p lo hi l r st log} (h : s.thr i = ⟨some c, .comp ⟨p, .node lo hi none l r⟩, st, log⟩) :
      Step data a client i s ⟨s.lock, s.cache, setThr s.thr i
        ⟨some c, .call ⟨p ++ [false], l⟩, .left ⟨p, .node lo hi none l r⟩ :: st, log⟩⟩
  /-- Line 686: the call for the right child. -/
  | goRight {s c p lo hi o l r st log w} (h : s.thr i = ⟨some c, .ret w, .left ⟨p, .node lo hi o l r⟩ :: st, log⟩) :
      Step data a client i s ⟨s.lock, s.cache, setThr s.thr i
        ⟨some c, .call ⟨p ++ [true], r⟩, .right ⟨p, .node lo hi o l r⟩ w :: st, log⟩⟩
  /-- Line 686: the sum. -/
  | sum {s c n st log w lw} (h : s.thr i = ⟨some c, .ret w, .right n lw :: st, log⟩) :
      Step data a client i s ⟨s.lock, s.cache, setThr s.thr i ⟨some c, .put n (lw + w), st, log⟩⟩
  /-- Line 692. -/
  | lock2 {s c n st log w} (h : s.thr i = ⟨some c, .put n w, st, log⟩) (hl : s.lock n.path = none) :
      Step data a client i s ⟨setLock s.lock n.path (some i), s.cache, setThr s.thr i ⟨some c, .write n w, st, log⟩⟩
  /-- Lines 693-694. -/
  | store {s c n st log w} (h : s.thr i = ⟨some c, .write n w, st, log⟩) :
      Step data a client i s ⟨setLock s.lock n.path none, setCache s.cache n.path c.id w,
        setThr s.thr i ⟨some c, .ret w, st, log⟩⟩
  /-- The call returns to the client. -/
  | finish {s c log w} (h : s.thr i = ⟨some c, .ret w, [], log⟩) :
      Step data a client i s ⟨s.lock, s.cache, setThr s.thr i ⟨none, .idle, [], log ++ [(c, w)]⟩⟩

/-- `n` threads before their first call. -/
def start (cache : Path → Int → Option ℝ) : State := ⟨fun _ => none, cache, fun _ => ⟨none, .idle, [], []⟩⟩

/-- Executions of `n` threads, of a given length. -/
inductive Exec (data : Mat ℝ) (a : ℝ) (client : Nat → List (Call × ℝ) → Option Call) (n : Nat) (s₀ : State) :
    Nat → State → Prop
  | nil : Exec data a client n s₀ 0 s₀
  | cons {k s s' i} : Exec data a client n s₀ k s → i < n → Step data a client i s s' →
      Exec data a client n s₀ (k + 1) s'

/-- The loop at the end of `estimate_weights` (`stag_lib/cluster.cpp:736-738`): `cached_weights[q_id] = weights.at(q_id)`
for all ids. -/
def putAll (c : Path → Int → Option ℝ) (p : Path) (ws : List ℝ) : Path → Int → Option ℝ :=
  fun p' id => if p' = p ∧ 0 ≤ id ∧ id < ws.length then ws[id.toNat]? else c p' id

/-- `estimate_weights(q)` (`stag_lib/cluster.cpp:704-745`) on the node at `p`: the weights and the new contents of the
maps.  The batch queries answer like the single ones (C47).  It runs before the tasks, in one thread, without the
mutex. -/
noncomputable def estimateWeights (data : Mat ℝ) (a : ℝ) (rows : List (List ℝ)) :
    KdeTree → Path → (Path → Int → Option ℝ) → List ℝ × (Path → Int → Option ℝ)
  | .leaf lo hi, p, c =>
    let ws := rows.map fun q => ((hi - lo : Nat) : ℝ) * (((exactOn data a lo hi).query q).getD 0)
    (ws, putAll c p ws)
  | .node lo hi (some e) _ _, p, c =>
    let ws := rows.map fun q => ((hi - lo : Nat) : ℝ) * e q
    (ws, putAll c p ws)
  | .node _ _ none l r, p, c =>
    let x := estimateWeights data a rows l (p ++ [false]) c
    let y := estimateWeights data a rows r (p ++ [true]) x.2
    let ws := List.zipWith (· + ·) x.1 y.1
    (ws, putAll y.2 p ws)

end WCache
end Stag
