import Verif.WeightCache
import Mathlib.Algebra.BigOperators.Group.Finset.Basic
import Mathlib.Algebra.Order.BigOperators.Group.Finset
import Mathlib.Tactic.Linarith
import Mathlib.Tactic.Ring

/-!
# C71: the cache of the KDE tree under concurrency
-/

namespace Stag
namespace WCache

/-! ## Specification -/

/-- The node of a tree at the end of a path. -/
def sub : KdeTree → Path → Option KdeTree
  | t, [] => some t
  | .leaf _ _, _ :: _ => none
  | .node _ _ _ l _, false :: p => sub l p
  | .node _ _ _ _ r, true :: p => sub r p

/-- `n` is a node of the tree `root`. -/
def IsNode (root : KdeTree) (n : Node) : Prop := sub root n.path = some n.tree

/-- The cached numbers are weights of the nodes, for the points that belong to the ids. -/
def CacheOk (data : Mat ℝ) (a : ℝ) (root : KdeTree) (point : Int → List ℝ) (c : Path → Int → Option ℝ) : Prop :=
  ∀ p id w, c p id = some w → ∃ t, sub root p = some t ∧ w = t.weight data a (point id)

/-- The clients ask for nodes of the tree, and for each id always with the same point. -/
def ClientOk (root : KdeTree) (point : Int → List ℝ) (client : Nat → List (Call × ℝ) → Option Call) : Prop :=
  ∀ i log c, client i log = some c → IsNode root c.node ∧ c.q = point c.id

/-- Thread `i` is between `lock` and `unlock` of the mutex of the node at `p`. -/
def Inside (s : State) (i : Nat) (p : Path) : Prop :=
  (∃ n, (s.thr i).ctl = .look n ∧ n.path = p) ∨ ∃ n w, (s.thr i).ctl = .write n w ∧ n.path = p

/-- Thread `i` has returned from all its calls and makes no more. -/
def Finished (client : Nat → List (Call × ℝ) → Option Call) (s : State) (i : Nat) : Prop :=
  (s.thr i).cur = none ∧ client i (s.thr i).log = none

/-! ## Nodes -/

theorem sub_append (p p' : Path) : ∀ t : KdeTree, sub t (p ++ p') = (sub t p).bind fun u => sub u p' := by
  induction p with
  | nil => intro t; simp [sub]
  | cons b p ih =>
    intro t
    cases t with
    | leaf lo hi => rfl
    | node lo hi o l r =>
      cases b
      · exact ih l
      · exact ih r

theorem IsNode.left {root : KdeTree} {p : Path} {lo hi : Nat} {o : Option (List ℝ → ℝ)} {l r : KdeTree}
    (h : IsNode root ⟨p, .node lo hi o l r⟩) : IsNode root ⟨p ++ [false], l⟩ := by
  unfold IsNode at h ⊢
  simp only at h ⊢
  rw [sub_append, h]
  simp [sub]

theorem IsNode.right {root : KdeTree} {p : Path} {lo hi : Nat} {o : Option (List ℝ → ℝ)} {l r : KdeTree}
    (h : IsNode root ⟨p, .node lo hi o l r⟩) : IsNode root ⟨p ++ [true], r⟩ := by
  unfold IsNode at h ⊢
  simp only at h ⊢
  rw [sub_append, h]
  simp [sub]

/-! ## Invariant -/

variable {data : Mat ℝ} {a : ℝ} {root : KdeTree} {point : Int → List ℝ}
  {client : Nat → List (Call × ℝ) → Option Call}

/-- The recursive calls inside of which a thread is working on the node `n`. -/
def StackOk (data : Mat ℝ) (a : ℝ) (root : KdeTree) (c : Call) : Node → List Frame → Prop
  | n, [] => n = c.node
  | n, .left m :: st => ∃ lo hi l r, m.tree = .node lo hi none l r ∧ n = ⟨m.path ++ [false], l⟩ ∧ IsNode root m ∧
      StackOk data a root c m st
  | n, .right m lw :: st => ∃ lo hi l r, m.tree = .node lo hi none l r ∧ n = ⟨m.path ++ [true], r⟩ ∧ IsNode root m ∧
      lw = l.weight data a c.q ∧ StackOk data a root c m st

/-- What a thread knows while it works on the node `n`. -/
def CtlOk (data : Mat ℝ) (a : ℝ) (c : Call) (n : Node) : Ctl → Prop
  | .idle => False
  | .call m => m = n
  | .look m => m = n
  | .comp m => m = n
  | .put m w => m = n ∧ w = n.tree.weight data a c.q
  | .write m w => m = n ∧ w = n.tree.weight data a c.q
  | .ret w => w = n.tree.weight data a c.q

/-- A thread between two steps. -/
structure ThreadOk (data : Mat ℝ) (a : ℝ) (root : KdeTree) (point : Int → List ℝ) (t : Thread) : Prop where
  log : ∀ x ∈ t.log, x.2 = x.1.node.tree.weight data a x.1.q
  out : t.cur = none → t.ctl = .idle ∧ t.stack = []
  inn : ∀ c, t.cur = some c → c.q = point c.id ∧ ∃ n, IsNode root n ∧ CtlOk data a c n t.ctl ∧
    StackOk data a root c n t.stack

theorem thread_step {s s' : State} {i : Nat} (hc : ClientOk root point client) (hcache : CacheOk data a root point s.cache)
    (ht : ThreadOk data a root point (s.thr i)) (h : Step data a client i s s') :
    ThreadOk data a root point (s'.thr i) ∧ CacheOk data a root point s'.cache := by
  have hsame : ∀ t, setThr s.thr i t i = t := fun t => if_pos rfl
  cases h with
  | start h hcl =>
    rw [h] at ht
    refine ⟨?_, hcache⟩
    simp only [hsame]
    refine ⟨ht.log, fun hh => absurd hh (by simp), fun c' hc' => ?_⟩
    simp only [Option.some.injEq] at hc'
    subst hc'
    obtain ⟨h1, h2⟩ := hc _ _ _ hcl
    exact ⟨h2, _, h1, rfl, rfl⟩
  | lock1 h hl =>
    rw [h] at ht
    refine ⟨?_, hcache⟩
    simp only [hsame]
    refine ⟨ht.log, fun hh => absurd hh (by simp), fun c' hc' => ?_⟩
    obtain ⟨h1, n, h2, h3, h4⟩ := ht.inn c' hc'
    exact ⟨h1, n, h2, h3, h4⟩
  | hit h hw =>
    rw [h] at ht
    refine ⟨?_, hcache⟩
    simp only [hsame]
    refine ⟨ht.log, fun hh => absurd hh (by simp), fun c' hc' => ?_⟩
    obtain ⟨h1, n, h2, h3, h4⟩ := ht.inn c' hc'
    simp only [Option.some.injEq] at hc'
    subst hc'
    refine ⟨h1, n, h2, ?_, h4⟩
    simp only [CtlOk] at h3 ⊢
    subst h3
    obtain ⟨t, e1, e2⟩ := hcache _ _ _ hw
    unfold IsNode at h2
    rw [h2] at e1
    cases e1
    rw [e2, h1]
  | miss h hw =>
    rw [h] at ht
    refine ⟨?_, hcache⟩
    simp only [hsame]
    refine ⟨ht.log, fun hh => absurd hh (by simp), fun c' hc' => ?_⟩
    obtain ⟨h1, n, h2, h3, h4⟩ := ht.inn c' hc'
    exact ⟨h1, n, h2, h3, h4⟩
  | leaf h =>
    rw [h] at ht
    refine ⟨?_, hcache⟩
    simp only [hsame]
    refine ⟨ht.log, fun hh => absurd hh (by simp), fun c' hc' => ?_⟩
    obtain ⟨h1, n, h2, h3, h4⟩ := ht.inn c' hc'
    simp only [Option.some.injEq] at hc'
    subst hc'
    refine ⟨h1, n, h2, ⟨h3, ?_⟩, h4⟩
    simp only [CtlOk] at h3
    rw [← h3, KdeTree.weight]
  | est h =>
    rw [h] at ht
    refine ⟨?_, hcache⟩
    simp only [hsame]
    refine ⟨ht.log, fun hh => absurd hh (by simp), fun c' hc' => ?_⟩
    obtain ⟨h1, n, h2, h3, h4⟩ := ht.inn c' hc'
    simp only [Option.some.injEq] at hc'
    subst hc'
    refine ⟨h1, n, h2, ⟨h3, ?_⟩, h4⟩
    simp only [CtlOk] at h3
    rw [← h3, KdeTree.weight]
  | goLeft h =>
    rw [h] at ht
    refine ⟨?_, hcache⟩
    simp only [hsame]
    refine ⟨ht.log, fun hh => absurd hh (by simp), fun c' hc' => ?_⟩
    obtain ⟨h1, n, h2, h3, h4⟩ := ht.inn c' hc'
    simp only [CtlOk] at h3
    subst h3
    exact ⟨h1, _, h2.left, rfl, _, _, _, _, rfl, rfl, h2, h4⟩
  | goRight h =>
    rw [h] at ht
    refine ⟨?_, hcache⟩
    simp only [hsame]
    refine ⟨ht.log, fun hh => absurd hh (by simp), fun c' hc' => ?_⟩
    obtain ⟨h1, n, h2, h3, lo, hi, l, r, e1, e2, e3, h4⟩ := ht.inn c' hc'
    simp only [KdeTree.node.injEq] at e1
    obtain ⟨rfl, rfl, rfl, rfl, rfl⟩ := e1
    subst e2
    exact ⟨h1, _, e3.right, rfl, _, _, _, _, rfl, rfl, e3, h3, h4⟩
  | sum h =>
    rw [h] at ht
    refine ⟨?_, hcache⟩
    simp only [hsame]
    refine ⟨ht.log, fun hh => absurd hh (by simp), fun c' hc' => ?_⟩
    obtain ⟨h1, n, h2, h3, lo, hi, l, r, e1, e2, e3, e4, h4⟩ := ht.inn c' hc'
    simp only [CtlOk] at h3
    refine ⟨h1, _, e3, ⟨rfl, ?_⟩, h4⟩
    rw [e1, KdeTree.weight, e4, h3, e2]
  | lock2 h hl =>
    rw [h] at ht
    refine ⟨?_, hcache⟩
    simp only [hsame]
    refine ⟨ht.log, fun hh => absurd hh (by simp), fun c' hc' => ?_⟩
    obtain ⟨h1, n, h2, h3, h4⟩ := ht.inn c' hc'
    exact ⟨h1, n, h2, h3, h4⟩
  | @store c m st log w h =>
    rw [h] at ht
    obtain ⟨h1, n, h2, h3, h4⟩ := ht.inn c rfl
    simp only [CtlOk] at h3
    obtain ⟨rfl, h3⟩ := h3
    constructor
    · simp only [hsame]
      refine ⟨ht.log, fun hh => absurd hh (by simp), fun c' hc' => ?_⟩
      simp only [Option.some.injEq] at hc'
      subst hc'
      exact ⟨h1, _, h2, h3, h4⟩
    · intro p id w' hw'
      simp only [setCache] at hw'
      split_ifs at hw' with he
      · simp only [Option.some.injEq] at hw'
        obtain ⟨rfl, rfl⟩ := he
        exact ⟨_, h2, by rw [← hw', h3, h1]⟩
      · exact hcache p id w' hw'
  | finish h =>
    rw [h] at ht
    refine ⟨?_, hcache⟩
    simp only [hsame]
    refine ⟨fun x hx => ?_, fun _ => ⟨rfl, rfl⟩, fun c' hc' => by cases hc'⟩
    rcases List.mem_append.1 hx with hx | hx
    · exact ht.log x hx
    · obtain ⟨h1, n, h2, h3, h4⟩ := ht.inn _ rfl
      simp only [List.mem_singleton] at hx
      subst hx
      simp only [CtlOk] at h3
      simp only [StackOk] at h4
      rw [h3, h4]

/-- Steps of one thread do not touch the others. -/
theorem step_other {s s' : State} {i j : Nat} (h : Step data a client i s s') (hj : j ≠ i) : s'.thr j = s.thr j := by
  have hne : ∀ t, setThr s.thr i t j = s.thr j := fun t => if_neg hj
  cases h <;> exact hne _

theorem exec_ok {n k : Nat} {c₀ : Path → Int → Option ℝ} {s : State} (hc : ClientOk root point client)
    (hcache : CacheOk data a root point c₀) (h : Exec data a client n (start c₀) k s) :
    (∀ i, ThreadOk data a root point (s.thr i)) ∧ CacheOk data a root point s.cache := by
  induction h with
  | nil =>
    refine ⟨fun i => ⟨fun x hx => ?_, fun _ => ⟨rfl, rfl⟩, fun c hc => ?_⟩, hcache⟩
    · cases hx
    · cases hc
  | @cons k' s1 s2 i _ _ hs ih =>
    obtain ⟨h1, h2⟩ := thread_step hc ih.2 (ih.1 _) hs
    refine ⟨fun j => ?_, h2⟩
    by_cases hj : j = i
    · rw [hj]; exact h1
    · rw [step_other hs hj]; exact ih.1 j

/-- **C71** (transparency).  For every tree, every number of threads, every sequence of calls - which may depend on
earlier results - and every interleaving: each call of `estimate_weight` that has returned has returned the weight of its
node for its point, as if there were no cache and no other thread, and the cache holds only such weights. -/
theorem C71_transparent {n k : Nat} {c₀ : Path → Int → Option ℝ} {s : State} (hc : ClientOk root point client)
    (hcache : CacheOk data a root point c₀) (h : Exec data a client n (start c₀) k s) :
    (∀ i, ∀ x ∈ (s.thr i).log, x.2 = x.1.node.tree.weight data a x.1.q) ∧ CacheOk data a root point s.cache := by
  obtain ⟨h1, h2⟩ := exec_ok hc hcache h
  exact ⟨fun i => (h1 i).log, h2⟩

/-! ## Mutexes -/

/-- A mutex is held exactly by the thread that is inside. -/
def LockOk (s : State) : Prop := ∀ p i, s.lock p = some i ↔ Inside s i p

theorem inside_other {s s' : State} {i j : Nat} {p : Path} (h : Step data a client i s s') (hj : j ≠ i) :
    Inside s' j p ↔ Inside s j p := by
  unfold Inside
  rw [step_other h hj]

/-- The mutex a thread holds. -/
def holds : Ctl → Option Path
  | .look n => some n.path
  | .write n _ => some n.path
  | _ => none

theorem inside_iff {s : State} {i : Nat} {p : Path} : Inside s i p ↔ holds (s.thr i).ctl = some p := by
  unfold Inside
  cases (s.thr i).ctl <;> simp [holds]

theorem lock_step {s s' : State} {i : Nat} (hl : LockOk s) (h : Step data a client i s s') : LockOk s' := by
  have hsame : ∀ t, setThr s.thr i t i = t := fun t => if_pos rfl
  have hl' : ∀ p j, s.lock p = some j ↔ holds (s.thr j).ctl = some p := fun p j => (hl p j).trans inside_iff
  intro p j
  rw [inside_iff]
  by_cases hj : j = i
  · subst hj
    have hp := hl' p j
    cases h with
    | start h _ | leaf h | est h | goLeft h | goRight h | sum h | finish h =>
      rw [h] at hp
      simp only [hsame]
      exact hp
    | lock1 h hfree | lock2 h hfree =>
      rw [h] at hp
      simp only [hsame, setLock, holds, Option.some.injEq, reduceCtorEq, iff_false] at hp ⊢
      split_ifs with he
      · simp [he]
      · simp [hp, Ne.symm he]
    | hit h _ | miss h _ | store h =>
      rw [h] at hp
      simp only [hsame, setLock, holds, Option.some.injEq, reduceCtorEq, iff_false] at hp ⊢
      split_ifs with he
      · simp
      · rw [hp]; exact Ne.symm he
  · rw [step_other h hj, ← hl' p j]
    have hi := hl' p i
    cases h with
    | start h _ | leaf h | est h | goLeft h | goRight h | sum h | finish h => rfl
    | lock1 h hfree | lock2 h hfree =>
      simp only [setLock]
      split_ifs with he
      · subst he
        rw [hfree]
        simp only [Option.some.injEq, reduceCtorEq, iff_false]
        exact fun hh => hj hh.symm
      · rfl
    | hit h _ | miss h _ | store h =>
      rw [h] at hi
      simp only [holds, Option.some.injEq] at hi
      simp only [setLock]
      split_ifs with he
      · rw [hi.2 he.symm]
        simp only [Option.some.injEq, false_iff]
        exact fun hh => hj hh.symm
      · rfl

theorem exec_lock {n k : Nat} {c₀ : Path → Int → Option ℝ} {s : State} (h : Exec data a client n (start c₀) k s) :
    LockOk s := by
  induction h with
  | nil =>
    intro p i
    simp [start, Inside]
  | cons _ _ hs ih => exact lock_step ih hs

/-- **C71** (mutual exclusion).  Never are two threads inside the critical section of the same node, and no thread is
inside two of them. -/
theorem C71_mutual_exclusion {n k : Nat} {c₀ : Path → Int → Option ℝ} {s : State}
    (h : Exec data a client n (start c₀) k s) {i j : Nat} {p p' : Path} :
    (Inside s i p → Inside s j p → i = j) ∧ (Inside s i p → Inside s i p' → p = p') := by
  have hl := exec_lock h
  constructor
  · intro h1 h2
    have e1 := (hl p i).2 h1
    have e2 := (hl p j).2 h2
    rw [e1] at e2
    exact Option.some.inj e2
  · rintro (⟨m, e1, rfl⟩ | ⟨m, w, e1, rfl⟩) (⟨m', e2, rfl⟩ | ⟨m', w', e2, rfl⟩)
    · rw [e1] at e2; cases e2; rfl
    · rw [e1] at e2; cases e2
    · rw [e1] at e2; cases e2
    · rw [e1] at e2; cases e2; rfl

theorem inside_lt {n k : Nat} {c₀ : Path → Int → Option ℝ} {s : State}
    (h : Exec data a client n (start c₀) k s) : ∀ i, n ≤ i → s.thr i = ⟨none, .idle, [], []⟩ := by
  induction h with
  | nil => intro i _; rfl
  | cons _ hi hs ih =>
    intro j hj
    rw [step_other hs (by omega)]
    exact ih j hj

/-- **C71** (no deadlock).  As long as some thread is inside a call or has another call to make, some thread can take a
step. -/
theorem C71_no_deadlock {n k : Nat} {c₀ : Path → Int → Option ℝ} {s : State} (hc : ClientOk root point client)
    (hcache : CacheOk data a root point c₀) (h : Exec data a client n (start c₀) k s) {i : Nat} (hi : i < n)
    (hf : ¬ Finished client s i) : ∃ j < n, ∃ s', Step data a client j s s' := by
  obtain ⟨hok, -⟩ := exec_ok hc hcache h
  have hl := exec_lock h
  have hlt := inside_lt h
  -- a thread inside a critical section can always go on
  have hin : ∀ j p, Inside s j p → ∃ j < n, ∃ s', Step data a client j s s' := by
    intro j p hj
    have hjn : j < n := by
      by_contra hge
      have := hlt j (by omega)
      rcases hj with ⟨m, e, -⟩ | ⟨m, w, e, -⟩ <;> rw [this] at e <;> cases e
    refine ⟨j, hjn, ?_⟩
    cases hcur : (s.thr j).cur with
    | none =>
      have := ((hok j).out hcur).1
      rcases hj with ⟨m, e, -⟩ | ⟨m, w, e, -⟩ <;> rw [this] at e <;> cases e
    | some c =>
      rcases hj with ⟨m, e, -⟩ | ⟨m, w, e, -⟩
      · have hthr : s.thr j = ⟨some c, .look m, (s.thr j).stack, (s.thr j).log⟩ := by rw [← hcur, ← e]
        cases hw : s.cache m.path c.id with
        | none => exact ⟨_, .miss hthr hw⟩
        | some w => exact ⟨_, .hit hthr hw⟩
      · have hthr : s.thr j = ⟨some c, .write m w, (s.thr j).stack, (s.thr j).log⟩ := by rw [← hcur, ← e]
        exact ⟨_, .store hthr⟩
  cases hcur : (s.thr i).cur with
  | none =>
    obtain ⟨e1, e2⟩ := (hok i).out hcur
    cases hcl : client i (s.thr i).log with
    | none => exact absurd ⟨hcur, hcl⟩ hf
    | some c =>
      have hthr : s.thr i = ⟨none, .idle, [], (s.thr i).log⟩ := by rw [← hcur, ← e1, ← e2]
      exact ⟨i, hi, _, .start hthr hcl⟩
  | some c =>
    obtain ⟨-, m, hm, hctl, hst⟩ := (hok i).inn c hcur
    have hthr : ∀ ctl, (s.thr i).ctl = ctl → s.thr i = ⟨some c, ctl, (s.thr i).stack, (s.thr i).log⟩ := by
      intro ctl e
      rw [← hcur, ← e]
    cases hct : (s.thr i).ctl with
    | idle => rw [hct] at hctl; exact hctl.elim
    | call n' =>
      cases hlk : s.lock n'.path with
      | none => exact ⟨i, hi, _, .lock1 (hthr _ hct) hlk⟩
      | some j => exact hin j _ ((hl _ _).1 hlk)
    | look n' => exact hin i _ (.inl ⟨n', hct, rfl⟩)
    | comp n' =>
      obtain ⟨p, t⟩ := n'
      cases t with
      | leaf lo hi' => exact ⟨i, hi, _, .leaf (hthr _ hct)⟩
      | node lo hi' o l r =>
        cases o with
        | none => exact ⟨i, hi, _, .goLeft (hthr _ hct)⟩
        | some e => exact ⟨i, hi, _, .est (hthr _ hct)⟩
    | put n' w =>
      cases hlk : s.lock n'.path with
      | none => exact ⟨i, hi, _, .lock2 (hthr _ hct) hlk⟩
      | some j => exact hin j _ ((hl _ _).1 hlk)
    | write n' w => exact hin i _ (.inr ⟨n', w, hct, rfl⟩)
    | ret w =>
      cases hstk : (s.thr i).stack with
      | nil =>
        have := hthr _ hct
        rw [hstk] at this
        exact ⟨i, hi, _, .finish this⟩
      | cons f st =>
        have hth := hthr _ hct
        rw [hstk] at hth hst
        cases f with
        | left n' =>
          obtain ⟨lo, hi', l, r, e1, -⟩ := hst
          obtain ⟨p, t⟩ := n'
          simp only at e1
          subst e1
          exact ⟨i, hi, _, .goRight hth⟩
        | right n' lw => exact ⟨i, hi, _, .sum hth⟩

/-! ## Termination -/

/-- A bound on the steps of one call. -/
def cost : KdeTree → Nat
  | .leaf _ _ => 6
  | .node _ _ _ l r => cost l + cost r + 6

theorem cost_ge (t : KdeTree) : 6 ≤ cost t := by
  cases t <;> simp only [cost] <;> omega

theorem cost_sub (p : Path) : ∀ (t u : KdeTree), sub t p = some u → cost u ≤ cost t := by
  induction p with
  | nil => intro t u h; simp [sub] at h; rw [h]
  | cons b p ih =>
    intro t u h
    cases t with
    | leaf lo hi => cases h
    | node lo hi o l r =>
      cases b
      · have := ih l u h
        simp only [cost]; omega
      · have := ih r u h
        simp only [cost]; omega

/-- The steps still to do at a place of the program. -/
def ctlWork : Ctl → Nat
  | .idle => 0
  | .call n => cost n.tree
  | .look n => cost n.tree - 1
  | .comp n => cost n.tree - 2
  | .put _ _ => 3
  | .write _ _ => 2
  | .ret _ => 1

/-- The steps still to do after a recursive call. -/
def frameWork : Frame → Nat
  | .left ⟨_, .node _ _ _ _ r⟩ => cost r + 3
  | .left ⟨_, .leaf _ _⟩ => 3
  | .right _ _ => 3

/-- The steps still to do of a thread that makes at most `B` calls. -/
def threadWork (B C : Nat) (t : Thread) : Nat :=
  match t.cur with
  | none => (B - t.log.length) * C
  | some _ => (B - t.log.length - 1) * C + ctlWork t.ctl + (t.stack.map frameWork).sum

theorem work_step {s s' : State} {i B : Nat} (hB : ∀ i log c, client i log = some c → log.length < B)
    (hc : ClientOk root point client) (hlen : (s.thr i).log.length + (if (s.thr i).cur.isSome then 1 else 0) ≤ B)
    (h : Step data a client i s s') :
    threadWork B (cost root + 1) (s'.thr i) < threadWork B (cost root + 1) (s.thr i) ∧
      (s'.thr i).log.length + (if (s'.thr i).cur.isSome then 1 else 0) ≤ B := by
  have hsame : ∀ t, setThr s.thr i t i = t := fun t => if_pos rfl
  cases h with
  | @start log c h hcl =>
    rw [h] at hlen
    simp only [hsame, h, threadWork, ctlWork, List.map_nil, List.sum_nil, Option.isSome]
    have h1 := hB _ _ _ hcl
    have h2 := cost_sub _ _ _ (hc _ _ _ hcl).1
    constructor
    · obtain ⟨d, hd⟩ : ∃ d, B - log.length = d + 1 := ⟨B - log.length - 1, by omega⟩
      rw [hd, Nat.add_sub_cancel, Nat.succ_mul]
      omega
    · simp only [if_true]; omega
  | @lock1 _ n _ _ h _ =>
    rw [h] at hlen
    simp only [hsame, h, threadWork, ctlWork]
    have := cost_ge n.tree
    exact ⟨by omega, hlen⟩
  | @hit _ n _ _ _ h _ =>
    rw [h] at hlen
    simp only [hsame, h, threadWork, ctlWork]
    have := cost_ge n.tree
    exact ⟨by omega, hlen⟩
  | @miss _ n _ _ h _ =>
    rw [h] at hlen
    simp only [hsame, h, threadWork, ctlWork]
    have := cost_ge n.tree
    exact ⟨by omega, hlen⟩
  | leaf h =>
    rw [h] at hlen
    simp only [hsame, h, threadWork, ctlWork, cost]
    exact ⟨by omega, hlen⟩
  | @est _ _ lo hi e l r _ _ h =>
    rw [h] at hlen
    simp only [hsame, h, threadWork, ctlWork, cost]
    exact ⟨by omega, hlen⟩
  | @goLeft _ _ lo hi l r _ _ h =>
    rw [h] at hlen
    simp only [hsame, h, threadWork, ctlWork, cost, List.map_cons, List.sum_cons, frameWork]
    exact ⟨by omega, hlen⟩
  | @goRight _ _ lo hi o l r _ _ _ h =>
    rw [h] at hlen
    simp only [hsame, h, threadWork, ctlWork, List.map_cons, List.sum_cons, frameWork]
    exact ⟨by omega, hlen⟩
  | sum h =>
    rw [h] at hlen
    simp only [hsame, h, threadWork, ctlWork, List.map_cons, List.sum_cons, frameWork]
    exact ⟨by omega, hlen⟩
  | lock2 h _ =>
    rw [h] at hlen
    simp only [hsame, h, threadWork, ctlWork]
    exact ⟨by omega, hlen⟩
  | store h =>
    rw [h] at hlen
    simp only [hsame, h, threadWork, ctlWork]
    exact ⟨by omega, hlen⟩
  | @finish c log w h =>
    rw [h] at hlen
    simp only [hsame, h, threadWork, ctlWork, List.map_nil, List.sum_nil, List.length_append, List.length_singleton,
      Nat.sub_sub]
    simp only [Option.isSome, if_true] at hlen
    refine ⟨by omega, ?_⟩
    simp only [Option.isSome, Bool.false_eq_true, if_false]
    omega

/-- **C71** (termination).  If each of `n` threads makes at most `B` calls, no execution is longer than
`n * B * (cost root + 1)` steps, where `cost root` is six times the number of nodes of the tree: no schedule lets the
threads run for ever. -/
theorem C71_terminates {n k B : Nat} {c₀ : Path → Int → Option ℝ} {s : State} (hc : ClientOk root point client)
    (hB : ∀ i log c, client i log = some c → log.length < B) (h : Exec data a client n (start c₀) k s) :
    k ≤ n * (B * (cost root + 1)) := by
  have key : (k + ∑ i ∈ Finset.range n, threadWork B (cost root + 1) (s.thr i) ≤ n * (B * (cost root + 1))) ∧
      ∀ i, (s.thr i).log.length + (if (s.thr i).cur.isSome then 1 else 0) ≤ B := by
    induction h with
    | nil =>
      refine ⟨?_, fun i => by simp [start]⟩
      rw [Nat.zero_add, Finset.sum_congr rfl (fun i _ => show threadWork B (cost root + 1) ((start c₀).thr i)
        = B * (cost root + 1) by simp [start, threadWork])]
      simp
    | @cons k' s1 s2 i _ hi hs ih =>
      obtain ⟨h1, h2⟩ := ih
      obtain ⟨h3, h4⟩ := work_step hB hc (h2 i) hs
      constructor
      · have hlt : ∑ j ∈ Finset.range n, threadWork B (cost root + 1) (s2.thr j)
            < ∑ j ∈ Finset.range n, threadWork B (cost root + 1) (s1.thr j) := by
          apply Finset.sum_lt_sum
          · intro j _
            by_cases hj : j = i
            · rw [hj]; exact h3.le
            · rw [step_other hs hj]
          · exact ⟨i, Finset.mem_range.2 hi, h3⟩
        omega
      · intro j
        by_cases hj : j = i
        · rw [hj]; exact h4
        · rw [step_other hs hj]; exact h2 j
  omega

/-- **C71** (completion).  An execution that cannot be continued has finished all calls. -/
theorem C71_completes {n k : Nat} {c₀ : Path → Int → Option ℝ} {s : State} (hc : ClientOk root point client)
    (hcache : CacheOk data a root point c₀) (h : Exec data a client n (start c₀) k s)
    (hstuck : ∀ j < n, ∀ s', ¬ Step data a client j s s') : ∀ i < n, Finished client s i := by
  intro i hi
  by_contra hf
  obtain ⟨j, hj, s', hs⟩ := C71_no_deadlock hc hcache h hi hf
  exact hstuck j hj s' hs

/-! ## `estimate_weights` -/

theorem putAll_ok {c : Path → Int → Option ℝ} {rows : List (List ℝ)} {p : Path} {t : KdeTree}
    (hp : sub root p = some t) (hc : CacheOk data a root point c)
    (hrows : ∀ (id : Nat) (q : List ℝ), rows[id]? = some q → point id = q) :
    CacheOk data a root point (putAll c p (rows.map fun q => t.weight data a q)) := by
  intro p' id w hw
  unfold putAll at hw
  split_ifs at hw with h
  · obtain ⟨rfl, h0, h1⟩ := h
    refine ⟨t, hp, ?_⟩
    rw [List.getElem?_map, Option.map_eq_some_iff] at hw
    obtain ⟨q, hq, rfl⟩ := hw
    have := hrows _ _ hq
    rw [Int.toNat_of_nonneg h0] at this
    rw [this]
  · exact hc p' id w hw

/-- **C71** (`estimate_weights`).  The batch computation returns the weight of every row and leaves the cache correct. -/
theorem C71_estimate_weights {rows : List (List ℝ)} (hrows : ∀ (id : Nat) (q : List ℝ), rows[id]? = some q → point id = q) :
    ∀ (t : KdeTree) (p : Path) (c : Path → Int → Option ℝ), sub root p = some t → CacheOk data a root point c →
      (estimateWeights data a rows t p c).1 = rows.map (fun q => t.weight data a q) ∧
      CacheOk data a root point (estimateWeights data a rows t p c).2 := by
  intro t
  induction t with
  | leaf lo hi =>
    intro p c hp hc
    have e : (rows.map fun q => ((hi - lo : Nat) : ℝ) * (((exactOn data a lo hi).query q).getD 0))
        = rows.map fun q => (KdeTree.leaf lo hi).weight data a q := by
      simp only [KdeTree.weight]
    simp only [estimateWeights]
    rw [e]
    exact ⟨rfl, putAll_ok hp hc hrows⟩
  | node lo hi o l r ihl ihr =>
    intro p c hp hc
    cases o with
    | some f =>
      have e : (rows.map fun q => ((hi - lo : Nat) : ℝ) * f q)
          = rows.map fun q => (KdeTree.node lo hi (some f) l r).weight data a q := by
        simp only [KdeTree.weight]
      simp only [estimateWeights]
      rw [e]
      exact ⟨rfl, putAll_ok hp hc hrows⟩
    | none =>
      have hn : IsNode root ⟨p, .node lo hi none l r⟩ := hp
      obtain ⟨l1, l2⟩ := ihl (p ++ [false]) c hn.left hc
      obtain ⟨r1, r2⟩ := ihr (p ++ [true]) _ hn.right l2
      have e : List.zipWith (· + ·) (estimateWeights data a rows l (p ++ [false]) c).1
          (estimateWeights data a rows r (p ++ [true]) (estimateWeights data a rows l (p ++ [false]) c).2).1
          = rows.map fun q => (KdeTree.node lo hi none l r).weight data a q := by
        rw [l1, r1, List.zipWith_map, List.zipWith_self]
        simp only [KdeTree.weight]
      simp only [estimateWeights]
      rw [e]
      exact ⟨rfl, putAll_ok hp r2 hrows⟩

/-- **C71** (the library).  `approximate_similarity_graph` first computes the weights of all rows and then lets any number of
threads ask for rows by their number: all answers are the weights. -/
theorem C71_library {n k : Nat} {rows : List (List ℝ)} {s : State}
    (hcl : ∀ i log c, client i log = some c → IsNode root c.node ∧ ∃ r : Nat, c.id = r ∧ rows[r]? = some c.q)
    (h : Exec data a client n (start (estimateWeights data a rows root [] fun _ _ => none).2) k s) :
    ∀ i, ∀ x ∈ (s.thr i).log, x.2 = x.1.node.tree.weight data a x.1.q := by
  have hr := (C71_estimate_weights (data := data) (a := a) (root := root) (point := fun id => (rows[id.toNat]?).getD [])
    (rows := rows) (fun id q hq => by simp [hq]) root [] (fun _ _ => none) (by simp [sub]) (fun p id w hw => by cases hw)).2
  refine (C71_transparent (point := fun id => (rows[id.toNat]?).getD []) ?_ hr h).1
  intro i log c hc
  obtain ⟨h1, r, h2, h3⟩ := hcl i log c hc
  refine ⟨h1, ?_⟩
  simp [h2, h3]

/-! ## The point must belong to the id -/

/-- A thread that asks twice with the same id, but with different points. -/
noncomputable def twoCalls (t : KdeTree) (q₀ q₁ : List ℝ) : Nat → List (Call × ℝ) → Option Call := fun _ log =>
  match log with
  | [] => some ⟨⟨[], t⟩, 0, q₀⟩
  | [_] => some ⟨⟨[], t⟩, 0, q₁⟩
  | _ => none

/-- **C71** (limits).  The cache knows only the id: asked again with the same id and another point, `estimate_weight`
returns the weight for the first point. -/
theorem C71_stale (data : Mat ℝ) (a : ℝ) (lo hi : Nat) (q₀ q₁ : List ℝ) : ∃ k s,
    Exec data a (twoCalls (.leaf lo hi) q₀ q₁) 1 (start fun _ _ => none) k s ∧
    (s.thr 0).log = [(⟨⟨[], .leaf lo hi⟩, 0, q₀⟩, (KdeTree.leaf lo hi).weight data a q₀),
      (⟨⟨[], .leaf lo hi⟩, 0, q₁⟩, (KdeTree.leaf lo hi).weight data a q₀)] := by
  have h0 : ∀ (f : Nat → Thread) t, setThr f 0 t 0 = t := fun f t => if_pos rfl
  have e0 := Exec.nil (data := data) (a := a) (client := twoCalls (.leaf lo hi) q₀ q₁) (n := 1)
    (s₀ := start fun _ _ => none)
  have e1 := e0.cons (by omega) (.start (i := 0) (log := []) rfl rfl)
  have e2 := e1.cons (by omega) (.lock1 (i := 0) rfl rfl)
  have e3 := e2.cons (by omega) (.miss (i := 0) rfl rfl)
  have e4 := e3.cons (by omega) (.leaf (i := 0) rfl)
  have e5 := e4.cons (by omega) (.lock2 (i := 0) rfl (by simp [setLock]))
  have e6 := e5.cons (by omega) (.store (i := 0) rfl)
  have e7 := e6.cons (by omega) (.finish (i := 0) rfl)
  have e8 := e7.cons (by omega) (.start (i := 0) rfl rfl)
  have e9 := e8.cons (by omega) (.lock1 (i := 0) rfl (by simp [setLock]))
  have e10 := e9.cons (by omega) (.hit (i := 0) rfl (by simp [setCache]; rfl))
  have e11 := e10.cons (by omega) (.finish (i := 0) rfl)
  refine ⟨_, _, e11, ?_⟩
  simp only [h0, List.nil_append, List.cons_append, KdeTree.weight]

/-! ## Concrete -/

/-- A tree of three nodes. -/
def demoTree : KdeTree := .node 0 3 none (.leaf 0 1) (.leaf 2 3)

/-- Every thread asks for the root, and then, with a number that depends on the answer, for the right leaf. -/
noncomputable def demoClient : Nat → List (Call × ℝ) → Option Call := fun _ log =>
  match log with
  | [] => some ⟨⟨[], demoTree⟩, 0, [0]⟩
  | [(_, w)] => some ⟨⟨[true], .leaf 2 3⟩, if 1 < w then 1 else 0, if 1 < w then [1] else [0]⟩
  | _ => none

theorem demoClient_ok : ClientOk demoTree (fun id => [(id : ℝ)]) demoClient ∧
    ∀ i log c, demoClient i log = some c → log.length < 2 := by
  constructor
  · intro i log c h
    unfold demoClient at h
    split at h
    · simp only [Option.some.injEq] at h
      subst h
      exact ⟨by simp [IsNode, sub], by simp⟩
    · simp only [Option.some.injEq] at h
      subst h
      refine ⟨by simp [IsNode, sub, demoTree], ?_⟩
      simp only
      split_ifs <;> simp
    · cases h
  · intro i log c h
    unfold demoClient at h
    split at h
    · simp
    · simp
    · cases h

/-- Three threads: at most 114 steps. -/
example {data : Mat ℝ} {a : ℝ} {k : Nat} {s : State}
    (h : Exec data a demoClient 3 (start fun _ _ => none) k s) : k ≤ 114 := by
  have := C71_terminates demoClient_ok.1 demoClient_ok.2 h
  simpa [demoTree, cost] using this

end WCache
end Stag
