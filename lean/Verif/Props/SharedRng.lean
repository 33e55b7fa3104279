import Verif.Props.ThreadPool

/-!
# C60: the worker tasks share one random generator without a lock

`stag::get_global_rng()` (`stag_lib/random.cpp:10-15`) returns one global generator.  It is used
inside pool tasks: by the hash units of the CKNS estimator with more than 3000 sampled points
(`stag_lib/kde.cpp:225` → `stag_lib/lsh.cpp:112-122`) and by the edge samplers of
`approximate_similarity_graph` (`stag_lib/cluster.cpp:747,758,802`).  Unsynchronised concurrent use is
a data race, undefined in C++; here a draw is modelled as reading the state of the generator and
writing back the next state.
-/

namespace Stag

open Pool

/-- The generator and, for each task, the state it read (its random number is a function of it). -/
structure RngMem where
  gen : Nat
  read : Nat → Option Nat

/-- Tasks that draw one random number each, reading and then writing the global generator
(`stag_lib/random.cpp:13-15`, `stag_lib/lsh.cpp:117`); `next` is the transition of the generator. -/
def drawTasks (next : Nat → Nat) : Tasks RngMem Unit where
  acts := fun t => [fun m => { m with read := upd m.read t (some m.gen) },
    fun m => { m with gen := next ((m.read t).getD 0) }]
  val := fun _ _ => ()

/-- **C60** (overlap).  With at least two workers and two tasks, whatever the tasks do, a state is
reachable in which two workers are inside two different tasks at the same time, at their first
actions. -/
theorem C60_overlap {S α : Type} (T : Tasks S α) (N : Nat) (hN : 2 ≤ N) (S₀ : S) (n : Nat)
    (hn : 2 ≤ n) (ws : List Bool) :
    ∃ m s, Exec T (init N S₀ (libProg n ws)) m 0 s ∧ s.wpc 0 = .running 0 0 ∧
      s.wpc 1 = .running 1 0 := by
  obtain ⟨k, rfl⟩ : ∃ k, n = k + 2 := ⟨n - 2, by omega⟩
  obtain ⟨p, hp⟩ : ∃ p, libProg (k + 2) ws = .push 0 :: .push 1 :: p := by
    unfold libProg
    rw [List.range_succ_eq_map, List.range_succ_eq_map]
    simp only [List.map_cons, List.cons_append]
    exact ⟨_, rfl⟩
  have e1 : Exec T (init N S₀ (libProg (k + 2) ws)) 1 0 _ :=
    Exec.nil.snoc (.push _ 0 (.push 1 :: p) rfl (by rw [hp]; rfl))
  have e2 := e1.snoc (.pushLock _ rfl rfl)
  have e3 := e2.snoc (.notifyNone _ rfl (by intro i; simp only [init]; split_ifs <;> simp))
  have e4 := e3.snoc (.push _ 1 p rfl rfl)
  have e5 := e4.snoc (.pushLock _ rfl rfl)
  have e6 := e5.snoc (.notifyNone _ rfl (by intro i; simp only [init]; split_ifs <;> simp))
  have e7 := e6.snoc (.popSome _ 0 0 [1] (by simp only [init]; rw [if_pos (by omega)]) rfl)
  have e8 := e7.snoc (.popSome _ 1 1 [] (by simp only [init, upd]; simp; omega) rfl)
  refine ⟨_, _, e8, ?_, ?_⟩
  · simp [upd]
  · simp [upd]

/-- **C60** (equal draws).  With at least two workers, two tasks that each draw one number from the
global generator can be scheduled so that both read the same state of the generator: they get the
same "random" number, and the program completes normally. -/
theorem C60_same_draw (next : Nat → Nat) (N : Nat) (hN : 2 ≤ N) (g : Nat) (ws : List Bool) :
    ∃ m s, Exec (drawTasks next) (init N ⟨g, fun _ => none⟩ (libProg 2 ws)) m 0 s ∧ Complete s ∧
      s.shared.read 0 = some g ∧ s.shared.read 1 = some g ∧ s.shared.gen = next g := by
  obtain ⟨p, hp, hnp⟩ : ∃ p, libProg 2 ws = .push 0 :: .push 1 :: p ∧ ∀ t, Op.push t ∉ p := by
    refine ⟨[.get 0, .get 1] ++ ws.map .stop, rfl, ?_⟩
    intro t
    simp
  have e1 : Exec (drawTasks next) (init N ⟨g, fun _ => none⟩ (libProg 2 ws)) 1 0 _ :=
    Exec.nil.snoc (.push _ 0 (.push 1 :: p) rfl (by rw [hp]; rfl))
  have e2 := e1.snoc (.pushLock _ rfl rfl)
  have e3 := e2.snoc (.notifyNone _ rfl (by intro i; simp only [init]; split_ifs <;> simp))
  have e4 := e3.snoc (.push _ 1 p rfl rfl)
  have e5 := e4.snoc (.pushLock _ rfl rfl)
  have e6 := e5.snoc (.notifyNone _ rfl (by intro i; simp only [init]; split_ifs <;> simp))
  have e7 := e6.snoc (.popSome _ 0 0 [1] (by simp only [init]; rw [if_pos (by omega)]) rfl)
  have e8 := e7.snoc (.popSome _ 1 1 [] (by simp only [init, upd]; simp; omega) rfl)
  have e9 := e8.snoc (.act _ 0 0 0 _ (by simp [upd]) rfl)
  have e10 := e9.snoc (.act _ 1 1 0 _ (by simp [upd]) rfl)
  have e11 := e10.snoc (.act _ 0 0 1 _ (by simp [upd]) rfl)
  have e12 := e11.snoc (.act _ 1 1 1 _ (by simp [upd]) rfl)
  have hpr : Proper [] (libProg 2 ws) := proper_libProg 2 ws
  obtain ⟨m, s', h', hc⟩ := C56_completes (by omega) hpr e12
  refine ⟨_, s', e12.trans h', hc, ?_⟩
  -- from here on no draw happens any more
  have keep : ∀ {s₁ s₂ : State RngMem Unit} {a b : Nat}, Exec (drawTasks next) s₁ a b s₂ →
      ((∀ t, Op.push t ∉ s₁.prog) ∧ s₁.q = [] ∧ ∀ i t k, s₁.wpc i = .running t k → 2 ≤ k) →
      ((∀ t, Op.push t ∉ s₂.prog) ∧ s₂.q = [] ∧ (∀ i t k, s₂.wpc i = .running t k → 2 ≤ k)) ∧
        s₂.shared = s₁.shared := by
    intro s₁ s₂ a b h hs
    induction h with
    | nil => exact ⟨hs, rfl⟩
    | snoc _ st ih =>
      obtain ⟨⟨h1, h2, h3⟩, h4⟩ := ih
      cases st <;> refine ⟨⟨?_, ?_, ?_⟩, ?_⟩ <;> simp only [] <;> try grind [upd]
      all_goals
        rename_i hr hf
        have := h3 _ _ _ hr
        rw [List.getElem?_eq_none (by simp [drawTasks]; omega)] at hf
        cases hf
  obtain ⟨-, h4⟩ := keep h' (by
    refine ⟨hnp, rfl, ?_⟩
    intro i t k hi
    simp only [upd, init] at hi
    grind)
  rw [h4]
  simp [upd, drawTasks, init]

/-- Four workers. -/
example : ∃ m s, Exec (drawTasks (fun g => g + 1)) (init 4 ⟨7, fun _ => none⟩ (libProg 2 [true])) m 0 s
    ∧ Complete s ∧ s.shared.read 0 = some 7 ∧ s.shared.read 1 = some 7 ∧ s.shared.gen = 8 :=
  C60_same_draw _ 4 (by omega) 7 [true]

end Stag
