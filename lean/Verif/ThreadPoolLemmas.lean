import Verif.ThreadPool
import Mathlib.Algebra.Order.BigOperators.Group.Finset

/-!
# Invariants of the thread pool
-/

namespace Stag.Pool

variable {S α : Type} {T : Tasks S α}

@[simp] theorem upd_same {β : Type} (f : Nat → β) (i : Nat) (b : β) : upd f i b i = b := by
  simp [upd]

theorem upd_ne {β : Type} (f : Nat → β) {i j : Nat} (b : β) (h : j ≠ i) : upd f i b j = f j := by
  simp [upd, h]

theorem sum_upd (g : WPc → Nat) (f : Nat → WPc) {i N : Nat} (b : WPc) (h : i < N) :
    ∑ j ∈ Finset.range N, g (upd f i b j) + g (f i) = ∑ j ∈ Finset.range N, g (f j) + g b := by
  have hi : i ∈ Finset.range N := Finset.mem_range.2 h
  rw [← Finset.add_sum_erase _ _ hi, ← Finset.add_sum_erase _ (fun j => g (f j)) hi]
  have : ∑ x ∈ (Finset.range N).erase i, g (upd f i b x)
      = ∑ x ∈ (Finset.range N).erase i, g (f x) := by
    apply Finset.sum_congr rfl
    intro x hx
    rw [upd_ne _ _ (Finset.ne_of_mem_erase hx)]
  simp only [upd_same, this]
  omega

/-! ## Mutual exclusion -/

/-- The worker owns the mutex. -/
def WPc.holds : WPc → Bool
  | .test | .sawEmpty | .sawNotDone => true
  | _ => false

/-- The client owns the mutex. -/
def CPc.holds : CPc → Bool
  | .notifyOne | .stopNotify => true
  | _ => false

structure MutexOk (m : Option Who) (w : Nat → WPc) (c : CPc) : Prop where
  worker : ∀ i, m = some (.worker i) ↔ (w i).holds = true
  client : m = some .client ↔ c.holds = true

namespace MutexOk
variable {m : Option Who} {w : Nat → WPc} {c : CPc}

theorem wkeep (h : MutexOk m w c) {i : Nat} {b : WPc} (e : (w i).holds = b.holds) :
    MutexOk m (upd w i b) c := by
  refine ⟨fun j => ?_, h.client⟩
  rw [h.worker j]
  by_cases hj : j = i
  · subst hj; rw [upd_same, e]
  · rw [upd_ne _ _ hj]

theorem ckeep (h : MutexOk m w c) {c' : CPc} (e : c.holds = c'.holds) : MutexOk m w c' :=
  ⟨h.worker, by rw [h.client, e]⟩

theorem wacq (h : MutexOk none w c) {i : Nat} {b : WPc} (e : b.holds = true) :
    MutexOk (some (.worker i)) (upd w i b) c := by
  refine ⟨fun j => ?_, ?_⟩
  · have := h.worker j
    by_cases hj : j = i
    · subst hj; rw [upd_same, e]; simp
    · rw [upd_ne _ _ hj, ← this]
      simp only [Option.some.injEq, Who.worker.injEq, reduceCtorEq, iff_false]
      exact fun x => hj x.symm
  · have := h.client
    rw [← this]; simp

theorem cacq (h : MutexOk none w c) {c' : CPc} (e : c'.holds = true) :
    MutexOk (some .client) w c' := by
  refine ⟨fun j => ?_, ?_⟩
  · rw [← h.worker j]; simp
  · rw [e]; simp

theorem wrel (h : MutexOk m w c) {i : Nat} {b : WPc} (e : (w i).holds = true)
    (e' : b.holds = false) : MutexOk none (upd w i b) c := by
  have hi := (h.worker i).2 e
  subst hi
  refine ⟨fun j => ?_, ?_⟩
  · by_cases hj : j = i
    · subst hj; rw [upd_same, e']; simp
    · rw [upd_ne _ _ hj, ← h.worker j]
      simp only [reduceCtorEq, Option.some.injEq, Who.worker.injEq, false_iff]
      exact fun x => hj x.symm
  · rw [← h.client]; simp

theorem crel (h : MutexOk m w c) {c' : CPc} (e : c.holds = true) (e' : c'.holds = false) :
    MutexOk none w c' := by
  have hi := h.client.2 e
  subst hi
  refine ⟨fun j => ?_, ?_⟩
  · rw [← h.worker j]; simp
  · rw [e']; simp

theorem wall (h : MutexOk m w c) {w' : Nat → WPc} (e : ∀ i, (w i).holds = (w' i).holds) :
    MutexOk m w' c := ⟨fun i => by rw [h.worker i, e i], h.client⟩

end MutexOk

theorem mutexOk_init (N : Nat) (S₀ : S) (p : List Op) :
    MutexOk (init N S₀ p : State S α).mutex (init N S₀ p : State S α).wpc
      (init N S₀ p : State S α).cpc := by
  refine ⟨fun i => ?_, ?_⟩
  · simp only [init]; split_ifs <;> simp [WPc.holds]
  · simp [init, CPc.holds]

theorem mutexOk_step {s s' : State S α} {b : Bool} (h : MutexOk s.mutex s.wpc s.cpc)
    (st : Step T s b s') : MutexOk s'.mutex s'.wpc s'.cpc := by
  cases st with
  | popSome i t q' hw _ => exact h.wkeep (by rw [hw]; rfl)
  | popNone i hw _ => exact h.wkeep (by rw [hw]; rfl)
  | act i t k f hw _ => exact h.wkeep (by rw [hw]; rfl)
  | fin i t k hw _ => exact h.wkeep (by rw [hw]; rfl)
  | ranStop i hw _ => exact h.wkeep (by rw [hw]; rfl)
  | ranLoop i hw _ => exact h.wkeep (by rw [hw]; rfl)
  | wLock i hw hm => rw [hm] at h; exact h.wacq rfl
  | testSome i t q' hw _ => exact h.wrel (by rw [hw]; rfl) rfl
  | testNone i hw _ => exact h.wkeep (by rw [hw]; rfl)
  | doneYes i hw _ => exact h.wrel (by rw [hw]; rfl) rfl
  | doneNo i hw _ => exact h.wkeep (by rw [hw]; rfl)
  | flagYes i hw _ => exact h.wrel (by rw [hw]; rfl) rfl
  | flagNo i hw _ => exact h.wrel (by rw [hw]; rfl) rfl
  | spurious i hw => exact h.wkeep (by rw [hw]; rfl)
  | push t p hc _ => exact h.ckeep (by rw [hc]; rfl)
  | pushLock hc hm => rw [hm] at h; exact h.cacq rfl
  | notifyWake i hc hw => exact (h.crel (c' := .ready) (by rw [hc]; rfl) rfl).wkeep (by rw [hw]; rfl)
  | notifyNone hc _ => exact h.crel (by rw [hc]; rfl) rfl
  | get t p hc _ _ => exact h
  | stopFalseAgain p hc _ _ => exact h
  | stopFalse p hc _ _ => exact h.ckeep (by rw [hc]; rfl)
  | setFlag i hc _ => exact h.ckeep (by rw [hc]; rfl)
  | flagsDone i hc _ => exact h.ckeep (by rw [hc]; rfl)
  | clear t q' hc _ => exact h
  | clearDone hc _ => exact h.ckeep (by rw [hc]; rfl)
  | stopTrueAgain p hc _ _ => exact h
  | stopTrue p hc _ _ _ => exact h.ckeep (by rw [hc]; rfl)
  | stopLock hc hm => rw [hm] at h; exact h.cacq rfl
  | notifyAll hc =>
    refine (h.crel (c' := .stopJoin 0) (by rw [hc]; rfl) rfl).wall (fun i => ?_)
    by_cases hb : s.wpc i = .blocked
    · simp only [hb, if_true]; rfl
    · simp only [if_neg hb]
  | join i hc _ _ => exact h.ckeep (by rw [hc]; rfl)
  | joinDone i hc _ => exact h.ckeep (by rw [hc]; rfl)
  | clear2 t q' hc _ => exact h
  | clear2Done hc _ => exact h.ckeep (by rw [hc]; rfl)

/-- The mutex invariant and what it says about pairs of threads. -/
theorem MutexOk.free {m : Option Who} {w : Nat → WPc} {c : CPc} (h : MutexOk m w c)
    (hc : c.holds = true) (i : Nat) : (w i).holds = false := by
  by_contra hw
  have hw : (w i).holds = true := by simpa using hw
  have h1 := h.client.2 hc
  have h2 := (h.worker i).2 hw
  rw [h1] at h2; cases h2

theorem MutexOk.none_free {w : Nat → WPc} {c : CPc} (h : MutexOk none w c) (i : Nat) :
    (w i).holds = false := by
  by_contra hw
  have hw : (w i).holds = true := by simpa using hw
  have h2 := (h.worker i).2 hw
  cases h2

/-! ## Accounting: where every task is -/

def WPc.runs (t : Nat) : WPc → Nat
  | .running u _ => if u = t then 1 else 0
  | _ => 0

/-- The number of workers running task `t`. -/
def runCount (N : Nat) (w : Nat → WPc) (t : Nat) : Nat := ∑ i ∈ Finset.range N, (w i).runs t

/-- Every pushed task is in exactly one place: queue, worker, finished, deleted. -/
structure Account (N : Nat) (prog₀ : List Op) (s : State S α) (P : List Nat) : Prop where
  out : ∀ i, N ≤ i → s.wpc i = .exited
  nodup : P.Nodup
  proper : Proper P s.prog
  count : ∀ t, s.q.count t + runCount N s.wpc t + (s.finished.map Prod.fst).count t
    + s.dropped.count t = P.count t
  total : ∀ t, P.count t + (pushes s.prog).count t = (pushes prog₀).count t

theorem runCount_upd {N : Nat} {w : Nat → WPc} {i : Nat} (hi : i < N) (b : WPc) (t : Nat) :
    runCount N (upd w i b) t + (w i).runs t = runCount N w t + b.runs t :=
  sum_upd (WPc.runs t) w b hi

theorem account_init (N : Nat) (S₀ : S) (p : List Op) (hp : Proper [] p) :
    Account N p (init N S₀ p : State S α) [] := by
  refine ⟨fun i hi => ?_, List.nodup_nil, hp, fun t => ?_, fun t => ?_⟩
  · simp only [init]; rw [if_neg (by omega)]
  · have : runCount N (init N S₀ p : State S α).wpc t = 0 := by
      unfold runCount
      apply Finset.sum_eq_zero
      intro i hi
      simp only [init]; split_ifs <;> rfl
    rw [this]; simp [init]
  · simp [init]

theorem proper_stops {P : List Nat} {p : List Op} (h : ∀ o ∈ p, ∃ w, o = Op.stop w) :
    Proper P p ∧ pushes p = [] := by
  induction p with
  | nil => exact ⟨trivial, rfl⟩
  | cons o p ih =>
    obtain ⟨w, rfl⟩ := h o (by simp)
    have h' : ∀ o ∈ p, ∃ w, o = Op.stop w := fun o ho => h o (by simp [ho])
    exact ⟨h', (ih h').2⟩

theorem account_step {N : Nat} {prog₀ : List Op} {s s' : State S α} {b : Bool} {P : List Nat}
    (h : Account N prog₀ s P) (st : Step T s b s') : ∃ P', Account N prog₀ s' P' := by
  obtain ⟨ho, hn, hp, hc, ht⟩ := h
  have lt : ∀ {i : Nat} {x : WPc}, s.wpc i = x → x ≠ .exited → i < N := by
    intro i x hx hne
    by_contra hle
    exact hne (hx.symm.trans (ho i (by omega)))
  -- a worker moves without changing what it runs
  have out' : ∀ {i : Nat} {x y : WPc}, s.wpc i = x → x ≠ .exited → ∀ j, N ≤ j →
      upd s.wpc i y j = .exited := by
    intro i x y hx hne j hj
    rw [upd_ne _ _ (by have := lt hx hne; omega)]
    exact ho j hj
  have same : ∀ {i : Nat} {x y : WPc}, s.wpc i = x → x ≠ .exited → (∀ t, x.runs t = y.runs t) →
      ∀ t, runCount N (upd s.wpc i y) t = runCount N s.wpc t := by
    intro i x y hx hne hr t
    have := runCount_upd (w := s.wpc) (lt hx hne) y t
    rw [hx, hr t] at this
    omega
  cases st with
  | popSome i t q' hw hq =>
    refine ⟨P, out' hw (by simp), hn, hp, fun u => ?_, ht⟩
    have h1 := runCount_upd (w := s.wpc) (lt hw (by simp)) (.running t 0) u
    have h2 := hc u
    simp only [hw, WPc.runs, hq, List.count_cons, beq_iff_eq] at h1 h2 ⊢
    omega
  | popNone i hw hq =>
    exact ⟨P, out' hw (by simp), hn, hp, fun u => by
      simp only [same hw (by simp) (y := .lock) (fun _ => rfl)]; exact hc u, ht⟩
  | act i t k f hw hf =>
    exact ⟨P, out' hw (by simp), hn, hp, fun u => by
      simp only [same hw (by simp) (y := .running t (k + 1)) (fun _ => rfl)]; exact hc u, ht⟩
  | fin i t k hw hk =>
    refine ⟨P, out' hw (by simp), hn, hp, fun u => ?_, ht⟩
    have h1 := runCount_upd (w := s.wpc) (lt hw (by simp)) .ran u
    have h2 := hc u
    simp only [hw, WPc.runs, List.map_append, List.map_cons, List.map_nil, List.count_append,
      List.count_cons, List.count_nil, beq_iff_eq] at h1 h2 ⊢
    omega
  | ranStop i hw hf =>
    exact ⟨P, out' hw (by simp), hn, hp, fun u => by
      simp only [same hw (by simp) (y := .exited) (fun _ => rfl)]; exact hc u, ht⟩
  | ranLoop i hw hf =>
    exact ⟨P, out' hw (by simp), hn, hp, fun u => by
      simp only [same hw (by simp) (y := .pop) (fun _ => rfl)]; exact hc u, ht⟩
  | wLock i hw hm =>
    exact ⟨P, out' hw (by simp), hn, hp, fun u => by
      simp only [same hw (by simp) (y := .test) (fun _ => rfl)]; exact hc u, ht⟩
  | testSome i t q' hw hq =>
    refine ⟨P, out' hw (by simp), hn, hp, fun u => ?_, ht⟩
    have h1 := runCount_upd (w := s.wpc) (lt hw (by simp)) (.running t 0) u
    have h2 := hc u
    simp only [hw, WPc.runs, hq, List.count_cons, beq_iff_eq] at h1 h2 ⊢
    omega
  | testNone i hw hq =>
    exact ⟨P, out' hw (by simp), hn, hp, fun u => by
      simp only [same hw (by simp) (y := .sawEmpty) (fun _ => rfl)]; exact hc u, ht⟩
  | doneYes i hw hf =>
    exact ⟨P, out' hw (by simp), hn, hp, fun u => by
      simp only [same hw (by simp) (y := .exited) (fun _ => rfl)]; exact hc u, ht⟩
  | doneNo i hw hf =>
    exact ⟨P, out' hw (by simp), hn, hp, fun u => by
      simp only [same hw (by simp) (y := .sawNotDone) (fun _ => rfl)]; exact hc u, ht⟩
  | flagYes i hw hf =>
    exact ⟨P, out' hw (by simp), hn, hp, fun u => by
      simp only [same hw (by simp) (y := .exited) (fun _ => rfl)]; exact hc u, ht⟩
  | flagNo i hw hf =>
    exact ⟨P, out' hw (by simp), hn, hp, fun u => by
      simp only [same hw (by simp) (y := .blocked) (fun _ => rfl)]; exact hc u, ht⟩
  | spurious i hw =>
    exact ⟨P, out' hw (by simp), hn, hp, fun u => by
      simp only [same hw (by simp) (y := .lock) (fun _ => rfl)]; exact hc u, ht⟩
  | push t p hcp hpr =>
    rw [hpr] at hp
    refine ⟨t :: P, ho, List.nodup_cons.2 ⟨hp.1, hn⟩, hp.2, fun u => ?_, fun u => ?_⟩
    · have h2 := hc u
      simp only [List.count_append, List.count_cons, List.count_nil, beq_iff_eq] at h2 ⊢
      omega
    · have h2 := ht u
      simp only [hpr, pushes, List.count_cons, beq_iff_eq] at h2 ⊢
      omega
  | pushLock _ _ => exact ⟨P, ho, hn, hp, hc, ht⟩
  | notifyWake i _ hw =>
    exact ⟨P, out' hw (by simp), hn, hp, fun u => by
      simp only [same hw (by simp) (y := .lock) (fun _ => rfl)]; exact hc u, ht⟩
  | notifyNone _ _ => exact ⟨P, ho, hn, hp, hc, ht⟩
  | get t p _ hpr _ =>
    rw [hpr] at hp ht
    exact ⟨P, ho, hn, hp.2, hc, ht⟩
  | stopFalseAgain p _ hpr _ =>
    rw [hpr] at hp ht
    exact ⟨P, ho, hn, (proper_stops hp).1, hc, ht⟩
  | stopFalse p _ hpr _ =>
    rw [hpr] at hp ht
    exact ⟨P, ho, hn, (proper_stops hp).1, hc, ht⟩
  | setFlag i _ _ => exact ⟨P, ho, hn, hp, hc, ht⟩
  | flagsDone i _ _ => exact ⟨P, ho, hn, hp, hc, ht⟩
  | clear t q' _ hq =>
    refine ⟨P, ho, hn, hp, fun u => ?_, ht⟩
    have h2 := hc u
    simp only [hq, List.count_append, List.count_cons, List.count_nil, beq_iff_eq] at h2 ⊢
    omega
  | clearDone _ _ => exact ⟨P, ho, hn, hp, hc, ht⟩
  | stopTrueAgain p _ hpr _ =>
    rw [hpr] at hp ht
    exact ⟨P, ho, hn, (proper_stops hp).1, hc, ht⟩
  | stopTrue p _ hpr _ _ =>
    rw [hpr] at hp ht
    exact ⟨P, ho, hn, (proper_stops hp).1, hc, ht⟩
  | stopLock _ _ => exact ⟨P, ho, hn, hp, hc, ht⟩
  | notifyAll _ =>
    refine ⟨P, fun j hj => ?_, hn, hp, fun u => ?_, ht⟩
    · simp only [ho j hj, reduceCtorEq, if_false]
    · have : runCount N (fun i => if s.wpc i = .blocked then .lock else s.wpc i) u
          = runCount N s.wpc u := by
        unfold runCount
        apply Finset.sum_congr rfl
        intro i _
        by_cases hb : s.wpc i = .blocked
        · simp only [hb, if_true]; rfl
        · simp only [if_neg hb]
      simp only [this]; exact hc u
  | join i _ _ _ => exact ⟨P, ho, hn, hp, hc, ht⟩
  | joinDone i _ _ => exact ⟨P, ho, hn, hp, hc, ht⟩
  | clear2 t q' _ hq =>
    refine ⟨P, ho, hn, hp, fun u => ?_, ht⟩
    have h2 := hc u
    simp only [hq, List.count_append, List.count_cons, List.count_nil, beq_iff_eq] at h2 ⊢
    omega
  | clear2Done _ _ => exact ⟨P, ho, hn, hp, hc, ht⟩

/-! ## Control: phases of the client and of the workers -/

/-- The worker will look into the queue before it sleeps. -/
def WPc.active : WPc → Bool
  | .pop | .running _ _ | .ran | .lock | .test => true
  | _ => false

/-- Before the first `stop`, and after it. -/
structure Phase (N : Nat) (s : State S α) : Prop where
  out : ∀ i, N ≤ i → s.wpc i = .exited
  before : s.isDone = false → s.isStop = false → s.nThreads = N ∧ (∀ i < N, s.wpc i ≠ .exited) ∧
    (s.cpc = .ready ∨ s.cpc = .pushed ∨ s.cpc = .notifyOne)
  after : s.isDone = true ∨ s.isStop = true → (∀ o ∈ s.prog, ∃ w, o = Op.stop w) ∧
    s.cpc ≠ .pushed ∧ s.cpc ≠ .notifyOne
  flags : ∀ i, s.flag i = true → s.isStop = true
  threads : s.nThreads = N ∨ (s.nThreads = 0 ∧ ∀ i, s.wpc i = .exited)
  clear2 : s.cpc = .stopClear2 → ∀ i, s.wpc i = .exited
  joined : ∀ k, s.cpc = .stopJoin k → ∀ i < k, s.wpc i = .exited
  setting : ∀ k, s.cpc = .stopFlags k → s.isStop = true

theorem phase_step {N : Nat} {s s' : State S α} {b : Bool} (h : Phase N s)
    (hp : ∃ P, Proper P s.prog) (st : Step T s b s') : Phase N s' := by
  obtain ⟨P, hp⟩ := hp
  obtain ⟨h1, h2, h3, h4, h5, h6, h7, h8⟩ := h
  have hhead : ∀ o p, s.prog = o :: p → o ∈ s.prog := by
    intro o p e; rw [e]; exact List.mem_cons_self
  cases st
  case join i hc hi he =>
    refine ⟨h1, ?_, ?_, h4, h5, ?_, fun k hk j hj => ?_, ?_⟩ <;> simp only [] at * <;> try grind
    by_cases hij : j = i
    · rw [hij, he]
    · exact h7 i hc j (by grind)
  case joinDone i hc hi =>
    refine ⟨h1, ?_, ?_, h4, h5, fun _ j => ?_, ?_, ?_⟩ <;> simp only [] at * <;> try grind
    rcases h5 with h5 | h5
    · by_cases hj : j < i
      · exact h7 i hc j hj
      · exact h1 j (by omega)
    · exact h5.2 j
  all_goals
    refine ⟨?_, ?_, ?_, ?_, ?_, ?_, ?_, ?_⟩ <;> simp only [] <;> grind [upd, Proper]

/-- A worker that found the queue empty keeps the mutex, so the push of a task now in the queue has
not returned. -/
def SawOk (s : State S α) : Prop :=
  ∀ i, s.wpc i = .sawEmpty ∨ s.wpc i = .sawNotDone → s.q = [] ∨ s.cpc = .pushed

theorem sawOk_step {s s' : State S α} {b : Bool} (h : SawOk s)
    (hm : MutexOk s.mutex s.wpc s.cpc) (st : Step T s b s') : SawOk s' := by
  obtain ⟨m1, m2⟩ := hm
  unfold SawOk at *
  cases st <;> simp only [] <;> grind [upd, WPc.holds, CPc.holds]

/-- Before the first `stop`, when there is something in the queue, some worker will look into the
queue, or the client is about to wake one up. -/
def ActiveOk (N : Nat) (s : State S α) : Prop :=
  s.isDone = false → s.isStop = false → s.q ≠ [] →
    s.cpc = .pushed ∨ s.cpc = .notifyOne ∨ ∃ i < N, (s.wpc i).active = true

theorem activeOk_step {N : Nat} (hN : 0 < N) {s s' : State S α} {b : Bool} (h : ActiveOk N s)
    (hp : Phase N s) (hm : MutexOk s.mutex s.wpc s.cpc) (st : Step T s b s') : ActiveOk N s' := by
  obtain ⟨h1, h2, h3, h4, h5, h6, h7, h8⟩ := hp
  have hf := hm.free
  unfold ActiveOk at *
  cases st
  case notifyNone hc hb =>
    intro e1 e2 _
    simp only [] at e1 e2
    have k1 := (h2 e1 e2).2.1 0 hN
    have k2 := hb 0
    have k3 := hf (by rw [hc]; rfl) 0
    refine .inr (.inr ⟨0, hN, ?_⟩)
    simp only []
    cases hw : s.wpc 0 <;> rw [hw] at k1 k2 k3 <;> simp_all [WPc.active, WPc.holds]
  all_goals (simp only []; grind [upd, WPc.holds, CPc.holds, WPc.active])

/-- During `stop`: the workers have been told to stop, and none is asleep once they have been
notified. -/
structure StopOk (s : State S α) : Prop where
  flags : ∀ k, s.cpc = .stopFlags k → s.isStop = true ∧ ∀ i < k, s.flag i = true
  clear : s.cpc = .stopClear → s.isStop = true ∧ ∀ i < s.nThreads, s.flag i = true
  signal : s.cpc = .stopLock ∨ s.cpc = .stopNotify ∨ (∃ k, s.cpc = .stopJoin k) →
    s.isDone = true ∨ ∀ i < s.nThreads, s.flag i = true
  join : ∀ k, s.cpc = .stopJoin k → ∀ i, s.wpc i ≠ .blocked ∧
    (s.wpc i = .sawNotDone → s.flag i = true)

theorem stopOk_step {N : Nat} {s s' : State S α} {b : Bool} (h : StopOk s) (hp : Phase N s)
    (hm : MutexOk s.mutex s.wpc s.cpc) (st : Step T s b s') : StopOk s' := by
  obtain ⟨p1, p2, p3, p4, p5, p6, p7, p8⟩ := hp
  obtain ⟨h1, h2, h3, h4⟩ := h
  have hf := hm.free
  cases st
  case setFlag i hc hi =>
    refine ⟨fun k hk => ⟨(h1 i hc).1, fun j hj => ?_⟩, ?_, ?_, ?_⟩ <;> simp only [] at * <;>
      try grind
    have := (h1 i hc).2 j
    by_cases hj : j = i
    · simp [hj]
    · rw [upd_ne _ _ hj]; exact this (by grind)
  case flagsDone i hc hi =>
    refine ⟨?_, fun _ => ⟨(h1 i hc).1, fun j hj => (h1 i hc).2 j ?_⟩, ?_, ?_⟩ <;>
      simp only [] at * <;> try grind
  case join i hc hi he =>
    refine ⟨?_, ?_, fun _ => h3 (.inr (.inr ⟨i, hc⟩)), fun k _ => h4 i hc⟩ <;> grind
  case doneNo i hw hd =>
    refine ⟨h1, h2, h3, fun k hk j => ?_⟩
    have hk : s.cpc = .stopJoin k := hk
    have hf := h3 (.inr (.inr ⟨k, hk⟩))
    rw [hd] at hf
    have hf := hf.resolve_left (by simp)
    simp only []
    by_cases hj : j = i
    · subst hj
      rw [upd_same]
      refine ⟨by simp, fun _ => ?_⟩
      rcases p5 with p5 | p5
      · by_cases hN : j < N
        · exact hf j (by omega)
        · rw [p1 j (by omega)] at hw; cases hw
      · rw [p5.2 j] at hw; cases hw
    · rw [upd_ne _ _ hj]; exact h4 k hk j
  all_goals
    refine ⟨?_, ?_, ?_, ?_⟩ <;> simp only [] <;> grind [upd, WPc.holds, CPc.holds]

/-- As long as `stop(false)` was not called nothing is deleted, and a worker only returns when the
queue is empty. -/
def DrainOk (N : Nat) (s : State S α) : Prop :=
  s.isStop = false → s.dropped = [] ∧ ((∃ i < N, s.wpc i = .exited) → s.q = [])

theorem drainOk_step {N : Nat} (hN : 0 < N) {s s' : State S α} {b : Bool} (h : DrainOk N s)
    (hp : Phase N s) (hw : SawOk s) (hs : StopOk s) (st : Step T s b s') : DrainOk N s' := by
  obtain ⟨p1, p2, p3, p4, p5, p6, p7, p8⟩ := hp
  obtain ⟨h1, h2, h3, h4⟩ := hs
  have hhead : ∀ o p, s.prog = o :: p → o ∈ s.prog := by
    intro o p e; rw [e]; exact List.mem_cons_self
  unfold DrainOk SawOk at *
  cases st
  case push t p hc hp =>
    intro e
    refine ⟨(h e).1, fun ⟨i, hi, he⟩ => ?_⟩
    have hd : s.isDone = false := by
      by_contra hd
      obtain ⟨w, hw⟩ := (p3 (.inl (by simpa using hd))).1 _ (hhead _ _ hp)
      cases hw
    exact absurd he ((p2 hd e).2.1 i hi)
  case clear2 t q' hc hq =>
    intro e
    have := (h e).2 ⟨0, hN, p6 hc 0⟩
    rw [hq] at this; cases this
  all_goals (simp only []; grind [upd])

/-! ## The executed actions -/

theorem runs_le_runCount {N : Nat} {w : Nat → WPc} {i : Nat} (hi : i < N) (t : Nat) :
    (w i).runs t ≤ runCount N w t :=
  Finset.single_le_sum (f := fun i => (w i).runs t) (fun _ _ => Nat.zero_le _)
    (Finset.mem_range.2 hi)

theorem runs_two_le {N : Nat} {w : Nat → WPc} {i j : Nat} (hi : i < N) (hj : j < N) (hij : i ≠ j)
    (t : Nat) : (w i).runs t + (w j).runs t ≤ runCount N w t := by
  have := Finset.sum_le_sum_of_subset (f := fun i => (w i).runs t) (s := {i, j})
    (t := Finset.range N) (by
      intro x hx
      simp only [Finset.mem_insert, Finset.mem_singleton] at hx
      rcases hx with rfl | rfl <;> exact Finset.mem_range.2 (by assumption))
  rw [Finset.sum_pair hij] at this
  exact this

/-- A task is in one place only. -/
structure Excl (s : State S α) : Prop where
  one : ∀ i j t k k', s.wpc i = .running t k → s.wpc j = .running t k' → i = j
  fin : ∀ i t k, s.wpc i = .running t k → t ∉ s.finished.map Prod.fst
  queue : ∀ i t k, s.wpc i = .running t k → t ∉ s.q
  qfin : ∀ t ∈ s.q, t ∉ s.finished.map Prod.fst
  nodup : (s.finished.map Prod.fst).Nodup
  dfin : ∀ t ∈ s.dropped, t ∉ s.finished.map Prod.fst
  drun : ∀ i t k, s.wpc i = .running t k → t ∉ s.dropped

theorem Account.excl {N : Nat} {prog₀ : List Op} {s : State S α} {P : List Nat}
    (h : Account N prog₀ s P) : Excl s := by
  have lt : ∀ {i t k : Nat}, s.wpc i = .running t k → i < N := by
    intro i t k hx
    by_contra hle
    have := h.out i (by omega)
    rw [hx] at this; cases this
  have le1 : ∀ t, P.count t ≤ 1 := fun t => List.nodup_iff_count_le_one.1 h.nodup t
  have run1 : ∀ {i t k : Nat}, s.wpc i = .running t k → 1 ≤ runCount N s.wpc t := by
    intro i t k hx
    have := runs_le_runCount (w := s.wpc) (lt hx) t
    rw [hx] at this
    simpa [WPc.runs] using this
  constructor
  · intro i j t k k' hi hj
    by_contra hij
    have h1 := runs_two_le (w := s.wpc) (lt hi) (lt hj) hij t
    rw [hi, hj] at h1
    have h2 := h.count t
    have h3 := le1 t
    simp only [WPc.runs, if_true] at h1
    omega
  · intro i t k hi hm
    have := List.count_pos_iff.2 hm
    have := run1 hi
    have := h.count t
    have := le1 t
    omega
  · intro i t k hi hm
    have := List.count_pos_iff.2 hm
    have := run1 hi
    have := h.count t
    have := le1 t
    omega
  · intro t h1 h2
    have := List.count_pos_iff.2 h1
    have := List.count_pos_iff.2 h2
    have := h.count t
    have := le1 t
    omega
  · rw [List.nodup_iff_count_le_one]
    intro t
    have := h.count t
    have := le1 t
    omega
  · intro t h1 h2
    have := List.count_pos_iff.2 h1
    have := List.count_pos_iff.2 h2
    have := h.count t
    have := le1 t
    omega
  · intro i t k hi hm
    have := List.count_pos_iff.2 hm
    have := run1 hi
    have := h.count t
    have := le1 t
    omega

/-- The actions of task `t` in a trace. -/
def actionsOf (trace : List (Nat × Nat)) (t : Nat) : List (Nat × Nat) :=
  trace.filter (fun a => a.1 = t)

/-- Executing one action. -/
def applyAction (T : Tasks S α) (m : S) (a : Nat × Nat) : S := (T.acts a.1).getD a.2 id m

/-- Each task's actions were executed in order, each once, as far as the task has come; the shared
memory is the result of the trace. -/
structure TraceOk (T : Tasks S α) (S₀ : S) (s : State S α) : Prop where
  run : ∀ i t k, s.wpc i = .running t k → k ≤ (T.acts t).length ∧
    actionsOf s.trace t = (List.range k).map (fun j => (t, j))
  fin : ∀ t ∈ s.finished.map Prod.fst,
    actionsOf s.trace t = (List.range (T.acts t).length).map (fun j => (t, j))
  rest : ∀ t, (∀ i k, s.wpc i ≠ .running t k) → t ∉ s.finished.map Prod.fst →
    actionsOf s.trace t = []
  shared : s.shared = s.trace.foldl (applyAction T) S₀

theorem TraceOk.keep {S₀ : S} {s s' : State S α} (h : TraceOk T S₀ s)
    (hw : ∀ j t k, s'.wpc j = .running t k ↔ s.wpc j = .running t k)
    (hf : s'.finished = s.finished) (ht : s'.trace = s.trace) (hs : s'.shared = s.shared) :
    TraceOk T S₀ s' := by
  refine ⟨fun i t k hi => ?_, fun t hm => ?_, fun t h1 h2 => ?_, ?_⟩
  · rw [ht]; exact h.run i t k ((hw _ _ _).1 hi)
  · rw [ht]; rw [hf] at hm; exact h.fin t hm
  · rw [ht]; rw [hf] at h2
    exact h.rest t (fun i k hi => h1 i k ((hw _ _ _).2 hi)) h2
  · rw [ht, hs]; exact h.shared

theorem actionsOf_append (tr : List (Nat × Nat)) (t k u : Nat) :
    actionsOf (tr ++ [(t, k)]) u = if t = u then actionsOf tr u ++ [(t, k)] else actionsOf tr u := by
  unfold actionsOf
  rw [List.filter_append]
  by_cases h : t = u
  · simp [h]
  · simp [h]

theorem TraceOk.start {S₀ : S} {s : State S α} (h : TraceOk T S₀ s) (he : Excl s) {i t : Nat}
    (hi : ∀ u k, s.wpc i ≠ .running u k) (ht : t ∈ s.q) (m : Option Who) (q' : List Nat) :
    TraceOk T S₀ { s with q := q', mutex := m, wpc := upd s.wpc i (.running t 0) } := by
  have hnr : ∀ j k, s.wpc j ≠ .running t k := fun j k hj => he.queue j t k hj ht
  refine ⟨fun j u k hj => ?_, h.fin, fun u h1 h2 => h.rest u (fun j k hj => ?_) h2, h.shared⟩
  · by_cases hji : j = i
    · simp only [hji, upd_same, WPc.running.injEq] at hj
      obtain ⟨rfl, rfl⟩ := hj
      exact ⟨Nat.zero_le _, h.rest t hnr (he.qfin t ht)⟩
    · simp only [upd_ne _ _ hji] at hj
      exact h.run j u k hj
  · have hji : j ≠ i := by
      intro e; subst e; exact hi u k hj
    exact h1 j k (by simp only [upd_ne _ _ hji]; exact hj)

theorem traceOk_step {S₀ : S} {s s' : State S α} {b : Bool} (h : TraceOk T S₀ s) (he : Excl s)
    (st : Step T s b s') : TraceOk T S₀ s' := by
  cases st
  case popSome i t q' hw hq =>
    exact h.start he (by rw [hw]; simp) (by rw [hq]; simp) s.mutex q'
  case testSome i t q' hw hq =>
    exact h.start he (by rw [hw]; simp) (by rw [hq]; simp) none q'
  case act i t k f hw hf =>
    have hk : k < (T.acts t).length := (List.getElem?_eq_some_iff.1 hf).1
    refine ⟨fun j u l hj => ?_, fun u hu => ?_, fun u h1 h2 => ?_, ?_⟩
    · simp only [actionsOf_append] at hj ⊢
      by_cases hji : j = i
      · simp only [hji, upd_same, WPc.running.injEq] at hj
        obtain ⟨rfl, rfl⟩ := hj
        rw [if_pos rfl, (h.run i t k hw).2, List.range_succ, List.map_append]
        exact ⟨hk, rfl⟩
      · rw [upd_ne _ _ hji] at hj
        rw [if_neg (fun e => hji (he.one j i u l k hj (by rw [hw, e])))]
        exact h.run j u l hj
    · simp only [actionsOf_append]
      rw [if_neg (fun e : t = u => he.fin i t k hw (by rw [e]; exact hu))]
      exact h.fin u hu
    · simp only [actionsOf_append]
      have hut : t ≠ u := by
        intro e
        exact h1 i (k + 1) (by simp only [upd_same, e])
      rw [if_neg hut]
      refine h.rest u (fun j l hj => ?_) h2
      have hji : j ≠ i := by
        intro e
        rw [e, hw] at hj
        simp only [WPc.running.injEq] at hj
        exact hut hj.1
      exact h1 j l (by simp only [upd_ne _ _ hji]; exact hj)
    · simp only [List.foldl_append, List.foldl_cons, List.foldl_nil, ← h.shared, applyAction]
      rw [List.getD_eq_getElem?_getD, hf]; rfl
  case fin i t k hw hk =>
    have hi := h.run i t k hw
    refine ⟨fun j u l hj => ?_, fun u hu => ?_, fun u h1 h2 => ?_, h.shared⟩
    · by_cases hji : j = i
      · simp only [hji, upd_same] at hj; cases hj
      · simp only [upd_ne _ _ hji] at hj; exact h.run j u l hj
    · simp only [List.map_append, List.map_cons, List.map_nil, List.mem_append,
        List.mem_singleton] at hu
      rcases hu with hu | hu
      · exact h.fin u hu
      · rw [hu, ← hk]; exact hi.2
    · simp only [List.map_append, List.map_cons, List.map_nil, List.mem_append,
        List.mem_singleton, not_or] at h2
      refine h.rest u (fun j l hj => ?_) h2.1
      have hji : j ≠ i := by
        intro e
        rw [e, hw] at hj
        simp only [WPc.running.injEq] at hj
        exact h2.2 hj.1.symm
      exact h1 j l (by simp only [upd_ne _ _ hji]; exact hj)
  all_goals
    refine h.keep (fun j t k => ?_) rfl rfl rfl
    simp only [] <;> grind [upd]

/-! ## All invariants together -/

structure Inv (N : Nat) (T : Tasks S α) (S₀ : S) (prog₀ : List Op) (s : State S α) : Prop where
  account : ∃ P, Account N prog₀ s P
  mutex : MutexOk s.mutex s.wpc s.cpc
  phase : Phase N s
  saw : SawOk s
  active : ActiveOk N s
  stop : StopOk s
  drain : DrainOk N s
  trace : TraceOk T S₀ s

theorem inv_init {N : Nat} (S₀ : S) {p : List Op} (hp : Proper [] p) :
    Inv N T S₀ p (init N S₀ p) where
  account := ⟨[], account_init N S₀ p hp⟩
  mutex := mutexOk_init N S₀ p
  phase := by
    refine ⟨?_, ?_, ?_, ?_, ?_, ?_, ?_, ?_⟩ <;> simp only [init] <;> grind
  saw := by unfold SawOk init; grind
  active := by unfold ActiveOk init; grind
  stop := by refine ⟨?_, ?_, ?_, ?_⟩ <;> simp only [init] <;> grind
  drain := by unfold DrainOk init; grind
  trace := by
    refine ⟨?_, ?_, ?_, ?_⟩ <;> simp only [init, actionsOf] <;> grind

theorem inv_step {N : Nat} (hN : 0 < N) {S₀ : S} {p : List Op} {s s' : State S α} {b : Bool}
    (h : Inv N T S₀ p s) (st : Step T s b s') : Inv N T S₀ p s' where
  account := by obtain ⟨P, hP⟩ := h.account; exact account_step hP st
  mutex := mutexOk_step h.mutex st
  phase := by obtain ⟨P, hP⟩ := h.account; exact phase_step h.phase ⟨P, hP.proper⟩ st
  saw := sawOk_step h.saw h.mutex st
  active := activeOk_step hN h.active h.phase h.mutex st
  stop := stopOk_step h.stop h.phase h.mutex st
  drain := drainOk_step hN h.drain h.phase h.saw h.stop st
  trace := by obtain ⟨P, hP⟩ := h.account; exact traceOk_step h.trace hP.excl st

theorem inv_exec {N : Nat} (hN : 0 < N) {S₀ : S} {p : List Op} (hp : Proper [] p) {n k : Nat}
    {s : State S α} (h : Exec T (init N S₀ p) n k s) : Inv N T S₀ p s := by
  induction h with
  | nil => exact inv_init S₀ hp
  | snoc _ st ih => exact inv_step hN ih st

/-- What holds also without any worker. -/
theorem account_exec {N : Nat} {S₀ : S} {p : List Op} (hp : Proper [] p) {n k : Nat}
    {s : State S α} (h : Exec T (init N S₀ p) n k s) :
    (∃ P, Account N p s P) ∧ TraceOk T S₀ s := by
  induction h with
  | nil => exact ⟨⟨[], account_init N S₀ p hp⟩, (inv_init (N := N) S₀ hp).trace⟩
  | snoc _ st ih =>
    obtain ⟨⟨P, hP⟩, ht⟩ := ih
    exact ⟨account_step hP st, traceOk_step ht hP.excl st⟩

/-! ## No deadlock -/

theorem exists_step {N : Nat} {S₀ : S} {p : List Op} {s : State S α}
    (h : Inv N T S₀ p s) (hc : ¬ Complete s) : ∃ s', Step T s false s' := by
  by_contra hno
  have hno : ∀ s', ¬ Step T s false s' := fun s' hs => hno ⟨s', hs⟩
  obtain ⟨P, hP⟩ := h.account
  -- every worker is asleep or has returned
  have hw : ∀ i, s.wpc i = .blocked ∨ s.wpc i = .exited := by
    -- a worker holding the mutex can move
    have hh : ∀ i, (s.wpc i).holds = false := by
      intro i
      cases hi : s.wpc i <;> try rfl
      · exfalso
        cases hq : s.q with
        | nil => exact hno _ (.testNone s i hi hq)
        | cons t q' => exact hno _ (.testSome s i t q' hi hq)
      · exfalso
        cases hd : s.isDone
        · exact hno _ (.doneNo s i hi hd)
        · exact hno _ (.doneYes s i hi hd)
      · exfalso
        cases hd : s.flag i
        · exact hno _ (.flagNo s i hi hd)
        · exact hno _ (.flagYes s i hi hd)
    have hch : s.cpc.holds = false := by
      cases hi : s.cpc <;> try rfl
      · exfalso
        by_cases hb : ∃ i, s.wpc i = .blocked
        · obtain ⟨i, hb⟩ := hb
          exact hno _ (.notifyWake s i hi hb)
        · exact hno _ (.notifyNone s hi (fun i hi => hb ⟨i, hi⟩))
      · exact (hno _ (.notifyAll s hi)).elim
    have hm : s.mutex = none := by
      cases hm : s.mutex with
      | none => rfl
      | some w =>
        cases w with
        | client => have := h.mutex.client.1 hm; rw [hch] at this; cases this
        | worker i => have := (h.mutex.worker i).1 hm; rw [hh i] at this; cases this
    intro i
    cases hi : s.wpc i with
    | blocked => exact .inl rfl
    | exited => exact .inr rfl
    | pop =>
      exfalso
      cases hq : s.q with
      | nil => exact hno _ (.popNone s i hi hq)
      | cons t q' => exact hno _ (.popSome s i t q' hi hq)
    | running t k =>
      exfalso
      have hk := (h.trace.run i t k hi).1
      by_cases e : k = (T.acts t).length
      · exact hno _ (.fin s i t k hi e)
      · exact hno _ (.act s i t k _ hi (List.getElem?_eq_getElem (by omega)))
    | ran =>
      exfalso
      cases hd : s.flag i
      · exact hno _ (.ranLoop s i hi hd)
      · exact hno _ (.ranStop s i hi hd)
    | lock => exact (hno _ (.wLock s i hi hm)).elim
    | test => have := hh i; rw [hi] at this; cases this
    | sawEmpty => have := hh i; rw [hi] at this; cases this
    | sawNotDone => have := hh i; rw [hi] at this; cases this
  have hm : s.mutex = none := by
    cases hm : s.mutex with
    | none => rfl
    | some w =>
      cases w with
      | client =>
        have := h.mutex.client.1 hm
        cases hi : s.cpc <;> rw [hi] at this <;> try cases this
        · exfalso
          by_cases hb : ∃ i, s.wpc i = .blocked
          · obtain ⟨i, hb⟩ := hb
            exact hno _ (.notifyWake s i hi hb)
          · exact hno _ (.notifyNone s hi (fun i hi => hb ⟨i, hi⟩))
        · exact (hno _ (.notifyAll s hi)).elim
      | worker i =>
        have := (h.mutex.worker i).1 hm
        rcases hw i with hi | hi <;> rw [hi] at this <;> cases this
  cases hcp : s.cpc with
  | pushed => exact hno _ (.pushLock s hcp hm)
  | notifyOne =>
    by_cases hb : ∃ i, s.wpc i = .blocked
    · obtain ⟨i, hb⟩ := hb
      exact hno _ (.notifyWake s i hcp hb)
    · exact hno _ (.notifyNone s hcp (fun i hi => hb ⟨i, hi⟩))
  | stopFlags i =>
    by_cases hi : i < s.nThreads
    · exact hno _ (.setFlag s i hcp hi)
    · exact hno _ (.flagsDone s i hcp hi)
  | stopClear =>
    cases hq : s.q with
    | nil => exact hno _ (.clearDone s hcp hq)
    | cons t q' => exact hno _ (.clear s t q' hcp hq)
  | stopLock => exact hno _ (.stopLock s hcp hm)
  | stopNotify => exact hno _ (.notifyAll s hcp)
  | stopJoin i =>
    by_cases hi : i < s.nThreads
    · rcases hw i with hb | he
      · exact (h.stop.join i hcp i).1 hb
      · exact hno _ (.join s i hcp hi he)
    · exact hno _ (.joinDone s i hcp hi)
  | stopClear2 =>
    cases hq : s.q with
    | nil => exact hno _ (.clear2Done s hcp hq)
    | cons t q' => exact hno _ (.clear2 s t q' hcp hq)
  | ready =>
    cases hpr : s.prog with
    | nil => exact hc ⟨hpr, hcp⟩
    | cons o p' =>
      cases o with
      | push t => exact hno _ (.push s t p' hcp hpr)
      | stop w =>
        cases w with
        | false =>
          cases hs : s.isStop
          · exact hno _ (.stopFalse s p' hcp hpr hs)
          · exact hno _ (.stopFalseAgain s p' hcp hpr hs)
        | true =>
          cases hs : s.isStop
          · cases hd : s.isDone
            · exact hno _ (.stopTrue s p' hcp hpr hd hs)
            · exact hno _ (.stopTrueAgain s p' hcp hpr (.inl hd))
          · exact hno _ (.stopTrueAgain s p' hcp hpr (.inr hs))
      | get t =>
        have hbef : s.isDone = false ∧ s.isStop = false := by
          by_contra hb
          have : s.isDone = true ∨ s.isStop = true := by
            cases h1 : s.isDone <;> cases h2 : s.isStop <;> simp_all
          obtain ⟨w, hw⟩ := (h.phase.after this).1 (.get t) (by rw [hpr]; simp)
          cases hw
        have hb := h.phase.before hbef.1 hbef.2
        have hprop := hP.proper
        rw [hpr] at hprop
        have htP : t ∈ P := hprop.1
        have hnf : t ∉ s.finished.map Prod.fst := fun hf => hno _ (.get s t p' hcp hpr hf)
        have hr : runCount N s.wpc t = 0 := by
          unfold runCount
          apply Finset.sum_eq_zero
          intro i _
          rcases hw i with e | e <;> rw [e] <;> rfl
        have h1 := hP.count t
        have h2 := List.count_pos_iff.2 htP
        rw [hr, List.count_eq_zero.2 hnf, (h.drain hbef.2).1] at h1
        have hq : s.q ≠ [] := by
          intro e
          rw [e] at h1
          simp only [List.count_nil] at h1
          omega
        rcases h.active hbef.1 hbef.2 hq with e | e | ⟨i, _, e⟩
        · rw [hcp] at e; cases e
        · rw [hcp] at e; cases e
        · rcases hw i with e' | e' <;> rw [e'] at e <;> cases e

/-! ## Termination -/

/-- A bound on the number of steps a worker can make without popping or being woken up. -/
def WPc.rank (T : Tasks S α) : WPc → Nat
  | .blocked => 0
  | .exited => 0
  | .sawNotDone => 1
  | .sawEmpty => 2
  | .test => 3
  | .lock => 4
  | .pop => 5
  | .ran => 6
  | .running t k => 7 + ((T.acts t).length - k)

def taskCost (T : Tasks S α) (t : Nat) : Nat := (T.acts t).length + 10

def CPc.rank (N n : Nat) : CPc → Nat
  | .ready => 0
  | .notifyOne => 5
  | .pushed => 6
  | .stopClear2 => 1
  | .stopJoin i => 2 + (n - i)
  | .stopNotify => 4 * N + 3 + n
  | .stopLock => 4 * N + 4 + n
  | .stopClear => 4 * N + 5 + n
  | .stopFlags i => 4 * N + 6 + n + (n - i)

def Op.cost (T : Tasks S α) (N : Nat) : Op → Nat
  | .push t => taskCost T t + 7
  | .get _ => 1
  | .stop _ => 6 * N + 8

def measure (T : Tasks S α) (N : Nat) (s : State S α) : Nat :=
  (s.prog.map (Op.cost T N)).sum + s.cpc.rank N s.nThreads + (s.q.map (taskCost T)).sum
    + ∑ i ∈ Finset.range N, (s.wpc i).rank T

theorem measure_step {N : Nat} {s s' : State S α} {b : Bool} (st : Step T s b s')
    (ho : ∀ i, N ≤ i → s.wpc i = .exited) (hn : s.nThreads ≤ N) :
    measure T N s' + 1 ≤ measure T N s + 5 * b.toNat := by
  have lt : ∀ {i : Nat} {x : WPc}, s.wpc i = x → x ≠ .exited → i < N := by
    intro i x hx hne
    by_contra hle
    exact hne (hx.symm.trans (ho i (by omega)))
  have mv : ∀ {i : Nat} {x : WPc} (y : WPc), s.wpc i = x → x ≠ .exited →
      ∑ j ∈ Finset.range N, (upd s.wpc i y j).rank T + x.rank T
        = ∑ j ∈ Finset.range N, (s.wpc j).rank T + y.rank T := by
    intro i x y hx hne
    have := sum_upd (WPc.rank T) s.wpc y (lt hx hne)
    rw [hx] at this; exact this
  unfold measure
  cases st
  case popSome i t q' hw hq =>
    have := mv (.running t 0) hw (by simp)
    simp only [hq, WPc.rank, List.map_cons, List.sum_cons, taskCost, Bool.toNat_false] at this ⊢
    omega
  case popNone i hw hq =>
    have := mv .lock hw (by simp)
    simp only [WPc.rank, Bool.toNat_false] at this ⊢
    omega
  case act i t k f hw hf =>
    have hk : k < (T.acts t).length := (List.getElem?_eq_some_iff.1 hf).1
    have := mv (.running t (k + 1)) hw (by simp)
    simp only [WPc.rank, Bool.toNat_false] at this ⊢
    omega
  case fin i t k hw hk =>
    have := mv .ran hw (by simp)
    simp only [WPc.rank, Bool.toNat_false] at this ⊢
    omega
  case ranStop i hw hf =>
    have := mv .exited hw (by simp)
    simp only [WPc.rank, Bool.toNat_false] at this ⊢
    omega
  case ranLoop i hw hf =>
    have := mv .pop hw (by simp)
    simp only [WPc.rank, Bool.toNat_false] at this ⊢
    omega
  case wLock i hw hm =>
    have := mv .test hw (by simp)
    simp only [WPc.rank, Bool.toNat_false] at this ⊢
    omega
  case testSome i t q' hw hq =>
    have := mv (.running t 0) hw (by simp)
    simp only [hq, WPc.rank, List.map_cons, List.sum_cons, taskCost, Bool.toNat_false] at this ⊢
    omega
  case testNone i hw hq =>
    have := mv .sawEmpty hw (by simp)
    simp only [WPc.rank, Bool.toNat_false] at this ⊢
    omega
  case doneYes i hw hf =>
    have := mv .exited hw (by simp)
    simp only [WPc.rank, Bool.toNat_false] at this ⊢
    omega
  case doneNo i hw hf =>
    have := mv .sawNotDone hw (by simp)
    simp only [WPc.rank, Bool.toNat_false] at this ⊢
    omega
  case flagYes i hw hf =>
    have := mv .exited hw (by simp)
    simp only [WPc.rank, Bool.toNat_false] at this ⊢
    omega
  case flagNo i hw hf =>
    have := mv .blocked hw (by simp)
    simp only [WPc.rank, Bool.toNat_false] at this ⊢
    omega
  case spurious i hw =>
    have := mv .lock hw (by simp)
    simp only [WPc.rank, Bool.toNat_true] at this ⊢
    omega
  case push t p hc hp =>
    simp only [hp, hc, CPc.rank, Op.cost, List.map_append, List.map_cons, List.map_nil,
      List.sum_append, List.sum_cons, List.sum_nil, Bool.toNat_false]
    omega
  case pushLock hc hm =>
    simp only [hc, CPc.rank, Bool.toNat_false]; omega
  case notifyWake i hc hw =>
    have := mv .lock hw (by simp)
    simp only [hc, CPc.rank, WPc.rank, Bool.toNat_false] at this ⊢
    omega
  case notifyNone hc hb => simp only [hc, CPc.rank, Bool.toNat_false]; omega
  case get t p hc hp hf =>
    simp only [hp, Op.cost, List.map_cons, List.sum_cons, Bool.toNat_false]; omega
  case stopFalseAgain p hc hp hf =>
    simp only [hp, Op.cost, List.map_cons, List.sum_cons, Bool.toNat_false]; omega
  case stopFalse p hc hp hf =>
    simp only [hp, hc, CPc.rank, Op.cost, List.map_cons, List.sum_cons, Bool.toNat_false]; omega
  case setFlag i hc hi => simp only [hc, CPc.rank, Bool.toNat_false]; omega
  case flagsDone i hc hi => simp only [hc, CPc.rank, Bool.toNat_false]; omega
  case clear t q' hc hq =>
    simp only [hq, List.map_cons, List.sum_cons, taskCost, Bool.toNat_false]; omega
  case clearDone hc hq => simp only [hc, CPc.rank, Bool.toNat_false]; omega
  case stopTrueAgain p hc hp hf =>
    simp only [hp, Op.cost, List.map_cons, List.sum_cons, Bool.toNat_false]; omega
  case stopTrue p hc hp hf hf' =>
    simp only [hp, hc, CPc.rank, Op.cost, List.map_cons, List.sum_cons, Bool.toNat_false]; omega
  case stopLock hc hm => simp only [hc, CPc.rank, Bool.toNat_false]; omega
  case notifyAll hc =>
    have : ∑ i ∈ Finset.range N, (if s.wpc i = .blocked then WPc.lock else s.wpc i).rank T
        ≤ ∑ i ∈ Finset.range N, ((s.wpc i).rank T + 4) := by
      apply Finset.sum_le_sum
      intro i _
      by_cases hb : s.wpc i = .blocked
      · rw [if_pos hb, hb]; simp [WPc.rank]
      · rw [if_neg hb]; omega
    rw [Finset.sum_add_distrib, Finset.sum_const_nat (m := 4) (fun _ _ => rfl), Finset.card_range] at this
    simp only [hc, CPc.rank, Bool.toNat_false] at this ⊢
    omega
  case join i hc hi he => simp only [hc, CPc.rank, Bool.toNat_false]; omega
  case joinDone i hc hi => simp only [hc, CPc.rank, Bool.toNat_false]; omega
  case clear2 t q' hc hq =>
    simp only [hq, List.map_cons, List.sum_cons, taskCost, Bool.toNat_false]; omega
  case clear2Done hc hq => simp only [hc, CPc.rank, Bool.toNat_false]; omega

end Stag.Pool
