import Verif.ThreadPoolLemmas
import Mathlib.Data.List.Perm.Basic
import Mathlib.Data.List.GetD

/-!
# C56: the thread pool runs every task exactly once, under every schedule
-/

namespace Stag.Pool

variable {S α : Type} {T : Tasks S α}

/-! ## Specification -/

/-- The whole of task `t`: its actions, in order, each once. -/
def wholeTask (T : Tasks S α) (t : Nat) : List (Nat × Nat) :=
  (List.range (T.acts t).length).map (fun k => (t, k))

/-- Running the tasks of the list one after the other. -/
def runSeq (T : Tasks S α) (S₀ : S) (ts : List Nat) : S :=
  ts.foldl (fun m t => (T.acts t).foldl (fun m f => f m) m) S₀

/-! ## History -/

/-- What the state remembers of the program. -/
structure Hist (p : List Op) (s : State S α) : Prop where
  sub : ∀ o ∈ s.prog, o ∈ p
  got : ∀ t, Op.get t ∈ p → Op.get t ∈ s.prog ∨ t ∈ s.finished.map Prod.fst
  stopped : s.isStop = true → Op.stop false ∈ p
  signalled : ∀ w, Op.stop w ∈ p → Op.stop w ∈ s.prog ∨ s.isDone = true ∨ s.isStop = true
  joined : s.isDone = true ∨ s.isStop = true → s.cpc = .ready → ∀ i, s.wpc i = .exited

theorem hist_exec {N : Nat} (hN : 0 < N) {S₀ : S} {p : List Op} (hp : Proper [] p) {n k : Nat}
    {s : State S α} (h : Exec T (init N S₀ p) n k s) : Hist p s := by
  induction h with
  | nil => refine ⟨?_, ?_, ?_, ?_, ?_⟩ <;> simp only [init] <;> grind
  | snoc he st ih =>
    have hi := inv_exec hN hp he
    obtain ⟨p1, p2, p3, p4, p5, p6, p7, p8⟩ := hi.phase
    obtain ⟨h1, h2, h3, h4, h5⟩ := ih
    cases st <;> refine ⟨?_, ?_, ?_, ?_, ?_⟩ <;> simp only [] <;> grind [upd]

/-! ## Safety -/

/-- **C56** (at most once).  In every state of every execution, whatever the number of workers: the
executed actions of each task are an initial part of the task, in order, none executed twice; a
future becomes ready at most once, and only when the whole of its task has been executed; no two
workers run the same task; the memory is what the executed actions made of it. -/
theorem C56_at_most_once {N : Nat} {S₀ : S} {p : List Op} (hp : Proper [] p) {n k : Nat}
    {s : State S α} (h : Exec T (init N S₀ p) n k s) :
    (∀ t, actionsOf s.trace t <+: wholeTask T t) ∧ (s.finished.map Prod.fst).Nodup ∧
    (∀ t ∈ s.finished.map Prod.fst, t ∈ pushes p ∧ actionsOf s.trace t = wholeTask T t) ∧
    (∀ i j t k k', s.wpc i = .running t k → s.wpc j = .running t k' → i = j) ∧
    s.shared = s.trace.foldl (applyAction T) S₀ := by
  obtain ⟨⟨P, hP⟩, ht⟩ := account_exec hp h
  have he := hP.excl
  refine ⟨fun t => ?_, he.nodup, fun t hm => ⟨?_, ht.fin t hm⟩, he.one, ht.shared⟩
  · by_cases hf : t ∈ s.finished.map Prod.fst
    · rw [ht.fin t hf]; exact List.prefix_refl _
    · by_cases hr : ∃ i k, s.wpc i = .running t k
      · obtain ⟨i, k, hr⟩ := hr
        obtain ⟨h1, h2⟩ := ht.run i t k hr
        rw [h2]
        refine List.IsPrefix.map _ ?_
        refine ⟨(List.range ((T.acts t).length - k)).map (k + ·), ?_⟩
        rw [← List.range_add]
        congr 1
        omega
      · rw [ht.rest t (fun i k hi => hr ⟨i, k, hi⟩) hf]
        exact List.nil_prefix
  · have h1 := hP.count t
    have h2 := hP.total t
    have h3 := List.count_pos_iff.2 hm
    exact List.count_pos_iff.1 (by omega)

/-- **C56** (exactly once, `get`).  When the client has finished its program, every task whose
future it waited for has been executed completely, once. -/
theorem C56_get_waits {N : Nat} (hN : 0 < N) {S₀ : S} {p : List Op} (hp : Proper [] p) {n k : Nat}
    {s : State S α} (h : Exec T (init N S₀ p) n k s) (hc : Complete s) (t : Nat)
    (ht : Op.get t ∈ p) :
    t ∈ s.finished.map Prod.fst ∧ actionsOf s.trace t = wholeTask T t := by
  have := (hist_exec hN hp h).got t ht
  rw [hc.1] at this
  have hf := this.resolve_left (by simp)
  exact ⟨hf, (inv_exec hN hp h).trace.fin t hf⟩

/-- **C56** (exactly once, `stop(true)`).  With at least one worker, when `stop(true)` — the
destructor — has returned, and `stop(false)` was not called, every pushed task has been executed
completely and exactly once and all workers have returned. -/
theorem C56_stop_waits {N : Nat} (hN : 0 < N) {S₀ : S} {p : List Op} (hp : Proper [] p) {n k : Nat}
    {s : State S α} (h : Exec T (init N S₀ p) n k s) (hc : Complete s) (hs : Op.stop true ∈ p)
    (hns : Op.stop false ∉ p) :
    (s.finished.map Prod.fst).Perm (pushes p) ∧
    (∀ t ∈ pushes p, actionsOf s.trace t = wholeTask T t) ∧
    (∀ i, s.wpc i = .exited) ∧ s.q = [] ∧ s.dropped = [] := by
  have hi := inv_exec hN hp h
  have hh := hist_exec hN hp h
  have hst : s.isStop = false := by
    cases e : s.isStop with
    | false => rfl
    | true => exact absurd (hh.stopped e) hns
  have hd : s.isDone = true ∨ s.isStop = true := by
    have := hh.signalled true hs
    rw [hc.1] at this
    exact this.resolve_left (by simp)
  have hw := hh.joined hd hc.2
  have hdr := hi.drain hst
  have hq := hdr.2 ⟨0, hN, hw 0⟩
  obtain ⟨P, hP⟩ := hi.account
  have hcount : ∀ t, (s.finished.map Prod.fst).count t = (pushes p).count t := by
    intro t
    have h1 := hP.count t
    have h2 := hP.total t
    have h3 : runCount N s.wpc t = 0 := by
      unfold runCount
      apply Finset.sum_eq_zero
      intro i _
      rw [hw i]; rfl
    rw [hq, hdr.1, h3] at h1
    rw [hc.1] at h2
    simp only [pushes, List.count_nil] at h1 h2
    omega
  have hperm := List.perm_iff_count.2 hcount
  exact ⟨hperm, fun t ht => hi.trace.fin t (hperm.mem_iff.2 ht), hw, hq, hdr.1⟩

/-- **C56** (values).  A ready future holds the value its task returned. -/
theorem C56_future_value {s₀ : State S α} (h₀ : s₀.finished = []) {n k : Nat} {s : State S α}
    (h : Exec T s₀ n k s) : ∀ x ∈ s.finished, ∃ m, x.2 = T.val x.1 m := by
  induction h with
  | nil => rw [h₀]; simp
  | snoc _ st ih =>
    cases st <;> try exact ih
    case fin i t k hw hk =>
      intro x hx
      simp only [List.mem_append, List.mem_singleton] at hx
      rcases hx with hx | hx
      · exact ih x hx
      · exact ⟨_, by rw [hx]⟩

/-! ## Progress -/

/-- **C56** (no lost wake-up, no deadlock).  With at least one worker, as long as the client has not
finished its program some thread can make a step other than a spurious wake-up: the client is never
left waiting for a future or a thread while all workers sleep. -/
theorem C56_no_deadlock {N : Nat} (hN : 0 < N) {S₀ : S} {p : List Op} (hp : Proper [] p) {n k : Nat}
    {s : State S α} (h : Exec T (init N S₀ p) n k s) (hc : ¬ Complete s) :
    ∃ s', Step T s false s' := exists_step (inv_exec hN hp h) hc

/-- The bound on the number of steps. -/
def stepBound (T : Tasks S α) (N : Nat) (p : List Op) : Nat :=
  (p.map (fun o => match o with
    | .push t => (T.acts t).length + 17
    | .get _ => 1
    | .stop _ => 6 * N + 8)).sum + 5 * N

/-- **C56** (termination).  An execution with `k` spurious wake-ups has at most
`stepBound + 5 k` steps: no thread spins, whatever the scheduler does. -/
theorem C56_terminates {N : Nat} (hN : 0 < N) {S₀ : S} {p : List Op} (hp : Proper [] p) {n k : Nat}
    {s : State S α} (h : Exec T (init N S₀ p) n k s) : n ≤ stepBound T N p + 5 * k := by
  have key : measure T N s + n ≤ stepBound T N p + 5 * k := by
    induction h with
    | nil =>
      simp only [measure, init, CPc.rank, List.map_nil, List.sum_nil, stepBound]
      have h1 : ∑ i ∈ Finset.range N, (if i < N then WPc.pop else .exited).rank T ≤ 5 * N := by
        rw [Nat.mul_comm]
        calc _ ≤ ∑ i ∈ Finset.range N, 5 := by
                apply Finset.sum_le_sum
                intro i _
                split_ifs <;> simp [WPc.rank]
          _ = N * 5 := by rw [Finset.sum_const_nat (m := 5) (fun _ _ => rfl), Finset.card_range]
      have h2 : p.map (Op.cost T N) = p.map (fun o => match o with
          | .push t => (T.acts t).length + 17
          | .get _ => 1
          | .stop _ => 6 * N + 8) := by
        apply List.map_congr_left
        intro o _
        cases o <;> simp [Op.cost, taskCost]
      rw [h2]; omega
    | snoc he st ih =>
      have hi := inv_exec hN hp he
      have := measure_step st hi.phase.out (by
        rcases hi.phase.threads with e | e <;> omega)
      omega
  omega

theorem Exec.trans {s₀ s s' : State S α} {n k m j : Nat} (h : Exec T s₀ n k s)
    (h' : Exec T s m j s') : Exec T s₀ (n + m) (k + j) s' := by
  induction h' with
  | nil => exact h
  | snoc _ st ih =>
    have := ih.snoc st
    rw [Nat.add_assoc, Nat.add_assoc] at this
    exact this

/-- **C56** (completion).  From every state an execution can reach, the threads can run on, without
spurious wake-ups, until the client has finished its program; by the two theorems above they will,
whatever the scheduler does, unless there are spurious wake-ups for ever. -/
theorem C56_completes {N : Nat} (hN : 0 < N) {S₀ : S} {p : List Op} (hp : Proper [] p) {n k : Nat}
    {s : State S α} (h : Exec T (init N S₀ p) n k s) :
    ∃ m s', Exec T s m 0 s' ∧ Complete s' := by
  by_contra hno
  have long : ∀ m, ∃ s', Exec T s m 0 s' := by
    intro m
    induction m with
    | zero => exact ⟨s, .nil⟩
    | succ m ih =>
      obtain ⟨s', hs'⟩ := ih
      have hnc : ¬ Complete s' := fun hc => hno ⟨m, s', hs', hc⟩
      obtain ⟨s'', hst⟩ := C56_no_deadlock hN hp (h.trans hs') hnc
      exact ⟨s'', hs'.snoc hst⟩
  obtain ⟨s', hs'⟩ := long (stepBound T N p + 5 * k + 1)
  have := C56_terminates hN hp (h.trans hs')
  omega

/-! ## Interleavings of tasks that do not interfere -/

theorem foldl_comm_past {β σ : Type} (f : σ → β → σ) (a : β) (l : List β)
    (h : ∀ b ∈ l, ∀ m, f (f m b) a = f (f m a) b) (m : σ) :
    f (l.foldl f m) a = l.foldl f (f m a) := by
  induction l generalizing m with
  | nil => rfl
  | cons b l ih =>
    simp only [List.foldl_cons]
    rw [ih (fun c hc => h c (by simp [hc])), h b (by simp)]

theorem foldl_filter_split {β σ : Type} (f : σ → β → σ) (q : β → Bool) (l : List β)
    (h : ∀ a ∈ l, ∀ b ∈ l, q a = true → q b = false → ∀ m, f (f m b) a = f (f m a) b) (m : σ) :
    l.foldl f m = (l.filter (fun a => !q a)).foldl f ((l.filter q).foldl f m) := by
  induction l using List.reverseRecOn generalizing m with
  | nil => rfl
  | append_singleton l a ih =>
    have ih := ih (fun a ha b hb => h a (by simp [ha]) b (by simp [hb])) m
    rw [List.foldl_append, List.filter_append, List.filter_append, ih]
    cases hq : q a with
    | true =>
      simp only [List.filter_cons, hq, Bool.not_true, List.filter_nil, List.foldl_append,
        List.foldl_cons, List.foldl_nil, if_true]
      simp only [Bool.false_eq_true, if_false]
      apply foldl_comm_past
      intro b hb
      rw [List.mem_filter] at hb
      exact h a (by simp) b (by simp [hb.1]) hq (by simpa using hb.2)
    | false =>
      simp only [List.filter_cons, hq, Bool.not_false, List.filter_nil, List.foldl_append,
        List.foldl_cons, List.foldl_nil, if_true, List.append_nil, Bool.false_eq_true, if_false]

theorem runWhole (T : Tasks S α) (t : Nat) (m : S) :
    (wholeTask T t).foldl (applyAction T) m = (T.acts t).foldl (fun m f => f m) m := by
  unfold wholeTask
  rw [List.foldl_map]
  have : ∀ (l : List (S → S)) (j : Nat) (m : S),
      (∀ i, i < l.length → (T.acts t).getD (j + i) id = l.getD i id) →
      (List.range l.length).foldl (fun m i => applyAction T m (t, j + i)) m
        = l.foldl (fun m f => f m) m := by
    intro l
    induction l with
    | nil => intro j m _; rfl
    | cons f l ih =>
      intro j m h
      rw [List.length_cons, List.range_succ_eq_map, List.foldl_cons, List.foldl_map, List.foldl_cons]
      have h0 := h 0 (by simp)
      have : applyAction T m (t, j + 0) = f m := by
        unfold applyAction
        simp only [h0]; rfl
      rw [this, ← ih (j + 1) (f m) (fun i hi => by
        have := h (i + 1) (by simpa using hi)
        rw [Nat.add_assoc, Nat.add_comm 1 i, this]; rfl)]
      simp only [Nat.add_assoc, Nat.add_comm 1, Nat.succ_eq_add_one]
  have := this (T.acts t) 0 m (fun i _ => by rw [Nat.zero_add])
  simpa using this

/-- Only actions of pushed tasks are executed. -/
theorem trace_mem {N : Nat} (hN : 0 < N) {S₀ : S} {p : List Op} (hp : Proper [] p) {n k : Nat}
    {s : State S α} (h : Exec T (init N S₀ p) n k s) :
    ∀ a ∈ s.trace, a.1 ∈ pushes p ∧ a.2 < (T.acts a.1).length := by
  have hi := inv_exec hN hp h
  obtain ⟨P, hP⟩ := hi.account
  intro a ha
  have ha' : a ∈ actionsOf s.trace a.1 := by
    unfold actionsOf; rw [List.mem_filter]; exact ⟨ha, by simp⟩
  have hpre := (C56_at_most_once hp h).1 a.1
  have hin := hpre.subset ha'
  simp only [wholeTask, List.mem_map, List.mem_range] at hin
  obtain ⟨j, hj, e⟩ := hin
  have e2 : a.2 = j := by rw [← e]
  refine ⟨?_, by rw [e2]; exact hj⟩
  by_contra hnp
  have h2 := hP.total a.1
  have h1 := hP.count a.1
  rw [List.count_eq_zero.2 hnp] at h2
  have hr := hi.trace.rest a.1 (fun i k' hik => by
    have := runs_le_runCount (w := s.wpc) (N := N) (i := i) (by
      by_contra hle
      have := hP.out i (by omega)
      rw [hik] at this; cases this) a.1
    rw [hik] at this
    simp only [WPc.runs, if_true] at this
    omega) (by
      intro hf
      have := List.count_pos_iff.2 hf
      omega)
  rw [hr] at ha'
  cases ha'

theorem pushes_nodup {N : Nat} (hN : 0 < N) {S₀ : S} {p : List Op} (hp : Proper [] p) {n k : Nat}
    {s : State S α} (h : Exec T (init N S₀ p) n k s) (hc : Complete s) : (pushes p).Nodup := by
  obtain ⟨P, hP⟩ := (inv_exec hN hp h).account
  rw [List.nodup_iff_count_le_one]
  intro t
  have h1 := hP.total t
  rw [hc.1] at h1
  have h2 := List.nodup_iff_count_le_one.1 hP.nodup t
  simp only [pushes, List.count_nil] at h1
  omega

/-- **C56** (atomic tasks).  If every task has a single action on the shared memory — for instance
one update under a mutex — then, whatever the schedule, the memory after all tasks have been
executed is the result of running them one after the other in some order. -/
theorem C56_atomic_tasks {N : Nat} (hN : 0 < N) {S₀ : S} {p : List Op} (hp : Proper [] p) {n k : Nat}
    {s : State S α} (h : Exec T (init N S₀ p) n k s) (hc : Complete s)
    (hall : ∀ t ∈ pushes p, Op.get t ∈ p) (hone : ∀ t ∈ pushes p, (T.acts t).length = 1) :
    ∃ ts : List Nat, ts.Perm (pushes p) ∧ s.shared = runSeq T S₀ ts := by
  have hwhole : ∀ t ∈ pushes p, actionsOf s.trace t = [(t, 0)] := fun t ht => by
    rw [(C56_get_waits hN hp h hc t (hall t ht)).2]
    unfold wholeTask
    rw [hone t ht]
    rfl
  have hmem := trace_mem hN hp h
  refine ⟨s.trace.map Prod.fst, ?_, ?_⟩
  · rw [List.perm_iff_count]
    intro t
    have h1 : (s.trace.map Prod.fst).count t = (actionsOf s.trace t).length := by
      unfold actionsOf
      rw [List.count, List.countP_map, List.countP_eq_length_filter]
      congr 1
    rw [h1]
    by_cases ht : t ∈ pushes p
    · rw [hwhole t ht, List.count_eq_one_of_mem (pushes_nodup hN hp h hc) ht]
      rfl
    · rw [List.count_eq_zero.2 ht, List.length_eq_zero_iff]
      unfold actionsOf
      rw [List.filter_eq_nil_iff]
      intro a ha he
      exact ht ((of_decide_eq_true he) ▸ (hmem a ha).1)
  · rw [(inv_exec hN hp h).trace.shared]
    unfold runSeq
    rw [List.foldl_map]
    apply List.foldl_ext
    intro m a ha
    obtain ⟨h1, h2⟩ := hmem a ha
    have h3 := hone a.1 h1
    obtain ⟨f, hf⟩ := List.length_eq_one_iff.1 h3
    have h4 : a.2 = 0 := by omega
    unfold applyAction
    rw [hf, h4]
    rfl

/-- **C56** (interleaving).  If the actions of different tasks commute — for instance because they
write to different places — then, whatever the schedule, the memory after all tasks have been
executed is the same as after running the tasks one after the other, in any order `ts`. -/
theorem C56_commuting {N : Nat} (hN : 0 < N) {S₀ : S} {p : List Op} (hp : Proper [] p) {n k : Nat}
    {s : State S α} (h : Exec T (init N S₀ p) n k s) (hc : Complete s)
    (hall : ∀ t ∈ pushes p, Op.get t ∈ p)
    (hcomm : ∀ t ∈ pushes p, ∀ u ∈ pushes p, t ≠ u → ∀ f ∈ T.acts t, ∀ g ∈ T.acts u,
      ∀ m, f (g m) = g (f m))
    (ts : List Nat) (hts : ts.Perm (pushes p)) : s.shared = runSeq T S₀ ts := by
  have hi := inv_exec hN hp h
  have hwhole : ∀ t ∈ pushes p, actionsOf s.trace t = wholeTask T t :=
    fun t ht => (C56_get_waits hN hp h hc t (hall t ht)).2
  obtain ⟨P, hP⟩ := hi.account
  have hmem := trace_mem hN hp h
  have hnd : ts.Nodup := hts.nodup_iff.2 (pushes_nodup hN hp h hc)
  rw [hi.trace.shared]
  -- pull the tasks out of the trace one by one
  have key : ∀ (ts : List Nat) (tr : List (Nat × Nat)) (m : S), ts.Nodup →
      (∀ t ∈ ts, t ∈ pushes p) → (∀ a ∈ tr, a.1 ∈ ts ∧ a.2 < (T.acts a.1).length) →
      (∀ t ∈ ts, actionsOf tr t = wholeTask T t) →
      tr.foldl (applyAction T) m = runSeq T m ts := by
    intro ts
    induction ts with
    | nil =>
      intro tr m _ _ ha _
      cases tr with
      | nil => rfl
      | cons a _ => exact absurd (ha a (by simp)).1 (by simp)
    | cons t ts ih =>
      intro tr m hnd hsub ha hw
      rw [foldl_filter_split (applyAction T) (fun a => decide (a.1 = t)) tr]
      · have h1 := hw t (by simp)
        unfold actionsOf at h1
        rw [h1, runWhole]
        unfold runSeq
        rw [List.foldl_cons]
        apply ih
        · exact (List.nodup_cons.1 hnd).2
        · exact fun u hu => hsub u (by simp [hu])
        · intro a hm
          rw [List.mem_filter] at hm
          have := ha a hm.1
          have hne : a.1 ≠ t := by simpa using hm.2
          rw [List.mem_cons] at this
          exact ⟨this.1.resolve_left hne, this.2⟩
        · intro u hu
          have hut : u ≠ t := fun e => (List.nodup_cons.1 hnd).1 (e ▸ hu)
          rw [← hw u (by simp [hu])]
          unfold actionsOf
          rw [List.filter_filter]
          apply List.filter_congr
          intro a _
          by_cases e : a.1 = u
          · simp [e, hut]
          · simp [e]
      · intro a hma b hmb hqa hqb m
        have ea : a.1 = t := by simpa using hqa
        have eb : b.1 ≠ t := by simpa using hqb
        have hla := (ha a hma).2
        have hlb := (ha b hmb).2
        unfold applyAction
        rw [List.getD_eq_getElem (T.acts a.1) id hla, List.getD_eq_getElem (T.acts b.1) id hlb]
        exact hcomm a.1 (hsub _ (ha a hma).1) b.1 (hsub _ (ha b hmb).1) (by rw [ea]; exact eb.symm)
          _ (List.getElem_mem hla) _ (List.getElem_mem hlb) m
  refine key ts s.trace S₀ hnd (fun t ht => hts.mem_iff.1 ht) (fun a ha => ?_)
    (fun t ht => hwhole t (hts.mem_iff.1 ht))
  exact ⟨hts.mem_iff.2 (hmem a ha).1, (hmem a ha).2⟩

/-! ## Limits -/

/-- **C56** (no worker).  A pool with no threads — `hardware_concurrency()` may return 0 — never
runs anything: a client that waits for a task never comes back. -/
theorem C56_no_workers {S₀ : S} {p : List Op} {n k : Nat} {s : State S α}
    (h : Exec T (init 0 S₀ p) n k s) (t : Nat) (ht : Op.get t ∈ p) :
    s.finished = [] ∧ s.trace = [] ∧ ¬ Complete s := by
  have key : s.finished = [] ∧ s.trace = [] ∧ (∀ i, s.wpc i = .exited) ∧ Op.get t ∈ s.prog := by
    induction h with
    | nil => exact ⟨rfl, rfl, fun i => by simp [init], ht⟩
    | snoc _ st ih =>
      obtain ⟨h1, h2, h3, h4⟩ := ih
      cases st <;> simp only [] <;> grind [upd]
  refine ⟨key.1, key.2.1, fun hc => ?_⟩
  have := key.2.2.2
  rw [hc.1] at this
  cases this

/-- **C56** (`stop(false)`).  Without waiting for the futures, `stop(false)` may delete tasks: some
execution of `push; stop(false)` ends with the task never executed. -/
theorem C56_stop_false_may_drop (S₀ : S) :
    ∃ n s, Exec T (init 1 S₀ [.push 0, .stop false]) n 0 s ∧ Complete s ∧ s.dropped = [0] ∧
      0 ∉ s.finished.map Prod.fst ∧ s.trace = [] := by
  have hp : Proper [] [Op.push 0, .stop false] := by simp [Proper]
  have e1 : Exec T (init 1 S₀ [.push 0, .stop false]) 1 0 _ := Exec.nil.snoc (.push _ 0 _ rfl rfl)
  have e2 := e1.snoc (.pushLock _ rfl rfl)
  have e3 := e2.snoc (.notifyNone _ rfl (by intro i; simp only [init]; split_ifs <;> simp))
  have e4 := e3.snoc (.stopFalse _ [] rfl rfl rfl)
  have e5 := e4.snoc (.setFlag _ 0 rfl (by simp [init]))
  have e6 := e5.snoc (.flagsDone _ 1 rfl (by simp [init]))
  have e7 := e6.snoc (.clear _ 0 [] rfl rfl)
  obtain ⟨m, s', h', hc⟩ := C56_completes (by omega) hp e7
  have keep : 0 ∈ s'.dropped := by
    have : ∀ {s₀ s₁ : State S α} {a b : Nat}, Exec T s₀ a b s₁ → 0 ∈ s₀.dropped →
        0 ∈ s₁.dropped := by
      intro s₀ s₁ a b h h0
      induction h with
      | nil => exact h0
      | snoc _ st ih => cases st <;> simp only [] <;> grind
    exact this h' (by simp [init])
  have hex := e7.trans h'
  obtain ⟨⟨P, hP⟩, ht⟩ := account_exec hp hex
  have he := hP.excl
  have hnf := he.dfin 0 keep
  have hcount : ∀ t, s'.dropped.count t + (s'.finished.map Prod.fst).count t ≤ [0].count t := by
    intro t
    have h1 := hP.count t
    have h2 := hP.total t
    simp only [pushes] at h2
    omega
  have hfin : s'.finished.map Prod.fst = [] := by
    apply List.eq_nil_iff_forall_not_mem.2
    intro t hm
    have h1 := List.count_pos_iff.2 hm
    have h2 := hcount t
    have : t = 0 := by
      by_contra hne
      rw [List.count_eq_zero.2 (by simpa using hne : t ∉ [0])] at h2
      omega
    exact hnf (this ▸ hm)
  have hperm : s'.dropped.Perm [0] := by
    rw [List.perm_iff_count]
    intro t
    have h1 := hcount t
    have h2 := List.count_pos_iff.2 keep
    by_cases e : t = 0
    · subst e; simp at h1 ⊢; omega
    · rw [List.count_eq_zero.2 (by simpa using e : t ∉ [0])] at h1 ⊢; omega
  refine ⟨_, s', hex, hc, List.perm_singleton.1 hperm, hnf, ?_⟩
  apply List.eq_nil_iff_forall_not_mem.2
  intro a ha
  have ha' : a ∈ actionsOf s'.trace a.1 := by
    unfold actionsOf; rw [List.mem_filter]; exact ⟨ha, by simp⟩
  rw [ht.rest a.1 (fun i k hi => ?_) (by rw [hfin]; simp)] at ha'
  · cases ha'
  · have h0 := he.drun i a.1 k hi
    have h1 := hP.count a.1
    have h2 := hP.total a.1
    have h3 := runs_le_runCount (w := s'.wpc) (N := 1) (i := i) (by
        by_contra hle
        have := hP.out i (by omega)
        rw [hi] at this; cases this) a.1
    rw [hi] at h3
    simp only [WPc.runs, if_true] at h3
    by_cases e : a.1 = 0
    · rw [e] at h0; exact h0 keep
    · simp only [pushes] at h2
      rw [List.count_eq_zero.2 (by simpa using e : a.1 ∉ [0])] at h2
      omega

/-! ## The way the library uses the pool -/

/-- Push `n` tasks, wait for each future in order, and stop the pool: by `pool.stop()` and the
destructor (`ws = [false, true]`, `stag_lib/kde.cpp:334-379,466-508,714-760`), or by the destructor
alone (`ws = [true]`, `stag_lib/cluster.cpp:882-911,952-993`). -/
def libProg (n : Nat) (ws : List Bool) : List Op :=
  (List.range n).map .push ++ ((List.range n).map .get ++ ws.map .stop)

theorem pushes_libProg (n : Nat) (ws : List Bool) : pushes (libProg n ws) = List.range n := by
  have h1 : ∀ (l : List Nat) (p : List Op), pushes (l.map .push ++ p) = l ++ pushes p := by
    intro l p
    induction l with
    | nil => rfl
    | cons a l ih => simp only [List.map_cons, List.cons_append, pushes, ih]
  have h2 : ∀ (l : List Nat) (p : List Op), pushes (l.map .get ++ p) = pushes p := by
    intro l p
    induction l with
    | nil => rfl
    | cons a l ih => simp only [List.map_cons, List.cons_append, pushes, ih]
  have h3 : pushes (ws.map Op.stop) = [] := by
    induction ws with
    | nil => rfl
    | cons w ws ih => simpa [pushes] using ih
  unfold libProg
  rw [h1, h2, h3, List.append_nil]

theorem proper_libProg (n : Nat) (ws : List Bool) : Proper [] (libProg n ws) := by
  have hg : ∀ (l P : List Nat), (∀ t ∈ l, t ∈ P) →
      Proper P (l.map .get ++ ws.map .stop) := by
    intro l P
    induction l with
    | nil =>
      intro _
      exact (proper_stops (by intro o ho; rw [List.map_nil, List.nil_append, List.mem_map] at ho
                              obtain ⟨w, _, e⟩ := ho; exact ⟨w, e.symm⟩)).1
    | cons a l ih =>
      intro h
      exact ⟨h a (by simp), ih (fun t ht => h t (by simp [ht]))⟩
  have hpu : ∀ (l P : List Nat), l.Nodup → (∀ t ∈ l, t ∉ P) →
      (∀ t ∈ List.range n, t ∈ l ∨ t ∈ P) →
      Proper P (l.map .push ++ ((List.range n).map .get ++ ws.map .stop)) := by
    intro l
    induction l with
    | nil => intro P _ _ h; exact hg _ P (fun t ht => (h t ht).resolve_left (by simp))
    | cons a l ih =>
      intro P hn hd h
      rw [List.nodup_cons] at hn
      refine ⟨hd a (by simp), ih (a :: P) hn.2 (fun t ht => ?_) (fun t ht => ?_)⟩
      · rw [List.mem_cons, not_or]
        exact ⟨fun e => hn.1 (e ▸ ht), hd t (by simp [ht])⟩
      · have := h t ht
        simp only [List.mem_cons] at this ⊢
        tauto
  exact hpu _ [] List.nodup_range (by simp) (fun t ht => .inl ht)

theorem libProg_gets (n : Nat) (ws : List Bool) :
    ∀ t ∈ pushes (libProg n ws), Op.get t ∈ libProg n ws := by
  intro t ht
  rw [pushes_libProg] at ht
  unfold libProg
  simp only [List.mem_append, List.mem_map]
  exact .inr (.inl ⟨t, ht, rfl⟩)

/-- **C56** (library usage).  With at least one worker, when the client is through — all futures
read, the pool stopped and destroyed — each of the `n` tasks has been executed exactly once, nothing
was deleted, and all threads have returned. -/
theorem C56_library_usage {N : Nat} (hN : 0 < N) {S₀ : S} (n : Nat) (ws : List Bool) (hws : ws ≠ []) {m k : Nat} {s : State S α}
    (h : Exec T (init N S₀ (libProg n ws)) m k s) (hc : Complete s) :
    (s.finished.map Prod.fst).Perm (List.range n) ∧
    (∀ t < n, actionsOf s.trace t = wholeTask T t) ∧ s.dropped = [] ∧ s.q = [] ∧
    ∀ i, s.wpc i = .exited := by
  have hp := proper_libProg n ws
  have hi := inv_exec hN hp h
  have hh := hist_exec hN hp h
  obtain ⟨P, hP⟩ := hi.account
  have hfin : ∀ t < n, t ∈ s.finished.map Prod.fst := fun t ht =>
    (C56_get_waits hN hp h hc t (libProg_gets n ws t (by
      rw [pushes_libProg]; exact List.mem_range.2 ht))).1
  have hcnt : ∀ t, s.q.count t + runCount N s.wpc t + (s.finished.map Prod.fst).count t
      + s.dropped.count t = (List.range n).count t := by
    intro t
    have h1 := hP.count t
    have h2 := hP.total t
    rw [hc.1, pushes_libProg] at h2
    simp only [pushes, List.count_nil] at h2
    omega
  have hz : ∀ t, s.q.count t = 0 ∧ s.dropped.count t = 0 ∧
      (s.finished.map Prod.fst).count t = (List.range n).count t := by
    intro t
    have h1 := hcnt t
    by_cases ht : t < n
    · have h2 := List.count_pos_iff.2 (hfin t ht)
      have h3 := List.nodup_iff_count_le_one.1 (List.nodup_range (n := n)) t
      omega
    · rw [List.count_eq_zero.2 (by simpa using ht : t ∉ List.range n)] at h1 ⊢
      omega
  refine ⟨List.perm_iff_count.2 (fun t => (hz t).2.2), fun t ht => hi.trace.fin t (hfin t ht), ?_,
    ?_, hh.joined ?_ hc.2⟩
  · apply List.eq_nil_iff_forall_not_mem.2
    exact fun t ht => List.count_eq_zero.1 (hz t).2.1 ht
  · apply List.eq_nil_iff_forall_not_mem.2
    exact fun t ht => List.count_eq_zero.1 (hz t).1 ht
  · obtain ⟨w, ws, rfl⟩ := List.exists_cons_of_ne_nil hws
    have := hh.signalled w (by simp [libProg])
    rw [hc.1] at this
    exact this.resolve_left (by simp)

/-- Non-vacuity: with any positive number of workers the library's program does reach its end, and
then a shared counter incremented by each task shows the number of tasks. -/
example (N n : Nat) (hN : 0 < N) :
    ∃ (m : Nat) (s : State Nat Unit),
      Exec ⟨fun _ => [(· + 1)], fun _ _ => ()⟩ (init N 0 (libProg n [false, true])) m 0 s ∧ Complete s ∧
        s.shared = n := by
  obtain ⟨m, s, h, hc⟩ := C56_completes (T := (⟨fun _ => [(· + 1)], fun _ _ => ()⟩ : Tasks Nat Unit))
    hN (S₀ := 0) (proper_libProg n [false, true]) .nil
  refine ⟨m, s, h, hc, ?_⟩
  have hs := C56_commuting hN (proper_libProg n _) h hc (libProg_gets n _)
    (by intro t _ u _ _ f hf g hg m; simp only [List.mem_singleton] at hf hg; rw [hf, hg])
    (List.range n) (by rw [pushes_libProg])
  rw [hs]
  unfold runSeq
  simp only [List.foldl_cons, List.foldl_nil]
  induction n with
  | zero => rfl
  | succ n ih =>
    rw [List.range_succ, List.foldl_append]
    have : ∀ (l : List Nat) (a : Nat), l.foldl (fun m _ => m + 1) a = a + l.length := by
      intro l
      induction l with
      | nil => intro a; rfl
      | cons b l ih => intro a; simp only [List.foldl_cons, ih, List.length_cons]; omega
    simp [this]

end Stag.Pool
