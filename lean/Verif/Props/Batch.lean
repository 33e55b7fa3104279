import Verif.Kde
import Mathlib.Data.List.GetD

/-!
# C47: batch queries, split over the threads, give the single-point answers
-/

namespace Stag

open Pool

variable {β : Type}

theorem writeChunk_ok (rs : List β) : ∀ (pre rest : List β), rs.length ≤ rest.length →
    writeChunk (pre ++ rest) pre.length rs
      = .ok (pre ++ rs ++ rest.drop rs.length, (pre ++ rs).length) := by
  induction rs with
  | nil => intro pre rest _; simp [writeChunk]
  | cons r rs ih =>
    intro pre rest h
    cases rest with
    | nil => simp at h
    | cons x rest =>
      have hlt : pre.length < (pre ++ x :: rest).length := by simp
      rw [writeChunk, if_pos hlt]
      have e : (pre ++ x :: rest).set pre.length r = (pre ++ [r]) ++ rest := by simp
      have e2 : pre.length + 1 = (pre ++ [r]).length := by simp
      rw [e, e2, ih (pre ++ [r]) rest (by simpa using h)]
      simp

theorem collectChunks_ok (future : Nat → List β) : ∀ (cs : List Nat) (pre rest : List β),
    (cs.flatMap future).length ≤ rest.length →
    collectChunks future (pre ++ rest) pre.length cs
      = .ok (pre ++ cs.flatMap future ++ rest.drop (cs.flatMap future).length,
          (pre ++ cs.flatMap future).length) := by
  intro cs
  induction cs with
  | nil => intro pre rest _; simp [collectChunks]
  | cons c cs ih =>
    intro pre rest h
    rw [List.flatMap_cons, List.length_append] at h
    rw [collectChunks, writeChunk_ok _ _ _ (by omega), Outcome.bind_ok]
    simp only []
    rw [ih (pre ++ future c) (rest.drop (future c).length) (by rw [List.length_drop]; omega)]
    simp [List.flatMap_cons]

/-- The rows of the chunks, one after the other, are all the rows. -/
theorem chunks_cover (rows threads : Nat) (h : 0 < threads) (single : Nat → β) :
    (List.range threads).flatMap (fun c => (List.range (chunkEnd rows threads c
      - chunkStart rows threads c)).map (fun t => single (chunkStart rows threads c + t)))
      = (List.range rows).map single := by
  obtain ⟨m, rfl⟩ : ∃ m, threads = m + 1 := ⟨threads - 1, by omega⟩
  set z := rows / (m + 1) with hz
  have hpre : ∀ k ≤ m, (List.range k).flatMap (fun c => (List.range (chunkEnd rows (m + 1) c
      - chunkStart rows (m + 1) c)).map (fun t => single (chunkStart rows (m + 1) c + t)))
      = (List.range (k * z)).map single := by
    intro k
    induction k with
    | zero => simp
    | succ k ih =>
      intro hk
      rw [List.range_succ, List.flatMap_append, ih (by omega)]
      simp only [List.flatMap_cons, List.flatMap_nil, List.append_nil, chunkEnd, chunkStart]
      rw [if_neg (by omega), ← hz, Nat.add_sub_cancel_left, Nat.succ_mul, List.range_add,
        List.map_append, List.map_map]
      rfl
  have hle : m * z ≤ rows := by
    have h1 : (m + 1) * z ≤ rows := by rw [hz]; exact Nat.mul_div_le rows (m + 1)
    rw [Nat.succ_mul] at h1; exact le_trans (Nat.le_add_right _ _) h1
  rw [List.range_succ, List.flatMap_append, hpre m (Nat.le_refl _)]
  simp only [List.flatMap_cons, List.flatMap_nil, List.append_nil, chunkEnd, chunkStart]
  rw [if_pos (by omega), ← hz]
  conv => rhs; rw [show rows = m * z + (rows - m * z) by omega, List.range_add]
  rw [List.map_append, List.map_map]
  rfl

/-- Every run of the parallel branch, with at least one thread, returns the single answers. -/
theorem parallelBatch_ok {answers : Nat → Nat → List β} {zero : β} {rows threads : Nat}
    {out : Outcome (List β)} (single : Nat → β) (ht : 0 < threads)
    (hans : ∀ lo hi, lo ≤ hi → hi ≤ rows →
      answers lo hi = (List.range (hi - lo)).map (fun t => single (lo + t)))
    (h : ParallelBatch answers zero rows threads out) :
    out = .ok ((List.range rows).map single) := by
  obtain ⟨m, k, s, hex, hc, rfl⟩ := h
  have hlib := C56_library_usage ht threads [false, true] (by simp) hex hc
  have hval := C56_future_value (T := chunkTasks answers rows threads) rfl hex
  have hfut : ∀ c ∈ List.range threads, futureValue s.finished c
      = (List.range (chunkEnd rows threads c - chunkStart rows threads c)).map
          (fun t => single (chunkStart rows threads c + t)) := by
    intro c hcm
    have hin : c ∈ s.finished.map Prod.fst := (hlib.1.mem_iff).2 hcm
    obtain ⟨x, hx, hxc⟩ := List.mem_map.1 hin
    have hsome : (s.finished.find? (fun x => x.1 = c)).isSome := by
      rw [List.find?_isSome]; exact ⟨x, hx, by simpa using hxc⟩
    obtain ⟨y, hy⟩ := Option.isSome_iff_exists.1 hsome
    have hy1 : y.1 = c := by simpa using List.find?_some hy
    have hy2 : y ∈ s.finished := List.mem_of_find?_eq_some hy
    obtain ⟨_, hv⟩ := hval y hy2
    unfold futureValue
    rw [hy]
    simp only [Option.map_some, Option.getD_some]
    rw [hv, hy1]
    have hz : threads * (rows / threads) ≤ rows := Nat.mul_div_le rows threads
    have hcl : c < threads := List.mem_range.1 hcm
    have hcz : c * (rows / threads) + rows / threads ≤ rows := by
      have := Nat.mul_le_mul_right (rows / threads) (show c + 1 ≤ threads from hcl)
      rw [Nat.succ_mul] at this
      exact le_trans this hz
    apply hans
    · unfold chunkEnd chunkStart
      split_ifs
      · exact le_trans (Nat.le_add_right _ _) hcz
      · exact Nat.le_add_right _ _
    · unfold chunkEnd chunkStart
      split_ifs
      · exact le_rfl
      · exact hcz
  have hflat : (List.range threads).flatMap (futureValue s.finished)
      = (List.range rows).map single := by
    rw [← chunks_cover rows threads ht single]
    unfold List.flatMap
    rw [List.map_congr_left hfut]
  have hcol := collectChunks_ok (futureValue s.finished) (List.range threads) []
    (List.replicate rows zero) (by rw [hflat]; simp)
  rw [List.nil_append, List.length_nil] at hcol
  rw [hcol, hflat]
  simp [Outcome.bind]

/-- There is a run: a batch query always returns. -/
theorem parallelBatch_exists (answers : Nat → Nat → List β) (zero : β) (rows threads : Nat)
    (ht : 0 < threads) : ∃ out, ParallelBatch answers zero rows threads out := by
  obtain ⟨m, s, hex, hc⟩ := C56_completes (T := chunkTasks answers rows threads) ht
    (proper_libProg threads [false, true]) (S₀ := ()) Exec.nil
  exact ⟨_, m, 0, s, hex, hc, rfl⟩

/-- **C47** (exact estimator).  For every number of worker threads from one on, every number of
query points and every schedule, the batch query returns the single-point answers in order, and it
does return. -/
theorem C47_exact (e : ExactKde) (points : List (List ℝ)) (threads : Nat) (ht : 0 < threads) :
    (∃ out, e.BatchQuery points threads out) ∧
    ∀ out, e.BatchQuery points threads out → out = .ok (points.map e.query) := by
  unfold ExactKde.BatchQuery
  split_ifs with h
  · exact ⟨⟨_, rfl⟩, fun _ h => h⟩
  · refine ⟨parallelBatch_exists _ _ _ _ ht, fun out ho => ?_⟩
    rw [parallelBatch_ok (fun i => e.query (points.getD i [])) ht (fun lo hi _ _ => rfl) ho]
    congr 1
    apply List.ext_getElem (by simp)
    intro i h1 h2
    simp only [List.getElem_map, List.getElem_range]
    rw [List.getD_eq_getElem]

/-- **C47** (no threads).  `hardware_concurrency()` may be 0; then the batch query answers 0
everywhere, which is wrong as soon as there are data and queries. -/
theorem C47_exact_no_threads (e : ExactKde) (points : List (List ℝ)) :
    ∀ out, e.BatchQuery points 0 out → out = .ok (List.replicate points.length (some 0)) := by
  intro out h
  unfold ExactKde.BatchQuery at h
  rw [if_neg (by omega)] at h
  obtain ⟨m, k, s, _, _, rfl⟩ := h
  rfl

/-- Three queries on two threads. -/
example (e : ExactKde) (p q r : List ℝ) : ∀ out, e.BatchQuery [p, q, r] 2 out →
    out = .ok [e.query p, e.query q, e.query r] := (C47_exact e [p, q, r] 2 (by omega)).2

end Stag
