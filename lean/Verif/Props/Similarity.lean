import Verif.Similarity
import Verif.Props.Batch
import Verif.Props.Kde
import Verif.Props.Construct
import Verif.Props.Named

/-!
# C51, C52: similarity graphs
-/

namespace Stag

open Pool Graph Real

/-! ## Graphs from triplets -/

theorem tripletSum_nonneg {l : List (Triplet ℝ)} (h : ∀ t ∈ l, 0 ≤ t.val) (i j : Nat) :
    0 ≤ SprsMat.tripletSum l i j := by
  unfold SprsMat.tripletSum
  apply List.sum_nonneg
  intro x hx
  obtain ⟨t, ht, rfl⟩ := List.mem_map.1 hx
  split_ifs
  · exact h t ht
  · exact le_refl 0

/-- Triplets in range, with non-negative values, whose sums are symmetric, give a graph. -/
theorem graphOfTriplets_spec {N : Nat} {l : List (Triplet ℝ)}
    (hl : ∀ t ∈ l, t.row < N ∧ t.col < N) (hn : ∀ t ∈ l, 0 ≤ t.val)
    (hs : ∀ i j, SprsMat.tripletSum l i j = SprsMat.tripletSum l j i) :
    ∃ g, graphOfTriplets N l = .ok g ∧ g.Valid ∧ g.Pruned ∧
      g.abs = ⟨N, fun i j => thr (SprsMat.tripletSum l i j)⟩ := by
  obtain ⟨m, hm, hw, hr, hc, hmc, _⟩ := SprsMat.setFromTriplets_spec hl
  have hnn : ∀ j, ∀ e ∈ m.col j, 0 ≤ e.2 := by
    intro j e he
    have h1 := Col.coeff_eq_of_mem (hw.sorted j) (r := e.1) (v := e.2) he
    have h2 := hmc e.1 j
    unfold SprsMat.coeff at h2
    rw [← h1, h2]
    exact tripletSum_nonneg hn _ _
  obtain ⟨h1, _, h3⟩ := C01_construct_adjacency_iff hw (by omega) hnn
  obtain ⟨g, hg⟩ := h1.2 (fun i j => by rw [hmc, hmc, hs])
  obtain ⟨hgn, hgc⟩ := h3 g hg
  refine ⟨g, by unfold graphOfTriplets; rw [hm]; exact hg, (ofMatrix_ok hw hg).1,
    (ofMatrix_ok hw hg).2.1, ?_⟩
  unfold Graph.abs
  congr 1
  · omega
  · funext i j; rw [hgc, hmc]

/-! ## C51 -/

/-- The weights of the similarity graph: the Gaussian kernel, and 0 outside the vertices. -/
noncomputable def kernelWeight (data : Mat ℝ) (a : ℝ) (i j : Nat) : ℝ :=
  if i < data.rows ∧ j < data.rows then exp (-(a * sqDist (data.row i) (data.row j))) else 0

theorem row_length (m : Mat ℝ) (i : Nat) : (m.row i).length = m.cols := by
  simp [Mat.row]

theorem kernelOf_comm (a : ℝ) (data : Mat ℝ) (i j : Nat) :
    kernelOf a (data.row i) (data.row j) = kernelOf a (data.row j) (data.row i) :=
  (C46_kernel a _ _ (by rw [row_length, row_length])).2.1

theorem simRow_sum (a : ℝ) (data : Mat ℝ) (r i j : Nat) :
    SprsMat.tripletSum (simRow a data r) i j =
      if (r = min i j ∧ max i j < data.rows) then kernelOf a (data.row i) (data.row j) else 0 := by
  unfold simRow
  rw [SprsMat.tripletSum_flatMap, List.range'_eq_map_range, List.map_map, sum_list_range]
  have key : ∀ t, ((fun b => SprsMat.tripletSum
      (⟨r, b, kernelOf a (data.row r) (data.row b)⟩ :: (if r ≠ b then
        [⟨b, r, kernelOf a (data.row r) (data.row b)⟩] else []) : List (Triplet ℝ)) i j) ∘
      (fun x => r + x)) t
      = if (r = min i j ∧ r + t = max i j) then kernelOf a (data.row i) (data.row j) else 0 := by
    intro t
    simp only [Function.comp, SprsMat.tripletSum_cons]
    by_cases ht : r ≠ r + t
    · rw [if_pos ht]
      simp only [SprsMat.tripletSum_cons, SprsMat.tripletSum_nil, add_zero]
      by_cases h1 : r = i ∧ r + t = j
      · rw [if_pos h1, if_neg (by omega), if_pos (by omega), h1.1, ← h1.1, h1.2, add_zero]
      · rw [if_neg h1, zero_add]
        by_cases h2 : r + t = i ∧ r = j
        · rw [if_pos h2, if_pos (by omega), h2.1, ← h2.2, kernelOf_comm]
        · rw [if_neg h2, if_neg (by omega)]
    · rw [if_neg ht]
      simp only [SprsMat.tripletSum_nil, add_zero]
      by_cases h1 : r = i ∧ r + t = j
      · rw [if_pos h1, if_pos (by omega), h1.1, ← h1.1, h1.2]
      · rw [if_neg h1, if_neg (by omega)]
  simp only [key]
  by_cases h : r = min i j ∧ max i j < data.rows
  · rw [if_pos h, Finset.sum_eq_single (max i j - min i j)]
    · rw [if_pos (by omega)]
    · intro b _ hb; rw [if_neg (by omega)]
    · intro hb; rw [Finset.mem_range] at hb; omega
  · rw [if_neg h]
    apply Finset.sum_eq_zero
    intro t ht
    rw [Finset.mem_range] at ht
    rw [if_neg (by omega)]

theorem simEdges_sum (a : ℝ) (data : Mat ℝ) (i j : Nat) :
    SprsMat.tripletSum (simEdges a data 0 data.rows) i j = kernelWeight data a i j := by
  unfold simEdges kernelWeight
  rw [SprsMat.tripletSum_flatMap, Nat.sub_zero, List.range'_eq_map_range, List.map_map,
    sum_list_range]
  simp only [Function.comp, Nat.zero_add, simRow_sum]
  by_cases h : i < data.rows ∧ j < data.rows
  · rw [if_pos h, Finset.sum_eq_single (min i j)]
    · rw [if_pos (by omega), kernelOf_eq]; rfl
    · intro b _ hb; rw [if_neg (by omega)]
    · intro hb; rw [Finset.mem_range] at hb; omega
  · rw [if_neg h]
    exact Finset.sum_eq_zero (fun t _ => if_neg (by omega))

theorem simEdges_mem (a : ℝ) (data : Mat ℝ) : ∀ t ∈ simEdges a data 0 data.rows,
    (t.row < data.rows ∧ t.col < data.rows) ∧ 0 ≤ t.val := by
  intro t ht
  unfold simEdges simRow at ht
  simp only [List.mem_flatMap, List.mem_range'_1] at ht
  obtain ⟨i, hi, j, hj, ht⟩ := ht
  have hk : 0 ≤ kernelOf a (data.row i) (data.row j) := by
    rw [kernelOf_eq]; exact (exp_pos _).le
  have : t = ⟨i, j, kernelOf a (data.row i) (data.row j)⟩ ∨
      t = ⟨j, i, kernelOf a (data.row i) (data.row j)⟩ := by
    rw [List.mem_cons] at ht
    rcases ht with ht | ht
    · exact .inl ht
    · split_ifs at ht
      · exact .inr (by simpa using ht)
      · simp at ht
  rcases this with rfl | rfl
  · exact ⟨⟨by simp only; omega, by simp only; omega⟩, hk⟩
  · exact ⟨⟨by simp only; omega, by simp only; omega⟩, hk⟩

/-- The similarity graph itself, as `ofMatrix` makes it. -/
theorem simGraph (a : ℝ) (data : Mat ℝ) :
    ∃ g, graphOfTriplets data.rows (simEdges a data 0 data.rows) = .ok g ∧ g.Valid ∧ g.Pruned ∧
      g.abs = ⟨data.rows, fun i j => thr (kernelWeight data a i j)⟩ := by
  obtain ⟨g, hg, hv, hp, ha⟩ := graphOfTriplets_spec
    (fun t ht => (simEdges_mem a data t ht).1) (fun t ht => (simEdges_mem a data t ht).2) (by
      intro i j
      rw [simEdges_sum, simEdges_sum]
      unfold kernelWeight
      by_cases h : i < data.rows ∧ j < data.rows
      · rw [if_pos h, if_pos h.symm, sqDist_comm _ _ (by rw [row_length, row_length])]
      · rw [if_neg h, if_neg (fun h' => h h'.symm)])
  refine ⟨g, hg, hv, hp, ?_⟩
  rw [ha]
  simp only [simEdges_sum]

/-- When the client has read all the futures, each is the value of its task. -/
theorem futures_eq {β : Type} {answers : Nat → Nat → List β} {rows threads : Nat} (ht : 0 < threads)
    {ws : List Bool} {m k : Nat} {s : State Unit (List β)}
    (hex : Exec (chunkTasks answers rows threads) (init threads () (libProg threads ws)) m k s)
    (hc : Complete s) : ∀ c ∈ List.range threads, futureValue s.finished c
      = answers (chunkStart rows threads c) (chunkEnd rows threads c) := by
  have hval := C56_future_value (T := chunkTasks answers rows threads) rfl hex
  intro c hcm
  have hin : c ∈ s.finished.map Prod.fst :=
    (C56_get_waits ht (proper_libProg threads ws) hex hc c (libProg_gets threads ws c
      (by rw [pushes_libProg]; exact hcm))).1
  obtain ⟨x, hx, hxc⟩ := List.mem_map.1 hin
  have hsome : (s.finished.find? (fun x => x.1 = c)).isSome := by
    rw [List.find?_isSome]; exact ⟨x, hx, by simpa using hxc⟩
  obtain ⟨y, hy⟩ := Option.isSome_iff_exists.1 hsome
  have hy1 : y.1 = c := by simpa using List.find?_some hy
  obtain ⟨_, hv⟩ := hval y (List.mem_of_find?_eq_some hy)
  unfold futureValue
  rw [hy]
  simp only [Option.map_some, Option.getD_some]
  rw [hv, hy1]
  rfl

theorem simEdges_chunks (a : ℝ) (data : Mat ℝ) (threads : Nat) (ht : 0 < threads) :
    (List.range threads).flatMap (fun c => simEdges a data (chunkStart data.rows threads c)
      (chunkEnd data.rows threads c)) = simEdges a data 0 data.rows := by
  have h := congrArg List.flatten (chunks_cover data.rows threads ht (simRow a data))
  unfold simEdges
  simp only [List.range'_eq_map_range, List.flatMap_map]
  simp only [List.flatMap_def, Nat.zero_add, Nat.sub_zero] at h ⊢
  rw [← h, List.flatten_flatten, List.map_map]
  rfl

/-- **C51**.  For every data matrix, every `a`, every positive number of threads and every schedule,
`similarity_graph` returns a graph, and it is the one whose vertices are the rows and whose weight
between `i` and `j` is `exp(-a |x_i - x_j|²)`, dropped when not above the pruning threshold. -/
theorem C51_similarity_graph (data : Mat ℝ) (a : ℝ) (threads : Nat) (ht : 0 < threads) :
    (∃ out, SimilarityGraph data a threads out) ∧
    ∀ out, SimilarityGraph data a threads out → ∃ g, out = .ok g ∧ g.Valid ∧ g.Pruned ∧
      g.abs = ⟨data.rows, fun i j => thr (kernelWeight data a i j)⟩ := by
  obtain ⟨g, hg, rest⟩ := simGraph a data
  unfold SimilarityGraph
  split_ifs with h
  · exact ⟨⟨_, rfl⟩, fun out ho => ⟨g, by rw [ho, hg], rest⟩⟩
  · constructor
    · obtain ⟨m, s, hex, hc⟩ := C56_completes (T := chunkTasks (simEdges a data) data.rows threads) ht
        (proper_libProg threads [true]) (S₀ := ()) Exec.nil
      exact ⟨_, m, 0, s, hex, hc, rfl⟩
    · rintro out ⟨m, k, s, hex, hc, rfl⟩
      refine ⟨g, ?_, rest⟩
      have : (List.range threads).flatMap (futureValue s.finished)
          = simEdges a data 0 data.rows := by
        rw [← simEdges_chunks a data threads ht]
        unfold List.flatMap
        rw [List.map_congr_left (futures_eq ht hex hc)]
      rw [this, hg]

/-- **C51**.  The graph is symmetric, every vertex has a self-loop of weight one, and (for `a ≥ 0`)
no weight is above one. -/
theorem C51_weights (data : Mat ℝ) (a : ℝ) (i j : Nat) :
    thr (kernelWeight data a i j) = thr (kernelWeight data a j i) ∧
    (i < data.rows → thr (kernelWeight data a i i) = 1) ∧
    (0 ≤ a → thr (kernelWeight data a i j) ≤ 1) ∧
    (thr (kernelWeight data a i j) = 0 ∨
      thr (kernelWeight data a i j) = exp (-(a * sqDist (data.row i) (data.row j)))) := by
  refine ⟨?_, ?_, ?_, ?_⟩
  · unfold kernelWeight
    by_cases h : i < data.rows ∧ j < data.rows
    · rw [if_pos h, if_pos h.symm, sqDist_comm _ _ (by rw [row_length, row_length])]
    · rw [if_neg h, if_neg (fun h' => h h'.symm)]
  · intro h
    have : kernelWeight data a i i = 1 := by
      unfold kernelWeight
      rw [if_pos ⟨h, h⟩, sqDist_self]
      simp
    rw [this, thr, if_pos]
    unfold epsilon
    norm_num
  · intro ha
    unfold thr
    split_ifs
    · unfold kernelWeight
      split_ifs
      · rw [exp_le_one_iff]
        have := mul_nonneg ha (sqDist_nonneg (data.row i) (data.row j))
        linarith
      · norm_num
    · norm_num
  · unfold thr kernelWeight
    split_ifs <;> simp

/-- **C51** (no threads).  If `hardware_concurrency()` is 0 the result is the graph without edges. -/
theorem C51_no_threads (data : Mat ℝ) (a : ℝ) (h : 0 < data.rows) :
    ∀ out, SimilarityGraph data a 0 out → ∃ g, out = .ok g ∧ g.Valid ∧
      g.abs = ⟨data.rows, fun _ _ => 0⟩ := by
  intro out ho
  unfold SimilarityGraph at ho
  rw [if_neg (by omega)] at ho
  obtain ⟨m, k, s, _, _, rfl⟩ := ho
  obtain ⟨g, hg, hv, _, ha⟩ := graphOfTriplets_spec (N := data.rows) (l := []) (by simp) (by simp)
    (by simp [SprsMat.tripletSum_nil])
  refine ⟨g, hg, hv, ?_⟩
  rw [ha]
  congr 1
  funext i j
  rw [SprsMat.tripletSum_nil, thr, ite_self]

/-- Three points on two threads, and the three weights. -/
example : ∀ out, SimilarityGraph ⟨3, 1, [0, 1, 2]⟩ 1 1 out → ∃ g, out = .ok g ∧ g.n = 3 ∧
    g.adj.coeff 0 1 = thr (exp (-1)) ∧ g.adj.coeff 0 2 = thr (exp (-4)) := by
  intro out h
  obtain ⟨g, hg, _, _, ha⟩ := (C51_similarity_graph _ _ _ (by omega)).2 out h
  refine ⟨g, hg, congrArg WGraph.n ha, ?_, ?_⟩
  · rw [show g.adj.coeff 0 1 = g.abs.w 0 1 from rfl, ha]
    simp [kernelWeight, sqDist, Mat.row, Mat.coeff]
  · rw [show g.adj.coeff 0 2 = g.abs.w 0 2 from rfl, ha]
    simp [kernelWeight, sqDist, Mat.row, Mat.coeff]
    norm_num

end Stag
