import Verif.RoundingSimilarity
import Verif.Props.RoundingKde
import Verif.Props.RoundingMatrices
import Verif.Props.Points

/-!
# C94: `similarity_graph` in floating point
-/

namespace Stag

open Pool Graph Real

/-! ## Graphs from triplets at different places -/

theorem addToEntryFl_zero (fl : ℝ → ℝ) (v : ℝ) : addToEntryFl fl v 0 = v := if_pos rfl

theorem foldl_updateFl_spec (fl : ℝ → ℝ) (l : List (Triplet ℝ)) : ∀ (m : SprsMat ℝ), m.WF →
    (∀ t ∈ l, t.row < m.rows ∧ t.col < m.cols) → (∀ t ∈ l, m.coeff t.row t.col = 0) →
    l.Pairwise (fun s t => ¬ (s.row = t.row ∧ s.col = t.col)) →
    let m' := l.foldl (fun m t => m.update t.row t.col (addToEntryFl fl t.val)) m
    m'.WF ∧ m'.rows = m.rows ∧ m'.cols = m.cols ∧ ∀ i j, m'.coeff i j = m.coeff i j + SprsMat.tripletSum l i j := by
  induction l with
  | nil => intro m hm _ _ _; exact ⟨hm, rfl, rfl, fun i j => by simp [SprsMat.tripletSum_nil]⟩
  | cons t l ih =>
    intro m hm hr hz hp
    rw [List.pairwise_cons] at hp
    have ht := hr t (by simp)
    have hc := fun a b => SprsMat.coeff_update hm ht.2 (i := t.row) (addToEntryFl fl t.val) a b
    obtain ⟨h1, h2, h3, h4⟩ := ih (m.update t.row t.col (addToEntryFl fl t.val)) (SprsMat.wf_update hm ht.1 _)
      (fun s hs => hr s (by simp [hs])) (fun s hs => by
        rw [hc, if_neg fun h => hp.1 s hs ⟨h.1.symm, h.2.symm⟩]
        exact hz s (by simp [hs])) hp.2
    refine ⟨h1, h2, h3, fun i j => ?_⟩
    rw [List.foldl_cons, h4, hc, SprsMat.tripletSum_cons]
    by_cases h : i = t.row ∧ j = t.col
    · rw [if_pos h, if_pos ⟨h.1.symm, h.2.symm⟩, hz t (by simp), addToEntryFl_zero, h.1, h.2, hz t (by simp), zero_add]
    · rw [if_neg h, if_neg fun h' => h ⟨h'.1.symm, h'.2.symm⟩, zero_add]

/-- Triplets at different places give the same graph with rounding as without, if it is a graph. -/
theorem graphOfTripletsFl_spec (fl : ℝ → ℝ) {N : Nat} {l : List (Triplet ℝ)}
    (hl : ∀ t ∈ l, t.row < N ∧ t.col < N) (hn : ∀ t ∈ l, 0 ≤ t.val)
    (hp : l.Pairwise (fun s t => ¬ (s.row = t.row ∧ s.col = t.col)))
    (hs : ∀ i j, SprsMat.tripletSum l i j = SprsMat.tripletSum l j i) :
    ∃ g, graphOfTripletsFl fl N l = .ok g ∧ g.Reachable ∧ g.Valid ∧ g.Pruned ∧
      g.abs = ⟨N, fun i j => thr (SprsMat.tripletSum l i j)⟩ := by
  obtain ⟨hw, hr, hc, hmc⟩ := foldl_updateFl_spec fl l (SprsMat.empty N N) (SprsMat.wf_empty N N) hl
    (fun t _ => SprsMat.coeff_empty N N _ _) hp
  obtain ⟨m, hmd⟩ : ∃ m, m = l.foldl (fun m t => m.update t.row t.col (addToEntryFl fl t.val)) (SprsMat.empty N N) :=
    ⟨_, rfl⟩
  rw [← hmd] at hw hr hc hmc
  have hm : setFromTripletsFl fl N N l = .ok m := by
    unfold setFromTripletsFl
    rw [if_pos, hmd]
    rw [List.all_eq_true]
    intro t ht
    simp [hl t ht]
  have hmc' : ∀ i j, m.coeff i j = SprsMat.tripletSum l i j := fun i j => by
    rw [hmc, SprsMat.coeff_empty, zero_add]
  have hnn : ∀ j, ∀ e ∈ m.col j, 0 ≤ e.2 := by
    intro j e he
    have h1 := Col.coeff_eq_of_mem (hw.sorted j) (r := e.1) (v := e.2) he
    have h2 := hmc' e.1 j
    unfold SprsMat.coeff at h2
    rw [← h1, h2]
    exact tripletSum_nonneg hn _ _
  have hrN : m.rows = N := hr
  have hcN : m.cols = N := hc
  obtain ⟨h1, _, h3⟩ := C01_construct_adjacency_iff hw (by omega) hnn
  obtain ⟨g, hg⟩ := h1.2 (fun i j => by rw [hmc', hmc', hs])
  obtain ⟨hgn, hgc⟩ := h3 g hg
  refine ⟨g, ?_, ⟨m, g, [], hw, hg, rfl⟩, (ofMatrix_ok hw hg).1, (ofMatrix_ok hw hg).2.1, ?_⟩
  · unfold graphOfTripletsFl
    rw [hm]
    change ofMatrixFl fl m = .ok g
    rw [ofMatrixFl_nonneg hw (fun i j => by rw [hmc']; exact tripletSum_nonneg hn i j), hg]
  · unfold Graph.abs
    congr 1
    · omega
    · funext i j; rw [hgc, hmc']

/-! ## The triplets of `similarity_graph` -/

/-- The weights that are computed, and 0 outside the vertices. -/
noncomputable def kernelWeightFl (fl : ℝ → ℝ) (E : LibExp) (data : Mat ℝ) (a : ℝ) (i j : Nat) : ℝ :=
  if i < data.rows ∧ j < data.rows then kernelOfFl fl E a (data.row i) (data.row j) else 0

section
variable {R : Rounding ℝ} (ho : R.Odd) (E : LibExp) (data : Mat ℝ) (a : ℝ)

include ho in
theorem kernelOfFl_comm (i j : Nat) :
    kernelOfFl R.fl E a (data.row i) (data.row j) = kernelOfFl R.fl E a (data.row j) (data.row i) :=
  C82_kernel_symmetric R ho E a _ _ (by rw [row_length, row_length])

include ho in
theorem simRowFl_sum (r i j : Nat) :
    SprsMat.tripletSum (simRowFl R.fl E a data r) i j =
      if (r = min i j ∧ max i j < data.rows) then kernelOfFl R.fl E a (data.row i) (data.row j) else 0 := by
  unfold simRowFl
  rw [SprsMat.tripletSum_flatMap, List.range'_eq_map_range, List.map_map, sum_list_range]
  have key : ∀ t, ((fun b => SprsMat.tripletSum
      (⟨r, b, kernelOfFl R.fl E a (data.row r) (data.row b)⟩ :: (if r ≠ b then
        [⟨b, r, kernelOfFl R.fl E a (data.row r) (data.row b)⟩] else []) : List (Triplet ℝ)) i j) ∘
      (fun x => r + x)) t
      = if (r = min i j ∧ r + t = max i j) then kernelOfFl R.fl E a (data.row i) (data.row j) else 0 := by
    intro t
    simp only [Function.comp, SprsMat.tripletSum_cons]
    by_cases ht : r ≠ r + t
    · rw [if_pos ht]
      simp only [SprsMat.tripletSum_cons, SprsMat.tripletSum_nil, add_zero]
      by_cases h1 : r = i ∧ r + t = j
      · rw [if_pos h1, if_neg (by omega), if_pos (by omega), h1.1, ← h1.1, h1.2, add_zero]
      · rw [if_neg h1, zero_add]
        by_cases h2 : r + t = i ∧ r = j
        · rw [if_pos h2, if_pos (by omega), h2.1, ← h2.2, kernelOfFl_comm ho]
        · rw [if_neg h2, if_neg (by omega)]
    · rw [if_neg ht]
      simp only [SprsMat.tripletSum_nil, add_zero]
      by_cases h1 : r = i ∧ r + t = j
      · rw [if_pos h1, if_pos (by omega), h1.1, ← h1.1, h1.2]
      · rw [if_neg h1, if_neg (by omega)]
  simp only [key]
  by_cases h : r = min i j ∧ max i j < data.rows
  · rw [if_pos h, Finset.sum_eq_single (max i j - min i j)]
    · rw [if_pos (by omega)]
    · intro b _ hb; rw [if_neg (by omega)]
    · intro hb; rw [Finset.mem_range] at hb; omega
  · rw [if_neg h]
    apply Finset.sum_eq_zero
    intro t ht
    rw [Finset.mem_range] at ht
    rw [if_neg (by omega)]

include ho in
theorem simEdgesFl_sum (i j : Nat) :
    SprsMat.tripletSum (simEdgesFl R.fl E a data 0 data.rows) i j = kernelWeightFl R.fl E data a i j := by
  unfold simEdgesFl kernelWeightFl
  rw [SprsMat.tripletSum_flatMap, Nat.sub_zero, List.range'_eq_map_range, List.map_map,
    sum_list_range]
  simp only [Function.comp, Nat.zero_add, simRowFl_sum ho]
  by_cases h : i < data.rows ∧ j < data.rows
  · rw [if_pos h, Finset.sum_eq_single (min i j)]
    · rw [if_pos (by omega)]
    · intro b _ hb; rw [if_neg (by omega)]
    · intro hb; rw [Finset.mem_range] at hb; omega
  · rw [if_neg h]
    exact Finset.sum_eq_zero (fun t _ => if_neg (by omega))

/-- Where the triplets of a row are. -/
theorem simRowFl_mem (i : Nat) : ∀ t ∈ simRowFl R.fl E a data i,
    min t.row t.col = i ∧ t.row < data.rows ∧ t.col < data.rows ∧ ∃ u v, t.val = kernelOfFl R.fl E a u v := by
  intro t ht
  unfold simRowFl at ht
  simp only [List.mem_flatMap, List.mem_range'_1] at ht
  obtain ⟨j, hj, ht⟩ := ht
  rw [List.mem_cons] at ht
  rcases ht with rfl | ht
  · exact ⟨by simp only; omega, by simp only; omega, by simp only; omega, _, _, rfl⟩
  · split_ifs at ht
    · rw [List.mem_singleton] at ht
      subst ht
      exact ⟨by simp only; omega, by simp only; omega, by simp only; omega, _, _, rfl⟩
    · simp at ht

theorem pairwise_flatMap_range' {β : Type} {P : β → β → Prop} (f : Nat → List β) (key : β → Nat)
    (hP : ∀ x y, P x y ∨ key x = key y) (hk : ∀ i, ∀ x ∈ f i, key x = i) (hf : ∀ i, (f i).Pairwise P) :
    ∀ n s, ((List.range' s n).flatMap f).Pairwise P := by
  intro n
  induction n with
  | zero => intro s; simp
  | succ n ih =>
    intro s
    rw [List.range'_succ, List.flatMap_cons, List.pairwise_append]
    refine ⟨hf s, ih (s + 1), fun x hx y hy => ?_⟩
    rw [List.mem_flatMap] at hy
    obtain ⟨j, hj, hy⟩ := hy
    rw [List.mem_range'_1] at hj
    rcases hP x y with h | h
    · exact h
    · rw [hk s x hx, hk j y hy] at h
      omega

theorem simEdgesFl_places : (simEdgesFl R.fl E a data 0 data.rows).Pairwise
    (fun s t => ¬ (s.row = t.row ∧ s.col = t.col)) := by
  unfold simEdgesFl
  refine pairwise_flatMap_range' _ (fun t => min t.row t.col) ?_ (fun i x hx => (simRowFl_mem E data a i x hx).1) ?_ _ _
  · intro x y
    by_cases h : x.row = y.row ∧ x.col = y.col
    · exact .inr (by rw [h.1, h.2])
    · exact .inl h
  · intro i
    unfold simRowFl
    rw [List.range'_eq_map_range, List.flatMap_map]
    have : ∀ n, ((List.range n).flatMap fun x => ((⟨i, i + x, kernelOfFl R.fl E a (data.row i) (data.row (i + x))⟩ ::
        (if i ≠ i + x then [⟨i + x, i, kernelOfFl R.fl E a (data.row i) (data.row (i + x))⟩] else [])) :
          List (Triplet ℝ))).Pairwise (fun s t => ¬ (s.row = t.row ∧ s.col = t.col)) := by
      intro n
      rw [List.range_eq_range']
      refine pairwise_flatMap_range' _ (fun t => max t.row t.col - i) ?_ ?_ ?_ _ _
      · intro x y
        by_cases h : x.row = y.row ∧ x.col = y.col
        · exact .inr (by rw [h.1, h.2])
        · exact .inl h
      · intro x t ht
        rw [List.mem_cons] at ht
        rcases ht with rfl | ht
        · simp only; omega
        · split_ifs at ht
          · rw [List.mem_singleton] at ht
            subst ht
            simp only; omega
          · simp at ht
      · intro x
        split_ifs with h
        · simp only [List.pairwise_cons, List.mem_singleton, List.Pairwise.nil, and_true]
          refine ⟨fun t ht => ?_, fun _ h => absurd h (by simp)⟩
          subst ht
          simp only
          omega
        · simp
    exact this _

include ho in
theorem simGraphFl (ha : 0 ≤ a) :
    ∃ g, graphOfTripletsFl R.fl data.rows (simEdgesFl R.fl E a data 0 data.rows) = .ok g ∧ g.Reachable ∧ g.Valid ∧
      g.Pruned ∧ g.abs = ⟨data.rows, fun i j => thr (kernelWeightFl R.fl E data a i j)⟩ := by
  have hmem : ∀ t ∈ simEdgesFl R.fl E a data 0 data.rows, (t.row < data.rows ∧ t.col < data.rows) ∧ 0 ≤ t.val := by
    intro t ht
    unfold simEdgesFl at ht
    rw [List.mem_flatMap] at ht
    obtain ⟨i, _, ht⟩ := ht
    obtain ⟨_, h1, h2, u, v, h3⟩ := simRowFl_mem E data a i t ht
    exact ⟨⟨h1, h2⟩, by rw [h3]; exact (C82_kernel R E a ha u v).1⟩
  obtain ⟨g, hg, hr, hv, hp, hab⟩ := graphOfTripletsFl_spec R.fl (fun t ht => (hmem t ht).1) (fun t ht => (hmem t ht).2)
    (simEdgesFl_places (R := R) E data a) (by
      intro i j
      rw [simEdgesFl_sum ho, simEdgesFl_sum ho]
      unfold kernelWeightFl
      by_cases h : i < data.rows ∧ j < data.rows
      · rw [if_pos h, if_pos h.symm, kernelOfFl_comm ho]
      · rw [if_neg h, if_neg (fun h' => h h'.symm)])
  refine ⟨g, hg, hr, hv, hp, ?_⟩
  rw [hab]
  simp only [simEdgesFl_sum ho]

theorem simEdgesFl_chunks (threads : Nat) (ht : 0 < threads) :
    (List.range threads).flatMap (fun c => simEdgesFl R.fl E a data (chunkStart data.rows threads c)
      (chunkEnd data.rows threads c)) = simEdgesFl R.fl E a data 0 data.rows := by
  have h := congrArg List.flatten (chunks_cover data.rows threads ht (simRowFl R.fl E a data))
  unfold simEdgesFl
  simp only [List.range'_eq_map_range, List.flatMap_map]
  simp only [List.flatMap_def, Nat.zero_add, Nat.sub_zero] at h ⊢
  rw [← h, List.flatten_flatten, List.map_map]
  rfl

end

/-- **C94** (every schedule).  In floating point too, `similarity_graph` returns, and the result is the same bit for bit for
every positive number of threads and every schedule: that of a single loop over the pairs of rows. -/
theorem C94_schedule (R : Rounding ℝ) (E : LibExp) (data : Mat ℝ) (a : ℝ) (threads : Nat) (ht : 0 < threads) :
    (∃ out, SimilarityGraphFl R.fl E data a threads out) ∧
    ∀ out, SimilarityGraphFl R.fl E data a threads out →
      out = graphOfTripletsFl R.fl data.rows (simEdgesFl R.fl E a data 0 data.rows) := by
  unfold SimilarityGraphFl
  split_ifs with h
  · exact ⟨⟨_, rfl⟩, fun out ho => ho⟩
  · constructor
    · obtain ⟨m, s, hex, hc⟩ := C56_completes (T := chunkTasks (simEdgesFl R.fl E a data) data.rows threads) ht
        (proper_libProg threads [true]) (S₀ := ()) Exec.nil
      exact ⟨_, m, 0, s, hex, hc, rfl⟩
    · rintro out ⟨m, k, s, hex, hc, rfl⟩
      have : (List.range threads).flatMap (futureValue s.finished) = simEdgesFl R.fl E a data 0 data.rows := by
        rw [← simEdgesFl_chunks E data a threads ht]
        unfold List.flatMap
        rw [List.map_congr_left (futures_eq ht hex hc)]
      rw [this]

/-- **C94** (the graph).  For every data matrix, every `a ≥ 0`, every positive number of threads and every schedule the
rounded `similarity_graph` returns a graph (the symmetry check of the constructor, which is exact, never fails), and its
weights are the computed kernel values, dropped when not above the pruning threshold. -/
theorem C94_graph (R : Rounding ℝ) (ho : R.Odd) (E : LibExp) (data : Mat ℝ) (a : ℝ) (ha : 0 ≤ a) (threads : Nat)
    (ht : 0 < threads) :
    (∃ out, SimilarityGraphFl R.fl E data a threads out) ∧
    ∀ out, SimilarityGraphFl R.fl E data a threads out → ∃ g, out = .ok g ∧ g.Reachable ∧ g.Valid ∧ g.Pruned ∧
      g.n = data.rows ∧ ∀ i < data.rows, ∀ j < data.rows,
        g.abs.w i j = thr (kernelOfFl R.fl E a (data.row i) (data.row j)) := by
  obtain ⟨h1, h2⟩ := C94_schedule R E data a threads ht
  refine ⟨h1, fun out hout => ?_⟩
  obtain ⟨g, hg, hr, hv, hp, hab⟩ := simGraphFl ho E data a ha
  refine ⟨g, (h2 out hout).trans hg, hr, hv, hp, congrArg WGraph.n hab, fun i hi j hj => ?_⟩
  rw [hab]
  simp only [kernelWeightFl, if_pos (And.intro hi hj)]

/-- **C94** (accuracy).  With `ε = kernelErr R E d`, `d` the dimension: a self-loop has weight exactly 1; the graph is symmetric;
weights are between 0 and 1; a weight that is not dropped differs by at most `ε` from `exp(-a |x_i - x_j|²)`; an edge is there if the true
similarity is above `EPSILON + ε`, and not there if it is at most `EPSILON - ε`. -/
theorem C94_accuracy (R : Rounding ℝ) (ho : R.Odd) (E : LibExp) (data : Mat ℝ) (a : ℝ) (ha : 0 ≤ a) (threads : Nat)
    (ht : 0 < threads) (g : Graph ℝ) (hg : SimilarityGraphFl R.fl E data a threads (.ok g)) :
    (∀ i < data.rows, g.abs.w i i = 1) ∧ (∀ i j, g.abs.w i j = g.abs.w j i) ∧
    (∀ i j, 0 ≤ g.abs.w i j ∧ g.abs.w i j ≤ 1) ∧
    ∀ i < data.rows, ∀ j < data.rows,
      (g.abs.w i j ≠ 0 →
        |g.abs.w i j - exp (-(a * sqDist (data.row i) (data.row j)))| ≤ kernelErr R E data.cols) ∧
      (epsilon + kernelErr R E data.cols < exp (-(a * sqDist (data.row i) (data.row j))) → g.abs.w i j ≠ 0) ∧
      (exp (-(a * sqDist (data.row i) (data.row j))) ≤ epsilon - kernelErr R E data.cols → g.abs.w i j = 0) := by
  obtain ⟨g', hg', hr, hv, hp, hn, hw⟩ := (C94_graph R ho E data a ha threads ht).2 _ hg
  cases hg'
  have heps : (0 : ℝ) < epsilon := by unfold epsilon; norm_num
  have hout : ∀ i j, ¬ (i < data.rows ∧ j < data.rows) → g.abs.w i j = 0 := by
    intro i j h
    obtain ⟨g2, hg2, _, _, _, hab⟩ := simGraphFl ho E data a ha
    have := ((C94_schedule R E data a threads ht).2 _ hg).trans hg2
    cases this
    rw [hab]
    simp only [kernelWeightFl, if_neg h]
    unfold thr
    rw [ite_self]
  have hk : ∀ i < data.rows, ∀ j < data.rows, |kernelOfFl R.fl E a (data.row i) (data.row j) -
      exp (-(a * sqDist (data.row i) (data.row j)))| ≤ kernelErr R E data.cols := by
    intro i hi j hj
    have := (C82_kernel R E a ha (data.row i) (data.row j)).2.2
    rwa [row_length] at this
  refine ⟨fun i hi => ?_, fun i j => hv.symm i j, fun i j => ?_, fun i hi j hj => ⟨fun hne => ?_, fun hgt => ?_, fun hle => ?_⟩⟩
  · rw [hw i hi i hi, C82_kernel_self]
    unfold thr
    rw [if_pos]
    unfold epsilon
    norm_num
  · by_cases h : i < data.rows ∧ j < data.rows
    · rw [hw i h.1 j h.2]
      have := C82_kernel R E a ha (data.row i) (data.row j)
      unfold thr
      split_ifs
      · exact ⟨this.1, this.2.1⟩
      · norm_num
    · rw [hout i j h]; norm_num
  · rw [hw i hi j hj] at hne ⊢
    unfold thr at hne ⊢
    split_ifs at hne ⊢
    · exact hk i hi j hj
    · exact absurd rfl hne
  · rw [hw i hi j hj]
    have := abs_le.1 (hk i hi j hj)
    have h1 : epsilon < kernelOfFl R.fl E a (data.row i) (data.row j) := by linarith [this.1]
    unfold thr
    rw [if_pos h1]
    linarith
  · rw [hw i hi j hj]
    have := abs_le.1 (hk i hi j hj)
    unfold thr
    rw [if_neg]
    linarith [this.2]

/-- **C94** (double precision).  In double precision, with an `exp` that is accurate to `2^-52`, the error `ε` of the theorems is at
most `(d + 6) 2^-52`, for points with up to `2^51` coordinates. -/
theorem C94_double (E : LibExp) (hη : E.η ≤ (2 : ℝ) ^ (-52 : Int)) (hτ : E.τ ≤ (2 : ℝ) ^ (-52 : Int)) (d : Nat)
    (hd : d + 4 ≤ 2 ^ 51) :
    kernelErr (Rounding.binary ℝ 53 (by norm_num)) E d ≤ (d + 6) * (2 : ℝ) ^ (-52 : Int) := by
  have hu : (Rounding.binary ℝ 53 (by norm_num)).u = (2 : ℝ) ^ (-53 : Int) := rfl
  have h1 := g_pow_sub_one_le (R := Rounding.binary ℝ 53 (by norm_num)) (k := d + 4) (by
    rw [hu]
    have : ((d + 4 : Nat) : ℝ) ≤ ((2 ^ 51 : Nat) : ℝ) := by exact_mod_cast hd
    calc ((d + 4 : Nat) : ℝ) * (2 : ℝ) ^ (-53 : Int) ≤ ((2 ^ 51 : Nat) : ℝ) * (2 : ℝ) ^ (-53 : Int) :=
          mul_le_mul_of_nonneg_right this (by positivity)
      _ ≤ 1 / 2 := by norm_num)
  rw [hu] at h1
  have h2 : exp (-1) ≤ 1 := exp_le_one_iff.2 (by norm_num)
  have hg0 : 0 ≤ (Rounding.binary ℝ 53 (by norm_num)).g ^ (d + 4) - 1 :=
    sub_nonneg.2 (Rounding.g_pow_one_le (d + 4))
  unfold kernelErr
  have h3 : ((Rounding.binary ℝ 53 (by norm_num)).g ^ (d + 4) - 1) * exp (-1) ≤
      (Rounding.binary ℝ 53 (by norm_num)).g ^ (d + 4) - 1 := by nlinarith [exp_pos (-1 : ℝ)]
  push_cast at h1
  have e : (2 : ℝ) ^ (-52 : Int) = 2 * (2 : ℝ) ^ (-53 : Int) := by norm_num
  rw [e] at hη hτ ⊢
  linarith

/-! ## Clustering the floating-point graph -/

/-- The points fall into `k` groups of at least `μ` points: the Gaussian similarity of two points of a group is at least `t + ε`, and
of two points of different groups at most `max b EPSILON - ε`. -/
structure GroupedPointsBy (ε : ℝ) (data : Mat ℝ) (a : ℝ) (k : Nat) (S : Nat → Nat) (t b μ : ℝ) : Prop where
  label : ∀ u < data.rows, S u < k
  size : ∀ i < k, μ ≤ ((KMeans.cluster data.rows S i).card : ℝ)
  near : ∀ u < data.rows, ∀ v < data.rows, S u = S v → t + ε ≤ exp (-(a * sqDist (data.row u) (data.row v))) ∨ u = v
  far : ∀ u < data.rows, ∀ v < data.rows, S u ≠ S v →
    exp (-(a * sqDist (data.row u) (data.row v))) ≤ max b epsilon - ε

section
variable (R : Rounding ℝ) (ho : R.Odd) (E : LibExp) (data : Mat ℝ) (a : ℝ) (ha : 0 ≤ a) (k : Nat) (S : Nat → Nat)
  (t b μ : ℝ) (ht : epsilon < t) (ht1 : t ≤ 1) (hb : 0 ≤ b)
  (hp : GroupedPointsBy (kernelErr R E data.cols) data a k S t b μ) (threads : Nat) (hth : 0 < threads)
  (g : Graph ℝ) (hg : SimilarityGraphFl R.fl E data a threads (.ok g))

include ho ha ht ht1 hb hp hth hg

/-- **C94** (grouped points).  If the points fall into groups, with a margin of `ε` for the rounding errors, then the floating-point
similarity graph has self-loops of weight 1, weights between `t` and 1 inside the groups and at most `b` between them. -/
theorem C94_grouped : g.Reachable ∧ g.Valid ∧ g.Pruned ∧ g.n = data.rows ∧ g.abs.TwoLevel k S t b μ ∧
    (∀ u v, 0 ≤ g.abs.w u v) ∧ ∀ u, u < g.n → 0 < g.abs.deg u := by
  obtain ⟨g', hg', hr, hv, hpr, hn, hw⟩ := (C94_graph R ho E data a ha threads hth).2 _ hg
  cases hg'
  obtain ⟨hloop, _, h01, hacc⟩ := C94_accuracy R ho E data a ha threads hth g hg
  have hk : ∀ i < data.rows, ∀ j < data.rows, |kernelOfFl R.fl E a (data.row i) (data.row j) -
      exp (-(a * sqDist (data.row i) (data.row j)))| ≤ kernelErr R E data.cols := by
    intro i hi j hj
    have := (C82_kernel R E a ha (data.row i) (data.row j)).2.2
    rwa [row_length] at this
  refine ⟨hr, hv, hpr, hn, ⟨fun u hu => hp.label u (hn ▸ hu), fun i hi => ?_, fun u hu => hloop u (hn ▸ hu),
    fun u hu v hv hs => ⟨?_, (h01 u v).2⟩, fun u hu v hv hs => ⟨(h01 u v).1, ?_⟩⟩, fun u v => (h01 u v).1, fun u hu => ?_⟩
  · have := hp.size i hi
    rwa [← hn] at this
  · have hu' : u < data.rows := hn ▸ hu
    have hv' : v < data.rows := hn ▸ hv
    rcases hp.near u hu' v hv' hs with h | rfl
    · have hab := abs_le.1 (hk u hu' v hv')
      have hge : t ≤ kernelOfFl R.fl E a (data.row u) (data.row v) := by linarith [hab.1]
      rw [hw u hu' v hv']
      unfold thr
      rw [if_pos (lt_of_lt_of_le ht hge)]
      exact hge
    · rw [hloop u hu']
      exact ht1
  · have hu' : u < data.rows := hn ▸ hu
    have hv' : v < data.rows := hn ▸ hv
    have h := hp.far u hu' v hv' hs
    have hab := abs_le.1 (hk u hu' v hv')
    have hle : kernelOfFl R.fl E a (data.row u) (data.row v) ≤ max b epsilon := by linarith [hab.2]
    rw [hw u hu' v hv']
    unfold thr
    split_ifs with hc
    · rcases le_max_iff.1 hle with h | h
      · exact h
      · exact absurd h (not_le.2 hc)
    · exact hb
  · unfold WGraph.deg
    have : 0 ≤ ∑ v ∈ Finset.range g.abs.n, g.abs.w u v := Finset.sum_nonneg fun v _ => (h01 u v).1
    rw [hloop u (hn ▸ hu)]
    linarith

/-- **C94** (spectral clustering of the floating-point graph).  For such points, if the labels that `spectral_cluster` returns for the
floating-point similarity graph have k-means cost `c` for some centres and `e = 2 (groupError + c) < 1/2`, groups and labels can be
matched so that at most `2 e n` points do not have the label of their group; if `2 e n < 1`, two points have the same label exactly if
they are in the same group.  (Eigenvectors and k-means are computed exactly here.) -/
theorem C94_matching (hμ : 1 ≤ μ) (hgap : 0 < groupGap data.rows k t b μ)
    (solve : EigenSolver) (hsolve : SolverSpec solve) (res : EigenPairs)
    (hres : computeEigensystem solve g .normalisedLaplacian k .smallest = .ok res)
    (hk : 1 ≤ k ∧ 2 * k ≤ data.rows) (junk : Nat → ℝ) (labels : List Nat)
    (hlab : spectralCluster solve g k junk = .ok labels) (Mu : Nat → Nat → ℝ) (e : ℝ) (he : e < 1 / 2)
    (hcost : 2 * (groupError data.rows k t b μ +
        KMeans.cost (embedding (res.map Prod.snd)) data.rows k Mu (fun u => labels.getD u 0)) ≤ e) :
    (∃ σ : Equiv.Perm (Fin k),
      (((Finset.range data.rows).filter fun u => ∃ i : Fin k, S u = i ∧ labels.getD u 0 ≠ σ i).card : ℝ)
        ≤ 2 * e * data.rows) ∧
    (2 * e * data.rows < 1 → ∀ u < data.rows, ∀ v < data.rows, labels.getD u 0 = labels.getD v 0 ↔ S u = S v) := by
  obtain ⟨hr, _, _, hn, htl, hw, hd⟩ := C94_grouped R ho E data a ha k S t b μ ht ht1 hb hp threads hth g hg
  have ht0 : 0 < t := lt_trans (by unfold epsilon; norm_num) ht
  rw [← hn] at hgap hcost hk ⊢
  exact TwoLevel.matching solve hsolve hr hw hd htl ht0 ht1 hb hμ hgap res hres hk junk labels hlab Mu e he hcost

end

/-- **C94** (connected components).  In floating point, if the similarity of any two points of a group is above `EPSILON + ε` and that
of points of different groups at most `EPSILON - ε`, the connected components of the similarity graph are exactly the groups. -/
theorem C94_components (R : Rounding ℝ) (ho : R.Odd) (E : LibExp) (data : Mat ℝ) (a : ℝ) (ha : 0 ≤ a) (k : Nat)
    (S : Nat → Nat) (t μ : ℝ) (ht : epsilon < t) (ht1 : t ≤ 1)
    (hp : GroupedPointsBy (kernelErr R E data.cols) data a k S t 0 μ) (threads : Nat) (hth : 0 < threads)
    (g : Graph ℝ) (hg : SimilarityGraphFl R.fl E data a threads (.ok g)) (fuel : Nat) (hf : g.n ≤ fuel) :
    ∃ cs : List (List Int), g.connectedComponents fuel = some (.ok cs) ∧ cs.flatten.Nodup ∧
      (∀ v : Int, v ∈ cs.flatten ↔ 0 ≤ v ∧ v < data.rows) ∧
      ∀ c ∈ cs, c ≠ [] ∧ ∀ u ∈ c, ∀ v : Int, v ∈ c ↔ 0 ≤ v ∧ v < data.rows ∧ S u.toNat = S v.toNat := by
  obtain ⟨_, hv, hpr, hn, htl, _, _⟩ := C94_grouped R ho E data a ha k S t 0 μ ht ht1 le_rfl hp threads hth g hg
  rw [← hn]
  exact TwoLevel.components hv hpr htl (lt_trans (by unfold epsilon; norm_num) ht) fuel hf

/-- Four points on a line in two groups, in doubles. -/
noncomputable def fourDoubles : Mat ℝ := ⟨4, 1, [0, 1 / 128, 16, 16 + 1 / 128]⟩

theorem fourDoubles_grouped (ε : ℝ) (hε : ε ≤ 7 * (2 : ℝ) ^ (-52 : Int)) (t : ℝ) (ht : t ≤ 9999 / 10000) :
    GroupedPointsBy ε fourDoubles 1 2 (fun u => u / 2) t 0 2 := by
  have hd : ∀ u < 4, ∀ v < 4, sqDist (fourDoubles.row u) (fourDoubles.row v) =
      ([0, 1 / 128, 16, 16 + 1 / 128].getD u 0 - [0, 1 / 128, 16, 16 + 1 / 128].getD v 0) ^ 2 := by
    intro u hu v hv
    interval_cases u <;> interval_cases v <;> simp [sqDist, fourDoubles, Mat.row, Mat.coeff] <;> ring
  have hε' : ε ≤ 1 / 10 ^ 14 := hε.trans (by norm_num)
  clear hε
  have hnear : ∀ x : ℝ, x ≤ 7 / 100000 → t + ε ≤ exp (-(1 * x)) := by
    intro x hx
    have := Real.add_one_le_exp (-(1 * x))
    linarith
  have hfar : ∀ x : ℝ, 99 ≤ x → exp (-(1 * x)) ≤ max 0 epsilon - ε := by
    intro x hx
    refine le_trans (Real.exp_le_exp.2 (show -(1 * x) ≤ -((99 : ℕ) : ℝ) by push_cast; linarith)) ?_
    rw [Real.exp_neg, ← Real.exp_one_pow]
    have h2 : (2 : ℝ) ^ 99 ≤ exp 1 ^ 99 := by
      have := Real.add_one_le_exp (1 : ℝ)
      exact pow_le_pow_left₀ (by norm_num) (by linarith) 99
    refine (inv_anti₀ (by positivity) h2).trans ?_
    have h3 : (epsilon : ℝ) ≤ max 0 epsilon := le_max_right _ _
    have h4 : ((2 : ℝ) ^ 99)⁻¹ + 1 / 10 ^ 14 ≤ epsilon := by unfold epsilon; norm_num
    linarith
  refine ⟨?_, ?_, ?_, ?_⟩
  · intro u hu
    change u < 4 at hu
    show u / 2 < 2
    omega
  · intro i hi
    have : (KMeans.cluster fourDoubles.rows (fun u => u / 2) i).card = 2 := by
      change (KMeans.cluster 4 (fun u => u / 2) i).card = 2
      interval_cases i <;> decide
    rw [this]
    norm_num
  · intro u hu v hv hs
    change u < 4 at hu
    change v < 4 at hv
    change u / 2 = v / 2 at hs
    left
    rw [hd u hu v hv]
    apply hnear
    interval_cases u <;> interval_cases v <;> first | (exfalso; omega) | (simp; try norm_num)
  · intro u hu v hv hs
    change u < 4 at hu
    change v < 4 at hv
    change u / 2 ≠ v / 2 at hs
    rw [hd u hu v hv]
    apply hfar
    interval_cases u <;> interval_cases v <;> first | (exfalso; omega) | (simp; try norm_num)

/-- **C94** (a case).  The points 0, 1/128, 16 and 16 + 1/128 with `a = 1` in double precision, with any `exp` accurate to `2^-52`: for
every number of threads and every schedule the similarity graph has exactly two connected components, {0, 1} and {2, 3}. -/
theorem C94_four_doubles (E : LibExp) (hη : E.η ≤ (2 : ℝ) ^ (-52 : Int)) (hτ : E.τ ≤ (2 : ℝ) ^ (-52 : Int)) (threads : Nat)
    (hth : 0 < threads) :
    (∃ g, SimilarityGraphFl (flBin 53) E fourDoubles 1 threads (.ok g)) ∧
    ∀ g, SimilarityGraphFl (flBin 53) E fourDoubles 1 threads (.ok g) →
      ∃ cs : List (List Int), g.connectedComponents 4 = some (.ok cs) ∧ cs.flatten.Nodup ∧
        (∀ v : Int, v ∈ cs.flatten ↔ 0 ≤ v ∧ v < 4) ∧
        ∀ c ∈ cs, c ≠ [] ∧ ∀ u ∈ c, ∀ v : Int, v ∈ c ↔ 0 ≤ v ∧ v < 4 ∧ u.toNat / 2 = v.toNat / 2 := by
  have hodd : (Rounding.binary ℝ 53 (by norm_num)).Odd := fun x => flBin_neg 53 x
  have hg := fourDoubles_grouped (kernelErr (Rounding.binary ℝ 53 (by norm_num)) E 1) (by
    have := C94_double E hη hτ 1 (by norm_num)
    push_cast at this
    linarith) (1 / 2) (by norm_num)
  obtain ⟨⟨out, hout⟩, hall⟩ := C94_graph (Rounding.binary ℝ 53 (by norm_num)) hodd E fourDoubles 1 (by norm_num) threads hth
  constructor
  · obtain ⟨g, rfl, _⟩ := hall out hout
    exact ⟨g, hout⟩
  · intro g hgs
    obtain ⟨g', hg', _, _, _, hn, _⟩ := hall _ hgs
    cases hg'
    exact C94_components (Rounding.binary ℝ 53 (by norm_num)) hodd E fourDoubles 1 (by norm_num) 2 (fun u => u / 2) (1 / 2) 2
      (by unfold epsilon; norm_num) (by norm_num) hg threads hth g hgs 4 (by rw [hn]; exact le_rfl)

/-- Without roundings and with the true exponential function this is `similarity_graph` of `Verif.Similarity`. -/
theorem C94_exact (data : Mat ℝ) (a : ℝ) (ha : 0 ≤ a) (threads : Nat) (ht : 0 < threads) (g h : Graph ℝ)
    (hg : SimilarityGraphFl (fun x => x) LibExp.exact data a threads (.ok g))
    (hh : SimilarityGraph data a threads (.ok h)) : g.abs = h.abs := by
  have ho : (Rounding.exact ℝ).Odd := fun x => rfl
  obtain ⟨g2, hg2, _, _, _, hab⟩ := simGraphFl ho LibExp.exact data a ha
  have e := ((C94_schedule (Rounding.exact ℝ) LibExp.exact data a threads ht).2 _ hg).trans hg2
  cases e
  obtain ⟨h2, e2, _, _, hab2⟩ := (C51_similarity_graph data a threads ht).2 _ hh
  cases e2
  rw [hab, hab2]
  congr 1
  funext i j
  congr 1
  unfold kernelWeightFl kernelWeight
  split_ifs
  · unfold kernelOfFl gaussianKernelFl
    rw [show (Rounding.exact ℝ).fl = fun x => x from rfl, (C82_exact_distance _ _ 0).1, C45_squared_distance]
    rfl
  · rfl

end Stag
