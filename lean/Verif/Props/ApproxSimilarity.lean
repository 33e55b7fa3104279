import Verif.Props.Similarity
import Mathlib.Analysis.Complex.ExponentialBounds

/-!
# C52: the approximate similarity graph
-/

namespace Stag

open Pool Graph Real

/-! ## Number of edges per node -/

theorem edgesPerNode_eq (n : Nat) (h : 2 ≤ n) : edgesPerNode n = 2 := by
  unfold edgesPerNode
  apply min_eq_right
  apply Nat.le_floor
  have h1 : Real.log 2 ≤ Real.log n := Real.log_le_log (by norm_num) (by exact_mod_cast h)
  have h2 := Real.log_two_gt_d9
  push_cast
  linarith

/-! ## Slots -/

/-- The writes for node `i`. -/
noncomputable def nodeW (epn : Nat) (ss : Nat → List Int) (degrees : Nat → ℝ) (i : Nat) :
    List (Nat × Triplet ℝ) :=
  nodeWrites epn i (ss i) (degrees i / 5) (2 * (i * epn))

theorem chunkWrites_eq (epn : Nat) (ss : Nat → List Int) (degrees : Nat → ℝ) (lo hi : Nat) :
    chunkWrites epn ss degrees lo hi
      = (List.range' lo (hi - lo)).flatMap (nodeW epn ss degrees) := by
  unfold chunkWrites
  generalize hi - lo = count
  induction count generalizing lo with
  | zero => rfl
  | succ c ih =>
    rw [chunkWritesLoop, List.range'_succ, List.flatMap_cons, ← ih,
      show 2 * ((lo + 1) * epn) = 2 * (lo * epn) + 2 * epn by ring]
    rfl

theorem nodeW_index (epn : Nat) (ss : Nat → List Int) (degrees : Nat → ℝ) (i : Nat) :
    (nodeW epn ss degrees i).map Prod.fst = List.range' (2 * (i * epn)) (2 * epn) := by
  unfold nodeW nodeWrites
  generalize 2 * (i * epn) = next
  rw [List.map_flatMap]
  simp only [List.map_cons, List.map_nil]
  induction epn with
  | zero => rfl
  | succ e ih =>
    rw [List.range_succ, List.flatMap_append, ih, show 2 * (e + 1) = 2 * e + 2 by ring,
      ← List.range'_append_1]
    rfl

theorem nodes_index (epn : Nat) (ss : Nat → List Int) (degrees : Nat → ℝ) (n : Nat) :
    ((List.range n).flatMap (nodeW epn ss degrees)).map Prod.fst = List.range (2 * (n * epn)) := by
  induction n with
  | zero => simp
  | succ n ih =>
    rw [List.range_succ, List.flatMap_append, List.map_append, ih, List.flatMap_singleton,
      nodeW_index, List.range_eq_range', List.range_eq_range',
      show 2 * ((n + 1) * epn) = 2 * (n * epn) + 2 * epn by ring, ← List.range'_append_1]
    simp

/-- **C52** (slots).  The samplers of all the chunks together write the slots
`0, 1, ..., 2 n epn - 1`, each exactly once, for every number of threads from one on. -/
theorem C52_slots (epn : Nat) (ss : Nat → List Int) (degrees : Nat → ℝ) (n threads : Nat)
    (ht : 0 < threads) :
    (List.range threads).flatMap (fun c =>
      (chunkWrites epn ss degrees (chunkStart n threads c) (chunkEnd n threads c)).map Prod.fst)
      = List.range (2 * (n * epn)) := by
  rw [← nodes_index epn ss degrees n]
  have h := congrArg List.flatten (chunks_cover n threads ht (nodeW epn ss degrees))
  rw [List.flatMap_def (f := nodeW epn ss degrees), ← h]
  simp only [chunkWrites_eq, List.range'_eq_map_range, List.flatMap_map]
  simp only [List.flatMap_def]
  rw [List.flatten_flatten, List.map_flatten, List.map_map, List.map_map]
  rfl

theorem chunks_writes (epn : Nat) (ss : Nat → List Int) (degrees : Nat → ℝ) (n threads : Nat)
    (ht : 0 < threads) :
    (List.range threads).flatMap (fun c =>
      chunkWrites epn ss degrees (chunkStart n threads c) (chunkEnd n threads c))
      = chunkWrites epn ss degrees 0 n := by
  have h := congrArg List.flatten (chunks_cover n threads ht (nodeW epn ss degrees))
  simp only [chunkWrites_eq, List.range'_eq_map_range, List.flatMap_map]
  simp only [List.flatMap_def, Nat.zero_add, Nat.sub_zero] at h ⊢
  rw [← h, List.flatten_flatten, List.map_map]
  rfl

/-- **C52** (slots).  Different chunks write different slots, and no slot is outside the vector. -/
theorem C52_disjoint (epn : Nat) (ss : Nat → List Int) (degrees : Nat → ℝ) (n threads : Nat)
    (c d : Nat) (hc : c < threads) (hd : d < threads) (hcd : c ≠ d) :
    ∀ x ∈ chunkWrites epn ss degrees (chunkStart n threads c) (chunkEnd n threads c),
      x.1 < 2 * (n * epn) ∧
      ∀ y ∈ chunkWrites epn ss degrees (chunkStart n threads d) (chunkEnd n threads d), x.1 ≠ y.1 := by
  have hs := C52_slots epn ss degrees n threads (by omega)
  have hn : ((List.range threads).flatMap (fun c =>
      (chunkWrites epn ss degrees (chunkStart n threads c) (chunkEnd n threads c)).map
        Prod.fst)).Nodup := by rw [hs]; exact List.nodup_range
  rw [List.nodup_flatMap] at hn
  intro x hx
  constructor
  · have : x.1 ∈ List.range (2 * (n * epn)) := by
      rw [← hs, List.mem_flatMap]
      exact ⟨c, List.mem_range.2 hc, List.mem_map_of_mem hx⟩
    exact List.mem_range.1 this
  · intro y hy e
    have hp := List.pairwise_iff_getElem.1 hn.2
    rcases Nat.lt_or_gt_of_ne hcd with h | h
    · have := hp c d (by simpa using hc) (by simpa using hd) h
      simp only [List.getElem_range, Function.onFun] at this
      exact this (List.mem_map_of_mem hx) (e ▸ List.mem_map_of_mem hy)
    · have := hp d c (by simpa using hd) (by simpa using hc) h
      simp only [List.getElem_range, Function.onFun] at this
      exact this (List.mem_map_of_mem hy) (e ▸ List.mem_map_of_mem hx)

theorem foldl_set_eq (writes : List (Nat × Triplet ℝ)) : ∀ (pre rest : List (Triplet ℝ)),
    writes.map Prod.fst = List.range' pre.length rest.length →
    writes.foldl (fun edges x => edges.set x.1 x.2) (pre ++ rest) = pre ++ writes.map Prod.snd := by
  induction writes with
  | nil =>
    intro pre rest h
    cases rest with
    | nil => rfl
    | cons x r => simp [List.range'_succ] at h
  | cons w ws ih =>
    intro pre rest h
    cases rest with
    | nil => simp at h
    | cons x r =>
      rw [List.map_cons, List.length_cons, List.range'_succ, List.cons.injEq] at h
      rw [List.foldl_cons, h.1,
        show (pre ++ x :: r).set pre.length w.2 = (pre ++ [w.2]) ++ r by simp, ih _ _ (by simpa using h.2)]
      simp

/-- The edges of the finished vector, in the order of the slots. -/
noncomputable def sampledEdges (epn : Nat) (ss : Nat → List Int) (degrees : Nat → ℝ) (n : Nat) :
    List (Triplet ℝ) :=
  (List.range n).flatMap (fun i => (List.range epn).flatMap (fun j =>
    [⟨i, ((ss i).getD j 0).toNat, degrees i / 5⟩, ⟨((ss i).getD j 0).toNat, i, degrees i / 5⟩]))

theorem writes_sequential (epn : Nat) (ss : Nat → List Int) (degrees : Nat → ℝ) (n : Nat) :
    (chunkWrites epn ss degrees 0 n).foldl (fun edges x => edges.set x.1 x.2)
      (List.replicate (2 * (n * epn)) ⟨0, 0, 0⟩) = sampledEdges epn ss degrees n := by
  have h := foldl_set_eq (chunkWrites epn ss degrees 0 n) []
    (List.replicate (2 * (n * epn)) ⟨0, 0, 0⟩) (by
      rw [chunkWrites_eq, Nat.sub_zero, ← List.range_eq_range', nodes_index, List.range_eq_range']
      simp)
  rw [List.nil_append, List.nil_append] at h
  rw [h, chunkWrites_eq, Nat.sub_zero, ← List.range_eq_range']
  unfold sampledEdges nodeW nodeWrites
  rw [List.map_flatMap]
  simp only [List.map_flatMap, List.map_cons, List.map_nil]

/-- **C52** (slots).  Whatever the schedule, when the pool has finished the vector holds the edges of
all the nodes, as if they had been written one after the other. -/
theorem C52_vector {epn : Nat} {ss : Nat → List Int} {degrees : Nat → ℝ} {n threads : Nat}
    (ht : 0 < threads) {m k : Nat} {s : State (List (Triplet ℝ)) Unit}
    (hex : Exec (asgTasks epn ss degrees n threads)
      (init threads (List.replicate (2 * (n * epn)) ⟨0, 0, 0⟩) (libProg threads [true])) m k s)
    (hc : Complete s) : s.shared = sampledEdges epn ss degrees n := by
  rw [C56_commuting ht (proper_libProg threads [true]) hex hc (libProg_gets threads [true]) (by
    intro t htm u hum htu f hf g hg v
    rw [pushes_libProg, List.mem_range] at htm hum
    obtain ⟨x, hx, rfl⟩ := List.mem_map.1 hf
    obtain ⟨y, hy, rfl⟩ := List.mem_map.1 hg
    have := (C52_disjoint epn ss degrees n threads t u htm hum htu x hx).2 y hy
    exact (List.set_comm _ _ this.symm)) (List.range threads) (by rw [pushes_libProg])]
  unfold runSeq asgTasks
  simp only [List.foldl_map]
  rw [← writes_sequential, ← chunks_writes epn ss degrees n threads ht, List.foldl_flatMap]

/-! ## Samples -/

theorem exactOn_eq (data : Mat ℝ) (a : ℝ) (lo hi : Nat) (h : lo ≤ hi) (hr : hi < data.rows) :
    ExactKde.createRange data a lo (hi + 1) = .ok (exactOn data a lo hi) := by
  unfold ExactKde.createRange exactOn
  rw [if_neg (by omega)]
  rw [show ((hi : Int) + 1 - lo).toNat = hi + 1 - lo by omega, Int.toNat_natCast]

/-- The total kernel between `q` and the rows `lo, ..., hi`. -/
noncomputable def kernelSum (data : Mat ℝ) (a : ℝ) (q : List ℝ) (lo hi : Nat) : ℝ :=
  ∑ i ∈ Finset.Icc lo hi, exp (-(a * sqDist q (data.row i)))

theorem kernelSum_pos (data : Mat ℝ) (a : ℝ) (q : List ℝ) (lo hi : Nat) (h : lo ≤ hi) :
    0 < kernelSum data a q lo hi :=
  Finset.sum_pos (fun _ _ => exp_pos _) ⟨lo, Finset.mem_Icc.2 ⟨le_refl _, h⟩⟩

/-- **C52** (degrees).  At a leaf for the rows `lo, ..., hi` the estimated weight is the kernel sum
times `(m - 1) / m` for `m` rows: the number of rows is taken one too small. -/
theorem C52_leaf_weight (data : Mat ℝ) (a : ℝ) (q : List ℝ) (lo hi : Nat) (h : lo ≤ hi)
    (hr : hi < data.rows) : (KdeTree.leaf lo hi).weight data a q
      = ((hi - lo : Nat) : ℝ) / ((hi - lo : Nat) + 1) * kernelSum data a q lo hi := by
  obtain ⟨e, he, hq⟩ := C46_query_range data a q lo (hi + 1) (by omega) hr
  have : ((hi + 1 : Nat) : Int) = (hi : Int) + 1 := by push_cast; rfl
  rw [this, exactOn_eq data a lo hi h hr] at he
  cases he
  unfold KdeTree.weight
  rw [hq, Option.getD_some, show Finset.Ico lo (hi + 1) = Finset.Icc lo hi from rfl,
    show hi + 1 - lo = (hi - lo) + 1 by omega]
  unfold kernelSum
  push_cast
  ring

theorem cumWeight_exactOn (data : Mat ℝ) (a : ℝ) (q : List ℝ) (lo hi : Nat) :
    cumWeight a q (exactOn data a lo hi).allData (exactOn data a lo hi).allData.length
      = kernelSum data a q lo hi := by
  unfold cumWeight exactOn kernelSum
  simp only [List.take_length, List.map_map]
  rw [sum_list_range, show Finset.Icc lo hi = Finset.Ico lo (hi + 1) from rfl,
    Finset.sum_Ico_eq_sum_range]
  rfl

/-- **C52** (samples).  For every tree the constructor makes on the rows `lo, ..., hi`, a call of
`sample_neighbors` that is not undefined returns exactly the requested number of rows, all between
`lo` and `hi`. -/
theorem C52_samples (data : Mat ℝ) (a : ℝ) (q : List ℝ) (est : Nat → Nat → List ℝ → ℝ)
    (cutoff : Nat) (dc : Int) (lo hi depth num : Nat) (h : lo ≤ hi) (hr : hi < data.rows)
    (out : Outcome (List Int))
    (ho : (KdeTree.build est cutoff dc lo hi depth).Sample data a q num out) :
    out = .ub ∨ ∃ ss, out = .ok ss ∧ ss.length = num ∧ ∀ v ∈ ss, (lo : Int) ≤ v ∧ v ≤ hi := by
  induction hm : hi - lo using Nat.strong_induction_on generalizing lo hi depth num out with
  | _ m ih =>
    rw [KdeTree.build] at ho
    by_cases hb : cutoff ≤ hi - lo ∧ lo < hi
    · rw [if_pos hb] at ho
      simp only [KdeTree.Sample] at ho
      split_ifs at ho with hu
      rotate_left
      · exact .inl ho
      · obtain ⟨nl, hnl, -, -, l, r, hl, hr', rfl⟩ := ho
        have hL : l = .ub ∨ ∃ ss, l = .ok ss ∧ ss.length = nl ∧ ∀ v ∈ ss, (lo : Int) ≤ v ∧ v ≤ hi := by
          split_ifs at hl with h0
          · rcases ih _ (by omega) lo ((lo + hi) / 2) (depth + 1) nl (by omega) (by omega) l hl rfl with
              h1 | ⟨ss, h1, h2, h3⟩
            · exact .inl h1
            · refine .inr ⟨ss, h1, h2, fun v hv => ?_⟩
              have := h3 v hv
              push_cast at this
              omega
          · exact .inr ⟨[], hl, by simp; omega, by simp⟩
        have hR : r = .ub ∨ ∃ ss, r = .ok ss ∧ ss.length = num - nl ∧
            ∀ v ∈ ss, (lo : Int) ≤ v ∧ v ≤ hi := by
          split_ifs at hr' with h0
          · rcases ih _ (by omega) ((lo + hi) / 2 + 1) hi (depth + 1) (num - nl) (by omega) (by omega)
              r hr' rfl with h1 | ⟨ss, h1, h2, h3⟩
            · exact .inl h1
            · refine .inr ⟨ss, h1, h2, fun v hv => ?_⟩
              have := h3 v hv
              push_cast at this
              omega
          · exact .inr ⟨[], hr', by simp; omega, by simp⟩
        rcases hL with rfl | ⟨s1, rfl, hl1, hv1⟩
        · exact .inl rfl
        · rcases hR with rfl | ⟨s2, rfl, hl2, hv2⟩
          · exact .inl rfl
          · refine .inr ⟨s1 ++ s2, rfl, by rw [List.length_append]; omega, fun v hv => ?_⟩
            rcases List.mem_append.1 hv with hv | hv
            · exact hv1 v hv
            · exact hv2 v hv
    · rw [if_neg hb] at ho
      simp only [KdeTree.Sample] at ho
      obtain ⟨rs, hlen, hrs, rfl⟩ := ho
      have hW := C52_leaf_weight data a q lo hi h hr
      have hpos := kernelSum_pos data a q lo hi h
      have hlen' : (exactOn data a lo hi).allData.length = hi + 1 - lo := by simp [exactOn]
      obtain ⟨h1, h2⟩ := C50_count_and_range (exactOn data a lo hi) q
        ((KdeTree.leaf lo hi).weight data a q) rs (by
          rw [← List.length_pos_iff, hlen']; omega) (by
          intro r hrm
          obtain ⟨r0, r1⟩ := hrs r hrm
          rw [show (exactOn data a lo hi).a = a from rfl, cumWeight_exactOn data a q lo hi, hW]
          have hc : (0 : ℝ) ≤ ((hi - lo : Nat) : ℝ) := Nat.cast_nonneg _
          have hf : ((hi - lo : Nat) : ℝ) / ((hi - lo : Nat) + 1) ≤ 1 := by
            rw [div_le_one (by linarith)]; linarith
          have h1 : ((hi - lo : Nat) : ℝ) / ((hi - lo : Nat) + 1) * r < 1 :=
            lt_of_le_of_lt (mul_le_of_le_one_left r0 hf) r1
          calc _ = ((hi - lo : Nat) : ℝ) / ((hi - lo : Nat) + 1) * r * kernelSum data a q lo hi := by
                ring
            _ < 1 * kernelSum data a q lo hi := mul_lt_mul_of_pos_right h1 hpos
            _ = _ := one_mul _)
      refine .inr ⟨_, rfl, h1.trans hlen, fun v hv => ?_⟩
      have := h2 v hv
      rw [hlen', show (exactOn data a lo hi).minId = (lo : Int) from rfl] at this
      omega

theorem weight_pos (data : Mat ℝ) (a : ℝ) (q : List ℝ) (est : Nat → Nat → List ℝ → ℝ)
    (cutoff : Nat) (dc : Int) (lo hi depth : Nat) (h : lo ≤ hi) (hr : hi < data.rows)
    (hc : hi - lo < cutoff ∨ (2 ≤ cutoff ∧ ∀ lo hi q, 0 < est lo hi q)) :
    0 ≤ (KdeTree.build est cutoff dc lo hi depth).weight data a q ∧
    (lo < hi → 0 < (KdeTree.build est cutoff dc lo hi depth).weight data a q) := by
  induction hm : hi - lo using Nat.strong_induction_on generalizing lo hi depth with
  | _ m ih =>
    rw [KdeTree.build]
    by_cases hb : cutoff ≤ hi - lo ∧ lo < hi
    · rw [if_pos hb]
      obtain ⟨hc2, hest⟩ := hc.resolve_left (by omega)
      split_ifs with hd
      · simp only [KdeTree.weight]
        have : 0 < ((hi - lo : Nat) : ℝ) * est lo hi q :=
          mul_pos (by exact_mod_cast (by omega : 0 < hi - lo)) (hest lo hi q)
        exact ⟨this.le, fun _ => this⟩
      · simp only [KdeTree.weight]
        have h1 := ih _ (by omega) lo ((lo + hi) / 2) (depth + 1) (by omega) (by omega)
          (.inr ⟨hc2, hest⟩) rfl
        have h2 := ih _ (by omega) ((lo + hi) / 2 + 1) hi (depth + 1) (by omega) (by omega)
          (.inr ⟨hc2, hest⟩) rfl
        have h3 := h1.2 (by omega)
        exact ⟨add_nonneg h1.1 h2.1, fun _ => add_pos_of_pos_of_nonneg h3 h2.1⟩
    · rw [if_neg hb, C52_leaf_weight data a q lo hi h hr]
      have hp := kernelSum_pos data a q lo hi h
      refine ⟨by positivity, fun hlt => ?_⟩
      have : (0 : ℝ) < ((hi - lo : Nat) : ℝ) := by exact_mod_cast (by omega : 0 < hi - lo)
      positivity

/-- **C52** (samples).  If the data fit into one leaf, or if the cutoff is at least two and the
estimators answer positive numbers, a call of `sample_neighbors` is not undefined; it does have a
result. -/
theorem C52_samples_defined (data : Mat ℝ) (a : ℝ) (q : List ℝ) (est : Nat → Nat → List ℝ → ℝ)
    (cutoff : Nat) (dc : Int) (lo hi depth num : Nat) (h : lo ≤ hi) (hr : hi < data.rows)
    (hc : hi - lo < cutoff ∨ (2 ≤ cutoff ∧ ∀ lo hi q, 0 < est lo hi q)) :
    (∃ out, (KdeTree.build est cutoff dc lo hi depth).Sample data a q num out) ∧
    ∀ out, (KdeTree.build est cutoff dc lo hi depth).Sample data a q num out → out ≠ .ub := by
  induction hm : hi - lo using Nat.strong_induction_on generalizing lo hi depth num with
  | _ m ih =>
    rw [KdeTree.build]
    by_cases hb : cutoff ≤ hi - lo ∧ lo < hi
    · rw [if_pos hb]
      have hc' := hc.resolve_left (by omega)
      have hL := weight_pos data a q est cutoff dc lo ((lo + hi) / 2) (depth + 1) (by omega) (by omega)
        (.inr hc')
      have hR := weight_pos data a q est cutoff dc ((lo + hi) / 2 + 1) hi (depth + 1) (by omega)
        (by omega) (.inr hc')
      have hLp := hL.2 (by omega)
      have iL := fun k => ih _ (by omega) lo ((lo + hi) / 2) (depth + 1) k (by omega) (by omega)
        (.inr hc') rfl
      have iR := fun k => ih _ (by omega) ((lo + hi) / 2 + 1) hi (depth + 1) k (by omega) (by omega)
        (.inr hc') rfl
      simp only [KdeTree.Sample]
      set L := KdeTree.weight data a q (KdeTree.build est cutoff dc lo ((lo + hi) / 2) (depth + 1))
      set R := KdeTree.weight data a q (KdeTree.build est cutoff dc ((lo + hi) / 2 + 1) hi (depth + 1))
      have hsum : 0 < L + R := add_pos_of_pos_of_nonneg hLp hR.1
      have hrat : 0 < L / (L + R) := div_pos hLp hsum
      have hcond : L + R ≠ 0 ∧ 0 ≤ L / (L + R) ∧ L / (L + R) ≤ 1 :=
        ⟨hsum.ne', hrat.le, by rw [div_le_one hsum]; linarith [hR.1]⟩
      simp only [if_neg (not_not.2 hcond)]
      constructor
      · obtain ⟨l, hl⟩ := (iL num).1
        by_cases h0 : num > 0
        · exact ⟨_, num, le_refl _, fun e => absurd e hrat.ne', fun _ => rfl, l, .ok [],
            by rw [if_pos h0]; exact hl, by rw [if_neg (by omega)], rfl⟩
        · exact ⟨_, num, le_refl _, fun e => absurd e hrat.ne', fun _ => rfl, .ok [], .ok [],
            by rw [if_neg h0], by rw [if_neg (by omega)], rfl⟩
      · rintro out ⟨nl, hnl, -, -, l, r, hl, hr', rfl⟩
        have hlub : l ≠ .ub := by
          split_ifs at hl
          · exact (iL nl).2 l hl
          · rw [hl]; simp
        have hrub : r ≠ .ub := by
          split_ifs at hr'
          · exact (iR _).2 r hr'
          · rw [hr']; simp
        cases l with
        | ub => exact absurd rfl hlub
        | throw e => simp [Outcome.bind]
        | ok x =>
          cases r with
          | ub => exact absurd rfl hrub
          | throw e => simp [Outcome.bind]
          | ok y => simp [Outcome.bind]
    · rw [if_neg hb]
      simp only [KdeTree.Sample]
      refine ⟨⟨_, List.replicate num 0, by simp, fun r hr => ?_, rfl⟩, ?_⟩
      · rw [List.eq_of_mem_replicate hr]; norm_num
      · rintro out ⟨rs, -, -, rfl⟩
        simp

/-- **C52** (undefined).  A node of two rows with a cutoff of one has two leaves of estimated weight
zero: the parameter of the binomial distribution is 0/0. -/
theorem C52_cutoff_one (data : Mat ℝ) (a : ℝ) (q : List ℝ) (est : Nat → Nat → List ℝ → ℝ)
    (dc : Int) (lo depth num : Nat) (hr : lo + 1 < data.rows) (out : Outcome (List Int))
    (ho : (KdeTree.build est 1 dc lo (lo + 1) depth).Sample data a q num out) : out = .ub := by
  rw [KdeTree.build, if_pos (by omega)] at ho
  have hm : (lo + (lo + 1)) / 2 = lo := by omega
  have hb : ∀ x d, KdeTree.build est 1 dc x x d = .leaf x x := by
    intro x d
    rw [KdeTree.build, if_neg (by omega)]
  rw [hm, hb, hb] at ho
  simp only [KdeTree.Sample] at ho
  rw [if_pos] at ho
  · exact ho
  · rw [C52_leaf_weight data a q lo lo (le_refl _) (by omega),
      C52_leaf_weight data a q (lo + 1) (lo + 1) (le_refl _) (by omega)]
    simp

/-- **C52** (bias).  In a leaf for the rows `lo, ..., hi`, a last row whose kernel value is at most
the average is never sampled, since the total weight is taken too small. -/
theorem C52_last_row_never_sampled (data : Mat ℝ) (a : ℝ) (q : List ℝ) (lo hi num : Nat)
    (h : lo < hi) (hr : hi < data.rows)
    (havg : exp (-(a * sqDist q (data.row hi))) ≤ kernelSum data a q lo hi / ((hi - lo : Nat) + 1))
    (out : Outcome (List Int)) (ho : (KdeTree.leaf lo hi).Sample data a q num out) :
    ∃ ss, out = .ok ss ∧ (hi : Int) ∉ ss := by
  simp only [KdeTree.Sample] at ho
  obtain ⟨rs, hlen, hrs, rfl⟩ := ho
  refine ⟨_, rfl, fun hmem => ?_⟩
  obtain ⟨f, hp, hf, -⟩ := C50_samples (exactOn data a lo hi) q
    ((KdeTree.leaf lo hi).weight data a q) rs
  rw [hp.mem_iff, List.mem_filterMap] at hmem
  obtain ⟨r, hrm, hfr⟩ := hmem
  obtain ⟨k, hk, hlt, hle, -⟩ := (hf r hi).1 hfr
  have hk' : k = hi - lo := by
    have : (exactOn data a lo hi).minId = (lo : Int) := rfl
    rw [this] at hk; omega
  have hle := hle.resolve_left (by omega)
  obtain ⟨r0, r1⟩ := hrs r hrm
  have hcum : cumWeight a q (exactOn data a lo hi).allData (hi - lo)
      = kernelSum data a q lo hi - exp (-(a * sqDist q (data.row hi))) := by
    have h1 := cumWeight_exactOn data a q lo hi
    unfold cumWeight at h1 ⊢
    have hlen : (exactOn data a lo hi).allData.length = (hi - lo) + 1 := by simp [exactOn]; omega
    rw [hlen, List.take_succ_eq_append_getElem (by omega), List.map_append, List.sum_append] at h1
    rw [← h1]
    have : (exactOn data a lo hi).allData[hi - lo]'(by omega) = data.row hi := by
      simp only [exactOn, List.getElem_map, List.getElem_range]
      rw [show lo + (hi - lo) = hi by omega]
    rw [this]
    simp [gauss]
  rw [show (exactOn data a lo hi).a = a from rfl, hk', hcum,
    C52_leaf_weight data a q lo hi h.le hr] at hle
  have hpos := kernelSum_pos data a q lo hi h.le
  have hc : (0 : ℝ) < ((hi - lo : Nat) : ℝ) := by exact_mod_cast (by omega : 0 < hi - lo)
  have hdeg : ((hi - lo : Nat) : ℝ) / ((hi - lo : Nat) + 1) * kernelSum data a q lo hi
      = kernelSum data a q lo hi - kernelSum data a q lo hi / ((hi - lo : Nat) + 1) := by
    field_simp
    ring
  have hdp : 0 < ((hi - lo : Nat) : ℝ) / ((hi - lo : Nat) + 1) * kernelSum data a q lo hi := by
    positivity
  have : ((hi - lo : Nat) : ℝ) / ((hi - lo : Nat) + 1) * kernelSum data a q lo hi * r
      < ((hi - lo : Nat) : ℝ) / ((hi - lo : Nat) + 1) * kernelSum data a q lo hi := by
    nlinarith
  linarith

/-! ## The graph -/

/-- The weight between `i` and `j` when vertex `v` has drawn the neighbours `nb v 0`, `nb v 1` and
adds a fifth of `deg v` for each. -/
noncomputable def sampledWeight (n : Nat) (nb : Nat → Nat → Nat) (deg : Nat → ℝ) (i j : Nat) : ℝ :=
  ∑ v ∈ Finset.range n, ∑ k ∈ Finset.range 2,
    ((if v = i ∧ nb v k = j then deg v / 5 else 0) + (if v = j ∧ nb v k = i then deg v / 5 else 0))

theorem sampledEdges_sum (ss : Nat → List Int) (degrees : Nat → ℝ) (n i j : Nat) :
    SprsMat.tripletSum (sampledEdges 2 ss degrees n) i j
      = sampledWeight n (fun v k => ((ss v).getD k 0).toNat) degrees i j := by
  unfold sampledEdges sampledWeight
  rw [SprsMat.tripletSum_flatMap, sum_list_range]
  apply Finset.sum_congr rfl
  intro v _
  rw [SprsMat.tripletSum_flatMap, sum_list_range]
  apply Finset.sum_congr rfl
  intro k _
  simp only [SprsMat.tripletSum_cons, SprsMat.tripletSum_nil, add_zero]
  congr 1
  exact if_congr (by tauto) rfl rfl

theorem sampledWeight_comm (n : Nat) (nb : Nat → Nat → Nat) (deg : Nat → ℝ) (i j : Nat) :
    sampledWeight n nb deg i j = sampledWeight n nb deg j i := by
  unfold sampledWeight
  exact Finset.sum_congr rfl (fun v _ => Finset.sum_congr rfl (fun k _ => add_comm _ _))

/-- The graph built from given samples: for all schedules vertex `v` adds `degrees v / 5` for each of its two samples. -/
theorem asgFrom_graph {n threads : Nat} {degrees : Nat → ℝ} {ss : Nat → List Int} (ht : 0 < threads)
    (hdp : ∀ v, 0 < degrees v) (hss : ∀ i < n, (ss i).length = 2 ∧ ∀ v ∈ ss i, 0 ≤ v ∧ v < (n : Int)) :
    (∃ out, AsgFrom n threads 2 degrees ss out) ∧
    ∃ g : Graph ℝ, (∀ out, AsgFrom n threads 2 degrees ss out → out = .ok g) ∧ g.Valid ∧ g.Pruned ∧
      g.abs = ⟨n, fun i j => thr (sampledWeight n (fun v k => ((ss v).getD k 0).toNat) degrees i j)⟩ := by
  have inb : ∀ i < n, ∀ k < 2, ((ss i).getD k 0).toNat < n := by
    intro i hi k hk
    rw [List.getD_eq_getElem _ _ (by rw [(hss i hi).1]; exact hk)]
    have := (hss i hi).2 _ (List.getElem_mem (l := ss i) (n := k) (by rw [(hss i hi).1]; exact hk))
    omega
  have graph : ∃ g, graphOfTriplets n (sampledEdges 2 ss degrees n) = .ok g ∧ g.Valid ∧
        g.Pruned ∧ g.abs = ⟨n, fun i j => thr (sampledWeight n
          (fun v k => ((ss v).getD k 0).toNat) degrees i j)⟩ := by
    have hmem : ∀ t ∈ sampledEdges 2 ss degrees n,
        (t.row < n ∧ t.col < n) ∧ 0 ≤ t.val := by
      intro t htm
      unfold sampledEdges at htm
      simp only [List.mem_flatMap, List.mem_range, List.mem_cons, List.not_mem_nil, or_false] at htm
      obtain ⟨i, hi, k, hk, rfl | rfl⟩ := htm
      · exact ⟨⟨hi, inb i hi k hk⟩, (div_pos (hdp i) (by norm_num)).le⟩
      · exact ⟨⟨inb i hi k hk, hi⟩, (div_pos (hdp i) (by norm_num)).le⟩
    obtain ⟨g, hg, hv, hp, ha⟩ := graphOfTriplets_spec (fun t h => (hmem t h).1)
      (fun t h => (hmem t h).2) (fun i j => by
        rw [sampledEdges_sum, sampledEdges_sum, sampledWeight_comm])
    refine ⟨g, hg, hv, hp, ?_⟩
    rw [ha]
    simp only [sampledEdges_sum]
  have inRange : ¬ ∃ x ∈ chunkWrites 2 ss degrees 0 n, 2 * (n * 2) ≤ x.1 := by
    rintro ⟨x, hx, hle⟩
    have : x.1 ∈ List.range (2 * (n * 2)) := by
      rw [← nodes_index 2 ss degrees n]
      rw [chunkWrites_eq, Nat.sub_zero, ← List.range_eq_range'] at hx
      exact List.mem_map_of_mem hx
    rw [List.mem_range] at this
    omega
  have inRange' : ¬ ∃ c < threads, ∃ x ∈ chunkWrites 2 ss degrees
      (chunkStart n threads c) (chunkEnd n threads c), 2 * (n * 2) ≤ x.1 := by
    rintro ⟨c, hcl, x, hx, hle⟩
    have : x.1 ∈ List.range (2 * (n * 2)) := by
      rw [← C52_slots 2 ss degrees n threads ht, List.mem_flatMap]
      exact ⟨c, List.mem_range.2 hcl, List.mem_map_of_mem hx⟩
    rw [List.mem_range] at this
    omega
  have hno : ¬ ∃ i < n, (ss i).length < 2 ∨ ∃ v ∈ ss i, v < 0 := by
    rintro ⟨i, hi, h | ⟨v, hv, h⟩⟩
    · have := (hss i hi).1; omega
    · have := (hss i hi).2 v hv; omega
  unfold AsgFrom
  simp only [if_neg hno]
  constructor
  · by_cases hth : n ≤ threads * 2
    · refine ⟨graphOfTriplets n ((chunkWrites 2 ss degrees 0 n).foldl
        (fun edges x => edges.set x.1 x.2) (List.replicate (2 * (n * 2)) ⟨0, 0, 0⟩)), ?_⟩
      rw [if_pos hth, if_neg inRange]
    · obtain ⟨m, s, hex, hcs⟩ := C56_completes (T := asgTasks 2 ss degrees n threads) ht
        (proper_libProg threads [true])
        (S₀ := List.replicate (2 * (n * 2)) ⟨0, 0, 0⟩) Exec.nil
      refine ⟨graphOfTriplets n s.shared, ?_⟩
      rw [if_neg hth, if_neg inRange']
      exact ⟨m, 0, s, hex, hcs, rfl⟩
  · obtain ⟨g, hg, hv, hp, ha⟩ := graph
    refine ⟨g, fun out hout => ?_, hv, hp, ha⟩
    split_ifs at hout with hth
    · rw [hout, writes_sequential, hg]
    · obtain ⟨m, k, s, hex, hcs, rfl⟩ := hout
      rw [C52_vector ht hex hcs, hg]

/-- **C52**.  `approximate_similarity_graph` on at least two rows, with at least one thread, when the
data fit into one leaf (at most `cutoff` rows; the default is 5000), or when the cutoff is at least
two and the estimators answer positive numbers: for all random draws and all schedules the result is
a (symmetric) graph on the rows, in which every row `v` has drawn two rows (a possible result of
`sample_neighbors` for that row) and added `deg v / 5` for each, `deg` being the positive estimates of the degrees. -/
theorem C52_graph (data : Mat ℝ) (a : ℝ) (cutoff threads : Nat) (est : Nat → Nat → List ℝ → ℝ)
    (hn : 2 ≤ data.rows) (ht : 0 < threads)
    (hc : data.rows ≤ cutoff ∨ (2 ≤ cutoff ∧ ∀ lo hi q, 0 < est lo hi q)) :
    (∃ out, ApproxSimilarityGraph data a cutoff threads est out) ∧
    ∀ out, ApproxSimilarityGraph data a cutoff threads est out →
      ∃ (g : Graph ℝ) (nb : Nat → Nat → Nat), out = .ok g ∧ g.Valid ∧ g.Pruned ∧
        (∀ v < data.rows, ∀ k < 2, nb v k < data.rows) ∧
        (∀ v < data.rows, (KdeTree.build est cutoff 0 0 (data.rows - 1) 0).Sample data a (data.row v) 2
          (.ok [(nb v 0 : Int), (nb v 1 : Int)])) ∧
        g.abs = ⟨data.rows, fun i j => thr (sampledWeight data.rows nb (fun v =>
          (KdeTree.build est cutoff 0 0 (data.rows - 1) 0).weight data a (data.row v)) i j)⟩ := by
  have hdc : ⌊Real.log ((2 : Nat) : ℝ)⌋ = 0 := by
    rw [Int.floor_eq_zero_iff, Set.mem_Ico]
    have h1 := Real.log_two_gt_d9
    have h2 := Real.log_two_lt_d9
    push_cast
    constructor <;> linarith
  have hc' : data.rows - 1 - 0 < cutoff ∨ (2 ≤ cutoff ∧ ∀ lo hi q, 0 < est lo hi q) := by
    rcases hc with h | h
    · exact .inl (by omega)
    · exact .inr h
  have hS := fun v num out => C52_samples data a (data.row v) est cutoff 0 0 (data.rows - 1) 0 num
    (by omega) (by omega) out
  have hD := fun v num => C52_samples_defined data a (data.row v) est cutoff 0 0 (data.rows - 1) 0 num
    (by omega) (by omega) hc'
  have hW := fun v => (weight_pos data a (data.row v) est cutoff 0 0 (data.rows - 1) 0 (by omega)
    (by omega) hc').2 (by omega)
  have hcut : ¬ (cutoff = 0 ∨ (2 : Nat) = 0) := by omega
  unfold ApproxSimilarityGraph
  simp only [edgesPerNode_eq _ hn, hdc]
  simp only [if_neg hcut]
  generalize hdeg : (fun v => (KdeTree.build est cutoff 0 0 (data.rows - 1) 0).weight data a
    (data.row v)) = degrees
  have hdp : ∀ v, 0 < degrees v := fun v => by rw [← hdeg]; exact hW v
  -- the samples are good
  have good : ∀ (samples : Nat → Outcome (List Int)), (∀ i < data.rows,
      (KdeTree.build est cutoff 0 0 (data.rows - 1) 0).Sample data a (data.row i) 2 (samples i)) →
      ∀ i < data.rows, ∃ s, samples i = .ok s ∧ s.length = 2 ∧ ∀ v ∈ s, 0 ≤ v ∧ v < (data.rows : Int) := by
    intro samples hs i hi
    rcases hS i 2 _ (hs i hi) with h | ⟨s, h1, h2, h3⟩
    · exact absurd h ((hD i 2).2 _ (hs i hi))
    · exact ⟨s, h1, h2, fun v hv => by have := h3 v hv; omega⟩
  constructor
  · -- a run exists
    choose! samples hsam using fun i (_ : i < data.rows) => (hD i 2).1
    choose! ss hss using good samples hsam
    obtain ⟨⟨out, hout⟩, -⟩ := asgFrom_graph ht hdp (fun i hi => (hss i hi).2)
    exact ⟨out, samples, hsam, .inr ⟨ss, fun i hi => (hss i hi).1, hout⟩⟩
  · rintro out ⟨samples, hsam, hout⟩
    have hgood := good samples hsam
    rcases hout with ⟨⟨i, hi, hub⟩, -⟩ | ⟨ss, hss, hout⟩
    · obtain ⟨s, hs, -⟩ := hgood i hi
      rw [hub] at hs
      cases hs
    · have hss' : ∀ i < data.rows, (ss i).length = 2 ∧ ∀ v ∈ ss i, 0 ≤ v ∧ v < (data.rows : Int) := by
        intro i hi
        obtain ⟨s, hs, h2⟩ := hgood i hi
        rw [hss i hi] at hs
        cases hs
        exact h2
      obtain ⟨-, g, hg, hv, hp, ha⟩ := asgFrom_graph ht hdp hss'
      refine ⟨g, fun v k => ((ss v).getD k 0).toNat, hg out hout, hv, hp, fun i hi k hk => ?_, fun i hi => ?_, ha⟩
      · beta_reduce
        rw [List.getD_eq_getElem _ _ (by rw [(hss' i hi).1]; exact hk)]
        have := (hss' i hi).2 _ (List.getElem_mem (l := ss i) (n := k) (by rw [(hss' i hi).1]; exact hk))
        omega
      · have h1 := hsam i hi
        rw [hss i hi] at h1
        obtain ⟨hl, hv⟩ := hss' i hi
        match hsi : ss i, hl with
        | [x, y], _ =>
          rw [hsi] at h1 hv
          have hx := hv x (by simp)
          have hy := hv y (by simp)
          beta_reduce
          rw [hsi]
          rw [show [((([x, y] : List Int).getD 0 0).toNat : Int), ((([x, y] : List Int).getD 1 0).toNat : Int)] = [x, y] by
            simp only [List.getD_cons_zero, List.getD_cons_succ, Int.toNat_of_nonneg hx.1, Int.toNat_of_nonneg hy.1]]
          exact h1

/-- **C52** (degrees).  When the data fit into one leaf the estimated degree of `v` is
`(n - 1) / n` times the sum of the kernel over all rows (`v` itself included). -/
theorem C52_degrees (data : Mat ℝ) (a : ℝ) (cutoff : Nat) (est : Nat → Nat → List ℝ → ℝ)
    (hn : 2 ≤ data.rows) (hc : data.rows ≤ cutoff) (v : Nat) :
    (KdeTree.build est cutoff 0 0 (data.rows - 1) 0).weight data a (data.row v)
      = ((data.rows : ℝ) - 1) / data.rows
        * ∑ i ∈ Finset.range data.rows, exp (-(a * sqDist (data.row v) (data.row i))) := by
  rw [KdeTree.build, if_neg (by omega), C52_leaf_weight _ _ _ _ _ (by omega) (by omega)]
  unfold kernelSum
  rw [show Finset.Icc 0 (data.rows - 1) = Finset.range data.rows by ext x; simp; omega, Nat.sub_zero,
    Nat.cast_sub (by omega), Nat.cast_one, sub_add_cancel]

/-- **C52** (fewer than two rows).  Without data, and with a single row, the number of edges per node
is zero and its logarithm is converted to an integer: undefined. -/
theorem C52_fewer_than_two (data : Mat ℝ) (a : ℝ) (cutoff threads : Nat)
    (est : Nat → Nat → List ℝ → ℝ) (hn : data.rows < 2) :
    ∀ out, ApproxSimilarityGraph data a cutoff threads est out ↔ out = .ub := by
  intro out
  have he : edgesPerNode data.rows = 0 := by
    unfold edgesPerNode
    obtain h | h : data.rows = 0 ∨ data.rows = 1 := by omega
    · simp [h]
    · simp [h]
  unfold ApproxSimilarityGraph
  simp only [he]
  rw [if_pos (.inr trivial)]

/-- Two points, one thread: the first vertex draws itself twice, whatever the random numbers. -/
example (est : Nat → Nat → List ℝ → ℝ) (out : Outcome (List Int))
    (h : (KdeTree.build est 5000 0 0 1 0).Sample ⟨2, 1, [0, 1]⟩ 1 [0] 2 out) : out = .ok [0, 0] := by
  rcases C52_samples _ _ _ _ _ _ _ _ _ _ (by omega) (by simp) out h with rfl | ⟨ss, rfl, hl, hv⟩
  · exact absurd rfl ((C52_samples_defined ⟨2, 1, [0, 1]⟩ 1 [0] est 5000 0 0 1 0 2 (by omega)
      (by simp) (.inl (by omega))).2 _ h)
  · rw [KdeTree.build, if_neg (by omega)] at h
    obtain ⟨ss', e, hno⟩ := C52_last_row_never_sampled ⟨2, 1, [0, 1]⟩ 1 [0] 0 1 2 (by omega) (by simp)
      (by
        have he : exp (-1) ≤ (1 : ℝ) := by rw [exp_le_one_iff]; norm_num
        have : Finset.Icc 0 1 = ({0, 1} : Finset Nat) := by decide
        simp [kernelSum, this, sqDist, Mat.row, Mat.coeff]
        linarith) _ h
    cases e
    match ss, hl with
    | [x, y], _ =>
      have hx := hv x (by simp)
      have hy := hv y (by simp)
      simp only [List.mem_cons, List.not_mem_nil, or_false, not_or] at hno
      have : x = 0 := by omega
      have : y = 0 := by omega
      subst x y
      rfl

end Stag
