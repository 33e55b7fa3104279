import Verif.Kde
import Verif.Props.Lsh
import Mathlib.Tactic.Positivity
import Mathlib.Data.List.Perm.Basic
import Mathlib.Data.List.TakeWhile
import Mathlib.Algebra.BigOperators.Group.List.Basic

/-!
# C45, C46, C50: distances, the exact estimator, neighbour sampling
-/

set_option linter.unusedSectionVars false

namespace Stag

/-! ## C45: squared distances -/

/-- The squared Euclidean distance. -/
def sqDist {K : Type} [Field K] (u v : List K) : K :=
  ∑ i ∈ Finset.range u.length, (u.getD i 0 - v.getD i 0) ^ 2

section
variable {K : Type} [Field K] [LinearOrder K] [IsStrictOrderedRing K]

theorem sqDistLoop_eq (u v : List K) (n : Nat) : ∀ (i : Nat) (r : K),
    sqDistLoop u v i n r = r + ∑ t ∈ Finset.range n, (u.getD (i + t) 0 - v.getD (i + t) 0) ^ 2 := by
  induction n with
  | zero => intro i r; simp [sqDistLoop]
  | succ n ih =>
    intro i r
    unfold sqDistLoop
    simp only
    rw [ih, Finset.sum_range_succ']
    simp only [Nat.add_zero, Nat.add_assoc, Nat.add_comm 1]
    ring

/-- **C45**.  `squared_distance` is the squared Euclidean distance. -/
theorem C45_squared_distance (u v : List K) : squaredDistance u v = sqDist u v := by
  unfold squaredDistance sqDist
  rw [sqDistLoop_eq]
  simp

theorem sqDistAtMostLoop_eq (u v : List K) (max : K) (n : Nat) : ∀ (i : Nat) (r : K), r ≤ max ∨ 0 < n →
    0 ≤ r →
    sqDistAtMostLoop u v max i n r =
      if r + ∑ t ∈ Finset.range n, (u.getD (i + t) 0 - v.getD (i + t) 0) ^ 2 ≤ max
      then r + ∑ t ∈ Finset.range n, (u.getD (i + t) 0 - v.getD (i + t) 0) ^ 2 else -1 := by
  induction n with
  | zero =>
    intro i r h hr
    have h := h.resolve_right (by omega)
    simp [sqDistAtMostLoop, h]
  | succ n ih =>
    intro i r h hr
    unfold sqDistAtMostLoop
    simp only
    have e : r + ∑ t ∈ Finset.range (n + 1), (u.getD (i + t) 0 - v.getD (i + t) 0) ^ 2
        = (r + (u.getD i 0 - v.getD i 0) * (u.getD i 0 - v.getD i 0))
          + ∑ t ∈ Finset.range n, (u.getD (i + 1 + t) 0 - v.getD (i + 1 + t) 0) ^ 2 := by
      rw [Finset.sum_range_succ']
      simp only [Nat.add_zero, Nat.add_assoc, Nat.add_comm 1]
      ring
    have hnn : 0 ≤ ∑ t ∈ Finset.range n, (u.getD (i + 1 + t) 0 - v.getD (i + 1 + t) 0) ^ 2 :=
      Finset.sum_nonneg (fun t _ => sq_nonneg _)
    have hsq : 0 ≤ (u.getD i 0 - v.getD i 0) * (u.getD i 0 - v.getD i 0) := mul_self_nonneg _
    rw [e]
    by_cases hgt : r + (u.getD i 0 - v.getD i 0) * (u.getD i 0 - v.getD i 0) > max
    · rw [if_pos hgt, if_neg (by linarith)]
    · rw [if_neg hgt, ih (i + 1) _ (.inl (by linarith)) (by linarith)]

/-- **C45**.  `squared_distance_at_most(u, v, m)` is the squared distance if that is at most `m` and
`-1` otherwise, for every pair of points with at least one coordinate and every bound, also a
negative one. -/
theorem C45_at_most (u v : List K) (m : K) (h : u ≠ [] ∨ 0 ≤ m) :
    squaredDistanceAtMost u v m = if sqDist u v ≤ m then sqDist u v else -1 := by
  unfold squaredDistanceAtMost sqDist
  rw [sqDistAtMostLoop_eq _ _ _ _ _ _ (by
    rcases h with h | h
    · exact .inr (List.length_pos_iff.2 h)
    · exact .inl h) (le_refl 0)]
  simp

/-- **C45** (edge).  A point without coordinates is at distance 0, whatever the bound. -/
theorem C45_no_coordinates (v : List K) (m : K) : squaredDistanceAtMost [] v m = 0 := rfl

/-- **C45**.  The answer `-1` cannot be mistaken for a distance, and comparing the answer with a
bound `l ≥ 0` is the same as testing whether the squared distance lies in `(l, m]`. -/
theorem C45_shell_test (u v : List K) (l m : K) (hl : 0 ≤ l) (hm : 0 ≤ m) :
    squaredDistanceAtMost u v m > l ↔ l < sqDist u v ∧ sqDist u v ≤ m := by
  rw [C45_at_most u v m (.inr hm)]
  constructor
  · intro h
    split_ifs at h with hd
    · exact ⟨h, hd⟩
    · linarith
  · rintro ⟨h1, h2⟩
    rw [if_pos h2]; exact h1

theorem sqDist_nonneg (u v : List K) : 0 ≤ sqDist u v :=
  Finset.sum_nonneg (fun _ _ => sq_nonneg _)

theorem sqDist_self (u : List K) : sqDist u u = 0 := by simp [sqDist]

theorem sqDist_comm (u v : List K) (h : u.length = v.length) : sqDist u v = sqDist v u := by
  unfold sqDist
  rw [h]
  exact Finset.sum_congr rfl (fun i _ => by ring)

/-- The squared distance vanishes only between equal points. -/
theorem sqDist_eq_zero (u v : List K) (h : u.length = v.length) : sqDist u v = 0 ↔ u = v := by
  constructor
  · intro h0
    unfold sqDist at h0
    rw [Finset.sum_eq_zero_iff_of_nonneg (fun _ _ => sq_nonneg _)] at h0
    apply List.ext_getElem h
    intro i h1 h2
    have := h0 i (Finset.mem_range.2 h1)
    rw [List.getD_eq_getElem _ _ h1, List.getD_eq_getElem _ _ h2, sq_eq_zero_iff, sub_eq_zero] at this
    exact this
  · rintro rfl; exact sqDist_self u

end

example : squaredDistanceAtMost ([1, 2, 3] : List ℚ) [1, 0, 0] 4 = -1 ∧
    squaredDistanceAtMost ([1, 2, 3] : List ℚ) [1, 0, 0] 13 = 13 ∧
    squaredDistanceAtMost ([1, 2, 3] : List ℚ) [1, 0, 0] (-1) = -1 := by decide +kernel

/-! ## C46: the exact estimator -/

open Real

/-- The Gaussian kernel of two points. -/
noncomputable def gauss (a : ℝ) (u v : List ℝ) : ℝ := exp (-(a * sqDist u v))

theorem kernelOf_eq (a : ℝ) (u v : List ℝ) : kernelOf a u v = gauss a u v := by
  unfold kernelOf gaussianKernel gauss
  rw [C45_squared_distance]

/-- **C46**.  The kernel is symmetric, positive, at most one, and one exactly at distance zero
(`a > 0`). -/
theorem C46_kernel (a : ℝ) (u v : List ℝ) (h : u.length = v.length) :
    kernelOf a u v = exp (-(a * sqDist u v)) ∧ kernelOf a u v = kernelOf a v u ∧
    0 < kernelOf a u v ∧ (0 ≤ a → kernelOf a u v ≤ 1) ∧ (0 < a → (kernelOf a u v = 1 ↔ u = v)) := by
  rw [kernelOf_eq, kernelOf_eq]
  refine ⟨rfl, ?_, exp_pos _, fun ha => ?_, fun ha => ?_⟩
  · unfold gauss; rw [sqDist_comm u v h]
  · unfold gauss
    rw [exp_le_one_iff]
    have := mul_nonneg ha (sqDist_nonneg u v)
    linarith
  · unfold gauss
    rw [exp_eq_one_iff, neg_eq_zero, mul_eq_zero, or_iff_right ha.ne', sqDist_eq_zero u v h]

theorem foldl_add_eq {β : Type} (f : β → ℝ) (l : List β) (r : ℝ) :
    l.foldl (fun total x => total + f x) r = r + (l.map f).sum := by
  induction l generalizing r with
  | nil => simp
  | cons x l ih => simp only [List.foldl_cons, ih, List.map_cons, List.sum_cons]; ring

/-- **C46**.  On a matrix with at least one row the exact estimator answers the average of the
Gaussian kernel between the query and the rows. -/
theorem C46_query (m : Mat ℝ) (a : ℝ) (q : List ℝ) (hm : 0 < m.rows) :
    (ExactKde.create m a).query q =
      some ((∑ i ∈ Finset.range m.rows, exp (-(a * sqDist q (m.row i)))) / m.rows) := by
  unfold ExactKde.query ExactKde.create gaussianKdeExact
  simp only
  rw [foldl_add_eq, if_neg (by simp; omega), zero_add, List.map_map]
  have : ((List.range m.rows).map ((fun i => kernelOf a q i) ∘ m.row)).sum
      = ∑ i ∈ Finset.range m.rows, exp (-(a * sqDist q (m.row i))) := by
    rw [Finset.sum_eq_multiset_sum, Finset.range_val, ← Multiset.coe_range, Multiset.map_coe,
      Multiset.sum_coe]
    congr 1
    apply List.map_congr_left
    intro i _
    simp only [Function.comp, kernelOf_eq]; rfl
  rw [this]
  simp

/-- **C46** (subrange).  The estimator built on the rows `lo, ..., hi - 1` averages over them. -/
theorem C46_query_range (m : Mat ℝ) (a : ℝ) (q : List ℝ) (lo hi : Nat) (h : lo < hi)
    (hr : hi ≤ m.rows) :
    ∃ e, ExactKde.createRange m a lo hi = .ok e ∧ e.query q =
      some ((∑ i ∈ Finset.Ico lo hi, exp (-(a * sqDist q (m.row i)))) / ((hi - lo : Nat) : ℝ)) := by
  unfold ExactKde.createRange
  rw [if_neg (by omega)]
  refine ⟨_, rfl, ?_⟩
  unfold ExactKde.query gaussianKdeExact
  simp only
  have hlen : ((hi : Int) - lo).toNat = hi - lo := by omega
  rw [foldl_add_eq, if_neg (by simp; omega), zero_add, List.map_map, hlen]
  have : ((List.range (hi - lo)).map ((fun i => kernelOf a q i) ∘
      (fun t => m.row ((lo : Int).toNat + t)))).sum
      = ∑ i ∈ Finset.Ico lo hi, exp (-(a * sqDist q (m.row i))) := by
    rw [Finset.sum_Ico_eq_sum_range, Finset.sum_eq_multiset_sum, Finset.range_val,
      ← Multiset.coe_range, Multiset.map_coe, Multiset.sum_coe]
    congr 1
    apply List.map_congr_left
    intro i _
    simp only [Function.comp, kernelOf_eq, Int.toNat_natCast]; rfl
  rw [this]
  simp

/-- **C46** (rows outside the matrix).  The constructor on the rows `lo, ..., hi - 1` has undefined behaviour exactly if one
of these rows is not a row of the matrix. -/
theorem C46_range_defined (m : Mat ℝ) (a : ℝ) (lo hi : Int) :
    (ExactKde.createRange m a lo hi = .ub ↔ ∃ i, lo ≤ i ∧ i < hi ∧ (i < 0 ∨ (m.rows : Int) ≤ i)) ∧
    ((∀ i, lo ≤ i → i < hi → 0 ≤ i ∧ i < m.rows) → ∃ e, ExactKde.createRange m a lo hi = .ok e ∧
      e.allData = (List.range (hi - lo).toNat).map fun t : Nat => m.row (lo + t).toNat) := by
  have hiff : (lo < hi ∧ (lo < 0 ∨ (m.rows : Int) < hi)) ↔ ∃ i, lo ≤ i ∧ i < hi ∧ (i < 0 ∨ (m.rows : Int) ≤ i) := by
    constructor
    · rintro ⟨h1, h2 | h2⟩
      · exact ⟨lo, le_refl _, h1, .inl h2⟩
      · exact ⟨hi - 1, by omega, by omega, .inr (by omega)⟩
    · rintro ⟨i, h1, h2, h3⟩
      omega
  unfold ExactKde.createRange
  refine ⟨?_, fun h => ?_⟩
  · rw [← hiff]
    by_cases hc : lo < hi ∧ (lo < 0 ∨ (m.rows : Int) < hi)
    · rw [if_pos hc]; simp [hc]
    · rw [if_neg hc]; simp [hc]
  · rw [if_neg (fun hc => by
      obtain ⟨i, h1, h2, h3⟩ := hiff.1 hc
      have := h i h1 h2
      omega)]
    refine ⟨_, rfl, List.map_congr_left fun t ht => ?_⟩
    have h1 := List.mem_range.1 ht
    have h2 := (h lo (le_refl _) (by omega)).1
    congr 1
    omega

/-- **C46** (range).  For `a ≥ 0` and data that is not empty the answer is a number in `(0, 1]`. -/
theorem C46_query_in_unit_interval (e : ExactKde) (q : List ℝ) (ha : 0 ≤ e.a) (hd : e.allData ≠ []) :
    ∃ x, e.query q = some x ∧ 0 < x ∧ x ≤ 1 := by
  unfold ExactKde.query gaussianKdeExact
  have hlen : 0 < e.allData.length := List.length_pos_iff.2 hd
  simp only
  rw [if_neg (by omega), foldl_add_eq, zero_add]
  refine ⟨_, rfl, ?_, ?_⟩
  · apply div_pos _ (by exact_mod_cast hlen)
    apply List.sum_pos
    · intro x hx
      obtain ⟨y, -, rfl⟩ := List.mem_map.1 hx
      rw [kernelOf_eq]; exact exp_pos _
    · intro h; rw [List.map_eq_nil_iff] at h; exact hd h
  · rw [div_le_one (by exact_mod_cast hlen)]
    have := List.sum_le_card_nsmul (e.allData.map (fun i => kernelOf e.a q i)) 1 (by
      intro x hx
      obtain ⟨y, -, rfl⟩ := List.mem_map.1 hx
      rw [kernelOf_eq]; unfold gauss
      rw [exp_le_one_iff]
      have := mul_nonneg ha (sqDist_nonneg q y)
      linarith)
    simpa using this

/-- **C46** (order).  The answer does not depend on the order of the data. -/
theorem C46_query_order (a : ℝ) (data data' : List (List ℝ)) (q : List ℝ) (h : data.Perm data') :
    gaussianKdeExact a data q = gaussianKdeExact a data' q := by
  unfold gaussianKdeExact
  simp only [foldl_add_eq, h.length_eq, (h.map _).sum_eq]

/-- **C46** (empty).  Without data the answer is not a number. -/
theorem C46_query_empty (e : ExactKde) (q : List ℝ) (h : e.allData = []) : e.query q = none := by
  unfold ExactKde.query gaussianKdeExact
  simp [h]

/-- A concrete case: the average over the points 0 and 1, seen from 0. -/
example : (ExactKde.create (⟨2, 1, [0, 1]⟩ : Mat ℝ) 1).query [0] = some ((1 + exp (-1)) / 2) := by
  rw [C46_query _ _ _ (by simp)]
  simp [Finset.sum_range_succ, sqDist, Mat.row, Mat.coeff]

/-! ## C50: sampling neighbours -/

/-- The total kernel weight of the first `k` points. -/
noncomputable def cumWeight (a : ℝ) (q : List ℝ) (data : List (List ℝ)) (k : Nat) : ℝ :=
  ((data.take k).map (gauss a q)).sum

/-- Point number `k` is the one the target `t` falls on: `t` lies in the `k`-th of the intervals of
lengths the kernel weights, laid end to end from 0 (everything below 0 belongs to the first). -/
def FallsOn (a : ℝ) (q : List ℝ) (data : List (List ℝ)) (t : ℝ) (k : Nat) : Prop :=
  k < data.length ∧ (k = 0 ∨ cumWeight a q data k ≤ t) ∧ t < cumWeight a q data (k + 1)

/-- The index chosen by the loop for the target `t`. -/
noncomputable def pick (a : ℝ) (q : List ℝ) (t : ℝ) : Int → List (List ℝ) → ℝ → Option Int
  | _, [], _ => none
  | i, x :: xs, total =>
    if t < total + gauss a q x then some i else pick a q t (i + 1) xs (total + gauss a q x)

theorem takeWhile_drop_length {β : Type} (f : β → Bool) (l : List β) :
    l.drop (l.takeWhile f).length = l.dropWhile f := by
  induction l with
  | nil => rfl
  | cons x l ih =>
    rw [List.takeWhile_cons, List.dropWhile_cons]
    split_ifs
    · simpa using ih
    · rfl

theorem dropWhile_lt_sorted (w : ℝ) (l : List ℝ) (h : l.Pairwise (· ≤ ·)) :
    ∀ t ∈ l.dropWhile (fun t => decide (t < w)), ¬ t < w := by
  induction l with
  | nil => simp
  | cons x l ih =>
    rw [List.pairwise_cons] at h
    intro t ht
    rw [List.dropWhile_cons] at ht
    split_ifs at ht with hx
    · exact ih h.2 t ht
    · have hx : ¬ x < w := by simpa using hx
      rcases List.mem_cons.1 ht with e | e
      · rw [e]; exact hx
      · have := h.1 t e; linarith

theorem sampleLoop_eq (a : ℝ) (q : List ℝ) (xs : List (List ℝ)) : ∀ (i : Int) (total : ℝ)
    (targets : List ℝ) (samples : List Int), targets.Pairwise (· ≤ ·) →
    sampleLoop a q i xs total targets samples
      = samples ++ targets.filterMap (fun t => pick a q t i xs total) := by
  induction xs with
  | nil =>
    intro i total targets samples _
    have : targets.filterMap (fun t => pick a q t i [] total) = [] := by
      rw [List.filterMap_eq_nil_iff]; intro t _; rfl
    rw [this, List.append_nil]; rfl
  | cons x xs ih =>
    intro i total targets samples hs
    unfold sampleLoop
    simp only [kernelOf_eq]
    rw [takeWhile_drop_length]
    generalize hw : total + gauss a q x = w
    have hsplit := List.takeWhile_append_dropWhile (p := fun t => decide (t < w)) (l := targets)
    have h1 : (targets.takeWhile (fun t => decide (t < w))).filterMap
        (fun t => pick a q t i (x :: xs) total)
        = List.replicate (targets.takeWhile (fun t => decide (t < w))).length i := by
      have : ∀ l : List ℝ, (∀ t ∈ l, t < w) →
          l.filterMap (fun t => pick a q t i (x :: xs) total) = List.replicate l.length i := by
        intro l
        induction l with
        | nil => intro _; rfl
        | cons t l ih2 =>
          intro h
          rw [List.filterMap_cons_some (b := i), ih2 (fun t ht => h t (by simp [ht])),
            List.length_cons, List.replicate_succ]
          unfold pick
          rw [hw, if_pos (h t (by simp))]
      exact this _ (fun t ht => by simpa using List.mem_takeWhile_imp ht)
    have h2 : (targets.dropWhile (fun t => decide (t < w))).filterMap
        (fun t => pick a q t i (x :: xs) total)
        = (targets.dropWhile (fun t => decide (t < w))).filterMap
          (fun t => pick a q t (i + 1) xs w) := by
      apply List.filterMap_congr
      intro t ht
      have := dropWhile_lt_sorted w targets hs t ht
      conv => lhs; unfold pick
      rw [hw, if_neg this]
    conv => rhs; rw [← hsplit]
    rw [List.filterMap_append, h1, h2]
    by_cases he : (targets.dropWhile (fun t => decide (t < w))).isEmpty = true
    · rw [if_pos he]
      rw [List.isEmpty_iff] at he
      rw [he]; simp
    · rw [if_neg he, ih, List.append_assoc]
      exact hs.sublist (List.dropWhile_sublist _)

theorem cumWeight_succ (a : ℝ) (q : List ℝ) (data : List (List ℝ)) (x : List ℝ) (k : Nat) :
    cumWeight a q (x :: data) (k + 1) = gauss a q x + cumWeight a q data k := by
  simp [cumWeight]

theorem cumWeight_nonneg (a : ℝ) (q : List ℝ) (data : List (List ℝ)) (k : Nat) :
    0 ≤ cumWeight a q data k := by
  unfold cumWeight
  apply List.sum_nonneg
  intro x hx
  obtain ⟨y, -, rfl⟩ := List.mem_map.1 hx
  exact (exp_pos _).le

theorem pick_spec (a : ℝ) (q : List ℝ) (t : ℝ) (data : List (List ℝ)) : ∀ (i : Int) (total : ℝ)
    (r : Int), pick a q t i data total = some r ↔
      ∃ k : Nat, r = i + k ∧ k < data.length ∧ (k = 0 ∨ total + cumWeight a q data k ≤ t) ∧
        t < total + cumWeight a q data (k + 1) := by
  induction data with
  | nil => intro i total r; simp [pick]
  | cons x data ih =>
    intro i total r
    unfold pick
    by_cases h : t < total + gauss a q x
    · rw [if_pos h]
      constructor
      · intro e
        cases e
        exact ⟨0, by simp, by simp, .inl rfl, by rw [cumWeight_succ]; simpa [cumWeight] using h⟩
      · rintro ⟨k, rfl, hk, h1, h2⟩
        cases k with
        | zero => simp
        | succ k =>
          have h1 := h1.resolve_left (by omega)
          rw [cumWeight_succ] at h1
          have := cumWeight_nonneg a q data k
          exfalso; linarith
    · rw [if_neg h, ih]
      constructor
      · rintro ⟨k, rfl, hk, h1, h2⟩
        refine ⟨k + 1, by push_cast; ring, by simpa using hk, .inr ?_, ?_⟩
        · rw [cumWeight_succ]
          rcases h1 with h1 | h1
          · subst h1
            simp only [cumWeight, List.take_zero, List.map_nil, List.sum_nil]
            push Not at h
            linarith
          · linarith
        · rw [cumWeight_succ]; linarith
      · rintro ⟨k, rfl, hk, h1, h2⟩
        cases k with
        | zero =>
          exfalso
          rw [cumWeight_succ] at h2
          simp only [cumWeight, List.take_zero, List.map_nil, List.sum_nil] at h2
          apply h; linarith
        | succ k =>
          have h1 := h1.resolve_left (by omega)
          rw [cumWeight_succ] at h1 h2
          exact ⟨k, by push_cast; ring, by simpa using hk, .inr (by linarith), by linarith⟩

theorem pick_none (a : ℝ) (q : List ℝ) (t : ℝ) (data : List (List ℝ)) : ∀ (i : Int) (total : ℝ),
    0 < data.length → (pick a q t i data total = none ↔ total + cumWeight a q data data.length ≤ t) := by
  induction data with
  | nil => intro i total h; simp at h
  | cons x data ih =>
    intro i total _
    unfold pick
    rw [List.length_cons, cumWeight_succ]
    by_cases h : t < total + gauss a q x
    · rw [if_pos h]
      have := cumWeight_nonneg a q data data.length
      simp only [reduceCtorEq, false_iff, not_le]
      linarith
    · rw [if_neg h]
      by_cases hd : data = []
      · subst hd
        simp only [pick, cumWeight, List.length_nil, List.take_zero, List.map_nil, List.sum_nil,
          true_iff]
        push Not at h; linarith
      · rw [ih _ _ (List.length_pos_iff.2 hd)]
        constructor <;> intro h' <;> linarith

/-- **C50**.  `sample_neighbors(q, degree, rs)` on the estimator over the rows `min, ..., max - 1`:
up to order, the result holds, for each draw `r` for which `degree * r` is below the total weight,
the index of the point that `degree * r` falls on, and nothing else. -/
theorem C50_samples (e : ExactKde) (q : List ℝ) (degree : ℝ) (rs : List ℝ) :
    ∃ f : ℝ → Option Int,
      (e.sampleNeighbors q degree rs).Perm (rs.filterMap f) ∧
      (∀ r i, f r = some i ↔ ∃ k : Nat, i = e.minId + k ∧ FallsOn e.a q e.allData (degree * r) k) ∧
      (e.allData ≠ [] → ∀ r, f r = none ↔
        cumWeight e.a q e.allData e.allData.length ≤ degree * r) := by
  refine ⟨fun r => pick e.a q (degree * r) e.minId e.allData 0, ?_, fun r i => ?_, fun hd r => ?_⟩
  · unfold ExactKde.sampleNeighbors
    simp only
    have hsort := List.pairwise_mergeSort (le := fun x y : ℝ => decide (x ≤ y))
      (by intro a b c; simp only [decide_eq_true_eq]; exact le_trans)
      (by intro a b; simp only [Bool.or_eq_true, decide_eq_true_eq]; exact le_total a b)
      (rs.map (fun r => degree * r))
    rw [sampleLoop_eq _ _ _ _ _ _ _ (hsort.imp (by simp)), List.nil_append]
    have hperm := List.mergeSort_perm (rs.map (fun r => degree * r)) (fun x y => decide (x ≤ y))
    have h2 := hperm.filterMap (fun t => pick e.a q t e.minId e.allData 0)
    rw [List.filterMap_map] at h2
    exact h2
  · rw [pick_spec]
    constructor
    · rintro ⟨k, h1, h2, h3, h4⟩
      rw [zero_add] at h3 h4
      exact ⟨k, h1, h2, h3, h4⟩
    · rintro ⟨k, h1, h2, h3, h4⟩
      exact ⟨k, h1, h2, by rw [zero_add]; exact h3, by rw [zero_add]; exact h4⟩
  · simp only
    rw [pick_none _ _ _ _ _ _ (List.length_pos_iff.2 hd), zero_add]

/-- **C50** (number and range).  If every draw satisfies `degree * r < ` total weight — for instance
`r < 1` and `degree` at most the true weight — then exactly as many samples are returned as were
asked for, all of them indices of stored points. -/
theorem C50_count_and_range (e : ExactKde) (q : List ℝ) (degree : ℝ) (rs : List ℝ)
    (hd : e.allData ≠ [])
    (hr : ∀ r ∈ rs, degree * r < cumWeight e.a q e.allData e.allData.length) :
    (e.sampleNeighbors q degree rs).length = rs.length ∧
    ∀ i ∈ e.sampleNeighbors q degree rs, e.minId ≤ i ∧ i < e.minId + e.allData.length := by
  obtain ⟨f, hp, hf, hn⟩ := C50_samples e q degree rs
  constructor
  · rw [hp.length_eq]
    have : ∀ l : List ℝ, (∀ r ∈ l, f r ≠ none) → (l.filterMap f).length = l.length := by
      intro l
      induction l with
      | nil => intro _; rfl
      | cons x l ih =>
        intro h
        obtain ⟨b, hb⟩ := Option.ne_none_iff_exists'.1 (h x (by simp))
        rw [List.filterMap_cons_some hb, List.length_cons, List.length_cons,
          ih (fun r hr => h r (by simp [hr]))]
    exact this rs (fun r hm e' => absurd ((hn hd r).1 e') (not_le.2 (hr r hm)))
  · intro i hi
    rw [hp.mem_iff, List.mem_filterMap] at hi
    obtain ⟨r, -, hr⟩ := hi
    obtain ⟨k, rfl, hk, -⟩ := (hf r i).1 hr
    omega

/-- **C50** (missing samples).  A draw with `degree * r` at least the total weight — `r = 1` with the
exact degree, or an overestimated degree — yields no sample: then fewer samples than requested come
back. -/
theorem C50_missing (e : ExactKde) (q : List ℝ) (degree : ℝ) (rs : List ℝ) (hd : e.allData ≠ [])
    (r : ℝ) (hr : r ∈ rs) (h : cumWeight e.a q e.allData e.allData.length ≤ degree * r) :
    (e.sampleNeighbors q degree rs).length < rs.length := by
  obtain ⟨f, hp, -, hn⟩ := C50_samples e q degree rs
  rw [hp.length_eq]
  have hnone := (hn hd r).2 h
  obtain ⟨l1, l2, rfl⟩ := List.append_of_mem hr
  rw [List.filterMap_append, List.filterMap_cons_none hnone, List.length_append, List.length_append,
    List.length_cons]
  have h1 := List.length_filterMap_le f l1
  have h2 := List.length_filterMap_le f l2
  omega

/-- **C50** (distribution).  With the exact degree, point `k` is chosen exactly for the draws in an
interval inside `[0, 1)` of length its share of the total weight: with a uniform draw it is sampled
with probability proportional to its kernel value. -/
theorem C50_distribution (a : ℝ) (q : List ℝ) (data : List (List ℝ)) (k : Nat) (hk : k < data.length) :
    let W := cumWeight a q data data.length
    ∃ l u : ℝ, 0 ≤ l ∧ u ≤ 1 ∧ u - l = gauss a q data[k] / W ∧
      ∀ r, 0 ≤ r → (FallsOn a q data (W * r) k ↔ l ≤ r ∧ r < u) := by
  have hstep : ∀ j (hj : j < data.length), cumWeight a q data (j + 1)
      = cumWeight a q data j + gauss a q data[j] := by
    intro j hj
    unfold cumWeight
    rw [List.take_succ_eq_append_getElem hj, List.map_append, List.sum_append]
    simp
  have hmono : ∀ j, cumWeight a q data j ≤ cumWeight a q data data.length := by
    intro j
    unfold cumWeight
    rw [List.take_length]
    conv => rhs; rw [← List.take_append_drop j data]
    rw [List.map_append, List.sum_append]
    have : 0 ≤ ((data.drop j).map (gauss a q)).sum := by
      apply List.sum_nonneg
      intro x hx
      obtain ⟨y, -, rfl⟩ := List.mem_map.1 hx
      exact (exp_pos _).le
    linarith
  have hW : 0 < cumWeight a q data data.length := by
    have h1 := hstep k hk
    have h2 := hmono (k + 1)
    have h3 := cumWeight_nonneg a q data k
    have h4 : 0 < gauss a q data[k] := exp_pos _
    linarith
  intro W
  refine ⟨cumWeight a q data k / W, cumWeight a q data (k + 1) / W, ?_, ?_, ?_, fun r hr => ?_⟩
  · exact div_nonneg (cumWeight_nonneg _ _ _ _) hW.le
  · rw [div_le_one hW]; exact hmono _
  · rw [hstep k hk]; ring
  · unfold FallsOn
    rw [div_le_iff₀ hW, lt_div_iff₀ hW]
    constructor
    · rintro ⟨-, h1, h2⟩
      refine ⟨?_, by rw [mul_comm]; exact h2⟩
      rcases h1 with h1 | h1
      · subst h1
        have : cumWeight a q data 0 = 0 := by simp [cumWeight]
        rw [this]
        exact mul_nonneg hr hW.le
      · rw [mul_comm]; exact h1
    · rintro ⟨h1, h2⟩
      exact ⟨hk, .inr (by rw [mul_comm]; exact h1), by rw [mul_comm]; exact h2⟩

/-- Two points at distance zero and a draw of one half: the second point is chosen; a draw of one
gives nothing. -/
example : (ExactKde.create (⟨2, 1, [0, 0]⟩ : Mat ℝ) 1).sampleNeighbors [0] 2 [1 / 2] = [1] ∧
    (ExactKde.create (⟨2, 1, [0, 0]⟩ : Mat ℝ) 1).sampleNeighbors [0] 2 [1] = [] := by
  have hdata : (ExactKde.create (⟨2, 1, [0, 0]⟩ : Mat ℝ) 1).allData = [[0], [0]] := by
    simp [ExactKde.create, List.range_succ, Mat.row, Mat.coeff]
  have h0 : kernelOf 1 [0] [0] = 1 := by rw [kernelOf_eq]; simp [gauss, sqDist]
  constructor
  · unfold ExactKde.sampleNeighbors
    rw [hdata]
    simp only [ExactKde.create, List.map_cons, List.map_nil, List.mergeSort_singleton, sampleLoop, h0]
    norm_num
  · unfold ExactKde.sampleNeighbors
    rw [hdata]
    simp only [ExactKde.create, List.map_cons, List.map_nil, List.mergeSort_singleton, sampleLoop, h0]
    norm_num

end Stag
