import Verif.Props.Shells
import Verif.PermStats
import Mathlib.Analysis.Complex.ExponentialBounds

/-!
# C67: how accurate the CKNS estimator is

The `k1` copies are independent uniformly random permutations of the data: probabilities are fractions of
the `(n!) ^ k1` tuples of permutations.
-/

set_option linter.unusedSectionVars false

namespace Stag

open Finset

/-! ## The constant of the code for `log 2` -/

theorem log_two_le_const : Real.log 2 ≤ 0.69314718056 := by
  have t : |(2⁻¹ : ℝ)| = 2⁻¹ := by rw [abs_of_pos]; norm_num
  have z := Real.abs_log_sub_add_sum_range_le (show |(2⁻¹ : ℝ)| < 1 by rw [t]; norm_num) 50
  rw [t] at z
  norm_num1 at z
  rw [one_div (2 : ℝ), Real.log_inv, ← sub_eq_add_neg, abs_sub_comm] at z
  have h := (abs_sub_le_iff.1 z).1
  refine le_trans (sub_le_iff_le_add.1 h) ?_
  norm_num

theorem exp_const_le (m : Nat) (y : ℝ) (h : (m : ℝ) * 0.69314718056 < y) :
    Real.exp (-y) ≤ (2 : ℝ) ^ (-(m : Int)) := by
  have h1 : (m : ℝ) * Real.log 2 ≤ y := by
    have := mul_le_mul_of_nonneg_left log_two_le_const (Nat.cast_nonneg (α := ℝ) m)
    linarith
  have h2 : Real.exp (-y) ≤ Real.exp (-((m : ℝ) * Real.log 2)) := Real.exp_le_exp.2 (by linarith)
  refine le_trans h2 (le_of_eq ?_)
  rw [Real.exp_neg, mul_comm, Real.exp_mul, Real.exp_log (by norm_num), Real.rpow_natCast, zpow_neg,
    zpow_natCast]

/-! ## One term of an estimate -/

/-- The largest term that can be added for one point when `log2(n mu)` is guessed as `logNmu`. -/
noncomputable def maxTerm (logNmu offset : Int) : ℝ := max 1 ((2 : ℝ) ^ (1 + offset + logNmu))

theorem div_min_one {g t : ℝ} (hg : 0 ≤ g) (ht : 0 < t) : g / min 1 t = max g (g / t) := by
  rcases le_total 1 t with h | h
  · rw [min_eq_left h, div_one, max_eq_left (div_le_self hg h)]
  · rw [min_eq_right h, max_eq_right]
    rw [le_div_iff₀ ht]
    nlinarith

theorem term_le {a : ℝ} (ha : 0 < a) {n : Nat} (hn : 0 < n) {logNmu offset : Int} {j J : Nat} (hj : j ≤ J)
    (hJ : cknsJ n logNmu = J) {d : ℝ} (hd : 0 ≤ d) (h : InShell a J j d) :
    Real.exp (-(a * d)) / cknsPSampling j logNmu n offset ≤ maxTerm logNmu offset := by
  have hn' : (0 : ℝ) < n := by exact_mod_cast hn
  have he1 : Real.exp (-(a * d)) ≤ 1 := Real.exp_le_one_iff.2 (by
    have := mul_nonneg ha.le hd
    linarith)
  have he0 := (Real.exp_pos (-(a * d))).le
  unfold cknsPSampling maxTerm
  unfold InShell at h
  by_cases h0 : j = 0
  · subst h0
    rw [if_pos rfl] at h
    rw [if_pos (by simp), div_min_one he0 (by positivity)]
    apply max_le_max he1
    have h1 : (J : ℝ) * 0.69314718056 < a * d := by
      rw [div_lt_iff₀ ha] at h
      linarith
    have h2 := exp_const_le J _ h1
    have h3 : (n : ℝ) ≤ (2 : ℝ) ^ (⌈Real.logb 2 n⌉) := by
      have := Int.le_ceil (Real.logb 2 (n : ℝ))
      rw [Real.logb_le_iff_le_rpow (by norm_num) hn', Real.rpow_intCast] at this
      exact this
    have h4 : ⌈Real.logb 2 n⌉ = (J : Int) + logNmu := by
      unfold cknsJ at hJ; omega
    rw [h4] at h3
    rw [div_div_eq_mul_div, div_le_iff₀ (by positivity)]
    calc Real.exp (-(a * d)) * n ≤ (2 : ℝ) ^ (-(J : Int)) * (2 : ℝ) ^ ((J : Int) + logNmu) :=
          mul_le_mul h2 h3 hn'.le (by positivity)
      _ = (2 : ℝ) ^ logNmu := by
          rw [← zpow_add₀ (by norm_num)]; congr 1; omega
      _ ≤ (2 : ℝ) ^ (1 + logNmu) := zpow_le_zpow_right₀ (by norm_num) (by omega)
      _ = (2 : ℝ) ^ (1 + offset + logNmu) * (2 : ℝ) ^ (-offset) := by
          rw [← zpow_add₀ (by norm_num)]; congr 1; omega
  · rw [if_neg h0] at h
    rw [if_neg (by exact_mod_cast h0), div_min_one he0 (by positivity)]
    apply max_le_max he1
    have h1 : ((j - 1 : Nat) : ℝ) * 0.69314718056 < a * d := by
      have := h.1
      rw [div_lt_iff₀ ha] at this
      linarith
    have h2 := exp_const_le (j - 1) _ h1
    rw [← zpow_add₀ (by norm_num), div_le_iff₀ (by positivity), ← zpow_add₀ (by norm_num)]
    refine le_trans h2 (le_of_eq ?_)
    congr 1
    omega

/-! ## The estimate of one copy, if no unit needs a hash table -/

section
variable {n : Nat} (a : ℝ) (x : Fin n → List ℝ) (q : List ℝ) (logNmu offset : Int) (J : Nat)

/-- The sum over the levels of the kernel over the sampled points of the shell, divided by the sampling
probability, for the permutation `σ` of the data. -/
noncomputable def sampledSum (σ : Equiv.Perm (Fin n)) : ℝ :=
  ∑ j ∈ range (J + 1), shellSum a J j q ((List.ofFn (fun i => x (σ i))).take (numSampled j logNmu n offset))
    / cknsPSampling j logNmu n offset

/-- Its mean: the kernel sum of each shell, times `floor(p n) / (p n)`. -/
noncomputable def meanSum : ℝ :=
  ∑ j ∈ range (J + 1), (numSampled j logNmu n offset : ℝ) / (cknsPSampling j logNmu n offset * n)
    * shellSum a J j q (List.ofFn x)

/-- The contribution of data point `y` at place `i` of the permuted copy. -/
noncomputable def placeTerm (i y : Fin n) : ℝ :=
  open Classical in
  ∑ j ∈ range (J + 1), if i.val < numSampled j logNmu n offset then
    (if InShell a J j (sqDist q (x y)) then gauss a q (x y) else 0) / cknsPSampling j logNmu n offset else 0

theorem sampledSum_eq (σ : Equiv.Perm (Fin n)) :
    sampledSum a x q logNmu offset J σ = ∑ i, placeTerm a x q logNmu offset J i (σ i) := by
  classical
  unfold sampledSum placeTerm
  rw [sum_comm]
  apply sum_congr rfl
  intro j _
  unfold shellSum
  rw [take_ofFn_sum, sum_div]
  apply sum_congr rfl
  intro i _
  split_ifs <;> simp

theorem numSampled_le (j : Nat) (hn : 0 < n) : numSampled j logNmu n offset ≤ n := by
  obtain ⟨hp0, hp1⟩ := cknsPSampling_pos j logNmu hn offset
  have hn' : (0 : ℝ) < n := by exact_mod_cast hn
  unfold numSampled
  have : ⌊cknsPSampling j logNmu n offset * n⌋ ≤ (n : Int) := by
    rw [← Int.floor_natCast (R := ℝ) n]
    apply Int.floor_le_floor
    nlinarith
  omega

theorem numSampled_ratio (j : Nat) (hn : 0 < n) :
    (numSampled j logNmu n offset : ℝ) / (cknsPSampling j logNmu n offset * n) ≤ 1 := by
  obtain ⟨hp0, hp1⟩ := cknsPSampling_pos j logNmu hn offset
  have hn' : (0 : ℝ) < n := by exact_mod_cast hn
  rw [div_le_one (by positivity)]
  unfold numSampled
  have h := Int.floor_le (cknsPSampling j logNmu n offset * n)
  have h0 : 0 ≤ ⌊cknsPSampling j logNmu n offset * n⌋ := Int.floor_nonneg.2 (by positivity)
  have e : ((⌊cknsPSampling j logNmu n offset * n⌋.toNat : Nat) : ℝ)
      = ((⌊cknsPSampling j logNmu n offset * n⌋ : Int) : ℝ) := by
    rw [← Int.cast_natCast, Int.toNat_of_nonneg h0]
  rw [e]
  exact h

theorem permMean_placeTerm (hn : 0 < n) :
    permMean (placeTerm a x q logNmu offset J) = meanSum a x q logNmu offset J := by
  classical
  unfold permMean placeTerm meanSum
  have hn' : (n : ℝ) ≠ 0 := by exact_mod_cast hn.ne'
  have e1 : ∀ i : Fin n, ∑ y, ∑ j ∈ range (J + 1), (if i.val < numSampled j logNmu n offset then
      (if InShell a J j (sqDist q (x y)) then gauss a q (x y) else 0) / cknsPSampling j logNmu n offset else 0)
      = ∑ j ∈ range (J + 1), if i.val < numSampled j logNmu n offset then
        shellSum a J j q (List.ofFn x) / cknsPSampling j logNmu n offset else 0 := by
    intro i
    rw [sum_comm]
    apply sum_congr rfl
    intro j _
    split_ifs
    · rw [← sum_div]
      unfold shellSum
      rw [List.map_ofFn, List.sum_ofFn]
      rfl
    · simp
  rw [sum_congr rfl (fun i _ => e1 i), sum_comm, sum_div]
  apply sum_congr rfl
  intro j _
  rw [← sum_filter, sum_const, Fin.card_filter_val_lt, Nat.min_eq_right (numSampled_le logNmu offset j hn),
    nsmul_eq_mul]
  obtain ⟨hp0, -⟩ := cknsPSampling_pos j logNmu hn offset
  field_simp

theorem placeTerm_nonneg (hn : 0 < n) (i y : Fin n) : 0 ≤ placeTerm a x q logNmu offset J i y := by
  unfold placeTerm
  apply sum_nonneg
  intro j _
  obtain ⟨hp0, -⟩ := cknsPSampling_pos j logNmu hn offset
  split_ifs
  · exact div_nonneg (Real.exp_pos _).le hp0.le
  · simp
  · exact le_refl _

theorem placeTerm_le (ha : 0 < a) (hn : 0 < n) (hJ : cknsJ n logNmu = J) (i y : Fin n) :
    placeTerm a x q logNmu offset J i y ≤ maxTerm logNmu offset := by
  classical
  have hV : (0 : ℝ) ≤ maxTerm logNmu offset := le_trans zero_le_one (le_max_left _ _)
  unfold placeTerm
  rcases eq_or_lt_of_le (sqDist_nonneg q (x y)) with h0 | h0
  · rw [sum_eq_zero]
    · exact hV
    · intro j _
      rw [← h0, if_neg (C48_distance_zero a ha J j)]
      simp
  · obtain ⟨j, ⟨h1, h2⟩, h3⟩ := C48_partition a ha J _ h0
    rw [sum_eq_single j]
    · rw [if_pos h2]
      split_ifs
      · exact term_le ha hn h1 hJ h0.le h2
      · exact hV
    · intro b hb hne
      rw [if_neg (fun hc => hne (h3 b ⟨by have := mem_range.1 hb; omega, hc⟩))]
      simp
    · intro hc
      exact absurd (mem_range.2 (by omega)) hc

theorem meanSum_nonneg (hn : 0 < n) : 0 ≤ meanSum a x q logNmu offset J := by
  apply sum_nonneg
  intro j _
  obtain ⟨hp0, -⟩ := cknsPSampling_pos j logNmu hn offset
  exact mul_nonneg (by positivity) (shellSum_nonneg _ _ _ _ _)

/-- The mean is at most the kernel sum of the points at positive distance. -/
theorem meanSum_le (ha : 0 < a) (hn : 0 < n) : meanSum a x q logNmu offset J
    ≤ ∑ i, if sqDist q (x i) = 0 then 0 else gauss a q (x i) := by
  have h1 : meanSum a x q logNmu offset J ≤ ∑ j ∈ range (J + 1), shellSum a J j q (List.ofFn x) := by
    apply sum_le_sum
    intro j _
    have := numSampled_ratio logNmu offset j hn
    have h2 := shellSum_nonneg a J j q (List.ofFn x)
    nlinarith
  refine le_trans h1 (le_of_eq ?_)
  rw [C48_shells_sum a ha, List.map_ofFn, List.sum_ofFn]
  rfl

theorem sampledSum_nonneg (hn : 0 < n) (σ : Equiv.Perm (Fin n)) :
    0 ≤ sampledSum a x q logNmu offset J σ := by
  rw [sampledSum_eq]
  exact sum_nonneg (fun i _ => placeTerm_nonneg a x q logNmu offset J hn _ _)

theorem sampledSum_mean (hn : 0 < n) :
    ∑ σ, sampledSum a x q logNmu offset J σ = n.factorial * meanSum a x q logNmu offset J := by
  simp only [sampledSum_eq]
  rw [perm_mean hn, permMean_placeTerm a x q logNmu offset J hn]

theorem sampledSum_variance (ha : 0 < a) (hn : 0 < n) (hJ : cknsJ n logNmu = J) :
    ∑ σ, (sampledSum a x q logNmu offset J σ - meanSum a x q logNmu offset J) ^ 2
      ≤ n.factorial * (maxTerm logNmu offset * meanSum a x q logNmu offset J) := by
  have hn' : (0 : ℝ) < n := by exact_mod_cast hn
  simp only [sampledSum_eq]
  rw [← permMean_placeTerm a x q logNmu offset J hn]
  refine le_trans (perm_variance hn _ (fun i y => placeTerm_nonneg a x q logNmu offset J hn i y)) ?_
  apply mul_le_mul_of_nonneg_left _ (by positivity)
  unfold permMean
  rw [mul_div_assoc', mul_sum]
  apply div_le_div_of_nonneg_right _ hn'.le
  apply sum_le_sum
  intro i _
  rw [mul_sum]
  apply sum_le_sum
  intro y _
  have h1 := placeTerm_le a x q logNmu offset J ha hn hJ i y
  have h2 := placeTerm_nonneg a x q logNmu offset J hn i y
  nlinarith

/-- **C67** (one copy).  In the iteration that guesses `log2(n mu)` as `logNmu`, the fraction of the
permutations for which the sampled sum is off its mean by `δ` or more is at most
`max(1, 2 ^ (1 + offset + logNmu)) * mean / δ²`. -/
theorem C67_one_copy (ha : 0 < a) (hn : 0 < n) (hJ : cknsJ n logNmu = J) (δ : ℝ) (hδ : 0 < δ) :
    ((univ.filter (fun σ => δ ≤ |sampledSum a x q logNmu offset J σ - meanSum a x q logNmu offset J|)).card : ℝ)
      ≤ maxTerm logNmu offset * meanSum a x q logNmu offset J / δ ^ 2 * n.factorial := by
  have h := le_trans (count_chebyshev (sampledSum a x q logNmu offset J) (meanSum a x q logNmu offset J) δ hδ.le)
    (sampledSum_variance a x q logNmu offset J ha hn hJ)
  rw [div_mul_eq_mul_div, le_div_iff₀ (by positivity)]
  linarith

end

/-! ## Medians -/

theorem card_fin_filter (k : Nat) (P : Nat → Prop) [DecidablePred P] :
    (univ.filter (fun i : Fin k => P i)).card = ((List.range k).filter (fun i => decide (P i))).length := by
  have h1 : (univ.filter (fun i : Fin k => P i)).card = ((range k).filter P).card := by
    apply card_bij (fun i _ => i.val)
    · intro i hi
      exact mem_filter.2 ⟨mem_range.2 i.isLt, (mem_filter.1 hi).2⟩
    · intro i _ j _ h
      exact Fin.ext h
    · intro i hi
      obtain ⟨h2, h3⟩ := mem_filter.1 hi
      exact ⟨⟨i, mem_range.1 h2⟩, mem_filter.2 ⟨mem_univ _, h3⟩, rfl⟩
  rw [h1]
  rfl

/-- If the median satisfies an upward closed condition, so do at least half of the entries. -/
theorem median_up {k : Nat} (hk : 0 < k) (F : Nat → ℝ) (P : ℝ → Prop) (hP : ∀ y z, P y → y ≤ z → P z)
    [DecidablePred P] (h : P (medianReal ((List.range k).map F))) :
    (k + 1) / 2 ≤ (univ.filter (fun i : Fin k => P (F i))).card := by
  have hne : (List.range k).map F ≠ [] := by simp; omega
  obtain ⟨-, h1, -⟩ := C49_median _ hne
  rw [List.length_map, List.length_range, List.filter_map, List.length_map] at h1
  rw [card_fin_filter k (fun i => P (F i))]
  have h2 := List.length_eq_length_filter_add (l := List.range k)
    (fun i => decide (F i < medianReal ((List.range k).map F)))
  rw [List.length_range] at h2
  have h3 : ((List.range k).filter (fun i => !decide (F i < medianReal ((List.range k).map F)))).length ≤
      ((List.range k).filter (fun i => decide (P (F i)))).length := by
    apply List.Sublist.length_le
    apply List.monotone_filter_right
    intro i hi
    simp only [Bool.not_eq_true', decide_eq_false_iff_not, not_lt] at hi
    exact decide_eq_true (hP _ _ h hi)
  simp only [Function.comp_def] at h1
  omega

theorem median_down {k : Nat} (hk : 0 < k) (F : Nat → ℝ) (P : ℝ → Prop) (hP : ∀ y z, P y → z ≤ y → P z)
    [DecidablePred P] (h : P (medianReal ((List.range k).map F))) :
    (k + 1) / 2 ≤ (univ.filter (fun i : Fin k => P (F i))).card := by
  have hne : (List.range k).map F ≠ [] := by simp; omega
  obtain ⟨-, -, h1⟩ := C49_median _ hne
  rw [List.length_map, List.length_range, List.filter_map, List.length_map] at h1
  rw [card_fin_filter k (fun i => P (F i))]
  have h2 := List.length_eq_length_filter_add (l := List.range k)
    (fun i => decide (medianReal ((List.range k).map F) < F i))
  rw [List.length_range] at h2
  have h3 : ((List.range k).filter (fun i => !decide (medianReal ((List.range k).map F) < F i))).length ≤
      ((List.range k).filter (fun i => decide (P (F i)))).length := by
    apply List.Sublist.length_le
    apply List.monotone_filter_right
    intro i hi
    simp only [Bool.not_eq_true', decide_eq_false_iff_not, not_lt] at hi
    exact decide_eq_true (hP _ _ h hi)
  simp only [Function.comp_def] at h1
  omega

theorem median_off {k : Nat} (hk : 0 < k) (F : Nat → ℝ) (m δ : ℝ)
    (h : δ ≤ |medianReal ((List.range k).map F) - m|) :
    (k + 1) / 2 ≤ (univ.filter (fun i : Fin k => δ ≤ |F i - m|)).card := by
  classical
  rcases le_abs.1 h with h | h
  · refine le_trans (median_up hk F (fun y => δ ≤ y - m) (fun y z h1 h2 => by linarith) h) ?_
    apply card_le_card
    intro i hi
    rw [mem_filter] at hi ⊢
    exact ⟨hi.1, le_trans hi.2 (le_abs_self _)⟩
  · refine le_trans (median_down hk F (fun y => δ ≤ -(y - m)) (fun y z h1 h2 => by linarith) h) ?_
    apply card_le_card
    intro i hi
    rw [mem_filter] at hi ⊢
    exact ⟨hi.1, le_trans hi.2 (neg_le_abs _)⟩

end Stag
