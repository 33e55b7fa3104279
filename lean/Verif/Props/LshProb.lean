import Verif.LshProb
import Mathlib.Analysis.Real.Pi.Bounds
import Mathlib.Analysis.Complex.ExponentialBounds
import Mathlib.Analysis.SpecialFunctions.Pow.Real
import Mathlib.Tactic.Linarith
import Mathlib.Tactic.Positivity

/-!
# C44: collision probabilities
-/

namespace Stag

open Real MeasureTheory Set

/-! ## Specification -/

/-- The density of the absolute value of a standard Gaussian variable. -/
noncomputable def halfNormal (s : ℝ) : ℝ := 2 / √(2 * π) * exp (-s ^ 2 / 2)

/-- The documented collision probability of points at distance `c`
(`stag_lib/lsh.h`), `f` being the density of the absolute value of a Gaussian. -/
noncomputable def trueCollision (c : ℝ) : ℝ :=
  ∫ t in (0 : ℝ)..4, 1 / c * halfNormal (t / c) * (1 - t / 4)

/-! ## The error function -/

theorem continuous_gauss : Continuous (fun t : ℝ => exp (-t ^ 2)) := by fun_prop

theorem integrable_gauss : Integrable (fun t : ℝ => exp (-t ^ 2)) := by
  have := integrable_exp_neg_mul_sq (b := 1) one_pos
  simpa using this

theorem integral_gauss_Ioi : ∫ t in Ioi (0 : ℝ), exp (-t ^ 2) = √π / 2 := by
  have := integral_gaussian_Ioi 1
  simpa using this

theorem sqrt_pi_pos : 0 < √π := Real.sqrt_pos.2 pi_pos

theorem erf_deriv (x : ℝ) : HasDerivAt erf (2 / √π * exp (-x ^ 2)) x := by
  unfold erf
  apply HasDerivAt.const_mul
  exact intervalIntegral.integral_hasDerivAt_right (continuous_gauss.intervalIntegrable _ _)
    (continuous_gauss.stronglyMeasurableAtFilter _ _) continuous_gauss.continuousAt

theorem erf_zero : erf 0 = 0 := by simp [erf]

theorem erf_mono : Monotone erf := by
  apply monotone_of_deriv_nonneg (fun x => (erf_deriv x).differentiableAt)
  intro x
  rw [(erf_deriv x).deriv]
  have := sqrt_pi_pos
  positivity

/-- The missing part of the integral. -/
theorem one_sub_erf (x : ℝ) : 1 - erf x = 2 / √π * ∫ t in Ioi x, exp (-t ^ 2) := by
  have hs := sqrt_pi_pos
  have h1 : (∫ t in (0 : ℝ)..x, exp (-t ^ 2)) + ∫ t in Ioi x, exp (-t ^ 2) = √π / 2 := by
    rw [← integral_gauss_Ioi]
    exact intervalIntegral.integral_interval_add_Ioi integrable_gauss.integrableOn
      integrable_gauss.integrableOn
  unfold erf
  have h2 : 2 / √π * (√π / 2) = 1 := by field_simp
  rw [← h2, ← h1]
  ring

theorem erf_le_one (x : ℝ) : erf x ≤ 1 := by
  have hs := sqrt_pi_pos
  rcases le_total 0 x with hx | hx
  · have := one_sub_erf x
    have h2 : 0 ≤ ∫ t in Ioi x, exp (-t ^ 2) :=
      setIntegral_nonneg measurableSet_Ioi (fun t _ => (exp_pos _).le)
    have : 0 ≤ 1 - erf x := by rw [this]; positivity
    linarith
  · have := erf_mono hx
    rw [erf_zero] at this
    linarith

theorem erf_nonneg {x : ℝ} (hx : 0 ≤ x) : 0 ≤ erf x := by
  rw [← erf_zero]; exact erf_mono hx

/-- A bound for the tail. -/
theorem one_sub_erf_le {x : ℝ} (hx : 0 < x) : 1 - erf x ≤ 2 / √π * (exp (-x ^ 2) / x) := by
  have hs := sqrt_pi_pos
  rw [one_sub_erf x]
  apply mul_le_mul_of_nonneg_left _ (by positivity)
  have h := integral_exp_mul_Ioi (a := -x) (by linarith) x
  have h' : exp (-x ^ 2) / x = ∫ t in Ioi x, exp (-x * t) := by
    rw [h, show -x * x = -x ^ 2 by ring, neg_div_neg_eq]
  rw [h']
  apply setIntegral_mono_on integrable_gauss.integrableOn
    (integrableOn_exp_mul_Ioi (by linarith) x) measurableSet_Ioi
  intro t ht
  have ht : x < t := ht
  apply exp_le_exp.2
  nlinarith

/-- A lower bound which is sharp at zero. -/
theorem erf_ge {x : ℝ} (hx : 0 < x) : 2 / √π * ((1 - exp (-x ^ 2)) / x) ≤ erf x := by
  have hs := sqrt_pi_pos
  unfold erf
  apply mul_le_mul_of_nonneg_left _ (by positivity)
  rw [div_le_iff₀ hx]
  have h1 : ∫ t in (0 : ℝ)..x, 2 * t * exp (-t ^ 2) = 1 - exp (-x ^ 2) := by
    have hd : ∀ t ∈ uIcc 0 x, HasDerivAt (fun t : ℝ => -exp (-t ^ 2)) (2 * t * exp (-t ^ 2)) t := by
      intro t _
      have h1 : HasDerivAt (fun t : ℝ => -t ^ 2) (-(2 * t)) t := by
        have := (hasDerivAt_pow 2 t).fun_neg
        simpa using this
      have h2 := h1.exp.fun_neg
      have e : -(exp (-t ^ 2) * -(2 * t)) = 2 * t * exp (-t ^ 2) := by ring
      rw [e] at h2
      exact h2
    rw [intervalIntegral.integral_eq_sub_of_hasDerivAt hd
      (Continuous.intervalIntegrable (by fun_prop) _ _)]
    simp
    ring
  have h2 : ∫ t in (0 : ℝ)..x, (x - 2 * t) * exp (-(x / 2) ^ 2) = 0 := by
    rw [intervalIntegral.integral_mul_const]
    have : ∫ t in (0 : ℝ)..x, (x - 2 * t) = 0 := by
      rw [intervalIntegral.integral_sub (by simp) (Continuous.intervalIntegrable (by fun_prop) _ _)]
      rw [intervalIntegral.integral_const_mul, integral_id]
      simp
      ring
    rw [this, zero_mul]
  have h3 : 0 ≤ ∫ t in (0 : ℝ)..x, ((x - 2 * t) * exp (-t ^ 2) - (x - 2 * t) * exp (-(x / 2) ^ 2)) := by
    apply intervalIntegral.integral_nonneg hx.le
    intro t ht
    rw [← mul_sub]
    rcases le_total (2 * t) x with h | h
    · apply mul_nonneg (by linarith)
      rw [sub_nonneg]
      apply exp_le_exp.2
      have := ht.1
      nlinarith
    · apply mul_nonneg_of_nonpos_of_nonpos (by linarith)
      rw [sub_nonpos]
      apply exp_le_exp.2
      nlinarith
  rw [intervalIntegral.integral_sub (Continuous.intervalIntegrable (by fun_prop) _ _)
    (Continuous.intervalIntegrable (by fun_prop) _ _), h2, sub_zero] at h3
  have h4 : ∫ t in (0 : ℝ)..x, (x - 2 * t) * exp (-t ^ 2) =
      x * (∫ t in (0 : ℝ)..x, exp (-t ^ 2)) - ∫ t in (0 : ℝ)..x, 2 * t * exp (-t ^ 2) := by
    rw [← intervalIntegral.integral_const_mul, ← intervalIntegral.integral_sub
      (Continuous.intervalIntegrable (by fun_prop) _ _) (Continuous.intervalIntegrable (by fun_prop) _ _)]
    congr 1
    ext t
    ring
  rw [h4, h1] at h3
  linarith

/-! ## One hash function -/

/-- The branch for distances of at least one. -/
noncomputable def farCollision (c : ℝ) : ℝ :=
  -((1 / 5.0132565) * c * exp (-(8 / (c * c))) * (exp (8 / (c * c)) - 1)) + erf (2.828427124 / c)

theorem lshCollision_near {c : ℝ} (h : |c| < 1) : lshCollision c = 1 - 0.2 * |c| := by
  unfold lshCollision
  by_cases hc : c < 0
  · rw [abs_of_neg hc] at h ⊢
    simp only [hc, if_true]
    rw [if_pos h]
  · rw [abs_of_nonneg (not_lt.1 hc)] at h ⊢
    simp only [hc, if_false]
    rw [if_pos h]

theorem lshCollision_far {c : ℝ} (h : 1 ≤ |c|) : lshCollision c = farCollision |c| := by
  unfold lshCollision farCollision
  by_cases hc : c < 0
  · rw [abs_of_neg hc] at h ⊢
    simp only [hc, if_true]
    rw [if_neg (not_lt.2 h)]
  · rw [abs_of_nonneg (not_lt.1 hc)] at h ⊢
    simp only [hc, if_false]
    rw [if_neg (not_lt.2 h)]

theorem farCollision_eq (c : ℝ) :
    farCollision c = erf (2.828427124 / c) - (1 / 5.0132565) * c * (1 - exp (-(8 / (c * c)))) := by
  unfold farCollision
  have : exp (-(8 / (c * c))) * (exp (8 / (c * c)) - 1) = 1 - exp (-(8 / (c * c))) := by
    rw [mul_sub, ← exp_add]; simp
  rw [mul_assoc, this]
  ring

theorem sqrt_pi_bounds : 1.7724538 < √π ∧ √π < 1.7724539 := by
  constructor
  · apply Real.lt_sqrt_of_sq_lt
    have := pi_gt_d20
    norm_num at this ⊢
    linarith
  · rw [Real.sqrt_lt' (by norm_num)]
    have := pi_lt_d20
    norm_num at this ⊢
    linarith

theorem farCollision_nonneg {c : ℝ} (hc : 0 < c) : 0 ≤ farCollision c := by
  rw [farCollision_eq, sub_nonneg]
  have hs := sqrt_pi_pos
  have hx : 0 < 2.828427124 / c := by positivity
  refine le_trans ?_ (erf_ge hx)
  set w := exp (-(2.828427124 / c) ^ 2 / 2) with hw
  have hu : exp (-(2.828427124 / c) ^ 2) = w ^ 2 := by
    rw [hw, ← exp_nat_mul]; congr 1; push_cast; ring
  have hw0 : 0 < w := exp_pos _
  have hw1 : w ≤ 1 := exp_le_one_iff.2 (by have := sq_nonneg (2.828427124 / c); linarith)
  rw [hu]
  -- the exponents differ a little
  have hv : w ^ 3 ≤ exp (-(8 / (c * c))) := by
    rw [hw, ← exp_nat_mul]
    apply exp_le_exp.2
    have : (3 : ℕ) * (-(2.828427124 / c) ^ 2 / 2) = -((3 / 2 * 2.828427124 ^ 2) / (c * c)) := by
      field_simp; push_cast; ring
    rw [this]
    apply neg_le_neg
    apply div_le_div_of_nonneg_right _ (by positivity)
    norm_num
  have h0 : 1 - exp (-(8 / (c * c))) ≤ 3 / 2 * (1 - w ^ 2) := by
    have : 0 ≤ (1 - w) * ((1 - w) * (w + 1 / 2)) := by
      apply mul_nonneg (by linarith) (mul_nonneg (by linarith) (by linarith))
    nlinarith
  have h2 : 2 / √π * ((1 - w ^ 2) / (2.828427124 / c)) =
      2 / (√π * 2.828427124) * (c * (1 - w ^ 2)) := by
    field_simp
  rw [h2]
  have h3 : (1 : ℝ) / 5.0132565 * (3 / 2) ≤ 2 / (√π * 2.828427124) := by
    rw [div_mul_eq_mul_div, one_mul, div_le_div_iff₀ (by norm_num) (by positivity)]
    have := sqrt_pi_bounds.2
    linarith
  have h4 : 0 ≤ c * (1 - w ^ 2) := by
    apply mul_nonneg hc.le
    nlinarith
  calc (1 : ℝ) / 5.0132565 * c * (1 - exp (-(8 / (c * c))))
      ≤ 1 / 5.0132565 * c * (3 / 2 * (1 - w ^ 2)) :=
        mul_le_mul_of_nonneg_left h0 (by positivity)
    _ = (1 / 5.0132565 * (3 / 2)) * (c * (1 - w ^ 2)) := by ring
    _ ≤ _ := mul_le_mul_of_nonneg_right h3 h4

theorem farCollision_le_one {c : ℝ} (hc : 0 < c) : farCollision c ≤ 1 := by
  rw [farCollision_eq]
  have h1 := erf_le_one (2.828427124 / c)
  have h2 : exp (-(8 / (c * c))) ≤ 1 := exp_le_one_iff.2 (by
    have : 0 < 8 / (c * c) := by positivity
    linarith)
  have : 0 ≤ (1 : ℝ) / 5.0132565 * c * (1 - exp (-(8 / (c * c)))) := by
    apply mul_nonneg (by positivity); linarith
  linarith

/-- **C44** (one function).  The collision probability lies between zero and one for every
distance. -/
theorem C44_function_range (c : ℝ) : 0 ≤ lshCollision c ∧ lshCollision c ≤ 1 := by
  rcases lt_or_ge |c| 1 with h | h
  · rw [lshCollision_near h]
    have := abs_nonneg c
    constructor <;> nlinarith
  · rw [lshCollision_far h]
    have : 0 < |c| := by linarith
    exact ⟨farCollision_nonneg this, farCollision_le_one this⟩

/-- **C44** (sign).  A negative distance counts as its absolute value. -/
theorem C44_function_symmetric (c : ℝ) : lshCollision (-c) = lshCollision c := by
  rcases lt_or_ge |c| 1 with h | h
  · rw [lshCollision_near h, lshCollision_near (by rwa [abs_neg]), abs_neg]
  · rw [lshCollision_far h, lshCollision_far (by rwa [abs_neg]), abs_neg]

/-! ## The table -/

/-- **C44** (range). -/
theorem C44_range (K L : ℕ) (c : ℝ) : 0 ≤ e2lshCollision K L c ∧ e2lshCollision K L c ≤ 1 := by
  obtain ⟨h0, h1⟩ := C44_function_range c
  unfold e2lshCollision
  rw [rpow_natCast, rpow_natCast]
  have hp0 : 0 ≤ lshCollision c ^ K := pow_nonneg h0 K
  have hp1 : lshCollision c ^ K ≤ 1 := pow_le_one₀ h0 h1
  have q0 : 0 ≤ (1 - lshCollision c ^ K) ^ L := pow_nonneg (by linarith) L
  have q1 : (1 - lshCollision c ^ K) ^ L ≤ 1 := pow_le_one₀ (by linarith) (by linarith)
  constructor <;> linarith

/-- **C44** (`L`).  More tables: a point is returned with at least the same probability. -/
theorem C44_mono_L (K : ℕ) {L L' : ℕ} (h : L ≤ L') (c : ℝ) :
    e2lshCollision K L c ≤ e2lshCollision K L' c := by
  obtain ⟨h0, h1⟩ := C44_function_range c
  unfold e2lshCollision
  rw [rpow_natCast, rpow_natCast, rpow_natCast]
  have hp0 : 0 ≤ lshCollision c ^ K := pow_nonneg h0 K
  have hp1 : lshCollision c ^ K ≤ 1 := pow_le_one₀ h0 h1
  have := pow_le_pow_of_le_one (a := 1 - lshCollision c ^ K) (by linarith) (by linarith) h
  linarith

/-- **C44** (`K`).  More functions in a table: at most the same probability. -/
theorem C44_anti_K {K K' : ℕ} (h : K ≤ K') (L : ℕ) (c : ℝ) :
    e2lshCollision K' L c ≤ e2lshCollision K L c := by
  obtain ⟨h0, h1⟩ := C44_function_range c
  unfold e2lshCollision
  simp only [rpow_natCast]
  have hp1 : lshCollision c ^ K ≤ 1 := pow_le_one₀ h0 h1
  have hle := pow_le_pow_of_le_one h0 h1 h
  have := pow_le_pow_left₀ (a := 1 - lshCollision c ^ K) (b := 1 - lshCollision c ^ K')
    (by linarith) (by linarith) L
  linarith

/-- **C44** (distance zero).  A point at distance zero is returned with probability one. -/
theorem C44_zero_distance (K : ℕ) {L : ℕ} (hL : 1 ≤ L) : e2lshCollision K L 0 = 1 := by
  have : lshCollision 0 = 1 := by rw [lshCollision_near (by simp)]; simp
  unfold e2lshCollision
  rw [this, rpow_natCast, rpow_natCast, one_pow, sub_self, zero_pow (by omega)]
  simp

/-! ## Accuracy -/

theorem sqrt_two_pi : √(2 * π) = √2 * √π := Real.sqrt_mul (by norm_num) _

/-- The integral in closed form. -/
theorem trueCollision_eq {c : ℝ} (hc : 0 < c) :
    trueCollision c = erf (2 * √2 / c) - c / (2 * √(2 * π)) * (1 - exp (-(8 / (c * c)))) := by
  have hs := sqrt_pi_pos
  have h2 : 0 < √(2 : ℝ) := Real.sqrt_pos.2 (by norm_num)
  have h22 : √(2 : ℝ) ^ 2 = 2 := Real.sq_sqrt (by norm_num)
  have hp : 0 < √(2 * π) := Real.sqrt_pos.2 (by positivity)
  have hd : ∀ t ∈ uIcc 0 (4 : ℝ), HasDerivAt
      (fun t : ℝ => erf (t / (c * √2)) + c / (2 * √(2 * π)) * exp (-(t / c) ^ 2 / 2))
      (1 / c * halfNormal (t / c) * (1 - t / 4)) t := by
    intro t _
    have d1 : HasDerivAt (fun t : ℝ => t / (c * √2)) (1 / (c * √2)) t :=
      (hasDerivAt_id t).div_const _
    have d2 : HasDerivAt (fun t : ℝ => erf (t / (c * √2)))
        (2 / √π * exp (-(t / (c * √2)) ^ 2) * (1 / (c * √2))) t :=
      HasDerivAt.comp (h₂ := erf) t (erf_deriv (t / (c * √2))) d1
    have d3 : HasDerivAt (fun t : ℝ => -(t / c) ^ 2 / 2) (-(2 * (t / c) * (1 / c)) / 2) t := by
      have := ((hasDerivAt_id t).div_const c).pow 2
      simpa using this.neg.div_const 2
    have d4 := (d3.exp.const_mul (c / (2 * √(2 * π))))
    have d5 := d2.fun_add d4
    have hval : 1 / c * halfNormal (t / c) * (1 - t / 4) =
        2 / √π * exp (-(t / (c * √2)) ^ 2) * (1 / (c * √2)) +
          c / (2 * √(2 * π)) * (exp (-(t / c) ^ 2 / 2) * (-(2 * (t / c) * (1 / c)) / 2)) := by
      unfold halfNormal
      have e1 : -(t / (c * √2)) ^ 2 = -(t / c) ^ 2 / 2 := by
        rw [div_pow, mul_pow, h22, div_pow]; field_simp
      rw [e1]
      have e2 : 2 / √π * (1 / (c * √2)) = 1 / c * (2 / √(2 * π)) := by
        rw [sqrt_two_pi]; field_simp
      have : 2 / √π * exp (-(t / c) ^ 2 / 2) * (1 / (c * √2)) =
          1 / c * (2 / √(2 * π)) * exp (-(t / c) ^ 2 / 2) := by rw [← e2]; ring
      rw [this]
      field_simp
      ring
    rw [hval]
    exact d5
  have hcont : Continuous (fun t : ℝ => 1 / c * halfNormal (t / c) * (1 - t / 4)) := by
    unfold halfNormal; fun_prop
  unfold trueCollision
  rw [intervalIntegral.integral_eq_sub_of_hasDerivAt hd (hcont.intervalIntegrable _ _)]
  have e1 : (4 : ℝ) / (c * √2) = 2 * √2 / c := by
    rw [div_eq_div_iff (by positivity) (by positivity)]
    nlinarith
  have e2 : -(4 / c) ^ 2 / 2 = -(8 / (c * c)) := by field_simp; norm_num
  rw [e1, e2]
  simp only [zero_div, erf_zero]
  norm_num
  ring

theorem exp_neg_eight : exp (-8) < 0.00034 := by
  rw [exp_neg, inv_lt_comm₀ (exp_pos _) (by norm_num)]
  have h : exp 8 = exp 1 ^ 8 := by rw [← exp_nat_mul]; norm_num
  rw [h]
  have h1 := exp_one_gt_d9
  have h2 : (2.718 : ℝ) ^ 8 < exp 1 ^ 8 := by
    apply pow_lt_pow_left₀ _ (by norm_num) (by norm_num)
    linarith
  refine lt_trans ?_ h2
  norm_num

theorem sqrt_two_bounds : 1.414213562 < √(2 : ℝ) ∧ √(2 : ℝ) < 1.4142135625 := by
  constructor
  · apply Real.lt_sqrt_of_sq_lt; norm_num
  · rw [Real.sqrt_lt' (by norm_num)]; norm_num

theorem sqrt_two_pi_bounds : 2.5066282 < √(2 * π) ∧ √(2 * π) < 2.5066283 := by
  constructor
  · apply Real.lt_sqrt_of_sq_lt
    have := pi_gt_d20
    norm_num at this ⊢
    linarith
  · rw [Real.sqrt_lt' (by norm_num)]
    have := pi_lt_d20
    norm_num at this ⊢
    linarith

/-- The error function grows with slope at most `2 / √π`. -/
theorem erf_lipschitz {x y : ℝ} (h : x ≤ y) : erf y - erf x ≤ 2 / √π * (y - x) := by
  have hs := sqrt_pi_pos
  have hd : ∀ x, HasDerivAt (fun x => 2 / √π * x - erf x) (2 / √π * 1 - 2 / √π * exp (-x ^ 2)) x :=
    fun x => ((hasDerivAt_id x).const_mul _).fun_sub (erf_deriv x)
  have hm : Monotone (fun x => 2 / √π * x - erf x) := by
    apply monotone_of_deriv_nonneg (fun x => (hd x).differentiableAt)
    intro x
    rw [(hd x).deriv]
    have h1 : exp (-x ^ 2) ≤ 1 := exp_le_one_iff.2 (by have := sq_nonneg x; linarith)
    have : 0 ≤ 2 / √π * (1 - exp (-x ^ 2)) := mul_nonneg (by positivity) (by linarith)
    linarith
  have := hm h
  simp only at this
  linarith

theorem two_div_sqrt_pi_le : 2 / √π ≤ 1.13 := by
  rw [div_le_iff₀ sqrt_pi_pos]
  have := sqrt_pi_bounds.1
  linarith

/-- **C44** (accuracy, distance at least one).  The value is within 1e-6 of the documented
integral. -/
theorem C44_accuracy_far {c : ℝ} (hc : 1 ≤ c) : |lshCollision c - trueCollision c| ≤ 0.000001 := by
  have hc0 : 0 < c := by linarith
  have hs := sqrt_pi_pos
  rw [lshCollision_far (by rwa [abs_of_pos hc0]), abs_of_pos hc0, farCollision_eq,
    trueCollision_eq hc0]
  obtain ⟨s1, s2⟩ := sqrt_two_bounds
  obtain ⟨p1, p2⟩ := sqrt_two_pi_bounds
  have hp : 0 < √(2 * π) := by linarith
  -- the error functions
  have hle : 2.828427124 / c ≤ 2 * √2 / c := div_le_div_of_nonneg_right (by linarith) hc0.le
  have e1 := erf_mono hle
  have e2 := erf_lipschitz hle
  have e3 : 2 * √2 / c - 2.828427124 / c ≤ 0.000000001 := by
    rw [← sub_div, div_le_iff₀ hc0]
    nlinarith
  have e4 : 2 / √π * (2 * √2 / c - 2.828427124 / c) ≤ 1.13 * 0.000000001 := by
    apply mul_le_mul two_div_sqrt_pi_le e3 (by linarith) (by norm_num)
  -- the other terms
  set E := exp (-(8 / (c * c))) with hE
  have hE1 : E ≤ 1 := exp_le_one_iff.2 (by
    have : 0 < 8 / (c * c) := by positivity
    linarith)
  have hy : c * (1 - E) ≤ 8 := by
    have h1 : 1 - 8 / (c * c) ≤ E := by
      have := add_one_le_exp (-(8 / (c * c)))
      linarith
    have h2 : c * (1 - E) ≤ c * (8 / (c * c)) := mul_le_mul_of_nonneg_left (by linarith) hc0.le
    have h3 : c * (8 / (c * c)) = 8 / c := by field_simp
    rw [h3] at h2
    have h4 : 8 / c ≤ 8 := by
      rw [div_le_iff₀ hc0]; linarith
    linarith
  have hy0 : 0 ≤ c * (1 - E) := mul_nonneg hc0.le (by linarith)
  have hk : c / (2 * √(2 * π)) * (1 - E) = (1 / (2 * √(2 * π))) * (c * (1 - E)) := by ring
  have hk' : (1 : ℝ) / 5.0132565 * c * (1 - E) = (1 / 5.0132565) * (c * (1 - E)) := by ring
  rw [hk, hk']
  have r1 : (1 : ℝ) / 5.0132565 - 0.00000001 ≤ 1 / (2 * √(2 * π)) := by
    rw [le_div_iff₀ (by positivity)]
    nlinarith
  have r2 : 1 / (2 * √(2 * π)) ≤ (1 : ℝ) / 5.0132565 + 0.00000001 := by
    rw [div_le_iff₀ (by positivity)]
    nlinarith
  rw [abs_le]
  constructor <;> nlinarith

/-- **C44** (accuracy).  For every positive distance the value is within 0.001 of the documented
integral. -/
theorem C44_accuracy {c : ℝ} (hc : 0 < c) : |lshCollision c - trueCollision c| ≤ 0.001 := by
  rcases lt_or_ge c 1 with h1 | h1
  · rw [lshCollision_near (by rwa [abs_of_pos hc]), abs_of_pos hc, trueCollision_eq hc]
    have hs := sqrt_pi_pos
    obtain ⟨s1, s2⟩ := sqrt_two_bounds
    obtain ⟨p1, p2⟩ := sqrt_two_pi_bounds
    have hx : 2.828 ≤ 2 * √2 / c := by
      rw [le_div_iff₀ hc]
      nlinarith
    have e1 := erf_mono hx
    have e2 := one_sub_erf_le (x := 2.828) (by norm_num)
    have e3 := erf_le_one (2 * √2 / c)
    have hq : exp (-(2.828 : ℝ) ^ 2) < 0.00035 := by
      have h : -(2.828 : ℝ) ^ 2 ≤ -8 + 0.0025 := by norm_num
      have h2 := exp_le_exp.2 h
      have h3 : exp (0.0025 : ℝ) ≤ 1.01 := by
        have := exp_bound_div_one_sub_of_interval (x := 0.0025) (by norm_num) (by norm_num)
        refine le_trans this ?_
        norm_num
      rw [exp_add] at h2
      have h4 := exp_neg_eight
      have h5 := exp_pos (-8 : ℝ)
      nlinarith
    have e4 : 2 / √π * (exp (-(2.828 : ℝ) ^ 2) / 2.828) ≤ 1.13 * (0.00035 / 2.828) := by
      apply mul_le_mul two_div_sqrt_pi_le _ (by positivity) (by norm_num)
      apply div_le_div_of_nonneg_right hq.le (by norm_num)
    set E := exp (-(8 / (c * c))) with hE
    have hE0 : 0 < E := exp_pos _
    have hE1 : E ≤ 0.00034 := by
      refine le_trans (exp_le_exp.2 ?_) exp_neg_eight.le
      apply neg_le_neg
      rw [le_div_iff₀ (by positivity)]
      nlinarith
    have hk : c / (2 * √(2 * π)) * (1 - E) = c * ((1 - E) / (2 * √(2 * π))) := by ring
    rw [hk]
    have r1 : (1 - E) / (2 * √(2 * π)) ≤ 0.2 := by
      rw [div_le_iff₀ (by linarith)]
      linarith
    have r2 : 0.1994 ≤ (1 - E) / (2 * √(2 * π)) := by
      rw [le_div_iff₀ (by linarith)]
      linarith
    have e5 : (1.13 : ℝ) * (0.00035 / 2.828) ≤ 0.0002 := by norm_num
    have e6 : 1 - erf (2 * √2 / c) ≤ 0.0002 := by linarith
    rw [abs_le]
    constructor <;> nlinarith
  · exact le_trans (C44_accuracy_far h1) (by norm_num)

/-- **C44** (not monotone).  The values for distances below one are an approximation which does not
fit the formula used above: the probability increases slightly from 0.999 to 1. -/
theorem C44_not_monotone : lshCollision 0.999 < lshCollision 1 := by
  rw [lshCollision_near (by rw [abs_of_pos] <;> norm_num), lshCollision_far (by simp),
    farCollision_eq, abs_one, abs_of_pos (by norm_num)]
  have e2 := one_sub_erf_le (x := 2.828) (by norm_num)
  have hm := erf_mono (show (2.828 : ℝ) ≤ 2.828427124 / 1 by norm_num)
  have hq : exp (-(2.828 : ℝ) ^ 2) < 0.00035 := by
    have h : -(2.828 : ℝ) ^ 2 ≤ -8 + 0.0025 := by norm_num
    have h2 := exp_le_exp.2 h
    have h3 : exp (0.0025 : ℝ) ≤ 1.01 := by
      have := exp_bound_div_one_sub_of_interval (x := 0.0025) (by norm_num) (by norm_num)
      refine le_trans this ?_
      norm_num
    rw [exp_add] at h2
    have h4 := exp_neg_eight
    have h5 := exp_pos (-8 : ℝ)
    nlinarith
  have hs := sqrt_pi_pos
  have e4 : 2 / √π * (exp (-(2.828 : ℝ) ^ 2) / 2.828) ≤ 1.13 * (0.00035 / 2.828) := by
    apply mul_le_mul two_div_sqrt_pi_le _ (by positivity) (by norm_num)
    apply div_le_div_of_nonneg_right hq.le (by norm_num)
  have hE := exp_pos (-(8 / ((1 : ℝ) * 1)))
  norm_num at e4 hE ⊢
  norm_num at hm e2
  linarith

/-- The derivative of the formula for distances of at least one. -/
theorem farCollision_antitone : AntitoneOn farCollision (Ici 1) := by
  have hd : ∀ c : ℝ, 0 < c → HasDerivAt farCollision
      (2 / √π * exp (-(2.828427124 / c) ^ 2) * (-2.828427124 / c ^ 2) -
        (1 / 5.0132565 * 1 * (1 - exp (-(8 / (c * c)))) +
          1 / 5.0132565 * c * -(exp (-(8 / (c * c))) * (16 / c ^ 3)))) c := by
    intro c hc
    have hf : farCollision = fun c => erf (2.828427124 / c) -
        (1 / 5.0132565) * c * (1 - exp (-(8 / (c * c)))) := by
      ext c; exact farCollision_eq c
    rw [hf]
    have d1 : HasDerivAt (fun c : ℝ => 2.828427124 / c) (-2.828427124 / c ^ 2) c := by
      have := (hasDerivAt_inv hc.ne').const_mul (2.828427124 : ℝ)
      have e : (fun c : ℝ => 2.828427124 / c) = fun c => 2.828427124 * c⁻¹ := by
        ext c; rw [div_eq_mul_inv]
      rw [e, show (-2.828427124 : ℝ) / c ^ 2 = 2.828427124 * -(c ^ 2)⁻¹ by
        rw [div_eq_mul_inv]; ring]
      exact this
    have d2 : HasDerivAt (fun c : ℝ => erf (2.828427124 / c))
        (2 / √π * exp (-(2.828427124 / c) ^ 2) * (-2.828427124 / c ^ 2)) c :=
      HasDerivAt.comp (h₂ := erf) c (erf_deriv _) d1
    have d3 : HasDerivAt (fun c : ℝ => -(8 / (c * c))) (16 / c ^ 3) c := by
      have h2 : HasDerivAt (fun c : ℝ => c * c) (1 * c + c * 1) c :=
        (hasDerivAt_id c).mul (hasDerivAt_id c)
      have := ((h2.fun_inv (by positivity)).const_mul (8 : ℝ)).fun_neg
      have e : (fun c : ℝ => -(8 / (c * c))) = fun c => -(8 * (c * c)⁻¹) := by
        ext c; rw [div_eq_mul_inv]
      rw [e]
      have e2 : (16 : ℝ) / c ^ 3 = -(8 * (-(1 * c + c * 1) / (c * c) ^ 2)) := by
        field_simp; ring
      rw [e2]
      exact this
    have d4 : HasDerivAt (fun c : ℝ => 1 - exp (-(8 / (c * c))))
        (-(exp (-(8 / (c * c))) * (16 / c ^ 3))) c := by
      have := (hasDerivAt_const c (1 : ℝ)).fun_sub d3.exp
      rw [zero_sub] at this
      exact this
    have d5 : HasDerivAt (fun c : ℝ => (1 / 5.0132565) * c) (1 / 5.0132565 * 1) c :=
      (hasDerivAt_id c).const_mul _
    exact d2.fun_sub (d5.fun_mul d4)
  apply antitoneOn_of_deriv_nonpos (convex_Ici 1)
  · intro c hc
    have hc : 1 ≤ c := hc
    exact (hd c (by linarith)).continuousAt.continuousWithinAt
  · intro c hc
    rw [interior_Ici] at hc
    have hc : 1 < c := hc
    exact (hd c (by linarith)).differentiableAt.differentiableWithinAt
  · intro c hc
    rw [interior_Ici] at hc
    have hc : 1 < c := hc
    have hc0 : 0 < c := by linarith
    rw [(hd c hc0).deriv]
    set E := exp (-(8 / (c * c))) with hE
    have hE0 : 0 < E := exp_pos _
    have hG : E ≤ exp (-(2.828427124 / c) ^ 2) := by
      apply exp_le_exp.2
      rw [div_pow, ← sq]
      apply neg_le_neg
      apply div_le_div_of_nonneg_right _ (by positivity)
      norm_num
    have hs := sqrt_pi_pos
    have hy : E * (8 / c ^ 2) ≤ 1 - E := by
      have h1 := add_one_le_exp (8 / (c * c))
      have h2 : E * exp (8 / (c * c)) = 1 := by rw [hE, ← exp_add]; simp
      have h3 : E * (8 / (c * c) + 1) ≤ 1 := by
        exact le_trans (mul_le_mul_of_nonneg_left h1 hE0.le) h2.le
      rw [sq]
      linarith
    have hslope : (1.12 : ℝ) ≤ 2 / √π := by
      rw [le_div_iff₀ hs]
      have := sqrt_pi_bounds.2
      linarith
    have t1 : E * (1.12 * (2.828427124 / c ^ 2)) ≤
        2 / √π * exp (-(2.828427124 / c) ^ 2) * (2.828427124 / c ^ 2) := by
      have hpos : 0 < 2.828427124 / c ^ 2 := by positivity
      have : 1.12 * E ≤ 2 / √π * exp (-(2.828427124 / c) ^ 2) :=
        mul_le_mul hslope hG hE0.le (by positivity)
      calc E * (1.12 * (2.828427124 / c ^ 2)) = 1.12 * E * (2.828427124 / c ^ 2) := by ring
        _ ≤ _ := mul_le_mul_of_nonneg_right this hpos.le
    have t2 : (1 : ℝ) / 5.0132565 * c * -(E * (16 / c ^ 3)) =
        -(E * (1 / 5.0132565 * (16 / c ^ 2))) := by field_simp
    have t3 : 2 / √π * exp (-(2.828427124 / c) ^ 2) * (-2.828427124 / c ^ 2) =
        -(2 / √π * exp (-(2.828427124 / c) ^ 2) * (2.828427124 / c ^ 2)) := by ring
    rw [t2, t3]
    have t4 : E * (1 / 5.0132565 * (16 / c ^ 2)) ≤
        E * (1.12 * (2.828427124 / c ^ 2)) + 1 / 5.0132565 * (E * (8 / c ^ 2)) := by
      have hpos : 0 < E / c ^ 2 := by positivity
      have e1 : E * (1 / 5.0132565 * (16 / c ^ 2)) = (1 / 5.0132565 * 16) * (E / c ^ 2) := by ring
      have e2 : E * (1.12 * (2.828427124 / c ^ 2)) + 1 / 5.0132565 * (E * (8 / c ^ 2)) =
          (1.12 * 2.828427124 + 1 / 5.0132565 * 8) * (E / c ^ 2) := by ring
      rw [e1, e2]
      apply mul_le_mul_of_nonneg_right _ hpos.le
      norm_num
    have t5 : (1 : ℝ) / 5.0132565 * (E * (8 / c ^ 2)) ≤ 1 / 5.0132565 * (1 - E) :=
      mul_le_mul_of_nonneg_left hy (by norm_num)
    linarith

/-- **C44** (distance).  From distance one on the probabilities do not increase with the distance;
neither do they up to distance one (exclusively). -/
theorem C44_anti_distance (K L : ℕ) {c c' : ℝ} (h0 : 0 ≤ c) (h : c ≤ c') (h1 : 1 ≤ c ∨ c' < 1) :
    e2lshCollision K L c' ≤ e2lshCollision K L c := by
  have hp : lshCollision c' ≤ lshCollision c := by
    rcases h1 with h1 | h1
    · rw [lshCollision_far (c := c) (by rw [abs_of_nonneg h0]; exact h1),
        lshCollision_far (c := c') (by rw [abs_of_nonneg (by linarith)]; linarith), abs_of_nonneg h0,
        abs_of_nonneg (by linarith)]
      exact farCollision_antitone h1 (show 1 ≤ c' by linarith) h
    · rw [lshCollision_near (c := c) (by rw [abs_of_nonneg h0]; linarith),
        lshCollision_near (c := c') (by rw [abs_of_nonneg (by linarith)]; linarith), abs_of_nonneg h0,
        abs_of_nonneg (by linarith)]
      linarith
  obtain ⟨a0, a1⟩ := C44_function_range c
  obtain ⟨b0, b1⟩ := C44_function_range c'
  unfold e2lshCollision
  simp only [rpow_natCast]
  have hk := pow_le_pow_left₀ b0 hp K
  have hp1 : lshCollision c ^ K ≤ 1 := pow_le_one₀ a0 a1
  have := pow_le_pow_left₀ (a := 1 - lshCollision c ^ K) (b := 1 - lshCollision c' ^ K)
    (by linarith) (by linarith) L
  linarith

end Stag
