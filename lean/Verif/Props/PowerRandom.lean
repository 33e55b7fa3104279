import Verif.Props.PowerMethod
import Verif.Props.LshMeasure
import Verif.Props.CheegerExamples
import Mathlib.Analysis.Real.Pi.Bounds

/-!
# C89: the power method finds the largest eigenvalue with high probability

The start of `power_method(mat)` is a vector of independent standard normal numbers, scaled to length one.
-/

namespace Stag

open Graph MeasureTheory ProbabilityTheory
open scoped ENNReal NNReal

/-! ## Gaussian vectors -/

/-- `n` independent standard normal numbers. -/
noncomputable def normals (n : Nat) : Measure (Fin n → ℝ) := Measure.pi fun _ => gaussianReal 0 1

theorem gaussian_near_zero {δ : ℝ} (hδ : 0 ≤ δ) : gaussianReal 0 1 {x | |x| < δ} ≤ ENNReal.ofReal δ := by
  have h1 : (1 : ℝ≥0) ≠ 0 := one_ne_zero
  have hs : MeasurableSet {x : ℝ | |x| < δ} := measurableSet_lt (by fun_prop) measurable_const
  rw [gaussianReal_apply _ h1]
  have hb : ∀ x, gaussianPDF 0 1 x ≤ ENNReal.ofReal (1 / 2) := by
    intro x
    unfold gaussianPDF gaussianPDFReal
    apply ENNReal.ofReal_le_ofReal
    have hpi : (2 : ℝ) ≤ √(2 * Real.pi * ((1 : ℝ≥0) : ℝ)) := by
      apply Real.le_sqrt_of_sq_le
      have := Real.pi_gt_three
      norm_num
      linarith
    have he : Real.exp (-(x - 0) ^ 2 / (2 * ((1 : ℝ≥0) : ℝ))) ≤ 1 := by
      rw [Real.exp_le_one_iff]
      apply div_nonpos_of_nonpos_of_nonneg
      · have := sq_nonneg (x - 0); linarith
      · positivity
    have hi : (√(2 * Real.pi * ((1 : ℝ≥0) : ℝ)))⁻¹ ≤ 1 / 2 := by
      rw [inv_le_comm₀ (by linarith) (by norm_num)]
      norm_num at hpi ⊢
      exact hpi
    calc _ ≤ (√(2 * Real.pi * ((1 : ℝ≥0) : ℝ)))⁻¹ * 1 :=
          mul_le_mul_of_nonneg_left he (by positivity)
      _ ≤ 1 / 2 := by rw [mul_one]; exact hi
  calc ∫⁻ x in {x : ℝ | |x| < δ}, gaussianPDF 0 1 x
      ≤ ∫⁻ _ in {x : ℝ | |x| < δ}, ENNReal.ofReal (1 / 2) := lintegral_mono hb
    _ = ENNReal.ofReal (1 / 2) * volume {x : ℝ | |x| < δ} := by
        rw [setLIntegral_const]
    _ = ENNReal.ofReal (1 / 2) * ENNReal.ofReal (2 * δ) := by
        have : {x : ℝ | |x| < δ} = Set.Ioo (-δ) δ := by
          ext x
          simp [abs_lt]
        rw [this, Real.volume_Ioo]
        congr 2
        ring
    _ = ENNReal.ofReal δ := by
        rw [← ENNReal.ofReal_mul (by norm_num)]
        congr 1
        ring

theorem gaussian_square : ∫⁻ x, ENNReal.ofReal (x * x) ∂(gaussianReal 0 1) = 1 := by
  have hlp : MemLp (fun x : ℝ => x) 2 (gaussianReal 0 1) := memLp_id_gaussianReal 2
  have hsq : Integrable (fun x : ℝ => x ^ 2) (gaussianReal 0 1) := hlp.integrable_sq
  have hvar : ∫ x, x ^ 2 ∂(gaussianReal 0 1) = 1 := by
    have h1 := variance_id_gaussianReal (μ := 0) (v := 1)
    rw [variance_eq_integral (by fun_prop)] at h1
    simp only [id, integral_id_gaussianReal, sub_zero] at h1
    rw [h1]
    rfl
  have e : ∀ x : ℝ, ENNReal.ofReal (x * x) = ENNReal.ofReal (x ^ 2) := fun x => by rw [pow_two]
  simp only [e]
  rw [← ofReal_integral_eq_lintegral_ofReal hsq (Filter.Eventually.of_forall fun x => sq_nonneg x), hvar, ENNReal.ofReal_one]

/-- The component of a Gaussian vector in the direction of a unit vector is rarely small. -/
theorem component_small {n : Nat} (w : Fin n → ℝ) (hw : ∑ i, w i * w i = 1) {δ : ℝ} (hδ : 0 ≤ δ) :
    normals n {g | |∑ i, w i * g i| < δ} ≤ ENNReal.ofReal δ := by
  have hm := map_linear w Finset.univ
  have hv : ∑ i : Fin n, Real.toNNReal (w i ^ 2) = 1 := by
    rw [← Real.toNNReal_sum_of_nonneg (fun i _ => sq_nonneg (w i))]
    have : ∑ i, w i ^ 2 = 1 := by rw [← hw]; exact Finset.sum_congr rfl fun i _ => pow_two _
    rw [this, Real.toNNReal_one]
  rw [hv] at hm
  have hs : MeasurableSet {x : ℝ | |x| < δ} := measurableSet_lt (by fun_prop) measurable_const
  have hf : Measurable (fun g : Fin n → ℝ => ∑ i, w i * g i) := by fun_prop
  have := gaussian_near_zero hδ
  rw [← hm, Measure.map_apply hf hs] at this
  exact this

/-- The length of a Gaussian vector is rarely large. -/
theorem length_large {n : Nat} (hn : 0 < n) {δ : ℝ} (hδ : 0 < δ) :
    normals n {g | (n : ℝ) / δ ≤ ∑ i, g i * g i} ≤ ENNReal.ofReal δ := by
  have hnK : (0 : ℝ) < n := by exact_mod_cast hn
  have hI : ∫⁻ g, ENNReal.ofReal (∑ i, g i * g i) ∂(normals n) = n := by
    have e : ∀ g : Fin n → ℝ, ENNReal.ofReal (∑ i, g i * g i) = ∑ i, ENNReal.ofReal (g i * g i) :=
      fun g => ENNReal.ofReal_sum_of_nonneg fun i _ => mul_self_nonneg _
    simp only [e]
    rw [lintegral_finsetSum _ (fun i _ => by fun_prop)]
    have h1 : ∀ i : Fin n, ∫⁻ g, ENNReal.ofReal (g i * g i) ∂(normals n) = 1 := by
      intro i
      have hp := (measurePreserving_eval (fun _ : Fin n => gaussianReal 0 1) i)
      have := hp.lintegral_comp (f := fun x : ℝ => ENNReal.ofReal (x * x)) (by fun_prop)
      rw [gaussian_square] at this
      exact this
    simp [h1]
  have hM := mul_meas_ge_le_lintegral (μ := normals n) (f := fun g => ENNReal.ofReal (∑ i, g i * g i)) (by fun_prop)
    (ENNReal.ofReal (n / δ))
  rw [hI] at hM
  have hset : {g : Fin n → ℝ | (n : ℝ) / δ ≤ ∑ i, g i * g i} ⊆
      {g | ENNReal.ofReal (n / δ) ≤ ENNReal.ofReal (∑ i, g i * g i)} := fun g hg => ENNReal.ofReal_le_ofReal hg
  refine (measure_mono hset).trans ?_
  have hpos : 0 < (n : ℝ) / δ := by positivity
  have h0 : ENNReal.ofReal (n / δ) ≠ 0 := by rw [Ne, ENNReal.ofReal_eq_zero]; exact not_le.2 hpos
  have h2 : ENNReal.ofReal (n / δ) * ENNReal.ofReal δ = n := by
    rw [← ENNReal.ofReal_mul hpos.le, div_mul_cancel₀ _ hδ.ne', ENNReal.ofReal_natCast]
  rw [← h2] at hM
  exact (ENNReal.mul_le_mul_iff_right h0 ENNReal.ofReal_ne_top).1 hM

/-! ## The power method -/

theorem vec_ofFn {n : Nat} (g : Fin n → ℝ) (i : Fin n) : vec (List.ofFn g) i = g i := by
  unfold vec
  rw [List.getD_eq_getElem?_getD, List.getElem?_eq_getElem (by simp), List.getElem_ofFn]
  rfl

theorem dot_ofFn {n : Nat} (b : Nat → ℝ) (g : Fin n → ℝ) :
    dot n b (vec (List.ofFn g)) = ∑ i : Fin n, b i * g i := by
  unfold dot
  rw [Finset.sum_range]
  exact Finset.sum_congr rfl fun i _ => by rw [vec_ofFn]

theorem dot_ofFn_self {n : Nat} (g : Fin n → ℝ) :
    dot n (vec (List.ofFn g)) (vec (List.ofFn g)) = ∑ i : Fin n, g i * g i := by
  unfold dot
  rw [Finset.sum_range]
  exact Finset.sum_congr rfl fun i _ => by rw [vec_ofFn]

/-- A start with a component in the direction of an eigenvector of the largest eigenvalue. -/
theorem power_from {m : SprsMat ℝ} (hsq : m.rows = m.cols)
    (hsym : ∀ i < m.rows, ∀ j < m.rows, m.coeff i j = m.coeff j i)
    (hpsd : ∀ x, 0 ≤ quadForm m.rows m.coeff x) {l : ℝ} {b : Nat → ℝ}
    (hb : IsEigen m.rows m.coeff l b) (hbu : dot m.rows b b = 1) (hl : 0 < l)
    (hmax : ∀ k x, IsEigen m.rows m.coeff k x → (∃ i < m.rows, x i ≠ 0) → k ≤ l) (t : Nat)
    (gs : List ℝ) (hgs : gs.length = m.rows) (hc : dot m.rows b (vec gs) ≠ 0) :
    ∃ r R, powerMethodRandom m t gs = .ok r ∧ rayleighQuotient m r = .ok R ∧ 0 ≤ R ∧ R ≤ l ∧
      l ^ (2 * t) * dot m.rows b (vec gs) ^ 2 ≤ R ^ (2 * t) * dot m.rows (vec gs) (vec gs) := by
  obtain ⟨v, hv⟩ : ∃ v, v = randomUnitVector gs := ⟨_, rfl⟩
  have hvl : v.length = m.rows := by rw [hv]; exact (normalizeVec_length gs).trans hgs
  obtain ⟨N, hN⟩ : ∃ N, N = nrm gs.length (vec gs) := ⟨_, rfl⟩
  have hsp : ∀ i, vec gs i = N * vec v i := by
    intro i
    have := (normalizeVec_spec gs).1 i
    rw [hv, hN, mul_comm]
    exact this.symm
  have hgsd : vec gs = fun i => N * vec v i := funext hsp
  have hd1 : dot m.rows b (vec gs) = N * dot m.rows b (vec v) := by rw [hgsd, dot_smul_right]
  have hd2 : dot m.rows (vec gs) (vec gs) = N ^ 2 * dot m.rows (vec v) (vec v) := by
    rw [hgsd, dot_smul_right, dot_smul_left]
    ring
  have hcv : dot m.rows b (vec v) ≠ 0 := fun h => hc (by rw [hd1, h, mul_zero])
  have hpow : dot m.rows b (powv m.rows m.coeff t (vec v)) ≠ 0 := by
    rw [dot_eigen_powv hsym hb]
    exact mul_ne_zero (pow_ne_zero _ hl.ne') hcv
  obtain ⟨r, hr⟩ : ∃ r, powerMethod m (t : Int) v = .ok r :=
    (C54_arguments m t v).2.1.2 ⟨by positivity, hsq, hvl⟩
  have hrl : r.length = m.rows ∧ ∃ x ∈ r, x ≠ 0 := by
    have hne : ∀ x : List ℝ, x.length = m.rows → dot m.rows (vec x) (vec x) ≠ 0 → ∃ y ∈ x, y ≠ 0 := by
      intro x _ hx
      by_contra hall
      push Not at hall
      apply hx
      refine Finset.sum_eq_zero fun i hi => ?_
      have : vec x i = 0 := by
        unfold vec
        rw [List.getD_eq_getElem?_getD]
        cases he : x[i]? with
        | none => rfl
        | some y => exact hall y (List.mem_of_getElem? he)
      rw [this, mul_zero]
    cases t with
    | zero =>
      have h0 := (C54_power_method m hsq v hvl 0).1
      have e : powerMethod m ((0 : Nat) : Int) v = powerMethod m 0 v := rfl
      rw [e, h0, Outcome.ok.injEq] at hr
      rw [← hr]
      refine ⟨hvl, hne v hvl ?_⟩
      intro hz
      have := dot_cs m.rows b (vec v)
      rw [hz, mul_zero] at this
      exact hcv (pow_eq_zero_iff (two_ne_zero) |>.1 (le_antisymm this (sq_nonneg _)))
    | succ t =>
      obtain ⟨-, r', h1, h2, -, h4, -⟩ := C54_power_method m hsq v hvl t
      have e : powerMethod m ((t + 1 : Nat) : Int) v = powerMethod m ((t : Int) + 1) v := by push_cast; rfl
      rw [e, h1, Outcome.ok.injEq] at hr
      rw [← hr]
      have hn0 : nrm m.rows (powv m.rows m.coeff (t + 1) (vec v)) ≠ 0 := by
        intro hz
        have hz' := (Real.sqrt_eq_zero (dot_self_nonneg _ _)).1 hz
        have := dot_cs m.rows b (powv m.rows m.coeff (t + 1) (vec v))
        rw [hz', mul_zero] at this
        exact hpow (pow_eq_zero_iff (two_ne_zero) |>.1 (le_antisymm this (sq_nonneg _)))
      refine ⟨h2, hne r' h2 ?_⟩
      intro hz
      have := h4 hn0
      unfold nrm at this
      rw [hz, Real.sqrt_zero] at this
      exact zero_ne_one this
  obtain ⟨-, -, -, hext⟩ := C54_rayleigh m hsq r hrl.1 hrl.2
  obtain ⟨R, lo, hi, a, c, hR, -, hRhi, -, -, hc1, hc2⟩ := hext hsym
  obtain ⟨hR0, -, hfin⟩ := C54_rayleigh_increases m hsq hsym hpsd v hvl t hr hR
  refine ⟨r, R, ?_, hR, hR0, hRhi.trans (hmax hi c hc1 hc2), ?_⟩
  · unfold powerMethodRandom
    rw [← hv]
    exact hr
  · have := mul_le_mul_of_nonneg_left (hfin l b hb hbu) (sq_nonneg N)
    rw [hd1, hd2]
    calc l ^ (2 * t) * (N * dot m.rows b (vec v)) ^ 2 = N ^ 2 * (l ^ (2 * t) * dot m.rows b (vec v) ^ 2) := by ring
      _ ≤ N ^ 2 * (R ^ (2 * t) * dot m.rows (vec v) (vec v)) := this
      _ = _ := by ring

/-- **C89** (any number of iterations).  For a symmetric positive semidefinite matrix with largest eigenvalue `l > 0`, and
every `0 < δ`: except with probability `2 δ`, the Rayleigh quotient `R` of the result of `power_method(mat, t)` is at most
`l`, and `(R / l)^(2t) ≥ δ^3 / n`. -/
theorem C89_iterations {m : SprsMat ℝ} (hsq : m.rows = m.cols)
    (hsym : ∀ i < m.rows, ∀ j < m.rows, m.coeff i j = m.coeff j i)
    (hpsd : ∀ x, 0 ≤ quadForm m.rows m.coeff x) {l : ℝ} {b : Nat → ℝ}
    (hb : IsEigen m.rows m.coeff l b) (hbu : dot m.rows b b = 1) (hl : 0 < l)
    (hmax : ∀ k x, IsEigen m.rows m.coeff k x → (∃ i < m.rows, x i ≠ 0) → k ≤ l) (t : Nat) {δ : ℝ} (hδ : 0 < δ) :
    normals m.rows {g | ¬ ∃ r R, powerMethodRandom m t (List.ofFn g) = .ok r ∧ rayleighQuotient m r = .ok R ∧
      0 ≤ R ∧ R ≤ l ∧ δ ^ 3 / m.rows ≤ (R / l) ^ (2 * t)} ≤ ENNReal.ofReal (2 * δ) := by
  have hn : 0 < m.rows := by
    rcases Nat.eq_zero_or_pos m.rows with h | h
    · rw [h] at hbu
      simp [dot] at hbu
    · exact h
  have hnK : (0 : ℝ) < m.rows := by exact_mod_cast hn
  have hw : ∑ i : Fin m.rows, b i * b i = 1 := by rw [← hbu, dot, Finset.sum_range]
  have hsub : {g : Fin m.rows → ℝ | ¬ ∃ r R, powerMethodRandom m t (List.ofFn g) = .ok r ∧ rayleighQuotient m r = .ok R ∧
      0 ≤ R ∧ R ≤ l ∧ δ ^ 3 / m.rows ≤ (R / l) ^ (2 * t)} ⊆
      {g | |∑ i : Fin m.rows, b i * g i| < δ} ∪ {g | (m.rows : ℝ) / δ ≤ ∑ i, g i * g i} := by
    intro g hg
    by_contra hgood
    rw [Set.mem_union, not_or] at hgood
    obtain ⟨h1, h2⟩ := hgood
    have h1' : δ ≤ |∑ i : Fin m.rows, b i * g i| := not_lt.1 h1
    have h2' : ∑ i, g i * g i < (m.rows : ℝ) / δ := not_le.1 h2
    apply hg
    have hc : dot m.rows b (vec (List.ofFn g)) ≠ 0 := by
      rw [dot_ofFn]
      intro h0
      rw [h0, abs_zero] at h1'
      linarith
    obtain ⟨r, R, hr, hR, hR0, hRl, hlow⟩ := power_from hsq hsym hpsd hb hbu hl hmax t (List.ofFn g) (by simp) hc
    refine ⟨r, R, hr, hR, hR0, hRl, ?_⟩
    rw [dot_ofFn, dot_ofFn_self] at hlow
    have hlp : 0 < l ^ (2 * t) := pow_pos hl _
    have hRp : 0 ≤ R ^ (2 * t) := pow_nonneg hR0 _
    have hsq2 : δ ^ 2 ≤ (∑ i : Fin m.rows, b i * g i) ^ 2 := by
      rw [← sq_abs (∑ i : Fin m.rows, b i * g i)]
      exact pow_le_pow_left₀ hδ.le h1' 2
    have h3 : l ^ (2 * t) * δ ^ 2 ≤ R ^ (2 * t) * (m.rows / δ) :=
      calc l ^ (2 * t) * δ ^ 2 ≤ l ^ (2 * t) * (∑ i : Fin m.rows, b i * g i) ^ 2 :=
            mul_le_mul_of_nonneg_left hsq2 hlp.le
        _ ≤ _ := hlow
        _ ≤ _ := mul_le_mul_of_nonneg_left h2'.le hRp
    rw [div_pow, div_le_div_iff₀ hnK hlp]
    have h4 := mul_le_mul_of_nonneg_right h3 hδ.le
    rw [mul_assoc, mul_assoc, div_mul_cancel₀ _ hδ.ne'] at h4
    calc δ ^ 3 * l ^ (2 * t) = l ^ (2 * t) * (δ ^ 2 * δ) := by ring
      _ ≤ _ := h4
  refine (measure_mono hsub).trans ((measure_union_le _ _).trans ?_)
  rw [show 2 * δ = δ + δ by ring, ENNReal.ofReal_add hδ.le hδ.le]
  exact add_le_add (component_small (fun i => b i) hw hδ.le) (length_large hn hδ)

/-- **C89** (default number of iterations).  For a symmetric positive semidefinite matrix with largest eigenvalue
 `l > 0`: except with probability `2 / n`, the Rayleigh quotient of the result of `power_method(mat)` is at most
`l` and at least `exp(-1/5) l`, that is more than 81 percent of it. -/
theorem C89_default {m : SprsMat ℝ} (hsq : m.rows = m.cols)
    (hsym : ∀ i < m.rows, ∀ j < m.rows, m.coeff i j = m.coeff j i)
    (hpsd : ∀ x, 0 ≤ quadForm m.rows m.coeff x) {l : ℝ} {b : Nat → ℝ}
    (hb : IsEigen m.rows m.coeff l b) (hbu : dot m.rows b b = 1) (hl : 0 < l)
    (hmax : ∀ k x, IsEigen m.rows m.coeff k x → (∃ i < m.rows, x i ≠ 0) → k ≤ l) :
    normals m.rows {g | ¬ ∃ r R, powerMethodRandomDefault m (List.ofFn g) = .ok r ∧ rayleighQuotient m r = .ok R ∧
      R ≤ l ∧ Real.exp (-1 / 5) * l ≤ R} ≤ ENNReal.ofReal (2 / m.rows) := by
  have hn0 : 0 < m.rows := by
    rcases Nat.eq_zero_or_pos m.rows with h | h
    · rw [h] at hbu
      simp [dot] at hbu
    · exact h
  have hnK : (0 : ℝ) < m.rows := by exact_mod_cast hn0
  rcases Nat.lt_or_ge m.rows 2 with hn | hn
  · have : IsProbabilityMeasure (normals m.rows) := by unfold normals; infer_instance
    refine prob_le_one.trans ?_
    rw [ENNReal.one_le_ofReal, le_div_iff₀ hnK]
    have : (m.rows : ℝ) ≤ 1 := by exact_mod_cast (by omega : m.rows ≤ 1)
    linarith
  have hlog : 0 < Real.log m.rows := Real.log_pos (by exact_mod_cast (by omega : 1 < m.rows))
  obtain ⟨c, hc⟩ : ∃ c : Nat, ⌈Real.log m.rows⌉ = c := ⟨⌈Real.log m.rows⌉.toNat, by
    have := Int.ceil_nonneg hlog.le
    omega⟩
  have hcl : Real.log m.rows ≤ c := by
    have := Int.le_ceil (Real.log m.rows)
    rw [hc] at this
    exact_mod_cast this
  have hc0 : 0 < c := by
    have : (0 : ℝ) < c := lt_of_lt_of_le hlog hcl
    exact_mod_cast this
  have hdef : ∀ gs, powerMethodRandomDefault m gs = powerMethodRandom m ((10 * c : Nat) : Int) gs := by
    intro gs
    unfold powerMethodRandomDefault powerMethodDefault powerMethodRandom
    rw [if_neg (by omega), hc]
    push_cast
    rfl
  have hmain := C89_iterations hsq hsym hpsd hb hbu hl hmax (10 * c) (δ := 1 / m.rows) (by positivity)
  rw [show 2 * (1 / (m.rows : ℝ)) = 2 / m.rows by ring] at hmain
  refine (measure_mono ?_).trans hmain
  intro g hg hgood
  obtain ⟨r, R, hr, hR, hR0, hRl, hlow⟩ := hgood
  refine hg ⟨r, R, by rw [hdef]; exact hr, hR, hRl, ?_⟩
  have hle : (Real.exp (-1 / 5)) ^ (2 * (10 * c)) ≤ (R / l) ^ (2 * (10 * c)) := by
    refine le_trans ?_ hlow
    have e1 : (1 / (m.rows : ℝ)) ^ 3 / m.rows = Real.exp (-(4 * Real.log m.rows)) := by
      rw [Real.exp_neg, show 4 * Real.log m.rows = ((4 : Nat) : ℝ) * Real.log m.rows by norm_num,
        Real.exp_nat_mul, Real.exp_log hnK]
      field_simp
    rw [e1, ← Real.exp_nat_mul, Real.exp_le_exp]
    push_cast
    linarith
  have hRl0 : 0 ≤ R / l := div_nonneg hR0 hl.le
  have := (pow_le_pow_iff_left₀ (Real.exp_pos _).le hRl0 (by omega : 2 * (10 * c) ≠ 0)).1 hle
  rwa [le_div_iff₀ hl] at this

/-- **C89** (existence).  The largest eigenvalue of the previous theorems exists for every symmetric positive semidefinite
matrix with a positive diagonal entry. -/
theorem C89_largest_eigenvalue {m : SprsMat ℝ} (hsq : m.rows = m.cols)
    (hsym : ∀ i < m.rows, ∀ j < m.rows, m.coeff i j = m.coeff j i)
    (hpsd : ∀ x, 0 ≤ quadForm m.rows m.coeff x) {u : Nat} (hu : u < m.rows) (hpos : 0 < m.coeff u u) :
    ∃ l, 0 < l ∧ (∃ x, IsEigen m.rows m.coeff l x ∧ ∃ i < m.rows, x i ≠ 0) ∧
      (∀ k x, IsEigen m.rows m.coeff k x → (∃ i < m.rows, x i ≠ 0) → k ≤ l) ∧
      normals m.rows {g | ¬ ∃ r R, powerMethodRandomDefault m (List.ofFn g) = .ok r ∧ rayleighQuotient m r = .ok R ∧
        R ≤ l ∧ Real.exp (-1 / 5) * l ≤ R} ≤ ENNReal.ofReal (2 / m.rows) := by
  obtain ⟨lo, l, a, b, -, -, hb, hb0, -, hhi⟩ := extreme_eigenvalues hsym (by omega)
  have hdd : ∀ x : Nat → ℝ, (∃ i < m.rows, x i ≠ 0) → 0 < dot m.rows x x := by
    rintro x ⟨i, hi, h0⟩
    exact Finset.sum_pos' (fun i _ => mul_self_nonneg _) ⟨i, Finset.mem_range.2 hi, mul_self_pos.2 h0⟩
  have hl : 0 < l := by
    have h1 := hhi fun i => if i = u then 1 else 0
    have e1 : quadForm m.rows m.coeff (fun i => if i = u then 1 else 0) = m.coeff u u := by
      unfold quadForm
      simp [hu]
    have e2 : dot m.rows (fun i => if i = u then (1 : ℝ) else 0) (fun i => if i = u then 1 else 0) = 1 := by
      unfold dot
      simp [hu]
    rw [e1, e2] at h1
    linarith
  have hmax : ∀ k x, IsEigen m.rows m.coeff k x → (∃ i < m.rows, x i ≠ 0) → k ≤ l := by
    intro k x hk hx
    have h1 := hhi x
    have h2 : quadForm m.rows m.coeff x = k * dot m.rows x x := by
      unfold quadForm dot
      rw [Finset.mul_sum]
      refine Finset.sum_congr rfl fun i hi => ?_
      have := hk i (Finset.mem_range.1 hi)
      calc ∑ j ∈ Finset.range m.rows, x i * m.coeff i j * x j
          = x i * ∑ j ∈ Finset.range m.rows, m.coeff i j * x j := by
            rw [Finset.mul_sum]; exact Finset.sum_congr rfl fun j _ => by ring
        _ = _ := by rw [this]; ring
    rw [h2] at h1
    exact le_of_mul_le_mul_right h1 (hdd x hx)
  refine ⟨l, hl, ⟨b, hb, hb0⟩, hmax, ?_⟩
  have hN : 0 < nrm m.rows b := Real.sqrt_pos.2 (hdd b hb0)
  have hNN : nrm m.rows b * nrm m.rows b = dot m.rows b b := Real.mul_self_sqrt (dot_self_nonneg _ _)
  refine C89_default hsq hsym hpsd (b := fun i => (nrm m.rows b)⁻¹ * b i) ?_ ?_ hl hmax
  · intro i hi
    have := hb i hi
    calc ∑ j ∈ Finset.range m.rows, m.coeff i j * ((nrm m.rows b)⁻¹ * b j)
        = (nrm m.rows b)⁻¹ * ∑ j ∈ Finset.range m.rows, m.coeff i j * b j := by
          rw [Finset.mul_sum]; exact Finset.sum_congr rfl fun j _ => by ring
      _ = _ := by rw [this]; ring
  · rw [dot_smul_right, dot_smul_left, ← hNN]
    field_simp

/-- **C89** (graphs).  For every graph with non-negative weights and at least one edge, `power_method` with its default
arguments finds, except with probability `2 / n`, the largest eigenvalue of the Laplacian up to a factor `exp(-1/5)`, and
likewise for the signless Laplacian. -/
theorem C89_laplacian {g : Graph ℝ} (h : g.Reachable) (hw : ∀ u v, 0 ≤ g.abs.w u v) {u v : Nat} (hu : u < g.n)
    (hv : v < g.n) (he : 0 < g.abs.w u v) :
    ∀ m ∈ [g.laplacian, g.signlessLaplacian], ∃ l, 0 < l ∧ (∃ x, IsEigen g.n m.coeff l x ∧ ∃ i < g.n, x i ≠ 0) ∧
      (∀ k x, IsEigen g.n m.coeff k x → (∃ i < g.n, x i ≠ 0) → k ≤ l) ∧
      normals g.n {gs | ¬ ∃ r R, powerMethodRandomDefault m (List.ofFn gs) = .ok r ∧ rayleighQuotient m r = .ok R ∧
        R ≤ l ∧ Real.exp (-1 / 5) * l ≤ R} ≤ ENNReal.ofReal (2 / g.n) := by
  obtain ⟨hs1, hs2, -, h4, h5, -, -⟩ := C08_laplacian_entries h
  have hL : 0 < g.laplacian.coeff u u := by
    rw [h5 u hu, WGraph.deg, add_sub_cancel_right]
    exact Finset.sum_pos' (fun i _ => hw u i) ⟨v, Finset.mem_range.2 hv, he⟩
  have hQ : 0 < g.signlessLaplacian.coeff u u := by
    have := h4 u u
    have := hw u u
    linarith
  intro m hm
  have key : ∀ m : SprsMat ℝ, m.rows = g.n → m.cols = g.n → (∀ u v, m.coeff u v = m.coeff v u) →
      (∀ x, 0 ≤ quadForm g.n m.coeff x) → 0 < m.coeff u u →
      ∃ l, 0 < l ∧ (∃ x, IsEigen g.n m.coeff l x ∧ ∃ i < g.n, x i ≠ 0) ∧
      (∀ k x, IsEigen g.n m.coeff k x → (∃ i < g.n, x i ≠ 0) → k ≤ l) ∧
      normals g.n {gs | ¬ ∃ r R, powerMethodRandomDefault m (List.ofFn gs) = .ok r ∧ rayleighQuotient m r = .ok R ∧
        R ≤ l ∧ Real.exp (-1 / 5) * l ≤ R} ≤ ENNReal.ofReal (2 / g.n) := by
    intro m hr hc hs hp hd
    have := C89_largest_eigenvalue (m := m) (by rw [hr, hc]) (fun i _ j _ => hs i j) (by rw [hr]; exact hp)
      (u := u) (by rw [hr]; exact hu) hd
    rw [hr] at this
    exact this
  rw [List.mem_cons, List.mem_singleton] at hm
  rcases hm with rfl | rfl
  · exact key _ h.valid.cols h.valid.cols hs1 (fun x => (C08_positive_semidefinite h hw x).1) hL
  · exact key _ h.valid.cols h.valid.cols hs2 (fun x => (C08_positive_semidefinite h hw x).2) hQ

/-! ## Positive semidefiniteness is needed -/

/-- **C89** (indefinite matrices).  For the adjacency matrix of a single edge, whose largest eigenvalue is 1, the Rayleigh
quotient of the result is at most zero with probability at least one half, whatever the number of iterations. -/
theorem C89_indefinite {m : SprsMat ℝ} (hr : m.rows = 2) (hc : m.cols = 2)
    (hm : ∀ i < 2, ∀ j < 2, m.coeff i j = if i = j then 0 else 1) :
    IsEigen 2 m.coeff 1 (fun _ => 1) ∧
    ∀ t : Nat, 1 / 2 ≤ normals 2 {gs | ∀ r R, powerMethodRandom m t (List.ofFn gs) = .ok r →
      rayleighQuotient m r = .ok R → R ≤ 0} := by
  have e00 := hm 0 (by norm_num) 0 (by norm_num)
  have e01 := hm 0 (by norm_num) 1 (by norm_num)
  have e10 := hm 1 (by norm_num) 0 (by norm_num)
  have e11 := hm 1 (by norm_num) 1 (by norm_num)
  norm_num at e00 e01 e10 e11
  refine ⟨?_, fun t => ?_⟩
  · intro i hi
    interval_cases i <;> simp [Finset.sum_range_succ, e00, e01, e10, e11]
  have hP : IsProbabilityMeasure (normals 2) := by unfold normals; infer_instance
  have hmul : ∀ x : Nat → ℝ, mulv 2 m.coeff x 0 = x 1 ∧ mulv 2 m.coeff x 1 = x 0 := by
    intro x
    simp [mulv, Finset.sum_range_succ, e00, e01, e10, e11]
  have hpw : ∀ (t : Nat) (x : Nat → ℝ), powv 2 m.coeff (2 * t) x 0 = x 0 ∧ powv 2 m.coeff (2 * t) x 1 = x 1 := by
    intro t x
    induction t with
    | zero => exact ⟨rfl, rfl⟩
    | succ t ih =>
      have e : powv 2 m.coeff (2 * (t + 1)) x = mulv 2 m.coeff (mulv 2 m.coeff (powv 2 m.coeff (2 * t) x)) := rfl
      rw [e, (hmul _).1, (hmul _).2, (hmul _).2, (hmul _).1]
      exact ih
  obtain ⟨A, hA⟩ : ∃ A : Set (Fin 2 → ℝ), A = {gs | gs 0 * gs 1 ≤ 0} := ⟨_, rfl⟩
  have hsub : A ⊆ {gs | ∀ r R, powerMethodRandom m t (List.ofFn gs) = .ok r → rayleighQuotient m r = .ok R → R ≤ 0} := by
    intro gs hgs r R h1 h2
    rw [hA] at hgs
    have hgs' : gs 0 * gs 1 ≤ 0 := hgs
    obtain ⟨v, hv⟩ : ∃ v, v = randomUnitVector (List.ofFn gs) := ⟨_, rfl⟩
    have hvl : v.length = m.rows := by rw [hv, hr]; exact (normalizeVec_length _).trans (by simp)
    unfold powerMethodRandom at h1
    rw [← hv] at h1
    obtain ⟨p1, p2⟩ := rayleigh_moments m (by rw [hr, hc]) (by
      rw [hr]
      intro i hi j hj
      rw [hm i hi j hj, hm j hj i hi]
      simp only [eq_comm]) v hvl t h1 h2
    rw [hr] at p1 p2
    have q1 : powv 2 m.coeff (2 * t + 1) (vec v) = mulv 2 m.coeff (powv 2 m.coeff (2 * t) (vec v)) := rfl
    simp only [dot, Finset.sum_range_succ, Finset.sum_range_zero, q1, (hmul _).1, (hmul _).2, (hpw t _).1, (hpw t _).2] at p1 p2
    have hsp := (normalizeVec_spec (List.ofFn gs)).1
    have g0 := hsp 0
    have g1 := hsp 1
    have w0 : vec (List.ofFn gs) 0 = gs 0 := vec_ofFn gs 0
    have w1 : vec (List.ofFn gs) 1 = gs 1 := vec_ofFn gs 1
    change vec (randomUnitVector (List.ofFn gs)) 0 * _ = _ at g0
    change vec (randomUnitVector (List.ofFn gs)) 1 * _ = _ at g1
    rw [w0, ← hv] at g0
    rw [w1, ← hv] at g1
    obtain ⟨N, hN⟩ : ∃ N, N = nrm (List.ofFn gs).length (vec (List.ofFn gs)) := ⟨_, rfl⟩
    rw [← hN] at g0 g1
    by_contra hR
    have hR' := not_le.1 hR
    have hpos : 0 < vec v 0 * vec v 1 := by nlinarith [mul_pos hR' p1]
    rw [← g0, ← g1] at hgs'
    have : N ^ 2 * (vec v 0 * vec v 1) ≤ 0 := by nlinarith
    have hN0 : N ≠ 0 := by
      intro h0
      have hz := (normalizeVec_spec (List.ofFn gs)).2.2 (by rw [← hN]; exact h0)
      have hv0 : v = List.ofFn gs := by rw [hv]; exact hz
      have : vec v 0 = 0 := by rw [hv0, w0, ← g0, h0, mul_zero]
      rw [this, zero_mul] at hpos
      exact lt_irrefl _ hpos
    nlinarith [mul_pos (pow_pos (lt_of_le_of_ne (hN ▸ Real.sqrt_nonneg _) hN0.symm) 2) hpos]
  refine le_trans ?_ (measure_mono hsub)
  have hmp : MeasurePreserving (fun (a : Fin 2 → ℝ) i => (if i = 0 then -a i else a i)) (normals 2) (normals 2) := by
    have := measurePreserving_pi (fun _ : Fin 2 => gaussianReal 0 1) (fun _ : Fin 2 => gaussianReal 0 1)
      (f := fun i x => if i = 0 then -x else x) (by
        intro i
        by_cases hi : i = 0
        · subst hi
          refine ⟨by simp only [if_true]; fun_prop, ?_⟩
          simp only [if_true]
          rw [gaussianReal_map_neg, neg_zero]
        · simp only [hi, if_false]
          exact MeasurePreserving.id _)
    exact this
  have hAm : MeasurableSet A := by
    rw [hA]
    exact measurableSet_le (by fun_prop) measurable_const
  have hflip := hmp.measure_preimage hAm.nullMeasurableSet
  have hcov : (Set.univ : Set (Fin 2 → ℝ)) ⊆ A ∪ (fun (a : Fin 2 → ℝ) i => (if i = 0 then -a i else a i)) ⁻¹' A := by
    intro a _
    rw [hA]
    rcases le_total (a 0 * a 1) 0 with h | h
    · exact Or.inl h
    · right
      show (if (0 : Fin 2) = 0 then -a 0 else a 0) * (if (1 : Fin 2) = 0 then -a 1 else a 1) ≤ 0
      simp
      exact h
  have h1 : (1 : ℝ≥0∞) ≤ normals 2 A + normals 2 A := by
    calc (1 : ℝ≥0∞) = normals 2 Set.univ := measure_univ.symm
      _ ≤ normals 2 (A ∪ _) := measure_mono hcov
      _ ≤ _ := measure_union_le _ _
      _ = _ := by rw [hflip]
  rw [← two_mul] at h1
  rw [ENNReal.div_le_iff (by norm_num) (by norm_num), mul_comm]
  exact h1

/-- A graph with a single edge meets the hypotheses of `C89_laplacian`, and its adjacency matrix those of
`C89_indefinite`. -/
example : ∃ g : Graph ℝ, g.Reachable ∧ (∀ u v, 0 ≤ g.abs.w u v) ∧ g.n = 2 ∧ 0 < g.abs.w 0 1 ∧
    g.adj.rows = 2 ∧ g.adj.cols = 2 ∧ ∀ i < 2, ∀ j < 2, g.adj.coeff i j = if i = j then 0 else 1 := by
  obtain ⟨g, hg, ha⟩ := exists_graph 2 (fun i j => if i < 2 ∧ j < 2 ∧ i ≠ j then 1 else 0)
    (fun i j => by simp only [ne_comm, and_left_comm]) (fun i j => by
      beta_reduce
      split_ifs
      · right; norm_num [epsilon]
      · left; rfl) (fun i j h => by
      beta_reduce
      rw [if_neg]
      rintro ⟨h1, h2, -⟩
      exact h ⟨h1, h2⟩)
  have hn : g.n = 2 := congrArg WGraph.n ha
  have hw : g.abs.w = fun i j => if i < 2 ∧ j < 2 ∧ i ≠ j then 1 else 0 := congrArg WGraph.w ha
  refine ⟨g, hg, fun u v => ?_, hn, ?_, by rw [hg.valid.rows, hn], by rw [hg.valid.cols, hn], fun i hi j hj => ?_⟩
  · rw [hw]; beta_reduce; split_ifs <;> norm_num
  · rw [hw]; norm_num
  · change g.abs.w i j = _
    rw [hw]
    by_cases h : i = j
    · simp [h]
    · simp [h, hi, hj]

end Stag
