import Verif.Props.SbmApprox
import Verif.AsgLaw
import Mathlib.Probability.Distributions.Gaussian.Real
import Mathlib.Probability.ProductMeasure
import Mathlib.MeasureTheory.Function.Floor
import Mathlib.MeasureTheory.Measure.Lebesgue.Basic

/-!
# C70: how far expected weights are from the given probabilities, and a random generator
-/

namespace Stag

open MeasureTheory Set ProbabilityTheory
open scoped ENNReal

/-- A normal number rounded down. -/
noncomputable def floorNormal (m v : ℝ) : PMF Int :=
  haveI : IsProbabilityMeasure ((gaussianReal m v.toNNReal).map (fun x : ℝ => ⌊x⌋)) :=
    Measure.isProbabilityMeasure_map Int.measurable_floor.aemeasurable
  ((gaussianReal m v.toNNReal).map (fun x : ℝ => ⌊x⌋)).toPMF

theorem floorNormal_apply (m v : ℝ) (r : Int) :
    floorNormal m v r = gaussianReal m v.toNNReal {x | ⌊x⌋ = r} := by
  unfold floorNormal
  rw [Measure.toPMF_apply, Measure.map_apply Int.measurable_floor (measurableSet_singleton r)]
  rfl

theorem floorNormal_expect (m v : ℝ) (f : Int → ℝ≥0∞) :
    PMF.expect (floorNormal m v) f = ∫⁻ x, f ⌊x⌋ ∂(gaussianReal m v.toNNReal) := by
  have h : ∫⁻ x, f ⌊x⌋ ∂(gaussianReal m v.toNNReal)
      = ∫⁻ r, f r ∂((gaussianReal m v.toNNReal).map (fun x : ℝ => ⌊x⌋)) := by
    rw [lintegral_map (measurable_of_countable f) Int.measurable_floor]
  rw [h, lintegral_countable']
  unfold PMF.expect
  apply tsum_congr
  intro r
  rw [floorNormal_apply, Measure.map_apply Int.measurable_floor (measurableSet_singleton r), mul_comm]
  rfl

/-- The mean distance of a normal number from its mean is at most the standard deviation. -/
theorem gaussian_abs {m v : ℝ} (hv : 0 < v) :
    ∫⁻ x, ENNReal.ofReal |x - m| ∂(gaussianReal m v.toNNReal) ≤ ENNReal.ofReal (Real.sqrt v) := by
  have hσ : 0 < Real.sqrt v := Real.sqrt_pos.2 hv
  have hlp : MemLp (fun x : ℝ => x - m) 2 (gaussianReal m v.toNNReal) :=
    (memLp_id_gaussianReal 2).sub (memLp_const m)
  have hsq : Integrable (fun x : ℝ => (x - m) ^ 2) (gaussianReal m v.toNNReal) := hlp.integrable_sq
  have hvar : ∫ x, (x - m) ^ 2 ∂(gaussianReal m v.toNNReal) = v := by
    have h1 := variance_id_gaussianReal (μ := m) (v := v.toNNReal)
    rw [variance_eq_integral measurable_id.aemeasurable] at h1
    simp only [id, integral_id_gaussianReal] at h1
    rw [h1, Real.coe_toNNReal v hv.le]
  have hint : Integrable (fun x : ℝ => ((x - m) ^ 2 / Real.sqrt v + Real.sqrt v) / 2) (gaussianReal m v.toNNReal) :=
    ((hsq.div_const _).add (integrable_const _)).div_const _
  calc ∫⁻ x, ENNReal.ofReal |x - m| ∂(gaussianReal m v.toNNReal)
      ≤ ∫⁻ x, ENNReal.ofReal (((x - m) ^ 2 / Real.sqrt v + Real.sqrt v) / 2) ∂(gaussianReal m v.toNNReal) := by
        apply lintegral_mono
        intro x
        apply ENNReal.ofReal_le_ofReal
        rw [le_div_iff₀ (by norm_num), ← sub_le_iff_le_add, le_div_iff₀ hσ]
        nlinarith [sq_nonneg (|x - m| - Real.sqrt v), sq_abs (x - m)]
    _ = ENNReal.ofReal (∫ x, ((x - m) ^ 2 / Real.sqrt v + Real.sqrt v) / 2 ∂(gaussianReal m v.toNNReal)) := by
        rw [ofReal_integral_eq_lintegral_ofReal hint]
        apply Filter.Eventually.of_forall
        intro x
        simp only [Pi.zero_apply]
        positivity
    _ = ENNReal.ofReal (Real.sqrt v) := by
        congr 1
        rw [integral_div, integral_add (hsq.div_const _) (integrable_const _), integral_div, hvar]
        simp only [integral_const, probReal_univ, smul_eq_mul, one_mul]
        have : v / Real.sqrt v = Real.sqrt v := Real.div_sqrt
        rw [this]
        ring

theorem floorNormal_abs {m v : ℝ} (hv : 0 < v) :
    PMF.expect (floorNormal m v) (fun r => ENNReal.ofReal |(r : ℝ) - m|) ≤ ENNReal.ofReal (Real.sqrt v + 1) := by
  rw [floorNormal_expect]
  calc ∫⁻ x, ENNReal.ofReal |((⌊x⌋ : Int) : ℝ) - m| ∂(gaussianReal m v.toNNReal)
      ≤ ∫⁻ x, (ENNReal.ofReal |x - m| + 1) ∂(gaussianReal m v.toNNReal) := by
        apply lintegral_mono
        intro x
        beta_reduce
        rw [← ENNReal.ofReal_one, ← ENNReal.ofReal_add (abs_nonneg _) zero_le_one]
        apply ENNReal.ofReal_le_ofReal
        have h1 := Int.floor_le x
        have h2 := Int.lt_floor_add_one x
        have h3 := le_abs_self (x - m)
        have h4 := neg_abs_le (x - m)
        rw [abs_le]
        constructor <;> linarith
    _ = ∫⁻ x, ENNReal.ofReal |x - m| ∂(gaussianReal m v.toNNReal) + 1 := by
        rw [lintegral_add_right _ measurable_const]
        simp
    _ ≤ ENNReal.ofReal (Real.sqrt v) + 1 := by
        gcongr
        exact gaussian_abs hv
    _ = _ := by rw [ENNReal.ofReal_add (Real.sqrt_nonneg v) zero_le_one, ENNReal.ofReal_one]

/-- The number of edges drawn in approximate mode is close to the expected number, on average. -/
theorem count_near {M : Nat} {p : ℝ} (h1 : p < 1) (hM : 1 ≤ p * M) :
    ∃ e : ℝ, |e - p * M| ≤ Real.sqrt ((1 - p) * (p * M)) + 1 ∧
      PMF.expect (floorNormal (p * M) ((1 - p) * (p * M))) (fun r => ((max 0 (min (M : Int) r)).toNat : ℝ≥0∞))
        = ENNReal.ofReal e := by
  have hv : 0 < (1 - p) * (p * M) := by
    apply mul_pos <;> linarith
  have hle : p * M ≤ M := by
    have : (0 : ℝ) ≤ M := by positivity
    nlinarith
  obtain ⟨E, hE⟩ : ∃ E, PMF.expect (floorNormal (p * M) ((1 - p) * (p * M)))
    (fun r => ((max 0 (min (M : Int) r)).toNat : ℝ≥0∞)) = E := ⟨_, rfl⟩
  have hD := floorNormal_abs (m := p * M) hv
  obtain ⟨D, hDe⟩ : ∃ D, PMF.expect (floorNormal (p * M) ((1 - p) * (p * M)))
    (fun r => ENNReal.ofReal |(r : ℝ) - p * M|) = D := ⟨_, rfl⟩
  rw [hDe] at hD
  have hcast : ∀ r : Int, ((max 0 (min (M : Int) r)).toNat : ℝ≥0∞) = ENNReal.ofReal (max 0 (min (M : ℝ) r)) := by
    intro r
    have hz : ((max 0 (min (M : Int) r)).toNat : Int) = max 0 (min (M : Int) r) := Int.toNat_of_nonneg (le_max_left _ _)
    have : (((max 0 (min (M : Int) r)).toNat : Nat) : ℝ) = max 0 (min (M : ℝ) r) := by
      have := congrArg (fun z : Int => (z : ℝ)) hz
      push_cast at this
      simpa using this
    rw [← this, ENNReal.ofReal_natCast]
  have hup : E ≤ ENNReal.ofReal (p * M) + D := by
    rw [← hE, ← hDe, ← expect_const (floorNormal (p * M) ((1 - p) * (p * M))) (ENNReal.ofReal (p * M)), ← expect_add]
    unfold PMF.expect
    apply ENNReal.tsum_le_tsum
    intro r
    apply mul_le_mul_right
    beta_reduce
    rw [hcast, ← ENNReal.ofReal_add (by linarith) (abs_nonneg _)]
    apply ENNReal.ofReal_le_ofReal
    have := le_abs_self ((r : ℝ) - p * M)
    have h2 := abs_nonneg ((r : ℝ) - p * M)
    have h3 := min_le_right (M : ℝ) r
    apply max_le <;> linarith
  have hlow : ENNReal.ofReal (p * M) ≤ E + D := by
    rw [← hE, ← hDe, ← expect_const (floorNormal (p * M) ((1 - p) * (p * M))) (ENNReal.ofReal (p * M)), ← expect_add]
    unfold PMF.expect
    apply ENNReal.tsum_le_tsum
    intro r
    apply mul_le_mul_right
    beta_reduce
    rw [hcast, ← ENNReal.ofReal_add (le_max_left _ _) (abs_nonneg _)]
    apply ENNReal.ofReal_le_ofReal
    have := neg_abs_le ((r : ℝ) - p * M)
    have h2 := abs_nonneg ((r : ℝ) - p * M)
    have h3 := le_max_right 0 (min (M : ℝ) r)
    rcases le_total (M : ℝ) r with h | h
    · rw [min_eq_left h] at h3 ⊢
      linarith
    · rw [min_eq_right h] at h3 ⊢
      linarith
  have hDt : D ≠ ⊤ := ne_top_of_le_ne_top ENNReal.ofReal_ne_top hD
  have hEt : E ≠ ⊤ := ne_top_of_le_ne_top (ENNReal.add_ne_top.2 ⟨ENNReal.ofReal_ne_top, hDt⟩) hup
  refine ⟨E.toReal, ?_, by rw [hE, ENNReal.ofReal_toReal hEt]⟩
  have hDr : D.toReal ≤ Real.sqrt ((1 - p) * (p * M)) + 1 :=
    ENNReal.toReal_le_of_le_ofReal (by positivity) hD
  have a1 : E.toReal ≤ p * M + D.toReal := by
    have := ENNReal.toReal_mono (ENNReal.add_ne_top.2 ⟨ENNReal.ofReal_ne_top, hDt⟩) hup
    rwa [ENNReal.toReal_add ENNReal.ofReal_ne_top hDt, ENNReal.toReal_ofReal (by linarith)] at this
  have a2 : p * M ≤ E.toReal + D.toReal := by
    have := ENNReal.toReal_mono (ENNReal.add_ne_top.2 ⟨hEt, hDt⟩) hlow
    rwa [ENNReal.toReal_add hEt hDt, ENNReal.toReal_ofReal (by linarith)] at this
  rw [abs_le]
  constructor <;> linarith

theorem truePairs_pos {c d m m' : Nat} (hm : 10000 ≤ m * m') (he : c = d → m = m') : 0 < truePairs c d m m' := by
  unfold truePairs
  by_cases hc : c = d
  · rw [if_pos hc]
    have hmm := he hc
    subst hmm
    have h2 : 2 ≤ m := by
      by_contra hlt
      have : m = 0 ∨ m = 1 := by omega
      rcases this with rfl | rfl <;> omega
    have h3 : 2 * 1 ≤ m * (m - 1) := Nat.mul_le_mul h2 (by omega)
    omega
  · rw [if_neg hc]
    omega

/-- **C70** (expected weight with normally distributed numbers).  In approximate mode the expected weight of an edge
differs from `p M / T` by at most `(σ + 1) / T`, where `T` is the number of possible edges, `M` what the code takes for it
and `σ² = (1 - p) p M`. -/
theorem C70_expected_weight_near {Ω : Type} [MeasurableSpace Ω] {μ : Measure Ω} {R : Rng ℝ Ω} [IsProbabilityMeasure μ]
    (hR : RandomSource μ R floorNormal) {sizes : List Nat} {P : DenseMat ℝ}
    (h : SbmArgs sizes P) {c d u v : Nat} (hbt : Between sizes c d u v) (huv : u ≠ v)
    (hm : 10000 ≤ sizes.getD c 0 * sizes.getD d 0) (hp : P.entry c d < 1 / 2) {M T : Nat}
    (hM : M = codeMaxEdges c d (sizes.getD c 0) (sizes.getD d 0))
    (hT : T = truePairs c d (sizes.getD c 0) (sizes.getD d 0)) (he : 1 ≤ P.entry c d * M) {X : Ω → ℝ≥0∞}
    (hX : IsWeight R sizes P false u v X) :
    ∃ w : ℝ, ∫⁻ s, X s ∂μ = ENNReal.ofReal w ∧
      |w - P.entry c d * M / T| ≤ (Real.sqrt ((1 - P.entry c d) * (P.entry c d * M)) + 1) / T := by
  obtain ⟨hdl, -⟩ := between_mem hbt huv
  have hTpos : 0 < T := by rw [hT]; exact truePairs_pos hm fun hc => by rw [hc]
  have hTr : (0 : ℝ) < T := by exact_mod_cast hTpos
  obtain ⟨e, h1, h2⟩ := count_near (by linarith) he
  refine ⟨e / T, ?_, ?_⟩
  · rw [C70_expected_weight_approx hR h hbt huv hm hp hM he hX, h2, ← hT, ENNReal.ofReal_div_of_pos hTr,
      ENNReal.ofReal_natCast]
    rfl
  · rw [← sub_div, abs_div, abs_of_pos hTr]
    gcongr

/-! ## A random generator

An infinite sequence of independent pairs of a uniform and a standard normal number; every draw consumes one pair. -/

section Source

variable {X : Type} [MeasurableSpace X]

/-- Independent draws from `ν`, for ever. -/
noncomputable def streamLaw (ν : Measure X) [IsProbabilityMeasure ν] : Measure (Nat → X) :=
  Measure.infinitePi fun _ : Nat => ν

instance (ν : Measure X) [IsProbabilityMeasure ν] : IsProbabilityMeasure (streamLaw ν) := by
  unfold streamLaw; infer_instance

/-- The sequence without its first element. -/
def shift (s : Nat → X) : Nat → X := fun k => s (k + 1)

/-- The sequence with another first element. -/
def consS (q : X × (Nat → X)) : Nat → X
  | 0 => q.1
  | k + 1 => q.2 k

theorem measurable_consS : Measurable (consS (X := X)) := by
  rw [measurable_pi_iff]
  intro k
  cases k with
  | zero => exact measurable_fst
  | succ k => exact (measurable_pi_apply k).comp measurable_snd

omit [MeasurableSpace X] in
theorem consS_shift (s : Nat → X) : consS (s 0, shift s) = s := by
  funext k
  cases k <;> rfl

/-- The first number is independent of the others. -/
theorem streamLaw_cons (ν : Measure X) [IsProbabilityMeasure ν] :
    (ν.prod (streamLaw ν)).map consS = streamLaw ν := by
  classical
  apply Measure.eq_infinitePi
  intro S t ht
  have hpre : consS ⁻¹' (Set.pi S t)
      = (if 0 ∈ S then t 0 else univ) ×ˢ Set.pi (S.preimage Nat.succ (Nat.succ_injective.injOn)) (fun k => t (k + 1)) := by
    ext ⟨x, s⟩
    simp only [mem_preimage, Set.mem_pi, mem_prod, Finset.coe_preimage, Finset.mem_coe]
    constructor
    · intro h
      refine ⟨?_, fun k hk => h (k + 1) hk⟩
      by_cases h0 : 0 ∈ S
      · rw [if_pos h0]; exact h 0 h0
      · rw [if_neg h0]; trivial
    · rintro ⟨h1, h2⟩ k hk
      cases k with
      | zero => rw [if_pos hk] at h1; exact h1
      | succ k => exact h2 k hk
  rw [Measure.map_apply measurable_consS (MeasurableSet.pi S.countable_toSet fun i _ => ht i), hpre, Measure.prod_prod]
  have h2 : streamLaw ν (Set.pi (S.preimage Nat.succ (Nat.succ_injective.injOn)) (fun k => t (k + 1)))
      = ∏ k ∈ S.preimage Nat.succ (Nat.succ_injective.injOn), ν (t (k + 1)) :=
    Measure.infinitePi_pi (fun _ => ν) (fun i _ => ht (i + 1))
  rw [h2, Finset.prod_preimage' Nat.succ S (Nat.succ_injective.injOn) (fun k => ν (t k))]
  by_cases h0 : 0 ∈ S
  · rw [if_pos h0]
    have hS : S = insert 0 (S.filter fun k => k ∈ range Nat.succ) := by
      ext k
      simp only [Finset.mem_insert, Finset.mem_filter, mem_range]
      constructor
      · intro hk
        by_cases h : k = 0
        · exact .inl h
        · exact .inr ⟨hk, k - 1, by omega⟩
      · rintro (rfl | ⟨h, -⟩)
        · exact h0
        · exact h
    conv_rhs => rw [hS]
    rw [Finset.prod_insert (by simp)]
  · rw [if_neg h0, measure_univ, one_mul]
    apply Finset.prod_congr _ (fun _ _ => rfl)
    apply Finset.filter_true_of_mem
    intro k hk
    cases k with
    | zero => exact absurd hk h0
    | succ k => exact ⟨k, rfl⟩

/-- A draw that looks at the next element of the sequence. -/
theorem head_step (ν : Measure X) [IsProbabilityMeasure ν] {α : Type} [Countable α] (g : X → α)
    (hg : ∀ a, MeasurableSet {x | g x = a}) (w : α → ℝ≥0∞) (hw : ∀ a, ν {x | g x = a} = w a) :
    StepLaw (streamLaw ν) (stepOf fun s => (g (s 0), shift s)) w := by
  have hset : ∀ (a : α) (B : Set (Nat → X)), {s | ∃ s' ∈ B, stepOf (fun s => (g (s 0), shift s)) s a s'}
      = {s | g (s 0) = a ∧ shift s ∈ B} := by
    intro a B
    ext s
    simp only [stepOf, Set.mem_ofPred_eq, Prod.mk.injEq]
    constructor
    · rintro ⟨s', h, h1, rfl⟩
      exact ⟨h1, h⟩
    · rintro ⟨h1, h2⟩
      exact ⟨_, h2, h1, rfl⟩
  have hshift : Measurable (shift (X := X)) := by
    rw [measurable_pi_iff]
    exact fun k => measurable_pi_apply (k + 1)
  have hmeas : ∀ (a : α) (B : Set (Nat → X)), MeasurableSet B → MeasurableSet {s : Nat → X | g (s 0) = a ∧ shift s ∈ B} :=
    fun a B hB => by
      have h1 : MeasurableSet {s : Nat → X | g (s 0) = a} := (measurable_pi_apply (X := fun _ : Nat => X) 0) (hg a)
      have h2 : MeasurableSet {s : Nat → X | shift s ∈ B} := hshift hB
      exact h1.inter h2
  refine ⟨?_, ?_, ?_⟩
  · intro s a s' b s'' h1 h2
    simp only [stepOf] at h1 h2
    rw [h1] at h2
    simpa using h2
  · intro a B hB
    rw [hset]
    exact hmeas a B hB
  · intro a B hB
    rw [hset]
    have hpre : consS ⁻¹' {s : Nat → X | g (s 0) = a ∧ shift s ∈ B} = {x | g x = a} ×ˢ B := by
      ext ⟨x, s⟩
      simp only [mem_preimage, Set.mem_ofPred_eq, mem_prod]
      rfl
    calc streamLaw ν {s | g (s 0) = a ∧ shift s ∈ B}
        = (ν.prod (streamLaw ν)).map consS {s | g (s 0) = a ∧ shift s ∈ B} := by rw [streamLaw_cons]
      _ = w a * streamLaw ν B := by
        rw [Measure.map_apply measurable_consS (hmeas a B hB), hpre, Measure.prod_prod, hw]

/-- A uniform and a standard normal number. -/
noncomputable def pairNu : Measure (ℝ × ℝ) := unif.prod (gaussianReal 0 1)

instance : IsProbabilityMeasure pairNu := by unfold pairNu; infer_instance

/-- The generator: coins compare a uniform number with `p`; uniform integers round a multiple of one down; normal numbers
scale a standard normal one. -/
noncomputable def streamRng : Rng ℝ (Nat → ℝ × ℝ) where
  coin p s := (decide (Int.fract (s 0).1 < p), shift s)
  normal m v s := (⌊m + Real.sqrt v * (s 0).2⌋, shift s)
  unif m s := (⌊Int.fract (s 0).1 * (m + 1)⌋₊, shift s)
  coin_zero s := by
    simp only [decide_eq_false_iff_not, not_lt]
    exact Int.fract_nonneg _
  coin_one s := by
    simp only [decide_eq_true_eq]
    exact Int.fract_lt_one _
  unif_le m s := by
    have h1 := Int.fract_nonneg (s 0).1
    have h2 := Int.fract_lt_one (s 0).1
    have h3 : ⌊Int.fract (s 0).1 * (m + 1)⌋₊ < m + 1 := by
      rw [Nat.floor_lt (by positivity)]
      push_cast
      nlinarith [(by positivity : (0 : ℝ) < m + 1)]
    simp only
    omega

theorem unif_apply {A : Set ℝ} (hA : MeasurableSet A) {a b : ℝ} (h : A ∩ Ico 0 1 = Ico a b) :
    unif A = ENNReal.ofReal (b - a) := by
  unfold unif
  rw [Measure.restrict_apply hA, h, Real.volume_Ico]

theorem pairNu_fst {A : Set ℝ} : pairNu {x | x.1 ∈ A} = unif A := by
  have : {x : ℝ × ℝ | x.1 ∈ A} = A ×ˢ univ := by ext x; simp
  rw [this, pairNu, Measure.prod_prod, measure_univ, mul_one]

theorem pairNu_snd {A : Set ℝ} : pairNu {x | x.2 ∈ A} = gaussianReal 0 1 A := by
  have : {x : ℝ × ℝ | x.2 ∈ A} = univ ×ˢ A := by ext x; simp
  rw [this, pairNu, Measure.prod_prod, measure_univ, one_mul]

theorem fract_eq {x : ℝ} (h : x ∈ Ico (0 : ℝ) 1) : Int.fract x = x := Int.fract_eq_self.2 ⟨h.1, h.2⟩

/-- **C70**: generators with these distributions exist. -/
theorem streamRng_source : RandomSource (streamLaw pairNu) streamRng floorNormal := by
  refine ⟨?_, ?_, ?_⟩
  · intro p h0 h1
    have hm : Measurable fun y : ℝ => Int.fract y := measurable_fract
    have m1 : MeasurableSet {y : ℝ | Int.fract y < p} := hm measurableSet_Iio
    have m2 : MeasurableSet {y : ℝ | p ≤ Int.fract y} := hm measurableSet_Ici
    refine (head_step pairNu (fun x : ℝ × ℝ => decide (Int.fract x.1 < p)) ?_ (coinLaw p) ?_)
    · intro a
      cases a
      · simp only [decide_eq_false_iff_not, not_lt]
        exact measurable_fst m2
      · simp only [decide_eq_true_eq]
        exact measurable_fst m1
    · intro a
      cases a
      · simp only [decide_eq_false_iff_not, not_lt]
        rw [coinLaw_false h0 h1]
        exact pairNu_fst.trans (unif_apply (A := {y : ℝ | p ≤ Int.fract y}) m2 (by
          ext x
          simp only [mem_inter_iff, Set.mem_ofPred_eq, mem_Ico]
          constructor
          · rintro ⟨h, hx⟩
            rw [fract_eq hx] at h
            exact ⟨h, hx.2⟩
          · rintro ⟨h, hx⟩
            have hx' : x ∈ Ico (0 : ℝ) 1 := ⟨by linarith, hx⟩
            rw [fract_eq hx']
            exact ⟨h, hx'⟩))
      · simp only [decide_eq_true_eq]
        rw [coinLaw_true h0 h1]
        have := unif_apply (A := {y : ℝ | Int.fract y < p}) (a := 0) (b := p) m1 (by
          ext x
          simp only [mem_inter_iff, Set.mem_ofPred_eq, mem_Ico]
          constructor
          · rintro ⟨h, hx⟩
            rw [fract_eq hx] at h
            exact ⟨hx.1, h⟩
          · rintro ⟨h, hx⟩
            have hx' : x ∈ Ico (0 : ℝ) 1 := ⟨h, by linarith⟩
            rw [fract_eq hx']
            exact ⟨hx, hx'⟩)
        rw [sub_zero] at this
        exact pairNu_fst.trans this
  · intro m v
    have hf : Measurable fun y : ℝ => m + Real.sqrt v * y := by fun_prop
    have hm : ∀ r : Int, MeasurableSet {y : ℝ | ⌊m + Real.sqrt v * y⌋ = r} :=
      fun r => (Int.measurable_floor.comp hf) (measurableSet_singleton r)
    refine (head_step pairNu (fun x : ℝ × ℝ => ⌊m + Real.sqrt v * x.2⌋) (fun r => measurable_snd (hm r)) (floorNormal m v) ?_)
    intro r
    rw [floorNormal_apply]
    refine (pairNu_snd (A := {y : ℝ | ⌊m + Real.sqrt v * y⌋ = r})).trans ?_
    have hg : gaussianReal m v.toNNReal = (gaussianReal 0 1).map fun y => m + Real.sqrt v * y := by
      have e : (fun y : ℝ => m + Real.sqrt v * y) = (fun y => m + y) ∘ fun y => Real.sqrt v * y := rfl
      rw [e, ← Measure.map_map (by fun_prop) (by fun_prop), gaussianReal_map_const_mul, gaussianReal_map_const_add]
      congr 1
      · ring
      · ext
        simp only [Real.coe_toNNReal', NNReal.coe_mk, mul_one]
        rcases le_total 0 v with h | h
        · rw [max_eq_left h, Real.sq_sqrt h]
        · rw [max_eq_right h, Real.sqrt_eq_zero_of_nonpos h]
          norm_num
    have hr : MeasurableSet {x : ℝ | ⌊x⌋ = r} := Int.measurable_floor (measurableSet_singleton r)
    rw [hg, Measure.map_apply hf hr]
    rfl
  · intro m
    have hf : Measurable fun y : ℝ => Int.fract y * (m + 1) := measurable_fract.mul_const _
    have hm : ∀ a : Nat, MeasurableSet {y : ℝ | ⌊Int.fract y * (m + 1)⌋₊ = a} :=
      fun a => (Nat.measurable_floor.comp hf) (measurableSet_singleton a)
    refine (head_step pairNu (fun x : ℝ × ℝ => ⌊Int.fract x.1 * (m + 1)⌋₊) (fun a => measurable_fst (hm a)) (rangeLaw m) ?_)
    intro a
    refine (pairNu_fst (A := {y : ℝ | ⌊Int.fract y * (m + 1)⌋₊ = a})).trans ?_
    have hpos : (0 : ℝ) < m + 1 := by positivity
    rw [rangeLaw_apply]
    by_cases ha : a < m + 1
    · rw [if_pos ha]
      have ha' : (a : ℝ) + 1 ≤ m + 1 := by exact_mod_cast ha
      rw [unif_apply (hm a) (a := a / (m + 1)) (b := (a + 1) / (m + 1))]
      · rw [← sub_div, add_sub_cancel_left, one_div, ENNReal.ofReal_inv_of_pos hpos]
        congr 1
        rw [← Nat.cast_succ, ENNReal.ofReal_natCast]
      · ext x
        simp only [mem_inter_iff, Set.mem_ofPred_eq]
        constructor
        · rintro ⟨h, hx⟩
          rw [fract_eq hx, Nat.floor_eq_iff (mul_nonneg hx.1 hpos.le)] at h
          exact ⟨by rw [div_le_iff₀ hpos]; exact h.1, by rw [lt_div_iff₀ hpos]; exact h.2⟩
        · rintro ⟨h1, h2⟩
          rw [div_le_iff₀ hpos] at h1
          rw [lt_div_iff₀ hpos] at h2
          have hx : x ∈ Ico (0 : ℝ) 1 := by
            constructor
            · by_contra hneg
              push Not at hneg
              nlinarith [(by positivity : (0 : ℝ) ≤ a)]
            · by_contra hge
              push Not at hge
              nlinarith
          refine ⟨?_, hx⟩
          rw [fract_eq hx, Nat.floor_eq_iff (mul_nonneg hx.1 hpos.le)]
          exact ⟨h1, h2⟩
    · rw [if_neg ha]
      have : {y : ℝ | ⌊Int.fract y * (m + 1)⌋₊ = a} = ∅ := by
        ext y
        simp only [Set.mem_ofPred_eq, mem_empty_iff_false, iff_false]
        intro h
        have h1 := Int.fract_nonneg y
        have h2 := Int.fract_lt_one y
        have h3 : ⌊Int.fract y * (m + 1)⌋₊ < m + 1 := by
          rw [Nat.floor_lt (by positivity)]
          push_cast
          nlinarith
        omega
      rw [this, measure_empty]

end Source

/-- **C70** (concrete): two clusters of 100 and 200 vertices. -/
theorem C70_example_args : SbmArgs [100, 200] (⟨2, 2, fun _ _ => 1 / 4⟩ : DenseMat ℝ) := by
  refine ⟨by simp, rfl, rfl, fun _ _ _ _ => by norm_num⟩

/-- **C70** (concrete): with the generator above, `general_sbm` on two clusters of 100 and 200 vertices returns with
probability one in approximate mode, and the edge between the vertices 0 and 100 has expected weight between 0.246 and
0.254. -/
theorem C70_example {X : (Nat → ℝ × ℝ) → ℝ≥0∞}
    (hX : IsWeight streamRng [100, 200] ⟨2, 2, fun _ _ => 1 / 4⟩ false 0 100 X) :
    streamLaw pairNu {s | ∀ fuel, generalSbm streamRng fuel [100, 200] ⟨2, 2, fun _ _ => 1 / 4⟩ false s = none} = 0 ∧
    ∃ w : ℝ, ∫⁻ s, X s ∂(streamLaw pairNu) = ENNReal.ofReal w ∧ |w - 1 / 4| ≤ 1 / 250 := by
  refine ⟨C70_terminates streamRng_source false C70_example_args, ?_⟩
  have hbt : Between [100, 200] 0 1 0 100 := by
    refine ⟨by omega, .inl ⟨⟨by simp, by simp, by simp⟩, ⟨by simp, by simp, by simp⟩⟩⟩
  obtain ⟨w, h1, h2⟩ := C70_expected_weight_near streamRng_source C70_example_args hbt (by omega) (by simp)
    (by norm_num) (M := 20000) (T := 20000) (by simp [codeMaxEdges]) (by simp [truePairs]) (by norm_num) hX
  refine ⟨w, h1, ?_⟩
  norm_num at h2 ⊢
  have : Real.sqrt 3750 ≤ 62 := by
    rw [Real.sqrt_le_left (by norm_num)]
    norm_num
  linarith

end Stag
