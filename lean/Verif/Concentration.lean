import Mathlib.Probability.Moments.SubGaussian
import Mathlib.Probability.Independence.InfinitePi
import Mathlib.Probability.Independence.Integration

/-!
# Concentration of sums of independent random variables
-/

open MeasureTheory ProbabilityTheory Finset

namespace Stag.Concentration

variable {Θ : Type} [MeasurableSpace Θ] {μ : Measure Θ}

/-- Families of independent random variables, grouped, are independent. -/
theorem indep_curry [IsProbabilityMeasure μ] {ι κ : Type} {Y : ι × κ → Θ → ℝ} (hm : ∀ p, Measurable (Y p))
    (h : iIndepFun Y μ) : iIndepFun (fun (i : ι) θ (j : κ) => Y (i, j) θ) μ := by
  have hp : ∀ p, IsProbabilityMeasure (μ.map (Y p)) := fun p => Measure.isProbabilityMeasure_map (hm p).aemeasurable
  have hp2 : ∀ i j, IsProbabilityMeasure (μ.map (Y (i, j))) := fun i j => hp _
  have hrow : ∀ i, iIndepFun (fun j => Y (i, j)) μ := fun i =>
    h.precomp (g := fun j => (i, j)) fun a b hab => (Prod.mk.inj hab).2
  have hmf : ∀ i, Measurable fun θ (j : κ) => Y (i, j) θ := fun i => measurable_pi_lambda _ fun j => hm _
  rw [iIndepFun_iff_map_fun_eq_infinitePi_map hmf]
  have e1 : (fun θ (i : ι) (j : κ) => Y (i, j) θ) = (MeasurableEquiv.curry ι κ ℝ) ∘ fun θ p => Y p θ := by
    ext θ i j
    simp [MeasurableEquiv.curry]
  rw [e1, ← Measure.map_map (by fun_prop) (measurable_pi_lambda _ fun p => hm p),
    (iIndepFun_iff_map_fun_eq_infinitePi_map hm).1 h]
  have := Measure.infinitePi_map_curry (fun i j => μ.map (Y (i, j)))
  refine this.trans ?_
  congr 1
  funext i
  exact ((iIndepFun_iff_map_fun_eq_infinitePi_map fun j => hm _).1 (hrow i)).symm

/-- Products of two independent random variables each, all different, are independent. -/
theorem indep_pairs [IsProbabilityMeasure μ] {ι κ : Type} {W : κ → Θ → ℝ} (hm : ∀ c, Measurable (W c))
    (h : iIndepFun W μ) (e f : ι → κ) (he : Function.Injective e) (hf : Function.Injective f)
    (hef : ∀ i j, e i ≠ f j) (F : ι → ℝ → ℝ → ℝ) (hF : ∀ i, Measurable fun z : ℝ × ℝ => F i z.1 z.2) :
    iIndepFun (fun i θ => F i (W (e i) θ) (W (f i) θ)) μ := by
  have hinj : Function.Injective (fun p : ι × Bool => if p.2 then e p.1 else f p.1) := by
    rintro ⟨i, b⟩ ⟨j, c⟩ hij
    cases b <;> cases c <;> simp only [if_true, if_false, Bool.false_eq_true] at hij
    · rw [hf hij]
    · exact absurd hij.symm (hef _ _)
    · exact absurd hij (hef _ _)
    · rw [he hij]
  have h1 := indep_curry (μ := μ) (Y := fun p : ι × Bool => W (if p.2 then e p.1 else f p.1)) (fun p => hm _)
    (h.precomp hinj)
  have h2 := h1.comp (fun i (z : Bool → ℝ) => F i (z true) (z false)) (fun i => by
    have := (hF i).comp (g := fun z : ℝ × ℝ => F i z.1 z.2) (f := fun z : Bool → ℝ => (z true, z false))
      ((measurable_pi_apply true).prodMk (measurable_pi_apply false))
    exact this)
  exact h2

/-- Hoeffding's inequality, two-sided, with an upper bound on the number of summands. -/
theorem hoeffding [IsProbabilityMeasure μ] {ι : Type} {Y : ι → Θ → ℝ} (hm : ∀ i, Measurable (Y i))
    (h : iIndepFun Y μ) (s : Finset ι) (N : ℝ) (hN : (s.card : ℝ) ≤ N) (lo : ι → ℝ) (w : ℝ) (hw : 0 < w)
    (hb : ∀ i ∈ s, ∀ θ, lo i ≤ Y i θ ∧ Y i θ ≤ lo i + w) (h0 : ∀ i ∈ s, ∫ θ, Y i θ ∂μ = 0) (ε : ℝ) (hε : 0 < ε) :
    μ {θ | ε ≤ |∑ i ∈ s, Y i θ|} ≤ ENNReal.ofReal (2 * Real.exp (-(2 * ε ^ 2 / (N * w ^ 2)))) := by
  by_cases hs : s.card = 0
  · rw [Finset.card_eq_zero.1 hs]
    have : {θ : Θ | ε ≤ |∑ i ∈ (∅ : Finset ι), Y i θ|} = ∅ := by
      ext θ
      simp [hε]
    rw [this, measure_empty]
    exact zero_le
  have hspos : (0 : ℝ) < s.card := by exact_mod_cast Nat.pos_of_ne_zero hs
  have hsub : ∀ i ∈ s, HasSubgaussianMGF (Y i) ((‖lo i + w - lo i‖₊ / 2) ^ 2) μ := fun i hi =>
    hasSubgaussianMGF_of_mem_Icc_of_integral_eq_zero (hm i).aemeasurable (ae_of_all _ fun θ => hb i hi θ) (h0 i hi)
  have hc : ∀ i, (((‖lo i + w - lo i‖₊ / 2) ^ 2 : NNReal) : ℝ) = w ^ 2 / 4 := by
    intro i
    rw [NNReal.coe_pow, NNReal.coe_div, coe_nnnorm, add_sub_cancel_left, Real.norm_eq_abs, abs_of_pos hw]
    norm_num [div_pow]
  have hle : Real.exp (-ε ^ 2 / (2 * ∑ i ∈ s, (((‖lo i + w - lo i‖₊ / 2) ^ 2 : NNReal) : ℝ)))
      ≤ Real.exp (-(2 * ε ^ 2 / (N * w ^ 2))) := by
    rw [Finset.sum_congr rfl fun i _ => hc i, Finset.sum_const, nsmul_eq_mul]
    apply Real.exp_le_exp.2
    rw [neg_div, neg_le_neg_iff]
    have e : ε ^ 2 / (2 * (s.card * (w ^ 2 / 4))) = 2 * ε ^ 2 / (s.card * w ^ 2) := by
      field_simp
      ring
    rw [e]
    gcongr
  have hup := HasSubgaussianMGF.measure_sum_ge_le_of_iIndepFun h hsub hε.le
  have hneg : iIndepFun (fun i θ => - Y i θ) μ := h.comp (fun _ z => -z) fun _ => measurable_neg
  have hsubn : ∀ i ∈ s, HasSubgaussianMGF (fun θ => - Y i θ) ((‖lo i + w - lo i‖₊ / 2) ^ 2) μ :=
    fun i hi => (hsub i hi).neg
  have hdn := HasSubgaussianMGF.measure_sum_ge_le_of_iIndepFun hneg hsubn hε.le
  have hset : {θ | ε ≤ |∑ i ∈ s, Y i θ|} ⊆ {θ | ε ≤ ∑ i ∈ s, Y i θ} ∪ {θ | ε ≤ ∑ i ∈ s, - Y i θ} := by
    intro θ hθ
    rw [Set.mem_ofPred_eq] at hθ
    rcases le_abs.1 hθ with h1 | h1
    · exact Or.inl h1
    · right
      rw [Set.mem_ofPred_eq, Finset.sum_neg_distrib]
      exact h1
  refine le_trans (measure_mono hset) (le_trans (measure_union_le _ _) ?_)
  rw [← ofReal_measureReal, ← ofReal_measureReal, ← ENNReal.ofReal_add measureReal_nonneg measureReal_nonneg]
  apply ENNReal.ofReal_le_ofReal
  push_cast at hup hdn hle
  linarith

/-- The tail of a sum of independent sub-Gaussian random variables, two-sided. -/
theorem subgaussian_tail [IsProbabilityMeasure μ] {ι : Type} {Y : ι → Θ → ℝ} (h : iIndepFun Y μ) (s : Finset ι)
    (c : ι → NNReal) (hsub : ∀ i ∈ s, HasSubgaussianMGF (Y i) (c i) μ) (ε : ℝ) (hε : 0 < ε) :
    μ {θ | ε ≤ |∑ i ∈ s, Y i θ|} ≤ ENNReal.ofReal (2 * Real.exp (-ε ^ 2 / (2 * ∑ i ∈ s, c i))) := by
  have hup := HasSubgaussianMGF.measure_sum_ge_le_of_iIndepFun h hsub hε.le
  have hneg : iIndepFun (fun i θ => - Y i θ) μ := h.comp (fun _ z => -z) fun _ => measurable_neg
  have hsubn : ∀ i ∈ s, HasSubgaussianMGF (fun θ => - Y i θ) (c i) μ := fun i hi => (hsub i hi).neg
  have hdn := HasSubgaussianMGF.measure_sum_ge_le_of_iIndepFun hneg hsubn hε.le
  have hset : {θ | ε ≤ |∑ i ∈ s, Y i θ|} ⊆ {θ | ε ≤ ∑ i ∈ s, Y i θ} ∪ {θ | ε ≤ ∑ i ∈ s, - Y i θ} := by
    intro θ hθ
    rw [Set.mem_ofPred_eq] at hθ
    rcases le_abs.1 hθ with h1 | h1
    · exact Or.inl h1
    · right
      rw [Set.mem_ofPred_eq, Finset.sum_neg_distrib]
      exact h1
  refine le_trans (measure_mono hset) (le_trans (measure_union_le _ _) ?_)
  rw [← ofReal_measureReal, ← ofReal_measureReal, ← ENNReal.ofReal_add measureReal_nonneg measureReal_nonneg]
  apply ENNReal.ofReal_le_ofReal
  linarith

end Stag.Concentration
