import Verif.RandomDraws
import Mathlib.MeasureTheory.Integral.Lebesgue.Countable
import Mathlib.MeasureTheory.Measure.MeasureSpace

/-!
# Programs that draw random numbers, and the law of their results

A program is a relation between the state of the random generator before, the result and the state after.
-/

namespace Stag

open MeasureTheory Set
open scoped ENNReal

variable {Ω α β γ : Type} [MeasurableSpace Ω]

/-- Run from a random state of the generator, the program returns `a` with probability `w a`, and leaves behind a state
which is as random as the first one and independent of the result. -/
structure StepLaw (μ : Measure Ω) (F : Ω → α → Ω → Prop) (w : α → ℝ≥0∞) : Prop where
  functional : ∀ s a s' b s'', F s a s' → F s b s'' → a = b ∧ s' = s''
  meas : ∀ a B, MeasurableSet B → MeasurableSet {s | ∃ s' ∈ B, F s a s'}
  law : ∀ a B, MeasurableSet B → μ {s | ∃ s' ∈ B, F s a s'} = w a * μ B

/-- A function of the state as a program. -/
def stepOf (f : Ω → α × Ω) : Ω → α → Ω → Prop := fun s a s' => f s = (a, s')

/-- A program given with a bound on the rounds of its loops: the results for some bound. -/
def runOf (f : Nat → Ω → Option (α × Ω)) : Ω → α → Ω → Prop := fun s a s' => ∃ k, f k s = some (a, s')

namespace StepLaw

variable {μ : Measure Ω}

theorem congr {F G : Ω → α → Ω → Prop} {w v : α → ℝ≥0∞} (h : StepLaw μ F w) (hF : ∀ s a s', G s a s' ↔ F s a s')
    (hw : ∀ a, v a = w a) : StepLaw μ G v := by
  have e : G = F := by
    funext s a s'
    exact propext (hF s a s')
  rw [e, show v = w from funext hw]
  exact h

theorem pure (a₀ : α) : StepLaw μ (fun s a s' => a = a₀ ∧ s' = s) (PMF.pure a₀) := by
  refine ⟨?_, ?_, ?_⟩
  · rintro s a s' b s'' ⟨rfl, rfl⟩ ⟨rfl, rfl⟩
    exact ⟨rfl, rfl⟩
  · intro a B hB
    by_cases h : a = a₀
    · simpa [h] using hB
    · simp [h]
  · intro a B hB
    by_cases h : a = a₀
    · simp [h]
    · simp [h, PMF.pure_apply]

omit [MeasurableSpace Ω] in
theorem bind_set (F : Ω → α → Ω → Prop) (H : α → Ω → β → Ω → Prop) (b : β) (B : Set Ω) :
    {s | ∃ s'' ∈ B, ∃ a s', F s a s' ∧ H a s' b s''}
      = ⋃ a, {s | ∃ s' ∈ {s' | ∃ s'' ∈ B, H a s' b s''}, F s a s'} := by
  ext s
  simp only [Set.mem_ofPred_eq, mem_iUnion]
  constructor
  · rintro ⟨s'', h1, a, s', h2, h3⟩
    exact ⟨a, s', ⟨s'', h1, h3⟩, h2⟩
  · rintro ⟨a, s', ⟨s'', h1, h3⟩, h2⟩
    exact ⟨s'', h1, a, s', h2, h3⟩

/-- One program after another. -/
theorem bind [Countable α] {F : Ω → α → Ω → Prop} {w : α → ℝ≥0∞} {H : α → Ω → β → Ω → Prop} {v : α → β → ℝ≥0∞}
    (hF : StepLaw μ F w) (hH : ∀ a, StepLaw μ (H a) (v a)) :
    StepLaw μ (fun s b s'' => ∃ a s', F s a s' ∧ H a s' b s'') (fun b => ∑' a, w a * v a b) := by
  refine ⟨?_, ?_, ?_⟩
  · rintro s b s'' b' t'' ⟨a, s', h1, h2⟩ ⟨a', t', h3, h4⟩
    obtain ⟨rfl, rfl⟩ := hF.functional _ _ _ _ _ h1 h3
    exact (hH a).functional _ _ _ _ _ h2 h4
  · intro b B hB
    rw [bind_set]
    exact MeasurableSet.iUnion fun a => hF.meas a _ ((hH a).meas b B hB)
  · intro b B hB
    rw [bind_set, measure_iUnion]
    · rw [← ENNReal.tsum_mul_right]
      apply tsum_congr
      intro a
      rw [hF.law a _ ((hH a).meas b B hB), (hH a).law b B hB, mul_assoc]
    · intro a a' haa
      rw [Function.onFun, Set.disjoint_left]
      rintro s ⟨s', -, h1⟩ ⟨t', -, h2⟩
      exact haa (hF.functional _ _ _ _ _ h1 h2).1
    · intro a
      exact hF.meas a _ ((hH a).meas b B hB)

/-- The same with `PMF`s. -/
theorem bindP [Countable α] {F : Ω → α → Ω → Prop} {p : PMF α} {H : α → Ω → β → Ω → Prop} {q : α → PMF β}
    (hF : StepLaw μ F p) (hH : ∀ a, StepLaw μ (H a) (q a)) :
    StepLaw μ (fun s b s'' => ∃ a s', F s a s' ∧ H a s' b s'') (p.bind q) :=
  (hF.bind hH).congr (fun _ _ _ => Iff.rfl) fun b => PMF.bind_apply p q b

/-- Limits of loops. -/
theorem lim {F : Nat → Ω → α → Ω → Prop} {w : Nat → α → ℝ≥0∞} (h : ∀ k, StepLaw μ (F k) (w k))
    (hm : ∀ k s a s', F k s a s' → F (k + 1) s a s') :
    StepLaw μ (fun s a s' => ∃ k, F k s a s') (fun a => ⨆ k, w k a) := by
  have hm' : ∀ k l, k ≤ l → ∀ s a s', F k s a s' → F l s a s' := by
    intro k l hkl
    induction hkl with
    | refl => exact fun s a s' h => h
    | step _ ih => exact fun s a s' h => hm _ _ _ _ (ih s a s' h)
  have hset : ∀ (a : α) (B : Set Ω), {s | ∃ s' ∈ B, ∃ k, F k s a s'} = ⋃ k, {s | ∃ s' ∈ B, F k s a s'} := by
    intro a B
    ext s
    simp only [Set.mem_ofPred_eq, mem_iUnion]
    constructor
    · rintro ⟨s', h1, k, h2⟩
      exact ⟨k, s', h1, h2⟩
    · rintro ⟨k, s', h1, h2⟩
      exact ⟨s', h1, k, h2⟩
  refine ⟨?_, ?_, ?_⟩
  · rintro s a s' b s'' ⟨k, h1⟩ ⟨l, h2⟩
    exact (h (max k l)).functional _ _ _ _ _ (hm' _ _ (le_max_left _ _) _ _ _ h1) (hm' _ _ (le_max_right _ _) _ _ _ h2)
  · intro a B hB
    rw [hset]
    exact MeasurableSet.iUnion fun k => (h k).meas a B hB
  · intro a B hB
    rw [hset, Monotone.measure_iUnion, ENNReal.iSup_mul]
    · congr 1
      funext k
      exact (h k).law a B hB
    · intro k l hkl s hs
      obtain ⟨s', h1, h2⟩ := hs
      exact ⟨s', h1, hm' k l hkl _ _ _ h2⟩

/-- The probability of a result. -/
theorem prob [IsProbabilityMeasure μ] {F : Ω → α → Ω → Prop} {w : α → ℝ≥0∞} (h : StepLaw μ F w) (a : α) :
    μ {s | ∃ s', F s a s'} = w a := by
  have := h.law a univ MeasurableSet.univ
  simpa using this

theorem measSet {F : Ω → α → Ω → Prop} {w : α → ℝ≥0∞} (h : StepLaw μ F w) (a : α) :
    MeasurableSet {s | ∃ s', F s a s'} := by
  simpa using h.meas a univ MeasurableSet.univ

/-- If the probabilities of the results add up to one, the program returns with probability one. -/
theorem returns [IsProbabilityMeasure μ] [Countable α] {F : Ω → α → Ω → Prop} {p : PMF α} (h : StepLaw μ F p) :
    μ {s | ¬ ∃ a s', F s a s'} = 0 := by
  have e : {s | ∃ a s', F s a s'} = ⋃ a, {s | ∃ s', F s a s'} := by
    ext s; simp
  have hm : MeasurableSet {s | ∃ a s', F s a s'} := by
    rw [e]
    exact MeasurableSet.iUnion fun a => h.measSet a
  have h1 : μ {s | ∃ a s', F s a s'} = 1 := by
    rw [e, measure_iUnion _ (fun a => h.measSet a)]
    · simp only [h.prob]
      exact p.tsum_coe
    · intro a a' haa
      rw [Function.onFun, Set.disjoint_left]
      rintro s ⟨s', h1⟩ ⟨t', h2⟩
      exact haa (h.functional _ _ _ _ _ h1 h2).1
  exact (prob_compl_eq_zero_iff hm).2 h1

/-- Expected values. -/
theorem expect [IsProbabilityMeasure μ] [Countable α] {F : Ω → α → Ω → Prop} {p : PMF α} (h : StepLaw μ F p)
    (φ : α → ℝ≥0∞) (X : Ω → ℝ≥0∞) (hX : ∀ s a s', F s a s' → X s = φ a) :
    ∫⁻ s, X s ∂μ = PMF.expect p φ := by
  have hae : X =ᵐ[μ] fun s => ∑' a, {s | ∃ s', F s a s'}.indicator (fun _ => φ a) s := by
    have hr := h.returns
    have hr' : ∀ᵐ s ∂μ, ∃ a s', F s a s' := hr
    filter_upwards [hr'] with s hs
    obtain ⟨a, s', hF⟩ := hs
    rw [hX s a s' hF, tsum_eq_single a]
    · rw [Set.indicator_of_mem]
      exact ⟨s', hF⟩
    · intro b hb
      rw [Set.indicator_of_notMem]
      rintro ⟨s'', hF'⟩
      exact hb (h.functional _ _ _ _ _ hF hF').1.symm
  rw [lintegral_congr_ae hae, lintegral_tsum]
  · unfold PMF.expect
    apply tsum_congr
    intro a
    rw [lintegral_indicator_const (h.measSet a), h.prob a, mul_comm]
  · intro a
    exact (measurable_const.indicator (h.measSet a)).aemeasurable

end StepLaw

end Stag
