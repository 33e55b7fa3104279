import Verif.Props.SbmWords
import Verif.Props.RoundingEquitable

/-!
# C112: the stochastic block model and spectral clustering, as the machine runs them

The random graph is drawn with the 64-bit words of the library's generator, its eigenvectors are stored as
doubles, and k-means draws with 32-bit words and calculates in doubles.  The planted clusters are found all the same.
-/

set_option linter.unusedSectionVars false
set_option exponentiation.threshold 2000

open MeasureTheory ProbabilityTheory

namespace Stag
namespace KMeans

open Graph Finset Recovery

section
variable {Θ : Type} [MeasurableSpace Θ] {μ : Measure Θ} [IsProbabilityMeasure μ] {W : Nat → Θ → Nat}
  (hW : UniformWords μ W) (R : Θ → Rng ℝ Nat)
  (hR : ∀ θ n p, 0 ≤ p → p ≤ 1 → (R θ).coin p n = (decide (canonical (W n θ) < p), n + 1))
include hW hR

/-- **C112** (the stochastic block model).  With independent uniform 64-bit words, `sbm (k m, k, p, q)` in exact mode returns,
except with probability at most `2 k² m exp (-2 a² / m) + 2 (k m)² exp (-t² / (2 k m)) + (k m)² / 2^53`, a graph with the
following property: for every inner solver that is exact for the matrix it is given and that answers, `spectral_cluster` in
`double`s returns labels of which all but `2 e n` are right, except with probability `8 (ln k + 2) D² / c + k n / 2^28` over the
32-bit words of k-means. -/
theorem C112_sbm (fuel : Nat) {k m : Nat} {p q a t : ℝ} (hk : 1 ≤ k) (hk16 : k ≤ 16)
    (hm : 2 ≤ m) (hp : 0 ≤ p ∧ p ≤ 1) (hq : 0 ≤ q ∧ q ≤ 1) (ha : 0 < a) (ht : 0 < t) (hv : Visible k m p q a t)
    (hn : k * m < 2 ^ 20)
    (hz : blockDegree k m p q / 2 ^ 11 ≤
      m * (p - q) * (1 - k * (a + 1) / blockDegree k m p q) - √(k * m * (1 + t)))
    (D : ℝ) (hD : D = √(typicalDefect k m p q a t) + √k * (k * m + 10) / 2 ^ 38) (c : ℝ) (hc : 0 < c)
    (e : ℝ) (he : e = 2 * (D ^ 2 + (c + (c + 1) / 2 ^ 28))) (he2 : e < 1 / 2) :
    μ {θ | ¬ ∃ g ω', sbm (R θ) fuel (k * m : Nat) k p q true 0 = some (.ok g, ω') ∧ g.n = k * m ∧
      ∀ (E : EigenSum (dbl ℝ).fl) (solve : EigenSolver), SolverSpec solve → ∀ junk res,
        computeEigensystemFl (dbl ℝ).fl solve g .normalisedLaplacian k .smallest = .ok res →
        streamLaw word32.toMeasure {y | ¬ ∃ labels, spectralClusterFl E solve g k y junk = .ok labels ∧ labels.length = k * m ∧
          ∃ σ : Equiv.Perm (Fin k),
            (((range (k * m)).filter fun u => ∃ i : Fin k, u / m = i ∧ labels.getD u 0 ≠ σ i).card : ℝ) ≤ 2 * e * (k * m)} ≤
        ENNReal.ofReal (8 * (Real.log k + 2) * D ^ 2 / c + k * (k * m) / 2 ^ 28)} ≤
      ENNReal.ofReal (2 * (k * (k * m)) * Real.exp (-(2 * a ^ 2 / m)) +
        2 * (k * m) ^ 2 * Real.exp (-(t ^ 2 / (2 * (k * m)))) + (k * m : ℝ) ^ 2 / 2 ^ 53) := by
  obtain ⟨ν, X, R', hν, hmX, hind, hunif, hR'⟩ := draws_exist
  have hrec := C107_sbm ν X hmX hind hunif R' hR' fuel hk hk16 hm hp hq ha ht hv hn hz D hD c hc e he he2
  have hkn : k ≤ k * m / 2 := by
    rw [Nat.le_div_iff_mul_le (by norm_num)]
    exact Nat.mul_le_mul_left k hm
  have key := (C110_sbm hW R hR hmX hind hunif R' hR' fuel (n := k * m) hk hkn hp hq
    {s | ¬ ∃ g ω', s = some (.ok g, ω') ∧ g.n = k * m ∧
      ∀ (E : EigenSum (dbl ℝ).fl) (solve : EigenSolver), SolverSpec solve → ∀ junk res,
        computeEigensystemFl (dbl ℝ).fl solve g .normalisedLaplacian k .smallest = .ok res →
        streamLaw word32.toMeasure {y | ¬ ∃ labels, spectralClusterFl E solve g k y junk = .ok labels ∧ labels.length = k * m ∧
          ∃ σ : Equiv.Perm (Fin k),
            (((range (k * m)).filter fun u => ∃ i : Fin k, u / m = i ∧ labels.getD u 0 ≠ σ i).card : ℝ) ≤ 2 * e * (k * m)} ≤
        ENNReal.ofReal (8 * (Real.log k + 2) * D ^ 2 / c + k * (k * m) / 2 ^ 28)}).1
  simp only [Set.mem_ofPred_eq] at key
  refine le_trans key (le_trans (add_le_add_left hrec _) (le_of_eq ?_))
  rw [← ENNReal.ofReal_add (by positivity) (by positivity)]
  push_cast
  rfl

/-- **C112** (a case).  For 500000 + 500000 vertices, `p = 19/20` and `q = 1/20`: with probability at least `0.979` over the
64-bit words the graph has the property that, for every exact inner solver that answers, more than 58% of the vertices have the
label matched with their block, except with probability at most `0.55` over the 32-bit words of k-means. -/
theorem C112_million (fuel : Nat) :
    μ {θ | ¬ ∃ g ω', sbm (R θ) fuel (2 * 500000 : Nat) 2 (19 / 20) (1 / 20) true 0 = some (.ok g, ω') ∧ g.n = 2 * 500000 ∧
      ∀ (E : EigenSum (dbl ℝ).fl) (solve : EigenSolver), SolverSpec solve → ∀ junk res,
        computeEigensystemFl (dbl ℝ).fl solve g .normalisedLaplacian 2 .smallest = .ok res →
        streamLaw word32.toMeasure {y | ¬ ∃ labels, spectralClusterFl E solve g 2 y junk = .ok labels ∧
          labels.length = 2 * 500000 ∧
          ∃ σ : Equiv.Perm (Fin 2), ((range (2 * 500000)).filter fun u =>
            ∃ i : Fin 2, u / 500000 = (i : Nat) ∧ labels.getD u 0 ≠ σ i).card ≤ 420000} ≤ ENNReal.ofReal (55 / 100)} ≤
      ENNReal.ofReal (21 / 1000) := by
  obtain ⟨ν, X, R', hν, hmX, hind, hunif, hR'⟩ := draws_exist
  have hrec := C107_million ν X hmX hind hunif R' hR' fuel
  have key := (C110_sbm hW R hR hmX hind hunif R' hR' fuel (n := 2 * 500000) (k := 2) (p := 19 / 20) (q := 1 / 20)
    (by norm_num) (by norm_num) ⟨by norm_num, by norm_num⟩ ⟨by norm_num, by norm_num⟩
    {s | ¬ ∃ g ω', s = some (.ok g, ω') ∧ g.n = 2 * 500000 ∧
      ∀ (E : EigenSum (dbl ℝ).fl) (solve : EigenSolver), SolverSpec solve → ∀ junk res,
        computeEigensystemFl (dbl ℝ).fl solve g .normalisedLaplacian 2 .smallest = .ok res →
        streamLaw word32.toMeasure {y | ¬ ∃ labels, spectralClusterFl E solve g 2 y junk = .ok labels ∧
          labels.length = 2 * 500000 ∧
          ∃ σ : Equiv.Perm (Fin 2), ((range (2 * 500000)).filter fun u =>
            ∃ i : Fin 2, u / 500000 = (i : Nat) ∧ labels.getD u 0 ≠ σ i).card ≤ 420000} ≤ ENNReal.ofReal (55 / 100)}).1
  simp only [Set.mem_ofPred_eq] at key
  refine le_trans key (le_trans (add_le_add_left hrec _) ?_)
  rw [← ENNReal.ofReal_add (by norm_num) (by positivity)]
  apply ENNReal.ofReal_le_ofReal
  norm_num

end

/-- The hypotheses are met: such words exist, with a generator that uses them. -/
example : ∃ (μ : Measure (Nat → ℝ)) (R : (Nat → ℝ) → Rng ℝ Nat), IsProbabilityMeasure μ ∧ ∀ fuel,
    μ {θ | ¬ ∃ g ω', sbm (R θ) fuel (2 * 500000 : Nat) 2 (19 / 20) (1 / 20) true 0 = some (.ok g, ω') ∧ g.n = 2 * 500000 ∧
      ∀ (E : EigenSum (dbl ℝ).fl) (solve : EigenSolver), SolverSpec solve → ∀ junk res,
        computeEigensystemFl (dbl ℝ).fl solve g .normalisedLaplacian 2 .smallest = .ok res →
        streamLaw word32.toMeasure {y | ¬ ∃ labels, spectralClusterFl E solve g 2 y junk = .ok labels ∧
          labels.length = 2 * 500000 ∧
          ∃ σ : Equiv.Perm (Fin 2), ((range (2 * 500000)).filter fun u =>
            ∃ i : Fin 2, u / 500000 = (i : Nat) ∧ labels.getD u 0 ≠ σ i).card ≤ 420000} ≤ ENNReal.ofReal (55 / 100)} ≤
      ENNReal.ofReal (21 / 1000) := by
  obtain ⟨μ, W, R, hμ, hW, hR⟩ := words_exist
  exact ⟨μ, R, hμ, fun fuel => C112_million hW R hR fuel⟩

end KMeans
end Stag
