import Verif.Props.RoundingSpectral
import Verif.Props.EquitableExamples
import Verif.Props.SbmConsistent

/-!
# C107: nearly equitable clusters and the stochastic block model in doubles
-/

namespace Stag

open Graph Finset Recovery

section
variable {g : Graph ℝ}

theorem ApproxSystem.mono {n k : Nat} {M : Nat → Nat → ℝ} {res : EigenPairs} {l δ ε ε' : ℝ}
    (h : ApproxSystem n M k res l δ ε) (h0 : 0 ≤ ε) (hε : ε ≤ ε') : ApproxSystem n M k res l δ ε' := by
  obtain ⟨h1, w, μ, h2, h3, h4, h5⟩ := h
  exact ⟨h1, w, μ, h2, h3, h4, h5.trans (pow_le_pow_left₀ h0 hε 2)⟩

/-- What an approximate system says about the distances of an orthonormal family. -/
theorem approx_transfer (h : g.Reachable) {k : Nat} {res₀ : EigenPairs}
    (hex : EigenExtreme (· ≤ ·) g.n (matrixOf g.abs .normalisedLaplacian) k res₀) (l : ℝ)
    (hgap : ∀ m v, IsEigen g.n (matrixOf g.abs .normalisedLaplacian) m v → (∃ i < g.n, v i ≠ 0) →
      (∀ p ∈ res₀, dot g.n p.2 v = 0) → l ≤ m)
    {res : EigenPairs} {δ ε : ℝ} (hε : 0 ≤ ε)
    (happ : ApproxSystem g.n (matrixOf g.abs .normalisedLaplacian) k res l δ ε)
    (S : Nat → Nat) (hS : ∀ i < k, ∃ u < g.n, S u = i) (D : ℝ) (hD : 0 ≤ D) (hspan : spanDefect g.n k res₀ S ≤ D ^ 2) :
    ∃ w, ON g.n k w ∧
      ∑ j ∈ range k, ∑ u ∈ range g.n, (embedding (res.map Prod.snd) u j - w j u) ^ 2 ≤ δ ^ 2 ∧
      ∑ i ∈ range k, resid g.n k w (unitOf (KMeans.cluster g.n S i)) ≤ (D + ε) ^ 2 := by
  obtain ⟨hlen, w, μ, hon, hdist, hμ, hresid⟩ := happ
  have hf := embedding_on hex
  refine ⟨w, hon, ?_, ?_⟩
  · refine le_trans (le_of_eq (Finset.sum_congr rfl fun j hj => Finset.sum_congr rfl fun u _ => ?_)) hdist
    have hj := mem_range.1 hj
    unfold embedding
    rw [List.getD_eq_getElem _ _ (by simpa using (show j < res.length by omega)), List.getElem_map,
      List.getD_eq_getElem]
  · refine le_trans (resid_transfer hf hon (unitOf_on S hS)) ?_
    have h1 : Real.sqrt (∑ i ∈ range k, resid g.n k (fun j u => embedding (res₀.map Prod.snd) u j)
        (unitOf (KMeans.cluster g.n S i))) ≤ D := Real.sqrt_le_iff.2 ⟨hD, hspan⟩
    have h2 : Real.sqrt (∑ j ∈ range k, resid g.n k w (fun u => embedding (res₀.map Prod.snd) u j)) ≤ ε := by
      refine Real.sqrt_le_iff.2 ⟨hε, ?_⟩
      rw [resid_swap hf hon]
      refine le_trans (Finset.sum_le_sum fun j hj => ?_) hresid
      refine resid_residual hf (fun i _ j _ => matrixOf_symm h _ i j) (fun j => (res₀.getD j (0, 0)).1)
        (fun j hj => embedding_eigen hex j hj) l ?_ (w j) (μ j) (hμ j (mem_range.1 hj))
      intro m v hv hne ho
      refine hgap m v hv hne fun p hp => ?_
      obtain ⟨j, hj, hpj⟩ := embedding_all hex p hp
      rw [hpj]
      exact ho j hj
    gcongr

/-- **C107** (the small eigenvalues).  If the clusters are told apart with strength `a`, the `k` smallest eigenvalues of the
normalised Laplacian are at most `1 - a + √U`, where `U` is the unevenness. -/
theorem C107_eigenvalues (solve : EigenSolver) (hsolve : SolverSpec solve) (h : g.Reachable)
    (hw : ∀ u v, 0 ≤ g.abs.w u v) (hd : ∀ v, v < g.n → 0 < g.abs.deg v) (k : Nat)
    (res : EigenPairs) (hres : computeEigensystem solve g .normalisedLaplacian k .smallest = .ok res)
    (S : Nat → Nat) (hSk : ∀ u < g.n, S u < k) (hS : ∀ i < k, ∃ u < g.n, S u = i) (b : Nat → Nat → ℝ) (a : ℝ)
    (ha : WGraph.Strength g.n k S b a) : ∀ p ∈ res, p.1 ≤ 1 - a + √(g.abs.unevenness k S b) := by
  have hex := C53_eigensystem solve hsolve h hw _ k .smallest (fun _ => hd) res hres
  rw [Int.toNat_natCast] at hex
  have := upper_value (fun i j => matrixOf_symm h .normalisedLaplacian i j) hex (unitOf_on S hS)
    (clusterMatrix g.n k S b) (1 - a) (strength_form ha)
  rwa [equitable_defect S hSk hS b] at this

end

namespace KMeans
open MeasureTheory
open scoped ENNReal

/-- **C107** (approximate eigenvectors).  Let the clusters `S` be told apart by the numbers `b` with strength `a`, let all
eigenvalues beyond the `k` smallest be at least `l > 1 - a`, and let the vectors returned by `compute_eigenvectors` in
`double`s be an approximate system with errors `δ` and `ε`.  Let `D = √U / (l - (1 - a)) + ε`, `U` being the unevenness.  For
any `c > 0`, except with probability `8 (ln k + 2) (D + δ)² / c + k n / 2^28`, `spectral_cluster` in `double`s returns labels
below `k` that agree with the clusters up to `2 (D² + (√c' + δ)²)`, `c'` being `c` with the rounding errors of `100 k`
iterations of k-means. -/
theorem C107_probability {g : Graph ℝ} (E : EigenSum (dbl ℝ).fl) (solve solve₀ : EigenSolver) (hsolve₀ : SolverSpec solve₀)
    (h : g.Reachable) (hw : ∀ u v, 0 ≤ g.abs.w u v) (hd : ∀ v, v < g.n → 0 < g.abs.deg v)
    (hn : g.n < 2 ^ 20) (k : Nat) (hk : 1 ≤ k ∧ 2 * k ≤ g.n) (junk : Nat → ℝ)
    (res₀ : EigenPairs) (hres₀ : computeEigensystem solve₀ g .normalisedLaplacian k .smallest = .ok res₀) (l : ℝ)
    (hgap : ∀ m v, IsEigen g.n (matrixOf g.abs .normalisedLaplacian) m v → (∃ i < g.n, v i ≠ 0) →
      (∀ p ∈ res₀, dot g.n p.2 v = 0) → l ≤ m)
    (res : EigenPairs) (hres : computeEigensystemFl (dbl ℝ).fl solve g .normalisedLaplacian k .smallest = .ok res)
    (δ ε : ℝ) (hδ : 0 ≤ δ) (hε : 0 ≤ ε)
    (happ : ApproxSystem g.n (matrixOf g.abs .normalisedLaplacian) k res l δ ε)
    (S : Nat → Nat) (hSk : ∀ u < g.n, S u < k) (hS : ∀ i < k, ∃ u < g.n, S u = i) (b : Nat → Nat → ℝ) (a : ℝ)
    (ha : WGraph.Strength g.n k S b a) (hal : 1 - a < l) (D : ℝ)
    (hD : D = √(g.abs.unevenness k S b) / (l - (1 - a)) + ε) (c : ℝ) (hc : 0 < c) :
    streamLaw word32.toMeasure {y | ¬ ∃ labels, spectralClusterFl E solve g k y junk = .ok labels ∧ labels.length = g.n ∧
      (∀ u < g.n, labels.getD u 0 < k) ∧
      (k : ℝ) - 2 * (D ^ 2 + (√(rounded g.n k (k * 100) (1 + δ) c) + δ) ^ 2)
        ≤ agreement g.n k S (fun u => labels.getD u 0)} ≤
    ENNReal.ofReal (8 * (Real.log k + 2) * (D + δ) ^ 2 / c + k * g.n / 2 ^ 28) := by
  have hex := C53_eigensystem solve₀ hsolve₀ h hw _ k .smallest (fun _ => hd) res₀ hres₀
  rw [Int.toNat_natCast] at hex
  have hpos : 0 < l - (1 - a) := by linarith
  have hU0 : 0 ≤ g.abs.unevenness k S b := Finset.sum_nonneg fun _ _ => Finset.sum_nonneg fun _ _ =>
    div_nonneg (sq_nonneg _) (Nat.cast_nonneg _)
  have hq0 : 0 ≤ √(g.abs.unevenness k S b) / (l - (1 - a)) := div_nonneg (Real.sqrt_nonneg _) hpos.le
  have hspan := span_equitable h hex l hgap S hSk hS b a ha hal
  obtain ⟨w, hon, hdist, hsum⟩ := approx_transfer h hex l hgap hε happ S hS _ hq0 (by
    rw [div_pow, Real.sq_sqrt hU0]; exact hspan)
  rw [← hD] at hsum
  exact span_probability_fl E solve hn k hk junk res hres happ.1 δ hδ w hon hdist S hSk hS D
    (by rw [hD]; exact add_nonneg hq0 hε) hsum c hc

theorem equitable_arith (n k l a s γ η m u ε : ℝ) (hn0 : 0 ≤ n) (hn : n ≤ 1048575) (hk : 0 ≤ k)
    (hl : l ≤ 2) (hs : 0 ≤ s) (hγ : γ = l - (1 - a) - s) (hγ1 : 1 / 2 ^ 12 ≤ γ) (hΛ : 0 ≤ 1 - a + s)
    (hu : u = 1 / 2 ^ 53) (hη0 : 0 ≤ η) (hη : η ≤ (n + 10) / 2 ^ 52 * 2) (hm : m = 1 - a + s + 4 * η + u * (2 + 4 * η))
    (hε : ε = √k * η / (l - m / (1 - u))) : 0 ≤ m ∧ m / (1 - u) < l ∧ 0 ≤ ε ∧ ε ≤ √k * (n + 10) / (2 ^ 50 * γ) := by
  have h0 : η ≤ 1 / 2 ^ 30 := by
    refine hη.trans ?_
    linarith
  have hm0 : 0 ≤ m := by rw [hm, hu]; positivity
  have hm2 : m ≤ 3 := by rw [hm, hu]; linarith
  have h1 : m / (1 - u) ≤ 1 - a + s + 1 / 2 ^ 27 := by
    rw [div_le_iff₀ (by rw [hu]; norm_num), hu]
    rw [hu] at hm
    have : 1 - a + s ≤ 2 := by linarith
    linarith
  have h2 : γ / 2 * (1 + 1 / 2 ^ 10) ≤ l - m / (1 - u) := by linarith
  have hγ0 : 0 < γ := lt_of_lt_of_le (by norm_num) hγ1
  have h4 : 0 < l - m / (1 - u) := lt_of_lt_of_le (by positivity) h2
  refine ⟨hm0, by linarith, by rw [hε]; positivity, ?_⟩
  rw [hε, div_le_div_iff₀ h4 (by positivity)]
  have h5 : η * (2 ^ 50 * γ) ≤ (n + 10) * (l - m / (1 - u)) := by
    have h6 : η * (2 ^ 50 * γ) ≤ (n + 10) / 2 ^ 52 * 2 * (2 ^ 50 * γ) := mul_le_mul_of_nonneg_right hη (by positivity)
    have h7 : (n + 10) * (γ / 2) ≤ (n + 10) * (l - m / (1 - u)) := mul_le_mul_of_nonneg_left (by linarith) (by linarith)
    refine h6.trans (le_trans (le_of_eq ?_) h7)
    ring
  have := mul_le_mul_of_nonneg_left h5 (Real.sqrt_nonneg k)
  linarith

/-- **C107** (from start to end).  Let everything be computed in `double`s, the inner solver being exact for the matrix it is
given.  Let the clusters be told apart by the numbers `b` with strength `a` and let the form of the normalised Laplacian be at
least `l ≤ 2` on the vectors orthogonal to some `k` vectors, with `γ = l - (1 - a) - √U ≥ 2^-12`, `U` being the unevenness.  Let
`D = √U / (l - (1 - a)) + √k (n + 10) / (2^50 γ)`.  For any `c > 0`, except with probability
`8 (ln k + 2) D² / c + k n / 2^28`, `spectral_cluster` returns labels below `k` that agree with the clusters up to
`2 (D² + c')`. -/
theorem C107_end_to_end {g : Graph ℝ} (E : EigenSum (dbl ℝ).fl) (solve : EigenSolver) (hsolve : SolverSpec solve)
    (h : g.Reachable) (hw : ∀ u v, 0 ≤ g.abs.w u v) (hd : ∀ v, v < g.n → 0 < g.abs.deg v)
    (hf : g.FloatWeights (dbl ℝ).fl) (hn : g.n < 2 ^ 20) (k : Nat) (hk : 1 ≤ k ∧ 2 * k ≤ g.n) (junk : Nat → ℝ)
    (res : EigenPairs) (hres : computeEigensystemFl (dbl ℝ).fl solve g .normalisedLaplacian k .smallest = .ok res)
    (l : ℝ) (hl : l ≤ 2) (f : Nat → Nat → ℝ)
    (htest : ∀ x, (∀ i < k, dot g.n (f i) x = 0) →
      l * dot g.n x x ≤ quadForm g.n (matrixOf g.abs .normalisedLaplacian) x)
    (S : Nat → Nat) (hSk : ∀ u < g.n, S u < k) (hS : ∀ i < k, ∃ u < g.n, S u = i) (b : Nat → Nat → ℝ) (a : ℝ)
    (ha : WGraph.Strength g.n k S b a) (γ : ℝ) (hγ : γ = l - (1 - a) - √(g.abs.unevenness k S b)) (hγ1 : 1 / 2 ^ 12 ≤ γ)
    (D : ℝ) (hD : D = √(g.abs.unevenness k S b) / (l - (1 - a)) + √k * (g.n + 10) / (2 ^ 50 * γ)) (c : ℝ) (hc : 0 < c) :
    streamLaw word32.toMeasure {y | ¬ ∃ labels, spectralClusterFl E solve g k y junk = .ok labels ∧ labels.length = g.n ∧
      (∀ u < g.n, labels.getD u 0 < k) ∧
      (k : ℝ) - 2 * (D ^ 2 + rounded g.n k (k * 100) 1 c) ≤ agreement g.n k S (fun u => labels.getD u 0)} ≤
    ENNReal.ofReal (8 * (Real.log k + 2) * D ^ 2 / c + k * g.n / 2 ^ 28) := by
  obtain ⟨solve₀, hs₀, hall⟩ := C53_always_answers
  obtain ⟨res₀, hres₀⟩ := hall g .normalisedLaplacian k .smallest h (by omega) (by omega) (fun _ => hd)
  have hex := C53_eigensystem solve₀ hs₀ h hw _ k .smallest (fun _ => hd) res₀ hres₀
  rw [Int.toNat_natCast] at hex
  change EigenExtreme (· ≤ ·) g.n (matrixOf g.abs .normalisedLaplacian) k res₀ at hex
  have hlen := hex.count
  have hup := C107_eigenvalues solve₀ hs₀ h hw hd k res₀ hres₀ S hSk hS b a ha
  have hgap := C85_gap solve₀ hs₀ h hw hd k res₀ hres₀ l f htest
  have hbd : ∀ p ∈ res₀, 0 ≤ p.1 ∧ p.1 ≤ 2 := by
    intro p hp
    have he := hex.eigen p hp
    have hu := hex.unit p hp
    have h3 := C09_spectrum_bounds h hw hd p.2
    have hne : normEntry g.abs = matrixOf g.abs .normalisedLaplacian := rfl
    rw [hne] at h3
    have hq := quadForm_eigen he
    rw [hu, mul_one] at hq
    have h4 := h3.2.1
    have h5 := h3.2.2
    have h6 : ∑ i ∈ range g.n, p.2 i * p.2 i = 1 := hu
    rw [hq] at h4 h5
    refine ⟨h4, ?_⟩
    nlinarith
  obtain ⟨s, hs⟩ : ∃ s, s = √(g.abs.unevenness k S b) := ⟨_, rfl⟩
  have hs0 : 0 ≤ s := by rw [hs]; exact Real.sqrt_nonneg _
  rw [← hs] at hup hγ hD
  have hΛ : 0 ≤ 1 - a + s := by
    obtain ⟨p, hp⟩ := List.exists_mem_of_length_pos (l := res₀) (by omega)
    exact (hbd p hp).1.trans (hup p hp)
  -- the size of the errors
  obtain ⟨Dg, -, -, hDg, -⟩ := maxDegree_spec h
  have hD0 : 0 ≤ Dg := (WGraph.degree_nonneg hw 0).trans (hDg 0 (by omega))
  obtain ⟨η, hη⟩ : ∃ η, η = ((1 / (1 - (dbl ℝ).u)) ^ (g.n + 10) - 1) * (2 : ℝ) := ⟨_, rfl⟩
  have hη0 : 0 ≤ η := by
    rw [hη]
    exact mul_nonneg (sub_nonneg.2 (Rounding.g_pow_one_le (R := dbl ℝ) _)) (by norm_num)
  have hη1 : η ≤ (g.n + 10) / 2 ^ 52 * 2 := by
    have := C102_double g.n (by omega) .normalisedLaplacian Dg hD0
    rw [if_pos rfl, ← hη] at this
    exact this
  obtain ⟨h1, h2, -⟩ := C102_eigenvalues (R := dbl ℝ) (fun x => flBin_neg 53 x) h hw hf .normalisedLaplacian k .smallest
    (by omega) (fun _ => hd) Dg hDg solve hsolve res hres res₀ (by rw [Int.toNat_natCast]; exact hex) η
    (by rw [if_pos rfl]; exact hη)
  rw [Int.toNat_natCast] at h1 h2
  obtain ⟨m, hm⟩ : ∃ m, m = 1 - a + s + 4 * η + (dbl ℝ).u * (2 + 4 * η) := ⟨_, rfl⟩
  obtain ⟨ε, hε⟩ : ∃ ε, ε = √(k : ℝ) * η / (l - m / (1 - (dbl ℝ).u)) := ⟨_, rfl⟩
  obtain ⟨a0, a1, a2, a3⟩ := equitable_arith g.n k l a s γ η m (dbl ℝ).u ε (Nat.cast_nonneg _)
    (by exact_mod_cast (show g.n ≤ 1048575 by omega)) (Nat.cast_nonneg _) hl hs0 hγ hγ1 hΛ dbl_u hη0 hη1 hm hε
  have hu0 : 0 ≤ (dbl ℝ).u := by rw [dbl_u]; norm_num
  have hval : ∀ p ∈ res, p.1 ≤ m := by
    intro p hp
    obtain ⟨j, hj, rfl⟩ := List.getElem_of_mem hp
    have h3 := h2 j (by omega)
    rw [List.getD_eq_getElem _ _ hj, List.getD_eq_getElem _ _ (by omega)] at h3
    have hmem := List.getElem_mem (l := res₀) (n := j) (by omega)
    have h4 := hup _ hmem
    have h5 := hbd _ hmem
    rw [abs_of_nonneg h5.1] at h3
    have h6 := (abs_le.1 h3).2
    have h7 : (dbl ℝ).u * ((res₀[j]'(by omega)).1 + 4 * η) ≤ (dbl ℝ).u * (2 + 4 * η) :=
      mul_le_mul_of_nonneg_left (by linarith [h5.2]) hu0
    rw [hm]
    linarith
  have happ := C102_exact_solver (R := dbl ℝ) (fun x => flBin_neg 53 x) h hw hf hd k (by omega) solve hsolve res hres m l
    a0 hval a1
  rw [← hη, ← hε] at happ
  have happ' := happ.mono a2 a3
  have hγ0 : 0 < γ := lt_of_lt_of_le (by norm_num) hγ1
  have hfin := C107_probability E solve solve₀ hs₀ h hw hd hn k hk junk res₀ hres₀ l hgap res hres 0 _ le_rfl (a2.trans a3) happ'
    S hSk hS b a ha (by linarith) D (by rw [← hs]; exact hD) c hc
  have hr0 : 0 ≤ rounded g.n k (k * 100) 1 c := by unfold rounded; split_ifs <;> positivity
  simp only [add_zero, Real.sq_sqrt hr0] at hfin
  exact hfin

/-- **C107** (the labels).  Let `e` be that bound of the disagreement.  If `e < 1/2`, then, except with the same probability, all
but `2 e n` vertices have the label matched with their cluster, and if `2 e n < 1`, two vertices have the same label exactly when
they are in the same cluster. -/
theorem C107_matching {g : Graph ℝ} (E : EigenSum (dbl ℝ).fl) (solve : EigenSolver) (hsolve : SolverSpec solve)
    (h : g.Reachable) (hw : ∀ u v, 0 ≤ g.abs.w u v) (hd : ∀ v, v < g.n → 0 < g.abs.deg v)
    (hf : g.FloatWeights (dbl ℝ).fl) (hn : g.n < 2 ^ 20) (k : Nat) (hk : 1 ≤ k ∧ 2 * k ≤ g.n) (junk : Nat → ℝ)
    (res : EigenPairs) (hres : computeEigensystemFl (dbl ℝ).fl solve g .normalisedLaplacian k .smallest = .ok res)
    (l : ℝ) (hl : l ≤ 2) (f : Nat → Nat → ℝ)
    (htest : ∀ x, (∀ i < k, dot g.n (f i) x = 0) →
      l * dot g.n x x ≤ quadForm g.n (matrixOf g.abs .normalisedLaplacian) x)
    (S : Nat → Nat) (hSk : ∀ u < g.n, S u < k) (hS : ∀ i < k, ∃ u < g.n, S u = i) (b : Nat → Nat → ℝ) (a : ℝ)
    (ha : WGraph.Strength g.n k S b a) (γ : ℝ) (hγ : γ = l - (1 - a) - √(g.abs.unevenness k S b)) (hγ1 : 1 / 2 ^ 12 ≤ γ)
    (D : ℝ) (hD : D = √(g.abs.unevenness k S b) / (l - (1 - a)) + √k * (g.n + 10) / (2 ^ 50 * γ)) (c : ℝ) (hc : 0 < c)
    (e : ℝ) (he : 2 * (D ^ 2 + rounded g.n k (k * 100) 1 c) ≤ e) (he2 : e < 1 / 2) :
    streamLaw word32.toMeasure {y | ¬ ∃ labels, spectralClusterFl E solve g k y junk = .ok labels ∧ labels.length = g.n ∧
      (∃ σ : Equiv.Perm (Fin k),
        (((range g.n).filter fun u => ∃ i : Fin k, S u = i ∧ labels.getD u 0 ≠ σ i).card : ℝ) ≤ 2 * e * g.n) ∧
      (2 * e * g.n < 1 → ∀ u < g.n, ∀ v < g.n, labels.getD u 0 = labels.getD v 0 ↔ S u = S v)} ≤
    ENNReal.ofReal (8 * (Real.log k + 2) * D ^ 2 / c + k * g.n / 2 ^ 28) := by
  refine le_trans (measure_mono ?_) (C107_end_to_end E solve hsolve h hw hd hf hn k hk junk res hres l hl f htest S hSk hS b a ha γ
    hγ hγ1 D hD c hc)
  intro y hy
  rw [Set.mem_ofPred_eq] at hy ⊢
  rintro ⟨labels, h1, h2, h3, h4⟩
  have hag : (k : ℝ) - e ≤ agreement g.n k S (fun u => labels.getD u 0) := by linarith
  obtain ⟨σ, hσ⟩ := agreement_matching S (fun u => labels.getD u 0) hSk h3 hS e he2 hag
  exact hy ⟨labels, h1, h2, ⟨σ, mislabelled_le S (fun u => labels.getD u 0) hSk σ e fun i => (hσ i).2⟩,
    fun hn2 => agreement_exact S (fun u => labels.getD u 0) hSk h3 hS e hn2 he2 hag⟩

/-- **C107** (equitable clusters are found).  Let the graph have less than `2^16` vertices and `k ≤ 16` equitable clusters (the
unevenness is zero), with a distance of at least `2^-12` between `l` and `1 - a`.  Then, except with probability
`k n / 2^28 + 2^-13`, two vertices have the same label exactly when they are in the same cluster. -/
theorem C107_equitable {g : Graph ℝ} (E : EigenSum (dbl ℝ).fl) (solve : EigenSolver) (hsolve : SolverSpec solve)
    (h : g.Reachable) (hw : ∀ u v, 0 ≤ g.abs.w u v) (hd : ∀ v, v < g.n → 0 < g.abs.deg v)
    (hf : g.FloatWeights (dbl ℝ).fl) (hn : g.n < 2 ^ 16) (k : Nat) (hk : 1 ≤ k ∧ 2 * k ≤ g.n) (hk16 : k ≤ 16) (junk : Nat → ℝ)
    (res : EigenPairs) (hres : computeEigensystemFl (dbl ℝ).fl solve g .normalisedLaplacian k .smallest = .ok res)
    (l : ℝ) (hl : l ≤ 2) (f : Nat → Nat → ℝ)
    (htest : ∀ x, (∀ i < k, dot g.n (f i) x = 0) →
      l * dot g.n x x ≤ quadForm g.n (matrixOf g.abs .normalisedLaplacian) x)
    (S : Nat → Nat) (hSk : ∀ u < g.n, S u < k) (hS : ∀ i < k, ∃ u < g.n, S u = i) (b : Nat → Nat → ℝ) (a : ℝ)
    (ha : WGraph.Strength g.n k S b a) (hU : g.abs.unevenness k S b = 0) (hγ1 : 1 / 2 ^ 12 ≤ l - (1 - a)) :
    streamLaw word32.toMeasure {y | ¬ ∃ labels, spectralClusterFl E solve g k y junk = .ok labels ∧ labels.length = g.n ∧
      ∀ u < g.n, ∀ v < g.n, labels.getD u 0 = labels.getD v 0 ↔ S u = S v} ≤
    ENNReal.ofReal (k * g.n / 2 ^ 28 + 1 / 2 ^ 13) := by
  obtain ⟨γ, hγ⟩ : ∃ γ, γ = l - (1 - a) - √(g.abs.unevenness k S b) := ⟨_, rfl⟩
  have hγ2 : 1 / 2 ^ 12 ≤ γ := by rw [hγ, hU, Real.sqrt_zero, sub_zero]; exact hγ1
  obtain ⟨D, hD⟩ : ∃ D, D = √(g.abs.unevenness k S b) / (l - (1 - a)) + √k * (g.n + 10) / (2 ^ 50 * γ) := ⟨_, rfl⟩
  have hn' : (g.n : ℝ) ≤ 65535 := by exact_mod_cast (show g.n ≤ 65535 by omega)
  have hk' : (k : ℝ) ≤ 16 := by exact_mod_cast hk16
  have hn0 : (0 : ℝ) ≤ g.n := Nat.cast_nonneg _
  have hγ0 : 0 < γ := lt_of_lt_of_le (by norm_num) hγ2
  have hD0 : 0 ≤ D := by
    rw [hD, hU, Real.sqrt_zero, zero_div, zero_add]; positivity
  have hD1 : D ≤ 65545 / 2 ^ 36 := by
    rw [hD, hU, Real.sqrt_zero, zero_div, zero_add, div_le_div_iff₀ (by positivity) (by norm_num)]
    have h3 : √(k : ℝ) ≤ 4 := by
      rw [show (4 : ℝ) = √16 by rw [show (16 : ℝ) = 4 ^ 2 by norm_num]; exact (Real.sqrt_sq (by norm_num)).symm]
      exact Real.sqrt_le_sqrt hk'
    have h4 : √(k : ℝ) * (g.n + 10) ≤ 4 * 65545 := mul_le_mul h3 (by linarith) (by linarith) (by norm_num)
    linarith
  have hD2 : D ^ 2 ≤ 1 / 2 ^ 39 + 1 / 2 ^ 49 := by
    refine (pow_le_pow_left₀ hD0 hD1 2).trans ?_
    norm_num
  have hr := rounded_small g.n k hn hk16
  rw [add_zero] at hr
  obtain ⟨ρ, hρ⟩ : ∃ ρ, ρ = rounded g.n k (k * 100) 1 (1 / 2 ^ 19) := ⟨_, rfl⟩
  rw [← hρ] at hr
  have hm := C107_matching E solve hsolve h hw hd hf (by omega) k hk junk res hres l hl f htest S hSk hS b a ha γ hγ hγ2 D hD
    (1 / 2 ^ 19) (by norm_num) (2 * (D ^ 2 + ρ)) (by rw [hρ]) (by linarith)
  have hρ0 : 0 ≤ ρ := by rw [hρ]; unfold rounded; split_ifs <;> positivity
  refine le_trans (measure_mono ?_) (hm.trans (ENNReal.ofReal_le_ofReal ?_))
  · intro y hy
    rw [Set.mem_ofPred_eq] at hy ⊢
    rintro ⟨labels, b1, b2, -, b3⟩
    refine hy ⟨labels, b1, b2, b3 ?_⟩
    obtain ⟨q, hq⟩ : ∃ q, q = D ^ 2 + ρ := ⟨_, rfl⟩
    have hq1 : q ≤ 1 / 2 ^ 18 := by rw [hq]; linarith
    rw [← hq]
    have : q * g.n ≤ 1 / 2 ^ 18 * 65535 := mul_le_mul hq1 hn' hn0 (by norm_num)
    linarith
  · have hlog : Real.log k ≤ 3 := by
      have h1 : Real.log k ≤ Real.log (2 ^ 4) := Real.log_le_log (by exact_mod_cast hk.1) (by linarith)
      rw [Real.log_pow] at h1
      have := Real.log_two_lt_d9
      push_cast at h1
      linarith
    have h9 : 0 ≤ Real.log k := Real.log_nonneg (by exact_mod_cast hk.1)
    have h10 : 8 * (Real.log k + 2) * D ^ 2 / (1 / 2 ^ 19) ≤ 1 / 2 ^ 13 := by
      rw [div_le_iff₀ (by norm_num)]
      have : 8 * (Real.log k + 2) * D ^ 2 ≤ 40 * (1 / 2 ^ 39 + 1 / 2 ^ 49) :=
        mul_le_mul (by linarith) hD2 (sq_nonneg _) (by norm_num)
      refine this.trans ?_
      norm_num
    linarith

/-! ## The stochastic block model -/

/-- **C107** (the rounding errors of k-means).  For less than `2^20` points and `k ≤ 16`, `c' ≤ c + (c + 1) / 2^28`. -/
theorem C107_rounded (n k : Nat) (hn : n < 2 ^ 20) (hk : k ≤ 16) (c : ℝ) (hc : 0 ≤ c) :
    rounded n k (k * 100) 1 c ≤ c + (c + 1) / 2 ^ 28 := by
  unfold rounded
  rw [if_pos hk, if_pos hk, zero_add, mul_one]
  have hn' : (n : ℝ) ≤ 1048575 := by exact_mod_cast (show n ≤ 1048575 by omega)
  have hk' : (k : ℝ) ≤ 16 := by exact_mod_cast hk
  have hn0 : (0 : ℝ) ≤ n := Nat.cast_nonneg _
  have hk0 : (0 : ℝ) ≤ k := Nat.cast_nonneg _
  have h1 : (1 + 1 / 2 ^ 46 : ℝ) ^ (k * 100) ≤ 1 + 1 / 2 ^ 34 := by
    have h0 := pow_bound (x := 1 / 2 ^ 46) (by norm_num) (by norm_num) (k * 100)
    obtain ⟨P, hP⟩ : ∃ P, P = (1 + 1 / 2 ^ 46 : ℝ) ^ (k * 100) := ⟨_, rfl⟩
    have hpos : 0 ≤ P := by rw [hP]; positivity
    rw [← hP] at h0 ⊢
    have h3 : P * (1 - 1 / 2 ^ 35) ≤ 1 := by
      refine (mul_le_mul_of_nonneg_left ?_ hpos).trans h0
      push_cast
      linarith
    linarith
  have h2 : (k : ℝ) * ((n + 1) * (1 / 2 ^ 52)) ^ 2 ≤ 16 * (1 / 2 ^ 64) := by
    refine mul_le_mul hk' ?_ (sq_nonneg _) (by norm_num)
    refine le_trans (pow_le_pow_left₀ (by positivity) (show (n + 1 : ℝ) * (1 / 2 ^ 52) ≤ 1 / 2 ^ 32 by linarith) 2) (by norm_num)
  have h3 : (n : ℝ) * ((k : ℝ) * ((n + 1) * (1 / 2 ^ 52)) ^ 2) ≤ 1048576 * (16 * (1 / 2 ^ 64)) :=
    mul_le_mul (by linarith) h2 (by positivity) (by norm_num)
  have h4 : ((k * 100 : Nat) : ℝ) * ((n : ℝ) * ((k : ℝ) * ((n + 1) * (1 / 2 ^ 52)) ^ 2)) ≤ 1600 * (1048576 * (16 * (1 / 2 ^ 64))) :=
    mul_le_mul (by push_cast; linarith) h3 (by positivity) (by norm_num)
  refine le_trans (mul_le_mul h1 (add_le_add le_rfl h4) (by positivity) (by norm_num)) ?_
  linarith

/-- **C107** (typical graphs).  Let everything be computed in `double`s, the inner solver being exact for the matrix it is given.
In a typical graph of the stochastic block model with `n = k m < 2^20` vertices and `k ≤ 16` clusters that are visible with a
margin of `d / 2^11`, `d` being the expected degree, let `D = √E + √k (n + 10) / 2^38`, `E` being the defect, and
`e = 2 (D² + c + (c + 1) / 2^28) < 1/2`.  Except with probability `8 (ln k + 2) D² / c + k n / 2^28`, all but `2 e n` vertices
have the label matched with their cluster. -/
theorem C107_typical {g : Graph ℝ} {k m : Nat} {p q a t : ℝ} (hst : SimpleTypical g k m p q a t) (hk : 1 ≤ k) (hk16 : k ≤ 16)
    (hm : 2 ≤ m) (hp : 0 ≤ p ∧ p ≤ 1) (hq : 0 ≤ q ∧ q ≤ 1) (hv : Visible k m p q a t) (hn : k * m < 2 ^ 20)
    (hz : blockDegree k m p q / 2 ^ 11 ≤
      m * (p - q) * (1 - k * (a + 1) / blockDegree k m p q) - √(k * m * (1 + t)))
    (E : EigenSum (dbl ℝ).fl) (solve : EigenSolver) (hsolve : SolverSpec solve) (junk : Nat → ℝ)
    (res : EigenPairs) (hres : computeEigensystemFl (dbl ℝ).fl solve g .normalisedLaplacian k .smallest = .ok res)
    (D : ℝ) (hD : D = √(typicalDefect k m p q a t) + √k * (k * m + 10) / 2 ^ 38) (c : ℝ) (hc : 0 < c)
    (e : ℝ) (he : e = 2 * (D ^ 2 + (c + (c + 1) / 2 ^ 28))) (he2 : e < 1 / 2) :
    streamLaw word32.toMeasure {y | ¬ ∃ labels, spectralClusterFl E solve g k y junk = .ok labels ∧ labels.length = k * m ∧
      ∃ σ : Equiv.Perm (Fin k),
        (((range (k * m)).filter fun u => ∃ i : Fin k, u / m = i ∧ labels.getD u 0 ≠ σ i).card : ℝ) ≤ 2 * e * (k * m)} ≤
    ENNReal.ofReal (8 * (Real.log k + 2) * D ^ 2 / c + k * (k * m) / 2 ^ 28) := by
  have hgn : g.n = k * m := hst.typ.size
  have hgn' : (g.n : ℝ) = k * m := by rw [hgn]; push_cast; rfl
  have hδ : 0 ≤ k * (a + 1) := by have := hv.1; positivity
  have hlo : 0 < blockDegree k m p q - k * (a + 1) := by linarith [hv.2.2.1]
  have hd0 : 0 < blockDegree k m p q := by linarith
  have hstr := typical_strength (k := k) (p := p) hq.1 hd0 (show 1 ≤ m by omega)
  rw [← hgn] at hstr
  have hun := typical_uneven hst.typ hst.loop (fun u v => hst.nonneg u v) hp hq hv.1 hk (show 1 ≤ m by omega) hv.2.2.1
  have htest := typical_test hst hp hq hv
  have hE : typicalDefect k m p q a t = 4 * k ^ 2 * (k * (a + 1)) ^ 2 /
    (m * (p - q) * (1 - k * (a + 1) / blockDegree k m p q) - √(k * m * (1 + t))) ^ 2 := rfl
  have hr0 : 0 ≤ √(k * m * (1 + t)) := Real.sqrt_nonneg _
  obtain ⟨r, hr⟩ : ∃ r, r = √(k * m * (1 + t)) := ⟨_, rfl⟩
  obtain ⟨d, hd⟩ : ∃ d, d = blockDegree k m p q := ⟨_, rfl⟩
  obtain ⟨δ, hδe⟩ : ∃ δ : ℝ, δ = k * (a + 1) := ⟨_, rfl⟩
  obtain ⟨z, hze⟩ : ∃ z, z = m * (p - q) * (1 - δ / d) - r := ⟨_, rfl⟩
  obtain ⟨D0, hD0⟩ : ∃ D0, D0 = √(typicalDefect k m p q a t) := ⟨_, rfl⟩
  obtain ⟨U, hU⟩ : ∃ U, U = g.abs.unevenness k (fun u => u / m) (fun c i => m * pairProb p q c i / blockDegree k m p q) := ⟨_, rfl⟩
  rw [← hD0] at hD
  rw [← hU] at hun
  rw [← hr, ← hd, ← hδe, ← hze] at hz hE
  rw [← hr, ← hd, ← hδe] at htest
  rw [← hr] at hr0
  rw [← hd, ← hδe] at hlo hun
  rw [← hd] at hd0 hstr hU
  rw [← hδe] at hδ
  have hz0 : 0 < z := lt_of_lt_of_le (by positivity) hz
  have hk0 : (0 : ℝ) ≤ k := Nat.cast_nonneg _
  have hD0' : 0 ≤ D0 := by rw [hD0]; exact Real.sqrt_nonneg _
  have hD0z : D0 * z = 2 * k * δ := by
    rw [hD0, hE, show (4 : ℝ) * k ^ 2 * δ ^ 2 / z ^ 2 = (2 * k * δ / z) ^ 2 by rw [div_pow]; ring, Real.sqrt_sq (by positivity)]
    field_simp
  have hs : √U ≤ 2 * k * δ / (d - δ) := by
    refine Real.sqrt_le_iff.2 ⟨by positivity, hun.trans (le_of_eq ?_)⟩
    rw [div_pow]
    ring
  have hdif : (1 - r / (d - δ)) - (1 - m * (p - q) / d) = z / (d - δ) := by
    rw [hze]
    have := hd0.ne'
    have := hlo.ne'
    field_simp
    ring
  have hG0 : 0 < z / (d - δ) := div_pos hz0 hlo
  -- the defect is below a quarter
  have hε0 : 0 ≤ √(k : ℝ) * (k * m + 10) / 2 ^ 38 := by positivity
  have hDD : D0 ≤ D := by rw [hD]; linarith
  have hDh : D0 < 1 / 2 := by
    by_contra hno
    have : (1 / 2 : ℝ) ^ 2 ≤ D ^ 2 := pow_le_pow_left₀ (by norm_num) (by linarith) 2
    have : 0 ≤ c + (c + 1) / 2 ^ 28 := by positivity
    rw [he] at he2
    norm_num at this he2
    linarith
  obtain ⟨γ, hγ⟩ : ∃ γ, γ = (1 - r / (d - δ)) - (1 - m * (p - q) / d) - √U := ⟨_, rfl⟩
  have hγ1 : 1 / 2 ^ 12 ≤ γ := by
    have h1 : z / (d - δ) * (1 / 2) ≤ γ := by
      rw [hγ, hdif]
      have : 2 * k * δ / (d - δ) ≤ z / (d - δ) * (1 / 2) := by
        rw [div_mul_eq_mul_div]
        refine div_le_div_of_nonneg_right ?_ hlo.le
        rw [← hD0z]
        nlinarith
      linarith
    refine le_trans ?_ h1
    have h2 : d / 2 ^ 11 / (d - δ) ≤ z / (d - δ) := div_le_div_of_nonneg_right hz hlo.le
    have h3 : 1 / 2 ^ 11 ≤ d / 2 ^ 11 / (d - δ) := by
      rw [le_div_iff₀ hlo]
      linarith
    linarith
  have hγ0 : 0 < γ := lt_of_lt_of_le (by norm_num) hγ1
  have h1fl : (dbl ℝ).fl 1 = 1 := by
    have := flBin_nat_le (K := ℝ) (m := 1) (by norm_num)
    exact_mod_cast this
  have hf : g.FloatWeights (dbl ℝ).fl := by
    intro u v
    rcases hst.simple u v with e | e <;> rw [e]
    · exact ⟨Rounding.fl_zero, by rw [neg_zero]; exact Rounding.fl_zero⟩
    · exact ⟨h1fl, by change flBin 53 (-1 : ℝ) = -1; rw [flBin_neg]; exact congrArg _ h1fl⟩
  have hSk : ∀ u < g.n, u / m < k := fun u hu => Recovery.block_lt (by rw [← hgn]; exact hu)
  have hS : ∀ i < k, ∃ u < g.n, u / m = i := fun i hi =>
    ⟨i * m, by rw [hgn]; exact Nat.mul_lt_mul_of_pos_right hi (by omega), Nat.mul_div_cancel _ (by omega)⟩
  obtain ⟨D', hD'⟩ : ∃ D', D' = √U / ((1 - r / (d - δ)) - (1 - m * (p - q) / d)) + √k * (g.n + 10) / (2 ^ 50 * γ) := ⟨_, rfl⟩
  have hD'0 : 0 ≤ D' := by
    rw [hD', hdif]; positivity
  have hD'D : D' ≤ D := by
    rw [hD', hD, hdif, hgn']
    refine add_le_add ?_ ?_
    · rw [div_le_iff₀ hG0]
      refine hs.trans (le_of_eq ?_)
      rw [← hD0z]
      ring
    · refine div_le_div_of_nonneg_left (by positivity) (by norm_num) ?_
      linarith
  have hρ := C107_rounded (k * m) k hn hk16 c hc.le
  have hm2 := C107_matching E solve hsolve hst.reach (fun u v => hst.nonneg u v) (fun v hv' => hst.pos hp hv v hv') hf (by omega) k
    ⟨hk, by rw [hgn, mul_comm]; exact Nat.mul_le_mul_left k hm⟩ junk res hres (1 - r / (d - δ))
    (by have : 0 ≤ r / (d - δ) := div_nonneg hr0 hlo.le
        linarith) _ htest (fun u => u / m) hSk hS _ _ hstr γ (by rw [hγ, hU]) hγ1 D'
    (by rw [hD', hU]) c hc e (by
      rw [hgn, he]
      have := pow_le_pow_left₀ hD'0 hD'D 2
      linarith) he2
  rw [hgn, ← hgn, hgn'] at hm2
  refine le_trans (measure_mono ?_) (hm2.trans (ENNReal.ofReal_le_ofReal ?_))
  · intro y hy
    rw [Set.mem_ofPred_eq] at hy ⊢
    rintro ⟨labels, b1, b2, ⟨σ, b3⟩, -⟩
    refine hy ⟨labels, b1, by rw [b2, hgn], σ, ?_⟩
    rw [← hgn]
    exact b3
  · have hlog : 0 ≤ Real.log k := Real.log_natCast_nonneg k
    gcongr

section
variable {Θ : Type} [MeasurableSpace Θ] (μ : Measure Θ) [IsProbabilityMeasure μ]
  (X : Nat → Θ → ℝ) (hmeas : ∀ n, Measurable (X n)) (hind : ProbabilityTheory.iIndepFun X μ)
  (hunif : ∀ n p, 0 ≤ p → p ≤ 1 → μ {θ | X n θ < p} = ENNReal.ofReal p)
  (R : Θ → Rng ℝ Nat)
  (hR : ∀ θ n p, 0 ≤ p → p ≤ 1 → (R θ).coin p n = (decide (X n θ < p), n + 1))
include hmeas hind hunif hR

/-- **C107** (the stochastic block model).  With independent uniform random numbers, `sbm (k m, k, p, q)` in exact mode returns,
except with probability at most `2 k² m exp (-2 a² / m) + 2 (k m)² exp (-t² / (2 k m))`, a graph with the following property: for
every inner solver that is exact for the matrix it is given and that answers, `spectral_cluster` in `double`s returns labels of
which all but `2 e n` are right, except with probability `8 (ln k + 2) D² / c + k n / 2^28`. -/
theorem C107_sbm (fuel : Nat) {k m : Nat} {p q a t : ℝ} (hk : 1 ≤ k) (hk16 : k ≤ 16)
    (hm : 2 ≤ m) (hp : 0 ≤ p ∧ p ≤ 1) (hq : 0 ≤ q ∧ q ≤ 1) (ha : 0 < a) (ht : 0 < t) (hv : Visible k m p q a t)
    (hn : k * m < 2 ^ 20)
    (hz : blockDegree k m p q / 2 ^ 11 ≤
      m * (p - q) * (1 - k * (a + 1) / blockDegree k m p q) - √(k * m * (1 + t)))
    (D : ℝ) (hD : D = √(typicalDefect k m p q a t) + √k * (k * m + 10) / 2 ^ 38) (c : ℝ) (hc : 0 < c)
    (e : ℝ) (he : e = 2 * (D ^ 2 + (c + (c + 1) / 2 ^ 28))) (he2 : e < 1 / 2) :
    μ {θ | ¬ ∃ g ω', sbm (R θ) fuel (k * m : Nat) k p q true 0 = some (.ok g, ω') ∧ g.n = k * m ∧
      ∀ (E : EigenSum (dbl ℝ).fl) (solve : EigenSolver), SolverSpec solve → ∀ junk res,
        computeEigensystemFl (dbl ℝ).fl solve g .normalisedLaplacian k .smallest = .ok res →
        streamLaw word32.toMeasure {y | ¬ ∃ labels, spectralClusterFl E solve g k y junk = .ok labels ∧ labels.length = k * m ∧
          ∃ σ : Equiv.Perm (Fin k),
            (((range (k * m)).filter fun u => ∃ i : Fin k, u / m = i ∧ labels.getD u 0 ≠ σ i).card : ℝ) ≤ 2 * e * (k * m)} ≤
        ENNReal.ofReal (8 * (Real.log k + 2) * D ^ 2 / c + k * (k * m) / 2 ^ 28)} ≤
      ENNReal.ofReal (2 * (k * (k * m)) * Real.exp (-(2 * a ^ 2 / m)) +
        2 * (k * m) ^ 2 * Real.exp (-(t ^ 2 / (2 * (k * m))))) := by
  refine le_trans (measure_mono fun θ hθ => ?_) (C86_typical μ X hmeas hind hunif R hR fuel hk hm hp hq a t ha ht)
  rw [Set.mem_ofPred_eq] at hθ ⊢
  rintro ⟨g, ω', hg, hst⟩
  exact hθ ⟨g, ω', hg, hst.typ.size, fun E solve hsolve junk res hres =>
    C107_typical hst hk hk16 hm hp hq hv hn hz E solve hsolve junk res hres D hD c hc e he he2⟩


/-- **C107** (a case).  In `double`s, for 500000 + 500000 vertices, `p = 19/20` and `q = 1/20`: with probability at least `0.98`
the graph has the property that, for every exact inner solver that answers, more than 58% of the vertices have the label matched
with their block, except with probability at most `0.55`. -/
theorem C107_million (fuel : Nat) :
    μ {θ | ¬ ∃ g ω', sbm (R θ) fuel (2 * 500000 : Nat) 2 (19 / 20) (1 / 20) true 0 = some (.ok g, ω') ∧ g.n = 2 * 500000 ∧
      ∀ (E : EigenSum (dbl ℝ).fl) (solve : EigenSolver), SolverSpec solve → ∀ junk res,
        computeEigensystemFl (dbl ℝ).fl solve g .normalisedLaplacian 2 .smallest = .ok res →
        streamLaw word32.toMeasure {y | ¬ ∃ labels, spectralClusterFl E solve g 2 y junk = .ok labels ∧
          labels.length = 2 * 500000 ∧
          ∃ σ : Equiv.Perm (Fin 2), ((range (2 * 500000)).filter fun u =>
            ∃ i : Fin 2, u / 500000 = (i : Nat) ∧ labels.getD u 0 ≠ σ i).card ≤ 420000} ≤ ENNReal.ofReal (55 / 100)} ≤
      ENNReal.ofReal (2 / 100) := by
  have hbd : blockDegree 2 500000 (19 / 20) (1 / 20) = 500000 := by unfold blockDegree; norm_num
  have hr0 : (0 : ℝ) ≤ √((2 : Nat) * (500000 : Nat) * (1 + 8500)) := Real.sqrt_nonneg _
  have hr1 : √(((2 : Nat) : ℝ) * (500000 : Nat) * (1 + 8500)) ≤ 92201 := Real.sqrt_le_iff.2 ⟨by norm_num, by norm_num⟩
  obtain ⟨r, hr⟩ : ∃ r, r = √(((2 : Nat) : ℝ) * (500000 : Nat) * (1 + 8500)) := ⟨_, rfl⟩
  rw [← hr] at hr0 hr1
  have hE : typicalDefect 2 500000 (19 / 20) (1 / 20) 2200 8500 ≤ (4977 / 100000) ^ 2 := by
    unfold typicalDefect
    rw [hbd, ← hr, div_le_iff₀ (by
      have : 0 < (500000 : Nat) * (19 / 20 - 1 / 20) * (1 - (2 : Nat) * ((2200 : ℝ) + 1) / 500000) - r := by
        push_cast
        linarith
      positivity), ← mul_pow]
    refine le_trans (le_of_eq (show _ = (17608 : ℝ) ^ 2 by norm_num)) (pow_le_pow_left₀ (by norm_num) ?_ 2)
    push_cast
    linarith
  have hE0 : 0 ≤ typicalDefect 2 500000 (19 / 20) (1 / 20) 2200 8500 := by unfold typicalDefect; positivity
  obtain ⟨D, hD⟩ : ∃ D, D = √(typicalDefect 2 500000 (19 / 20) (1 / 20) 2200 8500) +
    √((2 : Nat) : ℝ) * ((2 : Nat) * (500000 : Nat) + 10) / 2 ^ 38 := ⟨_, rfl⟩
  have hD0 : 0 ≤ D := by rw [hD]; positivity
  have hD1 : D ≤ 4979 / 100000 := by
    have h1 : √(typicalDefect 2 500000 (19 / 20) (1 / 20) 2200 8500) ≤ 4977 / 100000 := Real.sqrt_le_iff.2 ⟨by norm_num, hE⟩
    have h2 : √((2 : Nat) : ℝ) ≤ 2 := Real.sqrt_le_iff.2 ⟨by norm_num, by norm_num⟩
    have h3 : √((2 : Nat) : ℝ) * ((2 : Nat) * (500000 : Nat) + 10) / 2 ^ 38 ≤ 2 * ((2 : Nat) * (500000 : Nat) + 10) / 2 ^ 38 := by
      gcongr
    rw [hD]
    refine (add_le_add h1 h3).trans ?_
    norm_num
  have hD2 : D ^ 2 ≤ 249 / 100000 := (pow_le_pow_left₀ hD0 hD1 2).trans (by norm_num)
  have h := C107_sbm μ X hmeas hind hunif R hR fuel (k := 2) (m := 500000) (p := 19 / 20) (q := 1 / 20) (a := 2200) (t := 8500)
    (by norm_num) (by norm_num) (by norm_num) (by norm_num) (by norm_num) (by norm_num) (by norm_num)
    ⟨by norm_num, by norm_num, by rw [hbd]; norm_num, by rw [hbd, ← hr]; push_cast; linarith⟩ (by norm_num)
    (by rw [hbd, ← hr]; push_cast; linarith) D hD (1 / 10) (by norm_num) _ rfl (by linarith)
  have hx1 : Real.exp (-(2 * 2200 ^ 2 / (500000 : Nat))) ≤ 1 / 250000000 := by
    have : (250000000 : ℝ) ≤ Real.exp (2 * 2200 ^ 2 / (500000 : Nat)) := by
      have h1 : Real.exp (2 * 2200 ^ 2 / (500000 : Nat)) = Real.exp 1 ^ 19 * Real.exp (36 / 100) := by
        rw [← Real.exp_nat_mul, ← Real.exp_add]
        norm_num
      have h2 : (2.7182818283 : ℝ) ^ 19 ≤ Real.exp 1 ^ 19 := pow_le_pow_left₀ (by norm_num) Real.exp_one_gt_d9.le 19
      have h3 := Real.quadratic_le_exp_of_nonneg (show (0 : ℝ) ≤ 36 / 100 by norm_num)
      rw [h1]
      refine le_trans ?_ (mul_le_mul h2 h3 (by norm_num) (by positivity))
      norm_num
    rw [Real.exp_neg, one_div]
    exact inv_anti₀ (by norm_num) this
  have hx2 : Real.exp (-(8500 ^ 2 / (2 * ((2 : Nat) * (500000 : Nat))))) ≤ 1 / 10 ^ 15 := by
    have : (10 ^ 15 : ℝ) ≤ Real.exp (8500 ^ 2 / (2 * ((2 : Nat) * (500000 : Nat)))) := by
      have h1 : Real.exp 1 ^ 36 ≤ Real.exp (8500 ^ 2 / (2 * ((2 : Nat) * (500000 : Nat)))) := by
        rw [← Real.exp_nat_mul]
        exact Real.exp_le_exp.2 (by norm_num)
      have h2 : (2.7182818283 : ℝ) ^ 36 ≤ Real.exp 1 ^ 36 := pow_le_pow_left₀ (by norm_num) Real.exp_one_gt_d9.le 36
      refine le_trans ?_ (h2.trans h1)
      norm_num
    rw [Real.exp_neg, one_div]
    exact inv_anti₀ (by norm_num) this
  refine le_trans (measure_mono ?_) (h.trans (ENNReal.ofReal_le_ofReal ?_))
  · intro θ hθ
    rw [Set.mem_ofPred_eq] at hθ ⊢
    rintro ⟨g, ω', hg, hn, hall⟩
    refine hθ ⟨g, ω', hg, hn, fun E solve hs junk res hres => ?_⟩
    refine le_trans (measure_mono ?_) ((hall E solve hs junk res hres).trans (ENNReal.ofReal_le_ofReal ?_))
    · intro y hy
      rw [Set.mem_ofPred_eq] at hy ⊢
      rintro ⟨labels, b1, b2, σ, b3⟩
      refine hy ⟨labels, b1, b2, σ, ?_⟩
      have : (2 * (2 * (D ^ 2 + (1 / 10 + (1 / 10 + 1) / 2 ^ 28))) * ((2 : Nat) * (500000 : Nat)) : ℝ) ≤ (420000 : Nat) := by
        push_cast
        linarith
      exact_mod_cast b3.trans this
    · have hl : Real.log (2 : Nat) ≤ 6932 / 10000 := by
        have := Real.log_two_lt_d9
        push_cast
        linarith
      have hl0 : 0 ≤ Real.log (2 : Nat) := Real.log_natCast_nonneg 2
      have : 8 * (Real.log (2 : Nat) + 2) * D ^ 2 ≤ 8 * (6932 / 10000 + 2) * (249 / 100000) := by gcongr
      rw [show (8 * (Real.log (2 : Nat) + 2) * D ^ 2 / (1 / 10) : ℝ) = 10 * (8 * (Real.log (2 : Nat) + 2) * D ^ 2) by ring]
      push_cast at this ⊢
      linarith
  · push_cast at hx1 hx2 ⊢
    linarith

end

/-- **C107** (the random numbers exist). -/
theorem C107_nonvacuous : ∃ (μ : Measure (Nat → ℝ)) (R : (Nat → ℝ) → Rng ℝ Nat), IsProbabilityMeasure μ ∧ ∀ fuel,
    μ {θ | ¬ ∃ g ω', sbm (R θ) fuel (2 * 500000 : Nat) 2 (19 / 20) (1 / 20) true 0 = some (.ok g, ω') ∧ g.n = 2 * 500000 ∧
      ∀ (E : EigenSum (dbl ℝ).fl) (solve : EigenSolver), SolverSpec solve → ∀ junk res,
        computeEigensystemFl (dbl ℝ).fl solve g .normalisedLaplacian 2 .smallest = .ok res →
        streamLaw word32.toMeasure {y | ¬ ∃ labels, spectralClusterFl E solve g 2 y junk = .ok labels ∧
          labels.length = 2 * 500000 ∧
          ∃ σ : Equiv.Perm (Fin 2), ((range (2 * 500000)).filter fun u =>
            ∃ i : Fin 2, u / 500000 = (i : Nat) ∧ labels.getD u 0 ≠ σ i).card ≤ 420000} ≤ ENNReal.ofReal (55 / 100)} ≤
      ENNReal.ofReal (2 / 100) := by
  obtain ⟨μ, X, R, hμ, hm, hind, hunif, hR⟩ := draws_exist
  exact ⟨μ, R, hμ, fun fuel => C107_million μ X hm hind hunif R hR fuel⟩

/-- **C107** (solvers that answer).  For every graph with positive degrees whose weights are `double`s there is a solver that is
exact for every matrix and with which `compute_eigensystem` returns. -/
theorem C107_answers {g : Graph ℝ} (h : g.Reachable) (hw : ∀ u v, 0 ≤ g.abs.w u v) (hd : ∀ v, v < g.n → 0 < g.abs.deg v)
    (hf : g.FloatWeights (dbl ℝ).fl) (hn : g.n < 2 ^ 20) (k : Nat) (hk : 1 ≤ k ∧ k < g.n) :
    ∃ solve res, SolverSpec solve ∧ computeEigensystemFl (dbl ℝ).fl solve g .normalisedLaplacian k .smallest = .ok res := by
  obtain ⟨⟨solve, hs, hall⟩, -⟩ := C53_contract_satisfiable
  obtain ⟨Dg, -, -, hDg, -⟩ := maxDegree_spec h
  obtain ⟨F, c, val, hF, -, -, heq⟩ := C102_matrix (R := dbl ℝ) (fun x => flBin_neg 53 x) h hw hf .normalisedLaplacian k .smallest
    (by omega) (fun _ => hd) Dg hDg
  have := hall g.n (fun i j => .fin (F i j)) F k (fun _ _ _ _ => rfl) (fun i _ j _ => hF i j) (by omega)
  obtain ⟨raw, hraw⟩ := Option.isSome_iff_exists.1 this
  refine ⟨solve, raw.map (fun p => (val p.1, p.2)), hs, ?_⟩
  rw [heq]
  rw [Int.toNat_natCast, hraw]

/-- **C107** (a case).  The square with edges of weight 3, 1, 3 and 1: the two edges of weight 3 are the clusters (their conductance
is `1/4`), and in `double`s `spectral_cluster` finds them, except with probability `2^-12`. -/
theorem C107_square : ∃ g : Graph ℝ, g.Reachable ∧ g.abs = ⟨4, squarePQ 3 1⟩ ∧
    (∃ solve res, SolverSpec solve ∧ computeEigensystemFl (dbl ℝ).fl solve g .normalisedLaplacian 2 .smallest = .ok res) ∧
    ∀ (E : EigenSum (dbl ℝ).fl) (solve : EigenSolver) (junk : Nat → ℝ) (res : EigenPairs), SolverSpec solve →
      computeEigensystemFl (dbl ℝ).fl solve g .normalisedLaplacian 2 .smallest = .ok res →
      streamLaw word32.toMeasure {y | ¬ ∃ labels, spectralClusterFl E solve g 2 y junk = .ok labels ∧ labels.length = 4 ∧
        ∀ u < 4, ∀ v < 4, labels.getD u 0 = labels.getD v 0 ↔ u / 2 = v / 2} ≤ ENNReal.ofReal (1 / 2 ^ 12) := by
  have heps : epsilon < (1 : ℝ) := by unfold epsilon; norm_num
  obtain ⟨g, hr, ha⟩ := square_graph 3 1 heps (by norm_num)
  obtain ⟨hw, hdeg, htest, hzero, hst⟩ := square_facts 3 1 heps (by norm_num) ha
  have hn : g.n = 4 := congrArg WGraph.n ha
  have hd : ∀ v, v < g.n → 0 < g.abs.deg v := by
    intro v hv
    rw [hdeg v (by omega)]; norm_num
  have h1fl : (dbl ℝ).fl 1 = 1 := by
    have := flBin_nat_le (K := ℝ) (m := 1) (by norm_num)
    exact_mod_cast this
  have h3fl : (dbl ℝ).fl 3 = 3 := by
    have := flBin_nat_le (K := ℝ) (m := 3) (by norm_num)
    exact_mod_cast this
  have hneg : ∀ x : ℝ, (dbl ℝ).fl (-x) = -(dbl ℝ).fl x := fun x => flBin_neg 53 x
  have hf : g.FloatWeights (dbl ℝ).fl := by
    intro u v
    rw [ha]
    simp only [squarePQ]
    split_ifs
    · exact ⟨h3fl, by rw [hneg, h3fl]⟩
    · exact ⟨h1fl, by rw [hneg, h1fl]⟩
    · exact ⟨Rounding.fl_zero, by rw [neg_zero]; exact Rounding.fl_zero⟩
    · exact ⟨Rounding.fl_zero, by rw [neg_zero]; exact Rounding.fl_zero⟩
  refine ⟨g, hr, ha, ?_, fun E solve junk res hs hres => ?_⟩
  · exact C107_answers hr hw hd hf (by rw [hn]; norm_num) 2 (by omega)
  · have := C107_equitable E solve hs hr hw hd hf (by rw [hn]; norm_num) 2 (by omega) (by norm_num) junk res hres (2 * 3 / (3 + 1))
      (by norm_num) _ htest (fun u => u / 2) (fun u hu => by omega) (fun i hi => ⟨2 * i, by omega, by omega⟩) _ _ hst hzero
      (by norm_num)
    rw [hn] at this
    exact this.trans (ENNReal.ofReal_le_ofReal (by norm_num))

end KMeans

end Stag
