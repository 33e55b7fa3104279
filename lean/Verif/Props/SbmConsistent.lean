import Verif.Props.SbmTypical

/-!
# C86: spectral clustering recovers the clusters of the stochastic block model
-/

open MeasureTheory ProbabilityTheory Finset
open scoped ENNReal

namespace Stag

/-- `sbm` in exact mode, in terms of the random numbers. -/
theorem sbm_coupled (R : Rng ℝ Nat) (x : Nat → ℝ)
    (hR : ∀ n p, 0 ≤ p → p ≤ 1 → R.coin p n = (decide (x n < p), n + 1)) (fuel : Nat) {k m : Nat} {p q : ℝ}
    (hk : 1 ≤ k) (hm : 2 ≤ m) (hp : 0 ≤ p ∧ p ≤ 1) (hq : 0 ≤ q ∧ q ≤ 1) :
    (∃ g ω', sbm R fuel (k * m : Nat) k p q true 0 = some (.ok g, ω') ∧ g.Reachable ∧
      Coupled (k * m) (blockProb m p q) (drawIndex (sbmProbs (k : Int) p q) (List.replicate k m)) x g) ∧
    Separate (k * m) (drawIndex (sbmProbs (k : Int) p q) (List.replicate k m)) := by
  have hdiv : k * m / k = m := Nat.mul_div_cancel_left _ (by omega)
  have hkn : k ≤ k * m / 2 := by
    rw [Nat.le_div_iff_mul_le (by norm_num)]
    exact Nat.mul_le_mul_left k hm
  have hargs := sbm_args (n := k * m) hk hkn hp hq
  rw [hdiv] at hargs
  have hsum : (List.replicate k m).sum = k * m := by rw [List.sum_replicate]; rfl
  have hcl : ∀ u < (List.replicate k m).sum, InCluster (List.replicate k m) (u / m) u := by
    intro u hu
    rw [hsum] at hu
    have hpos : 0 < m := by omega
    have hlt : u / m < k := by rw [Nat.div_lt_iff_lt_mul hpos]; exact hu
    have ht : ∀ c, c ≤ k → ((List.replicate k m).take c).sum = c * m := by
      intro c hc
      rw [List.take_replicate, List.sum_replicate, Nat.min_eq_left hc]; rfl
    refine ⟨by simpa using hlt, ?_, ?_⟩
    · rw [ht _ hlt.le]; exact Nat.div_mul_le_self _ _
    · rw [ht _ hlt]
      have := Nat.lt_div_mul_add hpos (a := u)
      rw [Nat.succ_mul]; exact this
  obtain ⟨⟨g, ω', h1, h2, h3, h4⟩, -, h5⟩ := C66_edges R x hR fuel hargs (fun u => u / m) hcl
  have hcall : sbm R fuel (k * m : Nat) k p q true 0 =
      generalSbm R fuel ((List.replicate k m).map (fun s : Nat => (s : Int))) (sbmProbs (k : Int) p q) true 0 := by
    have hkm : 1 ≤ k * m := Nat.mul_pos (by omega) (by omega)
    unfold sbm
    rw [if_neg (by omega), if_neg (by omega), if_neg (not_or.2 ⟨not_lt.2 hp.1, not_lt.2 hp.2⟩),
      if_neg (not_or.2 ⟨not_lt.2 hq.1, not_lt.2 hq.2⟩), sbmSizes_eq, hdiv]
  rw [hsum] at h3 h4 h5
  refine ⟨⟨g, ω', hcall.trans h1, h2, h3, fun u hu v hv => ?_⟩, h5⟩
  rw [h4 u hu v hv]
  have hb : (sbmProbs (k : Int) p q).entry (min u v / m) (max u v / m) = blockProb m p q u v := by
    unfold sbmProbs blockProb
    simp only
    rcases le_total u v with h | h
    · rw [min_eq_left h, max_eq_right h]
    · rw [min_eq_right h, max_eq_left h]
      by_cases huv : u / m = v / m
      · rw [if_pos huv, if_pos huv.symm]
      · rw [if_neg huv, if_neg (Ne.symm huv)]
  beta_reduce
  rw [hb]

/-- The draws give a simple graph. -/
theorem Coupled.simple {n : Nat} {P : Nat → Nat → ℝ} {e : Nat → Nat → Nat} {x : Nat → ℝ} {g : Graph ℝ}
    (h : Coupled n P e x g) (hr : g.Reachable) :
    (∀ u v, g.abs.w u v = 0 ∨ g.abs.w u v = 1) ∧ ∀ v, g.abs.w v v = 0 := by
  have hv := hr.valid
  have hout : ∀ u v, ¬ (u < n ∧ v < n) → g.abs.w u v = 0 := by
    intro u v huv
    change g.adj.coeff u v = 0
    by_cases hu : u < n
    · exact hv.wf.coeff_of_cols_le (by rw [hv.cols, h.size]; omega) u
    · exact hv.wf.coeff_of_rows_le (by rw [hv.rows, h.size]; omega) v
  constructor
  · intro u v
    by_cases huv : u < n ∧ v < n
    · rw [h.w u huv.1 v huv.2]
      split_ifs
      · exact Or.inr rfl
      · exact Or.inl rfl
    · exact Or.inl (hout u v huv)
  · intro v
    by_cases hvn : v < n
    · rw [h.w v hvn v hvn, if_neg fun hh => hh.1 rfl]
    · exact hout v v fun hh => hvn hh.1

section
variable {Θ : Type} [MeasurableSpace Θ] (μ : Measure Θ) [IsProbabilityMeasure μ]
  (X : Nat → Θ → ℝ) (hmeas : ∀ n, Measurable (X n)) (hind : iIndepFun X μ)
  (hunif : ∀ n p, 0 ≤ p → p ≤ 1 → μ {θ | X n θ < p} = ENNReal.ofReal p)
  (R : Θ → Rng ℝ Nat)
  (hR : ∀ θ n p, 0 ≤ p → p ≤ 1 → (R θ).coin p n = (decide (X n θ < p), n + 1))
include hmeas hind hunif hR

/-- **C86** (typical graphs).  Let the random numbers of the generator be independent and uniform on `[0, 1)`.  Except with
probability at most `2 k² m exp (-2 a² / m) + 2 (k m)² exp (-t² / (2 k m))`, the graph that `sbm (k m, k, p, q)` returns in
exact mode is a simple graph in which no number of neighbours of a vertex in a cluster is further than `a` from its
expectation, and for no two vertices is the sum of the products of the deviations further than `t` from zero. -/
theorem C86_typical (fuel : Nat) {k m : Nat} {p q : ℝ} (hk : 1 ≤ k) (hm : 2 ≤ m) (hp : 0 ≤ p ∧ p ≤ 1)
    (hq : 0 ≤ q ∧ q ≤ 1) (a t : ℝ) (ha : 0 < a) (ht : 0 < t) :
    μ {θ | ¬ ∃ g ω', sbm (R θ) fuel (k * m : Nat) k p q true 0 = some (.ok g, ω') ∧ SimpleTypical g k m p q a t} ≤
      ENNReal.ofReal (2 * (k * (k * m)) * Real.exp (-(2 * a ^ 2 / m)) +
        2 * (k * m) ^ 2 * Real.exp (-(t ^ 2 / (2 * (k * m))))) := by
  have hc := fun θ => sbm_coupled (R θ) (fun j => X j θ) (hR θ) fuel hk hm hp hq
  choose G ω' hG using fun θ => (hc θ).1
  obtain ⟨θ0⟩ : Nonempty Θ := by
    by_contra hne
    rw [not_nonempty_iff] at hne
    have h1 : μ Set.univ = 1 := measure_univ
    rw [Set.univ_eq_empty_iff.2 hne, measure_empty] at h1
    exact zero_ne_one h1
  have := typical_prob hmeas hind hunif hp hq (hc θ0).2 G (fun θ => (hG θ).2.2) a t ha ht
  refine le_trans (measure_mono fun θ hθ => ?_) this
  rw [Set.mem_ofPred_eq] at hθ ⊢
  intro htyp
  have hs := (hG θ).2.2.simple (hG θ).2.1
  exact hθ ⟨G θ, ω' θ, (hG θ).1, (hG θ).2.1, htyp, hs.1, hs.2⟩

end

section
variable {g : Graph ℝ} {k m : Nat} {p q a t : ℝ}

theorem typical_extreme (h : SimpleTypical g k m p q a t) (hp : 0 ≤ p ∧ p ≤ 1)
    (hv : Visible k m p q a t) (solve : EigenSolver) (hsolve : SolverSpec solve) (res : EigenPairs)
    (hres : computeEigensystem solve g .normalisedLaplacian k .smallest = .ok res) :
    EigenExtreme (· ≤ ·) g.n (matrixOf g.abs .normalisedLaplacian) k res := by
  have hex := C53_eigensystem solve hsolve h.reach (fun u v => h.nonneg u v) _ k .smallest
    (fun _ v hv' => h.pos hp hv v hv') res hres
  rwa [Int.toNat_natCast] at hex

/-- **C86** (agreement).  In a typical graph in which the clusters are visible, labels that `spectral_cluster` returns, of
k-means cost `c` in the embedding (with any centres), agree with the planted clusters up to twice the sum of `c` and the
defect `E`; if this is less than 1/2, all but `4 (E + c) n` vertices have the label matched with their cluster, and if it is
less than `1 / (2 n)`, all have. -/
theorem C86_agreement (h : SimpleTypical g k m p q a t) (hk : 1 ≤ k) (hm : 2 ≤ m) (hp : 0 ≤ p ∧ p ≤ 1)
    (hq : 0 ≤ q ∧ q ≤ 1) (hv : Visible k m p q a t) (solve : EigenSolver) (hsolve : SolverSpec solve) (res : EigenPairs)
    (hres : computeEigensystem solve g .normalisedLaplacian k .smallest = .ok res) (junk : Nat → ℝ) (labels : List Nat)
    (hlab : spectralCluster solve g k junk = .ok labels) (Mu : Nat → Nat → ℝ) (e : ℝ)
    (he : e = 2 * (typicalDefect k m p q a t +
      KMeans.cost (embedding (res.map Prod.snd)) g.n k Mu (fun u => labels.getD u 0))) :
    (k : ℝ) - e ≤ agreement g.n k (fun u => u / m) (fun u => labels.getD u 0) ∧
    (e < 1 / 2 → ∃ σ : Equiv.Perm (Fin k),
      (((range g.n).filter fun u => ∃ i : Fin k, u / m = i ∧ labels.getD u 0 ≠ σ i).card : ℝ) ≤ 2 * e * g.n) ∧
    (e < 1 / 2 → 2 * e * g.n < 1 → ∀ u < g.n, ∀ v < g.n, labels.getD u 0 = labels.getD v 0 ↔ u / m = v / m) := by
  have hn : g.n = k * m := h.typ.size
  have hex := typical_extreme h hp hv solve hsolve res hres
  have hSk : ∀ u < g.n, u / m < k := fun u hu => Recovery.block_lt (by rw [← hn]; exact hu)
  have hS : ∀ i < k, ∃ u < g.n, u / m = i := fun i hi =>
    ⟨i * m, by rw [hn]; exact Nat.mul_lt_mul_of_pos_right hi (by omega), Nat.mul_div_cancel _ (by omega)⟩
  have hA : ∀ u < g.n, labels.getD u 0 < k := labels_lt solve hsolve h.reach (fun u v => h.nonneg u v)
    (fun v hv' => h.pos hp hv v hv') k ⟨hk, by rw [hn, mul_comm]; exact Nat.mul_le_mul_left k hm⟩ junk labels hlab
  have h1 := Recovery.agreement_ge (embedding_on hex) (fun u => u / m) (fun u => labels.getD u 0) hA hS Mu
  have h2 := typical_span h hk (by omega) hp hq hv hex
  unfold spanDefect at h2
  have hag : (k : ℝ) - e ≤ agreement g.n k (fun u => u / m) (fun u => labels.getD u 0) := by
    refine le_trans ?_ h1
    rw [he]
    change (k : ℝ) - 2 * (_ + KMeans.cost (fun u j => embedding (res.map Prod.snd) u j) g.n k Mu
      (fun u => labels.getD u 0)) ≤ _
    linarith
  refine ⟨hag, fun he2 => ?_, fun he2 hn2 =>
    agreement_exact (fun u => u / m) (fun u => labels.getD u 0) hSk hA hS e hn2 he2 hag⟩
  obtain ⟨σ, hσ⟩ := Recovery.agreement_matching (fun u => u / m) (fun u => labels.getD u 0) hSk hA hS e he2 hag
  exact ⟨σ, Recovery.mislabelled_le (fun u => u / m) (fun u => labels.getD u 0) hSk σ e fun i => (hσ i).2⟩

namespace KMeans

/-- **C86** (k-means on a typical graph).  Let the numbers drawn by k-means be independent and uniform, and `c > 0` with
`2 (E + c) < 1/2`, where `E` is the defect.  Except with a probability of at most `8 (ln k + 2) E / c`, k-means on the
embedding returns labels of which all but `4 (E + c) n` are right, up to the names of the clusters. -/
theorem C86_kmeans (h : SimpleTypical g k m p q a t) (hk : 1 ≤ k) (hm : 2 ≤ m) (hp : 0 ≤ p ∧ p ≤ 1)
    (hq : 0 ≤ q ∧ q ≤ 1) (hv : Visible k m p q a t) (solve : EigenSolver) (hsolve : SolverSpec solve) (res : EigenPairs)
    (hres : computeEigensystem solve g .normalisedLaplacian k .smallest = .ok res) (Mu : Nat → Nat → ℝ) (Z : Nat → Nat)
    (junk : Nat → ℝ) (c : ℝ) (hc : 0 < c) (hsmall : 2 * (typicalDefect k m p q a t + c) < 1 / 2) :
    ENNReal.ofReal c * streamLaw unif {u | ¬ ∃ r,
        runKMeans (embedding (res.map Prod.snd)) g.n k k (k * 100 : Nat) u Mu Z junk = .ok r ∧
        ∃ σ : Equiv.Perm (Fin k), (((range g.n).filter fun u => ∃ i : Fin k, u / m = i ∧ r.2 u ≠ σ i).card : ℝ)
          ≤ 4 * (typicalDefect k m p q a t + c) * g.n}
      ≤ ENNReal.ofReal (8 * (Real.log k + 2) * typicalDefect k m p q a t) := by
  have hn : g.n = k * m := h.typ.size
  have hex := typical_extreme h hp hv solve hsolve res hres
  have hSk : ∀ u < g.n, u / m < k := fun u hu => Recovery.block_lt (by rw [← hn]; exact hu)
  have hS : ∀ i < k, ∃ u < g.n, u / m = i := fun i hi =>
    ⟨i * m, by rw [hn]; exact Nat.mul_lt_mul_of_pos_right hi (by omega), Nat.mul_div_cancel _ (by omega)⟩
  have h2 := typical_span h hk (by omega) hp hq hv hex
  have hpos : 0 < g.n := by rw [hn]; exact Nat.mul_pos (by omega) (by omega)
  refine le_trans (mul_le_mul_right (measure_mono fun u hu => ?_) _)
    (span_probability hex hpos hk Mu Z junk (fun u => u / m) hSk hS _ h2 c hc)
  rw [Set.mem_ofPred_eq] at hu ⊢
  rintro ⟨r, hr, hrk, hag⟩
  obtain ⟨σ, hσ⟩ := Recovery.agreement_matching (fun u => u / m) r.2 hSk hrk hS _ hsmall hag
  refine hu ⟨r, hr, σ, ?_⟩
  have := Recovery.mislabelled_le (fun u => u / m) r.2 hSk σ _ fun i => (hσ i).2
  linarith

end KMeans
end

/-! ## Explicit bounds -/

theorem visible_explicit {k m : Nat} {p q δ : ℝ} (hk : 1 ≤ k) (hm : 2 ≤ m) (hq : 0 ≤ q) (hpq : q < p)
    (hδm : 1 ≤ δ * m) (h1 : 8 * k * δ ≤ p + (k - 1) * q) (h2 : 32 * k ^ 2 * δ ≤ (p - q) ^ 2) :
    Visible k m p q (δ * m) (δ * (k * m)) ∧
    typicalDefect k m p q (δ * m) (δ * (k * m)) ≤ 64 * k ^ 4 * δ ^ 2 / (p - q) ^ 2 := by
  have hm0 : (0 : ℝ) < m := by exact_mod_cast (show 0 < m by omega)
  have hk1 : (1 : ℝ) ≤ k := by exact_mod_cast hk
  have hk0 : (0 : ℝ) < k := by linarith
  have hδ : 0 < δ := by
    by_contra hn
    have : δ * m ≤ 0 := mul_nonpos_of_nonpos_of_nonneg (not_lt.1 hn) hm0.le
    linarith
  have hpq' : 0 < p - q := by linarith
  have hD : 0 < p + (k - 1) * q := by
    have : 0 ≤ (k - 1) * q := mul_nonneg (by linarith) hq
    linarith
  obtain ⟨D, hDe⟩ : ∃ D : ℝ, D = p + (k - 1) * q := ⟨_, rfl⟩
  rw [← hDe] at hD h1
  have hbd : blockDegree k m p q = m * D := by unfold blockDegree; rw [hDe]
  have hA : k * (δ * m + 1) ≤ m * (2 * k * δ) := by
    have := mul_le_mul_of_nonneg_left hδm hk0.le
    linarith
  have hA0 : 0 ≤ k * (δ * m + 1) := by positivity
  have hratio : k * (δ * m + 1) / (m * D) ≤ 1 / 4 := by
    rw [div_le_div_iff₀ (by positivity) (by norm_num)]
    have : m * (2 * k * δ) * 4 ≤ m * D := by
      have := mul_le_mul_of_nonneg_left h1 hm0.le
      linarith
    linarith
  have hroot : Real.sqrt (k * m * (1 + δ * (k * m))) ≤ m * (p - q) / 4 := by
    apply Real.sqrt_le_iff.2
    refine ⟨by positivity, ?_⟩
    have h3 : 1 ≤ δ * (k * m) := by
      have : δ * m ≤ δ * m * k := le_mul_of_one_le_right (by positivity) hk1
      linarith
    have h4 : k * m * (1 + δ * (k * m)) ≤ k * m * (2 * (δ * (k * m))) :=
      mul_le_mul_of_nonneg_left (by linarith) (by positivity)
    have h5 := mul_le_mul_of_nonneg_left h2 (show (0 : ℝ) ≤ m ^ 2 / 16 by positivity)
    have e : (m : ℝ) ^ 2 / 16 * (32 * k ^ 2 * δ) = k * m * (2 * (δ * (k * m))) := by ring
    have e2 : (m * (p - q) / 4) ^ 2 = (m : ℝ) ^ 2 / 16 * (p - q) ^ 2 := by ring
    rw [e2]
    linarith
  have hmain : m * (p - q) / 2 ≤ m * (p - q) * (1 - k * (δ * m + 1) / (m * D)) -
      Real.sqrt (k * m * (1 + δ * (k * m))) := by
    have : m * (p - q) * (3 / 4) ≤ m * (p - q) * (1 - k * (δ * m + 1) / (m * D)) :=
      mul_le_mul_of_nonneg_left (by linarith) (by positivity)
    linarith
  have hpos : 0 < m * (p - q) / 2 := by positivity
  refine ⟨⟨by positivity, by positivity, ?_, ?_⟩, ?_⟩
  · rw [hbd]
    rw [div_le_iff₀ (by positivity)] at hratio
    have : 0 < m * D := by positivity
    linarith
  · rw [hbd]
    linarith
  · unfold typicalDefect
    rw [hbd]
    have hnum : 4 * (k : ℝ) ^ 2 * (k * (δ * m + 1)) ^ 2 ≤ 4 * k ^ 2 * (m * (2 * k * δ)) ^ 2 := by gcongr
    have hden : (m * (p - q) / 2) ^ 2 ≤ (m * (p - q) * (1 - k * (δ * m + 1) / (m * D)) -
      Real.sqrt (k * m * (1 + δ * (k * m)))) ^ 2 := by gcongr
    refine le_trans (div_le_div₀ (by positivity) hnum (by positivity) hden) (le_of_eq ?_)
    field_simp
    ring

/-- The exponential beats the cube. -/
theorem exp_neg_le (y : ℝ) (hy : 0 < y) : Real.exp (-y) ≤ 6 / y ^ 3 := by
  have h := Real.pow_div_factorial_le_exp y hy.le 3
  have e : (Nat.factorial 3 : ℝ) = 6 := by norm_num [Nat.factorial]
  rw [e] at h
  rw [Real.exp_neg, inv_eq_one_div, div_le_div_iff₀ (Real.exp_pos y) (by positivity)]
  have := (div_le_iff₀ (by norm_num)).1 h
  linarith

theorem atypical_small (k : Nat) (hk : 1 ≤ k) (δ η : ℝ) (hδ : 0 < δ) (hη : 0 < η) : ∃ M : Nat, ∀ m : Nat, M ≤ m →
    2 * (k * (k * m)) * Real.exp (-(2 * δ ^ 2 * m)) + 2 * (k * m) ^ 2 * Real.exp (-(δ ^ 2 * (k * m) / 2)) ≤ η := by
  obtain ⟨C, hC⟩ : ∃ C : ℝ, C = 12 * k ^ 2 / (2 * δ ^ 2) ^ 3 + 12 / (δ ^ 2 / 2) ^ 3 := ⟨_, rfl⟩
  refine ⟨⌈C / η⌉₊ + 1, fun m hm => ?_⟩
  have hk1 : (1 : ℝ) ≤ k := by exact_mod_cast hk
  have hm1 : (1 : ℝ) ≤ m := by exact_mod_cast (show 1 ≤ m by omega)
  have hm0 : (0 : ℝ) < m := by linarith
  have hk0 : (0 : ℝ) < k := by linarith
  have hmC : C / η ≤ m := le_trans (Nat.le_ceil _) (by exact_mod_cast (show ⌈C / η⌉₊ ≤ m by omega))
  have h1 : 2 * (k * (k * m)) * Real.exp (-(2 * δ ^ 2 * m)) ≤ 12 * k ^ 2 / (2 * δ ^ 2) ^ 3 / m := by
    refine le_trans (mul_le_mul_of_nonneg_left (exp_neg_le _ (by positivity)) (by positivity)) ?_
    have e : 2 * (k * (k * m)) * (6 / (2 * δ ^ 2 * m) ^ 3) = 12 * k ^ 2 / (2 * δ ^ 2) ^ 3 / m * (1 / m) := by
      field_simp
      ring
    rw [e]
    exact mul_le_of_le_one_right (by positivity) ((div_le_one hm0).2 hm1)
  have h2 : 2 * (k * m) ^ 2 * Real.exp (-(δ ^ 2 * (k * m) / 2)) ≤ 12 / (δ ^ 2 / 2) ^ 3 / m := by
    refine le_trans (mul_le_mul_of_nonneg_left (exp_neg_le _ (by positivity)) (by positivity)) ?_
    have e : 2 * ((k : ℝ) * m) ^ 2 * (6 / (δ ^ 2 * (k * m) / 2) ^ 3) = 12 / (δ ^ 2 / 2) ^ 3 / m * (1 / k) := by
      field_simp
      ring
    rw [e]
    exact mul_le_of_le_one_right (by positivity) ((div_le_one hk0).2 hk1)
  refine le_trans (add_le_add h1 h2) ?_
  rw [← add_div, ← hC, div_le_iff₀ hm0]
  exact (div_le_iff₀' hη).1 hmC

section
variable {Θ : Type} [MeasurableSpace Θ] (μ : Measure Θ) [IsProbabilityMeasure μ]
  (X : Nat → Θ → ℝ) (hmeas : ∀ n, Measurable (X n)) (hind : iIndepFun X μ)
  (hunif : ∀ n p, 0 ≤ p → p ≤ 1 → μ {θ | X n θ < p} = ENNReal.ofReal p)
  (R : Θ → Rng ℝ Nat)
  (hR : ∀ θ n p, 0 ≤ p → p ≤ 1 → (R θ).coin p n = (decide (X n θ < p), n + 1))
include hmeas hind hunif hR

/-- **C86** (recovery).  Let `δ m ≥ 1`, `8 k δ ≤ p + (k - 1) q`, `32 k² δ ≤ (p - q)²`, let `E = 64 k⁴ δ² / (p - q)²` and
`c > 0` with `2 (E + c) < 1/2`.  With independent uniform random numbers, `sbm (k m, k, p, q)` in exact mode returns, except
with probability at most `2 k² m exp (-2 δ² m) + 2 (k m)² exp (-δ² k m / 2)`, a graph with the following property: whatever
eigenvectors the solver finds, k-means on the embedding of `spectral_cluster` (with `100 k` iterations and independent
uniform random numbers) labels all but `4 (E + c) n` vertices by their planted cluster, up to the names of the clusters,
except with probability at most `8 (ln k + 2) E / c`. -/
theorem C86_recovery (fuel : Nat) {k m : Nat} {p q δ : ℝ} (hk : 1 ≤ k) (hm : 2 ≤ m) (hq : 0 ≤ q) (hpq : q < p)
    (hp : p ≤ 1) (hδm : 1 ≤ δ * m) (h1 : 8 * k * δ ≤ p + (k - 1) * q) (h2 : 32 * k ^ 2 * δ ≤ (p - q) ^ 2)
    (E c : ℝ) (hE : E = 64 * k ^ 4 * δ ^ 2 / (p - q) ^ 2) (hc : 0 < c) (hsmall : 2 * (E + c) < 1 / 2) :
    μ {θ | ¬ ∃ g ω', sbm (R θ) fuel (k * m : Nat) k p q true 0 = some (.ok g, ω') ∧ g.n = k * m ∧
      ∀ solve, SolverSpec solve → ∀ res, computeEigensystem solve g .normalisedLaplacian k .smallest = .ok res →
        ∀ Mu Z junk, ENNReal.ofReal c * streamLaw unif {u | ¬ ∃ r,
          KMeans.runKMeans (embedding (res.map Prod.snd)) (k * m) k k (k * 100 : Nat) u Mu Z junk = .ok r ∧
          ∃ σ : Equiv.Perm (Fin k),
            (((range (k * m)).filter fun u => ∃ i : Fin k, u / m = i ∧ r.2 u ≠ σ i).card : ℝ)
              ≤ 4 * (E + c) * (k * m)} ≤ ENNReal.ofReal (8 * (Real.log k + 2) * E)} ≤
      ENNReal.ofReal (2 * (k * (k * m)) * Real.exp (-(2 * δ ^ 2 * m)) +
        2 * (k * m) ^ 2 * Real.exp (-(δ ^ 2 * (k * m) / 2))) := by
  have hm0 : (0 : ℝ) < m := by exact_mod_cast (show 0 < m by omega)
  have hk0 : (0 : ℝ) < k := by exact_mod_cast (show 0 < k by omega)
  have hδ : 0 < δ := by
    by_contra hn
    have : δ * m ≤ 0 := mul_nonpos_of_nonpos_of_nonneg (not_lt.1 hn) hm0.le
    linarith
  obtain ⟨hvis, hdef⟩ := visible_explicit hk hm hq hpq hδm h1 h2
  rw [← hE] at hdef
  have hp' : 0 ≤ p ∧ p ≤ 1 := ⟨by linarith, hp⟩
  have hq' : 0 ≤ q ∧ q ≤ 1 := ⟨hq, by linarith⟩
  have hty := C86_typical μ X hmeas hind hunif R hR fuel hk hm hp' hq' (δ * m) (δ * (k * m)) (by positivity)
    (by positivity)
  refine le_trans (measure_mono fun θ hθ => ?_) (le_trans hty (le_of_eq ?_))
  · rw [Set.mem_ofPred_eq] at hθ ⊢
    rintro ⟨g, ω', hg, hst⟩
    refine hθ ⟨g, ω', hg, hst.typ.size, fun solve hsolve res hres Mu Z junk => ?_⟩
    have hkm := KMeans.C86_kmeans hst hk hm hp' hq' hvis solve hsolve res hres Mu Z junk c hc (by linarith)
    have hn : g.n = k * m := hst.typ.size
    rw [hn] at hkm
    have hlog : 0 ≤ Real.log k := Real.log_natCast_nonneg k
    refine le_trans (mul_le_mul_right (measure_mono fun u hu => ?_) _) (le_trans hkm (ENNReal.ofReal_le_ofReal (by gcongr)))
    rw [Set.mem_ofPred_eq] at hu ⊢
    rintro ⟨r, hr, σ, hσ⟩
    refine hu ⟨r, hr, σ, le_trans hσ ?_⟩
    push_cast
    gcongr
  · congr 1
    have e1 : 2 * (δ * m) ^ 2 / m = 2 * δ ^ 2 * m := by field_simp
    have e2 : (δ * (k * m)) ^ 2 / (2 * (k * m)) = δ ^ 2 * (k * m) / 2 := by field_simp
    rw [e1, e2]

/-- **C86** (consistency).  Let `0 ≤ q < p ≤ 1` and `k` be fixed.  For every `η > 0` and all sufficiently large `m`,
with probability at least `1 - η` the graph of `sbm (k m, k, p, q)` is such that k-means on the embedding of
`spectral_cluster` labels, with probability at least `1 - η`, all but a fraction `η` of the vertices by their cluster. -/
theorem C86_consistent {k : Nat} {p q : ℝ} (hk : 1 ≤ k) (hq : 0 ≤ q) (hpq : q < p) (hp : p ≤ 1) (η : ℝ) (hη : 0 < η) :
    ∃ M, ∀ m, M ≤ m → ∀ fuel,
    μ {θ | ¬ ∃ g ω', sbm (R θ) fuel (k * m : Nat) k p q true 0 = some (.ok g, ω') ∧ g.n = k * m ∧
      ∀ solve, SolverSpec solve → ∀ res, computeEigensystem solve g .normalisedLaplacian k .smallest = .ok res →
        ∀ Mu Z junk, streamLaw unif {u | ¬ ∃ r,
          KMeans.runKMeans (embedding (res.map Prod.snd)) (k * m) k k (k * 100 : Nat) u Mu Z junk = .ok r ∧
          ∃ σ : Equiv.Perm (Fin k),
            (((range (k * m)).filter fun u => ∃ i : Fin k, u / m = i ∧ r.2 u ≠ σ i).card : ℝ)
              ≤ η * (k * m)} ≤ ENNReal.ofReal η} ≤ ENNReal.ofReal η := by
  have hk1 : (1 : ℝ) ≤ k := by exact_mod_cast hk
  have hk0 : (0 : ℝ) < k := by linarith
  have hlog : 0 ≤ Real.log k := Real.log_natCast_nonneg k
  have hpq' : 0 < p - q := by linarith
  have hD : 0 < p + (k - 1) * q := by
    have : 0 ≤ (k - 1) * q := mul_nonneg (by linarith) hq
    linarith
  obtain ⟨c, hce⟩ : ∃ c : ℝ, c = min η 1 / 32 := ⟨_, rfl⟩
  have hc0 : 0 < c := by rw [hce]; have : 0 < min η 1 := lt_min hη one_pos; positivity
  have hcη : 32 * c ≤ η := by rw [hce]; have := min_le_left η 1; linarith
  have hc1 : 32 * c ≤ 1 := by rw [hce]; have := min_le_right η 1; linarith
  obtain ⟨L, hL⟩ : ∃ L : ℝ, L = 8 * (Real.log k + 2) := ⟨_, rfl⟩
  have hL0 : 0 < L := by rw [hL]; positivity
  obtain ⟨δ, hδe⟩ : ∃ δ : ℝ, δ = min (min ((p + (k - 1) * q) / (8 * k)) ((p - q) ^ 2 / (32 * k ^ 2)))
    (min (c / (2 * k ^ 2)) (c * η / L / (2 * k ^ 2))) := ⟨_, rfl⟩
  have hδ : 0 < δ := by
    rw [hδe]
    exact lt_min (lt_min (by positivity) (by positivity)) (lt_min (by positivity) (by positivity))
  have h1 : 8 * k * δ ≤ p + (k - 1) * q := by
    have : δ ≤ (p + (k - 1) * q) / (8 * k) := by rw [hδe]; exact (min_le_left _ _).trans (min_le_left _ _)
    rw [le_div_iff₀ (by positivity)] at this
    linarith
  have h2 : 32 * k ^ 2 * δ ≤ (p - q) ^ 2 := by
    have : δ ≤ (p - q) ^ 2 / (32 * k ^ 2) := by rw [hδe]; exact (min_le_left _ _).trans (min_le_right _ _)
    rw [le_div_iff₀ (by positivity)] at this
    linarith
  have h3 : 2 * k ^ 2 * δ ≤ c := by
    have : δ ≤ c / (2 * k ^ 2) := by rw [hδe]; exact (min_le_right _ _).trans (min_le_left _ _)
    rw [le_div_iff₀ (by positivity)] at this
    linarith
  have h4 : L * (2 * k ^ 2 * δ) ≤ c * η := by
    have : δ ≤ c * η / L / (2 * k ^ 2) := by rw [hδe]; exact (min_le_right _ _).trans (min_le_right _ _)
    rw [le_div_iff₀ (by positivity), le_div_iff₀ hL0] at this
    linarith
  obtain ⟨E, hE⟩ : ∃ E : ℝ, E = 64 * k ^ 4 * δ ^ 2 / (p - q) ^ 2 := ⟨_, rfl⟩
  have hEle : E ≤ 2 * k ^ 2 * δ := by
    rw [hE, div_le_iff₀ (by positivity)]
    have := mul_le_mul_of_nonneg_left h2 (show (0 : ℝ) ≤ 2 * k ^ 2 * δ by positivity)
    have e : 2 * k ^ 2 * δ * (32 * k ^ 2 * δ) = 64 * k ^ 4 * δ ^ 2 := by ring
    linarith
  obtain ⟨M, hM⟩ := atypical_small k hk δ η hδ hη
  refine ⟨max M (⌈1 / δ⌉₊ + 2), fun m hm fuel => ?_⟩
  have hm2 : 2 ≤ m := by have := le_trans (le_max_right _ _) hm; omega
  have hδm : 1 ≤ δ * m := by
    have : 1 / δ ≤ m := le_trans (Nat.le_ceil _) (by
      exact_mod_cast (show ⌈1 / δ⌉₊ ≤ m by have := le_trans (le_max_right _ _) hm; omega))
    exact (div_le_iff₀' hδ).1 this
  refine le_trans (measure_mono fun θ hθ => ?_) (le_trans (C86_recovery μ X hmeas hind hunif R hR fuel hk hm2 hq hpq hp
    hδm h1 h2 E c hE hc0 (by linarith)) (ENNReal.ofReal_le_ofReal (hM m (le_trans (le_max_left _ _) hm))))
  rw [Set.mem_ofPred_eq] at hθ ⊢
  rintro ⟨g, ω', hg, hn, hall⟩
  refine hθ ⟨g, ω', hg, hn, fun solve hsolve res hres Mu Z junk => ?_⟩
  have h5 := hall solve hsolve res hres Mu Z junk
  have h6 : 8 * (Real.log k + 2) * E ≤ c * η := by
    rw [← hL]
    exact le_trans (mul_le_mul_of_nonneg_left hEle hL0.le) h4
  have h7 := le_trans h5 (ENNReal.ofReal_le_ofReal h6)
  rw [ENNReal.ofReal_mul hc0.le] at h7
  have h8 := (ENNReal.mul_le_mul_iff_right (by simpa using hc0) ENNReal.ofReal_ne_top).1 h7
  refine le_trans (measure_mono fun u hu => ?_) h8
  rw [Set.mem_ofPred_eq] at hu ⊢
  rintro ⟨r, hr, σ, hσ⟩
  refine hu ⟨r, hr, σ, le_trans hσ ?_⟩
  gcongr
  linarith

end
/-- The hypotheses are met: there are such random numbers, and for them, for example, two clusters with `p = 1/2` and
`q = 1/10` are found. -/
example : ∃ (μ : Measure (Nat → ℝ)) (R : (Nat → ℝ) → Rng ℝ Nat), IsProbabilityMeasure μ ∧ ∃ M, ∀ m, M ≤ m → ∀ fuel,
    μ {θ | ¬ ∃ g ω', sbm (R θ) fuel (2 * m : Nat) 2 (1 / 2) (1 / 10) true 0 = some (.ok g, ω') ∧ g.n = 2 * m ∧
      ∀ solve, SolverSpec solve → ∀ res, computeEigensystem solve g .normalisedLaplacian 2 .smallest = .ok res →
        ∀ Mu Z junk, streamLaw unif {u | ¬ ∃ r,
          KMeans.runKMeans (embedding (res.map Prod.snd)) (2 * m) 2 2 (200 : Nat) u Mu Z junk = .ok r ∧
          ∃ σ : Equiv.Perm (Fin 2),
            (((range (2 * m)).filter fun u => ∃ i : Fin 2, u / m = i ∧ r.2 u ≠ σ i).card : ℝ)
              ≤ 1 / 100 * (2 * m)} ≤ ENNReal.ofReal (1 / 100)} ≤ ENNReal.ofReal (1 / 100) := by
  obtain ⟨μ, X, R, hμ, hm, hind, hunif, hR⟩ := draws_exist
  refine ⟨μ, R, hμ, ?_⟩
  have := C86_consistent μ X hm hind hunif R hR (k := 2) (p := 1 / 2) (q := 1 / 10) (by norm_num) (by norm_num)
    (by norm_num) (by norm_num) (1 / 100) (by norm_num)
  push_cast at this
  exact this

/-- The clusters of a typical graph with `k = 2`, `p = 1`, `q = 0`, `m = 10⁴` are visible for `a = t = 100`. -/
example : Visible 2 10000 1 0 100 100 := by
  have hs : Real.sqrt (2 * 10000 * (1 + 100)) < 2000 := by
    rw [Real.sqrt_lt' (by norm_num)]
    norm_num
  refine ⟨by norm_num, by norm_num, ?_, ?_⟩
  · unfold blockDegree
    norm_num
  · unfold blockDegree
    push_cast
    refine lt_trans hs ?_
    norm_num

end Stag
