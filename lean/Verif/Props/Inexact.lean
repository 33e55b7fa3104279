import Verif.InexactMath
import Verif.Props.SpectralRecovery
import Verif.Props.CheegerExamples

/-!
# C96: the Cheeger cut and spectral clustering with approximate eigenvectors

`solve` is any solver; nothing is assumed of it but what is said about the pairs it returned.  `solve₀` is an exact
solver, which only serves to name the exact eigenvalues (`C53_always_answers` says that there is one).
-/

namespace Stag

open Finset Recovery

section
variable {g : Graph ℝ}

/-- **C96** (any vector).  Whatever the solver returned: let `v` be the vector that `cheeger_cut` uses, that of the larger
of the two values, and `D` the squared length of the part of `v` orthogonal to the square roots `√deg` of the degrees.  If
`D > 0`, the returned cut is not trivial and its conductance `φ` has `φ² D ≤ 2 v' L v`. -/
theorem C96_any_vector (solve : EigenSolver) (h : g.Reachable) (hw : ∀ u v, 0 ≤ g.abs.w u v)
    (hloop : ∀ v, g.abs.w v v = 0) (hd : ∀ v, v < g.n → 0 < g.abs.deg v) (p q : ℝ × (Nat → ℝ)) (rest : EigenPairs)
    (hres : computeEigensystem solve g .normalisedLaplacian 2 .smallest = .ok (p :: q :: rest)) (v : Nat → ℝ)
    (hv : v = if q.1 < p.1 then p.2 else q.2)
    (hD : 0 < dot g.n v v - dot g.n v (fun i => Real.sqrt (g.abs.deg i)) ^ 2 / g.abs.vol (range g.n)) :
    ∃ labels, cheegerCut solve g = .ok labels ∧
      0 < g.abs.vol (labelSet labels) ∧ 0 < g.abs.vol (range g.n \ labelSet labels) ∧
      g.abs.phi (labelSet labels) ^ 2 *
          (dot g.n v v - dot g.n v (fun i => Real.sqrt (g.abs.deg i)) ^ 2 / g.abs.vol (range g.n))
        ≤ 2 * quadForm g.n (matrixOf g.abs .normalisedLaplacian) v :=
  cheegerCut_quality solve h hw hloop hd p q rest hres v hv _ hD rfl

/-- **C96** (residual).  Let `(l, v)` be the pair that `cheeger_cut` uses, that of the larger value, with `v` of length 1 and
a residual `|L v - l v| ≤ r < l`.  Then the cut is not trivial and its conductance is at most
`√(2 (l + r) / (1 - (r / l)²))`. -/
theorem C96_residual (solve : EigenSolver) (h : g.Reachable) (hw : ∀ u v, 0 ≤ g.abs.w u v)
    (hloop : ∀ v, g.abs.w v v = 0) (hd : ∀ v, v < g.n → 0 < g.abs.deg v) (p q : ℝ × (Nat → ℝ)) (rest : EigenPairs)
    (hres : computeEigensystem solve g .normalisedLaplacian 2 .smallest = .ok (p :: q :: rest)) (l : ℝ) (v : Nat → ℝ)
    (hlv : (l, v) = if q.1 < p.1 then p else q) (hunit : dot g.n v v = 1) (r : ℝ) (hr0 : 0 ≤ r) (hrl : r < l)
    (hr : residual2 g.n (matrixOf g.abs .normalisedLaplacian) l v ≤ r ^ 2) :
    ∃ labels, cheegerCut solve g = .ok labels ∧
      0 < g.abs.vol (labelSet labels) ∧ 0 < g.abs.vol (range g.n \ labelSet labels) ∧
      g.abs.phi (labelSet labels) ≤ Real.sqrt (2 * (l + r) / (1 - (r / l) ^ 2)) := by
  have hn : 2 < g.n := by
    by_contra hn
    unfold computeEigensystem at hres
    rw [if_pos (by omega)] at hres
    cases hres
  have hl : 0 < l := lt_of_le_of_lt hr0 hrl
  obtain ⟨M, hM⟩ : ∃ M, M = matrixOf g.abs .normalisedLaplacian := ⟨_, rfl⟩
  have hMs : ∀ i < g.n, ∀ j < g.n, M i j = M j i := fun i _ j _ => by rw [hM]; exact matrixOf_symm h _ i j
  have hv : v = if q.1 < p.1 then p.2 else q.2 := by
    by_cases hc : q.1 < p.1
    · rw [if_pos hc] at hlv ⊢; exact congrArg Prod.snd hlv
    · rw [if_neg hc] at hlv ⊢; exact congrArg Prod.snd hlv
  obtain ⟨s, hs⟩ : ∃ s : Nat → ℝ, s = fun i => Real.sqrt (g.abs.deg i) := ⟨_, rfl⟩
  have hvol : 0 < g.abs.vol (range g.n) :=
    Finset.sum_pos (fun a ha => hd a (Finset.mem_range.1 ha)) ⟨0, Finset.mem_range.2 (by omega)⟩
  have hss : dot g.n s s = g.abs.vol (range g.n) := by
    rw [hs]
    unfold dot WGraph.vol
    exact Finset.sum_congr rfl fun i hi => Real.mul_self_sqrt (hd i (mem_range.1 hi)).le
  have hMs0 : dot g.n s (mulv g.n M v) = 0 := by
    rw [← mulv_symm hMs]
    refine Eq.trans (dot_congr (y := fun i => 0 * s i) (b := v) ?_ (fun _ _ => rfl)) ?_
    · intro i hi
      have := zero_eigen hloop hd i hi
      rw [hM, hs]
      exact this
    · rw [dot_smul_left, zero_mul]
  obtain ⟨ρ, hρ⟩ : ∃ ρ : Nat → ℝ, ρ = fun i => mulv g.n M v i - l * v i := ⟨_, rfl⟩
  have hρρ : dot g.n ρ ρ ≤ r ^ 2 := by
    rw [hρ, ← residual2_eq, hM]; exact hr
  have h1 : dot g.n s ρ = - (l * dot g.n s v) := by
    rw [hρ, dot_sub_right, dot_smul_right, hMs0]; ring
  have h2 : dot g.n v ρ = quadForm g.n M v - l := by
    rw [hρ, dot_sub_right, dot_smul_right, hunit, quadForm_dot]; ring
  have c1 := dot_cs g.n s ρ
  have c2 := dot_cs g.n v ρ
  rw [h1, hss] at c1
  rw [h2, hunit, one_mul] at c2
  have hq : quadForm g.n M v ≤ l + r := by
    have := abs_le_of_sq_le_sq (le_trans c2 hρρ) hr0
    linarith [(abs_le.1 (abs_le_of_sq_le_sq (le_trans c2 hρρ) hr0)).2]
  have hmean : dot g.n v s ^ 2 / g.abs.vol (range g.n) ≤ (r / l) ^ 2 := by
    rw [dot_comm, div_le_iff₀ hvol, div_pow, div_mul_eq_mul_div, le_div_iff₀ (pow_pos hl 2)]
    have : (-(l * dot g.n s v)) ^ 2 ≤ g.abs.vol (range g.n) * r ^ 2 :=
      le_trans c1 (mul_le_mul_of_nonneg_left hρρ hvol.le)
    linarith [this, show (-(l * dot g.n s v)) ^ 2 = dot g.n s v ^ 2 * l ^ 2 by ring]
  have hrl1 : 0 < 1 - (r / l) ^ 2 := by
    have h0 : 0 ≤ r / l := div_nonneg hr0 hl.le
    have h1 : r / l < 1 := (div_lt_one hl).2 hrl
    nlinarith
  have hD : 1 - (r / l) ^ 2 ≤ dot g.n v v - dot g.n v s ^ 2 / g.abs.vol (range g.n) := by
    rw [hunit]; linarith
  obtain ⟨labels, k1, k2, k3, k4⟩ := C96_any_vector solve h hw hloop hd p q rest hres v hv (by
    rw [← hs]; exact lt_of_lt_of_le hrl1 hD)
  refine ⟨labels, k1, k2, k3, Real.le_sqrt_of_sq_le ?_⟩
  rw [le_div_iff₀ hrl1]
  rw [← hs, ← hM] at k4
  have := mul_le_mul_of_nonneg_left hD (sq_nonneg (g.abs.phi (labelSet labels)))
  linarith

/-- **C96** (nearly optimal).  If, besides, the value `l` exceeds the exact second eigenvalue by at most `τ`, then no
non-trivial set `T` of vertices has a conductance so small that `√(2 (2 φ(T) + τ + r) / (1 - (r / l)²))` is below that of
the returned cut. -/
theorem C96_nearly_optimal (solve solve₀ : EigenSolver) (hsolve₀ : SolverSpec solve₀) (h : g.Reachable)
    (hw : ∀ u v, 0 ≤ g.abs.w u v)
    (hloop : ∀ v, g.abs.w v v = 0) (hd : ∀ v, v < g.n → 0 < g.abs.deg v) (p q : ℝ × (Nat → ℝ)) (rest : EigenPairs)
    (hres : computeEigensystem solve g .normalisedLaplacian 2 .smallest = .ok (p :: q :: rest)) (l : ℝ) (v : Nat → ℝ)
    (hlv : (l, v) = if q.1 < p.1 then p else q) (hunit : dot g.n v v = 1) (r : ℝ) (hr0 : 0 ≤ r) (hrl : r < l)
    (hr : residual2 g.n (matrixOf g.abs .normalisedLaplacian) l v ≤ r ^ 2) (l₁ l₂ τ : ℝ)
    (hl₂ : computeEigenvalues solve₀ g .normalisedLaplacian 2 .smallest = .ok [l₁, l₂]) (hτ : l ≤ l₂ + τ)
    (T : Finset Nat) (hT : T ⊆ range g.n) (hT1 : T.Nonempty) (hT2 : T ≠ range g.n) :
    ∃ labels, cheegerCut solve g = .ok labels ∧
      0 < g.abs.vol (labelSet labels) ∧ 0 < g.abs.vol (range g.n \ labelSet labels) ∧
      g.abs.phi (labelSet labels) ≤ Real.sqrt (2 * (2 * g.abs.phi T + τ + r) / (1 - (r / l) ^ 2)) := by
  obtain ⟨labels, k1, k2, k3, k4⟩ := C96_residual solve h hw hloop hd p q rest hres l v hlv hunit r hr0 hrl hr
  refine ⟨labels, k1, k2, k3, le_trans k4 (Real.sqrt_le_sqrt ?_)⟩
  have hl : 0 < l := lt_of_le_of_lt hr0 hrl
  have hrl1 : 0 < 1 - (r / l) ^ 2 := by
    have h0 : 0 ≤ r / l := div_nonneg hr0 hl.le
    have h1 : r / l < 1 := (div_lt_one hl).2 hrl
    nlinarith
  have := C61_lower_bound solve₀ hsolve₀ h hw hloop hd l₁ l₂ hl₂ T hT hT1 hT2
  refine div_le_div_of_nonneg_right ?_ hrl1.le
  linarith

/-! ## Spectral clustering -/

theorem unitOf_on {n k : Nat} (S : Nat → Nat) (hS : ∀ i < k, ∃ u < n, S u = i) :
    ON n k (fun i => unitOf (KMeans.cluster n S i)) := by
  intro i hi j hj
  beta_reduce
  split_ifs with hij
  · subst hij
    rw [dot_unitOf_self n _ (cluster_sub _ _ _), if_pos]
    obtain ⟨u, hu, hui⟩ := hS i hi
    exact ⟨u, mem_filter.2 ⟨mem_range.2 hu, hui⟩⟩
  · have := unitOf_unitOf n (KMeans.cluster n S i) (KMeans.cluster n S j) (cluster_sub _ _ _)
    rw [cluster_inter n S hij] at this
    simpa using this

/-- The clusters are near the span of the family that the returned vectors approximate. -/
theorem approx_span (solve₀ : EigenSolver) (hsolve₀ : SolverSpec solve₀) (h : g.Reachable)
    (hw : ∀ u v, 0 ≤ g.abs.w u v) (hloop : ∀ v, g.abs.w v v = 0) (hd : ∀ v, v < g.n → 0 < g.abs.deg v) (k : Nat)
    (res₀ : EigenPairs) (hres₀ : computeEigensystem solve₀ g .normalisedLaplacian k .smallest = .ok res₀) (l : ℝ)
    (hl : 0 < l)
    (hgap : ∀ m v, IsEigen g.n (matrixOf g.abs .normalisedLaplacian) m v → (∃ i < g.n, v i ≠ 0) →
      (∀ p ∈ res₀, dot g.n p.2 v = 0) → l ≤ m)
    (res : EigenPairs) (δ ε : ℝ) (hε : 0 ≤ ε)
    (happ : ApproxSystem g.n (matrixOf g.abs .normalisedLaplacian) k res l δ ε)
    (S : Nat → Nat) (hS : ∀ i < k, ∃ u < g.n, S u = i) :
    ∃ w, ON g.n k w ∧
      ∑ j ∈ range k, ∑ u ∈ range g.n, (embedding (res.map Prod.snd) u j - w j u) ^ 2 ≤ δ ^ 2 ∧
      ∑ i ∈ range k, resid g.n k w (unitOf (KMeans.cluster g.n S i))
        ≤ (Real.sqrt (g.abs.clusterDefect l k S) + ε) ^ 2 := by
  have hex := C53_eigensystem solve₀ hsolve₀ h hw _ k .smallest (fun _ => hd) res₀ hres₀
  rw [Int.toNat_natCast] at hex
  obtain ⟨hlen, w, μ, hon, hdist, hμ, hresid⟩ := happ
  have hf := embedding_on hex
  refine ⟨w, hon, ?_, ?_⟩
  · refine le_trans (le_of_eq (Finset.sum_congr rfl fun j hj => Finset.sum_congr rfl fun u _ => ?_)) hdist
    have hj := mem_range.1 hj
    unfold embedding
    rw [List.getD_eq_getElem _ _ (by simpa using (show j < res.length by omega)), List.getElem_map,
      List.getD_eq_getElem]
  · refine le_trans (resid_transfer hf hon (unitOf_on S hS)) ?_
    have h1 := Real.sqrt_le_sqrt (sum_resid h hw hloop hd hex l hl hgap S hS)
    have h2 : Real.sqrt (∑ j ∈ range k, resid g.n k w (fun u => embedding (res₀.map Prod.snd) u j)) ≤ ε := by
      refine Real.sqrt_le_iff.2 ⟨hε, ?_⟩
      rw [resid_swap hf hon]
      refine le_trans (Finset.sum_le_sum fun j hj => ?_) hresid
      refine resid_residual hf (fun i _ j _ => matrixOf_symm h _ i j) (fun j => (res₀.getD j (0, 0)).1)
        (fun j hj => embedding_eigen hex j hj) l ?_ (w j) (μ j) (hμ j (mem_range.1 hj))
      intro m v hv hne ho
      refine hgap m v hv hne fun p hp => ?_
      obtain ⟨j, hj, hpj⟩ := embedding_all hex p hp
      rw [hpj]
      exact ho j hj
    gcongr

/-- **C96** (the clusters are visible in the embedding).  Let all eigenvalues beyond the `k` smallest be at least `l > 0`, and
let the pairs returned by the solver be an approximate system with errors `δ` and `ε`.  In the embedding that
`spectral_cluster` gives to k-means, the clusters `S` have k-means cost at most `(√defect + ε + δ)²`. -/
theorem C96_embedding (solve solve₀ : EigenSolver) (hsolve₀ : SolverSpec solve₀) (h : g.Reachable)
    (hw : ∀ u v, 0 ≤ g.abs.w u v) (hloop : ∀ v, g.abs.w v v = 0) (hd : ∀ v, v < g.n → 0 < g.abs.deg v) (k : Nat)
    (res₀ : EigenPairs) (hres₀ : computeEigensystem solve₀ g .normalisedLaplacian k .smallest = .ok res₀) (l : ℝ)
    (hl : 0 < l)
    (hgap : ∀ m v, IsEigen g.n (matrixOf g.abs .normalisedLaplacian) m v → (∃ i < g.n, v i ≠ 0) →
      (∀ p ∈ res₀, dot g.n p.2 v = 0) → l ≤ m)
    (res : EigenPairs) (_hres : computeEigensystem solve g .normalisedLaplacian k .smallest = .ok res)
    (δ ε : ℝ) (hδ : 0 ≤ δ) (hε : 0 ≤ ε)
    (happ : ApproxSystem g.n (matrixOf g.abs .normalisedLaplacian) k res l δ ε)
    (S : Nat → Nat) (hSk : ∀ u < g.n, S u < k) (hS : ∀ i < k, ∃ u < g.n, S u = i) :
    ∃ Mu, KMeans.cost (embedding (res.map Prod.snd)) g.n k Mu S ≤
      (Real.sqrt (g.abs.clusterDefect l k S) + ε + δ) ^ 2 := by
  obtain ⟨w, hon, hdist, hsum⟩ := approx_span solve₀ hsolve₀ h hw hloop hd k res₀ hres₀ l hl hgap res δ ε hε happ S hS
  obtain ⟨Mu, hMu⟩ : ∃ Mu, Mu = fun c j =>
    (∑ u ∈ KMeans.cluster g.n S c, w j u) / ((KMeans.cluster g.n S c).card : ℝ) := ⟨_, rfl⟩
  have hc := cost_means hon S hSk
  rw [← hMu] at hc
  refine ⟨Mu, le_trans (cost_perturb g.n k (embedding (res.map Prod.snd)) (fun u j => w j u) Mu S δ hδ hdist) ?_⟩
  have h1 : KMeans.cost (fun u j => w j u) g.n k Mu S ≤ (Real.sqrt (g.abs.clusterDefect l k S) + ε) ^ 2 := by
    rw [hc]
    refine le_trans (le_of_eq ?_) hsum
    unfold resid
    rw [Finset.sum_sub_distrib]
    congr 1
    have : ∀ i ∈ range k, dot g.n (unitOf (KMeans.cluster g.n S i)) (unitOf (KMeans.cluster g.n S i)) = 1 := by
      intro i hi
      have := unitOf_on S hS i (mem_range.1 hi) i (mem_range.1 hi)
      rwa [if_pos rfl] at this
    rw [Finset.sum_congr rfl this]
    simp
  have h2 : Real.sqrt (KMeans.cost (fun u j => w j u) g.n k Mu S) ≤ Real.sqrt (g.abs.clusterDefect l k S) + ε :=
    Real.sqrt_le_iff.2 ⟨add_nonneg (Real.sqrt_nonneg _) hε, h1⟩
  have h3 := Real.sqrt_nonneg (KMeans.cost (fun u j => w j u) g.n k Mu S)
  gcongr

theorem agreement_approx (solve₀ : EigenSolver) (hsolve₀ : SolverSpec solve₀) (h : g.Reachable)
    (hw : ∀ u v, 0 ≤ g.abs.w u v) (hloop : ∀ v, g.abs.w v v = 0) (hd : ∀ v, v < g.n → 0 < g.abs.deg v) (k : Nat)
    (res₀ : EigenPairs) (hres₀ : computeEigensystem solve₀ g .normalisedLaplacian k .smallest = .ok res₀) (l : ℝ)
    (hl : 0 < l)
    (hgap : ∀ m v, IsEigen g.n (matrixOf g.abs .normalisedLaplacian) m v → (∃ i < g.n, v i ≠ 0) →
      (∀ p ∈ res₀, dot g.n p.2 v = 0) → l ≤ m)
    (res : EigenPairs) (δ ε : ℝ) (hδ : 0 ≤ δ) (hε : 0 ≤ ε)
    (happ : ApproxSystem g.n (matrixOf g.abs .normalisedLaplacian) k res l δ ε)
    (S : Nat → Nat) (hS : ∀ i < k, ∃ u < g.n, S u = i) (A : Nat → Nat) (hA : ∀ u < g.n, A u < k)
    (Mu : Nat → Nat → ℝ) :
    (k : ℝ) - 2 * ((Real.sqrt (g.abs.clusterDefect l k S) + ε) ^ 2 +
        (Real.sqrt (KMeans.cost (embedding (res.map Prod.snd)) g.n k Mu A) + δ) ^ 2)
      ≤ agreement g.n k S A := by
  obtain ⟨w, hon, hdist, hsum⟩ := approx_span solve₀ hsolve₀ h hw hloop hd k res₀ hres₀ l hl hgap res δ ε hε happ S hS
  have h1 := agreement_ge hon S A hA hS Mu
  have h2 := cost_perturb g.n k (fun u j => w j u) (embedding (res.map Prod.snd)) Mu A δ hδ (by
    refine le_trans (le_of_eq (Finset.sum_congr rfl fun j _ => Finset.sum_congr rfl fun u _ => ?_)) hdist
    ring)
  linarith

theorem labels_lt' (solve : EigenSolver) (k : Nat)
    (hk : 1 ≤ k ∧ 2 * k ≤ g.n) (junk : Nat → ℝ) (labels : List Nat)
    (hlab : spectralCluster solve g k junk = .ok labels) :
    ∀ u < g.n, labels.getD u 0 < k := by
  unfold spectralCluster at hlab
  rw [if_neg (by omega)] at hlab
  cases hvs : computeEigenvectors solve g .normalisedLaplacian k .smallest with
  | ub => rw [hvs] at hlab; cases hlab
  | throw e => rw [hvs] at hlab; cases hlab
  | ok vs =>
    rw [hvs] at hlab
    simp only [Outcome.bind] at hlab
    by_cases hlen : vs.length < (k : Int).toNat
    · rw [if_pos hlen] at hlab; cases hlab
    rw [if_neg hlen] at hlab
    unfold KMeans.runKMeans at hlab
    cases hs : KMeans.sampleRowsPlusPlus (fun i j => vs.getD j (fun _ => 0) i) g.n (k : Int).toNat (k : Int).toNat
        (MT.draw 42) (fun _ _ => 0) junk with
    | ub => rw [hs] at hlab; cases hlab
    | throw e => rw [hs] at hlab; cases hlab
    | ok M =>
      rw [hs] at hlab
      simp only [Outcome.bind, Outcome.ok.injEq] at hlab
      subst hlab
      intro u hu
      have := (KMeans.C55_result (fun i j => vs.getD j (fun _ => 0) i) g.n (k : Int).toNat (k : Int).toNat (by omega) M
        (fun _ => 0) ((k : Int) * 100) (by omega)).1 u hu
      rw [List.getD_eq_getElem?_getD, List.getElem?_map, List.getElem?_range hu]
      simpa using this

/-- **C96** (agreement).  If the labels that `spectral_cluster` returns have k-means cost `c` in the embedding (with any
centres), they agree with the clusters `S` up to `2 ((√defect + ε)² + (√c + δ)²)`. -/
theorem C96_agreement (solve solve₀ : EigenSolver) (hsolve₀ : SolverSpec solve₀) (h : g.Reachable)
    (hw : ∀ u v, 0 ≤ g.abs.w u v) (hloop : ∀ v, g.abs.w v v = 0) (hd : ∀ v, v < g.n → 0 < g.abs.deg v) (k : Nat)
    (hk : 1 ≤ k ∧ 2 * k ≤ g.n) (junk : Nat → ℝ)
    (res₀ : EigenPairs) (hres₀ : computeEigensystem solve₀ g .normalisedLaplacian k .smallest = .ok res₀) (l : ℝ)
    (hl : 0 < l)
    (hgap : ∀ m v, IsEigen g.n (matrixOf g.abs .normalisedLaplacian) m v → (∃ i < g.n, v i ≠ 0) →
      (∀ p ∈ res₀, dot g.n p.2 v = 0) → l ≤ m)
    (res : EigenPairs) (_hres : computeEigensystem solve g .normalisedLaplacian k .smallest = .ok res)
    (δ ε : ℝ) (hδ : 0 ≤ δ) (hε : 0 ≤ ε)
    (happ : ApproxSystem g.n (matrixOf g.abs .normalisedLaplacian) k res l δ ε)
    (S : Nat → Nat) (hS : ∀ i < k, ∃ u < g.n, S u = i) (labels : List Nat)
    (hlab : spectralCluster solve g k junk = .ok labels) (Mu : Nat → Nat → ℝ) :
    (k : ℝ) - 2 * ((Real.sqrt (g.abs.clusterDefect l k S) + ε) ^ 2 +
        (Real.sqrt (KMeans.cost (embedding (res.map Prod.snd)) g.n k Mu (fun u => labels.getD u 0)) + δ) ^ 2)
      ≤ agreement g.n k S (fun u => labels.getD u 0) :=
  agreement_approx solve₀ hsolve₀ h hw hloop hd k res₀ hres₀ l hl hgap res δ ε hδ hε happ S hS _
    (labels_lt' solve k hk junk labels hlab) Mu

/-- **C96** (matching).  Let `e` be that bound.  If `e < 1/2`, the labels can be matched with the clusters: all but a
fraction `e` of the vertices with a label are in the matched cluster, all but a fraction `2 e` of the vertices of a cluster
have the matched label, and at most `2 e n` vertices do not have the label matched with their cluster. -/
theorem C96_matching (solve solve₀ : EigenSolver) (hsolve₀ : SolverSpec solve₀) (h : g.Reachable)
    (hw : ∀ u v, 0 ≤ g.abs.w u v) (hloop : ∀ v, g.abs.w v v = 0) (hd : ∀ v, v < g.n → 0 < g.abs.deg v) (k : Nat)
    (hk : 1 ≤ k ∧ 2 * k ≤ g.n) (junk : Nat → ℝ)
    (res₀ : EigenPairs) (hres₀ : computeEigensystem solve₀ g .normalisedLaplacian k .smallest = .ok res₀) (l : ℝ)
    (hl : 0 < l)
    (hgap : ∀ m v, IsEigen g.n (matrixOf g.abs .normalisedLaplacian) m v → (∃ i < g.n, v i ≠ 0) →
      (∀ p ∈ res₀, dot g.n p.2 v = 0) → l ≤ m)
    (res : EigenPairs) (hres : computeEigensystem solve g .normalisedLaplacian k .smallest = .ok res)
    (δ ε : ℝ) (hδ : 0 ≤ δ) (hε : 0 ≤ ε)
    (happ : ApproxSystem g.n (matrixOf g.abs .normalisedLaplacian) k res l δ ε)
    (S : Nat → Nat) (hSk : ∀ u < g.n, S u < k) (hS : ∀ i < k, ∃ u < g.n, S u = i) (labels : List Nat)
    (hlab : spectralCluster solve g k junk = .ok labels) (Mu : Nat → Nat → ℝ) (e : ℝ) (he : e < 1 / 2)
    (hcost : 2 * ((Real.sqrt (g.abs.clusterDefect l k S) + ε) ^ 2 +
        (Real.sqrt (KMeans.cost (embedding (res.map Prod.snd)) g.n k Mu (fun u => labels.getD u 0)) + δ) ^ 2) ≤ e) :
    ∃ σ : Equiv.Perm (Fin k),
      (∀ i : Fin k,
        (1 - e) * (KMeans.cluster g.n (fun u => labels.getD u 0) (σ i)).card
          ≤ ((KMeans.cluster g.n S i ∩ KMeans.cluster g.n (fun u => labels.getD u 0) (σ i)).card : ℝ) ∧
        (1 - 2 * e) * (KMeans.cluster g.n S i).card
          ≤ ((KMeans.cluster g.n S i ∩ KMeans.cluster g.n (fun u => labels.getD u 0) (σ i)).card : ℝ)) ∧
      (((range g.n).filter fun u => ∃ i : Fin k, S u = i ∧ labels.getD u 0 ≠ σ i).card : ℝ) ≤ 2 * e * g.n := by
  have hA : ∀ u < g.n, labels.getD u 0 < k := labels_lt' solve k hk junk labels hlab
  obtain ⟨σ, hσ⟩ := agreement_matching S (fun u => labels.getD u 0) hSk hA hS e he (by
    have := C96_agreement solve solve₀ hsolve₀ h hw hloop hd k hk junk res₀ hres₀ l hl hgap res hres δ ε hδ hε happ S hS
      labels hlab Mu
    linarith)
  exact ⟨σ, hσ, mislabelled_le S (fun u => labels.getD u 0) hSk σ e fun i => (hσ i).2⟩

/-- **C96** (exact recovery).  If the bound is below `1 / (2 n)`, `spectral_cluster` returns the clusters: two vertices
have the same label exactly when they are in the same cluster. -/
theorem C96_exact (solve solve₀ : EigenSolver) (hsolve₀ : SolverSpec solve₀) (h : g.Reachable)
    (hw : ∀ u v, 0 ≤ g.abs.w u v) (hloop : ∀ v, g.abs.w v v = 0) (hd : ∀ v, v < g.n → 0 < g.abs.deg v) (k : Nat)
    (hk : 1 ≤ k ∧ 2 * k ≤ g.n) (junk : Nat → ℝ)
    (res₀ : EigenPairs) (hres₀ : computeEigensystem solve₀ g .normalisedLaplacian k .smallest = .ok res₀) (l : ℝ)
    (hl : 0 < l)
    (hgap : ∀ m v, IsEigen g.n (matrixOf g.abs .normalisedLaplacian) m v → (∃ i < g.n, v i ≠ 0) →
      (∀ p ∈ res₀, dot g.n p.2 v = 0) → l ≤ m)
    (res : EigenPairs) (hres : computeEigensystem solve g .normalisedLaplacian k .smallest = .ok res)
    (δ ε : ℝ) (hδ : 0 ≤ δ) (hε : 0 ≤ ε)
    (happ : ApproxSystem g.n (matrixOf g.abs .normalisedLaplacian) k res l δ ε)
    (S : Nat → Nat) (hSk : ∀ u < g.n, S u < k) (hS : ∀ i < k, ∃ u < g.n, S u = i) (labels : List Nat)
    (hlab : spectralCluster solve g k junk = .ok labels) (Mu : Nat → Nat → ℝ)
    (hcost : 4 * g.n * ((Real.sqrt (g.abs.clusterDefect l k S) + ε) ^ 2 +
        (Real.sqrt (KMeans.cost (embedding (res.map Prod.snd)) g.n k Mu (fun u => labels.getD u 0)) + δ) ^ 2) < 1) :
    ∀ u < g.n, ∀ v < g.n, labels.getD u 0 = labels.getD v 0 ↔ S u = S v := by
  set d := (Real.sqrt (g.abs.clusterDefect l k S) + ε) ^ 2 +
        (Real.sqrt (KMeans.cost (embedding (res.map Prod.snd)) g.n k Mu (fun u => labels.getD u 0)) + δ) ^ 2 with hdd
  have hn : (2 : ℝ) ≤ g.n := by exact_mod_cast (show 2 ≤ g.n by omega)
  have hd0 : 0 ≤ d := add_nonneg (sq_nonneg _) (sq_nonneg _)
  have he : 2 * d < 1 / 2 := by nlinarith
  obtain ⟨σ, -, hσ⟩ := C96_matching solve solve₀ hsolve₀ h hw hloop hd k hk junk res₀ hres₀ l hl hgap res hres δ ε hδ hε
    happ S hSk hS labels hlab Mu (2 * d) he le_rfl
  have hz : ((range g.n).filter fun u => ∃ i : Fin k, S u = i ∧ labels.getD u 0 ≠ σ i).card = 0 := by
    have : ((range g.n).filter fun u => ∃ i : Fin k, S u = i ∧ labels.getD u 0 ≠ σ i).card < 1 := by
      have h1 : (((range g.n).filter fun u => ∃ i : Fin k, S u = i ∧ labels.getD u 0 ≠ σ i).card : ℝ) < 1 := by
        refine lt_of_le_of_lt hσ ?_
        nlinarith
      exact_mod_cast h1
    omega
  have hlabel : ∀ u (hu : u < g.n), labels.getD u 0 = σ ⟨S u, hSk u hu⟩ := by
    intro u hu
    by_contra hne
    have := Finset.card_eq_zero.1 hz
    have hmem : u ∈ (range g.n).filter fun u => ∃ i : Fin k, S u = i ∧ labels.getD u 0 ≠ σ i :=
      mem_filter.2 ⟨mem_range.2 hu, ⟨S u, hSk u hu⟩, rfl, hne⟩
    rw [this] at hmem
    exact notMem_empty _ hmem
  intro u hu v hv
  rw [hlabel u hu, hlabel v hv]
  constructor
  · intro h1
    exact congrArg Fin.val (σ.injective (Fin.ext h1))
  · intro h1
    congr 3

/-- **C96** (exact solvers).  An exact solver returns an approximate system with both errors zero, if its `k` eigenvalues
are below `l`: so C96 extends C84. -/
theorem C96_exact_solver (solve : EigenSolver) (hsolve : SolverSpec solve) (h : g.Reachable)
    (hw : ∀ u v, 0 ≤ g.abs.w u v) (hd : ∀ v, v < g.n → 0 < g.abs.deg v) (k : Nat)
    (res : EigenPairs) (hres : computeEigensystem solve g .normalisedLaplacian k .smallest = .ok res) (l : ℝ)
    (hl : ∀ p ∈ res, p.1 < l) :
    ApproxSystem g.n (matrixOf g.abs .normalisedLaplacian) k res l 0 0 := by
  have hex := C53_eigensystem solve hsolve h hw _ k .smallest (fun _ => hd) res hres
  rw [Int.toNat_natCast] at hex
  have hlen := hex.count
  have hmem : ∀ j < k, res.getD j (0, 0) ∈ res := fun j hj => by
    rw [List.getD_eq_getElem _ _ (by omega)]; exact List.getElem_mem _
  refine ⟨hlen, fun j => (res.getD j (0, 0)).2, fun j => (res.getD j (0, 0)).1, extreme_on hex, ?_,
    fun j hj => hl _ (hmem j hj), ?_⟩
  · simp
  · rw [Finset.sum_eq_zero]
    · norm_num
    · intro j hj
      have he := hex.eigen _ (hmem j (mem_range.1 hj))
      have : residual2 g.n (matrixOf g.abs .normalisedLaplacian) (res.getD j (0, 0)).1 (res.getD j (0, 0)).2 = 0 :=
        Finset.sum_eq_zero fun i hi => by rw [he i (mem_range.1 hi), sub_self]; norm_num
      rw [this, zero_div]

end

namespace KMeans
open MeasureTheory
open scoped ENNReal

/-- **C96** (probability).  Let the numbers drawn by k-means be independent and uniform.  With probability at least 1/2,
k-means on the embedding returns labels that agree with the clusters up to
`2 ((√defect + ε)² + (4 √(ln k + 2) (√defect + ε + δ) + δ)²)`. -/
theorem C96_probability {g : Graph ℝ} (solve solve₀ : EigenSolver) (hsolve₀ : SolverSpec solve₀) (h : g.Reachable)
    (hw : ∀ u v, 0 ≤ g.abs.w u v) (hloop : ∀ v, g.abs.w v v = 0) (hd : ∀ v, v < g.n → 0 < g.abs.deg v) (k : Nat)
    (hk : 1 ≤ k ∧ 2 * k ≤ g.n) (Mu : Nat → Nat → ℝ) (Z : Nat → Nat) (junk : Nat → ℝ)
    (res₀ : EigenPairs) (hres₀ : computeEigensystem solve₀ g .normalisedLaplacian k .smallest = .ok res₀) (l : ℝ)
    (hl : 0 < l)
    (hgap : ∀ m v, IsEigen g.n (matrixOf g.abs .normalisedLaplacian) m v → (∃ i < g.n, v i ≠ 0) →
      (∀ p ∈ res₀, dot g.n p.2 v = 0) → l ≤ m)
    (res : EigenPairs) (hres : computeEigensystem solve g .normalisedLaplacian k .smallest = .ok res)
    (δ ε : ℝ) (hδ : 0 ≤ δ) (hε : 0 ≤ ε)
    (happ : ApproxSystem g.n (matrixOf g.abs .normalisedLaplacian) k res l δ ε)
    (S : Nat → Nat) (hSk : ∀ u < g.n, S u < k) (hS : ∀ i < k, ∃ u < g.n, S u = i) :
    streamLaw unif {u | ¬ ∃ r, runKMeans (embedding (res.map Prod.snd)) g.n k k (k * 100 : Nat) u Mu Z junk = .ok r ∧
      (k : ℝ) - 2 * ((Real.sqrt (g.abs.clusterDefect l k S) + ε) ^ 2 +
        (4 * Real.sqrt (Real.log k + 2) * (Real.sqrt (g.abs.clusterDefect l k S) + ε + δ) + δ) ^ 2)
        ≤ agreement g.n k S r.2} ≤ 1 / 2 := by
  obtain ⟨Mu', hMu'⟩ := C96_embedding solve solve₀ hsolve₀ h hw hloop hd k res₀ hres₀ l hl hgap res hres δ ε hδ hε happ S
    hSk hS
  refine le_trans (measure_mono ?_) (C72_half (embedding (res.map Prod.snd)) g.n k k (by omega) (by omega)
    (k * 100 : Nat) (by omega) Mu Z junk Mu' S hSk)
  intro u hu
  rw [Set.mem_ofPred_eq] at hu ⊢
  by_contra hno
  apply hu
  have hle := not_lt.1 hno
  cases hr : runKMeans (embedding (res.map Prod.snd)) g.n k k (k * 100 : Nat) u Mu Z junk with
  | ub => rw [hr] at hle; simp [resultCost] at hle
  | throw e => rw [hr] at hle; simp [resultCost] at hle
  | ok r =>
    refine ⟨r, rfl, ?_⟩
    rw [hr] at hle
    have hlog : 0 ≤ Real.log k := Real.log_natCast_nonneg k
    have hc0 : 0 ≤ cost (embedding (res.map Prod.snd)) g.n k Mu' S :=
      Finset.sum_nonneg fun i _ => dist2_nonneg _ _ _
    have hcost : cost (embedding (res.map Prod.snd)) g.n k r.1 r.2
        ≤ 16 * (Real.log k + 2) * cost (embedding (res.map Prod.snd)) g.n k Mu' S := by
      simp only [resultCost] at hle
      exact (ENNReal.ofReal_le_ofReal_iff (by positivity)).1 hle
    have hrk : ∀ i < g.n, r.2 i < k := by
      unfold runKMeans at hr
      cases hs : sampleRowsPlusPlus (embedding (res.map Prod.snd)) g.n k k u Mu junk with
      | ub => rw [hs] at hr; cases hr
      | throw e => rw [hs] at hr; cases hr
      | ok M =>
        rw [hs] at hr
        simp only [Outcome.bind, Outcome.ok.injEq] at hr
        rw [← hr]
        exact (C55_result _ g.n k k (by omega) M Z _ (by omega)).1
    have h1 := agreement_approx solve₀ hsolve₀ h hw hloop hd k res₀ hres₀ l hl hgap res δ ε hδ hε happ S hS r.2 hrk r.1
    obtain ⟨E, hE⟩ : ∃ E, E = Real.sqrt (g.abs.clusterDefect l k S) + ε := ⟨_, rfl⟩
    have hE0 : 0 ≤ E := by rw [hE]; exact add_nonneg (Real.sqrt_nonneg _) hε
    rw [← hE] at hMu' h1 ⊢
    have h2 : Real.sqrt (cost (embedding (res.map Prod.snd)) g.n k r.1 r.2)
        ≤ 4 * Real.sqrt (Real.log k + 2) * (E + δ) := by
      refine Real.sqrt_le_iff.2 ⟨by positivity, ?_⟩
      have e : (4 * Real.sqrt (Real.log k + 2) * (E + δ)) ^ 2 = 16 * (Real.log k + 2) * (E + δ) ^ 2 := by
        rw [mul_pow, mul_pow, Real.sq_sqrt (by linarith)]; norm_num
      rw [e]
      exact le_trans hcost (mul_le_mul_of_nonneg_left hMu' (by positivity))
    have h3 : (Real.sqrt (cost (embedding (res.map Prod.snd)) g.n k r.1 r.2) + δ) ^ 2
        ≤ (4 * Real.sqrt (Real.log k + 2) * (E + δ) + δ) ^ 2 := by
      have := Real.sqrt_nonneg (cost (embedding (res.map Prod.snd)) g.n k r.1 r.2)
      gcongr
    linarith

end KMeans
end Stag
