import Verif.EquitableMath
import Verif.Spec.Equitable
import Verif.Props.SpectralRecovery

/-!
# C85: spectral clustering recovers nearly equitable clusters
-/

namespace Stag

open Finset Recovery

/-! ## From the distance of the clusters from the span of the embedding -/

section
variable {g : Graph ℝ}

/-- The distance of the clusters from the span of the embedding. -/
noncomputable def spanDefect (n k : Nat) (res : EigenPairs) (S : Nat → Nat) : ℝ :=
  ∑ i ∈ range k, resid n k (fun j u => embedding (res.map Prod.snd) u j) (unitOf (KMeans.cluster n S i))

theorem span_nonneg {n k : Nat} {M : Nat → Nat → ℝ} {res : EigenPairs} (hex : EigenExtreme (· ≤ ·) n M k res)
    (S : Nat → Nat) : 0 ≤ spanDefect n k res S :=
  Finset.sum_nonneg fun _ _ => resid_nonneg (embedding_on hex) _

theorem span_cost {n k : Nat} {M : Nat → Nat → ℝ} {res : EigenPairs} (hex : EigenExtreme (· ≤ ·) n M k res)
    (S : Nat → Nat) (hSk : ∀ u < n, S u < k) (hS : ∀ i < k, ∃ u < n, S u = i) :
    ∃ Mu, KMeans.cost (embedding (res.map Prod.snd)) n k Mu S = spanDefect n k res S := by
  refine ⟨_, (cost_means (embedding_on hex) S hSk).trans ?_⟩
  unfold spanDefect resid
  rw [Finset.sum_sub_distrib]
  congr 1
  have : ∀ i ∈ range k, dot n (unitOf (KMeans.cluster n S i)) (unitOf (KMeans.cluster n S i)) = 1 := by
    intro i hi
    rw [dot_unitOf_self n _ (cluster_sub _ _ _), if_pos]
    obtain ⟨u, hu, hui⟩ := hS i (mem_range.1 hi)
    exact ⟨u, mem_filter.2 ⟨mem_range.2 hu, hui⟩⟩
  rw [Finset.sum_congr rfl this]
  simp

/-- A clustering that agrees nearly completely is the same up to names. -/
theorem agreement_exact {n k : Nat} (S A : Nat → Nat) (hSk : ∀ u < n, S u < k) (hA : ∀ u < n, A u < k)
    (hS : ∀ i < k, ∃ u < n, S u = i) (e : ℝ) (he : 2 * e * n < 1) (he2 : e < 1 / 2)
    (h : (k : ℝ) - e ≤ agreement n k S A) : ∀ u < n, ∀ v < n, A u = A v ↔ S u = S v := by
  obtain ⟨σ, hσ⟩ := agreement_matching S A hSk hA hS e he2 h
  have hm := mislabelled_le S A hSk σ e fun i => (hσ i).2
  have hlt : (((range n).filter fun u => ∃ i : Fin k, S u = i ∧ A u ≠ σ i).card : ℝ) < 1 := lt_of_le_of_lt hm he
  have hz : ((range n).filter fun u => ∃ i : Fin k, S u = i ∧ A u ≠ σ i).card = 0 := by
    have : ((range n).filter fun u => ∃ i : Fin k, S u = i ∧ A u ≠ σ i).card < 1 := by exact_mod_cast hlt
    omega
  have hlabel : ∀ u (hu : u < n), A u = σ ⟨S u, hSk u hu⟩ := by
    intro u hu
    by_contra hne
    have := Finset.card_eq_zero.1 hz
    have hmem : u ∈ (range n).filter fun u => ∃ i : Fin k, S u = i ∧ A u ≠ σ i :=
      mem_filter.2 ⟨mem_range.2 hu, ⟨S u, hSk u hu⟩, rfl, hne⟩
    rw [this] at hmem
    exact notMem_empty _ hmem
  intro u hu v hv
  rw [hlabel u hu, hlabel v hv]
  constructor
  · intro h1
    have := σ.injective (Fin.ext h1)
    exact congrArg Fin.val this
  · intro h1
    congr 3

/-! ## The distance for nearly equitable clusters -/

theorem mulv_norm {s : WGraph ℝ} (T : Finset Nat) (hT : T ⊆ range s.n) (u : Nat) (hu : u < s.n) :
    mulv s.n (matrixOf s .normalisedLaplacian) (unitOf T) u = unitOf T u - s.normWeight u T / Real.sqrt T.card := by
  unfold mulv matrixOf WGraph.normWeight
  simp only [sub_mul]
  rw [Finset.sum_sub_distrib]
  congr 1
  · rw [Finset.sum_eq_single u]
    · rw [if_pos rfl, one_mul]
    · intro v _ hv
      rw [if_neg (Ne.symm hv), zero_mul]
    · intro h; exact absurd (mem_range.2 hu) h
  · rw [Finset.sum_div, ← Finset.sum_subset hT]
    · refine Finset.sum_congr rfl fun v hv => ?_
      unfold unitOf
      rw [if_pos hv]
      ring
    · intro v _ hv
      unfold unitOf
      rw [if_neg hv, mul_zero]

/-- The matrix of the numbers `b`. -/
noncomputable def clusterMatrix (n k : Nat) (S : Nat → Nat) (b : Nat → Nat → ℝ) (i c : Nat) : ℝ :=
  (if i = c then 1 else 0) - b c i * Real.sqrt ((KMeans.cluster n S c).card / (KMeans.cluster n S i).card)

theorem strength_form {n k : Nat} {S : Nat → Nat} {b : Nat → Nat → ℝ} {a : ℝ} (ha : WGraph.Strength n k S b a)
    (y : Nat → ℝ) :
    ∑ i ∈ range k, ∑ j ∈ range k, clusterMatrix n k S b i j * (y i * y j) ≤ (1 - a) * ∑ i ∈ range k, y i ^ 2 := by
  have e : ∑ i ∈ range k, ∑ j ∈ range k, clusterMatrix n k S b i j * (y i * y j) = ∑ i ∈ range k, y i ^ 2 -
      ∑ i ∈ range k, ∑ c ∈ range k,
        b c i * Real.sqrt ((KMeans.cluster n S c).card / (KMeans.cluster n S i).card) * (y i * y c) := by
    rw [← Finset.sum_sub_distrib]
    refine Finset.sum_congr rfl fun i hi => ?_
    simp only [clusterMatrix, sub_mul]
    rw [Finset.sum_sub_distrib]
    congr 1
    rw [Finset.sum_eq_single i]
    · rw [if_pos rfl]; ring
    · intro c _ hc
      rw [if_neg (Ne.symm hc), zero_mul]
    · intro h; exact absurd hi h
  have := ha y
  rw [e]
  linarith

/-- The normalised Laplacian nearly maps the span of the clusters into itself. -/
theorem equitable_defect {k : Nat} (S : Nat → Nat) (hSk : ∀ u < g.n, S u < k) (hS : ∀ i < k, ∃ u < g.n, S u = i)
    (b : Nat → Nat → ℝ) :
    ∑ i ∈ range k, dot g.n
      (defect g.n k (matrixOf g.abs .normalisedLaplacian) (fun i => unitOf (KMeans.cluster g.n S i)) (clusterMatrix g.n k S b) i)
      (defect g.n k (matrixOf g.abs .normalisedLaplacian) (fun i => unitOf (KMeans.cluster g.n S i)) (clusterMatrix g.n k S b) i)
      = g.abs.unevenness k S b := by
  have hcard : ∀ i < k, (0 : ℝ) < (KMeans.cluster g.n S i).card := by
    intro i hi
    obtain ⟨u, hu, hui⟩ := hS i hi
    exact_mod_cast Finset.card_pos.2 ⟨u, mem_filter.2 ⟨mem_range.2 hu, hui⟩⟩
  obtain ⟨B, hBe⟩ : ∃ B, B = clusterMatrix g.n k S b := ⟨_, rfl⟩
  have hB : B = fun i c => (if i = c then 1 else 0) -
    b c i * Real.sqrt ((KMeans.cluster g.n S c).card / (KMeans.cluster g.n S i).card) := by rw [hBe]; rfl
  rw [← hBe]
  unfold WGraph.unevenness
  refine Finset.sum_congr rfl fun i hi => ?_
  unfold dot
  refine Finset.sum_congr rfl fun u hu => ?_
  have hu' := mem_range.1 hu
  have hi' := mem_range.1 hi
  have e1 : defect g.n k (matrixOf g.abs .normalisedLaplacian) (fun i => unitOf (KMeans.cluster g.n S i)) B i u
      = -(g.abs.normWeight u (KMeans.cluster g.n S i) - b (S u) i) / Real.sqrt (KMeans.cluster g.n S i).card := by
    unfold defect
    have e2 := mulv_norm (s := g.abs) (KMeans.cluster g.n S i) (cluster_sub _ _ _) u hu'
    change mulv g.n _ _ _ = _ at e2
    rw [e2]
    have e3 : ∑ j ∈ range k, B i j * unitOf (KMeans.cluster g.n S j) u
        = unitOf (KMeans.cluster g.n S i) u - b (S u) i / Real.sqrt (KMeans.cluster g.n S i).card := by
      simp only [hB, sub_mul]
      rw [Finset.sum_sub_distrib]
      congr 1
      · rw [Finset.sum_eq_single i]
        · rw [if_pos rfl, one_mul]
        · intro c _ hc
          rw [if_neg (Ne.symm hc), zero_mul]
        · intro h; exact absurd hi h
      · rw [Finset.sum_eq_single (S u)]
        · have hm : u ∈ KMeans.cluster g.n S (S u) := mem_filter.2 ⟨hu, rfl⟩
          unfold unitOf
          rw [if_pos hm, Real.sqrt_div (Nat.cast_nonneg _)]
          have := (Real.sqrt_pos.2 (hcard _ (hSk u hu'))).ne'
          have := (Real.sqrt_pos.2 (hcard _ hi')).ne'
          field_simp
        · intro c _ hc
          unfold unitOf
          rw [if_neg, mul_zero]
          intro hm
          exact hc (mem_filter.1 hm).2.symm
        · intro h; exact absurd (mem_range.2 (hSk u hu')) h
    rw [e3]
    ring
  beta_reduce
  change defect g.n k (matrixOf g.abs .normalisedLaplacian) (fun i => unitOf (KMeans.cluster g.n S i)) B i u
    * defect g.n k (matrixOf g.abs .normalisedLaplacian) (fun i => unitOf (KMeans.cluster g.n S i)) B i u = _
  rw [e1, div_mul_div_comm, Real.mul_self_sqrt (hcard i hi').le]
  change _ = (g.abs.normWeight u (KMeans.cluster g.n S i) - b (S u) i) ^ 2 / ((KMeans.cluster g.n S i).card : ℝ)
  ring

theorem span_equitable (h : g.Reachable) {k : Nat} {res : EigenPairs}
    (hex : EigenExtreme (· ≤ ·) g.n (matrixOf g.abs .normalisedLaplacian) k res) (l : ℝ)
    (hgap : ∀ m v, IsEigen g.n (matrixOf g.abs .normalisedLaplacian) m v → (∃ i < g.n, v i ≠ 0) →
      (∀ p ∈ res, dot g.n p.2 v = 0) → l ≤ m)
    (S : Nat → Nat) (hSk : ∀ u < g.n, S u < k) (hS : ∀ i < k, ∃ u < g.n, S u = i) (b : Nat → Nat → ℝ) (a : ℝ)
    (ha : WGraph.Strength g.n k S b a) (hal : 1 - a < l) :
    spanDefect g.n k res S ≤ g.abs.unevenness k S b / (l - (1 - a)) ^ 2 := by
  have hpos : 0 < l - (1 - a) := by linarith
  rw [le_div_iff₀ (by positivity), mul_comm]
  obtain ⟨F, hF⟩ : ∃ F : Nat → Nat → ℝ, F = fun i => unitOf (KMeans.cluster g.n S i) := ⟨_, rfl⟩
  have hdk := davis_kahan (embedding_on hex) (fun i _ j _ => matrixOf_symm h _ i j) (fun j => (res.getD j (0, 0)).1)
    (fun j hj => embedding_eigen hex j hj) l (fun m v hv hne ho => hgap m v hv hne fun p hp => by
      obtain ⟨j, hj, hpj⟩ := embedding_all hex p hp
      rw [hpj]
      exact ho j hj) F (clusterMatrix g.n k S b) (1 - a) hal (strength_form ha)
  unfold spanDefect
  rw [hF, equitable_defect S hSk hS b] at hdk
  exact hdk

/-- **C85** (the clusters are visible in the embedding).  Let the numbers `b` tell the clusters apart with strength `a`, and
let all eigenvalues beyond the `k` returned ones be at least `l > 1 - a`.  In the embedding that `spectral_cluster` gives
to k-means, the clusters `S` have k-means cost at most their unevenness over `(l - (1 - a))²`. -/
theorem C85_embedding (solve : EigenSolver) (hsolve : SolverSpec solve) (h : g.Reachable)
    (hw : ∀ u v, 0 ≤ g.abs.w u v) (hd : ∀ v, v < g.n → 0 < g.abs.deg v) (k : Nat)
    (res : EigenPairs) (hres : computeEigensystem solve g .normalisedLaplacian k .smallest = .ok res) (l : ℝ)
    (hgap : ∀ m v, IsEigen g.n (matrixOf g.abs .normalisedLaplacian) m v → (∃ i < g.n, v i ≠ 0) →
      (∀ p ∈ res, dot g.n p.2 v = 0) → l ≤ m)
    (S : Nat → Nat) (hSk : ∀ u < g.n, S u < k) (hS : ∀ i < k, ∃ u < g.n, S u = i) (b : Nat → Nat → ℝ) (a : ℝ)
    (ha : WGraph.Strength g.n k S b a) (hal : 1 - a < l) :
    ∃ Mu, KMeans.cost (embedding (res.map Prod.snd)) g.n k Mu S ≤ g.abs.unevenness k S b / (l - (1 - a)) ^ 2 := by
  have hex := C53_eigensystem solve hsolve h hw _ k .smallest (fun _ => hd) res hres
  rw [Int.toNat_natCast] at hex
  obtain ⟨Mu, hMu⟩ := span_cost hex S hSk hS
  exact ⟨Mu, le_trans (le_of_eq hMu) (span_equitable h hex l hgap S hSk hS b a ha hal)⟩

/-- **C85** (agreement).  If the labels that `spectral_cluster` returns have k-means cost `c` in the embedding (with any
centres), they agree with the clusters `S` up to twice the sum of `c` and of the unevenness over `(l - (1 - a))²`. -/
theorem C85_agreement (solve : EigenSolver) (hsolve : SolverSpec solve) (h : g.Reachable)
    (hw : ∀ u v, 0 ≤ g.abs.w u v) (hd : ∀ v, v < g.n → 0 < g.abs.deg v) (k : Nat)
    (hk : 1 ≤ k ∧ 2 * k ≤ g.n) (junk : Nat → ℝ)
    (res : EigenPairs) (hres : computeEigensystem solve g .normalisedLaplacian k .smallest = .ok res) (l : ℝ)
    (hgap : ∀ m v, IsEigen g.n (matrixOf g.abs .normalisedLaplacian) m v → (∃ i < g.n, v i ≠ 0) →
      (∀ p ∈ res, dot g.n p.2 v = 0) → l ≤ m)
    (S : Nat → Nat) (hSk : ∀ u < g.n, S u < k) (hS : ∀ i < k, ∃ u < g.n, S u = i) (b : Nat → Nat → ℝ) (a : ℝ)
    (ha : WGraph.Strength g.n k S b a) (hal : 1 - a < l) (labels : List Nat)
    (hlab : spectralCluster solve g k junk = .ok labels) (Mu : Nat → Nat → ℝ) :
    (k : ℝ) - 2 * (g.abs.unevenness k S b / (l - (1 - a)) ^ 2 +
        KMeans.cost (embedding (res.map Prod.snd)) g.n k Mu (fun u => labels.getD u 0))
      ≤ agreement g.n k S (fun u => labels.getD u 0) := by
  have hex := C53_eigensystem solve hsolve h hw _ k .smallest (fun _ => hd) res hres
  rw [Int.toNat_natCast] at hex
  have hA : ∀ u < g.n, labels.getD u 0 < k := labels_lt solve hsolve h hw hd k hk junk labels hlab
  have h1 := agreement_ge (embedding_on hex) S (fun u => labels.getD u 0) hA hS Mu
  have h2 := span_equitable h hex l hgap S hSk hS b a ha hal
  unfold spanDefect at h2
  refine le_trans ?_ h1
  change (k : ℝ) - 2 * (_ + KMeans.cost (fun u j => embedding (res.map Prod.snd) u j) g.n k Mu (fun u => labels.getD u 0)) ≤ _
  linarith

/-- **C85** (matching).  Let `e` be twice the sum of the unevenness over `(l - (1 - a))²` and of the k-means cost of the
labels.  If `e < 1/2`, the labels can be matched with the clusters so that at most `2 e n` vertices do not have the label
matched with their cluster. -/
theorem C85_matching (solve : EigenSolver) (hsolve : SolverSpec solve) (h : g.Reachable)
    (hw : ∀ u v, 0 ≤ g.abs.w u v) (hd : ∀ v, v < g.n → 0 < g.abs.deg v) (k : Nat)
    (hk : 1 ≤ k ∧ 2 * k ≤ g.n) (junk : Nat → ℝ)
    (res : EigenPairs) (hres : computeEigensystem solve g .normalisedLaplacian k .smallest = .ok res) (l : ℝ)
    (hgap : ∀ m v, IsEigen g.n (matrixOf g.abs .normalisedLaplacian) m v → (∃ i < g.n, v i ≠ 0) →
      (∀ p ∈ res, dot g.n p.2 v = 0) → l ≤ m)
    (S : Nat → Nat) (hSk : ∀ u < g.n, S u < k) (hS : ∀ i < k, ∃ u < g.n, S u = i) (b : Nat → Nat → ℝ) (a : ℝ)
    (ha : WGraph.Strength g.n k S b a) (hal : 1 - a < l) (labels : List Nat)
    (hlab : spectralCluster solve g k junk = .ok labels) (Mu : Nat → Nat → ℝ) (e : ℝ) (he : e < 1 / 2)
    (hcost : 2 * (g.abs.unevenness k S b / (l - (1 - a)) ^ 2 +
        KMeans.cost (embedding (res.map Prod.snd)) g.n k Mu (fun u => labels.getD u 0)) ≤ e) :
    (∃ σ : Equiv.Perm (Fin k),
      (((range g.n).filter fun u => ∃ i : Fin k, S u = i ∧ labels.getD u 0 ≠ σ i).card : ℝ) ≤ 2 * e * g.n) ∧
    (2 * e * g.n < 1 → ∀ u < g.n, ∀ v < g.n, labels.getD u 0 = labels.getD v 0 ↔ S u = S v) := by
  have hA : ∀ u < g.n, labels.getD u 0 < k := labels_lt solve hsolve h hw hd k hk junk labels hlab
  have hag := C85_agreement solve hsolve h hw hd k hk junk res hres l hgap S hSk hS b a ha hal labels hlab Mu
  have hag' : (k : ℝ) - e ≤ agreement g.n k S (fun u => labels.getD u 0) := by linarith
  obtain ⟨σ, hσ⟩ := agreement_matching S (fun u => labels.getD u 0) hSk hA hS e he hag'
  exact ⟨⟨σ, mislabelled_le S (fun u => labels.getD u 0) hSk σ e fun i => (hσ i).2⟩,
    fun hn => agreement_exact S (fun u => labels.getD u 0) hSk hA hS e hn he hag'⟩

/-- **C85** (equitable clusters).  If the weight between a vertex and a cluster is given by the cluster of the vertex alone
(`wbar c i` for a vertex of cluster `c` and the cluster `i`), and there are no self-loops, the unevenness is zero for the
numbers `wbar c i / √(deg c · deg i)`, where `deg c` is the common degree of the vertices of `c`. -/
theorem C85_equitable (hloop : ∀ v, g.abs.w v v = 0) (k : Nat) (S : Nat → Nat) (hSk : ∀ u < g.n, S u < k)
    (wbar : Nat → Nat → ℝ)
    (heq : ∀ u < g.n, ∀ i < k, ∑ v ∈ KMeans.cluster g.n S i, g.abs.w u v = wbar (S u) i) :
    g.abs.unevenness k S (fun c i => wbar c i /
      (Real.sqrt (∑ j ∈ range k, wbar c j) * Real.sqrt (∑ j ∈ range k, wbar i j))) = 0 := by
  have hdeg : ∀ u < g.n, g.abs.deg u = ∑ j ∈ range k, wbar (S u) j := by
    intro u hu
    rw [← Finset.sum_congr rfl fun i hi => heq u hu i (mem_range.1 hi)]
    unfold WGraph.deg
    rw [hloop u, add_zero]
    exact (Finset.sum_fiberwise_of_maps_to (g := S) (t := range k)
      (fun v hv => mem_range.2 (hSk v (mem_range.1 hv))) (fun v => g.abs.w u v)).symm
  unfold WGraph.unevenness
  refine Finset.sum_eq_zero fun i hi => Finset.sum_eq_zero fun u hu => ?_
  have hu' : u < g.n := mem_range.1 hu
  have hi' := mem_range.1 hi
  have e : g.abs.normWeight u (KMeans.cluster g.n S i) = wbar (S u) i /
      (Real.sqrt (∑ j ∈ range k, wbar (S u) j) * Real.sqrt (∑ j ∈ range k, wbar i j)) := by
    unfold WGraph.normWeight
    rw [← heq u hu' i hi', Finset.sum_div]
    refine Finset.sum_congr rfl fun v hv => ?_
    obtain ⟨hv1, hv2⟩ := mem_filter.1 hv
    rw [hdeg u hu', hdeg v (mem_range.1 hv1), hv2]
  change (g.abs.normWeight u (KMeans.cluster g.n S i) - _) ^ 2 / _ = 0
  rw [e]
  simp

/-- **C85** (equitable clusters are points).  If the unevenness is zero, `spectral_cluster` embeds two vertices at the same
point exactly if they are in the same cluster. -/
theorem C85_points (solve : EigenSolver) (hsolve : SolverSpec solve) (h : g.Reachable)
    (hw : ∀ u v, 0 ≤ g.abs.w u v) (hd : ∀ v, v < g.n → 0 < g.abs.deg v) (k : Nat)
    (res : EigenPairs) (hres : computeEigensystem solve g .normalisedLaplacian k .smallest = .ok res) (l : ℝ)
    (hgap : ∀ m v, IsEigen g.n (matrixOf g.abs .normalisedLaplacian) m v → (∃ i < g.n, v i ≠ 0) →
      (∀ p ∈ res, dot g.n p.2 v = 0) → l ≤ m)
    (S : Nat → Nat) (hSk : ∀ u < g.n, S u < k) (hS : ∀ i < k, ∃ u < g.n, S u = i) (b : Nat → Nat → ℝ) (a : ℝ)
    (ha : WGraph.Strength g.n k S b a) (hal : 1 - a < l) (h0 : g.abs.unevenness k S b = 0) :
    ∀ u < g.n, ∀ v < g.n, (∀ j < k, embedding (res.map Prod.snd) u j = embedding (res.map Prod.snd) v j) ↔ S u = S v := by
  have hex := C53_eigensystem solve hsolve h hw _ k .smallest (fun _ => hd) res hres
  rw [Int.toNat_natCast] at hex
  have hspan := span_equitable h hex l hgap S hSk hS b a ha hal
  rw [h0, zero_div] at hspan
  intro u hu v hv
  constructor
  · intro hsame
    have hz := (Finset.sum_eq_zero_iff_of_nonneg fun i _ => resid_nonneg (embedding_on hex) _).1
      (le_antisymm hspan (span_nonneg hex S)) (S u) (mem_range.2 (hSk u hu))
    rw [resid_eq (embedding_on hex)] at hz
    have hz' := (Finset.sum_eq_zero_iff_of_nonneg fun i _ => mul_self_nonneg _).1 hz
    have hu0 := mul_self_eq_zero.1 (hz' u (mem_range.2 hu))
    have hv0 := mul_self_eq_zero.1 (hz' v (mem_range.2 hv))
    unfold rest at hu0 hv0
    have e : ∑ j ∈ range k, dot g.n (fun u => embedding (res.map Prod.snd) u j) (unitOf (KMeans.cluster g.n S (S u)))
          * embedding (res.map Prod.snd) u j
        = ∑ j ∈ range k, dot g.n (fun u => embedding (res.map Prod.snd) u j) (unitOf (KMeans.cluster g.n S (S u)))
          * embedding (res.map Prod.snd) v j :=
      Finset.sum_congr rfl fun j hj => by rw [hsame j (mem_range.1 hj)]
    have e2 : unitOf (KMeans.cluster g.n S (S u)) u = unitOf (KMeans.cluster g.n S (S u)) v := by linarith
    have hm : u ∈ KMeans.cluster g.n S (S u) := mem_filter.2 ⟨mem_range.2 hu, rfl⟩
    unfold unitOf at e2
    rw [if_pos hm] at e2
    by_contra hne
    rw [if_neg (fun hv' => hne (mem_filter.1 hv').2.symm)] at e2
    have hc : (0 : ℝ) < (KMeans.cluster g.n S (S u)).card := by exact_mod_cast Finset.card_pos.2 ⟨u, hm⟩
    have := Real.sqrt_pos.2 hc
    have : 0 < 1 / Real.sqrt ((KMeans.cluster g.n S (S u)).card : ℝ) := by positivity
    linarith
  · intro hsame j hj
    obtain ⟨Mu, hMu⟩ := span_cost hex S hSk hS
    have hc : KMeans.cost (embedding (res.map Prod.snd)) g.n k Mu S ≤ 0 := le_trans (le_of_eq hMu) hspan
    have hc0 : KMeans.cost (embedding (res.map Prod.snd)) g.n k Mu S = 0 :=
      le_antisymm hc (Finset.sum_nonneg fun _ _ => Finset.sum_nonneg fun _ _ => sq_nonneg _)
    have key : ∀ x < g.n, embedding (res.map Prod.snd) x j = Mu (S x) j := by
      intro x hx
      have h1 := (Finset.sum_eq_zero_iff_of_nonneg fun _ _ => Finset.sum_nonneg fun _ _ => sq_nonneg _).1 hc0 x
        (mem_range.2 hx)
      have h2 := (Finset.sum_eq_zero_iff_of_nonneg fun _ _ => sq_nonneg _).1 h1 j (mem_range.2 hj)
      have h3 := pow_eq_zero_iff (two_ne_zero)|>.1 h2
      linarith
    rw [key u hu, key v hv, hsame]

/-- **C85** (the gap).  All eigenvalues beyond the `k` returned ones are at least `l` if the form of the normalised
Laplacian is at least `l` on the vectors orthogonal to some `k` vectors `c`. -/
theorem C85_gap (solve : EigenSolver) (hsolve : SolverSpec solve) (h : g.Reachable)
    (hw : ∀ u v, 0 ≤ g.abs.w u v) (hd : ∀ v, v < g.n → 0 < g.abs.deg v) (k : Nat)
    (res : EigenPairs) (hres : computeEigensystem solve g .normalisedLaplacian k .smallest = .ok res) (l : ℝ)
    (c : Nat → Nat → ℝ)
    (htest : ∀ x, (∀ i < k, dot g.n (c i) x = 0) →
      l * dot g.n x x ≤ quadForm g.n (matrixOf g.abs .normalisedLaplacian) x) :
    ∀ m v, IsEigen g.n (matrixOf g.abs .normalisedLaplacian) m v → (∃ i < g.n, v i ≠ 0) →
      (∀ p ∈ res, dot g.n p.2 v = 0) → l ≤ m := by
  have hex := C53_eigensystem solve hsolve h hw _ k .smallest (fun _ => hd) res hres
  rw [Int.toNat_natCast] at hex
  exact gap_of_test (fun i j => matrixOf_symm h _ i j) hex c l htest

end

namespace KMeans
open MeasureTheory
open scoped ENNReal

/-- k-means on an embedding near whose span the clusters lie. -/
theorem span_probability {n k : Nat} {M : Nat → Nat → ℝ} {res : EigenPairs} (hex : EigenExtreme (· ≤ ·) n M k res)
    (hn : 0 < n) (hk : 1 ≤ k) (Mu : Nat → Nat → ℝ) (Z : Nat → Nat) (junk : Nat → ℝ)
    (S : Nat → Nat) (hSk : ∀ u < n, S u < k) (hS : ∀ i < k, ∃ u < n, S u = i) (E : ℝ) (hE : spanDefect n k res S ≤ E)
    (c : ℝ) (hc : 0 < c) :
    ENNReal.ofReal c * streamLaw unif {u | ¬ ∃ r,
        runKMeans (embedding (res.map Prod.snd)) n k k (k * 100 : Nat) u Mu Z junk = .ok r ∧
        (∀ i < n, r.2 i < k) ∧ (k : ℝ) - 2 * (E + c) ≤ agreement n k S r.2}
      ≤ ENNReal.ofReal (8 * (Real.log k + 2) * E) := by
  obtain ⟨Mu', hMu'⟩ := span_cost hex S hSk hS
  have hm := C72_markov (embedding (res.map Prod.snd)) n k k hn hk (k * 100 : Nat) (by omega) Mu Z junk Mu' S hSk c
  have hlog : 0 ≤ Real.log k := Real.log_natCast_nonneg k
  refine le_trans ?_ (le_trans hm (ENNReal.ofReal_le_ofReal (by rw [hMu']; gcongr)))
  refine mul_le_mul_right (measure_mono fun u hu => ?_) _
  rw [Set.mem_ofPred_eq] at hu ⊢
  by_contra hno
  apply hu
  have hle := not_lt.1 hno
  cases hr : runKMeans (embedding (res.map Prod.snd)) n k k (k * 100 : Nat) u Mu Z junk with
  | ub => rw [hr] at hle; simp [resultCost] at hle
  | throw e => rw [hr] at hle; simp [resultCost] at hle
  | ok r =>
    rw [hr] at hle
    have hcost : cost (embedding (res.map Prod.snd)) n k r.1 r.2 ≤ c := by
      simp only [resultCost] at hle
      exact (ENNReal.ofReal_le_ofReal_iff hc.le).1 hle
    have hrk : ∀ i < n, r.2 i < k := by
      unfold runKMeans at hr
      cases hs : sampleRowsPlusPlus (embedding (res.map Prod.snd)) n k k u Mu junk with
      | ub => rw [hs] at hr; cases hr
      | throw e => rw [hs] at hr; cases hr
      | ok M =>
        rw [hs] at hr
        simp only [Outcome.bind, Outcome.ok.injEq] at hr
        rw [← hr]
        exact (C55_result _ n k k (by omega) M Z _ (by omega)).1
    refine ⟨r, rfl, hrk, ?_⟩
    have h1 := agreement_ge (embedding_on hex) S r.2 hrk hS r.1
    change cost (fun u j => embedding (res.map Prod.snd) u j) n k r.1 r.2 ≤ _ at hcost
    unfold spanDefect at hE
    linarith

/-- **C85** (probability).  Let the numbers drawn by k-means be independent and uniform, and let `E` be the unevenness over
`(l - (1 - a))²`.  For every `c > 0`, k-means on the embedding returns labels that agree with the clusters up to
`2 (E + c)`, except with a probability of at most `8 (ln k + 2) E / c`. -/
theorem C85_probability {g : Graph ℝ} (solve : EigenSolver) (hsolve : SolverSpec solve) (h : g.Reachable)
    (hw : ∀ u v, 0 ≤ g.abs.w u v) (hd : ∀ v, v < g.n → 0 < g.abs.deg v) (k : Nat)
    (hk : 1 ≤ k ∧ 2 * k ≤ g.n) (Mu : Nat → Nat → ℝ) (Z : Nat → Nat) (junk : Nat → ℝ)
    (res : EigenPairs) (hres : computeEigensystem solve g .normalisedLaplacian k .smallest = .ok res) (l : ℝ)
    (hgap : ∀ m v, IsEigen g.n (matrixOf g.abs .normalisedLaplacian) m v → (∃ i < g.n, v i ≠ 0) →
      (∀ p ∈ res, dot g.n p.2 v = 0) → l ≤ m)
    (S : Nat → Nat) (hSk : ∀ u < g.n, S u < k) (hS : ∀ i < k, ∃ u < g.n, S u = i) (b : Nat → Nat → ℝ) (a : ℝ)
    (ha : WGraph.Strength g.n k S b a) (hal : 1 - a < l) (c : ℝ) (hc : 0 < c) :
    ENNReal.ofReal c * streamLaw unif {u | ¬ ∃ r,
        runKMeans (embedding (res.map Prod.snd)) g.n k k (k * 100 : Nat) u Mu Z junk = .ok r ∧
        (∀ i < g.n, r.2 i < k) ∧
        (k : ℝ) - 2 * (g.abs.unevenness k S b / (l - (1 - a)) ^ 2 + c) ≤ agreement g.n k S r.2}
      ≤ ENNReal.ofReal (8 * (Real.log k + 2) * (g.abs.unevenness k S b / (l - (1 - a)) ^ 2)) := by
  have hex := C53_eigensystem solve hsolve h hw _ k .smallest (fun _ => hd) res hres
  rw [Int.toNat_natCast] at hex
  exact span_probability hex (by omega) hk.1 Mu Z junk S hSk hS _ (span_equitable h hex l hgap S hSk hS b a ha hal) c hc

/-- **C85** (equitable clusters are found).  If the unevenness is zero, k-means on the embedding returns the clusters, up to
names, with probability one. -/
theorem C85_almost_surely {g : Graph ℝ} (solve : EigenSolver) (hsolve : SolverSpec solve) (h : g.Reachable)
    (hw : ∀ u v, 0 ≤ g.abs.w u v) (hd : ∀ v, v < g.n → 0 < g.abs.deg v) (k : Nat)
    (hk : 1 ≤ k ∧ 2 * k ≤ g.n) (Mu : Nat → Nat → ℝ) (Z : Nat → Nat) (junk : Nat → ℝ)
    (res : EigenPairs) (hres : computeEigensystem solve g .normalisedLaplacian k .smallest = .ok res) (l : ℝ)
    (hgap : ∀ m v, IsEigen g.n (matrixOf g.abs .normalisedLaplacian) m v → (∃ i < g.n, v i ≠ 0) →
      (∀ p ∈ res, dot g.n p.2 v = 0) → l ≤ m)
    (S : Nat → Nat) (hSk : ∀ u < g.n, S u < k) (hS : ∀ i < k, ∃ u < g.n, S u = i) (b : Nat → Nat → ℝ) (a : ℝ)
    (ha : WGraph.Strength g.n k S b a) (hal : 1 - a < l) (h0 : g.abs.unevenness k S b = 0) :
    ∀ᵐ u ∂streamLaw unif, ∃ r,
      runKMeans (embedding (res.map Prod.snd)) g.n k k (k * 100 : Nat) u Mu Z junk = .ok r ∧
      ∀ x < g.n, ∀ y < g.n, r.2 x = r.2 y ↔ S x = S y := by
  have hn : (0 : ℝ) < g.n := by exact_mod_cast (show 0 < g.n by omega)
  have hp := C85_probability solve hsolve h hw hd k hk Mu Z junk res hres l hgap S hSk hS b a ha hal
    (1 / (8 * g.n)) (by positivity)
  rw [h0, zero_div, mul_zero, ENNReal.ofReal_zero, zero_add] at hp
  have hz := (mul_eq_zero.1 (le_antisymm hp zero_le)).resolve_left
    (by rw [ENNReal.ofReal_eq_zero, not_le]; positivity)
  rw [ae_iff]
  refine measure_mono_null (fun u hu => ?_) hz
  rw [Set.mem_ofPred_eq] at hu ⊢
  rintro ⟨r, hr, hrk, hag⟩
  refine hu ⟨r, hr, agreement_exact S r.2 hSk hrk hS (2 * (1 / (8 * g.n))) ?_ ?_ hag⟩
  · field_simp
    norm_num
  · have : (2 : ℝ) ≤ g.n := by exact_mod_cast (show 2 ≤ g.n by omega)
    rw [← mul_div_assoc, mul_one, div_lt_div_iff₀ (by positivity) (by norm_num)]
    linarith

end KMeans
end Stag
