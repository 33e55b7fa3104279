import Verif.RecoveryMath
import Verif.Props.SpectralCluster
import Verif.Props.KMeansGuarantee

/-!
# C84: spectral clustering recovers well-separated clusters
-/

namespace Stag

open Finset Recovery

/-- The vectors of the embedding are orthonormal. -/
theorem embedding_on {n k : Nat} {M : Nat → Nat → ℝ} {res : EigenPairs}
    (hex : EigenExtreme (· ≤ ·) n M k res) : ON n k (fun j u => embedding (res.map Prod.snd) u j) := by
  have hlen := hex.count
  intro j hj j' hj'
  have e : ∀ j < k, (fun u => embedding (res.map Prod.snd) u j) = (res.getD j (0, 0)).2 := by
    intro j hj
    funext a
    unfold embedding
    rw [List.getD_eq_getElem _ _ (by simpa using (show j < res.length by omega)), List.getElem_map,
      List.getD_eq_getElem]
  beta_reduce
  rw [e j hj, e j' hj']
  rw [List.getD_eq_getElem _ _ (by omega), List.getD_eq_getElem _ _ (by omega)]
  split_ifs with hjj
  · subst hjj; exact hex.unit _ (List.getElem_mem _)
  · rcases lt_or_gt_of_ne hjj with h | h
    · exact List.pairwise_iff_getElem.1 hex.ortho j j' (by omega) (by omega) h
    · rw [dot_comm]; exact List.pairwise_iff_getElem.1 hex.ortho j' j (by omega) (by omega) h

theorem embedding_eigen {n k : Nat} {M : Nat → Nat → ℝ} {res : EigenPairs}
    (hex : EigenExtreme (· ≤ ·) n M k res) (j : Nat) (hj : j < k) :
    IsEigen n M (res.getD j (0, 0)).1 (fun u => embedding (res.map Prod.snd) u j) := by
  have hlen := hex.count
  have e : (fun u => embedding (res.map Prod.snd) u j) = (res.getD j (0, 0)).2 := by
    funext a
    unfold embedding
    rw [List.getD_eq_getElem _ _ (by simpa using (show j < res.length by omega)), List.getElem_map,
      List.getD_eq_getElem]
  rw [e, List.getD_eq_getElem _ _ (by omega)]
  exact hex.eigen _ (List.getElem_mem _)

theorem embedding_all {n k : Nat} {M : Nat → Nat → ℝ} {res : EigenPairs}
    (hex : EigenExtreme (· ≤ ·) n M k res) (p : ℝ × (Nat → ℝ)) (hp : p ∈ res) :
    ∃ j < k, p.2 = fun u => embedding (res.map Prod.snd) u j := by
  obtain ⟨j, hj, rfl⟩ := List.mem_iff_getElem.1 hp
  refine ⟨j, by rw [← hex.count]; exact hj, ?_⟩
  funext a
  unfold embedding
  rw [List.getD_eq_getElem _ _ (by simpa using hj), List.getElem_map]

section
variable {g : Graph ℝ}

/-- The degree-weighted unit vector of a set. -/
noncomputable def degUnit (s : WGraph ℝ) (T : Finset Nat) (u : Nat) : ℝ :=
  if u ∈ T then Real.sqrt (s.deg u / s.vol T) else 0

theorem quadForm_degUnit (h : g.Reachable) (hloop : ∀ v, g.abs.w v v = 0)
    (hd : ∀ v, v < g.n → 0 < g.abs.deg v) (T : Finset Nat) (hT : T ⊆ range g.n) (hne : T.Nonempty) :
    quadForm g.n (matrixOf g.abs .normalisedLaplacian) (degUnit g.abs T) = g.abs.cut T / g.abs.vol T := by
  have hvol : 0 < g.abs.vol T := Finset.sum_pos (fun u hu => hd u (mem_range.1 (hT hu))) hne
  have hq := quadForm_norm h hloop hd (degUnit g.abs T)
  have hx : ∀ a < g.n, degUnit g.abs T a / Real.sqrt (g.abs.deg a) = if a ∈ T then 1 / Real.sqrt (g.abs.vol T) else 0 := by
    intro a ha
    unfold degUnit
    have := (Real.sqrt_pos.2 (hd a ha)).ne'
    split_ifs
    · rw [Real.sqrt_div (hd a ha).le]
      field_simp
    · exact zero_div _
  have hterm : ∀ a ∈ range g.n, ∀ b ∈ range g.n, g.abs.w a b *
      (degUnit g.abs T a / Real.sqrt (g.abs.deg a) - degUnit g.abs T b / Real.sqrt (g.abs.deg b)) ^ 2
      = ((if a ∈ T then if b ∈ range g.n \ T then g.abs.w a b else 0 else 0)
        + (if b ∈ T then if a ∈ range g.n \ T then g.abs.w b a else 0 else 0)) / g.abs.vol T := by
    intro a ha b hb
    rw [hx a (mem_range.1 ha), hx b (mem_range.1 hb)]
    have hs := Real.sq_sqrt hvol.le
    have hsym : g.abs.w b a = g.abs.w a b := h.valid.symm b a
    have e1 : (1 / Real.sqrt (g.abs.vol T)) ^ 2 = 1 / g.abs.vol T := by rw [div_pow, hs, one_pow]
    by_cases h1 : a ∈ T <;> by_cases h2 : b ∈ T
    · simp [h1, h2]
    · simp only [h1, h2, if_true, if_false, sub_zero, e1, mem_sdiff, hb, not_true, not_false_iff, and_true, and_false]
      ring
    · simp only [h1, h2, if_true, if_false, zero_sub, neg_sq, e1, mem_sdiff, ha, not_true, not_false_iff, and_true,
        and_false, hsym]
      ring
    · simp [h1, h2]
  rw [Finset.sum_congr rfl (fun a ha => Finset.sum_congr rfl (hterm a ha))] at hq
  have hcut : ∑ a ∈ range g.n, ∑ b ∈ range g.n, (if a ∈ T then if b ∈ range g.n \ T then g.abs.w a b else 0 else 0)
      = g.abs.cut T := by
    unfold WGraph.cut
    rw [← Finset.sum_subset hT]
    · refine Finset.sum_congr rfl fun a ha => ?_
      simp only [ha, if_true]
      rw [← Finset.sum_filter]
      refine Finset.sum_congr ?_ fun _ _ => rfl
      ext b
      simp only [mem_filter, mem_sdiff, mem_range]
      exact ⟨fun h => h.2, fun h => ⟨h.1, h⟩⟩
    · intro a _ ha
      simp [ha]
  simp_rw [← Finset.sum_div] at hq
  simp_rw [Finset.sum_add_distrib] at hq
  rw [hcut, Finset.sum_comm (f := fun a b => if b ∈ T then if a ∈ range g.n \ T then g.abs.w b a else 0 else 0),
    hcut] at hq
  linarith [hq, show (g.abs.cut T + g.abs.cut T) / g.abs.vol T = 2 * (g.abs.cut T / g.abs.vol T) by ring]

theorem resid_unitOf (h : g.Reachable) (hw : ∀ u v, 0 ≤ g.abs.w u v) (hloop : ∀ v, g.abs.w v v = 0)
    (hd : ∀ v, v < g.n → 0 < g.abs.deg v) {k : Nat} {res : EigenPairs}
    (hex : EigenExtreme (· ≤ ·) g.n (matrixOf g.abs .normalisedLaplacian) k res) (l : ℝ) (hl : 0 < l)
    (hgap : ∀ m v, IsEigen g.n (matrixOf g.abs .normalisedLaplacian) m v → (∃ i < g.n, v i ≠ 0) →
      (∀ p ∈ res, dot g.n p.2 v = 0) → l ≤ m)
    (T : Finset Nat) (hT : T ⊆ range g.n) (hne : T.Nonempty) :
    resid g.n k (fun j u => embedding (res.map Prod.snd) u j) (unitOf T)
      ≤ (Real.sqrt (g.abs.cut T / g.abs.vol T / l) + Real.sqrt (g.abs.irregularity T)) ^ 2 := by
  have hon := embedding_on hex
  set f : Nat → Nat → ℝ := fun j u => embedding (res.map Prod.snd) u j with hf
  obtain ⟨dmax, -, -, hdle, -⟩ := maxDegree_spec h
  have h1 : resid g.n k f (degUnit g.abs T) ≤ g.abs.cut T / g.abs.vol T / l := by
    rw [le_div_iff₀ hl, mul_comm, ← quadForm_degUnit h hloop hd T hT hne]
    refine resid_quadForm hon (fun i _ j _ => matrixOf_symm h _ i j) (fun j => (res.getD j (0, 0)).1) ?_
      (fun j hj => embedding_eigen hex j hj) l ?_ _
    · intro j hj
      have hu := hon j hj j hj
      rw [if_pos rfl] at hu
      refine ((C53_ranges h hw dmax hdle _ (f j) ?_).2.2 hd (embedding_eigen hex j hj)).1
      by_contra hno
      push Not at hno
      rw [show dot g.n (f j) (f j) = 0 from Finset.sum_eq_zero fun i hi => by rw [hno i (mem_range.1 hi), mul_zero]] at hu
      norm_num at hu
    · intro m v hv hne ho
      refine hgap m v hv hne fun p hp => ?_
      obtain ⟨j, hj, hpj⟩ := embedding_all hex p hp
      rw [hpj]
      exact ho j hj
  have h2 : resid g.n k f (fun u => unitOf T u - degUnit g.abs T u) ≤ g.abs.irregularity T := by
    refine le_trans (resid_le _ _ _ _) (le_of_eq ?_)
    unfold dot WGraph.irregularity
    rw [← Finset.sum_subset hT]
    · refine Finset.sum_congr rfl fun u hu => ?_
      unfold unitOf degUnit
      beta_reduce
      rw [if_pos hu, if_pos hu, Real.sqrt_div zero_le_one, Real.sqrt_one]
      ring
    · intro u _ hu
      unfold unitOf degUnit
      beta_reduce
      rw [if_neg hu, if_neg hu]
      ring
  have h3 := resid_add hon (degUnit g.abs T) (fun u => unitOf T u - degUnit g.abs T u)
  have e : (fun i => degUnit g.abs T i + (unitOf T i - degUnit g.abs T i)) = unitOf T := by
    funext i; ring
  rw [e] at h3
  refine le_trans h3 ?_
  have := Real.sqrt_le_sqrt h1
  have := Real.sqrt_le_sqrt h2
  gcongr

theorem sum_resid (h : g.Reachable) (hw : ∀ u v, 0 ≤ g.abs.w u v) (hloop : ∀ v, g.abs.w v v = 0)
    (hd : ∀ v, v < g.n → 0 < g.abs.deg v) {k : Nat} {res : EigenPairs}
    (hex : EigenExtreme (· ≤ ·) g.n (matrixOf g.abs .normalisedLaplacian) k res) (l : ℝ) (hl : 0 < l)
    (hgap : ∀ m v, IsEigen g.n (matrixOf g.abs .normalisedLaplacian) m v → (∃ i < g.n, v i ≠ 0) →
      (∀ p ∈ res, dot g.n p.2 v = 0) → l ≤ m)
    (S : Nat → Nat) (hS : ∀ i < k, ∃ u < g.n, S u = i) :
    ∑ i ∈ range k, resid g.n k (fun j u => embedding (res.map Prod.snd) u j) (unitOf (KMeans.cluster g.n S i))
      ≤ g.abs.clusterDefect l k S := by
  unfold WGraph.clusterDefect
  refine Finset.sum_le_sum fun i hi => ?_
  obtain ⟨u, hu, hui⟩ := hS i (mem_range.1 hi)
  exact resid_unitOf h hw hloop hd hex l hl hgap _ (cluster_sub _ _ _) ⟨u, mem_filter.2 ⟨mem_range.2 hu, hui⟩⟩

/-- **C84** (the clusters are visible in the embedding).  Let all eigenvalues beyond the `k` returned ones be at
least `l > 0`.  In the embedding that `spectral_cluster` gives to k-means, the clusters `S` have k-means cost at most
the defect of the clusters: the sum of `(√(conductance / l) + √irregularity)²`. -/
theorem C84_embedding (solve : EigenSolver) (hsolve : SolverSpec solve) (h : g.Reachable)
    (hw : ∀ u v, 0 ≤ g.abs.w u v) (hloop : ∀ v, g.abs.w v v = 0) (hd : ∀ v, v < g.n → 0 < g.abs.deg v) (k : Nat)
    (res : EigenPairs) (hres : computeEigensystem solve g .normalisedLaplacian k .smallest = .ok res) (l : ℝ)
    (hl : 0 < l)
    (hgap : ∀ m v, IsEigen g.n (matrixOf g.abs .normalisedLaplacian) m v → (∃ i < g.n, v i ≠ 0) →
      (∀ p ∈ res, dot g.n p.2 v = 0) → l ≤ m)
    (S : Nat → Nat) (hSk : ∀ u < g.n, S u < k) (hS : ∀ i < k, ∃ u < g.n, S u = i) :
    ∃ Mu, KMeans.cost (embedding (res.map Prod.snd)) g.n k Mu S ≤ g.abs.clusterDefect l k S := by
  have hex := C53_eigensystem solve hsolve h hw _ k .smallest (fun _ => hd) res hres
  rw [Int.toNat_natCast] at hex
  refine ⟨_, le_trans (le_of_eq (cost_means (embedding_on hex) S hSk)) ?_⟩
  refine le_trans (le_of_eq ?_) (sum_resid h hw hloop hd hex l hl hgap S hS)
  unfold resid
  rw [Finset.sum_sub_distrib]
  congr 1
  have : ∀ i ∈ range k, dot g.n (unitOf (KMeans.cluster g.n S i)) (unitOf (KMeans.cluster g.n S i)) = 1 := by
    intro i hi
    rw [dot_unitOf_self g.n _ (cluster_sub _ _ _), if_pos]
    obtain ⟨u, hu, hui⟩ := hS i (mem_range.1 hi)
    exact ⟨u, mem_filter.2 ⟨mem_range.2 hu, hui⟩⟩
  rw [Finset.sum_congr rfl this]
  simp

theorem labels_lt (solve : EigenSolver) (hsolve : SolverSpec solve) (h : g.Reachable)
    (hw : ∀ u v, 0 ≤ g.abs.w u v) (hd : ∀ v, v < g.n → 0 < g.abs.deg v) (k : Nat)
    (hk : 1 ≤ k ∧ 2 * k ≤ g.n) (junk : Nat → ℝ) (labels : List Nat)
    (hlab : spectralCluster solve g k junk = .ok labels) : ∀ u < g.n, labels.getD u 0 < k := by
  rcases C59_labels solve hsolve h hw hd k (by omega) junk with ⟨h1, -⟩ | ⟨_, lab', _, _, _, _, -, -, h1, -, h2, -⟩
  · rw [h1] at hlab; cases hlab
  · rw [h1] at hlab
    cases hlab
    intro u hu
    have := h2 u hu
    rwa [Int.toNat_natCast] at this

/-- **C84** (agreement).  If the labels that `spectral_cluster` returns have k-means cost `c` in the embedding (with
any centres), they agree with the clusters `S` up to twice the sum of `c` and of the defect of the clusters. -/
theorem C84_agreement (solve : EigenSolver) (hsolve : SolverSpec solve) (h : g.Reachable)
    (hw : ∀ u v, 0 ≤ g.abs.w u v) (hloop : ∀ v, g.abs.w v v = 0) (hd : ∀ v, v < g.n → 0 < g.abs.deg v) (k : Nat)
    (hk : 1 ≤ k ∧ 2 * k ≤ g.n) (junk : Nat → ℝ)
    (res : EigenPairs) (hres : computeEigensystem solve g .normalisedLaplacian k .smallest = .ok res) (l : ℝ)
    (hl : 0 < l)
    (hgap : ∀ m v, IsEigen g.n (matrixOf g.abs .normalisedLaplacian) m v → (∃ i < g.n, v i ≠ 0) →
      (∀ p ∈ res, dot g.n p.2 v = 0) → l ≤ m)
    (S : Nat → Nat) (hS : ∀ i < k, ∃ u < g.n, S u = i) (labels : List Nat)
    (hlab : spectralCluster solve g k junk = .ok labels) (Mu : Nat → Nat → ℝ) :
    (k : ℝ) - 2 * (g.abs.clusterDefect l k S +
        KMeans.cost (embedding (res.map Prod.snd)) g.n k Mu (fun u => labels.getD u 0))
      ≤ agreement g.n k S (fun u => labels.getD u 0) := by
  have hex := C53_eigensystem solve hsolve h hw _ k .smallest (fun _ => hd) res hres
  rw [Int.toNat_natCast] at hex
  have hA : ∀ u < g.n, labels.getD u 0 < k := labels_lt solve hsolve h hw hd k hk junk labels hlab
  have h1 := agreement_ge (embedding_on hex) S (fun u => labels.getD u 0) hA hS Mu
  have h2 := sum_resid h hw hloop hd hex l hl hgap S hS
  refine le_trans ?_ h1
  have e : KMeans.cost (fun u j => embedding (res.map Prod.snd) u j) g.n k Mu (fun u => labels.getD u 0)
      = KMeans.cost (embedding (res.map Prod.snd)) g.n k Mu (fun u => labels.getD u 0) := rfl
  rw [e]
  linarith

/-- **C84** (matching).  Let `e` be twice the sum of the defect of the clusters and of the k-means cost of the labels.
If `e < 1/2`, the labels can be matched with the clusters: all but a fraction `e` of the vertices with a label are in the
matched cluster, all but a fraction `2 e` of the vertices of a cluster have the matched label, and at most `2 e n`
vertices do not have the label matched with their cluster. -/
theorem C84_matching (solve : EigenSolver) (hsolve : SolverSpec solve) (h : g.Reachable)
    (hw : ∀ u v, 0 ≤ g.abs.w u v) (hloop : ∀ v, g.abs.w v v = 0) (hd : ∀ v, v < g.n → 0 < g.abs.deg v) (k : Nat)
    (hk : 1 ≤ k ∧ 2 * k ≤ g.n) (junk : Nat → ℝ)
    (res : EigenPairs) (hres : computeEigensystem solve g .normalisedLaplacian k .smallest = .ok res) (l : ℝ)
    (hl : 0 < l)
    (hgap : ∀ m v, IsEigen g.n (matrixOf g.abs .normalisedLaplacian) m v → (∃ i < g.n, v i ≠ 0) →
      (∀ p ∈ res, dot g.n p.2 v = 0) → l ≤ m)
    (S : Nat → Nat) (hSk : ∀ u < g.n, S u < k) (hS : ∀ i < k, ∃ u < g.n, S u = i) (labels : List Nat)
    (hlab : spectralCluster solve g k junk = .ok labels) (Mu : Nat → Nat → ℝ) (e : ℝ) (he : e < 1 / 2)
    (hcost : 2 * (g.abs.clusterDefect l k S +
        KMeans.cost (embedding (res.map Prod.snd)) g.n k Mu (fun u => labels.getD u 0)) ≤ e) :
    ∃ σ : Equiv.Perm (Fin k),
      (∀ i : Fin k,
        (1 - e) * (KMeans.cluster g.n (fun u => labels.getD u 0) (σ i)).card
          ≤ ((KMeans.cluster g.n S i ∩ KMeans.cluster g.n (fun u => labels.getD u 0) (σ i)).card : ℝ) ∧
        (1 - 2 * e) * (KMeans.cluster g.n S i).card
          ≤ ((KMeans.cluster g.n S i ∩ KMeans.cluster g.n (fun u => labels.getD u 0) (σ i)).card : ℝ)) ∧
      (((range g.n).filter fun u => ∃ i : Fin k, S u = i ∧ labels.getD u 0 ≠ σ i).card : ℝ) ≤ 2 * e * g.n := by
  have hA : ∀ u < g.n, labels.getD u 0 < k := labels_lt solve hsolve h hw hd k hk junk labels hlab
  obtain ⟨σ, hσ⟩ := agreement_matching S (fun u => labels.getD u 0) hSk hA hS e he (by
    have := C84_agreement solve hsolve h hw hloop hd k hk junk res hres l hl hgap S hS labels hlab Mu
    linarith)
  refine ⟨σ, hσ, mislabelled_le S (fun u => labels.getD u 0) hSk σ e fun i => (hσ i).2⟩

/-- **C84** (exact recovery).  If the defect of the clusters and the k-means cost of the labels sum to less than
`1 / (4 n)`, `spectral_cluster` returns the clusters: two vertices have the same label exactly when they are in the same
cluster. -/
theorem C84_exact (solve : EigenSolver) (hsolve : SolverSpec solve) (h : g.Reachable)
    (hw : ∀ u v, 0 ≤ g.abs.w u v) (hloop : ∀ v, g.abs.w v v = 0) (hd : ∀ v, v < g.n → 0 < g.abs.deg v) (k : Nat)
    (hk : 1 ≤ k ∧ 2 * k ≤ g.n) (junk : Nat → ℝ)
    (res : EigenPairs) (hres : computeEigensystem solve g .normalisedLaplacian k .smallest = .ok res) (l : ℝ)
    (hl : 0 < l)
    (hgap : ∀ m v, IsEigen g.n (matrixOf g.abs .normalisedLaplacian) m v → (∃ i < g.n, v i ≠ 0) →
      (∀ p ∈ res, dot g.n p.2 v = 0) → l ≤ m)
    (S : Nat → Nat) (hSk : ∀ u < g.n, S u < k) (hS : ∀ i < k, ∃ u < g.n, S u = i) (labels : List Nat)
    (hlab : spectralCluster solve g k junk = .ok labels) (Mu : Nat → Nat → ℝ)
    (hcost : 4 * g.n * (g.abs.clusterDefect l k S +
        KMeans.cost (embedding (res.map Prod.snd)) g.n k Mu (fun u => labels.getD u 0)) < 1) :
    ∀ u < g.n, ∀ v < g.n, labels.getD u 0 = labels.getD v 0 ↔ S u = S v := by
  set d := g.abs.clusterDefect l k S +
    KMeans.cost (embedding (res.map Prod.snd)) g.n k Mu (fun u => labels.getD u 0) with hdd
  have hn : (2 : ℝ) ≤ g.n := by exact_mod_cast (show 2 ≤ g.n by omega)
  have hd0 : 0 ≤ d := by
    refine add_nonneg (Finset.sum_nonneg fun _ _ => sq_nonneg _) (Finset.sum_nonneg fun _ _ =>
      Finset.sum_nonneg fun _ _ => sq_nonneg _)
  have he : 2 * d < 1 / 2 := by nlinarith
  obtain ⟨σ, -, hσ⟩ := C84_matching solve hsolve h hw hloop hd k hk junk res hres l hl hgap S hSk hS labels hlab Mu
    (2 * d) he le_rfl
  have hlt : (((range g.n).filter fun u => ∃ i : Fin k, S u = i ∧ labels.getD u 0 ≠ σ i).card : ℝ) < 1 := by
    refine lt_of_le_of_lt hσ ?_
    nlinarith
  have hz : ((range g.n).filter fun u => ∃ i : Fin k, S u = i ∧ labels.getD u 0 ≠ σ i).card = 0 := by
    have : ((range g.n).filter fun u => ∃ i : Fin k, S u = i ∧ labels.getD u 0 ≠ σ i).card < 1 := by exact_mod_cast hlt
    omega
  have hlabel : ∀ u (hu : u < g.n), labels.getD u 0 = σ ⟨S u, hSk u hu⟩ := by
    intro u hu
    by_contra hne
    have := Finset.card_eq_zero.1 hz
    have hmem : u ∈ (range g.n).filter fun u => ∃ i : Fin k, S u = i ∧ labels.getD u 0 ≠ σ i :=
      mem_filter.2 ⟨mem_range.2 hu, ⟨S u, hSk u hu⟩, rfl, hne⟩
    rw [this] at hmem
    exact notMem_empty _ hmem
  intro u hu v hv
  rw [hlabel u hu, hlabel v hv]
  constructor
  · intro h1
    have := σ.injective (Fin.ext h1)
    exact congrArg Fin.val this
  · intro h1
    congr 3

/-- **C84** (equal degrees).  The irregularity of a non-empty set is zero exactly if all degrees in it are equal; so for
clusters of equal degrees the defect is the sum of the conductances over the gap. -/
theorem C84_regular (hw : ∀ u v, 0 ≤ g.abs.w u v) (hd : ∀ v, v < g.n → 0 < g.abs.deg v) :
    (∀ T : Finset Nat, T.Nonempty → T ⊆ range g.n →
      (g.abs.irregularity T = 0 ↔ ∀ u ∈ T, ∀ v ∈ T, g.abs.deg u = g.abs.deg v)) ∧
    ∀ (k : Nat) (S : Nat → Nat) (l : ℝ), 0 < l → (∀ i < k, ∃ u < g.n, S u = i) →
      (∀ u < g.n, ∀ v < g.n, S u = S v → g.abs.deg u = g.abs.deg v) →
      g.abs.clusterDefect l k S =
        (∑ i ∈ range k, g.abs.cut (KMeans.cluster g.n S i) / g.abs.vol (KMeans.cluster g.n S i)) / l := by
  have key : ∀ T : Finset Nat, T.Nonempty → T ⊆ range g.n →
      (g.abs.irregularity T = 0 ↔ ∀ u ∈ T, ∀ v ∈ T, g.abs.deg u = g.abs.deg v) := by
    intro T hne hT
    have hvol : 0 < g.abs.vol T := Finset.sum_pos (fun u hu => hd u (mem_range.1 (hT hu))) hne
    have hcard : (0 : ℝ) < T.card := by exact_mod_cast hne.card_pos
    unfold WGraph.irregularity
    rw [Finset.sum_eq_zero_iff_of_nonneg fun u _ => sq_nonneg _]
    constructor
    · intro h0
      have : ∀ u ∈ T, g.abs.deg u = g.abs.vol T / T.card := by
        intro u hu
        have h1 := sub_eq_zero.1 (pow_eq_zero_iff (two_ne_zero)|>.1 (h0 u hu))
        have h2 := (Real.sqrt_inj (div_nonneg (hd u (mem_range.1 (hT hu))).le hvol.le) (by positivity)).1 h1
        field_simp at h2 ⊢
        linarith
      intro u hu v hv
      rw [this u hu, this v hv]
    · intro h0 u hu
      have h1 : g.abs.vol T = T.card * g.abs.deg u := by
        unfold WGraph.vol
        rw [Finset.sum_congr rfl fun v hv => h0 v hv u hu, Finset.sum_const, nsmul_eq_mul]
      have h2 := hd u (mem_range.1 (hT hu))
      have h3 : g.abs.deg u / g.abs.vol T = 1 / T.card := by
        rw [h1]
        field_simp
      rw [h3, sub_self]
      norm_num
  refine ⟨key, fun k S l hl hS hdeg => ?_⟩
  unfold WGraph.clusterDefect
  rw [Finset.sum_div]
  refine Finset.sum_congr rfl fun i hi => ?_
  obtain ⟨u, hu, hui⟩ := hS i (mem_range.1 hi)
  have h0 := (key (KMeans.cluster g.n S i) ⟨u, mem_filter.2 ⟨mem_range.2 hu, hui⟩⟩ (cluster_sub _ _ _)).2 (by
    intro a ha b hb
    obtain ⟨ha1, ha2⟩ := mem_filter.1 ha
    obtain ⟨hb1, hb2⟩ := mem_filter.1 hb
    exact hdeg a (mem_range.1 ha1) b (mem_range.1 hb1) (ha2.trans hb2.symm))
  have e : (g.abs).n = g.n := rfl
  rw [e, h0, Real.sqrt_zero, add_zero, Real.sq_sqrt]
  refine div_nonneg (div_nonneg ?_ ?_) hl.le
  · exact Finset.sum_nonneg fun a _ => Finset.sum_nonneg fun b _ => hw a b
  · exact Finset.sum_nonneg fun a ha => (hd a (mem_range.1 (mem_filter.1 ha).1)).le

/-- **C84** (the gap).  The number `l` of the other theorems can be the `(k+1)`-th eigenvalue that the library computes: if
`compute_eigenvalues` for `k + 1` ends with `l`, all eigenvalues beyond the `k` returned ones are at least `l`. -/
theorem C84_gap (solve solve' : EigenSolver) (hsolve : SolverSpec solve) (hsolve' : SolverSpec solve') (h : g.Reachable)
    (hw : ∀ u v, 0 ≤ g.abs.w u v) (hd : ∀ v, v < g.n → 0 < g.abs.deg v) (k : Nat)
    (res res' : EigenPairs) (hres : computeEigensystem solve g .normalisedLaplacian k .smallest = .ok res)
    (hres' : computeEigensystem solve' g .normalisedLaplacian (k + 1 : Nat) .smallest = .ok res') :
    ∃ p, res'[k]? = some p ∧ ∀ m v, IsEigen g.n (matrixOf g.abs .normalisedLaplacian) m v → (∃ i < g.n, v i ≠ 0) →
      (∀ q ∈ res, dot g.n q.2 v = 0) → p.1 ≤ m := by
  have hex := C53_eigensystem solve hsolve h hw _ k .smallest (fun _ => hd) res hres
  have hex' := C53_eigensystem solve' hsolve' h hw _ (k + 1 : Nat) .smallest (fun _ => hd) res' hres'
  rw [Int.toNat_natCast] at hex hex'
  exact next_eigenvalue (fun i j => matrixOf_symm h _ i j) hex hex'

end

namespace KMeans
open MeasureTheory
open scoped ENNReal

/-- **C84** (probability).  Let the numbers drawn by k-means be independent and uniform.  With probability at least 1/2,
k-means on the embedding returns labels that agree with the clusters up to `2 (1 + 16 (ln k + 2))` times the defect
of the clusters. -/
theorem C84_probability {g : Graph ℝ} (solve : EigenSolver) (hsolve : SolverSpec solve) (h : g.Reachable)
    (hw : ∀ u v, 0 ≤ g.abs.w u v) (hloop : ∀ v, g.abs.w v v = 0) (hd : ∀ v, v < g.n → 0 < g.abs.deg v) (k : Nat)
    (hk : 1 ≤ k ∧ 2 * k ≤ g.n) (Mu : Nat → Nat → ℝ) (Z : Nat → Nat) (junk : Nat → ℝ)
    (res : EigenPairs) (hres : computeEigensystem solve g .normalisedLaplacian k .smallest = .ok res) (l : ℝ)
    (hl : 0 < l)
    (hgap : ∀ m v, IsEigen g.n (matrixOf g.abs .normalisedLaplacian) m v → (∃ i < g.n, v i ≠ 0) →
      (∀ p ∈ res, dot g.n p.2 v = 0) → l ≤ m)
    (S : Nat → Nat) (hSk : ∀ u < g.n, S u < k) (hS : ∀ i < k, ∃ u < g.n, S u = i) :
    streamLaw unif {u | ¬ ∃ r, runKMeans (embedding (res.map Prod.snd)) g.n k k (k * 100 : Nat) u Mu Z junk = .ok r ∧
      (k : ℝ) - 2 * (1 + 16 * (Real.log k + 2)) * g.abs.clusterDefect l k S ≤ agreement g.n k S r.2} ≤ 1 / 2 := by
  have hex := C53_eigensystem solve hsolve h hw _ k .smallest (fun _ => hd) res hres
  rw [Int.toNat_natCast] at hex
  obtain ⟨Mu', hMu'⟩ := C84_embedding solve hsolve h hw hloop hd k res hres l hl hgap S hSk hS
  refine le_trans (measure_mono ?_) (C72_half (embedding (res.map Prod.snd)) g.n k k (by omega) (by omega)
    (k * 100 : Nat) (by omega) Mu Z junk Mu' S hSk)
  intro u hu
  rw [Set.mem_ofPred_eq] at hu ⊢
  by_contra hno
  apply hu
  have hle := not_lt.1 hno
  cases hr : runKMeans (embedding (res.map Prod.snd)) g.n k k (k * 100 : Nat) u Mu Z junk with
  | ub => rw [hr] at hle; simp [resultCost] at hle
  | throw e => rw [hr] at hle; simp [resultCost] at hle
  | ok r =>
    refine ⟨r, rfl, ?_⟩
    rw [hr] at hle
    have hlog : 0 ≤ Real.log k := Real.log_natCast_nonneg k
    have hc0 : 0 ≤ cost (embedding (res.map Prod.snd)) g.n k Mu' S :=
      Finset.sum_nonneg fun i _ => dist2_nonneg _ _ _
    have hcost : cost (embedding (res.map Prod.snd)) g.n k r.1 r.2
        ≤ 16 * (Real.log k + 2) * cost (embedding (res.map Prod.snd)) g.n k Mu' S := by
      simp only [resultCost] at hle
      exact (ENNReal.ofReal_le_ofReal_iff (by positivity)).1 hle
    have hrk : ∀ i < g.n, r.2 i < k := by
      unfold runKMeans at hr
      cases hs : sampleRowsPlusPlus (embedding (res.map Prod.snd)) g.n k k u Mu junk with
      | ub => rw [hs] at hr; cases hr
      | throw e => rw [hs] at hr; cases hr
      | ok M =>
        rw [hs] at hr
        simp only [Outcome.bind, Outcome.ok.injEq] at hr
        rw [← hr]
        exact (C55_result _ g.n k k (by omega) M Z _ (by omega)).1
    have h1 := agreement_ge (embedding_on hex) S r.2 hrk hS r.1
    have h2 := sum_resid h hw hloop hd hex l hl hgap S hS
    have h3 : cost (embedding (res.map Prod.snd)) g.n k r.1 r.2 ≤ 16 * (Real.log k + 2) * g.abs.clusterDefect l k S :=
      le_trans hcost (mul_le_mul_of_nonneg_left hMu' (by positivity))
    change cost (fun u j => embedding (res.map Prod.snd) u j) g.n k r.1 r.2 ≤ _ at h3
    linarith

end KMeans
end Stag
