import Verif.SpectralCluster
import Verif.Props.ZeroEigen
import Verif.Props.KMeans

/-!
# C59: spectral clustering
-/

namespace Stag

open Graph

/-- The embedding of a vertex: its entries in the returned eigenvectors. -/
def embedding (vs : List (Nat → ℝ)) (i j : Nat) : ℝ := vs.getD j (fun _ => 0) i

/-- **C59** (arguments).  `spectral_cluster` raises `invalid_argument` exactly when `k < 1` or `k > n / 2`. -/
theorem C59_arguments (solve : EigenSolver) {g : Graph ℝ} (h : g.Reachable)
    (hd : ∀ v, v < g.n → 0 < g.abs.deg v) (k : Int) (junk : Nat → ℝ) :
    spectralCluster solve g k junk = .throw .invalidArgument ↔ k < 1 ∨ (g.n : Int) < 2 * k := by
  unfold spectralCluster
  split_ifs with hk
  · simp only [true_iff]; omega
  · have hk' : ¬ (k < 1 ∨ (g.n : Int) < 2 * k) := by omega
    simp only [hk', iff_false]
    intro hthrow
    obtain ⟨h1, -⟩ := C53_arguments solve h .normalisedLaplacian k .smallest (fun _ => hd)
    unfold computeEigenvectors at hthrow
    cases hres : computeEigensystem solve g .normalisedLaplacian k .smallest with
    | ub => rw [hres] at hthrow; cases hthrow
    | throw e =>
      rw [hres] at hthrow
      simp only [Outcome.bind, Outcome.throw.injEq] at hthrow
      rw [hthrow] at hres
      have := h1.1 hres
      omega
    | ok res =>
      rw [hres] at hthrow
      simp only [Outcome.bind] at hthrow
      split_ifs at hthrow
      unfold KMeans.runKMeans KMeans.sampleRowsPlusPlus at hthrow
      simp only [] at hthrow
      split_ifs at hthrow <;> cases hthrow

theorem draw42 : (0 : ℝ) ≤ MT.draw 42 0 ∧ (MT.draw 42 0 : ℝ) < 1 := by
  obtain ⟨h1, h2⟩ := MT.C55_seed42 (K := ℝ)
  exact ⟨by rw [h1]; norm_num, h2 0 (by norm_num)⟩

/-- What `spectral_cluster` computes once the eigenvectors are there. -/
theorem spectral_eq (solve : EigenSolver) (hsolve : SolverSpec solve) {g : Graph ℝ} (h : g.Reachable)
    (hw : ∀ u v, 0 ≤ g.abs.w u v) (hd : ∀ v, v < g.n → 0 < g.abs.deg v) (k : Int)
    (hk : 1 ≤ k ∧ 2 * k ≤ g.n) (junk : Nat → ℝ) (res : EigenPairs)
    (hres : computeEigensystem solve g .normalisedLaplacian k .smallest = .ok res) :
    spectralCluster solve g k junk =
      (KMeans.runKMeans (embedding (res.map Prod.snd)) g.n k.toNat k.toNat (k * 100)
        (MT.draw 42) (fun _ _ => 0) (fun _ => 0) junk).bind (fun r => .ok ((List.range g.n).map r.2)) := by
  have hex := C53_eigensystem solve hsolve h hw _ k .smallest (fun _ => hd) res hres
  unfold spectralCluster
  rw [if_neg (by omega)]
  unfold computeEigenvectors
  rw [hres]
  simp only [Outcome.bind]
  rw [if_neg (by rw [List.length_map, hex.count]; omega)]
  rfl

/-- **C59** (labels).  For a graph without negative weights and with positive degrees, and
`1 ≤ k ≤ n / 2`: `spectral_cluster` raises `runtime_error` if the eigenvalue computation does not converge,
and otherwise returns one label below `k` for every vertex.  The labels are a k-means clustering of the
embedding by the `k` smallest eigenvectors of the normalised Laplacian: for centres `M` that are rows of the embedding,
chosen by the k-means++ rule with the draws of the generator for seed 42, every vertex is labelled with the nearest of the
centres after some number of Lloyd iterations less than `100 k`, and the labels with their means `Mu` cost at most as much as
any labelling with the centres `M`. -/
theorem C59_labels (solve : EigenSolver) (hsolve : SolverSpec solve) {g : Graph ℝ} (h : g.Reachable)
    (hw : ∀ u v, 0 ≤ g.abs.w u v) (hd : ∀ v, v < g.n → 0 < g.abs.deg v) (k : Int)
    (hk : 1 ≤ k ∧ 2 * k ≤ g.n) (junk : Nat → ℝ) :
    (spectralCluster solve g k junk = .throw .runtimeError ∧
      computeEigenvectors solve g .normalisedLaplacian k .smallest = .throw .runtimeError) ∨
    ∃ (res : EigenPairs) (labels : List Nat) (M Mu : Nat → Nat → ℝ) (ch : Nat → Nat) (m : Nat),
      computeEigensystem solve g .normalisedLaplacian k .smallest = .ok res ∧
      EigenExtreme (· ≤ ·) g.n (matrixOf g.abs .normalisedLaplacian) k.toNat res ∧
      spectralCluster solve g k junk = .ok labels ∧ labels.length = g.n ∧
      (∀ i < g.n, labels.getD i 0 < k.toNat) ∧
      (∀ c < k.toNat, ch c < g.n ∧ M c = embedding (res.map Prod.snd) (ch c)) ∧
      ((ch 0 : ℝ) ≤ g.n * MT.draw 42 0 ∧ (g.n : ℝ) * MT.draw 42 0 < ch 0 + 1) ∧
      (∀ c, c + 1 < k.toNat → ch (c + 1) =
        KMeans.discreteRand (KMeans.nearDist (embedding (res.map Prod.snd)) k.toNat ch c) g.n (MT.draw 42 (c + 1))) ∧
      (m : Int) < k * 100 ∧
      KMeans.Nearest (embedding (res.map Prod.snd)) g.n k.toNat k.toNat
        (KMeans.runLloyd (embedding (res.map Prod.snd)) g.n k.toNat k.toNat M (fun _ => 0) m).1
        (fun i => labels.getD i 0) ∧
      KMeans.Means (embedding (res.map Prod.snd)) g.n k.toNat k.toNat Mu (fun i => labels.getD i 0) ∧
      ∀ Z', (∀ i < g.n, Z' i < k.toNat) →
        KMeans.cost (embedding (res.map Prod.snd)) g.n k.toNat Mu (fun i => labels.getD i 0) ≤
          KMeans.cost (embedding (res.map Prod.snd)) g.n k.toNat M Z' := by
  obtain ⟨-, h2⟩ := C53_arguments solve h .normalisedLaplacian k .smallest (fun _ => hd)
  rcases h2 ⟨hk.1, by omega⟩ with hthrow | ⟨res, hres⟩
  · left
    unfold spectralCluster
    rw [if_neg (by omega)]
    unfold computeEigenvectors
    rw [hthrow]
    exact ⟨rfl, rfl⟩
  · right
    have hex := C53_eigensystem solve hsolve h hw _ k .smallest (fun _ => hd) res hres
    obtain ⟨M, ch, hM, s0, s1, -, s3⟩ := (KMeans.C55_seeding (embedding (res.map Prod.snd)) g.n k.toNat k.toNat
      (by omega) (by omega) (MT.draw 42) draw42.1 (fun _ _ => 0) junk).1 draw42.2
    obtain ⟨r1, ⟨m, hm, r2⟩, r3⟩ := KMeans.C55_result (embedding (res.map Prod.snd)) g.n k.toNat k.toNat
      (by omega) M (fun _ => 0) (k * 100) (by omega)
    have r4 := (KMeans.C55_monotone (embedding (res.map Prod.snd)) g.n k.toNat k.toNat
      (by omega) M (fun _ => 0) 1 (k * 100).toNat le_rfl (by omega)).2
    rw [Int.toNat_of_nonneg (by omega)] at r4
    have hmin : min k.toNat g.n = k.toNat := by omega
    rw [hmin] at s1 s3
    set r := KMeans.runLloyd (embedding (res.map Prod.snd)) g.n k.toNat k.toNat M (fun _ => 0) (k * 100)
    have hg : ∀ i < g.n, ((List.range g.n).map r.2).getD i 0 = r.2 i := by
      intro i hi
      simp [List.getD_eq_getElem?_getD, hi]
    refine ⟨res, (List.range g.n).map r.2, M, r.1, ch, m, hres, hex, ?_, by simp, fun i hi => ?_, s1, s0, s3, hm,
      fun i hi => ?_, ?_, fun Z' hZ' => ?_⟩
    · rw [spectral_eq solve hsolve h hw hd k hk junk res hres]
      unfold KMeans.runKMeans
      rw [hM]
      rfl
    · rw [hg i hi]; exact r1 i hi
    · simp only [hg i hi]
      exact r2 i hi
    · intro c hc d hd
      have hcl : KMeans.cluster g.n (fun i => ((List.range g.n).map r.2).getD i 0) c = KMeans.cluster g.n r.2 c :=
        Finset.filter_congr fun i hi => by beta_reduce; rw [hg i (Finset.mem_range.1 hi)]
      rw [hcl]
      exact r3 c hc d hd
    · rw [KMeans.cost_congr _ g.n k.toNat r.1 hg]
      exact r4 Z' hZ'

/-- **C59** (embedding).  For a graph with exactly `k` connected components, the embedding maps the vertices
of a component to one direction, with squared length `deg / vol`, and different components to orthogonal
directions. -/
theorem C59_embedding (solve : EigenSolver) (hsolve : SolverSpec solve) {g : Graph ℝ} (h : g.Reachable)
    (hw : ∀ u v, 0 ≤ g.abs.w u v) (hloop : ∀ v, g.abs.w v v = 0) (hd : ∀ v, v < g.n → 0 < g.abs.deg v)
    {comp : Nat → Nat} {k : Nat} (hc : Components g.abs comp k) (vs : List (Nat → ℝ))
    (hres : computeEigenvectors solve g .normalisedLaplacian k .smallest = .ok vs)
    (i i' : Nat) (hi : i < g.n) (hi' : i' < g.n) :
    ∑ j ∈ Finset.range k, embedding vs i j * embedding vs i' j =
      if comp i = comp i' then
        Real.sqrt (g.abs.deg i) * Real.sqrt (g.abs.deg i') /
          g.abs.vol ((Finset.range g.n).filter (fun v => comp v = comp i))
      else 0 := by
  unfold computeEigenvectors at hres
  cases hres' : computeEigensystem solve g .normalisedLaplacian k .smallest with
  | ub => rw [hres'] at hres; cases hres
  | throw e => rw [hres'] at hres; cases hres
  | ok res =>
    rw [hres'] at hres
    simp only [Outcome.bind, Outcome.ok.injEq] at hres
    subst hres
    have hex := C53_eigensystem solve hsolve h hw _ k .smallest (fun _ => hd) res hres'
    have hlen : res.length = k := by rw [hex.count]; simp
    have hF : ∀ j, ∃ F : Nat → ℝ, j < k → ∀ a < g.n,
        embedding (res.map Prod.snd) a j = Real.sqrt (g.abs.deg a) * F (comp a) := by
      intro j
      by_cases hj : j < k
      · have he := hex.eigen _ (List.getElem_mem (show j < res.length by omega))
        rw [((C62_zero_multiplicity solve hsolve h hw hloop _ (.inr rfl) k (fun _ => hd) hc res hres' j
          (by omega)).1).2 hj] at he
        obtain ⟨F, hF⟩ := (kernel_normalised h hw hloop hd hc _).1 he
        refine ⟨F, fun _ a ha => ?_⟩
        rw [← hF a ha]
        unfold embedding
        rw [List.getD_eq_getElem _ _ (by simpa using (show j < res.length by omega)), List.getElem_map]
      · exact ⟨0, fun hj' => absurd hj' hj⟩
    choose F hF using hF
    set vol : Nat → ℝ := fun c => g.abs.vol ((Finset.range g.n).filter (fun v => comp v = c)) with hvol
    have hvpos : ∀ c < k, 0 < vol c := by
      intro c hck
      obtain ⟨v, hv, hvc⟩ := hc.onto c hck
      refine Finset.sum_pos (fun a ha => hd a (Finset.mem_range.1 (Finset.mem_filter.1 ha).1)) ⟨v, ?_⟩
      exact Finset.mem_filter.2 ⟨Finset.mem_range.2 hv, hvc⟩
    have hdot : ∀ j < k, ∀ j' < k, ∑ c ∈ Finset.range k, vol c * (F j c * F j' c)
        = if j = j' then 1 else 0 := by
      intro j hj j' hj'
      have h1 : dot g.n (embedding (res.map Prod.snd) · j) (embedding (res.map Prod.snd) · j')
          = if j = j' then 1 else 0 := by
        have e : ∀ j < k, (embedding (res.map Prod.snd) · j) = (res.getD j (0, 0)).2 := by
          intro j hj
          funext a
          unfold embedding
          rw [List.getD_eq_getElem _ _ (by simpa using (show j < res.length by omega)), List.getElem_map,
            List.getD_eq_getElem]
        rw [e j hj, e j' hj']
        rw [List.getD_eq_getElem _ _ (by omega), List.getD_eq_getElem _ _ (by omega)]
        split_ifs with hjj
        · subst hjj; exact hex.unit _ (List.getElem_mem _)
        · rcases lt_or_gt_of_ne hjj with h | h
          · exact List.pairwise_iff_getElem.1 hex.ortho j j' (by omega) (by omega) h
          · rw [dot_comm]; exact List.pairwise_iff_getElem.1 hex.ortho j' j (by omega) (by omega) h
      rw [← h1]
      have h2 : dot g.n (embedding (res.map Prod.snd) · j) (embedding (res.map Prod.snd) · j')
          = ∑ a ∈ Finset.range g.n, g.abs.deg a * (F j (comp a) * F j' (comp a)) := by
        unfold dot
        apply Finset.sum_congr rfl
        intro a ha
        have ha' := Finset.mem_range.1 ha
        simp only []
        rw [hF j hj a ha', hF j' hj' a ha']
        have := Real.mul_self_sqrt (hd a ha').le
        linear_combination (F j (comp a) * F j' (comp a)) * this
      rw [h2]
      have h3 := Finset.sum_fiberwise_of_maps_to (s := Finset.range g.n) (t := Finset.range k) (g := comp)
        (fun a ha => Finset.mem_range.2 (hc.lt a (Finset.mem_range.1 ha)))
        (fun a => g.abs.deg a * (F j (comp a) * F j' (comp a)))
      rw [← h3]
      apply Finset.sum_congr rfl
      intro c _
      simp only [hvol, WGraph.vol]
      rw [Finset.sum_mul]
      exact Finset.sum_congr rfl (fun a ha => by rw [(Finset.mem_filter.1 ha).2])
    -- the transposed relation
    have htr : ∀ c < k, ∀ c' < k, ∑ j ∈ Finset.range k, F j c * F j c'
        = if c = c' then 1 / vol c else 0 := by
      let A : Matrix (Fin k) (Fin k) ℝ := Matrix.of (fun j c => Real.sqrt (vol c) * F j c)
      have hA : A * A.transpose = 1 := by
        ext j j'
        rw [Matrix.mul_apply, Matrix.one_apply]
        have := hdot j j.2 j' j'.2
        rw [Finset.sum_range] at this
        simp only [Fin.ext_iff]
        rw [← this]
        apply Finset.sum_congr rfl
        intro c _
        have := Real.mul_self_sqrt (hvpos c c.2).le
        simp only [A, Matrix.of_apply, Matrix.transpose_apply]
        linear_combination (F j c * F j' c) * this
      have hA' := mul_eq_one_comm.1 hA
      intro c hc c' hc'
      have := congrFun (congrFun hA' ⟨c, hc⟩) ⟨c', hc'⟩
      rw [Matrix.mul_apply, Matrix.one_apply] at this
      simp only [A, Matrix.of_apply, Matrix.transpose_apply, Fin.mk.injEq] at this
      have e : ∑ j : Fin k, Real.sqrt (vol c) * F j c * (Real.sqrt (vol c') * F j c')
          = Real.sqrt (vol c) * Real.sqrt (vol c') * ∑ j ∈ Finset.range k, F j c * F j c' := by
        rw [Finset.sum_range, Finset.mul_sum]
        exact Finset.sum_congr rfl (fun j _ => by ring)
      rw [e] at this
      have p1 := Real.sqrt_pos.2 (hvpos c hc)
      have p2 := Real.sqrt_pos.2 (hvpos c' hc')
      split_ifs at this ⊢ with hcc
      · subst hcc
        rw [Real.mul_self_sqrt (hvpos c hc).le] at this
        rw [eq_div_iff (hvpos c hc).ne', mul_comm, this]
      · exact (mul_eq_zero.1 this).resolve_left (mul_pos p1 p2).ne'
    have e : ∑ j ∈ Finset.range k, embedding (res.map Prod.snd) i j * embedding (res.map Prod.snd) i' j
        = Real.sqrt (g.abs.deg i) * Real.sqrt (g.abs.deg i') *
          ∑ j ∈ Finset.range k, F j (comp i) * F j (comp i') := by
      rw [Finset.mul_sum]
      apply Finset.sum_congr rfl
      intro j hj
      rw [hF j (Finset.mem_range.1 hj) i hi, hF j (Finset.mem_range.1 hj) i' hi']
      ring
    rw [e, htr _ (hc.lt i hi) _ (hc.lt i' hi')]
    split_ifs
    · rw [mul_one_div]
    · rw [mul_zero]

/-- **C59** (components).  For a graph with exactly `k ≤ 1000` connected components in each of which all
degrees are equal, `spectral_cluster` returns the components: two vertices have the same label exactly when
they are connected. -/
theorem C59_components (solve : EigenSolver) (hsolve : SolverSpec solve) {g : Graph ℝ} (h : g.Reachable)
    (hw : ∀ u v, 0 ≤ g.abs.w u v) (hloop : ∀ v, g.abs.w v v = 0) (hd : ∀ v, v < g.n → 0 < g.abs.deg v)
    {comp : Nat → Nat} {k : Nat} (hc : Components g.abs comp k) (hk : 1 ≤ k) (hk2 : 2 * k ≤ g.n)
    (hk3 : k ≤ 1000)
    (hreg : ∀ u < g.n, ∀ v < g.n, g.abs.Connected u v → g.abs.deg u = g.abs.deg v) (junk : Nat → ℝ)
    (res : EigenPairs) (hres : computeEigensystem solve g .normalisedLaplacian k .smallest = .ok res) :
    ∃ labels, spectralCluster solve g k junk = .ok labels ∧ labels.length = g.n ∧
      (∀ i < g.n, labels.getD i 0 < k) ∧
      ∀ i < g.n, ∀ j < g.n, labels.getD i 0 = labels.getD j 0 ↔ g.abs.Connected i j := by
  set X := embedding (res.map Prod.snd) with hX
  have hin := C59_embedding solve hsolve h hw hloop hd hc (res.map Prod.snd)
    (by unfold computeEigenvectors; rw [hres]; rfl)
  rw [← hX] at hin
  have hdist : ∀ i < g.n, ∀ j < g.n, ∑ d ∈ Finset.range k, (X i d - X j d) ^ 2
      = (∑ d ∈ Finset.range k, X i d * X i d) - 2 * (∑ d ∈ Finset.range k, X i d * X j d)
        + ∑ d ∈ Finset.range k, X j d * X j d := by
    intro i _ j _
    rw [Finset.mul_sum, ← Finset.sum_sub_distrib, ← Finset.sum_add_distrib]
    exact Finset.sum_congr rfl (fun d _ => by ring)
  have hvpos : ∀ i < g.n, 0 < g.abs.vol ((Finset.range g.n).filter (fun v => comp v = comp i)) := by
    intro i hi
    refine Finset.sum_pos (fun a ha => hd a (Finset.mem_range.1 (Finset.mem_filter.1 ha).1)) ⟨i, ?_⟩
    exact Finset.mem_filter.2 ⟨Finset.mem_range.2 hi, rfl⟩
  have hself : ∀ i < g.n, 0 < ∑ d ∈ Finset.range k, X i d * X i d := by
    intro i hi
    rw [hin i i hi hi, if_pos rfl, Real.mul_self_sqrt (hd i hi).le]
    exact div_pos (hd i hi) (hvpos i hi)
  have hrow : ∀ i < g.n, ∀ j < g.n, KMeans.SameRow k (X i) (X j) ↔ comp i = comp j := by
    intro i hi j hj
    constructor
    · intro hs
      by_contra hne
      have h1 := hin i j hi hj
      rw [if_neg hne] at h1
      have h2 := hself i hi
      rw [Finset.sum_congr rfl (fun d hdd => by rw [← hs d (Finset.mem_range.1 hdd)])] at h1
      linarith
    · intro he d hdd
      have hz : ∑ d ∈ Finset.range k, (X i d - X j d) ^ 2 = 0 := by
        rw [hdist i hi j hj, hin i i hi hi, hin i j hi hj, hin j j hj hj, if_pos rfl, if_pos he, if_pos rfl,
          ← he, hreg i hi j hj ((hc.same i hi j hj).1 he)]
        ring
      have := (Finset.sum_eq_zero_iff_of_nonneg (fun d _ => sq_nonneg (X i d - X j d))).1 hz d
        (Finset.mem_range.2 hdd)
      exact sub_eq_zero.1 (pow_eq_zero_iff (two_ne_zero)|>.1 this)
  obtain ⟨r, r1, r2, r3⟩ := KMeans.C55_exact X g.n k k (by omega) (by omega) ((k : Int) * 100) (by omega)
    (MT.draw 42) (fun c hck => by
      obtain ⟨w, -, -, -, hw⟩ := MT.C55_generator (K := ℝ) 42
      exact ⟨(hw c).1, (MT.C55_seed42 (K := ℝ)).2 c (by omega)⟩)
    (fun _ _ => 0) (fun _ => 0) junk comp (fun i hi => hc.lt i hi)
    (fun i hi j hj he => (hrow i hi j hj).2 he)
  have hg : ∀ i < g.n, ((List.range g.n).map r.2).getD i 0 = r.2 i := by
    intro i hi
    simp [List.getD_eq_getElem?_getD, hi]
  refine ⟨(List.range g.n).map r.2, ?_, by simp, fun i hi => by rw [hg i hi]; exact r2 i hi,
    fun i hi j hj => ?_⟩
  · rw [spectral_eq solve hsolve h hw hd k (by omega) junk res hres, ← hX, Int.toNat_natCast, r1]
    rfl
  · rw [hg i hi, hg j hj, r3 i hi j hj, hrow i hi j hj]
    exact hc.same i hi j hj

end Stag
