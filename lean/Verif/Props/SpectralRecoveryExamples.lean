import Verif.Props.SpectralRecovery
import Verif.Props.CheegerExamples

/-!
# C84: a case that meets the hypotheses
-/

namespace Stag

open Finset Recovery

/-- An eigenvector for an eigenvalue below the gap is in the span of the family. -/
theorem resid_eigen {n k : Nat} {f : Nat → Nat → ℝ} (hf : ON n k f) {M : Nat → Nat → ℝ}
    (hM : ∀ i j, M i j = M j i) (l : Nat → ℝ) (he : ∀ j < k, IsEigen n M (l j) (f j)) (c : ℝ)
    (hgap : ∀ m v, IsEigen n M m v → (∃ i < n, v i ≠ 0) → (∀ j < k, dot n (f j) v = 0) → c ≤ m)
    (m : ℝ) (hm : m < c) (y : Nat → ℝ) (hy : IsEigen n M m y) : resid n k f y = 0 := by
  have hr : IsEigen n M m (rest n k f y) := by
    intro i hi
    unfold rest
    have h1 : ∀ j ∈ range k, dot n (f j) y * (l j * f j i) = m * (dot n (f j) y * f j i) := by
      intro j hj
      by_cases hlm : l j = m
      · rw [hlm]; ring
      · rw [eigen_ortho hM (he j (mem_range.1 hj)) hy hlm]; ring
    have h2 : ∑ t ∈ range n, M i t * ∑ j ∈ range k, dot n (f j) y * f j t
        = ∑ j ∈ range k, dot n (f j) y * (l j * f j i) := by
      simp_rw [Finset.mul_sum]
      rw [Finset.sum_comm]
      refine Finset.sum_congr rfl fun j hj => ?_
      rw [← he j (mem_range.1 hj) i hi, Finset.mul_sum]
      exact Finset.sum_congr rfl fun t _ => by ring
    simp_rw [mul_sub]
    rw [Finset.sum_sub_distrib, h2, hy i hi, Finset.sum_congr rfl h1, ← Finset.mul_sum]
  by_cases hne : ∃ i < n, rest n k f y i ≠ 0
  · exact absurd (hgap m _ hr hne fun j hj => rest_ortho hf y j hj) (not_le.2 hm)
  · push Not at hne
    rw [resid_eq hf]
    exact Finset.sum_eq_zero fun i hi => by rw [hne i (mem_range.1 hi), mul_zero]

/-- The square with two heavy edges 0 - 1 and 2 - 3 of weight 100 and two light edges 1 - 2 and 3 - 0 of weight 1. -/
noncomputable def squareW (i j : Nat) : ℝ :=
  if i < 4 ∧ j < 4 then (if i ≠ j ∧ i / 2 = j / 2 then 100 else if i + j = 3 then 1 else 0) else 0

/-- The four sign patterns. -/
noncomputable def signs (a b c d : ℝ) (i : Nat) : ℝ := if i = 0 then a else if i = 1 then b else if i = 2 then c else d

/-- **C84** (a case).  On the square with two heavy edges of weight 100 and two light edges of weight 1, the hypotheses
of `C84_exact` are met for every solver that meets its contract: `spectral_cluster(graph, 2)` returns the two heavy
edges. -/
theorem C84_square : ∃ g : Graph ℝ, g.Reachable ∧ g.abs = ⟨4, squareW⟩ ∧
    (∃ solve res, SolverSpec solve ∧ computeEigensystem solve g .normalisedLaplacian 2 .smallest = .ok res) ∧
    ∀ (solve : EigenSolver) (res : EigenPairs) (junk : Nat → ℝ), SolverSpec solve →
      computeEigensystem solve g .normalisedLaplacian 2 .smallest = .ok res →
      ∃ labels Mu, spectralCluster solve g 2 junk = .ok labels ∧
        (∀ m v, IsEigen g.n (matrixOf g.abs .normalisedLaplacian) m v → (∃ i < g.n, v i ≠ 0) →
          (∀ p ∈ res, dot g.n p.2 v = 0) → (200 / 101 : ℝ) ≤ m) ∧
        g.abs.clusterDefect (200 / 101) 2 (fun u => u / 2) = 1 / 100 ∧
        KMeans.cost (embedding (res.map Prod.snd)) g.n 2 Mu (fun u => labels.getD u 0) = 0 ∧
        ∀ u < 4, ∀ v < 4, labels.getD u 0 = labels.getD v 0 ↔ u / 2 = v / 2 := by
  obtain ⟨g, hr, ha⟩ := exists_graph 4 squareW
    (by
      intro i j
      unfold squareW
      by_cases h : i < 4 ∧ j < 4
      · rw [if_pos h, if_pos h.symm]
        obtain ⟨h1, h2⟩ := h
        interval_cases i <;> interval_cases j <;> simp
      · rw [if_neg h, if_neg (fun h' => h h'.symm)])
    (by
      intro i j
      unfold squareW
      split_ifs
      · right; unfold epsilon; norm_num
      · right; unfold epsilon; norm_num
      · left; rfl
      · left; rfl)
    (by
      intro i j h
      unfold squareW
      rw [if_neg (by omega)])
  have hn : g.n = 4 := congrArg WGraph.n ha
  have hwv : ∀ i j, g.abs.w i j = squareW i j := fun i j => by rw [ha]
  have hw : ∀ u v, 0 ≤ g.abs.w u v := by
    intro u v
    rw [hwv]; unfold squareW; split_ifs <;> norm_num
  have hloop : ∀ v, g.abs.w v v = 0 := by
    intro v
    rw [hwv]; unfold squareW
    split_ifs with h1 h2 h3
    · exact absurd rfl h2.1
    · omega
    · rfl
    · rfl
  have hdeg : ∀ v, v < 4 → g.abs.deg v = 101 := by
    intro v hv
    unfold WGraph.deg
    rw [hloop, show g.abs.n = 4 from hn]
    simp only [hwv, Finset.sum_range_succ, Finset.sum_range_zero, squareW]
    interval_cases v <;> norm_num
  have hd : ∀ v, v < g.n → 0 < g.abs.deg v := by
    intro v hv
    rw [hdeg v (by omega)]; norm_num
  set M := matrixOf g.abs .normalisedLaplacian with hM
  have hMsym : ∀ i j, M i j = M j i := fun i j => matrixOf_symm hr _ i j
  have hMe : ∀ i < 4, ∀ j < 4, M i j = (if i = j then 1 else 0) - squareW i j / 101 := by
    intro i hi j hj
    simp only [hM, matrixOf]
    rw [hdeg i hi, hdeg j hj, Real.mul_self_sqrt (by norm_num), hwv]
  have hrow : ∀ v : Nat → ℝ, ∀ i < 4, ∑ j ∈ range g.n, M i j * v j = signs (v 0 - 100 / 101 * v 1 - 1 / 101 * v 3)
      (v 1 - 100 / 101 * v 0 - 1 / 101 * v 2) (v 2 - 100 / 101 * v 3 - 1 / 101 * v 1)
      (v 3 - 100 / 101 * v 2 - 1 / 101 * v 0) i := by
    intro v i hi
    rw [hn, Finset.sum_congr rfl (fun j hj => by rw [hMe i hi j (mem_range.1 hj)])]
    simp only [Finset.sum_range_succ, Finset.sum_range_zero, squareW, signs]
    interval_cases i <;> norm_num <;> ring
  have e1 : ∀ c : ℝ, IsEigen g.n M 0 (signs c c c c) := by
    intro c i hi
    rw [hrow _ i (by omega)]
    rw [hn] at hi
    interval_cases i <;> norm_num [signs] <;> ring
  have e2 : ∀ c : ℝ, IsEigen g.n M (2 / 101) (signs c c (-c) (-c)) := by
    intro c i hi
    rw [hrow _ i (by omega)]
    rw [hn] at hi
    interval_cases i <;> norm_num [signs] <;> ring
  have e3 : ∀ c : ℝ, IsEigen g.n M (200 / 101) (signs c (-c) (-c) c) := by
    intro c i hi
    rw [hrow _ i (by omega)]
    rw [hn] at hi
    interval_cases i <;> norm_num [signs] <;> ring
  have hdot : ∀ v w : Nat → ℝ, dot g.n v w = v 0 * w 0 + v 1 * w 1 + v 2 * w 2 + v 3 * w 3 := by
    intro v w
    unfold dot
    rw [hn]
    simp [Finset.sum_range_succ]
  have hex3 : EigenExtreme (· ≤ ·) g.n M 3 [(0, signs (1/2) (1/2) (1/2) (1/2)),
      (2 / 101, signs (1/2) (1/2) (-(1/2)) (-(1/2))), (200 / 101, signs (1/2) (-(1/2)) (-(1/2)) (1/2))] := by
    refine ⟨rfl, ?_, ?_, ?_, ?_, ?_⟩
    · intro p hp
      simp only [List.mem_cons, List.not_mem_nil, or_false] at hp
      rcases hp with rfl | rfl | rfl
      · exact e1 _
      · exact e2 _
      · exact e3 _
    · intro p hp
      simp only [List.mem_cons, List.not_mem_nil, or_false] at hp
      rcases hp with rfl | rfl | rfl <;> rw [hdot] <;> norm_num [signs]
    · simp only [List.pairwise_cons, List.mem_cons, List.not_mem_nil, or_false, forall_eq_or_imp, forall_eq,
        List.Pairwise.nil, and_true, hdot, signs, IsEmpty.forall_iff, implies_true]
      norm_num
    · simp only [List.pairwise_cons, List.mem_cons, List.not_mem_nil, or_false, forall_eq_or_imp, forall_eq,
        List.Pairwise.nil, and_true, IsEmpty.forall_iff, implies_true]
      norm_num
    · intro m v hv hne ho p hp
      have o1 := ho _ (List.mem_cons_self ..)
      have o2 := ho _ (List.mem_cons_of_mem _ (List.mem_cons_self ..))
      have o3 := ho _ (List.mem_cons_of_mem _ (List.mem_cons_of_mem _ (List.mem_cons_self ..)))
      rw [hdot] at o1 o2 o3
      norm_num [signs] at o1 o2 o3
      have h1 : v 1 = - v 0 := by linarith
      have h2 : v 2 = v 0 := by linarith
      have h3 : v 3 = - v 0 := by linarith
      have hv0 : v 0 ≠ 0 := by
        intro h0
        obtain ⟨i, hi, hvi⟩ := hne
        rw [hn] at hi
        interval_cases i
        · exact hvi h0
        · exact hvi (by rw [h1, h0, neg_zero])
        · exact hvi (by rw [h2, h0])
        · exact hvi (by rw [h3, h0, neg_zero])
      have h4 := hv 0 (by omega)
      rw [hrow _ 0 (by norm_num)] at h4
      simp only [signs, if_true, h1, h3] at h4
      have hm : m = 2 := mul_right_cancel₀ hv0 (by linarith)
      rw [hm]
      simp only [List.mem_cons, List.not_mem_nil, or_false] at hp
      rcases hp with rfl | rfl | rfl <;> norm_num
  refine ⟨g, hr, ha, ?_, fun solve res junk hs hres => ?_⟩
  · obtain ⟨solve, hs, hall⟩ := C53_always_answers
    obtain ⟨res, hres⟩ := hall g .normalisedLaplacian 2 .smallest hr (by norm_num) (by rw [hn]; norm_num) (fun _ => hd)
    exact ⟨solve, res, hs, hres⟩
  have hex := C53_eigensystem solve hs hr hw _ 2 .smallest (fun _ => hd) res hres
  change EigenExtreme (· ≤ ·) g.n M 2 res at hex
  have hgap : ∀ m v, IsEigen g.n M m v → (∃ i < g.n, v i ≠ 0) → (∀ p ∈ res, dot g.n p.2 v = 0) → (200 / 101 : ℝ) ≤ m := by
    obtain ⟨p, hp, h⟩ := next_eigenvalue hMsym hex hex3
    simp only [List.getElem?_cons_succ, List.getElem?_cons_zero, Option.some.injEq] at hp
    rw [← hp] at h
    exact h
  set X := embedding (res.map Prod.snd) with hX
  have hon := embedding_on hex
  set f : Nat → Nat → ℝ := fun j u => embedding (res.map Prod.snd) u j with hf
  have hgap' : ∀ m v, IsEigen g.n M m v → (∃ i < g.n, v i ≠ 0) → (∀ j < 2, dot g.n (f j) v = 0) → (200 / 101 : ℝ) ≤ m := by
    intro m v hv hne ho
    refine hgap m v hv hne fun p hp => ?_
    obtain ⟨j, hj, hpj⟩ := embedding_all hex p hp
    rw [hpj]
    exact ho j hj
  -- the clusters are in the span
  have hclu : ∀ i < 2, KMeans.cluster g.n (fun u => u / 2) i = {2 * i, 2 * i + 1} := by
    intro i hi
    rw [hn]
    ext u
    simp only [KMeans.cluster, mem_filter, mem_range, mem_insert, mem_singleton]
    omega
  have hres0 : ∀ i < 2, resid g.n 2 f (unitOf (KMeans.cluster g.n (fun u => u / 2) i)) = 0 := by
    intro i hi
    set c : ℝ := 1 / Real.sqrt 2 / 2 with hc
    have hcard : (KMeans.cluster g.n (fun u => u / 2) i).card = 2 := by
      rw [hclu i hi, Finset.card_pair (by omega)]
    have h1 := resid_eigen hon hMsym _ (fun j hj => embedding_eigen hex j hj) _ hgap' 0 (by norm_num) _ (e1 c)
    have h2 := resid_eigen hon hMsym _ (fun j hj => embedding_eigen hex j hj) _ hgap' (2 / 101) (by norm_num) _
      (e2 (if i = 0 then c else -c))
    have h3 := resid_add hon (signs c c c c) (signs (if i = 0 then c else -c) (if i = 0 then c else -c)
      (-(if i = 0 then c else -c)) (-(if i = 0 then c else -c)))
    rw [h1, h2, Real.sqrt_zero, add_zero] at h3
    have h4 : resid g.n 2 f (unitOf (KMeans.cluster g.n (fun u => u / 2) i)) ≤ 0 := by
      refine le_trans (le_of_eq ?_) (le_trans h3 (by norm_num))
      have hagree : ∀ u < g.n, unitOf (KMeans.cluster g.n (fun u => u / 2) i) u
          = signs c c c c u + signs (if i = 0 then c else -c) (if i = 0 then c else -c)
            (-(if i = 0 then c else -c)) (-(if i = 0 then c else -c)) u := by
        intro u hu
        rw [hn] at hu
        unfold unitOf
        rw [hcard, hclu i hi]
        have : (1 : ℝ) / Real.sqrt ((2 : Nat) : ℝ) = c + c := by rw [hc]; push_cast; ring
        rw [this]
        interval_cases i <;> interval_cases u <;> simp [signs]
      unfold resid
      rw [dot_congr hagree hagree]
      congr 1
      exact Finset.sum_congr rfl fun j _ => by rw [dot_congr (fun _ _ => rfl) hagree]
    exact le_antisymm h4 (resid_nonneg hon _)
  have hzero : KMeans.cost X g.n 2
      (fun c j => (∑ u ∈ KMeans.cluster g.n (fun u => u / 2) c, f j u) / (KMeans.cluster g.n (fun u => u / 2) c).card)
      (fun u => u / 2) = 0 := by
    refine (cost_means hon (fun u => u / 2) (fun u hu => by omega)).trans ?_
    have : ∀ i ∈ range 2, ∑ j ∈ range 2, dot g.n (f j) (unitOf (KMeans.cluster g.n (fun u => u / 2) i)) ^ 2 = 1 := by
      intro i hi
      have h1 := hres0 i (mem_range.1 hi)
      unfold resid at h1
      rw [dot_unitOf_self g.n _ (cluster_sub _ _ _), if_pos] at h1
      · linarith
      · rw [hclu i (mem_range.1 hi)]; exact ⟨_, mem_insert_self _ _⟩
    rw [Finset.sum_congr rfl this]
    norm_num
  have hsame : ∀ i < g.n, ∀ j < g.n, i / 2 = j / 2 → KMeans.SameRow 2 (X i) (X j) := by
    have hm : ∀ i < g.n, ∀ d < 2, X i d = (∑ u ∈ KMeans.cluster g.n (fun u => u / 2) (i / 2), f d u) /
        (KMeans.cluster g.n (fun u => u / 2) (i / 2)).card := by
      intro i hi d hd2
      have h1 := (Finset.sum_eq_zero_iff_of_nonneg (fun i _ => Finset.sum_nonneg fun d _ => sq_nonneg _)).1 hzero i
        (mem_range.2 hi)
      have h2 := (Finset.sum_eq_zero_iff_of_nonneg (fun d _ => sq_nonneg _)).1 h1 d (mem_range.2 hd2)
      exact sub_eq_zero.1 (pow_eq_zero_iff (two_ne_zero)|>.1 h2)
    intro i hi j hj hij d hd2
    rw [hm i hi d hd2, hm j hj d hd2, hij]
  obtain ⟨r, r1, r2, r3⟩ := KMeans.C55_exact X g.n 2 2 (by omega) (by omega) ((2 : Int) * 100) (by omega)
    (MT.draw 42) (fun c hck => by
      obtain ⟨w, -, -, -, hw⟩ := MT.C55_generator (K := ℝ) 42
      exact ⟨(hw c).1, (MT.C55_seed42 (K := ℝ)).2 c (by omega)⟩)
    (fun _ _ => 0) (fun _ => 0) junk (fun u => u / 2) (fun i hi => by omega) hsame
  have hg : ∀ i < g.n, ((List.range g.n).map r.2).getD i 0 = r.2 i := by
    intro i hi
    simp [List.getD_eq_getElem?_getD, hi]
  have hlab : spectralCluster solve g 2 junk = .ok ((List.range g.n).map r.2) := by
    rw [spectral_eq solve hs hr hw hd 2 (by omega) junk res hres, ← hX]
    change (KMeans.runKMeans X g.n 2 2 (2 * 100) (MT.draw 42) (fun _ _ => 0) (fun _ => 0) junk).bind _ = _
    rw [r1]
    rfl
  have hdef : g.abs.clusterDefect (200 / 101) 2 (fun u => u / 2) = 1 / 100 := by
    rw [(C84_regular hw hd).2 2 (fun u => u / 2) (200 / 101) (by norm_num)
      (fun i hi => ⟨2 * i, by omega, by omega⟩)
      (fun u hu v hv _ => by rw [hdeg u (by omega), hdeg v (by omega)])]
    simp only [Finset.sum_range_succ, Finset.sum_range_zero]
    rw [hclu 0 (by norm_num), hclu 1 (by norm_num)]
    have hvol : ∀ i < 2, g.abs.vol {2 * i, 2 * i + 1} = 202 := by
      intro i hi
      unfold WGraph.vol
      rw [Finset.sum_pair (by omega), hdeg _ (by omega), hdeg _ (by omega)]
      norm_num
    have hcut : ∀ i < 2, g.abs.cut {2 * i, 2 * i + 1} = 2 := by
      intro i hi
      unfold WGraph.cut
      have hco : range g.abs.n \ {2 * i, 2 * i + 1} = {2 * (1 - i), 2 * (1 - i) + 1} := by
        rw [show g.abs.n = 4 from hn]
        ext u
        simp only [mem_sdiff, mem_range, mem_insert, mem_singleton]
        omega
      rw [hco, Finset.sum_pair (by omega), Finset.sum_pair (by omega), Finset.sum_pair (by omega)]
      simp only [hwv, squareW]
      interval_cases i <;> norm_num
    rw [hvol 0 (by norm_num), hvol 1 (by norm_num), hcut 0 (by norm_num), hcut 1 (by norm_num)]
    norm_num
  obtain ⟨Mu, hMu⟩ : ∃ Mu, KMeans.cost X g.n 2 Mu (fun u => ((List.range g.n).map r.2).getD u 0) = 0 := by
    have hex : ∀ c, ∃ i, (∃ j < g.n, r.2 j = c) → i < g.n ∧ r.2 i = c := by
      intro c
      by_cases h : ∃ j < g.n, r.2 j = c
      · obtain ⟨j, h1, h2⟩ := h
        exact ⟨j, fun _ => ⟨h1, h2⟩⟩
      · exact ⟨0, fun h' => absurd h' h⟩
    choose rep hrep using hex
    refine ⟨fun c => X (rep c), Finset.sum_eq_zero fun i hi => Finset.sum_eq_zero fun d hd2 => ?_⟩
    have hi' := mem_range.1 hi
    obtain ⟨h1, h2⟩ := hrep (r.2 i) ⟨i, hi', rfl⟩
    have h3 := (r3 i hi' (rep (r.2 i)) h1).1 h2.symm d (mem_range.1 hd2)
    simp only [hg i hi']
    rw [h3, sub_self]
    norm_num
  refine ⟨_, Mu, hlab, hgap, hdef, hMu, ?_⟩
  have := C84_exact solve hs hr hw hloop hd 2 (by omega) junk res hres (200 / 101) (by norm_num) hgap (fun u => u / 2)
    (fun u hu => by omega) (fun i hi => ⟨2 * i, by omega, by omega⟩) _ hlab Mu (by
      rw [hdef, ← hX, hMu, hn]; norm_num)
  rw [hn] at this
  rw [hn]
  exact this

end Stag
