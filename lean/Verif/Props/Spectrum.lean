import Verif.Spec.Eigen
import Verif.Props.Laplacian

/-!
# C53: the spectral shift
-/

namespace Stag

open Graph

theorem shiftDiag_spec (d : ℝ) {m : SprsMat (XReal ℝ)} (h : m.WF) (k : Nat) (hr : k ≤ m.rows)
    (hc : k ≤ m.cols) :
    (shiftDiag k m d).WF ∧ (shiftDiag k m d).rows = m.rows ∧ (shiftDiag k m d).cols = m.cols ∧
    ∀ i j, (shiftDiag k m d).coeff i j =
      if i = j ∧ i < k then m.coeff i j + XReal.fin d else m.coeff i j := by
  induction k with
  | zero => exact ⟨h, rfl, rfl, fun i j => by rw [if_neg (by omega)]; rfl⟩
  | succ k ih =>
    obtain ⟨h1, h2, h3, h4⟩ := ih (by omega) (by omega)
    have e : shiftDiag (k + 1) m d
        = (shiftDiag k m d).update k k (fun v => v + XReal.fin d) := by
      unfold shiftDiag
      rw [List.range_succ, List.foldl_append]
      rfl
    rw [e]
    refine ⟨SprsMat.wf_update h1 (by omega) _, by simpa using h2, by simpa using h3, fun i j => ?_⟩
    rw [SprsMat.coeff_update h1 (by omega)]
    by_cases hij : i = k ∧ j = k
    · rw [if_pos hij, h4, hij.1, hij.2, if_neg (by omega), if_pos (by omega)]
    · rw [if_neg hij, h4]
      by_cases h5 : i = j ∧ i < k
      · rw [if_pos h5, if_pos (by omega)]
      · rw [if_neg h5, if_neg (by omega)]

theorem degree_ok {g : Graph ℝ} (h : g.Reachable) (v : Nat) (hv : v < g.n) :
    g.degree v = .ok (g.abs.deg v) := by
  unfold Graph.degree Graph.checkVertex
  rw [if_neg (by omega), if_neg (by omega)]
  simp only [Outcome.bind_ok, Int.toNat_natCast, (C07_degree h v hv).2.1]

/-- The maximum degree is at least 0 and at least every degree, and not larger. -/
theorem maxDegree_spec {g : Graph ℝ} (h : g.Reachable) : ∃ d, maxDegree g = .ok d ∧ 0 ≤ d ∧
    (∀ v < g.n, g.abs.deg v ≤ d) ∧ (d = 0 ∨ ∃ v < g.n, d = g.abs.deg v) := by
  unfold maxDegree
  have : ∀ k ≤ g.n, ∃ d, (List.range k).foldl (fun acc (i : Nat) => acc.bind (fun m =>
      (g.degree i).bind (fun d => .ok (max d m)))) (Outcome.ok (0 : ℝ)) = .ok d ∧ 0 ≤ d ∧
      (∀ v < k, g.abs.deg v ≤ d) ∧ (d = 0 ∨ ∃ v < g.n, d = g.abs.deg v) := by
    intro k
    induction k with
    | zero => intro _; exact ⟨0, rfl, le_refl _, by simp, .inl rfl⟩
    | succ k ih =>
      intro hk
      obtain ⟨d, h1, h2, h3, h4⟩ := ih (by omega)
      refine ⟨max (g.abs.deg k) d, ?_, le_max_of_le_right h2, fun v hv => ?_, ?_⟩
      · rw [List.range_succ, List.foldl_append, h1]
        simp only [List.foldl_cons, List.foldl_nil, Outcome.bind]
        rw [degree_ok h k (by omega)]
      · rcases Nat.lt_succ_iff_lt_or_eq.1 hv with hv | rfl
        · exact le_max_of_le_right (h3 v hv)
        · exact le_max_left _ _
      · rcases le_total (g.abs.deg k) d with hle | hle
        · rw [max_eq_right hle]; exact h4
        · rw [max_eq_left hle]; exact .inr ⟨k, by omega, rfl⟩
  exact this g.n (le_refl _)

/-! ## The shifted matrices -/

/-- `c I + s M`. -/
noncomputable def shifted (c s : ℝ) (M : Nat → Nat → ℝ) (i j : Nat) : ℝ :=
  (if i = j then c else 0) + s * M i j

theorem quadForm_shifted (n : Nat) (c s : ℝ) (M : Nat → Nat → ℝ) (x : Nat → ℝ) :
    quadForm n (shifted c s M) x = c * dot n x x + s * quadForm n M x := by
  unfold quadForm shifted dot
  rw [Finset.mul_sum, Finset.mul_sum, ← Finset.sum_add_distrib]
  apply Finset.sum_congr rfl
  intro i hi
  rw [Finset.mul_sum]
  have : ∀ j ∈ Finset.range n, x i * ((if i = j then c else 0) + s * M i j) * x j
      = (if i = j then c * (x i * x j) else 0) + s * (x i * M i j * x j) := by
    intro j _
    split_ifs <;> ring
  rw [Finset.sum_congr rfl this, Finset.sum_add_distrib, Finset.sum_ite_eq, if_pos hi]

theorem quadForm_congr {n : Nat} {M N : Nat → Nat → ℝ} (h : ∀ i < n, ∀ j < n, M i j = N i j)
    (x : Nat → ℝ) : quadForm n M x = quadForm n N x := by
  unfold quadForm
  apply Finset.sum_congr rfl
  intro i hi
  apply Finset.sum_congr rfl
  intro j hj
  rw [h i (Finset.mem_range.1 hi) j (Finset.mem_range.1 hj)]

theorem laplacian_matrixOf {g : Graph ℝ} (h : g.Reachable) {i j : Nat} (hi : i < g.n) :
    g.laplacian.coeff i j = matrixOf g.abs .laplacian i j := by
  obtain ⟨-, -, -, -, h5, h6, -⟩ := C08_laplacian_entries h
  simp only [matrixOf]
  by_cases hij : i = j
  · subst hij; rw [if_pos rfl, h5 i hi]
  · rw [if_neg hij, h6 i j hij, zero_sub]

theorem normalised_matrixOf {g : Graph ℝ} (h : g.Reachable) (hd : ∀ v, v < g.n → 0 < g.abs.deg v)
    {i j : Nat} (hj : j < g.n) :
    (g.normLaplacian Real.sqrt).coeff i j = .fin (matrixOf g.abs .normalisedLaplacian i j) :=
  (C09_entries h hd i j hj).1

/-- `Σ deg x²`. -/
noncomputable def degForm (g : Graph ℝ) (x : Nat → ℝ) : ℝ :=
  ∑ i ∈ Finset.range g.n, g.abs.deg i * (x i * x i)

theorem degForm_le (g : Graph ℝ) (x : Nat → ℝ) (d : ℝ) (hd : ∀ v < g.n, g.abs.deg v ≤ d) :
    degForm g x ≤ d * dot g.n x x := by
  unfold degForm dot
  rw [Finset.mul_sum]
  exact Finset.sum_le_sum (fun i hi =>
    mul_le_mul_of_nonneg_right (hd i (Finset.mem_range.1 hi)) (mul_self_nonneg _))

theorem quadForm_laplacian (g : Graph ℝ) (x : Nat → ℝ) :
    quadForm g.n (matrixOf g.abs .laplacian) x = degForm g x - quadForm g.n g.abs.w x := by
  unfold quadForm degForm matrixOf
  rw [← Finset.sum_sub_distrib]
  apply Finset.sum_congr rfl
  intro i hi
  have : ∀ j ∈ Finset.range g.n, x i * ((if i = j then g.abs.deg i else 0) - g.abs.w i j) * x j
      = (if i = j then g.abs.deg i * (x i * x j) else 0) - x i * g.abs.w i j * x j := by
    intro j _
    split_ifs <;> ring
  rw [Finset.sum_congr rfl this, Finset.sum_sub_distrib, Finset.sum_ite_eq, if_pos hi]

theorem quadForm_signless {g : Graph ℝ} (h : g.Reachable) (x : Nat → ℝ) :
    quadForm g.n g.signlessLaplacian.coeff x = degForm g x + quadForm g.n g.abs.w x := by
  have h1 := quadForm_laplacian g x
  rw [← quadForm_congr (M := g.laplacian.coeff) (fun i hi j _ => laplacian_matrixOf h hi)] at h1
  have h2 : quadForm g.n g.signlessLaplacian.coeff x
      = quadForm g.n g.laplacian.coeff x + 2 * quadForm g.n g.abs.w x := by
    unfold quadForm
    rw [Finset.mul_sum, ← Finset.sum_add_distrib]
    apply Finset.sum_congr rfl
    intro i _
    rw [Finset.mul_sum, ← Finset.sum_add_distrib]
    apply Finset.sum_congr rfl
    intro j _
    have := (C08_laplacian_entries h).2.2.2.1 i j
    rw [show g.signlessLaplacian.coeff i j = g.laplacian.coeff i j + 2 * g.abs.w i j by linarith]
    ring
  rw [h2, h1]
  ring

/-- With non-negative weights: `|x' A x| ≤ Σ deg x²`. -/
theorem adjacency_bounds {g : Graph ℝ} (h : g.Reachable) (hw : ∀ u v, 0 ≤ g.abs.w u v) (x : Nat → ℝ) :
    quadForm g.n g.abs.w x ≤ degForm g x ∧ - quadForm g.n g.abs.w x ≤ degForm g x := by
  obtain ⟨h1, h2⟩ := C08_positive_semidefinite h hw x
  rw [quadForm_congr (N := matrixOf g.abs .laplacian) (fun i hi j _ => laplacian_matrixOf h hi),
    quadForm_laplacian] at h1
  rw [quadForm_signless h] at h2
  constructor <;> linarith

/-- The sign of the rule. -/
def EigenSortRule.sign : EigenSortRule → ℝ
  | .largest => 1
  | .smallest => -1

theorem symUpper_fin {n : Nat} {m : SprsMat (XReal ℝ)} {M : Nat → Nat → ℝ}
    (hm : ∀ i < n, ∀ j < n, m.coeff i j = .fin (M i j)) (hs : ∀ i < n, ∀ j < n, M i j = M j i) :
    ∀ i < n, ∀ j < n, symUpper m i j = .fin (M i j) := by
  intro i hi j hj
  unfold symUpper
  split_ifs
  · exact hm i hi j hj
  · rw [hm j hj i hi, hs j hj i hi]

theorem matrixOf_symm {g : Graph ℝ} (h : g.Reachable) (mat : GraphMatrix) (i j : Nat) :
    matrixOf g.abs mat i j = matrixOf g.abs mat j i := by
  have hs : g.abs.w i j = g.abs.w j i := h.valid.symm i j
  cases mat <;> simp only [matrixOf]
  · exact hs
  · rw [hs]
    by_cases e : i = j
    · subst e; rfl
    · rw [if_neg e, if_neg (fun h => e h.symm)]
  · rw [hs, mul_comm (Real.sqrt (g.abs.deg i))]
    by_cases e : i = j
    · subst e; rfl
    · rw [if_neg e, if_neg (fun h => e h.symm)]

theorem largestmag_eq (solve : EigenSolver) (m : SprsMat (XReal ℝ)) (num : Int) (c : ℝ)
    (which : EigenSortRule) (off : ℝ) (inv : Bool) (hoff : off = -c)
    (hinv : inv = decide (which = .smallest)) (hnum : ¬ (num < 1 ∨ (m.rows : Int) ≤ num)) :
    eigensystemLargestmag solve m num off inv =
      match solve m.rows (symUpper m) num.toNat with
      | none => .throw .runtimeError
      | some raw => .ok (raw.map (fun p => (which.sign * (p.1 - c), p.2))) := by
  unfold eigensystemLargestmag
  rw [if_neg hnum]
  cases solve m.rows (symUpper m) num.toNat with
  | none => rfl
  | some raw =>
    subst hoff hinv
    cases which
    · by_cases hc : c = 0
      · subst hc
        simp [EigenSortRule.sign]
      · simp [EigenSortRule.sign, hc, sub_eq_add_neg]
    · simp [EigenSortRule.sign, sub_eq_add_neg]

theorem normLaplacian_wf {g : Graph ℝ} (h : g.Reachable) (hd : ∀ v, v < g.n → 0 < g.abs.deg v) :
    (g.normLaplacian Real.sqrt).WF ∧ (g.normLaplacian Real.sqrt).rows = g.n ∧
      (g.normLaplacian Real.sqrt).cols = g.n := by
  have hv := h.valid
  have hA := (normAdj_coeff h hd 0 0).2
  unfold normLaplacian
  refine ⟨SprsMat.wf_zipWith (SprsMat.wf_diag _ _) hA ?_ _, ?_, ?_⟩
  · simp only [normAdj, SprsMat.mulDiag, SprsMat.diagMul, SprsMat.mapVal, SprsMat.ofCols, SprsMat.diag]
    exact hv.rows.symm
  · rfl
  · rfl

/-- What `compute_eigensystem` does: it passes `c I + s M` to the solver, `s` being 1 for the largest
and -1 for the smallest eigenvalues, and undoes the shift.  With non-negative weights the shifted
matrix is positive semidefinite. -/
theorem compute_eq_uniform {g : Graph ℝ} (h : g.Reachable) (mat : GraphMatrix)
    (num : Int) (which : EigenSortRule) (hnum : 1 ≤ num ∧ num < g.n)
    (hd : mat = .normalisedLaplacian → ∀ v, v < g.n → 0 < g.abs.deg v) :
    ∃ (c : ℝ) (S : Nat → Nat → XReal ℝ),
      (∀ i < g.n, ∀ j < g.n, S i j = .fin (shifted c which.sign (matrixOf g.abs mat) i j)) ∧
      (∀ solve : EigenSolver, computeEigensystem solve g mat num which =
        (match solve g.n S num.toNat with
        | none => .throw .runtimeError
        | some raw => .ok (raw.map (fun p => (which.sign * (p.1 - c), p.2))))) ∧
      ((∀ u v, 0 ≤ g.abs.w u v) → ∀ x, 0 ≤ quadForm g.n (shifted c which.sign (matrixOf g.abs mat)) x) := by
  obtain ⟨dmax, hdm, hd0, hdle, -⟩ := maxDegree_spec h
  have hv := h.valid
  have hsym : ∀ c : ℝ, ∀ i < g.n, ∀ j < g.n, shifted c which.sign (matrixOf g.abs mat) i j
      = shifted c which.sign (matrixOf g.abs mat) j i := by
    intro c i _ j _
    unfold shifted
    rw [matrixOf_symm h]
    by_cases e : i = j
    · subst e; rfl
    · rw [if_neg e, if_neg (fun h => e h.symm)]
  have hlw : g.laplacian.WF := laplacian_wf hv
  have hneg : XReal.neg (0 : XReal ℝ) = 0 := by show XReal.fin (-0) = XReal.fin 0; rw [neg_zero]
  have hlr : g.laplacian.rows = g.n := by
    show g.adj.cols = g.n; exact hv.cols
  have hlc : g.laplacian.cols = g.n := by
    show g.adj.cols = g.n; exact hv.cols
  simp only [computeEigensystem, if_neg (show ¬ (num < 1 ∨ (g.n : Int) ≤ num) by omega), hdm,
    Outcome.bind]
  cases mat with
  | adjacency =>
    have haw := SprsMat.wf_mapVal hv.wf (XReal.fin : ℝ → XReal ℝ)
    have hac : ∀ i j, (g.adj.mapVal XReal.fin).coeff i j = .fin (g.abs.w i j) :=
      fun i j => SprsMat.coeff_mapVal hv.wf _ rfl i j
    have har : (g.adj.mapVal (XReal.fin : ℝ → XReal ℝ)).rows = g.n := hv.rows
    have hacl : (g.adj.mapVal (XReal.fin : ℝ → XReal ℝ)).cols = g.n := hv.cols
    have hpsd : (∀ u v, 0 ≤ g.abs.w u v) → ∀ x,
        0 ≤ quadForm g.n (shifted dmax which.sign (matrixOf g.abs .adjacency)) x := by
      intro hw x
      rw [quadForm_shifted]
      have h1 := adjacency_bounds h hw x
      have h2 := degForm_le g x dmax hdle
      have : quadForm g.n (matrixOf g.abs .adjacency) x = quadForm g.n g.abs.w x := rfl
      rw [this]
      cases which <;> simp only [EigenSortRule.sign] <;> linarith [h1.1, h1.2]
    cases which with
    | largest =>
      obtain ⟨h1, h2, h3, h4⟩ := shiftDiag_spec dmax haw g.n (by omega) (by omega)
      rw [har] at h2
      refine ⟨dmax, symUpper (shiftDiag g.n (g.adj.mapVal XReal.fin) dmax),
        symUpper_fin (fun i hi j hj => ?_) (hsym dmax), ?_, hpsd⟩
      · rw [h4, hac]
        simp only [shifted, EigenSortRule.sign, matrixOf, one_mul]
        by_cases e : i = j
        · rw [if_pos ⟨e, hi⟩, if_pos e, XReal.fin_add_fin, add_comm]
        · rw [if_neg (by tauto), if_neg e, zero_add]
      · intro solve
        simp only []
        rw [largestmag_eq solve _ num dmax .largest _ false rfl rfl (by rw [h2]; omega), h2]
    | smallest =>
      have hnw := SprsMat.wf_mapVal haw (XReal.neg : XReal ℝ → XReal ℝ)
      obtain ⟨h1, h2, h3, h4⟩ := shiftDiag_spec dmax hnw g.n (le_of_eq har.symm)
        (le_of_eq hacl.symm)
      have h2 : _ = g.n := h2.trans har
      refine ⟨dmax, symUpper (shiftDiag g.n ((g.adj.mapVal XReal.fin).mapVal XReal.neg) dmax),
        symUpper_fin (fun i hi j hj => ?_) (hsym dmax), ?_, hpsd⟩
      · rw [h4, SprsMat.coeff_mapVal haw _ hneg, hac]
        simp only [shifted, EigenSortRule.sign, matrixOf, neg_one_mul, XReal.neg]
        by_cases e : i = j
        · rw [if_pos ⟨e, hi⟩, if_pos e, XReal.fin_add_fin, add_comm]
        · rw [if_neg (by tauto), if_neg e, zero_add]
      · intro solve
        simp only []
        rw [largestmag_eq solve _ num dmax .smallest _ true rfl rfl (by rw [h2]; omega), h2]
  | laplacian =>
    have haw := SprsMat.wf_mapVal hlw (XReal.fin : ℝ → XReal ℝ)
    have hac : ∀ i < g.n, ∀ j, (g.laplacian.mapVal XReal.fin).coeff i j
        = .fin (matrixOf g.abs .laplacian i j) := fun i hi j => by
      rw [SprsMat.coeff_mapVal hlw _ rfl i j, laplacian_matrixOf h hi]
    have har : (g.laplacian.mapVal (XReal.fin : ℝ → XReal ℝ)).rows = g.n := hlr
    have hacl : (g.laplacian.mapVal (XReal.fin : ℝ → XReal ℝ)).cols = g.n := hlc
    cases which with
    | largest =>
      refine ⟨0, symUpper (g.laplacian.mapVal XReal.fin),
        symUpper_fin (fun i hi j hj => ?_) (hsym 0), ?_, ?_⟩
      · rw [hac i hi]
        simp [shifted, EigenSortRule.sign]
      · intro solve
        simp only []
        rw [largestmag_eq solve _ num 0 .largest 0 false (by simp) rfl (by rw [har]; omega), har]
      · intro hw x
        rw [quadForm_shifted]
        have h1 := adjacency_bounds h hw x
        rw [quadForm_laplacian]
        simp only [EigenSortRule.sign]
        linarith [h1.1]
    | smallest =>
      have hnw := SprsMat.wf_mapVal haw (XReal.neg : XReal ℝ → XReal ℝ)
      obtain ⟨h1, h2, h3, h4⟩ := shiftDiag_spec (2 * dmax) hnw g.n (le_of_eq har.symm)
        (le_of_eq hacl.symm)
      have h2 : _ = g.n := h2.trans har
      refine ⟨2 * dmax, symUpper (shiftDiag g.n ((g.laplacian.mapVal XReal.fin).mapVal XReal.neg)
        (2 * dmax)), symUpper_fin (fun i hi j hj => ?_) (hsym _), ?_, ?_⟩
      · rw [h4, SprsMat.coeff_mapVal haw _ hneg, hac i hi]
        simp only [shifted, EigenSortRule.sign, neg_one_mul, XReal.neg]
        by_cases e : i = j
        · rw [if_pos ⟨e, hi⟩, if_pos e, XReal.fin_add_fin, add_comm]
        · rw [if_neg (by tauto), if_neg e, zero_add]
      · intro solve
        simp only []
        rw [largestmag_eq solve _ num (2 * dmax) .smallest _ true rfl rfl (by rw [h2]; omega), h2]
      · intro hw x
        rw [quadForm_shifted]
        have h1 := adjacency_bounds h hw x
        have h2 := degForm_le g x dmax hdle
        rw [quadForm_laplacian]
        simp only [EigenSortRule.sign]
        linarith [h1.2]
  | normalisedLaplacian =>
    have hd' := hd rfl
    obtain ⟨hnw0, har, hacl⟩ := normLaplacian_wf h hd'
    have hpsd := fun hw x => (C09_spectrum_bounds h hw hd' x).2
    have hne : normEntry g.abs = matrixOf g.abs .normalisedLaplacian := rfl
    cases which with
    | largest =>
      refine ⟨0, symUpper (g.normLaplacian Real.sqrt),
        symUpper_fin (fun i hi j hj => ?_) (hsym 0), ?_, ?_⟩
      · rw [normalised_matrixOf h hd' hj]
        simp [shifted, EigenSortRule.sign]
      · intro solve
        simp only []
        rw [largestmag_eq solve _ num 0 .largest 0 false (by simp) rfl (by rw [har]; omega), har]
      · intro hw x
        rw [quadForm_shifted, ← hne]
        simp only [EigenSortRule.sign]
        linarith [(hpsd hw x).1]
    | smallest =>
      have hnw := SprsMat.wf_mapVal hnw0 (XReal.neg : XReal ℝ → XReal ℝ)
      obtain ⟨h1, h2, h3, h4⟩ := shiftDiag_spec 2 hnw g.n (le_of_eq har.symm)
        (le_of_eq hacl.symm)
      have h2 : _ = g.n := h2.trans har
      refine ⟨2, symUpper (shiftDiag g.n ((g.normLaplacian Real.sqrt).mapVal XReal.neg) 2),
        symUpper_fin (fun i hi j hj => ?_) (hsym _), ?_, ?_⟩
      · rw [h4, SprsMat.coeff_mapVal hnw0 _ hneg, normalised_matrixOf h hd' hj]
        simp only [shifted, EigenSortRule.sign, neg_one_mul, XReal.neg]
        by_cases e : i = j
        · rw [if_pos ⟨e, hi⟩, if_pos e, XReal.fin_add_fin, add_comm]
        · rw [if_neg (by tauto), if_neg e, zero_add]
      · intro solve
        simp only []
        rw [largestmag_eq solve _ num 2 .smallest _ true rfl rfl (by rw [h2]; omega), h2]
      · intro hw x
        rw [quadForm_shifted, ← hne]
        have := (hpsd hw x).2
        simp only [EigenSortRule.sign]
        unfold dot
        linarith

theorem compute_eq (solve : EigenSolver) {g : Graph ℝ} (h : g.Reachable) (mat : GraphMatrix)
    (num : Int) (which : EigenSortRule) (hnum : 1 ≤ num ∧ num < g.n)
    (hd : mat = .normalisedLaplacian → ∀ v, v < g.n → 0 < g.abs.deg v) :
    ∃ (c : ℝ) (S : Nat → Nat → XReal ℝ),
      (∀ i < g.n, ∀ j < g.n, S i j = .fin (shifted c which.sign (matrixOf g.abs mat) i j)) ∧
      computeEigensystem solve g mat num which =
        (match solve g.n S num.toNat with
        | none => .throw .runtimeError
        | some raw => .ok (raw.map (fun p => (which.sign * (p.1 - c), p.2)))) ∧
      ((∀ u v, 0 ≤ g.abs.w u v) → ∀ x, 0 ≤ quadForm g.n (shifted c which.sign (matrixOf g.abs mat)) x) := by
  obtain ⟨c, S, h1, h2, h3⟩ := compute_eq_uniform h mat num which hnum hd
  exact ⟨c, S, h1, h2 solve, h3⟩

/-! ## The theorems -/

theorem sign_sq (which : EigenSortRule) : which.sign * which.sign = 1 := by
  cases which <;> norm_num [EigenSortRule.sign]

theorem shifted_apply (n : Nat) (c s : ℝ) (M : Nat → Nat → ℝ) (v : Nat → ℝ) (i : Nat) (hi : i < n) :
    ∑ j ∈ Finset.range n, shifted c s M i j * v j = c * v i + s * ∑ j ∈ Finset.range n, M i j * v j := by
  unfold shifted
  rw [Finset.mul_sum]
  have : ∀ j ∈ Finset.range n, ((if i = j then c else 0) + s * M i j) * v j
      = (if i = j then c * v j else 0) + s * (M i j * v j) := by
    intro j _
    split_ifs <;> ring
  rw [Finset.sum_congr rfl this, Finset.sum_add_distrib, Finset.sum_ite_eq,
    if_pos (Finset.mem_range.2 hi)]

theorem isEigen_shifted (n : Nat) (c s : ℝ) (hs : s * s = 1) (M : Nat → Nat → ℝ) (l : ℝ)
    (v : Nat → ℝ) : IsEigen n (shifted c s M) l v ↔ IsEigen n M (s * (l - c)) v := by
  unfold IsEigen
  constructor
  · intro h i hi
    have := h i hi
    rw [shifted_apply n c s M v i hi] at this
    linear_combination s * this - (∑ j ∈ Finset.range n, M i j * v j) * hs
  · intro h i hi
    rw [shifted_apply n c s M v i hi, h i hi]
    linear_combination (l - c) * v i * hs

/-- An eigenvalue of a positive semidefinite matrix is not negative. -/
theorem eigenvalue_nonneg {n : Nat} {M : Nat → Nat → ℝ} (hM : ∀ x, 0 ≤ quadForm n M x) {l : ℝ}
    {v : Nat → ℝ} (hv : IsEigen n M l v) (hne : ∃ i < n, v i ≠ 0) : 0 ≤ l := by
  have h1 := hM v
  have h2 : quadForm n M v = l * dot n v v := by
    unfold quadForm dot
    rw [Finset.mul_sum]
    apply Finset.sum_congr rfl
    intro i hi
    rw [show l * (v i * v i) = v i * (l * v i) by ring, ← hv i (Finset.mem_range.1 hi), Finset.mul_sum]
    exact Finset.sum_congr rfl (fun j _ => by ring)
  have h3 : 0 < dot n v v := by
    obtain ⟨i, hi, hne⟩ := hne
    apply Finset.sum_pos' (fun j _ => mul_self_nonneg _)
    exact ⟨i, Finset.mem_range.2 hi, mul_self_pos.2 hne⟩
  rw [h2] at h1
  by_contra hlt
  push Not at hlt
  nlinarith

/-- **C53** (arguments).  `compute_eigensystem` raises `invalid_argument` when the number of pairs is
not between 1 and `n - 1`; otherwise it raises `runtime_error` or returns the number of pairs the
solver returned. -/
theorem C53_arguments (solve : EigenSolver) {g : Graph ℝ} (h : g.Reachable) (mat : GraphMatrix)
    (num : Int) (which : EigenSortRule)
    (hd : mat = .normalisedLaplacian → ∀ v, v < g.n → 0 < g.abs.deg v) :
    (computeEigensystem solve g mat num which = .throw .invalidArgument ↔ num < 1 ∨ (g.n : Int) ≤ num) ∧
    (1 ≤ num ∧ num < g.n → computeEigensystem solve g mat num which = .throw .runtimeError ∨
      ∃ res, computeEigensystem solve g mat num which = .ok res) := by
  by_cases hn : num < 1 ∨ (g.n : Int) ≤ num
  · refine ⟨⟨fun _ => hn, fun _ => ?_⟩, fun h => by omega⟩
    unfold computeEigensystem
    rw [if_pos hn]
  · obtain ⟨c, S, _, heq, _⟩ := compute_eq solve h mat num which (by omega) hd
    have : computeEigensystem solve g mat num which = .throw .runtimeError ∨
        ∃ res, computeEigensystem solve g mat num which = .ok res := by
      rw [heq]
      cases solve g.n S num.toNat with
      | none => exact .inl rfl
      | some raw => exact .inr ⟨_, rfl⟩
    refine ⟨⟨fun h => ?_, fun h => absurd h hn⟩, fun _ => this⟩
    rcases this with h' | ⟨res, h'⟩
    · rw [h'] at h; cases h
    · rw [h'] at h; cases h

/-- **C53** (residual).  Whatever the solver answers, its answers for the matrix `S` it was given are
exactly as good for the matrix that was asked for: same vectors, and the same residuals
`M v - l v`, up to the sign. -/
theorem C53_residual (solve : EigenSolver) {g : Graph ℝ} (h : g.Reachable) (mat : GraphMatrix)
    (num : Int) (which : EigenSortRule)
    (hd : mat = .normalisedLaplacian → ∀ v, v < g.n → 0 < g.abs.deg v) (res : EigenPairs)
    (hres : computeEigensystem solve g mat num which = .ok res) :
    ∃ (S : Nat → Nat → XReal ℝ) (N : Nat → Nat → ℝ) (raw : EigenPairs),
      solve g.n S num.toNat = some raw ∧ (∀ i < g.n, ∀ j < g.n, S i j = .fin (N i j)) ∧
      List.Forall₂ (fun p q => p.2 = q.2 ∧ ∀ i < g.n,
        |∑ j ∈ Finset.range g.n, matrixOf g.abs mat i j * p.2 j - p.1 * p.2 i|
          = |∑ j ∈ Finset.range g.n, N i j * q.2 j - q.1 * q.2 i|) res raw := by
  have hn : 1 ≤ num ∧ num < g.n := by
    by_contra hn
    unfold computeEigensystem at hres
    rw [if_pos (by omega)] at hres
    cases hres
  obtain ⟨c, S, hS, heq, _⟩ := compute_eq solve h mat num which hn hd
  rw [heq] at hres
  cases hsv : solve g.n S num.toNat with
  | none => rw [hsv] at hres; cases hres
  | some raw =>
    rw [hsv] at hres
    simp only [Outcome.ok.injEq] at hres
    refine ⟨S, shifted c which.sign (matrixOf g.abs mat), raw, hsv, hS, ?_⟩
    rw [← hres, List.forall₂_map_left_iff, List.forall₂_same]
    intro p _
    refine ⟨rfl, fun i hi => ?_⟩
    simp only
    rw [shifted_apply _ _ _ _ _ _ hi]
    have hs := sign_sq which
    have : c * p.2 i + which.sign * ∑ j ∈ Finset.range g.n, matrixOf g.abs mat i j * p.2 j - p.1 * p.2 i
        = which.sign * (∑ j ∈ Finset.range g.n, matrixOf g.abs mat i j * p.2 j
          - which.sign * (p.1 - c) * p.2 i) := by
      linear_combination (p.1 - c) * p.2 i * hs
    rw [this, abs_mul]
    have : |which.sign| = 1 := by cases which <;> simp [EigenSortRule.sign]
    rw [this, one_mul]

/-- **C53**.  For every graph with non-negative weights (and, for the normalised Laplacian, positive
degrees), every matrix kind and either end of the spectrum: if the solver returns the eigenpairs of
largest magnitude of the matrix it is given, then `compute_eigensystem` returns `num` orthonormal
eigenpairs of the requested matrix, ordered from the requested end, and every eigenvector that is
orthogonal to all of them has an eigenvalue that is not beyond any of theirs. -/
theorem C53_eigensystem (solve : EigenSolver) (hsolve : SolverSpec solve) {g : Graph ℝ}
    (h : g.Reachable) (hw : ∀ u v, 0 ≤ g.abs.w u v) (mat : GraphMatrix) (num : Int)
    (which : EigenSortRule)
    (hd : mat = .normalisedLaplacian → ∀ v, v < g.n → 0 < g.abs.deg v) (res : EigenPairs)
    (hres : computeEigensystem solve g mat num which = .ok res) :
    EigenExtreme which.before g.n (matrixOf g.abs mat) num.toNat res := by
  have hn : 1 ≤ num ∧ num < g.n := by
    by_contra hn
    unfold computeEigensystem at hres
    rw [if_pos (by omega)] at hres
    cases hres
  obtain ⟨c, S, hS, heq, hpsd⟩ := compute_eq solve h mat num which hn hd
  have hpsd := hpsd hw
  rw [heq] at hres
  cases hsv : solve g.n S num.toNat with
  | none => rw [hsv] at hres; cases hres
  | some raw =>
    rw [hsv] at hres
    simp only [Outcome.ok.injEq] at hres
    have hsym : ∀ i < g.n, ∀ j < g.n, shifted c which.sign (matrixOf g.abs mat) i j
        = shifted c which.sign (matrixOf g.abs mat) j i := by
      intro i _ j _
      unfold shifted
      rw [matrixOf_symm h]
      by_cases e : i = j
      · subst e; rfl
      · rw [if_neg e, if_neg (fun h => e h.symm)]
    have hex := hsolve g.n S _ num.toNat raw hS hsym (by omega) (by omega) hsv
    have hs := sign_sq which
    have hnz : ∀ p ∈ raw, ∃ i < g.n, p.2 i ≠ 0 := by
      intro p hp
      by_contra hno
      push Not at hno
      have h1 := hex.unit p hp
      unfold dot at h1
      rw [Finset.sum_eq_zero (fun i hi => by rw [hno i (Finset.mem_range.1 hi), mul_zero])] at h1
      norm_num at h1
    have hnn : ∀ p ∈ raw, 0 ≤ p.1 := fun p hp => eigenvalue_nonneg hpsd (hex.eigen p hp) (hnz p hp)
    have hbef : ∀ x y : ℝ, 0 ≤ x → 0 ≤ y → |y| ≤ |x| →
        which.before (which.sign * (x - c)) (which.sign * (y - c)) := by
      intro x y hx hy hxy
      rw [abs_of_nonneg hx, abs_of_nonneg hy] at hxy
      cases which <;> simp only [EigenSortRule.before, EigenSortRule.sign] <;> linarith
    subst hres
    refine ⟨by rw [List.length_map]; exact hex.count, ?_, ?_, ?_, ?_, ?_⟩
    · intro p hp
      obtain ⟨q, hq, rfl⟩ := List.mem_map.1 hp
      exact (isEigen_shifted _ _ _ hs _ _ _).1 (hex.eigen q hq)
    · intro p hp
      obtain ⟨q, hq, rfl⟩ := List.mem_map.1 hp
      exact hex.unit q hq
    · rw [List.pairwise_map]
      exact hex.ortho
    · rw [List.pairwise_map]
      exact hex.order.imp_of_mem (fun hp hq hpq => hbef _ _ (hnn _ hp) (hnn _ hq) hpq)
    · intro l v hv hne horth p hp
      obtain ⟨q, hq, rfl⟩ := List.mem_map.1 hp
      have hv' : IsEigen g.n (shifted c which.sign (matrixOf g.abs mat)) (which.sign * l + c) v := by
        rw [isEigen_shifted _ _ _ hs]
        rw [show which.sign * (which.sign * l + c - c) = l by linear_combination l * hs]
        exact hv
      have hle := hex.extreme _ v hv' hne (fun q hq =>
        horth (which.sign * (q.1 - c), q.2) (List.mem_map.2 ⟨q, hq, rfl⟩)) q hq
      have h0 := eigenvalue_nonneg hpsd hv' hne
      have := hbef q.1 (which.sign * l + c) (hnn q hq) h0 hle
      rw [show which.sign * (which.sign * l + c - c) = l by linear_combination l * hs] at this
      exact this

/-- **C53** (ranges).  With non-negative weights every eigenvalue of the adjacency matrix is between
`-d` and `d`, of the Laplacian between 0 and `2 d` (`d` at least every degree), and of the normalised
Laplacian between 0 and 2. -/
theorem C53_ranges {g : Graph ℝ} (h : g.Reachable) (hw : ∀ u v, 0 ≤ g.abs.w u v) (d : ℝ)
    (hdeg : ∀ v < g.n, g.abs.deg v ≤ d) (l : ℝ) (v : Nat → ℝ) (hne : ∃ i < g.n, v i ≠ 0) :
    (IsEigen g.n (matrixOf g.abs .adjacency) l v → -d ≤ l ∧ l ≤ d) ∧
    (IsEigen g.n (matrixOf g.abs .laplacian) l v → 0 ≤ l ∧ l ≤ 2 * d) ∧
    ((∀ v, v < g.n → 0 < g.abs.deg v) → IsEigen g.n (matrixOf g.abs .normalisedLaplacian) l v →
      0 ≤ l ∧ l ≤ 2) := by
  have key : ∀ (M : Nat → Nat → ℝ) (c s : ℝ), s * s = 1 → (∀ x, 0 ≤ quadForm g.n (shifted c s M) x) →
      IsEigen g.n M l v → 0 ≤ s * l + c := by
    intro M c s hs hM hv
    apply eigenvalue_nonneg hM _ hne
    rw [isEigen_shifted _ _ _ hs, show s * (s * l + c - c) = l by linear_combination l * hs]
    exact hv
  have hA := fun x => adjacency_bounds h hw x
  have hD := fun x => degForm_le g x d hdeg
  refine ⟨fun hv => ?_, fun hv => ?_, fun hd hv => ?_⟩
  · have h1 := key _ d 1 (by norm_num) (fun x => by
      rw [quadForm_shifted]
      have : quadForm g.n (matrixOf g.abs .adjacency) x = quadForm g.n g.abs.w x := rfl
      linarith [(hA x).2, hD x]) hv
    have h2 := key _ d (-1) (by norm_num) (fun x => by
      rw [quadForm_shifted]
      have : quadForm g.n (matrixOf g.abs .adjacency) x = quadForm g.n g.abs.w x := rfl
      linarith [(hA x).1, hD x]) hv
    constructor <;> linarith
  · have h1 := key _ 0 1 (by norm_num) (fun x => by
      rw [quadForm_shifted, quadForm_laplacian]
      linarith [(hA x).1]) hv
    have h2 := key _ (2 * d) (-1) (by norm_num) (fun x => by
      rw [quadForm_shifted, quadForm_laplacian]
      linarith [(hA x).2, hD x]) hv
    constructor <;> linarith
  · have hN := fun x => (C09_spectrum_bounds h hw hd x).2
    have h1 := key _ 0 1 (by norm_num) (fun x => by
      rw [quadForm_shifted]
      have := (hN x).1
      change 0 ≤ quadForm g.n (matrixOf g.abs .normalisedLaplacian) x at this
      linarith) hv
    have h2 := key _ 2 (-1) (by norm_num) (fun x => by
      rw [quadForm_shifted]
      have := (hN x).2
      change quadForm g.n (matrixOf g.abs .normalisedLaplacian) x ≤ _ at this
      unfold dot
      linarith) hv
    constructor <;> linarith

theorem quadForm_eigen {n : Nat} {M : Nat → Nat → ℝ} {l : ℝ} {v : Nat → ℝ} (hv : IsEigen n M l v) :
    quadForm n M v = l * dot n v v := by
  unfold quadForm dot
  rw [Finset.mul_sum]
  apply Finset.sum_congr rfl
  intro i hi
  rw [show ∑ j ∈ Finset.range n, v i * M i j * v j = v i * ∑ j ∈ Finset.range n, M i j * v j by
    rw [Finset.mul_sum]; exact Finset.sum_congr rfl (fun j _ => by ring), hv i (Finset.mem_range.1 hi)]
  ring

theorem dot_comm (n : Nat) (x y : Nat → ℝ) : dot n x y = dot n y x :=
  Finset.sum_congr rfl (fun _ _ => mul_comm _ _)

/-- Eigenvectors of a symmetric matrix for different eigenvalues are orthogonal. -/
theorem eigen_ortho {n : Nat} {M : Nat → Nat → ℝ} (hM : ∀ i j, M i j = M j i) {l m : ℝ}
    {v w : Nat → ℝ} (hv : IsEigen n M l v) (hw : IsEigen n M m w) (hlm : l ≠ m) : dot n v w = 0 := by
  have h1 : l * dot n v w = m * dot n v w := by
    have e1 : l * dot n v w = ∑ i ∈ Finset.range n, ∑ j ∈ Finset.range n, M i j * v j * w i := by
      unfold dot
      rw [Finset.mul_sum]
      apply Finset.sum_congr rfl
      intro i hi
      rw [← mul_assoc, ← hv i (Finset.mem_range.1 hi), Finset.sum_mul]
    have e2 : m * dot n v w = ∑ i ∈ Finset.range n, ∑ j ∈ Finset.range n, M i j * w j * v i := by
      unfold dot
      rw [Finset.mul_sum]
      apply Finset.sum_congr rfl
      intro i hi
      rw [show m * (v i * w i) = m * w i * v i by ring, ← hw i (Finset.mem_range.1 hi), Finset.sum_mul]
    rw [e1, e2, Finset.sum_comm]
    apply Finset.sum_congr rfl
    intro i _
    apply Finset.sum_congr rfl
    intro j _
    rw [hM j i]; ring
  have : (l - m) * dot n v w = 0 := by linear_combination h1
  exact (mul_eq_zero.1 this).resolve_left (sub_ne_zero.2 hlm)

/-- **C53** (smallest eigenvalue).  In a graph without self-loops, with non-negative weights, the
first of the smallest eigenvalues of the Laplacian (and of the normalised Laplacian) is 0. -/
theorem C53_smallest_is_zero (solve : EigenSolver) (hsolve : SolverSpec solve) {g : Graph ℝ}
    (h : g.Reachable) (hw : ∀ u v, 0 ≤ g.abs.w u v) (hloop : ∀ v, g.abs.w v v = 0) (mat : GraphMatrix)
    (hmat : mat = .laplacian ∨ mat = .normalisedLaplacian) (num : Int)
    (hd : mat = .normalisedLaplacian → ∀ v, v < g.n → 0 < g.abs.deg v) (res : EigenPairs)
    (hres : computeEigensystem solve g mat num .smallest = .ok res) :
    ∃ v rest, res = (0, v) :: rest := by
  have hn : 1 ≤ num ∧ num < g.n := by
    by_contra hn
    unfold computeEigensystem at hres
    rw [if_pos (by omega)] at hres
    cases hres
  have hex := C53_eigensystem solve hsolve h hw mat num .smallest hd res hres
  obtain ⟨dmax, -, -, hdle, -⟩ := maxDegree_spec h
  -- the eigenvector of eigenvalue 0
  obtain ⟨u, hu, hune⟩ : ∃ u, IsEigen g.n (matrixOf g.abs mat) 0 u ∧ ∃ i < g.n, u i ≠ 0 := by
    have hrow : ∀ i, ∑ j ∈ Finset.range g.n, g.abs.w i j = g.abs.deg i := by
      intro i
      unfold WGraph.deg
      rw [hloop, add_zero]
      rfl
    rcases hmat with rfl | rfl
    · refine ⟨fun _ => 1, fun i hi => ?_, 0, by omega, one_ne_zero⟩
      simp only [matrixOf, mul_one]
      rw [Finset.sum_sub_distrib, Finset.sum_ite_eq, if_pos (Finset.mem_range.2 hi), hrow, sub_self]
    · have hd' := hd rfl
      refine ⟨fun i => Real.sqrt (g.abs.deg i), fun i hi => ?_, 0, by omega,
        (Real.sqrt_pos.2 (hd' 0 (by omega))).ne'⟩
      simp only [matrixOf, zero_mul]
      have : ∀ j ∈ Finset.range g.n, ((if i = j then 1 else 0)
          - g.abs.w i j / (Real.sqrt (g.abs.deg i) * Real.sqrt (g.abs.deg j)))
            * Real.sqrt (g.abs.deg j)
          = (if i = j then Real.sqrt (g.abs.deg j) else 0) - g.abs.w i j / Real.sqrt (g.abs.deg i) := by
        intro j hj
        have := (Real.sqrt_pos.2 (hd' j (Finset.mem_range.1 hj))).ne'
        have := (Real.sqrt_pos.2 (hd' i hi)).ne'
        split_ifs <;> field_simp
        ring
      rw [Finset.sum_congr rfl this, Finset.sum_sub_distrib, Finset.sum_ite_eq,
        if_pos (Finset.mem_range.2 hi), ← Finset.sum_div, hrow]
      rw [sub_eq_zero, eq_div_iff (Real.sqrt_pos.2 (hd' i hi)).ne', Real.mul_self_sqrt (hd' i hi).le]
  cases res with
  | nil => have := hex.count; simp at this; omega
  | cons p rest =>
    refine ⟨p.2, rest, ?_⟩
    have hpe := hex.eigen p (by simp)
    have hpn : ∃ i < g.n, p.2 i ≠ 0 := by
      by_contra hno
      push Not at hno
      have h1 := hex.unit p (by simp)
      unfold dot at h1
      rw [Finset.sum_eq_zero (fun i hi => by rw [hno i (Finset.mem_range.1 hi), mul_zero])] at h1
      norm_num at h1
    have hpos : 0 ≤ p.1 := by
      have := C53_ranges h hw dmax hdle p.1 p.2 hpn
      rcases hmat with rfl | rfl
      · exact (this.2.1 hpe).1
      · exact (this.2.2 (hd rfl) hpe).1
    have hle : p.1 ≤ 0 := by
      by_contra hlt
      push Not at hlt
      have hall : ∀ q ∈ p :: rest, 0 < q.1 := by
        intro q hq
        rcases List.mem_cons.1 hq with rfl | hq
        · exact hlt
        · have := (List.pairwise_cons.1 hex.order).1 q hq
          exact lt_of_lt_of_le hlt this
      have := hex.extreme 0 u hu hune (fun q hq =>
        eigen_ortho (matrixOf_symm h mat) (hex.eigen q hq) hu (hall q hq).ne') p (by simp)
      exact absurd this (not_le.2 hlt)
    rw [← le_antisymm hle hpos]

end Stag
