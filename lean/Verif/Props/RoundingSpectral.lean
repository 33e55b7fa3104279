import Verif.SpectralPerturb
import Verif.RoundingSpectral
import Verif.Props.RoundingMatrices
import Verif.Props.Inexact
import Verif.Props.KMeansInteger
import Verif.Props.InexactExamples
import Verif.Props.Equitable
import Verif.Props.ZeroEigen

/-!
# C102: eigenvalues, eigenvectors and spectral clustering in doubles
-/

namespace Stag

open Graph Finset

section close
variable {R : Rounding ℝ}

/-- `x` is off from `y` by at most `t` roundings relative to `b`, a bound of `|y|`. -/
def Close (R : Rounding ℝ) (t : Nat) (b x y : ℝ) : Prop := |x - y| ≤ (R.g ^ t - 1) * b ∧ |y| ≤ b

theorem Close.b0 {t : Nat} {b x y : ℝ} (h : Close R t b x y) : 0 ≤ b := (abs_nonneg _).trans h.2

theorem Rounding.Near.close {t : Nat} {x y : ℝ} (h : R.Near t x y) : Close R t y x y :=
  ⟨h.abs_sub, le_of_eq (abs_of_nonneg h.y0)⟩

theorem Close.refl {t : Nat} (x : ℝ) : Close R t |x| x x :=
  ⟨by rw [sub_self, abs_zero]; exact mul_nonneg (sub_nonneg.2 (Rounding.g_pow_one_le (R := R) t)) (abs_nonneg _), le_rfl⟩

theorem Close.mono {t t' : Nat} {b b' x y : ℝ} (h : Close R t b x y) (ht : t ≤ t') (hb : b ≤ b') : Close R t' b' x y := by
  have hg : R.g ^ t ≤ R.g ^ t' := pow_le_pow_right₀ (Rounding.one_le_g (R := R)) ht
  have h1 := Rounding.g_pow_one_le (R := R) t
  refine ⟨h.1.trans (mul_le_mul (by linarith) hb h.b0 (by linarith)), h.2.trans hb⟩

theorem Close.neg {t : Nat} {b x y : ℝ} (h : Close R t b x y) : Close R t b (-x) (-y) := by
  refine ⟨?_, by rw [abs_neg]; exact h.2⟩
  rw [← abs_neg, neg_sub, neg_sub_neg, abs_sub_comm, abs_sub_comm y x]
  exact h.1

theorem Close.add {t : Nat} {b b' x x' y y' : ℝ} (h : Close R t b x y) (h' : Close R t b' x' y') :
    Close R t (b + b') (x + x') (y + y') := by
  refine ⟨?_, (abs_add_le _ _).trans (add_le_add h.2 h'.2)⟩
  rw [mul_add, show x + x' - (y + y') = (x - y) + (x' - y') by ring]
  exact (abs_add_le _ _).trans (add_le_add h.1 h'.1)

theorem Close.fl {t : Nat} {b x y : ℝ} (h : Close R t b x y) : Close R (t + 1) b (R.fl x) y := by
  refine ⟨?_, h.2⟩
  have hg := Rounding.g_pow_one_le (R := R) t
  have hb := h.b0
  obtain ⟨G, hG⟩ : ∃ G, G = R.g ^ t := ⟨_, rfl⟩
  have h1 := h.1
  rw [pow_succ, ← hG]
  rw [← hG] at h1 hg
  have h2 := R.err x
  have h3 : |x| ≤ G * b := by
    have := abs_add_le (x - y) y
    rw [sub_add_cancel] at this
    linarith [h.2]
  have h4 : R.u * |x| ≤ R.u * (G * b) := mul_le_mul_of_nonneg_left h3 R.u0
  have h5 : 1 + R.u ≤ R.g := Rounding.one_add_le_g (R := R)
  have h6 : (1 + R.u) * (G * b) ≤ R.g * (G * b) := mul_le_mul_of_nonneg_right h5 (mul_nonneg (by linarith) hb)
  calc |R.fl x - y| = |(R.fl x - x) + (x - y)| := by congr 1; ring
    _ ≤ |R.fl x - x| + |x - y| := abs_add_le _ _
    _ ≤ R.u * (G * b) + (G - 1) * b := by linarith
    _ ≤ (G * R.g - 1) * b := by linarith

end close

/-! ## The pieces of `compute_eigensystem` -/

theorem shiftDiagFl_spec (fl : ℝ → ℝ) (d : ℝ) {m : SprsMat ℝ} (h : m.WF) (k : Nat) (hr : k ≤ m.rows)
    (hc : k ≤ m.cols) :
    (shiftDiagFl fl k m d).WF ∧ (shiftDiagFl fl k m d).rows = m.rows ∧ (shiftDiagFl fl k m d).cols = m.cols ∧
    ∀ i j, (shiftDiagFl fl k m d).coeff i j =
      if i = j ∧ i < k then fl (m.coeff i j + d) else m.coeff i j := by
  induction k with
  | zero => exact ⟨h, rfl, rfl, fun i j => by rw [if_neg (by omega)]; rfl⟩
  | succ k ih =>
    obtain ⟨h1, h2, h3, h4⟩ := ih (by omega) (by omega)
    have e : shiftDiagFl fl (k + 1) m d
        = (shiftDiagFl fl k m d).update k k (fun v => fl (v + d)) := by
      unfold shiftDiagFl
      rw [List.range_succ, List.foldl_append]
      rfl
    rw [e]
    refine ⟨SprsMat.wf_update h1 (by omega) _, by simpa using h2, by simpa using h3, fun i j => ?_⟩
    rw [SprsMat.coeff_update h1 (by omega)]
    by_cases hij : i = k ∧ j = k
    · rw [if_pos hij, h4, hij.1, hij.2, if_neg (by omega), if_pos (by omega)]
    · rw [if_neg hij, h4]
      by_cases h5 : i = j ∧ i < k
      · rw [if_pos h5, if_pos (by omega)]
      · rw [if_neg h5, if_neg (by omega)]

theorem nbrCount_le (s : WGraph ℝ) (v : Nat) : nbrCount s v ≤ s.n := by
  unfold nbrCount
  exact (Finset.card_filter_le _ _).trans (by simp)

/-- The computed maximum degree is off from the maximum degree by at most `n + 1` roundings. -/
theorem maxDegreeFl_spec {R : Rounding ℝ} {g : Graph ℝ} (h : g.Reachable) (hw : ∀ u v, 0 ≤ g.abs.w u v) :
    ∃ d d', maxDegree g = .ok d ∧ maxDegreeFl R.fl g = .ok d' ∧ R.Near (g.n + 1) d' d ∧ ∀ v < g.n, g.abs.deg v ≤ d := by
  have hmax : ∀ {k : Nat} {a b c d : ℝ}, R.Near k a b → R.Near k c d → R.Near k (max a c) (max b d) := by
    intro k a b c d h1 h2
    have hg := (Rounding.g_pow_pos (R := R) k).le
    refine ⟨le_max_of_le_left h1.x0, le_max_of_le_left h1.y0, max_le ?_ ?_, max_le ?_ ?_⟩
    · exact h1.le.trans (mul_le_mul_of_nonneg_left (le_max_left _ _) hg)
    · exact h2.le.trans (mul_le_mul_of_nonneg_left (le_max_right _ _) hg)
    · exact h1.ge.trans (mul_le_mul_of_nonneg_left (le_max_left _ _) hg)
    · exact h2.ge.trans (mul_le_mul_of_nonneg_left (le_max_right _ _) hg)
  have : ∀ k ≤ g.n, ∃ d d', (List.range k).foldl (fun acc (i : Nat) => acc.bind (fun m =>
      (g.degree i).bind (fun d => .ok (max d m)))) (Outcome.ok (0 : ℝ)) = .ok d ∧
      (List.range k).foldl (fun acc (i : Nat) => acc.bind (fun m => (g.checkVertex i).bind (fun _ =>
        .ok (max ((g.degreeMatrixFl R.fl).coeff i i) m)))) (Outcome.ok (0 : ℝ)) = .ok d' ∧
      R.Near (g.n + 1) d' d ∧ ∀ v < k, g.abs.deg v ≤ d := by
    intro k
    induction k with
    | zero => intro _; exact ⟨0, 0, rfl, rfl, Rounding.Near.refl le_rfl, by simp⟩
    | succ k ih =>
      intro hk
      obtain ⟨d, d', h1, h2, h3, h4⟩ := ih (by omega)
      refine ⟨max (g.abs.deg k) d, max (g.degFl R.fl k) d', ?_, ?_, ?_, fun v hv => ?_⟩
      · rw [List.range_succ, List.foldl_append, h1]
        simp only [List.foldl_cons, List.foldl_nil, Outcome.bind]
        rw [degree_ok h k (by omega)]
      · rw [List.range_succ, List.foldl_append, h2]
        simp only [List.foldl_cons, List.foldl_nil, Outcome.bind]
        unfold Graph.checkVertex
        rw [if_neg (by omega), if_neg (by omega), degreeFl_coeff h.valid (by omega)]
      · have := nbrCount_le g.abs k
        exact hmax ((degFl_near h.valid hw (by omega)).mono (Nat.succ_le_succ this)) h3
      · rcases Nat.lt_succ_iff_lt_or_eq.1 hv with hv | rfl
        · exact le_max_of_le_right (h4 v hv)
        · exact le_max_left _ _
  obtain ⟨d, d', h1, h2, h3, h4⟩ := this g.n le_rfl
  exact ⟨d, d', h1, h2, h3, h4⟩

theorem upperFl_symm (m : SprsMat ℝ) (i j : Nat) : upperFl m i j = upperFl m j i := by
  unfold upperFl
  by_cases h : i = j
  · subst h; rfl
  · by_cases h1 : i ≤ j
    · rw [if_pos h1, if_neg (by omega)]
    · rw [if_neg h1, if_pos (by omega)]

/-- What the shift is undone to. -/
noncomputable def undo (fl : ℝ → ℝ) (which : EigenSortRule) (c x : ℝ) : ℝ :=
  match which with
  | .largest => if c = 0 then x else fl (x - c)
  | .smallest => -fl (x - c)

theorem undo_err {R : Rounding ℝ} (which : EigenSortRule) (c x : ℝ) :
    |undo R.fl which c x - which.sign * (x - c)| ≤ R.u * |x - c| := by
  have h := R.err (x - c)
  cases which
  · simp only [undo, EigenSortRule.sign, one_mul]
    split_ifs with hc
    · subst hc
      rw [sub_zero, sub_self, abs_zero]
      exact mul_nonneg R.u0 (abs_nonneg _)
    · exact h
  · simp only [undo, EigenSortRule.sign, neg_one_mul, neg_sub_neg]
    rwa [abs_sub_comm]

theorem largestmagFl_eq {R : Rounding ℝ} (ho : R.Odd) (solve : EigenSolver) (m : SprsMat ℝ) (num : Int) (c : ℝ)
    (which : EigenSortRule) (off : ℝ) (inv : Bool) (hoff : off = -c)
    (hinv : inv = decide (which = .smallest)) (hnum : ¬ (num < 1 ∨ (m.rows : Int) ≤ num)) :
    eigensystemLargestmagFl R.fl solve m num off inv =
      match solve m.rows (fun i j => .fin (upperFl m i j)) num.toNat with
      | none => .throw .runtimeError
      | some raw => .ok (raw.map (fun p => (undo R.fl which c p.1, p.2))) := by
  unfold eigensystemLargestmagFl
  rw [if_neg hnum]
  cases solve m.rows (fun i j => .fin (upperFl m i j)) num.toNat with
  | none => rfl
  | some raw =>
    subst hoff hinv
    cases which
    · by_cases hc : c = 0
      · subst hc
        simp [undo]
      · simp [undo, hc, sub_eq_add_neg]
    · have : ∀ x : ℝ, R.fl (-R.fl x) = -R.fl x := fun x => by rw [ho, R.idem]
      simp [undo, sub_eq_add_neg, this]

/-- The shift of `compute_eigensystem` (`stag_lib/spectrum.cpp:74-127`) in exact arithmetic, `d` being the maximum degree. -/
noncomputable def exactShift (mat : GraphMatrix) (which : EigenSortRule) (d : ℝ) : ℝ :=
  match mat, which with
  | .adjacency, _ => d
  | .laplacian, .largest => 0
  | .laplacian, .smallest => 2 * d
  | .normalisedLaplacian, .largest => 0
  | .normalisedLaplacian, .smallest => 2

/-- The shifted matrix is positive semidefinite. -/
theorem exactShift_psd {g : Graph ℝ} (h : g.Reachable) (hw : ∀ u v, 0 ≤ g.abs.w u v) (mat : GraphMatrix)
    (which : EigenSortRule) (hd : mat = .normalisedLaplacian → ∀ v, v < g.n → 0 < g.abs.deg v) (d : ℝ)
    (hdle : ∀ v < g.n, g.abs.deg v ≤ d) (x : Nat → ℝ) :
    0 ≤ quadForm g.n (shifted (exactShift mat which d) which.sign (matrixOf g.abs mat)) x := by
  rw [quadForm_shifted]
  have h1 := adjacency_bounds h hw x
  have h2 := degForm_le g x d hdle
  cases mat with
  | adjacency =>
    have : quadForm g.n (matrixOf g.abs .adjacency) x = quadForm g.n g.abs.w x := rfl
    rw [this]
    cases which <;> simp only [EigenSortRule.sign, exactShift] <;> linarith [h1.1, h1.2]
  | laplacian =>
    rw [quadForm_laplacian]
    cases which <;> simp only [EigenSortRule.sign, exactShift] <;> linarith [h1.1, h1.2]
  | normalisedLaplacian =>
    have h3 := C09_spectrum_bounds h hw (hd rfl) x
    have hne : normEntry g.abs = matrixOf g.abs .normalisedLaplacian := rfl
    rw [hne] at h3
    cases which <;> simp only [EigenSortRule.sign, exactShift]
    · linarith [h3.2.1]
    · have := h3.2.2
      unfold dot
      linarith

/-- The entries the computed matrix may be off by. -/
noncomputable def spectralBound (g : Graph ℝ) (mat : GraphMatrix) (d : ℝ) (i j : Nat) : ℝ :=
  match mat with
  | .normalisedLaplacian => g.abs.w i j / (√(g.abs.deg i) * √(g.abs.deg j)) + if i = j then 1 else 0
  | _ => if i = j then 4 * d else 0

/-- What `compute_eigensystem` does in rounded arithmetic. -/
theorem inner_matrix {R : Rounding ℝ} (ho : R.Odd) {g : Graph ℝ} (h : g.Reachable) (hw : ∀ u v, 0 ≤ g.abs.w u v)
    (hf : g.FloatWeights R.fl) (mat : GraphMatrix) (num : Int) (which : EigenSortRule) (hnum : 1 ≤ num ∧ num < g.n)
    (hd : mat = .normalisedLaplacian → ∀ v, v < g.n → 0 < g.abs.deg v) :
    ∃ (d : ℝ) (F : Nat → Nat → ℝ) (c : ℝ), maxDegree g = .ok d ∧ (∀ v < g.n, g.abs.deg v ≤ d) ∧ (∀ i j, F i j = F j i) ∧
      (∀ solve : EigenSolver, computeEigensystemFl R.fl solve g mat num which =
        match solve g.n (fun i j => .fin (F i j)) num.toNat with
        | none => .throw .runtimeError
        | some raw => .ok (raw.map (fun p => (undo R.fl which c p.1, p.2)))) ∧
      (∀ i < g.n, ∀ j < g.n, |F i j - shifted (exactShift mat which d) which.sign (matrixOf g.abs mat) i j|
        ≤ (R.g ^ (g.n + 10) - 1) * spectralBound g mat d i j) ∧
      |c - exactShift mat which d| ≤ (R.g ^ (g.n + 10) - 1) * (if mat = .normalisedLaplacian then 0 else 2 * d) := by
  obtain ⟨d, d', hdm, hdm', hnear, hdle⟩ := maxDegreeFl_spec (R := R) h hw
  have hv := h.valid
  have hd0 : 0 ≤ d := hnear.y0
  have hg1 : 0 ≤ R.g ^ (g.n + 10) - 1 := sub_nonneg.2 (Rounding.g_pow_one_le (R := R) _)
  have hsub : ∀ x : ℝ, |x - x| ≤ (R.g ^ (g.n + 10) - 1) * 0 := fun x => by rw [sub_self, abs_zero, mul_zero]
  have hwd : ∀ i < g.n, g.adj.coeff i i ≤ d := by
    intro i hi
    refine le_trans ?_ (hdle i hi)
    unfold WGraph.deg
    exact le_add_of_nonneg_left (Finset.sum_nonneg fun u _ => hw i u)
  -- from entries on and above the diagonal to all entries
  have hup : ∀ (m : SprsMat ℝ) (A B : Nat → Nat → ℝ), (∀ i j, A i j = A j i) → (∀ i j, B i j = B j i) →
      (∀ i < g.n, ∀ j < g.n, |m.coeff i j - A i j| ≤ (R.g ^ (g.n + 10) - 1) * B i j) →
      ∀ i < g.n, ∀ j < g.n, |upperFl m i j - A i j| ≤ (R.g ^ (g.n + 10) - 1) * B i j := by
    intro m A B hA hB hm i hi j hj
    unfold upperFl
    split_ifs
    · exact hm i hi j hj
    · rw [hA i j, hB i j]; exact hm j hj i hi
  have hsym : ∀ (c : ℝ) i j, shifted c which.sign (matrixOf g.abs mat) i j = shifted c which.sign (matrixOf g.abs mat) j i := by
    intro c i j
    unfold shifted
    rw [matrixOf_symm h]
    by_cases e : i = j
    · subst e; rfl
    · rw [if_neg e, if_neg (fun h => e h.symm)]
  have hbsym : ∀ i j, spectralBound g mat d i j = spectralBound g mat d j i := by
    intro i j
    have hs : g.abs.w i j = g.abs.w j i := hv.symm i j
    unfold spectralBound
    cases mat <;> simp only [eq_comm (a := i), hs, mul_comm (√(g.abs.deg i))]
  have hlw : (g.laplacianFl R.fl).WF := laplacianFl_wf hv
  have hlr : (g.laplacianFl R.fl).rows = g.n := laplacianFl_rows hv
  have hlc : (g.laplacianFl R.fl).cols = g.n := laplacianFl_cols hv
  -- the diagonal of the Laplacian
  have hlap : ∀ i < g.n, Close R (g.n + 2) (2 * d) (R.fl (g.degFl R.fl i - g.adj.coeff i i)) (g.abs.deg i - g.adj.coeff i i) := by
    intro i hi
    have h1 := ((degFl_near (R := R) hv hw hi).mono (l := g.n + 1) (Nat.succ_le_succ (nbrCount_le g.abs i))).close
    have h2 := (Close.refl (R := R) (t := g.n + 1) (g.adj.coeff i i)).neg
    rw [abs_of_nonneg (show 0 ≤ g.adj.coeff i i from hw i i)] at h2
    have h3 := (h1.add h2).fl
    rw [← sub_eq_add_neg, ← sub_eq_add_neg] at h3
    exact h3.mono le_rfl (by linarith [hdle i hi, hwd i hi])
  have hdc : Close R (g.n + 1) d d' d := hnear.close
  simp only [computeEigensystemFl, if_neg (show ¬ (num < 1 ∨ (g.n : Int) ≤ num) by omega), hdm', Outcome.bind]
  cases mat with
  | adjacency =>
    have hcc : |d' - d| ≤ (R.g ^ (g.n + 10) - 1) * (2 * d) := (hdc.mono (t' := g.n + 10) (b' := 2 * d) (by omega) (by linarith)).1
    cases which with
    | largest =>
      obtain ⟨h1, h2, h3, h4⟩ := shiftDiagFl_spec R.fl d' hv.wf g.n hv.rows.ge hv.cols.ge
      rw [hv.rows] at h2
      refine ⟨d, upperFl (shiftDiagFl R.fl g.n g.adj d'), d', hdm, hdle, upperFl_symm _, fun solve => ?_,
        hup _ _ _ (hsym _) hbsym fun i hi j hj => ?_, ?_⟩
      · dsimp only
        rw [largestmagFl_eq ho solve _ num d' .largest _ false rfl rfl (by rw [h2]; omega), h2]
      · rw [h4]
        simp only [shifted, EigenSortRule.sign, matrixOf, one_mul, exactShift, spectralBound]
        by_cases e : i = j
        · subst e
          rw [if_pos ⟨rfl, hi⟩, if_pos rfl, if_pos rfl, add_comm]
          have h5 := Close.refl (R := R) (t := g.n + 1) (g.adj.coeff i i)
          rw [abs_of_nonneg (show 0 ≤ g.adj.coeff i i from hw i i)] at h5
          exact ((hdc.add h5).fl.mono (by omega) (by linarith [hwd i hi])).1
        · rw [if_neg (by tauto), if_neg e, zero_add, if_neg e]
          exact hsub _
      · simpa [exactShift] using hcc
    | smallest =>
      have hnw := SprsMat.wf_mapVal hv.wf (fun v : ℝ => -v)
      obtain ⟨h1, h2, h3, h4⟩ := shiftDiagFl_spec R.fl d' hnw g.n hv.rows.ge hv.cols.ge
      have h2 : _ = g.n := h2.trans hv.rows
      refine ⟨d, upperFl (shiftDiagFl R.fl g.n (g.adj.mapVal (fun v => -v)) d'), d', hdm, hdle, upperFl_symm _, fun solve => ?_,
        hup _ _ _ (hsym _) hbsym fun i hi j hj => ?_, ?_⟩
      · dsimp only
        rw [largestmagFl_eq ho solve _ num d' .smallest _ true rfl rfl (by rw [h2]; omega), h2]
      · rw [h4, SprsMat.coeff_mapVal hv.wf _ neg_zero]
        simp only [shifted, EigenSortRule.sign, matrixOf, neg_one_mul, exactShift, spectralBound]
        by_cases e : i = j
        · subst e
          rw [if_pos ⟨rfl, hi⟩, if_pos rfl, if_pos rfl, add_comm]
          have h5 := (Close.refl (R := R) (t := g.n + 1) (g.adj.coeff i i)).neg
          rw [abs_of_nonneg (show 0 ≤ g.adj.coeff i i from hw i i)] at h5
          exact ((hdc.add h5).fl.mono (by omega) (by linarith [hwd i hi])).1
        · rw [if_neg (by tauto), if_neg e, zero_add, if_neg e]
          exact hsub _
      · simpa [exactShift] using hcc
  | laplacian =>
    cases which with
    | largest =>
      refine ⟨d, upperFl (g.laplacianFl R.fl), 0, hdm, hdle, upperFl_symm _, fun solve => ?_,
        hup _ _ _ (hsym _) hbsym fun i hi j hj => ?_, ?_⟩
      · dsimp only
        rw [largestmagFl_eq ho solve _ num 0 .largest _ false (by simp) rfl (by rw [hlr]; omega), hlr]
      · rw [laplacianFl_coeff hv hf hi]
        simp only [shifted, EigenSortRule.sign, matrixOf, one_mul, exactShift, spectralBound]
        by_cases e : i = j
        · subst e
          simp only [if_true, zero_add]
          exact ((hlap i hi).mono (by omega) (by linarith)).1
        · simp only [if_neg e, zero_add, zero_sub]
          exact hsub _
      · simp only [exactShift, sub_self, abs_zero]
        exact mul_nonneg hg1 (by simp [hd0])
    | smallest =>
      have hnw := SprsMat.wf_mapVal hlw (fun v : ℝ => -v)
      have h2d : Close R (g.n + 2) (2 * d) (R.fl (2 * d')) (2 * d) := by
        have := (hdc.add hdc).fl
        rwa [← two_mul, ← two_mul] at this
      obtain ⟨h1, h2, h3, h4⟩ := shiftDiagFl_spec R.fl (R.fl (2 * d')) hnw g.n hlr.ge hlc.ge
      have h2 : _ = g.n := h2.trans hlr
      refine ⟨d, upperFl (shiftDiagFl R.fl g.n ((g.laplacianFl R.fl).mapVal (fun v => -v)) (R.fl (2 * d'))), R.fl (2 * d'), hdm, hdle,
        upperFl_symm _, fun solve => ?_, hup _ _ _ (hsym _) hbsym fun i hi j hj => ?_, ?_⟩
      · dsimp only
        rw [largestmagFl_eq ho solve _ num (R.fl (2 * d')) .smallest _ true rfl rfl (by rw [h2]; omega), h2]
      · rw [h4, SprsMat.coeff_mapVal hlw _ neg_zero, laplacianFl_coeff hv hf hi]
        simp only [shifted, EigenSortRule.sign, matrixOf, neg_one_mul, exactShift, spectralBound]
        by_cases e : i = j
        · subst e
          rw [if_pos ⟨rfl, hi⟩]
          simp only [if_true]
          rw [add_comm]
          exact ((h2d.add (hlap i hi).neg).fl.mono (by omega) (by linarith)).1
        · rw [if_neg (by tauto)]
          simp only [if_neg e, zero_add, zero_sub]
          exact hsub _
      · simpa [exactShift] using (h2d.mono (t' := g.n + 10) (b' := 2 * d) (by omega) le_rfl).1
  | normalisedLaplacian =>
    have hnwf : (g.normLaplacianFl R.fl Real.sqrt).WF := by
      unfold normLaplacianFl
      exact SprsMat.wf_zipWith (SprsMat.wf_diag _ _) (wf_mulDiagFl (wf_diagMulFl hv.wf _) _) hv.rows.symm _
    have hnr : (g.normLaplacianFl R.fl Real.sqrt).rows = g.n := rfl
    have hnc : (g.normLaplacianFl R.fl Real.sqrt).cols = g.n := rfl
    have hent : ∀ i < g.n, ∀ j < g.n, Close R (g.n + 9)
        (g.abs.w i j / (√(g.abs.deg i) * √(g.abs.deg j)) + if i = j then 1 else 0)
        ((g.normLaplacianFl R.fl Real.sqrt).coeff i j)
        ((if i = j then 1 else 0) - g.abs.w i j / (√(g.abs.deg i) * √(g.abs.deg j))) := by
      intro i hi j hj
      have hn := normAdjFl_near (R := R) hv hw hi hj
      have h1 := (hn.mono (l := g.n + 8) (by
        have h1 : nbrCount g.abs i ≤ g.n := nbrCount_le g.abs i
        have h2 : nbrCount g.abs j ≤ g.n := nbrCount_le g.abs j
        omega)).close.neg
      have h2 := Close.refl (R := R) (t := g.n + 8) (if i = j then (1 : ℝ) else 0)
      rw [abs_of_nonneg (show (0 : ℝ) ≤ if i = j then (1 : ℝ) else 0 by split_ifs <;> norm_num)] at h2
      have h3 := (h1.add h2).fl
      rw [neg_add_eq_sub, neg_add_eq_sub] at h3
      have e : (g.normLaplacianFl R.fl Real.sqrt).coeff i j
          = R.fl ((if i = j then 1 else 0) - (g.normAdjFl R.fl Real.sqrt).coeff i j) := by
        rw [normLaplacianFl_coeff hv hj]
        unfold normAdjFl
        rw [coeff_mulDiagFl (wf_diagMulFl hv.wf _), coeff_diagMulFl hv.wf]
      rw [e]
      exact h3
    cases which with
    | largest =>
      refine ⟨d, upperFl (g.normLaplacianFl R.fl Real.sqrt), 0, hdm, hdle, upperFl_symm _, fun solve => ?_,
        hup _ _ _ (hsym _) hbsym fun i hi j hj => ?_, ?_⟩
      · dsimp only
        rw [largestmagFl_eq ho solve _ num 0 .largest _ false (by simp) rfl (by rw [hnr]; omega), hnr]
      · have := ((hent i hi j hj).mono (t' := g.n + 10) (by omega) le_rfl).1
        simpa only [shifted, EigenSortRule.sign, matrixOf, one_mul, exactShift, spectralBound, ite_self, zero_add] using this
      · simp [exactShift]
    | smallest =>
      have hnw := SprsMat.wf_mapVal hnwf (fun v : ℝ => -v)
      obtain ⟨h1, h2, h3, h4⟩ := shiftDiagFl_spec R.fl 2 hnw g.n hnr.ge hnc.ge
      have h2 : _ = g.n := h2.trans hnr
      refine ⟨d, upperFl (shiftDiagFl R.fl g.n ((g.normLaplacianFl R.fl Real.sqrt).mapVal (fun v => -v)) 2), 2, hdm, hdle,
        upperFl_symm _, fun solve => ?_, hup _ _ _ (hsym _) hbsym fun i hi j hj => ?_, ?_⟩
      · dsimp only
        rw [largestmagFl_eq ho solve _ num 2 .smallest _ true rfl rfl (by rw [h2]; omega), h2]
      · have h5 := (hent i hi j hj).neg
        rw [h4, SprsMat.coeff_mapVal hnwf _ neg_zero]
        simp only [shifted, EigenSortRule.sign, matrixOf, neg_one_mul, exactShift, spectralBound]
        by_cases e : i = j
        · subst e
          simp only [if_true] at h5 ⊢
          rw [if_pos ⟨trivial, hi⟩]
          have h6 : Close R (g.n + 9) (g.abs.w i i / (√(g.abs.deg i) * √(g.abs.deg i)) + 1)
              (-(g.normLaplacianFl R.fl Real.sqrt).coeff i i + 2) (2 + -(1 - g.abs.w i i / (√(g.abs.deg i) * √(g.abs.deg i)))) := by
            have h0 : 0 ≤ g.abs.w i i / (√(g.abs.deg i) * √(g.abs.deg i)) := div_nonneg (hw i i) (by positivity)
            refine ⟨?_, ?_⟩
            · refine le_trans (le_of_eq ?_) h5.1
              congr 1; ring
            · rw [abs_of_nonneg (by linarith)]
              linarith
          exact h6.fl.1
        · rw [if_neg (by tauto)]
          simp only [if_neg e, zero_add] at h5 ⊢
          exact (h5.mono (by omega) le_rfl).1
      · simp [exactShift]

/-! ## The distance of the matrix the solver is given from the exact one -/

/-- How far the matrix the solver is given may be from the exact one, `D` being a bound of the degrees. -/
noncomputable def spectralErr (R : Rounding ℝ) (n : Nat) (mat : GraphMatrix) (D : ℝ) : ℝ :=
  ((1 / (1 - R.u)) ^ (n + 10) - 1) * (if mat = .normalisedLaplacian then 2 else 6 * D)

theorem spectralErr_nonneg (R : Rounding ℝ) (n : Nat) (mat : GraphMatrix) {D : ℝ} (hD : 0 ≤ D) : 0 ≤ spectralErr R n mat D := by
  refine mul_nonneg (sub_nonneg.2 (Rounding.g_pow_one_le (R := R) _)) ?_
  split_ifs
  · norm_num
  · positivity

theorem diag_close (n : Nat) {F A : Nat → Nat → ℝ} {η : ℝ} (hη : 0 ≤ η)
    (h : ∀ i < n, ∀ j < n, |F i j - A i j| ≤ if i = j then η else 0) : OpClose n F A η := by
  intro x
  have := Recovery.schur n (fun i j => F i j - A i j) (fun i j => if i = j then 1 else 0) (fun _ => 1) η 1 hη zero_le_one
    (fun _ _ => one_pos) (fun i _ j _ => by split_ifs <;> norm_num) (fun i _ j _ => by simp [eq_comm])
    (fun i hi => by simp [hi]) (fun i hi j hj => (h i hi j hj).trans (le_of_eq (by split_ifs <;> simp))) x
  simpa only [mul_one] using this

theorem shifted_sub (c c' s : ℝ) (M : Nat → Nat → ℝ) (i j : Nat) :
    shifted c s M i j = shifted c' s M i j + if i = j then c - c' else 0 := by
  unfold shifted
  split_ifs <;> ring

theorem inner_close {R : Rounding ℝ} (ho : R.Odd) {g : Graph ℝ} (h : g.Reachable) (hw : ∀ u v, 0 ≤ g.abs.w u v)
    (hf : g.FloatWeights R.fl) (mat : GraphMatrix) (num : Int) (which : EigenSortRule) (hnum : 1 ≤ num ∧ num < g.n)
    (hd : mat = .normalisedLaplacian → ∀ v, v < g.n → 0 < g.abs.deg v) (D : ℝ) (hD : ∀ v < g.n, g.abs.deg v ≤ D) :
    ∃ (F : Nat → Nat → ℝ) (c c0 : ℝ), (∀ i j, F i j = F j i) ∧
      (∀ solve : EigenSolver, computeEigensystemFl R.fl solve g mat num which =
        match solve g.n (fun i j => .fin (F i j)) num.toNat with
        | none => .throw .runtimeError
        | some raw => .ok (raw.map (fun p => (undo R.fl which c p.1, p.2)))) ∧
      OpClose g.n F (shifted c which.sign (matrixOf g.abs mat)) (spectralErr R g.n mat D) ∧
      OpClose g.n F (shifted c0 which.sign (matrixOf g.abs mat)) (spectralErr R g.n mat D) ∧
      |c - c0| ≤ spectralErr R g.n mat D ∧
      (∀ x, 0 ≤ quadForm g.n (shifted c0 which.sign (matrixOf g.abs mat)) x) := by
  obtain ⟨d, F, c, hdm, hdle, hF, hs, hent, hc⟩ := inner_matrix ho h hw hf mat num which hnum hd
  have hG : 0 ≤ R.g ^ (g.n + 10) - 1 := sub_nonneg.2 (Rounding.g_pow_one_le (R := R) _)
  have hdD : d ≤ D := by
    obtain ⟨d1, h1, -, -, h4⟩ := maxDegree_spec h
    rw [hdm] at h1
    cases h1
    rcases h4 with h4 | ⟨v, hv, h4⟩
    · rw [h4]; exact (WGraph.degree_nonneg hw 0).trans (hD 0 (by omega))
    · rw [h4]; exact hD v hv
  have hd0 : 0 ≤ d := (WGraph.degree_nonneg hw 0).trans (hdle 0 (by omega))
  have hpsd := exactShift_psd h hw mat which hd d hdle
  refine ⟨F, c, exactShift mat which d, hF, hs, ?_⟩
  obtain ⟨c0, hc0⟩ : ∃ c0, c0 = exactShift mat which d := ⟨_, rfl⟩
  rw [← hc0] at hpsd hent hc ⊢
  by_cases hm : mat = .normalisedLaplacian
  · subst hm
    rw [if_pos rfl, mul_zero] at hc
    have hcc : c = c0 := by
      have := le_antisymm hc (abs_nonneg _)
      rwa [abs_eq_zero, sub_eq_zero] at this
    subst hcc
    have hpos := hd rfl
    have key : OpClose g.n F (shifted c which.sign (matrixOf g.abs .normalisedLaplacian)) (spectralErr R g.n .normalisedLaplacian D) := by
      intro x
      have := Recovery.schur g.n (fun i j => F i j - shifted c which.sign (matrixOf g.abs .normalisedLaplacian) i j)
        (spectralBound g .normalisedLaplacian d) (fun i => √(g.abs.deg i)) (R.g ^ (g.n + 10) - 1) 2 hG (by norm_num)
        (fun i hi => Real.sqrt_pos.2 (hpos i hi))
        (fun i hi j hj => by
          unfold spectralBound
          exact add_nonneg (div_nonneg (hw i j) (by positivity)) (by split_ifs <;> norm_num))
        (fun i hi j hj => by
          have hs : g.abs.w i j = g.abs.w j i := h.valid.symm i j
          unfold spectralBound
          simp only [eq_comm (a := i), hs, mul_comm (√(g.abs.deg i))])
        (fun i hi => by
          have hdi := hpos i hi
          have hsi := Real.sqrt_pos.2 hdi
          have e : ∀ j ∈ range g.n, spectralBound g .normalisedLaplacian d i j * √(g.abs.deg j)
              = g.abs.w i j / √(g.abs.deg i) + if i = j then √(g.abs.deg j) else 0 := by
            intro j hj
            have hsj := (Real.sqrt_pos.2 (hpos j (mem_range.1 hj))).ne'
            unfold spectralBound
            dsimp only
            rw [add_mul, ite_mul, one_mul, zero_mul]
            congr 1
            field_simp
          rw [Finset.sum_congr rfl e, Finset.sum_add_distrib, Finset.sum_ite_eq, if_pos (mem_range.2 hi), ← Finset.sum_div, two_mul]
          refine add_le_add_left ?_ _
          rw [div_le_iff₀ hsi, Real.mul_self_sqrt hdi.le]
          unfold WGraph.deg
          exact le_add_of_nonneg_right (hw i i))
        (fun i hi j hj => hent i hi j hj) x
      unfold spectralErr
      rw [if_pos rfl]
      exact this
    refine ⟨key, key, ?_, hpsd⟩
    rw [sub_self, abs_zero]
    exact mul_nonneg hG (by simp)
  · have hb : ∀ i j, spectralBound g mat d i j = if i = j then 4 * d else 0 := by
      intro i j
      cases mat
      · rfl
      · rfl
      · exact absurd rfl hm
    rw [if_neg hm] at hc
    have hη : spectralErr R g.n mat D = (R.g ^ (g.n + 10) - 1) * (6 * D) := by
      unfold spectralErr
      rw [if_neg hm]
      rfl
    have hη0 := spectralErr_nonneg R g.n mat (hd0.trans hdD)
    have h4 : (R.g ^ (g.n + 10) - 1) * (4 * d) ≤ (R.g ^ (g.n + 10) - 1) * (4 * D) :=
      mul_le_mul_of_nonneg_left (by linarith) hG
    have h2 : (R.g ^ (g.n + 10) - 1) * (2 * d) ≤ (R.g ^ (g.n + 10) - 1) * (2 * D) :=
      mul_le_mul_of_nonneg_left (by linarith) hG
    have h0 : 0 ≤ (R.g ^ (g.n + 10) - 1) * D := mul_nonneg hG (hd0.trans hdD)
    have hent' : ∀ i < g.n, ∀ j < g.n, |F i j - shifted c0 which.sign (matrixOf g.abs mat) i j|
        ≤ if i = j then (R.g ^ (g.n + 10) - 1) * (4 * D) else 0 := by
      intro i hi j hj
      refine (hent i hi j hj).trans ?_
      rw [hb]
      split_ifs
      · exact h4
      · rw [mul_zero]
    refine ⟨?_, ?_, ?_, hpsd⟩
    · refine diag_close g.n hη0 fun i hi j hj => ?_
      have h5 := hent' i hi j hj
      rw [shifted_sub c c0]
      by_cases e : i = j
      · rw [if_pos e] at h5 ⊢
        rw [if_pos e, hη]
        rw [← sub_sub]
        refine (abs_sub _ _).trans ?_
        linarith
      · rw [if_neg e] at h5 ⊢
        rw [if_neg e, add_zero]
        exact h5
    · refine diag_close g.n hη0 fun i hi j hj => (hent' i hi j hj).trans ?_
      split_ifs
      · rw [hη]; linarith
      · exact le_rfl
    · rw [hη]; linarith

section
variable {R : Rounding ℝ} {g : Graph ℝ}

/-- **C102** (what the solver is given).  In rounded arithmetic `compute_eigensystem` gives the inner solver a finite matrix
`F` that is symmetric bit for bit and within `((1/(1-u))^(n+10) - 1) · s` of `c I ± M`, where `M` is the exact matrix that
was asked for and `s` is 2 for the normalised Laplacian and six times the largest degree otherwise; the vectors are returned
as they are, and the values with the shift undone up to one rounding. -/
theorem C102_matrix (ho : R.Odd) (h : g.Reachable) (hw : ∀ u v, 0 ≤ g.abs.w u v) (hf : g.FloatWeights R.fl)
    (mat : GraphMatrix) (num : Int) (which : EigenSortRule) (hnum : 1 ≤ num ∧ num < g.n)
    (hd : mat = .normalisedLaplacian → ∀ v, v < g.n → 0 < g.abs.deg v) (D : ℝ) (hD : ∀ v < g.n, g.abs.deg v ≤ D) :
    ∃ (F : Nat → Nat → ℝ) (c : ℝ) (val : ℝ → ℝ), (∀ i j, F i j = F j i) ∧
      OpClose g.n F (shifted c which.sign (matrixOf g.abs mat))
        (((1 / (1 - R.u)) ^ (g.n + 10) - 1) * (if mat = .normalisedLaplacian then 2 else 6 * D)) ∧
      (∀ x, |val x - which.sign * (x - c)| ≤ R.u * |x - c|) ∧
      ∀ solve : EigenSolver, computeEigensystemFl R.fl solve g mat num which =
        match solve g.n (fun i j => .fin (F i j)) num.toNat with
        | none => .throw .runtimeError
        | some raw => .ok (raw.map (fun p => (val p.1, p.2))) := by
  obtain ⟨F, c, c0, h1, h2, h3, -⟩ := inner_close ho h hw hf mat num which hnum hd D hD
  exact ⟨F, c, undo R.fl which c, h1, h3, undo_err which c, h2⟩

theorem residual_shifted (n : Nat) (c s : ℝ) (hs : s * s = 1) (M : Nat → Nat → ℝ) (x : ℝ) (v : Nat → ℝ) :
    residual2 n (shifted c s M) x v = residual2 n M (s * (x - c)) v := by
  unfold residual2
  refine Finset.sum_congr rfl fun i hi => ?_
  rw [shifted_apply n c s M v i (mem_range.1 hi)]
  have : (∑ j ∈ range n, M i j * v j - s * (x - c) * v i) = s * (c * v i + s * ∑ j ∈ range n, M i j * v j - x * v i) := by
    linear_combination -(∑ j ∈ range n, M i j * v j) * hs
  rw [this, mul_pow, pow_two s, hs, one_mul]

theorem residual_value (n : Nat) (M : Nat → Nat → ℝ) (l l' : ℝ) (v : Nat → ℝ) (hv : dot n v v = 1) :
    residual2 n M l' v ≤ (√(residual2 n M l v) + |l' - l|) ^ 2 := by
  have h1 := Recovery.minkowski (range n) (fun i => ∑ j ∈ range n, M i j * v j - l * v i) (fun i => (l - l') * v i)
  have e : ∑ i ∈ range n, ((l - l') * v i) ^ 2 = (l - l') ^ 2 := by
    have : ∀ i ∈ range n, ((l - l') * v i) ^ 2 = (l - l') ^ 2 * (v i * v i) := fun i _ => by ring
    rw [Finset.sum_congr rfl this, ← Finset.mul_sum]
    unfold dot at hv
    rw [hv, mul_one]
  rw [e, Real.sqrt_sq_eq_abs, abs_sub_comm l l'] at h1
  refine le_trans (le_of_eq ?_) h1
  unfold residual2
  exact Finset.sum_congr rfl fun i _ => by ring

/-- **C102** (residuals, any solver).  There is a matrix `F`, the one the solver is given, such that whatever the solver
answers for it: a pair `(x, v)` of the solver with `v` of length 1 becomes a pair `(l, v)` of the result whose residual
`|M v - l v|` for the exact matrix exceeds the solver's own residual `|F v - x v|` by at most
`((1/(1-u))^(n+10) - 1) · s + u/(1-u) · |l|`. -/
theorem C102_residual (ho : R.Odd) (h : g.Reachable) (hw : ∀ u v, 0 ≤ g.abs.w u v) (hf : g.FloatWeights R.fl)
    (mat : GraphMatrix) (num : Int) (which : EigenSortRule) (hnum : 1 ≤ num ∧ num < g.n)
    (hd : mat = .normalisedLaplacian → ∀ v, v < g.n → 0 < g.abs.deg v) (D : ℝ) (hD : ∀ v < g.n, g.abs.deg v ≤ D) :
    ∃ F : Nat → Nat → ℝ, (∀ i j, F i j = F j i) ∧ ∀ (solve : EigenSolver) (res : EigenPairs),
      computeEigensystemFl R.fl solve g mat num which = .ok res →
      ∃ raw, solve g.n (fun i j => .fin (F i j)) num.toNat = some raw ∧ res.length = raw.length ∧
        ∀ j < raw.length, (res.getD j (0, 0)).2 = (raw.getD j (0, 0)).2 ∧
          (dot g.n (raw.getD j (0, 0)).2 (raw.getD j (0, 0)).2 = 1 →
            √(residual2 g.n (matrixOf g.abs mat) (res.getD j (0, 0)).1 (res.getD j (0, 0)).2) ≤
              √(residual2 g.n F (raw.getD j (0, 0)).1 (raw.getD j (0, 0)).2) +
              ((1 / (1 - R.u)) ^ (g.n + 10) - 1) * (if mat = .normalisedLaplacian then 2 else 6 * D) +
              R.u / (1 - R.u) * |(res.getD j (0, 0)).1|) := by
  obtain ⟨F, c, c0, h1, h2, h3, -⟩ := inner_close ho h hw hf mat num which hnum hd D hD
  have hD0 : 0 ≤ D := (WGraph.degree_nonneg hw 0).trans (hD 0 (by omega))
  refine ⟨F, h1, fun solve res hres => ?_⟩
  rw [h2] at hres
  cases hs : solve g.n (fun i j => .fin (F i j)) num.toNat with
  | none => rw [hs] at hres; cases hres
  | some raw =>
    rw [hs] at hres
    simp only [Outcome.ok.injEq] at hres
    subst hres
    refine ⟨raw, rfl, by simp, fun j hj => ?_⟩
    rw [List.getD_eq_getElem _ _ (by simpa using hj), List.getElem_map, List.getD_eq_getElem _ _ hj]
    refine ⟨rfl, fun hu => ?_⟩
    dsimp only
    have hη := spectralErr_nonneg R g.n mat hD0
    have r1 := Recovery.residual_perturb hη h3 (raw[j]).1 (raw[j]).2 hu
    rw [residual_shifted _ _ _ (sign_sq which)] at r1
    have r2 := residual_value g.n (matrixOf g.abs mat) (which.sign * ((raw[j]).1 - c)) (undo R.fl which c (raw[j]).1) (raw[j]).2 hu
    have r3 := undo_err (R := R) which c (raw[j]).1
    have hu1 := Rounding.one_sub_pos (R := R)
    have r4 : R.u * |(raw[j]).1 - c| ≤ R.u / (1 - R.u) * |undo R.fl which c (raw[j]).1| := by
      have e : |which.sign * ((raw[j]).1 - c)| = |(raw[j]).1 - c| := by
        rw [abs_mul]; cases which <;> simp [EigenSortRule.sign]
      have : |(raw[j]).1 - c| ≤ |undo R.fl which c (raw[j]).1| + R.u * |(raw[j]).1 - c| := by
        have h5 := abs_sub_abs_le_abs_sub (which.sign * ((raw[j]).1 - c)) (undo R.fl which c (raw[j]).1)
        rw [abs_sub_comm, e] at h5
        linarith
      rw [div_mul_eq_mul_div, le_div_iff₀ hu1]
      have h6 := mul_le_mul_of_nonneg_left (show (1 - R.u) * |(raw[j]).1 - c| ≤ |undo R.fl which c (raw[j]).1| by linarith) R.u0
      linarith
    have s1 := Real.sqrt_le_sqrt r1
    rw [Real.sqrt_sq (add_nonneg (Real.sqrt_nonneg _) hη)] at s1
    have s2 := Real.sqrt_le_sqrt r2
    rw [Real.sqrt_sq (add_nonneg (Real.sqrt_nonneg _) (abs_nonneg _))] at s2
    unfold spectralErr at s1
    linarith

/-- The shifted system of a system of eigenvectors. -/
theorem extreme_shift {n num : Nat} {M : Nat → Nat → ℝ} {which : EigenSortRule} {c : ℝ} {a : EigenPairs}
    (hpsd : ∀ x, 0 ≤ quadForm n (shifted c which.sign M) x) (ha : EigenExtreme which.before n M num a) :
    EigenExtreme (fun x y => |y| ≤ |x|) n (shifted c which.sign M) num
      (a.map fun p => (c + which.sign * p.1, p.2)) := by
  have hs := sign_sq which
  have e : ∀ l : ℝ, which.sign * (c + which.sign * l - c) = l := fun l => by linear_combination l * hs
  have heig : ∀ l v, IsEigen n M l v → IsEigen n (shifted c which.sign M) (c + which.sign * l) v := fun l v hv => by
    rw [isEigen_shifted n c _ hs, e]; exact hv
  have hne : ∀ p ∈ a, ∃ i < n, p.2 i ≠ 0 := by
    intro p hp
    by_contra hc
    push Not at hc
    have := ha.unit p hp
    unfold dot at this
    rw [Finset.sum_eq_zero fun i hi => by rw [hc i (mem_range.1 hi), mul_zero]] at this
    norm_num at this
  have hpos : ∀ p ∈ a, 0 ≤ c + which.sign * p.1 := fun p hp =>
    eigenvalue_nonneg hpsd (heig _ _ (ha.eigen p hp)) (hne p hp)
  have hord : ∀ x y, 0 ≤ c + which.sign * x → 0 ≤ c + which.sign * y → which.before x y →
      |c + which.sign * y| ≤ |c + which.sign * x| := by
    intro x y hx hy hb
    rw [abs_of_nonneg hx, abs_of_nonneg hy]
    cases which <;> simp only [EigenSortRule.before, EigenSortRule.sign] at hb ⊢ <;> linarith
  refine ⟨by rw [List.length_map]; exact ha.count, ?_, ?_, ?_, ?_, ?_⟩
  · intro p hp
    obtain ⟨q, hq, rfl⟩ := List.mem_map.1 hp
    exact heig _ _ (ha.eigen q hq)
  · intro p hp
    obtain ⟨q, hq, rfl⟩ := List.mem_map.1 hp
    exact ha.unit q hq
  · rw [List.pairwise_map]; exact ha.ortho
  · rw [List.pairwise_map]
    refine List.Pairwise.imp_of_mem (fun {p q} hp hq hb => ?_) ha.order
    exact hord _ _ (hpos p hp) (hpos q hq) hb
  · intro l v hv hvne ho p hp
    obtain ⟨q, hq, rfl⟩ := List.mem_map.1 hp
    have hv' := (isEigen_shifted n c _ hs M l v).1 hv
    have hb := ha.extreme _ v hv' hvne (fun p hp => ho (c + which.sign * p.1, p.2) (List.mem_map.2 ⟨p, hp, rfl⟩)) q hq
    have e2 : c + which.sign * (which.sign * (l - c)) = l := by linear_combination (l - c) * hs
    have := hord _ _ (hpos q hq) (by rw [e2]; exact eigenvalue_nonneg hpsd hv hvne) hb
    rwa [e2] at this

/-- **C102** (eigenvalues).  With an inner solver that is exact for the matrix it is given, the `j`-th value that is
returned in rounded arithmetic is within `4 η + u (|λ| + 4 η)` of the exact `j`-th eigenvalue `λ`, where
`η = ((1/(1-u))^(n+10) - 1) · s`; the vectors are orthonormal. -/
theorem C102_eigenvalues (ho : R.Odd) (h : g.Reachable) (hw : ∀ u v, 0 ≤ g.abs.w u v) (hf : g.FloatWeights R.fl)
    (mat : GraphMatrix) (num : Int) (which : EigenSortRule) (hnum : 1 ≤ num ∧ num < g.n)
    (hd : mat = .normalisedLaplacian → ∀ v, v < g.n → 0 < g.abs.deg v) (D : ℝ) (hD : ∀ v < g.n, g.abs.deg v ≤ D)
    (solve : EigenSolver) (hsolve : SolverSpec solve) (res : EigenPairs)
    (hres : computeEigensystemFl R.fl solve g mat num which = .ok res)
    (exact : EigenPairs) (hex : EigenExtreme which.before g.n (matrixOf g.abs mat) num.toNat exact) (η : ℝ)
    (hη : η = ((1 / (1 - R.u)) ^ (g.n + 10) - 1) * (if mat = .normalisedLaplacian then 2 else 6 * D)) :
    res.length = num.toNat ∧
    (∀ j < num.toNat, |(res.getD j (0, 0)).1 - (exact.getD j (0, 0)).1|
      ≤ 4 * η + R.u * (|(exact.getD j (0, 0)).1| + 4 * η)) ∧
    ∀ i < num.toNat, ∀ j < num.toNat, dot g.n (res.getD i (0, 0)).2 (res.getD j (0, 0)).2 = if i = j then 1 else 0 := by
  obtain ⟨F, c, c0, h1, h2, h3, h4, h5, h6⟩ := inner_close ho h hw hf mat num which hnum hd D hD
  have hη' : spectralErr R g.n mat D = η := hη.symm
  rw [hη'] at h3 h4 h5
  have hD0 : 0 ≤ D := (WGraph.degree_nonneg hw 0).trans (hD 0 (by omega))
  have hη0 : 0 ≤ η := hη' ▸ spectralErr_nonneg R g.n mat hD0
  rw [h2] at hres
  cases hs : solve g.n (fun i j => .fin (F i j)) num.toNat with
  | none => rw [hs] at hres; cases hres
  | some raw =>
    rw [hs] at hres
    simp only [Outcome.ok.injEq] at hres
    subst hres
    have hraw := hsolve g.n _ F num.toNat raw (fun _ _ _ _ => rfl) (fun i _ j _ => h1 i j) (by omega) (by omega) hs
    have hsh := extreme_shift h6 hex
    have hsymA : ∀ i j, shifted c0 which.sign (matrixOf g.abs mat) i j = shifted c0 which.sign (matrixOf g.abs mat) j i := by
      intro i j
      unfold shifted
      rw [matrixOf_symm h]
      by_cases e : i = j
      · subst e; rfl
      · rw [if_neg e, if_neg (fun h => e h.symm)]
    refine ⟨by rw [List.length_map]; exact hraw.count, fun j hj => ?_, fun i hi j hj => ?_⟩
    · have hw' := Recovery.weyl_mag hsymA h1 h6 (Recovery.quad_small hη0 h4) hsh hraw j hj
      have hjr : j < raw.length := by rw [hraw.count]; exact hj
      have hje : j < exact.length := by rw [hex.count]; exact hj
      rw [List.getD_eq_getElem _ _ hjr, List.getD_eq_getElem _ _ (by simpa using hje), List.getElem_map] at hw'
      rw [List.getD_eq_getElem _ _ (by simpa using hjr), List.getElem_map, List.getD_eq_getElem _ _ hje]
      dsimp only at hw' ⊢
      have hu := undo_err (R := R) which c (raw[j]).1
      have hsq := sign_sq which
      have habs : ∀ y : ℝ, |which.sign * y| = |y| := fun y => by
        rw [abs_mul]; cases which <;> simp [EigenSortRule.sign]
      have e1 : which.sign * ((raw[j]).1 - c) - (exact[j]).1
          = which.sign * (((raw[j]).1 - (c0 + which.sign * (exact[j]).1)) - (c - c0)) := by
        linear_combination (exact[j]).1 * hsq
      have b1 : |which.sign * ((raw[j]).1 - c) - (exact[j]).1| ≤ 4 * η := by
        rw [e1, habs]
        refine (abs_sub _ _).trans ?_
        linarith
      have b2 : |(raw[j]).1 - c| ≤ |(exact[j]).1| + 4 * η := by
        rw [← habs]
        have := abs_sub_abs_le_abs_sub (which.sign * ((raw[j]).1 - c)) (exact[j]).1
        linarith
      have b3 := mul_le_mul_of_nonneg_left b2 R.u0
      calc |undo R.fl which c (raw[j]).1 - (exact[j]).1|
          = |(undo R.fl which c (raw[j]).1 - which.sign * ((raw[j]).1 - c)) + (which.sign * ((raw[j]).1 - c) - (exact[j]).1)| := by
            congr 1; ring
        _ ≤ _ := abs_add_le _ _
        _ ≤ _ := by linarith
    · have := Recovery.system_on hraw i hi j hj
      beta_reduce at this
      have hc := hraw.count
      rw [List.getD_eq_getElem _ _ (by omega), List.getD_eq_getElem _ _ (by omega)] at this
      rw [List.getD_eq_getElem _ _ (by simp; omega), List.getD_eq_getElem _ _ (by simp; omega), List.getElem_map, List.getElem_map]
      exact this

end

/-- **C102** (doubles).  For a graph with less than `2^20` vertices, `η ≤ (n + 10) / 2^52` times 2 (normalised Laplacian) or
six times the largest degree. -/
theorem C102_double (n : Nat) (hn : n < 2 ^ 20) (mat : GraphMatrix) (D : ℝ) (hD : 0 ≤ D) :
    ((1 / (1 - (KMeans.dbl ℝ).u)) ^ (n + 10) - 1) * (if mat = .normalisedLaplacian then 2 else 6 * D)
      ≤ (n + 10) / 2 ^ 52 * (if mat = .normalisedLaplacian then 2 else 6 * D) := by
  refine mul_le_mul_of_nonneg_right ?_ (by split_ifs <;> positivity)
  have hu : (KMeans.dbl ℝ).u = 1 / 2 ^ 53 := KMeans.dbl_u
  have hn' : (n : ℝ) ≤ 1048576 := by exact_mod_cast (show n ≤ 1048576 by omega)
  have := g_pow_sub_one_le (R := KMeans.dbl ℝ) (k := n + 10) (by rw [hu]; push_cast; linarith)
  refine this.trans (le_of_eq ?_)
  rw [hu]
  push_cast
  ring

/-! ## Spectral clustering -/

section
variable {R : Rounding ℝ} {g : Graph ℝ}

/-- **C102** (an approximate system).  Let `F` be the matrix the solver is given for the `k` smallest eigenvalues of the
normalised Laplacian.  If the `k` vectors it returns are within distance `δ` of an orthonormal family whose residuals for
`F`, with the solver's values, have squares that sum to at most `ρ²`, and the returned values are at most `m` with
`m / (1 - u) < l`, then what `compute_eigenvectors` returns is an approximate system for the exact normalised Laplacian, with
errors `δ` and `(ρ + √k η) / (l - m/(1-u))`, where `η = 2 ((1/(1-u))^(n+10) - 1)`. -/
theorem C102_system (ho : R.Odd) (h : g.Reachable) (hw : ∀ u v, 0 ≤ g.abs.w u v) (hf : g.FloatWeights R.fl)
    (hd : ∀ v, v < g.n → 0 < g.abs.deg v) (k : Nat) (hk : 1 ≤ k ∧ k < g.n) :
    ∃ F : Nat → Nat → ℝ, (∀ i j, F i j = F j i) ∧ ∀ (solve : EigenSolver) (res : EigenPairs),
      computeEigensystemFl R.fl solve g .normalisedLaplacian k .smallest = .ok res →
      ∃ raw, solve g.n (fun i j => .fin (F i j)) k = some raw ∧ res.map Prod.snd = raw.map Prod.snd ∧
        ∀ (w : Nat → Nat → ℝ) (δ ρ m l : ℝ), raw.length = k → 0 ≤ ρ →
          (∀ j < k, ∀ j' < k, dot g.n (w j) (w j') = if j = j' then 1 else 0) →
          ∑ j ∈ range k, ∑ i ∈ range g.n, ((raw.getD j (0, 0)).2 i - w j i) ^ 2 ≤ δ ^ 2 →
          ∑ j ∈ range k, residual2 g.n F (raw.getD j (0, 0)).1 (w j) ≤ ρ ^ 2 →
          0 ≤ m → (∀ p ∈ res, p.1 ≤ m) → m / (1 - R.u) < l →
          ApproxSystem g.n (matrixOf g.abs .normalisedLaplacian) k res l δ
            ((ρ + √k * (((1 / (1 - R.u)) ^ (g.n + 10) - 1) * 2)) / (l - m / (1 - R.u))) := by
  obtain ⟨D, hDm, -, hD, -⟩ := maxDegree_spec h
  obtain ⟨F, c, c0, h1, h2, h3, -⟩ := inner_close ho h hw hf .normalisedLaplacian k .smallest (by omega) (fun _ => hd) D hD
  have hη : spectralErr R g.n .normalisedLaplacian D = ((1 / (1 - R.u)) ^ (g.n + 10) - 1) * 2 := by
    unfold spectralErr; rw [if_pos rfl]
  have hη0 : 0 ≤ spectralErr R g.n .normalisedLaplacian D :=
    spectralErr_nonneg R g.n _ ((hd 0 (by omega)).le.trans (hD 0 (by omega)))
  rw [← hη]
  obtain ⟨η, hηd⟩ : ∃ η, η = spectralErr R g.n .normalisedLaplacian D := ⟨_, rfl⟩
  rw [← hηd] at h3 hη0 ⊢
  refine ⟨F, h1, fun solve res hres => ?_⟩
  rw [h2, Int.toNat_natCast] at hres
  cases hs : solve g.n (fun i j => .fin (F i j)) k with
  | none => rw [hs] at hres; cases hres
  | some raw =>
    rw [hs] at hres
    simp only [Outcome.ok.injEq] at hres
    subst hres
    refine ⟨raw, rfl, by simp, fun w δ ρ m l hlen hρ hon hdist hresid hm hval hml => ?_⟩
    have hu1 := Rounding.one_sub_pos (R := R)
    have hgapl : 0 < l - m / (1 - R.u) := by linarith
    have hμ : ∀ j < k, c - (raw.getD j (0, 0)).1 ≤ m / (1 - R.u) := by
      intro j hj
      have hj' : j < raw.length := by omega
      rw [List.getD_eq_getElem _ _ hj']
      have h5 := hval (undo R.fl .smallest c (raw[j]).1, (raw[j]).2) (List.mem_map.2 ⟨raw[j], List.getElem_mem _, rfl⟩)
      have h6 := undo_err (R := R) .smallest c (raw[j]).1
      simp only [EigenSortRule.sign, neg_one_mul, neg_sub] at h6
      dsimp only at h5
      rw [le_div_iff₀ hu1]
      rcases le_total 0 (c - (raw[j]).1) with h7 | h7
      · rw [abs_sub_comm (raw[j]).1 c, abs_of_nonneg h7] at h6
        have := (abs_le.1 h6).1
        linarith
      · exact (mul_nonpos_of_nonpos_of_nonneg h7 hu1.le).trans hm
    have hr : ∀ j ∈ range k, residual2 g.n (matrixOf g.abs .normalisedLaplacian) (c - (raw.getD j (0, 0)).1) (w j)
        ≤ (√(residual2 g.n F (raw.getD j (0, 0)).1 (w j)) + η) ^ 2 := by
      intro j hj
      have hj := mem_range.1 hj
      have hu := hon j hj j hj
      rw [if_pos rfl] at hu
      have r1 := Recovery.residual_perturb hη0 h3 (raw.getD j (0, 0)).1 (w j) hu
      rw [residual_shifted _ _ _ (sign_sq .smallest)] at r1
      simpa only [EigenSortRule.sign, neg_one_mul, neg_sub] using r1
    have hsum : ∑ j ∈ range k, (√(residual2 g.n F (raw.getD j (0, 0)).1 (w j)) + η) ^ 2 ≤ (ρ + √k * η) ^ 2 := by
      have hmk := Recovery.minkowski (range k) (fun j => √(residual2 g.n F (raw.getD j (0, 0)).1 (w j))) (fun _ => η)
      have hres0 : ∀ j, 0 ≤ residual2 g.n F (raw.getD j (0, 0)).1 (w j) := fun j =>
        Finset.sum_nonneg fun _ _ => sq_nonneg _
      have e1 : ∑ j ∈ range k, √(residual2 g.n F (raw.getD j (0, 0)).1 (w j)) ^ 2
          = ∑ j ∈ range k, residual2 g.n F (raw.getD j (0, 0)).1 (w j) :=
        Finset.sum_congr rfl fun j _ => Real.sq_sqrt (hres0 j)
      have e2 : √(∑ _j ∈ range k, η ^ 2) = √k * η := by
        rw [Finset.sum_const, card_range, nsmul_eq_mul, Real.sqrt_mul (Nat.cast_nonneg _), Real.sqrt_sq hη0]
      rw [e1, e2] at hmk
      refine hmk.trans ?_
      have : √(∑ j ∈ range k, residual2 g.n F (raw.getD j (0, 0)).1 (w j)) ≤ ρ := Real.sqrt_le_iff.2 ⟨hρ, hresid⟩
      have h0 := Real.sqrt_nonneg (∑ j ∈ range k, residual2 g.n F (raw.getD j (0, 0)).1 (w j))
      gcongr
    refine ⟨by rw [List.length_map]; exact hlen, w, fun j => c - (raw.getD j (0, 0)).1, hon, ?_, fun j hj => ?_, ?_⟩
    · refine le_trans (le_of_eq (Finset.sum_congr rfl fun j hj => Finset.sum_congr rfl fun i _ => ?_)) hdist
      have hj := mem_range.1 hj
      rw [List.getD_eq_getElem _ _ (by simp; omega), List.getElem_map, List.getD_eq_getElem _ _ (by omega)]
    · exact (hμ j hj).trans_lt hml
    · have hdiv : ∀ j ∈ range k, residual2 g.n (matrixOf g.abs .normalisedLaplacian) (c - (raw.getD j (0, 0)).1) (w j) /
          (l - (c - (raw.getD j (0, 0)).1)) ^ 2
          ≤ (√(residual2 g.n F (raw.getD j (0, 0)).1 (w j)) + η) ^ 2 / (l - m / (1 - R.u)) ^ 2 := by
        intro j hj
        refine div_le_div₀ (sq_nonneg _) (hr j hj) (pow_pos hgapl 2) ?_
        have := hμ j (mem_range.1 hj)
        exact pow_le_pow_left₀ hgapl.le (by linarith) 2
      refine (Finset.sum_le_sum hdiv).trans ?_
      rw [← Finset.sum_div, div_pow]
      exact div_le_div_of_nonneg_right hsum (sq_nonneg _)

/-- **C102** (an exact inner solver).  With an inner solver that is exact for the matrix it is given, the returned vectors
are an approximate system for the exact normalised Laplacian with errors 0 and `√k η / (l - m/(1-u))`, `m` being a bound of
the returned values. -/
theorem C102_exact_solver (ho : R.Odd) (h : g.Reachable) (hw : ∀ u v, 0 ≤ g.abs.w u v) (hf : g.FloatWeights R.fl)
    (hd : ∀ v, v < g.n → 0 < g.abs.deg v) (k : Nat) (hk : 1 ≤ k ∧ k < g.n) (solve : EigenSolver) (hsolve : SolverSpec solve)
    (res : EigenPairs) (hres : computeEigensystemFl R.fl solve g .normalisedLaplacian k .smallest = .ok res)
    (m l : ℝ) (hm : 0 ≤ m) (hval : ∀ p ∈ res, p.1 ≤ m) (hml : m / (1 - R.u) < l) :
    ApproxSystem g.n (matrixOf g.abs .normalisedLaplacian) k res l 0
      (√k * (((1 / (1 - R.u)) ^ (g.n + 10) - 1) * 2) / (l - m / (1 - R.u))) := by
  obtain ⟨F, hF, hall⟩ := C102_system ho h hw hf hd k hk
  obtain ⟨raw, hraw, -, hsys⟩ := hall solve res hres
  have hex := hsolve g.n _ F k raw (fun _ _ _ _ => rfl) (fun i _ j _ => hF i j) hk.1 hk.2 hraw
  have := hsys (fun j => (raw.getD j (0, 0)).2) 0 0 m l hex.count le_rfl (Recovery.system_on hex) (by simp) (by
    rw [Finset.sum_eq_zero]
    · norm_num
    · intro j hj
      have hj' : j < raw.length := by rw [hex.count]; exact mem_range.1 hj
      rw [List.getD_eq_getElem _ _ hj']
      have he := hex.eigen _ (List.getElem_mem hj')
      exact Finset.sum_eq_zero fun i hi => by rw [he i (mem_range.1 hi), sub_self]; norm_num) hm hval hml
  rwa [zero_add] at this

end

namespace KMeans
open MeasureTheory Recovery
open scoped ENNReal

theorem cluster_congr {n : Nat} {A B : Nat → Nat} (h : ∀ u < n, A u = B u) (c : Nat) : cluster n A c = cluster n B c := by
  unfold cluster
  exact Finset.filter_congr fun u hu => by rw [h u (mem_range.1 hu)]

/-- k-means in doubles on an embedding that is near an orthonormal family near whose span the clusters lie. -/
theorem span_probability_fl {g : Graph ℝ} (E : EigenSum (dbl ℝ).fl) (solve : EigenSolver)
    (hn : g.n < 2 ^ 20) (k : Nat) (hk : 1 ≤ k ∧ 2 * k ≤ g.n) (junk : Nat → ℝ)
    (res : EigenPairs) (hres : computeEigensystemFl (dbl ℝ).fl solve g .normalisedLaplacian k .smallest = .ok res)
    (hlen : res.length = k) (δ : ℝ) (hδ : 0 ≤ δ) (w : Nat → Nat → ℝ) (hon : ON g.n k w)
    (hdist : ∑ j ∈ range k, ∑ u ∈ range g.n, (embedding (res.map Prod.snd) u j - w j u) ^ 2 ≤ δ ^ 2)
    (S : Nat → Nat) (hSk : ∀ u < g.n, S u < k) (hS : ∀ i < k, ∃ u < g.n, S u = i) (D : ℝ) (hD : 0 ≤ D)
    (hsum : ∑ i ∈ range k, resid g.n k w (unitOf (cluster g.n S i)) ≤ D ^ 2) (c : ℝ) (hc : 0 < c) :
    streamLaw word32.toMeasure {y | ¬ ∃ labels, spectralClusterFl E solve g k y junk = .ok labels ∧ labels.length = g.n ∧
      (∀ u < g.n, labels.getD u 0 < k) ∧
      (k : ℝ) - 2 * (D ^ 2 + (√(rounded g.n k (k * 100) (1 + δ) c) + δ) ^ 2)
        ≤ agreement g.n k S (fun u => labels.getD u 0)} ≤
    ENNReal.ofReal (8 * (Real.log k + 2) * (D + δ) ^ 2 / c + k * g.n / 2 ^ 28) := by
  obtain ⟨Mu', hMu'⟩ : ∃ Mu', cost (embedding (res.map Prod.snd)) g.n k Mu' S ≤
      (D + δ) ^ 2 := by
    obtain ⟨Mu, hMu⟩ : ∃ Mu, Mu = fun c j =>
      (∑ u ∈ cluster g.n S c, w j u) / ((cluster g.n S c).card : ℝ) := ⟨_, rfl⟩
    have hc := cost_means hon S hSk
    rw [← hMu] at hc
    refine ⟨Mu, le_trans (cost_perturb g.n k (embedding (res.map Prod.snd)) (fun u j => w j u) Mu S δ hδ hdist) ?_⟩
    have h1 : cost (fun u j => w j u) g.n k Mu S ≤ D ^ 2 := by
      rw [hc]
      refine le_trans (le_of_eq ?_) hsum
      unfold resid
      rw [Finset.sum_sub_distrib]
      congr 1
      have : ∀ i ∈ range k, dot g.n (unitOf (cluster g.n S i)) (unitOf (cluster g.n S i)) = 1 := by
        intro i hi
        have := unitOf_on S hS i (mem_range.1 hi) i (mem_range.1 hi)
        rwa [if_pos rfl] at this
      rw [Finset.sum_congr rfl this]
      simp
    have h2 : √(cost (fun u j => w j u) g.n k Mu S) ≤ D :=
      Real.sqrt_le_iff.2 ⟨hD, h1⟩
    have h3 := Real.sqrt_nonneg (cost (fun u j => w j u) g.n k Mu S)
    gcongr
  have hX : ∀ i < g.n, ∀ j < k, |embedding (res.map Prod.snd) i j| ≤ 1 + δ := by
    intro i hi j hj
    have h1 : (embedding (res.map Prod.snd) i j - w j i) ^ 2 ≤ δ ^ 2 := by
      refine le_trans ?_ hdist
      refine le_trans ?_ (Finset.single_le_sum (f := fun j => ∑ u ∈ range g.n, (embedding (res.map Prod.snd) u j - w j u) ^ 2)
        (fun _ _ => Finset.sum_nonneg fun _ _ => sq_nonneg _) (mem_range.2 hj))
      exact Finset.single_le_sum (f := fun u => (embedding (res.map Prod.snd) u j - w j u) ^ 2) (fun _ _ => sq_nonneg _)
        (mem_range.2 hi)
    have h2 : w j i ^ 2 ≤ 1 ^ 2 := by
      have hu := hon j hj j hj
      rw [if_pos rfl] at hu
      unfold dot at hu
      rw [one_pow, ← hu, pow_two]
      exact Finset.single_le_sum (f := fun i => w j i * w j i) (fun _ _ => mul_self_nonneg _) (mem_range.2 hi)
    have h3 := abs_le_of_sq_le_sq h1 hδ
    have h4 := abs_le_of_sq_le_sq h2 zero_le_one
    have h5 := abs_add_le (embedding (res.map Prod.snd) i j - w j i) (w j i)
    rw [sub_add_cancel] at h5
    linarith
  have hmark := C99_markov E (embedding (res.map Prod.snd)) g.n k k (by omega) (by omega) hn (by omega) (1 + δ) (by linarith) hX
    (k * 100) (by omega) (fun _ _ => 0) (fun _ => 0) junk Mu' S hSk c hc
  have hlog : 0 ≤ Real.log k := Real.log_natCast_nonneg k
  refine le_trans (measure_mono ?_) (hmark.trans (ENNReal.ofReal_le_ofReal ?_))
  · intro y hy
    rw [Set.mem_ofPred_eq] at hy ⊢
    rintro ⟨r, hr, hrk, hcost⟩
    apply hy
    have hlabel : ∀ u < g.n, ((List.range g.n).map r.2).getD u 0 = r.2 u := by
      intro u hu
      rw [List.getD_eq_getElem?_getD, List.getElem?_map, List.getElem?_range hu]
      rfl
    refine ⟨(List.range g.n).map r.2, ?_, by simp, fun u hu => by rw [hlabel u hu]; exact hrk u hu, ?_⟩
    · unfold spectralClusterFl
      rw [if_neg (by omega)]
      unfold computeEigenvectorsFl
      rw [hres]
      simp only [Outcome.bind, Int.toNat_natCast]
      rw [if_neg (by rw [List.length_map, hlen]; omega)]
      have hr' : runKMeansFl E (fun i j => (res.map Prod.snd).getD j (fun _ => 0) i) g.n k k ((k : Int) * 100)
          y (fun _ _ => 0) (fun _ => 0) junk = .ok r := by
        have : ((k : Int) * 100) = ((k * 100 : Nat) : Int) := by push_cast; rfl
        rw [this]
        exact hr
      rw [hr']
    · have h1 := agreement_ge hon S r.2 hrk hS r.1
      have h4 := cost_perturb g.n k (fun u j => w j u) (embedding (res.map Prod.snd)) r.1 r.2 δ hδ (by
        refine le_trans (le_of_eq (Finset.sum_congr rfl fun j _ => Finset.sum_congr rfl fun u _ => ?_)) hdist
        ring)
      have e : agreement g.n k S (fun u => ((List.range g.n).map r.2).getD u 0) = agreement g.n k S r.2 := by
        unfold agreement
        simp_rw [cluster_congr hlabel]
      rw [e]
      have h2 : √(cost (embedding (res.map Prod.snd)) g.n k r.1 r.2) ≤ √(rounded g.n k (k * 100) (1 + δ) c) :=
        Real.sqrt_le_sqrt hcost
      have h3 : (√(cost (embedding (res.map Prod.snd)) g.n k r.1 r.2) + δ) ^ 2
          ≤ (√(rounded g.n k (k * 100) (1 + δ) c) + δ) ^ 2 := by
        have := Real.sqrt_nonneg (cost (embedding (res.map Prod.snd)) g.n k r.1 r.2)
        gcongr
      linarith
  · gcongr

/-- **C102** (clustering in doubles).  Let the 32-bit integers that k-means draws be independent and uniform, and let
everything be computed in `double`s.  Let the vectors returned by `compute_eigenvectors` be an approximate system for the
exact normalised Laplacian with errors `δ` and `ε`.  For any `c > 0`, except with probability
`8 (ln k + 2) (√defect + ε + δ)² / c + k n / 2^28`, `spectral_cluster` returns labels below `k` that agree with the clusters
`S` up to `2 ((√defect + ε)² + (√c' + δ)²)`, `c'` being `c` with the rounding errors of `100 k` iterations of k-means. -/
theorem C102_probability {g : Graph ℝ} (E : EigenSum (dbl ℝ).fl) (solve solve₀ : EigenSolver) (hsolve₀ : SolverSpec solve₀)
    (h : g.Reachable) (hw : ∀ u v, 0 ≤ g.abs.w u v) (hloop : ∀ v, g.abs.w v v = 0) (hd : ∀ v, v < g.n → 0 < g.abs.deg v)
    (hn : g.n < 2 ^ 20) (k : Nat) (hk : 1 ≤ k ∧ 2 * k ≤ g.n) (junk : Nat → ℝ)
    (res₀ : EigenPairs) (hres₀ : computeEigensystem solve₀ g .normalisedLaplacian k .smallest = .ok res₀) (l : ℝ)
    (hl : 0 < l)
    (hgap : ∀ m v, IsEigen g.n (matrixOf g.abs .normalisedLaplacian) m v → (∃ i < g.n, v i ≠ 0) →
      (∀ p ∈ res₀, dot g.n p.2 v = 0) → l ≤ m)
    (res : EigenPairs) (hres : computeEigensystemFl (dbl ℝ).fl solve g .normalisedLaplacian k .smallest = .ok res)
    (δ ε : ℝ) (hδ : 0 ≤ δ) (hε : 0 ≤ ε)
    (happ : ApproxSystem g.n (matrixOf g.abs .normalisedLaplacian) k res l δ ε)
    (S : Nat → Nat) (hSk : ∀ u < g.n, S u < k) (hS : ∀ i < k, ∃ u < g.n, S u = i) (c : ℝ) (hc : 0 < c) :
    streamLaw word32.toMeasure {y | ¬ ∃ labels, spectralClusterFl E solve g k y junk = .ok labels ∧ labels.length = g.n ∧
      (∀ u < g.n, labels.getD u 0 < k) ∧
      (k : ℝ) - 2 * ((√(g.abs.clusterDefect l k S) + ε) ^ 2 + (√(rounded g.n k (k * 100) (1 + δ) c) + δ) ^ 2)
        ≤ agreement g.n k S (fun u => labels.getD u 0)} ≤
    ENNReal.ofReal (8 * (Real.log k + 2) * (√(g.abs.clusterDefect l k S) + ε + δ) ^ 2 / c + k * g.n / 2 ^ 28) := by
  obtain ⟨w, hon, hdist, hsum⟩ := approx_span solve₀ hsolve₀ h hw hloop hd k res₀ hres₀ l hl hgap res δ ε hε happ S hS
  exact span_probability_fl E solve hn k hk junk res hres happ.1 δ hδ w hon hdist S hSk hS _
    (add_nonneg (Real.sqrt_nonneg _) hε) hsum c hc

/-- **C102** (exact recovery in doubles).  If that bound is below `1 / (2 n)`, then, except with the same probability, the
labels are the clusters: two vertices have the same label exactly when they are in the same cluster. -/
theorem C102_recovery {g : Graph ℝ} (E : EigenSum (dbl ℝ).fl) (solve solve₀ : EigenSolver) (hsolve₀ : SolverSpec solve₀)
    (h : g.Reachable) (hw : ∀ u v, 0 ≤ g.abs.w u v) (hloop : ∀ v, g.abs.w v v = 0) (hd : ∀ v, v < g.n → 0 < g.abs.deg v)
    (hn : g.n < 2 ^ 20) (k : Nat) (hk : 1 ≤ k ∧ 2 * k ≤ g.n) (junk : Nat → ℝ)
    (res₀ : EigenPairs) (hres₀ : computeEigensystem solve₀ g .normalisedLaplacian k .smallest = .ok res₀) (l : ℝ)
    (hl : 0 < l)
    (hgap : ∀ m v, IsEigen g.n (matrixOf g.abs .normalisedLaplacian) m v → (∃ i < g.n, v i ≠ 0) →
      (∀ p ∈ res₀, dot g.n p.2 v = 0) → l ≤ m)
    (res : EigenPairs) (hres : computeEigensystemFl (dbl ℝ).fl solve g .normalisedLaplacian k .smallest = .ok res)
    (δ ε : ℝ) (hδ : 0 ≤ δ) (hε : 0 ≤ ε)
    (happ : ApproxSystem g.n (matrixOf g.abs .normalisedLaplacian) k res l δ ε)
    (S : Nat → Nat) (hSk : ∀ u < g.n, S u < k) (hS : ∀ i < k, ∃ u < g.n, S u = i) (c : ℝ) (hc : 0 < c)
    (hsmall : 4 * g.n * ((√(g.abs.clusterDefect l k S) + ε) ^ 2 + (√(rounded g.n k (k * 100) (1 + δ) c) + δ) ^ 2) < 1) :
    streamLaw word32.toMeasure {y | ¬ ∃ labels, spectralClusterFl E solve g k y junk = .ok labels ∧ labels.length = g.n ∧
      ∀ u < g.n, ∀ v < g.n, labels.getD u 0 = labels.getD v 0 ↔ S u = S v} ≤
    ENNReal.ofReal (8 * (Real.log k + 2) * (√(g.abs.clusterDefect l k S) + ε + δ) ^ 2 / c + k * g.n / 2 ^ 28) := by
  refine le_trans (measure_mono ?_) (C102_probability E solve solve₀ hsolve₀ h hw hloop hd hn k hk junk res₀ hres₀ l hl hgap res
    hres δ ε hδ hε happ S hSk hS c hc)
  intro y hy
  rw [Set.mem_ofPred_eq] at hy ⊢
  rintro ⟨labels, h1, h2, h3, h4⟩
  refine hy ⟨labels, h1, h2, ?_⟩
  obtain ⟨d, hdd⟩ : ∃ d, d = (√(g.abs.clusterDefect l k S) + ε) ^ 2 + (√(rounded g.n k (k * 100) (1 + δ) c) + δ) ^ 2 := ⟨_, rfl⟩
  rw [← hdd] at hsmall h4
  have hn2 : (2 : ℝ) ≤ g.n := by exact_mod_cast (show 2 ≤ g.n by omega)
  have hd0 : 0 ≤ d := by rw [hdd]; exact add_nonneg (sq_nonneg _) (sq_nonneg _)
  refine agreement_exact S (fun u => labels.getD u 0) hSk h3 hS (2 * d) (by linarith) (by nlinarith) h4

/-- An eigenvector of the normalised Laplacian that is orthogonal to `k` orthonormal vectors of the kernel, `k` being the number
of components, is not in the kernel. -/
theorem kernel_full {g : Graph ℝ} (h : g.Reachable) (hw : ∀ u v, 0 ≤ g.abs.w u v) (hloop : ∀ v, g.abs.w v v = 0)
    (hd : ∀ v, v < g.n → 0 < g.abs.deg v) {comp : Nat → Nat} {k : Nat} (hc : Components g.abs comp k) {res : EigenPairs}
    (hex : EigenExtreme (· ≤ ·) g.n (matrixOf g.abs .normalisedLaplacian) k res) (hzero : ∀ p ∈ res, p.1 = 0) (v : Nat → ℝ)
    (hne : ∃ i < g.n, v i ≠ 0) (ho : ∀ p ∈ res, dot g.n p.2 v = 0) :
    ¬ IsEigen g.n (matrixOf g.abs .normalisedLaplacian) 0 v := by
  intro hv
  obtain ⟨dmax, -, -, hdm, -⟩ := maxDegree_spec h
  have hnn : ∀ l v, IsEigen g.n (matrixOf g.abs .normalisedLaplacian) l v → (∃ i < g.n, v i ≠ 0) → 0 ≤ l :=
    fun l v hv hne => ((C53_ranges h hw dmax hdm l v hne).2.2 hd hv).1
  have hpos : 0 < dot g.n v v := by
    obtain ⟨i, hi, hvi⟩ := hne
    exact Finset.sum_pos' (fun i _ => mul_self_nonneg _) ⟨i, mem_range.2 hi, mul_self_pos.2 hvi⟩
  obtain ⟨t, ht⟩ : ∃ t, t = (√(dot g.n v v))⁻¹ := ⟨_, rfl⟩
  have htt : t * t * dot g.n v v = 1 := by
    rw [ht, ← mul_inv, Real.mul_self_sqrt hpos.le, inv_mul_cancel₀ hpos.ne']
  have hex' : EigenExtreme (· ≤ ·) g.n (matrixOf g.abs .normalisedLaplacian) (k + 1)
      (res ++ [((0 : ℝ), fun i => t * v i)]) := by
    refine ⟨by simp [hex.count], ?_, ?_, ?_, ?_, ?_⟩
    · intro p hp
      rcases List.mem_append.1 hp with hp | hp
      · exact hex.eigen p hp
      · rw [List.mem_singleton] at hp
        subst hp
        intro i hi
        have := hv i hi
        simp only [zero_mul] at this ⊢
        rw [show ∑ j ∈ range g.n, matrixOf g.abs .normalisedLaplacian i j * (t * v j)
          = t * ∑ j ∈ range g.n, matrixOf g.abs .normalisedLaplacian i j * v j by
            rw [Finset.mul_sum]; exact Finset.sum_congr rfl fun _ _ => by ring, this, mul_zero]
    · intro p hp
      rcases List.mem_append.1 hp with hp | hp
      · exact hex.unit p hp
      · rw [List.mem_singleton] at hp
        subst hp
        rw [← htt]
        unfold dot
        rw [Finset.mul_sum]
        exact Finset.sum_congr rfl fun _ _ => by ring
    · rw [List.pairwise_append]
      refine ⟨hex.ortho, List.pairwise_singleton _ _, fun p hp q hq => ?_⟩
      rw [List.mem_singleton] at hq
      subst hq
      have := ho p hp
      unfold dot at this ⊢
      rw [show ∑ i ∈ range g.n, p.2 i * (t * v i) = t * ∑ i ∈ range g.n, p.2 i * v i by
        rw [Finset.mul_sum]; exact Finset.sum_congr rfl fun _ _ => by ring, this, mul_zero]
    · rw [List.pairwise_append]
      refine ⟨hex.order, List.pairwise_singleton _ _, fun p hp q hq => ?_⟩
      rw [List.mem_singleton] at hq
      subst hq
      exact (hzero p hp).le
    · intro l w hw' hwne _ p hp
      have hl := hnn l w hw' hwne
      rcases List.mem_append.1 hp with hp | hp
      · rw [hzero p hp]; exact hl
      · rw [List.mem_singleton] at hp
        subst hp
        exact hl
  have hm := multiplicity (matrixOf_symm h .normalisedLaplacian) (fun i hi => (Real.sqrt_pos.2 (hd i hi)).ne') hc.lt hc.onto
    (kernel_normalised h hw hloop hd hc) hnn hex' k (by simp [hex.count])
  have hlast : (res ++ [((0 : ℝ), fun i => t * v i)])[k]'(by simp [hex.count]) = ((0 : ℝ), fun i => t * v i) := by
    rw [List.getElem_append_right (by rw [hex.count])]
    simp
  rw [hlast] at hm
  exact lt_irrefl k (hm.1 rfl)

theorem components_arith (n k l η m u ε : ℝ) (hn0 : 0 ≤ n) (hn : n ≤ 65535) (hk1 : 1 ≤ k) (hk : k ≤ 16) (hl : 1 / 4096 ≤ l)
    (hu : u = 1 / 2 ^ 53) (hη0 : 0 ≤ η) (hη : η ≤ (n + 10) / 2 ^ 52 * 2) (hm : m = 4 * η + u * (4 * η))
    (hε : ε = √k * η / (l - m / (1 - u))) : m / (1 - u) < l ∧ 0 ≤ ε ∧ ε ≤ 1 / 2 ^ 19 := by
  have h0 : η ≤ 1 / 2 ^ 34 := by
    refine hη.trans ?_
    linarith
  have h1 : m / (1 - u) ≤ 1 / 2 ^ 30 := by
    rw [div_le_iff₀ (by rw [hu]; norm_num), hm, hu]
    linarith
  have h2 : 1 / 4096 - 1 / 2 ^ 30 ≤ l - m / (1 - u) := by linarith
  have h3 : √k ≤ 4 := by
    rw [show (4 : ℝ) = √16 by rw [show (16 : ℝ) = 4 ^ 2 by norm_num]; exact (Real.sqrt_sq (by norm_num)).symm]
    exact Real.sqrt_le_sqrt hk
  have h4 : 0 < l - m / (1 - u) := lt_of_lt_of_le (by norm_num) h2
  refine ⟨by linarith, by rw [hε]; positivity, ?_⟩
  rw [hε, div_le_iff₀ h4]
  have h5 : √k * η ≤ 4 * (1 / 2 ^ 34) := mul_le_mul h3 h0 hη0 (by norm_num)
  refine h5.trans ?_
  linarith

theorem pow_bound {x : ℝ} (h0 : 0 ≤ x) (h1 : x ≤ 1) (N : Nat) : (1 + x) ^ N * (1 - N * x) ≤ 1 := by
  have hb := one_add_mul_le_pow (a := -x) (by linarith) N
  have hp : (1 + x) ^ N * (1 + -x) ^ N ≤ 1 := by
    rw [← mul_pow]
    exact pow_le_one₀ (mul_nonneg (by linarith) (by linarith)) (by nlinarith)
  exact (mul_le_mul_of_nonneg_left (by linarith) (by positivity)).trans hp

theorem rounded_small (n k : Nat) (hn : n < 2 ^ 16) (hk : k ≤ 16) :
    rounded n k (k * 100) (1 + 0) (1 / 2 ^ 19) ≤ 1 / 2 ^ 18 - 1 / 2 ^ 30 := by
  unfold rounded
  rw [if_pos hk, if_pos hk, zero_add, add_zero, mul_one]
  have hn' : (n : ℝ) ≤ 65535 := by exact_mod_cast (show n ≤ 65535 by omega)
  have hk' : (k : ℝ) ≤ 16 := by exact_mod_cast hk
  have hn0 : (0 : ℝ) ≤ n := Nat.cast_nonneg _
  have hk0 : (0 : ℝ) ≤ k := Nat.cast_nonneg _
  have h1 : (1 + 1 / 2 ^ 46 : ℝ) ^ (k * 100) ≤ 1 + 1 / 2 ^ 34 := by
    have h0 := pow_bound (x := 1 / 2 ^ 46) (by norm_num) (by norm_num) (k * 100)
    obtain ⟨P, hP⟩ : ∃ P, P = (1 + 1 / 2 ^ 46 : ℝ) ^ (k * 100) := ⟨_, rfl⟩
    have hpos : 0 ≤ P := by rw [hP]; positivity
    rw [← hP] at h0 ⊢
    have h3 : P * (1 - 1 / 2 ^ 35) ≤ 1 := by
      refine (mul_le_mul_of_nonneg_left ?_ hpos).trans h0
      push_cast
      linarith
    linarith
  have h2 : (k : ℝ) * ((n + 1) * (1 / 2 ^ 52)) ^ 2 ≤ 16 * (1 / 2 ^ 72) := by
    refine mul_le_mul hk' ?_ (sq_nonneg _) (by norm_num)
    refine le_trans (pow_le_pow_left₀ (by positivity) (show (n + 1 : ℝ) * (1 / 2 ^ 52) ≤ 1 / 2 ^ 36 by linarith) 2) (by norm_num)
  have h3 : (n : ℝ) * ((k : ℝ) * ((n + 1) * (1 / 2 ^ 52)) ^ 2) ≤ 65536 * (16 * (1 / 2 ^ 72)) :=
    mul_le_mul (by linarith) h2 (by positivity) (by norm_num)
  have h4 : ((k * 100 : Nat) : ℝ) * ((n : ℝ) * ((k : ℝ) * ((n + 1) * (1 / 2 ^ 52)) ^ 2)) ≤ 1600 * (65536 * (16 * (1 / 2 ^ 72))) :=
    mul_le_mul (by push_cast; linarith) h3 (by positivity) (by norm_num)
  refine le_trans (mul_le_mul h1 (add_le_add le_rfl h4) (by positivity) (by norm_num)) ?_
  norm_num

/-- **C102** (the components, end to end).  Let a graph with less than `2^16` vertices, weights that are `double`s and no
self-loop have `k ≤ 16` connected components, all vertices of a component having the same positive degree, and let the nonzero
eigenvalues of its normalised Laplacian be at least `1/4096`.  Let everything be computed in `double`s, the inner solver being
exact for the matrix it is given.  If the 32-bit integers that k-means draws are independent and uniform, then, except with
probability `k n / 2^28 + 2^-13`, two vertices have the same label exactly when they are connected. -/
theorem C102_components {g : Graph ℝ} (E : EigenSum (dbl ℝ).fl) (solve : EigenSolver) (hsolve : SolverSpec solve)
    (h : g.Reachable) (hw : ∀ u v, 0 ≤ g.abs.w u v) (hloop : ∀ v, g.abs.w v v = 0) (hd : ∀ v, v < g.n → 0 < g.abs.deg v)
    (hf : g.FloatWeights (dbl ℝ).fl) (hn : g.n < 2 ^ 16) (k : Nat) (hk : 1 ≤ k ∧ 2 * k ≤ g.n) (hk16 : k ≤ 16) (junk : Nat → ℝ)
    (comp : Nat → Nat) (hc : Components g.abs comp k)
    (hreg : ∀ u < g.n, ∀ v < g.n, comp u = comp v → g.abs.deg u = g.abs.deg v)
    (hgap : ∀ m v, IsEigen g.n (matrixOf g.abs .normalisedLaplacian) m v → (∃ i < g.n, v i ≠ 0) → m ≠ 0 → 1 / 4096 ≤ m)
    (res : EigenPairs) (hres : computeEigensystemFl (dbl ℝ).fl solve g .normalisedLaplacian k .smallest = .ok res) :
    streamLaw word32.toMeasure {y | ¬ ∃ labels, spectralClusterFl E solve g k y junk = .ok labels ∧ labels.length = g.n ∧
      ∀ u < g.n, ∀ v < g.n, labels.getD u 0 = labels.getD v 0 ↔ g.abs.Connected u v} ≤
    ENNReal.ofReal (k * g.n / 2 ^ 28 + 1 / 2 ^ 13) := by
  obtain ⟨solve₀, hs₀, hall⟩ := C53_always_answers
  obtain ⟨res₀, hres₀⟩ := hall g .normalisedLaplacian k .smallest h (by omega) (by omega) (fun _ => hd)
  have hex := C53_eigensystem solve₀ hs₀ h hw _ k .smallest (fun _ => hd) res₀ hres₀
  rw [Int.toNat_natCast] at hex
  change EigenExtreme (· ≤ ·) g.n (matrixOf g.abs .normalisedLaplacian) k res₀ at hex
  have hlen := hex.count
  have hzero : ∀ p ∈ res₀, p.1 = 0 := by
    intro p hp
    obtain ⟨j, hj, rfl⟩ := List.getElem_of_mem hp
    exact (C62_zero_multiplicity solve₀ hs₀ h hw hloop _ (.inr rfl) k (fun _ => hd) hc res₀ hres₀ j hj).1.2 (by omega)
  have hgap' : ∀ m v, IsEigen g.n (matrixOf g.abs .normalisedLaplacian) m v → (∃ i < g.n, v i ≠ 0) →
      (∀ p ∈ res₀, dot g.n p.2 v = 0) → (1 / 4096 : ℝ) ≤ m := by
    intro m v hv hne ho
    refine hgap m v hv hne fun e => ?_
    subst e
    exact kernel_full h hw hloop hd hc hex hzero v hne ho hv
  -- the size of the errors
  obtain ⟨D, -, -, hD, -⟩ := maxDegree_spec h
  have hD0 : 0 ≤ D := (WGraph.degree_nonneg hw 0).trans (hD 0 (by omega))
  obtain ⟨η, hη⟩ : ∃ η, η = ((1 / (1 - (dbl ℝ).u)) ^ (g.n + 10) - 1) * (2 : ℝ) := ⟨_, rfl⟩
  have hη0 : 0 ≤ η := by
    rw [hη]
    exact mul_nonneg (sub_nonneg.2 (Rounding.g_pow_one_le (R := dbl ℝ) _)) (by norm_num)
  have hη1 : η ≤ (g.n + 10) / 2 ^ 52 * 2 := by
    have := C102_double g.n (by omega) .normalisedLaplacian D hD0
    rw [if_pos rfl, ← hη] at this
    exact this
  obtain ⟨h1, h2, -⟩ := C102_eigenvalues (R := dbl ℝ) (fun x => flBin_neg 53 x) h hw hf .normalisedLaplacian k .smallest
    (by omega) (fun _ => hd) D hD solve hsolve res hres res₀ (by rw [Int.toNat_natCast]; exact hex) η (by rw [if_pos rfl]; exact hη)
  rw [Int.toNat_natCast] at h1 h2
  obtain ⟨m, hm⟩ : ∃ m, m = 4 * η + (dbl ℝ).u * (4 * η) := ⟨_, rfl⟩
  obtain ⟨ε, hε⟩ : ∃ ε, ε = √(k : ℝ) * η / (1 / 4096 - m / (1 - (dbl ℝ).u)) := ⟨_, rfl⟩
  obtain ⟨a1, a2, a3⟩ := components_arith g.n k (1 / 4096) η m (dbl ℝ).u ε (Nat.cast_nonneg _)
    (by exact_mod_cast (show g.n ≤ 65535 by omega)) (by exact_mod_cast hk.1) (by exact_mod_cast hk16) le_rfl dbl_u hη0 hη1 hm hε
  have hval : ∀ p ∈ res, p.1 ≤ m := by
    intro p hp
    obtain ⟨j, hj, rfl⟩ := List.getElem_of_mem hp
    have := h2 j (by omega)
    rw [List.getD_eq_getElem _ _ hj, List.getD_eq_getElem _ _ (by omega), hzero _ (List.getElem_mem _), sub_zero, abs_zero,
      zero_add, ← hm] at this
    exact (le_abs_self _).trans this
  have hu1 : 0 ≤ (dbl ℝ).u := by rw [dbl_u]; norm_num
  have happ := C102_exact_solver (R := dbl ℝ) (fun x => flBin_neg 53 x) h hw hf hd k (by omega) solve hsolve res hres m (1 / 4096)
    (by rw [hm]; positivity) hval a1
  rw [← hη, ← hε] at happ
  have hdef : g.abs.clusterDefect (1 / 4096) k comp = 0 := by
    rw [(C84_regular hw hd).2 k comp _ (by norm_num) hc.onto hreg, Finset.sum_eq_zero, zero_div]
    intro i _
    rw [show g.abs.cut (cluster g.n comp i) = 0 from ?_, zero_div]
    refine Finset.sum_eq_zero fun u hu => Finset.sum_eq_zero fun v hv => ?_
    obtain ⟨hu1, hu2⟩ := mem_filter.1 hu
    obtain ⟨hv1, hv2⟩ := mem_sdiff.1 hv
    by_contra hne
    exact hv2 (mem_filter.2 ⟨hv1, (comp_edge hc (mem_range.1 hu1) (mem_range.1 hv1) hne).symm.trans hu2⟩)
  have hlog : Real.log k ≤ 3 := by
    have h1 : Real.log k ≤ Real.log (2 ^ 4) := Real.log_le_log (by exact_mod_cast hk.1) (by
      have : (k : ℝ) ≤ 16 := by exact_mod_cast hk16
      linarith)
    rw [Real.log_pow] at h1
    have := Real.log_two_lt_d9
    push_cast at h1
    linarith
  have hrec := C102_recovery E solve solve₀ hs₀ h hw hloop hd (by omega) k hk junk res₀ hres₀ (1 / 4096) (by norm_num) hgap' res hres
    0 ε le_rfl a2 happ comp hc.lt hc.onto (1 / 2 ^ 19) (by norm_num) (by
      rw [hdef, Real.sqrt_zero, zero_add, add_zero]
      have hr0 : 0 ≤ rounded g.n k (k * 100) (1 + 0) (1 / 2 ^ 19) := by unfold rounded; split_ifs <;> positivity
      rw [Real.sq_sqrt hr0]
      have h5 := rounded_small g.n k hn hk16
      have h6 : ε ^ 2 ≤ 1 / 2 ^ 38 := (pow_le_pow_left₀ a2 a3 2).trans (by norm_num)
      have h7 : (g.n : ℝ) ≤ 65535 := by exact_mod_cast (show g.n ≤ 65535 by omega)
      have h8 : (0 : ℝ) ≤ g.n := Nat.cast_nonneg _
      nlinarith)
  refine le_trans (measure_mono ?_) (hrec.trans (ENNReal.ofReal_le_ofReal ?_))
  · intro y hy
    rw [Set.mem_ofPred_eq] at hy ⊢
    rintro ⟨labels, b1, b2, b3⟩
    exact hy ⟨labels, b1, b2, fun u hu v hv => (b3 u hu v hv).trans (hc.same u hu v hv)⟩
  · rw [hdef, Real.sqrt_zero, zero_add, add_zero]
    have h6 : ε ^ 2 ≤ 1 / 2 ^ 38 := (pow_le_pow_left₀ a2 a3 2).trans (by norm_num)
    have h9 : 0 ≤ Real.log k := Real.log_nonneg (by exact_mod_cast hk.1)
    have h10 : 8 * (Real.log k + 2) * ε ^ 2 / (1 / 2 ^ 19) ≤ 1 / 2 ^ 13 := by
      rw [div_le_iff₀ (by norm_num)]
      have : 8 * (Real.log k + 2) * ε ^ 2 ≤ 40 * (1 / 2 ^ 38) :=
        mul_le_mul (by linarith) h6 (sq_nonneg _) (by norm_num)
      refine this.trans ?_
      norm_num
    linarith

/-- **C102** (a case).  The hypotheses of `C102_components` are met by two disjoint edges and every inner solver that meets its
contract and answers: `spectral_cluster(graph, 2)` in `double`s returns the two edges, except with probability `2^-12`. -/
theorem C102_edges : ∃ g : Graph ℝ, g.Reachable ∧ g.abs = unitGraph ℝ 4 (fun i j => i + 2 = j ∨ j + 2 = i) ∧
    (∃ solve res, SolverSpec solve ∧ computeEigensystemFl (dbl ℝ).fl solve g .normalisedLaplacian 2 .smallest = .ok res) ∧
    ∀ (E : EigenSum (dbl ℝ).fl) (solve : EigenSolver) (junk : Nat → ℝ) (res : EigenPairs), SolverSpec solve →
      computeEigensystemFl (dbl ℝ).fl solve g .normalisedLaplacian 2 .smallest = .ok res →
      streamLaw word32.toMeasure {y | ¬ ∃ labels, spectralClusterFl E solve g 2 y junk = .ok labels ∧ labels.length = 4 ∧
        ∀ u < 4, ∀ v < 4, labels.getD u 0 = labels.getD v 0 ↔ u % 2 = v % 2} ≤ ENNReal.ofReal (1 / 2 ^ 12) := by
  obtain ⟨g, hr, ha⟩ := exists_unit_graph 4 (fun i j => i + 2 = j ∨ j + 2 = i) (by omega)
  have hn : g.n = 4 := congrArg WGraph.n ha
  have hwv : ∀ i j, g.abs.w i j = if i < 4 ∧ j < 4 ∧ (i + 2 = j ∨ j + 2 = i) then 1 else 0 := by
    intro i j
    rw [ha]; rfl
  have hw : ∀ u v, 0 ≤ g.abs.w u v := by
    intro u v
    rw [hwv]; split_ifs <;> norm_num
  have hloop : ∀ v, g.abs.w v v = 0 := by
    intro v
    rw [hwv, if_neg (by omega)]
  have hdeg : ∀ v, v < 4 → g.abs.deg v = 1 := by
    intro v hv
    rw [ha]
    simp only [WGraph.deg, unitGraph, Finset.sum_range_succ, Finset.sum_range_zero]
    interval_cases v <;> norm_num
  have hd : ∀ v, v < g.n → 0 < g.abs.deg v := by
    intro v hv
    rw [hdeg v (by omega)]; norm_num
  have h1fl : (dbl ℝ).fl 1 = 1 := by
    have := flBin_nat_le (K := ℝ) (m := 1) (by norm_num)
    exact_mod_cast this
  have hf : g.FloatWeights (dbl ℝ).fl := by
    intro u v
    rw [hwv]
    split_ifs
    · exact ⟨h1fl, by change flBin 53 (-1 : ℝ) = -1; rw [flBin_neg]; exact congrArg _ h1fl⟩
    · exact ⟨Rounding.fl_zero, by rw [neg_zero]; exact Rounding.fl_zero⟩
  have hadj : ∀ u v, u < 4 → v < 4 → (u + 2 = v ∨ v + 2 = u) → g.abs.Connected u v := by
    intro u v hu hv huv
    refine .step .refl ⟨by rw [show g.abs.n = 4 from hn]; exact hu, by rw [show g.abs.n = 4 from hn]; exact hv, ?_⟩
    rw [hwv, if_pos ⟨hu, hv, huv⟩]
    norm_num
  have hc : Components g.abs (fun v => v % 2) 2 := by
    refine ⟨fun v _ => Nat.mod_lt _ (by norm_num), fun u hu v hv => ⟨fun e => ?_, fun e => ?_⟩, fun c hc => ⟨c, ?_, by simp; omega⟩⟩
    · have hu : u < 4 := by rw [← hn]; exact hu
      have hv : v < 4 := by rw [← hn]; exact hv
      replace e : u % 2 = v % 2 := e
      rcases eq_or_ne u v with rfl | hne
      · exact .refl
      · exact hadj u v hu hv (by omega)
    · have := const_on_components (f := fun v => ((v % 2 : Nat) : ℝ)) (fun u v hu hv hne => by
        rw [hwv] at hne
        have : u + 2 = v ∨ v + 2 = u := by
          by_contra hno
          exact hne (if_neg (by tauto))
        have : u % 2 = v % 2 := by omega
        simp only [this]) e
      exact (Nat.cast_injective this).symm
    · change c < g.n
      omega
  have hrow : ∀ v : Nat → ℝ, ∀ i < 4, ∑ j ∈ range g.n, matrixOf g.abs .normalisedLaplacian i j * v j = v i - v ((i + 2) % 4) := by
    intro v i hi
    rw [hn, Finset.sum_congr rfl (fun j hj => by
      rw [show matrixOf g.abs .normalisedLaplacian i j = (if i = j then 1 else 0) - g.abs.w i j by
        simp only [matrixOf]
        rw [hdeg i hi, hdeg j (mem_range.1 hj), Real.sqrt_one, mul_one, div_one], hwv])]
    interval_cases i <;> simp [Finset.sum_range_succ] <;> ring
  have hgap : ∀ m v, IsEigen g.n (matrixOf g.abs .normalisedLaplacian) m v → (∃ i < g.n, v i ≠ 0) → m ≠ 0 → 1 / 4096 ≤ m := by
    rintro m v hv ⟨i, hi, hvi⟩ hm
    rw [hn] at hi
    have e1 := hv i (by omega)
    have e2 := hv ((i + 2) % 4) (by omega)
    rw [hrow v _ (by omega)] at e1 e2
    rw [show ((i + 2) % 4 + 2) % 4 = i by omega] at e2
    have e3 : m * (m - 2) * v i = 0 := by linear_combination (1 - m) * e1 + e2
    have e4 : m - 2 = 0 := by
      rcases mul_eq_zero.1 e3 with e | e
      · exact (mul_eq_zero.1 e).resolve_left hm
      · exact absurd e hvi
    linarith
  refine ⟨g, hr, ha, ?_, fun E solve junk res hs hres => ?_⟩
  · obtain ⟨⟨solve, hs, hall⟩, -⟩ := C53_contract_satisfiable
    obtain ⟨F, c, val, hF, -, -, heq⟩ := C102_matrix (R := dbl ℝ) (fun x => flBin_neg 53 x) hr hw hf .normalisedLaplacian 2 .smallest
      (by rw [hn]; norm_num) (fun _ => hd) 1 (fun v hv => (hdeg v (by omega)).le)
    have := hall g.n (fun i j => .fin (F i j)) F 2 (fun _ _ _ _ => rfl) (fun i _ j _ => hF i j) (by omega)
    obtain ⟨raw, hraw⟩ := Option.isSome_iff_exists.1 this
    refine ⟨solve, raw.map (fun p => (val p.1, p.2)), hs, ?_⟩
    rw [heq]
    rw [show (2 : Int).toNat = 2 from rfl, hraw]
  · have := C102_components E solve hs hr hw hloop hd hf (by rw [hn]; norm_num) 2 (by omega) (by norm_num) junk _ hc
      (fun u hu v hv _ => by rw [hdeg u (by omega), hdeg v (by omega)]) hgap res hres
    refine le_trans (measure_mono ?_) (this.trans (ENNReal.ofReal_le_ofReal ?_))
    · intro y hy
      rw [Set.mem_ofPred_eq] at hy ⊢
      rintro ⟨labels, b1, b2, b3⟩
      rw [hn] at b2 b3
      refine hy ⟨labels, b1, b2, fun u hu v hv => (b3 u hu v hv).trans (hc.same u ?_ v ?_).symm⟩
      · change u < g.n; omega
      · change v < g.n; omega
    · rw [hn]; norm_num

end KMeans

end Stag
