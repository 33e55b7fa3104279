import Verif.Props.Inexact
import Verif.Props.SpectralRecoveryExamples

/-!
# C96: solvers that are not exact
-/

namespace Stag

open Finset Recovery

/-- A solver whose values are off by `η` and whose vectors are too long by a factor `1 + θ`. -/
noncomputable def offSolver (η θ : ℝ) (solve : EigenSolver) : EigenSolver := fun n S num =>
  (solve n S num).map (fun raw => raw.map (fun p => (p.1 - η, fun i => (1 + θ) * p.2 i)))

theorem offSolver_spec (η θ : ℝ) (solve : EigenSolver) (g : Graph ℝ) (k : Int) (res : EigenPairs)
    (hres : computeEigensystem solve g .normalisedLaplacian k .smallest = .ok res) :
    computeEigensystem (offSolver η θ solve) g .normalisedLaplacian k .smallest
      = .ok (res.map (fun p => (p.1 + η, fun i => (1 + θ) * p.2 i))) := by
  unfold computeEigensystem at hres ⊢
  by_cases hk : k < 1 ∨ (g.n : Int) ≤ k
  · rw [if_pos hk] at hres; cases hres
  rw [if_neg hk] at hres ⊢
  cases hm : maxDegree g with
  | ub => rw [hm] at hres; cases hres
  | throw e => rw [hm] at hres; cases hres
  | ok d =>
    rw [hm] at hres
    simp only [Outcome.bind] at hres ⊢
    unfold eigensystemLargestmag at hres ⊢
    by_cases hc : k < 1 ∨ ((shiftDiag g.n ((g.normLaplacian Real.sqrt).mapVal XReal.neg) 2).rows : Int) ≤ k
    · rw [if_pos hc] at hres; cases hres
    rw [if_neg hc] at hres ⊢
    unfold offSolver
    cases hs : solve (shiftDiag g.n ((g.normLaplacian Real.sqrt).mapVal XReal.neg) 2).rows
        (symUpper (shiftDiag g.n ((g.normLaplacian Real.sqrt).mapVal XReal.neg) 2)) k.toNat with
    | none => rw [hs] at hres; cases hres
    | some raw =>
      rw [hs] at hres
      simp only [Option.map_some] at hres ⊢
      rw [if_pos (by simp)] at hres ⊢
      simp only [Outcome.ok.injEq] at hres
      rw [← hres, List.map_map, List.map_map]
      congr 2
      funext p
      simp only [Function.comp_apply, if_true, Prod.mk.injEq, and_true]
      ring

/-- **C96** (vectors near exact ones).  Vectors within distance `δ` of those of an exact solver are an approximate system
with errors `δ` and 0. -/
theorem C96_near_exact {g : Graph ℝ} (solve₀ : EigenSolver) (hsolve₀ : SolverSpec solve₀) (h : g.Reachable)
    (hw : ∀ u v, 0 ≤ g.abs.w u v) (hd : ∀ v, v < g.n → 0 < g.abs.deg v) (k : Nat)
    (res₀ res : EigenPairs) (hres₀ : computeEigensystem solve₀ g .normalisedLaplacian k .smallest = .ok res₀) (l : ℝ)
    (hl : ∀ p ∈ res₀, p.1 < l) (hlen : res.length = k) (δ : ℝ)
    (hδ : ∑ j ∈ range k, ∑ i ∈ range g.n, ((res.getD j (0, 0)).2 i - (res₀.getD j (0, 0)).2 i) ^ 2 ≤ δ ^ 2) :
    ApproxSystem g.n (matrixOf g.abs .normalisedLaplacian) k res l δ 0 := by
  obtain ⟨h1, w, μ, h2, h3, h4, h5⟩ := C96_exact_solver solve₀ hsolve₀ h hw hd k res₀ hres₀ l hl
  have hex := C53_eigensystem solve₀ hsolve₀ h hw _ k .smallest (fun _ => hd) res₀ hres₀
  rw [Int.toNat_natCast] at hex
  have hw' : ∀ j ∈ range k, ∀ i ∈ range g.n, (res₀.getD j (0, 0)).2 i = w j i := by
    have h0 : ∑ j ∈ range k, ∑ i ∈ range g.n, ((res₀.getD j (0, 0)).2 i - w j i) ^ 2 = 0 :=
      le_antisymm (by simpa using h3) (Finset.sum_nonneg fun _ _ => Finset.sum_nonneg fun _ _ => sq_nonneg _)
    intro j hj i hi
    have a1 := (Finset.sum_eq_zero_iff_of_nonneg fun _ _ => Finset.sum_nonneg fun _ _ => sq_nonneg _).1 h0 j hj
    have a2 := (Finset.sum_eq_zero_iff_of_nonneg fun _ _ => sq_nonneg _).1 a1 i hi
    exact sub_eq_zero.1 (pow_eq_zero_iff two_ne_zero |>.1 a2)
  refine ⟨hlen, w, μ, h2, ?_, h4, h5⟩
  refine le_trans (le_of_eq (Finset.sum_congr rfl fun j hj => Finset.sum_congr rfl fun i hi => ?_)) hδ
  rw [hw' j hj i hi]

/-- **C96** (values and lengths that are off).  If the solver's values are off by `η` and its vectors too long by a factor
`1 + θ`, the pairs are an approximate system with errors `|θ| √k` and 0. -/
theorem C96_off {g : Graph ℝ} (solve₀ : EigenSolver) (hsolve₀ : SolverSpec solve₀) (h : g.Reachable)
    (hw : ∀ u v, 0 ≤ g.abs.w u v) (hd : ∀ v, v < g.n → 0 < g.abs.deg v) (k : Nat)
    (res₀ : EigenPairs) (hres₀ : computeEigensystem solve₀ g .normalisedLaplacian k .smallest = .ok res₀) (l : ℝ)
    (hl : ∀ p ∈ res₀, p.1 < l) (η θ : ℝ) :
    ∃ res, computeEigensystem (offSolver η θ solve₀) g .normalisedLaplacian k .smallest = .ok res ∧
      ApproxSystem g.n (matrixOf g.abs .normalisedLaplacian) k res l (|θ| * Real.sqrt k) 0 := by
  have hex := C53_eigensystem solve₀ hsolve₀ h hw _ k .smallest (fun _ => hd) res₀ hres₀
  rw [Int.toNat_natCast] at hex
  have hlen := hex.count
  refine ⟨_, offSolver_spec η θ solve₀ g k res₀ hres₀, C96_near_exact solve₀ hsolve₀ h hw hd k res₀ _ hres₀ l hl
    (by rw [List.length_map]; exact hlen) _ ?_⟩
  rw [mul_pow, sq_abs, Real.sq_sqrt (Nat.cast_nonneg _)]
  have : ∀ j ∈ range k, ∑ i ∈ range g.n, (((res₀.map (fun p => (p.1 + η, fun i => (1 + θ) * p.2 i)) : EigenPairs).getD j (0, 0)).2 i
      - (res₀.getD j (0, 0)).2 i) ^ 2 = θ ^ 2 := by
    intro j hj
    have hj := mem_range.1 hj
    have hon := extreme_on hex j hj j hj
    rw [if_pos rfl] at hon
    beta_reduce at hon
    rw [List.getD_eq_getElem _ _ (by rw [List.length_map]; omega), List.getElem_map]
    rw [List.getD_eq_getElem _ _ (by omega)] at hon ⊢
    unfold dot at hon
    calc ∑ i ∈ range g.n, ((1 + θ) * (res₀[j]).2 i - (res₀[j]).2 i) ^ 2
        = θ ^ 2 * ∑ i ∈ range g.n, (res₀[j]).2 i * (res₀[j]).2 i := by
          rw [Finset.mul_sum]; exact Finset.sum_congr rfl fun _ _ => by ring
      _ = θ ^ 2 := by rw [hon, mul_one]
  rw [Finset.sum_congr rfl this, Finset.sum_const, card_range, nsmul_eq_mul, mul_comm]

/-- A solver that is not exact and meets the hypotheses of C96 (residual) with `r > 0`: on the path on four vertices, the
values are all too large by 1/100. -/
example : ∃ (solve : EigenSolver) (g : Graph ℝ) (p q : ℝ × (Nat → ℝ)) (l : ℝ) (v : Nat → ℝ), ¬ SolverSpec solve ∧
    g.Reachable ∧ (∀ u v, 0 ≤ g.abs.w u v) ∧ (∀ v, g.abs.w v v = 0) ∧ (∀ v, v < g.n → 0 < g.abs.deg v) ∧
    computeEigensystem solve g .normalisedLaplacian 2 .smallest = .ok [p, q] ∧
    (l, v) = (if q.1 < p.1 then p else q) ∧ dot g.n v v = 1 ∧ (1 / 100 : ℝ) < l ∧
    residual2 g.n (matrixOf g.abs .normalisedLaplacian) l v ≤ (1 / 100) ^ 2 := by
  obtain ⟨solve, hs, hall⟩ := C53_always_answers
  obtain ⟨g, hr, ha⟩ := exists_unit_graph 4 (fun i j => i + 1 = j ∨ j + 1 = i) (by omega)
  have hn : g.n = 4 := congrArg WGraph.n ha
  have hd : ∀ v, v < g.n → 0 < g.abs.deg v := by
    intro v hv
    rw [hn] at hv
    rw [ha]
    simp only [WGraph.deg, unitGraph, Finset.sum_range_succ, Finset.sum_range_zero]
    interval_cases v <;> norm_num
  have hw : ∀ u v, 0 ≤ g.abs.w u v := by
    intro u v
    rw [ha]; simp only [unitGraph]; split_ifs <;> norm_num
  have hloop : ∀ v, g.abs.w v v = 0 := by
    intro v
    rw [ha]; simp only [unitGraph]; rw [if_neg (by omega)]
  obtain ⟨res, hres⟩ := hall g .normalisedLaplacian 2 .smallest hr (by norm_num) (by rw [hn]; norm_num) (fun _ => hd)
  obtain ⟨v₁, l₂, v₂, rfl, h0, e1, e2, u1, u2, -⟩ := two_smallest solve hs hr hw hloop hd res hres
  have hadj : ∀ u v, g.abs.Adj u v ↔ u < 4 ∧ v < 4 ∧ (u + 1 = v ∨ v + 1 = u) := by
    intro u v
    unfold WGraph.Adj
    rw [ha]
    simp only [unitGraph]
    split_ifs with h
    · simp [h]
    · simp; tauto
  have hconn : ∀ u < g.n, ∀ v < g.n, g.abs.Connected u v := by
    intro u hu v hv
    have e : ∀ a b, a < 4 → b < 4 → (a + 1 = b ∨ b + 1 = a) → g.abs.Adj a b :=
      fun a b h1 h2 h3 => (hadj a b).2 ⟨h1, h2, h3⟩
    have up : ∀ k, u + k < 4 → g.abs.Connected u (u + k) := by
      intro k
      induction k with
      | zero => intro _; exact .refl
      | succ k ih => intro hk; exact .step (ih (by omega)) (e _ _ (by omega) (by omega) (by omega))
    have down : ∀ k, k ≤ u → g.abs.Connected u (u - k) := by
      intro k
      induction k with
      | zero => intro _; exact .refl
      | succ k ih => intro hk; exact .step (ih (by omega)) (e _ _ (by omega) (by omega) (by omega))
    rcases le_total u v with h | h
    · have := up (v - u) (by omega)
      rwa [show u + (v - u) = v by omega] at this
    · have := down (u - v) (by omega)
      rwa [show u - (u - v) = v by omega] at this
  have hpos : 0 < l₂ := C61_connected solve hs hr hw hloop hd 0 l₂ (by unfold computeEigenvalues; rw [hres]; rfl) hconn
  have hoff := offSolver_spec (1 / 100) 0 solve g 2 _ hres
  refine ⟨offSolver (1 / 100) 0 solve, g, (0 + 1 / 100, fun i => (1 + 0) * v₁ i), (l₂ + 1 / 100, fun i => (1 + 0) * v₂ i),
    l₂ + 1 / 100, fun i => (1 + 0) * v₂ i, ?_, hr, hw, hloop, hd, hoff, ?_, ?_, by linarith, ?_⟩
  · intro hbad
    obtain ⟨w₁, m₂, w₂, hw1, -⟩ := two_smallest _ hbad hr hw hloop hd _ hoff
    simp at hw1
  · rw [if_neg]
    simp only [not_lt]
    linarith
  · simpa using u2
  · have : residual2 g.n (matrixOf g.abs .normalisedLaplacian) (l₂ + 1 / 100) (fun i => (1 + 0) * v₂ i)
        = (1 / 100) ^ 2 * dot g.n v₂ v₂ := by
      unfold residual2 dot
      rw [Finset.mul_sum]
      refine Finset.sum_congr rfl fun i hi => ?_
      simp only [add_zero, one_mul]
      rw [e2 i (mem_range.1 hi)]
      ring
    rw [this, u2, mul_one]

/-- **C96** (a case).  On the square with two heavy and two light edges, an exact solver whose vectors are then made too
long by a factor 1.001 meets the hypotheses of C96 with `l = 200/101` and errors `√2 / 1000` and 0. -/
theorem C96_square : ∃ g : Graph ℝ, g.Reachable ∧ g.abs = ⟨4, squareW⟩ ∧ (∀ u v, 0 ≤ g.abs.w u v) ∧
    (∀ v, g.abs.w v v = 0) ∧ (∀ v, v < g.n → 0 < g.abs.deg v) ∧
    (∃ solve₀ res₀, SolverSpec solve₀ ∧ computeEigensystem solve₀ g .normalisedLaplacian 2 .smallest = .ok res₀) ∧
    ∀ (solve₀ : EigenSolver) (res₀ : EigenPairs), SolverSpec solve₀ →
      computeEigensystem solve₀ g .normalisedLaplacian 2 .smallest = .ok res₀ →
      (∀ m v, IsEigen g.n (matrixOf g.abs .normalisedLaplacian) m v → (∃ i < g.n, v i ≠ 0) →
        (∀ p ∈ res₀, dot g.n p.2 v = 0) → (200 / 101 : ℝ) ≤ m) ∧
      ¬ SolverSpec (offSolver 0 (1 / 1000) solve₀) ∧
      ∃ res, computeEigensystem (offSolver 0 (1 / 1000) solve₀) g .normalisedLaplacian 2 .smallest = .ok res ∧
        ApproxSystem g.n (matrixOf g.abs .normalisedLaplacian) 2 res (200 / 101) (1 / 1000 * Real.sqrt 2) 0 := by
  obtain ⟨g, hr, ha, hsol, hall⟩ := C84_square
  have hn : g.n = 4 := congrArg WGraph.n ha
  have hw : ∀ u v, 0 ≤ g.abs.w u v := by
    intro u v
    rw [ha]; simp only [squareW]; split_ifs <;> norm_num
  have hloop : ∀ v, g.abs.w v v = 0 := by
    intro v
    rw [ha]; simp only [squareW, ne_eq, not_true, false_and, if_false]
    split_ifs <;> first | rfl | omega
  have hdeg : ∀ v, v < 4 → g.abs.deg v = 101 := by
    intro v hv
    rw [ha]
    simp only [WGraph.deg, squareW, Finset.sum_range_succ, Finset.sum_range_zero]
    interval_cases v <;> norm_num
  have hd : ∀ v, v < g.n → 0 < g.abs.deg v := by
    intro v hv
    rw [hdeg v (by omega)]; norm_num
  refine ⟨g, hr, ha, hw, hloop, hd, hsol, fun solve₀ res₀ hs hres₀ => ?_⟩
  obtain ⟨labels, Mu, -, hgap, -⟩ := hall solve₀ res₀ (fun _ => 0) hs hres₀
  obtain ⟨v₁, l₂, v₂, rfl, h0, e1, e2, u1, u2, -⟩ := two_smallest solve₀ hs hr hw hloop hd res₀ hres₀
  have hlow := C61_lower_bound solve₀ hs hr hw hloop hd 0 l₂ (by unfold computeEigenvalues; rw [hres₀]; rfl) {0, 1}
    (by rw [hn]; decide) (by simp) (by rw [hn]; decide)
  have hphi : g.abs.phi {0, 1} = 1 / 101 := by
    have h1 : g.abs.vol {0, 1} = 202 := by
      unfold WGraph.vol
      rw [Finset.sum_pair (by norm_num), hdeg 0 (by norm_num), hdeg 1 (by norm_num)]; norm_num
    have hc : Finset.range g.abs.n \ {0, 1} = {2, 3} := by rw [ha]; decide
    have h2 : g.abs.vol (Finset.range g.abs.n \ {0, 1}) = 202 := by
      rw [hc]
      unfold WGraph.vol
      rw [Finset.sum_pair (by norm_num), hdeg 2 (by norm_num), hdeg 3 (by norm_num)]; norm_num
    have h3 : g.abs.cut {0, 1} = 2 := by
      unfold WGraph.cut
      rw [hc, Finset.sum_pair (by norm_num), Finset.sum_pair (by norm_num), Finset.sum_pair (by norm_num), ha]
      norm_num [squareW]
    unfold WGraph.phi
    rw [h1, h2, h3]
    norm_num
  rw [hphi] at hlow
  refine ⟨hgap, ?_, ?_⟩
  · intro hbad
    obtain ⟨w₁, m₂, w₂, hw1, -, -, -, hu, -⟩ := two_smallest _ hbad hr hw hloop hd _
      (offSolver_spec 0 (1 / 1000) solve₀ g 2 _ hres₀)
    simp only [List.map_cons, List.map_nil, List.cons.injEq, Prod.mk.injEq, and_true] at hw1
    rw [← hw1.1.2, dot_smul, u1] at hu
    norm_num at hu
  · have := C96_off solve₀ hs hr hw hd 2 _ hres₀ (200 / 101) (by
      intro p hp
      simp only [List.mem_cons, List.not_mem_nil, or_false] at hp
      rcases hp with rfl | rfl
      · norm_num
      · change l₂ < _
        linarith) 0 (1 / 1000)
    rw [abs_of_pos (by norm_num : (0 : ℝ) < 1 / 1000)] at this
    exact_mod_cast this

end Stag
