import Verif.Props.Equitable
import Verif.Props.CheegerExamples

/-!
# C85: a case that meets the hypotheses
-/

namespace Stag

open Finset Recovery MeasureTheory

/-- The square with two edges 0 - 1 and 2 - 3 of weight `p` and two edges 1 - 2 and 3 - 0 of weight `q`. -/
noncomputable def squarePQ (p q : ℝ) (i j : Nat) : ℝ :=
  if i < 4 ∧ j < 4 then (if i ≠ j ∧ i / 2 = j / 2 then p else if i + j = 3 then q else 0) else 0

theorem square_graph (p q : ℝ) (hq : epsilon < q) (hpq : q < p) :
    ∃ g : Graph ℝ, g.Reachable ∧ g.abs = ⟨4, squarePQ p q⟩ := by
  exact exists_graph 4 (squarePQ p q)
    (by
      intro i j
      unfold squarePQ
      by_cases h : i < 4 ∧ j < 4
      · rw [if_pos h, if_pos h.symm]
        obtain ⟨h1, h2⟩ := h
        interval_cases i <;> interval_cases j <;> simp
      · rw [if_neg h, if_neg (fun h' => h h'.symm)])
    (by
      intro i j
      unfold squarePQ
      split_ifs
      · right; linarith
      · right; exact hq
      · left; rfl
      · left; rfl)
    (by
      intro i j h
      unfold squarePQ
      rw [if_neg (by omega)])

/-- The strength of the two edges of weight `p`. -/
noncomputable def squareStrength (p q : ℝ) (c i : Nat) : ℝ := (if c = i then p else q) /
  (Real.sqrt (∑ j ∈ range 2, if c = j then p else q) * Real.sqrt (∑ j ∈ range 2, if i = j then p else q))

theorem square_facts (p q : ℝ) (hq : epsilon < q) (hpq : q < p) {g : Graph ℝ} (ha : g.abs = ⟨4, squarePQ p q⟩) :
    (∀ u v, 0 ≤ g.abs.w u v) ∧ (∀ v, v < 4 → g.abs.deg v = p + q) ∧
    (∀ x, (∀ i < 2, dot g.n (fun u => if u / 2 = i then (1 : ℝ) else 0) x = 0) →
      2 * p / (p + q) * dot g.n x x ≤ quadForm g.n (matrixOf g.abs .normalisedLaplacian) x) ∧
    g.abs.unevenness 2 (fun u => u / 2) (squareStrength p q) = 0 ∧
    WGraph.Strength g.n 2 (fun u => u / 2) (squareStrength p q) ((p - q) / (p + q)) := by
  have heps : (0 : ℝ) < epsilon := by unfold epsilon; norm_num
  have hq0 : 0 < q := lt_trans heps hq
  have hp0 : 0 < p := lt_trans hq0 hpq
  have hn : g.n = 4 := congrArg WGraph.n ha
  have hwv : ∀ i j, g.abs.w i j = squarePQ p q i j := fun i j => by rw [ha]
  have hw : ∀ u v, 0 ≤ g.abs.w u v := by
    intro u v
    rw [hwv]; unfold squarePQ; split_ifs <;> linarith
  have hloop : ∀ v, g.abs.w v v = 0 := by
    intro v
    rw [hwv]; unfold squarePQ
    split_ifs with h1 h2 h3
    · exact absurd rfl h2.1
    · omega
    · rfl
    · rfl
  have hdeg : ∀ v, v < 4 → g.abs.deg v = p + q := by
    intro v hv
    unfold WGraph.deg
    rw [hloop, show g.abs.n = 4 from hn]
    simp only [hwv, Finset.sum_range_succ, Finset.sum_range_zero, squarePQ]
    interval_cases v <;> norm_num
    all_goals exact add_comm _ _
  have hd : ∀ v, v < g.n → 0 < g.abs.deg v := by
    intro v hv
    rw [hdeg v (by omega)]; linarith
  have hpq0 : 0 < p + q := by linarith
  have hMe : ∀ i < 4, ∀ j < 4, matrixOf g.abs .normalisedLaplacian i j
      = (if i = j then 1 else 0) - squarePQ p q i j / (p + q) := by
    intro i hi j hj
    simp only [matrixOf]
    rw [hdeg i hi, hdeg j hj, Real.mul_self_sqrt hpq0.le, hwv]
  have hclu : ∀ i < 2, KMeans.cluster g.n (fun u => u / 2) i = {2 * i, 2 * i + 1} := by
    intro i hi
    rw [hn]
    unfold KMeans.cluster
    interval_cases i <;> decide
  have hdot : ∀ v w : Nat → ℝ, dot g.n v w = v 0 * w 0 + v 1 * w 1 + v 2 * w 2 + v 3 * w 3 := by
    intro v w
    unfold dot
    rw [hn]
    simp [Finset.sum_range_succ]
  have htest : ∀ x, (∀ i < 2, dot g.n (fun u => if u / 2 = i then (1 : ℝ) else 0) x = 0) →
      2 * p / (p + q) * dot g.n x x ≤ quadForm g.n (matrixOf g.abs .normalisedLaplacian) x := by
    intro x hx
    have h0 := hx 0 (by norm_num)
    have h1 := hx 1 (by norm_num)
    rw [hdot] at h0 h1
    norm_num at h0 h1
    have e1 : x 1 = - x 0 := by linarith
    have e3 : x 3 = - x 2 := by linarith
    have hqf : quadForm g.n (matrixOf g.abs .normalisedLaplacian) x
        = 2 * (x 0 ^ 2 + x 2 ^ 2) + (2 * p * (x 0 ^ 2 + x 2 ^ 2) + 4 * q * x 0 * x 2) / (p + q) := by
      unfold quadForm
      rw [hn, Finset.sum_congr rfl (fun i hi => Finset.sum_congr rfl (fun j hj => by
        rw [hMe i (mem_range.1 hi) j (mem_range.1 hj)]))]
      simp only [Finset.sum_range_succ, Finset.sum_range_zero, squarePQ]
      norm_num
      rw [e1, e3]
      field_simp
      ring
    rw [hqf, hdot, e1, e3, div_mul_eq_mul_div, div_le_iff₀ hpq0, add_mul, div_mul_cancel₀ _ hpq0.ne']
    nlinarith [sq_nonneg (x 0 + x 2)]
  have hzero := C85_equitable hloop 2 (fun u => u / 2) (fun u hu => by omega)
    (fun c i => if c = i then p else q) (by
      intro u hu i hi
      rw [hclu i hi, Finset.sum_pair (by omega), hwv, hwv]
      unfold squarePQ
      rw [hn] at hu
      interval_cases u <;> interval_cases i <;> norm_num)
  have hsq : ∀ c < 2, ∑ j ∈ range 2, (if c = j then p else q) = p + q := by
    intro c hc
    interval_cases c <;> simp [Finset.sum_range_succ, add_comm]
  have hst : WGraph.Strength g.n 2 (fun u => u / 2) (fun c i => (if c = i then p else q) /
      (Real.sqrt (∑ j ∈ range 2, if c = j then p else q) * Real.sqrt (∑ j ∈ range 2, if i = j then p else q)))
      ((p - q) / (p + q)) := by
    intro y
    have e : ∀ i ∈ range 2, ∀ c ∈ range 2, ((fun c i => (if c = i then p else q) /
        (Real.sqrt (∑ j ∈ range 2, if c = j then p else q) * Real.sqrt (∑ j ∈ range 2, if i = j then p else q))) c i)
        * Real.sqrt (((KMeans.cluster g.n (fun u => u / 2) c).card : ℝ) / (KMeans.cluster g.n (fun u => u / 2) i).card)
        * (y i * y c) = (if c = i then p else q) / (p + q) * (y i * y c) := by
      intro i hi c hc
      have hi' := mem_range.1 hi
      have hc' := mem_range.1 hc
      beta_reduce
      rw [hsq c hc', hsq i hi', hclu c hc', hclu i hi', Finset.card_pair (by omega), Finset.card_pair (by omega),
        div_self (by norm_num), Real.sqrt_one, Real.mul_self_sqrt hpq0.le, mul_one]
    rw [Finset.sum_congr rfl (fun i hi => Finset.sum_congr rfl (e i hi))]
    simp only [Finset.sum_range_succ, Finset.sum_range_zero]
    norm_num
    rw [div_mul_eq_mul_div, div_mul_eq_mul_div, div_mul_eq_mul_div, div_mul_eq_mul_div, div_mul_eq_mul_div, ← add_div,
      ← add_div, ← add_div]
    apply div_le_div_of_nonneg_right _ hpq0.le
    nlinarith [sq_nonneg (y 0 + y 1)]
  exact ⟨hw, hdeg, htest, hzero, hst⟩

/-- **C85** (a case).  On the square with two edges of weight `p` and two edges of weight `q < p`, the hypotheses
are met for every solver that meets its contract, however near `q` is to `p` (the conductance of the clusters is
`q / (p + q)`): the two edges of weight `p` are the clusters, and k-means finds them with probability one. -/
theorem C85_square (p q : ℝ) (hq : epsilon < q) (hpq : q < p) :
    ∃ g : Graph ℝ, g.Reachable ∧ g.abs = ⟨4, squarePQ p q⟩ ∧
    (∃ solve res, SolverSpec solve ∧ computeEigensystem solve g .normalisedLaplacian 2 .smallest = .ok res) ∧
    g.abs.cut {0, 1} / g.abs.vol {0, 1} = q / (p + q) ∧
    ∀ (solve : EigenSolver) (res : EigenPairs) (Mu : Nat → Nat → ℝ) (Z : Nat → Nat) (junk : Nat → ℝ), SolverSpec solve →
      computeEigensystem solve g .normalisedLaplacian 2 .smallest = .ok res →
      ∀ᵐ u ∂streamLaw unif, ∃ r,
        KMeans.runKMeans (embedding (res.map Prod.snd)) 4 2 2 200 u Mu Z junk = .ok r ∧
        ∀ x < 4, ∀ y < 4, r.2 x = r.2 y ↔ x / 2 = y / 2 := by
  have heps : (0 : ℝ) < epsilon := by unfold epsilon; norm_num
  have hq0 : 0 < q := lt_trans heps hq
  have hp0 : 0 < p := lt_trans hq0 hpq
  obtain ⟨g, hr, ha⟩ := square_graph p q hq hpq
  obtain ⟨hw, hdeg, htest, hzero, hst⟩ := square_facts p q hq hpq ha
  have hn : g.n = 4 := congrArg WGraph.n ha
  have hwv : ∀ i j, g.abs.w i j = squarePQ p q i j := fun i j => by rw [ha]
  have hd : ∀ v, v < g.n → 0 < g.abs.deg v := by
    intro v hv
    rw [hdeg v (by omega)]; linarith
  have hpq0 : 0 < p + q := by linarith
  refine ⟨g, hr, ha, ?_, ?_, fun solve res Mu Z junk hs hres => ?_⟩
  · obtain ⟨solve, hs, hall⟩ := C53_always_answers
    obtain ⟨res, hres⟩ := hall g .normalisedLaplacian 2 .smallest hr (by norm_num) (by rw [hn]; norm_num) (fun _ => hd)
    exact ⟨solve, res, hs, hres⟩
  · have h1 : g.abs.vol {0, 1} = 2 * (p + q) := by
      unfold WGraph.vol
      rw [Finset.sum_pair (by norm_num), hdeg 0 (by norm_num), hdeg 1 (by norm_num)]; ring
    have h2 : g.abs.cut {0, 1} = 2 * q := by
      unfold WGraph.cut
      rw [show range g.abs.n \ {0, 1} = {2, 3} by rw [show g.abs.n = 4 from hn]; decide]
      rw [Finset.sum_pair (by norm_num), Finset.sum_pair (by norm_num), Finset.sum_pair (by norm_num)]
      simp only [hwv, squarePQ]
      norm_num
      ring
    rw [h1, h2]
    field_simp
  have hgap := C85_gap solve hs hr hw hd 2 res hres (2 * p / (p + q)) _ htest
  have hfin := KMeans.C85_almost_surely solve hs hr hw hd 2 ⟨by norm_num, by omega⟩ Mu Z junk res hres _ hgap
    (fun u => u / 2) (fun u hu => by omega) (fun i hi => ⟨2 * i, by omega, by omega⟩) _ _ hst (by
      have : 2 * p / (p + q) - (1 - (p - q) / (p + q)) = 2 * (p - q) / (p + q) := by field_simp; ring
      have h2 : 0 < 2 * (p - q) / (p + q) := div_pos (by linarith) hpq0
      linarith) hzero
  rw [hn] at hfin
  exact hfin

end Stag
