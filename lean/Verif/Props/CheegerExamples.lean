import Verif.Props.Cheeger
import Verif.Props.Named

/-!
# C61: a connected graph meeting the hypotheses, and a disconnected one that fails
-/

namespace Stag

open Graph

/-- Every symmetric weight function with weights 0 or above the pruning threshold is the abstract
graph of an object the constructor returns. -/
theorem exists_pruned_graph (N : Nat) (w : Nat → Nat → ℝ) (hsym : ∀ i j, w i j = w j i)
    (hthr : ∀ i j, w i j = 0 ∨ epsilon < w i j) (hrange : ∀ i j, ¬ (i < N ∧ j < N) → w i j = 0) :
    ∃ g : Graph ℝ, g.Reachable ∧ g.Pruned ∧ g.abs = ⟨N, w⟩ := by
  set m : SprsMat ℝ := SprsMat.ofCols N N (fun j => (sparseView N (fun i => w i j)).col) with hm
  have hwf : m.WF := SprsMat.wf_ofCols (fun j _ =>
    ⟨(sparseView_ok N _).1.sorted, fun e he => (sparseView_ok N _).1.lt e he⟩)
  have hco : ∀ i j, m.coeff i j = w i j := by
    intro i j
    unfold SprsMat.coeff
    rw [hm, SprsMat.col_ofCols]
    split_ifs with hj
    · have := (sparseView_ok N (fun i => w i j)).2.2 i
      unfold SVec.get at this
      rw [this]
      split_ifs with hi
      · rfl
      · exact (hrange i j (by omega)).symm
    · exact (hrange i j (by omega)).symm
  have heps : (0 : ℝ) < epsilon := by unfold epsilon; norm_num
  obtain ⟨g, -, -, hr, hn, hc, hp⟩ := ofMatrix_nonneg (m := m) hwf rfl (by
    intro i j
    rw [hco]
    rcases hthr i j with h | h
    · exact h.ge
    · exact (lt_trans heps h).le) (fun i j => by rw [hco, hco, hsym])
  refine ⟨g, hr, hp, ?_⟩
  unfold Graph.abs
  rw [hn]
  congr 1
  funext i j
  rw [hc, hco]
  exact thr_of_zero_or (hthr i j)

theorem exists_graph (N : Nat) (w : Nat → Nat → ℝ) (hsym : ∀ i j, w i j = w j i)
    (hthr : ∀ i j, w i j = 0 ∨ epsilon < w i j) (hrange : ∀ i j, ¬ (i < N ∧ j < N) → w i j = 0) :
    ∃ g : Graph ℝ, g.Reachable ∧ g.abs = ⟨N, w⟩ := by
  obtain ⟨g, hr, _, hg⟩ := exists_pruned_graph N w hsym hthr hrange
  exact ⟨g, hr, hg⟩

theorem exists_unit_graph (N : Nat) (p : Nat → Nat → Prop) [∀ i j, Decidable (p i j)]
    (hsym : ∀ i j, p i j ↔ p j i) : ∃ g : Graph ℝ, g.Reachable ∧ g.abs = unitGraph ℝ N p := by
  apply exists_graph
  · intro i j
    by_cases h : i < N ∧ j < N ∧ p i j
    · rw [if_pos h, if_pos ⟨h.2.1, h.1, (hsym i j).1 h.2.2⟩]
    · rw [if_neg h, if_neg (fun h' => h ⟨h'.2.1, h'.1, (hsym i j).2 h'.2.2⟩)]
  · intro i j
    split_ifs
    · exact .inr (by unfold epsilon; norm_num)
    · exact .inl rfl
  · intro i j h
    rw [if_neg (by tauto)]

/-- The path on four vertices meets the hypotheses of C61, and a solver answers. -/
example : ∃ (solve : EigenSolver) (g : Graph ℝ), SolverSpec solve ∧ g.Reachable ∧
    (∀ u v, 0 ≤ g.abs.w u v) ∧ (∀ v, g.abs.w v v = 0) ∧ (∀ v, v < g.n → 0 < g.abs.deg v) ∧
    (∀ u < g.n, ∀ v < g.n, g.abs.Connected u v) ∧
    ∃ l₁ l₂, computeEigenvalues solve g .normalisedLaplacian 2 .smallest = .ok [l₁, l₂] := by
  obtain ⟨solve, hs, hall⟩ := C53_always_answers
  obtain ⟨g, hr, ha⟩ := exists_unit_graph 4 (fun i j => i + 1 = j ∨ j + 1 = i) (by omega)
  have hn : g.n = 4 := congrArg WGraph.n ha
  have hd : ∀ v, v < g.n → 0 < g.abs.deg v := by
    intro v hv
    rw [hn] at hv
    rw [ha]
    simp only [WGraph.deg, unitGraph, Finset.sum_range_succ, Finset.sum_range_zero]
    interval_cases v <;> norm_num
  have hw : ∀ u v, 0 ≤ g.abs.w u v := by
    intro u v
    rw [ha]; simp only [unitGraph]; split_ifs <;> norm_num
  have hloop : ∀ v, g.abs.w v v = 0 := by
    intro v
    rw [ha]; simp only [unitGraph]; rw [if_neg (by omega)]
  obtain ⟨res, hres⟩ := hall g .normalisedLaplacian 2 .smallest hr (by norm_num) (by rw [hn]; norm_num)
    (fun _ => hd)
  refine ⟨solve, g, hs, hr, hw, hloop, hd, ?_, ?_⟩
  · have hadj : ∀ u v, g.abs.Adj u v ↔ u < 4 ∧ v < 4 ∧ (u + 1 = v ∨ v + 1 = u) := by
      intro u v
      unfold WGraph.Adj
      rw [ha]
      simp only [unitGraph]
      split_ifs with h
      · simp [h]
      · simp; tauto
    have hstep : ∀ u v, u < 4 → v < 4 → g.abs.Connected u v := by
      intro u v hu hv
      have e : ∀ a b, a < 4 → b < 4 → (a + 1 = b ∨ b + 1 = a) → g.abs.Adj a b :=
        fun a b h1 h2 h3 => (hadj a b).2 ⟨h1, h2, h3⟩
      have up : ∀ k, u + k < 4 → g.abs.Connected u (u + k) := by
        intro k
        induction k with
        | zero => intro _; exact .refl
        | succ k ih => intro hk; exact .step (ih (by omega)) (e _ _ (by omega) (by omega) (by omega))
      have down : ∀ k, k ≤ u → g.abs.Connected u (u - k) := by
        intro k
        induction k with
        | zero => intro _; exact .refl
        | succ k ih => intro hk; exact .step (ih (by omega)) (e _ _ (by omega) (by omega) (by omega))
      rcases le_total u v with h | h
      · have := up (v - u) (by omega)
        rwa [show u + (v - u) = v by omega] at this
      · have := down (u - v) (by omega)
        rwa [show u - (u - v) = v by omega] at this
    intro u hu v hv
    exact hstep u v (by omega) (by omega)
  · obtain ⟨v₁, l₂, v₂, rfl, -⟩ := two_smallest solve hs hr hw hloop hd res hres
    exact ⟨0, l₂, by unfold computeEigenvalues; rw [hres]; rfl⟩

/-- **C61** (disconnected graphs).  Without connectivity the bound fails: on two disjoint edges there
is a solver that meets its contract - both smallest eigenvalues are 0 - for which `cheeger_cut` returns
a set of conductance 1, although there is a set of conductance 0. -/
theorem C61_disconnected_counterexample : ∃ (solve : EigenSolver) (g : Graph ℝ) (labels : List Nat),
    SolverSpec solve ∧ g.Reachable ∧ (∀ u v, 0 ≤ g.abs.w u v) ∧ (∀ v, g.abs.w v v = 0) ∧
    (∀ v, v < g.n → 0 < g.abs.deg v) ∧
    computeEigenvalues solve g .normalisedLaplacian 2 .smallest = .ok [0, 0] ∧
    cheegerCut solve g = .ok labels ∧ g.abs.phi (labelSet labels) = 1 ∧ g.abs.phi {0, 2} = 0 := by
  obtain ⟨g, hr, ha⟩ := exists_unit_graph 4 (fun i j => i + 2 = j ∨ j + 2 = i) (by omega)
  have hn : g.n = 4 := congrArg WGraph.n ha
  have hw : ∀ u v, 0 ≤ g.abs.w u v := by
    intro u v
    rw [ha]; simp only [unitGraph]; split_ifs <;> norm_num
  have hloop : ∀ v, g.abs.w v v = 0 := by
    intro v
    rw [ha]; simp only [unitGraph]; rw [if_neg (by omega)]
  have hdeg : ∀ v, v < 4 → g.abs.deg v = 1 := by
    intro v hv
    rw [ha]
    simp only [WGraph.deg, unitGraph, Finset.sum_range_succ, Finset.sum_range_zero]
    interval_cases v <;> norm_num
  have hd : ∀ v, v < g.n → 0 < g.abs.deg v := by
    intro v hv
    rw [hdeg v (by omega)]; norm_num
  -- the matrix that reaches the solver does not depend on the solver
  set x₁ : Nat → ℝ := fun i => if i % 2 = 0 then 1 / 2 else - (1 / 2) with hx₁
  set x₂ : Nat → ℝ := fun _ => 1 / 2 with hx₂
  set M := matrixOf g.abs .normalisedLaplacian with hM
  have hMe : ∀ i < 4, ∀ j < 4, M i j = (if i = j then 1 else 0) - g.abs.w i j := by
    intro i hi j hj
    simp only [hM, matrixOf]
    rw [hdeg i hi, hdeg j hj, Real.sqrt_one, mul_one, div_one]
  have hwv : ∀ i < 4, ∀ j < 4, g.abs.w i j = if i + 2 = j ∨ j + 2 = i then 1 else 0 := by
    intro i hi j hj
    rw [ha]; simp only [unitGraph, hi, hj, true_and]
  have he : ∀ x : Nat → ℝ, x 0 = x 2 → x 1 = x 3 → IsEigen g.n M 0 x := by
    intro x h1 h2 i hi
    rw [hn] at hi ⊢
    rw [Finset.sum_congr rfl (fun j hj => by
      rw [hMe i hi j (Finset.mem_range.1 hj), hwv i hi j (Finset.mem_range.1 hj)])]
    interval_cases i <;> simp [Finset.sum_range_succ, h1, h2]
  have he1 : IsEigen g.n M 0 x₁ := he x₁ (by simp [hx₁]) (by simp [hx₁])
  have he2 : IsEigen g.n M 0 x₂ := he x₂ rfl rfl
  -- the matrix handed to the solver is the same function for every solver
  obtain ⟨c, S, hS, hall, hpsd⟩ : ∃ (c : ℝ) (S : Nat → Nat → XReal ℝ),
      (∀ i < g.n, ∀ j < g.n, S i j = .fin (shifted c (-1) M i j)) ∧
      (∀ solve, computeEigensystem solve g .normalisedLaplacian 2 .smallest =
        (match solve g.n S 2 with
        | none => .throw .runtimeError
        | some raw => .ok (raw.map (fun p => (-1 * (p.1 - c), p.2))))) ∧
      (∀ x, 0 ≤ quadForm g.n (shifted c (-1) M) x) := by
    obtain ⟨c, S, hS, heq, hp⟩ := compute_eq_uniform hr .normalisedLaplacian 2 .smallest
      (by rw [hn]; norm_num) (fun _ => hd)
    exact ⟨c, S, hS, heq, hp hw⟩
  have hcard : ∀ (x y : Nat → ℝ), dot g.n x y = x 0 * y 0 + x 1 * y 1 + x 2 * y 2 + x 3 * y 3 := by
    intro x y
    unfold dot
    rw [hn]
    simp [Finset.sum_range_succ]
  have hs1 : ((-1 : ℝ) * -1) = 1 := by norm_num
  have hMpsd : ∀ x, 0 ≤ quadForm g.n M x := fun x => (C09_spectrum_bounds hr hw hd x).2.1
  have hc0 : ∀ l v, IsEigen g.n (shifted c (-1) M) l v → (∃ i < g.n, v i ≠ 0) → 0 ≤ l ∧ l ≤ c := by
    intro l v hv hne
    have h1 := eigenvalue_nonneg hpsd hv hne
    have h2 := eigenvalue_nonneg hMpsd ((isEigen_shifted _ _ _ hs1 _ _ _).1 hv) hne
    exact ⟨h1, by linarith⟩
  have hshift : ∀ x, IsEigen g.n M 0 x → IsEigen g.n (shifted c (-1) M) c x := by
    intro x hx
    rw [isEigen_shifted _ _ _ hs1]
    rw [show (-1 : ℝ) * (c - c) = 0 by ring]
    exact hx
  have hcn : 0 ≤ c := (hc0 c x₂ (hshift x₂ he2) ⟨0, by omega, by simp [hx₂]⟩).1
  have hraw : EigenExtreme (fun x y => |y| ≤ |x|) g.n (shifted c (-1) M) 2 [(c, x₁), (c, x₂)] := by
    refine ⟨rfl, ?_, ?_, ?_, ?_, ?_⟩
    · intro p hp
      rcases List.mem_cons.1 hp with rfl | hp
      · exact hshift _ he1
      · rw [List.mem_singleton] at hp; subst hp; exact hshift _ he2
    · intro p hp
      rcases List.mem_cons.1 hp with rfl | hp
      · rw [hcard]; simp [hx₁]; norm_num
      · rw [List.mem_singleton] at hp; subst hp; rw [hcard]; simp [hx₂]; norm_num
    · rw [List.pairwise_cons]
      refine ⟨?_, by simp⟩
      intro q hq
      rw [List.mem_singleton] at hq; subst hq
      rw [hcard]; simp [hx₁, hx₂]
    · simp
    · intro l v hv hne _ p hp
      obtain ⟨h1, h2⟩ := hc0 l v hv hne
      have : p.1 = c := by
        rcases List.mem_cons.1 hp with rfl | hp
        · rfl
        · rw [List.mem_singleton] at hp; subst hp; rfl
      rw [this, abs_of_nonneg h1, abs_of_nonneg hcn]
      exact h2
  obtain ⟨solve, hs, hsv⟩ := C53_contract_satisfiable.2 g.n S _ 2 _ hS hraw
  have hres := hall solve
  rw [hsv] at hres
  simp only [List.map_cons, List.map_nil, sub_self, mul_zero] at hres
  obtain ⟨labels, order, k, c1, c2, c3, c4, c5, c6, c7, c8, c9, c10⟩ :=
    cheegerCut_spec solve hr hw _ _ _ hres
  refine ⟨solve, g, labels, hs, hr, hw, hloop, hd, ?_, c1, ?_, ?_⟩
  · unfold computeEigenvalues; rw [hres]; rfl
  · -- the order is 0, 1, 2, 3
    have hord : order = [0, 1, 2, 3] := by
      have hlt : ∀ i ∈ order, i < 4 := fun i hi => by
        have := List.mem_range.1 (c5.mem_iff.1 hi); omega
      have hsorted : order.Pairwise (· < ·) := by
        refine c6.imp_of_mem (fun {i j} hi hj hij => ?_)
        simp only [lt_self_iff_false, if_false, hdeg i (hlt i hi), hdeg j (hlt j hj), hx₂,
          true_and, false_or] at hij
        exact hij
      have hp : order.Perm [0, 1, 2, 3] := by
        rw [hn] at c5
        exact c5
      exact hp.eq_of_pairwise (fun a b _ _ h1 h2 => absurd h1 (by omega)) hsorted (by decide)
    have hwn : ∀ S : Finset Nat, g.abs.phi S = (unitGraph ℝ 4 (fun i j => i + 2 = j ∨ j + 2 = i)).phi S := by
      intro S; rw [ha]
    have hvol : ∀ T : Finset Nat, T ⊆ Finset.range 4 → g.abs.vol T = T.card := by
      intro T hT
      unfold WGraph.vol
      rw [Finset.sum_congr rfl (fun v hv => hdeg v (Finset.mem_range.1 (hT hv)))]
      simp
    have hphi : ∀ k, 1 ≤ k → k ≤ 3 → g.abs.phi (order.take k).toFinset = 1 := by
      intro k h1 h2
      unfold WGraph.phi
      rw [hord]
      have hcutv : ∀ A B : Finset Nat, A ⊆ Finset.range 4 → B ⊆ Finset.range 4 →
          ∑ u ∈ A, ∑ v ∈ B, g.abs.w u v
            = ∑ u ∈ A, ∑ v ∈ B, (if u + 2 = v ∨ v + 2 = u then (1 : ℝ) else 0) := by
        intro A B hA hB
        exact Finset.sum_congr rfl (fun u hu => Finset.sum_congr rfl (fun v hv =>
          hwv u (Finset.mem_range.1 (hA hu)) v (Finset.mem_range.1 (hB hv))))
      have hgn : g.abs.n = 4 := hn
      unfold WGraph.cut
      rw [hgn]
      interval_cases k
      · have e1 : (List.take 1 [0, 1, 2, 3]).toFinset = ({0} : Finset Nat) := by decide
        have e2 : Finset.range 4 \ ({0} : Finset Nat) = {1, 2, 3} := by decide
        rw [e1, e2, hcutv _ _ (by decide) (by decide), hvol _ (by decide), hvol _ (by decide)]
        simp [-Finset.sum_boole]; try norm_num
      · have e1 : (List.take 2 [0, 1, 2, 3]).toFinset = ({0, 1} : Finset Nat) := by decide
        have e2 : Finset.range 4 \ ({0, 1} : Finset Nat) = {2, 3} := by decide
        rw [e1, e2, hcutv _ _ (by decide) (by decide), hvol _ (by decide), hvol _ (by decide)]
        simp [-Finset.sum_boole]; try norm_num
      · have e1 : (List.take 3 [0, 1, 2, 3]).toFinset = ({0, 1, 2} : Finset Nat) := by decide
        have e2 : Finset.range 4 \ ({0, 1, 2} : Finset Nat) = {3} := by decide
        rw [e1, e2, hcutv _ _ (by decide) (by decide), hvol _ (by decide), hvol _ (by decide)]
        simp [-Finset.sum_boole]; try norm_num
    rw [c4]
    apply hphi
    · rcases Nat.eq_zero_or_pos k with h0 | h0
      · have h1 := c8 h0 1 (by omega)
        rw [hord, hn] at h1
        have e1 : (List.take 1 [0, 1, 2, 3]).toFinset = ({0} : Finset Nat) := by decide
        have e2 : Finset.range 4 \ ({0} : Finset Nat) = {1, 2, 3} := by decide
        rw [e1, e2, hvol _ (by decide), hvol _ (by decide)] at h1
        simp at h1
      · exact h0
    · by_contra hk
      have hk4 : k = 4 := by omega
      have h0 := c9 (by omega)
      rw [hord, hn, hk4] at h0
      have e1 : (List.take 4 [0, 1, 2, 3]).toFinset = Finset.range 4 := by decide
      rw [e1, Finset.sdiff_self] at h0
      simp [WGraph.vol] at h0
  · have hgn : g.abs.n = 4 := hn
    unfold WGraph.phi WGraph.cut
    rw [hgn]
    have e2 : Finset.range 4 \ ({0, 2} : Finset Nat) = {1, 3} := by decide
    rw [e2]
    have : ∑ u ∈ ({0, 2} : Finset Nat), ∑ v ∈ ({1, 3} : Finset Nat), g.abs.w u v = 0 := by
      apply Finset.sum_eq_zero
      intro u hu
      apply Finset.sum_eq_zero
      intro v hv
      simp only [Finset.mem_insert, Finset.mem_singleton] at hu hv
      rw [hwv u (by omega) v (by omega), if_neg (by omega)]
    rw [this, zero_div]

end Stag
