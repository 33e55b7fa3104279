import Verif.Props.Mutate
import Mathlib.Analysis.SpecialFunctions.Sqrt
import Mathlib.Tactic.FieldSimp
import Mathlib.Algebra.BigOperators.Field
import Mathlib.Tactic.IntervalCases

/-!
# C08, C09, C10, C11: the derived matrices

Weights and degrees below are those of the abstract graph `g.abs`
(`Verif/Spec/WGraph.lean`): `g.abs.w u v`, `g.abs.deg v`.
-/

set_option linter.unusedSectionVars false

namespace Stag
open Graph

section
variable {K : Type} [Field K] [LinearOrder K]

/-- The quadratic form `x' M x` of an `n`-by-`n` matrix given by its entries. -/
def quadForm (n : Nat) (M : Nat → Nat → K) (x : Nat → K) : K :=
  ∑ i ∈ Finset.range n, ∑ j ∈ Finset.range n, x i * M i j * x j

/-- Sum over all edges between distinct vertices `j < i`. -/
def sumPairs (n : Nat) (f : Nat → Nat → K) : K :=
  ∑ i ∈ Finset.range n, ∑ j ∈ Finset.range i, f i j

/-- A matrix whose diagonal is `∑ₖ w i k + c · w i i` and whose off-diagonal is
`s · w i j`, `s = ± 1`. -/
theorem quad_identity (n : Nat) (w : Nat → Nat → K) (hw : ∀ i j, w i j = w j i) (s c : K)
    (hs : s * s = 1) (x : Nat → K) :
    quadForm n (fun i j => if i = j then ∑ k ∈ Finset.range n, w i k + c * w i i
      else s * w i j) x =
      sumPairs n (fun i j => w i j * ((x i + s * x j) * (x i + s * x j))) +
        (1 + c) * ∑ i ∈ Finset.range n, w i i * (x i * x i) := by
  have h1 : quadForm n (fun i j => if i = j then ∑ k ∈ Finset.range n, w i k + c * w i i
      else s * w i j) x = ∑ i ∈ Finset.range n, ∑ j ∈ Finset.range n,
        (w i j * (x i * x i) + s * (w i j * (x i * x j))) +
        (c - s) * ∑ i ∈ Finset.range n, w i i * (x i * x i) := by
    unfold quadForm
    rw [Finset.mul_sum, ← Finset.sum_add_distrib]
    apply Finset.sum_congr rfl
    intro i hi
    rw [← Finset.add_sum_erase _ _ hi]
    simp only [if_true]
    have : ∑ j ∈ (Finset.range n).erase i, x i * (if i = j then
        ∑ k ∈ Finset.range n, w i k + c * w i i else s * w i j) * x j =
        ∑ j ∈ (Finset.range n).erase i, s * (w i j * (x i * x j)) := by
      apply Finset.sum_congr rfl
      intro j hj
      rw [if_neg (fun h => (Finset.mem_erase.1 hj).1 h.symm)]
      ring
    rw [this, Finset.sum_add_distrib, ← Finset.add_sum_erase _
      (fun j => s * (w i j * (x i * x j))) hi, ← Finset.sum_mul]
    ring
  rw [h1, sum_square]
  have h2 : ∑ i ∈ Finset.range n, ∑ j ∈ Finset.range i,
      (w i j * (x i * x i) + s * (w i j * (x i * x j)) +
        (w j i * (x j * x j) + s * (w j i * (x j * x i)))) =
      sumPairs n (fun i j => w i j * ((x i + s * x j) * (x i + s * x j))) := by
    unfold sumPairs
    apply Finset.sum_congr rfl
    intro i _
    apply Finset.sum_congr rfl
    intro j _
    rw [hw j i]
    linear_combination (- w i j * x j * x j) * hs
  rw [h2, Finset.sum_add_distrib, ← Finset.mul_sum]
  ring

theorem signless_coeff {g : Graph K} (hv : g.Valid) (i j : Nat) :
    g.signlessLaplacian.coeff i j =
      if i = j then ∑ k ∈ Finset.range g.n, g.adj.coeff i k + 2 * g.adj.coeff i i
      else g.adj.coeff i j := by
  unfold signlessLaplacian
  rw [SprsMat.coeff_zipWith (degree_wf g) hv.wf rfl _ (by simp), degree_coeff hv]
  split_ifs with h
  · subst h; ring
  · ring

/-- C08.  The Laplacian's quadratic form is the sum over edges of
`w(u,v) (x_u - x_v)^2`, plus the self-loop terms `w(u,u) x_u^2`. -/
theorem C08_laplacian_quadratic_form {g : Graph K} (h : g.Reachable) (x : Nat → K) :
    quadForm g.n g.laplacian.coeff x =
      sumPairs g.n (fun u v => g.abs.w u v * ((x u - x v) * (x u - x v))) +
        ∑ u ∈ Finset.range g.n, g.abs.w u u * (x u * x u) := by
  have hv := h.valid
  have hc : g.laplacian.coeff = fun i j => if i = j then
      ∑ k ∈ Finset.range g.n, g.abs.w i k + 0 * g.abs.w i i else (-1) * g.abs.w i j := by
    funext i j
    rw [laplacian_coeff hv]
    simp only [Graph.abs, zero_mul, add_zero, neg_one_mul]
  rw [hc, quad_identity g.n g.abs.w hv.symm (-1) 0 (by ring)]
  simp only [add_zero, one_mul, neg_one_mul, sub_eq_add_neg]

/-- C08.  The signless Laplacian's quadratic form. -/
theorem C08_signless_quadratic_form {g : Graph K} (h : g.Reachable) (x : Nat → K) :
    quadForm g.n g.signlessLaplacian.coeff x =
      sumPairs g.n (fun u v => g.abs.w u v * ((x u + x v) * (x u + x v))) +
        3 * ∑ u ∈ Finset.range g.n, g.abs.w u u * (x u * x u) := by
  have hv := h.valid
  have hc : g.signlessLaplacian.coeff = fun i j => if i = j then
      ∑ k ∈ Finset.range g.n, g.abs.w i k + 2 * g.abs.w i i else 1 * g.abs.w i j := by
    funext i j
    rw [signless_coeff hv]
    simp only [Graph.abs, one_mul]
  rw [hc, quad_identity g.n g.abs.w hv.symm 1 2 (by ring)]
  simp only [one_mul]
  norm_num

/-- C08.  Entries of `L` and `Q`: both symmetric, `L + Q = 2 D`, `Q - L = 2 A`, and each row of `L` sums
to the self-loop weight (zero without self-loops). -/
theorem C08_laplacian_entries {g : Graph K} (h : g.Reachable) :
    (∀ u v, g.laplacian.coeff u v = g.laplacian.coeff v u) ∧
    (∀ u v, g.signlessLaplacian.coeff u v = g.signlessLaplacian.coeff v u) ∧
    (∀ u v, g.laplacian.coeff u v + g.signlessLaplacian.coeff u v =
      2 * g.degreeMatrix.coeff u v) ∧
    (∀ u v, g.signlessLaplacian.coeff u v - g.laplacian.coeff u v = 2 * g.abs.w u v) ∧
    (∀ u, u < g.n → g.laplacian.coeff u u = g.abs.deg u - g.abs.w u u) ∧
    (∀ u v, u ≠ v → g.laplacian.coeff u v = - g.abs.w u v) ∧
    (∀ u, ∑ v ∈ Finset.range g.n, g.laplacian.coeff u v = g.abs.w u u) := by
  have hv := h.valid
  refine ⟨?_, ?_, ?_, ?_, ?_, ?_, ?_⟩
  · intro u v
    rw [laplacian_coeff hv, laplacian_coeff hv, hv.symm u v]
    by_cases huv : u = v
    · subst huv; rfl
    · rw [if_neg huv, if_neg (Ne.symm huv)]
  · intro u v
    rw [signless_coeff hv, signless_coeff hv, hv.symm u v]
    by_cases huv : u = v
    · subst huv; rfl
    · rw [if_neg huv, if_neg (Ne.symm huv)]
  · intro u v
    rw [laplacian_coeff hv, signless_coeff hv, degree_coeff hv]
    split_ifs <;> ring
  · intro u v
    rw [laplacian_coeff hv, signless_coeff hv]
    simp only [Graph.abs]
    split_ifs with huv
    · subst huv; ring
    · ring
  · intro u _
    rw [laplacian_coeff hv, if_pos rfl]
    simp [WGraph.deg, Graph.abs]
  · intro u v huv
    rw [laplacian_coeff hv, if_neg huv]; rfl
  · intro u
    by_cases hu : u < g.n
    · rw [← Finset.add_sum_erase _ _ (Finset.mem_range.2 hu), laplacian_coeff hv, if_pos rfl,
        ← Finset.add_sum_erase _ (fun k => g.adj.coeff u k) (Finset.mem_range.2 hu)]
      have : ∑ k ∈ (Finset.range g.n).erase u, g.laplacian.coeff u k =
          ∑ k ∈ (Finset.range g.n).erase u, - g.adj.coeff u k := by
        apply Finset.sum_congr rfl
        intro k hk
        rw [laplacian_coeff hv, if_neg (fun h => (Finset.mem_erase.1 hk).1 h.symm)]
      rw [this, Finset.sum_neg_distrib]
      simp [Graph.abs]
    · have h0 : ∀ k, g.adj.coeff u k = 0 :=
        fun k => hv.wf.coeff_of_rows_le (by rw [hv.rows]; omega) k
      simp only [Graph.abs, h0]
      apply Finset.sum_eq_zero
      intro k _
      rw [laplacian_coeff hv]
      simp [h0]

variable [IsStrictOrderedRing K]

theorem sumPairs_nonneg {n : Nat} {f : Nat → Nat → K} (h : ∀ i j, 0 ≤ f i j) :
    0 ≤ sumPairs n f :=
  Finset.sum_nonneg (fun i _ => Finset.sum_nonneg (fun j _ => h i j))

/-- C08.  With non-negative weights both forms are non-negative for every vector. -/
theorem C08_positive_semidefinite {g : Graph K} (h : g.Reachable)
    (hw : ∀ u v, 0 ≤ g.abs.w u v) (x : Nat → K) :
    0 ≤ quadForm g.n g.laplacian.coeff x ∧ 0 ≤ quadForm g.n g.signlessLaplacian.coeff x := by
  rw [C08_laplacian_quadratic_form h, C08_signless_quadratic_form h]
  have h1 : 0 ≤ ∑ u ∈ Finset.range g.n, g.abs.w u u * (x u * x u) :=
    Finset.sum_nonneg (fun u _ => mul_nonneg (hw u u) (mul_self_nonneg _))
  constructor
  · exact add_nonneg (sumPairs_nonneg (fun u v => mul_nonneg (hw u v) (mul_self_nonneg _))) h1
  · exact add_nonneg (sumPairs_nonneg (fun u v => mul_nonneg (hw u v) (mul_self_nonneg _)))
      (mul_nonneg (by norm_num) h1)

/-! ### C11 -/

/-- C11.  `inverse_degree_matrix()` is diagonal; the entry of a vertex of non-zero degree is
`1/degree`. -/
theorem C11_inverse_degree_partial {g : Graph K} (h : g.Reachable) (v : Nat) (hv : v < g.n) :
    (g.abs.deg v ≠ 0 → g.inverseDegreeMatrix.coeff v v = .fin (1 / g.abs.deg v)) ∧
    (∀ u, u ≠ v → g.inverseDegreeMatrix.coeff u v = .fin 0) := by
  have hval := h.valid
  have hd := (C07_degree h v hv).2.1
  unfold inverseDegreeMatrix
  constructor
  · intro hne
    rw [SprsMat.coeff_diag, if_pos ⟨rfl, by rw [hval.cols]; exact hv⟩, hd]
    simp [XReal.inv, hne]
  · intro u hu
    rw [SprsMat.coeff_diag, if_neg (by tauto)]
    rfl

/-- C11.  The documented value for a vertex of degree zero (`graph.h:297-298`: "0")
is not what the code computes: every such entry is `+inf`. -/
theorem C11_isolated_vertex_is_infinite {g : Graph K} (h : g.Reachable) (v : Nat)
    (hv : v < g.n) (hd0 : g.abs.deg v = 0) :
    g.inverseDegreeMatrix.coeff v v = .posInf ∧
    g.inverseDegreeMatrix.coeff v v ≠ .fin 0 := by
  have hd := (C07_degree h v hv).2.1
  have : g.inverseDegreeMatrix.coeff v v = .posInf := by
    unfold inverseDegreeMatrix
    rw [SprsMat.coeff_diag, if_pos ⟨rfl, by rw [h.valid.cols]; exact hv⟩, hd, hd0]
    simp [XReal.inv]
  exact ⟨this, by rw [this]; simp⟩

/-! ### C10 -/

theorem XReal.fin_mul_fin (a b : K) : (XReal.fin a * XReal.fin b) = XReal.fin (a * b) := rfl
theorem XReal.fin_add_fin (a b : K) : (XReal.fin a + XReal.fin b) = XReal.fin (a + b) := rfl
theorem XReal.fin_sub_fin (a b : K) : (XReal.fin a - XReal.fin b) = XReal.fin (a - b) := by
  show XReal.add (XReal.fin a) (XReal.neg (XReal.fin b)) = _
  simp [XReal.neg, XReal.add, sub_eq_add_neg]

/-- Scaling the columns of a finite matrix by finite factors stays finite. -/
theorem mulDiag_fin {m : SprsMat K} (h : m.WF) (d : Nat → XReal K) (δ : Nat → K)
    (hd : ∀ j, j < m.cols → d j = .fin (δ j)) (i j : Nat) :
    ((m.mapVal XReal.fin).mulDiag d).coeff i j = .fin (m.coeff i j * δ j) ∧
    ((m.mapVal XReal.fin).mulDiag d).WF := by
  constructor
  · unfold SprsMat.mulDiag SprsMat.coeff
    rw [SprsMat.col_ofCols]
    by_cases hj : j < m.cols
    · rw [if_pos (by exact hj), SprsMat.col_mapVal h]
      rw [hd j hj]
      generalize m.col j = c
      induction c with
      | nil => simp [Col.mapVal]; rfl
      | cons e c ih =>
        obtain ⟨r, v⟩ := e
        simp only [Col.mapVal, List.map_cons, Col.coeff_cons] at ih ⊢
        split_ifs
        · rfl
        · exact ih
    · rw [if_neg (by exact hj), h.col_nil (by omega)]
      simp; rfl
  · apply SprsMat.wf_ofCols
    intro k _
    rw [SprsMat.col_mapVal h]
    constructor
    · have := (h.sorted k).mapVal (XReal.fin (K := K))
      unfold Col.Sorted at this ⊢
      rw [List.pairwise_map]
      exact this
    · intro e he
      simp only [Col.mapVal, List.map_map, List.mem_map, Function.comp] at he
      obtain ⟨x, hx, rfl⟩ := he
      exact h.row_lt hx

/-- C10 (entries).  If all degrees are non-zero the entry `(u, v)` of the lazy random
walk matrix is `1/2 [u = v] + 1/2 w(u,v) / deg(v)`. -/
theorem C10_lazy_walk_entries {g : Graph K} (h : g.Reachable)
    (hd : ∀ v, v < g.n → g.abs.deg v ≠ 0) (u v : Nat) (hv : v < g.n) :
    g.lazyRandomWalk.coeff u v =
      .fin ((if u = v then 1 / 2 else 0) + 1 / 2 * g.abs.w u v / g.abs.deg v) := by
  have hval := h.valid
  have hmv : g.adj.mapVal (fun v => XReal.fin (1 / 2) * XReal.fin v) =
      (g.adj.mapVal (fun v => 1 / 2 * v)).mapVal XReal.fin := by
    unfold SprsMat.mapVal
    simp only [SprsMat.ofCols]
    congr 1
    apply List.map_congr_left
    intro j hj
    have : (SprsMat.mk g.adj.rows g.adj.cols (List.map (fun j => Col.mapVal (fun v => 1 / 2 * v)
        (g.adj.col j)) (List.range g.adj.cols))).col j = Col.mapVal (fun v => 1 / 2 * v)
        (g.adj.col j) := SprsMat.col_ofCols_lt (r := g.adj.rows) (by simpa using hj)
    rw [this]
    simp [Col.mapVal, XReal.fin_mul_fin]
  have hw2 : (g.adj.mapVal (fun v => 1 / 2 * v)).WF := SprsMat.wf_mapVal hval.wf _
  have key := mulDiag_fin hw2 (fun j => g.inverseDegreeMatrix.coeff j j)
    (fun j => 1 / g.abs.deg j) (by
      intro j hj
      have hj : j < g.n := by rw [← hval.cols]; exact hj
      exact (C11_inverse_degree_partial h j hj).1 (hd j hj))
  have hid : ((SprsMat.diag g.n (fun _ => XReal.fin (1 : K))).mapVal
      (fun v => XReal.fin (1 / 2) * v)).WF := SprsMat.wf_mapVal (SprsMat.wf_diag _ _) _
  unfold lazyRandomWalk
  rw [hmv, SprsMat.coeff_zipWith hid (key 0 0).2 hval.cols.symm _
      (by show XReal.fin (0 + 0) = XReal.fin 0; simp), (key u v).1,
    SprsMat.coeff_mapVal (SprsMat.wf_diag _ _) _ (by show XReal.fin _ = XReal.fin 0; simp),
    SprsMat.coeff_diag, SprsMat.coeff_mapVal hval.wf _ (by simp)]
  by_cases huv : u = v
  · rw [if_pos ⟨huv, hv⟩, if_pos huv, XReal.fin_mul_fin, XReal.fin_add_fin]
    congr 1
    simp only [Graph.abs, WGraph.deg]
    ring
  · rw [if_neg (by tauto), if_neg huv]
    show XReal.fin _ = XReal.fin _
    congr 1
    simp only [Graph.abs, WGraph.deg]
    ring

/-- The finite entry of the lazy walk matrix, as a number. -/
def lazyEntry (s : WGraph K) (u v : Nat) : K :=
  (if u = v then 1 / 2 else 0) + 1 / 2 * s.w u v / s.deg v

/-- C10.  Column sums: `1 - w(v,v) / (2 deg v)`.  Hence a column is a probability
distribution exactly when `v` has no self-loop, and the column sum is strictly below one at a positive
self-loop. -/
theorem C10_column_sums {g : Graph K} (h : g.Reachable) (hw : ∀ u v, 0 ≤ g.abs.w u v)
    (hd : ∀ v, v < g.n → 0 < g.abs.deg v) (v : Nat) (hv : v < g.n) :
    (∀ u, g.lazyRandomWalk.coeff u v = .fin (lazyEntry g.abs u v) ∧
      0 ≤ lazyEntry g.abs u v) ∧
    (g.abs.w v v = 0 → ∑ u ∈ Finset.range g.n, lazyEntry g.abs u v = 1) ∧
    (0 < g.abs.w v v → ∑ u ∈ Finset.range g.n, lazyEntry g.abs u v < 1) := by
  have hval := h.valid
  have hsum : ∑ u ∈ Finset.range g.n, lazyEntry g.abs u v =
      1 - g.abs.w v v / (2 * g.abs.deg v) := by
    unfold lazyEntry
    rw [Finset.sum_add_distrib, Finset.sum_ite_eq', if_pos (Finset.mem_range.2 hv)]
    have : ∑ u ∈ Finset.range g.n, 1 / 2 * g.abs.w u v / g.abs.deg v =
        1 / 2 * (g.abs.deg v - g.abs.w v v) / g.abs.deg v := by
      rw [← Finset.sum_div, ← Finset.mul_sum]
      congr 2
      simp only [WGraph.deg, Graph.abs]
      rw [add_sub_cancel_right]
      apply Finset.sum_congr rfl
      intro u _
      exact hval.symm u v
    rw [this]
    have hpos := hd v hv
    field_simp
    ring
  refine ⟨fun u => ⟨C10_lazy_walk_entries h (fun v hv => ne_of_gt (hd v hv)) u v hv, ?_⟩, ?_, ?_⟩
  · unfold lazyEntry
    have h1 : (0 : K) ≤ (if u = v then 1 / 2 else 0) := by split_ifs <;> norm_num
    have h2 := hw u v
    have h3 := hd v hv
    positivity
  · intro h0; rw [hsum, h0]; simp
  · intro h0
    rw [hsum]
    have h3 := hd v hv
    have : 0 < g.abs.w v v / (2 * g.abs.deg v) := by positivity
    linarith

/-- C10.  Without self-loops the degree vector is stationary. -/
theorem C10_stationary {g : Graph K} (hd : ∀ v, v < g.n → 0 < g.abs.deg v)
    (hloop : ∀ v, g.abs.w v v = 0) (u : Nat) (hu : u < g.n) :
    ∑ v ∈ Finset.range g.n, lazyEntry g.abs u v * g.abs.deg v = g.abs.deg u := by
  have : ∀ v ∈ Finset.range g.n, lazyEntry g.abs u v * g.abs.deg v =
      (if u = v then 1 / 2 * g.abs.deg v else 0) + 1 / 2 * g.abs.w u v := by
    intro v hv
    have h3 := hd v (Finset.mem_range.1 hv)
    unfold lazyEntry
    split_ifs <;> field_simp
    ring
  rw [Finset.sum_congr rfl this, Finset.sum_add_distrib, Finset.sum_ite_eq,
    if_pos (Finset.mem_range.2 hu), ← Finset.mul_sum]
  have : g.abs.deg u = ∑ v ∈ Finset.range g.n, g.abs.w u v := by
    simp only [WGraph.deg, hloop u, add_zero]; rfl
  rw [← this]; ring

end

/-! ### C09 -/

theorem diagMul_fin {m : SprsMat ℝ} (h : m.WF) (d : Nat → XReal ℝ) (δ : Nat → ℝ)
    (hd : ∀ i, i < m.rows → d i = .fin (δ i)) :
    SprsMat.diagMul d (m.mapVal XReal.fin) = (SprsMat.diagMul δ m).mapVal XReal.fin := by
  have hw : (SprsMat.diagMul δ m).WF := by
    apply SprsMat.wf_ofCols
    intro j _
    constructor
    · have := h.sorted j
      unfold Col.Sorted at this ⊢
      rw [List.pairwise_map]
      exact this
    · intro e he
      obtain ⟨x, hx, rfl⟩ := List.mem_map.1 he
      exact h.row_lt (e := x) hx
  unfold SprsMat.diagMul SprsMat.mapVal SprsMat.ofCols
  simp only
  congr 1
  apply List.map_congr_left
  intro j hj
  have e1 : (SprsMat.mk m.rows m.cols (List.map (fun j => Col.mapVal XReal.fin (m.col j))
      (List.range m.cols))).col j = Col.mapVal XReal.fin (m.col j) :=
    SprsMat.col_ofCols_lt (r := m.rows) (by simpa using hj)
  have e2 : (SprsMat.mk m.rows m.cols (List.map (fun j => List.map (fun e => (e.1, δ e.1 * e.2))
      (m.col j)) (List.range m.cols))).col j = List.map (fun e => (e.1, δ e.1 * e.2)) (m.col j) :=
    SprsMat.col_ofCols_lt (r := m.rows) (by simpa using hj)
  rw [e1, e2]
  simp only [Col.mapVal, List.map_map]
  apply List.map_congr_left
  intro e he
  simp only [Function.comp, hd e.1 (h.row_lt he)]
  rfl

theorem diagMul_wf {m : SprsMat ℝ} (h : m.WF) (δ : Nat → ℝ) : (SprsMat.diagMul δ m).WF := by
  apply SprsMat.wf_ofCols
  intro j _
  constructor
  · have := h.sorted j
    unfold Col.Sorted at this ⊢
    rw [List.pairwise_map]
    exact this
  · intro e he
    obtain ⟨x, hx, rfl⟩ := List.mem_map.1 he
    exact h.row_lt (e := x) hx

theorem diagMul_coeff {m : SprsMat ℝ} (h : m.WF) (δ : Nat → ℝ) (i j : Nat) :
    (SprsMat.diagMul δ m).coeff i j = δ i * m.coeff i j := by
  unfold SprsMat.diagMul SprsMat.coeff
  rw [SprsMat.col_ofCols_of_nil (fun k hk => by rw [h.col_nil hk]; rfl)]
  exact Col.coeff_mapRow (m.col j) (fun r v => δ r * v) (by simp) i

theorem normAdj_coeff {g : Graph ℝ} (h : g.Reachable) (hd : ∀ v, v < g.n → 0 < g.abs.deg v)
    (u v : Nat) :
    (g.normAdj Real.sqrt).coeff u v =
      .fin (1 / √(g.abs.deg u) * g.adj.coeff u v * (1 / √(g.abs.deg v))) ∧
    (g.normAdj Real.sqrt).WF := by
  have hval := h.valid
  have hfin : ∀ i, i < g.n → XReal.invSqrt Real.sqrt (g.degreeMatrix.coeff i i) =
      .fin (1 / √(g.abs.deg i)) := by
    intro i hi
    rw [(C07_degree h i hi).2.1]
    have := hd i hi
    unfold XReal.invSqrt XReal.inv
    rw [if_neg (by linarith), if_neg (by
      have := Real.sqrt_pos.2 this; exact ne_of_gt this)]
  unfold normAdj
  simp only
  rw [diagMul_fin hval.wf _ (fun i => 1 / √(g.abs.deg i)) (by rw [hval.rows]; exact hfin)]
  have := mulDiag_fin (diagMul_wf hval.wf (fun i => 1 / √(g.abs.deg i)))
    (fun i => XReal.invSqrt Real.sqrt (g.degreeMatrix.coeff i i))
    (fun i => 1 / √(g.abs.deg i))
    (by intro j hj; exact hfin j (by rw [← hval.cols]; exact hj)) u v
  rw [this.1, diagMul_coeff hval.wf]
  exact ⟨rfl, this.2⟩

/-- C09 (entries).  If all degrees are positive, the entries of the normalised and
the signless normalised Laplacian are `[u = v] ∓ w(u,v) / (√deg u · √deg v)`. -/
theorem C09_entries {g : Graph ℝ} (h : g.Reachable) (hd : ∀ v, v < g.n → 0 < g.abs.deg v)
    (u v : Nat) (hv : v < g.n) :
    (g.normLaplacian Real.sqrt).coeff u v =
      .fin ((if u = v then 1 else 0) - g.abs.w u v / (√(g.abs.deg u) * √(g.abs.deg v))) ∧
    (g.normSignlessLaplacian Real.sqrt).coeff u v =
      .fin ((if u = v then 1 else 0) + g.abs.w u v / (√(g.abs.deg u) * √(g.abs.deg v))) := by
  have hval := h.valid
  have hA := normAdj_coeff h hd
  have e : 1 / √(g.abs.deg u) * g.adj.coeff u v * (1 / √(g.abs.deg v)) =
      g.abs.w u v / (√(g.abs.deg u) * √(g.abs.deg v)) := by
    simp only [Graph.abs]
    rw [div_mul_eq_mul_div, one_mul, div_mul_div_comm, mul_one]
  constructor
  · unfold normLaplacian
    rw [SprsMat.coeff_zipWith (SprsMat.wf_diag _ _) (hA 0 0).2 hval.cols.symm _
      ((XReal.fin_sub_fin _ _).trans (by simp; rfl)), (hA u v).1, SprsMat.coeff_diag, e]
    by_cases huv : u = v
    · rw [if_pos ⟨huv, hv⟩, if_pos huv, XReal.fin_sub_fin]
    · rw [if_neg (by tauto), if_neg huv]
      exact XReal.fin_sub_fin _ _
  · unfold normSignlessLaplacian
    rw [SprsMat.coeff_zipWith (SprsMat.wf_diag _ _) (hA 0 0).2 hval.cols.symm _
      (by show XReal.fin (0 + 0) = XReal.fin 0; simp), (hA u v).1, SprsMat.coeff_diag, e]
    by_cases huv : u = v
    · rw [if_pos ⟨huv, hv⟩, if_pos huv, XReal.fin_add_fin]
    · rw [if_neg (by tauto), if_neg huv]
      exact XReal.fin_add_fin _ _

/-- The finite entry of the normalised Laplacian, as a number. -/
noncomputable def normEntry (s : WGraph ℝ) (u v : Nat) : ℝ :=
  (if u = v then 1 else 0) - s.w u v / (√(s.deg u) * √(s.deg v))

/-- C09.  With non-negative weights and positive degrees the quadratic form of the normalised Laplacian lies between
`0` and `2 |x|²` for every vector `x`: all eigenvalues are in `[0, 2]`. -/
theorem C09_spectrum_bounds {g : Graph ℝ} (h : g.Reachable) (hw : ∀ u v, 0 ≤ g.abs.w u v)
    (hd : ∀ v, v < g.n → 0 < g.abs.deg v) (x : Nat → ℝ) :
    (∀ u v, v < g.n → (g.normLaplacian Real.sqrt).coeff u v = .fin (normEntry g.abs u v)) ∧
    0 ≤ quadForm g.n (normEntry g.abs) x ∧
    quadForm g.n (normEntry g.abs) x ≤ 2 * ∑ u ∈ Finset.range g.n, x u * x u := by
  have hval := h.valid
  refine ⟨fun u v hv => (C09_entries h hd u v hv).1, ?_⟩
  set y : Nat → ℝ := fun i => x i / √(g.abs.deg i) with hy
  have hsq : ∀ i, i < g.n → √(g.abs.deg i) * √(g.abs.deg i) = g.abs.deg i :=
    fun i hi => Real.mul_self_sqrt (le_of_lt (hd i hi))
  have hsp : ∀ i, i < g.n → 0 < √(g.abs.deg i) := fun i hi => Real.sqrt_pos.2 (hd i hi)
  -- the two forms as forms of L and Q in y
  have hN : quadForm g.n (normEntry g.abs) x = quadForm g.n g.laplacian.coeff y := by
    unfold quadForm
    apply Finset.sum_congr rfl
    intro i hi
    apply Finset.sum_congr rfl
    intro j hj
    have hi := Finset.mem_range.1 hi
    have hj := Finset.mem_range.1 hj
    have h1 := hsp i hi
    have h2 := hsp j hj
    have h3 := hsq i hi
    simp only [hy, normEntry]
    by_cases hij : i = j
    · subst hij
      rw [if_pos rfl, (C08_laplacian_entries h).2.2.2.2.1 i hi]
      generalize √(g.abs.deg i) = r at *
      rw [← h3]
      field_simp
    · rw [if_neg hij, (C08_laplacian_entries h).2.2.2.2.2.1 i j hij]
      field_simp
      ring
  have hQ : 2 * ∑ u ∈ Finset.range g.n, x u * x u - quadForm g.n (normEntry g.abs) x =
      quadForm g.n g.signlessLaplacian.coeff y := by
    have h5 : 2 * ∑ u ∈ Finset.range g.n, x u * x u =
        quadForm g.n (fun u v => 2 * g.degreeMatrix.coeff u v) y := by
      unfold quadForm
      rw [Finset.mul_sum]
      apply Finset.sum_congr rfl
      intro i hi
      rw [Finset.sum_eq_single i]
      · have hi := Finset.mem_range.1 hi
        have h1 := hsp i hi
        have h3 := hsq i hi
        simp only [hy]
        rw [(C07_degree h i hi).2.1]
        generalize √(g.abs.deg i) = r at *
        rw [← h3]
        field_simp
      · intro j _ hj
        simp only
        rw [degree_coeff hval, if_neg (Ne.symm hj)]
        ring
      · intro hh; exact absurd hi hh
    rw [h5, hN]
    unfold quadForm
    rw [← Finset.sum_sub_distrib]
    apply Finset.sum_congr rfl
    intro i _
    rw [← Finset.sum_sub_distrib]
    apply Finset.sum_congr rfl
    intro j _
    simp only
    rw [← (C08_laplacian_entries h).2.2.1 i j]
    ring
  obtain ⟨p1, p2⟩ := C08_positive_semidefinite h hw y
  constructor
  · rw [hN]; exact p1
  · linarith [hQ, p2]

/-- C09.  The two normalised matrices add up to twice the identity. -/
theorem C09_sum {g : Graph ℝ} (h : g.Reachable) (hd : ∀ v, v < g.n → 0 < g.abs.deg v)
    (u v : Nat) (hv : v < g.n) :
    (g.normLaplacian Real.sqrt).coeff u v + (g.normSignlessLaplacian Real.sqrt).coeff u v =
      .fin (if u = v then 2 else 0) := by
  obtain ⟨h1, h2⟩ := C09_entries h hd u v hv
  rw [h1, h2]
  show XReal.fin _ = XReal.fin _
  congr 1
  split_ifs <;> ring

/-! ### Concrete cases -/

example : exAfter.Reachable ∧ (∀ v, v < exAfter.n → exAfter.abs.deg v ≠ 0) := by
  refine ⟨exAfter_reachable, fun v hv => ?_⟩
  have hv : v < 5 := hv
  have : ∀ v, v < 5 → exAfter.degreeMatrix.coeff v v ≠ 0 := by decide +kernel
  rw [← (C07_degree exAfter_reachable v hv).2.1]
  exact this v hv

/-- A graph with an isolated vertex meets the hypotheses of the `+inf` theorem. -/
example : ∃ g : Graph ℚ, ofMatrix ⟨3, 3, [[(1, 1)], [(0, 1)], []]⟩ = .ok g ∧
    g.inverseDegreeMatrix.coeff 2 2 = .posInf ∧ g.inverseDegreeMatrix.coeff 0 0 = .fin 1 :=
  ⟨⟨3, ⟨3, 3, [[(1, 1)], [(0, 1)], []]⟩, false⟩, by decide +kernel, by decide +kernel,
    by decide +kernel⟩

/-- Lazy walk of a path with a self-loop at its end. -/
example : ∃ g : Graph ℚ, ofMatrix ⟨2, 2, [[(1, 1)], [(0, 1), (1, 1)]]⟩ = .ok g ∧
    g.lazyRandomWalk.coeff 0 0 = .fin (1 / 2) ∧ g.lazyRandomWalk.coeff 1 0 = .fin (1 / 2) ∧
    g.lazyRandomWalk.coeff 0 1 = .fin (1 / 6) ∧ g.lazyRandomWalk.coeff 1 1 = .fin (2 / 3) :=
  ⟨⟨2, ⟨2, 2, [[(1, 1)], [(0, 1), (1, 1)]]⟩, true⟩, by decide +kernel, by decide +kernel,
    by decide +kernel, by decide +kernel, by decide +kernel⟩

/-- A real graph meeting the hypotheses of C09: one edge of weight one. -/
noncomputable def exReal : Graph ℝ := ⟨2, ⟨2, 2, [[(1, 1)], [(0, 1)]]⟩, false⟩

theorem exReal_reachable : exReal.Reachable := by
  have hwf : exReal.adj.WF := by
    refine ⟨rfl, fun j => ?_⟩
    match j with
    | 0 => simp [SprsMat.col, exReal, Col.Sorted]
    | 1 => simp [SprsMat.col, exReal, Col.Sorted]
    | j + 2 => simp [SprsMat.col, exReal, Col.Sorted]
  have hnn : ∀ j, ∀ e ∈ exReal.adj.col j, 0 ≤ e.2 := by
    intro j e he
    match j with
    | 0 => simp [SprsMat.col, exReal] at he; subst he; norm_num
    | 1 => simp [SprsMat.col, exReal] at he; subst he; norm_num
    | j + 2 => simp [SprsMat.col, exReal] at he
  have hneg : foundNegative exReal.adj = false := by
    rw [← Bool.not_eq_true, foundNegative_iff hwf]
    rintro ⟨j, e, he, hlt⟩
    exact absurd (hnn j e he) (not_le.2 hlt)
  have heps : (epsilon : ℝ) < 1 := by unfold epsilon; norm_num
  have hprune : exReal.adj.prune (fun v => decide (epsilon < v)) = exReal.adj := by
    simp [SprsMat.prune, SprsMat.ofCols, SprsMat.col, exReal, List.range_succ, heps]
  refine ⟨exReal.adj, exReal, [], hwf, ?_, rfl⟩
  rw [ofMatrix_of_adj hwf rfl (adjFromAdjOrLap_nonneg hneg), hprune]
  have hs : exReal.adj.isSymmetric = true := by
    simp [SprsMat.isSymmetric, exReal, List.range_succ, SprsMat.col, SprsMat.coeff, Col.coeff]
  rw [if_pos hs]
  simp [exReal, anySelfLoop, List.range_succ, SprsMat.coeff, SprsMat.col, Col.coeff]

example : exReal.Reachable ∧ (∀ v, v < exReal.n → 0 < exReal.abs.deg v) := by
  refine ⟨exReal_reachable, fun v hv => ?_⟩
  have hv : v < 2 := hv
  interval_cases v <;>
    simp [WGraph.deg, Graph.abs, exReal, Finset.sum_range_succ, SprsMat.coeff, SprsMat.col,
      Col.coeff]

end Stag
