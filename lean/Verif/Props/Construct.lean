import Verif.GraphLemmas
import Mathlib.Algebra.Field.Rat
import Mathlib.Algebra.Order.Field.Rat
import Mathlib.Tactic.NormNum

/-!
# C01, C02, C18: graph construction

`m.WF` says `m` is a well-formed compressed sparse matrix, `m.rows = m.cols`
that it is square.  `thr x` is `x` if `x` exceeds the pruning threshold 1e-10
and `0` otherwise.
-/

namespace Stag
open Graph

variable {K : Type} [Field K] [LinearOrder K]

/-- C18.  `isSymmetric` decides symmetry of the coefficients of any square matrix, stored zeros
included. -/
theorem C18_isSymmetric_iff {m : SprsMat K} (h : m.WF) (hsq : m.rows = m.cols) :
    m.isSymmetric = true ↔ ∀ i j, m.coeff i j = m.coeff j i :=
  SprsMat.isSymmetric_iff h hsq

/-- C01 (adjacency matrices): a square matrix without negative stored entries is
accepted exactly when the thresholded matrix is symmetric; otherwise a domain
error is raised (never undefined behaviour, never another exception). -/
theorem C01_construct_adjacency_iff {m : SprsMat K} (h : m.WF) (hsq : m.rows = m.cols)
    (hn : ∀ j, ∀ e ∈ m.col j, 0 ≤ e.2) :
    ((∃ g, ofMatrix m = .ok g) ↔ ∀ i j, thr (m.coeff i j) = thr (m.coeff j i)) ∧
    (¬ (∀ i j, thr (m.coeff i j) = thr (m.coeff j i)) → ofMatrix m = .throw .domainError) ∧
    (∀ g, ofMatrix m = .ok g →
      g.n = m.cols ∧ ∀ i j, g.adj.coeff i j = thr (m.coeff i j)) := by
  have hneg : foundNegative m = false := by
    rw [← Bool.not_eq_true, foundNegative_iff h]
    rintro ⟨j, e, he, hlt⟩
    exact absurd (hn j e he) (not_le.2 hlt)
  obtain ⟨p1, p2, p3, p4, p5⟩ := pruned_spec h
  have hof := ofMatrix_of_adj h hsq (adjFromAdjOrLap_nonneg hneg)
  have hsymm := SprsMat.isSymmetric_iff p1 (by omega)
  simp only [p4] at hsymm
  rw [← hsymm, hof]
  refine ⟨?_, ?_, ?_⟩
  · constructor
    · rintro ⟨g, hg⟩
      by_contra hs
      rw [if_neg hs] at hg
      cases hg
    · intro hs
      rw [if_pos hs]
      exact ⟨_, rfl⟩
  · intro hs
    rw [if_neg hs]
  · intro g hg
    split_ifs at hg
    cases hg
    exact ⟨p3, p4⟩

/-- The adjacency weights a Laplacian matrix `m` denotes: negated off-diagonal
entries, row sums on the diagonal. -/
def lapWeights (m : SprsMat K) (i j : Nat) : K :=
  if i = j then ∑ k ∈ Finset.range m.cols, m.coeff i k else - m.coeff i j

/-- C01 (Laplacian matrices): a square matrix with a negative entry is accepted
exactly when no stored off-diagonal entry is non-negative, no column sum is
negative and the denoted weights are symmetric after thresholding; otherwise a
domain error is raised. -/
theorem C01_construct_laplacian_iff {m : SprsMat K} (h : m.WF) (hsq : m.rows = m.cols)
    (hn : ∃ j, ∃ e ∈ m.col j, e.2 < 0) :
    ((∃ g, ofMatrix m = .ok g) ↔
      (∀ j, ∀ e ∈ m.col j, e.1 ≠ j → e.2 < 0) ∧
      (∀ j, j < m.cols → 0 ≤ ∑ i ∈ Finset.range m.rows, m.coeff i j) ∧
      (∀ i j, thr (lapWeights m i j) = thr (lapWeights m j i))) ∧
    ((∀ g, ofMatrix m ≠ .ok g) → ofMatrix m = .throw .domainError) ∧
    (∀ g, ofMatrix m = .ok g →
      g.n = m.cols ∧ ∀ i j, g.adj.coeff i j = thr (lapWeights m i j)) := by
  have hneg : foundNegative m = true := (foundNegative_iff h).2 hn
  have hpos : positiveOffDiagonal m = false ↔ (∀ j, ∀ e ∈ m.col j, e.1 ≠ j → e.2 < 0) := by
    rw [← Bool.not_eq_true, positiveOffDiagonal_iff h]
    push Not
    constructor
    · intro hh j e he hne
      by_contra hlt
      exact hne (hh j e he (not_lt.1 hlt))
    · intro hh j e he hle
      by_contra hne
      exact absurd (hh j e he hne) (not_lt.2 hle)
  by_cases hp : positiveOffDiagonal m = false
  · by_cases hd : diagonallyDominant m = true
    · obtain ⟨l1, l2, l3, l4⟩ := lapToAdj_spec h hsq
      obtain ⟨p1, p2, p3, p4, p5⟩ := pruned_spec l1
      have hof := ofMatrix_of_adj h hsq (adjFromAdjOrLap_lap hneg hp hd)
      have hsymm := SprsMat.isSymmetric_iff p1 (by omega)
      have p4' : ∀ i j, (SprsMat.prune (fun v => decide (epsilon < v)) (lapToAdj m)).coeff i j =
          thr (lapWeights m i j) := by
        intro i j; rw [p4, l4, lapWeights]
      simp only [p4'] at hsymm
      rw [← hsymm, hof]
      refine ⟨?_, ?_, ?_⟩
      · constructor
        · rintro ⟨g, hg⟩
          split_ifs at hg with hs
          exact ⟨hpos.1 hp, (diagonallyDominant_iff h).1 hd, hs⟩
        · rintro ⟨-, -, hs⟩
          rw [if_pos hs]
          exact ⟨_, rfl⟩
      · intro hs
        split_ifs with h1
        · rw [if_pos h1] at hs; exact absurd rfl (hs _)
        · rfl
      · intro g hg
        split_ifs at hg
        cases hg
        exact ⟨by simp only; omega, p4'⟩
    · have hof : ofMatrix m = .throw .domainError := by
        unfold ofMatrix
        rw [if_neg (by simp [hsq, h.inRange])]
        simp [adjFromAdjOrLap, hneg, hp, hd]
      rw [hof]
      refine ⟨⟨?_, ?_⟩, fun _ => rfl, ?_⟩
      · rintro ⟨g, hg⟩; cases hg
      · rintro ⟨-, h2, -⟩
        exact absurd ((diagonallyDominant_iff h).2 h2) hd
      · intro g hg; cases hg
  · have hof : ofMatrix m = .throw .domainError := by
      unfold ofMatrix
      rw [if_neg (by simp [hsq, h.inRange])]
      simp [adjFromAdjOrLap, hneg, hp]
    rw [hof]
    refine ⟨⟨?_, ?_⟩, fun _ => rfl, ?_⟩
    · rintro ⟨g, hg⟩; cases hg
    · rintro ⟨h1, -, -⟩
      exact absurd (hpos.2 h1) hp
    · intro g hg; cases hg

/-- C01 (soundness): whatever square or non-square matrix is given, a constructed graph has a
symmetric adjacency matrix of size `number_of_vertices` all of whose stored
entries exceed 1e-10, and `has_self_loops` is exact. -/
theorem C01_constructed_graph_sound {m : SprsMat K} {g : Graph K} (h : m.WF)
    (hg : ofMatrix m = .ok g) :
    (∀ i j, g.adj.coeff i j = g.adj.coeff j i) ∧
    (∀ j, ∀ e ∈ g.adj.col j, epsilon < e.2) ∧
    g.adj.rows = g.n ∧ g.adj.cols = g.n ∧ g.adj.WF ∧
    (g.selfLoops = true ↔ ∃ i, i < g.n ∧ g.adj.coeff i i ≠ 0) := by
  obtain ⟨hv, he, _, _, hl, _⟩ := ofMatrix_ok h hg
  exact ⟨hv.symm, he, hv.rows, hv.cols, hv.wf, by rw [hl, anySelfLoop_iff]⟩

section
variable [IsStrictOrderedRing K]

/-- C02.  Building a graph from the Laplacian of a graph recovers it: same
vertices, same stored matrix, equal by `operator==`; self-loops and isolated
vertices included. -/
theorem C02_laplacian_round_trip {g : Graph K} (hv : g.Valid)
    (hpos : ∀ j, ∀ e ∈ g.adj.col j, epsilon < e.2) :
    ∃ g', ofMatrix g.laplacian = .ok g' ∧ g'.n = g.n ∧ g'.adj = g.adj ∧ g'.beq g = true := by
  have hw := laplacian_wf hv
  have hr : g.laplacian.rows = g.n := by
    simp [laplacian, SprsMat.zipWith, degreeMatrix, hv.cols]
  have hc : g.laplacian.cols = g.n := by
    simp [laplacian, SprsMat.zipWith, degreeMatrix, hv.cols]
  have hco : ∀ i j, g.adj.coeff i j = 0 ∨ epsilon < g.adj.coeff i j := by
    intro i j
    by_cases h0 : g.adj.coeff i j = 0
    · exact Or.inl h0
    · exact Or.inr (hpos j _ (Col.mem_of_coeff_ne_zero h0))
  have hnn : ∀ i j, 0 ≤ g.adj.coeff i j := by
    intro i j
    rcases hco i j with h | h
    · rw [h]
    · exact le_trans (le_of_lt epsilon_pos) (le_of_lt h)
  have hthr : ∀ i j, thr (g.adj.coeff i j) = g.adj.coeff i j := by
    intro i j
    unfold thr
    rcases hco i j with h | h
    · rw [h]; split_ifs <;> rfl
    · rw [if_pos h]
  have hnz : g.adj.NoZeros := fun j e he => ne_of_gt (lt_trans epsilon_pos (hpos j e he))
  -- the off-diagonal part of a row sum of the Laplacian
  have hrow : ∀ i, ∑ k ∈ Finset.range g.n, g.laplacian.coeff i k = g.adj.coeff i i := by
    intro i
    by_cases hi : i < g.n
    · rw [← Finset.add_sum_erase _ _ (Finset.mem_range.2 hi), laplacian_coeff hv, if_pos rfl,
        ← Finset.add_sum_erase _ (fun k => g.adj.coeff i k) (Finset.mem_range.2 hi)]
      have : ∑ k ∈ (Finset.range g.n).erase i, g.laplacian.coeff i k =
          ∑ k ∈ (Finset.range g.n).erase i, - g.adj.coeff i k := by
        apply Finset.sum_congr rfl
        intro k hk
        rw [laplacian_coeff hv, if_neg (fun h => (Finset.mem_erase.1 hk).1 h.symm)]
      rw [this, Finset.sum_neg_distrib]; ring
    · have : ∀ k, g.adj.coeff i k = 0 :=
        fun k => hv.wf.coeff_of_rows_le (by rw [hv.rows]; omega) k
      rw [this]
      apply Finset.sum_eq_zero
      intro k _
      rw [laplacian_coeff hv]
      simp [this]
  have hdiag : ∀ i, 0 ≤ g.laplacian.coeff i i := by
    intro i
    rw [laplacian_coeff hv, if_pos rfl]
    exact Finset.sum_nonneg (fun k _ => hnn i k)
  have finish : ∀ g', ofMatrix g.laplacian = .ok g' →
      (∀ i j, g'.adj.coeff i j = g.adj.coeff i j) →
      g'.n = g.n ∧ g'.adj = g.adj ∧ g'.beq g = true := by
    intro g' hg' hcoe
    obtain ⟨hv', he', hn', _, _, _⟩ := ofMatrix_ok hw hg'
    have hadj : g'.adj = g.adj := SprsMat.ext_coeff hv'.wf hv.wf
      (fun j e he => ne_of_gt (lt_trans epsilon_pos (he' j e he))) hnz
      (by rw [hv'.rows, hv.rows, hn', hc]) (by rw [hv'.cols, hv.cols, hn', hc]) hcoe
    refine ⟨by rw [hn', hc], hadj, ?_⟩
    unfold beq
    rw [hadj]
    simp
  by_cases hneg : ∃ j, ∃ e ∈ g.laplacian.col j, e.2 < 0
  · obtain ⟨h1, _, h3⟩ := C01_construct_laplacian_iff hw (by omega) hneg
    have hlw : ∀ i j, lapWeights g.laplacian i j = g.adj.coeff i j := by
      intro i j
      unfold lapWeights
      rw [hc]
      split_ifs with hij
      · rw [hrow, hij]
      · rw [laplacian_coeff hv, if_neg hij, neg_neg]
    have h1' := h1.2
    refine Exists.elim (h1' ⟨?_, ?_, ?_⟩) (fun g' hg' =>
      ⟨g', hg', finish g' hg' (fun i j => by rw [(h3 g' hg').2, hlw, hthr])⟩)
    · intro j e he hne
      -- an off-diagonal stored entry comes from a stored entry of the adjacency matrix
      have hval : g.laplacian.coeff e.1 j = e.2 := Col.coeff_eq_of_mem (hw.sorted j) he
      rw [laplacian_coeff hv, if_neg hne] at hval
      have hst : ∃ w, (e.1, w) ∈ g.adj.col j := by
        have he2 : e ∈ Col.merge (· - ·) (g.degreeMatrix.col j) (g.adj.col j) := by
          rw [← SprsMat.col_zipWith (degree_wf g) hv.wf rfl]; exact he
        rcases Col.mem_merge_row _ _ _ _ he2 with ⟨w, hw'⟩ | h
        · unfold degreeMatrix at hw'
          rw [SprsMat.col_diag] at hw'
          split_ifs at hw'
          · simp only [List.mem_singleton, Prod.mk.injEq] at hw'
            exact absurd hw'.1 hne
          · simp at hw'
        · exact h
      obtain ⟨w, hw'⟩ := hst
      have h4 := hpos j _ hw'
      have h5 : g.adj.coeff e.1 j = w := Col.coeff_eq_of_mem (hv.wf.sorted j) hw'
      rw [← hval, h5]
      simp only at h4
      have := epsilon_pos (K := K)
      linarith
    · intro j hj
      have : ∑ i ∈ Finset.range g.laplacian.rows, g.laplacian.coeff i j =
          ∑ i ∈ Finset.range g.n, g.laplacian.coeff j i := by
        rw [hr]
        apply Finset.sum_congr rfl
        intro i _
        rw [laplacian_coeff hv, laplacian_coeff hv]
        by_cases hij : i = j
        · subst hij; rfl
        · rw [if_neg hij, if_neg (Ne.symm hij), hv.symm]
      rw [this, hrow]
      exact hnn j j
    · intro i j
      rw [hlw, hlw, hv.symm]
  · push Not at hneg
    obtain ⟨h1, _, h3⟩ := C01_construct_adjacency_iff hw (by omega) hneg
    -- no negative entry: the graph has no edges between distinct vertices
    have hoff : ∀ i j, i ≠ j → g.adj.coeff i j = 0 := by
      intro i j hij
      by_contra hne
      have hlt : epsilon < g.adj.coeff i j := (hco i j).resolve_left hne
      have hl : g.laplacian.coeff i j = - g.adj.coeff i j := by
        rw [laplacian_coeff hv, if_neg hij]
      have hne' : g.laplacian.coeff i j ≠ 0 := by rw [hl]; simpa using hne
      have := hneg j _ (Col.mem_of_coeff_ne_zero hne')
      simp only at this
      change 0 ≤ g.laplacian.coeff i j at this
      rw [hl] at this
      have := epsilon_pos (K := K)
      linarith
    have hl : ∀ i j, g.laplacian.coeff i j = g.adj.coeff i j := by
      intro i j
      rw [laplacian_coeff hv]
      split_ifs with hij
      · subst hij
        by_cases hi : i < g.n
        · rw [Finset.sum_eq_single i]
          · intro k _ hk; exact hoff i k (Ne.symm hk)
          · intro hh; exact absurd (Finset.mem_range.2 hi) hh
        · have : ∀ k, g.adj.coeff i k = 0 :=
            fun k => hv.wf.coeff_of_rows_le (by rw [hv.rows]; omega) k
          simp [this]
      · rw [hoff i j hij, neg_zero]
    obtain ⟨g', hg'⟩ := h1.2 (fun i j => by rw [hl, hl, hv.symm])
    refine ⟨g', hg', finish g' hg' (fun i j => ?_)⟩
    rw [(h3 g' hg').2, hl, hthr]

end

/-! ### Concrete cases meeting the hypotheses -/

/-- A triangle with a self-loop at vertex 0, weights 2, 3, 1 and loop 5. -/
def exMat : SprsMat ℚ := ⟨3, 3, [[(0, 5), (1, 2), (2, 3)], [(0, 2), (2, 1)], [(0, 3), (1, 1)]]⟩

/-- The Laplacian of `exMat` as the library defines it (row sums on the diagonal). -/
def exLap : SprsMat ℚ := ⟨3, 3, [[(0, 10), (1, -2), (2, -3)], [(0, -2), (1, 3), (2, -1)],
  [(0, -3), (1, -1), (2, 4)]]⟩

def exGraph : Graph ℚ := ⟨3, exMat, true⟩

theorem exMat_wf : exMat.WF := by
  refine ⟨rfl, fun j => ?_⟩
  match j with
  | 0 => simp [SprsMat.col, exMat, Col.Sorted]
  | 1 => simp [SprsMat.col, exMat, Col.Sorted]
  | 2 => simp [SprsMat.col, exMat, Col.Sorted]
  | j + 3 => simp [SprsMat.col, exMat, Col.Sorted]

example : ofMatrix exMat = .ok exGraph := by decide +kernel
example : ofMatrix exLap = .ok exGraph := by decide +kernel
example : exGraph.laplacian = exLap := by decide +kernel
/-- An asymmetric matrix is rejected. -/
example : ofMatrix (⟨2, 2, [[(1, 1)], [(0, 2)]]⟩ : SprsMat ℚ) = .throw .domainError := by
  decide +kernel
/-- A mixed-sign matrix is rejected. -/
example : ofMatrix (⟨2, 2, [[(0, 1), (1, 1)], [(0, 1), (1, -1)]]⟩ : SprsMat ℚ) =
    .throw .domainError := by decide +kernel

theorem exGraph_valid : exGraph.Valid :=
  (ofMatrix_ok exMat_wf (g := exGraph) (by decide +kernel)).1

example : exGraph.Valid ∧ ∀ j, ∀ e ∈ exGraph.adj.col j, epsilon < e.2 :=
  ⟨exGraph_valid, (ofMatrix_ok exMat_wf (g := exGraph) (by decide +kernel)).2.1⟩

/-- The weight hypothesis of C02 cannot be dropped: after `add_edge(0, 2, 0)` (a
stored zero) the Laplacian of a one-edge graph is rejected with a domain
error. -/
theorem C02_zero_weight_edge_breaks_round_trip :
    ∃ g g' : Graph ℚ, ofMatrix ⟨2, 2, [[(1, 1)], [(0, 1)]]⟩ = .ok g ∧
      g.addEdge 0 2 0 = .ok g' ∧ ofMatrix g'.laplacian = .throw .domainError := by
  refine ⟨⟨2, ⟨2, 2, [[(1, 1)], [(0, 1)]]⟩, false⟩,
    ⟨3, ⟨3, 3, [[(1, 1), (2, 0)], [(0, 1)], [(0, 0)]]⟩, false⟩, ?_, ?_, ?_⟩ <;> decide +kernel

end Stag
