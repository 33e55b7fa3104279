import Verif.Graph
import Verif.SparseLemmas
import Mathlib.Algebra.BigOperators.Intervals
import Mathlib.Tactic.Abel
import Mathlib.Tactic.Positivity
import Mathlib.Algebra.Order.BigOperators.Group.Finset

/-! Helper lemmas about the `Graph` model. -/

set_option linter.unusedSectionVars false
set_option linter.unusedSimpArgs false

namespace Stag

/-- Splitting a square double sum into the two triangles and the diagonal. -/
theorem sum_square {M : Type} [AddCommMonoid M] (n : Nat) (f : Nat → Nat → M) :
    ∑ i ∈ Finset.range n, ∑ j ∈ Finset.range n, f i j =
      ∑ i ∈ Finset.range n, ∑ j ∈ Finset.range i, (f i j + f j i) +
        ∑ i ∈ Finset.range n, f i i := by
  induction n with
  | zero => simp
  | succ n ih =>
    rw [Finset.sum_range_succ]
    simp only [Finset.sum_range_succ _ n]
    rw [Finset.sum_add_distrib, ih, Finset.sum_add_distrib]
    abel

namespace SprsMat
variable {K : Type}

theorem WF.inRange {m : SprsMat K} (h : m.WF) : m.inRange = true := by
  unfold SprsMat.inRange
  simp only [List.all_eq_true, List.mem_range, decide_eq_true_eq]
  intro j _ e he
  exact h.row_lt he

theorem isSymmetric_iff [Zero K] [DecidableEq K] {m : SprsMat K} (h : m.WF)
    (_hsq : m.rows = m.cols) :
    m.isSymmetric = true ↔ ∀ i j, m.coeff i j = m.coeff j i := by
  unfold isSymmetric
  simp only [List.all_eq_true, List.mem_range, decide_eq_true_eq]
  constructor
  · intro hs
    have key : ∀ i j, m.coeff i j ≠ 0 → m.coeff i j = m.coeff j i := by
      intro i j hij
      have hj : j < m.cols := by
        by_contra hj
        exact hij (h.coeff_of_cols_le (by omega) i)
      exact hs j hj _ (Col.mem_of_coeff_ne_zero hij)
    intro i j
    by_cases h1 : m.coeff i j = 0
    · by_cases h2 : m.coeff j i = 0
      · rw [h1, h2]
      · exact (key j i h2).symm
    · exact key i j h1
  · intro hs k _ e he
    have : m.coeff e.1 k = e.2 := Col.coeff_eq_of_mem (h.sorted k) he
    rw [← this, hs]

end SprsMat

section
variable {K : Type} [Field K] [LinearOrder K]

theorem foundNegative_iff {m : SprsMat K} (h : m.WF) :
    foundNegative m = true ↔ ∃ j, ∃ e ∈ m.col j, e.2 < 0 := by
  unfold foundNegative
  simp only [List.any_eq_true, List.mem_range, decide_eq_true_eq]
  constructor
  · rintro ⟨j, _, e, he, h⟩; exact ⟨j, e, he, h⟩
  · rintro ⟨j, e, he, hlt⟩
    refine ⟨j, ?_, e, he, hlt⟩
    by_contra hj
    rw [h.col_nil (by omega)] at he
    simp at he

theorem positiveOffDiagonal_iff {m : SprsMat K} (h : m.WF) :
    positiveOffDiagonal m = true ↔ ∃ j, ∃ e ∈ m.col j, 0 ≤ e.2 ∧ e.1 ≠ j := by
  unfold positiveOffDiagonal
  simp only [List.any_eq_true, List.mem_range, decide_eq_true_eq, Bool.and_eq_true,
    Bool.not_eq_true', decide_eq_false_iff_not, not_lt]
  constructor
  · rintro ⟨j, _, e, he, h⟩; exact ⟨j, e, he, h⟩
  · rintro ⟨j, e, he, hlt⟩
    refine ⟨j, ?_, e, he, hlt⟩
    by_contra hj
    rw [h.col_nil (by omega)] at he
    simp at he

theorem colTotal_eq {m : SprsMat K} (h : m.WF) (j : Nat) :
    ((m.col j).map Prod.snd).sum = ∑ i ∈ Finset.range m.rows, m.coeff i j :=
  Col.sum_map_eq (h.sorted j) (fun _ he => h.row_lt he) (fun _ v => v) (fun _ => rfl)

theorem diagonallyDominant_iff {m : SprsMat K} (h : m.WF) :
    diagonallyDominant m = true ↔
      ∀ j, j < m.cols → 0 ≤ ∑ i ∈ Finset.range m.rows, m.coeff i j := by
  unfold diagonallyDominant
  simp only [List.all_eq_true, List.mem_range, Bool.not_eq_true', decide_eq_false_iff_not, not_lt,
    colTotal_eq h]

theorem foldl_diag_spec (d : Nat → K) (k : Nat) (m : SprsMat K) (h : m.WF)
    (hr : k ≤ m.rows) (hc : k ≤ m.cols) :
    let m' := (List.range k).foldl (fun a i => a.update i i (fun _ => d i)) m
    m'.WF ∧ m'.rows = m.rows ∧ m'.cols = m.cols ∧
      (∀ i j, m'.coeff i j = if i = j ∧ i < k then d i else m.coeff i j) ∧
      (∀ i j, (∃ v, (i, v) ∈ m'.col j) ↔ (∃ v, (i, v) ∈ m.col j) ∨ (i = j ∧ i < k)) := by
  induction k with
  | zero => simp [h]
  | succ k ih =>
    obtain ⟨h1, h2, h3, h4, h5⟩ := ih (by omega) (by omega)
    rw [List.range_succ, List.foldl_append]
    simp only [List.foldl_cons, List.foldl_nil]
    refine ⟨SprsMat.wf_update h1 (by omega) _, by simpa using h2, by simpa using h3, ?_, ?_⟩
    · intro i j
      rw [SprsMat.coeff_update h1 (by omega), h4]
      by_cases hij : i = k ∧ j = k
      · obtain ⟨rfl, rfl⟩ := hij; simp
      · rw [if_neg hij]
        by_cases h6 : i = j ∧ i < k
        · rw [if_pos h6, if_pos (by omega)]
        · rw [if_neg h6, if_neg (by omega)]
    · intro i j
      rw [SprsMat.col_update h1 (by omega)]
      split_ifs with hj
      · subst hj
        rw [Col.exists_mem_update, h5]
        constructor
        · rintro (rfl | h | h)
          · exact Or.inr (by omega)
          · exact Or.inl h
          · exact Or.inr (by omega)
        · rintro (h | h)
          · exact Or.inr (Or.inl h)
          · exact Or.inl h.1
      · rw [h5]
        constructor
        · rintro (h | h)
          · exact Or.inl h
          · exact Or.inr (by omega)
        · rintro (h | h)
          · exact Or.inl h
          · exact Or.inr (by omega)

theorem lapToAdj_spec {m : SprsMat K} (h : m.WF) (hsq : m.rows = m.cols) :
    (lapToAdj m).WF ∧ (lapToAdj m).rows = m.rows ∧ (lapToAdj m).cols = m.cols ∧
      ∀ i j, (lapToAdj m).coeff i j =
        if i = j then ∑ k ∈ Finset.range m.cols, m.coeff i k else - m.coeff i j := by
  obtain ⟨h1, h2, h3, h4, _⟩ := foldl_diag_spec m.rowSum m.cols (m.mapVal (fun v => -v))
    (SprsMat.wf_mapVal h _) (by simp [SprsMat.mapVal, hsq]) (by simp [SprsMat.mapVal])
  refine ⟨h1, h2, h3, fun i j => ?_⟩
  rw [show (lapToAdj m).coeff i j = _ from h4 i j, SprsMat.coeff_mapVal h _ (by simp)]
  by_cases hij : i = j
  · subst hij
    by_cases hi : i < m.cols
    · rw [if_pos ⟨rfl, hi⟩, if_pos rfl, SprsMat.rowSum_eq h]
    · rw [if_neg (by omega), if_pos rfl, h.coeff_of_cols_le (by omega), neg_zero]
      symm
      apply Finset.sum_eq_zero
      intro k _
      exact h.coeff_of_rows_le (by omega) k
  · rw [if_neg (by omega), if_neg hij]

/-- What pruning at `EPSILON` does to a coefficient. -/
def thr (x : K) : K := if epsilon < x then x else 0

theorem anySelfLoop_iff {n : Nat} {a : SprsMat K} :
    anySelfLoop n a = true ↔ ∃ i, i < n ∧ a.coeff i i ≠ 0 := by
  unfold anySelfLoop
  simp only [List.any_eq_true, List.mem_range, decide_eq_true_eq]

namespace Graph

/-- The state invariant of `stag::Graph`: square well-formed symmetric
adjacency matrix whose size is the vertex count. -/
structure Valid (g : Graph K) : Prop where
  wf : g.adj.WF
  rows : g.adj.rows = g.n
  cols : g.adj.cols = g.n
  symm : ∀ i j, g.adj.coeff i j = g.adj.coeff j i

theorem pruned_spec {a : SprsMat K} (h : a.WF) :
    (a.prune (fun v => decide (epsilon < v))).WF ∧
    (a.prune (fun v => decide (epsilon < v))).rows = a.rows ∧
    (a.prune (fun v => decide (epsilon < v))).cols = a.cols ∧
    (∀ i j, (a.prune (fun v => decide (epsilon < v))).coeff i j = thr (a.coeff i j)) ∧
    (∀ j, ∀ e ∈ (a.prune (fun v => decide (epsilon < v))).col j, epsilon < e.2) := by
  refine ⟨SprsMat.wf_prune h _, rfl, rfl, fun i j => ?_, fun j e he => ?_⟩
  · rw [SprsMat.coeff_prune h]; simp [thr]
  · simpa using (SprsMat.mem_col_prune h he).2

/-- The adjacency matrix computed by the constructor, before the symmetry
test. -/
theorem adjFromAdjOrLap_nonneg {m : SprsMat K}
    (hn : foundNegative m = false) :
    adjFromAdjOrLap m = .ok (m.prune (fun v => decide (epsilon < v))) := by
  unfold adjFromAdjOrLap
  simp [hn]

theorem adjFromAdjOrLap_lap {m : SprsMat K}
    (hn : foundNegative m = true) (hp : positiveOffDiagonal m = false)
    (hd : diagonallyDominant m = true) :
    adjFromAdjOrLap m = .ok ((lapToAdj m).prune (fun v => decide (epsilon < v))) := by
  unfold adjFromAdjOrLap
  simp [hn, hp, hd]

theorem ofMatrix_of_adj {m a : SprsMat K} (hw : m.WF) (hsq : m.rows = m.cols)
    (ha : adjFromAdjOrLap m = .ok a) :
    ofMatrix m = if a.isSymmetric then .ok ⟨a.cols, a, anySelfLoop a.cols a⟩
      else .throw .domainError := by
  unfold ofMatrix
  rw [if_neg (by simp [hsq, hw.inRange]), ha]
  rfl

/-- Facts about every graph returned by the constructor. -/
theorem ofMatrix_ok {m : SprsMat K} {g : Graph K} (h : m.WF) (hg : ofMatrix m = .ok g) :
    g.Valid ∧ (∀ j, ∀ e ∈ g.adj.col j, epsilon < e.2) ∧ g.n = m.cols ∧ m.rows = m.cols ∧
      g.selfLoops = anySelfLoop g.n g.adj ∧ adjFromAdjOrLap m = .ok g.adj := by
  unfold ofMatrix at hg
  split_ifs at hg with hsq
  have hsq : m.rows = m.cols := by
    by_contra hc
    exact hsq (Or.inl hc)
  rw [Outcome.bind_eq_ok] at hg
  obtain ⟨a, ha, hg⟩ := hg
  split_ifs at hg with hs
  cases hg
  have : ∃ a' : SprsMat K, a = a'.prune (fun v => decide (epsilon < v)) ∧ a'.WF ∧ a'.rows = m.rows ∧
      a'.cols = m.cols := by
    by_cases hn : foundNegative m = true
    · by_cases hp : positiveOffDiagonal m = true
      · simp [adjFromAdjOrLap, hn, hp] at ha
      · by_cases hd : diagonallyDominant m = true
        · rw [adjFromAdjOrLap_lap hn (by simpa using hp) hd] at ha
          cases ha
          obtain ⟨h1, h2, h3, _⟩ := lapToAdj_spec h hsq
          exact ⟨_, rfl, h1, h2, h3⟩
        · simp [adjFromAdjOrLap, hn, hp, hd] at ha
    · rw [adjFromAdjOrLap_nonneg (by simpa using hn)] at ha
      cases ha
      exact ⟨_, rfl, h, rfl, rfl⟩
  obtain ⟨a', rfl, h1, h2, h3⟩ := this
  obtain ⟨p1, p2, p3, p4, p5⟩ := pruned_spec h1
  refine ⟨⟨p1, ?_, rfl, ?_⟩, p5, ?_, hsq, rfl, ha⟩
  · simp only; omega
  · exact (SprsMat.isSymmetric_iff p1 (by omega)).1 hs
  · simp only; omega

theorem degree_wf (g : Graph K) : g.degreeMatrix.WF := SprsMat.wf_diag _ _

theorem laplacian_wf {g : Graph K} (hv : g.Valid) : g.laplacian.WF :=
  SprsMat.wf_zipWith (SprsMat.wf_diag _ _) hv.wf (by
    simp only [SprsMat.rows_diag]; rw [hv.rows, hv.cols]) _

theorem degree_coeff {g : Graph K} (hv : g.Valid) (i j : Nat) :
    g.degreeMatrix.coeff i j =
      if i = j then ∑ k ∈ Finset.range g.n, g.adj.coeff i k + g.adj.coeff i i else 0 := by
  unfold degreeMatrix
  rw [SprsMat.coeff_diag, hv.cols, SprsMat.rowSum_eq hv.wf, hv.cols]
  by_cases hij : i = j
  · subst hij
    by_cases hi : i < g.n
    · simp [hi]
    · rw [if_neg (by omega), if_pos rfl]
      have : ∀ k, g.adj.coeff i k = 0 :=
        fun k => hv.wf.coeff_of_rows_le (by rw [hv.rows]; omega) k
      simp [this]
  · simp [hij]

theorem laplacian_coeff {g : Graph K} (hv : g.Valid) (i j : Nat) :
    g.laplacian.coeff i j =
      if i = j then ∑ k ∈ Finset.range g.n, g.adj.coeff i k else - g.adj.coeff i j := by
  unfold laplacian
  rw [SprsMat.coeff_zipWith (degree_wf g) hv.wf rfl _ (by simp), degree_coeff hv]
  split_ifs with h
  · subst h; ring
  · ring


end Graph

theorem epsilon_pos [IsStrictOrderedRing K] : (0 : K) < epsilon := by unfold epsilon; positivity

end
end Stag
