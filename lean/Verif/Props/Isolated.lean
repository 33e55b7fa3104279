import Verif.Props.Laplacian
import Verif.ClusterLemmas

/-!
# C09, C10 for graphs with isolated vertices

A vertex of degree zero makes `1 / sqrt(0)` and `1. / 0` infinite.  What the
normalised matrices then contain depends on whether the vertex has *stored*
entries: without any, its row and column are those of the identity matrix; an
explicitly stored zero (`add_edge(u, v, 0)`) becomes a NaN.
-/

set_option linter.unusedSectionVars false

namespace Stag
namespace Graph

/-- The neighbours `neighbors_unweighted(v)` reports. -/
def Lists {K : Type} [Field K] [LinearOrder K] (g : Graph K) (v u : Nat) : Prop :=
  ∃ l, g.neighborsUnweighted (v : Int) = .ok l ∧ u ∈ l

theorem lists_iff {K : Type} [Field K] [LinearOrder K] [IsStrictOrderedRing K] {g : Graph K}
    {u v : Nat} (hv : v < g.n) :
    g.Lists v u ↔ ∃ x, (u, x) ∈ g.adj.col v := by
  unfold Lists
  rw [neighborsUnweighted_eq hv]
  constructor
  · rintro ⟨l, h, hu⟩
    cases h
    obtain ⟨e, he, rfl⟩ := List.mem_map.1 hu
    exact ⟨e.2, he⟩
  · rintro ⟨x, hx⟩
    exact ⟨_, rfl, List.mem_map.2 ⟨_, hx, rfl⟩⟩

theorem nil_iff {K : Type} [Field K] [LinearOrder K] [IsStrictOrderedRing K] {g : Graph K}
    {v : Nat} (hv : v < g.n) :
    g.neighborsUnweighted (v : Int) = .ok [] ↔ g.adj.col v = [] := by
  rw [neighborsUnweighted_eq hv]
  simp

section
variable {K : Type} [Field K] [LinearOrder K] [IsStrictOrderedRing K]

theorem col_coeff_map {L : Type} [Zero L] {c : Col K} (f : Nat → K → L) (i : Nat) :
    ((∃ x, (i, x) ∈ c) →
      Col.coeff (c.map (fun e => (e.1, f e.1 e.2))) i = f i (Col.coeff c i)) ∧
    (¬ (∃ x, (i, x) ∈ c) → Col.coeff (c.map (fun e => (e.1, f e.1 e.2))) i = 0) := by
  induction c with
  | nil => simp
  | cons e c ih =>
    obtain ⟨r, v⟩ := e
    simp only [List.map_cons, Col.coeff_cons]
    by_cases hr : r = i
    · subst hr
      simp only [if_true]
      exact ⟨fun _ => trivial, fun h => absurd ⟨v, by simp⟩ h⟩
    · simp only [if_neg hr]
      have : (∃ x, (i, x) ∈ (r, v) :: c) ↔ ∃ x, (i, x) ∈ c := by
        constructor
        · rintro ⟨x, hx⟩
          rcases List.mem_cons.1 hx with h | h
          · exact absurd (by cases h; rfl) hr
          · exact ⟨x, h⟩
        · rintro ⟨x, hx⟩; exact ⟨x, List.mem_cons_of_mem _ hx⟩
      rw [this]
      exact ih

/-- The pattern of the adjacency matrix of a reachable graph is symmetric. -/
theorem pattern_symm {g : Graph K} (h : g.Reachable) (a b : Nat) :
    (∃ x, (a, x) ∈ g.adj.col b) → ∃ x, (b, x) ∈ g.adj.col a := by
  have key : g.Valid ∧ ∀ a b, (∃ x, (a, x) ∈ g.adj.col b) → ∃ x, (b, x) ∈ g.adj.col a := by
    have nz : ∀ {g : Graph K}, g.Valid → g.adj.NoZeros →
        ∀ a b, (∃ x, (a, x) ∈ g.adj.col b) → ∃ x, (b, x) ∈ g.adj.col a := by
      intro g hval hz a b ⟨x, hx⟩
      have hx0 : x ≠ 0 := hz b _ hx
      have h1 : g.adj.coeff a b = x := Col.coeff_eq_of_mem (hval.wf.sorted b) hx
      exact ⟨_, Col.mem_of_coeff_ne_zero (c := g.adj.col a) (i := b) (by
        change g.adj.coeff b a ≠ 0
        rw [← hval.symm, h1]; exact hx0)⟩
    obtain ⟨m, g₀, ops, hm, h0, hrun⟩ := h
    have hr0 : g₀.Reachable := ⟨m, g₀, [], hm, h0, rfl⟩
    refine run_induct (P := fun g => g.Valid ∧
      ∀ a b, (∃ x, (a, x) ∈ g.adj.col b) → ∃ x, (b, x) ∈ g.adj.col a) ops
      ⟨hr0.valid, nz hr0.valid ((fun j e he => ne_of_gt (lt_trans epsilon_pos ((ofMatrix_ok hm h0).2.1 j e he))))⟩ hrun ?_
    rintro g1 op g2 - ⟨hv1, hs1⟩ hstep
    cases op with
    | add i j x =>
      obtain ⟨g', h1, h2, -, -, h5⟩ := addEdge_spec hv1 i j x
      have : g' = g2 := by
        have := h1.symm.trans hstep
        exact Outcome.ok.inj this
      subst this
      refine ⟨h2, fun a b hab => ?_⟩
      rw [h5] at hab ⊢
      rcases hab with hab | hab | hab
      · exact Or.inl (hs1 a b hab)
      · exact Or.inr (Or.inr ⟨hab.2, hab.1⟩)
      · exact Or.inr (Or.inl ⟨hab.2, hab.1⟩)
    | remove i j =>
      obtain ⟨g', h1, h2, -, h4, h5⟩ := removeEdge_spec hv1 i j
      have : g' = g2 := by
        have := h1.symm.trans hstep
        exact Outcome.ok.inj this
      subst this
      by_cases hij : i < g1.n ∧ j < g1.n
      · exact ⟨h2, nz h2 (h5 hij).2.1⟩
      · rw [h4 hij]; exact ⟨hv1, hs1⟩
  exact key.2 a b

end

/-! ### The normalised Laplacians -/

theorem normAdj_stored {g : Graph ℝ} (h : g.Reachable) (u v : Nat) :
    (g.normAdj Real.sqrt).WF ∧
    ((∃ x, (u, x) ∈ g.adj.col v) → (g.normAdj Real.sqrt).coeff u v =
      XReal.invSqrt Real.sqrt (g.degreeMatrix.coeff u u) * XReal.fin (g.adj.coeff u v) *
        XReal.invSqrt Real.sqrt (g.degreeMatrix.coeff v v)) ∧
    (¬ (∃ x, (u, x) ∈ g.adj.col v) → (g.normAdj Real.sqrt).coeff u v = .fin 0) := by
  have hval := h.valid
  have hcol : ∀ j, (g.normAdj Real.sqrt).col j = (g.adj.col j).map (fun e => (e.1,
      XReal.invSqrt Real.sqrt (g.degreeMatrix.coeff e.1 e.1) * XReal.fin e.2 *
        XReal.invSqrt Real.sqrt (g.degreeMatrix.coeff j j))) := by
    intro j
    unfold normAdj SprsMat.mulDiag SprsMat.diagMul
    simp only [SprsMat.col_ofCols, SprsMat.rows_ofCols, SprsMat.cols_ofCols,
      SprsMat.col_mapVal hval.wf]
    have hc : (g.adj.mapVal (XReal.fin (K := ℝ))).cols = g.adj.cols := rfl
    rw [hc]
    by_cases hj : j < g.adj.cols
    · simp [hj, Col.mapVal, List.map_map, Function.comp_def]
    · rw [if_neg hj, hval.wf.col_nil (by omega)]; rfl
  refine ⟨?_, ?_, ?_⟩
  · have e : (g.normAdj Real.sqrt).data.length = (g.normAdj Real.sqrt).cols := by
      simp [normAdj, SprsMat.mulDiag, SprsMat.diagMul, SprsMat.ofCols]
    refine ⟨e, fun j => ?_⟩
    rw [hcol]
    constructor
    · have := hval.wf.sorted j
      unfold Col.Sorted at this ⊢
      rw [List.pairwise_map]
      exact this
    · intro e he
      obtain ⟨x, hx, rfl⟩ := List.mem_map.1 he
      exact hval.wf.row_lt hx
  · intro hx
    unfold SprsMat.coeff
    rw [hcol]
    exact (col_coeff_map (c := g.adj.col v) (fun r x =>
      XReal.invSqrt Real.sqrt (g.degreeMatrix.coeff r r) * XReal.fin x *
        XReal.invSqrt Real.sqrt (g.degreeMatrix.coeff v v)) u).1 hx
  · intro hx
    unfold SprsMat.coeff
    rw [hcol]
    exact (col_coeff_map (c := g.adj.col v) (fun r x =>
      XReal.invSqrt Real.sqrt (g.degreeMatrix.coeff r r) * XReal.fin x *
        XReal.invSqrt Real.sqrt (g.degreeMatrix.coeff v v)) u).2 hx

theorem norm_zip {g : Graph ℝ} (h : g.Reachable) (u v : Nat) (hv : v < g.n) :
    (g.normLaplacian Real.sqrt).coeff u v =
      XReal.fin (if u = v then 1 else 0) - (g.normAdj Real.sqrt).coeff u v ∧
    (g.normSignlessLaplacian Real.sqrt).coeff u v =
      XReal.fin (if u = v then 1 else 0) + (g.normAdj Real.sqrt).coeff u v := by
  have hval := h.valid
  have hA := normAdj_stored h
  have hd : (SprsMat.diag g.n (fun _ => XReal.fin (1 : ℝ))).coeff u v =
      XReal.fin (if u = v then 1 else 0) := by
    rw [SprsMat.coeff_diag]
    by_cases huv : u = v
    · rw [if_pos ⟨huv, hv⟩, if_pos huv]
    · rw [if_neg (by tauto), if_neg huv]; rfl
  constructor
  · unfold normLaplacian
    rw [SprsMat.coeff_zipWith (SprsMat.wf_diag _ _) (hA 0 0).1 hval.cols.symm _
      ((XReal.fin_sub_fin _ _).trans (by simp; rfl)), hd]
  · unfold normSignlessLaplacian
    rw [SprsMat.coeff_zipWith (SprsMat.wf_diag _ _) (hA 0 0).1 hval.cols.symm _
      (by show XReal.fin (0 + 0) = XReal.fin 0; simp), hd]

theorem invSqrt_pos {g : Graph ℝ} (h : g.Reachable) {v : Nat} (hv : v < g.n)
    (hd : 0 < g.abs.deg v) :
    XReal.invSqrt Real.sqrt (g.degreeMatrix.coeff v v) = .fin (1 / √(g.abs.deg v)) := by
  rw [(C07_degree h v hv).2.1]
  unfold XReal.invSqrt XReal.inv
  rw [if_neg (by linarith), if_neg (ne_of_gt (Real.sqrt_pos.2 hd))]

theorem invSqrt_zero {g : Graph ℝ} (h : g.Reachable) {v : Nat} (hv : v < g.n)
    (hd : g.abs.deg v = 0) :
    XReal.invSqrt Real.sqrt (g.degreeMatrix.coeff v v) = .posInf := by
  rw [(C07_degree h v hv).2.1, hd]
  unfold XReal.invSqrt XReal.inv
  simp

/-- C09 (isolated vertices).  If every vertex has positive degree or no entry at all
(`neighbors_unweighted` returns the empty list), both normalised Laplacians are finite: an
entry between two vertices of positive degree is `[u = v] ∓ w(u,v) / (√deg u · √deg v)`, and
the row and the column of an isolated vertex are those of the identity matrix. -/
theorem C09_isolated {g : Graph ℝ} (h : g.Reachable)
    (hd : ∀ v, v < g.n → 0 < g.abs.deg v ∨ g.neighborsUnweighted v = .ok [])
    (u v : Nat) (hu : u < g.n) (hv : v < g.n) :
    (0 < g.abs.deg u → 0 < g.abs.deg v →
      (g.normLaplacian Real.sqrt).coeff u v =
        .fin ((if u = v then 1 else 0) - g.abs.w u v / (√(g.abs.deg u) * √(g.abs.deg v))) ∧
      (g.normSignlessLaplacian Real.sqrt).coeff u v =
        .fin ((if u = v then 1 else 0) + g.abs.w u v / (√(g.abs.deg u) * √(g.abs.deg v)))) ∧
    (g.neighborsUnweighted u = .ok [] ∨ g.neighborsUnweighted v = .ok [] →
      (g.normLaplacian Real.sqrt).coeff u v = .fin (if u = v then 1 else 0) ∧
      (g.normSignlessLaplacian Real.sqrt).coeff u v = .fin (if u = v then 1 else 0)) := by
  obtain ⟨z1, z2⟩ := norm_zip h u v hv
  obtain ⟨-, s1, s2⟩ := normAdj_stored h u v
  rw [z1, z2]
  have nost : ¬ (∃ x, (u, x) ∈ g.adj.col v) → (g.adj.coeff u v = 0) ∧
      (g.normAdj Real.sqrt).coeff u v = .fin 0 := by
    intro hn
    refine ⟨?_, s2 hn⟩
    exact Col.coeff_eq_zero_of_forall (fun e he hh => hn ⟨e.2, by rw [← hh]; exact he⟩)
  constructor
  · intro hdu hdv
    have hw : (g.normAdj Real.sqrt).coeff u v =
        .fin (g.abs.w u v / (√(g.abs.deg u) * √(g.abs.deg v))) := by
      have e : g.abs.w u v = g.adj.coeff u v := rfl
      by_cases hs : ∃ x, (u, x) ∈ g.adj.col v
      · rw [s1 hs, invSqrt_pos h hu hdu, invSqrt_pos h hv hdv, XReal.fin_mul_fin,
          XReal.fin_mul_fin, e, div_mul_eq_mul_div, one_mul, div_mul_div_comm, mul_one]
      · rw [(nost hs).2, e, (nost hs).1, zero_div]
    rw [hw, XReal.fin_sub_fin, XReal.fin_add_fin]
    exact ⟨rfl, rfl⟩
  · intro hz
    have hn : ¬ (∃ x, (u, x) ∈ g.adj.col v) := by
      intro hx
      rcases hz with hz | hz
      · obtain ⟨x, hx⟩ := pattern_symm h u v hx
        rw [(nil_iff hu).1 hz] at hx
        simp at hx
      · obtain ⟨x, hx⟩ := hx
        rw [(nil_iff hv).1 hz] at hx
        simp at hx
    rw [(nost hn).2, XReal.fin_sub_fin, XReal.fin_add_fin]
    simp

/-- An isolated vertex has degree zero. -/
theorem deg_of_nil {g : Graph ℝ} (h : g.Reachable) {v : Nat} (hv : v < g.n)
    (hn : g.neighborsUnweighted v = .ok []) : g.abs.deg v = 0 ∧ ∀ u, g.abs.w u v = 0 ∧
      g.abs.w v u = 0 := by
  have hval := h.valid
  have hw : ∀ u, g.abs.w u v = 0 := by
    intro u
    show Col.coeff (g.adj.col v) u = 0
    rw [(nil_iff hv).1 hn]; rfl
  have hw' : ∀ u, g.abs.w v u = 0 := fun u => (hval.symm v u).trans (hw u)
  refine ⟨?_, fun u => ⟨hw u, hw' u⟩⟩
  unfold WGraph.deg
  rw [hw', Finset.sum_eq_zero (fun u _ => hw' u), add_zero]

/-- C09 (isolated vertices).  The spectrum of the normalised Laplacian of a graph with
non-negative weights stays within `[0, 2]` when there are isolated vertices. -/
theorem C09_isolated_bounds {g : Graph ℝ} (h : g.Reachable) (hw : ∀ u v, 0 ≤ g.abs.w u v)
    (hd : ∀ v, v < g.n → 0 < g.abs.deg v ∨ g.neighborsUnweighted v = .ok []) :
    ∃ M : Nat → Nat → ℝ,
      (∀ u v, u < g.n → v < g.n → (g.normLaplacian Real.sqrt).coeff u v = .fin (M u v)) ∧
      ∀ x : Nat → ℝ, 0 ≤ quadForm g.n M x ∧
        quadForm g.n M x ≤ 2 * ∑ u ∈ Finset.range g.n, x u * x u := by
  have hval := h.valid
  refine ⟨normEntry g.abs, fun u v hu hv => ?_, fun x => ?_⟩
  · obtain ⟨i1, i2⟩ := C09_isolated h hd u v hu hv
    rcases hd u hu with hdu | hdu
    · rcases hd v hv with hdv | hdv
      · exact (i1 hdu hdv).1
      · rw [(i2 (Or.inr hdv)).1]
        unfold normEntry
        rw [((deg_of_nil h hv hdv).2 u).1, zero_div, sub_zero]
    · rw [(i2 (Or.inl hdu)).1]
      unfold normEntry
      rw [((deg_of_nil h hu hdu).2 v).2, zero_div, sub_zero]
  · have hdeg : ∀ v, v < g.n → 0 < g.abs.deg v ∨ (g.abs.deg v = 0 ∧
        ∀ u, g.abs.w u v = 0 ∧ g.abs.w v u = 0) :=
      fun v hv => (hd v hv).imp id (deg_of_nil h hv)
    obtain ⟨y, hy⟩ : ∃ y : Nat → ℝ, y = fun i => x i / √(g.abs.deg i) := ⟨_, rfl⟩
    have hsq : ∀ i, 0 < g.abs.deg i → √(g.abs.deg i) * √(g.abs.deg i) = g.abs.deg i :=
      fun i hi => Real.mul_self_sqrt (le_of_lt hi)
    have hsp : ∀ i, 0 < g.abs.deg i → 0 < √(g.abs.deg i) := fun i hi => Real.sqrt_pos.2 hi
    have hy0 : ∀ i, g.abs.deg i = 0 → y i = 0 := by
      intro i hi; rw [hy]; simp [hi]
    set I : ℝ := ∑ i ∈ Finset.range g.n, if g.abs.deg i = 0 then x i * x i else 0 with hI
    have hI0 : 0 ≤ I := by
      apply Finset.sum_nonneg
      intro i _
      split_ifs
      · exact mul_self_nonneg _
      · exact le_rfl
    have hN : quadForm g.n (normEntry g.abs) x = quadForm g.n g.laplacian.coeff y + I := by
      unfold quadForm
      rw [hI, ← Finset.sum_add_distrib]
      apply Finset.sum_congr rfl
      intro i hi
      have hi := Finset.mem_range.1 hi
      rw [show (if g.abs.deg i = 0 then x i * x i else 0) = ∑ j ∈ Finset.range g.n,
          if i = j then (if g.abs.deg i = 0 then x i * x i else 0) else 0 by
        rw [Finset.sum_ite_eq, if_pos (Finset.mem_range.2 hi)], ← Finset.sum_add_distrib]
      apply Finset.sum_congr rfl
      intro j hj
      have hj := Finset.mem_range.1 hj
      by_cases hij : i = j
      · subst hij
        rw [if_pos rfl]
        rcases hdeg i hi with hp | ⟨hz, hwz⟩
        · have h1 := hsp i hp
          have h3 := hsq i hp
          rw [if_neg (ne_of_gt hp), (C08_laplacian_entries h).2.2.2.2.1 i hi]
          simp only [hy, normEntry, if_true]
          generalize √(g.abs.deg i) = r at *
          rw [← h3]
          field_simp
          ring
        · rw [if_pos hz, hy0 i hz]
          simp [normEntry, (hwz i).1]
      · rw [if_neg hij, add_zero, (C08_laplacian_entries h).2.2.2.2.2.1 i j hij]
        simp only [normEntry, if_neg hij, hy]
        ring
    have hQ : 2 * ∑ u ∈ Finset.range g.n, x u * x u - quadForm g.n (normEntry g.abs) x =
        quadForm g.n g.signlessLaplacian.coeff y + I := by
      have h5 : 2 * ∑ u ∈ Finset.range g.n, x u * x u =
          quadForm g.n (fun u v => 2 * g.degreeMatrix.coeff u v) y + 2 * I := by
        unfold quadForm
        rw [hI, Finset.mul_sum, Finset.mul_sum, ← Finset.sum_add_distrib]
        apply Finset.sum_congr rfl
        intro i hi
        rw [Finset.sum_eq_single i]
        · have hi := Finset.mem_range.1 hi
          beta_reduce
          rw [(C07_degree h i hi).2.1]
          rcases hdeg i hi with hp | ⟨hz, hwz⟩
          · have h1 := hsp i hp
            have h3 := hsq i hp
            rw [if_neg (ne_of_gt hp)]
            simp only [hy]
            generalize √(g.abs.deg i) = r at *
            rw [← h3]
            field_simp
            ring
          · rw [if_pos hz, hy0 i hz]
            ring
        · intro j _ hj
          simp only
          rw [degree_coeff hval, if_neg (Ne.symm hj)]
          ring
        · intro hh; exact absurd hi hh
      rw [h5, hN]
      have h6 : quadForm g.n (fun u v => 2 * g.degreeMatrix.coeff u v) y =
          quadForm g.n g.laplacian.coeff y + quadForm g.n g.signlessLaplacian.coeff y := by
        unfold quadForm
        rw [← Finset.sum_add_distrib]
        apply Finset.sum_congr rfl
        intro i _
        rw [← Finset.sum_add_distrib]
        apply Finset.sum_congr rfl
        intro j _
        simp only
        rw [← (C08_laplacian_entries h).2.2.1 i j]
        ring
      rw [h6]
      ring
    obtain ⟨p1, p2⟩ := C08_positive_semidefinite h hw y
    constructor
    · rw [hN]; linarith
    · linarith [hQ, p2]

/-- C09 (stored zeros).  A stored entry of weight zero at a vertex of degree zero (such as
the one `add_edge(u, v, 0)` creates between two isolated vertices) is a NaN in both normalised
Laplacians. -/
theorem C09_stored_zero_is_nan {g : Graph ℝ} (h : g.Reachable) (u v : Nat) (hu : u < g.n)
    (hv : v < g.n) (hdu : 0 ≤ g.abs.deg u) (hdv : 0 ≤ g.abs.deg v)
    (hl : g.Lists v u) (hw : g.abs.w u v = 0) (h0 : g.abs.deg u = 0 ∨ g.abs.deg v = 0) :
    (g.normLaplacian Real.sqrt).coeff u v = .nan ∧
    (g.normSignlessLaplacian Real.sqrt).coeff u v = .nan := by
  obtain ⟨z1, z2⟩ := norm_zip h u v hv
  obtain ⟨-, s1, -⟩ := normAdj_stored h u v
  have e : g.adj.coeff u v = 0 := hw
  have hn : (g.normAdj Real.sqrt).coeff u v = .nan := by
    rw [s1 ((lists_iff hv).1 hl), e]
    rcases hdu.eq_or_lt with hdu | hdu
    · rw [invSqrt_zero h hu hdu.symm]
      have : (XReal.posInf * XReal.fin (0 : ℝ)) = .nan := by
        show XReal.scaleInf 0 true = _
        simp [XReal.scaleInf]
      rw [this]
      show XReal.mul XReal.nan _ = _
      cases XReal.invSqrt Real.sqrt (g.degreeMatrix.coeff v v) <;> rfl
    · have hz : g.abs.deg v = 0 := h0.resolve_left (ne_of_gt hdu)
      rw [invSqrt_pos h hu hdu, invSqrt_zero h hv hz, XReal.fin_mul_fin, mul_zero]
      show XReal.scaleInf 0 true = _
      simp [XReal.scaleInf]
  rw [z1, z2, hn]
  exact ⟨rfl, rfl⟩

/-- C09 (degree zero with edges).  Edges of negative weight can make a degree zero or negative.  An edge at a vertex of
degree zero (and none of negative degree) has an infinite entry in both normalised Laplacians; a stored entry at a vertex of
negative degree is a NaN. -/
theorem C09_degree_not_positive {g : Graph ℝ} (h : g.Reachable) (u v : Nat) (hu : u < g.n) (hv : v < g.n)
    (hl : g.Lists v u) :
    (0 ≤ g.abs.deg u → 0 ≤ g.abs.deg v → g.abs.deg u = 0 ∨ g.abs.deg v = 0 → 0 < g.abs.w u v →
      (g.normLaplacian Real.sqrt).coeff u v = .negInf ∧ (g.normSignlessLaplacian Real.sqrt).coeff u v = .posInf) ∧
    (0 ≤ g.abs.deg u → 0 ≤ g.abs.deg v → g.abs.deg u = 0 ∨ g.abs.deg v = 0 → g.abs.w u v < 0 →
      (g.normLaplacian Real.sqrt).coeff u v = .posInf ∧ (g.normSignlessLaplacian Real.sqrt).coeff u v = .negInf) ∧
    (g.abs.deg u < 0 ∨ g.abs.deg v < 0 →
      (g.normLaplacian Real.sqrt).coeff u v = .nan ∧ (g.normSignlessLaplacian Real.sqrt).coeff u v = .nan) := by
  obtain ⟨z1, z2⟩ := norm_zip h u v hv
  obtain ⟨-, s1, -⟩ := normAdj_stored h u v
  have hs := s1 ((lists_iff hv).1 hl)
  have e : g.adj.coeff u v = g.abs.w u v := rfl
  rw [e] at hs
  have hinf : 0 ≤ g.abs.deg u → 0 ≤ g.abs.deg v → g.abs.deg u = 0 ∨ g.abs.deg v = 0 → g.abs.w u v ≠ 0 →
      (g.normAdj Real.sqrt).coeff u v = if 0 < g.abs.w u v then .posInf else .negInf := by
    intro hdu hdv h0 hw
    rw [hs]
    have hsc : ∀ x : ℝ, x ≠ 0 → XReal.scaleInf x true = if 0 < x then .posInf else .negInf := by
      intro x hx
      unfold XReal.scaleInf
      rw [if_neg hx]
      by_cases hp : 0 < x <;> simp [hp]
    rcases hdu.eq_or_lt with hdu | hdu
    · rw [invSqrt_zero h hu hdu.symm]
      have h1 : (XReal.posInf * XReal.fin (g.abs.w u v)) = if 0 < g.abs.w u v then .posInf else .negInf := hsc _ hw
      rw [h1]
      rcases hdv.eq_or_lt with hdv | hdv
      · rw [invSqrt_zero h hv hdv.symm]
        split_ifs <;> rfl
      · rw [invSqrt_pos h hv hdv]
        have hp : 0 < 1 / √(g.abs.deg v) := by positivity
        split_ifs
        · show XReal.scaleInf _ true = _
          rw [hsc _ hp.ne', if_pos hp]
        · show XReal.scaleInf _ false = _
          unfold XReal.scaleInf
          rw [if_neg hp.ne']
          simp [Real.sqrt_pos.2 hdv]
    · have hz : g.abs.deg v = 0 := h0.resolve_left (ne_of_gt hdu)
      rw [invSqrt_pos h hu hdu, invSqrt_zero h hv hz, XReal.fin_mul_fin]
      have hp : 0 < 1 / √(g.abs.deg u) := by positivity
      show XReal.scaleInf _ true = _
      rw [hsc _ (mul_ne_zero hp.ne' hw)]
      simp only [mul_pos_iff_of_pos_left hp]
  refine ⟨fun hdu hdv h0 hw => ?_, fun hdu hdv h0 hw => ?_, fun hneg => ?_⟩
  · rw [z1, z2, hinf hdu hdv h0 hw.ne', if_pos hw]
    exact ⟨rfl, rfl⟩
  · rw [z1, z2, hinf hdu hdv h0 hw.ne, if_neg (not_lt.2 hw.le)]
    exact ⟨rfl, rfl⟩
  · have hn : (g.normAdj Real.sqrt).coeff u v = .nan := by
      rw [hs]
      rcases hneg with hd | hd
      · have : XReal.invSqrt Real.sqrt (g.degreeMatrix.coeff u u) = .nan := by
          rw [(C07_degree h u hu).2.1]
          unfold XReal.invSqrt
          rw [if_pos hd]
        rw [this]
        show XReal.mul XReal.nan _ = _
        cases XReal.invSqrt Real.sqrt (g.degreeMatrix.coeff v v) <;> rfl
      · have : XReal.invSqrt Real.sqrt (g.degreeMatrix.coeff v v) = .nan := by
          rw [(C07_degree h v hv).2.1]
          unfold XReal.invSqrt
          rw [if_pos hd]
        rw [this]
        show XReal.mul _ XReal.nan = _
        cases XReal.invSqrt Real.sqrt (g.degreeMatrix.coeff u u) * XReal.fin (g.abs.w u v) <;> rfl
    rw [z1, z2, hn]
    exact ⟨rfl, rfl⟩

/-! ### The lazy random walk -/

section
variable {K : Type} [Field K] [LinearOrder K] [IsStrictOrderedRing K]

/-- C10 (each column on its own).  Column `v` of the lazy random walk matrix depends on the
degree of `v` only: with `deg v ≠ 0` it is `1/2 [u = v] + 1/2 w(u,v) / deg v` whatever the other
degrees are; a vertex without entries keeps `1/2` in place and nothing else (its column sums
to `1/2`); and with `deg v = 0` every stored entry becomes NaN or infinite. -/
theorem C10_column {g : Graph K} (h : g.Reachable) (u v : Nat) (hv : v < g.n) :
    (g.abs.deg v ≠ 0 → g.lazyRandomWalk.coeff u v =
      .fin ((if u = v then 1 / 2 else 0) + 1 / 2 * g.abs.w u v / g.abs.deg v)) ∧
    (¬ g.Lists v u → g.lazyRandomWalk.coeff u v = .fin (if u = v then 1 / 2 else 0)) ∧
    (g.abs.deg v = 0 → g.Lists v u → g.lazyRandomWalk.coeff u v =
      if g.abs.w u v = 0 then .nan else if 0 < g.abs.w u v then .posInf else .negInf) := by
  have hval := h.valid
  have hB : ∀ j, ((g.adj.mapVal (fun v => XReal.fin (1 / 2) * XReal.fin v)).mulDiag
      (fun j => g.inverseDegreeMatrix.coeff j j)).col j =
      (g.adj.col j).map (fun e => (e.1, XReal.fin (1 / 2) * XReal.fin e.2 *
        g.inverseDegreeMatrix.coeff j j)) := by
    intro j
    unfold SprsMat.mulDiag
    simp only [SprsMat.col_ofCols, SprsMat.col_mapVal hval.wf]
    have hc : (g.adj.mapVal (fun v => XReal.fin (1 / 2) * XReal.fin v)).cols = g.adj.cols := rfl
    rw [hc]
    by_cases hj : j < g.adj.cols
    · simp [hj, Col.mapVal, List.map_map, Function.comp_def]
    · rw [if_neg hj, hval.wf.col_nil (by omega)]; rfl
  have hBwf : ((g.adj.mapVal (fun v => XReal.fin (1 / 2) * XReal.fin v)).mulDiag
      (fun j => g.inverseDegreeMatrix.coeff j j)).WF := by
    refine ⟨by simp [SprsMat.mulDiag, SprsMat.ofCols], fun j => ?_⟩
    rw [hB]
    constructor
    · have := hval.wf.sorted j
      unfold Col.Sorted at this ⊢
      rw [List.pairwise_map]
      exact this
    · intro e he
      obtain ⟨x, hx, rfl⟩ := List.mem_map.1 he
      exact hval.wf.row_lt hx
  have hid : ((SprsMat.diag g.n (fun _ => XReal.fin (1 : K))).mapVal
      (fun v => XReal.fin (1 / 2) * v)).WF := SprsMat.wf_mapVal (SprsMat.wf_diag _ _) _
  have hI : ((SprsMat.diag g.n (fun _ => XReal.fin (1 : K))).mapVal
      (fun v => XReal.fin (1 / 2) * v)).coeff u v = .fin (if u = v then 1 / 2 else 0) := by
    rw [SprsMat.coeff_mapVal (SprsMat.wf_diag _ _) _ (by show XReal.fin _ = XReal.fin 0; simp),
      SprsMat.coeff_diag]
    by_cases huv : u = v
    · rw [if_pos ⟨huv, hv⟩, if_pos huv, XReal.fin_mul_fin, mul_one]
    · rw [if_neg (by tauto), if_neg huv]
      show XReal.fin _ = XReal.fin 0
      simp
  have hz : g.lazyRandomWalk.coeff u v = XReal.fin (if u = v then 1 / 2 else 0) +
      Col.coeff ((g.adj.col v).map (fun e => (e.1, XReal.fin (1 / 2) * XReal.fin e.2 *
        g.inverseDegreeMatrix.coeff v v))) u := by
    unfold lazyRandomWalk
    rw [SprsMat.coeff_zipWith hid hBwf hval.cols.symm _
      (by show XReal.fin (0 + 0) = XReal.fin 0; simp), hI]
    congr 1
    rw [← hB]
    rfl
  obtain ⟨c1, c2⟩ := col_coeff_map (c := g.adj.col v) (fun _ x =>
    XReal.fin (1 / 2) * XReal.fin x * g.inverseDegreeMatrix.coeff v v) u
  have c2 : ¬ (∃ x, (u, x) ∈ g.adj.col v) → g.lazyRandomWalk.coeff u v =
      .fin (if u = v then 1 / 2 else 0) := by
    intro hn
    rw [hz, c2 hn]
    show XReal.fin (_ + 0) = _
    rw [add_zero]
  refine ⟨fun hd => ?_, fun hl => c2 (fun hx => hl ((lists_iff hv).2 hx)), fun hd hl => ?_⟩
  · by_cases hs : ∃ x, (u, x) ∈ g.adj.col v
    · rw [hz, c1 hs, (C11_inverse_degree_partial h v hv).1 hd, XReal.fin_mul_fin,
        XReal.fin_mul_fin, XReal.fin_add_fin]
      congr 1
      show _ + 1 / 2 * g.abs.w u v * _ = _
      ring
    · rw [c2 hs]
      have : g.abs.w u v = 0 :=
        Col.coeff_eq_zero_of_forall (fun e he hh => hs ⟨e.2, by rw [← hh]; exact he⟩)
      rw [this, mul_zero, zero_div, add_zero]
  · have hinv : g.inverseDegreeMatrix.coeff v v = .posInf := by
      unfold inverseDegreeMatrix
      rw [SprsMat.coeff_diag, if_pos ⟨rfl, by rw [hval.cols]; exact hv⟩, (C07_degree h v hv).2.1,
        hd]
      simp [XReal.inv]
    rw [hz, c1 ((lists_iff hv).1 hl), hinv, XReal.fin_mul_fin]
    have e : Col.coeff (g.adj.col v) u = g.abs.w u v := rfl
    rw [e]
    show XReal.add _ (XReal.scaleInf _ true) = _
    unfold XReal.scaleInf
    by_cases h0 : g.abs.w u v = 0
    · rw [h0]; simp [XReal.add]
    · have h2 : (1 / 2 * g.abs.w u v) ≠ 0 := by simpa using h0
      rw [if_neg h2, if_neg h0]
      by_cases hp : 0 < g.abs.w u v
      · have hp2 : decide (0 < 1 / 2 * g.abs.w u v) = true := by
          rw [decide_eq_true_eq]; positivity
        rw [if_pos hp2, if_pos hp]; rfl
      · have hp2 : ¬ decide (0 < 1 / 2 * g.abs.w u v) = true := by
          rw [decide_eq_true_eq]; intro hc; apply hp; linarith
        rw [if_neg hp2, if_neg hp]; rfl

end

/-! ### Concrete cases -/

/-- Three vertices, one edge, then `add_edge(2, 2, 0)`: vertex 2 goes from isolated to a
stored zero. -/
example : ∃ g g' : Graph ℚ, ofMatrix ⟨3, 3, [[(1, 1)], [(0, 1)], []]⟩ = .ok g ∧
    g.neighborsUnweighted 2 = .ok [] ∧ g.lazyRandomWalk.coeff 2 2 = .fin (1 / 2) ∧
    g.lazyRandomWalk.coeff 1 0 = .fin (1 / 2) ∧
    g.addEdge 2 2 0 = .ok g' ∧ g'.neighborsUnweighted 2 = .ok [2] ∧
    g'.lazyRandomWalk.coeff 2 2 = .nan ∧ g'.lazyRandomWalk.coeff 1 0 = .fin (1 / 2) ∧
    (g.normLaplacian (fun x => x)).coeff 2 2 = .fin 1 ∧
    (g.normLaplacian (fun x => x)).coeff 0 1 = .fin (-1) ∧
    (g'.normLaplacian (fun x => x)).coeff 2 2 = .nan :=
  ⟨⟨3, ⟨3, 3, [[(1, 1)], [(0, 1)], []]⟩, false⟩,
    ⟨3, ⟨3, 3, [[(1, 1)], [(0, 1)], [(2, 0)]]⟩, true⟩, by decide +kernel, by decide +kernel,
    by decide +kernel, by decide +kernel, by decide +kernel, by decide +kernel, by decide +kernel,
    by decide +kernel, by decide +kernel, by decide +kernel, by decide +kernel⟩

/-- One edge, then `add_edge(1, 2, -1)`: vertex 1 has degree zero and two edges, vertex 2 a negative degree. -/
example : ∃ g g' : Graph ℚ, ofMatrix ⟨3, 3, [[(1, 1)], [(0, 1)], []]⟩ = .ok g ∧ g.addEdge 1 2 (-1) = .ok g' ∧
    g'.degree 1 = .ok 0 ∧ g'.degree 2 = .ok (-1) ∧
    (g'.normLaplacian (fun x => x)).coeff 1 0 = .negInf ∧ (g'.normLaplacian (fun x => x)).coeff 0 1 = .negInf ∧
    (g'.normLaplacian (fun x => x)).coeff 1 2 = .nan :=
  ⟨⟨3, ⟨3, 3, [[(1, 1)], [(0, 1)], []]⟩, false⟩,
    ⟨3, ⟨3, 3, [[(1, 1)], [(0, 1), (2, -1)], [(1, -1)]]⟩, false⟩, by decide +kernel, by decide +kernel,
    by decide +kernel, by decide +kernel, by decide +kernel, by decide +kernel, by decide +kernel⟩

/-- A real graph with one edge and an isolated vertex. -/
noncomputable def exIso : Graph ℝ := ⟨3, ⟨3, 3, [[(1, 1)], [(0, 1)], []]⟩, false⟩

theorem exIso_reachable : exIso.Reachable := by
  have hwf : exIso.adj.WF := by
    refine ⟨rfl, fun j => ?_⟩
    match j with
    | 0 => simp [SprsMat.col, exIso, Col.Sorted]
    | 1 => simp [SprsMat.col, exIso, Col.Sorted]
    | 2 => simp [SprsMat.col, exIso, Col.Sorted]
    | j + 3 => simp [SprsMat.col, exIso, Col.Sorted]
  have hnn : ∀ j, ∀ e ∈ exIso.adj.col j, 0 ≤ e.2 := by
    intro j e he
    match j with
    | 0 => simp [SprsMat.col, exIso] at he; subst he; norm_num
    | 1 => simp [SprsMat.col, exIso] at he; subst he; norm_num
    | 2 => simp [SprsMat.col, exIso] at he
    | j + 3 => simp [SprsMat.col, exIso] at he
  have hneg : foundNegative exIso.adj = false := by
    rw [← Bool.not_eq_true, foundNegative_iff hwf]
    rintro ⟨j, e, he, hlt⟩
    exact absurd (hnn j e he) (not_le.2 hlt)
  have heps : (epsilon : ℝ) < 1 := by unfold epsilon; norm_num
  have hprune : exIso.adj.prune (fun v => decide (epsilon < v)) = exIso.adj := by
    simp [SprsMat.prune, SprsMat.ofCols, SprsMat.col, exIso, List.range_succ, heps]
  refine ⟨exIso.adj, exIso, [], hwf, ?_, rfl⟩
  rw [ofMatrix_of_adj hwf rfl (adjFromAdjOrLap_nonneg hneg), hprune]
  have hs : exIso.adj.isSymmetric = true := by
    simp [SprsMat.isSymmetric, exIso, List.range_succ, SprsMat.col, SprsMat.coeff, Col.coeff]
  rw [if_pos hs]
  simp [exIso, anySelfLoop, List.range_succ, SprsMat.coeff, SprsMat.col, Col.coeff]

/-- It meets the hypotheses of `C09_isolated` and `C09_isolated_bounds`. -/
theorem exIso_hyp : (∀ v, v < exIso.n → 0 < exIso.abs.deg v ∨
      exIso.neighborsUnweighted v = .ok []) ∧ 0 < exIso.abs.deg 0 ∧
      exIso.neighborsUnweighted 2 = .ok [] := by
  have h0 : 0 < exIso.abs.deg 0 := by
    simp [WGraph.deg, Graph.abs, exIso, Finset.sum_range_succ, SprsMat.coeff, SprsMat.col,
      Col.coeff]
  have h1 : 0 < exIso.abs.deg 1 := by
    simp [WGraph.deg, Graph.abs, exIso, Finset.sum_range_succ, SprsMat.coeff, SprsMat.col,
      Col.coeff]
  have h2 : exIso.neighborsUnweighted ((2 : ℕ) : ℤ) = .ok [] := by
    rw [nil_iff (by simp [exIso])]
    simp [exIso, SprsMat.col]
  refine ⟨fun v hv => ?_, h0, h2⟩
  have hv : v < 3 := hv
  interval_cases v
  · exact Or.inl h0
  · exact Or.inl h1
  · exact Or.inr h2

/-- After `add_edge(1, 2, 0)` both normalised Laplacians contain a NaN, although no weight
and no degree has changed. -/
example : ∃ g : Graph ℝ, exIso.addEdge 1 2 0 = .ok g ∧ g.n = 3 ∧
    (∀ u v, g.abs.w u v = exIso.abs.w u v) ∧ (g.normLaplacian Real.sqrt).coeff 1 2 = .nan := by
  obtain ⟨g, h1, hv, ha, -, hp⟩ := addEdge_spec (g := exIso) exIso_reachable.valid 1 2 0
  have hr : g.Reachable := by
    obtain ⟨m, g0, ops, hm, h0, hrun⟩ := exIso_reachable
    refine ⟨m, g0, ops ++ [.add 1 2 0], hm, h0, ?_⟩
    have app : ∀ (l : List (GOp ℝ)) (a b : Graph ℝ), a.run l = .ok b →
        b.addEdge ((1 : ℕ) : ℤ) ((2 : ℕ) : ℤ) 0 = .ok g → a.run (l ++ [.add 1 2 0]) = .ok g := by
      intro l
      induction l with
      | nil =>
        intro a b hab hb
        cases hab
        show Outcome.bind (a.addEdge ((1 : ℕ) : ℤ) ((2 : ℕ) : ℤ) 0) _ = _
        rw [hb]; rfl
      | cons op l ih =>
        intro a b hab hb
        simp only [run, Outcome.bind_eq_ok, List.cons_append] at hab ⊢
        obtain ⟨c, hc, hab⟩ := hab
        exact ⟨c, hc, ih c b hab hb⟩
    exact app ops g0 exIso hrun h1
  have hn : g.n = 3 := by
    have := congrArg WGraph.n ha
    simpa [Graph.abs, WGraph.addEdge, exIso] using this
  have hw : ∀ u v, g.abs.w u v = exIso.abs.w u v := by
    intro u v
    rw [ha]
    simp [WGraph.addEdge]
  have hdeg : ∀ v, g.abs.deg v = exIso.abs.deg v := by
    intro v
    unfold WGraph.deg
    simp only [hw]
    have : g.abs.n = exIso.abs.n := hn
    rw [this]
  refine ⟨g, h1, hn, hw, (C09_stored_zero_is_nan hr 1 2 (by omega) (by omega) ?_ ?_ ?_ ?_ ?_).1⟩
  · rw [hdeg]
    have := exIso_hyp.1 1 (by simp [exIso])
    simp [WGraph.deg, Graph.abs, exIso, Finset.sum_range_succ, SprsMat.coeff, SprsMat.col,
      Col.coeff]
  · rw [hdeg]
    simp [WGraph.deg, Graph.abs, exIso, Finset.sum_range_succ, SprsMat.coeff, SprsMat.col,
      Col.coeff]
  · rw [lists_iff (by omega), hp]
    exact Or.inr (Or.inl ⟨rfl, rfl⟩)
  · rw [hw]
    simp [Graph.abs, exIso, SprsMat.coeff, SprsMat.col, Col.coeff]
  · right
    rw [hdeg]
    simp [WGraph.deg, Graph.abs, exIso, Finset.sum_range_succ, SprsMat.coeff, SprsMat.col,
      Col.coeff]

end Graph
end Stag
