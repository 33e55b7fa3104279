import Verif.GraphMutate
import Verif.Props.Construct

/-!
# C04, C05, C06, C07, C19: mutation, counting, degrees, neighbour queries

`g.abs : WGraph K` is what `number_of_vertices()` and `adjacency()` report;
`WGraph` and its operations are specified in `Verif/Spec/WGraph.lean`.
`Reachable g`: `g` comes from the matrix constructor by some history of
`add_edge` / `remove_edge` calls.
-/

set_option linter.unusedSectionVars false

namespace Stag
open Graph

variable {K : Type} [Field K] [LinearOrder K]

/-- C04.  Every history of `add_edge`/`remove_edge` on a reachable graph succeeds
and has exactly the effect of the same history on the abstract graph. -/
theorem C04_history_refines {g : Graph K} (h : g.Reachable) (ops : List (GOp K)) :
    ∃ g', g.run ops = .ok g' ∧ g'.abs = g.abs.run ops := by
  obtain ⟨g', h1, _, h3⟩ := run_spec ops h.valid
  exact ⟨g', h1, h3⟩

/-- C05.  After any history the adjacency matrix is well-formed compressed
storage, square of size `number_of_vertices()`, symmetric, and vanishes outside the vertex range. -/
theorem C05_structure_invariant {g : Graph K} (h : g.Reachable) :
    g.adj.WF ∧ g.adj.rows = g.n ∧ g.adj.cols = g.n ∧
    (∀ u v, g.abs.w u v = g.abs.w v u) ∧
    (∀ u v, g.n ≤ u ∨ g.n ≤ v → g.abs.w u v = 0) := by
  have hv := h.valid
  refine ⟨hv.wf, hv.rows, hv.cols, hv.symm, fun u v huv => ?_⟩
  rcases huv with hu | hu
  · exact hv.wf.coeff_of_rows_le (by rw [hv.rows]; exact hu) v
  · exact hv.wf.coeff_of_cols_le (by rw [hv.cols]; exact hu) u

/-- C05.  A missing self-loop flag is never wrong: after any history, if some
vertex has a self-loop of non-zero weight then `has_self_loops()` is true. -/
theorem C05_self_loop_flag_complete {g : Graph K} (h : g.Reachable) :
    (∃ v, g.abs.w v v ≠ 0) → g.selfLoops = true := by
  obtain ⟨m, g0, ops, hm, h0, hr⟩ := h
  have hv0 := ofMatrix_ok hm h0
  refine (run_induct (P := fun a => a.Valid ∧ ((∃ v, a.abs.w v v ≠ 0) → a.selfLoops = true))
    ops ⟨hv0.1, ?_⟩ hr ?_).2
  · rintro ⟨v, hne⟩
    rw [hv0.2.2.2.2.1, anySelfLoop_iff]
    refine ⟨v, ?_, hne⟩
    by_contra hvn
    exact hne (hv0.1.wf.coeff_of_rows_le (by rw [hv0.1.rows]; omega) v)
  · rintro a op b _ ⟨hva, hflag⟩ hstep
    cases op with
    | add i j x =>
      obtain ⟨b', h1, h2, h3, h4, _⟩ := addEdge_spec hva i j x
      simp only [step, h1] at hstep
      cases hstep
      refine ⟨h2, ?_⟩
      rintro ⟨v, hne⟩
      rw [h4]
      by_cases hij : i = j
      · simp [hij]
      · rw [if_neg hij]
        apply hflag
        refine ⟨v, ?_⟩
        rw [h3] at hne
        simp only [WGraph.addEdge] at hne
        rwa [if_neg (by rintro (⟨rfl, h⟩ | ⟨rfl, h⟩) <;> exact hij (by omega))] at hne
    | remove i j =>
      obtain ⟨b', h1, h2, h3, h4, h5⟩ := removeEdge_spec hva i j
      simp only [step, h1] at hstep
      cases hstep
      refine ⟨h2, ?_⟩
      rintro ⟨v, hne⟩
      by_cases hij : i < a.n ∧ j < a.n
      · rw [(h5 hij).1]
        by_cases he : i = j
        · rw [if_pos he, anySelfLoop_iff]
          refine ⟨v, ?_, hne⟩
          by_contra hvn
          exact hne (h2.wf.coeff_of_rows_le (by rw [h2.rows]; omega) v)
        · rw [if_neg he]
          apply hflag
          refine ⟨v, ?_⟩
          rw [h3] at hne
          have hij' : i < a.abs.n ∧ j < a.abs.n := hij
          simp only [WGraph.removeEdge, hij'] at hne
          simp only [and_self, if_true] at hne
          split_ifs at hne with hc
          · exact absurd rfl hne
          · exact hne
      · rw [h4 hij]
        rw [h4 hij] at hne
        exact hflag ⟨v, hne⟩

section
variable [IsStrictOrderedRing K]

/-- Only positive weights are added. -/
def PosOps (ops : List (GOp K)) : Prop := ∀ i j x, GOp.add i j x ∈ ops → 0 < x

/-- C05.  If only positive weights are ever added then all stored weights stay
positive, no zero is stored and `has_self_loops()` is exact. -/
theorem C05_positive_history {m : SprsMat K} {g₀ g : Graph K} {ops : List (GOp K)}
    (hm : m.WF) (h0 : ofMatrix m = .ok g₀) (hops : PosOps ops) (hr : g₀.run ops = .ok g) :
    (∀ j, ∀ e ∈ g.adj.col j, 0 < e.2) ∧ (∀ u v, 0 ≤ g.abs.w u v) ∧
    (g.selfLoops = true ↔ ∃ v, g.abs.w v v ≠ 0) := by
  have hv0 := ofMatrix_ok hm h0
  have key := run_induct (P := fun a => a.Valid ∧ (∀ j, ∀ e ∈ a.adj.col j, 0 < e.2) ∧
      (a.selfLoops = true → ∃ v, a.abs.w v v ≠ 0))
    ops ⟨hv0.1, fun j e he => lt_trans epsilon_pos (hv0.2.1 j e he), ?_⟩ hr ?_
  · obtain ⟨hv, hp, hf⟩ := key
    refine ⟨hp, fun u v => ?_, hf, C05_self_loop_flag_complete ⟨m, g₀, ops, hm, h0, hr⟩⟩
    by_cases hz : g.abs.w u v = 0
    · rw [hz]
    · exact le_of_lt (hp v _ (Col.mem_of_coeff_ne_zero hz))
  · rw [hv0.2.2.2.2.1, anySelfLoop_iff]
    rintro ⟨v, _, hne⟩
    exact ⟨v, hne⟩
  · rintro a op b hop ⟨hva, hpos, hflag⟩ hstep
    have hnn : ∀ u v, 0 ≤ a.adj.coeff u v := by
      intro u v
      by_cases hz : a.adj.coeff u v = 0
      · rw [hz]
      · exact le_of_lt (hpos v _ (Col.mem_of_coeff_ne_zero hz))
    cases op with
    | add i j x =>
      have hx := hops i j x hop
      obtain ⟨b', h1, h2, h3, h4, h5⟩ := addEdge_spec hva i j x
      simp only [step, h1] at hstep
      cases hstep
      have hw : ∀ u v, b.adj.coeff u v =
          if (u = i ∧ v = j) ∨ (u = j ∧ v = i) then
            a.adj.coeff u v + (if i = j then 2 * x else x) else a.adj.coeff u v :=
        fun u v => congrFun (congrFun (congrArg WGraph.w h3) u) v
      refine ⟨h2, ?_, ?_⟩
      · intro k e he
        have hc : b.adj.coeff e.1 k = e.2 := Col.coeff_eq_of_mem (h2.wf.sorted k) he
        rw [← hc, hw]
        split_ifs with c1 c2
        · have := hnn e.1 k; linarith
        · have := hnn e.1 k; linarith
        · rcases (h5 e.1 k).1 ⟨e.2, he⟩ with ⟨v, hv⟩ | hcon
          · have : a.adj.coeff e.1 k = v := Col.coeff_eq_of_mem (hva.wf.sorted k) hv
            rw [this]
            exact hpos k _ hv
          · exact absurd hcon c1
      · intro hs
        rw [h4] at hs
        by_cases hij : i = j
        · refine ⟨i, ?_⟩
          change b.adj.coeff i i ≠ 0
          rw [hw, if_pos (Or.inl ⟨rfl, hij⟩), if_pos hij]
          have := hnn i i
          intro h0'
          linarith
        · rw [if_neg hij] at hs
          obtain ⟨v, hne⟩ := hflag hs
          refine ⟨v, ?_⟩
          change b.adj.coeff v v ≠ 0
          rw [hw, if_neg (by rintro (⟨rfl, h⟩ | ⟨rfl, h⟩) <;> exact hij (by omega))]
          exact hne
    | remove i j =>
      obtain ⟨b', h1, h2, h3, h4, h5⟩ := removeEdge_spec hva i j
      simp only [step, h1] at hstep
      cases hstep
      by_cases hij : i < a.n ∧ j < a.n
      · obtain ⟨h6, h7, h8⟩ := h5 hij
        refine ⟨h2, fun k e he => hpos k e (h8 k e he), ?_⟩
        intro hs
        rw [h6] at hs
        by_cases he : i = j
        · rw [if_pos he, anySelfLoop_iff] at hs
          obtain ⟨v, _, hne⟩ := hs
          exact ⟨v, hne⟩
        · rw [if_neg he] at hs
          obtain ⟨v, hne⟩ := hflag hs
          refine ⟨v, ?_⟩
          rw [h3]
          have hij' : i < a.abs.n ∧ j < a.abs.n := hij
          simp only [WGraph.removeEdge, hij', and_self, if_true]
          rwa [if_neg (by rintro (⟨rfl, h⟩ | ⟨rfl, h⟩) <;> exact he (by omega))]
      · rw [h4 hij]; exact ⟨hva, hpos, hflag⟩

end

/-- C05: the restriction to positive weights cannot be dropped.  `add_edge(0, 0, 0)` sets the flag although
no self-loop exists. -/
theorem C05_zero_self_loop_sets_flag :
    ∃ g g' : Graph ℚ, ofMatrix ⟨1, 1, [[]]⟩ = .ok g ∧ g.addEdge 0 0 0 = .ok g' ∧
      g'.selfLoops = true ∧ ∀ v, g'.abs.w v v = 0 := by
  refine ⟨⟨1, ⟨1, 1, [[]]⟩, false⟩, ⟨1, ⟨1, 1, [[(0, 0)]]⟩, true⟩, by decide +kernel,
    by decide +kernel, rfl, ?_⟩
  intro v
  match v with
  | 0 => decide +kernel
  | v + 1 => simp [Graph.abs, SprsMat.coeff, SprsMat.col]

/-- In a debug build (`assert` enabled) `remove_edge(v, v)` on an existing vertex of any graph without
self-loops aborts: the asserted condition is false. -/
theorem C04_remove_missing_self_loop_asserts {g : Graph K} {v : Nat} (hv : v < g.n)
    (hs : g.selfLoops = false) : g.removeEdgeAsserts v v = false := by
  simp [removeEdgeAsserts, hs]; omega

/-! ### C06 -/

theorem nnz_eq {m : SprsMat K} (h : m.WF) (hz : m.NoZeros) :
    m.nnz = ∑ j ∈ Finset.range m.cols, ∑ i ∈ Finset.range m.rows,
      if m.coeff i j = 0 then 0 else 1 := by
  have h1 : m.nnz = ((List.range m.cols).map (fun j =>
      ((m.col j).map (fun e => if e.2 = 0 then 0 else 1)).sum)).sum := by
    have h2 : m.nnz = ((List.range m.cols).map (fun j => (m.col j).length)).sum := by
      conv_lhs => rw [h.eq_ofCols]
      simp only [SprsMat.nnz, SprsMat.ofCols, List.map_map]
      rfl
    rw [h2]
    congr 1
    apply List.map_congr_left
    intro j _
    rw [List.map_congr_left (g := fun _ => 1)]
    · simp
    · intro e he
      rw [if_neg (hz j e he)]
  rw [h1, SprsMat.sum_stored_eq h (fun _ _ v => if v = 0 then 0 else 1) (by simp)]

/-- C06.  Without stored zeros, `number_of_edges()` is the number of edges of the
abstract graph (each unordered pair, self-loops included, counted once). -/
theorem C06_number_of_edges {g : Graph K} (h : g.Reachable) (hz : g.adj.NoZeros) :
    g.numberOfEdges = g.abs.edges.card := by
  have hv := h.valid
  have hflag := C05_self_loop_flag_complete h
  set f : Nat → Nat → Nat := fun i j => if g.adj.coeff i j = 0 then 0 else 1 with hf
  have hsymm : ∀ i j, f i j = f j i := by
    intro i j; simp only [hf, hv.symm i j]
  have hnnz : g.adj.nnz = 2 * (∑ i ∈ Finset.range g.n, ∑ j ∈ Finset.range i, f j i) +
      ∑ i ∈ Finset.range g.n, f i i := by
    rw [nnz_eq hv.wf hz, hv.rows, hv.cols, Finset.sum_comm, sum_square, Finset.mul_sum]
    congr 1
    apply Finset.sum_congr rfl
    intro i _
    rw [Finset.mul_sum]
    apply Finset.sum_congr rfl
    intro j _
    have := hsymm i j
    simp only [hf] at this ⊢
    omega
  have hdiag : ((List.range g.n).filter (fun i => decide (g.adj.coeff i i ≠ 0))).length =
      ∑ i ∈ Finset.range g.n, f i i := by
    rw [← sum_list_range]
    generalize List.range g.n = l
    induction l with
    | nil => rfl
    | cons a l ih =>
      rw [List.filter_cons, List.map_cons, List.sum_cons, ← ih]
      by_cases ha : g.adj.coeff a a = 0 <;> simp [hf, ha]
      omega
  have hcard : g.abs.edges.card = (∑ i ∈ Finset.range g.n, ∑ j ∈ Finset.range i, f j i) +
      ∑ i ∈ Finset.range g.n, f i i := by
    have hc : g.abs.edges.card = ∑ i ∈ Finset.range g.n, ∑ j ∈ Finset.range g.n,
        (if i ≤ j then f i j else 0) := by
      rw [WGraph.edges, Finset.card_filter, Finset.sum_product]
      apply Finset.sum_congr rfl
      intro i _
      apply Finset.sum_congr rfl
      intro j _
      simp only [hf, Graph.abs]
      by_cases h1 : i ≤ j <;> by_cases h2 : g.adj.coeff i j = 0 <;> simp [h1, h2]
    rw [hc, sum_square]
    congr 1
    · apply Finset.sum_congr rfl
      intro i _
      apply Finset.sum_congr rfl
      intro j hj
      have := Finset.mem_range.1 hj
      rw [if_neg (by omega), if_pos (by omega), zero_add]
    · apply Finset.sum_congr rfl
      intro i _
      rw [if_pos (le_refl i)]
  unfold numberOfEdges
  rw [hcard]
  split_ifs with hs
  · rw [hdiag, hnnz]; omega
  · have hd0 : ∑ i ∈ Finset.range g.n, f i i = 0 := by
      apply Finset.sum_eq_zero
      intro i _
      by_contra hne
      apply hs
      apply hflag
      refine ⟨i, fun h0 => hne ?_⟩
      have h0 : g.adj.coeff i i = 0 := h0
      simp [hf, h0]
    rw [hnnz, hd0]; omega

/-- C06: a stored zero is counted as an edge, until a `remove_edge` prunes it. -/
theorem C06_zero_weight_edge_counted :
    ∃ g g' g'' : Graph ℚ, ofMatrix ⟨3, 3, [[], [], []]⟩ = .ok g ∧ g.addEdge 0 1 0 = .ok g' ∧
      g'.removeEdge 1 2 = .ok g'' ∧
      g.numberOfEdges = 0 ∧ g'.numberOfEdges = 1 ∧ g''.numberOfEdges = 0 := by
  refine ⟨⟨3, ⟨3, 3, [[], [], []]⟩, false⟩, ⟨3, ⟨3, 3, [[(1, 0)], [(0, 0)], []]⟩, false⟩,
    ⟨3, ⟨3, 3, [[], [], []]⟩, false⟩, ?_, ?_, ?_, ?_, ?_, ?_⟩ <;> decide +kernel

/-! ### C07 -/

theorem checkVertex_ok {g : Graph K} {v : Nat} (hv : v < g.n) : g.checkVertex v = .ok () := by
  unfold checkVertex
  rw [if_neg (by omega), if_neg (by omega)]

theorem checkVertex_bad {g : Graph K} {v : Int} (hv : ¬ (0 ≤ v ∧ v < g.n)) :
    g.checkVertex v = .throw .invalidArgument := by
  unfold checkVertex
  split_ifs <;> first | rfl | omega

/-- C07.  `degree(v)` is the total weight at `v` with self-loops counted twice, and is the
`v`-th diagonal entry of `degree_matrix()`, which is zero off the diagonal. -/
theorem C07_degree {g : Graph K} (h : g.Reachable) (v : Nat) (hv : v < g.n) :
    g.degree v = .ok (g.abs.deg v) ∧ g.degreeMatrix.coeff v v = g.abs.deg v ∧
    ∀ u, u ≠ v → g.degreeMatrix.coeff u v = 0 := by
  have hval := h.valid
  have hd : g.degreeMatrix.coeff v v = g.abs.deg v := by
    rw [degree_coeff hval, if_pos rfl]; rfl
  refine ⟨?_, hd, fun u hu => ?_⟩
  · unfold degree
    rw [checkVertex_ok hv]
    simp [hd]
  · rw [degree_coeff hval, if_neg hu]

/-- C07.  `degrees(vs)` is the list of the degrees. -/
theorem C07_degrees {g : Graph K} (h : g.Reachable) (vs : List Nat) (hvs : ∀ v ∈ vs, v < g.n) :
    g.degrees (vs.map (fun v : Nat => (v : Int))) = .ok (vs.map g.abs.deg) := by
  unfold degrees
  rw [Outcome.mapM'_total (fun v => g.abs.deg v.toNat)]
  · simp
  · intro a ha
    obtain ⟨v, hv, rfl⟩ := List.mem_map.1 ha
    simpa using (C07_degree h v (hvs v hv)).1

/-- C07.  `total_volume()` is the sum of the degrees, and twice the total weight
of the edges. -/
theorem C07_total_volume {g : Graph K} (h : g.Reachable) :
    g.totalVolume = ∑ v ∈ Finset.range g.n, g.abs.deg v ∧
    g.totalVolume = 2 * ∑ e ∈ g.abs.edges, g.abs.w e.1 e.2 := by
  have hv := h.valid
  have h1 : g.totalVolume = ∑ v ∈ Finset.range g.n, g.abs.deg v := by
    unfold totalVolume
    rw [sum_list_range]
    have : g.degreeMatrix.cols = g.n := hv.cols
    rw [this]
    apply Finset.sum_congr rfl
    intro v hvn
    rw [colTotal_eq (degree_wf g)]
    have hr : g.degreeMatrix.rows = g.n := hv.cols
    rw [hr, Finset.sum_eq_single v]
    · exact (C07_degree h v (Finset.mem_range.1 hvn)).2.1
    · intro u _ hu
      rw [degree_coeff hv, if_neg hu]
    · intro hh; exact absurd hvn hh
  refine ⟨h1, ?_⟩
  have h2 : ∑ e ∈ g.abs.edges, g.abs.w e.1 e.2 =
      ∑ i ∈ Finset.range g.n, ∑ j ∈ Finset.range g.n,
        (if i ≤ j then g.adj.coeff i j else 0) := by
    rw [WGraph.edges, Finset.sum_filter, Finset.sum_product]
    apply Finset.sum_congr rfl
    intro i _
    apply Finset.sum_congr rfl
    intro j _
    simp only [Graph.abs]
    by_cases h1 : i ≤ j <;> by_cases h2 : g.adj.coeff i j = 0 <;> simp [h1, h2]
  rw [h1, h2, sum_square]
  simp only [WGraph.deg, Graph.abs]
  rw [Finset.sum_add_distrib, sum_square, mul_add, Finset.mul_sum, add_assoc]
  congr 1
  · apply Finset.sum_congr rfl
    intro i _
    rw [Finset.mul_sum]
    apply Finset.sum_congr rfl
    intro j hj
    have := Finset.mem_range.1 hj
    rw [if_neg (by omega), if_pos (by omega), hv.symm i j]
    ring
  · rw [← two_mul]
    congr 1
    apply Finset.sum_congr rfl
    intro i _
    rw [if_pos (le_refl i)]

/-- C07.  `average_degree()` times the number of vertices is the total volume; it is NaN
exactly on the empty graph. -/
theorem C07_average_degree [IsStrictOrderedRing K] {g : Graph K} (hn : 0 < g.n) :
    ∃ a, g.averageDegree = .fin a ∧ a * (g.n : K) = g.totalVolume := by
  refine ⟨g.totalVolume / g.n, ?_, ?_⟩
  · unfold averageDegree; rw [if_neg (by omega)]
  · rw [div_mul_cancel₀]
    exact Nat.cast_ne_zero.2 (by omega)

/-! ### C19 -/

/-- C19.  `neighbors(v)` of an existing vertex lists exactly the pairs `(u, w(v,u))`
with non-zero weight, once each, in increasing order of `u`. -/
theorem C19_neighbors {g : Graph K} (h : g.Reachable) (v : Nat) (hv : v < g.n) :
    ∃ es, g.neighbors v = .ok es ∧
      (∀ e : Edge K, e ∈ es ↔ e.v1 = v ∧ e.w = g.abs.w v e.v2 ∧ e.w ≠ 0) ∧
      es.Pairwise (fun a b => a.v2 < b.v2) := by
  have hval := h.valid
  have hs := hval.wf.sorted v
  refine ⟨((g.adj.col v).filter (fun e => decide (e.2 ≠ 0))).map (fun e => ⟨v, e.1, e.2⟩),
    ?_, ?_, ?_⟩
  · unfold neighbors degreeUnweighted
    rw [checkVertex_ok hv]
    simp
  · intro e
    simp only [List.mem_map, List.mem_filter, decide_eq_true_eq]
    constructor
    · rintro ⟨x, ⟨hx, hz⟩, rfl⟩
      refine ⟨rfl, ?_, hz⟩
      simp only [Graph.abs]
      rw [hval.symm]
      exact (Col.coeff_eq_of_mem hs hx).symm
    · rintro ⟨h1, h2, h3⟩
      have h4 : g.adj.coeff e.v2 v = e.w := by rw [hval.symm]; exact h2.symm
      refine ⟨(e.v2, e.w), ⟨?_, h3⟩, ?_⟩
      · have := Col.mem_of_coeff_ne_zero (c := g.adj.col v) (i := e.v2)
          (by change g.adj.coeff e.v2 v ≠ 0; rw [h4]; exact h3)
        change (e.v2, g.adj.coeff e.v2 v) ∈ _ at this
        rwa [h4] at this
      · cases e; simp only at h1; subst h1; rfl
  · rw [List.pairwise_map]
    exact hs.filter _

/-- C19.  Without stored zeros `neighbors_unweighted(v)` is the increasing list of
the vertices joined to `v`, and `degree_unweighted(v)` counts them, a self-loop twice. -/
theorem C19_unweighted {g : Graph K} (h : g.Reachable) (hz : g.adj.NoZeros) (v : Nat)
    (hv : v < g.n) :
    ∃ us, g.neighborsUnweighted v = .ok us ∧ (∀ u, u ∈ us ↔ g.abs.w v u ≠ 0) ∧
      us.Pairwise (· < ·) ∧
      g.degreeUnweighted v = .ok (us.length + if g.abs.w v v ≠ 0 then 1 else 0) := by
  have hval := h.valid
  have hs := hval.wf.sorted v
  refine ⟨(g.adj.col v).map Prod.fst, ?_, ?_, ?_, ?_⟩
  · unfold neighborsUnweighted degreeUnweighted
    rw [checkVertex_ok hv]
    simp
  · intro u
    simp only [List.mem_map, Graph.abs]
    rw [hval.symm]
    constructor
    · rintro ⟨x, hx, rfl⟩
      change Col.coeff _ _ ≠ 0
      rw [Col.coeff_eq_of_mem hs hx]
      exact hz v x hx
    · intro hne
      exact ⟨_, Col.mem_of_coeff_ne_zero hne, rfl⟩
  · rw [List.pairwise_map]
    exact hs
  · unfold degreeUnweighted
    rw [checkVertex_ok hv]
    simp only [Outcome.bind_ok, Int.toNat_natCast, List.length_map]
    rfl

/-- C19.  For a vertex id that does not exist (negative or too large) every query
raises `invalid_argument`; `vertex_exists` tells the two cases apart. -/
theorem C19_missing_vertex (g : Graph K) (v : Int) :
    (g.vertexExists v = true ↔ 0 ≤ v ∧ v < g.n) ∧
    (g.vertexExists v = false →
      g.neighbors v = .throw .invalidArgument ∧
      g.neighborsUnweighted v = .throw .invalidArgument ∧
      g.degree v = .throw .invalidArgument ∧
      g.degreeUnweighted v = .throw .invalidArgument) := by
  constructor
  · simp [vertexExists]
  · intro hv
    have : ¬ (0 ≤ v ∧ v < g.n) := by
      unfold vertexExists at hv
      exact of_decide_eq_false hv
    have hc := checkVertex_bad this
    refine ⟨?_, ?_, ?_, ?_⟩ <;>
      simp [neighbors, neighborsUnweighted, degree, degreeUnweighted, hc]

/-! ### Concrete cases -/

/-- A history with growth, a self-loop, a repeated edge and a removal. -/
def exOps : List (GOp ℚ) := [.add 1 4 2, .add 3 3 1, .remove 0 0, .add 4 1 1, .remove 9 2]

def exAfter : Graph ℚ :=
  ⟨5, ⟨5, 5, [[(1, 2), (2, 3)], [(0, 2), (2, 1), (4, 3)], [(0, 3), (1, 1)], [(3, 2)], [(1, 3)]]⟩,
    true⟩

example : exGraph.run exOps = .ok exAfter := by decide +kernel

theorem exAfter_reachable : exAfter.Reachable :=
  ⟨exMat, exGraph, exOps, exMat_wf, by decide +kernel, by decide +kernel⟩

example : PosOps exOps := by
  intro i j x h
  simp only [exOps, List.mem_cons, GOp.add.injEq, reduceCtorEq, List.not_mem_nil, or_false,
    false_or] at h
  rcases h with ⟨_, _, rfl⟩ | ⟨_, _, rfl⟩ | ⟨_, _, rfl⟩ <;> norm_num

example : exAfter.numberOfEdges = 5 ∧ exAfter.adj.NoZeros := by
  refine ⟨by decide +kernel, fun j e he => ?_⟩
  have := (C05_positive_history exMat_wf (g₀ := exGraph) (g := exAfter) (ops := exOps)
    (by decide +kernel) (by
      intro i j x h
      simp only [exOps, List.mem_cons, GOp.add.injEq, reduceCtorEq, List.not_mem_nil, or_false,
        false_or] at h
      rcases h with ⟨_, _, rfl⟩ | ⟨_, _, rfl⟩ | ⟨_, _, rfl⟩ <;> norm_num)
    (by decide +kernel)).1 j e he
  exact ne_of_gt this

example : exAfter.degree 3 = .ok 4 ∧ exAfter.degreeUnweighted 3 = .ok 2 ∧
    exAfter.neighbors 1 = .ok [⟨1, 0, 2⟩, ⟨1, 2, 1⟩, ⟨1, 4, 3⟩] := by decide +kernel

end Stag
