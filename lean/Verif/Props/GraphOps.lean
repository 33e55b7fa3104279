import Verif.GraphOpsLemmas
import Verif.Props.Construct

/-!
# C12, C14, C16, C17: equality, arithmetic, disjoint union, raw vectors

`g.abs` is the abstract weighted graph (vertex count and weight function) of a
`Graph`; `g.Pruned` says every stored weight exceeds 1e-10, which holds for every
graph returned by a constructor (`C01_constructed_graph_sound`).
-/

set_option linter.unusedSectionVars false
set_option linter.unusedSimpArgs false

namespace Stag
open Graph

variable {K : Type} [Field K] [LinearOrder K]

/-! ### C17 -/

theorem fromVectors_eq_ok {starts inner : List Nat} {vals : List K} {m : SprsMat K} :
    SprsMat.fromVectors starts inner vals = .ok m ↔
      inner.length = vals.length ∧ starts.getLast? = some inner.length ∧
      starts.head? = some 0 ∧ starts.Pairwise (· ≤ ·) ∧
      m = ⟨starts.length - 1, starts.length - 1, SprsMat.slices starts (inner.zip vals)⟩ := by
  unfold SprsMat.fromVectors
  by_cases h1 : inner.length = vals.length
  · rw [if_neg (by simpa using h1)]
    cases hs : starts.getLast? with
    | none => simp
    | some last =>
      simp only
      by_cases h2 : last = inner.length
      · rw [if_neg (by simpa using h2)]
        by_cases h3 : starts.head? = some 0 ∧ starts.Pairwise (· ≤ ·)
        · rw [if_neg (by simp [h3])]
          simp only [h1, h2, h3, true_and, Outcome.ok.injEq]
          exact eq_comm
        · rw [if_pos (by simp only [not_and_or] at h3; simpa using h3)]
          simp only [reduceCtorEq, false_iff]
          rintro ⟨-, -, ha, hb, -⟩
          exact h3 ⟨ha, hb⟩
      · rw [if_pos (by simpa using h2)]
        simp [h2]
  · rw [if_pos (by simpa using h1)]
    simp [h1]

/-- C17.  With consistent lengths, `sprsMatFromVectors` has undefined behaviour exactly when the column starts do not begin
with `0` or decrease somewhere. -/
theorem C17_undefined (starts inner : List Nat) (vals : List K) (h1 : inner.length = vals.length)
    (h2 : starts.getLast? = some inner.length) :
    SprsMat.fromVectors starts inner vals = .ub ↔ starts.head? ≠ some 0 ∨ ¬ starts.Pairwise (· ≤ ·) := by
  unfold SprsMat.fromVectors
  rw [if_neg (by simpa using h1), h2]
  simp only [ne_eq, not_true_eq_false, if_false]
  by_cases hc : ¬ starts.head? = some 0 ∨ ¬ starts.Pairwise (· ≤ ·)
  · rw [if_pos hc]; simp [hc]
  · rw [if_neg hc]; simp [hc]

/-- C17.  `sprsMatFromVectors` raises `invalid_argument` exactly when the value and index arrays
have different lengths or the last column start is not that length. -/
theorem C17_inconsistent_lengths (starts inner : List Nat) (vals : List K) :
    SprsMat.fromVectors starts inner vals = .throw .invalidArgument ↔
      inner.length ≠ vals.length ∨ ∃ last, starts.getLast? = some last ∧ last ≠ inner.length := by
  unfold SprsMat.fromVectors
  by_cases h1 : inner.length = vals.length
  · rw [if_neg (by simpa using h1)]
    cases hs : starts.getLast? with
    | none => simp [h1]
    | some last =>
      simp only
      by_cases h2 : last = inner.length
      · rw [if_neg (by simpa using h2)]
        split_ifs <;> simp [h1, h2]
      · rw [if_pos (by simpa using h2)]
        simp only [true_iff]
        exact Or.inr ⟨last, rfl, h2⟩
  · rw [if_pos (by simpa using h1)]
    simp [h1]

/-- C17.  If `sprsMatFromVectors` returns a matrix, the three accessors read back the given
arrays, and column `k` holds the entries the arrays denote: positions
`starts[k] ..< starts[k+1]` of the index and value arrays. -/
theorem C17_vectors_read_back {starts inner : List Nat} {vals : List K} {m : SprsMat K}
    (h : SprsMat.fromVectors starts inner vals = .ok m) :
    m.outerStarts = starts ∧ m.innerIndices = inner ∧ m.values = vals ∧
      m.cols + 1 = starts.length ∧ m.rows = m.cols ∧
      ∀ k, k < m.cols → m.col k =
        ((inner.zip vals).drop (starts.getD k 0)).take (starts.getD (k + 1) 0 - starts.getD k 0) := by
  obtain ⟨h1, hs, h3, h4, rfl⟩ := fromVectors_eq_ok.1 h
  cases starts with
  | nil => simp at hs
  | cons a s =>
    have ha : a = 0 := by simpa using h3
    subst ha
    have hzl : (inner.zip vals).length = inner.length := by simp [h1]
    obtain ⟨s1, s2, s3⟩ := SprsMat.slices_spec (inner.zip vals) s 0 h4 (by
      intro x hx
      rw [hs] at hx
      cases hx
      omega)
    have hfl : (SprsMat.slices (0 :: s) (inner.zip vals)).flatten = inner.zip vals := by
      have hlast : (0 :: s).getLast (by simp) = inner.length := by
        have := List.getLast?_eq_some_getLast (l := 0 :: s) (by simp)
        rw [hs] at this
        simp only [Option.some.injEq] at this
        omega
      rw [hlast] at s3
      simp only [List.take_zero, List.nil_append] at s3
      rw [s3, List.take_of_length_le (by omega)]
    refine ⟨s2, ?_, ?_, by simp, rfl, ?_⟩
    · simp only [SprsMat.innerIndices]
      rw [List.flatMap_def, ← List.map_flatten, hfl]
      exact List.map_fst_zip (by omega)
    · simp only [SprsMat.values]
      rw [List.flatMap_def, ← List.map_flatten, hfl]
      exact List.map_snd_zip (by omega)
    · intro k hk
      exact SprsMat.slices_getElem _ _ _ _ (by simpa using hk)

/-- C17.  Reading a square compressed matrix into vectors and rebuilding gives the same
matrix. -/
theorem C17_rebuild {m : SprsMat K} (h : m.WF) (hsq : m.rows = m.cols) :
    SprsMat.fromVectors m.outerStarts m.innerIndices m.values = .ok m :=
  SprsMat.fromVectors_toVectors m hsq h.1

example : SprsMat.fromVectors exMat.outerStarts exMat.innerIndices exMat.values = .ok exMat ∧
    exMat.outerStarts = [0, 3, 5, 7] := ⟨C17_rebuild exMat_wf rfl, by decide +kernel⟩

/-! ### C12 -/

theorem beq_iff_adj {g h : Graph K} (hg : g.Valid) (hh : h.Valid) :
    g.beq h = true ↔ g.adj = h.adj := by
  unfold beq
  simp only [Bool.and_eq_true, decide_eq_true_eq]
  constructor
  · rintro ⟨⟨h1, h2⟩, h3⟩
    have e1 := C17_rebuild hg.wf (by rw [hg.rows, hg.cols])
    have e2 := C17_rebuild hh.wf (by rw [hh.rows, hh.cols])
    rw [h1, h2, h3, e2] at e1
    exact (Outcome.ok.inj e1).symm
  · intro h; rw [h]; simp

/-- C12.  For graphs without stored zeros, `g == h` holds exactly when they are the same
weighted graph: same number of vertices, same weight for every pair. -/
theorem C12_equality_iff {g h : Graph K} (hg : g.Valid) (hh : h.Valid) (zg : g.adj.NoZeros)
    (zh : h.adj.NoZeros) : g.beq h = true ↔ g.abs = h.abs := by
  rw [beq_iff_adj hg hh]
  constructor
  · intro he
    have : g.n = h.n := by rw [← hg.cols, ← hh.cols, he]
    simp [Graph.abs, he, this]
  · intro he
    have hn : g.n = h.n := congrArg WGraph.n he
    have hw : ∀ i j, g.adj.coeff i j = h.adj.coeff i j :=
      fun i j => congrFun (congrFun (congrArg WGraph.w he) i) j
    exact SprsMat.ext_coeff hg.wf hh.wf zg zh (by rw [hg.rows, hh.rows, hn])
      (by rw [hg.cols, hh.cols, hn]) hw

/-- C12.  `==` is an equivalence relation on all graphs. -/
theorem C12_equivalence :
    (∀ g : Graph K, g.beq g = true) ∧
    (∀ g h : Graph K, g.beq h = true → h.beq g = true) ∧
    (∀ g h k : Graph K, g.beq h = true → h.beq k = true → g.beq k = true) := by
  refine ⟨fun g => by simp [beq], fun g h => ?_, fun g h k => ?_⟩
  · simp only [beq, Bool.and_eq_true, decide_eq_true_eq]
    rintro ⟨⟨h1, h2⟩, h3⟩
    exact ⟨⟨h1.symm, h2.symm⟩, h3.symm⟩
  · simp only [beq, Bool.and_eq_true, decide_eq_true_eq]
    rintro ⟨⟨h1, h2⟩, h3⟩ ⟨⟨k1, k2⟩, k3⟩
    exact ⟨⟨h1.trans k1, h2.trans k2⟩, h3.trans k3⟩

/-- The stored-zero hypothesis of C12 is needed: `add_edge(0, 1, 0)` on a graph without edges
leaves a graph with the same weights that is not `==` to the original. -/
theorem C12_stored_zero_differs :
    ∃ g h : Graph ℚ, g.addEdge 0 1 0 = .ok h ∧ g.abs = h.abs ∧ g.beq h = false := by
  refine ⟨⟨2, ⟨2, 2, [[], []]⟩, false⟩, ⟨2, ⟨2, 2, [[(1, 0)], [(0, 0)]]⟩, false⟩,
    by decide +kernel, ?_, by decide +kernel⟩
  simp only [Graph.abs, WGraph.mk.injEq, true_and]
  funext i j
  match j with
  | 0 => simp [SprsMat.coeff, SprsMat.col, Col.coeff]
  | 1 => simp [SprsMat.coeff, SprsMat.col, Col.coeff]
  | j + 2 => simp [SprsMat.coeff, SprsMat.col, Col.coeff]

section
variable [IsStrictOrderedRing K]

example : exGraph.Valid ∧ exGraph.adj.NoZeros :=
  ⟨exGraph_valid, Pruned.noZeros (ofMatrix_ok exMat_wf (g := exGraph) (by decide +kernel)).2.1⟩

/-! ### C14 -/

/-- C14.  The sum of two graphs with different vertex counts raises `invalid_argument`. -/
theorem C14_add_mismatch {g h : Graph K} (hn : g.n ≠ h.n) :
    g.add h = .throw .invalidArgument := by
  unfold Graph.add
  rw [if_pos hn]

/-- C14.  On the same vertex count the sum exists and has the entrywise sum of the
weights. -/
theorem C14_add {g h : Graph K} (hg : g.Valid) (hh : h.Valid) (pg : g.Pruned) (ph : h.Pruned)
    (hn : g.n = h.n) :
    ∃ k, g.add h = .ok k ∧ k.Valid ∧ k.Pruned ∧ k.abs = g.abs.add h.abs := by
  have hco : ∀ i j, (SprsMat.zipWith (· + ·) g.adj h.adj).coeff i j =
      g.adj.coeff i j + h.adj.coeff i j :=
    SprsMat.coeff_zipWith hg.wf hh.wf (by rw [hg.cols, hh.cols, hn]) _ (by simp)
  obtain ⟨k, hk, hv, _, hkn, hkc, hkp⟩ := ofMatrix_nonneg
    (m := SprsMat.zipWith (· + ·) g.adj h.adj)
    (SprsMat.wf_zipWith hg.wf hh.wf (by rw [hg.rows, hh.rows, hn]) _)
    (by simp [SprsMat.zipWith, hg.rows, hg.cols])
    (fun i j => by rw [hco]; exact add_nonneg (pg.nonneg i j) (ph.nonneg i j))
    (fun i j => by rw [hco, hco, hg.symm, hh.symm])
  refine ⟨k, ?_, hv, hkp, ?_⟩
  · unfold Graph.add
    rw [if_neg (by simpa using hn), hk]
  · have hn' : k.n = g.n := by rw [hkn]; simp [SprsMat.zipWith, hg.cols]
    simp only [Graph.abs, WGraph.add, WGraph.mk.injEq]
    refine ⟨hn', ?_⟩
    funext i j
    rw [hkc, hco]
    apply thr_of_zero_or
    have e := epsilon_pos (K := K)
    rcases pg.coeff i j with h1 | h1 <;> rcases ph.coeff i j with h2 | h2
    · left; rw [h1, h2, add_zero]
    · right; rw [h1, zero_add]; exact h2
    · right; rw [h2, add_zero]; exact h1
    · right; linarith

/-- C14.  Addition is commutative and associative as observed by `==`. -/
theorem C14_add_comm_assoc {g h k : Graph K} (hg : g.Valid) (hh : h.Valid) (hk : k.Valid)
    (pg : g.Pruned) (ph : h.Pruned) (pk : k.Pruned) (hn : g.n = h.n) (hn' : h.n = k.n) :
    (∃ a b, g.add h = .ok a ∧ h.add g = .ok b ∧ a.beq b = true) ∧
    (∃ a b c d, g.add h = .ok a ∧ a.add k = .ok b ∧ h.add k = .ok c ∧ g.add c = .ok d ∧
      b.beq d = true) := by
  obtain ⟨a, ha, va, qa, ea⟩ := C14_add hg hh pg ph hn
  obtain ⟨b, hb, vb, qb, eb⟩ := C14_add hh hg ph pg hn.symm
  obtain ⟨c, hc, vc, qc, ec⟩ := C14_add hh hk ph pk hn'
  have na : a.n = g.n := congrArg WGraph.n ea
  have nc : c.n = h.n := congrArg WGraph.n ec
  obtain ⟨d, hd, vd, qd, ed⟩ := C14_add va hk qa pk (by omega)
  obtain ⟨e, he, ve, qe, ee⟩ := C14_add hg vc pg qc (by omega)
  refine ⟨⟨a, b, ha, hb, ?_⟩, ⟨a, d, c, e, ha, hd, hc, he, ?_⟩⟩
  · rw [C12_equality_iff va vb qa.noZeros qb.noZeros, ea, eb]
    simp only [WGraph.add, WGraph.mk.injEq]
    exact ⟨hn, by funext i j; exact add_comm _ _⟩
  · rw [C12_equality_iff vd ve qd.noZeros qe.noZeros, ed, ee, ea, ec]
    simp only [WGraph.add, WGraph.mk.injEq, true_and]
    funext i j; exact add_assoc _ _ _

/-- C14.  Multiplying by a positive number scales every weight, provided the scaled
weights stay above the pruning threshold. -/
theorem C14_scale {g : Graph K} (hg : g.Valid) (pg : g.Pruned) {c : K} (hc : 0 < c)
    (hcp : ∀ i j, g.adj.coeff i j ≠ 0 → epsilon < c * g.adj.coeff i j) :
    ∃ k, g.smul c = .ok k ∧ k.Valid ∧ k.Pruned ∧ k.abs = g.abs.scale c := by
  have hco : ∀ i j, (g.adj.mapVal (fun v => c * v)).coeff i j = c * g.adj.coeff i j :=
    SprsMat.coeff_mapVal hg.wf _ (by simp)
  obtain ⟨k, hk, hv, _, hkn, hkc, hkp⟩ := ofMatrix_nonneg
    (m := g.adj.mapVal (fun v => c * v)) (SprsMat.wf_mapVal hg.wf _)
    (by simp [SprsMat.mapVal, hg.rows, hg.cols])
    (fun i j => by rw [hco]; exact mul_nonneg hc.le (pg.nonneg i j))
    (fun i j => by rw [hco, hco, hg.symm])
  refine ⟨k, hk, hv, hkp, ?_⟩
  have hn' : k.n = g.n := by rw [hkn]; simp [SprsMat.mapVal, hg.cols]
  simp only [Graph.abs, WGraph.scale, WGraph.mk.injEq]
  refine ⟨hn', ?_⟩
  funext i j
  rw [hkc, hco]
  apply thr_of_zero_or
  by_cases h0 : g.adj.coeff i j = 0
  · left; rw [h0, mul_zero]
  · exact Or.inr (hcp i j h0)

/-- C14.  Multiplying a graph that has an edge by a negative number raises a domain error. -/
theorem C14_negative_scale {g : Graph K} (hg : g.Valid) (pg : g.Pruned) {c : K} (hc : c < 0)
    {u v : Nat} (he : g.adj.coeff u v ≠ 0) : g.smul c = .throw .domainError := by
  have hw : (g.adj.mapVal (fun v => c * v)).WF := SprsMat.wf_mapVal hg.wf _
  have hco : ∀ i j, (g.adj.mapVal (fun v => c * v)).coeff i j = c * g.adj.coeff i j :=
    SprsMat.coeff_mapVal hg.wf _ (by simp)
  have hpos : ∀ i j, g.adj.coeff i j ≠ 0 → 0 < g.adj.coeff i j := fun i j h =>
    lt_of_le_of_ne (pg.nonneg i j) (Ne.symm h)
  have hlt : c * g.adj.coeff u v < 0 := mul_neg_of_neg_of_pos hc (hpos u v he)
  have hvn : v < g.n := by
    by_contra hv
    exact he (hg.wf.coeff_of_cols_le (by rw [hg.cols]; omega) u)
  have hun : u < g.n := by
    by_contra hu
    exact he (hg.wf.coeff_of_rows_le (by rw [hg.rows]; omega) v)
  obtain ⟨h1, h2, _⟩ := C01_construct_laplacian_iff hw
    (by simp [SprsMat.mapVal, hg.rows, hg.cols]) (by
      refine ⟨v, (u, c * g.adj.coeff u v), ?_, hlt⟩
      have := Col.mem_of_coeff_ne_zero (c := (g.adj.mapVal (fun v => c * v)).col v) (i := u)
        (by change (g.adj.mapVal (fun v => c * v)).coeff u v ≠ 0; rw [hco]; exact ne_of_lt hlt)
      change (u, (g.adj.mapVal (fun v => c * v)).coeff u v) ∈ _ at this
      rwa [hco] at this)
  apply h2
  intro k hk
  have := (h1.1 ⟨k, hk⟩).2.1 v (by simpa [SprsMat.mapVal, hg.cols] using hvn)
  have hr : (g.adj.mapVal (fun v => c * v)).rows = g.n := by simp [SprsMat.mapVal, hg.rows]
  rw [hr] at this
  simp only [hco] at this
  have hneg : ∑ i ∈ Finset.range g.n, c * g.adj.coeff i v < 0 := by
    have : ∑ i ∈ Finset.range g.n, c * g.adj.coeff i v ≤
        ∑ i ∈ Finset.range g.n, if i = u then c * g.adj.coeff u v else 0 := by
      apply Finset.sum_le_sum
      intro i _
      split_ifs with hi
      · rw [hi]
      · exact mul_nonpos_of_nonpos_of_nonneg hc.le (pg.nonneg i v)
    rw [Finset.sum_ite_eq' (Finset.range g.n) u, if_pos (Finset.mem_range.2 hun)] at this
    exact lt_of_le_of_lt this hlt
  exact absurd this (not_le.2 hneg)

example : exGraph.Pruned := (ofMatrix_ok exMat_wf (g := exGraph) (by decide +kernel)).2.1
example : (exGraph.add exGraph = exGraph.smul 2) ∧ exGraph.smul (-1) = .throw .domainError := by
  decide +kernel

/-! ### C16 -/

/-- The matrix the three concatenated arrays should denote. -/
def blockMat (g h : Graph K) : SprsMat K :=
  ⟨g.n + h.n, g.n + h.n, g.adj.data ++ h.adj.data.map (fun c => c.map (fun e => (e.1 + g.n, e.2)))⟩

theorem prefixSums_append (l' : List Nat) (l : List Nat) : ∀ s,
    SprsMat.prefixSums s (l ++ l') =
      SprsMat.prefixSums s l ++ (SprsMat.prefixSums (s + l.sum) l').tail := by
  induction l with
  | nil => intro s; cases l' <;> simp [SprsMat.prefixSums]
  | cons a l ih => intro s; simp [SprsMat.prefixSums, ih, Nat.add_assoc]

theorem prefixSums_shift (l : List Nat) : ∀ s t,
    SprsMat.prefixSums (s + t) l = (SprsMat.prefixSums s l).map (· + t) := by
  induction l with
  | nil => intro s t; rfl
  | cons a l ih =>
    intro s t
    simp only [SprsMat.prefixSums, List.map_cons]
    rw [show s + t + a = (s + a) + t by omega, ih]

theorem filter_prefixSums_pos (l : List Nat) (s : Nat) (hs : 0 < s) :
    (SprsMat.prefixSums s l).filter (fun x => decide (x ≠ 0)) = SprsMat.prefixSums s l := by
  rw [List.filter_eq_self]
  intro x hx
  have := SprsMat.le_prefixSums _ _ _ hx
  simp; omega

theorem blockMat_col {g h : Graph K} (hg : g.Valid) (j : Nat) :
    (blockMat g h).col j = if j < g.n then g.adj.col j
      else (h.adj.col (j - g.n)).map (fun e => (e.1 + g.n, e.2)) := by
  have hl : g.adj.data.length = g.n := by rw [hg.wf.1, hg.cols]
  unfold SprsMat.col blockMat
  split_ifs with hj
  · rw [List.getD_append _ _ _ _ (by omega)]
  · rw [List.getD_append_right _ _ _ _ (by omega), hl]
    rw [← List.map_nil (f := fun e : Nat × K => (e.1 + g.n, e.2)), List.getD_map]
    rfl

theorem coeff_shift (c : Col K) (n i : Nat) :
    Col.coeff (c.map (fun e => (e.1 + n, e.2))) i = if n ≤ i then Col.coeff c (i - n) else 0 := by
  induction c with
  | nil => simp [Col.coeff]
  | cons e c ih =>
    obtain ⟨r, v⟩ := e
    simp only [List.map_cons, Col.coeff_cons, ih]
    by_cases hni : n ≤ i
    · simp only [if_pos hni]
      by_cases hr : r = i - n
      · rw [if_pos (by omega), if_pos hr]
      · rw [if_neg (by omega), if_neg hr]
    · rw [if_neg (by omega), if_neg hni, if_neg hni]

theorem disjUnion_w (g h : Graph K) (i j : Nat) : (g.abs.disjUnion h.abs).w i j =
    if i < g.n ∧ j < g.n then g.adj.coeff i j
    else if g.n ≤ i ∧ g.n ≤ j then h.adj.coeff (i - g.n) (j - g.n) else 0 := rfl

/-- C16.  If the first vertex of the second graph has an edge (or the second graph is empty),
`disjoint_union` is the disjoint union. -/
theorem C16_disjoint_union_partial {g h : Graph K} (hg : g.Valid) (hh : h.Valid) (pg : g.Pruned)
    (ph : h.Pruned) (h0 : h.n = 0 ∨ ∃ u, h.adj.coeff u 0 ≠ 0) :
    ∃ k, g.disjointUnion h = .ok k ∧ k.Valid ∧ k.Pruned ∧ k.abs = g.abs.disjUnion h.abs := by
  have lg : g.adj.data.length = g.n := by rw [hg.wf.1, hg.cols]
  have lh : h.adj.data.length = h.n := by rw [hh.wf.1, hh.cols]
  have e1 : (blockMat g h).outerStarts = g.adj.outerStarts ++
      (h.adj.outerStarts.filter (fun s => decide (s ≠ 0))).map (· + g.adj.outerStarts.getLastD 0) := by
    have hlast : g.adj.outerStarts.getLastD 0 = (g.adj.data.map List.length).sum := by
      have := SprsMat.getLast_prefixSums (g.adj.data.map List.length) 0
      unfold SprsMat.outerStarts
      rw [List.getLastD_eq_getLast?, this]
      simp
    have hf : h.adj.outerStarts.filter (fun s => decide (s ≠ 0)) = h.adj.outerStarts.tail := by
      unfold SprsMat.outerStarts
      cases hd : h.adj.data with
      | nil => simp [SprsMat.prefixSums]
      | cons c d =>
        have hc : 0 < c.length := by
          rcases h0 with h0 | ⟨u, hu⟩
          · rw [hd] at lh; simp at lh; omega
          · have := Col.mem_of_coeff_ne_zero (c := h.adj.col 0) hu
            have hc : h.adj.col 0 = c := by simp [SprsMat.col, hd]
            rw [hc] at this
            exact List.length_pos_of_mem this
        simp only [List.map_cons, SprsMat.prefixSums, List.tail_cons, Nat.zero_add]
        rw [List.filter_cons_of_neg (by simp), filter_prefixSums_pos _ _ hc]
    rw [hf, hlast]
    unfold SprsMat.outerStarts blockMat
    simp only [List.map_append, List.map_map]
    rw [prefixSums_append]
    congr 1
    rw [prefixSums_shift, List.map_tail]
    congr 3
    apply List.map_congr_left
    intro c _
    simp
  have e2 : (blockMat g h).innerIndices = g.adj.innerIndices ++ h.adj.innerIndices.map (· + g.n) := by
    simp [SprsMat.innerIndices, blockMat, List.flatMap_map, List.map_flatMap, Function.comp_def]
  have e3 : (blockMat g h).values = g.adj.values ++ h.adj.values := by
    simp [SprsMat.values, blockMat, List.flatMap_map, Function.comp_def]
  have hbl : (blockMat g h).data.length = (blockMat g h).cols := by simp [blockMat, lg, lh]
  have hw : (blockMat g h).WF := by
    refine ⟨hbl, fun j => ?_⟩
    rw [blockMat_col hg]
    split_ifs with hj
    · refine ⟨hg.wf.sorted j, fun e he => ?_⟩
      have := hg.wf.row_lt he
      rw [hg.rows] at this
      simp only [blockMat]; omega
    · refine ⟨?_, fun e he => ?_⟩
      · have := hh.wf.sorted (j - g.n)
        unfold Col.Sorted at this ⊢
        rw [List.pairwise_map]
        exact this.imp (by intro a b hab; simp only; omega)
      · obtain ⟨e', he', rfl⟩ := List.mem_map.1 he
        have := hh.wf.row_lt he'
        rw [hh.rows] at this
        simp only [blockMat]; omega
  have hco : ∀ i j, (blockMat g h).coeff i j = (g.abs.disjUnion h.abs).w i j := by
    intro i j
    unfold SprsMat.coeff
    rw [blockMat_col hg, disjUnion_w]
    by_cases hj : j < g.n
    · rw [if_pos hj]
      by_cases hi : i < g.n
      · rw [if_pos ⟨hi, hj⟩]; rfl
      · rw [if_neg (by omega), if_neg (by omega)]
        exact hg.wf.coeff_of_rows_le (by rw [hg.rows]; omega) j
    · rw [if_neg hj, coeff_shift]
      by_cases hi : g.n ≤ i
      · rw [if_pos hi, if_neg (by omega), if_pos ⟨hi, by omega⟩]; rfl
      · rw [if_neg hi, if_neg (by omega), if_neg (by omega)]
  have hcoP : ∀ i j, (blockMat g h).coeff i j = 0 ∨ epsilon < (blockMat g h).coeff i j := by
    intro i j
    rw [hco, disjUnion_w]
    split_ifs
    · exact pg.coeff i j
    · exact ph.coeff _ _
    · exact Or.inl rfl
  obtain ⟨k, hk, hv, _, hkn, hkc, hkp⟩ := ofMatrix_nonneg hw rfl
    (fun i j => by
      rcases hcoP i j with h | h
      · rw [h]
      · exact le_trans epsilon_pos.le h.le)
    (fun i j => by
      rw [hco, hco, disjUnion_w, disjUnion_w]
      rw [hg.symm i j, hh.symm (i - g.n) (j - g.n)]
      simp only [and_comm])
  refine ⟨k, ?_, hv, hkp, ?_⟩
  · unfold disjointUnion ofVectors
    simp only
    rw [← e1, ← e2, ← e3, SprsMat.fromVectors_toVectors _ rfl hbl]
    exact hk
  · have : k.abs.w = (g.abs.disjUnion h.abs).w := by
      funext i j
      change k.adj.coeff i j = _
      rw [hkc, thr_of_zero_or (hcoP i j), hco]
    ext1
    · exact hkn
    · rw [this]

theorem lapToAdj_cols (m : SprsMat K) : (lapToAdj m).cols = m.cols := by
  unfold lapToAdj
  have : ∀ (l : List Nat) (a : SprsMat K),
      (l.foldl (fun a i => a.update i i (fun _ => m.rowSum i)) a).cols = a.cols := by
    intro l
    induction l with
    | nil => intro a; rfl
    | cons x l ih => intro a; rw [List.foldl_cons, ih]; rfl
  rw [this]; rfl

theorem ofMatrix_cols {m : SprsMat K} {k : Graph K} (hk : ofMatrix m = .ok k) : k.n = m.cols := by
  unfold ofMatrix at hk
  split_ifs at hk
  rw [Outcome.bind_eq_ok] at hk
  obtain ⟨a, ha, hk⟩ := hk
  split_ifs at hk
  cases hk
  by_cases hn : foundNegative m = true
  · by_cases hp : positiveOffDiagonal m = true
    · simp [adjFromAdjOrLap, hn, hp] at ha
    · by_cases hd : diagonallyDominant m = true
      · rw [adjFromAdjOrLap_lap hn (by simpa using hp) hd] at ha
        cases ha
        exact lapToAdj_cols m
      · simp [adjFromAdjOrLap, hn, hp, hd] at ha
  · rw [adjFromAdjOrLap_nonneg (by simpa using hn)] at ha
    cases ha
    rfl

/-- C16 fails otherwise: if the first vertex of a non-empty second graph is isolated, no result
has the right number of vertices (the call loses vertices or is undefined
behaviour), because the zero entries of the column starts are skipped. -/
theorem C16_isolated_first_vertex {g h : Graph K} (hg : g.Valid) (hh : h.Valid)
    (hn : 0 < h.n) (h0 : h.adj.col 0 = []) :
    ∀ k, g.disjointUnion h = .ok k → k.n < g.n + h.n := by
  intro k hk
  unfold disjointUnion ofVectors at hk
  simp only at hk
  rw [Outcome.bind_eq_ok] at hk
  obtain ⟨m, hm, hk⟩ := hk
  obtain ⟨h1, h2, h3, h4, rfl⟩ := fromVectors_eq_ok.1 hm
  have hkn : k.n = g.adj.outerStarts.length +
      (h.adj.outerStarts.filter (fun s => decide (s ≠ 0))).length - 1 := by
    rw [ofMatrix_cols hk]
    simp
  have lg : g.adj.data.length = g.n := by rw [hg.wf.1, hg.cols]
  have lh : h.adj.data.length = h.n := by rw [hh.wf.1, hh.cols]
  have hlg : g.adj.outerStarts.length = g.n + 1 := by
    simp [SprsMat.outerStarts, SprsMat.length_prefixSums, lg]
  have hlh : (h.adj.outerStarts.filter (fun s => decide (s ≠ 0))).length < h.n := by
    unfold SprsMat.outerStarts
    cases hd : h.adj.data with
    | nil => rw [hd] at lh; simp at lh; omega
    | cons c d =>
      have hc : c = [] := by
        have hc : h.adj.col 0 = c := by simp [SprsMat.col, hd]
        rw [← hc, h0]
      subst hc
      rw [hd] at lh
      simp only [List.map_cons, List.length_nil, SprsMat.prefixSums, Nat.zero_add]
      rw [List.filter_cons_of_neg (by simp)]
      cases d with
      | nil => simp [SprsMat.prefixSums] at lh ⊢; omega
      | cons c' d' =>
        simp only [List.map_cons, SprsMat.prefixSums, Nat.zero_add]
        rw [List.filter_cons_of_neg (by simp)]
        refine lt_of_le_of_lt (List.length_filter_le _ _) ?_
        rw [SprsMat.length_prefixSums]
        simp at lh ⊢
        omega
  omega

/-- Two instances of the failure: an edgeless graph disappears, and a graph whose
vertex 0 is isolated makes the call undefined. -/
theorem C16_counterexamples :
    (∃ g h : Graph ℚ, ofMatrix ⟨2, 2, [[(1, 1)], [(0, 1)]]⟩ = .ok g ∧
      ofMatrix ⟨1, 1, [[]]⟩ = .ok h ∧ g.disjointUnion h = .ok g) ∧
    (∃ g h : Graph ℚ, ofMatrix ⟨2, 2, [[(1, 1)], [(0, 1)]]⟩ = .ok g ∧
      ofMatrix ⟨3, 3, [[], [(2, 1)], [(1, 1)]]⟩ = .ok h ∧ g.disjointUnion h = .ub) := by
  refine ⟨⟨⟨2, ⟨2, 2, [[(1, 1)], [(0, 1)]]⟩, false⟩, ⟨1, ⟨1, 1, [[]]⟩, false⟩, ?_, ?_, ?_⟩,
    ⟨⟨2, ⟨2, 2, [[(1, 1)], [(0, 1)]]⟩, false⟩,
      ⟨3, ⟨3, 3, [[], [(2, 1)], [(1, 1)]]⟩, false⟩, ?_, ?_, ?_⟩⟩ <;> decide +kernel

example : exGraph.Valid ∧ exGraph.Pruned ∧ (∃ u, exGraph.adj.coeff u 0 ≠ 0) :=
  ⟨exGraph_valid, (ofMatrix_ok exMat_wf (g := exGraph) (by decide +kernel)).2.1, 1,
    by decide +kernel⟩

end
end Stag
