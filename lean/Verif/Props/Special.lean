import Verif.Special
import Verif.GraphLemmas

/-!
# C91: infinite and undefined weights
-/

set_option linter.unusedSectionVars false

namespace Stag

open Graph

section
variable {K : Type} [Field K] [LinearOrder K] [IsStrictOrderedRing K]

/-- What becomes of an entry of the matrix given to the constructor: infinities and finite numbers above `1e-10` are kept,
everything else, including NaN, is no edge. -/
def clean : XReal K → XReal K
  | .fin a => if epsilon < a then .fin a else .fin 0
  | .posInf => .posInf
  | _ => .fin 0

/-- The weights a graph built by the constructor can have. -/
def IsWeightX (x : XReal K) : Prop := x = .posInf ∨ ∃ a : K, x = .fin a ∧ (a = 0 ∨ epsilon < a)

/-- The abstract graph of a graph object. -/
def Graph.absX (g : Graph (XReal K)) : WGraph (XReal K) := ⟨g.n, fun i j => g.adj.coeff i j⟩

/-- Square symmetric well-formed matrix. -/
structure Graph.ValidX (g : Graph (XReal K)) : Prop where
  wf : g.adj.WF
  rows : g.adj.rows = g.n
  cols : g.adj.cols = g.n
  symm : ∀ i j, g.adj.coeff i j = g.adj.coeff j i

/-- **C91** (the comparisons).  IEEE comparisons: finite numbers are compared as usual and lie strictly between the infinities;
NaN is neither less than nor equal to anything, itself included. -/
theorem C91_compare (x y : XReal K) :
    (XReal.lt x y = true ↔ (∃ a b : K, x = .fin a ∧ y = .fin b ∧ a < b) ∨
      (x = .negInf ∧ (y = .posInf ∨ ∃ b : K, y = .fin b)) ∨ (y = .posInf ∧ ∃ a : K, x = .fin a)) ∧
    (XReal.eq x y = true ↔ x = y ∧ x ≠ .nan) := by
  cases x <;> cases y <;> simp [XReal.lt, XReal.eq]

theorem clean_fin (a : K) : clean (.fin a) = if epsilon < a then .fin a else .fin 0 := rfl

namespace XReal

theorem zero_def : (0 : XReal K) = fin 0 := rfl

theorem lt_zero_iff {x : XReal K} : x.lt (fin 0) = true ↔ x = negInf ∨ ∃ a : K, a < 0 ∧ x = fin a := by
  cases x <;> simp [lt]

theorem eq_iff {x y : XReal K} (h : x ≠ nan) : x.eq y = true ↔ x = y := by
  cases x <;> first | exact absurd rfl h | simp [eq]

theorem eq_self_iff {x : XReal K} : x.eq x = true ↔ x ≠ nan := by
  cases x <;> simp [eq]

theorem eps_lt_iff {x : XReal K} : (fin epsilon).lt x = true ↔ x = posInf ∨ ∃ a : K, epsilon < a ∧ x = fin a := by
  cases x <;> simp [lt]

theorem clean_of_lt {x : XReal K} (h : (fin epsilon).lt x = true) : clean x = x := by
  cases x <;> simp_all [lt, clean]

theorem clean_of_not_lt {x : XReal K} (h : (fin epsilon).lt x = false) : clean x = fin 0 := by
  cases x <;> simp_all [lt, clean]

theorem isWeight_clean (x : XReal K) : IsWeightX (clean x) := by
  unfold IsWeightX
  cases x with
  | fin a =>
    rw [clean_fin]
    by_cases h : epsilon < a
    · rw [if_pos h]; exact Or.inr ⟨a, rfl, Or.inr h⟩
    · rw [if_neg h]; exact Or.inr ⟨0, rfl, Or.inl rfl⟩
  | posInf => exact Or.inl rfl
  | negInf => exact Or.inr ⟨0, rfl, Or.inl rfl⟩
  | nan => exact Or.inr ⟨0, rfl, Or.inl rfl⟩

theorem clean_of_isWeightX {x : XReal K} (h : IsWeightX x) : clean x = x := by
  rcases h with rfl | ⟨a, rfl, rfl | h⟩
  · rfl
  · rw [clean_fin]; split_ifs <;> rfl
  · rw [clean_fin, if_pos h]

/-- Neither negative nor NaN. -/
def Nonneg (x : XReal K) : Prop := x = posInf ∨ ∃ a : K, 0 ≤ a ∧ x = fin a

theorem Nonneg.of_isWeightX {x : XReal K} (h : IsWeightX x) : Nonneg x := by
  rcases h with rfl | ⟨a, rfl, rfl | h⟩
  · exact Or.inl rfl
  · exact Or.inr ⟨0, le_rfl, rfl⟩
  · exact Or.inr ⟨a, le_trans epsilon_pos.le h.le, rfl⟩

theorem Nonneg.add {x y : XReal K} (hx : Nonneg x) (hy : Nonneg y) : Nonneg (x + y) := by
  rcases hx with rfl | ⟨a, ha, rfl⟩ <;> rcases hy with rfl | ⟨b, hb, rfl⟩
  · exact Or.inl rfl
  · exact Or.inl rfl
  · exact Or.inl rfl
  · exact Or.inr ⟨a + b, add_nonneg ha hb, rfl⟩

theorem add_eq_posInf {x y : XReal K} (hx : Nonneg x) (hy : Nonneg y) : x + y = posInf ↔ x = posInf ∨ y = posInf := by
  rcases hx with rfl | ⟨a, ha, rfl⟩ <;> rcases hy with rfl | ⟨b, hb, rfl⟩
  · exact ⟨fun _ => Or.inl rfl, fun _ => rfl⟩
  · exact ⟨fun _ => Or.inl rfl, fun _ => rfl⟩
  · exact ⟨fun _ => Or.inr rfl, fun _ => rfl⟩
  · constructor
    · intro h; cases h
    · rintro (h | h) <;> cases h

theorem Nonneg.sum {ι : Type} (s : Finset ι) {f : ι → XReal K} (h : ∀ i ∈ s, Nonneg (f i)) :
    Nonneg (∑ i ∈ s, f i) ∧ (∑ i ∈ s, f i = posInf ↔ ∃ i ∈ s, f i = posInf) := by
  classical
  induction s using Finset.induction_on with
  | empty =>
    refine ⟨Or.inr ⟨0, le_rfl, rfl⟩, ?_⟩
    simp only [Finset.sum_empty]
    constructor
    · intro h; cases h
    · rintro ⟨i, hi, _⟩; simp at hi
  | insert a s ha ih =>
    obtain ⟨h1, h2⟩ := ih (fun i hi => h i (Finset.mem_insert_of_mem hi))
    have h3 := h a (Finset.mem_insert_self _ _)
    rw [Finset.sum_insert ha]
    refine ⟨h3.add h1, ?_⟩
    rw [add_eq_posInf h3 h1, h2]
    constructor
    · rintro (h | ⟨i, hi, h⟩)
      · exact ⟨a, Finset.mem_insert_self _ _, h⟩
      · exact ⟨i, Finset.mem_insert_of_mem hi, h⟩
    · rintro ⟨i, hi, hp⟩
      rcases Finset.mem_insert.1 hi with rfl | hi
      · exact Or.inl hp
      · exact Or.inr ⟨i, hi, hp⟩

theorem add_nan (x : XReal K) : x + nan = nan := by cases x <;> rfl
theorem nan_add (x : XReal K) : nan + x = nan := by cases x <;> rfl

theorem sum_fin {ι : Type} (s : Finset ι) (f : ι → K) : ∑ i ∈ s, fin (f i) = fin (∑ i ∈ s, f i) := by
  classical
  induction s using Finset.induction_on with
  | empty => rfl
  | insert a s ha ih => rw [Finset.sum_insert ha, Finset.sum_insert ha, ih]; rfl

end XReal

open XReal

/-! ## The constructor -/

theorem foundNegativeX_iff {m : SprsMat (XReal K)} (h : m.WF) :
    foundNegativeX m = true ↔ ∃ j, ∃ e ∈ m.col j, e.2.lt (.fin 0) = true := by
  unfold foundNegativeX
  simp only [List.any_eq_true, List.mem_range]
  constructor
  · rintro ⟨j, _, e, he, h⟩; exact ⟨j, e, he, h⟩
  · rintro ⟨j, e, he, hlt⟩
    refine ⟨j, ?_, e, he, hlt⟩
    by_contra hj
    rw [h.col_nil (by omega)] at he
    simp at he

theorem positiveOffDiagonalX_iff {m : SprsMat (XReal K)} (h : m.WF) :
    positiveOffDiagonalX m = true ↔ ∃ j, ∃ e ∈ m.col j, e.2.lt (.fin 0) = false ∧ e.1 ≠ j := by
  unfold positiveOffDiagonalX
  simp only [List.any_eq_true, List.mem_range, Bool.and_eq_true, Bool.not_eq_true', decide_eq_true_eq]
  constructor
  · rintro ⟨j, _, e, he, h⟩; exact ⟨j, e, he, h⟩
  · rintro ⟨j, e, he, hlt⟩
    refine ⟨j, ?_, e, he, hlt⟩
    by_contra hj
    rw [h.col_nil (by omega)] at he
    simp at he

theorem diagonallyDominantX_iff {m : SprsMat (XReal K)} (h : m.WF) :
    diagonallyDominantX m = true ↔
      ∀ j, j < m.cols → (∑ i ∈ Finset.range m.rows, m.coeff i j).lt (.fin 0) = false := by
  unfold diagonallyDominantX
  simp only [List.all_eq_true, List.mem_range, Bool.not_eq_true']
  refine forall₂_congr fun j _ => ?_
  have : ((m.col j).map Prod.snd).sum = ∑ i ∈ Finset.range m.rows, m.coeff i j :=
    Col.sum_map_eq (h.sorted j) (fun _ he => h.row_lt he) (fun _ v => v) (fun _ => rfl)
  rw [this]

theorem pruneX_spec {a : SprsMat (XReal K)} (h : a.WF) :
    (pruneX a).WF ∧ (pruneX a).rows = a.rows ∧ (pruneX a).cols = a.cols ∧
    (∀ i j, (pruneX a).coeff i j = clean (a.coeff i j)) ∧
    (∀ j, ∀ e ∈ (pruneX a).col j, (XReal.fin epsilon).lt e.2 = true) := by
  refine ⟨SprsMat.wf_prune h _, rfl, rfl, fun i j => ?_, fun j e he => ?_⟩
  · unfold pruneX
    rw [SprsMat.coeff_prune h]
    by_cases hc : (XReal.fin epsilon).lt (a.coeff i j) = true
    · rw [if_pos hc, clean_of_lt hc]
    · rw [if_neg hc, clean_of_not_lt (by simpa using hc)]; rfl
  · exact (SprsMat.mem_col_prune h he).2

theorem isSymmetricX_iff {m : SprsMat (XReal K)} (h : m.WF) (hn : ∀ j, ∀ e ∈ m.col j, e.2 ≠ nan) :
    isSymmetricX m = true ↔ ∀ i j, m.coeff i j = m.coeff j i := by
  unfold isSymmetricX
  simp only [List.all_eq_true, List.mem_range]
  constructor
  · intro hs
    have key : ∀ i j, m.coeff i j ≠ 0 → m.coeff i j = m.coeff j i := by
      intro i j hij
      have hj : j < m.cols := by
        by_contra hj
        exact hij (h.coeff_of_cols_le (by omega) i)
      have hm := Col.mem_of_coeff_ne_zero hij
      exact (XReal.eq_iff (hn _ _ hm)).1 (hs j hj _ hm)
    intro i j
    by_cases h1 : m.coeff i j = 0
    · by_cases h2 : m.coeff j i = 0
      · rw [h1, h2]
      · exact (key j i h2).symm
    · exact key i j h1
  · intro hs k _ e he
    rw [XReal.eq_iff (hn k e he)]
    have : m.coeff e.1 k = e.2 := Col.coeff_eq_of_mem (h.sorted k) he
    rw [← this, hs]

theorem ne_nan_of_lt {x : XReal K} (h : (XReal.fin epsilon).lt x = true) : x ≠ nan := by
  rintro rfl; simp [XReal.lt] at h

/-- The end of the constructor. -/
theorem ofMatrixX_of_adj {m a : SprsMat (XReal K)} (hw : m.WF) (hsq : m.rows = m.cols) (ha : a.WF) (har : a.rows = m.cols)
    (hac : a.cols = m.cols) (h : adjFromAdjOrLapX m = .ok (pruneX a)) :
    ((∀ i j, clean (a.coeff i j) = clean (a.coeff j i)) → ∃ g, ofMatrixX m = .ok g ∧ g.ValidX ∧ g.n = m.cols ∧
      (∀ i j, g.adj.coeff i j = clean (a.coeff i j)) ∧ (∀ j, ∀ e ∈ g.adj.col j, (XReal.fin epsilon).lt e.2 = true) ∧
      (g.selfLoops = true ↔ ∃ v, g.adj.coeff v v ≠ 0)) ∧
    (¬ (∀ i j, clean (a.coeff i j) = clean (a.coeff j i)) → ofMatrixX m = .throw .domainError) := by
  obtain ⟨p1, p2, p3, p4, p5⟩ := pruneX_spec ha
  have hs := isSymmetricX_iff p1 (fun j e he => ne_nan_of_lt (p5 j e he))
  simp only [p4] at hs
  have hof : ofMatrixX m = if isSymmetricX (pruneX a) then .ok ⟨(pruneX a).cols, pruneX a, anySelfLoopX (pruneX a).cols (pruneX a)⟩
      else .throw .domainError := by
    unfold ofMatrixX
    rw [if_neg (by simp [hsq, hw.inRange]), h]
  constructor
  · intro hc
    rw [if_pos (hs.2 hc)] at hof
    refine ⟨_, hof, ⟨p1, by simp only; rw [p2, p3, har, hac], rfl, fun i j => by simp only; rw [p4, p4]; exact hc i j⟩, ?_, p4, p5, ?_⟩
    · simp only; rw [p3, hac]
    · simp only
      unfold anySelfLoopX
      simp only [List.any_eq_true, List.mem_range, Bool.not_eq_true']
      have hne : ∀ v, (pruneX a).coeff v v ≠ nan := fun v => by
        rw [p4]
        rcases isWeight_clean (a.coeff v v) with h | ⟨x, h, _⟩ <;> rw [h] <;> simp
      constructor
      · rintro ⟨v, _, h1⟩
        refine ⟨v, fun h2 => ?_⟩
        have h3 : ((pruneX a).coeff v v).eq (.fin 0) = true := (XReal.eq_iff (hne v)).2 h2
        rw [h3] at h1
        cases h1
      · rintro ⟨v, h1⟩
        refine ⟨v, ?_, ?_⟩
        · by_contra hv
          exact h1 (p1.coeff_of_cols_le (by omega) v)
        · rw [← Bool.not_eq_true, XReal.eq_iff (hne v)]
          exact h1
  · intro hc
    rw [hof, if_neg (fun h => hc (hs.1 h))]

/-- **C91** (adjacency matrices).  A matrix without negative entries (NaN is not negative) is accepted exactly if it is
symmetric after everything that is not an infinity or above `1e-10`, including NaN, is taken for no edge, and the graph has
these weights; otherwise a domain error is raised. -/
theorem C91_adjacency {m : SprsMat (XReal K)} (hw : m.WF) (hsq : m.rows = m.cols)
    (hneg : ∀ i j, (m.coeff i j).lt (.fin 0) = false) :
    ((∀ i j, clean (m.coeff i j) = clean (m.coeff j i)) → ∃ g, ofMatrixX m = .ok g ∧ g.ValidX ∧
      g.absX = ⟨m.cols, fun i j => clean (m.coeff i j)⟩) ∧
    (¬ (∀ i j, clean (m.coeff i j) = clean (m.coeff j i)) → ofMatrixX m = .throw .domainError) := by
  have hf : foundNegativeX m = false := by
    rw [← Bool.not_eq_true, foundNegativeX_iff hw]
    rintro ⟨j, e, he, hlt⟩
    have h1 := hneg e.1 j
    rw [show m.coeff e.1 j = e.2 from Col.coeff_eq_of_mem (hw.sorted j) he, hlt] at h1
    cases h1
  have := ofMatrixX_of_adj hw hsq hw hsq rfl (by unfold adjFromAdjOrLapX; rw [hf]; rfl)
  refine ⟨fun hc => ?_, this.2⟩
  obtain ⟨g, h1, h2, h3, h4, _⟩ := this.1 hc
  refine ⟨g, h1, h2, ?_⟩
  unfold absX
  rw [h3]
  congr 1
  funext i j
  exact h4 i j

theorem lapToAdjX_spec {m : SprsMat (XReal K)} (h : m.WF) (hsq : m.rows = m.cols) :
    (lapToAdjX m).WF ∧ (lapToAdjX m).rows = m.rows ∧ (lapToAdjX m).cols = m.cols ∧
      ∀ i j, (lapToAdjX m).coeff i j =
        if i = j then ∑ k ∈ Finset.range m.cols, m.coeff i k else (m.coeff i j).neg := by
  have key : ∀ (d : Nat → XReal K) (k : Nat) (a : SprsMat (XReal K)), a.WF → k ≤ a.rows → k ≤ a.cols →
      let m' := (List.range k).foldl (fun a i => a.update i i (fun _ => d i)) a
      m'.WF ∧ m'.rows = a.rows ∧ m'.cols = a.cols ∧
      ∀ i j, m'.coeff i j = if i = j ∧ i < k then d i else a.coeff i j := by
    intro d k a ha hr hc
    induction k with
    | zero => simp [ha]
    | succ k ih =>
      obtain ⟨h1, h2, h3, h4⟩ := ih (by omega) (by omega)
      rw [List.range_succ, List.foldl_append]
      simp only [List.foldl_cons, List.foldl_nil]
      refine ⟨SprsMat.wf_update h1 (by omega) _, by simpa using h2, by simpa using h3, ?_⟩
      intro i j
      rw [SprsMat.coeff_update h1 (by omega), h4]
      by_cases hij : i = k ∧ j = k
      · obtain ⟨rfl, rfl⟩ := hij; simp
      · rw [if_neg hij]
        by_cases h6 : i = j ∧ i < k
        · rw [if_pos h6, if_pos (by omega)]
        · rw [if_neg h6, if_neg (by omega)]
  obtain ⟨h1, h2, h3, h4⟩ := key m.rowSum m.cols (m.mapVal XReal.neg)
    (SprsMat.wf_mapVal h _) (by simp [SprsMat.mapVal, hsq]) (by simp [SprsMat.mapVal])
  have hn0 : XReal.neg (0 : XReal K) = 0 := congrArg XReal.fin neg_zero
  refine ⟨h1, h2, h3, fun i j => ?_⟩
  rw [show (lapToAdjX m).coeff i j = _ from h4 i j, SprsMat.coeff_mapVal h _ hn0]
  by_cases hij : i = j
  · subst hij
    by_cases hi : i < m.cols
    · rw [if_pos ⟨rfl, hi⟩, if_pos rfl, SprsMat.rowSum_eq h]
    · rw [if_neg (by omega), if_pos rfl, h.coeff_of_cols_le (by omega), hn0]
      symm
      apply Finset.sum_eq_zero
      intro k _
      exact h.coeff_of_rows_le (by omega) k
  · rw [if_neg (by omega), if_neg hij]

/-- **C91** (Laplacian matrices).  A matrix with a negative entry (possibly `-inf`) is accepted exactly if every stored entry
off the diagonal is negative, no column has a negative total (a total that is NaN passes), and the graph which it describes is
symmetric; the weight of the self-loop is the total of the row, and it is dropped if that is NaN.  Otherwise a domain error is
raised. -/
theorem C91_laplacian {m : SprsMat (XReal K)} (hw : m.WF) (hsq : m.rows = m.cols)
    (hneg : ∃ i j, (m.coeff i j).lt (.fin 0) = true) (A : Nat → Nat → XReal K)
    (hA : ∀ i j, A i j = clean (if i = j then ∑ k ∈ Finset.range m.cols, m.coeff i k else (m.coeff i j).neg)) :
    ((∀ j, ∀ e ∈ m.col j, e.1 ≠ j → e.2.lt (.fin 0) = true) ∧
      (∀ j, j < m.cols → (∑ i ∈ Finset.range m.cols, m.coeff i j).lt (.fin 0) = false) ∧ (∀ i j, A i j = A j i) →
      ∃ g, ofMatrixX m = .ok g ∧ g.ValidX ∧ g.absX = ⟨m.cols, A⟩) ∧
    (¬ ((∀ j, ∀ e ∈ m.col j, e.1 ≠ j → e.2.lt (.fin 0) = true) ∧
      (∀ j, j < m.cols → (∑ i ∈ Finset.range m.cols, m.coeff i j).lt (.fin 0) = false) ∧ (∀ i j, A i j = A j i)) →
      ofMatrixX m = .throw .domainError) := by
  have hf : foundNegativeX m = true := by
    rw [foundNegativeX_iff hw]
    obtain ⟨i, j, h⟩ := hneg
    have hne : m.coeff i j ≠ 0 := by
      intro h0
      rw [h0] at h
      simp [XReal.lt, XReal.zero_def] at h
    exact ⟨j, _, Col.mem_of_coeff_ne_zero hne, h⟩
  have hp := positiveOffDiagonalX_iff hw
  have hd := diagonallyDominantX_iff hw
  rw [hsq] at hd
  obtain ⟨l1, l2, l3, l4⟩ := lapToAdjX_spec hw hsq
  have hAe : ∀ i j, A i j = clean ((lapToAdjX m).coeff i j) := fun i j => by rw [hA, l4]
  have hout : ∀ x, adjFromAdjOrLapX m = .throw x → ofMatrixX m = .throw x := by
    intro x hx
    unfold ofMatrixX
    rw [if_neg (by simp [hsq, hw.inRange]), hx]
  have hun : adjFromAdjOrLapX m = if positiveOffDiagonalX m then .throw .domainError
      else if !diagonallyDominantX m then .throw .domainError else .ok (pruneX (lapToAdjX m)) := by
    unfold adjFromAdjOrLapX
    rw [if_pos hf]
  by_cases h1 : ∀ j, ∀ e ∈ m.col j, e.1 ≠ j → e.2.lt (.fin 0) = true
  · have hp' : positiveOffDiagonalX m = false := by
      rw [← Bool.not_eq_true, hp]
      rintro ⟨j, e, he, h2, h3⟩
      rw [h1 j e he h3] at h2
      cases h2
    rw [hp'] at hun
    by_cases h2 : ∀ j, j < m.cols → (∑ i ∈ Finset.range m.cols, m.coeff i j).lt (.fin 0) = false
    · rw [hd.2 h2] at hun
      have := ofMatrixX_of_adj hw hsq l1 (by rw [l2, hsq]) l3 hun
      constructor
      · rintro ⟨_, _, h3⟩
        obtain ⟨g, e1, e2, e3, e4, _⟩ := this.1 (fun i j => by rw [← hAe, ← hAe]; exact h3 i j)
        refine ⟨g, e1, e2, ?_⟩
        unfold absX
        rw [e3]
        congr 1
        funext i j
        rw [hAe]
        exact e4 i j
      · intro hc
        apply this.2
        intro h3
        exact hc ⟨h1, h2, fun i j => by rw [hAe, hAe]; exact h3 i j⟩
    · have hdf : diagonallyDominantX m = false := by
        rw [← Bool.not_eq_true, hd]; exact h2
      rw [hdf] at hun
      exact ⟨fun h => absurd h.2.1 h2, fun _ => hout _ hun⟩
  · have hp' : positiveOffDiagonalX m = true := by
      rw [hp]
      push Not at h1
      obtain ⟨j, e, he, h2, h3⟩ := h1
      exact ⟨j, e, he, by simpa using h3, h2⟩
    rw [hp'] at hun
    exact ⟨fun h => absurd h.1 h1, fun _ => hout _ hun⟩

/-- Every outcome of the constructor on a square matrix. -/
theorem ofMatrixX_ok {m : SprsMat (XReal K)} (hw : m.WF) {g : Graph (XReal K)} (h : ofMatrixX m = .ok g) :
    g.ValidX ∧ (∀ i j, IsWeightX (g.adj.coeff i j)) ∧ (∀ j, ∀ e ∈ g.adj.col j, (XReal.fin epsilon).lt e.2 = true) ∧
      (g.selfLoops = true ↔ ∃ v, g.adj.coeff v v ≠ 0) := by
  have hsq : m.rows = m.cols := by
    by_contra hc
    unfold ofMatrixX at h
    rw [if_pos (Or.inl hc)] at h
    cases h
  have key : ∀ a : SprsMat (XReal K), a.WF → a.rows = m.cols → a.cols = m.cols → adjFromAdjOrLapX m = .ok (pruneX a) →
      g.ValidX ∧ (∀ i j, IsWeightX (g.adj.coeff i j)) ∧ (∀ j, ∀ e ∈ g.adj.col j, (XReal.fin epsilon).lt e.2 = true) ∧
      (g.selfLoops = true ↔ ∃ v, g.adj.coeff v v ≠ 0) := by
    intro a ha har hac hres
    have := ofMatrixX_of_adj hw hsq ha har hac hres
    by_cases hc : ∀ i j, clean (a.coeff i j) = clean (a.coeff j i)
    · obtain ⟨g', h1, h2, _, h4, h5, h6⟩ := this.1 hc
      rw [h] at h1
      cases h1
      exact ⟨h2, fun i j => by rw [h4]; exact isWeight_clean _, h5, h6⟩
    · rw [this.2 hc] at h; cases h
  by_cases hf : foundNegativeX m = true
  · obtain ⟨l1, l2, l3, _⟩ := lapToAdjX_spec hw hsq
    by_cases hp : positiveOffDiagonalX m = true
    · unfold ofMatrixX at h
      rw [if_neg (by simp [hsq, hw.inRange])] at h
      unfold adjFromAdjOrLapX at h
      rw [if_pos hf, if_pos hp] at h
      cases h
    · by_cases hd : diagonallyDominantX m = true
      · exact key _ l1 (by rw [l2, hsq]) l3 (by unfold adjFromAdjOrLapX; rw [if_pos hf, if_neg hp, hd]; rfl)
      · unfold ofMatrixX at h
        rw [if_neg (by simp [hsq, hw.inRange])] at h
        unfold adjFromAdjOrLapX at h
        rw [if_pos hf, if_neg hp, if_pos (by simpa using hd)] at h
        cases h
  · exact key m hw hsq rfl (by unfold adjFromAdjOrLapX; rw [if_neg hf])

theorem degreeX_eq {g : Graph (XReal K)} (hv : g.ValidX) (v : Nat) :
    g.degreeX v = ∑ u ∈ Finset.range g.n, g.adj.coeff v u + g.adj.coeff v v := by
  unfold degreeX
  rw [SprsMat.rowSum_eq hv.wf, hv.cols]

/-- **C91** (what the constructor never stores).  Whatever matrix is given to the constructor, a graph that is returned has no
NaN, no negative and no tiny weight, is symmetric, says truthfully whether it has self-loops, and its degrees are
never NaN: they are infinite exactly at the ends of infinite edges. -/
theorem C91_constructed {m : SprsMat (XReal K)} (hw : m.WF) {g : Graph (XReal K)} (h : ofMatrixX m = .ok g) :
    (∀ u v, g.absX.w u v = g.absX.w v u) ∧ (∀ u v, IsWeightX (g.absX.w u v)) ∧
    (g.selfLoops = true ↔ ∃ v, g.absX.w v v ≠ .fin 0) ∧
    (∀ v, v < g.n → (g.degreeX v = .posInf ∧ ∃ u, u < g.n ∧ g.absX.w v u = .posInf) ∨
      ∃ d : K, 0 ≤ d ∧ g.degreeX v = .fin d ∧ ∀ u, g.absX.w v u ≠ .posInf) := by
  obtain ⟨hv, hW, _, hl⟩ := ofMatrixX_ok hw h
  refine ⟨hv.symm, hW, hl, fun v hvn => ?_⟩
  have hs := XReal.Nonneg.sum (Finset.range g.n) (f := fun u => g.adj.coeff v u) (fun u _ => .of_isWeightX (hW v u))
  have hd := (XReal.Nonneg.add hs.1 (XReal.Nonneg.of_isWeightX (hW v v)))
  have hi := XReal.add_eq_posInf hs.1 (XReal.Nonneg.of_isWeightX (hW v v))
  rw [← degreeX_eq hv] at hd hi
  rw [hs.2] at hi
  rcases hd with hd | ⟨d, h0, hd⟩
  · refine Or.inl ⟨hd, ?_⟩
    rcases hi.1 hd with ⟨u, hu, h1⟩ | h1
    · exact ⟨u, Finset.mem_range.1 hu, h1⟩
    · exact ⟨v, hvn, h1⟩
  · refine Or.inr ⟨d, h0, hd, fun u hu => ?_⟩
    have hun : u < g.n := by
      by_contra hc
      have h0 : g.adj.coeff v u = 0 := hv.wf.coeff_of_cols_le (by rw [hv.cols]; omega) v
      have h1 : g.adj.coeff v u = .posInf := hu
      rw [h0] at h1
      cases h1
    have := hi.2 (Or.inl ⟨u, Finset.mem_range.2 hun, hu⟩)
    rw [hd] at this
    cases this

end
end Stag
