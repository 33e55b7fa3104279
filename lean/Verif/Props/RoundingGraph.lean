import Verif.RoundingGraph
import Verif.Props.RoundingSweep
import Verif.Props.Construct
import Verif.GraphOpsLemmas

/-!
# C79: the Laplacian round trip in rounded arithmetic

`Graph(*g.laplacian())` recovers `g` in exact arithmetic (C02).  With `double`s the row sums of the
Laplacian do not vanish: a negative one makes the constructor throw, a large positive one becomes a
self-loop.
-/

set_option linter.unusedSectionVars false

namespace Stag
open Graph

section
variable {K : Type} [Field K] [LinearOrder K] [IsStrictOrderedRing K] {R : Rounding K}

/-! ## Sums -/

/-- Adding the stored entries of a column is adding all its coefficients. -/
theorem sumFl_col (n : Nat) : ∀ (a : Nat) (c : Col K), c.Sorted → (∀ e ∈ c, a ≤ e.1 ∧ e.1 < a + n) →
    ∀ {acc : K}, R.fl acc = acc → sumFl R.fl (c.map Prod.snd) acc =
      sumFl R.fl ((List.range' a n).map (fun i => Col.coeff c i)) acc := by
  induction n with
  | zero =>
    intro a c _ h acc _
    match c with
    | [] => rfl
    | e :: c => have := h e (by simp); omega
  | succ n ih =>
    intro a c hs h acc hacc
    rw [List.range'_succ, List.map_cons]
    match c, hs, h with
    | [], _, _ =>
      have := ih (a + 1) [] Col.sorted_nil (by simp) hacc
      conv => rhs; unfold sumFl
      simp only [Col.coeff_nil, add_zero, hacc]
      simpa using this
    | (r, v) :: c, hs, h =>
      have hh := h (r, v) (by simp)
      simp only at hh
      have hrest : ∀ e ∈ c, r < e.1 := fun e he => (Col.sorted_cons.1 hs).1 e he
      by_cases hr : r = a
      · subst hr
        have h1 := ih (r + 1) c hs.tail (fun e he => by
          have := hrest e he; have := h e (by simp [he]); omega) (acc := R.fl (acc + v)) (R.idem _)
        rw [List.map_cons]
        unfold sumFl
        rw [Col.coeff_cons, if_pos rfl, h1]
        congr 1
        apply List.map_congr_left
        intro i hi
        rw [List.mem_range'_1] at hi
        rw [Col.coeff_cons, if_neg (by omega)]
      · have h0 : Col.coeff ((r, v) :: c) a = 0 := Col.coeff_eq_zero_of_forall (by
          intro e he
          rcases List.mem_cons.1 he with rfl | he
          · exact hr
          · have := hrest e he; omega)
        conv => rhs; unfold sumFl
        rw [h0, add_zero, hacc]
        exact ih (a + 1) ((r, v) :: c) hs (fun e he => by
          have h2 := h e he
          rcases List.mem_cons.1 he with rfl | he
          · simp only at h2 ⊢; omega
          · have := hrest e he; omega) hacc

theorem sumFl_map_filter {α : Type} (p : α → Bool) (f : α → K) (l : List α) :
    ∀ {acc : K}, R.fl acc = acc → (∀ x ∈ l, p x = false → f x = 0) →
      sumFl R.fl (l.map f) acc = sumFl R.fl ((l.filter p).map f) acc := by
  induction l with
  | nil => intro acc _ _; rfl
  | cons x l ih =>
    intro acc hacc h
    cases hp : p x with
    | true =>
      rw [List.filter_cons_of_pos hp, List.map_cons, List.map_cons]
      unfold sumFl
      exact ih (R.idem _) (fun y hy => h y (by simp [hy]))
    | false =>
      rw [List.filter_cons_of_neg (by simp [hp]), List.map_cons]
      conv => lhs; unfold sumFl
      rw [h x (by simp) hp, add_zero, hacc]
      exact ih hacc (fun y hy => h y (by simp [hy]))

/-! ## The constructor in exact arithmetic -/

theorem sumFl_id (l : List K) : ∀ acc, sumFl (fun x => x) l acc = acc + l.sum := by
  induction l with
  | nil => intro acc; simp [sumFl]
  | cons x l ih => intro acc; unfold sumFl; rw [ih, List.sum_cons, add_assoc]

/-- **C79** (no rounding).  With exact arithmetic the rounded functions are the functions of C01 and
C02, on every well-formed matrix. -/
theorem C79_exact {g : Graph K} (hv : g.Valid) {m : SprsMat K} (hm : m.WF) :
    g.laplacianFl (fun x => x) = g.laplacian ∧ Graph.ofMatrixFl (fun x => x) m = Graph.ofMatrix m := by
  have hrs : ∀ (a : SprsMat K), a.WF → ∀ i, rowSumFl (fun x => x) a i = a.rowSum i := by
    intro a ha i
    unfold rowSumFl
    rw [sumFl_id, zero_add, SprsMat.rowSum_eq ha, sum_list_range]
  constructor
  · unfold Graph.laplacianFl Graph.laplacian Graph.degreeMatrixFl Graph.degreeMatrix
    have : g.degFl (fun x => x) = fun i => g.adj.rowSum i + g.adj.coeff i i := by
      funext i
      unfold Graph.degFl
      rw [← hrs _ hv.wf]
      rfl
    rw [this]
  · unfold Graph.ofMatrixFl Graph.ofMatrix adjFromAdjOrLapFl adjFromAdjOrLap lapToAdjFl lapToAdj
      diagonallyDominantFl diagonallyDominant
    simp only [hrs _ hm, sumFl_id, zero_add]

/-! ## The constructor on the Laplacian of a graph -/

/-- The rounded sum, from the top to the bottom, of column `v` of the Laplacian as computed: `-w(u,v)`
off the diagonal, and on it the computed degree minus the weight of the self-loop.  The exact sum is
the weight of the self-loop. -/
def Graph.lapColFl (fl : K → K) (g : Graph K) (v : Nat) : K :=
  sumFl fl ((List.range g.n).map (fun u =>
    if u = v then fl (g.degFl fl v - g.abs.w v v) else -g.abs.w v u)) 0

/-- The weights and their negatives are floating point numbers. -/
def Graph.FloatWeights (fl : K → K) (g : Graph K) : Prop :=
  ∀ u v, fl (g.abs.w u v) = g.abs.w u v ∧ fl (-g.abs.w u v) = -g.abs.w u v

section lap
variable {g : Graph K} (hv : g.Valid) (hpos : ∀ j, ∀ e ∈ g.adj.col j, epsilon < e.2)
  (hf : g.FloatWeights R.fl)
include hv

theorem degreeFl_wf : (g.degreeMatrixFl R.fl).WF := SprsMat.wf_diag _ _

theorem laplacianFl_wf : (g.laplacianFl R.fl).WF :=
  SprsMat.wf_zipWith (SprsMat.wf_diag _ _) hv.wf (by
    simp only [SprsMat.rows_diag]; rw [hv.rows, hv.cols]) _

theorem laplacianFl_rows : (g.laplacianFl R.fl).rows = g.n := by
  simp [laplacianFl, SprsMat.zipWith, degreeMatrixFl, hv.cols]

theorem laplacianFl_cols : (g.laplacianFl R.fl).cols = g.n := by
  simp [laplacianFl, SprsMat.zipWith, degreeMatrixFl, hv.cols]

include hf

theorem laplacianFl_coeff {i : Nat} (hi : i < g.n) (j : Nat) :
    (g.laplacianFl R.fl).coeff i j =
      if i = j then R.fl (g.degFl R.fl i - g.adj.coeff i i) else - g.adj.coeff i j := by
  unfold laplacianFl
  rw [SprsMat.coeff_zipWith (degreeFl_wf hv) hv.wf rfl _ (by simp [Rounding.fl_zero])]
  unfold degreeMatrixFl
  rw [SprsMat.coeff_diag, hv.cols]
  by_cases h : i = j
  · subst h
    rw [if_pos ⟨rfl, hi⟩, if_pos rfl]
  · rw [if_neg (by tauto), if_neg h, zero_sub]
    exact (hf i j).2

theorem lapColFl_row {i : Nat} (hi : i < g.n) :
    rowSumFl R.fl (g.laplacianFl R.fl) i = g.lapColFl R.fl i := by
  unfold rowSumFl lapColFl
  rw [laplacianFl_cols hv]
  congr 1
  apply List.map_congr_left
  intro j _
  rw [laplacianFl_coeff hv hf hi]
  by_cases h : i = j
  · subst h; simp; rfl
  · rw [if_neg h, if_neg (Ne.symm h)]; rfl

theorem lapColFl_col {j : Nat} (hj : j < g.n) :
    sumFl R.fl (((g.laplacianFl R.fl).col j).map Prod.snd) 0 = g.lapColFl R.fl j := by
  have hw := laplacianFl_wf (R := R) hv
  rw [sumFl_col g.n 0 _ (hw.sorted j) (fun e he => by
    have := hw.row_lt he
    rw [laplacianFl_rows hv] at this
    omega) Rounding.fl_zero, ← List.range_eq_range']
  unfold lapColFl
  congr 1
  apply List.map_congr_left
  intro i hi
  change (g.laplacianFl R.fl).coeff i j = _
  rw [laplacianFl_coeff hv hf (List.mem_range.1 hi)]
  split_ifs with h
  · subst h; rfl
  · rw [hv.symm]; rfl

include hpos

theorem coeff_zero_or (i j : Nat) : g.adj.coeff i j = 0 ∨ epsilon < g.adj.coeff i j := by
  by_cases h0 : g.adj.coeff i j = 0
  · exact Or.inl h0
  · exact Or.inr (hpos j _ (Col.mem_of_coeff_ne_zero h0))

/-- The computed degree is at least the weight of the self-loop. -/
theorem laplacianFl_diag_nonneg {i : Nat} : 0 ≤ R.fl (g.degFl R.fl i - g.adj.coeff i i) := by
  have hnn : ∀ j, 0 ≤ g.adj.coeff i j := fun j => by
    rcases coeff_zero_or hv hpos hf i j with h | h
    · exact h.ge
    · exact le_trans epsilon_pos.le h.le
  apply Rounding.fl_nonneg
  have h1 : ∀ (l : List K), (∀ x ∈ l, 0 ≤ x) → ∀ acc, 0 ≤ acc → 0 ≤ sumFl R.fl l acc := by
    intro l
    induction l with
    | nil => intro _ acc h; exact h
    | cons x l ih =>
      intro hl acc h
      exact ih (fun y hy => hl y (by simp [hy])) _
        (Rounding.fl_nonneg (add_nonneg h (hl x (by simp))))
  have h2 : g.adj.coeff i i ≤ g.degFl R.fl i := by
    unfold degFl
    have h3 : R.fl (g.adj.coeff i i) = g.adj.coeff i i := (hf i i).1
    conv_lhs => rw [← h3]
    apply R.mono
    have := h1 ((List.range g.adj.cols).map (fun c => g.adj.coeff i c)) (by
      intro x hx
      obtain ⟨c, _, rfl⟩ := List.mem_map.1 hx
      exact hnn c) 0 (le_refl _)
    linarith
  linarith

end lap

/-- **C79** (what the round trip does).  For every graph whose stored weights are floating point
numbers above 1e-10, `Graph(*g.laplacian())` throws `std::domain_error` exactly when some rounded
column sum of the computed Laplacian is negative.  Otherwise it returns a graph with the same
vertices and the same edges between distinct vertices, in which every vertex has a self-loop of
weight the rounded column sum if that exceeds 1e-10, and none otherwise. -/
theorem C79_round_trip {g : Graph K} (hv : g.Valid)
    (hpos : ∀ j, ∀ e ∈ g.adj.col j, epsilon < e.2) (hf : g.FloatWeights R.fl) :
    ((∃ v, v < g.n ∧ g.lapColFl R.fl v < 0) →
      ofMatrixFl R.fl (g.laplacianFl R.fl) = .throw .domainError) ∧
    ((∀ v, v < g.n → 0 ≤ g.lapColFl R.fl v) →
      ∃ g', ofMatrixFl R.fl (g.laplacianFl R.fl) = .ok g' ∧ g'.Valid ∧ g'.n = g.n ∧
        (∀ j, ∀ e ∈ g'.adj.col j, epsilon < e.2) ∧
        ∀ u v, u < g.n → g'.abs.w u v = if u = v then thr (g.lapColFl R.fl u) else g.abs.w u v) := by
  have hw := laplacianFl_wf (R := R) hv
  have hr := laplacianFl_rows (R := R) hv
  have hc := laplacianFl_cols (R := R) hv
  have hsq : (g.laplacianFl R.fl).rows = (g.laplacianFl R.fl).cols := by rw [hr, hc]
  have hco := fun {i : Nat} (hi : i < g.n) (j : Nat) => laplacianFl_coeff hv hf hi j
  have hz := coeff_zero_or hv hpos hf
  have hd : diagonallyDominantFl R.fl (g.laplacianFl R.fl) = true ↔
      ∀ v, v < g.n → 0 ≤ g.lapColFl R.fl v := by
    unfold diagonallyDominantFl
    simp only [List.all_eq_true, List.mem_range, Bool.not_eq_true', decide_eq_false_iff_not, not_lt,
      hc]
    exact forall₂_congr (fun v hvn => by rw [lapColFl_col hv hf hvn])
  have hoffp : positiveOffDiagonal (g.laplacianFl R.fl) = false := by
    rw [← Bool.not_eq_true, positiveOffDiagonal_iff hw]
    rintro ⟨j, e, he, h0, hne⟩
    have hval : (g.laplacianFl R.fl).coeff e.1 j = e.2 := Col.coeff_eq_of_mem (hw.sorted j) he
    have hlt := hw.row_lt he
    rw [hr] at hlt
    rw [hco hlt, if_neg hne] at hval
    have hst : ∃ w, (e.1, w) ∈ g.adj.col j := by
      have he2 : e ∈ Col.merge (fun a b => R.fl (a - b)) ((g.degreeMatrixFl R.fl).col j)
          (g.adj.col j) := by
        rw [← SprsMat.col_zipWith (degreeFl_wf hv) hv.wf rfl]; exact he
      rcases Col.mem_merge_row _ _ _ _ he2 with ⟨w, hw'⟩ | h
      · unfold degreeMatrixFl at hw'
        rw [SprsMat.col_diag] at hw'
        split_ifs at hw'
        · simp only [List.mem_singleton, Prod.mk.injEq] at hw'
          exact absurd hw'.1 hne
        · simp at hw'
      · exact h
    obtain ⟨w, hw'⟩ := hst
    have h4 := hpos j _ hw'
    have h5 : g.adj.coeff e.1 j = w := Col.coeff_eq_of_mem (hv.wf.sorted j) hw'
    rw [← hval, h5] at h0
    simp only at h4
    have := epsilon_pos (K := K)
    linarith
  have hthr : ∀ i j, thr (g.adj.coeff i j) = g.adj.coeff i j := by
    intro i j
    unfold thr
    rcases hz i j with h | h
    · rw [h]; split_ifs <;> rfl
    · rw [if_pos h]
  -- everything follows from the matrix before the symmetry test
  have finish : ∀ a : SprsMat K, a.WF → a.rows = g.n → a.cols = g.n →
      adjFromAdjOrLapFl R.fl (g.laplacianFl R.fl) = .ok (a.prune (fun v => decide (epsilon < v))) →
      (∀ u v, u < g.n → thr (a.coeff u v) =
        if u = v then thr (g.lapColFl R.fl u) else g.adj.coeff u v) →
      ∃ g', ofMatrixFl R.fl (g.laplacianFl R.fl) = .ok g' ∧ g'.Valid ∧ g'.n = g.n ∧
        (∀ j, ∀ e ∈ g'.adj.col j, epsilon < e.2) ∧
        ∀ u v, u < g.n → g'.abs.w u v = if u = v then thr (g.lapColFl R.fl u) else g.abs.w u v := by
    intro a ha har hac hres hcoe
    obtain ⟨p1, p2, p3, p4, p5⟩ := pruned_spec ha
    have hsymm : ∀ i j, (a.prune (fun v => decide (epsilon < v))).coeff i j =
        (a.prune (fun v => decide (epsilon < v))).coeff j i := by
      have key : ∀ i j, i < g.n → j < g.n → thr (a.coeff i j) = thr (a.coeff j i) := by
        intro i j hi hj
        rw [hcoe i j hi, hcoe j i hj]
        by_cases h : i = j
        · subst h; rfl
        · rw [if_neg h, if_neg (Ne.symm h), hv.symm]
      intro i j
      rw [p4, p4]
      rcases Nat.lt_or_ge i g.n with hi | hi
      · rcases Nat.lt_or_ge j g.n with hj | hj
        · exact key i j hi hj
        · rw [ha.coeff_of_cols_le (by omega), ha.coeff_of_rows_le (by omega)]
      · rw [ha.coeff_of_rows_le (by omega), ha.coeff_of_cols_le (by omega)]
    have hs := (SprsMat.isSymmetric_iff p1 (by omega)).2 hsymm
    refine ⟨⟨(a.prune (fun v => decide (epsilon < v))).cols, a.prune (fun v => decide (epsilon < v)),
      anySelfLoop (a.prune (fun v => decide (epsilon < v))).cols
        (a.prune (fun v => decide (epsilon < v)))⟩, ?_,
      ⟨p1, ?_, rfl, hsymm⟩, ?_, p5, ?_⟩
    · unfold ofMatrixFl
      rw [if_neg (by simp [hsq, hw.inRange]), hres]
      simp only [Outcome.bind_ok, hs, if_true]
    · simp only; omega
    · simp only; omega
    · intro u v hu
      change (a.prune (fun v => decide (epsilon < v))).coeff u v = _
      rw [p4, hcoe u v hu]
      rfl
  by_cases hneg : foundNegative (g.laplacianFl R.fl) = true
  · constructor
    · rintro ⟨v, hvn, hlt⟩
      have hd' : diagonallyDominantFl R.fl (g.laplacianFl R.fl) = false := by
        rw [← Bool.not_eq_true, hd]
        intro h
        exact absurd (h v hvn) (not_le.2 hlt)
      unfold ofMatrixFl
      rw [if_neg (by simp [hsq, hw.inRange])]
      simp [adjFromAdjOrLapFl, hneg, hoffp, hd']
    · intro hall
      have hd' := hd.2 hall
      obtain ⟨h1, h2, h3, h4, _⟩ := foldl_diag_spec (rowSumFl R.fl (g.laplacianFl R.fl)) g.n
        ((g.laplacianFl R.fl).mapVal (fun v => -v)) (SprsMat.wf_mapVal hw _)
        (by simp [SprsMat.mapVal, hr]) (by simp [SprsMat.mapVal, hc])
      apply finish (lapToAdjFl R.fl (g.laplacianFl R.fl))
      · unfold lapToAdjFl; rw [hc]; exact h1
      · unfold lapToAdjFl; rw [hc, h2]; exact hr
      · unfold lapToAdjFl; rw [hc, h3]; exact hc
      · simp [adjFromAdjOrLapFl, hneg, hoffp, hd']
      · intro u v hu
        have h5 := h4 u v
        have h6 : lapToAdjFl R.fl (g.laplacianFl R.fl) = (List.range g.n).foldl
            (fun a i => a.update i i (fun _ => rowSumFl R.fl (g.laplacianFl R.fl) i))
            ((g.laplacianFl R.fl).mapVal (fun v => -v)) := by unfold lapToAdjFl; rw [hc]
        rw [h6, h5, SprsMat.coeff_mapVal hw _ (by simp), hco hu]
        by_cases huv : u = v
        · subst huv
          rw [if_pos ⟨rfl, hu⟩, if_pos rfl, lapColFl_row hv hf hu]
        · rw [if_neg (by tauto), if_neg huv, if_neg huv, neg_neg, hthr]
  · have hoff : ∀ i j, i < g.n → i ≠ j → g.adj.coeff i j = 0 := by
      intro i j hi hij
      by_contra hne
      have hlt : epsilon < g.adj.coeff i j := (hz i j).resolve_left hne
      apply hneg
      rw [foundNegative_iff hw]
      have hl := hco hi j
      rw [if_neg hij] at hl
      have hne' : (g.laplacianFl R.fl).coeff i j ≠ 0 := by rw [hl]; simpa using hne
      refine ⟨j, _, Col.mem_of_coeff_ne_zero hne', ?_⟩
      change (g.laplacianFl R.fl).coeff i j < 0
      rw [hl]
      have := epsilon_pos (K := K)
      linarith
    have hcol : ∀ v, v < g.n → g.lapColFl R.fl v = R.fl (g.degFl R.fl v - g.adj.coeff v v) := by
      intro v hvn
      unfold lapColFl
      rw [sumFl_map_filter (fun u => decide (u = v)) _ _ Rounding.fl_zero]
      · have : (List.range g.n).filter (fun u => decide (u = v)) = [v] := by
          have h1 := List.filter_eq (l := List.range g.n) v
          rw [List.count_eq_one_of_mem List.nodup_range (List.mem_range.2 hvn)] at h1
          rw [show [v] = List.replicate 1 v from rfl, ← h1]
        rw [this]
        simp only [List.map_cons, List.map_nil, if_true, sumFl, zero_add]
        exact R.idem _
      · intro u hu hne
        have hne : u ≠ v := by simpa using hne
        rw [if_neg hne]
        have : g.abs.w v u = 0 := hoff v u hvn (Ne.symm hne)
        rw [this, neg_zero]
    constructor
    · rintro ⟨v, hvn, hlt⟩
      rw [hcol v hvn] at hlt
      exact absurd (laplacianFl_diag_nonneg hv hpos hf) (not_le.2 hlt)
    · intro _
      apply finish (g.laplacianFl R.fl) hw hr hc
      · simp [adjFromAdjOrLapFl, hneg]
      · intro u v hu
        rw [hco hu]
        by_cases huv : u = v
        · subst huv
          rw [if_pos rfl, if_pos rfl, hcol u hu]
        · rw [if_neg huv, if_neg huv, hoff u v hu huv, neg_zero, thr_zero]

/-! ## How large the sums are -/

/-- A rounded sum of numbers `x` which approximate `y`. -/
theorem sumFl_err {V : K} (l : List (K × K × Nat))
    (hl : ∀ t ∈ l, |t.1 - t.2.1| ≤ (R.g ^ t.2.2 - 1) * V) : ∀ {a : Nat} {acc ac : K},
    |acc - ac| ≤ (R.g ^ a - 1) * V →
    (∀ i, |ac + ((l.take i).map (fun t => t.2.1)).sum| ≤ V) →
    |sumFl R.fl (l.map (fun t => t.1)) acc - (ac + (l.map (fun t => t.2.1)).sum)| ≤
      (R.g ^ (a + (l.map (fun t => t.2.2)).sum + l.length) - 1) * V := by
  induction l with
  | nil => intro a acc ac h _; simpa [sumFl] using h
  | cons t l ih =>
    intro a acc ac h hp
    have ht := hl t (by simp)
    have hV : 0 ≤ V := le_trans (abs_nonneg _) (hp 0)
    have h1 : |acc + t.1 - (ac + t.2.1)| ≤ (R.g ^ (a + t.2.2) - 1) * V := by
      have e : acc + t.1 - (ac + t.2.1) = (acc - ac) + (t.1 - t.2.1) := by ring
      have h2 : |acc + t.1 - (ac + t.2.1)| ≤ |acc - ac| + |t.1 - t.2.1| := by
        rw [e]; exact abs_add_le _ _
      have g1 := Rounding.g_pow_one_le (R := R) a
      have g2 := Rounding.g_pow_one_le (R := R) t.2.2
      have h3 : 0 ≤ (R.g ^ a - 1) * (R.g ^ t.2.2 - 1) * V :=
        mul_nonneg (mul_nonneg (by linarith) (by linarith)) hV
      rw [pow_add]
      linarith [(by ring : (R.g ^ a * R.g ^ t.2.2 - 1) * V = (R.g ^ a - 1) * V +
        (R.g ^ t.2.2 - 1) * V + (R.g ^ a - 1) * (R.g ^ t.2.2 - 1) * V)]
    have h4 : |ac + t.2.1| ≤ V := by simpa using hp 1
    have h5 := ih (fun t ht => hl t (by simp [ht])) (Rounding.abs_fl_err h1 h4) (fun i => by
      have := hp (i + 1)
      rwa [List.take_succ_cons, List.map_cons, List.sum_cons, ← add_assoc] at this)
    rw [List.map_cons, List.map_cons, List.map_cons, List.sum_cons, List.sum_cons, List.length_cons,
      ← add_assoc]
    have e : a + t.2.2 + 1 + (l.map (fun t => t.2.2)).sum + l.length =
        a + (t.2.2 + (l.map (fun t => t.2.2)).sum) + (l.length + 1) := by omega
    rw [e] at h5
    exact h5

/-- Prefix sums of the exact column: the diagonal entry equals the sum of the whole row. -/
theorem lapCol_prefix {n v : Nat} (hvn : v < n) (w : Nat → K) (hw : ∀ u, 0 ≤ w u) {P : List Nat}
    (hP : P.Sublist (List.range n)) :
    |(P.map (fun u => if u = v then ∑ c ∈ Finset.range n, w c else -w u)).sum| ≤
      ∑ c ∈ Finset.range n, w c := by
  have h0 : 0 ≤ ∑ c ∈ Finset.range n, w c := Finset.sum_nonneg (fun c _ => hw c)
  have e : ∀ P : List Nat, (P.map (fun u => if u = v then ∑ c ∈ Finset.range n, w c else -w u)).sum =
      (P.map (fun u => if u = v then ∑ c ∈ Finset.range n, w c else 0)).sum -
      (P.map (fun u => if u = v then 0 else w u)).sum := by
    intro P
    induction P with
    | nil => simp
    | cons x P ih =>
      rw [List.map_cons, List.map_cons, List.map_cons, List.sum_cons, List.sum_cons, List.sum_cons, ih]
      split_ifs <;> ring
  have h1 : (P.map (fun u => if u = v then ∑ c ∈ Finset.range n, w c else 0)).sum ≤
      ∑ c ∈ Finset.range n, w c := by
    refine le_trans (List.Sublist.sum_le_sum (hP.map _) ?_) ?_
    · intro x hx
      obtain ⟨c, _, rfl⟩ := List.mem_map.1 hx
      split_ifs
      · exact h0
      · exact le_refl _
    · rw [sum_list_range, Finset.sum_ite_eq' (Finset.range n) v, if_pos (Finset.mem_range.2 hvn)]
  have h2 : (P.map (fun u => if u = v then 0 else w u)).sum ≤ ∑ c ∈ Finset.range n, w c := by
    refine le_trans (List.Sublist.sum_le_sum (hP.map _) ?_) ?_
    · intro x hx
      obtain ⟨c, _, rfl⟩ := List.mem_map.1 hx
      split_ifs
      · exact le_refl _
      · exact hw c
    · rw [sum_list_range]
      apply Finset.sum_le_sum
      intro c _
      split_ifs
      · exact hw c
      · exact le_refl _
  have h3 : 0 ≤ (P.map (fun u => if u = v then ∑ c ∈ Finset.range n, w c else 0)).sum := by
    apply List.sum_nonneg
    intro x hx
    obtain ⟨c, _, rfl⟩ := List.mem_map.1 hx
    split_ifs
    · exact h0
    · exact le_refl _
  have h4 : 0 ≤ (P.map (fun u => if u = v then 0 else w u)).sum := by
    apply List.sum_nonneg
    intro x hx
    obtain ⟨c, _, rfl⟩ := List.mem_map.1 hx
    split_ifs
    · exact le_refl _
    · exact hw c
  rw [e, abs_le]
  constructor <;> linarith

theorem lapCol_total {n v : Nat} (hvn : v < n) (w : Nat → K) :
    ((List.range n).map (fun u => if u = v then ∑ c ∈ Finset.range n, w c else -w u)).sum = w v := by
  rw [sum_list_range, ← Finset.add_sum_erase _ _ (Finset.mem_range.2 hvn), if_pos rfl,
    ← Finset.add_sum_erase _ w (Finset.mem_range.2 hvn)]
  have : ∑ u ∈ (Finset.range n).erase v,
      (if u = v then w v + ∑ c ∈ (Finset.range n).erase v, w c else -w u) =
      ∑ u ∈ (Finset.range n).erase v, -w u := by
    apply Finset.sum_congr rfl
    intro u hu
    rw [if_neg (Finset.mem_erase.1 hu).1]
  rw [this, Finset.sum_neg_distrib]
  ring

/-- **C79** (size of the sums).  The column sum of a vertex with `d` neighbours differs from the
weight of its self-loop by at most `2 d + 3` rounding errors relative to the degree. -/
theorem C79_error {g : Graph K} (hv : g.Valid) (hw : ∀ u v, 0 ≤ g.abs.w u v) {v : Nat}
    (hvn : v < g.n) :
    |g.lapColFl R.fl v - g.abs.w v v| ≤
      ((1 / (1 - R.u)) ^ (2 * ((Finset.range g.n).filter (fun u => g.abs.w v u ≠ 0)).card + 3) - 1) *
        g.abs.deg v := by
  change _ ≤ (R.g ^ _ - 1) * _
  generalize hk : ((Finset.range g.n).filter (fun u => g.abs.w v u ≠ 0)).card = k
  have hdeg := (C77_degree (R := R) hv hw hvn).2
  rw [hk] at hdeg
  have hdd : g.abs.deg v = ∑ c ∈ Finset.range g.n, g.abs.w v c + g.abs.w v v := rfl
  have hS : 0 ≤ ∑ c ∈ Finset.range g.n, g.abs.w v c := Finset.sum_nonneg (fun c _ => hw v c)
  have hwv := hw v v
  have hx : |R.fl (g.degFl R.fl v - g.abs.w v v) - ∑ c ∈ Finset.range g.n, g.abs.w v c| ≤
      (R.g ^ (k + 2) - 1) * g.abs.deg v := by
    apply Rounding.abs_fl_err (a := k + 1)
    · have e : g.degFl R.fl v - g.abs.w v v - ∑ c ∈ Finset.range g.n, g.abs.w v c =
        g.degFl R.fl v - g.abs.deg v := by rw [hdd]; ring
      rw [e]
      exact hdeg.abs_sub
    · rw [abs_of_nonneg hS, hdd]; linarith
  let p : Nat → Bool := fun u => decide (u = v ∨ g.abs.w v u ≠ 0)
  let P := (List.range g.n).filter p
  let T : Nat → K × K × Nat := fun u =>
    (if u = v then R.fl (g.degFl R.fl v - g.abs.w v v) else -g.abs.w v u,
     if u = v then ∑ c ∈ Finset.range g.n, g.abs.w v c else -g.abs.w v u, if u = v then k + 2 else 0)
  have hVpos : 0 ≤ g.abs.deg v := by rw [hdd]; linarith
  have h1 := sumFl_err (R := R) (V := g.abs.deg v) (P.map T) (by
    intro t ht
    obtain ⟨u, _, rfl⟩ := List.mem_map.1 ht
    dsimp only [T]
    by_cases huv : u = v
    · rw [if_pos huv, if_pos huv, if_pos huv]; exact hx
    · rw [if_neg huv, if_neg huv, if_neg huv]; simp) (a := 0) (acc := 0) (ac := 0) (by simp) (by
    intro i
    rw [zero_add, ← List.map_take, List.map_map]
    refine le_trans (lapCol_prefix hvn (g.abs.w v) (hw v)
      ((List.take_sublist i P).trans List.filter_sublist)) ?_
    rw [hdd]; linarith)
  rw [List.map_map, List.map_map, List.map_map, List.length_map, zero_add, zero_add] at h1
  have e1 : sumFl R.fl (P.map ((fun t => t.1) ∘ T)) 0 = g.lapColFl R.fl v := by
    unfold Graph.lapColFl
    refine (sumFl_map_filter p _ _ Rounding.fl_zero ?_).symm
    · intro u _ hu
      have hu : ¬ (u = v ∨ g.abs.w v u ≠ 0) := by simpa [p] using hu
      push Not at hu
      change (if u = v then R.fl (g.degFl R.fl v - g.abs.w v v) else -g.abs.w v u) = 0
      rw [if_neg hu.1, hu.2, neg_zero]
  have e2 : (P.map ((fun t => t.2.1) ∘ T)).sum = g.abs.w v v := by
    rw [← lapCol_total hvn (g.abs.w v)]
    have : ∀ l : List Nat, ((l.filter p).map ((fun t : K × K × Nat => t.2.1) ∘ T)).sum =
        (l.map (fun u => if u = v then ∑ c ∈ Finset.range g.n, g.abs.w v c else -g.abs.w v u)).sum := by
      intro l
      induction l with
      | nil => rfl
      | cons x l ih =>
        rw [List.map_cons, List.sum_cons, ← ih]
        cases hp : p x with
        | true => rw [List.filter_cons_of_pos hp, List.map_cons, List.sum_cons]; rfl
        | false =>
          rw [List.filter_cons_of_neg (by simp [hp])]
          have hx : ¬ (x = v ∨ g.abs.w v x ≠ 0) := by simpa [p] using hp
          push Not at hx
          rw [if_neg hx.1, hx.2, neg_zero, zero_add]
    exact this _
  have e3 : (P.map ((fun t => t.2.2) ∘ T)).sum ≤ k + 2 := by
    have : (P.map ((fun t : K × K × Nat => t.2.2) ∘ T)).sum ≤
        ((List.range g.n).map ((fun t : K × K × Nat => t.2.2) ∘ T)).sum :=
      List.Sublist.sum_le_sum (List.filter_sublist.map _) (fun _ _ => Nat.zero_le _)
    refine le_trans this ?_
    rw [sum_list_range]
    change ∑ u ∈ Finset.range g.n, (if u = v then k + 2 else 0) ≤ k + 2
    rw [Finset.sum_ite_eq' (Finset.range g.n) v, if_pos (Finset.mem_range.2 hvn)]
  have e4 : P.length ≤ k + 1 := by
    have : P.toFinset ⊆ insert v ((Finset.range g.n).filter (fun u => g.abs.w v u ≠ 0)) := by
      intro u hu
      have := List.mem_filter.1 (List.mem_toFinset.1 hu)
      have h2 : u = v ∨ g.abs.w v u ≠ 0 := by simpa [p] using this.2
      rw [Finset.mem_insert, Finset.mem_filter, Finset.mem_range]
      rcases h2 with h2 | h2
      · exact Or.inl h2
      · exact Or.inr ⟨List.mem_range.1 this.1, h2⟩
    have h3 := le_trans (Finset.card_le_card this) (Finset.card_insert_le _ _)
    rw [List.toFinset_card_of_nodup (List.nodup_range.filter _), hk] at h3
    exact h3
  rw [e1, e2] at h1
  refine le_trans h1 (mul_le_mul_of_nonneg_right ?_ hVpos)
  have := pow_le_pow_right₀ (Rounding.one_le_g (R := R)) (show
    (P.map ((fun t : K × K × Nat => t.2.2) ∘ T)).sum + P.length ≤ 2 * k + 3 by omega)
  linarith

/-- **C79** (when the graph is recovered).  If `2 d + 3` rounding errors relative to the degree of a
vertex with `d` neighbours never exceed 1e-10, an accepted Laplacian of a graph without self-loops
gives the graph back: same vertices, same stored matrix. -/
theorem C79_recovered {g : Graph K} (hv : g.Valid)
    (hpos : ∀ j, ∀ e ∈ g.adj.col j, epsilon < e.2) (hf : g.FloatWeights R.fl)
    (hloop : ∀ v, g.abs.w v v = 0)
    (hsmall : ∀ v, v < g.n → ((1 / (1 - R.u)) ^
      (2 * ((Finset.range g.n).filter (fun u => g.abs.w v u ≠ 0)).card + 3) - 1) * g.abs.deg v ≤ epsilon) :
    ofMatrixFl R.fl (g.laplacianFl R.fl) = .throw .domainError ∨
    ∃ g', ofMatrixFl R.fl (g.laplacianFl R.fl) = .ok g' ∧ g'.n = g.n ∧ g'.adj = g.adj := by
  have hw : ∀ u v, 0 ≤ g.abs.w u v := fun u v => by
    rcases coeff_zero_or hv hpos hf u v with h | h
    · exact h.ge
    · exact le_trans epsilon_pos.le h.le
  obtain ⟨h1, h2⟩ := C79_round_trip hv hpos hf
  by_cases hall : ∀ v, v < g.n → 0 ≤ g.lapColFl R.fl v
  · obtain ⟨g', hg', hv', hn', hp', hco⟩ := h2 hall
    refine Or.inr ⟨g', hg', hn', ?_⟩
    apply SprsMat.ext_coeff hv'.wf hv.wf
      (fun j e he => ne_of_gt (lt_trans epsilon_pos (hp' j e he)))
      (fun j e he => ne_of_gt (lt_trans epsilon_pos (hpos j e he)))
      (by rw [hv'.rows, hv.rows, hn']) (by rw [hv'.cols, hv.cols, hn'])
    intro i j
    rcases Nat.lt_or_ge i g.n with hi | hi
    · have := hco i j hi
      change g'.adj.coeff i j = _ at this
      rw [this]
      by_cases hij : i = j
      · subst hij
        rw [if_pos rfl]
        have h3 := C79_error (R := R) hv hw hi
        have h4 := hloop i
        rw [h4, sub_zero] at h3
        have h5 := le_trans (le_abs_self _) (le_trans h3 (hsmall i hi))
        change _ = g.abs.w i i
        rw [h4]
        unfold thr
        rw [if_neg (not_lt.2 h5)]
      · rw [if_neg hij]; rfl
    · rw [hv'.wf.coeff_of_rows_le (by rw [hv'.rows, hn']; omega),
        hv.wf.coeff_of_rows_le (by rw [hv.rows]; omega)]
  · push Not at hall
    exact Or.inl (h1 hall)

/-- A rounded sum none of whose prefix sums is rounded. -/
theorem sumFl_of_fixed {fl : K → K} (l : List K) : ∀ {acc : K},
    (∀ i, fl (acc + (l.take i).sum) = acc + (l.take i).sum) → sumFl fl l acc = acc + l.sum := by
  induction l with
  | nil => intro acc _; simp [sumFl]
  | cons x l ih =>
    intro acc h
    unfold sumFl
    have h1 := h 1
    simp only [List.take_succ_cons, List.take_zero, List.sum_cons, List.sum_nil, add_zero] at h1
    rw [h1, ih, List.sum_cons, add_assoc]
    intro i
    have := h (i + 1)
    rwa [List.take_succ_cons, List.sum_cons, ← add_assoc] at this

/-- **C79** (weights with a common unit).  If the weights are multiples of a common unit and the total
volume is a number of units which is not rounded - unweighted graphs in particular - then the round
trip is exact: the Laplacian is accepted and gives the graph back, self-loops included. -/
theorem C79_unit {g : Graph K} (hv : g.Valid) (hpos : ∀ j, ∀ e ∈ g.adj.col j, epsilon < e.2)
    {q : K} {B : Nat} (h : UnitWeights R.fl g.abs q B) (hodd : ∀ x, R.fl (-x) = -R.fl x) :
    ∃ g', ofMatrixFl R.fl (g.laplacianFl R.fl) = .ok g' ∧ g'.n = g.n ∧ g'.adj = g.adj := by
  have hwle : ∀ u v, g.abs.w u v ≤ g.abs.vol (Finset.range g.abs.n) := by
    intro u v
    rcases Nat.lt_or_ge u g.n with hu | hu
    · refine le_trans ?_ (h.deg_le hu)
      rcases Nat.lt_or_ge v g.n with hvn | hvn
      · have h1 := Finset.single_le_sum (f := fun c => g.abs.w u c) (fun c _ => h.nonneg u c)
          (Finset.mem_range.2 hvn : v ∈ Finset.range g.abs.n)
        have h2 := h.nonneg u u
        change g.abs.w u v ≤ ∑ c ∈ Finset.range g.abs.n, g.abs.w u c + g.abs.w u u
        linarith
      · rw [Graph.abs_range hv u v hvn]
        exact WGraph.degree_nonneg h.nonneg u
    · rw [Graph.abs_symm hv, Graph.abs_range hv v u hu]
      exact WGraph.vol_nonneg h.nonneg _
  have hf : g.FloatWeights R.fl := by
    intro u v
    have h1 := h.fixed (h.w u v) (h.nonneg u v) (hwle u v)
    exact ⟨h1, by rw [hodd, h1]⟩
  have hfix : ∀ x, UnitWeights.IsMult q x → |x| ≤ g.abs.vol (Finset.range g.abs.n) → R.fl x = x := by
    intro x hx hle
    rcases le_total 0 x with h0 | h0
    · rw [abs_of_nonneg h0] at hle
      exact h.fixed hx h0 hle
    · rw [abs_of_nonpos h0] at hle
      have h1 : UnitWeights.IsMult q (-x) := by
        have := UnitWeights.IsMult.sub UnitWeights.IsMult.zero hx
        rwa [zero_sub] at this
      have h2 := h.fixed h1 (by linarith) hle
      rw [hodd] at h2
      exact neg_injective h2
  have hlap : ∀ v, v < g.n → g.lapColFl R.fl v = g.abs.w v v := by
    intro v hvn
    have hd := h.degFl_eq hv hvn
    have hSle : ∑ c ∈ Finset.range g.n, g.abs.w v c ≤ g.abs.vol (Finset.range g.abs.n) := by
      have h1 := h.deg_le hvn
      have h2 := h.nonneg v v
      have h3 : g.abs.deg v = ∑ c ∈ Finset.range g.n, g.abs.w v c + g.abs.w v v := rfl
      linarith
    have hS0 : 0 ≤ ∑ c ∈ Finset.range g.n, g.abs.w v c := Finset.sum_nonneg (fun c _ => h.nonneg v c)
    have hSm : UnitWeights.IsMult q (∑ c ∈ Finset.range g.n, g.abs.w v c) :=
      UnitWeights.IsMult.sum _ _ (fun c _ => h.w v c)
    have hdiag : R.fl (g.degFl R.fl v - g.abs.w v v) = ∑ c ∈ Finset.range g.n, g.abs.w v c := by
      rw [hd, show g.abs.deg v - g.abs.w v v = ∑ c ∈ Finset.range g.n, g.abs.w v c from
        add_sub_cancel_right _ _]
      exact hfix _ hSm (by rw [abs_of_nonneg hS0]; exact hSle)
    unfold Graph.lapColFl
    rw [hdiag, sumFl_of_fixed, zero_add, lapCol_total hvn (g.abs.w v)]
    intro i
    rw [zero_add, ← List.map_take]
    apply hfix
    · have : ∀ l : List Nat, UnitWeights.IsMult q ((l.map (fun u => if u = v then
          ∑ c ∈ Finset.range g.n, g.abs.w v c else -g.abs.w v u)).sum) := by
        intro l
        induction l with
        | nil => exact UnitWeights.IsMult.zero
        | cons x l ih =>
          rw [List.map_cons, List.sum_cons]
          refine UnitWeights.IsMult.add ?_ ih
          split_ifs
          · exact hSm
          · have := UnitWeights.IsMult.sub UnitWeights.IsMult.zero (h.w v x)
            rwa [zero_sub] at this
      exact this _
    · exact le_trans (lapCol_prefix hvn (g.abs.w v) (h.nonneg v) (List.take_sublist _ _)) hSle
  obtain ⟨g', hg', hv', hn', hp', hco⟩ := (C79_round_trip hv hpos hf).2
    (fun v hvn => by rw [hlap v hvn]; exact h.nonneg v v)
  refine ⟨g', hg', hn', ?_⟩
  apply SprsMat.ext_coeff hv'.wf hv.wf
    (fun j e he => ne_of_gt (lt_trans epsilon_pos (hp' j e he)))
    (fun j e he => ne_of_gt (lt_trans epsilon_pos (hpos j e he)))
    (by rw [hv'.rows, hv.rows, hn']) (by rw [hv'.cols, hv.cols, hn'])
  intro i j
  rcases Nat.lt_or_ge i g.n with hi | hi
  · have := hco i j hi
    change g'.adj.coeff i j = _ at this
    rw [this]
    by_cases hij : i = j
    · subst hij
      rw [if_pos rfl, hlap i hi]
      unfold thr
      rcases coeff_zero_or hv hpos hf i i with h0 | h0
      · rw [if_neg]
        · exact h0.symm
        · change ¬ epsilon < g.adj.coeff i i
          rw [h0]; exact not_lt.2 epsilon_pos.le
      · rw [if_pos (show epsilon < g.abs.w i i from h0)]; rfl
    · rw [if_neg hij]; rfl
  · rw [hv'.wf.coeff_of_rows_le (by rw [hv'.rows, hn']; omega),
      hv.wf.coeff_of_rows_le (by rw [hv.rows]; omega)]

end
/-! ## `double`s -/

/-- Two edges at vertex 0, with the weights `a` and `b`. -/
def flStar (a b : ℚ) : Graph ℚ :=
  ⟨3, ⟨3, 3, [[(1, a), (2, b)], [(0, a)], [(0, b)]]⟩, false⟩

/-- **C79** (a graph whose own Laplacian is rejected).  With `double`s, vertex 0 joined to 1 and 2 with
the weights `0.2` and `0.5` - two `double`s - is accepted by the constructor, but constructing a graph
from its Laplacian throws `std::domain_error`: the computed degree of vertex 0 is less than the sum of
the weights. -/
theorem C79_rejected :
    (∀ x ∈ [flBin 53 (1 / 5 : ℚ), flBin 53 (1 / 2)], flBin 53 x = x) ∧
    ofMatrixFl (flBin 53) (flStar (flBin 53 (1 / 5)) (flBin 53 (1 / 2))).adj =
      .ok (flStar (flBin 53 (1 / 5)) (flBin 53 (1 / 2))) ∧
    (flStar (flBin 53 (1 / 5)) (flBin 53 (1 / 2))).lapColFl (flBin 53) 0 = -(1 / 2 ^ 54) ∧
    ofMatrixFl (flBin 53) ((flStar (flBin 53 (1 / 5)) (flBin 53 (1 / 2))).laplacianFl (flBin 53)) =
      .throw .domainError := by
  decide +kernel

/-- **C79** (a self-loop out of nothing).  With `double`s and the weights `10000000` and `0.3` the
Laplacian is accepted, but the graph constructed from it has a self-loop of weight more than 1e-10 at
vertex 0. -/
theorem C79_spurious_loop :
    ∃ g', ofMatrixFl (flBin 53) ((flStar 10000000 (flBin 53 (3 / 10))).laplacianFl (flBin 53)) =
      .ok g' ∧ g'.selfLoops = true ∧ (flStar 10000000 (flBin 53 (3 / 10))).selfLoops = false ∧
      1 / 10 ^ 10 < g'.abs.w 0 0 := by
  refine ⟨⟨3, ⟨3, 3, [[(0, (flStar 10000000 (flBin 53 (3 / 10))).lapColFl (flBin 53) 0),
    (1, 10000000), (2, flBin 53 (3 / 10))], [(0, 10000000)], [(0, flBin 53 (3 / 10))]]⟩, true⟩, ?_⟩
  decide +kernel

/-- Multiples of a quarter are recovered. -/
example : ofMatrixFl (flBin 53) ((flStar (1 / 4) (7 / 4)).laplacianFl (flBin 53)) =
    .ok (flStar (1 / 4) (7 / 4)) := by decide +kernel

theorem flStar_wf (a b : ℚ) : (flStar a b).adj.WF := by
  refine ⟨rfl, fun j => ?_⟩
  match j with
  | 0 => simp [SprsMat.col, flStar, Col.Sorted]
  | 1 => simp [SprsMat.col, flStar, Col.Sorted]
  | 2 => simp [SprsMat.col, flStar, Col.Sorted]
  | j + 3 => simp [SprsMat.col, flStar, Col.Sorted]

/-- The hypotheses of `C79_round_trip` and `C79_recovered` are met by the star with the weights `0.2`
and `0.5` in `double`s, and by the one with the weights `0.1` and `0.2`, which is recovered. -/
example : ∀ a ∈ [flBin 53 (1 / 5 : ℚ), flBin 53 (1 / 10)], ∀ b ∈ [flBin 53 (1 / 2), flBin 53 (1 / 5)],
    (flStar a b).Valid ∧ (∀ j, ∀ e ∈ (flStar a b).adj.col j, epsilon < e.2) ∧
    (flStar a b).FloatWeights (Rounding.binary ℚ 53 (by norm_num)).fl ∧
    (∀ v, (flStar a b).abs.w v v = 0) ∧
    ∀ v, v < (flStar a b).n → ((1 / (1 - (Rounding.binary ℚ 53 (by norm_num)).u)) ^
      (2 * ((Finset.range (flStar a b).n).filter (fun u => (flStar a b).abs.w v u ≠ 0)).card + 3) - 1) *
        (flStar a b).abs.deg v ≤ epsilon := by
  intro a ha b hb
  have key : epsilon < a ∧ epsilon < b ∧ flBin 53 a = a ∧ flBin 53 b = b := by
    revert b a
    decide +kernel
  obtain ⟨k1, k2, k3, k4⟩ := key
  have hco : ∀ u v, (flStar a b).abs.w u v = 0 ∨ (flStar a b).abs.w u v = a ∨
      (flStar a b).abs.w u v = b := by
    intro u v
    by_cases h0 : (flStar a b).abs.w u v = 0
    · exact Or.inl h0
    · have hm := Col.mem_of_coeff_ne_zero h0
      have : ∀ e ∈ (flStar a b).adj.col v, e.2 = a ∨ e.2 = b := by
        intro e he
        match v with
        | 0 => simp [SprsMat.col, flStar] at he; rcases he with rfl | rfl <;> simp
        | 1 => simp [SprsMat.col, flStar] at he; rcases he with rfl; simp
        | 2 => simp [SprsMat.col, flStar] at he; rcases he with rfl; simp
        | v + 3 => simp [SprsMat.col, flStar] at he
      exact Or.inr (this _ hm)
  have hfl : (Rounding.binary ℚ 53 (by norm_num)).fl = flBin 53 := rfl
  refine ⟨?_, ?_, ?_, ?_, ?_⟩
  · refine (ofMatrix_ok (flStar_wf a b) (g := flStar a b) ?_).1
    clear hco k1 k2 k3 k4
    revert b a
    decide +kernel
  · intro j e he
    match j with
    | 0 => simp [SprsMat.col, flStar] at he; rcases he with rfl | rfl <;> assumption
    | 1 => simp [SprsMat.col, flStar] at he; rcases he with rfl; assumption
    | 2 => simp [SprsMat.col, flStar] at he; rcases he with rfl; assumption
    | j + 3 => simp [SprsMat.col, flStar] at he
  · intro u v
    rw [hfl]
    rcases hco u v with h | h | h <;> rw [h]
    · simp [flBin_zero]
    · exact ⟨k3, by rw [flBin_neg, k3]⟩
    · exact ⟨k4, by rw [flBin_neg, k4]⟩
  · intro v
    match v with
    | 0 => rfl
    | 1 => rfl
    | 2 => rfl
    | v + 3 => rfl
  · have hu : (Rounding.binary ℚ 53 (by norm_num)).u = 1 / 2 ^ 53 := by
      change (2 : ℚ) ^ (-((53 : Nat) : Int)) = _
      norm_num
    rw [hu]
    clear hco k1 k2 k3 k4 hu hfl
    revert b a
    decide +kernel

example : ofMatrixFl (flBin 53) ((flStar (flBin 53 (1 / 10)) (flBin 53 (1 / 5))).laplacianFl (flBin 53)) =
    .ok (flStar (flBin 53 (1 / 10)) (flBin 53 (1 / 5))) := by decide +kernel

/-- The hypotheses of `C79_unit` are met by the path `condPath` in `double`s. -/
example : ∃ g', ofMatrixFl (flBin 53) (condPath.laplacianFl (flBin 53)) = .ok g' ∧
    g'.n = condPath.n ∧ g'.adj = condPath.adj :=
  C79_unit (R := Rounding.binary ℚ 53 (by norm_num))
    (Graph.check_spec (g := condPath) (by decide +kernel)).1
    (Graph.check_spec (g := condPath) (by decide +kernel)).2 condPath_units (flBin_neg 53)

end Stag
