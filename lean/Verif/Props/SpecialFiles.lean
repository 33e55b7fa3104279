import Verif.Props.SpecialOps
import Verif.Props.Mutate

/-!
# C91, continued: edge lists, the Laplacian round trip, agreement with the finite model
-/

set_option linter.unusedSectionVars false

namespace Stag

open Graph XReal

section
variable {K : Type} [Field K] [LinearOrder K] [IsStrictOrderedRing K]

/-! ## Edge lists -/

/-- The total of the weights of the edges of a list joining `u` and `v`, as IEEE numbers; a self-loop counts twice. -/
def listWeightX (es : List (Edge (XReal K))) (u v : Nat) : XReal K :=
  (es.map (fun e => (if e.v1 = u ∧ e.v2 = v then e.w else .fin 0) + (if e.v2 = u ∧ e.v1 = v then e.w else .fin 0))).sum

/-- Not negative; NaN is not negative. -/
theorem not_neg_add {x y : XReal K} (hx : x.lt (.fin 0) = false) (hy : y.lt (.fin 0) = false) :
    (x + y).lt (.fin 0) = false := by
  cases x <;> cases y <;> first | rfl | simp_all [XReal.lt]
  rename_i a b
  change (XReal.fin (a + b)).lt (.fin 0) = false
  simpa [XReal.lt] using add_nonneg hx hy

theorem not_neg_sum (l : List (XReal K)) (h : ∀ x ∈ l, x.lt (.fin 0) = false) : l.sum.lt (.fin 0) = false := by
  induction l with
  | nil => simp [XReal.lt, XReal.zero_def]
  | cons a l ih =>
    rw [List.sum_cons]
    exact not_neg_add (h a (by simp)) (ih (fun x hx => h x (by simp [hx])))

theorem maxVertexX_spec (es : List (Edge (XReal K))) : ∀ e ∈ es, e.v1 < maxVertex es ∧ e.v2 < maxVertex es := by
  have key : ∀ (es : List (Edge (XReal K))) (n : Nat),
      n ≤ es.foldl (fun n e => max (max n (e.v1 + 1)) (e.v2 + 1)) n ∧
      ∀ e ∈ es, e.v1 < es.foldl (fun n e => max (max n (e.v1 + 1)) (e.v2 + 1)) n ∧
        e.v2 < es.foldl (fun n e => max (max n (e.v1 + 1)) (e.v2 + 1)) n := by
    intro es
    induction es with
    | nil => intro n; simp
    | cons e es ih =>
      intro n
      rw [List.foldl_cons]
      obtain ⟨h1, h2⟩ := ih (max (max n (e.v1 + 1)) (e.v2 + 1))
      refine ⟨by omega, fun f hf => ?_⟩
      rcases List.mem_cons.1 hf with rfl | hf
      · omega
      · exact h2 f hf
  exact (key es 0).2

/-- **C91** (edge lists).  A list of edges none of whose weights is negative (NaN and `inf` allowed) loads; the weight of an
edge is the sum of its lines as IEEE numbers, cleaned. -/
theorem C91_edges (es : List (Edge (XReal K))) (h : ∀ e ∈ es, e.w.lt (.fin 0) = false) :
    ∃ g, ofEdgesX es = .ok g ∧ g.absX = ⟨maxVertex es, fun u v => clean (listWeightX es u v)⟩ := by
  obtain ⟨m, h1, h2, h3, h4, h5, h6⟩ := SprsMat.setFromTriplets_spec (r := maxVertex es) (c := maxVertex es)
    (l := es.flatMap bothTriplets) (by
      intro t ht
      obtain ⟨e, he, ht⟩ := List.mem_flatMap.1 ht
      have := maxVertexX_spec es e he
      simp only [bothTriplets, List.mem_cons, List.not_mem_nil, or_false] at ht
      rcases ht with rfl | rfl
      · exact this
      · exact this.symm)
  have hco : ∀ i j, m.coeff i j = listWeightX es i j := by
    intro i j
    rw [h5]
    unfold listWeightX
    clear h1 h5 h3 h4 h2 h6
    induction es with
    | nil => rfl
    | cons e es ih =>
      rw [List.flatMap_cons, SprsMat.tripletSum_append, ih (fun e he => h e (by simp [he])), List.map_cons, List.sum_cons]
      congr 1
      simp only [bothTriplets, SprsMat.tripletSum_cons, SprsMat.tripletSum_nil, add_zero]
      rfl
  have hz : ∀ (p : Prop) [Decidable p] (e : Edge (XReal K)), e ∈ es →
      (if p then e.w else XReal.fin 0).lt (.fin 0) = false := by
    intro p _ e he
    split_ifs
    · exact h e he
    · simp [XReal.lt]
  have hnn : ∀ i j, (m.coeff i j).lt (.fin 0) = false := by
    intro i j
    rw [hco]
    apply not_neg_sum
    intro x hx
    obtain ⟨e, he, rfl⟩ := List.mem_map.1 hx
    exact not_neg_add (hz _ e he) (hz _ e he)
  have hsy : ∀ i j, m.coeff i j = m.coeff j i := by
    intro i j
    rw [hco, hco]
    unfold listWeightX
    congr 1
    apply List.map_congr_left
    intro e _
    rw [add_comm]
    congr 1
    · exact if_congr and_comm rfl rfl
    · exact if_congr and_comm rfl rfl
  obtain ⟨g, e1, _, e3⟩ := (C91_adjacency h2 (by omega) hnn).1 (fun i j => by rw [hsy])
  refine ⟨g, ?_, ?_⟩
  · unfold ofEdgesX
    rw [h1]
    exact e1
  · rw [e3, h4]
    congr 1
    funext i j
    rw [hco]

/-- **C91** (edge lists).  One line with weight NaN makes the whole edge disappear, whatever other lines say about it; a line
with weight `inf` makes the edge infinite if no line for it is NaN. -/
theorem C91_edges_special (es : List (Edge (XReal K))) (h : ∀ e ∈ es, e.w.lt (.fin 0) = false) {g : Graph (XReal K)}
    (hg : ofEdgesX es = .ok g) (u v : Nat) :
    ((∃ e ∈ es, e.w = .nan ∧ ((e.v1 = u ∧ e.v2 = v) ∨ (e.v1 = v ∧ e.v2 = u))) → g.absX.w u v = .fin 0) ∧
    ((∀ e ∈ es, e.w = .nan → ¬ ((e.v1 = u ∧ e.v2 = v) ∨ (e.v1 = v ∧ e.v2 = u))) →
      (g.absX.w u v = .posInf ↔ ∃ e ∈ es, e.w = .posInf ∧ ((e.v1 = u ∧ e.v2 = v) ∨ (e.v1 = v ∧ e.v2 = u)))) := by
  obtain ⟨g', h1, h2⟩ := C91_edges es h
  rw [hg] at h1
  cases h1
  have hw : g.absX.w u v = clean (listWeightX es u v) := by rw [h2]
  rw [hw]
  have hnn : ∀ e ∈ es, e.w ≠ .nan → XReal.Nonneg e.w := by
    intro e he hn
    have := h e he
    cases hx : e.w with
    | fin a => rw [hx] at this; exact Or.inr ⟨a, by simpa [XReal.lt] using this, rfl⟩
    | posInf => exact Or.inl rfl
    | negInf => rw [hx] at this; simp [XReal.lt] at this
    | nan => exact absurd hx hn
  have hz0 : XReal.Nonneg (XReal.fin (0 : K)) := Or.inr ⟨0, le_rfl, rfl⟩
  have hf0 : (XReal.fin (0 : K)) ≠ .posInf := by simp
  constructor
  · rintro ⟨e, he, hn, hj⟩
    have : listWeightX es u v = .nan := by
      unfold listWeightX
      clear hw h2 hg hnn h
      induction es with
      | nil => simp at he
      | cons f es ih =>
        rw [List.map_cons, List.sum_cons]
        rcases List.mem_cons.1 he with rfl | he
        · have : (if e.v1 = u ∧ e.v2 = v then e.w else .fin 0) + (if e.v2 = u ∧ e.v1 = v then e.w else .fin 0) = .nan := by
            rcases hj with hj | hj
            · rw [if_pos hj, hn]; exact nan_add _
            · rw [if_pos (c := e.v2 = u ∧ e.v1 = v) ⟨hj.2, hj.1⟩, hn]; exact add_nan _
          rw [this]
          exact nan_add _
        · rw [ih he]; exact add_nan _
    rw [this]
    rfl
  · intro hno
    have key : XReal.Nonneg (listWeightX es u v) ∧ (listWeightX es u v = .posInf ↔
        ∃ e ∈ es, e.w = .posInf ∧ ((e.v1 = u ∧ e.v2 = v) ∨ (e.v1 = v ∧ e.v2 = u))) := by
      unfold listWeightX
      clear hw h2 hg h
      induction es with
      | nil =>
        refine ⟨hz0, ?_⟩
        constructor
        · intro h; cases h
        · rintro ⟨e, he, _⟩; simp at he
      | cons f es ih =>
        obtain ⟨i1, i2⟩ := ih (fun e he => hnn e (by simp [he])) (fun e he => hno e (by simp [he]))
        rw [List.map_cons, List.sum_cons]
        have hA : XReal.Nonneg (if f.v1 = u ∧ f.v2 = v then f.w else .fin 0) := by
          split_ifs with hc
          · exact hnn f (by simp) (fun hn => hno f (by simp) hn (Or.inl hc))
          · exact hz0
        have hB : XReal.Nonneg (if f.v2 = u ∧ f.v1 = v then f.w else .fin 0) := by
          split_ifs with hc
          · exact hnn f (by simp) (fun hn => hno f (by simp) hn (Or.inr ⟨hc.2, hc.1⟩))
          · exact hz0
        refine ⟨(hA.add hB).add i1, ?_⟩
        rw [add_eq_posInf (hA.add hB) i1, add_eq_posInf hA hB, i2]
        constructor
        · rintro ((h1 | h1) | ⟨e, he, h1⟩)
          · by_cases hc : f.v1 = u ∧ f.v2 = v
            · rw [if_pos hc] at h1; exact ⟨f, by simp, h1, Or.inl hc⟩
            · rw [if_neg hc] at h1; exact absurd h1 hf0
          · by_cases hc : f.v2 = u ∧ f.v1 = v
            · rw [if_pos hc] at h1; exact ⟨f, by simp, h1, Or.inr ⟨hc.2, hc.1⟩⟩
            · rw [if_neg hc] at h1; exact absurd h1 hf0
          · exact ⟨e, by simp [he], h1⟩
        · rintro ⟨e, he, h1, h2⟩
          rcases List.mem_cons.1 he with rfl | he
          · rcases h2 with h2 | h2
            · rw [if_pos h2]; exact Or.inl (Or.inl h1)
            · rw [if_pos (c := e.v2 = u ∧ e.v1 = v) ⟨h2.2, h2.1⟩]; exact Or.inl (Or.inr h1)
          · exact Or.inr ⟨e, he, h1, h2⟩
    rw [← key.2]
    rcases key.1 with h1 | ⟨a, _, h1⟩
    · rw [h1]; exact Iff.rfl
    · rw [h1, clean_fin]
      constructor
      · intro h; split_ifs at h
      · intro h; cases h

/-! ## The Laplacian round trip -/

theorem laplacianX_spec {g : Graph (XReal K)} (hv : g.ValidX) :
    g.laplacianX.WF ∧ g.laplacianX.rows = g.n ∧ g.laplacianX.cols = g.n ∧
    (∀ i j, g.laplacianX.coeff i j =
      if i = j then (if i < g.n then g.degreeX i - g.adj.coeff i i else 0) else (g.adj.coeff i j).neg) ∧
    (∀ j, ∀ e ∈ g.laplacianX.col j, e.1 ≠ j → ∃ w, (e.1, w) ∈ g.adj.col j) := by
  have hwd : (SprsMat.diag g.adj.cols g.degreeX).WF := SprsMat.wf_diag _ _
  have hsub : ∀ x : XReal K, (0 : XReal K) - x = x.neg := by
    intro x
    cases x with
    | fin a => exact congrArg XReal.fin (zero_add _)
    | posInf => rfl
    | negInf => rfl
    | nan => rfl
  refine ⟨SprsMat.wf_zipWith hwd hv.wf (by rw [SprsMat.rows_diag, hv.rows, hv.cols]) _, ?_, ?_, fun i j => ?_, ?_⟩
  · change g.adj.cols = g.n; exact hv.cols
  · change g.adj.cols = g.n; exact hv.cols
  · unfold laplacianX
    rw [SprsMat.coeff_zipWith hwd hv.wf rfl _ (by rw [hsub]; exact congrArg XReal.fin neg_zero), SprsMat.coeff_diag, hv.cols]
    by_cases hij : i = j
    · subst hij
      by_cases hi : i < g.n
      · simp [hi]
      · have h0 : g.adj.coeff i i = 0 := hv.wf.coeff_of_cols_le (by rw [hv.cols]; omega) i
        rw [h0]
        simp only [hi, and_false, if_false, if_true]
        rw [hsub]
        exact congrArg XReal.fin neg_zero
    · simp only [hij, false_and, if_false]
      exact hsub _
  · intro j e he hne
    unfold laplacianX at he
    rw [SprsMat.col_zipWith hwd hv.wf rfl] at he
    rcases Col.mem_merge_row _ _ _ _ he with ⟨w, h⟩ | h
    · rw [SprsMat.col_diag] at h
      split_ifs at h
      · simp only [List.mem_singleton, Prod.mk.injEq] at h
        exact absurd h.1 hne
      · simp at h
    · exact h

/-- The totals of the rows of the Laplacian matrix. -/
theorem laplacianX_rowTotal {m : SprsMat (XReal K)} (hw : m.WF) {g : Graph (XReal K)} (h : ofMatrixX m = .ok g) {i : Nat}
    (hi : i < g.n) : ∑ k ∈ Finset.range g.n, g.laplacianX.coeff i k =
      if g.degreeX i = .posInf then .nan else g.adj.coeff i i := by
  obtain ⟨_, _, _, hd⟩ := C91_constructed hw h
  obtain ⟨hv, hW, _, _⟩ := ofMatrixX_ok hw h
  obtain ⟨_, _, _, l4, _⟩ := laplacianX_spec hv
  have hsplit : ∑ k ∈ Finset.range g.n, g.laplacianX.coeff i k =
      (g.degreeX i - g.adj.coeff i i) + ∑ k ∈ (Finset.range g.n).erase i, (g.adj.coeff i k).neg := by
    rw [← Finset.add_sum_erase _ _ (Finset.mem_range.2 hi), l4, if_pos rfl, if_pos hi]
    congr 1
    apply Finset.sum_congr rfl
    intro k hk
    rw [l4, if_neg (Ne.symm (Finset.ne_of_mem_erase hk))]
  rw [hsplit]
  rcases hd i hi with ⟨hd, u, hu, hp⟩ | ⟨d, _, hd, hfin⟩
  · rw [hd, if_pos rfl]
    have hp' : g.adj.coeff i u = .posInf := hp
    by_cases hui : u = i
    · subst hui
      rw [hp']
      exact nan_add _
    · rw [← Finset.add_sum_erase _ _ (Finset.mem_erase.2 ⟨hui, Finset.mem_range.2 hu⟩), hp', ← add_assoc]
      have : (XReal.posInf - g.adj.coeff i i : XReal K) + XReal.neg .posInf = .nan := by
        rcases hW i i with h0 | ⟨a, h0, _⟩ <;> rw [h0] <;> rfl
      rw [this]
      exact nan_add _
  · have hex : ∀ u, ∃ a : K, g.adj.coeff i u = .fin a := by
      intro u
      rcases hW i u with h0 | ⟨a, h0, _⟩
      · exact absurd h0 (hfin u)
      · exact ⟨a, h0⟩
    choose a ha using hex
    have hdeg := degreeX_eq hv i
    rw [hd]
    rw [if_neg (by simp)]
    rw [hd] at hdeg
    simp only [ha] at hdeg ⊢
    rw [sum_fin] at hdeg
    have hdeg' : d = ∑ k ∈ Finset.range g.n, a k + a i := XReal.fin.inj hdeg
    have : ∑ k ∈ (Finset.range g.n).erase i, (XReal.fin (a k)).neg = XReal.fin (∑ k ∈ (Finset.range g.n).erase i, -(a k)) :=
      sum_fin _ _
    rw [this]
    change XReal.fin (d + -a i + ∑ k ∈ (Finset.range g.n).erase i, -(a k)) = XReal.fin (a i)
    congr 1
    rw [Finset.sum_neg_distrib, hdeg', ← Finset.add_sum_erase _ _ (Finset.mem_range.2 hi)]
    ring

/-- **C91** (Laplacian round trip).  The Laplacian matrix of a graph built by the constructor is accepted by the constructor and
gives the graph back, except for the self-loops of vertices of infinite degree, which are lost. -/
theorem C91_laplacian_round_trip {m : SprsMat (XReal K)} (hw : m.WF) {g : Graph (XReal K)} (h : ofMatrixX m = .ok g) :
    ∃ g', ofMatrixX g.laplacianX = .ok g' ∧
      g'.absX = ⟨g.n, fun u v => if u = v ∧ g.degreeX u = .posInf then .fin 0 else g.absX.w u v⟩ := by
  obtain ⟨hv, hW, hp, _⟩ := ofMatrixX_ok hw h
  obtain ⟨l1, l2, l3, l4, l5⟩ := laplacianX_spec hv
  have hrow := fun i (hi : i < g.n) => laplacianX_rowTotal hw h hi
  have hsym : ∀ i j, g.laplacianX.coeff i j = g.laplacianX.coeff j i := by
    intro i j
    by_cases hij : i = j
    · rw [hij]
    · rw [l4, l4, if_neg hij, if_neg (Ne.symm hij), hv.symm]
  have hout : ∀ i, ¬ i < g.n → ∀ j, g.adj.coeff i j = 0 := fun i hi j => hv.wf.coeff_of_rows_le (by rw [hv.rows]; omega) j
  have hc0 : clean (0 : XReal K) = 0 := clean_of_isWeightX (Or.inr ⟨0, rfl, Or.inl rfl⟩)
  by_cases hedge : ∃ i j, i ≠ j ∧ g.adj.coeff i j ≠ 0
  · obtain ⟨u, v, huv, hne⟩ := hedge
    have hneg : ∀ w : XReal K, (XReal.fin epsilon).lt w = true → w.neg.lt (.fin 0) = true := by
      intro w hw
      rcases eps_lt_iff.1 hw with rfl | ⟨a, ha, rfl⟩
      · rfl
      · change (XReal.fin (-a)).lt (.fin 0) = true
        have := epsilon_pos (K := K)
        simp only [XReal.lt, decide_eq_true_eq]
        linarith
    have hst : ∀ j, ∀ e ∈ g.laplacianX.col j, e.1 ≠ j → e.2.lt (.fin 0) = true := by
      intro j e he hej
      obtain ⟨w, hmem⟩ := l5 j e he hej
      have e1 : g.laplacianX.coeff e.1 j = e.2 := Col.coeff_eq_of_mem (l1.sorted j) he
      have e2 : g.adj.coeff e.1 j = w := Col.coeff_eq_of_mem (hv.wf.sorted j) hmem
      rw [← e1, l4, if_neg hej, e2]
      exact hneg w (hp j _ hmem)
    have hcol : ∀ j, j < g.laplacianX.cols →
        (∑ i ∈ Finset.range g.laplacianX.cols, g.laplacianX.coeff i j).lt (.fin 0) = false := by
      intro j hj
      rw [l3] at hj ⊢
      rw [Finset.sum_congr rfl (fun i _ => hsym i j), hrow j hj]
      split_ifs
      · rfl
      · exact not_lt_zero_of_nonneg (.of_isWeightX (hW j j))
    obtain ⟨A, hA⟩ : ∃ A : Nat → Nat → XReal K, ∀ i j, A i j =
        clean (if i = j then ∑ k ∈ Finset.range g.laplacianX.cols, g.laplacianX.coeff i k else (g.laplacianX.coeff i j).neg) :=
      ⟨_, fun _ _ => rfl⟩
    have hA' : ∀ i j, A i j = if i = j ∧ g.degreeX i = .posInf then .fin 0 else g.adj.coeff i j := by
      intro i j
      rw [hA, l3]
      by_cases hij : i = j
      · subst hij
        rw [if_pos rfl]
        by_cases hi : i < g.n
        · rw [hrow i hi]
          by_cases hdi : g.degreeX i = .posInf
          · rw [if_pos hdi, if_pos ⟨rfl, hdi⟩]; rfl
          · rw [if_neg hdi, if_neg (fun h => hdi h.2)]
            exact clean_of_isWeightX (hW i i)
        · have : ∑ k ∈ Finset.range g.n, g.laplacianX.coeff i k = 0 := by
            apply Finset.sum_eq_zero
            intro k _
            exact l1.coeff_of_rows_le (by rw [l2]; omega) k
          rw [this, hc0, hout i hi]
          split_ifs <;> rfl
      · rw [if_neg hij, if_neg (fun h => hij h.1), l4, if_neg hij]
        have : ∀ x : XReal K, x.neg.neg = x := by
          intro x; cases x <;> first | rfl | exact congrArg XReal.fin (neg_neg _)
        rw [this]
        exact clean_of_isWeightX (hW i j)
    obtain ⟨g', e1, _, e3⟩ := (C91_laplacian l1 (by rw [l2, l3]) ⟨u, v, by
      rw [l4, if_neg huv]
      exact hneg _ (hp v _ (Col.mem_of_coeff_ne_zero hne))⟩ A hA).1 ⟨hst, hcol, fun i j => by
        rw [hA', hA', hv.symm i j]
        by_cases hij : i = j
        · subst hij; rfl
        · rw [if_neg (fun h => hij h.1), if_neg (fun h => hij h.1.symm)]⟩
    refine ⟨g', e1, ?_⟩
    rw [e3, l3]
    congr 1
    funext i j
    exact hA' i j
  · have hoff : ∀ i j, i ≠ j → g.adj.coeff i j = 0 := by
      intro i j hij
      by_contra hc
      exact hedge ⟨i, j, hij, hc⟩
    have hco : ∀ i j, clean (g.laplacianX.coeff i j) = (if i = j ∧ g.degreeX i = .posInf then .fin 0 else g.adj.coeff i j) ∧
        (g.laplacianX.coeff i j).lt (.fin 0) = false := by
      intro i j
      by_cases hij : i = j
      · subst hij
        by_cases hi : i < g.n
        · have := hrow i hi
          rw [← Finset.add_sum_erase _ _ (Finset.mem_range.2 hi), Finset.sum_eq_zero (s := (Finset.range g.n).erase i), add_zero] at this
          · rw [this]
            by_cases hdi : g.degreeX i = .posInf
            · rw [if_pos hdi, if_pos ⟨rfl, hdi⟩]; exact ⟨rfl, rfl⟩
            · rw [if_neg hdi, if_neg (fun h => hdi h.2)]
              exact ⟨clean_of_isWeightX (hW i i), not_lt_zero_of_nonneg (.of_isWeightX (hW i i))⟩
          · intro k hk
            rw [l4, if_neg (Ne.symm (Finset.ne_of_mem_erase hk)), hoff i k (Ne.symm (Finset.ne_of_mem_erase hk))]
            exact congrArg XReal.fin neg_zero
        · rw [l4, if_pos rfl, if_neg hi, hout i hi, hc0]
          refine ⟨?_, by simp [XReal.lt, XReal.zero_def]⟩
          split_ifs <;> rfl
      · rw [l4, if_neg hij, if_neg (fun h => hij h.1), hoff i j hij,
          show XReal.neg (0 : XReal K) = 0 from congrArg XReal.fin neg_zero]
        exact ⟨hc0, by simp [XReal.lt, XReal.zero_def]⟩
    obtain ⟨g', e1, _, e3⟩ := (C91_adjacency l1 (by rw [l2, l3]) (fun i j => (hco i j).2)).1 (fun i j => by rw [hsym])
    refine ⟨g', e1, ?_⟩
    rw [e3, l3]
    congr 1
    funext i j
    exact (hco i j).1

/-! ## Agreement with the finite model -/

/-- A graph with finite weights as a graph of `double`s. -/
def Graph.toX (g : Graph K) : Graph (XReal K) := ⟨g.n, g.adj.mapVal XReal.fin, g.selfLoops⟩

theorem ofCols_congr {L : Type} {r c : Nat} {f f' : Nat → Col L} (h : ∀ j, j < c → f j = f' j) :
    SprsMat.ofCols r c f = SprsMat.ofCols r c f' := by
  unfold SprsMat.ofCols
  congr 1
  apply List.map_congr_left
  intro j hj
  exact h j (List.mem_range.1 hj)

theorem Col.update_mapVal (c : Col K) (i : Nat) (h : K → K) (h' : XReal K → XReal K) (hh : ∀ v, h' (.fin v) = .fin (h v)) :
    Col.update i h' (Col.mapVal XReal.fin c) = Col.mapVal XReal.fin (Col.update i h c) := by
  induction c with
  | nil =>
    change [(i, h' (XReal.fin 0))] = [(i, XReal.fin (h 0))]
    rw [hh]
  | cons e c ih =>
    change Col.update i h' ((e.1, XReal.fin e.2) :: Col.mapVal XReal.fin c) = _
    unfold Col.update
    by_cases h1 : i < e.1
    · rw [if_pos h1, if_pos h1]
      change (i, h' (XReal.fin 0)) :: _ = (i, XReal.fin (h 0)) :: _
      rw [hh]; rfl
    · rw [if_neg h1, if_neg h1]
      by_cases h2 : i = e.1
      · rw [if_pos h2, if_pos h2, hh]; rfl
      · rw [if_neg h2, if_neg h2, ih]; rfl

theorem update_mapVal {m : SprsMat K} (hm : m.WF) {i j : Nat} (hj : j < m.cols) (h : K → K) (h' : XReal K → XReal K)
    (hh : ∀ v, h' (.fin v) = .fin (h v)) :
    (m.mapVal XReal.fin).update i j h' = (m.update i j h).mapVal XReal.fin := by
  unfold SprsMat.update
  rw [SprsMat.mapVal]
  apply ofCols_congr
  intro k hk
  have hk' : k < m.cols := hk
  have : (SprsMat.ofCols m.rows m.cols fun j => (m.col j).mapVal XReal.fin).col k = (m.col k).mapVal XReal.fin :=
    SprsMat.col_ofCols_lt hk'
  rw [this, SprsMat.col_ofCols_lt hk']
  by_cases hkj : k = j
  · rw [if_pos hkj, if_pos hkj, Col.update_mapVal _ _ _ _ hh]
  · rw [if_neg hkj, if_neg hkj]

theorem prune_mapVal (m : SprsMat K) (p : K → Bool) (p' : XReal K → Bool) (hh : ∀ v, p' (.fin v) = p v) :
    (m.mapVal XReal.fin).prune p' = (m.prune p).mapVal XReal.fin := by
  unfold SprsMat.prune
  rw [SprsMat.mapVal]
  apply ofCols_congr
  intro k hk
  have hk' : k < m.cols := hk
  have : (SprsMat.ofCols m.rows m.cols fun j => (m.col j).mapVal XReal.fin).col k = (m.col k).mapVal XReal.fin :=
    SprsMat.col_ofCols_lt hk'
  rw [this, SprsMat.col_ofCols_lt hk']
  unfold Col.mapVal
  rw [List.filter_map]
  congr 1
  apply List.filter_congr
  intro e _
  exact hh _

theorem coeff_toX {m : SprsMat K} (hm : m.WF) (i j : Nat) : (m.mapVal XReal.fin).coeff i j = .fin (m.coeff i j) :=
  SprsMat.coeff_mapVal hm _ rfl i j

theorem sum_map_fin {α : Type} (l : List α) (f : α → K) : (l.map (fun a => XReal.fin (f a))).sum = .fin ((l.map f).sum) := by
  induction l with
  | nil => rfl
  | cons a l ih => rw [List.map_cons, List.map_cons, List.sum_cons, List.sum_cons, ih]; rfl

theorem rowSum_toX {m : SprsMat K} (hm : m.WF) (i : Nat) : (m.mapVal XReal.fin).rowSum i = .fin (m.rowSum i) := by
  rw [SprsMat.rowSum_eq (SprsMat.wf_mapVal hm _), SprsMat.rowSum_eq hm]
  simp only [coeff_toX hm]
  exact sum_fin _ _

theorem lapToAdjX_toX {m : SprsMat K} (hm : m.WF) (hsq : m.rows = m.cols) :
    lapToAdjX (m.mapVal XReal.fin) = (lapToAdj m).mapVal XReal.fin := by
  unfold lapToAdjX lapToAdj
  have h0 : (m.mapVal XReal.fin).mapVal XReal.neg = (m.mapVal (fun v => -v)).mapVal XReal.fin := by
    unfold SprsMat.mapVal
    apply ofCols_congr
    intro k hk
    have hk' : k < m.cols := hk
    rw [SprsMat.col_ofCols_lt hk', SprsMat.col_ofCols_lt hk']
    unfold Col.mapVal
    rw [List.map_map, List.map_map]
    rfl
  rw [h0]
  change (List.range m.cols).foldl _ _ = _
  have key : ∀ (l : List Nat) (a : SprsMat K), a.WF → (∀ i ∈ l, i < a.cols ∧ i < a.rows) →
      l.foldl (fun a i => a.update i i (fun _ => (m.mapVal XReal.fin).rowSum i)) (a.mapVal XReal.fin) =
      (l.foldl (fun a i => a.update i i (fun _ => m.rowSum i)) a).mapVal XReal.fin := by
    intro l
    induction l with
    | nil => intro a _ _; rfl
    | cons i l ih =>
      intro a ha hl
      have hi := hl i (by simp)
      rw [List.foldl_cons, List.foldl_cons, update_mapVal ha hi.1 (fun _ => m.rowSum i) _ (fun _ => rowSum_toX hm i)]
      exact ih _ (SprsMat.wf_update ha hi.2 _) (fun k hk => by
        rw [SprsMat.cols_update, SprsMat.rows_update]; exact hl k (by simp [hk]))
  refine key _ _ (SprsMat.wf_mapVal hm _) (fun i hi => ?_)
  have hi' := List.mem_range.1 hi
  refine ⟨hi', ?_⟩
  change i < m.rows
  omega

theorem any_range_congr {n : Nat} {f f' : Nat → Bool} (h : ∀ k, k < n → f k = f' k) :
    (List.range n).any f = (List.range n).any f' := by
  rw [Bool.eq_iff_iff]
  simp only [List.any_eq_true, List.mem_range]
  constructor
  · rintro ⟨k, hk, h1⟩; exact ⟨k, hk, by rw [← h k hk]; exact h1⟩
  · rintro ⟨k, hk, h1⟩; exact ⟨k, hk, by rw [h k hk]; exact h1⟩

theorem all_range_congr {n : Nat} {f f' : Nat → Bool} (h : ∀ k, k < n → f k = f' k) :
    (List.range n).all f = (List.range n).all f' := by
  rw [Bool.eq_iff_iff]
  simp only [List.all_eq_true, List.mem_range]
  exact forall₂_congr fun k hk => by rw [h k hk]

/-- **C91** (the finite model is a special case).  On a matrix of finite numbers the constructor does exactly what the model
with exact arithmetic (C01, C02) says, and so do `add_edge`, `remove_edge` and the degree on the resulting graphs. -/
theorem C91_conservative {m : SprsMat K} (hm : m.WF) :
    ofMatrixX (m.mapVal XReal.fin) =
      (match ofMatrix m with | .ok g => .ok g.toX | .throw e => .throw e | .ub => .ub) ∧
    (∀ g : Graph K, g.Valid → (∀ i j (x : K), ∃ g', g.addEdge (i : Nat) (j : Nat) x = .ok g' ∧
        g.toX.addEdgeX i j (.fin x) = g'.toX) ∧
      (∀ i j, ∃ g', g.removeEdge (i : Nat) (j : Nat) = .ok g' ∧ g.toX.removeEdgeX i j = g'.toX) ∧
      (∀ v : Nat, v < g.n → ∃ d, g.degree v = .ok d ∧ g.toX.degreeX v = .fin d)) := by
  have hlt0 : ∀ v : K, (XReal.fin v).lt (.fin 0) = decide (v < 0) := fun _ => rfl
  have heq0 : ∀ v w : K, (XReal.fin v).eq (.fin w) = decide (v = w) := fun v w => by simp [XReal.eq]
  have hself : ∀ (n : Nat) (a : SprsMat K), a.WF → anySelfLoopX n (a.mapVal XReal.fin) = anySelfLoop n a := by
    intro n a ha
    unfold anySelfLoopX anySelfLoop
    apply any_range_congr
    intro k _
    rw [coeff_toX ha, heq0]
    simp
  refine ⟨?_, fun g hv => ⟨fun i j x => ?_, fun i j => ?_, fun v hvn => ?_⟩⟩
  · unfold ofMatrixX ofMatrix
    have hir : (m.mapVal XReal.fin).inRange = true := (SprsMat.wf_mapVal hm _).inRange
    by_cases hsq : m.rows = m.cols
    · have hsq' : (m.mapVal XReal.fin).rows = (m.mapVal XReal.fin).cols := hsq
      rw [if_neg (by rw [hir]; simp [hsq']), if_neg (by rw [hm.inRange]; simp [hsq])]
      have hcol : ∀ k, (m.mapVal XReal.fin).col k = Col.mapVal XReal.fin (m.col k) := SprsMat.col_mapVal hm _
      have h1 : foundNegativeX (m.mapVal XReal.fin) = foundNegative m := by
        unfold foundNegativeX foundNegative
        apply any_range_congr
        intro k _
        rw [hcol]
        unfold Col.mapVal
        rw [List.any_map]
        rfl
      have h2 : positiveOffDiagonalX (m.mapVal XReal.fin) = positiveOffDiagonal m := by
        unfold positiveOffDiagonalX positiveOffDiagonal
        apply any_range_congr
        intro k _
        rw [hcol]
        unfold Col.mapVal
        rw [List.any_map]
        rfl
      have h3 : diagonallyDominantX (m.mapVal XReal.fin) = diagonallyDominant m := by
        unfold diagonallyDominantX diagonallyDominant
        apply all_range_congr
        intro k _
        rw [hcol]
        unfold Col.mapVal
        rw [List.map_map]
        have := sum_map_fin (m.col k) Prod.snd
        rw [show (Prod.snd ∘ fun e : Nat × K => (e.1, XReal.fin e.2)) = fun e => XReal.fin e.2 from rfl, this, hlt0]
      have h4 : adjFromAdjOrLapX (m.mapVal XReal.fin) =
          (match adjFromAdjOrLap m with | .ok a => .ok (a.mapVal XReal.fin) | .throw e => .throw e | .ub => .ub) := by
        unfold adjFromAdjOrLapX adjFromAdjOrLap
        rw [h1, h2, h3, lapToAdjX_toX hm hsq]
        have hpr : ∀ a : SprsMat K, pruneX (a.mapVal XReal.fin) = (a.prune (fun v => decide (epsilon < v))).mapVal XReal.fin :=
          fun a => prune_mapVal a _ _ (fun _ => rfl)
        rw [hpr, hpr]
        cases foundNegative m <;> cases positiveOffDiagonal m <;> cases diagonallyDominant m <;> rfl
      rw [h4]
      cases hadj : adjFromAdjOrLap m with
      | ok a =>
        have ha : a.WF := by
          by_cases c1 : foundNegative m = true
          · by_cases c2 : positiveOffDiagonal m = true
            · simp [adjFromAdjOrLap, c1, c2] at hadj
            · by_cases c3 : diagonallyDominant m = true
              · rw [adjFromAdjOrLap_lap c1 (by simpa using c2) c3] at hadj
                cases hadj
                exact SprsMat.wf_prune (lapToAdj_spec hm hsq).1 _
              · simp [adjFromAdjOrLap, c1, c2, c3] at hadj
          · rw [adjFromAdjOrLap_nonneg (by simpa using c1)] at hadj
            cases hadj
            exact SprsMat.wf_prune hm _
        have h5 : isSymmetricX (a.mapVal XReal.fin) = a.isSymmetric := by
          unfold isSymmetricX SprsMat.isSymmetric
          apply all_range_congr
          intro k _
          rw [SprsMat.col_mapVal ha]
          unfold Col.mapVal
          rw [List.all_map]
          congr 1
          funext e
          change (XReal.fin e.2).eq ((a.mapVal XReal.fin).coeff k e.1) = _
          rw [coeff_toX ha, heq0]
        have h6 : anySelfLoopX (a.mapVal XReal.fin).cols (a.mapVal XReal.fin) = anySelfLoop a.cols a := hself _ a ha
        change (if isSymmetricX (a.mapVal XReal.fin) then _ else _) = _
        rw [h5, h6]
        cases hs : a.isSymmetric
        · simp only [Outcome.bind_ok, hs]; rfl
        · simp only [Outcome.bind_ok, hs]; rfl
      | throw e => rfl
      | ub => rfl
    · have hsq' : ¬ (m.mapVal XReal.fin).rows = (m.mapVal XReal.fin).cols := hsq
      rw [if_pos (Or.inl hsq'), if_pos (Or.inl hsq)]
  · refine ⟨_, by unfold addEdge; rw [if_neg (by omega)], ?_⟩
    obtain ⟨n, hn⟩ : ∃ n, n = max g.n (max i j + 1) := ⟨_, rfl⟩
    have hr : g.adj.rows ≤ n := by rw [hv.rows]; omega
    have hc : g.adj.cols ≤ n := by rw [hv.cols]; omega
    have hres : (g.adj.mapVal XReal.fin).conservativeResize n n = (g.adj.conservativeResize n n).mapVal XReal.fin := by
      unfold SprsMat.conservativeResize
      rw [SprsMat.mapVal, SprsMat.mapVal]
      apply ofCols_congr
      intro k hk
      have hcol : (SprsMat.ofCols g.adj.rows g.adj.cols fun j => Col.mapVal XReal.fin (g.adj.col j)).col k =
          Col.mapVal XReal.fin (g.adj.col k) := SprsMat.col_mapVal hv.wf _ k
      rw [hcol, SprsMat.col_ofCols_lt hk]
      unfold Col.mapVal
      rw [List.filter_map]
      rfl
    have w0 : (g.adj.conservativeResize n n).WF := SprsMat.wf_conservativeResize hv.wf n n
    have w1 : ((g.adj.conservativeResize n n).update i j (· + x)).WF :=
      SprsMat.wf_update w0 (by change i < n; omega) _
    have e1 := update_mapVal w0 (i := i) (j := j) (by change j < n; omega) (· + x) (· + XReal.fin x) (fun _ => rfl)
    have e2 := update_mapVal w1 (i := j) (j := i) (by change i < n; omega) (· + x) (· + XReal.fin x) (fun _ => rfl)
    simp only [Int.toNat_natCast, Graph.toX, addEdgeX]
    rw [← hn, hres, e1, e2]
  · by_cases hij : g.n ≤ i ∨ g.n ≤ j
    · refine ⟨g, by unfold removeEdge; rw [if_pos (by omega)], ?_⟩
      unfold removeEdgeX
      exact if_pos hij
    · refine ⟨_, by unfold removeEdge; rw [if_neg (by omega), if_neg (by omega)], ?_⟩
      have w1 : (g.adj.update i j (fun _ => (0 : K))).WF := SprsMat.wf_update hv.wf (by rw [hv.rows]; omega) _
      have w2 : ((g.adj.update i j (fun _ => (0 : K))).update j i (fun _ => (0 : K))).WF :=
        SprsMat.wf_update w1 (by rw [SprsMat.rows_update, hv.rows]; omega) _
      have e1 := update_mapVal hv.wf (i := i) (j := j) (by rw [hv.cols]; omega) (fun _ => 0) (fun _ => XReal.fin 0) (fun _ => rfl)
      have e2 := update_mapVal w1 (i := j) (j := i) (by rw [SprsMat.cols_update, hv.cols]; omega) (fun _ => 0)
        (fun _ => XReal.fin 0) (fun _ => rfl)
      have e3 := prune_mapVal ((g.adj.update i j (fun _ => (0 : K))).update j i (fun _ => (0 : K))) (fun v => decide (v ≠ 0))
        (fun v => !v.eq (.fin 0)) (fun v => by rw [heq0]; simp)
      have e4 := hself g.n _ (SprsMat.wf_prune w2 (fun v => decide (v ≠ 0)))
      simp only [Int.toNat_natCast]
      unfold removeEdgeX
      rw [if_neg (show ¬ (g.toX.n ≤ i ∨ g.toX.n ≤ j) from hij)]
      simp only [Graph.toX]
      rw [e1, e2, e3, e4]
  · refine ⟨_, by unfold degree; rw [checkVertex_ok hvn]; rfl, ?_⟩
    simp only [Int.toNat_natCast]
    unfold degreeX degreeMatrix
    change (g.adj.mapVal XReal.fin).rowSum v + (g.adj.mapVal XReal.fin).coeff v v = _
    rw [rowSum_toX hv.wf, coeff_toX hv.wf, SprsMat.coeff_diag, if_pos ⟨rfl, by rw [hv.cols]; exact hvn⟩]
    rfl

end

/-! ## Examples -/

/-- Vertices 0 to 3; an infinite edge {0,1}, an edge {1,2} of weight 2, a NaN edge {2,3}, a self-loop of weight 1 at 0 and one
of weight 3 at 2. -/
def exX : SprsMat (XReal ℚ) :=
  ⟨4, 4, [[(0, .fin 1), (1, .posInf)], [(0, .posInf), (2, .fin 2)], [(1, .fin 2), (2, .fin 3), (3, .nan)], [(2, .nan)]]⟩

theorem exX_wf : exX.WF := by
  refine ⟨rfl, fun j => ?_⟩
  rcases j with _ | _ | _ | _ | j <;> simp [SprsMat.col, exX, Col.Sorted]

/-- The graph of `exX`. -/
def exGX : Graph (XReal ℚ) :=
  ⟨4, ⟨4, 4, [[(0, .fin 1), (1, .posInf)], [(0, .posInf), (2, .fin 2)], [(1, .fin 2), (2, .fin 3)], []]⟩, true⟩

/-- The constructor drops the NaN edge; the degrees of 0 and 1 are infinite; from the Laplacian matrix the self-loop of vertex
0 is lost and the one of vertex 2 is found again; a NaN self-loop makes the graph differ from itself until it is removed; a
line with NaN makes the edge disappear. -/
theorem C91_example :
    ofMatrixX exX = .ok exGX ∧ (List.range 4).map exGX.degreeX = [.posInf, .posInf, .fin 8, .fin 0] ∧
    ofMatrixX exGX.laplacianX =
      .ok ⟨4, ⟨4, 4, [[(1, .posInf)], [(0, .posInf), (2, .fin 2)], [(1, .fin 2), (2, .fin 3)], []]⟩, true⟩ ∧
    exGX.beqX exGX = true ∧ (exGX.addEdgeX 3 3 .nan).beqX (exGX.addEdgeX 3 3 .nan) = false ∧
    ((exGX.addEdgeX 3 3 .nan).removeEdgeX 3 3).beqX exGX = true ∧
    exGX.addX exGX =
      .ok ⟨4, ⟨4, 4, [[(0, .fin 2), (1, .posInf)], [(0, .posInf), (2, .fin 4)], [(1, .fin 4), (2, .fin 6)], []]⟩, true⟩ ∧
    exGX.smulX (.fin 0) = .ok ⟨4, ⟨4, 4, [[], [], [], []]⟩, false⟩ ∧
    ofEdgesX [⟨0, 1, .fin 1⟩, ⟨1, 0, .nan⟩, ⟨1, 2, .posInf⟩, ⟨2, 1, .fin (1 : ℚ)⟩] =
      .ok ⟨3, ⟨3, 3, [[], [(2, .posInf)], [(1, .posInf)]]⟩, false⟩ := by
  decide +kernel

/-- The hypotheses of C91 are met: `exX` is well formed and accepted, and the edge {2,3} can be made NaN. -/
example : exGX.ValidX ∧ (exGX.addEdgeX 2 3 .nan).absX.w 2 3 = .nan ∧ (exX.coeff 2 3).lt (.fin 0) = false := by
  refine ⟨(ofMatrixX_ok exX_wf C91_example.1).1, ?_, ?_⟩ <;> decide +kernel

end Stag
