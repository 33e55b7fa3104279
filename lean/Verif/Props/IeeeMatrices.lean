import Verif.Props.IeeeLocal
import Verif.Props.RoundingMatrices

/-!
# C115: the derived matrices meet neither underflow nor overflow

The Laplacians, the inverse degrees and the lazy random walk, computed with the arithmetic of IEEE 754, are those of the
theorems on rounded arithmetic (C90), entry by entry and with the same stored pattern.
-/

set_option linter.unusedSectionVars false

namespace Stag

open Finset Graph

set_option exponentiation.threshold 2000

/-! ## Equal functions on the stored entries -/

section congr
variable {K : Type} [Field K] [LinearOrder K]

theorem SprsMat.ofCols_congr {r c : Nat} {f f' : Nat → Col K} (h : ∀ j, f j = f' j) :
    SprsMat.ofCols r c f = SprsMat.ofCols r c f' := by
  rw [funext h]

/-- Every stored entry satisfies `P`. -/
def SprsMat.All (P : K → Prop) (m : SprsMat K) : Prop := ∀ j, ∀ e ∈ m.col j, P e.2

theorem SprsMat.all_ofCols {P : K → Prop} {r c : Nat} {f : Nat → Col K} (h : ∀ j, ∀ e ∈ f j, P e.2) :
    (SprsMat.ofCols r c f).All P := by
  intro j e he
  rw [SprsMat.col_ofCols] at he
  split_ifs at he
  · exact h j e he
  · cases he

theorem merge_spec {P P' Q : K → Prop} {f f' : K → K → K} (h0 : P 0) (h0' : P' 0)
    (h : ∀ a b, P a → P' b → f a b = f' a b ∧ Q (f' a b)) : ∀ c d : Col K, (∀ e ∈ c, P e.2) → (∀ e ∈ d, P' e.2) →
    Col.merge f c d = Col.merge f' c d ∧ ∀ e ∈ Col.merge f' c d, Q e.2 := by
  intro c
  induction c with
  | nil =>
    intro d _ hd
    unfold Col.merge
    refine ⟨List.map_congr_left fun e he => by rw [(h 0 e.2 h0 (hd e he)).1], fun e he => ?_⟩
    obtain ⟨e', he', rfl⟩ := List.mem_map.1 he
    exact (h 0 e'.2 h0 (hd e' he')).2
  | cons x c ih =>
    obtain ⟨r, v⟩ := x
    intro d hc
    have hv : P v := hc (r, v) (by simp)
    have hc' : ∀ e ∈ c, P e.2 := fun e he => hc e (by simp [he])
    induction d with
    | nil =>
      intro hd
      obtain ⟨a1, a2⟩ := ih [] hc' hd
      simp only [Col.merge, Col.mergeGo]
      rw [(h v 0 hv h0').1, a1]
      refine ⟨rfl, fun e he => ?_⟩
      rcases List.mem_cons.1 he with rfl | he
      · exact (h v 0 hv h0').2
      · exact a2 e he
    | cons y d ihd =>
      obtain ⟨s, w⟩ := y
      intro hd
      have hw : P' w := hd (s, w) (by simp)
      have hd' : ∀ e ∈ d, P' e.2 := fun e he => hd e (by simp [he])
      obtain ⟨a1, a2⟩ := ih ((s, w) :: d) hc' hd
      obtain ⟨b1, b2⟩ := ih d hc' hd'
      obtain ⟨c1, c2⟩ := ihd hd'
      simp only [Col.merge] at c1 c2
      simp only [Col.merge, Col.mergeGo]
      rw [(h v 0 hv h0').1, (h 0 w h0 hw).1, (h v w hv hw).1, a1, b1, c1]
      refine ⟨rfl, fun e he => ?_⟩
      split_ifs at he
      · rcases List.mem_cons.1 he with rfl | he
        · exact (h v 0 hv h0').2
        · exact a2 e he
      · rcases List.mem_cons.1 he with rfl | he
        · exact (h 0 w h0 hw).2
        · exact c2 e he
      · rcases List.mem_cons.1 he with rfl | he
        · exact (h v w hv hw).2
        · exact b2 e he

theorem zipWith_spec {P P' Q : K → Prop} {f f' : K → K → K} (h0 : P 0) (h0' : P' 0)
    (h : ∀ a b, P a → P' b → f a b = f' a b ∧ Q (f' a b)) {A B : SprsMat K} (hA : A.All P) (hB : B.All P') :
    SprsMat.zipWith f A B = SprsMat.zipWith f' A B ∧ (SprsMat.zipWith f' A B).All Q := by
  unfold SprsMat.zipWith
  exact ⟨SprsMat.ofCols_congr fun j => (merge_spec h0 h0' h _ _ (hA j) (hB j)).1,
    SprsMat.all_ofCols fun j => (merge_spec h0 h0' h _ _ (hA j) (hB j)).2⟩

/-- Maps of the stored entries. -/
theorem mapEntries_spec {P Q : K → Prop} {f f' : Nat → Nat → K → K} {m : SprsMat K}
    (h : ∀ i j a, P a → f i j a = f' i j a ∧ Q (f' i j a)) (hm : m.All P) :
    SprsMat.ofCols m.rows m.cols (fun j => (m.col j).map (fun e => (e.1, f e.1 j e.2))) =
      SprsMat.ofCols m.rows m.cols (fun j => (m.col j).map (fun e => (e.1, f' e.1 j e.2))) ∧
    (SprsMat.ofCols m.rows m.cols (fun j => (m.col j).map (fun e => (e.1, f' e.1 j e.2)))).All Q := by
  refine ⟨SprsMat.ofCols_congr fun j => List.map_congr_left fun e he => by rw [(h e.1 j e.2 (hm j e he)).1],
    SprsMat.all_ofCols fun j e he => ?_⟩
  obtain ⟨e', he', rfl⟩ := List.mem_map.1 he
  exact (h e'.1 j e'.2 (hm j e' he')).2

theorem all_diag {P : K → Prop} {n : Nat} {d : Nat → K} (h : ∀ i, P (d i)) : (SprsMat.diag n d).All P :=
  SprsMat.all_ofCols fun j e he => by
    rw [List.mem_singleton] at he
    rw [he]
    exact h j

end congr

/-! ## The matrices -/

theorem WFits.nonneg {K : Type} [Field K] [LinearOrder K] [IsStrictOrderedRing K] [FloorRing K] {w : K} (h : WFits w) : 0 ≤ w := by
  rcases h with h | ⟨_, h, _⟩
  · rw [h]
  · exact le_trans (by positivity) h

section
variable {K : Type} [Field K] [LinearOrder K] [IsStrictOrderedRing K] [FloorRing K] {g : Graph K}

theorem stored_wfits (hv : g.Valid) (hw : ∀ u v, WFits (g.abs.w u v)) : g.adj.All WFits := by
  intro j e he
  have h1 : g.abs.w e.1 j = e.2 := Col.coeff_eq_of_mem (hv.wf.sorted j) (r := e.1) (v := e.2) he
  rw [← h1]
  exact hw e.1 j

theorem degFl_ieee' (ovf : K → K) (hv : g.Valid) (hw : ∀ u v, WFits (g.abs.w u v)) (hn : g.n < 2 ^ 52) (v : Nat) :
    g.degFl (flIEEE ovf) v = g.degFl (flBin 53) v ∧ Amount (-87) 100 (2 ^ 52) (g.degFl (flBin 53) v) := by
  have h := degFl_ieee ovf (g := g) (v := v) (fun c => hw v c) (by rw [hv.cols]; omega)
  refine ⟨h.1, h.2.mono ?_⟩
  rw [hv.cols]
  omega

theorem degreeMatrix_ieee (ovf : K → K) (hv : g.Valid) (hw : ∀ u v, WFits (g.abs.w u v)) (hn : g.n < 2 ^ 52) :
    g.degreeMatrixFl (flIEEE ovf) = g.degreeMatrixFl (flBin 53) ∧
    (g.degreeMatrixFl (flBin 53)).All (Amount (-87) 100 (2 ^ 52)) ∧
    ∀ i, Amount (-87) 100 (2 ^ 52) ((g.degreeMatrixFl (flBin 53)).coeff i i) := by
  have h := degFl_ieee' ovf hv hw hn
  unfold Graph.degreeMatrixFl
  refine ⟨by rw [funext fun v => (h v).1], all_diag fun i => (h i).2, fun i => ?_⟩
  rw [SprsMat.coeff_diag]
  split_ifs
  · exact (h i).2
  · exact Amount.zero _

theorem all_amount (hv : g.Valid) (hw : ∀ u v, WFits (g.abs.w u v)) : g.adj.All (Amount (-87) 100 1) :=
  fun j e he => (stored_wfits hv hw j e he).amount

/-- **C115** (Laplacians).  `degree_matrix`, `laplacian` and `signless_laplacian` in IEEE arithmetic. -/
theorem C115_laplacians (ovf : K → K) (hv : g.Valid) (hw : ∀ u v, WFits (g.abs.w u v)) (hn : g.n < 2 ^ 52) :
    g.degreeMatrixFl (flIEEE ovf) = g.degreeMatrixFl (flBin 53) ∧
    g.laplacianFl (flIEEE ovf) = g.laplacianFl (flBin 53) ∧
    g.signlessLaplacianFl (flIEEE ovf) = g.signlessLaplacianFl (flBin 53) := by
  obtain ⟨h1, h2, _⟩ := degreeMatrix_ieee ovf hv hw hn
  refine ⟨h1, ?_, ?_⟩
  · unfold Graph.laplacianFl
    rw [h1]
    exact (zipWith_spec (Q := fun _ => True) (Amount.zero _) (Amount.zero _)
      (fun a b ha hb => ⟨(ha.sub hb).eq (by norm_num) (by norm_num) (by norm_num) ovf, trivial⟩) h2 (all_amount hv hw)).1
  · unfold Graph.signlessLaplacianFl
    rw [h1]
    exact (zipWith_spec (Q := fun _ => True) (Amount.zero _) (Amount.zero _)
      (fun a b ha hb => ⟨(ha.add hb).eq (by norm_num) (by norm_num) (by norm_num) ovf, trivial⟩) h2 (all_amount hv hw)).1

theorem within_one : Within 0 0 (1 : K) := by
  rw [Within, abs_one]
  exact ⟨.inr (by norm_num), by norm_num⟩

theorem within_half : Within (-1) (-1) (1 / 2 : K) := by
  rw [Within, abs_of_pos (by norm_num)]
  exact ⟨.inr (by norm_num), by norm_num⟩

theorem inverse_ieee (ovf : K → K) (hv : g.Valid) (hw : ∀ u v, WFits (g.abs.w u v)) (hn : g.n < 2 ^ 52) :
    g.inverseDegreeFl (flIEEE ovf) = g.inverseDegreeFl (flBin 53) ∧
    ∀ i, Within (-153) 87 ((g.inverseDegreeFl (flBin 53)).coeff i i) := by
  obtain ⟨h1, _, h3⟩ := degreeMatrix_ieee ovf hv hw hn
  have h4 : ∀ i, Within (-153) 87 (1 / (g.degreeMatrixFl (flBin 53)).coeff i i) := fun i => by
    have := within_one.div ((h3 i).within (by norm_num))
    norm_num at this ⊢
    exact this
  unfold Graph.inverseDegreeFl
  rw [h1]
  refine ⟨congrArg _ (funext fun i => (h4 i).eq (by norm_num) (by norm_num) ovf), fun i => ?_⟩
  rw [SprsMat.coeff_diag]
  split_ifs
  · exact (h4 i).flBin
  · exact ⟨.inl rfl, by rw [abs_zero]; positivity⟩

theorem half_map (ovf : K → K) {m : SprsMat K} {a b : Int} (hm : m.All (Within a b)) (ha : -1021 ≤ a) (hb : b ≤ 1000) :
    m.mapVal (fun v => flIEEE ovf (1 / 2 * v)) = m.mapVal (fun v => flBin 53 (1 / 2 * v)) ∧
    (m.mapVal (fun v => flBin 53 (1 / 2 * v))).All (Within (-1 + a) (-1 + b)) := by
  unfold SprsMat.mapVal Col.mapVal
  exact mapEntries_spec (f := fun _ _ v => flIEEE ovf (1 / 2 * v)) (f' := fun _ _ v => flBin 53 (1 / 2 * v))
    (fun i j v hv => ⟨(within_half.mul hv).eq (by omega) (by omega) ovf, (within_half.mul hv).flBin⟩) hm

/-- **C115** (inverse degrees and lazy random walk).  `inverse_degree_matrix` and `lazy_random_walk_matrix` in IEEE
arithmetic, of a graph without isolated vertices (those meet a division by zero: C09, C11). -/
theorem C115_random_walk (ovf : K → K) (hv : g.Valid) (hw : ∀ u v, WFits (g.abs.w u v)) (hn : g.n < 2 ^ 52)
    (_hd : ∀ v, v < g.n → 0 < g.abs.deg v) :
    g.inverseDegreeFl (flIEEE ovf) = g.inverseDegreeFl (flBin 53) ∧
    g.lazyRandomWalkFl (flIEEE ovf) = g.lazyRandomWalkFl (flBin 53) := by
  obtain ⟨h1, h2⟩ := inverse_ieee ovf hv hw hn
  refine ⟨h1, ?_⟩
  have hI := half_map ovf (m := SprsMat.diag g.n (fun _ => (1 : K))) (all_diag fun _ => within_one) (by norm_num) (by norm_num)
  have hA := half_map ovf (m := g.adj) (fun j e he => (all_amount hv hw j e he).within_one) (by norm_num) (by norm_num)
  unfold Graph.lazyRandomWalkFl
  rw [h1, hI.1, hA.1]
  have hW := mapEntries_spec (P := Within (-1 + -87) (-1 + 100)) (Q := Amount (-294) 187 1)
    (f := fun _ j v => flIEEE ovf (v * (g.inverseDegreeFl (flBin 53)).coeff j j))
    (f' := fun _ j v => flBin 53 (v * (g.inverseDegreeFl (flBin 53)).coeff j j))
    (fun i j v h => by
      have h3 := h.mul (h2 j)
      exact ⟨h3.eq (by norm_num) (by norm_num) ovf, h3.amount.coarse (by norm_num) (by norm_num)⟩) hA.2
  have e : ∀ fl : K → K, (g.adj.mapVal (fun v => flBin 53 (1 / 2 * v))).mulDiagFl fl
      (fun j => (g.inverseDegreeFl (flBin 53)).coeff j j) =
      SprsMat.ofCols (g.adj.mapVal (fun v => flBin 53 (1 / 2 * v))).rows (g.adj.mapVal (fun v => flBin 53 (1 / 2 * v))).cols
        (fun j => ((g.adj.mapVal (fun v => flBin 53 (1 / 2 * v))).col j).map
          (fun e => (e.1, fl (e.2 * (g.inverseDegreeFl (flBin 53)).coeff j j)))) := fun _ => rfl
  rw [e, e, hW.1]
  have hI2 : ((SprsMat.diag g.n (fun _ => (1 : K))).mapVal (fun v => flBin 53 (1 / 2 * v))).All (Amount (-294) 187 1) := by
    unfold SprsMat.mapVal Col.mapVal
    refine (mapEntries_spec (P := Within 0 0) (f := fun _ _ v => flBin 53 (1 / 2 * v)) (f' := fun _ _ v => flBin 53 (1 / 2 * v))
      (fun i j v hv => ⟨rfl, ?_⟩) (all_diag fun _ => within_one)).2
    exact (within_half.mul hv).amount.coarse (by norm_num) (by norm_num)
  exact (zipWith_spec (Q := fun _ => True) (Amount.zero _) (Amount.zero _)
    (fun a b ha hb => ⟨(ha.add hb).eq (by norm_num) (by norm_num) (by norm_num) ovf, trivial⟩) hI2 hW.2).1

end

section
variable {g : Graph ℝ}

theorem within_sqrt {x : ℝ} (h0 : 0 ≤ x) (h : Within (-88) 154 x) : Within (-44) 77 (√x) := by
  obtain ⟨h1, h2⟩ := h
  rw [abs_of_nonneg h0] at h1 h2
  rw [Within, abs_of_nonneg (Real.sqrt_nonneg x)]
  have e : ∀ k : Int, √((2 : ℝ) ^ (k + k)) = 2 ^ k := fun k => by
    rw [zpow_add₀ (by norm_num), Real.sqrt_mul_self (by positivity)]
  constructor
  · rcases h1 with h1 | h1
    · exact .inl (by rw [h1, Real.sqrt_zero])
    · right
      have := Real.sqrt_le_sqrt h1
      rwa [show (-88 : Int) = -44 + -44 by norm_num, e] at this
  · have := Real.sqrt_le_sqrt h2
    rwa [show (154 : Int) = 77 + 77 by norm_num, e] at this

theorem degFl_nonneg (hv : g.Valid) (hw : ∀ u v, WFits (g.abs.w u v)) (i : Nat) :
    0 ≤ (g.degreeMatrixFl (flBin 53)).coeff i i := by
  have hw0 : ∀ u v, 0 ≤ g.abs.w u v := by
    intro u v
    rcases hw u v with h | ⟨_, h, _⟩
    · rw [h]
    · exact le_trans (by positivity) h
  by_cases hi : i < g.n
  · have := (C77_degree (R := KMeans.dbl ℝ) hv hw0 hi).2.x0
    unfold Graph.degreeMatrixFl
    rw [SprsMat.coeff_diag, hv.cols, if_pos ⟨rfl, hi⟩]
    exact this
  · unfold Graph.degreeMatrixFl
    rw [SprsMat.coeff_diag, hv.cols, if_neg (by tauto)]

theorem invSqrt_ieee (ovf : ℝ → ℝ) (hv : g.Valid) (hw : ∀ u v, WFits (g.abs.w u v)) (hn : g.n < 2 ^ 52) (i : Nat) :
    g.invSqrtDegFl (flIEEE ovf) Real.sqrt i = g.invSqrtDegFl (flBin 53) Real.sqrt i ∧
    Within (-77) 44 (g.invSqrtDegFl (flBin 53) Real.sqrt i) := by
  obtain ⟨h1, _, h3⟩ := degreeMatrix_ieee ovf hv hw hn
  have h4 : Within (-88) 154 ((g.degreeMatrixFl (flBin 53)).coeff i i) := by
    obtain ⟨a1, a2⟩ := (h3 i).within (by norm_num)
    refine ⟨a1.imp_right fun h => le_trans (zpow_le_zpow_right₀ one_le_two (by norm_num)) h,
      a2.trans (zpow_le_zpow_right₀ one_le_two (by norm_num))⟩
  have h5 := within_sqrt (degFl_nonneg hv hw i) h4
  have h6 := within_one.div h5.flBin
  norm_num only at h6
  unfold Graph.invSqrtDegFl
  rw [h1, h5.eq (by norm_num) (by norm_num) ovf, h6.eq (by norm_num) (by norm_num) ovf]
  exact ⟨rfl, h6.flBin⟩

theorem normAdj_ieee (ovf : ℝ → ℝ) (hv : g.Valid) (hw : ∀ u v, WFits (g.abs.w u v)) (hn : g.n < 2 ^ 52) :
    g.normAdjFl (flIEEE ovf) Real.sqrt = g.normAdjFl (flBin 53) Real.sqrt ∧
    (g.normAdjFl (flBin 53) Real.sqrt).All (Amount (-294) 188 1) := by
  have hs := invSqrt_ieee ovf hv hw hn
  have h1 := mapEntries_spec (P := Within (-87) 100) (Q := Within (-77 + -87) (44 + 100)) (m := g.adj)
    (f := fun i _ v => flIEEE ovf (g.invSqrtDegFl (flIEEE ovf) Real.sqrt i * v))
    (f' := fun i _ v => flBin 53 (g.invSqrtDegFl (flBin 53) Real.sqrt i * v))
    (fun i j v h => by
      have h3 := (hs i).2.mul h
      beta_reduce
      rw [(hs i).1]
      exact ⟨h3.eq (by norm_num) (by norm_num) ovf, h3.flBin⟩) (fun j e he => (all_amount hv hw j e he).within_one)
  have e1 : ∀ fl : ℝ → ℝ, SprsMat.diagMulFl fl (g.invSqrtDegFl fl Real.sqrt) g.adj =
    SprsMat.ofCols g.adj.rows g.adj.cols (fun j => (g.adj.col j).map (fun e => (e.1, fl (g.invSqrtDegFl fl Real.sqrt e.1 * e.2)))) :=
    fun _ => rfl
  unfold Graph.normAdjFl
  rw [e1, e1, h1.1]
  obtain ⟨B, hB⟩ : ∃ B, B = SprsMat.ofCols g.adj.rows g.adj.cols
    (fun j => (g.adj.col j).map (fun e => (e.1, flBin 53 (g.invSqrtDegFl (flBin 53) Real.sqrt e.1 * e.2)))) := ⟨_, rfl⟩
  have h2 := h1.2
  rw [← hB] at h2 ⊢
  exact mapEntries_spec (Q := Amount (-294) 188 1) (m := B)
    (f := fun _ j v => flIEEE ovf (v * g.invSqrtDegFl (flIEEE ovf) Real.sqrt j))
    (f' := fun _ j v => flBin 53 (v * g.invSqrtDegFl (flBin 53) Real.sqrt j))
    (fun i j v h => by
      have h3 := h.mul (hs j).2
      beta_reduce
      rw [(hs j).1]
      exact ⟨h3.eq (by norm_num) (by norm_num) ovf, h3.amount.coarse (by norm_num) (by norm_num)⟩) h2

/-- **C115** (normalised Laplacians).  `normalised_laplacian` and `normalised_signless_laplacian` in IEEE arithmetic, of a
graph without isolated vertices. -/
theorem C115_normalised (ovf : ℝ → ℝ) (hv : g.Valid) (hw : ∀ u v, WFits (g.abs.w u v)) (hn : g.n < 2 ^ 52)
    (_hd : ∀ v, v < g.n → 0 < g.abs.deg v) :
    g.normLaplacianFl (flIEEE ovf) Real.sqrt = g.normLaplacianFl (flBin 53) Real.sqrt ∧
    g.normSignlessLaplacianFl (flIEEE ovf) Real.sqrt = g.normSignlessLaplacianFl (flBin 53) Real.sqrt := by
  obtain ⟨h1, h2⟩ := normAdj_ieee ovf hv hw hn
  have h3 : (SprsMat.diag g.n (fun _ => (1 : ℝ))).All (Amount (-294) 188 1) := all_diag fun _ => by
    have h := (within_one (K := ℝ)).amount.coarse (e' := -294) (t' := 188) (by norm_num) (by norm_num)
    have e : flBin 53 (1 : ℝ) = 1 := by exact_mod_cast flBin_nat_le (K := ℝ) (m := 1) (by norm_num)
    rwa [e] at h
  unfold Graph.normLaplacianFl Graph.normSignlessLaplacianFl
  rw [h1]
  exact ⟨(zipWith_spec (Q := fun _ => True) (Amount.zero _) (Amount.zero _)
      (fun a b ha hb => ⟨(ha.sub hb).eq (by norm_num) (by norm_num) (by norm_num) ovf, trivial⟩) h3 h2).1,
    (zipWith_spec (Q := fun _ => True) (Amount.zero _) (Amount.zero _)
      (fun a b ha hb => ⟨(ha.add hb).eq (by norm_num) (by norm_num) (by norm_num) ovf, trivial⟩) h3 h2).1⟩

/-- **C115** (accuracy).  So the entries of the computed normalised Laplacian of a graph without self-loops and isolated
vertices, in IEEE arithmetic, are those of C90: ones on the diagonal, and off the diagonal a relative error of at most
`d/2 + d'/2 + 8` roundings. -/
theorem C115_accuracy (ovf : ℝ → ℝ) (hv : g.Valid) (hw : ∀ u v, WFits (g.abs.w u v)) (hn : g.n < 2 ^ 52)
    (hl : ∀ v, g.abs.w v v = 0) (hd : ∀ v, v < g.n → 0 < g.abs.deg v) {u v : Nat} (hu : u < g.n) (hvn : v < g.n) :
    (g.normLaplacianFl (flIEEE ovf) Real.sqrt).coeff v v = 1 ∧
    (u ≠ v → |(g.normLaplacianFl (flIEEE ovf) Real.sqrt).coeff u v + g.abs.w u v / (√(g.abs.deg u) * √(g.abs.deg v))|
        ≤ ((1 / (1 - 2 ^ (-53 : Int))) ^ (nbrCount g.abs u / 2 + nbrCount g.abs v / 2 + 8) - 1) *
          (g.abs.w u v / (√(g.abs.deg u) * √(g.abs.deg v)))) := by
  have hw0 : ∀ u v, 0 ≤ g.abs.w u v := fun u v => (hw u v).nonneg
  have h := C90_normalised (R := Rounding.binary ℝ 53 (by norm_num)) hv (fun x => flBin_neg 53 x)
    (by exact_mod_cast flBin_nat_le (K := ℝ) (m := 1) (by norm_num)) hw0 hl hu hvn
  have e : (Rounding.binary ℝ 53 (by norm_num)).fl = flBin 53 := rfl
  have e2 : (Rounding.binary ℝ 53 (by norm_num)).u = (2 : ℝ) ^ (-53 : Int) := by norm_num [Rounding.binary]
  rw [e, e2] at h
  rw [(C115_normalised ovf hv hw hn hd).1]
  refine ⟨h.1, fun huv => ?_⟩
  obtain ⟨h1, _, h2⟩ := h.2.2 huv
  rw [h1]
  have e3 : ∀ a b : ℝ, -a + b = -(a - b) := fun a b => by ring
  rw [e3, abs_neg]
  exact h2

end

/-! ## Sums, multiples and histories of mutating calls -/

section
variable {K : Type} [Field K] [LinearOrder K] [IsStrictOrderedRing K] [FloorRing K] {g h : Graph K}

theorem addFl_eq (fl : K → K) (hne : g.n = h.n) : g.addFl fl h = ofMatrixFl fl (SprsMat.zipWith (fun a b => fl (a + b)) g.adj h.adj) := by
  unfold Graph.addFl
  rw [if_neg (by simpa using hne)]

/-- **C115** (sums).  `operator+` in IEEE arithmetic. -/
theorem C115_add (ovf : K → K) (hg : g.Valid) (hh : h.Valid) (wg : ∀ u v, WFits (g.abs.w u v))
    (wh : ∀ u v, WFits (h.abs.w u v)) : g.addFl (flIEEE ovf) h = g.addFl (flBin 53) h := by
  by_cases hn : g.n = h.n
  · rw [addFl_eq _ hn, addFl_eq _ hn, (zipWith_spec (Q := fun _ => True) (f := fun a b => flIEEE ovf (a + b))
      (f' := fun a b => flBin 53 (a + b)) (Amount.zero _) (Amount.zero _)
      (fun a b ha hb => ⟨(ha.add hb).eq (by norm_num) (by norm_num) (by norm_num) ovf, trivial⟩) (all_amount hg wg)
      (all_amount hh wh)).1]
    have hwf : (SprsMat.zipWith (fun a b => flBin 53 (a + b)) g.adj h.adj).WF :=
      SprsMat.wf_zipWith hg.wf hh.wf (by rw [hg.rows, hh.rows, hn]) _
    have hnn : ∀ i j, 0 ≤ (SprsMat.zipWith (fun a b => flBin 53 (a + b)) g.adj h.adj).coeff i j := fun i j => by
      rw [SprsMat.coeff_zipWith hg.wf hh.wf (by rw [hg.cols, hh.cols, hn]) _ (by simp [flBin_zero])]
      exact Rounding.fl_nonneg (R := KMeans.dbl K) (add_nonneg (wg i j).nonneg (wh i j).nonneg)
    rw [ofMatrixFl_nonneg hwf hnn, ofMatrixFl_nonneg hwf hnn]
  · unfold Graph.addFl
    rw [if_pos hn, if_pos hn]

/-- **C115** (multiples).  `operator*` with a scalar between `2^-900` and `2^900` in IEEE arithmetic. -/
theorem C115_scale (ovf : K → K) (hg : g.Valid) (wg : ∀ u v, WFits (g.abs.w u v)) {c : K} (hc : 2 ^ (-900 : Int) ≤ c)
    (hc2 : c ≤ 2 ^ (900 : Int)) : g.smulFl (flIEEE ovf) c = g.smulFl (flBin 53) c := by
  have hc0 : 0 ≤ c := le_trans (by positivity) hc
  have hcw : Within (-900) 900 c := by
    rw [Within, abs_of_nonneg hc0]
    exact ⟨.inr hc, hc2⟩
  have h1 : g.adj.mapVal (fun v => flIEEE ovf (c * v)) = g.adj.mapVal (fun v => flBin 53 (c * v)) := by
    unfold SprsMat.mapVal Col.mapVal
    exact (mapEntries_spec (Q := fun _ => True) (f := fun _ _ v => flIEEE ovf (c * v)) (f' := fun _ _ v => flBin 53 (c * v))
      (fun i j v hv => ⟨(hcw.mul hv).eq (by norm_num) (by norm_num) ovf, trivial⟩)
      (fun j e he => (all_amount hg wg j e he).within_one)).1
  have hwf : (g.adj.mapVal (fun v => flBin 53 (c * v))).WF := SprsMat.wf_mapVal hg.wf _
  have hnn : ∀ i j, 0 ≤ (g.adj.mapVal (fun v => flBin 53 (c * v))).coeff i j := fun i j => by
    rw [SprsMat.coeff_mapVal hg.wf _ (by rw [mul_zero, flBin_zero])]
    exact Rounding.fl_nonneg (R := KMeans.dbl K) (mul_nonneg hc0 (wg i j).nonneg)
  unfold Graph.smulFl
  rw [h1, ofMatrixFl_nonneg hwf hnn, ofMatrixFl_nonneg hwf hnn]

theorem colUpdate_spec {P Q : K → Prop} {f f' : K → K} (h0 : P 0) (hPQ : ∀ a, P a → Q a)
    (h : ∀ a, P a → f a = f' a ∧ Q (f' a)) (i : Nat) : ∀ c : Col K, (∀ e ∈ c, P e.2) →
    Col.update i f c = Col.update i f' c ∧ ∀ e ∈ Col.update i f' c, Q e.2 := by
  intro c
  induction c with
  | nil =>
    intro _
    unfold Col.update
    rw [(h 0 h0).1]
    refine ⟨rfl, fun e he => ?_⟩
    rw [List.mem_singleton] at he
    rw [he]
    exact (h 0 h0).2
  | cons x c ih =>
    obtain ⟨r, v⟩ := x
    intro hc
    have hv : P v := hc (r, v) (by simp)
    have hc' : ∀ e ∈ c, P e.2 := fun e he => hc e (by simp [he])
    obtain ⟨a1, a2⟩ := ih hc'
    simp only [Col.update]
    rw [(h 0 h0).1, (h v hv).1, a1]
    refine ⟨rfl, fun e he => ?_⟩
    split_ifs at he
    · rcases List.mem_cons.1 he with rfl | he
      · exact (h 0 h0).2
      · exact hPQ _ (hc e he)
    · rcases List.mem_cons.1 he with rfl | he
      · exact (h v hv).2
      · exact hPQ _ (hc' e he)
    · rcases List.mem_cons.1 he with rfl | he
      · exact hPQ _ hv
      · exact a2 e he

theorem update_spec {P Q : K → Prop} {f f' : K → K} (h0 : P 0) (hPQ : ∀ a, P a → Q a)
    (h : ∀ a, P a → f a = f' a ∧ Q (f' a)) (i j : Nat) {m : SprsMat K} (hm : m.All P) :
    m.update i j f = m.update i j f' ∧ (m.update i j f').All Q := by
  unfold SprsMat.update
  refine ⟨SprsMat.ofCols_congr fun k => ?_, SprsMat.all_ofCols fun k => ?_⟩
  · split_ifs
    · exact (colUpdate_spec h0 hPQ h i _ (hm k)).1
    · rfl
  · split_ifs
    · exact (colUpdate_spec h0 hPQ h i _ (hm k)).2
    · exact fun e he => hPQ _ (hm k e he)

theorem stepFl_ieee (ovf : K → K) {k : Nat} (hk : k + 2 ≤ 2 ^ 53) (hm : g.adj.All (Amount (-87) 100 k)) (op : GOp K)
    (hx : ∀ i j x, op = GOp.add i j x → WFits x) :
    g.stepFl (flIEEE ovf) op = g.stepFl (flBin 53) op ∧
    ∀ g', g.stepFl (flBin 53) op = .ok g' → g'.adj.All (Amount (-87) 100 (k + 2)) := by
  cases op with
  | add i j x =>
    have hxa := (hx i j x rfl).amount
    unfold Graph.stepFl Graph.addEdgeFl
    simp only [Int.toNat_natCast]
    split_ifs
    · exact ⟨rfl, fun g' h => by cases h⟩
    all_goals
      obtain ⟨B, hB⟩ : ∃ B, B = g.adj.conservativeResize (max g.n (max i j + 1)) (max g.n (max i j + 1)) :=
        ⟨_, rfl⟩
      have h1 : B.All (Amount (-87) 100 k) := by
        rw [hB]
        exact SprsMat.all_ofCols fun c e he => hm c e (List.mem_filter.1 he).1
      have step : ∀ l, l + 1 ≤ 2 ^ 53 → ∀ a, Amount (-87) 100 l a →
          flIEEE ovf (a + x) = flBin 53 (a + x) ∧ Amount (-87) 100 (l + 1) (flBin 53 (a + x)) := fun l hl a ha =>
        ⟨(ha.add hxa).eq hl (by norm_num) (by norm_num) ovf, (ha.add hxa).flBin hl⟩
      obtain ⟨a1, a2⟩ := update_spec (f := fun v => flIEEE ovf (v + x)) (f' := fun v => flBin 53 (v + x)) (Amount.zero k)
        (fun a ha => ha.mono (Nat.le_succ k)) (step k (by omega)) i j h1
      obtain ⟨b1, b2⟩ := update_spec (f := fun v => flIEEE ovf (v + x)) (f' := fun v => flBin 53 (v + x)) (Amount.zero (k + 1))
        (fun a ha => ha.mono (Nat.le_succ (k + 1))) (step (k + 1) (by omega)) j i a2
      rw [← hB, a1, b1]
      refine ⟨rfl, fun g' h => ?_⟩
      cases h
      exact b2
  | remove i j =>
    refine ⟨rfl, fun g' h => ?_⟩
    change g.removeEdge i j = .ok g' at h
    unfold Graph.removeEdge at h
    have hm' : g.adj.All (Amount (-87) 100 (k + 2)) := fun c e he => (hm c e he).mono (by omega)
    split_ifs at h
    · cases h
      exact hm'
    all_goals
      cases h
      have hz := fun i j (m : SprsMat K) (hm : m.All (Amount (-87) 100 (k + 2))) =>
        (update_spec (P := Amount (-87) 100 (k + 2)) (f := fun _ : K => 0) (f' := fun _ : K => 0) (Amount.zero _) (fun a ha => ha)
        (fun a _ => ⟨rfl, Amount.zero _⟩) i j hm).2
      exact SprsMat.all_ofCols fun c e he => hz _ _ _ (hz _ _ _ hm') c e (List.mem_filter.1 he).1

/-- **C115** (histories).  A history of fewer than `2^52` calls of `add_edge` and `remove_edge`, adding weights in the range, in
IEEE arithmetic. -/
theorem C115_history (ovf : K → K) (ops : List (GOp K)) (hx : ∀ i j x, GOp.add i j x ∈ ops → WFits x) {g : Graph K}
    (hv : g.Valid) (hw : ∀ u v, WFits (g.abs.w u v)) (hl : ops.length < 2 ^ 52) :
    g.runFl (flIEEE ovf) ops = g.runFl (flBin 53) ops := by
  have key : ∀ (ops : List (GOp K)), (∀ i j x, GOp.add i j x ∈ ops → WFits x) → ∀ (k : Nat) (g : Graph K),
      g.adj.All (Amount (-87) 100 k) → k + 2 * ops.length ≤ 2 ^ 53 → g.runFl (flIEEE ovf) ops = g.runFl (flBin 53) ops := by
    intro ops
    induction ops with
    | nil => intro _ k g _ _; rfl
    | cons op ops ih =>
      intro hx k g hm hk
      rw [List.length_cons] at hk
      obtain ⟨h1, h2⟩ := stepFl_ieee ovf (k := k) (by omega) hm op (fun i j x h => hx i j x (by rw [h]; simp))
      unfold Graph.runFl
      rw [h1]
      cases hs : g.stepFl (flBin 53) op with
      | ok g' => exact ih (fun i j x h => hx i j x (by simp [h])) (k + 2) g' (h2 g' hs) (by omega)
      | _ => rfl
  exact key ops hx 1 g (all_amount hv hw) (by omega)

/-- A graph with an edge (of weight 3) that meets the hypotheses of the theorems of C115. -/
theorem C115_nonvacuous : ∃ g : Graph ℝ, g.Reachable ∧ g.Valid ∧ g.n = 2 ∧ g.abs.w 0 1 = 3 ∧ (∀ u v, WFits (g.abs.w u v)) ∧
    (∀ v, g.abs.w v v = 0) ∧ ∀ v, v < g.n → 0 < g.abs.deg v := by
  obtain ⟨g, hr, ha⟩ := exists_graph 2 (fun u v => if u < 2 ∧ v < 2 ∧ u ≠ v then 3 else 0)
    (fun i j => by
      by_cases h : i < 2 ∧ j < 2 ∧ i ≠ j
      · rw [if_pos h, if_pos ⟨h.2.1, h.1, h.2.2.symm⟩]
      · rw [if_neg h, if_neg (by tauto)])
    (fun i j => by
      by_cases h : i < 2 ∧ j < 2 ∧ i ≠ j
      · right; rw [if_pos h]; unfold epsilon; norm_num
      · left; rw [if_neg h])
    (fun i j h => if_neg (by tauto))
  have hw : ∀ u v, g.abs.w u v = if u < 2 ∧ v < 2 ∧ u ≠ v then 3 else 0 := fun u v => by rw [ha]
  have hn : g.n = 2 := congrArg WGraph.n ha
  have h3 : IsFloat 53 (3 : ℝ) := by
    have h : flBin 53 (3 : ℝ) = 3 := by exact_mod_cast flBin_nat_le (K := ℝ) (m := 3) (by norm_num)
    rw [← h]
    exact flBin_isFloat (by norm_num) _
  refine ⟨g, hr, hr.valid, hn, by rw [hw]; norm_num, ?_, fun v => by rw [hw]; simp, ?_⟩
  · intro u v
    rw [hw]
    split_ifs
    · exact .inr ⟨h3, by norm_num, by norm_num⟩
    · exact .inl rfl
  · intro v hv
    rw [hn] at hv
    unfold WGraph.deg
    rw [show g.abs.n = 2 from hn, Finset.sum_range_succ, Finset.sum_range_one, hw, hw, hw]
    interval_cases v <;> norm_num

end
end Stag
