import Verif.RoundingMatrices
import Verif.Props.RoundingGraph
import Verif.Props.RoundingKde
import Verif.Props.Laplacian
import Verif.Props.RoundingIndex
import Verif.Props.CheegerExamples

/-!
# C90: derived matrices, graph arithmetic and edge mutation in doubles
-/

set_option linter.unusedSectionVars false

namespace Stag

open Graph

/-- The number of neighbours of a vertex. -/
def nbrCount {K : Type} [Field K] [DecidableEq K] (s : WGraph K) (v : Nat) : Nat :=
  ((Finset.range s.n).filter (fun u => s.w v u ≠ 0)).card

section
variable {K : Type} [Field K] [LinearOrder K] [IsStrictOrderedRing K] {R : Rounding K}

/-! ## Products with diagonal matrices -/

theorem wf_mapEntries {m : SprsMat K} (h : m.WF) (f : Nat → Nat → K → K) :
    (SprsMat.ofCols m.rows m.cols (fun j => (m.col j).map (fun e => (e.1, f e.1 j e.2)))).WF := by
  apply SprsMat.wf_ofCols
  intro j _
  constructor
  · have := h.sorted j
    unfold Col.Sorted at this ⊢
    rw [List.pairwise_map]
    exact this
  · intro e he
    obtain ⟨x, hx, rfl⟩ := List.mem_map.1 he
    exact h.row_lt (e := x) hx

theorem coeff_mapEntries {m : SprsMat K} (h : m.WF) (f : Nat → Nat → K → K) (h0 : ∀ i j, f i j 0 = 0) (i j : Nat) :
    (SprsMat.ofCols m.rows m.cols (fun j => (m.col j).map (fun e => (e.1, f e.1 j e.2)))).coeff i j
      = f i j (m.coeff i j) := by
  unfold SprsMat.coeff
  rw [SprsMat.col_ofCols_of_nil (fun k hk => by rw [h.col_nil hk]; rfl)]
  exact Col.coeff_mapRow (m.col j) (fun r v => f r j v) (fun i => h0 i j) i

theorem wf_mulDiagFl {m : SprsMat K} (h : m.WF) (d : Nat → K) : (m.mulDiagFl R.fl d).WF :=
  wf_mapEntries h (fun _ j v => R.fl (v * d j))

theorem wf_diagMulFl {m : SprsMat K} (h : m.WF) (d : Nat → K) : (SprsMat.diagMulFl R.fl d m).WF :=
  wf_mapEntries h (fun i _ v => R.fl (d i * v))

theorem coeff_mulDiagFl {m : SprsMat K} (h : m.WF) (d : Nat → K) (i j : Nat) :
    (m.mulDiagFl R.fl d).coeff i j = R.fl (m.coeff i j * d j) :=
  coeff_mapEntries h (fun _ j v => R.fl (v * d j)) (fun i j => by rw [zero_mul, Rounding.fl_zero]) i j

theorem coeff_diagMulFl {m : SprsMat K} (h : m.WF) (d : Nat → K) (i j : Nat) :
    (SprsMat.diagMulFl R.fl d m).coeff i j = R.fl (d i * m.coeff i j) :=
  coeff_mapEntries h (fun i _ v => R.fl (d i * v)) (fun i j => by rw [mul_zero, Rounding.fl_zero]) i j

/-! ## Laplacian and signless Laplacian -/

section derived
variable {g : Graph K} (hv : g.Valid)
include hv

theorem degreeFl_coeff {v : Nat} (h : v < g.n) : (g.degreeMatrixFl R.fl).coeff v v = g.degFl R.fl v := by
  unfold degreeMatrixFl
  rw [SprsMat.coeff_diag, hv.cols, if_pos ⟨rfl, h⟩]

theorem degFl_near (hw : ∀ u v, 0 ≤ g.abs.w u v) {v : Nat} (h : v < g.n) :
    R.Near (nbrCount g.abs v + 1) (g.degFl R.fl v) (g.abs.deg v) := (C77_degree hv hw h).2

theorem signlessFl_coeff (hf : g.FloatWeights R.fl) {i : Nat} (hi : i < g.n) (j : Nat) :
    (g.signlessLaplacianFl R.fl).coeff i j = if i = j then R.fl (g.degFl R.fl i + g.abs.w i i) else g.abs.w i j := by
  unfold signlessLaplacianFl
  rw [SprsMat.coeff_zipWith (degreeFl_wf hv) hv.wf rfl _ (by simp [Rounding.fl_zero])]
  unfold degreeMatrixFl
  rw [SprsMat.coeff_diag, hv.cols]
  by_cases h : i = j
  · subst h
    rw [if_pos ⟨rfl, hi⟩, if_pos rfl]
    rfl
  · rw [if_neg (by tauto), if_neg h, zero_add]
    exact (hf i j).1

/-- **C90** (Laplacians).  With weights that are floating point numbers, the computed Laplacian and signless Laplacian are
symmetric bit for bit, exact off the diagonal, and on the diagonal off by at most `d + 2` roundings relative to the degree,
`d` being the number of neighbours. -/
theorem C90_laplacians (hw : ∀ u v, 0 ≤ g.abs.w u v) (hf : g.FloatWeights R.fl) {u v : Nat} (hu : u < g.n) (hvn : v < g.n) :
    (g.laplacianFl R.fl).coeff u v = (g.laplacianFl R.fl).coeff v u ∧
    (g.signlessLaplacianFl R.fl).coeff u v = (g.signlessLaplacianFl R.fl).coeff v u ∧
    (u ≠ v → (g.laplacianFl R.fl).coeff u v = -g.abs.w u v ∧ (g.signlessLaplacianFl R.fl).coeff u v = g.abs.w u v) ∧
    |(g.laplacianFl R.fl).coeff v v - (g.abs.deg v - g.abs.w v v)|
      ≤ ((1 / (1 - R.u)) ^ (nbrCount g.abs v + 2) - 1) * g.abs.deg v ∧
    |(g.signlessLaplacianFl R.fl).coeff v v - (g.abs.deg v + g.abs.w v v)|
      ≤ ((1 / (1 - R.u)) ^ (nbrCount g.abs v + 2) - 1) * (g.abs.deg v + g.abs.w v v) := by
  have hsym : ∀ a b, g.abs.w a b = g.abs.w b a := hv.symm
  rw [laplacianFl_coeff hv hf hu, laplacianFl_coeff hv hf hvn, signlessFl_coeff hv hf hu, signlessFl_coeff hv hf hvn,
    laplacianFl_coeff hv hf hvn, signlessFl_coeff hv hf hvn, if_pos rfl, if_pos rfl]
  have hn := degFl_near (R := R) hv hw hvn
  refine ⟨?_, ?_, ?_, ?_, ?_⟩
  · by_cases h : u = v
    · subst h; rfl
    · rw [if_neg h, if_neg (Ne.symm h), hv.symm]
  · by_cases h : u = v
    · subst h; rfl
    · rw [if_neg h, if_neg (Ne.symm h), hsym]
  · intro h
    rw [if_neg h, if_neg h]
    exact ⟨rfl, rfl⟩
  · have h1 := hn.abs_sub
    change |g.degFl R.fl v - g.abs.deg v| ≤ ((1 / (1 - R.u)) ^ (nbrCount g.abs v + 1) - 1) * g.abs.deg v at h1
    have h2 := R.err (g.degFl R.fl v - g.adj.coeff v v)
    have hG : (g.degFl R.fl v) ≤ (1 / (1 - R.u)) ^ (nbrCount g.abs v + 1) * g.abs.deg v := hn.le
    have hwv : 0 ≤ g.adj.coeff v v := hw v v
    have hu1 := Rounding.one_sub_pos (R := R)
    obtain ⟨G, hGd⟩ : ∃ G, G = (1 / (1 - R.u)) ^ (nbrCount g.abs v + 1) := ⟨_, rfl⟩
    have hG1 : 1 ≤ G := hGd ▸ Rounding.g_pow_one_le (R := R) _
    rw [pow_succ, ← hGd]
    rw [← hGd] at h1 hG
    have hdeg : g.adj.coeff v v ≤ g.abs.deg v := by
      unfold WGraph.deg
      exact le_add_of_nonneg_left (Finset.sum_nonneg fun i _ => hw v i)
    have hdf : |g.degFl R.fl v - g.adj.coeff v v| ≤ G * g.abs.deg v := by
      rw [abs_le]
      have h0 : 0 ≤ g.degFl R.fl v := hn.x0
      have h3 : 0 ≤ g.abs.deg v := hn.y0
      constructor
      · nlinarith
      · linarith
    change |R.fl (g.degFl R.fl v - g.adj.coeff v v) - (g.abs.deg v - g.adj.coeff v v)| ≤ _
    have h4 : G * (1 / (1 - R.u)) = G + R.u * (G * (1 / (1 - R.u))) := by
      field_simp
      ring
    have h5 : G ≤ G * (1 / (1 - R.u)) := le_mul_of_one_le_right (by linarith) (Rounding.one_le_g (R := R))
    have h6 : R.u * |g.degFl R.fl v - g.adj.coeff v v| ≤ R.u * (G * (1 / (1 - R.u)) * g.abs.deg v) :=
      mul_le_mul_of_nonneg_left (hdf.trans (mul_le_mul_of_nonneg_right h5 hn.y0)) R.u0
    calc |R.fl (g.degFl R.fl v - g.adj.coeff v v) - (g.abs.deg v - g.adj.coeff v v)|
        = |(R.fl (g.degFl R.fl v - g.adj.coeff v v) - (g.degFl R.fl v - g.adj.coeff v v)) + (g.degFl R.fl v - g.abs.deg v)| := by
          congr 1; ring
      _ ≤ _ := abs_add_le _ _
      _ ≤ R.u * (G * (1 / (1 - R.u)) * g.abs.deg v) + (G - 1) * g.abs.deg v := add_le_add (h2.trans h6) h1
      _ = (G + R.u * (G * (1 / (1 - R.u))) - 1) * g.abs.deg v := by ring
      _ = (G * (1 / (1 - R.u)) - 1) * g.abs.deg v := by rw [← h4]
  · exact (hn.add (Rounding.Near.refl (k := nbrCount g.abs v + 1) (hw v v))).fl.abs_sub

/-! ## Inverse degrees and the lazy random walk -/

theorem inverseFl_near (hw : ∀ u v, 0 ≤ g.abs.w u v) {v : Nat} (h : v < g.n) :
    R.Near (nbrCount g.abs v + 2) ((g.inverseDegreeFl R.fl).coeff v v) (1 / g.abs.deg v) := by
  unfold inverseDegreeFl
  rw [SprsMat.coeff_diag, hv.cols, if_pos ⟨rfl, h⟩, degreeFl_coeff hv h]
  have := ((Rounding.Near.refl (R := R) (k := 0) zero_le_one).div (degFl_near (R := R) hv hw h)).fl
  rwa [Nat.zero_add] at this

theorem lazyFl_coeff {u v : Nat} (hvn : v < g.n) :
    (g.lazyRandomWalkFl R.fl).coeff u v = R.fl ((if u = v then R.fl (1 / 2) else 0) +
      R.fl (R.fl (1 / 2 * g.abs.w u v) * (g.inverseDegreeFl R.fl).coeff v v)) := by
  have hm : (g.adj.mapVal (fun v => R.fl (1 / 2 * v))).WF := SprsMat.wf_mapVal hv.wf _
  have h0 : R.fl (1 / 2 * 0) = 0 := by rw [mul_zero, Rounding.fl_zero]
  unfold lazyRandomWalkFl
  rw [SprsMat.coeff_zipWith (SprsMat.wf_mapVal (SprsMat.wf_diag _ _) _) (wf_mulDiagFl hm _) hv.cols.symm _
      (by simp [Rounding.fl_zero]),
    SprsMat.coeff_mapVal (SprsMat.wf_diag _ _) _ h0, SprsMat.coeff_diag, coeff_mulDiagFl hm,
    SprsMat.coeff_mapVal hv.wf _ h0]
  by_cases h : u = v
  · subst h
    rw [if_pos ⟨rfl, hvn⟩, if_pos rfl, mul_one]
    rfl
  · rw [if_neg (by tauto), if_neg h, h0]
    rfl

/-- **C90** (inverse degrees and the lazy random walk).  In a graph without self-loops and isolated vertices the computed
inverse degree of a vertex with `d` neighbours is off by at most `d + 2` roundings; in its column of the computed lazy random
walk matrix the diagonal entry is exactly one half, the other entries are non-negative and off by at most `d + 4` roundings,
and the column sums to one up to `d + 4` roundings of one half. -/
theorem C90_random_walk (hw : ∀ u v, 0 ≤ g.abs.w u v) (hl : ∀ v, g.abs.w v v = 0) (hhalf : R.fl (1 / 2) = 1 / 2)
    {v : Nat} (hvn : v < g.n) (hd : 0 < g.abs.deg v) :
    |(g.inverseDegreeFl R.fl).coeff v v - 1 / g.abs.deg v|
      ≤ ((1 / (1 - R.u)) ^ (nbrCount g.abs v + 2) - 1) * (1 / g.abs.deg v) ∧
    (g.lazyRandomWalkFl R.fl).coeff v v = 1 / 2 ∧
    (∀ u, u ≠ v → 0 ≤ (g.lazyRandomWalkFl R.fl).coeff u v ∧
      |(g.lazyRandomWalkFl R.fl).coeff u v - g.abs.w u v / (2 * g.abs.deg v)|
        ≤ ((1 / (1 - R.u)) ^ (nbrCount g.abs v + 4) - 1) * (g.abs.w u v / (2 * g.abs.deg v))) ∧
    |∑ u ∈ Finset.range g.n, (g.lazyRandomWalkFl R.fl).coeff u v - 1|
      ≤ ((1 / (1 - R.u)) ^ (nbrCount g.abs v + 4) - 1) / 2 := by
  have hinv := inverseFl_near (R := R) hv hw hvn
  have hdiag : (g.lazyRandomWalkFl R.fl).coeff v v = 1 / 2 := by
    rw [lazyFl_coeff hv hvn, if_pos rfl, hl, mul_zero, Rounding.fl_zero, zero_mul, Rounding.fl_zero, add_zero, hhalf, hhalf]
  have hoff : ∀ u, u ≠ v → R.Near (nbrCount g.abs v + 4) ((g.lazyRandomWalkFl R.fl).coeff u v)
      (g.abs.w u v / (2 * g.abs.deg v)) := by
    intro u huv
    rw [lazyFl_coeff hv hvn, if_neg huv, zero_add, R.idem]
    have h1 := (((Rounding.Near.refl (R := R) (k := 0) (mul_nonneg (by norm_num : (0 : K) ≤ 1 / 2) (hw u v))).fl).mul hinv).fl
    have e1 : 0 + 1 + (nbrCount g.abs v + 2) + 1 = nbrCount g.abs v + 4 := by omega
    have e2 : 1 / 2 * g.abs.w u v * (1 / g.abs.deg v) = g.abs.w u v / (2 * g.abs.deg v) := by
      field_simp
    rw [e1, e2] at h1
    exact h1
  refine ⟨hinv.abs_sub, hdiag, fun u huv => ⟨(hoff u huv).x0, (hoff u huv).abs_sub⟩, ?_⟩
  rw [← Finset.add_sum_erase _ _ (Finset.mem_range.2 hvn), hdiag]
  have hsum : ∑ u ∈ (Finset.range g.n).erase v, g.abs.w u v / (2 * g.abs.deg v) = 1 / 2 := by
    rw [← Finset.sum_div]
    have : ∑ u ∈ (Finset.range g.n).erase v, g.abs.w u v = g.abs.deg v := by
      have h1 := Finset.add_sum_erase (Finset.range g.n) (fun u => g.abs.w u v) (Finset.mem_range.2 hvn)
      beta_reduce at h1
      rw [hl, zero_add] at h1
      rw [h1]
      unfold WGraph.deg
      rw [hl, add_zero]
      exact Finset.sum_congr rfl fun u _ => hv.symm u v
    rw [this]
    field_simp
  have key : |∑ u ∈ (Finset.range g.n).erase v, (g.lazyRandomWalkFl R.fl).coeff u v
      - ∑ u ∈ (Finset.range g.n).erase v, g.abs.w u v / (2 * g.abs.deg v)|
      ≤ ((1 / (1 - R.u)) ^ (nbrCount g.abs v + 4) - 1) * ∑ u ∈ (Finset.range g.n).erase v, g.abs.w u v / (2 * g.abs.deg v) := by
    rw [← Finset.sum_sub_distrib, Finset.mul_sum]
    refine (Finset.abs_sum_le_sum_abs _ _).trans (Finset.sum_le_sum fun u hu => ?_)
    exact (hoff u (Finset.ne_of_mem_erase hu)).abs_sub
  rw [hsum] at key
  calc |1 / 2 + ∑ u ∈ (Finset.range g.n).erase v, (g.lazyRandomWalkFl R.fl).coeff u v - 1|
      = |∑ u ∈ (Finset.range g.n).erase v, (g.lazyRandomWalkFl R.fl).coeff u v - 1 / 2| := by
        congr 1; ring
    _ ≤ _ := key
    _ = _ := by ring

end derived
end

/-! ## Normalised Laplacians -/

section normalised
variable {R : Rounding ℝ} {g : Graph ℝ} (hv : g.Valid)

theorem Rounding.Near.sqrt {m : Nat} {x y : ℝ} (h : R.Near (2 * m) x y) : R.Near m (√x) (√y) := by
  have hg := (Rounding.g_pow_pos (R := R) m).le
  have e : R.g ^ (2 * m) = R.g ^ m * R.g ^ m := by rw [two_mul, pow_add]
  refine ⟨Real.sqrt_nonneg _, Real.sqrt_nonneg _, ?_, ?_⟩
  · have := Real.sqrt_le_sqrt h.le
    rwa [e, Real.sqrt_mul (mul_nonneg hg hg), Real.sqrt_mul_self hg] at this
  · have := Real.sqrt_le_sqrt h.ge
    rwa [e, Real.sqrt_mul (mul_nonneg hg hg), Real.sqrt_mul_self hg] at this

include hv

theorem invSqrtFl_near (hw : ∀ u v, 0 ≤ g.abs.w u v) {v : Nat} (h : v < g.n) :
    R.Near (nbrCount g.abs v / 2 + 3) (g.invSqrtDegFl R.fl Real.sqrt v) (1 / √(g.abs.deg v)) := by
  unfold invSqrtDegFl
  rw [degreeFl_coeff hv h]
  have h1 := (degFl_near (R := R) hv hw h).mono (l := 2 * (nbrCount g.abs v / 2 + 1)) (by omega)
  have := ((Rounding.Near.refl (R := R) (k := 0) zero_le_one).div h1.sqrt.fl).fl
  rwa [Nat.zero_add] at this

theorem normAdjFl_near (hw : ∀ u v, 0 ≤ g.abs.w u v) {u v : Nat} (hu : u < g.n) (hvn : v < g.n) :
    R.Near (nbrCount g.abs u / 2 + nbrCount g.abs v / 2 + 8) ((g.normAdjFl R.fl Real.sqrt).coeff u v)
      (g.abs.w u v / (√(g.abs.deg u) * √(g.abs.deg v))) := by
  unfold normAdjFl
  rw [coeff_mulDiagFl (wf_diagMulFl hv.wf _), coeff_diagMulFl hv.wf]
  have h1 := (((invSqrtFl_near (R := R) hv hw hu).mul (Rounding.Near.refl (k := 0) (hw u v))).fl.mul
    (invSqrtFl_near (R := R) hv hw hvn)).fl
  have e1 : nbrCount g.abs u / 2 + 3 + 0 + 1 + (nbrCount g.abs v / 2 + 3) + 1
      = nbrCount g.abs u / 2 + nbrCount g.abs v / 2 + 8 := by omega
  have e2 : 1 / √(g.abs.deg u) * g.abs.w u v * (1 / √(g.abs.deg v)) = g.abs.w u v / (√(g.abs.deg u) * √(g.abs.deg v)) := by
    rw [div_mul_eq_mul_div, one_mul, div_mul_div_comm, mul_one]
  rw [e1, e2] at h1
  exact h1

theorem normAdjFl_fixed (u v : Nat) : R.fl ((g.normAdjFl R.fl Real.sqrt).coeff u v) = (g.normAdjFl R.fl Real.sqrt).coeff u v := by
  unfold normAdjFl
  rw [coeff_mulDiagFl (wf_diagMulFl hv.wf _), R.idem]

/-- **C90** (normalised Laplacians).  In a graph without self-loops, the computed normalised Laplacian and signless
Laplacian have ones on the diagonal, and their entries at two vertices with `d` and `d'` neighbours are off by at most
`d/2 + d'/2 + 8` roundings. -/
theorem C90_normalised (ho : R.Odd) (h1 : R.fl 1 = 1) (hw : ∀ u v, 0 ≤ g.abs.w u v) (hl : ∀ v, g.abs.w v v = 0)
    {u v : Nat} (hu : u < g.n) (hvn : v < g.n) :
    (g.normLaplacianFl R.fl Real.sqrt).coeff v v = 1 ∧ (g.normSignlessLaplacianFl R.fl Real.sqrt).coeff v v = 1 ∧
    (u ≠ v → (g.normLaplacianFl R.fl Real.sqrt).coeff u v = -(g.normSignlessLaplacianFl R.fl Real.sqrt).coeff u v ∧
      0 ≤ (g.normSignlessLaplacianFl R.fl Real.sqrt).coeff u v ∧
      |(g.normSignlessLaplacianFl R.fl Real.sqrt).coeff u v - g.abs.w u v / (√(g.abs.deg u) * √(g.abs.deg v))|
        ≤ ((1 / (1 - R.u)) ^ (nbrCount g.abs u / 2 + nbrCount g.abs v / 2 + 8) - 1) *
          (g.abs.w u v / (√(g.abs.deg u) * √(g.abs.deg v)))) := by
  have hwf : (g.normAdjFl R.fl Real.sqrt).WF := wf_mulDiagFl (wf_diagMulFl hv.wf _) _
  have hc : g.n = (g.normAdjFl R.fl Real.sqrt).cols := hv.cols.symm
  have hL : ∀ a b, b < g.n → (g.normLaplacianFl R.fl Real.sqrt).coeff a b
      = R.fl ((if a = b then 1 else 0) - (g.normAdjFl R.fl Real.sqrt).coeff a b) := by
    intro a b hb
    unfold normLaplacianFl
    rw [SprsMat.coeff_zipWith (SprsMat.wf_diag _ _) hwf hc _ (by simp [Rounding.fl_zero]), SprsMat.coeff_diag]
    by_cases h : a = b
    · rw [if_pos ⟨h, hb⟩, if_pos h]
    · rw [if_neg (by tauto), if_neg h]
  have hQ : ∀ a b, b < g.n → (g.normSignlessLaplacianFl R.fl Real.sqrt).coeff a b
      = R.fl ((if a = b then 1 else 0) + (g.normAdjFl R.fl Real.sqrt).coeff a b) := by
    intro a b hb
    unfold normSignlessLaplacianFl
    rw [SprsMat.coeff_zipWith (SprsMat.wf_diag _ _) hwf hc _ (by simp [Rounding.fl_zero]), SprsMat.coeff_diag]
    by_cases h : a = b
    · rw [if_pos ⟨h, hb⟩, if_pos h]
    · rw [if_neg (by tauto), if_neg h]
  have hz : (g.normAdjFl R.fl Real.sqrt).coeff v v = 0 :=
    (normAdjFl_near (R := R) hv hw hvn hvn).eq_zero (by rw [hl, zero_div])
  refine ⟨?_, ?_, fun huv => ?_⟩
  · rw [hL v v hvn, if_pos rfl, hz, sub_zero, h1]
  · rw [hQ v v hvn, if_pos rfl, hz, add_zero, h1]
  · rw [hL u v hvn, hQ u v hvn, if_neg huv, zero_sub, zero_add, ho, normAdjFl_fixed hv]
    exact ⟨rfl, (normAdjFl_near (R := R) hv hw hu hvn).x0, (normAdjFl_near (R := R) hv hw hu hvn).abs_sub⟩

end normalised

/-! ## The computed normalised Laplacian need not be symmetric -/

theorem normLaplacianFl_coeff {K : Type} [Field K] [LinearOrder K] [IsStrictOrderedRing K] {R : Rounding K} {g : Graph K}
    (hv : g.Valid) {sq : K → K} {u v : Nat} (hvn : v < g.n) :
    (g.normLaplacianFl R.fl sq).coeff u v = R.fl ((if u = v then 1 else 0) -
      R.fl (R.fl (g.invSqrtDegFl R.fl sq u * g.adj.coeff u v) * g.invSqrtDegFl R.fl sq v)) := by
  have hwf : (g.normAdjFl R.fl sq).WF := wf_mulDiagFl (wf_diagMulFl hv.wf _) _
  have hc : g.n = (g.normAdjFl R.fl sq).cols := hv.cols.symm
  unfold normLaplacianFl
  rw [SprsMat.coeff_zipWith (SprsMat.wf_diag _ _) hwf hc _ (by simp [Rounding.fl_zero]), SprsMat.coeff_diag]
  unfold normAdjFl
  rw [coeff_mulDiagFl (wf_diagMulFl hv.wf _), coeff_diagMulFl hv.wf]
  by_cases h : u = v
  · rw [if_pos ⟨h, hvn⟩, if_pos h]
  · rw [if_neg (by tauto), if_neg h]

/-- Two vertices of degrees 9 and 49 joined by an edge of weight `w`. -/
def flPair (w : ℚ) : Graph ℚ :=
  ⟨4, ⟨4, 4, [[(1, w), (2, 9 - w)], [(0, w), (3, 49 - w)], [(0, 9 - w)], [(1, 49 - w)]]⟩, false⟩

/-- **C90** (not symmetric).  In `double`s the computed normalised Laplacian of a graph need not be symmetric: two vertices of
the degrees 9 and 49 joined by an edge of weight 7/2 (all weights and degrees are exact, and so are the square roots). -/
theorem C90_not_symmetric (sq : ℚ → ℚ) (h9 : sq 9 = 3) (h49 : sq 49 = 7) :
    ofMatrixFl (flBin 53) (flPair (7 / 2)).adj = .ok (flPair (7 / 2)) ∧
    ((flPair (7 / 2)).degreeMatrixFl (flBin 53)).coeff 0 0 = 9 ∧
    ((flPair (7 / 2)).degreeMatrixFl (flBin 53)).coeff 1 1 = 49 ∧
    ((flPair (7 / 2)).normLaplacianFl (flBin 53) sq).coeff 0 1 ≠ ((flPair (7 / 2)).normLaplacianFl (flBin 53) sq).coeff 1 0 := by
  refine ⟨by decide +kernel, by decide +kernel, by decide +kernel, ?_⟩
  have hv : (flPair (7 / 2)).Valid := (ofMatrix_ok (m := (flPair (7 / 2)).adj) (g := flPair (7 / 2)) (by
    refine ⟨rfl, fun j => ?_⟩
    match j with
    | 0 => simp [SprsMat.col, flPair, Col.Sorted]
    | 1 => simp [SprsMat.col, flPair, Col.Sorted]
    | 2 => simp [SprsMat.col, flPair, Col.Sorted]
    | 3 => simp [SprsMat.col, flPair, Col.Sorted]
    | j + 4 => simp [SprsMat.col, flPair, Col.Sorted]) (by decide +kernel)).1
  have e := fun (u v : Nat) (h : v < 4) => normLaplacianFl_coeff (R := Rounding.binary ℚ 53 (by norm_num)) (sq := sq) (u := u) hv h
  have e0 : (flPair (7 / 2)).invSqrtDegFl (flBin 53) sq 0 = flBin 53 (1 / flBin 53 3) := by
    unfold invSqrtDegFl
    rw [show ((flPair (7 / 2)).degreeMatrixFl (flBin 53)).coeff 0 0 = 9 by decide +kernel, h9]
  have e1 : (flPair (7 / 2)).invSqrtDegFl (flBin 53) sq 1 = flBin 53 (1 / flBin 53 7) := by
    unfold invSqrtDegFl
    rw [show ((flPair (7 / 2)).degreeMatrixFl (flBin 53)).coeff 1 1 = 49 by decide +kernel, h49]
  have h01 := e 0 1 (by norm_num)
  have h10 := e 1 0 (by norm_num)
  change (normLaplacianFl (flBin 53) sq _).coeff 0 1 = flBin 53 (_ - flBin 53 (flBin 53 (invSqrtDegFl (flBin 53) sq _ 0 * _) *
    invSqrtDegFl (flBin 53) sq _ 1)) at h01
  change (normLaplacianFl (flBin 53) sq _).coeff 1 0 = flBin 53 (_ - flBin 53 (flBin 53 (invSqrtDegFl (flBin 53) sq _ 1 * _) *
    invSqrtDegFl (flBin 53) sq _ 0)) at h10
  rw [h01, h10, e0, e1]
  clear h01 h10 e0 e1 e hv h9 h49
  decide +kernel

/-! ## No rounding -/

/-- **C90** (no rounding).  With exact arithmetic the rounded matrices are those of C08, C09, C10 and C11. -/
theorem C90_exact {g : Graph ℝ} (h : g.Reachable) (hd : ∀ v, v < g.n → 0 < g.abs.deg v) {u v : Nat} (hu : u < g.n)
    (hvn : v < g.n) :
    g.signlessLaplacian.coeff u v = (g.signlessLaplacianFl id).coeff u v ∧
    (g.normLaplacian Real.sqrt).coeff u v = .fin ((g.normLaplacianFl id Real.sqrt).coeff u v) ∧
    (g.normSignlessLaplacian Real.sqrt).coeff u v = .fin ((g.normSignlessLaplacianFl id Real.sqrt).coeff u v) ∧
    g.inverseDegreeMatrix.coeff v v = .fin ((g.inverseDegreeFl id).coeff v v) ∧
    g.lazyRandomWalk.coeff u v = .fin ((g.lazyRandomWalkFl id).coeff u v) := by
  have hv := h.valid
  have hR : (id : ℝ → ℝ) = (Rounding.exact ℝ).fl := rfl
  have hdeg : ∀ i, i < g.n → g.degFl id i = g.abs.deg i := by
    intro i _
    unfold degFl WGraph.deg
    rw [show (id : ℝ → ℝ) = fun x => x from rfl, sumFl_id, zero_add, sum_list_range, hv.cols]
    rfl
  have hdeg' : ∀ i, i < g.n → (g.degreeMatrixFl id).coeff i i = g.abs.deg i := by
    intro i hi
    rw [hR, degreeFl_coeff hv hi, ← hR, hdeg i hi]
  have hinv : (g.inverseDegreeFl id).coeff v v = 1 / g.abs.deg v := by
    unfold inverseDegreeFl
    rw [SprsMat.coeff_diag, hv.cols, if_pos ⟨rfl, hvn⟩, hdeg' v hvn]
    rfl
  have hs : ∀ i, i < g.n → g.invSqrtDegFl id Real.sqrt i = 1 / √(g.abs.deg i) := by
    intro i hi
    unfold invSqrtDegFl
    rw [hdeg' i hi]
    rfl
  have hwf : (g.normAdjFl id Real.sqrt).WF := by
    rw [hR]
    exact wf_mulDiagFl (wf_diagMulFl hv.wf _) _
  have hA : (g.normAdjFl id Real.sqrt).coeff u v = g.abs.w u v / (√(g.abs.deg u) * √(g.abs.deg v)) := by
    have h1 : (g.normAdjFl id Real.sqrt).coeff u v
        = 1 / √(g.abs.deg u) * g.adj.coeff u v * (1 / √(g.abs.deg v)) := by
      rw [← hs u hu, ← hs v hvn]
      rw [hR]
      unfold normAdjFl
      rw [coeff_mulDiagFl (wf_diagMulFl hv.wf _), coeff_diagMulFl hv.wf]
      rfl
    rw [h1, div_mul_eq_mul_div, one_mul, div_mul_div_comm, mul_one]
    rfl
  have hc : g.n = (g.normAdjFl id Real.sqrt).cols := hv.cols.symm
  refine ⟨?_, ?_, ?_, ?_, ?_⟩
  · have hf : g.FloatWeights (Rounding.exact ℝ).fl := fun _ _ => ⟨rfl, rfl⟩
    rw [hR, signlessFl_coeff hv hf hu, signless_coeff hv, ← hR]
    by_cases huv : u = v
    · subst huv
      rw [if_pos rfl, hdeg u hu]
      unfold WGraph.deg
      simp [Graph.abs]
      ring
    · rw [if_neg huv]
      simp [Graph.abs, huv]
  · rw [(C09_entries h hd u v hvn).1]
    unfold normLaplacianFl
    rw [SprsMat.coeff_zipWith (SprsMat.wf_diag _ _) hwf hc _ (by simp), SprsMat.coeff_diag, hA]
    by_cases huv : u = v
    · rw [if_pos huv, if_pos ⟨huv, hvn⟩]; rfl
    · rw [if_neg huv, if_neg (by tauto)]; rfl
  · rw [(C09_entries h hd u v hvn).2]
    unfold normSignlessLaplacianFl
    rw [SprsMat.coeff_zipWith (SprsMat.wf_diag _ _) hwf hc _ (by simp), SprsMat.coeff_diag, hA]
    by_cases huv : u = v
    · rw [if_pos huv, if_pos ⟨huv, hvn⟩]; rfl
    · rw [if_neg huv, if_neg (by tauto)]; rfl
  · rw [(C11_inverse_degree_partial h v hvn).1 (hd v hvn).ne', hinv]
  · rw [C10_lazy_walk_entries h (fun v hv => (hd v hv).ne') u v hvn]
    have h1 := lazyFl_coeff (R := Rounding.exact ℝ) (u := u) hv hvn
    rw [← hR, hinv] at h1
    rw [h1]
    simp only [id]
    congr 2
    ring

/-! ## Graph arithmetic -/

section arith
variable {K : Type} [Field K] [LinearOrder K] [IsStrictOrderedRing K] {R : Rounding K}

theorem ofMatrixFl_nonneg {fl : K → K} {m : SprsMat K} (hw : m.WF) (hnn : ∀ i j, 0 ≤ m.coeff i j) :
    ofMatrixFl fl m = ofMatrix m := by
  have hneg : foundNegative m = false := by
    rw [← Bool.not_eq_true, foundNegative_iff hw]
    rintro ⟨j, e, he, hlt⟩
    have h1 := hnn e.1 j
    have : m.coeff e.1 j = e.2 := Col.coeff_eq_of_mem (hw.sorted j) he
    rw [this] at h1
    exact absurd h1 (not_le.2 hlt)
  unfold ofMatrixFl ofMatrix adjFromAdjOrLapFl adjFromAdjOrLap
  rw [hneg]
  rfl

/-- **C90** (sum).  The sum of two graphs with the same number of vertices, whose weights are floating point numbers above
the pruning threshold, has exactly the rounded sums as weights: nothing is pruned and no symmetry is lost.  Graphs with
different numbers of vertices are rejected. -/
theorem C90_add {g h : Graph K} (hg : g.Valid) (hh : h.Valid) (pg : g.Pruned) (ph : h.Pruned) (fg : g.FloatWeights R.fl)
    (fh : h.FloatWeights R.fl) :
    (g.n ≠ h.n → g.addFl R.fl h = .throw .invalidArgument) ∧
    (g.n = h.n → ∃ k, g.addFl R.fl h = .ok k ∧ k.Valid ∧ k.Pruned ∧ k.n = g.n ∧
      (∀ u v, k.abs.w u v = R.fl (g.abs.w u v + h.abs.w u v)) ∧
      ∀ u v, |k.abs.w u v - (g.abs.w u v + h.abs.w u v)| ≤ R.u * (g.abs.w u v + h.abs.w u v)) := by
  constructor
  · intro hn
    unfold addFl
    rw [if_pos hn]
  intro hn
  have hco : ∀ i j, (SprsMat.zipWith (fun a b => R.fl (a + b)) g.adj h.adj).coeff i j =
      R.fl (g.adj.coeff i j + h.adj.coeff i j) :=
    SprsMat.coeff_zipWith hg.wf hh.wf (by rw [hg.cols, hh.cols, hn]) _ (by simp [Rounding.fl_zero])
  have hwf : (SprsMat.zipWith (fun a b => R.fl (a + b)) g.adj h.adj).WF :=
    SprsMat.wf_zipWith hg.wf hh.wf (by rw [hg.rows, hh.rows, hn]) _
  have hnn : ∀ i j, 0 ≤ (SprsMat.zipWith (fun a b => R.fl (a + b)) g.adj h.adj).coeff i j := fun i j => by
    rw [hco]
    exact Rounding.fl_nonneg (add_nonneg (pg.nonneg i j) (ph.nonneg i j))
  obtain ⟨k, hk, hv, _, hkn, hkc, hkp⟩ := ofMatrix_nonneg hwf (by simp [SprsMat.zipWith, hg.rows, hg.cols]) hnn
    (fun i j => by rw [hco, hco, hg.symm, hh.symm])
  have hval : ∀ u v, k.abs.w u v = R.fl (g.abs.w u v + h.abs.w u v) := by
    intro u v
    change k.adj.coeff u v = R.fl (g.adj.coeff u v + h.adj.coeff u v)
    rw [hkc, hco]
    apply thr_of_zero_or
    have e := epsilon_pos (K := K)
    rcases pg.coeff u v with h1 | h1 <;> rcases ph.coeff u v with h2 | h2
    · left; rw [h1, h2, add_zero, Rounding.fl_zero]
    · right; rw [h1, zero_add]; exact lt_of_lt_of_eq h2 (fh u v).1.symm
    · right; rw [h2, add_zero]; exact lt_of_lt_of_eq h1 (fg u v).1.symm
    · right
      refine lt_of_lt_of_le h1 ?_
      have h3 : R.fl (g.adj.coeff u v) = g.adj.coeff u v := (fg u v).1
      rw [← h3]
      exact R.mono _ _ (by rw [h3]; linarith)
  refine ⟨k, ?_, hv, hkp, ?_, hval, ?_⟩
  · unfold addFl
    rw [if_neg (by simpa using hn), ofMatrixFl_nonneg hwf hnn, hk]
  · rw [hkn]; simp [SprsMat.zipWith, hg.cols]
  · intro u v
    rw [hval]
    have := R.err (g.abs.w u v + h.abs.w u v)
    rwa [abs_of_nonneg (show 0 ≤ g.abs.w u v + h.abs.w u v from add_nonneg (pg.nonneg u v) (ph.nonneg u v))] at this

/-- **C90** (commutative).  `g + h` and `h + g` are equal bit for bit. -/
theorem C90_add_comm {g h : Graph K} (hg : g.Valid) (hh : h.Valid) (pg : g.Pruned) (ph : h.Pruned)
    (fg : g.FloatWeights R.fl) (fh : h.FloatWeights R.fl) (hn : g.n = h.n) :
    ∃ a b, g.addFl R.fl h = .ok a ∧ h.addFl R.fl g = .ok b ∧ a.adj = b.adj := by
  obtain ⟨a, ha, va, pa, na, wa, _⟩ := (C90_add hg hh pg ph fg fh).2 hn
  obtain ⟨b, hb, vb, pb, nb, wb, _⟩ := (C90_add hh hg ph pg fh fg).2 hn.symm
  refine ⟨a, b, ha, hb, SprsMat.ext_coeff va.wf vb.wf pa.noZeros pb.noZeros ?_ ?_ ?_⟩
  · rw [va.rows, vb.rows, na, nb, hn]
  · rw [va.cols, vb.cols, na, nb, hn]
  · intro i j
    change a.abs.w i j = b.abs.w i j
    rw [wa, wb, add_comm]

/-- **C90** (scalar multiple).  Multiplying by `c ≥ 0` gives every weight the rounded product, and drops the edges for which
that is at most `1e-10`. -/
theorem C90_scale {g : Graph K} (hg : g.Valid) (pg : g.Pruned) (c : K) (hc : 0 ≤ c) :
    ∃ k, g.smulFl R.fl c = .ok k ∧ k.Valid ∧ k.Pruned ∧ k.n = g.n ∧
      (∀ u v, k.abs.w u v = if epsilon < R.fl (c * g.abs.w u v) then R.fl (c * g.abs.w u v) else 0) ∧
      ∀ u v, k.abs.w u v ≠ 0 → |k.abs.w u v - c * g.abs.w u v| ≤ R.u * (c * g.abs.w u v) := by
  have h0 : R.fl (c * 0) = 0 := by rw [mul_zero, Rounding.fl_zero]
  have hwf : (g.adj.mapVal (fun v => R.fl (c * v))).WF := SprsMat.wf_mapVal hg.wf _
  have hco : ∀ i j, (g.adj.mapVal (fun v => R.fl (c * v))).coeff i j = R.fl (c * g.adj.coeff i j) :=
    SprsMat.coeff_mapVal hg.wf _ h0
  have hnn : ∀ i j, 0 ≤ (g.adj.mapVal (fun v => R.fl (c * v))).coeff i j := fun i j => by
    rw [hco]
    exact Rounding.fl_nonneg (mul_nonneg hc (pg.nonneg i j))
  obtain ⟨k, hk, hv, _, hkn, hkc, hkp⟩ := ofMatrix_nonneg hwf (by simp [SprsMat.mapVal, hg.rows, hg.cols]) hnn
    (fun i j => by rw [hco, hco, hg.symm])
  have hval : ∀ u v, k.abs.w u v = if epsilon < R.fl (c * g.abs.w u v) then R.fl (c * g.abs.w u v) else 0 := by
    intro u v
    change k.adj.coeff u v = if epsilon < R.fl (c * g.adj.coeff u v) then R.fl (c * g.adj.coeff u v) else 0
    rw [hkc, hco]
    rfl
  refine ⟨k, ?_, hv, hkp, ?_, hval, ?_⟩
  · unfold smulFl
    rw [ofMatrixFl_nonneg hwf hnn, hk]
  · rw [hkn]; simp [SprsMat.mapVal, hg.cols]
  · intro u v hne
    rw [hval] at hne ⊢
    split_ifs at hne ⊢ with hs
    · have := R.err (c * g.abs.w u v)
      rwa [abs_of_nonneg (show 0 ≤ c * g.abs.w u v from mul_nonneg hc (pg.nonneg u v))] at this
    · exact absurd rfl hne

theorem sumFl_neg (l : List K) : ∀ {acc : K}, acc ≤ 0 → (∀ x ∈ l, x ≤ 0) → (acc < 0 ∨ ∃ x ∈ l, x < 0) →
    sumFl R.fl l acc < 0 := by
  have hneg : ∀ x : K, x < 0 → R.fl x < 0 := by
    intro x hx
    have h1 := R.err x
    rw [abs_of_neg hx, abs_le] at h1
    have h2 : R.u * -x < -x := by
      have := mul_lt_mul_of_pos_right R.u1 (neg_pos.2 hx)
      rwa [one_mul] at this
    linarith [h1.2]
  induction l with
  | nil =>
    intro acc _ _ h
    rcases h with h | ⟨x, hx, _⟩
    · exact h
    · simp at hx
  | cons x l ih =>
    intro acc ha hl h
    have hx := hl x (by simp)
    unfold sumFl
    have hle : R.fl (acc + x) ≤ 0 := by
      have := R.mono (acc + x) 0 (by linarith)
      rwa [Rounding.fl_zero] at this
    refine ih hle (fun y hy => hl y (by simp [hy])) ?_
    rcases h with h | ⟨y, hy, hy0⟩
    · exact Or.inl (hneg _ (by linarith))
    · rcases List.mem_cons.1 hy with rfl | hy
      · exact Or.inl (hneg _ (by linarith))
      · exact Or.inr ⟨y, hy, hy0⟩

/-- **C90** (negative multiple).  Multiplying a graph that has an edge by a negative number raises a domain error. -/
theorem C90_negative_scale {g : Graph K} (hg : g.Valid) (pg : g.Pruned) {c : K} (hc : c < 0) {u v : Nat}
    (he : g.abs.w u v ≠ 0) : g.smulFl R.fl c = .throw .domainError := by
  have h0 : R.fl (c * 0) = 0 := by rw [mul_zero, Rounding.fl_zero]
  have hwf : (g.adj.mapVal (fun v => R.fl (c * v))).WF := SprsMat.wf_mapVal hg.wf _
  have hco : ∀ i j, (g.adj.mapVal (fun v => R.fl (c * v))).coeff i j = R.fl (c * g.adj.coeff i j) :=
    SprsMat.coeff_mapVal hg.wf _ h0
  have hfl : ∀ x : K, 0 < x → R.fl (c * x) < 0 := by
    intro x hx
    have hx : c * x < 0 := mul_neg_of_neg_of_pos hc hx
    have h1 := sumFl_neg (R := R) [c * x] (acc := 0) le_rfl (by simp [hx.le]) (Or.inr ⟨_, by simp, hx⟩)
    simpa [sumFl] using h1
  have hcol : ∀ j, ∀ e ∈ (g.adj.mapVal (fun v => R.fl (c * v))).col j, e.2 < 0 := by
    intro j e hm
    rw [SprsMat.col_mapVal hg.wf] at hm
    obtain ⟨x, hx, rfl⟩ := List.mem_map.1 hm
    exact hfl _ (lt_trans epsilon_pos (pg j x hx))
  have hlt : (g.adj.mapVal (fun v => R.fl (c * v))).coeff u v < 0 := by
    rw [hco]
    exact hfl _ (lt_of_le_of_ne (pg.nonneg u v) (Ne.symm he))
  have hmem : (u, (g.adj.mapVal (fun v => R.fl (c * v))).coeff u v) ∈ (g.adj.mapVal (fun v => R.fl (c * v))).col v :=
    Col.mem_of_coeff_ne_zero hlt.ne
  have hvn : v < g.adj.cols := by
    by_contra hv
    exact he (hg.wf.coeff_of_cols_le (by omega) u)
  have hneg : foundNegative (g.adj.mapVal (fun v => R.fl (c * v))) = true := (foundNegative_iff hwf).2 ⟨v, _, hmem, hlt⟩
  have hoff : positiveOffDiagonal (g.adj.mapVal (fun v => R.fl (c * v))) = false := by
    rw [← Bool.not_eq_true, positiveOffDiagonal_iff hwf]
    rintro ⟨j, e, hm, h1, _⟩
    exact absurd h1 (not_le.2 (hcol j e hm))
  have hdd : diagonallyDominantFl R.fl (g.adj.mapVal (fun v => R.fl (c * v))) = false := by
    rw [← Bool.not_eq_true]
    unfold diagonallyDominantFl
    simp only [List.all_eq_true, List.mem_range, Bool.not_eq_true', decide_eq_false_iff_not, not_lt]
    intro h
    have := h v (by simpa [SprsMat.mapVal] using hvn)
    refine absurd this (not_le.2 (sumFl_neg _ le_rfl ?_ (Or.inr ⟨_, List.mem_map.2 ⟨_, hmem, rfl⟩, hlt⟩)))
    intro x hx
    obtain ⟨e, hm, rfl⟩ := List.mem_map.1 hx
    exact (hcol v e hm).le
  unfold smulFl ofMatrixFl
  have hsq : (g.adj.mapVal (fun v => R.fl (c * v))).rows = (g.adj.mapVal (fun v => R.fl (c * v))).cols := by
    simp [SprsMat.mapVal, hg.rows, hg.cols]
  rw [if_neg (by simp [hsq, hwf.inRange])]
  simp [adjFromAdjOrLapFl, hneg, hoff, hdd]

end arith

/-- **C90** (not associative).  In `double`s addition of graphs is not associative: a single edge of weight 0.1, 0.2, 0.3. -/
theorem C90_add_not_assoc :
    let e := fun x : ℚ => (⟨2, ⟨2, 2, [[(1, flBin 53 x)], [(0, flBin 53 x)]]⟩, false⟩ : Graph ℚ)
    (((e (1 / 10)).addFl (flBin 53) (e (1 / 5))).bind (fun g => g.addFl (flBin 53) (e (3 / 10)))) ≠
    (((e (1 / 5)).addFl (flBin 53) (e (3 / 10))).bind (fun g => (e (1 / 10)).addFl (flBin 53) g)) := by
  decide +kernel

/-! ## Histories of mutating calls -/

/-- Adding `x` to the weight of `{i, j}`: one rounded addition, two for a self-loop. -/
def WGraph.addEdgeFl {K : Type} [Field K] (fl : K → K) (s : WGraph K) (i j : Nat) (x : K) : WGraph K where
  n := max s.n (max i j + 1)
  w a b := if (a = i ∧ b = j) ∨ (a = j ∧ b = i) then
      if i = j then fl (fl (s.w a b + x) + x) else fl (s.w a b + x)
    else s.w a b

/-- The effect of a history in rounded arithmetic. -/
def WGraph.runFl {K : Type} [Field K] (fl : K → K) (s : WGraph K) : List (GOp K) → WGraph K
  | [] => s
  | .add i j x :: ops => runFl fl (s.addEdgeFl fl i j x) ops
  | .remove i j :: ops => runFl fl (s.removeEdge i j) ops

/-- The number of calls of `add_edge` in a history. -/
def addCount {K : Type} : List (GOp K) → Nat
  | [] => 0
  | .add _ _ _ :: ops => addCount ops + 1
  | .remove _ _ :: ops => addCount ops

section mutate
variable {K : Type} [Field K] [LinearOrder K]

theorem addEdgeFl_spec {fl : K → K} {g : Graph K} (hv : g.Valid) (i j : Nat) (x : K) :
    ∃ g', g.addEdgeFl fl i j x = .ok g' ∧ g'.Valid ∧ g'.abs = g.abs.addEdgeFl fl i j x := by
  set n := max g.n (max i j + 1) with hn
  have hr : g.adj.rows ≤ n := by rw [hv.rows]; omega
  have hc : g.adj.cols ≤ n := by rw [hv.cols]; omega
  set a0 := g.adj.conservativeResize n n with ha0
  have w0 : a0.WF := SprsMat.wf_conservativeResize hv.wf n n
  have c0 : ∀ a b, a0.coeff a b = g.adj.coeff a b :=
    SprsMat.coeff_conservativeResize hv.wf hr hc
  have r0 : a0.rows = n := rfl
  have k0 : a0.cols = n := rfl
  set a1 := a0.update i j (fun v => fl (v + x)) with ha1
  have w1 : a1.WF := SprsMat.wf_update w0 (by omega) _
  set a2 := a1.update j i (fun v => fl (v + x)) with ha2
  have w2 : a2.WF := SprsMat.wf_update w1 (by simp only [ha1, SprsMat.rows_update]; omega) _
  have c2 : ∀ a b, a2.coeff a b = if (a = i ∧ b = j) ∨ (a = j ∧ b = i) then
      if i = j then fl (fl (g.adj.coeff a b + x) + x) else fl (g.adj.coeff a b + x) else g.adj.coeff a b := by
    intro a b
    rw [ha2, SprsMat.coeff_update w1 (by simp only [ha1, SprsMat.cols_update]; omega), ha1,
      SprsMat.coeff_update w0 (by omega), SprsMat.coeff_update w0 (by omega), c0, c0, c0]
    by_cases hij : i = j
    · subst hij
      by_cases h : a = i ∧ b = i
      · obtain ⟨rfl, rfl⟩ := h; simp
      · simp [h]
    · by_cases h1 : a = i ∧ b = j
      · obtain ⟨rfl, rfl⟩ := h1
        have : ¬ (b = a) := fun h => hij h.symm
        simp [hij, this]
      · by_cases h2 : a = j ∧ b = i
        · obtain ⟨rfl, rfl⟩ := h2
          simp [hij]
        · simp [h1, h2]
  refine ⟨⟨n, a2, if i = j then true else g.selfLoops⟩, ?_, ?_, ?_⟩
  · unfold addEdgeFl
    rw [if_neg (by omega)]
    simp only [Int.toNat_natCast]
    rfl
  · refine ⟨w2, rfl, rfl, fun a b => ?_⟩
    simp only
    rw [c2, c2, hv.symm a b]
    congr 1
    simp only [eq_iff_iff]
    tauto
  · ext
    · rfl
    · simp only [Graph.abs, WGraph.addEdgeFl, c2]

/-- **C90** (histories).  After any history of `add_edge` and `remove_edge` in rounded arithmetic, the graph is symmetric and
well-formed and every weight is the result of the rounded additions made to it, in their order, since it was last removed. -/
theorem C90_history (fl : K → K) (ops : List (GOp K)) {g : Graph K} (hv : g.Valid) :
    ∃ g', g.runFl fl ops = .ok g' ∧ g'.Valid ∧ g'.abs = g.abs.runFl fl ops := by
  induction ops generalizing g with
  | nil => exact ⟨g, rfl, hv, rfl⟩
  | cons op ops ih =>
    cases op with
    | add i j x =>
      obtain ⟨g1, h1, h2, h3⟩ := addEdgeFl_spec (fl := fl) hv i j x
      obtain ⟨g2, h4, h5, h6⟩ := ih h2
      refine ⟨g2, ?_, h5, by rw [h6, h3]; rfl⟩
      simp only [runFl, stepFl, h1, Outcome.bind_ok, h4]
    | remove i j =>
      obtain ⟨g1, h1, h2, h3, _⟩ := removeEdge_spec hv i j
      obtain ⟨g2, h4, h5, h6⟩ := ih h2
      refine ⟨g2, ?_, h5, by rw [h6, h3]; rfl⟩
      simp only [runFl, stepFl, h1, Outcome.bind_ok, h4]

variable [IsStrictOrderedRing K] {R : Rounding K}

theorem runFl_near (ops : List (GOp K)) (hx : ∀ i j x, GOp.add i j x ∈ ops → 0 ≤ x) : ∀ {k : Nat} {s t : WGraph K},
    s.n = t.n → (∀ u v, R.Near k (s.w u v) (t.w u v)) →
    (s.runFl R.fl ops).n = (t.run ops).n ∧
    ∀ u v, R.Near (k + 2 * addCount ops) ((s.runFl R.fl ops).w u v) ((t.run ops).w u v) := by
  induction ops with
  | nil => intro k s t hn h; exact ⟨hn, h⟩
  | cons op ops ih =>
    intro k s t hn h
    have ih' := @ih (fun i j x hm => hx i j x (by simp [hm]))
    cases op with
    | add i j x =>
      have h0 := hx i j x (by simp)
      have key : ∀ u v, R.Near (k + 2) ((s.addEdgeFl R.fl i j x).w u v) ((t.addEdge i j x).w u v) := by
        intro u v
        unfold WGraph.addEdgeFl WGraph.addEdge
        dsimp only
        by_cases hc : (u = i ∧ v = j) ∨ (u = j ∧ v = i)
        · rw [if_pos hc, if_pos hc]
          have h1 := ((h u v).add (Rounding.Near.refl (k := k) h0)).fl
          by_cases hij : i = j
          · rw [if_pos hij, if_pos hij]
            have h2 := (h1.add (Rounding.Near.refl (k := k + 1) h0)).fl
            rwa [add_assoc (t.w u v), ← two_mul] at h2
          · rw [if_neg hij, if_neg hij]
            exact h1.mono (by omega)
        · rw [if_neg hc, if_neg hc]
          exact (h u v).mono (by omega)
      have h3 := ih' (s := s.addEdgeFl R.fl i j x) (t := t.addEdge i j x)
        (by simp [WGraph.addEdgeFl, WGraph.addEdge, hn]) key
      have e : k + 2 + 2 * addCount ops = k + 2 * addCount (.add i j x :: ops) := by
        simp only [addCount]; ring
      rw [e] at h3
      exact h3
    | remove i j =>
      have key : ∀ u v, R.Near k ((s.removeEdge i j).w u v) ((t.removeEdge i j).w u v) := by
        intro u v
        unfold WGraph.removeEdge
        rw [hn]
        by_cases hij : i < t.n ∧ j < t.n
        · rw [if_pos hij, if_pos hij]
          dsimp only
          by_cases hc : (u = i ∧ v = j) ∨ (u = j ∧ v = i)
          · rw [if_pos hc, if_pos hc]
            exact Rounding.Near.refl le_rfl
          · rw [if_neg hc, if_neg hc]
            exact h u v
        · rw [if_neg hij, if_neg hij]
          exact h u v
      exact ih' (s := s.removeEdge i j) (t := t.removeEdge i j) (by
        unfold WGraph.removeEdge
        rw [hn]
        split_ifs <;> simp [hn]) key

/-- **C90** (error of a history).  If no weight is negative, then after a history with `m` calls of `add_edge` every weight
is off by at most `2m` roundings, relative to the weight the history has in exact arithmetic (C04); in particular no edge
appears or disappears. -/
theorem C90_history_error (ops : List (GOp K)) (hx : ∀ i j x, GOp.add i j x ∈ ops → 0 ≤ x) {g : Graph K} (hv : g.Valid)
    (hw : ∀ u v, 0 ≤ g.abs.w u v) :
    ∃ g' e, g.runFl R.fl ops = .ok g' ∧ g.run ops = .ok e ∧ g'.n = e.n ∧
      ∀ u v, (g'.abs.w u v = 0 ↔ e.abs.w u v = 0) ∧
        |g'.abs.w u v - e.abs.w u v| ≤ ((1 / (1 - R.u)) ^ (2 * addCount ops) - 1) * e.abs.w u v := by
  obtain ⟨g', h1, _, h3⟩ := C90_history R.fl ops hv
  obtain ⟨e, h4, _, h6⟩ := run_spec ops hv
  obtain ⟨hn, h⟩ := runFl_near (R := R) ops hx (k := 0) (s := g.abs) (t := g.abs) rfl
    (fun u v => Rounding.Near.refl (hw u v))
  rw [← h3, ← h6] at hn h
  refine ⟨g', e, h1, h4, hn, fun u v => ?_⟩
  have hN := h u v
  rw [Nat.zero_add] at hN
  exact ⟨⟨hN.symm.eq_zero, hN.eq_zero⟩, hN.abs_sub⟩

end mutate

/-- **C90** (the order matters).  In `double`s the same three calls of `add_edge` in two orders give different weights. -/
theorem C90_order_matters :
    let a := fun x : ℚ => GOp.add 0 1 (flBin 53 x)
    let g := (⟨2, ⟨2, 2, [[], []]⟩, false⟩ : Graph ℚ)
    g.runFl (flBin 53) [a (1 / 10), a (1 / 5), a (3 / 10)] ≠ g.runFl (flBin 53) [a (3 / 10), a (1 / 5), a (1 / 10)] := by
  decide +kernel

/-- The hypotheses of the theorems of C90 are met by `double`s and a graph with an edge (of weight 3). -/
example : ∃ (R : Rounding ℝ) (g : Graph ℝ), R.u = (2 : ℝ) ^ (-53 : Int) ∧ R.Odd ∧ R.fl 1 = 1 ∧ R.fl (1 / 2) = 1 / 2 ∧ g.Reachable ∧
    g.Valid ∧ g.n = 2 ∧ g.abs.w 0 1 = 3 ∧ (∀ u v, 0 ≤ g.abs.w u v) ∧ (∀ v, g.abs.w v v = 0) ∧ g.FloatWeights R.fl ∧
    ∀ v, v < g.n → 0 < g.abs.deg v := by
  obtain ⟨g, hr, ha⟩ := exists_graph 2 (fun u v => if u < 2 ∧ v < 2 ∧ u ≠ v then 3 else 0)
    (fun i j => by
      by_cases h : i < 2 ∧ j < 2 ∧ i ≠ j
      · rw [if_pos h, if_pos ⟨h.2.1, h.1, h.2.2.symm⟩]
      · rw [if_neg h, if_neg (by tauto)])
    (fun i j => by
      by_cases h : i < 2 ∧ j < 2 ∧ i ≠ j
      · right; rw [if_pos h]; unfold epsilon; norm_num
      · left; rw [if_neg h])
    (fun i j h => if_neg (by tauto))
  have hw : ∀ u v, g.abs.w u v = if u < 2 ∧ v < 2 ∧ u ≠ v then 3 else 0 := fun u v => by rw [ha]
  have hn : g.n = 2 := congrArg WGraph.n ha
  have h3 : flBin 53 (3 : ℝ) = 3 := by exact_mod_cast flBin_nat_le (K := ℝ) (m := 3) (by norm_num)
  refine ⟨Rounding.binary ℝ 53 (by norm_num), g, by norm_num [Rounding.binary], fun x => flBin_neg 53 x, ?_, ?_, hr, hr.valid, hn, ?_, ?_, ?_, ?_, ?_⟩
  · exact_mod_cast flBin_nat_le (K := ℝ) (m := 1) (by norm_num)
  · have := flBin_zpow (K := ℝ) (p := 53) (by norm_num) (-1)
    norm_num at this
    exact this
  · rw [hw]; norm_num
  · intro u v
    rw [hw]
    split_ifs <;> norm_num
  · intro v; rw [hw]; simp
  · intro u v
    rw [hw]
    split_ifs
    · exact ⟨h3, by change flBin 53 (-3 : ℝ) = -3; rw [flBin_neg, h3]⟩
    · exact ⟨Rounding.fl_zero, by rw [neg_zero]; exact Rounding.fl_zero⟩
  · intro v hv
    rw [hn] at hv
    unfold WGraph.deg
    rw [show g.abs.n = 2 from hn, Finset.sum_range_succ, Finset.sum_range_one, hw, hw, hw]
    interval_cases v <;> norm_num

end Stag
