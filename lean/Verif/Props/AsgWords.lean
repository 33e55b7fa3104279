import Verif.Props.SbmWords
import Verif.Props.RoundingAsgCuts

/-!
# C111: approximate similarity graphs with the real random numbers

`std::uniform_real_distribution<double>(0, 1)` on `std::mt19937_64` returns one word of 64 bits as a double
(`canonical`), not a uniform real number.  For data in one leaf, the probability of every set of samples, and so of
every statement about the graph, changes by at most `n² / 2 ^ 50`.
-/

set_option linter.unusedSectionVars false
set_option exponentiation.threshold 2000

open MeasureTheory ProbabilityTheory Real
open scoped ENNReal

namespace Stag

/-! ## One number -/

/-- The double made of the first 64 bits of a number is near the number. -/
theorem canonical_near {x : ℝ} (h0 : 0 ≤ x) (h1 : x < 1) : |canonical (wordOf x) - x| ≤ 1 / 2 ^ 53 + 1 / 2 ^ 64 := by
  obtain ⟨w, hw⟩ : ∃ w, w = wordOf x := ⟨_, rfl⟩
  obtain ⟨u, hu⟩ : ∃ u : ℝ, u = 1 / 2 ^ 53 := ⟨_, rfl⟩
  obtain ⟨e, he⟩ : ∃ e : ℝ, e = 1 / 2 ^ 64 := ⟨_, rfl⟩
  have hu0 : 0 < u := by rw [hu]; positivity
  have a1 := wordOf_lt_iff h0 h1 (w + 1)
  have a2 := wordOf_lt_iff h0 h1 w
  rw [← hw] at a1 a2
  have b1 : x < (w : ℝ) / 2 ^ 64 + e := by
    have := a1.1 (Nat.lt_succ_self w)
    rw [he]
    push_cast at this
    rwa [add_div] at this
  have b2 : (w : ℝ) / 2 ^ 64 ≤ x := by
    by_contra hn
    exact lt_irrefl w (a2.2 (not_le.1 hn))
  have hup := flBin_le_up (K := ℝ) (x := (w : ℝ)) (Nat.cast_nonneg w)
  have hdn := flBin_ge_down (K := ℝ) (x := (w : ℝ)) (Nat.cast_nonneg w)
  rw [← hu] at hup hdn
  have c1 : flBin 53 (w : ℝ) / 2 ^ 64 ≤ (w : ℝ) / 2 ^ 64 * (1 + u) := by
    rw [div_mul_eq_mul_div]; gcongr
  have c2 : (w : ℝ) / 2 ^ 64 * (1 - u) ≤ flBin 53 (w : ℝ) / 2 ^ 64 := by
    rw [div_mul_eq_mul_div]; gcongr
  rw [← hw, canonical_eq, ← hu, ← he]
  generalize flBin 53 (w : ℝ) / 2 ^ 64 = f at *
  have hy0 : (0 : ℝ) ≤ (w : ℝ) / 2 ^ 64 := by positivity
  generalize (w : ℝ) / 2 ^ 64 = y at *
  have hyu : y * u ≤ u := mul_le_of_le_one_left hu0.le (by linarith)
  rw [abs_le]
  split_ifs with hc
  · constructor <;> linarith
  · constructor <;> linarith

section
variable {R : Rounding ℝ} {E : LibExp}

/-- Two numbers on the same side of all boundaries fall on the same row. -/
theorem rowOfFl_congr (e : ExactKde) (ha : 0 ≤ e.a) (q : List ℝ) {degree r r' : ℝ}
    (h : ∀ k, 1 ≤ k → k ≤ e.allData.length →
      (R.fl (degree * r) < cumWeightFl R E e.a q e.allData k ↔ R.fl (degree * r') < cumWeightFl R E e.a q e.allData k)) :
    rowOfFl R E e q degree r = rowOfFl R E e q degree r' := by
  apply Option.ext
  intro i
  unfold rowOfFl
  rw [pickFl_spec _ _ ha _ _ _ _ _ _ Rounding.fl_zero, pickFl_spec _ _ ha _ _ _ _ _ _ Rounding.fl_zero]
  refine exists_congr fun k => and_congr_right fun _ => and_congr_right fun hk => ?_
  have h1 := h (k + 1) (by omega) (by omega)
  refine and_congr ?_ h1
  by_cases h0 : k = 0
  · simp [h0]
  · have h2 := h k (by omega) (by omega)
    simp only [h0, false_or]
    rw [← not_lt, ← not_lt]
    exact not_congr h2

/-- A number from a word and the uniform number it comes from rarely fall on different rows. -/
theorem words_row (e : ExactKde) (ha : 0 ≤ e.a) (q : List ℝ) {degree : ℝ} (hd : 0 ≤ degree) :
    unif {x | rowOfFl R E e q degree (canonical (wordOf x)) ≠ rowOfFl R E e q degree x} ≤
      ENNReal.ofReal (e.allData.length * (2 * (1 / 2 ^ 53 + 1 / 2 ^ 64))) := by
  obtain ⟨ε, hε⟩ : ∃ ε : ℝ, ε = 1 / 2 ^ 53 + 1 / 2 ^ 64 := ⟨_, rfl⟩
  rw [← hε]
  -- the boundary of the numbers below the total of the first `k` rows
  let Q : Nat → Set ℝ := fun k => {r | r ∈ Set.Icc (0 : ℝ) 1 ∧ R.fl (degree * r) < cumWeightFl R E e.a q e.allData k}
  let t : Nat → ℝ := fun k => sSup (Q k)
  have hbdd : ∀ k, BddAbove (Q k) := fun k => ⟨1, fun r hr => hr.1.2⟩
  have hsub : {x | rowOfFl R E e q degree (canonical (wordOf x)) ≠ rowOfFl R E e q degree x} ∩ Set.Ico 0 1 ⊆
      ⋃ k ∈ Finset.Icc 1 e.allData.length, Set.Icc (t k - ε) (t k + ε) := by
    rintro x ⟨hx, hx0, hx1⟩
    by_contra hnot
    simp only [Set.mem_iUnion, not_exists] at hnot
    refine hx (rowOfFl_congr e ha q fun k hk1 hk2 => ?_)
    have hk := hnot k (Finset.mem_Icc.2 ⟨hk1, hk2⟩)
    have hnear := canonical_near hx0 hx1
    rw [← hε, abs_le] at hnear
    have hc0 := canonical_nonneg (wordOf x)
    have hc1 := canonical_lt_one (wordOf x)
    generalize canonical (wordOf x) = y at *
    -- a point of `Q k` and a point not in it have `t k` between them
    have hbetween : ∀ r s : ℝ, r ∈ Q k → s ∈ Set.Icc (0 : ℝ) 1 → s ∉ Q k → r ≤ t k ∧ t k ≤ s := by
      intro r s hr hs hns
      refine ⟨le_csSup (hbdd k) hr, csSup_le ⟨r, hr⟩ fun z hz => ?_⟩
      by_contra hlt
      exact hns ⟨hs, lt_of_le_of_lt (R.mono _ _ (mul_le_mul_of_nonneg_left (not_le.1 hlt).le hd)) hz.2⟩
    have hxI : x ∈ Set.Icc (0 : ℝ) 1 := ⟨hx0, hx1.le⟩
    have hyI : y ∈ Set.Icc (0 : ℝ) 1 := ⟨hc0, hc1.le⟩
    constructor
    · intro h
      by_contra hn
      obtain ⟨h1, h2⟩ := hbetween y x ⟨hyI, h⟩ hxI fun hq => hn hq.2
      exact hk ⟨by linarith, by linarith⟩
    · intro h
      by_contra hn
      obtain ⟨h1, h2⟩ := hbetween x y ⟨hxI, h⟩ hyI fun hq => hn hq.2
      exact hk ⟨by linarith, by linarith⟩
  unfold unif
  rw [Measure.restrict_apply' measurableSet_Ico]
  refine le_trans (measure_mono hsub) (le_trans (measure_biUnion_finset_le _ _) ?_)
  have hone : ∀ k ∈ Finset.Icc 1 e.allData.length, volume (Set.Icc (t k - ε) (t k + ε)) ≤ ENNReal.ofReal (2 * ε) := by
    intro k _
    rw [Real.volume_Icc]
    apply ENNReal.ofReal_le_ofReal
    linarith
  refine le_trans (Finset.sum_le_sum hone) (le_of_eq ?_)
  rw [Finset.sum_const, Nat.card_Icc, Nat.add_sub_cancel, nsmul_eq_mul, ← ENNReal.ofReal_natCast,
    ← ENNReal.ofReal_mul (Nat.cast_nonneg _)]

end

/-! ## All numbers -/

/-- Two random words for each of `n` rows, uniform on `0, …, 2 ^ 64 - 1`, all of them independent.  (There are no rows
`v ≥ n`; their words are zero by convention.) -/
structure WordDraws {Θ : Type} [MeasurableSpace Θ] (μ : Measure Θ) (n : Nat) (W : Nat → Θ → Fin 2 → Nat) : Prop where
  measurable : ∀ v < n, Measurable (W v)
  independent : iIndepFun (fun v : Fin n => W v) μ
  lt : ∀ v < n, ∀ θ i, W v θ i < 2 ^ 64
  law : ∀ v < n, ∀ w : Fin 2 → Nat, (∀ i, w i < 2 ^ 64) → μ {θ | W v θ = w} = ENNReal.ofReal (1 / 2 ^ 128)
  rest : ∀ v, n ≤ v → ∀ θ, W v θ = fun _ => 0

section
variable {Θ : Type} [MeasurableSpace Θ] {μ : Measure Θ} [IsProbabilityMeasure μ] {n : Nat}
  {W : Nat → Θ → Fin 2 → Nat}
  {Θ' : Type} [MeasurableSpace Θ'] {ν : Measure Θ'} [IsProbabilityMeasure ν] {W' : Nat → Θ' → Fin 2 → Nat}

/-- The law of the words is determined. -/
theorem WordDraws.same (h : WordDraws μ n W) (h' : WordDraws ν n W') (S : Set (Nat → Fin 2 → Nat)) :
    μ {θ | (fun v => W v θ) ∈ S} = ν {θ | (fun v => W' v θ) ∈ S} := by
  have hm : ∀ v : Fin n, Measurable (W v) := fun v => h.measurable v v.2
  have hm' : ∀ v : Fin n, Measurable (W' v) := fun v => h'.measurable v v.2
  have hlaw : μ.map (fun θ (v : Fin n) => W v θ) = ν.map (fun θ (v : Fin n) => W' v θ) := by
    rw [h.independent.map_fun_eq_infinitePi_map hm, h'.independent.map_fun_eq_infinitePi_map hm']
    congr 1
    funext v
    refine Measure.ext_of_singleton fun w => ?_
    rw [Measure.map_apply (hm v) (measurableSet_singleton w), Measure.map_apply (hm' v) (measurableSet_singleton w)]
    by_cases hw : ∀ i, w i < 2 ^ 64
    · exact (h.law v v.2 w hw).trans (h'.law v v.2 w hw).symm
    · push Not at hw
      obtain ⟨i, hi⟩ := hw
      have e1 : W v ⁻¹' {w} = ∅ := by
        ext θ
        simp only [Set.mem_preimage, Set.mem_singleton_iff, Set.mem_empty_iff_false, iff_false]
        intro e
        have := h.lt v v.2 θ i
        rw [e] at this
        omega
      have e2 : W' v ⁻¹' {w} = ∅ := by
        ext θ
        simp only [Set.mem_preimage, Set.mem_singleton_iff, Set.mem_empty_iff_false, iff_false]
        intro e
        have := h'.lt v v.2 θ i
        rw [e] at this
        omega
      rw [e1, e2, measure_empty, measure_empty]
  let ext : (Fin n → Fin 2 → Nat) → Nat → Fin 2 → Nat := fun w v => if hv : v < n then w ⟨v, hv⟩ else fun _ => 0
  have hT : MeasurableSet {w : Fin n → Fin 2 → Nat | ext w ∈ S} := (Set.to_countable _).measurableSet
  have key := congrArg (fun m => m {w : Fin n → Fin 2 → Nat | ext w ∈ S}) hlaw
  rw [Measure.map_apply (measurable_pi_lambda _ hm) hT, Measure.map_apply (measurable_pi_lambda _ hm') hT] at key
  have x1 : ∀ θ, ext (fun v : Fin n => W v θ) = fun v => W v θ := by
    intro θ
    funext v
    by_cases hv : v < n
    · simp only [ext, dif_pos hv]
    · simp only [ext, dif_neg hv]
      exact (h.rest v (not_lt.1 hv) θ).symm
  have x2 : ∀ θ, ext (fun v : Fin n => W' v θ) = fun v => W' v θ := by
    intro θ
    funext v
    by_cases hv : v < n
    · simp only [ext, dif_pos hv]
    · simp only [ext, dif_neg hv]
      exact (h'.rest v (not_lt.1 hv) θ).symm
  have y1 : (fun θ (v : Fin n) => W v θ) ⁻¹' {w : Fin n → Fin 2 → Nat | ext w ∈ S} = {θ | (fun v => W v θ) ∈ S} := by
    ext θ
    show ext (fun v : Fin n => W v θ) ∈ S ↔ (fun v => W v θ) ∈ S
    rw [x1]
  have y2 : (fun θ (v : Fin n) => W' v θ) ⁻¹' {w : Fin n → Fin 2 → Nat | ext w ∈ S} = {θ | (fun v => W' v θ) ∈ S} := by
    ext θ
    show ext (fun v : Fin n => W' v θ) ∈ S ↔ (fun v => W' v θ) ∈ S
    rw [x2]
  rwa [y1, y2] at key

theorem unif_word {w : Nat} (hw : w < 2 ^ 64) : unif {x | wordOf x = w} = ENNReal.ofReal (1 / 2 ^ 64) := by
  have hw1 : ((w + 1 : Nat) : ℝ) / 2 ^ 64 ≤ 1 := by
    rw [div_le_one (by positivity)]
    exact_mod_cast hw
  unfold unif
  rw [Measure.restrict_apply' measurableSet_Ico]
  have hset : {x | wordOf x = w} ∩ Set.Ico 0 1 = Set.Ico ((w : ℝ) / 2 ^ 64) (((w + 1 : Nat) : ℝ) / 2 ^ 64) := by
    ext x
    simp only [Set.mem_inter_iff, Set.mem_ofPred_eq, Set.mem_Ico]
    constructor
    · rintro ⟨h, h0, h1⟩
      have a1 := wordOf_lt_iff h0 h1 (w + 1)
      have a2 := wordOf_lt_iff h0 h1 w
      rw [← a1, ← not_lt, ← a2]
      omega
    · rintro ⟨h2, h3⟩
      have h0 : 0 ≤ x := le_trans (by positivity) h2
      have h1 : x < 1 := lt_of_lt_of_le h3 hw1
      have a1 := wordOf_lt_iff h0 h1 (w + 1)
      have a2 := wordOf_lt_iff h0 h1 w
      rw [← a1] at h3
      rw [← not_lt, ← a2] at h2
      exact ⟨by omega, h0, h1⟩
  rw [hset, Real.volume_Ico]
  congr 1
  push_cast
  ring

theorem measurable_wordOf : Measurable wordOf :=
  Nat.measurable_floor.comp (measurable_const.mul measurable_fract)

/-- The first 64 bits of uniform numbers are uniform words. -/
theorem words_of_draws {U : Nat → Θ → Fin 2 → ℝ} (hU : UniformDraws μ n U) (hrest : ∀ v, n ≤ v → ∀ θ, U v θ = fun _ => 0) :
    WordDraws μ n (fun v θ i => wordOf (U v θ i)) := by
  have hmw : Measurable (fun (x : Fin 2 → ℝ) i => wordOf (x i)) :=
    measurable_pi_lambda _ fun i => measurable_wordOf.comp (measurable_pi_apply i)
  refine ⟨fun v hv => hmw.comp (hU.measurable v hv),
    hU.independent.comp (fun _ x i => wordOf (x i)) (fun _ => hmw), fun v _ θ i => wordOf_lt _, fun v hv w hw => ?_, ?_⟩
  · have h1 : μ {θ | (fun i => wordOf (U v θ i)) = w} = (μ.map (U v)) {x | (fun i => wordOf (x i)) = w} :=
      (Measure.map_apply (hU.measurable v hv) (hmw (measurableSet_singleton w))).symm
    have h2 : {x : Fin 2 → ℝ | (fun i => wordOf (x i)) = w} = Set.univ.pi fun i => {y | wordOf y = w i} := by
      ext x
      simp only [Set.mem_ofPred_eq, Set.mem_pi, Set.mem_univ, true_imp_iff]
      exact funext_iff
    rw [h1, hU.law v hv, h2, Measure.pi_pi, Fin.prod_univ_two, unif_word (hw 0), unif_word (hw 1),
      ← ENNReal.ofReal_mul (by positivity)]
    congr 1
    norm_num
  · intro v hv θ
    funext i
    show wordOf (U v θ i) = 0
    rw [hrest v hv θ]
    unfold wordOf
    simp

end

/-! ## The graphs -/

section
variable {R : Rounding ℝ} {E : LibExp} {data : Mat ℝ} {a : ℝ} {cutoff : Nat} {est : Nat → Nat → List ℝ → ℝ} {tree : KdeTree}

/-- All samples, for given numbers. -/
noncomputable def drawnSamples (R : Rounding ℝ) (E : LibExp) (data : Mat ℝ) (a : ℝ) (tree : KdeTree) (r : Nat → Fin 2 → ℝ)
    (v : Nat) : List Int :=
  (exactOn data a 0 (data.rows - 1)).sampleNeighborsFl R.fl E (data.row v)
    (tree.weightFl R.fl E data a (data.row v)) (List.ofFn (r v))

variable {Θ : Type} [MeasurableSpace Θ] {μ : Measure Θ} [IsProbabilityMeasure μ] {W : Nat → Θ → Fin 2 → Nat}
  {Θ' : Type} [MeasurableSpace Θ'] {ν : Measure Θ'} [IsProbabilityMeasure ν] {U : Nat → Θ' → Fin 2 → ℝ}

/-- **C111** (samples).  Let the data fit into one leaf.  For every set of families of samples, the probability with the
words of the generator and the probability with uniform real numbers differ by at most `n² / 2 ^ 50`. -/
theorem C111_samples (hok : AsgFlOk R E data a cutoff est) (hn : 2 ≤ data.rows) (hc : data.rows ≤ cutoff)
    (htree : tree = KdeTree.build est cutoff 0 0 (data.rows - 1) 0) (hW : WordDraws μ data.rows W)
    (hU : UniformDraws ν data.rows U) (hrest : ∀ v, data.rows ≤ v → ∀ θ, U v θ = fun _ => 0)
    (𝒮 : Set (Nat → List Int)) :
    μ {θ | drawnSamples R E data a tree (fun v i => canonical (W v θ i)) ∈ 𝒮} ≤
      ν {θ | drawnSamples R E data a tree (fun v => U v θ) ∈ 𝒮} + ENNReal.ofReal ((data.rows : ℝ) ^ 2 / 2 ^ 50) ∧
    ν {θ | drawnSamples R E data a tree (fun v => U v θ) ∈ 𝒮} ≤
      μ {θ | drawnSamples R E data a tree (fun v i => canonical (W v θ i)) ∈ 𝒮} +
        ENNReal.ofReal ((data.rows : ℝ) ^ 2 / 2 ^ 50) := by
  have heq := hW.same (words_of_draws hU hrest)
    {w | drawnSamples R E data a tree (fun v i => canonical (w v i)) ∈ 𝒮}
  simp only [Set.mem_ofPred_eq] at heq
  rw [heq]
  have hlen := exactOn_length (data := data) (a := a) 0 (data.rows - 1)
  have hlen' : (exactOn data a 0 (data.rows - 1)).allData.length = data.rows := by rw [hlen]; omega
  let bad : Nat → Set ℝ := fun v => {x | rowOfFl R E (exactOn data a 0 (data.rows - 1)) (data.row v)
      (tree.weightFl R.fl E data a (data.row v)) (canonical (wordOf x)) ≠
    rowOfFl R E (exactOn data a 0 (data.rows - 1)) (data.row v) (tree.weightFl R.fl E data a (data.row v)) x}
  let D : Set Θ' := ⋃ v ∈ Finset.range data.rows, ⋃ i ∈ (Finset.univ : Finset (Fin 2)), {θ | U v θ i ∈ bad v}
  have hD : ν D ≤ ENNReal.ofReal ((data.rows : ℝ) ^ 2 / 2 ^ 50) := by
    have hone : ∀ v ∈ Finset.range data.rows, ∀ i ∈ (Finset.univ : Finset (Fin 2)), ν {θ | U v θ i ∈ bad v} ≤
        ENNReal.ofReal (data.rows * (2 * (1 / 2 ^ 53 + 1 / 2 ^ 64))) := by
      intro v hv i _
      have hv := Finset.mem_range.1 hv
      have h1 := words_row (R := R) (E := E) (exactOn data a 0 (data.rows - 1)) hok.a0 (data.row v)
        (degree := tree.weightFl R.fl E data a (data.row v)) (by
          rw [htree]
          exact le_trans (by norm_num) (leaf_weightFl_big (est := est) hok hn hc hv))
      rw [hlen'] at h1
      refine le_trans ?_ h1
      calc ν {θ | U v θ i ∈ bad v} = ν (U v ⁻¹' (Function.eval i ⁻¹' bad v)) := rfl
        _ ≤ (ν.map (U v)) (Function.eval i ⁻¹' bad v) := Measure.le_map_apply (hU.measurable v hv).aemeasurable _
        _ = (Measure.pi fun _ : Fin 2 => unif) (Function.eval i ⁻¹' bad v) := by rw [hU.law v hv]
        _ ≤ unif (bad v) := (measurePreserving_eval (fun _ : Fin 2 => unif) i).measure_preimage_le _
    refine le_trans (measure_biUnion_finset_le _ _) (le_trans (Finset.sum_le_sum fun v hv =>
      le_trans (measure_biUnion_finset_le _ _) (Finset.sum_le_sum fun i hi => hone v hv i hi)) ?_)
    rw [Finset.sum_const, Finset.sum_const, Finset.card_range, Finset.card_univ, Fintype.card_fin, nsmul_eq_mul, nsmul_eq_mul,
      ← ENNReal.ofReal_natCast, ← ENNReal.ofReal_natCast, ← ENNReal.ofReal_mul (Nat.cast_nonneg _),
      ← ENNReal.ofReal_mul (Nat.cast_nonneg _)]
    apply ENNReal.ofReal_le_ofReal
    have h0 : (0 : ℝ) ≤ (data.rows : ℝ) ^ 2 := by positivity
    have h1 : (4 * (1 / 2 ^ 53 + 1 / 2 ^ 64) : ℝ) ≤ 1 / 2 ^ 50 := by norm_num
    have h2 := mul_le_mul_of_nonneg_left h1 h0
    push_cast
    rw [div_eq_mul_one_div ((data.rows : ℝ) ^ 2)]
    refine le_trans (le_of_eq ?_) h2
    ring
  have hsame : ∀ θ, θ ∉ D → drawnSamples R E data a tree (fun v i => canonical (wordOf (U v θ i))) =
      drawnSamples R E data a tree (fun v => U v θ) := by
    intro θ hθ
    funext v
    unfold drawnSamples
    rw [sampleNeighborsFl_eq, sampleNeighborsFl_eq, List.map_ofFn, List.map_ofFn]
    congr 3
    funext i
    simp only [Function.comp_apply]
    by_cases hv : v < data.rows
    · by_contra hne
      exact hθ (Set.mem_biUnion (Finset.mem_coe.2 (Finset.mem_range.2 hv))
        (Set.mem_biUnion (Finset.mem_coe.2 (Finset.mem_univ i)) hne))
    · have h0 := hrest v (not_lt.1 hv) θ
      rw [h0]
      have hz : wordOf (0 : ℝ) = 0 := by unfold wordOf; simp
      have hcz : canonical 0 = 0 := by
        rw [canonical_eq, Nat.cast_zero, flBin_zero, zero_div, if_neg (by norm_num)]
      simp only [hz, hcz]
  constructor
  · refine le_trans (measure_mono (t := {θ | drawnSamples R E data a tree (fun v => U v θ) ∈ 𝒮} ∪ D) fun θ hθ => ?_)
      (le_trans (measure_union_le _ _) (by gcongr))
    by_cases hd : θ ∈ D
    · exact .inr hd
    · exact .inl (show drawnSamples R E data a tree (fun v => U v θ) ∈ 𝒮 from hsame θ hd ▸ hθ)
  · refine le_trans (measure_mono (t := {θ | drawnSamples R E data a tree (fun v i => canonical (wordOf (U v θ i))) ∈ 𝒮} ∪ D)
      fun θ hθ => ?_) (le_trans (measure_union_le _ _) (by gcongr))
    by_cases hd : θ ∈ D
    · exact .inr hd
    · exact .inl (show drawnSamples R E data a tree (fun v i => canonical (wordOf (U v θ i))) ∈ 𝒮 from (hsame θ hd).symm ▸ hθ)


/-- Uniform numbers for the rows, and zero beyond. -/
theorem draws_with_rest (n : Nat) : ∃ (Θ : Type) (_ : MeasurableSpace Θ) (μ : Measure Θ) (U : Nat → Θ → Fin 2 → ℝ),
    IsProbabilityMeasure μ ∧ UniformDraws μ n U ∧ ∀ v, n ≤ v → ∀ θ, U v θ = fun _ => 0 := by
  classical
  obtain ⟨Θ, mΘ, μ, U, hμ, hU⟩ := uniformDraws_exist n
  refine ⟨Θ, mΘ, μ, fun v => if v < n then U v else fun _ _ => 0, hμ, ⟨fun v hv => ?_, ?_, fun v hv => ?_⟩, fun v hv θ => ?_⟩
  · simp only [if_pos hv]
    exact hU.measurable v hv
  · have : (fun v : Fin n => if (v : Nat) < n then U v else fun _ _ => 0) = fun v : Fin n => U v := by
      funext v
      exact if_pos v.2
    rw [this]
    exact hU.independent
  · simp only [if_pos hv]
    exact hU.law v hv
  · simp only [if_neg (not_lt.2 hv)]

/-- The hypotheses are met: there are such words. -/
theorem wordDraws_exist (n : Nat) : ∃ (Θ : Type) (_ : MeasurableSpace Θ) (μ : Measure Θ) (W : Nat → Θ → Fin 2 → Nat),
    IsProbabilityMeasure μ ∧ WordDraws μ n W := by
  obtain ⟨Θ, mΘ, μ, U, hμ, hU, hrest⟩ := draws_with_rest n
  exact ⟨Θ, mΘ, μ, _, hμ, words_of_draws hU hrest⟩

/-- **C111** (components).  C101 with the words of the generator: the connected components of the computed graph are
exactly the rows of equal labels, except with the probability of C101 plus `n² / 2 ^ 50`. -/
theorem C111_components (hok : AsgFlOk R E data a cutoff est) (threads : Nat) (ht : 0 < threads)
    (hn : 2 ≤ data.rows) (hc : data.rows ≤ cutoff) (htree : tree = KdeTree.build est cutoff 0 0 (data.rows - 1) 0)
    (hW : WordDraws μ data.rows W) (cl : Nat → Nat) {κ : ℝ} (hκ : 0 < κ)
    (hk : ∀ u < data.rows, ∀ v < data.rows, cl u = cl v → κ ≤ exp (-(a * sqDist (data.row u) (data.row v))))
    (hκ1 : (data.rows / ((data.rows - 1) * κ)) ^ 2 ≤ (11 / 10 : ℝ)) :
    μ {θ | ¬ ∃ g : Graph ℝ,
        (∃ out, AsgFromFl R.fl data.rows threads 2 (fun v => tree.weightFl R.fl E data a (data.row v))
          (fun v => (exactOn data a 0 (data.rows - 1)).sampleNeighborsFl R.fl E (data.row v)
            (tree.weightFl R.fl E data a (data.row v)) (List.ofFn fun i => canonical (W v θ i))) out) ∧
        (∀ out, AsgFromFl R.fl data.rows threads 2 (fun v => tree.weightFl R.fl E data a (data.row v))
          (fun v => (exactOn data a 0 (data.rows - 1)).sampleNeighborsFl R.fl E (data.row v)
            (tree.weightFl R.fl E data a (data.row v)) (List.ofFn fun i => canonical (W v θ i))) out → out = .ok g) ∧
        g.Valid ∧ g.Pruned ∧ g.n = data.rows ∧
        ∀ u < data.rows, ∀ v < data.rows, (g.abs.Connected u v ↔ cl u = cl v)} ≤
      ENNReal.ofReal (
        4 * ∑ u ∈ Finset.range data.rows, ∑ v ∈ (Finset.range data.rows).filter (fun v => cl v ≠ cl u),
          exp (-(a * sqDist (data.row u) (data.row v)))
        + ∑ c ∈ (Finset.range data.rows).image cl, (8 / (((Finset.range data.rows).filter fun v => cl v = c).card : ℝ)
          + ((Finset.range data.rows).filter fun v => cl v = c).card *
            (9 / 10) ^ ((Finset.range data.rows).filter fun v => cl v = c).card))
      + ENNReal.ofReal (16 * data.rows ^ 2 * totalErr R E data.rows data.cols)
      + ENNReal.ofReal ((data.rows : ℝ) ^ 2 / 2 ^ 50) := by
  obtain ⟨Θ', mΘ', ν, U, hν, hU, hrest⟩ := draws_with_rest data.rows
  refine le_trans (C111_samples hok hn hc htree hW hU hrest {ss | ¬ ∃ g : Graph ℝ,
        (∃ out, AsgFromFl R.fl data.rows threads 2 (fun v => tree.weightFl R.fl E data a (data.row v)) ss out) ∧
        (∀ out, AsgFromFl R.fl data.rows threads 2 (fun v => tree.weightFl R.fl E data a (data.row v)) ss out → out = .ok g) ∧
        g.Valid ∧ g.Pruned ∧ g.n = data.rows ∧
        ∀ u < data.rows, ∀ v < data.rows, (g.abs.Connected u v ↔ cl u = cl v)}).1 ?_
  gcongr
  exact C101_components hok threads ht hn hc htree hU cl hκ hk hκ1

/-- **C111** (cuts).  C106 with the words of the generator: cuts and weights of the computed graph, up to `n² / 2 ^ 50` in the probability. -/
theorem C111_cuts (hok : AsgFlOk R E data a cutoff est) (threads : Nat) (ht : 0 < threads)
    (hn : 2 ≤ data.rows) (hc : data.rows ≤ cutoff) (htree : tree = KdeTree.build est cutoff 0 0 (data.rows - 1) 0)
    (hW : WordDraws μ data.rows W) (F : Finset (Finset Nat)) (hF : ∀ S ∈ F, S ⊆ Finset.range data.rows) (ε : ℝ)
    (hε : 0 < ε) (ρ : ℝ) (hρ : ρ = edgeErr R E data.rows data.cols) :
    μ {θ | ¬ ∃ g : Graph ℝ,
        (∃ out, AsgFromFl R.fl data.rows threads 2 (fun v => tree.weightFl R.fl E data a (data.row v))
          (fun v => (exactOn data a 0 (data.rows - 1)).sampleNeighborsFl R.fl E (data.row v)
            (tree.weightFl R.fl E data a (data.row v)) (List.ofFn fun i => canonical (W v θ i))) out) ∧
        (∀ out, AsgFromFl R.fl data.rows threads 2 (fun v => tree.weightFl R.fl E data a (data.row v))
          (fun v => (exactOn data a 0 (data.rows - 1)).sampleNeighborsFl R.fl E (data.row v)
            (tree.weightFl R.fl E data a (data.row v)) (List.ofFn fun i => canonical (W v θ i))) out → out = .ok g) ∧
        g.Valid ∧ g.Pruned ∧ g.n = data.rows ∧ ∀ S ∈ F, ∀ c v : ℝ,
          c = 4 / 5 * ∑ u ∈ S, ∑ v ∈ Finset.range data.rows \ S, exp (-(a * sqDist (data.row u) (data.row v))) →
          v = 4 / 5 * ∑ u ∈ S, ∑ v ∈ Finset.range data.rows, exp (-(a * sqDist (data.row u) (data.row v))) →
          |g.abs.cut S - c| < (ε + 2 / 5 * averageKernelDegree data a) + ρ * (c + (ε + 2 / 5 * averageKernelDegree data a)) ∧
          |∑ u ∈ S, ∑ v ∈ Finset.range data.rows, g.abs.w u v - v|
            < (ε + 4 / 5 * averageKernelDegree data a) + ρ * (v + (ε + 4 / 5 * averageKernelDegree data a))} ≤
      ENNReal.ofReal (4 * F.card *
        exp (-(25 * ε ^ 2 / ∑ u ∈ Finset.range data.rows, kernelDegree data a u ^ 2)))
      + ENNReal.ofReal (16 * data.rows ^ 2 * totalErr R E data.rows data.cols)
      + ENNReal.ofReal ((data.rows : ℝ) ^ 2 / 2 ^ 50) := by
  obtain ⟨Θ', mΘ', ν, U, hν, hU, hrest⟩ := draws_with_rest data.rows
  refine le_trans (C111_samples hok hn hc htree hW hU hrest {ss | ¬ ∃ g : Graph ℝ,
        (∃ out, AsgFromFl R.fl data.rows threads 2 (fun v => tree.weightFl R.fl E data a (data.row v))
          ss out) ∧
        (∀ out, AsgFromFl R.fl data.rows threads 2 (fun v => tree.weightFl R.fl E data a (data.row v))
          ss out → out = .ok g) ∧
        g.Valid ∧ g.Pruned ∧ g.n = data.rows ∧ ∀ S ∈ F, ∀ c v : ℝ,
          c = 4 / 5 * ∑ u ∈ S, ∑ v ∈ Finset.range data.rows \ S, exp (-(a * sqDist (data.row u) (data.row v))) →
          v = 4 / 5 * ∑ u ∈ S, ∑ v ∈ Finset.range data.rows, exp (-(a * sqDist (data.row u) (data.row v))) →
          |g.abs.cut S - c| < (ε + 2 / 5 * averageKernelDegree data a) + ρ * (c + (ε + 2 / 5 * averageKernelDegree data a)) ∧
          |∑ u ∈ S, ∑ v ∈ Finset.range data.rows, g.abs.w u v - v|
            < (ε + 4 / 5 * averageKernelDegree data a) + ρ * (v + (ε + 4 / 5 * averageKernelDegree data a))}).1 ?_
  gcongr
  exact C106_cuts hok threads ht hn hc htree hU F hF ε hε ρ hρ

/-- **C111** (conductance).  C106 with the words of the generator: computed conductances, up to `n² / 2 ^ 50` in the probability. -/
theorem C111_conductance (hok : AsgFlOk R E data a cutoff est) (threads : Nat) (ht : 0 < threads)
    (hn : 2 ≤ data.rows) (hc : data.rows ≤ cutoff) (htree : tree = KdeTree.build est cutoff 0 0 (data.rows - 1) 0)
    (hW : WordDraws μ data.rows W) (F : Finset (Finset Nat)) (hF : ∀ S ∈ F, S ⊆ Finset.range data.rows) (ε : ℝ)
    (hε : 0 < ε) (ρ : ℝ) (hρ : ρ = edgeErr R E data.rows data.cols) (η : ℝ) (hη : η = ε + 4 / 5 * averageKernelDegree data a) :
    μ {θ | ¬ ∃ g : Graph ℝ,
        (∃ out, AsgFromFl R.fl data.rows threads 2 (fun v => tree.weightFl R.fl E data a (data.row v))
          (fun v => (exactOn data a 0 (data.rows - 1)).sampleNeighborsFl R.fl E (data.row v)
            (tree.weightFl R.fl E data a (data.row v)) (List.ofFn fun i => canonical (W v θ i))) out) ∧
        (∀ out, AsgFromFl R.fl data.rows threads 2 (fun v => tree.weightFl R.fl E data a (data.row v))
          (fun v => (exactOn data a 0 (data.rows - 1)).sampleNeighborsFl R.fl E (data.row v)
            (tree.weightFl R.fl E data a (data.row v)) (List.ofFn fun i => canonical (W v θ i))) out → out = .ok g) ∧
        ∀ (S : List Nat) (c v η' : ℝ), S.Nodup → S.toFinset ∈ F →
          c = 4 / 5 * ∑ u ∈ S.toFinset, ∑ v ∈ Finset.range data.rows \ S.toFinset, exp (-(a * sqDist (data.row u) (data.row v))) →
          v = 4 / 5 * ∑ u ∈ S.toFinset, ∑ v ∈ Finset.range data.rows, exp (-(a * sqDist (data.row u) (data.row v))) →
          η' = η + ρ * (v + η) → η' < v →
          ∃ φ, conductanceFl R.fl (g.asLocalFl R.fl) (S.map fun u : Nat => (u : Int)) = .ok φ ∧
            (c - η') / (v + η') ≤ (1 / (1 - R.u)) ^ ((2 * data.rows + 1) * S.length + 1) * φ ∧
            φ ≤ (1 / (1 - R.u)) ^ ((2 * data.rows + 1) * S.length + 1) * ((c + η') / (v - η'))} ≤
      ENNReal.ofReal (4 * F.card *
        exp (-(25 * ε ^ 2 / ∑ u ∈ Finset.range data.rows, kernelDegree data a u ^ 2)))
      + ENNReal.ofReal (16 * data.rows ^ 2 * totalErr R E data.rows data.cols)
      + ENNReal.ofReal ((data.rows : ℝ) ^ 2 / 2 ^ 50) := by
  obtain ⟨Θ', mΘ', ν, U, hν, hU, hrest⟩ := draws_with_rest data.rows
  refine le_trans (C111_samples hok hn hc htree hW hU hrest {ss | ¬ ∃ g : Graph ℝ,
        (∃ out, AsgFromFl R.fl data.rows threads 2 (fun v => tree.weightFl R.fl E data a (data.row v))
          ss out) ∧
        (∀ out, AsgFromFl R.fl data.rows threads 2 (fun v => tree.weightFl R.fl E data a (data.row v))
          ss out → out = .ok g) ∧
        ∀ (S : List Nat) (c v η' : ℝ), S.Nodup → S.toFinset ∈ F →
          c = 4 / 5 * ∑ u ∈ S.toFinset, ∑ v ∈ Finset.range data.rows \ S.toFinset, exp (-(a * sqDist (data.row u) (data.row v))) →
          v = 4 / 5 * ∑ u ∈ S.toFinset, ∑ v ∈ Finset.range data.rows, exp (-(a * sqDist (data.row u) (data.row v))) →
          η' = η + ρ * (v + η) → η' < v →
          ∃ φ, conductanceFl R.fl (g.asLocalFl R.fl) (S.map fun u : Nat => (u : Int)) = .ok φ ∧
            (c - η') / (v + η') ≤ (1 / (1 - R.u)) ^ ((2 * data.rows + 1) * S.length + 1) * φ ∧
            φ ≤ (1 / (1 - R.u)) ^ ((2 * data.rows + 1) * S.length + 1) * ((c + η') / (v - η'))}).1 ?_
  gcongr
  exact C106_conductance hok threads ht hn hc htree hU F hF ε hε ρ hρ η hη

end

/-- One thousand points at 0 and one thousand points at 5, in double precision and with 64-bit words: except with
probability `1 / 50` the connected components of the computed graph are the two groups. -/
example (E : LibExp) (hη : E.η ≤ (2 : ℝ) ^ (-52 : Int)) (hτ : E.τ ≤ (2 : ℝ) ^ (-52 : Int)) :
    ∃ (Θ : Type) (_ : MeasurableSpace Θ) (μ : Measure Θ) (W : Nat → Θ → Fin 2 → Nat)
    (data : Mat ℝ) (tree : KdeTree), IsProbabilityMeasure μ ∧ data.rows = 2000 ∧
    (∀ v < 1000, data.row v = [0]) ∧ (∀ v, 1000 ≤ v → v < 2000 → data.row v = [5]) ∧
    tree = KdeTree.build (fun _ _ _ => 0) 5000 0 0 (data.rows - 1) 0 ∧ WordDraws μ data.rows W ∧
    μ {θ | ¬ ∃ g : Graph ℝ,
        (∀ out, AsgFromFl (flBin 53) data.rows 4 2 (fun v => tree.weightFl (flBin 53) E data 1 (data.row v))
          (fun v => (exactOn data 1 0 (data.rows - 1)).sampleNeighborsFl (flBin 53) E (data.row v)
            (tree.weightFl (flBin 53) E data 1 (data.row v)) (List.ofFn fun i => canonical (W v θ i))) out → out = .ok g) ∧
        ∀ u < 2000, ∀ v < 2000, (g.abs.Connected u v ↔ (u < 1000 ↔ v < 1000))} ≤ ENNReal.ofReal (1 / 50) := by
  obtain ⟨data, cl, hrows, hcols, r0, r1, hcl', hsame, hbound⟩ := twoGroups_exist
  obtain ⟨Θ, hΘ, μ, W, hμ, hW⟩ := wordDraws_exist data.rows
  refine ⟨Θ, hΘ, μ, W, data, _, hμ, hrows, r0, r1, rfl, hW, ?_⟩
  have hok := C100_double E data 1 (by norm_num) 5000 (fun _ _ _ => 0) (by rw [hrows]; norm_num) (by rw [hrows]; norm_num)
  have hd := C101_double E hη hτ data.rows data.cols (by rw [hrows]; norm_num) (by rw [hrows]; norm_num) (by rw [hcols]; norm_num)
  refine le_trans (measure_mono fun θ hθ => ?_) (le_trans (C111_components hok 4 (by norm_num) (by rw [hrows]; norm_num)
    (by rw [hrows]; norm_num) rfl hW cl (κ := 1) one_pos ?_ ?_) ?_)
  · rw [Set.mem_ofPred_eq] at hθ ⊢
    refine fun hex => hθ ?_
    obtain ⟨g, -, h2, -, -, -, h5⟩ := hex
    refine ⟨g, h2, fun u hu v hv => ?_⟩
    rw [h5 u (by omega) v (by omega), hcl' u hu v hv]
  · intro u hu v hv h
    rw [hrows] at hu hv
    exact (hsame u hu v hv h).ge
  · rw [hrows]
    norm_num
  · refine le_trans (add_le_add (add_le_add (ENNReal.ofReal_le_ofReal hbound) (ENNReal.ofReal_le_ofReal (q := 1 / 1000) ?_))
      (ENNReal.ofReal_le_ofReal (q := 1 / 2000) ?_)) ?_
    · generalize totalErr (Rounding.binary ℝ 53 (by norm_num)) E data.rows data.cols = τ at *
      rw [hrows, hcols] at *
      have := hd.2
      norm_num at this ⊢
      linarith
    · rw [hrows]
      norm_num
    · rw [← ENNReal.ofReal_add (by norm_num) (by norm_num), ← ENNReal.ofReal_add (by norm_num) (by norm_num)]
      exact ENNReal.ofReal_le_ofReal (by norm_num)

end Stag
