import Verif.Props.SbmConsistent
import Verif.Props.RoundingIndex
import Mathlib.Probability.Independence.InfinitePi

/-!
# C110: random graphs with the real random numbers

The generator of the library is `std::mt19937_64`: words of 64 bits, `2 ^ 64` different ones.  A coin with
probability `p` turns one word into a double in `[0, 1)` and compares it with `p`.  So the probability of the
coin is not `p`, but the number of words below a threshold over `2 ^ 64`.  It differs from `p` by less than
`1.0005 * 2 ^ (-53)`, and every statement about the results of `general_sbm`, `sbm` and `erdos_renyi` (and of
`general_sbm_edgelist`) in exact mode has the same probability as with exact coins, up to `n² / 2 ^ 53`.
-/

set_option linter.unusedSectionVars false
set_option exponentiation.threshold 2000

open MeasureTheory ProbabilityTheory

namespace Stag

/-- `std::generate_canonical<double, 53>` of libstdc++ with a 64-bit generator: one word, converted to double,
divided by `2 ^ 64`; if the result is (rounded to) one, the largest double below one.  The word `w` is the value
of the library's generator (`stag_lib/random.cpp:10-20`) at the draw. -/
noncomputable def canonical (w : Nat) : ℝ :=
  let r := flBin 53 (flBin 53 (w : ℝ) / 2 ^ 64)
  if 1 ≤ r then 1 - 1 / 2 ^ 53 else r

theorem canonical_eq (w : Nat) : canonical w =
    if 1 ≤ flBin 53 (w : ℝ) / 2 ^ 64 then 1 - 1 / 2 ^ 53 else flBin 53 (w : ℝ) / 2 ^ 64 := by
  have h : flBin 53 (flBin 53 (w : ℝ) / 2 ^ 64) = flBin 53 (w : ℝ) / 2 ^ 64 := by
    have := flBin_scale 53 (-(64 : Nat) : Int) (flBin 53 (w : ℝ))
    rw [zpow_neg, zpow_natCast, ← div_eq_mul_inv, flBin_idem (by norm_num), ← div_eq_mul_inv] at this
    exact this
  unfold canonical
  simp only [h]

theorem canonical_nonneg (w : Nat) : 0 ≤ canonical w := by
  have h := flBin_ge_down (K := ℝ) (x := (w : ℝ)) (Nat.cast_nonneg w)
  have h2 : (0 : ℝ) ≤ (w : ℝ) * (1 - 1 / 2 ^ 53) := mul_nonneg (Nat.cast_nonneg w) (by norm_num)
  rw [canonical_eq]
  split_ifs
  · norm_num
  · exact div_nonneg (le_trans h2 h) (by positivity)

theorem canonical_lt_one (w : Nat) : canonical w < 1 := by
  rw [canonical_eq]
  split_ifs with h
  · norm_num
  · exact not_le.1 h

theorem canonical_mono {v w : Nat} (h : v ≤ w) (hlt : ∀ x : ℝ, x < 1 → (∃ a : Nat, x = flBin 53 (a : ℝ) / 2 ^ 64) →
    x ≤ 1 - 1 / 2 ^ 53) : canonical v ≤ canonical w := by
  have hm := flBin_mono (p := 53) (by norm_num) (show (v : ℝ) ≤ w by exact_mod_cast h)
  have hd : flBin 53 (v : ℝ) / 2 ^ 64 ≤ flBin 53 (w : ℝ) / 2 ^ 64 := by gcongr
  rw [canonical_eq, canonical_eq]
  split_ifs with h1 h2
  · exact le_refl _
  · exact absurd (le_trans h1 hd) h2
  · exact hlt _ (not_le.1 h1) ⟨v, rfl⟩
  · exact hd

/-- No double lies between `1 - 2 ^ (-53)` and `1`. -/
theorem below_one (x : ℝ) (h : x < 1) (hx : ∃ a : Nat, x = flBin 53 (a : ℝ) / 2 ^ 64) : x ≤ 1 - 1 / 2 ^ 53 := by
  obtain ⟨a, rfl⟩ := hx
  by_contra hn
  have hn := not_le.1 hn
  -- the integer nearest to it
  have hfix : flBin 53 (flBin 53 (a : ℝ) / 2 ^ 64) = flBin 53 (a : ℝ) / 2 ^ 64 := by
    have := flBin_scale 53 (-(64 : Nat) : Int) (flBin 53 (a : ℝ))
    rw [zpow_neg, zpow_natCast, ← div_eq_mul_inv, flBin_idem (by norm_num), ← div_eq_mul_inv] at this
    exact this
  obtain ⟨y, hy⟩ : ∃ y, y = flBin 53 (a : ℝ) / 2 ^ 64 := ⟨_, rfl⟩
  rw [← hy] at h hn hfix
  have hy0 : (2 : ℝ) ^ (-1 : Int) ≤ |y| := by
    rw [abs_of_pos (lt_trans (by norm_num) hn), zpow_neg, zpow_one]
    have : (2 : ℝ)⁻¹ < 1 - 1 / 2 ^ 53 := by norm_num
    linarith
  have hy1 : |y| < 1 := by
    rw [abs_of_pos (lt_trans (by norm_num) hn)]; exact h
  have hypos : 0 < |y| := lt_of_lt_of_le (by positivity) hy0
  have hlog : Int.log 2 |y| = -1 := by
    apply le_antisymm
    · apply Int.lt_add_one_iff.1
      rw [← Int.lt_zpow_iff_log_lt one_lt_two hypos]
      simpa using hy1
    · rw [← Int.zpow_le_iff_le_log one_lt_two hypos]
      exact_mod_cast hy0
  have hulp : ulp 53 y = 1 / 2 ^ 53 := by
    unfold ulp
    rw [hlog]
    norm_num
  unfold flBin at hfix
  rw [hulp] at hfix
  obtain ⟨z, hz⟩ : ∃ z, z = roundEven (y / (1 / 2 ^ 53)) := ⟨_, rfl⟩
  rw [← hz] at hfix
  have h1 : (z : ℝ) < 2 ^ 53 := by
    have : (z : ℝ) = y * 2 ^ 53 := by rw [← hfix]; field_simp
    rw [this]
    have : (0 : ℝ) < 2 ^ 53 := by positivity
    nlinarith
  have h2 : (2 : ℝ) ^ 53 - 1 < z := by
    have : (z : ℝ) = y * 2 ^ 53 := by rw [← hfix]; field_simp
    rw [this]
    have h3 := mul_lt_mul_of_pos_right hn (show (0 : ℝ) < 2 ^ 53 by positivity)
    have e : (1 - 1 / 2 ^ 53 : ℝ) * 2 ^ 53 = 2 ^ 53 - 1 := by norm_num
    linarith
  have h1' : z < 2 ^ 53 := by exact_mod_cast h1
  have h2' : (2 : Int) ^ 53 - 1 < z := by exact_mod_cast h2
  omega

/-- The coin compares the word with a threshold: for `0 ≤ p ≤ 1` there is a `T`, near `2 ^ 64 * p`, such that a
word gives heads if and only if it is less than `T`. -/
theorem coin_threshold {p : ℝ} (h0 : 0 ≤ p) (h1 : p ≤ 1) : ∃ T : Nat, (T : ℝ) / 2 ^ 64 ≤ 1 ∧
    (∀ w, w < 2 ^ 64 → (canonical w < p ↔ w < T)) ∧ |(T : ℝ) / 2 ^ 64 - p| ≤ 1 / 2 ^ 53 + 1 / 2 ^ 64 := by
  obtain ⟨N, hN⟩ : ∃ N : Nat, N = 2 ^ 64 := ⟨_, rfl⟩
  have hNr : (N : ℝ) = 2 ^ 64 := by rw [hN]; norm_num
  rw [← hN, ← hNr]
  have hNpos : (0 : ℝ) < N := by rw [hNr]; positivity
  obtain ⟨u, hu⟩ : ∃ u : ℝ, u = 1 / 2 ^ 53 := ⟨_, rfl⟩
  have hu0 : 0 < u := by rw [hu]; positivity
  have hup : ∀ w : Nat, canonical w ≤ (w : ℝ) / N * (1 + u) := by
    intro w
    have h := flBin_le_up (K := ℝ) (x := (w : ℝ)) (Nat.cast_nonneg w)
    rw [← hu] at h
    have h2 : flBin 53 (w : ℝ) / 2 ^ 64 ≤ (w : ℝ) / N * (1 + u) := by
      rw [← hNr, div_mul_eq_mul_div]
      gcongr
    rw [canonical_eq]
    split_ifs with hc
    · exact le_trans (by norm_num) (le_trans hc h2)
    · exact h2
  have hdown : ∀ w : Nat, canonical w < p → w < N → (w : ℝ) / N ≤ p + u := by
    intro w hw hwN
    have h := flBin_ge_down (K := ℝ) (x := (w : ℝ)) (Nat.cast_nonneg w)
    rw [← hu] at h
    have hw1 : (w : ℝ) / N ≤ 1 := by
      rw [div_le_one hNpos]; exact_mod_cast hwN.le
    rw [canonical_eq] at hw
    split_ifs at hw with hc
    · rw [← hu] at hw; linarith
    · have h2 : (w : ℝ) / N * (1 - u) ≤ flBin 53 (w : ℝ) / 2 ^ 64 := by
        rw [← hNr, div_mul_eq_mul_div]
        gcongr
      have h3 : (w : ℝ) / N * u ≤ 1 * u := mul_le_mul_of_nonneg_right hw1 hu0.le
      linarith
  rw [← hu]
  by_cases hall : ∀ w, w < N → canonical w < p
  · refine ⟨N, by rw [div_self hNpos.ne'], fun w hw => ⟨fun _ => hw, fun _ => hall w hw⟩, ?_⟩
    rw [div_self hNpos.ne', abs_of_nonneg (by linarith)]
    have hpos : 0 < N := by exact_mod_cast hNpos
    have h3 := hdown (N - 1) (hall _ (by omega)) (by omega)
    rw [Nat.cast_sub (by omega), sub_div, div_self hNpos.ne', Nat.cast_one] at h3
    linarith
  · have hex : ∃ w, w < N ∧ ¬ canonical w < p := by
      by_contra hn
      exact hall fun w hw => by
        by_contra hc
        exact hn ⟨w, hw, hc⟩
    classical
    obtain ⟨hT1, hT2⟩ := Nat.find_spec hex
    have hmin := fun w (hw : w < Nat.find hex) => Nat.find_min hex hw
    obtain ⟨T, hT⟩ : ∃ T, T = Nat.find hex := ⟨_, rfl⟩
    rw [← hT] at hT1 hT2 hmin
    have hT3 : (T : ℝ) / N ≤ 1 := by rw [div_le_one hNpos]; exact_mod_cast hT1.le
    refine ⟨T, hT3, fun w hw => ⟨fun hc => ?_, fun hc => ?_⟩, ?_⟩
    · by_contra hn
      exact hT2 (lt_of_le_of_lt (canonical_mono (not_lt.1 hn) below_one) hc)
    · by_contra hn
      exact hmin w hc ⟨hw, hn⟩
    · have hlow := le_trans (not_lt.1 hT2) (hup T)
      have h3 : (T : ℝ) / N * u ≤ 1 * u := mul_le_mul_of_nonneg_right hT3 hu0.le
      have hN1 : 0 < 1 / (N : ℝ) := by positivity
      rw [abs_le]
      constructor
      · linarith
      · rcases Nat.eq_zero_or_pos T with hz | hz
        · rw [hz, Nat.cast_zero, zero_div]; linarith
        · have hlt : canonical (T - 1) < p := by
            by_contra hn
            exact hmin (T - 1) (by omega) ⟨by omega, hn⟩
          have h4 := hdown (T - 1) hlt (by omega)
          rw [Nat.cast_sub (by omega), sub_div, Nat.cast_one] at h4
          linarith

/-! ## The words -/

section
variable {Θ : Type} [MeasurableSpace Θ] (μ : Measure Θ) [IsProbabilityMeasure μ]

/-- Independent random words, uniform on `0, …, 2 ^ 64 - 1`. -/
structure UniformWords (W : Nat → Θ → Nat) : Prop where
  meas : ∀ n, Measurable (W n)
  indep : iIndepFun W μ
  lt : ∀ n θ, W n θ < 2 ^ 64
  unif : ∀ n w, w < 2 ^ 64 → μ {θ | W n θ = w} = ENNReal.ofReal (1 / 2 ^ 64)

variable {μ} {W : Nat → Θ → Nat}

theorem UniformWords.below (h : UniformWords μ W) (n : Nat) {T : Nat} (hT : T ≤ 2 ^ 64) :
    μ {θ | W n θ < T} = ENNReal.ofReal ((T : ℝ) / 2 ^ 64) := by
  have hset : {θ | W n θ < T} = ⋃ w ∈ Finset.range T, {θ | W n θ = w} := by
    ext θ
    simp
  rw [hset, measure_biUnion_finset]
  · rw [Finset.sum_congr rfl fun w hw => h.unif n w (lt_of_lt_of_le (Finset.mem_range.1 hw) hT),
      Finset.sum_const, Finset.card_range, nsmul_eq_mul, ← ENNReal.ofReal_natCast,
      ← ENNReal.ofReal_mul (Nat.cast_nonneg T)]
    congr 1
    ring
  · intro a _ b _ hab
    rw [Function.onFun, Set.disjoint_left]
    intro θ h1 h2
    exact hab (h1.symm.trans h2)
  · intro w _
    exact h.meas n (measurableSet_singleton w)

/-- **C110** (the coin).  With a uniform random word of 64 bits, the coin of the library with probability `p`
gives heads with probability `p`, up to `2 ^ (-53) + 2 ^ (-64)`. -/
theorem C110_coin (h : UniformWords μ W) (n : Nat) {p : ℝ} (h0 : 0 ≤ p) (h1 : p ≤ 1) :
    |μ.real {θ | canonical (W n θ) < p} - p| ≤ 1 / 2 ^ 53 + 1 / 2 ^ 64 := by
  obtain ⟨T, hT1, hT2, hT3⟩ := coin_threshold h0 h1
  have hT : T ≤ 2 ^ 64 := by
    rw [div_le_one (by positivity)] at hT1
    exact_mod_cast hT1
  have hset : {θ | canonical (W n θ) < p} = {θ | W n θ < T} := by
    ext θ
    exact hT2 _ (h.lt n θ)
  rw [hset, measureReal_def, h.below n hT, ENNReal.toReal_ofReal (by positivity)]
  exact hT3

/-- The law of the words is determined. -/
theorem UniformWords.law {Θ' : Type} [MeasurableSpace Θ'] {ν : Measure Θ'} [IsProbabilityMeasure ν]
    {W' : Nat → Θ' → Nat} (h : UniformWords μ W) (h' : UniformWords ν W') :
    μ.map (fun θ n => W n θ) = ν.map (fun θ n => W' n θ) := by
  rw [h.indep.map_fun_eq_infinitePi_map h.meas, h'.indep.map_fun_eq_infinitePi_map h'.meas]
  congr 1
  funext n
  refine Measure.ext_of_singleton fun w => ?_
  rw [Measure.map_apply (h.meas n) (measurableSet_singleton w),
    Measure.map_apply (h'.meas n) (measurableSet_singleton w)]
  by_cases hw : w < 2 ^ 64
  · exact (h.unif n w hw).trans (h'.unif n w hw).symm
  · have e1 : W n ⁻¹' {w} = ∅ := by
      ext θ
      simp only [Set.mem_preimage, Set.mem_singleton_iff, Set.mem_empty_iff_false, iff_false]
      intro e
      exact hw (e ▸ h.lt n θ)
    have e2 : W' n ⁻¹' {w} = ∅ := by
      ext θ
      simp only [Set.mem_preimage, Set.mem_singleton_iff, Set.mem_empty_iff_false, iff_false]
      intro e
      exact hw (e ▸ h'.lt n θ)
    rw [e1, e2, measure_empty, measure_empty]

end

/-! ## Words from real numbers -/

section
variable {Θ : Type} [MeasurableSpace Θ] {μ : Measure Θ} [IsProbabilityMeasure μ]
  {X : Nat → Θ → ℝ} (hm : ∀ n, Measurable (X n)) (hind : iIndepFun X μ)
  (hunif : ∀ n p, 0 ≤ p → p ≤ 1 → μ {θ | X n θ < p} = ENNReal.ofReal p)
include hm hunif

omit [IsProbabilityMeasure μ] in
theorem measure_between (n : Nat) {a b : ℝ} (ha : 0 ≤ a) (hab : a ≤ b) (hb : b ≤ 1) :
    μ {θ | a ≤ X n θ ∧ X n θ < b} = ENNReal.ofReal (b - a) := by
  have hset : {θ | a ≤ X n θ ∧ X n θ < b} = {θ | X n θ < b} \ {θ | X n θ < a} := by
    ext θ
    simp only [Set.mem_ofPred_eq, Set.mem_sdiff, not_lt]
    exact and_comm
  have hsub : {θ | X n θ < a} ⊆ {θ | X n θ < b} := fun θ (h : X n θ < a) => lt_of_lt_of_le h hab
  have hma : MeasurableSet {θ | X n θ < a} := measurableSet_lt (hm n) measurable_const
  rw [hset, measure_sdiff hsub hma.nullMeasurableSet
    (by rw [hunif n a ha (le_trans hab hb)]; exact ENNReal.ofReal_ne_top), hunif n a ha (le_trans hab hb),
    hunif n b (le_trans ha hab) hb, ENNReal.ofReal_sub _ ha]

theorem measure_outside (n : Nat) : μ {θ | ¬ (0 ≤ X n θ ∧ X n θ < 1)} = 0 := by
  have h := measure_between hm hunif n (le_refl 0) zero_le_one (le_refl 1)
  have hms : MeasurableSet {θ | 0 ≤ X n θ ∧ X n θ < 1} :=
    (measurableSet_le measurable_const (hm n)).inter (measurableSet_lt (hm n) measurable_const)
  have : {θ | ¬ (0 ≤ X n θ ∧ X n θ < 1)} = {θ | 0 ≤ X n θ ∧ X n θ < 1}ᶜ := rfl
  rw [this, prob_compl_eq_one_sub hms, h, sub_zero, ENNReal.ofReal_one]
  exact tsub_self _

/-- The first 64 bits of a number of `[0, 1)`. -/
noncomputable def wordOf (x : ℝ) : Nat := ⌊2 ^ 64 * Int.fract x⌋₊

omit [MeasurableSpace Θ] hm hunif in
theorem wordOf_lt (x : ℝ) : wordOf x < 2 ^ 64 := by
  unfold wordOf
  rw [Nat.floor_lt (mul_nonneg (by positivity) (Int.fract_nonneg x))]
  have := Int.fract_lt_one x
  push_cast
  linarith

omit [MeasurableSpace Θ] hm hunif in
theorem wordOf_lt_iff {x : ℝ} (h0 : 0 ≤ x) (h1 : x < 1) (T : Nat) : wordOf x < T ↔ x < (T : ℝ) / 2 ^ 64 := by
  unfold wordOf
  rw [Int.fract_eq_self.2 ⟨h0, h1⟩, Nat.floor_lt (by positivity), lt_div_iff₀ (by positivity), mul_comm]

include hind in
theorem words_of_uniform : UniformWords μ (fun n θ => wordOf (X n θ)) := by
  have hmw : Measurable wordOf :=
    Nat.measurable_floor.comp (measurable_const.mul measurable_fract)
  refine ⟨fun n => hmw.comp (hm n), hind.comp (fun _ => wordOf) (fun _ => hmw), fun n θ => wordOf_lt _, ?_⟩
  intro n w hw
  have hw1 : ((w + 1 : Nat) : ℝ) / 2 ^ 64 ≤ 1 := by
    rw [div_le_one (by positivity)]
    exact_mod_cast hw
  have e : (1 : ℝ) / 2 ^ 64 = ((w + 1 : Nat) : ℝ) / 2 ^ 64 - (w : ℝ) / 2 ^ 64 := by push_cast; ring
  rw [e, ← measure_between hm hunif n (a := (w : ℝ) / 2 ^ 64) (by positivity) (by gcongr; omega) hw1]
  have hout := measure_outside hm hunif n
  apply measure_congr
  have hae : ∀ᵐ θ ∂μ, 0 ≤ X n θ ∧ X n θ < 1 := hout
  filter_upwards [hae] with θ hθ
  have h1 := wordOf_lt_iff hθ.1 hθ.2 (w + 1)
  have h2 := wordOf_lt_iff hθ.1 hθ.2 w
  apply propext
  show wordOf (X n θ) = w ↔ (w : ℝ) / 2 ^ 64 ≤ X n θ ∧ X n θ < ((w + 1 : Nat) : ℝ) / 2 ^ 64
  rw [← h1, ← not_lt, ← h2]
  omega

/-- The two coins rarely differ. -/
theorem coins_differ (n : Nat) {p : ℝ} (h0 : 0 ≤ p) (h1 : p ≤ 1) :
    μ {θ | ¬ (canonical (wordOf (X n θ)) < p ↔ X n θ < p)} ≤ ENNReal.ofReal (1 / 2 ^ 53 + 1 / 2 ^ 64) := by
  obtain ⟨T, hT1, hT2, hT3⟩ := coin_threshold h0 h1
  obtain ⟨t, ht⟩ : ∃ t : ℝ, t = (T : ℝ) / 2 ^ 64 := ⟨_, rfl⟩
  have ht0 : 0 ≤ t := by rw [ht]; positivity
  have hsub : {θ | ¬ (canonical (wordOf (X n θ)) < p ↔ X n θ < p)} ⊆
      {θ | min t p ≤ X n θ ∧ X n θ < max t p} ∪ {θ | ¬ (0 ≤ X n θ ∧ X n θ < 1)} := by
    intro θ hθ
    by_cases hin : 0 ≤ X n θ ∧ X n θ < 1
    · refine .inl ?_
      have hθ : ¬ (canonical (wordOf (X n θ)) < p ↔ X n θ < p) := hθ
      rw [hT2 _ (wordOf_lt _), wordOf_lt_iff hin.1 hin.2, ← ht] at hθ
      show min t p ≤ X n θ ∧ X n θ < max t p
      rw [min_le_iff, lt_max_iff]
      by_cases ha : X n θ < t
      · have hb : ¬ X n θ < p := fun hb => hθ ⟨fun _ => hb, fun _ => ha⟩
        exact ⟨.inr (not_lt.1 hb), .inl ha⟩
      · have hb : X n θ < p := by
          by_contra hb
          exact hθ ⟨fun h => absurd h ha, fun h => absurd h hb⟩
        exact ⟨.inl (not_lt.1 ha), .inr hb⟩
    · exact .inr hin
  refine le_trans (measure_mono hsub) (le_trans (measure_union_le _ _) ?_)
  rw [measure_outside hm hunif n, add_zero, measure_between hm hunif n (le_min ht0 h0)
    (min_le_of_left_le (le_max_left t p)) (max_le (by rw [ht]; exact hT1) h1)]
  apply ENNReal.ofReal_le_ofReal
  rw [max_sub_min_eq_abs, abs_sub_comm, ht]
  exact hT3

end

/-! ## Transfer -/

/-- A result that depends on `m` coins has, with the words, the same law as with exact coins, up to `m` times the
error of one coin. -/
theorem transfer {β : Type} (F : (Nat → ℝ) → β) (m : Nat) (p : Nat → ℝ) (hp : ∀ k < m, 0 ≤ p k ∧ p k ≤ 1)
    (hF : ∀ x y : Nat → ℝ, (∀ k < m, (x k < p k ↔ y k < p k)) → F x = F y) (𝒢 : Set β)
    {Θ : Type} [MeasurableSpace Θ] {μ : Measure Θ} [IsProbabilityMeasure μ] {W : Nat → Θ → Nat}
    (hW : UniformWords μ W)
    {Θ' : Type} [MeasurableSpace Θ'] {ν : Measure Θ'} [IsProbabilityMeasure ν] {X : Nat → Θ' → ℝ}
    (hm : ∀ n, Measurable (X n)) (hind : iIndepFun X ν)
    (hunif : ∀ n p, 0 ≤ p → p ≤ 1 → ν {θ | X n θ < p} = ENNReal.ofReal p) :
    μ {θ | F (fun n => canonical (W n θ)) ∈ 𝒢} ≤
      ν {θ | F (fun n => X n θ) ∈ 𝒢} + ENNReal.ofReal (m * (1 / 2 ^ 53 + 1 / 2 ^ 64)) ∧
    ν {θ | F (fun n => X n θ) ∈ 𝒢} ≤
      μ {θ | F (fun n => canonical (W n θ)) ∈ 𝒢} + ENNReal.ofReal (m * (1 / 2 ^ 53 + 1 / 2 ^ 64)) := by
  have hW' := words_of_uniform hm hind hunif
  have hlaw := hW.law hW'
  -- the event is one about finitely many words
  let S : Set (Nat → Nat) := {w | F (fun n => canonical (w n)) ∈ 𝒢}
  have hS : MeasurableSet S := by
    let ρ : (Nat → Nat) → (Fin m → Nat) := fun w k => w k
    have hρ : Measurable ρ := measurable_pi_lambda _ fun k => measurable_pi_apply _
    have hpre : S = ρ ⁻¹' (ρ '' S) := by
      ext w
      constructor
      · exact fun h => ⟨w, h, rfl⟩
      · rintro ⟨v, hv, hvw⟩
        have : F (fun n => canonical (w n)) = F (fun n => canonical (v n)) := by
          apply hF
          intro k hk
          have := congrFun hvw ⟨k, hk⟩
          simp only [ρ] at this
          rw [this]
        show F (fun n => canonical (w n)) ∈ 𝒢
        rw [this]
        exact hv
    rw [hpre]
    exact hρ (Set.to_countable _).measurableSet
  have hmW : Measurable (fun θ n => W n θ) := measurable_pi_lambda _ hW.meas
  have hmW' : Measurable (fun θ n => wordOf (X n θ)) := measurable_pi_lambda _ hW'.meas
  have heq : μ {θ | F (fun n => canonical (W n θ)) ∈ 𝒢} =
      ν {θ | F (fun n => canonical (wordOf (X n θ))) ∈ 𝒢} := by
    have h1 := Measure.map_apply (μ := μ) hmW hS
    have h2 := Measure.map_apply (μ := ν) hmW' hS
    rw [hlaw, h2] at h1
    exact h1.symm
  -- the two results differ only if a coin does
  let D : Set Θ' := {θ | ∃ k < m, ¬ (canonical (wordOf (X k θ)) < p k ↔ X k θ < p k)}
  have hD : ν D ≤ ENNReal.ofReal (m * (1 / 2 ^ 53 + 1 / 2 ^ 64)) := by
    have hset : D ⊆ ⋃ k ∈ Finset.range m, {θ | ¬ (canonical (wordOf (X k θ)) < p k ↔ X k θ < p k)} := by
      rintro θ ⟨k, hk, h⟩
      exact Set.mem_biUnion (Finset.mem_coe.2 (Finset.mem_range.2 hk)) h
    refine le_trans (measure_mono hset) (le_trans (measure_biUnion_finset_le _ _) ?_)
    refine le_trans (Finset.sum_le_sum fun k hk => coins_differ hm hunif k (hp k (Finset.mem_range.1 hk)).1
      (hp k (Finset.mem_range.1 hk)).2) ?_
    rw [Finset.sum_const, Finset.card_range, nsmul_eq_mul, ← ENNReal.ofReal_natCast,
      ← ENNReal.ofReal_mul (Nat.cast_nonneg m)]
  have hsame : ∀ θ, θ ∉ D → F (fun n => canonical (wordOf (X n θ))) = F (fun n => X n θ) := by
    intro θ hθ
    apply hF
    intro k hk
    by_contra hn
    exact hθ ⟨k, hk, hn⟩
  rw [heq]
  constructor
  · refine le_trans (measure_mono (t := {θ | F (fun n => X n θ) ∈ 𝒢} ∪ D) fun θ hθ => ?_)
      (le_trans (measure_union_le _ _) (by gcongr))
    by_cases hd : θ ∈ D
    · exact .inr hd
    · exact .inl (show F (fun n => X n θ) ∈ 𝒢 from hsame θ hd ▸ hθ)
  · refine le_trans (measure_mono (t := {θ | F (fun n => canonical (wordOf (X n θ))) ∈ 𝒢} ∪ D) fun θ hθ => ?_)
      (le_trans (measure_union_le _ _) (by gcongr))
    by_cases hd : θ ∈ D
    · exact .inr hd
    · exact .inl (show F (fun n => canonical (wordOf (X n θ))) ∈ 𝒢 from (hsame θ hd).symm ▸ hθ)

/-! ## The random graphs -/

theorem select_congr (x y : Nat → ℝ) (ds : List ((Nat × Nat) × ℝ)) : ∀ n,
    (∀ k (hk : k < ds.length), (x (n + k) < ds[k].2 ↔ y (n + k) < ds[k].2)) → select x ds n = select y ds n := by
  induction ds with
  | nil => intro n _; rfl
  | cons d ds ih =>
    intro n h
    have h0 := h 0 (by simp)
    simp only [Nat.add_zero, List.getElem_cons_zero] at h0
    rw [select, select, ih (n + 1) fun k hk => ?_]
    · simp only [h0]
    · have := h (k + 1) (by simpa using hk)
      simp only [List.getElem_cons_succ] at this
      rwa [show n + 1 + k = n + (k + 1) by omega]

theorem length_allDraws (P : DenseMat ℝ) (sizes : List Nat) :
    (allDraws P sizes).length = sizes.sum.choose 2 := by
  classical
  have hfin : vertexPairs sizes.sum = ((allDraws P sizes).map Prod.fst).toFinset := by
    ext ⟨u, v⟩
    unfold vertexPairs
    rw [Finset.mem_filter, Finset.mem_product, Finset.mem_range, Finset.mem_range, List.mem_toFinset,
      List.mem_map]
    constructor
    · rintro ⟨⟨hu, hv⟩, huv⟩
      obtain ⟨c, hc⟩ := exists_inCluster hu
      obtain ⟨d, hd⟩ := exists_inCluster hv
      exact ⟨((u, v), P.entry c d), mem_allDraws.2 ⟨c, d, hc, hd, huv, rfl⟩, rfl⟩
    · rintro ⟨⟨⟨u', v'⟩, p⟩, hd, hq⟩
      obtain ⟨c, d, h1, h2, h3, -⟩ := mem_allDraws.1 hd
      simp only [Prod.mk.injEq] at hq
      obtain ⟨rfl, rfl⟩ := hq
      exact ⟨⟨h1.lt_sum, h2.lt_sum⟩, h3⟩
  rw [← card_vertexPairs, hfin, List.toFinset_card_of_nodup (nodup_allDraws P), List.length_map]

/-- The coins of the library, with given words. -/
noncomputable def wordCoins (w : Nat → Nat) : Rng ℝ Nat where
  coin p n := (decide (canonical (w n) < p), n + 1)
  normal _ _ n := (0, n + 1)
  unif _ n := (0, n + 1)
  coin_zero n := by simpa using canonical_nonneg (w n)
  coin_one n := by simpa using canonical_lt_one (w n)
  unif_le _ _ := Nat.zero_le _

theorem sbmInternal_draws {R : Rng ℝ Nat} {x : Nat → ℝ} (hR : Draws R x) (fuel : Nat) {sizes : List Nat}
    {P : DenseMat ℝ} (h : SbmArgs sizes P) :
    sbmInternal R fuel (sizes.map (fun s : Nat => (s : Int))) P true 0 =
      some (.ok (select x (allDraws P sizes) 0), (allDraws P sizes).length) := by
  have hP : ∀ b ∈ outerBlocks 0 0 sizes, 0 ≤ P.entry b.ci b.cj ∧ P.entry b.ci b.cj ≤ 1 := by
    intro b hb
    have hb := mem_allBlocks.1 hb
    exact h.prob _ (lt_of_le_of_lt hb.le hb.lt) _ hb.lt
  unfold sbmInternal
  rw [sbmChecks_ok h, map_toNat]
  simp only
  rw [sampleBlocks_draws hR fuel P _ hP 0, Nat.zero_add]
  rfl

/-- Half of `n²` coins, each wrong by little more than `2 ^ (-53)`. -/
theorem coins_error (n : Nat) :
    ((n.choose 2 : Nat) : ℝ) * (1 / 2 ^ 53 + 1 / 2 ^ 64) ≤ (n : ℝ) ^ 2 / 2 ^ 53 := by
  have h : ((n.choose 2 : Nat) : ℝ) ≤ (n : ℝ) ^ 2 / 2 := by
    rw [Nat.cast_choose_two]
    have : (0 : ℝ) ≤ n := Nat.cast_nonneg n
    nlinarith
  refine le_trans (mul_le_mul_of_nonneg_right h (by positivity)) ?_
  have h0 : (0 : ℝ) ≤ (n : ℝ) ^ 2 := by positivity
  have : (1 / 2 ^ 53 + 1 / 2 ^ 64 : ℝ) ≤ 2 * (1 / 2 ^ 53) := by norm_num
  have := mul_le_mul_of_nonneg_left this (show (0 : ℝ) ≤ (n : ℝ) ^ 2 / 2 by positivity)
  refine le_trans this (le_of_eq ?_)
  ring

section
variable {Θ : Type} [MeasurableSpace Θ] {μ : Measure Θ} [IsProbabilityMeasure μ] {W : Nat → Θ → Nat}
  (hW : UniformWords μ W) (R : Θ → Rng ℝ Nat)
  (hR : ∀ θ n p, 0 ≤ p → p ≤ 1 → (R θ).coin p n = (decide (canonical (W n θ) < p), n + 1))
  {Θ' : Type} [MeasurableSpace Θ'] {ν : Measure Θ'} [IsProbabilityMeasure ν] {X : Nat → Θ' → ℝ}
  (hm : ∀ n, Measurable (X n)) (hind : iIndepFun X ν)
  (hunif : ∀ n p, 0 ≤ p → p ≤ 1 → ν {θ | X n θ < p} = ENNReal.ofReal p)
  (R' : Θ' → Rng ℝ Nat)
  (hR' : ∀ θ n p, 0 ≤ p → p ≤ 1 → (R' θ).coin p n = (decide (X n θ < p), n + 1))
include hW hR hm hind hunif hR'

/-- Everything that the sampler writes, for a graph or an edge list. -/
theorem transfer_sbm {β : Type} (F : Option (Outcome (List Emit) × Nat) → β) (fuel : Nat) {sizes : List Nat}
    {P : DenseMat ℝ} (h : SbmArgs sizes P) (𝒢 : Set β) :
    μ {θ | F (sbmInternal (R θ) fuel (sizes.map (fun s : Nat => (s : Int))) P true 0) ∈ 𝒢} ≤
      ν {θ | F (sbmInternal (R' θ) fuel (sizes.map (fun s : Nat => (s : Int))) P true 0) ∈ 𝒢} +
        ENNReal.ofReal ((sizes.sum : ℝ) ^ 2 / 2 ^ 53) ∧
    ν {θ | F (sbmInternal (R' θ) fuel (sizes.map (fun s : Nat => (s : Int))) P true 0) ∈ 𝒢} ≤
      μ {θ | F (sbmInternal (R θ) fuel (sizes.map (fun s : Nat => (s : Int))) P true 0) ∈ 𝒢} +
        ENNReal.ofReal ((sizes.sum : ℝ) ^ 2 / 2 ^ 53) := by
  have e1 : ∀ θ, sbmInternal (R θ) fuel (sizes.map (fun s : Nat => (s : Int))) P true 0 =
      some (.ok (select (fun n => canonical (W n θ)) (allDraws P sizes) 0), (allDraws P sizes).length) :=
    fun θ => sbmInternal_draws (hR θ) fuel h
  have e2 : ∀ θ, sbmInternal (R' θ) fuel (sizes.map (fun s : Nat => (s : Int))) P true 0 =
      some (.ok (select (fun n => X n θ) (allDraws P sizes) 0), (allDraws P sizes).length) :=
    fun θ => sbmInternal_draws (hR' θ) fuel h
  simp only [e1, e2]
  have hd : ∀ k (hk : k < (allDraws P sizes).length),
      (allDraws P sizes).getD k ((0, 0), 0) = (allDraws P sizes)[k] := fun k hk => List.getD_eq_getElem _ _ hk
  have key := transfer (fun x => F (some (.ok (select x (allDraws P sizes) 0), (allDraws P sizes).length)))
    (allDraws P sizes).length (fun k => ((allDraws P sizes).getD k ((0, 0), 0)).2)
    (fun k hk => by
      rw [hd k hk]
      obtain ⟨c, d, h1, h2, -, h4⟩ := mem_allDraws.1
        (show (((allDraws P sizes)[k].1.1, (allDraws P sizes)[k].1.2), (allDraws P sizes)[k].2) ∈ allDraws P sizes
          from List.getElem_mem hk)
      have := h.prob _ h1.1 _ h2.1
      rwa [← h4] at this)
    (fun x y hxy => by
      rw [select_congr x y _ 0 fun k hk => ?_]
      have := hxy k hk
      rw [hd k hk] at this
      rwa [Nat.zero_add]) 𝒢 hW hm hind hunif
  have herr : ENNReal.ofReal (((allDraws P sizes).length : ℝ) * (1 / 2 ^ 53 + 1 / 2 ^ 64)) ≤
      ENNReal.ofReal ((sizes.sum : ℝ) ^ 2 / 2 ^ 53) := by
    rw [length_allDraws]
    exact ENNReal.ofReal_le_ofReal (coins_error _)
  exact ⟨le_trans key.1 (by gcongr), le_trans key.2 (by gcongr)⟩

/-- **C110** (`general_sbm`).  For valid parameters, in exact mode, and for every set `𝒢` of results: the
probability that `general_sbm` returns a result of `𝒢` with the words of the generator, and the probability
with exact coins, differ by at most `n² / 2 ^ 53`, where `n` is the number of vertices. -/
theorem C110_general_sbm (fuel : Nat) {sizes : List Nat} {P : DenseMat ℝ} (h : SbmArgs sizes P)
    (𝒢 : Set (Option (Outcome (Graph ℝ) × Nat))) :
    μ {θ | generalSbm (R θ) fuel (sizes.map (fun s : Nat => (s : Int))) P true 0 ∈ 𝒢} ≤
      ν {θ | generalSbm (R' θ) fuel (sizes.map (fun s : Nat => (s : Int))) P true 0 ∈ 𝒢} +
        ENNReal.ofReal ((sizes.sum : ℝ) ^ 2 / 2 ^ 53) ∧
    ν {θ | generalSbm (R' θ) fuel (sizes.map (fun s : Nat => (s : Int))) P true 0 ∈ 𝒢} ≤
      μ {θ | generalSbm (R θ) fuel (sizes.map (fun s : Nat => (s : Int))) P true 0 ∈ 𝒢} +
        ENNReal.ofReal ((sizes.sum : ℝ) ^ 2 / 2 ^ 53) := by
  let F : Option (Outcome (List Emit) × Nat) → Option (Outcome (Graph ℝ) × Nat) := fun s => match s with
    | none => none
    | some (r, ω) => some (do
      let es ← r
      let m ← emitAll es (SprsMat.empty (sizes.sum : Int).toNat (sizes.sum : Int).toNat)
      Graph.ofMatrix m, ω)
  have hcall : ∀ R : Rng ℝ Nat, generalSbm R fuel (sizes.map (fun s : Nat => (s : Int))) P true 0 =
      F (sbmInternal R fuel (sizes.map (fun s : Nat => (s : Int))) P true 0) := by
    intro R
    unfold generalSbm
    rw [sum_cast, if_neg (by omega)]
    cases sbmInternal R fuel (sizes.map (fun s : Nat => (s : Int))) P true 0 with
    | none => rfl
    | some x => rfl
  simp only [hcall]
  exact transfer_sbm hW R hR hm hind hunif R' hR' F fuel h 𝒢

/-- **C110** (`general_sbm_edgelist`).  The same for the files that `general_sbm_edgelist` writes. -/
theorem C110_edgelist (Fm : Fmt ℝ) (fuel : Nat) {sizes : List Nat} {P : DenseMat ℝ} (h : SbmArgs sizes P)
    (𝒢 : Set (Option (Outcome Str × Nat))) :
    μ {θ | generalSbmEdgelist (R θ) Fm fuel (sizes.map (fun s : Nat => (s : Int))) P true 0 ∈ 𝒢} ≤
      ν {θ | generalSbmEdgelist (R' θ) Fm fuel (sizes.map (fun s : Nat => (s : Int))) P true 0 ∈ 𝒢} +
        ENNReal.ofReal ((sizes.sum : ℝ) ^ 2 / 2 ^ 53) ∧
    ν {θ | generalSbmEdgelist (R' θ) Fm fuel (sizes.map (fun s : Nat => (s : Int))) P true 0 ∈ 𝒢} ≤
      μ {θ | generalSbmEdgelist (R θ) Fm fuel (sizes.map (fun s : Nat => (s : Int))) P true 0 ∈ 𝒢} +
        ENNReal.ofReal ((sizes.sum : ℝ) ^ 2 / 2 ^ 53) := by
  have hno : ¬ ((sizes.map (fun s : Nat => (s : Int))).length ≤ 20 ∧
      (P.rows < (sizes.map (fun s : Nat => (s : Int))).length ∨
        P.cols < (sizes.map (fun s : Nat => (s : Int))).length)) := by
    rw [List.length_map, h.rows, h.cols]
    omega
  let F : Option (Outcome (List Emit) × Nat) → Option (Outcome Str × Nat) := fun s => match s with
    | none => none
    | some (r, ω) => some (do
      let es ← r
      .ok (unlines (sbmHeader Fm (sizes.map (fun s : Nat => (s : Int))) P ++ es.map emitLine)), ω)
  have hcall : ∀ R : Rng ℝ Nat, generalSbmEdgelist R Fm fuel (sizes.map (fun s : Nat => (s : Int))) P true 0 =
      F (sbmInternal R fuel (sizes.map (fun s : Nat => (s : Int))) P true 0) := by
    intro R
    unfold generalSbmEdgelist
    rw [if_neg hno]
    cases sbmInternal R fuel (sizes.map (fun s : Nat => (s : Int))) P true 0 with
    | none => rfl
    | some x => rfl
  simp only [hcall]
  exact transfer_sbm hW R hR hm hind hunif R' hR' F fuel h 𝒢

/-- **C110** (`sbm`). -/
theorem C110_sbm (fuel : Nat) {n k : Nat} {p q : ℝ} (hk : 1 ≤ k) (hkn : k ≤ n / 2) (hp : 0 ≤ p ∧ p ≤ 1)
    (hq : 0 ≤ q ∧ q ≤ 1) (𝒢 : Set (Option (Outcome (Graph ℝ) × Nat))) :
    μ {θ | sbm (R θ) fuel n k p q true 0 ∈ 𝒢} ≤
      ν {θ | sbm (R' θ) fuel n k p q true 0 ∈ 𝒢} + ENNReal.ofReal ((n : ℝ) ^ 2 / 2 ^ 53) ∧
    ν {θ | sbm (R' θ) fuel n k p q true 0 ∈ 𝒢} ≤
      μ {θ | sbm (R θ) fuel n k p q true 0 ∈ 𝒢} + ENNReal.ofReal ((n : ℝ) ^ 2 / 2 ^ 53) := by
  have hargs := sbm_args (n := n) hk hkn hp hq
  have hcall : ∀ R : Rng ℝ Nat, sbm R fuel n k p q true 0 =
      generalSbm R fuel ((List.replicate k (n / k)).map (fun s : Nat => (s : Int)))
        (sbmProbs (k : Int) p q) true 0 := by
    intro R
    unfold sbm
    rw [if_neg (by omega), if_neg (by omega), if_neg (not_or.2 ⟨not_lt.2 hp.1, not_lt.2 hp.2⟩),
      if_neg (not_or.2 ⟨not_lt.2 hq.1, not_lt.2 hq.2⟩), sbmSizes_eq]
  have key := C110_general_sbm hW R hR hm hind hunif R' hR' fuel hargs 𝒢
  simp only [hcall]
  have herr : ENNReal.ofReal (((List.replicate k (n / k)).sum : Nat) ^ 2 / 2 ^ 53 : ℝ) ≤
      ENNReal.ofReal ((n : ℝ) ^ 2 / 2 ^ 53) := by
    apply ENNReal.ofReal_le_ofReal
    have : ((List.replicate k (n / k)).sum : ℝ) ≤ n := by
      rw [List.sum_replicate, smul_eq_mul]
      exact_mod_cast Nat.mul_div_le n k
    gcongr
  exact ⟨le_trans key.1 (by gcongr), le_trans key.2 (by gcongr)⟩

/-- **C110** (`erdos_renyi`). -/
theorem C110_erdos_renyi (fuel : Nat) {n : Nat} {p : ℝ} (hn : 2 ≤ n) (hp : 0 ≤ p ∧ p ≤ 1)
    (𝒢 : Set (Option (Outcome (Graph ℝ) × Nat))) :
    μ {θ | erdosRenyi (R θ) fuel n p true 0 ∈ 𝒢} ≤
      ν {θ | erdosRenyi (R' θ) fuel n p true 0 ∈ 𝒢} + ENNReal.ofReal ((n : ℝ) ^ 2 / 2 ^ 53) ∧
    ν {θ | erdosRenyi (R' θ) fuel n p true 0 ∈ 𝒢} ≤
      μ {θ | erdosRenyi (R θ) fuel n p true 0 ∈ 𝒢} + ENNReal.ofReal ((n : ℝ) ^ 2 / 2 ^ 53) :=
  C110_sbm hW R hR hm hind hunif R' hR' fuel (n := n) (k := 1) (le_refl _) (by omega) hp
    ⟨le_refl 0, zero_le_one⟩ 𝒢

end

section
variable {Θ : Type} [MeasurableSpace Θ] {μ : Measure Θ} [IsProbabilityMeasure μ] {W : Nat → Θ → Nat}
  (hW : UniformWords μ W) (R : Θ → Rng ℝ Nat)
  (hR : ∀ θ n p, 0 ≤ p → p ≤ 1 → (R θ).coin p n = (decide (canonical (W n θ) < p), n + 1))
include hW hR

/-- **C110** (the stochastic block model).  With the words of the generator, every simple graph `E` comes out with
its probability in the stochastic block model, up to `n² / 2 ^ 53`. -/
theorem C110_distribution (fuel : Nat) {sizes : List Nat} {P : DenseMat ℝ} (h : SbmArgs sizes P) (cl : Nat → Nat)
    (hcl : ∀ u < sizes.sum, InCluster sizes (cl u) u) (E : SimpleGraph Nat) :
    |μ.real {θ | ∃ g ω', generalSbm (R θ) fuel (sizes.map (fun s : Nat => (s : Int))) P true 0 =
        some (.ok g, ω') ∧ g.n = sizes.sum ∧ ∀ u < sizes.sum, ∀ v < sizes.sum,
          (E.Adj u v → g.adj.coeff u v = 1) ∧ (¬ E.Adj u v → g.adj.coeff u v = 0)} -
      sbmProb sizes.sum (fun u v => P.entry (cl u) (cl v)) E.Adj| ≤ (sizes.sum : ℝ) ^ 2 / 2 ^ 53 := by
  obtain ⟨ν, X, R', hν, hm, hind, hunif, hR'⟩ := draws_exist
  have hlaw := C66_sbm_distribution ν X hm hind hunif R' hR' fuel h cl hcl E
  obtain ⟨k1, k2⟩ := C110_general_sbm hW R hR hm hind hunif R' hR' fuel h
    {r | ∃ g ω', r = some (.ok g, ω') ∧ g.n = sizes.sum ∧ ∀ u < sizes.sum, ∀ v < sizes.sum,
          (E.Adj u v → g.adj.coeff u v = 1) ∧ (¬ E.Adj u v → g.adj.coeff u v = 0)}
  simp only [Set.mem_ofPred_eq] at k1 k2
  rw [hlaw] at k1 k2
  have hp0 : 0 ≤ sbmProb sizes.sum (fun u v => P.entry (cl u) (cl v)) E.Adj := by
    unfold sbmProb
    refine Finset.prod_nonneg fun q hq => ?_
    simp only [vertexPairs, Finset.mem_filter, Finset.mem_product, Finset.mem_range] at hq
    have := h.prob _ (hcl q.1 hq.1.1).1 _ (hcl q.2 hq.1.2).1
    split_ifs <;> linarith
  have he0 : (0 : ℝ) ≤ (sizes.sum : ℝ) ^ 2 / 2 ^ 53 := by positivity
  rw [measureReal_def]
  obtain ⟨a, ha⟩ : ∃ a, a = μ {θ | ∃ g ω', generalSbm (R θ) fuel (sizes.map (fun s : Nat => (s : Int))) P true 0 =
        some (.ok g, ω') ∧ g.n = sizes.sum ∧ ∀ u < sizes.sum, ∀ v < sizes.sum,
          (E.Adj u v → g.adj.coeff u v = 1) ∧ (¬ E.Adj u v → g.adj.coeff u v = 0)} := ⟨_, rfl⟩
  rw [← ha] at k1 k2 ⊢
  have hafin : a ≠ ⊤ := ha ▸ measure_ne_top μ _
  rw [abs_le]
  constructor
  · rw [← ENNReal.ofReal_toReal hafin, ← ENNReal.ofReal_add ENNReal.toReal_nonneg he0,
      ENNReal.ofReal_le_ofReal_iff (add_nonneg ENNReal.toReal_nonneg he0)] at k2
    linarith
  · rw [← ENNReal.ofReal_toReal hafin, ← ENNReal.ofReal_add hp0 he0,
      ENNReal.ofReal_le_ofReal_iff (add_nonneg hp0 he0)] at k1
    linarith

/-- **C110** (recovery).  C86 with the words of the generator: under the same conditions on the parameters,
`sbm (k m, k, p, q)` in exact mode returns a graph whose planted clusters `spectral_cluster` finds, except with the
probability of C86 plus `(k m)² / 2 ^ 53`. -/
theorem C110_recovery (fuel : Nat) {k m : Nat} {p q δ : ℝ} (hk : 1 ≤ k) (hm : 2 ≤ m) (hq : 0 ≤ q) (hpq : q < p)
    (hp : p ≤ 1) (hδm : 1 ≤ δ * m) (h1 : 8 * k * δ ≤ p + (k - 1) * q) (h2 : 32 * k ^ 2 * δ ≤ (p - q) ^ 2)
    (E c : ℝ) (hE : E = 64 * k ^ 4 * δ ^ 2 / (p - q) ^ 2) (hc : 0 < c) (hsmall : 2 * (E + c) < 1 / 2) :
    μ {θ | ¬ ∃ g ω', sbm (R θ) fuel (k * m : Nat) k p q true 0 = some (.ok g, ω') ∧ g.n = k * m ∧
      ∀ solve, SolverSpec solve → ∀ res, computeEigensystem solve g .normalisedLaplacian k .smallest = .ok res →
        ∀ Mu Z junk, ENNReal.ofReal c * streamLaw unif {u | ¬ ∃ r,
          KMeans.runKMeans (embedding (res.map Prod.snd)) (k * m) k k (k * 100 : Nat) u Mu Z junk = .ok r ∧
          ∃ σ : Equiv.Perm (Fin k),
            (((Finset.range (k * m)).filter fun u => ∃ i : Fin k, u / m = i ∧ r.2 u ≠ σ i).card : ℝ)
              ≤ 4 * (E + c) * (k * m)} ≤ ENNReal.ofReal (8 * (Real.log k + 2) * E)} ≤
      ENNReal.ofReal (2 * (k * (k * m)) * Real.exp (-(2 * δ ^ 2 * m)) +
        2 * (k * m) ^ 2 * Real.exp (-(δ ^ 2 * (k * m) / 2)) + (k * m : ℝ) ^ 2 / 2 ^ 53) := by
  obtain ⟨ν, X, R', hν, hmX, hind, hunif, hR'⟩ := draws_exist
  have hrec := C86_recovery ν X hmX hind hunif R' hR' fuel hk hm hq hpq hp hδm h1 h2 E c hE hc hsmall
  have hkn : k ≤ k * m / 2 := by
    rw [Nat.le_div_iff_mul_le (by norm_num)]
    exact Nat.mul_le_mul_left k hm
  have key := (C110_sbm hW R hR hmX hind hunif R' hR' fuel (n := k * m) hk hkn ⟨by linarith, hp⟩ ⟨hq, by linarith⟩
    {s | ¬ ∃ g ω', s = some (.ok g, ω') ∧ g.n = k * m ∧
      ∀ solve, SolverSpec solve → ∀ res, computeEigensystem solve g .normalisedLaplacian k .smallest = .ok res →
        ∀ Mu Z junk, ENNReal.ofReal c * streamLaw unif {u | ¬ ∃ r,
          KMeans.runKMeans (embedding (res.map Prod.snd)) (k * m) k k (k * 100 : Nat) u Mu Z junk = .ok r ∧
          ∃ σ : Equiv.Perm (Fin k),
            (((Finset.range (k * m)).filter fun u => ∃ i : Fin k, u / m = i ∧ r.2 u ≠ σ i).card : ℝ)
              ≤ 4 * (E + c) * (k * m)} ≤ ENNReal.ofReal (8 * (Real.log k + 2) * E)}).1
  simp only [Set.mem_ofPred_eq] at key
  refine le_trans key (le_trans (add_le_add_left hrec _) (le_of_eq ?_))
  rw [← ENNReal.ofReal_add (by positivity) (by positivity)]
  push_cast
  rfl

end

/-- The hypotheses are met: there are such words, with a generator that uses them. -/
theorem words_exist : ∃ (μ : Measure (Nat → ℝ)) (W : Nat → (Nat → ℝ) → Nat) (R : (Nat → ℝ) → Rng ℝ Nat),
    IsProbabilityMeasure μ ∧ UniformWords μ W ∧
    ∀ θ n p, 0 ≤ p → p ≤ 1 → (R θ).coin p n = (decide (canonical (W n θ) < p), n + 1) := by
  obtain ⟨μ, X, -, hμ, hm, hind, hunif, -⟩ := draws_exist
  exact ⟨μ, fun n θ => wordOf (X n θ), fun θ => wordCoins fun n => wordOf (X n θ), hμ,
    words_of_uniform hm hind hunif, fun _ _ _ _ _ => rfl⟩

/-- For instance, three vertices, `p = 1 / 4`: the path `0 - 1 - 2` has probability `3 / 64`, up to `9 / 2 ^ 53`. -/
example : ∃ (μ : Measure (Nat → ℝ)) (R : (Nat → ℝ) → Rng ℝ Nat),
    |μ.real {θ | ∃ g ω', generalSbm (R θ) 0 [3] ⟨1, 1, fun _ _ => 1 / 4⟩ true 0 = some (.ok g, ω') ∧ g.n = 3 ∧
      ∀ u < 3, ∀ v < 3, ((u + 1 = v ∨ v + 1 = u) → g.adj.coeff u v = 1) ∧
        (¬ (u + 1 = v ∨ v + 1 = u) → g.adj.coeff u v = 0)} - 3 / 64| ≤ 9 / 2 ^ 53 := by
  obtain ⟨μ, W, R, hμ, hW, hR⟩ := words_exist
  refine ⟨μ, R, ?_⟩
  let E : SimpleGraph Nat := ⟨fun u v => u + 1 = v ∨ v + 1 = u, ⟨fun _ _ h => h.symm⟩,
    ⟨fun u h => by omega⟩⟩
  have key := C110_distribution hW R hR 0 (sizes := [3]) (P := ⟨1, 1, fun _ _ => 1 / 4⟩)
    ⟨by simp, rfl, rfl, fun _ _ _ _ => by norm_num⟩ (fun _ => 0)
    (fun u hu => ⟨by simp, by simp, by simpa using hu⟩) E
  have hs : sbmProb ([3] : List Nat).sum (fun _ _ => (1 / 4 : ℝ)) E.Adj = 3 / 64 := by
    unfold sbmProb
    have hv : vertexPairs ([3] : List Nat).sum = {(0, 1), (0, 2), (1, 2)} := by decide
    rw [hv, Finset.prod_insert (by decide), Finset.prod_insert (by decide), Finset.prod_singleton,
      if_pos (show E.Adj 0 1 from .inl rfl), if_neg (show ¬ E.Adj 0 2 from fun h => by
        rcases h with h | h <;> omega), if_pos (show E.Adj 1 2 from .inl rfl)]
    norm_num
  rw [hs] at key
  refine le_trans ?_ (le_trans key (le_of_eq (by norm_num)))
  exact le_refl _

/-- **C110** (the coins are not exact).  With probability `2 ^ (-65)`, the coin gives heads for the word zero only:
with probability `2 ^ (-64)`, twice as often. -/
theorem C110_coin_inexact {Θ : Type} [MeasurableSpace Θ] {μ : Measure Θ} [IsProbabilityMeasure μ]
    {W : Nat → Θ → Nat} (h : UniformWords μ W) (n : Nat) :
    μ {θ | canonical (W n θ) < 1 / 2 ^ 65} = ENNReal.ofReal (1 / 2 ^ 64) := by
  rw [← h.unif n 0 (by norm_num)]
  congr 1
  ext θ
  show canonical (W n θ) < 1 / 2 ^ 65 ↔ W n θ = 0
  constructor
  · intro hc
    by_contra hn
    have h1 := canonical_mono (show 1 ≤ W n θ by omega) below_one
    have h2 : canonical 1 = 1 / 2 ^ 64 := by
      rw [canonical_eq, flBin_nat_le (by norm_num), Nat.cast_one, if_neg (by norm_num)]
    have h3 : (1 : ℝ) / 2 ^ 65 < 1 / 2 ^ 64 := by norm_num
    rw [h2] at h1
    linarith
  · intro hz
    rw [hz, canonical_eq, Nat.cast_zero, flBin_zero, zero_div, if_neg (by norm_num)]
    positivity

end Stag
