import Verif.Decimal
import Mathlib.Tactic.NormNum

/-!
# What is printed is read back, up to six digits
-/

set_option linter.unusedSectionVars false

namespace Stag

section
variable {K : Type} [Field K] [LinearOrder K] [IsStrictOrderedRing K] [FloorRing K]

/-! ## Rounding to six decimal digits -/

/-- Distance of neighbouring numbers with six significant digits around `x`. -/
def ulp10 (x : K) : K := (10 : K) ^ (Int.log 10 |x| - 5)

/-- The nearest number with six significant decimal digits. -/
def round6 (x : K) : K := (roundEven (x / ulp10 x) : K) * ulp10 x

theorem ten_ne : (10 : K) ≠ 0 := by norm_num

theorem one_lt_ten : (1 : K) < 10 := by norm_num

theorem ulp10_pos (x : K) : 0 < ulp10 x := by unfold ulp10; positivity

theorem round6_neg (x : K) : round6 (-x) = - round6 x := by
  have : ulp10 (-x) = ulp10 x := by unfold ulp10; rw [abs_neg]
  unfold round6
  rw [this, neg_div, roundEven_neg]
  push_cast; ring

theorem round6_zero : round6 (0 : K) = 0 := by
  unfold round6
  rw [zero_div]
  have := roundEven_int (K := K) 0
  rw [Int.cast_zero] at this
  rw [this]; simp

theorem log10_le {x : K} (hx : 0 < x) : (10 : K) ^ (Int.log 10 x) ≤ x ∧
    x < (10 : K) ^ (Int.log 10 x + 1) := by
  have h1 := Int.zpow_log_le_self (b := 10) (by norm_num) hx
  have h2 := Int.lt_zpow_succ_log_self (b := 10) (by norm_num) x
  push_cast at h1 h2
  exact ⟨h1, h2⟩

theorem log10_eq {x : K} (hx : 0 < x) {z : Int} (h1 : (10 : K) ^ z ≤ x) (h2 : x < (10 : K) ^ (z + 1)) :
    Int.log 10 x = z := by
  have a1 : z ≤ Int.log 10 x := by
    rw [← Int.zpow_le_iff_le_log (by norm_num) hx]; exact_mod_cast h1
  have a2 : Int.log 10 x < z + 1 := by
    rw [← Int.lt_zpow_iff_log_lt (by norm_num) hx]; exact_mod_cast h2
  omega

theorem ulp10_le {x : K} (hx : 0 < x) : 10 ^ 5 * ulp10 x ≤ x ∧ x < 10 ^ 6 * ulp10 x := by
  obtain ⟨h1, h2⟩ := log10_le hx
  have e5 : (10 : K) ^ 5 = (10 : K) ^ (5 : Int) := by norm_cast
  have e6 : (10 : K) ^ 6 = (10 : K) ^ (6 : Int) := by norm_cast
  unfold ulp10
  rw [e5, e6, ← zpow_add₀ ten_ne, ← zpow_add₀ ten_ne, abs_of_pos hx]
  constructor
  · convert h1 using 2; ring
  · convert h2 using 2; ring

theorem roundEven_near {x : K} {m : Int} (h : |x - m| < 1 / 2) : roundEven x = m := by
  have h1 := roundEven_err x
  by_contra hc
  have h2 : (1 : K) ≤ |(roundEven x : K) - m| := by
    have : 1 ≤ |roundEven x - m| := Int.one_le_abs (sub_ne_zero.2 hc)
    exact_mod_cast this
  have h3 := abs_sub_le (roundEven x : K) x m
  linarith

/-- The relative error is at most `5 10^-6`. -/
theorem round6_err (x : K) : |round6 x - x| ≤ 5 / 10 ^ 6 * |x| := by
  have key : ∀ y : K, 0 < y → |round6 y - y| ≤ 5 / 10 ^ 6 * |y| := by
    intro y hy
    have hu := ulp10_pos y
    have h1 := roundEven_err (y / ulp10 y)
    have h2 := (ulp10_le hy).1
    have e : round6 y - y = ((roundEven (y / ulp10 y) : K) - y / ulp10 y) * ulp10 y := by
      unfold round6; field_simp
    rw [e, abs_mul, abs_of_pos hu, abs_of_pos hy]
    have h3 : |(roundEven (y / ulp10 y) : K) - y / ulp10 y| * ulp10 y ≤ 1 / 2 * ulp10 y :=
      mul_le_mul_of_nonneg_right h1 hu.le
    linarith
  rcases lt_trichotomy x 0 with h | h | h
  · have := key (-x) (by linarith)
    rw [round6_neg, abs_neg] at this
    have e : -round6 x - -x = -(round6 x - x) := by ring
    rwa [e, abs_neg] at this
  · rw [h, round6_zero]; simp
  · exact key x h

/-- The six digits of a positive number. -/
theorem sixDigits_spec {x : K} (hx : 0 < x) :
    10 ^ 5 ≤ (sixDigits x).1 ∧ (sixDigits x).1 < 10 ^ 6 ∧
    round6 x = ((sixDigits x).1 : K) * (10 : K) ^ ((sixDigits x).2 - 5) := by
  have hu := ulp10_pos x
  obtain ⟨h1, h2⟩ := ulp10_le hx
  have he : ulp10 x = (10 : K) ^ (Int.log 10 x - 5) := by unfold ulp10; rw [abs_of_pos hx]
  have m1 : ((10 : Int) ^ 5) ≤ roundEven (x / ulp10 x) := by
    have := roundEven_mono (x := (((10 : Int) ^ 5 : Int) : K)) (y := x / ulp10 x)
      (by rw [le_div_iff₀ hu]; push_cast; linarith)
    rwa [roundEven_int] at this
  have m2 : roundEven (x / ulp10 x) ≤ (10 : Int) ^ 6 := by
    have := roundEven_mono (x := x / ulp10 x) (y := (((10 : Int) ^ 6 : Int) : K))
      (by rw [div_le_iff₀ hu]; push_cast; linarith)
    rwa [roundEven_int] at this
  unfold sixDigits
  rw [← he]
  split_ifs with h
  · refine ⟨le_refl _, by norm_num, ?_⟩
    unfold round6
    rw [h, he]
    push_cast
    have e : Int.log 10 x + 1 - 5 = 1 + (Int.log 10 x - 5) := by ring
    rw [e, zpow_add₀ ten_ne, zpow_one]
    ring
  · refine ⟨by simp only; omega, by simp only; omega, ?_⟩
    unfold round6
    simp only
    rw [he] at m1 m2 ⊢
    congr 1
    have : (((roundEven (x / 10 ^ (Int.log 10 x - 5))).toNat : Int) : K) =
        (roundEven (x / 10 ^ (Int.log 10 x - 5)) : K) := by
      rw [Int.toNat_of_nonneg (by omega)]
    rw [← this, Int.cast_natCast]

theorem round6_pos {x : K} (hx : 0 < x) : 0 < round6 x := by
  obtain ⟨h1, _, h3⟩ := sixDigits_spec hx
  rw [h3]
  have : (0 : K) < ((sixDigits x).1 : K) := by exact_mod_cast lt_of_lt_of_le (by norm_num) h1
  positivity

/-- Six digits and the exponent are determined by the number. -/
theorem six_unique {m m' : Nat} {e e' : Int} (h1 : 10 ^ 5 ≤ m) (h2 : m < 10 ^ 6) (h1' : 10 ^ 5 ≤ m')
    (h2' : m' < 10 ^ 6) (h : (m : K) * (10 : K) ^ e = (m' : K) * (10 : K) ^ e') : m = m' ∧ e = e' := by
  have key : ∀ (m m' : Nat) (e e' : Int), m < 10 ^ 6 → 10 ^ 5 ≤ m' →
      (m : K) * (10 : K) ^ e = (m' : K) * (10 : K) ^ e' → ¬ e < e' := by
    intro m m' e e' hm hm' h hlt
    obtain ⟨d, hd⟩ : ∃ d : Nat, e' = e + 1 + d := ⟨(e' - e - 1).toNat, by omega⟩
    rw [hd, zpow_add₀ ten_ne, zpow_add₀ ten_ne, zpow_one, zpow_natCast] at h
    have hp : (0 : K) < (10 : K) ^ e := by positivity
    have h' : (m : K) = m' * (10 * 10 ^ d) := by
      apply mul_right_cancel₀ hp.ne'
      rw [h]; ring
    have h'' : m = m' * (10 * 10 ^ d) := by exact_mod_cast h'
    have : 1 ≤ 10 ^ d := Nat.one_le_pow _ _ (by norm_num)
    have h3 : m' * (10 * 1) ≤ m' * (10 * 10 ^ d) :=
      Nat.mul_le_mul_left _ (Nat.mul_le_mul_left _ this)
    omega
  have he : e = e' := by
    have a1 := key m m' e e' h2 h1' h
    have a2 := key m' m e' e h2' h1 h.symm
    omega
  refine ⟨?_, he⟩
  rw [he] at h
  have := mul_right_cancel₀ (by positivity) h
  exact_mod_cast this

theorem sixDigits_eq {x y : K} (hx : 0 < x) (hy : 0 < y) (h : round6 x = round6 y) :
    sixDigits x = sixDigits y := by
  obtain ⟨a1, a2, a3⟩ := sixDigits_spec hx
  obtain ⟨b1, b2, b3⟩ := sixDigits_spec hy
  rw [a3, b3] at h
  obtain ⟨c1, c2⟩ := six_unique a1 a2 b1 b2 h
  exact Prod.ext c1 (by omega)

/-- A number close to one with six digits is rounded to that number. -/
theorem round6_near {m : Nat} {e : Int} (h1 : 10 ^ 5 ≤ m) (h2 : m < 10 ^ 6) {y : K}
    (h : |y - m * (10 : K) ^ e| ≤ 1 / 10 ^ 7 * (m * (10 : K) ^ e)) :
    round6 y = m * (10 : K) ^ e := by
  have hp : (0 : K) < (10 : K) ^ e := by positivity
  have m1 : (10 : K) ^ 5 ≤ m := by exact_mod_cast h1
  have m2 : (m : K) ≤ 10 ^ 6 - 1 := by
    have : m + 1 ≤ 10 ^ 6 := h2
    have : (m : K) + 1 ≤ 10 ^ 6 := by exact_mod_cast this
    linarith
  rw [abs_le] at h
  obtain ⟨ha, hb⟩ := h
  set P := (10 : K) ^ e with hP
  obtain ⟨t, rfl⟩ : ∃ t, y = t * P := ⟨y / P, by field_simp⟩
  have ht1 : -(1 / 10 ^ 7 * (m : K)) ≤ t - m := by
    have : -(1 / 10 ^ 7 * (m : K)) * P ≤ (t - m) * P := by linarith
    exact le_of_mul_le_mul_right this hp
  have ht2 : t - m ≤ 1 / 10 ^ 7 * (m : K) := by
    have : (t - m) * P ≤ (1 / 10 ^ 7 * (m : K)) * P := by linarith
    exact le_of_mul_le_mul_right this hp
  have ht0 : 0 < t := by
    linarith
  have hy : 0 < t * P := by positivity
  have e5 : (10 : K) ^ (e + 5) = 10 ^ 5 * P := by
    rw [hP, zpow_add₀ ten_ne, mul_comm]; norm_cast
  have e6 : (10 : K) ^ (e + 5 + 1) = 10 ^ 6 * P := by
    rw [hP, add_assoc, zpow_add₀ ten_ne, mul_comm]; norm_cast
  have e4 : (10 : K) ^ (e + 4) = 10 ^ 4 * P := by
    rw [hP, zpow_add₀ ten_ne, mul_comm]; norm_cast
  by_cases hc : (10 : K) ^ 5 ≤ t
  · have hl : Int.log 10 (t * P) = e + 5 := by
      apply log10_eq hy
      · rw [e5]; exact mul_le_mul_of_nonneg_right hc hp.le
      · rw [e6]
        apply mul_lt_mul_of_pos_right _ hp
        linarith
    have hu : ulp10 (t * P) = P := by
      unfold ulp10
      rw [abs_of_pos hy, hl, hP]
      congr 1; ring
    unfold round6
    rw [hu, mul_div_cancel_right₀ _ hp.ne', roundEven_near (m := (m : Int))]
    · simp
    · push_cast
      rw [abs_lt]
      constructor <;> linarith
  · have hc' := not_le.1 hc
    have hm : m = 10 ^ 5 := by
      have : (m : K) < 10 ^ 5 + 1 := by
        linarith
      have : m < 10 ^ 5 + 1 := by exact_mod_cast this
      omega
    have hmK : (m : K) = 10 ^ 5 := by rw [hm]; norm_num
    rw [hmK] at ht1 ht2 ⊢
    have hl : Int.log 10 (t * P) = e + 4 := by
      apply log10_eq hy
      · rw [e4]
        apply mul_le_mul_of_nonneg_right _ hp.le
        linarith
      · have : e + 4 + 1 = e + 5 := by ring
        rw [this, e5]
        exact mul_lt_mul_of_pos_right hc' hp
    have hu : ulp10 (t * P) = P / 10 := by
      unfold ulp10
      rw [abs_of_pos hy, hl, hP]
      have : e + 4 - 5 = e - 1 := by ring
      rw [this, zpow_sub_one₀ ten_ne, div_eq_mul_inv]
    have hd : t * P / (P / 10) = 10 * t := by field_simp
    unfold round6
    rw [hu, hd, roundEven_near (m := (10 : Int) ^ 6)]
    · push_cast; ring
    · push_cast
      rw [abs_lt]
      constructor <;> linarith

theorem two_pow_small : (2 : K) ^ (-((53 : Nat) : Int)) ≤ 1 / 10 ^ 7 := by
  rw [zpow_neg, zpow_natCast, ← one_div]
  apply one_div_le_one_div_of_le (by positivity)
  norm_num

/-- Rounding to a `double` does not change the six digits. -/
theorem round6_flBin (x : K) : round6 (flBin 53 (round6 x)) = round6 x := by
  have key : ∀ x : K, 0 < x → round6 (flBin 53 (round6 x)) = round6 x := by
    intro x hx
    obtain ⟨h1, h2, h3⟩ := sixDigits_spec hx
    have h := flBin_err (p := 53) (round6 x)
    rw [abs_of_pos (round6_pos hx)] at h
    have h' : |flBin 53 (round6 x) - round6 x| ≤ 1 / 10 ^ 7 * round6 x :=
      le_trans h (mul_le_mul_of_nonneg_right two_pow_small (round6_pos hx).le)
    rw [h3] at h' ⊢
    exact round6_near h1 h2 h'
  rcases lt_trichotomy x 0 with h | h | h
  · have := key (-x) (by linarith)
    rw [round6_neg, flBin_neg, round6_neg] at this
    linarith
  · rw [h, round6_zero, flBin_zero, round6_zero]
  · exact key x h

/-! ## Numbers with six significant digits -/

/-- The numbers which can be written with six significant decimal digits. -/
def SixDigit (x : K) : Prop := ∃ m e : Int, |m| < 10 ^ 6 ∧ x = m * (10 : K) ^ e

theorem SixDigit.neg {x : K} (h : SixDigit x) : SixDigit (-x) := by
  obtain ⟨m, e, h1, h2⟩ := h
  exact ⟨-m, e, by rwa [abs_neg], by rw [h2]; push_cast; ring⟩

theorem round6_six (x : K) : SixDigit (round6 x) := by
  have key : ∀ y : K, 0 < y → SixDigit (round6 y) := by
    intro y hy
    obtain ⟨h1, h2, h3⟩ := sixDigits_spec hy
    refine ⟨(sixDigits y).1, _, ?_, by rw [h3]; push_cast; rfl⟩
    rw [abs_of_nonneg (by positivity)]
    exact_mod_cast h2
  rcases lt_trichotomy x 0 with h | h | h
  · have := (key (-x) (by linarith)).neg
    rwa [round6_neg, neg_neg] at this
  · rw [h, round6_zero]
    exact ⟨0, 0, by simp, by simp⟩
  · exact key x h

/-- A positive number with at most six digits can be written with exactly six. -/
theorem SixDigit.normal {x : K} (h : SixDigit x) (hx : 0 < x) :
    ∃ (m : Nat) (e : Int), 10 ^ 5 ≤ m ∧ m < 10 ^ 6 ∧ x = m * (10 : K) ^ e := by
  obtain ⟨m, e, h1, h2⟩ := h
  have hp : (0 : K) < (10 : K) ^ e := by positivity
  have hm : 0 < m := by
    by_contra hc
    have : (m : K) ≤ 0 := by exact_mod_cast not_lt.1 hc
    have := mul_nonpos_of_nonpos_of_nonneg this hp.le
    rw [← h2] at this
    linarith
  rw [abs_of_pos hm] at h1
  obtain ⟨n, rfl⟩ : ∃ n : Nat, m = n := ⟨m.toNat, by omega⟩
  have hn : n < 10 ^ 6 := by exact_mod_cast h1
  have hn0 : 0 < n := by exact_mod_cast hm
  clear h1 hm hp
  have step : ∀ k n : Nat, ∀ e : Int, 0 < n → n < 10 ^ 6 → 10 ^ 6 ≤ n * 10 ^ k * 10 →
      x = (n : K) * (10 : K) ^ e →
      ∃ (m : Nat) (e : Int), 10 ^ 5 ≤ m ∧ m < 10 ^ 6 ∧ x = m * (10 : K) ^ e := by
    intro k
    induction k with
    | zero =>
      intro n e _ h6 hk hx
      exact ⟨n, e, by omega, h6, hx⟩
    | succ k ih =>
      intro n e h0 h6 hk hx
      by_cases h5 : 10 ^ 5 ≤ n
      · exact ⟨n, e, h5, h6, hx⟩
      · refine ih (n * 10) (e - 1) (by omega) (by omega) (by rw [pow_succ 10 k] at hk; linarith) ?_
        rw [hx, zpow_sub_one₀ ten_ne]
        push_cast
        field_simp
  refine step 5 n e hn0 hn (by omega) ?_
  rw [h2]; push_cast; rfl

theorem round6_fix_flBin {d : K} (hd : SixDigit d) : round6 (flBin 53 d) = d := by
  have key : ∀ d : K, SixDigit d → 0 < d → round6 (flBin 53 d) = d := by
    intro d hd hpos
    obtain ⟨m, e, h1, h2, h3⟩ := hd.normal hpos
    have h := flBin_err (p := 53) d
    rw [abs_of_pos hpos] at h
    have h' : |flBin 53 d - d| ≤ 1 / 10 ^ 7 * d :=
      le_trans h (mul_le_mul_of_nonneg_right two_pow_small hpos.le)
    rw [h3] at h' ⊢
    exact round6_near h1 h2 h'
  rcases lt_trichotomy d 0 with h | h | h
  · have := key (-d) hd.neg (by linarith)
    rw [flBin_neg, round6_neg] at this
    linarith
  · rw [h, flBin_zero, round6_zero]
  · exact key d hd h

/-- No number with six digits is nearer. -/
theorem round6_nearest (x : K) {y : K} (hy : SixDigit y) : |round6 x - x| ≤ |y - x| := by
  have key : ∀ x : K, 0 < x → ∀ y : K, SixDigit y → |round6 x - x| ≤ |y - x| := by
    intro x hx y hy
    have hu := ulp10_pos x
    have mult : ∀ m : Int, |round6 x - x| ≤ |m * ulp10 x - x| := by
      intro m
      have h1 := roundEven_nearest (x / ulp10 x) m
      have e1 : round6 x - x = ((roundEven (x / ulp10 x) : K) - x / ulp10 x) * ulp10 x := by
        unfold round6; field_simp
      have e2 : m * ulp10 x - x = ((m : K) - x / ulp10 x) * ulp10 x := by field_simp
      rw [e1, e2, abs_mul, abs_mul]
      exact mul_le_mul_of_nonneg_right h1 (abs_nonneg _)
    have f1 : (10 : K) ^ (Int.log 10 x) = (((10 : Int) ^ 5 : Int) : K) * ulp10 x := by
      unfold ulp10
      rw [abs_of_pos hx]
      have e5 : (((10 : Int) ^ 5 : Int) : K) = (10 : K) ^ (5 : Int) := by norm_cast
      rw [e5, ← zpow_add₀ ten_ne]
      congr 1
      ring
    have hlog := (log10_le hx).1
    rcases lt_or_ge y ((10 : K) ^ (Int.log 10 x)) with hlt | hge
    · refine le_trans (mult ((10 : Int) ^ 5)) ?_
      rw [← f1, abs_sub_comm, abs_of_nonneg (by linarith), abs_sub_comm, abs_of_nonneg (by linarith)]
      linarith
    · obtain ⟨m, e, h1, h2⟩ := hy
      have hlt : Int.log 10 x < 6 + e := by
        rw [← zpow_lt_zpow_iff_right₀ (one_lt_ten (K := K))]
        refine lt_of_le_of_lt hge ?_
        rw [h2, zpow_add₀ ten_ne]
        apply mul_lt_mul_of_pos_right _ (by positivity)
        have := lt_of_le_of_lt (le_abs_self m) h1
        exact_mod_cast this
      obtain ⟨d, hd⟩ : ∃ d : Nat, e = (Int.log 10 x - 5) + d :=
        ⟨(e - (Int.log 10 x - 5)).toNat, by omega⟩
      have e3 : y = ((m * 10 ^ d : Int) : K) * ulp10 x := by
        rw [h2, hd]
        unfold ulp10
        rw [abs_of_pos hx, zpow_add₀ ten_ne]
        push_cast
        rw [zpow_natCast]
        ring
      rw [e3]
      exact mult _
  rcases lt_trichotomy x 0 with h | h | h
  · have := key (-x) (by linarith) (-y) hy.neg
    rw [round6_neg] at this
    have e1 : -round6 x - -x = -(round6 x - x) := by ring
    have e2 : -y - -x = -(y - x) := by ring
    rwa [e1, e2, abs_neg, abs_neg] at this
  · rw [h, round6_zero]; simp
  · exact key x h y hy

/-! ## The printed text -/

theorem printNat_length {n k : Nat} (h1 : 10 ^ k ≤ n) (h2 : n < 10 ^ (k + 1)) :
    (printNat n).length = k + 1 := by
  induction k generalizing n with
  | zero =>
    unfold printNat
    rw [dif_pos (by simpa using h2)]
    rfl
  | succ k ih =>
    have hk : 1 ≤ 10 ^ k := Nat.one_le_pow _ _ (by norm_num)
    rw [pow_succ] at h1
    unfold printNat
    rw [dif_neg (by omega), List.length_append, ih]
    · rfl
    · omega
    · rw [pow_succ (10) (k + 1)] at h2
      omega

theorem stripZeros_digits {s : Str} (h : ∀ c ∈ s, isDigit c = true) :
    ∀ c ∈ stripZeros s, isDigit c = true := fun c hc => h c (stripZeros_mem hc)

/-- The text of a positive number is a decimal number with its six-digit value. -/
theorem printPos_text {x : K} (hx : 0 < x) : ∃ ip fp ex, printPos x = numText ip fp ex ∧
    (∀ c ∈ ip, isDigit c = true) ∧ (∀ c ∈ fp, isDigit c = true) ∧ ip ≠ [] ∧
    (digitsVal (ip ++ fp) : K) * (10 : K) ^ (ex.getD 0 - fp.length) = round6 x := by
  obtain ⟨h1, h2, h3⟩ := sixDigits_spec hx
  have hlen : (printNat (sixDigits x).1).length = 6 := printNat_length (k := 5) h1 h2
  have hdig := printNat_digits (sixDigits x).1
  have hval := digitsVal_printNat (sixDigits x).1
  -- splitting after `k` digits
  have split : ∀ k : Nat, k ≤ 6 →
      (digitsVal ((printNat (sixDigits x).1).take k ++
        stripZeros ((printNat (sixDigits x).1).drop k)) : K) *
        (10 : K) ^ ((6 - k : Int) - (stripZeros ((printNat (sixDigits x).1).drop k)).length) =
        ((sixDigits x).1 : K) := by
    intro k hk
    obtain ⟨z, hz⟩ := stripZeros_spec ((printNat (sixDigits x).1).drop k)
    have hl := congrArg List.length hz
    rw [List.length_append, List.length_replicate, List.length_drop, hlen] at hl
    have hv : digitsVal (printNat (sixDigits x).1) = digitsVal ((printNat (sixDigits x).1).take k ++
        stripZeros ((printNat (sixDigits x).1).drop k)) * 10 ^ z := by
      conv_lhs => rw [← List.take_append_drop k (printNat (sixDigits x).1), hz, ← List.append_assoc,
        digitsVal_append_list, digitsVal_zeros, add_zero, List.length_replicate]
    rw [hval] at hv
    have e : (6 - k : Int) - (stripZeros ((printNat (sixDigits x).1).drop k)).length = (z : Nat) := by
      omega
    rw [e, zpow_natCast]
    conv_rhs => rw [hv]
    push_cast
    rfl
  unfold printPos
  dsimp only
  split_ifs with c1 c2
  · refine ⟨_, _, _, rfl, fun c hc => hdig c (List.mem_of_mem_take hc),
      stripZeros_digits (fun c hc => hdig c (List.mem_of_mem_drop hc)), ?_, ?_⟩
    · intro hc
      have := congrArg List.length hc
      rw [List.length_take, hlen, List.length_nil] at this
      omega
    · have hs := split ((sixDigits x).2.toNat + 1) (by omega)
      rw [h3, ← hs, mul_assoc, ← zpow_add₀ ten_ne]
      congr 2
      rw [Option.getD_none]
      push_cast
      rw [Int.toNat_of_nonneg c1.1]
      ring
  · refine ⟨_, _, _, rfl, ?_, ?_, by simp, ?_⟩
    · intro c hc
      rw [List.mem_singleton.1 hc]; decide
    · intro c hc
      rcases List.mem_append.1 hc with hc | hc
      · rw [List.eq_of_mem_replicate hc]; decide
      · exact stripZeros_digits hdig c hc
    · have hs := split 0 (by omega)
      rw [List.take_zero, List.drop_zero, List.nil_append] at hs
      have hv : digitsVal (['0'] ++ (List.replicate (-(sixDigits x).2 - 1).toNat '0' ++
          stripZeros (printNat (sixDigits x).1))) = digitsVal (stripZeros (printNat (sixDigits x).1)) := by
        rw [digitsVal_append_list, digitsVal_append_list, digitsVal_zeros]
        simp [digitsVal]
      rw [hv, h3, ← hs, mul_assoc, ← zpow_add₀ ten_ne]
      congr 2
      rw [Option.getD_none, List.length_append, List.length_replicate]
      push_cast
      have : ((-(sixDigits x).2 - 1).toNat : Int) = -(sixDigits x).2 - 1 :=
        Int.toNat_of_nonneg (by omega)
      rw [this]
      ring
  · refine ⟨_, _, _, rfl, fun c hc => hdig c (List.mem_of_mem_take hc),
      stripZeros_digits (fun c hc => hdig c (List.mem_of_mem_drop hc)), ?_, ?_⟩
    · intro hc
      have := congrArg List.length hc
      rw [List.length_take, hlen, List.length_nil] at this
      omega
    · have hs := split 1 (by omega)
      rw [h3, ← hs, mul_assoc, ← zpow_add₀ ten_ne]
      congr 2
      rw [Option.getD_some]
      push_cast
      ring

/-- The decimal number printed for `x` is `x` rounded to six significant digits. -/
theorem readDec_print (x : K) : readDec (printDouble x) = some (round6 x) := by
  unfold printDouble
  split_ifs with h0 h1
  · rw [h0, round6_zero]
    have := readDec_text (K := K) false (ip := ['0']) (fp := []) (by intro c hc; rw [List.mem_singleton.1 hc]; decide)
      (by simp) (by simp) none
    have e : (if (false = true) then ['-'] else []) ++ numText ['0'] [] none = ['0'] := rfl
    rw [e] at this
    rw [this]
    simp [digitsVal]
  · obtain ⟨ip, fp, ex, e1, e2, e3, e4, e5⟩ := printPos_text (x := -x) (by linarith)
    have := readDec_text (K := K) true e2 e3 e4 ex
    rw [if_pos rfl, ← e1, List.singleton_append] at this
    rw [this, if_pos rfl, mul_assoc, e5, round6_neg]
    simp
  · have hx : 0 < x := lt_of_le_of_ne (not_lt.1 h1) (Ne.symm h0)
    obtain ⟨ip, fp, ex, e1, e2, e3, e4, e5⟩ := printPos_text hx
    have := readDec_text (K := K) false e2 e3 e4 ex
    simp only [Bool.false_eq_true, if_false, List.nil_append] at this
    rw [← e1] at this
    rw [this, mul_assoc, e5]
    simp

/-- The double read from the text printed for `x`. -/
def sixD (x : K) : K := flBin 53 (round6 x)

theorem stod_print (x : K) : stodDouble (printDouble x) =
    if InRange (sixD x) then .ok (sixD x) else .throw .outOfRange := by
  unfold stodDouble
  rw [readDec_print]
  rfl

/-- The text depends only on the rounded value. -/
theorem printDouble_eq {x y : K} (h : round6 x = round6 y) : printDouble x = printDouble y := by
  have sign : ∀ z : K, (z < 0 → round6 z < 0) ∧ (0 < z → 0 < round6 z) ∧ (z = 0 → round6 z = 0) := by
    intro z
    refine ⟨fun hz => ?_, round6_pos, fun hz => by rw [hz, round6_zero]⟩
    have := round6_pos (x := -z) (by linarith)
    rw [round6_neg] at this
    linarith
  have pos : ∀ x y : K, 0 < x → 0 < y → round6 x = round6 y → printPos x = printPos y := by
    intro x y hx hy h
    unfold printPos
    rw [sixDigits_eq hx hy h]
  unfold printDouble
  rcases lt_trichotomy x 0 with hx | hx | hx <;> rcases lt_trichotomy y 0 with hy | hy | hy
  · rw [if_neg hx.ne, if_neg hy.ne, if_pos hx, if_pos hy]
    rw [pos (-x) (-y) (by linarith) (by linarith) (by rw [round6_neg, round6_neg, h])]
  · have := (sign x).1 hx; have := (sign y).2.2 hy; exfalso; linarith
  · have := (sign x).1 hx; have := (sign y).2.1 hy; exfalso; linarith
  · have := (sign x).2.2 hx; have := (sign y).1 hy; exfalso; linarith
  · rw [if_pos hx, if_pos hy]
  · have := (sign x).2.2 hx; have := (sign y).2.1 hy; exfalso; linarith
  · have := (sign x).2.1 hx; have := (sign y).1 hy; exfalso; linarith
  · have := (sign x).2.1 hx; have := (sign y).2.2 hy; exfalso; linarith
  · rw [if_neg hx.ne', if_neg hy.ne', if_neg (not_lt.2 hx.le), if_neg (not_lt.2 hy.le),
      pos x y hx hy h]

/-- Printing again gives the same text. -/
theorem printDouble_sixD (x : K) : printDouble (sixD x) = printDouble x :=
  printDouble_eq (round6_flBin x)

theorem sixD_idem (x : K) : sixD (sixD x) = sixD x := by
  unfold sixD
  rw [round6_flBin]

/-- Exactly the `double`s nearest to a number with six digits are not changed. -/
theorem sixD_fix_iff (x : K) : sixD x = x ↔ ∃ d, SixDigit d ∧ x = flBin 53 d := by
  constructor
  · intro h
    exact ⟨round6 x, round6_six x, h.symm⟩
  · rintro ⟨d, hd, rfl⟩
    unfold sixD
    rw [round6_fix_flBin hd]

theorem sixD_err (x : K) : |sixD x - x| ≤ 501 / 10 ^ 8 * |x| := by
  have h1 := round6_err x
  have h2 := flBin_err (p := 53) (round6 x)
  have h3 := mul_le_mul_of_nonneg_right (two_pow_small (K := K)) (abs_nonneg (round6 x))
  have h4 : |round6 x| ≤ |round6 x - x| + |x| := by
    have := abs_add_le (round6 x - x) x
    rwa [sub_add_cancel] at this
  have h5 := abs_sub_le (sixD x) (round6 x) x
  unfold sixD at *
  have h6 : (2 : K) ^ (-((53 : Nat) : Int)) ≤ 1 / 10 ^ 9 := by
    rw [zpow_neg, zpow_natCast, ← one_div]
    apply one_div_le_one_div_of_le (by positivity)
    norm_num
  have h7 := mul_le_mul_of_nonneg_right h6 (abs_nonneg (round6 x))
  norm_num at *
  have := abs_nonneg x
  linarith

theorem sixD_neg (x : K) : sixD (-x) = - sixD x := by
  unfold sixD
  rw [round6_neg, flBin_neg]

theorem sixD_pos {x : K} (hx : 0 < x) : 0 < sixD x :=
  lt_of_lt_of_le (by positivity) (flBin_bounds (by norm_num) (round6_pos hx)).1

/-- The characters of a printed number. -/
theorem printDouble_chars (x : K) : ∀ c ∈ printDouble x,
    isDigit c = true ∨ c = '.' ∨ c = 'e' ∨ c = '+' ∨ c = '-' := by
  have num : ∀ (ip fp : Str) (ex : Option Int), (∀ c ∈ ip, isDigit c = true) →
      (∀ c ∈ fp, isDigit c = true) → ∀ c ∈ numText ip fp ex,
      isDigit c = true ∨ c = '.' ∨ c = 'e' ∨ c = '+' ∨ c = '-' := by
    intro ip fp ex h1 h2 c hc
    unfold numText at hc
    rcases List.mem_append.1 hc with hc | hc
    · rcases List.mem_append.1 hc with hc | hc
      · exact Or.inl (h1 c hc)
      · split_ifs at hc
        · cases hc
        · rcases List.mem_cons.1 hc with rfl | hc
          · simp
          · exact Or.inl (h2 c hc)
    · cases ex with
      | none => cases hc
      | some e =>
        simp only [List.mem_cons] at hc
        rcases hc with rfl | rfl | hc
        · simp
        · split_ifs <;> simp
        · left
          split_ifs at hc
          · rcases List.mem_cons.1 hc with rfl | hc
            · decide
            · exact printNat_digits _ c hc
          · exact printNat_digits _ c hc
  intro c hc
  unfold printDouble at hc
  split_ifs at hc with h0 h1
  · rw [List.mem_singleton.1 hc]; left; decide
  · rcases List.mem_cons.1 hc with rfl | hc
    · simp
    · obtain ⟨ip, fp, ex, e1, e2, e3, _, _⟩ := printPos_text (x := -x) (by linarith)
      rw [e1] at hc
      exact num ip fp ex e2 e3 c hc
  · obtain ⟨ip, fp, ex, e1, e2, e3, _, _⟩ :=
      printPos_text (lt_of_le_of_ne (not_lt.1 h1) (Ne.symm h0))
    rw [e1] at hc
    exact num ip fp ex e2 e3 c hc

theorem printDouble_ne (x : K) : printDouble x ≠ [] := by
  intro h
  have := readDec_print x
  rw [h] at this
  unfold readDec at this
  simp [dropSign, readFrac] at this

/-- The standard library's format for `double`s as a `Fmt`: a number is `printable` if it is read
back unchanged. -/
def doubleFmt (K : Type) [Field K] [LinearOrder K] [IsStrictOrderedRing K] [FloorRing K] : Fmt K where
  stod := stodDouble
  print := printDouble
  printable := fun x => InRange x ∧ sixD x = x
  print_ne := fun x _ => printDouble_ne x
  print_chars := by
    intro x _ c hc
    rcases printDouble_chars x c hc with h | h | h | h | h
    · exact ⟨digit_ne h (by decide), digit_ne h (by decide), digit_ne h (by decide),
        digit_ne h (by decide), digit_ne h (by decide), digit_ne h (by decide),
        digit_ne h (by decide), digit_ne h (by decide)⟩
    all_goals subst h; decide
  stod_print := by
    rintro x ⟨h1, h2⟩
    rw [stod_print, h2, if_pos h1]
  stod_blank := by
    intro s
    have : readDec (K := K) (' ' :: s) = readDec s := by
      unfold readDec
      have : (' ' :: s).dropWhile isSpace = s.dropWhile isSpace := by
        rw [List.dropWhile_cons, if_pos (by decide)]
      rw [this]
    unfold stodDouble
    rw [this]
  stod_empty := by
    have : readDec (K := K) [] = none := by
      unfold readDec
      simp [dropSign, readFrac]
    unfold stodDouble
    rw [this]

end
end Stag
