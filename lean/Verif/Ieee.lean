import Verif.Props.RoundingIndex

/-!
# Binary64 with underflow and overflow

`flBin 53` rounds with an unbounded exponent.  Here is the rounding that IEEE 754 prescribes for `double`s: numbers below
`2^-1022` are rounded to multiples of `2^-1074`, and a result of `2^1024` or more overflows, to whatever the parameter `ovf`
says.
-/

namespace Stag

section
variable {K : Type} [Field K] [LinearOrder K] [IsStrictOrderedRing K] [FloorRing K]

/-- Rounding to the nearest `double`, ties to even, with gradual underflow; `ovf` is the result of an overflow (IEEE 754
returns an infinity, which is not a number here: the theorems hold for every `ovf`). -/
def flIEEE (ovf : K → K) (x : K) : K :=
  if |x| < 2 ^ (-1022 : Int) then (roundEven (x / 2 ^ (-1074 : Int)) : K) * 2 ^ (-1074 : Int)
  else if 2 ^ (1024 : Int) ≤ |flBin 53 x| then ovf x
  else flBin 53 x

/-- `x` is a multiple of `2^e`. -/
def Grid (e : Int) (x : K) : Prop := ∃ m : Int, x = m * 2 ^ e

theorem Grid.zero (e : Int) : Grid e (0 : K) := ⟨0, by simp⟩

theorem Grid.add {e : Int} {x y : K} (h : Grid e x) (h' : Grid e y) : Grid e (x + y) := by
  obtain ⟨m, rfl⟩ := h
  obtain ⟨m', rfl⟩ := h'
  exact ⟨m + m', by push_cast; ring⟩

theorem Grid.sub {e : Int} {x y : K} (h : Grid e x) (h' : Grid e y) : Grid e (x - y) := by
  obtain ⟨m, rfl⟩ := h
  obtain ⟨m', rfl⟩ := h'
  exact ⟨m - m', by push_cast; ring⟩

theorem Grid.two_mul {e : Int} {x : K} (h : Grid e x) : Grid e (2 * x) := by
  rw [_root_.two_mul]
  exact h.add h

theorem Grid.mono {e e' : Int} {x : K} (h : Grid e x) (he : e' ≤ e) : Grid e' x := by
  obtain ⟨m, rfl⟩ := h
  obtain ⟨d, hd⟩ := Int.eq_ofNat_of_zero_le (sub_nonneg.2 he)
  refine ⟨m * 2 ^ d, ?_⟩
  rw [show e = (d : Int) + e' by omega, zpow_add₀ (by norm_num), zpow_natCast]
  push_cast
  ring

theorem Grid.ge {e : Int} {x : K} (h : Grid e x) (hx : 0 < x) : (2 : K) ^ e ≤ x := by
  obtain ⟨m, rfl⟩ := h
  have h2 : (0 : K) < 2 ^ e := by positivity
  have : (0 : K) < m := by
    by_contra hc
    exact absurd hx (not_lt.2 (mul_nonpos_of_nonpos_of_nonneg (not_lt.1 hc) h2.le))
  have : (1 : K) ≤ m := by exact_mod_cast (show (0 : Int) < m by exact_mod_cast this)
  nlinarith

/-- Rounding keeps multiples of a power of two. -/
theorem Grid.flBin {e : Int} {x : K} (h : Grid e x) : Grid e (flBin 53 x) := by
  by_cases hu : e ≤ Int.log 2 |x| - (53 - 1 : Int)
  · refine Grid.mono ⟨roundEven (x / ulp 53 x), ?_⟩ hu
    rfl
  · have he := not_le.1 hu
    obtain ⟨m, hm⟩ := h
    obtain ⟨d, hd⟩ := Int.eq_ofNat_of_zero_le (sub_nonneg.2 he.le)
    have : Stag.flBin 53 x = x := by
      refine flBin_fix (m * 2 ^ d) ?_
      have hul : ulp 53 x = 2 ^ (Int.log 2 |x| - (53 - 1 : Int)) := rfl
      have hz : (2 : K) ^ e = 2 ^ (d : Int) * 2 ^ (Int.log 2 |x| - (53 - 1 : Int)) := by
        rw [← zpow_add₀ (by norm_num)]
        congr 1
        omega
      rw [hul, Int.cast_mul, Int.cast_pow, Int.cast_ofNat, mul_assoc, ← zpow_natCast (2 : K) d, ← hz]
      exact hm
    rw [this]
    exact ⟨m, hm⟩

/-- A `double` of at least `2^e` is a multiple of `2^(e - 53)`. -/
theorem grid_of_float {e : Int} {x : K} (h : IsFloat 53 x) (hx : (2 : K) ^ e ≤ x) : Grid (e - 53) x := by
  obtain ⟨m, e', h1, h2⟩ := h
  by_cases he : e - 53 ≤ e'
  · exact Grid.mono ⟨m, h2⟩ he
  · exfalso
    have hm : (m : K) < 2 ^ (53 : Int) := by
      have : m < 2 ^ 53 := (le_abs_self m).trans_lt h1
      have : (m : K) < ((2 ^ 53 : Int) : K) := by exact_mod_cast this
      refine this.trans_le (le_of_eq ?_)
      norm_num
    have h3 : x < 2 ^ (53 : Int) * 2 ^ e' := by
      rw [h2]
      exact mul_lt_mul_of_pos_right hm (by positivity)
    rw [← zpow_add₀ (by norm_num)] at h3
    have : (2 : K) ^ (53 + e') ≤ 2 ^ e := zpow_le_zpow_right₀ one_le_two (by omega)
    linarith

/-- The numbers that are rounded without underflow and overflow: not too large, and zero, not too small, or a multiple of
`2^-1074`. -/
def Fits (x : K) : Prop := |x| ≤ 2 ^ (1023 : Int) ∧ (Grid (-1074) x ∨ (2 : K) ^ (-1022 : Int) ≤ |x|)

theorem flBin_abs (x : K) : |flBin 53 x| = flBin 53 |x| := by
  rcases le_total 0 x with h | h
  · rw [abs_of_nonneg h, abs_of_nonneg]
    have := flBin_mono (p := 53) (by norm_num) h
    rwa [flBin_zero] at this
  · rw [abs_of_nonpos h, flBin_neg, abs_of_nonpos]
    have := flBin_mono (p := 53) (by norm_num) h
    rwa [flBin_zero] at this

theorem Fits.eq {x : K} (h : Fits x) (ovf : K → K) : flIEEE ovf x = flBin 53 x := by
  obtain ⟨h1, h2⟩ := h
  have hov : ¬ (2 : K) ^ (1024 : Int) ≤ |flBin 53 x| := by
    rw [flBin_abs, not_le]
    have := flBin_mono (p := 53) (by norm_num) h1
    rw [flBin_zpow (by norm_num)] at this
    refine lt_of_le_of_lt this (zpow_lt_zpow_right₀ one_lt_two (by norm_num))
  unfold flIEEE
  rw [if_neg hov]
  split_ifs with hs
  · rcases h2 with h2 | h2
    · obtain ⟨m, hm⟩ := h2
      have hp : (0 : K) < 2 ^ (-1074 : Int) := by positivity
      have hq : x / 2 ^ (-1074 : Int) = m := by rw [hm]; exact mul_div_cancel_right₀ _ hp.ne'
      rw [hq, roundEven_int, ← hm]
      refine (flBin_of_isFloat (by norm_num) ⟨m, -1074, ?_, hm⟩).symm
      have h3 : |(m : K)| < 2 ^ (52 : Int) := by
        rw [hm, abs_mul, abs_of_pos hp] at hs
        have e : (2 : K) ^ (-1022 : Int) = 2 ^ (52 : Int) * 2 ^ (-1074 : Int) := by
          rw [← zpow_add₀ (by norm_num)]
          norm_num
        rw [e] at hs
        exact lt_of_mul_lt_mul_right hs hp.le
      have h4 : |(m : K)| < ((2 ^ 53 : Int) : K) := by
        refine h3.trans ?_
        norm_num
      exact_mod_cast h4
    · exact absurd hs (not_lt.2 h2)
  · rfl

/-- `x` is a multiple of `2^e` of absolute value at most `k 2^t`. -/
def Amount (e t : Int) (k : Nat) (x : K) : Prop := Grid e x ∧ |x| ≤ k * 2 ^ t

variable {e t : Int}

theorem Amount.zero (k : Nat) : Amount e t k (0 : K) := ⟨Grid.zero e, by rw [abs_zero]; positivity⟩

theorem Amount.mono {k k' : Nat} {x : K} (h : Amount e t k x) (hk : k ≤ k') : Amount e t k' x := by
  refine ⟨h.1, h.2.trans ?_⟩
  have : (k : K) ≤ k' := by exact_mod_cast hk
  gcongr

theorem Amount.coarse {e' t' : Int} {k : Nat} {x : K} (h : Amount e t k x) (he : e' ≤ e) (ht : t ≤ t') : Amount e' t' k x := by
  refine ⟨h.1.mono he, h.2.trans ?_⟩
  have : (2 : K) ^ t ≤ 2 ^ t' := zpow_le_zpow_right₀ one_le_two ht
  gcongr

theorem Amount.le {k : Nat} {x : K} (h : Amount e t k x) (hk : k ≤ 2 ^ 53) : |x| ≤ 2 ^ (53 + t) := by
  refine h.2.trans ?_
  rw [zpow_add₀ (by norm_num)]
  have : (k : K) ≤ 2 ^ (53 : Int) := by
    have : (k : K) ≤ ((2 ^ 53 : Nat) : K) := by exact_mod_cast hk
    refine this.trans (le_of_eq ?_)
    norm_num
  gcongr

theorem Amount.flBin {k : Nat} {x : K} (h : Amount e t k x) (hk : k ≤ 2 ^ 53) : Amount e t k (flBin 53 x) := by
  refine ⟨h.1.flBin, ?_⟩
  rw [flBin_abs]
  have := flBin_mono (p := 53) (by norm_num) h.2
  rwa [flBin_scale, flBin_nat_le hk] at this

theorem Amount.fits {k : Nat} {x : K} (h : Amount e t k x) (hk : k ≤ 2 ^ 53) (he : -1074 ≤ e) (ht : t ≤ 970) : Fits x :=
  ⟨(h.le hk).trans (zpow_le_zpow_right₀ one_le_two (by omega)), .inl (h.1.mono he)⟩

theorem Amount.add {k l : Nat} {x y : K} (h : Amount e t k x) (h' : Amount e t l y) : Amount e t (k + l) (x + y) := by
  refine ⟨h.1.add h'.1, (abs_add_le x y).trans ?_⟩
  push_cast
  rw [add_mul]
  exact add_le_add h.2 h'.2

theorem Amount.sub {k l : Nat} {x y : K} (h : Amount e t k x) (h' : Amount e t l y) : Amount e t (k + l) (x - y) := by
  refine ⟨h.1.sub h'.1, (abs_sub x y).trans ?_⟩
  push_cast
  rw [add_mul]
  exact add_le_add h.2 h'.2

theorem Amount.two_mul {k : Nat} {x : K} (h : Amount e t k x) : Amount e t (2 * k) (2 * x) := by
  rw [_root_.two_mul, _root_.two_mul]
  exact h.add h

/-- A number is rounded in the same way. -/
theorem Amount.eq {k : Nat} {x : K} (h : Amount e t k x) (hk : k ≤ 2 ^ 53) (he : -1074 ≤ e) (ht : t ≤ 970) (ovf : K → K) :
    flIEEE ovf x = Stag.flBin 53 x := (h.fits hk he ht).eq ovf

theorem Amount.ge {k : Nat} {x : K} (h : Amount e t k x) (hx : x ≠ 0) : (2 : K) ^ e ≤ |x| := by
  have hg : Grid e |x| := by
    obtain ⟨⟨m, hm⟩, _⟩ := h
    exact ⟨|m|, by rw [hm, abs_mul, abs_of_pos (by positivity : (0 : K) < 2 ^ e)]; push_cast; rfl⟩
  exact hg.ge (abs_pos.2 hx)

/-- A rounded number between two powers of two is on the grid of the lower one. -/
theorem amount_flBin {a b : Int} {x : K} (h : x = 0 ∨ (2 : K) ^ a ≤ |x|) (h' : |x| ≤ 2 ^ b) :
    Amount (a - 53) b 1 (flBin 53 x) := by
  have hb : flBin 53 |x| ≤ 2 ^ b := by
    have := flBin_mono (p := 53) (by norm_num) h'
    rwa [flBin_zpow (by norm_num)] at this
  rcases h with h | h
  · rw [h, flBin_zero]
    exact Amount.zero 1
  · have ha : (2 : K) ^ a ≤ flBin 53 |x| := by
      have := flBin_mono (p := 53) (by norm_num) h
      rwa [flBin_zpow (by norm_num)] at this
    refine ⟨?_, by rw [flBin_abs, Nat.cast_one, one_mul]; exact hb⟩
    have hg := grid_of_float (flBin_isFloat (by norm_num) |x|) ha
    rcases le_total 0 x with h0 | h0
    · rwa [abs_of_nonneg h0] at hg
    · rw [abs_of_nonpos h0, flBin_neg] at hg
      have := (Grid.zero (K := K) (a - 53)).sub hg
      rwa [zero_sub, neg_neg] at this

theorem fits_of_range {a b : Int} {x : K} (h : x = 0 ∨ (2 : K) ^ a ≤ |x|) (h' : |x| ≤ 2 ^ b) (ha : -1022 ≤ a) (hb : b ≤ 1023) :
    Fits x := by
  rcases h with h | h
  · rw [h]
    exact ⟨by rw [abs_zero]; positivity, .inl (Grid.zero _)⟩
  · exact ⟨h'.trans (zpow_le_zpow_right₀ one_le_two hb), .inr ((zpow_le_zpow_right₀ one_le_two ha).trans h)⟩

/-- Sizes of products. -/
theorem range_mul {a b a' b' : Int} {x y : K} (h : x = 0 ∨ (2 : K) ^ a ≤ |x|) (h' : |x| ≤ 2 ^ b)
    (hy : y = 0 ∨ (2 : K) ^ a' ≤ |y|) (hy' : |y| ≤ 2 ^ b') :
    (x * y = 0 ∨ (2 : K) ^ (a + a') ≤ |x * y|) ∧ |x * y| ≤ 2 ^ (b + b') := by
  rw [abs_mul, zpow_add₀ (by norm_num), zpow_add₀ (by norm_num)]
  refine ⟨?_, mul_le_mul h' hy' (abs_nonneg y) (by positivity)⟩
  rcases h with h | h
  · exact .inl (by rw [h, zero_mul])
  rcases hy with hy | hy
  · exact .inl (by rw [hy, mul_zero])
  exact .inr (mul_le_mul h hy (by positivity) (abs_nonneg x))

/-- Sizes of quotients. -/
theorem range_div {a b a' b' : Int} {x y : K} (h : x = 0 ∨ (2 : K) ^ a ≤ |x|) (h' : |x| ≤ 2 ^ b)
    (hy : y = 0 ∨ (2 : K) ^ a' ≤ |y|) (hy' : |y| ≤ 2 ^ b') :
    (x / y = 0 ∨ (2 : K) ^ (a - b') ≤ |x / y|) ∧ |x / y| ≤ 2 ^ (b - a') := by
  rcases hy with hy | hy
  · rw [hy, div_zero, abs_zero]
    exact ⟨.inl rfl, by positivity⟩
  have hp : (0 : K) < 2 ^ a' := by positivity
  have hi : |y⁻¹| ≤ 2 ^ (-a') := by
    rw [abs_inv, zpow_neg]
    exact inv_anti₀ hp hy
  have hi' : (2 : K) ^ (-b') ≤ |y⁻¹| := by
    rw [abs_inv, zpow_neg]
    exact inv_anti₀ (lt_of_lt_of_le hp hy) hy'
  rw [div_eq_mul_inv, sub_eq_add_neg, sub_eq_add_neg]
  exact range_mul h h' (.inr hi') hi

theorem Amount.range {k : Nat} {x : K} (h : Amount e t k x) (hk : k ≤ 2 ^ 53) :
    (x = 0 ∨ (2 : K) ^ e ≤ |x|) ∧ |x| ≤ 2 ^ (53 + t) :=
  ⟨or_iff_not_imp_left.2 h.ge, h.le hk⟩

/-- `x` is zero or between `2^a` and `2^b`, up to its sign. -/
def Within (a b : Int) (x : K) : Prop := (x = 0 ∨ (2 : K) ^ a ≤ |x|) ∧ |x| ≤ 2 ^ b

variable {a b a' b' : Int}

theorem Within.mul {x y : K} (h : Within a b x) (h' : Within a' b' y) : Within (a + a') (b + b') (x * y) :=
  range_mul h.1 h.2 h'.1 h'.2

theorem Within.div {x y : K} (h : Within a b x) (h' : Within a' b' y) : Within (a - b') (b - a') (x / y) :=
  range_div h.1 h.2 h'.1 h'.2

theorem Within.amount {x : K} (h : Within a b x) : Amount (a - 53) b 1 (Stag.flBin 53 x) := amount_flBin h.1 h.2

theorem Within.eq {x : K} (h : Within a b x) (ha : -1022 ≤ a) (hb : b ≤ 1023) (ovf : K → K) :
    flIEEE ovf x = Stag.flBin 53 x := (fits_of_range h.1 h.2 ha hb).eq ovf

theorem Within.flBin {x : K} (h : Within a b x) : Within a b (Stag.flBin 53 x) := by
  rw [Within, flBin_abs]
  refine ⟨?_, ?_⟩
  · rcases h.1 with h | h
    · exact .inl (by rw [h, flBin_zero])
    · right
      have := flBin_mono (p := 53) (by norm_num) h
      rwa [flBin_zpow (by norm_num)] at this
  · have := flBin_mono (p := 53) (by norm_num) h.2
    rwa [flBin_zpow (by norm_num)] at this

theorem Amount.within {k : Nat} {x : K} (h : Amount e t k x) (hk : k ≤ 2 ^ 53) : Within e (53 + t) x := h.range hk

theorem Amount.within_one {x : K} (h : Amount e t 1 x) : Within e t x :=
  ⟨or_iff_not_imp_left.2 h.ge, by simpa using h.2⟩

end
end Stag
