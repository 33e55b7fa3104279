import Verif.RoundingIndex
import Verif.Batch
import Verif.Random
import Verif.KMeans
import Verif.Props.RoundingMetrics
import Verif.DecimalLemmas
import Verif.Ckns

/-!
# C88: integers computed through doubles
-/

set_option linter.unusedSectionVars false

namespace Stag

section
variable {K : Type} [Field K] [LinearOrder K] [IsStrictOrderedRing K] [FloorRing K]

theorem flBin_le_up {x : K} (h : 0 ≤ x) : flBin 53 x ≤ x * (1 + 1 / 2 ^ 53) := by
  have := flBin_err (p := 53) x
  rw [abs_of_nonneg h] at this
  have h1 := (abs_le.1 this).2
  have e : (2 : K) ^ (-((53 : Nat) : Int)) = 1 / 2 ^ 53 := by rw [zpow_neg, zpow_natCast, one_div]
  rw [e] at h1
  linarith

theorem flBin_ge_down {x : K} (h : 0 ≤ x) : x * (1 - 1 / 2 ^ 53) ≤ flBin 53 x := by
  have := flBin_err (p := 53) x
  rw [abs_of_nonneg h] at this
  have h1 := (abs_le.1 this).1
  have e : (2 : K) ^ (-((53 : Nat) : Int)) = 1 / 2 ^ 53 := by rw [zpow_neg, zpow_natCast, one_div]
  rw [e] at h1
  linarith

theorem flBin_nat_le {m : Nat} (h : m ≤ 2 ^ 53) : flBin 53 (m : K) = m := by
  rcases lt_or_eq_of_le h with h | h
  · exact flBin_nat h
  · have := flBin_zpow (K := K) (p := 53) (by norm_num) 53
    rw [h]
    push_cast
    exact_mod_cast this

/-- Scaling by a power of two commutes with rounding. -/
theorem flBin_scale (p : Nat) (k : Int) (x : K) : flBin p (x * 2 ^ k) = flBin p x * 2 ^ k := by
  rcases eq_or_ne x 0 with h0 | h0
  · rw [h0, zero_mul, flBin_zero, zero_mul]
  have h2 : (0 : K) < 2 ^ k := by positivity
  have hx : 0 < |x| := abs_pos.2 h0
  have hl : Int.log 2 (|x| * 2 ^ k) = Int.log 2 |x| + k := by
    apply le_antisymm
    · apply Int.lt_add_one_iff.1
      rw [← Int.lt_zpow_iff_log_lt one_lt_two (by positivity)]
      have h3 := Int.lt_zpow_succ_log_self (b := 2) one_lt_two |x|
      have : ((2 : Nat) : K) ^ (Int.log 2 |x| + k + 1) = ((2 : Nat) : K) ^ (Int.log 2 |x| + 1) * 2 ^ k := by
        rw [Nat.cast_ofNat, ← zpow_add₀ two_ne_zero]
        congr 1
        ring
      rw [this]
      exact mul_lt_mul_of_pos_right h3 h2
    · rw [← Int.zpow_le_iff_le_log one_lt_two (by positivity)]
      have h3 := Int.zpow_log_le_self (b := 2) one_lt_two hx
      rw [Nat.cast_ofNat, zpow_add₀ two_ne_zero]
      exact mul_le_mul_of_nonneg_right (by exact_mod_cast h3) h2.le
  have hu : ulp p (x * 2 ^ k) = ulp p x * 2 ^ k := by
    unfold ulp
    rw [abs_mul, abs_of_pos h2, hl, ← zpow_add₀ two_ne_zero]
    congr 1
    ring
  unfold flBin
  rw [hu, mul_div_mul_right _ _ h2.ne']
  ring

/-- The value of a rounding, from the exponent and the nearest integer. -/
theorem flBin_eq {p : Nat} {x : K} (e m : Int) (h1 : (2 : K) ^ (e + p - 1) ≤ x) (h2 : x < (2 : K) ^ (e + p))
    (h3 : |x / 2 ^ e - m| < 1 / 2) : flBin p x = m * 2 ^ e := by
  have hx : 0 < x := lt_of_lt_of_le (by positivity) h1
  have hl : Int.log 2 x = e + p - 1 := by
    apply le_antisymm
    · apply Int.lt_add_one_iff.1
      rw [← Int.lt_zpow_iff_log_lt one_lt_two hx]
      convert h2 using 2
      all_goals first | omega | norm_num
    · rw [← Int.zpow_le_iff_le_log one_lt_two hx]
      exact_mod_cast h1
  have hu : ulp p x = 2 ^ e := by
    unfold ulp
    rw [abs_of_pos hx, hl]
    congr 1
    ring
  unfold flBin
  rw [hu, roundEven_near h3]

theorem floorDiv_exact {a b : Nat} (ha : a < 2 ^ 53) (hb : 0 < b) (hb' : b < 2 ^ 53) :
    floorDivFl (flBin (K := K) 53) a b = ((a / b : Nat) : Int) := by
  unfold floorDivFl
  rw [flBin_nat ha, flBin_nat hb', Int.floor_eq_iff]
  have hbK : (0 : K) < b := by exact_mod_cast hb
  have haK : (0 : K) ≤ a := Nat.cast_nonneg a
  constructor
  · have h1 : ((a / b : Nat) : K) ≤ (a : K) / b := Nat.cast_div_le
    have h2 := flBin_mono (p := 53) (by norm_num) h1
    rw [flBin_nat (lt_of_le_of_lt (Nat.div_le_self a b) ha)] at h2
    exact_mod_cast h2
  · refine lt_of_le_of_lt (flBin_le_up (div_nonneg haK hbK.le)) ?_
    have h3 : a < (a / b + 1) * b := by
      have h := Nat.div_add_mod a b
      have h' := Nat.mod_lt a hb
      rw [Nat.add_mul, Nat.mul_comm (a / b) b]
      omega
    have h4 : (a : K) + 1 ≤ ((a / b : Nat) + 1) * b := by exact_mod_cast h3
    have h5 : (a : K) * (1 / 2 ^ 53) < 1 := by
      rw [mul_one_div, div_lt_one (by positivity)]
      exact_mod_cast ha
    rw [div_mul_eq_mul_div, div_lt_iff₀ hbK, Int.cast_natCast]
    have e : (a : K) * (1 + 1 / 2 ^ 53) = a + a * (1 / 2 ^ 53) := by ring
    rw [e]
    linarith

theorem ceilDiv_exact {a b : Nat} (ha : a < 2 ^ 53) (hb : 0 < b) (hb' : b < 2 ^ 53) :
    ceilDivFl (flBin (K := K) 53) a b = (((a + b - 1) / b : Nat) : Int) := by
  unfold ceilDivFl
  rw [flBin_nat ha, flBin_nat hb', Int.ceil_eq_iff]
  have hbK : (0 : K) < b := by exact_mod_cast hb
  have haK : (0 : K) ≤ a := Nat.cast_nonneg a
  generalize hc : (a + b - 1) / b = c
  have h1 : a ≤ c * b := by
    have h := Nat.div_add_mod (a + b - 1) b
    have h' := Nat.mod_lt (a + b - 1) hb
    rw [hc, Nat.mul_comm] at h
    omega
  have h2 : c * b < a + b := by
    have := Nat.div_mul_le_self (a + b - 1) b
    rw [hc] at this
    omega
  have hca : c ≤ a := by
    rw [← hc]
    rcases Nat.eq_zero_or_pos a with h | h
    · rw [h, Nat.zero_add, Nat.div_eq_of_lt (by omega)]
    · apply Nat.lt_succ_iff.1
      rw [Nat.div_lt_iff_lt_mul hb]
      have e1 : a.succ * b = a * b + b := Nat.succ_mul a b
      have e2 : a * 1 ≤ a * b := Nat.mul_le_mul_left a hb
      rw [e1]
      omega
  have h1K : (a : K) ≤ c * b := by exact_mod_cast h1
  have h2K : (c : K) * b + 1 ≤ a + b := by exact_mod_cast h2
  constructor
  · rcases Nat.eq_zero_or_pos a with h | h
    · subst h
      have : c = 0 := by omega
      rw [this, Nat.cast_zero (R := K), zero_div, flBin_zero]
      simp
    · refine lt_of_lt_of_le ?_ (flBin_ge_down (div_nonneg haK hbK.le))
      have h5 : (a : K) * (1 / 2 ^ 53) < 1 := by
        rw [mul_one_div, div_lt_one (by positivity)]
        exact_mod_cast ha
      rw [div_mul_eq_mul_div, lt_div_iff₀ hbK]
      push_cast
      calc ((c : K) - 1) * b = c * b - b := by ring
        _ ≤ a - 1 := by linarith
        _ < a - a * (1 / 2 ^ 53) := by linarith
        _ = _ := by ring
  · have h3 : (a : K) / b ≤ c := by rw [div_le_iff₀ hbK]; exact h1K
    have h4 := flBin_mono (p := 53) (by norm_num) h3
    rw [flBin_nat (lt_of_le_of_lt hca ha)] at h4
    exact_mod_cast h4

/-- **C88 (division).**  The quotient of two integers below `2^53`, computed with `double`s and rounded down or up, is the
exact quotient, rounded down or up. -/
theorem C88_division {a b : Nat} (ha : a < 2 ^ 53) (hb : 0 < b) (hb' : b < 2 ^ 53) :
    floorDivFl (flBin (K := K) 53) a b = ⌊(a : K) / b⌋ ∧ ceilDivFl (flBin (K := K) 53) a b = ⌈(a : K) / b⌉ := by
  rw [floorDiv_exact ha hb hb', ceilDiv_exact ha hb hb']
  have hbK : (0 : K) < b := by exact_mod_cast hb
  constructor
  · symm
    rw [Int.floor_eq_iff, le_div_iff₀ hbK, div_lt_iff₀ hbK]
    have h1 := Nat.div_mul_le_self a b
    have h2 : a < (a / b + 1) * b := by
      have h := Nat.div_add_mod a b
      have h' := Nat.mod_lt a hb
      rw [Nat.add_mul, Nat.mul_comm (a / b) b]
      omega
    exact ⟨by exact_mod_cast h1, by exact_mod_cast h2⟩
  · symm
    rw [Int.ceil_eq_iff, div_le_iff₀ hbK, lt_div_iff₀ hbK, sub_mul, sub_lt_iff_lt_add]
    have h := Nat.div_add_mod (a + b - 1) b
    have h' := Nat.mod_lt (a + b - 1) hb
    rw [Nat.mul_comm] at h
    have h1 : (a + b - 1) / b * b < a + 1 * b := by omega
    have h2 : a ≤ (a + b - 1) / b * b := by omega
    exact ⟨by exact_mod_cast h1, by exact_mod_cast h2⟩

/-- **C88 (the bound is needed).**  From `2^53` on the computed quotient can be too large. -/
theorem C88_division_large : floorDivFl (flBin (K := ℚ) 53) (2 ^ 54 - 1) 2 = 2 ^ 53 ∧ (2 ^ 54 - 1) / 2 < 2 ^ 53 :=
  ⟨by decide +kernel, by norm_num⟩

/-- **C88 (chunks).**  The bounds of the chunks into which `rows` rows are divided, computed with `double`s, are bounds of
intervals that lie one after the other and cover every row exactly once. -/
theorem C88_chunks {rows threads : Nat} (hr : rows < 2 ^ 53) (ht : 0 < threads) (ht' : threads ≤ rows) :
    (∀ c < threads, 0 ≤ chunkStartFl (flBin (K := K) 53) rows threads c ∧
      chunkStartFl (flBin (K := K) 53) rows threads c < chunkEndFl (flBin (K := K) 53) rows threads c ∧
      chunkEndFl (flBin (K := K) 53) rows threads c ≤ rows) ∧
    ∀ i < rows, ∃! c, c < threads ∧ chunkStartFl (flBin (K := K) 53) rows threads c ≤ i ∧
      (i : Int) < chunkEndFl (flBin (K := K) 53) rows threads c := by
  have hs : ∀ c, chunkStartFl (flBin (K := K) 53) rows threads c = ((c * (rows / threads) : Nat) : Int) := by
    intro c
    unfold chunkStartFl
    rw [floorDiv_exact hr ht (lt_of_le_of_lt ht' hr)]
    push_cast
    rfl
  have he : ∀ c, chunkEndFl (flBin (K := K) 53) rows threads c =
      ((if c = threads - 1 then rows else (c + 1) * (rows / threads) : Nat) : Int) := by
    intro c
    unfold chunkEndFl
    rw [hs, floorDiv_exact hr ht (lt_of_le_of_lt ht' hr)]
    split_ifs
    · rfl
    · push_cast; ring
  simp only [hs, he]
  have hq : 0 < rows / threads := Nat.div_pos ht' ht
  have hqt : threads * (rows / threads) ≤ rows := Nat.mul_div_le rows threads
  generalize rows / threads = q at hq hqt
  have hle : ∀ c < threads, (c + 1) * q ≤ rows := fun c hc =>
    le_trans (Nat.mul_le_mul_right q hc) hqt
  refine ⟨fun c hc => ⟨by positivity, ?_, ?_⟩, fun i hi => ?_⟩
  · have := hle c hc
    rw [Nat.add_mul] at this
    have e : (c + 1) * q = c * q + q := by ring
    split_ifs <;> norm_cast <;> omega
  · have := hle c hc
    split_ifs <;> norm_cast
  · have huniq : ∀ c d, c < threads → d < threads → c * q ≤ i → d * q ≤ i →
        i < (if c = threads - 1 then rows else (c + 1) * q) → i < (if d = threads - 1 then rows else (d + 1) * q) →
        c ≤ d := by
      intro c d hc hd h1 h2 h3 h4
      by_contra hlt
      have hdne : d ≠ threads - 1 := by omega
      rw [if_neg hdne] at h4
      have : (d + 1) * q ≤ c * q := Nat.mul_le_mul_right q (by omega)
      omega
    have hex : ∃ c < threads, c * q ≤ i ∧ i < (if c = threads - 1 then rows else (c + 1) * q) := by
      by_cases hb : i / q < threads - 1
      · refine ⟨i / q, by omega, Nat.div_mul_le_self i q, ?_⟩
        rw [if_neg (by omega)]
        have h := Nat.div_add_mod i q
        have h' := Nat.mod_lt i hq
        rw [Nat.add_mul, Nat.mul_comm (i / q) q]
        omega
      · refine ⟨threads - 1, by omega, ?_, by rw [if_pos rfl]; exact hi⟩
        have h1 : (threads - 1) * q ≤ i / q * q := Nat.mul_le_mul_right q (by omega)
        exact le_trans h1 (Nat.div_mul_le_self i q)
    obtain ⟨c, hc, h1, h2⟩ := hex
    refine ⟨c, ⟨hc, by exact_mod_cast h1, by exact_mod_cast h2⟩, ?_⟩
    rintro d ⟨hd, h3, h4⟩
    have h3' : d * q ≤ i := by exact_mod_cast h3
    have h4' : i < (if d = threads - 1 then rows else (d + 1) * q) := by exact_mod_cast h4
    exact le_antisymm (huniq d c hd hc h3' h1 h4' h2) (huniq c d hc hd h1 h3' h2 h4')

/-- **C88 (chunks as modelled elsewhere).**  They are the chunks of the exact computation. -/
theorem C88_chunks_exact {rows threads : Nat} (hr : rows < 2 ^ 53) (ht : 0 < threads) (ht' : threads ≤ rows) (c : Nat) :
    chunkStartFl (flBin (K := K) 53) rows threads c = chunkStart rows threads c ∧
    chunkEndFl (flBin (K := K) 53) rows threads c = chunkEnd rows threads c := by
  unfold chunkEndFl chunkEnd chunkStartFl chunkStart
  rw [floorDiv_exact hr ht (lt_of_le_of_lt ht' hr)]
  constructor
  · push_cast; rfl
  · split_ifs
    · rfl
    · push_cast; rfl

/-- **C88 (stochastic block model).**  `sbm(n, k, ...)` has `k` clusters of the same size, which together have at most `n` and
more than `n - k` vertices: the computed sizes are those of the exact computation. -/
theorem C88_sbm_sizes {n k : Nat} (hn : n < 2 ^ 53) (hk : 0 < k) (hk' : k ≤ n / 2) :
    sbmSizesFl (flBin (K := K) 53) n k = sbmSizes n k ∧
    ∃ m : Nat, 2 ≤ m ∧ sbmSizesFl (flBin (K := K) 53) n k = List.replicate k (m : Int) ∧ k * m ≤ n ∧ n < k * m + k := by
  have h2 : k < 2 ^ 53 := by omega
  unfold sbmSizesFl sbmSizes
  rw [floorDiv_exact hn hk h2]
  refine ⟨by simp, n / k, ?_, rfl, Nat.mul_div_le n k, ?_⟩
  · rw [Nat.le_div_iff_mul_le hk]
    omega
  · have h := Nat.div_add_mod n k
    have h' := Nat.mod_lt n hk
    omega

/-- The reciprocal of `2^32 - 1`, rounded. -/
theorem flBin_recip : flBin 53 (1 / 4294967295 : K) = 1 / 2 ^ 32 + 1 / 2 ^ 64 := by
  rw [flBin_eq (-84) (2 ^ 52 + 2 ^ 20)]
  · push_cast
    norm_num
  · rw [show (-84 : Int) + (53 : Nat) - 1 = -((32 : Nat) : Int) by norm_num, zpow_neg, zpow_natCast]
    norm_num
  · rw [show (-84 : Int) + (53 : Nat) = -((31 : Nat) : Int) by norm_num, zpow_neg, zpow_natCast]
    norm_num
  · rw [show (-84 : Int) = -((84 : Nat) : Int) by norm_num, zpow_neg, zpow_natCast, abs_lt]
    push_cast
    norm_num

theorem genrand_eq (y : Nat) (hy : y < 2 ^ 32) :
    genrandDoubleFl (flBin (K := K) 53) y = flBin 53 ((y : K) * (1 / 2 ^ 32 + 1 / 2 ^ 64)) := by
  unfold genrandDoubleFl
  have h : flBin 53 (4294967295 : K) = 4294967295 := by
    have := flBin_nat (K := K) (m := 4294967295) (by norm_num)
    exact_mod_cast this
  rw [h, flBin_recip, flBin_nat (by omega)]

/-- **C88 (random numbers).**  The random number made of a 32-bit integer `y` is between 0 and 1, and it is 1 only for the
largest `y`. -/
theorem C88_genrand (y : Nat) (hy : y < 2 ^ 32) :
    0 ≤ genrandDoubleFl (flBin (K := K) 53) y ∧ genrandDoubleFl (flBin (K := K) 53) y ≤ 1 ∧
    (genrandDoubleFl (flBin (K := K) 53) y = 1 ↔ y = 2 ^ 32 - 1) := by
  rw [genrand_eq y hy]
  have h1 : flBin 53 (1 : K) = 1 := by
    have := flBin_nat (K := K) (m := 1) (by norm_num)
    exact_mod_cast this
  have hyK : (y : K) ≤ 2 ^ 32 - 1 := by
    have : (y : K) + 1 ≤ 2 ^ 32 := by exact_mod_cast hy
    linarith
  have hp : (0 : K) ≤ (y : K) * (1 / 2 ^ 32 + 1 / 2 ^ 64) := by positivity
  refine ⟨?_, ?_, ?_, ?_⟩
  · have := flBin_mono (p := 53) (by norm_num) hp
    rwa [flBin_zero] at this
  · have hle : (y : K) * (1 / 2 ^ 32 + 1 / 2 ^ 64) ≤ 1 := by
      have : (y : K) * (1 / 2 ^ 32 + 1 / 2 ^ 64) ≤ (2 ^ 32 - 1) * (1 / 2 ^ 32 + 1 / 2 ^ 64) :=
        mul_le_mul_of_nonneg_right hyK (by positivity)
      refine le_trans this ?_
      norm_num
    have := flBin_mono (p := 53) (by norm_num) hle
    rwa [h1] at this
  · intro he
    by_contra hne
    have hy2 : (y : K) ≤ 2 ^ 32 - 2 := by
      have : y + 2 ≤ 2 ^ 32 := by omega
      have : (y : K) + 2 ≤ 2 ^ 32 := by exact_mod_cast this
      linarith
    have h3 := flBin_le_up hp
    rw [he] at h3
    have h4 : (y : K) * (1 / 2 ^ 32 + 1 / 2 ^ 64) * (1 + 1 / 2 ^ 53) ≤
        (2 ^ 32 - 2) * (1 / 2 ^ 32 + 1 / 2 ^ 64) * (1 + 1 / 2 ^ 53) := by
      refine mul_le_mul_of_nonneg_right (mul_le_mul_of_nonneg_right hy2 ?_) ?_ <;> positivity
    have h5 : ((2 : K) ^ 32 - 2) * (1 / 2 ^ 32 + 1 / 2 ^ 64) * (1 + 1 / 2 ^ 53) < 1 := by norm_num
    linarith
  · intro he
    have e : ((y : Nat) : K) = 4294967295 := by rw [he]; norm_num
    rw [e]
    apply le_antisymm
    · have hle : (4294967295 : K) * (1 / 2 ^ 32 + 1 / 2 ^ 64) ≤ 1 := by norm_num
      have := flBin_mono (p := 53) (by norm_num) hle
      rwa [h1] at this
    · rw [flBin_eq (-53) (2 ^ 53)]
      · rw [show (-53 : Int) = -((53 : Nat) : Int) by norm_num, zpow_neg, zpow_natCast]
        norm_num
      · rw [show (-53 : Int) + (53 : Nat) - 1 = -((1 : Nat) : Int) by norm_num, zpow_neg, zpow_natCast]
        norm_num
      · norm_num
      · rw [show (-53 : Int) = -((53 : Nat) : Int) by norm_num, zpow_neg, zpow_natCast, abs_lt]
        push_cast
        norm_num

/-- **C88 (random row).**  The row chosen by `randint(0, N)` is a row, unless the random integer is the largest one: then it is
row `N`, outside the matrix. -/
theorem C88_randint {N : Nat} (hN : 0 < N) (hN' : N < 2 ^ 31) (y : Nat) (hy : y < 2 ^ 32) :
    (y ≠ 2 ^ 32 - 1 →
      0 ≤ randintFl (flBin (K := K) 53) N (genrandDoubleFl (flBin 53) y) ∧
      randintFl (flBin (K := K) 53) N (genrandDoubleFl (flBin 53) y) < N) ∧
    (y = 2 ^ 32 - 1 → randintFl (flBin (K := K) 53) N (genrandDoubleFl (flBin 53) y) = N) := by
  obtain ⟨h0, h1, h2⟩ := C88_genrand (K := K) y hy
  have hNK : (0 : K) < N := by exact_mod_cast hN
  have hfl : flBin 53 (N : K) = N := flBin_nat (by omega)
  unfold randintFl
  rw [hfl]
  constructor
  · intro hne
    have hp : (0 : K) ≤ (y : K) * (1 / 2 ^ 32 + 1 / 2 ^ 64) := by positivity
    have hy2 : (y : K) ≤ 2 ^ 32 - 2 := by
      have : y + 2 ≤ 2 ^ 32 := by omega
      have : (y : K) + 2 ≤ 2 ^ 32 := by exact_mod_cast this
      linarith
    have hr : genrandDoubleFl (flBin (K := K) 53) y * (1 + 1 / 2 ^ 53) < 1 := by
      rw [genrand_eq y hy]
      have h3 := flBin_le_up hp
      have h4 : (y : K) * (1 / 2 ^ 32 + 1 / 2 ^ 64) * (1 + 1 / 2 ^ 53) ≤
          (2 ^ 32 - 2) * (1 / 2 ^ 32 + 1 / 2 ^ 64) * (1 + 1 / 2 ^ 53) := by
        refine mul_le_mul_of_nonneg_right (mul_le_mul_of_nonneg_right hy2 ?_) ?_ <;> positivity
      have h5 : ((2 : K) ^ 32 - 2) * (1 / 2 ^ 32 + 1 / 2 ^ 64) * (1 + 1 / 2 ^ 53) * (1 + 1 / 2 ^ 53) < 1 := by norm_num
      have h6 : flBin 53 ((y : K) * (1 / 2 ^ 32 + 1 / 2 ^ 64)) * (1 + 1 / 2 ^ 53) ≤
          (2 ^ 32 - 2) * (1 / 2 ^ 32 + 1 / 2 ^ 64) * (1 + 1 / 2 ^ 53) * (1 + 1 / 2 ^ 53) :=
        mul_le_mul_of_nonneg_right (le_trans h3 h4) (by positivity)
      linarith
    constructor
    · rw [Int.floor_nonneg]
      have := flBin_mono (p := 53) (by norm_num) (mul_nonneg hNK.le h0)
      rwa [flBin_zero] at this
    · rw [Int.floor_lt]
      refine lt_of_le_of_lt (flBin_le_up (mul_nonneg hNK.le h0)) ?_
      rw [mul_assoc]
      exact_mod_cast mul_lt_of_lt_one_right hNK hr
  · intro he
    rw [h2.2 he, mul_one, hfl]
    exact Int.floor_natCast N

/-- **C88 (growing the data matrix).**  When the matrix read from a file is full, its new number of rows leaves room for the
next row. -/
theorem C88_grown_rows {r : Nat} (hr : r < 2 ^ 53) (h0 : 0 < r) : (r : Int) < grownRowsFl (flBin (K := K) 53) r := by
  unfold grownRowsFl
  rw [flBin_nat hr, Int.lt_ceil]
  have hK : (0 : K) < r := by exact_mod_cast h0
  have h1 : (11 / 10 : K) * (1 - 1 / 2 ^ 53) ≤ flBin 53 (11 / 10 : K) := flBin_ge_down (by norm_num)
  have h2 : (0 : K) ≤ flBin 53 (11 / 10 : K) := le_trans (by norm_num) h1
  refine lt_of_lt_of_le ?_ (flBin_ge_down (mul_nonneg h2 hK.le))
  have h3 : (1 : K) < 11 / 10 * (1 - 1 / 2 ^ 53) * (1 - 1 / 2 ^ 53) := by norm_num
  have h4 : (11 / 10 * (1 - 1 / 2 ^ 53) * (1 - 1 / 2 ^ 53) : K) ≤ flBin 53 (11 / 10) * (1 - 1 / 2 ^ 53) :=
    mul_le_mul_of_nonneg_right h1 (by norm_num)
  have h5 : (r : K) * 1 < r * (flBin 53 (11 / 10) * (1 - 1 / 2 ^ 53)) :=
    mul_lt_mul_of_pos_left (lt_of_lt_of_le h3 h4) hK
  calc ((r : Int) : K) = r * 1 := by push_cast; ring
    _ < _ := h5
    _ = _ := by ring

end

/-! ### The hash units of the kernel density estimator -/

/-- A probability that is not the one of level 0 is a power of two, and is computed exactly. -/
theorem pSampling_exact (j logNmu : Int) (hj : j ≠ 0) (n : Nat) (offset : Int) :
    cknsPSamplingFl (flBin 53) j logNmu n offset = cknsPSampling j logNmu n offset := by
  unfold cknsPSamplingFl cknsPSampling
  rw [if_neg hj, if_neg hj, ← zpow_add₀ two_ne_zero, flBin_zpow (by norm_num)]

theorem pSampling_pow (j logNmu : Int) (hj : j ≠ 0) (n : Nat) (offset : Int) :
    ∃ e : Nat, cknsPSampling j logNmu n offset = (2 : ℝ) ^ (-(e : Int)) := by
  unfold cknsPSampling
  rw [if_neg hj, ← zpow_add₀ two_ne_zero]
  by_cases h : 0 ≤ -(j + offset) + -logNmu
  · refine ⟨0, ?_⟩
    rw [min_eq_left (one_le_zpow₀ one_le_two h)]
    simp
  · refine ⟨(j + offset + logNmu).toNat, ?_⟩
    rw [min_eq_right]
    · congr 1
      omega
    · exact zpow_le_one_of_nonpos₀ one_le_two (by omega)

/-- **C88 (samples, shells).**  The number of rows sampled by a hash unit of a level `j ≠ 0` is computed exactly. -/
theorem C88_samples {n : Nat} (hn : n < 2 ^ 53) (j logNmu : Int) (hj : j ≠ 0) (offset : Int) :
    numSampledFl (flBin 53) j logNmu n offset = ⌊cknsPSampling j logNmu n offset * n⌋ := by
  unfold numSampledFl
  rw [pSampling_exact j logNmu hj n offset, flBin_nat hn]
  obtain ⟨e, he⟩ := pSampling_pow j logNmu hj n offset
  rw [he, mul_comm, flBin_scale, flBin_nat hn]

/-- The exact number of samples at level 0. -/
theorem numSampled_zero {n : Nat} (hn : 0 < n) (logNmu offset : Int) :
    ⌊cknsPSampling 0 logNmu n offset * n⌋ = if offset ≤ 0 then min (2 ^ (-offset).toNat) (n : Int) else 0 := by
  have hnK : (0 : ℝ) < n := by exact_mod_cast hn
  have e : cknsPSampling 0 logNmu n offset * n = min (n : ℝ) ((2 : ℝ) ^ (-offset)) := by
    unfold cknsPSampling
    rw [if_pos rfl, min_mul_of_nonneg _ _ hnK.le, one_mul, div_mul_cancel₀ _ hnK.ne']
  rw [e]
  split_ifs with h
  · obtain ⟨k, hk⟩ : ∃ k : Nat, -offset = k := ⟨(-offset).toNat, by omega⟩
    rw [hk, zpow_natCast, Int.toNat_natCast]
    have : min (n : ℝ) (2 ^ k) = ((min (2 ^ k) (n : Int) : Int) : ℝ) := by
      push_cast
      exact min_comm _ _
    rw [this, Int.floor_intCast]
  · rw [Int.floor_eq_zero_iff]
    have h1 : (2 : ℝ) ^ (-offset) < 1 := zpow_lt_one_of_neg₀ one_lt_two (by omega)
    exact ⟨le_min hnK.le (by positivity), lt_of_le_of_lt (min_le_right _ _) h1⟩

/-- **C88 (samples, outer level).**  At level 0 the number of sampled rows is computed exactly, or it is one too small. -/
theorem C88_samples_outer {n : Nat} (h0 : 0 < n) (hn : n < 2 ^ 50) (logNmu offset : Int) :
    numSampledFl (flBin 53) 0 logNmu n offset = ⌊cknsPSampling 0 logNmu n offset * n⌋ ∨
    numSampledFl (flBin 53) 0 logNmu n offset = ⌊cknsPSampling 0 logNmu n offset * n⌋ - 1 := by
  have hnK : (0 : ℝ) < n := by exact_mod_cast h0
  have hnfl : flBin 53 (n : ℝ) = n := flBin_nat (by omega)
  rw [numSampled_zero h0]
  unfold numSampledFl cknsPSamplingFl
  rw [if_pos rfl, hnfl]
  have hq : (0 : ℝ) ≤ 2 ^ (-offset) / n := by positivity
  have hu := flBin_le_up hq
  have hd := flBin_ge_down hq
  split_ifs with h
  · obtain ⟨k, hk⟩ : ∃ k : Nat, -offset = k := ⟨(-offset).toNat, by omega⟩
    rw [hk, zpow_natCast] at hq hu hd ⊢
    rw [Int.toNat_natCast]
    by_cases hkn : (n : ℤ) ≤ 2 ^ k
    · left
      rw [min_eq_right hkn]
      have h1 : (1 : ℝ) ≤ flBin 53 ((2 : ℝ) ^ k / n) := by
        have h2 : (1 : ℝ) ≤ (2 : ℝ) ^ k / n := by
          rw [le_div_iff₀ hnK, one_mul]
          exact_mod_cast hkn
        have h3 := flBin_mono (p := 53) (by norm_num) h2
        have h4 := flBin_nat (K := ℝ) (m := 1) (by norm_num)
        rw [Nat.cast_one] at h4
        rwa [h4] at h3
      rw [min_eq_left h1, one_mul, hnfl]
      exact Int.floor_natCast n
    · have hkn' := (not_le.1 hkn).le
      rw [min_eq_left hkn']
      have hk50 : (2 : ℝ) ^ k ≤ 2 ^ 50 := by
        have : (2 : ℤ) ^ k ≤ 2 ^ 50 := by
          have : (n : ℤ) < 2 ^ 50 := by exact_mod_cast hn
          omega
        exact_mod_cast this
      have hk1 : (1 : ℝ) ≤ 2 ^ k := one_le_pow₀ one_le_two
      obtain ⟨f, hf⟩ : ∃ f, f = flBin 53 ((2 : ℝ) ^ k / n) := ⟨_, rfl⟩
      rw [← hf] at hu hd ⊢
      have hu1 : f * n ≤ 2 ^ k * (1 + 1 / 2 ^ 53) := by
        have := mul_le_mul_of_nonneg_right hu hnK.le
        rwa [mul_right_comm, div_mul_cancel₀ _ hnK.ne'] at this
      have hd1 : 2 ^ k * (1 - 1 / 2 ^ 53) ≤ f * n := by
        have := mul_le_mul_of_nonneg_right hd hnK.le
        rwa [mul_right_comm, div_mul_cancel₀ _ hnK.ne'] at this
      have hf0 : 0 ≤ f := by
        rw [hf]
        have := flBin_mono (p := 53) (by norm_num) hq
        rwa [flBin_zero] at this
      have hm1 : min 1 f * n ≤ 2 ^ k * (1 + 1 / 2 ^ 53) :=
        le_trans (mul_le_mul_of_nonneg_right (min_le_right _ _) hnK.le) hu1
      have hm2 : 2 ^ k * (1 - 1 / 2 ^ 53) ≤ min 1 f * n := by
        rcases min_choice 1 f with hc | hc
        · rw [hc, one_mul]
          have h5 : (2 : ℝ) ^ k ≤ n := by exact_mod_cast hkn'
          have h6 : (2 : ℝ) ^ k * (1 - 1 / 2 ^ 53) ≤ 2 ^ k * 1 :=
            mul_le_mul_of_nonneg_left (by norm_num) (by positivity)
          linarith
        · rw [hc]; exact hd1
      have hmn : 0 ≤ min 1 f * n := mul_nonneg (le_min zero_le_one hf0) hnK.le
      have hU := flBin_le_up hmn
      have hD := flBin_ge_down hmn
      obtain ⟨g, hg⟩ : ∃ g, g = flBin 53 (min 1 f * n) := ⟨_, rfl⟩
      rw [← hg] at hU hD ⊢
      obtain ⟨w, hw⟩ : ∃ w, w = min 1 f * (n : ℝ) := ⟨_, rfl⟩
      rw [← hw] at hU hD hm1 hm2
      obtain ⟨P, hP⟩ : ∃ P : ℝ, P = 2 ^ k := ⟨_, rfl⟩
      have hg1 : g < 2 ^ k + 1 := by
        rw [← hP] at hk50 hk1 hm1 ⊢
        have : w * (1 + 1 / 2 ^ 53) ≤ P * (1 + 1 / 2 ^ 53) * (1 + 1 / 2 ^ 53) :=
          mul_le_mul_of_nonneg_right hm1 (by positivity)
        norm_num at *
        linarith
      have hg2 : 2 ^ k - 1 ≤ g := by
        rw [← hP] at hk50 hk1 hm2 ⊢
        have : P * (1 - 1 / 2 ^ 53) * (1 - 1 / 2 ^ 53) ≤ w * (1 - 1 / 2 ^ 53) :=
          mul_le_mul_of_nonneg_right hm2 (by norm_num)
        norm_num at *
        linarith
      by_cases hge : (2 : ℝ) ^ k ≤ g
      · left
        rw [Int.floor_eq_iff]
        push_cast
        exact ⟨hge, hg1⟩
      · right
        rw [Int.floor_eq_iff]
        push_cast
        exact ⟨hg2, by linarith⟩
  · left
    have h1 : (2 : ℝ) ^ (-offset) ≤ 1 / 2 := by
      have := zpow_le_zpow_right₀ (one_le_two (α := ℝ)) (show -offset ≤ -1 by omega)
      rwa [zpow_neg_one, ← one_div] at this
    obtain ⟨f, hf⟩ : ∃ f, f = flBin 53 ((2 : ℝ) ^ (-offset) / n) := ⟨_, rfl⟩
    rw [← hf] at hu hd ⊢
    have hu1 : f * n ≤ 2 ^ (-offset) * (1 + 1 / 2 ^ 53) := by
      have := mul_le_mul_of_nonneg_right hu hnK.le
      rwa [mul_right_comm, div_mul_cancel₀ _ hnK.ne'] at this
    have hf0 : 0 ≤ f := by
      rw [hf]
      have := flBin_mono (p := 53) (by norm_num) hq
      rwa [flBin_zero] at this
    have hm1 : min 1 f * n ≤ 2 ^ (-offset) * (1 + 1 / 2 ^ 53) :=
      le_trans (mul_le_mul_of_nonneg_right (min_le_right _ _) hnK.le) hu1
    have hmn : 0 ≤ min 1 f * n := mul_nonneg (le_min zero_le_one hf0) hnK.le
    have hU := flBin_le_up hmn
    rw [Int.floor_eq_zero_iff]
    refine ⟨?_, ?_⟩
    · have := flBin_mono (p := 53) (by norm_num) hmn
      rwa [flBin_zero] at this
    · have h2 : (2 : ℝ) ^ (-offset) * (1 + 1 / 2 ^ 53) ≤ 1 / 2 * (1 + 1 / 2 ^ 53) :=
        mul_le_mul_of_nonneg_right h1 (by positivity)
      have h3 : min 1 f * n * (1 + 1 / 2 ^ 53) ≤ 1 / 2 * (1 + 1 / 2 ^ 53) * (1 + 1 / 2 ^ 53) :=
        mul_le_mul_of_nonneg_right (le_trans hm1 h2) (by positivity)
      refine lt_of_le_of_lt (le_trans hU h3) ?_
      norm_num

/-- `fl(1/49) * 49`, rounded, is less than 1. -/
theorem fl_49 : flBin 53 (flBin 53 (1 / 49 : ℝ) * 49) = 1 - 1 / 2 ^ 53 := by
  rw [flBin_eq (x := (1 / 49 : ℝ)) (-58) 5882252574524729]
  · rw [flBin_eq (-53) (2 ^ 53 - 1)]
    · rw [show (-53 : Int) = -((53 : Nat) : Int) by norm_num, zpow_neg, zpow_natCast]
      norm_num
    · rw [show (-53 : Int) + (53 : Nat) - 1 = -((1 : Nat) : Int) by norm_num,
        show (-58 : Int) = -((58 : Nat) : Int) by norm_num, zpow_neg, zpow_natCast, zpow_neg, zpow_natCast]
      norm_num
    · rw [show (-58 : Int) = -((58 : Nat) : Int) by norm_num, zpow_neg, zpow_natCast]
      norm_num
    · rw [show (-58 : Int) = -((58 : Nat) : Int) by norm_num, show (-53 : Int) = -((53 : Nat) : Int) by norm_num, zpow_neg,
        zpow_natCast, zpow_neg, zpow_natCast, abs_lt]
      push_cast
      norm_num
  · rw [show (-58 : Int) + (53 : Nat) - 1 = -((6 : Nat) : Int) by norm_num, zpow_neg, zpow_natCast]
    norm_num
  · rw [show (-58 : Int) + (53 : Nat) = -((5 : Nat) : Int) by norm_num, zpow_neg, zpow_natCast]
    norm_num
  · rw [show (-58 : Int) = -((58 : Nat) : Int) by norm_num, zpow_neg, zpow_natCast, abs_lt]
    push_cast
    norm_num

theorem fl_49_pow (k : Nat) :
    flBin 53 (flBin 53 (1 / ((49 * 2 ^ k : Nat) : ℝ)) * ((49 * 2 ^ k : Nat) : ℝ)) = 1 - 1 / 2 ^ 53 := by
  have e : (1 / ((49 * 2 ^ k : Nat) : ℝ)) = 1 / 49 * (2 : ℝ) ^ (-(k : Int)) := by
    push_cast
    rw [zpow_neg, zpow_natCast]
    field_simp
  rw [e, flBin_scale]
  have e2 : flBin 53 (1 / 49 : ℝ) * (2 : ℝ) ^ (-(k : Int)) * ((49 * 2 ^ k : Nat) : ℝ) = flBin 53 (1 / 49 : ℝ) * 49 := by
    push_cast
    rw [zpow_neg, zpow_natCast]
    field_simp
  rw [e2, fl_49]

/-- **C88 (an empty outer level).**  With `49 2^k` rows and the default offset 0, the unit of level 0 should sample one row
and samples none. -/
theorem C88_outer_empty (k : Nat) (hk : 49 * 2 ^ k < 2 ^ 53) (logNmu : Int) :
    numSampledFl (flBin 53) 0 logNmu (49 * 2 ^ k) 0 = 0 ∧
    ⌊cknsPSampling 0 logNmu (49 * 2 ^ k) 0 * ((49 * 2 ^ k : Nat) : ℝ)⌋ = 1 := by
  have hpos : 0 < 49 * 2 ^ k := by positivity
  constructor
  · unfold numSampledFl cknsPSamplingFl
    rw [if_pos rfl, flBin_nat hk, neg_zero, zpow_zero]
    have h1 : flBin 53 (1 / ((49 * 2 ^ k : Nat) : ℝ)) ≤ 1 := by
      have h2 : (1 / ((49 * 2 ^ k : Nat) : ℝ)) ≤ 1 := by
        rw [div_le_one (by exact_mod_cast hpos)]
        exact_mod_cast hpos
      have h3 := flBin_mono (p := 53) (by norm_num) h2
      have h4 := flBin_nat (K := ℝ) (m := 1) (by norm_num)
      rw [Nat.cast_one] at h4
      rwa [h4] at h3
    rw [min_eq_right h1, fl_49_pow k]
    norm_num
  · rw [numSampled_zero hpos, if_pos (le_refl _)]
    simp only [neg_zero, Int.toNat_zero, pow_zero]
    apply min_eq_left
    exact_mod_cast hpos

/-- **C88 (a full outer level).**  With `2^k` rows and the default offset the unit of level 0 samples one row. -/
theorem C88_outer_power (k : Nat) (hk : k < 53) (logNmu : Int) : numSampledFl (flBin 53) 0 logNmu (2 ^ k) 0 = 1 := by
  have h2 : flBin 53 (((2 ^ k : Nat) : ℝ)) = ((2 ^ k : Nat) : ℝ) :=
    flBin_nat (Nat.pow_lt_pow_right (by norm_num) hk)
  unfold numSampledFl cknsPSamplingFl
  rw [if_pos rfl, h2, neg_zero, zpow_zero]
  have e : (1 / ((2 ^ k : Nat) : ℝ)) = (2 : ℝ) ^ (-(k : Int)) := by
    push_cast
    rw [zpow_neg, zpow_natCast, one_div]
  rw [e, flBin_zpow (by norm_num), min_eq_right (zpow_le_one_of_nonpos₀ one_le_two (by omega))]
  have e2 : (2 : ℝ) ^ (-(k : Int)) * ((2 ^ k : Nat) : ℝ) = 1 := by
    push_cast
    rw [zpow_neg, zpow_natCast]
    field_simp
  rw [e2]
  have h4 := flBin_nat (K := ℝ) (m := 1) (by norm_num)
  rw [Nat.cast_one] at h4
  rw [h4, Int.floor_one]

/-- **C88 (hash units).**  A hash unit of a level `j ≠ 0` built in floating point has the points, the table and the parameters
of the one built in exact arithmetic. -/
theorem C88_unit (a : ℝ) (data : List (List ℝ)) (hn : data.length < 2 ^ 53) (logNmu j offset : Int) (hj : j ≠ 0)
    (fs : List (MultiLsh ℝ)) :
    HashUnit.createFl (flBin 53) a data logNmu j offset fs = HashUnit.create a data logNmu j offset fs := by
  unfold HashUnit.createFl HashUnit.create
  dsimp only
  rw [pSampling_exact j logNmu hj, C88_samples hn j logNmu hj offset]
  obtain ⟨e, he⟩ := pSampling_pow j logNmu hj data.length offset
  rw [he]
  obtain ⟨p, hp⟩ : ∃ p : ℝ, p = (2 : ℝ) ^ (-(e : Int)) := ⟨_, rfl⟩
  have hp0 : 0 < p := by rw [hp]; positivity
  have hp1 : p ≤ 1 := by rw [hp]; exact zpow_le_one_of_nonpos₀ one_le_two (by omega)
  rw [← hp]
  have hnn : (0 : ℝ) ≤ data.length := Nat.cast_nonneg _
  -- the starting index is 0 or `n`, and it is the exact one whenever a row is sampled
  have hst : ∀ s : Int, (s = startingIdx p data.length ∨ s = startingIdxFl (flBin 53) p data.length) →
      s = 0 ∨ s = data.length := by
    intro s hs
    unfold startingIdx startingIdxFl at hs
    have h1 : ∀ x : ℝ, 0 ≤ x → x ≤ 1 → ⌊x⌋ = 0 ∨ ⌊x⌋ = 1 := by
      intro x hx hx1
      rcases lt_or_eq_of_le hx1 with h | h
      · exact .inl (Int.floor_eq_zero_iff.2 ⟨hx, h⟩)
      · exact .inr (by rw [h, Int.floor_one])
    split_ifs at hs with hc
    · have h2 : 0 ≤ 1 - 2 * p := by linarith
      have h3 : 1 - 2 * p ≤ 1 := by linarith
      have h4 := flBin_mono (p := 53) (by norm_num) h2
      have h5 := flBin_mono (p := 53) (by norm_num) h3
      have h6 := flBin_nat (K := ℝ) (m := 1) (by norm_num)
      rw [Nat.cast_one] at h6
      rw [flBin_zero] at h4
      rw [h6] at h5
      rcases hs with hs | hs
      · rcases h1 _ h2 h3 with h | h <;> rw [h] at hs <;> simp [hs]
      · rcases h1 _ h4 h5 with h | h <;> rw [h] at hs <;> simp [hs]
    · simp only [or_self] at hs
      exact .inl hs
  by_cases hz : ⌊p * (data.length : ℝ)⌋ = 0
  · rw [hz]
    have hA := hst _ (.inl rfl)
    have hB := hst _ (.inr rfl)
    have hA' : ¬ (startingIdx p data.length < 0 ∨ (data.length : Int) < startingIdx p data.length + 0) := by omega
    have hB' : ¬ (startingIdxFl (flBin 53) p data.length < 0 ∨
      (data.length : Int) < startingIdxFl (flBin 53) p data.length + 0) := by omega
    rw [if_neg hA', if_neg hB']
    simp
  · have hge : (1 : ℝ) ≤ p * data.length := by
      by_contra hc
      exact hz (Int.floor_eq_zero_iff.2 ⟨mul_nonneg hp0.le hnn, not_le.1 hc⟩)
    have hpb : (1 : ℝ) / 2 ^ 53 < p := by
      rw [div_lt_iff₀ (by positivity)]
      have : (data.length : ℝ) < 2 ^ 53 := by exact_mod_cast hn
      exact lt_of_le_of_lt hge (mul_lt_mul_of_pos_left this hp0)
    have hsame : startingIdxFl (flBin 53) p data.length = startingIdx p data.length := by
      unfold startingIdx startingIdxFl
      split_ifs with hc
      · have h2 : 0 ≤ 1 - 2 * p := by linarith
        have e1 : ⌊1 - 2 * p⌋ = 0 := Int.floor_eq_zero_iff.2 ⟨h2, by linarith⟩
        have e2 : ⌊flBin 53 (1 - 2 * p)⌋ = 0 := by
          rw [Int.floor_eq_zero_iff]
          have h4 := flBin_mono (p := 53) (by norm_num) h2
          rw [flBin_zero] at h4
          refine ⟨h4, lt_of_le_of_lt (flBin_le_up h2) ?_⟩
          have h7 : (1 - 2 * p) * (1 + 1 / 2 ^ 53) ≤ (1 - 2 * (1 / 2 ^ 53)) * (1 + 1 / 2 ^ 53) :=
            mul_le_mul_of_nonneg_right (by linarith) (by positivity)
          refine lt_of_le_of_lt h7 ?_
          norm_num
        rw [e1, e2]
      · rfl
    rw [hsame]

/-- **C88 (far points are ignored).**  With `49 2^k` rows and the default offset, the unit of level 0 answers 0 to every query:
the points outside all shells are not estimated at all.  In exact arithmetic the unit holds one row. -/
theorem C88_far_points_ignored (a : ℝ) (data : List (List ℝ)) (k : Nat) (hd : data.length = 49 * 2 ^ k)
    (hk : 49 * 2 ^ k < 2 ^ 53) (logNmu : Int) (fs : List (MultiLsh ℝ)) :
    (∃ h, HashUnit.createFl (flBin 53) a data logNmu 0 0 fs = .ok h ∧ h.allData = [] ∧ ∀ q, h.query q = 0) ∧
    ∃ h, HashUnit.create a data logNmu 0 0 fs = .ok h ∧ h.allData = data.take 1 ∧
      ∀ q, h.query q = if rjSquared (cknsJ data.length logNmu) a < squaredDistance q (data.getD 0 []) then
        data.length * gaussianKernel a (squaredDistance q (data.getD 0 [])) else 0 := by
  have hpos : 0 < data.length := by rw [hd]; positivity
  have hnK : (0 : ℝ) < data.length := by exact_mod_cast hpos
  obtain ⟨h1, h2⟩ := C88_outer_empty k hk logNmu
  rw [← hd] at h1 h2
  constructor
  · have hs : startingIdxFl (flBin 53) (cknsPSamplingFl (flBin 53) 0 logNmu data.length 0) data.length = 0 ∨
        startingIdxFl (flBin 53) (cknsPSamplingFl (flBin 53) 0 logNmu data.length 0) data.length = data.length := by
      have hp0 : 0 ≤ cknsPSamplingFl (flBin 53) 0 logNmu data.length 0 := by
        unfold cknsPSamplingFl
        rw [if_pos rfl, flBin_nat (by rw [hd]; exact hk)]
        have h3 : (0 : ℝ) ≤ (2 : ℝ) ^ (-(0 : Int)) / data.length := by positivity
        have h4 := flBin_mono (p := 53) (by norm_num) h3
        rw [flBin_zero] at h4
        exact le_min zero_le_one h4
      obtain ⟨p, hp⟩ : ∃ p, p = cknsPSamplingFl (flBin 53) 0 logNmu data.length 0 := ⟨_, rfl⟩
      rw [← hp] at hp0 ⊢
      unfold startingIdxFl
      split_ifs with hc
      · have h4 := flBin_mono (p := 53) (by norm_num) (show 0 ≤ 1 - 2 * p by linarith)
        have h5 := flBin_mono (p := 53) (by norm_num) (show 1 - 2 * p ≤ 1 by linarith)
        have h6 := flBin_nat (K := ℝ) (m := 1) (by norm_num)
        rw [Nat.cast_one] at h6
        rw [flBin_zero] at h4
        rw [h6] at h5
        rcases lt_or_eq_of_le h5 with h | h
        · left
          rw [Int.floor_eq_zero_iff.2 ⟨h4, h⟩, zero_mul]
        · right
          rw [h, Int.floor_one, one_mul]
      · exact .inl rfl
    unfold HashUnit.createFl
    dsimp only
    rw [h1, if_neg (by omega), if_pos rfl]
    refine ⟨_, rfl, by simp, fun q => ?_⟩
    simp [HashUnit.query, HashUnit.queryNeighbors]
  · have hp : cknsPSampling 0 logNmu data.length 0 = 1 / data.length := by
      unfold cknsPSampling
      rw [if_pos rfl, neg_zero, zpow_zero, min_eq_right]
      rw [div_le_one hnK]
      exact_mod_cast hpos
    have hst : startingIdx (cknsPSampling 0 logNmu data.length 0) data.length = 0 := by
      unfold startingIdx
      rw [hp]
      split_ifs with hc
      · have : ⌊1 - 2 * (1 / (data.length : ℝ))⌋ = 0 := by
          rw [Int.floor_eq_zero_iff]
          have : 0 < 1 / (data.length : ℝ) := by positivity
          exact ⟨by linarith, by linarith⟩
        rw [this, zero_mul]
      · rfl
    unfold HashUnit.create
    dsimp only
    rw [h2, hst, if_neg (by omega), if_pos rfl]
    refine ⟨_, rfl, by simp, fun q => ?_⟩
    obtain ⟨x, xs, hx⟩ : ∃ x xs, data = x :: xs := by
      cases data with
      | nil => simp at hpos
      | cons x xs => exact ⟨x, xs, rfl⟩
    subst hx
    simp only [HashUnit.query, HashUnit.queryNeighbors, Bool.or_true, if_true, hp]
    simp [div_eq_mul_inv, mul_comm]

/-- The largest number that is rounded to 1. -/
theorem fl_tie : flBin 53 (1 + 1 / 2 ^ 53 : ℝ) = 1 := by
  have hl : Int.log 2 (1 + 1 / 2 ^ 53 : ℝ) = 0 := by
    apply le_antisymm
    · apply Int.lt_add_one_iff.1
      rw [← Int.lt_zpow_iff_log_lt one_lt_two (by positivity)]
      norm_num
    · rw [← Int.zpow_le_iff_le_log one_lt_two (by positivity)]
      norm_num
  have hu : ulp 53 (1 + 1 / 2 ^ 53 : ℝ) = 1 / 2 ^ 52 := by
    unfold ulp
    rw [abs_of_pos (by positivity), hl, show (0 : Int) - (((53 : Nat) : Int) - 1) = -((52 : Nat) : Int) by norm_num, zpow_neg,
      zpow_natCast, one_div]
  have hf : ⌊(2 ^ 52 + 1 / 2 : ℝ)⌋ = 2 ^ 52 := by
    rw [Int.floor_eq_iff]
    push_cast
    constructor <;> linarith
  have hr : roundEven (2 ^ 52 + 1 / 2 : ℝ) = 2 ^ 52 := by
    unfold roundEven
    rw [hf, if_neg, if_neg, if_pos]
    · norm_num
    · push_cast; norm_num
    · push_cast; norm_num
  unfold flBin
  rw [hu, show (1 + 1 / 2 ^ 53 : ℝ) / (1 / 2 ^ 52) = 2 ^ 52 + 1 / 2 by norm_num, hr]
  push_cast
  norm_num

theorem defaultNmu_bounds {n : Nat} (h0 : 0 < n) (hn : n < 2 ^ 53) :
    1 / 2 ≤ defaultNmuFl (flBin (K := ℝ) 53) n ∧ defaultNmuFl (flBin (K := ℝ) 53) n ≤ 1 := by
  unfold defaultNmuFl
  rw [flBin_nat hn]
  have hnK : (0 : ℝ) < n := by exact_mod_cast h0
  have hq : (0 : ℝ) ≤ 1 / n := by positivity
  have hu := flBin_le_up hq
  have hd := flBin_ge_down hq
  have hu1 : n * flBin 53 (1 / (n : ℝ)) ≤ 1 + 1 / 2 ^ 53 := by
    have := mul_le_mul_of_nonneg_left hu hnK.le
    rwa [← mul_assoc, mul_one_div_cancel hnK.ne', one_mul] at this
  have hd1 : 1 - 1 / 2 ^ 53 ≤ n * flBin 53 (1 / (n : ℝ)) := by
    have := mul_le_mul_of_nonneg_left hd hnK.le
    rwa [← mul_assoc, mul_one_div_cancel hnK.ne', one_mul] at this
  have h1 := flBin_mono (p := 53) (by norm_num) hu1
  rw [fl_tie] at h1
  refine ⟨?_, h1⟩
  have h2 : (0 : ℝ) ≤ n * flBin 53 (1 / (n : ℝ)) := le_trans (by norm_num) hd1
  refine le_trans ?_ (flBin_ge_down h2)
  have h3 : (1 - 1 / 2 ^ 53 : ℝ) * (1 - 1 / 2 ^ 53) ≤ n * flBin 53 (1 / (n : ℝ)) * (1 - 1 / 2 ^ 53) :=
    mul_le_mul_of_nonneg_right hd1 (by norm_num)
  refine le_trans ?_ h3
  norm_num

/-- **C88 (default range of densities).**  With the default `min_mu = 1 / n`, `log2(n * min_mu)` rounded down should be 0.  For
every library function `log2` with `log2(1) = 0` and values in `[-1, 0)` on `[1/2, 1)`, it is computed as 0 or -1, and as -1
for `n = 49 2^k`: the estimator then has the correct number of iterations over the guesses of the density, or one more. -/
theorem C88_default_min_log (lg : ℝ → ℝ) (hlg : lg 1 = 0) (hneg : ∀ x, 1 / 2 ≤ x → x < 1 → -1 ≤ lg x ∧ lg x < 0) {n : Nat}
    (h0 : 0 < n) (hn : n < 2 ^ 53) :
    (⌊lg (defaultNmuFl (flBin 53) n)⌋ = 0 ∨ ⌊lg (defaultNmuFl (flBin 53) n)⌋ = -1) ∧
    (∃ extra : Int, (extra = 0 ∨ extra = 1) ∧
      ⌈((cknsMaxLog n - ⌊lg (defaultNmuFl (flBin 53) n)⌋ : Int) : ℝ) / 2⌉ + 1 = numIterations n (1 / n) + extra) ∧
    (∀ k, n = 49 * 2 ^ k → ⌊lg (defaultNmuFl (flBin 53) n)⌋ = -1) ∧
    (∀ k, n = 2 ^ k → ⌊lg (defaultNmuFl (flBin 53) n)⌋ = 0) := by
  obtain ⟨h1, h2⟩ := defaultNmu_bounds h0 hn
  have hm1 : ∀ x, 1 / 2 ≤ x → x < 1 → ⌊lg x⌋ = -1 := by
    intro x hx hx1
    obtain ⟨h3, h4⟩ := hneg x hx hx1
    rw [Int.floor_eq_iff]
    push_cast
    exact ⟨h3, by linarith⟩
  have h01 : ⌊lg (defaultNmuFl (flBin 53) n)⌋ = 0 ∨ ⌊lg (defaultNmuFl (flBin 53) n)⌋ = -1 := by
    rcases lt_or_eq_of_le h2 with h | h
    · exact .inr (hm1 _ h1 h)
    · left
      rw [h, hlg, Int.floor_zero]
  refine ⟨h01, ?_, fun k hk => ?_, fun k hk => ?_⟩
  · have hnK : (n : ℝ) ≠ 0 := by exact_mod_cast h0.ne'
    have hmin : cknsMinLog n (1 / n) = 0 := by
      unfold cknsMinLog
      rw [mul_one_div_cancel hnK, Real.logb_one, Int.floor_zero]
    unfold numIterations
    rw [hmin]
    rcases h01 with h | h
    · exact ⟨0, .inl rfl, by rw [h]; ring⟩
    · rw [h]
      have a1 : ⌈((cknsMaxLog n - 0 : Int) : ℝ) / 2⌉ ≤ ⌈((cknsMaxLog n - -1 : Int) : ℝ) / 2⌉ := by
        apply Int.ceil_le_ceil
        push_cast
        linarith
      have a2 : ⌈((cknsMaxLog n - -1 : Int) : ℝ) / 2⌉ ≤ ⌈((cknsMaxLog n - 0 : Int) : ℝ) / 2⌉ + 1 := by
        rw [Int.ceil_le]
        have := Int.le_ceil (((cknsMaxLog n - 0 : Int) : ℝ) / 2)
        push_cast at this ⊢
        linarith
      exact ⟨_, by omega, (add_sub_cancel _ _).symm⟩
  · apply hm1 _ h1
    unfold defaultNmuFl
    rw [flBin_nat hn, mul_comm, hk, fl_49_pow k]
    norm_num
  · have e : defaultNmuFl (flBin (K := ℝ) 53) n = 1 := by
      unfold defaultNmuFl
      rw [flBin_nat hn, hk]
      have e : (1 / ((2 ^ k : Nat) : ℝ)) = (2 : ℝ) ^ (-(k : Int)) := by
        push_cast
        rw [zpow_neg, zpow_natCast, one_div]
      rw [e, flBin_zpow (by norm_num)]
      have e2 : ((2 ^ k : Nat) : ℝ) * (2 : ℝ) ^ (-(k : Int)) = 1 := by
        push_cast
        rw [zpow_neg, zpow_natCast]
        field_simp
      rw [e2]
      have h4 := flBin_nat (K := ℝ) (m := 1) (by norm_num)
      rwa [Nat.cast_one] at h4
    rw [e, hlg, Int.floor_zero]

/-! Concrete cases. -/

example : floorDivFl (flBin (K := ℚ) 53) 1000003 7 = 142857 ∧ ceilDivFl (flBin (K := ℚ) 53) 1000003 70 = 14286 := by
  constructor <;> decide +kernel

example : (List.range 4).map (fun c => (chunkStartFl (flBin (K := ℚ) 53) 11 4 c, chunkEndFl (flBin (K := ℚ) 53) 11 4 c)) =
    [(0, 2), (2, 4), (4, 6), (6, 11)] := by decide +kernel

/-- The first random integer of seed 42 chooses row 37 of 100. -/
example : randintFl (flBin (K := ℚ) 53) 100 (genrandDoubleFl (flBin 53) 1608637542) = 37 := by decide +kernel

example : randintFl (flBin (K := ℚ) 53) 100 (genrandDoubleFl (flBin 53) 4294967295) = 100 := by decide +kernel

/-- The logarithm to base 2 is a function as in `C88_default_min_log`. -/
example : Real.logb 2 1 = 0 ∧ ∀ x : ℝ, 1 / 2 ≤ x → x < 1 → -1 ≤ Real.logb 2 x ∧ Real.logb 2 x < 0 := by
  refine ⟨Real.logb_one, fun x h1 h2 => ⟨?_, Real.logb_neg one_lt_two (by linarith) h2⟩⟩
  rw [Real.le_logb_iff_rpow_le one_lt_two (by linarith), Real.rpow_neg_one]
  linarith

end Stag
