import Mathlib.Data.Nat.Choose.Sum
import Mathlib.Analysis.SpecialFunctions.Exp
import Mathlib.Analysis.Complex.ExponentialBounds
import Mathlib.Algebra.Order.BigOperators.Group.Finset
import Mathlib.Tactic.Positivity
import Mathlib.Tactic.FieldSimp
import Mathlib.Tactic.Linarith

/-!
# Binomial estimates for the connectedness of random graphs
-/

open Finset

namespace Stag.ComponentsMath

/-- One term of the binomial distribution is at most one. -/
theorem choose_mul_le {m s : Nat} (hs : s ≤ m) (hm : 0 < m) :
    (m.choose s : ℝ) * (((s : ℝ) / m) ^ s * (((m - s : Nat) : ℝ) / m) ^ (m - s)) ≤ 1 := by
  have hm' : (0 : ℝ) < m := by exact_mod_cast hm
  have h := add_pow ((s : ℝ) / m) (((m - s : Nat) : ℝ) / m) m
  have e : (s : ℝ) / m + ((m - s : Nat) : ℝ) / m = 1 := by
    rw [Nat.cast_sub hs]
    field_simp
    ring
  rw [e, one_pow] at h
  rw [h]
  have h1 := single_le_sum (f := fun k => ((s : ℝ) / m) ^ k * (((m - s : Nat) : ℝ) / m) ^ (m - k) * (m.choose k : ℝ))
    (s := range (m + 1)) (fun k _ => by positivity) (mem_range.2 (by omega : s < m + 1))
  refine le_trans (le_of_eq ?_) h1
  ring

/-- Small sets. -/
theorem small_sets {m s : Nat} (h1 : 1 ≤ s) (h8 : 8 * s ≤ m) {ρ : ℝ} (h0 : 0 ≤ ρ) (hρ : ρ ^ 2 ≤ 11 / 10) :
    (m.choose s : ℝ) * (ρ * s / m) ^ (2 * s) ≤ 3 / m * ((s : ℝ) * (3 / 8) ^ (s - 1)) := by
  have hm : 0 < m := by omega
  have hm' : (0 : ℝ) < m := by exact_mod_cast hm
  have hs' : (0 : ℝ) < s := by exact_mod_cast h1
  have ht : (0 : ℝ) < ((m - s : Nat) : ℝ) := by exact_mod_cast (by omega : 0 < m - s)
  have hb := choose_mul_le (by omega : s ≤ m) hm
  -- `C(m,s) (s/m)^s ≤ e^s`
  have hq : (1 : ℝ) ≤ Real.exp s * (((m - s : Nat) : ℝ) / m) ^ (m - s) := by
    have h2 : (m : ℝ) / ((m - s : Nat) : ℝ) ≤ Real.exp (s / ((m - s : Nat) : ℝ)) := by
      have := Real.add_one_le_exp ((s : ℝ) / ((m - s : Nat) : ℝ))
      refine le_trans (le_of_eq ?_) this
      rw [Nat.cast_sub (by omega)] at ht ⊢
      field_simp
      ring
    have h3 := pow_le_pow_left₀ (by positivity) h2 (m - s)
    rw [← Real.exp_nat_mul] at h3
    have e : ((m - s : Nat) : ℝ) * ((s : ℝ) / ((m - s : Nat) : ℝ)) = s := by field_simp
    rw [e] at h3
    calc (1 : ℝ) = ((m : ℝ) / ((m - s : Nat) : ℝ)) ^ (m - s) * (((m - s : Nat) : ℝ) / m) ^ (m - s) := by
          rw [← mul_pow, div_mul_div_cancel₀ ht.ne', div_self hm'.ne', one_pow]
      _ ≤ _ := mul_le_mul_of_nonneg_right h3 (by positivity)
  have hc : (m.choose s : ℝ) * ((s : ℝ) / m) ^ s ≤ Real.exp s := by
    have h4 : (m.choose s : ℝ) * ((s : ℝ) / m) ^ s ≤
        ((m.choose s : ℝ) * ((s : ℝ) / m) ^ s) * (Real.exp s * (((m - s : Nat) : ℝ) / m) ^ (m - s)) :=
      le_mul_of_one_le_right (by positivity) hq
    refine le_trans h4 ?_
    calc _ = Real.exp s * ((m.choose s : ℝ) * (((s : ℝ) / m) ^ s * (((m - s : Nat) : ℝ) / m) ^ (m - s))) := by ring
      _ ≤ Real.exp s * 1 := mul_le_mul_of_nonneg_left hb (Real.exp_pos _).le
      _ = _ := mul_one _
  have he : Real.exp s = Real.exp 1 ^ s := by rw [← Real.exp_nat_mul, mul_one]
  have h3 : Real.exp 1 * ρ ^ 2 ≤ 3 := by
    have := Real.exp_one_lt_d9
    have h9 : Real.exp 1 ≤ 2.7182818286 := this.le
    calc Real.exp 1 * ρ ^ 2 ≤ 2.7182818286 * (11 / 10) := mul_le_mul h9 hρ (by positivity) (by norm_num)
      _ ≤ 3 := by norm_num
  have hle : (3 : ℝ) * s / m ≤ 3 / 8 := by
    rw [div_le_div_iff₀ hm' (by norm_num)]
    have : (8 : ℝ) * s ≤ m := by exact_mod_cast h8
    linarith
  calc (m.choose s : ℝ) * (ρ * s / m) ^ (2 * s)
      = ((m.choose s : ℝ) * ((s : ℝ) / m) ^ s) * ((ρ ^ 2) * ((s : ℝ) / m)) ^ s := by
        rw [pow_mul, show (ρ * s / m) ^ 2 = ((s : ℝ) / m) * (ρ ^ 2 * ((s : ℝ) / m)) by ring, mul_pow]
        ring
    _ ≤ Real.exp s * ((ρ ^ 2) * ((s : ℝ) / m)) ^ s := mul_le_mul_of_nonneg_right hc (by positivity)
    _ = (Real.exp 1 * ρ ^ 2 * ((s : ℝ) / m)) ^ s := by rw [he, ← mul_pow]; ring
    _ ≤ (3 * ((s : ℝ) / m)) ^ s := pow_le_pow_left₀ (by positivity) (mul_le_mul_of_nonneg_right h3 (by positivity)) s
    _ = (3 * (s : ℝ) / m) * (3 * (s : ℝ) / m) ^ (s - 1) := by
        rw [← pow_succ', Nat.sub_add_cancel h1, mul_div_assoc]
    _ ≤ (3 * (s : ℝ) / m) * (3 / 8) ^ (s - 1) :=
        mul_le_mul_of_nonneg_left (pow_le_pow_left₀ (by positivity) hle _) (by positivity)
    _ = _ := by ring

/-- Large sets. -/
theorem large_sets {m s : Nat} (h8 : m ≤ 8 * s) (h2 : 2 * s ≤ m) (hm : 0 < m) {ρ : ℝ} (h0 : 0 ≤ ρ) (hρ : ρ ^ 2 ≤ 11 / 10) :
    (m.choose s : ℝ) * ((ρ * s / m) ^ (2 * s) * (ρ * ((m - s : Nat) : ℝ) / m) ^ (2 * (m - s))) ≤ (9 / 10) ^ m := by
  have hm' : (0 : ℝ) < m := by exact_mod_cast hm
  have hb := choose_mul_le (by omega : s ≤ m) hm
  have hs2 : (s : ℝ) / m ≤ 1 / 2 := by
    rw [div_le_div_iff₀ hm' (by norm_num)]
    have : (2 : ℝ) * s ≤ m := by exact_mod_cast h2
    linarith
  have ht2 : ((m - s : Nat) : ℝ) / m ≤ 7 / 8 := by
    rw [div_le_div_iff₀ hm' (by norm_num), Nat.cast_sub (by omega)]
    have : (m : ℝ) ≤ 8 * s := by exact_mod_cast h8
    linarith
  obtain ⟨q, hq⟩ : ∃ q : ℝ, q = ((s : ℝ) / m) ^ s * (((m - s : Nat) : ℝ) / m) ^ (m - s) := ⟨_, rfl⟩
  have hq0 : 0 ≤ q := by rw [hq]; positivity
  have e1 : (ρ * s / m) ^ (2 * s) * (ρ * ((m - s : Nat) : ℝ) / m) ^ (2 * (m - s)) = (ρ ^ 2) ^ m * (q * q) := by
    have e2 : (ρ ^ 2) ^ m = (ρ ^ 2) ^ s * (ρ ^ 2) ^ (m - s) := by rw [← pow_add]; congr 1; omega
    rw [hq, e2, pow_mul, pow_mul]
    rw [show (ρ * s / m) ^ 2 = ρ ^ 2 * (((s : ℝ) / m) * ((s : ℝ) / m)) by ring,
      show (ρ * ((m - s : Nat) : ℝ) / m) ^ 2 = ρ ^ 2 * ((((m - s : Nat) : ℝ) / m) * (((m - s : Nat) : ℝ) / m)) by ring]
    simp only [mul_pow]
    ring
  rw [e1]
  have hstep : (m.choose s : ℝ) * ((ρ ^ 2) ^ m * (q * q)) ≤ (11 / 10) ^ m * q := by
    calc _ = (ρ ^ 2) ^ m * q * ((m.choose s : ℝ) * q) := by ring
      _ ≤ (ρ ^ 2) ^ m * q * 1 := mul_le_mul_of_nonneg_left (hq ▸ hb) (by positivity)
      _ = (ρ ^ 2) ^ m * q := mul_one _
      _ ≤ _ := mul_le_mul_of_nonneg_right (pow_le_pow_left₀ (by positivity) hρ m) hq0
  refine le_trans hstep ?_
  have hqle : q ≤ (1 / 2) ^ s * (7 / 8) ^ (m - s) := by
    rw [hq]
    exact mul_le_mul (pow_le_pow_left₀ (by positivity) hs2 _) (pow_le_pow_left₀ (by positivity) ht2 _) (by positivity)
      (by positivity)
  refine le_trans (mul_le_mul_of_nonneg_left hqle (by positivity)) ?_
  refine le_of_pow_le_pow_left₀ (n := 8) (by norm_num) (by positivity) ?_
  have e3 : ((11 / 10 : ℝ) ^ m * ((1 / 2) ^ s * (7 / 8) ^ (m - s))) ^ 8
      = (((11 / 10) * (7 / 8)) ^ 8) ^ m * (4 / 7) ^ (8 * s) := by
    have e4 : (7 / 8 : ℝ) ^ m = (7 / 8) ^ s * (7 / 8) ^ (m - s) := by rw [← pow_add]; congr 1; omega
    have e5 : (1 / 2 : ℝ) ^ s = (7 / 8) ^ s * (4 / 7) ^ s := by rw [← mul_pow]; norm_num
    rw [← pow_mul, mul_comm 8 m, pow_mul, mul_comm 8 s, pow_mul, ← mul_pow, mul_pow (11 / 10 : ℝ), e4, e5]
    ring
  rw [e3]
  calc _ ≤ (((11 / 10 : ℝ) * (7 / 8)) ^ 8) ^ m * (4 / 7) ^ m :=
        mul_le_mul_of_nonneg_left (pow_le_pow_of_le_one (by norm_num) (by norm_num) h8) (by positivity)
    _ = (((11 / 10 : ℝ) * (7 / 8)) ^ 8 * (4 / 7)) ^ m := by rw [← mul_pow]
    _ ≤ ((9 / 10) ^ 8) ^ m := pow_le_pow_left₀ (by positivity) (by norm_num) m
    _ = _ := by rw [← pow_mul, ← pow_mul, mul_comm]

/-- The sum of an arithmetic-geometric sequence. -/
theorem arith_geom (N : Nat) : ∑ s ∈ range N, ((s : ℝ) + 1) * (3 / 8) ^ s ≤ 64 / 25 := by
  have h : ∀ N : Nat, ∑ s ∈ range N, ((s : ℝ) + 1) * (3 / 8) ^ s + (3 / 8) ^ N * (((N : ℝ) + 1) * (8 / 5) + 24 / 25) = 64 / 25 := by
    intro N
    induction N with
    | zero => norm_num
    | succ N ih =>
      rw [sum_range_succ, ← ih, pow_succ]
      push_cast
      ring
  have h1 : (0 : ℝ) ≤ (3 / 8) ^ N * (((N : ℝ) + 1) * (8 / 5) + 24 / 25) := by positivity
  linarith [h N]

/-- The bound on the probability that a set of `s` of `m` vertices is separated from the others. -/
noncomputable def sepBound (ρ : ℝ) (m s : Nat) : ℝ :=
  if 1 ≤ s ∧ 2 * s ≤ m then
    if 8 * s ≤ m then (ρ * s / m) ^ (2 * s) else (ρ * s / m) ^ (2 * s) * (ρ * ((m - s : Nat) : ℝ) / m) ^ (2 * (m - s))
  else 0

/-- All sets together. -/
theorem sum_sepBound {m : Nat} (hm : 0 < m) {ρ : ℝ} (h0 : 0 ≤ ρ) (hρ : ρ ^ 2 ≤ 11 / 10) :
    ∑ s ∈ range (m + 1), (m.choose s : ℝ) * sepBound ρ m s ≤ 8 / m + m * (9 / 10) ^ m := by
  have hm' : (0 : ℝ) < m := by exact_mod_cast hm
  rw [sum_range_succ']
  have hz : (m.choose 0 : ℝ) * sepBound ρ m 0 = 0 := by simp [sepBound]
  rw [hz, add_zero]
  have hterm : ∀ s ∈ range m, (m.choose (s + 1) : ℝ) * sepBound ρ m (s + 1)
      ≤ 3 / m * (((s : ℝ) + 1) * (3 / 8) ^ s) + (9 / 10) ^ m := by
    intro s _
    unfold sepBound
    have hp1 : (0 : ℝ) ≤ 3 / m * (((s : ℝ) + 1) * (3 / 8) ^ s) := by positivity
    have hp2 : (0 : ℝ) ≤ (9 / 10) ^ m := by positivity
    by_cases h1 : 1 ≤ s + 1 ∧ 2 * (s + 1) ≤ m
    · rw [if_pos h1]
      by_cases h2 : 8 * (s + 1) ≤ m
      · rw [if_pos h2]
        have := small_sets h1.1 h2 h0 hρ
        rw [Nat.add_sub_cancel] at this
        push_cast at this ⊢
        linarith
      · rw [if_neg h2]
        have := large_sets (by omega) h1.2 hm h0 hρ
        linarith
    · rw [if_neg h1, mul_zero]
      linarith
  refine le_trans (sum_le_sum hterm) ?_
  rw [sum_add_distrib, ← mul_sum, sum_const, card_range, nsmul_eq_mul]
  have h1 := mul_le_mul_of_nonneg_left (arith_geom m) (by positivity : (0 : ℝ) ≤ 3 / m)
  have h2 : (3 : ℝ) / m * (64 / 25) ≤ 8 / m := by
    rw [div_mul_eq_mul_div]
    gcongr
    norm_num
  linarith

end Stag.ComponentsMath
