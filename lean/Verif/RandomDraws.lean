import Mathlib.Probability.ProbabilityMassFunction.Constructions
import Mathlib.Data.Multiset.Count
import Mathlib.Data.Nat.Choose.Basic
import Mathlib.Tactic.Linarith
import Mathlib.Tactic.Ring

/-!
# Coins, the binomial distribution and independent draws

Small probability distributions used as specifications: everything here is a `PMF` of Mathlib.
-/

namespace Stag

open scoped ENNReal

/-- A coin which is `true` with probability `p` (clamped to `[0, 1]`). -/
noncomputable def coinLaw (p : ℝ) : PMF Bool :=
  PMF.ofFintype (fun b => if b then ENNReal.ofReal (max 0 (min p 1)) else ENNReal.ofReal (1 - max 0 (min p 1))) (by
    rw [Fintype.sum_bool]
    simp only [if_true, Bool.false_eq_true, if_false]
    rw [← ENNReal.ofReal_add (le_max_left _ _) (by
      have : max 0 (min p 1) ≤ 1 := max_le zero_le_one (min_le_right _ _)
      linarith)]
    rw [add_sub_cancel, ENNReal.ofReal_one])

/-- The binomial distribution: the number of heads among `n` independent coins. -/
noncomputable def binomLaw (p : ℝ) : Nat → PMF Nat
  | 0 => PMF.pure 0
  | n + 1 => (coinLaw p).bind fun b => (binomLaw p n).bind fun k => PMF.pure (if b then k + 1 else k)

/-- The multiset of `n` independent draws from `p`. -/
noncomputable def iidLaw {α : Type} (p : PMF α) : Nat → PMF (Multiset α)
  | 0 => PMF.pure 0
  | n + 1 => p.bind fun x => (iidLaw p n).bind fun M => PMF.pure (x ::ₘ M)

/-- The expected value of a non-negative quantity. -/
noncomputable def PMF.expect {α : Type} (p : PMF α) (f : α → ℝ≥0∞) : ℝ≥0∞ := ∑' x, p x * f x

theorem coinLaw_true {p : ℝ} (h0 : 0 ≤ p) (h1 : p ≤ 1) : coinLaw p true = ENNReal.ofReal p := by
  simp [coinLaw, min_eq_left h1, max_eq_right h0]

theorem coinLaw_false {p : ℝ} (h0 : 0 ≤ p) (h1 : p ≤ 1) : coinLaw p false = ENNReal.ofReal (1 - p) := by
  simp [coinLaw, min_eq_left h1, max_eq_right h0]

/-! ## Reasoning about `bind` -/

theorem bind_congr_support {α β : Type} (p : PMF α) {f g : α → PMF β} (h : ∀ a ∈ p.support, f a = g a) :
    p.bind f = p.bind g := by
  ext b
  rw [PMF.bind_apply, PMF.bind_apply]
  apply tsum_congr
  intro a
  by_cases ha : p a = 0
  · rw [ha, zero_mul, zero_mul]
  · rw [h a ((PMF.mem_support_iff p a).2 ha)]

theorem expect_bind {α β : Type} (p : PMF α) (f : α → PMF β) (g : β → ℝ≥0∞) :
    PMF.expect (p.bind f) g = PMF.expect p fun a => PMF.expect (f a) g := by
  unfold PMF.expect
  simp only [PMF.bind_apply]
  simp_rw [← ENNReal.tsum_mul_right, ← ENNReal.tsum_mul_left]
  rw [ENNReal.tsum_comm]
  apply tsum_congr
  intro a
  apply tsum_congr
  intro b
  ring

theorem expect_pure {α : Type} (a : α) (g : α → ℝ≥0∞) : PMF.expect (PMF.pure a) g = g a := by
  unfold PMF.expect
  rw [tsum_eq_single a]
  · simp
  · intro b hb
    simp [hb]

theorem expect_map {α β : Type} (p : PMF α) (f : α → β) (g : β → ℝ≥0∞) :
    PMF.expect (p.map f) g = PMF.expect p (g ∘ f) := by
  unfold PMF.map
  rw [expect_bind]
  congr 1
  funext a
  exact expect_pure _ _

theorem expect_add {α : Type} (p : PMF α) (f g : α → ℝ≥0∞) :
    PMF.expect p (fun x => f x + g x) = PMF.expect p f + PMF.expect p g := by
  unfold PMF.expect
  simp only [mul_add]
  exact ENNReal.tsum_add

theorem expect_const {α : Type} (p : PMF α) (c : ℝ≥0∞) : PMF.expect p (fun _ => c) = c := by
  unfold PMF.expect
  rw [ENNReal.tsum_mul_right, p.tsum_coe, one_mul]

theorem expect_mul_left {α : Type} (p : PMF α) (c : ℝ≥0∞) (f : α → ℝ≥0∞) :
    PMF.expect p (fun x => c * f x) = c * PMF.expect p f := by
  unfold PMF.expect
  rw [← ENNReal.tsum_mul_left]
  apply tsum_congr
  intro x
  ring

theorem expect_congr_support {α : Type} (p : PMF α) {f g : α → ℝ≥0∞} (h : ∀ a ∈ p.support, f a = g a) :
    PMF.expect p f = PMF.expect p g := by
  unfold PMF.expect
  apply tsum_congr
  intro a
  by_cases ha : p a = 0
  · rw [ha, zero_mul, zero_mul]
  · rw [h a ((PMF.mem_support_iff p a).2 ha)]

/-! ## The binomial distribution -/

theorem binomLaw_le {p : ℝ} {n k : Nat} (h : k ∈ (binomLaw p n).support) : k ≤ n := by
  induction n generalizing k with
  | zero =>
    rw [binomLaw, PMF.support_pure] at h
    rw [Set.mem_singleton_iff.1 h]
  | succ n ih =>
    rw [binomLaw, PMF.mem_support_bind_iff] at h
    obtain ⟨b, -, h⟩ := h
    rw [PMF.mem_support_bind_iff] at h
    obtain ⟨k', hk', h⟩ := h
    rw [PMF.support_pure, Set.mem_singleton_iff] at h
    have := ih hk'
    split_ifs at h <;> omega

theorem binomLaw_zero {n k : Nat} (h : k ∈ (binomLaw 0 n).support) : k = 0 := by
  induction n generalizing k with
  | zero =>
    rw [binomLaw, PMF.support_pure] at h
    exact Set.mem_singleton_iff.1 h
  | succ n ih =>
    rw [binomLaw, PMF.mem_support_bind_iff] at h
    obtain ⟨b, hb, h⟩ := h
    rw [PMF.mem_support_bind_iff] at h
    obtain ⟨k', hk', h⟩ := h
    rw [PMF.support_pure, Set.mem_singleton_iff] at h
    have hb' : b = false := by
      cases b
      · rfl
      · rw [PMF.mem_support_iff, coinLaw_true le_rfl zero_le_one] at hb
        simp at hb
    rw [h, hb', ih hk']
    rfl

theorem binomLaw_one {n k : Nat} (h : k ∈ (binomLaw 1 n).support) : k = n := by
  induction n generalizing k with
  | zero =>
    rw [binomLaw, PMF.support_pure] at h
    exact Set.mem_singleton_iff.1 h
  | succ n ih =>
    rw [binomLaw, PMF.mem_support_bind_iff] at h
    obtain ⟨b, hb, h⟩ := h
    rw [PMF.mem_support_bind_iff] at h
    obtain ⟨k', hk', h⟩ := h
    rw [PMF.support_pure, Set.mem_singleton_iff] at h
    have hb' : b = true := by
      cases b
      · rw [PMF.mem_support_iff, coinLaw_false zero_le_one le_rfl] at hb
        simp at hb
      · rfl
    rw [h, hb', ih hk']
    rfl

/-- The textbook formula. -/
theorem binomLaw_apply {p : ℝ} (h0 : 0 ≤ p) (h1 : p ≤ 1) (n k : Nat) :
    binomLaw p n k = ENNReal.ofReal (n.choose k * p ^ k * (1 - p) ^ (n - k)) := by
  have hq : 0 ≤ 1 - p := by linarith
  induction n generalizing k with
  | zero =>
    rw [binomLaw, PMF.pure_apply]
    cases k with
    | zero => simp
    | succ k => simp
  | succ n ih =>
    have hb : ∀ b : Bool, ((binomLaw p n).bind fun j => PMF.pure (if b then j + 1 else j)) k
        = if b then (if k = 0 then 0 else binomLaw p n (k - 1)) else binomLaw p n k := by
      intro b
      rw [PMF.bind_apply]
      cases b
      · simp only [Bool.false_eq_true, if_false]
        rw [tsum_eq_single k]
        · simp
        · intro j hj
          rw [PMF.pure_apply, if_neg (Ne.symm hj), mul_zero]
      · simp only [if_true]
        by_cases hk : k = 0
        · rw [if_pos hk, ENNReal.tsum_eq_zero]
          intro j
          rw [PMF.pure_apply, if_neg (by omega), mul_zero]
        · rw [if_neg hk, tsum_eq_single (k - 1)]
          · rw [PMF.pure_apply, if_pos (by omega), mul_one]
          · intro j hj
            rw [PMF.pure_apply, if_neg (by omega), mul_zero]
    rw [binomLaw, PMF.bind_apply, tsum_bool, hb, hb, coinLaw_true h0 h1, coinLaw_false h0 h1]
    simp only [Bool.false_eq_true, if_false, if_true]
    rw [ih]
    cases k with
    | zero =>
      simp only [if_true, mul_zero, add_zero]
      rw [← ENNReal.ofReal_mul hq]
      congr 1
      simp only [Nat.choose_zero_right, Nat.cast_one, pow_zero, Nat.sub_zero, pow_succ]
      ring
    | succ k =>
      rw [if_neg (by omega), Nat.add_sub_cancel, ih, ← ENNReal.ofReal_mul hq, ← ENNReal.ofReal_mul h0,
        ← ENNReal.ofReal_add (by positivity) (by positivity)]
      congr 1
      rw [Nat.choose_succ_succ, Nat.add_sub_add_right]
      push_cast
      rcases Nat.lt_or_ge k n with hkn | hkn
      · rw [show n - k = (n - (k + 1)) + 1 by omega]
        ring
      · rw [Nat.choose_eq_zero_of_lt (by omega : n < k + 1)]
        push_cast
        ring

/-- Splitting `n` draws between two sources by a binomial number is the same as `n` independent draws, each of which
first tosses a coin for its source. -/
theorem split_draws {α : Type} (c : ℝ) (L R : PMF α) (n : Nat) :
    ((binomLaw c n).bind fun k => (iidLaw L k).bind fun l => (iidLaw R (n - k)).bind fun r => PMF.pure (l + r))
      = iidLaw ((coinLaw c).bind fun b => if b then L else R) n := by
  induction n with
  | zero =>
    simp only [binomLaw, PMF.pure_bind, iidLaw, Nat.sub_zero, add_zero]
  | succ n ih =>
    rw [binomLaw, iidLaw, ← ih]
    simp only [PMF.bind_bind, PMF.pure_bind]
    congr 1
    funext b
    cases b
    · simp only [Bool.false_eq_true, if_false]
      rw [PMF.bind_comm R]
      apply bind_congr_support
      intro k hk
      have hk' := binomLaw_le hk
      rw [PMF.bind_comm R]
      congr 1
      funext l
      rw [show n + 1 - k = (n - k) + 1 by omega, iidLaw]
      simp only [PMF.bind_bind, PMF.pure_bind]
      congr 1
      funext x
      congr 1
      funext M
      rw [Multiset.add_cons]
    · simp only [if_true]
      rw [PMF.bind_comm L]
      congr 1
      funext k
      rw [iidLaw, show n + 1 - (k + 1) = n - k by omega]
      simp only [PMF.bind_bind, PMF.pure_bind]
      congr 1
      funext x
      congr 1
      funext l
      congr 1
      funext M
      rw [Multiset.cons_add]

/-- The expected product of a function of independent draws. -/
theorem expect_prod {α : Type} (p : PMF α) (g : α → ℝ≥0∞) (n : Nat) :
    PMF.expect (iidLaw p n) (fun M => (M.map g).prod) = PMF.expect p g ^ n := by
  induction n with
  | zero => simp [iidLaw, expect_pure]
  | succ n ih =>
    rw [iidLaw, expect_bind]
    have h1 : ∀ x, PMF.expect ((iidLaw p n).bind fun M => PMF.pure (x ::ₘ M)) (fun M => (M.map g).prod)
        = PMF.expect p g ^ n * g x := by
      intro x
      rw [expect_bind]
      simp only [expect_pure, Multiset.map_cons, Multiset.prod_cons]
      rw [expect_mul_left, ih, mul_comm]
    simp only [h1]
    rw [expect_mul_left, pow_succ]

/-- The expected number of copies of `j` among `n` independent draws. -/
theorem expect_count {α : Type} [DecidableEq α] (p : PMF α) (j : α) (n : Nat) :
    PMF.expect (iidLaw p n) (fun M => (M.count j : ℝ≥0∞)) = n * p j := by
  induction n with
  | zero => simp [iidLaw, expect_pure]
  | succ n ih =>
    rw [iidLaw, expect_bind]
    have h1 : ∀ x, PMF.expect ((iidLaw p n).bind fun M => PMF.pure (x ::ₘ M)) (fun M => (M.count j : ℝ≥0∞))
        = n * p j + if x = j then 1 else 0 := by
      intro x
      rw [expect_bind]
      simp only [expect_pure, Multiset.count_cons]
      have : ∀ M : Multiset α, ((M.count j + if j = x then 1 else 0 : Nat) : ℝ≥0∞)
          = (M.count j : ℝ≥0∞) + (if x = j then 1 else 0) := by
        intro M
        by_cases h : x = j
        · simp [h]
        · simp [h, Ne.symm h]
      simp only [this]
      rw [expect_add, ih, expect_const]
    simp only [h1]
    rw [expect_add, expect_const]
    have h2 : PMF.expect p (fun x => if x = j then (1 : ℝ≥0∞) else 0) = p j := by
      unfold PMF.expect
      rw [tsum_eq_single j]
      · simp
      · intro b hb
        simp [hb]
    rw [h2]
    push_cast
    ring

end Stag
