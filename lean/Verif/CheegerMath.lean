import Mathlib.Algebra.BigOperators.Ring.Finset
import Mathlib.Algebra.BigOperators.Intervals
import Mathlib.Algebra.Order.BigOperators.Ring.Finset
import Mathlib.Algebra.Order.BigOperators.Group.Finset
import Mathlib.Analysis.SpecialFunctions.Sqrt
import Mathlib.Tactic.Linarith
import Mathlib.Tactic.Ring

/-!
# The sweep step of Cheeger's inequality

Vertices are numbered by their position in the sweep.
-/

namespace Stag

namespace Cheeger

/-- The steps between consecutive values telescope. -/
theorem tele (x : Nat → ℝ) (a b : Nat) (hab : a ≤ b) :
    ∑ k ∈ Finset.Ico (a + 1) (b + 1), (x (k - 1) - x k) = x a - x b := by
  induction b, hab using Nat.le_induction with
  | base => simp
  | succ b hb ih =>
    rw [Finset.sum_Ico_succ_top (by omega), ih]
    simp

/-- The step between positions `k - 1` and `k` lies between `a` and `b`. -/
def between (a b k : Nat) : ℝ := (if a < k ∧ k ≤ b then 1 else 0) + (if b < k ∧ k ≤ a then 1 else 0)

theorem abs_tele {n : Nat} (x : Nat → ℝ) (hx : ∀ k, k + 1 < n → x (k + 1) ≤ x k) (a b : Nat)
    (ha : a < n) (hb : b < n) :
    |x a - x b| = ∑ k ∈ Finset.Ico 1 n, (x (k - 1) - x k) * between a b k := by
  have hmono : ∀ a b, a ≤ b → b < n → x b ≤ x a := by
    intro a b hab
    induction b, hab using Nat.le_induction with
    | base => intro _; exact le_refl _
    | succ b hb ih => intro h; exact le_trans (hx b h) (ih (by omega))
  have key : ∀ a b, a ≤ b → b < n →
      ∑ k ∈ Finset.Ico 1 n, (x (k - 1) - x k) * (if a < k ∧ k ≤ b then 1 else 0) = x a - x b := by
    intro a b hab hb
    rw [← tele x a b hab]
    rw [show Finset.Ico (a + 1) (b + 1) = (Finset.Ico 1 n).filter (fun k => a < k ∧ k ≤ b) by
      ext k; simp only [Finset.mem_Ico, Finset.mem_filter]; omega, Finset.sum_filter]
    apply Finset.sum_congr rfl
    intro k _
    split_ifs <;> simp
  have zero : ∀ a b, b ≤ a →
      ∑ k ∈ Finset.Ico 1 n, (x (k - 1) - x k) * (if a < k ∧ k ≤ b then 1 else 0) = 0 := by
    intro a b hab
    apply Finset.sum_eq_zero
    intro k _
    rw [if_neg (by omega), mul_zero]
  unfold between
  simp only [mul_add, Finset.sum_add_distrib]
  rcases le_total a b with hab | hab
  · rw [key a b hab hb, zero b a hab, add_zero, abs_of_nonneg (sub_nonneg.2 (hmono a b hab hb))]
  · rw [key b a hab ha, zero a b hab, zero_add, abs_sub_comm,
      abs_of_nonneg (sub_nonneg.2 (hmono b a hab ha))]

variable (n : Nat) (w : Nat → Nat → ℝ)

/-- Row sums. -/
noncomputable def dg (a : Nat) : ℝ := ∑ b ∈ Finset.range n, w a b

/-- Cut of the first `k` positions. -/
noncomputable def cutp (k : Nat) : ℝ :=
  ∑ a ∈ Finset.range k, ∑ b ∈ Finset.range n \ Finset.range k, w a b

/-- Volume of the first `k` positions. -/
noncomputable def volp (k : Nat) : ℝ := ∑ a ∈ Finset.range k, dg n w a

variable {n w}

theorem sum_between (k : Nat) (hk : k ≤ n) (hsym : ∀ a b, w a b = w b a) :
    ∑ a ∈ Finset.range n, ∑ b ∈ Finset.range n, w a b * between a b k = 2 * cutp n w k := by
  have h1 : ∑ a ∈ Finset.range n, ∑ b ∈ Finset.range n, w a b * (if a < k ∧ k ≤ b then 1 else 0)
      = cutp n w k := by
    unfold cutp
    have e1 : ∀ a ∈ Finset.range n, ∑ b ∈ Finset.range n, w a b * (if a < k ∧ k ≤ b then 1 else 0)
        = if a < k then ∑ b ∈ Finset.range n \ Finset.range k, w a b else 0 := by
      intro a _
      split_ifs with hak
      · rw [show Finset.range n \ Finset.range k = (Finset.range n).filter (fun b => k ≤ b) by
          ext b; simp only [Finset.mem_sdiff, Finset.mem_range, Finset.mem_filter]; omega,
          Finset.sum_filter]
        apply Finset.sum_congr rfl
        intro b _
        simp [hak]
      · apply Finset.sum_eq_zero
        intro b _
        rw [if_neg (by omega), mul_zero]
    rw [Finset.sum_congr rfl e1, ← Finset.sum_filter]
    congr 1
    ext a; simp only [Finset.mem_range, Finset.mem_filter]; omega
  have h2 : ∑ a ∈ Finset.range n, ∑ b ∈ Finset.range n, w a b * (if b < k ∧ k ≤ a then 1 else 0)
      = cutp n w k := by
    rw [← h1, Finset.sum_comm]
    apply Finset.sum_congr rfl
    intro a _
    apply Finset.sum_congr rfl
    intro b _
    rw [hsym]
  unfold between
  simp only [mul_add, Finset.sum_add_distrib]
  rw [h1, h2]; ring

theorem sum_between_deg (m k : Nat) (hk : k ≤ n) :
    ∑ a ∈ Finset.range n, dg n w a * between a m k =
      if k ≤ m then volp n w k else volp n w n - volp n w k := by
  unfold between volp
  simp only [mul_add, Finset.sum_add_distrib]
  split_ifs with hkm
  · have e1 : ∀ a ∈ Finset.range n, dg n w a * (if a < k ∧ k ≤ m then 1 else 0)
        = if a < k then dg n w a else 0 := by
      intro a _; by_cases h : a < k <;> simp [h, hkm]
    have e2 : ∀ a ∈ Finset.range n, dg n w a * (if m < k ∧ k ≤ a then 1 else 0) = 0 := by
      intro a _; rw [if_neg (by omega), mul_zero]
    rw [Finset.sum_congr rfl e1, Finset.sum_congr rfl e2, Finset.sum_const_zero, add_zero,
      ← Finset.sum_filter]
    congr 1
    ext a; simp only [Finset.mem_range, Finset.mem_filter]; omega
  · have e1 : ∀ a ∈ Finset.range n, dg n w a * (if a < k ∧ k ≤ m then 1 else 0) = 0 := by
      intro a _; rw [if_neg (by omega), mul_zero]
    have e2 : ∀ a ∈ Finset.range n, dg n w a * (if m < k ∧ k ≤ a then 1 else 0)
        = if k ≤ a then dg n w a else 0 := by
      intro a _
      by_cases h : k ≤ a
      · simp [h]; omega
      · simp [h]
    rw [Finset.sum_congr rfl e1, Finset.sum_congr rfl e2, Finset.sum_const_zero, zero_add,
      ← Finset.sum_filter, ← Finset.sum_sdiff (s₁ := Finset.range k) (s₂ := Finset.range n)
        (Finset.range_subset_range.2 hk), add_sub_cancel_right]
    apply Finset.sum_congr
    · ext a; simp only [Finset.mem_range, Finset.mem_filter, Finset.mem_sdiff]; omega
    · intros; rfl

/-- Signed squares are monotone. -/
theorem signed_sq_mono {a b : ℝ} (h : a ≤ b) : a * |a| ≤ b * |b| := by
  rcases le_total 0 a with ha | ha <;> rcases le_total 0 b with hb | hb
  · rw [abs_of_nonneg ha, abs_of_nonneg hb]; nlinarith
  · rw [abs_of_nonneg ha, abs_of_nonpos hb]; nlinarith
  · rw [abs_of_nonpos ha, abs_of_nonneg hb]; nlinarith
  · rw [abs_of_nonpos ha, abs_of_nonpos hb]; nlinarith

theorem signed_sq_diff (a b : ℝ) : abs (a * |a| - b * |b|) ≤ |a - b| * (|a| + |b|) := by
  rcases le_total 0 a with ha | ha <;> rcases le_total 0 b with hb | hb
  · rw [abs_of_nonneg ha, abs_of_nonneg hb, show a * a - b * b = (a - b) * (a + b) by ring, abs_mul,
      abs_of_nonneg (add_nonneg ha hb)]
  · rw [abs_of_nonneg ha, abs_of_nonpos hb, abs_of_nonneg (by nlinarith : 0 ≤ a * a - b * -b),
      abs_of_nonneg (by linarith : 0 ≤ a - b)]
    nlinarith
  · rw [abs_of_nonpos ha, abs_of_nonneg hb, abs_of_nonpos (by nlinarith : a * -a - b * b ≤ 0),
      abs_of_nonpos (by linarith : a - b ≤ 0)]
    nlinarith
  · rw [abs_of_nonpos ha, abs_of_nonpos hb, show a * -a - b * -b = -(a - b) * (a + b) by ring, abs_mul,
      abs_neg, abs_of_nonpos (add_nonpos ha hb)]
    apply le_of_eq; ring

/-- **The sweep step of Cheeger's inequality.**  `f` is decreasing along the positions, every cut of
the sweep is at least `φ` times the smaller volume, and the Rayleigh quotient of `f` about every
constant is at most `l`.  Then `φ² ≤ 2 l`. -/
theorem sweep_bound (hn : 0 < n) (hsym : ∀ a b, w a b = w b a) (hw : ∀ a b, 0 ≤ w a b) (f : Nat → ℝ)
    (hf : ∀ k, k + 1 < n → f (k + 1) ≤ f k) (l φ : ℝ) (hφ : 0 ≤ φ)
    (hcut : ∀ k, 1 ≤ k → k < n → φ * min (volp n w k) (volp n w n - volp n w k) ≤ cutp n w k)
    (hray : ∀ c, ∑ a ∈ Finset.range n, ∑ b ∈ Finset.range n, w a b * (f a - f b) ^ 2 ≤
      2 * l * ∑ a ∈ Finset.range n, dg n w a * (f a - c) ^ 2)
    (hpos : ∀ c, 0 < ∑ a ∈ Finset.range n, dg n w a * (f a - c) ^ 2) : φ ^ 2 ≤ 2 * l := by
  have hdg : ∀ a, 0 ≤ dg n w a := fun a => Finset.sum_nonneg (fun b _ => hw a b)
  have hvmono : ∀ k j, k ≤ j → volp n w k ≤ volp n w j := by
    intro k j hkj
    apply Finset.sum_le_sum_of_subset_of_nonneg (Finset.range_subset_range.2 hkj)
    intro a _ _
    exact hdg a
  have hT : 0 ≤ volp n w n := Finset.sum_nonneg (fun a _ => hdg a)
  -- the median
  obtain ⟨m, hmn, hm1, hm2⟩ : ∃ m, m < n ∧ (∀ k ≤ m, volp n w k ≤ volp n w n - volp n w k) ∧
      (∀ k, m < k → volp n w n - volp n w k ≤ volp n w k) := by
    have hex : ∃ m, volp n w n / 2 ≤ volp n w (m + 1) :=
      ⟨n - 1, by rw [show n - 1 + 1 = n by omega]; linarith⟩
    classical
    refine ⟨Nat.find hex, ?_, ?_, ?_⟩
    · by_contra hge
      have : n - 1 < Nat.find hex := by omega
      have := Nat.find_min hex this
      rw [show n - 1 + 1 = n by omega] at this
      linarith
    · intro k hk
      rcases Nat.eq_zero_or_pos k with rfl | hk0
      · have : volp n w 0 = 0 := by simp [volp]
        linarith
      · have := Nat.find_min hex (show k - 1 < Nat.find hex by omega)
        rw [show k - 1 + 1 = k by omega] at this
        linarith
    · intro k hk
      have h1 := Nat.find_spec hex
      have h2 := hvmono (Nat.find hex + 1) k (by omega)
      linarith
  set y : Nat → ℝ := fun a => f a - f m with hy
  set x : Nat → ℝ := fun a => y a * |y a| with hx
  have hxa : ∀ k, k + 1 < n → x (k + 1) ≤ x k := by
    intro k hk
    exact signed_sq_mono (sub_le_sub_right (hf k hk) _)
  have hδ : ∀ k, 1 ≤ k → k < n → 0 ≤ x (k - 1) - x k := by
    intro k hk1 hk
    have := hxa (k - 1) (by omega)
    rw [show k - 1 + 1 = k by omega] at this
    linarith
  have hxm : x m = 0 := by simp [hx, hy]
  set G := ∑ a ∈ Finset.range n, dg n w a * (y a) ^ 2 with hG
  -- the total variation, by steps
  have hA : ∑ a ∈ Finset.range n, ∑ b ∈ Finset.range n, w a b * |x a - x b|
      = ∑ k ∈ Finset.Ico 1 n, (x (k - 1) - x k) * (2 * cutp n w k) := by
    have e : ∀ a ∈ Finset.range n, ∀ b ∈ Finset.range n, w a b * |x a - x b|
        = ∑ k ∈ Finset.Ico 1 n, (x (k - 1) - x k) * (w a b * between a b k) := by
      intro a ha b hb
      rw [abs_tele x hxa a b (Finset.mem_range.1 ha) (Finset.mem_range.1 hb), Finset.mul_sum]
      exact Finset.sum_congr rfl (fun k _ => by ring)
    rw [Finset.sum_congr rfl (fun a ha => Finset.sum_congr rfl (fun b hb => e a ha b hb))]
    have e2 : ∀ a ∈ Finset.range n, ∑ b ∈ Finset.range n, ∑ k ∈ Finset.Ico 1 n,
        (x (k - 1) - x k) * (w a b * between a b k)
        = ∑ k ∈ Finset.Ico 1 n, (x (k - 1) - x k) * ∑ b ∈ Finset.range n, w a b * between a b k := by
      intro a _
      rw [Finset.sum_comm]
      exact Finset.sum_congr rfl (fun k _ => by rw [Finset.mul_sum])
    rw [Finset.sum_congr rfl e2, Finset.sum_comm]
    apply Finset.sum_congr rfl
    intro k hk
    rw [← Finset.mul_sum, sum_between k (Finset.mem_Ico.1 hk).2.le hsym]
  -- the volume, by steps
  have hB : G = ∑ k ∈ Finset.Ico 1 n, (x (k - 1) - x k) *
      (if k ≤ m then volp n w k else volp n w n - volp n w k) := by
    have e : ∀ a ∈ Finset.range n, dg n w a * (y a) ^ 2
        = ∑ k ∈ Finset.Ico 1 n, (x (k - 1) - x k) * (dg n w a * between a m k) := by
      intro a ha
      have h1 : (y a) ^ 2 = |x a - x m| := by
        rw [hxm, sub_zero, hx]
        simp only
        rw [abs_mul, abs_abs, ← sq, sq_abs]
      rw [h1, abs_tele x hxa a m (Finset.mem_range.1 ha) hmn, Finset.mul_sum]
      exact Finset.sum_congr rfl (fun k _ => by ring)
    rw [hG, Finset.sum_congr rfl e, Finset.sum_comm]
    apply Finset.sum_congr rfl
    intro k hk
    rw [← Finset.mul_sum, sum_between_deg m k (Finset.mem_Ico.1 hk).2.le]
  have hlow : 2 * φ * G ≤ ∑ a ∈ Finset.range n, ∑ b ∈ Finset.range n, w a b * |x a - x b| := by
    rw [hA, hB, Finset.mul_sum]
    apply Finset.sum_le_sum
    intro k hk
    obtain ⟨hk1, hk2⟩ := Finset.mem_Ico.1 hk
    have h1 := hcut k hk1 hk2
    have h2 : (if k ≤ m then volp n w k else volp n w n - volp n w k)
        = min (volp n w k) (volp n w n - volp n w k) := by
      split_ifs with h
      · rw [min_eq_left (hm1 k h)]
      · rw [min_eq_right (hm2 k (by omega))]
    rw [h2]
    have := mul_le_mul_of_nonneg_left h1 (hδ k hk1 hk2)
    linarith
  have hup : ∑ a ∈ Finset.range n, ∑ b ∈ Finset.range n, w a b * |x a - x b|
      ≤ ∑ a ∈ Finset.range n, ∑ b ∈ Finset.range n, w a b * (|y a - y b| * (|y a| + |y b|)) := by
    apply Finset.sum_le_sum
    intro a _
    apply Finset.sum_le_sum
    intro b _
    exact mul_le_mul_of_nonneg_left (signed_sq_diff _ _) (hw a b)
  have hCS : (∑ a ∈ Finset.range n, ∑ b ∈ Finset.range n, w a b * (|y a - y b| * (|y a| + |y b|))) ^ 2
      ≤ (∑ a ∈ Finset.range n, ∑ b ∈ Finset.range n, w a b * (y a - y b) ^ 2) *
        (∑ a ∈ Finset.range n, ∑ b ∈ Finset.range n, w a b * (|y a| + |y b|) ^ 2) := by
    rw [← Finset.sum_product', ← Finset.sum_product', ← Finset.sum_product']
    apply Finset.sum_sq_le_sum_mul_sum_of_sq_le_mul
    · intro p _; exact mul_nonneg (hw _ _) (sq_nonneg _)
    · intro p _; exact mul_nonneg (hw _ _) (sq_nonneg _)
    · intro p _
      rw [← sq_abs (y p.1 - y p.2)]
      apply le_of_eq
      ring
  have hrow : ∀ g : Nat → ℝ, ∑ a ∈ Finset.range n, ∑ b ∈ Finset.range n, w a b * g a
      = ∑ a ∈ Finset.range n, dg n w a * g a := by
    intro g
    apply Finset.sum_congr rfl
    intro a _
    unfold dg
    rw [Finset.sum_mul]
  have hcol : ∀ g : Nat → ℝ, ∑ a ∈ Finset.range n, ∑ b ∈ Finset.range n, w a b * g b
      = ∑ a ∈ Finset.range n, dg n w a * g a := by
    intro g
    rw [← hrow, Finset.sum_comm]
    exact Finset.sum_congr rfl (fun a _ => Finset.sum_congr rfl (fun b _ => by rw [hsym]))
  have hBsum : ∑ a ∈ Finset.range n, ∑ b ∈ Finset.range n, w a b * (|y a| + |y b|) ^ 2 ≤ 4 * G := by
    have : ∑ a ∈ Finset.range n, ∑ b ∈ Finset.range n, w a b * (|y a| + |y b|) ^ 2
        ≤ ∑ a ∈ Finset.range n, ∑ b ∈ Finset.range n, (w a b * (2 * y a ^ 2) + w a b * (2 * y b ^ 2)) := by
      apply Finset.sum_le_sum
      intro a _
      apply Finset.sum_le_sum
      intro b _
      rw [← mul_add]
      apply mul_le_mul_of_nonneg_left _ (hw a b)
      have h1 := sq_abs (y a)
      have h2 := sq_abs (y b)
      nlinarith [sq_nonneg (|y a| - |y b|)]
    refine le_trans this ?_
    simp only [Finset.sum_add_distrib]
    rw [hrow (fun a => 2 * y a ^ 2), hcol (fun a => 2 * y a ^ 2), hG, Finset.mul_sum,
      ← Finset.sum_add_distrib]
    apply le_of_eq
    exact Finset.sum_congr rfl (fun a _ => by ring)
  have hGpos : 0 < G := hpos (f m)
  have hAsum : ∑ a ∈ Finset.range n, ∑ b ∈ Finset.range n, w a b * (y a - y b) ^ 2 ≤ 2 * l * G := by
    have := hray (f m)
    refine le_trans (le_of_eq ?_) this
    apply Finset.sum_congr rfl
    intro a _
    apply Finset.sum_congr rfl
    intro b _
    simp only [hy]
    ring
  have hA0 : 0 ≤ ∑ a ∈ Finset.range n, ∑ b ∈ Finset.range n, w a b * (y a - y b) ^ 2 :=
    Finset.sum_nonneg (fun a _ => Finset.sum_nonneg (fun b _ => mul_nonneg (hw a b) (sq_nonneg _)))
  have hlu := le_trans hlow hup
  have h3 : (2 * φ * G) ^ 2 ≤ (2 * l * G) * (4 * G) := by
    refine le_trans (pow_le_pow_left₀ (by positivity) hlu 2) (le_trans hCS ?_)
    apply mul_le_mul hAsum hBsum
    · exact Finset.sum_nonneg (fun a _ => Finset.sum_nonneg (fun b _ => mul_nonneg (hw a b) (sq_nonneg _)))
    · exact le_trans hA0 hAsum
  have h4 : (4 * G ^ 2) * φ ^ 2 ≤ (4 * G ^ 2) * (2 * l) := by nlinarith [h3]
  exact le_of_mul_le_mul_left h4 (by positivity)

end Cheeger

end Stag
