import Verif.Spec.Points
import Verif.Spec.Equitable
import Verif.Props.SbmRecovery
import Mathlib.Algebra.Order.BigOperators.Ring.Finset

/-!
# Graphs with two levels of weights are nearly equitable
-/

namespace Stag

open Finset

namespace WGraph
variable {s : WGraph ℝ} {k : Nat} {S : Nat → Nat} {t b μ : ℝ}

/-- The size of the group of a vertex. -/
noncomputable def grp (s : WGraph ℝ) (S : Nat → Nat) (u : Nat) : ℝ := ((KMeans.cluster s.n S (S u)).card : ℝ)

theorem mem_cluster {n : Nat} {S : Nat → Nat} {i v : Nat} : v ∈ KMeans.cluster n S i ↔ v < n ∧ S v = i := by
  unfold KMeans.cluster
  rw [mem_filter, mem_range]

theorem TwoLevel.grp_ge (h : s.TwoLevel k S t b μ) {u : Nat} (hu : u < s.n) : μ ≤ grp s S u := h.size _ (h.label u hu)

theorem grp_pos {u : Nat} (hu : u < s.n) : 1 ≤ grp s S u := by
  unfold grp
  have : 0 < (KMeans.cluster s.n S (S u)).card := card_pos.2 ⟨u, mem_cluster.2 ⟨hu, rfl⟩⟩
  exact_mod_cast this

theorem TwoLevel.deg (h : s.TwoLevel k S t b μ) (hb : 0 ≤ b) {u : Nat} (hu : u < s.n) :
    grp s S u * t + 1 ≤ s.deg u ∧ s.deg u ≤ grp s S u + 1 + s.n * b := by
  unfold WGraph.deg
  rw [h.loop u hu]
  have hsplit := Finset.sum_filter_add_sum_filter_not (range s.n) (fun v => S v = S u) (fun v => s.w u v)
  have h1 : grp s S u * t ≤ ∑ v ∈ (range s.n).filter (fun v => S v = S u), s.w u v := by
    have := Finset.card_nsmul_le_sum ((range s.n).filter (fun v => S v = S u)) (fun v => s.w u v) t (fun v hv => by
      obtain ⟨hv, hs⟩ := mem_filter.1 hv
      exact (h.within u hu v (mem_range.1 hv) hs.symm).1)
    rw [nsmul_eq_mul] at this
    exact this
  have h2 : ∑ v ∈ (range s.n).filter (fun v => S v = S u), s.w u v ≤ grp s S u * 1 := by
    have := Finset.sum_le_card_nsmul ((range s.n).filter (fun v => S v = S u)) (fun v => s.w u v) 1 (fun v hv => by
      obtain ⟨hv, hs⟩ := mem_filter.1 hv
      exact (h.within u hu v (mem_range.1 hv) hs.symm).2)
    rw [nsmul_eq_mul] at this
    exact this
  have h3 : 0 ≤ ∑ v ∈ (range s.n).filter (fun v => ¬ S v = S u), s.w u v :=
    Finset.sum_nonneg fun v hv => by
      obtain ⟨hv, hs⟩ := mem_filter.1 hv
      exact (h.between u hu v (mem_range.1 hv) (Ne.symm hs)).1
  have h4 : ∑ v ∈ (range s.n).filter (fun v => ¬ S v = S u), s.w u v ≤ s.n * b := by
    have := Finset.sum_le_card_nsmul ((range s.n).filter (fun v => ¬ S v = S u)) (fun v => s.w u v) b (fun v hv => by
      obtain ⟨hv, hs⟩ := mem_filter.1 hv
      exact (h.between u hu v (mem_range.1 hv) (Ne.symm hs)).2)
    rw [nsmul_eq_mul] at this
    refine this.trans (mul_le_mul_of_nonneg_right ?_ hb)
    have := (card_filter_le (range s.n) (fun v => ¬ S v = S u)).trans_eq (card_range _)
    exact_mod_cast this
  constructor <;> linarith

/-- The normalised weight of a pair. -/
noncomputable def nw (s : WGraph ℝ) (u v : Nat) : ℝ := s.w u v / (Real.sqrt (s.deg u) * Real.sqrt (s.deg v))

theorem sqrt_mul_bounds {x y lo hi : ℝ} (hlo : 0 ≤ lo) (hx : lo ≤ x ∧ x ≤ hi) (hy : lo ≤ y ∧ y ≤ hi) :
    lo ≤ Real.sqrt x * Real.sqrt y ∧ Real.sqrt x * Real.sqrt y ≤ hi := by
  have hhi : 0 ≤ hi := hlo.trans (hx.1.trans hx.2)
  constructor
  · calc lo = Real.sqrt lo * Real.sqrt lo := (Real.mul_self_sqrt hlo).symm
      _ ≤ _ := mul_le_mul (Real.sqrt_le_sqrt hx.1) (Real.sqrt_le_sqrt hy.1) (Real.sqrt_nonneg _) (Real.sqrt_nonneg _)
  · calc Real.sqrt x * Real.sqrt y ≤ Real.sqrt hi * Real.sqrt hi :=
        mul_le_mul (Real.sqrt_le_sqrt hx.2) (Real.sqrt_le_sqrt hy.2) (Real.sqrt_nonneg _) (Real.sqrt_nonneg _)
      _ = hi := Real.mul_self_sqrt hhi

theorem TwoLevel.within_nw (h : s.TwoLevel k S t b μ) (ht : 0 < t) (hb : 0 ≤ b) {u v : Nat} (hu : u < s.n) (hv : v < s.n)
    (huv : S u = S v) :
    t / (grp s S u + 1 + s.n * b) ≤ nw s u v ∧ nw s u v ≤ 1 / (grp s S u * t + 1) := by
  have hg : grp s S v = grp s S u := by unfold grp; rw [huv]
  have hgp := grp_pos (S := S) hu
  have hdu := h.deg hb hu
  have hdv := h.deg hb hv
  rw [hg] at hdv
  have hlo : 0 < grp s S u * t + 1 := by positivity
  obtain ⟨q1, q2⟩ := sqrt_mul_bounds hlo.le hdu hdv
  have hw := h.within u hu v hv huv
  unfold nw
  constructor
  · exact div_le_div₀ (ht.le.trans hw.1) hw.1 (hlo.trans_le q1) q2
  · exact div_le_div₀ zero_le_one hw.2 hlo q1

theorem TwoLevel.between_nw (h : s.TwoLevel k S t b μ) (ht : 0 < t) (hb : 0 ≤ b) {u v : Nat} (hu : u < s.n) (hv : v < s.n)
    (huv : S u ≠ S v) :
    0 ≤ nw s u v ∧ nw s u v ≤ b / t * (1 / Real.sqrt (grp s S u) * (1 / Real.sqrt (grp s S v))) := by
  have hw := h.between u hu v hv huv
  have hsq : ∀ x, x < s.n → 0 < Real.sqrt t * Real.sqrt (grp s S x) ∧
      Real.sqrt t * Real.sqrt (grp s S x) ≤ Real.sqrt (s.deg x) := by
    intro x hx
    have hp := grp_pos (S := S) hx
    refine ⟨mul_pos (Real.sqrt_pos.2 ht) (Real.sqrt_pos.2 (by linarith)), ?_⟩
    rw [← Real.sqrt_mul ht.le]
    apply Real.sqrt_le_sqrt
    have := (h.deg hb hx).1
    linarith
  obtain ⟨a1, a2⟩ := hsq u hu
  obtain ⟨b1, b2⟩ := hsq v hv
  unfold nw
  refine ⟨div_nonneg hw.1 (mul_nonneg (Real.sqrt_nonneg _) (Real.sqrt_nonneg _)), ?_⟩
  calc s.w u v / (Real.sqrt (s.deg u) * Real.sqrt (s.deg v))
      ≤ b / ((Real.sqrt t * Real.sqrt (grp s S u)) * (Real.sqrt t * Real.sqrt (grp s S v))) :=
        div_le_div₀ hb hw.2 (mul_pos a1 b1) (mul_le_mul a2 b2 b1.le (Real.sqrt_nonneg _))
    _ = b / t * (1 / Real.sqrt (grp s S u) * (1 / Real.sqrt (grp s S v))) := by
        have e : Real.sqrt t * Real.sqrt (grp s S u) * (Real.sqrt t * Real.sqrt (grp s S v)) =
            t * (Real.sqrt (grp s S u) * Real.sqrt (grp s S v)) := by
          have := Real.mul_self_sqrt ht.le
          linear_combination (Real.sqrt (grp s S u) * Real.sqrt (grp s S v)) * this
        rw [e, div_mul_eq_div_div, div_eq_mul_one_div (b / t), ← one_div_mul_one_div]

/-- The pure inequality behind the spread. -/
theorem spread_ineq {m t x y : ℝ} (hm : 1 ≤ m) (ht : 0 < t) (ht1 : t ≤ 1) (hx : 0 ≤ x) (hy : x / m ≤ y) :
    m * (1 / (m * t + 1)) - m * (t / (m + 1 + x)) ≤ (1 - t ^ 2 + y) / t := by
  have h1 : 0 < m * t + 1 := by positivity
  have h2 : 0 < m + 1 + x := by positivity
  have hm0 : 0 < m := by linarith
  have hxm : x ≤ y * m := by rwa [div_le_iff₀ hm0] at hy
  have e : m * (1 / (m * t + 1)) - m * (t / (m + 1 + x)) =
      m * (m * (1 - t ^ 2) + (1 - t) + x) / ((m * t + 1) * (m + 1 + x)) := by
    field_simp
    ring
  rw [e, div_le_div_iff₀ (by positivity) ht]
  have hy0 : 0 ≤ y := le_trans (by positivity) hy
  have ht2 : 0 ≤ 1 - t ^ 2 := by nlinarith
  have k1 : m * (1 - t ^ 2) + (1 - t) + x ≤ (1 - t ^ 2 + y) * (m + 1 + x) := by
    have : 1 - t ≤ 1 - t ^ 2 := by nlinarith
    nlinarith [mul_nonneg ht2 hx, mul_nonneg hy0 hx]
  have k2 : m * t ≤ m * t + 1 := by linarith
  have k3 : 0 ≤ m * (1 - t ^ 2) + (1 - t) + x := by
    have : 0 ≤ m * (1 - t ^ 2) := mul_nonneg hm0.le ht2
    linarith
  calc m * (m * (1 - t ^ 2) + (1 - t) + x) * t = (m * t) * (m * (1 - t ^ 2) + (1 - t) + x) := by ring
    _ ≤ (m * t + 1) * ((1 - t ^ 2 + y) * (m + 1 + x)) := mul_le_mul k2 k1 k3 h1.le
    _ = (1 - t ^ 2 + y) * ((m * t + 1) * (m + 1 + x)) := by ring

theorem TwoLevel.spread (h : s.TwoLevel k S t b μ) (ht : 0 < t) (ht1 : t ≤ 1) (hb : 0 ≤ b) (hμ : 1 ≤ μ) {u : Nat}
    (hu : u < s.n) :
    grp s S u * (1 / (grp s S u * t + 1)) - grp s S u * (t / (grp s S u + 1 + s.n * b)) ≤ groupSpread s.n t b μ := by
  have hg := h.grp_ge hu
  refine spread_ineq (grp_pos hu) ht ht1 (by positivity) ?_
  exact div_le_div_of_nonneg_left (by positivity) (by linarith) hg

/-- The numbers the normalised weights are compared with. -/
noncomputable def level (s : WGraph ℝ) (S : Nat → Nat) (t b : ℝ) (c i : Nat) : ℝ :=
  if c = i then ((KMeans.cluster s.n S c).card : ℝ) * (t / ((KMeans.cluster s.n S c).card + 1 + s.n * b)) else 0

theorem sum_group (f : Nat → ℝ) (h : ∀ u < s.n, S u < k) :
    ∑ i ∈ range k, ∑ u ∈ KMeans.cluster s.n S i, f u = ∑ u ∈ range s.n, f u := by
  unfold KMeans.cluster
  exact Finset.sum_fiberwise_of_maps_to (fun u hu => mem_range.2 (h u (mem_range.1 hu))) f

theorem sum_inv_grp (h : ∀ u < s.n, S u < k) (hS : ∀ i < k, ∃ u < s.n, S u = i) :
    ∑ u ∈ range s.n, 1 / grp s S u = k := by
  rw [← sum_group (fun u => 1 / grp s S u) h]
  have : ∀ i ∈ range k, ∑ u ∈ KMeans.cluster s.n S i, 1 / grp s S u = 1 := by
    intro i hi
    have hc : ∀ u ∈ KMeans.cluster s.n S i, 1 / grp s S u = 1 / ((KMeans.cluster s.n S i).card : ℝ) := by
      intro u hu
      unfold grp
      rw [(mem_cluster.1 hu).2]
    rw [Finset.sum_congr rfl hc, Finset.sum_const, nsmul_eq_mul]
    obtain ⟨u, hu, hui⟩ := hS i (mem_range.1 hi)
    have : ((KMeans.cluster s.n S i).card : ℝ) ≠ 0 := by
      have : 0 < (KMeans.cluster s.n S i).card := card_pos.2 ⟨u, mem_cluster.2 ⟨hu, hui⟩⟩
      exact_mod_cast this.ne'
    field_simp
  rw [Finset.sum_congr rfl this]
  simp

theorem TwoLevel.unevenness_le (h : s.TwoLevel k S t b μ) (ht : 0 < t) (ht1 : t ≤ 1) (hb : 0 ≤ b) (hμ : 1 ≤ μ)
    (hS : ∀ i < k, ∃ u < s.n, S u = i) :
    s.unevenness k S (level s S t b) ≤ k * (groupSpread s.n t b μ ^ 2 + k * b ^ 2 / t ^ 2) := by
  have hterm : ∀ i < k, ∀ u < s.n, (s.normWeight u (KMeans.cluster s.n S i) - level s S t b (S u) i) ^ 2 /
      ((KMeans.cluster s.n S i).card : ℝ) ≤
      (if S u = i then groupSpread s.n t b μ ^ 2 * (1 / grp s S u) else 0) + b ^ 2 / t ^ 2 * (1 / grp s S u) := by
    intro i hi u hu
    have hgp := grp_pos (S := S) hu
    have hg0 : 0 < grp s S u := by linarith
    by_cases hui : S u = i
    · subst hui
      rw [if_pos rfl]
      have hnw : s.normWeight u (KMeans.cluster s.n S (S u)) = ∑ v ∈ KMeans.cluster s.n S (S u), nw s u v := rfl
      have hlev : level s S t b (S u) (S u) = grp s S u * (t / (grp s S u + 1 + s.n * b)) := by
        unfold level grp; rw [if_pos rfl]
      have l1 : grp s S u * (t / (grp s S u + 1 + s.n * b)) ≤ ∑ v ∈ KMeans.cluster s.n S (S u), nw s u v := by
        have := Finset.card_nsmul_le_sum (KMeans.cluster s.n S (S u)) (fun v => nw s u v) (t / (grp s S u + 1 + s.n * b))
          (fun v hv => (h.within_nw ht hb hu (mem_cluster.1 hv).1 (mem_cluster.1 hv).2.symm).1)
        rwa [nsmul_eq_mul] at this
      have l2 : ∑ v ∈ KMeans.cluster s.n S (S u), nw s u v ≤ grp s S u * (1 / (grp s S u * t + 1)) := by
        have := Finset.sum_le_card_nsmul (KMeans.cluster s.n S (S u)) (fun v => nw s u v) (1 / (grp s S u * t + 1))
          (fun v hv => (h.within_nw ht hb hu (mem_cluster.1 hv).1 (mem_cluster.1 hv).2.symm).2)
        rwa [nsmul_eq_mul] at this
      have hsp := h.spread ht ht1 hb hμ hu
      rw [hnw, hlev]
      have hsq : (∑ v ∈ KMeans.cluster s.n S (S u), nw s u v - grp s S u * (t / (grp s S u + 1 + s.n * b))) ^ 2 ≤
          groupSpread s.n t b μ ^ 2 := pow_le_pow_left₀ (by linarith) (by linarith) 2
      have : (0 : ℝ) ≤ b ^ 2 / t ^ 2 * (1 / grp s S u) := by positivity
      change _ / grp s S u ≤ _
      calc _ ≤ groupSpread s.n t b μ ^ 2 / grp s S u := div_le_div_of_nonneg_right hsq hg0.le
        _ = groupSpread s.n t b μ ^ 2 * (1 / grp s S u) := by ring
        _ ≤ _ := by linarith
    · rw [if_neg hui, zero_add]
      have hlev : level s S t b (S u) i = 0 := by unfold level; rw [if_neg hui]
      obtain ⟨v₀, hv₀, hvi⟩ := hS i hi
      obtain ⟨m, hm⟩ : ∃ m : ℝ, m = ((KMeans.cluster s.n S i).card : ℝ) := ⟨_, rfl⟩
      have hm0 : 0 < m := by
        have : 0 < (KMeans.cluster s.n S i).card := card_pos.2 ⟨v₀, mem_cluster.2 ⟨hv₀, hvi⟩⟩
        rw [hm]; exact_mod_cast this
      have hgm : ∀ v ∈ KMeans.cluster s.n S i, grp s S v = m := by
        intro v hv
        unfold grp
        rw [(mem_cluster.1 hv).2, hm]
      have l1 : 0 ≤ ∑ v ∈ KMeans.cluster s.n S i, nw s u v :=
        Finset.sum_nonneg fun v hv => (h.between_nw ht hb hu (mem_cluster.1 hv).1
          (by rw [(mem_cluster.1 hv).2]; exact hui)).1
      have l2 : ∑ v ∈ KMeans.cluster s.n S i, nw s u v ≤ m * (b / t * (1 / Real.sqrt (grp s S u) * (1 / Real.sqrt m))) := by
        have := Finset.sum_le_card_nsmul (KMeans.cluster s.n S i) (fun v => nw s u v)
          (b / t * (1 / Real.sqrt (grp s S u) * (1 / Real.sqrt m)))
          (fun v hv => by
            have := (h.between_nw ht hb hu (mem_cluster.1 hv).1 (by rw [(mem_cluster.1 hv).2]; exact hui)).2
            rwa [hgm v hv] at this)
        rwa [nsmul_eq_mul, ← hm] at this
      have hnw : s.normWeight u (KMeans.cluster s.n S i) = ∑ v ∈ KMeans.cluster s.n S i, nw s u v := rfl
      rw [hlev, sub_zero, hnw, ← hm]
      have hsq := pow_le_pow_left₀ l1 l2 2
      have e : (m * (b / t * (1 / Real.sqrt (grp s S u) * (1 / Real.sqrt m)))) ^ 2 = m * (b ^ 2 / t ^ 2 * (1 / grp s S u)) := by
        have e1 : (1 / Real.sqrt (grp s S u)) ^ 2 = 1 / grp s S u := by rw [div_pow, one_pow, Real.sq_sqrt hg0.le]
        have e2 : (1 / Real.sqrt m) ^ 2 = 1 / m := by rw [div_pow, one_pow, Real.sq_sqrt hm0.le]
        rw [mul_pow, mul_pow, mul_pow, e1, e2]
        field_simp
      rw [e] at hsq
      rw [div_le_iff₀ hm0]
      linarith
  unfold unevenness
  calc ∑ i ∈ range k, ∑ u ∈ range s.n, (s.normWeight u (KMeans.cluster s.n S i) - level s S t b (S u) i) ^ 2 /
      ((KMeans.cluster s.n S i).card : ℝ)
      ≤ ∑ i ∈ range k, ∑ u ∈ range s.n, ((if S u = i then groupSpread s.n t b μ ^ 2 * (1 / grp s S u) else 0) +
          b ^ 2 / t ^ 2 * (1 / grp s S u)) :=
        Finset.sum_le_sum fun i hi => Finset.sum_le_sum fun u hu => hterm i (mem_range.1 hi) u (mem_range.1 hu)
    _ = ∑ u ∈ range s.n, groupSpread s.n t b μ ^ 2 * (1 / grp s S u) +
        ∑ i ∈ range k, b ^ 2 / t ^ 2 * ∑ u ∈ range s.n, 1 / grp s S u := by
        simp only [Finset.sum_add_distrib, Finset.mul_sum]
        congr 1
        rw [Finset.sum_comm]
        refine Finset.sum_congr rfl fun u hu => ?_
        rw [Finset.sum_ite_eq, if_pos (mem_range.2 (h.label u (mem_range.1 hu)))]
    _ = k * (groupSpread s.n t b μ ^ 2 + k * b ^ 2 / t ^ 2) := by
        rw [← Finset.mul_sum, sum_inv_grp h.label hS, Finset.sum_const, card_range, nsmul_eq_mul]
        ring

theorem TwoLevel.strength (h : s.TwoLevel k S t b μ) (ht : 0 < t) (hb : 0 ≤ b) (hμ : 1 ≤ μ) :
    Strength s.n k S (level s S t b) (t / (2 + s.n * b / μ)) := by
  intro y
  rw [Finset.mul_sum]
  refine Finset.sum_le_sum fun i hi => ?_
  have hm := h.size i (mem_range.1 hi)
  obtain ⟨m, hmd⟩ : ∃ m : ℝ, m = ((KMeans.cluster s.n S i).card : ℝ) := ⟨_, rfl⟩
  have hsum : ∑ c ∈ range k, level s S t b c i *
      Real.sqrt ((KMeans.cluster s.n S c).card / (KMeans.cluster s.n S i).card) * (y i * y c) =
      m * (t / (m + 1 + s.n * b)) * y i ^ 2 := by
    rw [Finset.sum_eq_single i]
    · unfold level
      rw [if_pos rfl, ← hmd, div_self (by rw [← hmd] at hm; linarith), Real.sqrt_one]
      ring
    · intro c _ hc
      unfold level
      rw [if_neg hc]
      ring
    · intro hc; exact absurd hi hc
  rw [hsum]
  refine mul_le_mul_of_nonneg_right ?_ (sq_nonneg _)
  rw [← hmd] at hm
  have hm0 : 0 < m := by linarith
  have hx : 0 ≤ s.n * b := by positivity
  have hden : 0 < 2 + s.n * b / μ := by positivity
  rw [← mul_div_assoc, div_le_div_iff₀ hden (by positivity)]
  have k1 : s.n * b / m ≤ s.n * b / μ := div_le_div_of_nonneg_left hx (by linarith) hm
  have k2 : m * (s.n * b / m) = s.n * b := by field_simp
  have k3 : m * (s.n * b / m) ≤ m * (s.n * b / μ) := mul_le_mul_of_nonneg_left k1 hm0.le
  nlinarith [mul_le_mul_of_nonneg_left k3 ht.le]

theorem TwoLevel.test (h : s.TwoLevel k S t b μ) (ht : 0 < t) (ht1 : t ≤ 1) (hb : 0 ≤ b) (hμ : 1 ≤ μ)
    (hS : ∀ i < k, ∃ u < s.n, S u = i) (x : Nat → ℝ)
    (hx : ∀ i < k, dot s.n (fun u => if S u = i then 1 else 0) x = 0) :
    (1 - groupSpread s.n t b μ - k * b / t) * dot s.n x x ≤ quadForm s.n (matrixOf s .normalisedLaplacian) x := by
  rw [quadForm_matrix]
  obtain ⟨δ, hδ⟩ : ∃ δ, δ = groupSpread s.n t b μ := ⟨_, rfl⟩
  obtain ⟨n, hn⟩ : ∃ n, n = s.n := ⟨_, rfl⟩
  have hnw : ∑ u ∈ range s.n, ∑ v ∈ range s.n, s.w u v * (x u / Real.sqrt (s.deg u) * (x v / Real.sqrt (s.deg v))) =
      ∑ u ∈ range s.n, ∑ v ∈ range s.n, nw s u v * (x u * x v) := by
    refine Finset.sum_congr rfl fun u _ => Finset.sum_congr rfl fun v _ => ?_
    unfold nw
    ring
  rw [hnw]
  have hgz : ∀ u < s.n, ∑ v ∈ range s.n, (if S u = S v then x v else 0) = 0 := by
    intro u hu
    have := hx (S u) (h.label u hu)
    unfold dot at this
    refine Eq.trans ?_ this
    refine Finset.sum_congr rfl fun v _ => ?_
    beta_reduce
    by_cases hc : S u = S v
    · rw [if_pos hc, if_pos hc.symm, one_mul]
    · rw [if_neg hc, if_neg (Ne.symm hc), zero_mul]
  -- subtract the constant part in the groups
  have hshift : ∑ u ∈ range s.n, ∑ v ∈ range s.n, nw s u v * (x u * x v) =
      ∑ u ∈ range s.n, ∑ v ∈ range s.n,
        (nw s u v - (if S u = S v then t / (grp s S u + 1 + s.n * b) else 0)) * (x u * x v) := by
    refine Finset.sum_congr rfl fun u hu => ?_
    have : ∑ v ∈ range s.n, (if S u = S v then t / (grp s S u + 1 + s.n * b) else 0) * (x u * x v) = 0 := by
      have e : ∀ v ∈ range s.n, (if S u = S v then t / (grp s S u + 1 + s.n * b) else 0) * (x u * x v) =
          t / (grp s S u + 1 + s.n * b) * x u * (if S u = S v then x v else 0) := by
        intro v _
        split_ifs <;> ring
      rw [Finset.sum_congr rfl e, ← Finset.mul_sum, hgz u (mem_range.1 hu), mul_zero]
    simp only [sub_mul, Finset.sum_sub_distrib, this, sub_zero]
  rw [hshift]
  have hδ0 : ∀ u < s.n, 0 ≤ δ := by
    intro u hu
    rw [hδ]
    unfold groupSpread
    have : 0 ≤ 1 - t ^ 2 := by nlinarith
    have : 0 ≤ s.n * b / μ := by positivity
    positivity
  have hpair : ∀ u < s.n, ∀ v < s.n,
      (nw s u v - (if S u = S v then t / (grp s S u + 1 + s.n * b) else 0)) * (x u * x v) ≤
      (if S u = S v then δ / 2 * (1 / grp s S u) * (x u ^ 2 + x v ^ 2) else 0) +
        b / t * ((|x u| / Real.sqrt (grp s S u)) * (|x v| / Real.sqrt (grp s S v))) := by
    intro u hu v hv
    have hgu := grp_pos (S := S) hu
    have hg0 : 0 < grp s S u := by linarith
    have habs : x u * x v ≤ |x u| * |x v| := by rw [← abs_mul]; exact le_abs_self _
    have hb2 : 0 ≤ b / t * ((|x u| / Real.sqrt (grp s S u)) * (|x v| / Real.sqrt (grp s S v))) := by positivity
    by_cases hc : S u = S v
    · rw [if_pos hc, if_pos hc]
      obtain ⟨w1, w2⟩ := h.within_nw ht hb hu hv hc
      have hsp := h.spread ht ht1 hb hμ hu
      rw [← hδ] at hsp
      have hd : nw s u v - t / (grp s S u + 1 + s.n * b) ≤ δ * (1 / grp s S u) := by
        rw [mul_one_div, le_div_iff₀ hg0]
        have := mul_le_mul_of_nonneg_left w2 hg0.le
        nlinarith
      have ham : |x u| * |x v| ≤ (x u ^ 2 + x v ^ 2) / 2 := by
        nlinarith [sq_nonneg (|x u| - |x v|), sq_abs (x u), sq_abs (x v)]
      have hd0 : 0 ≤ δ * (1 / grp s S u) := mul_nonneg (hδ0 u hu) (by positivity)
      calc (nw s u v - t / (grp s S u + 1 + s.n * b)) * (x u * x v)
          ≤ (nw s u v - t / (grp s S u + 1 + s.n * b)) * (|x u| * |x v|) := mul_le_mul_of_nonneg_left habs (by linarith)
        _ ≤ δ * (1 / grp s S u) * (|x u| * |x v|) := mul_le_mul_of_nonneg_right hd (by positivity)
        _ ≤ δ * (1 / grp s S u) * ((x u ^ 2 + x v ^ 2) / 2) := mul_le_mul_of_nonneg_left ham hd0
        _ = δ / 2 * (1 / grp s S u) * (x u ^ 2 + x v ^ 2) := by ring
        _ ≤ _ := by linarith
    · rw [if_neg hc, if_neg hc, sub_zero, zero_add]
      obtain ⟨w1, w2⟩ := h.between_nw ht hb hu hv hc
      calc nw s u v * (x u * x v) ≤ nw s u v * (|x u| * |x v|) := mul_le_mul_of_nonneg_left habs w1
        _ ≤ b / t * (1 / Real.sqrt (grp s S u) * (1 / Real.sqrt (grp s S v))) * (|x u| * |x v|) :=
          mul_le_mul_of_nonneg_right w2 (by positivity)
        _ = _ := by ring
  have htotal : ∑ u ∈ range s.n, ∑ v ∈ range s.n,
        (nw s u v - (if S u = S v then t / (grp s S u + 1 + s.n * b) else 0)) * (x u * x v) ≤
      δ * dot s.n x x + k * b / t * dot s.n x x := by
    refine (Finset.sum_le_sum fun u hu => Finset.sum_le_sum fun v hv => hpair u (mem_range.1 hu) v (mem_range.1 hv)).trans ?_
    simp only [Finset.sum_add_distrib]
    refine add_le_add ?_ ?_
    · -- the pairs in a group
      have hcard : ∀ u < s.n, ∑ v ∈ range s.n, (if S u = S v then (1 : ℝ) else 0) = grp s S u := by
        intro u _
        unfold grp KMeans.cluster
        rw [Finset.sum_boole]
        congr 2
        apply Finset.filter_congr
        intro v _
        exact eq_comm
      have e1 : ∑ u ∈ range s.n, ∑ v ∈ range s.n, (if S u = S v then δ / 2 * (1 / grp s S u) * (x u ^ 2 + x v ^ 2) else 0) =
          ∑ u ∈ range s.n, δ / 2 * x u ^ 2 + ∑ v ∈ range s.n, δ / 2 * x v ^ 2 := by
        have : ∀ u ∈ range s.n, ∀ v ∈ range s.n, (if S u = S v then δ / 2 * (1 / grp s S u) * (x u ^ 2 + x v ^ 2) else 0) =
            δ / 2 * x u ^ 2 * (1 / grp s S u) * (if S u = S v then 1 else 0) +
            δ / 2 * x v ^ 2 * (1 / grp s S v) * (if S v = S u then 1 else 0) := by
          intro u _ v _
          by_cases hc : S u = S v
          · have : grp s S v = grp s S u := by unfold grp; rw [hc]
            rw [if_pos hc, if_pos hc, if_pos hc.symm, this]; ring
          · rw [if_neg hc, if_neg hc, if_neg (Ne.symm hc)]; ring
        rw [Finset.sum_congr rfl fun u hu => Finset.sum_congr rfl (this u hu)]
        simp only [Finset.sum_add_distrib]
        have e2 : ∀ u ∈ range s.n, ∑ v ∈ range s.n, δ / 2 * x u ^ 2 * (1 / grp s S u) * (if S u = S v then (1 : ℝ) else 0) =
            δ / 2 * x u ^ 2 := by
          intro u hu
          rw [← Finset.mul_sum, hcard u (mem_range.1 hu), mul_assoc, one_div,
            inv_mul_cancel₀ (by have := grp_pos (S := S) (mem_range.1 hu); linarith), mul_one]
        rw [Finset.sum_congr rfl e2]
        congr 1
        rw [Finset.sum_comm]
        exact Finset.sum_congr rfl e2
      rw [e1]
      unfold dot
      rw [← Finset.sum_add_distrib, Finset.mul_sum]
      refine (Finset.sum_congr rfl fun u _ => ?_).le
      ring
    · have e1 : ∑ u ∈ range s.n, ∑ v ∈ range s.n,
          b / t * ((|x u| / Real.sqrt (grp s S u)) * (|x v| / Real.sqrt (grp s S v))) =
          b / t * (∑ u ∈ range s.n, |x u| * (1 / Real.sqrt (grp s S u))) ^ 2 := by
        rw [sq, Finset.sum_mul_sum, Finset.mul_sum]
        refine Finset.sum_congr rfl fun u _ => ?_
        rw [Finset.mul_sum]
        refine Finset.sum_congr rfl fun v _ => ?_
        ring
      rw [e1]
      have hcs := Finset.sum_mul_sq_le_sq_mul_sq (range s.n) (fun u => |x u|) (fun u => 1 / Real.sqrt (grp s S u))
      have e2 : ∑ u ∈ range s.n, (1 / Real.sqrt (grp s S u)) ^ 2 = (k : ℝ) := by
        rw [← sum_inv_grp h.label hS]
        refine Finset.sum_congr rfl fun u hu => ?_
        rw [div_pow, one_pow, Real.sq_sqrt (by have := grp_pos (S := S) (mem_range.1 hu); linarith)]
      have e3 : ∑ u ∈ range s.n, |x u| ^ 2 = dot s.n x x := by
        unfold dot
        refine Finset.sum_congr rfl fun u _ => ?_
        rw [sq_abs, sq]
      rw [e2, e3] at hcs
      calc b / t * (∑ u ∈ range s.n, |x u| * (1 / Real.sqrt (grp s S u))) ^ 2 ≤ b / t * (dot s.n x x * k) :=
            mul_le_mul_of_nonneg_left hcs (by positivity)
        _ = k * b / t * dot s.n x x := by ring
  rw [← hδ]
  linarith

end WGraph
end Stag
