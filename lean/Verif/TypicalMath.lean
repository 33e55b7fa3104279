import Verif.Spec.Typical
import Verif.EquitableMath

/-!
# Typical graphs are nearly equitable
-/

namespace Stag
namespace Recovery

open Finset

/-- The form of a symmetric matrix whose square has small entries. -/
theorem form_le {n : Nat} {X : Nat → Nat → ℝ} (hsym : ∀ u < n, ∀ v < n, X u v = X v u) (t : ℝ) (ht : 0 ≤ t)
    (h1 : ∀ u < n, ∑ x ∈ range n, X u x ^ 2 ≤ n)
    (h2 : ∀ u < n, ∀ v < n, u ≠ v → |∑ x ∈ range n, X u x * X x v| ≤ t) (y : Nat → ℝ) :
    quadForm n X y ≤ Real.sqrt (n * (1 + t)) * dot n y y := by
  have hsq : dot n (mulv n X y) (mulv n X y) ≤ (n * (1 + t)) * dot n y y := by
    rw [mulv_symm hsym]
    have e : ∀ u, mulv n X (mulv n X y) u = ∑ v ∈ range n, (∑ x ∈ range n, X u x * X x v) * y v := by
      intro u
      unfold mulv
      simp_rw [Finset.mul_sum, Finset.sum_mul]
      rw [Finset.sum_comm]
      exact Finset.sum_congr rfl fun x _ => Finset.sum_congr rfl fun v _ => by ring
    have hle : dot n y (mulv n X (mulv n X y))
        ≤ ∑ u ∈ range n, ∑ v ∈ range n, (if u = v then (n : ℝ) else t) * ((y u ^ 2 + y v ^ 2) / 2) := by
      unfold dot
      refine Finset.sum_le_sum fun u hu => ?_
      rw [e, Finset.mul_sum]
      refine Finset.sum_le_sum fun v hv => ?_
      have hu' := mem_range.1 hu
      have hv' := mem_range.1 hv
      by_cases huv : u = v
      · subst huv
        rw [if_pos rfl]
        have h3 := h1 u hu'
        have e2 : ∑ x ∈ range n, X u x * X x u = ∑ x ∈ range n, X u x ^ 2 :=
          Finset.sum_congr rfl fun x hx => by rw [hsym x (mem_range.1 hx) u hu', sq]
        rw [e2]
        nlinarith [sq_nonneg (y u)]
      · rw [if_neg huv]
        have h3 := abs_le.1 (h2 u hu' v hv' huv)
        obtain ⟨z, hz⟩ : ∃ z, z = ∑ x ∈ range n, X u x * X x v := ⟨_, rfl⟩
        rw [← hz] at h3 ⊢
        nlinarith [mul_nonneg (sub_nonneg.2 h3.1) (sq_nonneg (y u - y v)),
          mul_nonneg (sub_nonneg.2 h3.2) (sq_nonneg (y u + y v)),
          mul_nonneg (sub_nonneg.2 h3.2) (sq_nonneg (y u - y v)),
          mul_nonneg (sub_nonneg.2 h3.1) (sq_nonneg (y u + y v))]
    refine le_trans hle ?_
    have hC : ∀ u ∈ range n, ∑ v ∈ range n, (if u = v then (n : ℝ) else t) ≤ n * (1 + t) := by
      intro u hu
      have : ∀ v ∈ range n, (if u = v then (n : ℝ) else t) ≤ (if u = v then (n : ℝ) else 0) + t := by
        intro v _
        split_ifs <;> linarith
      refine le_trans (Finset.sum_le_sum this) ?_
      rw [Finset.sum_add_distrib, Finset.sum_ite_eq, if_pos hu]
      simp
      linarith
    have e3 : ∑ u ∈ range n, ∑ v ∈ range n, (if u = v then (n : ℝ) else t) * ((y u ^ 2 + y v ^ 2) / 2)
        = ∑ u ∈ range n, y u ^ 2 * ∑ v ∈ range n, (if u = v then (n : ℝ) else t) := by
      have e4 : ∑ u ∈ range n, ∑ v ∈ range n, (if u = v then (n : ℝ) else t) * (y v ^ 2 / 2)
          = ∑ u ∈ range n, ∑ v ∈ range n, (if u = v then (n : ℝ) else t) * (y u ^ 2 / 2) := by
        rw [Finset.sum_comm]
        refine Finset.sum_congr rfl fun u _ => Finset.sum_congr rfl fun v _ => ?_
        simp only [eq_comm]
      have e5 : ∀ u v, (if u = v then (n : ℝ) else t) * ((y u ^ 2 + y v ^ 2) / 2)
          = (if u = v then (n : ℝ) else t) * (y u ^ 2 / 2) + (if u = v then (n : ℝ) else t) * (y v ^ 2 / 2) := by
        intro u v; ring
      simp_rw [e5, Finset.sum_add_distrib]
      rw [e4, ← Finset.sum_add_distrib]
      refine Finset.sum_congr rfl fun u _ => ?_
      rw [Finset.mul_sum, ← Finset.sum_add_distrib]
      exact Finset.sum_congr rfl fun v _ => by ring
    rw [e3]
    unfold dot
    rw [Finset.mul_sum]
    refine Finset.sum_le_sum fun u hu => ?_
    have := mul_le_mul_of_nonneg_left (hC u hu) (sq_nonneg (y u))
    nlinarith
  rw [quadForm_eq_dot]
  have hcs := dot_cs n y (mulv n X y)
  have h0 := dot_self_nonneg n y
  have hs : 0 ≤ (n : ℝ) * (1 + t) := by positivity
  refine le_trans (le_abs_self _) (abs_le_of_sq_le_sq ?_ (by positivity)) |>.trans le_rfl
  rw [mul_pow, Real.sq_sqrt hs]
  nlinarith

/-! ## The clusters of the stochastic block model -/

theorem block_cluster {k m : Nat} (i : Nat) (hi : i < k) :
    KMeans.cluster (k * m) (fun v => v / m) i = Finset.Ico (i * m) (i * m + m) ∨ m = 0 := by
  rcases Nat.eq_zero_or_pos m with h | h
  · exact .inr h
  left
  ext v
  unfold KMeans.cluster
  rw [mem_filter, mem_range, mem_Ico, Nat.div_eq_iff h]
  have : i * m + m ≤ k * m := by
    rw [← Nat.succ_mul]; exact Nat.mul_le_mul_right _ hi
  omega

theorem block_card {k m : Nat} (i : Nat) (hi : i < k) : (KMeans.cluster (k * m) (fun v => v / m) i).card = m := by
  rcases block_cluster (m := m) i hi with h | h
  · rw [h, Nat.card_Ico]; omega
  · subst h
    simp [KMeans.cluster]

theorem block_lt {k m u : Nat} (hu : u < k * m) : u / m < k := by
  have hm : 0 < m := by
    rcases Nat.eq_zero_or_pos m with h | h
    · subst h; simp at hu
    · exact h
  rw [Nat.div_lt_iff_lt_mul hm]; exact hu

theorem block_sum {k m : Nat} (F : Nat → ℝ) :
    ∑ v ∈ range (k * m), F v = ∑ i ∈ range k, ∑ v ∈ KMeans.cluster (k * m) (fun v => v / m) i, F v :=
  (Finset.sum_fiberwise_of_maps_to (g := fun v => v / m) (t := range k)
    (fun _ hv => mem_range.2 (block_lt (mem_range.1 hv))) F).symm

section
variable {s : WGraph ℝ} {k m : Nat} {p q a t : ℝ}

/-- The probability for two clusters. -/
noncomputable def pairProb (p q : ℝ) (c i : Nat) : ℝ := if c = i then p else q

theorem typical_nbrs (hT : s.Typical k m p q a t) (hloop : ∀ v, s.w v v = 0) (hp : 0 ≤ p ∧ p ≤ 1) (u : Nat)
    (hu : u < k * m) (i : Nat) (hi : i < k) :
    |∑ v ∈ KMeans.cluster (k * m) (fun v => v / m) i, s.w u v - m * pairProb p q (u / m) i| ≤ a + 1 := by
  have h1 := hT.nbrs u hu i hi
  have e : ∀ v ∈ KMeans.cluster (k * m) (fun v => v / m) i,
      s.w u v = s.noise m p q u v + pairProb p q (u / m) i - (if v = u then p else 0) := by
    intro v hv
    have hv2 : v / m = i := (mem_filter.1 hv).2
    unfold WGraph.noise blockProb pairProb
    by_cases huv : u = v
    · subst huv
      rw [if_pos rfl, if_pos hv2, if_pos rfl, hloop]; ring
    · rw [if_neg huv, if_neg (Ne.symm huv), hv2]; ring
  rw [Finset.sum_congr rfl e, Finset.sum_sub_distrib, Finset.sum_add_distrib, Finset.sum_const, block_card i hi,
    Finset.sum_ite_eq', nsmul_eq_mul]
  rw [abs_le] at h1 ⊢
  split_ifs <;> constructor <;> linarith [h1.1, h1.2, hp.1, hp.2]

theorem pairProb_sum (k : Nat) (p q : ℝ) (c : Nat) (hc : c < k) : ∑ i ∈ range k, pairProb p q c i = p + (k - 1) * q := by
  have : ∀ i ∈ range k, pairProb p q c i = q + (if c = i then p - q else 0) := by
    intro i _
    unfold pairProb
    split_ifs <;> ring
  rw [Finset.sum_congr rfl this, Finset.sum_add_distrib, Finset.sum_const, card_range, Finset.sum_ite_eq,
    if_pos (mem_range.2 hc), nsmul_eq_mul]
  ring

theorem typical_degree (hT : s.Typical k m p q a t) (hloop : ∀ v, s.w v v = 0) (hp : 0 ≤ p ∧ p ≤ 1) (u : Nat)
    (hu : u < k * m) : |s.deg u - blockDegree k m p q| ≤ k * (a + 1) := by
  have e1 : s.deg u = ∑ i ∈ range k, ∑ v ∈ KMeans.cluster (k * m) (fun v => v / m) i, s.w u v := by
    unfold WGraph.deg
    rw [hloop u, add_zero, hT.size, block_sum]
  have e2 : blockDegree k m p q = ∑ i ∈ range k, m * pairProb p q (u / m) i := by
    unfold blockDegree
    rw [← Finset.mul_sum, pairProb_sum k p q _ (block_lt hu)]
  rw [e1, e2, ← Finset.sum_sub_distrib]
  refine le_trans (Finset.abs_sum_le_sum_abs _ _) ?_
  refine le_trans (Finset.sum_le_sum fun i hi => typical_nbrs hT hloop hp u hu i (mem_range.1 hi)) ?_
  rw [Finset.sum_const, card_range, nsmul_eq_mul]

theorem typical_noise (hw01 : ∀ u v, s.w u v = 0 ∨ s.w u v = 1) (hp : 0 ≤ p ∧ p ≤ 1) (hq : 0 ≤ q ∧ q ≤ 1) (u v : Nat) :
    |s.noise m p q u v| ≤ 1 := by
  unfold WGraph.noise blockProb
  rw [abs_le]
  rcases hw01 u v with h | h <;> rw [h] <;> split_ifs <;> constructor <;> linarith [hp.1, hp.2, hq.1, hq.2]

/-- The form of the weights on vectors that sum to zero on each cluster. -/
theorem typical_form (hT : s.Typical k m p q a t) (hsym : ∀ u v, s.w u v = s.w v u) (hloop : ∀ v, s.w v v = 0)
    (hw01 : ∀ u v, s.w u v = 0 ∨ s.w u v = 1)
    (hp : 0 ≤ p ∧ p ≤ 1) (hq : 0 ≤ q ∧ q ≤ 1) (ht : 0 ≤ t) (y : Nat → ℝ)
    (hy : ∀ i < k, ∑ v ∈ KMeans.cluster (k * m) (fun v => v / m) i, y v = 0) :
    ∑ u ∈ range (k * m), ∑ v ∈ range (k * m), s.w u v * (y u * y v)
      ≤ Real.sqrt (k * m * (1 + t)) * dot (k * m) y y := by
  have hns : ∀ u < k * m, ∀ v < k * m, s.noise m p q u v = s.noise m p q v u := by
    intro u _ v _
    unfold WGraph.noise blockProb
    by_cases h : u = v
    · rw [if_pos h, if_pos h.symm]
    · rw [if_neg h, if_neg (Ne.symm h), hsym u v]
      by_cases h2 : u / m = v / m
      · rw [if_pos h2, if_pos h2.symm]
      · rw [if_neg h2, if_neg (Ne.symm h2)]
  have h1 := form_le hns t ht (by
    intro u _
    refine le_trans (Finset.sum_le_sum (g := fun _ => (1 : ℝ)) fun x _ => ?_) (by simp)
    rw [← sq_abs]
    have := typical_noise (m := m) hw01 hp hq u x
    have h0 := abs_nonneg (s.noise m p q u x)
    nlinarith) hT.codeg y
  rw [Nat.cast_mul] at h1
  refine le_trans ?_ h1
  have e : ∀ u ∈ range (k * m), ∀ v ∈ range (k * m), s.w u v * (y u * y v)
      = y u * s.noise m p q u v * y v + y u * (pairProb p q (u / m) (v / m) * y v) - (if u = v then p * y u ^ 2 else 0) := by
    intro u _ v _
    unfold WGraph.noise blockProb pairProb
    by_cases huv : u = v
    · subst huv
      rw [if_pos rfl, if_pos rfl, if_pos rfl, hloop]; ring
    · rw [if_neg huv, if_neg huv]; ring
  have e0 : ∀ u, ∑ v ∈ range (k * m), pairProb p q (u / m) (v / m) * y v = 0 := by
    intro u
    rw [block_sum]
    refine Finset.sum_eq_zero fun i hi => ?_
    have e3 : ∀ v ∈ KMeans.cluster (k * m) (fun v => v / m) i,
        pairProb p q (u / m) (v / m) * y v = pairProb p q (u / m) i * y v := by
      intro v hv
      rw [show v / m = i from (mem_filter.1 hv).2]
    rw [Finset.sum_congr rfl e3, ← Finset.mul_sum, hy i (mem_range.1 hi), mul_zero]
  have e2 : ∑ u ∈ range (k * m), ∑ v ∈ range (k * m), s.w u v * (y u * y v)
      = quadForm (k * m) (s.noise m p q) y - ∑ u ∈ range (k * m), p * y u ^ 2 := by
    unfold quadForm
    rw [← Finset.sum_sub_distrib]
    refine Finset.sum_congr rfl fun u hu => ?_
    rw [Finset.sum_congr rfl (e u hu), Finset.sum_sub_distrib, Finset.sum_add_distrib, ← Finset.mul_sum, e0,
      Finset.sum_ite_eq, if_pos hu]
    ring
  rw [e2]
  have : 0 ≤ ∑ u ∈ range (k * m), p * y u ^ 2 := Finset.sum_nonneg fun u _ => mul_nonneg hp.1 (sq_nonneg _)
  linarith

/-- A sum of weights over products of roots of degrees. -/
theorem weighted_bounds (T : Finset Nat) (w : Nat → ℝ) (hw : ∀ v ∈ T, 0 ≤ w v) (du : ℝ) (dv : Nat → ℝ) (lo hi : ℝ)
    (hlo : 0 < lo) (hu : lo ≤ du ∧ du ≤ hi) (hv : ∀ v ∈ T, lo ≤ dv v ∧ dv v ≤ hi) :
    (∑ v ∈ T, w v) / hi ≤ ∑ v ∈ T, w v / (Real.sqrt du * Real.sqrt (dv v)) ∧
    ∑ v ∈ T, w v / (Real.sqrt du * Real.sqrt (dv v)) ≤ (∑ v ∈ T, w v) / lo := by
  have hroot : ∀ v ∈ T, lo ≤ Real.sqrt du * Real.sqrt (dv v) ∧ Real.sqrt du * Real.sqrt (dv v) ≤ hi := by
    intro v hvT
    have h1 := hv v hvT
    have h2 : 0 ≤ hi := by linarith
    constructor
    · calc lo = Real.sqrt lo * Real.sqrt lo := (Real.mul_self_sqrt hlo.le).symm
        _ ≤ _ := mul_le_mul (Real.sqrt_le_sqrt hu.1) (Real.sqrt_le_sqrt h1.1) (Real.sqrt_nonneg _) (Real.sqrt_nonneg _)
    · calc _ ≤ Real.sqrt hi * Real.sqrt hi :=
            mul_le_mul (Real.sqrt_le_sqrt hu.2) (Real.sqrt_le_sqrt h1.2) (Real.sqrt_nonneg _) (Real.sqrt_nonneg _)
        _ = hi := Real.mul_self_sqrt h2
  rw [Finset.sum_div, Finset.sum_div]
  constructor
  · refine Finset.sum_le_sum fun v hvT => ?_
    exact div_le_div_of_nonneg_left (hw v hvT) (lt_of_lt_of_le hlo (hroot v hvT).1) (hroot v hvT).2
  · refine Finset.sum_le_sum fun v hvT => ?_
    exact div_le_div_of_nonneg_left (hw v hvT) hlo (hroot v hvT).1

theorem quotient_bound (A W B s' δ d : ℝ) (hδ : 0 ≤ δ) (hd : δ < d) (hs : s' ≤ δ) (hs0 : 0 ≤ s') (hB : 0 ≤ B) (hBd : B ≤ d)
    (hA : |A - B| ≤ s') (h1 : A / (d + δ) ≤ W) (h2 : W ≤ A / (d - δ)) : |W - B / d| ≤ 2 * δ / (d - δ) := by
  have hd0 : 0 < d := by linarith
  have hm : 0 < d - δ := by linarith
  have hp : 0 < d + δ := by linarith
  have hA' := abs_le.1 hA
  have h3 : B * δ + s' * d ≤ 2 * δ * d := by nlinarith
  have up : A / (d - δ) - B / d ≤ 2 * δ / (d - δ) := by
    rw [div_sub_div _ _ hm.ne' hd0.ne', div_le_div_iff₀ (by positivity) hm]
    have : A * d - (d - δ) * B ≤ 2 * δ * d := by nlinarith
    calc (A * d - (d - δ) * B) * (d - δ) ≤ 2 * δ * d * (d - δ) := mul_le_mul_of_nonneg_right this hm.le
      _ = 2 * δ * ((d - δ) * d) := by ring
  have lo : B / d - A / (d + δ) ≤ 2 * δ / (d - δ) := by
    have : B * (d + δ) - d * A ≤ 2 * δ * d := by nlinarith
    rw [div_sub_div _ _ hd0.ne' hp.ne', div_le_div_iff₀ (by positivity) hm]
    calc (B * (d + δ) - d * A) * (d - δ) ≤ 2 * δ * d * (d - δ) := mul_le_mul_of_nonneg_right this hm.le
      _ ≤ 2 * δ * (d * (d + δ)) := by nlinarith [mul_nonneg hδ hd0.le, mul_nonneg (mul_nonneg hδ hd0.le) hδ]
  rw [abs_le]
  constructor <;> linarith

/-- The unevenness of a typical graph. -/
theorem typical_uneven (hT : s.Typical k m p q a t) (hloop : ∀ v, s.w v v = 0) (hw0 : ∀ u v, 0 ≤ s.w u v)
    (hp : 0 ≤ p ∧ p ≤ 1) (hq : 0 ≤ q ∧ q ≤ 1) (ha : 0 ≤ a) (hk : 1 ≤ k) (hm : 1 ≤ m)
    (hd : k * (a + 1) < blockDegree k m p q) :
    s.unevenness k (fun v => v / m) (fun c i => m * pairProb p q c i / blockDegree k m p q)
      ≤ 4 * k ^ 2 * (k * (a + 1)) ^ 2 / (blockDegree k m p q - k * (a + 1)) ^ 2 := by
  set d := blockDegree k m p q with hdd
  have hk1 : (1 : ℝ) ≤ k := by exact_mod_cast hk
  have hm1 : (1 : ℝ) ≤ m := by exact_mod_cast hm
  have hδ : 0 ≤ k * (a + 1) := by positivity
  have hs : a + 1 ≤ k * (a + 1) := by nlinarith
  have hpos : 0 < d - k * (a + 1) := by linarith
  have hterm : ∀ i ∈ range k, ∀ u ∈ range (k * m),
      (s.normWeight u (KMeans.cluster (k * m) (fun v => v / m) i) - m * pairProb p q (u / m) i / d) ^ 2 /
        ((KMeans.cluster (k * m) (fun v => v / m) i).card : ℝ) ≤ (2 * (k * (a + 1)) / (d - k * (a + 1))) ^ 2 / m := by
    intro i hi u hu
    have hi' := mem_range.1 hi
    have hu' := mem_range.1 hu
    rw [block_card i hi']
    have hdeg : ∀ v < k * m, d - k * (a + 1) ≤ s.deg v ∧ s.deg v ≤ d + k * (a + 1) := by
      intro v hv
      have := abs_le.1 (typical_degree hT hloop hp v hv)
      constructor <;> linarith [this.1, this.2]
    have hwb := weighted_bounds (KMeans.cluster (k * m) (fun v => v / m) i) (fun v => s.w u v) (fun v _ => hw0 u v)
      (s.deg u) s.deg _ _ hpos (hdeg u hu') (fun v hv => hdeg v (mem_range.1 (mem_filter.1 hv).1))
    have hB : 0 ≤ m * pairProb p q (u / m) i := by
      unfold pairProb
      split_ifs
      · exact mul_nonneg (by linarith) hp.1
      · exact mul_nonneg (by linarith) hq.1
    have hBd : m * pairProb p q (u / m) i ≤ d := by
      rw [hdd]
      unfold blockDegree
      rw [← pairProb_sum k p q _ (block_lt hu')]
      refine mul_le_mul_of_nonneg_left ?_ (by linarith)
      exact Finset.single_le_sum (f := fun i => pairProb p q (u / m) i) (fun j _ => by
        unfold pairProb
        split_ifs
        · exact hp.1
        · exact hq.1) hi
    have hqb := quotient_bound _ _ _ (a + 1) _ d hδ hd hs (by linarith) hB hBd
      (typical_nbrs hT hloop hp u hu' i hi') hwb.1 hwb.2
    refine div_le_div_of_nonneg_right ?_ (by linarith)
    rw [← sq_abs]
    unfold WGraph.normWeight
    gcongr
  unfold WGraph.unevenness
  rw [hT.size]
  refine le_trans (Finset.sum_le_sum fun i hi => Finset.sum_le_sum fun u hu => hterm i hi u hu) ?_
  rw [Finset.sum_const, Finset.sum_const, card_range, card_range, nsmul_eq_mul, nsmul_eq_mul, Nat.cast_mul]
  apply le_of_eq
  have : (m : ℝ) ≠ 0 := by linarith
  field_simp
  ring

/-- The strength of the clusters of the stochastic block model. -/
theorem typical_strength (hq : 0 ≤ q) (hd : 0 < blockDegree k m p q) (hm : 1 ≤ m) :
    WGraph.Strength (k * m) k (fun v => v / m) (fun c i => m * pairProb p q c i / blockDegree k m p q)
      (m * (p - q) / blockDegree k m p q) := by
  intro y
  have hm1 : (1 : ℝ) ≤ m := by exact_mod_cast hm
  have e : ∀ i ∈ range k, ∀ c ∈ range k, ((fun c i => m * pairProb p q c i / blockDegree k m p q) c i : ℝ)
      * Real.sqrt (((KMeans.cluster (k * m) (fun v => v / m) c).card : ℝ) / (KMeans.cluster (k * m) (fun v => v / m) i).card)
      * (y i * y c) = (m / blockDegree k m p q) * ((if i = c then (p - q) * y i ^ 2 else 0) + q * (y i * y c)) := by
    intro i hi c hc
    beta_reduce
    rw [block_card i (mem_range.1 hi), block_card c (mem_range.1 hc), div_self (by linarith), Real.sqrt_one]
    unfold pairProb
    by_cases h : i = c
    · subst h
      rw [if_pos rfl, if_pos rfl]; ring
    · rw [if_neg (Ne.symm h), if_neg h]; ring
  rw [Finset.sum_congr rfl fun i hi => Finset.sum_congr rfl (e i hi)]
  simp_rw [← Finset.mul_sum, Finset.sum_add_distrib]
  have e2 : ∑ i ∈ range k, ∑ c ∈ range k, (if i = c then (p - q) * y i ^ 2 else 0) = (p - q) * ∑ i ∈ range k, y i ^ 2 := by
    rw [Finset.mul_sum]
    refine Finset.sum_congr rfl fun i hi => ?_
    rw [Finset.sum_ite_eq, if_pos hi]
  have e3 : ∑ i ∈ range k, ∑ c ∈ range k, q * (y i * y c) = q * (∑ i ∈ range k, y i) ^ 2 := by
    rw [sq, Finset.sum_mul_sum, Finset.mul_sum]
    exact Finset.sum_congr rfl fun i _ => by rw [Finset.mul_sum]
  rw [e2, e3]
  have h0 : 0 ≤ m / blockDegree k m p q * (q * (∑ i ∈ range k, y i) ^ 2) := by positivity
  have : m * (p - q) / blockDegree k m p q * ∑ i ∈ range k, y i ^ 2
      = m / blockDegree k m p q * ((p - q) * ∑ i ∈ range k, y i ^ 2) := by ring
  rw [this, mul_add]
  linarith

end

end Recovery
end Stag
