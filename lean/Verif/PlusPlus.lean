import Verif.KMeansLemmas
import Mathlib.Algebra.Order.Chebyshev
import Mathlib.Algebra.BigOperators.Field
import Mathlib.Tactic.Positivity
import Mathlib.Tactic.FieldSimp
import Mathlib.Data.Real.Basic

/-!
# The analysis of k-means++ seeding (Arthur and Vassilvitskii)

`meanCost N d t f` is the expected cost after `t` more centres have been drawn, each with probability proportional to the
squared distance to the nearest centre; `f i` is that distance for point `i` now, `d i j` the squared distance of points.
-/

namespace Stag
namespace KMeans

open Finset

/-- The expected cost after `t` more draws. -/
noncomputable def meanCost (N : Nat) (d : Nat → Nat → ℝ) : Nat → (Nat → ℝ) → ℝ
  | 0, f => ∑ i ∈ range N, f i
  | t + 1, f => ∑ j ∈ range N, f j / (∑ i ∈ range N, f i) * meanCost N d t (fun i => min (d i j) (f i))

/-- The harmonic number `1 + 1/2 + ... + 1/t`. -/
noncomputable def harm (t : Nat) : ℝ := ∑ i ∈ range t, 1 / ((i : ℝ) + 1)

theorem harm_nonneg (t : Nat) : 0 ≤ harm t := Finset.sum_nonneg fun i _ => by positivity

theorem harm_succ (t : Nat) : harm (t + 1) = harm t + 1 / ((t : ℝ) + 1) := Finset.sum_range_succ _ _

/-- What is needed of the distances: they are not negative, and satisfy the triangle inequality up to a factor 2. -/
structure Squared (N : Nat) (d : Nat → Nat → ℝ) : Prop where
  nonneg : ∀ i j, 0 ≤ d i j
  symm : ∀ i j, d i j = d j i
  tri : ∀ i j l, d i l ≤ 2 * d j l + 2 * d i j

/-- The same for the distances to the nearest centre. -/
structure Near (d : Nat → Nat → ℝ) (f : Nat → ℝ) : Prop where
  nonneg : ∀ i, 0 ≤ f i
  tri : ∀ i j, f i ≤ 2 * f j + 2 * d i j

theorem Near.step {N : Nat} {d : Nat → Nat → ℝ} (hd : Squared N d) {f : Nat → ℝ} (hf : Near d f) (j : Nat) :
    Near d (fun i => min (d i j) (f i)) := by
  refine ⟨fun i => le_min (hd.nonneg _ _) (hf.nonneg _), fun a b => ?_⟩
  rcases min_choice (d b j) (f b) with h | h <;> rw [h]
  · exact le_trans (min_le_left _ _) (hd.tri _ _ _)
  · exact le_trans (min_le_right _ _) (hf.tri _ _)

/-- One draw from a cluster `A` by squared distances: the cost of the cluster afterwards. -/
theorem draw_in_cluster {N : Nat} {d : Nat → Nat → ℝ} (hd : Squared N d) {f : Nat → ℝ} (hf : Near d f) (A : Finset Nat)
    {o : ℝ} (ho : ∑ a ∈ A, ∑ b ∈ A, d a b = 2 * A.card * o) :
    ∑ a ∈ A, f a * ∑ i ∈ A, min (d i a) (f i) ≤ 8 * o * ∑ a ∈ A, f a := by
  rcases A.eq_empty_or_nonempty with rfl | hA
  · simp
  have hc : (0 : ℝ) < A.card := by exact_mod_cast hA.card_pos
  have hF : 0 ≤ ∑ a ∈ A, f a := Finset.sum_nonneg fun i _ => hf.nonneg i
  -- the distance of `a`, averaged over the cluster
  have h1 : ∀ a, A.card * f a ≤ 2 * (∑ b ∈ A, f b) + 2 * ∑ b ∈ A, d a b := by
    intro a
    calc (A.card : ℝ) * f a = ∑ _b ∈ A, f a := by rw [Finset.sum_const, nsmul_eq_mul]
      _ ≤ ∑ b ∈ A, (2 * f b + 2 * d a b) := Finset.sum_le_sum fun b _ => hf.tri a b
      _ = _ := by rw [Finset.sum_add_distrib, Finset.mul_sum, Finset.mul_sum]
  have h2 : ∀ a, ∑ i ∈ A, min (d i a) (f i) ≤ ∑ i ∈ A, d a i := fun a =>
    Finset.sum_le_sum fun i _ => by rw [hd.symm a i]; exact min_le_left _ _
  have h3 : ∀ a, ∑ i ∈ A, min (d i a) (f i) ≤ ∑ i ∈ A, f i := fun a =>
    Finset.sum_le_sum fun i _ => min_le_right _ _
  have h4 : ∀ a, 0 ≤ ∑ i ∈ A, min (d i a) (f i) := fun a =>
    Finset.sum_nonneg fun i _ => le_min (hd.nonneg _ _) (hf.nonneg _)
  have h5 : ∀ a, 0 ≤ ∑ b ∈ A, d a b := fun a => Finset.sum_nonneg fun i _ => hd.nonneg _ _
  have h6 : ∀ a ∈ A, A.card * (f a * ∑ i ∈ A, min (d i a) (f i)) ≤ 4 * (∑ b ∈ A, f b) * ∑ b ∈ A, d a b := by
    intro a _
    calc A.card * (f a * ∑ i ∈ A, min (d i a) (f i)) = (A.card * f a) * ∑ i ∈ A, min (d i a) (f i) := by ring
      _ ≤ (2 * (∑ b ∈ A, f b) + 2 * ∑ b ∈ A, d a b) * ∑ i ∈ A, min (d i a) (f i) :=
        mul_le_mul_of_nonneg_right (h1 a) (h4 a)
      _ = 2 * (∑ b ∈ A, f b) * (∑ i ∈ A, min (d i a) (f i)) + 2 * (∑ b ∈ A, d a b) * ∑ i ∈ A, min (d i a) (f i) := by ring
      _ ≤ 2 * (∑ b ∈ A, f b) * (∑ i ∈ A, d a i) + 2 * (∑ b ∈ A, d a b) * ∑ i ∈ A, f i := by
        exact add_le_add (mul_le_mul_of_nonneg_left (h2 a) (by linarith)) (mul_le_mul_of_nonneg_left (h3 a) (by linarith [h5 a]))
      _ = _ := by ring
  have h7 := Finset.sum_le_sum h6
  rw [← Finset.mul_sum, ← Finset.mul_sum, ho] at h7
  have h8 : A.card * (∑ a ∈ A, f a * ∑ i ∈ A, min (d i a) (f i)) ≤ A.card * (8 * o * ∑ a ∈ A, f a) := by
    calc _ ≤ _ := h7
      _ = _ := by ring
  exact le_of_mul_le_mul_left h8 hc

/-- The arithmetic at the end of the induction. -/
theorem final_algebra {u t H pc pu O q S : ℝ} (hu : 0 < u) (ht : 0 ≤ t) (htu : t + 1 ≤ u) (hpc : 0 ≤ pc) (hpu : 0 ≤ pu)
    (hO : 0 ≤ O) (hq : 0 ≤ q) (hq1 : q * (u - 1) = u - 1 - t) (hcs : pu ^ 2 ≤ u * S) :
    pc * ((pc + 8 * O) * (1 + H) + (u - t) / u * pu) + (pu * ((pc + 8 * O) * (1 + H)) + q * (pu * pu - S))
      ≤ ((pc + 8 * O) * (1 + (H + 1 / (t + 1))) + (u - (t + 1)) / u * pu) * (pc + pu) := by
  have hcs' : u * (q * (pu * pu - S)) ≤ (u - 1 - t) * pu ^ 2 := by
    rw [← hq1]
    have := mul_le_mul_of_nonneg_left hcs hq
    linarith [this]
  have h1 : q * (pu * pu - S) ≤ (u - 1 - t) / u * pu ^ 2 := by
    rw [div_mul_eq_mul_div, le_div_iff₀ hu]
    linarith
  have h2 : 1 / u ≤ 1 / (t + 1) := one_div_le_one_div_of_le (by linarith) htu
  have h3 : pc * pu * (1 / u) ≤ (pc + 8 * O) * (pc + pu) * (1 / (t + 1)) := by
    have : 0 ≤ 1 / u := by positivity
    have h4 : pc * pu ≤ (pc + 8 * O) * (pc + pu) := mul_le_mul (by linarith) (by linarith) hpu (by linarith)
    exact mul_le_mul h4 h2 this (le_trans (mul_nonneg hpc hpu) h4)
  have e1 : (u - t) / u = (u - 1 - t) / u + 1 / u := by ring
  have e2 : (u - (t + 1)) / u = (u - 1 - t) / u := by ring
  rw [e1, e2]
  linarith

/-- The induction: `U` contains the labels not yet covered, `o c` bounds the best cost of cluster `c`. -/
theorem meanCost_le {N : Nat} {d : Nat → Nat → ℝ} (hd : Squared N d) (cls : Nat → Nat) (o : Nat → ℝ) (ho0 : ∀ c, 0 ≤ o c)
    (ho : ∀ c, ∑ a ∈ cluster N cls c, ∑ b ∈ cluster N cls c, d a b = 2 * (cluster N cls c).card * o c) :
    ∀ (t : Nat) (U : Finset Nat) (f : Nat → ℝ), Near d f → t ≤ U.card →
      meanCost N d t f ≤ (∑ i ∈ (range N).filter (fun i => cls i ∉ U), f i + 8 * ∑ c ∈ U, o c) * (1 + harm t)
        + ((U.card : ℝ) - t) / U.card * ∑ i ∈ (range N).filter (fun i => cls i ∈ U), f i := by
  intro t
  induction t with
  | zero =>
    intro U f hf _
    have hsplit : ∑ i ∈ range N, f i = ∑ i ∈ (range N).filter (fun i => cls i ∉ U), f i
        + ∑ i ∈ (range N).filter (fun i => cls i ∈ U), f i := by
      rw [add_comm]
      exact (Finset.sum_filter_add_sum_filter_not _ _ _).symm
    have hO : 0 ≤ ∑ c ∈ U, o c := Finset.sum_nonneg fun c _ => ho0 c
    rw [meanCost, hsplit]
    have h1 : harm 0 = 0 := by simp [harm]
    rw [h1]
    rcases U.eq_empty_or_nonempty with rfl | hU
    · simp
    · have hu : (U.card : ℝ) ≠ 0 := by exact_mod_cast hU.card_pos.ne'
      rw [Nat.cast_zero, sub_zero, div_self hu]
      linarith
  | succ t ih =>
    intro U f hf hU
    have hu : (0 : ℝ) < U.card := by exact_mod_cast (by omega : 0 < U.card)
    have htu : ((t : ℝ) + 1) ≤ U.card := by exact_mod_cast hU
    set W := ∑ i ∈ range N, f i with hW
    set pc := ∑ i ∈ (range N).filter (fun i => cls i ∉ U), f i with hpc
    set pu := ∑ i ∈ (range N).filter (fun i => cls i ∈ U), f i with hpu
    set O := ∑ c ∈ U, o c with hO
    have hsplit : W = pc + pu := by
      rw [add_comm]
      exact (Finset.sum_filter_add_sum_filter_not _ _ _).symm
    have hO0 : 0 ≤ O := Finset.sum_nonneg fun c _ => ho0 c
    have hpc0 : 0 ≤ pc := Finset.sum_nonneg fun i _ => hf.nonneg i
    have hpu0 : 0 ≤ pu := Finset.sum_nonneg fun i _ => hf.nonneg i
    have hB : 0 ≤ 1 + harm t := by linarith [harm_nonneg t]
    have hrhs : 0 ≤ (pc + 8 * O) * (1 + harm (t + 1)) + ((U.card : ℝ) - ((t + 1 : Nat) : ℝ)) / U.card * pu := by
      have h1 : 0 ≤ 1 + harm (t + 1) := by linarith [harm_nonneg (t + 1)]
      have h2 : 0 ≤ ((U.card : ℝ) - ((t + 1 : Nat) : ℝ)) / U.card := by
        apply div_nonneg _ hu.le
        push_cast
        linarith
      positivity
    rw [meanCost]
    rcases (by rw [hsplit]; linarith : 0 ≤ W).eq_or_lt with h0 | hWpos
    · rw [← hW, ← h0]
      simpa using hrhs
    -- a draw from a covered cluster
    set R := (pc + 8 * O) * (1 + harm t) + ((U.card : ℝ) - t) / U.card * pu with hR
    have hcov : ∀ j, meanCost N d t (fun i => min (d i j) (f i)) ≤ R := by
      intro j
      refine le_trans (ih U _ (hf.step hd j) (by omega)) ?_
      have h1 : ∑ i ∈ (range N).filter (fun i => cls i ∉ U), min (d i j) (f i) ≤ pc :=
        Finset.sum_le_sum fun i _ => min_le_right _ _
      have h2 : ∑ i ∈ (range N).filter (fun i => cls i ∈ U), min (d i j) (f i) ≤ pu :=
        Finset.sum_le_sum fun i _ => min_le_right _ _
      have h3 : 0 ≤ ((U.card : ℝ) - t) / U.card := div_nonneg (by linarith) hu.le
      exact add_le_add (mul_le_mul_of_nonneg_right (by linarith) hB) (mul_le_mul_of_nonneg_left h2 h3)
    -- a draw from an uncovered cluster
    set q := ((U.card : ℝ) - 1 - t) / ((U.card : ℝ) - 1) with hq
    have hu1 : (1 : ℝ) ≤ U.card := by exact_mod_cast (by omega : 1 ≤ U.card)
    have hq0 : 0 ≤ q := div_nonneg (by linarith) (by linarith)
    have hq1 : q * ((U.card : ℝ) - 1) = (U.card : ℝ) - 1 - t := by
      rcases hu1.eq_or_lt with h | h
      · have : (t : ℝ) = 0 := le_antisymm (by linarith) (Nat.cast_nonneg t)
        rw [hq, ← h, this]; simp
      · rw [hq, div_mul_cancel₀ _ (by linarith : (U.card : ℝ) - 1 ≠ 0)]
    have hunc : ∀ c ∈ U, ∀ j ∈ cluster N cls c, meanCost N d t (fun i => min (d i j) (f i)) ≤
        (pc + ∑ i ∈ cluster N cls c, min (d i j) (f i) + 8 * (O - o c)) * (1 + harm t)
          + q * (pu - ∑ i ∈ cluster N cls c, f i) := by
      intro c hc j hj
      have hcard : (U.erase c).card = U.card - 1 := Finset.card_erase_of_mem hc
      have hcard' : ((U.erase c).card : ℝ) = (U.card : ℝ) - 1 := by
        rw [hcard, Nat.cast_sub (by omega)]; simp
      have h := ih (U.erase c) _ (hf.step hd j) (by omega)
      rw [hcard'] at h
      refine le_trans h ?_
      have hOe : ∑ x ∈ U.erase c, o x = O - o c := by
        rw [hO, ← Finset.add_sum_erase U o hc]; ring
      rw [hOe]
      have e1 : (range N).filter (fun i => cls i ∉ U.erase c)
          = (range N).filter (fun i => cls i ∉ U) ∪ cluster N cls c := by
        ext i
        simp only [mem_filter, mem_range, mem_erase, mem_union, cluster]
        by_cases h1 : cls i = c
        · simp only [h1, ne_eq, not_true, false_and, not_false_iff, and_true]
          tauto
        · simp [h1]
      have dj : Disjoint ((range N).filter (fun i => cls i ∉ U)) (cluster N cls c) := by
        rw [Finset.disjoint_left]
        intro i h1 h2
        simp only [mem_filter, cluster] at h1 h2
        exact h1.2 (h2.2 ▸ hc)
      have e2 : (range N).filter (fun i => cls i ∈ U)
          = (range N).filter (fun i => cls i ∈ U.erase c) ∪ cluster N cls c := by
        ext i
        simp only [mem_filter, mem_range, mem_erase, mem_union, cluster]
        by_cases h1 : cls i = c
        · simp [h1, hc]
        · simp [h1]
      have dj2 : Disjoint ((range N).filter (fun i => cls i ∈ U.erase c)) (cluster N cls c) := by
        rw [Finset.disjoint_left]
        intro i h1 h2
        simp only [mem_filter, cluster, mem_erase] at h1 h2
        exact h1.2.1 h2.2
      have h1 : ∑ i ∈ (range N).filter (fun i => cls i ∉ U.erase c), min (d i j) (f i)
          ≤ pc + ∑ i ∈ cluster N cls c, min (d i j) (f i) := by
        rw [e1, Finset.sum_union dj]
        have : ∑ i ∈ (range N).filter (fun i => cls i ∉ U), min (d i j) (f i) ≤ pc :=
          Finset.sum_le_sum fun i _ => min_le_right _ _
        linarith
      have h2 : ∑ i ∈ (range N).filter (fun i => cls i ∈ U.erase c), min (d i j) (f i)
          ≤ pu - ∑ i ∈ cluster N cls c, f i := by
        have h3 : pu = ∑ i ∈ (range N).filter (fun i => cls i ∈ U.erase c), f i + ∑ i ∈ cluster N cls c, f i := by
          rw [hpu, e2, Finset.sum_union dj2]
        have : ∑ i ∈ (range N).filter (fun i => cls i ∈ U.erase c), min (d i j) (f i)
            ≤ ∑ i ∈ (range N).filter (fun i => cls i ∈ U.erase c), f i :=
          Finset.sum_le_sum fun i _ => min_le_right _ _
        linarith
      exact add_le_add (mul_le_mul_of_nonneg_right (by linarith) hB) (mul_le_mul_of_nonneg_left h2 hq0)
    -- the sums over the draws
    have hdraw : ∑ j ∈ range N, f j / W * meanCost N d t (fun i => min (d i j) (f i))
        = (∑ j ∈ range N, f j * meanCost N d t (fun i => min (d i j) (f i))) / W := by
      rw [Finset.sum_div]
      exact Finset.sum_congr rfl fun j _ => by ring
    rw [hdraw, div_le_iff₀ hWpos]
    have hparts : ∑ j ∈ range N, f j * meanCost N d t (fun i => min (d i j) (f i))
        = ∑ j ∈ (range N).filter (fun i => cls i ∉ U), f j * meanCost N d t (fun i => min (d i j) (f i))
          + ∑ c ∈ U, ∑ j ∈ cluster N cls c, f j * meanCost N d t (fun i => min (d i j) (f i)) := by
      rw [← Finset.sum_filter_add_sum_filter_not (range N) (fun i => cls i ∈ U), add_comm]
      congr 1
      rw [← Finset.sum_fiberwise_of_maps_to (g := cls) (t := U) (fun i hi => (mem_filter.1 hi).2)]
      refine Finset.sum_congr rfl fun c hc => Finset.sum_congr ?_ fun _ _ => rfl
      ext i
      simp only [mem_filter, mem_range, cluster]
      constructor
      · rintro ⟨⟨h1, -⟩, h2⟩; exact ⟨h1, h2⟩
      · rintro ⟨h1, h2⟩; exact ⟨⟨h1, h2 ▸ hc⟩, h2⟩
    have hpuc : pu = ∑ c ∈ U, ∑ j ∈ cluster N cls c, f j := by
      rw [hpu, ← Finset.sum_fiberwise_of_maps_to (g := cls) (t := U) (fun i hi => (mem_filter.1 hi).2)]
      refine Finset.sum_congr rfl fun c hc => Finset.sum_congr ?_ fun _ _ => rfl
      ext i
      simp only [mem_filter, mem_range, cluster]
      constructor
      · rintro ⟨⟨h1, -⟩, h2⟩; exact ⟨h1, h2⟩
      · rintro ⟨h1, h2⟩; exact ⟨⟨h1, h2 ▸ hc⟩, h2⟩
    have hfirst : ∑ j ∈ (range N).filter (fun i => cls i ∉ U), f j * meanCost N d t (fun i => min (d i j) (f i)) ≤ pc * R := by
      rw [hpc, Finset.sum_mul]
      exact Finset.sum_le_sum fun j _ => mul_le_mul_of_nonneg_left (hcov j) (hf.nonneg j)
    set g : Nat → ℝ := fun c => ∑ j ∈ cluster N cls c, f j with hg
    have hsecond : ∀ c ∈ U, ∑ j ∈ cluster N cls c, f j * meanCost N d t (fun i => min (d i j) (f i))
        ≤ g c * ((pc + 8 * O) * (1 + harm t)) + q * (g c * pu - g c ^ 2) := by
      intro c hc
      have h1 := draw_in_cluster hd hf (cluster N cls c) (ho c)
      calc ∑ j ∈ cluster N cls c, f j * meanCost N d t (fun i => min (d i j) (f i))
          ≤ ∑ j ∈ cluster N cls c, f j * ((pc + ∑ i ∈ cluster N cls c, min (d i j) (f i) + 8 * (O - o c)) * (1 + harm t)
            + q * (pu - g c)) :=
            Finset.sum_le_sum fun j hj => mul_le_mul_of_nonneg_left (hunc c hc j hj) (hf.nonneg j)
        _ = (∑ j ∈ cluster N cls c, f j) * ((pc + 8 * (O - o c)) * (1 + harm t) + q * (pu - g c))
            + (∑ j ∈ cluster N cls c, f j * ∑ i ∈ cluster N cls c, min (d i j) (f i)) * (1 + harm t) := by
          rw [Finset.sum_mul, Finset.sum_mul, ← Finset.sum_add_distrib]
          exact Finset.sum_congr rfl fun j _ => by ring
        _ ≤ g c * ((pc + 8 * (O - o c)) * (1 + harm t) + q * (pu - g c)) + (8 * o c * g c) * (1 + harm t) :=
          add_le_add le_rfl (mul_le_mul_of_nonneg_right h1 hB)
        _ = _ := by ring
    have hsum2 := Finset.sum_le_sum hsecond
    rw [Finset.sum_add_distrib, ← Finset.sum_mul, ← Finset.mul_sum, Finset.sum_sub_distrib, ← Finset.sum_mul,
      show ∑ c ∈ U, g c = pu from hpuc.symm] at hsum2
    have hcs : pu ^ 2 ≤ U.card * ∑ c ∈ U, g c ^ 2 := by
      have := sq_sum_le_card_mul_sum_sq (s := U) (f := g)
      rwa [show ∑ c ∈ U, g c = pu from hpuc.symm] at this
    rw [hparts]
    have hfin := final_algebra (u := U.card) (t := t) (H := harm t) (pc := pc) (pu := pu) (O := O) (q := q)
      (S := ∑ c ∈ U, g c ^ 2) hu (Nat.cast_nonneg t) htu hpc0 hpu0 hO0 hq0 hq1 hcs
    rw [← hsplit] at hfin
    rw [harm_succ]
    push_cast
    push_cast at hfin
    refine le_trans (add_le_add hfirst hsum2) ?_
    rw [hR]
    exact hfin

end KMeans
end Stag
