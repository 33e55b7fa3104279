import Verif.KMeans
import Verif.Spec.KMeans
import Verif.SparseLemmas
import Mathlib.Algebra.BigOperators.Field
import Mathlib.Algebra.Order.BigOperators.Group.Finset
import Mathlib.Data.Fintype.EquivFin
import Mathlib.Data.Fintype.Pigeonhole
import Mathlib.Data.Fintype.BigOperators
import Mathlib.Tactic.Ring
import Mathlib.Tactic.Linarith
import Mathlib.Tactic.Positivity
import Mathlib.Tactic.FieldSimp
import Mathlib.Tactic.LinearCombination

/-!
# Lemmas about the k-means model
-/

namespace Stag
namespace KMeans

variable {K : Type} [Field K] [LinearOrder K] [IsStrictOrderedRing K]

omit [LinearOrder K] [IsStrictOrderedRing K] in
theorem sqDist_eq (D : Nat) (x y : Nat → K) : sqDist D x y = dist2 D x y := by
  unfold sqDist dist2
  rw [sum_list_range]
  exact Finset.sum_congr rfl (fun d _ => (sq _).symm)

/-- What `pairwise_distance` leaves out of the squared distance. -/
def off (X : Nat → Nat → K) (D i : Nat) : K :=
  if D ≤ 16 then 0 else ∑ d ∈ Finset.range D, X i d ^ 2

omit [LinearOrder K] [IsStrictOrderedRing K] in
theorem pairDist_eq (X : Nat → Nat → K) (D : Nat) (Mu : Nat → Nat → K) (i c : Nat) :
    pairDist X D Mu i c = dist2 D (X i) (Mu c) - off X D i := by
  unfold pairDist off
  split_ifs with h
  · rw [sqDist_eq, sub_zero]
  · unfold dist2
    rw [sum_list_range, sum_list_range, Finset.mul_sum, ← Finset.sum_add_distrib,
      ← Finset.sum_sub_distrib]
    exact Finset.sum_congr rfl (fun d _ => by ring)

omit [Field K] [IsStrictOrderedRing K] in
/-- The first minimum. -/
theorem argmin_spec (f : Nat → K) (k : Nat) (hk : 0 < k) :
    argmin f k < k ∧ (∀ c < k, f (argmin f k) ≤ f c) ∧ ∀ c < argmin f k, f (argmin f k) < f c := by
  induction k with
  | zero => omega
  | succ k ih =>
    have e : argmin f (k + 1) = if f k < f (argmin f k) then k else argmin f k := by
      unfold argmin
      rw [List.range_succ, List.foldl_append]
      rfl
    rcases Nat.eq_zero_or_pos k with rfl | hk'
    · have h0 : argmin f 0 = 0 := rfl
      rw [h0] at e
      simp only [lt_irrefl, if_false] at e
      rw [e]
      refine ⟨by omega, fun c hc => ?_, fun c hc => by omega⟩
      obtain rfl : c = 0 := by omega
      exact le_rfl
    · obtain ⟨h1, h2, h3⟩ := ih hk'
      rw [e]
      split_ifs with h
      · refine ⟨by omega, fun c hc => ?_, fun c hc => lt_of_lt_of_le h (h2 c hc)⟩
        rcases Nat.lt_succ_iff_lt_or_eq.1 hc with hc | rfl
        · exact h.le.trans (h2 c hc)
        · exact le_rfl
      · refine ⟨by omega, fun c hc => ?_, h3⟩
        rcases Nat.lt_succ_iff_lt_or_eq.1 hc with hc | rfl
        · exact h2 c hc
        · exact not_lt.1 h

/-- The label of point `i` for the centres `Mu`. -/
def lab (X : Nat → Nat → K) (D k : Nat) (Mu : Nat → Nat → K) (i : Nat) : Nat :=
  argmin (pairDist X D Mu i) k

/-- `totalDist`. -/
def tot (X : Nat → Nat → K) (N D k : Nat) (Mu : Nat → Nat → K) : K :=
  ∑ i ∈ Finset.range N, pairDist X D Mu i (lab X D k Mu i)

omit [IsStrictOrderedRing K] in
theorem assign_spec (X : Nat → Nat → K) (N D k : Nat) (Mu : Nat → Nat → K) (Z : Nat → Nat) :
    (∀ i < N, (assignClosest X N D k Mu Z).1 i = lab X D k Mu i) ∧
    (assignClosest X N D k Mu Z).2 = tot X N D k Mu := by
  induction N with
  | zero => simp [assignClosest, tot]
  | succ N ih =>
    have e : assignClosest X (N + 1) D k Mu Z =
        (fun j => if j = N then lab X D k Mu N else (assignClosest X N D k Mu Z).1 j,
         (assignClosest X N D k Mu Z).2 + pairDist X D Mu N (lab X D k Mu N)) := by
      unfold assignClosest
      rw [List.range_succ, List.foldl_append]
      rfl
    rw [e]
    refine ⟨fun i hi => ?_, ?_⟩
    · simp only
      split_ifs with h
      · rw [h]
      · exact ih.1 i (by omega)
    · simp only
      rw [ih.2]
      unfold tot
      rw [Finset.sum_range_succ]

theorem lab_nearest (X : Nat → Nat → K) (N D k : Nat) (hk : 0 < k) (Mu : Nat → Nat → K) :
    Nearest X N D k Mu (lab X D k Mu) := by
  intro i _
  obtain ⟨h1, h2, h3⟩ := argmin_spec (pairDist X D Mu i) k hk
  simp only [pairDist_eq] at h2 h3
  exact ⟨h1, fun c hc => by have := h2 c hc; unfold lab; linarith,
    fun c hc => by have := h3 c hc; unfold lab; linarith⟩

omit [IsStrictOrderedRing K] in
theorem tot_eq (X : Nat → Nat → K) (N D k : Nat) (Mu : Nat → Nat → K) :
    tot X N D k Mu = cost X N D Mu (lab X D k Mu) - ∑ i ∈ Finset.range N, off X D i := by
  unfold tot cost
  rw [← Finset.sum_sub_distrib]
  exact Finset.sum_congr rfl (fun i _ => pairDist_eq _ _ _ _ _)

/-! ## Means -/

omit [IsStrictOrderedRing K] in
theorem calcMu_congr (X : Nat → Nat → K) (N : Nat) {Z Z' : Nat → Nat} (h : ∀ i < N, Z i = Z' i) :
    calcMu X N Z = calcMu X N Z' := by
  funext c d
  unfold calcMu
  have e1 : (List.range N).map (fun i => if Z i = c then X i d else 0)
      = (List.range N).map (fun i => if Z' i = c then X i d else 0) :=
    List.map_congr_left (fun i hi => by rw [h i (List.mem_range.1 hi)])
  have e2 : (List.range N).map (fun i => if Z i = c then (1 : K) else 0)
      = (List.range N).map (fun i => if Z' i = c then (1 : K) else 0) :=
    List.map_congr_left (fun i hi => by rw [h i (List.mem_range.1 hi)])
  rw [e1, e2]

theorem calcMu_means (X : Nat → Nat → K) (N D k : Nat) (Z : Nat → Nat) :
    Means X N D k (calcMu X N Z) Z := by
  intro c _ d _
  have e1 : ((List.range N).map (fun i => if Z i = c then X i d else 0)).sum
      = ∑ i ∈ cluster N Z c, X i d := by
    rw [sum_list_range, cluster, Finset.sum_filter]
  have e2 : ((List.range N).map (fun i => if Z i = c then (1 : K) else 0)).sum
      = ((cluster N Z c).card : K) := by
    rw [sum_list_range, cluster, Finset.card_filter]
    push_cast
    rfl
  unfold calcMu
  rw [e1, e2]
  simp only
  constructor
  · intro hne
    have : ((cluster N Z c).card : K) ≠ 0 := by
      exact_mod_cast (Finset.card_pos.2 hne).ne'
    rw [if_neg this, div_mul_cancel₀ _ this]
  · intro hne
    rw [Finset.not_nonempty_iff_eq_empty] at hne
    rw [hne]; simp

omit [LinearOrder K] [IsStrictOrderedRing K] in
/-- The parallel-axis identity for one cluster. -/
theorem cluster_identity (X : Nat → Nat → K) (D : Nat) (S : Finset Nat) (m y : Nat → K)
    (hm : ∀ d < D, m d * (S.card : K) = ∑ i ∈ S, X i d) :
    ∑ i ∈ S, dist2 D (X i) y = ∑ i ∈ S, dist2 D (X i) m + (S.card : K) * dist2 D m y := by
  unfold dist2
  rw [Finset.sum_comm, Finset.sum_comm (s := S), Finset.mul_sum, ← Finset.sum_add_distrib]
  apply Finset.sum_congr rfl
  intro d hd
  have h := hm d (Finset.mem_range.1 hd)
  have e : ∀ i ∈ S, (X i d - y d) ^ 2 = (X i d - m d) ^ 2 + (2 * (m d - y d) * (X i d - m d) + (m d - y d) ^ 2) :=
    fun i _ => by ring
  rw [Finset.sum_congr rfl e, Finset.sum_add_distrib, Finset.sum_add_distrib, ← Finset.mul_sum,
    Finset.sum_sub_distrib, Finset.sum_const, Finset.sum_const, nsmul_eq_mul, nsmul_eq_mul, ← h]
  ring

theorem dist2_nonneg (D : Nat) (x y : Nat → K) : 0 ≤ dist2 D x y :=
  Finset.sum_nonneg (fun _ _ => sq_nonneg _)

theorem dist2_eq_zero {D : Nat} {x y : Nat → K} : dist2 D x y = 0 ↔ SameRow D x y := by
  unfold dist2 SameRow
  rw [Finset.sum_eq_zero_iff_of_nonneg (fun _ _ => sq_nonneg _)]
  constructor
  · intro h d hd
    have := h d (Finset.mem_range.2 hd)
    exact sub_eq_zero.1 (pow_eq_zero_iff (n := 2) (by norm_num) |>.1 this)
  · intro h d hd
    rw [h d (Finset.mem_range.1 hd), sub_self]; ring

omit [IsStrictOrderedRing K] [LinearOrder K] in
/-- The cost by clusters. -/
theorem cost_clusters (X : Nat → Nat → K) (N D k : Nat) (Mu : Nat → Nat → K) (Z : Nat → Nat)
    (hZ : ∀ i < N, Z i < k) :
    cost X N D Mu Z = ∑ c ∈ Finset.range k, ∑ i ∈ cluster N Z c, dist2 D (X i) (Mu c) := by
  unfold cost cluster
  simp only [Finset.sum_filter]
  rw [Finset.sum_comm]
  apply Finset.sum_congr rfl
  intro i hi
  rw [Finset.sum_ite_eq, if_pos (Finset.mem_range.2 (hZ i (Finset.mem_range.1 hi)))]

omit [LinearOrder K] [IsStrictOrderedRing K] in
/-- The means have the least cost for a given labelling; the excess of other centres. -/
theorem means_optimal {X : Nat → Nat → K} {N D k : Nat} {Mu : Nat → Nat → K} {Z : Nat → Nat}
    (hZ : ∀ i < N, Z i < k) (hm : Means X N D k Mu Z) (Mu' : Nat → Nat → K) :
    cost X N D Mu' Z = cost X N D Mu Z +
      ∑ c ∈ Finset.range k, ((cluster N Z c).card : K) * dist2 D (Mu c) (Mu' c) := by
  rw [cost_clusters X N D k Mu' Z hZ, cost_clusters X N D k Mu Z hZ, ← Finset.sum_add_distrib]
  apply Finset.sum_congr rfl
  intro c hc
  by_cases hne : (cluster N Z c).Nonempty
  · exact cluster_identity X D _ (Mu c) (Mu' c) (fun d hd => (hm c (Finset.mem_range.1 hc) d hd).1 hne)
  · rw [Finset.not_nonempty_iff_eq_empty] at hne
    rw [hne]; simp

theorem nearest_cost_le {X : Nat → Nat → K} {N D k : Nat} {Mu : Nat → Nat → K} {Z : Nat → Nat}
    (h : Nearest X N D k Mu Z) (Z' : Nat → Nat) (hZ' : ∀ i < N, Z' i < k) :
    cost X N D Mu Z ≤ cost X N D Mu Z' :=
  Finset.sum_le_sum (fun i hi => (h i (Finset.mem_range.1 hi)).2.1 _ (hZ' i (Finset.mem_range.1 hi)))

/-! ## Lloyd iterations -/

/-- The centres before iteration `j`. -/
def cen (X : Nat → Nat → K) (N D k : Nat) (Mu : Nat → Nat → K) : Nat → Nat → Nat → K
  | 0 => Mu
  | j + 1 => calcMu X N (lab X D k (cen X N D k Mu j))

/-- `prevDist` before iteration `j`. -/
def prevs (X : Nat → Nat → K) (N D k : Nat) (Mu : Nat → Nat → K) : Nat → K
  | 0 => 0
  | j + 1 => tot X N D k (cen X N D k Mu j)

omit [IsStrictOrderedRing K] in
/-- The iteration at which the loop stops. -/
theorem lloydLoop_spec (X : Nat → Nat → K) (N D k : Nat) (Mu : Nat → Nat → K) (n s : Nat) (Z : Nat → Nat) :
    ∃ j, s ≤ j ∧ j ≤ s + n ∧
      (lloydLoop X N D k (n + 1) (cen X N D k Mu s) Z (prevs X N D k Mu s)).1 = cen X N D k Mu (j + 1) ∧
      (∀ i < N, (lloydLoop X N D k (n + 1) (cen X N D k Mu s) Z (prevs X N D k Mu s)).2 i
        = lab X D k (cen X N D k Mu j) i) ∧
      (∀ i, s ≤ i → i < j → prevs X N D k Mu i ≠ prevs X N D k Mu (i + 1)) ∧
      (j < s + n → prevs X N D k Mu j = prevs X N D k Mu (j + 1)) := by
  induction n generalizing s Z with
  | zero =>
    obtain ⟨h1, h2⟩ := assign_spec X N D k (cen X N D k Mu s) Z
    refine ⟨s, le_rfl, le_rfl, ?_, ?_, fun i hi hj => by omega, fun h => by omega⟩
    · unfold lloydLoop
      simp only
      split_ifs
      · rw [cen]; exact calcMu_congr X N h1
      · unfold lloydLoop; rw [cen]; exact calcMu_congr X N h1
    · intro i hi
      unfold lloydLoop
      simp only
      split_ifs
      · exact h1 i hi
      · unfold lloydLoop; exact h1 i hi
  | succ n ih =>
    obtain ⟨h1, h2⟩ := assign_spec X N D k (cen X N D k Mu s) Z
    have hc : calcMu X N (assignClosest X N D k (cen X N D k Mu s) Z).1 = cen X N D k Mu (s + 1) := by
      rw [cen]; exact calcMu_congr X N h1
    have ht : (assignClosest X N D k (cen X N D k Mu s) Z).2 = prevs X N D k Mu (s + 1) := h2
    rw [lloydLoop, hc, ht]
    by_cases hstop : prevs X N D k Mu s = prevs X N D k Mu (s + 1)
    · rw [if_pos hstop]
      exact ⟨s, le_rfl, by omega, rfl, h1, fun i hi hj => by omega, fun _ => hstop⟩
    · rw [if_neg hstop]
      obtain ⟨j, a1, a2, a3, a4, a5, a6⟩ := ih (s + 1) (assignClosest X N D k (cen X N D k Mu s) Z).1
      refine ⟨j, by omega, by omega, a3, a4, fun i hi hj => ?_, fun hj => a6 (by omega)⟩
      rcases Nat.eq_or_lt_of_le hi with rfl | hlt
      · exact hstop
      · exact a5 i (by omega) hj

omit [IsStrictOrderedRing K] in
theorem runLloyd_spec (X : Nat → Nat → K) (N D k : Nat) (Mu : Nat → Nat → K) (Z : Nat → Nat) (n : Nat) :
    ∃ j ≤ n, (runLloyd X N D k Mu Z ((n + 1 : Nat) : Int)).1 = cen X N D k Mu (j + 1) ∧
      (∀ i < N, (runLloyd X N D k Mu Z ((n + 1 : Nat) : Int)).2 i = lab X D k (cen X N D k Mu j) i) ∧
      (∀ i < j, prevs X N D k Mu i ≠ prevs X N D k Mu (i + 1)) ∧
      (j < n → prevs X N D k Mu j = prevs X N D k Mu (j + 1)) := by
  obtain ⟨j, -, h2, h3, h4, h5, h6⟩ := lloydLoop_spec X N D k Mu n 0 Z
  rw [Nat.zero_add] at h2 h6
  exact ⟨j, h2, h3, h4, fun i hi => h5 i (Nat.zero_le i) hi, h6⟩

omit [IsStrictOrderedRing K] [LinearOrder K] in
theorem cost_congr (X : Nat → Nat → K) (N D : Nat) (Mu : Nat → Nat → K) {Z Z' : Nat → Nat}
    (h : ∀ i < N, Z i = Z' i) : cost X N D Mu Z = cost X N D Mu Z' :=
  Finset.sum_congr rfl (fun i hi => by rw [h i (Finset.mem_range.1 hi)])

/-- Moving the centres to the means does not increase the cost. -/
theorem step_means (X : Nat → Nat → K) (N D k : Nat) (hk : 0 < k) (Mu : Nat → Nat → K) (j : Nat) :
    cost X N D (cen X N D k Mu (j + 1)) (lab X D k (cen X N D k Mu j)) ≤
      cost X N D (cen X N D k Mu j) (lab X D k (cen X N D k Mu j)) := by
  have h := means_optimal (fun i hi => (lab_nearest X N D k hk (cen X N D k Mu j) i hi).1)
    (calcMu_means X N D k (lab X D k (cen X N D k Mu j))) (cen X N D k Mu j)
  rw [h, cen]
  have : 0 ≤ ∑ c ∈ Finset.range k, ((cluster N (lab X D k (cen X N D k Mu j)) c).card : K) *
      dist2 D (calcMu X N (lab X D k (cen X N D k Mu j)) c) (cen X N D k Mu j c) :=
    Finset.sum_nonneg (fun c _ => mul_nonneg (Nat.cast_nonneg _) (dist2_nonneg _ _ _))
  linarith

/-- Relabelling does not increase the cost. -/
theorem step_labels (X : Nat → Nat → K) (N D k : Nat) (hk : 0 < k) (Mu : Nat → Nat → K) (j : Nat) :
    cost X N D (cen X N D k Mu (j + 1)) (lab X D k (cen X N D k Mu (j + 1))) ≤
      cost X N D (cen X N D k Mu (j + 1)) (lab X D k (cen X N D k Mu j)) :=
  nearest_cost_le (lab_nearest X N D k hk _) _
    (fun i hi => (lab_nearest X N D k hk (cen X N D k Mu j) i hi).1)

theorem tot_mono (X : Nat → Nat → K) (N D k : Nat) (hk : 0 < k) (Mu : Nat → Nat → K) (j : Nat) :
    tot X N D k (cen X N D k Mu (j + 1)) ≤ tot X N D k (cen X N D k Mu j) := by
  rw [tot_eq, tot_eq]
  have h1 := step_means X N D k hk Mu j
  have h2 := step_labels X N D k hk Mu j
  linarith

/-- Once two labellings agree, so do the centres after them. -/
theorem tot_collision (X : Nat → Nat → K) (N D k : Nat) (hk : 0 < k) (Mu : Nat → Nat → K) :
    ∃ j ≤ k ^ N + 1, prevs X N D k Mu j = prevs X N D k Mu (j + 1) := by
  by_contra hcon
  push Not at hcon
  have hlt : ∀ i, 1 ≤ i → i ≤ k ^ N + 1 → prevs X N D k Mu (i + 1) < prevs X N D k Mu i := by
    intro i h1 h2
    obtain ⟨m, rfl⟩ : ∃ m, i = m + 1 := ⟨i - 1, by omega⟩
    exact lt_of_le_of_ne (tot_mono X N D k hk Mu m) (hcon (m + 1) h2).symm
  have hchain : ∀ i i', 1 ≤ i → i < i' → i' ≤ k ^ N + 2 → prevs X N D k Mu i' < prevs X N D k Mu i := by
    intro i i' h1 h2 h3
    induction i' with
    | zero => omega
    | succ i' ih =>
      rcases Nat.lt_succ_iff_lt_or_eq.1 h2 with h | rfl
      · exact lt_trans (hlt i' (by omega) (by omega)) (ih h (by omega))
      · exact hlt i h1 (by omega)
  let L : Fin (k ^ N + 1) → (Fin N → Fin k) := fun i a =>
    ⟨lab X D k (cen X N D k Mu i) a, (lab_nearest X N D k hk (cen X N D k Mu i) a a.2).1⟩
  obtain ⟨i, i', hne, heq⟩ := Fintype.exists_ne_map_eq_of_card_lt L (by simp)
  have hc : ∀ a b : Fin (k ^ N + 1), L a = L b →
      cen X N D k Mu (a + 1) = cen X N D k Mu (b + 1) := by
    intro a b hab
    rw [cen, cen]
    apply calcMu_congr
    intro p hp
    have := congrFun hab ⟨p, hp⟩
    exact congrArg Fin.val this
  have hp : ∀ a b : Fin (k ^ N + 1), L a = L b → prevs X N D k Mu (a + 2) = prevs X N D k Mu (b + 2) := by
    intro a b hab
    show tot X N D k (cen X N D k Mu (a + 1)) = tot X N D k (cen X N D k Mu (b + 1))
    rw [hc a b hab]
  have h1 := i.2
  have h2 := i'.2
  rcases lt_or_gt_of_ne (fun h => hne (Fin.ext h)) with h | h
  · have := hchain (i + 2) (i' + 2) (by omega) (by omega) (by omega)
    rw [hp i i' heq] at this
    exact lt_irrefl _ this
  · have := hchain (i' + 2) (i + 2) (by omega) (by omega) (by omega)
    rw [hp i i' heq] at this
    exact lt_irrefl _ this

end KMeans
end Stag
