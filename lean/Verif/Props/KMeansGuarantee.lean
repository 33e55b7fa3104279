import Verif.PlusPlus
import Verif.Props.KMeans
import Verif.Props.SbmSource
import Mathlib.Analysis.SpecialFunctions.Log.Base

/-!
# C72: how good the clustering of k-means++ is

The numbers drawn by the seeding are independent and uniform in `[0, 1)`.
-/

namespace Stag
namespace KMeans

open Finset MeasureTheory
open scoped ENNReal

/-! ## The expected cost of the seeding -/

theorem dist2_comm (D : Nat) (x y : Nat → ℝ) : dist2 D x y = dist2 D y x :=
  Finset.sum_congr rfl fun _ _ => by ring

theorem squared (X : Nat → Nat → ℝ) (N D : Nat) : Squared N (fun i j => dist2 D (X i) (X j)) := by
  refine ⟨fun i j => dist2_nonneg _ _ _, fun i j => dist2_comm _ _ _, fun i j l => ?_⟩
  unfold dist2
  rw [Finset.mul_sum, Finset.mul_sum, ← Finset.sum_add_distrib]
  refine Finset.sum_le_sum fun c _ => ?_
  nlinarith [sq_nonneg ((X i c - X j c) - (X j c - X l c))]

/-- The cost of a cluster with its mean. -/
noncomputable def bestCost (X : Nat → Nat → ℝ) (N D : Nat) (cls : Nat → Nat) (c : Nat) : ℝ :=
  ∑ i ∈ cluster N cls c, dist2 D (X i) (calcMu X N cls c)

theorem pairs_cost (X : Nat → Nat → ℝ) (N D : Nat) (cls : Nat → Nat) (c : Nat) :
    ∑ a ∈ cluster N cls c, ∑ b ∈ cluster N cls c, dist2 D (X a) (X b)
      = 2 * (cluster N cls c).card * bestCost X N D cls c := by
  rcases (cluster N cls c).eq_empty_or_nonempty with h | h
  · simp [h]
  have hm : ∀ d < D, calcMu X N cls c d * ((cluster N cls c).card : ℝ) = ∑ i ∈ cluster N cls c, X i d :=
    fun d hd => ((calcMu_means X N D (c + 1) cls) c (by omega) d hd).1 h
  rw [Finset.sum_comm]
  have e : ∀ b ∈ cluster N cls c, ∑ a ∈ cluster N cls c, dist2 D (X a) (X b)
      = bestCost X N D cls c + (cluster N cls c).card * dist2 D (X b) (calcMu X N cls c) := fun b _ => by
    rw [cluster_identity X D _ (calcMu X N cls c) (X b) hm, dist2_comm D (calcMu X N cls c)]
    rfl
  rw [Finset.sum_congr rfl e, Finset.sum_add_distrib, Finset.sum_const, nsmul_eq_mul, ← Finset.mul_sum]
  unfold bestCost
  ring

theorem near_row (X : Nat → Nat → ℝ) (N D j : Nat) :
    Near (fun i l => dist2 D (X i) (X l)) (fun i => dist2 D (X i) (X j)) :=
  ⟨fun _ => dist2_nonneg _ _ _, fun i l => (squared X N D).tri i l j⟩

/-- The expected cost of the rows chosen as centres. -/
theorem seeding_cost (X : Nat → Nat → ℝ) (N D k : Nat) (cls : Nat → Nat) (hcls : ∀ i < N, cls i < k) :
    ∑ j ∈ range N, meanCost N (fun i l => dist2 D (X i) (X l)) (k - 1) (fun i => dist2 D (X i) (X j))
      ≤ N * (8 * (1 + harm (k - 1)) * ∑ c ∈ range k, bestCost X N D cls c) := by
  set O := ∑ c ∈ range k, bestCost X N D cls c with hO
  have ho0 : ∀ c, 0 ≤ bestCost X N D cls c := fun c => Finset.sum_nonneg fun i _ => dist2_nonneg _ _ _
  have hH : 0 ≤ 1 + harm (k - 1) := by linarith [harm_nonneg (k - 1)]
  have h1 : ∀ j ∈ range N, meanCost N (fun i l => dist2 D (X i) (X l)) (k - 1) (fun i => dist2 D (X i) (X j))
      ≤ (∑ i ∈ cluster N cls (cls j), dist2 D (X i) (X j) + 8 * (O - bestCost X N D cls (cls j))) * (1 + harm (k - 1)) := by
    intro j hj
    have hjk := mem_range.2 (hcls j (mem_range.1 hj))
    have h := meanCost_le (squared X N D) cls (bestCost X N D cls) ho0 (pairs_cost X N D cls) (k - 1)
      ((range k).erase (cls j)) (fun i => dist2 D (X i) (X j)) (near_row X N D j)
      (by rw [Finset.card_erase_of_mem hjk, card_range])
    have hc : (((range k).erase (cls j)).card : ℝ) = ((k - 1 : Nat) : ℝ) := by
      rw [Finset.card_erase_of_mem hjk, card_range]
    rw [hc, sub_self, zero_div, zero_mul, add_zero] at h
    have hset : (range N).filter (fun i => cls i ∉ (range k).erase (cls j)) = cluster N cls (cls j) := by
      ext i
      simp only [mem_filter, mem_range, mem_erase, cluster]
      constructor
      · rintro ⟨h1, h2⟩
        refine ⟨h1, ?_⟩
        by_contra h3
        exact h2 ⟨h3, hcls i h1⟩
      · rintro ⟨h1, h2⟩
        exact ⟨h1, fun h3 => h3.1 h2⟩
    have hsum : ∑ c ∈ (range k).erase (cls j), bestCost X N D cls c = O - bestCost X N D cls (cls j) := by
      rw [hO, ← Finset.add_sum_erase _ _ hjk]; ring
    rwa [hset, hsum] at h
  refine le_trans (Finset.sum_le_sum h1) ?_
  rw [← Finset.sum_mul]
  have h2 : ∑ j ∈ range N, ∑ i ∈ cluster N cls (cls j), dist2 D (X i) (X j)
      = ∑ j ∈ range N, 2 * bestCost X N D cls (cls j) := by
    have e : ∀ (F : Nat → Nat → ℝ), ∑ j ∈ range N, F j (cls j) = ∑ c ∈ range k, ∑ j ∈ cluster N cls c, F j c := by
      intro F
      rw [← Finset.sum_fiberwise_of_maps_to (g := cls) (t := range k) (fun i hi => mem_range.2 (hcls i (mem_range.1 hi)))]
      refine Finset.sum_congr rfl fun c _ => Finset.sum_congr rfl fun j hj => ?_
      rw [(mem_filter.1 hj).2]
    rw [e (fun j c => ∑ i ∈ cluster N cls c, dist2 D (X i) (X j)), e (fun _ c => 2 * bestCost X N D cls c)]
    refine Finset.sum_congr rfl fun c _ => ?_
    rw [Finset.sum_comm, pairs_cost, Finset.sum_const, nsmul_eq_mul]
    ring
  have h3 : ∑ j ∈ range N, (∑ i ∈ cluster N cls (cls j), dist2 D (X i) (X j) + 8 * (O - bestCost X N D cls (cls j)))
      ≤ N * (8 * O) := by
    rw [Finset.sum_add_distrib, h2, ← Finset.sum_add_distrib]
    calc _ ≤ ∑ _j ∈ range N, 8 * O := Finset.sum_le_sum fun j _ => by linarith [ho0 (cls j)]
      _ = _ := by rw [Finset.sum_const, card_range, nsmul_eq_mul]
  calc _ ≤ (N * (8 * O)) * (1 + harm (k - 1)) := mul_le_mul_of_nonneg_right h3 hH
    _ = _ := by ring

theorem harm_le (t : Nat) : harm (t + 1) ≤ 1 + Real.log ((t : ℝ) + 1) := by
  induction t with
  | zero => simp [harm]
  | succ t ih =>
    rw [harm_succ]
    have h := Real.one_sub_inv_le_log_of_pos (x := ((t : ℝ) + 2) / (t + 1)) (by positivity)
    rw [Real.log_div (by positivity) (by positivity)] at h
    have e : 1 - (((t : ℝ) + 2) / (t + 1))⁻¹ = 1 / (((t + 1 : Nat) : ℝ) + 1) := by
      push_cast
      field_simp
      ring
    rw [e] at h
    have e2 : ((t + 1 : Nat) : ℝ) + 1 = (t : ℝ) + 2 := by push_cast; ring
    rw [e2] at h ⊢
    linarith

theorem harm_pred_le (k : Nat) (hk : 0 < k) : 1 + harm (k - 1) ≤ Real.log k + 2 := by
  obtain ⟨t, rfl⟩ : ∃ t, k = t + 1 := ⟨k - 1, by omega⟩
  have h1 := harm_le t
  rw [harm_succ] at h1
  have h2 : (0 : ℝ) ≤ 1 / (t + 1) := by positivity
  simp only [Nat.add_sub_cancel]
  push_cast
  linarith

/-! ## The law of the draws -/

theorem measurable_discreteLoop (p : Nat → ℝ) (j left : Nat) : ∀ (newk : Nat) (cs T : ℝ),
    MeasurableSet {x : ℝ | discreteLoop p (T * x) left newk cs = j} := by
  induction left with
  | zero =>
    intro newk cs T
    by_cases h : newk = j <;> simp [discreteLoop, h]
  | succ left ih =>
    intro newk cs T
    have hm : MeasurableSet {x : ℝ | cs ≤ T * x} := measurableSet_le measurable_const (measurable_id.const_mul T)
    have e : {x : ℝ | discreteLoop p (T * x) (left + 1) newk cs = j}
        = ({x | cs ≤ T * x} ∩ {x | discreteLoop p (T * x) left (newk + 1) (cs + p (newk + 1)) = j})
          ∪ ({x | cs ≤ T * x}ᶜ ∩ {_x | newk = j}) := by
      ext x
      simp only [Set.mem_ofPred_eq, Set.mem_union, Set.mem_inter_iff, Set.mem_compl_iff, discreteLoop]
      by_cases h : cs ≤ T * x <;> simp [h]
    rw [e]
    exact (hm.inter (ih _ _ _)).union (hm.compl.inter (MeasurableSet.const _))

theorem discreteLoop_zero (p : Nat → ℝ) (left newk : Nat) (h : ∀ i ≤ newk + left, p i = 0) :
    discreteLoop p 0 left newk 0 = newk + left := by
  induction left generalizing newk with
  | zero => rfl
  | succ left ih =>
    rw [discreteLoop, if_pos le_rfl, h (newk + 1) (by omega), add_zero, ih (newk + 1) (fun i hi => h i (by omega))]
    omega

/-- The distribution of `discrete_rand`: proportional to the weights; if they are all zero, the last index. -/
noncomputable def weightedLaw (p : Nat → ℝ) (N : Nat) : PMF Nat :=
  if h : 0 < ∑ i ∈ range N, p i ∧ ∀ i < N, 0 ≤ p i then
    PMF.ofFinset (fun j => if j < N then ENNReal.ofReal (p j / ∑ i ∈ range N, p i) else 0) (range N) (by
      rw [Finset.sum_congr rfl (fun j hj => if_pos (mem_range.1 hj)), ← ENNReal.ofReal_sum_of_nonneg
        (fun j hj => div_nonneg (h.2 j (mem_range.1 hj)) h.1.le), ← Finset.sum_div, div_self h.1.ne', ENNReal.ofReal_one])
      (fun j hj => if_neg (fun h => hj (mem_range.2 h)))
  else PMF.pure (N - 1)

theorem weightedLaw_apply {p : Nat → ℝ} {N : Nat} (h : 0 < ∑ i ∈ range N, p i) (hp : ∀ i < N, 0 ≤ p i) (j : Nat) :
    weightedLaw p N j = if j < N then ENNReal.ofReal (p j / ∑ i ∈ range N, p i) else 0 := by
  unfold weightedLaw
  rw [dif_pos ⟨h, hp⟩, PMF.ofFinset_apply]

theorem discreteRand_law (p : Nat → ℝ) (N : Nat) (hN : 0 < N) (hp : ∀ i < N, 0 ≤ p i) (j : Nat) :
    MeasurableSet {x : ℝ | discreteRand p N x = j} ∧ unif {x : ℝ | discreteRand p N x = j} = weightedLaw p N j := by
  have hm : MeasurableSet {x : ℝ | discreteRand p N x = j} := measurable_discreteLoop p j _ _ _ _
  refine ⟨hm, ?_⟩
  rcases (Finset.sum_nonneg fun i hi => hp i (mem_range.1 hi) : 0 ≤ ∑ i ∈ range N, p i).eq_or_lt with h0 | hpos
  · have hz : ∀ i < N, p i = 0 := by
      intro i hi
      exact (Finset.sum_eq_zero_iff_of_nonneg (fun i hi => hp i (mem_range.1 hi))).1 h0.symm i (mem_range.2 hi)
    have hl : ((List.range N).map p).sum = 0 := by
      rw [sum_list_range]; exact h0.symm
    have hval : ∀ x : ℝ, discreteRand p N x = N - 1 := by
      intro x
      unfold discreteRand
      simp only
      rw [hl, zero_mul, hz 0 hN, discreteLoop_zero p _ _ (fun i hi => hz i (by omega))]
      omega
    unfold weightedLaw
    rw [dif_neg (by rw [← h0]; simp), PMF.pure_apply]
    simp only [hval]
    by_cases h : j = N - 1
    · rw [if_pos h, ← h]; simp
    · rw [if_neg h]
      have : ¬ N - 1 = j := fun e => h e.symm
      simp [this]
  · rw [weightedLaw_apply hpos hp]
    by_cases hj : j < N
    · rw [if_pos hj]
      set T := ∑ i ∈ range N, p i with hT
      have hS : (0 : ℝ) ≤ ∑ i ∈ range j, p i :=
        Finset.sum_nonneg fun i hi => hp i (lt_trans (mem_range.1 hi) hj)
      have hS2 : ∑ i ∈ range j, p i + p j ≤ T := by
        rw [← Finset.sum_range_succ]
        exact Finset.sum_le_sum_of_subset_of_nonneg (Finset.range_mono (by omega)) fun i hi _ => hp i (mem_range.1 hi)
      rw [unif_apply hm (a := (∑ i ∈ range j, p i) / T) (b := (∑ i ∈ range j, p i) / T + p j / T)]
      · congr 1; ring
      · ext x
        simp only [Set.mem_inter_iff, Set.mem_ofPred_eq, Set.mem_Ico]
        constructor
        · rintro ⟨h1, h2, h3⟩
          exact ((C55_weighted_choice p N hp hpos x h2 h3 j).1.1 h1).2
        · rintro ⟨h1, h2⟩
          have h3 : 0 ≤ x := le_trans (div_nonneg hS hpos.le) h1
          have h4 : x < 1 := by
            refine lt_of_lt_of_le h2 ?_
            rw [← add_div, div_le_one hpos]
            exact hS2
          exact ⟨(C55_weighted_choice p N hp hpos x h3 h4 j).1.2 ⟨hj, h1, h2⟩, h3, h4⟩
    · rw [if_neg hj]
      have : {x : ℝ | discreteRand p N x = j} = ∅ := by
        ext x
        simp only [Set.mem_ofPred_eq, Set.mem_empty_iff_false, iff_false]
        intro h
        exact hj (h ▸ discreteRand_lt p N hN x)
      rw [this, measure_empty]

/-- The next `t` choices, with the numbers of the sequence. -/
noncomputable def chooseRun (N : Nat) (d : Nat → Nat → ℝ) : Nat → (Nat → ℝ) → (Nat → ℝ) → List Nat × (Nat → ℝ)
  | 0, _, s => ([], s)
  | t + 1, f, s =>
    let j := discreteRand f N (s 0)
    let r := chooseRun N d t (fun i => min (d i j) (f i)) (shift s)
    (j :: r.1, r.2)

/-- Their distribution: every choice proportional to the distance to the nearest centre. -/
noncomputable def chooseLaw (N : Nat) (d : Nat → Nat → ℝ) : Nat → (Nat → ℝ) → PMF (List Nat)
  | 0, _ => PMF.pure []
  | t + 1, f => (weightedLaw f N).bind fun j => (chooseLaw N d t (fun i => min (d i j) (f i))).map (j :: ·)

/-- The cost after some choices. -/
noncomputable def costAfter (N : Nat) (d : Nat → Nat → ℝ) : List Nat → (Nat → ℝ) → ℝ
  | [], f => ∑ i ∈ range N, f i
  | j :: l, f => costAfter N d l (fun i => min (d i j) (f i))

theorem costAfter_nonneg {N : Nat} {d : Nat → Nat → ℝ} (hd : Squared N d) : ∀ (l : List Nat) (f : Nat → ℝ), Near d f →
    0 ≤ costAfter N d l f
  | [], _, hf => Finset.sum_nonneg fun i _ => hf.nonneg i
  | _ :: l, _, hf => costAfter_nonneg hd l _ (hf.step hd _)

theorem StepLaw.mapInj {Ω α β : Type} [MeasurableSpace Ω] [Countable α] {μ : Measure Ω} {F : Ω → α → Ω → Prop} {p : PMF α}
    (h : StepLaw μ F p) (g : α → β) : StepLaw μ (fun s b s' => ∃ a, F s a s' ∧ b = g a) (p.map g) := by
  have h2 := h.bindP (H := fun a s b s' => b = g a ∧ s' = s) (q := fun a => PMF.pure (g a)) fun a => StepLaw.pure (g a)
  refine h2.congr (fun s b s' => ?_) fun b => rfl
  constructor
  · rintro ⟨a, h1, h2⟩; exact ⟨a, s', h1, h2, rfl⟩
  · rintro ⟨a, t, h1, h2, rfl⟩; exact ⟨a, h1, h2⟩

theorem chooseRun_law {N : Nat} (hN : 0 < N) {d : Nat → Nat → ℝ} (hd : Squared N d) : ∀ (t : Nat) (f : Nat → ℝ), Near d f →
    StepLaw (streamLaw unif) (stepOf (chooseRun N d t f)) (chooseLaw N d t f) := by
  intro t
  induction t with
  | zero =>
    intro f _
    refine (StepLaw.pure (μ := streamLaw unif) ([] : List Nat)).congr (fun s a s' => ?_) fun b => rfl
    simp only [stepOf, chooseRun, Prod.mk.injEq]
    constructor
    · rintro ⟨rfl, rfl⟩; exact ⟨rfl, rfl⟩
    · rintro ⟨rfl, rfl⟩; exact ⟨rfl, rfl⟩
  | succ t ih =>
    intro f hf
    have h1 := head_step unif (discreteRand f N) (fun j => (discreteRand_law f N hN (fun i _ => hf.nonneg i) j).1)
      (weightedLaw f N) (fun j => (discreteRand_law f N hN (fun i _ => hf.nonneg i) j).2)
    have h2 := h1.bindP fun j => StepLaw.mapInj (ih _ (hf.step hd j)) (j :: ·)
    refine h2.congr (fun s a s' => ?_) fun b => rfl
    simp only [stepOf, chooseRun]
    constructor
    · intro h
      rw [Prod.mk.injEq] at h
      exact ⟨_, _, rfl, _, Prod.ext rfl h.2, h.1.symm⟩
    · rintro ⟨j, s1, h3, l, h4, rfl⟩
      rw [Prod.mk.injEq] at h3
      obtain ⟨rfl, rfl⟩ := h3
      rw [h4]

/-- The expected cost after the choices. -/
theorem chooseLaw_expect {N : Nat} {d : Nat → Nat → ℝ} (hd : Squared N d) : ∀ (t : Nat) (f : Nat → ℝ), Near d f →
    PMF.expect (chooseLaw N d t f) (fun l => ENNReal.ofReal (costAfter N d l f)) = ENNReal.ofReal (meanCost N d t f) ∧
      0 ≤ meanCost N d t f := by
  intro t
  induction t with
  | zero =>
    intro f hf
    rw [chooseLaw, expect_pure]
    exact ⟨rfl, Finset.sum_nonneg fun i _ => hf.nonneg i⟩
  | succ t ih =>
    intro f hf
    have hnn : 0 ≤ ∑ i ∈ range N, f i := Finset.sum_nonneg fun i _ => hf.nonneg i
    refine ⟨?_, Finset.sum_nonneg fun j _ => mul_nonneg (div_nonneg (hf.nonneg j) hnn) (ih _ (hf.step hd j)).2⟩
    rw [chooseLaw, expect_bind]
    have e : (fun j => PMF.expect ((chooseLaw N d t (fun i => min (d i j) (f i))).map (j :: ·))
        fun l => ENNReal.ofReal (costAfter N d l f))
        = fun j => ENNReal.ofReal (meanCost N d t (fun i => min (d i j) (f i))) := by
      funext j
      rw [expect_map]
      exact (ih _ (hf.step hd j)).1
    rw [e]
    rcases hnn.eq_or_lt with h0 | hpos
    · -- all distances are zero
      have hzero : ∀ (t : Nat) (f : Nat → ℝ), Near d f → ∑ i ∈ range N, f i = 0 → meanCost N d t f = 0 := by
        intro t f _ h
        cases t with
        | zero => exact h
        | succ t => simp [meanCost, h]
      rw [hzero (t + 1) f hf h0.symm, ENNReal.ofReal_zero]
      unfold PMF.expect
      rw [ENNReal.tsum_eq_zero]
      intro j
      beta_reduce
      rw [hzero t _ (hf.step hd j), ENNReal.ofReal_zero, mul_zero]
      refine le_antisymm ?_ (Finset.sum_nonneg fun i _ => (hf.step hd j).nonneg i)
      rw [h0]
      exact Finset.sum_le_sum fun i _ => min_le_right _ _
    · unfold PMF.expect
      rw [tsum_eq_sum (s := range N)]
      · rw [meanCost, ENNReal.ofReal_sum_of_nonneg]
        · refine Finset.sum_congr rfl fun j hj => ?_
          rw [weightedLaw_apply hpos (fun i _ => hf.nonneg i), if_pos (mem_range.1 hj), ENNReal.ofReal_mul]
          exact div_nonneg (hf.nonneg j) hnn
        · intro j _
          exact mul_nonneg (div_nonneg (hf.nonneg j) hnn) (ih _ (hf.step hd j)).2
      · intro j hj
        rw [weightedLaw_apply hpos (fun i _ => hf.nonneg i), if_neg (fun h => hj (mem_range.2 h)), zero_mul]

/-! ## The whole seeding -/

/-- The first choice. -/
noncomputable def firstRow (N : Nat) (x : ℝ) : Nat := ⌊(N : ℝ) * x⌋.toNat

theorem firstRow_law (N : Nat) (hN : 0 < N) (j : Nat) :
    MeasurableSet {x : ℝ | firstRow N x = j} ∧
      unif {x : ℝ | firstRow N x = j} = if j < N then (N : ℝ≥0∞)⁻¹ else 0 := by
  have hm : MeasurableSet {x : ℝ | firstRow N x = j} := by
    have h1 : Measurable fun x : ℝ => ⌊(N : ℝ) * x⌋ := Int.measurable_floor.comp (measurable_id.const_mul _)
    have h2 : MeasurableSet {z : Int | z.toNat = j} := trivial
    exact h1 h2
  have hNr : (0 : ℝ) < N := by exact_mod_cast hN
  refine ⟨hm, ?_⟩
  have key : ∀ x : ℝ, 0 ≤ x → (firstRow N x = j ↔ (j : ℝ) / N ≤ x ∧ x < (j + 1 : ℝ) / N) := by
    intro x hx
    have h0 : 0 ≤ ⌊(N : ℝ) * x⌋ := Int.floor_nonneg.2 (by positivity)
    unfold firstRow
    rw [div_le_iff₀ hNr, lt_div_iff₀ hNr, mul_comm x]
    constructor
    · intro h
      have h' : ⌊(N : ℝ) * x⌋ = (j : Int) := by omega
      rw [Int.floor_eq_iff] at h'
      exact_mod_cast h'
    · intro h
      have h' : ⌊(N : ℝ) * x⌋ = (j : Int) := by
        rw [Int.floor_eq_iff]
        exact_mod_cast h
      omega
  by_cases hj : j < N
  · rw [if_pos hj, unif_apply hm (a := (j : ℝ) / N) (b := (j + 1 : ℝ) / N)]
    · rw [← sub_div, add_sub_cancel_left, ENNReal.ofReal_div_of_pos hNr, ENNReal.ofReal_one, ENNReal.ofReal_natCast, one_div]
    · ext x
      simp only [Set.mem_inter_iff, Set.mem_ofPred_eq, Set.mem_Ico]
      constructor
      · rintro ⟨h1, h2, -⟩
        exact (key x h2).1 h1
      · rintro ⟨h1, h2⟩
        have h3 : 0 ≤ x := le_trans (by positivity) h1
        refine ⟨(key x h3).2 ⟨h1, h2⟩, h3, lt_of_lt_of_le h2 ?_⟩
        rw [div_le_one hNr]
        exact_mod_cast hj
  · rw [if_neg hj, unif_apply hm (a := 0) (b := 0)]
    · simp
    · ext x
      simp only [Set.mem_inter_iff, Set.mem_ofPred_eq, Set.mem_Ico]
      constructor
      · rintro ⟨h1, h2, h3⟩
        have h4 := ((key x h2).1 h1).1
        rw [div_le_iff₀ hNr] at h4
        have h5 : (N : ℝ) ≤ j := by exact_mod_cast Nat.le_of_not_lt hj
        nlinarith
      · rintro ⟨h1, h2⟩
        linarith

/-- A uniform row. -/
noncomputable def uniformRow (N : Nat) (hN : 0 < N) : PMF Nat :=
  PMF.uniformOfFinset (range N) (Finset.nonempty_range_iff.2 hN.ne')

theorem uniformRow_apply (N : Nat) (hN : 0 < N) (j : Nat) : uniformRow N hN j = if j < N then (N : ℝ≥0∞)⁻¹ else 0 := by
  unfold uniformRow
  by_cases h : j < N
  · rw [if_pos h, PMF.uniformOfFinset_apply_of_mem _ (mem_range.2 h), card_range]
  · rw [if_neg h, PMF.uniformOfFinset_apply_of_notMem _ (fun h' => h (mem_range.1 h'))]

/-- The distribution of the rows chosen as centres: the first one uniform, every further one with probability proportional
to the squared distance to the nearest centre before it. -/
noncomputable def seedLaw (X : Nat → Nat → ℝ) (N D t : Nat) (hN : 0 < N) : PMF (List Nat) :=
  (uniformRow N hN).bind fun j =>
    (chooseLaw N (fun i l => dist2 D (X i) (X l)) t (fun i => dist2 D (X i) (X j))).map (j :: ·)

/-- The rows chosen by the code. -/
noncomputable def seedRun (X : Nat → Nat → ℝ) (N D t : Nat) (s : Nat → ℝ) : List Nat × (Nat → ℝ) :=
  let j := firstRow N (s 0)
  let r := chooseRun N (fun i l => dist2 D (X i) (X l)) t (fun i => dist2 D (X i) (X j)) (shift s)
  (j :: r.1, r.2)

theorem seedRun_law (X : Nat → Nat → ℝ) (N D t : Nat) (hN : 0 < N) :
    StepLaw (streamLaw unif) (stepOf (seedRun X N D t)) (seedLaw X N D t hN) := by
  have h1 := head_step unif (firstRow N) (fun j => (firstRow_law N hN j).1)
    (uniformRow N hN) (fun j => by
      rw [(firstRow_law N hN j).2, uniformRow_apply])
  have h2 := h1.bindP fun j => StepLaw.mapInj (chooseRun_law hN (squared X N D) t _ (near_row X N D j)) (j :: ·)
  refine h2.congr (fun s a s' => ?_) fun b => rfl
  simp only [stepOf, seedRun]
  constructor
  · intro h
    rw [Prod.mk.injEq] at h
    exact ⟨_, _, rfl, _, Prod.ext rfl h.2, h.1.symm⟩
  · rintro ⟨j, s1, h3, l, h4, rfl⟩
    rw [Prod.mk.injEq] at h3
    obtain ⟨rfl, rfl⟩ := h3
    rw [h4]

/-- The cost of the chosen rows. -/
noncomputable def seedCost (X : Nat → Nat → ℝ) (N D : Nat) : List Nat → ℝ
  | [] => 0
  | j :: l => costAfter N (fun i l => dist2 D (X i) (X l)) l (fun i => dist2 D (X i) (X j))

theorem seedLaw_expect (X : Nat → Nat → ℝ) (N D k : Nat) (hN : 0 < N) (cls : Nat → Nat) (hcls : ∀ i < N, cls i < k) :
    PMF.expect (seedLaw X N D (k - 1) hN) (fun l => ENNReal.ofReal (seedCost X N D l))
      ≤ ENNReal.ofReal (8 * (1 + harm (k - 1)) * ∑ c ∈ range k, bestCost X N D cls c) := by
  have hNr : (0 : ℝ) < N := by exact_mod_cast hN
  unfold seedLaw
  rw [expect_bind]
  have e : (fun j => PMF.expect ((chooseLaw N (fun i l => dist2 D (X i) (X l)) (k - 1)
      (fun i => dist2 D (X i) (X j))).map (j :: ·)) fun l => ENNReal.ofReal (seedCost X N D l))
      = fun j => ENNReal.ofReal (meanCost N (fun i l => dist2 D (X i) (X l)) (k - 1) (fun i => dist2 D (X i) (X j))) := by
    funext j
    rw [expect_map]
    exact (chooseLaw_expect (squared X N D) _ _ (near_row X N D j)).1
  rw [e]
  unfold PMF.expect
  rw [tsum_eq_sum (s := range N)]
  · have e2 : ∀ j ∈ range N, uniformRow N hN j
        * ENNReal.ofReal (meanCost N (fun i l => dist2 D (X i) (X l)) (k - 1) (fun i => dist2 D (X i) (X j)))
        = (N : ℝ≥0∞)⁻¹ * ENNReal.ofReal (meanCost N (fun i l => dist2 D (X i) (X l)) (k - 1) (fun i => dist2 D (X i) (X j))) :=
      fun j hj => by rw [uniformRow_apply, if_pos (mem_range.1 hj)]
    rw [Finset.sum_congr rfl e2, ← Finset.mul_sum, ← ENNReal.ofReal_sum_of_nonneg
      (fun j _ => (chooseLaw_expect (squared X N D) _ _ (near_row X N D j)).2)]
    have h := seeding_cost X N D k cls hcls
    calc _ ≤ (N : ℝ≥0∞)⁻¹ * ENNReal.ofReal (N * (8 * (1 + harm (k - 1)) * ∑ c ∈ range k, bestCost X N D cls c)) := by
          gcongr
      _ = _ := by
        rw [ENNReal.ofReal_mul hNr.le, ENNReal.ofReal_natCast, ← mul_assoc, ENNReal.inv_mul_cancel, one_mul]
        · exact_mod_cast hN.ne'
        · exact ENNReal.natCast_ne_top N
  · intro j hj
    rw [uniformRow_apply, if_neg (fun h => hj (mem_range.2 h)), zero_mul]

/-! ## The result of the code -/

theorem chooseRun_near (X : Nat → Nat → ℝ) (N D : Nat) (u : Nat → ℝ) (ch : Nat → Nat) (t : Nat) : ∀ c : Nat,
    (∀ a, c ≤ a → a < c + t → ch (a + 1) = discreteRand (nearDist X D ch a) N (u (a + 1))) →
    (chooseRun N (fun i l => dist2 D (X i) (X l)) t (nearDist X D ch c) (fun n => u (n + (c + 1)))).1
      = (List.range t).map (fun a => ch (c + 1 + a)) ∧
    costAfter N (fun i l => dist2 D (X i) (X l))
      (chooseRun N (fun i l => dist2 D (X i) (X l)) t (nearDist X D ch c) (fun n => u (n + (c + 1)))).1 (nearDist X D ch c)
      = ∑ i ∈ range N, nearDist X D ch (c + t) i := by
  induction t with
  | zero =>
    intro c _
    exact ⟨rfl, rfl⟩
  | succ t ih =>
    intro c hch
    have h1 := hch c le_rfl (by omega)
    have hf : (fun i => min (dist2 D (X i) (X (ch (c + 1)))) (nearDist X D ch c i)) = nearDist X D ch (c + 1) := by
      funext i
      rw [nearDist_succ]
    have hsh : shift (fun n => u (n + (c + 1))) = fun n => u (n + (c + 1 + 1)) := by
      funext n
      simp only [shift]
      congr 1
      omega
    obtain ⟨ih1, ih2⟩ := ih (c + 1) (fun a h2 h3 => hch a (by omega) (by omega))
    have e : (chooseRun N (fun i l => dist2 D (X i) (X l)) (t + 1) (nearDist X D ch c) (fun n => u (n + (c + 1)))).1
        = ch (c + 1) :: (chooseRun N (fun i l => dist2 D (X i) (X l)) t (nearDist X D ch (c + 1))
            (fun n => u (n + (c + 1 + 1)))).1 := by
      rw [chooseRun]
      simp only [zero_add]
      rw [← h1, hf, hsh]
    rw [e]
    constructor
    · rw [ih1, List.range_succ_eq_map, List.map_cons, List.map_map]
      congr 1
      apply List.map_congr_left
      intro a _
      simp only [Function.comp]
      congr 1
      omega
    · rw [costAfter, hf, ih2]
      rw [show c + 1 + t = c + (t + 1) by omega]

/-- What the code returns, in terms of the chosen rows. -/
theorem seeds (X : Nat → Nat → ℝ) (N D k : Nat) (hN : 0 < N) (hk : 0 < k) (u : Nat → ℝ) (h0 : 0 ≤ u 0) (h1 : u 0 < 1)
    (Mu : Nat → Nat → ℝ) (junk : Nat → ℝ) : ∃ M : Nat → Nat → ℝ, sampleRowsPlusPlus X N D k u Mu junk = .ok M ∧
      (seedRun X N D (min k N - 1) u).1.length = min k N ∧
      (∀ c < min k N, ∃ j < N, (seedRun X N D (min k N - 1) u).1[c]? = some j ∧ M c = X j) ∧
      seedCost X N D (seedRun X N D (min k N - 1) u).1
        = ∑ i ∈ range N, (range (min k N)).inf' (Finset.nonempty_range_iff.2 (by omega)) (fun c => dist2 D (X i) (M c)) := by
  obtain ⟨M, ch, hM, ⟨c0, c0'⟩, hrow, -, hnext⟩ := (C55_seeding X N D k hN hk u h0 Mu junk).1 h1
  have hfirst : firstRow N (u 0) = ch 0 := by
    have : ⌊(N : ℝ) * u 0⌋ = (ch 0 : Int) := by
      rw [Int.floor_eq_iff]
      push_cast
      exact ⟨c0, c0'⟩
    unfold firstRow
    omega
  have hnd : (fun i => dist2 D (X i) (X (ch 0))) = nearDist X D ch 0 := by
    funext i
    rw [nearDist_zero]
  obtain ⟨r1, r2⟩ := chooseRun_near X N D u ch (min k N - 1) 0 (fun a _ ha => hnext a (by omega))
  have hrun : (seedRun X N D (min k N - 1) u).1 = ch 0 :: (chooseRun N (fun i l => dist2 D (X i) (X l)) (min k N - 1)
      (nearDist X D ch 0) (fun n => u (n + (0 + 1)))).1 := by
    unfold seedRun
    simp only
    rw [hfirst, hnd]
    rfl
  refine ⟨M, hM, ?_, fun c hc => ?_, ?_⟩
  · rw [hrun, r1]
    simp
    omega
  · refine ⟨ch c, (hrow c hc).1, ?_, (hrow c hc).2⟩
    rw [hrun, r1]
    cases c with
    | zero => rfl
    | succ c =>
      rw [List.getElem?_cons_succ, List.getElem?_map, List.getElem?_range (by omega)]
      simp only [Option.map_some]
      rw [show 0 + 1 + c = c + 1 by omega]
  · rw [hrun, seedCost, hnd, r2]
    refine Finset.sum_congr rfl fun i _ => ?_
    unfold nearDist
    have hm : 0 + (min k N - 1) + 1 = min k N := by omega
    have hr : range (0 + (min k N - 1) + 1) = range (min k N) := by rw [hm]
    apply Finset.inf'_congr _ hr
    intro c hc
    rw [hr] at hc
    rw [(hrow c (mem_range.1 hc)).2]

/-- The cost of what `RunKMeans` returns; infinite if the call is undefined. -/
noncomputable def resultCost (X : Nat → Nat → ℝ) (N D : Nat) : Outcome ((Nat → Nat → ℝ) × (Nat → Nat)) → ℝ≥0∞
  | .ok r => ENNReal.ofReal (cost X N D r.1 r.2)
  | _ => ⊤

theorem result_le_seed (X : Nat → Nat → ℝ) (N D k : Nat) (hN : 0 < N) (hk : 0 < k) (Niter : Int) (hI : 1 ≤ Niter)
    (u : Nat → ℝ) (h0 : 0 ≤ u 0) (h1 : u 0 < 1) (Mu : Nat → Nat → ℝ) (Z : Nat → Nat) (junk : Nat → ℝ) :
    resultCost X N D (runKMeans X N D k Niter u Mu Z junk)
      ≤ ENNReal.ofReal (seedCost X N D (seedRun X N D (min k N - 1) u).1) := by
  obtain ⟨M, hM, -, -, hc⟩ := seeds X N D k hN hk u h0 h1 Mu junk
  have hne : (range (min k N)).Nonempty := Finset.nonempty_range_iff.2 (by omega)
  unfold runKMeans
  rw [hM]
  simp only [Outcome.bind, resultCost]
  apply ENNReal.ofReal_le_ofReal
  rw [hc]
  -- the label of the nearest seed
  have hlab : ∀ i, ∃ c < k, (range (min k N)).inf' hne (fun c => dist2 D (X i) (M c)) = dist2 D (X i) (M c) := by
    intro i
    obtain ⟨c, hc, he⟩ := Finset.exists_mem_eq_inf' hne (fun c => dist2 D (X i) (M c))
    exact ⟨c, by rw [mem_range] at hc; omega, he⟩
  choose Z' hZ1 hZ2 using hlab
  obtain ⟨n, rfl⟩ : ∃ n : Nat, Niter = (n : Int) := ⟨Niter.toNat, by omega⟩
  refine le_trans ((C55_monotone X N D k hk M Z n n (by omega) le_rfl).2 Z' (fun i _ => hZ1 i)) (le_of_eq ?_)
  unfold cost
  exact Finset.sum_congr rfl fun i _ => (hZ2 i).symm

/-- Almost all sequences consist of numbers in `[0, 1)`. -/
theorem ae_unit : ∀ᵐ u ∂streamLaw unif, 0 ≤ u 0 ∧ u 0 < 1 := by
  have h := (head_step unif (fun x : ℝ => decide (0 ≤ x ∧ x < 1))
    (fun a => by
      have h1 : MeasurableSet (Set.Ico (0 : ℝ) 1) := measurableSet_Ico
      cases a
      · have : {x : ℝ | decide (0 ≤ x ∧ x < 1) = false} = (Set.Ico 0 1)ᶜ := by
          ext x; simp only [Set.mem_ofPred_eq, decide_eq_false_iff_not, Set.mem_compl_iff, Set.mem_Ico]
        rw [this]; exact h1.compl
      · have : {x : ℝ | decide (0 ≤ x ∧ x < 1) = true} = Set.Ico 0 1 := by
          ext x; simp
        rw [this]; exact h1) _ (fun a => rfl)).prob false
  have e : unif {x : ℝ | decide (0 ≤ x ∧ x < 1) = false} = 0 := by
    have : {x : ℝ | decide (0 ≤ x ∧ x < 1) = false} = (Set.Ico 0 1)ᶜ := by
      ext x; simp only [Set.mem_ofPred_eq, decide_eq_false_iff_not, Set.mem_compl_iff, Set.mem_Ico]
    rw [this]
    unfold unif
    rw [Measure.restrict_apply measurableSet_Ico.compl]
    simp
  rw [e] at h
  rw [ae_iff]
  refine measure_mono_null (fun u hu => ?_) h
  refine ⟨shift u, ?_⟩
  simp only [stepOf, Prod.mk.injEq, and_true, decide_eq_false_iff_not]
  exact hu

theorem bestCost_le (X : Nat → Nat → ℝ) (N D k : Nat) (Z : Nat → Nat) (hZ : ∀ i < N, Z i < k) (Mu : Nat → Nat → ℝ) :
    ∑ c ∈ range k, bestCost X N D Z c ≤ cost X N D Mu Z := by
  rw [means_optimal hZ (calcMu_means X N D k Z) Mu, cost_clusters X N D k _ Z hZ]
  have : 0 ≤ ∑ c ∈ Finset.range k, ((cluster N Z c).card : ℝ) * dist2 D (calcMu X N Z c) (Mu c) :=
    Finset.sum_nonneg fun c _ => mul_nonneg (Nat.cast_nonneg _) (dist2_nonneg _ _ _)
  unfold bestCost
  linarith

theorem seed_expect (X : Nat → Nat → ℝ) (N D k : Nat) (hN : 0 < N) (hk : 0 < k) (Mu' : Nat → Nat → ℝ) (Z' : Nat → Nat)
    (hZ' : ∀ i < N, Z' i < k) :
    ∫⁻ u, ENNReal.ofReal (seedCost X N D (seedRun X N D (min k N - 1) u).1) ∂streamLaw unif
      ≤ ENNReal.ofReal (8 * (Real.log k + 2) * cost X N D Mu' Z') := by
  have hcost : 0 ≤ cost X N D Mu' Z' := Finset.sum_nonneg fun i _ => dist2_nonneg _ _ _
  have hlog : 0 ≤ Real.log k := Real.log_natCast_nonneg k
  rw [(seedRun_law X N D (min k N - 1) hN).expect (fun l => ENNReal.ofReal (seedCost X N D l)) _
    (fun s a s' h => by
      simp only [stepOf] at h
      rw [h])]
  by_cases hkN : k ≤ N
  · rw [min_eq_left hkN]
    refine le_trans (seedLaw_expect X N D k hN Z' hZ') (ENNReal.ofReal_le_ofReal ?_)
    have h1 := harm_pred_le k hk
    have h2 := bestCost_le X N D k Z' hZ' Mu'
    have h3 : 0 ≤ ∑ c ∈ range k, bestCost X N D Z' c :=
      Finset.sum_nonneg fun c _ => Finset.sum_nonneg fun i _ => dist2_nonneg _ _ _
    have h4 : 0 ≤ 1 + harm (k - 1) := by linarith [harm_nonneg (k - 1)]
    calc 8 * (1 + harm (k - 1)) * ∑ c ∈ range k, bestCost X N D Z' c
        ≤ 8 * (Real.log k + 2) * ∑ c ∈ range k, bestCost X N D Z' c := mul_le_mul_of_nonneg_right (by linarith) h3
      _ ≤ _ := mul_le_mul_of_nonneg_left h2 (by linarith)
  · rw [min_eq_right (by omega)]
    refine le_trans (seedLaw_expect X N D N hN id (fun i hi => hi)) ?_
    have h0 : ∑ c ∈ range N, bestCost X N D id c ≤ 0 := by
      refine le_trans (bestCost_le X N D N id (fun i hi => hi) X) (le_of_eq ?_)
      unfold cost
      exact Finset.sum_eq_zero fun i _ => dist2_eq_zero.2 fun d _ => rfl
    have h3 : 0 ≤ ∑ c ∈ range N, bestCost X N D id c :=
      Finset.sum_nonneg fun c _ => Finset.sum_nonneg fun i _ => dist2_nonneg _ _ _
    rw [le_antisymm h0 h3, mul_zero, ENNReal.ofReal_zero]
    exact zero_le

theorem map_cons_apply (p : PMF (List Nat)) (j j' : Nat) (l : List Nat) :
    (p.map (j :: ·)) (j' :: l) = if j' = j then p l else 0 := by
  rw [PMF.map_apply]
  by_cases h : j' = j
  · subst h
    rw [if_pos rfl, tsum_eq_single l]
    · rw [if_pos rfl]
    · intro l' hl'
      rw [if_neg]
      intro e
      exact hl' (List.cons.inj e).2.symm
  · rw [if_neg h, ENNReal.tsum_eq_zero]
    intro l'
    rw [if_neg]
    intro e
    exact h (List.cons.inj e).1

theorem bind_cons_apply (p : PMF Nat) (q : Nat → PMF (List Nat)) (j : Nat) (l : List Nat) :
    (p.bind fun i => (q i).map (i :: ·)) (j :: l) = p j * q j l := by
  rw [PMF.bind_apply, tsum_eq_single j]
  · rw [map_cons_apply, if_pos rfl]
  · intro i hi
    rw [map_cons_apply, if_neg (fun h => hi h.symm), mul_zero]

theorem chooseLaw_apply (X : Nat → Nat → ℝ) (N D : Nat) (ch : Nat → Nat) (t : Nat) : ∀ c : Nat,
    (∀ a, c ≤ a → a < c + t → ch (a + 1) < N ∧ 0 < ∑ i ∈ range N, nearDist X D ch a i) →
    chooseLaw N (fun i l => dist2 D (X i) (X l)) t (nearDist X D ch c) ((List.range t).map (fun a => ch (c + 1 + a)))
      = ∏ a ∈ range t, ENNReal.ofReal (nearDist X D ch (c + a) (ch (c + a + 1)) / ∑ i ∈ range N, nearDist X D ch (c + a) i) := by
  induction t with
  | zero =>
    intro c _
    simp [chooseLaw]
  | succ t ih =>
    intro c hch
    obtain ⟨h1, h2⟩ := hch c le_rfl (by omega)
    have hf : (fun i => min (dist2 D (X i) (X (ch (c + 1)))) (nearDist X D ch c i)) = nearDist X D ch (c + 1) := by
      funext i
      rw [nearDist_succ]
    have hl : (List.range (t + 1)).map (fun a => ch (c + 1 + a))
        = ch (c + 1) :: (List.range t).map (fun a => ch (c + 1 + 1 + a)) := by
      rw [List.range_succ_eq_map, List.map_cons, List.map_map]
      congr 1
      apply List.map_congr_left
      intro a _
      simp only [Function.comp]
      congr 1
      omega
    rw [hl, chooseLaw, bind_cons_apply, hf, ih (c + 1) (fun a h3 h4 => hch a (by omega) (by omega)),
      weightedLaw_apply h2 (fun i _ => nearDist_eq_zero.1), if_pos h1, Finset.prod_range_succ', mul_comm]
    congr 1
    refine Finset.prod_congr rfl fun a _ => ?_
    rw [show c + 1 + a = c + (a + 1) by omega]

/-- **C72** (law of the seeding).  The rows of the data which become the centres are chosen one after another: the first is
uniform, and each of the others has probability proportional to the squared distance to the nearest centre before it.
The probability of the rows `ch 0, ch 1, ...` is the product. -/
theorem C72_seeding_law (X : Nat → Nat → ℝ) (N D k : Nat) (hN : 0 < N) (hk : 0 < k) :
    ∃ rows : (Nat → ℝ) → List Nat,
      (∀ u, 0 ≤ u 0 → u 0 < 1 → ∀ Mu junk, ∃ M, sampleRowsPlusPlus X N D k u Mu junk = .ok M ∧
        (rows u).length = min k N ∧ ∀ c < min k N, ∃ j < N, (rows u)[c]? = some j ∧ M c = X j) ∧
      ∀ ch : Nat → Nat, (∀ c < min k N, ch c < N) →
        (∀ c, c + 1 < min k N → 0 < ∑ i ∈ range N, nearDist X D ch c i) →
        streamLaw unif {u | rows u = (List.range (min k N)).map ch}
          = (N : ℝ≥0∞)⁻¹ * ∏ c ∈ range (min k N - 1),
            ENNReal.ofReal (nearDist X D ch c (ch (c + 1)) / ∑ i ∈ range N, nearDist X D ch c i) := by
  refine ⟨fun u => (seedRun X N D (min k N - 1) u).1, fun u h0 h1 Mu junk => ?_, fun ch hch hpos => ?_⟩
  · obtain ⟨M, h2, h3, h4, -⟩ := seeds X N D k hN hk u h0 h1 Mu junk
    exact ⟨M, h2, h3, h4⟩
  · have h := (seedRun_law X N D (min k N - 1) hN).prob ((List.range (min k N)).map ch)
    have hset : {u | ∃ s', stepOf (seedRun X N D (min k N - 1)) u ((List.range (min k N)).map ch) s'}
        = {u | (seedRun X N D (min k N - 1) u).1 = (List.range (min k N)).map ch} := by
      ext u
      simp only [Set.mem_ofPred_eq, stepOf]
      constructor
      · rintro ⟨s', h⟩; rw [h]
      · intro h; exact ⟨_, Prod.ext h rfl⟩
    rw [hset] at h
    rw [h]
    obtain ⟨m, hm⟩ : ∃ m, min k N = m + 1 := ⟨min k N - 1, by omega⟩
    have hl : (List.range (min k N)).map ch = ch 0 :: (List.range m).map (fun a => ch (0 + 1 + a)) := by
      rw [hm, List.range_succ_eq_map, List.map_cons, List.map_map]
      congr 1
      apply List.map_congr_left
      intro a _
      simp only [Function.comp]
      congr 1
      omega
    have hnd : (fun i => dist2 D (X i) (X (ch 0))) = nearDist X D ch 0 := by
      funext i
      rw [nearDist_zero]
    rw [hl, seedLaw, bind_cons_apply, uniformRow_apply, if_pos (hch 0 (by omega)), hm, Nat.add_sub_cancel, hnd,
      chooseLaw_apply X N D ch m 0 (fun a _ ha => ⟨hch _ (by omega), hpos a (by omega)⟩)]
    simp only [zero_add]

/-- **C72** (guarantee).  For every data set of at least one point, every number `k ≥ 1` of clusters and every number of
iterations `Niter ≥ 1`, the expected k-means cost of the centres and labels returned by `RunKMeans` is at most
`8 (ln k + 2)` times the cost of any centres and labels below `k` (in particular, of the best ones). -/
theorem C72_guarantee (X : Nat → Nat → ℝ) (N D k : Nat) (hN : 0 < N) (hk : 0 < k) (Niter : Int) (hI : 1 ≤ Niter)
    (Mu : Nat → Nat → ℝ) (Z : Nat → Nat) (junk : Nat → ℝ) (Mu' : Nat → Nat → ℝ) (Z' : Nat → Nat)
    (hZ' : ∀ i < N, Z' i < k) :
    ∫⁻ u, resultCost X N D (runKMeans X N D k Niter u Mu Z junk) ∂streamLaw unif
      ≤ ENNReal.ofReal (8 * (Real.log k + 2) * cost X N D Mu' Z') := by
  refine le_trans (lintegral_mono_ae ?_) (seed_expect X N D k hN hk Mu' Z' hZ')
  filter_upwards [ae_unit] with u hu
  exact result_le_seed X N D k hN hk Niter hI u hu.1 hu.2 Mu Z junk

theorem measurable_seedCost (X : Nat → Nat → ℝ) (N D t : Nat) (hN : 0 < N) :
    Measurable fun u => ENNReal.ofReal (seedCost X N D (seedRun X N D t u).1) := by
  let _ : MeasurableSpace (List Nat) := ⊤
  have h1 : Measurable fun u => (seedRun X N D t u).1 := by
    apply measurable_to_countable'
    intro l
    have := (seedRun_law X N D t hN).measSet l
    convert this using 1
    ext u
    simp only [Set.mem_preimage, Set.mem_singleton_iff, Set.mem_ofPred_eq, stepOf]
    constructor
    · intro h; exact ⟨_, Prod.ext h rfl⟩
    · rintro ⟨s', h⟩; rw [h]
  exact (measurable_from_top (f := fun l => ENNReal.ofReal (seedCost X N D l))).comp h1

/-- **C72** (any threshold).  `c` times the probability that the cost of the result exceeds `c` is at most `8 (ln k + 2)`
times the cost of any centres and labels. -/
theorem C72_markov (X : Nat → Nat → ℝ) (N D k : Nat) (hN : 0 < N) (hk : 0 < k) (Niter : Int) (hI : 1 ≤ Niter)
    (Mu : Nat → Nat → ℝ) (Z : Nat → Nat) (junk : Nat → ℝ) (Mu' : Nat → Nat → ℝ) (Z' : Nat → Nat)
    (hZ' : ∀ i < N, Z' i < k) (c : ℝ) :
    ENNReal.ofReal c * streamLaw unif {u | ENNReal.ofReal c
      < resultCost X N D (runKMeans X N D k Niter u Mu Z junk)} ≤
      ENNReal.ofReal (8 * (Real.log k + 2) * cost X N D Mu' Z') := by
  have hmeas := measurable_seedCost X N D (min k N - 1) hN
  have h2 := mul_meas_ge_le_lintegral (μ := streamLaw unif) hmeas (ENNReal.ofReal c)
  refine le_trans ?_ (le_trans h2 (seed_expect X N D k hN hk Mu' Z' hZ'))
  refine mul_le_mul_right ?_ _
  apply measure_mono_ae
  filter_upwards [ae_unit] with u hu h
  exact (lt_of_lt_of_le h (result_le_seed X N D k hN hk Niter hI u hu.1 hu.2 Mu Z junk)).le

/-- **C72** (perfect clusters).  If some centres and labels have cost zero (the points lie at `k` places at most), the
result has cost zero with probability one. -/
theorem C72_perfect (X : Nat → Nat → ℝ) (N D k : Nat) (hN : 0 < N) (hk : 0 < k) (Niter : Int) (hI : 1 ≤ Niter)
    (Mu : Nat → Nat → ℝ) (Z : Nat → Nat) (junk : Nat → ℝ) (Mu' : Nat → Nat → ℝ) (Z' : Nat → Nat)
    (hZ' : ∀ i < N, Z' i < k) (h0 : cost X N D Mu' Z' = 0) :
    ∀ᵐ u ∂streamLaw unif, resultCost X N D (runKMeans X N D k Niter u Mu Z junk) = 0 := by
  have hE := seed_expect X N D k hN hk Mu' Z' hZ'
  rw [h0, mul_zero, ENNReal.ofReal_zero] at hE
  have hz := (lintegral_eq_zero_iff (measurable_seedCost X N D (min k N - 1) hN)).1 (le_antisymm hE zero_le)
  filter_upwards [ae_unit, hz] with u hu h
  have h1 := result_le_seed X N D k hN hk Niter hI u hu.1 hu.2 Mu Z junk
  have h3 : ENNReal.ofReal (seedCost X N D (seedRun X N D (min k N - 1) u).1) = 0 := h
  rw [h3] at h1
  exact le_antisymm h1 zero_le

/-- **C72** (with probability at least 1/2).  The cost of the result exceeds `16 (ln k + 2)` times the cost of any centres
and labels with probability at most 1/2 (so some of a few runs with independent seeds is good). -/
theorem C72_half (X : Nat → Nat → ℝ) (N D k : Nat) (hN : 0 < N) (hk : 0 < k) (Niter : Int) (hI : 1 ≤ Niter)
    (Mu : Nat → Nat → ℝ) (Z : Nat → Nat) (junk : Nat → ℝ) (Mu' : Nat → Nat → ℝ) (Z' : Nat → Nat)
    (hZ' : ∀ i < N, Z' i < k) :
    streamLaw unif {u | ENNReal.ofReal (16 * (Real.log k + 2) * cost X N D Mu' Z')
      < resultCost X N D (runKMeans X N D k Niter u Mu Z junk)} ≤ 1 / 2 := by
  set C := 8 * (Real.log k + 2) * cost X N D Mu' Z' with hC
  have hcost : 0 ≤ cost X N D Mu' Z' := Finset.sum_nonneg fun i _ => dist2_nonneg _ _ _
  have hlog : 0 ≤ Real.log k := Real.log_natCast_nonneg k
  have hC0 : 0 ≤ C := by positivity
  have e16 : 16 * (Real.log k + 2) * cost X N D Mu' Z' = 2 * C := by rw [hC]; ring
  rw [e16]
  set φ : (Nat → ℝ) → ℝ≥0∞ := fun u => ENNReal.ofReal (seedCost X N D (seedRun X N D (min k N - 1) u).1) with hφ
  have hmeas : Measurable φ := measurable_seedCost X N D (min k N - 1) hN
  have hE : ∫⁻ u, φ u ∂streamLaw unif ≤ ENNReal.ofReal C := seed_expect X N D k hN hk Mu' Z' hZ'
  have hsub : streamLaw unif {u | ENNReal.ofReal (2 * C) < resultCost X N D (runKMeans X N D k Niter u Mu Z junk)}
      ≤ streamLaw unif {u | ENNReal.ofReal (2 * C) < φ u} := by
    apply measure_mono_ae
    filter_upwards [ae_unit] with u hu h
    exact lt_of_lt_of_le h (result_le_seed X N D k hN hk Niter hI u hu.1 hu.2 Mu Z junk)
  refine le_trans hsub ?_
  rcases hC0.eq_or_lt with h0 | hpos
  · -- the optimum is zero
    have hz : ∫⁻ u, φ u ∂streamLaw unif = 0 := by
      rw [← h0, ENNReal.ofReal_zero] at hE
      exact le_antisymm hE zero_le
    rw [lintegral_eq_zero_iff hmeas] at hz
    have : streamLaw unif {u | ENNReal.ofReal (2 * C) < φ u} = 0 := by
      rw [← h0, mul_zero, ENNReal.ofReal_zero]
      have hz' : ∀ᵐ u ∂streamLaw unif, φ u = 0 := hz
      rw [ae_iff] at hz'
      refine measure_mono_null (fun u hu => ?_) hz'
      exact (ne_of_gt hu : φ u ≠ 0)
    rw [this]
    exact zero_le
  · have h1 : streamLaw unif {u | ENNReal.ofReal (2 * C) < φ u} ≤ streamLaw unif {u | ENNReal.ofReal (2 * C) ≤ φ u} :=
      measure_mono fun u hu => by
        rw [Set.mem_ofPred_eq] at hu ⊢
        exact hu.le
    have h2 := mul_meas_ge_le_lintegral (μ := streamLaw unif) hmeas (ENNReal.ofReal (2 * C))
    have h3 : ENNReal.ofReal (2 * C) * streamLaw unif {u | ENNReal.ofReal (2 * C) ≤ φ u} ≤ ENNReal.ofReal (2 * C) * (1 / 2) := by
      refine le_trans h2 (le_trans hE (le_of_eq ?_))
      rw [ENNReal.ofReal_mul (p := 2) (q := C) (by norm_num), ENNReal.ofReal_ofNat, mul_comm (2 : ℝ≥0∞), mul_assoc, one_div,
        ENNReal.mul_inv_cancel (by norm_num) (by norm_num), mul_one]
    refine le_trans h1 ?_
    have hp : ENNReal.ofReal (2 * C) ≠ 0 := by
      rw [ne_eq, ENNReal.ofReal_eq_zero, not_le]; linarith
    exact (ENNReal.mul_le_mul_iff_right hp ENNReal.ofReal_ne_top).1 h3

/-- The data 0, 1, 10 on a line. -/
def line3 : Nat → Nat → ℝ := fun i _ => if i = 0 then 0 else if i = 1 then 1 else 10

/-- Two clusters on a line: the bound is `8 (ln 2 + 2) / 2`, the best cost being at most 1/2. -/
example (Mu : Nat → Nat → ℝ) (Z : Nat → Nat) (junk : Nat → ℝ) :
    ∫⁻ u, resultCost line3 3 1 (runKMeans line3 3 1 2 100 u Mu Z junk) ∂streamLaw unif
      ≤ ENNReal.ofReal (8 * (Real.log 2 + 2) * (1 / 2)) := by
  have h := C72_guarantee line3 3 1 2 (by norm_num) (by norm_num) 100 (by norm_num) Mu Z junk
    (fun c _ => if c = 0 then 1 / 2 else 10) (fun i => if i = 2 then 1 else 0) (fun i _ => by split_ifs <;> norm_num)
  have e : cost line3 3 1 (fun c _ => if c = 0 then 1 / 2 else 10) (fun i => if i = 2 then 1 else 0) = 1 / 2 := by
    simp [cost, dist2, line3, Finset.sum_range_succ]
    norm_num
  rw [e] at h
  exact_mod_cast h

end KMeans
end Stag
