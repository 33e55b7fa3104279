import Verif.Props.KMeansGuarantee
import Verif.Props.RoundingKMeans

/-!
# C99: the guarantee of k-means++ for the rounded code with random 32-bit integers
-/

set_option linter.unusedSectionVars false

namespace Stag
namespace KMeans

open Finset MeasureTheory
open scoped ENNReal

/-! ## Random integers -/

/-- A uniformly random 32-bit integer. -/
noncomputable def word32 : PMF Nat :=
  PMF.uniformOfFinset (range (2 ^ 32)) (Finset.nonempty_range_iff.2 (by norm_num))

/-- The first 32 bits of a number in `[0, 1)`. -/
noncomputable def bits32 (x : ℝ) : Nat := ⌊(2 : ℝ) ^ 32 * x⌋₊

theorem bits32_spec {x : ℝ} (h0 : 0 ≤ x) (h1 : x < 1) :
    bits32 x < 2 ^ 32 ∧ (bits32 x : ℝ) / 2 ^ 32 ≤ x ∧ x < ((bits32 x : ℝ) + 1) / 2 ^ 32 := by
  have h2 : (0 : ℝ) ≤ 2 ^ 32 * x := by positivity
  have h3 := Nat.floor_le h2
  have h4 := Nat.lt_floor_add_one ((2 : ℝ) ^ 32 * x)
  refine ⟨?_, ?_, ?_⟩
  · unfold bits32
    rw [Nat.floor_lt h2]
    push_cast
    linarith
  · rw [div_le_iff₀ (by positivity)]
    unfold bits32
    linarith
  · rw [lt_div_iff₀ (by positivity)]
    unfold bits32
    linarith

theorem measurable_bits32 : Measurable bits32 := by
  unfold bits32
  exact Nat.measurable_floor.comp (measurable_id.const_mul _)

theorem bits32_law (j : Nat) : unif {x | bits32 x = j} = word32 j := by
  have hm : MeasurableSet {x | bits32 x = j} := measurable_bits32 (measurableSet_singleton j)
  have key : ∀ x : ℝ, 0 ≤ x → (bits32 x = j ↔ (j : ℝ) / 2 ^ 32 ≤ x ∧ x < ((j : ℝ) + 1) / 2 ^ 32) := by
    intro x hx
    unfold bits32
    rw [Nat.floor_eq_iff (by positivity), div_le_iff₀ (by positivity), lt_div_iff₀ (by positivity), mul_comm x]
  unfold word32
  by_cases hj : j < 2 ^ 32
  · rw [PMF.uniformOfFinset_apply_of_mem _ (mem_range.2 hj), card_range,
      unif_apply hm (a := (j : ℝ) / 2 ^ 32) (b := ((j : ℝ) + 1) / 2 ^ 32)]
    · rw [← sub_div, add_sub_cancel_left, ENNReal.ofReal_div_of_pos (by positivity), ENNReal.ofReal_one, one_div]
      congr 1
      rw [ENNReal.ofReal_pow (by norm_num)]
      norm_num
    · ext x
      simp only [Set.mem_inter_iff, Set.mem_ofPred_eq, Set.mem_Ico]
      constructor
      · rintro ⟨h1, h2, -⟩
        exact (key x h2).1 h1
      · rintro ⟨h1, h2⟩
        have h3 : 0 ≤ x := le_trans (by positivity) h1
        refine ⟨(key x h3).2 ⟨h1, h2⟩, h3, lt_of_lt_of_le h2 ?_⟩
        rw [div_le_one (by positivity)]
        exact_mod_cast hj
  · rw [PMF.uniformOfFinset_apply_of_notMem _ (fun h => hj (mem_range.1 h)), unif_apply hm (a := 0) (b := 0)]
    · simp
    · ext x
      simp only [Set.mem_inter_iff, Set.mem_ofPred_eq, Set.mem_Ico]
      constructor
      · rintro ⟨h1, h2, h3⟩
        have := (bits32_spec h2 h3).1
        omega
      · rintro ⟨h1, h2⟩
        linarith

theorem bits32_map : unif.map bits32 = word32.toMeasure := by
  ext A hA
  rw [Measure.map_apply measurable_bits32 hA, PMF.toMeasure_apply _ hA]
  have e : bits32 ⁻¹' A = ⋃ j ∈ A, {x | bits32 x = j} := by ext x; simp
  rw [e, measure_biUnion (f := fun j => {x | bits32 x = j}) (Set.to_countable A)
    (fun i _ j _ hij => Set.disjoint_left.2 fun x (h1 : bits32 x = i) (h2 : bits32 x = j) => hij (h1.symm.trans h2))
    (fun j _ => measurable_bits32 (measurableSet_singleton j)), ← tsum_subtype A (fun j => word32 j)]
  exact tsum_congr fun j => bits32_law j

/-- The 32-bit integers made of independent uniform numbers are independent and uniform. -/
theorem word_stream : (streamLaw unif).map (fun u i => bits32 (u i)) = streamLaw word32.toMeasure := by
  have hmeas : Measurable (fun (u : Nat → ℝ) (i : Nat) => bits32 (u i)) := by
    rw [measurable_pi_iff]
    exact fun i => measurable_bits32.comp (measurable_pi_apply (X := fun _ : Nat => ℝ) i)
  apply Measure.eq_infinitePi
  intro S t ht
  rw [Measure.map_apply hmeas (MeasurableSet.pi S.countable_toSet fun i _ => ht i)]
  have e : (fun (u : Nat → ℝ) (i : Nat) => bits32 (u i)) ⁻¹' Set.pi S t = Set.pi S (fun i => bits32 ⁻¹' t i) := rfl
  rw [e]
  unfold streamLaw
  rw [Measure.infinitePi_pi (fun _ => unif) (fun i _ => measurable_bits32 (ht i))]
  refine Finset.prod_congr rfl fun i _ => ?_
  rw [← bits32_map, Measure.map_apply measurable_bits32 (ht i)]

/-- The number in `[0, 1]` made of the integer is close to the number the integer is made of. -/
theorem genrand_bits {x : ℝ} (h0 : 0 ≤ x) (h1 : x < 1) :
    |genrandDoubleFl (dbl ℝ).fl (bits32 x) - x| ≤ 1 / 2 ^ 31 := by
  obtain ⟨b1, b2, b3⟩ := bits32_spec h0 h1
  change |genrandDoubleFl (flBin 53) (bits32 x) - x| ≤ 1 / 2 ^ 31
  rw [genrand_eq _ b1]
  have hy0 : (0 : ℝ) ≤ bits32 x := Nat.cast_nonneg _
  have hy1 : (bits32 x : ℝ) ≤ 2 ^ 32 := by exact_mod_cast b1.le
  have hz : (0 : ℝ) ≤ bits32 x * (1 / 2 ^ 32 + 1 / 2 ^ 64) := by positivity
  have hne := Rounding.near_fl (R := dbl ℝ) hz
  have l1 := hne.le
  have l2 := hne.ge
  change flBin 53 ((bits32 x : ℝ) * (1 / 2 ^ 32 + 1 / 2 ^ 64)) ≤ _ at l1
  change _ ≤ _ * flBin 53 ((bits32 x : ℝ) * (1 / 2 ^ 32 + 1 / 2 ^ 64)) at l2
  have hg : (dbl ℝ).g = 1 / (1 - 1 / 2 ^ 53) := by
    unfold Rounding.g
    rw [dbl_u]
  rw [pow_one, hg] at l1 l2
  generalize flBin 53 ((bits32 x : ℝ) * (1 / 2 ^ 32 + 1 / 2 ^ 64)) = f at *
  generalize (bits32 x : ℝ) = y at *
  rw [abs_le]
  constructor
  · norm_num at *
    linarith
  · norm_num at *
    linarith

/-! ## The draws for which the rounded code may choose another row -/

/-- The numbers at most `w` from the end of an interval of `discrete_rand`, or at most `2^-32` from 1. -/
def nearEnd (N : Nat) (w : ℝ) (p : Nat → ℝ) : Set ℝ :=
  {x | ∃ i, 1 ≤ i ∧ i < N ∧ |x - (∑ a ∈ range i, p a) / ∑ a ∈ range N, p a| ≤ w} ∪ Set.Ici (1 - 1 / 2 ^ 32)

theorem nearEnd_eq (N : Nat) (w : ℝ) (p : Nat → ℝ) : nearEnd N w p =
    (⋃ i ∈ Finset.Ico 1 N, Metric.closedBall ((∑ a ∈ range i, p a) / ∑ a ∈ range N, p a) w) ∪ Set.Ici (1 - 1 / 2 ^ 32) := by
  unfold nearEnd
  congr 1
  ext x
  simp only [Set.mem_ofPred_eq, Set.mem_iUnion, Finset.mem_Ico, Metric.mem_closedBall, Real.dist_eq, exists_prop, and_assoc]

theorem measurable_nearEnd (N : Nat) (w : ℝ) (p : Nat → ℝ) : MeasurableSet (nearEnd N w p) := by
  rw [nearEnd_eq]
  exact (Finset.measurableSet_biUnion _ fun i _ => Metric.isClosed_closedBall.measurableSet).union measurableSet_Ici

theorem nearEnd_le (N : Nat) (hN : 0 < N) (w : ℝ) (hw : 1 / 2 ^ 32 ≤ 2 * w) (p : Nat → ℝ) :
    unif (nearEnd N w p) ≤ ENNReal.ofReal (N * (2 * w)) := by
  have hw0 : 0 ≤ 2 * w := le_trans (by positivity) hw
  rw [nearEnd_eq]
  refine le_trans (measure_union_le _ _) ?_
  have h1 : unif (⋃ i ∈ Finset.Ico 1 N, Metric.closedBall ((∑ a ∈ range i, p a) / ∑ a ∈ range N, p a) w)
      ≤ ENNReal.ofReal ((N - 1) * (2 * w)) := by
    refine le_trans (measure_biUnion_finset_le _ _) ?_
    have : ∀ i ∈ Finset.Ico 1 N, unif (Metric.closedBall ((∑ a ∈ range i, p a) / ∑ a ∈ range N, p a) w)
        ≤ ENNReal.ofReal (2 * w) := fun i _ => by
      unfold unif
      refine le_trans (Measure.restrict_apply_le _ _) ?_
      rw [Real.volume_closedBall]
    refine le_trans (Finset.sum_le_sum this) ?_
    rw [Finset.sum_const, Nat.card_Ico, nsmul_eq_mul, ← ENNReal.ofReal_natCast, ← ENNReal.ofReal_mul (Nat.cast_nonneg _),
      Nat.cast_sub hN, Nat.cast_one]
  have h2 : unif (Set.Ici (1 - 1 / 2 ^ 32 : ℝ)) ≤ ENNReal.ofReal (2 * w) := by
    rw [unif_apply measurableSet_Ici (a := 1 - 1 / 2 ^ 32) (b := 1)]
    · exact ENNReal.ofReal_le_ofReal (by linarith)
    · ext x
      simp only [Set.mem_inter_iff, Set.mem_Ici, Set.mem_Ico]
      constructor
      · rintro ⟨h1, -, h2⟩; exact ⟨h1, h2⟩
      · rintro ⟨h1, h2⟩; exact ⟨h1, le_trans (by norm_num) h1, h2⟩
  refine le_trans (add_le_add h1 h2) ?_
  have hN1 : (1 : ℝ) ≤ N := by exact_mod_cast hN
  rw [← ENNReal.ofReal_add (mul_nonneg (by linarith) hw0) hw0]
  exact ENNReal.ofReal_le_ofReal (by linarith)

/-- Away from the ends, the rounded and the exact choice agree. -/
theorem same_row {N : Nat} {p : Nat → ℝ} (hp : ∀ i, 0 ≤ p i) (hT : 0 < ∑ a ∈ range N, p a) {x v G : ℝ} {j j' : Nat}
    (hj : j < N) (hj' : j' < N) (hv1 : v ≤ 1) (hG : 1 ≤ G) (hxv : |v - x| ≤ 1 / 2 ^ 31)
    (h1 : ∑ a ∈ range j, p a ≤ x * ∑ a ∈ range N, p a) (h2 : x * ∑ a ∈ range N, p a < ∑ a ∈ range (j + 1), p a)
    (h3 : ∑ a ∈ range j', p a ≤ G * (v * ∑ a ∈ range N, p a))
    (h4 : v * ∑ a ∈ range N, p a ≤ G * ∑ a ∈ range (j' + 1), p a)
    (hx : x ∉ nearEnd N (1 / 2 ^ 31 + (G - 1)) p) : j' = j := by
  have hmono : ∀ a b, a ≤ b → ∑ i ∈ range a, p i ≤ ∑ i ∈ range b, p i := fun a b hab =>
    Finset.sum_le_sum_of_subset_of_nonneg (Finset.range_mono hab) fun i _ _ => hp i
  have hfar : ∀ i, 1 ≤ i → i < N → ¬ |x - (∑ a ∈ range i, p a) / ∑ a ∈ range N, p a| ≤ 1 / 2 ^ 31 + (G - 1) :=
    fun i hi1 hi2 hle => hx (.inl ⟨i, hi1, hi2, hle⟩)
  obtain ⟨hxv1, hxv2⟩ := abs_le.1 hxv
  generalize hTe : ∑ a ∈ range N, p a = T at *
  rcases Nat.lt_trichotomy j' j with h | h | h
  · exfalso
    refine hfar j (by omega) hj ?_
    have m1 := hmono (j' + 1) j h
    have m2 := hmono j N hj.le
    have m0 := hmono 0 j (by omega)
    rw [Finset.sum_range_zero] at m0
    rw [hTe] at m2
    generalize ∑ a ∈ range j, p a = c at *
    have c1 : c / T ≤ x := by rwa [div_le_iff₀ hT]
    have c2 : v ≤ G * (c / T) := by
      rw [← mul_div_assoc, le_div_iff₀ hT]
      exact h4.trans (mul_le_mul_of_nonneg_left m1 (by linarith))
    have c3 : c / T ≤ 1 := by rwa [div_le_one hT]
    generalize c / T = q at *
    have c4 : (G - 1) * q ≤ G - 1 := by
      have := mul_le_mul_of_nonneg_left c3 (show 0 ≤ G - 1 by linarith)
      linarith
    rw [abs_le]
    constructor <;> linarith
  · exact h
  · exfalso
    refine hfar (j + 1) (by omega) (by omega) ?_
    have m1 := hmono (j + 1) j' h
    generalize ∑ a ∈ range (j + 1), p a = c at *
    have c1 : x < c / T := by rwa [lt_div_iff₀ hT]
    have c2 : c / T ≤ G * v := by
      rw [div_le_iff₀ hT, mul_assoc]
      exact m1.trans h3
    generalize c / T = q at *
    have c4 : (G - 1) * v ≤ G - 1 := by
      have := mul_le_mul_of_nonneg_left hv1 (show 0 ≤ G - 1 by linarith)
      linarith
    rw [abs_le]
    constructor <;> linarith

/-- The later draws: one of them is near an end. -/
def badChoose (N : Nat) (d : Nat → Nat → ℝ) (w : ℝ) : Nat → (Nat → ℝ) → (Nat → ℝ) → Prop
  | 0, _, _ => False
  | t + 1, f, s => s 0 ∈ nearEnd N w f ∨
    badChoose N d w t (fun i => min (d i (discreteRand f N (s 0))) (f i)) (shift s)

/-- One of the draws is near an end. -/
def badSeed (X : Nat → Nat → ℝ) (N D : Nat) (w : ℝ) (t : Nat) (s : Nat → ℝ) : Prop :=
  s 0 ∈ nearEnd N w (fun _ => 1) ∨
    badChoose N (fun i l => dist2 D (X i) (X l)) w t (fun i => dist2 D (X i) (X (firstRow N (s 0)))) (shift s)

/-- One step: the first draw is in a set, or the rest is bad for the row chosen. -/
theorem bad_step (g : ℝ → Nat) (hg : ∀ j, MeasurableSet {x | g x = j}) (E : Set ℝ) (hE : MeasurableSet E)
    (A : Nat → Set (Nat → ℝ)) (hA : ∀ j, MeasurableSet (A j)) (e b : ℝ≥0∞) (he : unif E ≤ e)
    (hb : ∀ j, streamLaw unif (A j) ≤ b) :
    MeasurableSet {s : Nat → ℝ | s 0 ∈ E ∨ shift s ∈ A (g (s 0))} ∧
    streamLaw unif {s : Nat → ℝ | s 0 ∈ E ∨ shift s ∈ A (g (s 0))} ≤ e + b := by
  have h0 : Measurable (fun s : Nat → ℝ => s 0) := measurable_pi_apply (X := fun _ : Nat => ℝ) 0
  have hlaw := head_step unif g hg (fun j => unif {x | g x = j}) fun j => rfl
  have hset : ∀ j, {s : Nat → ℝ | ∃ s' ∈ A j, stepOf (fun s => (g (s 0), shift s)) s j s'}
      = {s | g (s 0) = j ∧ shift s ∈ A j} := fun j => by
    ext s
    simp only [Set.mem_ofPred_eq, stepOf, Prod.mk.injEq]
    constructor
    · rintro ⟨s', h1, h2, rfl⟩; exact ⟨h2, h1⟩
    · rintro ⟨h1, h2⟩; exact ⟨_, h2, h1, rfl⟩
  have hm : ∀ j, MeasurableSet {s : Nat → ℝ | g (s 0) = j ∧ shift s ∈ A j} := fun j => hset j ▸ hlaw.meas j _ (hA j)
  have hp : ∀ j, streamLaw unif {s : Nat → ℝ | g (s 0) = j ∧ shift s ∈ A j} = unif {x | g x = j} * streamLaw unif (A j) :=
    fun j => hset j ▸ hlaw.law j _ (hA j)
  have hEs : streamLaw unif {s : Nat → ℝ | s 0 ∈ E} = unif E := by
    have h1 := head_step unif (fun x : ℝ => (Classical.propDecidable (x ∈ E)).decide) (fun a => by
      cases a
      · have : {x : ℝ | (Classical.propDecidable (x ∈ E)).decide = false} = Eᶜ := by ext x; simp
        rw [this]; exact hE.compl
      · have : {x : ℝ | (Classical.propDecidable (x ∈ E)).decide = true} = E := by ext x; simp
        rw [this]; exact hE) _ (fun a => rfl)
    have h2 := h1.prob true
    have e1 : {x : ℝ | (Classical.propDecidable (x ∈ E)).decide = true} = E := by ext x; simp
    rw [e1] at h2
    rw [← h2]
    congr 1
    ext s
    simp only [Set.mem_ofPred_eq, stepOf, Prod.mk.injEq, decide_eq_true_eq]
    constructor
    · intro h; exact ⟨_, h, rfl⟩
    · rintro ⟨s', h, -⟩; exact h
  have hun : {s : Nat → ℝ | s 0 ∈ E ∨ shift s ∈ A (g (s 0))}
      = {s | s 0 ∈ E} ∪ ⋃ j, {s | g (s 0) = j ∧ shift s ∈ A j} := by
    ext s
    simp
  rw [hun]
  refine ⟨(h0 hE).union (MeasurableSet.iUnion hm), le_trans (measure_union_le _ _) (add_le_add (hEs.le.trans he) ?_)⟩
  refine le_trans (measure_iUnion_le _) ?_
  have htot : ∑' j, unif {x | g x = j} = 1 := by
    rw [← measure_iUnion (f := fun j => {x | g x = j})
      (fun i j hij => Set.disjoint_left.2 fun x (h1 : g x = i) (h2 : g x = j) => hij (h1.symm.trans h2)) hg]
    have : (⋃ j, {x | g x = j}) = Set.univ := by ext x; simp
    rw [this, measure_univ]
  calc ∑' j, streamLaw unif {s : Nat → ℝ | g (s 0) = j ∧ shift s ∈ A j} ≤ ∑' j, unif {x | g x = j} * b :=
        ENNReal.tsum_le_tsum fun j => by
          rw [hp j]
          exact mul_le_mul_right (hb j) _
    _ = b := by rw [ENNReal.tsum_mul_right, htot, one_mul]

theorem badChoose_le (N : Nat) (hN : 0 < N) {d : Nat → Nat → ℝ} (hd : Squared N d) (w : ℝ) (hw : 1 / 2 ^ 32 ≤ 2 * w) (t : Nat) :
    ∀ f, Near d f → MeasurableSet {s | badChoose N d w t f s} ∧
      streamLaw unif {s | badChoose N d w t f s} ≤ t * ENNReal.ofReal (N * (2 * w)) := by
  induction t with
  | zero => intro f _; simp [badChoose]
  | succ t ih =>
    intro f hf
    have h := bad_step (discreteRand f N) (fun j => (discreteRand_law f N hN (fun i _ => hf.nonneg i) j).1)
      (nearEnd N w f) (measurable_nearEnd N w f) (fun j => {s | badChoose N d w t (fun i => min (d i j) (f i)) s})
      (fun j => (ih _ (hf.step hd j)).1) _ _ (nearEnd_le N hN w hw f) fun j => (ih _ (hf.step hd j)).2
    refine ⟨h.1, le_trans h.2 (le_of_eq ?_)⟩
    push_cast
    ring

theorem badSeed_le (X : Nat → Nat → ℝ) (N D : Nat) (hN : 0 < N) (w : ℝ) (hw : 1 / 2 ^ 32 ≤ 2 * w) (t : Nat) :
    streamLaw unif {s | badSeed X N D w t s} ≤ ((t + 1 : Nat) : ℝ≥0∞) * ENNReal.ofReal (N * (2 * w)) := by
  have h := bad_step (firstRow N) (fun j => (firstRow_law N hN j).1) (nearEnd N w fun _ => 1) (measurable_nearEnd N w _)
    (fun j => {s | badChoose N (fun i l => dist2 D (X i) (X l)) w t (fun i => dist2 D (X i) (X j)) s})
    (fun j => (badChoose_le N hN (squared X N D) w hw t _ (near_row X N D j)).1) _ _ (nearEnd_le N hN w hw _)
    fun j => (badChoose_le N hN (squared X N D) w hw t _ (near_row X N D j)).2
  refine le_trans h.2 (le_of_eq ?_)
  push_cast
  ring

theorem badChoose_near (X : Nat → Nat → ℝ) (N D : Nat) (w : ℝ) (u : Nat → ℝ) (ch : Nat → Nat) (t : Nat) : ∀ c : Nat,
    (∀ a, c ≤ a → a < c + t → ch (a + 1) = discreteRand (nearDist X D ch a) N (u (a + 1))) →
    ¬ badChoose N (fun i l => dist2 D (X i) (X l)) w t (nearDist X D ch c) (fun n => u (n + (c + 1))) →
    ∀ a, c ≤ a → a < c + t → u (a + 1) ∉ nearEnd N w (nearDist X D ch a) := by
  induction t with
  | zero => intro c _ _ a h1 h2; omega
  | succ t ih =>
    intro c hch hbad a h1 h2
    have hc := hch c le_rfl (by omega)
    have hf : (fun i => min (dist2 D (X i) (X (ch (c + 1)))) (nearDist X D ch c i)) = nearDist X D ch (c + 1) := by
      funext i
      rw [nearDist_succ]
    have hsh : shift (fun n => u (n + (c + 1))) = fun n => u (n + (c + 1 + 1)) := by
      funext n
      simp only [shift]
      congr 1
      omega
    rw [badChoose, not_or] at hbad
    obtain ⟨b1, b2⟩ := hbad
    simp only [zero_add] at b1 b2
    rw [← hc, hf, hsh] at b2
    rcases Nat.eq_or_lt_of_le h1 with rfl | h1
    · exact b1
    · exact ih (c + 1) (fun a h3 h4 => hch a (by omega) (by omega)) b2 a (by omega) (by omega)

theorem discreteLoopFl_zero (fl : ℝ → ℝ) (hfl : fl 0 = 0) (p : Nat → ℝ) (left newk : Nat) (h : ∀ i ≤ newk + left, p i = 0) :
    discreteLoopFl fl p 0 left newk 0 = newk + left := by
  induction left generalizing newk with
  | zero => rfl
  | succ left ih =>
    rw [discreteLoopFl, if_pos le_rfl, h (newk + 1) (by omega), add_zero, hfl, ih (newk + 1) (fun i hi => h i (by omega))]
    omega

theorem discreteRandFl_zero (S : EigenSum (dbl ℝ).fl) (p : Nat → ℝ) (N : Nat) (hN : 0 < N) (hp : ∀ i < N, p i = 0) (v : ℝ) :
    discreteRandFl S p N v = N - 1 := by
  have hl : ∀ z ∈ (List.range N).map p, z = 0 := fun z hz => by
    obtain ⟨i, hi, rfl⟩ := List.mem_map.1 hz
    exact hp i (List.mem_range.1 hi)
  have h1 := (S.spec ((List.range N).map p)).near fun z hz => (hl z hz).ge
  have h2 : S.sum ((List.range N).map p) = 0 := h1.eq_zero (List.sum_eq_zero hl)
  unfold discreteRandFl
  simp only
  rw [h2, zero_mul, Rounding.fl_zero, hp 0 hN, discreteLoopFl_zero _ Rounding.fl_zero _ _ _ (fun i hi => hp i (by omega))]
  omega

theorem discreteRand_zero (p : Nat → ℝ) (N : Nat) (hN : 0 < N) (hp : ∀ i < N, p i = 0) (v : ℝ) :
    discreteRand p N v = N - 1 := by
  have hl : ((List.range N).map p).sum = 0 := List.sum_eq_zero fun z hz => by
    obtain ⟨i, hi, rfl⟩ := List.mem_map.1 hz
    exact hp i (List.mem_range.1 hi)
  unfold discreteRand
  simp only
  rw [hl, zero_mul, hp 0 hN, discreteLoop_zero p _ _ (fun i hi => hp i (by omega))]
  omega

/-- The width around the ends. -/
noncomputable def endWidth (N D : Nat) : ℝ := 1 / 2 ^ 31 + ((dbl ℝ).g ^ (2 * N + 2 * D + 4) - 1)

/-- Unless a draw is near an end, the rounded code with the integers chooses the rows that the exact code chooses. -/
theorem same_seeds (S : EigenSum (dbl ℝ).fl) (X : Nat → Nat → ℝ) (N D k : Nat) (hN : 0 < N) (hN' : N < 2 ^ 20) (hk : 0 < k)
    (u : Nat → ℝ) (hu : ∀ i < k, 0 ≤ u i ∧ u i < 1) (hbad : ¬ badSeed X N D (endWidth N D) (min k N - 1) u)
    (Mu : Nat → Nat → ℝ) (junk junk' : Nat → ℝ) : ∃ M,
      sampleRowsPlusPlusFl S X N D k (fun i => genrandDoubleFl (dbl ℝ).fl (bits32 (u i))) Mu junk = .ok M ∧
      sampleRowsPlusPlus X N D k u Mu junk' = .ok M := by
  obtain ⟨u00, u01⟩ := hu 0 hk
  obtain ⟨M, ch, hM, ⟨c0, c0'⟩, hrow, hrest, hnext⟩ := (C55_seeding X N D k hN hk u u00 Mu junk').1 u01
  have hNr : (0 : ℝ) < N := by exact_mod_cast hN
  have hfirst : firstRow N (u 0) = ch 0 := by
    have : ⌊(N : ℝ) * u 0⌋ = (ch 0 : Int) := by
      rw [Int.floor_eq_iff]
      push_cast
      exact ⟨c0, c0'⟩
    unfold firstRow
    omega
  have hnd : (fun i => dist2 D (X i) (X (ch 0))) = nearDist X D ch 0 := by
    funext i
    rw [nearDist_zero]
  unfold badSeed at hbad
  rw [not_or, hfirst, hnd] at hbad
  obtain ⟨b0, b1⟩ := hbad
  have hfar := badChoose_near X N D (endWidth N D) u ch (min k N - 1) 0 (fun a _ ha => hnext a (by omega)) b1
  have hsmall : ∀ {x : ℝ} {p : Nat → ℝ}, 0 ≤ x → x < 1 → x ∉ nearEnd N (endWidth N D) p → bits32 x < 2 ^ 32 - 1 := by
    intro x p h0 h1 hx
    have h2 : x < 1 - 1 / 2 ^ 32 := by
      by_contra h
      exact hx (.inr (not_lt.1 h))
    have h3 := (bits32_spec h0 h1).2.1
    have h4 : (bits32 x : ℝ) < 2 ^ 32 - 1 := by
      rw [div_le_iff₀ (by positivity)] at h3
      have h6 : x * 2 ^ 32 < (1 - 1 / 2 ^ 32) * 2 ^ 32 := mul_lt_mul_of_pos_right h2 (by positivity)
      have h7 : (1 - 1 / 2 ^ 32 : ℝ) * 2 ^ 32 = 2 ^ 32 - 1 := by norm_num
      linarith
    have h5 : (bits32 x : ℝ) < ((2 ^ 32 - 1 : Nat) : ℝ) := lt_of_lt_of_eq h4 (by norm_num)
    exact_mod_cast h5
  have hG : (1 : ℝ) ≤ (dbl ℝ).g ^ (2 * N + 2 * D + 4) := one_le_pow₀ Rounding.one_le_g
  -- the first row
  have hy0 := hsmall u00 u01 b0
  obtain ⟨f1, f2⟩ := (C88_randint (K := ℝ) hN (by omega) (bits32 (u 0)) (by omega)).1 (by omega)
  change 0 ≤ randintFl (dbl ℝ).fl N (genrandDoubleFl (dbl ℝ).fl (bits32 (u 0))) at f1
  change randintFl (dbl ℝ).fl N (genrandDoubleFl (dbl ℝ).fl (bits32 (u 0))) < N at f2
  obtain ⟨v0, v1, -⟩ := C88_genrand (K := ℝ) (bits32 (u 0)) (by omega)
  change 0 ≤ genrandDoubleFl (dbl ℝ).fl (bits32 (u 0)) at v0
  change genrandDoubleFl (dbl ℝ).fl (bits32 (u 0)) ≤ 1 at v1
  obtain ⟨ch', d0, d1, d2, d3, -, d5⟩ := plusPlusLoopFl_spec S X N D hN (fun i => genrandDoubleFl (dbl ℝ).fl (bits32 (u i)))
    Mu junk (randintFl (dbl ℝ).fl N (genrandDoubleFl (dbl ℝ).fl (bits32 (u 0)))).toNat (by omega) (min k N - 1)
  have hrun : sampleRowsPlusPlusFl S X N D k (fun i => genrandDoubleFl (dbl ℝ).fl (bits32 (u i))) Mu junk = .ok
      (plusPlusLoopFl S X N D (fun i => genrandDoubleFl (dbl ℝ).fl (bits32 (u i)))
        (setRow Mu 0 (X (randintFl (dbl ℝ).fl N (genrandDoubleFl (dbl ℝ).fl (bits32 (u 0)))).toNat)) junk (min k N - 1)).1 := by
    unfold sampleRowsPlusPlusFl
    simp only
    rw [if_neg (by omega)]
    have : (if k > N then N else k) - 1 = min k N - 1 := by
      split_ifs <;> omega
    rw [this]
  have hsame : ∀ c < min k N, ∀ a ≤ c, ch' a = ch a := by
    intro c
    induction c with
    | zero =>
      intro hc a ha
      obtain rfl : a = 0 := by omega
      have hch : (ch' 0 : Int) = ⌊(dbl ℝ).fl ((N : ℝ) * genrandDoubleFl (dbl ℝ).fl (bits32 (u 0)))⌋ := by
        rw [d0, Int.toNat_of_nonneg f1]
        unfold randintFl
        have hfl : (dbl ℝ).fl (N : ℝ) = N := flBin_nat (by omega)
        rw [hfl]
      have e1 := Int.floor_le ((dbl ℝ).fl ((N : ℝ) * genrandDoubleFl (dbl ℝ).fl (bits32 (u 0))))
      have e2 := Int.lt_floor_add_one ((dbl ℝ).fl ((N : ℝ) * genrandDoubleFl (dbl ℝ).fl (bits32 (u 0))))
      rw [← hch, Int.cast_natCast] at e1 e2
      have hnear := (Rounding.near_fl (R := dbl ℝ) (mul_nonneg (Nat.cast_nonneg (α := ℝ) N) v0)).mono
        (show 1 ≤ 2 * N + 2 * D + 4 by omega)
      have l1 := hnear.le
      have l2 := hnear.ge
      have hs : ∀ n : Nat, ∑ _a ∈ range n, (1 : ℝ) = n := fun n => by simp
      refine same_row (p := fun _ => 1) (fun _ => zero_le_one) (by rw [hs]; exact hNr) (hrow 0 hc).1 (by rw [d0]; omega) v1 hG
        (genrand_bits u00 u01) ?_ ?_ ?_ ?_ b0
      · rw [hs, hs, mul_comm]; exact c0
      · rw [hs, hs, mul_comm]; push_cast; exact c0'
      · rw [hs, hs, mul_comm _ (N : ℝ)]; exact e1.trans l1
      · rw [hs, hs, mul_comm _ (N : ℝ)]
        push_cast
        exact l2.trans (mul_le_mul_of_nonneg_left e2.le (by linarith))
    | succ c ih =>
      intro hc a ha
      have ih' := ih (by omega)
      rcases Nat.lt_or_ge a (c + 1) with h | h
      · exact ih' a (by omega)
      obtain rfl : a = c + 1 := by omega
      obtain ⟨uc0, uc1⟩ := hu (c + 1) (by omega)
      have bc := hfar c (by omega) (by omega)
      have hyc := hsmall uc0 uc1 bc
      obtain ⟨w0, w1, -⟩ := C88_genrand (K := ℝ) (bits32 (u (c + 1))) (by omega)
      change 0 ≤ genrandDoubleFl (dbl ℝ).fl (bits32 (u (c + 1))) at w0
      change genrandDoubleFl (dbl ℝ).fl (bits32 (u (c + 1))) ≤ 1 at w1
      have hnc : nearDistFl S X D ch' c = nearDistFl S X D ch c := by
        funext i
        exact nearDistFl_congr S ih' i
      have hnn : ∀ i, 0 ≤ nearDist X D ch c i := fun i => nearDist_eq_zero.1
      rw [d5 c (by omega), hnc, hnext c hc]
      rcases (Finset.sum_nonneg fun i _ => hnn i : 0 ≤ ∑ i ∈ range N, nearDist X D ch c i).eq_or_lt with h0 | hpos
      · have hz : ∀ i < N, nearDist X D ch c i = 0 := fun i hi =>
          (Finset.sum_eq_zero_iff_of_nonneg (fun i _ => hnn i)).1 h0.symm i (mem_range.2 hi)
        rw [discreteRand_zero _ N hN hz, discreteRandFl_zero S _ N hN fun i hi => (nearDistFl_near S X D ch c i).eq_zero (hz i hi)]
      · obtain ⟨-, u2⟩ := genrand_small (K := ℝ) hN' (bits32 (u (c + 1))) hyc
        have hi : ∃ i < N, ∀ a ≤ c, ¬ SameRow D (X i) (X (ch a)) := by
          by_contra h
          push Not at h
          refine hpos.ne' (Finset.sum_eq_zero fun i hi => ?_)
          obtain ⟨a, ha, hs⟩ := h i (mem_range.1 hi)
          exact nearDist_eq_zero.2.2 ⟨a, ha, hs⟩
        obtain ⟨-, q1, q2⟩ := choice_spec S dbl_idem X N D ch c _ w0 u2 hi
        have hw := (C55_weighted_choice (nearDist X D ch c) N (fun i _ => hnn i) hpos (u (c + 1)) uc0 uc1
          (discreteRand (nearDist X D ch c) N (u (c + 1)))).1.1 rfl
        refine same_row hnn hpos hw.1 (discreteRandFl_lt S _ N hN _) w1 hG (genrand_bits uc0 uc1) ?_ ?_ q1 q2 bc
        · exact (div_le_iff₀ hpos).1 hw.2.1
        · have := hw.2.2
          rw [← add_div, lt_div_iff₀ hpos] at this
          rwa [Finset.sum_range_succ]
  refine ⟨M, ?_, hM⟩
  rw [hrun]
  congr 1
  funext c
  by_cases hc : c < min k N
  · rw [d2 c (by omega), (hrow c hc).2, hsame c hc c le_rfl]
  · rw [d3 c (by omega), hrest c (by omega)]

theorem endWidth_le {N D : Nat} (hN' : N < 2 ^ 20) (hD : D ≤ 2 ^ 20) : 1 / 2 ^ 32 ≤ 2 * endWidth N D ∧ 2 * endWidth N D ≤ 1 / 2 ^ 28 := by
  have hG : (1 : ℝ) ≤ (dbl ℝ).g ^ (2 * N + 2 * D + 4) := one_le_pow₀ Rounding.one_le_g
  have hn : ((2 * N + 2 * D + 4 : Nat) : ℝ) ≤ 2 ^ 22 + 2 := by
    have : 2 * N + 2 * D + 4 ≤ 2 ^ 22 + 2 := by omega
    exact_mod_cast this
  have hk : ((2 * N + 2 * D + 4 : Nat) : ℝ) * (dbl ℝ).u ≤ (2 ^ 22 + 2) * (1 / 2 ^ 53) := by
    rw [dbl_u]
    exact mul_le_mul_of_nonneg_right hn (by positivity)
  have h2 : ((2 : ℝ) ^ 22 + 2) * (1 / 2 ^ 53) ≤ 1 / 2 := by norm_num
  have h := KMeans.g_pow_sub_one_le (R := dbl ℝ) (k := 2 * N + 2 * D + 4) (hk.trans h2)
  unfold endWidth
  generalize (dbl ℝ).g ^ (2 * N + 2 * D + 4) = G at *
  generalize ((2 * N + 2 * D + 4 : Nat) : ℝ) * (dbl ℝ).u = q at *
  constructor
  · have : (1 : ℝ) / 2 ^ 32 ≤ 2 * (1 / 2 ^ 31) := by norm_num
    linarith
  · have : 2 * (1 / 2 ^ 31 + 2 * (((2 : ℝ) ^ 22 + 2) * (1 / 2 ^ 53))) ≤ 1 / 2 ^ 28 := by norm_num
    linarith

theorem ae_unit_all : ∀ᵐ u ∂streamLaw unif, ∀ i, 0 ≤ u i ∧ u i < 1 := by
  rw [ae_all_iff]
  intro i
  have h : (streamLaw unif).map (fun u => u i) = unif := Measure.infinitePi_map_eval (fun _ : Nat => unif) i
  have h1 : ∀ᵐ x ∂unif, 0 ≤ x ∧ x < 1 := by
    unfold unif
    exact ae_restrict_mem (μ := volume) measurableSet_Ico
  rw [← h] at h1
  exact ae_of_ae_map (measurable_pi_apply (X := fun _ : Nat => ℝ) i).aemeasurable h1

/-- **C99** (coupling).  Take independent uniform numbers in `[0, 1)`.  The seeding in exact arithmetic with these numbers, and
the rounded seeding with the 32-bit integers that these numbers begin with (which are independent and uniform), write the same
centres, except with probability at most `k N / 2^28` (less than `2^20` points, at most `2^20` dimensions). -/
theorem C99_coupling (S : EigenSum (dbl ℝ).fl) (X : Nat → Nat → ℝ) (N D k : Nat) (hN : 0 < N) (hN' : N < 2 ^ 20)
    (hD : D ≤ 2 ^ 20) (hk : 0 < k) (Mu : Nat → Nat → ℝ) (junk junk' : Nat → ℝ) :
    (streamLaw unif).map (fun u i => ⌊(2 : ℝ) ^ 32 * u i⌋₊) = streamLaw word32.toMeasure ∧
    streamLaw unif {u | ¬ ∃ M,
      sampleRowsPlusPlusFl S X N D k (fun i => genrandDoubleFl (dbl ℝ).fl ⌊(2 : ℝ) ^ 32 * u i⌋₊) Mu junk = .ok M ∧
      sampleRowsPlusPlus X N D k u Mu junk' = .ok M} ≤ ENNReal.ofReal (k * N / 2 ^ 28) := by
  refine ⟨word_stream, ?_⟩
  obtain ⟨w1, w2⟩ := endWidth_le hN' hD
  have h1 := badSeed_le X N D hN (endWidth N D) w1 (min k N - 1)
  refine le_trans (measure_mono_ae ?_) (le_trans h1 ?_)
  · filter_upwards [ae_unit_all] with u hu h
    by_contra hb
    exact h (same_seeds S X N D k hN hN' hk u (fun i _ => hu i) hb Mu junk junk')
  · rw [← ENNReal.ofReal_natCast, ← ENNReal.ofReal_mul (Nat.cast_nonneg _)]
    apply ENNReal.ofReal_le_ofReal
    have hkk : ((min k N - 1 + 1 : Nat) : ℝ) ≤ k := by
      have : min k N - 1 + 1 ≤ k := by omega
      exact_mod_cast this
    have h2 : (N : ℝ) * (2 * endWidth N D) ≤ N * (1 / 2 ^ 28) := mul_le_mul_of_nonneg_left w2 (Nat.cast_nonneg _)
    have h3 : (0 : ℝ) ≤ N * (2 * endWidth N D) := mul_nonneg (Nat.cast_nonneg _) (le_trans (by positivity) w1)
    calc _ ≤ (k : ℝ) * (N * (1 / 2 ^ 28)) := mul_le_mul hkk h2 h3 (Nat.cast_nonneg _)
      _ = _ := by ring

/-! ## The result -/

theorem plusPlusLoopFl_congr {fl : ℝ → ℝ} (S : EigenSum fl) (X : Nat → Nat → ℝ) (N D : Nat) (u u' : Nat → ℝ) (Mu : Nat → Nat → ℝ)
    (junk : Nat → ℝ) (m : Nat) (h : ∀ i ≤ m, u i = u' i) :
    plusPlusLoopFl S X N D u Mu junk m = plusPlusLoopFl S X N D u' Mu junk m := by
  induction m with
  | zero => rfl
  | succ m ih =>
    rw [plusPlusLoopFl, plusPlusLoopFl, ih fun i hi => h i (by omega)]
    simp only
    rw [h (m + 1) le_rfl]

theorem runKMeansFl_congr {fl : ℝ → ℝ} (S : EigenSum fl) (X : Nat → Nat → ℝ) (N D k : Nat) (Niter : Int) (y y' : Nat → Nat)
    (Mu : Nat → Nat → ℝ) (Z : Nat → Nat) (junk : Nat → ℝ) (h : ∀ i < k, y i = y' i) :
    runKMeansFl S X N D k Niter y Mu Z junk = runKMeansFl S X N D k Niter y' Mu Z junk := by
  unfold runKMeansFl sampleRowsPlusPlusFl
  simp only
  rcases Nat.eq_zero_or_pos k with rfl | hk
  · simp
  · rw [h 0 hk, plusPlusLoopFl_congr S X N D (fun i => genrandDoubleFl fl (y i)) (fun i => genrandDoubleFl fl (y' i)) _ _ _
      fun i hi => by
        have : (if k > N then N else k) ≤ k := by split_ifs <;> omega
        rw [h i (by omega)]]

/-- A property of the first `k` numbers is measurable. -/
theorem measurable_first (k : Nat) (A : Set (Nat → Nat)) (hA : ∀ y y', (∀ i < k, y i = y' i) → y ∈ A → y' ∈ A) :
    MeasurableSet A := by
  let _ : MeasurableSpace (List Nat) := ⊤
  have hm : Measurable fun y : Nat → Nat => (List.range k).map y := by
    apply measurable_to_countable'
    intro l
    have e : (fun y : Nat → Nat => (List.range k).map y) ⁻¹' {l}
        = if l.length = k then ⋂ i ∈ Finset.range k, {y : Nat → Nat | y i = l.getD i 0} else ∅ := by
      ext y
      split_ifs with hl
      · simp only [Set.mem_preimage, Set.mem_singleton_iff, Set.mem_iInter, Finset.mem_range, Set.mem_ofPred_eq]
        constructor
        · intro h i hi
          rw [← h]
          simp [List.getD_eq_getElem?_getD, hi]
        · intro h
          apply List.ext_getElem (by simp [hl])
          intro i h1 h2
          have := h i (by omega)
          simp only [List.getElem_map, List.getElem_range]
          rw [this, List.getD_eq_getElem _ _ h2]
      · simp only [Set.mem_preimage, Set.mem_singleton_iff, Set.mem_empty_iff_false, iff_false]
        intro h
        exact hl (by rw [← h]; simp)
    rw [e]
    split_ifs
    · exact Finset.measurableSet_biInter _ fun i _ =>
        (measurable_pi_apply (X := fun _ : Nat => Nat) i) (measurableSet_singleton _)
    · exact MeasurableSet.empty
  have hA' : A = (fun y : Nat → Nat => (List.range k).map y) ⁻¹' {l | ∃ y ∈ A, (List.range k).map y = l} := by
    ext y
    constructor
    · intro h; exact ⟨y, h, rfl⟩
    · rintro ⟨y', h, e⟩
      refine hA y' y (fun i hi => ?_) h
      exact List.map_inj_left.1 e i (List.mem_range.2 hi)
  rw [hA']
  exact hm trivial

/-- What `n` iterations of the rounded code make of a cost `c`, when the coordinates are at most `B`: in at most 16 dimensions
`(1 + 2^-46)^n (c + n N D ((N + 1) 2^-52 B)^2)`, otherwise `c + n N (7 D (D + 2) 2^-52 B^2 + D ((N + 1) 2^-52 B)^2)`. -/
noncomputable def rounded (N D n : Nat) (B c : ℝ) : ℝ :=
  (if D ≤ 16 then 1 + 1 / 2 ^ 46 else 1) ^ n *
    (c + n * (N * ((if D ≤ 16 then 0 else 7 * D * (D + 2) * (1 / 2 ^ 52) * B ^ 2) + D * ((N + 1) * (1 / 2 ^ 52) * B) ^ 2)))

theorem rounded_mono {N D n : Nat} {B c c' : ℝ} (h : c ≤ c') : rounded N D n B c ≤ rounded N D n B c' := by
  unfold rounded
  refine mul_le_mul_of_nonneg_left (by linarith) (pow_nonneg ?_ _)
  split_ifs <;> positivity

theorem reached_le {N D n : Nat} (hN' : N < 2 ^ 20) (hD : D ≤ 2 ^ 20) {B c : ℝ} (hB0 : 0 ≤ B) (hc : 0 ≤ c) :
    labelFactor (dbl ℝ) D ^ n * (c + n * iterErr (dbl ℝ) N D B) ≤ rounded N D n B c := by
  obtain ⟨d1, d2, d3⟩ := C95_double (K := ℝ) N D hN' B hB0
  have hm0 : 0 ≤ meanErr (dbl ℝ) N B :=
    mul_nonneg (sub_nonneg.2 (Rounding.g_pow_one_le _)) hB0
  have hl0 : 0 ≤ labelFactor (dbl ℝ) D := le_trans zero_le_one (one_le_labelFactor D)
  have hN0 : (0 : ℝ) ≤ N := Nat.cast_nonneg _
  have hD0 : (0 : ℝ) ≤ D := Nat.cast_nonneg _
  have hn0 : (0 : ℝ) ≤ n := Nat.cast_nonneg _
  have hsq : meanErr (dbl ℝ) N B ^ 2 ≤ ((N + 1) * (1 / 2 ^ 52) * B) ^ 2 := pow_le_pow_left₀ hm0 d2 2
  have hle : labelErr (dbl ℝ) N D B ≤ (if D ≤ 16 then 0 else 7 * D * (D + 2) * (1 / 2 ^ 52) * B ^ 2) := by
    split_ifs with h
    · exact (d1 h).2.le
    · exact (d3 (by omega) hD).2
  have hf : labelFactor (dbl ℝ) D ≤ (if D ≤ 16 then 1 + 1 / 2 ^ 46 else 1) := by
    split_ifs with h
    · exact (d1 h).1
    · exact (d3 (by omega) hD).1.le
  have hlab0 : 0 ≤ labelErr (dbl ℝ) N D B := by
    by_cases h : D ≤ 16
    · exact (d1 h).2.ge
    · unfold labelErr
      rw [if_neg h]
      exact mul_nonneg (mul_nonneg (by positivity) (sub_nonneg.2 (Rounding.g_pow_one_le _))) (sq_nonneg _)
  have hi : iterErr (dbl ℝ) N D B ≤
      N * ((if D ≤ 16 then 0 else 7 * D * (D + 2) * (1 / 2 ^ 52) * B ^ 2) + D * ((N + 1) * (1 / 2 ^ 52) * B) ^ 2) := by
    unfold iterErr
    rw [← mul_add]
    exact mul_le_mul_of_nonneg_left (add_le_add hle (mul_le_mul_of_nonneg_left hsq hD0)) hN0
  have hi0 : 0 ≤ iterErr (dbl ℝ) N D B := by
    unfold iterErr
    positivity
  unfold rounded
  exact mul_le_mul (pow_le_pow_left₀ hl0 hf n) (add_le_add le_rfl (mul_le_mul_of_nonneg_left hi hn0)) (by positivity)
    (pow_nonneg (hl0.trans hf) _)

/-- When the seeds agree. -/
theorem resultFl_le_seed (S : EigenSum (dbl ℝ).fl) (X : Nat → Nat → ℝ) (N D k : Nat) (hk : 0 < k) (hkN : k ≤ N) (hN' : N < 2 ^ 20)
    (hD : D ≤ 2 ^ 20) (B : ℝ) (hB0 : 0 ≤ B) (hX : ∀ i < N, ∀ d < D, |X i d| ≤ B) (n : Nat) (hn : 1 ≤ n)
    (u : Nat → ℝ) (hu : ∀ i < k, 0 ≤ u i ∧ u i < 1) (hbad : ¬ badSeed X N D (endWidth N D) (min k N - 1) u)
    (Mu : Nat → Nat → ℝ) (Z : Nat → Nat) (junk : Nat → ℝ) :
    ∃ r, runKMeansFl S X N D k n (fun i => bits32 (u i)) Mu Z junk = .ok r ∧ (∀ i < N, r.2 i < k) ∧
      cost X N D r.1 r.2 ≤ rounded N D n B (seedCost X N D (seedRun X N D (min k N - 1) u).1) := by
  have hN : 0 < N := by omega
  obtain ⟨M, hM1, hM2⟩ := same_seeds S X N D k hN hN' hk u hu hbad Mu junk junk
  obtain ⟨M', hM', -, hrows, hc⟩ := seeds X N D k hN hk u (hu 0 hk).1 (hu 0 hk).2 Mu junk
  obtain rfl : M = M' := by
    rw [hM2] at hM'
    exact Outcome.ok.inj hM'
  have hMB : ∀ c < k, ∀ d < D, |M c d| ≤ B := fun c hc d hd => by
    obtain ⟨j, hj, -, e⟩ := hrows c (by omega)
    rw [e]
    exact hX j hj d hd
  have hcounts : Counts (dbl ℝ) N := dbl_counts (by omega)
  refine ⟨runLloydFl S X N D k M Z n, ?_, ?_, ?_⟩
  · unfold runKMeansFl
    rw [hM1]
    rfl
  · exact (C95_result S hcounts X D k hk M Z B hB0 hX hMB n (by exact_mod_cast hn)).1
  have hne : (range (min k N)).Nonempty := Finset.nonempty_range_iff.2 (by omega)
  have hlab : ∀ i, ∃ c < k, (range (min k N)).inf' hne (fun c => dist2 D (X i) (M c)) = dist2 D (X i) (M c) := by
    intro i
    obtain ⟨c, hc, he⟩ := Finset.exists_mem_eq_inf' hne (fun c => dist2 D (X i) (M c))
    exact ⟨c, by rw [mem_range] at hc; omega, he⟩
  choose Z' hZ1 hZ2 using hlab
  have hcost : cost X N D M Z' = seedCost X N D (seedRun X N D (min k N - 1) u).1 := by
    rw [hc]
    unfold cost
    exact Finset.sum_congr rfl fun i _ => (hZ2 i).symm
  have h := (C95_monotone S hcounts X D k hk M Z B hB0 hX hMB n n hn le_rfl).2 Z' (fun i _ => hZ1 i)
  rw [hcost] at h
  refine h.trans (reached_le hN' hD hB0 ?_)
  rw [← hcost]
  exact cost_nonneg X N D M Z'

theorem prob_bound (S : EigenSum (dbl ℝ).fl) (X : Nat → Nat → ℝ) (N D k : Nat) (hk : 0 < k) (hkN : k ≤ N) (hN' : N < 2 ^ 20)
    (hD : D ≤ 2 ^ 20) (B : ℝ) (hB0 : 0 ≤ B) (hX : ∀ i < N, ∀ d < D, |X i d| ≤ B) (n : Nat) (hn : 1 ≤ n)
    (Mu : Nat → Nat → ℝ) (Z : Nat → Nat) (junk : Nat → ℝ) (c : ℝ) (hc : 0 ≤ c) :
    streamLaw word32.toMeasure {y | ¬ ∃ r, runKMeansFl S X N D k n y Mu Z junk = .ok r ∧ (∀ i < N, r.2 i < k) ∧
      cost X N D r.1 r.2 ≤ rounded N D n B c} ≤
    streamLaw unif {u | ENNReal.ofReal c < ENNReal.ofReal (seedCost X N D (seedRun X N D (min k N - 1) u).1)} +
      ENNReal.ofReal (k * N / 2 ^ 28) := by
  have hN : 0 < N := by omega
  have hmeas : Measurable (fun (u : Nat → ℝ) (i : Nat) => bits32 (u i)) := by
    rw [measurable_pi_iff]
    exact fun i => measurable_bits32.comp (measurable_pi_apply (X := fun _ : Nat => ℝ) i)
  rw [← word_stream, Measure.map_apply hmeas (measurable_first k _ fun y y' h hy => by
    rw [Set.mem_ofPred_eq] at hy ⊢
    rwa [← runKMeansFl_congr S X N D k n y y' Mu Z junk h])]
  obtain ⟨w1, w2⟩ := endWidth_le hN' hD
  have h1 := badSeed_le X N D hN (endWidth N D) w1 (min k N - 1)
  have h2 : ((min k N - 1 + 1 : Nat) : ℝ≥0∞) * ENNReal.ofReal (N * (2 * endWidth N D)) ≤ ENNReal.ofReal (k * N / 2 ^ 28) := by
    rw [← ENNReal.ofReal_natCast, ← ENNReal.ofReal_mul (Nat.cast_nonneg _)]
    apply ENNReal.ofReal_le_ofReal
    have hkk : ((min k N - 1 + 1 : Nat) : ℝ) ≤ k := by
      have : min k N - 1 + 1 ≤ k := by omega
      exact_mod_cast this
    have h2 : (N : ℝ) * (2 * endWidth N D) ≤ N * (1 / 2 ^ 28) := mul_le_mul_of_nonneg_left w2 (Nat.cast_nonneg _)
    have h3 : (0 : ℝ) ≤ N * (2 * endWidth N D) := mul_nonneg (Nat.cast_nonneg _) (le_trans (by positivity) w1)
    calc _ ≤ (k : ℝ) * (N * (1 / 2 ^ 28)) := mul_le_mul hkk h2 h3 (Nat.cast_nonneg _)
      _ = _ := by ring
  refine le_trans (measure_mono_ae ?_) (le_trans (measure_union_le _ _) (add_le_add le_rfl (h1.trans h2)))
  filter_upwards [ae_unit_all] with u hu h
  by_contra hno
  obtain ⟨n1, n2⟩ := not_or.1 hno
  obtain ⟨r, r1, r2, r3⟩ := resultFl_le_seed S X N D k hk hkN hN' hD B hB0 hX n hn u (fun i _ => hu i) n2 Mu Z junk
  refine h ⟨r, r1, r2, r3.trans (rounded_mono ?_)⟩
  exact (ENNReal.ofReal_le_ofReal_iff hc).1 (not_lt.1 n1)

theorem seed_markov (X : Nat → Nat → ℝ) (N D k : Nat) (hN : 0 < N) (hk : 0 < k) (Mu' : Nat → Nat → ℝ) (Z' : Nat → Nat)
    (hZ' : ∀ i < N, Z' i < k) (c : ℝ) (hc : 0 < c) :
    streamLaw unif {u | ENNReal.ofReal c < ENNReal.ofReal (seedCost X N D (seedRun X N D (min k N - 1) u).1)} ≤
      ENNReal.ofReal (8 * (Real.log k + 2) * cost X N D Mu' Z' / c) := by
  have h2 := mul_meas_ge_le_lintegral (μ := streamLaw unif) (measurable_seedCost X N D (min k N - 1) hN) (ENNReal.ofReal c)
  have h3 := le_trans h2 (seed_expect X N D k hN hk Mu' Z' hZ')
  rw [ENNReal.ofReal_div_of_pos hc]
  rw [ENNReal.le_div_iff_mul_le (.inl (by rwa [ne_eq, ENNReal.ofReal_eq_zero, not_le])) (.inl ENNReal.ofReal_ne_top), mul_comm]
  refine le_trans (mul_le_mul_right (measure_mono fun u hu => ?_) _) h3
  rw [Set.mem_ofPred_eq] at hu ⊢
  exact hu.le

/-- **C99** (any threshold).  Let every operation of `RunKMeans` be rounded to double precision, and let the generator give
independent uniformly random 32-bit integers.  For `1 ≤ k ≤ N < 2^20` points with at most `2^20` coordinates, all of absolute
value at most `B`, `n ≥ 1` iterations, any centres `Mu'` with labels `Z'` below `k` and every `c > 0`: the probability that the
call has no result with labels below `k` and cost at most `rounded c` is at most `8 (ln k + 2) cost(Mu', Z') / c + k N / 2^28`.
-/
theorem C99_markov (S : EigenSum (dbl ℝ).fl) (X : Nat → Nat → ℝ) (N D k : Nat) (hk : 0 < k) (hkN : k ≤ N) (hN' : N < 2 ^ 20)
    (hD : D ≤ 2 ^ 20) (B : ℝ) (hB0 : 0 ≤ B) (hX : ∀ i < N, ∀ d < D, |X i d| ≤ B) (n : Nat) (hn : 1 ≤ n)
    (Mu : Nat → Nat → ℝ) (Z : Nat → Nat) (junk : Nat → ℝ) (Mu' : Nat → Nat → ℝ) (Z' : Nat → Nat)
    (hZ' : ∀ i < N, Z' i < k) (c : ℝ) (hc : 0 < c) :
    streamLaw word32.toMeasure {y | ¬ ∃ r, runKMeansFl S X N D k n y Mu Z junk = .ok r ∧ (∀ i < N, r.2 i < k) ∧
      cost X N D r.1 r.2 ≤ rounded N D n B c} ≤
    ENNReal.ofReal (8 * (Real.log k + 2) * cost X N D Mu' Z' / c + k * N / 2 ^ 28) := by
  have hcost : 0 ≤ cost X N D Mu' Z' := cost_nonneg X N D Mu' Z'
  have hlog : 0 ≤ Real.log k := Real.log_natCast_nonneg k
  rw [ENNReal.ofReal_add (by positivity) (by positivity)]
  exact le_trans (prob_bound S X N D k hk hkN hN' hD B hB0 hX n hn Mu Z junk c hc.le)
    (add_le_add (seed_markov X N D k (by omega) hk Mu' Z' hZ' c hc) le_rfl)

/-- **C99** (perfect clusters).  If some `k` centres have cost zero, the result of the rounded code has cost zero up to the
rounding errors, except with probability at most `k N / 2^28`. -/
theorem C99_perfect (S : EigenSum (dbl ℝ).fl) (X : Nat → Nat → ℝ) (N D k : Nat) (hk : 0 < k) (hkN : k ≤ N) (hN' : N < 2 ^ 20)
    (hD : D ≤ 2 ^ 20) (B : ℝ) (hB0 : 0 ≤ B) (hX : ∀ i < N, ∀ d < D, |X i d| ≤ B) (n : Nat) (hn : 1 ≤ n)
    (Mu : Nat → Nat → ℝ) (Z : Nat → Nat) (junk : Nat → ℝ) (Mu' : Nat → Nat → ℝ) (Z' : Nat → Nat)
    (hZ' : ∀ i < N, Z' i < k) (h0 : cost X N D Mu' Z' = 0) :
    streamLaw word32.toMeasure {y | ¬ ∃ r, runKMeansFl S X N D k n y Mu Z junk = .ok r ∧ (∀ i < N, r.2 i < k) ∧
      cost X N D r.1 r.2 ≤ rounded N D n B 0} ≤ ENNReal.ofReal (k * N / 2 ^ 28) := by
  have hN : 0 < N := by omega
  have hE := seed_expect X N D k hN hk Mu' Z' hZ'
  rw [h0, mul_zero, ENNReal.ofReal_zero] at hE
  have hz := (lintegral_eq_zero_iff (measurable_seedCost X N D (min k N - 1) hN)).1 (le_antisymm hE zero_le)
  have hz' : streamLaw unif {u | ENNReal.ofReal 0 < ENNReal.ofReal (seedCost X N D (seedRun X N D (min k N - 1) u).1)} = 0 := by
    have hz2 : ∀ᵐ u ∂streamLaw unif, ENNReal.ofReal (seedCost X N D (seedRun X N D (min k N - 1) u).1) = 0 := hz
    rw [ae_iff] at hz2
    refine measure_mono_null (fun u hu => ?_) hz2
    rw [ENNReal.ofReal_zero] at hu
    exact ne_of_gt hu
  have h := prob_bound S X N D k hk hkN hN' hD B hB0 hX n hn Mu Z junk 0 le_rfl
  rwa [hz', zero_add] at h

/-- **C99** (with probability about 1/2).  With the same assumptions, the cost of the result is at most
`rounded (16 (ln k + 2) cost(Mu', Z'))`, except with probability at most `1/2 + k N / 2^28`. -/
theorem C99_half (S : EigenSum (dbl ℝ).fl) (X : Nat → Nat → ℝ) (N D k : Nat) (hk : 0 < k) (hkN : k ≤ N) (hN' : N < 2 ^ 20)
    (hD : D ≤ 2 ^ 20) (B : ℝ) (hB0 : 0 ≤ B) (hX : ∀ i < N, ∀ d < D, |X i d| ≤ B) (n : Nat) (hn : 1 ≤ n)
    (Mu : Nat → Nat → ℝ) (Z : Nat → Nat) (junk : Nat → ℝ) (Mu' : Nat → Nat → ℝ) (Z' : Nat → Nat)
    (hZ' : ∀ i < N, Z' i < k) :
    streamLaw word32.toMeasure {y | ¬ ∃ r, runKMeansFl S X N D k n y Mu Z junk = .ok r ∧ (∀ i < N, r.2 i < k) ∧
      cost X N D r.1 r.2 ≤ rounded N D n B (16 * (Real.log k + 2) * cost X N D Mu' Z')} ≤
    ENNReal.ofReal (1 / 2 + k * N / 2 ^ 28) := by
  have hlog : 0 ≤ Real.log k := Real.log_natCast_nonneg k
  rcases (cost_nonneg X N D Mu' Z').eq_or_lt with h0 | hpos
  · rw [← h0, mul_zero]
    refine le_trans (C99_perfect S X N D k hk hkN hN' hD B hB0 hX n hn Mu Z junk Mu' Z' hZ' h0.symm)
      (ENNReal.ofReal_le_ofReal (by linarith))
  · have hc : 0 < 16 * (Real.log k + 2) * cost X N D Mu' Z' := by positivity
    refine le_trans (C99_markov S X N D k hk hkN hN' hD B hB0 hX n hn Mu Z junk Mu' Z' hZ' _ hc)
      (ENNReal.ofReal_le_ofReal (add_le_add (le_of_eq ?_) le_rfl))
    rw [div_eq_iff hc.ne']
    ring

/-- The data 0, 1, 10 on a line, two clusters, 100 iterations: except with probability 51%, the cost of the rounded result is at
most `rounded (8 (ln 2 + 2))`, the best cost being at most 1/2. -/
example (S : EigenSum (dbl ℝ).fl) (Mu : Nat → Nat → ℝ) (Z : Nat → Nat) (junk : Nat → ℝ) :
    streamLaw word32.toMeasure {y | ¬ ∃ r, runKMeansFl S line3 3 1 2 (100 : Nat) y Mu Z junk = .ok r ∧ (∀ i < 3, r.2 i < 2) ∧
      cost line3 3 1 r.1 r.2 ≤ rounded 3 1 100 10 (16 * (Real.log (2 : Nat) + 2) * (1 / 2))} ≤ ENNReal.ofReal (51 / 100) := by
  have h := C99_half S line3 3 1 2 (by norm_num) (by norm_num) (by norm_num) (by norm_num) 10 (by norm_num)
    (fun i _ d _ => by unfold line3; split_ifs <;> norm_num) 100 (by norm_num) Mu Z junk
    (fun c _ => if c = 0 then 1 / 2 else 10) (fun i => if i = 2 then 1 else 0) (fun i _ => by split_ifs <;> norm_num)
  have e : cost line3 3 1 (fun c _ => if c = 0 then 1 / 2 else 10) (fun i => if i = 2 then 1 else 0) = 1 / 2 := by
    simp [cost, dist2, line3, Finset.sum_range_succ]
    norm_num
  rw [e] at h
  exact le_trans h (ENNReal.ofReal_le_ofReal (by norm_num))

/-- The bound of `rounded` in this example is close to the bound without rounding. -/
example : rounded 3 1 100 10 0 ≤ 1 / 2 ^ 80 := by
  unfold rounded
  norm_num

end KMeans
end Stag
