import Verif.StepLaw
import Verif.Props.Random
import Mathlib.Probability.Distributions.Uniform

/-!
# The law of the edges sampled by `general_sbm`
-/

namespace Stag

open MeasureTheory Set
open scoped ENNReal

/-! ## Specification -/

/-- A uniform number from `0, …, m`. -/
noncomputable def rangeLaw (m : Nat) : PMF Nat :=
  PMF.uniformOfFinset (Finset.range (m + 1)) (Finset.nonempty_range_iff.2 (Nat.succ_ne_zero m))

/-- A random generator: every draw has its distribution, and the state it leaves behind is as random as the first one and
independent of the number drawn.  `N mean variance` is the distribution of a normal number rounded down. -/
structure RandomSource {Ω : Type} [MeasurableSpace Ω] (μ : Measure Ω) (R : Rng ℝ Ω) (N : ℝ → ℝ → PMF Int) : Prop where
  coin : ∀ p, 0 ≤ p → p ≤ 1 → StepLaw μ (stepOf (R.coin p)) (coinLaw p)
  normal : ∀ m v, StepLaw μ (stepOf (R.normal m v)) (N m v)
  unif : ∀ m, StepLaw μ (stepOf (R.unif m)) (rangeLaw m)

/-- The pairs of different vertices from the two clusters of a block. -/
def pairSet (b : SbmBlock) : Finset (Nat × Nat) :=
  (Finset.Ico b.s1 (b.s1 + b.m1) ×ˢ Finset.Ico b.s2 (b.s2 + b.m2)).filter fun q => q.1 ≠ q.2

/-- A uniformly random pair of different vertices. -/
noncomputable def pairLaw (b : SbmBlock) : PMF (Nat × Nat) :=
  haveI := Classical.propDecidable (pairSet b).Nonempty
  if h : (pairSet b).Nonempty then PMF.uniformOfFinset (pairSet b) h else PMF.pure (0, 0)

/-- `n` independent uniformly random pairs. -/
noncomputable def pairsLaw (b : SbmBlock) : Nat → PMF (List Emit)
  | 0 => PMF.pure []
  | n + 1 => (pairLaw b).bind fun q => (pairsLaw b n).bind fun es => PMF.pure (⟨q.1, q.2, false⟩ :: es)

/-- The number of edges in approximate mode: a rounded normal number, forced between 0 and the largest number. -/
noncomputable def countLaw (N : ℝ → ℝ → PMF Int) (b : SbmBlock) (p : ℝ) : PMF Nat :=
  (N (p * maxEdges b) ((1 - p) * (p * maxEdges b))).map fun r => (max 0 (min (maxEdges b : Int) r)).toNat

/-- One independent coin for each pair of a list. -/
noncomputable def coinsLaw (p : ℝ) : List (Nat × Nat) → PMF (List Emit)
  | [] => PMF.pure []
  | q :: ps => (coinLaw p).bind fun c => (coinsLaw p ps).bind fun es =>
      PMF.pure (if c then ⟨q.1, q.2, true⟩ :: es else es)

/-- When a block is sampled approximately. -/
def Approx (P : DenseMat ℝ) (exact : Bool) (b : SbmBlock) : Prop :=
  10000 ≤ b.m1 * b.m2 ∧ P.entry b.ci b.cj < 1 / 2 ∧ exact = false

/-- The edges of a block. -/
noncomputable def blockLaw (N : ℝ → ℝ → PMF Int) (P : DenseMat ℝ) (exact : Bool) (b : SbmBlock) : PMF (List Emit) :=
  haveI := Classical.propDecidable (Approx P exact b)
  if Approx P exact b then
    if P.entry b.ci b.cj * maxEdges b < 1 then PMF.pure []
    else (countLaw N b (P.entry b.ci b.cj)).bind fun n => pairsLaw b n
  else coinsLaw (P.entry b.ci b.cj) ((blockPairs b).filter fun q => decide (¬ (b.ci = b.cj ∧ q.2 ≤ q.1)))

/-- The edges of independent blocks. -/
noncomputable def blocksLaw (N : ℝ → ℝ → PMF Int) (P : DenseMat ℝ) (exact : Bool) : List SbmBlock → PMF (List Emit)
  | [] => PMF.pure []
  | b :: bs => (blockLaw N P exact b).bind fun es => (blocksLaw N P exact bs).bind fun fs => PMF.pure (es ++ fs)

theorem rangeLaw_apply (m a : Nat) : rangeLaw m a = if a < m + 1 then ((m + 1 : Nat) : ℝ≥0∞)⁻¹ else 0 := by
  rw [rangeLaw, PMF.uniformOfFinset_apply, Finset.card_range]
  by_cases h : a < m + 1
  · rw [if_pos h, if_pos (Finset.mem_range.2 h)]
  · rw [if_neg h, if_neg (fun hm => h (Finset.mem_range.1 hm))]

theorem mem_pairSet {b : SbmBlock} {q : Nat × Nat} : q ∈ pairSet b ↔
    ((b.s1 ≤ q.1 ∧ q.1 < b.s1 + b.m1) ∧ b.s2 ≤ q.2 ∧ q.2 < b.s2 + b.m2) ∧ q.1 ≠ q.2 := by
  unfold pairSet
  rw [Finset.mem_filter, Finset.mem_product, Finset.mem_Ico, Finset.mem_Ico]

/-! ## Rejection sampling -/

variable {Ω : Type} [MeasurableSpace Ω] {μ : Measure Ω} {R : Rng ℝ Ω} {N : ℝ → ℝ → PMF Int}

omit [MeasurableSpace Ω] in
theorem pickPair_mono (R : Rng ℝ Ω) (b : SbmBlock) (k : Nat) : ∀ s r, pickPair R b k s = some r →
    pickPair R b (k + 1) s = some r := by
  induction k with
  | zero => intro s r h; cases h
  | succ k ih =>
    intro s r h
    rw [pickPair] at h
    rw [pickPair]
    by_cases he : b.s1 + (R.unif (b.m1 - 1) s).1 = b.s2 + (R.unif (b.m2 - 1) (R.unif (b.m1 - 1) s).2).1
    · rw [if_pos he] at h ⊢
      exact ih _ _ h
    · rw [if_neg he] at h ⊢
      exact h

omit [MeasurableSpace Ω] in
theorem pickPair_mono' (R : Rng ℝ Ω) (b : SbmBlock) {k l : Nat} (hkl : k ≤ l) {s r} (h : pickPair R b k s = some r) :
    pickPair R b l s = some r := by
  induction hkl with
  | refl => exact h
  | step _ ih => exact pickPair_mono _ _ _ _ _ ih

/-- The probability that the two numbers give the same vertex. -/
noncomputable def rejectProb (b : SbmBlock) (U V : PMF Nat) : ℝ≥0∞ :=
  ∑' a, U a * ∑' c, V c * if b.s1 + a = b.s2 + c then 1 else 0

/-- The probability that they give the pair `q` of different vertices. -/
noncomputable def acceptProb (b : SbmBlock) (U V : PMF Nat) (q : Nat × Nat) : ℝ≥0∞ :=
  ∑' a, U a * ∑' c, V c * if b.s1 + a = b.s2 + c then 0 else if q = (b.s1 + a, b.s2 + c) then 1 else 0

theorem accept_total (b : SbmBlock) (U V : PMF Nat) : rejectProb b U V + ∑' q, acceptProb b U V q = 1 := by
  have h1 : ∑' q, acceptProb b U V q = ∑' a, U a * ∑' c, V c * if b.s1 + a = b.s2 + c then 0 else 1 := by
    unfold acceptProb
    rw [ENNReal.tsum_comm]
    apply tsum_congr
    intro a
    rw [ENNReal.tsum_mul_left]
    congr 1
    rw [ENNReal.tsum_comm]
    apply tsum_congr
    intro c
    rw [ENNReal.tsum_mul_left]
    congr 1
    by_cases h : b.s1 + a = b.s2 + c
    · simp [h]
    · simp only [if_neg h]
      rw [tsum_eq_single (b.s1 + a, b.s2 + c)]
      · rw [if_pos rfl]
      · intro q hq
        rw [if_neg hq]
  rw [h1, rejectProb, ← ENNReal.tsum_add]
  have h2 : ∀ a, U a * (∑' c, V c * if b.s1 + a = b.s2 + c then 1 else 0)
      + U a * (∑' c, V c * if b.s1 + a = b.s2 + c then 0 else 1) = U a := by
    intro a
    rw [← mul_add, ← ENNReal.tsum_add]
    have : ∀ c, (V c * if b.s1 + a = b.s2 + c then (1 : ℝ≥0∞) else 0) + (V c * if b.s1 + a = b.s2 + c then 0 else 1)
        = V c := by
      intro c
      split_ifs <;> simp
    simp only [this]
    rw [V.tsum_coe, mul_one]
  simp only [h2]
  exact U.tsum_coe

/-- The law of the rejection loop with at most `k` rounds. -/
theorem pickPair_step (hR : RandomSource μ R N) (b : SbmBlock) (U V : PMF Nat)
    (hU : U = rangeLaw (b.m1 - 1))
    (hV : V = rangeLaw (b.m2 - 1)) (k : Nat) :
    StepLaw μ (fun s q s' => pickPair R b k s = some (q, s'))
      (fun q => acceptProb b U V q * ∑ i ∈ Finset.range k, rejectProb b U V ^ i) := by
  induction k with
  | zero =>
    refine ⟨?_, ?_, ?_⟩
    · intro s a s' b' s'' h
      cases h
    · intro a B hB
      simp [pickPair]
    · intro a B hB
      simp [pickPair]
  | succ k ih =>
    have h1 := hR.unif (b.m1 - 1)
    have h2 := hR.unif (b.m2 - 1)
    rw [← hU] at h1
    rw [← hV] at h2
    have h3 : ∀ a c : Nat, StepLaw μ (fun s q s' => if b.s1 + a = b.s2 + c then pickPair R b k s = some (q, s')
        else q = (b.s1 + a, b.s2 + c) ∧ s' = s)
        (fun q => if b.s1 + a = b.s2 + c then acceptProb b U V q * ∑ i ∈ Finset.range k, rejectProb b U V ^ i
          else if q = (b.s1 + a, b.s2 + c) then 1 else 0) := by
      intro a c
      by_cases h : b.s1 + a = b.s2 + c
      · simp only [if_pos h]
        exact ih
      · simp only [if_neg h]
        exact (StepLaw.pure (b.s1 + a, b.s2 + c)).congr (fun _ _ _ => Iff.rfl) fun q => by
          rw [PMF.pure_apply]
          by_cases hq : q = (b.s1 + a, b.s2 + c)
          · rw [if_pos hq, if_pos hq]
          · rw [if_neg hq, if_neg hq]
    refine (h1.bind fun a => h2.bind fun c => h3 a c).congr (fun s q s' => ?_) (fun q => ?_)
    · rw [pickPair]
      simp only [stepOf]
      constructor
      · intro h
        refine ⟨_, _, rfl, _, _, rfl, ?_⟩
        split_ifs at h ⊢ with he
        · exact h
        · simp only [Option.some.injEq, Prod.mk.injEq] at h
          exact ⟨h.1.symm, h.2.symm⟩
      · rintro ⟨a, t, e1, c, t', e2, h⟩
        rw [e1]
        simp only [e2]
        split_ifs at h ⊢ with he
        · exact h
        · rw [h.1, h.2]
    · have e : ∀ a c, (V c * if b.s1 + a = b.s2 + c then acceptProb b U V q * ∑ i ∈ Finset.range k, rejectProb b U V ^ i
          else if q = (b.s1 + a, b.s2 + c) then 1 else 0)
          = (acceptProb b U V q * ∑ i ∈ Finset.range k, rejectProb b U V ^ i) *
            (V c * if b.s1 + a = b.s2 + c then 1 else 0)
            + V c * if b.s1 + a = b.s2 + c then 0 else if q = (b.s1 + a, b.s2 + c) then 1 else 0 := by
        intro a c
        split_ifs <;> ring
      simp only [e, ENNReal.tsum_add, ENNReal.tsum_mul_left, mul_add]
      have e2 : ∀ a, U a * ((acceptProb b U V q * ∑ i ∈ Finset.range k, rejectProb b U V ^ i) *
          ∑' c, V c * if b.s1 + a = b.s2 + c then 1 else 0)
          = (acceptProb b U V q * ∑ i ∈ Finset.range k, rejectProb b U V ^ i) *
            (U a * ∑' c, V c * if b.s1 + a = b.s2 + c then 1 else 0) := by
        intro a
        ring
      simp only [e2, ENNReal.tsum_mul_left]
      rw [show (∑' a, U a * ∑' c, V c * if b.s1 + a = b.s2 + c then 1 else 0) = rejectProb b U V from rfl,
        show (∑' a, U a * ∑' c, V c * if b.s1 + a = b.s2 + c then 0 else if q = (b.s1 + a, b.s2 + c) then 1 else 0)
          = acceptProb b U V q from rfl, Finset.sum_range_succ', pow_zero, mul_add, mul_one, mul_assoc, Finset.sum_mul]
      simp only [pow_succ]

theorem acceptProb_eq (b : SbmBlock) (h1 : 1 ≤ b.m1) (h2 : 1 ≤ b.m2) (U V : PMF Nat)
    (hU : U = rangeLaw (b.m1 - 1))
    (hV : V = rangeLaw (b.m2 - 1)) (q : Nat × Nat) :
    acceptProb b U V q = if q ∈ pairSet b then (b.m1 : ℝ≥0∞)⁻¹ * (b.m2 : ℝ≥0∞)⁻¹ else 0 := by
  have hUa : ∀ a, U a = if a < b.m1 then (b.m1 : ℝ≥0∞)⁻¹ else 0 := by
    intro a
    rw [hU, rangeLaw_apply, Nat.sub_add_cancel h1]
  have hVc : ∀ c, V c = if c < b.m2 then (b.m2 : ℝ≥0∞)⁻¹ else 0 := by
    intro c
    rw [hV, rangeLaw_apply, Nat.sub_add_cancel h2]
  unfold acceptProb
  obtain ⟨u, v⟩ := q
  rw [if_congr mem_pairSet rfl rfl]
  simp only [Prod.mk.injEq]
  by_cases hq : ((b.s1 ≤ u ∧ u < b.s1 + b.m1) ∧ b.s2 ≤ v ∧ v < b.s2 + b.m2) ∧ u ≠ v
  · rw [if_pos hq, tsum_eq_single (u - b.s1), tsum_eq_single (v - b.s2)]
    · rw [hUa, hVc, if_pos (by omega), if_pos (by omega), if_neg (by omega), if_pos (by omega), mul_one]
    · intro c hc
      split_ifs
      · simp
      · omega
      · simp
    · intro a ha
      have : ∀ c, (V c * if b.s1 + a = b.s2 + c then (0 : ℝ≥0∞) else if u = b.s1 + a ∧ v = b.s2 + c then 1 else 0) = 0 := by
        intro c
        rw [mul_eq_zero]
        right
        split_ifs
        · rfl
        · omega
        · rfl
      simp only [this, tsum_zero, mul_zero]
  · rw [if_neg hq, ENNReal.tsum_eq_zero]
    intro a
    rw [mul_eq_zero]
    by_cases ha : a < b.m1
    · right
      rw [ENNReal.tsum_eq_zero]
      intro c
      rw [mul_eq_zero]
      by_cases hc : c < b.m2
      · right
        split_ifs
        · rfl
        · omega
        · rfl
      · left
        rw [hVc, if_neg hc]
    · left
      rw [hUa, if_neg ha]

/-- The `while` loop returns a uniformly random pair of different vertices. -/
theorem pickPair_law (hR : RandomSource μ R N) (b : SbmBlock) (h1 : 1 ≤ b.m1) (h2 : 1 ≤ b.m2)
    (hne : (pairSet b).Nonempty) : StepLaw μ (runOf (pickPair R b)) (pairLaw b) := by
  obtain ⟨U, hU⟩ : ∃ U : PMF Nat, U = rangeLaw (b.m1 - 1) := ⟨_, rfl⟩
  obtain ⟨V, hV⟩ : ∃ V : PMF Nat, V = rangeLaw (b.m2 - 1) := ⟨_, rfl⟩
  have hlim := StepLaw.lim (pickPair_step hR b U V hU hV) (fun k s a s' h => pickPair_mono R b k s _ h)
  refine hlim.congr (fun _ _ _ => Iff.rfl) (fun q => ?_)
  rw [← ENNReal.mul_iSup, ← ENNReal.tsum_eq_iSup_nat, ENNReal.tsum_geometric]
  have htot := accept_total b U V
  have hacc := acceptProb_eq b h1 h2 U V hU hV
  have hsum : ∑' q, acceptProb b U V q = (pairSet b).card * ((b.m1 : ℝ≥0∞)⁻¹ * (b.m2 : ℝ≥0∞)⁻¹) := by
    simp only [hacc]
    rw [tsum_eq_sum (s := pairSet b) (by intro q hq; rw [if_neg hq]), Finset.sum_ite_mem, Finset.inter_self,
      Finset.sum_const, nsmul_eq_mul]
  have hrej : 1 - rejectProb b U V = (pairSet b).card * ((b.m1 : ℝ≥0∞)⁻¹ * (b.m2 : ℝ≥0∞)⁻¹) := by
    rw [← hsum, ← htot]
    apply ENNReal.add_sub_cancel_left
    intro htop
    rw [htop] at htot
    simp at htot
  rw [hrej, hacc, pairLaw, dif_pos hne, PMF.uniformOfFinset_apply]
  by_cases hq : q ∈ pairSet b
  · rw [if_pos hq, if_pos hq]
    have m0 : (b.m1 : ℝ≥0∞)⁻¹ * (b.m2 : ℝ≥0∞)⁻¹ ≠ 0 := by
      rw [mul_ne_zero_iff]
      constructor <;> simp
    have mt : (b.m1 : ℝ≥0∞)⁻¹ * (b.m2 : ℝ≥0∞)⁻¹ ≠ ⊤ := by
      apply ENNReal.mul_ne_top
      · rw [ENNReal.inv_ne_top]; exact_mod_cast (by omega : b.m1 ≠ 0)
      · rw [ENNReal.inv_ne_top]; exact_mod_cast (by omega : b.m2 ≠ 0)
    rw [ENNReal.mul_inv (.inr mt) (.inr m0), mul_comm, mul_assoc, ENNReal.inv_mul_cancel m0 mt, mul_one]
  · rw [if_neg hq, if_neg hq, zero_mul]

/-! ## Programs with a bound -/

omit [MeasurableSpace Ω] in
theorem pickPairs_mono (R : Rng ℝ Ω) (b : SbmBlock) (n : Nat) {k l : Nat} (hkl : k ≤ l) : ∀ {s r},
    pickPairs R b k n s = some r → pickPairs R b l n s = some r := by
  induction n with
  | zero => intro s r h; exact h
  | succ n ih =>
    intro s r h
    rw [pickPairs] at h ⊢
    cases h1 : pickPair R b k s with
    | none => rw [h1] at h; cases h
    | some x =>
      rw [pickPair_mono' R b hkl h1]
      rw [h1] at h
      simp only at h ⊢
      cases h2 : pickPairs R b k n x.2 with
      | none => rw [h2] at h; cases h
      | some y =>
        rw [ih h2]
        rw [h2] at h
        exact h

omit [MeasurableSpace Ω] in
theorem sampleBlock_mono (R : Rng ℝ Ω) (P : DenseMat ℝ) (exact : Bool) (b : SbmBlock) {k l : Nat} (hkl : k ≤ l) {s r}
    (h : sampleBlock R k P exact b s = some r) : sampleBlock R l P exact b s = some r := by
  unfold sampleBlock at h ⊢
  split_ifs at h ⊢
  · unfold sampleBinomial at h ⊢
    simp only at h ⊢
    split_ifs at h ⊢
    · exact h
    · exact pickPairs_mono R b _ hkl h
  · exact h

omit [MeasurableSpace Ω] in
theorem sampleBlocks_mono (R : Rng ℝ Ω) (P : DenseMat ℝ) (exact : Bool) (bs : List SbmBlock) {k l : Nat} (hkl : k ≤ l) :
    ∀ {s r}, sampleBlocks R k P exact bs s = some r → sampleBlocks R l P exact bs s = some r := by
  induction bs with
  | nil => intro s r h; exact h
  | cons b bs ih =>
    intro s r h
    rw [sampleBlocks] at h ⊢
    cases h1 : sampleBlock R k P exact b s with
    | none => rw [h1] at h; cases h
    | some x =>
      rw [sampleBlock_mono R P exact b hkl h1]
      rw [h1] at h
      simp only at h ⊢
      cases h2 : sampleBlocks R k P exact bs x.2 with
      | none => rw [h2] at h; cases h
      | some y =>
        rw [ih h2]
        rw [h2] at h
        exact h

/-! ## Laws -/

instance : Countable Emit :=
  Function.Injective.countable (f := fun e : Emit => (e.u, e.v, e.direct)) (by
    rintro ⟨a, b, c⟩ ⟨a', b', c'⟩ h
    simp only [Prod.mk.injEq] at h
    obtain ⟨rfl, rfl, rfl⟩ := h
    rfl)

theorem pickPairs_law (hR : RandomSource μ R N) (b : SbmBlock) (h1 : 1 ≤ b.m1) (h2 : 1 ≤ b.m2)
    (hne : (pairSet b).Nonempty) (n : Nat) : StepLaw μ (runOf fun k => pickPairs R b k n) (pairsLaw b n) := by
  induction n with
  | zero =>
    refine (StepLaw.pure []).congr (fun s a s' => ?_) (fun a => rfl)
    unfold runOf
    simp only [pickPairs, Option.some.injEq, Prod.mk.injEq, exists_const]
    exact ⟨fun h => ⟨h.1.symm, h.2.symm⟩, fun h => ⟨h.1.symm, h.2.symm⟩⟩
  | succ n ih =>
    refine ((pickPair_law hR b h1 h2 hne).bindP fun q => ih.bindP fun es =>
      StepLaw.pure (⟨q.1, q.2, false⟩ :: es)).congr (fun s a s' => ?_) (fun a => rfl)
    unfold runOf
    constructor
    · rintro ⟨k, h⟩
      simp only [pickPairs] at h
      cases e1 : pickPair R b k s with
      | none => rw [e1] at h; cases h
      | some x =>
        rw [e1] at h
        simp only at h
        cases e2 : pickPairs R b k n x.2 with
        | none => rw [e2] at h; cases h
        | some y =>
          rw [e2] at h
          simp only [Option.some.injEq, Prod.mk.injEq] at h
          exact ⟨x.1, x.2, ⟨k, e1⟩, y.1, y.2, ⟨k, e2⟩, h.1.symm, h.2.symm⟩
    · rintro ⟨q, t, ⟨k, e1⟩, es, t', ⟨l, e2⟩, rfl, rfl⟩
      refine ⟨max k l, ?_⟩
      simp only [pickPairs]
      rw [pickPair_mono' R b (le_max_left k l) e1]
      simp only
      rw [pickPairs_mono R b n (le_max_right k l) e2]

theorem directLoop_law (hR : RandomSource μ R N) (same : Bool) (p : ℝ) (h0 : 0 ≤ p) (h1 : p ≤ 1)
    (ps : List (Nat × Nat)) : StepLaw μ (stepOf (directLoop R same p ps))
      (coinsLaw p (ps.filter fun q => decide (¬ (same = true ∧ q.2 ≤ q.1)))) := by
  induction ps with
  | nil =>
    refine (StepLaw.pure []).congr (fun s a s' => ?_) (fun a => rfl)
    unfold stepOf
    simp only [directLoop, Prod.mk.injEq]
    exact ⟨fun h => ⟨h.1.symm, h.2.symm⟩, fun h => ⟨h.1.symm, h.2.symm⟩⟩
  | cons q ps ih =>
    obtain ⟨i, j⟩ := q
    by_cases h : same = true ∧ j ≤ i
    · rw [List.filter_cons_of_neg (by simpa using h)]
      refine ih.congr (fun s a s' => ?_) (fun a => rfl)
      unfold stepOf
      rw [directLoop, if_pos h]
    · have hd : (fun q : Nat × Nat => decide (¬ (same = true ∧ q.2 ≤ q.1))) (i, j) = true := decide_eq_true h
      rw [List.filter_cons_of_pos (p := fun q : Nat × Nat => decide (¬ (same = true ∧ q.2 ≤ q.1))) hd]
      refine ((hR.coin p h0 h1).bindP fun c => ih.bindP fun es =>
        StepLaw.pure (if c then ⟨i, j, true⟩ :: es else es)).congr (fun s a s' => ?_) (fun a => rfl)
      unfold stepOf
      rw [directLoop, if_neg h]
      simp only [Prod.mk.injEq]
      constructor
      · rintro ⟨rfl, rfl⟩
        exact ⟨_, _, rfl, _, _, rfl, rfl, rfl⟩
      · rintro ⟨c, t, e1, es, t', e2, rfl, rfl⟩
        rw [e1]
        simp only [e2, and_self]

theorem sampleBlock_law (hR : RandomSource μ R N) (P : DenseMat ℝ) (exact : Bool) (b : SbmBlock)
    (h0 : 0 ≤ P.entry b.ci b.cj) (h1 : P.entry b.ci b.cj ≤ 1) (m1 : 1 ≤ b.m1) (m2 : 1 ≤ b.m2)
    (hne : (pairSet b).Nonempty ∨ ¬ Approx P exact b) :
    StepLaw μ (runOf fun k => sampleBlock R k P exact b) (blockLaw N P exact b) := by
  unfold blockLaw
  by_cases ha : Approx P exact b
  · have hne := hne.resolve_right (not_not.2 ha)
    rw [if_pos ha]
    have hs : ∀ k, sampleBlock R k P exact b = sampleBinomial R k b (P.entry b.ci b.cj) := by
      intro k
      funext s
      unfold sampleBlock
      exact if_pos ha
    simp only [hs]
    by_cases he : P.entry b.ci b.cj * (maxEdges b : ℝ) < 1
    · rw [if_pos he]
      refine (StepLaw.pure []).congr (fun s a s' => ?_) (fun a => rfl)
      unfold runOf
      simp only [sampleBinomial, if_pos he, Option.some.injEq, Prod.mk.injEq, exists_const]
      exact ⟨fun h => ⟨h.1.symm, h.2.symm⟩, fun h => ⟨h.1.symm, h.2.symm⟩⟩
    · rw [if_neg he, countLaw, PMF.bind_map]
      refine ((hR.normal _ _).bindP fun r => pickPairs_law hR b m1 m2 hne _).congr (fun s a s' => ?_) (fun a => rfl)
      unfold runOf stepOf
      simp only [sampleBinomial, if_neg he]
      constructor
      · rintro ⟨k, h⟩
        exact ⟨_, _, rfl, k, h⟩
      · rintro ⟨r, t, e1, k, h⟩
        refine ⟨k, ?_⟩
        rw [e1]
        exact h
  · rw [if_neg ha]
    refine (directLoop_law hR (decide (b.ci = b.cj)) _ h0 h1 (blockPairs b)).congr (fun s a s' => ?_) (fun a => ?_)
    · unfold runOf stepOf
      have : ∀ k, sampleBlock R k P exact b s = some (sampleDirectly R b (P.entry b.ci b.cj) s) := by
        intro k
        unfold sampleBlock
        exact if_neg ha
      simp only [this, Option.some.injEq, exists_const]
      rfl
    · simp only [decide_eq_true_eq]

theorem sampleBlocks_law (hR : RandomSource μ R N) (P : DenseMat ℝ) (exact : Bool) (bs : List SbmBlock)
    (hbs : ∀ b ∈ bs, 0 ≤ P.entry b.ci b.cj ∧ P.entry b.ci b.cj ≤ 1 ∧ 1 ≤ b.m1 ∧ 1 ≤ b.m2 ∧
      ((pairSet b).Nonempty ∨ ¬ Approx P exact b)) :
    StepLaw μ (runOf fun k => sampleBlocks R k P exact bs) (blocksLaw N P exact bs) := by
  induction bs with
  | nil =>
    refine (StepLaw.pure []).congr (fun s a s' => ?_) (fun a => rfl)
    unfold runOf
    simp only [sampleBlocks, Option.some.injEq, Prod.mk.injEq, exists_const]
    exact ⟨fun h => ⟨h.1.symm, h.2.symm⟩, fun h => ⟨h.1.symm, h.2.symm⟩⟩
  | cons b bs ih =>
    obtain ⟨p0, p1, m1, m2, hne⟩ := hbs b (by simp)
    refine ((sampleBlock_law hR P exact b p0 p1 m1 m2 hne).bindP fun es =>
      (ih fun b' hb' => hbs b' (List.mem_cons_of_mem _ hb')).bindP fun fs =>
      StepLaw.pure (es ++ fs)).congr (fun s a s' => ?_) (fun a => rfl)
    unfold runOf
    constructor
    · rintro ⟨k, h⟩
      simp only [sampleBlocks] at h
      cases e1 : sampleBlock R k P exact b s with
      | none => rw [e1] at h; cases h
      | some x =>
        rw [e1] at h
        simp only at h
        cases e2 : sampleBlocks R k P exact bs x.2 with
        | none => rw [e2] at h; cases h
        | some y =>
          rw [e2] at h
          simp only [Option.some.injEq, Prod.mk.injEq] at h
          exact ⟨x.1, x.2, ⟨k, e1⟩, y.1, y.2, ⟨k, e2⟩, h.1.symm, h.2.symm⟩
    · rintro ⟨es, t, ⟨k, e1⟩, fs, t', ⟨l, e2⟩, rfl, rfl⟩
      refine ⟨max k l, ?_⟩
      simp only [sampleBlocks]
      rw [sampleBlock_mono R P exact b (le_max_left k l) e1]
      simp only
      rw [sampleBlocks_mono R P exact bs (le_max_right k l) e2]

end Stag
