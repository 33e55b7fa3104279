import Verif.SbmLaw

/-!
# C70: the approximate mode of `general_sbm`

Without `exact`, large sparse blocks are sampled by drawing the number of edges from a normal distribution and then the
edges one by one, by rejection.  The rejection loop may run for ever; here: it does so with probability zero, the edges
have exactly the distribution described by `blocksLaw`, and this gives the expected weight of every edge.
-/

namespace Stag

open MeasureTheory Set
open scoped ENNReal

variable {Ω : Type} [MeasurableSpace Ω] {μ : Measure Ω} {R : Rng ℝ Ω} {N : ℝ → ℝ → PMF Int}

/-! ## Blocks of valid arguments -/

theorem pairSet_nonempty {sizes : List Nat} {b : SbmBlock} (hb : BlockOk sizes b) (m1 : 1 ≤ b.m1) (m2 : 1 ≤ b.m2)
    (hm : 10000 ≤ b.m1 * b.m2) : (pairSet b).Nonempty := by
  by_cases hc : b.ci = b.cj
  · have hs : b.s1 = b.s2 := by rw [hb.s1, hb.s2, hc]
    have hmm : b.m1 = b.m2 := by rw [hb.m1, hb.m2, hc]
    have h2 : 2 ≤ b.m1 := by
      by_contra hlt
      have : b.m1 = 1 := by omega
      rw [← hmm, this] at hm
      omega
    refine ⟨(b.s1, b.s1 + 1), mem_pairSet.2 ?_⟩
    simp only
    omega
  · refine ⟨(b.s1, b.s2), mem_pairSet.2 ⟨by simp only; omega, ?_⟩⟩
    simp only
    intro he
    have i1 := (hb.in1 (u := b.s1)).2 (by omega)
    have i2 := (hb.in2 (u := b.s1)).2 (by omega)
    exact hc (i1.unique i2)

theorem blocks_ok {sizes : List Nat} {P : DenseMat ℝ} {exact : Bool} (h : SbmArgs sizes P) :
    ∀ b ∈ outerBlocks 0 0 sizes, 0 ≤ P.entry b.ci b.cj ∧ P.entry b.ci b.cj ≤ 1 ∧ 1 ≤ b.m1 ∧ 1 ≤ b.m2 ∧
      ((pairSet b).Nonempty ∨ ¬ Approx P exact b) := by
  intro b hb
  have hb := mem_allBlocks.1 hb
  have hlt := hb.lt
  have hle := hb.le
  have m1 : 1 ≤ b.m1 := by rw [hb.m1]; exact getD_pos h.sizes_pos _ (by omega)
  have m2 : 1 ≤ b.m2 := by rw [hb.m2]; exact getD_pos h.sizes_pos _ (by omega)
  have hp := h.prob b.ci (by omega) b.cj hlt
  refine ⟨hp.1, hp.2, m1, m2, ?_⟩
  by_cases ha : Approx P exact b
  · exact .inl (pairSet_nonempty hb m1 m2 ha.1)
  · exact .inr ha

theorem allBlocks_law (hR : RandomSource μ R N) {sizes : List Nat} {P : DenseMat ℝ} {exact : Bool} (h : SbmArgs sizes P) :
    StepLaw μ (runOf fun k => sampleBlocks R k P exact (outerBlocks 0 0 sizes))
      (blocksLaw N P exact (outerBlocks 0 0 sizes)) :=
  sampleBlocks_law hR P exact _ (blocks_ok h)

/-! ## Termination -/

/-- **C70** (termination).  For valid arguments, with a random generator that has the right distributions, the
probability that `general_sbm` runs for ever is zero. -/
theorem C70_terminates [IsProbabilityMeasure μ] (hR : RandomSource μ R N) {sizes : List Nat} {P : DenseMat ℝ}
    (exact : Bool) (h : SbmArgs sizes P) :
    μ {s | ∀ fuel, generalSbm R fuel (sizes.map (fun s : Nat => (s : Int))) P exact s = none} = 0 := by
  rw [← (allBlocks_law (exact := exact) hR h).returns]
  congr 1
  ext s
  simp only [Set.mem_ofPred_eq, runOf, not_exists]
  constructor
  · intro hn es s' k hk
    rcases generalSbm_eq R (fuel := k) (exact := exact) h s with ⟨e, -⟩ | ⟨es', s'', g, -, e, -⟩
    · rw [e] at hk; cases hk
    · rw [hn k] at e; cases e
  · intro hn k
    rcases generalSbm_eq R (fuel := k) (exact := exact) h s with ⟨-, e⟩ | ⟨es', s'', g, e, -⟩
    · exact e
    · exact absurd e (hn es' s'' k)

theorem sbm_eq_general {K Ω : Type} [Field K] [LinearOrder K] [IsStrictOrderedRing K] (R : Rng K Ω) (fuel : Nat)
    {n k : Nat} {p q : K} (exact : Bool) (hk : 1 ≤ k) (hkn : k ≤ n / 2)
    (hp : 0 ≤ p ∧ p ≤ 1) (hq : 0 ≤ q ∧ q ≤ 1) (s : Ω) :
    sbm R fuel n k p q exact s
      = generalSbm R fuel ((List.replicate k (n / k)).map (fun s : Nat => (s : Int))) (sbmProbs (k : Int) p q) exact s := by
  unfold sbm
  rw [if_neg (by omega), if_neg (by omega), if_neg (not_or.2 ⟨not_lt.2 hp.1, not_lt.2 hp.2⟩),
    if_neg (not_or.2 ⟨not_lt.2 hq.1, not_lt.2 hq.2⟩), sbmSizes_eq]

/-- **C70** (termination of `sbm`), for every input: wrong arguments are refused at once. -/
theorem C70_sbm_terminates [IsProbabilityMeasure μ] (hR : RandomSource μ R N) (n k : Int) (p q : ℝ) (exact : Bool) :
    μ {s | ∀ fuel, sbm R fuel n k p q exact s = none} = 0 := by
  by_cases hbad : n < 1 ∨ k < 1 ∨ n / 2 < k ∨ p < 0 ∨ 1 < p ∨ q < 0 ∨ 1 < q
  · have : {s | ∀ fuel, sbm R fuel n k p q exact s = none} = ∅ := by
      ext s
      simp only [Set.mem_ofPred_eq, mem_empty_iff_false, iff_false, not_forall]
      exact ⟨0, by rw [C40_sbm_errors R 0 s hbad]; simp⟩
    rw [this, measure_empty]
  · push Not at hbad
    obtain ⟨h1, h2, h3, h4, h5, h6, h7⟩ := hbad
    obtain ⟨n', rfl⟩ := Int.eq_ofNat_of_zero_le (by omega : 0 ≤ n)
    obtain ⟨k', rfl⟩ := Int.eq_ofNat_of_zero_le (by omega : 0 ≤ k)
    have hk : 1 ≤ k' := by omega
    have hkn : k' ≤ n' / 2 := by omega
    have := C70_terminates hR exact (sbm_args hk hkn ⟨h4, h5⟩ ⟨h6, h7⟩)
    rw [← this]
    congr 1
    ext s
    simp only [Set.mem_ofPred_eq]
    exact forall_congr' fun fuel => by rw [sbm_eq_general R fuel exact hk hkn ⟨h4, h5⟩ ⟨h6, h7⟩ s]

/-! ## The distribution of the edges -/

/-- **C70** (law).  The list of sampled edges has exactly the specified distribution. -/
theorem C70_law [IsProbabilityMeasure μ] (hR : RandomSource μ R N) {sizes : List Nat} {P : DenseMat ℝ}
    (exact : Bool) (h : SbmArgs sizes P) (es : List Emit) :
    μ {s | ∃ fuel s', sbmInternal R fuel (sizes.map (fun s : Nat => (s : Int))) P exact s = some (.ok es, s')}
      = blocksLaw N P exact (outerBlocks 0 0 sizes) es := by
  rw [← (allBlocks_law (exact := exact) hR h).prob es]
  congr 1
  ext s
  simp only [Set.mem_ofPred_eq, runOf]
  constructor
  · rintro ⟨k, s', e⟩
    refine ⟨s', k, ?_⟩
    unfold sbmInternal at e
    rw [sbmChecks_ok h, map_toNat] at e
    simp only at e
    cases hs : sampleBlocks R k P exact (outerBlocks 0 0 sizes) s with
    | none => rw [hs] at e; cases e
    | some x =>
      rw [hs] at e
      simp only [Option.some.injEq, Prod.mk.injEq, Outcome.ok.injEq] at e
      rw [← e.1, ← e.2]
  · rintro ⟨s', k, e⟩
    refine ⟨k, s', ?_⟩
    unfold sbmInternal
    rw [sbmChecks_ok h, map_toNat]
    simp only [e]

/-! ## Expected weights -/

/-- The pair `q` joins `u` and `v`. -/
def Joins (q : Nat × Nat) (u v : Nat) : Prop := (q.1 = u ∧ q.2 = v) ∨ (q.1 = v ∧ q.2 = u)

instance (q : Nat × Nat) (u v : Nat) : Decidable (Joins q u v) := by unfold Joins; infer_instance

theorem mult_cons (e : Emit) (es : List Emit) (u v : Nat) :
    mult (e :: es) u v = (if Joins (e.u, e.v) u v then 1 else 0) + mult es u v := by
  rw [← List.singleton_append, mult_append, mult_singleton]
  rfl

theorem expect_mono' {α : Type} (p : PMF α) (A : α → Prop) [DecidablePred A] :
    PMF.expect p (fun x => if A x then (1 : ℝ≥0∞) else 0) = ∑' x, if A x then p x else 0 := by
  unfold PMF.expect
  apply tsum_congr
  intro x
  by_cases h : A x
  · simp only [if_pos h, mul_one]
  · simp only [if_neg h, mul_zero]

/-- The expected number of copies of an edge among `n` random pairs. -/
theorem pairsLaw_mult (b : SbmBlock) (u v n : Nat) :
    PMF.expect (pairsLaw b n) (fun es => (mult es u v : ℝ≥0∞))
      = n * PMF.expect (pairLaw b) (fun q => if Joins q u v then 1 else 0) := by
  induction n with
  | zero => rw [pairsLaw, expect_pure]; simp [mult]
  | succ n ih =>
    rw [pairsLaw, expect_bind]
    have h1 : ∀ q : Nat × Nat, PMF.expect ((pairsLaw b n).bind fun es => PMF.pure (⟨q.1, q.2, false⟩ :: es))
        (fun es => (mult es u v : ℝ≥0∞))
        = (if Joins q u v then 1 else 0) + n * PMF.expect (pairLaw b) (fun q => if Joins q u v then 1 else 0) := by
      intro q
      rw [expect_bind]
      simp only [expect_pure, mult_cons]
      have : ∀ es : List Emit, (((if Joins (q.1, q.2) u v then 1 else 0) + mult es u v : Nat) : ℝ≥0∞)
          = (if Joins q u v then 1 else 0) + (mult es u v : ℝ≥0∞) := by
        intro es
        push_cast
        rfl
      simp only [this]
      rw [expect_add, expect_const, ih]
    simp only [h1]
    rw [expect_add, expect_const]
    push_cast
    ring

/-- The expected number of copies of an edge among independent coins. -/
theorem coinsLaw_mult {p : ℝ} (h0 : 0 ≤ p) (h1 : p ≤ 1) (u v : Nat) (ps : List (Nat × Nat)) :
    PMF.expect (coinsLaw p ps) (fun es => (mult es u v : ℝ≥0∞))
      = (ps.countP fun q => decide (Joins q u v)) * ENNReal.ofReal p := by
  induction ps with
  | nil => rw [coinsLaw, expect_pure]; simp [mult]
  | cons q ps ih =>
    rw [coinsLaw, expect_bind]
    have e1 : ∀ c : Bool, PMF.expect ((coinsLaw p ps).bind fun es =>
        PMF.pure (if c then (⟨q.1, q.2, true⟩ : Emit) :: es else es)) (fun es => (mult es u v : ℝ≥0∞))
        = (if c then (if Joins q u v then 1 else 0) else 0) + (ps.countP fun q => decide (Joins q u v)) * ENNReal.ofReal p := by
      intro c
      rw [expect_bind]
      simp only [expect_pure]
      cases c
      · simp only [Bool.false_eq_true, if_false, zero_add]
        exact ih
      · simp only [if_true, mult_cons]
        have : ∀ es : List Emit, (((if Joins (q.1, q.2) u v then 1 else 0) + mult es u v : Nat) : ℝ≥0∞)
            = (if Joins q u v then 1 else 0) + (mult es u v : ℝ≥0∞) := by
          intro es
          push_cast
          rfl
        simp only [this]
        rw [expect_add, expect_const, ih]
    simp only [e1]
    rw [expect_add, expect_const]
    have e2 : PMF.expect (coinLaw p) (fun c => if c then (if Joins q u v then (1 : ℝ≥0∞) else 0) else 0)
        = (if Joins q u v then 1 else 0) * ENNReal.ofReal p := by
      unfold PMF.expect
      rw [tsum_bool, coinLaw_true h0 h1]
      simp [mul_comm]
    rw [e2, List.countP_cons]
    by_cases hj : Joins q u v
    · simp only [hj, if_true, decide_true]
      push_cast
      ring
    · simp only [hj, if_false, decide_false]
      push_cast
      simp

theorem blocksLaw_mult (P : DenseMat ℝ) (exact : Bool) (u v : Nat) (bs : List SbmBlock) :
    PMF.expect (blocksLaw N P exact bs) (fun es => (mult es u v : ℝ≥0∞))
      = (bs.map fun b => PMF.expect (blockLaw N P exact b) (fun es => (mult es u v : ℝ≥0∞))).sum := by
  induction bs with
  | nil => rw [blocksLaw, expect_pure]; simp [mult]
  | cons b bs ih =>
    rw [blocksLaw, expect_bind]
    have e1 : ∀ es : List Emit, PMF.expect ((blocksLaw N P exact bs).bind fun fs => PMF.pure (es ++ fs))
        (fun es => (mult es u v : ℝ≥0∞)) = (mult es u v : ℝ≥0∞)
          + PMF.expect (blocksLaw N P exact bs) (fun es => (mult es u v : ℝ≥0∞)) := by
      intro es
      rw [expect_bind]
      simp only [expect_pure, mult_append]
      push_cast
      rw [expect_add, expect_const]
    simp only [e1]
    rw [expect_add, expect_const, List.map_cons, List.sum_cons, ih]

/-- The chance that a random pair of a block is `{u, v}`. -/
theorem pairLaw_joins (b : SbmBlock) (hne : (pairSet b).Nonempty) (u v : Nat) (huv : u ≠ v) :
    PMF.expect (pairLaw b) (fun q => if Joins q u v then 1 else 0)
      = ((if (u, v) ∈ pairSet b then 1 else 0) + if (v, u) ∈ pairSet b then 1 else 0) * ((pairSet b).card : ℝ≥0∞)⁻¹ := by
  have hp : ∀ q, pairLaw b q = if q ∈ pairSet b then ((pairSet b).card : ℝ≥0∞)⁻¹ else 0 := by
    intro q
    rw [pairLaw, dif_pos hne, PMF.uniformOfFinset_apply]
    by_cases hq : q ∈ pairSet b
    · rw [if_pos hq, if_pos hq]
    · rw [if_neg hq, if_neg hq]
  rw [expect_mono', tsum_eq_sum (s := {(u, v), (v, u)})]
  · rw [Finset.sum_pair (by simp only [ne_eq, Prod.mk.injEq, not_and]; intro h; exact absurd h huv)]
    rw [if_pos (.inl ⟨rfl, rfl⟩), if_pos (.inr ⟨rfl, rfl⟩), hp, hp, add_mul, ite_mul, ite_mul, one_mul, zero_mul]
  · intro q hq
    rw [if_neg]
    intro hj
    apply hq
    obtain ⟨a, c⟩ := q
    simp only [Finset.mem_insert, Finset.mem_singleton, Prod.mk.injEq]
    exact hj

theorem countP_direct {sizes : List Nat} {b : SbmBlock} (hb : BlockOk sizes b) (u v : Nat) (huv : u ≠ v) :
    (((blockPairs b).filter fun q => decide (¬ (b.ci = b.cj ∧ q.2 ≤ q.1))).countP fun q => decide (Joins q u v))
      = if (u, v) ∈ pairSet b ∨ (v, u) ∈ pairSet b then 1 else 0 := by
  rw [List.countP_eq_length_filter, List.filter_filter]
  have hmem : ∀ q : Nat × Nat, q ∈ ((blockPairs b).filter fun q => decide (Joins q u v) && decide (¬ (b.ci = b.cj ∧ q.2 ≤ q.1)))
      ↔ q ∈ pairSet b ∧ Joins q u v ∧ ¬ (b.ci = b.cj ∧ q.2 ≤ q.1) := by
    rintro ⟨x, y⟩
    rw [List.mem_filter, mem_blockPairs, mem_pairSet, Bool.and_eq_true, decide_eq_true_eq, decide_eq_true_eq]
    unfold Joins
    simp only
    constructor
    · rintro ⟨h1, h2, h3⟩
      refine ⟨⟨by omega, by omega⟩, h2, h3⟩
    · rintro ⟨⟨h1, -⟩, h2, h3⟩
      refine ⟨by omega, h2, h3⟩
  have hsym : b.ci = b.cj → ∀ x y, (x, y) ∈ pairSet b → (y, x) ∈ pairSet b := by
    intro hc x y
    have e1 : b.s1 = b.s2 := by rw [hb.s1, hb.s2, hc]
    have e2 : b.m1 = b.m2 := by rw [hb.m1, hb.m2, hc]
    rw [mem_pairSet, mem_pairSet]
    simp only
    omega
  have hanti : b.ci ≠ b.cj → ∀ x y, (x, y) ∈ pairSet b → (y, x) ∉ pairSet b := by
    intro hc x y
    rw [mem_pairSet, mem_pairSet]
    simp only
    intro h1 h2
    have i1 := (hb.in1 (u := x)).2 h1.1.1
    have i2 := (hb.in2 (u := x)).2 h2.1.2
    exact hc (i1.unique i2)
  have hnd : ((blockPairs b).filter fun q => decide (Joins q u v) && decide (¬ (b.ci = b.cj ∧ q.2 ≤ q.1))).Nodup :=
    (nodup_blockPairs b).filter _
  have hsub : ∀ q ∈ ((blockPairs b).filter fun q => decide (Joins q u v) && decide (¬ (b.ci = b.cj ∧ q.2 ≤ q.1))),
      ∀ q' ∈ ((blockPairs b).filter fun q => decide (Joins q u v) && decide (¬ (b.ci = b.cj ∧ q.2 ≤ q.1))), q = q' := by
    intro q hq q' hq'
    obtain ⟨a1, a2, a3⟩ := (hmem q).1 hq
    obtain ⟨c1, c2, c3⟩ := (hmem q').1 hq'
    obtain ⟨x, y⟩ := q
    obtain ⟨x', y'⟩ := q'
    unfold Joins at a2 c2
    simp only at a2 a3 c2 c3
    by_cases hc : b.ci = b.cj
    · simp only [Prod.mk.injEq]
      omega
    · rcases a2 with ⟨rfl, rfl⟩ | ⟨rfl, rfl⟩ <;> rcases c2 with ⟨rfl, rfl⟩ | ⟨rfl, rfl⟩
      · rfl
      · exact absurd c1 (hanti hc _ _ a1)
      · exact absurd c1 (hanti hc _ _ a1)
      · rfl
  by_cases hex : (u, v) ∈ pairSet b ∨ (v, u) ∈ pairSet b
  · rw [if_pos hex]
    have : ∃ q, q ∈ ((blockPairs b).filter fun q => decide (Joins q u v) && decide (¬ (b.ci = b.cj ∧ q.2 ≤ q.1))) := by
      by_cases hc : b.ci = b.cj
      · have h1 : (u, v) ∈ pairSet b := by
          rcases hex with h | h
          · exact h
          · exact hsym hc _ _ h
        have h2 := hsym hc _ _ h1
        rcases Nat.lt_or_gt_of_ne huv with hlt | hlt
        · exact ⟨(u, v), (hmem _).2 ⟨h1, .inl ⟨rfl, rfl⟩, by simp only; omega⟩⟩
        · exact ⟨(v, u), (hmem _).2 ⟨h2, .inr ⟨rfl, rfl⟩, by simp only; omega⟩⟩
      · rcases hex with h | h
        · exact ⟨(u, v), (hmem _).2 ⟨h, .inl ⟨rfl, rfl⟩, fun hh => hc hh.1⟩⟩
        · exact ⟨(v, u), (hmem _).2 ⟨h, .inr ⟨rfl, rfl⟩, fun hh => hc hh.1⟩⟩
    obtain ⟨q, hq⟩ := this
    apply le_antisymm
    · by_contra hlt
      obtain ⟨a, c, l, hl⟩ : ∃ a c l, ((blockPairs b).filter fun q => decide (Joins q u v) &&
          decide (¬ (b.ci = b.cj ∧ q.2 ≤ q.1))) = a :: c :: l := by
        match hL : ((blockPairs b).filter fun q => decide (Joins q u v) && decide (¬ (b.ci = b.cj ∧ q.2 ≤ q.1))) with
        | [] => rw [hL] at hlt; simp at hlt
        | [_] => rw [hL] at hlt; simp at hlt
        | a :: c :: l => exact ⟨a, c, l, rfl⟩
      rw [hl] at hnd hsub
      have := hsub a (by simp) c (by simp)
      rw [this] at hnd
      simp at hnd
    · exact List.length_pos_of_mem hq
  · rw [if_neg hex, List.length_eq_zero_iff, List.eq_nil_iff_forall_not_mem]
    intro q hq
    obtain ⟨a1, a2, -⟩ := (hmem q).1 hq
    obtain ⟨x, y⟩ := q
    rcases a2 with ⟨e1, e2⟩ | ⟨e1, e2⟩ <;> simp only at e1 e2 <;> rw [e1, e2] at a1
    · exact hex (.inl a1)
    · exact hex (.inr a1)

theorem card_pairSet_same (b : SbmBlock) (hs : b.s1 = b.s2) (hm : b.m1 = b.m2) :
    (pairSet b).card = b.m1 * (b.m1 - 1) := by
  have e : pairSet b = (Finset.Ico b.s1 (b.s1 + b.m1)).offDiag := by
    ext ⟨x, y⟩
    rw [mem_pairSet, Finset.mem_offDiag, Finset.mem_Ico, Finset.mem_Ico, ← hs, ← hm, and_assoc]
  rw [e, Finset.offDiag_card, Nat.card_Ico, Nat.add_sub_cancel_left, Nat.mul_sub, mul_one]

theorem card_pairSet_other {sizes : List Nat} {b : SbmBlock} (hb : BlockOk sizes b) (hc : b.ci ≠ b.cj) :
    (pairSet b).card = b.m1 * b.m2 := by
  have e : pairSet b = Finset.Ico b.s1 (b.s1 + b.m1) ×ˢ Finset.Ico b.s2 (b.s2 + b.m2) := by
    unfold pairSet
    apply Finset.filter_true_of_mem
    intro q hq he
    rw [Finset.mem_product, Finset.mem_Ico, Finset.mem_Ico] at hq
    have i1 := (hb.in1 (u := q.1)).2 hq.1
    have i2 := (hb.in2 (u := q.1)).2 (by rw [he]; exact hq.2)
    exact hc (i1.unique i2)
  rw [e, Finset.card_product, Nat.card_Ico, Nat.card_Ico, Nat.add_sub_cancel_left, Nat.add_sub_cancel_left]

/-- A block that does not contain the pair does not contribute. -/
theorem blockLaw_other {sizes : List Nat} {P : DenseMat ℝ} {exact : Bool} (h : SbmArgs sizes P) {b : SbmBlock}
    (hb : BlockOk sizes b) {u v : Nat} (huv : u ≠ v) (h1 : (u, v) ∉ pairSet b) (h2 : (v, u) ∉ pairSet b) :
    PMF.expect (blockLaw N P exact b) (fun es => (mult es u v : ℝ≥0∞)) = 0 := by
  obtain ⟨p0, p1, -, -, hne⟩ := blocks_ok (exact := exact) h b (mem_allBlocks.2 hb)
  unfold blockLaw
  by_cases ha : Approx P exact b
  · rw [if_pos ha]
    by_cases he : P.entry b.ci b.cj * (maxEdges b : ℝ) < 1
    · rw [if_pos he, expect_pure]; simp [mult]
    · rw [if_neg he, expect_bind]
      simp only [pairsLaw_mult, pairLaw_joins b (hne.resolve_right (not_not.2 ha)) u v huv, if_neg h1, if_neg h2, add_zero,
        zero_mul, mul_zero]
      exact expect_const _ 0
  · rw [if_neg ha, coinsLaw_mult p0 p1, countP_direct hb u v huv, if_neg (by tauto)]
    simp

theorem sum_single {α : Type} (f : α → ℝ≥0∞) (r : α → α → Prop) (hr : ∀ a, ¬ r a a) (x : α) : ∀ l : List α, l.Pairwise r →
    x ∈ l → (∀ y ∈ l, y ≠ x → f y = 0) → (l.map f).sum = f x := by
  intro l
  induction l with
  | nil => intro _ hx; cases hx
  | cons a l ih =>
    intro hp hx h0
    rw [List.map_cons, List.sum_cons]
    rw [List.pairwise_cons] at hp
    by_cases hax : a = x
    · have : (l.map f).sum = 0 := by
        apply List.sum_eq_zero
        intro y hy
        obtain ⟨z, hz, rfl⟩ := List.mem_map.1 hy
        apply h0 z (List.mem_cons_of_mem _ hz)
        rintro rfl
        have := hp.1 z hz
        rw [hax] at this
        exact hr _ this
      rw [this, hax, add_zero]
    · have hx' : x ∈ l := by
        rcases List.mem_cons.1 hx with h | h
        · exact absurd h.symm hax
        · exact h
      rw [h0 a (by simp) hax, zero_add]
      exact ih hp.2 hx' fun y hy => h0 y (List.mem_cons_of_mem _ hy)

/-- The block of two clusters. -/
def blockOf (sizes : List Nat) (c d : Nat) : SbmBlock :=
  ⟨c, d, (sizes.take c).sum, (sizes.take d).sum, sizes.getD c 0, sizes.getD d 0⟩

theorem blockOf_ok {sizes : List Nat} {c d : Nat} (hcd : c ≤ d) (hd : d < sizes.length) :
    BlockOk sizes (blockOf sizes c d) := ⟨hcd, hd, rfl, rfl, rfl, rfl⟩

theorem between_mem {sizes : List Nat} {c d u v : Nat} (hbt : Between sizes c d u v) (huv : u ≠ v) :
    d < sizes.length ∧ ((u, v) ∈ pairSet (blockOf sizes c d) ∨ (v, u) ∈ pairSet (blockOf sizes c d)) := by
  obtain ⟨hcd, hbt⟩ := hbt
  have hd : d < sizes.length := by rcases hbt with ⟨-, h, -⟩ | ⟨-, h, -⟩ <;> exact h
  have hb := blockOf_ok hcd hd
  refine ⟨hd, ?_⟩
  rcases hbt with ⟨x, y⟩ | ⟨x, y⟩
  · left
    exact mem_pairSet.2 ⟨⟨hb.in1.1 x, hb.in2.1 y⟩, huv⟩
  · right
    exact mem_pairSet.2 ⟨⟨hb.in1.1 x, hb.in2.1 y⟩, huv.symm⟩

theorem blocks_expect {sizes : List Nat} {P : DenseMat ℝ} {exact : Bool} (h : SbmArgs sizes P) {c d u v : Nat}
    (hbt : Between sizes c d u v) (huv : u ≠ v) :
    PMF.expect (blocksLaw N P exact (outerBlocks 0 0 sizes)) (fun es => (mult es u v : ℝ≥0∞))
      = PMF.expect (blockLaw N P exact (blockOf sizes c d)) (fun es => (mult es u v : ℝ≥0∞)) := by
  obtain ⟨hd, -⟩ := between_mem hbt huv
  rw [blocksLaw_mult]
  apply sum_single _ (fun a b : SbmBlock => a.ci ≠ b.ci ∨ a.cj ≠ b.cj) (by rintro a (h | h) <;> exact h rfl)
    _ _ (pairwise_allBlocks sizes) (mem_allBlocks.2 (blockOf_ok hbt.1 hd))
  intro b hb hne
  have hb := mem_allBlocks.1 hb
  have hlt := hb.le
  have hcd := hbt.1
  have key : ∀ x y, (x = u ∧ y = v) ∨ (x = v ∧ y = u) → (x, y) ∉ pairSet b := by
    intro x y hxy hmem
    rw [mem_pairSet] at hmem
    have i1 := (hb.in1 (u := x)).2 hmem.1.1
    have i2 := (hb.in2 (u := y)).2 hmem.1.2
    apply hne
    have : b.ci = c ∧ b.cj = d := by
      rcases hbt.2 with ⟨p, q⟩ | ⟨p, q⟩ <;> rcases hxy with ⟨rfl, rfl⟩ | ⟨rfl, rfl⟩
      · exact ⟨i1.unique p, i2.unique q⟩
      · have := i1.unique q
        have := i2.unique p
        omega
      · have := i1.unique q
        have := i2.unique p
        omega
      · exact ⟨i1.unique p, i2.unique q⟩
    obtain ⟨ci, cj, s1, s2, m1, m2⟩ := b
    obtain ⟨-, -, e1, e2, e3, e4⟩ := hb
    simp only at this e1 e2 e3 e4
    obtain ⟨rfl, rfl⟩ := this
    unfold blockOf
    rw [e1, e2, e3, e4]
  exact blockLaw_other h hb huv (key u v (.inl ⟨rfl, rfl⟩)) (key v u (.inr ⟨rfl, rfl⟩))

/-- The random weight of the edge `{u, v}` in the graph that `general_sbm` returns (its value when the call does not
return is irrelevant). -/
def IsWeight (R : Rng ℝ Ω) (sizes : List Nat) (P : DenseMat ℝ) (exact : Bool) (u v : Nat) (X : Ω → ℝ≥0∞) : Prop :=
  ∀ s fuel g s', generalSbm R fuel (sizes.map (fun s : Nat => (s : Int))) P exact s = some (.ok g, s') →
    X s = ENNReal.ofReal (g.adj.coeff u v)

theorem weight_expect [IsProbabilityMeasure μ] (hR : RandomSource μ R N) {sizes : List Nat} {P : DenseMat ℝ} {exact : Bool}
    (h : SbmArgs sizes P) {c d u v : Nat} (hbt : Between sizes c d u v) (huv : u ≠ v) {X : Ω → ℝ≥0∞}
    (hX : IsWeight R sizes P exact u v X) :
    ∫⁻ s, X s ∂μ = PMF.expect (blockLaw N P exact (blockOf sizes c d)) (fun es => (mult es u v : ℝ≥0∞)) := by
  rw [← blocks_expect h hbt huv]
  apply (allBlocks_law (exact := exact) hR h).expect
  rintro s es s' ⟨k, hk⟩
  rcases generalSbm_eq R (fuel := k) (exact := exact) h s with ⟨e, -⟩ | ⟨es', s'', g, e1, e2, -, -, e5⟩
  · simp only [e] at hk; cases hk
  · simp only [e1, Option.some.injEq, Prod.mk.injEq] at hk
    rw [hX s k g s'' e2, e5, hk.1]
    simp

/-- **C70** (expected weight, pair by pair).  In exact mode, for a probability of at least one half and for small
blocks, the expected weight of an edge is the probability given for its two clusters. -/
theorem C70_expected_weight_direct [IsProbabilityMeasure μ] (hR : RandomSource μ R N) {sizes : List Nat} {P : DenseMat ℝ}
    {exact : Bool} (h : SbmArgs sizes P) {c d u v : Nat} (hbt : Between sizes c d u v) (huv : u ≠ v)
    (hd : exact = true ∨ 1 / 2 ≤ P.entry c d ∨ sizes.getD c 0 * sizes.getD d 0 < 10000) {X : Ω → ℝ≥0∞}
    (hX : IsWeight R sizes P exact u v X) : ∫⁻ s, X s ∂μ = ENNReal.ofReal (P.entry c d) := by
  obtain ⟨hdl, hm⟩ := between_mem hbt huv
  have hb := blockOf_ok hbt.1 hdl
  obtain ⟨p0, p1, -⟩ := blocks_ok (exact := exact) h _ (mem_allBlocks.2 hb)
  rw [weight_expect hR h hbt huv hX, blockLaw, if_neg, coinsLaw_mult p0 p1, countP_direct hb u v huv, if_pos hm]
  · simp [blockOf]
  · rintro ⟨h1, h2, h3⟩
    simp only [blockOf] at h1 h2
    rcases hd with hd | hd | hd
    · rw [hd] at h3; cases h3
    · exact absurd h2 (not_lt.2 hd)
    · omega

/-- The number of edges that the code takes for possible between clusters of `m` and `m'` vertices. -/
def codeMaxEdges (c d m m' : Nat) : Nat := if c = d then m * m' / 2 else m * m'

/-- The number of edges that are possible. -/
def truePairs (c d m m' : Nat) : Nat := if c = d then m * (m - 1) / 2 else m * m'

theorem maxEdges_blockOf {sizes : List Nat} (hs : ∀ s ∈ sizes, 1 ≤ s) {c d : Nat} (hcd : c ≤ d) (hd : d < sizes.length) :
    maxEdges (blockOf sizes c d) = codeMaxEdges c d (sizes.getD c 0) (sizes.getD d 0) := by
  unfold maxEdges codeMaxEdges blockOf
  simp only
  by_cases hc : c = d
  · rw [if_pos (by rw [hc]), if_pos hc]
  · rw [if_neg hc, if_neg]
    have h1 := take_succ_sum sizes (show c < sizes.length by omega)
    have h2 := take_sum_mono sizes (show c + 1 ≤ d by omega)
    have h3 := getD_pos hs c (by omega)
    omega

/-- **C70** (expected weight, very sparse blocks).  A large block with less than one expected edge stays empty: its
edges have expected weight zero and not the given probability. -/
theorem C70_expected_weight_empty [IsProbabilityMeasure μ] (hR : RandomSource μ R N) {sizes : List Nat} {P : DenseMat ℝ}
    (h : SbmArgs sizes P) {c d u v : Nat} (hbt : Between sizes c d u v) (huv : u ≠ v)
    (hm : 10000 ≤ sizes.getD c 0 * sizes.getD d 0) (hp : P.entry c d < 1 / 2)
    (he : P.entry c d * codeMaxEdges c d (sizes.getD c 0) (sizes.getD d 0) < 1) {X : Ω → ℝ≥0∞}
    (hX : IsWeight R sizes P false u v X) : ∫⁻ s, X s ∂μ = 0 := by
  obtain ⟨hdl, -⟩ := between_mem hbt huv
  rw [weight_expect hR h hbt huv hX, blockLaw, if_pos ⟨hm, hp, rfl⟩, maxEdges_blockOf h.sizes_pos hbt.1 hdl,
    show P.entry (blockOf sizes c d).ci (blockOf sizes c d).cj = P.entry c d from rfl, if_pos he,
    expect_pure]
  simp [mult]

/-- **C70** (expected weight, approximate mode).  Otherwise the expected weight of an edge of a large block is the
expected number of edges drawn - a normal number with mean `p M` and variance `(1 - p) p M`, rounded down and forced into
`[0, M]` - divided by the number of possible edges.  Inside a cluster of `m` vertices `M` is `m² / 2`, but the number of
possible edges is `m (m - 1) / 2`. -/
theorem C70_expected_weight_approx [IsProbabilityMeasure μ] (hR : RandomSource μ R N) {sizes : List Nat} {P : DenseMat ℝ}
    (h : SbmArgs sizes P) {c d u v : Nat} (hbt : Between sizes c d u v) (huv : u ≠ v)
    (hm : 10000 ≤ sizes.getD c 0 * sizes.getD d 0) (hp : P.entry c d < 1 / 2) {M : Nat}
    (hM : M = codeMaxEdges c d (sizes.getD c 0) (sizes.getD d 0)) (he : 1 ≤ P.entry c d * M) {X : Ω → ℝ≥0∞}
    (hX : IsWeight R sizes P false u v X) :
    ∫⁻ s, X s ∂μ = PMF.expect (N (P.entry c d * M) ((1 - P.entry c d) * (P.entry c d * M)))
        (fun r => ((max 0 (min (M : Int) r)).toNat : ℝ≥0∞))
      * (truePairs c d (sizes.getD c 0) (sizes.getD d 0) : ℝ≥0∞)⁻¹ := by
  obtain ⟨hdl, hmem⟩ := between_mem hbt huv
  have hb := blockOf_ok hbt.1 hdl
  obtain ⟨p0, p1, m1, m2, hne⟩ := blocks_ok (exact := false) h _ (mem_allBlocks.2 hb)
  have hne : (pairSet (blockOf sizes c d)).Nonempty := pairSet_nonempty hb m1 m2 hm
  have hMe : maxEdges (blockOf sizes c d) = M := by rw [maxEdges_blockOf h.sizes_pos hbt.1 hdl, hM]
  rw [weight_expect hR h hbt huv hX, blockLaw, if_pos ⟨hm, hp, rfl⟩, hMe,
    show P.entry (blockOf sizes c d).ci (blockOf sizes c d).cj = P.entry c d from rfl, if_neg (not_lt.2 he), expect_bind]
  simp only [pairsLaw_mult, pairLaw_joins _ hne u v huv]
  have hcase : ((if (u, v) ∈ pairSet (blockOf sizes c d) then 1 else 0)
      + if (v, u) ∈ pairSet (blockOf sizes c d) then (1 : ℝ≥0∞) else 0) * ((pairSet (blockOf sizes c d)).card : ℝ≥0∞)⁻¹
      = (truePairs c d (sizes.getD c 0) (sizes.getD d 0) : ℝ≥0∞)⁻¹ := by
    by_cases hc : c = d
    · subst hc
      have hsym : ∀ x y, (x, y) ∈ pairSet (blockOf sizes c c) → (y, x) ∈ pairSet (blockOf sizes c c) := by
        intro x y
        rw [mem_pairSet, mem_pairSet]
        simp only [blockOf]
        omega
      have h1 : (u, v) ∈ pairSet (blockOf sizes c c) := by
        rcases hmem with h | h
        · exact h
        · exact hsym _ _ h
      rw [if_pos h1, if_pos (hsym _ _ h1), card_pairSet_same _ rfl rfl, truePairs, if_pos rfl]
      simp only [blockOf]
      have hev : sizes.getD c 0 * (sizes.getD c 0 - 1) = 2 * (sizes.getD c 0 * (sizes.getD c 0 - 1) / 2) := by
        have := Nat.even_mul_pred_self (sizes.getD c 0)
        obtain ⟨k, hk⟩ := this
        omega
      have h2 : (1 : ℝ≥0∞) + 1 = 2 := by norm_num
      rw [h2]
      conv_lhs => rw [hev]
      rw [Nat.cast_mul, ENNReal.mul_inv (.inl (by norm_num)) (.inl (by norm_num)), ← mul_assoc, Nat.cast_ofNat,
        ENNReal.mul_inv_cancel (by norm_num) (by norm_num), one_mul]
    · rw [card_pairSet_other hb hc, truePairs, if_neg hc]
      have hanti : ∀ x y, (x, y) ∈ pairSet (blockOf sizes c d) → (y, x) ∉ pairSet (blockOf sizes c d) := by
        intro x y h1 h2
        rw [mem_pairSet] at h1 h2
        have i1 := (hb.in1 (u := x)).2 h1.1.1
        have i2 := (hb.in2 (u := x)).2 h2.1.2
        exact hc (i1.unique i2)
      rcases hmem with h1 | h1
      · rw [if_pos h1, if_neg (hanti _ _ h1), add_zero, one_mul]; rfl
      · rw [if_pos h1, if_neg (hanti _ _ h1), zero_add, one_mul]; rfl
  rw [hcase]
  have : ∀ n : Nat, (n : ℝ≥0∞) * (truePairs c d (sizes.getD c 0) (sizes.getD d 0) : ℝ≥0∞)⁻¹
      = (truePairs c d (sizes.getD c 0) (sizes.getD d 0) : ℝ≥0∞)⁻¹ * n := fun n => mul_comm _ _
  simp only [this]
  rw [expect_mul_left, mul_comm, countLaw, expect_map, hMe]
  rfl

end Stag
