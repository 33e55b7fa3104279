import Verif.Props.KMeansGuarantee

/-!
# C72: the initialisation "random" of `RunKMeans`
-/

namespace Stag
namespace KMeans

open Finset MeasureTheory
open scoped ENNReal

section General

variable {K : Type} [Field K] [LinearOrder K] [IsStrictOrderedRing K]

omit [IsStrictOrderedRing K] in
theorem pickNew_spec (N : Nat) (hN : 0 < N) (prev : List Nat) (fuel : Nat) : ∀ (s : Nat → K) (c : Nat) (s' : Nat → K),
    pickNew N prev fuel s = some (c, s') → c < N ∧ c ∉ prev := by
  induction fuel with
  | zero => intro s c s' h; cases h
  | succ fuel ih =>
    intro s c s' h
    rw [pickNew] at h
    by_cases hc : discreteRand (fun _ => (1 : K)) N (s 0) ∈ prev
    · rw [if_pos hc] at h
      exact ih _ _ _ h
    · rw [if_neg hc, Option.some.injEq, Prod.mk.injEq] at h
      rw [← h.1]
      exact ⟨discreteRand_lt _ N hN _, hc⟩

omit [IsStrictOrderedRing K] in
theorem selectRows_spec (N : Nat) (hN : 0 < N) (fuel m : Nat) : ∀ (prev : List Nat) (s : Nat → K) (l : List Nat) (s' : Nat → K),
    prev.Nodup → (∀ c ∈ prev, c < N) → selectRows N fuel m prev s = some (l, s') →
    l.Nodup ∧ (∀ c ∈ l, c < N) ∧ l.length = prev.length + m := by
  induction m with
  | zero =>
    intro prev s l s' h1 h2 h
    rw [selectRows, Option.some.injEq, Prod.mk.injEq] at h
    rw [← h.1]
    exact ⟨h1, h2, rfl⟩
  | succ m ih =>
    intro prev s l s' h1 h2 h
    rw [selectRows] at h
    cases hp : pickNew N prev fuel s with
    | none => rw [hp] at h; cases h
    | some r =>
      obtain ⟨c, t⟩ := r
      rw [hp] at h
      simp only at h
      obtain ⟨h3, h4⟩ := pickNew_spec N hN prev fuel s c t hp
      obtain ⟨h5, h6, h7⟩ := ih (prev ++ [c]) t l s' (by
          rw [List.nodup_append]
          refine ⟨h1, List.nodup_singleton c, fun a ha b hb => ?_⟩
          rw [List.mem_singleton] at hb
          rintro rfl
          exact h4 (hb ▸ ha)) (by
          intro a ha
          rw [List.mem_append, List.mem_singleton] at ha
          rcases ha with ha | rfl
          · exact h2 a ha
          · exact h3) h
      refine ⟨h5, h6, ?_⟩
      rw [h7, List.length_append, List.length_singleton]
      omega

omit [IsStrictOrderedRing K] in
/-- **C72** (random, too many clusters).  With the initialisation "random" and more clusters than points, `RunKMeans` never
returns, whatever is drawn: the loop waits for a row that has not been chosen yet. -/
theorem C72_random_hangs (X : Nat → Nat → K) (N D k : Nat) (hN : 0 < N) (hk : N < k) (Niter : Int) (s : Nat → K)
    (Mu : Nat → Nat → K) (Z : Nat → Nat) (fuel : Nat) : runKMeansRandom fuel X N D k Niter s Mu Z = none := by
  have h : selectRows N fuel k [] s = none := by
    cases h : selectRows N fuel k [] s with
    | none => rfl
    | some r =>
      obtain ⟨h1, h2, h3⟩ := selectRows_spec N hN fuel k [] s r.1 r.2 List.nodup_nil (by simp) h
      have h4 : r.1.toFinset ⊆ Finset.range N := fun c hc => Finset.mem_range.2 (h2 c (List.mem_toFinset.1 hc))
      have h5 := Finset.card_le_card h4
      rw [List.toFinset_card_of_nodup h1, h3, Finset.card_range] at h5
      simp at h5
      omega
  unfold runKMeansRandom sampleRowsRandom
  rw [if_neg (by omega), h]
  rfl

omit [IsStrictOrderedRing K] in
/-- **C72** (random, no data).  Without points the behaviour is undefined as soon as a centre is asked for; without centres
`RunKMeans` draws nothing. -/
theorem C72_random_no_data (X : Nat → Nat → K) (D k : Nat) (Niter : Int) (s : Nat → K) (Mu : Nat → Nat → K) (Z : Nat → Nat)
    (fuel : Nat) :
    (0 < k → runKMeansRandom fuel X 0 D k Niter s Mu Z = some .ub) ∧
    runKMeansRandom fuel X 0 D 0 Niter s Mu Z = some (.ok (runLloyd X 0 D 0 Mu Z Niter)) := by
  constructor
  · intro hk
    unfold runKMeansRandom sampleRowsRandom
    rw [if_pos ⟨rfl, by omega⟩]
    rfl
  · unfold runKMeansRandom sampleRowsRandom
    rw [if_neg (by omega)]
    simp [selectRows, Outcome.bind]

end General

/-! ## The law -/

theorem pickNew_mono (N : Nat) (prev : List Nat) (k : Nat) : ∀ (s : Nat → ℝ) r, pickNew N prev k s = some r →
    pickNew N prev (k + 1) s = some r := by
  induction k with
  | zero => intro s r h; cases h
  | succ k ih =>
    intro s r h
    rw [pickNew] at h ⊢
    by_cases hc : discreteRand (fun _ => (1 : ℝ)) N (s 0) ∈ prev
    · rw [if_pos hc] at h ⊢
      exact ih _ _ h
    · rw [if_neg hc] at h ⊢
      exact h

theorem pickNew_mono' (N : Nat) (prev : List Nat) {k l : Nat} (hkl : k ≤ l) {s : Nat → ℝ} {r} (h : pickNew N prev k s = some r) :
    pickNew N prev l s = some r := by
  induction hkl with
  | refl => exact h
  | step _ ih => exact pickNew_mono _ _ _ _ _ ih

theorem ones_law (N : Nat) (hN : 0 < N) (j : Nat) :
    weightedLaw (fun _ => (1 : ℝ)) N j = if j < N then (N : ℝ≥0∞)⁻¹ else 0 := by
  have hNr : (0 : ℝ) < N := by exact_mod_cast hN
  have hs : ∑ _i ∈ range N, (1 : ℝ) = N := by simp
  rw [weightedLaw_apply (by rw [hs]; exact hNr) (fun i _ => zero_le_one), hs]
  by_cases h : j < N
  · rw [if_pos h, if_pos h, ENNReal.ofReal_div_of_pos hNr, ENNReal.ofReal_one, ENNReal.ofReal_natCast, one_div]
  · rw [if_neg h, if_neg h]

/-- At most `k` rounds of the rejection loop. -/
theorem pickNew_step (N : Nat) (hN : 0 < N) (prev : List Nat) (hnd : prev.Nodup) (hlt : ∀ c ∈ prev, c < N) (k : Nat) :
    StepLaw (streamLaw unif) (fun s c s' => pickNew N prev k s = some (c, s'))
      (fun c => (if c < N ∧ c ∉ prev then (N : ℝ≥0∞)⁻¹ else 0)
        * ∑ i ∈ Finset.range k, ((prev.length : ℝ≥0∞) * (N : ℝ≥0∞)⁻¹) ^ i) := by
  induction k with
  | zero =>
    refine ⟨?_, ?_, ?_⟩
    · intro s a s' b' s'' h
      cases h
    · intro a B hB
      simp [pickNew]
    · intro a B hB
      simp [pickNew]
  | succ k ih =>
    have h1 := head_step unif (discreteRand (fun _ => (1 : ℝ)) N)
      (fun j => (discreteRand_law _ N hN (fun i _ => zero_le_one) j).1)
      (weightedLaw (fun _ => (1 : ℝ)) N) (fun j => (discreteRand_law _ N hN (fun i _ => zero_le_one) j).2)
    set A : Nat → ℝ≥0∞ := fun c => if c < N ∧ c ∉ prev then (N : ℝ≥0∞)⁻¹ else 0 with hA
    set R : ℝ≥0∞ := (prev.length : ℝ≥0∞) * (N : ℝ≥0∞)⁻¹ with hR
    have h3 : ∀ a : Nat, StepLaw (streamLaw unif) (fun s q s' => if a ∈ prev then pickNew N prev k s = some (q, s')
        else q = a ∧ s' = s)
        (fun q => if a ∈ prev then A q * ∑ i ∈ Finset.range k, R ^ i else if q = a then 1 else 0) := by
      intro a
      by_cases h : a ∈ prev
      · simp only [if_pos h]
        exact ih
      · simp only [if_neg h]
        exact (StepLaw.pure a).congr (fun _ _ _ => Iff.rfl) fun q => by
          rw [PMF.pure_apply]
          by_cases hq : q = a
          · rw [if_pos hq, if_pos hq]
          · rw [if_neg hq, if_neg hq]
    refine (h1.bind h3).congr (fun s q s' => ?_) (fun q => ?_)
    · rw [pickNew]
      simp only [stepOf]
      constructor
      · intro h
        refine ⟨_, _, rfl, ?_⟩
        split_ifs at h ⊢ with he
        · exact h
        · simp only [Option.some.injEq, Prod.mk.injEq] at h
          exact ⟨h.1.symm, h.2.symm⟩
      · rintro ⟨a, t, e1, h⟩
        rw [Prod.mk.injEq] at e1
        obtain ⟨rfl, rfl⟩ := e1
        split_ifs at h ⊢ with he
        · exact h
        · rw [h.1, h.2]; rfl
    · have e : ∀ a, (weightedLaw (fun _ => (1 : ℝ)) N a * if a ∈ prev then A q * ∑ i ∈ Finset.range k, R ^ i
          else if q = a then 1 else 0)
          = (A q * ∑ i ∈ Finset.range k, R ^ i) * (if a ∈ prev then (N : ℝ≥0∞)⁻¹ else 0) + if a = q then A q else 0 := by
        intro a
        rw [ones_law N hN]
        by_cases h : a ∈ prev
        · rw [if_pos h, if_pos h, if_pos (hlt a h)]
          by_cases h2 : a = q
          · rw [if_pos h2, hA]
            simp only
            rw [if_neg (fun h3 => h3.2 (h2 ▸ h))]
            ring
          · rw [if_neg h2]; ring
        · rw [if_neg h, if_neg h, mul_zero, zero_add]
          by_cases h2 : a = q
          · rw [if_pos h2.symm, if_pos h2, mul_one, hA, ← h2]
            simp only [h, not_false_iff, and_true]
          · rw [if_neg h2, if_neg (show ¬ q = a from fun h3 => h2 h3.symm), mul_zero]
      simp only [e]
      rw [ENNReal.tsum_add, ENNReal.tsum_mul_left, tsum_ite_eq]
      have hsum : ∑' a, (if a ∈ prev then (N : ℝ≥0∞)⁻¹ else 0) = R := by
        rw [tsum_eq_sum (s := prev.toFinset) (fun a ha => by rw [if_neg (fun h => ha (List.mem_toFinset.2 h))]),
          Finset.sum_congr rfl (fun a ha => if_pos (List.mem_toFinset.1 ha)), Finset.sum_const,
          List.toFinset_card_of_nodup hnd, nsmul_eq_mul]
      rw [hsum, Finset.sum_range_succ', pow_zero, mul_add, mul_one, mul_assoc, Finset.sum_mul]
      simp only [pow_succ]
      rfl

/-- A uniformly random row outside a list. -/
noncomputable def newRowLaw (N : Nat) (prev : List Nat) : PMF Nat :=
  if h : ((range N).filter (· ∉ prev)).Nonempty then PMF.uniformOfFinset _ h else PMF.pure 0

theorem card_new (N : Nat) (prev : List Nat) (hnd : prev.Nodup) (hlt : ∀ c ∈ prev, c < N) :
    ((range N).filter (· ∉ prev)).card = N - prev.length := by
  have h1 : (range N).filter (· ∉ prev) = range N \ prev.toFinset := by
    ext c
    simp [mem_sdiff]
  rw [h1, Finset.card_sdiff_of_subset, card_range, List.toFinset_card_of_nodup hnd]
  intro c hc
  exact mem_range.2 (hlt c (List.mem_toFinset.1 hc))

theorem newRowLaw_apply (N : Nat) (prev : List Nat) (hnd : prev.Nodup) (hlt : ∀ c ∈ prev, c < N) (hl : prev.length < N) (c : Nat) :
    newRowLaw N prev c = if c < N ∧ c ∉ prev then ((N - prev.length : Nat) : ℝ≥0∞)⁻¹ else 0 := by
  have hne : ((range N).filter (· ∉ prev)).Nonempty := by
    rw [← Finset.card_pos, card_new N prev hnd hlt]
    omega
  unfold newRowLaw
  rw [dif_pos hne]
  by_cases h : c < N ∧ c ∉ prev
  · rw [if_pos h, PMF.uniformOfFinset_apply_of_mem _ (by simp [h]), card_new N prev hnd hlt]
  · rw [if_neg h, PMF.uniformOfFinset_apply_of_notMem _ (by simpa using h)]

theorem pickNew_law (N : Nat) (hN : 0 < N) (prev : List Nat) (hnd : prev.Nodup) (hlt : ∀ c ∈ prev, c < N)
    (hl : prev.length < N) : StepLaw (streamLaw unif) (runOf (pickNew N prev)) (newRowLaw N prev) := by
  have hlim := StepLaw.lim (pickNew_step N hN prev hnd hlt) (fun k s a s' h => pickNew_mono N prev k s _ h)
  refine hlim.congr (fun _ _ _ => Iff.rfl) (fun q => ?_)
  rw [← ENNReal.mul_iSup, ← ENNReal.tsum_eq_iSup_nat, ENNReal.tsum_geometric, newRowLaw_apply N prev hnd hlt hl]
  by_cases h : q < N ∧ q ∉ prev
  · rw [if_pos h, if_pos h]
    have hN0 : (N : ℝ≥0∞) ≠ 0 := by exact_mod_cast hN.ne'
    have hNt : (N : ℝ≥0∞) ≠ ⊤ := ENNReal.natCast_ne_top N
    have e : 1 - (prev.length : ℝ≥0∞) * (N : ℝ≥0∞)⁻¹ = ((N - prev.length : Nat) : ℝ≥0∞) * (N : ℝ≥0∞)⁻¹ := by
      rw [ENNReal.natCast_sub, ENNReal.sub_mul (fun _ _ => ENNReal.inv_ne_top.2 hN0), ENNReal.mul_inv_cancel hN0 hNt]
    rw [e, ENNReal.mul_inv (.inr (ENNReal.inv_ne_top.2 hN0)) (.inr (ENNReal.inv_ne_zero.2 hNt)), inv_inv, mul_comm, mul_assoc,
      ENNReal.mul_inv_cancel hN0 hNt, mul_one]
  · rw [if_neg h, if_neg h, zero_mul]

/-- The rows chosen one after another. -/
noncomputable def selectLaw (N : Nat) : Nat → List Nat → PMF (List Nat)
  | 0, prev => PMF.pure prev
  | m + 1, prev => (newRowLaw N prev).bind fun c => selectLaw N m (prev ++ [c])

theorem selectRows_mono (N m : Nat) {k l : Nat} (hkl : k ≤ l) : ∀ {prev : List Nat} {s : Nat → ℝ} {r},
    selectRows N k m prev s = some r → selectRows N l m prev s = some r := by
  induction m with
  | zero => intro prev s r h; exact h
  | succ m ih =>
    intro prev s r h
    rw [selectRows] at h ⊢
    cases hp : pickNew N prev k s with
    | none => rw [hp] at h; cases h
    | some q =>
      rw [hp] at h
      rw [pickNew_mono' N prev hkl hp]
      exact ih h

theorem selectRows_law (N : Nat) (hN : 0 < N) (m : Nat) : ∀ (prev : List Nat), prev.Nodup → (∀ c ∈ prev, c < N) →
    prev.length + m ≤ N → StepLaw (streamLaw unif) (runOf fun fuel s => selectRows N fuel m prev s) (selectLaw N m prev) := by
  induction m with
  | zero =>
    intro prev _ _ _
    refine (StepLaw.pure (μ := streamLaw unif) prev).congr (fun s a s' => ?_) fun b => rfl
    simp only [runOf, selectRows, Option.some.injEq, Prod.mk.injEq, exists_const]
    constructor
    · rintro ⟨rfl, rfl⟩; exact ⟨rfl, rfl⟩
    · rintro ⟨rfl, rfl⟩; exact ⟨rfl, rfl⟩
  | succ m ih =>
    intro prev hnd hlt hl
    have h1 := pickNew_law N hN prev hnd hlt (by omega)
    -- programs for choices that cannot happen do not matter
    have h2 : ∀ c, StepLaw (streamLaw unif) (fun s a s' => if c < N ∧ c ∉ prev then
        (runOf fun fuel s => selectRows N fuel m (prev ++ [c]) s) s a s' else a = [] ∧ s' = s)
        ((if c < N ∧ c ∉ prev then selectLaw N m (prev ++ [c]) else PMF.pure [] : PMF (List Nat))) := by
      intro c
      by_cases h : c < N ∧ c ∉ prev
      · simp only [if_pos h]
        apply ih
        · rw [List.nodup_append]
          refine ⟨hnd, List.nodup_singleton c, fun a ha b hb => ?_⟩
          rw [List.mem_singleton] at hb
          rintro rfl
          exact h.2 (hb ▸ ha)
        · intro a ha
          rw [List.mem_append, List.mem_singleton] at ha
          rcases ha with ha | rfl
          · exact hlt a ha
          · exact h.1
        · rw [List.length_append, List.length_singleton]; omega
      · simp only [if_neg h]
        exact StepLaw.pure _
    refine (h1.bindP h2).congr (fun s a s' => ?_) (fun b => ?_)
    · simp only [runOf, selectRows]
      constructor
      · rintro ⟨k, h⟩
        cases hp : pickNew N prev k s with
        | none => rw [hp] at h; cases h
        | some q =>
          rw [hp] at h
          refine ⟨q.1, q.2, ⟨k, hp⟩, ?_⟩
          rw [if_pos (pickNew_spec N hN prev k s q.1 q.2 hp)]
          exact ⟨k, h⟩
      · rintro ⟨c, t, ⟨k, hp⟩, h⟩
        rw [if_pos (pickNew_spec N hN prev k s c t hp)] at h
        obtain ⟨l, h⟩ := h
        refine ⟨max k l, ?_⟩
        rw [pickNew_mono' N prev (le_max_left k l) hp]
        exact selectRows_mono N m (le_max_right k l) h
    · rw [selectLaw]
      refine congrFun (congrArg DFunLike.coe (bind_congr_support _ fun c hc => ?_)) b
      have : c < N ∧ c ∉ prev := by
        by_contra h
        rw [PMF.mem_support_iff, newRowLaw_apply N prev hnd hlt (by omega), if_neg h] at hc
        exact hc rfl
      rw [if_pos this]

theorem selectLaw_apply (N : Nat) (m : Nat) : ∀ (prev l : List Nat), (prev ++ l).Nodup → (∀ c ∈ prev ++ l, c < N) →
    l.length = m → selectLaw N m prev (prev ++ l) = ∏ i ∈ range m, ((N - (prev.length + i) : Nat) : ℝ≥0∞)⁻¹ := by
  induction m with
  | zero =>
    intro prev l _ _ hl
    rw [List.length_eq_zero_iff.1 hl]
    simp [selectLaw]
  | succ m ih =>
    intro prev l hnd hlt hl
    obtain ⟨c, l, rfl⟩ : ∃ c l', l = c :: l' := by
      cases l with
      | nil => simp at hl
      | cons c l => exact ⟨c, l, rfl⟩
    have hprev : prev.Nodup := (List.nodup_append.1 hnd).1
    have hplt : ∀ c ∈ prev, c < N := fun a ha => hlt a (List.mem_append_left _ ha)
    have hcN : c < N := hlt c (by simp)
    have hc : c ∉ prev := fun h => (List.nodup_append.1 hnd).2.2 c h c (by simp) rfl
    have hlen : prev.length < N := by
      have h1 : (prev ++ c :: l).toFinset ⊆ range N := fun a ha => mem_range.2 (hlt a (List.mem_toFinset.1 ha))
      have h2 := Finset.card_le_card h1
      rw [List.toFinset_card_of_nodup hnd, card_range, List.length_append, List.length_cons] at h2
      omega
    have eapp : prev ++ c :: l = (prev ++ [c]) ++ l := by simp
    rw [selectLaw, PMF.bind_apply, tsum_eq_single c]
    · rw [newRowLaw_apply N prev hprev hplt hlen, if_pos ⟨hcN, hc⟩, eapp, ih (prev ++ [c]) l (eapp ▸ hnd) (eapp ▸ hlt)
        (by simpa using hl), Finset.prod_range_succ', mul_comm]
      congr 1
      refine Finset.prod_congr rfl fun i _ => ?_
      rw [List.length_append, List.length_singleton, show prev.length + 1 + i = prev.length + (i + 1) by omega]
    · intro a ha
      -- the chosen row stays in the list
      have hpre : ∀ (m : Nat) (p x : List Nat), x ∈ (selectLaw N m p).support → p <+: x := by
        intro m
        induction m with
        | zero =>
          intro p x hx
          rw [selectLaw, PMF.support_pure, Set.mem_singleton_iff] at hx
          rw [hx]
        | succ m ih2 =>
          intro p x hx
          rw [selectLaw, PMF.mem_support_bind_iff] at hx
          obtain ⟨b, -, hb⟩ := hx
          exact (List.prefix_append p [b]).trans (ih2 _ _ hb)
      by_cases h0 : selectLaw N m (prev ++ [a]) (prev ++ c :: l) = 0
      · rw [h0, mul_zero]
      · exfalso
        have h1 := hpre m _ _ ((PMF.mem_support_iff _ _).2 h0)
        rw [List.prefix_append_right_inj] at h1
        exact ha (List.cons_prefix_cons.1 h1).1

/-- **C72** (random).  With the initialisation "random" and at most as many clusters as points, `RunKMeans` returns with
probability one, and the rows that become the first centres are a uniformly random sequence of `k` different rows: every
sequence has probability `1 / (N (N - 1) ... (N - k + 1))`. -/
theorem C72_random_law (X : Nat → Nat → ℝ) (N D k : Nat) (hN : 0 < N) (hk : k ≤ N) (Niter : Int) (Mu : Nat → Nat → ℝ)
    (Z : Nat → Nat) :
    streamLaw unif {s | ¬ ∃ fuel l s', selectRows N fuel k [] s = some (l, s') ∧ l.Nodup ∧ (∀ c ∈ l, c < N) ∧ l.length = k ∧
      runKMeansRandom fuel X N D k Niter s Mu Z
        = some (.ok (runLloyd X N D k (fun c => if c < k then X (l.getD c 0) else Mu c) Z Niter))} = 0 ∧
    ∀ l : List Nat, l.Nodup → (∀ c ∈ l, c < N) → l.length = k →
      streamLaw unif {s | ∃ fuel s', selectRows N fuel k [] s = some (l, s')} = ∏ i ∈ range k, ((N - i : Nat) : ℝ≥0∞)⁻¹ := by
  have hlaw := selectRows_law N hN k [] List.nodup_nil (by simp) (by simpa using hk)
  constructor
  · refine measure_mono_null ?_ hlaw.returns
    intro s hs hr
    apply hs
    obtain ⟨l, s', fuel, h⟩ := hr
    beta_reduce at h
    obtain ⟨h1, h2, h3⟩ := selectRows_spec N hN fuel k [] s l s' List.nodup_nil (by simp) h
    refine ⟨fuel, l, s', h, h1, h2, by simpa using h3, ?_⟩
    unfold runKMeansRandom sampleRowsRandom
    rw [if_neg (by omega), h]
    rfl
  · intro l h1 h2 h3
    have h4 := hlaw.prob l
    have h5 := selectLaw_apply N k [] l (by simpa using h1) (by simpa using h2) h3
    rw [List.nil_append] at h5
    rw [h5] at h4
    simp only [List.length_nil, zero_add] at h4
    rw [← h4]
    congr 1
    ext s
    simp only [Set.mem_ofPred_eq, runOf]
    exact exists_comm

end KMeans
end Stag
