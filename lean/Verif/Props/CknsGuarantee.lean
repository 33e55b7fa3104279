import Verif.Props.CknsAccuracy

/-!
# C67: what the answers of the CKNS estimator are worth

Probabilities are fractions of the `(n!) ^ k1` tuples of permutations that the constructor can draw for its
`k1` copies of the data.
-/

set_option linter.unusedSectionVars false

namespace Stag

open Finset

/-! ## Specification -/

/-- The copies of the data for a tuple of permutations. -/
def permCopies {n k1 : Nat} (x : Fin n → List ℝ) (σ : Fin k1 → Equiv.Perm (Fin n)) (iter : Nat) :
    List (List ℝ) :=
  if h : iter < k1 then List.ofFn (fun i => x (σ ⟨iter, h⟩ i)) else []

/-- The kernel sum over all data points: `n` times the density. -/
noncomputable def totalKernel {n : Nat} (a : ℝ) (x : Fin n → List ℝ) (q : List ℝ) : ℝ := ∑ i, gauss a q (x i)

/-- The kernel sum over the data points different from the query. -/
noncomputable def totalKernelPos {n : Nat} (a : ℝ) (x : Fin n → List ℝ) (q : List ℝ) : ℝ :=
  ∑ i, if sqDist q (x i) = 0 then 0 else gauss a q (x i)

/-- The number of hash units of iteration `it` for which a hash table is built is zero. -/
def NoTables (n : Nat) (offset : Int) (it : Nat) : Prop :=
  ∀ j : Nat, 0 < j → j ≤ 2 * it → numSampled j (Ckns.logNmu (cknsMaxLog n) it) n offset ≤ 3000

/-- With at most 3000 data points there are no hash tables. -/
theorem noTables_small {n : Nat} (hn : 0 < n) (h : n ≤ 3000) (offset : Int) (it : Nat) : NoTables n offset it :=
  fun j _ _ => le_trans (numSampled_le _ _ j hn) h

/-! ## The answer in terms of the copies -/

/-- The sum over the levels of one copy, without tables. -/
noncomputable def copySum (a : ℝ) (n : Nat) (q : List ℝ) (logNmu offset : Int) (J : Nat)
    (data : List (List ℝ)) : ℝ :=
  ∑ j ∈ range (J + 1), shellSum a J j q (data.take (numSampled j logNmu n offset))
    / cknsPSampling j logNmu n offset

theorem create_fields {a minMu : ℝ} {n k1 : Nat} {offset : Int} {copies : Nat → List (List ℝ)}
    {fs : Nat → Nat → Nat → List (MultiLsh ℝ)} {threads : Nat} {c : Ckns}
    (h : Ckns.Create a minMu n k1 offset copies fs threads c) :
    c.n = n ∧ c.k1 = k1 ∧ c.iters = (numIterations n minMu).toNat ∧ c.maxLogNmu = cknsMaxLog n := by
  obtain ⟨_, _, _, _, _, _, _, rfl⟩ := h
  exact ⟨rfl, rfl, rfl, rfl⟩

theorem cknsJ_eq (n it : Nat) : cknsJ n (Ckns.logNmu (cknsMaxLog n) it) = (2 * it : Nat) := by
  unfold cknsJ Ckns.logNmu cknsMaxLog; push_cast; ring

theorem answer_copies {a minMu : ℝ} (ha : 0 < a) {n k1 : Nat} (hn : 0 < n) (hk : 0 < k1)
    (h0 : 0 < minMu) (h1 : minMu ≤ 1) {offset : Int} {copies : Nat → List (List ℝ)}
    (hlen : ∀ iter < k1, (copies iter).length = n)
    {fs : Nat → Nat → Nat → List (MultiLsh ℝ)} {threads : Nat} (ht : 0 < threads) {c : Ckns}
    (h : Ckns.Create a minMu n k1 offset copies fs threads c) (q : List ℝ) :
    ∃ F : Nat → Nat → ℝ,
      (∀ it < (numIterations n minMu).toNat, ∀ iter < k1,
        0 ≤ F it iter ∧
        F it iter ≤ copySum a n q (Ckns.logNmu (cknsMaxLog n) it) offset (2 * it) (copies iter) ∧
        (NoTables n offset it →
          F it iter = copySum a n q (Ckns.logNmu (cknsMaxLog n) it) offset (2 * it) (copies iter))) ∧
      ∃ it < (numIterations n minMu).toNat,
        c.query q = .ok (medianReal ((List.range k1).map (F it)) / n) ∧
        (∀ it' < it, ¬ Accepted (cknsMaxLog n) it' (medianReal ((List.range k1).map (F it')))) ∧
        (Accepted (cknsMaxLog n) it (medianReal ((List.range k1).map (F it))) ∨
          it + 1 = (numIterations n minMu).toNat) := by
  obtain ⟨e1, e2, e3, e4⟩ := create_fields h
  have hJ : ∀ it, c.J it = 2 * it := by
    intro it
    unfold Ckns.J
    rw [e1, e4, cknsJ_eq]
    rfl
  have hiters : 0 < c.iters := by
    have := (C49_iterations n minMu hn h0 h1).1
    omega
  obtain ⟨mk, hmk, -⟩ := id h
  have hmk' : ∀ iter < c.k1, ∀ it < c.iters, ∀ j ≤ c.J it, IsUnit a n offset copies fs iter it j (mk iter it j) := by
    intro iter hi it hit j hj
    apply hmk iter it j (by omega) (by omega)
    simp only []
    rw [cknsJ_eq]
    rw [hJ] at hj
    omega
  refine ⟨fun it iter => ∑ j ∈ range (2 * it + 1), (mk iter it j).query q, ?_, ?_⟩
  · intro it hit iter hi
    have hlenI := hlen iter hi
    have hnI : 0 < (copies iter).length := by omega
    have hJI : 0 ≤ cknsJ (copies iter).length (Ckns.logNmu (cknsMaxLog n) it) := by
      rw [hlenI, cknsJ_eq]; omega
    have key : ∀ j ∈ range (2 * it + 1),
        0 ≤ (mk iter it j).query q ∧
        (mk iter it j).query q ≤ shellSum a (2 * it) j q
          ((copies iter).take (numSampled j (Ckns.logNmu (cknsMaxLog n) it) n offset))
          / cknsPSampling j (Ckns.logNmu (cknsMaxLog n) it) n offset ∧
        (NoTables n offset it → (mk iter it j).query q = shellSum a (2 * it) j q
          ((copies iter).take (numSampled j (Ckns.logNmu (cknsMaxLog n) it) n offset))
          / cknsPSampling j (Ckns.logNmu (cknsMaxLog n) it) n offset) := by
      intro j hj
      have hj' : j ≤ 2 * it := by have := mem_range.1 hj; omega
      have hu := hmk' iter (by omega) it (by omega) j (by rw [hJ]; exact hj')
      unfold IsUnit at hu
      obtain ⟨hp0, -⟩ := cknsPSampling_pos j (Ckns.logNmu (cknsMaxLog n) it) hn offset
      by_cases hb : j = 0 ∨ numSampled j (Ckns.logNmu (cknsMaxLog n) it) n offset ≤ 3000
      · have := C48_unit a ha _ hnI _ j offset _ _ hu hJI (by rw [hlenI]; exact hb) q
        rw [hlenI, cknsJ_eq] at this
        rw [Int.toNat_natCast] at this
        rw [this]
        exact ⟨div_nonneg (shellSum_nonneg _ _ _ _ _) hp0.le, le_refl _, fun _ => rfl⟩
      · push Not at hb
        have := C48_unit_lsh a ha _ hnI _ j offset _ _ hu hJI hb.1 (by rw [hlenI]; exact hb.2) q
        obtain ⟨-, h2, h3⟩ := this
        rw [hlenI, cknsJ_eq] at h3
        rw [Int.toNat_natCast] at h3
        refine ⟨h2, h3, fun hnt => ?_⟩
        have := hnt j (Nat.pos_of_ne_zero hb.1) hj'
        omega
    refine ⟨sum_nonneg (fun j hj => (key j hj).1), sum_le_sum (fun j hj => (key j hj).2.1), fun hnt =>
      sum_congr rfl (fun j hj => (key j hj).2.2 hnt)⟩
  · obtain ⟨it, h2, h3, h4, h5⟩ := C49_answer ht h hk hiters mk hmk' q
      (fun it => medianReal ((List.range k1).map (fun iter => ∑ j ∈ range (2 * it + 1), (mk iter it j).query q)))
      (fun it => by rw [hJ])
    rw [e3] at h2 h5
    exact ⟨it, h2, h3, h4, h5⟩

/-! ## Counting tuples of permutations -/

section
variable {n k1 : Nat} {a minMu : ℝ} {offset : Int} {x : Fin n → List ℝ}
  {fs : (Fin k1 → Equiv.Perm (Fin n)) → Nat → Nat → Nat → List (MultiLsh ℝ)}
  {threads : (Fin k1 → Equiv.Perm (Fin n)) → Nat} {c : (Fin k1 → Equiv.Perm (Fin n)) → Ckns}

theorem permCopies_length (x : Fin n → List ℝ) (σ : Fin k1 → Equiv.Perm (Fin n)) (iter : Nat) (h : iter < k1) :
    (permCopies x σ iter).length = n := by
  unfold permCopies
  rw [dif_pos h]
  simp

theorem copySum_perm (q : List ℝ) (logNmu : Int) (J : Nat) (σ : Fin k1 → Equiv.Perm (Fin n)) (i : Fin k1) :
    copySum a n q logNmu offset J (permCopies x σ i) = sampledSum a x q logNmu offset J (σ i) := by
  unfold copySum permCopies sampledSum
  rw [dif_pos i.isLt]

/-- The tuples for which half of the entries are in `B`. -/
noncomputable def halfIn (k1 : Nat) (B : Finset (Equiv.Perm (Fin n))) : Finset (Fin k1 → Equiv.Perm (Fin n)) :=
  open Classical in univ.filter (fun σ => (k1 + 1) / 2 ≤ (univ.filter (fun i => σ i ∈ B)).card)

theorem card_halfIn (B : Finset (Equiv.Perm (Fin n))) (β : ℝ) (hB : (B.card : ℝ) ≤ β * n.factorial) :
    ((halfIn k1 B).card : ℝ) ≤ k1.choose ((k1 + 1) / 2) * β ^ ((k1 + 1) / 2) * (n.factorial : ℝ) ^ k1 := by
  classical
  have := count_tuples k1 ((k1 + 1) / 2) B β (by rw [Fintype.card_perm, Fintype.card_fin]; exact hB)
  rw [Fintype.card_perm, Fintype.card_fin] at this
  unfold halfIn
  convert this

theorem card_cover {α : Type} [DecidableEq α] (A : Finset α) (N : Nat) (B : Nat → Finset α) (b : Nat → ℝ)
    (hB : ∀ it < N, ((B it).card : ℝ) ≤ b it) (hA : ∀ s ∈ A, ∃ it < N, s ∈ B it) :
    (A.card : ℝ) ≤ ∑ it ∈ range N, b it := by
  have h1 : A ⊆ (range N).biUnion B := by
    intro s hs
    obtain ⟨it, h2, h3⟩ := hA s hs
    exact mem_biUnion.2 ⟨it, mem_range.2 h2, h3⟩
  have h2 : (A.card : ℝ) ≤ ((∑ it ∈ range N, (B it).card : Nat) : ℝ) := by
    exact_mod_cast le_trans (card_le_card h1) card_biUnion_le
  rw [Nat.cast_sum] at h2
  exact le_trans h2 (sum_le_sum (fun it hit => hB it (mem_range.1 hit)))

theorem totalKernel_pos (hn : 0 < n) (q : List ℝ) : 0 < totalKernel a x q := by
  unfold totalKernel
  have : Nonempty (Fin n) := ⟨⟨0, hn⟩⟩
  exact sum_pos (fun i _ => Real.exp_pos _) univ_nonempty

theorem totalKernelPos_le (q : List ℝ) : totalKernelPos a x q ≤ totalKernel a x q := by
  apply sum_le_sum
  intro i _
  split_ifs
  · exact (Real.exp_pos _).le
  · exact le_refl _

/-- The fraction of the permutations whose sampled sum is at least `T`. -/
theorem sampled_markov (ha : 0 < a) (hn : 0 < n) (q : List ℝ) (logNmu : Int) (J : Nat) (T : ℝ) (hT : 0 < T) :
    ((univ.filter (fun τ => T ≤ sampledSum a x q logNmu offset J τ)).card : ℝ)
      ≤ totalKernelPos a x q / T * n.factorial := by
  have h1 := count_markov (sampledSum a x q logNmu offset J)
    (fun τ => sampledSum_nonneg a x q logNmu offset J hn τ) T
  rw [sampledSum_mean a x q logNmu offset J hn] at h1
  have h2 := meanSum_le a x q logNmu offset J ha hn
  rw [div_mul_eq_mul_div, le_div_iff₀ hT]
  refine le_trans h1 ?_
  rw [mul_comm]
  exact mul_le_mul_of_nonneg_right h2 (by positivity)

/-- **C67** (overestimates are rare).  Let the estimator be made from `n ≥ 1` data points with `k1 ≥ 1`
copies, any offset, any hash functions and any schedule.  The fraction of the draws for which the answer is
`t` times the density or more is at most `iterations · C(k1, ⌈k1/2⌉) · (1 / t) ^ ⌈k1/2⌉`. -/
theorem C67_overestimate (ha : 0 < a) (hn : 0 < n) (hk : 0 < k1) (h0 : 0 < minMu) (h1 : minMu ≤ 1)
    (ht : ∀ σ, 0 < threads σ)
    (hc : ∀ σ, Ckns.Create a minMu n k1 offset (permCopies x σ) (fs σ) (threads σ) (c σ))
    (q : List ℝ) (t : ℝ) (htpos : 0 < t) [DecidablePred fun σ => ∃ v, (c σ).query q = .ok v ∧ t * (totalKernel a x q / n) ≤ v] :
    ((univ.filter (fun σ => ∃ v, (c σ).query q = .ok v ∧ t * (totalKernel a x q / n) ≤ v)).card : ℝ)
      ≤ (numIterations n minMu).toNat * (k1.choose ((k1 + 1) / 2) * (1 / t) ^ ((k1 + 1) / 2))
        * (n.factorial : ℝ) ^ k1 := by
  classical
  have hn' : (0 : ℝ) < n := by exact_mod_cast hn
  have hS := totalKernel_pos (a := a) (x := x) hn q
  set B : Nat → Finset (Equiv.Perm (Fin n)) := fun it => univ.filter (fun τ =>
    t * totalKernel a x q ≤ sampledSum a x q (Ckns.logNmu (cknsMaxLog n) it) offset (2 * it) τ) with hB
  have hcov := card_cover (univ.filter (fun σ => ∃ v, (c σ).query q = .ok v ∧ t * (totalKernel a x q / n) ≤ v))
    (numIterations n minMu).toNat (fun it => halfIn k1 (B it))
    (fun _ => k1.choose ((k1 + 1) / 2) * (1 / t) ^ ((k1 + 1) / 2) * (n.factorial : ℝ) ^ k1)
    (fun it _ => card_halfIn _ _ (by
      refine le_trans (sampled_markov ha hn q _ _ _ (by positivity)) ?_
      apply mul_le_mul_of_nonneg_right _ (by positivity)
      rw [div_le_div_iff₀ (by positivity) htpos]
      have := totalKernelPos_le (a := a) (x := x) q
      nlinarith))
    (by
      intro σ hσ
      obtain ⟨v, hv1, hv2⟩ := (mem_filter.1 hσ).2
      obtain ⟨F, hF, it, hit, hq, -⟩ := answer_copies ha hn hk h0 h1 (permCopies_length x σ) (ht σ) (hc σ) q
      refine ⟨it, hit, ?_⟩
      rw [hq] at hv1
      injection hv1 with hv1
      rw [← hv1, mul_div_assoc', div_le_div_iff_of_pos_right hn'] at hv2
      have := median_up hk (F it) (fun y => t * totalKernel a x q ≤ y) (fun y z h2 h3 => le_trans h2 h3) hv2
      refine mem_filter.2 ⟨mem_univ _, le_trans this (card_le_card ?_)⟩
      intro i hi
      have hi' := (mem_filter.1 hi).2
      refine mem_filter.2 ⟨mem_univ _, mem_filter.2 ⟨mem_univ _, ?_⟩⟩
      rw [← copySum_perm]
      exact le_trans hi' (hF it hit i i.isLt).2.1)
  refine le_trans hcov (le_of_eq ?_)
  rw [sum_const, card_range, nsmul_eq_mul]
  ring

/-- **C67** (accuracy of an answer without hash tables).  If no unit builds a hash table, then except for the
stated fraction of the draws the answer times `n` is within `δ it` of the mean estimate of some iteration
`it`. -/
theorem C67_answer (ha : 0 < a) (hn : 0 < n) (hk : 0 < k1) (h0 : 0 < minMu) (h1 : minMu ≤ 1)
    (ht : ∀ σ, 0 < threads σ)
    (hc : ∀ σ, Ckns.Create a minMu n k1 offset (permCopies x σ) (fs σ) (threads σ) (c σ))
    (hnt : ∀ it < (numIterations n minMu).toNat, NoTables n offset it)
    (q : List ℝ) (δ : Nat → ℝ) (hδ : ∀ it, 0 < δ it)
    [DecidablePred fun σ => ¬ ∃ it < (numIterations n minMu).toNat, ∃ v, (c σ).query q = .ok v ∧
      |v * n - meanSum a x q (Ckns.logNmu (cknsMaxLog n) it) offset (2 * it)| < δ it] :
    ((univ.filter (fun σ => ¬ ∃ it < (numIterations n minMu).toNat, ∃ v, (c σ).query q = .ok v ∧
      |v * n - meanSum a x q (Ckns.logNmu (cknsMaxLog n) it) offset (2 * it)| < δ it)).card : ℝ)
      ≤ ∑ it ∈ range (numIterations n minMu).toNat, k1.choose ((k1 + 1) / 2)
        * (maxTerm (Ckns.logNmu (cknsMaxLog n) it) offset
            * meanSum a x q (Ckns.logNmu (cknsMaxLog n) it) offset (2 * it) / δ it ^ 2) ^ ((k1 + 1) / 2)
        * (n.factorial : ℝ) ^ k1 := by
  classical
  have hn' : (0 : ℝ) < n := by exact_mod_cast hn
  refine card_cover _ _ (fun it => halfIn k1 (univ.filter (fun τ => δ it ≤
    |sampledSum a x q (Ckns.logNmu (cknsMaxLog n) it) offset (2 * it) τ
      - meanSum a x q (Ckns.logNmu (cknsMaxLog n) it) offset (2 * it)|))) _
    (fun it _ => card_halfIn _ _ (C67_one_copy a x q _ _ _ ha hn (cknsJ_eq n it) (δ it) (hδ it))) ?_
  intro σ hσ
  have hbad := (mem_filter.1 hσ).2
  obtain ⟨F, hF, it, hit, hq, -⟩ := answer_copies ha hn hk h0 h1 (permCopies_length x σ) (ht σ) (hc σ) q
  refine ⟨it, hit, ?_⟩
  have hoff : δ it ≤ |medianReal ((List.range k1).map (F it))
      - meanSum a x q (Ckns.logNmu (cknsMaxLog n) it) offset (2 * it)| := by
    by_contra hlt
    refine hbad ⟨it, hit, _, hq, ?_⟩
    rw [div_mul_cancel₀ _ hn'.ne']
    exact not_le.1 hlt
  have := median_off hk (F it) _ _ hoff
  refine mem_filter.2 ⟨mem_univ _, le_trans this (card_le_card ?_)⟩
  intro i hi
  have hi' := (mem_filter.1 hi).2
  refine mem_filter.2 ⟨mem_univ _, mem_filter.2 ⟨mem_univ _, ?_⟩⟩
  rw [← copySum_perm, ← (hF it hit i i.isLt).2.2 (hnt it hit)]
  exact hi'

/-! ## A power of two -/

theorem meanSum_pow (ha : 0 < a) (m : Nat) (x : Fin (2 ^ m) → List ℝ) (q : List ℝ) (it : Nat) :
    meanSum a x q (Ckns.logNmu (cknsMaxLog (2 ^ m)) it) 0 (2 * it) = totalKernelPos a x q := by
  have hn : 0 < 2 ^ m := by positivity
  unfold meanSum totalKernelPos
  have h1 : ∀ j ∈ range (2 * it + 1),
      (numSampled j (Ckns.logNmu (cknsMaxLog (2 ^ m)) it) (2 ^ m) 0 : ℝ)
        / (cknsPSampling j (Ckns.logNmu (cknsMaxLog (2 ^ m)) it) (2 ^ m) 0 * (2 ^ m : Nat))
        * shellSum a (2 * it) j q (List.ofFn x) = shellSum a (2 * it) j q (List.ofFn x) := by
    intro j hj
    rw [ratio_pow m it j (by have := mem_range.1 hj; omega), one_mul]
  rw [sum_congr rfl h1, C48_shells_sum a ha, List.map_ofFn, List.sum_ofFn]
  rfl

/-- **C67** (relative error).  For `n = 2 ^ m` points, offset 0 and no hash tables, let `S` be the kernel sum
over the data points different from the query.  The fraction of the draws for which the answer is not within
`ε S / n` of `S / n` is at most the sum over the iterations of `C(k1, ⌈k1/2⌉) · β ^ ⌈k1/2⌉`, where `β` bounds
`max(1, 2 ^ (1 + L)) / (ε² S)` for the guess `L` of the iteration or, if it is not the last iteration,
`S exp(-1.3 L)`. -/
theorem C67_relative_error (ha : 0 < a) (m : Nat) (x : Fin (2 ^ m) → List ℝ) (hk : 0 < k1) (h0 : 0 < minMu)
    (h1 : minMu ≤ 1)
    {fs : (Fin k1 → Equiv.Perm (Fin (2 ^ m))) → Nat → Nat → Nat → List (MultiLsh ℝ)}
    {threads : (Fin k1 → Equiv.Perm (Fin (2 ^ m))) → Nat} {c : (Fin k1 → Equiv.Perm (Fin (2 ^ m))) → Ckns}
    (ht : ∀ σ, 0 < threads σ)
    (hc : ∀ σ, Ckns.Create a minMu (2 ^ m) k1 0 (permCopies x σ) (fs σ) (threads σ) (c σ))
    (hnt : ∀ it < (numIterations (2 ^ m) minMu).toNat, NoTables (2 ^ m) 0 it)
    (q : List ℝ) (hS : 0 < totalKernelPos a x q) (ε : ℝ) (hε : 0 < ε) (β : Nat → ℝ)
    (hβ : ∀ it < (numIterations (2 ^ m) minMu).toNat,
      max 1 ((2 : ℝ) ^ (1 + ((m : Int) - 2 * it))) / (ε ^ 2 * totalKernelPos a x q) ≤ β it ∨
      (it + 1 < (numIterations (2 ^ m) minMu).toNat ∧
        totalKernelPos a x q * Real.exp (-(1.3 * ((m : ℝ) - 2 * it))) ≤ β it))
    [DecidablePred fun σ => ¬ ∃ v, (c σ).query q = .ok v ∧
      |v - totalKernelPos a x q / (2 ^ m : Nat)| < ε * (totalKernelPos a x q / (2 ^ m : Nat))] :
    ((univ.filter (fun σ => ¬ ∃ v, (c σ).query q = .ok v ∧
      |v - totalKernelPos a x q / (2 ^ m : Nat)| < ε * (totalKernelPos a x q / (2 ^ m : Nat)))).card : ℝ)
      ≤ ∑ it ∈ range (numIterations (2 ^ m) minMu).toNat,
        k1.choose ((k1 + 1) / 2) * β it ^ ((k1 + 1) / 2) * ((2 ^ m).factorial : ℝ) ^ k1 := by
  classical
  have hn : 0 < 2 ^ m := by positivity
  have hn' : (0 : ℝ) < ((2 ^ m : Nat) : ℝ) := by exact_mod_cast hn
  have hL : ∀ it : Nat, Ckns.logNmu (cknsMaxLog (2 ^ m)) it = (m : Int) - 2 * it := by
    intro it; unfold Ckns.logNmu; rw [cknsMaxLog_pow]; push_cast; ring
  refine card_cover _ _ (fun it => halfIn k1
    (if max 1 ((2 : ℝ) ^ (1 + ((m : Int) - 2 * it))) / (ε ^ 2 * totalKernelPos a x q) ≤ β it then
      univ.filter (fun τ => ε * totalKernelPos a x q ≤
        |sampledSum a x q (Ckns.logNmu (cknsMaxLog (2 ^ m)) it) 0 (2 * it) τ
          - meanSum a x q (Ckns.logNmu (cknsMaxLog (2 ^ m)) it) 0 (2 * it)|)
    else univ.filter (fun τ => Real.exp (1.3 * ((m : ℝ) - 2 * it)) ≤
        sampledSum a x q (Ckns.logNmu (cknsMaxLog (2 ^ m)) it) 0 (2 * it) τ))) _
    (fun it hit => card_halfIn _ _ ?_) ?_
  · split_ifs with hif
    · refine le_trans (C67_one_copy a x q _ _ _ ha hn (cknsJ_eq _ it) (ε * totalKernelPos a x q) (by positivity)) ?_
      apply mul_le_mul_of_nonneg_right _ (by positivity)
      refine le_trans (le_of_eq ?_) hif
      rw [meanSum_pow ha]
      unfold maxTerm
      rw [hL, show (1 : Int) + 0 + ((m : Int) - 2 * it) = 1 + ((m : Int) - 2 * it) by ring]
      field_simp
    · obtain h2 | ⟨-, h2⟩ := hβ it hit
      · exact absurd h2 hif
      · refine le_trans (sampled_markov ha hn q _ _ _ (Real.exp_pos _)) ?_
        apply mul_le_mul_of_nonneg_right _ (by positivity)
        rw [div_eq_mul_inv, ← Real.exp_neg]
        exact h2
  · intro σ hσ
    rw [mem_filter] at hσ
    obtain ⟨-, hbad⟩ := hσ
    obtain ⟨F, hF, it, hit, hq, -, hacc⟩ :=
      answer_copies ha hn hk h0 h1 (permCopies_length x σ) (ht σ) (hc σ) q
    refine ⟨it, hit, ?_⟩
    have hFeq : ∀ i : Fin k1, F it i = sampledSum a x q (Ckns.logNmu (cknsMaxLog (2 ^ m)) it) 0 (2 * it) (σ i) :=
      fun i => by rw [(hF it hit i i.isLt).2.2 (hnt it hit), copySum_perm]
    split_ifs with hif
    · have hoff : ε * totalKernelPos a x q ≤ |medianReal ((List.range k1).map (F it)) - totalKernelPos a x q| := by
        by_contra hlt
        refine hbad ⟨_, hq, ?_⟩
        rw [← sub_div, abs_div, abs_of_pos hn', mul_div_assoc', div_lt_div_iff_of_pos_right hn']
        exact not_le.1 hlt
      have := median_off hk (F it) _ _ hoff
      refine mem_filter.2 ⟨mem_univ _, le_trans this (card_le_card ?_)⟩
      intro i hi
      have hi' := (mem_filter.1 hi).2
      refine mem_filter.2 ⟨mem_univ _, mem_filter.2 ⟨mem_univ _, ?_⟩⟩
      rw [← hFeq, meanSum_pow ha]
      exact hi'
    · obtain h2 | ⟨hlast, h2⟩ := hβ it hit
      · exact absurd h2 hif
      · have hacc' := hacc.resolve_right (by omega)
        obtain ⟨hp, hl⟩ := hacc'
        rw [cknsMaxLog_pow] at hl
        have hge : Real.exp (1.3 * ((m : ℝ) - 2 * it)) ≤ medianReal ((List.range k1).map (F it)) := by
          rw [← Real.le_log_iff_exp_le hp]
          refine le_trans (le_of_eq ?_) hl
          push_cast
          ring
        have := median_up hk (F it) (fun y => Real.exp (1.3 * ((m : ℝ) - 2 * it)) ≤ y)
          (fun y z h2 h3 => le_trans h2 h3) hge
        refine mem_filter.2 ⟨mem_univ _, le_trans this (card_le_card ?_)⟩
        intro i hi
        have hi' := (mem_filter.1 hi).2
        refine mem_filter.2 ⟨mem_univ _, mem_filter.2 ⟨mem_univ _, ?_⟩⟩
        rw [← hFeq]
        exact hi'

end

end Stag
