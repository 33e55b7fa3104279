import Verif.Props.RoundingEquitable
import Verif.Props.RoundingSimilarity

/-!
# C108: from points to labels in doubles
-/

namespace Stag

open Graph Finset Recovery MeasureTheory

theorem TwoLevel.sqrt_unevenness {s : WGraph ℝ} {k : Nat} {S : Nat → Nat} {t b μ : ℝ} (h : s.TwoLevel k S t b μ) (ht : 0 < t)
    (ht1 : t ≤ 1) (hb : 0 ≤ b) (hμ : 1 ≤ μ) (hgap : 0 < groupGap s.n k t b μ) :
    √(s.unevenness k S (WGraph.level s S t b)) ≤ √(groupError s.n k t b μ) * groupGap s.n k t b μ := by
  have h1 := h.unevenness_le ht ht1 hb hμ (TwoLevel.nonempty h hμ)
  have h2 : groupError s.n k t b μ * groupGap s.n k t b μ ^ 2 = k * (groupSpread s.n t b μ ^ 2 + k * b ^ 2 / t ^ 2) := by
    unfold groupError
    rw [div_mul_cancel₀]
    positivity
  rw [← h2] at h1
  refine (Real.sqrt_le_sqrt h1).trans (le_of_eq ?_)
  rw [Real.sqrt_mul' _ (sq_nonneg _), Real.sqrt_sq hgap.le]

namespace KMeans
open scoped ENNReal

/-- **C108** (graphs with two levels of weights).  Let everything be computed in `double`s, the inner solver being exact for the
matrix it is given.  Let the weights inside the groups be at least `t` and those between the groups at most `b`, with
`γ = groupGap · (1 - √groupError) ≥ 2^-12`.  Let `D = √groupError + √k (n + 10) / (2^50 γ)` and
`e = 2 (D² + c + (c + 1) / 2^28) < 1/2`.  Except with probability `8 (ln k + 2) D² / c + k n / 2^28`, `spectral_cluster` returns
labels of which all but `2 e n` are matched with the groups, and if `2 e n < 1`, two vertices have the same label exactly when
they are in the same group. -/
theorem C108_two_level {g : Graph ℝ} (E : EigenSum (dbl ℝ).fl) (solve : EigenSolver) (hsolve : SolverSpec solve)
    (h : g.Reachable) (hw : ∀ u v, 0 ≤ g.abs.w u v) (hd : ∀ v, v < g.n → 0 < g.abs.deg v)
    (hf : g.FloatWeights (dbl ℝ).fl) (hn : g.n < 2 ^ 20) (k : Nat) (hk : 1 ≤ k ∧ 2 * k ≤ g.n) (hk16 : k ≤ 16) (junk : Nat → ℝ)
    (res : EigenPairs) (hres : computeEigensystemFl (dbl ℝ).fl solve g .normalisedLaplacian k .smallest = .ok res)
    (S : Nat → Nat) (t b m : ℝ) (htl : g.abs.TwoLevel k S t b m) (ht : 0 < t) (ht1 : t ≤ 1) (hb : 0 ≤ b) (hm : 1 ≤ m)
    (hgap : 0 < groupGap g.n k t b m) (γ : ℝ) (hγ : γ = groupGap g.n k t b m * (1 - √(groupError g.n k t b m)))
    (hγ1 : 1 / 2 ^ 12 ≤ γ) (D : ℝ) (hD : D = √(groupError g.n k t b m) + √k * (g.n + 10) / (2 ^ 50 * γ)) (c : ℝ) (hc : 0 < c)
    (e : ℝ) (he : e = 2 * (D ^ 2 + (c + (c + 1) / 2 ^ 28))) (he2 : e < 1 / 2) :
    streamLaw word32.toMeasure {y | ¬ ∃ labels, spectralClusterFl E solve g k y junk = .ok labels ∧ labels.length = g.n ∧
      (∃ σ : Equiv.Perm (Fin k),
        (((range g.n).filter fun u => ∃ i : Fin k, S u = i ∧ labels.getD u 0 ≠ σ i).card : ℝ) ≤ 2 * e * g.n) ∧
      (2 * e * g.n < 1 → ∀ u < g.n, ∀ v < g.n, labels.getD u 0 = labels.getD v 0 ↔ S u = S v)} ≤
    ENNReal.ofReal (8 * (Real.log k + 2) * D ^ 2 / c + k * g.n / 2 ^ 28) := by
  have hS := TwoLevel.nonempty htl hm
  have hs := TwoLevel.sqrt_unevenness htl ht ht1 hb hm hgap
  have hgn : g.abs.n = g.n := rfl
  rw [hgn] at hs
  have e1 : (1 - groupSpread g.n t b m - k * b / t) - (1 - t / (2 + g.n * b / m)) = groupGap g.n k t b m := by
    unfold groupGap; ring
  have hsp : 0 ≤ groupSpread g.n t b m := by
    unfold groupSpread
    have : t ^ 2 ≤ 1 := pow_le_one₀ ht.le ht1
    exact div_nonneg (by have : 0 ≤ g.n * b / m := by positivity
                         linarith) ht.le
  obtain ⟨s, hs'⟩ : ∃ s, s = √(g.abs.unevenness k S (WGraph.level g.abs S t b)) := ⟨_, rfl⟩
  obtain ⟨G, hG⟩ : ∃ G, G = groupGap g.n k t b m := ⟨_, rfl⟩
  obtain ⟨q, hq⟩ : ∃ q, q = √(groupError g.n k t b m) := ⟨_, rfl⟩
  have hs0 : 0 ≤ s := by rw [hs']; exact Real.sqrt_nonneg _
  have hq0 : 0 ≤ q := by rw [hq]; exact Real.sqrt_nonneg _
  rw [← hs', ← hq, ← hG] at hs
  rw [← hG] at e1 hgap hγ
  rw [← hq] at hγ hD
  have hγ0 : 0 < γ := lt_of_lt_of_le (by norm_num) hγ1
  have hγ2 : γ ≤ G - s := by
    rw [hγ]
    linarith
  obtain ⟨D', hD'⟩ : ∃ D', D' = s / ((1 - groupSpread g.n t b m - k * b / t) - (1 - t / (2 + g.n * b / m))) +
    √k * (g.n + 10) / (2 ^ 50 * ((1 - groupSpread g.n t b m - k * b / t) - (1 - t / (2 + g.n * b / m)) - s)) := ⟨_, rfl⟩
  have hGs : 0 < G - s := lt_of_lt_of_le hγ0 hγ2
  have hD'0 : 0 ≤ D' := by
    rw [hD', e1]
    positivity
  have hD'D : D' ≤ D := by
    rw [hD', hD, e1]
    refine add_le_add ?_ ?_
    · rw [div_le_iff₀ hgap]
      exact hs
    · exact div_le_div_of_nonneg_left (by positivity) (by positivity) (mul_le_mul_of_nonneg_left hγ2 (by norm_num))
  have hDD := pow_le_pow_left₀ hD'0 hD'D 2
  have hρ := C107_rounded g.n k hn hk16 c hc.le
  have := C107_matching E solve hsolve h hw hd hf hn k hk junk res hres (1 - groupSpread g.n t b m - k * b / t)
    (by have : 0 ≤ k * b / t := by positivity
        linarith) (fun i u => if S u = i then 1 else 0) (fun x hx => htl.test ht ht1 hb hm hS x hx) S htl.label hS
    _ _ (htl.strength ht hb hm) _ rfl (by rw [← hs', hgn, e1]; exact hγ1.trans hγ2) D'
    (by rw [hD', ← hs', hgn]) c hc e (by rw [he]; linarith) he2
  refine this.trans (ENNReal.ofReal_le_ofReal ?_)
  have hlog : 0 ≤ Real.log k := Real.log_natCast_nonneg k
  gcongr

/-- A library `exp` whose results are `double`s. -/
def LibExp.Doubles (X : LibExp) : Prop := ∀ x ≤ 0, (dbl ℝ).fl (X.ex x) = X.ex x

section
variable (X : LibExp) (hX : LibExp.Doubles X) (data : Mat ℝ) (a : ℝ) (ha : 0 ≤ a) (k : Nat) (S : Nat → Nat)
  (t b m : ℝ) (ht : epsilon < t) (ht1 : t ≤ 1) (hb : 0 ≤ b) (hm : 1 ≤ m)
  (hp : GroupedPointsBy (kernelErr (dbl ℝ) X data.cols) data a k S t b m) (threads : Nat) (hth : 0 < threads)
  (hn : data.rows < 2 ^ 20) (hk : 1 ≤ k ∧ 2 * k ≤ data.rows) (hk16 : k ≤ 16)

include hX ha ht ht1 hb hp hth hn hk hk16 hm

omit ht1 hp hn hk ht hb hk16 hm in
theorem similarity_floats (g : Graph ℝ) (hg : SimilarityGraphFl (dbl ℝ).fl X data a threads (.ok g)) :
    g.FloatWeights (dbl ℝ).fl := by
  have ho : (dbl ℝ).Odd := fun x => flBin_neg 53 x
  have hneg : ∀ x : ℝ, (dbl ℝ).fl (-x) = -(dbl ℝ).fl x := fun x => flBin_neg 53 x
  obtain ⟨g2, hg2, _, _, _, hab⟩ := simGraphFl ho X data a ha
  have := ((C94_schedule (dbl ℝ) X data a threads hth).2 _ hg).trans hg2
  cases this
  have key : ∀ u v, (dbl ℝ).fl (g.abs.w u v) = g.abs.w u v := by
    intro u v
    rw [hab]
    simp only [kernelWeightFl]
    unfold thr
    split_ifs
    · unfold kernelOfFl gaussianKernelFl
      refine hX _ (neg_nonpos.2 (Rounding.fl_nonneg (mul_nonneg ha ?_)))
      exact (Rounding.squaredDistanceFl_near (R := dbl ℝ) _ _).x0
    all_goals exact Rounding.fl_zero
  intro u v
  exact ⟨key u v, by rw [hneg, key u v]⟩

/-- **C108** (from points to labels).  Let everything be computed in `double`s, with a library `exp` that returns `double`s and an
inner solver that is exact for the matrix it is given.  Let the points fall into `k ≤ 16` groups with a margin for the rounding
errors of the kernel, and `γ`, `D`, `e` as before.  `similarity_graph` returns, for every schedule; and for every graph it returns,
`spectral_cluster` finds the groups up to `2 e n` points, and all of them if `2 e n < 1`, except with probability
`8 (ln k + 2) D² / c + k n / 2^28`. -/
theorem C108_points (hgap : 0 < groupGap data.rows k t b m) (γ : ℝ)
    (hγ : γ = groupGap data.rows k t b m * (1 - √(groupError data.rows k t b m)))
    (hγ1 : 1 / 2 ^ 12 ≤ γ) (D : ℝ) (hD : D = √(groupError data.rows k t b m) + √k * (data.rows + 10) / (2 ^ 50 * γ))
    (c : ℝ) (hc : 0 < c) (e : ℝ) (he : e = 2 * (D ^ 2 + (c + (c + 1) / 2 ^ 28))) (he2 : e < 1 / 2) :
    (∃ out, SimilarityGraphFl (dbl ℝ).fl X data a threads out) ∧
    ∀ out, SimilarityGraphFl (dbl ℝ).fl X data a threads out → ∃ g, out = .ok g ∧ g.n = data.rows ∧
      (∃ solve res, SolverSpec solve ∧ computeEigensystemFl (dbl ℝ).fl solve g .normalisedLaplacian k .smallest = .ok res) ∧
      ∀ (E : EigenSum (dbl ℝ).fl) (solve : EigenSolver), SolverSpec solve → ∀ junk res,
        computeEigensystemFl (dbl ℝ).fl solve g .normalisedLaplacian k .smallest = .ok res →
        streamLaw word32.toMeasure {y | ¬ ∃ labels, spectralClusterFl E solve g k y junk = .ok labels ∧ labels.length = data.rows ∧
          (∃ σ : Equiv.Perm (Fin k), (((range data.rows).filter fun u =>
            ∃ i : Fin k, S u = i ∧ labels.getD u 0 ≠ σ i).card : ℝ) ≤ 2 * e * data.rows) ∧
          (2 * e * data.rows < 1 → ∀ u < data.rows, ∀ v < data.rows, labels.getD u 0 = labels.getD v 0 ↔ S u = S v)} ≤
        ENNReal.ofReal (8 * (Real.log k + 2) * D ^ 2 / c + k * data.rows / 2 ^ 28) := by
  have ho : (dbl ℝ).Odd := fun x => flBin_neg 53 x
  obtain ⟨h1, h2⟩ := C94_graph (dbl ℝ) ho X data a ha threads hth
  refine ⟨h1, fun out hout => ?_⟩
  obtain ⟨g, rfl, -⟩ := h2 out hout
  obtain ⟨hr, -, -, hgn, htl, hw, hd⟩ := C94_grouped (dbl ℝ) ho X data a ha k S t b m ht ht1 hb hp threads hth g hout
  have hf := similarity_floats X hX data a ha threads hth g hout
  have ht0 : 0 < t := lt_trans (by unfold epsilon; norm_num) ht
  refine ⟨g, rfl, hgn, ?_, fun E solve hs junk res hres => ?_⟩
  · exact C107_answers hr hw hd hf (by rw [hgn]; exact hn) k ⟨hk.1, by omega⟩
  · rw [← hgn] at hgap hγ hD hk hn ⊢
    exact C108_two_level E solve hs hr hw hd hf hn k hk hk16 junk res hres S t b m htl ht0 ht1 hb hm hgap γ hγ hγ1 D hD c hc e he he2

end

/-- **C108** (a case).  The points 0, 1/128, 16 and 16 + 1/128 with `a = 1`, in `double`s and with a correctly rounded `exp`: for every
number of threads, every schedule and every exact inner solver, `spectral_cluster` applied to the similarity graph returns the
groups {0, 1} and {2, 3}, except with probability 1/1000. -/
theorem C108_four_doubles (threads : Nat) (hth : 0 < threads) :
    (∃ g, SimilarityGraphFl (dbl ℝ).fl LibExp.rounded fourDoubles 1 threads (.ok g)) ∧
    ∀ g, SimilarityGraphFl (dbl ℝ).fl LibExp.rounded fourDoubles 1 threads (.ok g) →
      (∃ solve res, SolverSpec solve ∧ computeEigensystemFl (dbl ℝ).fl solve g .normalisedLaplacian 2 .smallest = .ok res) ∧
      ∀ (E : EigenSum (dbl ℝ).fl) (solve : EigenSolver), SolverSpec solve → ∀ junk res,
        computeEigensystemFl (dbl ℝ).fl solve g .normalisedLaplacian 2 .smallest = .ok res →
        streamLaw word32.toMeasure {y | ¬ ∃ labels, spectralClusterFl E solve g 2 y junk = .ok labels ∧ labels.length = 4 ∧
          ∀ u < 4, ∀ v < 4, labels.getD u 0 = labels.getD v 0 ↔ u / 2 = v / 2} ≤ ENNReal.ofReal (1 / 1000) := by
  have heps : (epsilon : ℝ) < 9999 / 10000 := by unfold epsilon; norm_num
  have hsp : groupSpread 4 (9999 / 10000) 0 2 = 19999 / 99990000 := by unfold groupSpread; norm_num
  have hgap : groupGap 4 2 (9999 / 10000) 0 2 = 9999 / 20000 - 19999 / 99990000 := by
    unfold groupGap
    rw [hsp]
    norm_num
  have herr : groupError 4 2 (9999 / 10000) 0 2 ≤ (1 / 1000) ^ 2 := by
    unfold groupError
    rw [hsp, hgap]
    norm_num
  have hg := fourDoubles_grouped (kernelErr (dbl ℝ) LibExp.rounded 1) (by
    have := C94_double LibExp.rounded (by show (2 : ℝ) ^ (-53 : Int) ≤ _; norm_num) (by show (0 : ℝ) ≤ _; positivity) 1 (by norm_num)
    push_cast at this
    change kernelErr (Rounding.binary ℝ 53 (by norm_num)) LibExp.rounded 1 ≤ _
    linarith) (9999 / 10000) le_rfl
  have hX : LibExp.Doubles LibExp.rounded := fun x _ => (dbl ℝ).idem _
  have hq0 := Real.sqrt_nonneg (groupError 4 2 (9999 / 10000) 0 2)
  have hq : √(groupError 4 2 (9999 / 10000) 0 2) ≤ 1 / 1000 := Real.sqrt_le_iff.2 ⟨by norm_num, herr⟩
  obtain ⟨q, hqe⟩ : ∃ q, q = √(groupError 4 2 (9999 / 10000) 0 2) := ⟨_, rfl⟩
  rw [← hqe] at hq hq0
  obtain ⟨γ, hγ⟩ : ∃ γ, γ = groupGap 4 2 (9999 / 10000) 0 2 * (1 - q) := ⟨_, rfl⟩
  have hγ1 : 1 / 4 ≤ γ := by
    rw [hγ, hgap]
    linarith
  obtain ⟨D, hD⟩ : ∃ D, D = q + √((2 : Nat) : ℝ) * (((4 : Nat) : ℝ) + 10) / (2 ^ 50 * γ) := ⟨_, rfl⟩
  have hD0 : 0 ≤ D := by rw [hD]; positivity
  have hD1 : D ≤ 1001 / 1000000 := by
    have h2 : √((2 : Nat) : ℝ) ≤ 2 := Real.sqrt_le_iff.2 ⟨by norm_num, by norm_num⟩
    have h3 : √((2 : Nat) : ℝ) * (((4 : Nat) : ℝ) + 10) / (2 ^ 50 * γ) ≤ 2 * (((4 : Nat) : ℝ) + 10) / (2 ^ 50 * (1 / 4)) := by
      gcongr
    rw [hD]
    refine (add_le_add hq h3).trans ?_
    norm_num
  have hD2 : D ^ 2 ≤ 11 / 10000000 := (pow_le_pow_left₀ hD0 hD1 2).trans (by norm_num)
  have h := C108_points LibExp.rounded hX fourDoubles 1 (by norm_num) 2 (fun u => u / 2) (9999 / 10000) 0 2 heps (by norm_num) le_rfl
    (by norm_num) hg threads hth (by change 4 < 2 ^ 20; norm_num) (by change 1 ≤ 2 ∧ 2 * 2 ≤ 4; norm_num) (by norm_num)
    (by change 0 < groupGap 4 2 _ _ _; rw [hgap]; norm_num) γ (by rw [hγ, hqe]; rfl) (by linarith) D (by rw [hD, hqe]; rfl)
    (1 / 20) (by norm_num) _ rfl (by linarith)
  obtain ⟨⟨out, hout⟩, hall⟩ := h
  constructor
  · obtain ⟨g, rfl, -⟩ := hall out hout
    exact ⟨g, hout⟩
  · intro g hgs
    obtain ⟨g', hg', hn, hans, hfin⟩ := hall _ hgs
    cases hg'
    refine ⟨hans, fun E solve hs junk res hres => ?_⟩
    refine le_trans (measure_mono ?_) ((hfin E solve hs junk res hres).trans (ENNReal.ofReal_le_ofReal ?_))
    · intro y hy
      rw [Set.mem_ofPred_eq] at hy ⊢
      rintro ⟨labels, b1, b2, -, b3⟩
      refine hy ⟨labels, b1, b2, b3 ?_⟩
      change 2 * (2 * (D ^ 2 + (1 / 20 + (1 / 20 + 1) / 2 ^ 28))) * ((4 : Nat) : ℝ) < 1
      push_cast
      linarith
    · change 8 * (Real.log (2 : Nat) + 2) * D ^ 2 / (1 / 20) + ((2 : Nat) : ℝ) * ((4 : Nat) : ℝ) / 2 ^ 28 ≤ 1 / 1000
      have hl : Real.log (2 : Nat) ≤ 6932 / 10000 := by
        have := Real.log_two_lt_d9
        push_cast
        linarith
      have hl0 : 0 ≤ Real.log (2 : Nat) := Real.log_natCast_nonneg 2
      have : 8 * (Real.log (2 : Nat) + 2) * D ^ 2 ≤ 8 * (6932 / 10000 + 2) * (11 / 10000000) := by gcongr
      rw [show (8 * (Real.log (2 : Nat) + 2) * D ^ 2 / (1 / 20) : ℝ) = 20 * (8 * (Real.log (2 : Nat) + 2) * D ^ 2) by ring]
      push_cast at this ⊢
      linarith

end KMeans

end Stag
