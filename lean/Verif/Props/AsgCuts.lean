import Verif.Props.AsgSampling
import Verif.Concentration
import Mathlib.Probability.ProbabilityMassFunction.Integrals
import Verif.Props.Conductance
import Verif.Props.Points

/-!
# C97: cuts of the graph returned by `approximate_similarity_graph`
-/

open MeasureTheory ProbabilityTheory Finset Real
open scoped ENNReal

namespace Stag

variable {Θ : Type} [MeasurableSpace Θ] {μ : Measure Θ}

/-- The samples `L v` of the rows `v` are independent, and each pair of samples has the distribution of C69. -/
structure IndependentDraws (μ : Measure Θ) (data : Mat ℝ) (a : ℝ) (tree : KdeTree) (L : Nat → Θ → List Int) : Prop where
  measurable : ∀ v < data.rows, ∀ l, MeasurableSet {θ | L v θ = l}
  independent : iIndepFun (m := fun _ => (⊤ : MeasurableSpace (List Int))) (fun v : Fin data.rows => L v) μ
  law : ∀ v < data.rows, ∀ l, μ {θ | L v θ = l} = tree.law data a (data.row v) 2 (.ok l)

/-- Two samples, both of them rows. -/
def GoodSample (n : Nat) (l : List Int) : Prop := l.length = 2 ∧ ∀ x ∈ l, 0 ≤ x ∧ x < (n : Int)

theorem measurable_list {f : Θ → List Int} (h : ∀ l, MeasurableSet {θ | f θ = l}) :
    Measurable[_, (⊤ : MeasurableSpace (List Int))] f := by
  intro s _
  have : f ⁻¹' s = ⋃ l ∈ s, {θ | f θ = l} := by
    ext θ
    simp
  rw [this]
  exact MeasurableSet.biUnion (Set.to_countable s) fun l _ => h l

/-- Hypotheses of C52 and C69: the data fit into one leaf, or all estimates are positive. -/
def AsgOk (data : Mat ℝ) (est : Nat → Nat → List ℝ → ℝ) (cutoff : Nat) : Prop :=
  data.rows ≤ cutoff ∨ (2 ≤ cutoff ∧ ∀ lo hi q, 0 < est lo hi q)

section
variable {data : Mat ℝ} {a : ℝ} {est : Nat → Nat → List ℝ → ℝ} {cutoff : Nat} {tree : KdeTree} {L : Nat → Θ → List Int}

theorem AsgOk.leaf (hn : 2 ≤ data.rows) (hc : AsgOk data est cutoff) :
    data.rows - 1 - 0 < cutoff ∨ (2 ≤ cutoff ∧ ∀ lo hi q, 0 < est lo hi q) := by
  rcases hc with h | h
  · exact .inl (by omega)
  · exact .inr h

theorem draws_good (hn : 2 ≤ data.rows) (htree : tree = KdeTree.build est cutoff 0 0 (data.rows - 1) 0)
    (hL : IndependentDraws μ data a tree L) : ∀ᵐ θ ∂μ, ∀ v < data.rows, GoodSample data.rows (L v θ) := by
  rw [ae_all_iff]
  intro v
  by_cases hv : v < data.rows
  · have hnull : μ (⋃ l ∈ {l : List Int | ¬ GoodSample data.rows l}, {θ | L v θ = l}) = 0 := by
      rw [measure_biUnion_null_iff (Set.to_countable _)]
      intro l hl
      rw [hL.law v hv]
      by_contra hne
      subst htree
      rcases C52_samples data a (data.row v) est cutoff 0 0 (data.rows - 1) 0 2 (by omega) (by omega) _
        (C69_possible _ _ _ _ _ _ hne) with h | ⟨ss, h1, h2, h3⟩
      · cases h
      · cases h1
        exact hl ⟨h2, fun x hx => by have := h3 x hx; omega⟩
    refine ae_iff.2 (measure_mono_null (fun θ hθ => ?_) hnull)
    simp only [Set.mem_iUnion, exists_prop]
    exact ⟨L v θ, fun h => hθ fun _ => h, rfl⟩
  · exact ae_of_all _ fun _ h => absurd h hv

/-- The two samples of a row are, up to order, two independent draws from one distribution over the rows. -/
theorem draws_expect (hn : 2 ≤ data.rows) (hc : AsgOk data est cutoff)
    (htree : tree = KdeTree.build est cutoff 0 0 (data.rows - 1) 0)
    (hL : IndependentDraws μ data a tree L) {v : Nat} (hv : v < data.rows) :
    (∀ j, 0 ≤ tree.rowProb data a (data.row v) j) ∧ (∀ j, data.rows ≤ j → tree.rowProb data a (data.row v) j = 0) ∧
    ∃ p : PMF Int, (∀ j : Int, p j = if 0 ≤ j then ENNReal.ofReal (tree.rowProb data a (data.row v) j.toNat) else 0) ∧
      ∀ f : Multiset Int → ℝ≥0∞, ∫⁻ θ, f (L v θ : Multiset Int) ∂μ = PMF.expect (iidLaw p 2) f := by
  have hnn : ∀ j, 0 ≤ tree.rowProb data a (data.row v) j := by
    intro j
    subst htree
    exact (draws_aux data a (data.row v) est cutoff 0 0 (data.rows - 1) 0 (by omega) (by omega) (hc.leaf hn)).1 j
  have hout : ∀ j, data.rows ≤ j → tree.rowProb data a (data.row v) j = 0 := by
    intro j hj
    rw [htree]
    exact rowProb_outside data a _ est cutoff 0 0 (data.rows - 1) 0 j (by omega) (by omega)
  refine ⟨hnn, hout, ?_⟩
  let _ : MeasurableSpace (List Int) := ⊤
  have : DiscreteMeasurableSpace (List Int) := ⟨fun _ => trivial⟩
  have hm : Measurable (L v) := measurable_list (hL.measurable v hv)
  obtain ⟨p, hp1, hp2⟩ := C69_draws data a (data.row v) est cutoff 0 0 (data.rows - 1) 0 (by omega) (by omega) (hc.leaf hn)
  obtain ⟨P, hP1, hP2⟩ := hp1 2
  rw [← htree] at hP1 hp2
  refine ⟨p, hp2, fun f => ?_⟩
  have h1 : ∫⁻ θ, f (L v θ : Multiset Int) ∂μ = ∫⁻ l, f (l : Multiset Int) ∂(μ.map (L v)) :=
    (lintegral_map (f := fun l : List Int => f (l : Multiset Int)) (measurable_of_countable _) hm).symm
  rw [h1, lintegral_countable']
  have hP : ∀ l, (μ.map (L v)) {l} = P l := by
    intro l
    rw [Measure.map_apply hm (measurableSet_singleton l)]
    have := hL.law v hv l
    rw [hP1] at this
    refine Eq.trans this ?_
    rw [PMF.map_apply, tsum_eq_single l]
    · simp
    · intro b hb
      rw [if_neg]
      intro e
      cases e
      exact hb rfl
  rw [← hP2, expect_map]
  unfold PMF.expect
  exact tsum_congr fun l => by rw [hP, mul_comm]; rfl

theorem good_count_sum {n : Nat} (f : Nat → ℝ) : ∀ {l : List Int}, (∀ x ∈ l, 0 ≤ x ∧ x < (n : Int)) →
    ∑ j ∈ range n, f j * (l.count (j : Int) : ℝ) = (l.map fun x => f x.toNat).sum := by
  intro l
  induction l with
  | nil => simp
  | cons x l ih =>
    intro h
    have hx := h x (by simp)
    rw [List.map_cons, List.sum_cons, ← ih fun y hy => h y (by simp [hy])]
    have e : ∀ j ∈ range n, f j * ((x :: l).count (j : Int) : ℝ)
        = (if j = x.toNat then f j else 0) + f j * (l.count (j : Int) : ℝ) := by
      intro j _
      rw [List.count_cons]
      by_cases hj : j = x.toNat
      · have : x = (j : Int) := by omega
        rw [if_pos hj, if_pos (by rw [this]; exact beq_self_eq_true _)]
        push_cast
        ring
      · have : ¬ x = (j : Int) := by omega
        simp [hj, this]
    rw [sum_congr rfl e, sum_add_distrib, sum_ite_eq' (range n) x.toNat f, if_pos (by rw [mem_range]; omega)]

/-- The deviation of the contribution of the samples of row `v`. -/
noncomputable def drawNoise (n : Nat) (W : ℝ) (p f : Nat → ℝ) (l : List Int) : ℝ :=
  ∑ j ∈ range n, f j * (W / 5 * ((l.count (j : Int) : ℝ) - 2 * p j))

theorem drawNoise_eq {n : Nat} {W : ℝ} {p f : Nat → ℝ} {l : List Int} (h : GoodSample n l) :
    drawNoise n W p f l = W / 5 * (l.map fun x => f x.toNat).sum - W / 5 * ∑ j ∈ range n, f j * (2 * p j) := by
  rw [← good_count_sum f h.2, mul_sum, mul_sum, ← sum_sub_distrib]
  exact sum_congr rfl fun j _ => by ring

theorem draws_weight_pos (hn : 2 ≤ data.rows) (hc : AsgOk data est cutoff)
    (htree : tree = KdeTree.build est cutoff 0 0 (data.rows - 1) 0) (v : Nat) :
    0 < tree.weight data a (data.row v) := by
  subst htree
  exact (weight_pos data a (data.row v) est cutoff 0 0 (data.rows - 1) 0 (by omega) (by omega) (hc.leaf hn)).2
    (by omega)

/-- A sum over the support of the distribution of one draw. -/
theorem draw_tsum {p : PMF Int} {r : Nat → ℝ} {n : Nat} (hr : ∀ j, 0 ≤ r j) (h0 : ∀ j, n ≤ j → r j = 0)
    (hp : ∀ j : Int, p j = if 0 ≤ j then ENNReal.ofReal (r j.toNat) else 0) (h : Int → ℝ) :
    ∑' j, (p j).toReal • h j = ∑ j ∈ range n, r j * h j := by
  have hcast : Set.InjOn (fun j : Nat => (j : Int)) (range n) := fun x _ y _ e => by simpa using e
  rw [tsum_eq_sum (s := (range n).image fun j : Nat => (j : Int)), sum_image hcast]
  · refine sum_congr rfl fun j _ => ?_
    rw [hp, if_pos (by omega), Int.toNat_natCast, ENNReal.toReal_ofReal (hr j), smul_eq_mul]
  · intro j hj
    rw [hp]
    by_cases h1 : 0 ≤ j
    · rw [if_pos h1, h0]
      · simp
      · by_contra h2
        exact hj (mem_image.2 ⟨j.toNat, mem_range.2 (by omega), by omega⟩)
    · simp [h1]

/-- The contribution of one row is sub-Gaussian. -/
theorem draws_subgaussian [IsProbabilityMeasure μ] (hn : 2 ≤ data.rows) (hc : AsgOk data est cutoff)
    (htree : tree = KdeTree.build est cutoff 0 0 (data.rows - 1) 0)
    (hL : IndependentDraws μ data a tree L) {v : Nat} (hv : v < data.rows) (f : Nat → ℝ) (b : ℝ)
    (hf : ∀ j < data.rows, b ≤ f j ∧ f j ≤ b + 1) :
    HasSubgaussianMGF (fun θ => drawNoise data.rows (tree.weight data a (data.row v))
      (tree.rowProb data a (data.row v)) f (L v θ)) (Real.toNNReal (tree.weight data a (data.row v) ^ 2 / 50)) μ := by
  have hW := draws_weight_pos (a := a) hn hc htree v
  obtain ⟨hnn, hout, p, hp, hexp⟩ := draws_expect hn hc htree hL hv
  have hgood := draws_good hn htree hL
  generalize tree.weight data a (data.row v) = W at *
  obtain ⟨r, hr⟩ : ∃ r : Nat → ℝ, r = fun j => tree.rowProb data a (data.row v) j := ⟨_, rfl⟩
  have hnn' : ∀ j, 0 ≤ r j := fun j => by rw [hr]; exact hnn j
  have hout' : ∀ j, data.rows ≤ j → r j = 0 := fun j hj => by rw [hr]; exact hout j hj
  have hp' : ∀ j : Int, p j = if 0 ≤ j then ENNReal.ofReal (r j.toNat) else 0 := fun j => by rw [hr]; exact hp j
  change HasSubgaussianMGF (fun θ => drawNoise data.rows W (fun j => tree.rowProb data a (data.row v) j) f (L v θ)) _ μ
  rw [← hr]
  obtain ⟨m, hm⟩ : ∃ m : ℝ, m = ∑ j ∈ range data.rows, r j * f j := ⟨_, rfl⟩
  -- the deviation of one draw
  obtain ⟨h, hh⟩ : ∃ h : Int → ℝ, h = fun x => W / 5 * (f x.toNat - m) := ⟨_, rfl⟩
  let _ : MeasurableSpace Int := ⊤
  have : DiscreteMeasurableSpace Int := ⟨fun _ => trivial⟩
  have hsupp : ∀ᵐ x ∂p.toMeasure, 0 ≤ x ∧ x < (data.rows : Int) := by
    rw [ae_iff, PMF.toMeasure_apply_eq_zero_iff _ (by trivial), Set.disjoint_left]
    intro x hx
    rw [PMF.mem_support_iff, hp'] at hx
    simp only [Set.mem_ofPred_eq, not_not]
    by_cases h1 : 0 ≤ x
    · refine ⟨h1, ?_⟩
      by_contra h2
      rw [if_pos h1, hout' _ (by omega)] at hx
      simp at hx
    · simp [h1] at hx
  have hbd : ∀ᵐ x ∂p.toMeasure, h x ∈ Set.Icc (W / 5 * (b - m)) (W / 5 * (b + 1 - m)) := by
    filter_upwards [hsupp] with x hx
    have := hf x.toNat (by omega)
    rw [hh, Set.mem_Icc]
    constructor
    · exact mul_le_mul_of_nonneg_left (by linarith) (by linarith)
    · exact mul_le_mul_of_nonneg_left (by linarith) (by linarith)
  have hmeas : AEMeasurable h p.toMeasure := (measurable_from_top (f := h)).aemeasurable
  have hone : ∑ j ∈ range data.rows, r j = 1 := by
    have h1 := draw_tsum hnn' hout' hp' (fun _ => 1)
    simp only [smul_eq_mul, mul_one] at h1
    rw [← h1, ← ENNReal.tsum_toReal_eq fun x => p.apply_ne_top x, p.tsum_coe]
    simp
  have hzero : ∫ x, h x ∂p.toMeasure = 0 := by
    rw [PMF.integral_eq_tsum _ _ (Integrable.of_mem_Icc _ _ hmeas hbd), draw_tsum hnn' hout' hp' h, hh]
    have e : ∀ j ∈ range data.rows, r j * (W / 5 * (f ((j : Int)).toNat - m)) = W / 5 * (r j * f j) - W / 5 * m * r j := by
      intro j _
      rw [Int.toNat_natCast]
      ring
    rw [sum_congr rfl e, sum_sub_distrib, ← mul_sum, ← mul_sum, hone, ← hm]
    ring
  have hsg := hasSubgaussianMGF_of_mem_Icc_of_integral_eq_zero hmeas hbd hzero
  -- both draws together
  have heq : ∀ θ, GoodSample data.rows (L v θ) → ∀ t : ℝ, ENNReal.ofReal (exp (t * drawNoise data.rows W r f (L v θ)))
      = ((L v θ : Multiset Int).map fun x => ENNReal.ofReal (exp (t * h x))).prod := by
    intro θ hg t
    rw [drawNoise_eq hg]
    match hs : L v θ, hg.1 with
    | [x, y], _ =>
      have e2 : ∑ j ∈ range data.rows, f j * (2 * r j) = 2 * m := by
        rw [hm, mul_sum]
        exact sum_congr rfl fun j _ => by ring
      rw [e2]
      simp only [List.map_cons, List.map_nil, List.sum_cons, List.sum_nil, Multiset.map_coe, Multiset.prod_coe,
        List.prod_cons, List.prod_nil, mul_one]
      rw [← ENNReal.ofReal_mul (exp_pos _).le, ← exp_add, hh]
      congr 2
      ring
  have hint : ∀ t : ℝ, ∫⁻ θ, ENNReal.ofReal (exp (t * drawNoise data.rows W r f (L v θ))) ∂μ
      = PMF.expect p (fun x => ENNReal.ofReal (exp (t * h x))) ^ 2 := by
    intro t
    rw [← expect_prod, ← hexp fun M => (M.map fun x => ENNReal.ofReal (exp (t * h x))).prod]
    refine lintegral_congr_ae ?_
    filter_upwards [hgood] with θ hθ
    exact heq θ (hθ v hv) t
  have hone' : ∀ t : ℝ, PMF.expect p (fun x => ENNReal.ofReal (exp (t * h x))) ≤ ENNReal.ofReal (exp (W ^ 2 / 200 * t ^ 2)) := by
    intro t
    have h1 : PMF.expect p (fun x => ENNReal.ofReal (exp (t * h x))) = ∫⁻ x, ENNReal.ofReal (exp (t * h x)) ∂p.toMeasure := by
      rw [lintegral_countable']
      unfold PMF.expect
      refine tsum_congr fun x => ?_
      rw [PMF.toMeasure_apply_singleton _ _ (measurableSet_singleton x), mul_comm]
    rw [h1, ← ofReal_integral_eq_lintegral_ofReal (hsg.integrable_exp_mul t) (ae_of_all _ fun x => (exp_pos _).le)]
    apply ENNReal.ofReal_le_ofReal
    have h2 := hsg.mgf_le t
    unfold mgf at h2
    refine le_trans h2 (le_of_eq ?_)
    congr 1
    rw [NNReal.coe_pow, NNReal.coe_div, coe_nnnorm, Real.norm_eq_abs]
    rw [show W / 5 * (b + 1 - m) - W / 5 * (b - m) = W / 5 by ring, abs_of_pos (by positivity)]
    push_cast
    ring
  have hfin : ∀ t : ℝ, ∫⁻ θ, ENNReal.ofReal (exp (t * drawNoise data.rows W r f (L v θ))) ∂μ
      ≤ ENNReal.ofReal (exp (W ^ 2 / 100 * t ^ 2)) := by
    intro t
    rw [hint]
    refine le_trans (pow_le_pow_left' (hone' t) 2) (le_of_eq ?_)
    rw [← ENNReal.ofReal_pow (exp_pos _).le, ← exp_nat_mul]
    congr 2
    push_cast
    ring
  have hmn : Measurable fun θ => drawNoise data.rows W r f (L v θ) := by
    let _ : MeasurableSpace (List Int) := ⊤
    exact (measurable_from_top (f := drawNoise data.rows W r f)).comp (measurable_list (hL.measurable v hv))
  have hme : ∀ t : ℝ, AEStronglyMeasurable (fun θ => exp (t * drawNoise data.rows W r f (L v θ))) μ := fun t =>
    (measurable_exp.comp (hmn.const_mul t)).aestronglyMeasurable
  constructor
  · intro t
    refine ⟨hme t, ?_⟩
    rw [hasFiniteIntegral_iff_ofReal (ae_of_all _ fun θ => (exp_pos _).le)]
    exact lt_of_le_of_lt (hfin t) ENNReal.ofReal_lt_top
  · intro t
    unfold mgf
    rw [integral_eq_lintegral_of_nonneg_ae (ae_of_all _ fun θ => (exp_pos _).le) (hme t)]
    refine ENNReal.toReal_le_of_le_ofReal (exp_pos _).le (le_trans (hfin t) (le_of_eq ?_))
    rw [Real.coe_toNNReal _ (by positivity)]
    congr 2
    ring

/-- Hoeffding's inequality for a linear function of the samples. -/
theorem draws_tail [IsProbabilityMeasure μ] (hn : 2 ≤ data.rows) (hc : AsgOk data est cutoff)
    (htree : tree = KdeTree.build est cutoff 0 0 (data.rows - 1) 0)
    (hL : IndependentDraws μ data a tree L) (A : Nat → Nat → ℝ) (b : Nat → ℝ)
    (hA : ∀ v < data.rows, ∀ j < data.rows, b v ≤ A v j ∧ A v j ≤ b v + 1) (ε : ℝ) (hε : 0 < ε) :
    μ {θ | ε ≤ |∑ v ∈ range data.rows, drawNoise data.rows (tree.weight data a (data.row v))
        (tree.rowProb data a (data.row v)) (A v) (L v θ)|} ≤
      ENNReal.ofReal (2 * exp (-(25 * ε ^ 2 / ∑ v ∈ range data.rows, tree.weight data a (data.row v) ^ 2))) := by
  have hW := draws_weight_pos (a := a) hn hc htree
  let _ : MeasurableSpace (List Int) := ⊤
  obtain ⟨F, hF⟩ : ∃ F : Fin data.rows → List Int → ℝ, F = fun v : Fin data.rows => drawNoise data.rows
    (tree.weight data a (data.row v)) (tree.rowProb data a (data.row v)) (A v) := ⟨_, rfl⟩
  have hY : iIndepFun (fun (v : Fin data.rows) θ => F v (L v θ)) μ :=
    hL.independent.comp F fun v => measurable_from_top
  have hh := Concentration.subgaussian_tail hY univ
    (fun v => Real.toNNReal (tree.weight data a (data.row v) ^ 2 / 50)) (fun v _ => by
      rw [hF]
      exact draws_subgaussian hn hc htree hL v.2 (A v) (b v) (hA v v.2)) ε hε
  refine le_trans (measure_mono fun θ hθ => ?_) (le_trans hh (le_of_eq ?_))
  · rw [Set.mem_ofPred_eq] at hθ ⊢
    rw [Finset.sum_range] at hθ
    rw [hF]
    exact hθ
  · have hpos : 0 < ∑ v ∈ range data.rows, tree.weight data a (data.row v) ^ 2 :=
      sum_pos (fun v _ => pow_pos (hW v) 2) ⟨0, mem_range.2 (by omega)⟩
    have e : ((∑ v : Fin data.rows, Real.toNNReal (tree.weight data a (data.row v) ^ 2 / 50) : NNReal) : ℝ)
        = (∑ v ∈ range data.rows, tree.weight data a (data.row v) ^ 2) / 50 := by
      rw [NNReal.coe_sum, Finset.sum_range, sum_div]
      exact sum_congr rfl fun v _ => Real.coe_toNNReal _ (by positivity)
    push_cast at e ⊢
    rw [e]
    congr 3
    field_simp
    norm_num

/-- The expected weight between `i` and `j` (C69). -/
noncomputable def expectedWeight (data : Mat ℝ) (a : ℝ) (tree : KdeTree) (i j : Nat) : ℝ :=
  2 / 5 * (tree.weight data a (data.row i) * tree.rowProb data a (data.row i) j
    + tree.weight data a (data.row j) * tree.rowProb data a (data.row j) i)

theorem bilinear_sum (n : Nat) (B x : Nat → Nat → ℝ) :
    ∑ i ∈ range n, ∑ j ∈ range n, B i j * (x i j + x j i) = ∑ i ∈ range n, ∑ j ∈ range n, (B i j + B j i) * x i j := by
  simp only [mul_add, add_mul, sum_add_distrib]
  rw [sum_comm (f := fun i j => B i j * x j i)]

theorem thr_sampled {n : Nat} {s : Nat → List Int} {W : Nat → ℝ} (hs : ∀ v < n, GoodSample n (s v))
    (hW : ∀ v < n, 5 * epsilon < W v) {i j : Nat} (hi : i < n) (hj : j < n) :
    thr (sampledWeight n (fun v k => ((s v).getD k 0).toNat) W i j)
      = W i / 5 * ((s i).count (j : Int)) + W j / 5 * ((s j).count (i : Int)) := by
  rw [sampledWeight_count _ _ _ _ _ hi hj fun v hv => ⟨(hs v hv).1, fun x hx => ((hs v hv).2 x hx).1⟩]
  have he : (0 : ℝ) < epsilon := by
    unfold epsilon
    norm_num
  have hbig : ∀ u < n, ∀ c : Nat, c ≠ 0 → epsilon < W u / 5 * (c : ℝ) := by
    intro u hu c hc
    have h1 : (1 : ℝ) ≤ c := by exact_mod_cast Nat.one_le_iff_ne_zero.2 hc
    have h2 := hW u hu
    nlinarith
  have hnn : ∀ u < n, ∀ c : Nat, 0 ≤ W u / 5 * (c : ℝ) := by
    intro u hu c
    have h2 := hW u hu
    have : 0 < W u := by linarith
    positivity
  unfold thr
  by_cases h1 : (s i).count (j : Int) = 0
  · by_cases h2 : (s j).count (i : Int) = 0
    · simp [h1, h2]
    · have := hbig j hj _ h2
      rw [if_pos (by linarith [hnn i hi ((s i).count (j : Int))])]
  · have := hbig i hi _ h1
    rw [if_pos (by linarith [hnn j hj ((s j).count (i : Int))])]

/-- A weighted sum of deviations of edge weights is a linear function of the samples. -/
theorem deviation_eq {n : Nat} {s : Nat → List Int} {w : Nat → Nat → ℝ}
    (hw : ∀ i < n, ∀ j < n, w i j = tree.weight data a (data.row i) / 5 * ((s i).count (j : Int))
      + tree.weight data a (data.row j) / 5 * ((s j).count (i : Int))) (B : Nat → Nat → ℝ) :
    ∑ i ∈ range n, ∑ j ∈ range n, B i j * (w i j - expectedWeight data a tree i j)
      = ∑ v ∈ range n, drawNoise n (tree.weight data a (data.row v)) (tree.rowProb data a (data.row v))
        (fun j => B v j + B j v) (s v) := by
  unfold drawNoise
  rw [← bilinear_sum n B (fun i j => tree.weight data a (data.row i) / 5 *
    (((s i).count (j : Int) : ℝ) - 2 * tree.rowProb data a (data.row i) j))]
  refine sum_congr rfl fun i hi => sum_congr rfl fun j hj => ?_
  rw [hw i (mem_range.1 hi) j (mem_range.1 hj)]
  unfold expectedWeight
  ring

theorem cut_as_sum {n : Nat} {S : Finset Nat} (hS : S ⊆ range n) (f : Nat → Nat → ℝ) :
    ∑ i ∈ range n, ∑ j ∈ range n, (if i ∈ S ∧ j ∉ S then (1 : ℝ) else 0) * f i j
      = ∑ i ∈ S, ∑ j ∈ range n \ S, f i j := by
  rw [← sum_subset hS]
  · refine sum_congr rfl fun i hi => ?_
    rw [← sum_subset (sdiff_subset (s := range n) (t := S))]
    · refine sum_congr rfl fun j hj => ?_
      rw [if_pos ⟨hi, (mem_sdiff.1 hj).2⟩, one_mul]
    · intro j hj hn
      rw [if_neg, zero_mul]
      rintro ⟨-, h⟩
      exact hn (mem_sdiff.2 ⟨hj, h⟩)
  · intro i _ hn
    refine sum_eq_zero fun j _ => ?_
    rw [if_neg (fun h => hn h.1), zero_mul]

theorem rows_as_sum {n : Nat} {S : Finset Nat} (hS : S ⊆ range n) (f : Nat → Nat → ℝ) :
    ∑ i ∈ range n, ∑ j ∈ range n, (if i ∈ S then (1 : ℝ) else 0) * f i j = ∑ i ∈ S, ∑ j ∈ range n, f i j := by
  rw [← sum_subset hS]
  · refine sum_congr rfl fun i hi => sum_congr rfl fun j _ => ?_
    rw [if_pos hi, one_mul]
  · intro i _ hn
    refine sum_eq_zero fun j _ => ?_
    rw [if_neg hn, zero_mul]

/-- **C97** (several cuts at once).  If the samples of the rows are independent (and no estimated degree is below
`5 * EPSILON`), then except with probability `4 |F| exp (-25 ε² / Σ deg²)`, whatever the schedule,
`approximate_similarity_graph` returns a graph in which for every set `S` of a family `F` (for instance one
set, or all `2 ^ n` sets) the total weight leaving `S` and the
total weight at `S` are within `ε` of the sums of the expected weights of C69. -/
theorem C97_cuts [IsProbabilityMeasure μ] (threads : Nat) (ht : 0 < threads) (hn : 2 ≤ data.rows)
    (hc : data.rows ≤ cutoff ∨ (2 ≤ cutoff ∧ ∀ lo hi q, 0 < est lo hi q))
    (htree : tree = KdeTree.build est cutoff 0 0 (data.rows - 1) 0)
    (hW : ∀ v < data.rows, 5 * epsilon < tree.weight data a (data.row v))
    (hL : IndependentDraws μ data a tree L) (F : Finset (Finset Nat)) (hF : ∀ S ∈ F, S ⊆ range data.rows) (ε : ℝ)
    (hε : 0 < ε) :
    μ {θ | ¬ ∃ g : Graph ℝ,
        (∃ out, AsgFrom data.rows threads 2 (fun v => tree.weight data a (data.row v)) (fun v => L v θ) out) ∧
        (∀ out, AsgFrom data.rows threads 2 (fun v => tree.weight data a (data.row v)) (fun v => L v θ) out → out = .ok g) ∧
        g.Valid ∧ g.Pruned ∧ g.n = data.rows ∧ ∀ S ∈ F,
          |g.abs.cut S - ∑ u ∈ S, ∑ v ∈ range data.rows \ S, expectedWeight data a tree u v| < ε ∧
          |∑ u ∈ S, ∑ v ∈ range data.rows, g.abs.w u v - ∑ u ∈ S, ∑ v ∈ range data.rows, expectedWeight data a tree u v|
            < ε} ≤
      ENNReal.ofReal (4 * F.card *
        exp (-(25 * ε ^ 2 / ∑ v ∈ range data.rows, tree.weight data a (data.row v) ^ 2))) := by
  have hpos := draws_weight_pos (a := a) hn hc htree
  have hgood := draws_good hn htree hL
  obtain ⟨T, hT⟩ : ∃ T : ℝ, T = exp (-(25 * ε ^ 2 / ∑ v ∈ range data.rows, tree.weight data a (data.row v) ^ 2)) :=
    ⟨_, rfl⟩
  obtain ⟨D, hD⟩ : ∃ D : (Nat → Nat → ℝ) → Set Θ, D = fun B => {θ | ε ≤ |∑ v ∈ range data.rows, drawNoise data.rows
      (tree.weight data a (data.row v)) (tree.rowProb data a (data.row v)) (fun j => B v j + B j v) (L v θ)|} := ⟨_, rfl⟩
  have tail1 : ∀ S : Finset Nat, μ (D fun i j => if i ∈ S ∧ j ∉ S then (1 : ℝ) else 0) ≤ ENNReal.ofReal (2 * T) := by
    intro S
    rw [hD, hT]
    refine draws_tail hn hc htree hL _ (fun _ => 0) (fun v _ j _ => ?_) ε hε
    by_cases h1 : v ∈ S <;> by_cases h2 : j ∈ S <;> simp [h1, h2]
  have tail2 : ∀ S : Finset Nat, μ (D fun i _ => if i ∈ S then (1 : ℝ) else 0) ≤ ENNReal.ofReal (2 * T) := by
    intro S
    rw [hD, hT]
    refine draws_tail hn hc htree hL _ (fun v => if v ∈ S then 1 else 0) (fun v _ j _ => ?_) ε hε
    by_cases h1 : v ∈ S <;> by_cases h2 : j ∈ S <;> simp [h1, h2]
  rw [← hT]
  have hnull : μ {θ | ¬ ∀ v < data.rows, GoodSample data.rows (L v θ)} = 0 := ae_iff.1 hgood
  have hsub : {θ | ¬ ∃ g : Graph ℝ,
        (∃ out, AsgFrom data.rows threads 2 (fun v => tree.weight data a (data.row v)) (fun v => L v θ) out) ∧
        (∀ out, AsgFrom data.rows threads 2 (fun v => tree.weight data a (data.row v)) (fun v => L v θ) out → out = .ok g) ∧
        g.Valid ∧ g.Pruned ∧ g.n = data.rows ∧ ∀ S ∈ F,
          |g.abs.cut S - ∑ u ∈ S, ∑ v ∈ range data.rows \ S, expectedWeight data a tree u v| < ε ∧
          |∑ u ∈ S, ∑ v ∈ range data.rows, g.abs.w u v - ∑ u ∈ S, ∑ v ∈ range data.rows, expectedWeight data a tree u v|
            < ε} ⊆
      {θ | ¬ ∀ v < data.rows, GoodSample data.rows (L v θ)} ∪
      ⋃ S ∈ F, ((D fun i j => if i ∈ S ∧ j ∉ S then (1 : ℝ) else 0) ∪
        (D fun i _ => if i ∈ S then (1 : ℝ) else 0)) := by
    intro θ hθ
    by_contra hno
    simp only [Set.mem_union, Set.mem_iUnion, not_or, not_exists, Set.mem_ofPred_eq, not_not] at hno
    obtain ⟨hg, hS⟩ := hno
    apply hθ
    obtain ⟨hex, g, hout, hv, hpr, habs⟩ := asgFrom_graph (n := data.rows) (ss := fun v => L v θ) ht hpos hg
    have hgn : g.n = data.rows := congrArg WGraph.n habs
    have hw : ∀ i < data.rows, ∀ j < data.rows, g.abs.w i j = tree.weight data a (data.row i) / 5 *
        ((L i θ).count (j : Int)) + tree.weight data a (data.row j) / 5 * ((L j θ).count (i : Int)) := by
      intro i hi j hj
      rw [habs]
      exact thr_sampled (s := fun v => L v θ) hg hW hi hj
    refine ⟨g, hex, hout, hv, hpr, hgn, fun S hSF => ?_⟩
    have hSr := hF S hSF
    obtain ⟨n1, n2⟩ := hS S hSF
    rw [hD] at n1 n2
    simp only [Set.mem_ofPred_eq, not_le] at n1 n2
    have d1 := deviation_eq hw (fun i j => if i ∈ S ∧ j ∉ S then (1 : ℝ) else 0)
    have d2 := deviation_eq hw (fun i _ => if i ∈ S then (1 : ℝ) else 0)
    rw [← d1, cut_as_sum hSr (fun i j => g.abs.w i j - expectedWeight data a tree i j)] at n1
    rw [← d2, rows_as_sum hSr (fun i j => g.abs.w i j - expectedWeight data a tree i j)] at n2
    simp only [sum_sub_distrib] at n1 n2
    refine ⟨?_, n2⟩
    unfold WGraph.cut
    rw [show g.abs.n = data.rows from hgn]
    exact n1
  refine le_trans (measure_mono hsub) (le_trans (measure_union_le _ _) ?_)
  rw [hnull, zero_add]
  refine le_trans (measure_biUnion_finset_le _ _) ?_
  have hT0 : 0 ≤ T := hT ▸ (exp_pos _).le
  calc _ ≤ ∑ S ∈ F, ENNReal.ofReal (4 * T) := sum_le_sum fun S _ =>
          le_trans (measure_union_le _ _) (le_trans (add_le_add (tail1 S) (tail2 S)) (le_of_eq (by
            rw [← ENNReal.ofReal_add (by positivity) (by positivity)]
            congr 1
            ring)))
    _ = _ := by
      rw [sum_const, nsmul_eq_mul, ← ENNReal.ofReal_natCast,
        ← ENNReal.ofReal_mul (Nat.cast_nonneg _)]
      congr 1
      push_cast
      ring


/-! ## Data in one leaf -/

/-- The total kernel between row `u` and all rows (`u` included). -/
noncomputable def kernelDegree (data : Mat ℝ) (a : ℝ) (u : Nat) : ℝ := ∑ v ∈ range data.rows, kernelRow data a (data.row u) v

/-- The average of the total kernels. -/
noncomputable def averageKernelDegree (data : Mat ℝ) (a : ℝ) : ℝ :=
  (∑ u ∈ range data.rows, kernelDegree data a u) / data.rows

theorem kernelBelow_sum (data : Mat ℝ) (a : ℝ) (q : List ℝ) {W : ℝ} (hW : 0 ≤ W) (m : Nat) :
    ∑ j ∈ range m, kernelBelow data a q 0 W j = min (kernelBefore data a q 0 m) W := by
  have e : ∀ j ∈ range m, kernelBelow data a q 0 W j
      = min (kernelBefore data a q 0 (j + 1)) W - min (kernelBefore data a q 0 j) W := by
    intro j _
    have hs := kernelBefore_succ data a q (Nat.zero_le j)
    have hk := kernelRow_pos data a q j
    unfold kernelBelow
    rcases le_total (kernelBefore data a q 0 j) W with h | h
    · rw [min_eq_left h, max_eq_right]
      have := le_min (by linarith : kernelBefore data a q 0 j ≤ kernelBefore data a q 0 (j + 1)) h
      linarith
    · rw [min_eq_right h, min_eq_right (by linarith), max_eq_left (by linarith), sub_self]
  rw [sum_congr rfl e, sum_range_sub (fun j => min (kernelBefore data a q 0 j) W)]
  have : kernelBefore data a q 0 0 = 0 := by simp [kernelBefore]
  rw [this, min_eq_left hW, sub_zero]

theorem leaf_weight (hn : 2 ≤ data.rows) (hc : data.rows ≤ cutoff)
    (htree : tree = KdeTree.build est cutoff 0 0 (data.rows - 1) 0) (u : Nat) :
    tree.weight data a (data.row u) = ((data.rows : ℝ) - 1) / data.rows * kernelDegree data a u := by
  rw [htree]
  exact C52_degrees data a cutoff est hn hc u

theorem one_le_kernelDegree (data : Mat ℝ) (a : ℝ) {u : Nat} (hu : u < data.rows) : 1 ≤ kernelDegree data a u := by
  have h : kernelRow data a (data.row u) u ≤ kernelDegree data a u :=
    single_le_sum (f := fun v => kernelRow data a (data.row u) v) (fun v _ => (kernelRow_pos _ _ _ _).le) (mem_range.2 hu)
  have e : kernelRow data a (data.row u) u = 1 := by
    unfold kernelRow
    rw [sqDist_self]
    simp
  linarith

/-- What the estimated degree of a leaf misses: the parts of the kernel values above it. -/
theorem leaf_missing (hn : 2 ≤ data.rows) (hc : data.rows ≤ cutoff)
    (htree : tree = KdeTree.build est cutoff 0 0 (data.rows - 1) 0) (hpos : ∀ v, 0 < tree.weight data a (data.row v))
    (u : Nat) (J : Finset Nat) (hJ : J ⊆ range data.rows) :
    0 ≤ ∑ v ∈ J, (kernelRow data a (data.row u) v - tree.weight data a (data.row u) * tree.rowProb data a (data.row u) v) ∧
    ∑ v ∈ J, (kernelRow data a (data.row u) v - tree.weight data a (data.row u) * tree.rowProb data a (data.row u) v)
      ≤ kernelDegree data a u / data.rows := by
  have hleaf : tree = KdeTree.leaf 0 (data.rows - 1) := by
    rw [htree, KdeTree.build, if_neg (by omega)]
  have hprod : ∀ v, v < data.rows → tree.weight data a (data.row u) * tree.rowProb data a (data.row u) v
      = kernelBelow data a (data.row u) 0 (tree.weight data a (data.row u)) v := by
    intro v hv
    have hne := (hpos u).ne'
    rw [hleaf] at hne ⊢
    rw [KdeTree.rowProb, if_pos (by omega), if_neg (by omega), mul_div_cancel₀ _ hne]
  have hterm : ∀ v ∈ range data.rows,
      0 ≤ kernelRow data a (data.row u) v - tree.weight data a (data.row u) * tree.rowProb data a (data.row u) v := by
    intro v hv
    rw [hprod v (mem_range.1 hv)]
    linarith [kernelBelow_le data a (data.row u) (tree.weight data a (data.row u)) (Nat.zero_le v)]
  refine ⟨sum_nonneg fun v hv => hterm v (hJ hv), le_trans (sum_le_sum_of_subset_of_nonneg hJ fun v hv _ => hterm v hv) ?_⟩
  rw [sum_sub_distrib, sum_congr rfl fun v hv => hprod v (mem_range.1 hv), kernelBelow_sum _ _ _ (hpos u).le]
  have e : kernelBefore data a (data.row u) 0 data.rows = kernelDegree data a u := by
    unfold kernelBefore kernelDegree
    rw [range_eq_Ico]
  have hw := leaf_weight (a := a) hn hc htree u
  have hr : (0 : ℝ) < data.rows := by exact_mod_cast (by omega : 0 < data.rows)
  have hd : tree.weight data a (data.row u) = kernelDegree data a u - kernelDegree data a u / data.rows := by
    rw [hw]
    field_simp
  have hk : 0 ≤ kernelDegree data a u := sum_nonneg fun v _ => (kernelRow_pos _ _ _ _).le
  rw [e, min_eq_right (by rw [hd]; have : 0 ≤ kernelDegree data a u / data.rows := by positivity
                          linarith), hd]
  unfold kernelDegree
  linarith

theorem leaf_weight_big (hn : 2 ≤ data.rows) (hc : data.rows ≤ cutoff)
    (htree : tree = KdeTree.build est cutoff 0 0 (data.rows - 1) 0) {u : Nat} (hu : u < data.rows) :
    1 / 2 ≤ tree.weight data a (data.row u) := by
  rw [leaf_weight hn hc htree]
  have h1 := one_le_kernelDegree data a hu
  have hr : (2 : ℝ) ≤ data.rows := by exact_mod_cast hn
  have h2 : (1 : ℝ) / 2 ≤ ((data.rows : ℝ) - 1) / data.rows := by
    rw [le_div_iff₀ (by linarith)]
    linarith
  nlinarith

/-- For data in one leaf the expected weight between two sets is 4/5 of the kernel between them, up to 2/5 of what the
rows concerned miss. -/
theorem leaf_expected (hn : 2 ≤ data.rows) (hc : data.rows ≤ cutoff)
    (htree : tree = KdeTree.build est cutoff 0 0 (data.rows - 1) 0) (hpos : ∀ v, 0 < tree.weight data a (data.row v))
    (S T : Finset Nat) (hS : S ⊆ range data.rows) (hT : T ⊆ range data.rows) :
    ∑ u ∈ S, ∑ v ∈ T, expectedWeight data a tree u v ≤ 4 / 5 * ∑ u ∈ S, ∑ v ∈ T, kernelRow data a (data.row u) v ∧
    4 / 5 * ∑ u ∈ S, ∑ v ∈ T, kernelRow data a (data.row u) v
        - 2 / 5 * (∑ u ∈ S, kernelDegree data a u / data.rows + ∑ u ∈ T, kernelDegree data a u / data.rows)
      ≤ ∑ u ∈ S, ∑ v ∈ T, expectedWeight data a tree u v := by
  have key : 4 / 5 * ∑ u ∈ S, ∑ v ∈ T, kernelRow data a (data.row u) v - ∑ u ∈ S, ∑ v ∈ T, expectedWeight data a tree u v
      = 2 / 5 * (∑ u ∈ S, ∑ v ∈ T, (kernelRow data a (data.row u) v - tree.weight data a (data.row u) *
          tree.rowProb data a (data.row u) v)
        + ∑ u ∈ T, ∑ v ∈ S, (kernelRow data a (data.row u) v - tree.weight data a (data.row u) *
          tree.rowProb data a (data.row u) v)) := by
    rw [sum_comm (s := T) (t := S), ← sum_add_distrib, mul_sum, mul_sum, ← sum_sub_distrib]
    refine sum_congr rfl fun u _ => ?_
    rw [← sum_add_distrib, mul_sum, mul_sum, ← sum_sub_distrib]
    refine sum_congr rfl fun v _ => ?_
    unfold expectedWeight
    rw [kernelRow_comm data a v u]
    ring
  have m1 : ∀ u, _ := fun u => leaf_missing hn hc htree hpos u T hT
  have m2 : ∀ u, _ := fun u => leaf_missing hn hc htree hpos u S hS
  have a1 := sum_nonneg fun u (_ : u ∈ S) => (m1 u).1
  have a2 := sum_nonneg fun u (_ : u ∈ T) => (m2 u).1
  have b1 := sum_le_sum fun u (_ : u ∈ S) => (m1 u).2
  have b2 := sum_le_sum fun u (_ : u ∈ T) => (m2 u).2
  constructor <;> linarith

/-- **C97** (several cuts at once, data in one leaf, which by default means at most 5000 rows).  Except with probability
`4 |F| exp (-25 ε² / Σ K_u²)`, where `K_u` is the total kernel between row `u` and all rows: for every set
`S` of a family `F`, the total weight leaving `S` in the graph returned by `approximate_similarity_graph` is 4/5 of that in the
complete similarity graph, up to `ε` and 2/5 of the average of the `K_u`; and the total weight at `S` is 4/5 of that in
the complete graph up to `ε` and 4/5 of the average. -/
theorem C97_similarity [IsProbabilityMeasure μ] (threads : Nat) (ht : 0 < threads) (hn : 2 ≤ data.rows)
    (hc : data.rows ≤ cutoff) (htree : tree = KdeTree.build est cutoff 0 0 (data.rows - 1) 0)
    (hL : IndependentDraws μ data a tree L) (F : Finset (Finset Nat)) (hF : ∀ S ∈ F, S ⊆ range data.rows) (ε : ℝ)
    (hε : 0 < ε) :
    μ {θ | ¬ ∃ g : Graph ℝ,
        (∃ out, AsgFrom data.rows threads 2 (fun v => tree.weight data a (data.row v)) (fun v => L v θ) out) ∧
        (∀ out, AsgFrom data.rows threads 2 (fun v => tree.weight data a (data.row v)) (fun v => L v θ) out → out = .ok g) ∧
        g.Valid ∧ g.Pruned ∧ g.n = data.rows ∧ ∀ S ∈ F,
          |g.abs.cut S - 4 / 5 * ∑ u ∈ S, ∑ v ∈ range data.rows \ S, exp (-(a * sqDist (data.row u) (data.row v)))|
            < ε + 2 / 5 * averageKernelDegree data a ∧
          |∑ u ∈ S, ∑ v ∈ range data.rows, g.abs.w u v
              - 4 / 5 * ∑ u ∈ S, ∑ v ∈ range data.rows, exp (-(a * sqDist (data.row u) (data.row v)))|
            < ε + 4 / 5 * averageKernelDegree data a} ≤
      ENNReal.ofReal (4 * F.card *
        exp (-(25 * ε ^ 2 / ∑ u ∈ range data.rows, kernelDegree data a u ^ 2))) := by
  have hc' : AsgOk data est cutoff := .inl hc
  have hpos := draws_weight_pos (a := a) hn hc' htree
  have heps : 5 * (epsilon : ℝ) < 1 / 2 := by
    unfold epsilon
    norm_num
  have hr : (0 : ℝ) < data.rows := by exact_mod_cast (by omega : 0 < data.rows)
  have hkd : ∀ u, 0 ≤ kernelDegree data a u := fun u => sum_nonneg fun v _ => (kernelRow_pos _ _ _ _).le
  have h := C97_cuts threads ht hn (.inl hc) htree (fun v hv => lt_of_lt_of_le heps (leaf_weight_big hn hc htree hv)) hL F hF ε hε
  refine le_trans (measure_mono fun θ hθ => ?_) (le_trans h (ENNReal.ofReal_le_ofReal ?_))
  · rw [Set.mem_ofPred_eq] at hθ ⊢
    refine fun hex => hθ ?_
    obtain ⟨g, h1, h2, h3, hpr, h4, h5⟩ := hex
    refine ⟨g, h1, h2, h3, hpr, h4, fun S hSF => ?_⟩
    obtain ⟨c1, c2⟩ := h5 S hSF
    have hS := hF S hSF
    have d1 := leaf_expected hn hc htree hpos S (range data.rows \ S) hS sdiff_subset
    have d2 := leaf_expected hn hc htree hpos S (range data.rows) hS (subset_refl _)
    have e1 : ∑ u ∈ S, kernelDegree data a u / data.rows + ∑ u ∈ range data.rows \ S, kernelDegree data a u / data.rows
        = averageKernelDegree data a := by
      rw [add_comm, sum_sdiff hS, averageKernelDegree, sum_div]
    have e2 : ∑ u ∈ range data.rows, kernelDegree data a u / data.rows = averageKernelDegree data a := by
      rw [averageKernelDegree, sum_div]
    have e3 : 0 ≤ ∑ u ∈ range data.rows \ S, kernelDegree data a u / data.rows :=
      sum_nonneg fun u _ => div_nonneg (hkd u) hr.le
    rw [e1] at d1
    rw [e2] at d2
    have hA : 0 ≤ averageKernelDegree data a := div_nonneg (sum_nonneg fun u _ => hkd u) hr.le
    rw [abs_lt] at c1 c2 ⊢
    rw [abs_lt]
    change _ ≤ 4 / 5 * ∑ u ∈ S, ∑ v ∈ range data.rows \ S, exp (-(a * sqDist (data.row u) (data.row v))) ∧
      4 / 5 * ∑ u ∈ S, ∑ v ∈ range data.rows \ S, exp (-(a * sqDist (data.row u) (data.row v))) - _ ≤ _ at d1
    change _ ≤ 4 / 5 * ∑ u ∈ S, ∑ v ∈ range data.rows, exp (-(a * sqDist (data.row u) (data.row v))) ∧
      4 / 5 * ∑ u ∈ S, ∑ v ∈ range data.rows, exp (-(a * sqDist (data.row u) (data.row v))) - _ ≤ _ at d2
    refine ⟨⟨?_, ?_⟩, ?_, ?_⟩ <;> linarith [c1.1, c1.2, c2.1, c2.2, d1.1, d1.2, d2.1, d2.2]
  · have hle : ∑ v ∈ range data.rows, tree.weight data a (data.row v) ^ 2 ≤ ∑ u ∈ range data.rows, kernelDegree data a u ^ 2 := by
      refine sum_le_sum fun u _ => ?_
      have hw : tree.weight data a (data.row u) ≤ kernelDegree data a u := by
        rw [leaf_weight hn hc htree]
        have : ((data.rows : ℝ) - 1) / data.rows ≤ 1 := by
          rw [div_le_one hr]
          linarith
        nlinarith [hkd u]
      exact pow_le_pow_left₀ (hpos u).le hw 2
    have hp : 0 < ∑ v ∈ range data.rows, tree.weight data a (data.row v) ^ 2 :=
      sum_pos (fun v _ => pow_pos (hpos v) 2) ⟨0, mem_range.2 (by omega)⟩
    gcongr

/-- **C97** (what the samples have to do with the call).  The possible results of the call are the results of building
the graph from possible samples. -/
theorem C97_runs (threads : Nat) (hn : 2 ≤ data.rows)
    (hc : data.rows ≤ cutoff ∨ (2 ≤ cutoff ∧ ∀ lo hi q, 0 < est lo hi q))
    (htree : tree = KdeTree.build est cutoff 0 0 (data.rows - 1) 0) (out : Outcome (Graph ℝ)) :
    ApproxSimilarityGraph data a cutoff threads est out ↔
      ∃ ss : Nat → List Int, (∀ v < data.rows, tree.Sample data a (data.row v) 2 (.ok (ss v))) ∧
        AsgFrom data.rows threads 2 (fun v => tree.weight data a (data.row v)) ss out := by
  have hdc : ⌊Real.log ((2 : Nat) : ℝ)⌋ = 0 := by
    rw [Int.floor_eq_zero_iff, Set.mem_Ico]
    have h1 := Real.log_two_gt_d9
    have h2 := Real.log_two_lt_d9
    push_cast
    constructor <;> linarith
  have hcut : ¬ (cutoff = 0 ∨ (2 : Nat) = 0) := by omega
  have hD := fun v => C52_samples_defined data a (data.row v) est cutoff 0 0 (data.rows - 1) 0 2
    (by omega) (by omega) (AsgOk.leaf hn hc)
  unfold ApproxSimilarityGraph
  simp only [edgesPerNode_eq _ hn, hdc]
  simp only [if_neg hcut]
  subst htree
  constructor
  · rintro ⟨samples, hsam, ⟨⟨i, hi, hub⟩, -⟩ | ⟨ss, hss, hout⟩⟩
    · exact absurd hub ((hD i).2 _ (hsam i hi))
    · exact ⟨ss, fun v hv => hss v hv ▸ hsam v hv, hout⟩
  · rintro ⟨ss, hss, hout⟩
    exact ⟨fun v => .ok (ss v), hss, .inr ⟨ss, fun _ _ => rfl, hout⟩⟩

theorem list_sum_finset {S : List Nat} (hd : S.Nodup) (f : Nat → ℝ) : (S.map f).sum = ∑ u ∈ S.toFinset, f u :=
  (List.sum_toFinset f hd).symm

/-- **C97** (conductance).  With the probability of `C97_similarity`, and with `η = ε + 4/5` of the average total kernel:
for every duplicate-free list of the rows of a set of the family whose total kernel is above `5/4 η`, `conductance` on the graph returned by
`approximate_similarity_graph` answers a number between `(4/5 c - η) / (4/5 v + η)` and `(4/5 c + η) / (4/5 v - η)`,
where `c / v` is the conductance in the complete similarity graph. -/
theorem C97_conductance [IsProbabilityMeasure μ] (threads : Nat) (ht : 0 < threads) (hn : 2 ≤ data.rows)
    (hc : data.rows ≤ cutoff) (htree : tree = KdeTree.build est cutoff 0 0 (data.rows - 1) 0)
    (hL : IndependentDraws μ data a tree L) (F : Finset (Finset Nat)) (hF : ∀ S ∈ F, S ⊆ range data.rows) (ε : ℝ)
    (hε : 0 < ε) (η : ℝ) (hη : η = ε + 4 / 5 * averageKernelDegree data a) :
    μ {θ | ¬ ∃ g : Graph ℝ,
        (∃ out, AsgFrom data.rows threads 2 (fun v => tree.weight data a (data.row v)) (fun v => L v θ) out) ∧
        (∀ out, AsgFrom data.rows threads 2 (fun v => tree.weight data a (data.row v)) (fun v => L v θ) out → out = .ok g) ∧
        ∀ (S : List Nat) (c v : ℝ), S.Nodup → S.toFinset ∈ F →
          c = ∑ u ∈ S.toFinset, ∑ v ∈ range data.rows \ S.toFinset, exp (-(a * sqDist (data.row u) (data.row v))) →
          v = ∑ u ∈ S.toFinset, ∑ v ∈ range data.rows, exp (-(a * sqDist (data.row u) (data.row v))) →
          η < 4 / 5 * v →
          ∃ φ, conductance g.asLocal (S.map fun u : Nat => (u : Int)) = .ok φ ∧
            (4 / 5 * c - η) / (4 / 5 * v + η) ≤ φ ∧ φ ≤ (4 / 5 * c + η) / (4 / 5 * v - η)} ≤
      ENNReal.ofReal (4 * F.card *
        exp (-(25 * ε ^ 2 / ∑ u ∈ range data.rows, kernelDegree data a u ^ 2))) := by
  refine le_trans (measure_mono fun θ hθ => ?_) (C97_similarity threads ht hn hc htree hL F hF ε hε)
  rw [Set.mem_ofPred_eq] at hθ ⊢
  refine fun hex => hθ ?_
  obtain ⟨g, h1, h2, h3, hpr, h4, h5⟩ := hex
  refine ⟨g, h1, h2, fun S c v hd hS hcc hvv hbig => ?_⟩
  obtain ⟨c1, c2⟩ := h5 S.toFinset hS
  replace hS : ∀ u ∈ S, u < data.rows := fun u hu => mem_range.1 (hF _ hS (List.mem_toFinset.2 hu))
  have hr : (0 : ℝ) < data.rows := by exact_mod_cast (by omega : 0 < data.rows)
  have hA : 0 ≤ averageKernelDegree data a :=
    div_nonneg (sum_nonneg fun u _ => sum_nonneg fun v _ => (kernelRow_pos _ _ _ _).le) hr.le
  rw [← hcc] at c1
  rw [← hvv] at c2
  rw [abs_lt] at c1 c2
  have hval := C33_value (Graph.asLocal_answers h3) S (fun u hu => by rw [show g.abs.n = data.rows from h4]; exact hS u hu)
  rw [list_sum_finset hd, list_sum_finset hd, show g.abs.n = data.rows from h4] at hval
  unfold WGraph.cut at c1
  rw [show g.abs.n = data.rows from h4] at c1
  generalize hX : ∑ u ∈ S.toFinset, ∑ v ∈ range data.rows \ S.toFinset, g.abs.w u v = X at *
  generalize hY : ∑ u ∈ S.toFinset, ∑ v ∈ range data.rows, g.abs.w u v = Y at *
  have hY0 : 0 < Y := by linarith [c2.1]
  have hX0 : 0 ≤ X := by
    rw [← hX]
    exact sum_nonneg fun u _ => sum_nonneg fun v _ => hpr.nonneg u v
  rw [if_neg hY0.ne'] at hval
  refine ⟨X / Y, hval, ?_, ?_⟩
  · rw [div_le_div_iff₀ (by linarith) hY0]
    rcases le_total (4 / 5 * c - η) 0 with hz | hz
    · exact le_trans (mul_nonpos_of_nonpos_of_nonneg hz hY0.le) (mul_nonneg hX0 (by linarith))
    · exact mul_le_mul (by linarith [c1.1]) (by linarith [c2.2]) hY0.le hX0
  · rw [div_le_div_iff₀ hY0 (by linarith)]
    exact mul_le_mul (by linarith [c1.2]) (by linarith [c2.1]) (by linarith) (by linarith [c1.2])
end

/-! ## Examples -/

/-- Independent samples exist, for all data. -/
theorem draws_independent_exist (data : Mat ℝ) (a : ℝ) (est : Nat → Nat → List ℝ → ℝ) (cutoff : Nat) (hn : 2 ≤ data.rows)
    (hc : AsgOk data est cutoff) : ∃ (Θ : Type) (_ : MeasurableSpace Θ) (μ : Measure Θ) (L : Nat → Θ → List Int),
      IsProbabilityMeasure μ ∧ IndependentDraws μ data a (KdeTree.build est cutoff 0 0 (data.rows - 1) 0) L := by
  have h := fun v => C69_draws data a (data.row v) est cutoff 0 0 (data.rows - 1) 0 (by omega) (by omega) (hc.leaf hn)
  choose p hp _ using h
  choose P hP _ using fun v => hp v 2
  let _ : MeasurableSpace (List Int) := ⊤
  have : DiscreteMeasurableSpace (List Int) := ⟨fun _ => trivial⟩
  refine ⟨Nat → List Int, inferInstance, Measure.infinitePi fun v => (P v).toMeasure, fun v θ => θ v, inferInstance, ?_⟩
  refine ⟨fun v _ l => (measurable_pi_apply (X := fun _ : Nat => List Int) v) (measurableSet_singleton l), ?_, fun v _ l => ?_⟩
  · exact (iIndepFun_infinitePi (P := fun v => (P v).toMeasure) (X := fun _ => id) fun _ => measurable_id).precomp
      (g := fun v : Fin data.rows => (v : Nat)) Fin.val_injective
  · have h1 := Measure.infinitePi_map_eval (fun v => (P v).toMeasure) v
    have h2 : (Measure.infinitePi fun v => (P v).toMeasure) {θ | θ v = l} = (P v).toMeasure {l} := by
      rw [← h1, Measure.map_apply (measurable_pi_apply v) (measurableSet_singleton l)]
      rfl
    rw [h2, PMF.toMeasure_apply_singleton _ _ (measurableSet_singleton l), hP v, PMF.map_apply, tsum_eq_single l]
    · simp
    · intro b hb
      rw [if_neg]
      intro e
      cases e
      exact hb rfl

/-- One thousand equal points and the set of the first five hundred: except with probability `1 / 1000` the weight
leaving the set is between 148000 and 252000 (the kernel between the halves is 250000, and 4/5 of it is 200000). -/
example : ∃ (Θ : Type) (_ : MeasurableSpace Θ) (μ : Measure Θ) (L : Nat → Θ → List Int) (est : Nat → Nat → List ℝ → ℝ)
    (data : Mat ℝ) (tree : KdeTree), IsProbabilityMeasure μ ∧ data.rows = 1000 ∧
    tree = KdeTree.build est 5000 0 0 (data.rows - 1) 0 ∧ IndependentDraws μ data 1 tree L ∧
    μ {θ | ¬ ∃ g : Graph ℝ,
        (∀ out, AsgFrom data.rows 4 2 (fun v => tree.weight data 1 (data.row v)) (fun v => L v θ) out → out = .ok g) ∧
        148000 < g.abs.cut (range 500) ∧ g.abs.cut (range 500) < 252000} ≤ ENNReal.ofReal (1 / 1000) := by
  obtain ⟨data, hd⟩ : ∃ data : Mat ℝ, data = ⟨1000, 0, []⟩ := ⟨_, rfl⟩
  have hrows : data.rows = 1000 := by rw [hd]
  obtain ⟨Θ, hΘ, μ, L, hμ, hL⟩ := draws_independent_exist data 1 (fun _ _ _ => 0) 5000 (by rw [hrows]; norm_num)
    (.inl (by rw [hrows]; norm_num))
  refine ⟨Θ, hΘ, μ, L, fun _ _ _ => 0, data, _, hμ, hrows, rfl, hL, ?_⟩
  have hk : ∀ u v, exp (-(1 * sqDist (data.row u) (data.row v))) = 1 := by
    intro u v
    rw [hd]
    simp [Mat.row, sqDist]
  have hK : ∀ u, kernelDegree data 1 u = 1000 := by
    intro u
    unfold kernelDegree kernelRow
    rw [sum_congr rfl fun v _ => hk u v, sum_const, card_range, hrows]
    norm_num
  have hA : averageKernelDegree data 1 = 1000 := by
    unfold averageKernelDegree
    rw [sum_congr rfl fun u _ => hK u, sum_const, card_range, hrows]
    norm_num
  refine le_trans (measure_mono fun θ hθ => ?_) (le_trans (C97_similarity (L := L) 4 (by norm_num) (by rw [hrows]; norm_num)
    (by rw [hrows]; norm_num) rfl hL {range 500} (by
      intro S hS
      rw [mem_singleton.1 hS, hrows]
      exact range_subset_range.2 (by norm_num)) 51000 (by norm_num)) (ENNReal.ofReal_le_ofReal ?_))
  · rw [Set.mem_ofPred_eq] at hθ ⊢
    refine fun hex => hθ ?_
    obtain ⟨g, -, h2, -, -, -, h5⟩ := hex
    refine ⟨g, h2, ?_⟩
    have h6 := (h5 _ (mem_singleton_self _)).1
    have e : ∑ u ∈ range 500, ∑ v ∈ range data.rows \ range 500, exp (-(1 * sqDist (data.row u) (data.row v))) = 250000 := by
      rw [sum_congr rfl fun u _ => sum_congr rfl fun v _ => hk u v]
      rw [sum_const, sum_const, hrows, card_sdiff_of_subset (range_subset_range.2 (by norm_num)), card_range, card_range]
      norm_num
    rw [e, hA, abs_lt] at h6
    constructor <;> linarith [h6.1, h6.2]
  · rw [card_singleton, hrows, sum_congr rfl fun u _ => by rw [hK u], sum_const, card_range]
    have h1 : (25 : ℝ) * 51000 ^ 2 / (1000 • (1000 : ℝ) ^ 2) = 65.025 := by norm_num
    rw [h1]
    have h2 : exp (-65.025) ≤ exp (-(9 : Nat)) := exp_le_exp.2 (by norm_num)
    have h3 : exp (-((9 : Nat) : ℝ)) = (exp 1)⁻¹ ^ 9 := by
      rw [inv_pow, ← exp_nat_mul, exp_neg, mul_one]
    have h4 : (exp 1)⁻¹ ≤ (2 : ℝ)⁻¹ * (10 / 13) := by
      rw [inv_le_comm₀ (exp_pos 1) (by norm_num)]
      have := exp_one_gt_d9
      norm_num at this ⊢
      linarith
    have h5 : (exp 1)⁻¹ ^ 9 ≤ ((2 : ℝ)⁻¹ * (10 / 13)) ^ 9 := pow_le_pow_left₀ (inv_pos.2 (exp_pos 1)).le h4 9
    have h6 : ((2 : ℝ)⁻¹ * (10 / 13)) ^ 9 ≤ 1 / 4000 := by norm_num
    have h7 : exp (-65.025) ≤ 1 / 4000 := le_trans h2 (by rw [h3]; exact le_trans h5 h6)
    push_cast
    linarith

end Stag
