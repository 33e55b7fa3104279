import Verif.Props.SbmConsistent
import Verif.Props.Components
import Verif.Props.Mutate

/-!
# C87: degrees, numbers of edges, cuts and connectedness of random graphs
-/

open MeasureTheory ProbabilityTheory Finset
open scoped ENNReal

namespace Stag

/-- The probability of an edge between the vertices `u` and `v` of the clusters `cl u` and `cl v`. -/
noncomputable def edgeProb (P : DenseMat ℝ) (cl : Nat → Nat) (u v : Nat) : ℝ := P.entry (cl (min u v)) (cl (max u v))

section
variable {Θ : Type} [MeasurableSpace Θ] {μ : Measure Θ} [IsProbabilityMeasure μ] {X : Nat → Θ → ℝ}

theorem pair_injective {n : Nat} {e : Nat → Nat → Nat} (he : Separate n e) (A : Finset (Nat × Nat))
    (hA : ∀ z ∈ A, z.1 < n ∧ z.2 < n ∧ z.1 ≠ z.2) (hrev : ∀ z ∈ A, (z.2, z.1) ∉ A) :
    Function.Injective fun z : {z // z ∈ A} => e z.1.1 z.1.2 := by
  intro z z' hzz
  have h1 := hA z z.2
  have h2 := hA z' z'.2
  rcases he _ h1.1 _ h1.2.1 _ h2.1 _ h2.2.1 h1.2.2 h2.2.2 hzz with h3 | h3
  · exact Subtype.ext (Prod.ext h3.1 h3.2)
  · exfalso
    apply hrev z' z'.2
    have : (z'.1.2, z'.1.1) = z.1 := Prod.ext h3.1.symm h3.2.symm
    rw [this]
    exact z.2

theorem pairs_tail (hm : ∀ n, Measurable (X n)) (hind : iIndepFun X μ)
    (hunif : ∀ n p, 0 ≤ p → p ≤ 1 → μ {θ | X n θ < p} = ENNReal.ofReal p) {n : Nat} {P : Nat → Nat → ℝ}
    (hP : ∀ u < n, ∀ v < n, 0 ≤ P u v ∧ P u v ≤ 1) {e : Nat → Nat → Nat} (he : Separate n e) (G : Θ → Graph ℝ)
    (hG : ∀ θ, Coupled n P e (fun j => X j θ) (G θ)) (A : Finset (Nat × Nat))
    (hA : ∀ z ∈ A, z.1 < n ∧ z.2 < n ∧ z.1 ≠ z.2) (hrev : ∀ z ∈ A, (z.2, z.1) ∉ A) (N : ℝ) (hN : (A.card : ℝ) ≤ N)
    (ε : ℝ) (hε : 0 < ε) :
    μ {θ | ε ≤ |∑ z ∈ A, ((G θ).abs.w z.1 z.2 - P z.1 z.2)|} ≤ ENNReal.ofReal (2 * Real.exp (-(2 * ε ^ 2 / N))) := by
  have hinj := pair_injective he A hA hrev
  have hY := (hind.precomp hinj).comp (fun z : {z // z ∈ A} => coinNoise (P z.1.1 z.1.2)) fun z => coinNoise_measurable _
  have hh := Concentration.hoeffding (μ := μ) (fun z => (coinNoise_measurable _).comp (hm _)) hY univ N (by
      rw [Finset.card_univ, Fintype.card_coe]
      exact hN) (fun z => - P z.1.1 z.1.2) 1 one_pos
    (fun z _ θ => coinNoise_bounds _ _) (fun z _ => coinNoise_mean hm hunif _ _
      (hP _ (hA z z.2).1 _ (hA z z.2).2.1)) ε hε
  rw [one_pow, mul_one] at hh
  refine le_trans (measure_mono fun θ hθ => ?_) hh
  rw [Set.mem_ofPred_eq] at hθ ⊢
  refine le_trans hθ (le_of_eq (congrArg abs ?_))
  rw [← Finset.sum_coe_sort]
  refine Finset.sum_congr rfl fun z _ => ?_
  have h1 := hA z z.2
  rw [(hG θ).w _ h1.1 _ h1.2.1]
  change _ = coinNoise _ _
  unfold coinNoise
  simp [h1.2.2]

theorem pairs_empty (hm : ∀ n, Measurable (X n)) (hind : iIndepFun X μ)
    (hunif : ∀ n p, 0 ≤ p → p ≤ 1 → μ {θ | X n θ < p} = ENNReal.ofReal p) {n : Nat} {P : Nat → Nat → ℝ}
    (hP : ∀ u < n, ∀ v < n, 0 ≤ P u v ∧ P u v ≤ 1) {e : Nat → Nat → Nat} (he : Separate n e) (G : Θ → Graph ℝ)
    (hG : ∀ θ, Coupled n P e (fun j => X j θ) (G θ)) (A : Finset (Nat × Nat))
    (hA : ∀ z ∈ A, z.1 < n ∧ z.2 < n ∧ z.1 ≠ z.2) (hrev : ∀ z ∈ A, (z.2, z.1) ∉ A) :
    μ {θ | ∀ z ∈ A, (G θ).abs.w z.1 z.2 = 0} = ENNReal.ofReal (∏ z ∈ A, (1 - P z.1 z.2)) := by
  have hinj := pair_injective he A hA hrev
  have hY := hind.precomp hinj
  have hset : {θ | ∀ z ∈ A, (G θ).abs.w z.1 z.2 = 0} =
      ⋂ z ∈ (univ : Finset {z // z ∈ A}), (X (e z.1.1 z.1.2)) ⁻¹' {y | ¬ y < P z.1.1 z.1.2} := by
    ext θ
    simp only [Set.mem_ofPred_eq, Set.mem_iInter, Set.mem_preimage, mem_univ, forall_const, Subtype.forall]
    refine forall_congr' fun z => forall_congr' fun hz => ?_
    have h1 := hA z hz
    rw [(hG θ).w _ h1.1 _ h1.2.1]
    simp [h1.2.2]
  rw [hset, hY.measure_inter_preimage_eq_mul (S := univ) (sets := fun z => {y | ¬ y < P z.1.1 z.1.2})
    (fun z _ => (measurableSet_Iio (a := P z.1.1 z.1.2)).compl)]
  have hk : ∀ z ∈ (univ : Finset {z // z ∈ A}), μ (X (e z.1.1 z.1.2) ⁻¹' {y | ¬ y < P z.1.1 z.1.2})
      = ENNReal.ofReal (1 - P z.1.1 z.1.2) := by
    intro z _
    have h2 := hP _ (hA z z.2).1 _ (hA z z.2).2.1
    have : X (e z.1.1 z.1.2) ⁻¹' {y | ¬ y < P z.1.1 z.1.2} = {θ | X (e z.1.1 z.1.2) θ < P z.1.1 z.1.2}ᶜ := rfl
    rw [this, prob_compl_eq_one_sub (measurableSet_lt (hm _) measurable_const), hunif _ _ h2.1 h2.2,
      ENNReal.ofReal_sub _ h2.1, ENNReal.ofReal_one]
  rw [Finset.prod_congr rfl hk, ← ENNReal.ofReal_prod_of_nonneg]
  · congr 1
    exact Finset.prod_coe_sort A fun z => 1 - P z.1 z.2
  · intro z _
    have h2 := hP _ (hA z z.2).1 _ (hA z z.2).2.1
    linarith

/-- Pairs between a set and the other vertices. -/
theorem cut_pairs {n : Nat} (S : Finset Nat) (hS : S ⊆ range n) :
    (∀ z ∈ S ×ˢ (range n \ S), z.1 < n ∧ z.2 < n ∧ z.1 ≠ z.2) ∧ ∀ z ∈ S ×ˢ (range n \ S), (z.2, z.1) ∉ S ×ˢ (range n \ S) := by
  constructor
  · intro z hz
    obtain ⟨h1, h2⟩ := mem_product.1 hz
    obtain ⟨h3, h4⟩ := mem_sdiff.1 h2
    exact ⟨mem_range.1 (hS h1), mem_range.1 h3, fun h => h4 (h ▸ h1)⟩
  · intro z hz hz'
    exact (mem_sdiff.1 (mem_product.1 hz).2).2 (mem_product.1 hz').1

end

/-- `general_sbm` in exact mode, in terms of the random numbers. -/
theorem general_coupled (R : Rng ℝ Nat) (x : Nat → ℝ)
    (hR : ∀ n p, 0 ≤ p → p ≤ 1 → R.coin p n = (decide (x n < p), n + 1)) (fuel : Nat) {sizes : List Nat}
    {P : DenseMat ℝ} (h : SbmArgs sizes P) (cl : Nat → Nat) (hcl : ∀ u < sizes.sum, InCluster sizes (cl u) u) :
    (∃ g ω', generalSbm R fuel (sizes.map (fun s : Nat => (s : Int))) P true 0 = some (.ok g, ω') ∧ g.Reachable ∧
      g.Pruned ∧ Coupled sizes.sum (edgeProb P cl) (drawIndex P sizes) x g) ∧ Separate sizes.sum (drawIndex P sizes) := by
  obtain ⟨⟨g, ω', h1, h2, h3, h4⟩, -, h5⟩ := C66_edges R x hR fuel h cl hcl
  exact ⟨⟨g, ω', h1, h2, (generalSbm_reachable R h h1).2, h3, h4⟩, h5⟩

theorem edgeProb_01 {sizes : List Nat} {P : DenseMat ℝ} (h : SbmArgs sizes P) {cl : Nat → Nat}
    (hcl : ∀ u < sizes.sum, InCluster sizes (cl u) u) :
    ∀ u < sizes.sum, ∀ v < sizes.sum, 0 ≤ edgeProb P cl u v ∧ edgeProb P cl u v ≤ 1 := fun u hu v hv =>
  h.prob _ (hcl _ (by omega)).1 _ (hcl _ (by omega)).1

/-- A graph that is not connected has a set of at most half the vertices with no edge to the others. -/
theorem disconnected_set {g : Graph ℝ} (hv : g.Valid) (hno : ¬ ∀ u v, u < g.n → v < g.n → g.abs.Connected u v) :
    ∃ S ⊆ range g.n, S.Nonempty ∧ 2 * S.card ≤ g.n ∧ ∀ z ∈ S ×ˢ (range g.n \ S), g.abs.w z.1 z.2 = 0 := by
  classical
  push Not at hno
  obtain ⟨u, v, hu, hw, hnc⟩ := hno
  obtain ⟨C, hC⟩ : ∃ C, C = (range g.n).filter fun x => g.abs.Connected u x := ⟨_, rfl⟩
  have hmem : ∀ x, x ∈ C ↔ x < g.n ∧ g.abs.Connected u x := by
    intro x
    rw [hC, mem_filter, mem_range]
  have hsub : C ⊆ range g.n := by
    rw [hC]
    exact filter_subset _ _
  have hcut : ∀ x y, x ∈ C → y ∈ range g.n \ C → g.abs.w x y = 0 := by
    intro x y hx hy
    obtain ⟨hy1, hy2⟩ := mem_sdiff.1 hy
    by_contra hne
    exact hy2 ((hmem y).2 ⟨mem_range.1 hy1, .step ((hmem x).1 hx).2 ⟨((hmem x).1 hx).1, mem_range.1 hy1, hne⟩⟩)
  by_cases hle : 2 * C.card ≤ g.n
  · refine ⟨C, hsub, ⟨u, (hmem u).2 ⟨hu, .refl⟩⟩, hle, fun z hz => ?_⟩
    obtain ⟨h1, h2⟩ := mem_product.1 hz
    exact hcut _ _ h1 h2
  · refine ⟨range g.n \ C, sdiff_subset, ⟨v, mem_sdiff.2 ⟨mem_range.2 hw, fun h => hnc ((hmem v).1 h).2⟩⟩, ?_, fun z hz => ?_⟩
    · rw [card_sdiff_of_subset hsub, card_range]
      omega
    · obtain ⟨h1, h2⟩ := mem_product.1 hz
      rw [Finset.sdiff_sdiff_eq_self hsub] at h2
      have := hcut _ _ h2 h1
      rw [← this]
      exact hv.symm _ _

theorem sum_nonempty_subsets (n : Nat) (y : ℝ) :
    ∑ S ∈ (range n).powerset.filter (fun S => S.Nonempty), y ^ S.card = (1 + y) ^ n - 1 := by
  have h := Finset.sum_pow_mul_eq_add_pow y 1 (range n)
  simp only [one_pow, mul_one, card_range] at h
  rw [add_comm 1 y, ← h, ← Finset.sum_filter_add_sum_filter_not (range n).powerset (fun S => S.Nonempty)]
  have : (range n).powerset.filter (fun S => ¬ S.Nonempty) = {∅} := by
    ext S
    simp only [mem_filter, mem_powerset, not_nonempty_iff_eq_empty, mem_singleton]
    constructor
    · exact fun h => h.2
    · rintro rfl
      exact ⟨empty_subset _, rfl⟩
  rw [this]
  simp

section
variable {Θ : Type} [MeasurableSpace Θ] (μ : Measure Θ) [IsProbabilityMeasure μ]
  (X : Nat → Θ → ℝ) (hmeas : ∀ n, Measurable (X n)) (hind : iIndepFun X μ)
  (hunif : ∀ n p, 0 ≤ p → p ≤ 1 → μ {θ | X n θ < p} = ENNReal.ofReal p)
  (R : Θ → Rng ℝ Nat)
  (hR : ∀ θ n p, 0 ≤ p → p ≤ 1 → (R θ).coin p n = (decide (X n θ < p), n + 1))
include hmeas hind hunif hR

/-- **C87** (cuts).  With independent uniform random numbers, except with probability at most `2 ^ (n + 1) exp (-8 ε² / n²)`
the graph of `general_sbm` (exact mode, `n` vertices) has for all sets `S` of vertices at once a number of edges between
`S` and the other vertices that is within `ε` of its expectation. -/
theorem C87_cuts (fuel : Nat) {sizes : List Nat} {P : DenseMat ℝ} (h : SbmArgs sizes P) (cl : Nat → Nat)
    (hcl : ∀ u < sizes.sum, InCluster sizes (cl u) u) (ε : ℝ) (hε : 0 < ε) :
    μ {θ | ¬ ∃ g ω', generalSbm (R θ) fuel (sizes.map (fun s : Nat => (s : Int))) P true 0 = some (.ok g, ω') ∧
      g.n = sizes.sum ∧ ∀ S ⊆ range sizes.sum, |g.abs.cut S - ∑ u ∈ S, ∑ v ∈ range sizes.sum \ S, edgeProb P cl u v| < ε} ≤
    ENNReal.ofReal (2 ^ (sizes.sum + 1) * Real.exp (-(8 * ε ^ 2 / (sizes.sum : ℝ) ^ 2))) := by
  have hc := fun θ => general_coupled (R θ) (fun j => X j θ) (hR θ) fuel h cl hcl
  choose G ω' hG using fun θ => (hc θ).1
  obtain ⟨θ0⟩ : Nonempty Θ := nonempty_of_isProbabilityMeasure μ
  obtain ⟨n, hn⟩ : ∃ n, n = sizes.sum := ⟨_, rfl⟩
  have htail := pairs_tail hmeas hind hunif (edgeProb_01 h hcl) (hc θ0).2 G (fun θ => (hG θ).2.2.2)
  have hsub : {θ | ¬ ∃ g ω', generalSbm (R θ) fuel (sizes.map (fun s : Nat => (s : Int))) P true 0 = some (.ok g, ω') ∧
      g.n = sizes.sum ∧ ∀ S ⊆ range sizes.sum, |g.abs.cut S - ∑ u ∈ S, ∑ v ∈ range sizes.sum \ S, edgeProb P cl u v| < ε} ⊆
      ⋃ S ∈ (range sizes.sum).powerset, {θ | ε ≤ |∑ z ∈ S ×ˢ (range sizes.sum \ S),
        ((G θ).abs.w z.1 z.2 - edgeProb P cl z.1 z.2)|} := by
    intro θ hθ
    rw [Set.mem_ofPred_eq] at hθ
    by_contra hno
    apply hθ
    simp only [Set.mem_iUnion, not_exists, mem_powerset, Set.mem_ofPred_eq, not_le] at hno
    refine ⟨G θ, ω' θ, (hG θ).1, (hG θ).2.2.2.size, fun S hS => ?_⟩
    refine lt_of_le_of_lt (le_of_eq (congrArg abs ?_)) (hno S hS)
    rw [Finset.sum_sub_distrib, Finset.sum_product, Finset.sum_product]
    unfold WGraph.cut
    change ∑ u ∈ S, ∑ v ∈ range (G θ).n \ S, _ - _ = _
    rw [(hG θ).2.2.2.size]
  refine le_trans (measure_mono hsub) (le_trans (measure_biUnion_finset_le _ _) ?_)
  refine le_trans (Finset.sum_le_sum fun S hS => htail _ (cut_pairs S (mem_powerset.1 hS)).1
    (cut_pairs S (mem_powerset.1 hS)).2 ((sizes.sum : ℝ) ^ 2 / 4) (by
      have hle := card_le_card (mem_powerset.1 hS)
      rw [card_product, card_sdiff_of_subset (mem_powerset.1 hS), card_range, Nat.cast_mul, Nat.cast_sub (by rwa [card_range] at hle)]
      nlinarith [sq_nonneg ((sizes.sum : ℝ) - 2 * S.card)]) ε hε) ?_
  rw [Finset.sum_const, card_powerset, card_range, nsmul_eq_mul, ← ENNReal.ofReal_natCast,
    ← ENNReal.ofReal_mul (by positivity)]
  apply ENNReal.ofReal_le_ofReal
  have e : 2 * ε ^ 2 / ((sizes.sum : ℝ) ^ 2 / 4) = 8 * ε ^ 2 / (sizes.sum : ℝ) ^ 2 := by
    rw [div_div_eq_mul_div]
    ring
  rw [e]
  push_cast
  rw [pow_succ]
  apply le_of_eq
  ring

/-- **C87** (degrees).  Except with probability at most `2 n exp (-2 ε² / n)`, all degrees are within `ε` of their
expectations. -/
theorem C87_degrees (fuel : Nat) {sizes : List Nat} {P : DenseMat ℝ} (h : SbmArgs sizes P) (cl : Nat → Nat)
    (hcl : ∀ u < sizes.sum, InCluster sizes (cl u) u) (ε : ℝ) (hε : 0 < ε) :
    μ {θ | ¬ ∃ g ω', generalSbm (R θ) fuel (sizes.map (fun s : Nat => (s : Int))) P true 0 = some (.ok g, ω') ∧
      g.n = sizes.sum ∧ ∀ u < sizes.sum, |g.abs.deg u - ∑ v ∈ (range sizes.sum).erase u, edgeProb P cl u v| < ε} ≤
    ENNReal.ofReal (2 * sizes.sum * Real.exp (-(2 * ε ^ 2 / sizes.sum))) := by
  have hc := fun θ => general_coupled (R θ) (fun j => X j θ) (hR θ) fuel h cl hcl
  choose G ω' hG using fun θ => (hc θ).1
  obtain ⟨θ0⟩ : Nonempty Θ := nonempty_of_isProbabilityMeasure μ
  have htail := pairs_tail hmeas hind hunif (edgeProb_01 h hcl) (hc θ0).2 G (fun θ => (hG θ).2.2.2)
  have hsub : {θ | ¬ ∃ g ω', generalSbm (R θ) fuel (sizes.map (fun s : Nat => (s : Int))) P true 0 = some (.ok g, ω') ∧
      g.n = sizes.sum ∧ ∀ u < sizes.sum, |g.abs.deg u - ∑ v ∈ (range sizes.sum).erase u, edgeProb P cl u v| < ε} ⊆
      ⋃ u ∈ range sizes.sum, {θ | ε ≤ |∑ z ∈ {u} ×ˢ (range sizes.sum \ {u}),
        ((G θ).abs.w z.1 z.2 - edgeProb P cl z.1 z.2)|} := by
    intro θ hθ
    rw [Set.mem_ofPred_eq] at hθ
    by_contra hno
    apply hθ
    simp only [Set.mem_iUnion, not_exists, mem_range, Set.mem_ofPred_eq, not_le] at hno
    refine ⟨G θ, ω' θ, (hG θ).1, (hG θ).2.2.2.size, fun u hu => ?_⟩
    refine lt_of_le_of_lt (le_of_eq (congrArg abs ?_)) (hno u hu)
    have hl := ((hG θ).2.2.2.simple (hG θ).2.1).2 u
    rw [Finset.sum_sub_distrib, Finset.sum_product, Finset.sum_product, Finset.sum_singleton, Finset.sum_singleton,
      Finset.sdiff_singleton_eq_erase]
    congr 1
    unfold WGraph.deg
    rw [hl, add_zero]
    change ∑ v ∈ range (G θ).n, _ = _
    rw [(hG θ).2.2.2.size, ← Finset.add_sum_erase _ _ (mem_range.2 hu), hl, zero_add]
  refine le_trans (measure_mono hsub) (le_trans (measure_biUnion_finset_le _ _) ?_)
  refine le_trans (Finset.sum_le_sum fun u hu => htail _ (cut_pairs {u} (singleton_subset_iff.2 hu)).1
    (cut_pairs {u} (singleton_subset_iff.2 hu)).2 (sizes.sum : ℝ) (by
      rw [card_product, card_singleton, one_mul]
      have := card_le_card (sdiff_subset (s := range sizes.sum) (t := {u}))
      rw [card_range] at this
      exact_mod_cast this) ε hε) ?_
  rw [Finset.sum_const, card_range, nsmul_eq_mul, ← ENNReal.ofReal_natCast, ← ENNReal.ofReal_mul (by positivity)]
  apply ENNReal.ofReal_le_ofReal
  apply le_of_eq
  ring

/-- **C87** (number of edges).  Except with probability at most `2 exp (-2 ε² / (n choose 2))`, `number_of_edges` is within
`ε` of its expectation. -/
theorem C87_edges (fuel : Nat) {sizes : List Nat} {P : DenseMat ℝ} (h : SbmArgs sizes P) (cl : Nat → Nat)
    (hcl : ∀ u < sizes.sum, InCluster sizes (cl u) u) (ε : ℝ) (hε : 0 < ε) :
    μ {θ | ¬ ∃ g ω', generalSbm (R θ) fuel (sizes.map (fun s : Nat => (s : Int))) P true 0 = some (.ok g, ω') ∧
      g.n = sizes.sum ∧ |(g.numberOfEdges : ℝ) - ∑ z ∈ vertexPairs sizes.sum, edgeProb P cl z.1 z.2| < ε} ≤
    ENNReal.ofReal (2 * Real.exp (-(2 * ε ^ 2 / (sizes.sum.choose 2 : ℕ)))) := by
  have hc := fun θ => general_coupled (R θ) (fun j => X j θ) (hR θ) fuel h cl hcl
  choose G ω' hG using fun θ => (hc θ).1
  obtain ⟨θ0⟩ : Nonempty Θ := nonempty_of_isProbabilityMeasure μ
  have hmemp : ∀ z ∈ vertexPairs sizes.sum, z.1 < sizes.sum ∧ z.2 < sizes.sum ∧ z.1 < z.2 := by
    intro z hz
    unfold vertexPairs at hz
    rw [mem_filter, mem_product, mem_range, mem_range] at hz
    exact ⟨hz.1.1, hz.1.2, hz.2⟩
  have htail := pairs_tail hmeas hind hunif (edgeProb_01 h hcl) (hc θ0).2 G (fun θ => (hG θ).2.2.2)
    (vertexPairs sizes.sum) (fun z hz => ⟨(hmemp z hz).1, (hmemp z hz).2.1, (hmemp z hz).2.2.ne⟩)
    (fun z hz hz' => lt_asymm (hmemp z hz).2.2 (hmemp _ hz').2.2) ((sizes.sum.choose 2 : ℕ) : ℝ)
    (by rw [card_vertexPairs]) ε hε
  refine le_trans (measure_mono fun θ hθ => ?_) htail
  rw [Set.mem_ofPred_eq] at hθ ⊢
  by_contra hno
  apply hθ
  refine ⟨G θ, ω' θ, (hG θ).1, (hG θ).2.2.2.size, ?_⟩
  refine lt_of_le_of_lt (le_of_eq (congrArg abs ?_)) (not_le.1 hno)
  rw [Finset.sum_sub_distrib]
  congr 1
  have hs := (hG θ).2.2.2.simple (hG θ).2.1
  rw [C06_number_of_edges (hG θ).2.1 (hG θ).2.2.1.noZeros]
  have hed : (G θ).abs.edges = (vertexPairs sizes.sum).filter fun z => (G θ).abs.w z.1 z.2 ≠ 0 := by
    ext z
    unfold WGraph.edges vertexPairs
    rw [mem_filter, mem_filter, mem_filter, mem_product, mem_product, mem_range, mem_range, mem_range, mem_range]
    change ((z.1 < (G θ).n ∧ z.2 < (G θ).n) ∧ z.1 ≤ z.2 ∧ _) ↔ _
    rw [(hG θ).2.2.2.size]
    constructor
    · rintro ⟨h1, h2, h3⟩
      refine ⟨⟨h1, lt_of_le_of_ne h2 fun h4 => h3 ?_⟩, h3⟩
      rw [h4]
      exact hs.2 _
    · rintro ⟨⟨h1, h2⟩, h3⟩
      exact ⟨h1, h2.le, h3⟩
  rw [hed, Finset.card_filter]
  push_cast
  refine Finset.sum_congr rfl fun z _ => ?_
  rcases hs.1 z.1 z.2 with h1 | h1
  · rw [h1]; simp
  · rw [h1]; simp

/-- **C87** (connectedness).  If every pair of vertices is joined with probability at least `r`, then, except with
probability at most `(1 + (1 - r) ^ ⌈n / 2⌉) ^ n - 1`, the graph is connected and `is_connected` says so. -/
theorem C87_connected (fuel fuel' : Nat) {sizes : List Nat} {P : DenseMat ℝ} (h : SbmArgs sizes P) (hn : 0 < sizes.sum)
    (hfuel : sizes.sum ≤ fuel') {r : ℝ} (hr : ∀ i < sizes.length, ∀ j < sizes.length, r ≤ P.entry i j) :
    μ {θ | ¬ ∃ g ω', generalSbm (R θ) fuel (sizes.map (fun s : Nat => (s : Int))) P true 0 = some (.ok g, ω') ∧
      g.n = sizes.sum ∧ g.isConnected fuel' = some (.ok true) ∧
      ∀ u < sizes.sum, ∀ v < sizes.sum, g.abs.Connected u v} ≤
    ENNReal.ofReal ((1 + (1 - r) ^ (sizes.sum - sizes.sum / 2)) ^ sizes.sum - 1) := by
  obtain ⟨cl, hcl⟩ : ∃ cl : Nat → Nat, ∀ u < sizes.sum, InCluster sizes (cl u) u := by
    classical
    exact ⟨fun u => if hu : ∃ c, InCluster sizes c u then hu.choose else 0, fun u hu => by
      have := exists_inCluster hu
      simp only [this, dite_true]
      exact this.choose_spec⟩
  have hc := fun θ => general_coupled (R θ) (fun j => X j θ) (hR θ) fuel h cl hcl
  choose G ω' hG using fun θ => (hc θ).1
  obtain ⟨θ0⟩ : Nonempty Θ := nonempty_of_isProbabilityMeasure μ
  have h01 := edgeProb_01 h hcl
  have hempty := pairs_empty hmeas hind hunif h01 (hc θ0).2 G (fun θ => (hG θ).2.2.2)
  obtain ⟨n, hnn⟩ : ∃ n, n = sizes.sum := ⟨_, rfl⟩
  have hre : ∀ u < n, ∀ v < n, r ≤ edgeProb P cl u v := fun u hu v hv =>
    hr _ (hcl _ (by omega)).1 _ (hcl _ (by omega)).1
  have hr1 : r ≤ 1 := le_trans (hre 0 (by omega) 0 (by omega)) (h01 0 hn 0 hn).2
  rw [← hnn] at hempty h01 hn hfuel ⊢
  have hsub : {θ | ¬ ∃ g ω', generalSbm (R θ) fuel (sizes.map (fun s : Nat => (s : Int))) P true 0 = some (.ok g, ω') ∧
      g.n = n ∧ g.isConnected fuel' = some (.ok true) ∧ ∀ u < n, ∀ v < n, g.abs.Connected u v} ⊆
      ⋃ S ∈ ((range n).powerset.filter fun S => S.Nonempty).filter (fun S => 2 * S.card ≤ n),
        {θ | ∀ z ∈ S ×ˢ (range n \ S), (G θ).abs.w z.1 z.2 = 0} := by
    intro θ hθ
    rw [Set.mem_ofPred_eq] at hθ
    obtain ⟨h1, h2, h3, h4⟩ := hG θ
    have hsize : (G θ).n = n := by rw [hnn]; exact h4.size
    have hno : ¬ ∀ u v, u < (G θ).n → v < (G θ).n → (G θ).abs.Connected u v := by
      intro hcon
      obtain ⟨b, hb1, hb2⟩ := C31_is_connected h2.valid h3.noZeros (by omega) (fuel := fuel') (by omega)
      rw [hb2.2 hcon] at hb1
      exact hθ ⟨G θ, ω' θ, h1, hsize, hb1, fun u hu v hv => hcon u v (by omega) (by omega)⟩
    obtain ⟨S, hS1, hS2, hS3, hS4⟩ := disconnected_set h2.valid hno
    rw [hsize] at hS1 hS3 hS4
    simp only [Set.mem_iUnion]
    exact ⟨S, mem_filter.2 ⟨mem_filter.2 ⟨mem_powerset.2 hS1, hS2⟩, hS3⟩, hS4⟩
  refine le_trans (measure_mono hsub) (le_trans (measure_biUnion_finset_le _ _) ?_)
  have hterm : ∀ S ∈ ((range n).powerset.filter fun S => S.Nonempty).filter (fun S => 2 * S.card ≤ n),
      μ {θ | ∀ z ∈ S ×ˢ (range n \ S), (G θ).abs.w z.1 z.2 = 0} ≤
        ENNReal.ofReal (((1 - r) ^ (n - n / 2)) ^ S.card) := by
    intro S hS
    obtain ⟨h1, h2⟩ := mem_filter.1 hS
    have h3 := mem_powerset.1 (mem_filter.1 h1).1
    rw [hempty _ (cut_pairs S h3).1 (cut_pairs S h3).2]
    apply ENNReal.ofReal_le_ofReal
    have h0 : (0 : ℝ) ≤ 1 - r := by linarith
    calc ∏ z ∈ S ×ˢ (range n \ S), (1 - edgeProb P cl z.1 z.2)
        ≤ ∏ z ∈ S ×ˢ (range n \ S), (1 - max r 0) := by
          refine Finset.prod_le_prod (fun z hz => ?_) fun z hz => ?_
          · obtain ⟨h4, h5, -⟩ := (cut_pairs S h3).1 z hz
            linarith [(h01 _ h4 _ h5).2]
          · obtain ⟨h4, h5, -⟩ := (cut_pairs S h3).1 z hz
            have := max_le (hre _ h4 _ h5) (h01 _ h4 _ h5).1
            linarith
      _ = (1 - max r 0) ^ (S.card * (n - S.card)) := by
          rw [Finset.prod_const, card_product, card_sdiff_of_subset h3, card_range]
      _ ≤ (1 - max r 0) ^ ((n - n / 2) * S.card) := by
          apply pow_le_pow_of_le_one
          · linarith [max_le hr1 zero_le_one]
          · linarith [le_max_right r 0]
          · rw [mul_comm]
            exact Nat.mul_le_mul_left _ (by omega)
      _ ≤ (1 - r) ^ ((n - n / 2) * S.card) := by
          apply pow_le_pow_left₀
          · linarith [max_le hr1 zero_le_one]
          · linarith [le_max_left r 0]
      _ = _ := pow_mul _ _ _
  refine le_trans (Finset.sum_le_sum hterm) ?_
  have h0 : (0 : ℝ) ≤ (1 - r) ^ (n - n / 2) := pow_nonneg (by linarith) _
  rw [← ENNReal.ofReal_sum_of_nonneg fun S _ => pow_nonneg h0 _, ← sum_nonempty_subsets]
  exact ENNReal.ofReal_le_ofReal
    (Finset.sum_le_sum_of_subset_of_nonneg (filter_subset _ _) fun S _ _ => pow_nonneg h0 _)

omit hmeas hind hunif hR in
theorem connected_bound {n : Nat} (hn : 2 ≤ n) {p : ℝ} (hp : p ≤ 1) (hln : 4 * Real.log n ≤ p * n) :
    (1 + (1 - p) ^ (n - n / 2)) ^ n - 1 ≤ 2 / n := by
  have hn0 : (0 : ℝ) < n := by exact_mod_cast (by omega : 0 < n)
  have hp0 : 0 ≤ p := by
    have : 0 ≤ Real.log n := Real.log_natCast_nonneg n
    by_contra hneg
    nlinarith
  have h1 : (1 - p) ^ (n - n / 2) ≤ 1 / (n : ℝ) ^ 2 := by
    calc (1 - p) ^ (n - n / 2) ≤ Real.exp (-p) ^ (n - n / 2) := by
          apply pow_le_pow_left₀ (by linarith)
          linarith [Real.add_one_le_exp (-p)]
      _ = Real.exp (-(p * ((n - n / 2 : Nat) : ℝ))) := by
          rw [← Real.exp_nat_mul]
          congr 1
          ring
      _ ≤ Real.exp (-(2 * Real.log n)) := by
          apply Real.exp_le_exp.2
          have h2 : (n : ℝ) / 2 ≤ ((n - n / 2 : Nat) : ℝ) := by
            rw [div_le_iff₀ (by norm_num)]
            exact_mod_cast (by omega : n ≤ (n - n / 2) * 2)
          nlinarith
      _ = 1 / (n : ℝ) ^ 2 := by
          rw [Real.exp_neg, mul_comm, Real.exp_mul, Real.exp_log hn0, one_div]
          norm_num
  have h0 : 0 ≤ (1 - p) ^ (n - n / 2) := pow_nonneg (by linarith) _
  have h2 : (1 + (1 - p) ^ (n - n / 2)) ^ n ≤ Real.exp (1 / n) := by
    calc (1 + (1 - p) ^ (n - n / 2)) ^ n ≤ Real.exp (1 / (n : ℝ) ^ 2) ^ n := by
          apply pow_le_pow_left₀ (by linarith)
          linarith [Real.add_one_le_exp (1 / (n : ℝ) ^ 2)]
      _ = Real.exp (1 / n) := by
          rw [← Real.exp_nat_mul]
          congr 1
          field_simp
  have h3 : |(1 / n : ℝ)| ≤ 1 := by
    rw [abs_of_pos (by positivity), div_le_one hn0]
    exact_mod_cast (by omega : 1 ≤ n)
  have h4 := (abs_le.1 (Real.abs_exp_sub_one_le h3)).2
  rw [abs_of_pos (by positivity)] at h4
  have : 2 * (1 / (n : ℝ)) = 2 / n := by ring
  linarith

/-- **C87** (`erdos_renyi`).  For `n ≥ 2` and `p ≥ 4 ln n / n`, `erdos_renyi(n, p)` is connected except with probability at
most `2 / n`. -/
theorem C87_erdos_renyi_connected (fuel fuel' : Nat) {n : Nat} (hn : 2 ≤ n) {p : ℝ} (hp0 : 0 ≤ p) (hp : p ≤ 1)
    (hln : 4 * Real.log n ≤ p * n) (hfuel : n ≤ fuel') :
    μ {θ | ¬ ∃ g ω', erdosRenyi (R θ) fuel n p true 0 = some (.ok g, ω') ∧ g.n = n ∧
      g.isConnected fuel' = some (.ok true) ∧ ∀ u < n, ∀ v < n, g.abs.Connected u v} ≤
    ENNReal.ofReal (2 / n) := by
  have hargs := sbm_args (n := n) (k := 1) (p := p) (q := 0) le_rfl (by omega) ⟨hp0, hp⟩ ⟨le_rfl, zero_le_one⟩
  have hsum : (List.replicate 1 (n / 1)).sum = n := by simp
  have key := C87_connected μ X hmeas hind hunif R hR fuel fuel' hargs (by rw [hsum]; omega) (by rw [hsum]; exact hfuel)
    (r := p) (by
      intro i hi j hj
      have h1 : i = 0 := by simpa using hi
      have h2 : j = 0 := by simpa using hj
      subst h1 h2
      unfold sbmProbs
      simp)
  rw [hsum] at key
  have hcall : ∀ θ, erdosRenyi (R θ) fuel n p true 0 =
      generalSbm (R θ) fuel ((List.replicate 1 (n / 1)).map (fun s : Nat => (s : Int)))
        (sbmProbs ((1 : Nat) : Int) p 0) true 0 := by
    intro θ
    unfold erdosRenyi sbm
    rw [if_neg (by omega), if_neg (by omega), if_neg (not_or.2 ⟨not_lt.2 hp0, not_lt.2 hp⟩),
      if_neg (not_or.2 ⟨not_lt.2 le_rfl, not_lt.2 zero_le_one⟩)]
    rw [← sbmSizes_eq]
    rfl
  simp only [hcall]
  exact le_trans key (ENNReal.ofReal_le_ofReal (connected_bound hn hp hln))

end

/-- The hypotheses are met: there are such random numbers, and for them `erdos_renyi(10000, 1/100)` is connected except
with probability at most `1/5000`. -/
example : ∃ (μ : Measure (Nat → ℝ)) (R : (Nat → ℝ) → Rng ℝ Nat), IsProbabilityMeasure μ ∧
    μ {θ | ¬ ∃ g ω', erdosRenyi (R θ) 0 (10000 : Nat) (1 / 100) true 0 = some (.ok g, ω') ∧ g.n = 10000 ∧
      g.isConnected 10000 = some (.ok true) ∧ ∀ u < 10000, ∀ v < 10000, g.abs.Connected u v} ≤
    ENNReal.ofReal (2 / (10000 : Nat)) := by
  obtain ⟨μ, X, R, hμ, hm, hind, hunif, hR⟩ := draws_exist
  refine ⟨μ, R, hμ, ?_⟩
  have hlog : Real.log ((10000 : Nat) : ℝ) ≤ 25 := by
    rw [Real.log_le_iff_le_exp (by norm_num)]
    have h2 : (2 : ℝ) ≤ Real.exp 1 := by linarith [Real.add_one_le_exp (1 : ℝ)]
    calc ((10000 : Nat) : ℝ) ≤ 2 ^ 25 := by norm_num
      _ ≤ Real.exp 1 ^ 25 := pow_le_pow_left₀ (by norm_num) h2 _
      _ = Real.exp 25 := by rw [← Real.exp_nat_mul]; norm_num
  exact C87_erdos_renyi_connected μ X hm hind hunif R hR 0 10000 (n := 10000) (by norm_num) (by norm_num) (by norm_num)
    (by push_cast at hlog ⊢; linarith) le_rfl

end Stag
