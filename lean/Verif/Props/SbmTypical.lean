import Verif.Concentration
import Verif.Props.SbmCoupling
import Verif.Props.SbmRecovery

/-!
# C86: graphs of the stochastic block model are typical
-/

open MeasureTheory ProbabilityTheory Finset

namespace Stag

/-- The centred coin with probability `b`. -/
noncomputable def coinNoise (b y : ℝ) : ℝ := (if y < b then 1 else 0) - b

theorem coinNoise_measurable (b : ℝ) : Measurable (coinNoise b) := by
  unfold coinNoise
  exact (Measurable.ite measurableSet_Iio measurable_const measurable_const).sub measurable_const

theorem coinNoise_bounds (b y : ℝ) : -b ≤ coinNoise b y ∧ coinNoise b y ≤ -b + 1 := by
  unfold coinNoise
  split_ifs <;> constructor <;> linarith

theorem coinNoise_abs (b y : ℝ) (hb : 0 ≤ b ∧ b ≤ 1) : |coinNoise b y| ≤ 1 := by
  have := coinNoise_bounds b y
  rw [abs_le]
  constructor <;> linarith

section
variable {Θ : Type} [MeasurableSpace Θ] {μ : Measure Θ} [IsProbabilityMeasure μ] {X : Nat → Θ → ℝ}

theorem coinNoise_mean (hm : ∀ n, Measurable (X n))
    (hunif : ∀ n p, 0 ≤ p → p ≤ 1 → μ {θ | X n θ < p} = ENNReal.ofReal p) (j : Nat) (b : ℝ) (hb : 0 ≤ b ∧ b ≤ 1) :
    ∫ θ, coinNoise b (X j θ) ∂μ = 0 := by
  unfold coinNoise
  have hset : MeasurableSet {θ | X j θ < b} := measurableSet_lt (hm j) measurable_const
  have e : (fun θ => (if X j θ < b then (1 : ℝ) else 0)) = Set.indicator {θ | X j θ < b} 1 := by
    funext θ
    simp only [Set.indicator, Set.mem_ofPred_eq, Pi.one_apply]
  have hint : Integrable (fun θ => (if X j θ < b then (1 : ℝ) else 0)) μ := by
    rw [e]
    exact (integrable_const (1 : ℝ)).indicator hset
  rw [integral_sub hint (integrable_const _), integral_const, e, integral_indicator_one hset]
  rw [Measure.real, hunif j b hb.1 hb.2, ENNReal.toReal_ofReal hb.1]
  simp

theorem blockProb_01 {m : Nat} {p q : ℝ} (hp : 0 ≤ p ∧ p ≤ 1) (hq : 0 ≤ q ∧ q ≤ 1) (u v : Nat) :
    0 ≤ blockProb m p q u v ∧ blockProb m p q u v ≤ 1 := by
  unfold blockProb
  split_ifs
  · exact hp
  · exact hq

/-- The graph of the draws `X e(u, v)`. -/
structure Coupled (n : Nat) (P : Nat → Nat → ℝ) (e : Nat → Nat → Nat) (x : Nat → ℝ) (g : Graph ℝ) : Prop where
  size : g.n = n
  w : ∀ u < n, ∀ v < n, g.abs.w u v = if u ≠ v ∧ x (e u v) < P u v then 1 else 0

theorem Coupled.noise {n m : Nat} {p q : ℝ} {e : Nat → Nat → Nat} {x : Nat → ℝ} {g : Graph ℝ}
    (h : Coupled n (blockProb m p q) e x g) (u v : Nat) (hu : u < n) (hv : v < n) (huv : u ≠ v) :
    g.abs.noise m p q u v = coinNoise (blockProb m p q u v) (x (e u v)) := by
  unfold WGraph.noise coinNoise
  rw [if_neg huv, h.w u hu v hv]
  simp [huv]

/-- The pairs have different numbers. -/
def Separate (n : Nat) (e : Nat → Nat → Nat) : Prop :=
  ∀ u < n, ∀ v < n, ∀ u' < n, ∀ v' < n, u ≠ v → u' ≠ v' → e u v = e u' v' →
    (u = u' ∧ v = v') ∨ (u = v' ∧ v = u')

theorem nbrs_tail (hm : ∀ n, Measurable (X n)) (hind : iIndepFun X μ)
    (hunif : ∀ n p, 0 ≤ p → p ≤ 1 → μ {θ | X n θ < p} = ENNReal.ofReal p) {n m : Nat} {p q : ℝ}
    (hp : 0 ≤ p ∧ p ≤ 1) (hq : 0 ≤ q ∧ q ≤ 1) {e : Nat → Nat → Nat} (he : Separate n e) (G : Θ → Graph ℝ)
    (hG : ∀ θ, Coupled n (blockProb m p q) e (fun j => X j θ) (G θ)) (u : Nat) (hu : u < n) (s : Finset Nat)
    (hs : s ⊆ range n) (N : Nat) (hN : s.card ≤ N) (a : ℝ) (ha : 0 < a) :
    μ {θ | a ≤ |∑ v ∈ s, (G θ).abs.noise m p q u v|} ≤ ENNReal.ofReal (2 * Real.exp (-(2 * a ^ 2 / N))) := by
  have hmem : ∀ v : {v // v ∈ s.erase u}, (v : Nat) < n ∧ (v : Nat) ≠ u := fun v =>
    ⟨mem_range.1 (hs (mem_of_mem_erase v.2)), ne_of_mem_erase v.2⟩
  have hinj : Function.Injective fun v : {v // v ∈ s.erase u} => e u v := by
    intro v v' hvv
    have h1 := hmem v
    have h2 := hmem v'
    rcases he u hu v h1.1 u hu v' h2.1 (Ne.symm h1.2) (Ne.symm h2.2) hvv with h3 | h3
    · exact Subtype.ext h3.2
    · exact absurd h3.2 h1.2
  have hY := (hind.precomp hinj).comp (fun v : {v // v ∈ s.erase u} => coinNoise (blockProb m p q u v))
    fun v => coinNoise_measurable _
  have hh := Concentration.hoeffding (μ := μ) (fun v => (coinNoise_measurable _).comp (hm _)) hY univ N (by
      rw [Finset.card_univ, Fintype.card_coe]
      exact_mod_cast le_trans (card_le_card (erase_subset _ _)) hN) (fun v => - blockProb m p q u v) 1 one_pos
    (fun v _ θ => coinNoise_bounds _ _) (fun v _ => coinNoise_mean hm hunif _ _ (blockProb_01 hp hq _ _)) a ha
  rw [one_pow, mul_one] at hh
  refine le_trans (measure_mono fun θ hθ => ?_) hh
  rw [Set.mem_ofPred_eq] at hθ ⊢
  refine le_trans hθ (le_of_eq (congrArg abs ?_))
  have e1 : ∑ v ∈ s, (G θ).abs.noise m p q u v = ∑ v ∈ s.erase u, (G θ).abs.noise m p q u v := by
    symm
    apply Finset.sum_subset (erase_subset _ _)
    intro v hv hv'
    have : v = u := by
      by_contra hne
      exact hv' (mem_erase.2 ⟨hne, hv⟩)
    rw [this]
    unfold WGraph.noise
    rw [if_pos rfl]
  rw [e1, ← Finset.sum_coe_sort]
  refine Finset.sum_congr rfl fun v _ => ?_
  exact (hG θ).noise u v hu (hmem v).1 (Ne.symm (hmem v).2)

theorem codeg_tail (hm : ∀ n, Measurable (X n)) (hind : iIndepFun X μ)
    (hunif : ∀ n p, 0 ≤ p → p ≤ 1 → μ {θ | X n θ < p} = ENNReal.ofReal p) {n m : Nat} {p q : ℝ}
    (hp : 0 ≤ p ∧ p ≤ 1) (hq : 0 ≤ q ∧ q ≤ 1) {e : Nat → Nat → Nat} (he : Separate n e) (G : Θ → Graph ℝ)
    (hG : ∀ θ, Coupled n (blockProb m p q) e (fun j => X j θ) (G θ)) (u v : Nat) (hu : u < n) (hv : v < n)
    (huv : u ≠ v) (t : ℝ) (ht : 0 < t) :
    μ {θ | t ≤ |∑ x ∈ range n, (G θ).abs.noise m p q u x * (G θ).abs.noise m p q x v|} ≤
      ENNReal.ofReal (2 * Real.exp (-(t ^ 2 / (2 * n)))) := by
  obtain ⟨s, hs⟩ : ∃ s, s = ((range n).erase u).erase v := ⟨_, rfl⟩
  have hmem0 : ∀ x ∈ s, x < n ∧ x ≠ u ∧ x ≠ v := by
    intro x hx
    rw [hs, mem_erase, mem_erase, mem_range] at hx
    exact ⟨hx.2.2, hx.2.1, hx.1⟩
  have hmem : ∀ x : {x // x ∈ s}, (x : Nat) < n ∧ (x : Nat) ≠ u ∧ (x : Nat) ≠ v := fun x => hmem0 x x.2
  have he1 : Function.Injective fun x : {x // x ∈ s} => e u x := by
    intro x y hxy
    have h1 := hmem x
    have h2 := hmem y
    rcases he u hu x h1.1 u hu y h2.1 (Ne.symm h1.2.1) (Ne.symm h2.2.1) hxy with h3 | h3
    · exact Subtype.ext h3.2
    · exact absurd h3.2 h1.2.1
  have he2 : Function.Injective fun x : {x // x ∈ s} => e x v := by
    intro x y hxy
    have h1 := hmem x
    have h2 := hmem y
    rcases he x h1.1 v hv y h2.1 v hv h1.2.2 h2.2.2 hxy with h3 | h3
    · exact Subtype.ext h3.1
    · exact absurd h3.1 h1.2.2
  have he3 : ∀ x y : {x // x ∈ s}, e u x ≠ e y v := by
    intro x y hxy
    have h1 := hmem x
    have h2 := hmem y
    rcases he u hu x h1.1 y h2.1 v hv (Ne.symm h1.2.1) h2.2.2 hxy with h3 | h3
    · exact h1.2.2 h3.2
    · exact huv h3.1
  have hY := Concentration.indep_pairs hm hind (fun x : {x // x ∈ s} => e u x) (fun x : {x // x ∈ s} => e x v)
    he1 he2 he3 (fun x y z => coinNoise (blockProb m p q u x) y * coinNoise (blockProb m p q x v) z)
    (fun x => ((coinNoise_measurable _).comp measurable_fst).mul ((coinNoise_measurable _).comp measurable_snd))
  have hh := Concentration.hoeffding (μ := μ) (fun x => ((coinNoise_measurable _).comp (hm _)).mul
      ((coinNoise_measurable _).comp (hm _))) hY univ n (by
      rw [Finset.card_univ, Fintype.card_coe, hs]
      have := card_le_card ((erase_subset v _).trans (erase_subset u (range n)))
      rw [card_range] at this
      exact_mod_cast this) (fun _ => -1) 2 two_pos
    (fun x _ θ => by
      have h1 := coinNoise_abs (blockProb m p q u x) (X (e u x) θ) (blockProb_01 hp hq _ _)
      have h2 := coinNoise_abs (blockProb m p q x v) (X (e x v) θ) (blockProb_01 hp hq _ _)
      have h3 := mul_le_one₀ h1 (abs_nonneg _) h2
      rw [← abs_mul] at h3
      have := abs_le.1 h3
      exact ⟨this.1, le_trans this.2 (by norm_num)⟩) (fun x _ => by
      have hi : IndepFun (X (e u x)) (X (e x v)) μ := hind.indepFun (he3 x x)
      have hi2 := hi.comp (coinNoise_measurable (blockProb m p q u x)) (coinNoise_measurable (blockProb m p q x v))
      have := hi2.integral_mul_eq_mul_integral
        ((coinNoise_measurable _).comp (hm _)).aestronglyMeasurable
        ((coinNoise_measurable _).comp (hm _)).aestronglyMeasurable
      refine Eq.trans this ?_
      have h0 := coinNoise_mean hm hunif (e u x) (blockProb m p q u x) (blockProb_01 hp hq _ _)
      have h1 : ∫ θ, (coinNoise (blockProb m p q u x) ∘ X (e u x)) θ ∂μ = 0 := h0
      rw [h1, zero_mul]) t ht
  refine le_trans (measure_mono fun θ hθ => ?_) (le_trans hh (le_of_eq ?_))
  · rw [Set.mem_ofPred_eq] at hθ ⊢
    refine le_trans hθ (le_of_eq (congrArg abs ?_))
    have e1 : ∑ x ∈ range n, (G θ).abs.noise m p q u x * (G θ).abs.noise m p q x v
        = ∑ x ∈ s, (G θ).abs.noise m p q u x * (G θ).abs.noise m p q x v := by
      symm
      apply Finset.sum_subset
      · rw [hs]; exact (erase_subset _ _).trans (erase_subset _ _)
      · intro x hx hx'
        rw [hs, mem_erase, mem_erase] at hx'
        by_cases hxu : x = u
        · rw [hxu]
          unfold WGraph.noise
          rw [if_pos rfl, zero_mul]
        · have : x = v := by
            by_contra hne
            exact hx' ⟨hne, hxu, hx⟩
          rw [this]
          unfold WGraph.noise
          rw [if_pos (rfl : v = v), mul_zero]
    rw [e1, ← Finset.sum_coe_sort]
    refine Finset.sum_congr rfl fun x _ => ?_
    rw [(hG θ).noise u x hu (hmem x).1 (Ne.symm (hmem x).2.1), (hG θ).noise x v (hmem x).1 hv (hmem x).2.2]
    rfl
  · congr 3
    ring_nf

/-- The probability that a graph of the block model is not typical is at most this. -/
noncomputable def atypical (k m : Nat) (a t : ℝ) : ℝ :=
  2 * (k * (k * m)) * Real.exp (-(2 * a ^ 2 / m)) + 2 * (k * m) ^ 2 * Real.exp (-(t ^ 2 / (2 * (k * m))))

theorem typical_prob (hm : ∀ n, Measurable (X n)) (hind : iIndepFun X μ)
    (hunif : ∀ n p, 0 ≤ p → p ≤ 1 → μ {θ | X n θ < p} = ENNReal.ofReal p) {k m : Nat} {p q : ℝ}
    (hp : 0 ≤ p ∧ p ≤ 1) (hq : 0 ≤ q ∧ q ≤ 1) {e : Nat → Nat → Nat} (he : Separate (k * m) e) (G : Θ → Graph ℝ)
    (hG : ∀ θ, Coupled (k * m) (blockProb m p q) e (fun j => X j θ) (G θ)) (a t : ℝ) (ha : 0 < a) (ht : 0 < t) :
    μ {θ | ¬ (G θ).abs.Typical k m p q a t} ≤ ENNReal.ofReal (atypical k m a t) := by
  have hsub : {θ | ¬ (G θ).abs.Typical k m p q a t} ⊆
      (⋃ z ∈ range (k * m) ×ˢ range k, {θ | a ≤ |∑ v ∈ KMeans.cluster (k * m) (fun v => v / m) z.2,
        (G θ).abs.noise m p q z.1 v|}) ∪
      ⋃ z ∈ (range (k * m) ×ˢ range (k * m)).filter (fun z => z.1 ≠ z.2),
        {θ | t ≤ |∑ x ∈ range (k * m), (G θ).abs.noise m p q z.1 x * (G θ).abs.noise m p q x z.2|} := by
    intro θ hθ
    rw [Set.mem_ofPred_eq] at hθ
    by_contra hno
    apply hθ
    rw [Set.mem_union, not_or] at hno
    simp only [Set.mem_iUnion, not_exists, mem_product, mem_range, mem_filter, Set.mem_ofPred_eq, not_le] at hno
    exact ⟨(hG θ).size, fun u hu i hi => (hno.1 (u, i) ⟨hu, hi⟩).le,
      fun u hu v hv huv => (hno.2 (u, v) ⟨⟨hu, hv⟩, huv⟩).le⟩
  have hcl : ∀ i, (KMeans.cluster (k * m) (fun v => v / m) i).card ≤ m := by
    intro i
    by_cases hm0 : m = 0
    · have : KMeans.cluster (k * m) (fun v => v / m) i ⊆ range (k * m) := filter_subset _ _
      have := card_le_card this
      rw [card_range, hm0] at this
      rw [hm0]
      simpa using this
    · have : KMeans.cluster (k * m) (fun v => v / m) i ⊆ Finset.Ico (i * m) (i * m + m) := by
        intro v hv
        have hvi : v / m = i := (mem_filter.1 hv).2
        rw [Finset.mem_Ico]
        have h1 := Nat.div_mul_le_self v m
        have h2 := Nat.lt_div_mul_add (Nat.pos_of_ne_zero hm0) (a := v)
        rw [hvi] at h1 h2
        exact ⟨h1, h2⟩
      refine le_trans (card_le_card this) ?_
      rw [Nat.card_Ico]
      omega
  refine le_trans (measure_mono hsub) (le_trans (measure_union_le _ _) ?_)
  unfold atypical
  rw [ENNReal.ofReal_add (by positivity) (by positivity)]
  apply add_le_add
  · refine le_trans (measure_biUnion_finset_le _ _) ?_
    refine le_trans (Finset.sum_le_sum fun z hz => nbrs_tail hm hind hunif hp hq he G hG z.1
      (mem_range.1 (mem_product.1 hz).1) _ (filter_subset _ _) m (hcl z.2) a ha) ?_
    rw [Finset.sum_const, card_product, card_range, card_range, nsmul_eq_mul, ← ENNReal.ofReal_natCast,
      ← ENNReal.ofReal_mul (by positivity)]
    apply ENNReal.ofReal_le_ofReal
    push_cast
    apply le_of_eq
    ring
  · refine le_trans (measure_biUnion_finset_le _ _) ?_
    refine le_trans (Finset.sum_le_sum fun z hz => ?_) (b := ∑ z ∈ (range (k * m) ×ˢ range (k * m)).filter
      (fun z => z.1 ≠ z.2), ENNReal.ofReal (2 * Real.exp (-(t ^ 2 / (2 * (k * m)))))) ?_
    · have h1 := mem_filter.1 hz
      have h2 := mem_product.1 h1.1
      have := codeg_tail hm hind hunif hp hq he G hG z.1 z.2 (mem_range.1 h2.1) (mem_range.1 h2.2) h1.2 t ht
      push_cast at this
      exact this
    rw [Finset.sum_const, nsmul_eq_mul, ← ENNReal.ofReal_natCast, ← ENNReal.ofReal_mul (by positivity)]
    apply ENNReal.ofReal_le_ofReal
    have hc : (((range (k * m) ×ˢ range (k * m)).filter (fun z => z.1 ≠ z.2)).card : ℝ) ≤ (k * m) ^ 2 := by
      have := card_le_card (filter_subset (fun z : Nat × Nat => z.1 ≠ z.2) (range (k * m) ×ˢ range (k * m)))
      rw [card_product, card_range] at this
      have h3 : (((range (k * m) ×ˢ range (k * m)).filter (fun z => z.1 ≠ z.2)).card : ℝ) ≤ ((k * m * (k * m) : ℕ) : ℝ) := by
        exact_mod_cast this
      push_cast at h3
      rw [sq]
      exact h3
    have := mul_le_mul_of_nonneg_right hc (show 0 ≤ 2 * Real.exp (-(t ^ 2 / (2 * (k * m)))) by positivity)
    linarith

end
end Stag
