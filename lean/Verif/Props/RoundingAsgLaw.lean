import Verif.Props.RoundingAsg
import Verif.Props.AsgComponents

/-!
# C101: the samples of `approximate_similarity_graph` in floating point and in exact arithmetic
-/

namespace Stag

open MeasureTheory ProbabilityTheory Real
open scoped ENNReal

/-! ## The rows that the draws fall on -/

/-- The row a number falls on, in floating point. -/
noncomputable def rowOfFl (R : Rounding ℝ) (E : LibExp) (e : ExactKde) (q : List ℝ) (degree r : ℝ) : Option Int :=
  pickFl R E e.a q (R.fl (degree * r)) e.minId e.allData 0

theorem sampleLoopFl_sorted (fl : ℝ → ℝ) (E : LibExp) (a : ℝ) (q : List ℝ) (data : List (List ℝ)) : ∀ (i : Int) (total : ℝ)
    (targets : List ℝ) (samples : List Int), samples.Pairwise (· ≤ ·) → (∀ s ∈ samples, s ≤ i) →
    (sampleLoopFl fl E a q i data total targets samples).Pairwise (· ≤ ·) := by
  induction data with
  | nil => intro i total targets samples h _; exact h
  | cons x data ih =>
    intro i total targets samples h hi
    unfold sampleLoopFl
    simp only
    have h1 : ∀ n, (samples ++ List.replicate n i).Pairwise (· ≤ ·) := by
      intro n
      rw [List.pairwise_append]
      refine ⟨h, List.pairwise_replicate.2 (.inr le_rfl), fun a ha b hb => ?_⟩
      rw [List.eq_of_mem_replicate hb]
      exact hi a ha
    split_ifs
    · exact h1 _
    · apply ih _ _ _ _ (h1 _)
      intro s hs
      rcases List.mem_append.1 hs with hs | hs
      · have := hi s hs; omega
      · rw [List.eq_of_mem_replicate hs]; omega

theorem sampleNeighborsFl_eq (R : Rounding ℝ) (E : LibExp) (e : ExactKde) (q : List ℝ) (degree : ℝ) (rs : List ℝ) :
    e.sampleNeighborsFl R.fl E q degree rs
      = ((rs.map (rowOfFl R E e q degree)).filterMap id).mergeSort (fun x y => decide (x ≤ y)) := by
  have hp : (e.sampleNeighborsFl R.fl E q degree rs).Perm
      (((rs.map (rowOfFl R E e q degree)).filterMap id).mergeSort (fun x y => decide (x ≤ y))) := by
    refine List.Perm.trans ?_ (List.mergeSort_perm _ _).symm
    rw [List.filterMap_map]
    unfold ExactKde.sampleNeighborsFl
    simp only
    have hsort := List.pairwise_mergeSort (le := fun x y : ℝ => decide (x ≤ y))
      (by intro a b c; simp only [decide_eq_true_eq]; exact le_trans)
      (by intro a b; simp only [Bool.or_eq_true, decide_eq_true_eq]; exact le_total a b)
      (rs.map (fun r => R.fl (degree * r)))
    rw [sampleLoopFl_eq _ _ _ _ _ _ _ _ (hsort.imp (by simp)), List.nil_append]
    have h2 := (List.mergeSort_perm (rs.map (fun r => R.fl (degree * r))) (fun x y => decide (x ≤ y))).filterMap
      (fun t => pickFl R E e.a q t e.minId e.allData 0)
    rw [List.filterMap_map] at h2
    exact h2
  have hs := List.pairwise_mergeSort (le := fun x y : Int => decide (x ≤ y))
    (by intro a b c; simp only [decide_eq_true_eq]; exact le_trans)
    (by intro a b; simp only [Bool.or_eq_true, decide_eq_true_eq]; exact le_total a b)
    ((rs.map (rowOfFl R E e q degree)).filterMap id)
  simp only [decide_eq_true_eq] at hs
  refine List.Perm.eq_of_pairwise (fun a b _ _ h1 h2 => le_antisymm h1 h2) ?_ hs hp
  exact sampleLoopFl_sorted _ _ _ _ _ _ _ _ _ List.Pairwise.nil (by simp)

theorem sameRow (R : Rounding ℝ) (E : LibExp) (e : ExactKde) (ha : 0 ≤ e.a) (q : List ℝ) {degree degree' r : ℝ}
    (h : ∀ k, 1 ≤ k → k ≤ e.allData.length →
      (degree * r < cumWeight e.a q e.allData k ↔ R.fl (degree' * r) < cumWeightFl R E e.a q e.allData k)) :
    rowOfFl R E e q degree' r = rowOf e q degree r := by
  apply Option.ext
  intro i
  unfold rowOfFl rowOf
  rw [pickFl_spec _ _ ha _ _ _ _ _ _ Rounding.fl_zero, pick_spec]
  refine exists_congr fun k => and_congr_right fun _ => and_congr_right fun hk => ?_
  have h1 := h (k + 1) (by omega) (by omega)
  refine and_congr ?_ ?_
  · by_cases h0 : k = 0
    · simp [h0]
    · have h2 := h k (by omega) (by omega)
      simp only [h0, false_or, zero_add]
      rw [← not_lt, ← not_lt, h2]
      rfl
  · rw [zero_add, h1]
    rfl

/-! ## One leaf -/

/-- The relative error of the running totals for `n` rows with `d` coordinates. -/
noncomputable def totalErr (R : Rounding ℝ) (E : LibExp) (n d : Nat) : ℝ :=
  (R.g ^ (n + 3) - 1) + R.g ^ (n + 3) * (n * kernelErr R E d)

theorem kernelErr_nonneg (R : Rounding ℝ) (E : LibExp) (d : Nat) : 0 ≤ kernelErr R E d :=
  (abs_nonneg _).trans ((C82_kernel R E 0 le_rfl (List.replicate d 0) []).2.2.trans_eq (by rw [List.length_replicate]; rfl))

theorem totalErr_nonneg (R : Rounding ℝ) (E : LibExp) (n d : Nat) : 0 ≤ totalErr R E n d := by
  have h1 := Rounding.g_pow_one_le (R := R) (n + 3)
  have h2 := kernelErr_nonneg R E d
  unfold totalErr
  have : 0 ≤ R.g ^ (n + 3) * ((n : ℝ) * kernelErr R E d) := mul_nonneg (by linarith) (mul_nonneg (Nat.cast_nonneg _) h2)
  linarith

theorem cumWeight_mono (a : ℝ) (q : List ℝ) (data : List (List ℝ)) {k l : Nat} (h : k ≤ l) :
    cumWeight a q data k ≤ cumWeight a q data l := by
  unfold cumWeight
  have e : data.take k = (data.take l).take k := by rw [List.take_take, min_eq_left h]
  rw [e]
  generalize data.take l = m
  conv_rhs => rw [← List.take_append_drop k m]
  rw [List.map_append, List.sum_append]
  have : 0 ≤ ((m.drop k).map (gauss a q)).sum := List.sum_nonneg fun x hx => by
    obtain ⟨p, -, rfl⟩ := List.mem_map.1 hx
    exact (exp_pos _).le
  linarith

section
variable {R : Rounding ℝ} {E : LibExp} {data : Mat ℝ} {a : ℝ} {cutoff : Nat} {est : Nat → Nat → List ℝ → ℝ}

/-- All data in one estimator. -/
theorem leaf_facts (hok : AsgFlOk R E data a cutoff est) (hn : 2 ≤ data.rows) (hc : data.rows ≤ cutoff) {v : Nat}
    (hv : v < data.rows) :
    ∃ S T d d' : ℝ, kernelDegree data a v = S ∧ cumWeight a (data.row v) (exactOn data a 0 (data.rows - 1)).allData data.rows = S ∧ 1 ≤ S ∧
      cumWeightFl R E a (data.row v) (exactOn data a 0 (data.rows - 1)).allData data.rows = T ∧
      (KdeTree.build est cutoff 0 0 (data.rows - 1) 0).weight data a (data.row v) = d ∧
      (KdeTree.build est cutoff 0 0 (data.rows - 1) 0).weightFl R.fl E data a (data.row v) = d' ∧
      d = ((data.rows : ℝ) - 1) / data.rows * S ∧ R.Near 2 d' (((data.rows : ℝ) - 1) / data.rows * T) ∧
      1 ≤ R.g ^ data.rows * T := by
  have hlen := exactOn_length (data := data) (a := a) 0 (data.rows - 1)
  have hlen' : (exactOn data a 0 (data.rows - 1)).allData.length = data.rows := by rw [hlen]; omega
  have hS : cumWeight a (data.row v) (exactOn data a 0 (data.rows - 1)).allData data.rows = kernelDegree data a v := by
    have := cumWeight_exactOn data a (data.row v) 0 (data.rows - 1)
    rw [hlen'] at this
    rw [this]
    unfold kernelSum kernelDegree
    rw [show Finset.Icc 0 (data.rows - 1) = Finset.range data.rows by ext x; simp; omega]
    rfl
  refine ⟨_, _, _, _, rfl, hS, one_le_kernelDegree data a hv, rfl, rfl, rfl, ?_, ?_, ?_⟩
  · exact leaf_weight hn hc rfl v
  · rw [KdeTree.build, if_neg (by omega), leaf_weightFl _ (by omega) (by omega) hok.counts]
    unfold leafTotal
    rw [show data.rows - 1 + 1 - 0 = data.rows by omega, Nat.sub_zero]
    have hT : 0 ≤ cumWeightFl R E a (data.row v) (exactOn data a 0 (data.rows - 1)).allData data.rows := by
      have := leafTotal_nonneg (R := R) (E := E) (data := data) hok.a0 (data.row v) 0 (data.rows - 1)
      unfold leafTotal at this
      rwa [show data.rows - 1 + 1 - 0 = data.rows by omega] at this
    generalize cumWeightFl R E a (data.row v) (exactOn data a 0 (data.rows - 1)).allData data.rows = T at *
    rw [Nat.cast_sub (by omega), Nat.cast_one, sub_add_cancel]
    have hN : (2 : ℝ) ≤ data.rows := by exact_mod_cast hn
    generalize (data.rows : ℝ) = N at *
    have h1 := Rounding.near_fl (R := R) (div_nonneg hT (by linarith : 0 ≤ N))
    have h2 := ((Rounding.Near.refl (R := R) (k := 0) (by linarith : 0 ≤ N - 1)).mul h1).fl
    have e : (N - 1) / N * T = (N - 1) * (T / N) := by ring
    rw [e]
    exact h2
  · have hnn : ∀ x ∈ (exactOn data a 0 (data.rows - 1)).allData.map (kernelOfFl R.fl E a (data.row v)), 0 ≤ x := by
      intro x hx
      obtain ⟨p, -, rfl⟩ := List.mem_map.1 hx
      exact (C82_kernel R E a hok.a0 (data.row v) p).1
    have hs := Rounding.sumFl_near (R := R) _ hnn (Rounding.Near.refl (k := 0) (le_refl 0))
    rw [List.length_map, hlen', zero_add, zero_add] at hs
    unfold cumWeightFl
    rw [List.take_of_length_le hlen'.le]
    refine le_trans ?_ hs.ge
    have hm : data.row v ∈ (exactOn data a 0 (data.rows - 1)).allData :=
      List.mem_map.2 ⟨v, List.mem_range.2 (by omega), by rw [Nat.zero_add]⟩
    have := List.single_le_sum hnn _ (List.mem_map_of_mem (f := kernelOfFl R.fl E a (data.row v)) hm)
    rwa [C82_kernel_self] at this

theorem target_err {N S T t t' G g3 c r : ℝ} (hN : 2 ≤ N) (hS : 1 ≤ S) (hT0 : 0 ≤ T) (hr0 : 0 ≤ r) (hr1 : r ≤ 1) (hG : 1 ≤ G)
    (hg : 1 ≤ g3) (hc : 0 ≤ c) (hT : |T - S| ≤ (G - 1) * S + G * c) (ht : t = (N - 1) / N * S * r)
    (ht' : |t' - (N - 1) / N * T * r| ≤ (g3 - 1) * ((N - 1) / N * T * r)) :
    |t' - t| ≤ ((G * g3 - 1) + G * g3 * c) * S := by
  obtain ⟨w, hw⟩ : ∃ w, w = (N - 1) / N * r := ⟨_, rfl⟩
  have hw0 : 0 ≤ w := by
    rw [hw]
    exact mul_nonneg (div_nonneg (by linarith) (by linarith)) hr0
  have hw1 : w ≤ 1 := by
    have h1 : (N - 1) / N ≤ 1 := by
      rw [div_le_one (by linarith)]
      linarith
    rw [hw]
    exact mul_le_one₀ h1 hr0 hr1
  have e1 : (N - 1) / N * T * r = w * T := by rw [hw]; ring
  have e2 : (N - 1) / N * S * r = w * S := by rw [hw]; ring
  rw [e1] at ht'
  rw [e2] at ht
  subst ht
  have hwT : w * T ≤ T := mul_le_of_le_one_left hT0 hw1
  have h1 : (g3 - 1) * (w * T) ≤ (g3 - 1) * T := mul_le_mul_of_nonneg_left hwT (by linarith)
  have h2 : |w * T - w * S| ≤ (G - 1) * S + G * c := by
    rw [← mul_sub, abs_mul, abs_of_nonneg hw0]
    exact (mul_le_of_le_one_left (abs_nonneg _) hw1).trans hT
  have h3 : T ≤ G * S + G * c := by
    have := (abs_le.1 hT).2
    linarith
  have h4 : (g3 - 1) * T ≤ (g3 - 1) * (G * S + G * c) := mul_le_mul_of_nonneg_left h3 (by linarith)
  have h5 : |t' - w * S| ≤ |t' - w * T| + |w * T - w * S| := abs_sub_le _ _ _
  have h6 : G * g3 * c ≤ G * g3 * c * S := le_mul_of_one_le_right (by positivity) hS
  nlinarith

theorem cum_err {S x x' G g3 c : ℝ} (hS : 1 ≤ S) (hG : 1 ≤ G) (hg : 1 ≤ g3) (hc : 0 ≤ c) (h : |x' - x| ≤ (G - 1) * S + G * c) :
    |x' - x| ≤ ((G * g3 - 1) + G * g3 * c) * S := by
  have h1 : G ≤ G * g3 := le_mul_of_one_le_right (by linarith) hg
  have h2 : G * c ≤ G * g3 * c := mul_le_mul_of_nonneg_right h1 hc
  have h3 : G * g3 * c ≤ G * g3 * c * S := le_mul_of_one_le_right (by positivity) hS
  have h4 : G * S ≤ G * g3 * S := mul_le_mul_of_nonneg_right h1 (by linarith)
  linarith

/-- A draw `r` away from the boundaries falls on the same row in floating point. -/
theorem leaf_sameRow (hok : AsgFlOk R E data a cutoff est) (hn : 2 ≤ data.rows) (hc : data.rows ≤ cutoff) {v : Nat}
    (hv : v < data.rows) {r : ℝ} (hr0 : 0 ≤ r) (hr1 : r ≤ 1)
    (hfar : ∀ k, 1 ≤ k → k ≤ data.rows →
      2 * (totalErr R E data.rows data.cols * kernelDegree data a v) <
        |(KdeTree.build est cutoff 0 0 (data.rows - 1) 0).weight data a (data.row v) * r -
          cumWeight a (data.row v) (exactOn data a 0 (data.rows - 1)).allData k|) :
    rowOfFl R E (exactOn data a 0 (data.rows - 1)) (data.row v)
        ((KdeTree.build est cutoff 0 0 (data.rows - 1) 0).weightFl R.fl E data a (data.row v)) r
      = rowOf (exactOn data a 0 (data.rows - 1)) (data.row v)
        ((KdeTree.build est cutoff 0 0 (data.rows - 1) 0).weight data a (data.row v)) r := by
  have hlen := exactOn_length (data := data) (a := a) 0 (data.rows - 1)
  have hlen' : (exactOn data a 0 (data.rows - 1)).allData.length = data.rows := by rw [hlen]; omega
  obtain ⟨S, T, d, d', eS, eC, hS, eT, ed, ed', hd, hd', hT1⟩ := leaf_facts (est := est) hok hn hc hv
  have hg1 := Rounding.one_le_g (R := R)
  have hG := Rounding.g_pow_one_le (R := R) data.rows
  have hg3 := Rounding.g_pow_one_le (R := R) 3
  have hκ := kernelErr_nonneg R E data.cols
  have hcum : ∀ k ≤ data.rows, |cumWeightFl R E a (data.row v) (exactOn data a 0 (data.rows - 1)).allData k -
      cumWeight a (data.row v) (exactOn data a 0 (data.rows - 1)).allData k|
        ≤ (R.g ^ data.rows - 1) * S + R.g ^ data.rows * (data.rows * kernelErr R E data.cols) := by
    intro k hk
    have h1 := C100_totals R E a hok.a0 (data.row v) (exactOn data a 0 (data.rows - 1)).allData k (by rw [hlen']; exact hk)
    rw [row_length] at h1
    refine h1.trans ?_
    have h2 : R.g ^ k ≤ R.g ^ data.rows := pow_le_pow_right₀ hg1 hk
    have h3 := cumWeight_mono a (data.row v) (exactOn data a 0 (data.rows - 1)).allData hk
    have h4 := cumWeight_nonneg a (data.row v) (exactOn data a 0 (data.rows - 1)).allData k
    rw [eC] at h3
    have h5 : (k : ℝ) ≤ data.rows := by exact_mod_cast hk
    have h6 := Rounding.g_pow_one_le (R := R) k
    apply add_le_add
    · exact mul_le_mul (by linarith) h3 h4 (by linarith)
    · exact mul_le_mul h2 (mul_le_mul_of_nonneg_right h5 hκ) (mul_nonneg (Nat.cast_nonneg _) hκ) (by linarith)
  apply sameRow R E (exactOn data a 0 (data.rows - 1)) hok.a0
  intro k hk1 hk2
  rw [hlen'] at hk2
  have hf := hfar k hk1 hk2
  have hck := cum_err hS hG hg3 (mul_nonneg (Nat.cast_nonneg _) hκ) (hcum k hk2)
  have hTS := hcum data.rows le_rfl
  rw [eT, eC] at hTS
  have hT0 : 0 ≤ T := by
    by_contra h
    have : R.g ^ data.rows * T < 0 := mul_neg_of_pos_of_neg (by linarith) (by linarith)
    linarith
  have hN : (2 : ℝ) ≤ data.rows := by exact_mod_cast hn
  have ht' : R.Near 3 (R.fl (d' * r)) (((data.rows : ℝ) - 1) / data.rows * T * r) :=
    (hd'.mul (Rounding.Near.refl (R := R) (k := 0) hr0)).fl
  have hte := target_err hN hS hT0 hr0 hr1 hG hg3 (mul_nonneg (Nat.cast_nonneg _) hκ) hTS (t := d * r) (by rw [hd])
    ht'.abs_sub
  rw [ed, eS] at hf
  rw [ed, ed', show (exactOn data a 0 (data.rows - 1)).a = a from rfl]
  have eτ : totalErr R E data.rows data.cols = R.g ^ data.rows * R.g ^ 3 - 1 + R.g ^ data.rows * R.g ^ 3 * (data.rows * kernelErr R E data.cols) := by
    unfold totalErr
    rw [pow_add]
  rw [eτ] at hf
  generalize (R.g ^ data.rows * R.g ^ 3 - 1 + R.g ^ data.rows * R.g ^ 3 * (data.rows * kernelErr R E data.cols)) * S = δ at *
  generalize cumWeightFl R E a (data.row v) (exactOn data a 0 (data.rows - 1)).allData k = x' at *
  generalize cumWeight a (data.row v) (exactOn data a 0 (data.rows - 1)).allData k = x at *
  generalize R.fl (d' * r) = t' at *
  generalize d * r = t at *
  rw [abs_le] at hte hck
  rw [lt_abs] at hf
  constructor
  · intro h
    rcases hf with hf | hf <;> linarith
  · intro h
    by_contra h'
    rcases hf with hf | hf <;> linarith

/-- Let the data fit into one leaf.  For a uniform random number the rounded and the exact code choose the
same row, except with probability at most `8 n τ`, `τ` the relative error of the running totals. -/
theorem draw_sameRow (hok : AsgFlOk R E data a cutoff est) (hn : 2 ≤ data.rows) (hc : data.rows ≤ cutoff) {v : Nat}
    (hv : v < data.rows) :
    unif {r | rowOfFl R E (exactOn data a 0 (data.rows - 1)) (data.row v)
        ((KdeTree.build est cutoff 0 0 (data.rows - 1) 0).weightFl R.fl E data a (data.row v)) r
      ≠ rowOf (exactOn data a 0 (data.rows - 1)) (data.row v)
        ((KdeTree.build est cutoff 0 0 (data.rows - 1) 0).weight data a (data.row v)) r}
      ≤ ENNReal.ofReal (8 * data.rows * totalErr R E data.rows data.cols) := by
  obtain ⟨S, T, d, d', eS, eC, hS, eT, ed, ed', hd, hd', hT1⟩ := leaf_facts (est := est) hok hn hc hv
  have hτ := totalErr_nonneg R E data.rows data.cols
  have hsame := fun r hr0 hr1 => leaf_sameRow (est := est) hok hn hc hv (r := r) hr0 hr1
  rw [ed, ed', eS] at *
  have hN : (2 : ℝ) ≤ data.rows := by exact_mod_cast hn
  have hdS : S / 2 ≤ d := by
    rw [hd]
    have : (1 : ℝ) / 2 ≤ ((data.rows : ℝ) - 1) / data.rows := by
      rw [le_div_iff₀ (by linarith)]
      linarith
    have := mul_le_mul_of_nonneg_right this (by linarith : 0 ≤ S)
    linarith
  have hd0 : 0 < d := by linarith
  obtain ⟨δ, hδ⟩ : ∃ δ, δ = 2 * (totalErr R E data.rows data.cols * S) := ⟨_, rfl⟩
  rw [← hδ] at hsame
  have hδ0 : 0 ≤ δ := by rw [hδ]; exact mul_nonneg (by norm_num) (mul_nonneg hτ (by linarith))
  obtain ⟨x, hx⟩ : ∃ x : Nat → ℝ, x = fun k => cumWeight a (data.row v) (exactOn data a 0 (data.rows - 1)).allData k := ⟨_, rfl⟩
  have hsub : {r | rowOfFl R E (exactOn data a 0 (data.rows - 1)) (data.row v) d' r
      ≠ rowOf (exactOn data a 0 (data.rows - 1)) (data.row v) d r} ∩ Set.Ico 0 1
      ⊆ ⋃ k ∈ Finset.Icc 1 data.rows, Set.Icc ((x k - δ) / d) ((x k + δ) / d) := by
    rintro r ⟨hr, hr0, hr1⟩
    by_contra hnot
    simp only [Set.mem_iUnion, not_exists] at hnot
    refine hr (hsame r hr0 hr1.le fun k hk1 hk2 => ?_)
    have := hnot k (Finset.mem_Icc.2 ⟨hk1, hk2⟩)
    by_contra hle
    rw [not_lt, abs_le] at hle
    refine this ⟨?_, ?_⟩
    · rw [div_le_iff₀ hd0, hx]
      linarith [hle.1]
    · rw [le_div_iff₀ hd0, hx]
      linarith [hle.2]
  unfold unif
  rw [Measure.restrict_apply' measurableSet_Ico]
  refine le_trans (measure_mono hsub) (le_trans (measure_biUnion_finset_le _ _) ?_)
  have hone : ∀ k ∈ Finset.Icc 1 data.rows, volume (Set.Icc ((x k - δ) / d) ((x k + δ) / d))
      ≤ ENNReal.ofReal (8 * totalErr R E data.rows data.cols) := by
    intro k _
    rw [Real.volume_Icc]
    apply ENNReal.ofReal_le_ofReal
    rw [← sub_div, div_le_iff₀ hd0]
    rw [hδ]
    have := mul_le_mul_of_nonneg_left hdS hτ
    linarith
  refine le_trans (Finset.sum_le_sum hone) (le_of_eq ?_)
  rw [Finset.sum_const, Nat.card_Icc, Nat.add_sub_cancel, nsmul_eq_mul, ← ENNReal.ofReal_natCast,
    ← ENNReal.ofReal_mul (Nat.cast_nonneg _)]
  congr 1
  ring

/-- **C101** (samples).  For `num` independent uniform numbers the rounded and the exact code return the same samples of row `v`, except
with probability at most `8 num n τ`. -/
theorem C101_samples (hok : AsgFlOk R E data a cutoff est) (hn : 2 ≤ data.rows) (hc : data.rows ≤ cutoff) {v : Nat}
    (hv : v < data.rows) (num : Nat) :
    (Measure.pi fun _ : Fin num => unif) {rs |
      (exactOn data a 0 (data.rows - 1)).sampleNeighborsFl R.fl E (data.row v)
        ((KdeTree.build est cutoff 0 0 (data.rows - 1) 0).weightFl R.fl E data a (data.row v)) (List.ofFn rs)
      ≠ (exactOn data a 0 (data.rows - 1)).sampleNeighbors (data.row v)
        ((KdeTree.build est cutoff 0 0 (data.rows - 1) 0).weight data a (data.row v)) (List.ofFn rs)}
      ≤ ENNReal.ofReal (num * (8 * data.rows * totalErr R E data.rows data.cols)) := by
  have h1 := draw_sameRow (est := est) hok hn hc hv
  generalize (KdeTree.build est cutoff 0 0 (data.rows - 1) 0).weightFl R.fl E data a (data.row v) = d' at *
  generalize (KdeTree.build est cutoff 0 0 (data.rows - 1) 0).weight data a (data.row v) = d at *
  generalize exactOn data a 0 (data.rows - 1) = e at *
  generalize data.row v = q at *
  have hsub : {rs : Fin num → ℝ | e.sampleNeighborsFl R.fl E q d' (List.ofFn rs) ≠ e.sampleNeighbors q d (List.ofFn rs)}
      ⊆ ⋃ i ∈ (Finset.univ : Finset (Fin num)), Function.eval i ⁻¹' {r | rowOfFl R E e q d' r ≠ rowOf e q d r} := by
    intro rs hrs
    by_contra hnot
    simp only [Set.mem_iUnion, Finset.mem_univ, Set.mem_preimage, Set.mem_ofPred_eq, Function.eval, ne_eq, exists_const,
      not_exists, not_not] at hnot
    apply hrs
    rw [sampleNeighborsFl_eq, sampleNeighbors_eq]
    congr 2
    rw [List.map_ofFn, List.map_ofFn]
    congr 1
    funext i
    exact hnot i
  refine le_trans (measure_mono hsub) (le_trans (measure_biUnion_finset_le _ _) ?_)
  have hone : ∀ i ∈ (Finset.univ : Finset (Fin num)), (Measure.pi fun _ : Fin num => unif)
      (Function.eval i ⁻¹' {r | rowOfFl R E e q d' r ≠ rowOf e q d r})
        ≤ ENNReal.ofReal (8 * data.rows * totalErr R E data.rows data.cols) := by
    intro i _
    refine le_trans ?_ h1
    exact (measurePreserving_eval (fun _ : Fin num => unif) i).measure_preimage_le _
  refine le_trans (Finset.sum_le_sum hone) (le_of_eq ?_)
  rw [Finset.sum_const, Finset.card_univ, Fintype.card_fin, nsmul_eq_mul, ← ENNReal.ofReal_natCast,
    ← ENNReal.ofReal_mul (Nat.cast_nonneg _)]

/-- In floating point the computed degrees are at least a quarter of `(3/4)^2`. -/
theorem leaf_weightFl_big (hok : AsgFlOk R E data a cutoff est) (hn : 2 ≤ data.rows) (hc : data.rows ≤ cutoff) {v : Nat}
    (hv : v < data.rows) : 1 / 8 ≤ (KdeTree.build est cutoff 0 0 (data.rows - 1) 0).weightFl R.fl E data a (data.row v) := by
  obtain ⟨S, T, d, d', eS, eC, hS, eT, ed, ed', hd, hd', hT1⟩ := leaf_facts (est := est) hok hn hc hv
  rw [ed']
  have hN : (2 : ℝ) ≤ data.rows := by exact_mod_cast hn
  have hu0 := R.u0
  have hsm := hok.small
  have hu4 : R.u ≤ 1 / 4 := by nlinarith
  have hpos := Rounding.one_sub_pos (R := R)
  have hG : (1 - R.u) ^ data.rows * R.g ^ data.rows = 1 := by
    unfold Rounding.g
    rw [← mul_pow, mul_one_div_cancel hpos.ne', one_pow]
  have hg2 : (1 - R.u) ^ 2 * R.g ^ 2 = 1 := by
    unfold Rounding.g
    rw [← mul_pow, mul_one_div_cancel hpos.ne', one_pow]
  have hb : 1 / 2 ≤ (1 - R.u) ^ data.rows := by
    have := one_add_mul_le_pow (a := -R.u) (by linarith) data.rows
    rw [← sub_eq_add_neg] at this
    linarith
  have hb2 : 9 / 16 ≤ (1 - R.u) ^ 2 := by nlinarith
  have hT : 1 / 2 ≤ T := by
    have h1 := mul_le_mul_of_nonneg_left hT1 (by linarith : 0 ≤ (1 - R.u) ^ data.rows)
    rw [← mul_assoc, hG, one_mul, mul_one] at h1
    linarith
  have hge := mul_le_mul_of_nonneg_left hd'.ge (by linarith : 0 ≤ (1 - R.u) ^ 2)
  rw [← mul_assoc ((1 - R.u) ^ 2) (R.g ^ 2), hg2, one_mul] at hge
  have hq : (1 : ℝ) / 2 ≤ ((data.rows : ℝ) - 1) / data.rows := by
    rw [le_div_iff₀ (by linarith)]
    linarith
  have h3 : 1 / 4 ≤ ((data.rows : ℝ) - 1) / data.rows * T := by nlinarith
  nlinarith

/-- The rounded graph has an edge exactly where a row was drawn. -/
theorem asgFl_support (hok : AsgFlOk R E data a cutoff est) (hn : 2 ≤ data.rows) (hc : data.rows ≤ cutoff) {ss : Nat → List Int}
    (hss : ∀ v < data.rows, GoodSample data.rows (ss v)) {i j : Nat} (hi : i < data.rows) (hj : j < data.rows) :
    thr (entrySum R.fl (valuesAt (sampledEdges 2 ss (fun v => 5 * R.fl ((KdeTree.build est cutoff 0 0 (data.rows - 1) 0).weightFl
        R.fl E data a (data.row v) / 5)) data.rows) i j)) ≠ 0 ↔ (j : Int) ∈ ss i ∨ (i : Int) ∈ ss j := by
  have hbig := fun v (hv : v < data.rows) => leaf_weightFl_big (est := est) hok hn hc hv
  obtain ⟨D, hD⟩ : ∃ D : Nat → ℝ, D = fun v => (KdeTree.build est cutoff 0 0 (data.rows - 1) 0).weightFl R.fl E data a (data.row v) :=
    ⟨_, rfl⟩
  have hbig' : ∀ v < data.rows, 1 / 8 ≤ D v := fun v hv => by rw [hD]; exact hbig v hv
  have hnear := sampledEdges_near R (n := data.rows) (degrees := D) (fun v hv => by linarith [hbig' v hv]) ss i j
  rw [sampledWeight_count _ _ _ _ _ hi hj fun v hv => ⟨(hss v hv).1, fun x hx => ((hss v hv).2 x hx).1⟩] at hnear
  have e : (fun v => 5 * R.fl ((KdeTree.build est cutoff 0 0 (data.rows - 1) 0).weightFl R.fl E data a (data.row v) / 5))
      = fun v => 5 * R.fl (D v / 5) := by rw [hD]
  rw [e]
  generalize entrySum R.fl (valuesAt (sampledEdges 2 ss (fun v => 5 * R.fl (D v / 5)) data.rows) i j) = W at *
  have hN : (2 : ℝ) ≤ data.rows := by exact_mod_cast hn
  have hu0 := R.u0
  have hsm := hok.small
  have hu4 : R.u ≤ 1 / 4 := by nlinarith
  have hpos := Rounding.one_sub_pos (R := R)
  have hg4 : (1 - R.u) ^ 4 * R.g ^ 4 = 1 := by
    unfold Rounding.g
    rw [← mul_pow, mul_one_div_cancel hpos.ne', one_pow]
  have hb4 : 1 / 4 ≤ (1 - R.u) ^ 4 := by
    have : (3 / 4 : ℝ) ^ 4 ≤ (1 - R.u) ^ 4 := pow_le_pow_left₀ (by norm_num) (by linarith) 4
    norm_num at this ⊢
    linarith
  have hge := mul_le_mul_of_nonneg_left hnear.ge (by linarith : 0 ≤ (1 - R.u) ^ 4)
  rw [← mul_assoc ((1 - R.u) ^ 4) (R.g ^ 4), hg4, one_mul] at hge
  have n1 : 0 ≤ D i / 5 * ((ss i).count (j : Int) : ℝ) := mul_nonneg (by linarith [hbig' i hi]) (Nat.cast_nonneg _)
  have n2 : 0 ≤ D j / 5 * ((ss j).count (i : Int) : ℝ) := mul_nonneg (by linarith [hbig' j hj]) (Nat.cast_nonneg _)
  have hcount : ∀ u < data.rows, ∀ c : Nat, 0 < c → 1 / 40 ≤ D u / 5 * (c : ℝ) := by
    intro u hu c hc
    have h1 : (1 : ℝ) ≤ c := by exact_mod_cast hc
    have := hbig' u hu
    nlinarith
  have heps : (epsilon : ℝ) < 1 / 160 := by
    unfold epsilon
    norm_num
  rw [← List.count_pos_iff, ← List.count_pos_iff]
  constructor
  · intro h
    by_contra hno
    push Not at hno
    have z1 : (ss i).count (j : Int) = 0 := by omega
    have z2 : (ss j).count (i : Int) = 0 := by omega
    rw [z1, z2, Nat.cast_zero, mul_zero, mul_zero, add_zero] at hnear
    rw [hnear.eq_zero rfl] at h
    exact h Graph.thr_zero
  · intro h
    have hsum : 1 / 40 ≤ D i / 5 * ((ss i).count (j : Int) : ℝ) + D j / 5 * ((ss j).count (i : Int) : ℝ) := by
      rcases h with h | h
      · linarith [hcount i hi _ h]
      · linarith [hcount j hj _ h]
    have hW : epsilon < W := by nlinarith
    unfold thr
    rw [if_pos hW]
    have : (0 : ℝ) < epsilon := by
      unfold epsilon
      norm_num
    exact (this.trans hW).ne'

end

/-! ## The graph -/

section
variable {Θ : Type} [MeasurableSpace Θ] {μ : Measure Θ}
variable {R : Rounding ℝ} {E : LibExp} {data : Mat ℝ} {a : ℝ} {cutoff : Nat} {est : Nat → Nat → List ℝ → ℝ} {tree : KdeTree}

/-- Two uniform random numbers for each of `n` rows, all of them independent. -/
structure UniformDraws (μ : Measure Θ) (n : Nat) (U : Nat → Θ → Fin 2 → ℝ) : Prop where
  measurable : ∀ v < n, Measurable (U v)
  independent : iIndepFun (fun v : Fin n => U v) μ
  law : ∀ v < n, μ.map (U v) = Measure.pi fun _ : Fin 2 => unif

/-- The samples of exact arithmetic from given numbers. -/
theorem UniformDraws.samples (hn : 2 ≤ data.rows) (hc : data.rows ≤ cutoff)
    (htree : tree = KdeTree.build est cutoff 0 0 (data.rows - 1) 0) {U : Nat → Θ → Fin 2 → ℝ} (hU : UniformDraws μ data.rows U) :
    IndependentDraws μ data a tree fun v θ => (exactOn data a 0 (data.rows - 1)).sampleNeighbors (data.row v)
      (tree.weight data a (data.row v)) (List.ofFn (U v θ)) := by
  have hm : ∀ v, @Measurable (Fin 2 → ℝ) (List Int) _ ⊤ fun rs => (exactOn data a 0 (data.rows - 1)).sampleNeighbors (data.row v)
      (tree.weight data a (data.row v)) (List.ofFn rs) := by
    intro v
    simp only [sampleNeighbors_eq]
    exact measurable_rows _ _ _ _ fun l => (l.filterMap id).mergeSort (fun x y => decide (x ≤ y))
  refine ⟨fun v hv l => ?_, ?_, fun v hv l => ?_⟩
  · exact (hU.measurable v hv) (hm v (MeasurableSpace.measurableSet_top (s := {l})))
  · let _ : MeasurableSpace (List Int) := ⊤
    exact hU.independent.comp (fun (v : Fin data.rows) rs => (exactOn data a 0 (data.rows - 1)).sampleNeighbors (data.row v)
      (tree.weight data a (data.row v)) (List.ofFn rs)) fun v => hm v
  · have e : tree = .leaf 0 (data.rows - 1) := by
      rw [htree, KdeTree.build, if_neg (by omega)]
    have h2 : μ {θ | (exactOn data a 0 (data.rows - 1)).sampleNeighbors (data.row v)
        (tree.weight data a (data.row v)) (List.ofFn (U v θ)) = l}
        = leafLaw (exactOn data a 0 (data.rows - 1)) (data.row v) (tree.weight data a (data.row v)) 2 l := by
      rw [leafLaw_apply, ← hU.law v hv]
      exact (Measure.map_apply (hU.measurable v hv) (hm v (MeasurableSpace.measurableSet_top (s := {l})))).symm
    rw [h2, e]
    simp only [KdeTree.law]
    rw [PMF.map_apply, tsum_eq_single l]
    · simp
    · intro b hb
      rw [if_neg]
      intro e
      cases e
      exact hb rfl

/-- The probability that the rounded samples of some row differ from the exact ones. -/
theorem samples_differ_le (hok : AsgFlOk R E data a cutoff est) (hn : 2 ≤ data.rows) (hc : data.rows ≤ cutoff)
    (htree : tree = KdeTree.build est cutoff 0 0 (data.rows - 1) 0) {U : Nat → Θ → Fin 2 → ℝ} (hU : UniformDraws μ data.rows U) :
    μ {θ | ∃ v < data.rows, (exactOn data a 0 (data.rows - 1)).sampleNeighborsFl R.fl E (data.row v)
        (tree.weightFl R.fl E data a (data.row v)) (List.ofFn (U v θ))
      ≠ (exactOn data a 0 (data.rows - 1)).sampleNeighbors (data.row v) (tree.weight data a (data.row v)) (List.ofFn (U v θ))}
      ≤ ENNReal.ofReal (16 * data.rows ^ 2 * totalErr R E data.rows data.cols) := by
  subst htree
  have hsub : {θ | ∃ v < data.rows, (exactOn data a 0 (data.rows - 1)).sampleNeighborsFl R.fl E (data.row v)
        ((KdeTree.build est cutoff 0 0 (data.rows - 1) 0).weightFl R.fl E data a (data.row v)) (List.ofFn (U v θ))
      ≠ (exactOn data a 0 (data.rows - 1)).sampleNeighbors (data.row v)
        ((KdeTree.build est cutoff 0 0 (data.rows - 1) 0).weight data a (data.row v)) (List.ofFn (U v θ))}
      ⊆ ⋃ v ∈ Finset.range data.rows, U v ⁻¹' {rs | (exactOn data a 0 (data.rows - 1)).sampleNeighborsFl R.fl E (data.row v)
        ((KdeTree.build est cutoff 0 0 (data.rows - 1) 0).weightFl R.fl E data a (data.row v)) (List.ofFn rs)
      ≠ (exactOn data a 0 (data.rows - 1)).sampleNeighbors (data.row v)
        ((KdeTree.build est cutoff 0 0 (data.rows - 1) 0).weight data a (data.row v)) (List.ofFn rs)} := by
    rintro θ ⟨v, hv, h⟩
    exact Set.mem_iUnion₂.2 ⟨v, Finset.mem_range.2 hv, h⟩
  refine le_trans (measure_mono hsub) (le_trans (measure_biUnion_finset_le _ _) ?_)
  have hone : ∀ v ∈ Finset.range data.rows, μ (U v ⁻¹' {rs | (exactOn data a 0 (data.rows - 1)).sampleNeighborsFl R.fl E (data.row v)
        ((KdeTree.build est cutoff 0 0 (data.rows - 1) 0).weightFl R.fl E data a (data.row v)) (List.ofFn rs)
      ≠ (exactOn data a 0 (data.rows - 1)).sampleNeighbors (data.row v)
        ((KdeTree.build est cutoff 0 0 (data.rows - 1) 0).weight data a (data.row v)) (List.ofFn rs)})
      ≤ ENNReal.ofReal (((2 : Nat) : ℝ) * (8 * data.rows * totalErr R E data.rows data.cols)) := by
    intro v hv
    have hv := Finset.mem_range.1 hv
    refine le_trans ?_ (C101_samples (est := est) hok hn hc hv 2)
    rw [← hU.law v hv]
    exact Measure.le_map_apply (hU.measurable v hv).aemeasurable _
  refine le_trans (Finset.sum_le_sum hone) (le_of_eq ?_)
  rw [Finset.sum_const, Finset.card_range, nsmul_eq_mul, ← ENNReal.ofReal_natCast, ← ENNReal.ofReal_mul (Nat.cast_nonneg _)]
  congr 1
  push_cast
  ring

/-- **C101**.  C98 holds of the rounded code too: let the data fit into one leaf, let the rows be labelled so that rows of the same label have
kernel at least `κ`, where `κ` is near one, and let the numbers drawn be independent and uniform.  Then, whatever the schedule,
`approximate_similarity_graph` in floating point returns a graph whose connected components are exactly the rows of equal labels, except
with the probability of C98 plus `16 n² τ`, `τ` the relative error of the running totals. -/
theorem C101_components [IsProbabilityMeasure μ] (hok : AsgFlOk R E data a cutoff est) (threads : Nat) (ht : 0 < threads)
    (hn : 2 ≤ data.rows) (hc : data.rows ≤ cutoff) (htree : tree = KdeTree.build est cutoff 0 0 (data.rows - 1) 0)
    {U : Nat → Θ → Fin 2 → ℝ} (hU : UniformDraws μ data.rows U) (cl : Nat → Nat) {κ : ℝ} (hκ : 0 < κ)
    (hk : ∀ u < data.rows, ∀ v < data.rows, cl u = cl v → κ ≤ exp (-(a * sqDist (data.row u) (data.row v))))
    (hκ1 : (data.rows / ((data.rows - 1) * κ)) ^ 2 ≤ (11 / 10 : ℝ)) :
    μ {θ | ¬ ∃ g : Graph ℝ,
        (∃ out, AsgFromFl R.fl data.rows threads 2 (fun v => tree.weightFl R.fl E data a (data.row v))
          (fun v => (exactOn data a 0 (data.rows - 1)).sampleNeighborsFl R.fl E (data.row v)
            (tree.weightFl R.fl E data a (data.row v)) (List.ofFn (U v θ))) out) ∧
        (∀ out, AsgFromFl R.fl data.rows threads 2 (fun v => tree.weightFl R.fl E data a (data.row v))
          (fun v => (exactOn data a 0 (data.rows - 1)).sampleNeighborsFl R.fl E (data.row v)
            (tree.weightFl R.fl E data a (data.row v)) (List.ofFn (U v θ))) out → out = .ok g) ∧
        g.Valid ∧ g.Pruned ∧ g.n = data.rows ∧
        ∀ u < data.rows, ∀ v < data.rows, (g.abs.Connected u v ↔ cl u = cl v)} ≤
      ENNReal.ofReal (
        4 * ∑ u ∈ Finset.range data.rows, ∑ v ∈ (Finset.range data.rows).filter (fun v => cl v ≠ cl u),
          exp (-(a * sqDist (data.row u) (data.row v)))
        + ∑ c ∈ (Finset.range data.rows).image cl, (8 / (((Finset.range data.rows).filter fun v => cl v = c).card : ℝ)
          + ((Finset.range data.rows).filter fun v => cl v = c).card *
            (9 / 10) ^ ((Finset.range data.rows).filter fun v => cl v = c).card))
      + ENNReal.ofReal (16 * data.rows ^ 2 * totalErr R E data.rows data.cols) := by
  have hL := hU.samples (a := a) (est := est) hn hc htree
  have h1 := C98_components threads ht hn hc htree hL hok.a0 cl hκ hk hκ1
  have h2 := samples_differ_le (tree := tree) hok hn hc htree hU
  have hnull := ae_iff.1 (draws_good hn htree hL)
  have hpos := draws_weight_pos (a := a) hn (.inl hc) htree
  have hW : ∀ v < data.rows, 5 * epsilon < tree.weight data a (data.row v) := fun v hv =>
    lt_of_lt_of_le (by unfold epsilon; norm_num) (leaf_weight_big hn hc htree hv)
  refine le_trans (measure_mono ?_) (le_trans (measure_union_le _ _) (add_le_add h1 (le_trans (measure_union_le _ _)
    (le_trans (add_le_add h2 hnull.le) (add_zero _).le))))
  intro θ hθ
  by_contra hno
  simp only [Set.mem_union, not_or, Set.mem_ofPred_eq, not_not] at hno
  obtain ⟨⟨g, hex, hall, hv, hp, hgn, hcon⟩, hsame, hgood⟩ := hno
  push Not at hsame
  apply hθ
  have hess : ∀ v < data.rows, GoodSample data.rows ((exactOn data a 0 (data.rows - 1)).sampleNeighborsFl R.fl E (data.row v)
      (tree.weightFl R.fl E data a (data.row v)) (List.ofFn (U v θ))) := fun v hv => by
    rw [hsame v hv]
    exact hgood v hv
  obtain ⟨hex', g', hall', -, hv', hp', habs'⟩ := asgFromFl_graph R (n := data.rows)
    (degrees := fun v => tree.weightFl R.fl E data a (data.row v)) ht (fun v hv => by
      rw [htree]
      exact le_trans (by norm_num) (leaf_weightFl_big (est := est) hok hn hc hv)) hess
  refine ⟨g', hex', hall', hv', hp', congrArg WGraph.n habs', fun u hu v hv => ?_⟩
  rw [← hcon u hu v hv]
  obtain ⟨-, g2, hall2, -, -, habs2⟩ := asgFrom_graph (n := data.rows) (degrees := fun v => tree.weight data a (data.row v)) ht hpos hgood
  obtain ⟨out, hout⟩ := hex
  have heq : g2 = g := by
    have e1 := hall2 out hout
    have e2 := hall out hout
    rw [e1] at e2
    exact Outcome.ok.inj e2
  subst heq
  have hn' : g'.abs.n = data.rows := congrArg WGraph.n habs'
  have hn2 : g2.abs.n = data.rows := congrArg WGraph.n habs2
  have hadj : ∀ x y, g'.abs.Adj x y ↔ g2.abs.Adj x y := by
    intro x y
    unfold WGraph.Adj
    rw [hn', hn2]
    refine and_congr_right fun hx => and_congr_right fun hy => ?_
    have e1 := asgFl_support (est := est) hok hn hc hess hx hy
    rw [← htree] at e1
    rw [habs', habs2]
    refine e1.trans ?_
    rw [hsame x hx, hsame y hy]
    have hw := thr_sampled hgood hW hx hy
    change _ ↔ thr (sampledWeight _ _ _ _ _) ≠ 0
    rw [hw]
    have n1 : 0 < tree.weight data a (data.row x) / 5 := by linarith [hpos x]
    have n2 : 0 < tree.weight data a (data.row y) / 5 := by linarith [hpos y]
    rw [← List.count_pos_iff, ← List.count_pos_iff]
    generalize List.count (y : Int) _ = c1
    generalize List.count (x : Int) _ = c2
    constructor
    · intro h
      rcases h with h | h
      · exact (add_pos_of_pos_of_nonneg (mul_pos n1 (by exact_mod_cast h)) (mul_nonneg n2.le (Nat.cast_nonneg _))).ne'
      · exact (add_pos_of_nonneg_of_pos (mul_nonneg n1.le (Nat.cast_nonneg _)) (mul_pos n2 (by exact_mod_cast h))).ne'
    · intro h
      by_contra hz
      push Not at hz
      rw [show c1 = 0 by omega, show c2 = 0 by omega] at h
      simp at h
  have : g'.abs.Adj = g2.abs.Adj := by
    funext x y
    exact propext (hadj x y)
  unfold WGraph.Connected
  rw [this]

end

/-- **C101** (doubles).  In double precision, with an exponential function accurate to `2^-52`, the relative error `τ` is at most
`n (2 d + 15) 2^-52` for `n` rows with `d` coordinates. -/
theorem C101_double (E : LibExp) (hη : E.η ≤ (2 : ℝ) ^ (-52 : Int)) (hτ : E.τ ≤ (2 : ℝ) ^ (-52 : Int)) (n d : Nat)
    (hn : 2 ≤ n) (hn' : n + 3 ≤ 2 ^ 51) (hd : d + 4 ≤ 2 ^ 51) :
    0 ≤ totalErr (Rounding.binary ℝ 53 (by norm_num)) E n d ∧
    totalErr (Rounding.binary ℝ 53 (by norm_num)) E n d ≤ n * (2 * d + 15) * (2 : ℝ) ^ (-52 : Int) := by
  refine ⟨totalErr_nonneg _ _ _ _, ?_⟩
  have hu : (Rounding.binary ℝ 53 (by norm_num)).u = (2 : ℝ) ^ (-53 : Int) := rfl
  have hκ := C94_double E hη hτ d hd
  have hκ0 := kernelErr_nonneg (Rounding.binary ℝ 53 (by norm_num)) E d
  have hsmall : ((n + 3 : Nat) : ℝ) * (2 : ℝ) ^ (-53 : Int) ≤ 1 / 4 := by
    have : ((n + 3 : Nat) : ℝ) ≤ ((2 ^ 51 : Nat) : ℝ) := by exact_mod_cast hn'
    calc ((n + 3 : Nat) : ℝ) * (2 : ℝ) ^ (-53 : Int) ≤ ((2 ^ 51 : Nat) : ℝ) * (2 : ℝ) ^ (-53 : Int) :=
          mul_le_mul_of_nonneg_right this (by positivity)
      _ ≤ 1 / 4 := by norm_num
  have h1 := g_pow_sub_one_le (R := Rounding.binary ℝ 53 (by norm_num)) (k := n + 3) (by rw [hu]; linarith)
  rw [hu] at h1
  have hg1 := Rounding.g_pow_one_le (R := Rounding.binary ℝ 53 (by norm_num)) (n + 3)
  unfold totalErr
  generalize (Rounding.binary ℝ 53 (by norm_num)).g ^ (n + 3) = G at *
  generalize kernelErr (Rounding.binary ℝ 53 (by norm_num)) E d = κ at *
  have e : (2 : ℝ) ^ (-52 : Int) = 2 * (2 : ℝ) ^ (-53 : Int) := by norm_num
  rw [e] at hκ ⊢
  have hz : (0 : ℝ) ≤ (2 : ℝ) ^ (-53 : Int) := by positivity
  generalize (2 : ℝ) ^ (-53 : Int) = z at *
  have hnr : (2 : ℝ) ≤ n := by exact_mod_cast hn
  push_cast at h1 hsmall
  have h2 : G * ((n : ℝ) * κ) ≤ 2 * ((n : ℝ) * ((d + 6) * (2 * z))) :=
    mul_le_mul (by linarith) (mul_le_mul_of_nonneg_left hκ (by linarith)) (by positivity) (by norm_num)
  have h3 : ((n : ℝ) + 3) * z ≤ 3 * n * z := mul_le_mul_of_nonneg_right (by linarith) hz
  linarith

/-! ## Example -/

/-- Independent uniform numbers exist. -/
theorem uniformDraws_exist (n : Nat) : ∃ (Θ : Type) (_ : MeasurableSpace Θ) (μ : Measure Θ) (U : Nat → Θ → Fin 2 → ℝ),
    IsProbabilityMeasure μ ∧ UniformDraws μ n U := by
  refine ⟨Nat → Fin 2 → ℝ, inferInstance, Measure.infinitePi fun _ => Measure.pi fun _ : Fin 2 => unif, fun v θ => θ v, inferInstance,
    fun v _ => measurable_pi_apply (X := fun _ : Nat => Fin 2 → ℝ) v, ?_, fun v _ => ?_⟩
  · exact (iIndepFun_infinitePi (P := fun _ : Nat => Measure.pi fun _ : Fin 2 => unif) (X := fun _ => id) fun _ => measurable_id).precomp
      (g := fun v : Fin n => (v : Nat)) Fin.val_injective
  · exact Measure.infinitePi_map_eval (fun _ : Nat => Measure.pi fun _ : Fin 2 => unif) v

/-- One thousand points at 0 and one thousand points at 5, in double precision: except with probability `1 / 50` the connected components
of the computed graph are the two groups. -/
example (E : LibExp) (hη : E.η ≤ (2 : ℝ) ^ (-52 : Int)) (hτ : E.τ ≤ (2 : ℝ) ^ (-52 : Int)) :
    ∃ (Θ : Type) (_ : MeasurableSpace Θ) (μ : Measure Θ) (U : Nat → Θ → Fin 2 → ℝ)
    (data : Mat ℝ) (tree : KdeTree), IsProbabilityMeasure μ ∧ data.rows = 2000 ∧
    (∀ v < 1000, data.row v = [0]) ∧ (∀ v, 1000 ≤ v → v < 2000 → data.row v = [5]) ∧
    tree = KdeTree.build (fun _ _ _ => 0) 5000 0 0 (data.rows - 1) 0 ∧ UniformDraws μ data.rows U ∧
    μ {θ | ¬ ∃ g : Graph ℝ,
        (∀ out, AsgFromFl (flBin 53) data.rows 4 2 (fun v => tree.weightFl (flBin 53) E data 1 (data.row v))
          (fun v => (exactOn data 1 0 (data.rows - 1)).sampleNeighborsFl (flBin 53) E (data.row v)
            (tree.weightFl (flBin 53) E data 1 (data.row v)) (List.ofFn (U v θ))) out → out = .ok g) ∧
        ∀ u < 2000, ∀ v < 2000, (g.abs.Connected u v ↔ (u < 1000 ↔ v < 1000))} ≤ ENNReal.ofReal (1 / 50) := by
  obtain ⟨data, cl, hrows, hcols, r0, r1, hcl', hsame, hbound⟩ := twoGroups_exist
  obtain ⟨Θ, hΘ, μ, U, hμ, hU⟩ := uniformDraws_exist data.rows
  refine ⟨Θ, hΘ, μ, U, data, _, hμ, hrows, r0, r1, rfl, hU, ?_⟩
  have hok := C100_double E data 1 (by norm_num) 5000 (fun _ _ _ => 0) (by rw [hrows]; norm_num) (by rw [hrows]; norm_num)
  have hd := C101_double E hη hτ data.rows data.cols (by rw [hrows]; norm_num) (by rw [hrows]; norm_num) (by rw [hcols]; norm_num)
  refine le_trans (measure_mono fun θ hθ => ?_) (le_trans (C101_components hok 4 (by norm_num) (by rw [hrows]; norm_num)
    (by rw [hrows]; norm_num) rfl hU cl (κ := 1) one_pos ?_ ?_) ?_)
  · rw [Set.mem_ofPred_eq] at hθ ⊢
    refine fun hex => hθ ?_
    obtain ⟨g, -, h2, -, -, -, h5⟩ := hex
    refine ⟨g, h2, fun u hu v hv => ?_⟩
    rw [h5 u (by omega) v (by omega), hcl' u hu v hv]
  · intro u hu v hv h
    rw [hrows] at hu hv
    exact (hsame u hu v hv h).ge
  · rw [hrows]
    norm_num
  · refine le_trans (add_le_add (ENNReal.ofReal_le_ofReal hbound) (ENNReal.ofReal_le_ofReal (q := 1 / 1000) ?_)) ?_
    · generalize totalErr (Rounding.binary ℝ 53 (by norm_num)) E data.rows data.cols = τ at *
      rw [hrows, hcols] at *
      have := hd.2
      norm_num at this ⊢
      linarith
    · rw [← ENNReal.ofReal_add (by norm_num) (by norm_num)]
      exact ENNReal.ofReal_le_ofReal (by norm_num)

end Stag
