import Verif.RoundingAsg
import Verif.Props.RoundingSimilarity
import Verif.Props.ApproxSimilarity

/-!
# C100: `approximate_similarity_graph` in floating point
-/

namespace Stag

open Pool Graph Real

/-! ## Samples from a leaf -/

section
variable {R : Rounding ℝ} (E : LibExp) (a : ℝ)

/-- The sum of the kernel values of the first `k` points that the code computes. -/
noncomputable def cumWeightFl (R : Rounding ℝ) (E : LibExp) (a : ℝ) (q : List ℝ) (data : List (List ℝ)) (k : Nat) : ℝ :=
  sumFl R.fl ((data.take k).map (kernelOfFl R.fl E a q)) 0

/-- Point number `k` is the one the target `t` falls on, for the computed sums. -/
def FallsOnFl (R : Rounding ℝ) (E : LibExp) (a : ℝ) (q : List ℝ) (data : List (List ℝ)) (t : ℝ) (k : Nat) : Prop :=
  k < data.length ∧ (k = 0 ∨ cumWeightFl R E a q data k ≤ t) ∧ t < cumWeightFl R E a q data (k + 1)

theorem le_sumFl (xs : List ℝ) (hx : ∀ x ∈ xs, 0 ≤ x) : ∀ {acc : ℝ}, R.fl acc = acc → acc ≤ sumFl R.fl xs acc := by
  induction xs with
  | nil => intro acc _; exact le_refl _
  | cons x xs ih =>
    intro acc h
    exact (Rounding.fl_le_add h (hx x (by simp))).trans (ih (fun y hy => hx y (by simp [hy])) (R.idem _))

/-- The index chosen by the loop for the target `t`. -/
noncomputable def pickFl (R : Rounding ℝ) (E : LibExp) (a : ℝ) (q : List ℝ) (t : ℝ) : Int → List (List ℝ) → ℝ → Option Int
  | _, [], _ => none
  | i, x :: xs, total =>
    if t < R.fl (total + kernelOfFl R.fl E a q x) then some i
    else pickFl R E a q t (i + 1) xs (R.fl (total + kernelOfFl R.fl E a q x))

theorem sampleLoopFl_eq (q : List ℝ) (xs : List (List ℝ)) : ∀ (i : Int) (total : ℝ)
    (targets : List ℝ) (samples : List Int), targets.Pairwise (· ≤ ·) →
    sampleLoopFl R.fl E a q i xs total targets samples
      = samples ++ targets.filterMap (fun t => pickFl R E a q t i xs total) := by
  induction xs with
  | nil =>
    intro i total targets samples _
    have : targets.filterMap (fun t => pickFl R E a q t i [] total) = [] := by
      rw [List.filterMap_eq_nil_iff]; intro t _; rfl
    rw [this, List.append_nil]; rfl
  | cons x xs ih =>
    intro i total targets samples hs
    unfold sampleLoopFl
    dsimp only
    rw [takeWhile_drop_length]
    generalize hw : R.fl (total + kernelOfFl R.fl E a q x) = w
    have hsplit := List.takeWhile_append_dropWhile (p := fun t => decide (t < w)) (l := targets)
    have h1 : (targets.takeWhile (fun t => decide (t < w))).filterMap
        (fun t => pickFl R E a q t i (x :: xs) total)
        = List.replicate (targets.takeWhile (fun t => decide (t < w))).length i := by
      have : ∀ l : List ℝ, (∀ t ∈ l, t < w) →
          l.filterMap (fun t => pickFl R E a q t i (x :: xs) total) = List.replicate l.length i := by
        intro l
        induction l with
        | nil => intro _; rfl
        | cons t l ih2 =>
          intro h
          rw [List.filterMap_cons_some (b := i), ih2 (fun t ht => h t (by simp [ht])),
            List.length_cons, List.replicate_succ]
          unfold pickFl
          rw [hw, if_pos (h t (by simp))]
      exact this _ (fun t ht => by simpa using List.mem_takeWhile_imp ht)
    have h2 : (targets.dropWhile (fun t => decide (t < w))).filterMap
        (fun t => pickFl R E a q t i (x :: xs) total)
        = (targets.dropWhile (fun t => decide (t < w))).filterMap
          (fun t => pickFl R E a q t (i + 1) xs w) := by
      apply List.filterMap_congr
      intro t ht
      have := dropWhile_lt_sorted w targets hs t ht
      conv => lhs; unfold pickFl
      rw [hw, if_neg this]
    conv => rhs; rw [← hsplit]
    rw [List.filterMap_append, h1, h2]
    by_cases he : (targets.dropWhile (fun t => decide (t < w))).isEmpty = true
    · rw [if_pos he]
      rw [List.isEmpty_iff] at he
      rw [he]; simp
    · rw [if_neg he, ih, List.append_assoc]
      exact hs.sublist (List.dropWhile_sublist _)

theorem pickFl_spec (ha : 0 ≤ a) (q : List ℝ) (t : ℝ) (data : List (List ℝ)) : ∀ (i : Int) (total : ℝ) (r : Int),
    R.fl total = total → (pickFl R E a q t i data total = some r ↔
      ∃ k : Nat, r = i + k ∧ k < data.length ∧
        (k = 0 ∨ sumFl R.fl ((data.take k).map (kernelOfFl R.fl E a q)) total ≤ t) ∧
        t < sumFl R.fl ((data.take (k + 1)).map (kernelOfFl R.fl E a q)) total) := by
  have hk : ∀ l : List (List ℝ), ∀ x ∈ l.map (kernelOfFl R.fl E a q), 0 ≤ x := by
    intro l x hx
    obtain ⟨p, -, rfl⟩ := List.mem_map.1 hx
    exact (C82_kernel R E a ha q p).1
  induction data with
  | nil => intro i total r _; simp [pickFl]
  | cons x data ih =>
    intro i total r htot
    unfold pickFl
    have hcons : ∀ k, sumFl R.fl (((x :: data).take (k + 1)).map (kernelOfFl R.fl E a q)) total
        = sumFl R.fl ((data.take k).map (kernelOfFl R.fl E a q)) (R.fl (total + kernelOfFl R.fl E a q x)) := fun k => rfl
    by_cases h : t < R.fl (total + kernelOfFl R.fl E a q x)
    · rw [if_pos h]
      constructor
      · intro e
        cases e
        exact ⟨0, by simp, by simp, .inl rfl, h⟩
      · rintro ⟨k, rfl, hk', h1, h2⟩
        cases k with
        | zero => simp
        | succ k =>
          have h1 := h1.resolve_left (by omega)
          rw [hcons] at h1
          have := le_sumFl (R := R) _ (hk (data.take k)) (R.idem (total + kernelOfFl R.fl E a q x))
          exfalso; linarith
    · rw [if_neg h, ih _ _ _ (R.idem _)]
      constructor
      · rintro ⟨k, rfl, hk', h1, h2⟩
        refine ⟨k + 1, by push_cast; ring, by simpa using hk', .inr ?_, ?_⟩
        · rw [hcons]
          rcases h1 with h1 | h1
          · subst h1
            exact not_lt.1 h
          · exact h1
        · rw [hcons]; exact h2
      · rintro ⟨k, rfl, hk', h1, h2⟩
        cases k with
        | zero => exact absurd h2 h
        | succ k =>
          have h1 := h1.resolve_left (by omega)
          rw [hcons] at h1 h2
          exact ⟨k, by push_cast; ring, by simpa using hk', .inr h1, h2⟩

theorem pickFl_none (ha : 0 ≤ a) (q : List ℝ) (t : ℝ) (data : List (List ℝ)) : ∀ (i : Int) (total : ℝ),
    R.fl total = total → 0 < data.length → (pickFl R E a q t i data total = none ↔
      sumFl R.fl (data.map (kernelOfFl R.fl E a q)) total ≤ t) := by
  have hk : ∀ l : List (List ℝ), ∀ x ∈ l.map (kernelOfFl R.fl E a q), 0 ≤ x := by
    intro l x hx
    obtain ⟨p, -, rfl⟩ := List.mem_map.1 hx
    exact (C82_kernel R E a ha q p).1
  induction data with
  | nil => intro i total _ h; simp at h
  | cons x data ih =>
    intro i total htot _
    unfold pickFl
    have hcons : sumFl R.fl ((x :: data).map (kernelOfFl R.fl E a q)) total
        = sumFl R.fl (data.map (kernelOfFl R.fl E a q)) (R.fl (total + kernelOfFl R.fl E a q x)) := rfl
    rw [hcons]
    have hge := le_sumFl (R := R) _ (hk data) (R.idem (total + kernelOfFl R.fl E a q x))
    by_cases h : t < R.fl (total + kernelOfFl R.fl E a q x)
    · rw [if_pos h]
      simp only [reduceCtorEq, false_iff, not_le]
      linarith
    · rw [if_neg h]
      by_cases hd : data = []
      · subst hd
        simp only [pickFl, List.map_nil, sumFl, true_iff]
        exact not_lt.1 h
      · rw [ih _ _ (R.idem _) (List.length_pos_iff.2 hd)]

end

/-- **C100** (draws).  In floating point, `sample_neighbors(q, degree, rs)` on the estimator over the rows `min, ..., max - 1`
returns, up to order, for each draw `r` for which the computed `degree * r` is below the computed total of the kernel values, the
index of the point at which the running total first exceeds it, and nothing else. -/
theorem C100_draws (R : Rounding ℝ) (E : LibExp) (e : ExactKde) (ha : 0 ≤ e.a) (q : List ℝ) (degree : ℝ) (rs : List ℝ) :
    ∃ f : ℝ → Option Int,
      (e.sampleNeighborsFl R.fl E q degree rs).Perm (rs.filterMap f) ∧
      (∀ r i, f r = some i ↔ ∃ k : Nat, i = e.minId + k ∧ FallsOnFl R E e.a q e.allData (R.fl (degree * r)) k) ∧
      (e.allData ≠ [] → ∀ r, f r = none ↔ cumWeightFl R E e.a q e.allData e.allData.length ≤ R.fl (degree * r)) := by
  refine ⟨fun r => pickFl R E e.a q (R.fl (degree * r)) e.minId e.allData 0, ?_, fun r i => ?_, fun hd r => ?_⟩
  · unfold ExactKde.sampleNeighborsFl
    simp only
    have hsort := List.pairwise_mergeSort (le := fun x y : ℝ => decide (x ≤ y))
      (by intro a b c; simp only [decide_eq_true_eq]; exact le_trans)
      (by intro a b; simp only [Bool.or_eq_true, decide_eq_true_eq]; exact le_total a b)
      (rs.map (fun r => R.fl (degree * r)))
    rw [sampleLoopFl_eq _ _ _ _ _ _ _ _ (hsort.imp (by simp)), List.nil_append]
    have hperm := List.mergeSort_perm (rs.map (fun r => R.fl (degree * r))) (fun x y => decide (x ≤ y))
    have h2 := hperm.filterMap (fun t => pickFl R E e.a q t e.minId e.allData 0)
    rw [List.filterMap_map] at h2
    exact h2
  · rw [pickFl_spec _ _ ha _ _ _ _ _ _ Rounding.fl_zero]
    rfl
  · simp only
    rw [pickFl_none _ _ ha _ _ _ _ _ Rounding.fl_zero (List.length_pos_iff.2 hd)]
    unfold cumWeightFl
    rw [List.take_length]

theorem length_filterMap_some {α β : Type} (f : α → Option β) (l : List α) (h : ∀ r ∈ l, f r ≠ none) :
    (l.filterMap f).length = l.length := by
  induction l with
  | nil => rfl
  | cons x l ih =>
    obtain ⟨b, hb⟩ := Option.ne_none_iff_exists'.1 (h x (by simp))
    rw [List.filterMap_cons_some hb, List.length_cons, List.length_cons, ih (fun r hr => h r (by simp [hr]))]

theorem sampleFl_count (R : Rounding ℝ) (E : LibExp) (e : ExactKde) (ha : 0 ≤ e.a) (q : List ℝ) (degree : ℝ) (rs : List ℝ)
    (hd : e.allData ≠ [])
    (hr : ∀ r ∈ rs, R.fl (degree * r) < cumWeightFl R E e.a q e.allData e.allData.length) :
    (e.sampleNeighborsFl R.fl E q degree rs).length = rs.length ∧
    ∀ i ∈ e.sampleNeighborsFl R.fl E q degree rs, e.minId ≤ i ∧ i < e.minId + e.allData.length := by
  obtain ⟨f, hp, hf, hn⟩ := C100_draws R E e ha q degree rs
  constructor
  · rw [hp.length_eq]
    exact length_filterMap_some f rs (fun r hm e' => absurd ((hn hd r).1 e') (not_le.2 (hr r hm)))
  · intro i hi
    rw [hp.mem_iff, List.mem_filterMap] at hi
    obtain ⟨r, -, hr⟩ := hi
    obtain ⟨k, rfl, hk, -⟩ := (hf r i).1 hr
    omega

/-! ## Weights -/

/-- What the theorems assume: the numbers of rows are `double`s, and there are fewer than `1 / (2 u)` rows (`2^52` for `double`s);
either the data fit into one leaf, or the cutoff is at least two, the estimators answer positive numbers and no kernel value
between two rows underflows to zero. -/
structure AsgFlOk (R : Rounding ℝ) (E : LibExp) (data : Mat ℝ) (a : ℝ) (cutoff : Nat) (est : Nat → Nat → List ℝ → ℝ) : Prop where
  a0 : 0 ≤ a
  counts : ∀ m : Nat, m ≤ data.rows → R.fl m = m
  small : 2 * R.u * data.rows < 1
  tree : data.rows ≤ cutoff ∨ (2 ≤ cutoff ∧ (∀ lo hi q, 0 < est lo hi q) ∧
    ∀ i < data.rows, ∀ j < data.rows, 0 < kernelOfFl R.fl E a (data.row i) (data.row j))

section
variable {R : Rounding ℝ} {E : LibExp} {data : Mat ℝ} {a : ℝ}

/-- The computed total of the kernel values of the rows of a leaf. -/
noncomputable def leafTotal (R : Rounding ℝ) (E : LibExp) (data : Mat ℝ) (a : ℝ) (q : List ℝ) (lo hi : Nat) : ℝ :=
  cumWeightFl R E a q (exactOn data a lo hi).allData (hi + 1 - lo)

theorem exactOn_length (lo hi : Nat) : (exactOn data a lo hi).allData.length = hi + 1 - lo := by simp [exactOn]

theorem leaf_weightFl (q : List ℝ) {lo hi : Nat} (h : lo ≤ hi) (hr : hi < data.rows) (hcounts : ∀ m : Nat, m ≤ data.rows → R.fl m = m) :
    (KdeTree.leaf lo hi).weightFl R.fl E data a q
      = R.fl ((hi - lo : Nat) * R.fl (leafTotal R E data a q lo hi / ((hi - lo : Nat) + 1))) := by
  have hlen := exactOn_length (data := data) (a := a) lo hi
  unfold KdeTree.weightFl gaussianKdeExactFl leafTotal cumWeightFl
  dsimp only
  rw [foldl_sumFl, hlen, if_neg (by omega), Option.getD_some, ← hlen, List.take_length, hlen, hcounts _ (by omega), hcounts _ (by omega)]
  rw [show hi + 1 - lo = (hi - lo) + 1 by omega]
  push_cast
  rfl

theorem leafTotal_nonneg (ha : 0 ≤ a) (q : List ℝ) (lo hi : Nat) : 0 ≤ leafTotal R E data a q lo hi := by
  unfold leafTotal cumWeightFl
  refine le_sumFl (R := R) _ (fun x hx => ?_) Rounding.fl_zero
  obtain ⟨p, -, rfl⟩ := List.mem_map.1 hx
  exact (C82_kernel R E a ha q p).1

theorem leafTotal_pos (ha : 0 ≤ a) (q : List ℝ) {lo hi i : Nat} (h : lo ≤ i) (hi' : i ≤ hi)
    (hpos : 0 < kernelOfFl R.fl E a q (data.row i)) : 0 < leafTotal R E data a q lo hi := by
  unfold leafTotal cumWeightFl
  have hlen := exactOn_length (data := data) (a := a) lo hi
  rw [← hlen, List.take_length]
  have hnn : ∀ x ∈ (exactOn data a lo hi).allData.map (kernelOfFl R.fl E a q), 0 ≤ x := by
    intro x hx
    obtain ⟨p, -, rfl⟩ := List.mem_map.1 hx
    exact (C82_kernel R E a ha q p).1
  have hs := Rounding.sumFl_near (R := R) _ hnn (Rounding.Near.refl (k := 0) (le_refl 0))
  refine hs.pos ?_
  rw [zero_add]
  refine lt_of_lt_of_le hpos (List.single_le_sum hnn _ (List.mem_map_of_mem ?_))
  exact List.mem_map.2 ⟨i - lo, List.mem_range.2 (by omega), by rw [show lo + (i - lo) = i by omega]⟩

/-- The degree is below the total. -/
theorem leaf_lt_total (hcounts : ∀ m : Nat, m ≤ data.rows → R.fl m = m) (hsmall : 2 * R.u * data.rows < 1) (q : List ℝ)
    {lo hi : Nat} (h : lo ≤ hi) (hr : hi < data.rows) (hpos : 0 < leafTotal R E data a q lo hi) :
    (KdeTree.leaf lo hi).weightFl R.fl E data a q < leafTotal R E data a q lo hi := by
  rw [leaf_weightFl q h hr hcounts]
  generalize leafTotal R E data a q lo hi = T at *
  have hm : ((hi - lo : Nat) : ℝ) + 1 ≤ data.rows := by exact_mod_cast (by omega : hi - lo + 1 ≤ data.rows)
  have hm0 : (0 : ℝ) ≤ ((hi - lo : Nat) : ℝ) := Nat.cast_nonneg _
  generalize ((hi - lo : Nat) : ℝ) = m at *
  have hx : R.Near 2 (R.fl (m * R.fl (T / (m + 1)))) (m * (T / (m + 1))) := by
    have h1 := Rounding.near_fl (R := R) (div_nonneg hpos.le (by linarith : 0 ≤ m + 1))
    have h2 := ((Rounding.Near.refl (R := R) (k := 0) hm0).mul h1).fl
    exact h2
  have hle := hx.le
  have hu0 := R.u0
  have hu1 := Rounding.one_sub_pos (R := R)
  refine lt_of_le_of_lt hle ?_
  have hg : R.g ^ 2 * (m / (m + 1)) < 1 := by
    unfold Rounding.g
    rw [one_div, inv_pow, ← div_eq_inv_mul, div_div, div_lt_one (mul_pos (by linarith) (pow_pos hu1 2))]
    have h3 : R.u * (m + 1) ≤ R.u * data.rows := mul_le_mul_of_nonneg_left hm hu0
    nlinarith [mul_nonneg (mul_nonneg hu0 hu0) (by linarith : 0 ≤ m + 1)]
  calc R.g ^ 2 * (m * (T / (m + 1))) = R.g ^ 2 * (m / (m + 1)) * T := by ring
    _ < 1 * T := mul_lt_mul_of_pos_right hg hpos
    _ = T := one_mul T

theorem weightFl_fl (q : List ℝ) (t : KdeTree) :
    R.fl (t.weightFl R.fl E data a q) = t.weightFl R.fl E data a q := by
  cases t with
  | leaf lo hi => exact R.idem _
  | node lo hi est l r =>
    cases est with
    | none => exact R.idem _
    | some est => exact R.idem _

theorem leaf_weightFl_pos (hcounts : ∀ m : Nat, m ≤ data.rows → R.fl m = m) (q : List ℝ)
    {lo hi : Nat} (h : lo < hi) (hr : hi < data.rows) (hpos : 0 < leafTotal R E data a q lo hi) :
    0 < (KdeTree.leaf lo hi).weightFl R.fl E data a q := by
  rw [leaf_weightFl q h.le hr hcounts]
  have hm : (0 : ℝ) < ((hi - lo : Nat) : ℝ) := by exact_mod_cast (by omega : 0 < hi - lo)
  generalize ((hi - lo : Nat) : ℝ) = m at *
  have h1 : 0 < leafTotal R E data a q lo hi / (m + 1) := div_pos hpos (by linarith)
  have h2 := (Rounding.near_fl (R := R) h1.le).pos h1
  exact (Rounding.near_fl (R := R) (mul_pos hm h2).le).pos (mul_pos hm h2)

end

section
variable {R : Rounding ℝ} {E : LibExp} {data : Mat ℝ} {a : ℝ} {cutoff : Nat} {est : Nat → Nat → List ℝ → ℝ}

theorem weightFl_nonneg (hok : AsgFlOk R E data a cutoff est) {i lo hi : Nat} (hi' : i < data.rows) (dc : Int)
    (depth : Nat) (h : lo ≤ hi) (hr : hi < data.rows) (hin : (lo ≤ i ∧ i ≤ hi ∧ hi - lo < cutoff) ∨ ¬ data.rows ≤ cutoff) :
    0 ≤ (KdeTree.build est cutoff dc lo hi depth).weightFl R.fl E data a (data.row i) ∧
    (lo < hi → 0 < (KdeTree.build est cutoff dc lo hi depth).weightFl R.fl E data a (data.row i)) := by
  induction hm : hi - lo using Nat.strong_induction_on generalizing lo hi depth with
  | _ m ih =>
    have hker : ∃ j, lo ≤ j ∧ j ≤ hi ∧ 0 < kernelOfFl R.fl E a (data.row i) (data.row j) := by
      rcases hin with h1 | h1
      · exact ⟨i, h1.1, h1.2.1, by rw [C82_kernel_self]; norm_num⟩
      · exact ⟨lo, le_refl _, h, (hok.tree.resolve_left h1).2.2 i hi' lo (by omega)⟩
    obtain ⟨j, hj1, hj2, hj3⟩ := hker
    rw [KdeTree.build]
    by_cases hb : cutoff ≤ hi - lo ∧ lo < hi
    · rw [if_pos hb]
      have hin' := hin.resolve_left (by omega)
      obtain ⟨hc2, hest, hk⟩ := hok.tree.resolve_left hin'
      split_ifs with hd
      · simp only [KdeTree.weightFl]
        rw [hok.counts _ (by omega)]
        have : 0 < ((hi - lo : Nat) : ℝ) * est lo hi (data.row i) :=
          mul_pos (by exact_mod_cast (by omega : 0 < hi - lo)) (hest lo hi _)
        have := (Rounding.near_fl (R := R) this.le).pos this
        exact ⟨this.le, fun _ => this⟩
      · simp only [KdeTree.weightFl]
        have h1 := @ih _ (by omega) lo ((lo + hi) / 2) (depth + 1) (by omega) (by omega) (.inr hin') rfl
        have h2 := @ih _ (by omega) ((lo + hi) / 2 + 1) hi (depth + 1) (by omega) (by omega) (.inr hin') rfl
        have h3 := add_pos_of_pos_of_nonneg (h1.2 (by omega)) h2.1
        have := (Rounding.near_fl (R := R) h3.le).pos h3
        exact ⟨this.le, fun _ => this⟩
    · rw [if_neg hb]
      refine ⟨?_, fun hlt => leaf_weightFl_pos hok.counts _ hlt hr (leafTotal_pos hok.a0 _ hj1 hj2 hj3)⟩
      rw [leaf_weightFl _ h hr hok.counts]
      have := leafTotal_nonneg (R := R) (E := E) (data := data) hok.a0 (data.row i) lo hi
      exact Rounding.fl_nonneg (mul_nonneg (Nat.cast_nonneg _) (Rounding.fl_nonneg (div_nonneg this (by positivity))))

/-- **C100** (samples).  In floating point too, a call of `sample_neighbors` for a row of the data on a tree that the constructor makes is not
undefined, has a result, and returns exactly the requested number of rows, all of them rows of the node. -/
theorem C100_samples (hok : AsgFlOk R E data a cutoff est) {i : Nat} (hi' : i < data.rows) (dc : Int) (lo hi depth num : Nat)
    (h : lo ≤ hi) (hr : hi < data.rows) (hin : (lo ≤ i ∧ i ≤ hi ∧ hi - lo < cutoff) ∨ ¬ data.rows ≤ cutoff) :
    (∃ out, (KdeTree.build est cutoff dc lo hi depth).SampleFl R.fl E data a (data.row i) num out) ∧
    ∀ out, (KdeTree.build est cutoff dc lo hi depth).SampleFl R.fl E data a (data.row i) num out →
      ∃ ss, out = .ok ss ∧ ss.length = num ∧ ∀ v ∈ ss, (lo : Int) ≤ v ∧ v ≤ hi := by
  induction hm : hi - lo using Nat.strong_induction_on generalizing lo hi depth num with
  | _ m ih =>
    rw [KdeTree.build]
    by_cases hb : cutoff ≤ hi - lo ∧ lo < hi
    · rw [if_pos hb]
      have hin' := hin.resolve_left (by omega)
      obtain ⟨hc2, hest, hk⟩ := hok.tree.resolve_left hin'
      have hL := weightFl_nonneg hok hi' dc (depth + 1) (lo := lo) (hi := (lo + hi) / 2) (by omega) (by omega) (.inr hin')
      have hR := weightFl_nonneg hok hi' dc (depth + 1) (lo := (lo + hi) / 2 + 1) (hi := hi) (by omega) (by omega) (.inr hin')
      have hLp := hL.2 (by omega)
      have iL := fun k => ih _ (by omega) lo ((lo + hi) / 2) (depth + 1) k (by omega) (by omega) (.inr hin') rfl
      have iR := fun k => ih _ (by omega) ((lo + hi) / 2 + 1) hi (depth + 1) k (by omega) (by omega) (.inr hin') rfl
      have hLfl := weightFl_fl (R := R) (E := E) (data := data) (a := a) (data.row i)
        (KdeTree.build est cutoff dc lo ((lo + hi) / 2) (depth + 1))
      simp only [KdeTree.SampleFl]
      set L := KdeTree.weightFl R.fl E data a (data.row i) (KdeTree.build est cutoff dc lo ((lo + hi) / 2) (depth + 1))
      set Rt := KdeTree.weightFl R.fl E data a (data.row i) (KdeTree.build est cutoff dc ((lo + hi) / 2 + 1) hi (depth + 1))
      have hge : L ≤ R.fl (L + Rt) := Rounding.fl_le_add hLfl hR.1
      have hsum : 0 < R.fl (L + Rt) := lt_of_lt_of_le hLp hge
      have hrat : 0 < L / R.fl (L + Rt) := div_pos hLp hsum
      have hp := (Rounding.near_fl (R := R) hrat.le).pos hrat
      have hone : R.fl 1 = 1 := by have := hok.counts 1 (by omega); simpa using this
      have hp1 : R.fl (L / R.fl (L + Rt)) ≤ 1 := by
        rw [← hone]
        exact R.mono _ _ ((div_le_one hsum).2 hge)
      have hcond : R.fl (L + Rt) ≠ 0 ∧ 0 ≤ R.fl (L / R.fl (L + Rt)) ∧ R.fl (L / R.fl (L + Rt)) ≤ 1 :=
        ⟨hsum.ne', hp.le, hp1⟩
      simp only [if_neg (not_not.2 hcond)]
      constructor
      · obtain ⟨l, hl⟩ := (iL num).1
        by_cases h0 : num > 0
        · exact ⟨_, num, le_refl _, fun e => absurd e hp.ne', fun _ => rfl, l, .ok [],
            by rw [if_pos h0]; exact hl, by rw [if_neg (by omega)], rfl⟩
        · exact ⟨_, num, le_refl _, fun e => absurd e hp.ne', fun _ => rfl, .ok [], .ok [],
            by rw [if_neg h0], by rw [if_neg (by omega)], rfl⟩
      · rintro out ⟨nl, hnl, -, -, l, r, hl, hr', rfl⟩
        have hLs : ∃ ss, l = .ok ss ∧ ss.length = nl ∧ ∀ v ∈ ss, (lo : Int) ≤ v ∧ v ≤ hi := by
          split_ifs at hl with h0
          · obtain ⟨ss, h1, h2, h3⟩ := (iL nl).2 l hl
            refine ⟨ss, h1, h2, fun v hv => ?_⟩
            have := h3 v hv
            push_cast at this
            omega
          · exact ⟨[], hl, by simp; omega, by simp⟩
        have hRs : ∃ ss, r = .ok ss ∧ ss.length = num - nl ∧ ∀ v ∈ ss, (lo : Int) ≤ v ∧ v ≤ hi := by
          split_ifs at hr' with h0
          · obtain ⟨ss, h1, h2, h3⟩ := (iR _).2 r hr'
            refine ⟨ss, h1, h2, fun v hv => ?_⟩
            have := h3 v hv
            push_cast at this
            omega
          · exact ⟨[], hr', by simp; omega, by simp⟩
        obtain ⟨s1, rfl, hl1, hv1⟩ := hLs
        obtain ⟨s2, rfl, hl2, hv2⟩ := hRs
        refine ⟨s1 ++ s2, rfl, by rw [List.length_append]; omega, fun v hv => ?_⟩
        rcases List.mem_append.1 hv with hv | hv
        · exact hv1 v hv
        · exact hv2 v hv
    · rw [if_neg hb]
      simp only [KdeTree.SampleFl]
      refine ⟨⟨_, List.replicate num 0, by simp, fun r hr => ?_, rfl⟩, ?_⟩
      · rw [List.eq_of_mem_replicate hr]; norm_num
      · rintro out ⟨rs, hlen, hrs, rfl⟩
        have hker : ∃ j, lo ≤ j ∧ j ≤ hi ∧ 0 < kernelOfFl R.fl E a (data.row i) (data.row j) := by
          rcases hin with h1 | h1
          · exact ⟨i, h1.1, h1.2.1, by rw [C82_kernel_self]; norm_num⟩
          · exact ⟨lo, le_refl _, h, (hok.tree.resolve_left h1).2.2 i hi' lo (by omega)⟩
        obtain ⟨j, hj1, hj2, hj3⟩ := hker
        have hT := leafTotal_pos (R := R) (E := E) (data := data) hok.a0 (data.row i) hj1 hj2 hj3
        have hlt := leaf_lt_total hok.counts hok.small (data.row i) h hr hT
        have hfl := weightFl_fl (R := R) (E := E) (data := data) (a := a) (data.row i) (KdeTree.leaf lo hi)
        have hnn : 0 ≤ (KdeTree.leaf lo hi).weightFl R.fl E data a (data.row i) := by
          rw [leaf_weightFl _ h hr hok.counts]
          exact Rounding.fl_nonneg (mul_nonneg (Nat.cast_nonneg _) (Rounding.fl_nonneg (div_nonneg hT.le (by positivity))))
        have hlen' := exactOn_length (data := data) (a := a) lo hi
        obtain ⟨h1, h2⟩ := sampleFl_count R E (exactOn data a lo hi) hok.a0 (data.row i)
          ((KdeTree.leaf lo hi).weightFl R.fl E data a (data.row i)) rs (by
            rw [← List.length_pos_iff, hlen']; omega) (by
            intro r hrm
            obtain ⟨r0, r1⟩ := hrs r hrm
            rw [hlen']
            refine lt_of_le_of_lt ?_ hlt
            conv_rhs => rw [← hfl]
            exact R.mono _ _ (mul_le_of_le_one_right hnn r1.le))
        refine ⟨_, rfl, h1.trans hlen, fun v hv => ?_⟩
        have := h2 v hv
        rw [hlen', show (exactOn data a lo hi).minId = (lo : Int) from rfl] at this
        omega

end

/-! ## Graphs from triplets that may share places -/

/-- The values of the triplets at one place, in order. -/
def valuesAt (l : List (Triplet ℝ)) (i j : Nat) : List ℝ :=
  (l.filter fun t => decide (t.row = i) && decide (t.col = j)).map Triplet.val

theorem valuesAt_nil (i j : Nat) : valuesAt [] i j = [] := rfl

theorem valuesAt_cons (t : Triplet ℝ) (l : List (Triplet ℝ)) (i j : Nat) :
    valuesAt (t :: l) i j = (if t.row = i ∧ t.col = j then [t.val] else []) ++ valuesAt l i j := by
  unfold valuesAt
  rw [List.filter_cons]
  by_cases h : t.row = i ∧ t.col = j
  · rw [if_pos h, if_pos (by simp [h])]
    rfl
  · rw [if_neg h, if_neg (by simpa using h)]
    rfl

theorem valuesAt_append (l m : List (Triplet ℝ)) (i j : Nat) : valuesAt (l ++ m) i j = valuesAt l i j ++ valuesAt m i j := by
  unfold valuesAt
  rw [List.filter_append, List.map_append]

theorem valuesAt_flatMap {α : Type} (f : α → List (Triplet ℝ)) (xs : List α) (i j : Nat) :
    valuesAt (xs.flatMap f) i j = xs.flatMap fun x => valuesAt (f x) i j := by
  induction xs with
  | nil => rfl
  | cons x xs ih => rw [List.flatMap_cons, List.flatMap_cons, valuesAt_append, ih]

theorem valuesAt_sum (l : List (Triplet ℝ)) (i j : Nat) : (valuesAt l i j).sum = SprsMat.tripletSum l i j := by
  induction l with
  | nil => rw [valuesAt_nil, SprsMat.tripletSum_nil, List.sum_nil]
  | cons t l ih =>
    rw [valuesAt_cons, SprsMat.tripletSum_cons, List.sum_append, ih]
    split_ifs <;> simp

/-- What `setFromTriplets` computes for one place: the sum of the values in order, rounded from the second addition on. -/
noncomputable def entrySum (fl : ℝ → ℝ) (vs : List ℝ) : ℝ := vs.foldl (fun x v => addToEntryFl fl v x) 0

theorem foldl_updateFl_values (fl : ℝ → ℝ) (l : List (Triplet ℝ)) : ∀ (m : SprsMat ℝ), m.WF →
    (∀ t ∈ l, t.row < m.rows ∧ t.col < m.cols) →
    let m' := l.foldl (fun m t => m.update t.row t.col (addToEntryFl fl t.val)) m
    m'.WF ∧ m'.rows = m.rows ∧ m'.cols = m.cols ∧
      ∀ i j, m'.coeff i j = (valuesAt l i j).foldl (fun x v => addToEntryFl fl v x) (m.coeff i j) := by
  induction l with
  | nil => intro m hm _; exact ⟨hm, rfl, rfl, fun i j => rfl⟩
  | cons t l ih =>
    intro m hm hr
    have ht := hr t (by simp)
    have hc := fun a b => SprsMat.coeff_update hm ht.2 (i := t.row) (addToEntryFl fl t.val) a b
    obtain ⟨h1, h2, h3, h4⟩ := ih (m.update t.row t.col (addToEntryFl fl t.val)) (SprsMat.wf_update hm ht.1 _)
      (fun s hs => hr s (by simp [hs]))
    refine ⟨h1, h2, h3, fun i j => ?_⟩
    rw [List.foldl_cons, h4, hc, valuesAt_cons, List.foldl_append]
    by_cases h : i = t.row ∧ j = t.col
    · rw [if_pos h, if_pos ⟨h.1.symm, h.2.symm⟩, h.1, h.2]
      rfl
    · rw [if_neg h, if_neg fun h' => h ⟨h'.1.symm, h'.2.symm⟩]
      rfl

theorem foldl_entry_near {R : Rounding ℝ} (vs : List ℝ) (hv : ∀ v ∈ vs, 0 ≤ v) : ∀ {k : Nat} {x s : ℝ}, R.Near k x s →
    R.Near (k + vs.length) (vs.foldl (fun x v => addToEntryFl R.fl v x) x) (s + vs.sum) := by
  induction vs with
  | nil => intro k x s h; simpa using h
  | cons v vs ih =>
    intro k x s h
    have h1 : R.Near (k + 1) (addToEntryFl R.fl v x) (s + v) := by
      have hv0 := hv v (by simp)
      unfold addToEntryFl
      split_ifs with hx
      · rw [h.symm.eq_zero hx, zero_add]
        exact Rounding.Near.refl hv0
      · exact (h.add (Rounding.Near.refl (k := k) hv0)).fl
    have h2 := ih (fun y hy => hv y (by simp [hy])) h1
    rw [List.length_cons, List.sum_cons, ← add_assoc s]
    have e : k + 1 + vs.length = k + (vs.length + 1) := by omega
    rwa [e] at h2

theorem entrySum_near {R : Rounding ℝ} (vs : List ℝ) (hv : ∀ v ∈ vs, 0 ≤ v) :
    R.Near (vs.length - 1) (entrySum R.fl vs) vs.sum := by
  unfold entrySum
  cases vs with
  | nil => exact Rounding.Near.refl (le_refl 0)
  | cons v vs =>
    rw [List.foldl_cons, addToEntryFl_zero, List.length_cons, List.sum_cons]
    have := foldl_entry_near (R := R) vs (fun y hy => hv y (by simp [hy])) (Rounding.Near.refl (k := 0) (hv v (by simp)))
    rwa [zero_add] at this

/-- A graph from triplets: the weights are the rounded sums of the values at each place. -/
theorem graphOfTripletsFl_values (R : Rounding ℝ) {N : Nat} {l : List (Triplet ℝ)}
    (hl : ∀ t ∈ l, t.row < N ∧ t.col < N) (hn : ∀ t ∈ l, 0 ≤ t.val)
    (hs : ∀ i j, valuesAt l i j = valuesAt l j i) :
    ∃ g, graphOfTripletsFl R.fl N l = .ok g ∧ g.Reachable ∧ g.Valid ∧ g.Pruned ∧
      g.abs = ⟨N, fun i j => thr (entrySum R.fl (valuesAt l i j))⟩ := by
  obtain ⟨hw, hr, hc, hmc⟩ := foldl_updateFl_values R.fl l (SprsMat.empty N N) (SprsMat.wf_empty N N) hl
  obtain ⟨m, hmd⟩ : ∃ m, m = l.foldl (fun m t => m.update t.row t.col (addToEntryFl R.fl t.val)) (SprsMat.empty N N) :=
    ⟨_, rfl⟩
  rw [← hmd] at hw hr hc hmc
  have hm : setFromTripletsFl R.fl N N l = .ok m := by
    unfold setFromTripletsFl
    rw [if_pos, hmd]
    rw [List.all_eq_true]
    intro t ht
    simp [hl t ht]
  have hmc' : ∀ i j, m.coeff i j = entrySum R.fl (valuesAt l i j) := fun i j => by
    rw [hmc, SprsMat.coeff_empty]
    rfl
  have hes : ∀ i j, 0 ≤ entrySum R.fl (valuesAt l i j) := by
    intro i j
    refine (entrySum_near (R := R) _ fun v hv => ?_).x0
    obtain ⟨t, ht, rfl⟩ := List.mem_map.1 hv
    exact hn t (List.mem_of_mem_filter ht)
  have hnn : ∀ j, ∀ e ∈ m.col j, 0 ≤ e.2 := by
    intro j e he
    have h1 := Col.coeff_eq_of_mem (hw.sorted j) (r := e.1) (v := e.2) he
    have h2 := hmc' e.1 j
    unfold SprsMat.coeff at h2
    rw [← h1, h2]
    exact hes _ _
  have hrN : m.rows = N := hr
  have hcN : m.cols = N := hc
  obtain ⟨h1, _, h3⟩ := C01_construct_adjacency_iff hw (by omega) hnn
  obtain ⟨g, hg⟩ := h1.2 (fun i j => by rw [hmc', hmc', hs])
  obtain ⟨hgn, hgc⟩ := h3 g hg
  refine ⟨g, ?_, ⟨m, g, [], hw, hg, rfl⟩, (ofMatrix_ok hw hg).1, (ofMatrix_ok hw hg).2.1, ?_⟩
  · unfold graphOfTripletsFl
    rw [hm]
    change ofMatrixFl R.fl m = .ok g
    rw [ofMatrixFl_nonneg hw (fun i j => by rw [hmc']; exact hes i j), hg]
  · unfold Graph.abs
    congr 1
    · omega
    · funext i j; rw [hgc, hmc']

/-! ## The sampled edges -/

/-- The degrees of which the rounded weights are fifths. -/
theorem chunkWritesFl_eq (fl : ℝ → ℝ) (epn : Nat) (ss : Nat → List Int) (degrees : Nat → ℝ) (lo hi : Nat) :
    chunkWritesFl fl epn ss degrees lo hi = chunkWrites epn ss (fun i => 5 * fl (degrees i / 5)) lo hi := by
  unfold chunkWritesFl chunkWrites
  generalize hi - lo = count
  generalize 2 * (lo * epn) = next
  induction count generalizing lo next with
  | zero => rfl
  | succ c ih =>
    rw [chunkWritesLoopFl, chunkWritesLoop, ih]
    congr 2
    ring

theorem sampledEdges_symm (ss : Nat → List Int) (degrees : Nat → ℝ) (n i j : Nat) :
    valuesAt (sampledEdges 2 ss degrees n) i j = valuesAt (sampledEdges 2 ss degrees n) j i := by
  unfold sampledEdges
  simp only [valuesAt_flatMap, valuesAt_cons, valuesAt_nil, List.append_nil]
  congr 1
  funext v
  congr 1
  funext k
  generalize ((ss v).getD k 0).toNat = c
  by_cases h1 : v = i ∧ c = j
  · by_cases h2 : c = i ∧ v = j
    · rw [if_pos h1, if_pos h2, if_pos h2.symm, if_pos h1.symm]
    · rw [if_pos h1, if_neg h2, if_neg fun h => h2 h.symm, if_pos h1.symm]
      rfl
  · by_cases h2 : c = i ∧ v = j
    · rw [if_neg h1, if_pos h2, if_pos h2.symm, if_neg fun h => h1 h.symm]
      rfl
    · rw [if_neg h1, if_neg h2, if_neg fun h => h2 h.symm, if_neg fun h => h1 h.symm]

theorem sampledEdges_count (ss : Nat → List Int) (degrees : Nat → ℝ) (n i j : Nat) :
    (valuesAt (sampledEdges 2 ss degrees n) i j).length ≤ 4 := by
  unfold sampledEdges
  simp only [valuesAt_flatMap, valuesAt_cons, valuesAt_nil, List.append_nil, List.length_flatMap]
  have hb : ∀ v k, ((if v = i ∧ ((ss v).getD k 0).toNat = j then [degrees v / 5] else []) ++
      (if ((ss v).getD k 0).toNat = i ∧ v = j then [degrees v / 5] else []) : List ℝ).length
        ≤ (if v = i then 1 else 0) + (if v = j then 1 else 0) := by
    intro v k
    rw [List.length_append]
    apply Nat.add_le_add
    · split_ifs with h1 h2
      · exact le_refl _
      · exact absurd h1.1 h2
      · exact Nat.zero_le _
      · exact le_refl _
    · split_ifs with h1 h2
      · exact le_refl _
      · exact absurd h1.2 h2
      · exact Nat.zero_le _
      · exact le_refl _
  have hsum : ∀ v, ((List.range 2).map fun k => ((if v = i ∧ ((ss v).getD k 0).toNat = j then [degrees v / 5] else []) ++
      (if ((ss v).getD k 0).toNat = i ∧ v = j then [degrees v / 5] else []) : List ℝ).length).sum
        ≤ 2 * ((if v = i then 1 else 0) + (if v = j then 1 else 0)) := by
    intro v
    have h0 := hb v 0
    have h1 := hb v 1
    simp only [List.range_succ, List.range_zero, List.nil_append, List.map_append, List.map_cons, List.map_nil, List.sum_append,
      List.sum_cons, List.sum_nil, Nat.add_zero]
    omega
  refine le_trans (List.sum_le_sum fun v _ => hsum v) ?_
  rw [sum_list_range, ← Finset.mul_sum, Finset.sum_add_distrib]
  have h1 : ∀ c : Nat, ∑ x ∈ Finset.range n, (if x = c then 1 else 0) ≤ 1 := by
    intro c
    rw [Finset.sum_ite_eq']
    split_ifs <;> simp
  have := h1 i
  have := h1 j
  omega

/-- The graph built from given samples in floating point: for all schedules the weight of a pair is the rounded sum of the rounded
fifths of the degrees. -/
theorem asgFromFl_graph (R : Rounding ℝ) {n threads : Nat} {degrees : Nat → ℝ} {ss : Nat → List Int} (ht : 0 < threads)
    (hdp : ∀ v < n, 0 ≤ degrees v) (hss : ∀ i < n, (ss i).length = 2 ∧ ∀ v ∈ ss i, 0 ≤ v ∧ v < (n : Int)) :
    (∃ out, AsgFromFl R.fl n threads 2 degrees ss out) ∧
    ∃ g : Graph ℝ, (∀ out, AsgFromFl R.fl n threads 2 degrees ss out → out = .ok g) ∧ g.Reachable ∧ g.Valid ∧ g.Pruned ∧
      g.abs = ⟨n, fun i j => thr (entrySum R.fl (valuesAt (sampledEdges 2 ss (fun v => 5 * R.fl (degrees v / 5)) n) i j))⟩ := by
  obtain ⟨deg', hdeg'⟩ : ∃ d : Nat → ℝ, d = fun i => 5 * R.fl (degrees i / 5) := ⟨_, rfl⟩
  have hw : ∀ lo hi, chunkWritesFl R.fl 2 ss degrees lo hi = chunkWrites 2 ss deg' lo hi := by
    intro lo hi
    rw [chunkWritesFl_eq, hdeg']
  have htasks : asgTasksFl R.fl 2 ss degrees n threads = asgTasks 2 ss deg' n threads := by
    unfold asgTasksFl asgTasks
    simp only [hw]
  have hdp' : ∀ v < n, 0 ≤ deg' v / 5 := by
    intro v hv
    rw [hdeg']
    have := Rounding.fl_nonneg (R := R) (div_nonneg (hdp v hv) (by norm_num : (0 : ℝ) ≤ 5))
    linarith
  rw [← hdeg']
  have inb : ∀ i < n, ∀ k < 2, ((ss i).getD k 0).toNat < n := by
    intro i hi k hk
    rw [List.getD_eq_getElem _ _ (by rw [(hss i hi).1]; exact hk)]
    have := (hss i hi).2 _ (List.getElem_mem (l := ss i) (n := k) (by rw [(hss i hi).1]; exact hk))
    omega
  have hmem : ∀ t ∈ sampledEdges 2 ss deg' n, (t.row < n ∧ t.col < n) ∧ 0 ≤ t.val := by
    intro t htm
    unfold sampledEdges at htm
    simp only [List.mem_flatMap, List.mem_range, List.mem_cons, List.not_mem_nil, or_false] at htm
    obtain ⟨i, hi, k, hk, rfl | rfl⟩ := htm
    · exact ⟨⟨hi, inb i hi k hk⟩, hdp' i hi⟩
    · exact ⟨⟨inb i hi k hk, hi⟩, hdp' i hi⟩
  obtain ⟨g, hg, hreach, hv, hp, ha⟩ := graphOfTripletsFl_values R (fun t h => (hmem t h).1) (fun t h => (hmem t h).2)
    (sampledEdges_symm ss deg' n)
  have inRange : ¬ ∃ x ∈ chunkWrites 2 ss deg' 0 n, 2 * (n * 2) ≤ x.1 := by
    rintro ⟨x, hx, hle⟩
    have : x.1 ∈ List.range (2 * (n * 2)) := by
      rw [← nodes_index 2 ss deg' n]
      rw [chunkWrites_eq, Nat.sub_zero, ← List.range_eq_range'] at hx
      exact List.mem_map_of_mem hx
    rw [List.mem_range] at this
    omega
  have inRange' : ¬ ∃ c < threads, ∃ x ∈ chunkWrites 2 ss deg'
      (chunkStart n threads c) (chunkEnd n threads c), 2 * (n * 2) ≤ x.1 := by
    rintro ⟨c, hcl, x, hx, hle⟩
    have : x.1 ∈ List.range (2 * (n * 2)) := by
      rw [← C52_slots 2 ss deg' n threads ht, List.mem_flatMap]
      exact ⟨c, List.mem_range.2 hcl, List.mem_map_of_mem hx⟩
    rw [List.mem_range] at this
    omega
  have hno : ¬ ∃ i < n, (ss i).length < 2 ∨ ∃ v ∈ ss i, v < 0 := by
    rintro ⟨i, hi, h | ⟨v, hv, h⟩⟩
    · have := (hss i hi).1; omega
    · have := (hss i hi).2 v hv; omega
  unfold AsgFromFl
  simp only [if_neg hno, hw, htasks]
  constructor
  · by_cases hth : n ≤ threads * 2
    · refine ⟨graphOfTripletsFl R.fl n ((chunkWrites 2 ss deg' 0 n).foldl
        (fun edges x => edges.set x.1 x.2) (List.replicate (2 * (n * 2)) ⟨0, 0, 0⟩)), ?_⟩
      rw [if_pos hth, if_neg inRange]
    · obtain ⟨m, s, hex, hcs⟩ := C56_completes (T := asgTasks 2 ss deg' n threads) ht
        (proper_libProg threads [true])
        (S₀ := List.replicate (2 * (n * 2)) ⟨0, 0, 0⟩) Exec.nil
      refine ⟨graphOfTripletsFl R.fl n s.shared, ?_⟩
      rw [if_neg hth, if_neg inRange']
      exact ⟨m, 0, s, hex, hcs, rfl⟩
  · refine ⟨g, fun out hout => ?_, hreach, hv, hp, ha⟩
    split_ifs at hout with hth
    · rw [hout, writes_sequential, hg]
    · obtain ⟨m, k, s, hex, hcs, rfl⟩ := hout
      rw [C52_vector ht hex hcs, hg]

theorem near_sum {R : Rounding ℝ} {ι : Type} (s : Finset ι) {k : Nat} {f g : ι → ℝ} (h : ∀ x ∈ s, R.Near k (f x) (g x)) :
    R.Near k (∑ x ∈ s, f x) (∑ x ∈ s, g x) := by
  classical
  induction s using Finset.induction_on with
  | empty => exact Rounding.Near.refl (le_refl 0)
  | insert x s hx ih =>
    rw [Finset.sum_insert hx, Finset.sum_insert hx]
    exact (h x (by simp)).add (ih fun y hy => h y (by simp [hy]))

/-- The rounded weights are near the exact ones. -/
theorem sampledEdges_near (R : Rounding ℝ) {n : Nat} {degrees : Nat → ℝ} (hdp : ∀ v < n, 0 ≤ degrees v) (ss : Nat → List Int)
    (i j : Nat) : R.Near 4 (entrySum R.fl (valuesAt (sampledEdges 2 ss (fun v => 5 * R.fl (degrees v / 5)) n) i j))
      (sampledWeight n (fun v k => ((ss v).getD k 0).toNat) degrees i j) := by
  have hfl : ∀ v < n, R.Near 1 (R.fl (degrees v / 5)) (degrees v / 5) := fun v hv =>
    Rounding.near_fl (div_nonneg (hdp v hv) (by norm_num))
  have h1 := entrySum_near (R := R) (valuesAt (sampledEdges 2 ss (fun v => 5 * R.fl (degrees v / 5)) n) i j) (by
    intro x hx
    obtain ⟨t, ht, rfl⟩ := List.mem_map.1 hx
    have ht := List.mem_of_mem_filter ht
    unfold sampledEdges at ht
    simp only [List.mem_flatMap, List.mem_range, List.mem_cons, List.not_mem_nil, or_false] at ht
    obtain ⟨v, hv, k, -, rfl | rfl⟩ := ht
    · have := (hfl v hv).x0
      simp only
      linarith
    · have := (hfl v hv).x0
      simp only
      linarith)
  have h2 := h1.mono (l := 3) (by have := sampledEdges_count ss (fun v => 5 * R.fl (degrees v / 5)) n i j; omega)
  rw [valuesAt_sum, sampledEdges_sum] at h2
  refine Rounding.Near.trans (k := 3) (l := 1) h2 ?_
  unfold sampledWeight
  refine near_sum _ fun v hv => near_sum _ fun k _ => ?_
  have h5 : 5 * R.fl (degrees v / 5) / 5 = R.fl (degrees v / 5) := by ring
  have hz : R.Near 1 0 0 := Rounding.Near.refl (le_refl 0)
  have hd := hfl v (Finset.mem_range.1 hv)
  simp only [h5]
  refine Rounding.Near.add ?_ ?_
  · split_ifs
    · exact hd
    · exact hz
  · split_ifs
    · exact hd
    · exact hz

/-- **C100** (the graph).  `approximate_similarity_graph` in floating point, on at least two rows, with at least one thread, under the
conditions of `AsgFlOk`: for all random draws and all schedules the result is a graph on the rows (the symmetry check of the
constructor, which is exact, never fails).  Every row `v` has drawn two rows, a possible result of `sample_neighbors`, and the weight of a pair is, within four roundings, the sum
of a fifth of the computed degree of `v` for each draw that joins the pair, dropped when not above the pruning threshold. -/
theorem C100_graph (R : Rounding ℝ) (E : LibExp) (data : Mat ℝ) (a : ℝ) (cutoff threads : Nat) (est : Nat → Nat → List ℝ → ℝ)
    (hok : AsgFlOk R E data a cutoff est) (hn : 2 ≤ data.rows) (ht : 0 < threads) :
    (∃ out, ApproxSimilarityGraphFl R.fl E data a cutoff threads est out) ∧
    ∀ out, ApproxSimilarityGraphFl R.fl E data a cutoff threads est out →
      ∃ (g : Graph ℝ) (nb : Nat → Nat → Nat) (W : Nat → Nat → ℝ), out = .ok g ∧ g.Reachable ∧ g.Valid ∧ g.Pruned ∧
        (∀ v < data.rows, ∀ k < 2, nb v k < data.rows) ∧
        (∀ v < data.rows, (KdeTree.build est cutoff 0 0 (data.rows - 1) 0).SampleFl R.fl E data a (data.row v) 2
          (.ok [(nb v 0 : Int), (nb v 1 : Int)])) ∧
        (∀ i j, W i j = W j i ∧ R.Near 4 (W i j) (sampledWeight data.rows nb (fun v =>
          (KdeTree.build est cutoff 0 0 (data.rows - 1) 0).weightFl R.fl E data a (data.row v)) i j)) ∧
        g.abs = ⟨data.rows, fun i j => thr (W i j)⟩ := by
  have hdc : ⌊Real.log ((2 : Nat) : ℝ)⌋ = 0 := by
    rw [Int.floor_eq_zero_iff, Set.mem_Ico]
    have h1 := Real.log_two_gt_d9
    have h2 := Real.log_two_lt_d9
    push_cast
    constructor <;> linarith
  have hin : ∀ i < data.rows, (0 ≤ i ∧ i ≤ data.rows - 1 ∧ data.rows - 1 - 0 < cutoff) ∨ ¬ data.rows ≤ cutoff := by
    intro i hi
    by_cases h : data.rows ≤ cutoff
    · exact .inl ⟨Nat.zero_le _, by omega, by omega⟩
    · exact .inr h
  have hcut : ¬ (cutoff = 0 ∨ (2 : Nat) = 0) := by
    rcases hok.tree with h | h
    · omega
    · have := h.1
      omega
  have hS := fun v (hv : v < data.rows) => C100_samples hok hv 0 0 (data.rows - 1) 0 2 (by omega) (by omega) (hin v hv)
  have hW := fun v (hv : v < data.rows) =>
    (weightFl_nonneg hok hv 0 0 (lo := 0) (hi := data.rows - 1) (by omega) (by omega) (hin v hv)).1
  unfold ApproxSimilarityGraphFl
  simp only [edgesPerNode_eq _ hn, hdc]
  simp only [if_neg hcut]
  generalize hdeg : (fun v => (KdeTree.build est cutoff 0 0 (data.rows - 1) 0).weightFl R.fl E data a
    (data.row v)) = degrees
  have hdp : ∀ v < data.rows, 0 ≤ degrees v := fun v hv => by rw [← hdeg]; exact hW v hv
  have good : ∀ (samples : Nat → Outcome (List Int)), (∀ i < data.rows,
      (KdeTree.build est cutoff 0 0 (data.rows - 1) 0).SampleFl R.fl E data a (data.row i) 2 (samples i)) →
      ∀ i < data.rows, ∃ s, samples i = .ok s ∧ s.length = 2 ∧ ∀ v ∈ s, 0 ≤ v ∧ v < (data.rows : Int) := by
    intro samples hs i hi
    obtain ⟨s, h1, h2, h3⟩ := (hS i hi).2 _ (hs i hi)
    exact ⟨s, h1, h2, fun v hv => by have := h3 v hv; omega⟩
  constructor
  · choose! samples hsam using fun i (hi : i < data.rows) => (hS i hi).1
    choose! ss hss using good samples hsam
    obtain ⟨⟨out, hout⟩, -⟩ := asgFromFl_graph R ht hdp (fun i hi => (hss i hi).2)
    exact ⟨out, samples, hsam, .inr ⟨ss, fun i hi => (hss i hi).1, hout⟩⟩
  · rintro out ⟨samples, hsam, hout⟩
    have hgood := good samples hsam
    rcases hout with ⟨⟨i, hi, hub⟩, -⟩ | ⟨ss, hss, hout⟩
    · obtain ⟨s, hs, -⟩ := hgood i hi
      rw [hub] at hs
      cases hs
    · have hss' : ∀ i < data.rows, (ss i).length = 2 ∧ ∀ v ∈ ss i, 0 ≤ v ∧ v < (data.rows : Int) := by
        intro i hi
        obtain ⟨s, hs, h2⟩ := hgood i hi
        rw [hss i hi] at hs
        cases hs
        exact h2
      obtain ⟨-, g, hg, hreach, hv, hp, ha⟩ := asgFromFl_graph R ht hdp hss'
      refine ⟨g, fun v k => ((ss v).getD k 0).toNat, _, hg out hout, hreach, hv, hp, fun i hi k hk => ?_, fun i hi => ?_,
        fun i j => ⟨?_, sampledEdges_near R hdp ss i j⟩, ha⟩
      · beta_reduce
        rw [List.getD_eq_getElem _ _ (by rw [(hss' i hi).1]; exact hk)]
        have := (hss' i hi).2 _ (List.getElem_mem (l := ss i) (n := k) (by rw [(hss' i hi).1]; exact hk))
        omega
      · have h1 := hsam i hi
        rw [hss i hi] at h1
        obtain ⟨hl, hv⟩ := hss' i hi
        match hsi : ss i, hl with
        | [x, y], _ =>
          rw [hsi] at h1 hv
          have hx := hv x (by simp)
          have hy := hv y (by simp)
          beta_reduce
          rw [hsi]
          rw [show [((([x, y] : List Int).getD 0 0).toNat : Int), ((([x, y] : List Int).getD 1 0).toNat : Int)] = [x, y] by
            simp only [List.getD_cons_zero, List.getD_cons_succ, Int.toNat_of_nonneg hx.1, Int.toNat_of_nonneg hy.1]]
          exact h1
      · rw [sampledEdges_symm]

/-! ## Accuracy -/

/-- The computed running totals: the error of the sum of the first `k` kernel values is at most `g ^ k - 1` times the true sum plus
`g ^ k k` times the error of a kernel value. -/
theorem C100_totals (R : Rounding ℝ) (E : LibExp) (a : ℝ) (ha : 0 ≤ a) (q : List ℝ) (data : List (List ℝ)) (k : Nat)
    (hk : k ≤ data.length) :
    |cumWeightFl R E a q data k - cumWeight a q data k|
      ≤ (R.g ^ k - 1) * cumWeight a q data k + R.g ^ k * (k * kernelErr R E q.length) := by
  have hker := fun p => C82_kernel R E a ha q p
  have hlen : (data.take k).length = k := by rw [List.length_take]; omega
  have hs := Rounding.sumFl_near (R := R) ((data.take k).map (kernelOfFl R.fl E a q))
    (by intro x hx; obtain ⟨p, -, rfl⟩ := List.mem_map.1 hx; exact (hker p).1)
    (Rounding.Near.refl (k := 0) (le_refl 0))
  rw [List.length_map, hlen, zero_add, zero_add] at hs
  have h1 := hs.abs_sub
  have h2 := sum_abs_sub_le (data.take k) (kernelOfFl R.fl E a q) (gauss a q) (kernelErr R E q.length) (fun p => (hker p).2.2)
  rw [hlen] at h2
  unfold cumWeightFl cumWeight
  have hg := Rounding.g_pow_one_le (R := R) k
  generalize sumFl R.fl ((data.take k).map (kernelOfFl R.fl E a q)) 0 = A at *
  generalize ((data.take k).map (kernelOfFl R.fl E a q)).sum = B at *
  generalize ((data.take k).map (gauss a q)).sum = C at *
  generalize R.g ^ k = G at *
  generalize (k : ℝ) * kernelErr R E q.length = D at *
  rw [abs_le] at h1 h2 ⊢
  constructor <;> nlinarith [h1.1, h1.2, h2.1, h2.2]

/-- **C100** (degrees).  When the data fit into one leaf, the computed degree of row `v` differs from `(n - 1) / n` times the sum of the
kernel over all rows by at most `(n - 1) (u + (g ^ (n + 2) - 1) + ε)`, `ε` the error of a kernel value. -/
theorem C100_degrees (R : Rounding ℝ) (E : LibExp) (data : Mat ℝ) (a : ℝ) (cutoff : Nat) (est : Nat → Nat → List ℝ → ℝ)
    (hok : AsgFlOk R E data a cutoff est) (hn : 2 ≤ data.rows) (hc : data.rows ≤ cutoff) (v : Nat) :
    |(KdeTree.build est cutoff 0 0 (data.rows - 1) 0).weightFl R.fl E data a (data.row v)
      - ((data.rows : ℝ) - 1) / data.rows * ∑ i ∈ Finset.range data.rows, exp (-(a * sqDist (data.row v) (data.row i)))|
      ≤ ((data.rows : ℝ) - 1) * (R.u + (R.g ^ (data.rows + 2) - 1) + kernelErr R E data.cols) := by
  have hlen := exactOn_length (data := data) (a := a) 0 (data.rows - 1)
  have hlen' : (exactOn data a 0 (data.rows - 1)).allData.length = data.rows := by rw [hlen]; omega
  obtain ⟨x, hx, herr⟩ := C82_kde R E a hok.a0 (exactOn data a 0 (data.rows - 1)).allData (data.row v) (by
    rw [← List.length_pos_iff, hlen']; omega)
  obtain ⟨x0, x1⟩ := C82_kde_range R E a hok.a0 (exactOn data a 0 (data.rows - 1)).allData (data.row v) (by
    rw [hlen']; exact hok.counts) x hx
  rw [hlen', row_length] at herr
  have hsum : ((exactOn data a 0 (data.rows - 1)).allData.map fun p => exp (-(a * sqDist (data.row v) p))).sum
      = ∑ i ∈ Finset.range data.rows, exp (-(a * sqDist (data.row v) (data.row i))) := by
    unfold exactOn
    simp only [List.map_map]
    rw [sum_list_range, show data.rows - 1 + 1 - 0 = data.rows by omega]
    refine Finset.sum_congr rfl fun i _ => ?_
    simp only [Function.comp, Nat.zero_add]
  rw [hsum] at herr
  rw [KdeTree.build, if_neg (by omega)]
  unfold KdeTree.weightFl
  rw [show (exactOn data a 0 (data.rows - 1)).a = a from rfl, hx, Option.getD_some, hok.counts _ (by omega), Nat.sub_zero,
    Nat.cast_sub (by omega), Nat.cast_one]
  have hN : (2 : ℝ) ≤ data.rows := by exact_mod_cast hn
  have hu0 := R.u0
  have hfl := R.err (((data.rows : ℝ) - 1) * x)
  rw [abs_of_nonneg (mul_nonneg (by linarith) x0)] at hfl
  unfold kernelErr
  generalize E.η + E.τ + (R.g ^ (data.cols + 4) - 1) * exp (-1) = κ at *
  generalize R.g ^ (data.rows + 2) - 1 = G at *
  generalize ∑ i ∈ Finset.range data.rows, exp (-(a * sqDist (data.row v) (data.row i))) = S at *
  generalize R.fl (((data.rows : ℝ) - 1) * x) = F at *
  generalize (data.rows : ℝ) = N at *
  have e : (N - 1) / N * S = (N - 1) * (S / N) := by ring
  rw [e]
  have h3 : |(N - 1) * x - (N - 1) * (S / N)| ≤ (N - 1) * (G + κ) := by
    rw [← mul_sub, abs_mul, abs_of_nonneg (by linarith : 0 ≤ N - 1)]
    exact mul_le_mul_of_nonneg_left herr (by linarith)
  have h4 : R.u * ((N - 1) * x) ≤ (N - 1) * R.u := by
    rw [mul_comm (N - 1) R.u]
    exact mul_le_mul_of_nonneg_left (mul_le_of_le_one_right (by linarith) x1) hu0
  rw [abs_le] at *
  constructor <;> nlinarith [hfl.1, hfl.2, h3.1, h3.2]

/-- **C100** (underflow).  The condition on the kernel values is needed: at a node with two leaves for which all the computed kernel values
underflow to zero, the parameter of the binomial distribution is `0 / 0`, and the call is undefined. -/
theorem C100_underflow (R : Rounding ℝ) (E : LibExp) (data : Mat ℝ) (a : ℝ) (q : List ℝ) (est : Nat → Nat → List ℝ → ℝ) (cutoff : Nat) (dc : Int)
    (lo hi depth num : Nat) (h1 : cutoff ≤ hi - lo) (h2 : lo < hi) (h3 : (hi - lo) / 2 < cutoff)
    (hz : ∀ i, lo ≤ i → i ≤ hi → kernelOfFl R.fl E a q (data.row i) = 0) (out : Outcome (List Int)) :
    (KdeTree.build est cutoff dc lo hi depth).SampleFl R.fl E data a q num out ↔ out = .ub := by
  have hzero : ∀ x y, lo ≤ x → x ≤ y → y ≤ hi → (KdeTree.leaf x y).weightFl R.fl E data a q = 0 := by
    intro x y hx hxy hy
    have hs : ∀ l : List (List ℝ), (∀ p ∈ l, kernelOfFl R.fl E a q p = 0) →
        sumFl R.fl (l.map (kernelOfFl R.fl E a q)) 0 = 0 := by
      intro l
      induction l with
      | nil => intro _; rfl
      | cons p l ih =>
        intro hp
        rw [List.map_cons, sumFl, hp p (by simp), add_zero, Rounding.fl_zero]
        exact ih fun p' hp' => hp p' (by simp [hp'])
    unfold KdeTree.weightFl gaussianKdeExactFl
    dsimp only
    rw [foldl_sumFl, show (exactOn data a x y).a = a from rfl, hs, exactOn_length, if_neg (by omega), Option.getD_some, zero_div,
      Rounding.fl_zero, mul_zero, Rounding.fl_zero]
    intro p hp
    obtain ⟨t, ht, rfl⟩ := List.mem_map.1 hp
    rw [List.mem_range] at ht
    exact hz _ (by omega) (by omega)
  rw [KdeTree.build, if_pos ⟨h1, h2⟩]
  have e1 : KdeTree.build est cutoff dc lo ((lo + hi) / 2) (depth + 1) = .leaf lo ((lo + hi) / 2) := by
    rw [KdeTree.build, if_neg (by omega)]
  have e2 : KdeTree.build est cutoff dc ((lo + hi) / 2 + 1) hi (depth + 1) = .leaf ((lo + hi) / 2 + 1) hi := by
    rw [KdeTree.build, if_neg (by omega)]
  rw [e1, e2]
  simp only [KdeTree.SampleFl]
  rw [hzero lo _ le_rfl (by omega) (by omega), hzero _ hi (by omega) (by omega) le_rfl, add_zero, Rounding.fl_zero, if_pos (by simp)]

/-- **C100** (doubles).  In double precision the conditions hold for every data matrix of at most `2^51` rows that fits into one leaf, and
every `a ≥ 0`. -/
theorem C100_double (E : LibExp) (data : Mat ℝ) (a : ℝ) (ha : 0 ≤ a) (cutoff : Nat) (est : Nat → Nat → List ℝ → ℝ)
    (hN : data.rows ≤ 2 ^ 51) (hc : data.rows ≤ cutoff) :
    AsgFlOk (Rounding.binary ℝ 53 (by norm_num)) E data a cutoff est where
  a0 := ha
  counts := fun m hm => flBin_nat (K := ℝ) (m := m) (by omega)
  small := by
    change 2 * (2 : ℝ) ^ (-53 : Int) * data.rows < 1
    have : (data.rows : ℝ) ≤ ((2 ^ 51 : Nat) : ℝ) := by exact_mod_cast hN
    calc 2 * (2 : ℝ) ^ (-53 : Int) * data.rows ≤ 2 * (2 : ℝ) ^ (-53 : Int) * ((2 ^ 51 : Nat) : ℝ) :=
          mul_le_mul_of_nonneg_left this (by positivity)
      _ < 1 := by norm_num
  tree := .inl hc

/-- A case: four points in doubles, any number of threads. -/
example (E : LibExp) (est : Nat → Nat → List ℝ → ℝ) (threads : Nat) (ht : 0 < threads) :
    ∃ g, ApproxSimilarityGraphFl (flBin 53) E fourDoubles 1 5000 threads est (.ok g) ∧ g.Valid ∧ g.n = 4 := by
  obtain ⟨⟨out, hout⟩, hall⟩ := C100_graph (Rounding.binary ℝ 53 (by norm_num)) E fourDoubles 1 5000 threads est
    (C100_double E fourDoubles 1 (by norm_num) 5000 est (by change 4 ≤ _; norm_num) (by change 4 ≤ _; norm_num))
    (by change 2 ≤ 4; norm_num) ht
  obtain ⟨g, _, _, rfl, _, hv, _, _, _, _, hab⟩ := hall out hout
  exact ⟨g, hout, hv, congrArg WGraph.n hab⟩

/-- **C100** (no rounding).  Without roundings and with the true exponential function this is `approximate_similarity_graph` of
`Verif.Similarity`. -/
theorem C100_exact (data : Mat ℝ) (a : ℝ) (cutoff threads : Nat) (est : Nat → Nat → List ℝ → ℝ) (out : Outcome (Graph ℝ)) :
    ApproxSimilarityGraphFl (fun x => x) LibExp.exact data a cutoff threads est out ↔
      ApproxSimilarityGraph data a cutoff threads est out := by
  have hker : ∀ u v : List ℝ, kernelOfFl (fun x => x) LibExp.exact a u v = kernelOf a u v := by
    intro u v
    unfold kernelOfFl gaussianKernelFl kernelOf
    rw [(C82_exact_distance _ _ 0).1]
    rfl
  have hw : ∀ (q : List ℝ) (t : KdeTree), t.weightFl (fun x => x) LibExp.exact data a q = t.weight data a q := by
    intro q t
    induction t with
    | leaf lo hi =>
      unfold KdeTree.weightFl KdeTree.weight
      unfold ExactKde.query gaussianKdeExactFl gaussianKdeExact
      simp only [show (exactOn data a lo hi).a = a from rfl, hker]
    | node lo hi e l r ihl ihr =>
      cases e with
      | none => unfold KdeTree.weightFl KdeTree.weight; rw [ihl, ihr]
      | some e => rfl
  have hloop : ∀ (q : List ℝ) (xs : List (List ℝ)) (i : Int) (total : ℝ) (targets : List ℝ) (samples : List Int),
      sampleLoopFl (fun x => x) LibExp.exact a q i xs total targets samples = sampleLoop a q i xs total targets samples := by
    intro q xs
    induction xs with
    | nil => intros; rfl
    | cons x xs ih =>
      intro i total targets samples
      unfold sampleLoopFl sampleLoop
      simp only [hker, ih]
  have hs : ∀ (q : List ℝ) (t : KdeTree) (num : Nat) (o : Outcome (List Int)),
      t.SampleFl (fun x => x) LibExp.exact data a q num o ↔ t.Sample data a q num o := by
    intro q t
    induction t with
    | leaf lo hi =>
      intro num o
      unfold KdeTree.SampleFl KdeTree.Sample ExactKde.sampleNeighborsFl ExactKde.sampleNeighbors
      simp only [hw, show (exactOn data a lo hi).a = a from rfl, hloop]
    | node lo hi e l r ihl ihr =>
      intro num o
      unfold KdeTree.SampleFl KdeTree.Sample
      simp only [hw, ihl, ihr]
  have hg : ∀ (n : Nat) (l : List (Triplet ℝ)), graphOfTripletsFl (fun x => x) n l = graphOfTriplets n l := by
    intro n l
    have e : setFromTripletsFl (fun x => x) n n l = SprsMat.setFromTriplets n n l := by
      have : ∀ v : ℝ, addToEntryFl (fun x => x) v = (· + v) := by
        intro v
        funext x
        unfold addToEntryFl
        split_ifs with h
        · rw [h, zero_add]
        · rfl
      unfold setFromTripletsFl SprsMat.setFromTriplets
      simp only [this]
    unfold graphOfTripletsFl graphOfTriplets
    rw [e]
    cases h : SprsMat.setFromTriplets n n l with
    | ok m =>
      obtain ⟨m', h1, h2, -⟩ := SprsMat.setFromTriplets_spec (SprsMat.setFromTriplets_ok h)
      rw [h] at h1
      cases h1
      obtain ⟨g, -, -, hv, -⟩ := simGraphFl (R := Rounding.exact ℝ) (fun _ => rfl) LibExp.exact fourDoubles 0 le_rfl
      exact (C79_exact hv h2).2
    | ub => rfl
    | throw e => rfl
  have hcw : ∀ (ss : Nat → List Int) (degrees : Nat → ℝ) (epn lo hi : Nat),
      chunkWritesFl (fun x => x) epn ss degrees lo hi = chunkWrites epn ss degrees lo hi := by
    intro ss degrees epn lo hi
    rw [chunkWritesFl_eq]
    congr 1
    funext i
    ring
  have ht : ∀ (ss : Nat → List Int) (degrees : Nat → ℝ) (epn n threads : Nat),
      asgTasksFl (fun x => x) epn ss degrees n threads = asgTasks epn ss degrees n threads := by
    intro ss degrees epn n threads
    unfold asgTasksFl asgTasks
    simp only [hcw]
  unfold ApproxSimilarityGraphFl ApproxSimilarityGraph AsgFromFl AsgFrom
  simp only [hw, hs, hg, hcw, ht]

end Stag
