import Verif.RecoveryMath

/-!
# Nearly invariant subspaces

If the symmetric matrix `M` maps the span of `F_0, …, F_{k-1}` nearly into itself, the span is near that of the first
`k` eigenvectors.
-/

namespace Stag
namespace Recovery

open Finset

theorem quadForm_eq_dot (n : Nat) (M : Nat → Nat → ℝ) (y : Nat → ℝ) : quadForm n M y = dot n y (mulv n M y) := by
  unfold quadForm dot mulv
  exact Finset.sum_congr rfl fun i _ => by
    rw [Finset.mul_sum]; exact Finset.sum_congr rfl fun j _ => by ring

/-- The form is at least `l` on the vectors orthogonal to the family. -/
theorem rest_quadForm {n k : Nat} {f : Nat → Nat → ℝ} (hf : ON n k f) {M : Nat → Nat → ℝ}
    (hM : ∀ i < n, ∀ j < n, M i j = M j i) (lam : Nat → ℝ) (he : ∀ j < k, IsEigen n M (lam j) (f j)) (l : ℝ)
    (hgap : ∀ m v, IsEigen n M m v → (∃ i < n, v i ≠ 0) → (∀ j < k, dot n (f j) v = 0) → l ≤ m) (x : Nat → ℝ) :
    l * dot n (rest n k f x) (rest n k f x) ≤ quadForm n M (rest n k f x) := by
  have h := variational hM ((List.range k).map fun j => (lam j, f j)) (by
    intro p hp
    obtain ⟨j, hj, rfl⟩ := List.mem_map.1 hp
    exact he j (List.mem_range.1 hj)) l 1 (by
    intro m v hv hne ho
    rw [one_mul, one_mul]
    exact hgap m v hv hne fun j hj => ho _ (List.mem_map.2 ⟨j, List.mem_range.2 hj, rfl⟩)) (rest n k f x) (by
    intro p hp
    obtain ⟨j, hj, rfl⟩ := List.mem_map.1 hp
    exact rest_ortho hf x j (List.mem_range.1 hj))
  linarith

theorem dot_rest {n k : Nat} {f : Nat → Nat → ℝ} (hf : ON n k f) (x y : Nat → ℝ) :
    dot n (rest n k f x) (rest n k f y) = dot n (rest n k f x) y := by
  conv_lhs => rw [show rest n k f y = fun u => y u - ∑ j ∈ range k, dot n (f j) y * f j u from rfl,
    dot_sub_right, dot_sum_right]
  rw [Finset.sum_eq_zero, sub_zero]
  intro j hj
  have := rest_ortho hf x j (mem_range.1 hj)
  rw [dot_comm] at this
  rw [this, mul_zero]

/-- The form at the rest of `x` is the inner product of the rest of `x` with the image of `x`. -/
theorem quadForm_rest_eq {n k : Nat} {f : Nat → Nat → ℝ} (hf : ON n k f) {M : Nat → Nat → ℝ}
    (hM : ∀ i < n, ∀ j < n, M i j = M j i) (lam : Nat → ℝ) (he : ∀ j < k, IsEigen n M (lam j) (f j)) (x : Nat → ℝ) :
    quadForm n M (rest n k f x) = dot n (rest n k f x) (mulv n M x) := by
  have h0 : ∀ j < k, dot n (mulv n M (rest n k f x)) (f j) = 0 := by
    intro j hj
    rw [dot_comm, ← mulv_symm hM]
    refine (dot_congr (b := rest n k f x) (he j hj) (fun _ _ => rfl)).trans ?_
    rw [dot_smul_left n (lam j) (f j), rest_ortho hf x j hj, mul_zero]
  have h1 : dot n (mulv n M (rest n k f x)) (rest n k f x) = dot n (mulv n M (rest n k f x)) x := by
    obtain ⟨z, hz⟩ : ∃ z, z = mulv n M (rest n k f x) := ⟨_, rfl⟩
    rw [← hz] at h0 ⊢
    unfold rest
    rw [dot_sub_right, dot_sum_right, Finset.sum_eq_zero, sub_zero]
    intro j hj
    rw [h0 j (mem_range.1 hj), mul_zero]
  rw [quadForm_eq_dot, dot_comm, h1, mulv_symm hM]

/-- The image of `F_i` less a combination of the vectors `F_j`. -/
noncomputable def defect (n k : Nat) (M : Nat → Nat → ℝ) (F B : Nat → Nat → ℝ) (i u : Nat) : ℝ :=
  mulv n M (F i) u - ∑ j ∈ range k, B i j * F j u

/-- Davis and Kahan: if `M F ≈ F B` and the form of `B` is below the gap, the vectors `F` are near the span. -/
theorem davis_kahan {n k : Nat} {f : Nat → Nat → ℝ} (hf : ON n k f) {M : Nat → Nat → ℝ}
    (hM : ∀ i < n, ∀ j < n, M i j = M j i) (lam : Nat → ℝ) (he : ∀ j < k, IsEigen n M (lam j) (f j)) (l : ℝ)
    (hgap : ∀ m v, IsEigen n M m v → (∃ i < n, v i ≠ 0) → (∀ j < k, dot n (f j) v = 0) → l ≤ m)
    (F B : Nat → Nat → ℝ) (b : ℝ) (hb : b < l)
    (hB : ∀ y : Nat → ℝ, ∑ i ∈ range k, ∑ j ∈ range k, B i j * (y i * y j) ≤ b * ∑ i ∈ range k, y i ^ 2) :
    (l - b) ^ 2 * ∑ i ∈ range k, resid n k f (F i)
      ≤ ∑ i ∈ range k, dot n (defect n k M F B i) (defect n k M F B i) := by
  obtain ⟨W, hW⟩ : ∃ W : Nat → Nat → ℝ, W = fun i => rest n k f (F i) := ⟨_, rfl⟩
  have hWi : ∀ i, rest n k f (F i) = W i := fun i => by rw [hW]
  have h1 : ∀ i, l * dot n (W i) (W i) ≤ dot n (W i) (defect n k M F B i)
      + ∑ j ∈ range k, B i j * dot n (W i) (W j) := by
    intro i
    have a1 := rest_quadForm hf hM lam he l hgap (F i)
    rw [quadForm_rest_eq hf hM lam he] at a1
    have a2 : dot n (W i) (defect n k M F B i) = dot n (W i) (mulv n M (F i))
        - ∑ j ∈ range k, B i j * dot n (W i) (W j) := by
      unfold defect
      rw [dot_sub_right, dot_sum_right]
      congr 1
      refine Finset.sum_congr rfl fun j _ => ?_
      rw [← hWi i, ← hWi j, dot_rest hf]
    rw [hWi] at a1
    linarith
  have h2 : ∑ i ∈ range k, ∑ j ∈ range k, B i j * dot n (W i) (W j) ≤ b * ∑ i ∈ range k, dot n (W i) (W i) := by
    have e1 : ∑ i ∈ range k, ∑ j ∈ range k, B i j * dot n (W i) (W j)
        = ∑ u ∈ range n, ∑ i ∈ range k, ∑ j ∈ range k, B i j * (W i u * W j u) := by
      unfold dot
      simp_rw [Finset.mul_sum]
      rw [Finset.sum_comm (s := range n)]
      refine Finset.sum_congr rfl fun i _ => ?_
      rw [Finset.sum_comm]
    have e2 : b * ∑ i ∈ range k, dot n (W i) (W i) = ∑ u ∈ range n, b * ∑ i ∈ range k, W i u ^ 2 := by
      unfold dot
      rw [← Finset.mul_sum, Finset.sum_comm]
      simp_rw [sq]
    rw [e1, e2]
    exact Finset.sum_le_sum fun u _ => hB fun i => W i u
  have h3 : ∀ i, 2 * (l - b) * dot n (W i) (defect n k M F B i)
      ≤ (l - b) ^ 2 * dot n (W i) (W i) + dot n (defect n k M F B i) (defect n k M F B i) := by
    intro i
    unfold dot
    rw [Finset.mul_sum, Finset.mul_sum, ← Finset.sum_add_distrib]
    refine Finset.sum_le_sum fun u _ => ?_
    nlinarith [sq_nonneg ((l - b) * W i u - defect n k M F B i u)]
  have h4 := Finset.sum_le_sum fun i (_ : i ∈ range k) => h1 i
  have h5 := Finset.sum_le_sum fun i (_ : i ∈ range k) => h3 i
  rw [Finset.sum_add_distrib, ← Finset.mul_sum] at h4
  rw [Finset.sum_add_distrib, ← Finset.mul_sum, ← Finset.mul_sum] at h5
  have e : ∑ i ∈ range k, resid n k f (F i) = ∑ i ∈ range k, dot n (W i) (W i) :=
    Finset.sum_congr rfl fun i _ => by rw [resid_eq hf, hWi]
  rw [e]
  have hpos : 0 < l - b := by linarith
  nlinarith

/-- If the form is at least `l` on the vectors orthogonal to some `k` vectors, all eigenvalues beyond the first `k` are at
least `l`. -/
theorem gap_of_test {n k : Nat} {M : Nat → Nat → ℝ} (hM : ∀ i j, M i j = M j i) {res : EigenPairs}
    (hex : EigenExtreme (· ≤ ·) n M k res) (c : Nat → Nat → ℝ) (l : ℝ)
    (htest : ∀ x, (∀ i < k, dot n (c i) x = 0) → l * dot n x x ≤ quadForm n M x) :
    ∀ m v, IsEigen n M m v → (∃ i < n, v i ≠ 0) → (∀ q ∈ res, dot n q.2 v = 0) → l ≤ m := by
  have hlen := hex.count
  intro m v hv hne ho
  -- the unit vector in the direction of `v`
  have hvv : 0 < dot n v v := by
    obtain ⟨i, hi, hvi⟩ := hne
    refine lt_of_lt_of_le (mul_self_pos.2 hvi) ?_
    exact Finset.single_le_sum (f := fun i => v i * v i) (fun i _ => mul_self_nonneg _) (mem_range.2 hi)
  set r := 1 / Real.sqrt (dot n v v) with hr
  have hr2 : r * r * dot n v v = 1 := by
    have := Real.mul_self_sqrt hvv.le
    have hs := Real.sqrt_pos.2 hvv
    rw [hr]
    field_simp
    linarith
  set b : Nat → Nat → ℝ := fun j => if j < k then (res.getD j (0, 0)).2 else fun u => r * v u with hb
  set lam : Nat → ℝ := fun j => if j < k then (res.getD j (0, 0)).1 else m with hlam
  have hbv : ∀ j < k, dot n (res.getD j (0, 0)).2 (fun u => r * v u) = 0 := by
    intro j hj
    rw [dot_smul_right, List.getD_eq_getElem _ _ (by omega), ho _ (List.getElem_mem _), mul_zero]
  have hon : ON n (k + 1) b := by
    intro j hj j' hj'
    have h0 := extreme_on hex
    by_cases h1 : j < k <;> by_cases h2 : j' < k
    · simp only [hb, if_pos h1, if_pos h2]; exact h0 j h1 j' h2
    · simp only [hb, if_pos h1, if_neg h2]
      rw [hbv j h1, if_neg (by omega)]
    · simp only [hb, if_neg h1, if_pos h2]
      rw [dot_comm, hbv j' h2, if_neg (by omega)]
    · simp only [hb, if_neg h1, if_neg h2]
      rw [if_pos (by omega), dot_smul_right, dot_comm, dot_smul_right]
      linarith
  have heig : ∀ j < k + 1, IsEigen n M (lam j) (b j) := by
    intro j hj
    by_cases h1 : j < k
    · simp only [hb, hlam, if_pos h1]
      rw [List.getD_eq_getElem _ _ (by omega)]
      exact hex.eigen _ (List.getElem_mem _)
    · simp only [hb, hlam, if_neg h1]
      intro i hi
      have := hv i hi
      calc ∑ j ∈ range n, M i j * (r * v j) = r * ∑ j ∈ range n, M i j * v j := by
            rw [Finset.mul_sum]; exact Finset.sum_congr rfl fun j _ => by ring
        _ = _ := by rw [this]; ring
  have hlamle : ∀ j < k + 1, lam j ≤ m := by
    intro j hj
    by_cases h1 : j < k
    · simp only [hlam, if_pos h1]
      rw [List.getD_eq_getElem _ _ (by omega)]
      exact hex.extreme m v hv hne ho _ (List.getElem_mem _)
    · simp only [hlam, if_neg h1]; exact le_rfl
  -- a combination orthogonal to the `k` vectors
  let A : (Fin (k + 1) → ℝ) →ₗ[ℝ] (Fin k → ℝ) :=
    Matrix.mulVecLin (Matrix.of fun (i : Fin k) (t : Fin (k + 1)) => dot n (c i) (b t))
  obtain ⟨a, haker, hane⟩ := (Submodule.ne_bot_iff _).1
    (LinearMap.ker_ne_bot_of_finrank_lt (f := A) (by simp))
  have hAa : ∀ i : Fin k, ∑ t : Fin (k + 1), dot n (c i) (b t) * a t = 0 := fun i =>
    congrFun (LinearMap.mem_ker.1 haker) i
  let a' : Nat → ℝ := fun t => if ht : t < k + 1 then a ⟨t, ht⟩ else 0
  have ha' : ∀ t : Fin (k + 1), a' t = a t := fun t => by simp only [a', t.2, dif_pos]
  set x : Nat → ℝ := fun u => ∑ t ∈ range (k + 1), a' t * b t u with hx
  obtain ⟨hc1, hc2⟩ := rest_combination hon a'
  have hxo : ∀ i < k, dot n (c i) x = 0 := by
    intro i hi
    rw [hx, dot_sum_right, Finset.sum_range]
    refine Eq.trans (Finset.sum_congr rfl fun t _ => ?_) (hAa ⟨i, hi⟩)
    rw [ha' t, mul_comm]
  have hr0 : rest n (k + 1) b x = fun _ => 0 := funext hc2
  have hdot : dot n x x = ∑ j ∈ range (k + 1), a' j ^ 2 := by
    have h1 := resid_eq hon x
    rw [hr0] at h1
    unfold resid at h1
    have h2 : dot n (fun _ => (0 : ℝ)) (fun _ => 0) = 0 := Finset.sum_eq_zero fun _ _ => mul_zero _
    rw [h2, Finset.sum_congr rfl fun j hj => by rw [hc1 j (mem_range.1 hj)]] at h1
    linarith
  have hquad : quadForm n M x = ∑ j ∈ range (k + 1), lam j * a' j ^ 2 := by
    rw [quadForm_rest hon (fun i _ j _ => hM i j) lam heig x, hr0,
      Finset.sum_congr rfl fun j hj => by rw [hc1 j (mem_range.1 hj)]]
    have : quadForm n M (fun _ => (0 : ℝ)) = 0 :=
      Finset.sum_eq_zero fun _ _ => Finset.sum_eq_zero fun _ _ => mul_zero _
    rw [this, zero_add]
  have hxpos : 0 < dot n x x := by
    rw [hdot]
    obtain ⟨t, ht⟩ := Function.ne_iff.1 hane
    refine lt_of_lt_of_le (pow_pos (abs_pos.2 (show a' t ≠ 0 by rw [ha' t]; exact ht)) 2) ?_
    rw [sq_abs]
    exact Finset.single_le_sum (f := fun j => a' j ^ 2) (fun j _ => sq_nonneg _) (mem_range.2 t.2)
  have hup : quadForm n M x ≤ m * dot n x x := by
    rw [hquad, hdot, Finset.mul_sum]
    exact Finset.sum_le_sum fun j hj => mul_le_mul_of_nonneg_right (hlamle j (mem_range.1 hj)) (sq_nonneg _)
  have hlow := htest x hxo
  by_contra hlt
  push Not at hlt
  nlinarith

/-- A combination of `j + 1` vectors that is orthogonal to `j` given vectors. -/
theorem exists_ortho {n j : Nat} (w f : Nat → Nat → ℝ) : ∃ a : Nat → ℝ, 0 < ∑ t ∈ range (j + 1), a t ^ 2 ∧
    ∀ i < j, dot n (f i) (fun u => ∑ t ∈ range (j + 1), a t * w t u) = 0 := by
  let B : (Fin (j + 1) → ℝ) →ₗ[ℝ] (Fin j → ℝ) :=
    Matrix.mulVecLin (Matrix.of fun (i : Fin j) (t : Fin (j + 1)) => dot n (f i) (w t))
  obtain ⟨a, haker, hane⟩ := (Submodule.ne_bot_iff _).1
    (LinearMap.ker_ne_bot_of_finrank_lt (f := B) (by simp))
  have hBa : ∀ i : Fin j, ∑ t : Fin (j + 1), dot n (f i) (w t) * a t = 0 := fun i =>
    congrFun (LinearMap.mem_ker.1 haker) i
  let a' : Nat → ℝ := fun t => if ht : t < j + 1 then a ⟨t, ht⟩ else 0
  have ha' : ∀ t : Fin (j + 1), a' t = a t := fun t => by simp only [a', t.2, dif_pos]
  refine ⟨a', ?_, fun i hi => ?_⟩
  · obtain ⟨t, ht⟩ := Function.ne_iff.1 hane
    refine lt_of_lt_of_le (pow_pos (abs_pos.2 (show a' t ≠ 0 by rw [ha' t]; exact ht)) 2) ?_
    rw [sq_abs]
    exact Finset.single_le_sum (f := fun t => a' t ^ 2) (fun t _ => sq_nonneg _) (mem_range.2 t.2)
  · rw [dot_sum_right, Finset.sum_range]
    refine Eq.trans (Finset.sum_congr rfl fun t _ => ?_) (hBa ⟨i, hi⟩)
    rw [ha' t, mul_comm]

/-- If `M F ≈ F B` for an orthonormal family `F` and the form of `B` is at most `b`, the `k` smallest eigenvalues are at
most `b`, up to the error. -/
theorem upper_value {n k : Nat} {M : Nat → Nat → ℝ} (hM : ∀ i j, M i j = M j i) {res : EigenPairs}
    (hex : EigenExtreme (· ≤ ·) n M k res) {F : Nat → Nat → ℝ} (hF : ON n k F) (B : Nat → Nat → ℝ) (b : ℝ)
    (hB : ∀ y : Nat → ℝ, ∑ i ∈ range k, ∑ j ∈ range k, B i j * (y i * y j) ≤ b * ∑ i ∈ range k, y i ^ 2) :
    ∀ p ∈ res, p.1 ≤ b + Real.sqrt (∑ i ∈ range k, dot n (defect n k M F B i) (defect n k M F B i)) := by
  have hlen := hex.count
  obtain ⟨Δ, hΔ⟩ : ∃ Δ, Δ = Real.sqrt (∑ i ∈ range k, dot n (defect n k M F B i) (defect n k M F B i)) := ⟨_, rfl⟩
  rw [← hΔ]
  intro p hp
  obtain ⟨k', rfl⟩ : ∃ k', k = k' + 1 := by
    refine ⟨k - 1, ?_⟩
    have := List.length_pos_of_mem hp
    omega
  -- the largest of the values
  obtain ⟨q, hq⟩ : ∃ q, q = res[k']'(by omega) := ⟨_, rfl⟩
  have hqmem : q ∈ res := hq ▸ List.getElem_mem _
  have hpq : p.1 ≤ q.1 := by
    obtain ⟨i, hi, rfl⟩ := List.getElem_of_mem hp
    rcases (show i ≤ k' by omega).eq_or_lt with rfl | hlt
    · rw [hq]
    · rw [hq]
      exact List.pairwise_iff_getElem.1 hex.order i k' hi (by omega) hlt
  refine hpq.trans ?_
  obtain ⟨a, hapos, hao⟩ := exists_ortho (n := n) (j := k') F (fun i => (res.getD i (0, 0)).2)
  obtain ⟨x, hx⟩ : ∃ x : Nat → ℝ, x = fun u => ∑ t ∈ range (k' + 1), a t * F t u := ⟨_, rfl⟩
  rw [← hx] at hao
  obtain ⟨hc1, hc2⟩ := rest_combination hF a
  rw [← hx] at hc1 hc2
  have hr0 : rest n (k' + 1) F x = fun _ => 0 := funext hc2
  have hdot : dot n x x = ∑ t ∈ range (k' + 1), a t ^ 2 := by
    have h1 := resid_eq hF x
    rw [hr0] at h1
    unfold resid at h1
    have h2 : dot n (fun _ => (0 : ℝ)) (fun _ => 0) = 0 := Finset.sum_eq_zero fun _ _ => mul_zero _
    rw [h2, Finset.sum_congr rfl fun t ht => by rw [hc1 t (mem_range.1 ht)]] at h1
    linarith
  have hlow := variational (fun i _ j _ => hM i j) (res.take k')
    (fun q hq => hex.eigen q (List.mem_of_mem_take hq)) q.1 1 (by
      intro m' v hv hvne hvo
      rw [one_mul, one_mul]
      by_contra hlt
      have hlt : m' < q.1 := not_le.1 hlt
      have hall : ∀ r ∈ res, dot n r.2 v = 0 := by
        intro r hr
        obtain ⟨i, hi, rfl⟩ := List.mem_iff_getElem.1 hr
        by_cases hik : i < k'
        · exact hvo _ (List.mem_iff_getElem.2 ⟨i, by rw [List.length_take]; omega, by rw [List.getElem_take]⟩)
        · have : i = k' := by omega
          subst this
          refine eigen_ortho hM (hex.eigen _ hr) hv ?_
          rw [← hq]
          exact hlt.ne'
      exact absurd (hex.extreme m' v hv hvne hall q hqmem) (not_le.2 hlt)) x (by
      intro r hr
      obtain ⟨i, hi, rfl⟩ := List.mem_iff_getElem.1 hr
      rw [List.length_take] at hi
      have := hao i (by omega)
      rw [List.getD_eq_getElem _ _ (by omega)] at this
      rw [List.getElem_take]; exact this)
  -- the form at `x`
  have hMx : quadForm n M x = ∑ i ∈ range (k' + 1), ∑ j ∈ range (k' + 1), B i j * (a i * a j)
      + ∑ i ∈ range (k' + 1), a i * dot n x (defect n (k' + 1) M F B i) := by
    have e1 : dot n x (mulv n M x) = ∑ i ∈ range (k' + 1), a i * dot n x (mulv n M (F i)) := by
      rw [← mulv_symm (fun i _ j _ => hM i j)]
      conv_lhs => rw [show dot n (mulv n M x) x = dot n (mulv n M x) (fun u => ∑ t ∈ range (k' + 1), a t * F t u) by rw [← hx]]
      rw [dot_sum_right]
      exact Finset.sum_congr rfl fun i _ => by rw [mulv_symm (fun i _ j _ => hM i j)]
    rw [quadForm_eq_dot, e1, ← Finset.sum_add_distrib]
    refine Finset.sum_congr rfl fun i hi => ?_
    have e2 : dot n x (defect n (k' + 1) M F B i) = dot n x (mulv n M (F i)) - ∑ j ∈ range (k' + 1), B i j * a j := by
      unfold defect
      rw [dot_sub_right, dot_sum_right]
      congr 1
      refine Finset.sum_congr rfl fun j hj => ?_
      rw [dot_comm n x (F j), hc1 j (mem_range.1 hj)]
    rw [e2, mul_sub, Finset.mul_sum]
    have e3 : ∑ j ∈ range (k' + 1), B i j * (a i * a j) = ∑ j ∈ range (k' + 1), a i * (B i j * a j) :=
      Finset.sum_congr rfl fun j _ => by ring
    rw [e3]; ring
  have hcs : ∑ i ∈ range (k' + 1), a i * dot n x (defect n (k' + 1) M F B i) ≤ Δ * dot n x x := by
    have h1 := Finset.sum_mul_sq_le_sq_mul_sq (range (k' + 1)) a (fun i => dot n x (defect n (k' + 1) M F B i))
    have h2 : ∑ i ∈ range (k' + 1), dot n x (defect n (k' + 1) M F B i) ^ 2 ≤ dot n x x *
        ∑ i ∈ range (k' + 1), dot n (defect n (k' + 1) M F B i) (defect n (k' + 1) M F B i) := by
      rw [Finset.mul_sum]
      exact Finset.sum_le_sum fun i _ => dot_cs n x _
    have hsum0 : 0 ≤ ∑ i ∈ range (k' + 1), dot n (defect n (k' + 1) M F B i) (defect n (k' + 1) M F B i) :=
      Finset.sum_nonneg fun _ _ => dot_self_nonneg _ _
    rw [← hdot] at h1
    have hxx : 0 ≤ dot n x x := dot_self_nonneg _ _
    have h3 : (∑ i ∈ range (k' + 1), a i * dot n x (defect n (k' + 1) M F B i)) ^ 2 ≤ (Δ * dot n x x) ^ 2 := by
      refine h1.trans ((mul_le_mul_of_nonneg_left h2 hxx).trans (le_of_eq ?_))
      rw [hΔ, mul_pow, Real.sq_sqrt hsum0]
      ring
    exact (abs_le.1 (abs_le_of_sq_le_sq h3 (mul_nonneg (by rw [hΔ]; exact Real.sqrt_nonneg _) hxx))).2
  have hBa := hB a
  rw [← hdot] at hBa
  rw [hMx] at hlow
  have hpos : 0 < dot n x x := by rw [hdot]; exact hapos
  have : q.1 * dot n x x ≤ (b + Δ) * dot n x x := by linarith
  exact le_of_mul_le_mul_right this hpos

end Recovery
end Stag
