import Verif.InexactMath

/-!
# Perturbation of symmetric matrices

The Schur test, Weyl's inequality for the eigenvalues of largest magnitude, and residuals under perturbation.
-/

namespace Stag
namespace Recovery

open Finset

/-- The Schur test: a matrix bounded by `η B`, where `B` is symmetric and has a positive vector `p` with `B p ≤ β p`, has
norm at most `η β`. -/
theorem schur (n : Nat) (E B : Nat → Nat → ℝ) (p : Nat → ℝ) (η β : ℝ) (hη : 0 ≤ η) (hβ : 0 ≤ β) (hp : ∀ i < n, 0 < p i)
    (hB : ∀ i < n, ∀ j < n, 0 ≤ B i j) (hs : ∀ i < n, ∀ j < n, B i j = B j i)
    (hBp : ∀ i < n, ∑ j ∈ range n, B i j * p j ≤ β * p i)
    (hE : ∀ i < n, ∀ j < n, |E i j| ≤ η * B i j) (x : Nat → ℝ) :
    ∑ i ∈ range n, (∑ j ∈ range n, E i j * x j) ^ 2 ≤ (η * β) ^ 2 * dot n x x := by
  have h1 : ∀ i ∈ range n, (∑ j ∈ range n, E i j * x j) ^ 2
      ≤ η ^ 2 * (β * p i * ∑ j ∈ range n, B i j * (x j ^ 2 / p j)) := by
    intro i hi
    have hi := mem_range.1 hi
    have e1 : |∑ j ∈ range n, E i j * x j| ≤ η * ∑ j ∈ range n, B i j * |x j| := by
      refine (Finset.abs_sum_le_sum_abs _ _).trans ?_
      rw [Finset.mul_sum]
      refine Finset.sum_le_sum fun j hj => ?_
      rw [abs_mul, ← mul_assoc]
      exact mul_le_mul_of_nonneg_right (hE i hi j (mem_range.1 hj)) (abs_nonneg _)
    have e2 : (∑ j ∈ range n, B i j * |x j|) ^ 2 ≤ (∑ j ∈ range n, B i j * p j) * ∑ j ∈ range n, B i j * (x j ^ 2 / p j) := by
      refine Finset.sum_sq_le_sum_mul_sum_of_sq_eq_mul _ (fun j hj => ?_) (fun j hj => ?_) (fun j hj => ?_)
      · exact mul_nonneg (hB i hi j (mem_range.1 hj)) (hp j (mem_range.1 hj)).le
      · exact mul_nonneg (hB i hi j (mem_range.1 hj)) (div_nonneg (sq_nonneg _) (hp j (mem_range.1 hj)).le)
      · have := (hp j (mem_range.1 hj)).ne'
        rw [mul_pow, sq_abs]
        field_simp
    have e3 : 0 ≤ ∑ j ∈ range n, B i j * (x j ^ 2 / p j) := Finset.sum_nonneg fun j hj =>
      mul_nonneg (hB i hi j (mem_range.1 hj)) (div_nonneg (sq_nonneg _) (hp j (mem_range.1 hj)).le)
    calc (∑ j ∈ range n, E i j * x j) ^ 2 = |∑ j ∈ range n, E i j * x j| ^ 2 := (sq_abs _).symm
      _ ≤ (η * ∑ j ∈ range n, B i j * |x j|) ^ 2 := pow_le_pow_left₀ (abs_nonneg _) e1 2
      _ = η ^ 2 * (∑ j ∈ range n, B i j * |x j|) ^ 2 := mul_pow _ _ _
      _ ≤ η ^ 2 * (β * p i * ∑ j ∈ range n, B i j * (x j ^ 2 / p j)) :=
        mul_le_mul_of_nonneg_left (e2.trans (mul_le_mul_of_nonneg_right (hBp i hi) e3)) (sq_nonneg _)
  refine (Finset.sum_le_sum h1).trans ?_
  have h2 : ∑ i ∈ range n, η ^ 2 * (β * p i * ∑ j ∈ range n, B i j * (x j ^ 2 / p j))
      = η ^ 2 * β * ∑ j ∈ range n, (x j ^ 2 / p j) * ∑ i ∈ range n, B j i * p i := by
    rw [← Finset.mul_sum, mul_assoc (η ^ 2)]
    congr 1
    rw [Finset.mul_sum]
    simp_rw [Finset.mul_sum]
    rw [Finset.sum_comm]
    refine Finset.sum_congr rfl fun j hj => Finset.sum_congr rfl fun i hi => ?_
    rw [hs i (mem_range.1 hi) j (mem_range.1 hj)]
    ring
  rw [h2]
  have h3 : ∑ j ∈ range n, (x j ^ 2 / p j) * ∑ i ∈ range n, B j i * p i ≤ ∑ j ∈ range n, β * (x j * x j) := by
    refine Finset.sum_le_sum fun j hj => ?_
    have hj := mem_range.1 hj
    have := (hp j hj).ne'
    refine (mul_le_mul_of_nonneg_left (hBp j hj) (div_nonneg (sq_nonneg _) (hp j hj).le)).trans (le_of_eq ?_)
    field_simp
  rw [← Finset.mul_sum] at h3
  calc _ ≤ η ^ 2 * β * (β * ∑ j ∈ range n, x j * x j) := mul_le_mul_of_nonneg_left h3 (mul_nonneg (sq_nonneg _) hβ)
    _ = _ := by unfold dot; ring

/-- A small operator has a small form. -/
theorem quad_small {n : Nat} {A F : Nat → Nat → ℝ} {η : ℝ} (hη : 0 ≤ η)
    (h : ∀ x, ∑ i ∈ range n, (∑ j ∈ range n, (F i j - A i j) * x j) ^ 2 ≤ η ^ 2 * dot n x x) (x : Nat → ℝ) :
    |quadForm n F x - quadForm n A x| ≤ η * dot n x x := by
  have h0 : 0 ≤ dot n x x := Finset.sum_nonneg fun _ _ => mul_self_nonneg _
  obtain ⟨y, hy⟩ : ∃ y : Nat → ℝ, y = fun i => ∑ j ∈ range n, (F i j - A i j) * x j := ⟨_, rfl⟩
  have e : quadForm n F x - quadForm n A x = dot n x y := by
    rw [quadForm_dot, quadForm_dot, hy]
    unfold dot mulv
    rw [← Finset.sum_sub_distrib]
    refine Finset.sum_congr rfl fun i _ => ?_
    rw [← mul_sub, ← Finset.sum_sub_distrib]
    congr 1
    exact Finset.sum_congr rfl fun j _ => by ring
  have h1 : dot n y y ≤ η ^ 2 * dot n x x := by
    refine le_trans (le_of_eq ?_) (h x)
    rw [hy]
    unfold dot
    exact Finset.sum_congr rfl fun i _ => by ring
  rw [e]
  refine abs_le_of_sq_le_sq ((dot_cs n x y).trans ?_) (mul_nonneg hη h0)
  calc dot n x x * dot n y y ≤ dot n x x * (η ^ 2 * dot n x x) := mul_le_mul_of_nonneg_left h1 h0
    _ = _ := by ring

/-- Residuals of a perturbed matrix. -/
theorem residual_perturb {n : Nat} {A F : Nat → Nat → ℝ} {η : ℝ} (hη : 0 ≤ η)
    (h : ∀ x, ∑ i ∈ range n, (∑ j ∈ range n, (F i j - A i j) * x j) ^ 2 ≤ η ^ 2 * dot n x x) (l : ℝ) (v : Nat → ℝ)
    (hv : dot n v v = 1) :
    residual2 n A l v ≤ (Real.sqrt (residual2 n F l v) + η) ^ 2 := by
  have h1 := minkowski (range n) (fun i => ∑ j ∈ range n, F i j * v j - l * v i)
    (fun i => -∑ j ∈ range n, (F i j - A i j) * v j)
  have e : ∀ i ∈ range n, (∑ j ∈ range n, F i j * v j - l * v i + -∑ j ∈ range n, (F i j - A i j) * v j) ^ 2
      = (∑ j ∈ range n, A i j * v j - l * v i) ^ 2 := by
    intro i _
    congr 1
    rw [show (∑ j ∈ range n, (F i j - A i j) * v j) = ∑ j ∈ range n, F i j * v j - ∑ j ∈ range n, A i j * v j by
      rw [← Finset.sum_sub_distrib]; exact Finset.sum_congr rfl fun j _ => by ring]
    ring
  rw [Finset.sum_congr rfl e] at h1
  refine h1.trans ?_
  have h2 : Real.sqrt (∑ i ∈ range n, (-∑ j ∈ range n, (F i j - A i j) * v j) ^ 2) ≤ η := by
    refine Real.sqrt_le_iff.2 ⟨hη, ?_⟩
    have := h v
    rw [hv, mul_one] at this
    simpa only [neg_sq] using this
  have h3 := Real.sqrt_nonneg (∑ i ∈ range n, (-∑ j ∈ range n, (F i j - A i j) * v j) ^ 2)
  unfold residual2
  have h4 := Real.sqrt_nonneg (∑ i ∈ range n, (∑ j ∈ range n, F i j * v j - l * v i) ^ 2)
  gcongr

/-- The vectors of a system of eigenvectors are orthonormal, whatever their order. -/
theorem system_on {before : ℝ → ℝ → Prop} {n k : Nat} {M : Nat → Nat → ℝ} {res : EigenPairs}
    (hex : EigenExtreme before n M k res) : ON n k (fun j => (res.getD j (0, 0)).2) := by
  have hlen := hex.count
  intro j hj j' hj'
  beta_reduce
  rw [List.getD_eq_getElem _ _ (by omega), List.getD_eq_getElem _ _ (by omega)]
  split_ifs with hjj
  · subst hjj; exact hex.unit _ (List.getElem_mem _)
  · rcases lt_or_gt_of_ne hjj with h | h
    · exact List.pairwise_iff_getElem.1 hex.ortho j j' (by omega) (by omega) h
    · rw [dot_comm]; exact List.pairwise_iff_getElem.1 hex.ortho j' j (by omega) (by omega) h

/-- A combination of `j + 1` orthonormal eigenvectors of `A` that is orthogonal to `j` given vectors. -/
theorem exists_combination {n j : Nat} {A : Nat → Nat → ℝ} (hA : ∀ i j, A i j = A j i) (b : Nat → Nat → ℝ)
    (hon : ON n (j + 1) b) (lam : Nat → ℝ) (heig : ∀ t < j + 1, IsEigen n A (lam t) (b t)) (f : Nat → Nat → ℝ) (c : ℝ)
    (hc : ∀ t < j + 1, c ≤ lam t) :
    ∃ x, (∀ i < j, dot n (f i) x = 0) ∧ 0 < dot n x x ∧ c * dot n x x ≤ quadForm n A x := by
  let B : (Fin (j + 1) → ℝ) →ₗ[ℝ] (Fin j → ℝ) :=
    Matrix.mulVecLin (Matrix.of fun (i : Fin j) (t : Fin (j + 1)) => dot n (f i) (b t))
  obtain ⟨a, haker, hane⟩ := (Submodule.ne_bot_iff _).1
    (LinearMap.ker_ne_bot_of_finrank_lt (f := B) (by simp))
  have hBa : ∀ i : Fin j, ∑ t : Fin (j + 1), dot n (f i) (b t) * a t = 0 := fun i =>
    congrFun (LinearMap.mem_ker.1 haker) i
  let a' : Nat → ℝ := fun t => if ht : t < j + 1 then a ⟨t, ht⟩ else 0
  have ha' : ∀ t : Fin (j + 1), a' t = a t := fun t => by simp only [a', t.2, dif_pos]
  obtain ⟨x, hx⟩ : ∃ x : Nat → ℝ, x = fun u => ∑ t ∈ range (j + 1), a' t * b t u := ⟨_, rfl⟩
  obtain ⟨hc1, hc2⟩ := rest_combination hon a'
  rw [← hx] at hc1 hc2
  have hr0 : rest n (j + 1) b x = fun _ => 0 := funext hc2
  have hdot : dot n x x = ∑ t ∈ range (j + 1), a' t ^ 2 := by
    have h1 := resid_eq hon x
    rw [hr0] at h1
    unfold resid at h1
    have h2 : dot n (fun _ => (0 : ℝ)) (fun _ => 0) = 0 := Finset.sum_eq_zero fun _ _ => mul_zero _
    rw [h2, Finset.sum_congr rfl fun t ht => by rw [hc1 t (mem_range.1 ht)]] at h1
    linarith
  have hquad : quadForm n A x = ∑ t ∈ range (j + 1), lam t * a' t ^ 2 := by
    rw [quadForm_rest hon (fun i _ j _ => hA i j) lam heig x, hr0,
      Finset.sum_congr rfl fun t ht => by rw [hc1 t (mem_range.1 ht)]]
    have : quadForm n A (fun _ => (0 : ℝ)) = 0 :=
      Finset.sum_eq_zero fun _ _ => Finset.sum_eq_zero fun _ _ => mul_zero _
    rw [this, zero_add]
  refine ⟨x, ?_, ?_, ?_⟩
  · intro i hi
    rw [hx, dot_sum_right, Finset.sum_range]
    refine Eq.trans (Finset.sum_congr rfl fun t _ => ?_) (hBa ⟨i, hi⟩)
    rw [ha' t, mul_comm]
  · rw [hdot]
    obtain ⟨t, ht⟩ := Function.ne_iff.1 hane
    refine lt_of_lt_of_le (pow_pos (abs_pos.2 (show a' t ≠ 0 by rw [ha' t]; exact ht)) 2) ?_
    rw [sq_abs]
    exact Finset.single_le_sum (f := fun t => a' t ^ 2) (fun t _ => sq_nonneg _) (mem_range.2 t.2)
  · rw [hquad, hdot, Finset.mul_sum]
    exact Finset.sum_le_sum fun t ht => mul_le_mul_of_nonneg_right (hc t (mem_range.1 ht)) (sq_nonneg _)

/-- One side of Weyl's inequality for the eigenvalues of largest magnitude. -/
theorem mag_step {n k : Nat} {A F : Nat → Nat → ℝ} (hA : ∀ i j, A i j = A j i) (hF : ∀ i j, F i j = F j i) {η : ℝ}
    (hclose : ∀ x, quadForm n A x - quadForm n F x ≤ η * dot n x x) {a f : EigenPairs}
    (ha : EigenExtreme (fun x y => |y| ≤ |x|) n A k a) (hf : EigenExtreme (fun x y => |y| ≤ |x|) n F k f) (j : Nat) (hj : j < k)
    (hpos : ∀ i ≤ j, 0 ≤ (a.getD i (0, 0)).1) :
    (a.getD j (0, 0)).1 ≤ |(f.getD j (0, 0)).1| + η := by
  have hla := ha.count
  have hlf := hf.count
  have hmono : ∀ i ≤ j, (a.getD j (0, 0)).1 ≤ (a.getD i (0, 0)).1 := by
    intro i hi
    rcases hi.eq_or_lt with rfl | hlt
    · exact le_rfl
    · have h1 := List.pairwise_iff_getElem.1 ha.order i j (by omega) (by omega) hlt
      have h2 := hpos i hi
      have h3 := hpos j le_rfl
      rw [List.getD_eq_getElem _ _ (by omega)] at h2 h3 ⊢
      rw [List.getD_eq_getElem _ _ (by omega)]
      rwa [abs_of_nonneg h2, abs_of_nonneg h3] at h1
  obtain ⟨x, hxo, hxpos, hxq⟩ := exists_combination (j := j) hA (fun t => (a.getD t (0, 0)).2)
    (fun s hs t ht => system_on ha s (by omega) t (by omega)) (fun t => (a.getD t (0, 0)).1)
    (fun t ht => by
      rw [List.getD_eq_getElem _ _ (by omega)]
      exact ha.eigen _ (List.getElem_mem _)) (fun i => (f.getD i (0, 0)).2) (a.getD j (0, 0)).1
    (fun t ht => hmono t (by omega))
  obtain ⟨p, hp⟩ : ∃ p, p = f.getD j (0, 0) := ⟨_, rfl⟩
  have hpk : f[j]'(by omega) = p := by
    rw [hp, List.getD_eq_getElem _ _ (by omega)]
  have hpmem : p ∈ f := hpk ▸ List.getElem_mem _
  rw [← hp]
  have hup := variational (fun i _ j _ => hF i j) (f.take j)
    (fun q hq => hf.eigen q (List.mem_of_mem_take hq)) |p.1| (-1) (by
      intro m' w hw hwne hwo
      by_contra hlt
      have hlt : |p.1| < m' := by linarith
      have hm0 : 0 < m' := lt_of_le_of_lt (abs_nonneg _) hlt
      have hall : ∀ q ∈ f, dot n q.2 w = 0 := by
        intro q hq
        obtain ⟨i, hi, rfl⟩ := List.mem_iff_getElem.1 hq
        by_cases hik : i < j
        · exact hwo _ (List.mem_iff_getElem.2 ⟨i, by rw [List.length_take]; omega, by rw [List.getElem_take]⟩)
        · refine eigen_ortho hF (hf.eigen _ hq) hw ?_
          intro he
          have hle : |(f[i]).1| ≤ |p.1| := by
            rcases (not_lt.1 hik).eq_or_lt with h' | h'
            · subst h'; rw [hpk]
            · have := List.pairwise_iff_getElem.1 hf.order j i (by omega) (by omega) h'
              rwa [hpk] at this
          rw [he, abs_of_pos hm0] at hle
          exact absurd hle (not_le.2 hlt)
      have := hf.extreme m' w hw hwne hall p hpmem
      rw [abs_of_pos hm0] at this
      exact absurd this (not_le.2 hlt)) x (by
      intro q hq
      obtain ⟨i, hi, rfl⟩ := List.mem_iff_getElem.1 hq
      rw [List.length_take] at hi
      have := hxo i (by omega)
      rw [List.getD_eq_getElem _ _ (by omega)] at this
      rw [List.getElem_take]; exact this)
  have := hclose x
  by_contra hno
  push Not at hno
  nlinarith

/-- Weyl's inequality for the eigenvalues of largest magnitude of a positive semidefinite matrix and a symmetric one near
it. -/
theorem weyl_mag {n k : Nat} {A F : Nat → Nat → ℝ} (hA : ∀ i j, A i j = A j i) (hF : ∀ i j, F i j = F j i)
    (hpsd : ∀ x, 0 ≤ quadForm n A x) {η : ℝ}
    (hclose : ∀ x, |quadForm n F x - quadForm n A x| ≤ η * dot n x x) {a f : EigenPairs}
    (ha : EigenExtreme (fun x y => |y| ≤ |x|) n A k a) (hf : EigenExtreme (fun x y => |y| ≤ |x|) n F k f) (j : Nat) (hj : j < k) :
    |(f.getD j (0, 0)).1 - (a.getD j (0, 0)).1| ≤ 3 * η := by
  have hla := ha.count
  have hlf := hf.count
  have hunit : ∀ p ∈ f, -η ≤ p.1 := by
    intro p hp
    have h1 := quadForm_eigen (hf.eigen p hp)
    have h2 := abs_le.1 (hclose p.2)
    rw [hf.unit p hp, mul_one] at h1 h2
    have := hpsd p.2
    linarith [h2.1]
  have ha0 : ∀ i < k, 0 ≤ (a.getD i (0, 0)).1 := by
    intro i hi
    rw [List.getD_eq_getElem _ _ (by omega)]
    have h1 := quadForm_eigen (ha.eigen _ (List.getElem_mem (show i < a.length by omega)))
    rw [ha.unit _ (List.getElem_mem _), mul_one] at h1
    rw [← h1]
    exact hpsd _
  have hfm : ∀ i < k, f.getD i (0, 0) ∈ f := fun i hi => by
    rw [List.getD_eq_getElem _ _ (by omega)]; exact List.getElem_mem _
  have s1 := mag_step hA hF (fun x => by linarith [(abs_le.1 (hclose x)).1]) ha hf j hj (fun i hi => ha0 i (by omega))
  have s2 : |(f.getD j (0, 0)).1| ≤ (a.getD j (0, 0)).1 + η := by
    by_cases hneg : ∀ i ≤ j, 0 ≤ (f.getD i (0, 0)).1
    · have := mag_step hF hA (fun x => (abs_le.1 (hclose x)).2) hf ha j hj hneg
      rwa [abs_of_nonneg (ha0 j hj), ← abs_of_nonneg (hneg j le_rfl)] at this
    · push Not at hneg
      obtain ⟨i, hi, hlt⟩ := hneg
      have h1 : |(f.getD j (0, 0)).1| ≤ |(f.getD i (0, 0)).1| := by
        rcases hi.eq_or_lt with rfl | h'
        · exact le_rfl
        · have := List.pairwise_iff_getElem.1 hf.order i j (by omega) (by omega) h'
          rwa [List.getD_eq_getElem _ _ (by omega), List.getD_eq_getElem _ _ (by omega)]
      rw [abs_of_neg hlt] at h1
      have := hunit _ (hfm i (by omega))
      have := ha0 j hj
      linarith
  have h0 := ha0 j hj
  have hη : 0 ≤ η := by
    have := hclose (f.getD j (0, 0)).2
    rw [hf.unit _ (hfm j hj), mul_one] at this
    exact le_trans (abs_nonneg _) this
  by_cases hn : 0 ≤ (f.getD j (0, 0)).1
  · rw [abs_of_nonneg hn] at s1 s2
    rw [abs_le]
    constructor <;> linarith
  · push Not at hn
    have := hunit _ (hfm j hj)
    rw [abs_of_neg hn] at s1 s2
    rw [abs_le]
    constructor <;> linarith

end Recovery
end Stag
