import Verif.RecoveryMath
import Verif.Spec.Inexact

/-!
# Perturbation of invariant subspaces
-/

namespace Stag
namespace Recovery

open Finset

/-- Minkowski's inequality for finite sums. -/
theorem minkowski {ι : Type*} (s : Finset ι) (a b : ι → ℝ) :
    ∑ i ∈ s, (a i + b i) ^ 2 ≤ (Real.sqrt (∑ i ∈ s, a i ^ 2) + Real.sqrt (∑ i ∈ s, b i ^ 2)) ^ 2 := by
  have ha : 0 ≤ ∑ i ∈ s, a i ^ 2 := Finset.sum_nonneg fun _ _ => sq_nonneg _
  have hb : 0 ≤ ∑ i ∈ s, b i ^ 2 := Finset.sum_nonneg fun _ _ => sq_nonneg _
  have h1 : ∑ i ∈ s, a i * b i ≤ Real.sqrt (∑ i ∈ s, a i ^ 2) * Real.sqrt (∑ i ∈ s, b i ^ 2) := by
    rw [← Real.sqrt_mul ha]
    exact Real.le_sqrt_of_sq_le (Finset.sum_mul_sq_le_sq_mul_sq s a b)
  have e : ∑ i ∈ s, (a i + b i) ^ 2 = ∑ i ∈ s, a i ^ 2 + 2 * ∑ i ∈ s, a i * b i + ∑ i ∈ s, b i ^ 2 := by
    rw [Finset.mul_sum, ← Finset.sum_add_distrib, ← Finset.sum_add_distrib]
    exact Finset.sum_congr rfl fun _ _ => by ring
  have h2 := Real.sq_sqrt ha
  have h3 := Real.sq_sqrt hb
  rw [e]
  nlinarith

theorem residual2_eq (n : Nat) (M : Nat → Nat → ℝ) (l : ℝ) (v : Nat → ℝ) :
    residual2 n M l v = dot n (fun i => mulv n M v i - l * v i) (fun i => mulv n M v i - l * v i) := by
  unfold residual2 dot mulv
  exact Finset.sum_congr rfl fun i _ => by ring

theorem residual2_nonneg (n : Nat) (M : Nat → Nat → ℝ) (l : ℝ) (v : Nat → ℝ) : 0 ≤ residual2 n M l v :=
  Finset.sum_nonneg fun _ _ => sq_nonneg _

theorem quadForm_dot (n : Nat) (M : Nat → Nat → ℝ) (y : Nat → ℝ) : quadForm n M y = dot n y (mulv n M y) := by
  unfold quadForm dot mulv
  exact Finset.sum_congr rfl fun i _ => by
    rw [Finset.mul_sum]; exact Finset.sum_congr rfl fun j _ => by ring

/-- The part of an approximate eigenvector outside an invariant subspace is small if the other eigenvalues are
far away (Davis and Kahan). -/
theorem resid_residual {n k : Nat} {f : Nat → Nat → ℝ} (hf : ON n k f) {M : Nat → Nat → ℝ}
    (hM : ∀ i < n, ∀ j < n, M i j = M j i) (lam : Nat → ℝ) (he : ∀ j < k, IsEigen n M (lam j) (f j)) (c : ℝ)
    (hgap : ∀ m v, IsEigen n M m v → (∃ i < n, v i ≠ 0) → (∀ j < k, dot n (f j) v = 0) → c ≤ m) (x : Nat → ℝ)
    (μ : ℝ) (hμ : μ < c) : resid n k f x ≤ residual2 n M μ x / (c - μ) ^ 2 := by
  have hvar := variational hM ((List.range k).map fun j => (lam j, f j)) (by
    intro p hp
    obtain ⟨j, hj, rfl⟩ := List.mem_map.1 hp
    exact he j (List.mem_range.1 hj)) c 1 (by
    intro m v hv hne ho
    rw [one_mul, one_mul]
    exact hgap m v hv hne fun j hj => ho _ (List.mem_map.2 ⟨j, List.mem_range.2 hj, rfl⟩)) (rest n k f x) (by
    intro p hp
    obtain ⟨j, hj, rfl⟩ := List.mem_map.1 hp
    exact rest_ortho hf x j (List.mem_range.1 hj))
  obtain ⟨z, hz⟩ : ∃ z, z = rest n k f x := ⟨_, rfl⟩
  rw [← hz] at hvar
  have hzo : ∀ j < k, dot n z (f j) = 0 := fun j hj => by
    rw [dot_comm, hz]; exact rest_ortho hf x j hj
  have hx : x = fun u => z u + ∑ j ∈ range k, dot n (f j) x * f j u := by
    funext u; rw [hz]; unfold rest; ring
  have hany : ∀ y, (∀ j < k, dot n y (f j) = 0) → dot n y x = dot n y z := by
    intro y hy
    conv_lhs => rw [hx]
    rw [dot_add_right, dot_sum_right, Finset.sum_eq_zero, add_zero]
    intro j hj
    rw [hy j (mem_range.1 hj), mul_zero]
  have hMz : ∀ j < k, dot n (mulv n M z) (f j) = 0 := by
    intro j hj
    rw [mulv_symm hM]
    refine (dot_congr (x := z) (fun _ _ => rfl) (he j hj)).trans ?_
    rw [dot_smul_right, hzo j hj, mul_zero]
  have h1 : dot n z (fun i => mulv n M x i - μ * x i) = quadForm n M z - μ * dot n z z := by
    rw [dot_sub_right, dot_smul_right, ← mulv_symm hM, hany _ hMz, hany _ hzo, quadForm_dot, dot_comm n z (mulv n M z)]
  have h2 : (c - μ) * dot n z z ≤ dot n z (fun i => mulv n M x i - μ * x i) := by
    rw [h1]; linarith
  have h3 := dot_cs n z (fun i => mulv n M x i - μ * x i)
  rw [← residual2_eq] at h3
  have h0 : 0 ≤ dot n z z := dot_self_nonneg _ _
  have hc : 0 < c - μ := sub_pos.2 hμ
  rw [resid_eq hf, ← hz, le_div_iff₀ (pow_pos hc 2)]
  rcases h0.eq_or_lt with hz0 | hzpos
  · rw [← hz0, zero_mul]; exact residual2_nonneg _ _ _ _
  · have h4 : ((c - μ) * dot n z z) ^ 2 ≤ dot n z z * residual2 n M μ x :=
      le_trans (pow_le_pow_left₀ (mul_nonneg hc.le h0) h2 2) h3
    have h5 : dot n z z * (dot n z z * (c - μ) ^ 2) ≤ dot n z z * residual2 n M μ x := by
      refine le_trans (le_of_eq ?_) h4; ring
    exact le_of_mul_le_mul_left h5 hzpos

/-- Two orthonormal families of the same size are equally far from each other. -/
theorem resid_swap {n k : Nat} {f w : Nat → Nat → ℝ} (hf : ON n k f) (hw : ON n k w) :
    ∑ j ∈ range k, resid n k w (f j) = ∑ j ∈ range k, resid n k f (w j) := by
  unfold resid
  rw [Finset.sum_sub_distrib, Finset.sum_sub_distrib]
  congr 1
  · exact Finset.sum_congr rfl fun j hj => by
      rw [hf j (mem_range.1 hj) j (mem_range.1 hj), hw j (mem_range.1 hj) j (mem_range.1 hj)]
  · rw [Finset.sum_comm]
    exact Finset.sum_congr rfl fun i _ => Finset.sum_congr rfl fun j _ => by rw [dot_comm]

theorem rest_sum (n k : Nat) (w : Nat → Nat → ℝ) (m : Nat) (c : Nat → ℝ) (f : Nat → Nat → ℝ) (u : Nat) :
    rest n k w (fun u => ∑ t ∈ range m, c t * f t u) u = ∑ t ∈ range m, c t * rest n k w (f t) u := by
  unfold rest
  simp_rw [dot_sum_right, mul_sub, Finset.sum_sub_distrib, Finset.mul_sum, Finset.sum_mul]
  congr 1
  rw [Finset.sum_comm]
  exact Finset.sum_congr rfl fun _ _ => Finset.sum_congr rfl fun _ _ => by ring

/-- The distances of an orthonormal family `x` from the span of `w`, in terms of its distances from the span of
`f` and of the distance of the two spans. -/
theorem resid_transfer {n k : Nat} {f w x : Nat → Nat → ℝ} (hf : ON n k f) (hw : ON n k w) (hx : ON n k x) :
    ∑ i ∈ range k, resid n k w (x i) ≤
      (Real.sqrt (∑ i ∈ range k, resid n k f (x i)) + Real.sqrt (∑ j ∈ range k, resid n k w (f j))) ^ 2 := by
  have hsum : ∀ F : Nat → Nat → ℝ, ∑ i ∈ range k, dot n (F i) (F i) = ∑ p ∈ range k ×ˢ range n, F p.1 p.2 ^ 2 := by
    intro F
    rw [Finset.sum_product]
    unfold dot
    exact Finset.sum_congr rfl fun _ _ => Finset.sum_congr rfl fun _ _ => by ring
  set a : Nat → Nat → ℝ := fun i => rest n k w (rest n k f (x i)) with ha
  set b : Nat → Nat → ℝ := fun i u => ∑ j ∈ range k, dot n (f j) (x i) * rest n k w (f j) u with hb
  have hsplit : ∀ i, rest n k w (x i) = fun u => a i u + b i u := by
    intro i
    have hxi : x i = fun u => rest n k f (x i) u + ∑ j ∈ range k, dot n (f j) (x i) * f j u := by
      funext u; unfold rest; ring
    conv_lhs => rw [hxi]
    rw [rest_add]
    funext u
    rw [rest_sum]
  have e1 : ∑ i ∈ range k, resid n k w (x i) = ∑ p ∈ range k ×ˢ range n, (a p.1 p.2 + b p.1 p.2) ^ 2 := by
    rw [← hsum (fun i u => a i u + b i u)]
    exact Finset.sum_congr rfl fun i _ => by rw [resid_eq hw, hsplit]
  have e2 : ∑ p ∈ range k ×ˢ range n, a p.1 p.2 ^ 2 ≤ ∑ i ∈ range k, resid n k f (x i) := by
    rw [← hsum a]
    refine Finset.sum_le_sum fun i _ => ?_
    rw [ha]
    beta_reduce
    rw [← resid_eq hw, resid_eq hf]
    exact resid_le _ _ _ _
  have e3 : ∑ p ∈ range k ×ˢ range n, b p.1 p.2 ^ 2 ≤ ∑ j ∈ range k, resid n k w (f j) := by
    rw [Finset.sum_product, Finset.sum_comm]
    have : ∑ j ∈ range k, resid n k w (f j) = ∑ u ∈ range n, ∑ j ∈ range k, rest n k w (f j) u ^ 2 := by
      rw [Finset.sum_comm]
      exact Finset.sum_congr rfl fun j _ => by
        rw [resid_eq hw]; unfold dot; exact Finset.sum_congr rfl fun _ _ => by ring
    rw [this]
    refine Finset.sum_le_sum fun u _ => ?_
    set y : Nat → ℝ := fun v => ∑ j ∈ range k, rest n k w (f j) u * f j v with hy
    have hbes := resid_nonneg hx y
    unfold resid at hbes
    obtain ⟨hc1, hc2⟩ := rest_combination hf (fun j => rest n k w (f j) u)
    have hyy : dot n y y = ∑ j ∈ range k, rest n k w (f j) u ^ 2 := by
      have h1 := resid_eq hf y
      rw [show rest n k f y = fun _ => 0 from funext hc2] at h1
      unfold resid at h1
      have h2 : dot n (fun _ => (0 : ℝ)) (fun _ => 0) = 0 := Finset.sum_eq_zero fun _ _ => mul_zero _
      rw [h2, Finset.sum_congr rfl fun j hj => by rw [hc1 j (mem_range.1 hj)]] at h1
      linarith
    have hxy : ∀ i, dot n (x i) y = b i u := by
      intro i
      rw [hy, dot_sum_right, hb]
      exact Finset.sum_congr rfl fun j _ => by rw [dot_comm]; ring
    simp_rw [hxy] at hbes
    rw [hyy] at hbes
    dsimp only
    linarith
  rw [e1]
  refine le_trans (minkowski _ _ _) ?_
  have := Real.sqrt_le_sqrt e2
  have := Real.sqrt_le_sqrt e3
  gcongr

/-- The k-means cost after a change of the points. -/
theorem cost_perturb (n k : Nat) (X Y : Nat → Nat → ℝ) (Mu : Nat → Nat → ℝ) (A : Nat → Nat) (δ : ℝ) (hδ : 0 ≤ δ)
    (h : ∑ j ∈ range k, ∑ i ∈ range n, (X i j - Y i j) ^ 2 ≤ δ ^ 2) :
    KMeans.cost X n k Mu A ≤ (Real.sqrt (KMeans.cost Y n k Mu A) + δ) ^ 2 := by
  have hcost : ∀ X : Nat → Nat → ℝ, KMeans.cost X n k Mu A
      = ∑ p ∈ range n ×ˢ range k, (X p.1 p.2 - Mu (A p.1) p.2) ^ 2 := by
    intro X
    rw [Finset.sum_product]
    rfl
  have e : KMeans.cost X n k Mu A
      = ∑ p ∈ range n ×ˢ range k, ((Y p.1 p.2 - Mu (A p.1) p.2) + (X p.1 p.2 - Y p.1 p.2)) ^ 2 := by
    rw [hcost]
    exact Finset.sum_congr rfl fun _ _ => by ring
  rw [e, hcost Y]
  refine le_trans (minkowski _ _ _) ?_
  have h2 : Real.sqrt (∑ p ∈ range n ×ˢ range k, (X p.1 p.2 - Y p.1 p.2) ^ 2) ≤ δ := by
    rw [Finset.sum_product, Finset.sum_comm]
    exact Real.sqrt_le_iff.2 ⟨hδ, h⟩
  gcongr

end Recovery
end Stag
