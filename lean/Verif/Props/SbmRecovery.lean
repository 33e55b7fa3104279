import Verif.TypicalMath
import Verif.Props.Equitable

/-!
# C86: spectral clustering recovers the clusters of the stochastic block model
-/

namespace Stag

open Finset Recovery

section
variable {g : Graph ℝ} {k m : Nat} {p q a t : ℝ}

theorem quadForm_matrix (s : WGraph ℝ) (x : Nat → ℝ) :
    quadForm s.n (matrixOf s .normalisedLaplacian) x = dot s.n x x -
      ∑ u ∈ range s.n, ∑ v ∈ range s.n, s.w u v * (x u / Real.sqrt (s.deg u) * (x v / Real.sqrt (s.deg v))) := by
  unfold quadForm dot
  rw [← Finset.sum_sub_distrib]
  refine Finset.sum_congr rfl fun u hu => ?_
  have : ∀ v ∈ range s.n, x u * matrixOf s .normalisedLaplacian u v * x v
      = (if u = v then x u * x v else 0) - s.w u v * (x u / Real.sqrt (s.deg u) * (x v / Real.sqrt (s.deg v))) := by
    intro v _
    have e : matrixOf s .normalisedLaplacian u v
        = (if u = v then 1 else 0) - s.w u v / (Real.sqrt (s.deg u) * Real.sqrt (s.deg v)) := rfl
    rw [e]
    by_cases huv : u = v
    · rw [if_pos huv, if_pos huv]; ring
    · rw [if_neg huv, if_neg huv]; ring
  rw [Finset.sum_congr rfl this, Finset.sum_sub_distrib, Finset.sum_ite_eq, if_pos hu]

/-- The facts used about a typical graph. -/
structure SimpleTypical (g : Graph ℝ) (k m : Nat) (p q a t : ℝ) : Prop where
  reach : g.Reachable
  typ : g.abs.Typical k m p q a t
  simple : ∀ u v, g.abs.w u v = 0 ∨ g.abs.w u v = 1
  loop : ∀ v, g.abs.w v v = 0

theorem SimpleTypical.deg (h : SimpleTypical g k m p q a t) (hp : 0 ≤ p ∧ p ≤ 1) (u : Nat)
    (hu : u < g.n) : blockDegree k m p q - k * (a + 1) ≤ g.abs.deg u := by
  have hn : g.n = k * m := h.typ.size
  have := abs_le.1 (typical_degree h.typ h.loop hp u (by omega))
  linarith [this.1]

theorem SimpleTypical.pos (h : SimpleTypical g k m p q a t) (hp : 0 ≤ p ∧ p ≤ 1) (hv : Visible k m p q a t) (u : Nat)
    (hu : u < g.n) : 0 < g.abs.deg u := by
  have := h.deg hp u hu
  have := hv.2.2.1
  linarith

theorem SimpleTypical.nonneg (h : SimpleTypical g k m p q a t) (u v : Nat) : 0 ≤ g.abs.w u v := by
  rcases h.simple u v with e | e <;> rw [e]
  norm_num

theorem typical_test (h : SimpleTypical g k m p q a t) (hp : 0 ≤ p ∧ p ≤ 1) (hq : 0 ≤ q ∧ q ≤ 1)
    (hv : Visible k m p q a t) (x : Nat → ℝ)
    (hx : ∀ i < k, dot g.n (fun u => if u / m = i then 1 / Real.sqrt (g.abs.deg u) else 0) x = 0) :
    (1 - Real.sqrt (k * m * (1 + t)) / (blockDegree k m p q - k * (a + 1))) * dot g.n x x
      ≤ quadForm g.n (matrixOf g.abs .normalisedLaplacian) x := by
  have hn : g.n = k * m := h.typ.size
  have hlo : 0 < blockDegree k m p q - k * (a + 1) := by linarith [hv.2.2.1]
  obtain ⟨y, hy⟩ : ∃ y : Nat → ℝ, y = fun u => x u / Real.sqrt (g.abs.deg u) := ⟨_, rfl⟩
  have hsum : ∀ i < k, ∑ v ∈ KMeans.cluster (k * m) (fun v => v / m) i, y v = 0 := by
    intro i hi
    refine Eq.trans ?_ (hx i hi)
    unfold dot KMeans.cluster
    rw [hn, Finset.sum_filter]
    refine Finset.sum_congr rfl fun u _ => ?_
    beta_reduce
    by_cases hui : u / m = i
    · rw [if_pos hui, if_pos hui, hy]; ring
    · rw [if_neg hui, if_neg hui]; ring
  have h1 := typical_form h.typ (fun u v => h.reach.valid.symm u v) h.loop h.simple hp hq hv.2.1 y hsum
  have h2 : (blockDegree k m p q - k * (a + 1)) * dot (k * m) y y ≤ dot (k * m) x x := by
    unfold dot
    rw [Finset.mul_sum]
    refine Finset.sum_le_sum fun u hu => ?_
    have hu' : u < g.n := by rw [hn]; exact mem_range.1 hu
    have hd := h.deg hp u hu'
    have hpos := h.pos hp hv u hu'
    have e : x u * x u = g.abs.deg u * (y u * y u) := by
      have hs := Real.mul_self_sqrt hpos.le
      have hne := (Real.sqrt_pos.2 hpos).ne'
      rw [hy]
      field_simp
      rw [sq (Real.sqrt _), hs]
    rw [e]
    exact mul_le_mul_of_nonneg_right hd (mul_self_nonneg _)
  have h3 := quadForm_matrix g.abs x
  change quadForm g.n _ x = dot g.n x x - ∑ u ∈ range g.n, ∑ v ∈ range g.n, _ at h3
  rw [h3, hn]
  have e4 : ∑ u ∈ range (k * m), ∑ v ∈ range (k * m), g.abs.w u v * (x u / Real.sqrt (g.abs.deg u) *
      (x v / Real.sqrt (g.abs.deg v))) = ∑ u ∈ range (k * m), ∑ v ∈ range (k * m), g.abs.w u v * (y u * y v) := by
    rw [hy]
  rw [e4]
  have h5 : Real.sqrt (k * m * (1 + t)) * dot (k * m) y y
      ≤ Real.sqrt (k * m * (1 + t)) / (blockDegree k m p q - k * (a + 1)) * dot (k * m) x x := by
    rw [div_mul_eq_mul_div, le_div_iff₀ hlo, mul_assoc, mul_comm (dot _ y y)]
    exact mul_le_mul_of_nonneg_left h2 (Real.sqrt_nonneg _)
  linarith

theorem typical_span (h : SimpleTypical g k m p q a t) (hk : 1 ≤ k) (hm : 1 ≤ m) (hp : 0 ≤ p ∧ p ≤ 1)
    (hq : 0 ≤ q ∧ q ≤ 1) (hv : Visible k m p q a t) {res : EigenPairs}
    (hex : EigenExtreme (· ≤ ·) g.n (matrixOf g.abs .normalisedLaplacian) k res) :
    spanDefect g.n k res (fun u => u / m) ≤ typicalDefect k m p q a t := by
  have hn : g.n = k * m := h.typ.size
  have hδ : 0 ≤ k * (a + 1) := by have := hv.1; positivity
  have hlo : 0 < blockDegree k m p q - k * (a + 1) := by linarith [hv.2.2.1]
  have hd0 : 0 < blockDegree k m p q := by linarith
  have hgap := gap_of_test (fun i j => matrixOf_symm h.reach _ i j) hex _ _ (typical_test h hp hq hv)
  have hst := typical_strength (k := k) (p := p) hq.1 hd0 hm
  rw [← hn] at hst
  have hvis := hv.2.2.2
  obtain ⟨r, hr⟩ : ∃ r, r = Real.sqrt (k * m * (1 + t)) := ⟨_, rfl⟩
  obtain ⟨d, hd⟩ : ∃ d, d = blockDegree k m p q := ⟨_, rfl⟩
  obtain ⟨δ, hδe⟩ : ∃ δ : ℝ, δ = k * (a + 1) := ⟨_, rfl⟩
  have hdif : (1 - r / (d - δ)) - (1 - m * (p - q) / d) = (m * (p - q) * (1 - δ / d) - r) / (d - δ) := by
    have : d ≠ 0 := by rw [hd]; exact hd0.ne'
    have : d - δ ≠ 0 := by rw [hd, hδe]; exact hlo.ne'
    field_simp
    ring
  rw [← hr, ← hd, ← hδe] at hvis hgap
  have hspan := span_equitable h.reach hex _ hgap (fun u => u / m) (fun u hu => block_lt (by rw [← hn]; exact hu))
    (fun i hi => ⟨i * m, by rw [hn]; exact Nat.mul_lt_mul_of_pos_right hi (by omega), Nat.mul_div_cancel _ (by omega)⟩)
    _ _ hst (by
      rw [← hd] 
      have : 0 < (m * (p - q) * (1 - δ / d) - r) / (d - δ) :=
        div_pos (by linarith) (by rw [hd, hδe]; exact hlo)
      linarith)
  refine le_trans hspan ?_
  have hun := typical_uneven h.typ h.loop (fun u v => h.nonneg u v) hp hq hv.1 hk hm hv.2.2.1
  rw [← hd] at hun hspan ⊢
  rw [hdif]
  unfold typicalDefect
  rw [← hr, ← hd, ← hδe]
  rw [← hδe] at hun
  have hlo' : 0 < d - δ := by rw [hd, hδe]; exact hlo
  have hne : 0 < m * (p - q) * (1 - δ / d) - r := by linarith
  refine le_trans (div_le_div_of_nonneg_right hun (by positivity)) (le_of_eq ?_)
  have := hlo'.ne'
  have := hne.ne'
  obtain ⟨z, hz⟩ : ∃ z, z = m * (p - q) * (1 - δ / d) - r := ⟨_, rfl⟩
  rw [← hz] at hne this ⊢
  rw [div_pow]
  field_simp

end
end Stag
