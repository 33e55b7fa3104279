import Verif.Spec.Recovery
import Verif.Props.Cheeger
import Verif.Props.PowerMethod
import Mathlib.Data.Fintype.EquivFin
import Mathlib.Data.Fintype.BigOperators
import Mathlib.LinearAlgebra.FiniteDimensional.Lemmas
import Mathlib.LinearAlgebra.Matrix.ToLin

/-!
# Projections on orthonormal vectors and partitions
-/

namespace Stag
namespace Recovery

open Finset

/-- Orthonormal families. -/
def ON (n k : Nat) (f : Nat → Nat → ℝ) : Prop :=
  ∀ j < k, ∀ j' < k, dot n (f j) (f j') = if j = j' then 1 else 0

/-- The part of `x` orthogonal to the family. -/
noncomputable def rest (n k : Nat) (f : Nat → Nat → ℝ) (x : Nat → ℝ) (u : Nat) : ℝ :=
  x u - ∑ j ∈ range k, dot n (f j) x * f j u

/-- The squared length of the part of `x` orthogonal to the family. -/
noncomputable def resid (n k : Nat) (f : Nat → Nat → ℝ) (x : Nat → ℝ) : ℝ :=
  dot n x x - ∑ j ∈ range k, dot n (f j) x ^ 2

theorem dot_sum_right (n k : Nat) (y : Nat → ℝ) (c : Nat → ℝ) (f : Nat → Nat → ℝ) :
    dot n y (fun u => ∑ j ∈ range k, c j * f j u) = ∑ j ∈ range k, c j * dot n y (f j) := by
  unfold dot
  simp_rw [Finset.mul_sum]
  rw [Finset.sum_comm]
  exact Finset.sum_congr rfl fun j _ => Finset.sum_congr rfl fun u _ => by ring

theorem dot_sub_right (n : Nat) (x y z : Nat → ℝ) :
    dot n x (fun i => y i - z i) = dot n x y - dot n x z := by
  unfold dot
  rw [← Finset.sum_sub_distrib]
  exact Finset.sum_congr rfl (fun i _ => by ring)

theorem rest_ortho {n k : Nat} {f : Nat → Nat → ℝ} (hf : ON n k f) (x : Nat → ℝ) (j : Nat) (hj : j < k) :
    dot n (f j) (rest n k f x) = 0 := by
  unfold rest
  rw [dot_sub_right, dot_sum_right, Finset.sum_eq_single j, hf j hj j hj, if_pos rfl]
  · ring
  · intro b hb hbj
    rw [hf j hj b (mem_range.1 hb), if_neg (Ne.symm hbj), mul_zero]
  · intro h; exact absurd (mem_range.2 hj) h

theorem resid_eq {n k : Nat} {f : Nat → Nat → ℝ} (hf : ON n k f) (x : Nat → ℝ) :
    resid n k f x = dot n (rest n k f x) (rest n k f x) := by
  have h1 : dot n (rest n k f x) (rest n k f x) = dot n (rest n k f x) x := by
    conv_lhs => rw [show rest n k f x = fun u => x u - ∑ j ∈ range k, dot n (f j) x * f j u from rfl,
      dot_sub_right, dot_sum_right]
    rw [Finset.sum_eq_zero, sub_zero]
    · rfl
    · intro j hj
      have := rest_ortho hf x j (mem_range.1 hj)
      rw [dot_comm] at this
      change _ * dot n (rest n k f x) (f j) = 0
      rw [this, mul_zero]
  rw [h1, dot_comm]
  unfold rest resid
  rw [dot_sub_right, dot_sum_right]
  congr 1
  exact Finset.sum_congr rfl fun j _ => by rw [dot_comm n x (f j)]; ring

theorem resid_nonneg {n k : Nat} {f : Nat → Nat → ℝ} (hf : ON n k f) (x : Nat → ℝ) : 0 ≤ resid n k f x := by
  rw [resid_eq hf]; exact dot_self_nonneg _ _

theorem resid_le (n k : Nat) (f : Nat → Nat → ℝ) (x : Nat → ℝ) : resid n k f x ≤ dot n x x := by
  unfold resid
  have : 0 ≤ ∑ j ∈ range k, dot n (f j) x ^ 2 := Finset.sum_nonneg fun _ _ => sq_nonneg _
  linarith

theorem dot_add_self (n : Nat) (x y : Nat → ℝ) :
    dot n (fun i => x i + y i) (fun i => x i + y i) ≤ (Real.sqrt (dot n x x) + Real.sqrt (dot n y y)) ^ 2 := by
  have h1 : dot n (fun i => x i + y i) (fun i => x i + y i) = dot n x x + 2 * dot n x y + dot n y y := by
    rw [dot_add_right, dot_comm n _ x, dot_comm n _ y, dot_add_right, dot_add_right, dot_comm n y x]; ring
  have h2 : dot n x y ≤ Real.sqrt (dot n x x) * Real.sqrt (dot n y y) := by
    rw [← Real.sqrt_mul (dot_self_nonneg _ _)]
    exact Real.le_sqrt_of_sq_le (dot_cs n x y)
  have h3 := Real.sq_sqrt (dot_self_nonneg n x)
  have h4 := Real.sq_sqrt (dot_self_nonneg n y)
  rw [h1]
  nlinarith

theorem rest_add (n k : Nat) (f : Nat → Nat → ℝ) (x y : Nat → ℝ) :
    rest n k f (fun i => x i + y i) = fun i => rest n k f x i + rest n k f y i := by
  funext u
  unfold rest
  have : ∑ j ∈ range k, dot n (f j) (fun i => x i + y i) * f j u
      = ∑ j ∈ range k, dot n (f j) x * f j u + ∑ j ∈ range k, dot n (f j) y * f j u := by
    rw [← Finset.sum_add_distrib]
    exact Finset.sum_congr rfl fun j _ => by rw [dot_add_right]; ring
  rw [this]; ring

theorem resid_add {n k : Nat} {f : Nat → Nat → ℝ} (hf : ON n k f) (x y : Nat → ℝ) :
    resid n k f (fun i => x i + y i) ≤ (Real.sqrt (resid n k f x) + Real.sqrt (resid n k f y)) ^ 2 := by
  rw [resid_eq hf, resid_eq hf, resid_eq hf, rest_add]
  exact dot_add_self _ _ _

/-- The form of a symmetric matrix at `x` and at the rest of `x`. -/
theorem quadForm_rest {n k : Nat} {f : Nat → Nat → ℝ} (hf : ON n k f) {M : Nat → Nat → ℝ}
    (hM : ∀ i < n, ∀ j < n, M i j = M j i) (l : Nat → ℝ) (he : ∀ j < k, IsEigen n M (l j) (f j)) (x : Nat → ℝ) :
    quadForm n M x = quadForm n M (rest n k f x) + ∑ j ∈ range k, l j * dot n (f j) x ^ 2 := by
  have hq : ∀ y, quadForm n M y = dot n y (mulv n M y) := by
    intro y
    unfold quadForm dot mulv
    exact Finset.sum_congr rfl fun i _ => by
      rw [Finset.mul_sum]; exact Finset.sum_congr rfl fun j _ => by ring
  have hfm : ∀ j < k, ∀ y, dot n (f j) (mulv n M y) = l j * dot n (f j) y := by
    intro j hj y
    rw [← mulv_symm hM]
    refine (dot_congr (b := y) (he j hj) (fun _ _ => rfl)).trans ?_
    exact dot_smul_left n (l j) (f j) y
  have hx : x = fun u => rest n k f x u + ∑ j ∈ range k, dot n (f j) x * f j u := by
    funext u; unfold rest; ring
  have h1 : ∀ z, dot n z x = dot n z (rest n k f x) + ∑ j ∈ range k, dot n (f j) x * dot n z (f j) := by
    intro z
    conv_lhs => rw [hx]
    rw [dot_add_right, dot_sum_right]
  have h2 : ∑ j ∈ range k, dot n (f j) x * dot n (mulv n M x) (f j) = ∑ j ∈ range k, l j * dot n (f j) x ^ 2 :=
    Finset.sum_congr rfl fun j hj => by
      rw [dot_comm n (mulv n M _), hfm j (mem_range.1 hj)]; ring
  have h3 : ∑ j ∈ range k, dot n (f j) x * dot n (mulv n M (rest n k f x)) (f j) = 0 :=
    Finset.sum_eq_zero fun j hj => by
      rw [dot_comm n (mulv n M _), hfm j (mem_range.1 hj), rest_ortho hf x j (mem_range.1 hj)]; ring
  rw [hq, hq, dot_comm, h1 (mulv n M x), h2, mulv_symm hM, dot_comm n x, h1 (mulv n M (rest n k f x)), h3,
    dot_comm n (rest n k f x)]
  ring

/-- If all eigenvalues orthogonal to the family are at least `c`, the squared distance of `x` from the span is
at most the form over `c`. -/
theorem resid_quadForm {n k : Nat} {f : Nat → Nat → ℝ} (hf : ON n k f) {M : Nat → Nat → ℝ}
    (hM : ∀ i < n, ∀ j < n, M i j = M j i) (l : Nat → ℝ) (hl : ∀ j < k, 0 ≤ l j)
    (he : ∀ j < k, IsEigen n M (l j) (f j)) (c : ℝ)
    (hgap : ∀ m v, IsEigen n M m v → (∃ i < n, v i ≠ 0) → (∀ j < k, dot n (f j) v = 0) → c ≤ m) (x : Nat → ℝ) :
    c * resid n k f x ≤ quadForm n M x := by
  have h := variational hM ((List.range k).map fun j => (l j, f j)) (by
    intro p hp
    obtain ⟨j, hj, rfl⟩ := List.mem_map.1 hp
    exact he j (List.mem_range.1 hj)) c 1 (by
    intro m v hv hne ho
    rw [one_mul, one_mul]
    exact hgap m v hv hne fun j hj => ho _ (List.mem_map.2 ⟨j, List.mem_range.2 hj, rfl⟩)) (rest n k f x) (by
    intro p hp
    obtain ⟨j, hj, rfl⟩ := List.mem_map.1 hp
    exact rest_ortho hf x j (List.mem_range.1 hj))
  rw [quadForm_rest hf hM l he x, resid_eq hf]
  have : 0 ≤ ∑ j ∈ range k, l j * dot n (f j) x ^ 2 :=
    Finset.sum_nonneg fun j hj => mul_nonneg (hl j (mem_range.1 hj)) (sq_nonneg _)
  linarith

/-! ## Sums of rank-one matrices -/

/-- The sum of the matrices `a_i a_iᵀ`. -/
noncomputable def gram (m : Nat) (a : Nat → Nat → ℝ) (u v : Nat) : ℝ := ∑ i ∈ range m, a i u * a i v

theorem fro_gram (n m m' : Nat) (a b : Nat → Nat → ℝ) :
    ∑ u ∈ range n, ∑ v ∈ range n, gram m a u v * gram m' b u v
      = ∑ i ∈ range m, ∑ j ∈ range m', dot n (a i) (b j) ^ 2 := by
  unfold gram dot
  simp_rw [Finset.sum_mul_sum, sq, Finset.sum_mul_sum]
  have e1 : ∀ u ∈ range n, ∑ v ∈ range n, ∑ i ∈ range m, ∑ j ∈ range m', a i u * a i v * (b j u * b j v)
      = ∑ i ∈ range m, ∑ j ∈ range m', ∑ v ∈ range n, a i u * b j u * (a i v * b j v) := by
    intro u _
    rw [Finset.sum_comm]
    refine Finset.sum_congr rfl fun i _ => ?_
    rw [Finset.sum_comm]
    exact Finset.sum_congr rfl fun j _ => Finset.sum_congr rfl fun v _ => by ring
  rw [Finset.sum_congr rfl e1, Finset.sum_comm]
  exact Finset.sum_congr rfl fun i _ => Finset.sum_comm

theorem fro_triangle (n : Nat) (P G H : Nat → Nat → ℝ) (p gg hh pg ph gh : ℝ)
    (hp : ∑ u ∈ range n, ∑ v ∈ range n, P u v * P u v = p)
    (hgg : ∑ u ∈ range n, ∑ v ∈ range n, G u v * G u v = gg)
    (hhh : ∑ u ∈ range n, ∑ v ∈ range n, H u v * H u v = hh)
    (hpg : ∑ u ∈ range n, ∑ v ∈ range n, P u v * G u v = pg)
    (hph : ∑ u ∈ range n, ∑ v ∈ range n, P u v * H u v = ph)
    (hgh : ∑ u ∈ range n, ∑ v ∈ range n, G u v * H u v = gh) :
    gg + hh - 2 * gh ≤ 2 * (p + gg - 2 * pg) + 2 * (p + hh - 2 * ph) := by
  have h : 0 ≤ ∑ u ∈ range n, ∑ v ∈ range n, (2 * P u v - G u v - H u v) ^ 2 :=
    Finset.sum_nonneg fun _ _ => Finset.sum_nonneg fun _ _ => sq_nonneg _
  have e : ∑ u ∈ range n, ∑ v ∈ range n, (2 * P u v - G u v - H u v) ^ 2
      = 4 * p + gg + hh - 4 * pg - 4 * ph + 2 * gh := by
    rw [← hp, ← hgg, ← hhh, ← hpg, ← hph, ← hgh]
    simp only [Finset.mul_sum, ← Finset.sum_add_distrib, ← Finset.sum_sub_distrib]
    exact Finset.sum_congr rfl fun _ _ => Finset.sum_congr rfl fun _ _ => by ring
  rw [e] at h
  linarith

/-! ## Partitions -/

/-- The unit vector of a set. -/
noncomputable def unitOf (T : Finset Nat) (u : Nat) : ℝ := if u ∈ T then 1 / Real.sqrt T.card else 0

theorem dot_indicator (n : Nat) (T : Finset Nat) (hT : T ⊆ range n) (x : Nat → ℝ) (c : ℝ) :
    dot n x (fun u => if u ∈ T then c else 0) = c * ∑ u ∈ T, x u := by
  unfold dot
  rw [Finset.mul_sum, ← Finset.sum_subset hT]
  · exact Finset.sum_congr rfl fun u hu => by beta_reduce; rw [if_pos hu]; ring
  · intro u _ hu
    beta_reduce
    rw [if_neg hu, mul_zero]

theorem dot_unitOf (n : Nat) (T : Finset Nat) (hT : T ⊆ range n) (x : Nat → ℝ) :
    dot n x (unitOf T) ^ 2 = (∑ u ∈ T, x u) ^ 2 / T.card := by
  unfold unitOf
  rw [dot_indicator n T hT, mul_pow, div_pow, Real.sq_sqrt (Nat.cast_nonneg _)]
  ring

theorem unitOf_unitOf (n : Nat) (T U : Finset Nat) (hU : U ⊆ range n) :
    dot n (unitOf T) (unitOf U) ^ 2 = ((T ∩ U).card : ℝ) ^ 2 / (T.card * U.card) := by
  rw [dot_unitOf n U hU]
  have : ∑ u ∈ U, unitOf T u = (T ∩ U).card * (1 / Real.sqrt T.card) := by
    unfold unitOf
    rw [← Finset.sum_filter, Finset.sum_const, nsmul_eq_mul]
    congr 3
    ext u
    simp [and_comm]
  rw [this, mul_pow, div_pow, Real.sq_sqrt (Nat.cast_nonneg _), one_pow]
  by_cases h1 : (T.card : ℝ) = 0
  · simp [h1]
  by_cases h2 : (U.card : ℝ) = 0
  · simp [h2]
  field_simp

theorem dot_unitOf_self (n : Nat) (T : Finset Nat) (hT : T ⊆ range n) :
    dot n (unitOf T) (unitOf T) = if T.Nonempty then 1 else 0 := by
  have h := dot_indicator n T hT (unitOf T) (1 / Real.sqrt T.card)
  change dot n (unitOf T) (unitOf T) = _ at h
  rw [h]
  have e : ∑ u ∈ T, unitOf T u = T.card * (1 / Real.sqrt T.card) := by
    unfold unitOf
    rw [Finset.sum_congr rfl (fun u hu => if_pos hu), Finset.sum_const, nsmul_eq_mul]
  rw [e]
  split_ifs with hn
  · have hpos : (0 : ℝ) < T.card := by exact_mod_cast hn.card_pos
    have hs := Real.sqrt_pos.2 hpos
    have := Real.mul_self_sqrt hpos.le
    field_simp
    nlinarith
  · rw [Finset.not_nonempty_iff_eq_empty] at hn
    simp [hn]

theorem cluster_sub (n : Nat) (A : Nat → Nat) (c : Nat) : KMeans.cluster n A c ⊆ range n := filter_subset _ _

theorem cluster_inter (n : Nat) (A : Nat → Nat) {c c' : Nat} (h : c ≠ c') :
    KMeans.cluster n A c ∩ KMeans.cluster n A c' = ∅ := by
  ext u
  simp only [mem_inter, KMeans.cluster, mem_filter, notMem_empty, iff_false]
  rintro ⟨⟨-, h1⟩, -, h2⟩
  exact h (h1.symm.trans h2)

theorem unitOf_gram (n k : Nat) (A : Nat → Nat) :
    ∑ i ∈ range k, ∑ j ∈ range k,
      dot n (unitOf (KMeans.cluster n A i)) (unitOf (KMeans.cluster n A j)) ^ 2
      = ∑ i ∈ range k, dot n (unitOf (KMeans.cluster n A i)) (unitOf (KMeans.cluster n A i)) := by
  refine Finset.sum_congr rfl fun i hi => ?_
  rw [Finset.sum_eq_single i]
  · rw [dot_unitOf_self n _ (cluster_sub _ _ _)]
    split_ifs <;> norm_num
  · intro j _ hj
    rw [unitOf_unitOf n _ _ (cluster_sub _ _ _), cluster_inter n A (Ne.symm hj)]
    simp
  · intro h; exact absurd hi h

/-- The cost of a clustering of the embedding is at least the distance of the clusters from the span. -/
theorem cost_ge {n k : Nat} {f : Nat → Nat → ℝ} (hf : ON n k f) (A : Nat → Nat) (hA : ∀ u < n, A u < k)
    (Mu : Nat → Nat → ℝ) :
    (k : ℝ) - ∑ c ∈ range k, ∑ j ∈ range k, dot n (f j) (unitOf (KMeans.cluster n A c)) ^ 2
      ≤ KMeans.cost (fun u j => f j u) n k Mu A := by
  have h1 : (k : ℝ) = ∑ u ∈ range n, ∑ j ∈ range k, f j u ^ 2 := by
    rw [Finset.sum_comm]
    have : ∀ j ∈ range k, ∑ u ∈ range n, f j u ^ 2 = 1 := by
      intro j hj
      have := hf j (mem_range.1 hj) j (mem_range.1 hj)
      rw [if_pos rfl] at this
      rw [← this]
      unfold dot
      exact Finset.sum_congr rfl fun u _ => by ring
    rw [Finset.sum_congr rfl this]
    simp
  have hfib : ∀ F : Nat → Nat → ℝ, ∑ u ∈ range n, F u (A u) = ∑ c ∈ range k, ∑ u ∈ KMeans.cluster n A c, F u c := by
    intro F
    rw [← Finset.sum_fiberwise_of_maps_to (g := A) (t := range k) (fun u hu => mem_range.2 (hA u (mem_range.1 hu)))]
    refine Finset.sum_congr rfl fun c _ => Finset.sum_congr rfl fun u hu => ?_
    rw [(mem_filter.1 hu).2]
  unfold KMeans.cost
  rw [h1, hfib (fun u _ => ∑ j ∈ range k, f j u ^ 2), hfib (fun u c => KMeans.dist2 k (fun j => f j u) (Mu c)),
    ← Finset.sum_sub_distrib]
  refine Finset.sum_le_sum fun c _ => ?_
  unfold KMeans.dist2
  rw [Finset.sum_comm, Finset.sum_comm (s := KMeans.cluster n A c), ← Finset.sum_sub_distrib]
  refine Finset.sum_le_sum fun j _ => ?_
  rw [dot_unitOf n _ (cluster_sub _ _ _)]
  set T := KMeans.cluster n A c
  rcases T.eq_empty_or_nonempty with h | h
  · simp [h]
  have hpos : (0 : ℝ) < T.card := by exact_mod_cast h.card_pos
  have e : ∑ u ∈ T, (f j u - Mu c j) ^ 2
      = ∑ u ∈ T, f j u ^ 2 - 2 * Mu c j * ∑ u ∈ T, f j u + T.card * Mu c j ^ 2 := by
    rw [Finset.mul_sum, ← Finset.sum_sub_distrib, ← nsmul_eq_mul, ← Finset.sum_const, ← Finset.sum_add_distrib]
    exact Finset.sum_congr rfl fun u _ => by ring
  rw [e]
  set s := ∑ u ∈ T, f j u
  have : 0 ≤ (T.card : ℝ) * (Mu c j - s / T.card) ^ 2 := by positivity
  have e2 : (T.card : ℝ) * (Mu c j - s / T.card) ^ 2 = T.card * Mu c j ^ 2 - 2 * Mu c j * s + s ^ 2 / T.card := by
    field_simp
    ring
  linarith

/-- The cost of a clustering with its means. -/
theorem cost_means {n k : Nat} {f : Nat → Nat → ℝ} (hf : ON n k f) (A : Nat → Nat) (hA : ∀ u < n, A u < k) :
    KMeans.cost (fun u j => f j u) n k
      (fun c j => (∑ u ∈ KMeans.cluster n A c, f j u) / (KMeans.cluster n A c).card) A
    = (k : ℝ) - ∑ c ∈ range k, ∑ j ∈ range k, dot n (f j) (unitOf (KMeans.cluster n A c)) ^ 2 := by
  have h1 : (k : ℝ) = ∑ u ∈ range n, ∑ j ∈ range k, f j u ^ 2 := by
    rw [Finset.sum_comm]
    have : ∀ j ∈ range k, ∑ u ∈ range n, f j u ^ 2 = 1 := by
      intro j hj
      have := hf j (mem_range.1 hj) j (mem_range.1 hj)
      rw [if_pos rfl] at this
      rw [← this]
      unfold dot
      exact Finset.sum_congr rfl fun u _ => by ring
    rw [Finset.sum_congr rfl this]
    simp
  have hfib : ∀ F : Nat → Nat → ℝ, ∑ u ∈ range n, F u (A u) = ∑ c ∈ range k, ∑ u ∈ KMeans.cluster n A c, F u c := by
    intro F
    rw [← Finset.sum_fiberwise_of_maps_to (g := A) (t := range k) (fun u hu => mem_range.2 (hA u (mem_range.1 hu)))]
    refine Finset.sum_congr rfl fun c _ => Finset.sum_congr rfl fun u hu => ?_
    rw [(mem_filter.1 hu).2]
  unfold KMeans.cost
  rw [h1, hfib (fun u _ => ∑ j ∈ range k, f j u ^ 2), hfib (fun u c => KMeans.dist2 k (fun j => f j u)
      (fun j => (∑ u ∈ KMeans.cluster n A c, f j u) / (KMeans.cluster n A c).card)),
    ← Finset.sum_sub_distrib]
  refine Finset.sum_congr rfl fun c _ => ?_
  unfold KMeans.dist2
  rw [Finset.sum_comm, Finset.sum_comm (s := KMeans.cluster n A c), ← Finset.sum_sub_distrib]
  refine Finset.sum_congr rfl fun j _ => ?_
  rw [dot_unitOf n _ (cluster_sub _ _ _)]
  set T := KMeans.cluster n A c
  rcases T.eq_empty_or_nonempty with h | h
  · simp [h]
  have hpos : (0 : ℝ) < T.card := by exact_mod_cast h.card_pos
  set s := ∑ u ∈ T, f j u with hs
  have e : ∑ u ∈ T, (f j u - s / T.card) ^ 2
      = ∑ u ∈ T, f j u ^ 2 - 2 * (s / T.card) * ∑ u ∈ T, f j u + T.card * (s / T.card) ^ 2 := by
    rw [Finset.mul_sum, ← Finset.sum_sub_distrib, ← nsmul_eq_mul, ← Finset.sum_const, ← Finset.sum_add_distrib]
    exact Finset.sum_congr rfl fun u _ => by ring
  rw [e, ← hs]
  field_simp
  ring

/-- Two clusterings near the same span agree. -/
theorem agreement_ge {n k : Nat} {f : Nat → Nat → ℝ} (hf : ON n k f) (S A : Nat → Nat)
    (hA : ∀ u < n, A u < k) (hS : ∀ i < k, ∃ u < n, S u = i) (Mu : Nat → Nat → ℝ) :
    (k : ℝ) - 2 * (∑ i ∈ range k, resid n k f (unitOf (KMeans.cluster n S i))
      + KMeans.cost (fun u j => f j u) n k Mu A) ≤ agreement n k S A := by
  have hP : ∑ i ∈ range k, ∑ j ∈ range k, dot n (f i) (f j) ^ 2 = k := by
    have : ∀ i ∈ range k, ∑ j ∈ range k, dot n (f i) (f j) ^ 2 = 1 := by
      intro i hi
      rw [Finset.sum_eq_single i, hf i (mem_range.1 hi) i (mem_range.1 hi), if_pos rfl, one_pow]
      · intro j hj hji
        rw [hf i (mem_range.1 hi) j (mem_range.1 hj), if_neg (Ne.symm hji)]
        norm_num
      · intro h; exact absurd hi h
    rw [Finset.sum_congr rfl this]
    simp
  have hG : ∑ i ∈ range k, dot n (unitOf (KMeans.cluster n S i)) (unitOf (KMeans.cluster n S i)) = k := by
    have : ∀ i ∈ range k, dot n (unitOf (KMeans.cluster n S i)) (unitOf (KMeans.cluster n S i)) = 1 := by
      intro i hi
      rw [dot_unitOf_self n _ (cluster_sub _ _ _), if_pos]
      obtain ⟨u, hu, hui⟩ := hS i (mem_range.1 hi)
      exact ⟨u, mem_filter.2 ⟨mem_range.2 hu, hui⟩⟩
    rw [Finset.sum_congr rfl this]
    simp
  have hH : ∑ i ∈ range k, dot n (unitOf (KMeans.cluster n A i)) (unitOf (KMeans.cluster n A i)) ≤ k := by
    have : ∑ i ∈ range k, dot n (unitOf (KMeans.cluster n A i)) (unitOf (KMeans.cluster n A i))
        ≤ ∑ _i ∈ range k, (1 : ℝ) := by
      refine Finset.sum_le_sum fun i _ => ?_
      rw [dot_unitOf_self n _ (cluster_sub _ _ _)]
      split_ifs <;> norm_num
    simpa using this
  have hag : ∑ i ∈ range k, ∑ j ∈ range k,
      dot n (unitOf (KMeans.cluster n S i)) (unitOf (KMeans.cluster n A j)) ^ 2 = agreement n k S A :=
    Finset.sum_congr rfl fun i _ => Finset.sum_congr rfl fun j _ =>
      unitOf_unitOf n _ _ (cluster_sub _ _ _)
  have hres : ∑ i ∈ range k, resid n k f (unitOf (KMeans.cluster n S i))
      = k - ∑ j ∈ range k, ∑ i ∈ range k, dot n (f j) (unitOf (KMeans.cluster n S i)) ^ 2 := by
    unfold resid
    rw [Finset.sum_sub_distrib, hG, Finset.sum_comm]
  have hcost := cost_ge hf A hA Mu
  rw [Finset.sum_comm] at hcost
  have ht := fro_triangle n (gram k f) (gram k fun i => unitOf (KMeans.cluster n S i))
    (gram k fun i => unitOf (KMeans.cluster n A i)) _ _ _ _ _ _
    ((fro_gram n k k _ _).trans hP)
    ((fro_gram n k k _ _).trans ((unitOf_gram n k S).trans hG))
    ((fro_gram n k k _ _).trans (unitOf_gram n k A))
    (fro_gram n k k _ _) (fro_gram n k k _ _) ((fro_gram n k k _ _).trans hag)
  rw [hres]
  linarith

/-! ## Matching -/

/-- If the sum of `m² / (s a)` is nearly `k`, rows and columns are matched. -/
theorem matching {k : Nat} (m : Fin k → Fin k → ℝ) (s a : Fin k → ℝ) (hm : ∀ i c, 0 ≤ m i c)
    (hs : ∀ i, ∑ c, m i c = s i) (ha : ∀ c, ∑ i, m i c = a c) (hpos : ∀ i, 0 < s i) (e : ℝ) (he : e < 1 / 2)
    (h : (k : ℝ) - e ≤ ∑ i, ∑ c, m i c ^ 2 / (s i * a c)) :
    ∃ σ : Equiv.Perm (Fin k), ∀ i, (1 - e) * a (σ i) ≤ m i (σ i) ∧ (1 - 2 * e) * s i ≤ m i (σ i) := by
  have ha0 : ∀ c, 0 ≤ a c := fun c => by rw [← ha c]; exact Finset.sum_nonneg fun i _ => hm i c
  have hma : ∀ i c, m i c ≤ a c := fun i c => by
    rw [← ha c]; exact Finset.single_le_sum (f := fun i => m i c) (fun i _ => hm i c) (mem_univ i)
  have hms : ∀ i c, m i c ≤ s i := fun i c => by
    rw [← hs i]; exact Finset.single_le_sum (f := fun c => m i c) (fun c _ => hm i c) (mem_univ c)
  -- a term
  have ht : ∀ i c, m i c ^ 2 / (s i * a c) ≤ m i c / s i := fun i c => by
    rcases (ha0 c).eq_or_lt with h0 | h0
    · rw [← h0, mul_zero, div_zero]; exact div_nonneg (hm i c) (hpos i).le
    · rw [div_le_div_iff₀ (mul_pos (hpos i) h0) (hpos i)]
      have := mul_le_mul_of_nonneg_left (hma i c) (mul_nonneg (hm i c) (hpos i).le)
      nlinarith
  have hrow : ∀ i, ∑ c, m i c ^ 2 / (s i * a c) ≤ 1 := fun i => by
    refine le_trans (Finset.sum_le_sum fun c _ => ht i c) ?_
    rw [← Finset.sum_div, hs, div_self (hpos i).ne']
  have htc : ∀ i c, m i c ^ 2 / (s i * a c) ≤ m i c / a c := fun i c => by
    rcases (ha0 c).eq_or_lt with h0 | h0
    · rw [← h0, mul_zero, div_zero, div_zero]
    · rw [div_le_div_iff₀ (mul_pos (hpos i) h0) h0]
      have := mul_le_mul_of_nonneg_left (hms i c) (mul_nonneg (hm i c) h0.le)
      nlinarith
  have hcol : ∀ c, ∑ i, m i c ^ 2 / (s i * a c) ≤ 1 := fun c => by
    refine le_trans (Finset.sum_le_sum fun i _ => htc i c) ?_
    rw [← Finset.sum_div, ha]
    exact div_self_le_one _
  have hone : ∀ (F : Fin k → ℝ), (∀ i, F i ≤ 1) → (k : ℝ) - e ≤ ∑ i, F i → ∀ i, 1 - e ≤ F i := by
    intro F hF hsum i
    rw [← Finset.add_sum_erase _ _ (mem_univ i)] at hsum
    have : ∑ x ∈ univ.erase i, F x ≤ ∑ _x ∈ univ.erase i, (1 : ℝ) := Finset.sum_le_sum fun x _ => hF x
    rw [Finset.sum_const, Finset.card_erase_of_mem (mem_univ i), Finset.card_univ, Fintype.card_fin, nsmul_eq_mul,
      mul_one, Nat.cast_sub (by have := i.2; omega), Nat.cast_one] at this
    linarith
  have hrow' := hone _ hrow h
  rw [Finset.sum_comm] at h
  have hcol' := hone _ hcol h
  have hex : ∀ i, ∃ c, 0 < m i c ∧ (1 - e) * a c ≤ m i c := by
    intro i
    by_contra hno
    push Not at hno
    have hlt : ∑ c, m i c ^ 2 / (s i * a c) < ∑ c, m i c / s i * (1 - e) := by
      have hterm : ∀ c, 0 < m i c → m i c ^ 2 / (s i * a c) < m i c / s i * (1 - e) := by
        intro c hc
        have hac : 0 < a c := lt_of_lt_of_le hc (hma i c)
        have := mul_lt_mul_of_pos_left (hno c hc) hc
        rw [div_mul_eq_mul_div, div_lt_div_iff₀ (mul_pos (hpos i) hac) (hpos i)]
        have := mul_lt_mul_of_pos_left this (hpos i)
        nlinarith
      apply Finset.sum_lt_sum
      · intro c _
        rcases (hm i c).eq_or_lt with h0 | h0
        · rw [← h0]; simp
        · exact (hterm c h0).le
      · have : 0 < ∑ c, m i c := by rw [hs]; exact hpos i
        obtain ⟨c, -, hc⟩ := Finset.exists_lt_of_sum_lt (s := univ) (f := fun _ => (0 : ℝ)) (g := fun c => m i c)
          (by simpa using this)
        exact ⟨c, mem_univ c, hterm c hc⟩
    rw [← Finset.sum_mul, ← Finset.sum_div, hs, div_self (hpos i).ne', one_mul] at hlt
    exact absurd (hrow' i) (not_le.2 hlt)
  choose σ hσ1 hσ2 using hex
  have hinj : Function.Injective σ := by
    intro i i' hii
    by_contra hne
    have h1 := hσ2 i
    have h2 := hσ2 i'
    rw [← hii] at h2
    have h3 : m i (σ i) + m i' (σ i) ≤ a (σ i) := by
      rw [← ha (σ i), ← Finset.add_sum_erase _ _ (mem_univ i)]
      have := Finset.single_le_sum (f := fun x => m x (σ i)) (s := univ.erase i) (fun x _ => hm x _)
        (mem_erase.2 ⟨Ne.symm hne, mem_univ i'⟩)
      linarith
    have h4 : 0 < a (σ i) := lt_of_lt_of_le (hσ1 i) (hma _ _)
    nlinarith
  refine ⟨Equiv.ofBijective σ (Finite.injective_iff_bijective.1 hinj), fun i => ?_⟩
  rw [Equiv.ofBijective_apply]
  refine ⟨hσ2 i, ?_⟩
  have h4 : 0 < a (σ i) := lt_of_lt_of_le (hσ1 i) (hma _ _)
  have h5 := hcol' (σ i)
  rw [← Finset.add_sum_erase _ _ (mem_univ i)] at h5
  have h6 : ∑ x ∈ univ.erase i, m x (σ i) ^ 2 / (s x * a (σ i)) ≤ (a (σ i) - m i (σ i)) / a (σ i) := by
    refine le_trans (Finset.sum_le_sum fun x _ => htc x _) ?_
    rw [← Finset.sum_div]
    have := ha (σ i)
    rw [← Finset.add_sum_erase _ _ (mem_univ i)] at this
    rw [← this]
    apply le_of_eq
    ring
  have h7 : (a (σ i) - m i (σ i)) / a (σ i) ≤ e := by
    rw [div_le_iff₀ h4]
    have := hσ2 i
    linarith
  have h8 := ht i (σ i)
  have h9 : 1 - 2 * e ≤ m i (σ i) / s i := by linarith
  rwa [le_div_iff₀ (hpos i)] at h9

/-- Two clusterings of agreement nearly `k` are matched. -/
theorem agreement_matching {n k : Nat} (S A : Nat → Nat) (hSk : ∀ u < n, S u < k) (hA : ∀ u < n, A u < k)
    (hS : ∀ i < k, ∃ u < n, S u = i) (e : ℝ) (he : e < 1 / 2) (h : (k : ℝ) - e ≤ agreement n k S A) :
    ∃ σ : Equiv.Perm (Fin k), ∀ i : Fin k,
      (1 - e) * (KMeans.cluster n A (σ i)).card ≤ ((KMeans.cluster n S i ∩ KMeans.cluster n A (σ i)).card : ℝ) ∧
      (1 - 2 * e) * (KMeans.cluster n S i).card
        ≤ ((KMeans.cluster n S i ∩ KMeans.cluster n A (σ i)).card : ℝ) := by
  have hsplit : ∀ (T : Finset Nat) (B : Nat → Nat), T ⊆ range n → (∀ u < n, B u < k) →
      ∑ c : Fin k, ((T ∩ KMeans.cluster n B c).card : ℝ) = T.card := by
    intro T B hT hB
    rw [← Nat.cast_sum, Nat.cast_inj, ← Finset.sum_range fun c => (T ∩ KMeans.cluster n B c).card,
      Finset.card_eq_sum_card_fiberwise (f := B) (t := range k)]
    · refine Finset.sum_congr rfl fun c _ => congrArg card ?_
      ext u
      simp only [KMeans.cluster, mem_inter, mem_filter]
      exact ⟨fun ⟨h1, _, h2⟩ => ⟨h1, h2⟩, fun ⟨h1, h2⟩ => ⟨h1, hT h1, h2⟩⟩
    · intro u hu
      exact mem_coe.2 (mem_range.2 (hB u (mem_range.1 (hT hu))))
  apply matching (fun i c => ((KMeans.cluster n S i ∩ KMeans.cluster n A c).card : ℝ))
    (fun i => ((KMeans.cluster n S i).card : ℝ)) (fun c => ((KMeans.cluster n A c).card : ℝ))
    (fun _ _ => Nat.cast_nonneg _) (fun i => hsplit _ A (cluster_sub _ _ _) hA)
    (fun c => by
      rw [← hsplit _ S (cluster_sub n A c) hSk]
      exact Finset.sum_congr rfl fun i _ => by rw [inter_comm])
    (fun i => by
      obtain ⟨u, hu, hui⟩ := hS i i.2
      exact_mod_cast Finset.card_pos.2 ⟨u, mem_filter.2 ⟨mem_range.2 hu, hui⟩⟩) e he
  unfold agreement at h
  rw [Finset.sum_range] at h
  simpa only [Finset.sum_range] using h

theorem mislabelled_le {n k : Nat} (S A : Nat → Nat) (hSk : ∀ u < n, S u < k) (σ : Equiv.Perm (Fin k)) (e : ℝ)
    (h : ∀ i : Fin k, (1 - 2 * e) * (KMeans.cluster n S i).card
        ≤ ((KMeans.cluster n S i ∩ KMeans.cluster n A (σ i)).card : ℝ)) :
    (((range n).filter fun u => ∃ i : Fin k, S u = i ∧ A u ≠ σ i).card : ℝ) ≤ 2 * e * n := by
  have h1 : (range n).filter (fun u => ∃ i : Fin k, S u = i ∧ A u ≠ σ i)
      ⊆ univ.biUnion fun i : Fin k => KMeans.cluster n S i \ (KMeans.cluster n S i ∩ KMeans.cluster n A (σ i)) := by
    intro u hu
    obtain ⟨hu1, i, h2, h3⟩ := mem_filter.1 hu
    refine mem_biUnion.2 ⟨i, mem_univ i, mem_sdiff.2 ⟨mem_filter.2 ⟨hu1, h2⟩, fun hm => h3 ?_⟩⟩
    exact (mem_filter.1 (mem_inter.1 hm).2).2
  have h2 : (n : ℝ) = ∑ i : Fin k, ((KMeans.cluster n S i).card : ℝ) := by
    rw [← Nat.cast_sum, Nat.cast_inj, ← Finset.sum_range fun c => (KMeans.cluster n S c).card]
    conv_lhs => rw [← card_range n]
    rw [Finset.card_eq_sum_card_fiberwise (f := S) (t := range k)]
    · rfl
    · intro u hu
      exact mem_coe.2 (mem_range.2 (hSk u (mem_range.1 hu)))
  have h3 : (((range n).filter fun u => ∃ i : Fin k, S u = i ∧ A u ≠ σ i).card : ℝ)
      ≤ ∑ i : Fin k, (((KMeans.cluster n S i \ (KMeans.cluster n S i ∩ KMeans.cluster n A (σ i))).card : Nat) : ℝ) := by
    have := le_trans (card_le_card h1) card_biUnion_le
    exact_mod_cast this
  refine le_trans h3 ?_
  rw [h2, Finset.mul_sum]
  refine Finset.sum_le_sum fun i _ => ?_
  have h4 := Finset.card_sdiff_add_card_eq_card (inter_subset_left (s₁ := KMeans.cluster n S i)
    (s₂ := KMeans.cluster n A (σ i)))
  have h5 : ((KMeans.cluster n S i \ (KMeans.cluster n S i ∩ KMeans.cluster n A (σ i))).card : ℝ)
      + ((KMeans.cluster n S i ∩ KMeans.cluster n A (σ i)).card : ℝ) = (KMeans.cluster n S i).card := by
    exact_mod_cast h4
  have := h i
  linarith

/-! ## The next eigenvalue -/

theorem extreme_on {n k : Nat} {M : Nat → Nat → ℝ} {res : EigenPairs}
    (hex : EigenExtreme (· ≤ ·) n M k res) : ON n k (fun j => (res.getD j (0, 0)).2) := by
  have hlen := hex.count
  intro j hj j' hj'
  beta_reduce
  rw [List.getD_eq_getElem _ _ (by omega), List.getD_eq_getElem _ _ (by omega)]
  split_ifs with hjj
  · subst hjj; exact hex.unit _ (List.getElem_mem _)
  · rcases lt_or_gt_of_ne hjj with h | h
    · exact List.pairwise_iff_getElem.1 hex.ortho j j' (by omega) (by omega) h
    · rw [dot_comm]; exact List.pairwise_iff_getElem.1 hex.ortho j' j (by omega) (by omega) h

theorem rest_combination {n k : Nat} {f : Nat → Nat → ℝ} (hf : ON n k f) (a : Nat → ℝ) :
    (∀ j < k, dot n (f j) (fun u => ∑ t ∈ range k, a t * f t u) = a j) ∧
    ∀ u, rest n k f (fun u => ∑ t ∈ range k, a t * f t u) u = 0 := by
  have h1 : ∀ j < k, dot n (f j) (fun u => ∑ t ∈ range k, a t * f t u) = a j := by
    intro j hj
    rw [dot_sum_right, Finset.sum_eq_single j, hf j hj j hj, if_pos rfl, mul_one]
    · intro t ht htj
      rw [hf j hj t (mem_range.1 ht), if_neg (Ne.symm htj), mul_zero]
    · intro h; exact absurd (mem_range.2 hj) h
  refine ⟨h1, fun u => ?_⟩
  unfold rest
  rw [sub_eq_zero]
  exact Finset.sum_congr rfl fun j hj => by rw [h1 j (mem_range.1 hj)]

theorem next_eigenvalue {n k : Nat} {M : Nat → Nat → ℝ} (hM : ∀ i j, M i j = M j i) {res res' : EigenPairs}
    (hex : EigenExtreme (· ≤ ·) n M k res) (hex' : EigenExtreme (· ≤ ·) n M (k + 1) res') :
    ∃ p, res'[k]? = some p ∧ ∀ m v, IsEigen n M m v → (∃ i < n, v i ≠ 0) →
      (∀ q ∈ res, dot n q.2 v = 0) → p.1 ≤ m := by
  have hlen := hex.count
  have hlen' := hex'.count
  obtain ⟨p, hp⟩ : ∃ p, res'[k]? = some p := ⟨_, List.getElem?_eq_getElem (by omega)⟩
  have hpk : res'[k]'(by omega) = p := by
    rw [List.getElem?_eq_getElem (by omega)] at hp; exact Option.some.inj hp
  have hpmem : p ∈ res' := hpk ▸ List.getElem_mem _
  refine ⟨p, hp, fun m v hv hne ho => ?_⟩
  by_contra hlt
  push Not at hlt
  -- the unit vector in the direction of `v`
  have hvv : 0 < dot n v v := by
    obtain ⟨i, hi, hvi⟩ := hne
    refine lt_of_lt_of_le (mul_self_pos.2 hvi) ?_
    exact Finset.single_le_sum (f := fun i => v i * v i) (fun i _ => mul_self_nonneg _) (mem_range.2 hi)
  set r := 1 / Real.sqrt (dot n v v) with hr
  have hr2 : r * r * dot n v v = 1 := by
    have := Real.mul_self_sqrt hvv.le
    have hs := Real.sqrt_pos.2 hvv
    rw [hr]
    field_simp
    linarith
  set b : Nat → Nat → ℝ := fun j => if j < k then (res.getD j (0, 0)).2 else fun u => r * v u with hb
  set lam : Nat → ℝ := fun j => if j < k then (res.getD j (0, 0)).1 else m with hlam
  have hbv : ∀ j < k, dot n (res.getD j (0, 0)).2 (fun u => r * v u) = 0 := by
    intro j hj
    rw [dot_smul_right, List.getD_eq_getElem _ _ (by omega), ho _ (List.getElem_mem _), mul_zero]
  have hon : ON n (k + 1) b := by
    intro j hj j' hj'
    have h0 := extreme_on hex
    by_cases h1 : j < k <;> by_cases h2 : j' < k
    · simp only [hb, if_pos h1, if_pos h2]; exact h0 j h1 j' h2
    · simp only [hb, if_pos h1, if_neg h2]
      rw [hbv j h1, if_neg (by omega)]
    · simp only [hb, if_neg h1, if_pos h2]
      rw [dot_comm, hbv j' h2, if_neg (by omega)]
    · simp only [hb, if_neg h1, if_neg h2]
      rw [if_pos (by omega), dot_smul_right, dot_comm, dot_smul_right]
      linarith
  have heig : ∀ j < k + 1, IsEigen n M (lam j) (b j) := by
    intro j hj
    by_cases h1 : j < k
    · simp only [hb, hlam, if_pos h1]
      rw [List.getD_eq_getElem _ _ (by omega)]
      exact hex.eigen _ (List.getElem_mem _)
    · simp only [hb, hlam, if_neg h1]
      intro i hi
      have := hv i hi
      calc ∑ j ∈ range n, M i j * (r * v j) = r * ∑ j ∈ range n, M i j * v j := by
            rw [Finset.mul_sum]; exact Finset.sum_congr rfl fun j _ => by ring
        _ = _ := by rw [this]; ring
  have hlamle : ∀ j < k + 1, lam j ≤ m := by
    intro j hj
    by_cases h1 : j < k
    · simp only [hlam, if_pos h1]
      rw [List.getD_eq_getElem _ _ (by omega)]
      exact hex.extreme m v hv hne ho _ (List.getElem_mem _)
    · simp only [hlam, if_neg h1]; exact le_rfl
  -- a combination orthogonal to the first `k` of the others
  let B : (Fin (k + 1) → ℝ) →ₗ[ℝ] (Fin k → ℝ) :=
    Matrix.mulVecLin (Matrix.of fun (i : Fin k) (t : Fin (k + 1)) => dot n (res'.getD i (0, 0)).2 (b t))
  obtain ⟨a, haker, hane⟩ := (Submodule.ne_bot_iff _).1
    (LinearMap.ker_ne_bot_of_finrank_lt (f := B) (by simp))
  have hBa : ∀ i : Fin k, ∑ t : Fin (k + 1), dot n (res'.getD i (0, 0)).2 (b t) * a t = 0 := fun i =>
    congrFun (LinearMap.mem_ker.1 haker) i
  let a' : Nat → ℝ := fun t => if ht : t < k + 1 then a ⟨t, ht⟩ else 0
  have ha' : ∀ t : Fin (k + 1), a' t = a t := fun t => by simp only [a', t.2, dif_pos]
  set x : Nat → ℝ := fun u => ∑ t ∈ range (k + 1), a' t * b t u with hx
  obtain ⟨hc1, hc2⟩ := rest_combination hon a'
  have hxo : ∀ i < k, dot n (res'.getD i (0, 0)).2 x = 0 := by
    intro i hi
    rw [hx, dot_sum_right, Finset.sum_range]
    refine Eq.trans (Finset.sum_congr rfl fun t _ => ?_) (hBa ⟨i, hi⟩)
    rw [ha' t, mul_comm]
  have hr0 : rest n (k + 1) b x = fun _ => 0 := funext hc2
  have hdot : dot n x x = ∑ j ∈ range (k + 1), a' j ^ 2 := by
    have h1 := resid_eq hon x
    rw [hr0] at h1
    unfold resid at h1
    have h2 : dot n (fun _ => (0 : ℝ)) (fun _ => 0) = 0 := Finset.sum_eq_zero fun _ _ => mul_zero _
    rw [h2, Finset.sum_congr rfl fun j hj => by rw [hc1 j (mem_range.1 hj)]] at h1
    linarith
  have hquad : quadForm n M x = ∑ j ∈ range (k + 1), lam j * a' j ^ 2 := by
    rw [quadForm_rest hon (fun i _ j _ => hM i j) lam heig x, hr0,
      Finset.sum_congr rfl fun j hj => by rw [hc1 j (mem_range.1 hj)]]
    have : quadForm n M (fun _ => (0 : ℝ)) = 0 :=
      Finset.sum_eq_zero fun _ _ => Finset.sum_eq_zero fun _ _ => mul_zero _
    rw [this, zero_add]
  have hxpos : 0 < dot n x x := by
    rw [hdot]
    obtain ⟨t, ht⟩ := Function.ne_iff.1 hane
    refine lt_of_lt_of_le (pow_pos (abs_pos.2 (show a' t ≠ 0 by rw [ha' t]; exact ht)) 2) ?_
    rw [sq_abs]
    exact Finset.single_le_sum (f := fun j => a' j ^ 2) (fun j _ => sq_nonneg _) (mem_range.2 t.2)
  have hup : quadForm n M x ≤ m * dot n x x := by
    rw [hquad, hdot, Finset.mul_sum]
    exact Finset.sum_le_sum fun j hj => mul_le_mul_of_nonneg_right (hlamle j (mem_range.1 hj)) (sq_nonneg _)
  have hlow := variational (fun i _ j _ => hM i j) (res'.take k)
    (fun q hq => hex'.eigen q (List.mem_of_mem_take hq)) p.1 1 (by
      intro m' w hw hwne hwo
      rw [one_mul, one_mul]
      by_cases h0 : dot n p.2 w = 0
      · refine hex'.extreme m' w hw hwne (fun q hq => ?_) p hpmem
        obtain ⟨i, hi, rfl⟩ := List.mem_iff_getElem.1 hq
        by_cases hik : i < k
        · exact hwo _ (List.mem_iff_getElem.2 ⟨i, by rw [List.length_take]; omega, by rw [List.getElem_take]⟩)
        · have : i = k := by omega
          subst this
          rw [hpk]; exact h0
      · by_contra hne'
        exact h0 (eigen_ortho hM (hex'.eigen p hpmem) hw (fun he => hne' (le_of_eq he)))) x (by
      intro q hq
      obtain ⟨i, hi, rfl⟩ := List.mem_iff_getElem.1 hq
      rw [List.length_take] at hi
      have := hxo i (by omega)
      rw [List.getD_eq_getElem _ _ (by omega)] at this
      rw [List.getElem_take]; exact this)
  nlinarith

end Recovery
end Stag
