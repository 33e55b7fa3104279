import Verif.Props.Cheeger
import Mathlib.LinearAlgebra.FiniteDimensional.Basic
import Mathlib.LinearAlgebra.Matrix.ToLin
import Mathlib.LinearAlgebra.FiniteDimensional.Lemmas

/-!
# C62: the eigenvalue zero and the connected components
-/

namespace Stag

open Graph

/-- Fewer homogeneous equations than unknowns have a non-trivial solution. -/
theorem exists_null (a : Nat → Nat → ℝ) {j k : Nat} (hjk : j < k) :
    ∃ F : Nat → ℝ, (∃ c < k, F c ≠ 0) ∧ ∀ i < j, ∑ c ∈ Finset.range k, a i c * F c = 0 := by
  let A : Matrix (Fin j) (Fin k) ℝ := Matrix.of (fun i c => a i c)
  have h1 : LinearMap.ker A.mulVecLin ≠ ⊥ := LinearMap.ker_ne_bot_of_finrank_lt (by simpa using hjk)
  obtain ⟨x, hx, hne⟩ := Submodule.exists_mem_ne_zero_of_ne_bot h1
  rw [LinearMap.mem_ker] at hx
  refine ⟨fun c => if h : c < k then x ⟨c, h⟩ else 0, ?_, fun i hi => ?_⟩
  · obtain ⟨c, hc⟩ := Function.ne_iff.1 hne
    exact ⟨c, c.2, by simpa using hc⟩
  · have := congrFun hx ⟨i, hi⟩
    rw [Finset.sum_range]
    simpa [A, Matrix.mulVec, dotProduct] using this

/-- `comp` numbers the connected components of a graph, from 0 to `k - 1`. -/
structure Components (s : WGraph ℝ) (comp : Nat → Nat) (k : Nat) : Prop where
  lt : ∀ v < s.n, comp v < k
  same : ∀ u < s.n, ∀ v < s.n, comp u = comp v ↔ s.Connected u v
  onto : ∀ c < k, ∃ v < s.n, comp v = c

/-- A function that agrees along edges agrees on components. -/
theorem const_on_components {s : WGraph ℝ} {f : Nat → ℝ}
    (hf : ∀ u v, u < s.n → v < s.n → s.w u v ≠ 0 → f u = f v) {u v : Nat}
    (h : s.Connected u v) : f v = f u := by
  induction h with
  | refl => rfl
  | step hr hadj ih => rw [← hf _ _ hadj.1 hadj.2.1 hadj.2.2, ih]

/-- The kernel of a form that is a sum of squares along the edges. -/
theorem kernel_of_form {s : WGraph ℝ} (hw : ∀ u v, 0 ≤ s.w u v) {f : Nat → ℝ}
    (hq : ∑ a ∈ Finset.range s.n, ∑ b ∈ Finset.range s.n, s.w a b * (f a - f b) ^ 2 = 0) :
    ∀ u v, u < s.n → v < s.n → s.w u v ≠ 0 → f u = f v := by
  intro a b ha hb hne
  have h1 := (Finset.sum_eq_zero_iff_of_nonneg (fun a _ => Finset.sum_nonneg (fun b _ =>
    mul_nonneg (hw a b) (sq_nonneg (f a - f b))))).1 hq a (Finset.mem_range.2 ha)
  have h2 := (Finset.sum_eq_zero_iff_of_nonneg (fun b _ =>
    mul_nonneg (hw a b) (sq_nonneg (f a - f b)))).1 h1 b (Finset.mem_range.2 hb)
  exact sub_eq_zero.1 (pow_eq_zero_iff (two_ne_zero)|>.1 ((mul_eq_zero.1 h2).resolve_left hne))

theorem exists_on_components {s : WGraph ℝ} {comp : Nat → Nat} {k : Nat} (hc : Components s comp k)
    {f : Nat → ℝ} (hf : ∀ u v, u < s.n → v < s.n → s.w u v ≠ 0 → f u = f v) :
    ∃ F : Nat → ℝ, ∀ i < s.n, f i = F (comp i) := by
  classical
  refine ⟨fun c => if h : ∃ v < s.n, comp v = c then f h.choose else 0, fun i hi => ?_⟩
  have h : ∃ v < s.n, comp v = comp i := ⟨i, hi, rfl⟩
  simp only
  rw [dif_pos h]
  obtain ⟨h1, h2⟩ := h.choose_spec
  exact const_on_components hf ((hc.same _ h1 _ hi).1 h2)

theorem comp_edge {s : WGraph ℝ} {comp : Nat → Nat} {k : Nat} (hc : Components s comp k)
    {i j : Nat} (hi : i < s.n) (hj : j < s.n) (hw : s.w i j ≠ 0) : comp i = comp j :=
  (hc.same i hi j hj).2 (.step .refl ⟨hi, hj, hw⟩)

section
variable {g : Graph ℝ} {comp : Nat → Nat} {k : Nat}

/-- The kernel of the normalised Laplacian. -/
theorem kernel_normalised (h : g.Reachable) (hw : ∀ u v, 0 ≤ g.abs.w u v) (hloop : ∀ v, g.abs.w v v = 0)
    (hd : ∀ v, v < g.n → 0 < g.abs.deg v) (hc : Components g.abs comp k) (v : Nat → ℝ) :
    IsEigen g.n (matrixOf g.abs .normalisedLaplacian) 0 v ↔
      ∃ F : Nat → ℝ, ∀ i < g.n, v i = Real.sqrt (g.abs.deg i) * F (comp i) := by
  constructor
  · intro hv
    have hq := quadForm_norm h hloop hd v
    rw [quadForm_eigen hv, zero_mul, mul_zero] at hq
    obtain ⟨F, hF⟩ := exists_on_components hc
      (kernel_of_form hw (f := fun a => v a / Real.sqrt (g.abs.deg a)) hq.symm)
    refine ⟨F, fun i hi => ?_⟩
    rw [← hF i hi, mul_div_cancel₀ _ (Real.sqrt_pos.2 (hd i hi)).ne']
  · rintro ⟨F, hF⟩ i hi
    have h0 := zero_eigen hloop hd i hi
    rw [zero_mul] at h0 ⊢
    have : ∀ j ∈ Finset.range g.n, matrixOf g.abs .normalisedLaplacian i j * v j
        = F (comp i) * (matrixOf g.abs .normalisedLaplacian i j * Real.sqrt (g.abs.deg j)) := by
      intro j hj
      have hj' := Finset.mem_range.1 hj
      rw [hF j hj']
      by_cases hz : g.abs.w i j = 0
      · simp only [matrixOf, hz]
        by_cases e : i = j
        · subst e; ring
        · rw [if_neg e]; ring
      · rw [comp_edge hc hi hj' hz]; ring
    rw [Finset.sum_congr rfl this, ← Finset.mul_sum, h0, mul_zero]

theorem laplacian_row (hloop : ∀ v, g.abs.w v v = 0) (i : Nat) (hi : i < g.n) (f : Nat → ℝ) :
    ∑ j ∈ Finset.range g.n, matrixOf g.abs .laplacian i j * f j
      = ∑ j ∈ Finset.range g.n, g.abs.w i j * (f i - f j) := by
  have : ∀ j ∈ Finset.range g.n, matrixOf g.abs .laplacian i j * f j
      = (if i = j then g.abs.deg i * f j else 0) - g.abs.w i j * f j := by
    intro j _
    simp only [matrixOf]
    split_ifs <;> ring
  rw [Finset.sum_congr rfl this, Finset.sum_sub_distrib, Finset.sum_ite_eq,
    if_pos (Finset.mem_range.2 hi), ← row_eq_deg hloop, Finset.sum_mul, ← Finset.sum_sub_distrib]
  exact Finset.sum_congr rfl (fun j _ => by ring)

/-- The kernel of the Laplacian. -/
theorem kernel_laplacian (h : g.Reachable) (hw : ∀ u v, 0 ≤ g.abs.w u v) (hloop : ∀ v, g.abs.w v v = 0)
    (hc : Components g.abs comp k) (v : Nat → ℝ) :
    IsEigen g.n (matrixOf g.abs .laplacian) 0 v ↔
      ∃ F : Nat → ℝ, ∀ i < g.n, v i = 1 * F (comp i) := by
  have hsym : ∀ a b, g.abs.w a b = g.abs.w b a := h.valid.symm
  constructor
  · intro hv
    have hq := quadForm_eigen hv
    rw [zero_mul] at hq
    have e : quadForm g.n (matrixOf g.abs .laplacian) v
        = ∑ i ∈ Finset.range g.n, ∑ j ∈ Finset.range g.n, v i * (g.abs.w i j * (v i - v j)) := by
      unfold quadForm
      apply Finset.sum_congr rfl
      intro i hi
      have := laplacian_row hloop i (Finset.mem_range.1 hi) v
      rw [← Finset.mul_sum, ← this, Finset.mul_sum]
      exact Finset.sum_congr rfl (fun j _ => by ring)
    have e2 : ∑ i ∈ Finset.range g.n, ∑ j ∈ Finset.range g.n, v i * (g.abs.w i j * (v i - v j))
        = - ∑ i ∈ Finset.range g.n, ∑ j ∈ Finset.range g.n, v j * (g.abs.w i j * (v i - v j)) := by
      rw [Finset.sum_comm, ← Finset.sum_neg_distrib]
      apply Finset.sum_congr rfl
      intro i _
      rw [← Finset.sum_neg_distrib]
      exact Finset.sum_congr rfl (fun j _ => by rw [hsym j i]; ring)
    have e3 : ∑ a ∈ Finset.range g.abs.n, ∑ b ∈ Finset.range g.abs.n, g.abs.w a b * (v a - v b) ^ 2 = 0 := by
      have : ∑ a ∈ Finset.range g.n, ∑ b ∈ Finset.range g.n, g.abs.w a b * (v a - v b) ^ 2
          = ∑ i ∈ Finset.range g.n, ∑ j ∈ Finset.range g.n, v i * (g.abs.w i j * (v i - v j))
            - ∑ i ∈ Finset.range g.n, ∑ j ∈ Finset.range g.n, v j * (g.abs.w i j * (v i - v j)) := by
        rw [← Finset.sum_sub_distrib]
        apply Finset.sum_congr rfl
        intro i _
        rw [← Finset.sum_sub_distrib]
        exact Finset.sum_congr rfl (fun j _ => by ring)
      show ∑ a ∈ Finset.range g.n, ∑ b ∈ Finset.range g.n, g.abs.w a b * (v a - v b) ^ 2 = 0
      rw [this]
      linarith
    obtain ⟨F, hF⟩ := exists_on_components hc (kernel_of_form hw (f := v) e3)
    exact ⟨F, fun i hi => by rw [one_mul]; exact hF i hi⟩
  · rintro ⟨F, hF⟩ i hi
    rw [laplacian_row hloop i hi, zero_mul]
    apply Finset.sum_eq_zero
    intro j hj
    have hj' := Finset.mem_range.1 hj
    by_cases hz : g.abs.w i j = 0
    · rw [hz, zero_mul]
    · rw [hF i hi, hF j hj', comp_edge hc hi hj' hz, sub_self, mul_zero]

end

/-- A kernel described by the components has dimension `k`. -/
theorem multiplicity {n k : Nat} {M : Nat → Nat → ℝ} (hM : ∀ i j, M i j = M j i) {r : Nat → ℝ}
    {comp : Nat → Nat} (hr : ∀ i < n, r i ≠ 0) (hlt : ∀ i < n, comp i < k) (honto : ∀ c < k, ∃ i < n, comp i = c)
    (hker : ∀ v, IsEigen n M 0 v ↔ ∃ F : Nat → ℝ, ∀ i < n, v i = r i * F (comp i))
    (hnn : ∀ l v, IsEigen n M l v → (∃ i < n, v i ≠ 0) → 0 ≤ l) {num : Nat} {res : EigenPairs}
    (hex : EigenExtreme (· ≤ ·) n M num res) (j : Nat) (hj : j < res.length) : res[j].1 = 0 ↔ j < k := by
  have hmem : ∀ i (hi : i < res.length), res[i] ∈ res := fun i hi => List.getElem_mem hi
  have hne : ∀ p ∈ res, ∃ i < n, p.2 i ≠ 0 := by
    intro p hp
    by_contra hno
    push Not at hno
    have := hex.unit p hp
    unfold dot at this
    rw [Finset.sum_eq_zero (fun i hi => by rw [hno i (Finset.mem_range.1 hi), zero_mul])] at this
    exact one_ne_zero this.symm
  have hmono : ∀ i i' (hi' : i' < res.length) (hii : i < i'), res[i].1 ≤ res[i'].1 :=
    fun i i' hi' hii => List.pairwise_iff_getElem.1 hex.order i i' (by omega) hi' hii
  have hdot0 : ∀ i i' (hi : i < res.length) (hi' : i' < res.length), i ≠ i' → dot n res[i].2 res[i'].2 = 0 := by
    intro i i' hi hi' hne
    rcases lt_or_gt_of_ne hne with h | h
    · exact List.pairwise_iff_getElem.1 hex.ortho i i' hi hi' h
    · rw [dot_comm]; exact List.pairwise_iff_getElem.1 hex.ortho i' i hi' hi h
  constructor
  · intro h0
    by_contra hjk
    -- `j + 1 > k` orthonormal vectors in the kernel
    have hzero : ∀ i, i < j + 1 → (hi : i < res.length) → res[i].1 = 0 := by
      intro i hij hi
      rcases Nat.lt_or_ge i j with h | h
      · exact le_antisymm (by rw [← h0]; exact hmono i j hj h)
          (hnn _ _ (hex.eigen _ (hmem i hi)) (hne _ (hmem i hi)))
      · obtain rfl : i = j := by omega
        exact h0
    have hF : ∀ i, ∃ F : Nat → ℝ, ∀ hi : i < j + 1, ∀ a < n, (res[i]'(by omega)).2 a = r a * F (comp a) := by
      intro i
      by_cases hi : i < j + 1
      · have he := hex.eigen _ (hmem i (by omega))
        rw [hzero i hi (by omega)] at he
        obtain ⟨F, hF⟩ := (hker _).1 he
        exact ⟨F, fun _ => hF⟩
      · exact ⟨0, fun h => absurd h hi⟩
    choose F hF using hF
    obtain ⟨c, ⟨i₀, hi₀, hci⟩, hnull⟩ := exists_null (fun cc i => F i cc) (j := k) (k := j + 1) (by omega)
    -- the combination with coefficients `c` vanishes
    have hcomb : ∀ a < n, ∑ i ∈ Finset.range (j + 1), (res.getD i (0, 0)).2 a * c i = 0 := by
      intro a ha
      have : ∀ i ∈ Finset.range (j + 1), (res.getD i (0, 0)).2 a * c i = r a * (F i (comp a) * c i) := by
        intro i hi
        have hi' := Finset.mem_range.1 hi
        rw [List.getD_eq_getElem _ _ (by omega), hF i hi' a ha, mul_assoc]
      rw [Finset.sum_congr rfl this, ← Finset.mul_sum, hnull _ (hlt a ha), mul_zero]
    have hd : ∑ a ∈ Finset.range n, (res.getD i₀ (0, 0)).2 a *
        ∑ i ∈ Finset.range (j + 1), (res.getD i (0, 0)).2 a * c i = 0 :=
      Finset.sum_eq_zero (fun a ha => by rw [hcomb a (Finset.mem_range.1 ha), mul_zero])
    have hd2 : ∑ a ∈ Finset.range n, (res.getD i₀ (0, 0)).2 a *
        ∑ i ∈ Finset.range (j + 1), (res.getD i (0, 0)).2 a * c i
        = ∑ i ∈ Finset.range (j + 1), c i * dot n (res.getD i₀ (0, 0)).2 (res.getD i (0, 0)).2 := by
      unfold dot
      simp only [Finset.mul_sum]
      rw [Finset.sum_comm]
      exact Finset.sum_congr rfl (fun i _ => Finset.sum_congr rfl (fun a _ => by ring))
    rw [hd2, Finset.sum_eq_single i₀] at hd
    · rw [List.getD_eq_getElem _ _ (by omega), hex.unit _ (hmem i₀ (by omega)), mul_one] at hd
      exact hci hd
    · intro i hi hii
      have hi' := Finset.mem_range.1 hi
      rw [List.getD_eq_getElem _ _ (by omega), List.getD_eq_getElem _ _ (by omega),
        hdot0 _ _ _ _ (Ne.symm hii), mul_zero]
    · intro hno; exact absurd (Finset.mem_range.2 hi₀) hno
  · intro hjk
    have hge := hnn _ _ (hex.eigen _ (hmem j hj)) (hne _ (hmem j hj))
    by_contra hpos
    have hpos : 0 < res[j].1 := lt_of_le_of_ne hge (Ne.symm hpos)
    -- a kernel vector orthogonal to the first `j`
    obtain ⟨F, ⟨c, hck, hFc⟩, hF⟩ := exists_null (fun i c => ∑ a ∈ Finset.range n,
      if comp a = c then (res.getD i (0, 0)).2 a * r a else 0) hjk
    set y : Nat → ℝ := fun a => r a * F (comp a) with hy
    have hye : IsEigen n M 0 y := (hker y).2 ⟨F, fun _ _ => rfl⟩
    have hyd : ∀ i < j, dot n (res.getD i (0, 0)).2 y = 0 := by
      intro i hi
      refine Eq.trans ?_ (hF i hi)
      unfold dot
      simp only [Finset.sum_mul]
      rw [Finset.sum_comm]
      apply Finset.sum_congr rfl
      intro a ha
      rw [Finset.sum_eq_single (comp a)]
      · rw [if_pos rfl, hy]; ring
      · intro b _ hb; rw [if_neg (Ne.symm hb), zero_mul]
      · intro hno; exact absurd (Finset.mem_range.2 (hlt a (Finset.mem_range.1 ha))) hno
    have hall : ∀ p ∈ res, dot n p.2 y = 0 := by
      intro p hp
      obtain ⟨i, hi, rfl⟩ := List.mem_iff_getElem.1 hp
      rcases Nat.lt_or_ge i j with hij | hij
      · have := hyd i hij
        rwa [List.getD_eq_getElem _ _ hi] at this
      · have : 0 < res[i].1 := by
          rcases Nat.eq_or_lt_of_le hij with rfl | h
          · exact hpos
          · exact lt_of_lt_of_le hpos (hmono j i hi h)
        exact eigen_ortho hM (hex.eigen _ (hmem i hi)) hye this.ne'
    obtain ⟨a, ha, hca⟩ := honto c hck
    have := hex.extreme 0 y hye ⟨a, ha, by
      rw [hy]; simp only; rw [hca]; exact mul_ne_zero (hr a ha) hFc⟩ hall _ (hmem j hj)
    linarith

/-- **C62**.  For a graph without negative weights or self-loops and with `k` connected components, the
eigenvalue 0 of the Laplacian - or, if all degrees are positive, of the normalised Laplacian - has
multiplicity `k`: of the smallest eigenvalues `compute_eigensystem` returns, exactly the first `k` are 0
(all of them if fewer are asked for), and the others are positive. -/
theorem C62_zero_multiplicity (solve : EigenSolver) (hsolve : SolverSpec solve) {g : Graph ℝ}
    (h : g.Reachable) (hw : ∀ u v, 0 ≤ g.abs.w u v) (hloop : ∀ v, g.abs.w v v = 0) (mat : GraphMatrix)
    (hmat : mat = .laplacian ∨ mat = .normalisedLaplacian) (num : Int)
    (hd : mat = .normalisedLaplacian → ∀ v, v < g.n → 0 < g.abs.deg v) {comp : Nat → Nat} {k : Nat}
    (hc : Components g.abs comp k) (res : EigenPairs)
    (hres : computeEigensystem solve g mat num .smallest = .ok res) (j : Nat) (hj : j < res.length) :
    (res[j].1 = 0 ↔ j < k) ∧ 0 ≤ res[j].1 := by
  have hex := C53_eigensystem solve hsolve h hw mat num .smallest hd res hres
  obtain ⟨dmax, -, -, hdm, -⟩ := maxDegree_spec h
  have hnn : ∀ l v, IsEigen g.n (matrixOf g.abs mat) l v → (∃ i < g.n, v i ≠ 0) → 0 ≤ l := by
    intro l v hv hne
    obtain ⟨-, h2, h3⟩ := C53_ranges h hw dmax hdm l v hne
    rcases hmat with rfl | rfl
    · exact (h2 hv).1
    · exact (h3 (hd rfl) hv).1
  constructor
  · rcases hmat with rfl | rfl
    · exact multiplicity (matrixOf_symm h .laplacian) (fun _ _ => one_ne_zero) hc.lt hc.onto
        (kernel_laplacian h hw hloop hc) hnn hex j hj
    · exact multiplicity (matrixOf_symm h .normalisedLaplacian)
        (fun i hi => (Real.sqrt_pos.2 (hd rfl i hi)).ne') hc.lt hc.onto
        (kernel_normalised h hw hloop (hd rfl) hc) hnn hex j hj
  · refine hnn _ _ (hex.eigen _ (List.getElem_mem hj)) ?_
    by_contra hno
    push Not at hno
    have := hex.unit _ (List.getElem_mem hj)
    unfold dot at this
    rw [Finset.sum_eq_zero (fun i hi => by rw [hno i (Finset.mem_range.1 hi), zero_mul])] at this
    exact one_ne_zero this.symm

end Stag
