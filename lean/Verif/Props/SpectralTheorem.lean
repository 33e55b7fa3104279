import Verif.Props.Spectrum
import Mathlib.Analysis.Matrix.Spectrum

/-!
# C53: consequences of the spectral theorem

The contract assumed of the inner solver can be met, and what `compute_eigensystem` returns is
extreme among all vectors, not only among eigenvectors.
-/

namespace Stag

open Graph

/-- A vector as an element of Euclidean space. -/
noncomputable def toE (n : Nat) (v : Nat → ℝ) : EuclideanSpace ℝ (Fin n) :=
  WithLp.toLp 2 (fun i : Fin n => v i)

/-- Back again. -/
noncomputable def ofE {n : Nat} (x : EuclideanSpace ℝ (Fin n)) (i : Nat) : ℝ :=
  if h : i < n then x ⟨i, h⟩ else 0

theorem toE_ofE {n : Nat} (x : EuclideanSpace ℝ (Fin n)) : toE n (ofE x) = x := by
  ext i
  simp [toE, ofE]

theorem dot_eq_inner (n : Nat) (x y : Nat → ℝ) : dot n x y = inner ℝ (toE n x) (toE n y) := by
  unfold dot toE
  rw [Finset.sum_range]
  simp [PiLp.inner_apply, mul_comm]

theorem toE_eq_zero_iff (n : Nat) (v : Nat → ℝ) : toE n v = 0 ↔ ∀ i < n, v i = 0 := by
  constructor
  · intro h i hi
    have := congrFun (congrArg WithLp.ofLp h) ⟨i, hi⟩
    simpa [toE] using this
  · intro h
    ext i
    simpa [toE] using h i i.2

/-- A matrix as an operator on Euclidean space. -/
noncomputable def opE (n : Nat) (M : Nat → Nat → ℝ) :
    EuclideanSpace ℝ (Fin n) →ₗ[ℝ] EuclideanSpace ℝ (Fin n) :=
  Matrix.toEuclideanLin (Matrix.of (fun i j : Fin n => M i j))

theorem opE_toE (n : Nat) (M : Nat → Nat → ℝ) (v : Nat → ℝ) :
    opE n M (toE n v) = toE n (fun i => ∑ j ∈ Finset.range n, M i j * v j) := by
  ext i
  simp [opE, toE, Matrix.toLpLin_apply, Matrix.mulVec, dotProduct, Finset.sum_range]

theorem isEigen_iff (n : Nat) (M : Nat → Nat → ℝ) (l : ℝ) (v : Nat → ℝ) :
    IsEigen n M l v ↔ opE n M (toE n v) = l • toE n v := by
  rw [opE_toE]
  constructor
  · intro h
    ext i
    simpa [toE] using h i i.2
  · intro h i hi
    have := congrFun (congrArg WithLp.ofLp h) ⟨i, hi⟩
    simpa [toE] using this

theorem quadForm_eq_inner (n : Nat) (M : Nat → Nat → ℝ) (x : Nat → ℝ) :
    quadForm n M x = inner ℝ (toE n x) (opE n M (toE n x)) := by
  rw [opE_toE, ← dot_eq_inner]
  unfold quadForm dot
  apply Finset.sum_congr rfl
  intro i _
  rw [Finset.mul_sum]
  exact Finset.sum_congr rfl (fun j _ => by ring)

theorem opE_symm {n : Nat} {M : Nat → Nat → ℝ} (hM : ∀ i < n, ∀ j < n, M i j = M j i) :
    (opE n M).IsSymmetric := by
  unfold opE
  rw [Matrix.isSymmetric_toEuclideanLin_iff]
  ext i j
  simp [Matrix.conjTranspose_apply, hM j j.2 i i.2]

/-- A symmetric matrix has an orthonormal basis of eigenvectors. -/
theorem exists_eigenbasis {n : Nat} {M : Nat → Nat → ℝ} (hM : ∀ i < n, ∀ j < n, M i j = M j i) :
    ∃ (l : Fin n → ℝ) (b : OrthonormalBasis (Fin n) ℝ (EuclideanSpace ℝ (Fin n))),
      ∀ i, opE n M (b i) = l i • b i := by
  have hT := opE_symm hM
  refine ⟨hT.eigenvalues (by simp), hT.eigenvectorBasis (by simp), fun i => ?_⟩
  simp

/-- For every symmetric matrix there is an answer that meets the contract of the solver. -/
theorem exists_extreme {n : Nat} {M : Nat → Nat → ℝ} (hM : ∀ i < n, ∀ j < n, M i j = M j i)
    (num : Nat) (hnum : num ≤ n) :
    ∃ raw, EigenExtreme (fun x y => |y| ≤ |x|) n M num raw := by
  obtain ⟨l, b, hb⟩ := exists_eigenbasis hM
  let L := (List.finRange n).mergeSort (fun i j => decide (|l j| ≤ |l i|))
  have hperm : L.Perm (List.finRange n) := List.mergeSort_perm _ _
  have hsort : L.Pairwise (fun i j => |l j| ≤ |l i|) := by
    have := List.pairwise_mergeSort (le := fun i j => decide (|l j| ≤ |l i|))
      (fun a b c h1 h2 => by simp only [decide_eq_true_eq] at *; exact le_trans h2 h1)
      (fun a b => by simpa using le_total _ _) (List.finRange n)
    simpa using this
  have hnd : L.Nodup := hperm.nodup_iff.2 (List.nodup_finRange n)
  have hdot : ∀ i j, dot n (ofE (b i)) (ofE (b j)) = if i = j then 1 else 0 := by
    intro i j
    rw [dot_eq_inner, toE_ofE, toE_ofE]
    exact orthonormal_iff_ite.1 b.orthonormal i j
  refine ⟨(L.take num).map (fun i => (l i, ofE (b i))), ?_, ?_, ?_, ?_, ?_, ?_⟩
  · rw [List.length_map, List.length_take, hperm.length_eq, List.length_finRange, min_eq_left hnum]
  · intro p hp
    obtain ⟨i, -, rfl⟩ := List.mem_map.1 hp
    rw [isEigen_iff, toE_ofE, hb]
  · intro p hp
    obtain ⟨i, -, rfl⟩ := List.mem_map.1 hp
    simp only
    rw [hdot, if_pos rfl]
  · rw [List.pairwise_map]
    refine (hnd.sublist (List.take_sublist _ _)).imp (fun {i j} hij => ?_)
    simp only
    rw [hdot, if_neg hij]
  · rw [List.pairwise_map]
    exact hsort.sublist (List.take_sublist _ _)
  · intro m v hv hne horth p hp
    obtain ⟨i, hi, rfl⟩ := List.mem_map.1 hp
    simp only
    have hv0 : toE n v ≠ 0 := by
      rw [Ne, toE_eq_zero_iff]
      push Not
      exact hne
    obtain ⟨j, hj⟩ : ∃ j, inner ℝ (b j) (toE n v) ≠ 0 := by
      by_contra hno
      push Not at hno
      apply hv0
      rw [← b.sum_repr (toE n v)]
      apply Finset.sum_eq_zero
      intro j _
      rw [b.repr_apply_apply, hno j, zero_smul]
    have hlm : m = l j := by
      have h1 : inner ℝ (opE n M (b j)) (toE n v) = inner ℝ (b j) (opE n M (toE n v)) :=
        opE_symm hM _ _
      rw [hb, (isEigen_iff _ _ _ _).1 hv, real_inner_smul_left, real_inner_smul_right] at h1
      exact (mul_right_cancel₀ hj h1).symm
    have hjd : j ∈ L.drop num := by
      have : j ∈ L := hperm.mem_iff.2 (List.mem_finRange j)
      rw [← List.take_append_drop num L, List.mem_append] at this
      refine this.resolve_left (fun hjt => hj ?_)
      have := horth _ (List.mem_map_of_mem (f := fun i => (l i, ofE (b i))) hjt)
      rwa [dot_eq_inner, toE_ofE] at this
    rw [hlm]
    rw [← List.take_append_drop num L, List.pairwise_append] at hsort
    exact hsort.2.2 i hi j hjd

/-- The finite part. -/
noncomputable def XReal.val : XReal ℝ → ℝ
  | .fin x => x
  | _ => 0

/-- **C53** (non-vacuity).  There is a solver that meets the contract and always converges on finite
symmetric matrices, and it may be chosen to give any one answer that the contract allows. -/
theorem C53_contract_satisfiable :
    (∃ solve, SolverSpec solve ∧ ∀ (n : Nat) (S : Nat → Nat → XReal ℝ) (M : Nat → Nat → ℝ) (num : Nat),
      (∀ i < n, ∀ j < n, S i j = .fin (M i j)) → (∀ i < n, ∀ j < n, M i j = M j i) → num ≤ n →
      (solve n S num).isSome) ∧
    ∀ (n : Nat) (S : Nat → Nat → XReal ℝ) (M : Nat → Nat → ℝ) (num : Nat) (raw : EigenPairs),
      (∀ i < n, ∀ j < n, S i j = .fin (M i j)) →
      EigenExtreme (fun x y => |y| ≤ |x|) n M num raw →
      ∃ solve, SolverSpec solve ∧ solve n S num = some raw := by
  classical
  have hcongr : ∀ (n : Nat) (M N : Nat → Nat → ℝ) (num : Nat) (raw : EigenPairs),
      (∀ i < n, ∀ j < n, M i j = N i j) → EigenExtreme (fun x y => |y| ≤ |x|) n M num raw →
      EigenExtreme (fun x y => |y| ≤ |x|) n N num raw := by
    intro n M N num raw hMN h
    have hi : ∀ l v, IsEigen n M l v ↔ IsEigen n N l v := by
      intro l v
      unfold IsEigen
      refine forall_congr' (fun i => forall_congr' (fun hi => ?_))
      rw [Finset.sum_congr rfl (fun j hj => by rw [hMN i hi j (Finset.mem_range.1 hj)])]
    exact ⟨h.count, fun p hp => (hi _ _).1 (h.eigen p hp), h.unit, h.ortho, h.order,
      fun l v hv => h.extreme l v ((hi _ _).2 hv)⟩
  let good : EigenSolver := fun n S num =>
    if h : ∃ raw, EigenExtreme (fun x y => |y| ≤ |x|) n (fun i j => (S i j).val) num raw
    then some h.choose else none
  have hval : ∀ (n : Nat) (S : Nat → Nat → XReal ℝ) (M : Nat → Nat → ℝ),
      (∀ i < n, ∀ j < n, S i j = .fin (M i j)) → ∀ i < n, ∀ j < n, (S i j).val = M i j := by
    intro n S M h i hi j hj
    rw [h i hi j hj]; rfl
  have hgood : ∀ n S num raw, good n S num = some raw →
      EigenExtreme (fun x y => |y| ≤ |x|) n (fun i j => (S i j).val) num raw := by
    intro n S num raw h
    simp only [good] at h
    split_ifs at h with hex
    rw [← Option.some.inj h]
    exact hex.choose_spec
  refine ⟨⟨good, ?_, ?_⟩, ?_⟩
  · intro n S M num raw hS _ _ _ hraw
    exact hcongr _ _ _ _ _ (hval n S M hS) (hgood _ _ _ _ hraw)
  · intro n S M num hS hM hnum
    have hex : ∃ raw, EigenExtreme (fun x y => |y| ≤ |x|) n (fun i j => (S i j).val) num raw := by
      apply exists_extreme _ num hnum
      intro i hi j hj
      rw [hval n S M hS i hi j hj, hval n S M hS j hj i hi, hM i hi j hj]
    simp only [good]
    rw [dif_pos hex]
    rfl
  · intro n S M num raw hS hraw
    refine ⟨fun n' S' num' => if n' = n ∧ S' = S ∧ num' = num then some raw else good n' S' num',
      ?_, by simp⟩
    intro n' S' M' num' raw' hS' _ _ _ hraw'
    beta_reduce at hraw'
    split_ifs at hraw' with hc
    · obtain ⟨rfl, rfl, rfl⟩ := hc
      rw [← Option.some.inj hraw']
      refine hcongr _ _ _ _ _ (fun i hi j hj => ?_) hraw
      have := (hS i hi j hj).symm.trans (hS' i hi j hj)
      exact XReal.fin.inj this
    · exact hcongr _ _ _ _ _ (hval n' S' M' hS') (hgood _ _ _ _ hraw')

/-- On the orthogonal complement of orthonormal eigenvectors the quadratic form is bounded by the
eigenvalues there. -/
theorem variational {n : Nat} {M : Nat → Nat → ℝ} (hM : ∀ i < n, ∀ j < n, M i j = M j i)
    (vs : List (ℝ × (Nat → ℝ))) (heig : ∀ p ∈ vs, IsEigen n M p.1 p.2) (c s : ℝ)
    (hext : ∀ l v, IsEigen n M l v → (∃ i < n, v i ≠ 0) → (∀ p ∈ vs, dot n p.2 v = 0) →
      s * c ≤ s * l) (x : Nat → ℝ) (hx : ∀ p ∈ vs, dot n p.2 x = 0) :
    s * (c * dot n x x) ≤ s * quadForm n M x := by
  let W : Submodule ℝ (EuclideanSpace ℝ (Fin n)) :=
    (Submodule.span ℝ {y | ∃ p ∈ vs, y = toE n p.2})ᗮ
  have hmem : ∀ y, y ∈ W ↔ ∀ p ∈ vs, inner ℝ (toE n p.2) y = 0 := by
    intro y
    constructor
    · intro hy p hp
      exact hy _ (Submodule.subset_span ⟨p, hp, rfl⟩)
    · intro hy
      rw [Submodule.mem_orthogonal]
      intro u hu
      induction hu using Submodule.span_induction with
      | mem u hu => obtain ⟨p, hp, rfl⟩ := hu; exact hy p hp
      | zero => simp
      | add a b _ _ ha hb => rw [inner_add_left, ha, hb, add_zero]
      | smul a u _ hu => rw [real_inner_smul_left, hu, mul_zero]
  have hT := opE_symm hM
  have hinv : ∀ y ∈ W, opE n M y ∈ W := by
    intro y hy
    rw [hmem] at hy ⊢
    intro p hp
    rw [← hT, (isEigen_iff _ _ _ _).1 (heig p hp), real_inner_smul_left, hy p hp, mul_zero]
  have hT' := hT.restrict_invariant hinv
  let b := hT'.eigenvectorBasis rfl
  let l := hT'.eigenvalues rfl
  have hb : ∀ i, opE n M (b i : EuclideanSpace ℝ (Fin n)) = l i • (b i : EuclideanSpace ℝ (Fin n)) := by
    intro i
    have := congrArg (fun z : W => (z : EuclideanSpace ℝ (Fin n))) (hT'.apply_eigenvectorBasis rfl i)
    exact this
  have hl : ∀ i, s * c ≤ s * l i := by
    intro i
    apply hext (l i) (ofE (b i : EuclideanSpace ℝ (Fin n)))
    · rw [isEigen_iff, toE_ofE, hb]
    · by_contra hno
      push Not at hno
      have h0 : toE n (ofE (b i : EuclideanSpace ℝ (Fin n))) = 0 := (toE_eq_zero_iff _ _).2 hno
      rw [toE_ofE] at h0
      have h1 : (b i) = 0 := Subtype.ext h0
      exact b.orthonormal.ne_zero i h1
    · intro p hp
      rw [dot_eq_inner, toE_ofE]
      exact (hmem _).1 (b i).2 p hp
  have hxW : toE n x ∈ W := (hmem _).2 (fun p hp => by rw [← dot_eq_inner]; exact hx p hp)
  let X : W := ⟨toE n x, hxW⟩
  have h1 : dot n x x = ∑ i, inner ℝ (b i) X * inner ℝ (b i) X := by
    rw [dot_eq_inner]
    have := b.sum_inner_mul_inner X X
    change inner ℝ X X = _
    rw [← this]
    exact Finset.sum_congr rfl (fun i _ => by rw [real_inner_comm X (b i)])
  have h2 : quadForm n M x = ∑ i, l i * (inner ℝ (b i) X * inner ℝ (b i) X) := by
    rw [quadForm_eq_inner]
    let Y : W := ⟨opE n M (toE n x), hinv _ hxW⟩
    have := b.sum_inner_mul_inner X Y
    change inner ℝ X Y = _
    rw [← this]
    apply Finset.sum_congr rfl
    intro i _
    have h3 : inner ℝ (b i) Y = l i * inner ℝ (b i) X := by
      change inner ℝ (b i : EuclideanSpace ℝ (Fin n)) (opE n M (toE n x)) = _
      rw [← hT, hb, real_inner_smul_left]
      rfl
    rw [h3, real_inner_comm X (b i)]
    ring
  rw [h1, h2, Finset.mul_sum, Finset.mul_sum, Finset.mul_sum]
  apply Finset.sum_le_sum
  intro i _
  have := mul_le_mul_of_nonneg_right (hl i) (mul_self_nonneg (inner ℝ (b i) X))
  nlinarith [this]

/-- **C53** (variational form).  No vector orthogonal to the returned eigenvectors has a Rayleigh
quotient beyond any of the returned eigenvalues. -/
theorem C53_variational (solve : EigenSolver) (hsolve : SolverSpec solve) {g : Graph ℝ}
    (h : g.Reachable) (hw : ∀ u v, 0 ≤ g.abs.w u v) (mat : GraphMatrix) (num : Int)
    (which : EigenSortRule)
    (hd : mat = .normalisedLaplacian → ∀ v, v < g.n → 0 < g.abs.deg v) (res : EigenPairs)
    (hres : computeEigensystem solve g mat num which = .ok res) (x : Nat → ℝ)
    (hx : ∀ p ∈ res, dot g.n p.2 x = 0) :
    ∀ p ∈ res, which.before (p.1 * dot g.n x x) (quadForm g.n (matrixOf g.abs mat) x) := by
  intro p hp
  have hex := C53_eigensystem solve hsolve h hw mat num which hd res hres
  cases which with
  | largest =>
    have := variational (fun i _ j _ => matrixOf_symm h mat i j) res hex.eigen p.1 (-1)
      (fun l v hv hne horth => by
        have := hex.extreme l v hv hne horth p hp
        simp only [EigenSortRule.before] at this
        linarith) x hx
    simp only [EigenSortRule.before]
    linarith
  | smallest =>
    have := variational (fun i _ j _ => matrixOf_symm h mat i j) res hex.eigen p.1 1
      (fun l v hv hne horth => by
        have := hex.extreme l v hv hne horth p hp
        simp only [EigenSortRule.before] at this
        linarith) x hx
    simp only [EigenSortRule.before]
    linarith

/-- **C53** (non-vacuity).  Some solver meets the contract and answers every admissible request. -/
theorem C53_always_answers : ∃ solve, SolverSpec solve ∧ ∀ (g : Graph ℝ) (mat : GraphMatrix)
    (num : Int) (which : EigenSortRule), g.Reachable → 1 ≤ num → num < g.n →
    (mat = .normalisedLaplacian → ∀ v, v < g.n → 0 < g.abs.deg v) →
    ∃ res, computeEigensystem solve g mat num which = .ok res := by
  obtain ⟨⟨solve, hs, hall⟩, -⟩ := C53_contract_satisfiable
  refine ⟨solve, hs, fun g mat num which h h1 h2 hd => ?_⟩
  obtain ⟨c, S, hS, heq, -⟩ := compute_eq solve h mat num which ⟨h1, h2⟩ hd
  have hsym : ∀ i < g.n, ∀ j < g.n, shifted c which.sign (matrixOf g.abs mat) i j
      = shifted c which.sign (matrixOf g.abs mat) j i := by
    intro i _ j _
    unfold shifted
    rw [matrixOf_symm h]
    by_cases e : i = j
    · subst e; rfl
    · rw [if_neg e, if_neg (fun h => e h.symm)]
  have := hall g.n S _ num.toNat hS hsym (by omega)
  obtain ⟨raw, hraw⟩ := Option.isSome_iff_exists.1 this
  rw [heq, hraw]
  exact ⟨_, rfl⟩

end Stag
