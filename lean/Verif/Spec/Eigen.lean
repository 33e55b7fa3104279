import Verif.Spectrum
import Verif.Spec.WGraph

/-!
# Specification: eigenpairs

Matrices and vectors as functions on the indices below `n`.
-/

namespace Stag

/-- The inner product of two vectors. -/
noncomputable def dot (n : Nat) (x y : Nat → ℝ) : ℝ := ∑ i ∈ Finset.range n, x i * y i

/-- `M v = l v`. -/
def IsEigen (n : Nat) (M : Nat → Nat → ℝ) (l : ℝ) (v : Nat → ℝ) : Prop :=
  ∀ i < n, ∑ j ∈ Finset.range n, M i j * v j = l * v i

/-- The matrix that is asked for. -/
noncomputable def matrixOf (s : WGraph ℝ) : GraphMatrix → Nat → Nat → ℝ
  | .adjacency, i, j => s.w i j
  | .laplacian, i, j => (if i = j then s.deg i else 0) - s.w i j
  | .normalisedLaplacian, i, j =>
    (if i = j then 1 else 0) - s.w i j / (Real.sqrt (s.deg i) * Real.sqrt (s.deg j))

/-- `raw` are `num` orthonormal eigenvectors of `M`, in the order of the rule `before`, and no
eigenvector orthogonal to all of them comes before any of them. -/
structure EigenExtreme (before : ℝ → ℝ → Prop) (n : Nat) (M : Nat → Nat → ℝ) (num : Nat)
    (raw : EigenPairs) : Prop where
  count : raw.length = num
  eigen : ∀ p ∈ raw, IsEigen n M p.1 p.2
  unit : ∀ p ∈ raw, dot n p.2 p.2 = 1
  ortho : raw.Pairwise (fun p q => dot n p.2 q.2 = 0)
  order : raw.Pairwise (fun p q => before p.1 q.1)
  extreme : ∀ l v, IsEigen n M l v → (∃ i < n, v i ≠ 0) → (∀ p ∈ raw, dot n p.2 v = 0) →
    ∀ p ∈ raw, before p.1 l

/-- What is assumed of the inner solver: given a finite symmetric matrix, if it converges it returns
the eigenpairs of largest magnitude. -/
def SolverSpec (solve : EigenSolver) : Prop :=
  ∀ (n : Nat) (S : Nat → Nat → XReal ℝ) (M : Nat → Nat → ℝ) (num : Nat) (raw : EigenPairs),
    (∀ i < n, ∀ j < n, S i j = .fin (M i j)) → (∀ i < n, ∀ j < n, M i j = M j i) →
    1 ≤ num → num < n → solve n S num = some raw →
    EigenExtreme (fun x y => |y| ≤ |x|) n M num raw

/-- The rule that was asked for: largest first or smallest first. -/
def EigenSortRule.before : EigenSortRule → ℝ → ℝ → Prop
  | .largest => fun x y => y ≤ x
  | .smallest => fun x y => x ≤ y

end Stag
