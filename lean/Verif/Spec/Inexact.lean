import Verif.Spec.Eigen

/-!
# Specification: approximate eigenpairs

What a numerical solver returns is not exact.  Two numbers say how far a list of pairs is from a system of
eigenvectors: the distance of the vectors from an orthonormal family, and the size of the residuals
`M w - μ w` of that family.
-/

namespace Stag

/-- The squared length of the residual `M v - l v`. -/
noncomputable def residual2 (n : Nat) (M : Nat → Nat → ℝ) (l : ℝ) (v : Nat → ℝ) : ℝ :=
  ∑ i ∈ Finset.range n, (∑ j ∈ Finset.range n, M i j * v j - l * v i) ^ 2

/-- `res` has `k` vectors; they are within distance `δ` of an orthonormal family, whose members are
approximate eigenvectors for numbers `μ` below `l`: the residuals, each divided by the distance of `μ` from
`l`, have squares that sum to at most `ε²`. -/
def ApproxSystem (n : Nat) (M : Nat → Nat → ℝ) (k : Nat) (res : EigenPairs) (l δ ε : ℝ) : Prop :=
  res.length = k ∧ ∃ (w : Nat → Nat → ℝ) (μ : Nat → ℝ),
    (∀ j < k, ∀ j' < k, dot n (w j) (w j') = if j = j' then 1 else 0) ∧
    ∑ j ∈ Finset.range k, ∑ i ∈ Finset.range n, ((res.getD j (0, 0)).2 i - w j i) ^ 2 ≤ δ ^ 2 ∧
    (∀ j < k, μ j < l) ∧
    ∑ j ∈ Finset.range k, residual2 n M (μ j) (w j) / (l - μ j) ^ 2 ≤ ε ^ 2

/-- The matrices `F` and `A` are within `η` of each other: their difference maps every vector to one at most `η` times as
long. -/
def OpClose (n : Nat) (F A : Nat → Nat → ℝ) (η : ℝ) : Prop :=
  ∀ x : Nat → ℝ, ∑ i ∈ Finset.range n, (∑ j ∈ Finset.range n, (F i j - A i j) * x j) ^ 2 ≤ η ^ 2 * dot n x x

end Stag
