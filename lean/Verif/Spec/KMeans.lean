import Mathlib.Algebra.BigOperators.Group.Finset.Basic
import Mathlib.Algebra.Order.Field.Basic

/-!
# Specification: k-means

`X i d` is coordinate `d < D` of point `i < N`; `Mu c d` of centre `c < k`; `Z i` is the label of point
`i`.
-/

namespace Stag
namespace KMeans

variable {K : Type} [Field K] [LinearOrder K]

/-- The squared Euclidean distance. -/
def dist2 (D : Nat) (x y : Nat → K) : K := ∑ d ∈ Finset.range D, (x d - y d) ^ 2

/-- The k-means cost of centres and labels. -/
def cost (X : Nat → Nat → K) (N D : Nat) (Mu : Nat → Nat → K) (Z : Nat → Nat) : K :=
  ∑ i ∈ Finset.range N, dist2 D (X i) (Mu (Z i))

/-- Every point is labelled with the nearest centre, the first one in a tie. -/
def Nearest (X : Nat → Nat → K) (N D k : Nat) (Mu : Nat → Nat → K) (Z : Nat → Nat) : Prop :=
  ∀ i < N, Z i < k ∧ (∀ c < k, dist2 D (X i) (Mu (Z i)) ≤ dist2 D (X i) (Mu c)) ∧
    (∀ c < Z i, dist2 D (X i) (Mu (Z i)) < dist2 D (X i) (Mu c))

/-- The points with a label. -/
def cluster (N : Nat) (Z : Nat → Nat) (c : Nat) : Finset Nat := (Finset.range N).filter (fun i => Z i = c)

/-- Every centre is the mean of the points with its label, or the origin if there are none. -/
def Means (X : Nat → Nat → K) (N D k : Nat) (Mu : Nat → Nat → K) (Z : Nat → Nat) : Prop :=
  ∀ c < k, ∀ d < D,
    ((cluster N Z c).Nonempty → Mu c d * ((cluster N Z c).card : K) = ∑ i ∈ cluster N Z c, X i d) ∧
    (¬ (cluster N Z c).Nonempty → Mu c d = 0)

/-- Two points with the same coordinates. -/
def SameRow (D : Nat) (x y : Nat → K) : Prop := ∀ d < D, x d = y d

end KMeans
end Stag
