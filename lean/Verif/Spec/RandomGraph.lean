import Mathlib.Algebra.BigOperators.Group.List.Basic
import Mathlib.Algebra.Order.Field.Basic

/-!
# Specification: graphs from the stochastic block model
-/

namespace Stag

/-- With clusters of the given sizes laid out one after the other, vertex `v` belongs to cluster
number `c`. -/
def InCluster (sizes : List Nat) (c v : Nat) : Prop :=
  c < sizes.length ∧ (sizes.take c).sum ≤ v ∧ v < (sizes.take (c + 1)).sum

/-- `u` and `v` lie in clusters `c ≤ d`, in either order. -/
def Between (sizes : List Nat) (c d u v : Nat) : Prop :=
  c ≤ d ∧ ((InCluster sizes c u ∧ InCluster sizes d v) ∨ (InCluster sizes c v ∧ InCluster sizes d u))

/-- What every sampled graph satisfies, whatever was drawn.  `P c d` is the probability of an edge
between clusters `c ≤ d`; `w u v` is the weight (multiplicity) of the edge. -/
structure SbmGraph {K : Type} [Field K] [LinearOrder K] (sizes : List Nat) (P : Nat → Nat → K)
    (exact : Bool) (n : Nat) (w : Nat → Nat → K) : Prop where
  vertices : n = sizes.sum
  symm : ∀ u v, w u v = w v u
  loopless : ∀ u, w u u = 0
  integral : ∀ u v, ∃ k : Nat, w u v = k
  possible : ∀ u v, w u v ≠ 0 → ∃ c d, Between sizes c d u v ∧ 0 < P c d
  certain : ∀ c d u v, Between sizes c d u v → P c d = 1 → u ≠ v → w u v = 1
  simple : ∀ c d u v, Between sizes c d u v →
    (exact = true ∨ 1 / 2 ≤ P c d ∨ sizes.getD c 0 * sizes.getD d 0 < 10000) →
    w u v = 0 ∨ w u v = 1

end Stag
