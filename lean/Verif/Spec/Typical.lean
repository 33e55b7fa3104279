import Verif.Spec.Equitable

/-!
# Specification: typical graphs of the stochastic block model

`k` clusters of `m` consecutive vertices; two vertices are joined with probability `p` if they are in the same cluster, and
with probability `q` otherwise.
-/

namespace Stag

open Finset

/-- The probability of an edge between `u` and `v`. -/
noncomputable def blockProb (m : Nat) (p q : ℝ) (u v : Nat) : ℝ := if u / m = v / m then p else q

namespace WGraph

/-- The difference between the weight of a pair and its expectation. -/
noncomputable def noise (s : WGraph ℝ) (m : Nat) (p q : ℝ) (u v : Nat) : ℝ :=
  if u = v then 0 else s.w u v - blockProb m p q u v

/-- A typical graph: no number of neighbours of a vertex in a cluster is further than `a` from its expectation, and for no
two vertices is the sum of the products of the differences further than `t` from zero. -/
structure Typical (s : WGraph ℝ) (k m : Nat) (p q a t : ℝ) : Prop where
  size : s.n = k * m
  nbrs : ∀ u < k * m, ∀ i < k, |∑ v ∈ KMeans.cluster (k * m) (fun v => v / m) i, s.noise m p q u v| ≤ a
  codeg : ∀ u < k * m, ∀ v < k * m, u ≠ v → |∑ x ∈ range (k * m), s.noise m p q u x * s.noise m p q x v| ≤ t

end WGraph

/-- The expected degree, up to the missing self-loop. -/
noncomputable def blockDegree (k m : Nat) (p q : ℝ) : ℝ := m * (p + (k - 1) * q)

/-- The defect of the clusters of a typical graph: `4 k² δ² / (m (p - q) (1 - δ / d) - √(k m (1 + t)))²`, where
`d = m (p + (k - 1) q)` is the expected degree and `δ = k (a + 1)`. -/
noncomputable def typicalDefect (k m : Nat) (p q a t : ℝ) : ℝ :=
  4 * k ^ 2 * (k * (a + 1)) ^ 2 /
    (m * (p - q) * (1 - k * (a + 1) / blockDegree k m p q) - Real.sqrt (k * m * (1 + t))) ^ 2

/-- The deviations `a` and `t` are small enough for the clusters to be seen. -/
def Visible (k m : Nat) (p q a t : ℝ) : Prop :=
  0 ≤ a ∧ 0 ≤ t ∧ k * (a + 1) < blockDegree k m p q ∧
    Real.sqrt (k * m * (1 + t)) < m * (p - q) * (1 - k * (a + 1) / blockDegree k m p q)

end Stag
