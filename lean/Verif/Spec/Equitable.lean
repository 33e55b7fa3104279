import Verif.Spec.Recovery

/-!
# Specification: nearly equitable clusters

The clusters of a graph are equitable if the weight between a vertex and a cluster depends only on the cluster of the
vertex.
-/

namespace Stag

open Finset

namespace WGraph

/-- The normalised weight between the vertex `u` and the set `T`. -/
noncomputable def normWeight (s : WGraph ℝ) (u : Nat) (T : Finset Nat) : ℝ :=
  ∑ v ∈ T, s.w u v / (Real.sqrt (s.deg u) * Real.sqrt (s.deg v))

/-- How far the normalised weights between the vertices and the clusters are from the numbers `b`: `b c i` is the number
for a vertex of cluster `c` and the cluster `i`.  It is the sum of the squares of the differences over the sizes of the
clusters. -/
noncomputable def unevenness (s : WGraph ℝ) (k : Nat) (S : Nat → Nat) (b : Nat → Nat → ℝ) : ℝ :=
  ∑ i ∈ range k, ∑ u ∈ range s.n, (s.normWeight u (KMeans.cluster s.n S i) - b (S u) i) ^ 2 /
    ((KMeans.cluster s.n S i).card : ℝ)

/-- The clusters are told apart by the numbers `b` with strength `a`: all eigenvalues of the symmetric part of the `k × k`
matrix of the entries `b c i √(|c| / |i|)` are at least `a`. -/
def Strength (n k : Nat) (S : Nat → Nat) (b : Nat → Nat → ℝ) (a : ℝ) : Prop :=
  ∀ y : Nat → ℝ, a * ∑ i ∈ range k, y i ^ 2 ≤
    ∑ i ∈ range k, ∑ c ∈ range k,
      b c i * Real.sqrt ((KMeans.cluster n S c).card / (KMeans.cluster n S i).card) * (y i * y c)

end WGraph
end Stag
