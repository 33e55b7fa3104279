import Verif.Spec.Cut
import Verif.Spec.KMeans
import Mathlib.Analysis.SpecialFunctions.Sqrt

/-!
# Specification: how well two clusterings agree, and how well a graph is clustered

`S u < k` is the cluster of vertex `u`; `KMeans.cluster n S i` is the set of the vertices of cluster `i`.
-/

namespace Stag

open Finset

/-- The agreement of two clusterings into `k` clusters: the sum over all pairs of a cluster of the one
and a cluster of the other of `|common|² / (|one| |other|)`.  It is `k` if the clusterings are the same up
to names. -/
noncomputable def agreement (n k : Nat) (S A : Nat → Nat) : ℝ :=
  ∑ i ∈ range k, ∑ c ∈ range k,
    (((KMeans.cluster n S i ∩ KMeans.cluster n A c).card : ℝ)) ^ 2 /
      ((KMeans.cluster n S i).card * (KMeans.cluster n A c).card)

namespace WGraph

/-- How far the degrees in `T` are from being equal: the squared distance of the unit vectors
`√(deg u / vol T)` and `√(1 / |T|)`. -/
noncomputable def irregularity (s : WGraph ℝ) (T : Finset Nat) : ℝ :=
  ∑ u ∈ T, (Real.sqrt (s.deg u / s.vol T) - Real.sqrt (1 / T.card)) ^ 2

/-- How far the clusters `S` are from being perfect, for a spectral gap `l`: the sum over the clusters of
`(√(conductance / l) + √irregularity)²`. -/
noncomputable def clusterDefect (s : WGraph ℝ) (l : ℝ) (k : Nat) (S : Nat → Nat) : ℝ :=
  ∑ i ∈ range k, (Real.sqrt (s.cut (KMeans.cluster s.n S i) / s.vol (KMeans.cluster s.n S i) / l) +
    Real.sqrt (s.irregularity (KMeans.cluster s.n S i))) ^ 2

end WGraph
end Stag
