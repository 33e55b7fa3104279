import Verif.Spec.Recovery

/-!
# Specification: graphs with two levels of weights

The vertices fall into `k` groups (`S u` is the group of `u`); weights inside a group are at least `t`, weights between groups
at most `b`.
-/

namespace Stag

/-- Every vertex has a self-loop of weight 1, all weights are at most 1, weights inside a group are at least `t`, weights
between groups are at most `b`, and every group has at least `μ` vertices. -/
structure WGraph.TwoLevel (s : WGraph ℝ) (k : Nat) (S : Nat → Nat) (t b μ : ℝ) : Prop where
  label : ∀ u < s.n, S u < k
  size : ∀ i < k, μ ≤ ((KMeans.cluster s.n S i).card : ℝ)
  loop : ∀ u < s.n, s.w u u = 1
  within : ∀ u < s.n, ∀ v < s.n, S u = S v → t ≤ s.w u v ∧ s.w u v ≤ 1
  between : ∀ u < s.n, ∀ v < s.n, S u ≠ S v → 0 ≤ s.w u v ∧ s.w u v ≤ b

/-- How unequal the vertices of a group can be. -/
noncomputable def groupSpread (n : Nat) (t b μ : ℝ) : ℝ := (1 - t ^ 2 + n * b / μ) / t

/-- How clearly the groups stand out. -/
noncomputable def groupGap (n k : Nat) (t b μ : ℝ) : ℝ := t / (2 + n * b / μ) - groupSpread n t b μ - k * b / t

/-- The error of spectral clustering allowed by the bounds. -/
noncomputable def groupError (n k : Nat) (t b μ : ℝ) : ℝ :=
  k * (groupSpread n t b μ ^ 2 + k * b ^ 2 / t ^ 2) / groupGap n k t b μ ^ 2

end Stag
