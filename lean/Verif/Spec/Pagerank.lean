import Verif.Spec.WGraph
import Mathlib.Algebra.Order.Field.Basic

/-!
# Specification: the lazy random walk and personalised PageRank
-/

namespace Stag
namespace WGraph
variable {K : Type} [Field K]

/-- One step of the lazy random walk: half of the mass stays, the other half moves along the edges
in proportion to their weights. -/
def lazyStep (s : WGraph K) (x : Nat → K) (v : Nat) : K :=
  x v / 2 + ∑ u ∈ Finset.range s.n, x u * s.w u v / (2 * s.deg u)

/-- `q` is a PageRank vector for the teleport probability `α` and the starting vector `x`:
`q = α x + (1 - α) W q`. -/
def IsPagerank (s : WGraph K) (α : K) (x q : Nat → K) : Prop :=
  ∀ v, v < s.n → q v = α * x v + (1 - α) * s.lazyStep q v

/-- Total of a vector over the vertices. -/
def mass (s : WGraph K) (x : Nat → K) : K := ∑ v ∈ Finset.range s.n, x v

end WGraph
end Stag
