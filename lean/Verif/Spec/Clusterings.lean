import Mathlib.Analysis.SpecialFunctions.Log.Base
import Mathlib.Data.List.Basic

/-!
# Specification: comparing two clusterings

A clustering of `n` points is the list of their labels.
-/

namespace Stag

/-- The number of pairs of positions `i < j` whose entries are equal. -/
def equalPairs {α : Type} [BEq α] : List α → Nat
  | [] => 0
  | a :: l => l.count a + equalPairs l

/-- The number of pairs of points. -/
def numPairs : Nat → Nat
  | 0 => 0
  | n + 1 => n + numPairs n

/-- Hubert and Arabie's adjusted Rand index: of `N` pairs of points `b` are together in the first
clustering, `c` in the second and `a` in both; the index is
`(a - expected a) / (largest a - expected a)`. -/
def hubertArabie {K : Type} [Field K] (a b c N : K) : K :=
  (a - b * c / N) / ((b + c) / 2 - b * c / N)

/-- The fraction of the entries which equal `x`. -/
noncomputable def freq {α : Type} [BEq α] (l : List α) (x : α) : ℝ :=
  (l.count x : ℝ) / (l.length : ℝ)

/-- Shannon entropy, in bits, of the distribution of the entries. -/
noncomputable def shannon {α : Type} [BEq α] [DecidableEq α] (l : List α) : ℝ :=
  ∑ x ∈ l.toFinset, freq l x * Real.logb 2 (1 / freq l x)

end Stag
