import Mathlib.Algebra.BigOperators.Group.Finset.Basic
import Mathlib.Algebra.Order.Field.Basic

/-!
# Specification: weighted undirected graphs

The abstract object a user of `stag::Graph` has in mind: a number of vertices
and a symmetric weight function, `w u v = 0` meaning "no edge".  Nothing here mentions sparse
storage.
-/

namespace Stag

/-- A weighted graph on the vertices `0 .. n-1`. -/
@[ext] structure WGraph (K : Type) where
  n : Nat
  w : Nat → Nat → K

namespace WGraph
variable {K : Type} [Field K]

/-- Increase the weight of the edge `{i, j}` by `x` (a self-loop by `2x`),
creating missing vertices. -/
def addEdge (s : WGraph K) (i j : Nat) (x : K) : WGraph K where
  n := max s.n (max i j + 1)
  w a b := if (a = i ∧ b = j) ∨ (a = j ∧ b = i) then
      s.w a b + (if i = j then 2 * x else x)
    else s.w a b

/-- Set the weight of `{i, j}` to zero; nothing happens if a vertex does not
exist. -/
def removeEdge (s : WGraph K) (i j : Nat) : WGraph K :=
  if i < s.n ∧ j < s.n then
    { n := s.n
      w := fun a b => if (a = i ∧ b = j) ∨ (a = j ∧ b = i) then 0 else s.w a b }
  else s

/-- Degree: total weight of the incident edges, self-loops counted twice. -/
def deg (s : WGraph K) (v : Nat) : K := ∑ u ∈ Finset.range s.n, s.w v u + s.w v v

/-- The edges, as pairs `(u, v)` with `u ≤ v < n` and non-zero weight. -/
def edges [DecidableEq K] (s : WGraph K) : Finset (Nat × Nat) :=
  ((Finset.range s.n) ×ˢ (Finset.range s.n)).filter (fun p => p.1 ≤ p.2 ∧ s.w p.1 p.2 ≠ 0)

end WGraph

/-- A mutating call on a graph. -/
inductive GOp (K : Type) where
  | add (i j : Nat) (x : K)
  | remove (i j : Nat)
  deriving Repr

/-- Effect of a call on the abstract graph. -/
def WGraph.step {K : Type} [Field K] (s : WGraph K) : GOp K → WGraph K
  | .add i j x => s.addEdge i j x
  | .remove i j => s.removeEdge i j

/-- Effect of a history on the abstract graph. -/
def WGraph.run {K : Type} [Field K] (s : WGraph K) (ops : List (GOp K)) : WGraph K :=
  ops.foldl WGraph.step s

end Stag

namespace Stag
namespace WGraph
variable {K : Type} [Field K]

/-- Vertices of `a` followed by those of `b`, the edges of both, none between. -/
def disjUnion (a b : WGraph K) : WGraph K where
  n := a.n + b.n
  w i j := if i < a.n ∧ j < a.n then a.w i j
    else if a.n ≤ i ∧ a.n ≤ j then b.w (i - a.n) (j - a.n)
    else 0

/-- The subgraph induced by the distinct vertices `ids`, vertex `ids[k]` being
renamed to `k`. -/
def induced (s : WGraph K) (ids : List Nat) : WGraph K where
  n := ids.length
  w i j := if i < ids.length ∧ j < ids.length then s.w (ids.getD i 0) (ids.getD j 0) else 0

/-- Weightwise sum of two graphs on the same vertices. -/
def add (a b : WGraph K) : WGraph K := ⟨a.n, fun i j => a.w i j + b.w i j⟩

/-- All weights multiplied by `c`. -/
def scale (c : K) (a : WGraph K) : WGraph K := ⟨a.n, fun i j => c * a.w i j⟩

end WGraph
end Stag
