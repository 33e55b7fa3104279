import Verif.Spec.WGraph

/-!
# Specification: volume, cut and conductance of vertex sets
-/

namespace Stag
namespace WGraph
variable {K : Type} [Field K]

/-- Volume: the total degree of the vertices in `S`. -/
def vol (s : WGraph K) (S : Finset Nat) : K := ∑ v ∈ S, s.deg v

/-- Cut: the total weight of the edges between `S` and the other vertices. -/
def cut (s : WGraph K) (S : Finset Nat) : K :=
  ∑ u ∈ S, ∑ v ∈ Finset.range s.n \ S, s.w u v

/-- Weight leaving `S` per unit of volume of `S`; `0` if the volume is zero. -/
def cond [DecidableEq K] (s : WGraph K) (S : Finset Nat) : K :=
  if s.vol S = 0 then 0 else s.cut S / s.vol S

end WGraph

/-- The answers of a local graph are those of the weighted graph `s`: `neighbors` lists each
neighbour once with the weight of the edge, `degree` is the degree. -/
def NeighborList {K : Type} [Field K] (s : WGraph K) (v : Nat) (es : List (Nat × K)) : Prop :=
  (es.map Prod.fst).Nodup ∧ ∀ u x, (u, x) ∈ es ↔ u < s.n ∧ s.w v u = x ∧ x ≠ 0

end Stag
