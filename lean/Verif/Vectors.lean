import Verif.GraphIO

/-!
# Small helpers: `addVectors` and the comparison of edges and graphs
-/

namespace Stag

section
variable {K : Type}

/-- The loop of `addVectors` (`stag_lib/utility.h:86-91`) from index `i` on, `count` rounds. -/
def addVectorsFrom [Zero K] [Add K] (v1 v2 : List K) (i : Nat) : Nat → List K
  | 0 => []
  | count + 1 =>
    let e : K := 0
    let e := if i < v1.length then e + v1.getD i 0 else e
    let e := if i < v2.length then e + v2.getD i 0 else e
    e :: addVectorsFrom v1 v2 (i + 1) count

/-- `stag::addVectors` (`stag_lib/utility.h:78-95`). -/
def addVectors [Zero K] [Add K] (v1 v2 : List K) : List K :=
  addVectorsFrom v1 v2 0 (max v1.length v2.length)

/-- `operator==(edge, edge)` (`stag_lib/graph.cpp:635-637`). -/
def IEdge.beq [DecidableEq K] (a b : IEdge K) : Bool :=
  decide (a.v1 = b.v1) && decide (a.v2 = b.v2) && decide (a.w = b.w)

/-- `operator!=(edge, edge)` (`stag_lib/graph.cpp:639-641`). -/
def IEdge.bne [DecidableEq K] (a b : IEdge K) : Bool := !(a.beq b)

end

section
variable {K : Type} [Field K] [LinearOrder K]

/-- `operator!=(Graph, Graph)` (`stag_lib/graph.cpp:631-633`). -/
def Graph.bne (g h : Graph K) : Bool := !(g.beq h)

end
end Stag
