import Verif.Graph

/-!
# Model of the connected-component functions (`stag_lib/cluster.cpp:571-623`)

A `LocalGraph*` is given by the answers of `neighbors_unweighted`.  (An object on disk keeps
caches, but by C28 its answers do not depend on them.)
-/

namespace Stag

/-- The variables of `connected_component` (`stag_lib/cluster.cpp:575-577`). -/
structure CompState where
  set : List Int
  vec : List Int
  frontier : List Int

/-- The body of the loop over the neighbours (`stag_lib/cluster.cpp:590-594`).  The frontier is
kept with its back first. -/
def CompState.visit (s : CompState) (n : Int) : CompState :=
  if n ∈ s.set then s else ⟨n :: s.set, s.vec ++ [n], n :: s.frontier⟩

/-- The `while` loop (`stag_lib/cluster.cpp:581-596`); `none` if it runs for more than `fuel`
rounds. -/
def compLoop (nbr : Int → Outcome (List Int)) : Nat → CompState → Option (Outcome (List Int))
  | _, ⟨_, vec, []⟩ => some (.ok vec)
  | 0, ⟨_, _, _ :: _⟩ => none
  | fuel + 1, ⟨set, vec, v :: rest⟩ =>
    match nbr v with
    | .ok ns => compLoop nbr fuel (ns.foldl CompState.visit ⟨set, vec, rest⟩)
    | .throw e => some (.throw e)
    | .ub => some .ub

/-- `stag::connected_component` (`stag_lib/cluster.cpp:571-600`). -/
def connectedComponent (nbr : Int → Outcome (List Int)) (fuel : Nat) (v : Int) :
    Option (Outcome (List Int)) := compLoop nbr fuel ⟨[v], [v], [v]⟩

/-- The loop of `connected_components` over the vertices (`stag_lib/cluster.cpp:610-620`). -/
def compsLoop (nbr : Int → Outcome (List Int)) (fuel : Nat) :
    List Int → List Int → Option (Outcome (List (List Int)))
  | [], _ => some (.ok [])
  | v :: vs, found =>
    if v ∈ found then compsLoop nbr fuel vs found
    else
      match connectedComponent nbr fuel v with
      | some (.ok c) =>
        match compsLoop nbr fuel vs (found ++ c) with
        | some (.ok cs) => some (.ok (c :: cs))
        | r => r
      | some (.throw e) => some (.throw e)
      | some .ub => some .ub
      | none => none

namespace Graph
variable {K : Type} [Field K] [LinearOrder K]

/-- `neighbors_unweighted` of a `Graph`, as seen through `LocalGraph*`. -/
def nbrFn (g : Graph K) (v : Int) : Outcome (List Int) := do
  let ns ← g.neighborsUnweighted v
  .ok (ns.map (fun k : Nat => (k : Int)))

/-- `stag::connected_components` (`stag_lib/cluster.cpp:602-623`). -/
def connectedComponents (g : Graph K) (fuel : Nat) : Option (Outcome (List (List Int))) :=
  compsLoop g.nbrFn fuel ((List.range g.n).map (fun k : Nat => (k : Int))) []

/-- `Graph::is_connected` (`stag_lib/graph.cpp:288-292`). -/
def isConnected (g : Graph K) (fuel : Nat) : Option (Outcome Bool) :=
  match connectedComponent g.nbrFn fuel 0 with
  | some (.ok c) => some (.ok (decide (c.length = g.n)))
  | some (.throw e) => some (.throw e)
  | some .ub => some .ub
  | none => none

end Graph
end Stag
