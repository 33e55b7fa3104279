import Verif.Similarity
import Verif.RoundingKde
import Verif.RoundingGraph

/-!
# `similarity_graph` in rounded arithmetic (`stag_lib/cluster.cpp`)

The functions of `Verif.Similarity` again, with the rounded kernel of `Verif.RoundingKde` and the rounded graph constructor of
`Verif.RoundingGraph`.
-/

namespace Stag

open Pool Graph

/-- The addition of a triplet to the entry at its place in `setFromTriplets`, rounded.  The value itself is a `double`, so
nothing is rounded when there was no entry, or a zero. -/
noncomputable def addToEntryFl (fl : ℝ → ℝ) (v x : ℝ) : ℝ := if x = 0 then v else fl (x + v)

/-- `setFromTriplets` (Eigen, called in `stag_lib/cluster.cpp:1001-1002`) with rounded sums. -/
noncomputable def setFromTripletsFl (fl : ℝ → ℝ) (rows cols : Nat) (l : List (Triplet ℝ)) : Outcome (SprsMat ℝ) :=
  if l.all (fun t => decide (t.row < rows) && decide (t.col < cols)) then
    .ok (l.foldl (fun m t => m.update t.row t.col (addToEntryFl fl t.val)) (SprsMat.empty rows cols))
  else .ub

/-- `setFromTriplets` and the constructor of the graph (`stag_lib/cluster.cpp:1001-1004`), rounded. -/
noncomputable def graphOfTripletsFl (fl : ℝ → ℝ) (n : Nat) (l : List (Triplet ℝ)) : Outcome (Graph ℝ) :=
  setFromTripletsFl fl n n l >>= ofMatrixFl fl

/-- The loop over `j` for one `i` (`stag_lib/cluster.cpp:944-953`, `stag_lib/cluster.cpp:978-986`), rounded. -/
noncomputable def simRowFl (fl : ℝ → ℝ) (E : LibExp) (a : ℝ) (data : Mat ℝ) (i : Nat) : List (Triplet ℝ) :=
  (List.range' i (data.rows - i)).flatMap (fun j =>
    let weight := kernelOfFl fl E a (data.row i) (data.row j)
    ⟨i, j, weight⟩ :: (if i ≠ j then [⟨j, i, weight⟩] else []))

/-- The edges of the rows `lo ≤ i < hi` (`stag_lib/cluster.cpp:943-955`, `stag_lib/cluster.cpp:976-989`), rounded. -/
noncomputable def simEdgesFl (fl : ℝ → ℝ) (E : LibExp) (a : ℝ) (data : Mat ℝ) (lo hi : Nat) : List (Triplet ℝ) :=
  (List.range' lo (hi - lo)).flatMap (simRowFl fl E a data)

/-- `similarity_graph` (`stag_lib/cluster.cpp:935-1005`), rounded: the possible results. -/
def SimilarityGraphFl (fl : ℝ → ℝ) (E : LibExp) (data : Mat ℝ) (a : ℝ) (threads : Nat) (out : Outcome (Graph ℝ)) :
    Prop :=
  if data.rows ≤ threads * 2 then out = graphOfTripletsFl fl data.rows (simEdgesFl fl E a data 0 data.rows)
  else ∃ (m k : Nat) (s : State Unit (List (Triplet ℝ))),
    Exec (chunkTasks (simEdgesFl fl E a data) data.rows threads) (init threads () (libProg threads [true]))
      m k s ∧ Complete s ∧
    out = graphOfTripletsFl fl data.rows ((List.range threads).flatMap (futureValue s.finished))

end Stag
