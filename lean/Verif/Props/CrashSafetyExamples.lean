import Verif.Props.CrashSafety

/-!
# C63: interrupted saves, and examples
-/

namespace Stag

section
variable {K : Type} [Field K] [LinearOrder K] [IsStrictOrderedRing K]

/-- **C63** (interrupted saves go unnoticed).  For every graph and every `j` there is a moment during
`save_edgelist` at which a crash leaves a file that has just the first `j` edges of the graph and loads
without an error. -/
theorem C63_save_truncated (F : Fmt K) (g : Graph K) (hv : g.Valid) (hpr : g.Pruned)
    (hn : g.n ≤ 2 ^ 31) (hp : ∀ j, ∀ e ∈ g.adj.col j, F.printable e.2) (fs : FS) (p : Path) (j : Nat) :
    ∃ k s g', crashAfter fs (writeOps p (saveEdgelist F g)) k p = some s ∧
      contentLines s = (contentLines (saveEdgelist F g)).take j ∧ loadEdgelist F s = .ok g' := by
  have hparse := parse_saved F g hv hn hp
  have hb : ∀ e ∈ upperEdges g, F.printable e.w := by
    intro e he
    rw [mem_upperEdges hv] at he
    exact hp _ _ he.2
  have hlines : ∀ l ∈ (upperEdges g).map (edgeLine F), IsLine l ∧ isContent l = true := by
    intro l hl
    rw [List.mem_map] at hl
    obtain ⟨e, he, rfl⟩ := hl
    exact ⟨isLine_edgeLine F e (hb e he), isContent_edgeLine F e⟩
  have hcl : contentLines (saveEdgelist F g) = (upperEdges g).map (edgeLine F) := by
    unfold saveEdgelist
    exact contentLines_unlines (header_spec _ _) hlines
  let s := unlines ([headerGen, headerN g.n, headerM g.numberOfEdges] ++
    ((upperEdges g).map (edgeLine F)).take j)
  have hcs : contentLines s = (contentLines (saveEdgelist F g)).take j := by
    rw [hcl]
    exact contentLines_unlines (header_spec _ _) (fun l hl => hlines l (List.mem_of_mem_take hl))
  have hps : Outcome.mapM' (parseEdgelistLine F) (contentLines s) = .ok ((upperEdges g).take j) := by
    rw [hcs]
    rw [Outcome.mapM'_eq_ok] at hparse ⊢
    exact List.forall₂_take j hparse
  obtain ⟨g', w, h1, _⟩ := C22_load F s _ hps (by
    intro e he
    have := List.mem_of_mem_take he
    rw [mem_upperEdges hv] at this
    exact le_of_lt (lt_trans epsilon_pos (hpr _ _ this.2)))
  refine ⟨s.length + 1, s, g', ?_, hcs, h1⟩
  rw [crash_writeOps]
  have : saveEdgelist F g = s ++ unlines (((upperEdges g).map (edgeLine F)).drop j) := by
    unfold saveEdgelist
    rw [← unlines_append, List.append_assoc, List.take_append_drop]
  rw [this, List.take_append_of_le_length (le_refl _), List.take_length]

end

theorem tempName_length (rand : Nat → Nat) (i : Nat) : (tempName rand i).length = 40 := by
  unfold tempName
  rw [List.length_append, List.length_map, List.length_range]
  rfl

/-- The hypotheses of the theorems on the sort are met by a small file with a header; the temporary names
differ from the name of the file. -/
example : ∃ ops, sortEdgelistOps natFmt 8 "/g".toList (tempName (fun n => n)) 0 "# h\n3 1\n0 2".toList =
      some (ops, .ok ()) ∧
    (∀ k, NothingLost "/g".toList (tempName (fun n => n)) ["3 1".toList, "0 2".toList]
      (crashAfter (fun p => if p = "/g".toList then some "# h\n3 1\n0 2".toList else none) ops k)) := by
  have hfl : fileLines "# h\n3 1\n0 2".toList = ["# h".toList, "3 1".toList, "0 2".toList, []] := by
    rw [show "# h\n3 1\n0 2".toList = "# h".toList ++ '\n' :: ("3 1".toList ++ '\n' ::
      "0 2".toList) from by decide]
    rw [fileLines_lf ⟨by decide, by decide⟩, fileLines_lf ⟨by decide, by decide⟩,
      fileLines_last ⟨by decide, by decide⟩ (by decide)]
  have hcl : contentLines "# h\n3 1\n0 2".toList = ["3 1".toList, "0 2".toList] := by
    unfold contentLines; rw [hfl]; decide
  obtain ⟨ops, h1, h2⟩ := C63_sort_crash natFmt "/g".toList (tempName (fun n => n)) 0 (by
      intro j _ h
      have := congrArg List.length h
      rw [tempName_length] at this
      exact absurd this (by decide)) "# h\n3 1\n0 2".toList
    [⟨3, 1, 1⟩, ⟨0, 2, 1⟩] (by rw [hcl]; decide +kernel) 8 (by decide +kernel)
    (fun p => if p = "/g".toList then some "# h\n3 1\n0 2".toList else none) (if_pos rfl)
  rw [hcl] at h2
  exact ⟨ops, h1, fun k => (h2 k).1⟩

end Stag
