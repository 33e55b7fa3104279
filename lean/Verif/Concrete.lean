import Verif.GraphOpsLemmas
import Mathlib.Algebra.Field.Rat
import Mathlib.Algebra.Order.Field.Rat

/-!
# Checking concrete graphs

A decidable test implying the invariants, used by the non-vacuity examples only.
-/

namespace Stag
namespace Graph
variable {K : Type} [Field K] [LinearOrder K]

/-- Test of the invariants on a concrete graph. -/
def check (g : Graph K) : Bool :=
  decide (g.adj.data.length = g.adj.cols) && decide (g.adj.rows = g.n) && decide (g.adj.cols = g.n) &&
  g.adj.isSymmetric &&
  g.adj.data.all (fun c => decide (c.Pairwise (fun a b => a.1 < b.1)) &&
    c.all (fun e => decide (e.1 < g.adj.rows) && decide (epsilon < e.2)))

theorem check_spec {g : Graph K} (h : g.check = true) : g.Valid ∧ g.Pruned := by
  unfold check at h
  simp only [Bool.and_eq_true, decide_eq_true_eq, List.all_eq_true] at h
  obtain ⟨⟨⟨⟨h1, h2⟩, h3⟩, h4⟩, h5⟩ := h
  have hcol : ∀ j, (g.adj.col j).Sorted ∧ ∀ e ∈ g.adj.col j, e.1 < g.adj.rows ∧ epsilon < e.2 := by
    intro j
    unfold SprsMat.col
    rcases Nat.lt_or_ge j g.adj.data.length with hj | hj
    · rw [List.getD_eq_getElem _ _ hj]
      have := h5 _ (List.getElem_mem hj)
      exact ⟨this.1, this.2⟩
    · rw [List.getD_eq_default _ _ hj]
      exact ⟨List.Pairwise.nil, by simp⟩
  have hwf : g.adj.WF := ⟨h1, fun j => ⟨(hcol j).1, fun e he => ((hcol j).2 e he).1⟩⟩
  exact ⟨⟨hwf, h2, h3, (SprsMat.isSymmetric_iff hwf (by omega)).1 h4⟩,
    fun j e he => ((hcol j).2 e he).2⟩

omit [Field K] [LinearOrder K] in
/-- A property of all stored entries, checked column by column. -/
theorem forall_entries {g : Graph K} {P : Nat × K → Prop} (h : ∀ c ∈ g.adj.data, ∀ e ∈ c, P e) :
    ∀ j, ∀ e ∈ g.adj.col j, P e := by
  intro j
  unfold SprsMat.col
  rcases Nat.lt_or_ge j g.adj.data.length with hj | hj
  · rw [List.getD_eq_getElem _ _ hj]
    exact h _ (List.getElem_mem hj)
  · rw [List.getD_eq_default _ _ hj]; simp

end Graph
end Stag
