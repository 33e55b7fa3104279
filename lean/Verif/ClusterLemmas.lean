import Verif.Cluster
import Verif.Spec.Cut
import Verif.GraphMutate
import Verif.GraphOpsLemmas
import Verif.Props.Mutate
import Mathlib.Algebra.Order.BigOperators.Group.Finset
import Mathlib.Tactic.Ring
import Mathlib.Tactic.Linarith

/-!
# Local graphs which answer for a weighted graph
-/

set_option linter.unusedSectionVars false

namespace Stag

section
variable {K : Type} [Field K] [LinearOrder K]

/-- The object `lg` answers queries about existing vertices as the undirected weighted graph `s`
prescribes. -/
structure LGraph.Answers (lg : LGraph K) (s : WGraph K) : Prop where
  symm : ∀ u v, s.w u v = s.w v u
  range : ∀ u v, s.n ≤ v → s.w u v = 0
  nbrs : ∀ v : Nat, v < s.n → ∃ es, lg.neighbors (v : Int) = .ok es ∧
    (∀ e ∈ es, e.v1 = v) ∧ NeighborList s v (es.map (fun e => (e.v2, e.w)))
  deg : ∀ v : Nat, v < s.n → lg.degree (v : Int) = .ok (s.deg v)
  exist : ∀ v : Int, 0 ≤ v → lg.vertexExists v = decide (v < (s.n : Int))

/-- As `Answers`, and `neighbors_unweighted` agrees with `neighbors`. -/
structure LGraph.AnswersAll (lg : LGraph K) (s : WGraph K) : Prop extends lg.Answers s where
  nbrsU : ∀ (v : Nat) es, v < s.n → lg.neighbors (v : Int) = .ok es →
    lg.neighborsUnweighted (v : Int) = .ok (es.map Edge.v2)

theorem NeighborList.sum_eq {M : Type} [AddCommMonoid M] {s : WGraph K} {v : Nat}
    {es : List (Nat × K)} (h : NeighborList s v es) (f : Nat → K → M) (hf : ∀ u, f u 0 = 0) :
    (es.map (fun e => f e.1 e.2)).sum = ∑ u ∈ Finset.range s.n, f u (s.w v u) := by
  have h1 : ∀ e ∈ es, f e.1 e.2 = f e.1 (s.w v e.1) := by
    intro e he
    rw [((h.2 e.1 e.2).1 he).2.1]
  rw [List.map_congr_left h1]
  have h2 : (es.map (fun e => f e.1 (s.w v e.1))) = (es.map Prod.fst).map (fun u => f u (s.w v u)) := by
    rw [List.map_map]; rfl
  rw [h2, ← List.sum_toFinset _ h.1]
  apply Finset.sum_subset
  · intro u hu
    rw [List.mem_toFinset, List.mem_map] at hu
    obtain ⟨e, he, rfl⟩ := hu
    exact Finset.mem_range.2 ((h.2 e.1 e.2).1 he).1
  · intro u hu hn
    have : s.w v u = 0 := by
      by_contra hc
      apply hn
      rw [List.mem_toFinset, List.mem_map]
      exact ⟨(u, s.w v u), (h.2 _ _).2 ⟨Finset.mem_range.1 hu, rfl, hc⟩, rfl⟩
    rw [this, hf]

theorem WGraph.degree_nonneg [IsStrictOrderedRing K] {s : WGraph K} (hw : ∀ u v, 0 ≤ s.w u v)
    (v : Nat) : 0 ≤ s.deg v :=
  add_nonneg (Finset.sum_nonneg (fun u _ => hw v u)) (hw v v)

theorem LGraph.Answers.degrees {lg : LGraph K} {s : WGraph K} (h : lg.Answers s) {vs : List Nat}
    (hv : ∀ v ∈ vs, v < s.n) : lg.degrees vs = .ok (vs.map s.deg) :=
  Outcome.mapM'_total _ (fun v hm => h.deg v (hv v hm))

/-! ## Graphs in memory -/

namespace Graph

theorem abs_symm {g : Graph K} (hv : g.Valid) (u v : Nat) : g.abs.w u v = g.abs.w v u := hv.symm u v

theorem abs_range {g : Graph K} (hv : g.Valid) (u v : Nat) (h : g.n ≤ v) : g.abs.w u v = 0 :=
  hv.wf.coeff_of_cols_le (by rw [hv.cols]; exact h) u

theorem neighbors_eq {g : Graph K} {v : Nat} (hvn : v < g.n) :
    g.neighbors (v : Int) = .ok (((g.adj.col v).filter (fun e => decide (e.2 ≠ 0))).map
      (fun e => ⟨v, e.1, e.2⟩)) := by
  unfold neighbors degreeUnweighted
  simp only [checkVertex_ok hvn, Outcome.bind_ok, Int.toNat_natCast, Nat.add_sub_cancel,
    List.take_length]

theorem neighborsUnweighted_eq {g : Graph K} {v : Nat} (hvn : v < g.n) :
    g.neighborsUnweighted (v : Int) = .ok ((g.adj.col v).map Prod.fst) := by
  unfold neighborsUnweighted degreeUnweighted
  simp only [checkVertex_ok hvn, Outcome.bind_ok, Int.toNat_natCast, Nat.add_sub_cancel,
    List.take_length]

/-- A graph in memory answers for the graph it represents. -/
theorem asLocal_answers {g : Graph K} (hv : g.Valid) : g.asLocal.Answers g.abs where
  symm := abs_symm hv
  range := abs_range hv
  nbrs v hvn := by
    refine ⟨_, neighbors_eq hvn, ?_, ?_, ?_⟩
    · intro e he
      obtain ⟨x, _, rfl⟩ := List.mem_map.1 he
      rfl
    · rw [List.map_map, List.map_map]
      have h1 := (hv.wf.sorted v).filter (fun e => decide (e.2 ≠ 0))
      change (List.map Prod.fst _).Nodup
      unfold List.Nodup
      rw [List.pairwise_map]
      exact h1.imp (fun h => ne_of_lt h)
    · intro u x
      rw [List.map_map, List.mem_map]
      constructor
      · rintro ⟨e, he, heq⟩
        cases heq
        rw [List.mem_filter, decide_eq_true_eq] at he
        refine ⟨?_, ?_, he.2⟩
        · have := hv.wf.row_lt he.1
          rw [hv.rows] at this
          exact this
        · rw [abs_symm hv]
          exact Col.coeff_eq_of_mem (hv.wf.sorted v) he.1
      · rintro ⟨_, hx, hx0⟩
        refine ⟨(u, x), List.mem_filter.2 ⟨?_, by simpa using hx0⟩, rfl⟩
        rw [abs_symm hv] at hx
        have hx' : (g.adj.col v).coeff u = x := hx
        have := Col.mem_of_coeff_ne_zero (c := g.adj.col v) (i := u) (by rw [hx']; exact hx0)
        rwa [hx'] at this
  deg v hvn := by
    change g.degree (v : Int) = _
    unfold degree
    rw [checkVertex_ok hvn, Outcome.bind_ok, Int.toNat_natCast, degree_coeff hv, if_pos rfl]
    rfl
  exist v h0 := by
    change g.vertexExists v = _
    unfold vertexExists
    simp only [h0, true_and]
    rfl

theorem asLocal_answersAll {g : Graph K} (hv : g.Valid) (hz : g.adj.NoZeros) :
    g.asLocal.AnswersAll g.abs where
  toAnswers := asLocal_answers hv
  nbrsU v es hvn hes := by
    change g.neighborsUnweighted (v : Int) = _
    change g.neighbors (v : Int) = _ at hes
    rw [neighbors_eq hvn] at hes
    cases hes
    rw [neighborsUnweighted_eq hvn, List.map_map]
    rw [List.filter_eq_self.2 (fun e he => by simpa using hz v e he)]
    rfl

end Graph
end
end Stag
