import Verif.ClusterLemmas
import Verif.Concrete
import Mathlib.Tactic.FieldSimp
import Mathlib.Tactic.NormNum
import Mathlib.Algebra.Field.Rat
import Mathlib.Algebra.Order.Field.Rat

/-!
# C33: conductance
-/

set_option linter.unusedSectionVars false

namespace Stag

section
variable {K : Type} [Field K] [LinearOrder K]

theorem condInner_eq (cl : List Int) (es : List (Edge K)) : ∀ d c : K,
    condInner cl es (d, c) = (d + (es.map (fun e => e.w)).sum,
      c + (es.map (fun e => if (e.v2 : Int) ∈ cl then 0 else e.w)).sum) := by
  induction es with
  | nil => intro d c; simp [condInner]
  | cons e es ih =>
    intro d c
    unfold condInner
    rw [ih]
    simp only [List.map_cons, List.sum_cons]
    split_ifs <;> simp only [Prod.mk.injEq] <;> constructor <;> ring

/-- Total weight at a vertex, self-loops counted once. -/
def WGraph.row (s : WGraph K) (v : Nat) : K := ∑ u ∈ Finset.range s.n, s.w v u

theorem condLoop_eq {lg : LGraph K} {s : WGraph K} (h : lg.Answers s) (cl : List Nat)
    (vs : List Nat) (hvs : ∀ v ∈ vs, v < s.n) : ∀ c vol : K,
    condLoop lg (cl.map (fun v : Nat => (v : Int))) (vs.map (fun v : Nat => (v : Int))) (c, vol) =
      .ok (c + (vs.map (fun v => ∑ u ∈ Finset.range s.n \ cl.toFinset, s.w v u)).sum,
        vol + (vs.map s.row).sum) := by
  induction vs with
  | nil => intro c vol; simp [condLoop]
  | cons v vs ih =>
    intro c vol
    obtain ⟨es, hes, _, hnl⟩ := h.nbrs v (hvs v (by simp))
    have h1 := hnl.sum_eq (fun _ x => x) (fun _ => rfl)
    have h2 := hnl.sum_eq (fun u x => if u ∈ cl then 0 else x) (by simp)
    rw [List.map_map] at h1 h2
    simp only [List.map_cons, condLoop, hes, Outcome.bind_ok, condInner_eq,
      ih (fun v hv => hvs v (by simp [hv])), List.sum_cons, zero_add]
    have e1 : (es.map (fun e => e.w)).sum = s.row v := h1
    have e2 : (es.map (fun e => if (e.v2 : Int) ∈ cl.map (fun v : Nat => (v : Int)) then 0 else e.w)).sum
        = ∑ u ∈ Finset.range s.n \ cl.toFinset, s.w v u := by
      have e3 : (es.map (fun e => if (e.v2 : Int) ∈ cl.map (fun v : Nat => (v : Int)) then 0 else e.w)).sum
          = ∑ u ∈ Finset.range s.n, if u ∈ cl then 0 else s.w v u := by
        rw [← h2]
        congr 1
        apply List.map_congr_left
        intro e _
        simp only [Function.comp, List.mem_map]
        congr 1
        simp
      rw [e3, Finset.sum_ite, Finset.sum_const_zero, zero_add]
      apply Finset.sum_congr _ (fun _ _ => rfl)
      ext u
      simp
    rw [e1, e2]
    congr 2 <;> ring

/-- **C33** (exact value, any list).  What the code computes: weights leaving the listed vertices
over the total weight at the listed vertices.  A vertex listed twice counts twice; a self-loop
counts once in the volume. -/
theorem C33_value {lg : LGraph K} {s : WGraph K} (h : lg.Answers s) (S : List Nat)
    (hS : ∀ v ∈ S, v < s.n) :
    conductance lg (S.map (fun v : Nat => (v : Int))) = .ok (
      if (S.map (fun v => ∑ u ∈ Finset.range s.n, s.w v u)).sum = 0 then 0
      else (S.map (fun v => ∑ u ∈ Finset.range s.n \ S.toFinset, s.w v u)).sum /
        (S.map (fun v => ∑ u ∈ Finset.range s.n, s.w v u)).sum) := by
  unfold conductance
  rw [condLoop_eq h S S hS, Outcome.bind_ok]
  simp only [zero_add]
  rfl

/-- **C33**.  For a duplicate-free set of vertices without self-loops, the conductance is the cut
weight over the volume, and `0` if the volume is zero. -/
theorem C33_conductance {lg : LGraph K} {s : WGraph K} (h : lg.Answers s) {S : List Nat}
    (hS : ∀ v ∈ S, v < s.n) (hd : S.Nodup) (hl : ∀ v ∈ S, s.w v v = 0) :
    conductance lg (S.map (fun v : Nat => (v : Int))) = .ok (s.cond S.toFinset) := by
  rw [C33_value h S hS]
  have hv : (S.map (fun v => ∑ u ∈ Finset.range s.n, s.w v u)).sum = s.vol S.toFinset := by
    unfold WGraph.vol
    rw [List.sum_toFinset _ hd]
    congr 1
    apply List.map_congr_left
    intro v hv
    unfold WGraph.deg
    rw [hl v hv, add_zero]
  have hc : (S.map (fun v => ∑ u ∈ Finset.range s.n \ S.toFinset, s.w v u)).sum
      = s.cut S.toFinset := by
    unfold WGraph.cut
    rw [List.sum_toFinset _ hd]
  rw [hv, hc]
  rfl

/-- **C33** (order).  The order in which the vertices are listed does not matter. -/
theorem C33_order {lg : LGraph K} {s : WGraph K} (h : lg.Answers s) {S T : List Nat}
    (hS : ∀ v ∈ S, v < s.n) (hp : S.Perm T) :
    conductance lg (S.map (fun v : Nat => (v : Int))) =
      conductance lg (T.map (fun v : Nat => (v : Int))) := by
  rw [C33_value h S hS, C33_value h T (fun v hv => hS v (hp.mem_iff.2 hv))]
  have hf : S.toFinset = T.toFinset := by
    ext x; simp [hp.mem_iff]
  rw [hf, (hp.map _).sum_eq, (hp.map _).sum_eq]

theorem WGraph.cut_le_vol [IsStrictOrderedRing K] {s : WGraph K} (hw : ∀ u v, 0 ≤ s.w u v)
    (S : Finset Nat) : 0 ≤ s.cut S ∧ s.cut S ≤ s.vol S := by
  constructor
  · exact Finset.sum_nonneg (fun u _ => Finset.sum_nonneg (fun v _ => hw u v))
  · apply Finset.sum_le_sum
    intro u _
    have := Finset.sum_le_sum_of_subset_of_nonneg (f := fun v => s.w u v)
      (Finset.sdiff_subset (s := Finset.range s.n) (t := S)) (fun v _ _ => hw u v)
    unfold WGraph.deg
    linarith [hw u u]

/-- **C33** (range).  With non-negative weights the answer lies between `0` and `1`, for every
list of existing vertices, with or without self-loops and repetitions. -/
theorem C33_between_zero_and_one [IsStrictOrderedRing K] {lg : LGraph K} {s : WGraph K}
    (h : lg.Answers s) (hw : ∀ u v, 0 ≤ s.w u v) (S : List Nat) (hS : ∀ v ∈ S, v < s.n) :
    ∃ c, conductance lg (S.map (fun v : Nat => (v : Int))) = .ok c ∧ 0 ≤ c ∧ c ≤ 1 := by
  refine ⟨_, C33_value h S hS, ?_⟩
  have h0 : 0 ≤ (S.map (fun v => ∑ u ∈ Finset.range s.n \ S.toFinset, s.w v u)).sum := by
    apply List.sum_nonneg
    intro x hx
    obtain ⟨v, _, rfl⟩ := List.mem_map.1 hx
    exact Finset.sum_nonneg (fun u _ => hw v u)
  have h1 : (S.map (fun v => ∑ u ∈ Finset.range s.n \ S.toFinset, s.w v u)).sum ≤
      (S.map (fun v => ∑ u ∈ Finset.range s.n, s.w v u)).sum := by
    apply List.sum_le_sum
    intro v _
    exact Finset.sum_le_sum_of_subset_of_nonneg Finset.sdiff_subset (fun u _ _ => hw v u)
  split_ifs with hz
  · exact ⟨le_refl _, zero_le_one⟩
  · have hp : 0 < (S.map (fun v => ∑ u ∈ Finset.range s.n, s.w v u)).sum :=
      lt_of_le_of_ne (le_trans h0 h1) (Ne.symm hz)
    exact ⟨div_nonneg h0 hp.le, (div_le_one hp).2 h1⟩

/-- **C33** (missing vertex).  On a graph in memory, listing a vertex which does not exist raises
`invalid_argument`. -/
theorem C33_missing_vertex {g : Graph K} (hv : g.Valid) (S : List Int)
    (hS : ∃ v ∈ S, g.vertexExists v = false) :
    conductance g.asLocal S = .throw .invalidArgument := by
  have key : ∀ (cl vs : List Int) (x : K × K), (∃ v ∈ vs, g.vertexExists v = false) →
      condLoop g.asLocal cl vs x = .throw .invalidArgument := by
    intro cl vs
    induction vs with
    | nil => rintro x ⟨v, hv, _⟩; cases hv
    | cons v vs ih =>
      rintro ⟨c, vol⟩ ⟨u, hu, hbad⟩
      by_cases hvx : g.vertexExists v = true
      · have hvr : 0 ≤ v ∧ v < (g.n : Int) := by simpa [Graph.vertexExists] using hvx
        obtain ⟨es, hes, _⟩ := (Graph.asLocal_answers hv).nbrs v.toNat (by
          change v.toNat < g.n; omega)
        rw [Int.toNat_of_nonneg hvr.1] at hes
        simp only [condLoop, hes, Outcome.bind_ok]
        apply ih
        rcases List.mem_cons.1 hu with rfl | hu
        · rw [hvx] at hbad; cases hbad
        · exact ⟨u, hu, hbad⟩
      · have hb : ¬ (0 ≤ v ∧ v < (g.n : Int)) := by simpa [Graph.vertexExists] using hvx
        have : g.asLocal.neighbors v = .throw .invalidArgument := by
          change g.neighbors v = _
          unfold Graph.neighbors
          rw [checkVertex_bad hb]
          rfl
        simp only [condLoop, this, Outcome.bind_throw]
  unfold conductance
  rw [key S S _ hS]
  rfl

end

/-! ## Examples and negative results -/

/-- The path `0 - 1 - 2` with a heavy second edge. -/
def condPath : Graph ℚ :=
  ⟨3, ⟨3, 3, [[(1, 1)], [(0, 1), (2, 3)], [(1, 3)]]⟩, false⟩

/-- The hypotheses of C33 are met: the set `{0, 1}` has cut `3` and volume `5`. -/
example : condPath.Valid ∧ condPath.Pruned ∧ (∀ v ∈ [0, 1], condPath.abs.w v v = 0) ∧
    conductance condPath.asLocal [0, 1] = .ok (3 / 5) :=
  ⟨(Graph.check_spec (by decide +kernel)).1, (Graph.check_spec (by decide +kernel)).2,
    by decide +kernel, by decide +kernel⟩

/-- A vertex with a self-loop of weight 1 joined to another vertex. -/
def condLoopGraph : Graph ℚ := ⟨2, ⟨2, 2, [[(0, 1), (1, 1)], [(0, 1)]]⟩, true⟩

/-- **C33** (negative result).  With a self-loop the answer is not the cut over the volume: the
library's `degree` counts a self-loop twice, `conductance` counts it once. -/
theorem C33_self_loop_counted_once :
    condLoopGraph.Valid ∧ condLoopGraph.Pruned ∧
    conductance condLoopGraph.asLocal [0] = .ok (1 / 2) ∧ condLoopGraph.abs.cond {0} = 1 / 3 :=
  ⟨(Graph.check_spec (by decide +kernel)).1, (Graph.check_spec (by decide +kernel)).2,
    by decide +kernel, by decide +kernel⟩

/-- **C33** (negative result).  A vertex listed twice counts twice. -/
theorem C33_repeated_vertex_counted_twice :
    conductance condPath.asLocal [0, 1] = .ok (3 / 5) ∧
    conductance condPath.asLocal [0, 1, 1] = .ok (2 / 3) := by decide +kernel

end Stag
