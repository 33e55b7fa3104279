import Verif.Props.LocalCluster
import Verif.Props.Components

/-!
# The clustering algorithms on a graph on disk

`conductance`, `sweep_set_conductance`, `approximate_pagerank` and `local_cluster` take a
`LocalGraph*`.  Here the object is an `AdjacencyListLocalGraph` on the file of a saved graph.
-/

namespace Stag

section
variable {K : Type} [Field K] [LinearOrder K]

/-- A returned answer; `ub` if the call does not return. -/
def answer {α : Type} : Option (Outcome α) → Outcome α
  | some o => o
  | none => .ub

/-- An object on disk as a `LocalGraph` (`stag_lib/graph.cpp:746-816`).  Before the call about `v` it
has answered the queries `hist v`. -/
def diskLocal (F : Fmt K) (file : Str) (hist : Int → List LocalQuery) : LGraph K where
  neighbors v := do
    let es ← answer (localNeighbors F file (afterQueries F file (hist v)) v).1
    .ok (es.map (fun e => ⟨e.v1.toNat, e.v2.toNat, e.w⟩))
  neighborsUnweighted v := do
    let es ← answer (localNeighborsUnweighted F file (afterQueries F file (hist v)) v).1
    .ok (es.map Int.toNat)
  degree v := answer (localDegree F file (afterQueries F file (hist v)) v).1
  vertexExists v := decide (answer (localVertexExists file (afterQueries F file (hist v)) v).1 = .ok true)

/-- The answers of an object on the file of a saved graph are those of the graph. -/
theorem diskLocal_answers [IsStrictOrderedRing K] (F : Fmt K) {g : Graph K} (hv : g.Valid)
    (hpr : g.Pruned) (h0 : 0 < g.n) (hn : g.n ≤ 2 ^ 31)
    (hp : ∀ j, ∀ e ∈ g.adj.col j, F.printable e.2) {file : Str}
    (hs : saveAdjacencylist F g = .ok file) (hist : Int → List LocalQuery) :
    (diskLocal F file hist).AnswersAll g.abs := by
  have hA := Graph.asLocal_answersAll hv hpr.noZeros
  have hnb : ∀ v : Nat, v < g.n → ∀ es, g.neighbors (v : Int) = .ok es →
      (diskLocal F file hist).neighbors (v : Int) = .ok es ∧
      (diskLocal F file hist).neighborsUnweighted (v : Int) = .ok (es.map Edge.v2) := by
    intro v hvn es hes
    obtain ⟨es', d, h1, h2, h3, h4⟩ := (C28_saved_graph F g hv hpr h0 hn hp hs (hist v)).1 v hvn
    rw [hes] at h1
    cases h1
    constructor
    · simp only [diskLocal, h3, answer, Outcome.bind_ok, List.map_map]
      congr 1
      exact List.map_id'' (fun e => by simp) es
    · simp only [diskLocal, localNeighborsUnweighted, h3, mapRes, answer, Outcome.bind_ok,
        List.map_map]
      congr 1
  refine ⟨⟨hA.symm, hA.range, ?_, ?_, ?_⟩, ?_⟩
  · intro v hvn
    obtain ⟨es, h1, h2, h3⟩ := hA.nbrs v hvn
    exact ⟨es, (hnb v hvn es h1).1, h2, h3⟩
  · intro v hvn
    obtain ⟨es', d, h1, h2, h3, h4⟩ := (C28_saved_graph F g hv hpr h0 hn hp hs (hist v)).1 v hvn
    have := hA.deg v hvn
    change g.degree (v : Int) = _ at this
    rw [h2] at this
    simp only [diskLocal, h4, answer]
    exact this
  · intro v hv0
    have h1 := (C28_saved_graph F g hv hpr h0 hn hp hs (hist v)).2.1 v (by omega)
    have h2 := hA.exist v hv0
    change g.vertexExists v = _ at h2
    simp only [diskLocal, h1, answer, h2]
    simp
  · intro v es hvn hes
    obtain ⟨es', h1, _⟩ := hA.nbrs v hvn
    have h2 := hnb v hvn es' h1
    rw [h2.1] at hes
    cases hes
    exact h2.2

/-- **C33, C37** (on disk).  On the file of a saved graph `local_cluster`, and `conductance` of a set
of vertices without self-loops, have the properties they have in memory, whatever the state of the
caches at each call. -/
theorem C37_on_disk [IsStrictOrderedRing K] [Archimedean K] (F : Fmt K) {g : Graph K} (hv : g.Valid)
    (hpr : g.Pruned) (h0 : 0 < g.n) (hn : g.n ≤ 2 ^ 31)
    (hp : ∀ j, ∀ e ∈ g.adj.col j, F.printable e.2) {file : Str}
    (hs : saveAdjacencylist F g = .ok file) (hist : Int → List LocalQuery) {target : K}
    (ht : 0 < target) {v : Nat} (hvn : v < g.n) :
    ∃ N, ∀ fuel, N ≤ fuel → ∃ C, localCluster (diskLocal F file hist) fuel v target = some (.ok C) ∧
      C.Nodup ∧ (∀ u ∈ C, u < g.n) ∧ g.abs.vol C.toFinset ≤ 100 * target ∧
      ((∀ u ∈ C, g.abs.w u u = 0) →
        conductance (diskLocal F file hist) (C.map (fun v : Nat => (v : Int))) =
          .ok (g.abs.cond C.toFinset)) := by
  have hA := diskLocal_answers F hv hpr h0 hn hp hs hist
  obtain ⟨N, hN⟩ := C37_local_cluster hA hpr.nonneg ht (v := v) hvn
  refine ⟨N, fun fuel hf => ?_⟩
  obtain ⟨C, p, r, h1, _, h3, h4, h5⟩ := hN fuel hf
  exact ⟨C, h1, h3, fun u hu => (h4 u hu).1, h5,
    C33_conductance hA.toAnswers (fun u hu => (h4 u hu).1) h3⟩

end
end Stag
