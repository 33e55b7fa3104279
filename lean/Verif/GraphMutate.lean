import Verif.GraphLemmas
import Verif.Spec.WGraph

/-! Histories of mutating calls on the `Graph` model, and their helper lemmas. -/

set_option linter.unusedSectionVars false
set_option linter.unusedSimpArgs false

namespace Stag
namespace Graph
variable {K : Type} [Field K] [LinearOrder K]

/-- One mutating call (`add_edge`, `remove_edge`; `stag_lib/graph.cpp:231-282`). -/
def step (g : Graph K) : GOp K → Outcome (Graph K)
  | .add i j x => g.addEdge i j x
  | .remove i j => g.removeEdge i j

/-- A history of mutating calls. -/
def run (g : Graph K) : List (GOp K) → Outcome (Graph K)
  | [] => .ok g
  | op :: ops => do
    let g' ← g.step op
    run g' ops

/-- The abstract graph a `Graph` object represents: what `number_of_vertices()` and
`adjacency()->coeff(u, v)` report. -/
def abs (g : Graph K) : WGraph K := ⟨g.n, fun i j => g.adj.coeff i j⟩

/-- A graph obtained from the matrix constructor by any history of mutating calls. -/
def Reachable (g : Graph K) : Prop :=
  ∃ (m : SprsMat K) (g₀ : Graph K) (ops : List (GOp K)),
    m.WF ∧ ofMatrix m = .ok g₀ ∧ g₀.run ops = .ok g

theorem addEdge_spec {g : Graph K} (hv : g.Valid) (i j : Nat) (x : K) :
    ∃ g', g.addEdge i j x = .ok g' ∧ g'.Valid ∧ g'.abs = g.abs.addEdge i j x ∧
      g'.selfLoops = (if i = j then true else g.selfLoops) ∧
      (∀ a b, (∃ v, (a, v) ∈ g'.adj.col b) ↔
        (∃ v, (a, v) ∈ g.adj.col b) ∨ (a = i ∧ b = j) ∨ (a = j ∧ b = i)) := by
  set n := max g.n (max i j + 1) with hn
  have hr : g.adj.rows ≤ n := by rw [hv.rows]; omega
  have hc : g.adj.cols ≤ n := by rw [hv.cols]; omega
  set a0 := g.adj.conservativeResize n n with ha0
  have w0 : a0.WF := SprsMat.wf_conservativeResize hv.wf n n
  have c0 : ∀ a b, a0.coeff a b = g.adj.coeff a b :=
    SprsMat.coeff_conservativeResize hv.wf hr hc
  have col0 : ∀ b, a0.col b = g.adj.col b := SprsMat.col_conservativeResize hv.wf hr hc
  have r0 : a0.rows = n := rfl
  have k0 : a0.cols = n := rfl
  set a1 := a0.update i j (· + x) with ha1
  have w1 : a1.WF := SprsMat.wf_update w0 (by omega) _
  set a2 := a1.update j i (· + x) with ha2
  have w2 : a2.WF := SprsMat.wf_update w1 (by simp only [ha1, SprsMat.rows_update]; omega) _
  have c2 : ∀ a b, a2.coeff a b = if (a = i ∧ b = j) ∨ (a = j ∧ b = i) then
      g.adj.coeff a b + (if i = j then 2 * x else x) else g.adj.coeff a b := by
    intro a b
    rw [ha2, SprsMat.coeff_update w1 (by simp only [ha1, SprsMat.cols_update]; omega), ha1,
      SprsMat.coeff_update w0 (by omega), SprsMat.coeff_update w0 (by omega), c0, c0, c0]
    by_cases hij : i = j
    · subst hij
      by_cases h : a = i ∧ b = i
      · obtain ⟨rfl, rfl⟩ := h; simp; ring
      · simp [h]
    · by_cases h1 : a = i ∧ b = j
      · obtain ⟨rfl, rfl⟩ := h1
        have : ¬ (b = a) := fun h => hij h.symm
        simp [hij, this]
      · by_cases h2 : a = j ∧ b = i
        · obtain ⟨rfl, rfl⟩ := h2
          have : ¬ (b = a) := fun h => hij h
          simp [hij, this]
        · simp [h1, h2]
  refine ⟨⟨n, a2, if i = j then true else g.selfLoops⟩, ?_, ?_, ?_, rfl, ?_⟩
  · unfold addEdge
    rw [if_neg (by omega)]
    simp only [Int.toNat_natCast]
    rfl
  · refine ⟨w2, rfl, rfl, fun a b => ?_⟩
    simp only
    rw [c2, c2, hv.symm a b]
    congr 1
    simp only [eq_iff_iff]
    tauto
  · ext
    · rfl
    · simp only [abs, WGraph.addEdge, c2]
  · intro a b
    simp only
    rw [ha2, SprsMat.col_update w1 (by simp only [ha1, SprsMat.cols_update]; omega), ha1]
    have e1 : ∀ b, (a0.update i j (· + x)).col b =
        if b = j then (g.adj.col b).update i (· + x) else g.adj.col b := by
      intro b; rw [SprsMat.col_update w0 (by omega), col0]
    rw [e1]
    by_cases hbi : b = i
    · rw [if_pos hbi, Col.exists_mem_update]
      by_cases hbj : b = j
      · rw [if_pos hbj, Col.exists_mem_update]
        subst hbi
        tauto
      · rw [if_neg hbj]
        tauto
    · rw [if_neg hbi]
      by_cases hbj : b = j
      · rw [if_pos hbj, Col.exists_mem_update]
        tauto
      · rw [if_neg hbj]
        tauto

theorem removeEdge_spec {g : Graph K} (hv : g.Valid) (i j : Nat) :
    ∃ g', g.removeEdge i j = .ok g' ∧ g'.Valid ∧ g'.abs = g.abs.removeEdge i j ∧
      (¬ (i < g.n ∧ j < g.n) → g' = g) ∧
      (i < g.n ∧ j < g.n →
        g'.selfLoops = (if i = j then anySelfLoop g'.n g'.adj else g.selfLoops) ∧
        g'.adj.NoZeros ∧
        ∀ b, ∀ e ∈ g'.adj.col b, e ∈ g.adj.col b) := by
  by_cases hij : i < g.n ∧ j < g.n
  · set a1 := g.adj.update i j (fun _ => 0) with ha1
    have w1 : a1.WF := SprsMat.wf_update hv.wf (by rw [hv.rows]; omega) _
    set a2 := a1.update j i (fun _ => 0) with ha2
    have w2 : a2.WF := SprsMat.wf_update w1
      (by simp only [ha1, SprsMat.rows_update]; rw [hv.rows]; omega) _
    set a3 := a2.prune (fun v => decide (v ≠ 0)) with ha3
    have w3 : a3.WF := SprsMat.wf_prune w2 _
    have c2 : ∀ a b, a2.coeff a b = if (a = i ∧ b = j) ∨ (a = j ∧ b = i) then 0
        else g.adj.coeff a b := by
      intro a b
      rw [ha2, SprsMat.coeff_update w1 (by simp only [ha1, SprsMat.cols_update]; rw [hv.cols]; omega),
        ha1, SprsMat.coeff_update hv.wf (by rw [hv.cols]; omega)]
      by_cases h1 : a = i ∧ b = j <;> by_cases h2 : a = j ∧ b = i <;> simp [h1, h2]
    have c3 : ∀ a b, a3.coeff a b = if (a = i ∧ b = j) ∨ (a = j ∧ b = i) then 0
        else g.adj.coeff a b := by
      intro a b
      rw [ha3, SprsMat.coeff_prune w2, c2]
      by_cases h : (a = i ∧ b = j) ∨ (a = j ∧ b = i)
      · simp [h]
      · simp only [h, if_false]
        by_cases h0 : g.adj.coeff a b = 0 <;> simp [h0]
    refine ⟨⟨g.n, a3, if i = j then anySelfLoop g.n a3 else g.selfLoops⟩, ?_, ?_, ?_,
      fun h => absurd hij h, fun _ => ⟨rfl, ?_, ?_⟩⟩
    · unfold removeEdge
      rw [if_neg (by omega), if_neg (by omega)]
      simp only [Int.toNat_natCast]
      rfl
    · refine ⟨w3, hv.rows, hv.cols, fun a b => ?_⟩
      simp only
      rw [c3, c3, hv.symm a b]
      congr 1
      simp only [eq_iff_iff]
      tauto
    · ext
      · simp [abs, WGraph.removeEdge, hij]
      · simp [abs, WGraph.removeEdge, hij, c3]
    · intro b e he
      simpa using (SprsMat.mem_col_prune w2 he).2
    · intro b e he
      obtain ⟨he, hz⟩ := SprsMat.mem_col_prune w2 he
      have hz : e.2 ≠ 0 := by simpa using hz
      have h1 : a2.coeff e.1 b = e.2 := Col.coeff_eq_of_mem (w2.sorted b) he
      rw [c2] at h1
      split_ifs at h1 with h
      · exact absurd h1.symm hz
      · have := Col.mem_of_coeff_ne_zero (c := g.adj.col b) (i := e.1)
          (by change g.adj.coeff e.1 b ≠ 0; rw [h1]; exact hz)
        change (e.1, g.adj.coeff e.1 b) ∈ _ at this
        rwa [h1] at this
  · refine ⟨g, ?_, hv, ?_, fun _ => rfl, fun h => absurd h hij⟩
    · unfold removeEdge
      rw [if_pos (by omega)]
    · simp [WGraph.removeEdge, abs, hij]

theorem step_spec {g : Graph K} (hv : g.Valid) (op : GOp K) :
    ∃ g', g.step op = .ok g' ∧ g'.Valid ∧ g'.abs = g.abs.step op := by
  cases op with
  | add i j x =>
    obtain ⟨g', h1, h2, h3, _⟩ := addEdge_spec hv i j x
    exact ⟨g', h1, h2, h3⟩
  | remove i j =>
    obtain ⟨g', h1, h2, h3, _⟩ := removeEdge_spec hv i j
    exact ⟨g', h1, h2, h3⟩

theorem run_spec (ops : List (GOp K)) {g : Graph K} (hv : g.Valid) :
    ∃ g', g.run ops = .ok g' ∧ g'.Valid ∧ g'.abs = g.abs.run ops := by
  induction ops generalizing g with
  | nil => exact ⟨g, rfl, hv, rfl⟩
  | cons op ops ih =>
    obtain ⟨g1, h1, h2, h3⟩ := step_spec hv op
    obtain ⟨g2, h4, h5, h6⟩ := ih h2
    refine ⟨g2, ?_, h5, ?_⟩
    · simp only [run, h1, Outcome.bind_ok, h4]
    · rw [h6, h3]; rfl

/-- Induction principle for histories. -/
theorem run_induct {P : Graph K → Prop} (ops : List (GOp K)) {g g' : Graph K}
    (h0 : P g) (hrun : g.run ops = .ok g')
    (hstep : ∀ a op b, op ∈ ops → P a → a.step op = .ok b → P b) : P g' := by
  induction ops generalizing g with
  | nil => cases hrun; exact h0
  | cons op ops ih =>
    simp only [run, Outcome.bind_eq_ok] at hrun
    obtain ⟨g1, h1, h2⟩ := hrun
    exact ih (hstep _ op _ (by simp) h0 h1) h2
      (fun a o b ho => hstep a o b (by simp [ho]))

theorem Reachable.valid {g : Graph K} (h : g.Reachable) : g.Valid := by
  obtain ⟨m, g0, ops, hm, h0, hr⟩ := h
  obtain ⟨g', h1, h2, _⟩ := run_spec ops (ofMatrix_ok hm h0).1
  rw [h1] at hr
  cases hr
  exact h2

end Graph
end Stag
