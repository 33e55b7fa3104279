import Verif.Props.Special
import Verif.Props.GraphOps

/-!
# C91, continued: histories, equality, arithmetic, files, the Laplacian round trip
-/

set_option linter.unusedSectionVars false

namespace Stag

open Graph XReal

section
variable {K : Type} [Field K] [LinearOrder K] [IsStrictOrderedRing K]

/-- What a call does to a weighted graph, the weights being added as IEEE numbers; a self-loop is added twice. -/
def WGraph.stepX (s : WGraph (XReal K)) : GOp (XReal K) → WGraph (XReal K)
  | .add i j x =>
    ⟨max s.n (max i j + 1), fun a b => if (a = i ∧ b = j) ∨ (a = j ∧ b = i) then
      s.w a b + (if i = j then x + x else x) else s.w a b⟩
  | .remove i j =>
    if i < s.n ∧ j < s.n then ⟨s.n, fun a b => if (a = i ∧ b = j) ∨ (a = j ∧ b = i) then .fin 0 else s.w a b⟩ else s

theorem addEdgeX_spec {g : Graph (XReal K)} (hv : g.ValidX) (i j : Nat) (x : XReal K) :
    (g.addEdgeX i j x).ValidX ∧ (g.addEdgeX i j x).absX = g.absX.stepX (.add i j x) := by
  obtain ⟨n, hn⟩ : ∃ n, n = max g.n (max i j + 1) := ⟨_, rfl⟩
  have hr : g.adj.rows ≤ n := by rw [hv.rows]; omega
  have hc : g.adj.cols ≤ n := by rw [hv.cols]; omega
  have w0 : (g.adj.conservativeResize n n).WF := SprsMat.wf_conservativeResize hv.wf n n
  have c0 : ∀ a b, (g.adj.conservativeResize n n).coeff a b = g.adj.coeff a b :=
    SprsMat.coeff_conservativeResize hv.wf hr hc
  obtain ⟨a0, ha0⟩ : ∃ a, a = g.adj.conservativeResize n n := ⟨_, rfl⟩
  have r0 : a0.rows = n := by rw [ha0]; rfl
  have k0 : a0.cols = n := by rw [ha0]; rfl
  rw [← ha0] at w0 c0
  have w1 : (a0.update i j (· + x)).WF := SprsMat.wf_update w0 (by omega) _
  have w2 : ((a0.update i j (· + x)).update j i (· + x)).WF :=
    SprsMat.wf_update w1 (by simp only [SprsMat.rows_update]; omega) _
  have c2 : ∀ a b, ((a0.update i j (· + x)).update j i (· + x)).coeff a b =
      if (a = i ∧ b = j) ∨ (a = j ∧ b = i) then g.adj.coeff a b + (if i = j then x + x else x) else g.adj.coeff a b := by
    intro a b
    rw [SprsMat.coeff_update w1 (by simp only [SprsMat.cols_update]; omega),
      SprsMat.coeff_update w0 (by omega), SprsMat.coeff_update w0 (by omega), c0, c0, c0]
    by_cases hij : i = j
    · subst hij
      by_cases h : a = i ∧ b = i
      · obtain ⟨rfl, rfl⟩ := h
        simp only [and_self, if_true, or_self]
        exact add_assoc _ _ _
      · simp [h]
    · by_cases h1 : a = i ∧ b = j
      · obtain ⟨rfl, rfl⟩ := h1
        have : ¬ (b = a) := fun h => hij h.symm
        simp [hij, this]
      · by_cases h2 : a = j ∧ b = i
        · obtain ⟨rfl, rfl⟩ := h2
          have : ¬ (b = a) := fun h => hij h
          simp [hij, this]
        · simp [h1, h2]
  have hg : g.addEdgeX i j x =
      ⟨n, (a0.update i j (· + x)).update j i (· + x), if i = j then true else g.selfLoops⟩ := by
    rw [ha0, hn]; rfl
  rw [hg]
  refine ⟨⟨w2, r0, k0, fun a b => ?_⟩, ?_⟩
  · change SprsMat.coeff _ a b = SprsMat.coeff _ b a
    rw [c2, c2, hv.symm a b]
    congr 1
    simp only [eq_iff_iff]
    tauto
  · ext a b
    · change n = max g.n (max i j + 1)
      exact hn
    · exact c2 a b

theorem eq_zero_false_iff {x : XReal K} : x.eq (.fin 0) = true ↔ x = 0 := by
  cases x <;> simp [XReal.eq, XReal.zero_def]

theorem removeEdgeX_spec {g : Graph (XReal K)} (hv : g.ValidX) (i j : Nat) :
    (g.removeEdgeX i j).ValidX ∧ (g.removeEdgeX i j).absX = g.absX.stepX (.remove i j) := by
  by_cases hij : g.n ≤ i ∨ g.n ≤ j
  · have h1 : g.removeEdgeX i j = g := by unfold removeEdgeX; rw [if_pos hij]
    have h2 : g.absX.stepX (.remove i j) = g.absX := by
      have : ¬ (i < g.absX.n ∧ j < g.absX.n) := by
        change ¬ (i < g.n ∧ j < g.n); omega
      change (if i < g.absX.n ∧ j < g.absX.n then _ else g.absX) = _
      rw [if_neg this]
    rw [h1, h2]
    exact ⟨hv, rfl⟩
  · have w1 : (g.adj.update i j (fun _ => XReal.fin 0)).WF := SprsMat.wf_update hv.wf (by rw [hv.rows]; omega) _
    have w2 : ((g.adj.update i j (fun _ => XReal.fin 0)).update j i (fun _ => XReal.fin 0)).WF :=
      SprsMat.wf_update w1 (by simp only [SprsMat.rows_update]; rw [hv.rows]; omega) _
    have c3 : ∀ a b, (((g.adj.update i j (fun _ => XReal.fin 0)).update j i (fun _ => XReal.fin 0)).prune
        (fun v => !v.eq (.fin 0))).coeff a b =
        if (a = i ∧ b = j) ∨ (a = j ∧ b = i) then .fin 0 else g.adj.coeff a b := by
      intro a b
      rw [SprsMat.coeff_prune w2, SprsMat.coeff_update w1 (by simp only [SprsMat.cols_update]; rw [hv.cols]; omega),
        SprsMat.coeff_update hv.wf (by rw [hv.cols]; omega)]
      have key : ∀ y : XReal K, (if (!y.eq (.fin 0)) = true then y else 0) = y := by
        intro y
        by_cases hy : y.eq (.fin 0) = true
        · rw [if_neg (by simp [hy]), eq_zero_false_iff.1 hy]
        · rw [if_pos (by simpa using hy)]
      rw [key]
      by_cases h1 : a = i ∧ b = j <;> by_cases h2 : a = j ∧ b = i <;> simp [h1, h2]
    have hg : (g.removeEdgeX i j).adj = ((g.adj.update i j (fun _ => XReal.fin 0)).update j i (fun _ => XReal.fin 0)).prune
        (fun v => !v.eq (.fin 0)) := by unfold removeEdgeX; rw [if_neg hij]
    have hn : (g.removeEdgeX i j).n = g.n := by unfold removeEdgeX; rw [if_neg hij]
    have hstep : g.absX.stepX (.remove i j) =
        ⟨g.n, fun a b => if (a = i ∧ b = j) ∨ (a = j ∧ b = i) then .fin 0 else g.adj.coeff a b⟩ := by
      change (if i < g.absX.n ∧ j < g.absX.n then _ else g.absX) = _
      rw [if_pos (by change i < g.n ∧ j < g.n; omega)]
      rfl
    refine ⟨⟨?_, ?_, ?_, fun a b => ?_⟩, ?_⟩
    · rw [hg]; exact SprsMat.wf_prune w2 _
    · rw [hg, hn]; exact hv.rows
    · rw [hg, hn]; exact hv.cols
    · rw [hg, c3, c3, hv.symm a b]
      congr 1
      simp only [eq_iff_iff]
      tauto
    · rw [hstep]
      ext a b
      · exact hn
      · change (g.removeEdgeX i j).adj.coeff a b = _
        rw [hg, c3]

/-- **C91** (histories).  Any history of `add_edge` and `remove_edge` with arbitrary weights (infinities and NaN included) does
to the graph object what it does to the weighted graph, the weights being added as IEEE numbers. -/
theorem C91_history {g : Graph (XReal K)} (hv : g.ValidX) (ops : List (GOp (XReal K))) :
    (ops.foldl Graph.stepX g).ValidX ∧ (ops.foldl Graph.stepX g).absX = ops.foldl WGraph.stepX g.absX := by
  induction ops generalizing g with
  | nil => exact ⟨hv, rfl⟩
  | cons op ops ih =>
    have h1 : (g.stepX op).ValidX ∧ (g.stepX op).absX = g.absX.stepX op := by
      cases op with
      | add i j x => exact addEdgeX_spec hv i j x
      | remove i j => exact removeEdgeX_spec hv i j
    obtain ⟨h2, h3⟩ := ih h1.1
    rw [List.foldl_cons, List.foldl_cons, ← h1.2]
    exact ⟨h2, h3⟩

/-- **C91** (NaN stays).  Once the weight of an edge is NaN it stays NaN whatever is added to it, and the degree of its ends is
NaN, until the edge is removed; then the weight is 0. -/
theorem C91_nan_stays {g : Graph (XReal K)} (hv : g.ValidX) {u v : Nat} (hun : u < g.n) (hvn : v < g.n)
    (h : g.absX.w u v = .nan) (ops : List (GOp (XReal K)))
    (hops : ∀ i j, GOp.remove i j ∈ ops → ¬ ((i = u ∧ j = v) ∨ (i = v ∧ j = u))) :
    (ops.foldl Graph.stepX g).absX.w u v = .nan ∧ (ops.foldl Graph.stepX g).degreeX u = .nan ∧
    ((ops.foldl Graph.stepX g).removeEdgeX u v).absX.w u v = .fin 0 := by
  have key : ∀ (ops : List (GOp (XReal K))) (s : WGraph (XReal K)), s.w u v = .nan → u < s.n → v < s.n →
      (∀ i j, GOp.remove i j ∈ ops → ¬ ((i = u ∧ j = v) ∨ (i = v ∧ j = u))) →
      (ops.foldl WGraph.stepX s).w u v = .nan ∧ u < (ops.foldl WGraph.stepX s).n ∧ v < (ops.foldl WGraph.stepX s).n := by
    intro ops
    induction ops with
    | nil => intro s h1 h2 h3 _; exact ⟨h1, h2, h3⟩
    | cons op ops ih =>
      intro s h1 h2 h3 h4
      rw [List.foldl_cons]
      refine ih _ ?_ ?_ ?_ (fun i j hm => h4 i j (List.mem_cons_of_mem _ hm))
      · cases op with
        | add i j x =>
          change (if (u = i ∧ v = j) ∨ (u = j ∧ v = i) then _ else _) = _
          rw [h1]
          split_ifs <;> first | rfl | exact nan_add _
        | remove i j =>
          have := h4 i j (by simp)
          change (if i < s.n ∧ j < s.n then _ else s : WGraph (XReal K)).w u v = _
          by_cases hc : i < s.n ∧ j < s.n
          · rw [if_pos hc]
            change (if (u = i ∧ v = j) ∨ (u = j ∧ v = i) then _ else _) = _
            rw [if_neg (by omega), h1]
          · rw [if_neg hc, h1]
      · cases op with
        | add i j x => change u < max s.n _; omega
        | remove i j =>
          change u < (if i < s.n ∧ j < s.n then _ else s : WGraph (XReal K)).n
          split_ifs <;> exact h2
      · cases op with
        | add i j x => change v < max s.n _; omega
        | remove i j =>
          change v < (if i < s.n ∧ j < s.n then _ else s : WGraph (XReal K)).n
          split_ifs <;> exact h3
  obtain ⟨hv', ha⟩ := C91_history hv ops
  obtain ⟨k1, k2, k3⟩ := key ops g.absX h hun hvn hops
  rw [← ha] at k1 k2 k3
  refine ⟨k1, ?_, ?_⟩
  · rw [degreeX_eq hv']
    have : ∑ x ∈ Finset.range (ops.foldl Graph.stepX g).n, (ops.foldl Graph.stepX g).adj.coeff u x = .nan := by
      rw [← Finset.add_sum_erase _ _ (Finset.mem_range.2 (show v < (ops.foldl Graph.stepX g).n from k3))]
      rw [show (ops.foldl Graph.stepX g).adj.coeff u v = .nan from k1]
      exact nan_add _
    rw [this]
    exact nan_add _
  · rw [(removeEdgeX_spec hv' u v).2]
    change (if _ ∧ _ then _ else _ : WGraph (XReal K)).w u v = _
    rw [if_pos ⟨k2, k3⟩]
    exact if_pos (Or.inl ⟨rfl, rfl⟩)

/-! ## Equality -/

theorem eqVec_iff (l l' : List (XReal K)) : eqVec l l' = true ↔ l = l' ∧ .nan ∉ l := by
  induction l generalizing l' with
  | nil => cases l' <;> simp [eqVec]
  | cons a l ih =>
    cases l' with
    | nil => simp [eqVec]
    | cons b l' =>
      simp only [eqVec, Bool.and_eq_true, ih, List.cons.injEq, List.mem_cons, not_or]
      by_cases ha : a = .nan
      · subst ha; simp [XReal.eq]
      · rw [XReal.eq_iff ha]
        constructor
        · rintro ⟨rfl, rfl, h⟩; exact ⟨⟨rfl, rfl⟩, fun h => ha h.symm, h⟩
        · rintro ⟨⟨rfl, rfl⟩, _, h⟩; exact ⟨rfl, rfl, h⟩

theorem mem_values_iff {m : SprsMat (XReal K)} (h : m.WF) {x : XReal K} (hx : x ≠ 0) :
    x ∈ m.values ↔ ∃ i j, m.coeff i j = x := by
  unfold SprsMat.values
  rw [List.mem_flatMap]
  constructor
  · rintro ⟨c, hc, hx⟩
    obtain ⟨j, hj, rfl⟩ := List.getElem_of_mem hc
    obtain ⟨e, he, rfl⟩ := List.mem_map.1 hx
    have hcol : m.col j = m.data[j] := by
      unfold SprsMat.col
      simp [List.getD_eq_getElem?_getD, hj]
    exact ⟨e.1, j, Col.coeff_eq_of_mem (h.sorted j) (by rw [hcol]; exact he)⟩
  · rintro ⟨i, j, hc⟩
    have hm : (i, m.coeff i j) ∈ m.col j := Col.mem_of_coeff_ne_zero (by rw [← hc] at hx; exact hx)
    have hj : j < m.data.length := by
      by_contra hj
      rw [h.col_nil (by rw [← h.1]; omega)] at hm
      simp at hm
    have hcol : m.col j = m.data[j] := by
      unfold SprsMat.col
      simp [List.getD_eq_getElem?_getD, hj]
    refine ⟨m.data[j], List.getElem_mem hj, List.mem_map.2 ⟨_, by rw [← hcol]; exact hm, hc⟩⟩

/-- **C91** (equality).  A graph with a NaN weight differs from every graph, itself included; two graphs without NaN weights and
without stored zeros are equal exactly if they have the same vertices and weights. -/
theorem C91_equality {g h : Graph (XReal K)} (hg : g.ValidX) (hh : h.ValidX) :
    ((∃ u v, g.absX.w u v = .nan) → g.beqX h = false) ∧
    ((∀ u v, g.absX.w u v ≠ .nan) → g.beqX g = true) ∧
    (g.adj.NoZeros → h.adj.NoZeros → (∀ u v, g.absX.w u v ≠ .nan) → (g.beqX h = true ↔ g.absX = h.absX)) := by
  have hnz : (XReal.nan : XReal K) ≠ 0 := by rw [XReal.zero_def]; simp
  have hnan : .nan ∈ g.adj.values ↔ ∃ u v, g.absX.w u v = .nan := mem_values_iff hg.wf hnz
  have hb : ∀ k : Graph (XReal K), k.ValidX → (g.beqX k = true ↔ g.adj = k.adj ∧ .nan ∉ g.adj.values) := by
    intro k hk
    unfold beqX
    simp only [Bool.and_eq_true, decide_eq_true_eq, eqVec_iff]
    constructor
    · rintro ⟨⟨h1, h2⟩, h3, h4⟩
      have e1 := SprsMat.fromVectors_toVectors g.adj (by rw [hg.rows, hg.cols]) hg.wf.1
      have e2 := SprsMat.fromVectors_toVectors k.adj (by rw [hk.rows, hk.cols]) hk.wf.1
      rw [h1, h2, h3, e2] at e1
      exact ⟨(Outcome.ok.inj e1).symm, h4⟩
    · rintro ⟨h1, h2⟩
      rw [h1]
      exact ⟨⟨rfl, rfl⟩, rfl, by rw [← h1]; exact h2⟩
  refine ⟨fun hc => ?_, fun hc => ?_, fun zg zh hc => ?_⟩
  · rw [← Bool.not_eq_true, hb h hh]
    exact fun h1 => h1.2 (hnan.2 hc)
  · rw [hb g hg]
    refine ⟨rfl, fun h1 => ?_⟩
    obtain ⟨u, v, h2⟩ := hnan.1 h1
    exact hc u v h2
  · rw [hb h hh]
    constructor
    · rintro ⟨he, _⟩
      have : g.n = h.n := by rw [← hg.cols, ← hh.cols, he]
      unfold absX
      rw [he, this]
    · intro he
      have hn : g.n = h.n := congrArg WGraph.n he
      have hw : ∀ i j, g.adj.coeff i j = h.adj.coeff i j :=
        fun i j => congrFun (congrFun (congrArg WGraph.w he) i) j
      refine ⟨SprsMat.ext_coeff hg.wf hh.wf zg zh (by rw [hg.rows, hh.rows, hn]) (by rw [hg.cols, hh.cols, hn]) hw, ?_⟩
      intro h1
      obtain ⟨u, v, h2⟩ := hnan.1 h1
      exact hc u v h2

/-! ## Sum and scalar multiple -/

theorem not_lt_zero_of_nonneg {x : XReal K} (h : XReal.Nonneg x) : x.lt (.fin 0) = false := by
  rcases h with rfl | ⟨a, ha, rfl⟩
  · rfl
  · simpa [XReal.lt] using ha

theorem IsWeightX.add {x y : XReal K} (hx : IsWeightX x) (hy : IsWeightX y) : IsWeightX (x + y) := by
  have e := epsilon_pos (K := K)
  rcases hx with rfl | ⟨a, rfl, ha⟩ <;> rcases hy with rfl | ⟨b, rfl, hb⟩
  · exact Or.inl rfl
  · exact Or.inl rfl
  · exact Or.inl rfl
  · refine Or.inr ⟨a + b, rfl, ?_⟩
    rcases ha with rfl | ha <;> rcases hb with rfl | hb
    · left; ring
    · right; linarith
    · right; linarith
    · right; linarith

/-- **C91** (sum).  Two graphs built by the constructor on the same number of vertices have a sum, with the sums of their
weights; infinite edges stay infinite. -/
theorem C91_sum {m m' : SprsMat (XReal K)} (hm : m.WF) (hm' : m'.WF) {g h : Graph (XReal K)} (hg : ofMatrixX m = .ok g)
    (hh : ofMatrixX m' = .ok h) (hn : g.n = h.n) :
    ∃ k, g.addX h = .ok k ∧ k.absX = ⟨g.n, fun u v => g.absX.w u v + h.absX.w u v⟩ := by
  obtain ⟨vg, wg, _⟩ := ofMatrixX_ok hm hg
  obtain ⟨vh, wh, _⟩ := ofMatrixX_ok hm' hh
  have hco : ∀ i j, (SprsMat.zipWith (· + ·) g.adj h.adj).coeff i j = g.adj.coeff i j + h.adj.coeff i j :=
    SprsMat.coeff_zipWith vg.wf vh.wf (by rw [vg.cols, vh.cols, hn]) _ (by exact add_zero _)
  have hW : ∀ i j, IsWeightX (g.adj.coeff i j + h.adj.coeff i j) := fun i j => (wg i j).add (wh i j)
  have := (C91_adjacency (m := SprsMat.zipWith (· + ·) g.adj h.adj)
    (SprsMat.wf_zipWith vg.wf vh.wf (by rw [vg.rows, vh.rows, hn]) _) (by simp [SprsMat.zipWith, vg.rows, vg.cols])
    (fun i j => by rw [hco]; exact not_lt_zero_of_nonneg (.of_isWeightX (hW i j)))).1
    (fun i j => by rw [hco, hco, vg.symm, vh.symm])
  obtain ⟨k, h1, _, h3⟩ := this
  refine ⟨k, ?_, ?_⟩
  · unfold addX
    rw [if_neg (by simpa using hn)]
    exact h1
  · rw [h3]
    ext i j
    · change g.adj.cols = g.n
      exact vg.cols
    · change clean ((SprsMat.zipWith (· + ·) g.adj h.adj).coeff i j) = _
      rw [hco, clean_of_isWeightX (hW i j)]
      rfl

theorem coeff_mapVal_noZeros {m : SprsMat (XReal K)} (h : m.WF) (hz : m.NoZeros) (f : XReal K → XReal K) (i j : Nat) :
    (m.mapVal f).coeff i j = if m.coeff i j = 0 then 0 else f (m.coeff i j) := by
  have h1 : m.mapVal f = m.mapVal (fun v => if v = 0 then 0 else f v) := by
    unfold SprsMat.mapVal
    congr 1
    funext j
    unfold Col.mapVal
    apply List.map_congr_left
    intro e he
    simp only [hz j e he, if_false]
  rw [h1, SprsMat.coeff_mapVal h _ (by simp)]

/-- **C91** (scalar multiple).  A graph built by the constructor, multiplied by `c` that is not negative (possibly `inf` or
NaN), has the weights `c * w` that are above the pruning threshold; so `inf` times a finite weight is infinite, `0 * inf` and
NaN are no edges. -/
theorem C91_scale {m : SprsMat (XReal K)} (hm : m.WF) {g : Graph (XReal K)} (hg : ofMatrixX m = .ok g) (c : XReal K)
    (hc : c.lt (.fin 0) = false) :
    ∃ k, g.smulX c = .ok k ∧ k.absX = ⟨g.n, fun u v => clean (c * g.absX.w u v)⟩ := by
  obtain ⟨vg, wg, hp, _⟩ := ofMatrixX_ok hm hg
  have hz : g.adj.NoZeros := by
    intro j e he h0
    have := hp j e he
    rw [h0, XReal.zero_def] at this
    simp [XReal.lt, not_lt.2 epsilon_pos.le] at this
  have hco : ∀ i j, (g.adj.mapVal (fun v => c * v)).coeff i j =
      if g.adj.coeff i j = 0 then 0 else c * g.adj.coeff i j := coeff_mapVal_noZeros vg.wf hz _
  have hlt : ∀ w : XReal K, IsWeightX w → (c * w).lt (.fin 0) = false := by
    intro w hw
    have e := epsilon_pos (K := K)
    cases c with
    | fin c =>
      have hc0 : 0 ≤ c := by simpa [XReal.lt] using hc
      rcases hw with rfl | ⟨a, rfl, ha⟩
      · change (scaleInf c true).lt _ = _
        unfold scaleInf
        by_cases h0 : c = 0
        · rw [if_pos h0]; rfl
        · rw [if_neg h0, if_pos (by simpa using lt_of_le_of_ne hc0 (Ne.symm h0))]; rfl
      · change (XReal.fin (c * a)).lt _ = _
        have : 0 ≤ c * a := mul_nonneg hc0 (by rcases ha with rfl | ha; exact le_rfl; linarith)
        simpa [XReal.lt] using this
    | posInf =>
      rcases hw with rfl | ⟨a, rfl, ha⟩
      · rfl
      · change (scaleInf a true).lt _ = _
        unfold scaleInf
        by_cases h0 : a = 0
        · rw [if_pos h0]; rfl
        · have : 0 < a := by rcases ha with rfl | ha; exact absurd rfl h0; linarith
          rw [if_neg h0, if_pos (by simpa using this)]; rfl
    | negInf => simp [XReal.lt] at hc
    | nan => cases w <;> rfl
  have := (C91_adjacency (m := g.adj.mapVal (fun v => c * v)) (SprsMat.wf_mapVal vg.wf _)
    (by simp [SprsMat.mapVal, vg.rows, vg.cols])
    (fun i j => by
      rw [hco]
      by_cases h0 : g.adj.coeff i j = 0
      · rw [if_pos h0]; simp [XReal.lt, XReal.zero_def]
      · rw [if_neg h0]; exact hlt _ (wg i j))).1
    (fun i j => by rw [hco, hco, vg.symm])
  obtain ⟨k, h1, _, h3⟩ := this
  refine ⟨k, h1, ?_⟩
  rw [h3]
  ext i j
  · change g.adj.cols = g.n
    exact vg.cols
  · change clean ((g.adj.mapVal (fun v => c * v)).coeff i j) = clean (c * g.adj.coeff i j)
    rw [hco]
    by_cases h0 : g.adj.coeff i j = 0
    · rw [if_pos h0, h0]
      have e0 : clean (0 : XReal K) = 0 := clean_of_isWeightX (Or.inr ⟨0, rfl, Or.inl rfl⟩)
      rw [e0]
      cases c with
      | fin c =>
        change _ = clean (XReal.fin (c * 0))
        rw [mul_zero]
        exact e0.symm
      | posInf =>
        change _ = clean (scaleInf 0 true)
        unfold scaleInf
        rw [if_pos rfl]; rfl
      | negInf =>
        change _ = clean (scaleInf 0 false)
        unfold scaleInf
        rw [if_pos rfl]; rfl
      | nan => rfl
    · rw [if_neg h0]

end
end Stag
