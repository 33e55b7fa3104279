import Verif.Props.IeeeLocal

/-!
# C114 on disk

`local_cluster` and `conductance` on an `AdjacencyListLocalGraph` meet neither underflow nor overflow.
-/

set_option linter.unusedSectionVars false

namespace Stag

open Finset

set_option exponentiation.threshold 2000

/-! ## Only vertices that are natural numbers are asked for -/

section
variable {K : Type} [Field K] [LinearOrder K] {lg : LGraph K} {deg' : Int → Outcome K}

theorem degrees_congr_ieee (h : ∀ v : Nat, deg' (v : Int) = lg.degree (v : Int)) :
    ({ lg with degree := deg' } : LGraph K).degrees = lg.degrees := by
  have : (fun v : Nat => deg' (v : Int)) = fun v : Nat => lg.degree (v : Int) := funext h
  funext vs
  unfold LGraph.degrees
  exact congrArg (fun f => Outcome.mapM' f vs) this

theorem sweepLoopFl_congr (fl : K → K) (total : K) : ∀ (vs : List Nat) (ds : List K) (s : SweepState K),
    sweepLoopFl fl { lg with degree := deg' } total vs ds s = sweepLoopFl fl lg total vs ds s := by
  intro vs
  induction vs with
  | nil => intro ds s; rfl
  | cons v vs ih =>
    intro ds s
    cases ds with
    | nil => rfl
    | cons d ds =>
      unfold sweepLoopFl
      simp only [ih]
      rfl

theorem sweepNormalisedFl_congr (fl : K → K) (h : ∀ v : Nat, deg' (v : Int) = lg.degree (v : Int)) (p : SVec K) :
    sweepNormalisedFl fl { lg with degree := deg' } p = sweepNormalisedFl fl lg p := by
  unfold sweepNormalisedFl sweepSetLocalFl sweepInnerFl
  simp only [degrees_congr_ieee h, sweepLoopFl_congr]

theorem aprLoopFl_congr (fl : K → K) (h : ∀ v : Nat, deg' (v : Int) = lg.degree (v : Int)) (α ε : K) (fuel : Nat) :
    ∀ st : AprState K, aprLoopFl fl { lg with degree := deg' } α ε fuel st = aprLoopFl fl lg α ε fuel st := by
  have hstep : ∀ st u rest, aprStepFl fl { lg with degree := deg' } α ε st u rest = aprStepFl fl lg α ε st u rest := by
    intro st u rest
    unfold aprStepFl pushFl
    simp only [degrees_congr_ieee h, h]
  induction fuel with
  | zero =>
    intro st
    obtain ⟨p, r, q, m⟩ := st
    cases q <;> simp only [aprLoopFl]
  | succ fuel ih =>
    intro st
    obtain ⟨p, r, q, m⟩ := st
    cases q with
    | nil => simp only [aprLoopFl]
    | cons u rest => simp only [aprLoopFl, hstep, ih]

theorem localClusterFl_congr (fl : K → K) (h : ∀ v : Nat, deg' (v : Int) = lg.degree (v : Int)) (fuel : Nat) (seed : Int)
    (target : K) : localClusterFl fl { lg with degree := deg' } fuel seed target = localClusterFl fl lg fuel seed target := by
  unfold localClusterFl localClusterAclFl approximatePagerankFl aprInitFl
  simp only [degrees_congr_ieee h, aprLoopFl_congr fl h, sweepNormalisedFl_congr fl h]

theorem conductanceFl_congr (fl : K → K) (cluster : List Int) :
    conductanceFl fl { lg with degree := deg' } cluster = conductanceFl fl lg cluster := by
  have : ∀ (vs : List Int) (s : K × K), condLoopFl fl { lg with degree := deg' } cluster vs s = condLoopFl fl lg cluster vs s := by
    intro vs
    induction vs with
    | nil => intro s; rfl
    | cons v vs ih =>
      intro s
      unfold condLoopFl
      simp only [ih]
  unfold conductanceFl
  rw [this]

end

section

variable {F : Fmt ℝ} {g : Graph ℝ} {file : Str} {hist : Int → List LocalQuery}

/-- What an object on the file of a saved graph answers to `neighbors`. -/
theorem disk_neighbors (hv : g.Valid) (hpr : g.Pruned) (h0 : 0 < g.n) (hn : g.n ≤ 2 ^ 31)
    (hp : ∀ j, ∀ e ∈ g.adj.col j, F.printable e.2) (hs : saveAdjacencylist F g = .ok file) (qs : List LocalQuery) (v : Nat) :
    (v < g.n ∧ ∃ es, g.neighbors (v : Int) = .ok es ∧ (localNeighbors F file (afterQueries F file qs) v).1 =
      some (.ok (es.map (fun e => ⟨(e.v1 : Int), (e.v2 : Int), e.w⟩)))) ∨
    (localNeighbors F file (afterQueries F file qs) v).1 = some (.throw .runtimeError) := by
  have h := C28_saved_graph F g hv hpr h0 hn hp hs qs
  by_cases hvn : v < g.n
  · obtain ⟨es, d, h1, h2, h3, h4⟩ := h.1 v hvn
    exact .inl ⟨hvn, es, h1, h3⟩
  · refine .inr (h.2.2 v (by omega) ?_)
    unfold Graph.vertexExists
    simp
    omega

theorem memory_edges (hv : g.Valid) (hw : ∀ u v, WFits (g.abs.w u v)) {v : Nat} (hvn : v < g.n)
    {es : List (Edge ℝ)} (h : g.neighbors (v : Int) = .ok es) :
    es.length ≤ ((range g.n).filter (fun u => g.abs.w v u ≠ 0)).card ∧ ∀ e ∈ es, WFits e.w := by
  obtain ⟨es', he', _, hnb⟩ := (Graph.asLocal_answers hv).nbrs v hvn
  change g.neighbors (v : Int) = _ at he'
  rw [h] at he'
  cases he'
  constructor
  · have := neighborList_card hnb
    rwa [List.length_map] at this
  · intro e he
    have := (hnb.2 e.v2 e.w).1 (List.mem_map.2 ⟨e, he, rfl⟩)
    rw [← this.2.1]
    exact hw v e.v2

theorem disk_degree_ieee (ovf : ℝ → ℝ) (hv : g.Valid) (hpr : g.Pruned) (h0 : 0 < g.n) (hn : g.n ≤ 2 ^ 31)
    (hp : ∀ j, ∀ e ∈ g.adj.col j, F.printable e.2) (hs : saveAdjacencylist F g = .ok file)
    (hw : ∀ u v, WFits (g.abs.w u v)) (v : Nat) :
    (diskLocalFl (flIEEE ovf) F file hist).degree (v : Int) = (diskLocalFl (flBin 53) F file hist).degree (v : Int) ∧
    ∀ d, (diskLocalFl (flBin 53) F file hist).degree (v : Int) = .ok d → Amount (-87) 153 1 d := by
  have hd : ∀ fl : ℝ → ℝ, (diskLocalFl fl F file hist).degree (v : Int) =
      answer (localDegreeFl fl F file (afterQueries F file (hist v)) v).1 := fun _ => rfl
  rw [hd, hd]
  unfold localDegreeFl
  rcases disk_neighbors hv hpr h0 hn hp hs (hist v) v with ⟨hvn, es, h1, h2⟩ | h2
  · obtain ⟨h3, h4⟩ := memory_edges hv hw hvn h1
    have h5 : es.length ≤ 2 ^ 31 := h3.trans (((card_filter_le _ _).trans (by rw [card_range])).trans hn)
    have hwe : ∀ e ∈ es.map (fun e => (⟨(e.v1 : Int), (e.v2 : Int), e.w⟩ : IEdge ℝ)), WFits e.w := by
      intro e he
      obtain ⟨e', he', rfl⟩ := List.mem_map.1 he
      exact h4 e' he'
    have h6 := degSumFl_ieee ovf (v : Int) _ hwe (k := 0) (Amount.zero 0) (by rw [List.length_map]; omega)
    simp only [h2, mapRes, answer]
    refine ⟨congrArg Outcome.ok h6.1, fun d hd => ?_⟩
    cases hd
    refine ⟨h6.2.1, ?_⟩
    rw [Nat.cast_one, one_mul]
    exact h6.2.le (by rw [List.length_map]; omega)
  · simp only [h2, mapRes, answer]
    exact ⟨trivial, fun d hd => by cases hd⟩

/-- **C114** (`local_cluster` and `conductance` on disk).  Let every weight of a saved graph be a `double` from `2^-34` to
`2^100` that the text represents exactly.  On an object opened on the file, whatever it was asked before, `local_cluster`
and `conductance` of the set that it returns compute in IEEE arithmetic exactly what they compute with unbounded exponents,
under the bound on the work of C113. -/
theorem C114_disk_local_cluster (ovf : ℝ → ℝ) (hv : g.Valid) (hpr : g.Pruned) (h0 : 0 < g.n) (hn : g.n ≤ 2 ^ 31)
    (hp : ∀ j, ∀ e ∈ g.adj.col j, F.printable e.2) (hs : saveAdjacencylist F g = .ok file)
    (hw : ∀ u v, WFits (g.abs.w u v)) (hl : ∀ v, g.abs.w v v = 0) {δ : ℝ} {L : Nat} (hδ : 0 < δ)
    (hmin : ∀ v, v < g.n → 0 < g.abs.deg v → δ ≤ g.abs.deg v)
    (hL : ∀ v, v < g.n → ((range g.n).filter (fun u => g.abs.w v u ≠ 0)).card ≤ L)
    {v : Nat} (hvn : v < g.n) {target : ℝ} {M : Nat} (htp : (2 : ℝ) ^ (-34 : Int) ≤ target) (htar2 : target ≤ 2 ^ 90)
    (hM : 201 * target ≤ M * δ) (hsize : M * (7 + 3 * L) + L + 2 ≤ 4 * 10 ^ 11) :
    (∀ fuel, localClusterFl (flIEEE ovf) (diskLocalFl (flIEEE ovf) F file hist) fuel v target =
      localClusterFl (flBin 53) (diskLocalFl (flBin 53) F file hist) fuel v target) ∧
    ∀ fuel C, localClusterFl (flBin 53) (diskLocalFl (flBin 53) F file hist) fuel v target = some (.ok C) →
      conductanceFl (flIEEE ovf) (diskLocalFl (flIEEE ovf) F file hist) (C.map (fun u : Nat => (u : Int))) =
        conductanceFl (flBin 53) (diskLocalFl (flBin 53) F file hist) (C.map (fun u : Nat => (u : Int))) := by
  have hdeg := fun u : Nat => disk_degree_ieee (hist := hist) ovf hv hpr h0 hn hp hs hw u
  have hlg : diskLocalFl (flIEEE ovf) F file hist =
      { diskLocalFl (flBin 53) F file hist with degree := (diskLocalFl (flIEEE ovf) F file hist).degree } := rfl
  have hnb : ∀ (u : Nat) es, (diskLocalFl (flBin 53) F file hist).neighbors (u : Int) = .ok es →
      es.length ≤ L ∧ es.length ≤ 2 ^ 52 ∧ ∀ e ∈ es, WFits e.w := by
    intro u es hes
    change (do
      let es ← answer (localNeighbors F file (afterQueries F file (hist u)) u).1
      Outcome.ok (es.map (fun e => (⟨e.v1.toNat, e.v2.toNat, e.w⟩ : Edge ℝ)))) = Outcome.ok es at hes
    rcases disk_neighbors hv hpr h0 hn hp hs (hist u) u with ⟨hun, es', h1, h2⟩ | h2
    · obtain ⟨h3, h4⟩ := memory_edges hv hw hun h1
      simp only [h2, answer, bind, Outcome.bind] at hes
      cases hes
      refine ⟨by simpa using h3.trans (hL u hun), ?_, ?_⟩
      · have h5 : es'.length ≤ 2 ^ 31 := h3.trans (((card_filter_le _ _).trans (by rw [card_range])).trans hn)
        rw [List.length_map, List.length_map]
        omega
      · intro e he
        obtain ⟨e1, he1, rfl⟩ := List.mem_map.1 he
        obtain ⟨e2, he2, rfl⟩ := List.mem_map.1 he1
        exact h4 e2 he2
    · simp only [h2, answer, bind, Outcome.bind] at hes
      cases hes
  obtain ⟨h1, h2⟩ := localCluster_ieee ovf (lg := diskLocalFl (flBin 53) F file hist)
    (C113_answers (R := KMeans.dbl ℝ) F hv hpr h0 hn hp hs hist)
    (fun u hun => (C113_degree (R := KMeans.dbl ℝ) F hv hpr h0 hn hp hs [] hun).2.mono
      (Nat.add_le_add_right (hL u hun) 1)) hpr.nonneg hl hδ hmin
    (fun α ε dα α1 ε0 ε1 => ⟨fun u => (hdeg u).2, fun u es hes => (hnb u es hes).2, dα, α1, ε0, ε1⟩)
    (fun u es hes => (hnb u es hes).1) hvn htp htar2 hM hsize
  rw [hlg]
  refine ⟨fun fuel => ?_, fun fuel C hC => ?_⟩
  · rw [localClusterFl_congr _ (fun u => (hdeg u).1)]
    exact h1 fuel
  · rw [conductanceFl_congr]
    exact h2 fuel C hC

theorem sixD_fits {w : ℝ} (h0 : 0 ≤ w) (h1 : epsilon < sixD w) (h2 : w ≤ 2 ^ 99) :
    WFits (sixD w) ∧ (2 : ℝ) ^ (-35 : Int) ≤ w := by
  have h3 := (abs_le.1 (sixD_err w)).2
  rw [abs_of_nonneg h0] at h3
  have h4 : (2 : ℝ) ^ (-34 : Int) ≤ epsilon := by
    unfold epsilon
    norm_num
  have h5 : 501 / 10 ^ 8 * w ≤ w := mul_le_of_le_one_left h0 (by norm_num)
  refine ⟨.inr ⟨flBin_isFloat (by norm_num) _, h4.trans h1.le, ?_⟩, ?_⟩
  · have e : (2 : ℝ) ^ (100 : Int) = 2 ^ 99 + 2 ^ 99 := by norm_num
    rw [e]
    linarith
  · have e : (2 : ℝ) ^ (-34 : Int) = 2 ^ (-35 : Int) + 2 ^ (-35 : Int) := by norm_num
    rw [e] at h4
    linarith

theorem stored_fits (hv : g.Valid) (hm : ∀ j, ∀ e ∈ g.adj.col j, e.2 ≤ 2 ^ 99)
    (he : ∀ j, ∀ e ∈ g.adj.col j, epsilon < sixD e.2) (u v : Nat) (h : g.abs.w u v ≠ 0) :
    WFits (sixD (g.abs.w u v)) ∧ (2 : ℝ) ^ (-35 : Int) ≤ g.abs.w u v := by
  have hmem : (u, g.adj.coeff u v) ∈ g.adj.col v := Col.mem_of_coeff_ne_zero h
  have h1 := he v _ hmem
  refine sixD_fits ?_ h1 (hm v _ hmem)
  by_contra hc
  have h2 := sixD_pos (x := -g.abs.w u v) (by linarith [not_le.1 hc])
  rw [sixD_neg] at h2
  have : (0 : ℝ) < epsilon := epsilon_pos
  have h3 : epsilon < sixD (g.abs.w u v) := h1
  linarith

/-- **C114** (local clustering on disk).  The guarantee of `C113_local_cluster` for the arithmetic of IEEE 754, whatever
becomes of a result that is too large: the weights are at most `2^99` and the target volume is at most `2^90`. -/
theorem C114_disk_graph (ovf : ℝ → ℝ) (hv : g.Valid) (hpr : g.Pruned) (h0 : 0 < g.n) (hn : g.n ≤ 2 ^ 31)
    (hm : ∀ j, ∀ e ∈ g.adj.col j, e.2 ≤ 2 ^ 99) (he : ∀ j, ∀ e ∈ g.adj.col j, epsilon < sixD e.2)
    (hl : ∀ v, g.abs.w v v = 0) {δ : ℝ} {L : Nat} (hδ : 0 < δ)
    (hmin : ∀ v, v < g.n → 0 < g.abs.deg v → δ ≤ g.abs.deg v)
    (hL : ∀ v, v < g.n → ((range g.n).filter (fun u => g.abs.w v u ≠ 0)).card ≤ L)
    {T : Finset Nat} (hT : T ⊆ range g.n) (hV : 0 < g.abs.vol T) (hcond : g.abs.cond T ≤ 999 / 10 ^ 6) :
    ∃ file, saveAdjacencylist (doubleFmt ℝ) g = .ok file ∧ ∀ hist : Int → List LocalQuery,
    ∃ T' ⊆ T, 49999 / 10 ^ 5 * g.abs.vol T ≤ g.abs.vol T' ∧ ∀ v ∈ T', 0 < g.abs.deg v ∧
      ∀ (target : ℝ) (M : Nat), 10001 / 1000 * g.abs.vol T ≤ target → target ≤ 2 ^ 90 → 202 * target ≤ M * δ →
        M * (7 + 3 * L) + L + 2 ≤ 4 * 10 ^ 11 →
        ∃ C x, (∃ N, ∀ fuel, N ≤ fuel →
            localClusterFl (flIEEE ovf) (diskLocalFl (flIEEE ovf) (doubleFmt ℝ) file hist) fuel v target = some (.ok C)) ∧
          conductanceFl (flIEEE ovf) (diskLocalFl (flIEEE ovf) (doubleFmt ℝ) file hist) (C.map (fun u : Nat => (u : Int))) =
            .ok x ∧
          0 ≤ x ∧ |x - g.abs.cond C.toFinset| ≤ 12 / 10 ^ 5 ∧
          x ≤ 3 / 10000 + √(2 / 25 * Real.log (14 * g.abs.vol T / g.abs.deg v)) := by
  have hw : ∀ u v, 0 ≤ g.abs.w u v := hpr.nonneg
  have hm' : ∀ j, ∀ e ∈ g.adj.col j, e.2 ≤ dblMax ℝ := fun j e h => (hm j e h).trans (by
    have : (2 : ℝ) ^ 99 ≤ 2 ^ 971 := pow_le_pow_right₀ (by norm_num) (by norm_num)
    have h2 : (1 : ℝ) * 2 ^ 971 ≤ (2 ^ 53 - 1) * 2 ^ 971 := mul_le_mul_of_nonneg_right (by norm_num) (by positivity)
    unfold dblMax
    exact le_trans (by linarith) h2)
  obtain ⟨file, hs0, hall⟩ := C113_local_cluster hv hpr h0 hn hm' he hl hδ hmin hL hT hV hcond
  obtain ⟨g', hg'⟩ : ∃ g', g' = g.mapW sixD := ⟨_, rfl⟩
  have hv' : g'.Valid := hg' ▸ mapW_valid hv (sixD_zero (K := ℝ))
  have hn' : g'.n = g.n := by rw [hg']; rfl
  have hpr' : g'.Pruned := by
    rw [hg']
    intro j e h
    obtain ⟨e', a, rfl⟩ := mapW_mem hv h
    exact he j e' a
  have hp' : ∀ j, ∀ e ∈ g'.adj.col j, (doubleFmt ℝ).printable e.2 := hg' ▸ mapW_printable hv hpr hm'
  have hwt : ∀ u v, g'.abs.w u v = sixD (g.abs.w u v) := by
    rw [hg']
    exact fun u v => mapW_coeff hv sixD_zero u v
  have hs : saveAdjacencylist (doubleFmt ℝ) g' = .ok file := by
    rw [hg', saveAdjacencylist_mapW hv hpr]
    exact hs0
  have hent := stored_fits hv hm he
  have hfit : ∀ u v, WFits (g'.abs.w u v) := by
    intro u v
    rw [hwt]
    by_cases h : g.abs.w u v = 0
    · rw [h, sixD_zero]
      exact .inl rfl
    · exact (hent u v h).1
  have hdeg := six_deg hv hw
  rw [← hg'] at hdeg
  refine ⟨file, hs0, fun hist => ?_⟩
  obtain ⟨T', hsub, hvT, hseed⟩ := hall hist
  refine ⟨T', hsub, hvT, fun v hvT' => ⟨(hseed v hvT').1, fun target M htar htar2 hM hsize => ?_⟩⟩
  have hvn : v < g.n := mem_range.1 (hT (hsub hvT'))
  obtain ⟨C, x, ⟨N, hC⟩, hx, hrest⟩ := (hseed v hvT').2 target M htar hM hsize
  -- the target volume is not too small
  have hdv : (2 : ℝ) ^ (-35 : Int) ≤ g.abs.deg v := by
    have hpos := (hseed v hvT').1
    have hdeg : g.abs.deg v = ∑ u ∈ range g.n, g.abs.w v u := by
      unfold WGraph.deg
      rw [hl v, add_zero]
      rfl
    rw [hdeg] at hpos ⊢
    obtain ⟨u, hu, hne⟩ := exists_ne_zero_of_sum_ne_zero hpos.ne'
    exact (hent v u hne).2.trans (single_le_sum (f := fun u => g.abs.w v u) (fun u _ => hw v u) hu)
  have hvT1 : g.abs.deg v ≤ g.abs.vol T := by
    unfold WGraph.vol
    exact single_le_sum (f := g.abs.deg) (fun u _ => WGraph.degree_nonneg hw u) (hsub hvT')
  have htp : (2 : ℝ) ^ (-34 : Int) ≤ target := by
    have e : (2 : ℝ) ^ (-34 : Int) = 2 ^ (-35 : Int) * 2 := by norm_num
    rw [e]
    have : (0 : ℝ) < 2 ^ (-35 : Int) := by positivity
    linarith
  have htp0 : 0 < target := lt_of_lt_of_le (by positivity) htp
  obtain ⟨h1, h2⟩ := C114_disk_local_cluster (hist := hist) ovf hv' hpr' (by omega) (by omega) hp' hs hfit
    (fun v => by rw [hwt, hl, sixD_zero]) (δ := (1 - 6 / 10 ^ 6) * δ) (L := L) (by positivity)
    (fun u hun h => by
      have h2 := (hdeg u).2
      have hpos : 0 < g.abs.deg u := by
        by_contra hc
        have : (1 + 6 / 10 ^ 6) * g.abs.deg u ≤ 0 := mul_nonpos_of_nonneg_of_nonpos (by norm_num) (not_lt.1 hc)
        linarith
      exact le_trans (mul_le_mul_of_nonneg_left (hmin u (by omega) hpos) (by norm_num)) (hdeg u).1)
    (fun u hun => by
      refine le_trans (card_le_card ?_) (hL u (by omega))
      intro c hc
      rw [mem_filter, mem_range] at hc ⊢
      refine ⟨by omega, fun h => hc.2 ?_⟩
      rw [hwt, h, sixD_zero])
    (v := v) (by omega) htp htar2 (M := M) (by
      have : (M : ℝ) * ((1 - 6 / 10 ^ 6) * δ) = (1 - 6 / 10 ^ 6) * (M * δ) := by ring
      rw [this]
      nlinarith) hsize
  exact ⟨C, x, ⟨N, fun fuel hf => (h1 fuel).trans (hC fuel hf)⟩, (h2 N C (hC N le_rfl)).trans hx, hrest⟩

/-- **C114** (instance).  The graph of `C113_nonvacuous` meets the hypotheses of `C114_disk_graph`. -/
theorem C114_disk_nonvacuous (ovf : ℝ → ℝ) : ∃ g : Graph ℝ, g.Reachable ∧ g.abs = ⟨4, tightPairs⟩ ∧
    ∃ file, saveAdjacencylist (doubleFmt ℝ) g = .ok file ∧ ∀ hist : Int → List LocalQuery,
    ∃ T' ⊆ ({0, 1} : Finset Nat), 1024 ≤ g.abs.vol T' ∧ ∀ v ∈ T',
      ∃ C x, (∃ N, ∀ fuel, N ≤ fuel →
          localClusterFl (flIEEE ovf) (diskLocalFl (flIEEE ovf) (doubleFmt ℝ) file hist) fuel v 32768 = some (.ok C)) ∧
        conductanceFl (flIEEE ovf) (diskLocalFl (flIEEE ovf) (doubleFmt ℝ) file hist) (C.map (fun u : Nat => (u : Int))) = .ok x ∧
        x ≤ 3 / 10000 + √(2 / 25 * Real.log (14 * 2049 / g.abs.deg v)) := by
  obtain ⟨g, hr, hp, hg⟩ := exists_pruned_graph 4 tightPairs
    (by intro i j; unfold tightPairs; split_ifs <;> first | rfl | omega)
    (by
      intro i j
      unfold tightPairs
      split_ifs
      · exact .inr (by unfold epsilon; norm_num)
      · exact .inr (by unfold epsilon; norm_num)
      · exact .inl rfl)
    (by intro i j h; unfold tightPairs; rw [if_neg (by omega), if_neg (by omega)])
  have hn : g.n = 4 := congrArg WGraph.n hg
  have hval := hr.valid
  have hent : ∀ j, ∀ e ∈ g.adj.col j, 1 ≤ e.2 ∧ e.2 ≤ 1024 := by
    intro j e he
    have h1 : g.abs.w e.1 j = e.2 := Col.coeff_eq_of_mem (hval.wf.sorted j) (r := e.1) (v := e.2) he
    have h2 := lt_trans epsilon_pos (hp j e he)
    rw [hg] at h1
    simp only [tightPairs] at h1
    split_ifs at h1 <;> constructor <;> linarith
  have hdeg : ∀ v, v < 4 → 1024 ≤ g.abs.deg v := by
    intro v hv
    rw [hg]
    unfold WGraph.deg
    simp only [Finset.sum_range_succ, Finset.sum_range_zero, zero_add]
    have : v = 0 ∨ v = 1 ∨ v = 2 ∨ v = 3 := by omega
    rcases this with rfl | rfl | rfl | rfl <;> norm_num [tightPairs]
  have hvol : g.abs.vol {0, 1} = 2049 := by
    rw [hg]
    unfold WGraph.vol
    rw [Finset.sum_pair (by norm_num)]
    unfold WGraph.deg
    simp only [Finset.sum_range_succ, Finset.sum_range_zero, zero_add]
    norm_num [tightPairs]
  have hcond : g.abs.cond {0, 1} = 1 / 2049 := by
    rw [cond_eq, hvol]
    congr 1
    rw [hg]
    unfold WGraph.cut
    have e : range 4 \ {0, 1} = {2, 3} := by decide
    simp only [e]
    rw [Finset.sum_pair (by norm_num), Finset.sum_pair (by norm_num), Finset.sum_pair (by norm_num)]
    norm_num [tightPairs]
  obtain ⟨file, hs, hall⟩ := C114_disk_graph ovf hval hp (by omega) (by rw [hn]; norm_num)
    (fun j e he => (hent j e he).2.trans (by norm_num))
    (fun j e he => by
      have h1 := (abs_le.1 (sixD_err e.2)).1
      have h2 := (hent j e he).1
      rw [abs_of_nonneg (by linarith)] at h1
      have : (epsilon : ℝ) < 1 / 2 := by unfold epsilon; norm_num
      linarith)
    (by rw [hg]; intro v; simp only [tightPairs]; rw [if_neg (by omega), if_neg (by omega)])
    (δ := 1024) (L := 4) (by norm_num) (fun v hv _ => hdeg v (by omega))
    (fun v _ => (card_filter_le _ _).trans (by rw [card_range, hn]))
    (T := {0, 1}) (by rw [hn]; decide) (by rw [hvol]; norm_num) (by rw [hcond]; norm_num)
  refine ⟨g, hr, hg, file, hs, fun hist => ?_⟩
  obtain ⟨T', hsub, hvolT, hseed⟩ := hall hist
  rw [hvol] at hvolT
  refine ⟨T', hsub, by linarith, fun v hv => ?_⟩
  obtain ⟨C, x, hC, hx, _, _, hb⟩ := (hseed v hv).2 32768 6500 (by rw [hvol]; norm_num) (by norm_num) (by norm_num)
    (by norm_num)
  rw [hvol] at hb
  exact ⟨C, x, hC, hx, hb⟩

end
end Stag
