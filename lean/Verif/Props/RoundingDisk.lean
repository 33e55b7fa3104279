import Verif.Props.RoundingLocalCluster
import Verif.Props.DiskLocal
import Verif.Props.Decimal

/-!
# C113: local clustering of a graph on disk, in doubles

An `AdjacencyListLocalGraph` reads the weights from a text file and adds them up itself.  With a file written by
`save_adjacencylist`, in which weights have six digits, `local_cluster` keeps the guarantee of C109, with respect to the
graph that was saved.
-/

set_option linter.unusedSectionVars false

namespace Stag

open Finset

set_option exponentiation.threshold 2000

section
variable {K : Type} [Field K] [LinearOrder K]

/-- The sum of `AdjacencyListLocalGraph::degree` (`stag_lib/graph.cpp:779-785`), rounded after each operation. -/
def degSumFl (fl : K → K) (v : Int) (es : List (IEdge K)) : K :=
  es.foldl (fun d e => if e.v2 = v then fl (d + fl (2 * e.w)) else fl (d + e.w)) 0

/-- `AdjacencyListLocalGraph::degree` (`stag_lib/graph.cpp:777-786`), rounded.  The object changes as it does without
rounding. -/
def localDegreeFl (fl : K → K) (F : Fmt K) (file : Str) (st : LocalState K) (v : Int) :
    Option (Outcome K) × LocalState K :=
  let r := localNeighbors F file st v
  (mapRes (degSumFl fl v) r.1, r.2)

/-- An object on disk as a `LocalGraph` (`stag_lib/graph.cpp:746-816`) in rounded arithmetic.  Before the call about `v` it
has answered the queries `hist v`. -/
def diskLocalFl (fl : K → K) (F : Fmt K) (file : Str) (hist : Int → List LocalQuery) : LGraph K :=
  { diskLocal F file hist with
    degree := fun v => answer (localDegreeFl fl F file (afterQueries F file (hist v)) v).1 }

variable [IsStrictOrderedRing K] {R : Rounding K}

theorem degSumFl_near (v : Int) (es : List (IEdge K)) (hw : ∀ e ∈ es, 0 ≤ e.w) : ∀ {k : Nat} {x y : K}, 1 ≤ k →
    R.Near k x y →
    R.Near (k + es.length) (es.foldl (fun d e => if e.v2 = v then R.fl (d + R.fl (2 * e.w)) else R.fl (d + e.w)) x)
      (es.foldl (fun d e => if e.v2 = v then d + 2 * e.w else d + e.w) y) := by
  induction es with
  | nil => intro k x y _ h; simpa using h
  | cons e es ih =>
    intro k x y hk h
    have he := hw e (by simp)
    have hstep : R.Near (k + 1) (if e.v2 = v then R.fl (x + R.fl (2 * e.w)) else R.fl (x + e.w))
        (if e.v2 = v then y + 2 * e.w else y + e.w) := by
      split_ifs
      · exact (h.add ((Rounding.Near.refl (R := R) (k := 0) (by positivity : (0 : K) ≤ 2 * e.w)).fl.mono (by omega))).fl
      · exact (h.add (Rounding.Near.refl he)).fl
    have := ih (fun e he => hw e (by simp [he])) (by omega) hstep
    rw [List.foldl_cons, List.foldl_cons, List.length_cons]
    rwa [show k + 1 + es.length = k + (es.length + 1) by omega] at this

/-- The degree that the object reports for `v`. -/
def diskDeg (fl : K → K) (g : Graph K) (v : Nat) : K :=
  degSumFl fl v ((g.adj.col v).map (fun e => ⟨(v : Int), (e.1 : Int), e.2⟩))

/-- **C113** (degrees).  On the file of a saved graph, after any queries, `degree` of a vertex with `L` neighbours
returns its degree, up to `L + 1` roundings. -/
theorem C113_degree (F : Fmt K) {g : Graph K} (hv : g.Valid) (hpr : g.Pruned) (h0 : 0 < g.n) (hn : g.n ≤ 2 ^ 31)
    (hp : ∀ j, ∀ e ∈ g.adj.col j, F.printable e.2) {file : Str} (hs : saveAdjacencylist F g = .ok file)
    (qs : List LocalQuery) {v : Nat} (hvn : v < g.n) :
    (localDegreeFl R.fl F file (afterQueries F file qs) v).1 = some (.ok (diskDeg R.fl g v)) ∧
    R.Near (((range g.n).filter (fun u => g.abs.w v u ≠ 0)).card + 1) (diskDeg R.fl g v) (g.abs.deg v) := by
  obtain ⟨es, d, h1, h2, h3, h4⟩ := (C28_saved_graph F g hv hpr h0 hn hp hs qs).1 v hvn
  have hes : es.map (fun e => (⟨(e.v1 : Int), (e.v2 : Int), e.w⟩ : IEdge K)) =
      (g.adj.col v).map (fun e => ⟨(v : Int), (e.1 : Int), e.2⟩) := by
    rw [neighbors_pruned hpr hvn] at h1
    cases h1
    rw [List.map_map]
    rfl
  rw [hes] at h3
  refine ⟨by unfold localDegreeFl diskDeg; simp only [h3, mapRes], ?_⟩
  have hA := Graph.asLocal_answersAll hv hpr.noZeros
  have hd : d = g.abs.deg v := by
    have := hA.deg v hvn
    change g.degree (v : Int) = _ at this
    rw [h2] at this
    exact Outcome.ok.inj this
  have hsum : degSum (v : Int) ((g.adj.col v).map (fun e => ⟨(v : Int), (e.1 : Int), e.2⟩)) = d := by
    unfold localDegree at h4
    simp only [h3, mapRes] at h4
    simpa using h4
  have hcard : (g.adj.col v).length ≤ ((range g.n).filter (fun u => g.abs.w v u ≠ 0)).card := by
    obtain ⟨es', he', _, hnb⟩ := hA.nbrs v hvn
    change g.neighbors (v : Int) = _ at he'
    rw [neighbors_pruned hpr hvn] at he'
    cases he'
    have hsub : ((((g.adj.col v).map (fun e => (⟨v, e.1, e.2⟩ : Edge K))).map (fun e => (e.v2, e.w))).map Prod.fst).toFinset ⊆
        (range g.n).filter (fun u => g.abs.w v u ≠ 0) := by
      intro u hu
      rw [List.mem_toFinset, List.mem_map] at hu
      obtain ⟨⟨u', x⟩, hm, rfl⟩ := hu
      have := (hnb.2 u' x).1 hm
      rw [mem_filter, mem_range]
      exact ⟨this.1, by rw [this.2.1]; exact this.2.2⟩
    have := card_le_card hsub
    rw [List.toFinset_card_of_nodup hnb.1] at this
    simpa using this
  rw [← hd, ← hsum]
  have := degSumFl_near (R := R) (v : Int) ((g.adj.col v).map (fun e => ⟨(v : Int), (e.1 : Int), e.2⟩))
    (fun e he => by
      obtain ⟨e', he', rfl⟩ := List.mem_map.1 he
      exact (lt_trans epsilon_pos (hpr v e' he')).le) (k := 1) le_rfl (Rounding.Near.refl (le_refl (0 : K)))
  unfold diskDeg degSumFl degSum
  refine this.mono ?_
  rw [List.length_map]
  omega

/-- **C113** (answers).  On the file of a saved graph the object answers as the graph prescribes, with the degrees it adds
up: so C76 (approximate PageRank), C77 (conductance, sweep sets) and C109 apply. -/
theorem C113_answers (F : Fmt K) {g : Graph K} (hv : g.Valid) (hpr : g.Pruned) (h0 : 0 < g.n) (hn : g.n ≤ 2 ^ 31)
    (hp : ∀ j, ∀ e ∈ g.adj.col j, F.printable e.2) {file : Str} (hs : saveAdjacencylist F g = .ok file)
    (hist : Int → List LocalQuery) :
    (diskLocalFl R.fl F file hist).AnswersFl g.abs (diskDeg R.fl g) := by
  have h := diskLocal_answers F hv hpr h0 hn hp hs hist
  refine ⟨h.symm, h.range, h.nbrs, fun v hvn => ?_, h.exist, h.nbrsU⟩
  have := (C113_degree (R := R) F hv hpr h0 hn hp hs (hist v) hvn).1
  change answer (localDegreeFl R.fl F file (afterQueries F file (hist v)) v).1 = _
  rw [this]
  rfl

end

/-! ## Local clustering -/

/-- C109 for doubles, for every object that answers up to `L + 1` roundings. -/
theorem localCluster_doubles {lg : LGraph ℝ} {s : WGraph ℝ} {D : Nat → ℝ} {L : Nat}
    (ha : lg.AnswersFl s D) (hD : ∀ v, v < s.n → (KMeans.dbl ℝ).Near (L + 1) (D v) (s.deg v))
    (hw : ∀ u v, 0 ≤ s.w u v) (hl : ∀ v, s.w v v = 0) {δ : ℝ} (hδ : 0 < δ)
    (hmin : ∀ v, v < s.n → 0 < s.deg v → δ ≤ s.deg v)
    (hL : ∀ v, v < s.n → ((range s.n).filter (fun u => s.w v u ≠ 0)).card ≤ L)
    {T : Finset Nat} (hT : T ⊆ range s.n) (hV : 0 < s.vol T) (hcond : s.cond T ≤ 1 / 1000) :
    ∃ T' ⊆ T, s.vol T ≤ 2 * s.vol T' ∧ ∀ v ∈ T', 0 < s.deg v ∧
      ∀ (target : ℝ) (M : Nat), 10 * s.vol T ≤ target → 201 * target ≤ M * δ →
        M * (7 + 3 * L) + L + 2 ≤ 4 * 10 ^ 11 →
        ∃ C x, (∃ N, ∀ fuel, N ≤ fuel →
            localClusterFl (flBin 53) lg fuel v target = some (.ok C)) ∧
          conductanceFl (flBin 53) lg (C.map (fun u : Nat => (u : Int))) = .ok x ∧
          0 ≤ x ∧ |x - s.cond C.toFinset| ≤ 1 / 10000 ∧
          x ≤ 3 / 10000 + √(2 / 25 * Real.log (13 * s.vol T / s.deg v)) := by
  have hu := KMeans.dbl_u (K := ℝ)
  have hLes : ∀ v, v < s.n → ∀ es, lg.neighbors (v : Int) = .ok es → es.length ≤ L := by
    intro v hvn es hes
    obtain ⟨es', he', _, hnb⟩ := ha.nbrs v hvn
    rw [hes] at he'
    cases he'
    have := neighborList_card hnb
    rw [List.length_map] at this
    exact this.trans (hL v hvn)
  have f1 : (KMeans.dbl ℝ).fl 1 = 1 := by
    change flBin 53 (1 : ℝ) = 1
    simpa using flBin_zpow (K := ℝ) (p := 53) (by norm_num) 0
  obtain ⟨T', hsub, hvol, hall⟩ := C109_local_cluster (R := KMeans.dbl ℝ) ha hD hw hl f1 hδ hmin hLes hT
    hV hcond (by rw [hu]; norm_num)
  refine ⟨T', hsub, hvol, fun v hvT => ⟨(hall v hvT).1, fun target M htar hM hsize => ?_⟩⟩
  set m := M * (6 + (L + 1) + 2 * L) + (L + 1) + 1 with hm
  have hmle : m ≤ 4 * 10 ^ 11 := by
    have : m = M * (7 + 3 * L) + L + 2 := by rw [hm]; ring
    omega
  have hmu : (m : ℝ) * (KMeans.dbl ℝ).u ≤ 1 / 20000 := by
    have : (m : ℝ) ≤ ((4 * 10 ^ 11 : Nat) : ℝ) := by exact_mod_cast hmle
    rw [hu]
    refine (mul_le_mul_of_nonneg_right this (by positivity)).trans ?_
    norm_num
  have hη := (KMeans.dbl ℝ).g_pow_le (m := m) (by linarith)
  obtain ⟨C, x, hC, hx, hx0, hxc, hxb⟩ := (hall v hvT).2 target
    ((1 / (1 - (KMeans.dbl ℝ).u)) ^ m - 1) M htar hM rfl (by linarith)
  refine ⟨C, x, hC, hx, hx0, by linarith, hxb.trans ?_⟩
  linarith

/-! ## Six digits -/

section
variable {g : Graph ℝ}

/-- Writing the weights with six digits and reading them again changes them by at most six in a million. -/
theorem six_weights (hv : g.Valid) (hw : ∀ u v, 0 ≤ g.abs.w u v) (u v : Nat) :
    (1 - 6 / 10 ^ 6) * g.abs.w u v ≤ (g.mapW sixD).abs.w u v ∧
    (g.mapW sixD).abs.w u v ≤ (1 + 6 / 10 ^ 6) * g.abs.w u v := by
  have h1 : (g.mapW sixD).abs.w u v = sixD (g.abs.w u v) := mapW_coeff hv sixD_zero u v
  have h2 := abs_le.1 (sixD_err (g.abs.w u v))
  rw [abs_of_nonneg (hw u v)] at h2
  have := hw u v
  rw [h1]
  constructor <;> linarith [h2.1, h2.2]

theorem six_deg (hv : g.Valid) (hw : ∀ u v, 0 ≤ g.abs.w u v) (v : Nat) :
    (1 - 6 / 10 ^ 6) * g.abs.deg v ≤ (g.mapW sixD).abs.deg v ∧
    (g.mapW sixD).abs.deg v ≤ (1 + 6 / 10 ^ 6) * g.abs.deg v := by
  unfold WGraph.deg
  rw [show (g.mapW sixD).abs.n = g.abs.n from rfl, mul_add, mul_add, mul_sum, mul_sum]
  exact ⟨add_le_add (sum_le_sum fun u _ => (six_weights hv hw v u).1) (six_weights hv hw v v).1,
    add_le_add (sum_le_sum fun u _ => (six_weights hv hw v u).2) (six_weights hv hw v v).2⟩

theorem six_vol (hv : g.Valid) (hw : ∀ u v, 0 ≤ g.abs.w u v) (S : Finset Nat) :
    (1 - 6 / 10 ^ 6) * g.abs.vol S ≤ (g.mapW sixD).abs.vol S ∧
    (g.mapW sixD).abs.vol S ≤ (1 + 6 / 10 ^ 6) * g.abs.vol S := by
  unfold WGraph.vol
  rw [mul_sum, mul_sum]
  exact ⟨sum_le_sum fun u _ => (six_deg hv hw u).1, sum_le_sum fun u _ => (six_deg hv hw u).2⟩

theorem six_cut (hv : g.Valid) (hw : ∀ u v, 0 ≤ g.abs.w u v) (S : Finset Nat) :
    (1 - 6 / 10 ^ 6) * g.abs.cut S ≤ (g.mapW sixD).abs.cut S ∧
    (g.mapW sixD).abs.cut S ≤ (1 + 6 / 10 ^ 6) * g.abs.cut S := by
  unfold WGraph.cut
  rw [show (g.mapW sixD).abs.n = g.abs.n from rfl, mul_sum, mul_sum]
  simp only [mul_sum]
  exact ⟨sum_le_sum fun u _ => sum_le_sum fun v _ => (six_weights hv hw u v).1,
    sum_le_sum fun u _ => sum_le_sum fun v _ => (six_weights hv hw u v).2⟩

theorem vol_nonneg' (hw : ∀ u v, 0 ≤ g.abs.w u v) (S : Finset Nat) : 0 ≤ g.abs.vol S := by
  unfold WGraph.vol WGraph.deg
  exact sum_nonneg fun u _ => add_nonneg (sum_nonneg fun v _ => hw _ _) (hw _ _)

theorem cut_nonneg' (hw : ∀ u v, 0 ≤ g.abs.w u v) (S : Finset Nat) : 0 ≤ g.abs.cut S := by
  unfold WGraph.cut
  exact sum_nonneg fun u _ => sum_nonneg fun v _ => hw _ _

theorem cut_le_vol' (hw : ∀ u v, 0 ≤ g.abs.w u v) (S : Finset Nat) : g.abs.cut S ≤ g.abs.vol S := by
  unfold WGraph.cut WGraph.vol WGraph.deg
  refine sum_le_sum fun u _ => ?_
  exact (sum_le_sum_of_subset_of_nonneg sdiff_subset fun v _ _ => hw _ _).trans (le_add_of_nonneg_right (hw _ _))

/-- Conductances change by at most thirteen in a million. -/
theorem six_cond (hv : g.Valid) (hw : ∀ u v, 0 ≤ g.abs.w u v) (S : Finset Nat) :
    |(g.mapW sixD).abs.cond S - g.abs.cond S| ≤ 13 / 10 ^ 6 * g.abs.cond S ∧ g.abs.cond S ≤ 1 := by
  obtain ⟨v1, v2⟩ := six_vol hv hw S
  obtain ⟨c1, c2⟩ := six_cut hv hw S
  have v0 := vol_nonneg' hw S
  have c0 := cut_nonneg' hw S
  have hle := cut_le_vol' hw S
  rw [cond_eq, cond_eq]
  rcases v0.eq_or_lt with h0 | h0
  · rw [← h0, mul_zero] at v2
    rw [← h0, mul_zero] at v1
    rw [le_antisymm v2 v1, ← h0]
    simp
  · have h1 : 0 < (g.mapW sixD).abs.vol S := lt_of_lt_of_le (by positivity) v1
    refine ⟨?_, (div_le_one h0).2 hle⟩
    obtain ⟨V, hV⟩ : ∃ V, V = g.abs.vol S := ⟨_, rfl⟩
    obtain ⟨V', hV'⟩ : ∃ V, V = (g.mapW sixD).abs.vol S := ⟨_, rfl⟩
    obtain ⟨c, hc⟩ : ∃ c, c = g.abs.cut S := ⟨_, rfl⟩
    obtain ⟨c', hc'⟩ : ∃ c, c = (g.mapW sixD).abs.cut S := ⟨_, rfl⟩
    simp only [← hV, ← hV', ← hc, ← hc'] at *
    rw [show 13 / 10 ^ 6 * (c / V) = (13 / 10 ^ 6 * c) / V by ring, abs_le]
    have a1 : (1 - 13 / 10 ^ 6) * (c / V) ≤ c' / V' := by
      rw [show (1 - 13 / 10 ^ 6) * (c / V) = ((1 - 13 / 10 ^ 6) * c) / V by ring, div_le_div_iff₀ h0 h1]
      have b1 := mul_le_mul_of_nonneg_left v2 (show 0 ≤ (1 - 13 / 10 ^ 6) * c by positivity)
      have b2 := mul_le_mul_of_nonneg_right c1 h0.le
      have b3 := mul_nonneg c0 h0.le
      nlinarith
    have a2 : c' / V' ≤ (1 + 13 / 10 ^ 6) * (c / V) := by
      rw [show (1 + 13 / 10 ^ 6) * (c / V) = ((1 + 13 / 10 ^ 6) * c) / V by ring, div_le_div_iff₀ h1 h0]
      have b1 := mul_le_mul_of_nonneg_left v1 (show 0 ≤ (1 + 13 / 10 ^ 6) * c by positivity)
      have b2 := mul_le_mul_of_nonneg_right c2 h0.le
      have b3 := mul_nonneg c0 h0.le
      nlinarith
    have e : 13 / 10 ^ 6 * c / V = 13 / 10 ^ 6 * (c / V) := by ring
    rw [e]
    constructor <;> linarith

/-- **C113** (local clustering on disk, in doubles).  A graph with non-negative finite `double` weights and without self-loops
is saved as an adjacency list, six digits per weight; every weight stays above `EPSILON`.  Every positive degree is at least
`δ`, no vertex has more than `L` neighbours, and `T` is a set of vertices of conductance at most `999/10^6` in the graph that
was saved.  There is a set of good seeds in `T`, of nearly half its volume, such that for every seed `v` in it and every target
volume of at least `10.001 vol(T)`: if `202 target ≤ M δ` and `M (7 + 3 L) + L + 2 ≤ 4 * 10^11`, then
`local_cluster(v, target)` on an object opened on the file returns a set `C`, whatever the object was asked before; the
conductance `x` which `conductance` reports for it on disk is off from its conductance in the saved graph by at most
`12/10^5`, and it is at most `3/10000 + √(2/25 ln (14 vol(T) / deg(v)))`. -/
theorem C113_local_cluster (hv : g.Valid) (hpr : g.Pruned) (h0 : 0 < g.n) (hn : g.n ≤ 2 ^ 31)
    (hm : ∀ j, ∀ e ∈ g.adj.col j, e.2 ≤ dblMax ℝ) (he : ∀ j, ∀ e ∈ g.adj.col j, epsilon < sixD e.2)
    (hl : ∀ v, g.abs.w v v = 0) {δ : ℝ} {L : Nat} (hδ : 0 < δ)
    (hmin : ∀ v, v < g.n → 0 < g.abs.deg v → δ ≤ g.abs.deg v)
    (hL : ∀ v, v < g.n → ((range g.n).filter (fun u => g.abs.w v u ≠ 0)).card ≤ L)
    {T : Finset Nat} (hT : T ⊆ range g.n) (hV : 0 < g.abs.vol T) (hcond : g.abs.cond T ≤ 999 / 10 ^ 6) :
    ∃ file, saveAdjacencylist (doubleFmt ℝ) g = .ok file ∧ ∀ hist : Int → List LocalQuery,
    ∃ T' ⊆ T, 49999 / 10 ^ 5 * g.abs.vol T ≤ g.abs.vol T' ∧ ∀ v ∈ T', 0 < g.abs.deg v ∧
      ∀ (target : ℝ) (M : Nat), 10001 / 1000 * g.abs.vol T ≤ target → 202 * target ≤ M * δ →
        M * (7 + 3 * L) + L + 2 ≤ 4 * 10 ^ 11 →
        ∃ C x, (∃ N, ∀ fuel, N ≤ fuel →
            localClusterFl (flBin 53) (diskLocalFl (flBin 53) (doubleFmt ℝ) file hist) fuel v target = some (.ok C)) ∧
          conductanceFl (flBin 53) (diskLocalFl (flBin 53) (doubleFmt ℝ) file hist) (C.map (fun u : Nat => (u : Int))) = .ok x ∧
          0 ≤ x ∧ |x - g.abs.cond C.toFinset| ≤ 12 / 10 ^ 5 ∧
          x ≤ 3 / 10000 + √(2 / 25 * Real.log (14 * g.abs.vol T / g.abs.deg v)) := by
  have hw : ∀ u v, 0 ≤ g.abs.w u v := hpr.nonneg
  obtain ⟨g', hg'⟩ : ∃ g', g' = g.mapW sixD := ⟨_, rfl⟩
  have hv' : g'.Valid := hg' ▸ mapW_valid hv (sixD_zero (K := ℝ))
  have hn' : g'.n = g.n := by rw [hg']; rfl
  have hpr' : g'.Pruned := by
    rw [hg']
    intro j e h
    obtain ⟨e', a, rfl⟩ := mapW_mem hv h
    exact he j e' a
  have hp' : ∀ j, ∀ e ∈ g'.adj.col j, (doubleFmt ℝ).printable e.2 := hg' ▸ mapW_printable hv hpr hm
  have hwt : ∀ u v, g'.abs.w u v = sixD (g.abs.w u v) := by
    rw [hg']
    exact fun u v => mapW_coeff hv sixD_zero u v
  have hw' : ∀ u v, 0 ≤ g'.abs.w u v := hpr'.nonneg
  have hzero : ∀ u v, g'.abs.w u v ≠ 0 → g.abs.w u v ≠ 0 := by
    intro u v h h'
    rw [hwt, h', sixD_zero] at h
    exact h rfl
  obtain ⟨file, hs⟩ : ∃ file, saveAdjacencylist (doubleFmt ℝ) g' = .ok file := by
    obtain ⟨file, _, h1, _⟩ := C78_adjacencylist g hv hpr hn hm he
    exact ⟨file, by rw [hg', saveAdjacencylist_mapW hv hpr]; exact h1⟩
  have hs0 : saveAdjacencylist (doubleFmt ℝ) g = .ok file := by
    rw [← saveAdjacencylist_mapW hv hpr, ← hg']
    exact hs
  refine ⟨file, hs0, fun hist => ?_⟩
  have hdeg := six_deg hv hw
  have hvol := six_vol hv hw
  have hcnd := six_cond hv hw
  rw [← hg'] at hdeg hvol hcnd
  have hL' : ∀ v, v < g'.abs.n → ((range g'.abs.n).filter (fun u => g'.abs.w v u ≠ 0)).card ≤ L := by
    intro v hvn
    have hvn' : v < g.n := by rw [← hn']; exact hvn
    refine le_trans (card_le_card ?_) (hL v hvn')
    intro u hu
    rw [mem_filter, mem_range] at hu ⊢
    exact ⟨by rw [← hn']; exact hu.1, hzero _ _ hu.2⟩
  have hdpos : ∀ v, 0 < g'.abs.deg v → 0 < g.abs.deg v := by
    intro v h
    have := (hdeg v).2
    by_contra hc
    have : (1 + 6 / 10 ^ 6) * g.abs.deg v ≤ 0 := mul_nonpos_of_nonneg_of_nonpos (by norm_num) (not_lt.1 hc)
    linarith
  obtain ⟨T', hsub, hvT, hall⟩ := localCluster_doubles (lg := diskLocalFl (flBin 53) (doubleFmt ℝ) file hist)
    (C113_answers (R := KMeans.dbl ℝ) (doubleFmt ℝ) hv' hpr' (by omega) (by omega) hp' hs hist)
    (fun v hvn => (C113_degree (R := KMeans.dbl ℝ) (doubleFmt ℝ) hv' hpr' (by omega) (by omega) hp' hs [] hvn).2.mono
      (Nat.add_le_add_right (hL' v hvn) 1)) hw' (fun v => by rw [hwt, hl, sixD_zero])
    (δ := (1 - 6 / 10 ^ 6) * δ) (by positivity)
    (fun v hvn h => le_trans (mul_le_mul_of_nonneg_left (hmin v (by rw [← hn']; exact hvn) (hdpos v h)) (by norm_num)) (hdeg v).1)
    hL' (T := T) (by
      rw [show g'.abs.n = g.n from hn']
      exact hT) (lt_of_lt_of_le (by positivity) (hvol T).1) (by
      have h1 := (abs_le.1 (hcnd T).1).2
      have : 13 / 10 ^ 6 * g.abs.cond T ≤ 13 / 10 ^ 6 * (999 / 10 ^ 6) := by gcongr
      have h2 : (999 / 10 ^ 6 : ℝ) + 13 / 10 ^ 6 * (999 / 10 ^ 6) ≤ 1 / 1000 := by norm_num
      linarith)
  refine ⟨T', hsub, ?_, fun v hvT' => ⟨hdpos v (hall v hvT').1, fun target M htar hM hsize => ?_⟩⟩
  · have h1 := (hvol T).1
    have h2 := (hvol T').2
    nlinarith
  · obtain ⟨hd', hrest⟩ := hall v hvT'
    have hd := hdpos v hd'
    have htar0 : 0 < target := lt_of_lt_of_le (by positivity) htar
    obtain ⟨C, x, hC, hx, hx0, hxc, hxb⟩ := hrest target M (by
      have := (hvol T).2
      nlinarith) (by
      have : (M : ℝ) * ((1 - 6 / 10 ^ 6) * δ) = (1 - 6 / 10 ^ 6) * (M * δ) := by ring
      rw [this]
      nlinarith) hsize
    refine ⟨C, x, hC, hx, hx0, ?_, hxb.trans ?_⟩
    · obtain ⟨h1, h2⟩ := hcnd C.toFinset
      have h3 := abs_sub_le x (g'.abs.cond C.toFinset) (g.abs.cond C.toFinset)
      have h4 : 13 / 10 ^ 6 * g.abs.cond C.toFinset ≤ 13 / 10 ^ 6 * 1 := by gcongr
      have h5 : (1 / 10000 : ℝ) + 13 / 10 ^ 6 * 1 ≤ 12 / 10 ^ 5 := by norm_num
      linarith
    · gcongr 3 / 10000 + √(2 / 25 * Real.log ?_)
      · have := (hvol T).1
        have : 0 < g'.abs.vol T := lt_of_lt_of_le (by positivity) this
        positivity
      · rw [div_le_div_iff₀ hd' hd]
        have h1 := (hvol T).2
        have h2 := (hdeg v).1
        have h3 := mul_le_mul_of_nonneg_right h1 hd.le
        have h4 := mul_le_mul_of_nonneg_left h2 hV.le
        have h5 := mul_pos hV hd
        nlinarith


/-- **C113** (instance).  The hypotheses of `C113_local_cluster` are met by the graph of C109, two pairs of vertices joined by
edges of weight 1024 and by one of weight 1: it is saved, and from a good seed `local_cluster` on disk with a target volume of
32768 reports a conductance below the bound. -/
theorem C113_nonvacuous : ∃ g : Graph ℝ, g.Reachable ∧ g.abs = ⟨4, tightPairs⟩ ∧
    ∃ file, saveAdjacencylist (doubleFmt ℝ) g = .ok file ∧ ∀ hist : Int → List LocalQuery,
    ∃ T' ⊆ ({0, 1} : Finset Nat), 1024 ≤ g.abs.vol T' ∧ ∀ v ∈ T',
      ∃ C x, (∃ N, ∀ fuel, N ≤ fuel →
          localClusterFl (flBin 53) (diskLocalFl (flBin 53) (doubleFmt ℝ) file hist) fuel v 32768 = some (.ok C)) ∧
        conductanceFl (flBin 53) (diskLocalFl (flBin 53) (doubleFmt ℝ) file hist) (C.map (fun u : Nat => (u : Int))) = .ok x ∧
        x ≤ 3 / 10000 + √(2 / 25 * Real.log (14 * 2049 / g.abs.deg v)) := by
  obtain ⟨g, hr, hp, hg⟩ := exists_pruned_graph 4 tightPairs
    (by intro i j; unfold tightPairs; split_ifs <;> first | rfl | omega)
    (by
      intro i j
      unfold tightPairs
      split_ifs
      · exact .inr (by unfold epsilon; norm_num)
      · exact .inr (by unfold epsilon; norm_num)
      · exact .inl rfl)
    (by intro i j h; unfold tightPairs; rw [if_neg (by omega), if_neg (by omega)])
  have hn : g.n = 4 := congrArg WGraph.n hg
  have hval := hr.valid
  have hent : ∀ j, ∀ e ∈ g.adj.col j, 1 ≤ e.2 ∧ e.2 ≤ 1024 := by
    intro j e he
    have h1 : g.abs.w e.1 j = e.2 := Col.coeff_eq_of_mem (hval.wf.sorted j) (r := e.1) (v := e.2) he
    have h2 := lt_trans epsilon_pos (hp j e he)
    rw [hg] at h1
    simp only [tightPairs] at h1
    split_ifs at h1 <;> constructor <;> linarith
  have hdeg : ∀ v, v < 4 → 1024 ≤ g.abs.deg v := by
    intro v hv
    rw [hg]
    unfold WGraph.deg
    simp only [Finset.sum_range_succ, Finset.sum_range_zero, zero_add]
    have : v = 0 ∨ v = 1 ∨ v = 2 ∨ v = 3 := by omega
    rcases this with rfl | rfl | rfl | rfl <;> norm_num [tightPairs]
  have hvol : g.abs.vol {0, 1} = 2049 := by
    rw [hg]
    unfold WGraph.vol
    rw [Finset.sum_pair (by norm_num)]
    unfold WGraph.deg
    simp only [Finset.sum_range_succ, Finset.sum_range_zero, zero_add]
    norm_num [tightPairs]
  have hcond : g.abs.cond {0, 1} = 1 / 2049 := by
    rw [cond_eq, hvol]
    congr 1
    rw [hg]
    unfold WGraph.cut
    have e : range 4 \ {0, 1} = {2, 3} := by decide
    simp only [e]
    rw [Finset.sum_pair (by norm_num), Finset.sum_pair (by norm_num), Finset.sum_pair (by norm_num)]
    norm_num [tightPairs]
  obtain ⟨file, hs, hall⟩ := C113_local_cluster hval hp (by omega) (by rw [hn]; norm_num)
    (fun j e he => (hent j e he).2.trans (by
      have : (1 : ℝ) ≤ 2 ^ 971 := one_le_pow₀ (by norm_num)
      have h2 : (1024 : ℝ) * 1 ≤ (2 ^ 53 - 1) * 2 ^ 971 := mul_le_mul (by norm_num) this (by norm_num) (by norm_num)
      unfold dblMax
      exact le_trans (by norm_num) h2))
    (fun j e he => by
      have h1 := (abs_le.1 (sixD_err e.2)).1
      have h2 := (hent j e he).1
      rw [abs_of_nonneg (by linarith)] at h1
      have : (epsilon : ℝ) < 1 / 2 := by unfold epsilon; norm_num
      linarith)
    (by rw [hg]; intro v; simp only [tightPairs]; rw [if_neg (by omega), if_neg (by omega)])
    (δ := 1024) (L := 4) (by norm_num) (fun v hv _ => hdeg v (by omega))
    (fun v _ => (card_filter_le _ _).trans (by rw [card_range, hn]))
    (T := {0, 1}) (by rw [hn]; decide) (by rw [hvol]; norm_num) (by rw [hcond]; norm_num)
  refine ⟨g, hr, hg, file, hs, fun hist => ?_⟩
  obtain ⟨T', hsub, hvolT, hseed⟩ := hall hist
  rw [hvol] at hvolT
  refine ⟨T', hsub, by linarith, fun v hv => ?_⟩
  obtain ⟨C, x, hC, hx, _, _, hb⟩ := (hseed v hv).2 32768 6500 (by rw [hvol]; norm_num) (by norm_num)
    (by norm_num)
  rw [hvol] at hb
  exact ⟨C, x, hC, hx, hb⟩

end
end Stag
