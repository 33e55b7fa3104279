import Verif.Props.LocalCluster

/-!
# C93: local algorithms depend only on the part of the graph they explore
-/

set_option linter.unusedSectionVars false

namespace Stag

section
variable {K : Type} [Field K] [LinearOrder K]

/-- Two local graphs give the same answers about `u`: its neighbours and its degree, and the degrees of its neighbours. -/
structure LGraph.SameAt (lg lg' : LGraph K) (u : Nat) : Prop where
  neighbors : lg'.neighbors (u : Int) = lg.neighbors (u : Int)
  neighborsUnweighted : lg'.neighborsUnweighted (u : Int) = lg.neighborsUnweighted (u : Int)
  degree : lg'.degree (u : Int) = lg.degree (u : Int)
  degrees : ∀ ns, lg.neighborsUnweighted (u : Int) = .ok ns → ∀ v ∈ ns, lg'.degree (v : Int) = lg.degree (v : Int)

theorem mapM'_congr {α β : Type} {f f' : α → Outcome β} : ∀ {l : List α}, (∀ a ∈ l, f' a = f a) →
    Outcome.mapM' f' l = Outcome.mapM' f l
  | [], _ => rfl
  | a :: l, h => by
    simp only [Outcome.mapM', h a (by simp), mapM'_congr (l := l) fun b hb => h b (by simp [hb])]

theorem degrees_congr {lg lg' : LGraph K} {vs : List Nat} (h : ∀ v ∈ vs, lg'.degree (v : Int) = lg.degree (v : Int)) :
    lg'.degrees vs = lg.degrees vs := mapM'_congr h

theorem push_congr {lg lg' : LGraph K} {u : Nat} (h : lg.SameAt lg' u) (α : K) (p r : SVec K) :
    push lg' α p r u = push lg α p r u := by
  unfold push
  rw [h.degree, h.neighbors]

theorem aprStep_congr {lg lg' : LGraph K} {u : Nat} (h : lg.SameAt lg' u) (α ε : K) (s : AprState K) (rest : List Nat) :
    aprStep lg' α ε s u rest = aprStep lg α ε s u rest := by
  unfold aprStep
  rw [push_congr h, h.degree, h.neighbors, h.neighborsUnweighted]
  cases hn : lg.neighborsUnweighted (u : Int) with
  | ok ns => simp only [Outcome.bind_ok, degrees_congr (h.degrees ns hn)]
  | throw e => simp only [Outcome.bind_throw]
  | ub => simp only [Outcome.bind_ub]

theorem aprStep_indices {lg : LGraph K} {α ε : K} {s s' : AprState K} {u : Nat} {rest : List Nat} (hp : s.p.OK)
    (h : aprStep lg α ε s u rest = .ok s') :
    s'.p.OK ∧ u ∈ s'.p.indices ∧ (∀ v ∈ s.p.indices, v ∈ s'.p.indices) ∧
      (∀ v ∈ s'.p.indices, v ∈ s.p.indices ∨ v = u) ∧ ∃ d, lg.degree (u : Int) = .ok d := by
  unfold aprStep at h
  simp only [Outcome.bind_eq_ok] at h
  obtain ⟨pr, hpr, d, hd, ns, _, nd, _, es, _, qm, _, hs⟩ := h
  unfold push at hpr
  simp only [Outcome.bind_eq_ok] at hpr
  obtain ⟨p', hp', dg, _, es', _, r', _, r'', _, hpr'⟩ := hpr
  cases hpr'
  cases hs
  obtain ⟨y, hy, hyok, _, _, hyi⟩ := SVec.set_spec (SVec.grow_ok hp u) (i := u)
    (by rw [SVec.grow_rows]; omega) ((s.p.grow u).get u + α * s.r.get u)
  rw [hy] at hp'
  cases hp'
  rw [SVec.grow_indices hp] at hyi
  exact ⟨hyok, (hyi u).2 (Or.inr rfl), fun v hv => (hyi v).2 (Or.inl hv), fun v hv => (hyi v).1 hv, d, hd⟩

theorem aprLoop_congr {lg lg' : LGraph K} {α ε : K} {p r : SVec K} : ∀ {fuel : Nat} {s : AprState K}, s.p.OK →
    aprLoop lg α ε fuel s = some (.ok (p, r)) →
    (∀ v ∈ s.p.indices, v ∈ p.indices) ∧
    ((∀ u ∈ p.indices, lg.SameAt lg' u) → aprLoop lg' α ε fuel s = some (.ok (p, r)))
  | fuel, ⟨p0, r0, [], m⟩, _, h => by
    cases fuel <;> (simp only [aprLoop] at h ⊢; cases h; exact ⟨fun _ h => h, fun _ => rfl⟩)
  | 0, ⟨p0, r0, u :: rest, m⟩, _, h => by simp [aprLoop] at h
  | fuel + 1, ⟨p0, r0, u :: rest, m⟩, hp, h => by
    simp only [aprLoop] at h ⊢
    cases hst : aprStep lg α ε ⟨p0, r0, u :: rest, m⟩ u rest with
    | ok s' =>
      rw [hst] at h
      obtain ⟨h1, h2, h3, -⟩ := aprStep_indices hp hst
      obtain ⟨k1, k2⟩ := aprLoop_congr (lg' := lg') h1 h
      refine ⟨fun v hv => k1 v (h3 v hv), fun hs => ?_⟩
      rw [aprStep_congr (hs u (k1 u h2)), hst]
      exact k2 hs
    | throw e => rw [hst] at h; cases h
    | ub => rw [hst] at h; cases h

theorem aprLoop_degree {lg : LGraph K} {α ε : K} {p r : SVec K} : ∀ {fuel : Nat} {s : AprState K}, s.p.OK →
    aprLoop lg α ε fuel s = some (.ok (p, r)) →
    ∀ u ∈ p.indices, u ∈ s.p.indices ∨ ∃ d, lg.degree (u : Int) = .ok d
  | fuel, ⟨p0, r0, [], m⟩, _, h => by
    cases fuel <;> (simp only [aprLoop] at h; cases h; exact fun _ h => Or.inl h)
  | 0, ⟨p0, r0, u :: rest, m⟩, _, h => by simp [aprLoop] at h
  | fuel + 1, ⟨p0, r0, u :: rest, m⟩, hp, h => by
    simp only [aprLoop] at h
    cases hst : aprStep lg α ε ⟨p0, r0, u :: rest, m⟩ u rest with
    | ok s' =>
      rw [hst] at h
      obtain ⟨h1, -, -, h4, d, hd⟩ := aprStep_indices hp hst
      intro v hv
      rcases aprLoop_degree h1 h v hv with hv | hv
      · rcases h4 v hv with hv | rfl
        · exact Or.inl hv
        · exact Or.inr ⟨d, hd⟩
      · exact Or.inr hv
    | throw e => rw [hst] at h; cases h
    | ub => rw [hst] at h; cases h

/-- The degree of every vertex with an entry in `p`, and of every vertex of the seed, is asked. -/
theorem pagerank_degree {lg : LGraph K} {fuel : Nat} {seed : SVec K} {α ε : K} {p r : SVec K}
    (h : approximatePagerank lg fuel seed α ε = some (.ok (p, r))) :
    (∀ u ∈ p.indices, ∃ d, lg.degree (u : Int) = .ok d) ∧ ∃ ds, lg.degrees seed.indices = .ok ds := by
  unfold approximatePagerank at h
  cases hst : aprInit lg seed α ε with
  | ok s =>
    rw [hst] at h
    unfold aprInit at hst
    split_ifs at hst
    simp only [Outcome.bind_eq_ok] at hst
    obtain ⟨ds, hds, q, _, hs⟩ := hst
    cases hs
    refine ⟨fun u hu => ?_, ds, hds⟩
    rcases aprLoop_degree ⟨by simp [Col.Sorted], by simp⟩ h u hu with hu | hu
    · simp [SVec.indices] at hu
    · exact hu
  | throw e => rw [hst] at h; cases h
  | ub => rw [hst] at h; cases h

/-- **C93** (PageRank is local).  If `approximate_pagerank` returns `(p, r)` for one graph, it returns the same for every
other graph that has the same degrees of the vertices of the seed and gives the same answers about the vertices with an
entry in `p`. -/
theorem C93_pagerank {lg lg' : LGraph K} {fuel : Nat} {seed : SVec K} {α ε : K} {p r : SVec K}
    (h : approximatePagerank lg fuel seed α ε = some (.ok (p, r)))
    (hex : lg'.vertexExists ((seed.rows : Int) - 1) = lg.vertexExists ((seed.rows : Int) - 1))
    (hseed : ∀ v ∈ seed.indices, lg'.degree (v : Int) = lg.degree (v : Int))
    (hsame : ∀ u ∈ p.indices, lg.SameAt lg' u) :
    approximatePagerank lg' fuel seed α ε = some (.ok (p, r)) := by
  unfold approximatePagerank at h ⊢
  have hi : aprInit lg' seed α ε = aprInit lg seed α ε := by
    unfold aprInit
    rw [hex, degrees_congr hseed]
  rw [hi]
  cases hst : aprInit lg seed α ε with
  | ok s =>
    rw [hst] at h
    have hp : s.p.OK := by
      unfold aprInit at hst
      split_ifs at hst
      simp only [Outcome.bind_eq_ok] at hst
      obtain ⟨ds, _, q, _, hs⟩ := hst
      cases hs
      exact ⟨by simp [Col.Sorted], by simp⟩
    exact (aprLoop_congr hp h).2 hsame
  | throw e => rw [hst] at h; cases h
  | ub => rw [hst] at h; cases h

theorem sweepLoop_congr {lg lg' : LGraph K} (total : K) : ∀ (vs : List Nat) (ds : List K) (s : SweepState K),
    (∀ v ∈ vs, lg'.neighbors (v : Int) = lg.neighbors (v : Int)) →
    sweepLoop lg' total vs ds s = sweepLoop lg total vs ds s
  | [], _, _, _ => rfl
  | _ :: _, [], _, _ => rfl
  | v :: vs, d :: ds, s, h => by
    simp only [sweepLoop]
    have : sweepStep lg' total s v d = sweepStep lg total s v d := by
      unfold sweepStep
      rw [h v (by simp)]
    rw [this]
    cases sweepStep lg total s v d with
    | ok s' =>
      simp only [Outcome.bind_ok]
      exact sweepLoop_congr total vs ds s' fun x hx => h x (by simp [hx])
    | throw e => rfl
    | ub => rfl

theorem mem_insertDesc {f : Nat → K} {i j : Nat} : ∀ {l : List Nat}, j ∈ insertDesc f i l → j = i ∨ j ∈ l
  | [], h => by simpa [insertDesc] using h
  | k :: l, h => by
    unfold insertDesc at h
    split_ifs at h
    · rcases List.mem_cons.1 h with h | h
      · exact Or.inr (by simp [h])
      · rcases mem_insertDesc h with h | h
        · exact Or.inl h
        · exact Or.inr (by simp [h])
    · simpa using h

theorem mem_of_mem_sortDesc {f : Nat → K} {j : Nat} : ∀ {l : List Nat}, j ∈ sortDesc f l → j ∈ l
  | [], h => by simp [sortDesc] at h
  | i :: l, h => by
    change j ∈ insertDesc f i (sortDesc f l) at h
    rcases mem_insertDesc h with h | h
    · simp [h]
    · exact List.mem_cons_of_mem _ (mem_of_mem_sortDesc h)

/-- **C93** (sweep sets are local).  `sweep_set_conductance` on a `LocalGraph` depends only on the neighbours and degrees of
the vertices with an entry in the vector. -/
theorem C93_sweep {lg lg' : LGraph K} (vec : SVec K)
    (h : ∀ u ∈ vec.indices, lg'.neighbors (u : Int) = lg.neighbors (u : Int) ∧ lg'.degree (u : Int) = lg.degree (u : Int)) :
    sweepSetLocal lg' vec = sweepSetLocal lg vec := by
  unfold sweepSetLocal sweepInner
  simp only
  rw [degrees_congr fun v hv => (h v (mem_of_mem_sortDesc hv)).2]
  cases lg.degrees (sortDesc vec.get vec.indices) with
  | ok ds =>
    simp only [Outcome.bind_ok]
    rw [sweepLoop_congr 0 _ ds _ fun v hv => (h v (mem_of_mem_sortDesc hv)).1]
  | throw e => rfl
  | ub => rfl

theorem condLoop_congr {lg lg' : LGraph K} (cl : List Int) : ∀ (vs : List Int) (s : K × K),
    (∀ v ∈ vs, lg'.neighbors v = lg.neighbors v) → condLoop lg' cl vs s = condLoop lg cl vs s
  | [], _, _ => rfl
  | v :: vs, (c, vol), h => by
    simp only [condLoop]
    rw [h v (by simp)]
    cases lg.neighbors v with
    | ok es =>
      simp only [Outcome.bind_ok]
      exact condLoop_congr cl vs _ fun x hx => h x (by simp [hx])
    | throw e => rfl
    | ub => rfl

/-- **C93** (conductance is local).  `conductance` depends only on the neighbours of the vertices of the set. -/
theorem C93_conductance {lg lg' : LGraph K} (S : List Int) (h : ∀ v ∈ S, lg'.neighbors v = lg.neighbors v) :
    conductance lg' S = conductance lg S := by
  unfold conductance
  rw [condLoop_congr S S _ h]

theorem normalise_indices : ∀ {c c' : Col K} {ds : List K}, normalise c ds = .ok c' → c'.map Prod.fst = c.map Prod.fst
  | [], _, _, h => by simp only [normalise] at h; cases h; rfl
  | _ :: _, _, [], h => by simp [normalise] at h
  | e :: c, c', d :: ds, h => by
    simp only [normalise, Outcome.bind_eq_ok] at h
    obtain ⟨c'', h1, h2⟩ := h
    cases h2
    simp [normalise_indices h1]

/-- **C93** (local clustering is local).  Let `p` be the approximate PageRank vector of the seed on one graph.  For every
other graph that gives the same answers about the vertices with an entry in `p` (their neighbours, their degrees and the
degrees of their neighbours), and has the same degree of the seed, `local_cluster_acl` returns the same cluster. -/
theorem C93_local_cluster_acl {lg lg' : LGraph K} {fuel seed : Nat} {α ε : K} {p r : SVec K}
    (h : approximatePagerank lg fuel ⟨seed + 1, [(seed, 1)]⟩ α ε = some (.ok (p, r)))
    (hex : lg'.vertexExists (seed : Int) = lg.vertexExists (seed : Int))
    (hseed : lg'.degree (seed : Int) = lg.degree (seed : Int))
    (hsame : ∀ u ∈ p.indices, lg.SameAt lg' u) :
    localClusterAcl lg' fuel (seed : Int) α ε = localClusterAcl lg fuel (seed : Int) α ε := by
  have h' := C93_pagerank (lg' := lg') h (by simpa using hex) (by simpa [SVec.indices] using hseed) hsame
  unfold localClusterAcl
  rw [hex, Int.toNat_natCast, h, h']
  have hsweep : sweepNormalised lg' p = sweepNormalised lg p := by
    unfold sweepNormalised
    rw [degrees_congr fun v hv => (hsame v hv).degree]
    cases lg.degrees p.indices with
    | ok ds =>
      simp only [Outcome.bind_ok]
      cases hn : normalise p.col ds with
      | ok c =>
        simp only [Outcome.bind_ok]
        refine C93_sweep ⟨p.rows, c⟩ fun u hu => ?_
        have : u ∈ p.indices := by
          unfold SVec.indices at hu ⊢
          rwa [normalise_indices hn] at hu
        exact ⟨(hsame u this).neighbors, (hsame u this).degree⟩
      | throw e => rfl
      | ub => rfl
    | throw e => rfl
    | ub => rfl
  simp only [hsweep]

/-! ## Graphs in memory -/

/-- The vertices that `local_cluster_acl` looks at: the seed, the vertices with an entry in `p`, and their neighbours. -/
def Explored (s : WGraph K) (seed : Nat) (p : SVec K) (v : Nat) : Prop :=
  v = seed ∨ v ∈ p.indices ∨ ∃ u ∈ p.indices, s.w u v ≠ 0

theorem deg_congr {g g' : Graph K} (hv : g.Valid) (hv' : g'.Valid) {v : Nat} (h : ∀ u, g'.abs.w v u = g.abs.w v u) :
    g'.abs.deg v = g.abs.deg v := by
  have key : ∀ (s : WGraph K) (N : Nat), s.n ≤ N → (∀ u, s.n ≤ u → s.w v u = 0) →
      s.deg v = ∑ u ∈ Finset.range N, s.w v u + s.w v v := by
    intro s N hN hz
    unfold WGraph.deg
    congr 1
    refine Finset.sum_subset (fun x hx => ?_) fun x _ hx => hz x ?_
    · rw [Finset.mem_range] at hx ⊢; omega
    · rw [Finset.mem_range] at hx; omega
  rw [key g.abs (max g.n g'.n) (le_max_left _ _) (fun u hu => Graph.abs_range hv v u hu),
    key g'.abs (max g.n g'.n) (le_max_right _ _) (fun u hu => Graph.abs_range hv' v u hu)]
  simp only [h]

theorem lt_of_degree {g : Graph K} {u : Nat} {d : K} (h : g.asLocal.degree (u : Int) = .ok d) : u < g.n := by
  change g.degree (u : Int) = _ at h
  by_contra hc
  unfold Graph.degree at h
  rw [Outcome.bind_eq_ok] at h
  obtain ⟨_, h1, _⟩ := h
  unfold Graph.checkVertex at h1
  split_ifs at h1
  omega

theorem pagerank_range {g : Graph K} {fuel seed : Nat} {α ε : K} {p r : SVec K}
    (h : approximatePagerank g.asLocal fuel ⟨seed + 1, [(seed, 1)]⟩ α ε = some (.ok (p, r))) :
    seed < g.n ∧ ∀ u ∈ p.indices, u < g.n := by
  obtain ⟨h1, ds, h2⟩ := pagerank_degree h
  refine ⟨?_, fun u hu => ?_⟩
  · simp only [SVec.indices, List.map_cons, List.map_nil, LGraph.degrees, Outcome.mapM', Outcome.bind_eq_ok] at h2
    obtain ⟨d, hd, _⟩ := h2
    exact lt_of_degree hd
  · obtain ⟨d, hd⟩ := h1 u hu
    exact lt_of_degree hd

/-- Graphs in memory whose columns `u` are the same, and whose weights at the neighbours of `u` are. -/
theorem sameAt_of {g g' : Graph K} (hv : g.Valid) (hv' : g'.Valid) {u : Nat} (hu : u < g.n) (hu' : u < g'.n)
    (hcol : g'.adj.col u = g.adj.col u)
    (hn : ∀ e ∈ g.adj.col u, e.1 < g'.n ∧ ∀ v, g'.abs.w e.1 v = g.abs.w e.1 v) : g.asLocal.SameAt g'.asLocal u := by
  have hdeg : ∀ v, v < g.n → v < g'.n → (∀ x, g'.abs.w v x = g.abs.w v x) →
      g'.asLocal.degree (v : Int) = g.asLocal.degree (v : Int) := by
    intro v h1 h2 h3
    rw [(Graph.asLocal_answers hv).deg v h1, (Graph.asLocal_answers hv').deg v h2, deg_congr hv hv' h3]
  have hrow : ∀ x, g'.abs.w u x = g.abs.w u x := by
    intro x
    rw [Graph.abs_symm hv, Graph.abs_symm hv']
    change (g'.adj.col u).coeff x = (g.adj.col u).coeff x
    rw [hcol]
  refine ⟨?_, ?_, hdeg u hu hu' hrow, ?_⟩
  · change g'.neighbors (u : Int) = g.neighbors (u : Int)
    rw [Graph.neighbors_eq hu, Graph.neighbors_eq hu', hcol]
  · change g'.neighborsUnweighted (u : Int) = g.neighborsUnweighted (u : Int)
    rw [Graph.neighborsUnweighted_eq hu, Graph.neighborsUnweighted_eq hu', hcol]
  · intro ns hns v hvn
    change g.neighborsUnweighted (u : Int) = _ at hns
    rw [Graph.neighborsUnweighted_eq hu] at hns
    cases hns
    obtain ⟨e, he, rfl⟩ := List.mem_map.1 hvn
    have hlt : e.1 < g.n := by
      have := hv.wf.row_lt he
      rwa [hv.rows] at this
    exact hdeg e.1 hlt (hn e he).1 (hn e he).2

/-- **C93** (two graphs).  Two graphs without explicit zeros: if the weights of all edges at the explored vertices are the
same, `local_cluster_acl` returns the same cluster, whatever the rest of the graphs is. -/
theorem C93_graphs {g g' : Graph K} (hv : g.Valid) (hz : g.adj.NoZeros) (hv' : g'.Valid) (hz' : g'.adj.NoZeros)
    {fuel seed : Nat} {α ε : K} {p r : SVec K}
    (h : approximatePagerank g.asLocal fuel ⟨seed + 1, [(seed, 1)]⟩ α ε = some (.ok (p, r)))
    (hw : ∀ v, Explored g.abs seed p v → v < g'.n ∧ ∀ x, g'.abs.w v x = g.abs.w v x) :
    localClusterAcl g'.asLocal fuel (seed : Int) α ε = localClusterAcl g.asLocal fuel (seed : Int) α ε := by
  obtain ⟨hseed, hp⟩ := pagerank_range h
  obtain ⟨hs', hsw⟩ := hw seed (Or.inl rfl)
  refine C93_local_cluster_acl h ?_ ?_ fun u hu => ?_
  · rw [(Graph.asLocal_answers hv).exist _ (by omega), (Graph.asLocal_answers hv').exist _ (by omega)]
    have : seed < g.abs.n := hseed
    have : seed < g'.abs.n := hs'
    rw [decide_eq_true (by omega), decide_eq_true (by omega)]
  · rw [(Graph.asLocal_answers hv).deg seed hseed, (Graph.asLocal_answers hv').deg seed hs', deg_congr hv hv' hsw]
  · obtain ⟨hu', huw⟩ := hw u (Or.inr (Or.inl hu))
    refine sameAt_of hv hv' (hp u hu) hu' ?_ fun e he => hw e.1 (Or.inr (Or.inr ⟨u, hu, ?_⟩))
    · refine Col.ext_coeff (hv'.wf.sorted u) (hv.wf.sorted u) (hz' u) (hz u) fun x => ?_
      have := huw x
      rw [Graph.abs_symm hv, Graph.abs_symm hv'] at this
      exact this
    · rw [Graph.abs_symm hv]
      change (g.adj.col u).coeff e.1 ≠ 0
      rw [Col.coeff_eq_of_mem (hv.wf.sorted u) he]
      exact hz u e he

/-- The end points of a mutating call. -/
def GOp.ends : GOp K → List Nat
  | .add i j _ => [i, j]
  | .remove i j => [i, j]

theorem step_far {g g' : Graph K} (hv : g.Valid) {op : GOp K} (h : g.step op = .ok g') :
    g'.Valid ∧ g.n ≤ g'.n ∧ ∀ v, v ∉ op.ends → (∀ x, g'.abs.w v x = g.abs.w v x) ∧
      ((∀ e ∈ g.adj.col v, e.2 ≠ 0) → g'.adj.col v = g.adj.col v) := by
  cases op with
  | add i j x =>
    obtain ⟨g1, h1, h2, h3, _, h5⟩ := Graph.addEdge_spec hv i j x
    change g.addEdge i j x = .ok g' at h
    rw [h1] at h
    cases h
    have hn : g'.n = max g.n (max i j + 1) := congrArg WGraph.n h3
    refine ⟨h2, by omega, fun v hvn => ?_⟩
    simp only [GOp.ends, List.mem_cons, List.not_mem_nil, or_false, not_or] at hvn
    have hw : ∀ x, g'.abs.w v x = g.abs.w v x := by
      intro y
      rw [h3]
      change (if _ then _ else _) = _
      rw [if_neg]
      rintro (⟨a, _⟩ | ⟨a, _⟩)
      · exact hvn.1 a
      · exact hvn.2 a
    refine ⟨hw, fun _ => Col.ext_of (h2.wf.sorted v) (hv.wf.sorted v) (fun a => ?_) fun a => ?_⟩
    · rw [h5]
      constructor
      · rintro (h | ⟨_, a⟩ | ⟨_, a⟩)
        · exact h
        · exact absurd a hvn.2
        · exact absurd a hvn.1
      · exact Or.inl
    · have := hw a
      rw [Graph.abs_symm hv, Graph.abs_symm h2] at this
      exact this
  | remove i j =>
    obtain ⟨g1, h1, h2, h3, h4, h5⟩ := Graph.removeEdge_spec hv i j
    change g.removeEdge i j = .ok g' at h
    rw [h1] at h
    cases h
    by_cases hij : i < g.n ∧ j < g.n
    · have h3' : g'.abs = { n := g.n, w := fun a b => if (a = i ∧ b = j) ∨ (a = j ∧ b = i) then 0 else g.abs.w a b } := by
        rw [h3]
        unfold WGraph.removeEdge
        exact if_pos hij
      have hn : g'.n = g.n := congrArg WGraph.n h3'
      refine ⟨h2, by omega, fun v hvn => ?_⟩
      simp only [GOp.ends, List.mem_cons, List.not_mem_nil, or_false, not_or] at hvn
      have hw : ∀ x, g'.abs.w v x = g.abs.w v x := by
        intro y
        rw [h3']
        change (if _ then _ else _) = _
        rw [if_neg]
        rintro (⟨a, _⟩ | ⟨a, _⟩)
        · exact hvn.1 a
        · exact hvn.2 a
      refine ⟨hw, fun hz => Col.ext_coeff (h2.wf.sorted v) (hv.wf.sorted v) ((h5 hij).2.1 v) hz fun a => ?_⟩
      have := hw a
      rw [Graph.abs_symm hv, Graph.abs_symm h2] at this
      exact this
    · rw [h4 hij]
      exact ⟨hv, le_rfl, fun v _ => ⟨fun _ => rfl, fun _ => rfl⟩⟩

theorem run_far {g g' : Graph K} (hv : g.Valid) {ops : List (GOp K)} (h : g.run ops = .ok g') :
    g'.Valid ∧ g.n ≤ g'.n ∧ ∀ v, (∀ op ∈ ops, v ∉ op.ends) → (∀ x, g'.abs.w v x = g.abs.w v x) ∧
      ((∀ e ∈ g.adj.col v, e.2 ≠ 0) → g'.adj.col v = g.adj.col v) := by
  refine Graph.run_induct (P := fun a => a.Valid ∧ g.n ≤ a.n ∧ ∀ v, (∀ op ∈ ops, v ∉ op.ends) →
    (∀ x, a.abs.w v x = g.abs.w v x) ∧ ((∀ e ∈ g.adj.col v, e.2 ≠ 0) → a.adj.col v = g.adj.col v)) ops
    ⟨hv, le_rfl, fun v _ => ⟨fun _ => rfl, fun _ => rfl⟩⟩ h ?_
  rintro a op b hop ⟨ha, hn, hrest⟩ hstep
  obtain ⟨h1, h2, h3⟩ := step_far ha hstep
  refine ⟨h1, hn.trans h2, fun v hvn => ?_⟩
  obtain ⟨k1, k2⟩ := hrest v hvn
  obtain ⟨m1, m2⟩ := h3 v (hvn op hop)
  refine ⟨fun x => (m1 x).trans (k1 x), fun hz => ?_⟩
  have := k2 hz
  rw [m2 (by rw [this]; exact hz), this]

/-- **C93** (edits elsewhere).  After any history of `add_edge` and `remove_edge` calls none of whose end points has been
explored — it may add vertices — `local_cluster_acl` from the same seed returns the same cluster. -/
theorem C93_far_history {g g' : Graph K} (hv : g.Valid) (hz : g.adj.NoZeros) {fuel seed : Nat} {α ε : K} {p r : SVec K}
    (h : approximatePagerank g.asLocal fuel ⟨seed + 1, [(seed, 1)]⟩ α ε = some (.ok (p, r)))
    (ops : List (GOp K)) (hrun : g.run ops = .ok g')
    (hfar : ∀ op ∈ ops, ∀ v ∈ op.ends, ¬ Explored g.abs seed p v) :
    localClusterAcl g'.asLocal fuel (seed : Int) α ε = localClusterAcl g.asLocal fuel (seed : Int) α ε := by
  obtain ⟨hseed, hp⟩ := pagerank_range h
  obtain ⟨hv', hn, hrest⟩ := run_far hv hrun
  have key : ∀ v, Explored g.abs seed p v → ∀ op ∈ ops, v ∉ op.ends := fun v he op hop hm => hfar op hop v hm he
  have hs' : seed < g'.n := by omega
  refine C93_local_cluster_acl h ?_ ?_ fun u hu => ?_
  · rw [(Graph.asLocal_answers hv).exist _ (by omega), (Graph.asLocal_answers hv').exist _ (by omega)]
    have : seed < g.abs.n := hseed
    have : seed < g'.abs.n := hs'
    rw [decide_eq_true (by omega), decide_eq_true (by omega)]
  · rw [(Graph.asLocal_answers hv).deg seed hseed, (Graph.asLocal_answers hv').deg seed hs',
      deg_congr hv hv' (hrest seed (key seed (Or.inl rfl))).1]
  · have hu' := hp u hu
    refine sameAt_of hv hv' hu' (by omega) ((hrest u (key u (Or.inr (Or.inl hu)))).2 (hz u)) fun e he => ?_
    have hlt : e.1 < g.n := by
      have := hv.wf.row_lt he
      rwa [hv.rows] at this
    refine ⟨by omega, (hrest e.1 (key e.1 (Or.inr (Or.inr ⟨u, hu, ?_⟩)))).1⟩
    rw [Graph.abs_symm hv]
    change (g.adj.col u).coeff e.1 ≠ 0
    rw [Col.coeff_eq_of_mem (hv.wf.sorted u) he]
    exact hz u e he

end

/-! ## A case that meets the hypotheses -/

/-- On the path 0 - 1 - 2 only the vertices 0 and 1 are explored from 0 (`locality` 1/2, error 1/4), so an edge from 2 to a new
vertex 5 and the removal of the (absent) self-loop at 2 do not change the cluster. -/
example : ∃ g', condPath.run [.add 2 5 7, .remove 2 2] = .ok g' ∧ g'.n = 6 ∧ g'.abs.w 2 5 = 7 ∧
    localClusterAcl g'.asLocal 2 (0 : Nat) (1 / 2) (1 / 4) = localClusterAcl condPath.asLocal 2 (0 : Nat) (1 / 2) (1 / 4) ∧
    localClusterAcl condPath.asLocal 2 (0 : Nat) (1 / 2) (1 / 4) = some (.ok [0]) := by
  have hc := Graph.check_spec (g := condPath) (by decide +kernel)
  obtain ⟨g', hrun, _, habs⟩ := Graph.run_spec [.add 2 5 7, .remove 2 2] hc.1
  have hp : approximatePagerank condPath.asLocal 2 ⟨0 + 1, [(0, 1)]⟩ (1 / 2) (1 / 4) =
      some (.ok (⟨1, [(0, 5 / 8)]⟩, ⟨2, [(0, 1 / 16), (1, 5 / 16)]⟩)) := by decide +kernel
  refine ⟨g', hrun, ?_, ?_, C93_far_history hc.1 hc.2.noZeros hp _ hrun ?_, by decide +kernel⟩
  · have := congrArg WGraph.n habs
    exact this
  · rw [habs]
    decide +kernel
  · have hfar : ∀ v, v = 2 ∨ v = 5 → ¬ Explored condPath.abs 0 (⟨1, [(0, 5 / 8)]⟩ : SVec ℚ) v := by
      rintro v hv (rfl | h | ⟨u, hu, h⟩)
      · omega
      · simp [SVec.indices] at h
        omega
      · simp only [SVec.indices, List.map_cons, List.map_nil, List.mem_singleton] at hu
        subst hu
        rcases hv with rfl | rfl <;> revert h <;> decide +kernel
    intro op hop v hv
    simp only [List.mem_cons, List.not_mem_nil, or_false] at hop
    rcases hop with rfl | rfl <;> simp only [GOp.ends, List.mem_cons, List.not_mem_nil, or_false] at hv <;>
      exact hfar v (by omega)

end Stag
