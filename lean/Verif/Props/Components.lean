import Verif.Components
import Verif.Spec.Reach
import Verif.GraphMutate
import Verif.GraphOpsLemmas
import Verif.Concrete
import Verif.Props.LocalGraph

/-!
# C30, C31: connected components
-/

namespace Stag

/-! ## The search -/

/-- What one round over the neighbours does. -/
theorem visit_fold (ns : List Int) : ∀ s : CompState, (∀ x, x ∈ s.set ↔ x ∈ s.vec) →
    ∃ new, (ns.foldl CompState.visit s).vec = s.vec ++ new ∧
      (ns.foldl CompState.visit s).frontier = new.reverse ++ s.frontier ∧
      (∀ x, x ∈ (ns.foldl CompState.visit s).set ↔ x ∈ (ns.foldl CompState.visit s).vec) ∧
      new.Nodup ∧ (∀ x ∈ new, x ∉ s.vec ∧ x ∈ ns) ∧ ∀ x ∈ ns, x ∈ s.vec ++ new := by
  induction ns with
  | nil =>
    intro s hs
    exact ⟨[], by simp, by simp, hs, List.nodup_nil, by simp, by simp⟩
  | cons n ns ih =>
    intro s hs
    rw [List.foldl_cons]
    by_cases h : n ∈ s.set
    · have hv : s.visit n = s := by unfold CompState.visit; rw [if_pos h]
      rw [hv]
      obtain ⟨new, h1, h2, h3, h4, h5, h6⟩ := ih s hs
      refine ⟨new, h1, h2, h3, h4, fun x hx => ⟨(h5 x hx).1, by simp [(h5 x hx).2]⟩, ?_⟩
      intro x hx
      rcases List.mem_cons.1 hx with rfl | hx
      · exact List.mem_append_left _ ((hs _).1 h)
      · exact h6 x hx
    · have hv : s.visit n = ⟨n :: s.set, s.vec ++ [n], n :: s.frontier⟩ := by
        unfold CompState.visit; rw [if_neg h]
      rw [hv]
      obtain ⟨new, h1, h2, h3, h4, h5, h6⟩ := ih ⟨n :: s.set, s.vec ++ [n], n :: s.frontier⟩ (by
        intro x
        simp only [List.mem_cons, List.mem_append, List.not_mem_nil, or_false, hs x]
        exact or_comm)
      have hnv : n ∉ s.vec := fun hc => h ((hs _).2 hc)
      refine ⟨n :: new, by rw [h1]; simp, by rw [h2]; simp, h3, ?_, ?_, ?_⟩
      · refine List.nodup_cons.2 ⟨?_, h4⟩
        intro hc
        exact (h5 n hc).1 (by simp)
      · intro x hx
        rcases List.mem_cons.1 hx with rfl | hx
        · exact ⟨hnv, by simp⟩
        · have := h5 x hx
          exact ⟨fun hc => this.1 (List.mem_append_left _ hc), by simp [this.2]⟩
      · intro x hx
        rcases List.mem_cons.1 hx with rfl | hx
        · simp
        · have := h6 x hx
          simpa using this

/-- Invariant of the search from `v`. -/
structure CompInv (E : Int → Int → Prop) (v : Int) (s : CompState) : Prop where
  same : ∀ x, x ∈ s.set ↔ x ∈ s.vec
  nodup : s.vec.Nodup
  start : v ∈ s.vec
  front : ∀ x ∈ s.frontier, x ∈ s.vec
  reach : ∀ x ∈ s.vec, Reach E v x
  closed : ∀ x ∈ s.vec, x ∉ s.frontier → ∀ y, E x y → y ∈ s.vec

theorem compLoop_spec {nbr : Int → Outcome (List Int)} {E : Int → Int → Prop} {v : Int}
    (univ : List Int) (huniv : ∀ u, Reach E v u → u ∈ univ)
    (hn : ∀ u, Reach E v u → ∃ ns, nbr u = .ok ns ∧ ∀ w, w ∈ ns ↔ E u w) :
    ∀ (fuel : Nat) (s : CompState), CompInv E v s →
      univ.length - s.vec.length + s.frontier.length ≤ fuel →
      ∃ c, compLoop nbr fuel s = some (.ok c) ∧ c.Nodup ∧ ∀ u, u ∈ c ↔ Reach E v u := by
  intro fuel
  induction fuel with
  | zero =>
    intro s hs hf
    obtain ⟨set, vec, frontier⟩ := s
    have : frontier = [] := List.length_eq_zero_iff.1 (by simp only at hf; omega)
    subst this
    refine ⟨vec, by unfold compLoop; rfl, hs.nodup, fun u => ⟨hs.reach u, ?_⟩⟩
    intro hu
    induction hu with
    | refl => exact hs.start
    | step _ he ih => exact hs.closed _ ih (by simp) _ he
  | succ fuel ih =>
    intro s hs hf
    obtain ⟨set, vec, frontier⟩ := s
    cases frontier with
    | nil =>
      refine ⟨vec, by unfold compLoop; rfl, hs.nodup, fun u => ⟨hs.reach u, ?_⟩⟩
      intro hu
      induction hu with
      | refl => exact hs.start
      | step _ he ih => exact hs.closed _ ih (by simp) _ he
    | cons x rest =>
      have hx : x ∈ vec := hs.front x (by simp)
      obtain ⟨ns, hns, hE⟩ := hn x (hs.reach x hx)
      have hstep : compLoop nbr (fuel + 1) ⟨set, vec, x :: rest⟩ =
          compLoop nbr fuel (ns.foldl CompState.visit ⟨set, vec, rest⟩) := by
        conv => lhs; unfold compLoop
        rw [hns]
      rw [hstep]
      obtain ⟨new, h1, h2, h3, h4, h5, h6⟩ := visit_fold ns ⟨set, vec, rest⟩ hs.same
      simp only at h1 h2 h5 h6
      have hinv : CompInv E v (ns.foldl CompState.visit ⟨set, vec, rest⟩) := by
        refine ⟨h3, ?_, ?_, ?_, ?_, ?_⟩
        · rw [h1, List.nodup_append]
          exact ⟨hs.nodup, h4, fun a ha b hb hab => (h5 b hb).1 (hab ▸ ha)⟩
        · rw [h1]; exact List.mem_append_left _ hs.start
        · intro y hy
          rw [h2] at hy
          rw [h1]
          rcases List.mem_append.1 hy with hy | hy
          · exact List.mem_append_right _ (List.mem_reverse.1 hy)
          · exact List.mem_append_left _ (hs.front y (by simp [hy]))
        · intro y hy
          rw [h1] at hy
          rcases List.mem_append.1 hy with hy | hy
          · exact hs.reach y hy
          · exact .step (hs.reach x hx) ((hE y).1 (h5 y hy).2)
        · intro y hy hyf z hz
          rw [h1] at hy ⊢
          rw [h2] at hyf
          rcases List.mem_append.1 hy with hy | hy
          · by_cases hyx : y = x
            · subst hyx; exact h6 z ((hE z).2 hz)
            · apply List.mem_append_left
              apply hs.closed y hy _ z hz
              intro hc
              rcases List.mem_cons.1 hc with hc | hc
              · exact hyx hc
              · exact hyf (List.mem_append_right _ hc)
          · exact absurd (List.mem_append_left _ (List.mem_reverse.2 hy)) hyf
      apply ih _ hinv
      have hle : (ns.foldl CompState.visit ⟨set, vec, rest⟩).vec.length ≤ univ.length :=
        (List.subperm_of_subset hinv.nodup (fun y hy => huniv y (hinv.reach y hy))).length_le
      rw [h1, List.length_append] at hle
      rw [h1, h2, List.length_append, List.length_append, List.length_reverse]
      simp only [List.length_cons] at hf
      omega

/-- The search from `v` in any graph: if the vertices reachable from `v` are among `univ` and
the graph answers for each of them with its neighbours. -/
theorem connectedComponent_spec {nbr : Int → Outcome (List Int)} {E : Int → Int → Prop} {v : Int}
    (univ : List Int) (huniv : ∀ u, Reach E v u → u ∈ univ)
    (hn : ∀ u, Reach E v u → ∃ ns, nbr u = .ok ns ∧ ∀ w, w ∈ ns ↔ E u w) {fuel : Nat}
    (hf : univ.length ≤ fuel) :
    ∃ c, connectedComponent nbr fuel v = some (.ok c) ∧ c.Nodup ∧ ∀ u, u ∈ c ↔ Reach E v u := by
  unfold connectedComponent
  apply compLoop_spec univ huniv hn
  · refine ⟨by simp, by simp, by simp, by simp, ?_, ?_⟩
    · intro x hx
      rw [List.mem_singleton] at hx
      subst hx
      exact .refl
    · intro x hx hxf
      exact absurd hx hxf
  · have : v ∈ univ := huniv v .refl
    have := List.length_pos_of_mem this
    simp only [List.length_singleton]
    omega

theorem Reach.trans {V : Type} {E : V → V → Prop} {a b c : V} (h1 : Reach E a b)
    (h2 : Reach E b c) : Reach E a c := by
  induction h2 with
  | refl => exact h1
  | step _ he ih => exact .step ih he

theorem Reach.symm {V : Type} {E : V → V → Prop} (hE : ∀ a b, E a b → E b a) {a b : V}
    (h : Reach E a b) : Reach E b a := by
  induction h with
  | refl => exact .refl
  | step _ he ih => exact Reach.trans (.step .refl (hE _ _ he)) ih

theorem compsLoop_spec {nbr : Int → Outcome (List Int)} {E : Int → Int → Prop}
    (hsym : ∀ a b, E a b → E b a) (univ : List Int)
    (huniv : ∀ v ∈ univ, ∀ u, Reach E v u → u ∈ univ)
    (hn : ∀ u ∈ univ, ∃ ns, nbr u = .ok ns ∧ ∀ w, w ∈ ns ↔ E u w) {fuel : Nat}
    (hf : univ.length ≤ fuel) : ∀ (vs found : List Int), (∀ v ∈ vs, v ∈ univ) →
      (∀ v ∈ found, ∀ u, Reach E v u → u ∈ found) →
      ∃ cs, compsLoop nbr fuel vs found = some (.ok cs) ∧ cs.flatten.Nodup ∧
        (∀ u, u ∈ cs.flatten ↔ u ∉ found ∧ ∃ v ∈ vs, Reach E v u) ∧
        (∀ c ∈ cs, c ≠ [] ∧ ∀ u ∈ c, ∀ w, w ∈ c ↔ Reach E u w) := by
  intro vs
  induction vs with
  | nil =>
    intro found _ _
    exact ⟨[], rfl, by simp, by simp, by simp⟩
  | cons v vs ih =>
    intro found hvs hfound
    have hvs' : ∀ x ∈ vs, x ∈ univ := fun x hx => hvs x (by simp [hx])
    unfold compsLoop
    by_cases h : v ∈ found
    · rw [if_pos h]
      obtain ⟨cs, h1, h2, h3, h4⟩ := ih found hvs' hfound
      refine ⟨cs, h1, h2, ?_, h4⟩
      intro u
      rw [h3]
      constructor
      · rintro ⟨a, x, hx, hr⟩; exact ⟨a, x, by simp [hx], hr⟩
      · rintro ⟨a, x, hx, hr⟩
        rcases List.mem_cons.1 hx with rfl | hx
        · exact absurd (hfound _ h u hr) a
        · exact ⟨a, x, hx, hr⟩
    · rw [if_neg h]
      have hvu := hvs v (by simp)
      obtain ⟨c, c1, c2, c3⟩ := connectedComponent_spec (nbr := nbr) (E := E) (v := v) univ (huniv v hvu)
        (fun u hu => hn u (huniv v hvu u hu)) hf
      rw [c1]
      simp only
      obtain ⟨cs, h1, h2, h3, h4⟩ := ih (found ++ c) hvs' (by
        intro x hx u hu
        rcases List.mem_append.1 hx with hx | hx
        · exact List.mem_append_left _ (hfound x hx u hu)
        · exact List.mem_append_right _ ((c3 u).2 (((c3 x).1 hx).trans hu)))
      rw [h1]
      simp only
      refine ⟨c :: cs, rfl, ?_, ?_, ?_⟩
      · rw [List.flatten_cons, List.nodup_append]
        refine ⟨c2, h2, ?_⟩
        intro a ha b hb hab
        subst hab
        exact ((h3 a).1 hb).1 (List.mem_append_right _ ha)
      · intro u
        rw [List.flatten_cons, List.mem_append, h3, c3]
        constructor
        · rintro (hr | ⟨a, x, hx, hr⟩)
          · refine ⟨fun hc => ?_, v, by simp, hr⟩
            exact h (hfound u hc v (hr.symm hsym))
          · exact ⟨fun hc => a (List.mem_append_left _ hc), x, by simp [hx], hr⟩
        · rintro ⟨a, x, hx, hr⟩
          rcases List.mem_cons.1 hx with rfl | hx
          · exact Or.inl hr
          · by_cases hv : Reach E v u
            · exact Or.inl hv
            · refine Or.inr ⟨?_, x, hx, hr⟩
              intro hc
              rcases List.mem_append.1 hc with hc | hc
              · exact a hc
              · exact hv ((c3 u).1 hc)
      · intro d hd
        rcases List.mem_cons.1 hd with rfl | hd
        · refine ⟨fun hc => by have := (c3 v).2 .refl; rw [hc] at this; simp at this, ?_⟩
          intro u hu w
          rw [c3]
          exact ⟨fun hw => (((c3 u).1 hu).symm hsym).trans hw, fun hw => ((c3 u).1 hu).trans hw⟩
        · exact h4 d hd

/-! ## Graphs in memory -/

section
set_option linter.unusedSectionVars false
variable {K : Type} [Field K] [LinearOrder K]

/-- Adjacency with the `StagInt` ids of the API. -/
def Graph.IntAdj (g : Graph K) (u v : Int) : Prop := 0 ≤ u ∧ 0 ≤ v ∧ g.abs.Adj u.toNat v.toNat

theorem nbrFn_spec {g : Graph K} (hv : g.Valid) (hz : g.adj.NoZeros) {u : Int} (h0 : 0 ≤ u)
    (h1 : u < g.n) : ∃ ns, g.nbrFn u = .ok ns ∧ ∀ w, w ∈ ns ↔ g.IntAdj u w := by
  have hns : g.neighborsUnweighted u = .ok ((g.adj.col u.toNat).map Prod.fst) := by
    unfold Graph.neighborsUnweighted Graph.degreeUnweighted
    have hc : g.checkVertex u = .ok () := by
      unfold Graph.checkVertex
      rw [if_neg (by omega), if_neg (by omega)]
    rw [hc]
    simp only [Outcome.bind_ok, Nat.add_sub_cancel, List.take_length]
  refine ⟨((g.adj.col u.toNat).map Prod.fst).map (fun k : Nat => (k : Int)), ?_, ?_⟩
  · unfold Graph.nbrFn
    rw [hns]
    rfl
  · intro w
    unfold Graph.IntAdj WGraph.Adj Graph.abs
    simp only [List.map_map, List.mem_map, Function.comp_apply]
    constructor
    · rintro ⟨e, he, rfl⟩
      have hr := hv.wf.row_lt he
      rw [hv.rows] at hr
      refine ⟨h0, by omega, by omega, by simpa using hr, ?_⟩
      rw [Int.toNat_natCast, hv.symm]
      have : g.adj.coeff e.1 u.toNat = e.2 := Col.coeff_eq_of_mem (hv.wf.sorted _) he
      rw [this]
      exact hz _ _ he
    · rintro ⟨_, hw, _, hwn, hne⟩
      rw [hv.symm] at hne
      exact ⟨_, Col.mem_of_coeff_ne_zero hne, by simp [hw]⟩

theorem intReach {g : Graph K} {u v : Int} (h0 : 0 ≤ u) : Reach g.IntAdj u v ↔
    0 ≤ v ∧ g.abs.Connected u.toNat v.toNat := by
  constructor
  · intro h
    induction h with
    | refl => exact ⟨h0, .refl⟩
    | step _ he ih => exact ⟨he.2.1, .step ih.2 he.2.2⟩
  · rintro ⟨hv, h⟩
    unfold WGraph.Connected at h
    have : ∀ w : Nat, Reach g.abs.Adj u.toNat w → Reach g.IntAdj u (w : Int) := by
      intro w hw
      induction hw with
      | refl => rw [Int.toNat_of_nonneg h0]; exact .refl
      | step _ he ih => exact .step ih ⟨by omega, by omega, by simpa using he⟩
    have := this _ h
    rwa [Int.toNat_of_nonneg hv] at this

theorem connected_lt {g : Graph K} {u v : Nat} (hu : u < g.n) (h : g.abs.Connected u v) :
    v < g.n := by
  unfold WGraph.Connected at h
  cases h with
  | refl => exact hu
  | step _ he => exact he.2.1

/-- The ids of the vertices. -/
def Graph.ids (g : Graph K) : List Int := (List.range g.n).map (fun k : Nat => (k : Int))

theorem Graph.mem_ids {g : Graph K} {v : Int} : v ∈ g.ids ↔ 0 ≤ v ∧ v < g.n := by
  unfold Graph.ids
  rw [List.mem_map]
  constructor
  · rintro ⟨k, hk, rfl⟩; rw [List.mem_range] at hk; omega
  · rintro ⟨h0, h1⟩; exact ⟨v.toNat, by rw [List.mem_range]; omega, by omega⟩

theorem Graph.length_ids {g : Graph K} : g.ids.length = g.n := by simp [Graph.ids]

theorem intReach_ids {g : Graph K} : ∀ v ∈ g.ids, ∀ u, Reach g.IntAdj v u → u ∈ g.ids := by
  intro v hv u hu
  rw [Graph.mem_ids] at hv ⊢
  obtain ⟨h0, h⟩ := (intReach hv.1).1 hu
  have := connected_lt (by omega) h
  omega

/-- **C30** (one component).  In a graph without stored zeros, `connected_component(g, v)` of an
existing vertex returns after at most `n` rounds, without repetition, exactly the vertices
reachable from `v` along edges. -/
theorem C30_component {g : Graph K} (hv : g.Valid) (hz : g.adj.NoZeros) {v fuel : Nat}
    (hvn : v < g.n) (hf : g.n ≤ fuel) :
    ∃ c : List Int, connectedComponent g.nbrFn fuel v = some (.ok c) ∧ c.Nodup ∧
      ∀ u : Int, u ∈ c ↔ 0 ≤ u ∧ g.abs.Connected v u.toNat := by
  have hmem : (v : Int) ∈ g.ids := Graph.mem_ids.2 (by omega)
  obtain ⟨c, h1, h2, h3⟩ := connectedComponent_spec (nbr := g.nbrFn) (E := g.IntAdj) (v := (v : Int))
    (fuel := fuel) g.ids (intReach_ids _ hmem) (by
      intro u hu
      have := Graph.mem_ids.1 (intReach_ids _ hmem u hu)
      exact nbrFn_spec hv hz this.1 this.2) (by rw [Graph.length_ids]; exact hf)
  refine ⟨c, h1, h2, fun u => ?_⟩
  rw [h3, intReach (by omega), Int.toNat_natCast]

/-- **C30** (missing start vertex).  A vertex that does not exist raises `invalid_argument`. -/
theorem C30_missing_vertex (g : Graph K) {v : Int} (h : v < 0 ∨ (g.n : Int) ≤ v) (fuel : Nat) :
    connectedComponent g.nbrFn (fuel + 1) v = some (.throw .invalidArgument) := by
  have hn : g.nbrFn v = .throw .invalidArgument := by
    unfold Graph.nbrFn Graph.neighborsUnweighted Graph.checkVertex
    by_cases h1 : (g.n : Int) ≤ v
    · rw [if_pos h1]; rfl
    · rw [if_neg h1, if_pos (by omega)]; rfl
  unfold connectedComponent compLoop
  rw [hn]

/-- **C30** (all components).  `connected_components(g)` returns; the lists are not empty, no
vertex occurs twice, together they contain exactly the vertices, and each list is exactly the set
of vertices connected to any of its members. -/
theorem C30_components {g : Graph K} (hv : g.Valid) (hz : g.adj.NoZeros) {fuel : Nat}
    (hf : g.n ≤ fuel) :
    ∃ cs : List (List Int), g.connectedComponents fuel = some (.ok cs) ∧
      cs.flatten.Nodup ∧ (∀ v : Int, v ∈ cs.flatten ↔ 0 ≤ v ∧ v < g.n) ∧
      ∀ c ∈ cs, c ≠ [] ∧ ∀ u ∈ c, ∀ w : Int,
        w ∈ c ↔ 0 ≤ w ∧ g.abs.Connected u.toNat w.toNat := by
  obtain ⟨cs, h1, h2, h3, h4⟩ := compsLoop_spec (nbr := g.nbrFn) (E := g.IntAdj) (fuel := fuel) (by
      rintro a b ⟨ha, hb, h⟩
      refine ⟨hb, ha, h.2.1, h.1, ?_⟩
      have := h.2.2
      simp only [Graph.abs] at this ⊢
      rwa [hv.symm]) g.ids intReach_ids (by
      intro u hu
      have := Graph.mem_ids.1 hu
      exact nbrFn_spec hv hz this.1 this.2) (by rw [Graph.length_ids]; exact hf) g.ids []
      (fun _ h => h) (by simp)
  have hmem : ∀ v : Int, v ∈ cs.flatten ↔ v ∈ g.ids := by
    intro v
    rw [h3]
    constructor
    · rintro ⟨_, x, hx, hr⟩; exact intReach_ids x hx v hr
    · intro h; exact ⟨by simp, v, h, .refl⟩
  refine ⟨cs, h1, h2, fun v => ?_, ?_⟩
  · rw [hmem, Graph.mem_ids]
  · intro c hc
    refine ⟨(h4 c hc).1, fun u hu w => ?_⟩
    have : u ∈ g.ids := (hmem u).1 (List.mem_flatten.2 ⟨c, hc, hu⟩)
    rw [(h4 c hc).2 u hu w, intReach (Graph.mem_ids.1 this).1]

/-- **C31** (`is_connected`).  On a graph with at least one vertex it is true exactly when every
two vertices are connected. -/
theorem C31_is_connected {g : Graph K} (hv : g.Valid) (hz : g.adj.NoZeros) (h0 : 0 < g.n)
    {fuel : Nat} (hf : g.n ≤ fuel) :
    ∃ b, g.isConnected fuel = some (.ok b) ∧
      (b = true ↔ ∀ u v, u < g.n → v < g.n → g.abs.Connected u v) := by
  obtain ⟨c, h1, h2, h3⟩ := C30_component hv hz h0 hf
  refine ⟨decide (c.length = g.n), ?_, ?_⟩
  · unfold Graph.isConnected
    rw [show ((0 : Nat) : Int) = 0 from rfl] at h1
    rw [h1]
  · have hsub : ∀ u ∈ c, u ∈ g.ids := by
      intro u hu
      have := (h3 u).1 hu
      have h4 := connected_lt h0 this.2
      exact Graph.mem_ids.2 (by omega)
    have hsymm : ∀ a b, g.abs.Adj a b → g.abs.Adj b a := by
      rintro a b ⟨x, y, z⟩
      refine ⟨y, x, ?_⟩
      simp only [Graph.abs] at z ⊢
      rwa [hv.symm]
    rw [decide_eq_true_eq]
    constructor
    · intro hl u v hu hv'
      have hperm : c.Perm g.ids :=
        (List.subperm_of_subset h2 hsub).perm_of_length_le (by rw [Graph.length_ids, hl])
      have hall : ∀ x, x < g.n → g.abs.Connected 0 x := by
        intro x hx
        have : (x : Int) ∈ c := hperm.mem_iff.2 (Graph.mem_ids.2 (by omega))
        simpa using ((h3 _).1 this).2
      exact ((hall u hu).symm hsymm).trans (hall v hv')
    · intro h
      have hsub2 : g.ids ⊆ c := by
        intro u hu
        have := Graph.mem_ids.1 hu
        exact (h3 u).2 ⟨this.1, h 0 u.toNat h0 (by omega)⟩
      have hnd : g.ids.Nodup := by
        unfold Graph.ids
        exact List.Nodup.map (fun a b h => by simpa using h) List.nodup_range
      have l1 := (List.subperm_of_subset h2 hsub).length_le
      have l2 := (List.subperm_of_subset hnd hsub2).length_le
      rw [Graph.length_ids] at l1 l2
      omega

/-- **C31** (empty graph).  `is_connected` of the empty graph raises `invalid_argument`. -/
theorem C31_empty_graph (g : Graph K) (h0 : g.n = 0) (fuel : Nat) :
    g.isConnected (fuel + 1) = some (.throw .invalidArgument) := by
  unfold Graph.isConnected
  rw [C30_missing_vertex g (v := 0) (Or.inr (by omega)) fuel]


/-! ## Graphs on disk -/

/-- `neighbors_unweighted` of an object on disk; before the call about `v` the object has
answered the queries `hist v`. -/
def diskNbr (F : Fmt K) (file : Str) (hist : Int → List LocalQuery) (v : Int) :
    Outcome (List Int) :=
  match (localNeighborsUnweighted F file (afterQueries F file (hist v)) v).1 with
  | some o => o
  | none => .ub

/-- **C30** (on disk).  `connected_component` on the file of a saved graph finds the same
component as in memory, whatever the state of the caches at each call. -/
theorem C30_on_disk [IsStrictOrderedRing K] (F : Fmt K) {g : Graph K} (hv : g.Valid)
    (hpr : g.Pruned) (hn : g.n ≤ 2 ^ 31) (hp : ∀ j, ∀ e ∈ g.adj.col j, F.printable e.2)
    {file : Str} (hs : saveAdjacencylist F g = .ok file) (hist : Int → List LocalQuery)
    {v fuel : Nat} (hvn : v < g.n) (hf : g.n ≤ fuel) :
    ∃ c : List Int, connectedComponent (diskNbr F file hist) fuel v = some (.ok c) ∧ c.Nodup ∧
      ∀ u : Int, u ∈ c ↔ 0 ≤ u ∧ g.abs.Connected v u.toNat := by
  have hmem : (v : Int) ∈ g.ids := Graph.mem_ids.2 (by omega)
  obtain ⟨c, h1, h2, h3⟩ := connectedComponent_spec (nbr := diskNbr F file hist) (E := g.IntAdj)
    (v := (v : Int)) (fuel := fuel) g.ids (intReach_ids _ hmem) (by
      intro u hu
      have hu' := Graph.mem_ids.1 (intReach_ids _ hmem u hu)
      obtain ⟨ns, hns, hE⟩ := nbrFn_spec hv hpr.noZeros hu'.1 hu'.2
      refine ⟨ns, ?_, hE⟩
      obtain ⟨es, d, h1, _, h3, _⟩ := (C28_saved_graph F g hv hpr (by omega) hn hp hs
        (hist u)).1 u.toNat (by omega)
      rw [Int.toNat_of_nonneg hu'.1] at h1 h3
      unfold diskNbr localNeighborsUnweighted
      simp only [h3, mapRes]
      rw [← hns]
      rw [show u = (u.toNat : Int) by omega, neighbors_pruned hpr (by omega)] at h1
      cases h1
      unfold Graph.nbrFn Graph.neighborsUnweighted Graph.degreeUnweighted
      have hc : g.checkVertex u = .ok () := by
        unfold Graph.checkVertex
        rw [if_neg (by omega), if_neg (by omega)]
      rw [hc]
      simp only [Outcome.bind_ok, Nat.add_sub_cancel, List.take_length, List.map_map]
      rfl) (by rw [Graph.length_ids]; exact hf)
  refine ⟨c, h1, h2, fun u => ?_⟩
  rw [h3, intReach (by omega), Int.toNat_natCast]

end

/-! ## Examples -/

/-- **C30** (negative result).  An entry of weight zero, stored by `add_edge(0, 1, 0)`, connects
its ends for `connected_component` although the weight is zero. -/
theorem C30_zero_weight_edge_connects :
    ∃ g h : Graph ℚ, g.addEdge 0 1 0 = .ok h ∧ h.Valid ∧ h.abs = g.abs ∧ ¬ h.abs.Adj 0 1 ∧
      connectedComponent g.nbrFn 2 0 = some (.ok [0]) ∧
      connectedComponent h.nbrFn 2 0 = some (.ok [0, 1]) := by
  refine ⟨⟨2, ⟨2, 2, [[], []]⟩, false⟩, ⟨2, ⟨2, 2, [[(1, 0)], [(0, 0)]]⟩, false⟩, ?_, ?_, ?_, ?_, ?_, ?_⟩
  · decide +kernel
  · have h := Graph.check_spec (g := (⟨2, ⟨2, 2, [[], []]⟩, false⟩ : Graph ℚ)) (by decide +kernel)
    obtain ⟨g', h1, h2, _⟩ := Graph.addEdge_spec h.1 0 1 (0 : ℚ)
    have : g' = ⟨2, ⟨2, 2, [[(1, 0)], [(0, 0)]]⟩, false⟩ := by
      have h3 : (⟨2, ⟨2, 2, [[], []]⟩, false⟩ : Graph ℚ).addEdge 0 1 0 =
        .ok ⟨2, ⟨2, 2, [[(1, 0)], [(0, 0)]]⟩, false⟩ := by decide +kernel
      rw [show ((0 : Nat) : Int) = 0 from rfl, show ((1 : Nat) : Int) = 1 from rfl, h3] at h1
      cases h1
      rfl
    rw [← this]
    exact h2
  · simp only [Graph.abs, WGraph.mk.injEq, true_and]
    funext i j
    unfold SprsMat.coeff SprsMat.col
    rcases j with _ | _ | j
    · simp only [List.getD_cons_zero, Col.coeff_cons]; split_ifs <;> rfl
    · simp only [List.getD_cons_succ, List.getD_cons_zero, Col.coeff_cons]; split_ifs <;> rfl
    · rfl
  · rintro ⟨_, _, h⟩
    exact h (by decide +kernel)
  · decide +kernel
  · decide +kernel

/-- Two components: `{0, 1}` and the vertex 2 with its self-loop. -/
example : loopGraph3.connectedComponents 3 = some (.ok [[0, 1], [2]]) ∧
    loopGraph3.isConnected 3 = some (.ok false) := by decide +kernel

/-- Non-vacuity of C30, C31. -/
example : loopGraph3.Valid ∧ loopGraph3.adj.NoZeros ∧ 0 < loopGraph3.n :=
  have hc := Graph.check_spec (g := loopGraph3) (by decide +kernel)
  ⟨hc.1, hc.2.noZeros, by decide⟩

end Stag
