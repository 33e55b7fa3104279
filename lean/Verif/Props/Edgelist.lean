import Verif.Props.ParseEdge
import Verif.GraphOpsLemmas

/-!
# C22, C23: loading and saving edgelists
-/

namespace Stag

section
set_option linter.unusedSectionVars false
variable {K : Type} [Field K] [LinearOrder K]

/-! ## Specification -/

/-- Total weight of the edges of the list that join `u` and `v`. -/
def listWeight (es : List (Edge K)) (u v : Nat) : K :=
  ((es.filter (fun e => decide ((e.v1 = u ∧ e.v2 = v) ∨ (e.v1 = v ∧ e.v2 = u)))).map Edge.w).sum

/-- The weighted graph described by a list of edges: parallel edges are added up, a
self-loop counts twice, the vertex count is one more than the largest id. -/
structure Describes (es : List (Edge K)) (n : Nat) (w : Nat → Nat → K) : Prop where
  bound : ∀ e ∈ es, e.v1 < n ∧ e.v2 < n
  least : n = 0 ∨ ∃ e ∈ es, n = e.v1 + 1 ∨ n = e.v2 + 1
  weight : ∀ u v, w u v = if u = v then 2 * listWeight es u u else listWeight es u v

/-- Two lists of edges that differ only in the order of the edges and of the endpoints. -/
def SameEdges (es es' : List (Edge K)) : Prop :=
  (es.map (fun e => (min e.v1 e.v2, max e.v1 e.v2, e.w))).Perm
    (es'.map (fun e => (min e.v1 e.v2, max e.v1 e.v2, e.w)))

/-! ## Lemmas -/

theorem le_foldl_maxVertex (es : List (Edge K)) : ∀ n : Nat,
    n ≤ es.foldl (fun n e => max (max n (e.v1 + 1)) (e.v2 + 1)) n ∧
    (∀ e ∈ es, e.v1 < es.foldl (fun n e => max (max n (e.v1 + 1)) (e.v2 + 1)) n ∧
      e.v2 < es.foldl (fun n e => max (max n (e.v1 + 1)) (e.v2 + 1)) n) ∧
    (es.foldl (fun n e => max (max n (e.v1 + 1)) (e.v2 + 1)) n = n ∨
      ∃ e ∈ es, es.foldl (fun n e => max (max n (e.v1 + 1)) (e.v2 + 1)) n = e.v1 + 1 ∨
        es.foldl (fun n e => max (max n (e.v1 + 1)) (e.v2 + 1)) n = e.v2 + 1) := by
  induction es with
  | nil => intro n; exact ⟨le_refl n, by simp, Or.inl rfl⟩
  | cons e es ih =>
    intro n
    obtain ⟨h1, h2, h3⟩ := ih (max (max n (e.v1 + 1)) (e.v2 + 1))
    rw [List.foldl_cons]
    revert h1 h2 h3
    generalize es.foldl (fun n e => max (max n (e.v1 + 1)) (e.v2 + 1))
      (max (max n (e.v1 + 1)) (e.v2 + 1)) = m
    intro h1 h2 h3
    refine ⟨by omega, ?_, ?_⟩
    · intro f hf
      rcases List.mem_cons.1 hf with rfl | hf
      · clear h3 h2 ih; omega
      · exact h2 f hf
    · rcases h3 with h3 | ⟨f, hf, h3⟩
      · by_cases hn : m = n
        · exact Or.inl hn
        · exact Or.inr ⟨e, by simp, by omega⟩
      · exact Or.inr ⟨f, by simp [hf], h3⟩

theorem maxVertex_spec (es : List (Edge K)) :
    (∀ e ∈ es, e.v1 < maxVertex es ∧ e.v2 < maxVertex es) ∧
    (maxVertex es = 0 ∨ ∃ e ∈ es, maxVertex es = e.v1 + 1 ∨ maxVertex es = e.v2 + 1) :=
  ⟨(le_foldl_maxVertex es 0).2.1, (le_foldl_maxVertex es 0).2.2⟩

theorem maxVertex_unique {es : List (Edge K)} {n : Nat}
    (h1 : ∀ e ∈ es, e.v1 < n ∧ e.v2 < n)
    (h2 : n = 0 ∨ ∃ e ∈ es, n = e.v1 + 1 ∨ n = e.v2 + 1) : maxVertex es = n := by
  obtain ⟨h3, h4⟩ := maxVertex_spec es
  rcases h2 with rfl | ⟨e, he, h2⟩
  · rcases h4 with h4 | ⟨f, hf, h4⟩
    · exact h4
    · have := h1 f hf; omega
  · have h5 := h3 e he
    rcases h4 with h4 | ⟨f, hf, h4⟩
    · omega
    · have := h1 f hf
      omega

omit [LinearOrder K] in
theorem listWeight_cons (e : Edge K) (es : List (Edge K)) (u v : Nat) :
    listWeight (e :: es) u v =
      (if (e.v1 = u ∧ e.v2 = v) ∨ (e.v1 = v ∧ e.v2 = u) then e.w else 0) + listWeight es u v := by
  unfold listWeight
  rw [List.filter_cons]
  by_cases h : (e.v1 = u ∧ e.v2 = v) ∨ (e.v1 = v ∧ e.v2 = u)
  · rw [if_pos h]; simp [h]
  · rw [if_neg h]; simp [h]

omit [LinearOrder K] in
theorem tripletSum_both (es : List (Edge K)) (u v : Nat) :
    SprsMat.tripletSum (es.flatMap bothTriplets) u v =
      if u = v then 2 * listWeight es u u else listWeight es u v := by
  rw [SprsMat.tripletSum_flatMap]
  induction es with
  | nil => simp [listWeight]
  | cons e es ih =>
    rw [List.map_cons, List.sum_cons, ih, listWeight_cons, listWeight_cons]
    simp only [bothTriplets, SprsMat.tripletSum_cons, SprsMat.tripletSum_nil]
    by_cases huv : u = v
    · subst huv
      rw [if_pos rfl, if_pos rfl]
      by_cases h : e.v1 = u ∧ e.v2 = u
      · rw [if_pos h, if_pos ⟨h.2, h.1⟩, if_pos (Or.inl h)]; ring
      · rw [if_neg h, if_neg (fun h' => h ⟨h'.2, h'.1⟩),
          if_neg (by rintro (h' | h') <;> exact h h')]; ring
    · rw [if_neg huv, if_neg huv]
      by_cases h : e.v1 = u ∧ e.v2 = v
      · rw [if_pos h, if_neg (by rintro ⟨h1, h2⟩; exact huv (by omega)), if_pos (Or.inl h)]; ring
      · rw [if_neg h]
        by_cases h' : e.v2 = u ∧ e.v1 = v
        · rw [if_pos h', if_pos (Or.inr ⟨h'.2, h'.1⟩)]; ring
        · rw [if_neg h', if_neg (by rintro (h1 | h1); exact h h1; exact h' ⟨h1.2, h1.1⟩)]; ring

omit [LinearOrder K] in
theorem listWeight_symm (es : List (Edge K)) (u v : Nat) : listWeight es u v = listWeight es v u := by
  unfold listWeight
  congr 2
  apply List.filter_congr
  intro e _
  exact decide_eq_decide.2 or_comm

theorem mapM_parse_rt (F : Fmt K) {ls : List Str} {es : List (Edge K)} :
    Outcome.mapM' (parseEdgeRT F) ls = .ok es ↔
      Outcome.mapM' (parseEdgelistLine F) ls = .ok es := by
  rw [Outcome.mapM'_eq_ok, Outcome.mapM'_eq_ok]
  unfold parseEdgeRT
  simp only [Outcome.rethrow_eq_ok]

/-- The matrix given to the constructor. -/
theorem both_matrix (es : List (Edge K)) :
    ∃ m : SprsMat K, SprsMat.setFromTriplets (maxVertex es) (maxVertex es)
        (es.flatMap bothTriplets) = .ok m ∧ m.WF ∧ m.rows = maxVertex es ∧ m.cols = maxVertex es ∧
      (∀ i j, m.coeff i j = SprsMat.tripletSum (es.flatMap bothTriplets) i j) ∧
      (∀ i j, (∃ v, (i, v) ∈ m.col j) ↔ ∃ t ∈ es.flatMap bothTriplets, t.row = i ∧ t.col = j) := by
  apply SprsMat.setFromTriplets_spec
  intro t ht
  rw [List.mem_flatMap] at ht
  obtain ⟨e, he, ht⟩ := ht
  have := (maxVertex_spec es).1 e he
  simp only [bothTriplets, List.mem_cons, List.not_mem_nil, or_false] at ht
  rcases ht with rfl | rfl
  · exact ⟨this.1, this.2⟩
  · exact ⟨this.2, this.1⟩

theorem loadEdgelist_of_parse (F : Fmt K) {file : Str} {es : List (Edge K)}
    (h : Outcome.mapM' (parseEdgelistLine F) (contentLines file) = .ok es) :
    loadEdgelist F file = (SprsMat.setFromTriplets (maxVertex es) (maxVertex es)
        (es.flatMap bothTriplets) >>= Graph.ofMatrix) := by
  unfold loadEdgelist
  rw [(mapM_parse_rt F).2 h]; rfl

variable [IsStrictOrderedRing K]

theorem listWeight_nonneg {es : List (Edge K)} (h : ∀ e ∈ es, 0 ≤ e.w) (u v : Nat) :
    0 ≤ listWeight es u v := by
  unfold listWeight
  apply List.sum_nonneg
  intro x hx
  rw [List.mem_map] at hx
  obtain ⟨e, he, rfl⟩ := hx
  exact h e (List.mem_filter.1 he).1

/-- **C22** (meaning).  If every content line parses and no weight is negative, the file loads to
the graph its lines describe, up to the pruning of weights at most 1e-10. -/
theorem C22_load (F : Fmt K) (file : Str) (es : List (Edge K))
    (h : Outcome.mapM' (parseEdgelistLine F) (contentLines file) = .ok es)
    (hw : ∀ e ∈ es, 0 ≤ e.w) :
    ∃ (g : Graph K) (w : Nat → Nat → K), loadEdgelist F file = .ok g ∧ g.Valid ∧ g.Pruned ∧
      Describes es g.n w ∧ ∀ u v, g.adj.coeff u v = thr (w u v) := by
  obtain ⟨m, hm, h1, h2, h3, h4, _⟩ := both_matrix es
  have hco : ∀ i j, m.coeff i j = if i = j then 2 * listWeight es i i else listWeight es i j :=
    fun i j => by rw [h4, tripletSum_both]
  have hnn : ∀ i j, 0 ≤ m.coeff i j := by
    intro i j
    rw [hco]
    have hi := listWeight_nonneg hw i i
    split_ifs
    · linarith
    · exact listWeight_nonneg hw i j
  have hsy : ∀ i j, m.coeff i j = m.coeff j i := by
    intro i j
    rw [hco, hco]
    by_cases hij : i = j
    · subst hij; rfl
    · rw [if_neg hij, if_neg (Ne.symm hij), listWeight_symm]
  obtain ⟨g, hg, hv, _, hn, hc, hp⟩ := Graph.ofMatrix_nonneg h1 (by omega) hnn hsy
  refine ⟨g, m.coeff, ?_, hv, hp, ⟨?_, ?_, hco⟩, hc⟩
  · rw [loadEdgelist_of_parse F h, hm]; exact hg
  · rw [hn, h3]; exact (maxVertex_spec es).1
  · rw [hn, h3]; exact (maxVertex_spec es).2

omit [IsStrictOrderedRing K] in
omit [LinearOrder K] in
theorem SameEdges.listWeight {es es' : List (Edge K)} (h : SameEdges es es') (u v : Nat) :
    listWeight es u v = listWeight es' u v := by
  have key : ∀ es : List (Edge K), Stag.listWeight es u v =
      ((es.map (fun e => (min e.v1 e.v2, max e.v1 e.v2, e.w))).map
        (fun p => if p.1 = min u v ∧ p.2.1 = max u v then p.2.2 else 0)).sum := by
    intro es
    induction es with
    | nil => rfl
    | cons e es ih =>
      rw [listWeight_cons, ih, List.map_cons, List.map_cons, List.sum_cons]
      congr 1
      by_cases hc : (e.v1 = u ∧ e.v2 = v) ∨ (e.v1 = v ∧ e.v2 = u)
      · rw [if_pos hc, if_pos (by simp only; omega)]
      · rw [if_neg hc, if_neg (by simp only; omega)]
  rw [key es, key es', (h.map _).sum_eq]

omit [IsStrictOrderedRing K] in
theorem SameEdges.maxVertex {es es' : List (Edge K)} (h : SameEdges es es') :
    maxVertex es = maxVertex es' := by
  have key : ∀ es es' : List (Edge K), SameEdges es es' → ∀ e ∈ es, ∃ e' ∈ es',
      (e'.v1 = e.v1 ∧ e'.v2 = e.v2) ∨ (e'.v1 = e.v2 ∧ e'.v2 = e.v1) := by
    intro es es' h e he
    have : (min e.v1 e.v2, max e.v1 e.v2, e.w) ∈
        es'.map (fun e => (min e.v1 e.v2, max e.v1 e.v2, e.w)) :=
      h.subset (List.mem_map.2 ⟨e, he, rfl⟩)
    rw [List.mem_map] at this
    obtain ⟨e', he', heq⟩ := this
    simp only [Prod.mk.injEq] at heq
    exact ⟨e', he', by omega⟩
  obtain ⟨h1, h2⟩ := maxVertex_spec es'
  apply maxVertex_unique
  · intro e he
    obtain ⟨e', he', hh⟩ := key _ _ h e he
    have := h1 e' he'
    omega
  · rcases h2 with h2 | ⟨e', he', h2⟩
    · exact Or.inl h2
    · obtain ⟨e, he, hh⟩ := key _ _ h.symm e' he'
      exact Or.inr ⟨e, he, by omega⟩

omit [IsStrictOrderedRing K] in
/-- **C22** (order).  Comments, blank lines, the order of the lines, the order of the endpoints
and the separators do not matter: two files whose content lines parse to the same edges up to
order load to the same result, whatever the signs of the weights. -/
theorem C22_order_independent (F : Fmt K) (file file' : Str) (es es' : List (Edge K))
    (h : Outcome.mapM' (parseEdgelistLine F) (contentLines file) = .ok es)
    (h' : Outcome.mapM' (parseEdgelistLine F) (contentLines file') = .ok es')
    (hs : SameEdges es es') : loadEdgelist F file = loadEdgelist F file' := by
  obtain ⟨m, hm, h1, h2, h3, h4, h5⟩ := both_matrix es
  obtain ⟨m', hm', h1', h2', h3', h4', h5'⟩ := both_matrix es'
  have hmv := hs.maxVertex
  have hmm : m = m' := by
    apply SprsMat.ext_col h1 h1' (by omega) (by omega)
    intro j _
    apply Col.ext_of (h1.sorted j) (h1'.sorted j)
    · intro i
      rw [h5, h5']
      have key : ∀ es es' : List (Edge K), SameEdges es es' →
          (∃ t ∈ es.flatMap bothTriplets, t.row = i ∧ t.col = j) →
          ∃ t ∈ es'.flatMap bothTriplets, t.row = i ∧ t.col = j := by
        rintro es es' hs ⟨t, ht, hij⟩
        rw [List.mem_flatMap] at ht
        obtain ⟨e, he, ht⟩ := ht
        have : (min e.v1 e.v2, max e.v1 e.v2, e.w) ∈
            es'.map (fun e => (min e.v1 e.v2, max e.v1 e.v2, e.w)) :=
          hs.subset (List.mem_map.2 ⟨e, he, rfl⟩)
        rw [List.mem_map] at this
        obtain ⟨e', he', heq⟩ := this
        simp only [Prod.mk.injEq] at heq
        simp only [bothTriplets, List.mem_cons, List.not_mem_nil, or_false] at ht
        have hcase : (e'.v1 = i ∧ e'.v2 = j) ∨ (e'.v2 = i ∧ e'.v1 = j) := by
          rcases ht with rfl | rfl <;> simp only at hij <;> omega
        rcases hcase with hc | hc
        · exact ⟨⟨e'.v1, e'.v2, e'.w⟩, List.mem_flatMap.2 ⟨e', he', by simp [bothTriplets]⟩, hc⟩
        · exact ⟨⟨e'.v2, e'.v1, e'.w⟩, List.mem_flatMap.2 ⟨e', he', by simp [bothTriplets]⟩, hc⟩
      exact ⟨key es es' hs, key es' es hs.symm⟩
    · intro i
      have : m.coeff i j = m'.coeff i j := by
        rw [h4, h4', tripletSum_both, tripletSum_both, hs.listWeight, hs.listWeight]
      exact this
  rw [loadEdgelist_of_parse F h, loadEdgelist_of_parse F h', hm, hm', hmm]

omit [IsStrictOrderedRing K] in
/-- **C22** (malformed).  The first content line that does not parse decides: loading raises
`runtime_error` if the parser raised `invalid_argument` (and the parser's own exception
otherwise); nothing is returned. -/
theorem C22_malformed (F : Fmt K) (file : Str) (pre post : List Str) (line : Str) (e : Exn)
    (hf : contentLines file = pre ++ line :: post)
    (hpre : ∀ l ∈ pre, ∃ x, parseEdgelistLine F l = .ok x)
    (he : parseEdgelistLine F line = .throw e) :
    loadEdgelist F file = .throw (if e = .invalidArgument then .runtimeError else e) := by
  unfold loadEdgelist
  rw [hf, Outcome.mapM'_first_throw (e := if e = .invalidArgument then .runtimeError else e)]
  · rfl
  · intro l hl
    obtain ⟨x, hx⟩ := hpre l hl
    exact ⟨x, by unfold parseEdgeRT; rw [hx]; rfl⟩
  · unfold parseEdgeRT
    rw [he]
    simp only [Outcome.rethrow]
    split_ifs <;> rfl

/-! ## C23 -/

omit [IsStrictOrderedRing K] [LinearOrder K] in
theorem isLine_edgeLine (F : Fmt K) (e : Edge K) (hw : F.printable e.w) : IsLine (edgeLine F e) := by
  have h1 := printNat_chars e.v1
  have h2 := printNat_chars e.v2
  have h3 := F.print_chars e.w hw
  unfold edgeLine IsLine
  constructor
  · intro h
    simp only [List.mem_append, List.mem_cons] at h
    rcases h with h | h | h | h | h
    · exact (h1 _ h).2.2.2.1 rfl
    · exact absurd h (by decide)
    · exact (h2 _ h).2.2.2.1 rfl
    · exact absurd h (by decide)
    · exact (h3 _ h).2.2.2.1 rfl
  · intro h
    simp only [List.mem_append, List.mem_cons] at h
    rcases h with h | h | h | h | h
    · exact (h1 _ h).2.2.2.2.1 rfl
    · exact absurd h (by decide)
    · exact (h2 _ h).2.2.2.2.1 rfl
    · exact absurd h (by decide)
    · exact (h3 _ h).2.2.2.2.1 rfl

theorem isContent_printNat (n : Nat) (s : Str) : isContent (printNat n ++ s) = true := by
  have h := printNat_chars n
  have hne := printNat_ne n
  revert h hne
  cases printNat n with
  | nil => intro _ hne; exact absurd rfl hne
  | cons c t =>
    intro h _
    have := h c (by simp)
    simp [isContent, this]

omit [IsStrictOrderedRing K] [LinearOrder K] in
theorem isContent_edgeLine (F : Fmt K) (e : Edge K) : isContent (edgeLine F e) = true :=
  isContent_printNat _ _

theorem isLine_append {a b : Str} (ha : IsLine a) (hb : IsLine b) : IsLine (a ++ b) := by
  unfold IsLine at *
  simp [ha, hb]

theorem isLine_printNat (n : Nat) : IsLine (printNat n) :=
  ⟨fun h => (printNat_chars n _ h).2.2.2.1 rfl, fun h => (printNat_chars n _ h).2.2.2.2.1 rfl⟩

theorem header_spec (n m : Nat) : ∀ l ∈ [headerGen, headerN n, headerM m],
    IsLine l ∧ isContent l = false := by
  intro l hl
  simp only [List.mem_cons, List.not_mem_nil, or_false] at hl
  rcases hl with rfl | rfl | rfl
  · exact ⟨⟨by decide, by decide⟩, by decide⟩
  · exact ⟨isLine_append ⟨by decide, by decide⟩ (isLine_printNat n), rfl⟩
  · exact ⟨isLine_append ⟨by decide, by decide⟩ (isLine_printNat m), rfl⟩

omit [IsStrictOrderedRing K] in
theorem contentLines_unlines {hd ls : List Str}
    (hh : ∀ l ∈ hd, IsLine l ∧ isContent l = false) (hl : ∀ l ∈ ls, IsLine l ∧ isContent l = true) :
    contentLines (unlines (hd ++ ls)) = ls := by
  unfold contentLines
  rw [fileLines_unlines]
  · rw [List.filter_append, List.filter_append]
    rw [List.filter_eq_nil_iff.2, List.filter_eq_self.2]
    · simp [isContent_nil]
    · intro l h; exact (hl l h).2
    · intro l h; simp [(hh l h).2]
  · intro l h
    rcases List.mem_append.1 h with h | h
    · exact (hh l h).1
    · exact (hl l h).1

omit [IsStrictOrderedRing K] in
theorem mem_upperEdges {g : Graph K} (hv : g.Valid) {e : Edge K} :
    e ∈ upperEdges g ↔ e.v1 < e.v2 ∧ (e.v1, e.w) ∈ g.adj.col e.v2 := by
  unfold upperEdges
  simp only [List.mem_flatMap, List.mem_range, List.mem_map, List.mem_filter, decide_eq_true_eq]
  constructor
  · rintro ⟨k, _, x, ⟨hx, hlt⟩, rfl⟩
    exact ⟨hlt, hx⟩
  · rintro ⟨hlt, hm⟩
    refine ⟨e.v2, ?_, (e.v1, e.w), ⟨hm, hlt⟩, rfl⟩
    by_contra hc
    rw [hv.wf.col_nil (by omega)] at hm
    simp at hm

omit [IsStrictOrderedRing K] in
/-- Writing and reading back the content lines. -/
theorem parse_saved (F : Fmt K) (g : Graph K) (hv : g.Valid) (hn : g.n ≤ 2 ^ 31)
    (hp : ∀ j, ∀ e ∈ g.adj.col j, F.printable e.2) :
    Outcome.mapM' (parseEdgelistLine F) (contentLines (saveEdgelist F g)) =
      .ok (upperEdges g) := by
  have hb : ∀ e ∈ upperEdges g, e.v1 < 2 ^ 31 ∧ e.v2 < 2 ^ 31 ∧ F.printable e.w := by
    intro e he
    rw [mem_upperEdges hv] at he
    have h1 := hv.wf.row_lt he.2
    have h2 : e.v2 < g.adj.cols := by
      by_contra hc
      have := he.2
      rw [hv.wf.col_nil (by omega)] at this
      simp at this
    rw [hv.rows] at h1
    rw [hv.cols] at h2
    simp only at h1
    exact ⟨by omega, by omega, hp _ _ he.2⟩
  unfold saveEdgelist
  rw [contentLines_unlines (header_spec _ _)]
  · rw [Outcome.mapM'_map, Outcome.mapM'_total id]
    · simp
    · intro e he
      obtain ⟨h1, h2, h3⟩ := hb e he
      exact parse_edgeLine F e h1 h2 h3
  · intro l hl
    rw [List.mem_map] at hl
    obtain ⟨e, he, rfl⟩ := hl
    exact ⟨isLine_edgeLine F e (hb e he).2.2, isContent_edgeLine F e⟩

omit [LinearOrder K] [IsStrictOrderedRing K] in
theorem listWeight_append (a b : List (Edge K)) (u v : Nat) :
    listWeight (a ++ b) u v = listWeight a u v + listWeight b u v := by
  unfold listWeight; simp

omit [LinearOrder K] [IsStrictOrderedRing K] in
theorem listWeight_col (c : Col K) (hs : c.Sorted) (k u v : Nat) (huv : u < v) :
    listWeight ((c.filter (fun e => decide (e.1 < k))).map
      (fun e => (⟨e.1, k, e.2⟩ : Edge K))) u v = if k = v then c.coeff u else 0 := by
  induction c with
  | nil => simp [listWeight, Col.coeff]
  | cons e c ih =>
    have hs' := (Col.sorted_cons.1 hs).2
    have h1 := (Col.sorted_cons.1 hs).1
    have ih := ih hs'
    obtain ⟨r, x⟩ := e
    have hz : r = u → Col.coeff c u = 0 := by
      rintro rfl
      apply Col.coeff_eq_zero_of_forall
      intro f hf
      have := h1 f hf
      simp only at this
      omega
    rw [List.filter_cons, Col.coeff_cons]
    by_cases hr : r < k
    · rw [if_pos (by simpa using hr), List.map_cons, listWeight_cons, ih]
      simp only
      by_cases hk : k = v
      · subst hk
        rw [if_pos rfl, if_pos rfl]
        by_cases hru : r = u
        · rw [if_pos (Or.inl ⟨hru, rfl⟩), if_pos hru, hz hru, add_zero]
        · rw [if_neg (by omega), if_neg hru, zero_add]
      · rw [if_neg hk, if_neg hk, if_neg (by omega), zero_add]
    · rw [if_neg (by simpa using hr), ih]
      by_cases hk : k = v
      · rw [if_pos hk, if_pos hk, if_neg (by omega)]
      · rw [if_neg hk, if_neg hk]

omit [LinearOrder K] [IsStrictOrderedRing K] in
theorem listWeight_flatMap {α : Type} (l : List α) (f : α → List (Edge K)) (u v : Nat) :
    listWeight (l.flatMap f) u v = (l.map (fun a => listWeight (f a) u v)).sum := by
  induction l with
  | nil => rfl
  | cons a l ih => rw [List.flatMap_cons, listWeight_append, ih]; simp

omit [IsStrictOrderedRing K] in
theorem listWeight_upper {g : Graph K} (hv : g.Valid) (u v : Nat) :
    listWeight (upperEdges g) u v = if u = v then 0 else g.adj.coeff u v := by
  have main : ∀ u v, u < v → listWeight (upperEdges g) u v = g.adj.coeff u v := by
    intro u v huv
    unfold upperEdges
    rw [listWeight_flatMap, sum_list_range]
    rw [Finset.sum_congr rfl (fun k _ => listWeight_col _ (hv.wf.sorted k) k u v huv)]
    rw [Finset.sum_ite_eq']
    split_ifs with hm
    · rfl
    · rw [Finset.mem_range] at hm
      exact (hv.wf.coeff_of_cols_le (by omega) u).symm
  rcases Nat.lt_trichotomy u v with h | h | h
  · rw [if_neg (by omega), main u v h]
  · subst h
    rw [if_pos rfl]
    unfold listWeight
    rw [List.filter_eq_nil_iff.2]
    · rfl
    · intro e he
      have := ((mem_upperEdges hv).1 he).1
      simp only [decide_eq_true_eq]
      omega
  · rw [if_neg (by omega), listWeight_symm, main v u h, hv.symm]

/-- **C23** (what survives).  Saving a graph as an edgelist and loading it back keeps every edge
between distinct vertices with its weight; self-loops and trailing vertices without such edges
are lost. -/
theorem C23_save_load (F : Fmt K) (g : Graph K) (hv : g.Valid) (hpr : g.Pruned) (hn : g.n ≤ 2 ^ 31)
    (hp : ∀ j, ∀ e ∈ g.adj.col j, F.printable e.2) :
    ∃ g', loadEdgelist F (saveEdgelist F g) = .ok g' ∧ g'.Valid ∧ g'.Pruned ∧
      (∀ u v, g'.adj.coeff u v = if u = v then 0 else g.adj.coeff u v) ∧
      (g'.n = 0 ∨ ∃ u, u ≠ g'.n - 1 ∧ g.adj.coeff u (g'.n - 1) ≠ 0) ∧
      (∀ u v, u ≠ v → g.adj.coeff u v ≠ 0 → u < g'.n ∧ v < g'.n) := by
  obtain ⟨g', w, h1, h2, h3, h4, h5⟩ := C22_load F _ _ (parse_saved F g hv hn hp) (by
    intro e he
    rw [mem_upperEdges hv] at he
    exact le_of_lt (lt_trans epsilon_pos (hpr _ _ he.2)))
  refine ⟨g', h1, h2, h3, ?_, ?_, ?_⟩
  · intro u v
    rw [h5, h4.weight, listWeight_upper hv, listWeight_upper hv]
    by_cases huv : u = v
    · rw [if_pos huv, if_pos rfl, if_pos huv, mul_zero, Graph.thr_zero]
    · rw [if_neg huv, if_neg huv, hpr.thr]
  · rcases h4.least with h | ⟨e, he, h⟩
    · exact Or.inl h
    · right
      rw [mem_upperEdges hv] at he
      have hb := h4.bound e ((mem_upperEdges hv).2 he)
      have hc : g.adj.coeff e.v1 e.v2 = e.w := Col.coeff_eq_of_mem (hv.wf.sorted _) he.2
      have hne : g.adj.coeff e.v1 e.v2 ≠ 0 := by
        rw [hc]; exact ne_of_gt (lt_trans epsilon_pos (hpr _ _ he.2))
      refine ⟨e.v1, by omega, ?_⟩
      have : g'.n - 1 = e.v2 := by omega
      rw [this]; exact hne
  · intro u v huv hne
    rcases Nat.lt_or_ge u v with h | h
    · have := h4.bound ⟨u, v, g.adj.coeff u v⟩
        ((mem_upperEdges hv).2 ⟨h, Col.mem_of_coeff_ne_zero hne⟩)
      exact this
    · rw [hv.symm] at hne
      have := h4.bound ⟨v, u, g.adj.coeff v u⟩
        ((mem_upperEdges hv).2 ⟨by simp only; omega, Col.mem_of_coeff_ne_zero hne⟩)
      exact ⟨this.2, this.1⟩

/-- **C23** (round trip).  A graph without self-loops whose last vertex is not isolated is loaded
back unchanged. -/
theorem C23_round_trip (F : Fmt K) (g : Graph K) (hv : g.Valid) (hpr : g.Pruned)
    (hn : g.n ≤ 2 ^ 31) (hp : ∀ j, ∀ e ∈ g.adj.col j, F.printable e.2)
    (hloop : ∀ u, g.adj.coeff u u = 0)
    (hlast : g.n = 0 ∨ ∃ u, g.adj.coeff u (g.n - 1) ≠ 0) :
    ∃ g', loadEdgelist F (saveEdgelist F g) = .ok g' ∧ g'.n = g.n ∧ g'.adj = g.adj := by
  obtain ⟨g', h1, h2, h3, h4, h5, h6⟩ := C23_save_load F g hv hpr hn hp
  have hle : g'.n ≤ g.n := by
    rcases h5 with h | ⟨u, _, h⟩
    · omega
    · by_contra hc
      exact h (hv.wf.coeff_of_cols_le (by rw [hv.cols]; omega) u)
  have hge : g.n ≤ g'.n := by
    rcases hlast with h | ⟨u, h⟩
    · omega
    · have hne : u ≠ g.n - 1 := by rintro rfl; exact h (hloop _)
      have := h6 u (g.n - 1) hne h
      omega
  have hnn : g'.n = g.n := by omega
  refine ⟨g', h1, hnn, ?_⟩
  apply SprsMat.ext_coeff h2.wf hv.wf h3.noZeros hpr.noZeros
  · rw [h2.rows, hv.rows, hnn]
  · rw [h2.cols, hv.cols, hnn]
  · intro i j
    rw [h4]
    by_cases hij : i = j
    · subst hij; rw [if_pos rfl, hloop]
    · rw [if_neg hij]

end

/-- **C22** (an exception escapes).  An id that does not fit a 32-bit `int` raises `out_of_range`,
not the documented `runtime_error`. -/
theorem C22_out_of_range_escapes :
    loadEdgelist natFmt "0 1\n99999999999 2\n".toList = .throw .outOfRange := by
  rw [show (Exn.outOfRange) = (if Exn.outOfRange = .invalidArgument then .runtimeError
    else Exn.outOfRange) from rfl]
  apply C22_malformed natFmt _ ["0 1".toList] [] "99999999999 2".toList
  · have : "0 1\n99999999999 2\n".toList =
        unlines ([] ++ ["0 1".toList, "99999999999 2".toList]) := by decide
    rw [this, contentLines_unlines]
    · rfl
    · simp
    · intro l hl
      simp only [List.mem_cons, List.not_mem_nil, or_false] at hl
      rcases hl with rfl | rfl <;> exact ⟨⟨by decide, by decide⟩, by decide⟩
  · intro l hl
    rw [List.mem_singleton] at hl
    subst hl
    exact ⟨⟨0, 1, 1⟩, by decide +kernel⟩
  · decide +kernel

/-- A path on three vertices with weights 2 and 3. -/
def pathGraph3 : Graph ℚ :=
  ⟨3, ⟨3, 3, [[(1, 2)], [(0, 2), (2, 3)], [(1, 3)]]⟩, false⟩

/-- Non-vacuity of C22/C23: this graph meets the hypotheses of the round trip. -/
example : ∃ g', loadEdgelist natFmt (saveEdgelist natFmt pathGraph3) = .ok g' ∧ g'.n = 3 ∧
    g'.adj = pathGraph3.adj := by
  have hcol : ∀ j, 3 ≤ j → pathGraph3.adj.col j = [] := by
    intro j hj
    unfold SprsMat.col pathGraph3
    simp only
    rw [List.getD_eq_default]
    simpa using hj
  have hwf : pathGraph3.adj.WF := by
    refine ⟨rfl, fun j => ?_⟩
    rcases Nat.lt_or_ge j 3 with h | h
    · have : j = 0 ∨ j = 1 ∨ j = 2 := by omega
      rcases this with rfl | rfl | rfl <;> (unfold Col.Sorted; decide +kernel)
    · rw [hcol j h]; exact ⟨List.Pairwise.nil, by simp⟩
  have hsym : pathGraph3.adj.isSymmetric = true := by decide +kernel
  have hall : ∀ j, ∀ e ∈ pathGraph3.adj.col j, e.2 = 2 ∨ e.2 = 3 := by
    intro j
    rcases Nat.lt_or_ge j 3 with h | h
    · have : j = 0 ∨ j = 1 ∨ j = 2 := by omega
      rcases this with rfl | rfl | rfl <;> decide +kernel
    · rw [hcol j h]; simp
  apply C23_round_trip natFmt pathGraph3 ⟨hwf, rfl, rfl, (SprsMat.isSymmetric_iff hwf rfl).1 hsym⟩
  · intro j e he
    rcases hall j e he with h | h <;> rw [h] <;> (unfold epsilon; norm_num)
  · decide
  · intro j e he
    rcases hall j e he with h | h
    · exact ⟨2, by norm_num, h⟩
    · exact ⟨3, by norm_num, h⟩
  · intro u
    rcases Nat.lt_or_ge u 3 with h | h
    · have : u = 0 ∨ u = 1 ∨ u = 2 := by omega
      rcases this with rfl | rfl | rfl <;> decide +kernel
    · exact hwf.coeff_of_cols_le h u
  · right
    exact ⟨1, by decide +kernel⟩

end Stag
