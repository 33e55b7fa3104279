import Verif.Props.Edgelist
import Verif.Props.Lines
import Verif.Props.Mutate
import Verif.Concrete

/-!
# C24: saving and loading adjacency lists
-/

namespace Stag

section
set_option linter.unusedSectionVars false
variable {K : Type} [Field K] [LinearOrder K]

/-! ## Specification -/

/-- Total weight listed at `u` for the neighbour `v`. -/
def entryWeight (es : List (IEdge K)) (u v : Nat) : K :=
  ((es.filter (fun e => decide (e.v1 = (u : Int) ∧ e.v2 = (v : Int)))).map IEdge.w).sum

/-! ## Parsing one line -/

theorem cutColon_append {a : Str} (h : ':' ∉ a) (s : Str) : cutColon (a ++ ':' :: s) = some (a, s) := by
  induction a with
  | nil => simp [cutColon]
  | cons c a ih =>
    simp only [List.mem_cons, not_or] at h
    rw [List.cons_append, cutColon, if_neg (Ne.symm h.1), ih h.2]
    rfl

theorem cutColon_none {a : Str} (h : ':' ∉ a) : cutColon a = none := by
  induction a with
  | nil => rfl
  | cons c a ih =>
    simp only [List.mem_cons, not_or] at h
    rw [cutColon, if_neg (Ne.symm h.1), ih h.2]
    rfl

/-- Tokens joined by a separator. -/
theorem splitDelim_join {d : Char} (t : Str) (ts : List Str) (ht : d ∉ t) (hts : ∀ x ∈ ts, d ∉ x) :
    ∃ last, splitDelim d (t ++ ts.flatMap (fun x => d :: x)) = ((t :: ts).dropLast, last) ∧
      (t :: ts).getLast? = some last := by
  induction ts generalizing t with
  | nil => exact ⟨t, by simp [splitDelim_none ht], rfl⟩
  | cons x ts ih =>
    obtain ⟨last, h1, h2⟩ := ih x (hts x (by simp)) (fun y hy => hts y (by simp [hy]))
    refine ⟨last, ?_, ?_⟩
    · rw [List.flatMap_cons, List.cons_append, splitDelim_append ht, h1]
      rfl
    · rw [List.getLast?_cons_cons]; exact h2

/-- The token of a neighbour. -/
def nbrToken (F : Fmt K) (e : Nat × K) : Str := printNat e.1 ++ ':' :: F.print e.2

theorem parse_nbrToken (F : Fmt K) (src : Int) (e : Nat × K) (hv : e.1 < 2 ^ 31)
    (hw : F.printable e.2) : parseAdjEdge F src (nbrToken F e) = .ok ⟨src, e.1, e.2⟩ := by
  unfold parseAdjEdge nbrToken
  rw [cutColon_append (fun h => (printNat_chars _ _ h).2.2.2.2.2.1 rfl)]
  simp only
  rw [stoi_printNat' _ hv, Outcome.bind_ok, F.stod_print _ hw]
  rfl

theorem nbrToken_ne (F : Fmt K) (e : Nat × K) : nbrToken F e ≠ [] := by
  unfold nbrToken; simp

theorem nbrToken_noSpace (F : Fmt K) (e : Nat × K) (hw : F.printable e.2) : ' ' ∉ nbrToken F e := by
  unfold nbrToken
  intro h
  simp only [List.mem_append, List.mem_cons] at h
  rcases h with h | h | h
  · exact (printNat_chars _ _ h).2.1 rfl
  · exact absurd h (by decide)
  · exact (F.print_chars _ hw _ h).2.1 rfl

/-- A line written by the library is read back (sorted by neighbour). -/
theorem parse_adjLine (F : Fmt K) (u : Nat) (nb : List (Nat × K)) (hu : u < 2 ^ 31)
    (hnb : ∀ e ∈ nb, e.1 < 2 ^ 31 ∧ F.printable e.2) :
    parseAdjLine F (adjLine F u nb) =
      .ok (sortEdges (nb.map (fun e => ⟨(u : Int), (e.1 : Int), e.2⟩))) := by
  unfold parseAdjLine adjLine
  rw [cutColon_append (fun h => (printNat_chars _ _ h).2.2.2.2.2.1 rfl)]
  simp only
  rw [stoi_printNat' _ hu, Outcome.bind_ok]
  have hfm : nb.flatMap (fun e => nbrText F e.1 e.2) =
      [] ++ (nb.map (nbrToken F)).flatMap (fun x => ' ' :: x) := by
    rw [List.nil_append, List.flatMap_map]
    rfl
  rw [hfm]
  have hts : ∀ x ∈ nb.map (nbrToken F), ' ' ∉ x := by
    intro x hx
    rw [List.mem_map] at hx
    obtain ⟨e, he, rfl⟩ := hx
    exact nbrToken_noSpace F e (hnb e he).2
  obtain ⟨last, h1, h2⟩ := splitDelim_join (d := ' ') [] (nb.map (nbrToken F)) (by simp) hts
  rw [h1]
  simp only
  rcases List.eq_nil_or_concat nb with rfl | ⟨nb', e, rfl⟩
  · simp only [List.map_nil, List.getLast?_singleton, Option.some.injEq] at h2
    subst h2
    have hp : parseAdjEdge F (u : Int) [] = .throw .invalidArgument := by
      unfold parseAdjEdge
      simp only [cutColon, stoi_nil]
      rfl
    simp [adjTokens, Outcome.mapM', adjLast, hp, sortEdges]
  · have hnb' : ∀ x ∈ nb', x.1 < 2 ^ 31 ∧ F.printable x.2 := fun x hx => hnb x (by simp [hx])
    have he := hnb e (by simp)
    have hl : last = nbrToken F e := by
      rw [List.concat_eq_append, List.map_append, List.map_cons, List.map_nil, ← List.cons_append,
        List.getLast?_append] at h2
      simpa using h2.symm
    have hd : ([] :: (nb'.concat e).map (nbrToken F)).dropLast = [] :: nb'.map (nbrToken F) := by
      rw [List.concat_eq_append, List.map_append, List.map_cons, List.map_nil, ← List.cons_append,
        List.dropLast_concat]
    rw [hd, hl]
    have hfil : ([] :: nb'.map (nbrToken F)).filter (fun t => !t.isEmpty) = nb'.map (nbrToken F) := by
      rw [List.filter_cons]
      simp only [List.isEmpty_nil, Bool.not_true, Bool.false_eq_true, if_false]
      rw [List.filter_eq_self]
      intro x hx
      rw [List.mem_map] at hx
      obtain ⟨y, _, rfl⟩ := hx
      have := nbrToken_ne F y
      simpa [List.isEmpty_iff] using this
    unfold adjTokens
    rw [hfil, Outcome.mapM'_map, Outcome.mapM'_total (fun e => ⟨(u : Int), (e.1 : Int), e.2⟩)
      (fun x hx => parse_nbrToken F u x (hnb' x hx).1 (hnb' x hx).2), Outcome.bind_ok]
    unfold adjLast
    rw [parse_nbrToken F u e he.1 he.2]
    simp [List.concat_eq_append]

/-! ## Sorting -/

theorem perm_insertEdge (e : IEdge K) (l : List (IEdge K)) : (insertEdge e l).Perm (e :: l) := by
  induction l with
  | nil => exact List.Perm.refl _
  | cons f l ih =>
    unfold insertEdge
    split_ifs
    · exact (ih.cons f).trans (List.Perm.swap e f l)
    · exact List.Perm.refl _

theorem perm_sortEdges (l : List (IEdge K)) : (sortEdges l).Perm l := by
  induction l with
  | nil => exact List.Perm.refl _
  | cons e l ih =>
    exact (perm_insertEdge e _).trans (ih.cons e)

theorem sorted_insertEdge (e : IEdge K) (l : List (IEdge K))
    (h : l.Pairwise (fun a b => a.v2 ≤ b.v2)) :
    (insertEdge e l).Pairwise (fun a b => a.v2 ≤ b.v2) := by
  induction l with
  | nil => simp [insertEdge]
  | cons f l ih =>
    rw [List.pairwise_cons] at h
    unfold insertEdge
    split_ifs with hlt
    · rw [List.pairwise_cons]
      refine ⟨?_, ih h.2⟩
      intro x hx
      have := (perm_insertEdge e l).subset hx
      rcases List.mem_cons.1 this with rfl | hx
      · omega
      · exact h.1 x hx
    · rw [List.pairwise_cons, List.pairwise_cons]
      refine ⟨?_, h⟩
      intro x hx
      rcases List.mem_cons.1 hx with rfl | hx
      · omega
      · have := h.1 x hx; omega

theorem sorted_sortEdges (l : List (IEdge K)) :
    (sortEdges l).Pairwise (fun a b => a.v2 ≤ b.v2) := by
  induction l with
  | nil => exact List.Pairwise.nil
  | cons e l ih => exact sorted_insertEdge e _ ih

/-- Stability: edges with the same key keep their order. -/
theorem sortEdges_stable (l : List (IEdge K)) (k : Int) :
    (sortEdges l).filter (fun e => decide (e.v2 = k)) = l.filter (fun e => decide (e.v2 = k)) := by
  induction l with
  | nil => rfl
  | cons e l ih =>
    have key : ∀ m : List (IEdge K), m.Pairwise (fun a b => a.v2 ≤ b.v2) →
        (insertEdge e m).filter (fun e => decide (e.v2 = k)) =
        (e :: m).filter (fun e => decide (e.v2 = k)) := by
      intro m
      induction m with
      | nil => intro _; rfl
      | cons f m ihm =>
        intro hm
        rw [List.pairwise_cons] at hm
        unfold insertEdge
        split_ifs with hlt
        · rw [List.filter_cons, ihm hm.2, List.filter_cons, List.filter_cons, List.filter_cons]
          by_cases h1 : e.v2 = k
          · have : f.v2 ≠ k := by omega
            simp [h1, this]
          · simp [h1]
        · rfl
    change (insertEdge e (sortEdges l)).filter _ = _
    rw [key _ (sorted_sortEdges l), List.filter_cons, List.filter_cons, ih]

/-! ## Loading -/

theorem maxTriplet_spec (ts : List (Triplet K)) :
    (∀ t ∈ ts, t.row < maxTriplet ts ∧ t.col < maxTriplet ts) ∧
    (maxTriplet ts = 0 ∨ ∃ t ∈ ts, maxTriplet ts = t.row + 1 ∨ maxTriplet ts = t.col + 1) := by
  have h : maxTriplet ts = maxVertex (ts.map (fun t => (⟨t.row, t.col, t.val⟩ : Edge K))) := by
    unfold maxTriplet maxVertex
    rw [List.foldl_map]
  obtain ⟨h1, h2⟩ := maxVertex_spec (ts.map (fun t => (⟨t.row, t.col, t.val⟩ : Edge K)))
  rw [h]
  refine ⟨fun t ht => h1 _ (List.mem_map.2 ⟨t, ht, rfl⟩), ?_⟩
  rcases h2 with h2 | ⟨e, he, h2⟩
  · exact Or.inl h2
  · rw [List.mem_map] at he
    obtain ⟨t, ht, rfl⟩ := he
    exact Or.inr ⟨t, ht, h2⟩

theorem mapM_parseAdj_rt (F : Fmt K) {ls : List Str} {es : List (List (IEdge K))} :
    Outcome.mapM' (parseAdjRT F) ls = .ok es ↔ Outcome.mapM' (parseAdjLine F) ls = .ok es := by
  rw [Outcome.mapM'_eq_ok, Outcome.mapM'_eq_ok]
  unfold parseAdjRT
  simp only [Outcome.rethrow_eq_ok]

/-- A parsed edge with its ids as natural numbers. -/
def tripOf (e : IEdge K) : Triplet K := ⟨e.v1.toNat, e.v2.toNat, e.w⟩

variable [IsStrictOrderedRing K]

/-! ## The format of a line -/

/-- One neighbour in a line: `gap + 1` spaces, the id and perhaps a colon and a weight. -/
structure AdjTok (K : Type) where
  gap : Nat
  id : Nat
  w : Option K

/-- The text of a neighbour, without the spaces. -/
def AdjTok.text (F : Fmt K) (t : AdjTok K) : Str :=
  printNat t.id ++ match t.w with
    | none => []
    | some w => ':' :: F.print w

/-- A line of an adjacency list: the vertex, a colon, the neighbours and spaces at the end. -/
def adjText (F : Fmt K) (u : Nat) (ts : List (AdjTok K)) (tail : Nat) : Str :=
  printNat u ++ ':' :: (ts.flatMap (fun t => List.replicate (t.gap + 1) ' ' ++ t.text F) ++
    List.replicate tail ' ')

theorem AdjTok.parse (F : Fmt K) (src : Int) (t : AdjTok K) (hv : t.id < 2 ^ 31)
    (hw : ∀ w, t.w = some w → F.printable w) :
    parseAdjEdge F src (t.text F) = .ok ⟨src, t.id, t.w.getD 1⟩ := by
  unfold AdjTok.text
  cases h : t.w with
  | none =>
    rw [List.append_nil]
    unfold parseAdjEdge
    rw [cutColon_none (fun h => (printNat_chars _ _ h).2.2.2.2.2.1 rfl)]
    simp only
    rw [stoi_printNat' _ hv]
    rfl
  | some w => exact parse_nbrToken F src (t.id, w) hv (hw w h)

theorem AdjTok.text_ne (F : Fmt K) (t : AdjTok K) : t.text F ≠ [] := by
  unfold AdjTok.text
  intro h
  have := (List.append_eq_nil_iff.1 h).1
  exact printNat_ne _ this

theorem AdjTok.text_noSpace (F : Fmt K) (t : AdjTok K) (hw : ∀ w, t.w = some w → F.printable w) :
    ' ' ∉ t.text F := by
  unfold AdjTok.text
  cases h : t.w with
  | none =>
    rw [List.append_nil]
    exact fun h => (printNat_chars _ _ h).2.1 rfl
  | some w => exact nbrToken_noSpace F (t.id, w) (hw w h)

/-- **C24** (format of a line).  A line consists of the id of a vertex, a colon and the neighbours, each
preceded by one or more spaces and given as an id or as an id, a colon and a weight; there may be
spaces at the end.  Parsing it gives one edge for each neighbour, with weight 1 if none is given, in
the order of the neighbours' ids (the order in the line for equal ids). -/
theorem C24_line_format (F : Fmt K) (u : Nat) (ts : List (AdjTok K)) (tail : Nat) (hu : u < 2 ^ 31)
    (hid : ∀ t ∈ ts, t.id < 2 ^ 31) (hw : ∀ t ∈ ts, ∀ w, t.w = some w → F.printable w) :
    ∃ es, parseAdjLine F (adjText F u ts tail) = .ok es ∧
      es.Perm (ts.map (fun t => ⟨(u : Int), (t.id : Int), t.w.getD 1⟩)) ∧
      es.Pairwise (fun a b => a.v2 ≤ b.v2) ∧
      ∀ k, es.filter (fun e => decide (e.v2 = k)) =
        (ts.map (fun t => (⟨(u : Int), (t.id : Int), t.w.getD 1⟩ : IEdge K))).filter
          (fun e => decide (e.v2 = k)) := by
  let mk : AdjTok K → IEdge K := fun t => ⟨(u : Int), (t.id : Int), t.w.getD 1⟩
  suffices h : parseAdjLine F (adjText F u ts tail) = .ok (sortEdges (ts.map mk)) from
    ⟨_, h, perm_sortEdges _, sorted_sortEdges _, sortEdges_stable _⟩
  unfold parseAdjLine adjText
  rw [cutColon_append (fun h => (printNat_chars _ _ h).2.2.2.2.2.1 rfl)]
  simp only
  rw [stoi_printNat' _ hu, Outcome.bind_ok]
  let L : List Str := ts.flatMap (fun t => List.replicate t.gap [] ++ [t.text F]) ++
    List.replicate tail []
  have hrep : ∀ n : Nat, (List.replicate n ([] : Str)).flatMap (fun x => ' ' :: x) =
      List.replicate n ' ' := by
    intro n
    induction n with
    | zero => rfl
    | succ n ih => rw [List.replicate_succ, List.flatMap_cons, ih, List.replicate_succ]; rfl
  have hL : ts.flatMap (fun t => List.replicate (t.gap + 1) ' ' ++ t.text F) ++
      List.replicate tail ' ' = [] ++ L.flatMap (fun x => ' ' :: x) := by
    rw [List.nil_append, List.flatMap_append, hrep]
    congr 1
    clear hid hw
    induction ts with
    | nil => rfl
    | cons t ts ih =>
      rw [List.flatMap_cons, List.flatMap_cons, List.flatMap_append, ih, List.flatMap_append, hrep]
      congr 1
      rw [List.replicate_succ']
      simp
  have hts : ∀ x ∈ L, ' ' ∉ x := by
    intro x hx
    rcases List.mem_append.1 hx with hx | hx
    · obtain ⟨t, ht, hx⟩ := List.mem_flatMap.1 hx
      rcases List.mem_append.1 hx with hx | hx
      · rw [(List.mem_replicate.1 hx).2]; simp
      · rw [List.mem_singleton.1 hx]; exact t.text_noSpace F (hw t ht)
    · rw [(List.mem_replicate.1 hx).2]; simp
  have hfil : ([] :: L).filter (fun t => !t.isEmpty) = ts.map (AdjTok.text F) := by
    have hr : ∀ n : Nat, (List.replicate n ([] : Str)).filter (fun t => !t.isEmpty) = [] := by
      intro n
      rw [List.filter_eq_nil_iff]
      intro x hx
      rw [(List.mem_replicate.1 hx).2]; simp
    rw [List.filter_cons_of_neg (by simp), List.filter_append, hr, List.append_nil]
    clear hid hw hL hts
    induction ts with
    | nil => rfl
    | cons t ts ih =>
      rw [List.flatMap_cons, List.filter_append, List.filter_append, hr, ih, List.nil_append,
        List.filter_cons_of_pos (by
          have := t.text_ne F
          simpa [List.isEmpty_iff] using this)]
      rfl
  obtain ⟨last, h1, h2⟩ := splitDelim_join (d := ' ') [] L (by simp) hts
  rw [hL, h1]
  simp only
  have hM : [] :: L = ([] :: L).dropLast ++ [last] := by
    rw [List.getLast?_eq_some_iff] at h2
    obtain ⟨ys, hys⟩ := h2
    rw [hys, List.dropLast_concat]
  generalize ([] :: L).dropLast = D at *
  rw [hM, List.filter_append] at hfil
  have hpar : ∀ ts' : List (AdjTok K), (∀ t ∈ ts', t ∈ ts) →
      D.filter (fun t => !t.isEmpty) = ts'.map (AdjTok.text F) →
      adjTokens F (u : Int) D = .ok (ts'.map mk) := by
    intro ts' hsub hD
    unfold adjTokens
    rw [hD, Outcome.mapM'_map, Outcome.mapM'_total mk
      (fun t ht => t.parse F u (hid t (hsub t ht)) (hw t (hsub t ht)))]
  by_cases hlast : last = []
  · subst hlast
    have hp : parseAdjEdge F (u : Int) [] = .throw .invalidArgument := by
      unfold parseAdjEdge
      simp only [cutColon, stoi_nil]
      rfl
    rw [hpar ts (fun _ h => h) (by simpa using hfil), Outcome.bind_ok]
    simp [adjLast, hp]
  · rw [List.filter_cons_of_pos (by simpa [List.isEmpty_iff] using hlast), List.filter_nil] at hfil
    rcases List.eq_nil_or_concat ts with rfl | ⟨ts', t, rfl⟩
    · simp at hfil
    · rw [List.concat_eq_append, List.map_append, List.map_cons, List.map_nil] at hfil
      obtain ⟨h3, h4⟩ := List.append_inj' hfil rfl
      rw [hpar ts' (fun x hx => by simp [hx]) h3, Outcome.bind_ok]
      have h5 : last = t.text F := by simpa using h4
      unfold adjLast
      rw [h5, t.parse F u (hid t (by simp)) (hw t (by simp))]
      simp [mk, List.concat_eq_append]

/-- **C24** (meaning of a file).  If every content line parses, ids and weights are non-negative
and each weight is listed symmetrically (the total listed at `u` for `v` is the total listed at
`v` for `u`), the file loads to the graph with exactly the listed weights (pruned at 1e-10); the
vertex count is one more than the largest id on an edge. -/
theorem C24_load (F : Fmt K) (file : Str) (es : List (List (IEdge K)))
    (h : Outcome.mapM' (parseAdjLine F) (contentLines file) = .ok es)
    (hid : ∀ e ∈ es.flatten, 0 ≤ e.v1 ∧ 0 ≤ e.v2 ∧ 0 ≤ e.w)
    (hsym : ∀ u v : Nat, entryWeight es.flatten u v = entryWeight es.flatten v u) :
    ∃ g, loadAdjacencylist F file = .ok g ∧ g.Valid ∧ g.Pruned ∧
      (∀ u v : Nat, g.adj.coeff u v = thr (entryWeight es.flatten u v)) ∧
      (∀ e ∈ es.flatten, e.v1 < g.n ∧ e.v2 < g.n) ∧
      (g.n = 0 ∨ ∃ e ∈ es.flatten, (g.n : Int) = e.v1 + 1 ∨ (g.n : Int) = e.v2 + 1) := by
  have ht : Outcome.mapM' toTriplet es.flatten = .ok (es.flatten.map tripOf) := by
    apply Outcome.mapM'_total
    intro e he
    have := hid e he
    unfold toTriplet
    rw [if_neg (by omega)]
    rfl
  have hb := maxTriplet_spec (es.flatten.map tripOf)
  obtain ⟨m, hm, h1, h2, h3, h4, _⟩ := SprsMat.setFromTriplets_spec hb.1
  have hco : ∀ u v : Nat, m.coeff u v =
      entryWeight es.flatten u v := by
    intro u v
    rw [h4]
    have : ∀ l : List (IEdge K), (∀ e ∈ l, 0 ≤ e.v1 ∧ 0 ≤ e.v2 ∧ 0 ≤ e.w) →
        SprsMat.tripletSum (l.map tripOf) u v =
          entryWeight l u v := by
      intro l
      unfold entryWeight
      induction l with
      | nil => intro _; rfl
      | cons e l ih =>
        intro hl
        have he := hl e (by simp)
        rw [List.map_cons, SprsMat.tripletSum_cons, ih (fun x hx => hl x (by simp [hx])),
          List.filter_cons]
        by_cases hc : e.v1 = u ∧ e.v2 = v
        · rw [if_pos (by simp only [tripOf]; omega), if_pos (by simpa using hc)]
          simp [tripOf]
        · rw [if_neg (by simp only [tripOf]; omega), if_neg (by simpa using hc), zero_add]
    exact this _ hid
  have hnn : ∀ i j, 0 ≤ m.coeff i j := by
    intro i j
    rw [hco]
    unfold entryWeight
    apply List.sum_nonneg
    intro x hx
    rw [List.mem_map] at hx
    obtain ⟨e, he, rfl⟩ := hx
    exact (hid e (List.mem_filter.1 he).1).2.2
  obtain ⟨g, hg, hv, _, hn, hc, hp⟩ := Graph.ofMatrix_nonneg h1 (by omega) hnn
    (fun i j => by rw [hco, hco]; exact hsym i j)
  refine ⟨g, ?_, hv, hp, fun u v => by rw [hc, hco], ?_, ?_⟩
  · unfold loadAdjacencylist
    rw [(mapM_parseAdj_rt F).2 h, Outcome.bind_ok, ht, Outcome.bind_ok, hm]
    exact hg
  · intro e he
    have h5 := hb.1 (tripOf e) (List.mem_map.2 ⟨e, he, rfl⟩)
    have := hid e he
    rw [hn, h3]
    simp only [tripOf] at h5
    omega
  · rcases hb.2 with h5 | ⟨t, ht, h5⟩
    · left; omega
    · right
      rw [List.mem_map] at ht
      obtain ⟨e, he, rfl⟩ := ht
      have := hid e he
      refine ⟨e, he, ?_⟩
      rw [hn, h3]
      simp only [tripOf] at h5
      omega

omit [IsStrictOrderedRing K] in
/-- **C24** (errors of one line).  `parse_adjacencylist_content_line` raises `invalid_argument` on a line without a colon,
and the error of `stoi` if what is before the first colon is not a number. -/
theorem C24_line_errors (F : Fmt K) :
    (∀ line : Str, ':' ∉ line → parseAdjLine F line = .throw .invalidArgument) ∧
    ∀ (a b : Str) (e : Exn), ':' ∉ a → stoi a = .throw e → parseAdjLine F (a ++ ':' :: b) = .throw e := by
  constructor
  · intro line h
    unfold parseAdjLine
    rw [cutColon_none h]
  · intro a b e h he
    unfold parseAdjLine
    rw [cutColon_append h]
    simp only [he]
    rfl

omit [IsStrictOrderedRing K] in
/-- **C24** (malformed).  The first content line that does not parse decides. -/
theorem C24_malformed (F : Fmt K) (file : Str) (pre post : List Str) (line : Str) (e : Exn)
    (hf : contentLines file = pre ++ line :: post)
    (hpre : ∀ l ∈ pre, ∃ x, parseAdjLine F l = .ok x)
    (he : parseAdjLine F line = .throw e) :
    loadAdjacencylist F file = .throw (if e = .invalidArgument then .runtimeError else e) := by
  unfold loadAdjacencylist
  rw [hf, Outcome.mapM'_first_throw (e := if e = .invalidArgument then .runtimeError else e)]
  · rfl
  · intro l hl
    obtain ⟨x, hx⟩ := hpre l hl
    exact ⟨x, by unfold parseAdjRT; rw [hx]; rfl⟩
  · unfold parseAdjRT
    rw [he]
    simp only [Outcome.rethrow]
    split_ifs <;> rfl

/-- **C24** (negative ids).  An adjacency list which parses but names a negative vertex drives
`load_adjacencylist` into undefined behaviour: the ids are not checked. -/
theorem C24_negative_id_undefined (F : Fmt K) (file : Str) (es : List (List (IEdge K)))
    (h : Outcome.mapM' (parseAdjLine F) (contentLines file) = .ok es)
    (hneg : ∃ e ∈ es.flatten, e.v1 < 0 ∨ e.v2 < 0) : loadAdjacencylist F file = .ub := by
  unfold loadAdjacencylist
  rw [(mapM_parseAdj_rt F).2 h, Outcome.bind_ok]
  have : Outcome.mapM' toTriplet es.flatten = .ub := by
    generalize es.flatten = l at hneg
    induction l with
    | nil => obtain ⟨e, he, _⟩ := hneg; simp at he
    | cons x l ih =>
      unfold Outcome.mapM'
      by_cases hx : x.v1 < 0 ∨ x.v2 < 0
      · unfold toTriplet; rw [if_pos hx]; rfl
      · have hr : Outcome.mapM' toTriplet l = .ub := by
          apply ih
          obtain ⟨e, he, hn⟩ := hneg
          rcases List.mem_cons.1 he with rfl | he
          · exact absurd hn hx
          · exact ⟨e, he, hn⟩
        rw [hr]
        unfold toTriplet; rw [if_neg hx]; rfl
  rw [this]
  rfl

/-- **C24, C22** (comments).  Removing the blank lines and the comments of a file changes
neither what `load_edgelist` nor what `load_adjacencylist` returns. -/
theorem C22_comments_ignored (F : Fmt K) (ls : List (Str × Eol)) (hls : ∀ p ∈ ls, IsLine p.1) :
    loadEdgelist F (written ls) =
      loadEdgelist F (written (ls.filter (fun p => decide (¬ IgnoredLine p.1)))) ∧
    loadAdjacencylist F (written ls) =
      loadAdjacencylist F (written (ls.filter (fun p => decide (¬ IgnoredLine p.1)))) := by
  have h1 := C20_content_lines ls [] hls ⟨by simp, by simp⟩
  have h2 := C20_content_lines (ls.filter (fun p => decide (¬ IgnoredLine p.1))) []
    (fun p hp => hls p (List.mem_of_mem_filter hp)) ⟨by simp, by simp⟩
  have h : contentLines (written ls) =
      contentLines (written (ls.filter (fun p => decide (¬ IgnoredLine p.1)))) := by
    rw [List.append_nil] at h1 h2
    rw [h1, h2, List.filter_append, List.filter_append, List.filter_map, List.filter_map,
      List.filter_filter]
    simp [Function.comp_def]
  unfold loadEdgelist loadAdjacencylist
  rw [h]
  exact ⟨rfl, rfl⟩

/-! ## Round trip -/

omit [IsStrictOrderedRing K] in
theorem isLine_adjLine (F : Fmt K) (u : Nat) (nb : List (Nat × K))
    (hnb : ∀ e ∈ nb, F.printable e.2) : IsLine (adjLine F u nb) := by
  unfold adjLine
  apply isLine_append (isLine_printNat u)
  have h : ∀ c ∈ nb.flatMap (fun e => nbrText F e.1 e.2), c ≠ '\n' ∧ c ≠ '\r' := by
    intro c hc
    rw [List.mem_flatMap] at hc
    obtain ⟨e, he, hc⟩ := hc
    unfold nbrText at hc
    simp only [List.mem_cons, List.mem_append] at hc
    rcases hc with rfl | hc | rfl | hc
    · decide
    · have := printNat_chars _ _ hc; exact ⟨this.2.2.2.1, this.2.2.2.2.1⟩
    · decide
    · have := F.print_chars _ (hnb e he) _ hc; exact ⟨this.2.2.2.1, this.2.2.2.2.1⟩
  constructor
  · intro hm
    rcases List.mem_cons.1 hm with hm | hm
    · exact absurd hm (by decide)
    · exact (h _ hm).1 rfl
  · intro hm
    rcases List.mem_cons.1 hm with hm | hm
    · exact absurd hm (by decide)
    · exact (h _ hm).2 rfl

theorem adjHeader_spec (n m : Nat) : ∀ l ∈ adjHeader n m, IsLine l ∧ isContent l = false := by
  intro l hl
  have h3 := header_spec n m
  unfold adjHeader at hl
  simp only [List.mem_cons, List.not_mem_nil, or_false] at hl
  rcases hl with rfl | rfl | rfl | rfl | rfl | rfl | rfl
  · exact h3 _ (by simp)
  · exact h3 _ (by simp)
  · exact h3 _ (by simp)
  all_goals exact ⟨⟨by decide, by decide⟩, by decide⟩

omit [IsStrictOrderedRing K] in
theorem sortEdges_of_sorted (l : List (IEdge K)) (h : l.Pairwise (fun a b => a.v2 ≤ b.v2)) :
    sortEdges l = l := by
  induction l with
  | nil => rfl
  | cons e l ih =>
    rw [List.pairwise_cons] at h
    rw [sortEdges, List.foldr_cons]
    change insertEdge e (sortEdges l) = _
    rw [ih h.2]
    cases l with
    | nil => rfl
    | cons f l =>
      unfold insertEdge
      rw [if_neg (by have := h.1 f (by simp); omega)]

/-- `neighbors` of an existing vertex of a graph without stored zeros is its column. -/
theorem neighbors_pruned {g : Graph K} (hpr : g.Pruned) {u : Nat} (hu : u < g.n) :
    g.neighbors (u : Int) = .ok ((g.adj.col u).map (fun e => ⟨u, e.1, e.2⟩)) := by
  unfold Graph.neighbors Graph.degreeUnweighted
  rw [checkVertex_ok (by omega)]
  simp only [Outcome.bind_ok, Int.toNat_natCast, Nat.add_sub_cancel, List.take_length]
  rw [List.filter_eq_self.2]
  intro e he
  simpa using hpr.noZeros u e he

/-- **C24** (what survives).  Saving a graph as an adjacency list and loading it back keeps every
weight, self-loops included; trailing isolated vertices are lost. -/
theorem C24_save_load (F : Fmt K) (g : Graph K) (hv : g.Valid) (hpr : g.Pruned) (hn : g.n ≤ 2 ^ 31)
    (hp : ∀ j, ∀ e ∈ g.adj.col j, F.printable e.2) :
    ∃ file g', saveAdjacencylist F g = .ok file ∧ loadAdjacencylist F file = .ok g' ∧
      g'.Valid ∧ g'.Pruned ∧ (∀ u v, g'.adj.coeff u v = g.adj.coeff u v) ∧
      (g'.n = 0 ∨ ∃ u, g.adj.coeff u (g'.n - 1) ≠ 0) ∧
      (∀ u v, g.adj.coeff u v ≠ 0 → u < g'.n ∧ v < g'.n) := by
  have hsave : saveAdjacencylist F g = .ok (unlines (adjHeader g.n g.numberOfEdges ++
      (List.range g.n).map (fun u => adjLine F u (g.adj.col u)))) := by
    unfold saveAdjacencylist
    rw [Outcome.mapM'_total (fun u => adjLine F u (g.adj.col u))]
    · rfl
    · intro u hu
      rw [neighbors_pruned hpr (List.mem_range.1 hu)]
      simp [Function.comp_def]
  have hcl : contentLines (unlines (adjHeader g.n g.numberOfEdges ++
      (List.range g.n).map (fun u => adjLine F u (g.adj.col u)))) =
      (List.range g.n).map (fun u => adjLine F u (g.adj.col u)) := by
    apply contentLines_unlines (adjHeader_spec _ _)
    intro l hl
    rw [List.mem_map] at hl
    obtain ⟨u, _, rfl⟩ := hl
    exact ⟨isLine_adjLine F u _ (hp u), isContent_printNat _ _⟩
  have hparse : Outcome.mapM' (parseAdjLine F) (contentLines (unlines (adjHeader g.n g.numberOfEdges ++
      (List.range g.n).map (fun u => adjLine F u (g.adj.col u))))) =
      .ok ((List.range g.n).map (fun u => (g.adj.col u).map
        (fun e => (⟨(u : Int), (e.1 : Int), e.2⟩ : IEdge K)))) := by
    rw [hcl, Outcome.mapM'_map]
    apply Outcome.mapM'_total
    intro u hu
    rw [List.mem_range] at hu
    rw [parse_adjLine F u _ (by omega)]
    · rw [sortEdges_of_sorted]
      rw [List.pairwise_map]
      refine (hv.wf.sorted u).imp ?_
      intro a b hab
      simp only
      omega
    · intro e he
      have := hv.wf.row_lt he
      rw [hv.rows] at this
      exact ⟨by omega, hp u e he⟩
  have hmem : ∀ x : IEdge K, x ∈ ((List.range g.n).map (fun u => (g.adj.col u).map
        (fun e => (⟨(u : Int), (e.1 : Int), e.2⟩ : IEdge K)))).flatten ↔
      ∃ u : Nat, u < g.n ∧ ∃ e ∈ g.adj.col u, x = ⟨(u : Int), (e.1 : Int), e.2⟩ := by
    intro x
    rw [List.mem_flatten]
    constructor
    · rintro ⟨l, hl, hx⟩
      rw [List.mem_map] at hl
      obtain ⟨u, hu, rfl⟩ := hl
      rw [List.mem_map] at hx
      obtain ⟨e, he, rfl⟩ := hx
      exact ⟨u, List.mem_range.1 hu, e, he, rfl⟩
    · rintro ⟨u, hu, e, he, rfl⟩
      exact ⟨_, List.mem_map.2 ⟨u, List.mem_range.2 hu, rfl⟩, List.mem_map.2 ⟨e, he, rfl⟩⟩
  have hsum : ∀ u v : Nat, entryWeight ((List.range g.n).map (fun u => (g.adj.col u).map
        (fun e => (⟨(u : Int), (e.1 : Int), e.2⟩ : IEdge K)))).flatten u v = g.adj.coeff v u := by
    intro u v
    unfold entryWeight
    rw [List.filter_flatten, List.map_map, List.map_flatten, List.sum_flatten, List.map_map,
      List.map_map]
    have : ∀ k : Nat, (((g.adj.col k).map (fun e => (⟨(k : Int), (e.1 : Int), e.2⟩ : IEdge K))).filter
        (fun e => decide (e.v1 = (u : Int) ∧ e.v2 = (v : Int)))).map IEdge.w =
        if k = u then ((g.adj.col k).filter (fun e => decide (e.1 = v))).map Prod.snd else [] := by
      intro k
      by_cases hk : k = u
      · subst hk
        rw [if_pos rfl, List.filter_map, List.map_map]
        congr 1
        apply List.filter_congr
        intro e _
        simp
      · rw [if_neg hk, List.filter_map, List.filter_eq_nil_iff.2]
        · rfl
        · intro e _
          simp [hk]
    have h2 : ∀ c : Col K, c.Sorted →
        ((c.filter (fun e => decide (e.1 = v))).map Prod.snd).sum = Col.coeff c v := by
      intro c hc
      induction c with
      | nil => rfl
      | cons e c ih =>
        have hs := Col.sorted_cons.1 hc
        rw [List.filter_cons]
        obtain ⟨r, x⟩ := e
        rw [Col.coeff_cons]
        by_cases hr : r = v
        · subst hr
          rw [if_pos (by simp), if_pos rfl, List.map_cons, List.sum_cons, ih hs.2,
            Col.coeff_eq_zero_of_forall, add_zero]
          intro f hf
          have := hs.1 f hf
          simp only at this
          omega
        · rw [if_neg (by simpa using hr), if_neg hr, ih hs.2]
    have h3 : (List.map ((List.sum ∘ (List.map IEdge.w)) ∘
        (List.filter fun e => decide (e.v1 = (u : Int) ∧ e.v2 = (v : Int))) ∘
        fun u : Nat => List.map (fun e => (⟨(u : Int), (e.1 : Int), e.2⟩ : IEdge K)) (g.adj.col u))
        (List.range g.n)) = (List.range g.n).map (fun k => if k = u then g.adj.coeff v k else 0) := by
      apply List.map_congr_left
      intro k _
      simp only [Function.comp_def]
      rw [this k]
      by_cases hk : k = u
      · rw [if_pos hk, if_pos hk, h2 _ (hv.wf.sorted k)]; rfl
      · rw [if_neg hk, if_neg hk]; rfl
    rw [h3, sum_list_range, Finset.sum_ite_eq']
    split_ifs with hm
    · rfl
    · rw [Finset.mem_range] at hm
      exact (hv.wf.coeff_of_cols_le (by rw [hv.cols]; omega) v).symm
  obtain ⟨g', h1, h2, h3, h4, h5, h6⟩ := C24_load F _ _ hparse (by
    intro x hx
    rw [hmem] at hx
    obtain ⟨u, _, e, he, rfl⟩ := hx
    exact ⟨by simp, by simp, le_of_lt (lt_trans epsilon_pos (hpr _ _ he))⟩) (by
    intro u v
    rw [hsum, hsum, hv.symm])
  refine ⟨_, g', hsave, h1, h2, h3, ?_, ?_, ?_⟩
  · intro u v
    rw [h4, hsum, hpr.thr, hv.symm]
  · rcases h6 with h6 | ⟨x, hx, h6⟩
    · exact Or.inl h6
    · right
      rw [hmem] at hx
      obtain ⟨u, hu, e, he, rfl⟩ := hx
      have hc : g.adj.coeff e.1 u = e.2 := Col.coeff_eq_of_mem (hv.wf.sorted _) he
      have hne : g.adj.coeff e.1 u ≠ 0 := by
        rw [hc]; exact ne_of_gt (lt_trans epsilon_pos (hpr _ _ he))
      simp only at h6
      rcases h6 with h6 | h6
      · have : g'.n - 1 = u := by omega
        rw [this]; exact ⟨_, hne⟩
      · have : g'.n - 1 = e.1 := by omega
        rw [this]; exact ⟨u, by rw [hv.symm]; exact hne⟩
  · intro u v hne
    have hvn : v < g.n := by
      by_contra hc
      exact hne (hv.wf.coeff_of_cols_le (by rw [hv.cols]; omega) u)
    have := h5 ⟨(v : Int), (u : Int), g.adj.coeff u v⟩
      ((hmem _).2 ⟨v, hvn, (u, g.adj.coeff u v), Col.mem_of_coeff_ne_zero hne, rfl⟩)
    simp only at this
    omega

/-- **C24** (round trip).  A graph whose last vertex is not isolated is loaded back unchanged,
self-loops included. -/
theorem C24_round_trip (F : Fmt K) (g : Graph K) (hv : g.Valid) (hpr : g.Pruned)
    (hn : g.n ≤ 2 ^ 31) (hp : ∀ j, ∀ e ∈ g.adj.col j, F.printable e.2)
    (hlast : g.n = 0 ∨ ∃ u, g.adj.coeff u (g.n - 1) ≠ 0) :
    ∃ file g', saveAdjacencylist F g = .ok file ∧ loadAdjacencylist F file = .ok g' ∧
      g'.n = g.n ∧ g'.adj = g.adj := by
  obtain ⟨file, g', hs, h1, h2, h3, h4, h5, h6⟩ := C24_save_load F g hv hpr hn hp
  have hle : g'.n ≤ g.n := by
    rcases h5 with h | ⟨u, h⟩
    · omega
    · by_contra hc
      exact h (hv.wf.coeff_of_cols_le (by rw [hv.cols]; omega) u)
  have hge : g.n ≤ g'.n := by
    rcases hlast with h | ⟨u, h⟩
    · omega
    · have := h6 u (g.n - 1) h
      omega
  have hnn : g'.n = g.n := by omega
  refine ⟨file, g', hs, h1, hnn, ?_⟩
  apply SprsMat.ext_coeff h2.wf hv.wf h3.noZeros hpr.noZeros
  · rw [h2.rows, hv.rows, hnn]
  · rw [h2.cols, hv.cols, hnn]
  · exact h4

end

/-- Three vertices, an edge of weight 2, a self-loop of weight 5 at the last vertex. -/
def loopGraph3 : Graph ℚ := ⟨3, ⟨3, 3, [[(1, 2)], [(0, 2)], [(2, 5)]]⟩, true⟩

/-- The line `1:  2:5 0 ` lists the neighbours 2 (weight 5) and 0 (weight 1). -/
example : adjText natFmt 1 [⟨1, 2, some 5⟩, ⟨0, 0, none⟩] 1 = "1:  2:5 0 ".toList ∧
    parseAdjLine natFmt "1:  2:5 0 ".toList = .ok [⟨1, 0, 1⟩, ⟨1, 2, 5⟩] := by decide +kernel

/-- Non-vacuity of C24. -/
example : ∃ file g', saveAdjacencylist natFmt loopGraph3 = .ok file ∧
    loadAdjacencylist natFmt file = .ok g' ∧ g'.n = 3 ∧ g'.adj = loopGraph3.adj := by
  have hc := Graph.check_spec (g := loopGraph3) (by decide +kernel)
  apply C24_round_trip natFmt loopGraph3 hc.1 hc.2 (by decide)
  · apply Graph.forall_entries
    intro c hc e he
    simp only [loopGraph3, List.mem_cons, List.not_mem_nil, or_false] at hc
    rcases hc with rfl | rfl | rfl <;> rw [List.mem_singleton] at he <;> subst he
    · exact ⟨2, by norm_num, rfl⟩
    · exact ⟨2, by norm_num, rfl⟩
    · exact ⟨5, by norm_num, rfl⟩
  · exact Or.inr ⟨2, by decide +kernel⟩

end Stag
