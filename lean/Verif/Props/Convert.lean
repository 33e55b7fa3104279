import Verif.Convert
import Verif.Props.SortEdgelist
import Verif.Props.Adjacencylist

/-!
# C26, C27: conversions between edgelist and adjacency list files
-/

namespace Stag

section
set_option linter.unusedSectionVars false
variable {K : Type} [Field K] [LinearOrder K] [IsStrictOrderedRing K]

/-! ## Parsed ids fit in an `int` -/

theorem stoi_range {s : Str} {z : Int} (h : stoi s = .ok z) : -(2 ^ 31) ≤ z ∧ z < 2 ^ 31 := by
  unfold stoi at h
  simp only at h
  split_ifs at h <;> simp only [Outcome.ok.injEq] at h <;> subst h <;> omega

/-- Both ids of a parser state fit. -/
def PState.Fits (s : PState K) : Prop := s.u < 2 ^ 31 ∧ s.v < 2 ^ 31

theorem eatToken_fits {F : Fmt K} {s s' : PState K} {t : Str} (h : eatToken F s t = .ok s')
    (hs : s.Fits) : s'.Fits := by
  unfold eatToken at h
  by_cases ht : t = []
  · rw [if_pos ht] at h; cases h; exact hs
  · rw [if_neg ht] at h
    by_cases h0 : s.num = 0
    · simp only [h0, if_true, Outcome.bind_eq_ok, Outcome.bind_ok] at h
      obtain ⟨u, hu, h⟩ := h
      simp at h
      subst h
      exact ⟨(stoi_range hu).2, hs.2⟩
    · by_cases h1 : s.num = 1
      · simp [h1, Outcome.bind_eq_ok] at h
        obtain ⟨v, hv, h⟩ := h
        subst h
        exact ⟨hs.1, (stoi_range hv).2⟩
      · by_cases h2 : s.num = 2
        · simp [h2, Outcome.bind_eq_ok] at h
          obtain ⟨w, hw, h⟩ := h
          subst h
          exact hs
        · simp [h0, h1, h2] at h
          subst h
          exact hs

theorem eatTokens_fits {F : Fmt K} {ts : List Str} : ∀ {s s' : PState K},
    eatTokens F s ts = .ok s' → s.Fits → s'.Fits := by
  induction ts with
  | nil => intro s s' h hs; cases h; exact hs
  | cons t ts ih =>
    intro s s' h hs
    unfold eatTokens at h
    rw [Outcome.bind_eq_ok] at h
    obtain ⟨s1, h1, h2⟩ := h
    exact ih h2 (eatToken_fits h1 hs)

theorem tryDelim_fits {F : Fmt K} {s s' : PState K × Str} {d : Char}
    (h : tryDelim F s d = .ok s') (hs : s.1.Fits) : s'.1.Fits := by
  unfold tryDelim at h
  by_cases h0 : s.1.num = 0
  · rw [if_pos h0, Outcome.bind_eq_ok] at h
    obtain ⟨s1, h1, h2⟩ := h
    cases h2
    exact eatTokens_fits h1 hs
  · rw [if_neg h0] at h; cases h; exact hs

theorem lastToken_fits {F : Fmt K} {s s' : PState K} {l : Str}
    (h : lastToken F s l = .ok s') (hs : s.Fits) : s'.Fits := by
  unfold lastToken at h
  by_cases h1 : s.num = 1
  · rw [if_pos h1, Outcome.bind_eq_ok] at h
    obtain ⟨v, hv, h2⟩ := h
    cases h2
    exact ⟨hs.1, (stoi_range hv).2⟩
  · rw [if_neg h1] at h
    by_cases h2 : s.num = 2
    · rw [if_pos h2] at h
      cases hd : F.stod l with
      | ok w => rw [hd] at h; cases h; exact hs
      | throw e => rw [hd] at h; cases h; exact hs
      | ub => rw [hd] at h; cases h
    · rw [if_neg h2] at h; cases h; exact hs

theorem parse_fits {F : Fmt K} {l : Str} {e : Edge K} (h : parseEdgelistLine F l = .ok e) :
    e.v1 < 2 ^ 31 ∧ e.v2 < 2 ^ 31 := by
  unfold parseEdgelistLine at h
  simp only [Outcome.bind_eq_ok] at h
  obtain ⟨s1, h1, s2, h2, s3, h3, p, hp, h⟩ := h
  have hf := lastToken_fits hp (tryDelim_fits h3 (tryDelim_fits h2 (tryDelim_fits h1
    ⟨by norm_num, by norm_num⟩)))
  split_ifs at h with ha hb
  cases h
  have := hf.1
  have := hf.2
  simp only
  omega

theorem parseAll_fits {F : Fmt K} {ls : List Str} {es : List (Edge K)}
    (h : Outcome.mapM' (parseEdgelistLine F) ls = .ok es) :
    ∀ e ∈ es, e.v1 < 2 ^ 31 ∧ e.v2 < 2 ^ 31 := by
  rw [Outcome.mapM'_eq_ok] at h
  induction h with
  | nil => simp
  | cons ha _ ih =>
    intro e he
    rcases List.mem_cons.1 he with rfl | he
    · exact parse_fits ha
    · exact ih e he

/-! ## Duplicating the edges -/

/-- Both directions of every edge. -/
def bothWays (es : List (Edge K)) : List (Edge K) := es.flatMap (fun e => [e, ⟨e.v2, e.v1, e.w⟩])

theorem duplicateLines_spec (F : Fmt K) (ls : List Str) : ∀ es : List (Edge K),
    Outcome.mapM' (parseEdgelistLine F) (ls.filter isContent) = .ok es →
    ∃ out, duplicateLines F ls = .ok out ∧
      out.filter isContent = (bothWays es).map (edgeLine F) ∧
      (∀ l ∈ out, isContent l = false → l ∈ ls) ∧
      leadingComments out = leadingComments ls := by
  induction ls with
  | nil =>
    intro es h
    cases h
    exact ⟨[], rfl, rfl, by simp, rfl⟩
  | cons l ls ih =>
    intro es h
    by_cases hc : isContent l = true
    · rw [List.filter_cons_of_pos hc] at h
      simp only [Outcome.mapM', Outcome.bind_eq_ok, Outcome.ok.injEq] at h
      obtain ⟨e, he, es', hes, rfl⟩ := h
      obtain ⟨out, h1, h2, h3, _⟩ := ih es' hes
      have hrt : parseEdgeRT F l = .ok e := by unfold parseEdgeRT; rw [he]; rfl
      refine ⟨[edgeLine F e, edgeLine F ⟨e.v2, e.v1, e.w⟩] ++ out, ?_, ?_, ?_, ?_⟩
      · unfold duplicateLines
        rw [if_pos hc, hrt, Outcome.bind_ok, Outcome.bind_ok, h1]
        rfl
      · rw [List.filter_append, h2]
        simp [isContent_edgeLine, bothWays]
      · intro x hx hnc
        rcases List.mem_append.1 hx with hx | hx
        · simp only [List.mem_cons, List.not_mem_nil, or_false] at hx
          rcases hx with rfl | rfl <;> rw [isContent_edgeLine] at hnc <;> cases hnc
        · exact List.mem_cons_of_mem _ (h3 x hx hnc)
      · unfold leadingComments
        rw [List.takeWhile_cons, List.cons_append, List.takeWhile_cons, isContent_edgeLine, hc]
        rfl
    · have hc' : isContent l = false := by simpa using hc
      rw [List.filter_cons_of_neg hc] at h
      obtain ⟨out, h1, h2, h3, h4⟩ := ih es h
      refine ⟨[l] ++ out, ?_, ?_, ?_, ?_⟩
      · unfold duplicateLines
        rw [if_neg hc, Outcome.bind_ok, h1]
        rfl
      · rw [List.singleton_append, List.filter_cons_of_neg hc, h2]
      · intro x hx hnc
        rw [List.singleton_append] at hx
        rcases List.mem_cons.1 hx with rfl | hx
        · simp
        · exact List.mem_cons_of_mem _ (h3 x hx hnc)
      · unfold leadingComments at h4 ⊢
        rw [List.singleton_append, List.takeWhile_cons, List.takeWhile_cons, hc', h4]

/-! ## Grouping by first endpoint -/

/-- Consecutive edges with the same first endpoint are collected. -/
def groups : List (Edge K) → List (Nat × List (Nat × K))
  | [] => []
  | e :: es =>
    match groups es with
    | [] => [(e.v1, [(e.v2, e.w)])]
    | p :: gs => if p.1 = e.v1 then (e.v1, (e.v2, e.w) :: p.2) :: gs
        else (e.v1, [(e.v2, e.w)]) :: p :: gs

/-- The edges of the groups. -/
def ungroup (gs : List (Nat × List (Nat × K))) : List (Edge K) :=
  gs.flatMap (fun p => p.2.map (fun q => ⟨p.1, q.1, q.2⟩))

theorem ungroup_groups (es : List (Edge K)) : ungroup (groups es) = es := by
  induction es with
  | nil => rfl
  | cons e es ih =>
    unfold groups
    cases hg : groups es with
    | nil => rw [hg] at ih; simp only [ungroup, List.flatMap_nil] at ih; subst ih; rfl
    | cons p gs =>
      rw [hg] at ih
      simp only
      split_ifs with h
      · rw [← ih]
        simp only [ungroup, List.flatMap_cons, List.map_cons, List.cons_append, h]
      · rw [← ih]
        simp [ungroup]

theorem groups_head (e : Edge K) (es : List (Edge K)) :
    ∃ nb gs, groups (e :: es) = (e.v1, nb) :: gs := by
  unfold groups
  cases groups es with
  | nil => exact ⟨_, _, rfl⟩
  | cons p gs =>
    simp only
    split_ifs
    · exact ⟨_, _, rfl⟩
    · exact ⟨_, _, rfl⟩

theorem groups_ge (es : List (Edge K)) (k : Nat) (h : ∀ e ∈ es, k ≤ e.v1) :
    ∀ p ∈ groups es, k ≤ p.1 := by
  induction es with
  | nil => intro p hp; simp [groups] at hp
  | cons e es ih =>
    have ih := ih (fun x hx => h x (by simp [hx]))
    have he := h e (by simp)
    intro p hp
    unfold groups at hp
    cases hg : groups es with
    | nil => rw [hg] at hp; simp at hp; subst hp; exact he
    | cons q gs =>
      rw [hg] at hp ih
      simp only at hp
      split_ifs at hp with hq
      · rcases List.mem_cons.1 hp with rfl | hp
        · exact he
        · exact ih p (by simp [hp])
      · rcases List.mem_cons.1 hp with rfl | hp
        · exact he
        · exact ih p hp

theorem groups_sorted (es : List (Edge K)) (h : es.Pairwise (fun a b => a.v1 ≤ b.v1)) :
    (groups es).Pairwise (fun a b => a.1 < b.1) := by
  induction es with
  | nil => simp [groups]
  | cons e es ih =>
    rw [List.pairwise_cons] at h
    have ih := ih h.2
    have hge := groups_ge es e.v1 h.1
    unfold groups
    cases hg : groups es with
    | nil => simp
    | cons q gs =>
      rw [hg] at ih hge
      rw [List.pairwise_cons] at ih
      simp only
      split_ifs with hq
      · rw [List.pairwise_cons]
        refine ⟨?_, ih.2⟩
        intro b hb
        have := ih.1 b hb
        simp only; omega
      · rw [List.pairwise_cons, List.pairwise_cons]
        refine ⟨?_, ih⟩
        intro b hb
        have h1 := hge q (by simp)
        rcases List.mem_cons.1 hb with rfl | hb
        · simp only; omega
        · have := ih.1 b hb; simp only; omega

/-- The text of the groups, each on a fresh line. -/
def groupText (F : Fmt K) (gs : List (Nat × List (Nat × K))) : Str :=
  gs.flatMap (fun p => '\n' :: adjLine F p.1 p.2)

/-- The text still to be written when the current node is `cur`. -/
def restText (F : Fmt K) (cur : Int) : List (Nat × List (Nat × K)) → Str
  | [] => []
  | p :: gs =>
    if (p.1 : Int) = cur then p.2.flatMap (fun q => nbrText F q.1 q.2) ++ groupText F gs
    else groupText F (p :: gs)

theorem edgeToAdj_content (F : Fmt K) (es : List (Edge K)) : ∀ cur : Int,
    (∀ e ∈ es, parseEdgelistLine F (edgeLine F e) = .ok e) →
    es.Pairwise (fun a b => a.v1 ≤ b.v1) → (∀ e ∈ es, cur ≤ e.v1) → ∀ (written : Bool) (blanks : Nat),
    (es = [] → written = true) →
    edgeToAdjText F cur written (es.map (edgeLine F) ++ List.replicate blanks []) =
      .ok (restText F cur (groups es)) := by
  induction es with
  | nil =>
    intro cur _ _ _ written blanks hw
    rw [hw rfl]
    simp only [List.map_nil, List.nil_append, groups, restText]
    induction blanks with
    | zero => rfl
    | succ b ih =>
      rw [List.replicate_succ]
      unfold edgeToAdjText
      rw [if_neg (by simp [isContent_nil]), ih]
      rfl
  | cons e es ih =>
    intro cur hp hs hc written blanks _
    rw [List.pairwise_cons] at hs
    have hce := hc e (by simp)
    rw [List.map_cons, List.cons_append]
    unfold edgeToAdjText
    have hrt : parseEdgeRT F (edgeLine F e) = .ok e := by
      unfold parseEdgeRT; rw [hp e (by simp)]; rfl
    rw [if_pos (isContent_edgeLine F e), hrt, Outcome.bind_ok]
    have hcur : (if cur < (e.v1 : Int) then (e.v1 : Int) else cur) = e.v1 := by
      split_ifs <;> omega
    rw [hcur, ih _ (fun x hx => hp x (by simp [hx])) hs.2
      (fun x hx => by have := hs.1 x hx; omega) true blanks (fun _ => rfl), Outcome.bind_ok]
    congr 1
    conv => rhs; unfold groups
    cases hg : groups es with
    | nil =>
      simp only [restText]
      by_cases h : cur < (e.v1 : Int)
      · rw [if_pos h, if_neg (by omega)]
        simp [groupText, adjLine]
      · rw [if_neg h, if_pos (by omega)]
        simp [groupText]
    | cons p gs =>
      simp only
      by_cases hpe : p.1 = e.v1
      · rw [if_pos hpe]
        have hq : (p.1 : Int) = (e.v1 : Int) := by rw [hpe]
        simp only [restText]
        rw [if_pos hq]
        by_cases h : cur < (e.v1 : Int)
        · rw [if_pos h, if_neg (by omega)]
          simp [groupText, adjLine]
        · rw [if_neg h, if_pos (by omega)]
          simp [groupText]
      · rw [if_neg hpe]
        have hq : ¬ (p.1 : Int) = (e.v1 : Int) := fun h => hpe (by exact_mod_cast h)
        simp only [restText]
        rw [if_neg hq]
        by_cases h : cur < (e.v1 : Int)
        · rw [if_pos h, if_neg (by omega)]
          simp [groupText, adjLine]
        · rw [if_neg h, if_pos (by omega)]
          simp [groupText]

theorem edgeToAdj_header (F : Fmt K) (hd : List Str) (hhd : ∀ l ∈ hd, isContent l = false)
    (ls : List Str) (t : Str) (h : edgeToAdjText F (-1) false ls = .ok t) :
    edgeToAdjText F (-1) false (hd ++ ls) = .ok (unlines hd ++ t) := by
  induction hd with
  | nil => exact h
  | cons l hd ih =>
    have hc := hhd l (by simp)
    rw [List.cons_append]
    unfold edgeToAdjText
    rw [if_neg (by simp [hc]), ih (fun x hx => hhd x (by simp [hx])), Outcome.bind_ok]
    simp [unlines]

theorem fileLines_groupText (F : Fmt K) (gs : List (Nat × List (Nat × K)))
    (hp : ∀ p ∈ gs, ∀ q ∈ p.2, F.printable q.2) :
    ∀ l : Str, IsLine l → (fileLines (l ++ groupText F gs)).filter isContent =
      (([l] : List Str).filter isContent) ++ gs.map (fun p => adjLine F p.1 p.2) := by
  induction gs with
  | nil =>
    intro l hl
    simp only [groupText, List.flatMap_nil, List.append_nil, List.map_nil]
    by_cases h : l = []
    · subst h; rw [fileLines_nil]
    · rw [fileLines_last hl h]
      rw [show [l, ([] : Str)] = [l] ++ [[]] from rfl, List.filter_append]
      simp [isContent_nil]
  | cons p gs ih =>
    intro l hl
    have e : l ++ groupText F (p :: gs) = l ++ '\n' :: (adjLine F p.1 p.2 ++ groupText F gs) := by
      simp [groupText]
    rw [e, fileLines_lf hl, ← List.singleton_append, List.filter_append,
      ih (fun q hq => hp q (by simp [hq])) _ (isLine_adjLine F _ _ (hp p (by simp)))]
    have hca : isContent (adjLine F p.1 p.2) = true := isContent_printNat _ _
    simp [hca]

theorem fileLines_header {hd : List Str} (h : ∀ l ∈ hd, IsLine l) (s : Str) :
    fileLines (unlines hd ++ s) = hd ++ fileLines s := by
  induction hd with
  | nil => rfl
  | cons l hd ih =>
    rw [unlines, List.append_assoc, List.cons_append, fileLines_lf (h l (by simp)),
      ih (fun x hx => h x (by simp [hx])), List.cons_append]

/-! ## Weights -/

theorem entryWeight_perm {a b : List (IEdge K)} (h : a.Perm b) (u v : Nat) :
    entryWeight a u v = entryWeight b u v := by
  unfold entryWeight
  exact ((h.filter _).map _).sum_eq

theorem entryWeight_append (a b : List (IEdge K)) (u v : Nat) :
    entryWeight (a ++ b) u v = entryWeight a u v + entryWeight b u v := by
  unfold entryWeight; rw [List.filter_append, List.map_append, List.sum_append]

theorem entryWeight_cons (e : IEdge K) (es : List (IEdge K)) (u v : Nat) :
    entryWeight (e :: es) u v =
      (if e.v1 = (u : Int) ∧ e.v2 = (v : Int) then e.w else 0) + entryWeight es u v := by
  rw [show e :: es = [e] ++ es from rfl, entryWeight_append]
  congr 1
  unfold entryWeight
  simp only [List.filter_cons, List.filter_nil, decide_eq_true_eq]
  split_ifs <;> simp

/-- An edge with natural ids as parsed from an adjacency list. -/
def toI (e : Edge K) : IEdge K := ⟨(e.v1 : Int), (e.v2 : Int), e.w⟩

theorem entryWeight_both (es : List (Edge K)) (u v : Nat) :
    entryWeight ((bothWays es).map toI) u v =
      if u = v then 2 * listWeight es u u else listWeight es u v := by
  induction es with
  | nil => simp [bothWays, entryWeight, listWeight]
  | cons e es ih =>
    have e1 : (bothWays (e :: es)).map toI =
        [toI e, toI ⟨e.v2, e.v1, e.w⟩] ++ (bothWays es).map toI := by
      simp [bothWays]
    rw [e1, entryWeight_append, ih, listWeight_cons, listWeight_cons]
    have e2 : entryWeight [toI e, toI ⟨e.v2, e.v1, e.w⟩] u v =
        (if e.v1 = u ∧ e.v2 = v then e.w else 0) + (if e.v2 = u ∧ e.v1 = v then e.w else 0) := by
      unfold entryWeight
      simp only [List.filter_cons, List.filter_nil, toI, Nat.cast_inj, decide_eq_true_eq]
      split_ifs <;> simp
    rw [e2]
    by_cases huv : u = v
    · subst huv
      rw [if_pos rfl, if_pos rfl]
      by_cases h1 : e.v1 = u <;> by_cases h2 : e.v2 = u <;> (simp [h1, h2]; try ring)
    · rw [if_neg huv, if_neg huv]
      by_cases h1 : e.v1 = u ∧ e.v2 = v
      · have h2 : ¬ (e.v2 = u ∧ e.v1 = v) := by omega
        simp [h1]
        intro a; omega
      · by_cases h2 : e.v2 = u ∧ e.v1 = v
        · simp [h2]
          omega
        · have h3 : ¬ (e.v1 = v ∧ e.v2 = u) := by omega
          simp only [h1, h2, h3]
          simp


/-- A permutation of images is the image of a permutation. -/
theorem perm_map_exists {α β : Type} (f : α → β) {l : List β} {m : List α} (h : l.Perm (m.map f)) :
    ∃ m' : List α, m'.Perm m ∧ l = m'.map f := by
  induction l generalizing m with
  | nil =>
    have := h.symm.eq_nil
    rw [List.map_eq_nil_iff] at this
    subst this
    exact ⟨[], List.Perm.refl _, rfl⟩
  | cons b l ih =>
    have hb : b ∈ m.map f := h.subset (by simp)
    obtain ⟨a, ha, rfl⟩ := List.mem_map.1 hb
    obtain ⟨m1, m2, rfl⟩ := List.append_of_mem ha
    have h2 : l.Perm ((m1 ++ m2).map f) := by
      have : (f a :: l).Perm (f a :: (m1 ++ m2).map f) := by
        refine h.trans ?_
        rw [← List.map_cons]
        exact List.Perm.map f List.perm_middle
      exact (List.perm_cons _).1 this
    obtain ⟨m', h3, h4⟩ := ih h2
    refine ⟨a :: m', ?_, by rw [h4]; rfl⟩
    exact (h3.cons a).trans List.perm_middle.symm

theorem mem_bothWays {es : List (Edge K)} {e : Edge K} :
    e ∈ bothWays es ↔ e ∈ es ∨ (⟨e.v2, e.v1, e.w⟩ : Edge K) ∈ es := by
  unfold bothWays
  simp only [List.mem_flatMap, List.mem_cons, List.not_mem_nil, or_false]
  constructor
  · rintro ⟨a, ha, rfl | rfl⟩
    · exact Or.inl ha
    · exact Or.inr ha
  · rintro (h | h)
    · exact ⟨e, h, Or.inl rfl⟩
    · exact ⟨_, h, Or.inr rfl⟩

theorem maxVertex_bothWays (es : List (Edge K)) : maxVertex (bothWays es) = maxVertex es := by
  have hs := maxVertex_spec es
  apply maxVertex_unique
  · intro e he
    rcases mem_bothWays.1 he with h | h
    · exact hs.1 e h
    · exact (hs.1 _ h).symm
  · rcases hs.2 with h | ⟨e, he, h⟩
    · exact Or.inl h
    · exact Or.inr ⟨e, mem_bothWays.2 (Or.inl he), h⟩

/-- The groups are read back. -/
theorem parse_groups (F : Fmt K) (gs : List (Nat × List (Nat × K)))
    (h : ∀ e ∈ ungroup gs, e.v1 < 2 ^ 31 ∧ e.v2 < 2 ^ 31 ∧ F.printable e.w)
    (hne : ∀ p ∈ gs, p.2 ≠ []) :
    ∃ es : List (List (IEdge K)),
      Outcome.mapM' (parseAdjLine F) (gs.map (fun p => adjLine F p.1 p.2)) = .ok es ∧
      es.flatten.Perm ((ungroup gs).map toI) := by
  refine ⟨gs.map (fun p => sortEdges (p.2.map (fun e => ⟨(p.1 : Int), (e.1 : Int), e.2⟩))), ?_, ?_⟩
  · rw [Outcome.mapM'_map]
    apply Outcome.mapM'_total
    intro p hp
    have hmem : ∀ q ∈ p.2, (⟨p.1, q.1, q.2⟩ : Edge K) ∈ ungroup gs := by
      intro q hq
      unfold ungroup
      exact List.mem_flatMap.2 ⟨p, hp, List.mem_map.2 ⟨q, hq, rfl⟩⟩
    apply parse_adjLine
    · obtain ⟨q, hq⟩ := List.exists_mem_of_ne_nil _ (hne p hp)
      exact (h _ (hmem q hq)).1
    · intro q hq
      exact (h _ (hmem q hq)).2
  · clear h hne
    induction gs with
    | nil => exact List.Perm.refl _
    | cons p gs ih =>
      have e : (ungroup (p :: gs)).map toI =
          p.2.map (fun e => ⟨(p.1 : Int), (e.1 : Int), e.2⟩) ++ (ungroup gs).map toI := by
        simp [ungroup, toI, Function.comp_def]
      rw [e, List.map_cons, List.flatten_cons]
      exact (perm_sortEdges _).append ih

theorem groups_ne (es : List (Edge K)) : ∀ p ∈ groups es, p.2 ≠ [] := by
  induction es with
  | nil => intro p hp; simp [groups] at hp
  | cons e es ih =>
    intro p hp
    unfold groups at hp
    cases hg : groups es with
    | nil => rw [hg] at hp; simp at hp; subst hp; simp
    | cons q gs =>
      rw [hg] at hp ih
      simp only at hp
      split_ifs at hp with hq
      · rcases List.mem_cons.1 hp with rfl | hp
        · simp
        · exact ih p (by simp [hp])
      · rcases List.mem_cons.1 hp with rfl | hp
        · simp
        · exact ih p hp

/-- **C26**.  `edgelist_to_adjacencylist` of any edgelist file whose content lines parse, with
non-negative weights that survive printing, returns; the file it writes has one content line
per vertex with an edge, in strictly increasing order of the vertex, lists every edge once at each of
its ends and nothing else, and loads as an adjacency list to the graph that the edgelist file loads
to. -/
theorem C26_converts (F : Fmt K) (file : Str) (es : List (Edge K))
    (h : Outcome.mapM' (parseEdgelistLine F) (contentLines file) = .ok es)
    (hw : ∀ e ∈ es, 0 ≤ e.w ∧ F.printable e.w) (fuel : Nat) (hfuel : maxVertex es + 1 ≤ fuel) :
    ∃ (out : Str) (gs : List (Nat × List (Nat × K))) (g g' : Graph K),
      edgelistToAdjacencylist F fuel file = some (.ok out) ∧
      contentLines out = gs.map (fun p => adjLine F p.1 p.2) ∧
      gs.Pairwise (fun p q => p.1 < q.1) ∧ (∀ p ∈ gs, p.2 ≠ []) ∧
      (gs.flatMap (fun p => p.2.map (fun q => (⟨p.1, q.1, q.2⟩ : Edge K)))).Perm
        (es.flatMap (fun e => [e, ⟨e.v2, e.v1, e.w⟩])) ∧
      loadEdgelist F file = .ok g ∧ loadAdjacencylist F out = .ok g' ∧
      g'.n = g.n ∧ g'.adj = g.adj := by
  have hfit := parseAll_fits h
  have hfit2 : ∀ e ∈ bothWays es, e.v1 < 2 ^ 31 ∧ e.v2 < 2 ^ 31 ∧ 0 ≤ e.w ∧ F.printable e.w := by
    intro e he
    rcases mem_bothWays.1 he with h | h
    · exact ⟨(hfit e h).1, (hfit e h).2, hw e h⟩
    · exact ⟨(hfit _ h).2, (hfit _ h).1, (hw _ h).1, (hw _ h).2⟩
  -- the copy
  obtain ⟨dup, hd1, hd2, hd3, _⟩ := duplicateLines_spec F (fileLines file) es h
  have hdline : ∀ l ∈ dup, IsLine l := by
    intro l hl
    by_cases hc : isContent l = true
    · have : l ∈ (bothWays es).map (edgeLine F) := by
        rw [← hd2]; exact List.mem_filter.2 ⟨hl, hc⟩
      obtain ⟨e, he, rfl⟩ := List.mem_map.1 this
      exact isLine_edgeLine F e (hfit2 e he).2.2.2
    · exact fileLines_isLine file l (hd3 l hl (by simpa using hc))
  have hdf : fileLines (unlines dup) = dup ++ [[]] := fileLines_unlines hdline
  have hdc : contentLines (unlines dup) = (bothWays es).map (edgeLine F) := by
    unfold contentLines
    rw [hdf, List.filter_append, hd2]
    simp [isContent_nil]
  have hparse : ∀ e ∈ bothWays es, parseEdgelistLine F (edgeLine F e) = .ok e := fun e he =>
    parse_edgeLine F e (hfit2 e he).1 (hfit2 e he).2.1 (hfit2 e he).2.2.2
  have hdp : Outcome.mapM' (parseEdgelistLine F) (contentLines (unlines dup)) =
      .ok (bothWays es) := by
    rw [hdc, Outcome.mapM'_map, Outcome.mapM'_total id hparse, List.map_id]
  -- the sort
  obtain ⟨sorted, blanks, hs1, hs2, hs3, _⟩ := C25_sorts F (unlines dup) _ hdp fuel (by
    rw [maxVertex_bothWays]; exact hfuel)
  rw [hdc] at hs2
  obtain ⟨es', hp', rfl⟩ := perm_map_exists _ hs2
  have hmem' : ∀ e ∈ es', e ∈ bothWays es := fun e he => hp'.subset he
  have hparse' : ∀ e ∈ es', parseEdgelistLine F (edgeLine F e) = .ok e := fun e he =>
    hparse e (hmem' e he)
  have hsort' : es'.Pairwise (fun a b => a.v1 ≤ b.v1) := by
    rw [List.pairwise_map] at hs3
    refine List.Pairwise.imp_of_mem ?_ hs3
    intro a b ha hb hab
    have e1 : firstId F (edgeLine F a) = a.v1 := by unfold firstId; rw [hparse' a ha]
    have e2 : firstId F (edgeLine F b) = b.v1 := by unfold firstId; rw [hparse' b hb]
    rwa [e1, e2] at hab
  rw [hdf, List.dropLast_concat] at hs1
  have hlead : ∀ l ∈ leadingComments dup, IsLine l ∧ isContent l = false := by
    intro l hl
    refine ⟨hdline l (List.takeWhile_subset _ hl), ?_⟩
    have := List.mem_takeWhile_imp hl
    simpa using this
  have hsf : fileLines (unlines (leadingComments dup ++ es'.map (edgeLine F) ++
      List.replicate blanks [])) =
      leadingComments dup ++ (es'.map (edgeLine F) ++ List.replicate (blanks + 1) []) := by
    rw [fileLines_unlines]
    · rw [List.replicate_succ']
      simp
    · intro l hl
      rcases List.mem_append.1 hl with hl | hl
      · rcases List.mem_append.1 hl with hl | hl
        · exact (hlead l hl).1
        · obtain ⟨e, he, rfl⟩ := List.mem_map.1 hl
          exact isLine_edgeLine F e (hfit2 e (hmem' e he)).2.2.2
      · rw [(List.mem_replicate.1 hl).2]; exact ⟨by simp, by simp⟩
  have hprint : ∀ p ∈ groups es', ∀ q ∈ p.2, F.printable q.2 := by
    intro p hp q hq
    have : (⟨p.1, q.1, q.2⟩ : Edge K) ∈ es' := by
      rw [← ungroup_groups es']
      unfold ungroup
      exact List.mem_flatMap.2 ⟨p, hp, List.mem_map.2 ⟨q, hq, rfl⟩⟩
    exact (hfit2 _ (hmem' _ this)).2.2.2
  -- the output
  obtain ⟨out, ho1, ho2⟩ : ∃ out, edgelistToAdjacencylist F fuel file = some (.ok out) ∧
      contentLines out = (groups es').map (fun p => adjLine F p.1 p.2) := by
    have hrun : edgelistToAdjacencylist F fuel file =
        some (edgeToAdjText F (-1) false (leadingComments dup ++
          (es'.map (edgeLine F) ++ List.replicate (blanks + 1) []))) := by
      unfold edgelistToAdjacencylist copyDuplicate
      rw [hd1]
      simp only [Outcome.bind_ok]
      rw [hs1]
      simp only
      rw [hsf]
    rw [hrun]
    by_cases hnil : es' = []
    · subst hnil
      refine ⟨unlines (leadingComments dup ++ List.replicate (blanks + 1) []) ++ [], ?_, ?_⟩
      · have := edgeToAdj_header F (leadingComments dup ++ List.replicate (blanks + 1) [])
          (by
            intro l hl
            rcases List.mem_append.1 hl with hl | hl
            · exact (hlead l hl).2
            · rw [(List.mem_replicate.1 hl).2]; exact isContent_nil) [] [] rfl
        rw [List.append_nil] at this
        rw [List.map_nil, List.nil_append, this]
      · rw [List.append_nil]
        have := contentLines_unlines (hd := leadingComments dup ++ List.replicate (blanks + 1) [])
          (ls := []) (by
            intro l hl
            rcases List.mem_append.1 hl with hl | hl
            · exact hlead l hl
            · rw [(List.mem_replicate.1 hl).2]; exact ⟨⟨by simp, by simp⟩, isContent_nil⟩)
          (by simp)
        rw [List.append_nil] at this
        rw [this]
        rfl
    · refine ⟨unlines (leadingComments dup) ++ groupText F (groups es'), ?_, ?_⟩
      · rw [edgeToAdj_header F _ (fun l hl => (hlead l hl).2) _ _
          (edgeToAdj_content F es' (-1) hparse' hsort' (fun e _ => by omega) false (blanks + 1)
            (fun h => absurd h hnil))]
        congr 3
        cases hes : es' with
        | nil => exact absurd hes hnil
        | cons e es'' =>
          obtain ⟨nb, gs, hg⟩ := groups_head e es''
          rw [hg]
          simp only [restText]
          rw [if_neg (by omega)]
      · unfold contentLines
        rw [fileLines_header (fun l hl => (hlead l hl).1), List.filter_append,
          List.filter_eq_nil_iff.2 (by intro l hl; simp [(hlead l hl).2]), List.nil_append]
        have := fileLines_groupText F (groups es') hprint [] ⟨by simp, by simp⟩
        rw [List.nil_append] at this
        rw [this]
        simp [isContent_nil]
  -- loading it
  obtain ⟨g, w, hg1, hg2, hg3, hg4, hg5⟩ := C22_load F file es h (fun e he => (hw e he).1)
  obtain ⟨les, hl1, hl2⟩ := parse_groups F (groups es') (by
      rw [ungroup_groups]
      intro e he
      have := hfit2 e (hmem' e he)
      exact ⟨this.1, this.2.1, this.2.2.2⟩) (groups_ne es')
  rw [ungroup_groups] at hl2
  have hl3 : les.flatten.Perm ((bothWays es).map toI) := hl2.trans (hp'.map _)
  have hew : ∀ u v : Nat, entryWeight les.flatten u v = w u v := by
    intro u v
    rw [entryWeight_perm hl3, entryWeight_both, hg4.weight]
  have hwsym : ∀ u v, w u v = w v u := by
    intro u v
    rw [hg4.weight, hg4.weight]
    by_cases huv : u = v
    · subst huv; rfl
    · rw [if_neg huv, if_neg (Ne.symm huv), listWeight_symm]
  obtain ⟨g', hk1, hk2, hk3, hk4, hk5, hk6⟩ := C24_load F out les (by rw [ho2]; exact hl1)
    (by
      intro e he
      obtain ⟨x, hx, rfl⟩ := List.mem_map.1 (hl3.subset he)
      have := hfit2 x hx
      exact ⟨by simp [toI], by simp [toI], this.2.2.1⟩)
    (by intro u v; rw [hew, hew, hwsym])
  have hn : g'.n = g.n := by
    have hle : g'.n ≤ g.n := by
      rcases hk6 with h | ⟨e, he, h⟩
      · omega
      · obtain ⟨x, hx, rfl⟩ := List.mem_map.1 (hl3.subset he)
        simp only [toI] at h
        have : x.v1 < g.n ∧ x.v2 < g.n := by
          rcases mem_bothWays.1 hx with hx | hx
          · exact hg4.bound x hx
          · exact (hg4.bound _ hx).symm
        omega
    have hge : g.n ≤ g'.n := by
      rcases hg4.least with h | ⟨e, he, h⟩
      · omega
      · have := hk5 (toI e) (hl3.symm.subset (List.mem_map.2 ⟨e, mem_bothWays.2 (Or.inl he), rfl⟩))
        simp only [toI] at this
        omega
    omega
  refine ⟨out, groups es', g, g', ho1, ho2, groups_sorted es' hsort', groups_ne es', ?_, hg1, hk1, hn, ?_⟩
  · have := ungroup_groups es'
    unfold ungroup at this
    rw [this]
    exact hp'
  apply SprsMat.ext_coeff hk2.wf hg2.wf hk3.noZeros hg3.noZeros
  · rw [hk2.rows, hg2.rows, hn]
  · rw [hk2.cols, hg2.cols, hn]
  · intro i j
    rw [hk4, hew, hg5]

/-! ## Adjacency list to edgelist -/

/-- The edges kept by the conversion, as read back. -/
def keptEdges (es : List (IEdge K)) : List (Edge K) :=
  (es.filter (fun e => decide (e.v1 ≤ e.v2))).map (fun e => ⟨e.v1.toNat, e.v2.toNat, e.w⟩)

theorem iedgeLine_eq (F : Fmt K) {e : IEdge K} (h1 : 0 ≤ e.v1) (h2 : 0 ≤ e.v2) :
    iedgeLine F e = edgeLine F ⟨e.v1.toNat, e.v2.toNat, e.w⟩ := by
  unfold iedgeLine edgeLine printInt
  rw [if_neg (by omega), if_neg (by omega)]
  simp only
  rw [show e.v1.natAbs = e.v1.toNat by omega, show e.v2.natAbs = e.v2.toNat by omega]

theorem adjToEdge_spec (F : Fmt K) (ls : List Str) : ∀ (written : Bool) (es : List (List (IEdge K))),
    Outcome.mapM' (parseAdjLine F) (ls.filter isContent) = .ok es →
    (∀ e ∈ es.flatten, 0 ≤ e.v1 ∧ 0 ≤ e.v2 ∧ F.printable e.w) → (∀ l ∈ ls, IsLine l) →
    ∃ out, adjToEdgeLines F written ls = .ok
        ((if written then [] else leadingComments ls) ++ out) ∧
      out.filter isContent = (keptEdges es.flatten).map (edgeLine F) ∧
      (∀ l ∈ out, IsLine l) := by
  induction ls with
  | nil =>
    intro written es h _ _
    cases h
    exact ⟨[], by cases written <;> rfl, rfl, by simp⟩
  | cons l ls ih =>
    intro written es h hes hls
    by_cases hc : isContent l = true
    · rw [List.filter_cons_of_pos hc] at h
      simp only [Outcome.mapM', Outcome.bind_eq_ok, Outcome.ok.injEq] at h
      obtain ⟨e, he, es', hes', rfl⟩ := h
      obtain ⟨out, h1, h2, h3⟩ := ih true es' hes'
        (fun x hx => hes x (by rw [List.flatten_cons]; exact List.mem_append_right _ hx))
        (fun x hx => hls x (by simp [hx]))
      have he' : ∀ x ∈ e, 0 ≤ x.v1 ∧ 0 ≤ x.v2 ∧ F.printable x.w := fun x hx =>
        hes x (by rw [List.flatten_cons]; exact List.mem_append_left _ hx)
      have hrt : parseAdjRT F l = .ok e := by unfold parseAdjRT; rw [he]; rfl
      have hk : (e.filter (fun e => decide (e.v1 ≤ e.v2))).map (iedgeLine F) =
          (keptEdges e).map (edgeLine F) := by
        unfold keptEdges
        rw [List.map_map]
        apply List.map_congr_left
        intro x hx
        have := he' x (List.mem_filter.1 hx).1
        exact iedgeLine_eq F this.1 this.2.1
      refine ⟨(keptEdges e).map (edgeLine F) ++ out, ?_, ?_, ?_⟩
      · unfold adjToEdgeLines
        rw [if_pos hc, hrt, Outcome.bind_ok, h1, Outcome.bind_ok, hk]
        have hlead : leadingComments (l :: ls) = [] := by
          unfold leadingComments; rw [List.takeWhile_cons]; simp [hc]
        rw [hlead]
        cases written <;> rfl
      · rw [List.filter_append, h2, List.flatten_cons]
        rw [List.filter_eq_self.2]
        · simp [keptEdges]
        · intro x hx
          obtain ⟨y, _, rfl⟩ := List.mem_map.1 hx
          exact isContent_edgeLine F y
      · intro x hx
        rcases List.mem_append.1 hx with hx | hx
        · obtain ⟨y, hy, rfl⟩ := List.mem_map.1 hx
          apply isLine_edgeLine
          unfold keptEdges at hy
          obtain ⟨z, hz, rfl⟩ := List.mem_map.1 hy
          exact (he' z (List.mem_filter.1 hz).1).2.2
        · exact h3 x hx
    · rw [List.filter_cons_of_neg hc] at h
      have hc' : isContent l = false := by simpa using hc
      obtain ⟨out, h1, h2, h3⟩ := ih written es h hes (fun x hx => hls x (by simp [hx]))
      refine ⟨out, ?_, h2, h3⟩
      unfold adjToEdgeLines
      rw [if_neg hc, h1, Outcome.bind_ok]
      have hlead : leadingComments (l :: ls) = l :: leadingComments ls := by
        unfold leadingComments; rw [List.takeWhile_cons]; simp [hc']
      rw [hlead]
      cases written <;> rfl

theorem parseAdjEdge_range {F : Fmt K} {src : Int} {t : Str} {e : IEdge K}
    (h : parseAdjEdge F src t = .ok e) : e.v1 = src ∧ e.v2 < 2 ^ 31 := by
  unfold parseAdjEdge at h
  cases hc : cutColon t with
  | none =>
    rw [hc] at h
    simp only [Outcome.bind_eq_ok] at h
    obtain ⟨v, hv, h⟩ := h
    cases h
    exact ⟨rfl, (stoi_range hv).2⟩
  | some p =>
    rw [hc] at h
    simp only [Outcome.bind_eq_ok] at h
    obtain ⟨v, hv, w, _, h⟩ := h
    cases h
    exact ⟨rfl, (stoi_range hv).2⟩

theorem parseAdjLine_range {F : Fmt K} {l : Str} {es : List (IEdge K)}
    (h : parseAdjLine F l = .ok es) : ∀ e ∈ es, e.v1 < 2 ^ 31 ∧ e.v2 < 2 ^ 31 := by
  unfold parseAdjLine at h
  cases hc : cutColon l with
  | none => rw [hc] at h; cases h
  | some p =>
    rw [hc] at h
    simp only [Outcome.bind_eq_ok] at h
    obtain ⟨src, hsrc, xs, hxs, h⟩ := h
    cases h
    intro e he
    have he := (perm_sortEdges _).subset he
    have hr := (stoi_range hsrc).2
    rcases List.mem_append.1 he with he | he
    · unfold adjTokens at hxs
      rw [Outcome.mapM'_eq_ok] at hxs
      have : ∀ (ts : List Str) (xs : List (IEdge K)),
          List.Forall₂ (fun a b => parseAdjEdge F src a = .ok b) ts xs → e ∈ xs →
          ∃ t, parseAdjEdge F src t = .ok e := by
        intro ts xs hf he
        induction hf with
        | nil => simp at he
        | cons ha _ ih =>
          rcases List.mem_cons.1 he with rfl | he
          · exact ⟨_, ha⟩
          · exact ih he
      obtain ⟨t, ht⟩ := this _ _ hxs he
      have := parseAdjEdge_range ht
      exact ⟨by rw [this.1]; exact hr, this.2⟩
    · unfold adjLast at he
      cases hp : parseAdjEdge F src (splitDelim ' ' p.2).2 with
      | ok x =>
        rw [hp] at he
        simp only [List.mem_singleton] at he
        subst he
        have := parseAdjEdge_range hp
        exact ⟨by rw [this.1]; exact hr, this.2⟩
      | throw x => rw [hp] at he; simp at he
      | ub => rw [hp] at he; simp at he

theorem listWeight_kept {es : List (IEdge K)} (hid : ∀ e ∈ es, 0 ≤ e.v1 ∧ 0 ≤ e.v2) {u v : Nat}
    (huv : u ≤ v) : listWeight (keptEdges es) u v = entryWeight es u v := by
  induction es with
  | nil => rfl
  | cons e es ih =>
    have ih := ih (fun x hx => hid x (by simp [hx]))
    have he := hid e (by simp)
    rw [entryWeight_cons, ← ih]
    by_cases hle : e.v1 ≤ e.v2
    · have e2 : keptEdges (e :: es) = ⟨e.v1.toNat, e.v2.toNat, e.w⟩ :: keptEdges es := by
        simp [keptEdges, hle]
      rw [e2, listWeight_cons]
      simp only
      congr 1
      by_cases h : e.v1 = (u : Int) ∧ e.v2 = (v : Int)
      · rw [if_pos h, if_pos (by omega)]
      · rw [if_neg h, if_neg (by omega)]
    · have e2 : keptEdges (e :: es) = keptEdges es := by simp [keptEdges, hle]
      rw [e2, if_neg (by omega), zero_add]

theorem parseAdjAll_range {F : Fmt K} {ls : List Str} {es : List (List (IEdge K))}
    (h : Outcome.mapM' (parseAdjLine F) ls = .ok es) :
    ∀ e ∈ es.flatten, e.v1 < 2 ^ 31 ∧ e.v2 < 2 ^ 31 := by
  rw [Outcome.mapM'_eq_ok] at h
  induction h with
  | nil => simp
  | cons ha _ ih =>
    intro e he
    rw [List.flatten_cons] at he
    rcases List.mem_append.1 he with he | he
    · exact parseAdjLine_range ha e he
    · exact ih e he

theorem entryWeight_pos_iff {es : List (IEdge K)} (hw : ∀ e ∈ es, 0 < e.w) (u v : Nat) :
    0 < entryWeight es u v ↔ ∃ e ∈ es, e.v1 = (u : Int) ∧ e.v2 = (v : Int) := by
  have hnn : ∀ l : List (IEdge K), (∀ e ∈ l, 0 < e.w) → 0 ≤ entryWeight l u v := by
    intro l hl
    unfold entryWeight
    apply List.sum_nonneg
    intro x hx
    obtain ⟨e, he, rfl⟩ := List.mem_map.1 hx
    exact le_of_lt (hl e (List.mem_filter.1 he).1)
  constructor
  · intro h
    by_contra hc
    push Not at hc
    have : entryWeight es u v = 0 := by
      unfold entryWeight
      rw [List.filter_eq_nil_iff.2]
      · simp
      · intro e he
        have := hc e he
        simp only [decide_eq_true_eq]
        intro hh
        exact this hh.1 hh.2
    rw [this] at h
    exact lt_irrefl _ h
  · rintro ⟨e, he, h1, h2⟩
    obtain ⟨a, b, rfl⟩ := List.append_of_mem he
    rw [entryWeight_append, show e :: b = [e] ++ b from rfl, entryWeight_append]
    have ha := hnn a (fun x hx => hw x (by simp [hx]))
    have hb := hnn b (fun x hx => hw x (by simp [hx]))
    have hee : entryWeight [e] u v = e.w := by
      unfold entryWeight
      simp [h1, h2]
    have := hw e he
    rw [hee]
    linarith

/-- **C27** (what the conversion does).  For every adjacency list file whose lines parse, with
non-negative ids, positive weights that survive printing, and symmetric total weights,
`adjacencylist_to_edgelist` writes an edgelist which keeps the leading comments and loads to a
graph with the same vertices and the same weights between distinct vertices; the weight of a
self-loop is doubled. -/
theorem C27_converts (F : Fmt K) (file : Str) (es : List (List (IEdge K)))
    (h : Outcome.mapM' (parseAdjLine F) (contentLines file) = .ok es)
    (hid : ∀ e ∈ es.flatten, 0 ≤ e.v1 ∧ 0 ≤ e.v2 ∧ 0 < e.w ∧ F.printable e.w)
    (hsym : ∀ u v : Nat, entryWeight es.flatten u v = entryWeight es.flatten v u) :
    ∃ (out : Str) (g g' : Graph K), adjacencylistToEdgelist F file = .ok out ∧
      (∃ rest, out = unlines (leadingComments (fileLines file)) ++ rest) ∧
      loadAdjacencylist F file = .ok g ∧ loadEdgelist F out = .ok g' ∧ g'.Valid ∧ g'.Pruned ∧
      g.Valid ∧ g.Pruned ∧ g'.n = g.n ∧
      (∀ u v, u ≠ v → g'.adj.coeff u v = g.adj.coeff u v) ∧
      (∀ u, g.adj.coeff u u = thr (entryWeight es.flatten u u)) ∧
      (∀ u, g'.adj.coeff u u = thr (2 * entryWeight es.flatten u u)) := by
  have hfit := parseAdjAll_range h
  obtain ⟨rest, h1, h2, h3⟩ := adjToEdge_spec F (fileLines file) false es h
    (fun e he => ⟨(hid e he).1, (hid e he).2.1, (hid e he).2.2.2⟩) (fileLines_isLine file)
  simp only [Bool.false_eq_true, if_false] at h1
  have hlead : ∀ l ∈ leadingComments (fileLines file), IsLine l ∧ isContent l = false := by
    intro l hl
    refine ⟨fileLines_isLine file l (List.takeWhile_subset _ hl), ?_⟩
    have := List.mem_takeWhile_imp hl
    simpa using this
  have hkmem : ∀ x ∈ keptEdges es.flatten, ∃ e ∈ es.flatten, e.v1 ≤ e.v2 ∧
      x = ⟨e.v1.toNat, e.v2.toNat, e.w⟩ := by
    intro x hx
    unfold keptEdges at hx
    obtain ⟨e, he, rfl⟩ := List.mem_map.1 hx
    rw [List.mem_filter, decide_eq_true_eq] at he
    exact ⟨e, he.1, he.2, rfl⟩
  have hcl : contentLines (unlines (leadingComments (fileLines file) ++ rest)) =
      (keptEdges es.flatten).map (edgeLine F) := by
    unfold contentLines
    rw [fileLines_unlines, List.filter_append, List.filter_append, h2,
      List.filter_eq_nil_iff.2 (by intro l hl; simp [(hlead l hl).2])]
    · simp [isContent_nil]
    · intro l hl
      rcases List.mem_append.1 hl with hl | hl
      · exact (hlead l hl).1
      · exact h3 l hl
  have hparse : Outcome.mapM' (parseEdgelistLine F)
      (contentLines (unlines (leadingComments (fileLines file) ++ rest))) =
      .ok (keptEdges es.flatten) := by
    rw [hcl, Outcome.mapM'_map, Outcome.mapM'_total id, List.map_id]
    intro x hx
    obtain ⟨e, he, _, rfl⟩ := hkmem x hx
    have ha := hid e he
    have hb := hfit e he
    exact parse_edgeLine F _ (by simp only; omega) (by simp only; omega) ha.2.2.2
  obtain ⟨g', w, hg1, hg2, hg3, hg4, hg5⟩ := C22_load F _ _ hparse (by
    intro x hx
    obtain ⟨e, he, _, rfl⟩ := hkmem x hx
    exact le_of_lt (hid e he).2.2.1)
  obtain ⟨g, hk1, hk2, hk3, hk4, hk5, hk6⟩ := C24_load F file es h
    (fun e he => ⟨(hid e he).1, (hid e he).2.1, le_of_lt (hid e he).2.2.1⟩) hsym
  have hid' : ∀ e ∈ es.flatten, 0 ≤ e.v1 ∧ 0 ≤ e.v2 := fun e he => ⟨(hid e he).1, (hid e he).2.1⟩
  have hn : g'.n = g.n := by
    have hle : g'.n ≤ g.n := by
      rcases hg4.least with h | ⟨x, hx, h⟩
      · omega
      · obtain ⟨e, he, _, rfl⟩ := hkmem x hx
        have := hk5 e he
        simp only at h
        have := hid' e he
        omega
    have hkept : ∀ e ∈ es.flatten, e.v1 ≤ e.v2 → e.v1 < (g'.n : Int) ∧ e.v2 < (g'.n : Int) := by
      intro e he hle
      have := hg4.bound ⟨e.v1.toNat, e.v2.toNat, e.w⟩ (by
        unfold keptEdges
        exact List.mem_map.2 ⟨e, List.mem_filter.2 ⟨he, by simpa using hle⟩, rfl⟩)
      simp only at this
      have := hid' e he
      omega
    have hge : g.n ≤ g'.n := by
      rcases hk6 with h | ⟨e, he, h⟩
      · omega
      · rcases le_total e.v1 e.v2 with hle | hle
        · have := hkept e he hle
          omega
        · have hb := hid' e he
          have hpos : 0 < entryWeight es.flatten e.v1.toNat e.v2.toNat := by
            rw [entryWeight_pos_iff (fun x hx => (hid x hx).2.2.1)]
            exact ⟨e, he, by omega, by omega⟩
          rw [hsym, entryWeight_pos_iff (fun x hx => (hid x hx).2.2.1)] at hpos
          obtain ⟨x, hx, hx1, hx2⟩ := hpos
          have := hkept x hx (by omega)
          omega
    omega
  refine ⟨unlines (leadingComments (fileLines file) ++ rest), g, g', ?_, ⟨unlines rest, unlines_append _ _⟩,
    hk1, hg1, hg2, hg3, hk2, hk3, hn, ?_, fun u => hk4 u u, ?_⟩
  · unfold adjacencylistToEdgelist
    rw [h1]; rfl
  · intro u v huv
    rw [hg5, hk4, hg4.weight, if_neg huv]
    rcases le_total u v with hle | hle
    · rw [listWeight_kept hid' hle]
    · rw [listWeight_symm, listWeight_kept hid' hle, hsym]
  · intro u
    rw [hg5, hg4.weight, if_pos rfl, listWeight_kept hid' (le_refl u)]

/-- **C27** (no self-loops).  The edgelist loads to the same graph as the adjacency list. -/
theorem C27_same_graph (F : Fmt K) (file : Str) (es : List (List (IEdge K)))
    (h : Outcome.mapM' (parseAdjLine F) (contentLines file) = .ok es)
    (hid : ∀ e ∈ es.flatten, 0 ≤ e.v1 ∧ 0 ≤ e.v2 ∧ 0 < e.w ∧ F.printable e.w)
    (hsym : ∀ u v : Nat, entryWeight es.flatten u v = entryWeight es.flatten v u)
    (hloop : ∀ e ∈ es.flatten, e.v1 ≠ e.v2) :
    ∃ (out : Str) (g g' : Graph K), adjacencylistToEdgelist F file = .ok out ∧
      loadAdjacencylist F file = .ok g ∧ loadEdgelist F out = .ok g' ∧
      g'.n = g.n ∧ g'.adj = g.adj := by
  obtain ⟨out, g, g', h1, _, h2, h3, h4, h5, h6, h7, h8, h9, h10, h11⟩ := C27_converts F file es h hid hsym
  refine ⟨out, g, g', h1, h2, h3, h8, ?_⟩
  apply SprsMat.ext_coeff h4.wf h6.wf h5.noZeros h7.noZeros
  · rw [h4.rows, h6.rows, h8]
  · rw [h4.cols, h6.cols, h8]
  · intro i j
    by_cases hij : i = j
    · subst hij
      rw [h10, h11]
      have : entryWeight es.flatten i i = 0 := by
        unfold entryWeight
        rw [List.filter_eq_nil_iff.2]
        · simp
        · intro e he
          have := hloop e he
          simp only [decide_eq_true_eq]
          intro hh
          exact this (by rw [hh.1, hh.2])
      rw [this, mul_zero]
    · exact h9 i j hij

/-- **C27** (self-loops).  A self-loop comes back with twice its weight. -/
theorem C27_self_loop_doubles (F : Fmt K) (file : Str) (es : List (List (IEdge K)))
    (h : Outcome.mapM' (parseAdjLine F) (contentLines file) = .ok es)
    (hid : ∀ e ∈ es.flatten, 0 ≤ e.v1 ∧ 0 ≤ e.v2 ∧ 0 < e.w ∧ F.printable e.w)
    (hsym : ∀ u v : Nat, entryWeight es.flatten u v = entryWeight es.flatten v u) :
    ∃ (out : Str) (g g' : Graph K), adjacencylistToEdgelist F file = .ok out ∧
      loadAdjacencylist F file = .ok g ∧ loadEdgelist F out = .ok g' ∧
      ∀ u, g.adj.coeff u u ≠ 0 → g'.adj.coeff u u = 2 * g.adj.coeff u u := by
  obtain ⟨out, g, g', h1, _, h2, h3, _, _, _, _, _, _, h10, h11⟩ := C27_converts F file es h hid hsym
  refine ⟨out, g, g', h1, h2, h3, ?_⟩
  intro u hu
  rw [h10] at hu
  rw [h10, h11]
  by_cases hlt : epsilon < entryWeight es.flatten u u
  · have h2lt : epsilon < 2 * entryWeight es.flatten u u := by
      have := epsilon_pos (K := K)
      linarith
    unfold thr
    rw [if_pos hlt, if_pos h2lt]
  · unfold thr at hu
    rw [if_neg hlt] at hu
    exact absurd rfl hu

end

/-- Non-vacuity (C26): a file with a comment, a repeated edge, an unordered id and a self-loop. -/
example : ∃ (out : Str) (gs : List (Nat × List (Nat × ℚ))) (g g' : Graph ℚ),
    edgelistToAdjacencylist natFmt 9 "# h\n3 1 2\n0 2\n1 1".toList = some (.ok out) ∧
    contentLines out = gs.map (fun p => adjLine natFmt p.1 p.2) ∧
    gs.Pairwise (fun p q => p.1 < q.1) ∧ (∀ p ∈ gs, p.2 ≠ []) ∧
    (gs.flatMap (fun p => p.2.map (fun q => (⟨p.1, q.1, q.2⟩ : Edge ℚ)))).Perm
      [⟨3, 1, 2⟩, ⟨1, 3, 2⟩, ⟨0, 2, 1⟩, ⟨2, 0, 1⟩, ⟨1, 1, 1⟩, ⟨1, 1, 1⟩] ∧
    loadEdgelist natFmt "# h\n3 1 2\n0 2\n1 1".toList = .ok g ∧
    loadAdjacencylist natFmt out = .ok g' ∧ g'.n = g.n ∧ g'.adj = g.adj := by
  have hfl : fileLines "# h\n3 1 2\n0 2\n1 1".toList =
      ["# h".toList, "3 1 2".toList, "0 2".toList, "1 1".toList, []] := by
    rw [show "# h\n3 1 2\n0 2\n1 1".toList = "# h".toList ++ '\n' :: ("3 1 2".toList ++ '\n' ::
      ("0 2".toList ++ '\n' :: "1 1".toList)) from by decide]
    rw [fileLines_lf ⟨by decide, by decide⟩, fileLines_lf ⟨by decide, by decide⟩,
      fileLines_lf ⟨by decide, by decide⟩, fileLines_last ⟨by decide, by decide⟩ (by decide)]
  have hcl : contentLines "# h\n3 1 2\n0 2\n1 1".toList =
      ["3 1 2".toList, "0 2".toList, "1 1".toList] := by
    unfold contentLines; rw [hfl]; decide
  refine C26_converts natFmt _ [⟨3, 1, 2⟩, ⟨0, 2, 1⟩, ⟨1, 1, 1⟩] (by rw [hcl]; decide +kernel) ?_ 9
    (by decide +kernel)
  intro e he
  simp only [List.mem_cons, List.not_mem_nil, or_false] at he
  rcases he with rfl | rfl | rfl
  · exact ⟨by decide +kernel, natFmt_printable 2 (by norm_num)⟩
  · exact ⟨by decide +kernel, by simpa using natFmt_printable 1 (by norm_num)⟩
  · exact ⟨by decide +kernel, by simpa using natFmt_printable 1 (by norm_num)⟩

/-- Non-vacuity (C27): a path on three vertices with a self-loop at the end. -/
example : ∃ (out : Str) (g g' : Graph ℚ),
    adjacencylistToEdgelist natFmt "# h\n0: 1:2\n1: 0:2\n2: 2:5".toList = .ok out ∧
    loadAdjacencylist natFmt "# h\n0: 1:2\n1: 0:2\n2: 2:5".toList = .ok g ∧
    loadEdgelist natFmt out = .ok g' ∧
    ∀ u, g.adj.coeff u u ≠ 0 → g'.adj.coeff u u = 2 * g.adj.coeff u u := by
  have hfl : fileLines "# h\n0: 1:2\n1: 0:2\n2: 2:5".toList =
      ["# h".toList, "0: 1:2".toList, "1: 0:2".toList, "2: 2:5".toList, []] := by
    rw [show "# h\n0: 1:2\n1: 0:2\n2: 2:5".toList = "# h".toList ++ '\n' :: ("0: 1:2".toList ++ '\n' ::
      ("1: 0:2".toList ++ '\n' :: "2: 2:5".toList)) from by decide]
    rw [fileLines_lf ⟨by decide, by decide⟩, fileLines_lf ⟨by decide, by decide⟩,
      fileLines_lf ⟨by decide, by decide⟩, fileLines_last ⟨by decide, by decide⟩ (by decide)]
  have hcl : contentLines "# h\n0: 1:2\n1: 0:2\n2: 2:5".toList =
      ["0: 1:2".toList, "1: 0:2".toList, "2: 2:5".toList] := by
    unfold contentLines; rw [hfl]; decide
  refine C27_self_loop_doubles natFmt _ [[⟨0, 1, 2⟩], [⟨1, 0, 2⟩], [⟨2, 2, 5⟩]]
    (by rw [hcl]; decide +kernel) ?_ ?_
  · intro e he
    simp only [List.flatten_cons, List.flatten_nil, List.mem_append, List.mem_cons, List.not_mem_nil,
      or_false] at he
    rcases he with rfl | rfl | rfl
    · exact ⟨by decide, by decide, by decide +kernel, natFmt_printable 2 (by norm_num)⟩
    · exact ⟨by decide, by decide, by decide +kernel, natFmt_printable 2 (by norm_num)⟩
    · exact ⟨by decide, by decide, by decide +kernel, natFmt_printable 5 (by norm_num)⟩
  · intro u v
    have e0 : ∀ u v : Nat, entryWeight ([] : List (IEdge ℚ)) u v = 0 := fun _ _ => rfl
    simp only [List.flatten_cons, List.flatten_nil, List.append_nil, List.cons_append,
      List.nil_append, entryWeight_cons, e0]
    have e1 : ∀ a b : Prop, [Decidable (a ∧ b)] → [Decidable (b ∧ a)] → ∀ x : ℚ,
        (if a ∧ b then x else 0) = if b ∧ a then x else 0 := by
      intro a b _ _ x
      by_cases h : a ∧ b
      · rw [if_pos h, if_pos h.symm]
      · rw [if_neg h, if_neg (fun h' => h h'.symm)]
    rw [e1 (1 = (u : Int)) (0 = (v : Int)), e1 (0 = (u : Int)) (1 = (v : Int)),
      e1 (2 = (u : Int)) (2 = (v : Int))]
    ring

end Stag
