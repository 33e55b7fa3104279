import Verif.LocalGraph
import Verif.Props.Adjacencylist

/-!
# C28, C29: queries on an adjacency list file on disk
-/

namespace Stag

/-! ## Specification -/

/-- The id at the start of an adjacency list line: the number before the first colon. -/
def lineId (l : Str) : Option Int :=
  match cutColon l with
  | none => none
  | some (a, _) =>
    match stoi a with
    | .ok id => some id
    | _ => none

/-- The lines of a file (the reader also sees one empty line at the end of the file). -/
def bodyLines (file : Str) : List Str := (fileLines file).dropLast

/-- A sorted adjacency list file: a line is a blank or a comment without a colon, or starts with
`id:`; the ids increase strictly; the last line is not a blank or a comment. -/
structure SortedAdjFile (file : Str) : Prop where
  ids : ∀ l ∈ bodyLines file, ':' ∈ l → ∃ id, lineId l = some id ∧ 0 ≤ id
  increasing : ((bodyLines file).filter (fun l => decide (':' ∈ l))).Pairwise
    (fun a b => ∀ i j, lineId a = some i → lineId b = some j → i < j)
  last : ∀ l, (bodyLines file).getLast? = some l → ':' ∈ l

/-- Vertex `v` has the line `l`. -/
def HasLine (file : Str) (v : Int) (l : Str) : Prop :=
  l ∈ bodyLines file ∧ ':' ∈ l ∧ lineId l = some v

/-! ## Line starts -/

/-- What is left after reading a line. -/
abbrev afterLine (s : Str) : Str := (getline s).2.1

theorem afterLine_cons (c : Char) (t : Str) :
    (afterLine (c :: t) = t ∧ (getline (c :: t)).1 = []) ∨
    (afterLine (c :: t) = afterLine t ∧ t ≠ []) ∨ (t = [] ∧ afterLine (c :: t) = []) := by
  unfold afterLine getline
  by_cases h1 : c = '\n'
  · rw [if_pos h1]; exact Or.inl ⟨rfl, rfl⟩
  · rw [if_neg h1]
    by_cases h2 : c = '\r'
    · rw [if_pos h2]
      cases t with
      | nil => exact Or.inl ⟨rfl, rfl⟩
      | cons d t' =>
        simp only
        by_cases h3 : d = '\n'
        · rw [if_pos h3]
          right; left
          refine ⟨?_, by simp⟩
          unfold getline
          rw [if_pos h3]
        · rw [if_neg h3]; exact Or.inl ⟨rfl, rfl⟩
    · rw [if_neg h2]
      simp only
      cases t with
      | nil => right; right; exact ⟨rfl, rfl⟩
      | cons d t' => right; left; exact ⟨rfl, by simp⟩

theorem afterLine_length {s : Str} (h : s ≠ []) : (afterLine s).length < s.length :=
  getline_length s h

/-- `u` is reached from `s` by reading lines. -/
inductive LineStart : Str → Str → Prop where
  | self (s : Str) : LineStart s s
  | next {s u : Str} (h : s ≠ []) (hu : LineStart (afterLine s) u) : LineStart s u

theorem LineStart.lines {s u : Str} (h : LineStart s u) : ∃ pre, fileLines s = pre ++ fileLines u := by
  induction h with
  | self s => exact ⟨[], rfl⟩
  | next h _ ih =>
    obtain ⟨pre, hp⟩ := ih
    exact ⟨(getline _).1 :: pre, by rw [fileLines_ne h, hp]; rfl⟩

theorem LineStart.length {s u : Str} (h : LineStart s u) : u.length ≤ s.length := by
  induction h with
  | self s => exact le_refl _
  | next h _ ih => have := afterLine_length h; omega

/-- Reading from any position ends at a line start. -/
theorem lineStart_drop (s : Str) : ∀ p, p < s.length → LineStart s (afterLine (s.drop p)) := by
  induction s with
  | nil => intro p hp; simp at hp
  | cons c t ih =>
    intro p hp
    cases p with
    | zero => exact .next (by simp) (.self _)
    | succ p =>
      rw [List.drop_succ_cons]
      have hp' : p < t.length := by simpa using hp
      have h1 := ih p hp'
      have hlt : (afterLine (t.drop p)).length < t.length := by
        have := afterLine_length (s := t.drop p) (by
          intro h; have := congrArg List.length h; simp at this; omega)
        rw [List.length_drop] at this
        omega
      rcases afterLine_cons c t with ⟨h, _⟩ | ⟨h, _⟩ | ⟨h, _⟩
      · exact .next (by simp) (by rw [h]; exact h1)
      · refine .next (by simp) ?_
        rw [h]
        generalize afterLine (t.drop p) = w at h1 hlt ⊢
        cases h1 with
        | self => exact absurd hlt (lt_irrefl _)
        | next _ hu => exact hu
      · subst h; simp at hp'

/-- The position just before the next line leads to it. -/
theorem afterLine_before (s : Str) (h : s ≠ []) :
    (afterLine s).length < s.length ∧
      afterLine (s.drop (s.length - (afterLine s).length - 1)) = afterLine s := by
  refine ⟨afterLine_length h, ?_⟩
  induction s with
  | nil => exact absurd rfl h
  | cons c t ih =>
    rcases afterLine_cons c t with ⟨h1, _⟩ | ⟨h1, h2⟩ | ⟨h1, h2⟩
    · rw [h1]
      have : (c :: t).length - t.length - 1 = 0 := by simp
      rw [this, List.drop_zero, h1]
    · have hl := afterLine_length h2
      have : (c :: t).length - (afterLine (c :: t)).length - 1 =
          (t.length - (afterLine t).length - 1) + 1 := by
        rw [h1, List.length_cons]; omega
      rw [this, List.drop_succ_cons, ih h2, h1]
    · subst h1; rw [h2]; simpa using h2

/-! ## The scan for a content line -/

theorem cutColon_of_mem {l : Str} (h : ':' ∈ l) : ∃ a b, cutColon l = some (a, b) := by
  obtain ⟨a, b, rfl, ha⟩ := List.eq_append_cons_of_mem h
  exact ⟨a, b, cutColon_append ha b⟩


theorem lineId_colon {l : Str} {id : Int} (h : lineId l = some id) :
    ∃ a b, cutColon l = some (a, b) ∧ stoi a = .ok id := by
  unfold lineId at h
  cases hc : cutColon l with
  | none => rw [hc] at h; cases h
  | some p =>
    rw [hc] at h
    simp only at h
    cases hs : stoi p.1 with
    | ok z => rw [hs] at h; cases h; exact ⟨p.1, p.2, rfl, hs⟩
    | throw e => rw [hs] at h; cases h
    | ub => rw [hs] at h; cases h

theorem bodyLines_append (file : Str) : fileLines file = bodyLines file ++ [[]] := by
  obtain ⟨ls, h⟩ := fileLines_getLast file
  unfold bodyLines
  rw [h, List.dropLast_concat]

theorem bodyLines_ne {s : Str} (h : s ≠ []) :
    bodyLines s = (getline s).1 :: bodyLines (afterLine s) := by
  have h1 := fileLines_ne h
  rw [bodyLines_append, bodyLines_append (afterLine s), ← List.cons_append] at h1
  exact List.append_cancel_right h1

theorem bodyLines_nil : bodyLines [] = [] := by unfold bodyLines; rw [fileLines_nil]; rfl

theorem LineStart.body {s u : Str} (h : LineStart s u) :
    ∃ pre, bodyLines s = pre ++ bodyLines u := by
  obtain ⟨pre, hp⟩ := h.lines
  rw [bodyLines_append, bodyLines_append u, ← List.append_assoc] at hp
  exact ⟨pre, List.append_cancel_right hp⟩

theorem scan_skip {s : Str} (h : s ≠ []) (hc : ':' ∉ (getline s).1) :
    scanContent s = scanContent (afterLine s) := by
  conv => lhs; unfold scanContent
  rw [dif_neg h]
  by_cases h0 : (getline s).1 = []
  · rw [if_pos h0]
  · rw [if_neg h0, cutColon_none hc]

theorem scan_stop {s : Str} (h : s ≠ []) {id : Int} (hc : lineId (getline s).1 = some id) :
    scanContent s = .found id s := by
  obtain ⟨a, b, h1, h2⟩ := lineId_colon hc
  unfold scanContent
  rw [dif_neg h, if_neg (by intro h0; rw [h0] at h1; cases h1), h1]
  simp only [h2]

/-- The first line with a colon is found. -/
theorem scan_found {pre post : List Str} {l : Str} {id : Int} (hid : lineId l = some id)
    (hpre : ∀ x ∈ pre, ':' ∉ x) : ∀ s : Str, bodyLines s = pre ++ l :: post →
    ∃ u, scanContent s = .found id u ∧ (getline u).1 = l := by
  induction pre with
  | nil =>
    intro s hs
    have hne : s ≠ [] := by rintro rfl; rw [bodyLines_nil] at hs; cases hs
    rw [bodyLines_ne hne, List.nil_append, List.cons.injEq] at hs
    exact ⟨s, scan_stop hne (by rw [hs.1]; exact hid), hs.1⟩
  | cons x pre ih =>
    intro s hs
    have hne : s ≠ [] := by rintro rfl; rw [bodyLines_nil] at hs; cases hs
    rw [bodyLines_ne hne, List.cons_append, List.cons.injEq] at hs
    obtain ⟨u, h1, h2⟩ := ih (fun y hy => hpre y (by simp [hy])) _ hs.2
    exact ⟨u, by rw [scan_skip hne (by rw [hs.1]; exact hpre x (by simp)), h1], h2⟩

/-- Without a colon the scan never ends. -/
theorem scan_hang (ls : List Str) (h : ∀ x ∈ ls, ':' ∉ x) : ∀ s : Str, bodyLines s = ls →
    scanContent s = .hang := by
  induction ls with
  | nil =>
    intro s hs
    by_cases hne : s = []
    · unfold scanContent; rw [dif_pos hne]
    · rw [bodyLines_ne hne] at hs; cases hs
  | cons x ls ih =>
    intro s hs
    have hne : s ≠ [] := by rintro rfl; rw [bodyLines_nil] at hs; cases hs
    rw [bodyLines_ne hne, List.cons.injEq] at hs
    rw [scan_skip hne (by rw [hs.1]; exact h x (by simp)),
      ih (fun y hy => h y (by simp [hy])) _ hs.2]

/-! ## Where a position leads -/

/-- The line start from which position `p` scans. -/
def startOf (file : Str) (p : Nat) : Str := if p = 0 then file else afterLine (file.drop p)

/-- A legal position: inside the file. -/
def PosOK (file : Str) (p : Nat) : Prop := p = 0 ∨ p < file.length

theorem goto_eq {file : Str} {p : Nat} (h : PosOK file p) :
    gotoFrom file p = if startOf file p = [] then .atEnd else scanContent (startOf file p) := by
  unfold gotoFrom startOf
  by_cases h0 : p = 0
  · rw [if_pos h0, if_pos h0]
  · rw [if_neg h0, if_neg h0]
    have hp : p < file.length := by rcases h with h | h; exact absurd h h0; exact h
    rw [if_neg (by intro hd; have := congrArg List.length hd; simp at this; omega)]

theorem startOf_mono {file : Str} {p q : Nat} (hq : PosOK file q) (hpq : p ≤ q) :
    LineStart (startOf file p) (startOf file q) := by
  unfold startOf
  by_cases hp0 : p = 0
  · rw [if_pos hp0]
    by_cases hq0 : q = 0
    · rw [if_pos hq0]; exact .self _
    · rw [if_neg hq0]
      rcases hq with h | h
      · exact absurd h hq0
      · exact lineStart_drop file q h
  · rw [if_neg hp0, if_neg (by omega)]
    have hlt : q < file.length := by rcases hq with h | h <;> omega
    have e : file.drop q = (file.drop p).drop (q - p) := by
      rw [List.drop_drop]; congr 1; omega
    have hl : (file.drop p).length = file.length - p := List.length_drop ..
    have h1 := lineStart_drop (file.drop p) (q - p) (by omega)
    rw [← e] at h1
    have hne : file.drop q ≠ [] := by
      intro hd; have := congrArg List.length hd; simp at this; omega
    have h2 := afterLine_length hne
    rw [List.length_drop] at h2
    have h3 : (afterLine (file.drop q)).length < (file.drop p).length := by omega
    generalize afterLine (file.drop q) = w at h1 h3 ⊢
    generalize file.drop p = t at h1 h3 ⊢
    cases h1 with
    | self => exact absurd h3 (lt_irrefl _)
    | next _ hu => exact hu

theorem startOf_lineStart {file : Str} {p : Nat} (h : PosOK file p) :
    LineStart file (startOf file p) := by
  have := startOf_mono (file := file) h (Nat.zero_le p)
  simpa [startOf] using this

/-- The last position of a file leads to its end. -/
theorem startOf_last {file : Str} (h : 1 < file.length) : startOf file (file.length - 1) = [] := by
  unfold startOf
  rw [if_neg (by omega)]
  have hl : (file.drop (file.length - 1)).length = 1 := by rw [List.length_drop]; omega
  generalize file.drop (file.length - 1) = t at hl
  obtain ⟨c, rfl⟩ := List.length_eq_one_iff.1 hl
  rcases afterLine_cons c [] with ⟨h, _⟩ | ⟨_, h⟩ | ⟨_, h⟩
  · exact h
  · exact absurd rfl h
  · exact h

/-- Every line is the first one read from some position (after blank lines). -/
theorem exists_position {file : Str} : ∀ {pre post : List Str} {l : Str},
    bodyLines file = pre ++ l :: post →
    ∃ p, PosOK file p ∧ (bodyLines (startOf file p) = l :: post ∨
      bodyLines (startOf file p) = [] :: l :: post) := by
  intro pre post l h
  cases hpre : pre using List.reverseRecOn with
  | nil =>
    subst hpre
    exact ⟨0, Or.inl rfl, Or.inl (by simpa [startOf] using h)⟩
  | append_singleton pre' x _ =>
    subst hpre
    -- the suffix starting at line `x`
    have hsuf : ∀ (pre : List Str) (s : Str), bodyLines s = pre ++ x :: l :: post →
        ∃ u, LineStart s u ∧ (∃ t, s = t ++ u) ∧ bodyLines u = x :: l :: post := by
      intro pre
      induction pre with
      | nil => intro s hs; exact ⟨s, .self s, ⟨[], rfl⟩, hs⟩
      | cons y pre ih =>
        intro s hs
        have hne : s ≠ [] := by rintro rfl; rw [bodyLines_nil] at hs; cases hs
        rw [bodyLines_ne hne, List.cons_append, List.cons.injEq] at hs
        obtain ⟨u, h1, ⟨t, h2⟩, h3⟩ := ih _ hs.2
        refine ⟨u, .next hne h1, ?_, h3⟩
        have hsx : ∀ s : Str, ∃ t, s = t ++ afterLine s := by
          intro s
          induction s with
          | nil => exact ⟨[], rfl⟩
          | cons c s ih =>
            rcases afterLine_cons c s with ⟨h, _⟩ | ⟨h, _⟩ | ⟨_, h⟩
            · exact ⟨[c], by rw [h]; rfl⟩
            · obtain ⟨t, ht⟩ := ih
              exact ⟨c :: t, by rw [h, List.cons_append, ← ht]⟩
            · exact ⟨c :: s, by rw [h, List.append_nil]⟩
        obtain ⟨t', ht'⟩ := hsx s
        exact ⟨t' ++ t, by rw [List.append_assoc, ← h2, ← ht']⟩
    obtain ⟨u, _, ⟨t, ht⟩, hu⟩ := hsuf pre' file (by rw [h]; simp)
    have hne : u ≠ [] := by rintro rfl; rw [bodyLines_nil] at hu; cases hu
    rw [bodyLines_ne hne, List.cons.injEq] at hu
    obtain ⟨hb1, hb2⟩ := afterLine_before u hne
    have hlen : file.length = t.length + u.length := by rw [ht, List.length_append]
    refine ⟨t.length + (u.length - (afterLine u).length - 1), Or.inr (by omega), ?_⟩
    have hdrop : file.drop (t.length + (u.length - (afterLine u).length - 1)) =
        u.drop (u.length - (afterLine u).length - 1) := by
      rw [ht, List.drop_append]
      rw [List.drop_eq_nil_of_le (by omega), List.nil_append]
      congr 1
      omega
    unfold startOf
    by_cases h0 : t.length + (u.length - (afterLine u).length - 1) = 0
    · rw [if_pos h0]
      right
      have ht0 : t = [] := List.length_eq_zero_iff.1 (by omega)
      rw [ht0, List.nil_append] at ht
      subst ht
      rw [bodyLines_ne hne, hu.2]
      congr 1
      -- the first line is empty
      cases file with
      | nil => exact absurd rfl hne
      | cons c w =>
        rcases afterLine_cons c w with ⟨_, h⟩ | ⟨h, hw⟩ | ⟨h1, h2⟩
        · exact h
        · have := afterLine_length hw
          rw [h, List.length_cons] at h0
          omega
        · rw [h2, bodyLines_nil] at hu
          cases hu.2
    · rw [if_neg h0, hdrop, hb2]
      left
      exact hu.2

/-! ## The search without caches -/

/-- `find_vertex` without caches. -/
def pureFind (file : Str) (v : Int) (lo hi : Int) : Option (Outcome Str) :=
  if _h : hi < lo then some (.throw .runtimeError)
  else
    match gotoFrom file ((lo + hi) / 2).toNat with
    | .found id s =>
      if id = v then some (.ok s)
      else if id = -1 ∨ v < id then pureFind file v lo ((lo + hi) / 2 - 1)
      else pureFind file v ((lo + hi) / 2 + 1) hi
    | .atEnd =>
      if -1 = v then some (.ok []) else pureFind file v lo ((lo + hi) / 2 - 1)
    | .threw e => some (.throw e)
    | .hang => none
termination_by (hi - lo + 1).toNat
decreasing_by all_goals omega

/-- The id reported by a scan. -/
def Goto.id? : Goto → Option Int
  | .found id _ => some id
  | .atEnd => some (-1)
  | _ => none

/-- Cached ids are those the scan reports. -/
def LocOK (file : Str) (c : Nat → Option Int) : Prop :=
  ∀ p id, c p = some id → (gotoFrom file p).id? = some id

theorem LocOK.set {file : Str} {c : Nat → Option Int} (h : LocOK file c) {p : Nat} {id : Int}
    (hg : (gotoFrom file p).id? = some id) : LocOK file (setLoc c p id) := by
  intro q i hq
  unfold setLoc at hq
  by_cases hqp : q = p
  · rw [if_pos hqp] at hq; cases hq; rw [hqp]; exact hg
  · rw [if_neg hqp] at hq; exact h q i hq

/-- The location cache never changes the result of a search. -/
theorem findLoop_pure (file : Str) (v : Int) : ∀ (n : Nat) (c : Nat → Option Int) (lo hi : Int),
    (hi - lo + 1).toNat ≤ n → LocOK file c →
    (findLoop file v c lo hi).1 = pureFind file v lo hi ∧ LocOK file (findLoop file v c lo hi).2 := by
  intro n
  induction n with
  | zero =>
    intro c lo hi hn hc
    unfold findLoop pureFind
    rw [dif_pos (by omega), dif_pos (by omega)]
    exact ⟨rfl, hc⟩
  | succ n ih =>
    intro c lo hi hn hc
    unfold findLoop pureFind
    by_cases hlt : hi < lo
    · rw [dif_pos hlt, dif_pos hlt]; exact ⟨rfl, hc⟩
    · rw [dif_neg hlt, dif_neg hlt]
      have hl : ∀ c', LocOK file c' →
          (findLoop file v c' lo ((lo + hi) / 2 - 1)).1 = pureFind file v lo ((lo + hi) / 2 - 1) ∧
          LocOK file (findLoop file v c' lo ((lo + hi) / 2 - 1)).2 :=
        fun c' hc' => ih c' _ _ (by omega) hc'
      have hr : ∀ c', LocOK file c' →
          (findLoop file v c' ((lo + hi) / 2 + 1) hi).1 = pureFind file v ((lo + hi) / 2 + 1) hi ∧
          LocOK file (findLoop file v c' ((lo + hi) / 2 + 1) hi).2 :=
        fun c' hc' => ih c' _ _ (by omega) hc'
      simp only
      cases hcp : c ((lo + hi) / 2).toNat with
      | some id =>
        have hg := hc _ _ hcp
        simp only
        cases hgo : gotoFrom file ((lo + hi) / 2).toNat with
        | found id' s =>
          rw [hgo] at hg
          simp only [Goto.id?, Option.some.injEq] at hg
          subst hg
          simp only
          split_ifs
          · exact ⟨rfl, hc⟩
          · exact hl c hc
          · exact hr c hc
        | atEnd =>
          rw [hgo] at hg
          simp only [Goto.id?, Option.some.injEq] at hg
          subst hg
          simp only [true_or, if_true]
          split_ifs
          · exact ⟨rfl, hc⟩
          · exact hl c hc
        | threw e => rw [hgo] at hg; cases hg
        | hang => rw [hgo] at hg; cases hg
      | none =>
        simp only
        cases hgo : gotoFrom file ((lo + hi) / 2).toNat with
        | found id s =>
          have hs : LocOK file (setLoc c ((lo + hi) / 2).toNat id) := hc.set (by rw [hgo]; rfl)
          simp only
          split_ifs
          · exact ⟨rfl, hs⟩
          · exact hl _ hs
          · exact hr _ hs
        | atEnd =>
          have hs : LocOK file (setLoc c ((lo + hi) / 2).toNat (-1)) := hc.set (by rw [hgo]; rfl)
          simp only
          split_ifs
          · exact ⟨rfl, hs⟩
          · exact hl _ hs
        | threw e => exact ⟨rfl, hc⟩
        | hang => exact ⟨rfl, hc⟩

/-! ## Sorted files -/

theorem first_such {P : Str → Prop} (ls : List Str) (h : ∃ x ∈ ls, P x) :
    ∃ pre l post, ls = pre ++ l :: post ∧ P l ∧ ∀ x ∈ pre, ¬ P x := by
  classical
  induction ls with
  | nil => obtain ⟨x, hx, _⟩ := h; simp at hx
  | cons y ls ih =>
    by_cases hy : P y
    · exact ⟨[], y, ls, rfl, hy, by simp⟩
    · obtain ⟨x, hx, hP⟩ := h
      rcases List.mem_cons.1 hx with rfl | hx
      · exact absurd hP hy
      · obtain ⟨pre, l, post, h1, h2, h3⟩ := ih ⟨x, hx, hP⟩
        refine ⟨y :: pre, l, post, by rw [h1]; rfl, h2, ?_⟩
        intro z hz
        rcases List.mem_cons.1 hz with rfl | hz
        · exact hy
        · exact h3 z hz

/-- The lines with a colon. -/
def colonLines (s : Str) : List Str := (bodyLines s).filter (fun l => decide (':' ∈ l))

theorem LineStart.colons {s u : Str} (h : LineStart s u) :
    ∃ pre, colonLines s = pre ++ colonLines u := by
  obtain ⟨pre, hp⟩ := h.body
  unfold colonLines
  rw [hp, List.filter_append]
  exact ⟨_, rfl⟩

/-- What a position of a sorted file leads to. -/
theorem goto_sorted {file : Str} (hf : SortedAdjFile file) {p : Nat} (hp : PosOK file p) :
    (startOf file p = [] ∧ gotoFrom file p = .atEnd) ∨
    ∃ l rest id u, colonLines (startOf file p) = l :: rest ∧ HasLine file id l ∧ 0 ≤ id ∧
      gotoFrom file p = .found id u ∧ (getline u).1 = l := by
  rw [goto_eq hp]
  by_cases h0 : startOf file p = []
  · left; rw [if_pos h0]; exact ⟨h0, rfl⟩
  · right
    rw [if_neg h0]
    obtain ⟨pre0, hpre0⟩ := (startOf_lineStart hp).body
    have hne : bodyLines (startOf file p) ≠ [] := by rw [bodyLines_ne h0]; simp
    obtain ⟨x, hx⟩ : ∃ x, (bodyLines (startOf file p)).getLast? = some x :=
      Option.isSome_iff_exists.1 (by simpa using hne)
    have hlast : ':' ∈ x := hf.last x (by rw [hpre0, List.getLast?_append, hx]; rfl)
    obtain ⟨pre, l, post, h1, h2, h3⟩ := first_such (P := fun l => ':' ∈ l) _
      ⟨x, List.mem_of_getLast? hx, hlast⟩
    have hmem : l ∈ bodyLines file := by rw [hpre0, h1]; simp
    obtain ⟨id, hid, hnn⟩ := hf.ids l hmem h2
    obtain ⟨u, hu1, hu2⟩ := scan_found hid h3 _ h1
    refine ⟨l, post.filter (fun l => decide (':' ∈ l)), id, u, ?_, ⟨hmem, h2, hid⟩, hnn, hu1, hu2⟩
    unfold colonLines
    rw [h1, List.filter_append, List.filter_cons_of_pos (by simpa using h2),
      List.filter_eq_nil_iff.2 (by intro y hy; simpa using h3 y hy), List.nil_append]

theorem colons_sorted {file : Str} (hf : SortedAdjFile file) {s : Str} (hs : LineStart file s) :
    (colonLines s).Pairwise (fun a b => ∀ i j, lineId a = some i → lineId b = some j → i < j) := by
  obtain ⟨pre, hp⟩ := hs.colons
  have := hf.increasing
  have h2 : (colonLines file).Pairwise
      (fun a b => ∀ i j, lineId a = some i → lineId b = some j → i < j) := this
  rw [hp, List.pairwise_append] at h2
  exact h2.2.1

/-- Later positions lead to larger ids. -/
theorem goto_mono {file : Str} (hf : SortedAdjFile file) {p q : Nat} (hp : PosOK file p)
    (hq : PosOK file q) (hpq : p ≤ q) {j : Int} {w : Str} (hgq : gotoFrom file q = .found j w) :
    ∃ i u, gotoFrom file p = .found i u ∧ i ≤ j := by
  rcases goto_sorted hf hq with ⟨_, h⟩ | ⟨lq, rq, j', w', hq1, hq2, _, hq4, _⟩
  · rw [h] at hgq; cases hgq
  · rw [hq4] at hgq
    cases hgq
    obtain ⟨pre, hpre⟩ := (startOf_mono hq hpq).colons
    rcases goto_sorted hf hp with ⟨h0, _⟩ | ⟨lp, rp, i, u, hp1, hp2, _, hp4, _⟩
    · rw [h0, hq1] at hpre
      have : colonLines [] = [] := by unfold colonLines; rw [bodyLines_nil]; rfl
      rw [this] at hpre
      exact absurd hpre.symm (by simp)
    · refine ⟨i, u, hp4, ?_⟩
      have hmem : lq ∈ lp :: rp := by rw [← hp1, hpre, hq1]; simp
      have hs := colons_sorted hf (startOf_lineStart hp)
      rw [hp1, List.pairwise_cons] at hs
      rcases List.mem_cons.1 hmem with h | h
      · rw [h] at hq2
        have := hp2.2.2.symm.trans hq2.2.2
        cases this
        exact le_refl _
      · exact le_of_lt (hs.1 lq h i _ hp2.2.2 hq2.2.2)

theorem HasLine.unique {file : Str} (hf : SortedAdjFile file) {v : Int} {l l' : Str}
    (h : HasLine file v l) (h' : HasLine file v l') : l = l' := by
  have hs := hf.increasing
  have m1 : l ∈ (bodyLines file).filter (fun l => decide (':' ∈ l)) :=
    List.mem_filter.2 ⟨h.1, by simpa using h.2.1⟩
  have m2 : l' ∈ (bodyLines file).filter (fun l => decide (':' ∈ l)) :=
    List.mem_filter.2 ⟨h'.1, by simpa using h'.2.1⟩
  generalize (bodyLines file).filter (fun l => decide (':' ∈ l)) = ls at hs m1 m2
  induction hs with
  | nil => simp at m1
  | cons ha _ ih =>
    rcases List.mem_cons.1 m1 with rfl | m1'
    · rcases List.mem_cons.1 m2 with rfl | m2
      · rfl
      · exact absurd (ha l' m2 v v h.2.2 h'.2.2) (lt_irrefl _)
    · rcases List.mem_cons.1 m2 with rfl | m2
      · exact absurd (ha _ m1' v v h'.2.2 h.2.2) (lt_irrefl _)
      · exact ih m1' m2

/-- A vertex in the file is found from some position. -/
theorem exists_goto {file : Str} (hf : SortedAdjFile file) {v : Int} {l : Str}
    (h : HasLine file v l) : ∃ p u, PosOK file p ∧ gotoFrom file p = .found v u := by
  obtain ⟨pre, post, hsplit⟩ := List.append_of_mem h.1
  obtain ⟨p, hp, hb⟩ := exists_position hsplit
  rcases goto_sorted hf hp with ⟨h0, _⟩ | ⟨lp, rp, i, u, hp1, hp2, _, hp4, _⟩
  · rw [h0, bodyLines_nil] at hb
    rcases hb with hb | hb <;> cases hb
  · have hfirst : lp = l := by
      unfold colonLines at hp1
      have hd : decide (':' ∈ l) = true := by simpa using h.2.1
      rcases hb with hb | hb
      · rw [hb, List.filter_cons_of_pos (by simpa using h.2.1), List.cons.injEq] at hp1
        exact hp1.1.symm
      · rw [hb, List.filter_cons_of_neg (by simp), List.filter_cons_of_pos (by simpa using h.2.1),
          List.cons.injEq] at hp1
        exact hp1.1.symm
    rw [hfirst] at hp2
    have := hp2.2.2.symm.trans h.2.2
    cases this
    exact ⟨p, u, hp, hp4⟩

/-- A search that covers a position of the vertex finds its line. -/
theorem pureFind_found {file : Str} (hf : SortedAdjFile file) {v : Int} {q : Nat} {w : Str}
    (hq : PosOK file q) (hgq : gotoFrom file q = .found v w) (hv : 0 ≤ v) :
    ∀ (n : Nat) (lo hi : Int), (hi - lo + 1).toNat ≤ n → 0 ≤ lo → lo ≤ q → (q : Int) ≤ hi →
      hi ≤ file.length → ∃ p s, PosOK file p ∧ gotoFrom file p = .found v s ∧
        pureFind file v lo hi = some (.ok s) := by
  intro n
  induction n with
  | zero => intro lo hi hn h0 h1 h2 _; omega
  | succ n ih =>
    intro lo hi hn h0 h1 h2 h3
    have hpos : PosOK file ((lo + hi) / 2).toNat := by
      unfold PosOK at hq ⊢
      omega
    unfold pureFind
    rw [dif_neg (by omega)]
    rcases goto_sorted hf hpos with ⟨_, hg⟩ | ⟨_, _, id, u, _, _, hnn, hg, _⟩
    · rw [hg]
      simp only
      rw [if_neg (by omega)]
      apply ih _ _ (by omega) h0 h1 _ (by omega)
      by_contra hc
      obtain ⟨i, x, hx, _⟩ := goto_mono hf hpos hq (by omega) hgq
      rw [hg] at hx
      cases hx
    · rw [hg]
      simp only
      by_cases hid : id = v
      · rw [if_pos hid]
        subst hid
        exact ⟨_, u, hpos, hg, rfl⟩
      · rw [if_neg hid]
        by_cases hlt : id = -1 ∨ v < id
        · rw [if_pos hlt]
          apply ih _ _ (by omega) h0 h1 _ (by omega)
          by_contra hc
          obtain ⟨i, x, hx, hle⟩ := goto_mono hf hpos hq (by omega) hgq
          rw [hg] at hx
          cases hx
          omega
        · rw [if_neg hlt]
          apply ih _ _ (by omega) (by omega) _ h2 h3
          by_contra hc
          obtain ⟨i, x, hx, hle⟩ := goto_mono hf hq hpos (by omega) hg
          rw [hgq] at hx
          cases hx
          omega

theorem getline_single (c : Char) : (getline [c]).1 = [] ∨ (getline [c]).1 = [c] := by
  unfold getline
  split_ifs
  · exact Or.inl rfl
  · exact Or.inl rfl
  · exact Or.inr rfl

/-- In a one-byte file no line has an id. -/
theorem no_line_single {file : Str} (h : file.length = 1) (v : Int) (l : Str) :
    ¬ HasLine file v l := by
  obtain ⟨c, rfl⟩ := List.length_eq_one_iff.1 h
  rintro ⟨hm, hc, hid⟩
  have ha : afterLine [c] = [] := by
    have := afterLine_length (s := [c]) (by simp)
    exact List.length_eq_zero_iff.1 (by simp at this ⊢; omega)
  rw [bodyLines_ne (by simp), ha, bodyLines_nil, List.mem_singleton] at hm
  rcases getline_single c with h | h
  · rw [hm, h] at hc; simp at hc
  · rw [hm, h] at hc hid
    simp only [List.mem_singleton] at hc
    subst hc
    obtain ⟨a, b, h1, h2⟩ := lineId_colon hid
    have : cutColon [':'] = some ([], []) := rfl
    rw [this] at h1
    cases h1
    rw [stoi_nil] at h2
    cases h2

/-- A search in a sorted file returns; it finds nothing but the vertex. -/
theorem pureFind_cases {file : Str} (hf : SortedAdjFile file) (v : Int) :
    ∀ (n : Nat) (lo hi : Int), (hi - lo + 1).toNat ≤ n → 0 ≤ lo →
      (lo = 0 ∨ lo < file.length) → hi ≤ file.length →
      pureFind file v lo hi = some (.throw .runtimeError) ∨
      (v = -1 ∧ pureFind file v lo hi = some (.ok [])) ∨
      ∃ l s, HasLine file v l ∧ 0 ≤ v ∧ (getline s).1 = l ∧ pureFind file v lo hi = some (.ok s) := by
  intro n
  induction n with
  | zero =>
    intro lo hi hn _ _ _
    left
    unfold pureFind
    rw [dif_pos (by omega)]
  | succ n ih =>
    intro lo hi hn h0 h1 h2
    unfold pureFind
    by_cases hlt : hi < lo
    · rw [dif_pos hlt]; exact Or.inl rfl
    · rw [dif_neg hlt]
      have hpos : PosOK file ((lo + hi) / 2).toNat := by
        unfold PosOK
        omega
      rcases goto_sorted hf hpos with ⟨_, hg⟩ | ⟨l, _, id, u, _, hl, hnn, hg, hgu⟩
      · rw [hg]
        simp only
        by_cases hv : -1 = v
        · rw [if_pos hv]; exact Or.inr (Or.inl ⟨hv.symm, rfl⟩)
        · rw [if_neg hv]
          exact ih _ _ (by omega) h0 h1 (by omega)
      · rw [hg]
        simp only
        by_cases hid : id = v
        · rw [if_pos hid]
          subst hid
          exact Or.inr (Or.inr ⟨l, u, hl, hnn, hgu, rfl⟩)
        · rw [if_neg hid]
          by_cases hlt : id = -1 ∨ v < id
          · rw [if_pos hlt]
            exact ih _ _ (by omega) h0 h1 (by omega)
          · rw [if_neg hlt]
            apply ih _ _ (by omega) (by omega) _ h2
            right
            -- the last position leads to the end of the file
            by_contra hc
            rcases Nat.lt_or_ge 1 file.length with hlen | hlen
            · have hm : ((lo + hi) / 2).toNat = file.length - 1 := by
                unfold PosOK at hpos; omega
              rw [goto_eq hpos, hm, startOf_last hlen, if_pos rfl] at hg
              cases hg
            · rcases Nat.eq_zero_or_pos file.length with hz | hz
              · have : file = [] := List.length_eq_zero_iff.1 hz
                subst this
                have := hl.1
                rw [bodyLines_nil] at this
                simp at this
              · exact no_line_single (by omega) _ _ hl

/-! ## The object -/

section
set_option linter.unusedSectionVars false
variable {K : Type} [Field K]

/-- What the caches may contain. -/
structure StateOK (F : Fmt K) (file : Str) (st : LocalState K) : Prop where
  loc : LocOK file st.loc
  edges : SortedAdjFile file → ∀ v es, st.edges v = some es →
    ∃ l, HasLine file v l ∧ parseAdjLine F l = .ok es

theorem findVertex_pure {F : Fmt K} {file : Str} {st : LocalState K} (h : StateOK F file st)
    (v : Int) : (findVertex file st v).1 = pureFind file v 0 file.length ∧
      StateOK F file (findVertex file st v).2 := by
  have := findLoop_pure file v _ st.loc 0 file.length (le_refl _) h.loc
  exact ⟨this.1, ⟨this.2, h.edges⟩⟩

theorem findVertex_edges {file : Str} {st : LocalState K} (v : Int) :
    (findVertex file st v).2.edges = st.edges := rfl

theorem localNeighbors_ok {F : Fmt K} {file : Str} {st : LocalState K} (h : StateOK F file st)
    (v : Int) : StateOK F file (localNeighbors F file st v).2 := by
  obtain ⟨h1, h2⟩ := findVertex_pure h v
  unfold localNeighbors
  cases he : st.edges v with
  | some es => exact h
  | none =>
    simp only
    generalize hr : findVertex file st v = r at h1 h2
    obtain ⟨res, st'⟩ := r
    simp only at h1 h2
    cases res with
    | none => exact h2
    | some o =>
      cases o with
      | throw e => exact h2
      | ub => exact h2
      | ok s =>
        simp only
        cases hp : parseAdjLine F (getline s).1 with
        | throw e => exact h2
        | ub => exact h2
        | ok es =>
          refine ⟨h2.loc, ?_⟩
          intro hf u es' hu
          simp only at hu
          by_cases huv : u = v
          · rw [if_pos huv] at hu
            cases hu
            subst huv
            rcases pureFind_cases hf u _ 0 file.length (le_refl _) (le_refl _) (Or.inl rfl)
              (le_refl _) with h | ⟨_, h⟩ | ⟨l, s', hl, _, hg, h⟩
            · rw [h] at h1; cases h1
            · rw [h] at h1; cases h1
              rw [show (getline ([] : Str)).1 = [] from rfl] at hp
              unfold parseAdjLine at hp
              cases hp
            · rw [h] at h1; cases h1
              exact ⟨l, hl, by rw [← hg]; exact hp⟩
          · rw [if_neg huv] at hu
            exact h2.edges hf u es' hu

theorem run_ok {F : Fmt K} {file : Str} {st : LocalState K} (h : StateOK F file st)
    (q : LocalQuery) : StateOK F file (q.run F file st) := by
  cases q with
  | neighbors v => exact localNeighbors_ok h v
  | neighborsUnweighted v => exact localNeighbors_ok h v
  | degree v => exact localNeighbors_ok h v
  | degreeUnweighted v => exact localNeighbors_ok h v
  | vertexExists v => exact (findVertex_pure h v).2

theorem afterQueries_ok (F : Fmt K) (file : Str) (qs : List LocalQuery) :
    StateOK F file (afterQueries F file qs) := by
  unfold afterQueries
  have h0 : StateOK F file (LocalState.init : LocalState K) :=
    ⟨fun p id h => by simp [LocalState.init] at h, fun _ v es h => by simp [LocalState.init] at h⟩
  generalize (LocalState.init : LocalState K) = st at h0
  induction qs generalizing st with
  | nil => exact h0
  | cons q qs ih => exact ih _ (run_ok h0 q)

/-- **C28** (neighbours of a listed vertex).  On a sorted adjacency list file, after any sequence
of queries, `neighbors(v)` gives exactly what the line of `v` says. -/
theorem C28_neighbors (F : Fmt K) {file : Str} (hf : SortedAdjFile file) (qs : List LocalQuery)
    {v : Int} {l : Str} (h : HasLine file v l) :
    (localNeighbors F file (afterQueries F file qs) v).1 = some (parseAdjLine F l) := by
  have hst := afterQueries_ok F file qs
  obtain ⟨p, u, hp, hg⟩ := exists_goto hf h
  obtain ⟨id, hid, hnn⟩ := hf.ids l h.1 h.2.1
  have hv : 0 ≤ v := by
    have := hid.symm.trans h.2.2
    cases this
    exact hnn
  unfold localNeighbors
  cases he : (afterQueries F file qs).edges v with
  | some es =>
    obtain ⟨l', hl', hp'⟩ := hst.edges hf v es he
    rw [h.unique hf hl', hp']
  | none =>
    obtain ⟨h1, _⟩ := findVertex_pure hst v
    obtain ⟨p', s, hp', hg', hr⟩ := pureFind_found hf hp hg hv _ 0 file.length (le_refl _) (le_refl _)
      (by omega) (by unfold PosOK at hp; omega) (le_refl _)
    rw [hr] at h1
    simp only
    generalize findVertex file (afterQueries F file qs) v = r at h1
    obtain ⟨res, st'⟩ := r
    simp only at h1
    subst h1
    simp only
    have hline : (getline s).1 = l := by
      rcases goto_sorted hf hp' with ⟨_, hx⟩ | ⟨l', _, id', u', _, hl', _, hx, hgl⟩
      · rw [hg'] at hx; cases hx
      · rw [hg'] at hx; cases hx
        rw [hgl]
        exact hl'.unique hf h
    rw [hline]
    cases parseAdjLine F l <;> rfl

/-- **C28** (missing vertices).  A vertex without a line makes `neighbors` raise
`runtime_error`, after any sequence of queries. -/
theorem C28_neighbors_missing_partial (F : Fmt K) {file : Str} (hf : SortedAdjFile file)
    (qs : List LocalQuery) {v : Int} (hv : v ≠ -1) (h : ∀ l, ¬ HasLine file v l) :
    (localNeighbors F file (afterQueries F file qs) v).1 = some (.throw .runtimeError) := by
  have hst := afterQueries_ok F file qs
  unfold localNeighbors
  cases he : (afterQueries F file qs).edges v with
  | some es =>
    obtain ⟨l', hl', _⟩ := hst.edges hf v es he
    exact absurd hl' (h l')
  | none =>
    obtain ⟨h1, _⟩ := findVertex_pure hst v
    rcases pureFind_cases hf v _ 0 file.length (le_refl _) (le_refl _) (Or.inl rfl)
      (le_refl _) with hr | ⟨hr, _⟩ | ⟨l, s', hl, _⟩
    · rw [hr] at h1
      simp only
      generalize findVertex file (afterQueries F file qs) v = r at h1
      obtain ⟨res, st'⟩ := r
      simp only at h1
      subst h1
      rfl
    · exact absurd hr hv
    · exact absurd hl (h l)

/-- **C28** (existence).  `vertex_exists(v)` is true exactly when `v` has a line, after any
sequence of queries. -/
theorem C28_vertex_exists_partial (F : Fmt K) {file : Str} (hf : SortedAdjFile file)
    (qs : List LocalQuery) {v : Int} (hv : v ≠ -1) :
    ∃ b, (localVertexExists file (afterQueries F file qs) v).1 = some (.ok b) ∧
      (b = true ↔ ∃ l, HasLine file v l) := by
  have hst := afterQueries_ok F file qs
  obtain ⟨h1, _⟩ := findVertex_pure hst v
  unfold localVertexExists
  by_cases h : ∃ l, HasLine file v l
  · obtain ⟨l, hl⟩ := h
    obtain ⟨p, u, hp, hg⟩ := exists_goto hf hl
    obtain ⟨id, hid, hnn⟩ := hf.ids l hl.1 hl.2.1
    have hv0 : 0 ≤ v := by
      have := hid.symm.trans hl.2.2
      cases this
      exact hnn
    obtain ⟨p', s, hp', hg', hr⟩ := pureFind_found hf hp hg hv0 _ 0 file.length (le_refl _)
      (le_refl _) (by omega) (by unfold PosOK at hp; omega) (le_refl _)
    refine ⟨true, ?_, by simp; exact ⟨l, hl⟩⟩
    simp only [h1, hr]
  · rcases pureFind_cases hf v _ 0 file.length (le_refl _) (le_refl _) (Or.inl rfl)
      (le_refl _) with hr | ⟨hr, _⟩ | ⟨l, s', hl, _⟩
    · refine ⟨false, ?_, by simp; exact fun l hl => h ⟨l, hl⟩⟩
      simp only [h1, hr]
    · exact absurd hr hv
    · exact absurd ⟨l, hl⟩ h

theorem degSum_eq (v : Int) (es : List (IEdge K)) :
    degSum v es = (es.map (fun e => if e.v2 = v then 2 * e.w else e.w)).sum := by
  unfold degSum
  have : ∀ a : K, es.foldl (fun d e => if e.v2 = v then d + 2 * e.w else d + e.w) a =
      a + (es.map (fun e => if e.v2 = v then 2 * e.w else e.w)).sum := by
    induction es with
    | nil => intro a; simp
    | cons e es ih =>
      intro a
      rw [List.foldl_cons, ih, List.map_cons, List.sum_cons]
      split_ifs <;> ring
  rw [this, zero_add]

/-- **C28** (degrees).  The weighted degree is the total weight on the line, self-loops counting
twice; the unweighted degree and the unweighted neighbours are read off the same line. -/
theorem C28_degree (F : Fmt K) {file : Str} (hf : SortedAdjFile file) (qs : List LocalQuery)
    {v : Int} {l : Str} (h : HasLine file v l) {es : List (IEdge K)}
    (hp : parseAdjLine F l = .ok es) :
    (localDegree F file (afterQueries F file qs) v).1 =
      some (.ok ((es.map (fun e => if e.v2 = v then 2 * e.w else e.w)).sum)) ∧
    (localDegreeUnweighted F file (afterQueries F file qs) v).1 = some (.ok es.length) ∧
    (localNeighborsUnweighted F file (afterQueries F file qs) v).1 =
      some (.ok (es.map IEdge.v2)) := by
  have := C28_neighbors F hf qs h
  rw [hp] at this
  unfold localDegree localDegreeUnweighted localNeighborsUnweighted
  simp only [this, mapRes, degSum_eq, and_self]

/-- **C29** (sorted files).  Every query on a sorted adjacency list file returns, after any
sequence of queries. -/
theorem C29_returns_partial (F : Fmt K) {file : Str} (hf : SortedAdjFile file) (qs : List LocalQuery)
    (v : Int) :
    (localNeighbors F file (afterQueries F file qs) v).1 ≠ none ∧
    (localVertexExists file (afterQueries F file qs) v).1 ≠ none := by
  have hst := afterQueries_ok F file qs
  obtain ⟨h1, _⟩ := findVertex_pure hst v
  have hne : (findVertex file (afterQueries F file qs) v).1 ≠ none := by
    rw [h1]
    rcases pureFind_cases hf v _ 0 file.length (le_refl _) (le_refl _) (Or.inl rfl)
      (le_refl _) with hr | ⟨_, hr⟩ | ⟨l, s', _, _, _, hr⟩ <;> rw [hr] <;> simp
  constructor
  · unfold localNeighbors
    cases he : (afterQueries F file qs).edges v with
    | some es => simp
    | none =>
      simp only
      generalize findVertex file (afterQueries F file qs) v = r at hne
      obtain ⟨res, st'⟩ := r
      cases res with
      | none => exact absurd rfl hne
      | some o =>
        cases o with
        | throw e => simp
        | ub => simp
        | ok s =>
          simp only
          cases parseAdjLine F (getline s).1 <;> simp
  · unfold localVertexExists
    simp only
    generalize findVertex file (afterQueries F file qs) v = r at hne
    obtain ⟨res, st'⟩ := r
    cases res with
    | none => exact absurd rfl hne
    | some o =>
      cases o with
      | throw e => cases e <;> simp
      | ub => simp
      | ok s => simp


/-! ## Files ending in a blank line or a comment -/

/-- If the scan of some position never ends and all ids are smaller than `v`, the search for `v`
never ends. -/
theorem pureFind_hang {file : Str} {v : Int}
    (hids : ∀ l ∈ bodyLines file, ':' ∈ l → ∃ id, lineId l = some id ∧ 0 ≤ id ∧ id < v)
    {q : Nat} (hq : q < file.length) (hne : startOf file q ≠ [])
    (hcf : ∀ l ∈ bodyLines (startOf file q), ':' ∉ l) (hv : 0 ≤ v) :
    ∀ (n : Nat) (lo hi : Int), (hi - lo + 1).toNat ≤ n → 0 ≤ lo → lo ≤ q → (q : Int) ≤ hi →
      hi ≤ file.length → pureFind file v lo hi = none := by
  intro n
  induction n with
  | zero => intro lo hi hn h0 h1 h2 _; omega
  | succ n ih =>
    intro lo hi hn h0 h1 h2 h3
    have hpos : PosOK file ((lo + hi) / 2).toNat := by
      unfold PosOK
      omega
    have hqok : PosOK file q := Or.inr hq
    unfold pureFind
    rw [dif_neg (by omega)]
    rw [goto_eq hpos]
    by_cases hpq : ((lo + hi) / 2).toNat ≤ q
    · have hls := startOf_mono hqok hpq
      have hne' : startOf file ((lo + hi) / 2).toNat ≠ [] := by
        intro h
        have := hls.length
        rw [h] at this
        exact hne (List.length_eq_zero_iff.1 (by simpa using this))
      rw [if_neg hne']
      by_cases hc : ∃ x ∈ bodyLines (startOf file ((lo + hi) / 2).toNat), ':' ∈ x
      · obtain ⟨pre, l, post, hb, hl, hpre⟩ := first_such (P := fun l => ':' ∈ l) _ hc
        obtain ⟨pre0, hpre0⟩ := (startOf_lineStart hpos).body
        obtain ⟨id, hid, h0id, hlt⟩ := hids l (by rw [hpre0, hb]; simp) hl
        obtain ⟨u, hu, _⟩ := scan_found hid hpre _ hb
        rw [hu]
        simp only
        rw [if_neg (by omega), if_neg (by omega)]
        apply ih _ _ (by omega) (by omega) _ h2 h3
        by_contra hcon
        have : ((lo + hi) / 2).toNat = q := by omega
        rw [this] at hb
        exact hcf l (by rw [hb]; simp) hl
      · rw [scan_hang _ (fun x hx hcx => hc ⟨x, hx, hcx⟩) _ rfl]
    · by_cases hne' : startOf file ((lo + hi) / 2).toNat = []
      · rw [if_pos hne']
        simp only
        rw [if_neg (by omega)]
        exact ih _ _ (by omega) h0 h1 (by omega) (by omega)
      · rw [if_neg hne']
        obtain ⟨pre, hpre⟩ := (startOf_mono hpos (by omega : q ≤ ((lo + hi) / 2).toNat)).body
        rw [scan_hang _ (fun x hx => hcf x (by rw [hpre]; simp [hx])) _ rfl]

/-- **C29** (negative result).  If the last line of the file is blank or a comment, asking whether
a vertex larger than every id of the file exists never returns, whatever was asked before, and
`neighbors` never returns either: the documented format allows such lines. -/
theorem C29_hangs (F : Fmt K) {file l : Str} (hlast : (bodyLines file).getLast? = some l)
    (hl : ':' ∉ l) {v : Int} (hv : 0 ≤ v)
    (hids : ∀ l ∈ bodyLines file, ':' ∈ l → ∃ id, lineId l = some id ∧ 0 ≤ id ∧ id < v)
    (qs : List LocalQuery) :
    (localVertexExists file (afterQueries F file qs) v).1 = none ∧
    (localNeighbors F file (LocalState.init : LocalState K) v).1 = none := by
  have hfind : pureFind file v 0 file.length = none := by
    obtain ⟨pre, hpre⟩ : ∃ pre, bodyLines file = pre ++ [l] := by
      rw [List.getLast?_eq_some_iff] at hlast
      exact hlast
    obtain ⟨q, hq, hb⟩ := exists_position hpre
    have hne : startOf file q ≠ [] := by
      intro h
      rw [h, bodyLines_nil] at hb
      rcases hb with hb | hb <;> cases hb
    have hfl : file ≠ [] := by
      rintro rfl
      rw [bodyLines_nil] at hlast
      cases hlast
    have hlen : 0 < file.length := List.length_pos_iff.2 hfl
    have hq' : q < file.length := by unfold PosOK at hq; omega
    refine pureFind_hang hids hq' hne ?_ hv _ 0 file.length (le_refl _) (le_refl _) (by omega)
      (by omega) (le_refl _)
    intro x hx
    rcases hb with hb | hb <;> rw [hb] at hx
    · rw [List.mem_singleton.1 hx]; exact hl
    · rcases List.mem_cons.1 hx with rfl | hx
      · simp
      · rw [List.mem_singleton.1 hx]; exact hl
  constructor
  · obtain ⟨h1, _⟩ := findVertex_pure (afterQueries_ok F file qs) v
    unfold localVertexExists
    simp only [h1, hfind]
  · obtain ⟨h1, _⟩ := findVertex_pure (afterQueries_ok F file []) v
    have he : (afterQueries F file [] : LocalState K) = LocalState.init := rfl
    rw [he, hfind] at h1
    unfold localNeighbors
    have : (LocalState.init : LocalState K).edges v = none := rfl
    rw [this]
    simp only
    generalize findVertex file (LocalState.init : LocalState K) v = r at h1
    obtain ⟨res, st'⟩ := r
    simp only at h1
    subst h1
    rfl

end

/-! ## A graph saved by the library -/

section
set_option linter.unusedSectionVars false
variable {K : Type} [Field K] [LinearOrder K] [IsStrictOrderedRing K]

/-- The file written for a graph. -/
theorem save_adj_eq (F : Fmt K) (g : Graph K) (hpr : g.Pruned) :
    saveAdjacencylist F g = .ok (unlines (adjHeader g.n g.numberOfEdges ++
      (List.range g.n).map (fun u => adjLine F u (g.adj.col u)))) := by
  unfold saveAdjacencylist
  rw [Outcome.mapM'_total (fun u => adjLine F u (g.adj.col u))]
  · rfl
  · intro u hu
    rw [neighbors_pruned hpr (List.mem_range.1 hu)]
    simp [Function.comp_def]

theorem adjHeader_noColon (n m : Nat) : ∀ l ∈ adjHeader n m, ':' ∉ l := by
  intro l hl
  unfold adjHeader at hl
  simp only [List.mem_cons, List.not_mem_nil, or_false] at hl
  rcases hl with rfl | rfl | rfl | rfl | rfl | rfl | rfl
  · decide
  · unfold headerN
    intro h
    rcases List.mem_append.1 h with h | h
    · revert h; decide
    · exact (printNat_chars _ _ h).2.2.2.2.2.1 rfl
  · unfold headerM
    intro h
    rcases List.mem_append.1 h with h | h
    · revert h; decide
    · exact (printNat_chars _ _ h).2.2.2.2.2.1 rfl
  all_goals decide

theorem lineId_adjLine (F : Fmt K) {u : Nat} (hu : u < 2 ^ 31) (nb : List (Nat × K)) :
    lineId (adjLine F u nb) = some (u : Int) := by
  unfold lineId adjLine
  rw [cutColon_append (fun h => (printNat_chars _ _ h).2.2.2.2.2.1 rfl)]
  simp only
  rw [stoi_printNat' _ hu]

theorem colon_adjLine (F : Fmt K) (u : Nat) (nb : List (Nat × K)) : ':' ∈ adjLine F u nb := by
  unfold adjLine; simp

/-- A saved non-empty graph is a sorted adjacency list file whose lines are the vertices. -/
theorem saved_sorted (F : Fmt K) (g : Graph K) (hpr : g.Pruned) (h0 : 0 < g.n)
    (hn : g.n ≤ 2 ^ 31) (hp : ∀ j, ∀ e ∈ g.adj.col j, F.printable e.2) {file : Str}
    (hs : saveAdjacencylist F g = .ok file) :
    SortedAdjFile file ∧ (∀ u, u < g.n → HasLine file (u : Int) (adjLine F u (g.adj.col u))) ∧
      ∀ v l, HasLine file v l → 0 ≤ v ∧ v < g.n := by
  rw [save_adj_eq F g hpr] at hs
  cases hs
  have hb : bodyLines (unlines (adjHeader g.n g.numberOfEdges ++
      (List.range g.n).map (fun u => adjLine F u (g.adj.col u)))) =
      adjHeader g.n g.numberOfEdges ++ (List.range g.n).map (fun u => adjLine F u (g.adj.col u)) := by
    have := fileLines_unlines (ls := adjHeader g.n g.numberOfEdges ++
      (List.range g.n).map (fun u => adjLine F u (g.adj.col u))) (by
      intro l hl
      rcases List.mem_append.1 hl with hl | hl
      · exact (adjHeader_spec _ _ l hl).1
      · rw [List.mem_map] at hl
        obtain ⟨u, _, rfl⟩ := hl
        exact isLine_adjLine F u _ (hp u))
    rw [bodyLines_append] at this
    exact List.append_cancel_right this
  have hlines : ∀ l, l ∈ bodyLines (unlines (adjHeader g.n g.numberOfEdges ++
      (List.range g.n).map (fun u => adjLine F u (g.adj.col u)))) → ':' ∈ l →
      ∃ u, u < g.n ∧ l = adjLine F u (g.adj.col u) := by
    intro l hl hc
    rw [hb] at hl
    rcases List.mem_append.1 hl with hl | hl
    · exact absurd hc (adjHeader_noColon _ _ l hl)
    · rw [List.mem_map] at hl
      obtain ⟨u, hu, rfl⟩ := hl
      exact ⟨u, List.mem_range.1 hu, rfl⟩
  refine ⟨⟨?_, ?_, ?_⟩, ?_, ?_⟩
  · intro l hl hc
    obtain ⟨u, hu, rfl⟩ := hlines l hl hc
    exact ⟨u, lineId_adjLine F (by omega) _, by omega⟩
  · rw [hb, List.filter_append, List.filter_eq_nil_iff.2 (fun l hl => by
      simpa using adjHeader_noColon _ _ l hl), List.nil_append, List.filter_eq_self.2 (by
      intro l hl
      rw [List.mem_map] at hl
      obtain ⟨u, _, rfl⟩ := hl
      simpa using colon_adjLine F u _), List.pairwise_map]
    refine (List.pairwise_lt_range (n := g.n)).imp_of_mem ?_
    intro a b ha hb' hab i j hi hj
    rw [List.mem_range] at ha hb'
    rw [lineId_adjLine F (by omega)] at hi hj
    cases hi; cases hj
    omega
  · intro l hl
    have hmem := List.mem_of_getLast? hl
    rw [hb, List.getLast?_append] at hl
    obtain ⟨k, hk⟩ : ∃ k, g.n = k + 1 := ⟨g.n - 1, by omega⟩
    rw [hk, List.range_succ, List.map_append, List.getLast?_append] at hl
    simp only [List.map_cons, List.map_nil, List.getLast?_singleton, Option.some_or,
      Option.some.injEq] at hl
    rw [← hl]
    exact colon_adjLine F _ _
  · intro u hu
    refine ⟨?_, colon_adjLine F u _, lineId_adjLine F (by omega) _⟩
    rw [hb]
    exact List.mem_append_right _ (List.mem_map.2 ⟨u, List.mem_range.2 hu, rfl⟩)
  · rintro v l ⟨hl, hc, hid⟩
    obtain ⟨u, hu, rfl⟩ := hlines l hl hc
    rw [lineId_adjLine F (by omega)] at hid
    cases hid
    omega

/-- **C28** (a graph on disk).  For a non-empty graph saved by the library, the graph on disk
answers `neighbors`, `degree` and `vertex_exists` as the graph in memory does, after any sequence
of queries (for `v = -1` see `C28_minus_one`). -/
theorem C28_saved_graph (F : Fmt K) (g : Graph K) (hv : g.Valid) (hpr : g.Pruned) (h0 : 0 < g.n)
    (hn : g.n ≤ 2 ^ 31) (hp : ∀ j, ∀ e ∈ g.adj.col j, F.printable e.2) {file : Str}
    (hs : saveAdjacencylist F g = .ok file) (qs : List LocalQuery) :
    (∀ u, u < g.n → ∃ es d, g.neighbors (u : Int) = .ok es ∧ g.degree (u : Int) = .ok d ∧
      (localNeighbors F file (afterQueries F file qs) u).1 =
        some (.ok (es.map (fun e => ⟨(e.v1 : Int), (e.v2 : Int), e.w⟩))) ∧
      (localDegree F file (afterQueries F file qs) u).1 = some (.ok d)) ∧
    (∀ v : Int, v ≠ -1 →
      (localVertexExists file (afterQueries F file qs) v).1 = some (.ok (g.vertexExists v))) ∧
    (∀ v : Int, v ≠ -1 → g.vertexExists v = false →
      (localNeighbors F file (afterQueries F file qs) v).1 = some (.throw .runtimeError)) := by
  obtain ⟨hf, hl, hl'⟩ := saved_sorted F g hpr h0 hn hp hs
  have hall : ∀ v : Int, (∃ l, HasLine file v l) ↔ g.vertexExists v = true := by
    intro v
    unfold Graph.vertexExists
    rw [decide_eq_true_eq]
    constructor
    · rintro ⟨l, h⟩; exact hl' v l h
    · rintro ⟨h1, h2⟩
      have := hl v.toNat (by omega)
      rw [Int.toNat_of_nonneg h1] at this
      exact ⟨_, this⟩
  refine ⟨?_, ?_, ?_⟩
  · intro u hu
    have hparse : parseAdjLine F (adjLine F u (g.adj.col u)) =
        .ok ((g.adj.col u).map (fun e => ⟨(u : Int), (e.1 : Int), e.2⟩)) := by
      rw [parse_adjLine F u _ (by omega)]
      · rw [sortEdges_of_sorted]
        rw [List.pairwise_map]
        refine (hv.wf.sorted u).imp ?_
        intro a b hab
        simp only
        omega
      · intro e he
        have := hv.wf.row_lt he
        rw [hv.rows] at this
        exact ⟨by omega, hp u e he⟩
    refine ⟨_, ∑ k ∈ Finset.range g.n, g.adj.coeff u k + g.adj.coeff u u,
      neighbors_pruned hpr hu, ?_, ?_, ?_⟩
    · unfold Graph.degree
      rw [checkVertex_ok (by omega), Outcome.bind_ok, Int.toNat_natCast, Graph.degree_coeff hv,
        if_pos rfl]
    · rw [C28_neighbors F hf qs (hl u hu), hparse, List.map_map]
      rfl
    · rw [(C28_degree F hf qs (hl u hu) hparse).1]
      congr 2
      rw [List.map_map]
      have hcol : ∀ c : Col K, c.Sorted → (∀ e ∈ c, e.1 < g.n) → (c.map ((fun e : IEdge K =>
          if e.v2 = (u : Int) then 2 * e.w else e.w) ∘ fun e => ⟨(u : Int), (e.1 : Int), e.2⟩)).sum =
          ∑ k ∈ Finset.range g.n, Col.coeff c k + Col.coeff c u := by
        intro c hc hlt
        induction c with
        | nil => simp [Col.coeff]
        | cons e c ih =>
          have hsc := Col.sorted_cons.1 hc
          obtain ⟨r, x⟩ := e
          rw [List.map_cons, List.sum_cons, ih hsc.2 (fun e he => hlt e (by simp [he]))]
          have hz : Col.coeff c r = 0 := Col.coeff_eq_zero_of_forall (by
            intro f hf
            have := hsc.1 f hf
            simp only at this
            omega)
          have hr : r < g.n := hlt (r, x) (by simp)
          have hsum : ∑ k ∈ Finset.range g.n, Col.coeff ((r, x) :: c) k =
              x + ∑ k ∈ Finset.range g.n, Col.coeff c k := by
            have : ∀ k, Col.coeff ((r, x) :: c) k = (if r = k then x else 0) + Col.coeff c k := by
              intro k
              rw [Col.coeff_cons]
              by_cases hrk : r = k
              · rw [if_pos hrk, if_pos hrk, ← hrk, hz, add_zero]
              · rw [if_neg hrk, if_neg hrk, zero_add]
            simp only [this]
            rw [Finset.sum_add_distrib, Finset.sum_ite_eq, if_pos (Finset.mem_range.2 hr)]
          rw [hsum, Col.coeff_cons]
          simp only [Function.comp_apply, Nat.cast_inj]
          by_cases hru : r = u
          · rw [if_pos hru, if_pos hru, ← hru, hz]; ring
          · rw [if_neg hru, if_neg hru]; ring
      rw [hcol _ (hv.wf.sorted u) (fun e he => by
        have := hv.wf.row_lt he; rw [hv.rows] at this; exact this)]
      congr 1
      apply Finset.sum_congr rfl
      intro k _
      exact hv.symm k u
  · intro v hv1
    obtain ⟨b, hb1, hb2⟩ := C28_vertex_exists_partial F hf qs hv1
    rw [hb1]
    congr 2
    rw [hall] at hb2
    cases b <;> cases h : g.vertexExists v <;> simp_all
  · intro v hv1 hfalse
    apply C28_neighbors_missing_partial F hf qs hv1
    intro l h
    rw [(hall v).1 ⟨l, h⟩] at hfalse
    cases hfalse

/-- **C29** (negative result on a saved graph).  The file of the empty graph is only a header:
`vertex_exists` never returns on it. -/
theorem C29_saved_empty_graph_hangs (F : Fmt K) (g : Graph K) (hpr : g.Pruned) (h0 : g.n = 0)
    {file : Str} (hs : saveAdjacencylist F g = .ok file) (qs : List LocalQuery) {v : Int}
    (hv : 0 ≤ v) : (localVertexExists file (afterQueries F file qs) v).1 = none := by
  rw [save_adj_eq F g hpr, h0] at hs
  cases hs
  have hb : bodyLines (unlines (adjHeader 0 g.numberOfEdges ++
      (List.range 0).map (fun u => adjLine F u (g.adj.col u)))) = adjHeader 0 g.numberOfEdges := by
    have := fileLines_unlines (ls := adjHeader 0 g.numberOfEdges ++
      (List.range 0).map (fun u => adjLine F u (g.adj.col u))) (by
      intro l hl
      rw [List.range_zero, List.map_nil, List.append_nil] at hl
      exact (adjHeader_spec _ _ l hl).1)
    rw [bodyLines_append] at this
    have := List.append_cancel_right this
    rw [this, List.range_zero, List.map_nil, List.append_nil]
  refine (C29_hangs F (l := ['#']) ?_ (by decide) hv ?_ qs).1
  · rw [hb]; rfl
  · intro l hl hc
    rw [hb] at hl
    exact absurd hc (adjHeader_noColon _ _ l hl)

end

/-- **C28** (negative result).  The id -1 is the code's mark for the end of the file, so
`vertex_exists(-1)` answers true although no line has that id. -/
theorem C28_minus_one :
    SortedAdjFile "0: 1\n1: 0\n".toList ∧ (∀ l, ¬ HasLine "0: 1\n1: 0\n".toList (-1) l) ∧
    (localVertexExists "0: 1\n1: 0\n".toList (LocalState.init : LocalState ℚ) (-1)).1 =
      some (.ok true) := by
  have hb : bodyLines "0: 1\n1: 0\n".toList = ["0: 1".toList, "1: 0".toList] := by
    have h1 : fileLines ("0: 1".toList ++ '\n' :: ("1: 0".toList ++ '\n' :: [])) =
        ["0: 1".toList, "1: 0".toList] ++ [[]] := by
      rw [fileLines_lf ⟨by decide, by decide⟩, fileLines_lf ⟨by decide, by decide⟩, fileLines_nil]
      rfl
    have h2 := bodyLines_append "0: 1\n1: 0\n".toList
    have h3 : "0: 1\n1: 0\n".toList = "0: 1".toList ++ '\n' :: ("1: 0".toList ++ '\n' :: []) := by
      decide
    rw [h3, h1] at h2
    rw [h3]
    exact (List.append_cancel_right h2).symm
  refine ⟨⟨?_, ?_, ?_⟩, ?_, ?_⟩
  · intro l hl _
    rw [hb] at hl
    simp only [List.mem_cons, List.not_mem_nil, or_false] at hl
    rcases hl with rfl | rfl
    · exact ⟨0, by decide, by decide⟩
    · exact ⟨1, by decide, by decide⟩
  · rw [hb, List.filter_eq_self.2 (by decide)]
    refine List.Pairwise.cons ?_ (List.pairwise_singleton ..)
    intro b hb' i j hi hj
    rw [List.mem_singleton] at hb'
    subst hb'
    rw [show lineId "0: 1".toList = some 0 by decide] at hi
    rw [show lineId "1: 0".toList = some 1 by decide] at hj
    cases hi; cases hj
    decide
  · intro l hl
    rw [hb] at hl
    cases hl
    decide
  · rintro l ⟨hl, _, hid⟩
    rw [hb] at hl
    simp only [List.mem_cons, List.not_mem_nil, or_false] at hl
    rcases hl with rfl | rfl <;> exact absurd hid (by decide)
  · have hg : gotoFrom "0: 1\n1: 0\n".toList 5 = .atEnd := by
      unfold gotoFrom
      rw [if_neg (by decide), if_neg (by decide), if_pos (by decide)]
    have hl : (("0: 1\n1: 0\n".toList).length : Int) = 10 := by decide
    unfold localVertexExists findVertex
    simp only [hl]
    unfold findLoop
    rw [dif_neg (by decide)]
    simp only [LocalState.init, show ((0 + 10 : Int) / 2).toNat = 5 by decide, hg, if_true]


/-- Non-vacuity of C28: the graph `loopGraph3`, saved and queried on disk after some queries. -/
example : ∃ file, saveAdjacencylist natFmt loopGraph3 = .ok file ∧
    (localDegree natFmt file (afterQueries natFmt file [.degree 1, .vertexExists 7]) 2).1 =
      some (.ok 10) ∧
    (localVertexExists file (afterQueries natFmt file [.neighbors 0]) 3).1 = some (.ok false) := by
  have hc := Graph.check_spec (g := loopGraph3) (by decide +kernel)
  have hp : ∀ j, ∀ e ∈ loopGraph3.adj.col j, natFmt.printable e.2 := by
    apply Graph.forall_entries
    intro c hc e he
    simp only [loopGraph3, List.mem_cons, List.not_mem_nil, or_false] at hc
    rcases hc with rfl | rfl | rfl <;> rw [List.mem_singleton] at he <;> subst he
    · exact ⟨2, by norm_num, rfl⟩
    · exact ⟨2, by norm_num, rfl⟩
    · exact ⟨5, by norm_num, rfl⟩
  have hs := save_adj_eq natFmt loopGraph3 hc.2
  refine ⟨_, hs, ?_, ?_⟩
  · obtain ⟨es, d, _, h2, _, h4⟩ := (C28_saved_graph natFmt loopGraph3 hc.1 hc.2 (by decide)
      (by decide) hp hs [.degree 1, .vertexExists 7]).1 2 (by decide)
    have : loopGraph3.degree ((2 : Nat) : Int) = .ok 10 := by decide +kernel
    rw [this] at h2
    cases h2
    exact h4
  · exact (C28_saved_graph natFmt loopGraph3 hc.1 hc.2 (by decide) (by decide) hp hs
      [.neighbors 0]).2.1 3 (by decide)

/-- A file ending in a comment. -/
def commentFile : Str := "0: 1".toList ++ '\n' :: ("1: 0".toList ++ '\n' ::
  ("# end".toList ++ '\n' :: []))

/-- Non-vacuity of the hanging case: a comment at the end of the file. -/
example : (localVertexExists commentFile (afterQueries natFmt commentFile [.degree 1]) 2).1 =
    none := by
  have hb : bodyLines commentFile = ["0: 1".toList, "1: 0".toList, "# end".toList] := by
    unfold bodyLines commentFile
    rw [fileLines_lf ⟨by decide, by decide⟩, fileLines_lf ⟨by decide, by decide⟩,
      fileLines_lf ⟨by decide, by decide⟩, fileLines_nil]
    rfl
  refine (C29_hangs natFmt (l := "# end".toList) (by rw [hb]; rfl) (by decide) (by decide) ?_ _).1
  intro l hl hc
  rw [hb] at hl
  simp only [List.mem_cons, List.not_mem_nil, or_false] at hl
  rcases hl with rfl | rfl | rfl
  · exact ⟨0, by decide, by decide, by decide⟩
  · exact ⟨1, by decide, by decide, by decide⟩
  · exact absurd hc (by decide)

end Stag
