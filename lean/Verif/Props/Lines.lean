import Verif.TextLemmas
import Verif.GraphIO

/-!
# C20: reading lines
-/

namespace Stag

/-- The three line-end conventions. -/
inductive Eol where
  | lf
  | crlf
  | cr
  deriving DecidableEq, Repr

/-- The characters of a line end. -/
def Eol.str : Eol → Str
  | .lf => ['\n']
  | .crlf => ['\r', '\n']
  | .cr => ['\r']

/-- The text of a file whose lines are terminated as indicated. -/
def written (ls : List (Str × Eol)) : Str := ls.flatMap (fun p => p.1 ++ p.2.str)

/-- The same lines, all with the same line end. -/
def writtenWith (e : Eol) (ls : List Str) : Str := written (ls.map (fun l => (l, e)))

theorem written_cons (p : Str × Eol) (ls : List (Str × Eol)) :
    written (p :: ls) = p.1 ++ (p.2.str ++ written ls) := by
  simp [written]

theorem contentLines_lf {l : Str} (hl : IsLine l) (s : Str) :
    contentLines (l ++ '\n' :: s) = [l].filter isContent ++ contentLines s := by
  unfold contentLines
  rw [fileLines_lf hl, List.filter_cons]
  by_cases h : isContent l <;> simp [h]

theorem contentLines_crlf {l : Str} (hl : IsLine l) (s : Str) :
    contentLines (l ++ '\r' :: '\n' :: s) = [l].filter isContent ++ contentLines s := by
  unfold contentLines
  rw [fileLines_crlf hl, List.filter_cons]
  by_cases h : isContent l <;> simp [h]

theorem contentLines_cr {l : Str} (hl : IsLine l) (s : Str) :
    contentLines (l ++ '\r' :: s) = [l].filter isContent ++ contentLines s := by
  by_cases hs : s.head? = some '\n'
  · cases s with
    | nil => cases hs
    | cons c s =>
      simp only [List.head?_cons, Option.some.injEq] at hs
      subst hs
      rw [contentLines_crlf hl]
      have := contentLines_lf (l := []) ⟨by simp, by simp⟩ s
      rw [List.nil_append] at this
      rw [this]; rfl
  · unfold contentLines
    rw [fileLines_cr hl s hs, List.filter_cons]
    by_cases h : isContent l <;> simp [h]

/-- Specification: a line the documented formats ignore, blank or a comment starting with `#`
or `/`. -/
def IgnoredLine (l : Str) : Prop := l = [] ∨ l.head? = some '#' ∨ l.head? = some '/'

instance (l : Str) : Decidable (IgnoredLine l) := by unfold IgnoredLine; infer_instance

theorem isContent_eq (l : Str) : isContent l = decide (¬ IgnoredLine l) := by
  cases l with
  | nil => rfl
  | cons c l => simp [isContent, IgnoredLine]

theorem contentLines_written (ls : List (Str × Eol)) (last : Str) (hls : ∀ p ∈ ls, IsLine p.1)
    (hlast : IsLine last) :
    contentLines (written ls ++ last) = (ls.map Prod.fst ++ [last]).filter isContent := by
  induction ls with
  | nil =>
    by_cases h : last = []
    · subst h; simp [written, contentLines, fileLines_nil]
    · simp only [written, List.flatMap_nil, List.nil_append, contentLines, List.map_nil]
      rw [fileLines_last hlast h]
      simp [List.filter_cons, isContent_nil]
  | cons p ls ih =>
    have ih := ih (fun q hq => hls q (by simp [hq]))
    have hp := hls p (by simp)
    have key : contentLines (written (p :: ls) ++ last) =
        [p.1].filter isContent ++ contentLines (written ls ++ last) := by
      rw [written_cons, List.append_assoc, List.append_assoc]
      cases p.2 with
      | lf => exact contentLines_lf hp _
      | crlf => exact contentLines_crlf hp _
      | cr => exact contentLines_cr hp _
    rw [key, ih, List.map_cons, List.cons_append, ← List.filter_append]
    rfl

/-- **C20** (content lines).  For every file, written with any mixture of line ends, its last
line terminated or not, the loaders see exactly the lines which are neither blank nor comments,
in order. -/
theorem C20_content_lines (ls : List (Str × Eol)) (last : Str) (hls : ∀ p ∈ ls, IsLine p.1)
    (hlast : IsLine last) :
    contentLines (written ls ++ last) =
      (ls.map Prod.fst ++ [last]).filter (fun l => decide (¬ IgnoredLine l)) := by
  rw [contentLines_written ls last hls hlast]
  exact List.filter_congr (fun l _ => isContent_eq l)

/-- **C20** (convention).  The content lines do not depend on the line-end convention, nor on
whether the last line is terminated. -/
theorem C20_convention_independent (e e' : Eol) (ls : List Str) (last : Str)
    (hls : ∀ l ∈ ls, IsLine l) (hlast : IsLine last) :
    contentLines (writtenWith e (ls ++ [last])) = contentLines (writtenWith e' ls ++ last) := by
  have h1 := contentLines_written ((ls ++ [last]).map (fun l => (l, e))) [] (by
    intro p hp
    simp only [List.mem_map, List.mem_append, List.mem_singleton] at hp
    obtain ⟨l, hl, rfl⟩ := hp
    rcases hl with hl | hl
    · exact hls l hl
    · subst hl; exact hlast) ⟨by simp, by simp⟩
  have h2 := contentLines_written (ls.map (fun l => (l, e'))) last (by
    intro p hp
    simp only [List.mem_map] at hp
    obtain ⟨l, hl, rfl⟩ := hp
    exact hls l hl) hlast
  rw [List.append_nil] at h1
  unfold writtenWith
  rw [h1, h2]
  simp [Function.comp_def, List.filter_append, List.filter_cons, isContent_nil]

theorem written_head (e : Eol) (ls : List Str) (last : Str) (hls : ∀ l ∈ ls, IsLine l)
    (hlast : IsLine last) (he : e ≠ .lf) :
    (writtenWith e ls ++ last).head? ≠ some '\n' := by
  cases ls with
  | nil =>
    intro h
    simp only [writtenWith, written, List.map_nil, List.flatMap_nil, List.nil_append] at h
    exact hlast.1 (List.mem_of_mem_head? h)
  | cons l ls =>
    intro h
    rw [writtenWith, List.map_cons, written_cons, List.append_assoc] at h
    cases l with
    | nil => cases e <;> simp_all [Eol.str]
    | cons c l =>
      simp only [List.cons_append, List.head?_cons, Option.some.injEq] at h
      exact (hls (c :: l) (by simp)).1 (by simp [h])

/-- **C20** (exact lines).  With one line-end convention the reading loop sees every line once,
in order, and then exactly one extra empty line. -/
theorem C20_lines (e : Eol) (ls : List Str) (last : Str) (hls : ∀ l ∈ ls, IsLine l)
    (hlast : IsLine last) :
    fileLines (writtenWith e ls ++ last) =
      ls ++ (if last = [] then [] else [last]) ++ [[]] := by
  induction ls with
  | nil =>
    by_cases h : last = []
    · subst h; simp [writtenWith, written, fileLines_nil]
    · simp only [writtenWith, written, List.map_nil, List.flatMap_nil, List.nil_append]
      rw [fileLines_last hlast h, if_neg h]; rfl
  | cons l ls ih =>
    have hls' : ∀ l ∈ ls, IsLine l := fun x hx => hls x (by simp [hx])
    have hl := hls l (by simp)
    have key : fileLines (writtenWith e (l :: ls) ++ last) =
        l :: fileLines (writtenWith e ls ++ last) := by
      have hw : writtenWith e (l :: ls) ++ last = l ++ (e.str ++ (writtenWith e ls ++ last)) := by
        simp [writtenWith, written]
      rw [hw]
      cases e with
      | lf => exact fileLines_lf hl _
      | crlf => exact fileLines_crlf hl _
      | cr => exact fileLines_cr hl _ (written_head .cr ls last hls' hlast (by decide))
    rw [key, ih hls']; rfl

theorem getline_decomp (s : Str) :
    (∃ e : Eol, s = (getline s).1 ++ (e.str ++ (getline s).2.1)) ∨
      (s = (getline s).1 ∧ (getline s).2.1 = []) := by
  induction s with
  | nil => exact Or.inr ⟨rfl, rfl⟩
  | cons c s ih =>
    by_cases h1 : c = '\n'
    · subst h1
      exact Or.inl ⟨.lf, rfl⟩
    · by_cases h2 : c = '\r'
      · subst h2
        cases s with
        | nil => exact Or.inl ⟨.cr, rfl⟩
        | cons d s =>
          by_cases hd : d = '\n'
          · subst hd; exact Or.inl ⟨.crlf, rfl⟩
          · refine Or.inl ⟨.cr, ?_⟩
            simp [getline, hd, Eol.str]
      · rw [getline_char h1 h2]
        rcases ih with ⟨e, he⟩ | ⟨ha, hb⟩
        · exact Or.inl ⟨e, by simpa using he⟩
        · exact Or.inr ⟨by simpa using ha, hb⟩

/-- **C20** (coverage).  Every file is of the form the two theorems above speak about. -/
theorem C20_every_file (s : Str) : ∃ (ls : List (Str × Eol)) (last : Str),
    s = written ls ++ last ∧ (∀ p ∈ ls, IsLine p.1) ∧ IsLine last := by
  induction hn : s.length using Nat.strongRecOn generalizing s with
  | _ n ih =>
    by_cases h : s = []
    · exact ⟨[], [], by rw [h]; rfl, by simp, by simp, by simp⟩
    · rcases getline_decomp s with ⟨e, he⟩ | ⟨ha, _⟩
      · obtain ⟨ls, last, h1, h2, h3⟩ := ih _ (by rw [← hn]; exact getline_length s h) _ rfl
        refine ⟨((getline s).1, e) :: ls, last, ?_, ?_, h3⟩
        · rw [written_cons]
          conv => lhs; rw [he, h1]
          simp
        · intro p hp
          rcases List.mem_cons.1 hp with rfl | hp
          · exact getline_isLine s
          · exact h2 p hp
      · exact ⟨[], s, by simp [written], by simp, by rw [ha]; exact getline_isLine s⟩

/-- Non-vacuity: two concrete files with different conventions. -/
example : contentLines (writtenWith .crlf ["# c".toList, "0 1".toList, [], "1 2".toList]) =
      ["0 1".toList, "1 2".toList] ∧
    contentLines (writtenWith .cr ["# c".toList, "0 1".toList, []] ++ "1 2".toList) =
      ["0 1".toList, "1 2".toList] := by
  constructor
  · rw [show writtenWith .crlf ["# c".toList, "0 1".toList, [], "1 2".toList] =
      written [("# c".toList, .crlf), ("0 1".toList, .crlf), ([], .crlf), ("1 2".toList, .crlf)] ++ []
      from rfl, C20_content_lines]
    · decide
    · intro p hp
      simp only [List.mem_cons, List.not_mem_nil, or_false] at hp
      rcases hp with rfl | rfl | rfl | rfl <;> exact ⟨by decide, by decide⟩
    · exact ⟨by simp, by simp⟩
  · rw [show writtenWith .cr ["# c".toList, "0 1".toList, []] =
      written [("# c".toList, .cr), ("0 1".toList, .cr), ([], .cr)]
      from rfl, C20_content_lines]
    · decide
    · intro p hp
      simp only [List.mem_cons, List.not_mem_nil, or_false] at hp
      rcases hp with rfl | rfl | rfl <;> exact ⟨by decide, by decide⟩
    · exact ⟨by decide, by decide⟩

end Stag
