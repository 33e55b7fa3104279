import Verif.TextLemmas
import Verif.GraphIO
import Mathlib.Algebra.Field.Rat
import Mathlib.Algebra.Order.Field.Rat

/-!
# C21: parsing one edgelist line
-/

namespace Stag

section
set_option linter.unusedSectionVars false
variable {K : Type} [Field K]

/-- The checks at the end of the parser (`stag_lib/graphio.cpp:76-87`). -/
def finishParse (p : PState K) : Outcome (Edge K) :=
  if p.num < 2 ∨ 3 < p.num then .throw .invalidArgument
  else if p.u < 0 ∨ p.v < 0 then .throw .invalidArgument
  else .ok ⟨p.u.toNat, p.v.toNat, p.w⟩

theorem tryDelim_done (F : Fmt K) {s : PState K × Str} (h : s.1.num ≠ 0) (d : Char) :
    tryDelim F s d = .ok s := by
  unfold tryDelim; rw [if_neg h]

theorem tryDelim_absent (F : Fmt K) {s : PState K} {line : Str} {d : Char} (h : d ∉ line) :
    tryDelim F (s, line) d = .ok (s, line) := by
  unfold tryDelim
  simp only
  split_ifs
  · rw [splitDelim_none h]; rfl
  · rfl

/-- The separator `d` is the one used on a line: a comma if there is one, otherwise a
space if there is one, otherwise a tab. -/
def UsesDelim (d : Char) (line : Str) : Prop :=
  d = ',' ∨ (d = ' ' ∧ ',' ∉ line) ∨ (d = '\t' ∧ ',' ∉ line ∧ ' ' ∉ line)

theorem parse_core (F : Fmt K) {d : Char} {line : Str} (hd : UsesDelim d line) {s : PState K}
    (h : eatTokens F ⟨0, -1, -1, 1⟩ (splitDelim d line).1 = .ok s) (hn : s.num ≠ 0) :
    parseEdgelistLine F line = (lastToken F s (splitDelim d line).2 >>= finishParse) := by
  have ht : tryDelim F (⟨0, -1, -1, 1⟩, line) d = .ok (s, (splitDelim d line).2) := by
    unfold tryDelim
    simp only [if_true]
    rw [h]; rfl
  have hdone : ∀ e, tryDelim F (s, (splitDelim d line).2) e = .ok (s, (splitDelim d line).2) :=
    fun e => tryDelim_done F (by exact hn) e
  unfold parseEdgelistLine
  rcases hd with rfl | ⟨rfl, h1⟩ | ⟨rfl, h1, h2⟩
  · simp only [ht, hdone, Outcome.bind_ok]; rfl
  · simp only [tryDelim_absent F h1, ht, hdone, Outcome.bind_ok]; rfl
  · simp only [tryDelim_absent F h1, tryDelim_absent F h2, ht, Outcome.bind_ok]; rfl

theorem parse_core_throw (F : Fmt K) {d : Char} {line : Str} (hd : UsesDelim d line) {e : Exn}
    (h : eatTokens F ⟨0, -1, -1, 1⟩ (splitDelim d line).1 = .throw e) :
    parseEdgelistLine F line = .throw e := by
  have ht : tryDelim F (⟨0, -1, -1, 1⟩, line) d = .throw e := by
    unfold tryDelim
    simp only [if_true]
    rw [h]; rfl
  unfold parseEdgelistLine
  rcases hd with rfl | ⟨rfl, h1⟩ | ⟨rfl, h1, h2⟩
  · simp only [ht, Outcome.bind_throw]
  · simp only [tryDelim_absent F h1, ht, Outcome.bind_ok, Outcome.bind_throw]
  · simp only [tryDelim_absent F h1, tryDelim_absent F h2, ht, Outcome.bind_ok, Outcome.bind_throw]

theorem eatTokens_append (F : Fmt K) (a b : List Str) : ∀ s : PState K,
    eatTokens F s (a ++ b) = (eatTokens F s a >>= fun s' => eatTokens F s' b) := by
  induction a with
  | nil => intro s; rfl
  | cons t a ih =>
    intro s
    simp only [List.cons_append, eatTokens]
    cases eatToken F s t with
    | ok s' => simp only [Outcome.bind_ok]; exact ih s'
    | throw e => rfl
    | ub => rfl

theorem eatTokens_blank (F : Fmt K) (a : Nat) (s : PState K) :
    eatTokens F s (List.replicate a []) = .ok s := by
  induction a with
  | zero => rfl
  | succ a ih =>
    rw [List.replicate_succ]
    simp only [eatTokens, eatToken, if_true, Outcome.bind_ok]
    exact ih

theorem eatTokens_blanks_cons (F : Fmt K) (a : Nat) (s : PState K) (t : Str) (ts : List Str) :
    eatTokens F s (List.replicate a [] ++ t :: ts) =
      (eatToken F s t >>= fun s' => eatTokens F s' ts) := by
  rw [eatTokens_append, eatTokens_blank, Outcome.bind_ok]; rfl

theorem split_field {d : Char} {A : Str} (hA : d ∉ A) (a b : Nat) (s : Str) :
    splitDelim d (List.replicate a d ++ (A ++ (List.replicate (b + 1) d ++ s))) =
      (List.replicate a [] ++ A :: (List.replicate b [] ++ (splitDelim d s).1),
        (splitDelim d s).2) := by
  rw [splitDelim_replicate, List.replicate_succ, List.cons_append, splitDelim_append hA,
    splitDelim_replicate]

theorem split_tail {d : Char} {A : Str} (hA : d ∉ A) (c : Nat) :
    splitDelim d (A ++ List.replicate (c + 1) d) = (A :: List.replicate c [], []) := by
  have := split_field hA 0 c []
  simpa [splitDelim] using this

theorem eat0 (F : Fmt K) {t : Str} (h : t ≠ []) {u : Int} (hu : stoi t = .ok u) (x y : Int) (w : K) :
    eatToken F ⟨0, x, y, w⟩ t = .ok ⟨1, u, y, w⟩ := by
  unfold eatToken; rw [if_neg h]; simp [hu]

theorem eat0_throw (F : Fmt K) {t : Str} (h : t ≠ []) {e : Exn} (hu : stoi t = .throw e) (x y : Int)
    (w : K) : eatToken F ⟨0, x, y, w⟩ t = .throw e := by
  unfold eatToken; rw [if_neg h]; simp [hu]

theorem eat1 (F : Fmt K) {t : Str} (h : t ≠ []) {v : Int} (hv : stoi t = .ok v) (x y : Int) (w : K) :
    eatToken F ⟨1, x, y, w⟩ t = .ok ⟨2, x, v, w⟩ := by
  unfold eatToken; rw [if_neg h]; simp [hv]

theorem eat1_throw (F : Fmt K) {t : Str} (h : t ≠ []) {e : Exn} (hv : stoi t = .throw e) (x y : Int)
    (w : K) : eatToken F ⟨1, x, y, w⟩ t = .throw e := by
  unfold eatToken; rw [if_neg h]; simp [hv]

theorem eat2 (F : Fmt K) {t : Str} (h : t ≠ []) {z : K} (hz : F.stod t = .ok z) (x y : Int) (w : K) :
    eatToken F ⟨2, x, y, w⟩ t = .ok ⟨3, x, y, z⟩ := by
  unfold eatToken; rw [if_neg h]; simp [hz]

theorem eat3 (F : Fmt K) {t : Str} (h : t ≠ []) (x y : Int) (w : K) :
    eatToken F ⟨3, x, y, w⟩ t = .ok ⟨4, x, y, w⟩ := by
  unfold eatToken; rw [if_neg h]; simp

/-- Two fields on a line: optional separators, `A`, one or more separators, `B`, optional
separators. -/
def line2 (d : Char) (a b c : Nat) (A B : Str) : Str :=
  List.replicate a d ++ (A ++ (List.replicate (b + 1) d ++ (B ++ List.replicate c d)))

/-- Three fields on a line. -/
def line3 (d : Char) (a b b' c : Nat) (A B C : Str) : Str :=
  List.replicate a d ++ (A ++ (List.replicate (b + 1) d ++
    (B ++ (List.replicate (b' + 1) d ++ (C ++ List.replicate c d)))))

/-- `A` can be a field of a line separated by `d`: it is not empty and contains neither `d` nor a
separator that takes precedence over `d`. -/
def FieldText (d : Char) (A : Str) : Prop :=
  A ≠ [] ∧ d ∉ A ∧ (d = ' ' → ',' ∉ A) ∧ (d = '\t' → ',' ∉ A ∧ ' ' ∉ A)

/-- The three separators. -/
def IsDelim (d : Char) : Prop := d = ',' ∨ d = ' ' ∨ d = '\t'

theorem usesDelim_line2 {d : Char} (hd : IsDelim d) {A B : Str} (hA : FieldText d A) (hB : FieldText d B)
    (a b c : Nat) : UsesDelim d (line2 d a b c A B) := by
  rcases hd with rfl | rfl | rfl
  · exact Or.inl rfl
  · refine Or.inr (Or.inl ⟨rfl, ?_⟩)
    simp [line2, List.mem_replicate, hA.2.2.1 rfl, hB.2.2.1 rfl]
  · refine Or.inr (Or.inr ⟨rfl, ?_, ?_⟩)
    · simp [line2, List.mem_replicate, (hA.2.2.2 rfl).1, (hB.2.2.2 rfl).1]
    · simp [line2, List.mem_replicate, (hA.2.2.2 rfl).2, (hB.2.2.2 rfl).2]

theorem usesDelim_line3 {d : Char} (hd : IsDelim d) {A B C : Str} (hA : FieldText d A) (hB : FieldText d B)
    (hC : FieldText d C) (a b b' c : Nat) : UsesDelim d (line3 d a b b' c A B C) := by
  rcases hd with rfl | rfl | rfl
  · exact Or.inl rfl
  · refine Or.inr (Or.inl ⟨rfl, ?_⟩)
    simp [line3, List.mem_replicate, hA.2.2.1 rfl, hB.2.2.1 rfl, hC.2.2.1 rfl]
  · refine Or.inr (Or.inr ⟨rfl, ?_, ?_⟩)
    · simp [line3, List.mem_replicate, (hA.2.2.2 rfl).1, (hB.2.2.2 rfl).1, (hC.2.2.2 rfl).1]
    · simp [line3, List.mem_replicate, (hA.2.2.2 rfl).2, (hB.2.2.2 rfl).2, (hC.2.2.2 rfl).2]

theorem finish2 {u v : Int} {k : Nat} {w : K} (hk : k = 2 ∨ k = 3) (hu : 0 ≤ u) (hv : 0 ≤ v) :
    finishParse ⟨k, u, v, w⟩ = .ok ⟨u.toNat, v.toNat, w⟩ := by
  unfold finishParse
  simp only
  rw [if_neg (by omega), if_neg (by omega)]

theorem finish2_neg {u v : Int} {k : Nat} {w : K} (h : u < 0 ∨ v < 0) :
    finishParse ⟨k, u, v, w⟩ = .throw .invalidArgument := by
  unfold finishParse
  simp only
  split_ifs <;> rfl

/-- The outcome of a two-field line, whatever the ids. -/
theorem parse_line2 (F : Fmt K) {d : Char} (hd : IsDelim d) {A B : Str} (hA : FieldText d A)
    (hB : FieldText d B) (a b c : Nat) {u v : Int} (hu : stoi A = .ok u) (hv : stoi B = .ok v) :
    parseEdgelistLine F (line2 d a b c A B) = finishParse ⟨2, u, v, 1⟩ := by
  have hU := usesDelim_line2 hd hA hB a b c
  cases c with
  | zero =>
    have hs : splitDelim d (line2 d a b 0 A B) =
        (List.replicate a [] ++ A :: List.replicate b [], B) := by
      unfold line2
      rw [split_field hA.2.1]
      simp [splitDelim_none hB.2.1]
    rw [parse_core F hU (s := ⟨1, u, -1, 1⟩) _ (by simp)]
    · rw [hs]; simp [lastToken, hv]
    · rw [hs]
      simp only
      rw [eatTokens_blanks_cons, eat0 F hA.1 hu, Outcome.bind_ok, eatTokens_blank]
  | succ c =>
    have hs : splitDelim d (line2 d a b (c + 1) A B) =
        (List.replicate a [] ++ A :: (List.replicate b [] ++ B :: List.replicate c []), []) := by
      unfold line2
      rw [split_field hA.2.1, split_tail hB.2.1]
    rw [parse_core F hU (s := ⟨2, u, v, 1⟩) _ (by simp)]
    · rw [hs]; simp [lastToken, F.stod_empty]
    · rw [hs]
      simp only
      rw [eatTokens_blanks_cons, eat0 F hA.1 hu, Outcome.bind_ok, eatTokens_blanks_cons,
        eat1 F hB.1 hv, Outcome.bind_ok, eatTokens_blank]

/-- **C21** (two fields).  `u v` in any of the three separator styles, with repeated, leading or
trailing separators, is the edge `{u, v}` of weight 1. -/
theorem C21_two_fields (F : Fmt K) {d : Char} (hd : IsDelim d) {A B : Str} (hA : FieldText d A)
    (hB : FieldText d B) (a b c : Nat) {u v : Nat} (hu : stoi A = .ok (u : Int))
    (hv : stoi B = .ok (v : Int)) :
    parseEdgelistLine F (line2 d a b c A B) = .ok ⟨u, v, 1⟩ := by
  rw [parse_line2 F hd hA hB a b c hu hv, finish2 (Or.inl rfl) (by omega) (by omega)]
  simp

theorem split_line3 {d : Char} {A B C : Str} (hA : d ∉ A) (hB : d ∉ B) (hC : d ∉ C)
    (a b b' c : Nat) :
    splitDelim d (line3 d a b b' c A B C) =
      (List.replicate a [] ++ A :: (List.replicate b [] ++ B :: (List.replicate b' [] ++
        (if c = 0 then [] else C :: List.replicate (c - 1) []))), if c = 0 then C else []) := by
  unfold line3
  rw [split_field hA]
  have h2 := split_field hB 0 b' (C ++ List.replicate c d)
  rw [List.replicate_zero, List.nil_append] at h2
  rw [h2]
  cases c with
  | zero => simp [splitDelim_none hC]
  | succ c => rw [split_tail hC]; simp

/-- **C21** (three fields).  `u v w` is the edge `{u, v}` of weight `w`. -/
theorem C21_three_fields (F : Fmt K) {d : Char} (hd : IsDelim d) {A B C : Str} (hA : FieldText d A)
    (hB : FieldText d B) (hC : FieldText d C) (a b b' c : Nat) {u v : Nat} {w : K}
    (hu : stoi A = .ok (u : Int)) (hv : stoi B = .ok (v : Int)) (hw : F.stod C = .ok w) :
    parseEdgelistLine F (line3 d a b b' c A B C) = .ok ⟨u, v, w⟩ := by
  have hU := usesDelim_line3 hd hA hB hC a b b' c
  have hs := split_line3 hA.2.1 hB.2.1 hC.2.1 a b b' c
  by_cases hc : c = 0
  · rw [if_pos hc, if_pos hc, List.append_nil] at hs
    rw [parse_core F hU (s := ⟨2, u, v, 1⟩) _ (by simp)]
    · rw [hs]
      simp only [lastToken, hw]
      rw [if_neg (by omega), if_pos trivial, Outcome.bind_ok,
        finish2 (Or.inr rfl) (by omega) (by omega)]
      simp
    · rw [hs]
      simp only
      rw [eatTokens_blanks_cons, eat0 F hA.1 hu, Outcome.bind_ok, eatTokens_blanks_cons,
        eat1 F hB.1 hv, Outcome.bind_ok, eatTokens_blank]
  · rw [if_neg hc, if_neg hc] at hs
    rw [parse_core F hU (s := ⟨3, u, v, w⟩) _ (by simp)]
    · rw [hs]
      simp only [lastToken]
      rw [if_neg (by omega), if_neg (by omega), Outcome.bind_ok,
        finish2 (Or.inr rfl) (by omega) (by omega)]
      simp
    · rw [hs]
      simp only
      rw [eatTokens_blanks_cons, eat0 F hA.1 hu, Outcome.bind_ok, eatTokens_blanks_cons,
        eat1 F hB.1 hv, Outcome.bind_ok, eatTokens_blanks_cons, eat2 F hC.1 hw, Outcome.bind_ok,
        eatTokens_blank]

/-- **C21** (too few fields).  A line without any separator is rejected, and so is a single
number with separators around it. -/
theorem C21_too_few_fields (F : Fmt K) (line : Str) (h : ',' ∉ line ∧ ' ' ∉ line ∧ '\t' ∉ line) :
    parseEdgelistLine F line = .throw .invalidArgument ∧
    ∀ (d : Char) (_ : IsDelim d) (a c : Nat) (u : Int), line ≠ [] → stoi line = .ok u →
      parseEdgelistLine F (List.replicate a d ++ (line ++ List.replicate (c + 1) d)) =
        .throw .invalidArgument := by
  constructor
  · unfold parseEdgelistLine
    simp only [tryDelim_absent F h.1, tryDelim_absent F h.2.1, tryDelim_absent F h.2.2,
      Outcome.bind_ok, lastToken]
    simp
  · intro d hd a c u hne hu
    have hdl : d ∉ line := by rcases hd with rfl | rfl | rfl <;> simp [h]
    have hU : UsesDelim d (List.replicate a d ++ (line ++ List.replicate (c + 1) d)) := by
      rcases hd with rfl | rfl | rfl
      · exact Or.inl rfl
      · refine Or.inr (Or.inl ⟨rfl, ?_⟩)
        simp [List.mem_replicate, h]
      · refine Or.inr (Or.inr ⟨rfl, ?_, ?_⟩)
        · simp [List.mem_replicate, h]
        · simp [List.mem_replicate, h]
    have hs : splitDelim d (List.replicate a d ++ (line ++ List.replicate (c + 1) d)) =
        (List.replicate a [] ++ line :: List.replicate c [], []) := by
      rw [splitDelim_replicate, split_tail hdl]
    rw [parse_core F hU (s := ⟨1, u, -1, 1⟩) _ (by simp)]
    · rw [hs]; simp [lastToken, stoi_nil]
    · rw [hs]
      simp only
      rw [eatTokens_blanks_cons, eat0 F hne hu, Outcome.bind_ok, eatTokens_blank]

/-- **C21** (ids that are not numbers).  If the first field, or the second, is not a number (or
does not fit a 32-bit `int`) the error of the conversion is raised. -/
theorem C21_bad_id (F : Fmt K) {d : Char} (hd : IsDelim d) {A B : Str} (hA : FieldText d A)
    (hB : FieldText d B) (a b c : Nat) (e : Exn)
    (h : stoi A = .throw e ∨ (∃ u, stoi A = .ok u) ∧ stoi B = .throw e) :
    parseEdgelistLine F (line2 d a b c A B) = .throw e ∧
    ∀ (b' : Nat) (C : Str), FieldText d C →
      parseEdgelistLine F (line3 d a b b' c A B C) = .throw e := by
  constructor
  · have hU := usesDelim_line2 hd hA hB a b c
    have hs : splitDelim d (line2 d a b c A B) =
        (List.replicate a [] ++ A :: (List.replicate b [] ++
          (if c = 0 then [] else B :: List.replicate (c - 1) [])), if c = 0 then B else []) := by
      unfold line2
      rw [split_field hA.2.1]
      cases c with
      | zero => simp [splitDelim_none hB.2.1]
      | succ c => rw [split_tail hB.2.1]; simp
    rcases h with h | ⟨⟨u, hu⟩, h⟩
    · apply parse_core_throw F hU
      rw [hs]
      simp only
      rw [eatTokens_blanks_cons, eat0_throw F hA.1 h, Outcome.bind_throw]
    · by_cases hc : c = 0
      · rw [if_pos hc, if_pos hc, List.append_nil] at hs
        rw [parse_core F hU (s := ⟨1, u, -1, 1⟩) _ (by simp)]
        · rw [hs]; simp [lastToken, h]
        · rw [hs]
          simp only
          rw [eatTokens_blanks_cons, eat0 F hA.1 hu, Outcome.bind_ok, eatTokens_blank]
      · rw [if_neg hc, if_neg hc] at hs
        apply parse_core_throw F hU
        rw [hs]
        simp only
        rw [eatTokens_blanks_cons, eat0 F hA.1 hu, Outcome.bind_ok, eatTokens_blanks_cons,
          eat1_throw F hB.1 h, Outcome.bind_throw]
  · intro b' C hC
    have hU := usesDelim_line3 hd hA hB hC a b b' c
    have hs := split_line3 hA.2.1 hB.2.1 hC.2.1 a b b' c
    apply parse_core_throw F hU
    rw [hs]
    simp only
    rcases h with h | ⟨⟨u, hu⟩, h⟩
    · rw [eatTokens_blanks_cons, eat0_throw F hA.1 h, Outcome.bind_throw]
    · rw [eatTokens_blanks_cons, eat0 F hA.1 hu, Outcome.bind_ok, eatTokens_blanks_cons,
        eat1_throw F hB.1 h, Outcome.bind_throw]

/-- **C21** (negative ids) are rejected, with or without a weight. -/
theorem C21_negative_id (F : Fmt K) {d : Char} (hd : IsDelim d) {A B : Str} (hA : FieldText d A)
    (hB : FieldText d B) (a b c : Nat) {u v : Int} (hu : stoi A = .ok u) (hv : stoi B = .ok v)
    (h : u < 0 ∨ v < 0) :
    parseEdgelistLine F (line2 d a b c A B) = .throw .invalidArgument ∧
    ∀ (b' : Nat) (C : Str) (w : K), FieldText d C → F.stod C = .ok w →
      parseEdgelistLine F (line3 d a b b' c A B C) = .throw .invalidArgument := by
  constructor
  · rw [parse_line2 F hd hA hB a b c hu hv, finish2_neg h]
  · intro b' C w hC hw
    have hU := usesDelim_line3 hd hA hB hC a b b' c
    have hs := split_line3 hA.2.1 hB.2.1 hC.2.1 a b b' c
    by_cases hc : c = 0
    · rw [if_pos hc, if_pos hc, List.append_nil] at hs
      rw [parse_core F hU (s := ⟨2, u, v, 1⟩) _ (by simp)]
      · rw [hs]
        simp only [lastToken, hw]
        rw [if_neg (by omega), if_pos trivial, Outcome.bind_ok, finish2_neg h]
      · rw [hs]
        simp only
        rw [eatTokens_blanks_cons, eat0 F hA.1 hu, Outcome.bind_ok, eatTokens_blanks_cons,
          eat1 F hB.1 hv, Outcome.bind_ok, eatTokens_blank]
    · rw [if_neg hc, if_neg hc] at hs
      rw [parse_core F hU (s := ⟨3, u, v, w⟩) _ (by simp)]
      · rw [hs]
        simp only [lastToken]
        rw [if_neg (by omega), if_neg (by omega), Outcome.bind_ok, finish2_neg h]
      · rw [hs]
        simp only
        rw [eatTokens_blanks_cons, eat0 F hA.1 hu, Outcome.bind_ok, eatTokens_blanks_cons,
          eat1 F hB.1 hv, Outcome.bind_ok, eatTokens_blanks_cons, eat2 F hC.1 hw, Outcome.bind_ok,
          eatTokens_blank]

/-- **C21** (quirk: unreadable weight).  A last field that is not a number is silently ignored:
the edge gets weight 1. -/
theorem C21_unreadable_weight_ignored (F : Fmt K) {d : Char} (hd : IsDelim d) {A B C : Str}
    (hA : FieldText d A) (hB : FieldText d B) (hC : FieldText d C) (a b b' : Nat) {u v : Nat} {e : Exn}
    (hu : stoi A = .ok (u : Int)) (hv : stoi B = .ok (v : Int)) (hw : F.stod C = .throw e) :
    parseEdgelistLine F (line3 d a b b' 0 A B C) = .ok ⟨u, v, 1⟩ := by
  have hU := usesDelim_line3 hd hA hB hC a b b' 0
  have hs := split_line3 hA.2.1 hB.2.1 hC.2.1 a b b' 0
  rw [if_pos rfl, if_pos rfl, List.append_nil] at hs
  rw [parse_core F hU (s := ⟨2, u, v, 1⟩) _ (by simp)]
  · rw [hs]
    simp only [lastToken, hw]
    rw [if_neg (by omega), if_pos trivial, Outcome.bind_ok,
      finish2 (Or.inl rfl) (by omega) (by omega)]
    simp
  · rw [hs]
    simp only
    rw [eatTokens_blanks_cons, eat0 F hA.1 hu, Outcome.bind_ok, eatTokens_blanks_cons,
      eat1 F hB.1 hv, Outcome.bind_ok, eatTokens_blank]

/-- **C21** (numbers).  The decimal form of an id below 2^31, blanks before it allowed and
whatever follows it ignored, is read as that id. -/
theorem C21_ids (ws rest : Str) (hws : ∀ c ∈ ws, isSpace c = true) (n : Nat) (hn : n < 2 ^ 31)
    (hr : ∀ c, rest.head? = some c → isDigit c = false) :
    stoi (ws ++ printNat n ++ rest) = .ok (n : Int) := stoi_printNat ws hws n hn rest hr

/-- **C21** (signs and range).  Blanks, an optional sign, decimal digits and whatever follows: read as
the number, negative for a minus sign; `out_of_range` if it does not fit into 32 bits. -/
theorem C21_signed_ids (ws rest : Str) (hws : ∀ c ∈ ws, isSpace c = true) (n : Nat)
    (hr : ∀ c, rest.head? = some c → isDigit c = false) :
    stoi (ws ++ '-' :: (printNat n ++ rest)) =
      (if n ≤ 2 ^ 31 then .ok (-(n : Int)) else .throw .outOfRange) ∧
    stoi (ws ++ '+' :: (printNat n ++ rest)) =
      (if n < 2 ^ 31 then .ok (n : Int) else .throw .outOfRange) ∧
    stoi (ws ++ (printNat n ++ rest)) =
      (if n < 2 ^ 31 then .ok (n : Int) else .throw .outOfRange) := stoi_sign ws hws n rest hr

theorem field_printNat (n : Nat) : FieldText ' ' (printNat n) := by
  refine ⟨printNat_ne n, fun h => (printNat_chars n _ h).2.1 rfl, fun _ h =>
    (printNat_chars n _ h).1 rfl, fun h => absurd h (by decide)⟩

theorem field_print (F : Fmt K) {w : K} (hw : F.printable w) : FieldText ' ' (F.print w) := by
  refine ⟨F.print_ne w hw, fun h => (F.print_chars w hw _ h).2.1 rfl, fun _ h =>
    (F.print_chars w hw _ h).1 rfl, fun h => absurd h (by decide)⟩

/-- Lines written by the library are read back. -/
theorem parse_edgeLine (F : Fmt K) (e : Edge K) (h1 : e.v1 < 2 ^ 31) (h2 : e.v2 < 2 ^ 31)
    (hw : F.printable e.w) : parseEdgelistLine F (edgeLine F e) = .ok e := by
  have := C21_three_fields F (d := ' ') (Or.inr (Or.inl rfl)) (field_printNat e.v1)
    (field_printNat e.v2) (field_print F hw) 0 0 0 0 (stoi_printNat' _ h1) (stoi_printNat' _ h2)
    (F.stod_print _ hw)
  have hl : edgeLine F e = line3 ' ' 0 0 0 0 (printNat e.v1) (printNat e.v2) (F.print e.w) := by
    simp [edgeLine, line3]
  rw [hl, this]

end

/-! ## A concrete number format -/

/-- A number format satisfying the laws: natural numbers, in decimal (blanks before the number
are skipped).  Used for the examples only. -/
def natFmt : Fmt ℚ where
  stod s := match stoi s with
    | .ok z => .ok (z : ℚ)
    | .throw e => .throw e
    | .ub => .ub
  print x := printNat x.num.toNat
  printable x := ∃ n : Nat, n < 2 ^ 31 ∧ x = n
  print_ne x _ := printNat_ne _
  print_chars x _ := printNat_chars _
  stod_print x hx := by
    obtain ⟨n, hn, rfl⟩ := hx
    simp [stoi_printNat' n hn]
  stod_blank s := by
    have : stoi (' ' :: s) = stoi s := by
      unfold stoi
      rw [List.dropWhile_cons]
      rw [show isSpace ' ' = true from rfl]
      rfl
    rw [this]
  stod_empty := by rw [stoi_nil]

theorem natFmt_printable (n : Nat) (h : n < 2 ^ 31) : natFmt.printable (n : ℚ) := ⟨n, h, rfl⟩

/-- Non-vacuity: the documented kinds of lines. -/
example : parseEdgelistLine natFmt "10 2 7".toList = .ok ⟨10, 2, 7⟩ ∧
    parseEdgelistLine natFmt "0,1".toList = .ok ⟨0, 1, 1⟩ ∧
    parseEdgelistLine natFmt "0, 1,  3".toList = .ok ⟨0, 1, 3⟩ ∧
    parseEdgelistLine natFmt "4\t5\t6".toList = .ok ⟨4, 5, 6⟩ ∧
    parseEdgelistLine natFmt "  4  5 ".toList = .ok ⟨4, 5, 1⟩ ∧
    parseEdgelistLine natFmt "4".toList = .throw .invalidArgument ∧
    parseEdgelistLine natFmt "-4 2".toList = .throw .invalidArgument ∧
    parseEdgelistLine natFmt "a 2".toList = .throw .invalidArgument ∧
    parseEdgelistLine natFmt "1 b".toList = .throw .invalidArgument ∧
    parseEdgelistLine natFmt "1 2 b".toList = .ok ⟨1, 2, 1⟩ ∧
    parseEdgelistLine natFmt "99999999999 2".toList = .throw .outOfRange := by
  decide +kernel

end Stag
