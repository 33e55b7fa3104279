import Verif.Text
import Mathlib.Tactic.SplitIfs

/-!
# Lemmas about lines and numbers
-/

namespace Stag

/-! ## Splitting at a delimiter -/

theorem splitDelim_none {d : Char} {t : Str} (h : d ∉ t) : splitDelim d t = ([], t) := by
  induction t with
  | nil => rfl
  | cons c t ih =>
    simp only [List.mem_cons, not_or] at h
    unfold splitDelim
    rw [ih h.2]
    simp [Ne.symm h.1]

theorem splitDelim_append {d : Char} {t : Str} (h : d ∉ t) (s : Str) :
    splitDelim d (t ++ d :: s) = (t :: (splitDelim d s).1, (splitDelim d s).2) := by
  induction t with
  | nil => simp [splitDelim]
  | cons c t ih =>
    simp only [List.mem_cons, not_or] at h
    rw [List.cons_append]
    conv => lhs; unfold splitDelim
    rw [ih h.2]
    simp [Ne.symm h.1]

theorem splitDelim_replicate (d : Char) (a : Nat) (s : Str) :
    splitDelim d (List.replicate a d ++ s) =
      (List.replicate a [] ++ (splitDelim d s).1, (splitDelim d s).2) := by
  induction a with
  | zero => simp
  | succ a ih =>
    rw [List.replicate_succ, List.cons_append]
    have := splitDelim_append (d := d) (t := []) (by simp) (List.replicate a d ++ s)
    rw [List.nil_append] at this
    rw [this, ih, List.replicate_succ, List.cons_append]

/-! ## Numbers -/

theorem digitChar_toNat {d : Nat} (h : d < 10) : (digitChar d).toNat = '0'.toNat + d := by
  have : d = 0 ∨ d = 1 ∨ d = 2 ∨ d = 3 ∨ d = 4 ∨ d = 5 ∨ d = 6 ∨ d = 7 ∨ d = 8 ∨ d = 9 := by omega
  rcases this with h | h | h | h | h | h | h | h | h | h <;> subst h <;> rfl

theorem isDigit_iff (c : Char) : isDigit c = true ↔ 48 ≤ c.toNat ∧ c.toNat ≤ 57 := by
  unfold isDigit
  have h0 : '0'.toNat = 48 := rfl
  have h9 : '9'.toNat = 57 := rfl
  rw [h0, h9]
  simp

theorem isDigit_digitChar {d : Nat} (h : d < 10) : isDigit (digitChar d) = true := by
  rw [isDigit_iff, digitChar_toNat h]
  have h0 : '0'.toNat = 48 := rfl
  omega

theorem digitsVal_append (s : Str) (c : Char) :
    digitsVal (s ++ [c]) = 10 * digitsVal s + (c.toNat - '0'.toNat) := by
  unfold digitsVal
  rw [List.foldl_append]
  rfl

theorem printNat_digits (n : Nat) : ∀ c ∈ printNat n, isDigit c = true := by
  induction n using Nat.strongRecOn with
  | _ n ih =>
    unfold printNat
    split_ifs with h
    · intro c hc
      rw [List.mem_singleton] at hc
      rw [hc]; exact isDigit_digitChar h
    · intro c hc
      rw [List.mem_append, List.mem_singleton] at hc
      rcases hc with hc | hc
      · exact ih _ (by omega) c hc
      · rw [hc]; exact isDigit_digitChar (Nat.mod_lt _ (by omega))

theorem printNat_ne (n : Nat) : printNat n ≠ [] := by
  unfold printNat
  split_ifs with h <;> simp

theorem digitsVal_printNat (n : Nat) : digitsVal (printNat n) = n := by
  induction n using Nat.strongRecOn with
  | _ n ih =>
    unfold printNat
    split_ifs with h
    · have := digitChar_toNat h
      simp only [digitsVal, List.foldl_cons, List.foldl_nil]
      omega
    · rw [digitsVal_append, ih _ (by omega), digitChar_toNat (Nat.mod_lt _ (by omega))]
      omega

theorem isSpace_not_digit {c : Char} (h : isDigit c = true) : isSpace c = false := by
  rw [isDigit_iff] at h
  unfold isSpace
  have key : ∀ d : Char, d.toNat < 48 → c ≠ d := by
    intro d hd hcd; subst hcd; omega
  have h1 := key ' ' (by decide)
  have h2 := key '\t' (by decide)
  have h3 := key '\n' (by decide)
  have h4 := key '\r' (by decide)
  have h5 := key '\x0b' (by decide)
  have h6 := key '\x0c' (by decide)
  simp [h1, h2, h3, h4, h5, h6]

theorem digit_ne {c : Char} (h : isDigit c = true) {d : Char} (hd : isDigit d = false) : c ≠ d := by
  intro e; subst e; rw [h] at hd; cases hd

theorem takeWhile_append_stop {α : Type} (p : α → Bool) (l r : List α)
    (hl : ∀ a ∈ l, p a = true) (hr : ∀ a, r.head? = some a → p a = false) :
    (l ++ r).takeWhile p = l := by
  induction l with
  | nil =>
    cases r with
    | nil => rfl
    | cons a r =>
      rw [List.nil_append, List.takeWhile_cons, hr a rfl]; rfl
  | cons a l ih =>
    rw [List.cons_append, List.takeWhile_cons, hl a (by simp)]
    simp [ih (fun b hb => hl b (by simp [hb]))]

theorem dropWhile_append_stop {α : Type} (p : α → Bool) (l r : List α)
    (hl : ∀ a ∈ l, p a = true) (hr : ∀ a, r.head? = some a → p a = false) :
    (l ++ r).dropWhile p = r := by
  induction l with
  | nil =>
    cases r with
    | nil => rfl
    | cons a r =>
      rw [List.nil_append, List.dropWhile_cons, hr a rfl]; rfl
  | cons a l ih =>
    rw [List.cons_append, List.dropWhile_cons, hl a (by simp)]
    simp [ih (fun b hb => hl b (by simp [hb]))]

/-- `stoi` reads a printed number, skipping blanks before it and ignoring whatever
follows it. -/
theorem stoi_printNat (ws : Str) (hws : ∀ c ∈ ws, isSpace c = true) (n : Nat) (hn : n < 2 ^ 31)
    (rest : Str) (hr : ∀ c, rest.head? = some c → isDigit c = false) :
    stoi (ws ++ printNat n ++ rest) = .ok (n : Int) := by
  have hne := printNat_ne n
  have hdig := printNat_digits n
  have hval := digitsVal_printNat n
  revert hne hdig hval
  generalize printNat n = p
  intro hne hdig hval
  cases p with
  | nil => exact absurd rfl hne
  | cons c p =>
    have hc := hdig c (by simp)
    have h1 : (ws ++ (c :: p) ++ rest).dropWhile isSpace = c :: (p ++ rest) := by
      rw [List.append_assoc]
      rw [dropWhile_append_stop _ _ _ hws]
      · rfl
      · intro a ha
        simp only [List.cons_append, List.head?_cons, Option.some.injEq] at ha
        subst ha; exact isSpace_not_digit hc
    unfold stoi
    rw [h1]
    have hm : c ≠ '-' := digit_ne hc (by decide)
    have hp : c ≠ '+' := digit_ne hc (by decide)
    have h2 : (c :: (p ++ rest)).takeWhile isDigit = c :: p := by
      have := takeWhile_append_stop isDigit (c :: p) rest hdig hr
      simpa using this
    simp only [List.head?_cons, Option.some.injEq, hm, hp, or_self, if_false, h2]
    rw [if_neg (by simp), hval, if_neg (by omega)]

/-- Complete behaviour of `stoi` on a sign followed by digits. -/
theorem stoi_sign (ws : Str) (hws : ∀ c ∈ ws, isSpace c = true) (n : Nat)
    (rest : Str) (hr : ∀ c, rest.head? = some c → isDigit c = false) :
    stoi (ws ++ '-' :: (printNat n ++ rest)) =
      (if n ≤ 2 ^ 31 then .ok (-(n : Int)) else .throw .outOfRange) ∧
    stoi (ws ++ '+' :: (printNat n ++ rest)) =
      (if n < 2 ^ 31 then .ok (n : Int) else .throw .outOfRange) ∧
    stoi (ws ++ (printNat n ++ rest)) =
      (if n < 2 ^ 31 then .ok (n : Int) else .throw .outOfRange) := by
  have hne := printNat_ne n
  have hdig := printNat_digits n
  have hval := digitsVal_printNat n
  revert hne hdig hval
  generalize printNat n = p
  intro hne hdig hval
  have h2 : (p ++ rest).takeWhile isDigit = p := takeWhile_append_stop isDigit p rest hdig hr
  have key : ∀ c : Char, isSpace c = false → ∀ t, (ws ++ c :: t).dropWhile isSpace = c :: t := by
    intro c hc t
    rw [dropWhile_append_stop _ _ _ hws]
    intro a ha
    simp only [List.head?_cons, Option.some.injEq] at ha
    subst ha; exact hc
  refine ⟨?_, ?_, ?_⟩
  · unfold stoi
    rw [key '-' (by decide)]
    simp only [List.head?_cons, true_or, if_true, List.tail_cons, h2, if_neg hne, hval]
    by_cases hn : n ≤ 2 ^ 31
    · rw [if_pos hn, if_neg (by omega)]
    · rw [if_neg hn, if_pos (by omega)]
  · unfold stoi
    rw [key '+' (by decide)]
    have e : ¬ (some '+' = some '-') := by decide
    simp only [List.head?_cons, or_true, if_true, List.tail_cons, h2, if_neg hne, hval, if_neg e]
    by_cases hn : n < 2 ^ 31
    · rw [if_pos hn, if_neg (by omega)]
    · rw [if_neg hn, if_pos (by omega)]
  · cases p with
    | nil => exact absurd rfl hne
    | cons c p =>
      have hc := hdig c (by simp)
      unfold stoi
      rw [List.cons_append, key c (isSpace_not_digit hc)]
      have hm : c ≠ '-' := digit_ne hc (by decide)
      have hp : c ≠ '+' := digit_ne hc (by decide)
      rw [List.cons_append] at h2
      simp only [List.head?_cons, Option.some.injEq, hm, hp, or_self, if_false, h2]
      rw [if_neg (by simp), hval]
      by_cases hn : n < 2 ^ 31
      · rw [if_pos hn, if_neg (by omega)]
      · rw [if_neg hn, if_pos (by omega)]

theorem stoi_printNat' (n : Nat) (hn : n < 2 ^ 31) : stoi (printNat n) = .ok (n : Int) := by
  have := stoi_printNat [] (by simp) n hn [] (by simp)
  simpa using this

theorem stoi_nil : stoi [] = .throw .invalidArgument := by decide

/-- Digits are never separators, comment characters or blanks. -/
theorem printNat_chars (n : Nat) : ∀ c ∈ printNat n,
    c ≠ ',' ∧ c ≠ ' ' ∧ c ≠ '\t' ∧ c ≠ '\n' ∧ c ≠ '\r' ∧ c ≠ ':' ∧ c ≠ '#' ∧ c ≠ '/' := by
  intro c hc
  have h := printNat_digits n c hc
  refine ⟨?_, ?_, ?_, ?_, ?_, ?_, ?_, ?_⟩ <;> exact digit_ne h (by decide)

/-! ## Lines -/

/-- A line as `safeGetline` can return it: no line-end characters. -/
def IsLine (l : Str) : Prop := '\n' ∉ l ∧ '\r' ∉ l

theorem getline_char {c : Char} (h1 : c ≠ '\n') (h2 : c ≠ '\r') (s : Str) :
    getline (c :: s) = (c :: (getline s).1, (getline s).2.1, false) := by
  conv => lhs; unfold getline
  rw [if_neg h1, if_neg h2]

theorem getline_append {l : Str} (hl : IsLine l) (s : Str) :
    (getline (l ++ s)).1 = l ++ (getline s).1 ∧ (getline (l ++ s)).2.1 = (getline s).2.1 := by
  induction l with
  | nil => simp
  | cons c l ih =>
    obtain ⟨h1, h2⟩ := hl
    simp only [List.mem_cons, not_or] at h1 h2
    have := ih ⟨h1.2, h2.2⟩
    rw [List.cons_append]
    rw [getline_char (Ne.symm h1.1) (Ne.symm h2.1)]
    simp [this]

theorem fileLines_nil : fileLines [] = [[]] := by unfold fileLines; simp

theorem fileLines_ne {s : Str} (h : s ≠ []) :
    fileLines s = (getline s).1 :: fileLines (getline s).2.1 := by
  rw [fileLines, dif_neg h]

theorem fileLines_lf {l : Str} (hl : IsLine l) (s : Str) :
    fileLines (l ++ '\n' :: s) = l :: fileLines s := by
  rw [fileLines_ne (by simp), (getline_append hl _).1, (getline_append hl _).2]
  simp [getline]

theorem fileLines_crlf {l : Str} (hl : IsLine l) (s : Str) :
    fileLines (l ++ '\r' :: '\n' :: s) = l :: fileLines s := by
  rw [fileLines_ne (by simp), (getline_append hl _).1, (getline_append hl _).2]
  simp [getline]

theorem fileLines_cr {l : Str} (hl : IsLine l) (s : Str) (hs : s.head? ≠ some '\n') :
    fileLines (l ++ '\r' :: s) = l :: fileLines s := by
  rw [fileLines_ne (by simp), (getline_append hl _).1, (getline_append hl _).2]
  cases s with
  | nil => simp [getline]
  | cons d s =>
    have hd : d ≠ '\n' := by simpa using hs
    simp [getline, hd]

theorem fileLines_last {l : Str} (hl : IsLine l) (h : l ≠ []) :
    fileLines l = [l, []] := by
  have := getline_append hl []
  rw [List.append_nil] at this
  rw [fileLines_ne h, this.1, this.2]
  simp [getline, fileLines_nil]

/-- Reading back a file written line by line. -/
theorem fileLines_unlines {ls : List Str} (h : ∀ l ∈ ls, IsLine l) :
    fileLines (unlines ls) = ls ++ [[]] := by
  induction ls with
  | nil => exact fileLines_nil
  | cons l ls ih =>
    rw [unlines, fileLines_lf (h l (by simp)), ih (fun x hx => h x (by simp [hx]))]
    rfl

theorem getline_isLine (s : Str) : IsLine (getline s).1 := by
  induction s with
  | nil => exact ⟨by simp [getline], by simp [getline]⟩
  | cons c s ih =>
    unfold getline
    split_ifs with h1 h2
    · exact ⟨by simp, by simp⟩
    · cases s with
      | nil => exact ⟨by simp, by simp⟩
      | cons d s' =>
        simp only
        split_ifs <;> exact ⟨by simp, by simp⟩
    · exact ⟨by simp [Ne.symm h1, ih.1], by simp [Ne.symm h2, ih.2]⟩

theorem fileLines_isLine (s : Str) : ∀ l ∈ fileLines s, IsLine l := by
  induction hn : s.length using Nat.strongRecOn generalizing s with
  | _ n ih =>
    by_cases h : s = []
    · subst h
      rw [fileLines_nil]
      intro l hl
      rw [List.mem_singleton] at hl
      subst hl; exact ⟨by simp, by simp⟩
    · rw [fileLines_ne h]
      intro l hl
      rw [List.mem_cons] at hl
      rcases hl with hl | hl
      · rw [hl]; exact getline_isLine s
      · exact ih _ (by rw [← hn]; exact getline_length s h) _ rfl l hl

/-- The loop always sees a final empty line. -/
theorem fileLines_getLast (s : Str) : ∃ ls, fileLines s = ls ++ [[]] := by
  induction hn : s.length using Nat.strongRecOn generalizing s with
  | _ n ih =>
    by_cases h : s = []
    · subst h; exact ⟨[], by rw [fileLines_nil]; rfl⟩
    · obtain ⟨ls, hls⟩ := ih _ (by rw [← hn]; exact getline_length s h) _ rfl
      exact ⟨(getline s).1 :: ls, by rw [fileLines_ne h, hls]; rfl⟩

theorem isContent_nil : isContent [] = false := rfl

theorem unlines_append (a b : List Str) : unlines (a ++ b) = unlines a ++ unlines b := by
  induction a with
  | nil => rfl
  | cons l a ih => simp [unlines, ih]

end Stag
