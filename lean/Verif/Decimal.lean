import Verif.Rounding
import Verif.TextLemmas
import Mathlib.Data.List.TakeWhile

/-!
# Printing and reading `double`s

`operator<<(std::ostream&, double)` with the default precision of six significant digits, and
`std::stod`.  Both are functions of the standard library; the model follows the C++ standard
(`[facet.num.put.virtuals]`: conversion specifier `%g` with precision 6; `[string.conversions]`:
`strtod`) with correctly rounded conversions as in glibc.  Not modelled: infinities, NaN, negative
zero, hexadecimal floating point texts, locales.
-/

set_option linter.unusedSectionVars false

namespace Stag

section
variable {K : Type} [Field K] [LinearOrder K] [IsStrictOrderedRing K] [FloorRing K]

/-! ## Printing -/

/-- The six significant digits of `x > 0`, as a number `10^5 ≤ m < 10^6`, and the exponent `e` of the
first of them, so that `x` is about `m 10^(e - 5)` (`%e` with precision 5; ties to even). -/
def sixDigits (x : K) : Nat × Int :=
  if roundEven (x / 10 ^ (Int.log 10 x - 5)) = 10 ^ 6 then (10 ^ 5, Int.log 10 x + 1)
  else ((roundEven (x / 10 ^ (Int.log 10 x - 5))).toNat, Int.log 10 x)

/-- A digit string without its trailing zeros. -/
def stripZeros (s : Str) : Str := (s.reverse.dropWhile (fun c => decide (c = '0'))).reverse

/-- Digits before and after the decimal point (no point if there are none after it), and an exponent
of at least two digits, if any. -/
def numText (ip fp : Str) (ex : Option Int) : Str :=
  ip ++ (if fp = [] then [] else '.' :: fp) ++
    match ex with
    | none => []
    | some e => 'e' :: (if e < 0 then '-' else '+') ::
        (if e.natAbs < 10 then '0' :: printNat e.natAbs else printNat e.natAbs)

/-- `%g` with precision 6 for `x > 0`: scientific notation if the exponent is below `-4` or at least
`6`, otherwise fixed notation; trailing zeros of the fraction are removed. -/
def printPos (x : K) : Str :=
  let d := sixDigits x
  let D := printNat d.1
  if 0 ≤ d.2 ∧ d.2 < 6 then
    numText (D.take (d.2.toNat + 1)) (stripZeros (D.drop (d.2.toNat + 1))) none
  else if -4 ≤ d.2 ∧ d.2 < 0 then
    numText ['0'] (List.replicate (-d.2 - 1).toNat '0' ++ stripZeros D) none
  else numText (D.take 1) (stripZeros (D.drop 1)) (some d.2)

/-- `operator<<(std::ostream&, double)` (used in `stag_lib/graphio.cpp:161, 576`,
`stag_lib/data.cpp`). -/
def printDouble (x : K) : Str :=
  if x = 0 then ['0'] else if x < 0 then '-' :: printPos (-x) else printPos x

/-! ## Reading -/

/-- A sign. -/
def dropSign (s : Str) : Str := if s.head? = some '-' ∨ s.head? = some '+' then s.tail else s

/-- The exponent part of a decimal number: `0` if there is no complete one. -/
def readExp (s : Str) : Int :=
  if s.head? = some 'e' ∨ s.head? = some 'E' then
    if s.tail.head? = some '-' then - (digitsVal ((dropSign s.tail).takeWhile isDigit) : Int)
    else (digitsVal ((dropSign s.tail).takeWhile isDigit) : Int)
  else 0

/-- The fraction part of a decimal number and what follows it. -/
def readFrac (s : Str) : Str × Str :=
  if s.head? = some '.' then (s.tail.takeWhile isDigit, s.tail.dropWhile isDigit) else ([], s)

/-- The exact value of the decimal number at the start of the text. -/
def readDec (s : Str) : Option K :=
  let t := dropSign (s.dropWhile isSpace)
  let ip := t.takeWhile isDigit
  let fr := readFrac (t.dropWhile isDigit)
  if ip = [] ∧ fr.1 = [] then none
  else some ((if (s.dropWhile isSpace).head? = some '-' then -1 else 1) *
    (digitsVal (ip ++ fr.1) : K) * (10 : K) ^ (readExp fr.2 - fr.1.length))

/-- The range of normal `double`s, and zero. -/
def InRange (y : K) : Prop := y = 0 ∨ (2 : K) ^ (-1022 : Int) ≤ |y| ∧ |y| < (2 : K) ^ (1024 : Int)

instance (y : K) : Decidable (InRange y) := by unfold InRange; infer_instance

/-- `std::stod` (called in `stag_lib/graphio.cpp:66, 478`, `stag_lib/data.cpp`): the nearest `double`;
`invalid_argument` if there is no number, `out_of_range` if it is too large or too small.  Numbers
below `2^-1022` are all treated as too small (glibc accepts those which are exact). -/
def stodDouble (s : Str) : Outcome K :=
  match readDec s with
  | none => .throw .invalidArgument
  | some v => if InRange (flBin 53 v) then .ok (flBin 53 v) else .throw .outOfRange

/-! ## What is printed is read -/

theorem digitsVal_append_list (s t : Str) : digitsVal (s ++ t) = digitsVal s * 10 ^ t.length + digitsVal t := by
  induction t using List.reverseRecOn with
  | nil => simp [digitsVal]
  | append_singleton t c ih =>
    rw [← List.append_assoc, digitsVal_append, ih, digitsVal_append, List.length_append,
      List.length_singleton, pow_succ]
    ring

theorem digitsVal_zeros (n : Nat) : digitsVal (List.replicate n '0') = 0 := by
  induction n with
  | zero => rfl
  | succ n ih =>
    rw [List.replicate_succ', digitsVal_append, ih]
    rfl

theorem stripZeros_spec (s : Str) : ∃ z, s = stripZeros s ++ List.replicate z '0' := by
  refine ⟨(s.reverse.takeWhile (fun c => decide (c = '0'))).length, ?_⟩
  have h1 := List.takeWhile_append_dropWhile (p := fun c => decide (c = '0')) (l := s.reverse)
  have h2 : s.reverse.takeWhile (fun c => decide (c = '0')) =
      List.replicate (s.reverse.takeWhile (fun c => decide (c = '0'))).length '0' := by
    rw [List.eq_replicate_iff]
    refine ⟨rfl, fun c hc => ?_⟩
    have := List.mem_takeWhile_imp hc
    simpa using this
  unfold stripZeros
  have h3 := congrArg List.reverse h1
  rw [List.reverse_append, List.reverse_reverse] at h3
  conv => lhs; rw [← h3]
  congr 1
  conv => lhs; rw [h2]
  exact List.reverse_replicate

theorem stripZeros_length (s : Str) : (stripZeros s).length ≤ s.length ∧
    digitsVal s = digitsVal (stripZeros s) * 10 ^ (s.length - (stripZeros s).length) := by
  obtain ⟨z, hz⟩ := stripZeros_spec s
  have hl := congrArg List.length hz
  rw [List.length_append, List.length_replicate] at hl
  refine ⟨by omega, ?_⟩
  have hv := congrArg digitsVal hz
  rw [digitsVal_append_list, digitsVal_zeros, add_zero, List.length_replicate] at hv
  have e : s.length - (stripZeros s).length = z := by omega
  rw [e]
  exact hv

theorem stripZeros_mem {s : Str} {c : Char} (h : c ∈ stripZeros s) : c ∈ s := by
  obtain ⟨z, hz⟩ := stripZeros_spec s
  rw [hz]
  exact List.mem_append_left _ h

/-- The text of an exponent. -/
def exText (ex : Option Int) : Str :=
  match ex with
  | none => []
  | some e => 'e' :: (if e < 0 then '-' else '+') ::
      (if e.natAbs < 10 then '0' :: printNat e.natAbs else printNat e.natAbs)

theorem readExp_exText (ex : Option Int) : readExp (exText ex) = ex.getD 0 := by
  cases ex with
  | none => simp [exText, readExp]
  | some e =>
    have hd : ∀ n : Nat, digitsVal ((if n < 10 then '0' :: printNat n else printNat n).takeWhile
        isDigit) = n := by
      intro n
      have hall : ∀ c ∈ (if n < 10 then '0' :: printNat n else printNat n), isDigit c = true := by
        intro c hc
        split_ifs at hc
        · rcases List.mem_cons.1 hc with rfl | hc
          · decide
          · exact printNat_digits n c hc
        · exact printNat_digits n c hc
      rw [List.takeWhile_eq_self_iff.2 hall]
      split_ifs
      · have := digitsVal_append_list ['0'] (printNat n)
        rw [List.singleton_append] at this
        rw [this, digitsVal_printNat]
        simp [digitsVal]
      · exact digitsVal_printNat n
    have key : ∀ sg : Char, (sg = '-' ∨ sg = '+') → ∀ t : Str,
        dropSign (sg :: t) = t := by
      intro sg hsg t
      unfold dropSign
      rw [if_pos (by simpa using hsg)]
      rfl
    unfold readExp exText
    by_cases he : e < 0
    · simp only [if_pos he, List.head?_cons, true_or, if_true, List.tail_cons,
        key '-' (Or.inl rfl), hd, Option.getD_some]
      omega
    · have hne : ¬ (some '+' = some '-') := by decide
      simp only [if_neg he, List.head?_cons, true_or, if_true, List.tail_cons, if_neg hne,
        key '+' (Or.inr rfl), hd, Option.getD_some]
      omega

theorem readFrac_text {fp : Str} (hf : ∀ c ∈ fp, isDigit c = true) (ex : Option Int) :
    readFrac ((if fp = [] then [] else '.' :: fp) ++ exText ex) = (fp, exText ex) := by
  have hstop : ∀ c, (exText ex).head? = some c → isDigit c = false := by
    intro c hc
    cases ex with
    | none => simp [exText] at hc
    | some e =>
      simp only [exText, List.head?_cons, Option.some.injEq] at hc
      subst hc; decide
  unfold readFrac
  by_cases h : fp = []
  · rw [if_pos h, List.nil_append, h, if_neg]
    cases ex with
    | none => simp [exText]
    | some e => simp [exText]
  · rw [if_neg h, List.cons_append, if_pos (by simp), List.tail_cons,
      takeWhile_append_stop isDigit fp _ hf hstop]
    congr 1
    rw [List.dropWhile_append_of_pos hf]
    cases ex with
    | none => rfl
    | some e =>
      have : isDigit 'e' = false := by decide
      simp only [exText, List.dropWhile_cons, this]
      rfl

theorem readDec_text (neg : Bool) {ip fp : Str} (hi : ∀ c ∈ ip, isDigit c = true)
    (hf : ∀ c ∈ fp, isDigit c = true) (hne : ip ≠ []) (ex : Option Int) :
    readDec ((if neg then ['-'] else []) ++ numText ip fp ex) =
      some ((if neg then -1 else 1) * (digitsVal (ip ++ fp) : K) *
        (10 : K) ^ (ex.getD 0 - fp.length)) := by
  have hnum : numText ip fp ex = ip ++ ((if fp = [] then [] else '.' :: fp) ++ exText ex) := by
    unfold numText exText
    rw [List.append_assoc]
  have hstop : ∀ c, ((if fp = [] then [] else '.' :: fp) ++ exText ex).head? = some c →
      isDigit c = false := by
    intro c hc
    by_cases h : fp = []
    · rw [if_pos h, List.nil_append] at hc
      cases ex with
      | none => simp [exText] at hc
      | some e =>
        simp only [exText, List.head?_cons, Option.some.injEq] at hc
        subst hc; decide
    · rw [if_neg h] at hc
      simp only [List.cons_append, List.head?_cons, Option.some.injEq] at hc
      subst hc; decide
  have hdrop : ∀ t : Str, (∀ c, t.head? = some c → isSpace c = false) → t.dropWhile isSpace = t := by
    intro t ht
    cases t with
    | nil => rfl
    | cons a t => rw [List.dropWhile_cons, ht a rfl]; rfl
  obtain ⟨a, ip', rfl⟩ : ∃ a ip', ip = a :: ip' := by
    cases ip with
    | nil => exact absurd rfl hne
    | cons a l => exact ⟨a, l, rfl⟩
  have ha : isDigit a = true := hi a (by simp)
  have ha1 : a ≠ '-' := digit_ne ha (by decide)
  have ha2 : a ≠ '+' := digit_ne ha (by decide)
  have hcore : ∀ t : Str, t = (a :: ip') ++ ((if fp = [] then [] else '.' :: fp) ++ exText ex) →
      t.takeWhile isDigit = a :: ip' ∧
      t.dropWhile isDigit = (if fp = [] then [] else '.' :: fp) ++ exText ex := by
    rintro t rfl
    refine ⟨takeWhile_append_stop isDigit _ _ hi hstop, ?_⟩
    rw [List.dropWhile_append_of_pos hi]
    generalize (if fp = [] then [] else '.' :: fp) ++ exText ex = q at hstop
    cases q with
    | nil => rfl
    | cons b q => rw [List.dropWhile_cons, hstop b rfl]; rfl
  obtain ⟨c1, c2⟩ := hcore _ rfl
  have hds : dropSign ((a :: ip') ++ ((if fp = [] then [] else '.' :: fp) ++ exText ex)) =
      (a :: ip') ++ ((if fp = [] then [] else '.' :: fp) ++ exText ex) := by
    unfold dropSign
    rw [if_neg]
    simp [ha1, ha2]
  rw [hnum]
  cases neg with
  | false =>
    simp only [Bool.false_eq_true, if_false, List.nil_append]
    unfold readDec
    dsimp only
    rw [hdrop _ (by
      intro c hc
      simp only [List.cons_append, List.head?_cons, Option.some.injEq] at hc
      subst hc; exact isSpace_not_digit ha), hds, c1, c2, readFrac_text hf]
    simp only
    rw [if_neg (by simp), readExp_exText, if_neg]
    simp [ha1]
  | true =>
    simp only [if_true]
    unfold readDec
    dsimp only
    rw [hdrop _ (by
      intro c hc
      simp only [List.cons_append, List.nil_append, List.head?_cons, Option.some.injEq] at hc
      subst hc; decide)]
    have hds' : dropSign (['-'] ++ ((a :: ip') ++ ((if fp = [] then [] else '.' :: fp) ++ exText ex))) =
        (a :: ip') ++ ((if fp = [] then [] else '.' :: fp) ++ exText ex) := by
      unfold dropSign
      rw [if_pos (by simp)]
      rfl
    rw [hds', c1, c2, readFrac_text hf]
    simp only
    rw [if_neg (by simp), readExp_exText, if_pos (by simp)]

end
end Stag
