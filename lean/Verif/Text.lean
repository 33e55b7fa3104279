import Verif.Base

/-!
# Characters, lines and numbers

Files are lists of characters.  `std::stoi` is modelled concretely;
`std::stod` and `operator<<(double)` are parameters (`Fmt`) with the round-trip law
the C++ library gives for exactly printable numbers.
-/

namespace Stag

/-- `std::string`. -/
abbrev Str := List Char

/-- `isspace` in the C locale, used by `strtol`/`strtod`. -/
def isSpace (c : Char) : Bool :=
  decide (c = ' ') || decide (c = '\t') || decide (c = '\n') || decide (c = '\r') ||
  decide (c = '\x0b') || decide (c = '\x0c')

/-- Decimal digits. -/
def isDigit (c : Char) : Bool := decide ('0'.toNat ≤ c.toNat) && decide (c.toNat ≤ '9'.toNat)

/-- Value of a digit string. -/
def digitsVal (s : Str) : Nat := s.foldl (fun a c => 10 * a + (c.toNat - '0'.toNat)) 0

/-- `std::stoi` (called in `stag_lib/graphio.cpp:53,54,65,444,448,473` and
`stag_lib/graph.cpp:675`): skip blanks, optional sign, longest digit prefix, rest ignored;
`invalid_argument` without digits, `out_of_range` outside `int`. -/
def stoi (s : Str) : Outcome Int :=
  let s := s.dropWhile isSpace
  let neg := s.head? = some '-'
  let s := if s.head? = some '-' ∨ s.head? = some '+' then s.tail else s
  let ds := s.takeWhile isDigit
  if ds = [] then .throw .invalidArgument
  else
    let z : Int := if neg then - (digitsVal ds : Int) else (digitsVal ds : Int)
    if z < -(2 ^ 31) ∨ 2 ^ 31 ≤ z then .throw .outOfRange else .ok z

/-- The character of a digit. -/
def digitChar (d : Nat) : Char := Char.ofNat ('0'.toNat + d)

/-- `operator<<(std::ostream&, StagInt)` for a non-negative number: decimal digits. -/
def printNat (n : Nat) : Str :=
  if _h : n < 10 then [digitChar n] else printNat (n / 10) ++ [digitChar (n % 10)]
termination_by n
decreasing_by omega

/-- `operator<<(std::ostream&, StagInt)`. -/
def printInt (z : Int) : Str :=
  if z < 0 then '-' :: printNat z.natAbs else printNat z.natAbs

/-- Number formatting: `std::stod` and `operator<<(std::ostream&, double)`.
`printable x` means that `x` is recovered from its printed form (the stream prints six
significant digits).  The laws are what the C++ library guarantees for such numbers. -/
structure Fmt (K : Type) where
  stod : Str → Outcome K
  print : K → Str
  printable : K → Prop
  print_ne : ∀ x, printable x → print x ≠ []
  print_chars : ∀ x, printable x → ∀ c ∈ print x,
    c ≠ ',' ∧ c ≠ ' ' ∧ c ≠ '\t' ∧ c ≠ '\n' ∧ c ≠ '\r' ∧ c ≠ ':' ∧ c ≠ '#' ∧ c ≠ '/'
  stod_print : ∀ x, printable x → stod (print x) = .ok x
  stod_blank : ∀ s, stod (' ' :: s) = stod s
  stod_empty : stod [] = .throw .invalidArgument

/-- `stag::safeGetline` (`stag_lib/utility.cpp:104-135`): the line, the rest of the stream and
whether `eofbit` was set (only when the end is reached with an empty line). -/
def getline : Str → Str × Str × Bool
  | [] => ([], [], true)
  | c :: s =>
    if c = '\n' then ([], s, false)
    else if c = '\r' then
      match s with
      | [] => ([], [], false)
      | d :: s' => if d = '\n' then ([], s', false) else ([], d :: s', false)
    else
      let r := getline s
      (c :: r.1, r.2.1, false)

/-- Reading consumes something unless the stream is at its end. -/
theorem getline_length (s : Str) (h : s ≠ []) : (getline s).2.1.length < s.length := by
  induction s with
  | nil => exact absurd rfl h
  | cons c s ih =>
    unfold getline
    split
    · simp
    · split
      · cases s with
        | nil => simp
        | cons d s' =>
          simp only
          split
          · simp; omega
          · simp
      · simp only [List.length_cons]
        cases s with
        | nil => simp [getline]
        | cons d s' =>
          have := ih (by simp)
          simp only [List.length_cons] at this ⊢
          omega

/-- The lines seen by `while (stag::safeGetline(is, line))`
(e.g. `stag_lib/graphio.cpp:107`): `eofbit` alone does not end the loop, so the call that
sets it still yields its (empty) line; the next call fails. -/
def fileLines (s : Str) : List Str :=
  if _h : s = [] then [[]]
  else (getline s).1 :: fileLines (getline s).2.1
termination_by s.length
decreasing_by exact getline_length s _h

/-- The test `line[0] != '#' && line[0] != '/' && line.length() > 0`
(e.g. `stag_lib/graphio.cpp:108`). -/
def isContent (line : Str) : Bool :=
  match line with
  | [] => false
  | c :: _ => decide (c ≠ '#') && decide (c ≠ '/')

/-- Repeated `line.find(d)`, `substr`, `erase` (`stag_lib/graphio.cpp:43-59`,
478-485): the pieces before each occurrence of `d`, and what is left after the last one. -/
def splitDelim (d : Char) : Str → List Str × Str
  | [] => ([], [])
  | c :: s =>
    let r := splitDelim d s
    if c = d then ([] :: r.1, r.2)
    else match r.1 with
      | [] => ([], c :: r.2)
      | t :: ts => ((c :: t) :: ts, r.2)

/-- `line << std::endl` for each line. -/
def unlines : List Str → Str
  | [] => []
  | l :: ls => l ++ '\n' :: unlines ls

end Stag
