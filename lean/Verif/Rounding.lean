import Verif.Cluster
import Mathlib.Tactic.Linarith
import Mathlib.Tactic.Ring
import Mathlib.Tactic.FieldSimp
import Mathlib.Tactic.Positivity
import Mathlib.Algebra.Order.Field.Basic
import Mathlib.Data.Int.Log
import Mathlib.Algebra.Order.Field.Power
import Mathlib.Algebra.Order.Round

/-!
# Rounded arithmetic

The other modules compute with exact real numbers.  Here every arithmetic operation on `double`s is
followed by a rounding `fl`.  A `Rounding` is monotone, leaves the numbers it produces alone, and has
the relative error `u` (round to nearest: `u = 2^-53`).  There is no overflow and no underflow.  The
constants `1` and `2` need no rounding, and comparisons are exact.
-/

set_option linter.unusedSectionVars false

namespace Stag

section
variable {K : Type} [Field K] [LinearOrder K] [IsStrictOrderedRing K]

/-- The standard model of floating point arithmetic. -/
structure Rounding (K : Type) [Field K] [LinearOrder K] [IsStrictOrderedRing K] where
  fl : K → K
  u : K
  u0 : 0 ≤ u
  u1 : u < 1
  err : ∀ x, |fl x - x| ≤ u * |x|
  mono : ∀ x y, x ≤ y → fl x ≤ fl y
  idem : ∀ x, fl (fl x) = fl x

/-- Exact arithmetic. -/
def Rounding.exact (K : Type) [Field K] [LinearOrder K] [IsStrictOrderedRing K] : Rounding K where
  fl := fun x => x
  u := 0
  u0 := le_refl _
  u1 := one_pos
  err := by intro x; simp
  mono := fun _ _ h => h
  idem := fun _ => rfl

/-! ## `approximate_pagerank` with rounding -/

/-- The loop over the neighbours in `push` (`stag_lib/cluster.cpp:183-194`), every operation
rounded; C++ evaluates `r + (((1 - alpha) * w) * r(u)) / (deg * 2)` in this order. -/
def pushNbrsFl (fl : K → K) (α deg : K) (u : Nat) : List (Edge K) → SVec K → Outcome (SVec K)
  | [], r => .ok r
  | e :: es, r => do
    let r := r.grow e.v2
    let r ← r.set e.v2 (fl (r.get e.v2 +
      fl (fl (fl (fl (1 - α) * e.w) * r.get u) / fl (deg * 2))))
    pushNbrsFl fl α deg u es r

/-- `push` (`stag_lib/cluster.cpp:171-199`), every operation rounded. -/
def pushFl (fl : K → K) (lg : LGraph K) (α : K) (p r : SVec K) (u : Nat) :
    Outcome (SVec K × SVec K) := do
  let p := p.grow u
  let p ← p.set u (fl (p.get u + fl (α * r.get u)))
  let deg ← lg.degree (u : Int)
  let es ← lg.neighbors (u : Int)
  let r ← pushNbrsFl fl α deg u es r
  let r ← r.set u (fl (fl (fl (1 - α) * r.get u) / 2))
  .ok (p, r)

/-- The queue at the start (`stag_lib/cluster.cpp:237-246`), with a rounded product. -/
def aprInitQueueFl (fl : K → K) (ε : K) (r : SVec K) : List Nat → List K → Outcome (List Nat)
  | [], _ => .ok []
  | _ :: _, [] => .throw .outOfRange
  | u :: us, d :: ds => do
    let rest ← aprInitQueueFl fl ε r us ds
    .ok (if fl (ε * d) ≤ r.get u ∧ d ≠ 0 then u :: rest else rest)

/-- The loop which queues the neighbours (`stag_lib/cluster.cpp:277-285`), with a rounded product. -/
def aprQueueNbrsFl (fl : K → K) (ε : K) (r : SVec K) : List (Edge K) → List K →
    List Nat × List Nat → Outcome (List Nat × List Nat)
  | [], _, s => .ok s
  | _ :: _, [], _ => .throw .outOfRange
  | e :: es, d :: ds, (q, m) =>
    if fl (ε * d) ≤ r.get e.v2 ∧ e.v2 ∉ m then
      aprQueueNbrsFl fl ε r es ds (q ++ [e.v2], e.v2 :: m)
    else aprQueueNbrsFl fl ε r es ds (q, m)

/-- One round of the `while` loop (`stag_lib/cluster.cpp:250-286`), every operation rounded. -/
def aprStepFl (fl : K → K) (lg : LGraph K) (α ε : K) (s : AprState K) (u : Nat) (rest : List Nat) :
    Outcome (AprState K) := do
  let m := s.members.filter (fun v => decide (v ≠ u))
  let pr ← pushFl fl lg α s.p s.r u
  let d ← lg.degree (u : Int)
  let qm := if fl (ε * d) ≤ pr.2.get u then (u :: rest, u :: m) else (rest, m)
  let ns ← lg.neighborsUnweighted (u : Int)
  let nd ← lg.degrees ns
  let es ← lg.neighbors (u : Int)
  let qm ← aprQueueNbrsFl fl ε pr.2 es nd qm
  .ok ⟨pr.1, pr.2, qm.1, qm.2⟩

/-- The `while` loop; `none` after more than `fuel` rounds. -/
def aprLoopFl (fl : K → K) (lg : LGraph K) (α ε : K) :
    Nat → AprState K → Option (Outcome (SVec K × SVec K))
  | _, ⟨p, r, [], _⟩ => some (.ok (p, r))
  | 0, ⟨_, _, _ :: _, _⟩ => none
  | fuel + 1, ⟨p, r, u :: rest, m⟩ =>
    match aprStepFl fl lg α ε ⟨p, r, u :: rest, m⟩ u rest with
    | .ok s => aprLoopFl fl lg α ε fuel s
    | .throw e => some (.throw e)
    | .ub => some .ub

/-- The checks and the initial state (`stag_lib/cluster.cpp:205-246`), with rounding. -/
def aprInitFl (fl : K → K) (lg : LGraph K) (seed : SVec K) (α ε : K) : Outcome (AprState K) :=
  if lg.vertexExists ((seed.rows : Int) - 1) = false then .throw .invalidArgument
  else if α < 0 ∨ 1 < α then .throw .invalidArgument
  else if ε ≤ 0 then .throw .invalidArgument
  else do
    let ds ← lg.degrees seed.indices
    let q ← aprInitQueueFl fl ε seed seed.indices ds
    .ok ⟨⟨seed.rows, []⟩, seed, q, q⟩

/-- `stag::approximate_pagerank` (`stag_lib/cluster.cpp:201-291`) in rounded arithmetic. -/
def approximatePagerankFl (fl : K → K) (lg : LGraph K) (fuel : Nat) (seed : SVec K) (α ε : K) :
    Option (Outcome (SVec K × SVec K)) :=
  match aprInitFl fl lg seed α ε with
  | .ok s => aprLoopFl fl lg α ε fuel s
  | .throw e => some (.throw e)
  | .ub => some .ub

/-! ## Sums -/

/-- A sum of `double`s, from left to right, starting from `acc`. -/
def sumFl (fl : K → K) : List K → K → K
  | [], acc => acc
  | x :: xs, acc => sumFl fl xs (fl (acc + x))

end

/-! ## Binary floating point -/

section
variable {K : Type} [Field K] [LinearOrder K] [IsStrictOrderedRing K] [FloorRing K]

/-- Distance of neighbouring numbers with a `p`-bit significand around `x`. -/
def ulp (p : Nat) (x : K) : K := (2 : K) ^ (Int.log 2 |x| - (p - 1 : Int))

/-- The nearest integer; of two equally near ones the even one. -/
def roundEven (x : K) : Int :=
  if x - ⌊x⌋ < 1 / 2 then ⌊x⌋ else if 1 / 2 < x - ⌊x⌋ then ⌊x⌋ + 1
  else if ⌊x⌋ % 2 = 0 then ⌊x⌋ else ⌊x⌋ + 1

/-- Rounding to the nearest number with a significand of `p` bits (binary64: `p = 53`), ties to
even, with an unbounded exponent. -/
def flBin (p : Nat) (x : K) : K := (roundEven (x / ulp p x) : K) * ulp p x

/-! ### Properties -/

theorem roundEven_err (x : K) : |(roundEven x : K) - x| ≤ 1 / 2 := by
  have h1 := Int.floor_le x
  have h2 := Int.lt_floor_add_one x
  unfold roundEven
  rw [abs_le]
  split_ifs <;> push_cast <;> constructor <;> linarith

theorem roundEven_int (m : Int) : roundEven (m : K) = m := by
  unfold roundEven
  simp

theorem roundEven_mono {x y : K} (h : x ≤ y) : roundEven x ≤ roundEven y := by
  have hf := Int.floor_le_floor h
  have e1 : roundEven x ≤ ⌊x⌋ + 1 := by unfold roundEven; split_ifs <;> omega
  have e2 : ⌊y⌋ ≤ roundEven y := by unfold roundEven; split_ifs <;> omega
  rcases lt_or_eq_of_le hf with hlt | heq
  · omega
  · unfold roundEven
    rw [heq]
    split_ifs <;> first | omega | (exfalso; linarith)

theorem roundEven_neg (x : K) : roundEven (-x) = - roundEven x := by
  have h1 := Int.floor_le x
  have h2 := Int.lt_floor_add_one x
  by_cases hx : x = ⌊x⌋
  · rw [hx, roundEven_int]
    have : -((⌊x⌋ : Int) : K) = ((-⌊x⌋ : Int) : K) := by push_cast; ring
    rw [this, roundEven_int]
  · have hlt : (⌊x⌋ : K) < x := lt_of_le_of_ne h1 (Ne.symm hx)
    have e : ⌊-x⌋ = -⌊x⌋ - 1 := by
      rw [Int.floor_eq_iff]
      push_cast
      constructor <;> linarith
    unfold roundEven
    rw [e]
    push_cast
    split_ifs <;> first | omega | (exfalso; linarith)

theorem ulp_pos (p : Nat) (x : K) : 0 < ulp p x := by unfold ulp; positivity

theorem ulp_neg (p : Nat) (x : K) : ulp p (-x) = ulp p x := by unfold ulp; rw [abs_neg]

theorem flBin_neg (p : Nat) (x : K) : flBin p (-x) = - flBin p x := by
  unfold flBin
  rw [ulp_neg, neg_div, roundEven_neg]
  push_cast; ring

theorem flBin_zero (p : Nat) : flBin p (0 : K) = 0 := by
  unfold flBin
  rw [zero_div]
  have := roundEven_int (K := K) 0
  rw [Int.cast_zero] at this
  rw [this]; simp

theorem ulp_le {p : Nat} {x : K} (hx : 0 < x) : (2 : K) ^ ((p : Int) - 1) * ulp p x ≤ x ∧
    x < (2 : K) ^ (p : Int) * ulp p x := by
  have h1 := Int.zpow_log_le_self (b := 2) one_lt_two hx
  have h2 := Int.lt_zpow_succ_log_self (b := 2) one_lt_two x
  have h0 : (2 : K) ≠ 0 := two_ne_zero
  unfold ulp
  rw [← zpow_add₀ h0, ← zpow_add₀ h0, abs_of_pos hx]
  push_cast at h1 h2
  constructor
  · convert h1 using 2; ring
  · convert h2 using 2; ring

theorem flBin_err {p : Nat} (x : K) : |flBin p x - x| ≤ (2 : K) ^ (-(p : Int)) * |x| := by
  have key : ∀ y : K, 0 < y → |flBin p y - y| ≤ (2 : K) ^ (-(p : Int)) * |y| := by
    intro y hy
    have hu := ulp_pos p y
    have h1 := roundEven_err (y / ulp p y)
    have h2 := (ulp_le (p := p) hy).1
    have e : flBin p y - y = ((roundEven (y / ulp p y) : K) - y / ulp p y) * ulp p y := by
      unfold flBin; field_simp
    rw [e, abs_mul, abs_of_pos hu, abs_of_pos hy]
    have h3 : |(roundEven (y / ulp p y) : K) - y / ulp p y| * ulp p y ≤ 1 / 2 * ulp p y :=
      mul_le_mul_of_nonneg_right h1 hu.le
    have h4 : (2 : K) ^ (-(p : Int)) * ((2 : K) ^ ((p : Int) - 1) * ulp p y) ≤ (2 : K) ^ (-(p : Int)) * y :=
      mul_le_mul_of_nonneg_left h2 (by positivity)
    have h5 : (2 : K) ^ (-(p : Int)) * ((2 : K) ^ ((p : Int) - 1) * ulp p y) = 1 / 2 * ulp p y := by
      rw [← mul_assoc, ← zpow_add₀ two_ne_zero]
      have : -(p : Int) + ((p : Int) - 1) = -1 := by ring
      rw [this]
      simp
    linarith
  rcases lt_trichotomy x 0 with h | h | h
  · have := key (-x) (by linarith)
    rw [flBin_neg, abs_neg] at this
    have e : -flBin p x - -x = -(flBin p x - x) := by ring
    rwa [e, abs_neg] at this
  · rw [h, flBin_zero]; simp
  · exact key x h

theorem flBin_bounds {p : Nat} (hp : 0 < p) {x : K} (hx : 0 < x) :
    (2 : K) ^ (Int.log 2 x) ≤ flBin p x ∧ flBin p x ≤ (2 : K) ^ (Int.log 2 x + 1) := by
  have hu := ulp_pos p x
  obtain ⟨h1, h2⟩ := ulp_le (p := p) hx
  have e1 : (2 : K) ^ ((p : Int) - 1) = (((2 : Int) ^ (p - 1) : Int) : K) := by
    push_cast
    rw [← zpow_natCast]
    congr 1
    omega
  have e2 : (2 : K) ^ (p : Int) = (((2 : Int) ^ p : Int) : K) := by
    push_cast
    rw [← zpow_natCast]
  have m1 : ((2 : Int) ^ (p - 1)) ≤ roundEven (x / ulp p x) := by
    have := roundEven_mono (x := (((2 : Int) ^ (p - 1) : Int) : K)) (y := x / ulp p x)
      (by rw [← e1, le_div_iff₀ hu]; exact h1)
    rwa [roundEven_int] at this
  have m2 : roundEven (x / ulp p x) ≤ (2 : Int) ^ p := by
    have := roundEven_mono (x := x / ulp p x) (y := (((2 : Int) ^ p : Int) : K))
      (by rw [← e2, div_le_iff₀ hu]; exact h2.le)
    rwa [roundEven_int] at this
  have f1 : (2 : K) ^ (Int.log 2 x) = (2 : K) ^ ((p : Int) - 1) * ulp p x := by
    unfold ulp
    rw [← zpow_add₀ two_ne_zero, abs_of_pos hx]
    congr 1; ring
  have f2 : (2 : K) ^ (Int.log 2 x + 1) = (2 : K) ^ (p : Int) * ulp p x := by
    unfold ulp
    rw [← zpow_add₀ two_ne_zero, abs_of_pos hx]
    congr 1; ring
  rw [f1, f2, e1, e2]
  unfold flBin
  exact ⟨mul_le_mul_of_nonneg_right (by exact_mod_cast m1) hu.le,
    mul_le_mul_of_nonneg_right (by exact_mod_cast m2) hu.le⟩

theorem flBin_mono {p : Nat} (hp : 0 < p) {x y : K} (h : x ≤ y) : flBin p x ≤ flBin p y := by
  have pos : ∀ z : K, 0 < z → 0 < flBin p z := fun z hz =>
    lt_of_lt_of_le (by positivity) (flBin_bounds hp hz).1
  have key : ∀ a b : K, 0 < a → a ≤ b → flBin p a ≤ flBin p b := by
    intro a b ha hab
    have hb := lt_of_lt_of_le ha hab
    rcases lt_or_eq_of_le (Int.log_mono_right (b := 2) ha hab) with hl | hl
    · refine le_trans (flBin_bounds hp ha).2 (le_trans ?_ (flBin_bounds hp hb).1)
      exact zpow_le_zpow_right₀ one_le_two (by omega)
    · have e : ulp p a = ulp p b := by unfold ulp; rw [abs_of_pos ha, abs_of_pos hb, hl]
      unfold flBin
      rw [e]
      have hu := ulp_pos p b
      apply mul_le_mul_of_nonneg_right _ hu.le
      exact_mod_cast roundEven_mono (div_le_div_of_nonneg_right hab hu.le)
  rcases lt_trichotomy x 0 with hx | hx | hx
  · rcases lt_trichotomy y 0 with hy | hy | hy
    · have := key (-y) (-x) (by linarith) (by linarith)
      rw [flBin_neg, flBin_neg] at this
      linarith
    · rw [hy, flBin_zero]
      have := pos (-x) (by linarith)
      rw [flBin_neg] at this
      linarith
    · have h1 := pos (-x) (by linarith)
      rw [flBin_neg] at h1
      have := pos y hy
      linarith
  · rcases lt_or_eq_of_le (hx ▸ h) with hy | hy
    · rw [hx, flBin_zero]; exact (pos y hy).le
    · rw [hx, ← hy]
  · exact key x y hx h

/-- Numbers with a `p`-bit significand are not changed. -/
theorem flBin_fix {p : Nat} {x : K} (m : Int) (h : x = m * ulp p x) : flBin p x = x := by
  have hu := ulp_pos p x
  have : x / ulp p x = m := by rw [div_eq_iff hu.ne']; exact h
  unfold flBin
  rw [this, roundEven_int]
  exact h.symm

theorem flBin_zpow {p : Nat} (hp : 0 < p) (z : Int) : flBin p ((2 : K) ^ z) = (2 : K) ^ z := by
  apply flBin_fix ((2 : Int) ^ (p - 1))
  unfold ulp
  have h1 : Int.log 2 ((2 : K) ^ z) = z := by
    have := Int.log_zpow (R := K) (b := 2) one_lt_two z
    exact_mod_cast this
  rw [abs_of_pos (by positivity), h1]
  push_cast
  rw [← zpow_natCast, ← zpow_add₀ two_ne_zero]
  congr 1
  omega

theorem flBin_idem {p : Nat} (hp : 0 < p) (x : K) : flBin p (flBin p x) = flBin p x := by
  have key : ∀ y : K, 0 < y → flBin p (flBin p y) = flBin p y := by
    intro y hy
    obtain ⟨h1, h2⟩ := flBin_bounds hp hy
    have hpos : 0 < flBin p y := lt_of_lt_of_le (by positivity) h1
    rcases lt_or_eq_of_le h2 with hlt | heq
    · have hl : Int.log 2 (flBin p y) = Int.log 2 y := by
        have a1 : Int.log 2 y ≤ Int.log 2 (flBin p y) := by
          rw [← Int.zpow_le_iff_le_log one_lt_two hpos]; exact_mod_cast h1
        have a2 : Int.log 2 (flBin p y) < Int.log 2 y + 1 := by
          rw [← Int.lt_zpow_iff_log_lt one_lt_two hpos]; exact_mod_cast hlt
        omega
      apply flBin_fix (roundEven (y / ulp p y))
      have : ulp p (flBin p y) = ulp p y := by
        unfold ulp
        rw [abs_of_pos hpos, abs_of_pos hy, hl]
      rw [this]
      rfl
    · rw [heq, flBin_zpow hp]
  rcases lt_trichotomy x 0 with hx | hx | hx
  · have := key (-x) (by linarith)
    rw [flBin_neg, flBin_neg] at this
    exact neg_injective this
  · rw [hx, flBin_zero, flBin_zero]
  · exact key x hx

/-- Rounding to `p` bits as a `Rounding`. -/
def Rounding.binary (K : Type) [Field K] [LinearOrder K] [IsStrictOrderedRing K] [FloorRing K]
    (p : Nat) (hp : 0 < p) : Rounding K where
  fl := flBin p
  u := (2 : K) ^ (-(p : Int))
  u0 := by positivity
  u1 := by
    rw [zpow_neg]
    apply inv_lt_one_of_one_lt₀
    exact one_lt_zpow₀ one_lt_two (by exact_mod_cast hp)
  err := flBin_err
  mono := fun _ _ h => flBin_mono hp h
  idem := flBin_idem hp

/-- `1 - α` is rounded to `1` for a tiny `α`. -/
theorem flBin_one_sub {p : Nat} (hp : 0 < p) {α : K} (h0 : 0 ≤ α)
    (h1 : α ≤ (2 : K) ^ (-(p : Int) - 1)) : flBin p (1 - α) = 1 := by
  rcases lt_or_eq_of_le h0 with h0 | h0
  · have hq : (2 : K) ^ (-(p : Int) - 1) ≤ 1 / 4 := by
      have : (2 : K) ^ (-(p : Int) - 1) ≤ (2 : K) ^ (-2 : Int) :=
        zpow_le_zpow_right₀ one_le_two (by omega)
      refine le_trans this ?_
      norm_num [zpow_neg]
    have hx : 0 < 1 - α := by linarith
    have hl : Int.log 2 (1 - α) = -1 := by
      have a1 : -1 ≤ Int.log 2 (1 - α) := by
        rw [← Int.zpow_le_iff_le_log one_lt_two hx]
        norm_num
        linarith
      have a2 : Int.log 2 (1 - α) < 0 := by
        rw [← Int.lt_zpow_iff_log_lt one_lt_two hx]
        norm_num
        exact h0
      omega
    have hu : ulp p (1 - α) = (2 : K) ^ (-(p : Int)) := by
      unfold ulp
      rw [abs_of_pos hx, hl]
      congr 1; ring
    have hP : (2 : K) ^ (p : Int) * (2 : K) ^ (-(p : Int)) = 1 := by
      rw [← zpow_add₀ two_ne_zero]; simp
    have hdiv : (1 - α) / ulp p (1 - α) = (2 : K) ^ (p : Int) - α * (2 : K) ^ (p : Int) := by
      rw [hu, zpow_neg, div_inv_eq_mul]; ring
    have hsm : α * (2 : K) ^ (p : Int) ≤ 1 / 2 := by
      have := mul_le_mul_of_nonneg_right h1 (show (0 : K) ≤ (2 : K) ^ (p : Int) by positivity)
      rw [← zpow_add₀ two_ne_zero] at this
      have e : -(p : Int) - 1 + p = -1 := by ring
      rw [e] at this
      norm_num at this
      simpa using this
    have hsp : 0 < α * (2 : K) ^ (p : Int) := by positivity
    have hfl : ⌊(1 - α) / ulp p (1 - α)⌋ = 2 ^ p - 1 := by
      rw [Int.floor_eq_iff, hdiv]
      push_cast
      rw [zpow_natCast] at hsm hsp ⊢
      constructor <;> linarith
    have hodd : ((2 : Int) ^ p - 1) % 2 ≠ 0 := by
      obtain ⟨k, rfl⟩ : ∃ k, p = k + 1 := ⟨p - 1, by omega⟩
      rw [pow_succ]
      omega
    have hr : roundEven ((1 - α) / ulp p (1 - α)) = 2 ^ p := by
      unfold roundEven
      rw [hfl, if_neg, if_neg hodd]
      · simp
      · rw [hdiv]
        push_cast
        rw [zpow_natCast] at hsm hsp ⊢
        linarith
    unfold flBin
    rw [hr, hu]
    push_cast
    rw [← zpow_natCast]
    exact hP
  · rw [← h0, sub_zero]
    have := flBin_zpow (K := K) hp 0
    simpa using this

/-! ### The numbers with a `p`-bit significand -/

/-- The numbers with a `p`-bit significand: `m 2^e` with `|m| < 2^p`. -/
def IsFloat (p : Nat) (x : K) : Prop := ∃ m e : Int, |m| < 2 ^ p ∧ x = m * (2 : K) ^ e

theorem IsFloat.neg {p : Nat} {x : K} (h : IsFloat p x) : IsFloat p (-x) := by
  obtain ⟨m, e, h1, h2⟩ := h
  exact ⟨-m, e, by rwa [abs_neg], by rw [h2]; push_cast; ring⟩

theorem flBin_isFloat {p : Nat} (hp : 0 < p) (x : K) : IsFloat p (flBin p x) := by
  have key : ∀ y : K, 0 < y → IsFloat p (flBin p y) := by
    intro y hy
    obtain ⟨h1, h2⟩ := flBin_bounds hp hy
    have hpos : 0 < flBin p y := lt_of_lt_of_le (by positivity) h1
    have hu := ulp_pos p y
    rcases lt_or_eq_of_le h2 with hlt | heq
    · refine ⟨roundEven (y / ulp p y), Int.log 2 |y| - (p - 1 : Int), ?_, rfl⟩
      have hm0 : 0 < roundEven (y / ulp p y) := by
        by_contra hc
        have : (roundEven (y / ulp p y) : K) ≤ 0 := by exact_mod_cast not_lt.1 hc
        have := mul_nonpos_of_nonpos_of_nonneg this hu.le
        unfold flBin at hpos
        linarith
      rw [abs_of_pos hm0]
      have f2 : (2 : K) ^ (Int.log 2 y + 1) = (2 : K) ^ (p : Int) * ulp p y := by
        unfold ulp
        rw [← zpow_add₀ two_ne_zero, abs_of_pos hy]
        congr 1; ring
      rw [f2] at hlt
      unfold flBin at hlt
      have := lt_of_mul_lt_mul_right hlt hu.le
      rw [zpow_natCast] at this
      exact_mod_cast this
    · refine ⟨1, Int.log 2 y + 1, ?_, by rw [heq]; simp⟩
      rw [abs_one]
      exact one_lt_pow₀ one_lt_two (by omega)
  rcases lt_trichotomy x 0 with h | h | h
  · have := (key (-x) (by linarith)).neg
    rwa [flBin_neg, neg_neg] at this
  · rw [h, flBin_zero]
    exact ⟨0, 0, by simp, by simp⟩
  · exact key x h

/-- No integer is nearer. -/
theorem roundEven_nearest (x : K) (m : Int) : |(roundEven x : K) - x| ≤ |(m : K) - x| := by
  by_cases hm : m = roundEven x
  · rw [hm]
  · have h1 := roundEven_err x
    have h2 : (1 : K) ≤ |(m : K) - roundEven x| := by
      have : 1 ≤ |m - roundEven x| := Int.one_le_abs (sub_ne_zero.2 hm)
      exact_mod_cast this
    have h3 := abs_sub_le (m : K) x (roundEven x)
    rw [abs_sub_comm x] at h3
    linarith

/-- No number with a `p`-bit significand is nearer. -/
theorem flBin_nearest {p : Nat} (hp : 0 < p) (x : K) {y : K} (hy : IsFloat p y) :
    |flBin p x - x| ≤ |y - x| := by
  have key : ∀ x : K, 0 < x → ∀ y : K, IsFloat p y → |flBin p x - x| ≤ |y - x| := by
    intro x hx y hy
    have hu := ulp_pos p x
    have mult : ∀ m : Int, |flBin p x - x| ≤ |m * ulp p x - x| := by
      intro m
      have h1 := roundEven_nearest (x / ulp p x) m
      have e1 : flBin p x - x = ((roundEven (x / ulp p x) : K) - x / ulp p x) * ulp p x := by
        unfold flBin; field_simp
      have e2 : m * ulp p x - x = ((m : K) - x / ulp p x) * ulp p x := by field_simp
      rw [e1, e2, abs_mul, abs_mul]
      exact mul_le_mul_of_nonneg_right h1 (abs_nonneg _)
    have f1 : (2 : K) ^ (Int.log 2 x) = (((2 : Int) ^ (p - 1) : Int) : K) * ulp p x := by
      unfold ulp
      rw [abs_of_pos hx]
      push_cast
      rw [← zpow_natCast, ← zpow_add₀ two_ne_zero]
      congr 1
      omega
    have hlog : (2 : K) ^ (Int.log 2 x) ≤ x := by
      have := Int.zpow_log_le_self (b := 2) one_lt_two hx
      exact_mod_cast this
    rcases lt_or_ge y ((2 : K) ^ (Int.log 2 x)) with hlt | hge
    · refine le_trans (mult ((2 : Int) ^ (p - 1))) ?_
      rw [← f1, abs_sub_comm, abs_of_nonneg (by linarith), abs_sub_comm, abs_of_nonneg (by linarith)]
      linarith
    · obtain ⟨m, e, h1, h2⟩ := hy
      have hlt : Int.log 2 x < (p : Int) + e := by
        rw [← zpow_lt_zpow_iff_right₀ (one_lt_two (α := K))]
        refine lt_of_le_of_lt hge ?_
        rw [h2, zpow_add₀ two_ne_zero]
        apply mul_lt_mul_of_pos_right _ (by positivity)
        rw [zpow_natCast]
        have := lt_of_le_of_lt (le_abs_self m) h1
        exact_mod_cast this
      obtain ⟨d, hd⟩ : ∃ d : Nat, e = (Int.log 2 x - (p - 1 : Int)) + d :=
        ⟨(e - (Int.log 2 x - (p - 1 : Int))).toNat, by omega⟩
      have e3 : y = ((m * 2 ^ d : Int) : K) * ulp p x := by
        rw [h2, hd]
        unfold ulp
        rw [abs_of_pos hx, zpow_add₀ two_ne_zero]
        push_cast
        rw [zpow_natCast]
        ring
      rw [e3]
      exact mult _
  rcases lt_trichotomy x 0 with h | h | h
  · have := key (-x) (by linarith) (-y) hy.neg
    rw [flBin_neg] at this
    have e1 : -flBin p x - -x = -(flBin p x - x) := by ring
    have e2 : -y - -x = -(y - x) := by ring
    rwa [e1, e2, abs_neg, abs_neg] at this
  · rw [h, flBin_zero]; simp
  · exact key x h y hy

end
end Stag
