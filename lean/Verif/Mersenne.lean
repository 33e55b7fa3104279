import Verif.Base
import Mathlib.Algebra.Order.Field.Basic

/-!
# Model of `stag_lib/KMeansRex/mersenneTwister2002.h`

The generator behind the k-means initialisation.  `unsigned long` has at least 32 bits; every value
below fits 64 bits and every stored word is masked to 32 bits, so natural numbers are exact.  The state
is the array `mt` (a function on indices below 624) and the index `mti`.  Simplification:
`my_init_genrand` has always been called (`RunKMeans` does it first), so the branch that seeds with
5489 is left out.
-/

namespace Stag
namespace MT

/-- The statics `mt`, `mti` (`mersenneTwister2002.h:56-57`). -/
structure State where
  mt : Nat → Nat
  mti : Nat

/-- `mt[i] = x`. -/
def set (mt : Nat → Nat) (i x : Nat) : Nat → Nat := fun j => if j = i then x else mt j

/-- The first `m` iterations of the loop of `my_init_genrand` (`mersenneTwister2002.h:63-72`). -/
def initLoop (s m : Nat) : Nat → Nat :=
  (List.range m).foldl (fun mt k =>
    set mt (k + 1) ((1812433253 * (mt k ^^^ (mt k >>> 30)) + (k + 1)) &&& 0xffffffff))
    (set (fun _ => 0) 0 s)

/-- `my_init_genrand` (`mersenneTwister2002.h:60-73`), `N_N = 624`; the `int` seed becomes an
`unsigned long` and is masked to 32 bits. -/
def init (seed : Int) : State := ⟨initLoop (seed % 4294967296).toNat 623, 624⟩

/-- `mt[kk+M_M] ^ (y >> 1) ^ mag01[y & 1]`, `y = (a & UPPER_MASK) | (b & LOWER_MASK)`
(`mersenneTwister2002.h:165-166`, `169-170`, `172-173`). -/
def twist (a b c : Nat) : Nat :=
  let y := (a &&& 0x80000000) ||| (b &&& 0x7fffffff)
  c ^^^ (y >>> 1) ^^^ (if y &&& 1 = 0 then 0 else 0x9908b0df)

/-- The first `m` iterations of `for (kk=0;kk<N_N-M_M;kk++)` (`mersenneTwister2002.h:164-167`). -/
def loopA (m : Nat) (mt : Nat → Nat) : Nat → Nat :=
  (List.range m).foldl (fun mt kk => set mt kk (twist (mt kk) (mt (kk + 1)) (mt (kk + 397)))) mt

/-- The first `m` iterations of `for (;kk<N_N-1;kk++)` (`mersenneTwister2002.h:168-171`). -/
def loopB (m : Nat) (mt : Nat → Nat) : Nat → Nat :=
  (List.range m).foldl (fun mt k =>
    set mt (227 + k) (twist (mt (227 + k)) (mt (227 + k + 1)) (mt k))) mt

/-- Generating 624 words at one time (`mersenneTwister2002.h:158-176`). -/
def refill (mt : Nat → Nat) : Nat → Nat :=
  let mt := loopB 396 (loopA 227 mt)
  set mt 623 (twist (mt 623) (mt 0) (mt 396))

/-- The tempering (`mersenneTwister2002.h:180-184`). -/
def temper (y : Nat) : Nat :=
  let y := y ^^^ (y >>> 11)
  let y := y ^^^ ((y <<< 7) &&& 0x9d2c5680)
  let y := y ^^^ ((y <<< 15) &&& 0xefc60000)
  y ^^^ (y >>> 18)

/-- `my_genrand_double` up to the division (`mersenneTwister2002.h:152-185`). -/
def next (s : State) : Nat × State :=
  let s := if 624 ≤ s.mti then ⟨refill s.mt, 0⟩ else s
  (temper (s.mt s.mti), ⟨s.mt, s.mti + 1⟩)

/-- The state after `i` draws. -/
def stateAt (seed : Int) : Nat → State
  | 0 => init seed
  | i + 1 => (next (stateAt seed i)).2

/-- The `i`-th draw, as an integer. -/
def out (seed : Int) (i : Nat) : Nat := (next (stateAt seed i)).1

/-- The `i`-th draw of `my_genrand_double` (`mersenneTwister2002.h:185`).  Simplification: the division
is exact. -/
def draw {K : Type*} [Field K] (seed : Int) (i : Nat) : K := (out seed i : K) / 4294967295

end MT
end Stag
