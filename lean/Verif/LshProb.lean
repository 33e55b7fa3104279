import Mathlib.Analysis.SpecialFunctions.Gaussian.GaussianIntegral
import Mathlib.Analysis.SpecialFunctions.ImproperIntegrals
import Mathlib.MeasureTheory.Integral.IntervalIntegral.FundThmCalculus

/-!
# Model of the collision probabilities of `stag_lib/lsh.cpp`

Real arithmetic instead of floating point.
-/

namespace Stag

open Real

/-- `std::erf` of the C++ library. -/
noncomputable def erf (x : ℝ) : ℝ := 2 / √π * ∫ t in (0 : ℝ)..x, exp (-t ^ 2)

/-- `LSHFunction::collision_probability` (`stag_lib/lsh.cpp:88-103`), with the constants
`TWO_ROOT_TWOPI` and `TWO_ROOT_TWO` of `stag_lib/lsh.cpp:18-19`. -/
noncomputable def lshCollision (c : ℝ) : ℝ :=
  let c := if c < 0 then -c else c
  if c < 1 then 1 - 0.2 * c
  else
    let e := 8 / (c * c);
    -((1 / 5.0132565) * c * exp (-e) * (exp e - 1)) + erf (2.828427124 / c)

/-- `E2LSH::collision_probability(K, L, distance)` (`stag_lib/lsh.cpp:209-213`). -/
noncomputable def e2lshCollision (K L : ℕ) (distance : ℝ) : ℝ :=
  1 - (1 - lshCollision distance ^ (K : ℝ)) ^ (L : ℝ)

end Stag
