import Verif.Kde
import Verif.RoundingLemmas

/-!
# Distances, kernels and kernel density estimates in rounded arithmetic (`stag_lib/kde.cpp`)

The functions of `Verif.Kde` again, with a rounding `fl` after every operation on `double`s.  The
library function `exp` is a parameter of which only the accuracy is known.
-/

namespace Stag

section
variable {K : Type} [Field K] [LinearOrder K]

/-- The loop of `squared_distance` (`stag_lib/kde.cpp:56-59`), every operation rounded. -/
def sqDistLoopFl (fl : K → K) (u v : List K) : Nat → Nat → K → K
  | _, 0, result => result
  | i, n + 1, result =>
    let diff := fl (u.getD i 0 - v.getD i 0)
    sqDistLoopFl fl u v (i + 1) n (fl (result + fl (diff * diff)))

/-- `squared_distance` (`stag_lib/kde.cpp:52-62`), every operation rounded. -/
def squaredDistanceFl (fl : K → K) (u v : List K) : K := sqDistLoopFl fl u v 0 u.length 0

/-- The loop of `squared_distance_at_most` (`stag_lib/kde.cpp:78-82`), every operation rounded. -/
def sqDistAtMostLoopFl (fl : K → K) (u v : List K) (max : K) : Nat → Nat → K → K
  | _, 0, result => result
  | i, n + 1, result =>
    let diff := fl (u.getD i 0 - v.getD i 0)
    let result := fl (result + fl (diff * diff))
    if result > max then -1 else sqDistAtMostLoopFl fl u v max (i + 1) n result

/-- `squared_distance_at_most` (`stag_lib/kde.cpp:72-84`), every operation rounded. -/
def squaredDistanceAtMostFl (fl : K → K) (u v : List K) (max : K) : K :=
  sqDistAtMostLoopFl fl u v max 0 u.length 0

end

/-- What is known of the library function `exp` on arguments that are not positive: a relative error
`η`, and an absolute error `τ` (where the result underflows); it is never negative or above 1, and
exact at 0. -/
structure LibExp where
  ex : ℝ → ℝ
  η : ℝ
  τ : ℝ
  η0 : 0 ≤ η
  τ0 : 0 ≤ τ
  err : ∀ x ≤ 0, |ex x - Real.exp x| ≤ η * Real.exp x + τ
  nonneg : ∀ x ≤ 0, 0 ≤ ex x
  le_one : ∀ x ≤ 0, ex x ≤ 1
  zero : ex 0 = 1

/-- `gaussian_kernel(a, c)` (`stag_lib/kde.cpp:86-88`), rounded; a sign change is exact. -/
noncomputable def gaussianKernelFl (fl : ℝ → ℝ) (E : LibExp) (a c : ℝ) : ℝ := E.ex (-(fl (a * c)))

/-- `gaussian_kernel(a, u, v)` (`stag_lib/kde.cpp:90-93`), rounded. -/
noncomputable def kernelOfFl (fl : ℝ → ℝ) (E : LibExp) (a : ℝ) (u v : List ℝ) : ℝ :=
  gaussianKernelFl fl E a (squaredDistanceFl fl u v)

/-- `gaussian_kde_exact` (`stag_lib/kde.cpp:629-637`), rounded; `none` is the NaN of `0 / 0`. -/
noncomputable def gaussianKdeExactFl (fl : ℝ → ℝ) (E : LibExp) (a : ℝ) (data : List (List ℝ))
    (query : List ℝ) : Option ℝ :=
  let total := data.foldl (fun total i => fl (total + kernelOfFl fl E a query i)) 0
  if data.length = 0 then none else some (fl (total / fl data.length))

/-- `ckns_p_sampling` (`stag_lib/kde.cpp:120-125`), rounded; `pow(2, k)` is exact for integers `k`. -/
noncomputable def cknsPSamplingFl (fl : ℝ → ℝ) (j logNmu : Int) (n : Nat) (offset : Int) : ℝ :=
  if j = 0 then min 1 (fl ((2 : ℝ) ^ (-offset) / fl n))
  else min 1 (fl ((2 : ℝ) ^ (-(j + offset)) * (2 : ℝ) ^ (-logNmu)))

/-- `ckns_gaussian_rj_squared` (`stag_lib/kde.cpp:127-129`), rounded; the constant `LOG_TWO` of
`stag_lib/kde.cpp:18` becomes a `double` too. -/
noncomputable def rjSquaredFl (fl : ℝ → ℝ) (j : Int) (a : ℝ) : ℝ :=
  fl (fl (fl j * fl 0.69314718056) / a)

/-- `query_neighbors` (`stag_lib/kde.cpp:232-269`), rounded. -/
noncomputable def HashUnit.queryNeighborsFl (fl : ℝ → ℝ) (E : LibExp) (h : HashUnit) (q : List ℝ)
    (neighbors : List (List ℝ)) : ℝ :=
  let p := cknsPSamplingFl fl h.j h.logNmu h.n h.offset
  let rj := rjSquaredFl fl h.j h.a
  let rjm1 := if h.j > 1 then rjSquaredFl fl (h.j - 1) h.a
    else if h.j = 0 then rjSquaredFl fl h.J h.a else 0
  if h.finalShell then
    neighbors.foldl (fun total x =>
      let d := squaredDistanceFl fl q x
      if d > rjm1 then fl (total + fl (gaussianKernelFl fl E h.a d / p)) else total) 0
  else
    neighbors.foldl (fun total x =>
      let d := squaredDistanceAtMostFl fl q x rj
      if d > rjm1 then fl (total + fl (gaussianKernelFl fl E h.a d / p)) else total) 0

end Stag
