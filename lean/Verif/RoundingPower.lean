import Verif.Spectrum
import Verif.RoundingKMeans

/-!
# `power_method` and `rayleigh_quotient` in rounded arithmetic

The functions of `Verif.Spectrum` again, with a rounding `fl` after every operation on `double`s.  `S` is the order in which
Eigen adds in the products with sparse matrices, `T` the order in its dense reductions; `pw` is the library's `pow(x, 2)`, `lg`
its `log`.  The square root is rounded correctly.
-/

namespace Stag

/-- `mat * v` (`stag_lib/spectrum.cpp:172`), rounded: for every row the products with the stored entries are added.
Simplification: a stored zero is treated as an entry that is not stored (adding the product 0 changes nothing). -/
noncomputable def SprsMat.mulVecFl {fl : ℝ → ℝ} (S : EigenSum fl) (m : SprsMat ℝ) (v : List ℝ) : List ℝ :=
  (List.range m.rows).map (fun i => S.sum
    (((List.range m.cols).filter (fun j => decide (m.coeff i j ≠ 0))).map (fun j => fl (m.coeff i j * v.getD j 0))))

/-- `v.transpose() * mat` (`stag_lib/spectrum.cpp:199`), rounded, with the same simplification. -/
noncomputable def SprsMat.vecMulFl {fl : ℝ → ℝ} (S : EigenSum fl) (m : SprsMat ℝ) (v : List ℝ) : List ℝ :=
  (List.range m.cols).map (fun j => S.sum
    (((List.range m.rows).filter (fun i => decide (m.coeff i j ≠ 0))).map (fun i => fl (v.getD i 0 * m.coeff i j))))

/-- Eigen's `squaredNorm()`, rounded. -/
noncomputable def squaredNormFl {fl : ℝ → ℝ} (T : EigenSum fl) (v : List ℝ) : ℝ := T.sum (v.map (fun x => fl (x * x)))

/-- Eigen's `normalize()`, rounded: nothing is done if the squared norm is not positive. -/
noncomputable def normalizeVecFl {fl : ℝ → ℝ} (T : EigenSum fl) (v : List ℝ) : List ℝ :=
  if 0 < squaredNormFl T v then v.map (fun x => fl (x / fl (Real.sqrt (squaredNormFl T v)))) else v

/-- The loop of `power_method` (`stag_lib/spectrum.cpp:171-174`), rounded. -/
noncomputable def powerLoopFl {fl : ℝ → ℝ} (S T : EigenSum fl) (m : SprsMat ℝ) : Nat → List ℝ → List ℝ
  | 0, v => v
  | t + 1, v => powerLoopFl S T m t (normalizeVecFl T (m.mulVecFl S v))

/-- `power_method(mat, num_iterations, initial_vector)` (`stag_lib/spectrum.cpp:165-177`), rounded. -/
noncomputable def powerMethodFl {fl : ℝ → ℝ} (S T : EigenSum fl) (m : SprsMat ℝ) (t : Int) (v : List ℝ) :
    Outcome (List ℝ) :=
  if t < 0 then .throw .invalidArgument
  else if m.rows ≠ m.cols then .throw .invalidArgument
  else if v.length ≠ m.rows then .throw .invalidArgument
  else .ok (powerLoopFl S T m t.toNat v)

/-- `power_method(mat, initial_vector)` (`stag_lib/spectrum.cpp:179-184`), rounded; for an empty matrix the conversion on line
182 is undefined behaviour. -/
noncomputable def powerMethodDefaultFl {fl : ℝ → ℝ} (S T : EigenSum fl) (lg : ℝ → ℝ) (m : SprsMat ℝ) (v : List ℝ) :
    Outcome (List ℝ) :=
  if m.rows = 0 then .ub else powerMethodFl S T m (10 * ⌈lg (fl m.rows)⌉) v

/-- `random_unit_vector` (`stag_lib/spectrum.cpp:148-163`), rounded, `gs` being the normal draws. -/
noncomputable def randomUnitVectorFl {fl : ℝ → ℝ} (T : EigenSum fl) (gs : List ℝ) : List ℝ := normalizeVecFl T gs

/-- `power_method(mat, num_iterations)` (`stag_lib/spectrum.cpp:186-188`), rounded, `gs` being the normal draws. -/
noncomputable def powerMethodRandomFl {fl : ℝ → ℝ} (S T : EigenSum fl) (m : SprsMat ℝ) (t : Int) (gs : List ℝ) :
    Outcome (List ℝ) :=
  powerMethodFl S T m t (randomUnitVectorFl T gs)

/-- `power_method(mat)` (`stag_lib/spectrum.cpp:190-192`), rounded, `gs` being the normal draws. -/
noncomputable def powerMethodRandomDefaultFl {fl : ℝ → ℝ} (S T : EigenSum fl) (lg : ℝ → ℝ) (m : SprsMat ℝ) (gs : List ℝ) :
    Outcome (List ℝ) :=
  powerMethodDefaultFl S T lg m (randomUnitVectorFl T gs)

/-- `rayleigh_quotient` (`stag_lib/spectrum.cpp:194-202`), rounded. -/
noncomputable def rayleighQuotientFl {fl : ℝ → ℝ} (S T : EigenSum fl) (pw : ℝ → ℝ) (m : SprsMat ℝ) (v : List ℝ) : Outcome ℝ :=
  if m.rows ≠ m.cols then .throw .invalidArgument
  else if v.length ≠ m.rows then .throw .invalidArgument
  else if fl (Real.sqrt (squaredNormFl T v)) = 0 then .throw .invalidArgument
  else
    let numerator := T.sum ((List.range v.length).map (fun j => fl ((m.vecMulFl S v).getD j 0 * v.getD j 0)))
    let denominator := pw (fl (Real.sqrt (squaredNormFl T v)))
    .ok (fl (numerator / denominator))

end Stag
