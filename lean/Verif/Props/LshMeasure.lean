import Verif.Props.LshProb
import Verif.Props.LshUniversal
import Verif.Props.Kde
import Mathlib.Probability.Distributions.Gaussian.Real
import Mathlib.Probability.Independence.Basic
import Mathlib.MeasureTheory.Function.Floor
import Mathlib.Probability.UniformOn

/-!
# C68: the probability with which a locality sensitive hash table finds a point

The random numbers of one hash function are `dim` independent standard Gaussian numbers and one uniform number
in `[0, 1]`: the measure `lshDraw`.
-/

namespace Stag

open MeasureTheory ProbabilityTheory Set
open scoped ENNReal NNReal

/-! ## Specification -/

/-- The law of the random numbers of one hash function. -/
noncomputable def lshDraw (dim : Nat) : Measure ((Fin dim → ℝ) × ℝ) :=
  (Measure.pi fun _ => gaussianReal 0 1).prod (volume.restrict (Icc 0 1))

/-- The random numbers of one table of `K` hash functions: those of the functions, and their `K` coefficients, which
are `1 + u i` for `u i < m`. -/
abbrev TableDraw (dim K m : Nat) : Type := (Fin K → (Fin dim → ℝ) × ℝ) × (Fin K → Fin m)

/-- The law of the random numbers of one table: independent hash functions, and coefficients uniform on
`1, …, m`. -/
noncomputable def tableDraw (dim K m : Nat) : Measure (TableDraw dim K m) :=
  (Measure.pi fun _ => lshDraw dim).prod (uniformOn Set.univ)

/-- The law of the random numbers of `L` independent tables. -/
noncomputable def e2lshDraw (dim K L m : Nat) : Measure (Fin L → TableDraw dim K m) :=
  Measure.pi fun _ => tableDraw dim K m

/-- A vector as a function on all natural numbers. -/
def ext0 {n : Nat} {α : Type} (z : α) (g : Fin n → α) (i : Nat) : α := if h : i < n then g ⟨i, h⟩ else z

instance (dim : Nat) : IsProbabilityMeasure (lshDraw dim) := by
  have : IsProbabilityMeasure (volume.restrict (Icc (0 : ℝ) 1)) := ⟨by simp⟩
  unfold lshDraw
  infer_instance

/-- The hash function of a table built from its random numbers. -/
noncomputable def tableOf {dim K m : Nat} (t : TableDraw dim K m) : MultiLsh ℝ :=
  MultiLsh.create dim K (fun i => if h : i < K then ext0 0 (t.1 ⟨i, h⟩).1 else fun _ => 0)
    (ext0 0 fun i => (t.1 i).2) (fun i => if h : i < K then ((t.2 ⟨i, h⟩ : Nat) : Int) + 1 else 0)

/-- The points returned by an `E2LSH` object built from the random numbers `T`. -/
noncomputable def nearOf {dim K L m : Nat} (T : Fin L → TableDraw dim K m) (points : List (List ℝ)) (q : List ℝ) :
    List (List ℝ) :=
  (E2Lsh.create (List.ofFn fun t => tableOf (T t)) points).getNearNeighbors q

/-! ## The uniform offset -/

theorem floor_eq_iff_fract {x y : ℝ} (h : x ≤ y) : ⌊x⌋ = ⌊y⌋ ↔ Int.fract x + (y - x) < 1 := by
  have h1 := Int.floor_add_fract x
  constructor
  · intro he
    have h2 := Int.lt_floor_add_one y
    rw [← he] at h2
    linarith
  · intro hlt
    symm
    rw [Int.floor_eq_iff]
    have h3 := Int.fract_nonneg x
    constructor <;> linarith

theorem volume_floor_le {x y : ℝ} (h : x ≤ y) :
    (volume.restrict (Icc (0 : ℝ) 1)) {b | ⌊x + b⌋ = ⌊y + b⌋} = ENNReal.ofReal (1 - (y - x)) := by
  have hms : MeasurableSet {b : ℝ | ⌊x + b⌋ = ⌊y + b⌋} :=
    measurableSet_eq_fun (Int.measurable_floor.comp (by fun_prop)) (Int.measurable_floor.comp (by fun_prop))
  rw [Measure.restrict_congr_set Ico_ae_eq_Icc.symm, Measure.restrict_apply hms]
  obtain ⟨f, hf⟩ : ∃ f, f = Int.fract x := ⟨_, rfl⟩
  obtain ⟨s, hs⟩ : ∃ s, s = y - x := ⟨_, rfl⟩
  have hf0 : 0 ≤ f := hf ▸ Int.fract_nonneg x
  have hf1 : f < 1 := hf ▸ Int.fract_lt_one x
  have hs0 : 0 ≤ s := by linarith
  have hset : {b : ℝ | ⌊x + b⌋ = ⌊y + b⌋} ∩ Ico 0 1 = Ico 0 (1 - s - f) ∪ Ico (1 - f) (min 1 (2 - s - f)) := by
    ext b
    simp only [mem_inter_iff, Set.mem_ofPred_eq, mem_Ico, mem_union, lt_min_iff]
    rw [floor_eq_iff_fract (by linarith : x + b ≤ y + b), show y + b - (x + b) = s by rw [hs]; ring]
    have hx := Int.floor_add_fract x
    rw [← hf] at hx
    have key : 0 ≤ b → b < 1 → Int.fract (x + b) = if f + b < 1 then f + b else f + b - 1 := by
      intro hb0 hb1
      split_ifs with hlt
      · rw [Int.fract_eq_iff]
        exact ⟨by linarith, hlt, ⌊x⌋, by linarith⟩
      · rw [Int.fract_eq_iff]
        exact ⟨by linarith, by linarith, ⌊x⌋ + 1, by push_cast; linarith⟩
    constructor
    · rintro ⟨h1, h2, h3⟩
      rw [key h2 h3] at h1
      split_ifs at h1 with hlt
      · left; constructor <;> linarith
      · right; refine ⟨by linarith, h3, by linarith⟩
    · rintro (⟨h1, h2⟩ | ⟨h1, h2, h3⟩)
      · have hb1 : b < 1 := by linarith
        refine ⟨?_, h1, hb1⟩
        rw [key h1 hb1, if_pos (by linarith)]
        linarith
      · have hb0 : 0 ≤ b := by linarith
        refine ⟨?_, hb0, h2⟩
        rw [key hb0 h2, if_neg (by linarith)]
        linarith
  rw [hset, measure_union (by
    rw [Set.disjoint_left]
    intro b hb hb'
    have h1 := hb.2
    have h2 := hb'.1
    linarith) measurableSet_Ico, Real.volume_Ico, Real.volume_Ico]
  rcases le_total (s + f) 1 with hle | hge
  · rw [min_eq_left (by linarith), ← ENNReal.ofReal_add (by linarith) (by linarith), ← hs]
    congr 1
    ring
  · rw [min_eq_right (by linarith), ENNReal.ofReal_of_nonpos (by linarith), zero_add, ← hs]
    congr 1
    ring

theorem volume_floor (x y : ℝ) :
    (volume.restrict (Icc (0 : ℝ) 1)) {b | ⌊x + b⌋ = ⌊y + b⌋} = ENNReal.ofReal (1 - |y - x|) := by
  rcases le_total x y with h | h
  · rw [volume_floor_le h, abs_of_nonneg (by linarith)]
  · have := volume_floor_le h
    rw [abs_of_nonpos (by linarith), neg_sub, ← this]
    congr 1
    ext b
    exact eq_comm

/-! ## The Gaussian projection -/

theorem map_linear {dim : Nat} (w : Fin dim → ℝ) (s : Finset (Fin dim)) :
    (Measure.pi fun _ : Fin dim => gaussianReal 0 1).map (fun g => ∑ i ∈ s, w i * g i)
      = gaussianReal 0 (∑ i ∈ s, Real.toNNReal (w i ^ 2)) := by
  have hind : iIndepFun (fun (i : Fin dim) (g : Fin dim → ℝ) => w i * g i)
      (Measure.pi fun _ : Fin dim => gaussianReal 0 1) :=
    iIndepFun_pi (X := fun i x => w i * x) (fun i => (measurable_const_mul _).aemeasurable)
  have hone : ∀ i : Fin dim, (Measure.pi fun _ : Fin dim => gaussianReal 0 1).map (fun g => w i * g i)
      = gaussianReal 0 (Real.toNNReal (w i ^ 2)) := by
    intro i
    have h1 := Measure.map_map (μ := Measure.pi fun _ : Fin dim => gaussianReal 0 1)
      (measurable_const_mul (w i)) (measurable_pi_apply (X := fun _ : Fin dim => ℝ) i)
    refine h1.symm.trans ?_
    have h2 : (Measure.pi fun _ : Fin dim => gaussianReal 0 1).map (fun g => g i) = gaussianReal 0 1 :=
      (measurePreserving_eval (fun _ : Fin dim => gaussianReal 0 1) i).map_eq
    rw [h2, gaussianReal_map_const_mul, mul_zero, mul_one]
    congr 1
    ext
    simp [Real.coe_toNNReal _ (sq_nonneg (w i))]
  classical
  induction s using Finset.induction_on with
  | empty => simp
  | insert i s hi ih =>
    have h3 := gaussianReal_add_gaussianReal_of_indepFun
      (hind.indepFun_finsetSum_of_notMem (fun j => by fun_prop) hi)
      (m₁ := 0) (v₁ := ∑ i ∈ s, Real.toNNReal (w i ^ 2)) (m₂ := 0) (v₂ := Real.toNNReal (w i ^ 2)) (by
        rw [← ih]
        congr 1
        ext g
        simp) (hone i)
    rw [add_zero] at h3
    rw [Finset.sum_insert hi, add_comm (Real.toNNReal (w i ^ 2)), ← h3]
    congr 1
    ext g
    simp [Finset.sum_insert hi, add_comm]

/-! ## One hash function -/

/-- The Gaussian average of `1 - |s|` over the draws is the documented integral. -/
theorem lintegral_collision {c : ℝ} (hc : 0 < c) :
    ∫⁻ s, ENNReal.ofReal (1 - |s|) ∂(gaussianReal 0 (Real.toNNReal (c ^ 2 / 16)))
      = ENNReal.ofReal (trueCollision c) := by
  have hv : Real.toNNReal (c ^ 2 / 16) ≠ 0 := by
    rw [Ne, Real.toNNReal_eq_zero, not_le]; positivity
  set v := Real.toNNReal (c ^ 2 / 16) with hvdef
  have hvr : (v : ℝ) = c ^ 2 / 16 := Real.coe_toNNReal _ (by positivity)
  rw [gaussianReal_of_var_ne_zero _ hv, lintegral_withDensity_eq_lintegral_mul _ (measurable_gaussianPDF _ _)
    (by fun_prop)]
  have h1 : (gaussianPDF 0 v * fun s => ENNReal.ofReal (1 - |s|))
      = fun s => ENNReal.ofReal (gaussianPDFReal 0 v s * (1 - |s|)) := by
    funext s
    simp only [Pi.mul_apply, gaussianPDF]
    rw [ENNReal.ofReal_mul (gaussianPDFReal_nonneg _ _ _)]
  rw [h1]
  set f : ℝ → ℝ := fun s => gaussianPDFReal 0 v s * (1 - |s|) with hf
  have hcont : Continuous f := by
    have : Continuous (gaussianPDFReal 0 v) := by unfold gaussianPDFReal; fun_prop
    fun_prop
  have h2 : (fun s => ENNReal.ofReal (f s)) = (Icc (-1 : ℝ) 1).indicator (fun s => ENNReal.ofReal (f s)) := by
    funext s
    by_cases hs : s ∈ Icc (-1 : ℝ) 1
    · rw [indicator_of_mem hs]
    · rw [indicator_of_notMem hs, ENNReal.ofReal_of_nonpos]
      apply mul_nonpos_of_nonneg_of_nonpos (gaussianPDFReal_nonneg _ _ _)
      rw [mem_Icc, ← abs_le, not_le] at hs
      linarith
  rw [h2, lintegral_indicator measurableSet_Icc, ← ofReal_integral_eq_lintegral_ofReal
    (hcont.integrableOn_Icc) ((ae_restrict_iff' measurableSet_Icc).2 (Filter.Eventually.of_forall (fun s hs => by
      apply mul_nonneg (gaussianPDFReal_nonneg _ _ _)
      have := abs_le.2 hs
      linarith)))]
  congr 1
  rw [integral_Icc_eq_integral_Ioc, ← intervalIntegral.integral_of_le (by norm_num)]
  have hii : ∀ a b : ℝ, IntervalIntegrable f volume a b := fun a b => hcont.intervalIntegrable a b
  have heven : ∀ s, f (-s) = f s := by
    intro s
    simp only [hf, gaussianPDFReal, abs_neg]
    congr 3
    ring
  have h3 : ∫ s in (-1 : ℝ)..0, f s = ∫ s in (0 : ℝ)..1, f s := by
    have := intervalIntegral.integral_comp_neg (a := 0) (b := 1) f
    simp only [neg_zero] at this
    rw [← this]
    exact intervalIntegral.integral_congr (fun s _ => heven s)
  rw [← intervalIntegral.integral_add_adjacent_intervals (hii (-1) 0) (hii 0 1), h3]
  unfold trueCollision
  have h4 : ∫ s in (0 : ℝ)..1, f s = (4 : ℝ)⁻¹ * ∫ t in (0 : ℝ)..4, f (t / 4) := by
    have := intervalIntegral.integral_comp_div (a := 0) (b := 4) f (show (4 : ℝ) ≠ 0 by norm_num)
    rw [this, smul_eq_mul]
    norm_num
    ring
  rw [h4, ← two_mul, ← mul_assoc, ← intervalIntegral.integral_const_mul]
  apply intervalIntegral.integral_congr
  intro t ht
  rw [uIcc_of_le (by norm_num)] at ht
  simp only [hf, gaussianPDFReal, hvr, halfNormal, sub_zero]
  rw [abs_of_nonneg (by have := ht.1; positivity)]
  have e1 : √(2 * Real.pi * (c ^ 2 / 16)) = √(2 * Real.pi) * (c / 4) := by
    rw [Real.sqrt_mul (by positivity), show c ^ 2 / 16 = (c / 4) ^ 2 by ring, Real.sqrt_sq (by positivity)]
  have e2 : -(t / 4) ^ 2 / (2 * (c ^ 2 / 16)) = -(t / c) ^ 2 / 2 := by
    field_simp
    ring
  rw [e1, e2]
  have : √(2 * Real.pi) ≠ 0 := by
    have := Real.pi_pos
    positivity
  field_simp

/-- The hash values of two vectors for the draw `(g, b)`. -/
theorem collision_set {dim : Nat} (u v : Fin dim → ℝ) (huv : u ≠ v) :
    lshDraw dim {d | ⌊((∑ i, d.1 i * u i) + 4 * d.2) / 4⌋ = ⌊((∑ i, d.1 i * v i) + 4 * d.2) / 4⌋}
      = ENNReal.ofReal (trueCollision (√(∑ i, (u i - v i) ^ 2))) := by
  have hfin : IsFiniteMeasure (volume.restrict (Icc (0 : ℝ) 1)) := ⟨by simp⟩
  have hpos : 0 < ∑ i, (u i - v i) ^ 2 := by
    obtain ⟨i, hi⟩ := Function.ne_iff.1 huv
    exact Finset.sum_pos' (fun i _ => sq_nonneg _) ⟨i, Finset.mem_univ _, by
      have : u i - v i ≠ 0 := sub_ne_zero.2 hi
      positivity⟩
  have hms : MeasurableSet {d : (Fin dim → ℝ) × ℝ |
      ⌊((∑ i, d.1 i * u i) + 4 * d.2) / 4⌋ = ⌊((∑ i, d.1 i * v i) + 4 * d.2) / 4⌋} :=
    measurableSet_eq_fun (Int.measurable_floor.comp (by fun_prop)) (Int.measurable_floor.comp (by fun_prop))
  unfold lshDraw
  rw [Measure.prod_apply hms]
  have h1 : ∀ g : Fin dim → ℝ, (volume.restrict (Icc (0 : ℝ) 1)) (Prod.mk g ⁻¹' {d : (Fin dim → ℝ) × ℝ |
      ⌊((∑ i, d.1 i * u i) + 4 * d.2) / 4⌋ = ⌊((∑ i, d.1 i * v i) + 4 * d.2) / 4⌋})
      = ENNReal.ofReal (1 - |∑ i, (v i - u i) / 4 * g i|) := by
    intro g
    have := volume_floor ((∑ i, g i * u i) / 4) ((∑ i, g i * v i) / 4)
    have e : (∑ i, g i * v i) / 4 - (∑ i, g i * u i) / 4 = ∑ i, (v i - u i) / 4 * g i := by
      rw [← sub_div, ← Finset.sum_sub_distrib, Finset.sum_div]
      apply Finset.sum_congr rfl
      intro i _
      ring
    rw [e] at this
    rw [← this]
    congr 1
    ext b
    simp only [mem_preimage, Set.mem_ofPred_eq]
    rw [add_div, add_div, mul_div_cancel_left₀ _ (by norm_num : (4 : ℝ) ≠ 0)]
  simp only [h1]
  have h2 := lintegral_map (μ := Measure.pi fun _ : Fin dim => gaussianReal 0 1)
    (f := fun s : ℝ => ENNReal.ofReal (1 - |s|)) (g := fun g : Fin dim → ℝ => ∑ i, (v i - u i) / 4 * g i)
    (by fun_prop) (by fun_prop)
  rw [← h2, map_linear (fun i => (v i - u i) / 4) Finset.univ]
  have h3 : (∑ i, Real.toNNReal (((v i - u i) / 4) ^ 2)) = Real.toNNReal ((√(∑ i, (u i - v i) ^ 2)) ^ 2 / 16) := by
    rw [Real.sq_sqrt hpos.le, ← Real.toNNReal_sum_of_nonneg (fun i _ => sq_nonneg _)]
    congr 1
    rw [Finset.sum_div]
    apply Finset.sum_congr rfl
    intro i _
    ring
  rw [h3, lintegral_collision (Real.sqrt_pos.2 hpos)]

theorem sum_ext0 {dim : Nat} (g : Fin dim → ℝ) (x : List ℝ) :
    ∑ d ∈ Finset.range dim, ext0 0 g d * x.getD d 0 = ∑ i : Fin dim, g i * x.getD i 0 := by
  rw [Finset.sum_range]
  apply Finset.sum_congr rfl
  intro i _
  unfold ext0
  rw [dif_pos i.isLt]

theorem getD_ne {dim : Nat} {x y : List ℝ} (hx : x.length = dim) (hy : y.length = dim) (h : x ≠ y) :
    (fun i : Fin dim => x.getD i 0) ≠ (fun i : Fin dim => y.getD i 0) := by
  intro he
  apply h
  apply List.ext_getElem (by omega)
  intro i h1 h2
  have := congrFun he ⟨i, by omega⟩
  simp only [List.getD_eq_getElem?_getD, List.getElem?_eq_getElem h1, List.getElem?_eq_getElem h2,
    Option.getD_some] at this
  exact this

theorem sqDist_fin {dim : Nat} {x y : List ℝ} (hx : x.length = dim) :
    sqDist x y = ∑ i : Fin dim, (x.getD i 0 - y.getD i 0) ^ 2 := by
  unfold sqDist
  rw [hx, Finset.sum_range]

/-- **C68** (one function).  Two different points of the right dimension get the same hash value from a random
`LSHFunction` with exactly the documented probability for their distance. -/
theorem C68_function (dim : Nat) (x y : List ℝ) (hx : x.length = dim) (hy : y.length = dim) (hxy : x ≠ y) :
    lshDraw dim {d | (LshFunction.create dim (ext0 0 d.1) d.2).apply x
        = (LshFunction.create dim (ext0 0 d.1) d.2).apply y}
      = ENNReal.ofReal (trueCollision (√(sqDist x y))) := by
  rw [sqDist_fin hx, ← collision_set _ _ (getD_ne hx hy hxy)]
  congr 1
  ext d
  simp only [Set.mem_ofPred_eq]
  rw [C43_function_formula dim _ _ x hx, C43_function_formula dim _ _ y hy, sum_ext0, sum_ext0]
  simp

/-! ## One table -/

/-- The event that two vectors agree on a hash function. -/
def agreeSet {dim : Nat} (u v : Fin dim → ℝ) : Set ((Fin dim → ℝ) × ℝ) :=
  {d | ⌊((∑ i, d.1 i * u i) + 4 * d.2) / 4⌋ = ⌊((∑ i, d.1 i * v i) + 4 * d.2) / 4⌋}

theorem tableOf_apply {dim K m : Nat} (t : TableDraw dim K m) (x : List ℝ) (hx : x.length = dim) :
    (tableOf t).apply x = ∑ i : Fin K, (((t.2 i : Nat) : Int) + 1) *
      ⌊((∑ d : Fin dim, (t.1 i).1 d * x.getD d 0) + 4 * (t.1 i).2) / 4⌋ := by
  unfold tableOf
  rw [C43_key dim K _ _ _ x hx, Finset.sum_range]
  apply Finset.sum_congr rfl
  intro i _
  rw [dif_pos i.isLt, dif_pos i.isLt, sum_ext0]
  simp [ext0]

theorem measurable_tableOf {dim K m : Nat} (x : List ℝ) (hx : x.length = dim) :
    Measurable (fun t : TableDraw dim K m => (tableOf t).apply x) := by
  simp only [tableOf_apply _ x hx]
  apply Finset.measurable_sum
  intro i _
  apply Measurable.mul
  · have h1 : Measurable (fun t : TableDraw dim K m => t.2 i) := by fun_prop
    exact (Measurable.of_discrete (f := fun a : Fin m => ((a : Nat) : Int) + 1)).comp h1
  · exact Int.measurable_floor.comp (by fun_prop)

theorem tableOf_agree {dim K m : Nat} (x y : List ℝ) (hx : x.length = dim) (hy : y.length = dim)
    (t : TableDraw dim K m)
    (h : t.1 ∈ Set.pi univ (fun _ : Fin K => agreeSet (fun i : Fin dim => x.getD i 0) (fun i => y.getD i 0))) :
    (tableOf t).apply x = (tableOf t).apply y := by
  rw [tableOf_apply t x hx, tableOf_apply t y hy]
  apply Finset.sum_congr rfl
  intro i _
  rw [show ⌊((∑ d : Fin dim, (t.1 i).1 d * x.getD d 0) + 4 * (t.1 i).2) / 4⌋
    = ⌊((∑ d : Fin dim, (t.1 i).1 d * y.getD d 0) + 4 * (t.1 i).2) / 4⌋ from h i (mem_univ i)]

theorem tableOf_false {dim K m : Nat} (hm : 0 < m) (x y : List ℝ) (hx : x.length = dim) (hy : y.length = dim)
    (D : Fin K → (Fin dim → ℝ) × ℝ)
    (h : D ∉ Set.pi univ (fun _ : Fin K => agreeSet (fun i : Fin dim => x.getD i 0) (fun i => y.getD i 0))) :
    (uniformOn (Set.univ : Set (Fin K → Fin m))) {u | (tableOf (D, u)).apply x = (tableOf (D, u)).apply y}
      ≤ ENNReal.ofReal (1 / m) := by
  have hne : (fun i : Fin K => ⌊((∑ d : Fin dim, (D i).1 d * x.getD d 0) + 4 * (D i).2) / 4⌋)
      ≠ (fun i : Fin K => ⌊((∑ d : Fin dim, (D i).1 d * y.getD d 0) + 4 * (D i).2) / 4⌋) := by
    intro he
    exact h (fun i _ => congrFun he i)
  have hc := combination_card (m := m) _ _ hne
  rw [uniformOn_univ]
  have hset : {u : Fin K → Fin m | (tableOf (D, u)).apply x = (tableOf (D, u)).apply y}
      = ((Finset.univ.filter (fun u : Fin K → Fin m =>
        ∑ i, ((u i : Nat) + 1 : Int) * ⌊((∑ d : Fin dim, (D i).1 d * x.getD d 0) + 4 * (D i).2) / 4⌋
          = ∑ i, ((u i : Nat) + 1 : Int) * ⌊((∑ d : Fin dim, (D i).1 d * y.getD d 0) + 4 * (D i).2) / 4⌋) :
        Finset (Fin K → Fin m)) : Set (Fin K → Fin m)) := by
    ext u
    simp only [Set.mem_ofPred_eq, Finset.coe_filter, Finset.mem_univ, true_and]
    rw [tableOf_apply _ x hx, tableOf_apply _ y hy]
  rw [hset, Measure.count_apply_finset]
  generalize (Finset.univ.filter (fun u : Fin K → Fin m =>
        ∑ i, ((u i : Nat) + 1 : Int) * ⌊((∑ d : Fin dim, (D i).1 d * x.getD d 0) + 4 * (D i).2) / 4⌋
          = ∑ i, ((u i : Nat) + 1 : Int) *
            ⌊((∑ d : Fin dim, (D i).1 d * y.getD d 0) + 4 * (D i).2) / 4⌋)).card = c at hc
  rw [Fintype.card_fun, Fintype.card_fin, Fintype.card_fin]
  have hmp : (0 : ℝ) < m := by exact_mod_cast hm
  have hpow : (0 : ℝ) < ((m ^ K : Nat) : ℝ) := by exact_mod_cast Nat.pow_pos hm
  rw [← ENNReal.ofReal_natCast c, ← ENNReal.ofReal_natCast (m ^ K), ← ENNReal.ofReal_div_of_pos hpow]
  apply ENNReal.ofReal_le_ofReal
  rw [div_le_div_iff₀ hpow hmp]
  have : ((m * c : Nat) : ℝ) ≤ ((m ^ K : Nat) : ℝ) := by exact_mod_cast hc
  push_cast at this ⊢
  linarith

instance (dim K m : Nat) [NeZero m] : IsProbabilityMeasure (tableDraw dim K m) := by
  have : Nonempty (Fin K → Fin m) := ⟨fun _ => 0⟩
  have : IsProbabilityMeasure (uniformOn (Set.univ : Set (Fin K → Fin m))) :=
    isProbabilityMeasure_uniformOn Set.finite_univ Set.univ_nonempty
  unfold tableDraw
  infer_instance

instance (dim K L m : Nat) [NeZero m] : IsProbabilityMeasure (e2lshDraw dim K L m) := by
  unfold e2lshDraw
  infer_instance

theorem trueCollision_range {x y : List ℝ} {dim : Nat} (hx : x.length = dim) (hy : y.length = dim) (hxy : x ≠ y) :
    0 ≤ trueCollision (√(sqDist x y)) ∧ trueCollision (√(sqDist x y)) ≤ 1 := by
  have h0 : 0 < √(sqDist x y) := by
    rw [sqDist_fin hx, Real.sqrt_pos]
    obtain ⟨i, hi⟩ := Function.ne_iff.1 (getD_ne hx hy hxy)
    exact Finset.sum_pos' (fun i _ => sq_nonneg _) ⟨i, Finset.mem_univ _, by
      have : x.getD i 0 - y.getD i 0 ≠ 0 := sub_ne_zero.2 hi
      positivity⟩
  constructor
  · unfold trueCollision
    apply intervalIntegral.integral_nonneg (by norm_num)
    intro t ht
    have h1 : 0 ≤ halfNormal (t / √(sqDist x y)) := by
      unfold halfNormal
      positivity
    have h2 : 0 ≤ 1 - t / 4 := by have := ht.2; linarith
    positivity
  · have h := C68_function dim x y hx hy hxy
    have h2 := prob_le_one (μ := lshDraw dim) (s := {d | (LshFunction.create dim (ext0 0 d.1) d.2).apply x
        = (LshFunction.create dim (ext0 0 d.1) d.2).apply y})
    rw [h] at h2
    exact ENNReal.ofReal_le_one.1 h2

/-- **C68** (one table).  Two different points get the same key in a random table of `K` functions with probability
between `p ^ K` and `p ^ K + 1 / m`, `p` being the probability for one function. -/
theorem C68_table (dim K m : Nat) (hm : 0 < m) (x y : List ℝ) (hx : x.length = dim) (hy : y.length = dim)
    (hxy : x ≠ y) :
    trueCollision (√(sqDist x y)) ^ K ≤ (tableDraw dim K m).real {t | (tableOf t).apply x = (tableOf t).apply y} ∧
    (tableDraw dim K m).real {t | (tableOf t).apply x = (tableOf t).apply y}
      ≤ trueCollision (√(sqDist x y)) ^ K + 1 / m := by
  have : NeZero m := ⟨by omega⟩
  have : Nonempty (Fin K → Fin m) := ⟨fun _ => 0⟩
  have : IsProbabilityMeasure (uniformOn (Set.univ : Set (Fin K → Fin m))) :=
    isProbabilityMeasure_uniformOn Set.finite_univ Set.univ_nonempty
  obtain ⟨hp0, hp1⟩ := trueCollision_range hx hy hxy
  have hA : lshDraw dim (agreeSet (fun i : Fin dim => x.getD i 0) (fun i => y.getD i 0))
      = ENNReal.ofReal (trueCollision (√(sqDist x y))) := by
    rw [sqDist_fin hx, ← collision_set _ _ (getD_ne hx hy hxy)]
    rfl
  generalize hp : trueCollision (√(sqDist x y)) = p at *
  set A := Set.pi univ (fun _ : Fin K => agreeSet (fun i : Fin dim => x.getD i 0) (fun i => y.getD i 0)) with hAdef
  have hAK : (Measure.pi fun _ : Fin K => lshDraw dim) A = ENNReal.ofReal (p ^ K) := by
    rw [hAdef, Measure.pi_pi, hA, Finset.prod_const, Finset.card_univ, Fintype.card_fin, ENNReal.ofReal_pow hp0]
  have hpK : 0 ≤ p ^ K := pow_nonneg hp0 _
  have hms : MeasurableSet {t : TableDraw dim K m | (tableOf t).apply x = (tableOf t).apply y} :=
    measurableSet_eq_fun (measurable_tableOf x hx) (measurable_tableOf y hy)
  have hmA : MeasurableSet A := by
    apply MeasurableSet.univ_pi
    intro i
    exact measurableSet_eq_fun (Int.measurable_floor.comp (by fun_prop)) (Int.measurable_floor.comp (by fun_prop))
  constructor
  · have h1 : A ×ˢ univ ⊆ {t : TableDraw dim K m | (tableOf t).apply x = (tableOf t).apply y} :=
      fun t ht => tableOf_agree x y hx hy t ht.1
    have h2 := measure_mono (μ := tableDraw dim K m) h1
    rw [tableDraw, Measure.prod_prod, hAK, measure_univ, mul_one] at h2
    exact (ENNReal.ofReal_le_iff_le_toReal (measure_ne_top _ _)).1 h2
  · have h1 : tableDraw dim K m {t | (tableOf t).apply x = (tableOf t).apply y}
        ≤ ENNReal.ofReal (p ^ K) + ENNReal.ofReal (1 / m) := by
      rw [tableDraw, Measure.prod_apply hms]
      calc _ ≤ ∫⁻ D, (A.indicator 1 D + ENNReal.ofReal (1 / m)) ∂(Measure.pi fun _ : Fin K => lshDraw dim) := by
            apply lintegral_mono
            intro D
            by_cases hD : D ∈ A
            · simp only [indicator_of_mem hD, Pi.one_apply]
              exact le_trans prob_le_one le_self_add
            · simp only [indicator_of_notMem hD, zero_add]
              exact tableOf_false hm x y hx hy D hD
        _ = _ := by
            rw [lintegral_add_right _ measurable_const, lintegral_const, measure_univ, mul_one,
              lintegral_indicator_one hmA, hAK]
    rw [← ENNReal.ofReal_add hpK (by positivity)] at h1
    exact ENNReal.toReal_le_of_le_ofReal (by positivity) h1

/-! ## All tables -/

theorem mem_nearOf {dim K L m : Nat} (T : Fin L → TableDraw dim K m) (points : List (List ℝ)) (q p : List ℝ)
    (hp : p ∈ points) :
    p ∈ nearOf T points q ↔ ∃ t, (tableOf (T t)).apply p = (tableOf (T t)).apply q := by
  unfold nearOf
  obtain ⟨idx, -, h2, h3⟩ := C43_near_neighbors (List.ofFn fun t => tableOf (T t)) points q
  rw [h3, List.mem_map]
  constructor
  · rintro ⟨i, hi, he⟩
    obtain ⟨p', hp', f, hf, hfe⟩ := (h2 i).1 hi
    rw [List.getD_eq_getElem?_getD, hp', Option.getD_some] at he
    obtain ⟨t, rfl⟩ := (List.mem_ofFn' _ _).1 hf
    exact ⟨t, he ▸ hfe⟩
  · rintro ⟨t, ht⟩
    obtain ⟨i, hi⟩ := List.mem_iff_getElem?.1 hp
    refine ⟨i, (h2 i).2 ⟨p, hi, _, (List.mem_ofFn' _ _).2 ⟨t, rfl⟩, ht⟩, ?_⟩
    rw [List.getD_eq_getElem?_getD, hi, Option.getD_some]

/-- **C68** (exact law).  The tables are independent: the probability that a stored point is returned is
`1 - (1 - s) ^ L`, `s` being the probability that the two points get the same key in one table. -/
theorem C68_independent (dim K L m : Nat) (hm : 0 < m) (points : List (List ℝ)) (q p : List ℝ) (hp : p ∈ points)
    (hpd : p.length = dim) (hqd : q.length = dim) :
    (e2lshDraw dim K L m).real {T | p ∈ nearOf T points q}
      = 1 - (1 - (tableDraw dim K m).real {t | (tableOf t).apply p = (tableOf t).apply q}) ^ L := by
  have : NeZero m := ⟨by omega⟩
  have hms : MeasurableSet {t : TableDraw dim K m | (tableOf t).apply p = (tableOf t).apply q} :=
    measurableSet_eq_fun (measurable_tableOf p hpd) (measurable_tableOf q hqd)
  have hset : {T : Fin L → TableDraw dim K m | p ∈ nearOf T points q}
      = (Set.pi univ fun _ : Fin L => {t : TableDraw dim K m | (tableOf t).apply p = (tableOf t).apply q}ᶜ)ᶜ := by
    ext T
    simp only [Set.mem_ofPred_eq, mem_nearOf T points q p hp, mem_compl_iff, mem_pi, mem_univ, forall_true_left,
      not_forall, not_not]
  rw [hset, probReal_compl_eq_one_sub (MeasurableSet.univ_pi fun _ => hms.compl), ← probReal_compl_eq_one_sub hms]
  congr 1
  simp only [Measure.real, e2lshDraw, Measure.pi_pi, Finset.prod_const, Finset.card_univ, Fintype.card_fin,
    ENNReal.toReal_pow]

theorem pow_sub_pow_le {a b : ℝ} (h0 : 0 ≤ b) (hab : b ≤ a) (h1 : a ≤ 1) (n : Nat) : a ^ n - b ^ n ≤ n * (a - b) := by
  induction n with
  | zero => simp
  | succ n ih =>
    have e : a ^ (n + 1) - b ^ (n + 1) = a * (a ^ n - b ^ n) + b ^ n * (a - b) := by ring
    have hb : b ^ n ≤ 1 := pow_le_one₀ h0 (hab.trans h1)
    have ha : 0 ≤ a ^ n - b ^ n := sub_nonneg.2 (pow_le_pow_left₀ h0 hab n)
    rw [e]
    push_cast
    nlinarith

theorem abs_pow_sub_pow_le {a b : ℝ} (ha0 : 0 ≤ a) (ha1 : a ≤ 1) (hb0 : 0 ≤ b) (hb1 : b ≤ 1) (n : Nat) :
    |a ^ n - b ^ n| ≤ n * |a - b| := by
  rcases le_total b a with h | h
  · rw [abs_of_nonneg (sub_nonneg.2 (pow_le_pow_left₀ hb0 h n)), abs_of_nonneg (by linarith)]
    exact pow_sub_pow_le hb0 h ha1 n
  · rw [abs_sub_comm, abs_sub_comm a, abs_of_nonneg (sub_nonneg.2 (pow_le_pow_left₀ ha0 h n)),
      abs_of_nonneg (by linarith)]
    exact pow_sub_pow_le ha0 h hb1 n

/-- **C68** (recall).  A stored point different from the query is returned with probability at least
`1 - (1 - p ^ K) ^ L`, and at most `L / m` more than that. -/
theorem C68_recall (dim K L m : Nat) (hm : 0 < m) (points : List (List ℝ)) (q p : List ℝ) (hp : p ∈ points)
    (hpd : p.length = dim) (hqd : q.length = dim) (hpq : p ≠ q) :
    1 - (1 - trueCollision (√(sqDist p q)) ^ K) ^ L ≤ (e2lshDraw dim K L m).real {T | p ∈ nearOf T points q} ∧
    (e2lshDraw dim K L m).real {T | p ∈ nearOf T points q}
      ≤ 1 - (1 - trueCollision (√(sqDist p q)) ^ K) ^ L + L / m := by
  have : NeZero m := ⟨by omega⟩
  rw [C68_independent dim K L m hm points q p hp hpd hqd]
  obtain ⟨h1, h2⟩ := C68_table dim K m hm p q hpd hqd hpq
  obtain ⟨hp0, hp1⟩ := trueCollision_range hpd hqd hpq
  have h3 : (tableDraw dim K m).real {t | (tableOf t).apply p = (tableOf t).apply q} ≤ 1 := measureReal_le_one
  generalize (tableDraw dim K m).real {t | (tableOf t).apply p = (tableOf t).apply q} = s at *
  have hq0 : 0 ≤ trueCollision (√(sqDist p q)) ^ K := pow_nonneg hp0 K
  generalize trueCollision (√(sqDist p q)) ^ K = c at *
  have h4 : (1 - s) ^ L ≤ (1 - c) ^ L := pow_le_pow_left₀ (by linarith) (by linarith) L
  have h5 := pow_sub_pow_le (a := 1 - c) (b := 1 - s) (by linarith) (by linarith) (by linarith) L
  refine ⟨by linarith, ?_⟩
  have h6 : (L : ℝ) * (1 - c - (1 - s)) ≤ L * (1 / m) :=
    mul_le_mul_of_nonneg_left (by linarith) (Nat.cast_nonneg L)
  rw [mul_one_div] at h6
  linarith

/-- **C68** (documented probability).  The probability that a stored point different from the query is returned is,
up to `0.001 * K * L + L / 536870912`, the value of `E2LSH::collision_probability(K, L, distance)`. -/
theorem C68_documented (dim K L : Nat) (points : List (List ℝ)) (q p : List ℝ) (hp : p ∈ points)
    (hpd : p.length = dim) (hqd : q.length = dim) (hpq : p ≠ q) :
    |(e2lshDraw dim K L 536870912).real {T | p ∈ nearOf T points q} - e2lshCollision K L (√(sqDist p q))|
      ≤ 0.001 * K * L + L / 536870912 := by
  obtain ⟨h1, h2⟩ := C68_recall dim K L 536870912 (by norm_num) points q p hp hpd hqd hpq
  obtain ⟨hp0, hp1⟩ := trueCollision_range hpd hqd hpq
  have hd : 0 < √(sqDist p q) := by
    rw [sqDist_fin hpd, Real.sqrt_pos]
    obtain ⟨i, hi⟩ := Function.ne_iff.1 (getD_ne hpd hqd hpq)
    exact Finset.sum_pos' (fun i _ => sq_nonneg _) ⟨i, Finset.mem_univ _, by
      have : p.getD i 0 - q.getD i 0 ≠ 0 := sub_ne_zero.2 hi
      positivity⟩
  have h3 := C44_accuracy hd
  obtain ⟨hl0, hl1⟩ := C44_function_range (√(sqDist p q))
  unfold e2lshCollision
  rw [Real.rpow_natCast, Real.rpow_natCast]
  generalize (e2lshDraw dim K L 536870912).real {T | p ∈ nearOf T points q} = P at *
  generalize trueCollision (√(sqDist p q)) = c at *
  generalize lshCollision (√(sqDist p q)) = l at *
  have h4 := abs_pow_sub_pow_le hl0 hl1 hp0 hp1 K
  have h5 : |l ^ K - c ^ K| ≤ K * 0.001 := h4.trans (mul_le_mul_of_nonneg_left h3 (Nat.cast_nonneg K))
  have h6 := abs_pow_sub_pow_le (a := 1 - l ^ K) (b := 1 - c ^ K) (by have := pow_le_one₀ hl0 hl1 (n := K); linarith)
    (by have := pow_nonneg hl0 K; linarith) (by have := pow_le_one₀ hp0 hp1 (n := K); linarith)
    (by have := pow_nonneg hp0 K; linarith) L
  have h7 : |1 - l ^ K - (1 - c ^ K)| = |l ^ K - c ^ K| := by
    rw [show 1 - l ^ K - (1 - c ^ K) = -(l ^ K - c ^ K) by ring, abs_neg]
  rw [h7] at h6
  have h8 := h6.trans (mul_le_mul_of_nonneg_left h5 (Nat.cast_nonneg L))
  have h9 := abs_le.1 h8
  rw [abs_le]
  have hL : (0 : ℝ) ≤ L / 536870912 := by positivity
  push_cast at h2
  constructor <;> nlinarith [h9.1, h9.2]

/-- Two points on the line at distance 3 meet the hypotheses; with 2 functions and 4 tables the stored point is found
with the documented probability up to an error below 0.009. -/
example : |(e2lshDraw 1 2 4 536870912).real {T | [(0 : ℝ)] ∈ nearOf T [[0], [7]] [3]}
    - e2lshCollision 2 4 (√(sqDist [(0 : ℝ)] [3]))| ≤ 0.009 := by
  have h := C68_documented 1 2 4 [[0], [7]] [3] [0] (by simp) rfl rfl (by norm_num)
  refine h.trans ?_
  norm_num

end Stag
