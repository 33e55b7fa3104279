import Verif.RoundingPower
import Verif.Props.RoundingSpectral
import Verif.Props.PowerRandom
import Verif.Props.CheegerExamples

/-!
# C104: `power_method` and `rayleigh_quotient` in floating point
-/

namespace Stag

open Finset Graph Recovery

section
variable {R : Rounding ℝ}

/-! ## Sums and quotients with signed errors -/

theorem Close.abs_le {t : Nat} {b x y : ℝ} (h : Close R t b x y) : |x| ≤ R.g ^ t * b := by
  have h1 := abs_sub_abs_le_abs_sub x y
  have h2 := h.1
  have h3 := h.2
  nlinarith

theorem Close.sum {n : Nat} {t k : Nat} {b p y : Nat → ℝ} (h : ∀ j < n, Close R t (b j) (p j) (y j)) (c : Nat → Bool)
    (hc : ∀ j < n, c j = false → p j = 0) {s : ℝ} (hs : SumOf R.fl (((List.range n).filter c).map p) s)
    (hk : ((List.range n).filter c).length ≤ k + 1) :
    Close R (t + k) (∑ j ∈ range n, b j) s (∑ j ∈ range n, y j) := by
  have hf : ∀ f : Nat → ℝ, (∀ j < n, c j = false → f j = 0) →
      (((List.range n).filter c).map f).sum = ∑ j ∈ range n, f j := by
    intro f hf0
    rw [← sum_list_range n f]
    have : ∀ l : List Nat, (∀ j ∈ l, c j = false → f j = 0) → ((l.filter c).map f).sum = (l.map f).sum := by
      intro l
      induction l with
      | nil => intro _; rfl
      | cons a l ih =>
        intro hl
        have := ih fun j hj => hl j (List.mem_cons_of_mem _ hj)
        cases hca : c a with
        | true => rw [List.filter_cons_of_pos hca, List.map_cons, List.sum_cons, List.map_cons, List.sum_cons, this]
        | false =>
          rw [List.filter_cons_of_neg (by simp [hca]), List.map_cons, List.sum_cons, this,
            hl a (by simp) hca, zero_add]
    exact this _ fun j hj => hf0 j (List.mem_range.1 hj)
  have h1 := hs.abs_err
  rw [List.map_map, hf p hc, hf _ (fun j hj hcj => by simp [hc j hj hcj])] at h1
  rw [List.length_map] at h1
  simp only [Function.comp_apply] at h1
  have hb0 : ∀ j ∈ range n, 0 ≤ b j := fun j hj => (h j (mem_range.1 hj)).b0
  have hB : 0 ≤ ∑ j ∈ range n, b j := Finset.sum_nonneg hb0
  have h2 : ∑ j ∈ range n, |p j| ≤ R.g ^ t * ∑ j ∈ range n, b j := by
    rw [Finset.mul_sum]
    exact Finset.sum_le_sum fun j hj => (h j (mem_range.1 hj)).abs_le
  have h3 : |∑ j ∈ range n, p j - ∑ j ∈ range n, y j| ≤ (R.g ^ t - 1) * ∑ j ∈ range n, b j := by
    rw [← Finset.sum_sub_distrib, Finset.mul_sum]
    exact (Finset.abs_sum_le_sum_abs _ _).trans (Finset.sum_le_sum fun j hj => (h j (mem_range.1 hj)).1)
  have hg : R.g ^ (((List.range n).filter c).length - 1) ≤ R.g ^ k :=
    pow_le_pow_right₀ (Rounding.one_le_g (R := R)) (by omega)
  have hg1 := Rounding.g_pow_one_le (R := R) (((List.range n).filter c).length - 1)
  have hp0 : 0 ≤ ∑ j ∈ range n, |p j| := Finset.sum_nonneg fun _ _ => abs_nonneg _
  refine ⟨?_, (Finset.abs_sum_le_sum_abs _ _).trans (Finset.sum_le_sum fun j hj => (h j (mem_range.1 hj)).2)⟩
  have h4 : |s - ∑ j ∈ range n, p j| ≤ (R.g ^ k - 1) * (R.g ^ t * ∑ j ∈ range n, b j) :=
    h1.trans (mul_le_mul (by linarith) h2 hp0 (by linarith))
  have h5 := abs_sub_le s (∑ j ∈ range n, p j) (∑ j ∈ range n, y j)
  rw [pow_add]
  linarith [show (R.g ^ t * R.g ^ k - 1) * ∑ j ∈ range n, b j = (R.g ^ k - 1) * (R.g ^ t * ∑ j ∈ range n, b j)
    + (R.g ^ t - 1) * ∑ j ∈ range n, b j by ring]

theorem Close.mul_const {t : Nat} {b x y : ℝ} (h : Close R t b x y) (c : ℝ) : Close R t (b * |c|) (x * c) (y * c) := by
  refine ⟨?_, ?_⟩
  · rw [← sub_mul, abs_mul, ← mul_assoc]
    exact mul_le_mul_of_nonneg_right h.1 (abs_nonneg _)
  · rw [abs_mul]
    exact mul_le_mul_of_nonneg_right h.2 (abs_nonneg _)

theorem Close.div {t k : Nat} {b x y d d' : ℝ} (h : Close R t b x y) (hd : 0 < d) (hn : R.Near k d' d) :
    Close R (t + k) (b / d) (x / d') (y / d) := by
  have hd' := hn.pos hd
  have hi := hn.inv
  have hb := h.b0
  refine ⟨?_, by rw [abs_div, abs_of_pos hd]; exact div_le_div_of_nonneg_right h.2 hd.le⟩
  have e : x / d' - y / d = (x - y) * d'⁻¹ + y * (d'⁻¹ - d⁻¹) := by rw [div_eq_mul_inv, div_eq_mul_inv]; ring
  rw [e]
  have h1 : |(x - y) * d'⁻¹| ≤ (R.g ^ t - 1) * b * (R.g ^ k * d⁻¹) := by
    rw [abs_mul, abs_of_pos (inv_pos.2 hd')]
    exact mul_le_mul h.1 hi.le (inv_nonneg.2 hd'.le)
      (mul_nonneg (sub_nonneg.2 (Rounding.g_pow_one_le (R := R) t)) hb)
  have h2 : |y * (d'⁻¹ - d⁻¹)| ≤ b * ((R.g ^ k - 1) * d⁻¹) := by
    rw [abs_mul]
    exact mul_le_mul h.2 hi.abs_sub (abs_nonneg _) hb
  refine (abs_add_le _ _).trans ((add_le_add h1 h2).trans (le_of_eq ?_))
  rw [pow_add, div_eq_mul_inv]
  ring

/-! ## One iteration -/

/-- The computed product. -/
theorem mulVecFl_close (S : EigenSum R.fl) {m : SprsMat ℝ} {n s q : Nat} (hr : m.rows = n) (hc : m.cols = n)
    {A B : Nat → Nat → ℝ} (hA : ∀ i < n, ∀ j < n, Close R s (B i j) (m.coeff i j) (A i j))
    (hq : ∀ i < n, ((range n).filter (fun j => m.coeff i j ≠ 0)).card ≤ q + 1) (v : List ℝ) (i : Nat) (hi : i < n) :
    Close R (s + 1 + q) (∑ j ∈ range n, B i j * |vec v j|) (vec (m.mulVecFl S v) i) (mulv n A (vec v) i) := by
  have e : vec (m.mulVecFl S v) i = S.sum (((List.range n).filter (fun j => decide (m.coeff i j ≠ 0))).map
      (fun j => R.fl (m.coeff i j * v.getD j 0))) := by
    unfold vec SprsMat.mulVecFl
    rw [List.getD_eq_getElem?_getD, List.getElem?_map, List.getElem?_range (by omega), hc]
    rfl
  rw [e]
  refine Close.sum (fun j hj => ((hA i hi j hj).mul_const (vec v j)).fl) _ ?_ (S.spec _) ?_
  · intro j _ h
    have : m.coeff i j = 0 := by simpa using h
    rw [this, zero_mul]
    exact Rounding.fl_zero
  · have := hq i hi
    rw [Finset.card_def] at this
    exact this

theorem mulVecFl_length {fl : ℝ → ℝ} (S : EigenSum fl) (m : SprsMat ℝ) (v : List ℝ) : (m.mulVecFl S v).length = m.rows := by
  simp [SprsMat.mulVecFl]

theorem squaredNormFl_near (T : EigenSum R.fl) (v : List ℝ) :
    R.Near v.length (squaredNormFl T v) (dot v.length (vec v) (vec v)) := by
  have h := (T.spec (v.map (fun x => R.fl (x * x)))).near (by
    intro x hx
    obtain ⟨y, -, rfl⟩ := List.mem_map.1 hx
    exact Rounding.fl_nonneg (mul_self_nonneg y))
  have h2 : R.Near 1 (v.map (fun x => R.fl (x * x))).sum (v.map (fun x => x * x)).sum :=
    near_list_sum v _ _ fun a _ => Rounding.near_fl (mul_self_nonneg a)
  rw [List.length_map] at h
  have e : (v.map (fun x => x * x)).sum = dot v.length (vec v) (vec v) := squaredNorm_eq v
  rw [e] at h2
  rcases Nat.eq_zero_or_pos v.length with h0 | h0
  · have : v = [] := List.length_eq_zero_iff.1 h0
    subst this
    have hz : squaredNormFl T [] = 0 := (h.trans h2).eq_zero (by simp [dot])
    rw [hz]
    simpa [dot] using Rounding.Near.refl (R := R) (k := 0) (le_refl (0 : ℝ))
  · exact (h.trans h2).mono (by omega)

theorem fl_sq (x : ℝ) : R.Near 2 (R.fl x * R.fl x) (x * x) := by
  have h : R.Near 1 |R.fl x| |x| := by
    rcases le_total 0 x with hx | hx
    · rw [abs_of_nonneg hx, abs_of_nonneg (Rounding.fl_nonneg hx)]
      exact Rounding.near_fl hx
    · have h0 : R.fl x ≤ 0 := by have := R.mono x 0 hx; rwa [Rounding.fl_zero] at this
      have he := R.err x
      rw [abs_of_nonpos hx, abs_of_nonpos h0]
      rw [abs_of_nonpos hx, abs_le] at he
      have hu := R.one_sub_pos
      have hu0 := R.u0
      refine ⟨by linarith, by linarith, ?_, ?_⟩
      · rw [pow_one]
        unfold Rounding.g
        rw [div_mul_eq_mul_div, one_mul, le_div_iff₀ hu]
        nlinarith
      · rw [pow_one]
        unfold Rounding.g
        rw [div_mul_eq_mul_div, one_mul, le_div_iff₀ hu]
        nlinarith
  have := h.mul h
  rwa [abs_mul_abs_self, abs_mul_abs_self] at this

theorem normalizeVecFl_length {fl : ℝ → ℝ} (T : EigenSum fl) (v : List ℝ) : (normalizeVecFl T v).length = v.length := by
  unfold normalizeVecFl
  split_ifs <;> simp

theorem dot_eq_zero {n : Nat} {x : Nat → ℝ} (h : dot n x x = 0) (i : Nat) (hi : i < n) : x i = 0 := by
  have := (Finset.sum_eq_zero_iff_of_nonneg fun j _ => mul_self_nonneg (x j)).1 h i (mem_range.2 hi)
  exact mul_self_eq_zero.1 this

/-- What the rounded normalisation does. -/
theorem normalizeVecFl_spec (T : EigenSum R.fl) (w : List ℝ) :
    (dot w.length (vec w) (vec w) = 0 → normalizeVecFl T w = w) ∧
    (dot w.length (vec w) (vec w) ≠ 0 → ∃ c > 0, (∀ i, vec (normalizeVecFl T w) i = R.fl (vec w i * c)) ∧
      R.Near (w.length + 4) (dot w.length (vec (normalizeVecFl T w)) (vec (normalizeVecFl T w))) 1) := by
  have hz := squaredNormFl_near (R := R) T w
  refine ⟨fun h0 => ?_, fun h0 => ?_⟩
  · unfold normalizeVecFl
    rw [if_neg (by rw [hz.eq_zero h0]; exact lt_irrefl _)]
  · have hd : 0 < dot w.length (vec w) (vec w) := lt_of_le_of_ne (dot_self_nonneg _ _) (Ne.symm h0)
    have hp := hz.pos hd
    have hsq : 0 < √(squaredNormFl T w) := Real.sqrt_pos.2 hp
    have hν := (Rounding.near_fl (R := R) hsq.le).pos hsq
    have hv : ∀ i, vec (normalizeVecFl T w) i = R.fl (vec w i * (R.fl (√(squaredNormFl T w)))⁻¹) := by
      intro i
      unfold normalizeVecFl
      rw [if_pos hp, vec_map w _ (by rw [zero_div]; exact Rounding.fl_zero), div_eq_mul_inv]
    refine ⟨(R.fl (√(squaredNormFl T w)))⁻¹, inv_pos.2 hν, hv, ?_⟩
    obtain ⟨ν, hνe⟩ : ∃ ν, ν = R.fl (√(squaredNormFl T w)) := ⟨_, rfl⟩
    rw [← hνe] at hν hv
    have n1 : R.Near 2 (ν * ν) (squaredNormFl T w) := by
      have := (Rounding.near_fl (R := R) hsq.le).mul (Rounding.near_fl (R := R) hsq.le)
      rwa [← hνe, Real.mul_self_sqrt hp.le] at this
    have n2 := (n1.trans hz)
    have n3 : R.Near 2 (dot w.length (vec (normalizeVecFl T w)) (vec (normalizeVecFl T w)))
        (dot w.length (vec w) (vec w) * (ν * ν)⁻¹) := by
      unfold dot
      rw [Finset.sum_mul, ← sum_list_range, ← sum_list_range]
      refine near_list_sum _ _ _ fun i _ => ?_
      rw [hv i]
      have := fl_sq (R := R) (vec w i * ν⁻¹)
      rwa [show vec w i * ν⁻¹ * (vec w i * ν⁻¹) = vec w i * vec w i * (ν * ν)⁻¹ by rw [mul_inv]; ring] at this
    have n4 := (Rounding.Near.refl (R := R) (k := 0) hd.le).mul n2.inv
    rw [mul_inv_cancel₀ hd.ne'] at n4
    exact (n3.trans n4).mono (by omega)

/-- One iteration: the direction of the exact product, up to an error. -/
theorem iterate_spec (S T : EigenSum R.fl) {m : SprsMat ℝ} {n s q : Nat} (hr : m.rows = n) (hc : m.cols = n)
    {A B : Nat → Nat → ℝ} (hA : ∀ i < n, ∀ j < n, Close R s (B i j) (m.coeff i j) (A i j))
    (hq : ∀ i < n, ((range n).filter (fun j => m.coeff i j ≠ 0)).card ≤ q + 1) {β : ℝ}
    (hβ : ∀ x : Nat → ℝ, ∑ i ∈ range n, (∑ j ∈ range n, B i j * x j) ^ 2 ≤ β ^ 2 * dot n x x) (v : List ℝ) :
    ∃ c > 0, ∃ e : Nat → ℝ,
      (∀ i < n, vec (normalizeVecFl T (m.mulVecFl S v)) i = c * (mulv n A (vec v) i + e i)) ∧
      dot n e e ≤ ((R.g ^ (s + q + 2) - 1) * β) ^ 2 * dot n (vec v) (vec v) := by
  have hw := mulVecFl_close S hr hc hA hq v
  have hlen : (m.mulVecFl S v).length = n := by rw [mulVecFl_length, hr]
  obtain ⟨w, hwe⟩ : ∃ w, w = m.mulVecFl S v := ⟨_, rfl⟩
  rw [← hwe] at hw hlen ⊢
  obtain ⟨s1, s2⟩ := normalizeVecFl_spec (R := R) T w
  rw [hlen] at s1 s2
  have key : ∃ c > 0, ∀ i < n, |vec (normalizeVecFl T w) i - c * mulv n A (vec v) i| ≤
      c * ((R.g ^ (s + q + 2) - 1) * ∑ j ∈ range n, B i j * |vec v j|) := by
    by_cases h0 : dot n (vec w) (vec w) = 0
    · refine ⟨1, one_pos, fun i hi => ?_⟩
      rw [s1 h0, one_mul, one_mul]
      exact ((hw i hi).mono (show s + 1 + q ≤ s + q + 2 by omega) le_rfl).1
    · obtain ⟨c, hc0, h1, -⟩ := s2 h0
      refine ⟨c, hc0, fun i hi => ?_⟩
      have := (((hw i hi).mul_const c).fl).1
      rw [← h1 i, abs_of_pos hc0, show s + 1 + q + 1 = s + q + 2 by omega] at this
      calc _ = |vec (normalizeVecFl T w) i - mulv n A (vec v) i * c| := by rw [mul_comm c]
        _ ≤ _ := this
        _ = _ := by ring
  obtain ⟨c, hc0, hk⟩ := key
  refine ⟨c, hc0, fun i => vec (normalizeVecFl T w) i / c - mulv n A (vec v) i, fun i _ => ?_, ?_⟩
  · field_simp
    ring
  · have hg := sub_nonneg.2 (Rounding.g_pow_one_le (R := R) (s + q + 2))
    have h1 : ∀ i ∈ range n, (vec (normalizeVecFl T w) i / c - mulv n A (vec v) i) *
        (vec (normalizeVecFl T w) i / c - mulv n A (vec v) i) ≤
        (R.g ^ (s + q + 2) - 1) ^ 2 * (∑ j ∈ range n, B i j * |vec v j|) ^ 2 := by
      intro i hi
      have h2 := hk i (mem_range.1 hi)
      have h3 : |vec (normalizeVecFl T w) i / c - mulv n A (vec v) i| ≤
          (R.g ^ (s + q + 2) - 1) * ∑ j ∈ range n, B i j * |vec v j| := by
        have : vec (normalizeVecFl T w) i / c - mulv n A (vec v) i
            = (vec (normalizeVecFl T w) i - c * mulv n A (vec v) i) / c := by field_simp
        rw [this, abs_div, abs_of_pos hc0, div_le_iff₀ hc0]
        linarith
      rw [← sq, ← sq_abs, ← mul_pow]
      exact pow_le_pow_left₀ (abs_nonneg _) h3 2
    refine (Finset.sum_le_sum h1).trans ?_
    rw [← Finset.mul_sum, mul_pow, mul_assoc]
    refine mul_le_mul_of_nonneg_left ((hβ fun j => |vec v j|).trans (le_of_eq ?_)) (sq_nonneg _)
    congr 1
    exact Finset.sum_congr rfl fun j _ => abs_mul_abs_self _

/-! ## Norms -/

theorem nrm_nonneg (n : Nat) (x : Nat → ℝ) : 0 ≤ nrm n x := Real.sqrt_nonneg _

theorem nrm_sq (n : Nat) (x : Nat → ℝ) : nrm n x ^ 2 = dot n x x := Real.sq_sqrt (dot_self_nonneg _ _)

theorem nrm_add (n : Nat) (x y : Nat → ℝ) : nrm n (fun i => x i + y i) ≤ nrm n x + nrm n y := by
  have h := minkowski (range n) x y
  have e : ∀ z : Nat → ℝ, ∑ i ∈ range n, z i ^ 2 = dot n z z := fun z => Finset.sum_congr rfl fun _ _ => sq _
  rw [e, e, e] at h
  exact Real.sqrt_le_iff.2 ⟨add_nonneg (nrm_nonneg _ _) (nrm_nonneg _ _), h⟩

theorem nrm_smul (n : Nat) (c : ℝ) (x : Nat → ℝ) : nrm n (fun i => c * x i) = |c| * nrm n x := by
  unfold nrm
  rw [dot_smul, Real.sqrt_mul (sq_nonneg c), Real.sqrt_sq_eq_abs]

theorem nrm_congr {n : Nat} {x y : Nat → ℝ} (h : ∀ i < n, x i = y i) : nrm n x = nrm n y := by
  unfold nrm
  rw [dot_congr h h]

theorem nrm_le_of {n : Nat} {x : Nat → ℝ} {a : ℝ} (ha : 0 ≤ a) (h : dot n x x ≤ a ^ 2) : nrm n x ≤ a :=
  Real.sqrt_le_iff.2 ⟨ha, h⟩

theorem dot_le_nrm (n : Nat) (x y : Nat → ℝ) : |dot n x y| ≤ nrm n x * nrm n y := by
  unfold nrm
  rw [← Real.sqrt_mul (dot_self_nonneg _ _)]
  exact Real.abs_le_sqrt (dot_cs n x y)

theorem powerLoopFl_succ {fl : ℝ → ℝ} (S T : EigenSum fl) (m : SprsMat ℝ) (t : Nat) (v : List ℝ) :
    powerLoopFl S T m (t + 1) v = normalizeVecFl T (m.mulVecFl S (powerLoopFl S T m t v)) := by
  induction t generalizing v with
  | zero => rfl
  | succ t ih =>
    change powerLoopFl S T m (t + 1) _ = _
    rw [ih]
    rfl

theorem powerLoopFl_length {fl : ℝ → ℝ} (S T : EigenSum fl) (m : SprsMat ℝ) (t : Nat) (v : List ℝ) (hv : v.length = m.rows) :
    (powerLoopFl S T m t v).length = m.rows := by
  cases t with
  | zero => exact hv
  | succ t => rw [powerLoopFl_succ, normalizeVecFl_length, mulVecFl_length]

/-- The computed vector after `t` iterations is a multiple of the exact power, up to an error. -/
theorem powerLoopFl_direct (S T : EigenSum R.fl) {m : SprsMat ℝ} {n s q : Nat} (hr : m.rows = n) (hc : m.cols = n)
    {A B : Nat → Nat → ℝ} (hA : ∀ i < n, ∀ j < n, Close R s (B i j) (m.coeff i j) (A i j))
    (hq : ∀ i < n, ((range n).filter (fun j => m.coeff i j ≠ 0)).card ≤ q + 1) {β : ℝ} (hβ0 : 0 ≤ β)
    (hβ : ∀ x : Nat → ℝ, ∑ i ∈ range n, (∑ j ∈ range n, B i j * x j) ^ 2 ≤ β ^ 2 * dot n x x) {L : ℝ} (hL0 : 0 ≤ L)
    (hL : ∀ x : Nat → ℝ, nrm n (mulv n A x) ≤ L * nrm n x) (v : List ℝ) (t : Nat) :
    ∃ c > 0, ∃ e : Nat → ℝ,
      (∀ i < n, vec (powerLoopFl S T m t v) i = c * (powv n A t (vec v) i + e i)) ∧
      nrm n e ≤ ((L + (R.g ^ (s + q + 2) - 1) * β) ^ t - L ^ t) * nrm n (vec v) := by
  obtain ⟨η, hη⟩ : ∃ η, η = (R.g ^ (s + q + 2) - 1) * β := ⟨_, rfl⟩
  have hη0 : 0 ≤ η := by
    rw [hη]
    exact mul_nonneg (sub_nonneg.2 (Rounding.g_pow_one_le (R := R) _)) hβ0
  have hpow : ∀ t, nrm n (powv n A t (vec v)) ≤ L ^ t * nrm n (vec v) := by
    intro t
    induction t with
    | zero => simp [powv]
    | succ t ih =>
      refine (hL _).trans ((mul_le_mul_of_nonneg_left ih hL0).trans (le_of_eq ?_))
      ring
  rw [← hη]
  induction t with
  | zero => exact ⟨1, one_pos, fun _ => 0, fun i _ => by simp [powerLoopFl, powv], by simp [nrm, dot]⟩
  | succ t ih =>
    obtain ⟨c, hc0, e, h1, h2⟩ := ih
    obtain ⟨c', hc0', e', h1', h2'⟩ := iterate_spec S T hr hc hA hq hβ (powerLoopFl S T m t v)
    rw [← hη] at h2'
    have hx : nrm n (vec (powerLoopFl S T m t v)) ≤ c * ((L + η) ^ t * nrm n (vec v)) := by
      rw [nrm_congr h1, nrm_smul, abs_of_pos hc0]
      refine mul_le_mul_of_nonneg_left ((nrm_add _ _ _).trans ?_) hc0.le
      linarith [hpow t]
    have he' : nrm n e' ≤ η * (c * ((L + η) ^ t * nrm n (vec v))) := by
      refine nrm_le_of (mul_nonneg hη0 ((nrm_nonneg _ _).trans hx)) (h2'.trans ?_)
      rw [mul_pow, ← nrm_sq]
      exact mul_le_mul_of_nonneg_left (pow_le_pow_left₀ (nrm_nonneg _ _) hx 2) (sq_nonneg _)
    refine ⟨c' * c, mul_pos hc0' hc0, fun i => mulv n A e i + c⁻¹ * e' i, fun i hi => ?_, ?_⟩
    · rw [powerLoopFl_succ, h1' i hi, mulv_congr h1, mulv_smul]
      have : mulv n A (fun i => powv n A t (vec v) i + e i) i = powv n A (t + 1) (vec v) i + mulv n A e i := by
        show ∑ j ∈ range n, _ = ∑ j ∈ range n, _ + ∑ j ∈ range n, _
        rw [← Finset.sum_add_distrib]
        exact Finset.sum_congr rfl fun j _ => by ring
      beta_reduce
      rw [this]
      field_simp
      ring
    · refine (nrm_add _ _ _).trans ?_
      rw [nrm_smul, abs_of_pos (inv_pos.2 hc0)]
      have a1 := (hL e).trans (mul_le_mul_of_nonneg_left h2 hL0)
      have a2 := mul_le_mul_of_nonneg_left he' (inv_pos.2 hc0).le
      rw [show c⁻¹ * (η * (c * ((L + η) ^ t * nrm n (vec v)))) = η * ((L + η) ^ t * nrm n (vec v)) by field_simp] at a2
      refine (add_le_add a1 a2).trans (le_of_eq ?_)
      ring

/-! ## Convergence -/

/-- The part of `x` orthogonal to `b`. -/
noncomputable def offPart (n : Nat) (b x : Nat → ℝ) (i : Nat) : ℝ := x i + -dot n b x * b i

theorem offPart_ortho {n : Nat} {b : Nat → ℝ} (hbu : dot n b b = 1) (x : Nat → ℝ) : dot n b (offPart n b x) = 0 := by
  unfold offPart
  rw [dot_add_right, dot_smul_right, hbu]
  ring

theorem offPart_sq {n : Nat} {b : Nat → ℝ} (hbu : dot n b b = 1) (x : Nat → ℝ) :
    nrm n (offPart n b x) = √(dot n x x - dot n b x ^ 2) := by
  unfold nrm
  congr 1
  have e : ∀ i, x i = offPart n b x i + dot n b x * b i := fun i => by unfold offPart; ring
  have h1 : dot n (offPart n b x) (offPart n b x) = dot n (offPart n b x) x := by
    conv_lhs => rw [show (offPart n b x) = fun i => x i + -dot n b x * b i from rfl]
    rw [show (fun i => x i + -dot n b x * b i) = offPart n b x from rfl]
    have : dot n (offPart n b x) (fun i => x i + -dot n b x * b i) = dot n (offPart n b x) x := by
      rw [dot_add_right, dot_smul_right, dot_comm n _ b, offPart_ortho hbu]
      ring
    exact this
  rw [h1, dot_comm]
  unfold offPart
  rw [dot_add_right, dot_smul_right, dot_comm n x b]
  ring

/-- One inexact iteration. -/
theorem gap_step {n : Nat} {A : Nat → Nat → ℝ} (hsym : ∀ i < n, ∀ j < n, A i j = A j i) {l mu : ℝ} {b : Nat → ℝ}
    (hb : IsEigen n A l b) (hbu : dot n b b = 1) (hmu0 : 0 ≤ mu)
    (hcon : ∀ x, dot n b x = 0 → nrm n (mulv n A x) ≤ mu * nrm n x) {η ρ : ℝ} (hη0 : 0 ≤ η) (hρ0 : 0 ≤ ρ)
    (hηl : η * (1 + ρ) < |l|) {x y e : Nat → ℝ} {c : ℝ} (hc0 : 0 < c) (hy : ∀ i < n, y i = c * (mulv n A x i + e i))
    (he : nrm n e ≤ η * nrm n x) (hx : dot n b x ≠ 0) (hρ : nrm n (offPart n b x) ≤ ρ * |dot n b x|) :
    dot n b y ≠ 0 ∧
    nrm n (offPart n b y) ≤ (mu * ρ + η * (1 + ρ)) / (|l| - η * (1 + ρ)) * |dot n b y| := by
  have hbn : nrm n b = 1 := by unfold nrm; rw [hbu, Real.sqrt_one]
  have hbM : ∀ x, dot n b (mulv n A x) = l * dot n b x := by
    intro x
    have h1 : ∀ i < n, mulv n A b i = l * b i := hb
    rw [← mulv_symm hsym, dot_comm, dot_congr (fun _ _ => rfl) h1, dot_smul_right, dot_comm]
  obtain ⟨a, ha⟩ : ∃ a, a = |dot n b x| := ⟨_, rfl⟩
  have ha0 : 0 < a := by rw [ha]; exact abs_pos.2 hx
  rw [← ha] at hρ
  have hxn : nrm n x ≤ (1 + ρ) * a := by
    have : nrm n x = nrm n (fun i => offPart n b x i + dot n b x * b i) :=
      nrm_congr fun i _ => by unfold offPart; ring
    rw [this]
    refine (nrm_add _ _ _).trans ?_
    rw [nrm_smul, hbn, mul_one, ← ha]
    linarith
  have hen : nrm n e ≤ η * (1 + ρ) * a := he.trans (by rw [mul_assoc]; exact mul_le_mul_of_nonneg_left hxn hη0)
  have hby : dot n b y = c * (l * dot n b x + dot n b e) := by
    rw [dot_congr (fun _ _ => rfl) hy, dot_smul_right, dot_add_right, hbM]
  have hbe : |dot n b e| ≤ η * (1 + ρ) * a := by
    have := dot_le_nrm n b e
    rw [hbn, one_mul] at this
    exact this.trans hen
  have hlow : c * ((|l| - η * (1 + ρ)) * a) ≤ |dot n b y| := by
    rw [hby, abs_mul, abs_of_pos hc0]
    refine mul_le_mul_of_nonneg_left ?_ hc0.le
    have h1 := abs_sub_abs_le_abs_sub (l * dot n b x) (-dot n b e)
    rw [abs_neg, sub_neg_eq_add, abs_mul, ← ha] at h1
    linarith
  have hden : 0 < |l| - η * (1 + ρ) := by linarith
  have hup : nrm n (offPart n b y) ≤ c * ((mu * ρ + η * (1 + ρ)) * a) := by
    have e1 : ∀ i < n, offPart n b y i = c * (mulv n A (offPart n b x) i + offPart n b e i) := by
      intro i hi
      have h2 : mulv n A (offPart n b x) i = mulv n A x i + -dot n b x * (l * b i) := by
        rw [← hb i hi]
        unfold mulv offPart
        rw [Finset.mul_sum, ← Finset.sum_add_distrib]
        exact Finset.sum_congr rfl fun j _ => by ring
      rw [h2]
      unfold offPart
      rw [hby, hy i hi]
      ring
    have h3 : nrm n (offPart n b e) ≤ nrm n e := by
      rw [offPart_sq hbu]
      exact Real.sqrt_le_sqrt (by linarith [sq_nonneg (dot n b e)])
    rw [nrm_congr e1, nrm_smul, abs_of_pos hc0]
    refine mul_le_mul_of_nonneg_left ((nrm_add _ _ _).trans ?_) hc0.le
    have h4 := (hcon _ (offPart_ortho hbu x)).trans (mul_le_mul_of_nonneg_left hρ hmu0)
    linarith
  refine ⟨fun h0 => ?_, hup.trans ?_⟩
  · rw [h0, abs_zero] at hlow
    have := mul_pos hc0 (mul_pos hden ha0)
    linarith
  · have h5 : 0 ≤ (mu * ρ + η * (1 + ρ)) / (|l| - η * (1 + ρ)) :=
      div_nonneg (add_nonneg (mul_nonneg hmu0 hρ0) (mul_nonneg hη0 (by linarith))) hden.le
    refine le_trans (le_of_eq ?_) (mul_le_mul_of_nonneg_left hlow h5)
    field_simp

/-- The recursion of the tangents. -/
theorem tangent_bound {l mu η κ ρ : ℝ} {t : Nat} (hmu0 : 0 ≤ mu) (hmu : mu < l) (hη0 : 0 ≤ η) (hκ : 0 < κ)
    (hκη : η * (1 + κ) ^ 2 ≤ κ * (l - mu)) (hρ0 : 0 ≤ ρ) (hρκ : ρ ≤ κ)
    (hρ : ρ ≤ ((mu + η) / (l - η * (1 + κ))) ^ t * κ + η / (l - mu - η * (2 + κ))) :
    η * (1 + ρ) < l ∧ (mu * ρ + η * (1 + ρ)) / (l - η * (1 + ρ)) ≤ κ ∧
    (mu * ρ + η * (1 + ρ)) / (l - η * (1 + ρ)) ≤
      ((mu + η) / (l - η * (1 + κ))) ^ (t + 1) * κ + η / (l - mu - η * (2 + κ)) := by
  have h1 : η * (2 + κ) < l - mu := by
    rcases hη0.eq_or_lt with h0 | h0
    · rw [← h0, zero_mul]; linarith
    · by_contra hcon
      have : κ * (l - mu) ≤ κ * (η * (2 + κ)) := mul_le_mul_of_nonneg_left (not_lt.1 hcon) hκ.le
      nlinarith
  have h2 : η * (1 + ρ) ≤ η * (1 + κ) := mul_le_mul_of_nonneg_left (by linarith) hη0
  have hD : 0 < l - η * (1 + κ) := by linarith [show η * (2 + κ) = η * (1 + κ) + η by ring]
  have hF : 0 < l - mu - η * (2 + κ) := by linarith
  have hf : (mu * ρ + η * (1 + ρ)) / (l - η * (1 + ρ)) ≤ (mu + η) / (l - η * (1 + κ)) * ρ + η / (l - η * (1 + κ)) := by
    rw [div_mul_eq_mul_div, ← add_div]
    have hnum : 0 ≤ mu * ρ + η * (1 + ρ) := add_nonneg (mul_nonneg hmu0 hρ0) (mul_nonneg hη0 (by linarith))
    refine (div_le_div_of_nonneg_left hnum hD (by linarith)).trans (le_of_eq ?_)
    congr 1
    ring
  refine ⟨by linarith, hf.trans ?_, hf.trans ?_⟩
  · rw [div_mul_eq_mul_div, ← add_div, div_le_iff₀ hD]
    have : (mu + η) * ρ ≤ (mu + η) * κ := mul_le_mul_of_nonneg_left hρκ (by linarith)
    nlinarith
  · obtain ⟨p, hp⟩ : ∃ p, p = (mu + η) / (l - η * (1 + κ)) := ⟨_, rfl⟩
    have hp0 : 0 ≤ p := by rw [hp]; exact div_nonneg (by linarith) hD.le
    have h3 : p * (η / (l - mu - η * (2 + κ))) + η / (l - η * (1 + κ)) = η / (l - mu - η * (2 + κ)) := by
      rw [hp]
      field_simp
      ring
    rw [← hp] at hρ ⊢
    have h4 := mul_le_mul_of_nonneg_left hρ hp0
    rw [pow_succ]
    linarith [show p * (p ^ t * κ + η / (l - mu - η * (2 + κ))) = p ^ t * p * κ + p * (η / (l - mu - η * (2 + κ))) by ring]

/-! ## The statements -/

theorem powerMethodFl_ok {fl : ℝ → ℝ} (S T : EigenSum fl) {m : SprsMat ℝ} {n : Nat} (hr : m.rows = n) (hc : m.cols = n) (t : Nat)
    {v : List ℝ} (hv : v.length = n) : powerMethodFl S T m t v = .ok (powerLoopFl S T m t v) := by
  unfold powerMethodFl
  rw [if_neg (by omega), if_neg (by omega), if_neg (by omega), Int.toNat_natCast]

theorem normFl_zero (T : EigenSum R.fl) (v : List ℝ) :
    R.fl (√(squaredNormFl T v)) = 0 ↔ ∀ x ∈ v, x = 0 := by
  have hz := squaredNormFl_near (R := R) T v
  have hsq : R.fl (√(squaredNormFl T v)) = 0 ↔ squaredNormFl T v = 0 := by
    constructor
    · intro h
      by_contra h0
      have hp : 0 < squaredNormFl T v := lt_of_le_of_ne hz.x0 (Ne.symm h0)
      have := (Rounding.near_fl (R := R) (Real.sqrt_nonneg (squaredNormFl T v))).pos (Real.sqrt_pos.2 hp)
      linarith
    · intro h
      rw [h, Real.sqrt_zero, Rounding.fl_zero]
  have hd : squaredNormFl T v = 0 ↔ dot v.length (vec v) (vec v) = 0 :=
    ⟨fun h => hz.symm.eq_zero h, fun h => hz.eq_zero h⟩
  rw [hsq, hd]
  constructor
  · intro h x hx
    obtain ⟨i, hi, rfl⟩ := List.getElem_of_mem hx
    have := dot_eq_zero h i hi
    unfold vec at this
    rwa [List.getD_eq_getElem _ _ hi] at this
  · intro h
    refine Finset.sum_eq_zero fun i hi => ?_
    have : vec v i = 0 := by
      unfold vec
      rw [List.getD_eq_getElem _ _ (mem_range.1 hi)]
      exact h _ (List.getElem_mem _)
    rw [this, mul_zero]

/-- **C104** (exceptions).  In floating point the two functions raise the same exceptions as in exact arithmetic (C54), and
return otherwise. -/
theorem C104_arguments (S T : EigenSum R.fl) (pw : ℝ → ℝ) (m : SprsMat ℝ) (t : Int) (v : List ℝ) :
    (powerMethodFl S T m t v = .throw .invalidArgument ↔ t < 0 ∨ m.rows ≠ m.cols ∨ v.length ≠ m.rows) ∧
    ((∃ r, powerMethodFl S T m t v = .ok r) ↔ 0 ≤ t ∧ m.rows = m.cols ∧ v.length = m.rows) ∧
    (rayleighQuotientFl S T pw m v = .throw .invalidArgument ↔ m.rows ≠ m.cols ∨ v.length ≠ m.rows ∨ ∀ x ∈ v, x = 0) ∧
    ((∃ r, rayleighQuotientFl S T pw m v = .ok r) ↔ m.rows = m.cols ∧ v.length = m.rows ∧ ∃ x ∈ v, x ≠ 0) := by
  have hz := normFl_zero T v
  have hne : (¬ ∀ x ∈ v, x = 0) ↔ ∃ x ∈ v, x ≠ 0 := by push Not; rfl
  unfold powerMethodFl rayleighQuotientFl
  refine ⟨?_, ?_, ?_, ?_⟩
  · by_cases h1 : t < 0
    · simp [h1]
    · by_cases h2 : m.rows = m.cols
      · by_cases h3 : v.length = m.rows
        · simp [h1, h2, h3]
        · simp [h1, h2, h2 ▸ h3]
      · simp [h1, h2]
  · by_cases h1 : t < 0
    · simp [h1]
    · by_cases h2 : m.rows = m.cols
      · by_cases h3 : v.length = m.rows
        · simp [h1, h2, h3, not_lt.1 h1]
        · simp [h1, h2, h2 ▸ h3]
      · simp [h1, h2]
  · by_cases h2 : m.rows = m.cols
    · by_cases h3 : v.length = m.rows
      · by_cases h4 : R.fl (√(squaredNormFl T v)) = 0
        · have h5 := hz.1 h4
          rw [if_neg (not_not.2 h2), if_neg (not_not.2 h3), if_pos h4]
          simp only [true_iff]
          exact Or.inr (Or.inr h5)
        · rw [if_neg (not_not.2 h2), if_neg (not_not.2 h3), if_neg h4]
          constructor
          · intro h; cases h
          · rintro (h | h | h)
            · exact absurd h2 h
            · exact absurd h3 h
            · exact absurd (hz.2 h) h4
      · simp [h2, h2 ▸ h3]
    · simp [h2]
  · by_cases h2 : m.rows = m.cols
    · by_cases h3 : v.length = m.rows
      · by_cases h4 : R.fl (√(squaredNormFl T v)) = 0
        · have h5 := hz.1 h4
          rw [if_neg (not_not.2 h2), if_neg (not_not.2 h3), if_pos h4]
          constructor
          · rintro ⟨r, h⟩; cases h
          · rintro ⟨-, -, h⟩; exact absurd h5 (hne.2 h)
        · rw [if_neg (not_not.2 h2), if_neg (not_not.2 h3), if_neg h4]
          exact ⟨fun _ => ⟨h2, h3, hne.1 fun h => h4 (hz.2 h)⟩, fun _ => ⟨_, rfl⟩⟩
      · simp [h2, h2 ▸ h3]
    · simp [h2]

variable {m : SprsMat ℝ} {n s q : Nat} {A B : Nat → Nat → ℝ}

/-- **C104** (what is computed).  Let the entries of the matrix passed to `power_method` be off from those of a matrix `A` by at
most `s` roundings relative to bounds `B` (`s = 0`: `A` is the matrix itself), with at most `q` non-zero entries in a row, `β` a
bound of the norm of `B` and `L` one of `A`.  With `η = ((1/(1-u))^(s+q+2) - 1) β`, the vector computed after `t` iterations is a
positive multiple of `A^t v` up to an error of at most `((L + η)^t - L^t) |v|` before the scaling.  After at least one
iteration its squared length is 0, or within `(1/(1-u))^(n+4) - 1` of 1. -/
theorem C104_power (S T : EigenSum R.fl) (hr : m.rows = n) (hc : m.cols = n)
    (hA : ∀ i < n, ∀ j < n, |m.coeff i j - A i j| ≤ ((1 / (1 - R.u)) ^ s - 1) * B i j ∧ |A i j| ≤ B i j)
    (hq : ∀ i < n, ((range n).filter (fun j => m.coeff i j ≠ 0)).card ≤ q) {β : ℝ} (hβ0 : 0 ≤ β)
    (hβ : ∀ x : Nat → ℝ, nrm n (mulv n B x) ≤ β * nrm n x) {L : ℝ} (hL0 : 0 ≤ L)
    (hL : ∀ x : Nat → ℝ, nrm n (mulv n A x) ≤ L * nrm n x) (v : List ℝ) (hv : v.length = n) (t : Nat) {η : ℝ}
    (hη : η = ((1 / (1 - R.u)) ^ (s + q + 2) - 1) * β) :
    ∃ r, powerMethodFl S T m t v = .ok r ∧ r.length = n ∧
      (∃ c > 0, nrm n (fun i => vec r i - c * powv n A t (vec v) i) ≤ c * (((L + η) ^ t - L ^ t) * nrm n (vec v))) ∧
      (1 ≤ t → dot n (vec r) (vec r) = 0 ∨ |dot n (vec r) (vec r) - 1| ≤ (1 / (1 - R.u)) ^ (n + 4) - 1) := by
  have hβ' : ∀ x : Nat → ℝ, ∑ i ∈ range n, (∑ j ∈ range n, B i j * x j) ^ 2 ≤ β ^ 2 * dot n x x := by
    intro x
    have := pow_le_pow_left₀ (nrm_nonneg _ _) (hβ x) 2
    rw [mul_pow, nrm_sq, nrm_sq] at this
    exact le_trans (le_of_eq (Finset.sum_congr rfl fun _ _ => sq _)) this
  obtain ⟨c, hc0, e, h1, h2⟩ := powerLoopFl_direct S T hr hc (s := s) (q := q) hA
    (fun i hi => (hq i hi).trans (Nat.le_succ _)) hβ0 hβ' hL0 hL v t
  refine ⟨_, powerMethodFl_ok S T hr hc t hv, by rw [powerLoopFl_length _ _ _ _ _ (hv.trans hr.symm), hr], ⟨c, hc0, ?_⟩, ?_⟩
  · rw [nrm_congr (y := fun i => c * e i) fun i hi => by rw [h1 i hi]; ring, nrm_smul, abs_of_pos hc0, hη]
    exact mul_le_mul_of_nonneg_left h2 hc0.le
  · intro ht
    obtain ⟨t, rfl⟩ : ∃ k, t = k + 1 := ⟨t - 1, by omega⟩
    rw [powerLoopFl_succ]
    obtain ⟨w, hw⟩ : ∃ w, w = m.mulVecFl S (powerLoopFl S T m t v) := ⟨_, rfl⟩
    have hlen : w.length = n := by rw [hw, mulVecFl_length, hr]
    rw [← hw]
    obtain ⟨s1, s2⟩ := normalizeVecFl_spec (R := R) T w
    rw [hlen] at s1 s2
    by_cases h0 : dot n (vec w) (vec w) = 0
    · left; rw [s1 h0]; exact h0
    · right
      obtain ⟨-, -, -, h3⟩ := s2 h0
      have := h3.abs_sub
      rw [mul_one] at this
      exact this

/-- **C104** (convergence).  With `A`, `B`, `s`, `q`, `β` and `η` as before, let `A` be symmetric with a unit eigenvector `b` of
the eigenvalue `l`, all other eigenvalues being at most `mu < |l|` in magnitude.  If the tangent of the angle between the start
and `b` is at most `κ` and `η (1 + κ)² ≤ κ (|l| - mu)`, then for every number of iterations `t` the tangent of the angle between
the computed vector and `b` is at most `((mu + η) / (|l| - η (1 + κ)))^t κ + η / (|l| - mu - η (2 + κ))`: the rounding errors
do not accumulate.  After at least one iteration the squared length of the vector is within `(1/(1-u))^(n+4) - 1` of 1. -/
theorem C104_convergence (S T : EigenSum R.fl) (hr : m.rows = n) (hc : m.cols = n)
    (hA : ∀ i < n, ∀ j < n, |m.coeff i j - A i j| ≤ ((1 / (1 - R.u)) ^ s - 1) * B i j ∧ |A i j| ≤ B i j)
    (hq : ∀ i < n, ((range n).filter (fun j => m.coeff i j ≠ 0)).card ≤ q) {β : ℝ} (hβ0 : 0 ≤ β)
    (hβ : ∀ x : Nat → ℝ, nrm n (mulv n B x) ≤ β * nrm n x) (hsym : ∀ i < n, ∀ j < n, A i j = A j i) {l mu : ℝ}
    {b : Nat → ℝ} (hb : IsEigen n A l b) (hbu : dot n b b = 1) (hmu0 : 0 ≤ mu) (hmu : mu < |l|)
    (hgap : ∀ k x, IsEigen n A k x → (∃ i < n, x i ≠ 0) → dot n b x = 0 → |k| ≤ mu) {η : ℝ}
    (hη : η = ((1 / (1 - R.u)) ^ (s + q + 2) - 1) * β) (v : List ℝ) (hv : v.length = n) {κ : ℝ} (hκ : 0 < κ)
    (hstart : dot n b (vec v) ≠ 0) (htan : √(dot n (vec v) (vec v) - dot n b (vec v) ^ 2) ≤ κ * |dot n b (vec v)|)
    (hκη : η * (1 + κ) ^ 2 ≤ κ * (|l| - mu)) (t : Nat) :
    ∃ r, powerMethodFl S T m t v = .ok r ∧ r.length = n ∧ dot n b (vec r) ≠ 0 ∧
      √(dot n (vec r) (vec r) - dot n b (vec r) ^ 2) ≤
        (((mu + η) / (|l| - η * (1 + κ))) ^ t * κ + η / (|l| - mu - η * (2 + κ))) * |dot n b (vec r)| ∧
      (1 ≤ t → |dot n (vec r) (vec r) - 1| ≤ (1 / (1 - R.u)) ^ (n + 4) - 1) := by
  have hη0 : 0 ≤ η := by
    rw [hη]
    exact mul_nonneg (sub_nonneg.2 (Rounding.g_pow_one_le (R := R) _)) hβ0
  have hβ' : ∀ x : Nat → ℝ, ∑ i ∈ range n, (∑ j ∈ range n, B i j * x j) ^ 2 ≤ β ^ 2 * dot n x x := by
    intro x
    have := pow_le_pow_left₀ (nrm_nonneg _ _) (hβ x) 2
    rw [mul_pow, nrm_sq, nrm_sq] at this
    exact le_trans (le_of_eq (Finset.sum_congr rfl fun _ _ => sq _)) this
  have hcon : ∀ x, dot n b x = 0 → nrm n (mulv n A x) ≤ mu * nrm n x := by
    intro x hx
    refine nrm_le_of (mul_nonneg hmu0 (nrm_nonneg _ _)) ?_
    rw [mul_pow, nrm_sq]
    exact contracts hsym hb hmu hgap hbu x hx
  have hfin : 0 ≤ η / (|l| - mu - η * (2 + κ)) := by
    refine div_nonneg hη0 ?_
    by_contra hneg
    have h1 : κ * (|l| - mu) ≤ κ * (η * (2 + κ)) := mul_le_mul_of_nonneg_left (by linarith [not_le.1 hneg]) hκ.le
    have h2 : η = 0 := le_antisymm (by nlinarith) hη0
    rw [h2] at hneg
    linarith [not_le.1 hneg]
  have main : ∀ t, dot n b (vec (powerLoopFl S T m t v)) ≠ 0 ∧ ∃ ρ, 0 ≤ ρ ∧ ρ ≤ κ ∧
      ρ ≤ ((mu + η) / (|l| - η * (1 + κ))) ^ t * κ + η / (|l| - mu - η * (2 + κ)) ∧
      nrm n (offPart n b (vec (powerLoopFl S T m t v))) ≤ ρ * |dot n b (vec (powerLoopFl S T m t v))| := by
    intro t
    induction t with
    | zero =>
      refine ⟨hstart, κ, hκ.le, le_rfl, ?_, ?_⟩
      · rw [pow_zero, one_mul]; linarith
      · rw [offPart_sq hbu]; exact htan
    | succ t ih =>
      obtain ⟨h1, ρ, h2, h3, h4, h5⟩ := ih
      obtain ⟨k1, k2, k3⟩ := tangent_bound hmu0 hmu hη0 hκ hκη h2 h3 h4
      obtain ⟨c, hc0, e, i1, i2⟩ := iterate_spec S T hr hc (s := s) (q := q) hA
        (fun i hi => (hq i hi).trans (Nat.le_succ _)) hβ' (powerLoopFl S T m t v)
      have he : nrm n e ≤ η * nrm n (vec (powerLoopFl S T m t v)) := by
        refine nrm_le_of (mul_nonneg hη0 (nrm_nonneg _ _)) ?_
        rw [mul_pow, nrm_sq, hη]
        exact i2
      rw [← powerLoopFl_succ] at i1
      obtain ⟨j1, j2⟩ := gap_step hsym hb hbu hmu0 hcon hη0 h2 k1 hc0 i1 he h1 h5
      refine ⟨j1, _, ?_, k2, k3, j2⟩
      exact div_nonneg (add_nonneg (mul_nonneg hmu0 h2) (mul_nonneg hη0 (by linarith))) (by linarith)
  obtain ⟨h1, ρ, -, -, h2, h3⟩ := main t
  refine ⟨_, powerMethodFl_ok S T hr hc t hv, by rw [powerLoopFl_length _ _ _ _ _ (hv.trans hr.symm), hr], h1, ?_, ?_⟩
  · rw [← offPart_sq hbu]
    exact h3.trans (mul_le_mul_of_nonneg_right h2 (abs_nonneg _))
  · intro ht
    obtain ⟨t, rfl⟩ : ∃ k, t = k + 1 := ⟨t - 1, by omega⟩
    rw [powerLoopFl_succ] at h1 ⊢
    obtain ⟨w, hw⟩ : ∃ w, w = m.mulVecFl S (powerLoopFl S T m t v) := ⟨_, rfl⟩
    have hlen : w.length = n := by rw [hw, mulVecFl_length, hr]
    rw [← hw] at h1 ⊢
    obtain ⟨s1, s2⟩ := normalizeVecFl_spec (R := R) T w
    rw [hlen] at s1 s2
    have h0 : dot n (vec w) (vec w) ≠ 0 := by
      intro h0
      apply h1
      rw [s1 h0]
      exact Finset.sum_eq_zero fun i hi => by rw [dot_eq_zero h0 i (mem_range.1 hi), mul_zero]
    obtain ⟨-, -, -, h3⟩ := s2 h0
    have := h3.abs_sub
    rw [mul_one] at this
    exact this

/-- **C104** (Rayleigh quotient).  With `A`, `B`, `s` and `β` as before and at most `q` non-zero entries in a column, `pow(x, 2)`
being off by at most two roundings: for every vector that is not zero, `rayleigh_quotient` returns a number within
`((1/(1-u))^(s+q+2n+7) - 1) β` of the Rayleigh quotient of `A`. -/
theorem C104_rayleigh (S T : EigenSum R.fl) (pw : ℝ → ℝ)
    (hpw : ∀ x, 0 ≤ x → (1 - R.u) ^ 2 * x ^ 2 ≤ pw x ∧ (1 - R.u) ^ 2 * pw x ≤ x ^ 2) (hr : m.rows = n) (hc : m.cols = n)
    (hA : ∀ i < n, ∀ j < n, |m.coeff i j - A i j| ≤ ((1 / (1 - R.u)) ^ s - 1) * B i j ∧ |A i j| ≤ B i j)
    (hq : ∀ j < n, ((range n).filter (fun i => m.coeff i j ≠ 0)).card ≤ q) {β : ℝ} (hβ0 : 0 ≤ β)
    (hβ : ∀ x : Nat → ℝ, nrm n (mulv n B x) ≤ β * nrm n x) (v : List ℝ) (hv : v.length = n) (hne : ∃ x ∈ v, x ≠ 0) :
    ∃ ρ, rayleighQuotientFl S T pw m v = .ok ρ ∧
      |ρ - quadForm n A (vec v) / dot n (vec v) (vec v)| ≤ ((1 / (1 - R.u)) ^ (s + q + 2 * n + 7) - 1) * β := by
  have hz0 : R.fl (√(squaredNormFl T v)) ≠ 0 := by
    intro h
    obtain ⟨x, hx, h0⟩ := hne
    exact h0 ((normFl_zero T v).1 h x hx)
  have hz := squaredNormFl_near (R := R) T v
  rw [hv] at hz
  have hd : 0 < dot n (vec v) (vec v) := by
    refine lt_of_le_of_ne (dot_self_nonneg _ _) fun h => hz0 ?_
    rw [hz.eq_zero h.symm, Real.sqrt_zero, Rounding.fl_zero]
  have hp := hz.pos hd
  have hsq : 0 < √(squaredNormFl T v) := Real.sqrt_pos.2 hp
  have hν := (Rounding.near_fl (R := R) hsq.le).pos hsq
  unfold rayleighQuotientFl
  rw [if_neg (by omega), if_neg (by omega), if_neg hz0]
  refine ⟨_, rfl, ?_⟩
  have hu := R.one_sub_pos
  obtain ⟨ν, hνe⟩ : ∃ ν, ν = R.fl (√(squaredNormFl T v)) := ⟨_, rfl⟩
  rw [← hνe] at hν ⊢
  have n1 : R.Near 2 (ν ^ 2) (squaredNormFl T v) := by
    have := (Rounding.near_fl (R := R) hsq.le).mul (Rounding.near_fl (R := R) hsq.le)
    rwa [← hνe, Real.mul_self_sqrt hp.le, ← sq] at this
  have n2 : R.Near 2 (pw ν) (ν ^ 2) := by
    obtain ⟨p1, p2⟩ := hpw ν hν.le
    have hg : R.g ^ 2 = 1 / (1 - R.u) ^ 2 := by unfold Rounding.g; rw [div_pow, one_pow]
    have hu2 : 0 < (1 - R.u) ^ 2 := pow_pos hu 2
    refine ⟨le_trans (by positivity) p1, by positivity, ?_, ?_⟩
    · rw [hg, div_mul_eq_mul_div, one_mul, le_div_iff₀ hu2]; linarith
    · rw [hg, div_mul_eq_mul_div, one_mul, le_div_iff₀ hu2]; linarith
  have n3 : R.Near (n + 4) (pw ν) (dot n (vec v) (vec v)) := ((n2.trans n1).trans hz).mono (by omega)
  have hnum : Close R (s + q + 2 + n) (∑ j ∈ range n, (∑ i ∈ range n, B i j * |vec v i|) * |vec v j|)
      (T.sum ((List.range v.length).map (fun j => R.fl ((m.vecMulFl S v).getD j 0 * v.getD j 0))))
      (∑ j ∈ range n, (∑ i ∈ range n, A i j * vec v i) * vec v j) := by
    rw [hv]
    have hf : (List.range n).filter (fun _ => true) = List.range n := by simp
    rw [← hf]
    refine Close.sum (t := s + q + 2) (k := n) (c := fun _ => true) (fun j hj => ?_) (by simp) (T.spec _) (by simp)
    have e : vec (m.vecMulFl S v) j = S.sum (((List.range n).filter (fun i => decide (m.coeff i j ≠ 0))).map
        (fun i => R.fl (v.getD i 0 * m.coeff i j))) := by
      unfold vec SprsMat.vecMulFl
      rw [List.getD_eq_getElem?_getD, List.getElem?_map, List.getElem?_range (by omega), hr]
      rfl
    have h1 : Close R (s + 1 + q) (∑ i ∈ range n, B i j * |vec v i|) (vec (m.vecMulFl S v) j)
        (∑ i ∈ range n, A i j * vec v i) := by
      rw [e]
      refine Close.sum (fun i hi => ?_) _ ?_ (S.spec _) ?_
      · rw [mul_comm (v.getD i 0)]
        have hh : Close R s (B i j) (m.coeff i j) (A i j) := hA i hi j hj
        exact (hh.mul_const (vec v i)).fl
      · intro i _ h
        have : m.coeff i j = 0 := by simpa using h
        rw [this, mul_zero]
        exact Rounding.fl_zero
      · have := hq j hj
        rw [Finset.card_def] at this
        exact le_trans this (Nat.le_succ q)
    have h2 := (h1.mul_const (vec v j)).fl
    rw [show s + 1 + q + 1 = s + q + 2 by omega] at h2
    exact h2
  have hquad : ∑ j ∈ range n, (∑ i ∈ range n, A i j * vec v i) * vec v j = quadForm n A (vec v) := by
    unfold quadForm
    rw [Finset.sum_comm]
    refine Finset.sum_congr rfl fun j _ => ?_
    rw [Finset.sum_mul]
    exact Finset.sum_congr rfl fun i _ => by ring
  have hB : ∑ j ∈ range n, (∑ i ∈ range n, B i j * |vec v i|) * |vec v j| ≤ β * dot n (vec v) (vec v) := by
    obtain ⟨x, hx⟩ : ∃ x : Nat → ℝ, x = fun i => |vec v i| := ⟨_, rfl⟩
    have e1 : ∑ j ∈ range n, (∑ i ∈ range n, B i j * |vec v i|) * |vec v j| = dot n x (mulv n B x) := by
      unfold dot mulv
      rw [Finset.sum_congr rfl fun j _ => Finset.sum_mul _ _ _, Finset.sum_comm]
      refine Finset.sum_congr rfl fun i _ => ?_
      rw [Finset.mul_sum, hx]
      exact Finset.sum_congr rfl fun j _ => by ring
    have e2 : nrm n x = nrm n (vec v) := by
      unfold nrm
      congr 1
      rw [hx]
      exact Finset.sum_congr rfl fun j _ => abs_mul_abs_self _
    rw [e1, ← nrm_sq]
    refine (le_abs_self _).trans ((dot_le_nrm n x _).trans ((mul_le_mul_of_nonneg_left (hβ x) (nrm_nonneg _ _)).trans ?_))
    rw [e2]
    exact le_of_eq (by ring)
  have hfin := ((hnum.mono le_rfl hB).div hd n3).fl
  rw [hquad, mul_div_assoc, div_self hd.ne', mul_one] at hfin
  have := hfin.1
  rw [show s + q + 2 + n + (n + 4) + 1 = s + q + 2 * n + 7 by omega] at this
  exact this

/-! ## Positive semidefinite matrices -/

theorem exists_sprs (n : Nat) (A : Nat → Nat → ℝ) : ∃ M : SprsMat ℝ, M.rows = n ∧ M.cols = n ∧
    ∀ i < n, ∀ j < n, M.coeff i j = A i j := by
  refine ⟨SprsMat.ofCols n n (fun j => (sparseView n (fun i => A i j)).col), rfl, rfl, fun i hi j hj => ?_⟩
  unfold SprsMat.coeff
  rw [SprsMat.col_ofCols, if_pos hj]
  have := (sparseView_ok n (fun i => A i j)).2.2 i
  unfold SVec.get at this
  rw [this, if_pos hi]

theorem quadForm_mat {n : Nat} {A A' : Nat → Nat → ℝ} (h : ∀ i < n, ∀ j < n, A i j = A' i j) (x : Nat → ℝ) :
    quadForm n A x = quadForm n A' x :=
  Finset.sum_congr rfl fun i hi => Finset.sum_congr rfl fun j hj => by rw [h i (mem_range.1 hi) j (mem_range.1 hj)]

theorem powv_mat {n : Nat} {A A' : Nat → Nat → ℝ} (h : ∀ i < n, ∀ j < n, A i j = A' i j) (t : Nat) (x : Nat → ℝ) :
    ∀ i < n, powv n A t x i = powv n A' t x i := by
  induction t with
  | zero => intro i _; rfl
  | succ t ih =>
    intro i hi
    show mulv n A (powv n A t x) i = mulv n A' (powv n A' t x) i
    unfold mulv
    exact Finset.sum_congr rfl fun j hj => by rw [h i hi j (mem_range.1 hj), ih j (mem_range.1 hj)]

/-- The Rayleigh quotient of `A^t x`. -/
theorem moments_lower {n : Nat} {A : Nat → Nat → ℝ} (hsym : ∀ i < n, ∀ j < n, A i j = A j i) (hpsd : ∀ x, 0 ≤ quadForm n A x)
    {l : ℝ} {b : Nat → ℝ} (hb : IsEigen n A l b) (hbu : dot n b b = 1) (v : List ℝ) (hv : v.length = n) (t : Nat)
    (ha : 0 < dot n (powv n A t (vec v)) (powv n A t (vec v))) :
    l ^ (2 * t) * dot n b (vec v) ^ 2 ≤
      (quadForm n A (powv n A t (vec v)) / dot n (powv n A t (vec v)) (powv n A t (vec v))) ^ (2 * t) *
        dot n (vec v) (vec v) := by
  obtain ⟨M, hMr, hMc, hM⟩ := exists_sprs n A
  subst hMr
  have hsymM : ∀ i < M.rows, ∀ j < M.rows, M.coeff i j = M.coeff j i := fun i hi j hj => by
    rw [hM i hi j hj, hM j hj i hi, hsym i hi j hj]
  have hpsdM : ∀ x, 0 ≤ quadForm M.rows M.coeff x := fun x => by rw [quadForm_mat hM]; exact hpsd x
  have hbM : IsEigen M.rows M.coeff l b := fun i hi => by
    rw [← hb i hi]
    exact Finset.sum_congr rfl fun j hj => by rw [hM i hi j (mem_range.1 hj)]
  have hpw := powv_mat hM t (vec v)
  obtain ⟨r, hr⟩ : ∃ r, powerMethod M (t : Int) v = .ok r :=
    (C54_arguments M t v).2.1.2 ⟨by positivity, hMc.symm, hv⟩
  have hNr : r.length = M.rows ∧ ∃ N : ℝ, ∀ i < M.rows, powv M.rows M.coeff t (vec v) i = N * vec r i := by
    cases t with
    | zero =>
      have h0 := (C54_power_method M hMc.symm v hv 0).1
      rw [Nat.cast_zero, h0, Outcome.ok.injEq] at hr
      subst hr
      exact ⟨hv, 1, fun i _ => by simp [powv]⟩
    | succ t =>
      obtain ⟨-, r', h1, h2, h3, -, -⟩ := C54_power_method M hMc.symm v hv t
      push_cast at hr
      rw [hr, Outcome.ok.injEq] at h1
      subst h1
      exact ⟨h2, _, fun i hi => by rw [mul_comm]; exact (h3 i hi).symm⟩
  obtain ⟨hrl, N, hN⟩ := hNr
  have hne : ∃ x ∈ r, x ≠ 0 := by
    by_contra hall
    push Not at hall
    refine ha.ne' (Finset.sum_eq_zero fun i hi => ?_)
    have : vec r i = 0 := by
      unfold vec
      rw [List.getD_eq_getElem _ _ (by rw [hrl]; exact mem_range.1 hi)]
      exact hall _ (List.getElem_mem _)
    rw [← hpw i (mem_range.1 hi), hN i (mem_range.1 hi), this, mul_zero, mul_zero]
  obtain ⟨ρ, hρ⟩ := (C54_arguments M 0 r).2.2.2.2 ⟨hMc.symm, hrl, hne⟩
  obtain ⟨-, -, hfin⟩ := C54_rayleigh_increases M hMc.symm hsymM hpsdM v hv t hr hρ
  obtain ⟨-, hmom⟩ := rayleigh_moments M hMc.symm hsymM v hv t hr hρ
  have e0 : dot M.rows (vec v) (powv M.rows M.coeff (2 * t) (vec v)) =
      dot M.rows (powv M.rows A t (vec v)) (powv M.rows A t (vec v)) := by
    rw [two_mul, ← moment hsymM, dot_congr hpw hpw]
  have e1 : dot M.rows (vec v) (powv M.rows M.coeff (2 * t + 1) (vec v)) = quadForm M.rows A (powv M.rows A t (vec v)) := by
    rw [two_mul, add_assoc, ← moment hsymM, quadForm_dot]
    exact dot_congr hpw (powv_mat hM (t + 1) (vec v))
  rw [e0, e1] at hmom
  rw [hmom, mul_div_assoc, div_self ha.ne', mul_one]
  exact hfin l b hbM hbu

/-- The length of `A x`. -/
theorem psd_norm {n : Nat} {A : Nat → Nat → ℝ} (hsym : ∀ i < n, ∀ j < n, A i j = A j i) (hpsd : ∀ x, 0 ≤ quadForm n A x)
    {l : ℝ} (hl : 0 ≤ l) (hup : ∀ x, quadForm n A x ≤ l * dot n x x) (x : Nat → ℝ) : nrm n (mulv n A x) ≤ l * nrm n x := by
  refine nrm_le_of (mul_nonneg hl (nrm_nonneg _ _)) ?_
  rw [mul_pow, nrm_sq]
  obtain ⟨y, hy⟩ : ∃ y, y = mulv n A x := ⟨_, rfl⟩
  have h1 := quadForm_cs hsym hpsd x y
  have e1 : dot n x (mulv n A y) = dot n y y := by rw [← mulv_symm hsym, ← hy]
  have e2 : ∀ z, dot n z (mulv n A z) = quadForm n A z := fun z => (quadForm_dot n A z).symm
  rw [← hy]
  rw [e1, e2, e2] at h1
  have h0 := dot_self_nonneg n y
  have hx0 := dot_self_nonneg n x
  have h2 : quadForm n A x * quadForm n A y ≤ l * dot n x x * (l * dot n y y) :=
    mul_le_mul (hup x) (hup y) (hpsd y) (mul_nonneg hl hx0)
  rcases h0.eq_or_lt with h3 | h3
  · rw [← h3]; positivity
  · have : dot n y y * dot n y y ≤ l ^ 2 * dot n x x * dot n y y := by nlinarith
    exact le_of_mul_le_mul_right this h3

/-- The square root of the quadratic form is a seminorm. -/
theorem quad_triangle {n : Nat} {A : Nat → Nat → ℝ} (hsym : ∀ i < n, ∀ j < n, A i j = A j i) (hpsd : ∀ x, 0 ≤ quadForm n A x)
    (x e : Nat → ℝ) : √(quadForm n A x) ≤ √(quadForm n A (fun i => x i + e i)) + √(quadForm n A e) := by
  obtain ⟨y, hy⟩ : ∃ y : Nat → ℝ, y = fun i => x i + e i := ⟨_, rfl⟩
  rw [← hy]
  have e2 : ∀ z, dot n z (mulv n A z) = quadForm n A z := fun z => (quadForm_dot n A z).symm
  have h1 := quadForm_cs hsym hpsd y e
  rw [e2, e2] at h1
  have hx : quadForm n A x = quadForm n A y - 2 * dot n y (mulv n A e) + quadForm n A e := by
    have hxe : x = fun i => y i + -1 * e i := by funext i; rw [hy]; ring
    rw [← e2, ← e2, ← e2, hxe, mulv_add, mulv_smul]
    rw [dot_add_right, dot_smul_right, dot_comm n _ (mulv n A y), dot_comm n _ (mulv n A e), dot_add_right, dot_add_right,
      dot_smul_right, dot_smul_right, mulv_symm hsym y e, dot_comm n (mulv n A y) y, dot_comm n (mulv n A e) e,
      dot_comm n (mulv n A e) y]
    ring
  have h3 : |dot n y (mulv n A e)| ≤ √(quadForm n A y) * √(quadForm n A e) := by
    rw [← Real.sqrt_mul (hpsd y)]
    exact Real.abs_le_sqrt h1
  refine Real.sqrt_le_iff.2 ⟨add_nonneg (Real.sqrt_nonneg _) (Real.sqrt_nonneg _), ?_⟩
  rw [hx, add_sq, Real.sq_sqrt (hpsd y), Real.sq_sqrt (hpsd e)]
  have := (abs_le.1 h3).1
  linarith

/-- The Rayleigh quotient of a perturbed vector. -/
theorem rayleigh_perturb {n : Nat} {A : Nat → Nat → ℝ} (hsym : ∀ i < n, ∀ j < n, A i j = A j i)
    (hpsd : ∀ x, 0 ≤ quadForm n A x) {l : ℝ} (hl : 0 ≤ l) (hup : ∀ x, quadForm n A x ≤ l * dot n x x) {a e r : Nat → ℝ}
    {c ε : ℝ} (hc0 : 0 < c) (hr : ∀ i < n, r i = c * (a i + e i)) (ha : 0 < dot n a a) (hε : ε < 1)
    (he : nrm n e ≤ ε * nrm n a) :
    0 < dot n r r ∧ quadForm n A r / dot n r r ≤ l ∧ quadForm n A a / dot n a a - 4 * ε * l ≤ quadForm n A r / dot n r r := by
  obtain ⟨y, hy⟩ : ∃ y : Nat → ℝ, y = fun i => a i + e i := ⟨_, rfl⟩
  have hna : 0 < nrm n a := Real.sqrt_pos.2 ha
  have hε0 : 0 ≤ ε := by
    by_contra h
    have := (nrm_nonneg n e).trans he
    nlinarith [not_le.1 h]
  have hrd : dot n r r = c ^ 2 * dot n y y := by
    rw [dot_congr hr hr, hy]; exact dot_smul n c _
  have hrq : quadForm n A r = c ^ 2 * quadForm n A y := by
    rw [quadForm_dot, quadForm_dot, hy, mulv_congr hr, mulv_smul, dot_congr hr (fun _ _ => rfl), dot_smul_left, dot_smul_right]
    ring
  have hny : nrm n y ≤ (1 + ε) * nrm n a := by
    rw [hy]
    refine (nrm_add _ _ _).trans ?_
    linarith
  have hny' : (1 - ε) * nrm n a ≤ nrm n y := by
    have h1 := nrm_add n y (fun i => -1 * e i)
    rw [nrm_smul, abs_neg, abs_one, one_mul, nrm_congr (y := a) (fun i _ => by rw [hy]; ring)] at h1
    linarith
  have hyp : 0 < nrm n y := lt_of_lt_of_le (mul_pos (by linarith) hna) hny'
  have hyd : 0 < dot n y y := by rw [← nrm_sq]; positivity
  have hq : quadForm n A r / dot n r r = quadForm n A y / dot n y y := by
    rw [hrd, hrq, mul_div_mul_left _ _ (pow_pos hc0 2).ne']
  refine ⟨by rw [hrd]; positivity, ?_, ?_⟩
  · rw [hq, div_le_iff₀ hyd]; exact hup y
  · rw [hq]
    have h1 := quad_triangle hsym hpsd a e
    rw [← hy] at h1
    have h2 : √(quadForm n A e) ≤ √l * (ε * nrm n a) := by
      refine (Real.sqrt_le_sqrt (hup e)).trans ?_
      rw [Real.sqrt_mul hl]
      exact mul_le_mul_of_nonneg_left he (Real.sqrt_nonneg _)
    have h3 : √(quadForm n A a) ≤ √l * nrm n a := by
      refine (Real.sqrt_le_sqrt (hup a)).trans (le_of_eq ?_)
      rw [Real.sqrt_mul hl]; rfl
    obtain ⟨α, hα⟩ : ∃ α, α = √(quadForm n A a) / nrm n a := ⟨_, rfl⟩
    have hα2 : quadForm n A a / dot n a a = α ^ 2 := by rw [hα, div_pow, Real.sq_sqrt (hpsd a), nrm_sq]
    have hα0 : 0 ≤ α := by rw [hα]; positivity
    have hαl : α ≤ √l := by rw [hα, div_le_iff₀ hna]; exact h3
    have hα1 : √(quadForm n A a) = α * nrm n a := by rw [hα]; field_simp
    have hσ : α - 2 * ε * √l ≤ √(quadForm n A y) / nrm n y := by
      rw [le_div_iff₀ hyp]
      rcases le_total (α - 2 * ε * √l) 0 with h0 | h0
      · exact (mul_nonpos_of_nonpos_of_nonneg h0 hyp.le).trans (Real.sqrt_nonneg _)
      · refine (mul_le_mul_of_nonneg_left hny h0).trans ?_
        have h5 : (α - 2 * ε * √l) * (1 + ε) ≤ α - ε * √l := by
          have : ε * α ≤ ε * √l := mul_le_mul_of_nonneg_left hαl hε0
          nlinarith [mul_nonneg (mul_nonneg hε0 hε0) (Real.sqrt_nonneg l)]
        have h6 := mul_le_mul_of_nonneg_right h5 hna.le
        linarith
    have hfin : quadForm n A y / dot n y y = (√(quadForm n A y) / nrm n y) ^ 2 := by
      rw [div_pow, Real.sq_sqrt (hpsd y), nrm_sq]
    rw [hα2, hfin]
    have hs2 : √l ^ 2 = l := Real.sq_sqrt hl
    have hσ0 : 0 ≤ √(quadForm n A y) / nrm n y := by positivity
    obtain ⟨σ, hσe⟩ : ∃ σ, σ = √(quadForm n A y) / nrm n y := ⟨_, rfl⟩
    rw [← hσe] at hσ hσ0 ⊢
    have h7 : α * √l ≤ l := by
      have := mul_le_mul_of_nonneg_right hαl (Real.sqrt_nonneg l)
      rwa [Real.mul_self_sqrt hl] at this
    have h8 : ε * (α * √l) ≤ ε * l := mul_le_mul_of_nonneg_left h7 hε0
    rcases le_total (α - 2 * ε * √l) 0 with h0 | h0
    · have : α ^ 2 ≤ 2 * ε * √l * α := by nlinarith
      nlinarith [mul_nonneg hε0 hl]
    · have := pow_le_pow_left₀ h0 hσ 2
      nlinarith [mul_nonneg (mul_nonneg hε0 hε0) hl]

/-- The start. -/
theorem randomUnitVectorFl_spec (T : EigenSum R.fl) (gs : List ℝ) :
    (randomUnitVectorFl T (gs.map R.fl)).length = gs.length ∧ ∃ c > 0, ∃ e : Nat → ℝ,
      (∀ i < gs.length, vec (randomUnitVectorFl T (gs.map R.fl)) i = c * (vec gs i + e i)) ∧
      nrm gs.length e ≤ (R.g ^ 2 - 1) * nrm gs.length (vec gs) := by
  unfold randomUnitVectorFl
  obtain ⟨w, hw⟩ : ∃ w, w = gs.map R.fl := ⟨_, rfl⟩
  have hlen : w.length = gs.length := by rw [hw, List.length_map]
  have hwi : ∀ i, vec w i = R.fl (vec gs i) := fun i => by rw [hw, vec_map _ _ Rounding.fl_zero]
  rw [← hw]
  refine ⟨by rw [normalizeVecFl_length, hlen], ?_⟩
  obtain ⟨s1, s2⟩ := normalizeVecFl_spec (R := R) T w
  rw [hlen] at s1 s2
  have h0 : ∀ i, Close R 1 |vec gs i| (vec w i) (vec gs i) := fun i => by
    rw [hwi i]; exact (Close.refl (t := 0) (vec gs i)).fl
  have key : ∃ c > 0, ∀ i, |vec (normalizeVecFl T w) i - c * vec gs i| ≤ c * ((R.g ^ 2 - 1) * |vec gs i|) := by
    by_cases hz : dot gs.length (vec w) (vec w) = 0
    · refine ⟨1, one_pos, fun i => ?_⟩
      rw [s1 hz, one_mul, one_mul]
      exact ((h0 i).mono (show 1 ≤ 2 by norm_num) le_rfl).1
    · obtain ⟨c, hc0, h1, -⟩ := s2 hz
      refine ⟨c, hc0, fun i => ?_⟩
      have := (((h0 i).mul_const c).fl).1
      rw [← h1 i, abs_of_pos hc0] at this
      calc _ = |vec (normalizeVecFl T w) i - vec gs i * c| := by rw [mul_comm c]
        _ ≤ _ := this
        _ = _ := by ring
  obtain ⟨c, hc0, hk⟩ := key
  refine ⟨c, hc0, fun i => vec (normalizeVecFl T w) i / c - vec gs i, fun i _ => by field_simp; ring, ?_⟩
  have hg := sub_nonneg.2 (Rounding.g_pow_one_le (R := R) 2)
  refine nrm_le_of (mul_nonneg hg (nrm_nonneg _ _)) ?_
  rw [mul_pow, nrm_sq]
  unfold dot
  rw [Finset.mul_sum]
  refine Finset.sum_le_sum fun i _ => ?_
  have h3 : |vec (normalizeVecFl T w) i / c - vec gs i| ≤ (R.g ^ 2 - 1) * |vec gs i| := by
    have : vec (normalizeVecFl T w) i / c - vec gs i = (vec (normalizeVecFl T w) i - c * vec gs i) / c := by field_simp
    rw [this, abs_div, abs_of_pos hc0, div_le_iff₀ hc0]
    linarith [hk i]
  have := pow_le_pow_left₀ (abs_nonneg _) h3 2
  rw [sq_abs, mul_pow, sq_abs] at this
  rw [← sq, ← sq]
  exact this

/-- A start with a component in the direction of an eigenvector of the largest eigenvalue, rounded. -/
theorem power_from_fl (S T : EigenSum R.fl) (pw : ℝ → ℝ)
    (hpw : ∀ x, 0 ≤ x → (1 - R.u) ^ 2 * x ^ 2 ≤ pw x ∧ (1 - R.u) ^ 2 * pw x ≤ x ^ 2) (hr : m.rows = n) (hc : m.cols = n)
    (hA : ∀ i < n, ∀ j < n, |m.coeff i j - A i j| ≤ ((1 / (1 - R.u)) ^ s - 1) * B i j ∧ |A i j| ≤ B i j)
    (hq : ∀ i < n, ((range n).filter (fun j => m.coeff i j ≠ 0)).card ≤ q)
    (hq' : ∀ j < n, ((range n).filter (fun i => m.coeff i j ≠ 0)).card ≤ q) {β : ℝ} (hβ0 : 0 ≤ β)
    (hβ : ∀ x : Nat → ℝ, nrm n (mulv n B x) ≤ β * nrm n x) (hsym : ∀ i < n, ∀ j < n, A i j = A j i)
    (hpsd : ∀ x, 0 ≤ quadForm n A x) {l : ℝ} {b : Nat → ℝ} (hb : IsEigen n A l b) (hbu : dot n b b = 1) (hl : 0 < l)
    (hup : ∀ x, quadForm n A x ≤ l * dot n x x) {η : ℝ} (hη : η = ((1 / (1 - R.u)) ^ (s + q + 2) - 1) * β) (t : Nat)
    (gs : List ℝ) (hgs : gs.length = n) (hc0 : dot n b (vec gs) ≠ 0) {K ε : ℝ} (hK0 : 0 ≤ K)
    (hK : nrm n (vec gs) ≤ K * |dot n b (vec gs)|)
    (hε : ε = (((1 / (1 - R.u)) ^ 2 - 1) + ((1 + η / l) ^ t - 1) * (1 / (1 - R.u)) ^ 2) * K) (hε1 : ε < 1) :
    ∃ r ρ Q, powerMethodRandomFl S T m t (gs.map R.fl) = .ok r ∧ rayleighQuotientFl S T pw m r = .ok ρ ∧
      0 ≤ Q ∧ Q ≤ l ∧ l ^ (2 * t) * dot n b (vec gs) ^ 2 ≤ Q ^ (2 * t) * dot n (vec gs) (vec gs) ∧
      Q - 4 * ε * l - ((1 / (1 - R.u)) ^ (s + q + 2 * n + 7) - 1) * β ≤ ρ ∧
      ρ ≤ l + ((1 / (1 - R.u)) ^ (s + q + 2 * n + 7) - 1) * β := by
  have hη0 : 0 ≤ η := by
    rw [hη]
    exact mul_nonneg (sub_nonneg.2 (Rounding.g_pow_one_le (R := R) _)) hβ0
  have hβ' : ∀ x : Nat → ℝ, ∑ i ∈ range n, (∑ j ∈ range n, B i j * x j) ^ 2 ≤ β ^ 2 * dot n x x := by
    intro x
    have := pow_le_pow_left₀ (nrm_nonneg _ _) (hβ x) 2
    rw [mul_pow, nrm_sq, nrm_sq] at this
    exact le_trans (le_of_eq (Finset.sum_congr rfl fun _ _ => sq _)) this
  have hL := psd_norm hsym hpsd hl.le hup
  obtain ⟨v0len, c0, hcc0, e0, h1, h2⟩ := randomUnitVectorFl_spec (R := R) T gs
  rw [hgs] at v0len h1 h2
  obtain ⟨v0, hv0⟩ : ∃ v0, v0 = randomUnitVectorFl T (gs.map R.fl) := ⟨_, rfl⟩
  rw [← hv0] at v0len h1
  obtain ⟨c, hcp, e, h3, h4⟩ := powerLoopFl_direct S T hr hc (s := s) (q := q) hA
    (fun i hi => (hq i hi).trans (Nat.le_succ _)) hβ0 hβ' hl.le hL v0 t
  have hηg : (R.g ^ (s + q + 2) - 1) * β = η := hη.symm
  rw [hηg] at h4
  obtain ⟨a, ha⟩ : ∃ a, a = powv n A t (vec gs) := ⟨_, rfl⟩
  obtain ⟨G, hG⟩ : ∃ G, G = R.g ^ 2 := ⟨_, rfl⟩
  have hG1 : 1 ≤ G := by rw [hG]; exact Rounding.g_pow_one_le (R := R) 2
  rw [← hG] at h2
  have hε' : ε = ((G - 1) + ((1 + η / l) ^ t - 1) * G) * K := by rw [hG]; exact hε
  have hpow : ∀ x, nrm n (powv n A t x) ≤ l ^ t * nrm n x := by
    intro x
    clear * - hL hl
    induction t with
    | zero => simp [powv]
    | succ t ih =>
      refine (hL _).trans ((mul_le_mul_of_nonneg_left ih hl.le).trans (le_of_eq ?_))
      ring
  have hba : dot n b a = l ^ t * dot n b (vec gs) := by rw [ha]; exact dot_eigen_powv hsym hb _ t
  have hbn : nrm n b = 1 := by unfold nrm; rw [hbu, Real.sqrt_one]
  have hlp : 0 < l ^ t := pow_pos hl t
  have hna : l ^ t * |dot n b (vec gs)| ≤ nrm n a := by
    have := dot_le_nrm n b a
    rw [hba, abs_mul, abs_of_pos hlp, hbn, one_mul] at this
    exact this
  have hnap : 0 < nrm n a := lt_of_lt_of_le (mul_pos hlp (abs_pos.2 hc0)) hna
  have hda : 0 < dot n a a := by rw [← nrm_sq]; positivity
  have hv0n : nrm n (vec v0) ≤ c0 * (G * nrm n (vec gs)) := by
    rw [nrm_congr h1, nrm_smul, abs_of_pos hcc0]
    refine mul_le_mul_of_nonneg_left ((nrm_add _ _ _).trans ?_) hcc0.le
    linarith
  have hri : ∀ i < n, vec (powerLoopFl S T m t v0) i = (c * c0) * (a i + (powv n A t e0 i + c0⁻¹ * e i)) := by
    intro i hi
    have h5 : powv n A t (vec v0) i = c0 * (a i + powv n A t e0 i) := by
      rw [powv_congr t h1 i hi, powv_smul, powv_add, ha]
    rw [h3 i hi, h5]
    field_simp
    ring
  have hratio : (l + η) ^ t - l ^ t = l ^ t * ((1 + η / l) ^ t - 1) := by
    rw [show l + η = l * (1 + η / l) by field_simp, mul_pow]
    ring
  have hgrow : 0 ≤ (1 + η / l) ^ t - 1 := sub_nonneg.2 (one_le_pow₀ (by linarith [div_nonneg hη0 hl.le]))
  have herr : nrm n (fun i => powv n A t e0 i + c0⁻¹ * e i) ≤ ε * nrm n a := by
    refine (nrm_add _ _ _).trans ?_
    rw [nrm_smul, abs_of_pos (inv_pos.2 hcc0)]
    have h6 := (hpow e0).trans (mul_le_mul_of_nonneg_left h2 hlp.le)
    have h7 : c0⁻¹ * nrm n e ≤ l ^ t * ((1 + η / l) ^ t - 1) * (G * nrm n (vec gs)) := by
      rw [← hratio]
      have h8 : 0 ≤ (l + η) ^ t - l ^ t := by rw [hratio]; exact mul_nonneg hlp.le hgrow
      have h9 := mul_le_mul_of_nonneg_left (h4.trans (mul_le_mul_of_nonneg_left hv0n h8)) (inv_pos.2 hcc0).le
      refine h9.trans (le_of_eq ?_)
      field_simp
    have h10 : 0 ≤ (G - 1) + ((1 + η / l) ^ t - 1) * G := add_nonneg (by linarith) (mul_nonneg hgrow (by linarith))
    calc nrm n (powv n A t e0) + c0⁻¹ * nrm n e
        ≤ l ^ t * ((G - 1) * nrm n (vec gs)) + l ^ t * ((1 + η / l) ^ t - 1) * (G * nrm n (vec gs)) := add_le_add h6 h7
      _ = l ^ t * (((G - 1) + ((1 + η / l) ^ t - 1) * G) * nrm n (vec gs)) := by ring
      _ ≤ l ^ t * (((G - 1) + ((1 + η / l) ^ t - 1) * G) * (K * |dot n b (vec gs)|)) :=
          mul_le_mul_of_nonneg_left (mul_le_mul_of_nonneg_left hK h10) hlp.le
      _ = ε * (l ^ t * |dot n b (vec gs)|) := by rw [hε']; ring
      _ ≤ ε * nrm n a := mul_le_mul_of_nonneg_left hna (by rw [hε']; exact mul_nonneg h10 hK0)
  obtain ⟨k1, k2, k3⟩ := rayleigh_perturb hsym hpsd hl.le hup (mul_pos hcp hcc0) hri hda hε1 herr
  have hlen : (powerLoopFl S T m t v0).length = n := by rw [powerLoopFl_length _ _ _ _ _ (v0len.trans hr.symm), hr]
  have hne : ∃ x ∈ powerLoopFl S T m t v0, x ≠ 0 := by
    by_contra hall
    push Not at hall
    refine k1.ne' (Finset.sum_eq_zero fun i hi => ?_)
    have : vec (powerLoopFl S T m t v0) i = 0 := by
      unfold vec
      rw [List.getD_eq_getElem _ _ (by rw [hlen]; exact mem_range.1 hi)]
      exact hall _ (List.getElem_mem _)
    rw [this, mul_zero]
  obtain ⟨ρ, hρ, hρ2⟩ := C104_rayleigh S T pw hpw hr hc hA hq' hβ0 hβ _ hlen hne
  obtain ⟨i1, i2⟩ := abs_le.1 hρ2
  refine ⟨_, ρ, quadForm n A a / dot n a a, ?_, hρ, div_nonneg (hpsd a) hda.le, ?_, ?_, ?_, ?_⟩
  · unfold powerMethodRandomFl
    rw [← hv0]
    exact powerMethodFl_ok S T hr hc t v0len
  · rw [div_le_iff₀ hda]; exact hup a
  · rw [ha] at hda ⊢
    exact moments_lower hsym hpsd hb hbu gs hgs t hda
  · linarith
  · linarith

/-! ## A random start -/

open MeasureTheory in
/-- **C104** (random start, any number of iterations).  `A` is symmetric positive semidefinite with largest eigenvalue
`l > 0`, and `m` the matrix of `double`s the program has in its place.  The start is a vector of independent standard normals,
each rounded to a `double`.  For every `δ > 0`, except with probability `2 δ` the rounded `power_method(mat, t)` returns,
and the rounded Rayleigh quotient `ρ` of its result is at most `l`, and at least `Q`, up to the rounding errors shown, where
`(Q / l)^(2t) ≥ δ^3 / n`. -/
theorem C104_iterations (S T : EigenSum R.fl) (pw : ℝ → ℝ)
    (hpw : ∀ x, 0 ≤ x → (1 - R.u) ^ 2 * x ^ 2 ≤ pw x ∧ (1 - R.u) ^ 2 * pw x ≤ x ^ 2) (hr : m.rows = n) (hc : m.cols = n)
    (hA : ∀ i < n, ∀ j < n, |m.coeff i j - A i j| ≤ ((1 / (1 - R.u)) ^ s - 1) * B i j ∧ |A i j| ≤ B i j)
    (hq : ∀ i < n, ((range n).filter (fun j => m.coeff i j ≠ 0)).card ≤ q)
    (hq' : ∀ j < n, ((range n).filter (fun i => m.coeff i j ≠ 0)).card ≤ q) {β : ℝ} (hβ0 : 0 ≤ β)
    (hβ : ∀ x : Nat → ℝ, nrm n (mulv n B x) ≤ β * nrm n x) (hsym : ∀ i < n, ∀ j < n, A i j = A j i)
    (hpsd : ∀ x, 0 ≤ quadForm n A x) {l : ℝ} {b : Nat → ℝ} (hb : IsEigen n A l b) (hbu : dot n b b = 1) (hl : 0 < l)
    (hmax : ∀ k x, IsEigen n A k x → (∃ i < n, x i ≠ 0) → k ≤ l) {η : ℝ}
    (hη : η = ((1 / (1 - R.u)) ^ (s + q + 2) - 1) * β) (t : Nat) {δ : ℝ} (hδ : 0 < δ) {ε : ℝ}
    (hε : ε = (((1 / (1 - R.u)) ^ 2 - 1) + ((1 + η / l) ^ t - 1) * (1 / (1 - R.u)) ^ 2) * Real.sqrt (n / δ ^ 3))
    (hε1 : ε < 1) :
    normals n {g | ¬ ∃ r ρ Q, powerMethodRandomFl S T m t ((List.ofFn g).map R.fl) = .ok r ∧
      rayleighQuotientFl S T pw m r = .ok ρ ∧ 0 ≤ Q ∧ δ ^ 3 / n ≤ (Q / l) ^ (2 * t) ∧
      Q - 4 * ε * l - ((1 / (1 - R.u)) ^ (s + q + 2 * n + 7) - 1) * β ≤ ρ ∧
      ρ ≤ l + ((1 / (1 - R.u)) ^ (s + q + 2 * n + 7) - 1) * β} ≤ ENNReal.ofReal (2 * δ) := by
  have hn : 0 < n := by
    rcases Nat.eq_zero_or_pos n with h | h
    · rw [h] at hbu
      simp [dot] at hbu
    · exact h
  have hnK : (0 : ℝ) < n := by exact_mod_cast hn
  have hup : ∀ x, quadForm n A x ≤ l * dot n x x := by
    obtain ⟨lo, hi, a, c, -, -, hc1, hc2, -, hhi⟩ := extreme_eigenvalues hsym hn
    intro x
    exact (hhi x).trans (mul_le_mul_of_nonneg_right (hmax hi c hc1 hc2) (dot_self_nonneg _ _))
  have hw : ∑ i : Fin n, b i * b i = 1 := by rw [← hbu, dot, Finset.sum_range]
  refine (measure_mono (t := {g : Fin n → ℝ | |∑ i : Fin n, b i * g i| < δ} ∪ {g | (n : ℝ) / δ ≤ ∑ i, g i * g i}) ?_).trans
    ((measure_union_le _ _).trans ?_)
  · intro g hg
    by_contra hgood
    rw [Set.mem_union, not_or] at hgood
    obtain ⟨h1, h2⟩ := hgood
    have h1' : δ ≤ |∑ i : Fin n, b i * g i| := not_lt.1 h1
    have h2' : ∑ i, g i * g i < (n : ℝ) / δ := not_le.1 h2
    apply hg
    have hc0 : dot n b (vec (List.ofFn g)) ≠ 0 := by
      rw [dot_ofFn]
      intro h0
      rw [h0, abs_zero] at h1'
      linarith
    have hsq2 : δ ^ 2 ≤ (∑ i : Fin n, b i * g i) ^ 2 := by
      rw [← sq_abs (∑ i : Fin n, b i * g i)]
      exact pow_le_pow_left₀ hδ.le h1' 2
    have hK : nrm n (vec (List.ofFn g)) ≤ Real.sqrt (n / δ ^ 3) * |dot n b (vec (List.ofFn g))| := by
      rw [dot_ofFn]
      refine le_trans ?_ (mul_le_mul_of_nonneg_left h1' (Real.sqrt_nonneg _))
      unfold nrm
      rw [dot_ofFn_self]
      refine (Real.sqrt_le_sqrt h2'.le).trans (le_of_eq ?_)
      rw [show δ = Real.sqrt (δ ^ 2) from (Real.sqrt_sq hδ.le).symm, ← Real.sqrt_mul (by positivity),
        Real.sqrt_sq hδ.le]
      congr 1
      field_simp
    obtain ⟨r, ρ, Q, a1, a2, a3, -, a5, a6, a7⟩ := power_from_fl S T pw hpw hr hc hA hq hq' hβ0 hβ hsym hpsd hb hbu hl hup hη t
      (List.ofFn g) (by simp) hc0 (Real.sqrt_nonneg _) hK hε hε1
    refine ⟨r, ρ, Q, a1, a2, a3, ?_, a6, a7⟩
    rw [dot_ofFn, dot_ofFn_self] at a5
    have hlp : 0 < l ^ (2 * t) := pow_pos hl _
    have hQp : 0 ≤ Q ^ (2 * t) := pow_nonneg a3 _
    have h3 : l ^ (2 * t) * δ ^ 2 ≤ Q ^ (2 * t) * (n / δ) :=
      calc l ^ (2 * t) * δ ^ 2 ≤ l ^ (2 * t) * (∑ i : Fin n, b i * g i) ^ 2 :=
            mul_le_mul_of_nonneg_left hsq2 hlp.le
        _ ≤ _ := a5
        _ ≤ _ := mul_le_mul_of_nonneg_left h2'.le hQp
    rw [div_pow, div_le_div_iff₀ hnK hlp]
    have h4 := mul_le_mul_of_nonneg_right h3 hδ.le
    rw [mul_assoc, mul_assoc, div_mul_cancel₀ _ hδ.ne'] at h4
    calc δ ^ 3 * l ^ (2 * t) = l ^ (2 * t) * (δ ^ 2 * δ) := by ring
      _ ≤ _ := h4
  · rw [show 2 * δ = δ + δ by ring, ENNReal.ofReal_add hδ.le hδ.le]
    exact add_le_add (component_small (fun i => b i) hw hδ.le) (length_large hn hδ)

/-- The total rounding error of the default number of iterations, in `double`s. -/
theorem default_error {g x : ℝ} {k c n : Nat} (hg2 : g ^ 2 - 1 ≤ 1 / 2 ^ 51) (hg1 : 1 ≤ g ^ 2) (hx0 : 0 ≤ x)
    (hx : x ≤ 1 / 2 ^ 38) (hc : c ≤ 7) (hn : n ≤ 2 ^ 10) (hk : k = 10 * c) :
    ((g ^ 2 - 1) + ((1 + x) ^ k - 1) * g ^ 2) * (n : ℝ) ^ 2 ≤ 5 / 8 / 2 ^ 11 := by
  have hkx : (k : ℝ) * x ≤ 70 / 2 ^ 38 := by
    have : (k : ℝ) ≤ 70 := by exact_mod_cast (by omega : k ≤ 70)
    have h0 : (0 : ℝ) ≤ k := Nat.cast_nonneg _
    nlinarith
  have h1 : (1 + x) ^ k - 1 ≤ 9 / 16 / 2 ^ 31 := by
    have h2 := KMeans.pow_bound hx0 (hx.trans (by norm_num)) k
    have hkx0 : 0 ≤ (k : ℝ) * x := by positivity
    have hp : 1 ≤ (1 + x) ^ k := one_le_pow₀ (by linarith)
    obtain ⟨P, hP⟩ : ∃ P, P = (1 + x) ^ k := ⟨_, rfl⟩
    obtain ⟨y, hy⟩ : ∃ y, y = (k : ℝ) * x := ⟨_, rfl⟩
    rw [← hP] at h2 hp ⊢
    rw [← hy] at h2 hkx hkx0
    nlinarith
  have h2 : (0 : ℝ) ≤ (1 + x) ^ k - 1 := by
    have : 1 ≤ (1 + x) ^ k := one_le_pow₀ (by linarith)
    linarith
  have hn2 : (n : ℝ) ^ 2 ≤ 2 ^ 20 := by exact_mod_cast (by nlinarith : n ^ 2 ≤ 2 ^ 20)
  obtain ⟨P, hP⟩ : ∃ P, P = (1 + x) ^ k - 1 := ⟨_, rfl⟩
  obtain ⟨G, hG⟩ : ∃ G, G = g ^ 2 := ⟨_, rfl⟩
  obtain ⟨N, hN⟩ : ∃ N, N = (n : ℝ) ^ 2 := ⟨_, rfl⟩
  rw [← hP] at h1 h2 ⊢
  rw [← hG] at hg1 hg2 ⊢
  rw [← hN] at hn2 ⊢
  have h3 : P * G ≤ 9 / 16 / 2 ^ 31 * (1 + 1 / 2 ^ 51) :=
    mul_le_mul h1 (by linarith) (by linarith) (by norm_num)
  have h4 : (G - 1) + P * G ≤ 5 / 8 / 2 ^ 31 := by
    refine (add_le_add hg2 h3).trans ?_
    norm_num
  have h5 : 0 ≤ (G - 1) + P * G := add_nonneg (by linarith) (mul_nonneg h2 (by linarith))
  calc ((G - 1) + P * G) * N ≤ (5 / 8 / 2 ^ 31) * 2 ^ 20 := mul_le_mul h4 hn2 (by rw [hN]; positivity) (by norm_num)
    _ ≤ _ := by norm_num

open MeasureTheory in
/-- **C104** (random start, default number of iterations, `double`s).  `A` is a symmetric positive semidefinite matrix of at
most 1024 rows with largest eigenvalue `l > 0`; the program has a matrix `m` of `double`s whose entries are those of `A` up
to `s ≤ 4096` roundings of numbers of size at most `B_ij`, where `B` has norm at most `2 l`.  The library's `log` of the number
of rows is accurate to `2^-40`.  Except with probability `2 / n` over the normal draws, the rounded `power_method(mat)`
returns, and the rounded Rayleigh quotient `ρ` of its result satisfies `(exp(-1/5) - 2^-9) l ≤ ρ ≤ (1 + 2^-30) l`. -/
theorem C104_default (S T : EigenSum (KMeans.dbl ℝ).fl) (pw lg : ℝ → ℝ)
    (hpw : ∀ x, 0 ≤ x → (1 - (KMeans.dbl ℝ).u) ^ 2 * x ^ 2 ≤ pw x ∧ (1 - (KMeans.dbl ℝ).u) ^ 2 * pw x ≤ x ^ 2)
    (hr : m.rows = n) (hc : m.cols = n) (hn : n ≤ 2 ^ 10) (hlg : |lg n - Real.log n| ≤ 1 / 2 ^ 40) (hs : s ≤ 2 ^ 12)
    (hA : ∀ i < n, ∀ j < n, |m.coeff i j - A i j| ≤ ((1 / (1 - (KMeans.dbl ℝ).u)) ^ s - 1) * B i j ∧ |A i j| ≤ B i j)
    (hsym : ∀ i < n, ∀ j < n, A i j = A j i) (hpsd : ∀ x, 0 ≤ quadForm n A x) {l : ℝ} {b : Nat → ℝ}
    (hb : IsEigen n A l b) (hbu : dot n b b = 1) (hl : 0 < l)
    (hmax : ∀ k x, IsEigen n A k x → (∃ i < n, x i ≠ 0) → k ≤ l)
    (hβ : ∀ x : Nat → ℝ, nrm n (mulv n B x) ≤ 2 * l * nrm n x) :
    normals n {g | ¬ ∃ r ρ, powerMethodRandomDefaultFl S T lg m ((List.ofFn g).map (KMeans.dbl ℝ).fl) = .ok r ∧
      rayleighQuotientFl S T pw m r = .ok ρ ∧ (Real.exp (-1 / 5) - 1 / 2 ^ 9) * l ≤ ρ ∧ ρ ≤ (1 + 1 / 2 ^ 30) * l}
      ≤ ENNReal.ofReal (2 / n) := by
  have hn0 : 0 < n := by
    rcases Nat.eq_zero_or_pos n with h | h
    · rw [h] at hbu
      simp [dot] at hbu
    · exact h
  have hnK : (0 : ℝ) < n := by exact_mod_cast hn0
  rcases Nat.lt_or_ge n 2 with hn2 | hn2
  · have : IsProbabilityMeasure (normals n) := by unfold normals; infer_instance
    refine prob_le_one.trans ?_
    rw [ENNReal.one_le_ofReal, le_div_iff₀ hnK]
    have : (n : ℝ) ≤ 1 := by exact_mod_cast (by omega : n ≤ 1)
    linarith
  have hlog2 : Real.log 2 ≤ Real.log n := Real.log_le_log (by norm_num) (by exact_mod_cast hn2)
  have hlogup : Real.log n ≤ 10 * Real.log 2 := by
    have h1 : Real.log n ≤ Real.log ((2 : ℝ) ^ 10) := Real.log_le_log hnK (by exact_mod_cast hn)
    rw [Real.log_pow] at h1
    exact_mod_cast h1
  have l1 := Real.log_two_gt_d9
  have l2 := Real.log_two_lt_d9
  obtain ⟨g1, g2⟩ := abs_le.1 hlg
  have hlgpos : 0 < lg n := by
    have : (1 : ℝ) / 2 ^ 40 ≤ 1 / 2 := by norm_num
    linarith
  obtain ⟨c, hcc⟩ : ∃ c : Nat, ⌈lg n⌉ = c := ⟨⌈lg n⌉.toNat, by
    have := Int.ceil_nonneg hlgpos.le
    omega⟩
  have hcl : lg n ≤ c := by
    have := Int.le_ceil (lg n)
    rw [hcc] at this
    exact_mod_cast this
  have hc1 : 1 ≤ c := by
    have : (0 : ℝ) < c := lt_of_lt_of_le hlgpos hcl
    exact_mod_cast this
  have hc7 : c ≤ 7 := by
    have : ⌈lg n⌉ ≤ 7 := Int.ceil_le.2 (by
      have : (1 : ℝ) / 2 ^ 40 ≤ 1 / 1000 := by norm_num
      push_cast
      linarith)
    omega
  have hfln : (KMeans.dbl ℝ).fl (n : ℝ) = n := flBin_nat_le (hn.trans (by norm_num))
  have hdef : ∀ gs, powerMethodRandomDefaultFl S T lg m gs = powerMethodRandomFl S T m ((10 * c : Nat) : Int) gs := by
    intro gs
    unfold powerMethodRandomDefaultFl powerMethodDefaultFl powerMethodRandomFl
    rw [if_neg (by omega), hr, hfln, hcc]
    push_cast
    rfl
  have hu := KMeans.dbl_u (K := ℝ)
  have hgk : ∀ k : Nat, k ≤ 2 ^ 13 → (1 / (1 - (KMeans.dbl ℝ).u)) ^ k - 1 ≤ 2 * (k * (1 / 2 ^ 53)) := by
    intro k hk
    have hkR : (k : ℝ) ≤ 2 ^ 13 := by exact_mod_cast hk
    have := KMeans.g_pow_sub_one_le (R := KMeans.dbl ℝ) (k := k) (by
      rw [hu]
      refine (mul_le_mul_of_nonneg_right hkR (by norm_num)).trans (by norm_num))
    rw [hu] at this
    exact this
  have hg0 : ∀ k : Nat, 0 ≤ (1 / (1 - (KMeans.dbl ℝ).u)) ^ k - 1 := fun k =>
    sub_nonneg.2 (Rounding.g_pow_one_le (R := KMeans.dbl ℝ) k)
  have hβ0 : 0 ≤ 2 * l := by linarith
  obtain ⟨η, hη⟩ : ∃ η, η = ((1 / (1 - (KMeans.dbl ℝ).u)) ^ (s + n + 2) - 1) * (2 * l) := ⟨_, rfl⟩
  obtain ⟨e1, he1⟩ : ∃ e1, e1 = (1 / (1 - (KMeans.dbl ℝ).u)) ^ (s + n + 2) - 1 := ⟨_, rfl⟩
  have hηl : η / l = 2 * e1 := by rw [hη, ← he1]; field_simp
  have he0 : 0 ≤ e1 := by rw [he1]; exact hg0 _
  have he2 : 2 * e1 ≤ 1 / 2 ^ 38 := by
    have h1 := hgk (s + n + 2) (by omega)
    have h2 : ((s + n + 2 : Nat) : ℝ) ≤ 2 ^ 13 := by exact_mod_cast (by omega : s + n + 2 ≤ 2 ^ 13)
    rw [he1]
    calc 2 * ((1 / (1 - (KMeans.dbl ℝ).u)) ^ (s + n + 2) - 1) ≤ 2 * (2 * (2 ^ 13 * (1 / 2 ^ 53))) := by
          refine mul_le_mul_of_nonneg_left (h1.trans ?_) (by norm_num)
          exact mul_le_mul_of_nonneg_left (mul_le_mul_of_nonneg_right h2 (by norm_num)) (by norm_num)
      _ = 1 / 2 ^ 38 := by norm_num
  have hE : ((1 / (1 - (KMeans.dbl ℝ).u)) ^ (s + n + 2 * n + 7) - 1) * (2 * l) ≤ 1 / 2 ^ 38 * l := by
    have h1 := hgk (s + n + 2 * n + 7) (by omega)
    have h2 : ((s + n + 2 * n + 7 : Nat) : ℝ) ≤ 2 ^ 13 := by exact_mod_cast (by omega : s + n + 2 * n + 7 ≤ 2 ^ 13)
    calc _ ≤ (2 * (2 ^ 13 * (1 / 2 ^ 53))) * (2 * l) := by
          refine mul_le_mul_of_nonneg_right (h1.trans ?_) hβ0
          exact mul_le_mul_of_nonneg_left (mul_le_mul_of_nonneg_right h2 (by norm_num)) (by norm_num)
      _ = 1 / 2 ^ 38 * l := by ring
  have hsqrt : Real.sqrt (n / (1 / (n : ℝ)) ^ 3) = (n : ℝ) ^ 2 := by
    rw [show (n : ℝ) / (1 / (n : ℝ)) ^ 3 = ((n : ℝ) ^ 2) ^ 2 by field_simp]
    exact Real.sqrt_sq (by positivity)
  obtain ⟨ε, hε⟩ : ∃ ε, ε = (((1 / (1 - (KMeans.dbl ℝ).u)) ^ 2 - 1) +
      ((1 + η / l) ^ (10 * c) - 1) * (1 / (1 - (KMeans.dbl ℝ).u)) ^ 2) * Real.sqrt (n / (1 / (n : ℝ)) ^ 3) := ⟨_, rfl⟩
  have hε2 : ε ≤ 5 / 8 / 2 ^ 11 := by
    rw [hε, hsqrt, hηl]
    refine default_error ?_ ?_ (by linarith) he2 hc7 hn rfl
    · refine (hgk 2 (by norm_num)).trans ?_
      norm_num
    · linarith [hg0 2]
  have hmain := C104_iterations S T pw hpw hr hc hA
    (fun i _ => (Finset.card_filter_le _ _).trans (by rw [card_range]))
    (fun i _ => (Finset.card_filter_le _ _).trans (by rw [card_range])) hβ0 hβ hsym hpsd hb hbu hl hmax hη (10 * c)
    (δ := 1 / n) (by positivity) hε (lt_of_le_of_lt hε2 (by norm_num))
  rw [show 2 * (1 / (n : ℝ)) = 2 / n by ring] at hmain
  refine (measure_mono ?_).trans hmain
  intro g hg hgood
  obtain ⟨r, ρ, Q, hr1, hR, hQ0, hlow, hb1, hb2⟩ := hgood
  refine hg ⟨r, ρ, by rw [hdef]; exact hr1, hR, ?_, ?_⟩
  · have hQ : Real.exp (-1 / 5) * (1 - 1 / 2 ^ 40) ≤ Q / l := by
      have hc1' : (1 : ℝ) ≤ c := by exact_mod_cast hc1
      have hle : (Real.exp (-1 / 5 - 1 / 2 ^ 40)) ^ (2 * (10 * c)) ≤ (Q / l) ^ (2 * (10 * c)) := by
        refine le_trans ?_ hlow
        have e1 : (1 / (n : ℝ)) ^ 3 / n = Real.exp (-(4 * Real.log n)) := by
          rw [Real.exp_neg, show 4 * Real.log n = ((4 : Nat) : ℝ) * Real.log n by norm_num,
            Real.exp_nat_mul, Real.exp_log hnK]
          field_simp
        rw [e1, ← Real.exp_nat_mul, Real.exp_le_exp]
        push_cast
        have : (0 : ℝ) < 1 / 2 ^ 40 := by norm_num
        obtain ⟨d, hd⟩ : ∃ d : ℝ, d = 1 / 2 ^ 40 := ⟨_, rfl⟩
        rw [← hd] at g1 g2 this ⊢
        nlinarith
      have h1 := (pow_le_pow_iff_left₀ (Real.exp_pos _).le (div_nonneg hQ0 hl.le) (by omega : 2 * (10 * c) ≠ 0)).1 hle
      refine le_trans ?_ h1
      rw [sub_eq_add_neg (-1 / 5 : ℝ), Real.exp_add]
      refine mul_le_mul_of_nonneg_left ?_ (Real.exp_pos _).le
      have := Real.add_one_le_exp (-(1 / 2 ^ 40 : ℝ))
      linarith
    rw [le_div_iff₀ hl] at hQ
    have hexp : Real.exp (-1 / 5) ≤ 1 := Real.exp_le_one_iff.2 (by norm_num)
    have h4 : 4 * ε * l ≤ 4 * (5 / 8 / 2 ^ 11) * l :=
      mul_le_mul_of_nonneg_right (mul_le_mul_of_nonneg_left hε2 (by norm_num)) hl.le
    have h5 : Real.exp (-1 / 5) * l ≤ 1 * l := mul_le_mul_of_nonneg_right hexp hl.le
    obtain ⟨x, hx⟩ : ∃ x, x = Real.exp (-1 / 5) * l := ⟨_, rfl⟩
    have e3 : (Real.exp (-1 / 5) - 1 / 2 ^ 9) * l = x - 1 / 2 ^ 9 * l := by rw [hx]; ring
    have e4 : Real.exp (-1 / 5) * (1 - 1 / 2 ^ 40) * l = x - 1 / 2 ^ 40 * x := by rw [hx]; ring
    rw [e4] at hQ
    rw [e3]
    rw [← hx] at h5
    have h6 : (1 : ℝ) / 2 ^ 40 * x ≤ 1 / 2 ^ 40 * l := mul_le_mul_of_nonneg_left (by linarith) (by norm_num)
    have h7 : (1 / 2 ^ 40 + 4 * (5 / 8 / 2 ^ 11) + 1 / 2 ^ 38) * l ≤ 1 / 2 ^ 9 * l :=
      mul_le_mul_of_nonneg_right (by norm_num) hl.le
    rw [add_mul, add_mul] at h7
    linarith
  · have h7 : (1 / 2 ^ 38 : ℝ) * l ≤ 1 / 2 ^ 30 * l := mul_le_mul_of_nonneg_right (by norm_num) hl.le
    linarith

theorem default_of_diag (S T : EigenSum (KMeans.dbl ℝ).fl) (pw lg : ℝ → ℝ)
    (hpw : ∀ x, 0 ≤ x → (1 - (KMeans.dbl ℝ).u) ^ 2 * x ^ 2 ≤ pw x ∧ (1 - (KMeans.dbl ℝ).u) ^ 2 * pw x ≤ x ^ 2)
    (hr : m.rows = n) (hc : m.cols = n) (hn : n ≤ 2 ^ 10) (hlg : |lg n - Real.log n| ≤ 1 / 2 ^ 40) (hs : s ≤ 2 ^ 12)
    (hA : ∀ i < n, ∀ j < n, |m.coeff i j - A i j| ≤ ((1 / (1 - (KMeans.dbl ℝ).u)) ^ s - 1) * B i j ∧ |A i j| ≤ B i j)
    (hsym : ∀ i < n, ∀ j < n, A i j = A j i) (hpsd : ∀ x, 0 ≤ quadForm n A x)
    (hBs : ∀ i < n, ∀ j < n, B i j = B j i) (hBd : ∀ i < n, ∑ j ∈ range n, B i j ≤ 2 * A i i) {u : Nat} (hu : u < n)
    (hpos : 0 < A u u) :
    ∃ l, 0 < l ∧ (∃ x, IsEigen n A l x ∧ ∃ i < n, x i ≠ 0) ∧
      (∀ k x, IsEigen n A k x → (∃ i < n, x i ≠ 0) → k ≤ l) ∧
      normals n {g | ¬ ∃ r ρ, powerMethodRandomDefaultFl S T lg m ((List.ofFn g).map (KMeans.dbl ℝ).fl) = .ok r ∧
        rayleighQuotientFl S T pw m r = .ok ρ ∧ (Real.exp (-1 / 5) - 1 / 2 ^ 9) * l ≤ ρ ∧ ρ ≤ (1 + 1 / 2 ^ 30) * l}
        ≤ ENNReal.ofReal (2 / n) := by
  obtain ⟨lo, l, a, b, -, -, hb, hb0, -, hhi⟩ := extreme_eigenvalues hsym (by omega)
  have hdd : ∀ x : Nat → ℝ, (∃ i < n, x i ≠ 0) → 0 < dot n x x := by
    rintro x ⟨i, hi, h0⟩
    exact Finset.sum_pos' (fun i _ => mul_self_nonneg _) ⟨i, Finset.mem_range.2 hi, mul_self_pos.2 h0⟩
  have hdiag : ∀ u < n, A u u ≤ l := by
    intro u hu
    have h1 := hhi fun i => if i = u then 1 else 0
    have e1 : quadForm n A (fun i => if i = u then 1 else 0) = A u u := by
      unfold quadForm
      simp [hu]
    have e2 : dot n (fun i => if i = u then (1 : ℝ) else 0) (fun i => if i = u then 1 else 0) = 1 := by
      unfold dot
      simp [hu]
    rw [e1, e2] at h1
    linarith
  have hl : 0 < l := lt_of_lt_of_le hpos (hdiag u hu)
  have hmax : ∀ k x, IsEigen n A k x → (∃ i < n, x i ≠ 0) → k ≤ l := by
    intro k x hk hx
    have h1 := hhi x
    rw [quadForm_eigen hk] at h1
    exact le_of_mul_le_mul_right h1 (hdd x hx)
  refine ⟨l, hl, ⟨b, hb, hb0⟩, hmax, ?_⟩
  have hN : 0 < nrm n b := Real.sqrt_pos.2 (hdd b hb0)
  have hNN : nrm n b * nrm n b = dot n b b := Real.mul_self_sqrt (dot_self_nonneg _ _)
  refine C104_default S T pw lg hpw hr hc hn hlg hs hA hsym hpsd (b := fun i => (nrm n b)⁻¹ * b i) ?_ ?_ hl hmax ?_
  · intro i hi
    have := hb i hi
    calc ∑ j ∈ Finset.range n, A i j * ((nrm n b)⁻¹ * b j)
        = (nrm n b)⁻¹ * ∑ j ∈ Finset.range n, A i j * b j := by
          rw [Finset.mul_sum]; exact Finset.sum_congr rfl fun j _ => by ring
      _ = _ := by rw [this]; ring
  · rw [dot_smul_right, dot_smul_left, ← hNN]
    field_simp
  · intro x
    have hB0 : ∀ i < n, ∀ j < n, 0 ≤ B i j := fun i hi j hj => (abs_nonneg _).trans (hA i hi j hj).2
    have h := schur n B B (fun _ => 1) 1 (2 * l) zero_le_one (by linarith) (fun _ _ => one_pos) hB0 hBs
      (fun i hi => by
        simp only [mul_one]
        exact (hBd i hi).trans (by linarith [hdiag i hi]))
      (fun i hi j hj => by rw [one_mul, abs_of_nonneg (hB0 i hi j hj)]) x
    refine nrm_le_of (mul_nonneg (by linarith) (nrm_nonneg _ _)) ?_
    rw [mul_pow, nrm_sq]
    rw [one_mul] at h
    exact le_trans (le_of_eq (Finset.sum_congr rfl fun _ _ => (sq _).symm)) h

/-- **C104** (graphs, `double`s).  For every graph with at most 1024 vertices, at least one edge and non-negative weights that
are floating point numbers: `power_method` with its default arguments, run in `double`s on the rounded Laplacian or the rounded
signless Laplacian, finds, except with probability `2 / n`, the largest eigenvalue `l` of the exact matrix up to a factor
between `exp(-1/5) - 2^-9` and `1 + 2^-30`. -/
theorem C104_laplacian (S T : EigenSum (KMeans.dbl ℝ).fl) (pw lg : ℝ → ℝ)
    (hpw : ∀ x, 0 ≤ x → (1 - (KMeans.dbl ℝ).u) ^ 2 * x ^ 2 ≤ pw x ∧ (1 - (KMeans.dbl ℝ).u) ^ 2 * pw x ≤ x ^ 2)
    {g : Graph ℝ} (h : g.Reachable) (hw : ∀ u v, 0 ≤ g.abs.w u v) (hf : g.FloatWeights (KMeans.dbl ℝ).fl)
    (hn : g.n ≤ 2 ^ 10) (hlg : |lg g.n - Real.log g.n| ≤ 1 / 2 ^ 40) {u v : Nat} (hu : u < g.n) (hv : v < g.n)
    (he : 0 < g.abs.w u v) :
    ∀ p ∈ [(g.laplacian, g.laplacianFl (KMeans.dbl ℝ).fl), (g.signlessLaplacian, g.signlessLaplacianFl (KMeans.dbl ℝ).fl)],
      ∃ l, 0 < l ∧ (∃ x, IsEigen g.n p.1.coeff l x ∧ ∃ i < g.n, x i ≠ 0) ∧
      (∀ k x, IsEigen g.n p.1.coeff k x → (∃ i < g.n, x i ≠ 0) → k ≤ l) ∧
      normals g.n {gs | ¬ ∃ r ρ, powerMethodRandomDefaultFl S T lg p.2 ((List.ofFn gs).map (KMeans.dbl ℝ).fl) = .ok r ∧
        rayleighQuotientFl S T pw p.2 r = .ok ρ ∧ (Real.exp (-1 / 5) - 1 / 2 ^ 9) * l ≤ ρ ∧ ρ ≤ (1 + 1 / 2 ^ 30) * l}
        ≤ ENNReal.ofReal (2 / g.n) := by
  obtain ⟨hs1, hs2, h3, h4, h5, h6, h7⟩ := C08_laplacian_entries h
  have hval := h.valid
  have hL : 0 < g.laplacian.coeff u u := by
    rw [h5 u hu, WGraph.deg, add_sub_cancel_right]
    exact Finset.sum_pos' (fun i _ => hw u i) ⟨v, Finset.mem_range.2 hv, he⟩
  have hQ : 0 < g.signlessLaplacian.coeff u u := by
    have := h4 u u
    have := hw u u
    linarith
  have hdeg : ∀ i, g.abs.deg i = ∑ j ∈ range g.n, g.abs.w i j + g.abs.w i i := fun i => rfl
  have hd0 : ∀ i, 0 ≤ g.abs.deg i := fun i => WGraph.degree_nonneg hw i
  have hg1 : ∀ k : Nat, 0 ≤ (1 / (1 - (KMeans.dbl ℝ).u)) ^ k - 1 := fun k =>
    sub_nonneg.2 (Rounding.g_pow_one_le (R := KMeans.dbl ℝ) k)
  have hgm : ∀ i < g.n, (1 / (1 - (KMeans.dbl ℝ).u)) ^ (nbrCount g.abs i + 2) - 1
      ≤ (1 / (1 - (KMeans.dbl ℝ).u)) ^ (g.n + 2) - 1 := by
    intro i _
    have := pow_le_pow_right₀ (Rounding.one_le_g (R := KMeans.dbl ℝ)) (Nat.add_le_add_right (nbrCount_le g.abs i) 2)
    exact sub_le_sub_right this 1
  -- the sums of the rows of the bounds
  have hrow : ∀ (i : Nat), i < g.n → ∀ d : ℝ, ∑ j ∈ range g.n, (if i = j then d else g.abs.w i j)
      = ∑ j ∈ range g.n, g.abs.w i j - g.abs.w i i + d := by
    intro i hi d
    rw [← Finset.add_sum_erase _ _ (mem_range.2 hi), ← Finset.add_sum_erase _ (fun j => g.abs.w i j) (mem_range.2 hi), if_pos rfl,
      Finset.sum_congr rfl fun j hj => if_neg (Ne.symm (Finset.ne_of_mem_erase hj))]
    ring
  have h90 : ∀ i < g.n, ∀ j < g.n, _ := fun i hi j hj => C90_laplacians (R := KMeans.dbl ℝ) hval hw hf hi hj
  intro p hp
  rw [List.mem_cons, List.mem_singleton] at hp
  rcases hp with rfl | rfl
  · refine default_of_diag S T pw lg hpw (s := g.n + 2) (B := fun i j => if i = j then g.abs.deg i else g.abs.w i j)
      (laplacianFl_rows hval) (laplacianFl_cols hval) hn hlg (by omega) ?_ (fun i _ j _ => hs1 i j)
      (fun x => (C08_positive_semidefinite h hw x).1) ?_ ?_ hu hL
    · intro i hi j hj
      dsimp only
      by_cases hij : i = j
      · subst hij
        rw [if_pos rfl, h5 i hi]
        refine ⟨(h90 i hi i hi).2.2.2.1.trans (mul_le_mul_of_nonneg_right (hgm i hi) (hd0 i)), ?_⟩
        rw [hdeg, add_sub_cancel_right, abs_of_nonneg (Finset.sum_nonneg fun j _ => hw i j)]
        linarith [hw i i]
      · rw [if_neg hij, h6 i j hij, ((h90 i hi j hj).2.2.1 hij).1, sub_self, abs_zero, abs_neg, abs_of_nonneg (hw i j)]
        exact ⟨mul_nonneg (hg1 _) (hw i j), le_rfl⟩
    · intro i hi j hj
      by_cases hij : i = j
      · subst hij; rfl
      · simp only [if_neg hij, if_neg (Ne.symm hij)]
        exact hval.symm i j
    · intro i hi
      dsimp only
      rw [hrow i hi, h5 i hi, hdeg]
      linarith
  · refine default_of_diag S T pw lg hpw (s := g.n + 2) (B := fun i j => if i = j then g.abs.deg i + g.abs.w i i else g.abs.w i j)
      hval.cols hval.cols hn hlg (by omega) ?_ (fun i _ j _ => hs2 i j)
      (fun x => (C08_positive_semidefinite h hw x).2) ?_ ?_ hu hQ
    · intro i hi j hj
      dsimp only
      have e4 := h4 i j
      by_cases hij : i = j
      · subst hij
        rw [h5 i hi] at e4
        have e5 : g.signlessLaplacian.coeff i i = g.abs.deg i + g.abs.w i i := by linarith
        have e6 := add_nonneg (hd0 i) (hw i i)
        rw [if_pos rfl, e5, abs_of_nonneg e6]
        exact ⟨(h90 i hi i hi).2.2.2.2.trans (mul_le_mul_of_nonneg_right (hgm i hi) e6), le_rfl⟩
      · rw [h6 i j hij] at e4
        have e5 : g.signlessLaplacian.coeff i j = g.abs.w i j := by linarith
        rw [if_neg hij, e5, ((h90 i hi j hj).2.2.1 hij).2, sub_self, abs_zero, abs_of_nonneg (hw i j)]
        exact ⟨mul_nonneg (hg1 _) (hw i j), le_rfl⟩
    · intro i hi j hj
      by_cases hij : i = j
      · subst hij; rfl
      · simp only [if_neg hij, if_neg (Ne.symm hij)]
        exact hval.symm i j
    · intro i hi
      dsimp only
      have e4 := h4 i i
      rw [h5 i hi] at e4
      rw [hrow i hi, hdeg]
      rw [hdeg] at e4
      linarith [hw i i]

/-- **C104** (a case).  The hypotheses of `C104_laplacian` are met by the complete graphs with 2 to 1024 vertices, with sums
from left to right, the exact square and the exact logarithm. -/
theorem C104_complete {N : Nat} (hN2 : 2 ≤ N) (hN : N ≤ 2 ^ 10) :
    ∃ g : Graph ℝ, g.Reachable ∧ g.n = N ∧ (∀ u < N, ∀ v < N, u ≠ v → g.abs.w u v = 1) ∧
      ∃ l, 0 < l ∧ (∀ k x, IsEigen N g.laplacian.coeff k x → (∃ i < N, x i ≠ 0) → k ≤ l) ∧
      normals N {gs | ¬ ∃ r ρ, powerMethodRandomDefaultFl (KMeans.eigenLeft (KMeans.dbl ℝ).fl) (KMeans.eigenLeft (KMeans.dbl ℝ).fl)
          Real.log (g.laplacianFl (KMeans.dbl ℝ).fl) ((List.ofFn gs).map (KMeans.dbl ℝ).fl) = .ok r ∧
        rayleighQuotientFl (KMeans.eigenLeft (KMeans.dbl ℝ).fl) (KMeans.eigenLeft (KMeans.dbl ℝ).fl) (fun x => x ^ 2)
          (g.laplacianFl (KMeans.dbl ℝ).fl) r = .ok ρ ∧
        (Real.exp (-1 / 5) - 1 / 2 ^ 9) * l ≤ ρ ∧ ρ ≤ (1 + 1 / 2 ^ 30) * l} ≤ ENNReal.ofReal (2 / N) := by
  obtain ⟨g, hg, hab⟩ := exists_unit_graph N (fun i j => i ≠ j) (fun i j => ne_comm)
  have hgn : g.n = N := congrArg WGraph.n hab
  have hwt : ∀ u v, g.abs.w u v = if u < N ∧ v < N ∧ u ≠ v then 1 else 0 := fun u v => congrFun (congrFun (congrArg WGraph.w hab) u) v
  have hw : ∀ u v, 0 ≤ g.abs.w u v := by
    intro u v
    rw [hwt]
    split_ifs <;> norm_num
  have hf : g.FloatWeights (KMeans.dbl ℝ).fl := by
    intro u v
    have hint : ∀ k : Nat, k ≤ 1 → (KMeans.dbl ℝ).fl (k : ℝ) = k ∧ (KMeans.dbl ℝ).fl (-(k : ℝ)) = -k := by
      intro k hk
      have := flBin_nat_le (K := ℝ) (m := k) (hk.trans (by norm_num))
      exact ⟨this, by change flBin 53 _ = _; rw [flBin_neg]; exact congrArg _ this⟩
    rw [hwt]
    split_ifs
    · have := hint 1 le_rfl
      rwa [Nat.cast_one] at this
    · have := hint 0 (by norm_num)
      rwa [Nat.cast_zero] at this
  have hu := KMeans.dbl_u (K := ℝ)
  obtain ⟨l, hl, -, hmax, hp⟩ := C104_laplacian (KMeans.eigenLeft (KMeans.dbl ℝ).fl) (KMeans.eigenLeft (KMeans.dbl ℝ).fl)
    (fun x => x ^ 2) Real.log (by
      intro x hx
      rw [hu]
      have h1 : (1 - 1 / 2 ^ 53 : ℝ) ^ 2 ≤ 1 := by norm_num
      have h2 : (1 - 1 / 2 ^ 53 : ℝ) ^ 2 * x ^ 2 ≤ 1 * x ^ 2 := mul_le_mul_of_nonneg_right h1 (sq_nonneg x)
      rw [one_mul] at h2
      exact ⟨h2, h2⟩)
    hg hw hf (by rw [hgn]; exact hN) (by rw [sub_self, abs_zero]; norm_num) (u := 0) (v := 1) (by omega) (by omega)
    (by rw [hwt, if_pos ⟨by omega, by omega, by omega⟩]; norm_num) _ (List.mem_cons_self ..)
  rw [hgn] at hmax hp
  exact ⟨g, hg, hgn, fun u hu v hv huv => by rw [hwt, if_pos ⟨hu, hv, huv⟩], l, hl, hmax, hp⟩

end
end Stag
