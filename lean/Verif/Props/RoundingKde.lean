import Verif.RoundingKde
import Verif.Props.Shells
import Verif.Props.RoundingMetrics
import Verif.RoundingSweepLemmas
import Mathlib.Algebra.Order.Ring.Pow

/-!
# C82: distances, kernels and density estimates in floating point
-/

set_option linter.unusedSectionVars false

namespace Stag

open Real

section
variable {K : Type} [Field K] [LinearOrder K] [IsStrictOrderedRing K]

/-- A rounding which treats positive and negative numbers alike, as rounding to nearest does. -/
def Rounding.Odd (R : Rounding K) : Prop := ∀ x, R.fl (-x) = -R.fl x

namespace Rounding
variable {R : Rounding K}

theorem fl_sq_near (x : K) : R.Near 3 (R.fl (R.fl x * R.fl x)) (x ^ 2) := by
  have h : R.Near 2 (R.fl x * R.fl x) (x ^ 2) := by
    rcases le_total 0 x with hx | hx
    · have := (near_fl (R := R) hx).mul (near_fl (R := R) hx)
      rwa [sq]
    · have h0 : R.fl x ≤ 0 := by have := R.mono x 0 hx; rwa [fl_zero] at this
      have hn : R.Near 1 (-R.fl x) (-x) := by
        have he := R.err x
        rw [abs_of_nonpos hx, abs_le] at he
        have hg := g_pos (R := R)
        have hu := one_sub_pos (R := R)
        have hgu : R.g * (1 - R.u) = 1 := by unfold g; field_simp
        refine ⟨by linarith, by linarith, ?_, ?_⟩
        · have h1 : -R.fl x ≤ (1 + R.u) * (-x) := by linarith [he.1]
          have h2 : (1 + R.u) ≤ R.g := one_add_le_g
          rw [pow_one]
          exact h1.trans (mul_le_mul_of_nonneg_right h2 (by linarith))
        · have h1 : (1 - R.u) * (-x) ≤ -R.fl x := by linarith [he.2]
          rw [pow_one]
          calc -x = R.g * ((1 - R.u) * (-x)) := by rw [← mul_assoc, hgu, one_mul]
            _ ≤ _ := mul_le_mul_of_nonneg_left h1 hg.le
      have := hn.mul hn
      rwa [neg_mul_neg, neg_mul_neg, ← sq x] at this
  exact h.fl

theorem fl_le_add {s t : K} (hs : R.fl s = s) (ht : 0 ≤ t) : s ≤ R.fl (s + t) := by
  have := R.mono s (s + t) (by linarith)
  rwa [hs] at this

theorem sqDistLoopFl_near (u v : List K) (n : Nat) : ∀ (i : Nat) {k : Nat} {r s : K}, 3 ≤ k →
    R.Near k r s →
    R.Near (k + n) (sqDistLoopFl R.fl u v i n r)
      (s + ∑ t ∈ Finset.range n, (u.getD (i + t) 0 - v.getD (i + t) 0) ^ 2) := by
  induction n with
  | zero => intro i k r s _ h; simpa [sqDistLoopFl] using h
  | succ n ih =>
    intro i k r s hk h
    unfold sqDistLoopFl
    dsimp only
    have h1 := (h.add ((fl_sq_near (R := R) (u.getD i 0 - v.getD i 0)).mono hk)).fl
    have h2 := ih (i + 1) (by omega) h1
    rw [Finset.sum_range_succ']
    have e : k + 1 + n = k + (n + 1) := by omega
    rw [e] at h2
    convert h2 using 1
    simp only [Nat.add_zero, Nat.add_assoc, Nat.add_comm 1]
    ring

theorem squaredDistanceFl_near (u v : List K) :
    R.Near (u.length + 3) (squaredDistanceFl R.fl u v) (sqDist u v) := by
  have h := sqDistLoopFl_near (R := R) u v u.length 0 (le_refl 3) (Near.refl (le_refl 0))
  unfold squaredDistanceFl sqDist
  rw [Nat.add_comm]
  simpa using h

/-- The running sum of a squared distance is a `double` and never decreases. -/
theorem sqDistLoopFl_ge (u v : List K) (n : Nat) : ∀ (i : Nat) (r : K), R.fl r = r →
    r ≤ sqDistLoopFl R.fl u v i n r := by
  induction n with
  | zero => intro i r _; exact le_refl _
  | succ n ih =>
    intro i r hr
    unfold sqDistLoopFl
    dsimp only
    exact (fl_le_add hr (fl_nonneg (mul_self_nonneg _))).trans (ih (i + 1) _ (R.idem _))

theorem sqDistAtMostLoopFl_eq (u v : List K) (max : K) (n : Nat) : ∀ (i : Nat) (r : K),
    R.fl r = r → r ≤ max ∨ 0 < n →
    sqDistAtMostLoopFl R.fl u v max i n r =
      if sqDistLoopFl R.fl u v i n r ≤ max then sqDistLoopFl R.fl u v i n r else -1 := by
  induction n with
  | zero =>
    intro i r hr h
    have h := h.resolve_right (by omega)
    simp [sqDistAtMostLoopFl, sqDistLoopFl, h]
  | succ n ih =>
    intro i r hr h
    unfold sqDistAtMostLoopFl sqDistLoopFl
    dsimp only
    have h1 := sqDistLoopFl_ge (R := R) u v n (i + 1)
      (R.fl (r + R.fl (R.fl (u.getD i 0 - v.getD i 0) * R.fl (u.getD i 0 - v.getD i 0)))) (R.idem _)
    split_ifs with h2 h3 h3
    · exact absurd h3 (not_le.2 (lt_of_lt_of_le h2 h1))
    · rfl
    · rw [ih (i + 1) _ (R.idem _) (.inl (not_lt.1 h2)), if_pos h3]
    · rw [ih (i + 1) _ (R.idem _) (.inl (not_lt.1 h2)), if_neg h3]

end Rounding

/-- **C82** (distance).  The computed squared distance of two points with `d` coordinates has a
relative error of at most `g ^ (d + 3) - 1`, where `g = 1 / (1 - u)`. -/
theorem C82_distance (R : Rounding K) (u v : List K) :
    |squaredDistanceFl R.fl u v - sqDist u v| ≤ (R.g ^ (u.length + 3) - 1) * sqDist u v :=
  (Rounding.squaredDistanceFl_near u v).abs_sub

/-- **C82** (distance zero).  The computed squared distance is zero exactly if the points are
equal, and it is never negative. -/
theorem C82_distance_zero (R : Rounding K) (u v : List K) (h : u.length = v.length) :
    0 ≤ squaredDistanceFl R.fl u v ∧ (squaredDistanceFl R.fl u v = 0 ↔ u = v) := by
  have hn := Rounding.squaredDistanceFl_near (R := R) u v
  refine ⟨hn.x0, ?_⟩
  rw [← sqDist_eq_zero u v h]
  exact ⟨fun h0 => hn.symm.eq_zero h0, fun h0 => hn.eq_zero h0⟩

theorem sqDistLoopFl_comm {R : Rounding K} (ho : R.Odd) (u v : List K) (n : Nat) : ∀ (i : Nat) (r : K),
    sqDistLoopFl R.fl u v i n r = sqDistLoopFl R.fl v u i n r := by
  induction n with
  | zero => intro i r; rfl
  | succ n ih =>
    intro i r
    unfold sqDistLoopFl
    dsimp only
    rw [ih]
    have e : R.fl (u.getD i 0 - v.getD i 0) = -R.fl (v.getD i 0 - u.getD i 0) := by
      rw [← ho, neg_sub]
    rw [e, neg_mul_neg]

/-- **C82** (symmetry).  The computed squared distance does not depend on the order of the points:
the two results are the same `double`. -/
theorem C82_distance_symmetric (R : Rounding K) (ho : R.Odd) (u v : List K) (h : u.length = v.length) :
    squaredDistanceFl R.fl u v = squaredDistanceFl R.fl v u := by
  unfold squaredDistanceFl
  rw [sqDistLoopFl_comm ho, h]

/-- **C82** (early exit).  Stopping the sum early does not change the outcome:
`squared_distance_at_most(u, v, m)` is the `double` which `squared_distance(u, v)` computes if that
is at most `m`, and `-1` otherwise. -/
theorem C82_at_most (R : Rounding K) (u v : List K) (m : K) (h : u ≠ [] ∨ 0 ≤ m) :
    squaredDistanceAtMostFl R.fl u v m =
      if squaredDistanceFl R.fl u v ≤ m then squaredDistanceFl R.fl u v else -1 := by
  unfold squaredDistanceAtMostFl squaredDistanceFl
  apply Rounding.sqDistAtMostLoopFl_eq _ _ _ _ _ _ Rounding.fl_zero
  rcases h with h | h
  · exact .inr (List.length_pos_iff.2 h)
  · exact .inl h

end


/-! ## The kernel -/

section
variable {R : Rounding ℝ}

theorem mul_exp_neg_le (x : ℝ) : x * exp (-x) ≤ exp (-1) := by
  have h := add_one_le_exp (x - 1)
  have h2 : x ≤ exp (x - 1) := by linarith
  calc x * exp (-x) ≤ exp (x - 1) * exp (-x) := mul_le_mul_of_nonneg_right h2 (exp_pos _).le
    _ = exp (-1) := by rw [← exp_add]; congr 1; ring

theorem exp_sub_le {m M G : ℝ} (hG : 1 ≤ G) (hM : M ≤ G * m) :
    exp (-m) - exp (-M) ≤ (G - 1) * exp (-1) := by
  have h1 := add_one_le_exp (m - M)
  have h2 : exp (-M) = exp (-m) * exp (m - M) := by rw [← exp_add]; congr 1; ring
  have h3 : exp (-m) * (m - M + 1) ≤ exp (-M) := by
    rw [h2]; exact mul_le_mul_of_nonneg_left h1 (exp_pos _).le
  have h4 : (M - m) * exp (-m) ≤ ((G - 1) * m) * exp (-m) :=
    mul_le_mul_of_nonneg_right (by linarith) (exp_pos _).le
  have h5 := mul_le_mul_of_nonneg_left (mul_exp_neg_le m) (sub_nonneg.2 hG)
  linarith

theorem Rounding.Near.exp_neg {k : Nat} {x y : ℝ} (h : R.Near k x y) :
    |exp (-x) - exp (-y)| ≤ (R.g ^ k - 1) * exp (-1) := by
  have hG := Rounding.g_pow_one_le (R := R) k
  rw [abs_le]
  constructor
  · linarith [exp_sub_le hG h.le]
  · exact exp_sub_le hG h.ge

theorem kernelArg_near (a : ℝ) (ha : 0 ≤ a) (u v : List ℝ) :
    R.Near (u.length + 4) (R.fl (a * squaredDistanceFl R.fl u v)) (a * sqDist u v) := by
  have h := ((Rounding.Near.refl (R := R) (k := 0) ha).mul (Rounding.squaredDistanceFl_near u v)).fl
  have e : 0 + (u.length + 3) + 1 = u.length + 4 := by omega
  rwa [e] at h

/-- The absolute error of a kernel value of points with `d` coordinates. -/
noncomputable def kernelErr (R : Rounding ℝ) (E : LibExp) (d : Nat) : ℝ :=
  E.η + E.τ + (R.g ^ (d + 4) - 1) * exp (-1)

/-- **C82** (kernel).  A computed kernel value lies between 0 and 1 and its absolute error is at most
`η + τ + (g ^ (d + 4) - 1) / e`, however far apart the points are. -/
theorem C82_kernel (R : Rounding ℝ) (E : LibExp) (a : ℝ) (ha : 0 ≤ a) (u v : List ℝ) :
    0 ≤ kernelOfFl R.fl E a u v ∧ kernelOfFl R.fl E a u v ≤ 1 ∧
    |kernelOfFl R.fl E a u v - exp (-(a * sqDist u v))|
      ≤ E.η + E.τ + (R.g ^ (u.length + 4) - 1) * exp (-1) := by
  have hn := kernelArg_near (R := R) a ha u v
  have h0 : -(R.fl (a * squaredDistanceFl R.fl u v)) ≤ 0 := by linarith [hn.x0]
  refine ⟨E.nonneg _ h0, E.le_one _ h0, ?_⟩
  unfold kernelOfFl gaussianKernelFl
  have h1 := E.err _ h0
  have h2 := hn.exp_neg
  have h3 : exp (-(R.fl (a * squaredDistanceFl R.fl u v))) ≤ 1 := exp_le_one_iff.2 h0
  have h4 := mul_le_mul_of_nonneg_left h3 E.η0
  rw [abs_le] at *
  constructor <;> linarith [h1.1, h1.2, h2.1, h2.2]

/-- **C82** (kernel, relative error).  Relative to the true kernel value the error grows with the
exponent: it is at most `(1 + η) exp(δ) - 1` for `δ = (g ^ (d + 4) - 1) a |u - v|²`, apart from
underflow. -/
theorem C82_kernel_relative (R : Rounding ℝ) (E : LibExp) (a : ℝ) (ha : 0 ≤ a) (u v : List ℝ) :
    |kernelOfFl R.fl E a u v - exp (-(a * sqDist u v))|
      ≤ ((1 + E.η) * exp ((R.g ^ (u.length + 4) - 1) * (a * sqDist u v)) - 1)
        * exp (-(a * sqDist u v)) + E.τ := by
  have hn := kernelArg_near (R := R) a ha u v
  have h0 : -(R.fl (a * squaredDistanceFl R.fl u v)) ≤ 0 := by linarith [hn.x0]
  have h1 := E.err _ h0
  have hd := hn.abs_sub
  unfold kernelOfFl gaussianKernelFl
  generalize R.fl (a * squaredDistanceFl R.fl u v) = x at *
  generalize a * sqDist u v = y at *
  generalize (R.g ^ (u.length + 4) - 1) * y = δ at *
  rw [abs_le] at hd
  have hδ : 0 ≤ δ := by linarith [hd.1, hd.2]
  have e1 : exp (-x) ≤ exp δ * exp (-y) := by
    rw [← exp_add]; exact exp_le_exp.2 (by linarith [hd.1])
  have e2 : exp (-δ) * exp (-y) ≤ exp (-x) := by
    rw [← exp_add]; exact exp_le_exp.2 (by linarith [hd.2])
  have hy := exp_pos (-y)
  have hη := E.η0
  have e3 : 2 ≤ exp δ + exp (-δ) := by
    have ha := add_one_le_exp δ
    have hb := add_one_le_exp (-δ)
    linarith
  have e4 : E.η * exp (-x) ≤ E.η * (exp δ * exp (-y)) := mul_le_mul_of_nonneg_left e1 hη
  have e5 : 2 * exp (-y) ≤ (exp δ + exp (-δ)) * exp (-y) := mul_le_mul_of_nonneg_right e3 hy.le
  rw [abs_le] at *
  constructor <;> nlinarith [h1.1, h1.2]

/-- **C82** (kernel at distance zero).  The kernel of a point with itself is exactly 1. -/
theorem C82_kernel_self (R : Rounding ℝ) (E : LibExp) (a : ℝ) (u : List ℝ) :
    kernelOfFl R.fl E a u u = 1 := by
  unfold kernelOfFl gaussianKernelFl
  rw [((C82_distance_zero R u u rfl).2).2 rfl, mul_zero, Rounding.fl_zero, neg_zero, E.zero]

/-- **C82** (kernel, symmetry).  The kernel of `u` and `v` and that of `v` and `u` are the same
`double`. -/
theorem C82_kernel_symmetric (R : Rounding ℝ) (ho : R.Odd) (E : LibExp) (a : ℝ) (u v : List ℝ)
    (h : u.length = v.length) : kernelOfFl R.fl E a u v = kernelOfFl R.fl E a v u := by
  unfold kernelOfFl
  rw [C82_distance_symmetric R ho u v h]

/-! ## The exact estimator -/

theorem foldl_sumFl {α : Type} (fl : ℝ → ℝ) (f : α → ℝ) (l : List α) : ∀ acc : ℝ,
    l.foldl (fun total i => fl (total + f i)) acc = sumFl fl (l.map f) acc := by
  induction l with
  | nil => intro acc; rfl
  | cons x xs ih => intro acc; exact ih _

theorem sum_abs_sub_le {α : Type} (l : List α) (f f' : α → ℝ) (κ : ℝ) (h : ∀ x, |f x - f' x| ≤ κ) :
    |(l.map f).sum - (l.map f').sum| ≤ l.length * κ := by
  induction l with
  | nil => simp
  | cons x xs ih =>
    have := h x
    rw [abs_le] at *
    push_cast [List.map_cons, List.sum_cons, List.length_cons]
    constructor <;> nlinarith

theorem sum_le_length {α : Type} (l : List α) (f : α → ℝ) (h : ∀ x, f x ≤ 1) :
    (l.map f).sum ≤ l.length := by
  induction l with
  | nil => simp
  | cons x xs ih =>
    have := h x
    push_cast [List.map_cons, List.sum_cons, List.length_cons]
    linarith

/-- **C82** (exact estimator).  The density that `ExactGaussianKDE::query` computes from `n` points
with `d` coordinates differs from the average of the kernel by at most
`(g ^ (n + 2) - 1) + η + τ + (g ^ (d + 4) - 1) / e`. -/
theorem C82_kde (R : Rounding ℝ) (E : LibExp) (a : ℝ) (ha : 0 ≤ a) (data : List (List ℝ))
    (q : List ℝ) (hd : data ≠ []) :
    ∃ x, gaussianKdeExactFl R.fl E a data q = some x ∧
      |x - (data.map (fun p => exp (-(a * sqDist q p)))).sum / data.length|
        ≤ (R.g ^ (data.length + 2) - 1)
          + (E.η + E.τ + (R.g ^ (q.length + 4) - 1) * exp (-1)) := by
  have hl : 0 < data.length := List.length_pos_iff.2 hd
  have hl' : (0 : ℝ) < data.length := by exact_mod_cast hl
  unfold gaussianKdeExactFl
  dsimp only
  rw [if_neg (by omega), foldl_sumFl]
  refine ⟨_, rfl, ?_⟩
  have hk := fun p => C82_kernel R E a ha q p
  have hs := Rounding.sumFl_near (R := R) (data.map (kernelOfFl R.fl E a q))
    (by intro x hx; obtain ⟨p, -, rfl⟩ := List.mem_map.1 hx; exact (hk p).1)
    (Rounding.Near.refl (k := 0) (le_refl 0))
  rw [List.length_map, zero_add, zero_add] at hs
  have hq := (hs.div (Rounding.near_fl (R := R) hl'.le)).fl
  have h1 := hq.abs_sub
  have e : data.length + 1 + 1 = data.length + 2 := by omega
  rw [e] at h1
  have h2 : (data.map (kernelOfFl R.fl E a q)).sum / data.length ≤ 1 := by
    rw [div_le_one hl']
    exact sum_le_length _ _ (fun p => (hk p).2.1)
  have h3 := mul_le_mul_of_nonneg_left h2
    (sub_nonneg.2 (Rounding.g_pow_one_le (R := R) (data.length + 2)))
  have h4 := sum_abs_sub_le data (kernelOfFl R.fl E a q) (fun p => exp (-(a * sqDist q p))) _
    (fun p => (hk p).2.2)
  generalize (R.g ^ (data.length + 2) - 1) = G at *
  generalize (E.η + E.τ + (R.g ^ (q.length + 4) - 1) * exp (-1)) = κ at *
  generalize (data.map (kernelOfFl R.fl E a q)).sum = S at *
  generalize (data.map (fun p => exp (-(a * sqDist q p)))).sum = T at *
  generalize (data.length : ℝ) = n at *
  have h5 : |S / n - T / n| ≤ κ := by
    rw [← sub_div, abs_div, abs_of_pos hl', div_le_iff₀ hl']
    linarith
  rw [abs_le] at *
  constructor <;> linarith [h1.1, h1.2, h5.1, h5.2]

/-- **C82** (range).  As long as the number of points is a `double`, the computed density lies
between 0 and 1. -/
theorem C82_kde_range (R : Rounding ℝ) (E : LibExp) (a : ℝ) (ha : 0 ≤ a) (data : List (List ℝ))
    (q : List ℝ) (hn : ∀ m : Nat, m ≤ data.length → R.fl m = m) (x : ℝ)
    (hx : gaussianKdeExactFl R.fl E a data q = some x) : 0 ≤ x ∧ x ≤ 1 := by
  unfold gaussianKdeExactFl at hx
  dsimp only at hx
  rw [foldl_sumFl] at hx
  split_ifs at hx with h0
  have hl' : (0 : ℝ) < data.length := by exact_mod_cast Nat.pos_of_ne_zero h0
  have hx := (Option.some.inj hx).symm
  have hk := fun p => C82_kernel R E a ha q p
  have key : ∀ (l : List (List ℝ)) (m : Nat) (acc : ℝ), 0 ≤ acc → acc ≤ m →
      m + l.length ≤ data.length →
      0 ≤ sumFl R.fl (l.map (kernelOfFl R.fl E a q)) acc ∧
      sumFl R.fl (l.map (kernelOfFl R.fl E a q)) acc ≤ (m + l.length : Nat) := by
    intro l
    induction l with
    | nil => intro m acc h1 h2 _; simpa [sumFl] using ⟨h1, h2⟩
    | cons p ps ih =>
      intro m acc h1 h2 h3
      rw [List.length_cons] at h3
      have h4 : R.fl (acc + kernelOfFl R.fl E a q p) ≤ (m + 1 : Nat) := by
        rw [← hn (m + 1) (by omega)]
        apply R.mono
        push_cast
        linarith [(hk p).2.1]
      have h5 : 0 ≤ R.fl (acc + kernelOfFl R.fl E a q p) :=
        Rounding.fl_nonneg (by linarith [(hk p).1])
      have := ih (m + 1) _ h5 h4 (by omega)
      rw [List.length_cons, show m + (ps.length + 1) = m + 1 + ps.length by omega]
      exact this
  have h1 := key data 0 0 (le_refl _) (by simp) (by omega)
  rw [zero_add] at h1
  rw [hn _ (le_refl _)] at hx
  have h2 : R.fl 1 = 1 := by have := hn 1 (Nat.pos_of_ne_zero h0); simpa using this
  constructor
  · rw [hx]; exact Rounding.fl_nonneg (div_nonneg h1.1 hl'.le)
  · rw [hx, ← h2]
    exact R.mono _ _ ((div_le_one hl').2 h1.2)

/-- **C82** (copies of the query).  If every data point equals the query, the computed density is
exactly 1. -/
theorem C82_kde_copies (R : Rounding ℝ) (E : LibExp) (a : ℝ) (n : Nat) (h0 : 0 < n) (q : List ℝ)
    (hn : ∀ m : Nat, m ≤ n → R.fl m = m) :
    gaussianKdeExactFl R.fl E a (List.replicate n q) q = some 1 := by
  have key : ∀ (l m : Nat), m + l ≤ n →
      sumFl R.fl ((List.replicate l q).map (kernelOfFl R.fl E a q)) m = (m + l : Nat) := by
    intro l
    induction l with
    | zero => intro m _; simp [sumFl]
    | succ l ih =>
      intro m h
      rw [List.replicate_succ, List.map_cons]
      unfold sumFl
      rw [C82_kernel_self]
      have := hn (m + 1) (by omega)
      push_cast at this
      rw [this]
      have := ih (m + 1) (by omega)
      push_cast at this ⊢
      rw [this]
      ring
  unfold gaussianKdeExactFl
  dsimp only
  rw [foldl_sumFl, List.length_replicate, if_neg (by omega)]
  have := key n 0 (by omega)
  rw [Nat.cast_zero, zero_add] at this
  rw [this, hn n (le_refl _), div_self (by positivity)]
  have := hn 1 h0
  rw [Nat.cast_one] at this
  rw [this]

/-! ## Doubles -/

theorem g_pow_sub_one_le {k : Nat} (hk : k * R.u ≤ 1 / 2) : R.g ^ k - 1 ≤ 2 * (k * R.u) := by
  have hu := Rounding.one_sub_pos (R := R)
  have h1 : 1 - k * R.u ≤ (1 - R.u) ^ k := by
    have := one_add_mul_le_pow (a := -R.u) (by linarith) k
    rw [← sub_eq_add_neg] at this
    linarith
  have h2 : R.g ^ k * (1 - R.u) ^ k = 1 := by
    rw [← mul_pow]
    have : R.g * (1 - R.u) = 1 := by unfold Rounding.g; field_simp
    rw [this, one_pow]
  have h3 := Rounding.g_pow_pos (R := R) k
  have h4 : R.g ^ k * (1 - k * R.u) ≤ 1 := by
    exact (mul_le_mul_of_nonneg_left h1 h3.le).trans h2.le
  have h5 : 0 ≤ (k : ℝ) * R.u := mul_nonneg (Nat.cast_nonneg _) R.u0
  generalize (k : ℝ) * R.u = t at *
  have h6 : R.g ^ k ≤ 2 := by nlinarith
  nlinarith

/-- **C82** (doubles).  In double precision with a library `exp` accurate to `2^-52`, for at most
`2^50` points with at most `2^50` coordinates: the computed density is within `(n + d + 8) 2^-52`
of the true one, and between 0 and 1. -/
theorem C82_kde_double (E : LibExp) (hη : E.η ≤ (2 : ℝ) ^ (-52 : Int)) (hτ : E.τ ≤ (2 : ℝ) ^ (-52 : Int))
    (a : ℝ) (ha : 0 ≤ a) (data : List (List ℝ)) (q : List ℝ) (hd : data ≠ [])
    (hN : data.length ≤ 2 ^ 50) (hq : q.length ≤ 2 ^ 50) :
    ∃ x, gaussianKdeExactFl (flBin 53) E a data q = some x ∧ 0 ≤ x ∧ x ≤ 1 ∧
      |x - (data.map (fun p => exp (-(a * sqDist q p)))).sum / data.length|
        ≤ (data.length + q.length + 8) * (2 : ℝ) ^ (-52 : Int) := by
  obtain ⟨R, hR⟩ : ∃ R : Rounding ℝ, R = Rounding.binary ℝ 53 (by norm_num) := ⟨_, rfl⟩
  have hfl : R.fl = flBin 53 := by rw [hR]; rfl
  have hu : R.u = (2 : ℝ) ^ (-53 : Int) := by rw [hR]; rfl
  obtain ⟨x, h1, h2⟩ := C82_kde R E a ha data q hd
  rw [hfl] at h1
  obtain ⟨h3, h4⟩ := C82_kde_range R E a ha data q (fun m hm => by
    rw [hfl]; exact flBin_nat (by omega)) x (by rw [hfl]; exact h1)
  refine ⟨x, h1, h3, h4, h2.trans ?_⟩
  have e52 : (2 : ℝ) ^ (-52 : Int) = 2 * (2 : ℝ) ^ (-53 : Int) := by norm_num
  have hN' : (data.length : ℝ) ≤ 2 ^ 50 := by exact_mod_cast hN
  have hq' : (q.length : ℝ) ≤ 2 ^ 50 := by exact_mod_cast hq
  have hbig : ((2 : ℝ) ^ 50 + 4) * (2 : ℝ) ^ (-53 : Int) ≤ 1 / 2 := by norm_num
  have hup : 0 < (2 : ℝ) ^ (-53 : Int) := by positivity
  have b1 := g_pow_sub_one_le (R := R) (k := data.length + 2) (by
    rw [hu]; push_cast; nlinarith)
  have b2 := g_pow_sub_one_le (R := R) (k := q.length + 4) (by
    rw [hu]; push_cast; nlinarith)
  have he : exp (-1) ≤ 1 := exp_le_one_iff.2 (by norm_num)
  have b3 := mul_le_mul_of_nonneg_left he
    (sub_nonneg.2 (Rounding.g_pow_one_le (R := R) (q.length + 4)))
  rw [hu] at b1 b2
  rw [e52] at hη hτ ⊢
  push_cast at b1 b2 ⊢
  linarith

/-! ## The shells of the CKNS estimator -/

/-- The computed squared distance `d2` lies in shell `j` of `J`, with the computed radii. -/
def InShellFl (fl : ℝ → ℝ) (a : ℝ) (J j : Nat) (d2 : ℝ) : Prop :=
  if j = 0 then rjSquaredFl fl J a < d2
  else rjSquaredFl fl ((j - 1 : Nat) : Int) a < d2 ∧ d2 ≤ rjSquaredFl fl j a

theorem rjSquaredFl_zero (a : ℝ) : rjSquaredFl R.fl 0 a = 0 := by
  unfold rjSquaredFl
  simp [Rounding.fl_zero]

theorem rjSquaredFl_near (a : ℝ) (ha : 0 < a) (j : Nat) :
    R.Near 4 (rjSquaredFl R.fl j a) (j * 0.69314718056 / a) := by
  unfold rjSquaredFl
  have hj : (0 : ℝ) ≤ ((j : Int) : ℝ) := by exact_mod_cast Nat.zero_le j
  have h1 := (((Rounding.near_fl (R := R) hj).mul
    (Rounding.near_fl (R := R) (x := 0.69314718056) (by norm_num))).fl.div
    (Rounding.Near.refl (k := 0) ha.le)).fl
  simpa using h1

theorem rjSquaredFl_mono (a : ℝ) (ha : 0 < a) {i j : Nat} (h : i ≤ j) :
    rjSquaredFl R.fl i a ≤ rjSquaredFl R.fl j a := by
  unfold rjSquaredFl
  apply R.mono
  apply div_le_div_of_nonneg_right _ ha.le
  apply R.mono
  apply mul_le_mul_of_nonneg_right _ (Rounding.fl_nonneg (by norm_num))
  apply R.mono
  exact_mod_cast h

/-- **C82** (partition).  Also with rounded radii every positive computed distance lies in exactly
one of the shells `0, ..., J`: no point is lost between two shells or counted by two of them. -/
theorem C82_partition (R : Rounding ℝ) (a : ℝ) (ha : 0 < a) (J : Nat) (d2 : ℝ) (hd : 0 < d2) :
    ∃! j, j ≤ J ∧ InShellFl R.fl a J j d2 := by
  classical
  by_cases hJ : rjSquaredFl R.fl J a < d2
  · refine ⟨0, ⟨Nat.zero_le _, by unfold InShellFl; rw [if_pos rfl]; exact hJ⟩, ?_⟩
    rintro j ⟨h1, h2⟩
    by_contra h0
    unfold InShellFl at h2
    rw [if_neg h0] at h2
    have := rjSquaredFl_mono (R := R) a ha h1
    linarith [h2.2]
  · rw [not_lt] at hJ
    have hex : ∃ j, d2 ≤ rjSquaredFl R.fl (j : Nat) a := ⟨J, hJ⟩
    have hf := Nat.find_spec hex
    have hfJ := Nat.find_min' hex hJ
    have h0 : Nat.find hex ≠ 0 := by
      intro h0
      rw [h0] at hf
      have := rjSquaredFl_zero (R := R) a
      rw [Nat.cast_zero, this] at hf
      linarith
    refine ⟨Nat.find hex, ⟨hfJ, ?_⟩, ?_⟩
    · unfold InShellFl
      rw [if_neg h0]
      exact ⟨not_le.1 (Nat.find_min hex (by omega)), hf⟩
    · rintro j ⟨h1, h2⟩
      unfold InShellFl at h2
      split_ifs at h2 with hj
      · linarith
      · rcases lt_trichotomy j (Nat.find hex) with h | h | h
        · exact absurd h2.2 (Nat.find_min hex h)
        · exact h
        · have := rjSquaredFl_mono (R := R) a ha (show Nat.find hex ≤ j - 1 by omega)
          linarith [h2.1]

/-- **C82** (distance zero).  Copies of the query are in no shell, and every other point is in
one. -/
theorem C82_shell_of_point (R : Rounding ℝ) (a : ℝ) (ha : 0 < a) (J : Nat) (q x : List ℝ)
    (h : q.length = x.length) :
    (∃ j, j ≤ J ∧ InShellFl R.fl a J j (squaredDistanceFl R.fl q x)) ↔ q ≠ x := by
  have hz := C82_distance_zero R q x h
  constructor
  · rintro ⟨j, -, hj⟩ rfl
    rw [hz.2.2 rfl] at hj
    unfold InShellFl at hj
    split_ifs at hj
    · linarith [(rjSquaredFl_near (R := R) a ha J).x0]
    · linarith [(rjSquaredFl_near (R := R) a ha (j - 1)).x0, hj.1]
  · intro hne
    obtain ⟨j, hj, -⟩ := C82_partition R a ha J (squaredDistanceFl R.fl q x)
      (lt_of_le_of_ne hz.1 (fun h0 => hne (hz.2.1 h0.symm)))
    exact ⟨j, hj⟩

/-- **C82** (boundaries).  A point whose exact squared distance differs from every radius by more
than the factor `g ^ (d + 7)` is in the same shell as in exact arithmetic. -/
theorem C82_shell_exact (R : Rounding ℝ) (a : ℝ) (ha : 0 < a) (J : Nat) (q x : List ℝ)
    (hb : ∀ i ≤ J, R.g ^ (q.length + 7) * sqDist q x < i * 0.69314718056 / a ∨
      R.g ^ (q.length + 7) * (i * 0.69314718056 / a) < sqDist q x) (j : Nat) (hj : j ≤ J) :
    InShellFl R.fl a J j (squaredDistanceFl R.fl q x) ↔ InShell a J j (sqDist q x) := by
  have hD := Rounding.squaredDistanceFl_near (R := R) q x
  have key : ∀ i ≤ J, (rjSquaredFl R.fl i a < squaredDistanceFl R.fl q x ↔
      (i : ℝ) * 0.69314718056 / a < sqDist q x) := by
    intro i hi
    have hr := rjSquaredFl_near (R := R) a ha i
    have e : R.g ^ (q.length + 7) = R.g ^ 4 * R.g ^ (q.length + 3) := by rw [← pow_add]; congr 1; omega
    have g1 := Rounding.g_pow_one_le (R := R) (q.length + 7)
    have g4 := Rounding.g_pow_pos (R := R) 4
    have g3 := Rounding.g_pow_pos (R := R) (q.length + 3)
    rcases hb i hi with h | h
    · have h1 : sqDist q x ≤ R.g ^ (q.length + 7) * sqDist q x := le_mul_of_one_le_left hD.y0 g1
      have h2 : R.g ^ 4 * squaredDistanceFl R.fl q x < R.g ^ 4 * rjSquaredFl R.fl i a := by
        calc R.g ^ 4 * squaredDistanceFl R.fl q x
            ≤ R.g ^ 4 * (R.g ^ (q.length + 3) * sqDist q x) := mul_le_mul_of_nonneg_left hD.le g4.le
          _ = R.g ^ (q.length + 7) * sqDist q x := by rw [e, mul_assoc]
          _ < _ := h
          _ ≤ _ := hr.ge
      have h3 := lt_of_mul_lt_mul_left h2 g4.le
      exact ⟨fun hc => absurd hc (not_lt.2 h3.le), fun hc => absurd hc (not_lt.2 (h1.trans h.le))⟩
    · have h1 : (i : ℝ) * 0.69314718056 / a ≤ R.g ^ (q.length + 7) * (i * 0.69314718056 / a) :=
        le_mul_of_one_le_left hr.y0 g1
      have h2 : R.g ^ (q.length + 3) * rjSquaredFl R.fl i a
          < R.g ^ (q.length + 3) * squaredDistanceFl R.fl q x := by
        calc R.g ^ (q.length + 3) * rjSquaredFl R.fl i a
            ≤ R.g ^ (q.length + 3) * (R.g ^ 4 * (i * 0.69314718056 / a)) :=
              mul_le_mul_of_nonneg_left hr.le g3.le
          _ = R.g ^ (q.length + 7) * (i * 0.69314718056 / a) := by rw [e]; ring
          _ < _ := h
          _ ≤ _ := hD.ge
      exact ⟨fun _ => lt_of_le_of_lt h1 h, fun _ => lt_of_mul_lt_mul_left h2 g3.le⟩
  unfold InShellFl InShell
  split_ifs with h0
  · exact key J (le_refl _)
  · have k1 := key (j - 1) (by omega)
    have k2 := key j hj
    rw [k1, ← not_lt, k2, not_lt]

/-- **C82** (hash unit).  What a hash unit of level `j` adds up over the points it is given: the
computed kernel values, divided by the sampling probability, of the points in its shell, and of no
others. -/
theorem C82_unit (R : Rounding ℝ) (E : LibExp) {h : HashUnit} {j J : Nat} (ha : 0 < h.a)
    (hj : h.j = j) (hJ : h.J = J) (hf : h.finalShell = decide (j = 0)) (q : List ℝ)
    (xs : List (List ℝ)) : open Classical in
    h.queryNeighborsFl R.fl E q xs
      = sumFl R.fl ((xs.filter
            (fun x => decide (InShellFl R.fl h.a J j (squaredDistanceFl R.fl q x)))).map
          (fun x => R.fl (kernelOfFl R.fl E h.a q x
            / cknsPSamplingFl R.fl j h.logNmu h.n h.offset))) 0 := by
  classical
  have key : ∀ (P : List ℝ → Prop) [DecidablePred P] (f : List ℝ → ℝ),
      (∀ x, P x ↔ InShellFl R.fl h.a J j (squaredDistanceFl R.fl q x)) →
      (∀ x, P x → f x = kernelOfFl R.fl E h.a q x) → ∀ (r : ℝ),
      xs.foldl (fun total x => if P x then R.fl (total + R.fl (f x
          / cknsPSamplingFl R.fl j h.logNmu h.n h.offset)) else total) r
        = sumFl R.fl ((xs.filter
            (fun x => decide (InShellFl R.fl h.a J j (squaredDistanceFl R.fl q x)))).map
          (fun x => R.fl (kernelOfFl R.fl E h.a q x
            / cknsPSamplingFl R.fl j h.logNmu h.n h.offset))) r := by
    intro P _ f hP hg
    induction xs with
    | nil => intro r; rfl
    | cons x xs ih =>
      intro r
      rw [List.foldl_cons, ih]
      by_cases hx : P x
      · rw [if_pos hx, List.filter_cons_of_pos (by simpa using (hP x).1 hx), List.map_cons, hg x hx]
        rfl
      · rw [if_neg hx, List.filter_cons_of_neg (by simpa using fun hc => hx ((hP x).2 hc))]
  unfold HashUnit.queryNeighborsFl
  simp only [hj, hJ]
  by_cases h0 : j = 0
  · rw [if_pos (by rw [hf]; simpa using h0)]
    subst h0
    exact key (fun x => squaredDistanceFl R.fl q x > _) (fun x => gaussianKernelFl R.fl E h.a
      (squaredDistanceFl R.fl q x)) (fun x => by
        unfold InShellFl
        rw [if_pos rfl, if_neg (by norm_num), if_pos (by norm_num)]) (fun x _ => rfl) 0
  · rw [if_neg (by rw [hf]; simpa using h0)]
    have hm1 : (if (j : Int) > 1 then rjSquaredFl R.fl ((j : Int) - 1) h.a
        else if (j : Int) = 0 then rjSquaredFl R.fl J h.a else 0)
        = rjSquaredFl R.fl ((j - 1 : Nat) : Int) h.a := by
      split_ifs with h1 h2
      · rw [show ((j : Int) - 1) = ((j - 1 : Nat) : Int) by omega]
      · omega
      · have : j - 1 = 0 := by omega
        rw [this]
        exact (rjSquaredFl_zero (R := R) h.a).symm
    rw [hm1]
    have hr := (rjSquaredFl_near (R := R) h.a ha j).x0
    have hr1 := (rjSquaredFl_near (R := R) h.a ha (j - 1)).x0
    have hP : ∀ x, squaredDistanceAtMostFl R.fl q x (rjSquaredFl R.fl j h.a)
        > rjSquaredFl R.fl ((j - 1 : Nat) : Int) h.a ↔
        InShellFl R.fl h.a J j (squaredDistanceFl R.fl q x) := by
      intro x
      unfold InShellFl
      rw [if_neg h0, C82_at_most R q x _ (.inr hr)]
      split_ifs with hle
      · exact ⟨fun hc => ⟨hc, hle⟩, fun hc => hc.1⟩
      · exact ⟨fun hc => by linarith, fun hc => absurd hc.2 hle⟩
    refine key (fun x => squaredDistanceAtMostFl R.fl q x (rjSquaredFl R.fl j h.a)
        > rjSquaredFl R.fl ((j - 1 : Nat) : Int) h.a)
      (fun x => gaussianKernelFl R.fl E h.a (squaredDistanceAtMostFl R.fl q x (rjSquaredFl R.fl j h.a)))
      hP (fun x hx => ?_) 0
    have h1 := (hP x).1 hx
    unfold InShellFl at h1
    rw [if_neg h0] at h1
    rw [C82_at_most R q x _ (.inr hr), if_pos h1.2]
    rfl

/-- **C82** (hash unit, error).  The rounded sum of a hash unit is within the factor
`g ^ (m + 1)` of the exact sum of the same computed kernel values, for `m` points. -/
theorem C82_unit_error (R : Rounding ℝ) (E : LibExp) {h : HashUnit} {j J : Nat} (ha : 0 < h.a)
    (hj : h.j = j) (hJ : h.J = J) (hf : h.finalShell = decide (j = 0)) (q : List ℝ)
    (xs : List (List ℝ)) : open Classical in
    let exact := (((xs.filter
        (fun x => decide (InShellFl R.fl h.a J j (squaredDistanceFl R.fl q x)))).map
      (fun x => kernelOfFl R.fl E h.a q x)).sum / cknsPSamplingFl R.fl j h.logNmu h.n h.offset)
    |h.queryNeighborsFl R.fl E q xs - exact| ≤ (R.g ^ (xs.length + 1) - 1) * exact := by
  classical
  dsimp only
  rw [C82_unit R E ha hj hJ hf]
  obtain ⟨ys, hys⟩ : ∃ ys, ys = xs.filter
        (fun x => decide (InShellFl R.fl h.a J j (squaredDistanceFl R.fl q x))) := ⟨_, rfl⟩
  rw [← hys]
  have hlen : ys.length ≤ xs.length := by rw [hys]; exact List.length_filter_le _ _
  have hp : 0 ≤ cknsPSamplingFl R.fl j h.logNmu h.n h.offset := by
    unfold cknsPSamplingFl
    split_ifs
    · apply le_min zero_le_one
      apply Rounding.fl_nonneg
      apply div_nonneg (by positivity)
      exact Rounding.fl_nonneg (by positivity)
    · exact le_min zero_le_one (Rounding.fl_nonneg (by positivity))
  generalize cknsPSamplingFl R.fl j h.logNmu h.n h.offset = p at *
  have hk : ∀ x, 0 ≤ kernelOfFl R.fl E h.a q x := fun x => (C82_kernel R E h.a ha.le q x).1
  generalize kernelOfFl R.fl E h.a q = f at *
  clear hys
  have key : ∀ (l : List (List ℝ)) {k : Nat} {acc ac : ℝ}, 1 ≤ k → R.Near k acc ac →
      R.Near (k + l.length) (sumFl R.fl (l.map (fun x => R.fl (f x / p))) acc)
        (ac + (l.map f).sum / p) := by
    intro l
    induction l with
    | nil => intro k acc ac _ h; simpa [sumFl] using h
    | cons x l ih =>
      intro k acc ac hk1 h1
      have h2 := (h1.add ((Rounding.near_fl (R := R) (div_nonneg (hk x) hp)).mono hk1)).fl
      have h3 := ih (by omega) h2
      rw [List.map_cons, List.map_cons, List.sum_cons, List.length_cons]
      unfold sumFl
      have e : k + 1 + l.length = k + (l.length + 1) := by omega
      rw [e] at h3
      rw [add_div, ← add_assoc ac]
      exact h3
  have h1 := (key ys (le_refl 1) (Rounding.Near.refl (k := 1) (le_refl 0))).mono
    (show 1 + ys.length ≤ xs.length + 1 by omega)
  rw [zero_add] at h1
  exact h1.abs_sub

/-! ## Examples -/

/-- The true exponential function is as accurate as can be. -/
noncomputable def LibExp.exact : LibExp where
  ex := Real.exp
  η := 0
  τ := 0
  η0 := le_refl _
  τ0 := le_refl _
  err := fun x _ => by simp
  nonneg := fun x _ => (exp_pos x).le
  le_one := fun x h => exp_le_one_iff.2 h
  zero := exp_zero

/-- A correctly rounded exponential function. -/
noncomputable def LibExp.rounded : LibExp where
  ex := fun x => flBin 53 (Real.exp x)
  η := (2 : ℝ) ^ (-53 : Int)
  τ := 0
  η0 := by positivity
  τ0 := le_refl _
  err := fun x _ => by
    have := flBin_err (p := 53) (Real.exp x)
    rw [abs_of_pos (exp_pos x)] at this
    simpa using this
  nonneg := fun x _ => Rounding.fl_nonneg (R := Rounding.binary ℝ 53 (by norm_num)) (exp_pos x).le
  le_one := fun x h => by
    have h1 := flBin_mono (p := 53) (by norm_num) (exp_le_one_iff.2 h)
    have h2 := flBin_nat (K := ℝ) (m := 1) (by norm_num)
    rw [Nat.cast_one] at h2
    rwa [h2] at h1
  zero := by
    have h2 := flBin_nat (K := ℝ) (m := 1) (by norm_num)
    rw [Nat.cast_one] at h2
    rw [exp_zero, h2]

/-- Two points in the plane: the computed density is within `12 * 2^-52` of the true one. -/
example : ∃ x, gaussianKdeExactFl (flBin 53) LibExp.rounded 2 [[0, 1], [3, 1]] [1, 1] = some x ∧
    0 ≤ x ∧ x ≤ 1 ∧ |x - (exp (-(2 * 1)) + exp (-(2 * 4))) / 2| ≤ 12 * (2 : ℝ) ^ (-52 : Int) := by
  obtain ⟨x, h1, h2, h3, h4⟩ := C82_kde_double LibExp.rounded
    (by show (2 : ℝ) ^ (-53 : Int) ≤ _; norm_num) (by show (0 : ℝ) ≤ _; positivity) 2 (by norm_num)
    [[0, 1], [3, 1]] [1, 1] (by simp) (by simp) (by simp)
  refine ⟨x, h1, h2, h3, ?_⟩
  have e1 : sqDist [(1 : ℝ), 1] [0, 1] = 1 := by simp [sqDist, Finset.sum_range_succ]
  have e2 : sqDist [(1 : ℝ), 1] [3, 1] = 4 := by simp [sqDist, Finset.sum_range_succ]; norm_num
  simp only [List.map_cons, List.map_nil, List.sum_cons, List.sum_nil, List.length_cons,
    List.length_nil, e1, e2] at h4
  norm_num at h4 ⊢
  exact h4

/-- The hypotheses of the theorems hold for double precision. -/
example : (Rounding.binary ℝ 53 (by norm_num)).Odd := fun x => flBin_neg 53 x

/-- The distance of `(0.1, 0)` and `(0.3, 1)`, as the `double`s nearest to these numbers, is not
computed exactly, but the early exit decides as the full sum does. -/
example :
    let fl := flBin (K := ℚ) 53
    let u := [fl (1 / 10), 0]
    let v := [fl (3 / 10), 1]
    let d := squaredDistanceFl fl u v
    d ≠ sqDist u v ∧ squaredDistanceAtMostFl fl u v d = d ∧
    squaredDistanceAtMostFl fl u v (d - (2 : ℚ) ^ (-52 : Int)) = -1 := by
  decide +kernel

/-- Without the roundings these are the functions of `Verif.Kde`. -/
theorem C82_exact_distance {K : Type} [Field K] [LinearOrder K] (u v : List K) (m : K) :
    squaredDistanceFl (fun x => x) u v = squaredDistance u v ∧
    squaredDistanceAtMostFl (fun x => x) u v m = squaredDistanceAtMost u v m := by
  have h1 : ∀ (n i : Nat) (r : K), sqDistLoopFl (fun x => x) u v i n r = sqDistLoop u v i n r := by
    intro n
    induction n with
    | zero => intro i r; rfl
    | succ n ih => intro i r; exact ih _ _
  have h2 : ∀ (n i : Nat) (r : K),
      sqDistAtMostLoopFl (fun x => x) u v m i n r = sqDistAtMostLoop u v m i n r := by
    intro n
    induction n with
    | zero => intro i r; rfl
    | succ n ih =>
      intro i r
      unfold sqDistAtMostLoopFl sqDistAtMostLoop
      simp only [ih]
  exact ⟨h1 _ _ _, h2 _ _ _⟩

/-- Without roundings and with the true exponential function, the estimator and the hash unit are
those of `Verif.Kde`. -/
theorem C82_exact_kde (a : ℝ) (data : List (List ℝ)) (q : List ℝ) (h : HashUnit) :
    gaussianKdeExactFl (fun x => x) LibExp.exact a data q = gaussianKdeExact a data q ∧
    h.queryNeighborsFl (fun x => x) LibExp.exact q data = h.queryNeighbors q data := by
  have hk : ∀ c, gaussianKernelFl (fun x => x) LibExp.exact a c = gaussianKernel a c := fun c => rfl
  constructor
  · unfold gaussianKdeExactFl gaussianKdeExact kernelOfFl kernelOf
    have hd : ∀ u v : List ℝ, squaredDistanceFl (fun x => x) u v = squaredDistance u v :=
      fun u v => (C82_exact_distance u v 0).1
    simp only [hk, hd]
  · unfold HashUnit.queryNeighborsFl HashUnit.queryNeighbors
    have hk : ∀ c, gaussianKernelFl (fun x => x) LibExp.exact h.a c = gaussianKernel h.a c := fun c => rfl
    have hp : cknsPSamplingFl (fun x => x) h.j h.logNmu h.n h.offset
        = cknsPSampling h.j h.logNmu h.n h.offset := rfl
    have hr : ∀ j, rjSquaredFl (fun x => x) j h.a = rjSquared j h.a := fun j => rfl
    have hd : ∀ u v : List ℝ, squaredDistanceFl (fun x => x) u v = squaredDistance u v :=
      fun u v => (C82_exact_distance u v 0).1
    have hm : ∀ (u v : List ℝ) (m : ℝ),
        squaredDistanceAtMostFl (fun x => x) u v m = squaredDistanceAtMost u v m :=
      fun u v m => (C82_exact_distance u v m).2
    simp only [hk, hp, hr, hd, hm]

end

end Stag
