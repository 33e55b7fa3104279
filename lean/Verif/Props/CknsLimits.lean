import Verif.Props.CknsGuarantee
import Verif.Props.LshProb

/-!
# C67: where the CKNS estimator does not give what is documented, and what its hash tables give
-/

set_option linter.unusedSectionVars false

namespace Stag

open Finset

theorem cknsK1_pos {n : Nat} (hn : 2 ≤ n) {eps : ℝ} (he : eps ≠ 0) : 0 < (cknsK1 n eps).toNat := by
  have h1 : 0 < cknsK1 n eps := by
    unfold cknsK1
    rw [Int.ceil_pos]
    have : 0 < Real.log n := Real.log_pos (by exact_mod_cast (by omega : 1 < n))
    have h3 : 0 < eps * eps := mul_self_pos.2 he
    exact div_pos (by linarith) h3
  omega

theorem gaussianKdeExact_eq (a : ℝ) (rows : List (List ℝ)) (q : List ℝ) (h : 0 < rows.length) :
    gaussianKdeExact a rows q = some ((rows.map (gauss a q)).sum / rows.length) := by
  unfold gaussianKdeExact
  rw [if_neg (by omega), foldl_add_eq, zero_add]
  congr 3
  apply List.map_congr_left
  intro x _
  exact kernelOf_eq a q x

theorem shellSum_eq_zero {a : ℝ} {J j : Nat} {q : List ℝ} {xs : List (List ℝ)}
    (h : ∀ x ∈ xs, ¬ InShell a J j (sqDist q x)) : shellSum a J j q xs = 0 := by
  unfold shellSum
  apply List.sum_eq_zero
  intro y hy
  obtain ⟨x, hx, rfl⟩ := List.mem_map.1 hy
  exact if_neg (h x hx)

theorem median_mem {k : Nat} (hk : 0 < k) (F : Nat → ℝ) :
    ∃ i < k, medianReal ((List.range k).map F) = F i := by
  obtain ⟨h, -⟩ := C49_median ((List.range k).map F) (by simp; omega)
  obtain ⟨i, hi, he⟩ := List.mem_map.1 h
  exact ⟨i, List.mem_range.1 hi, he.symm⟩

/-- If all the copies sum to zero in an iteration, the estimate is zero. -/
theorem median_zero {k : Nat} (hk : 0 < k) {F : Nat → ℝ} (h : ∀ i < k, F i = 0) :
    medianReal ((List.range k).map F) = 0 := by
  obtain ⟨i, hi, he⟩ := median_mem hk F
  rw [he, h i hi]

/-- **C67** (all points equal to the query).  If every data point equals the query, the density is 1 and the
estimator answers 0: whatever the parameters, the draws and the schedule. -/
theorem C67_identical (rows : List (List ℝ)) (hn : 0 < rows.length) (a minMu : ℝ) (ha : 0 < a)
    (h0 : 0 < minMu) (h1 : minMu ≤ 1) (k1 : Nat) (hk : 0 < k1) (k2 : ℝ) (offset : Int) (threads : Nat)
    (ht : 0 < threads) (c : Ckns) (hc : Ckns.NewFull rows a minMu k1 k2 offset threads c) (q : List ℝ)
    (hq : ∀ x ∈ rows, sqDist q x = 0) :
    c.query q = .ok 0 ∧ gaussianKdeExact a rows q = some 1 := by
  obtain ⟨copies, fs, hd, hcr⟩ := hc
  obtain ⟨F, hF, it, hit, hqe, -⟩ := answer_copies ha hn hk h0 h1
    (fun iter hi => (hd.perm iter hi).length_eq) ht hcr q
  constructor
  · rw [hqe, median_zero hk, zero_div]
    intro i hi
    obtain ⟨h2, h3, -⟩ := hF it hit i hi
    have h4 : copySum a rows.length q (Ckns.logNmu (cknsMaxLog rows.length) it) offset (2 * it) (copies i) = 0 := by
      unfold copySum
      apply sum_eq_zero
      intro j _
      rw [shellSum_eq_zero, zero_div]
      intro x hx
      rw [hq x ((hd.perm i hi).subset (List.take_subset _ _ hx))]
      exact C48_distance_zero a ha _ _
    linarith
  · rw [gaussianKdeExact_eq a rows q hn]
    have h2 : rows.map (gauss a q) = List.replicate rows.length 1 := by
      rw [List.eq_replicate_iff]
      refine ⟨by simp, fun y hy => ?_⟩
      obtain ⟨x, hx, rfl⟩ := List.mem_map.1 hy
      unfold gauss
      rw [hq x hx]
      simp
    have hn' : (0 : ℝ) < rows.length := by exact_mod_cast hn
    rw [h2, List.sum_replicate, nsmul_eq_mul, mul_one, div_self hn'.ne']

/-- **C67** (all points equal, default constructor).  With the constructor that takes the data and `a` only,
on two or more points. -/
theorem C67_identical_default (rows : List (List ℝ)) (hn : 2 ≤ rows.length) (a : ℝ) (ha : 0 < a) (threads : Nat)
    (ht : 0 < threads) (c : Ckns) (hc : Ckns.New2 rows a threads c) (q : List ℝ)
    (hq : ∀ x ∈ rows, sqDist q x = 0) :
    c.query q = .ok 0 ∧ gaussianKdeExact a rows q = some 1 := by
  have hn' : (2 : ℝ) ≤ rows.length := by exact_mod_cast hn
  exact C67_identical rows (by omega) a _ ha (by positivity) (by rw [div_le_one (by positivity)]; linarith) _
    (cknsK1_pos hn one_ne_zero) _ _ threads ht c hc q hq

theorem le_two_pow_maxLog {n : Nat} (hn : 0 < n) : (n : ℝ) ≤ (2 : ℝ) ^ (cknsMaxLog n) := by
  have hn' : (0 : ℝ) < n := by exact_mod_cast hn
  have := Int.le_ceil (Real.logb 2 (n : ℝ))
  rw [Real.logb_le_iff_le_rpow (by norm_num) hn', Real.rpow_intCast] at this
  exact this

/-- **C67** (the outermost ring is lost).  Let `n` not be a power of two and `⌈log2 n⌉ = 2 h` be even, and use
the constructor with `a` and `eps` only (or any number of copies and offset 0, with the default
`min_mu = 1 / n`).  If every data point is at a squared distance `d` from the query with
`(2 h - 1) log 2 < a d ≤ log n` (with the constant of the code for `log 2`), the density is at least `min_mu`
and the estimator always answers 0. -/
theorem C67_outer_ring (rows : List (List ℝ)) (hpow : ∀ m, rows.length ≠ 2 ^ m) (hn : 0 < rows.length)
    (h : Nat) (hM : cknsMaxLog rows.length = 2 * h) (a : ℝ) (ha : 0 < a) (k1 : Nat) (hk : 0 < k1) (k2 : ℝ)
    (threads : Nat) (ht : 0 < threads) (c : Ckns)
    (hc : Ckns.NewFull rows a (1 / rows.length) k1 k2 0 threads c) (q : List ℝ)
    (hq : ∀ x ∈ rows, (2 * h - 1 : ℝ) * 0.69314718056 < a * sqDist q x ∧ a * sqDist q x ≤ Real.log rows.length) :
    c.query q = .ok 0 ∧ ∃ d, gaussianKdeExact a rows q = some d ∧ 1 / rows.length ≤ d := by
  have hn' : (0 : ℝ) < rows.length := by exact_mod_cast hn
  have hn1 : (1 : ℝ) ≤ rows.length := by exact_mod_cast hn
  have hpowM := le_two_pow_maxLog hn
  rw [hM] at hpowM
  have hh : 0 < h := by
    rcases Nat.eq_zero_or_pos h with h0 | h0
    · exfalso
      subst h0
      apply hpow 0
      have : (rows.length : ℝ) ≤ 1 := by simpa using hpowM
      have : rows.length ≤ 1 := by exact_mod_cast this
      simp only [pow_zero]
      omega
    · exact h0
  have hh' : (1 : ℝ) ≤ h := by exact_mod_cast hh
  obtain ⟨copies, fs, hd, hcr⟩ := hc
  have hminlog : cknsMinLog rows.length (1 / rows.length) = 0 := by
    unfold cknsMinLog
    rw [mul_one_div_cancel hn'.ne']
    simp
  have hiters : numIterations rows.length (1 / rows.length) = h + 1 := by
    unfold numIterations
    rw [hminlog, hM, show (((2 * (h : Int) - 0 : Int) : ℝ)) / 2 = ((h : Int) : ℝ) by push_cast; ring,
      Int.ceil_intCast]
  have hlogn : Real.log rows.length ≤ (2 * h : ℝ) * 0.69314718056 := by
    have h1 : Real.log rows.length ≤ Real.log ((2 : ℝ) ^ (2 * (h : Int))) := Real.log_le_log hn' hpowM
    rw [Real.log_zpow] at h1
    have := mul_le_mul_of_nonneg_left log_two_le_const (show (0 : ℝ) ≤ 2 * h by positivity)
    push_cast at h1
    linarith
  obtain ⟨F, hF, it, hit, hqe, hbefore, hlast⟩ := answer_copies ha hn hk (by positivity)
    (by rw [div_le_one hn']; exact hn1) (fun iter hi => (hd.perm iter hi).length_eq) ht hcr q
  rw [hiters] at hit
  -- points are beyond every ring but the outermost
  have hring : ∀ x ∈ rows, ∀ J j : Nat, 0 < j → j < 2 * h → ¬ InShell a J j (sqDist q x) := by
    intro x hx J j hj0 hj hin
    unfold InShell at hin
    rw [if_neg (by omega)] at hin
    have h2 := hin.2
    rw [le_div_iff₀ ha] at h2
    have h3 := (hq x hx).1
    have h4 : (j : ℝ) ≤ 2 * h - 1 := by
      have : (j : ℝ) + 1 ≤ ((2 * h : Nat) : ℝ) := by exact_mod_cast hj
      push_cast at this
      linarith
    nlinarith
  have hmem : ∀ i < k1, ∀ m, ∀ x ∈ (copies i).take m, x ∈ rows := fun i hi m x hx =>
    (hd.perm i hi).subset (List.take_subset _ _ hx)
  constructor
  · rcases Nat.lt_or_ge it h with hlt | hge
    · -- an earlier iteration is not accepted
      exfalso
      have hacc := hlast.resolve_right (by rw [hiters]; omega)
      obtain ⟨i, hi, hme⟩ := median_mem hk (F it)
      rw [hme] at hacc
      obtain ⟨hp, hl⟩ := hacc
      have hle : F it i ≤ 2 := by
        refine le_trans (hF it (by rw [hiters]; omega) i hi).2.1 ?_
        unfold copySum
        rw [sum_eq_single 0]
        · have hp0 : cknsPSampling ((0 : Nat) : Int) (Ckns.logNmu (cknsMaxLog rows.length) it) rows.length 0
              = 1 / rows.length := by
            unfold cknsPSampling
            rw [if_pos (by simp)]
            simp only [neg_zero, zpow_zero]
            exact min_eq_right (by rw [div_le_one hn']; exact hn1)
          have hs0 : numSampled ((0 : Nat) : Int) (Ckns.logNmu (cknsMaxLog rows.length) it) rows.length 0 = 1 := by
            unfold numSampled
            rw [hp0, one_div_mul_cancel hn'.ne']
            simp
          rw [hp0, hs0, div_div_eq_mul_div, div_one]
          have hshell : shellSum a (2 * it) 0 q ((copies i).take 1) ≤ (2 : ℝ) ^ (-((2 * h - 1 : Nat) : Int)) := by
            have hex : ∀ x ∈ rows, gauss a q x ≤ (2 : ℝ) ^ (-((2 * h - 1 : Nat) : Int)) := by
              intro x hx
              apply exp_const_le
              have := (hq x hx).1
              rw [Nat.cast_sub (by omega)]
              push_cast
              exact this
            unfold shellSum
            rcases hcp : copies i with _ | ⟨y, ys⟩
            · simp only [List.take_nil, List.map_nil, List.sum_nil]
              positivity
            · have hy : y ∈ rows := (hd.perm i hi).subset (by rw [hcp]; simp)
              simp only [List.take_succ_cons, List.take_zero, List.map_cons, List.map_nil, List.sum_cons,
                List.sum_nil, add_zero]
              split_ifs
              · exact hex y hy
              · positivity
          calc shellSum a (2 * it) 0 q ((copies i).take 1) * (rows.length : ℝ)
              ≤ (2 : ℝ) ^ (-((2 * h - 1 : Nat) : Int)) * (2 : ℝ) ^ (2 * (h : Int)) :=
                mul_le_mul hshell hpowM hn'.le (by positivity)
            _ = 2 := by
                rw [← zpow_add₀ (by norm_num), show (-((2 * h - 1 : Nat) : Int)) + 2 * (h : Int) = 1 by omega,
                  zpow_one]
        · intro j hj hj0
          have := mem_range.1 hj
          rw [shellSum_eq_zero (fun x hx => hring x (hmem i hi _ x hx) _ j (Nat.pos_of_ne_zero hj0) (by omega)),
            zero_div]
        · intro hc
          exact absurd (mem_range.2 (by omega)) hc
      have hlog : Real.log (F it i) ≤ 1 := by
        have h2 := Real.log_le_log hp hle
        have h3 := log_two_le_const
        norm_num at h3
        linarith
      have hL : (2 : ℝ) ≤ ((cknsMaxLog rows.length - 2 * it : Int) : ℝ) := by
        have : (2 : Int) ≤ cknsMaxLog rows.length - 2 * it := by omega
        exact_mod_cast this
      linarith
    · have hit' : it = h := by omega
      subst hit'
      rw [hqe, median_zero hk, zero_div]
      intro i hi
      obtain ⟨h2, h3, -⟩ := hF it (by rw [hiters]; omega) i hi
      have h4 : copySum a rows.length q (Ckns.logNmu (cknsMaxLog rows.length) it) 0 (2 * it) (copies i) = 0 := by
        unfold copySum
        apply sum_eq_zero
        intro j hj
        have hj' := mem_range.1 hj
        rcases Nat.eq_zero_or_pos j with hj0 | hj0
        · subst hj0
          rw [shellSum_eq_zero, zero_div]
          intro x hx hin
          unfold InShell at hin
          rw [if_pos rfl, div_lt_iff₀ ha] at hin
          have h5 := (hq x (hmem i hi _ x hx)).2
          push_cast at hin
          linarith
        · rcases Nat.lt_or_ge j (2 * it) with hj1 | hj1
          · rw [shellSum_eq_zero (fun x hx => hring x (hmem i hi _ x hx) _ j hj0 hj1), zero_div]
          · have hj2 : j = 2 * it := by omega
            subst hj2
            rw [numSampled_outer hpow hn it hh, List.take_zero, shellSum_eq_zero (by simp), zero_div]
      linarith
  · refine ⟨_, gaussianKdeExact_eq a rows q hn, ?_⟩
    apply div_le_div_of_nonneg_right _ hn'.le
    have h2 : (rows.map (gauss a q)).length • (1 / rows.length : ℝ) ≤ (rows.map (gauss a q)).sum := by
      apply List.card_nsmul_le_sum
      intro y hy
      obtain ⟨x, hx, rfl⟩ := List.mem_map.1 hy
      unfold gauss
      rw [one_div, ← Real.exp_log hn', ← Real.exp_neg, Real.exp_le_exp]
      linarith [(hq x hx).2]
    rw [List.length_map, nsmul_eq_mul, mul_one_div_cancel hn'.ne'] at h2
    exact h2

/-! ## Hash tables -/

/-- **C67** (hash tables).  The unit of level `1 ≤ j ≤ J` takes at least one hash function per table.  If the
number of hash functions was not raised to one, a point at distance `r = √(j log 2 / a)`, the outer radius of
the ring, is found in one of the tables with (modelled, C44) probability at least `1 - exp(-K2)`: with the
default `K2 = log n`, at least `1 - 1 / n`. -/
theorem C67_collision (J j : Nat) (hj : 0 < j) (hjJ : j ≤ J) (a k2 : ℝ) (hk2 : 0 ≤ k2)
    (hp : 1 ≤ -(⌈((j : ℝ) / (J : ℝ)) * ((J - j + 1 : Nat) : ℝ)⌉ : ℝ)
      / Real.logb 2 (lshCollision (Real.sqrt (j * Real.log 2 / a)))) :
    1 - Real.exp (-k2) ≤ e2lshCollision (cknsLshParams J j a k2).1 (cknsLshParams J j a k2).2
      (Real.sqrt (j * Real.log 2 / a)) := by
  set r := Real.sqrt (j * Real.log 2 / a) with hr
  obtain ⟨p, hpe⟩ : ∃ p, p = lshCollision r := ⟨_, rfl⟩
  obtain ⟨φ, hφ⟩ : ∃ φ : Int, φ = ⌈((j : ℝ) / (J : ℝ)) * ((J - j + 1 : Nat) : ℝ)⌉ := ⟨_, rfl⟩
  rw [← hφ, ← hpe] at hp
  have hJ : (0 : ℝ) < J := by exact_mod_cast (by omega : 0 < J)
  have hφ1 : 1 ≤ φ := by
    rw [hφ, Int.one_le_ceil_iff]
    have : (0 : ℝ) < j := by exact_mod_cast hj
    have : (0 : ℝ) < ((J - j + 1 : Nat) : ℝ) := by exact_mod_cast (by omega)
    positivity
  have hφ' : (1 : ℝ) ≤ φ := by exact_mod_cast hφ1
  obtain ⟨hp0, hp1⟩ := C44_function_range r
  rw [← hpe] at hp0 hp1
  have hlb : Real.logb 2 p < 0 := by
    by_contra hge
    rw [not_lt] at hge
    have : -(φ : ℝ) / Real.logb 2 p ≤ 0 := div_nonpos_of_nonpos_of_nonneg (by linarith) hge
    linarith
  have hppos : 0 < p := by
    rcases eq_or_lt_of_le hp0 with h | h
    · rw [← h] at hlb; simp at hlb
    · exact h
  obtain ⟨K, hK⟩ : ∃ K : Nat, K = ⌊-(φ : ℝ) / Real.logb 2 p⌋.toNat := ⟨_, rfl⟩
  have hfl : 1 ≤ ⌊-(φ : ℝ) / Real.logb 2 p⌋ := by rw [Int.le_floor]; simpa using hp
  have hpar1 : (cknsLshParams J j a k2).1 = K := by
    unfold cknsLshParams
    simp only []
    rw [hK]
    push_cast
    rw [← hr, ← hpe]
    rw [show (⌈((j : ℝ) / (J : ℝ)) * ((J : ℝ) - j + 1)⌉ : Int) = φ by
      rw [hφ]; congr 2; push_cast [Nat.cast_sub hjJ]; ring]
    rw [max_eq_right hfl]
  have hpar2 : (cknsLshParams J j a k2).2 = ⌈k2 * (2 : ℝ) ^ φ⌉.toNat := by
    unfold cknsLshParams
    simp only []
    push_cast
    rw [show (⌈((j : ℝ) / (J : ℝ)) * ((J : ℝ) - j + 1)⌉ : Int) = φ by
      rw [hφ]; congr 2; push_cast [Nat.cast_sub hjJ]; ring]
  rw [hpar1, hpar2]
  unfold e2lshCollision
  rw [Real.rpow_natCast, Real.rpow_natCast, ← hpe]
  have hKle : (K : ℝ) ≤ -(φ : ℝ) / Real.logb 2 p := by
    have h1 := Int.floor_le (-(φ : ℝ) / Real.logb 2 p)
    have h2 : ((K : Int) : ℝ) = (⌊-(φ : ℝ) / Real.logb 2 p⌋ : ℝ) := by
      rw [hK, Int.toNat_of_nonneg (by omega)]
    rw [← Int.cast_natCast, h2]
    exact h1
  -- p ^ K ≥ 2 ^ (-φ)
  have hpK : (2 : ℝ) ^ (-φ) ≤ p ^ K := by
    rw [← Real.rpow_intCast, ← Real.rpow_natCast]
    rw [← Real.rpow_logb (show (0 : ℝ) < 2 by norm_num) (by norm_num) hppos, ← Real.rpow_mul (by norm_num)]
    apply Real.rpow_le_rpow_of_exponent_le (by norm_num)
    rw [le_div_iff_of_neg hlb] at hKle
    push_cast
    linarith
  have hpK1 : p ^ K ≤ 1 := pow_le_one₀ hp0 hp1
  have h2φ : (0 : ℝ) < (2 : ℝ) ^ φ := by positivity
  obtain ⟨L, hL⟩ : ∃ L : Nat, L = ⌈k2 * (2 : ℝ) ^ φ⌉.toNat := ⟨_, rfl⟩
  have hLge : k2 * (2 : ℝ) ^ φ ≤ L := by
    have h1 := Int.le_ceil (k2 * (2 : ℝ) ^ φ)
    have h2 : ((L : Int) : ℝ) = (⌈k2 * (2 : ℝ) ^ φ⌉ : ℝ) := by
      rw [hL, Int.toNat_of_nonneg (Int.ceil_nonneg (by positivity))]
    rw [← Int.cast_natCast, h2]
    exact h1
  rw [← hL]
  have h1 : (1 - p ^ K) ^ L ≤ Real.exp (-k2) := by
    calc (1 - p ^ K) ^ L ≤ (Real.exp (-(2 : ℝ) ^ (-φ))) ^ L := by
          apply pow_le_pow_left₀ (by linarith)
          have := Real.add_one_le_exp (-(2 : ℝ) ^ (-φ))
          linarith
      _ = Real.exp (-((L : ℝ) * (2 : ℝ) ^ (-φ))) := by
          rw [← Real.exp_nat_mul]; congr 1; ring
      _ ≤ Real.exp (-k2) := by
          rw [Real.exp_le_exp, neg_le_neg_iff]
          have h3 := mul_le_mul_of_nonneg_right hLge (show (0 : ℝ) ≤ (2 : ℝ) ^ (-φ) by positivity)
          rw [mul_assoc, ← zpow_add₀ (by norm_num), add_neg_cancel, zpow_zero, mul_one] at h3
          exact h3
  linarith

theorem C67_functions (J j : Int) (a k2 : ℝ) : 1 ≤ (cknsLshParams J j a k2).1 := by
  unfold cknsLshParams
  simp only []
  have := le_max_left (1 : Int) ⌊-(⌈((j : ℝ) / (J : ℝ)) * ((J - j + 1 : Int) : ℝ)⌉ : ℝ)
    / Real.logb 2 (lshCollision (Real.sqrt ((j : ℝ) * Real.log 2 / a)))⌋
  omega

/-- **C67** (a range of rows).  The constructor with a range `[lo, hi)` gives exactly the estimators
which the constructor without a range gives for the rows `lo, …, hi - 1` of the data, so everything
said here holds for it with `n = hi - lo`. -/
theorem C67_range (data : Mat ℝ) (a minMu : ℝ) (k1 : Nat) (k2 : ℝ) (offset : Int) (lo hi threads : Nat)
    (c : Ckns) (h1 : lo < hi) (h2 : hi ≤ data.rows) :
    Ckns.NewRange data a minMu k1 k2 offset lo hi threads c ↔
    Ckns.NewFull ((((List.range data.rows).map data.row).take hi).drop lo) a minMu k1 k2 offset
      threads c := by
  have e : (((List.range data.rows).map data.row).take hi).drop lo =
      (List.range (hi - lo)).map (fun t => data.row (lo + t)) := by
    apply List.ext_getElem
    · simp
      omega
    · intro i _ _
      simp
  rw [e]
  unfold Ckns.NewRange
  exact ⟨fun h => h.2.2, fun h => ⟨h1, h2, h⟩⟩

/-! ## The hypotheses are met -/

/-- Estimators exist for any data and any draws of the copies. -/
theorem newFull_exists (rows : List (List ℝ)) (hn : 0 < rows.length) (a minMu : ℝ) (k1 : Nat) (k2 : ℝ)
    (offset : Int) (threads : Nat) (ht : 0 < threads) :
    ∃ c, Ckns.NewFull rows a minMu k1 k2 offset threads c := by
  obtain ⟨c, hc⟩ := C49_returns a minMu rows.length k1 offset (fun _ => rows)
    (fun _ it j => List.replicate (cknsLshParams (cknsJ rows.length (Ckns.logNmu (cknsMaxLog rows.length) it)) j a k2).2
      ⟨1, List.replicate (cknsLshParams (cknsJ rows.length (Ckns.logNmu (cknsMaxLog rows.length) it)) j a k2).1
        ([0], 0, 1)⟩) hn (fun _ _ => rfl) threads ht
  refine ⟨c, _, _, ⟨fun _ _ => List.Perm.refl _, fun _ _ _ => by simp, fun _ _ _ f hf => ?_⟩, hc⟩
  rw [(List.mem_replicate.1 hf).2]
  simp

/-- Two equal points, default constructor. -/
example : ∃ c, Ckns.New2 [[1], [1]] 1 4 c ∧ c.query [1] = .ok 0 ∧
    gaussianKdeExact 1 [[1], [1]] [1] = some 1 := by
  obtain ⟨c, hc⟩ := newFull_exists [[1], [1]] (by simp) 1 (1 / (([[1], [1]] : List (List ℝ)).length : ℝ))
    (cknsK1 2 1).toNat (1 * Real.log 2) 0 4 (by norm_num)
  refine ⟨c, by exact_mod_cast hc, ?_⟩
  apply C67_identical_default [[1], [1]] (by simp) 1 (by norm_num) 4 (by norm_num) c (by exact_mod_cast hc)
  intro x hx
  have : x = [1] := by simpa using hx
  rw [this]
  simp [sqDist]

theorem cknsMaxLog_three : cknsMaxLog 3 = 2 := by
  unfold cknsMaxLog
  rw [Int.ceil_eq_iff]
  constructor
  · rw [Real.lt_logb_iff_rpow_lt (by norm_num) (by norm_num)]
    norm_num
  · rw [Real.logb_le_iff_le_rpow (by norm_num) (by norm_num)]
    norm_num

/-- Three points at distance 1 with `a = 1`: the density is `exp(-1) > 1 / 3`, the answer always 0. -/
example : ∃ c, Ckns.New2 [[1], [-1], [1]] 1 4 c ∧ c.query [0] = .ok 0 ∧
    ∃ d, gaussianKdeExact 1 [[1], [-1], [1]] [0] = some d ∧ 1 / 3 ≤ d := by
  obtain ⟨c, hc⟩ := newFull_exists [[1], [-1], [1]] (by simp) 1
    (1 / (([[1], [-1], [1]] : List (List ℝ)).length : ℝ)) (cknsK1 3 1).toNat (1 * Real.log 3) 0 4 (by norm_num)
  have hc' : Ckns.New2 [[1], [-1], [1]] 1 4 c := by
    unfold Ckns.New2 Ckns.New3 Ckns.New4
    exact_mod_cast hc
  refine ⟨c, hc', ?_⟩
  have h3 : Real.log 3 ≥ 1 := by
    have h1 : Real.log 3 = Real.log (3 : ℝ) := rfl
    rw [ge_iff_le, Real.le_log_iff_exp_le (by norm_num)]
    have := Real.exp_one_lt_d9
    linarith
  have := C67_outer_ring [[1], [-1], [1]] (by
      intro m hm
      have hm' : 3 = 2 ^ m := by simpa using hm
      rcases m with _ | _ | m
      · omega
      · omega
      · rw [pow_succ, pow_succ] at hm'; have := Nat.one_le_two_pow (n := m); omega) (by simp) 1
    (by rw [show ([[1], [-1], [1]] : List (List ℝ)).length = 3 from rfl, cknsMaxLog_three]; norm_num)
    1 (by norm_num) _ (cknsK1_pos (n := 3) (by norm_num) one_ne_zero) _ 4 (by norm_num) c hc [0] (by
      intro x hx
      have hx' : sqDist [0] x = 1 := by
        simp only [List.mem_cons, List.not_mem_nil, or_false] at hx
        rcases hx with rfl | rfl | rfl <;> simp [sqDist]
      rw [hx']
      constructor
      · norm_num
      · simpa using h3)
  exact_mod_cast this

/-- The hypotheses of `C67_overestimate` and `C67_relative_error` are met for every data set of 4 points:
estimators exist for all draws, and there are no hash tables. -/
example (x : Fin (2 ^ 2) → List ℝ) :
    (∃ c : (Fin 3 → Equiv.Perm (Fin (2 ^ 2))) → Ckns, ∀ σ,
      Ckns.Create 1 (1 / 4) (2 ^ 2) 3 0 (permCopies x σ) (fun _ _ _ => []) 4 (c σ)) ∧
    ∀ it, NoTables (2 ^ 2) 0 it := by
  refine ⟨⟨fun σ => (C49_returns 1 (1 / 4) (2 ^ 2) 3 0 (permCopies x σ) (fun _ _ _ => []) (by norm_num)
    (permCopies_length x σ) 4 (by norm_num)).choose, fun σ => Exists.choose_spec _⟩, fun it =>
    noTables_small (by norm_num) (by norm_num) 0 it⟩

end Stag
