import Verif.RoundingInfo
import Verif.Props.RoundingMetrics
import Verif.Props.MutualInfo
import Verif.Props.RoundingSpectral

/-!
# C105: mutual information in floating point
-/

namespace Stag

open Finset

section
variable {R : Rounding ℝ}

/-- The rounded logarithm to base 2 has relative error at most `j` roundings. -/
def LogAccurate (R : Rounding ℝ) (lg : ℝ → ℝ) (j : Nat) : Prop :=
  ∀ x, 0 < x → |lg x - Real.logb 2 x| ≤ ((1 / (1 - R.u)) ^ j - 1) * |Real.logb 2 x|

theorem logAccurate_one {lg : ℝ → ℝ} {j : Nat} (h : LogAccurate R lg j) : lg 1 = 0 := by
  have := h 1 one_pos
  rw [Real.logb_one, sub_zero, abs_zero, mul_zero] at this
  exact abs_nonpos_iff.1 this

/-- The error a rounding makes in the argument of a logarithm. -/
noncomputable def logErr (R : Rounding ℝ) : ℝ := (R.g - 1) / Real.log 2

theorem logErr_nonneg : 0 ≤ logErr R :=
  div_nonneg (sub_nonneg.2 (Rounding.one_le_g (R := R))) (Real.log_nonneg (by norm_num))

theorem logb_fl {z : ℝ} (hz : 0 < z) : |Real.logb 2 (R.fl z) - Real.logb 2 z| ≤ logErr R := by
  have hn := Rounding.near_fl (R := R) hz.le
  have hp := hn.pos hz
  have hl2 : 0 < Real.log 2 := Real.log_pos (by norm_num)
  have key : ∀ a b : ℝ, 0 < a → 0 < b → a ≤ R.g * b → Real.log a - Real.log b ≤ R.g - 1 := by
    intro a b ha hb h
    rw [← Real.log_div ha.ne' hb.ne']
    refine (Real.log_le_sub_one_of_pos (div_pos ha hb)).trans (sub_le_sub_right ?_ 1)
    rw [div_le_iff₀ hb]
    exact h
  have h1 := key z (R.fl z) hz hp (by simpa using hn.ge)
  have h2 := key (R.fl z) z hp hz (by simpa using hn.le)
  rw [Real.logb, Real.logb, ← sub_div, abs_div, abs_of_pos hl2]
  unfold logErr
  exact div_le_div_of_nonneg_right (abs_le.2 ⟨by linarith, by linarith⟩) hl2.le

/-- One summand. -/
theorem info_term {lg : ℝ → ℝ} {j : Nat} (hlg : LogAccurate R lg j) {p z : ℝ} (hp : 0 ≤ p) (hz : 0 < z) :
    |R.fl (R.fl p * lg (R.fl z)) - p * Real.logb 2 z|
      ≤ p * ((R.g ^ (j + 2) - 1) * |Real.logb 2 z| + R.g ^ (j + 2) * logErr R) := by
  have hfz := (Rounding.near_fl (R := R) hz.le).pos hz
  have h1 := hlg _ hfz
  change _ ≤ (R.g ^ j - 1) * _ at h1
  have h2 := logb_fl (R := R) hz
  obtain ⟨y, hy⟩ : ∃ y, y = Real.logb 2 z := ⟨_, rfl⟩
  obtain ⟨L, hL⟩ : ∃ L, L = Real.logb 2 (R.fl z) := ⟨_, rfl⟩
  obtain ⟨w, hw⟩ : ∃ w, w = lg (R.fl z) := ⟨_, rfl⟩
  obtain ⟨e, he⟩ : ∃ e, e = logErr R := ⟨_, rfl⟩
  rw [← hy, ← hL, ← he] at h2
  rw [← hL, ← hw] at h1
  rw [← hy, ← hw, ← he]
  have hG := Rounding.g_pow_one_le (R := R) j
  have hg := Rounding.one_le_g (R := R)
  have h3 : |L| ≤ |y| + e := by
    have := abs_sub_abs_le_abs_sub L y
    linarith
  have h4 : |w - y| ≤ (R.g ^ j - 1) * |y| + R.g ^ j * e := by
    have h5 : |w - y| ≤ |w - L| + |L - y| := abs_sub_le _ _ _
    have h6 : (R.g ^ j - 1) * |L| ≤ (R.g ^ j - 1) * (|y| + e) := mul_le_mul_of_nonneg_left h3 (sub_nonneg.2 hG)
    nlinarith
  have h5 : |w| ≤ R.g ^ j * (|y| + e) := by
    have := abs_sub_abs_le_abs_sub w y
    nlinarith
  have hc : Close R 1 (p * |w|) (R.fl p * w) (p * w) := by
    have hn := (Rounding.near_fl (R := R) hp).abs_sub
    refine ⟨?_, ?_⟩
    · rw [← sub_mul, abs_mul, ← mul_assoc]
      exact mul_le_mul_of_nonneg_right hn (abs_nonneg w)
    · rw [abs_mul, abs_of_nonneg hp]
  have h6 := hc.fl.1
  have h7 : |p * w - p * y| ≤ p * ((R.g ^ j - 1) * |y| + R.g ^ j * e) := by
    rw [← mul_sub, abs_mul, abs_of_nonneg hp]
    exact mul_le_mul_of_nonneg_left h4 hp
  have h8 : (R.g ^ 2 - 1) * (p * |w|) ≤ (R.g ^ 2 - 1) * (p * (R.g ^ j * (|y| + e))) :=
    mul_le_mul_of_nonneg_left (mul_le_mul_of_nonneg_left h5 hp) (sub_nonneg.2 (Rounding.g_pow_one_le (R := R) 2))
  calc |R.fl (R.fl p * w) - p * y| ≤ |R.fl (R.fl p * w) - p * w| + |p * w - p * y| := abs_sub_le _ _ _
    _ ≤ (R.g ^ 2 - 1) * (p * (R.g ^ j * (|y| + e))) + p * ((R.g ^ j - 1) * |y| + R.g ^ j * e) := add_le_add (h6.trans h8) h7
    _ = _ := by rw [pow_add]; ring

theorem foldl_if_sumFl {α : Type} (fl : ℝ → ℝ) (c : α → Prop) [DecidablePred c] (f : α → ℝ) (l : List α) : ∀ acc : ℝ,
    l.foldl (fun e x => if c x then fl (e + f x) else e) acc = sumFl fl ((l.filter c).map f) acc := by
  induction l with
  | nil => intro acc; rfl
  | cons x xs ih =>
    intro acc
    rw [List.foldl_cons, ih]
    by_cases h : c x
    · rw [if_pos h, List.filter_cons_of_pos (by simpa using h)]; rfl
    · rw [if_neg h, List.filter_cons_of_neg (by simpa using h)]

theorem infoSum_err (l : List ℝ) : |sumFl R.fl l 0 - l.sum| ≤ (R.g ^ l.length - 1) * (l.map abs).sum := by
  have e : ∀ (l : List ℝ) acc, sumFl R.fl l acc = l.foldl (fun s z => R.fl (s + z)) acc := by
    intro l
    induction l with
    | nil => intro acc; rfl
    | cons x xs ih => intro acc; exact ih _
  have h := (KMeans.leftToRight_spec R.fl (0 :: l)).abs_err
  rw [show KMeans.leftToRight R.fl (0 :: l) = sumFl R.fl l 0 from (e l 0).symm] at h
  simpa using h

/-- The whole sum. -/
theorem info_sum {α : Type} (l : List α) {p y T : α → ℝ} {k : Nat} {e : ℝ}
    (h : ∀ x ∈ l, |T x - p x * y x| ≤ p x * ((R.g ^ k - 1) * |y x| + R.g ^ k * e)) (hp : ∀ x ∈ l, 0 ≤ p x) :
    |sumFl R.fl (l.map T) 0 - (l.map (fun x => p x * y x)).sum|
      ≤ (R.g ^ (l.length + k) - 1) * (l.map (fun x => p x * |y x|)).sum + R.g ^ (l.length + k) * e * (l.map p).sum := by
  have h1 := infoSum_err (R := R) (l.map T)
  rw [List.length_map, List.map_map] at h1
  have h2 : |(l.map T).sum - (l.map (fun x => p x * y x)).sum|
      ≤ (R.g ^ k - 1) * (l.map (fun x => p x * |y x|)).sum + R.g ^ k * e * (l.map p).sum := by
    clear h1
    induction l with
    | nil => simp
    | cons x xs ih =>
      have h3 := ih (fun z hz => h z (List.mem_cons_of_mem _ hz)) (fun z hz => hp z (List.mem_cons_of_mem _ hz))
      have h4 := h x (by simp)
      simp only [List.map_cons, List.sum_cons]
      have h5 : T x + (xs.map T).sum - (p x * y x + (xs.map (fun x => p x * y x)).sum)
          = (T x - p x * y x) + ((xs.map T).sum - (xs.map (fun x => p x * y x)).sum) := by ring
      rw [h5]
      refine (abs_add_le _ _).trans ((add_le_add h4 h3).trans (le_of_eq ?_))
      ring
  have h3 : (l.map (abs ∘ T)).sum ≤ R.g ^ k * (l.map (fun x => p x * |y x|)).sum + R.g ^ k * e * (l.map p).sum := by
    clear h1 h2
    induction l with
    | nil => simp
    | cons x xs ih =>
      have h3 := ih (fun z hz => h z (List.mem_cons_of_mem _ hz)) (fun z hz => hp z (List.mem_cons_of_mem _ hz))
      have h4 := h x (by simp)
      have h5 := abs_sub_abs_le_abs_sub (T x) (p x * y x)
      rw [abs_mul, abs_of_nonneg (hp x (by simp))] at h5
      simp only [List.map_cons, List.sum_cons, Function.comp]
      linarith
  have h4 := mul_le_mul_of_nonneg_left h3 (sub_nonneg.2 (Rounding.g_pow_one_le (R := R) l.length))
  have h5 := abs_sub_le (sumFl R.fl (l.map T) 0) (l.map T).sum (l.map (fun x => p x * y x)).sum
  refine h5.trans ((add_le_add (h1.trans h4) h2).trans (le_of_eq ?_))
  rw [pow_add]
  ring

/-! ## The entropy -/

/-- The integers up to `n * n` are floating point numbers. -/
def ExactCounts (R : Rounding ℝ) (n : Nat) : Prop := ∀ k : Nat, k ≤ n * n → R.fl k = k

theorem ExactCounts.le {n k : Nat} (h : ExactCounts R n) (hk : k ≤ n) : R.fl k = k :=
  h k (hk.trans (by nlinarith))

theorem ExactCounts.int {n k : Nat} (h : ExactCounts R n) (hk : k ≤ n) : R.fl ((k : Int) : ℝ) = k := by
  rw [Int.cast_natCast]
  exact h.le hk

theorem entropyFl_eq {lg : ℝ → ℝ} {o l : List Int} (hx : ExactCounts R l.length) (ho : MapOrder o l) :
    entropyFl R.fl lg o l = sumFl R.fl (o.map (fun x =>
      R.fl (R.fl ((l.count x : ℝ) / l.length) * lg (R.fl ((l.length : ℝ) / l.count x))))) 0 := by
  unfold entropyFl
  rw [foldl_if_sumFl R.fl (fun x => 0 < clusterSizes l x)]
  have h1 : o.filter (fun x => decide (0 < clusterSizes l x)) = o := by
    rw [List.filter_eq_self]
    intro x hm
    rw [clusterSizes_eq]
    simpa using List.count_pos_iff.2 ((ho.2 x).1 hm)
  rw [h1]
  congr 1
  apply List.map_congr_left
  intro x _
  rw [clusterSizes_eq, hx.int List.count_le_length, hx.le le_rfl]

theorem card_order {o l : List Int} (ho : MapOrder o l) : o.length ≤ l.length := by
  rw [← List.toFinset_card_of_nodup ho.1, show o.toFinset = l.toFinset by ext x; simp [ho.2]]
  exact List.toFinset_card_le l

theorem sum_order {o l : List Int} (ho : MapOrder o l) (f : Int → ℝ) : (o.map f).sum = ∑ x ∈ l.toFinset, f x := by
  rw [← List.sum_toFinset _ ho.1]
  congr 1
  ext x
  simp [ho.2]

theorem sum_freq {α : Type} [BEq α] [LawfulBEq α] [DecidableEq α] {l : List α} (hl : l ≠ []) :
    ∑ x ∈ l.toFinset, (l.count x : ℝ) / l.length = 1 := by
  have hn : (0 : ℝ) < l.length := by exact_mod_cast List.length_pos_iff.2 hl
  rw [← Finset.sum_div]
  have := sum_count_mul l (fun _ => 1) l.toFinset (fun x => List.mem_toFinset.2)
  simp only [mul_one] at this
  rw [this]
  simp only [List.map_const', List.sum_replicate, nsmul_eq_mul, mul_one]
  exact div_self hn.ne'

theorem shannon_sum {α : Type} [BEq α] [LawfulBEq α] [DecidableEq α] (l : List α) :
    ∑ x ∈ l.toFinset, (l.count x : ℝ) / l.length * Real.logb 2 ((l.length : ℝ) / l.count x) = shannon l := by
  unfold shannon freq
  refine Finset.sum_congr rfl fun x _ => ?_
  rw [one_div_div]

theorem pow_mono_info {a b : Nat} (h : a ≤ b) : R.g ^ a ≤ R.g ^ b := pow_le_pow_right₀ (Rounding.one_le_g (R := R)) h

theorem entropy_err {lg : ℝ → ℝ} {j : Nat} (hlg : LogAccurate R lg j) {o l : List Int} (hl : l ≠ [])
    (hx : ExactCounts R l.length) (ho : MapOrder o l) :
    |entropyFl R.fl lg o l - shannon l|
      ≤ (R.g ^ (l.length + (j + 2)) - 1) * shannon l + R.g ^ (l.length + (j + 2)) * logErr R := by
  have hn : (0 : ℝ) < l.length := by exact_mod_cast List.length_pos_iff.2 hl
  have hle : ∀ x ∈ o, 0 ≤ Real.logb 2 ((l.length : ℝ) / l.count x) := by
    intro x hm
    apply Real.logb_nonneg (by norm_num)
    rw [one_le_div (count_pos_real ((ho.2 x).1 hm))]
    exact_mod_cast List.count_le_length
  rw [entropyFl_eq hx ho]
  have h := info_sum (R := R) o (p := fun x => (l.count x : ℝ) / l.length)
    (y := fun x => Real.logb 2 ((l.length : ℝ) / l.count x)) (k := j + 2) (e := logErr R)
    (fun x hm => info_term hlg (by positivity) (div_pos hn (count_pos_real ((ho.2 x).1 hm)))) (fun x _ => by positivity)
  have e1 : (o.map (fun x => (l.count x : ℝ) / l.length * |Real.logb 2 ((l.length : ℝ) / l.count x)|)).sum = shannon l := by
    rw [← shannon_sum, ← sum_order ho]
    congr 1
    apply List.map_congr_left
    intro x hm
    rw [abs_of_nonneg (hle x hm)]
  rw [e1, sum_order ho, shannon_sum, sum_order ho, sum_freq hl, mul_one] at h
  have hp := pow_mono_info (R := R) (Nat.add_le_add_right (card_order ho) (j + 2))
  exact h.trans (add_le_add (mul_le_mul_of_nonneg_right (sub_le_sub_right hp 1) (shannon_nonneg l))
    (mul_le_mul_of_nonneg_right hp logErr_nonneg))

/-- A clustering with two clusters has entropy at least `1 / n`. -/
theorem shannon_lower {l : List Int} {x y : Int} (hx : x ∈ l) (hy : y ∈ l) (hxy : x ≠ y) : 1 / (l.length : ℝ) ≤ shannon l := by
  have hn := length_pos_real hx
  have hcount : l.count x + l.count y ≤ l.length := by
    have h1 := List.length_eq_countP_add_countP (fun z => z == x) (l := l)
    have h2 : l.count y ≤ l.countP (fun z => !(z == x)) := by
      unfold List.count
      apply List.countP_mono_left
      intro z _ hz
      simp only [beq_iff_eq] at hz
      subst hz
      simpa using hxy.symm
    have h3 : l.count x = l.countP (fun z => z == x) := rfl
    have h4 : l.countP (fun z => !(z == x)) = l.countP (fun z => decide ¬ (z == x) = true) := by
      apply List.countP_congr
      intro z _
      simp
    omega
  obtain ⟨z, hz, hz2⟩ : ∃ z ∈ l, 2 * l.count z ≤ l.length := by
    by_cases h : 2 * l.count x ≤ l.length
    · exact ⟨x, hx, h⟩
    · exact ⟨y, hy, by omega⟩
  have hcz := count_pos_real hz
  have hterm : ∀ w ∈ l.toFinset, 0 ≤ (l.count w : ℝ) / l.length * Real.logb 2 ((l.length : ℝ) / l.count w) := by
    intro w hw
    refine mul_nonneg (by positivity) (Real.logb_nonneg (by norm_num) ?_)
    rw [one_le_div (count_pos_real (List.mem_toFinset.1 hw))]
    exact_mod_cast List.count_le_length
  rw [← shannon_sum]
  refine le_trans ?_ (Finset.single_le_sum hterm (List.mem_toFinset.2 hz))
  have h1 : 1 ≤ Real.logb 2 ((l.length : ℝ) / l.count z) := by
    rw [Real.le_logb_iff_rpow_le (by norm_num) (by positivity), Real.rpow_one, le_div_iff₀ hcz]
    exact_mod_cast hz2
  have h2 : (1 : ℝ) ≤ l.count z := by exact_mod_cast List.count_pos_iff.2 hz
  calc 1 / (l.length : ℝ) ≤ l.count z / l.length * 1 := by rw [mul_one]; exact div_le_div_of_nonneg_right h2 hn.le
    _ ≤ _ := mul_le_mul_of_nonneg_left h1 (by positivity)

/-- The entropy of a single cluster is computed without error. -/
theorem entropyFl_const {lg : ℝ → ℝ} {j : Nat} (hlg : LogAccurate R lg j) {o l : List Int} (hx : ExactCounts R l.length)
    (ho : MapOrder o l) (hc : ∀ x ∈ l, ∀ y ∈ l, x = y) : entropyFl R.fl lg o l = 0 := by
  rw [entropyFl_eq hx ho]
  have : ∀ o' : List Int, (∀ x ∈ o', x ∈ l) → sumFl R.fl (o'.map (fun x =>
      R.fl (R.fl ((l.count x : ℝ) / l.length) * lg (R.fl ((l.length : ℝ) / l.count x))))) 0 = 0 := by
    intro o'
    induction o' with
    | nil => intro _; rfl
    | cons x xs ih =>
      intro hm
      have hxl := hm x (by simp)
      have h1 : 1 ≤ l.length := List.length_pos_of_mem hxl
      have e : (l.length : ℝ) / l.count x = 1 := by
        rw [List.count_eq_length.2 (fun y hy => hc x hxl y hy)]
        exact div_self (length_pos_real hxl).ne'
      have e1 : R.fl 1 = 1 := by
        have := hx.le h1
        rwa [Nat.cast_one] at this
      rw [List.map_cons, e, e1, logAccurate_one hlg, mul_zero, Rounding.fl_zero]
      unfold sumFl
      rw [add_zero, Rounding.fl_zero]
      exact ih fun z hz => hm z (List.mem_cons_of_mem _ hz)
  exact this o fun x hm => (ho.2 x).1 hm

/-! ## The mutual information -/

/-- The ratio inside the logarithm. -/
noncomputable def cellRatio (gt lab : List Int) (q : Int × Int) : ℝ :=
  ((gt.length : ℝ) * ((gt.zip lab).count q : ℝ)) / ((gt.count q.1 : ℝ) * (lab.count q.2 : ℝ))

theorem mutualInformationFl_eq {lg : ℝ → ℝ} {gt lab : List Int} (h : Clusterings gt lab) (hn : gt.length < 2 ^ 31)
    (hx : ExactCounts R gt.length) :
    ∃ C : List (Int × Int), C.Nodup ∧ (∀ q, q ∈ C ↔ q ∈ gt.zip lab) ∧
      mutualInformationFl R.fl lg gt lab = .ok (sumFl R.fl (C.map (fun q =>
        R.fl (R.fl (((gt.zip lab).count q : ℝ) / gt.length) * lg (R.fl (cellRatio gt lab q))))) 0) := by
  obtain ⟨k, t, e, hgk, hlk, ht⟩ := contingencyTable_ok h.length_eq h.gt_nonneg h.lab_nonneg
  obtain ⟨I, hI⟩ : ∃ I : List (Nat × Nat), I = (List.range k).flatMap (fun i => (List.range k).map (fun j => (i, j))) := ⟨_, rfl⟩
  have hIm : ∀ a b, (a, b) ∈ I ↔ a < k ∧ b < k := by
    intro a b
    rw [hI]
    simp [List.mem_flatMap]
  have hInd : I.Nodup := by
    rw [hI]
    have : ((List.range k).flatMap (fun i => (List.range k).map (fun j => (i, j)))) = (List.range k) ×ˢ (List.range k) := rfl
    rw [this]
    exact List.Nodup.product List.nodup_range List.nodup_range
  let c : Nat × Nat → Int × Int := fun p => ((p.1 : Int), (p.2 : Int))
  have hcinj : Function.Injective c := by
    rintro ⟨a, b⟩ ⟨x, y⟩ hh
    simp only [c, Prod.mk.injEq, Nat.cast_inj] at hh ⊢
    exact hh
  refine ⟨(I.filter (fun p => 0 < t p.1 p.2)).map c, (List.Nodup.filter _ hInd).map hcinj, ?_, ?_⟩
  · rintro ⟨x, y⟩
    rw [List.mem_map]
    constructor
    · rintro ⟨⟨a, b⟩, hm, hc⟩
      rw [List.mem_filter] at hm
      have h2 := hm.2
      simp only [decide_eq_true_eq] at h2
      rw [ht] at h2
      rw [← hc]
      exact List.count_pos_iff.1 (by exact_mod_cast h2)
    · intro hm
      obtain ⟨h1, h2⟩ := List.of_mem_zip hm
      have a1 := h.gt_nonneg x h1
      have a2 := hgk x h1
      have a3 := h.lab_nonneg y h2
      have a4 := hlk y h2
      refine ⟨(x.toNat, y.toNat), ?_, ?_⟩
      · rw [List.mem_filter, hIm]
        refine ⟨⟨by omega, by omega⟩, ?_⟩
        simp only [decide_eq_true_eq]
        rw [Int.toNat_of_nonneg a1, Int.toNat_of_nonneg a3, ht]
        exact_mod_cast List.count_pos_iff.2 hm
      · simp only [c, Prod.mk.injEq]; omega
  · unfold mutualInformationFl
    simp only []
    rw [e, Outcome.bind_ok, if_neg (by omega)]
    simp only [Int.toNat_natCast]
    rw [← hI, foldl_if_sumFl R.fl (fun p : Nat × Nat => 0 < t p.1 p.2), List.map_map]
    congr 2
    apply List.map_congr_left
    rintro ⟨a, b⟩ hm
    rw [List.mem_filter, hIm] at hm
    have hz : (gt.zip lab).length = gt.length := by simp [h.length_eq]
    have hcz : (gt.zip lab).count ((a : Int), (b : Int)) ≤ gt.length := hz ▸ List.count_le_length
    have hca : gt.count (a : Int) ≤ gt.length := List.count_le_length
    have hcb : lab.count (b : Int) ≤ gt.length := h.length_eq ▸ List.count_le_length
    simp only [Function.comp, c, ht, clusterSizes_eq, cellRatio]
    rw [hx.int hcz, hx.int hca, hx.int hcb, ← h.length_eq, hx.le le_rfl]
    have e1 : R.fl ((gt.length : ℝ) * ((gt.zip lab).count ((a : Int), (b : Int)) : ℝ))
        = (gt.length : ℝ) * ((gt.zip lab).count ((a : Int), (b : Int)) : ℝ) := by
      have := hx _ (Nat.mul_le_mul (le_refl gt.length) hcz)
      rwa [Nat.cast_mul] at this
    have e2 : R.fl ((gt.count (a : Int) : ℝ) * (lab.count (b : Int) : ℝ))
        = (gt.count (a : Int) : ℝ) * (lab.count (b : Int) : ℝ) := by
      have := hx _ (Nat.mul_le_mul hca hcb)
      rwa [Nat.cast_mul] at this
    rw [e1, e2]

theorem cellRatio_pos {gt lab : List Int} {q : Int × Int} (hq : q ∈ gt.zip lab) : 0 < cellRatio gt lab q := by
  have hc := count_pos_real hq
  have ha := count_pos_real (List.of_mem_zip (a := q.1) (b := q.2) hq).1
  have hb := count_pos_real (List.of_mem_zip (a := q.1) (b := q.2) hq).2
  have hn := length_pos_real (List.of_mem_zip (a := q.1) (b := q.2) hq).1
  unfold cellRatio
  positivity

/-- The magnitudes of the summands: at most twice the entropy of the second clustering. -/
theorem abs_info_le {gt lab : List Int} (h : gt.length = lab.length) :
    ∑ q ∈ (gt.zip lab).toFinset, ((gt.zip lab).count q : ℝ) / gt.length * |Real.logb 2 (cellRatio gt lab q)|
      ≤ 2 * shannon lab - sharedInfo gt lab := by
  have hz : (gt.zip lab).length = gt.length := by simp [h]
  have e2 : shannon lab = ∑ q ∈ (gt.zip lab).toFinset, ((gt.zip lab).count q : ℝ) / gt.length *
      Real.logb 2 ((gt.length : ℝ) / lab.count q.2) := by
    have e3 : shannon lab = (((gt.zip lab).map
        (fun p => Real.logb 2 ((gt.length : ℝ) / (lab.count p.2 : ℝ)))).sum) / gt.length := by
      rw [shannon_eq_points, ← h]
      conv => lhs; rw [← map_snd_zip' h]
      rw [List.map_map, map_snd_zip' h]
      rfl
    rw [e3, ← sum_count_mul (gt.zip lab) _ _ (fun x => List.mem_toFinset.2), Finset.sum_div]
    exact Finset.sum_congr rfl fun _ _ => by ring
  have e1 : sharedInfo gt lab = ∑ q ∈ (gt.zip lab).toFinset, ((gt.zip lab).count q : ℝ) / gt.length *
      Real.logb 2 (cellRatio gt lab q) := by
    unfold sharedInfo cellRatio
    exact Finset.sum_congr rfl fun _ _ => by ring
  rw [e1, e2, Finset.mul_sum, ← Finset.sum_sub_distrib]
  refine Finset.sum_le_sum fun q hq => ?_
  have hq := List.mem_toFinset.1 hq
  have hc := count_pos_real hq
  have ha := count_pos_real (List.of_mem_zip (a := q.1) (b := q.2) hq).1
  have hb := count_pos_real (List.of_mem_zip (a := q.1) (b := q.2) hq).2
  have hn := length_pos_real (List.of_mem_zip (a := q.1) (b := q.2) hq).1
  have hca : ((gt.zip lab).count q : ℝ) ≤ gt.count q.1 := by
    have h1 : (gt.zip lab).count q ≤ gt.count q.1 := by
      conv => rhs; rw [← map_fst_zip' h]
      exact List.count_le_count_map (f := Prod.fst)
    exact_mod_cast h1
  have hcb : (lab.count q.2 : ℝ) ≤ gt.length := by
    rw [h]
    exact_mod_cast List.count_le_length
  have h1 : Real.logb 2 (cellRatio gt lab q) ≤ Real.logb 2 ((gt.length : ℝ) / lab.count q.2) := by
    apply Real.logb_le_logb_of_le (by norm_num) (cellRatio_pos hq)
    unfold cellRatio
    rw [div_le_div_iff₀ (by positivity) hb]
    nlinarith [mul_le_mul_of_nonneg_left hca (mul_nonneg hn.le hb.le)]
  have h2 : 0 ≤ Real.logb 2 ((gt.length : ℝ) / lab.count q.2) := by
    apply Real.logb_nonneg (by norm_num)
    rwa [one_le_div hb]
  have h3 : |Real.logb 2 (cellRatio gt lab q)| ≤ 2 * Real.logb 2 ((gt.length : ℝ) / lab.count q.2)
      - Real.logb 2 (cellRatio gt lab q) := abs_le.2 ⟨by linarith, by linarith⟩
  refine (mul_le_mul_of_nonneg_left h3 (by positivity : 0 ≤ ((gt.zip lab).count q : ℝ) / gt.length)).trans (le_of_eq ?_)
  ring

theorem abs_info_symm {gt lab : List Int} (h : gt.length = lab.length) :
    ∑ q ∈ (gt.zip lab).toFinset, ((gt.zip lab).count q : ℝ) / gt.length * |Real.logb 2 (cellRatio gt lab q)|
      = ∑ q ∈ (lab.zip gt).toFinset, ((lab.zip gt).count q : ℝ) / lab.length * |Real.logb 2 (cellRatio lab gt q)| := by
  have hcount : ∀ q : Int × Int, (lab.zip gt).count q.swap = (gt.zip lab).count q := by
    rintro ⟨a, b⟩
    rw [← List.zip_swap gt lab, List.count_map_of_injective _ _ Prod.swap_injective]
  refine Finset.sum_bij (fun q _ => q.swap) ?_ ?_ ?_ ?_
  · intro q hq
    rw [List.mem_toFinset] at hq ⊢
    rw [← List.count_pos_iff] at hq ⊢
    rwa [hcount]
  · intro a _ b _ hab
    exact Prod.swap_injective hab
  · intro q hq
    rw [List.mem_toFinset] at hq
    refine ⟨q.swap, ?_, Prod.swap_swap q⟩
    rw [List.mem_toFinset]
    rw [← List.count_pos_iff] at hq ⊢
    have := hcount q.swap
    rw [Prod.swap_swap] at this
    rwa [← this]
  · intro q _
    rw [hcount]
    unfold cellRatio
    rw [hcount, h, Prod.fst_swap, Prod.snd_swap, mul_comm (gt.count q.1 : ℝ)]

/-- **C105** (mutual information).  If the integers up to `n²` are floating point numbers and the logarithm of the library is
off by at most `j` roundings: the computed mutual information differs from the exact one by at most
`((1/(1-u))^(n+j+2) - 1) (2 H - I) + (1/(1-u))^(n+j+2) (1/(1-u) - 1)/log 2`, `H` being the smaller of the two entropies. -/
theorem C105_information {lg : ℝ → ℝ} {j : Nat} (hlg : LogAccurate R lg j) {gt lab : List Int} (h : Clusterings gt lab)
    (hn : gt.length < 2 ^ 31) (hne : gt ≠ []) (hx : ExactCounts R gt.length) :
    ∃ mi I, mutualInformationFl R.fl lg gt lab = .ok mi ∧ mutualInformation gt lab = .ok I ∧
      |mi - I| ≤ ((1 / (1 - R.u)) ^ (gt.length + (j + 2)) - 1) * (2 * min (shannon gt) (shannon lab) - I)
        + (1 / (1 - R.u)) ^ (gt.length + (j + 2)) * ((1 / (1 - R.u) - 1) / Real.log 2) := by
  obtain ⟨C, hC1, hC2, hC3⟩ := mutualInformationFl_eq (R := R) (lg := lg) h hn hx
  refine ⟨_, _, hC3, mutualInformation_eq h, ?_⟩
  have hz : (gt.zip lab).length = gt.length := by simp [h.length_eq]
  have hzne : gt.zip lab ≠ [] := by
    intro e
    rw [e] at hz
    exact hne (List.length_eq_zero_iff.1 hz.symm)
  have hset : C.toFinset = (gt.zip lab).toFinset := by ext q; simp only [List.mem_toFinset]; exact hC2 q
  have hlen : C.length ≤ gt.length := by
    rw [← List.toFinset_card_of_nodup hC1, hset, ← hz]
    exact List.toFinset_card_le _
  have hsum : ∀ f : Int × Int → ℝ, (C.map f).sum = ∑ q ∈ (gt.zip lab).toFinset, f q := by
    intro f
    rw [← List.sum_toFinset _ hC1, hset]
  have hT := info_sum (R := R) C (p := fun q => ((gt.zip lab).count q : ℝ) / gt.length)
    (y := fun q => Real.logb 2 (cellRatio gt lab q)) (k := j + 2) (e := logErr R)
    (fun q hq => info_term hlg (by positivity) (cellRatio_pos ((hC2 q).1 hq))) (fun q _ => by positivity)
  rw [hsum, hsum, hsum] at hT
  have e1 : ∑ q ∈ (gt.zip lab).toFinset, ((gt.zip lab).count q : ℝ) / gt.length = 1 := by
    rw [← hz]; exact sum_freq hzne
  have e2 : ∑ q ∈ (gt.zip lab).toFinset, ((gt.zip lab).count q : ℝ) / gt.length * Real.logb 2 (cellRatio gt lab q)
      = sharedInfo gt lab := by
    unfold sharedInfo cellRatio
    exact Finset.sum_congr rfl fun _ _ => by ring
  rw [e1, e2, mul_one] at hT
  have h1 := abs_info_le h.length_eq
  have h2 := abs_info_le h.length_eq.symm
  rw [← abs_info_symm h.length_eq] at h2
  have h3 : sharedInfo lab gt = sharedInfo gt lab := by
    rw [sharedInfo_eq h.length_eq, sharedInfo_eq h.length_eq.symm, shannon_zip_swap]
    ring
  rw [h3] at h2
  have h4 : ∑ q ∈ (gt.zip lab).toFinset, ((gt.zip lab).count q : ℝ) / gt.length * |Real.logb 2 (cellRatio gt lab q)|
      ≤ 2 * min (shannon gt) (shannon lab) - sharedInfo gt lab := by
    rcases min_choice (shannon gt) (shannon lab) with e | e <;> rw [e]
    · exact h2
    · exact h1
  have hp := pow_mono_info (R := R) (Nat.add_le_add_right hlen (j + 2))
  have hS : 0 ≤ ∑ q ∈ (gt.zip lab).toFinset, ((gt.zip lab).count q : ℝ) / gt.length * |Real.logb 2 (cellRatio gt lab q)| :=
    Finset.sum_nonneg fun q _ => by positivity
  refine hT.trans (add_le_add ?_ (mul_le_mul_of_nonneg_right hp logErr_nonneg))
  exact (mul_le_mul_of_nonneg_right (sub_le_sub_right hp 1) hS).trans
    (mul_le_mul_of_nonneg_left h4 (sub_nonneg.2 (Rounding.g_pow_one_le (R := R) _)))

/-! ## The normalised mutual information -/

/-- **C105** (errors).  Clusterings of different lengths and negative labels are rejected with `std::invalid_argument`. -/
theorem C105_errors (fl lg : ℝ → ℝ) {gt lab : List Int} (o1 o2 : List Int)
    (h : gt.length ≠ lab.length ∨ (∃ x ∈ gt, x < 0) ∨ ∃ x ∈ lab, x < 0) :
    mutualInformationFl fl lg gt lab = .throw .invalidArgument ∧
    normalisedMutualInformationFl fl lg o1 o2 gt lab = .throw .invalidArgument := by
  have : mutualInformationFl fl lg gt lab = .throw .invalidArgument := by
    unfold mutualInformationFl
    simp only []
    rw [contingencyTable_bad h]; rfl
  refine ⟨this, ?_⟩
  unfold normalisedMutualInformationFl
  rw [this]; rfl

/-- **C105** (overflow).  Below `2^31` points the functions return a result; from `2^31` points on a counter of type `int`
overflows. -/
theorem C105_overflow (fl lg : ℝ → ℝ) {gt lab : List Int} (o1 o2 : List Int) (h : Clusterings gt lab) :
    (gt.length < 2 ^ 31 → (∃ x, mutualInformationFl fl lg gt lab = .ok x) ∧
      ∃ x, normalisedMutualInformationFl fl lg o1 o2 gt lab = .ok x) ∧
    (2 ^ 31 ≤ gt.length → mutualInformationFl fl lg gt lab = .ub ∧
      normalisedMutualInformationFl fl lg o1 o2 gt lab = .ub) := by
  obtain ⟨k, t, e, -, -, -⟩ := contingencyTable_ok h.length_eq h.gt_nonneg h.lab_nonneg
  constructor
  · intro hn
    obtain ⟨x, hx⟩ : ∃ x, mutualInformationFl fl lg gt lab = .ok x := by
      unfold mutualInformationFl
      simp only []
      rw [e, Outcome.bind_ok, if_neg (by omega)]
      exact ⟨_, rfl⟩
    refine ⟨⟨x, hx⟩, ?_⟩
    unfold normalisedMutualInformationFl
    rw [hx, Outcome.bind_ok]
    exact ⟨_, rfl⟩
  · intro hn
    have hx : mutualInformationFl fl lg gt lab = .ub := by
      unfold mutualInformationFl
      simp only []
      rw [e, Outcome.bind_ok, if_pos hn]
    refine ⟨hx, ?_⟩
    unfold normalisedMutualInformationFl
    rw [hx]
    rfl

/-- If one of the clusterings has one cluster, the mutual information is computed as zero. -/
theorem mutualInformationFl_const {lg : ℝ → ℝ} {j : Nat} (hlg : LogAccurate R lg j) {gt lab : List Int}
    (h : Clusterings gt lab) (hn : gt.length < 2 ^ 31) (hx : ExactCounts R gt.length)
    (hc : (∀ x ∈ gt, ∀ y ∈ gt, x = y) ∨ ∀ x ∈ lab, ∀ y ∈ lab, x = y) :
    mutualInformationFl R.fl lg gt lab = .ok 0 := by
  obtain ⟨C, -, hC2, hC3⟩ := mutualInformationFl_eq (R := R) (lg := lg) h hn hx
  rw [hC3]
  congr 1
  have hz : (gt.zip lab).length = gt.length := by simp [h.length_eq]
  have hone : ∀ q ∈ gt.zip lab, cellRatio gt lab q = 1 := by
    rintro ⟨a, b⟩ hq
    obtain ⟨ha, hb⟩ := List.of_mem_zip hq
    have pa := count_pos_real ha
    have pb := count_pos_real hb
    have pn := length_pos_real ha
    unfold cellRatio
    rcases hc with hc | hc
    · have e1 : gt.count a = gt.length := List.count_eq_length.2 fun y hy => hc a ha y hy
      have e2 : (gt.zip lab).count (a, b) = lab.count b := by
        conv => rhs; rw [← map_snd_zip' h.length_eq]
        rw [show b = (a, b).2 from rfl, count_map_injOn Prod.snd (l := gt.zip lab) (a := (a, b))]
        rintro ⟨c, d⟩ hm e
        have := hc c (List.of_mem_zip hm).1 a ha
        simp only at e
        rw [this, e]
      rw [e1, e2, div_self]
      positivity
    · have e1 : lab.count b = gt.length := by
        rw [h.length_eq]
        exact List.count_eq_length.2 fun y hy => hc b hb y hy
      have e2 : (gt.zip lab).count (a, b) = gt.count a := by
        conv => rhs; rw [← map_fst_zip' h.length_eq]
        rw [show a = (a, b).1 from rfl, count_map_injOn Prod.fst (l := gt.zip lab) (a := (a, b))]
        rintro ⟨c, d⟩ hm e
        have := hc d (List.of_mem_zip hm).2 b hb
        simp only at e
        rw [this, e]
      rw [e1, e2, mul_comm, div_self]
      positivity
  have : ∀ C' : List (Int × Int), (∀ q ∈ C', q ∈ gt.zip lab) → sumFl R.fl (C'.map (fun q =>
      R.fl (R.fl (((gt.zip lab).count q : ℝ) / gt.length) * lg (R.fl (cellRatio gt lab q))))) 0 = 0 := by
    intro C'
    induction C' with
    | nil => intro _; rfl
    | cons q xs ih =>
      intro hm
      have hq := hm q (by simp)
      have h1 : 1 ≤ gt.length := hz ▸ List.length_pos_of_mem hq
      have e1 : R.fl 1 = 1 := by
        have := hx.le h1
        rwa [Nat.cast_one] at this
      rw [List.map_cons, hone q hq, e1, logAccurate_one hlg, mul_zero, Rounding.fl_zero]
      unfold sumFl
      rw [add_zero, Rounding.fl_zero]
      exact ih fun z hz => hm z (List.mem_cons_of_mem _ hz)
  exact this C fun q hq => (hC2 q).1 hq

theorem nmi_algebra {mi I S D a β : ℝ} (hS : 0 < S) (h1 : |mi - I| ≤ a * S) (h2 : |D - S / 2| ≤ β * (S / 2)) (hI0 : 0 ≤ I)
    (hI : I ≤ S / 2) (hβ : β < 1) : 0 < D ∧ |mi / D - I / (S / 2)| ≤ (2 * a + β) / (1 - β) := by
  obtain ⟨d1, d2⟩ := abs_le.1 h2
  have hD : (1 - β) * (S / 2) ≤ D := by linarith
  have hDp : 0 < D := lt_of_lt_of_le (mul_pos (by linarith) (by linarith)) hD
  refine ⟨hDp, ?_⟩
  have e : mi / D - I / (S / 2) = ((mi - I) - I / (S / 2) * (D - S / 2)) / D := by
    field_simp
    ring
  have hr0 : 0 ≤ I / (S / 2) := div_nonneg hI0 (by linarith)
  have hr1 : I / (S / 2) ≤ 1 := (div_le_one (by linarith)).2 hI
  rw [e, abs_div, abs_of_pos hDp, div_le_div_iff₀ hDp (by linarith)]
  have h3 : |(mi - I) - I / (S / 2) * (D - S / 2)| ≤ a * S + β * (S / 2) := by
    refine (abs_sub _ _).trans (add_le_add h1 ?_)
    rw [abs_mul, abs_of_nonneg hr0]
    calc I / (S / 2) * |D - S / 2| ≤ 1 * |D - S / 2| := mul_le_mul_of_nonneg_right hr1 (abs_nonneg _)
      _ ≤ _ := by rw [one_mul]; exact h2
  have h4 : 0 ≤ a * S + β * (S / 2) := (abs_nonneg _).trans h3
  have h5 : 0 ≤ 2 * a + β := by
    have : 0 ≤ (2 * a + β) * (S / 2) := by linarith
    exact nonneg_of_mul_nonneg_left this (by linarith)
  calc _ ≤ (a * S + β * (S / 2)) * (1 - β) := mul_le_mul_of_nonneg_right h3 (by linarith)
    _ = (2 * a + β) * ((1 - β) * (S / 2)) := by ring
    _ ≤ _ := mul_le_mul_of_nonneg_left hD h5

theorem dbl_pow_le {k : Nat} (hk : k ≤ 2 ^ 27) :
    (KMeans.dbl ℝ).g ^ k ≤ 1001 / 1000 ∧ (KMeans.dbl ℝ).g ^ k - 1 ≤ 1001 / 1000 * (k * (1 / 2 ^ 53)) := by
  have hu := KMeans.dbl_u (K := ℝ)
  have hu1 := Rounding.one_sub_pos (R := KMeans.dbl ℝ)
  have hb := one_add_mul_le_pow (a := -(KMeans.dbl ℝ).u) (by linarith) k
  rw [← sub_eq_add_neg] at hb
  have hg : (KMeans.dbl ℝ).g ^ k * (1 - (KMeans.dbl ℝ).u) ^ k = 1 := by
    rw [← mul_pow]
    change (1 / (1 - (KMeans.dbl ℝ).u) * (1 - (KMeans.dbl ℝ).u)) ^ k = 1
    rw [one_div_mul_cancel hu1.ne', one_pow]
  have hkR : (k : ℝ) ≤ 2 ^ 27 := by exact_mod_cast hk
  have hk0 : (0 : ℝ) ≤ k := Nat.cast_nonneg k
  have hG := Rounding.g_pow_one_le (R := KMeans.dbl ℝ) k
  obtain ⟨G, hGd⟩ : ∃ G, G = (KMeans.dbl ℝ).g ^ k := ⟨_, rfl⟩
  rw [← hGd] at hg hG ⊢
  rw [hu] at hb hg
  obtain ⟨P, hP⟩ : ∃ P : ℝ, P = (1 - 1 / 2 ^ 53) ^ k := ⟨_, rfl⟩
  rw [← hP] at hb hg
  obtain ⟨x, hx⟩ : ∃ x : ℝ, x = k * (1 / 2 ^ 53) := ⟨_, rfl⟩
  rw [← hx]
  have hx1 : x ≤ 1 / 2 ^ 26 := by
    rw [hx]
    refine (mul_le_mul_of_nonneg_right hkR (by norm_num)).trans ?_
    norm_num
  have hx0 : 0 ≤ x := by rw [hx]; positivity
  have hb' : 1 - x ≤ P := by rw [hx]; linarith
  have h1 : G * (1 - x) ≤ 1 := by
    exact (mul_le_mul_of_nonneg_left hb' (by linarith)).trans (le_of_eq hg)
  have h2 : G ≤ 1001 / 1000 := by
    by_contra hcon
    push Not at hcon
    nlinarith
  refine ⟨h2, ?_⟩
  nlinarith

theorem dbl_exactCounts {n : Nat} (hn : n < 2 ^ 26) : ExactCounts (KMeans.dbl ℝ) n := by
  intro k hk
  refine flBin_nat_le (hk.trans ?_)
  calc n * n ≤ 2 ^ 26 * 2 ^ 26 := Nat.mul_le_mul hn.le hn.le
    _ ≤ 2 ^ 53 := by norm_num

theorem dbl_logErr : logErr (KMeans.dbl ℝ) ≤ 1445 / 1000 * (1 / 2 ^ 53) := by
  have h := (dbl_pow_le (k := 1) (by norm_num)).2
  rw [pow_one, Nat.cast_one, one_mul] at h
  have hl2 : 0 < Real.log 2 := Real.log_pos (by norm_num)
  unfold logErr
  rw [div_le_iff₀ hl2]
  have := Real.log_two_gt_d9
  have h3 : (1001 / 1000 : ℝ) ≤ 1445 / 1000 * Real.log 2 := by
    refine le_trans ?_ (mul_le_mul_of_nonneg_left this.le (by norm_num))
    norm_num
  calc _ ≤ 1001 / 1000 * (1 / 2 ^ 53) := h
    _ ≤ 1445 / 1000 * Real.log 2 * (1 / 2 ^ 53) := mul_le_mul_of_nonneg_right h3 (by norm_num)
    _ = _ := by ring

theorem nmi_delta {n u β : ℝ} (hn : 0 ≤ n) (hu : 0 ≤ u)
    (hβ : β = (3900 / 1000 * n + 4005 / 1000) * u + 1001 / 1000 * u + 1001 / 1000 * u) (hβs : β ≤ 1 / 100000) :
    (2 * ((2449 / 1000 * n + 4005 / 1000) * u) + β) / (1 - β) ≤ (8810 / 1000 * n + 14100 / 1000) * u := by
  have h2 : (8810 / 1000 * n + 14100 / 1000) * u * β ≤ (8810 / 1000 * n + 14100 / 1000) * u * (1 / 100000) :=
    mul_le_mul_of_nonneg_left hβs (by positivity)
  have h3 : 0 ≤ n * u := mul_nonneg hn hu
  rw [div_le_iff₀ (by linarith), mul_sub, mul_one]
  have h4 : 2 * ((2449 / 1000 * n + 4005 / 1000) * u) + β = 8798 / 1000 * (n * u) + (8010 + 4005 + 2002) / 1000 * u := by
    rw [hβ]
    ring
  have h5 : (8810 / 1000 * n + 14100 / 1000) * u = 8810 / 1000 * (n * u) + 14100 / 1000 * u := by ring
  rw [h4]
  rw [h5] at h2 ⊢
  linarith

theorem nmi_final {n u q f y : ℝ} (hn : 0 ≤ n) (hu : 0 ≤ u) (hu2 : u ≤ 1 / 2 ^ 53) (hn2 : 8810 / 1000 * n + 14100 / 1000 ≤ 2 ^ 53)
    (hy0 : 0 ≤ y) (hy1 : y ≤ 1) (hq : |q - y| ≤ (8810 / 1000 * n + 14100 / 1000) * u) (hf : |f - q| ≤ u * |q|) :
    |f - y| ≤ (10 * n + 20) * u := by
  have hsmall : (8810 / 1000 * n + 14100 / 1000) * u ≤ 1 := by
    refine (mul_le_mul hn2 hu2 hu (by norm_num)).trans ?_
    norm_num
  have h2 : |q| ≤ 2 := by
    have := abs_sub_abs_le_abs_sub q y
    rw [abs_of_nonneg hy0] at this
    linarith
  have h3 : u * |q| ≤ u * 2 := mul_le_mul_of_nonneg_left h2 hu
  have h4 := abs_sub_le f q y
  have h5 : 0 ≤ n * u := mul_nonneg hn hu
  have e9 : (10 * n + 20) * u = 10 * (n * u) + 20 * u := by ring
  have e8 : (8810 / 1000 * n + 14100 / 1000) * u = 8810 / 1000 * (n * u) + 14100 / 1000 * u := by ring
  rw [e9]
  rw [e8] at hq
  linarith

theorem zip_map_self (f : Int → Int) (l : List Int) : l.zip (l.map f) = l.map (fun x => (x, f x)) := by
  induction l with
  | nil => rfl
  | cons a l ih => rw [List.map_cons, List.zip_cons_cons, ih, List.map_cons]

/-- **C105** (normalised mutual information, `double`s).  For fewer than `2^26` points, not all in one cluster in both
clusterings, with a logarithm off by at most two roundings: the result is a finite number that differs from the exact normalised
mutual information by at most `(10 n + 20) / 2^53`. -/
theorem C105_normalised {lg : ℝ → ℝ} (hlg : LogAccurate (KMeans.dbl ℝ) lg 2) {gt lab o1 o2 : List Int} (h : Clusterings gt lab)
    (ho1 : MapOrder o1 gt) (ho2 : MapOrder o2 lab) (hn : gt.length < 2 ^ 26)
    (hne : ¬ ((∀ x ∈ gt, ∀ y ∈ gt, x = y) ∧ ∀ x ∈ lab, ∀ y ∈ lab, x = y)) :
    ∃ x y : ℝ, normalisedMutualInformationFl (KMeans.dbl ℝ).fl lg o1 o2 gt lab = .ok (.fin x) ∧
      normalisedMutualInformation o1 o2 gt lab = .ok (.fin y) ∧ |x - y| ≤ (10 * gt.length + 20) * (1 / 2 ^ 53) := by
  obtain ⟨y, hy, hyv, hy0, hy1⟩ := C39_normalised h ho1 ho2 hne
  have hx := dbl_exactCounts hn
  have hgne : gt ≠ [] := by
    rintro rfl
    apply hne
    have : lab = [] := List.length_eq_zero_iff.1 h.length_eq.symm
    rw [this]
    simp
  have hlne : lab ≠ [] := by
    intro e
    apply hgne
    have := h.length_eq
    rw [e] at this
    exact List.length_eq_zero_iff.1 this
  obtain ⟨mi, I, hmi, hI, hmiI⟩ := C105_information hlg h (by omega) hgne hx
  have e1 := entropy_err hlg hgne hx ho1
  have e2 := entropy_err hlg hlne (h.length_eq ▸ hx) ho2
  rw [← h.length_eq] at e2
  obtain ⟨b0, b1, b2⟩ := C39_bounds hI
  have hIv : I = shannon gt + shannon lab - shannon (gt.zip lab) := by
    rw [C39_value h] at hI
    exact (Outcome.ok.inj hI).symm
  have n1 := shannon_nonneg gt
  have n2 := shannon_nonneg lab
  have hnR : (1 : ℝ) ≤ gt.length := by exact_mod_cast List.length_pos_iff.2 hgne
  have hlow : 1 / (gt.length : ℝ) ≤ shannon gt + shannon lab := by
    rw [not_and_or] at hne
    rcases hne with hne | hne <;> push Not at hne <;> obtain ⟨x, hx, y, hy, hxy⟩ := hne
    · exact (shannon_lower hx hy hxy).trans (by linarith)
    · have := shannon_lower hx hy hxy
      rw [← h.length_eq] at this
      linarith
  obtain ⟨n, hnd⟩ : ∃ n : ℝ, n = gt.length := ⟨_, rfl⟩
  have hn26 : n ≤ 2 ^ 26 := by rw [hnd]; exact_mod_cast hn.le
  obtain ⟨p1, p2⟩ := dbl_pow_le (k := gt.length + 4) (by omega)
  change |mi - I| ≤ ((KMeans.dbl ℝ).g ^ (gt.length + 4) - 1) * _ + (KMeans.dbl ℝ).g ^ (gt.length + 4) * logErr (KMeans.dbl ℝ)
    at hmiI
  have p0 := Rounding.g_pow_one_le (R := KMeans.dbl ℝ) (gt.length + 4)
  have q1 := dbl_logErr
  have q0 := logErr_nonneg (R := KMeans.dbl ℝ)
  push_cast at p2
  obtain ⟨G, hG⟩ : ∃ G, G = (KMeans.dbl ℝ).g ^ (gt.length + 4) := ⟨_, rfl⟩
  obtain ⟨lam, hlam⟩ : ∃ e, e = logErr (KMeans.dbl ℝ) := ⟨_, rfl⟩
  obtain ⟨u, hu⟩ : ∃ u : ℝ, u = 1 / 2 ^ 53 := ⟨_, rfl⟩
  obtain ⟨S, hS⟩ : ∃ S, S = shannon gt + shannon lab := ⟨_, rfl⟩
  obtain ⟨E1, hE1⟩ : ∃ E, E = entropyFl (KMeans.dbl ℝ).fl lg o1 gt := ⟨_, rfl⟩
  obtain ⟨E2, hE2⟩ : ∃ E, E = entropyFl (KMeans.dbl ℝ).fl lg o2 lab := ⟨_, rfl⟩
  have hu0 : 0 ≤ u := by rw [hu]; norm_num
  rw [← hG] at p0 p1 p2 hmiI e1 e2
  rw [← hlam] at hmiI e1 e2 q0 q1
  rw [← hu] at p2 q1
  rw [← hnd] at p2 hnR hlow
  rw [← hE1] at e1
  rw [← hE2] at e2
  rw [← hS] at hlow
  have hSp : 0 < S := lt_of_lt_of_le (by positivity) hlow
  have hnS : 1 ≤ n * S := by
    rw [div_le_iff₀ (by linarith)] at hlow
    linarith
  have hGl : G * lam ≤ 1447 / 1000 * u * (n * S) := by
    have h1 : G * lam ≤ 1001 / 1000 * (1445 / 1000 * u) := mul_le_mul p1 q1 q0 (by norm_num)
    have h2 : 1447 / 1000 * u * 1 ≤ 1447 / 1000 * u * (n * S) := mul_le_mul_of_nonneg_left hnS (by positivity)
    linarith
  have hmin : 2 * min (shannon gt) (shannon lab) - I ≤ S := by
    have h1 := min_le_left (shannon gt) (shannon lab)
    have h2 := min_le_right (shannon gt) (shannon lab)
    rw [hS]
    linarith
  -- the mutual information
  have hA : |mi - I| ≤ ((2449 / 1000 * n + 4005 / 1000) * u) * S := by
    have h1 : (G - 1) * (2 * min (shannon gt) (shannon lab) - I) ≤ (1001 / 1000 * ((n + 4) * u)) * S :=
      mul_le_mul p2 hmin (by
        have := le_min b1 b2
        linarith) (by positivity)
    have h2 : 0 ≤ u * S := mul_nonneg hu0 hSp.le
    nlinarith
  -- the mean entropy
  have hB : |E1 + E2 - S| ≤ ((3900 / 1000 * n + 4005 / 1000) * u) * S := by
    have h1 : |E1 + E2 - S| ≤ |E1 - shannon gt| + |E2 - shannon lab| := by
      rw [show E1 + E2 - S = (E1 - shannon gt) + (E2 - shannon lab) by rw [hS]; ring]
      exact abs_add_le _ _
    have h2 : (G - 1) * S ≤ (1001 / 1000 * ((n + 4) * u)) * S := mul_le_mul_of_nonneg_right p2 hSp.le
    have h3 : (G - 1) * S = (G - 1) * shannon gt + (G - 1) * shannon lab := by rw [hS]; ring
    have h4 : 0 ≤ u * S := mul_nonneg hu0 hSp.le
    nlinarith
  have hue : ∀ z, |(KMeans.dbl ℝ).fl z - z| ≤ u * |z| := by
    intro z
    have := (KMeans.dbl ℝ).err z
    rw [KMeans.dbl_u] at this
    rw [hu]
    exact this
  obtain ⟨c, hc⟩ : ∃ c, c = (3900 / 1000 * n + 4005 / 1000) * u := ⟨_, rfl⟩
  rw [← hc] at hB
  have hc0 : 0 ≤ c := by rw [hc]; positivity
  have hcs : c ≤ 1 / 1000000 := by
    have h1 : 3900 / 1000 * n + 4005 / 1000 ≤ 2 ^ 29 := by linarith
    rw [hc, hu]
    refine (mul_le_mul_of_nonneg_right h1 (by norm_num)).trans ?_
    norm_num
  have hus : u ≤ 1 / 1000000 := by rw [hu]; norm_num
  have hstep : ∀ X T c : ℝ, 0 ≤ T → 0 ≤ c → c ≤ 1 / 1000 → |X - T| ≤ c * T → |(KMeans.dbl ℝ).fl X - T| ≤ (c + 1001 / 1000 * u) * T := by
    intro X T c hT hc0 hc1 hX
    have h1 := hue X
    have h2 : |X| ≤ T + c * T := by
      have := abs_sub_abs_le_abs_sub X T
      rw [abs_of_nonneg hT] at this
      linarith
    have h3 : u * |X| ≤ u * (T + c * T) := mul_le_mul_of_nonneg_left h2 hu0
    have h4 : c * T ≤ 1 / 1000 * T := mul_le_mul_of_nonneg_right hc1 hT
    have h5 : u * (c * T) ≤ u * (1 / 1000 * T) := mul_le_mul_of_nonneg_left h4 hu0
    have h6 := abs_sub_le ((KMeans.dbl ℝ).fl X) X T
    have e3 : (c + 1001 / 1000 * u) * T = c * T + u * T + u * (1 / 1000 * T) := by ring
    rw [e3]
    linarith
  have hD1 := hstep (E1 + E2) S c hSp.le hc0 (by linarith) hB
  have hD2 : |(KMeans.dbl ℝ).fl (E1 + E2) / 2 - S / 2| ≤ (c + 1001 / 1000 * u) * (S / 2) := by
    rw [← sub_div, abs_div, abs_of_pos (two_pos (α := ℝ)), ← mul_div_assoc]
    exact div_le_div_of_nonneg_right hD1 two_pos.le
  have hD3 := hstep _ (S / 2) _ (by linarith) (by positivity) (by linarith) hD2
  obtain ⟨D, hD⟩ : ∃ D, D = (KMeans.dbl ℝ).fl ((KMeans.dbl ℝ).fl (E1 + E2) / 2) := ⟨_, rfl⟩
  rw [← hD] at hD3
  have hIS : I ≤ S / 2 := by linarith
  obtain ⟨hDp, hq⟩ := nmi_algebra hSp hA hD3 b0 hIS (by linarith)
  have hyI : y = I / (S / 2) := by rw [hyv, hIv, hS]
  refine ⟨(KMeans.dbl ℝ).fl (mi / D), y, ?_, hy, ?_⟩
  · unfold normalisedMutualInformationFl
    rw [hmi, Outcome.bind_ok, ← hE1, ← hE2, ← hD, XReal.div_fin _ hDp.ne']
    rfl
  · rw [← hyI] at hq
    obtain ⟨β, hβ⟩ : ∃ β, β = c + 1001 / 1000 * u + 1001 / 1000 * u := ⟨_, rfl⟩
    rw [← hβ] at hq
    have hβs : β ≤ 1 / 100000 := by rw [hβ]; linarith
    have hδ := nmi_delta (n := n) (by linarith) hu0 (hβ.trans (by rw [hc])) hβs
    have hq2 := hq.trans hδ
    rw [← hnd, ← hu]
    exact nmi_final (by linarith) hu0 (by rw [hu]) (by linarith [hn26]) hy0 hy1 hq2 (hue (mi / D))

/-- **C105** (range).  The result leaves the range from 0 to 1 by rounding errors only. -/
theorem C105_range {lg : ℝ → ℝ} (hlg : LogAccurate (KMeans.dbl ℝ) lg 2) {gt lab o1 o2 : List Int} (h : Clusterings gt lab)
    (ho1 : MapOrder o1 gt) (ho2 : MapOrder o2 lab) (hn : gt.length < 2 ^ 26) {x : ℝ}
    (hx : normalisedMutualInformationFl (KMeans.dbl ℝ).fl lg o1 o2 gt lab = .ok (.fin x))
    (hne : ¬ ((∀ x ∈ gt, ∀ y ∈ gt, x = y) ∧ ∀ x ∈ lab, ∀ y ∈ lab, x = y)) :
    -((10 * gt.length + 20) * (1 / 2 ^ 53)) ≤ x ∧ x ≤ 1 + (10 * gt.length + 20) * (1 / 2 ^ 53) := by
  obtain ⟨x', y, hx', hy, hxy⟩ := C105_normalised hlg h ho1 ho2 hn hne
  obtain ⟨y', hy', -, hy0, hy1⟩ := C39_normalised h ho1 ho2 hne
  rw [hx'] at hx
  rw [hy] at hy'
  cases hx
  cases hy'
  obtain ⟨h1, h2⟩ := abs_le.1 hxy
  exact ⟨by linarith, by linarith⟩

/-- **C105** (equal partitions).  For two clusterings that are equal up to the names of the clusters, of which there are at
least two, the result is 1 up to `(10 n + 20) / 2^53`. -/
theorem C105_self {lg : ℝ → ℝ} (hlg : LogAccurate (KMeans.dbl ℝ) lg 2) {gt o1 o2 : List Int} {f : Int → Int}
    (h : Clusterings gt (gt.map f)) (hf : ∀ x ∈ gt, ∀ y ∈ gt, f x = f y → x = y) (ho1 : MapOrder o1 gt)
    (ho2 : MapOrder o2 (gt.map f)) (hn : gt.length < 2 ^ 26) (hne : ∃ x ∈ gt, ∃ y ∈ gt, x ≠ y) :
    ∃ x : ℝ, normalisedMutualInformationFl (KMeans.dbl ℝ).fl lg o1 o2 gt (gt.map f) = .ok (.fin x) ∧
      |x - 1| ≤ (10 * gt.length + 20) * (1 / 2 ^ 53) := by
  have hne' : ¬ ((∀ x ∈ gt, ∀ y ∈ gt, x = y) ∧ ∀ x ∈ gt.map f, ∀ y ∈ gt.map f, x = y) := by
    rintro ⟨h, -⟩
    obtain ⟨x, hx, y, hy, hxy⟩ := hne
    exact hxy (h x hx y hy)
  obtain ⟨x, y, hx, hy, hxy⟩ := C105_normalised hlg h ho1 ho2 hn hne'
  obtain ⟨y', hy', hyv, -, -⟩ := C39_normalised h ho1 ho2 hne'
  rw [hy] at hy'
  cases hy'
  have e1 : shannon (gt.map f) = shannon gt := shannon_map hf
  have e2 : shannon (gt.zip (gt.map f)) = shannon gt := by
    rw [zip_map_self, shannon_map]
    intro x _ y _ h
    exact (Prod.mk.inj h).1
  have hs : shannon gt ≠ 0 := fun e => by
    obtain ⟨x, hx, y, hy, hxy⟩ := hne
    exact hxy ((shannon_eq_zero_iff gt).1 e x hx y hy)
  have : y = 1 := by
    rw [hyv, e1, e2]
    field_simp
    ring
  rw [this] at hxy
  exact ⟨x, hx, hxy⟩

/-- **C105** (symmetry).  Exchanging the two clusterings changes the result by rounding errors only. -/
theorem C105_symmetric {lg : ℝ → ℝ} (hlg : LogAccurate (KMeans.dbl ℝ) lg 2) {gt lab o1 o2 : List Int} (h : Clusterings gt lab)
    (ho1 : MapOrder o1 gt) (ho2 : MapOrder o2 lab) (hn : gt.length < 2 ^ 26)
    (hne : ¬ ((∀ x ∈ gt, ∀ y ∈ gt, x = y) ∧ ∀ x ∈ lab, ∀ y ∈ lab, x = y)) :
    ∃ x x' : ℝ, normalisedMutualInformationFl (KMeans.dbl ℝ).fl lg o1 o2 gt lab = .ok (.fin x) ∧
      normalisedMutualInformationFl (KMeans.dbl ℝ).fl lg o2 o1 lab gt = .ok (.fin x') ∧
      |x - x'| ≤ 2 * ((10 * gt.length + 20) * (1 / 2 ^ 53)) := by
  obtain ⟨x, y, hx, hy, hxy⟩ := C105_normalised hlg h ho1 ho2 hn hne
  obtain ⟨x', y', hx', hy', hxy'⟩ := C105_normalised hlg ⟨h.length_eq.symm, h.lab_nonneg, h.gt_nonneg⟩ ho2 ho1
    (h.length_eq ▸ hn) (fun hh => hne ⟨hh.2, hh.1⟩)
  rw [C39_normalised_symmetric ho1 ho2, hy] at hy'
  cases hy'
  refine ⟨x, x', hx, hx', ?_⟩
  rw [← h.length_eq] at hxy'
  rw [abs_sub_comm] at hxy'
  have := abs_sub_le x y x'
  linarith

/-- **C105** (a single cluster).  If one of the clusterings has a single cluster, the mutual information is exactly 0; the
normalised mutual information is 0, or NaN if both have a single cluster. -/
theorem C105_single {lg : ℝ → ℝ} (hlg : LogAccurate (KMeans.dbl ℝ) lg 2) {gt lab o1 o2 : List Int} (h : Clusterings gt lab)
    (ho1 : MapOrder o1 gt) (ho2 : MapOrder o2 lab) (hn : gt.length < 2 ^ 26)
    (hc : (∀ x ∈ gt, ∀ y ∈ gt, x = y) ∨ ∀ x ∈ lab, ∀ y ∈ lab, x = y) :
    mutualInformationFl (KMeans.dbl ℝ).fl lg gt lab = .ok 0 ∧
    (((∀ x ∈ gt, ∀ y ∈ gt, x = y) ∧ ∀ x ∈ lab, ∀ y ∈ lab, x = y) →
      normalisedMutualInformationFl (KMeans.dbl ℝ).fl lg o1 o2 gt lab = .ok .nan) ∧
    (¬ ((∀ x ∈ gt, ∀ y ∈ gt, x = y) ∧ ∀ x ∈ lab, ∀ y ∈ lab, x = y) →
      normalisedMutualInformationFl (KMeans.dbl ℝ).fl lg o1 o2 gt lab = .ok (.fin 0)) := by
  have hx := dbl_exactCounts hn
  have h0 := mutualInformationFl_const hlg h (by omega) hx hc
  refine ⟨h0, ?_, ?_⟩
  · rintro ⟨h1, h2⟩
    unfold normalisedMutualInformationFl
    rw [h0, Outcome.bind_ok, entropyFl_const hlg hx ho1 h1, entropyFl_const hlg (h.length_eq ▸ hx) ho2 h2, add_zero,
      Rounding.fl_zero, zero_div, Rounding.fl_zero, XReal.div_zero_zero rfl rfl]
    rfl
  · intro hne
    obtain ⟨x, -, hx', -, -⟩ := C105_normalised hlg h ho1 ho2 hn hne
    rw [hx']
    unfold normalisedMutualInformationFl at hx'
    rw [h0, Outcome.bind_ok] at hx'
    have hx' := Outcome.ok.inj hx'
    obtain ⟨D, hD⟩ : ∃ D, D = (KMeans.dbl ℝ).fl ((KMeans.dbl ℝ).fl (entropyFl (KMeans.dbl ℝ).fl lg o1 gt +
      entropyFl (KMeans.dbl ℝ).fl lg o2 lab) / 2) := ⟨_, rfl⟩
    rw [← hD] at hx'
    by_cases hD0 : D = 0
    · rw [hD0, XReal.div_zero_zero rfl rfl] at hx'
      cases hx'
    · rw [XReal.div_fin _ hD0, zero_div] at hx'
      change XReal.fin ((KMeans.dbl ℝ).fl 0) = _ at hx'
      rw [Rounding.fl_zero] at hx'
      rw [← hx']

/-- A case: the exact logarithm rounded once, two clusterings of six points. -/
theorem C105_satisfiable : LogAccurate (KMeans.dbl ℝ) (fun x => (KMeans.dbl ℝ).fl (Real.logb 2 x)) 2 ∧
    Clusterings [0, 0, 1, 1, 2, 2] [1, 1, 1, 0, 0, 0] ∧ MapOrder [2, 0, 1] [0, 0, 1, 1, 2, 2] ∧
    MapOrder [0, 1] [1, 1, 1, 0, 0, 0] ∧ ¬ ((∀ x ∈ ([0, 0, 1, 1, 2, 2] : List Int), ∀ y ∈ ([0, 0, 1, 1, 2, 2] : List Int), x = y) ∧
      ∀ x ∈ ([1, 1, 1, 0, 0, 0] : List Int), ∀ y ∈ ([1, 1, 1, 0, 0, 0] : List Int), x = y) := by
  refine ⟨?_, ⟨rfl, by decide, by decide⟩, ⟨by decide, fun x => ?_⟩, ⟨by decide, fun x => ?_⟩, by decide⟩
  · intro x _
    refine ((KMeans.dbl ℝ).err _).trans (mul_le_mul_of_nonneg_right ?_ (abs_nonneg _))
    have h1 : (KMeans.dbl ℝ).u ≤ (KMeans.dbl ℝ).g - 1 := by
      have := Rounding.one_add_le_g (R := KMeans.dbl ℝ)
      linarith
    have h2 := pow_mono_info (R := KMeans.dbl ℝ) (show 1 ≤ 2 by norm_num)
    rw [pow_one] at h2
    change _ ≤ (KMeans.dbl ℝ).g ^ 2 - 1
    linarith
  · simp only [List.mem_cons, List.not_mem_nil, or_false]
    omega
  · simp only [List.mem_cons, List.not_mem_nil, or_false]
    omega

end
end Stag
