import Verif.AsgLaw

/-!
# C69: the distribution of the sampled neighbours
-/

namespace Stag

open MeasureTheory Set Real
open scoped ENNReal

/-! ## Specification -/

/-- The kernel between `q` and row `j`. -/
noncomputable def kernelRow (data : Mat ℝ) (a : ℝ) (q : List ℝ) (j : Nat) : ℝ := exp (-(a * sqDist q (data.row j)))

/-- The total kernel between `q` and the rows from `lo` to before `j`. -/
noncomputable def kernelBefore (data : Mat ℝ) (a : ℝ) (q : List ℝ) (lo j : Nat) : ℝ :=
  ∑ i ∈ Finset.Ico lo j, kernelRow data a q i

/-- When the kernel values of the rows from `lo` on are laid end to end: the part of the one of row `j` which lies below
`W`.  It is the whole kernel value if the rows up to and including `j` have at most the total `W`. -/
noncomputable def kernelBelow (data : Mat ℝ) (a : ℝ) (q : List ℝ) (lo : Nat) (W : ℝ) (j : Nat) : ℝ :=
  max 0 (min (kernelBefore data a q lo (j + 1)) W - kernelBefore data a q lo j)

/-- The probability of row `j` for one draw: at a leaf its share of the estimated weight (the only row, if there is
just one); at an inner node a child is chosen according to the estimated weights of the children. -/
noncomputable def KdeTree.rowProb (data : Mat ℝ) (a : ℝ) (q : List ℝ) (j : Nat) : KdeTree → ℝ
  | .leaf lo hi =>
    if lo ≤ j ∧ j ≤ hi then
      if lo = hi then 1
      else kernelBelow data a q lo ((KdeTree.leaf lo hi).weight data a q) j / (KdeTree.leaf lo hi).weight data a q
    else 0
  | .node _ _ _ left right =>
    left.weight data a q / (left.weight data a q + right.weight data a q) * left.rowProb data a q j
    + right.weight data a q / (left.weight data a q + right.weight data a q) * right.rowProb data a q j

/-! ## Possible results -/

theorem unif_pi_ae (num : Nat) {s : Set (Fin num → ℝ)} (h : (Measure.pi fun _ : Fin num => unif) s ≠ 0) :
    ∃ rs ∈ s, ∀ i, 0 ≤ rs i ∧ rs i < 1 := by
  by_contra hne
  push Not at hne
  apply h
  have hone : (Measure.pi fun _ : Fin num => unif) (Set.pi univ fun _ => Ico (0 : ℝ) 1) = 1 := by
    rw [Measure.pi_pi]
    apply Finset.prod_eq_one
    intro i _
    simp [unif]
  have hz := (prob_compl_eq_zero_iff (μ := Measure.pi fun _ : Fin num => unif)
    (MeasurableSet.univ_pi fun _ : Fin num => measurableSet_Ico)).2 hone
  apply measure_mono_null _ hz
  intro rs hrs hmem
  obtain ⟨i, hi⟩ := hne rs hrs
  have := hmem i (mem_univ i)
  exact absurd this.2 (not_lt.2 (hi this.1))

/-- **C69** (link).  Every result of positive probability is a possible result in the sense of C52. -/
theorem C69_possible (data : Mat ℝ) (a : ℝ) (q : List ℝ) (t : KdeTree) (num : Nat) (out : Outcome (List Int))
    (h : t.law data a q num out ≠ 0) : t.Sample data a q num out := by
  rw [← PMF.mem_support_iff] at h
  induction t generalizing num out with
  | leaf lo hi =>
    rw [KdeTree.law, PMF.mem_support_map_iff] at h
    obtain ⟨l, hl, rfl⟩ := h
    rw [PMF.mem_support_iff, leafLaw_apply] at hl
    obtain ⟨rs, hrs, h01⟩ := unif_pi_ae num hl
    refine ⟨List.ofFn rs, by simp, ?_, by rw [← hrs]⟩
    intro r hr
    obtain ⟨i, rfl⟩ := (List.mem_ofFn' _ _).1 hr
    exact h01 i
  | node lo hi est left right ihl ihr =>
    rw [KdeTree.law] at h
    rw [KdeTree.Sample]
    by_cases hub : left.weight data a q + right.weight data a q ≠ 0 ∧
        0 ≤ left.weight data a q / (left.weight data a q + right.weight data a q) ∧
        left.weight data a q / (left.weight data a q + right.weight data a q) ≤ 1
    rotate_left
    · rw [if_pos hub, PMF.support_pure, mem_singleton_iff] at h
      rw [if_pos hub]
      exact h
    · rw [if_neg (not_not.2 hub)] at h
      rw [if_neg (not_not.2 hub)]
      rw [PMF.mem_support_bind_iff] at h
      obtain ⟨nl, hnl, h⟩ := h
      rw [PMF.mem_support_bind_iff] at h
      obtain ⟨l, hl, h⟩ := h
      rw [PMF.mem_support_bind_iff] at h
      obtain ⟨r, hr, h⟩ := h
      rw [PMF.support_pure, mem_singleton_iff] at h
      refine ⟨nl, binomLaw_le hnl, fun h0 => ?_, fun h1 => ?_, l, r, ?_, ?_, h⟩
      · rw [h0] at hnl; exact binomLaw_zero hnl
      · rw [h1] at hnl; exact binomLaw_one hnl
      · split_ifs at hl ⊢ with hp
        · exact ihl _ _ hl
        · rwa [PMF.support_pure, mem_singleton_iff] at hl
      · split_ifs at hr ⊢ with hp
        · exact ihr _ _ hr
        · rwa [PMF.support_pure, mem_singleton_iff] at hr

/-! ## Leaves -/

theorem kernelBefore_all (data : Mat ℝ) (a : ℝ) (q : List ℝ) (lo hi : Nat) :
    kernelBefore data a q lo (hi + 1) = kernelSum data a q lo hi := rfl

theorem kernelRow_pos (data : Mat ℝ) (a : ℝ) (q : List ℝ) (j : Nat) : 0 < kernelRow data a q j := exp_pos _

theorem kernelBefore_nonneg (data : Mat ℝ) (a : ℝ) (q : List ℝ) (lo j : Nat) : 0 ≤ kernelBefore data a q lo j :=
  Finset.sum_nonneg fun _ _ => (kernelRow_pos _ _ _ _).le

theorem kernelBefore_succ (data : Mat ℝ) (a : ℝ) (q : List ℝ) {lo j : Nat} (h : lo ≤ j) :
    kernelBefore data a q lo (j + 1) = kernelBefore data a q lo j + kernelRow data a q j :=
  Finset.sum_Ico_succ_top h _

theorem cumWeight_before (data : Mat ℝ) (a : ℝ) (q : List ℝ) (lo hi k : Nat) (hk : k ≤ hi + 1 - lo) :
    cumWeight a q (exactOn data a lo hi).allData k = kernelBefore data a q lo (lo + k) := by
  unfold cumWeight exactOn kernelBefore
  simp only [← List.map_take, List.map_map]
  rw [List.take_range, min_eq_left hk, sum_list_range, Finset.sum_Ico_eq_sum_range, Nat.add_sub_cancel_left]
  rfl

theorem leaf_weight_lt (data : Mat ℝ) (a : ℝ) (q : List ℝ) (lo hi : Nat) (h : lo ≤ hi) (hr : hi < data.rows) :
    0 ≤ (KdeTree.leaf lo hi).weight data a q ∧
    (KdeTree.leaf lo hi).weight data a q < kernelSum data a q lo hi := by
  rw [C52_leaf_weight data a q lo hi h hr]
  have hpos := kernelSum_pos data a q lo hi h
  have hc : (0 : ℝ) ≤ ((hi - lo : Nat) : ℝ) := Nat.cast_nonneg _
  refine ⟨by positivity, ?_⟩
  have : ((hi - lo : Nat) : ℝ) / ((hi - lo : Nat) + 1) < 1 := by
    rw [div_lt_one (by linarith)]; linarith
  nlinarith

theorem measurableSet_row (e : ExactKde) (q : List ℝ) (degree : ℝ) (o : Option Int) :
    MeasurableSet {r | rowOf e q degree r = o} :=
  measurable_pick e.a q degree e.allData e.minId 0 (MeasurableSpace.measurableSet_top (s := {o}))

theorem oneLaw_none (data : Mat ℝ) (a : ℝ) (q : List ℝ) (lo hi : Nat) (h : lo ≤ hi) (hr : hi < data.rows) :
    oneLaw (exactOn data a lo hi) q ((KdeTree.leaf lo hi).weight data a q) none = 0 := by
  obtain ⟨h0, h1⟩ := leaf_weight_lt data a q lo hi h hr
  rw [oneLaw_apply, unif, Measure.restrict_apply (measurableSet_row _ _ _ _)]
  convert measure_empty (μ := (volume : Measure ℝ))
  ext r
  simp only [mem_inter_iff, Set.mem_ofPred_eq, mem_Ico, mem_empty_iff_false, iff_false, not_and]
  intro hn hr0 hr1
  have hlen : 0 < (exactOn data a lo hi).allData.length := by simp [exactOn]; omega
  rw [rowOf, pick_none _ _ _ _ _ _ hlen, zero_add, show (exactOn data a lo hi).a = a from rfl,
    cumWeight_exactOn] at hn
  nlinarith

theorem oneLaw_some (data : Mat ℝ) (a : ℝ) (q : List ℝ) (lo hi : Nat) (h : lo ≤ hi) (hr : hi < data.rows) (j : Int) :
    oneLaw (exactOn data a lo hi) q ((KdeTree.leaf lo hi).weight data a q) (some j)
      = if 0 ≤ j then ENNReal.ofReal ((KdeTree.leaf lo hi).rowProb data a q j.toNat) else 0 := by
  obtain ⟨h0, h1⟩ := leaf_weight_lt data a q lo hi h hr
  have hlen : (exactOn data a lo hi).allData.length = hi + 1 - lo := by simp [exactOn]
  rw [oneLaw_apply, unif, Measure.restrict_apply (measurableSet_row _ _ _ _)]
  have hrow : ∀ r, rowOf (exactOn data a lo hi) q ((KdeTree.leaf lo hi).weight data a q) r = some j ↔
      ∃ k : Nat, j = lo + k ∧ lo + k ≤ hi ∧ (k = 0 ∨ kernelBefore data a q lo (lo + k)
        ≤ (KdeTree.leaf lo hi).weight data a q * r) ∧
        (KdeTree.leaf lo hi).weight data a q * r < kernelBefore data a q lo (lo + k + 1) := by
    intro r
    rw [rowOf, pick_spec, hlen]
    simp only [zero_add, show (exactOn data a lo hi).a = a from rfl,
      show (exactOn data a lo hi).minId = (lo : Int) from rfl]
    constructor
    · rintro ⟨k, hj, hk, h2, h3⟩
      rw [cumWeight_before _ _ _ _ _ _ (by omega)] at h2 h3
      exact ⟨k, hj, by omega, h2, h3⟩
    · rintro ⟨k, hj, hk, h2, h3⟩
      refine ⟨k, hj, by omega, ?_, ?_⟩
      · rw [cumWeight_before _ _ _ _ _ _ (by omega)]; exact h2
      · rw [cumWeight_before _ _ _ _ _ _ (by omega)]; exact h3
  simp only [hrow]
  generalize hW : (KdeTree.leaf lo hi).weight data a q = W at *
  by_cases hj : (lo : Int) ≤ j ∧ j ≤ hi
  · obtain ⟨k, rfl⟩ : ∃ k : Nat, j = lo + k := ⟨(j - lo).toNat, by omega⟩
    rw [if_pos (by omega), KdeTree.rowProb, show ((lo : Int) + k).toNat = lo + k by omega, if_pos (by omega), hW]
    have hset : {r : ℝ | ∃ k' : Nat, (lo : Int) + k = lo + k' ∧ lo + k' ≤ hi ∧ (k' = 0 ∨ kernelBefore data a q lo (lo + k')
        ≤ W * r) ∧ W * r < kernelBefore data a q lo (lo + k' + 1)} ∩ Ico 0 1
        = {r | kernelBefore data a q lo (lo + k) ≤ W * r ∧ W * r < kernelBefore data a q lo (lo + k + 1)} ∩ Ico 0 1 := by
      ext r
      simp only [mem_inter_iff, Set.mem_ofPred_eq, mem_Ico]
      constructor
      · rintro ⟨⟨k', hk, -, h2, h3⟩, hr0⟩
        have : k' = k := by omega
        subst this
        refine ⟨⟨?_, h3⟩, hr0⟩
        rcases h2 with rfl | h2
        · rw [Nat.add_zero, kernelBefore, Finset.Ico_self, Finset.sum_empty]
          exact mul_nonneg h0 hr0.1
        · exact h2
      · rintro ⟨⟨h2, h3⟩, hr0⟩
        exact ⟨⟨k, rfl, by omega, .inr h2, h3⟩, hr0⟩
    rw [hset]
    by_cases hlh : lo = hi
    · rw [if_pos hlh, ENNReal.ofReal_one]
      have hk0 : k = 0 := by omega
      have hW0 : W = 0 := by
        rw [← hW, C52_leaf_weight data a q lo hi h hr]
        simp [hlh]
      subst hk0
      have : {r : ℝ | kernelBefore data a q lo (lo + 0) ≤ W * r ∧ W * r < kernelBefore data a q lo (lo + 0 + 1)}
          ∩ Ico 0 1 = Ico 0 1 := by
        ext r
        simp only [mem_inter_iff, Set.mem_ofPred_eq, and_iff_right_iff_imp]
        intro _
        rw [hW0, zero_mul, Nat.add_zero, kernelBefore_succ _ _ _ le_rfl]
        have : kernelBefore data a q lo lo = 0 := by simp [kernelBefore]
        rw [this, zero_add]
        exact ⟨le_rfl, kernelRow_pos _ _ _ _⟩
      rw [this, Real.volume_Ico]
      norm_num
    · rw [if_neg hlh]
      have hWpos : 0 < W := by
        rw [← hW, C52_leaf_weight data a q lo hi h hr]
        have := kernelSum_pos data a q lo hi h
        have : (0 : ℝ) < ((hi - lo : Nat) : ℝ) := by exact_mod_cast (by omega : 0 < hi - lo)
        positivity
      have hB := kernelBefore_nonneg data a q lo (lo + k)
      have : {r : ℝ | kernelBefore data a q lo (lo + k) ≤ W * r ∧ W * r < kernelBefore data a q lo (lo + k + 1)}
          ∩ Ico 0 1 = Ico (kernelBefore data a q lo (lo + k) / W)
            (min (kernelBefore data a q lo (lo + k + 1)) W / W) := by
        ext r
        simp only [mem_inter_iff, Set.mem_ofPred_eq, mem_Ico]
        rw [div_le_iff₀ hWpos, lt_div_iff₀ hWpos, lt_min_iff]
        constructor
        · rintro ⟨⟨h2, h3⟩, h4, h5⟩
          exact ⟨by linarith [mul_comm W r], by linarith [mul_comm W r], by nlinarith⟩
        · rintro ⟨h2, h3, h4⟩
          refine ⟨⟨by linarith [mul_comm W r], by linarith [mul_comm W r]⟩, ?_, ?_⟩
          · by_contra hneg
            push Not at hneg
            nlinarith
          · by_contra hge
            push Not at hge
            nlinarith
      rw [this, Real.volume_Ico, ← sub_div, kernelBelow]
      rcases le_total (min (kernelBefore data a q lo (lo + k + 1)) W - kernelBefore data a q lo (lo + k)) 0 with hle | hge
      · rw [max_eq_left hle, zero_div, ENNReal.ofReal_zero, ENNReal.ofReal_of_nonpos]
        exact div_nonpos_of_nonpos_of_nonneg hle hWpos.le
      · rw [max_eq_right hge]
  · have hempty : {r : ℝ | ∃ k' : Nat, j = lo + k' ∧ lo + k' ≤ hi ∧ (k' = 0 ∨ kernelBefore data a q lo (lo + k')
        ≤ W * r) ∧ W * r < kernelBefore data a q lo (lo + k' + 1)} ∩ Ico 0 1 = ∅ := by
      ext r
      simp only [mem_inter_iff, Set.mem_ofPred_eq, mem_empty_iff_false, iff_false, not_and]
      rintro ⟨k', hk, hk2, -⟩
      exfalso
      apply hj
      omega
    rw [hempty, measure_empty]
    split_ifs with hj0
    · rw [KdeTree.rowProb, if_neg (by omega), ENNReal.ofReal_zero]
    · rfl

/-! ## Trees -/

theorem map_some_apply (p : PMF Int) (j : Int) : p.map some (some j) = p j := by
  rw [PMF.map_apply, tsum_eq_single j]
  · simp
  · intro b hb
    simp [Ne.symm hb]

theorem leaf_iid (data : Mat ℝ) (a : ℝ) (q : List ℝ) (lo hi : Nat) (h : lo ≤ hi) (hr : hi < data.rows) :
    ∃ p : PMF Int, (∀ num, (leafLaw (exactOn data a lo hi) q ((KdeTree.leaf lo hi).weight data a q) num).map
        Multiset.ofList = iidLaw p num) ∧
      ∀ j : Int, p j = if 0 ≤ j then ENNReal.ofReal ((KdeTree.leaf lo hi).rowProb data a q j.toNat) else 0 := by
  have hnone := oneLaw_none data a q lo hi h hr
  have hsome := oneLaw_some data a q lo hi h hr
  generalize hO : oneLaw (exactOn data a lo hi) q ((KdeTree.leaf lo hi).weight data a q) = O at *
  have hp : O = (O.map fun o => o.getD 0).map some := by
    rw [PMF.map_comp]
    have : O.map (some ∘ fun o => o.getD 0) = O.bind PMF.pure := by
      apply bind_congr_support
      intro o ho
      cases o with
      | none => exact absurd hnone ((PMF.mem_support_iff _ _).1 ho)
      | some x => rfl
    rw [this, PMF.bind_pure]
  refine ⟨O.map fun o => o.getD 0, fun num => leafLaw_iid _ _ _ _ (hO.trans hp) num, fun j => ?_⟩
  rw [← map_some_apply, ← hp, hsome]

theorem leaf_rowProb_nonneg (data : Mat ℝ) (a : ℝ) (q : List ℝ) (lo hi : Nat) (h : lo ≤ hi) (hr : hi < data.rows)
    (j : Nat) : 0 ≤ (KdeTree.leaf lo hi).rowProb data a q j := by
  rw [KdeTree.rowProb]
  have := (leaf_weight_lt data a q lo hi h hr).1
  split_ifs
  · exact zero_le_one
  · exact div_nonneg (le_max_left _ _) this
  · exact le_rfl

theorem draws_aux (data : Mat ℝ) (a : ℝ) (q : List ℝ) (est : Nat → Nat → List ℝ → ℝ) (cutoff : Nat) (dc : Int)
    (lo hi depth : Nat) (h : lo ≤ hi) (hr : hi < data.rows)
    (hc : hi - lo < cutoff ∨ (2 ≤ cutoff ∧ ∀ lo hi q, 0 < est lo hi q)) :
    (∀ j, 0 ≤ (KdeTree.build est cutoff dc lo hi depth).rowProb data a q j) ∧ ∃ p : PMF Int,
      (∀ num, ∃ P : PMF (List Int), (KdeTree.build est cutoff dc lo hi depth).law data a q num = P.map Outcome.ok ∧
        P.map Multiset.ofList = iidLaw p num) ∧
      ∀ j : Int, p j = if 0 ≤ j then
        ENNReal.ofReal ((KdeTree.build est cutoff dc lo hi depth).rowProb data a q j.toNat) else 0 := by
  induction hm : hi - lo using Nat.strong_induction_on generalizing lo hi depth with
  | _ m ih =>
    rw [KdeTree.build]
    by_cases hb : cutoff ≤ hi - lo ∧ lo < hi
    · rw [if_pos hb]
      have hc' := hc.resolve_left (by omega)
      have hL := weight_pos data a q est cutoff dc lo ((lo + hi) / 2) (depth + 1) (by omega) (by omega) (.inr hc')
      have hR := weight_pos data a q est cutoff dc ((lo + hi) / 2 + 1) hi (depth + 1) (by omega) (by omega) (.inr hc')
      have hLp := hL.2 (by omega)
      have hRp := hR.1
      obtain ⟨iL0, pL, iL1, iL2⟩ := ih _ (by omega) lo ((lo + hi) / 2) (depth + 1) (by omega) (by omega) (.inr hc') rfl
      obtain ⟨iR0, pR, iR1, iR2⟩ := ih _ (by omega) ((lo + hi) / 2 + 1) hi (depth + 1) (by omega) (by omega)
        (.inr hc') rfl
      generalize KdeTree.build est cutoff dc lo ((lo + hi) / 2) (depth + 1) = left at *
      generalize KdeTree.build est cutoff dc ((lo + hi) / 2 + 1) hi (depth + 1) = right at *
      have hsum : 0 < left.weight data a q + right.weight data a q := by linarith
      have hc0 : 0 ≤ left.weight data a q / (left.weight data a q + right.weight data a q) := by positivity
      have hc1 : left.weight data a q / (left.weight data a q + right.weight data a q) ≤ 1 := by
        rw [div_le_one hsum]; linarith
      have hcc : 1 - left.weight data a q / (left.weight data a q + right.weight data a q)
          = right.weight data a q / (left.weight data a q + right.weight data a q) := by
        field_simp
        ring
      have hr0 : 0 ≤ right.weight data a q / (left.weight data a q + right.weight data a q) := by positivity
      refine ⟨fun j => ?_, (coinLaw (left.weight data a q / (left.weight data a q + right.weight data a q))).bind
        fun b => if b then pL else pR, fun num => ?_, fun j => ?_⟩
      · rw [KdeTree.rowProb]
        exact add_nonneg (mul_nonneg hc0 (iL0 j)) (mul_nonneg hr0 (iR0 j))
      · choose PL hPL1 hPL2 using iL1
        choose PR hPR1 hPR2 using iR1
        obtain ⟨PL', hPL'⟩ : ∃ PL' : Nat → PMF (List Int), PL' = fun nl => if nl > 0 then PL nl else PMF.pure [] :=
          ⟨_, rfl⟩
        obtain ⟨PR', hPR'⟩ : ∃ PR' : Nat → PMF (List Int),
            PR' = fun nl => if nl < num then PR (num - nl) else PMF.pure [] := ⟨_, rfl⟩
        have eL : ∀ nl, (if nl > 0 then left.law data a q nl else PMF.pure (.ok [])) = (PL' nl).map Outcome.ok := by
          intro nl
          rw [hPL']
          simp only
          split_ifs
          · exact hPL1 nl
          · rw [PMF.pure_map]
        have eR : ∀ nl, (if nl < num then right.law data a q (num - nl) else PMF.pure (.ok []))
            = (PR' nl).map Outcome.ok := by
          intro nl
          rw [hPR']
          simp only
          split_ifs
          · exact hPR1 _
          · rw [PMF.pure_map]
        have mL : ∀ nl, (PL' nl).map Multiset.ofList = iidLaw pL nl := by
          intro nl
          rw [hPL']
          simp only
          split_ifs with h0
          · exact hPL2 nl
          · rw [PMF.pure_map, show nl = 0 by omega, iidLaw]
            rfl
        have mR : ∀ nl, (PR' nl).map Multiset.ofList = iidLaw pR (num - nl) := by
          intro nl
          rw [hPR']
          simp only
          split_ifs with h0
          · exact hPR2 _
          · rw [PMF.pure_map, show num - nl = 0 by omega, iidLaw]
            rfl
        refine ⟨(binomLaw (left.weight data a q / (left.weight data a q + right.weight data a q)) num).bind fun nl =>
          (PL' nl).bind fun x => (PR' nl).bind fun y => PMF.pure (x ++ y), ?_, ?_⟩
        · rw [KdeTree.law, if_neg (not_not.2 ⟨hsum.ne', hc0, hc1⟩)]
          simp only [eL, eR, PMF.map_bind, PMF.bind_map, PMF.pure_map]
          rfl
        · rw [← split_draws]
          simp only [← mL, ← mR, PMF.map_bind, PMF.bind_map, PMF.pure_map]
          rfl
      · rw [PMF.bind_apply, tsum_bool, coinLaw_true hc0 hc1, coinLaw_false hc0 hc1, hcc]
        simp only [Bool.false_eq_true, if_false, if_true]
        rw [iL2, iR2]
        by_cases hj0 : 0 ≤ j
        · rw [if_pos hj0, if_pos hj0, if_pos hj0, KdeTree.rowProb, ← ENNReal.ofReal_mul hr0, ← ENNReal.ofReal_mul hc0, ← ENNReal.ofReal_add
            (mul_nonneg hr0 (iR0 _)) (mul_nonneg hc0 (iL0 _)), add_comm]
        · rw [if_neg hj0, if_neg hj0, if_neg hj0, mul_zero, mul_zero, add_zero]
    · rw [if_neg hb]
      refine ⟨leaf_rowProb_nonneg data a q lo hi h hr, ?_⟩
      obtain ⟨p, hp1, hp2⟩ := leaf_iid data a q lo hi h hr
      exact ⟨p, fun num => ⟨_, rfl, hp1 num⟩, hp2⟩

/-- **C69** (independent draws).  On a tree made by the constructor for the rows `lo, …, hi`, if they fit into one leaf
or if the cutoff is at least two and the estimators answer positive numbers: the call with `num` never fails, and up
to their order the rows it returns are `num` independent draws from the same distribution, which gives row `j` the
probability `rowProb`. -/
theorem C69_draws (data : Mat ℝ) (a : ℝ) (q : List ℝ) (est : Nat → Nat → List ℝ → ℝ) (cutoff : Nat) (dc : Int)
    (lo hi depth : Nat) (h : lo ≤ hi) (hr : hi < data.rows)
    (hc : hi - lo < cutoff ∨ (2 ≤ cutoff ∧ ∀ lo hi q, 0 < est lo hi q)) :
    ∃ p : PMF Int,
      (∀ num, ∃ P : PMF (List Int), (KdeTree.build est cutoff dc lo hi depth).law data a q num = P.map Outcome.ok ∧
        P.map Multiset.ofList = iidLaw p num) ∧
      ∀ j : Int, p j = if 0 ≤ j then
        ENNReal.ofReal ((KdeTree.build est cutoff dc lo hi depth).rowProb data a q j.toNat) else 0 :=
  (draws_aux data a q est cutoff dc lo hi depth h hr hc).2

/-! ## Accuracy -/

/-- Every estimated weight in the tree is within a factor `1 ± ε` of the kernel sum. -/
def KdeTree.Accurate (data : Mat ℝ) (a : ℝ) (q : List ℝ) (ε : ℝ) : KdeTree → Prop
  | .leaf lo hi => (1 - ε) * kernelSum data a q lo hi ≤ (KdeTree.leaf lo hi).weight data a q ∧
      (KdeTree.leaf lo hi).weight data a q ≤ (1 + ε) * kernelSum data a q lo hi
  | .node lo hi e left right => (1 - ε) * kernelSum data a q lo hi ≤ (KdeTree.node lo hi e left right).weight data a q ∧
      (KdeTree.node lo hi e left right).weight data a q ≤ (1 + ε) * kernelSum data a q lo hi ∧
      left.Accurate data a q ε ∧ right.Accurate data a q ε

/-- In its leaf, row `j` lies below the estimated weight. -/
def KdeTree.Whole (data : Mat ℝ) (a : ℝ) (q : List ℝ) (j : Nat) : KdeTree → Prop
  | .leaf lo hi => lo ≤ j → j ≤ hi → kernelBefore data a q lo (j + 1) ≤ (KdeTree.leaf lo hi).weight data a q
  | .node _ _ _ left right => left.Whole data a q j ∧ right.Whole data a q j

theorem kernelSum_split (data : Mat ℝ) (a : ℝ) (q : List ℝ) {lo mid hi : Nat} (h1 : lo ≤ mid) (h2 : mid < hi) :
    kernelSum data a q lo hi = kernelSum data a q lo mid + kernelSum data a q (mid + 1) hi := by
  unfold kernelSum
  rw [show Finset.Icc lo hi = Finset.Ico lo (hi + 1) from rfl, show Finset.Icc lo mid = Finset.Ico lo (mid + 1) from rfl,
    show Finset.Icc (mid + 1) hi = Finset.Ico (mid + 1) (hi + 1) from rfl,
    Finset.sum_Ico_consecutive _ (by omega) (by omega)]

theorem rowProb_outside (data : Mat ℝ) (a : ℝ) (q : List ℝ) (est : Nat → Nat → List ℝ → ℝ) (cutoff : Nat) (dc : Int)
    (lo hi depth j : Nat) (h : lo ≤ hi) (hj : j < lo ∨ hi < j) :
    (KdeTree.build est cutoff dc lo hi depth).rowProb data a q j = 0 := by
  induction hm : hi - lo using Nat.strong_induction_on generalizing lo hi depth with
  | _ m ih =>
    rw [KdeTree.build]
    by_cases hb : cutoff ≤ hi - lo ∧ lo < hi
    · rw [if_pos hb, KdeTree.rowProb, ih _ (by omega) lo ((lo + hi) / 2) _ (by omega) (by omega) rfl,
        ih _ (by omega) ((lo + hi) / 2 + 1) hi _ (by omega) (by omega) rfl]
      ring
    · rw [if_neg hb, KdeTree.rowProb, if_neg (by omega)]

/-- What accuracy says about the root. -/
theorem KdeTree.Accurate.root {data : Mat ℝ} {a : ℝ} {q : List ℝ} {ε : ℝ} {est : Nat → Nat → List ℝ → ℝ} {cutoff : Nat}
    {dc : Int} {lo hi depth : Nat} (h : (KdeTree.build est cutoff dc lo hi depth).Accurate data a q ε) :
    (1 - ε) * kernelSum data a q lo hi ≤ (KdeTree.build est cutoff dc lo hi depth).weight data a q ∧
    (KdeTree.build est cutoff dc lo hi depth).weight data a q ≤ (1 + ε) * kernelSum data a q lo hi := by
  rw [KdeTree.build] at h ⊢
  by_cases hb : cutoff ≤ hi - lo ∧ lo < hi
  · rw [if_pos hb] at h ⊢
    rw [KdeTree.Accurate] at h
    exact ⟨h.1, h.2.1⟩
  · rw [if_neg hb] at h ⊢
    rw [KdeTree.Accurate] at h
    exact h

theorem kernelBelow_le (data : Mat ℝ) (a : ℝ) (q : List ℝ) {lo j : Nat} (W : ℝ) (h : lo ≤ j) :
    kernelBelow data a q lo W j ≤ kernelRow data a q j := by
  unfold kernelBelow
  apply max_le (kernelRow_pos _ _ _ _).le
  have := min_le_left (kernelBefore data a q lo (j + 1)) W
  rw [kernelBefore_succ _ _ _ h] at this ⊢
  linarith

theorem kernelBelow_whole (data : Mat ℝ) (a : ℝ) (q : List ℝ) {lo j : Nat} {W : ℝ} (h : lo ≤ j)
    (hw : kernelBefore data a q lo (j + 1) ≤ W) : kernelBelow data a q lo W j = kernelRow data a q j := by
  unfold kernelBelow
  rw [min_eq_left hw, kernelBefore_succ _ _ _ h, add_sub_cancel_left, max_eq_right (kernelRow_pos _ _ _ _).le]

theorem rowProb_nonneg (data : Mat ℝ) (a : ℝ) (q : List ℝ) (est : Nat → Nat → List ℝ → ℝ) (cutoff : Nat) (dc : Int)
    (lo hi depth j : Nat) (h : lo ≤ hi) (hr : hi < data.rows) {ε : ℝ} (h1 : ε < 1)
    (hacc : (KdeTree.build est cutoff dc lo hi depth).Accurate data a q ε) :
    0 ≤ (KdeTree.build est cutoff dc lo hi depth).rowProb data a q j := by
  have e1 : 0 < 1 - ε := by linarith
  induction hm : hi - lo using Nat.strong_induction_on generalizing lo hi depth with
  | _ m ih =>
    rw [KdeTree.build] at hacc ⊢
    by_cases hb : cutoff ≤ hi - lo ∧ lo < hi
    · rw [if_pos hb] at hacc ⊢
      rw [KdeTree.Accurate] at hacc
      obtain ⟨-, -, hl, hrr⟩ := hacc
      have w1 := hl.root.1
      have w2 := hrr.root.1
      have hSL := kernelSum_pos data a q lo ((lo + hi) / 2) (by omega)
      have hSR := kernelSum_pos data a q ((lo + hi) / 2 + 1) hi (by omega)
      have p1 := lt_of_lt_of_le (mul_pos e1 hSL) w1
      have p2 := lt_of_lt_of_le (mul_pos e1 hSR) w2
      have i1 := ih _ (by omega) lo ((lo + hi) / 2) (depth + 1) (by omega) (by omega) hl rfl
      have i2 := ih _ (by omega) ((lo + hi) / 2 + 1) hi (depth + 1) (by omega) (by omega) hrr rfl
      rw [KdeTree.rowProb]
      positivity
    · rw [if_neg hb]
      exact leaf_rowProb_nonneg data a q lo hi h hr j

/-- **C69** (accuracy).  If every estimated weight in the tree is within a factor `1 ± ε` of the true kernel sum, a row is
drawn with at most `((1 + ε) / (1 - ε)) ^ D / (1 - ε)` times the probability `k(q, x_j) / ∑ k(q, x_i)`, for a tree of
depth at most `D`; and with at least `((1 - ε) / (1 + ε)) ^ D / (1 + ε)` times that probability, if in its leaf it lies
below the estimated weight. -/
theorem C69_accuracy (data : Mat ℝ) (a : ℝ) (q : List ℝ) (est : Nat → Nat → List ℝ → ℝ) (cutoff : Nat) (dc : Int)
    (lo hi depth j D : Nat) (hj : lo ≤ j ∧ j ≤ hi) (hr : hi < data.rows) (hD : hi - lo < 2 ^ D) (ε : ℝ) (h0 : 0 ≤ ε)
    (h1 : ε < 1) (hacc : (KdeTree.build est cutoff dc lo hi depth).Accurate data a q ε) :
    (KdeTree.build est cutoff dc lo hi depth).rowProb data a q j
      ≤ ((1 + ε) / (1 - ε)) ^ D / (1 - ε) * (kernelRow data a q j / kernelSum data a q lo hi) ∧
    ((KdeTree.build est cutoff dc lo hi depth).Whole data a q j →
      ((1 - ε) / (1 + ε)) ^ D / (1 + ε) * (kernelRow data a q j / kernelSum data a q lo hi)
        ≤ (KdeTree.build est cutoff dc lo hi depth).rowProb data a q j) := by
  have e1 : 0 < 1 - ε := by linarith
  have e2 : 0 < 1 + ε := by linarith
  have er : 1 ≤ (1 + ε) / (1 - ε) := by rw [one_le_div e1]; linarith
  have er' : (1 - ε) / (1 + ε) ≤ 1 := by rw [div_le_one e2]; linarith
  have er0 : 0 < (1 - ε) / (1 + ε) := by positivity
  induction hm : hi - lo using Nat.strong_induction_on generalizing lo hi depth D with
  | _ m ih =>
    have hroot := hacc.root
    have hS := kernelSum_pos data a q lo hi (by omega)
    have hk := kernelRow_pos data a q j
    rw [KdeTree.build] at hacc hroot ⊢
    by_cases hb : cutoff ≤ hi - lo ∧ lo < hi
    · rw [if_pos hb] at hacc hroot ⊢
      rw [KdeTree.Accurate] at hacc
      obtain ⟨-, -, hl, hrr⟩ := hacc
      have hlr := hl.root
      have hrr' := hrr.root
      have hSL := kernelSum_pos data a q lo ((lo + hi) / 2) (by omega)
      have hSR := kernelSum_pos data a q ((lo + hi) / 2 + 1) hi (by omega)
      have hsplit := kernelSum_split data a q (lo := lo) (mid := (lo + hi) / 2) (hi := hi) (by omega) (by omega)
      obtain ⟨D', rfl⟩ : ∃ D', D = D' + 1 := ⟨D - 1, by
        rcases D with _ | D
        · simp at hD; omega
        · rfl⟩
      rw [pow_succ] at hD
      rw [KdeTree.rowProb, KdeTree.Whole]
      -- the mixture with a child weight `w`, sibling weight `w'`, kernel sums `s`, `s'`
      have key : ∀ w w' s s' p : ℝ, 0 < s → 0 < s' → (1 - ε) * s ≤ w → w ≤ (1 + ε) * s → (1 - ε) * s' ≤ w' →
          w' ≤ (1 + ε) * s' → 0 ≤ p →
          (p ≤ ((1 + ε) / (1 - ε)) ^ D' / (1 - ε) * (kernelRow data a q j / s) →
            w / (w + w') * p ≤ ((1 + ε) / (1 - ε)) ^ (D' + 1) / (1 - ε) * (kernelRow data a q j / (s + s'))) ∧
          (((1 - ε) / (1 + ε)) ^ D' / (1 + ε) * (kernelRow data a q j / s) ≤ p →
            ((1 - ε) / (1 + ε)) ^ (D' + 1) / (1 + ε) * (kernelRow data a q j / (s + s')) ≤ w / (w + w') * p) := by
        intro w w' s s' p hs hs' a1 a2 a3 a4 hp
        have hw : 0 < w := lt_of_lt_of_le (by positivity) a1
        have hw' : 0 < w' := lt_of_lt_of_le (by positivity) a3
        have u1 : w / (w + w') ≤ (1 + ε) / (1 - ε) * (s / (s + s')) := by
          rw [div_mul_div_comm, div_le_div_iff₀ (by positivity) (by positivity)]
          have b1 : (1 - ε) * (s + s') ≤ w + w' := by linarith
          exact mul_le_mul a2 b1 (by positivity) (by positivity)
        have u2 : (1 - ε) / (1 + ε) * (s / (s + s')) ≤ w / (w + w') := by
          rw [div_mul_div_comm, div_le_div_iff₀ (by positivity) (by positivity)]
          have b1 : w + w' ≤ (1 + ε) * (s + s') := by linarith
          exact mul_le_mul a1 b1 (by positivity) (by positivity)
        constructor
        · intro hpu
          calc w / (w + w') * p ≤ (1 + ε) / (1 - ε) * (s / (s + s')) *
                (((1 + ε) / (1 - ε)) ^ D' / (1 - ε) * (kernelRow data a q j / s)) :=
                mul_le_mul u1 hpu hp (by positivity)
            _ = _ := by
              rw [pow_succ]
              field_simp
        · intro hpl
          calc _ = (1 - ε) / (1 + ε) * (s / (s + s')) *
                (((1 - ε) / (1 + ε)) ^ D' / (1 + ε) * (kernelRow data a q j / s)) := by
                rw [pow_succ]
                field_simp
            _ ≤ w / (w + w') * p := mul_le_mul u2 hpl (by positivity) (by positivity)
      rcases Nat.lt_or_ge ((lo + hi) / 2) j with hjr | hjl
      · rw [rowProb_outside data a q est cutoff dc lo ((lo + hi) / 2) (depth + 1) j (by omega) (.inr hjr), mul_zero,
          zero_add]
        obtain ⟨i1, i2⟩ := ih _ (by omega) ((lo + hi) / 2 + 1) hi (depth + 1) D' (by omega) (by omega) (by omega) hrr rfl
        have hp0 : 0 ≤ (KdeTree.build est cutoff dc ((lo + hi) / 2 + 1) hi (depth + 1)).rowProb data a q j :=
          rowProb_nonneg data a q est cutoff dc _ _ _ j (by omega) (by omega) h1 hrr
        obtain ⟨k1, k2⟩ := key _ _ _ _ _ hSR hSL hrr'.1 hrr'.2 hlr.1 hlr.2 hp0
        rw [hsplit, add_comm (kernelSum data a q lo _), add_comm (KdeTree.weight data a q _)]
        exact ⟨k1 i1, fun hw => k2 (i2 hw.2)⟩
      · rw [rowProb_outside data a q est cutoff dc ((lo + hi) / 2 + 1) hi (depth + 1) j (by omega) (.inl (by omega)),
          mul_zero, add_zero]
        obtain ⟨i1, i2⟩ := ih _ (by omega) lo ((lo + hi) / 2) (depth + 1) D' (by omega) (by omega) (by omega) hl rfl
        have hp0 : 0 ≤ (KdeTree.build est cutoff dc lo ((lo + hi) / 2) (depth + 1)).rowProb data a q j :=
          rowProb_nonneg data a q est cutoff dc _ _ _ j (by omega) (by omega) h1 hl
        obtain ⟨k1, k2⟩ := key _ _ _ _ _ hSL hSR hlr.1 hlr.2 hrr'.1 hrr'.2 hp0
        rw [hsplit]
        exact ⟨k1 i1, fun hw => k2 (i2 hw.1)⟩
    · rw [if_neg hb] at hacc hroot ⊢
      have hW : 0 < (KdeTree.leaf lo hi).weight data a q := lt_of_lt_of_le (by positivity) hroot.1
      have hlh : lo ≠ hi := by
        rintro rfl
        rw [C52_leaf_weight data a q lo lo le_rfl hr] at hW
        simp at hW
      rw [KdeTree.rowProb, if_pos hj, if_neg hlh, KdeTree.Whole]
      have hpow : 1 ≤ ((1 + ε) / (1 - ε)) ^ D := one_le_pow₀ er
      have hpow' : ((1 - ε) / (1 + ε)) ^ D ≤ 1 := pow_le_one₀ er0.le er'
      constructor
      · calc _ ≤ kernelRow data a q j / ((1 - ε) * kernelSum data a q lo hi) :=
              div_le_div₀ hk.le (kernelBelow_le _ _ _ _ hj.1) (by positivity) hroot.1
          _ = 1 / (1 - ε) * (kernelRow data a q j / kernelSum data a q lo hi) := by
              field_simp
          _ ≤ _ := mul_le_mul_of_nonneg_right (div_le_div_of_nonneg_right hpow e1.le) (by positivity)
      · intro hw
        rw [kernelBelow_whole _ _ _ hj.1 (hw hj.1 hj.2)]
        calc _ ≤ 1 / (1 + ε) * (kernelRow data a q j / kernelSum data a q lo hi) :=
              mul_le_mul_of_nonneg_right (div_le_div_of_nonneg_right hpow' e2.le) (by positivity)
          _ = kernelRow data a q j / ((1 + ε) * kernelSum data a q lo hi) := by field_simp
          _ ≤ _ := div_le_div_of_nonneg_left hk.le hW hroot.2

/-! ## Expected weights -/

/-- Independent samples for the first `n` vertices: one way for the calls to be made. -/
noncomputable def independentSamples (P : Nat → PMF (List Int)) : Nat → PMF (Nat → List Int)
  | 0 => PMF.pure fun _ => []
  | n + 1 => (independentSamples P n).bind fun s => (P n).map fun l v => if v = n then l else s v

theorem independentSamples_marginal (P : Nat → PMF (List Int)) (n v : Nat) (h : v < n) :
    (independentSamples P n).map (fun s => s v) = P v := by
  induction n with
  | zero => omega
  | succ n ih =>
    rw [independentSamples, PMF.map_bind]
    simp only [PMF.map_comp]
    rcases Nat.lt_or_ge v n with hv | hv
    · have : ∀ s : Nat → List Int, (P n).map ((fun s : Nat → List Int => s v) ∘ fun l v => if v = n then l else s v)
          = PMF.pure (s v) := by
        intro s
        have e : ((fun s : Nat → List Int => s v) ∘ fun (l : List Int) v => if v = n then l else s v)
            = Function.const _ (s v) := by
          funext l
          simp [Nat.ne_of_lt hv]
        rw [e, PMF.map_const]
      simp only [this]
      exact ih hv
    · have hvn : v = n := by omega
      subst hvn
      have : ∀ s : Nat → List Int, (P v).map ((fun s : Nat → List Int => s v) ∘ fun l w => if w = v then l else s w)
          = P v := by
        intro s
        have e : ((fun s : Nat → List Int => s v) ∘ fun (l : List Int) w => if w = v then l else s w) = id := by
          funext l
          simp
        rw [e, PMF.map_id]
      simp only [this, PMF.bind_const]

theorem sampledWeight_count (n : Nat) (s : Nat → List Int) (deg : Nat → ℝ) (i j : Nat) (hi : i < n) (hj : j < n)
    (hl : ∀ v < n, (s v).length = 2 ∧ ∀ x ∈ s v, 0 ≤ x) :
    sampledWeight n (fun v k => ((s v).getD k 0).toNat) deg i j
      = deg i / 5 * ((s i).count (j : Int)) + deg j / 5 * ((s j).count (i : Int)) := by
  have one : ∀ u v, u < n → ∑ k ∈ Finset.range 2, (if ((s u).getD k 0).toNat = v then deg u / 5 else 0)
      = deg u / 5 * ((s u).count (v : Int)) := by
    intro u v hu
    obtain ⟨h1, h2⟩ := hl u hu
    match hs : s u, h1 with
    | [x, y], _ =>
      rw [hs] at h2
      have hx := h2 x (by simp)
      have hy := h2 y (by simp)
      have ex : x.toNat = v ↔ x = (v : Int) := by omega
      have ey : y.toNat = v ↔ y = (v : Int) := by omega
      rw [Finset.sum_range_succ, Finset.sum_range_one]
      simp only [List.getD_cons_zero, List.getD_cons_succ, List.count_cons, List.count_nil, ex, ey, beq_iff_eq]
      by_cases c1 : x = (v : Int) <;> by_cases c2 : y = (v : Int) <;> simp [c1, c2]
      ring
  unfold sampledWeight
  simp only [Finset.sum_add_distrib]
  rw [← one i j hi, ← one j i hj]
  congr 1
  · rw [Finset.sum_eq_single i]
    · simp
    · intro v _ hv
      simp [hv]
    · intro h
      exact absurd (Finset.mem_range.2 hi) h
  · rw [Finset.sum_eq_single j]
    · simp
    · intro v _ hv
      simp [hv]
    · intro h
      exact absurd (Finset.mem_range.2 hj) h

/-- **C69** (expected weights).  However the calls for the different vertices depend on each other, if the two samples
of each vertex have the distribution above then the expected weight between `i` and `j` in the graph of C52 (before
weights below `EPSILON` are dropped) is `2 / 5 * (deg i * P(i draws j) + deg j * P(j draws i))`. -/
theorem C69_expected_weight (data : Mat ℝ) (a : ℝ) (est : Nat → Nat → List ℝ → ℝ) (cutoff : Nat) (hn : 2 ≤ data.rows)
    (hc : data.rows ≤ cutoff ∨ (2 ≤ cutoff ∧ ∀ lo hi q, 0 < est lo hi q)) (tree : KdeTree)
    (htree : tree = KdeTree.build est cutoff 0 0 (data.rows - 1) 0) (J : PMF (Nat → List Int))
    (hJ : ∀ v < data.rows, J.map (fun s => Outcome.ok (s v)) = tree.law data a (data.row v) 2)
    (i j : Nat) (hi : i < data.rows) (hj : j < data.rows) :
    PMF.expect J (fun s => ENNReal.ofReal (sampledWeight data.rows (fun v k => ((s v).getD k 0).toNat)
        (fun v => tree.weight data a (data.row v)) i j))
      = ENNReal.ofReal (2 / 5 * (tree.weight data a (data.row i) * tree.rowProb data a (data.row i) j
        + tree.weight data a (data.row j) * tree.rowProb data a (data.row j) i)) := by
  subst htree
  have hc' : data.rows - 1 - 0 < cutoff ∨ (2 ≤ cutoff ∧ ∀ lo hi q, 0 < est lo hi q) := by
    rcases hc with h | h
    · exact .inl (by omega)
    · exact .inr h
  have hW := fun v => ((weight_pos data a (data.row v) est cutoff 0 0 (data.rows - 1) 0 (by omega)
    (by omega) hc').2 (by omega))
  have hnn := fun v => (draws_aux data a (data.row v) est cutoff 0 0 (data.rows - 1) 0 (by omega) (by omega) hc').1
  have hdraws := fun v => C69_draws data a (data.row v) est cutoff 0 0 (data.rows - 1) 0 (by omega) (by omega) hc'
  have hsupp : ∀ s ∈ J.support, ∀ v < data.rows, (s v).length = 2 ∧ ∀ x ∈ s v, 0 ≤ x := by
    intro s hs v hv
    have hm : Outcome.ok (s v) ∈ (J.map fun s => Outcome.ok (s v)).support := by
      rw [PMF.mem_support_map_iff]
      exact ⟨s, hs, rfl⟩
    rw [hJ v hv, PMF.mem_support_iff] at hm
    rcases C52_samples data a (data.row v) est cutoff 0 0 (data.rows - 1) 0 2 (by omega) (by omega) _
      (C69_possible _ _ _ _ _ _ hm) with h | ⟨ss, h1, h2, h3⟩
    · cases h
    · cases h1
      exact ⟨h2, fun x hx => by have := (h3 x hx).1; omega⟩
  generalize KdeTree.build est cutoff 0 0 (data.rows - 1) 0 = tree at *
  have hcount : ∀ u v : Nat, u < data.rows → PMF.expect J (fun s => ((s u).count (v : Int) : ℝ≥0∞))
      = 2 * ENNReal.ofReal (tree.rowProb data a (data.row u) v) := by
    intro u v hu
    obtain ⟨p, hp1, hp2⟩ := hdraws u
    obtain ⟨P, hP1, hP2⟩ := hp1 2
    have h1 : PMF.expect J (fun s => ((s u).count (v : Int) : ℝ≥0∞))
        = PMF.expect (J.map fun s => Outcome.ok (s u)) (fun o => match o with
          | .ok l => (l.count (v : Int) : ℝ≥0∞) | _ => 0) := by
      rw [expect_map]; rfl
    rw [h1, hJ u hu, hP1, expect_map]
    have h2 : ((fun o : Outcome (List Int) => match o with | .ok l => (l.count (v : Int) : ℝ≥0∞) | _ => 0) ∘ Outcome.ok)
        = (fun M : Multiset Int => (M.count (v : Int) : ℝ≥0∞)) ∘ Multiset.ofList := by
      funext l
      simp [Multiset.coe_count]
    rw [h2, ← expect_map, hP2, expect_count, hp2, if_pos (by omega), Int.toNat_natCast]
    norm_num
  rw [expect_congr_support J (g := fun s => ENNReal.ofReal (tree.weight data a (data.row i) / 5) *
      ((s i).count (j : Int) : ℝ≥0∞) + ENNReal.ofReal (tree.weight data a (data.row j) / 5) *
      ((s j).count (i : Int) : ℝ≥0∞)) (by
    intro s hs
    rw [sampledWeight_count _ _ _ _ _ hi hj (hsupp s hs)]
    have w1 := (hW i).le
    have w2 := (hW j).le
    rw [ENNReal.ofReal_add (by positivity) (by positivity), ENNReal.ofReal_mul (by positivity),
      ENNReal.ofReal_mul (by positivity), ENNReal.ofReal_natCast, ENNReal.ofReal_natCast])]
  rw [expect_add, expect_mul_left, expect_mul_left, hcount i j hi, hcount j i hj]
  have w1 := (hW i).le
  have w2 := (hW j).le
  have p1 := hnn i j
  have p2 := hnn j i
  rw [show (2 : ℝ≥0∞) = ENNReal.ofReal 2 by simp, ← ENNReal.ofReal_mul (by positivity), ← ENNReal.ofReal_mul (by positivity),
    ← ENNReal.ofReal_mul (by positivity), ← ENNReal.ofReal_mul (by positivity),
    ← ENNReal.ofReal_add (by positivity) (by positivity)]
  congr 1
  ring

theorem kernelRow_comm (data : Mat ℝ) (a : ℝ) (i j : Nat) :
    kernelRow data a (data.row i) j = kernelRow data a (data.row j) i := by
  unfold kernelRow
  rw [sqDist_comm _ _ (by rw [row_length, row_length])]

/-- **C69** (expected weights in one leaf).  When the data fit into one leaf, the expected weight between `i` and `j` is
`2 / 5` times the two parts of the kernel that lie below the estimated degrees: never more than `4 / 5` of the kernel,
exactly `4 / 5` of it if in both orders of adding up the rows it lies below, and for `i` and the last row at most half
of that if the last row has at most the average kernel value of row `i`. -/
theorem C69_expected_weight_leaf (data : Mat ℝ) (a : ℝ) (est : Nat → Nat → List ℝ → ℝ) (cutoff : Nat)
    (hn : 2 ≤ data.rows) (hc : data.rows ≤ cutoff) (tree : KdeTree)
    (htree : tree = KdeTree.build est cutoff 0 0 (data.rows - 1) 0) (J : PMF (Nat → List Int))
    (hJ : ∀ v < data.rows, J.map (fun s => Outcome.ok (s v)) = tree.law data a (data.row v) 2)
    (i j : Nat) (hi : i < data.rows) (hj : j < data.rows) (w : ℝ≥0∞)
    (hw : w = PMF.expect J (fun s => ENNReal.ofReal (sampledWeight data.rows (fun v k => ((s v).getD k 0).toNat)
        (fun v => tree.weight data a (data.row v)) i j))) :
    w = ENNReal.ofReal (2 / 5 * (kernelBelow data a (data.row i) 0 (tree.weight data a (data.row i)) j
        + kernelBelow data a (data.row j) 0 (tree.weight data a (data.row j)) i)) ∧
    w ≤ ENNReal.ofReal (4 / 5 * exp (-(a * sqDist (data.row i) (data.row j)))) ∧
    (kernelBefore data a (data.row i) 0 (j + 1) ≤ tree.weight data a (data.row i) →
      kernelBefore data a (data.row j) 0 (i + 1) ≤ tree.weight data a (data.row j) →
      w = ENNReal.ofReal (4 / 5 * exp (-(a * sqDist (data.row i) (data.row j))))) ∧
    (j = data.rows - 1 → exp (-(a * sqDist (data.row i) (data.row j)))
        ≤ (∑ k ∈ Finset.range data.rows, exp (-(a * sqDist (data.row i) (data.row k)))) / data.rows →
      w ≤ ENNReal.ofReal (2 / 5 * exp (-(a * sqDist (data.row i) (data.row j))))) := by
  have hE := C69_expected_weight data a est cutoff hn (.inl hc) tree htree J hJ i j hi hj
  have hleaf : tree = KdeTree.leaf 0 (data.rows - 1) := by
    rw [htree, KdeTree.build, if_neg (by omega)]
  have hWpos : ∀ v, 0 < tree.weight data a (data.row v) := by
    intro v
    rw [hleaf, C52_leaf_weight data a _ 0 (data.rows - 1) (by omega) (by omega)]
    have := kernelSum_pos data a (data.row v) 0 (data.rows - 1) (by omega)
    have : (0 : ℝ) < ((data.rows - 1 - 0 : Nat) : ℝ) := by exact_mod_cast (by omega : 0 < data.rows - 1 - 0)
    positivity
  have hprod : ∀ u v, v < data.rows → tree.weight data a (data.row u) * tree.rowProb data a (data.row u) v
      = kernelBelow data a (data.row u) 0 (tree.weight data a (data.row u)) v := by
    intro u v hv
    have hne := (hWpos u).ne'
    rw [hleaf] at hne ⊢
    rw [KdeTree.rowProb, if_pos (by omega), if_neg (by omega), mul_div_cancel₀ _ hne]
  rw [hprod i j hj, hprod j i hi, ← hw] at hE
  have l1 := kernelBelow_le data a (data.row i) (tree.weight data a (data.row i)) (Nat.zero_le j)
  have l2 := kernelBelow_le data a (data.row j) (tree.weight data a (data.row j)) (Nat.zero_le i)
  have hker : kernelRow data a (data.row i) j = exp (-(a * sqDist (data.row i) (data.row j))) := rfl
  rw [← kernelRow_comm] at l2
  rw [← hker]
  refine ⟨hE, ?_, ?_, ?_⟩
  · rw [hE]
    exact ENNReal.ofReal_le_ofReal (by linarith)
  · intro c1 c2
    rw [hE, kernelBelow_whole _ _ _ (Nat.zero_le _) c1, kernelBelow_whole _ _ _ (Nat.zero_le _) c2,
      ← kernelRow_comm data a i j]
    congr 1
    ring
  · intro hlast havg
    have hz : kernelBelow data a (data.row i) 0 (tree.weight data a (data.row i)) j = 0 := by
      unfold kernelBelow
      apply max_eq_left
      have hsum : kernelBefore data a (data.row i) 0 (j + 1)
          = ∑ k ∈ Finset.range data.rows, exp (-(a * sqDist (data.row i) (data.row k))) := by
        unfold kernelBefore
        rw [show j + 1 = data.rows by omega, ← Finset.range_eq_Ico]
        rfl
      have hW : tree.weight data a (data.row i) = ((data.rows : ℝ) - 1) / data.rows
          * ∑ k ∈ Finset.range data.rows, exp (-(a * sqDist (data.row i) (data.row k))) := by
        rw [htree]
        exact C52_degrees data a cutoff est hn hc i
      have hs := kernelBefore_succ data a (data.row i) (Nat.zero_le j)
      have hm := min_le_right (kernelBefore data a (data.row i) 0 (j + 1)) (tree.weight data a (data.row i))
      have hN : (0 : ℝ) < data.rows := by exact_mod_cast (by omega : 0 < data.rows)
      have e : ((data.rows : ℝ) - 1) / data.rows
          * ∑ k ∈ Finset.range data.rows, exp (-(a * sqDist (data.row i) (data.row k)))
          = (∑ k ∈ Finset.range data.rows, exp (-(a * sqDist (data.row i) (data.row k))))
            - (∑ k ∈ Finset.range data.rows, exp (-(a * sqDist (data.row i) (data.row k)))) / data.rows := by
        field_simp
      rw [hW, e] at hm
      rw [hW, e]
      rw [hsum] at hs hm ⊢
      linarith
    rw [hE, hz]
    exact ENNReal.ofReal_le_ofReal (by linarith)

/-- **C69** (expected weights of an accurate tree).  If for `i` and for `j` every estimated weight in the tree is within a
factor `1 ± ε` of the true kernel sum, the expected weight is at most `4 / 5 * ((1 + ε) / (1 - ε)) ^ (D + 1)` times the
kernel for at most `2 ^ D` rows; and at least `4 / 5 * ((1 - ε) / (1 + ε)) ^ (D + 1)` times the kernel, if both rows lie
below the estimated weights of their leaves. -/
theorem C69_expected_weight_accurate (data : Mat ℝ) (a : ℝ) (est : Nat → Nat → List ℝ → ℝ) (cutoff D : Nat)
    (hn : 2 ≤ data.rows) (hD : data.rows ≤ 2 ^ D)
    (hc : data.rows ≤ cutoff ∨ (2 ≤ cutoff ∧ ∀ lo hi q, 0 < est lo hi q)) (tree : KdeTree)
    (htree : tree = KdeTree.build est cutoff 0 0 (data.rows - 1) 0) (J : PMF (Nat → List Int))
    (hJ : ∀ v < data.rows, J.map (fun s => Outcome.ok (s v)) = tree.law data a (data.row v) 2)
    (i j : Nat) (hi : i < data.rows) (hj : j < data.rows) (ε : ℝ) (h0 : 0 ≤ ε) (h1 : ε < 1)
    (hai : tree.Accurate data a (data.row i) ε) (haj : tree.Accurate data a (data.row j) ε) (w : ℝ≥0∞)
    (hw : w = PMF.expect J (fun s => ENNReal.ofReal (sampledWeight data.rows (fun v k => ((s v).getD k 0).toNat)
        (fun v => tree.weight data a (data.row v)) i j))) :
    w ≤ ENNReal.ofReal (4 / 5 * ((1 + ε) / (1 - ε)) ^ (D + 1) * exp (-(a * sqDist (data.row i) (data.row j)))) ∧
    (tree.Whole data a (data.row i) j → tree.Whole data a (data.row j) i →
      ENNReal.ofReal (4 / 5 * ((1 - ε) / (1 + ε)) ^ (D + 1) * exp (-(a * sqDist (data.row i) (data.row j)))) ≤ w) := by
  have hE := C69_expected_weight data a est cutoff hn hc tree htree J hJ i j hi hj
  rw [← hw] at hE
  have e1 : 0 < 1 - ε := by linarith
  have e2 : 0 < 1 + ε := by linarith
  have hone : ∀ u v, v < data.rows → tree.Accurate data a (data.row u) ε →
      tree.weight data a (data.row u) * tree.rowProb data a (data.row u) v
        ≤ ((1 + ε) / (1 - ε)) ^ (D + 1) * kernelRow data a (data.row u) v ∧
      (tree.Whole data a (data.row u) v → ((1 - ε) / (1 + ε)) ^ (D + 1) * kernelRow data a (data.row u) v
        ≤ tree.weight data a (data.row u) * tree.rowProb data a (data.row u) v) := by
    intro u v hv hacc
    subst htree
    have hroot := hacc.root
    have hnn := rowProb_nonneg data a (data.row u) est cutoff 0 0 (data.rows - 1) 0 v (by omega) (by omega) h1 hacc
    obtain ⟨b1, b2⟩ := C69_accuracy data a (data.row u) est cutoff 0 0 (data.rows - 1) 0 v D (by omega) (by omega)
      (by omega) ε h0 h1 hacc
    have hS := kernelSum_pos data a (data.row u) 0 (data.rows - 1) (by omega)
    have hk := kernelRow_pos data a (data.row u) v
    constructor
    · calc _ ≤ ((1 + ε) * kernelSum data a (data.row u) 0 (data.rows - 1)) *
            (((1 + ε) / (1 - ε)) ^ D / (1 - ε) *
              (kernelRow data a (data.row u) v / kernelSum data a (data.row u) 0 (data.rows - 1))) :=
            mul_le_mul hroot.2 b1 hnn (by positivity)
        _ = _ := by
          rw [pow_succ]
          field_simp
    · intro hwh
      calc _ = ((1 - ε) * kernelSum data a (data.row u) 0 (data.rows - 1)) *
            (((1 - ε) / (1 + ε)) ^ D / (1 + ε) *
              (kernelRow data a (data.row u) v / kernelSum data a (data.row u) 0 (data.rows - 1))) := by
            rw [pow_succ]
            field_simp
        _ ≤ _ := mul_le_mul hroot.1 (b2 hwh) (by positivity) (le_trans (by positivity) hroot.1)
  have hker : kernelRow data a (data.row i) j = exp (-(a * sqDist (data.row i) (data.row j))) := rfl
  obtain ⟨x1, x2⟩ := hone i j hj hai
  obtain ⟨y1, y2⟩ := hone j i hi haj
  rw [← kernelRow_comm data a i j] at y1 y2
  rw [← hker, hE]
  constructor
  · exact ENNReal.ofReal_le_ofReal (by nlinarith)
  · intro z1 z2
    have := x2 z1
    have := y2 z2
    exact ENNReal.ofReal_le_ofReal (by nlinarith)

/-! ## Examples -/

/-- Three equal points: the first vertex draws rows 0 and 1 with probability one half each. -/
example (est : Nat → Nat → List ℝ → ℝ) :
    (KdeTree.build est 5000 0 0 2 0).rowProb ⟨3, 1, [7, 7, 7]⟩ 1 [7] 0 = 1 / 2 ∧
    (KdeTree.build est 5000 0 0 2 0).rowProb ⟨3, 1, [7, 7, 7]⟩ 1 [7] 1 = 1 / 2 ∧
    (KdeTree.build est 5000 0 0 2 0).rowProb ⟨3, 1, [7, 7, 7]⟩ 1 [7] 2 = 0 := by
  have hk : ∀ j, j < 3 → kernelRow ⟨3, 1, [7, 7, 7]⟩ 1 [7] j = 1 := by
    intro j hj
    have : j = 0 ∨ j = 1 ∨ j = 2 := by omega
    rcases this with rfl | rfl | rfl <;> simp [kernelRow, sqDist, Mat.row, Mat.coeff]
  have hB : ∀ j, j ≤ 3 → kernelBefore ⟨3, 1, [7, 7, 7]⟩ 1 [7] 0 j = j := by
    intro j hj
    unfold kernelBefore
    rw [Finset.sum_congr rfl (fun i hi => hk i (by rw [Finset.mem_Ico] at hi; omega))]
    simp
  have hW : (KdeTree.leaf 0 2).weight ⟨3, 1, [7, 7, 7]⟩ 1 [7] = 2 := by
    rw [C52_leaf_weight _ _ _ _ _ (by omega) (by simp), ← kernelBefore_all, hB 3 le_rfl]
    norm_num
  rw [KdeTree.build, if_neg (by omega)]
  simp only [KdeTree.rowProb, hW, kernelBelow]
  rw [hB 0 (by omega), hB (0 + 1) (by omega), hB (1 + 1) (by omega), hB (2 + 1) (by omega)]
  norm_num

/-- Independent samples for all vertices meet the hypothesis on the joint distribution. -/
example (data : Mat ℝ) (a : ℝ) (est : Nat → Nat → List ℝ → ℝ) (cutoff : Nat) (hn : 2 ≤ data.rows)
    (hc : data.rows ≤ cutoff) : ∃ J : PMF (Nat → List Int), ∀ v < data.rows, J.map (fun s => Outcome.ok (s v))
      = (KdeTree.build est cutoff 0 0 (data.rows - 1) 0).law data a (data.row v) 2 := by
  have h := fun v => C69_draws data a (data.row v) est cutoff 0 0 (data.rows - 1) 0 (by omega) (by omega)
    (.inl (by omega))
  choose p hp _ using h
  choose P hP _ using fun v => hp v 2
  refine ⟨independentSamples P data.rows, fun v hv => ?_⟩
  rw [hP v, ← independentSamples_marginal P data.rows v hv, PMF.map_comp]
  rfl

/-- Four points in two leaves of two points: every estimated weight is half of the kernel sum, so that the tree is
accurate with `ε = 1 / 2`. -/
example (data : Mat ℝ) (hd : data.rows = 4) (a : ℝ) (q : List ℝ) (est : Nat → Nat → List ℝ → ℝ) :
    (KdeTree.build est 2 0 0 3 0).Accurate data a q (1 / 2) := by
  have h1 := kernelSum_split data a q (lo := 0) (mid := 1) (hi := 3) (by omega) (by omega)
  have hl : ∀ lo, lo + 1 < 4 → (KdeTree.leaf lo (lo + 1)).weight data a q = 1 / 2 * kernelSum data a q lo (lo + 1) := by
    intro lo hlo
    rw [C52_leaf_weight data a q lo (lo + 1) (by omega) (by omega), Nat.add_sub_cancel_left]
    norm_num
  have p1 := kernelSum_pos data a q 0 1 (by omega)
  have p2 := kernelSum_pos data a q 2 3 (by omega)
  have w1 := hl 0 (by omega)
  have w2 := hl 2 (by omega)
  have b : KdeTree.build est 2 0 0 3 0 = .node 0 3 none (.leaf 0 1) (.leaf 2 3) := by
    rw [KdeTree.build, if_pos (by omega), if_neg (by simp)]
    congr 1
    · rw [KdeTree.build, if_neg (by omega)]
    · rw [KdeTree.build, if_neg (by omega)]
  rw [b, KdeTree.Accurate, KdeTree.Accurate, KdeTree.Accurate]
  have w3 : (KdeTree.node 0 3 none (.leaf 0 1) (.leaf 2 3)).weight data a q
      = (KdeTree.leaf 0 1).weight data a q + (KdeTree.leaf 2 3).weight data a q := rfl
  simp only [Nat.zero_add, Nat.reduceAdd] at w1 w2 h1
  rw [w3, w1, w2, h1]
  refine ⟨?_, ?_, ⟨?_, ?_⟩, ?_, ?_⟩ <;> linarith

end Stag
