import Verif.Props.Metrics
import Mathlib.Analysis.SpecialFunctions.Log.Base
import Mathlib.Algebra.BigOperators.Group.List.Basic

/-!
# C39: mutual information
-/

set_option linter.unusedSectionVars false

namespace Stag
open Finset

section spec
variable {α β : Type} [BEq α] [LawfulBEq α] [DecidableEq α] [BEq β] [LawfulBEq β] [DecidableEq β]

/-- A sum over the distinct entries weighted by multiplicity is the sum over all entries. -/
theorem sum_count_mul (l : List α) (f : α → ℝ) (S : Finset α) (h : ∀ x ∈ l, x ∈ S) :
    ∑ x ∈ S, (l.count x : ℝ) * f x = (l.map f).sum := by
  induction l with
  | nil => simp
  | cons a l ih =>
    have ha : a ∈ S := h a (by simp)
    rw [List.map_cons, List.sum_cons, ← ih (fun x hx => h x (List.mem_cons_of_mem _ hx))]
    rw [← Finset.add_sum_erase S _ ha, ← Finset.add_sum_erase S (fun x => (l.count x : ℝ) * f x) ha]
    rw [List.count_cons_self]
    have : ∑ x ∈ S.erase a, ((a :: l).count x : ℝ) * f x
        = ∑ x ∈ S.erase a, (l.count x : ℝ) * f x := by
      apply Finset.sum_congr rfl
      intro x hx
      rw [List.count_cons_of_ne (fun e => (Finset.mem_erase.1 hx).1 e.symm)]
    rw [this]; push_cast; ring

theorem count_pos_real {l : List α} {x : α} (h : x ∈ l) : (0 : ℝ) < l.count x := by
  exact_mod_cast List.count_pos_iff.2 h

theorem length_pos_real {l : List α} {x : α} (h : x ∈ l) : (0 : ℝ) < l.length := by
  exact_mod_cast List.length_pos_of_mem h

/-- The entropy as an average over the points. -/
theorem shannon_eq_points (l : List α) :
    shannon l = (l.map (fun x => Real.logb 2 ((l.length : ℝ) / (l.count x : ℝ)))).sum
      / (l.length : ℝ) := by
  rw [← sum_count_mul l _ l.toFinset (by simp), shannon, Finset.sum_div]
  apply Finset.sum_congr rfl
  intro x _
  unfold freq
  rw [one_div_div]; ring

theorem shannon_nonneg (l : List α) : 0 ≤ shannon l := by
  rw [shannon_eq_points]
  apply div_nonneg _ (by positivity)
  apply List.sum_nonneg
  intro y hy
  obtain ⟨x, hx, rfl⟩ := List.mem_map.1 hy
  apply Real.logb_nonneg (by norm_num)
  rw [one_le_div (count_pos_real hx)]
  exact_mod_cast List.count_le_length

theorem map_fst_zip' {l : List α} {m : List β} (h : l.length = m.length) :
    (l.zip m).map Prod.fst = l := List.map_fst_zip h.le

theorem map_snd_zip' {l : List α} {m : List β} (h : l.length = m.length) :
    (l.zip m).map Prod.snd = m := List.map_snd_zip h.ge

/-- The information which two clusterings share, cell by cell. -/
noncomputable def sharedInfo (l : List α) (m : List β) : ℝ :=
  ∑ p ∈ (l.zip m).toFinset, ((l.zip m).count p : ℝ) *
    Real.logb 2 (((l.length : ℝ) * ((l.zip m).count p : ℝ)) /
      ((l.count p.1 : ℝ) * (m.count p.2 : ℝ))) / (l.length : ℝ)

theorem sharedInfo_eq {l : List α} {m : List β} (h : l.length = m.length) :
    sharedInfo l m = shannon l + shannon m - shannon (l.zip m) := by
  have hz : (l.zip m).length = l.length := by simp [h]
  have e1 : shannon l = (((l.zip m).map
      (fun p => Real.logb 2 ((l.length : ℝ) / (l.count p.1 : ℝ)))).sum) / l.length := by
    rw [shannon_eq_points]
    conv => lhs; rw [← map_fst_zip' h]
    rw [List.map_map, map_fst_zip' h]
    rfl
  have e2 : shannon m = (((l.zip m).map
      (fun p => Real.logb 2 ((l.length : ℝ) / (m.count p.2 : ℝ)))).sum) / l.length := by
    rw [shannon_eq_points, ← h]
    conv => lhs; rw [← map_snd_zip' h]
    rw [List.map_map, map_snd_zip' h]
    rfl
  rw [e1, e2, shannon_eq_points (l.zip m), hz, ← sum_count_mul (l.zip m) _ _ (fun x => List.mem_toFinset.2),
    ← sum_count_mul (l.zip m) _ _ (fun x => List.mem_toFinset.2),
    ← sum_count_mul (l.zip m) _ _ (fun x => List.mem_toFinset.2), ← add_div, ← sub_div,
    ← Finset.sum_add_distrib, ← Finset.sum_sub_distrib, sharedInfo, Finset.sum_div]
  apply Finset.sum_congr rfl
  rintro ⟨a, b⟩ hp
  have hp := List.mem_toFinset.1 hp
  have hc := count_pos_real hp
  have ha := count_pos_real (List.of_mem_zip hp).1
  have hb := count_pos_real (List.of_mem_zip hp).2
  have hn := length_pos_real (List.of_mem_zip hp).1
  simp only []
  rw [Real.logb_div (by positivity) (by positivity), Real.logb_mul hn.ne' hc.ne',
    Real.logb_mul ha.ne' hb.ne', Real.logb_div hn.ne' ha.ne', Real.logb_div hn.ne' hb.ne',
    Real.logb_div hn.ne' hc.ne']
  ring

theorem sharedInfo_nonneg {l : List α} {m : List β} (h : l.length = m.length) :
    0 ≤ sharedInfo l m := by
  by_cases hl : l = []
  · subst hl; simp [sharedInfo]
  have hn : (0 : ℝ) < l.length := by exact_mod_cast List.length_pos_iff.2 hl
  have hz : (l.zip m).length = l.length := by simp [h]
  have hlog : 0 < Real.log 2 := Real.log_pos (by norm_num)
  have step : ∀ p ∈ (l.zip m).toFinset,
      ((l.zip m).count p / (l.length : ℝ) - (l.count p.1 : ℝ) * (m.count p.2 : ℝ) / (l.length : ℝ) ^ 2)
        / Real.log 2 ≤
      ((l.zip m).count p : ℝ) * Real.logb 2 (((l.length : ℝ) * ((l.zip m).count p : ℝ)) /
        ((l.count p.1 : ℝ) * (m.count p.2 : ℝ))) / (l.length : ℝ) := by
    rintro ⟨a, b⟩ hp
    have hp := List.mem_toFinset.1 hp
    have hc := count_pos_real hp
    have ha := count_pos_real (List.of_mem_zip hp).1
    have hb := count_pos_real (List.of_mem_zip hp).2
    simp only []
    generalize ((l.zip m).count (a, b) : ℝ) = c at *
    generalize (l.count a : ℝ) = x at *
    generalize (m.count b : ℝ) = y at *
    generalize (l.length : ℝ) = n at *
    have hk : Real.log (x * y / (n * c)) ≤ x * y / (n * c) - 1 :=
      Real.log_le_sub_one_of_pos (by positivity)
    have hinv : Real.log (n * c / (x * y)) = - Real.log (x * y / (n * c)) := by
      rw [← Real.log_inv, inv_div]
    rw [Real.logb, hinv, ← sub_nonneg]
    have : c * (-Real.log (x * y / (n * c)) / Real.log 2) / n
        - (c / n - x * y / n ^ 2) / Real.log 2
        = (c / n) * (x * y / (n * c) - 1 - Real.log (x * y / (n * c))) / Real.log 2 := by
      field_simp
      ring
    rw [this]
    apply div_nonneg (mul_nonneg (by positivity) (by linarith)) hlog.le
  refine le_trans ?_ (Finset.sum_le_sum step)
  rw [← Finset.sum_div]
  apply div_nonneg _ hlog.le
  rw [Finset.sum_sub_distrib, sub_nonneg]
  have s1 : ∑ p ∈ (l.zip m).toFinset, ((l.zip m).count p : ℝ) / (l.length : ℝ) = 1 := by
    rw [← Finset.sum_div]
    have := sum_count_mul (l.zip m) (fun _ => 1) (l.zip m).toFinset (fun x => List.mem_toFinset.2)
    simp only [mul_one] at this
    rw [this]
    simp only [List.map_const', List.sum_replicate, hz, nsmul_eq_mul, mul_one]
    exact div_self hn.ne'
  rw [s1]
  have cnt : ∀ {γ : Type} [BEq γ] [LawfulBEq γ] [DecidableEq γ] (k : List γ),
      ∑ x ∈ k.toFinset, (k.count x : ℝ) = k.length := by
    intro γ _ _ _ k
    have := sum_count_mul k (fun _ => 1) k.toFinset (fun x => List.mem_toFinset.2)
    simp only [mul_one] at this
    rw [this]; simp
  calc ∑ p ∈ (l.zip m).toFinset, (l.count p.1 : ℝ) * (m.count p.2 : ℝ) / (l.length : ℝ) ^ 2
      ≤ ∑ p ∈ l.toFinset ×ˢ m.toFinset, (l.count p.1 : ℝ) * (m.count p.2 : ℝ) / (l.length : ℝ) ^ 2 := by
        apply Finset.sum_le_sum_of_subset_of_nonneg
        · rintro ⟨a, b⟩ hp
          have hp := List.of_mem_zip (List.mem_toFinset.1 hp)
          exact Finset.mem_product.2 ⟨List.mem_toFinset.2 hp.1, List.mem_toFinset.2 hp.2⟩
        · intros; positivity
    _ = 1 := by
        rw [Finset.sum_product]
        simp only [← Finset.sum_div]
        rw [← Finset.sum_mul_sum, cnt, cnt, ← h]
        field_simp

theorem shannon_le_joint {l : List α} {m : List β} (h : l.length = m.length) :
    shannon m ≤ shannon (l.zip m) := by
  have hz : (l.zip m).length = l.length := by simp [h]
  have e2 : shannon m = (((l.zip m).map
      (fun p => Real.logb 2 ((l.length : ℝ) / (m.count p.2 : ℝ)))).sum) / l.length := by
    rw [shannon_eq_points, ← h]
    conv => lhs; rw [← map_snd_zip' h]
    rw [List.map_map, map_snd_zip' h]
    rfl
  rw [e2, shannon_eq_points (l.zip m), hz]
  apply div_le_div_of_nonneg_right _ (by positivity)
  apply List.sum_le_sum
  rintro ⟨a, b⟩ hp
  have hc := count_pos_real hp
  have hb := count_pos_real (List.of_mem_zip hp).2
  have hn := length_pos_real (List.of_mem_zip hp).1
  apply Real.logb_le_logb_of_le (by norm_num) (by positivity)
  apply div_le_div_of_nonneg_left hn.le hc
  exact_mod_cast count_zip_le_right l m a b

theorem shannon_map {l : List α} {f : α → β} (h : ∀ x ∈ l, ∀ y ∈ l, f x = f y → x = y) :
    shannon (l.map f) = shannon l := by
  rw [shannon_eq_points, shannon_eq_points, List.map_map, List.length_map]
  congr 2
  apply List.map_congr_left
  intro x hx
  simp only [Function.comp]
  rw [count_map_injOn f (fun y hy => h y hy x hx)]

theorem shannon_perm {l l' : List α} (h : l.Perm l') : shannon l = shannon l' := by
  rw [shannon_eq_points, shannon_eq_points, h.length_eq]
  congr 1
  have : l.map (fun x => Real.logb 2 ((l'.length : ℝ) / (l.count x : ℝ)))
      = l.map (fun x => Real.logb 2 ((l'.length : ℝ) / (l'.count x : ℝ))) :=
    List.map_congr_left (fun x _ => by rw [h.count_eq])
  rw [this]
  exact (h.map _).sum_eq

theorem shannon_zip_swap (l : List α) (m : List β) : shannon (m.zip l) = shannon (l.zip m) := by
  rw [← List.zip_swap l m]
  apply shannon_map
  rintro ⟨a, b⟩ - ⟨c, d⟩ - h
  simp only [Prod.swap_prod_mk, Prod.mk.injEq] at h ⊢
  exact ⟨h.2, h.1⟩

/-- Entropy vanishes only for a single cluster (or no points). -/
theorem shannon_eq_zero_iff (l : List α) : shannon l = 0 ↔ ∀ x ∈ l, ∀ y ∈ l, x = y := by
  constructor
  · intro h0 x hx y hy
    by_contra hne
    have hn := length_pos_real hx
    rw [shannon_eq_points, div_eq_zero_iff] at h0
    have hs := h0.resolve_right hn.ne'
    have nn : ∀ z ∈ l, 0 ≤ Real.logb 2 ((l.length : ℝ) / (l.count z : ℝ)) := by
      intro z hz
      apply Real.logb_nonneg (by norm_num)
      rw [one_le_div (count_pos_real hz)]
      exact_mod_cast List.count_le_length
    have hz : Real.logb 2 ((l.length : ℝ) / (l.count x : ℝ)) = 0 := by
      refine le_antisymm ?_ (nn x hx)
      rw [← hs]
      refine List.single_le_sum ?_ _ (List.mem_map.2 ⟨x, hx, rfl⟩)
      intro v hv
      obtain ⟨z, hz, rfl⟩ := List.mem_map.1 hv
      exact nn z hz
    have hlt : (l.count x : ℝ) < l.length := by
      have h1 := List.count_le_length (a := x) (l := l)
      have h2 : l.count x ≠ l.length := fun e => hne (List.count_eq_length.1 e y hy)
      exact_mod_cast lt_of_le_of_ne h1 h2
    have : 0 < Real.logb 2 ((l.length : ℝ) / (l.count x : ℝ)) := by
      apply Real.logb_pos (by norm_num)
      rw [one_lt_div (count_pos_real hx)]
      exact hlt
    linarith
  · intro h
    rw [shannon_eq_points]
    have : l.map (fun x => Real.logb 2 ((l.length : ℝ) / (l.count x : ℝ))) = l.map (fun _ => 0) := by
      apply List.map_congr_left
      intro x hx
      rw [List.count_eq_length.2 (fun y hy => h x hx y hy), div_self (length_pos_real hx).ne']
      simp
    rw [this]; simp

end spec

/-! ## The API -/

theorem sum_map_range (f : Nat → ℝ) (k : Nat) :
    ((List.range k).map f).sum = ∑ i ∈ range k, f i := rfl

/-- **C39 (entropy).** Whatever order the hash table is iterated in, the entropy the library computes
is the Shannon entropy, in bits, of the cluster sizes. -/
theorem C39_entropy {order l : List Int} (ho : order.Nodup) (hk : ∀ x, x ∈ order ↔ x ∈ l) :
    entropy order l = shannon l := by
  unfold entropy
  rw [← List.sum_toFinset _ ho, shannon]
  have : order.toFinset = l.toFinset := by ext x; simp [hk]
  rw [this]
  apply Finset.sum_congr rfl
  intro x hx
  have hx := List.mem_toFinset.1 hx
  have hc : 0 < clusterSizes l x := by
    rw [clusterSizes_eq]; exact_mod_cast List.count_pos_iff.2 hx
  rw [if_pos hc, clusterSizes_eq]
  unfold freq
  rw [one_div_div]
  push_cast
  rfl

theorem mutualInformation_eq {gt lab : List Int} (h : Clusterings gt lab) :
    mutualInformation gt lab = .ok (sharedInfo gt lab) := by
  obtain ⟨k, t, e, hgk, hlk, ht⟩ := contingencyTable_ok h.length_eq h.gt_nonneg h.lab_nonneg
  unfold mutualInformation
  simp only []
  rw [e, Outcome.bind_ok]
  simp only [Int.toNat_natCast, sum_map_range]
  congr 1
  rw [← Finset.sum_product']
  set F : Int × Int → ℝ := fun p =>
    if 0 < (gt.zip lab).count p then ((gt.zip lab).count p : ℝ) *
    Real.logb 2 (((gt.length : ℝ) * ((gt.zip lab).count p : ℝ)) /
      ((gt.count p.1 : ℝ) * (lab.count p.2 : ℝ))) / (gt.length : ℝ) else 0 with hF
  set c : Nat × Nat → Int × Int := fun p => ((p.1 : Int), (p.2 : Int)) with hc
  have inj : Set.InjOn c (range k ×ˢ range k : Finset (Nat × Nat)) := by
    rintro ⟨a, b⟩ _ ⟨x, y⟩ _ hh
    simp only [hc, Prod.mk.injEq, Nat.cast_inj] at hh ⊢
    exact hh
  have e1 : ∑ p ∈ range k ×ˢ range k, F (c p) = ∑ q ∈ (range k ×ˢ range k).image c, F q :=
    (Finset.sum_image inj).symm
  have e2 : ∑ q ∈ (range k ×ˢ range k).image c, F q = ∑ q ∈ (gt.zip lab).toFinset, F q := by
    symm
    apply Finset.sum_subset
    · rintro ⟨x, y⟩ hp
      obtain ⟨h1, h2⟩ := List.of_mem_zip (List.mem_toFinset.1 hp)
      have a1 := h.gt_nonneg x h1
      have a2 := hgk x h1
      have a3 := h.lab_nonneg y h2
      have a4 := hlk y h2
      rw [Finset.mem_image]
      refine ⟨(x.toNat, y.toNat), ?_, ?_⟩
      · simp only [Finset.mem_product, Finset.mem_range]; omega
      · simp only [hc, Prod.mk.injEq]; omega
    · intro q _ hq
      rw [hF]
      simp only []
      rw [if_neg]
      intro hpos
      exact hq (List.mem_toFinset.2 (List.count_pos_iff.1 hpos))
  rw [show sharedInfo gt lab = ∑ q ∈ (gt.zip lab).toFinset, F q from ?_, ← e2, ← e1]
  · apply Finset.sum_congr rfl
    rintro ⟨a, b⟩ _
    simp only [hF, hc, ht, clusterSizes_eq]
    by_cases hpos : 0 < (gt.zip lab).count ((a : Int), (b : Int))
    · rw [if_pos hpos, if_pos (by exact_mod_cast hpos), h.length_eq]
      push_cast
      ring
    · rw [if_neg hpos, if_neg (by exact_mod_cast hpos)]
  · unfold sharedInfo
    apply Finset.sum_congr rfl
    intro q hq
    rw [hF]
    simp only []
    rw [if_pos (List.count_pos_iff.2 (List.mem_toFinset.1 hq))]

/-- **C39 (errors).** -/
theorem C39_errors {gt lab : List Int} (o1 o2 : List Int)
    (h : gt.length ≠ lab.length ∨ (∃ x ∈ gt, x < 0) ∨ ∃ x ∈ lab, x < 0) :
    mutualInformation gt lab = .throw .invalidArgument ∧
    normalisedMutualInformation o1 o2 gt lab = .throw .invalidArgument := by
  have : mutualInformation gt lab = .throw .invalidArgument := by
    unfold mutualInformation
    simp only []
    rw [contingencyTable_bad h]; rfl
  refine ⟨this, ?_⟩
  unfold normalisedMutualInformation
  rw [this]; rfl

/-- **C39 (value).** The mutual information is `H(a) + H(b) - H(a, b)`. -/
theorem C39_value {gt lab : List Int} (h : Clusterings gt lab) :
    mutualInformation gt lab = .ok (shannon gt + shannon lab - shannon (gt.zip lab)) := by
  rw [mutualInformation_eq h, sharedInfo_eq h.length_eq]

/-- **C39 (symmetry).** -/
theorem C39_symmetric (gt lab : List Int) :
    mutualInformation lab gt = mutualInformation gt lab := by
  by_cases hc : gt.length ≠ lab.length ∨ (∃ x ∈ gt, x < 0) ∨ ∃ x ∈ lab, x < 0
  · rw [(C39_errors [] [] hc).1, (C39_errors [] [] _).1]
    rcases hc with h | h | h
    · exact .inl (fun e => h e.symm)
    · exact .inr (.inr h)
    · exact .inr (.inl h)
  push Not at hc
  rw [C39_value ⟨hc.1, hc.2.1, hc.2.2⟩, C39_value ⟨hc.1.symm, hc.2.2, hc.2.1⟩,
    shannon_zip_swap, add_comm (shannon lab)]

/-- **C39 (bounds).** Mutual information is non-negative and at most the entropy of either
clustering. -/
theorem C39_bounds {gt lab : List Int} {x : ℝ} (h : mutualInformation gt lab = .ok x) :
    0 ≤ x ∧ x ≤ shannon gt ∧ x ≤ shannon lab := by
  by_cases hc : gt.length ≠ lab.length ∨ (∃ x ∈ gt, x < 0) ∨ ∃ x ∈ lab, x < 0
  · rw [(C39_errors [] [] hc).1] at h; cases h
  push Not at hc
  have hcl : Clusterings gt lab := ⟨hc.1, hc.2.1, hc.2.2⟩
  have h0 := sharedInfo_nonneg hcl.length_eq
  rw [sharedInfo_eq hcl.length_eq] at h0
  rw [C39_value hcl] at h
  have hx := Outcome.ok.inj h
  have h1 := shannon_le_joint hcl.length_eq
  have h2 := shannon_le_joint hcl.length_eq.symm
  rw [shannon_zip_swap] at h2
  exact ⟨by linarith, by linarith, by linarith⟩

/-- **C39 (renaming).** Renaming the clusters of either side changes nothing. -/
theorem C39_rename {gt lab : List Int} (h : Clusterings gt lab) {f g : Int → Int}
    (hf : ∀ x ∈ gt, ∀ y ∈ gt, f x = f y → x = y) (hg : ∀ x ∈ lab, ∀ y ∈ lab, g x = g y → x = y)
    (hf0 : ∀ x ∈ gt, 0 ≤ f x) (hg0 : ∀ x ∈ lab, 0 ≤ g x) :
    mutualInformation (gt.map f) (lab.map g) = mutualInformation gt lab := by
  have h' : Clusterings (gt.map f) (lab.map g) :=
    ⟨by simp [h.length_eq], by simpa using hf0, by simpa using hg0⟩
  rw [C39_value h, C39_value h', shannon_map hf, shannon_map hg, List.zip_map, shannon_map]
  rintro ⟨a, b⟩ hp ⟨c, d⟩ hq e
  simp only [Prod.map_apply, Prod.mk.injEq] at e ⊢
  exact ⟨hf a (List.of_mem_zip hp).1 c (List.of_mem_zip hq).1 e.1,
    hg b (List.of_mem_zip hp).2 d (List.of_mem_zip hq).2 e.2⟩

/-- **C39 (order of the points).** -/
theorem C39_permute {gt lab gt' lab' : List Int} (h : gt.length = lab.length)
    (h' : gt'.length = lab'.length) (hp : (gt.zip lab).Perm (gt'.zip lab')) :
    mutualInformation gt lab = mutualInformation gt' lab' := by
  have p1 : gt.Perm gt' := by
    have := hp.map Prod.fst
    rwa [List.map_fst_zip h.le, List.map_fst_zip h'.le] at this
  have p2 : lab.Perm lab' := by
    have := hp.map Prod.snd
    rwa [List.map_snd_zip h.ge, List.map_snd_zip h'.ge] at this
  by_cases hc : (∃ x ∈ gt, x < 0) ∨ ∃ x ∈ lab, x < 0
  · rw [(C39_errors [] [] (.inr hc)).1, (C39_errors [] [] (.inr _)).1]
    rcases hc with ⟨x, hx, hn⟩ | ⟨x, hx, hn⟩
    · exact .inl ⟨x, p1.subset hx, hn⟩
    · exact .inr ⟨x, p2.subset hx, hn⟩
  push Not at hc
  rw [C39_value ⟨h, hc.1, hc.2⟩, C39_value ⟨h', fun x hx => hc.1 x (p1.symm.subset hx),
    fun x hx => hc.2 x (p2.symm.subset hx)⟩, shannon_perm p1, shannon_perm p2, shannon_perm hp]

/-- `order` is an iteration order of the hash table of cluster sizes of `l`. -/
def MapOrder (order l : List Int) : Prop := order.Nodup ∧ ∀ x, x ∈ order ↔ x ∈ l

/-- **C39 (normalised: undefined).** If both clusterings have at most one cluster the normalised
mutual information is NaN. -/
theorem C39_normalised_nan {gt lab o1 o2 : List Int} (h : Clusterings gt lab)
    (ho1 : MapOrder o1 gt) (ho2 : MapOrder o2 lab)
    (h1 : ∀ x ∈ gt, ∀ y ∈ gt, x = y) (h2 : ∀ x ∈ lab, ∀ y ∈ lab, x = y) :
    normalisedMutualInformation o1 o2 gt lab = .ok .nan := by
  unfold normalisedMutualInformation
  rw [C39_value h, Outcome.bind_ok, C39_entropy ho1.1 ho1.2, C39_entropy ho2.1 ho2.2,
    (shannon_eq_zero_iff gt).2 h1, (shannon_eq_zero_iff lab).2 h2,
    (shannon_eq_zero_iff (gt.zip lab)).2 (zip_same_of_const h1 h2),
    XReal.div_zero_zero (by simp) (by simp)]

/-- **C39 (normalised).** Otherwise it is the mutual information divided by the mean of the two
entropies, and lies between `0` and `1`. -/
theorem C39_normalised {gt lab o1 o2 : List Int} (h : Clusterings gt lab)
    (ho1 : MapOrder o1 gt) (ho2 : MapOrder o2 lab)
    (hne : ¬ ((∀ x ∈ gt, ∀ y ∈ gt, x = y) ∧ ∀ x ∈ lab, ∀ y ∈ lab, x = y)) :
    ∃ x : ℝ, normalisedMutualInformation o1 o2 gt lab = .ok (.fin x) ∧
      x = (shannon gt + shannon lab - shannon (gt.zip lab)) / ((shannon gt + shannon lab) / 2) ∧
      0 ≤ x ∧ x ≤ 1 := by
  obtain ⟨b0, b1, b2⟩ := C39_bounds (C39_value h)
  have n1 := shannon_nonneg gt
  have n2 := shannon_nonneg lab
  have hpos : 0 < (shannon gt + shannon lab) / 2 := by
    by_contra hcon
    apply hne
    exact ⟨(shannon_eq_zero_iff gt).1 (by linarith), (shannon_eq_zero_iff lab).1 (by linarith)⟩
  refine ⟨_, ?_, rfl, div_nonneg b0 hpos.le, ?_⟩
  · unfold normalisedMutualInformation
    rw [C39_value h, Outcome.bind_ok, C39_entropy ho1.1 ho1.2, C39_entropy ho2.1 ho2.2,
      XReal.div_fin _ hpos.ne']
  · rw [div_le_one hpos]; linarith

/-- **C39 (normalised: symmetry).** -/
theorem C39_normalised_symmetric {gt lab o1 o2 : List Int} (ho1 : MapOrder o1 gt)
    (ho2 : MapOrder o2 lab) :
    normalisedMutualInformation o2 o1 lab gt = normalisedMutualInformation o1 o2 gt lab := by
  unfold normalisedMutualInformation
  rw [C39_symmetric, C39_entropy ho1.1 ho1.2, C39_entropy ho2.1 ho2.2, add_comm (shannon lab)]

/-- **C39 (normalised: self).** A clustering with at least two clusters has normalised mutual
information `1` with itself. -/
theorem C39_normalised_self {a o1 o2 : List Int} (h0 : ∀ x ∈ a, 0 ≤ x)
    (ho1 : MapOrder o1 a) (ho2 : MapOrder o2 a) (hne : ∃ x ∈ a, ∃ y ∈ a, x ≠ y) :
    normalisedMutualInformation o1 o2 a a = .ok (.fin 1) := by
  have hne' : ¬ ((∀ x ∈ a, ∀ y ∈ a, x = y) ∧ ∀ x ∈ a, ∀ y ∈ a, x = y) := by
    rintro ⟨h, -⟩
    obtain ⟨x, hx, y, hy, hxy⟩ := hne
    exact hxy (h x hx y hy)
  obtain ⟨x, e, ex, -, -⟩ := C39_normalised ⟨rfl, h0, h0⟩ ho1 ho2 hne'
  rw [e, ex]
  have e2 : shannon (a.zip a) = shannon a := by
    rw [zip_self_map, shannon_map]
    intro x _ y _ h
    exact (Prod.mk.inj h).1
  have hs : shannon a ≠ 0 := fun e => hne' ⟨(shannon_eq_zero_iff a).1 e, (shannon_eq_zero_iff a).1 e⟩
  rw [e2]
  congr 2
  field_simp
  ring

example : MapOrder [2, 0, 1] [0, 0, 1, 1, 2] := by
  refine ⟨by decide, fun x => ?_⟩
  simp only [List.mem_cons, List.not_mem_nil, or_false]
  omega

end Stag
