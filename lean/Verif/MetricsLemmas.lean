import Verif.Metrics
import Verif.Spec.Clusterings
import Mathlib.Algebra.BigOperators.Group.Finset.Basic
import Mathlib.Algebra.BigOperators.Ring.Finset
import Mathlib.Algebra.Order.BigOperators.Group.Finset
import Mathlib.Data.Nat.Choose.Basic
import Mathlib.Tactic.Ring
import Mathlib.Tactic.Linarith
import Mathlib.Tactic.Positivity
import Mathlib.Tactic.FieldSimp

/-!
# Lemmas about the model of the clustering metrics
-/

set_option linter.unusedSectionVars false

namespace Stag
open Finset

theorem XReal.div_fin {K : Type} [Field K] [LinearOrder K] (a : K) {b : K} (h : b ≠ 0) :
    XReal.div (.fin a) (.fin b) = .fin (a / b) := if_pos h

theorem XReal.div_zero_zero {K : Type} [Field K] [LinearOrder K] {a b : K} (ha : a = 0)
    (hb : b = 0) : XReal.div (.fin a) (.fin b) = .nan := by
  subst ha hb; simp [XReal.div]

theorem XReal.fin_sub {K : Type} [Field K] [LinearOrder K] (a b : K) :
    XReal.fin a - XReal.fin b = XReal.fin (a - b) := by
  rw [sub_eq_add_neg]; rfl

theorem foldl_tally (ps : List (Int × Int)) (t : Int → Int → Int) (i j : Int) :
    ps.foldl tally t i j = t i j + (ps.count (i, j) : Int) := by
  induction ps generalizing t with
  | nil => simp
  | cons p ps ih =>
    rw [List.foldl_cons, ih]
    obtain ⟨a, b⟩ := p
    simp only [tally, List.count_cons, beq_iff_eq, Prod.mk.injEq]
    by_cases h : i = a ∧ j = b
    · rw [if_pos h, if_pos ⟨h.1.symm, h.2.symm⟩]; push_cast; ring
    · rw [if_neg h, if_neg (fun h' => h ⟨h'.1.symm, h'.2.symm⟩)]; push_cast; ring

theorem foldl_sizes (l : List Int) (m : Int → Int) (i : Int) :
    l.foldl (fun m x => fun i => if i = x then m i + 1 else m i) m i
      = m i + (l.count i : Int) := by
  induction l generalizing m with
  | nil => simp
  | cons x l ih =>
    rw [List.foldl_cons, ih]
    simp only [List.count_cons, beq_iff_eq]
    by_cases h : i = x
    · rw [if_pos h, if_pos h.symm]; push_cast; ring
    · rw [if_neg h, if_neg (fun h' => h h'.symm)]; push_cast; ring

theorem clusterSizes_eq (l : List Int) (i : Int) : clusterSizes l i = (l.count i : Int) := by
  rw [clusterSizes, foldl_sizes]; simp

theorem labelLoop_neg {ls : List Int} (k : Int) (h : ∃ l ∈ ls, l < 0) :
    labelLoop ls k = .throw .invalidArgument := by
  induction ls generalizing k with
  | nil => simp at h
  | cons a ls ih =>
    unfold labelLoop
    by_cases ha : a < 0
    · rw [if_pos ha]
    · rw [if_neg ha]
      apply ih
      obtain ⟨l, hl, hn⟩ := h
      rcases List.mem_cons.1 hl with rfl | hl
      · exact absurd hn ha
      · exact ⟨l, hl, hn⟩

theorem labelLoop_ok {ls : List Int} (k : Int) (h : ∀ l ∈ ls, 0 ≤ l) :
    ∃ k', labelLoop ls k = .ok k' ∧ k ≤ k' ∧ ∀ l ∈ ls, l < k' := by
  induction ls generalizing k with
  | nil => exact ⟨k, rfl, le_refl _, by simp⟩
  | cons a ls ih =>
    unfold labelLoop
    rw [if_neg (not_lt.2 (h a (by simp)))]
    obtain ⟨k', h1, h2, h3⟩ := ih (if k - 1 < a then a + 1 else k)
      (fun l hl => h l (List.mem_cons_of_mem _ hl))
    refine ⟨k', h1, ?_, ?_⟩
    · split_ifs at h2 <;> omega
    · intro l hl
      rcases List.mem_cons.1 hl with rfl | hl
      · split_ifs at h2 <;> omega
      · exact h3 l hl

theorem contingencyTable_ok {gt lab : List Int} (hlen : gt.length = lab.length)
    (hg : ∀ x ∈ gt, 0 ≤ x) (hl : ∀ x ∈ lab, 0 ≤ x) :
    ∃ (k : Nat) (t : Int → Int → Int), contingencyTable gt lab = .ok ((k : Int), t) ∧
      (∀ x ∈ gt, x < k) ∧ (∀ x ∈ lab, x < k) ∧
      ∀ i j, t i j = ((gt.zip lab).count (i, j) : Int) := by
  obtain ⟨k1, e1, h1, h1'⟩ := labelLoop_ok 1 hg
  obtain ⟨k2, e2, h2, h2'⟩ := labelLoop_ok k1 hl
  refine ⟨k2.toNat, (gt.zip lab).foldl tally (fun _ _ => 0), ?_, ?_, ?_, ?_⟩
  · unfold contingencyTable
    rw [if_neg (by simp [hlen]), e1, Outcome.bind_ok, e2, Outcome.bind_ok]
    rw [Int.toNat_of_nonneg (by omega)]
  · intro x hx; have := h1' x hx; omega
  · intro x hx; have := h2' x hx; omega
  · intro i j; rw [foldl_tally]; simp

theorem contingencyTable_bad {gt lab : List Int}
    (h : gt.length ≠ lab.length ∨ (∃ x ∈ gt, x < 0) ∨ ∃ x ∈ lab, x < 0) :
    contingencyTable gt lab = .throw .invalidArgument := by
  unfold contingencyTable
  by_cases hlen : lab.length ≠ gt.length
  · rw [if_pos hlen]
  rw [if_neg hlen]
  by_cases hg : ∃ x ∈ gt, x < 0
  · rw [labelLoop_neg 1 hg]; rfl
  · push Not at hg
    obtain ⟨k1, e1, -, -⟩ := labelLoop_ok 1 hg
    rw [e1, Outcome.bind_ok]
    have hl : ∃ x ∈ lab, x < 0 := by
      rcases h with h | h | h
      · exact absurd (fun e => h e.symm) hlen
      · obtain ⟨x, hx, hn⟩ := h; exact absurd (hg x hx) (by omega)
      · exact h
    rw [labelLoop_neg k1 hl]; rfl

theorem sumLoop_ok {f : Int → Outcome Int} {g : Nat → Int} {k : Nat}
    (h : ∀ i < k, f (i : Int) = .ok (g i)) :
    sumLoop f k = .ok (∑ i ∈ range k, g i) := by
  have key : ∀ l : List Nat, (∀ i ∈ l, f (i : Int) = .ok (g i)) →
      Outcome.mapM' (fun i : Nat => f (i : Int)) l = .ok (l.map g) := by
    intro l hl
    induction l with
    | nil => rfl
    | cons a l ih =>
      rw [Outcome.mapM', hl a (by simp), Outcome.bind_ok,
        ih (fun i hi => hl i (List.mem_cons_of_mem _ hi))]
      rfl
  unfold sumLoop
  rw [key _ (fun i hi => h i (List.mem_range.1 hi)), Outcome.bind_ok]
  congr 1

theorem nChoose2_nat (m : Nat) : nChoose2 (m : Int) = .ok ((m.choose 2 : Nat) : Int) := by
  unfold nChoose2
  rw [if_neg (by omega)]
  by_cases h : (m : Int) < 2
  · rw [if_pos h]
    have : m = 0 ∨ m = 1 := by omega
    rcases this with rfl | rfl <;> rfl
  · rw [if_neg h, Nat.choose_two_right]
    have : ((m : Int) - 1) = ((m - 1 : Nat) : Int) := by omega
    rw [this]; push_cast; rfl

section pairs
variable {α β : Type} [BEq α] [LawfulBEq α] [DecidableEq α] [BEq β] [LawfulBEq β] [DecidableEq β]

theorem numPairs_eq (n : Nat) : numPairs n = n.choose 2 := by
  induction n with
  | zero => rfl
  | succ n ih => rw [numPairs, ih, Nat.choose_succ_succ' n 1, Nat.choose_one_right]

theorem sum_choose_count (l : List α) (S : Finset α) (h : ∀ x ∈ l, x ∈ S) :
    ∑ x ∈ S, (l.count x).choose 2 = equalPairs l := by
  induction l with
  | nil => simp [equalPairs]
  | cons a l ih =>
    have ha : a ∈ S := h a (by simp)
    rw [equalPairs, ← ih (fun x hx => h x (List.mem_cons_of_mem _ hx))]
    rw [← Finset.add_sum_erase S _ ha, ← Finset.add_sum_erase S (fun x => (l.count x).choose 2) ha]
    rw [List.count_cons_self, Nat.choose_succ_succ' (l.count a) 1, Nat.choose_one_right, add_assoc]
    congr 2
    apply Finset.sum_congr rfl
    intro x hx
    rw [List.count_cons_of_ne (fun e => (Finset.mem_erase.1 hx).1 e.symm)]

theorem sum_choose_count_inj {ι : Type} (l : List α) (T : Finset ι) (f : ι → α)
    (hf : Set.InjOn f T) (h : ∀ x ∈ l, ∃ i ∈ T, f i = x) :
    ∑ i ∈ T, (l.count (f i)).choose 2 = equalPairs l := by
  rw [← sum_choose_count l (T.image f)
    (fun x hx => by obtain ⟨i, hi, e⟩ := h x hx; exact Finset.mem_image.2 ⟨i, hi, e⟩)]
  rw [Finset.sum_image hf]

theorem equalPairs_perm {l l' : List α} (h : l.Perm l') : equalPairs l = equalPairs l' := by
  rw [← sum_choose_count l l.toFinset (by simp),
    ← sum_choose_count l' l.toFinset (fun x hx => by simpa using h.symm.subset hx)]
  exact Finset.sum_congr rfl (fun x _ => by rw [h.count_eq])

theorem count_map_injOn (f : α → β) {l : List α} {a : α}
    (h : ∀ x ∈ l, f x = f a → x = a) : (l.map f).count (f a) = l.count a := by
  induction l with
  | nil => rfl
  | cons b l ih =>
    rw [List.map_cons, List.count_cons, List.count_cons,
      ih (fun x hx => h x (List.mem_cons_of_mem _ hx))]
    congr 1
    by_cases e : b = a
    · simp [e]
    · have : f b ≠ f a := fun e' => e (h b (by simp) e')
      simp [e, this]

theorem equalPairs_map {l : List α} {f : α → β}
    (h : ∀ x ∈ l, ∀ y ∈ l, f x = f y → x = y) : equalPairs (l.map f) = equalPairs l := by
  induction l with
  | nil => rfl
  | cons a l ih =>
    rw [List.map_cons, equalPairs, equalPairs]
    rw [ih (fun x hx y hy => h x (List.mem_cons_of_mem _ hx) y (List.mem_cons_of_mem _ hy)),
      count_map_injOn f (fun x hx => h x (List.mem_cons_of_mem _ hx) a (by simp))]

theorem equalPairs_le (l : List α) : equalPairs l ≤ numPairs l.length := by
  induction l with
  | nil => simp [equalPairs, numPairs]
  | cons a l ih =>
    rw [equalPairs, List.length_cons, numPairs]
    have := List.count_le_length (a := a) (l := l)
    omega

theorem count_zip_le_left (l : List α) (m : List β) (a : α) (b : β) :
    (l.zip m).count (a, b) ≤ l.count a := by
  induction l generalizing m with
  | nil => simp
  | cons x l ih =>
    cases m with
    | nil => simp
    | cons y m =>
      rw [List.zip_cons_cons, List.count_cons, List.count_cons]
      have := ih m
      by_cases h : x = a
      · subst h
        by_cases h' : y = b <;> simp [h'] <;> omega
      · simp [h]; omega

theorem count_zip_le_right (l : List α) (m : List β) (a : α) (b : β) :
    (l.zip m).count (a, b) ≤ m.count b := by
  induction l generalizing m with
  | nil => simp
  | cons x l ih =>
    cases m with
    | nil => simp
    | cons y m =>
      rw [List.zip_cons_cons, List.count_cons, List.count_cons]
      have := ih m
      by_cases h : y = b
      · subst h
        by_cases h' : x = a <;> simp [h'] <;> omega
      · simp [h]; omega

theorem count_zip_ge (l : List α) (m : List β) (hlen : l.length = m.length) (a : α) (b : β) :
    l.count a + m.count b ≤ (l.zip m).count (a, b) + l.length := by
  induction l generalizing m with
  | nil => cases m <;> simp_all
  | cons x l ih =>
    cases m with
    | nil => simp at hlen
    | cons y m =>
      have := ih m (by simpa using hlen)
      rw [List.zip_cons_cons, List.count_cons, List.count_cons, List.count_cons, List.length_cons]
      by_cases h : x = a <;> by_cases h' : y = b <;> simp [h, h'] <;> omega

theorem equalPairs_zip_le_left (l : List α) (m : List β) :
    equalPairs (l.zip m) ≤ equalPairs l := by
  induction l generalizing m with
  | nil => simp [equalPairs]
  | cons x l ih =>
    cases m with
    | nil => simp [equalPairs]
    | cons y m =>
      rw [List.zip_cons_cons, equalPairs, equalPairs]
      have := ih m
      have := count_zip_le_left l m x y
      omega

theorem equalPairs_zip_le_right (l : List α) (m : List β) :
    equalPairs (l.zip m) ≤ equalPairs m := by
  induction l generalizing m with
  | nil => simp [equalPairs]
  | cons x l ih =>
    cases m with
    | nil => simp [equalPairs]
    | cons y m =>
      rw [List.zip_cons_cons, equalPairs, equalPairs]
      have := ih m
      have := count_zip_le_right l m x y
      omega

theorem equalPairs_zip_ge (l : List α) (m : List β) (hlen : l.length = m.length) :
    equalPairs l + equalPairs m ≤ equalPairs (l.zip m) + numPairs l.length := by
  induction l generalizing m with
  | nil => cases m <;> simp_all [equalPairs]
  | cons x l ih =>
    cases m with
    | nil => simp at hlen
    | cons y m =>
      have hl : l.length = m.length := by simpa using hlen
      have := ih m hl
      have := count_zip_ge l m hl x y
      rw [List.zip_cons_cons, equalPairs, equalPairs, equalPairs, List.length_cons, numPairs]
      omega

theorem zip_self_map (l : List α) : l.zip l = l.map (fun x => (x, x)) := by
  induction l with
  | nil => rfl
  | cons a l ih => simp [ih]

theorem equalPairs_zip_swap (l : List α) (m : List β) :
    equalPairs (m.zip l) = equalPairs (l.zip m) := by
  rw [← List.zip_swap l m]
  apply equalPairs_map
  rintro ⟨a, b⟩ - ⟨c, d⟩ - h
  simp only [Prod.swap_prod_mk, Prod.mk.injEq] at h ⊢
  exact ⟨h.2, h.1⟩

/-- All entries equal is the same as all pairs being equal. -/
theorem equalPairs_eq_numPairs_iff (l : List α) :
    equalPairs l = numPairs l.length ↔ ∀ x ∈ l, ∀ y ∈ l, x = y := by
  induction l with
  | nil => simp [equalPairs, numPairs]
  | cons a l ih =>
    rw [equalPairs, List.length_cons, numPairs]
    have h1 := List.count_le_length (a := a) (l := l)
    have h2 := equalPairs_le l
    constructor
    · intro h
      have hc : l.count a = l.length := by omega
      have := List.count_eq_length.1 hc
      intro x hx y hy
      have hh : ∀ z ∈ a :: l, z = a := by
        intro z hz
        rcases List.mem_cons.1 hz with rfl | hz
        · rfl
        · exact (this z hz).symm
      rw [hh x hx, hh y hy]
    · intro h
      have hc : l.count a = l.length :=
        List.count_eq_length.2 (fun b hb => h a (by simp) b (List.mem_cons_of_mem _ hb))
      have := ih.2 (fun x hx y hy => h x (List.mem_cons_of_mem _ hx) y (List.mem_cons_of_mem _ hy))
      omega

/-- No two entries equal is the same as no pair being equal. -/
theorem equalPairs_eq_zero_iff (l : List α) : equalPairs l = 0 ↔ l.Nodup := by
  induction l with
  | nil => simp [equalPairs]
  | cons a l ih =>
    rw [equalPairs, List.nodup_cons, ← ih, Nat.add_eq_zero_iff, List.count_eq_zero]

end pairs

theorem intCast_range_injOn (k : Nat) : Set.InjOn (fun i : Nat => (i : Int)) (range k) := by
  intro a _ b _ h
  have h' : (a : Int) = (b : Int) := h
  exact_mod_cast h'

theorem ariCounts_eq {gt lab : List Int} (hlen : gt.length = lab.length)
    (hg : ∀ x ∈ gt, 0 ≤ x) (hl : ∀ x ∈ lab, 0 ≤ x) :
    ariCounts gt lab = .ok ((equalPairs (gt.zip lab) : Nat), (equalPairs gt : Nat),
      (equalPairs lab : Nat), (numPairs gt.length : Nat)) := by
  obtain ⟨k, t, e, hgk, hlk, ht⟩ := contingencyTable_ok hlen hg hl
  unfold ariCounts
  simp only []
  rw [e, Outcome.bind_ok]
  simp only [Int.toNat_natCast]
  rw [sumLoop_ok (g := fun i => ∑ j ∈ range k,
      (((gt.zip lab).count ((i : Int), (j : Int))).choose 2 : Nat)) (by
    intro i _
    rw [sumLoop_ok (g := fun j => (((gt.zip lab).count ((i : Int), (j : Int))).choose 2 : Nat))]
    intro j _
    rw [ht, nChoose2_nat])]
  rw [Outcome.bind_ok, sumLoop_ok (g := fun i => ((gt.count (i : Int)).choose 2 : Nat)) (by
    intro i _; rw [clusterSizes_eq, nChoose2_nat])]
  rw [Outcome.bind_ok, sumLoop_ok (g := fun i => ((lab.count (i : Int)).choose 2 : Nat)) (by
    intro i _; rw [clusterSizes_eq, nChoose2_nat])]
  rw [Outcome.bind_ok, nChoose2_nat, Outcome.bind_ok, ← numPairs_eq]
  have cov : ∀ l : List Int, (∀ x ∈ l, 0 ≤ x) → (∀ x ∈ l, x < k) →
      ∀ x ∈ l, ∃ i ∈ range k, (i : Int) = x := by
    intro l h0 h1 x hx
    have := h0 x hx
    have := h1 x hx
    exact ⟨x.toNat, by simp; omega, by omega⟩
  have e1 : ∑ i ∈ range k, (gt.count (i : Int)).choose 2 = equalPairs gt :=
    sum_choose_count_inj gt (range k) (fun i : Nat => (i : Int)) (intCast_range_injOn k)
      (cov gt hg hgk)
  have e2 : ∑ i ∈ range k, (lab.count (i : Int)).choose 2 = equalPairs lab :=
    sum_choose_count_inj lab (range k) (fun i : Nat => (i : Int)) (intCast_range_injOn k)
      (cov lab hl hlk)
  have e3 : ∑ i ∈ range k, ∑ j ∈ range k, ((gt.zip lab).count ((i : Int), (j : Int))).choose 2
      = equalPairs (gt.zip lab) := by
    rw [← Finset.sum_product']
    apply sum_choose_count_inj (gt.zip lab) (range k ×ˢ range k)
      (fun p : Nat × Nat => ((p.1 : Int), (p.2 : Int)))
    · rintro ⟨a, b⟩ _ ⟨c, d⟩ _ h
      simp only [Prod.mk.injEq, Nat.cast_inj] at h ⊢
      exact h
    · rintro ⟨x, y⟩ hxy
      obtain ⟨i, hi, rfl⟩ := cov gt hg hgk x (List.of_mem_zip hxy).1
      obtain ⟨j, hj, rfl⟩ := cov lab hl hlk y (List.of_mem_zip hxy).2
      exact ⟨(i, j), Finset.mem_product.2 ⟨hi, hj⟩, rfl⟩
  rw [← e1, ← e2, ← e3]
  push_cast
  rfl

end Stag
