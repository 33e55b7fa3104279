import Mathlib.GroupTheory.Perm.Basic
import Mathlib.Data.Fintype.Perm
import Mathlib.Data.Fintype.Pi
import Mathlib.Data.Fintype.BigOperators
import Mathlib.Algebra.BigOperators.Ring.Finset
import Mathlib.Algebra.Order.BigOperators.Ring.Finset
import Mathlib.Algebra.Order.Chebyshev
import Mathlib.Analysis.SpecialFunctions.Sqrt
import Mathlib.Tactic.FieldSimp
import Mathlib.Tactic.Linarith
import Mathlib.Tactic.Ring

/-!
# Sums over a random permutation, and medians of independent copies

Mathematics only: mean and variance of `∑ i, f i (σ i)` over all permutations `σ`, the inequalities of
Markov and Chebyshev for counting measures, and the number of tuples of which many entries are bad.
-/

namespace Stag

open Finset

section
variable {n : Nat}

/-- All values of a permutation at one place are equally frequent. -/
theorem perm_sum_one (hn : 0 < n) (i : Fin n) (g : Fin n → ℝ) :
    ∑ σ : Equiv.Perm (Fin n), g (σ i) = n.factorial / n * ∑ x, g x := by
  have hn' : (n : ℝ) ≠ 0 := by exact_mod_cast hn.ne'
  have hcard : (univ : Finset (Equiv.Perm (Fin n))).card = n.factorial := by
    rw [card_univ, Fintype.card_perm, Fintype.card_fin]
  have hindep : ∀ k : Fin n, ∑ σ : Equiv.Perm (Fin n), g (σ k) = ∑ σ : Equiv.Perm (Fin n), g (σ i) := by
    intro k
    apply Fintype.sum_equiv (Equiv.mulRight (Equiv.swap k i))
    intro σ
    simp [Equiv.Perm.mul_apply]
  have h1 : ∑ k : Fin n, ∑ σ : Equiv.Perm (Fin n), g (σ k) = n * ∑ σ : Equiv.Perm (Fin n), g (σ i) := by
    rw [sum_congr rfl (fun k _ => hindep k), sum_const, card_univ, Fintype.card_fin, nsmul_eq_mul]
  rw [sum_comm] at h1
  have h2 : ∀ σ : Equiv.Perm (Fin n), ∑ k : Fin n, g (σ k) = ∑ x, g x := fun σ => Equiv.sum_comp σ g
  rw [sum_congr rfl (fun σ _ => h2 σ), sum_const, hcard, nsmul_eq_mul] at h1
  field_simp
  linarith

/-- All pairs of values at two places are equally frequent. -/
theorem perm_sum_two (i k : Fin n) (hik : i ≠ k) (g : Fin n → Fin n → ℝ) :
    (n * (n - 1) : ℝ) * ∑ σ : Equiv.Perm (Fin n), g (σ i) (σ k)
      = n.factorial * ∑ x, ∑ y, if x = y then 0 else g x y := by
  have hcard : (univ : Finset (Equiv.Perm (Fin n))).card = n.factorial := by
    rw [card_univ, Fintype.card_perm, Fintype.card_fin]
  have hindep : ∀ i' k' : Fin n, i' ≠ k' → ∑ σ : Equiv.Perm (Fin n), g (σ i') (σ k') =
      ∑ σ : Equiv.Perm (Fin n), g (σ i) (σ k) := by
    intro i' k' hne
    -- a permutation taking `i'` to `i` and `k'` to `k`
    obtain ⟨τ, h1, h2⟩ : ∃ τ : Equiv.Perm (Fin n), τ i = i' ∧ τ k = k' := by
      let τ1 := Equiv.swap i i'
      refine ⟨Equiv.swap (τ1 k) k' * τ1, ?_, ?_⟩
      · have e1 : τ1 i = i' := Equiv.swap_apply_left _ _
        rw [Equiv.Perm.mul_apply, e1, Equiv.swap_apply_of_ne_of_ne]
        · intro h
          exact hik (τ1.injective (e1.trans h))
        · exact hne
      · rw [Equiv.Perm.mul_apply, Equiv.swap_apply_left]
    apply Fintype.sum_equiv (Equiv.mulRight τ)
    intro σ
    simp [Equiv.Perm.mul_apply, h1, h2]
  have h1 : ∑ i' : Fin n, ∑ k' : Fin n, ∑ σ : Equiv.Perm (Fin n), (if i' = k' then 0 else g (σ i') (σ k'))
      = (n * (n - 1) : ℝ) * ∑ σ : Equiv.Perm (Fin n), g (σ i) (σ k) := by
    have e : ∀ i' k' : Fin n, ∑ σ : Equiv.Perm (Fin n), (if i' = k' then 0 else g (σ i') (σ k'))
        = if i' = k' then 0 else ∑ σ : Equiv.Perm (Fin n), g (σ i) (σ k) := by
      intro i' k'
      split_ifs with h
      · simp
      · exact hindep i' k' h
    simp only [e]
    have e2 : ∀ i' : Fin n, ∑ k' : Fin n, (if i' = k' then 0 else ∑ σ : Equiv.Perm (Fin n), g (σ i) (σ k))
        = (n - 1 : ℝ) * ∑ σ : Equiv.Perm (Fin n), g (σ i) (σ k) := by
      intro i'
      have : ∀ k' : Fin n, (if i' = k' then 0 else ∑ σ : Equiv.Perm (Fin n), g (σ i) (σ k)) =
          ∑ σ : Equiv.Perm (Fin n), g (σ i) (σ k) -
            if i' = k' then ∑ σ : Equiv.Perm (Fin n), g (σ i) (σ k) else 0 := by
        intro k'
        split_ifs <;> ring
      rw [sum_congr rfl (fun k' _ => this k'), sum_sub_distrib, sum_const, card_univ, Fintype.card_fin,
        sum_ite_eq, if_pos (mem_univ _), nsmul_eq_mul]
      ring
    rw [sum_congr rfl (fun i' _ => e2 i'), sum_const, card_univ, Fintype.card_fin, nsmul_eq_mul]
    ring
  rw [← h1]
  have h3 : ∀ i' : Fin n, ∑ k' : Fin n, ∑ σ : Equiv.Perm (Fin n), (if i' = k' then 0 else g (σ i') (σ k'))
      = ∑ σ : Equiv.Perm (Fin n), ∑ k' : Fin n, (if i' = k' then 0 else g (σ i') (σ k')) := fun i' => sum_comm
  rw [sum_congr rfl (fun i' _ => h3 i'), sum_comm]
  have h2 : ∀ σ : Equiv.Perm (Fin n), ∑ i' : Fin n, ∑ k' : Fin n, (if i' = k' then 0 else g (σ i') (σ k'))
      = ∑ x, ∑ y, if x = y then 0 else g x y := by
    intro σ
    rw [← Equiv.sum_comp σ (fun x => ∑ y, if x = y then 0 else g x y)]
    apply sum_congr rfl
    intro i' _
    rw [← Equiv.sum_comp σ (fun y => if σ i' = y then 0 else g (σ i') y)]
    apply sum_congr rfl
    intro k' _
    simp [σ.injective.eq_iff]
  rw [sum_congr rfl (fun σ _ => h2 σ), sum_const, hcard, nsmul_eq_mul]

/-- The mean of `∑ i, f i (σ i)`. -/
noncomputable def permMean (f : Fin n → Fin n → ℝ) : ℝ := (∑ i, ∑ x, f i x) / n

theorem perm_mean (hn : 0 < n) (f : Fin n → Fin n → ℝ) :
    ∑ σ : Equiv.Perm (Fin n), ∑ i, f i (σ i) = n.factorial * permMean f := by
  rw [sum_comm, sum_congr rfl (fun i _ => perm_sum_one hn i (f i)), ← mul_sum]
  unfold permMean
  ring

/-- The variance of `∑ i, f i (σ i)` for a non-negative `f`. -/
theorem perm_variance (hn : 0 < n) (f : Fin n → Fin n → ℝ) (hf : ∀ i x, 0 ≤ f i x) :
    ∑ σ : Equiv.Perm (Fin n), (∑ i, f i (σ i) - permMean f) ^ 2
      ≤ n.factorial * ((∑ i, ∑ x, f i x ^ 2) / n) := by
  have hn' : (0 : ℝ) < n := by exact_mod_cast hn
  have hfac : (0 : ℝ) < n.factorial := by exact_mod_cast n.factorial_pos
  have hcard : (univ : Finset (Equiv.Perm (Fin n))).card = n.factorial := by
    rw [card_univ, Fintype.card_perm, Fintype.card_fin]
  set A : Fin n → ℝ := fun i => ∑ x, f i x with hA
  have hmean : permMean f = (∑ i, A i) / n := rfl
  -- the second moment
  have hsq : ∀ σ : Equiv.Perm (Fin n), (∑ i, f i (σ i)) ^ 2
      = ∑ i, f i (σ i) ^ 2 + ∑ i, ∑ k, if i = k then 0 else f i (σ i) * f k (σ k) := by
    intro σ
    rw [sq, sum_mul_sum, ← sum_add_distrib]
    apply sum_congr rfl
    intro i _
    have : ∀ k, f i (σ i) * f k (σ k) = (if i = k then f i (σ i) ^ 2 else 0) +
        if i = k then 0 else f i (σ i) * f k (σ k) := by
      intro k
      split_ifs with h
      · subst h; ring
      · ring
    rw [sum_congr rfl (fun k _ => this k), sum_add_distrib, sum_ite_eq, if_pos (mem_univ _)]
  have hsecond : ∑ σ : Equiv.Perm (Fin n), (∑ i, f i (σ i)) ^ 2
      ≤ n.factorial * ((∑ i, ∑ x, f i x ^ 2) / n) + n.factorial * ((∑ i, A i) / n) ^ 2 := by
    simp only [hsq, sum_add_distrib]
    have h1 : ∑ σ : Equiv.Perm (Fin n), ∑ i, f i (σ i) ^ 2 = n.factorial * ((∑ i, ∑ x, f i x ^ 2) / n) :=
      perm_mean hn (fun i x => f i x ^ 2)
    rw [h1]
    apply add_le_add (le_refl _)
    have h2 : ∑ σ : Equiv.Perm (Fin n), ∑ i, ∑ k, (if i = k then 0 else f i (σ i) * f k (σ k))
        = ∑ i, ∑ k, if i = k then 0 else ∑ σ : Equiv.Perm (Fin n), f i (σ i) * f k (σ k) := by
      rw [sum_comm]
      apply sum_congr rfl
      intro i _
      rw [sum_comm]
      apply sum_congr rfl
      intro k _
      split_ifs <;> simp
    rw [h2]
    rcases Nat.lt_or_ge 1 n with h1n | h1n
    · have hn1 : (0 : ℝ) < n - 1 := by
        have : (1 : ℝ) < n := by exact_mod_cast h1n
        linarith
      have h3 : ∀ i k : Fin n, (if i = k then 0 else ∑ σ : Equiv.Perm (Fin n), f i (σ i) * f k (σ k))
          ≤ n.factorial / (n * (n - 1)) * (A i * A k - if i = k then A i ^ 2 else 0) := by
        intro i k
        split_ifs with h
        · subst h
          have : A i * A i - A i ^ 2 = 0 := by ring
          rw [this, mul_zero]
        · have e := perm_sum_two i k h (fun x y => f i x * f k y)
          have e2 : ∑ x, ∑ y, (if x = y then 0 else f i x * f k y) ≤ A i * A k := by
            rw [hA, sum_mul_sum]
            apply sum_le_sum
            intro x _
            apply sum_le_sum
            intro y _
            split_ifs
            · exact mul_nonneg (hf _ _) (hf _ _)
            · exact le_refl _
          have e3 : (n * (n - 1) : ℝ) * ∑ σ : Equiv.Perm (Fin n), f i (σ i) * f k (σ k)
              ≤ n.factorial * (A i * A k) := by
            rw [e]; exact mul_le_mul_of_nonneg_left e2 hfac.le
          rw [sub_zero, div_mul_eq_mul_div, le_div_iff₀ (by positivity)]
          linarith
      have h4 : ∑ i, ∑ k, (if i = k then 0 else ∑ σ : Equiv.Perm (Fin n), f i (σ i) * f k (σ k))
          ≤ n.factorial / (n * (n - 1)) * ((∑ i, A i) ^ 2 - ∑ i, A i ^ 2) := by
        refine le_trans (sum_le_sum (fun i _ => sum_le_sum (fun k _ => h3 i k))) (le_of_eq ?_)
        rw [sq, sum_mul_sum]
        simp only [← mul_sum, sum_sub_distrib, sum_ite_eq, mem_univ, if_true]
      have h5 : (∑ i, A i) ^ 2 ≤ n * ∑ i, A i ^ 2 := by
        have := sq_sum_le_card_mul_sum_sq (s := (univ : Finset (Fin n))) (f := A)
        rwa [card_univ, Fintype.card_fin] at this
      refine le_trans h4 ?_
      have h6 : (∑ i, A i) ^ 2 - ∑ i, A i ^ 2 ≤ (∑ i, A i) ^ 2 * ((n - 1) / n) := by
        have : (∑ i, A i) ^ 2 / n ≤ ∑ i, A i ^ 2 := by
          rw [div_le_iff₀ hn']; linarith
        have e : (∑ i, A i) ^ 2 * ((n - 1) / n) = (∑ i, A i) ^ 2 - (∑ i, A i) ^ 2 / n := by
          field_simp
        linarith
      refine le_trans (mul_le_mul_of_nonneg_left h6 (by positivity)) (le_of_eq ?_)
      field_simp
    · have hz : ∑ i, ∑ k, (if i = k then 0 else ∑ σ : Equiv.Perm (Fin n), f i (σ i) * f k (σ k)) = 0 := by
        apply sum_eq_zero
        intro i _
        apply sum_eq_zero
        intro k _
        rw [if_pos (Fin.ext (by omega))]
      rw [hz]
      positivity
  have hexp : ∑ σ : Equiv.Perm (Fin n), (∑ i, f i (σ i) - permMean f) ^ 2
      = ∑ σ : Equiv.Perm (Fin n), (∑ i, f i (σ i)) ^ 2 - n.factorial * permMean f ^ 2 := by
    have : ∀ σ : Equiv.Perm (Fin n), (∑ i, f i (σ i) - permMean f) ^ 2
        = (∑ i, f i (σ i)) ^ 2 - 2 * permMean f * (∑ i, f i (σ i)) + permMean f ^ 2 := by
      intro σ; ring
    rw [sum_congr rfl (fun σ _ => this σ), sum_add_distrib, sum_sub_distrib, ← mul_sum, perm_mean hn,
      sum_const, hcard, nsmul_eq_mul]
    ring
  rw [hexp]
  rw [← hmean] at hsecond
  linarith

end

/-! ## Counting -/

/-- Markov's inequality. -/
theorem count_markov {α : Type} [Fintype α] (F : α → ℝ) (hF : ∀ x, 0 ≤ F x) (t : ℝ) :
    ((univ.filter (fun x => t ≤ F x)).card : ℝ) * t ≤ ∑ x, F x := by
  calc ((univ.filter (fun x => t ≤ F x)).card : ℝ) * t = ∑ x ∈ univ.filter (fun x => t ≤ F x), t := by
        rw [sum_const, nsmul_eq_mul]
    _ ≤ ∑ x ∈ univ.filter (fun x => t ≤ F x), F x := sum_le_sum (fun x hx => (mem_filter.1 hx).2)
    _ ≤ ∑ x, F x := sum_le_sum_of_subset_of_nonneg (filter_subset _ _) (fun x _ _ => hF x)

/-- Chebyshev's inequality. -/
theorem count_chebyshev {α : Type} [Fintype α] (F : α → ℝ) (m δ : ℝ) (hδ : 0 ≤ δ) :
    ((univ.filter (fun x => δ ≤ |F x - m|)).card : ℝ) * δ ^ 2 ≤ ∑ x, (F x - m) ^ 2 := by
  have := count_markov (fun x => (F x - m) ^ 2) (fun x => sq_nonneg _) (δ ^ 2)
  have e : (univ.filter (fun x => δ ^ 2 ≤ (F x - m) ^ 2)) = univ.filter (fun x => δ ≤ |F x - m|) := by
    apply filter_congr
    intro x _
    rw [sq_le_sq, abs_of_nonneg hδ]
  rwa [e] at this

/-- The tuples of which at least `r` entries are bad. -/
theorem count_tuples {α : Type} [Fintype α] [DecidableEq α] (k r : Nat) (B : Finset α) (β : ℝ)
    (hB : (B.card : ℝ) ≤ β * Fintype.card α) :
    ((univ.filter (fun f : Fin k → α => r ≤ (univ.filter (fun i => f i ∈ B)).card)).card : ℝ)
      ≤ k.choose r * β ^ r * (Fintype.card α : ℝ) ^ k := by
  classical
  rcases Nat.lt_or_ge k r with hkr | hkr
  · have : (univ.filter (fun f : Fin k → α => r ≤ (univ.filter (fun i => f i ∈ B)).card)) = ∅ := by
      apply filter_eq_empty_iff.2
      intro f _ h
      have := card_le_univ (univ.filter (fun i => f i ∈ B))
      rw [Fintype.card_fin] at this
      omega
    rw [this, Nat.choose_eq_zero_of_lt hkr]
    simp
  have hsub : (univ.filter (fun f : Fin k → α => r ≤ (univ.filter (fun i => f i ∈ B)).card)) ⊆
      (powersetCard r (univ : Finset (Fin k))).biUnion
        (fun T => Fintype.piFinset (fun i => if i ∈ T then B else univ)) := by
    intro f hf
    obtain ⟨-, hf⟩ := mem_filter.1 hf
    obtain ⟨T, hT, hc⟩ := exists_subset_card_eq hf
    rw [mem_biUnion]
    refine ⟨T, mem_powersetCard.2 ⟨subset_univ _, hc⟩, ?_⟩
    rw [Fintype.mem_piFinset]
    intro i
    split_ifs with h
    · exact (mem_filter.1 (hT h)).2
    · exact mem_univ _
  have h1 := le_trans (card_le_card hsub) card_biUnion_le
  have h2 : ∀ T ∈ powersetCard r (univ : Finset (Fin k)),
      (Fintype.piFinset (fun i => if i ∈ T then B else (univ : Finset α))).card =
        B.card ^ r * Fintype.card α ^ (k - r) := by
    intro T hT
    obtain ⟨-, hc⟩ := mem_powersetCard.1 hT
    rw [Fintype.card_piFinset]
    have : ∀ i : Fin k, (if i ∈ T then B else (univ : Finset α)).card =
        if i ∈ T then B.card else Fintype.card α := by
      intro i; split_ifs <;> simp [card_univ]
    rw [prod_congr rfl (fun i _ => this i), prod_ite, prod_const, prod_const]
    congr 2
    · rw [← hc]; congr 1; ext i; simp
    · have : (univ.filter (fun i => i ∉ T)) = Tᶜ := by ext i; simp
      rw [this, card_compl, Fintype.card_fin, hc]
  rw [sum_congr rfl h2, sum_const, card_powersetCard, card_univ, Fintype.card_fin, smul_eq_mul] at h1
  have h3 : ((univ.filter (fun f : Fin k → α => r ≤ (univ.filter (fun i => f i ∈ B)).card)).card : ℝ) ≤
      k.choose r * ((B.card : ℝ) ^ r * (Fintype.card α : ℝ) ^ (k - r)) := by exact_mod_cast h1
  refine le_trans h3 ?_
  have h4 : (B.card : ℝ) ^ r ≤ (β * Fintype.card α) ^ r := pow_le_pow_left₀ (by positivity) hB r
  have h5 : (Fintype.card α : ℝ) ^ k = (Fintype.card α : ℝ) ^ r * (Fintype.card α : ℝ) ^ (k - r) := by
    rw [← pow_add]; congr 1; omega
  calc (k.choose r : ℝ) * ((B.card : ℝ) ^ r * (Fintype.card α : ℝ) ^ (k - r))
      ≤ k.choose r * ((β * Fintype.card α) ^ r * (Fintype.card α : ℝ) ^ (k - r)) := by
        apply mul_le_mul_of_nonneg_left _ (by positivity)
        exact mul_le_mul_of_nonneg_right h4 (by positivity)
    _ = k.choose r * β ^ r * (Fintype.card α : ℝ) ^ k := by rw [mul_pow, h5]; ring

end Stag
