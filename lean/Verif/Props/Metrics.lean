import Verif.MetricsLemmas
import Mathlib.Algebra.Order.Field.Basic
import Mathlib.Algebra.Order.Field.Rat
import Mathlib.Algebra.Field.Rat
import Mathlib.Tactic.NormNum

/-!
# C38: the adjusted Rand index
-/

set_option linter.unusedSectionVars false

namespace Stag
open Finset

variable {K : Type} [Field K] [LinearOrder K] [IsStrictOrderedRing K]

/-- The denominator of the index vanishes exactly for two extreme pairs of clusterings. -/
theorem ari_den_zero_iff {b c N : K} (hb : 0 ≤ b) (hc : 0 ≤ c) (hbN : b ≤ N) (hcN : c ≤ N)
    (hN : 0 < N) :
    (b + c) / 2 - b * c / N = 0 ↔ (b = 0 ∧ c = 0) ∨ (b = N ∧ c = N) := by
  have key : (b + c) / 2 - b * c / N = (b * (N - c) + c * (N - b)) / (2 * N) := by
    field_simp; ring
  have h1 : 0 ≤ b * (N - c) := mul_nonneg hb (by linarith)
  have h2 : 0 ≤ c * (N - b) := mul_nonneg hc (by linarith)
  rw [key, div_eq_zero_iff]
  constructor
  · rintro (h | h)
    · have e1 : b * (N - c) = 0 := by linarith
      have e2 : c * (N - b) = 0 := by linarith
      rcases mul_eq_zero.1 e1 with e1 | e1 <;> rcases mul_eq_zero.1 e2 with e2 | e2
      · exact .inl ⟨e1, e2⟩
      · exfalso; rw [e1] at e2; linarith
      · exfalso; rw [e2] at e1; linarith
      · exact .inr ⟨by linarith, by linarith⟩
    · linarith
  · rintro (⟨rfl, rfl⟩ | ⟨rfl, rfl⟩) <;> left <;> ring

theorem ari_den_nonneg {b c N : K} (hb : 0 ≤ b) (hc : 0 ≤ c) (hbN : b ≤ N) (hcN : c ≤ N)
    (hN : 0 < N) : 0 ≤ (b + c) / 2 - b * c / N := by
  have key : (b + c) / 2 - b * c / N = (b * (N - c) + c * (N - b)) / (2 * N) := by
    field_simp; ring
  have h1 : 0 ≤ b * (N - c) := mul_nonneg hb (by linarith)
  have h2 : 0 ≤ c * (N - b) := mul_nonneg hc (by linarith)
  rw [key]; positivity

/-- The label vectors `gt` and `lab` are two clusterings of the same points. -/
structure Clusterings (gt lab : List Int) : Prop where
  length_eq : gt.length = lab.length
  gt_nonneg : ∀ x ∈ gt, 0 ≤ x
  lab_nonneg : ∀ x ∈ lab, 0 ≤ x

/-- When the index is undefined (`0/0`): fewer than two points, or both clusterings put every
point on its own, or both have a single cluster. -/
def AriUndefined (gt lab : List Int) : Prop :=
  gt.length < 2 ∨ (gt.Nodup ∧ lab.Nodup) ∨
    ((∀ x ∈ gt, ∀ y ∈ gt, x = y) ∧ ∀ x ∈ lab, ∀ y ∈ lab, x = y)

/-- **C38 (errors).** Label vectors of different lengths, or with a negative label, raise
`invalid_argument`. -/
theorem C38_errors {gt lab : List Int}
    (h : gt.length ≠ lab.length ∨ (∃ x ∈ gt, x < 0) ∨ ∃ x ∈ lab, x < 0) :
    (adjustedRandIndex gt lab : Outcome (XReal K)) = .throw .invalidArgument := by
  unfold adjustedRandIndex ariCounts
  simp only []
  rw [contingencyTable_bad h]; rfl

theorem adjustedRandIndex_eq {gt lab : List Int} (h : Clusterings gt lab) :
    (adjustedRandIndex gt lab : Outcome (XReal K)) =
      .ok (XReal.div (XReal.fin (equalPairs (gt.zip lab) : K) -
          XReal.div (.fin ((equalPairs gt : K) * (equalPairs lab : K))) (.fin (numPairs gt.length : K)))
        (XReal.fin (((equalPairs gt : K) + (equalPairs lab : K)) / 2) -
          XReal.div (.fin ((equalPairs gt : K) * (equalPairs lab : K)))
            (.fin (numPairs gt.length : K)))) := by
  unfold adjustedRandIndex
  rw [ariCounts_eq h.length_eq h.gt_nonneg h.lab_nonneg, Outcome.bind_ok]
  push_cast
  rfl

theorem numPairs_eq_zero_iff (n : Nat) : numPairs n = 0 ↔ n < 2 := by
  rw [numPairs_eq, Nat.choose_eq_zero_iff]

theorem zip_same_of_const {gt lab : List Int} (h1 : ∀ x ∈ gt, ∀ y ∈ gt, x = y)
    (h2 : ∀ x ∈ lab, ∀ y ∈ lab, x = y) :
    ∀ p ∈ gt.zip lab, ∀ q ∈ gt.zip lab, p = q := by
  rintro ⟨a, b⟩ hp ⟨c, d⟩ hq
  rw [h1 a (List.of_mem_zip hp).1 c (List.of_mem_zip hq).1,
    h2 b (List.of_mem_zip hp).2 d (List.of_mem_zip hq).2]

/-- The counts of pairs satisfy the inequalities which Hubert and Arabie's formula relies on. -/
theorem ari_bounds {gt lab : List Int} (h : Clusterings gt lab) :
    equalPairs (gt.zip lab) ≤ equalPairs gt ∧ equalPairs (gt.zip lab) ≤ equalPairs lab ∧
    equalPairs gt ≤ numPairs gt.length ∧ equalPairs lab ≤ numPairs gt.length ∧
    equalPairs gt + equalPairs lab ≤ equalPairs (gt.zip lab) + numPairs gt.length :=
  ⟨equalPairs_zip_le_left _ _, equalPairs_zip_le_right _ _, equalPairs_le _,
    h.length_eq ▸ equalPairs_le lab, equalPairs_zip_ge _ _ h.length_eq⟩

theorem ari_nondeg {gt lab : List Int} (h : Clusterings gt lab) (hu : ¬ AriUndefined gt lab) :
    (0 : K) < numPairs gt.length ∧
    (0 : K) < ((equalPairs gt : K) + (equalPairs lab : K)) / 2 -
      (equalPairs gt : K) * (equalPairs lab : K) / (numPairs gt.length : K) := by
  obtain ⟨-, -, h3, h4, -⟩ := ari_bounds h
  have hN : 0 < numPairs gt.length := by
    rcases Nat.eq_zero_or_pos (numPairs gt.length) with e | e
    · exact absurd (.inl ((numPairs_eq_zero_iff _).1 e)) hu
    · exact e
  have hN' : (0 : K) < numPairs gt.length := by exact_mod_cast hN
  have hb : (0 : K) ≤ equalPairs gt := by positivity
  have hc : (0 : K) ≤ equalPairs lab := by positivity
  have h3' : (equalPairs gt : K) ≤ numPairs gt.length := by exact_mod_cast h3
  have h4' : (equalPairs lab : K) ≤ numPairs gt.length := by exact_mod_cast h4
  refine ⟨hN', lt_of_le_of_ne (ari_den_nonneg hb hc h3' h4' hN') (fun e => hu ?_)⟩
  rcases (ari_den_zero_iff hb hc h3' h4' hN').1 e.symm with ⟨e1, e2⟩ | ⟨e1, e2⟩
  · right; left
    exact ⟨(equalPairs_eq_zero_iff _).1 (by exact_mod_cast e1),
      (equalPairs_eq_zero_iff _).1 (by exact_mod_cast e2)⟩
  · right; right
    refine ⟨(equalPairs_eq_numPairs_iff _).1 (by exact_mod_cast e1),
      (equalPairs_eq_numPairs_iff _).1 ?_⟩
    rw [← h.length_eq]; exact_mod_cast e2

/-- **C38 (value).** For two clusterings of the same points the call returns Hubert and Arabie's
adjusted Rand index of the numbers of pairs of points which are together in both, in the first, and
in the second clustering, out of all pairs. -/
theorem C38_value {gt lab : List Int} (h : Clusterings gt lab) (hu : ¬ AriUndefined gt lab) :
    (adjustedRandIndex gt lab : Outcome (XReal K)) = .ok (.fin
      (hubertArabie (equalPairs (gt.zip lab) : K) (equalPairs gt) (equalPairs lab)
        (numPairs gt.length))) := by
  obtain ⟨hN, hd⟩ := ari_nondeg (K := K) h hu
  rw [adjustedRandIndex_eq h]
  rw [XReal.div_fin _ hN.ne', XReal.fin_sub, XReal.fin_sub, XReal.div_fin _ hd.ne']
  rfl

/-- **C38 (undefined).** In the remaining cases the call returns NaN. -/
theorem C38_undefined {gt lab : List Int} (h : Clusterings gt lab) (hu : AriUndefined gt lab) :
    (adjustedRandIndex gt lab : Outcome (XReal K)) = .ok .nan := by
  rw [adjustedRandIndex_eq h]
  obtain ⟨h1, h2, h3, h4, -⟩ := ari_bounds h
  rcases Nat.eq_zero_or_pos (numPairs gt.length) with hN | hN
  · have e1 : equalPairs gt = 0 := by omega
    rw [hN, e1]
    simp [XReal.div]
    rfl
  · have hN' : (numPairs gt.length : K) ≠ 0 := by exact_mod_cast hN.ne'
    rw [XReal.div_fin _ hN', XReal.fin_sub, XReal.fin_sub]
    rcases hu with hu | ⟨hu1, hu2⟩ | ⟨hu1, hu2⟩
    · rw [(numPairs_eq_zero_iff _).2 hu] at hN; omega
    · have e2 := (equalPairs_eq_zero_iff gt).2 hu1
      have e3 := (equalPairs_eq_zero_iff lab).2 hu2
      have e4 : equalPairs (gt.zip lab) = 0 := by omega
      rw [e2, e3, e4]
      rw [XReal.div_zero_zero (by simp) (by simp)]
    · have e2 := (equalPairs_eq_numPairs_iff gt).2 hu1
      have e3 := (equalPairs_eq_numPairs_iff lab).2 hu2
      have e4 := (equalPairs_eq_numPairs_iff (gt.zip lab)).2 (zip_same_of_const hu1 hu2)
      rw [← h.length_eq] at e3
      have e5 : (gt.zip lab).length = gt.length := by simp [h.length_eq]
      rw [e5] at e4
      rw [e2, e3, e4]
      rw [XReal.div_zero_zero (by field_simp; ring) (by field_simp; ring)]

/-- **C38 (range).** A defined index lies between `-1` and `1`. -/
theorem C38_range {gt lab : List Int} {x : K}
    (h : (adjustedRandIndex gt lab : Outcome (XReal K)) = .ok (.fin x)) : -1 ≤ x ∧ x ≤ 1 := by
  by_cases hc : gt.length ≠ lab.length ∨ (∃ x ∈ gt, x < 0) ∨ ∃ x ∈ lab, x < 0
  · rw [C38_errors hc] at h; cases h
  push Not at hc
  have hcl : Clusterings gt lab := ⟨hc.1, hc.2.1, hc.2.2⟩
  by_cases hu : AriUndefined gt lab
  · rw [C38_undefined hcl hu] at h; cases h
  rw [C38_value hcl hu] at h
  obtain ⟨hN, hd⟩ := ari_nondeg (K := K) hcl hu
  have hx := XReal.fin.inj (Outcome.ok.inj h)
  subst hx
  obtain ⟨h1, h2, h3, h4, h5⟩ := ari_bounds hcl
  have h1' : (equalPairs (gt.zip lab) : K) ≤ equalPairs gt := by exact_mod_cast h1
  have h2' : (equalPairs (gt.zip lab) : K) ≤ equalPairs lab := by exact_mod_cast h2
  have h3' : (equalPairs gt : K) ≤ numPairs gt.length := by exact_mod_cast h3
  have h4' : (equalPairs lab : K) ≤ numPairs gt.length := by exact_mod_cast h4
  have h5' : (equalPairs gt : K) + equalPairs lab
    ≤ equalPairs (gt.zip lab) + numPairs gt.length := by exact_mod_cast h5
  have h6' : (0 : K) ≤ equalPairs (gt.zip lab) := by positivity
  unfold hubertArabie
  generalize (equalPairs gt : K) = b at *
  generalize (equalPairs lab : K) = c at *
  generalize (equalPairs (gt.zip lab) : K) = a at *
  generalize (numPairs gt.length : K) = N at *
  constructor
  · rw [le_div_iff₀ hd]
    have : 2 * (b * c / N) ≤ a + (b + c) / 2 := by
      have : 2 * (b * c) ≤ (a + (b + c) / 2) * N := by
        rcases le_total (b + c) N with hs | hs
        · nlinarith [sq_nonneg (b - c), mul_nonneg h6' hN.le]
        · nlinarith [sq_nonneg (b - c), mul_nonneg h6' hN.le]
      calc 2 * (b * c / N) = 2 * (b * c) / N := by ring
        _ ≤ _ := by rw [div_le_iff₀ hN]; exact this
    linarith
  · rw [div_le_one hd]; linarith

/-- **C38 (symmetry).** Exchanging the two clusterings does not change the outcome, errors and NaN
included. -/
theorem C38_symmetric (gt lab : List Int) :
    (adjustedRandIndex lab gt : Outcome (XReal K)) = adjustedRandIndex gt lab := by
  by_cases hc : gt.length ≠ lab.length ∨ (∃ x ∈ gt, x < 0) ∨ ∃ x ∈ lab, x < 0
  · rw [C38_errors hc, C38_errors]
    rcases hc with h | h | h
    · exact .inl (fun e => h e.symm)
    · exact .inr (.inr h)
    · exact .inr (.inl h)
  push Not at hc
  rw [adjustedRandIndex_eq ⟨hc.1, hc.2.1, hc.2.2⟩,
    adjustedRandIndex_eq ⟨hc.1.symm, hc.2.2, hc.2.1⟩,
    equalPairs_zip_swap, hc.1, mul_comm (equalPairs lab : K), add_comm (equalPairs lab : K)]

/-- **C38 (renaming).** Renaming the clusters of either side, differently on the two sides if
desired, does not change the index. -/
theorem C38_rename {gt lab : List Int} (h : Clusterings gt lab) {f g : Int → Int}
    (hf : ∀ x ∈ gt, ∀ y ∈ gt, f x = f y → x = y) (hg : ∀ x ∈ lab, ∀ y ∈ lab, g x = g y → x = y)
    (hf0 : ∀ x ∈ gt, 0 ≤ f x) (hg0 : ∀ x ∈ lab, 0 ≤ g x) :
    (adjustedRandIndex (gt.map f) (lab.map g) : Outcome (XReal K)) = adjustedRandIndex gt lab := by
  have h' : Clusterings (gt.map f) (lab.map g) :=
    ⟨by simp [h.length_eq], by simpa using hf0, by simpa using hg0⟩
  rw [adjustedRandIndex_eq h, adjustedRandIndex_eq h', equalPairs_map hf, equalPairs_map hg,
    List.zip_map, equalPairs_map, List.length_map]
  rintro ⟨a, b⟩ hp ⟨c, d⟩ hq e
  simp only [Prod.map_apply, Prod.mk.injEq] at e ⊢
  exact ⟨hf a (List.of_mem_zip hp).1 c (List.of_mem_zip hq).1 e.1,
    hg b (List.of_mem_zip hp).2 d (List.of_mem_zip hq).2 e.2⟩

/-- **C38 (order of the points).** Permuting the points, in the same way on both sides, does not
change the outcome. -/
theorem C38_permute {gt lab gt' lab' : List Int} (h : gt.length = lab.length)
    (h' : gt'.length = lab'.length) (hp : (gt.zip lab).Perm (gt'.zip lab')) :
    (adjustedRandIndex gt lab : Outcome (XReal K)) = adjustedRandIndex gt' lab' := by
  have p1 : gt.Perm gt' := by
    have := hp.map Prod.fst
    rwa [List.map_fst_zip h.le, List.map_fst_zip h'.le] at this
  have p2 : lab.Perm lab' := by
    have := hp.map Prod.snd
    rwa [List.map_snd_zip h.ge, List.map_snd_zip h'.ge] at this
  by_cases hc : (∃ x ∈ gt, x < 0) ∨ ∃ x ∈ lab, x < 0
  · rw [C38_errors (.inr hc), C38_errors (.inr _)]
    rcases hc with ⟨x, hx, hn⟩ | ⟨x, hx, hn⟩
    · exact .inl ⟨x, p1.subset hx, hn⟩
    · exact .inr ⟨x, p2.subset hx, hn⟩
  push Not at hc
  rw [adjustedRandIndex_eq ⟨h, hc.1, hc.2⟩, adjustedRandIndex_eq ⟨h',
      fun x hx => hc.1 x (p1.symm.subset hx), fun x hx => hc.2 x (p2.symm.subset hx)⟩,
    equalPairs_perm p1, equalPairs_perm p2, equalPairs_perm hp, p1.length_eq]

/-- **C38 (self).** A clustering compared with itself has index `1`, unless it has fewer than two
points, only singletons, or a single cluster; then the result is NaN. -/
theorem C38_self {a : List Int} (h0 : ∀ x ∈ a, 0 ≤ x) :
    (adjustedRandIndex a a : Outcome (XReal K)) = .ok
      (open Classical in
       if a.length < 2 ∨ a.Nodup ∨ ∀ x ∈ a, ∀ y ∈ a, x = y then .nan else .fin 1) := by
  have hc : Clusterings a a := ⟨rfl, h0, h0⟩
  classical
  by_cases hu : a.length < 2 ∨ a.Nodup ∨ ∀ x ∈ a, ∀ y ∈ a, x = y
  · rw [if_pos hu, C38_undefined hc]
    rcases hu with h | h | h
    · exact .inl h
    · exact .inr (.inl ⟨h, h⟩)
    · exact .inr (.inr ⟨h, h⟩)
  · rw [if_neg hu]
    have hu' : ¬ AriUndefined a a := by
      rintro (h | h | h)
      · exact hu (.inl h)
      · exact hu (.inr (.inl h.1))
      · exact hu (.inr (.inr h.1))
    obtain ⟨hN, hd⟩ := ari_nondeg (K := K) hc hu'
    rw [C38_value hc hu']
    have e : equalPairs (a.zip a) = equalPairs a := by
      rw [zip_self_map, equalPairs_map]
      intro x _ y _ h
      exact (Prod.mk.inj h).1
    rw [e]
    congr 2
    unfold hubertArabie
    have e2 : ((equalPairs a : K) + equalPairs a) / 2 = equalPairs a := by ring
    rw [e2] at hd ⊢
    exact div_self hd.ne'

/-- **C38 (no overflow).** The code forms `c2 * c3` in 64-bit integers; up to 77936 points neither
that product nor any other intermediate integer leaves the 64-bit range. -/
theorem C38_no_overflow {gt lab : List Int} (h : Clusterings gt lab) (hn : gt.length ≤ 77936) :
    ∃ c1 c2 c3 nc : Int, ariCounts gt lab = .ok (c1, c2, c3, nc) ∧
      0 ≤ c1 ∧ 0 ≤ c2 ∧ 0 ≤ c3 ∧ 0 ≤ nc ∧
      c1 < 2 ^ 63 ∧ c2 + c3 < 2 ^ 63 ∧ c2 * c3 < 2 ^ 63 ∧
      (gt.length : Int) * (gt.length - 1) < 2 ^ 63 := by
  refine ⟨_, _, _, _, ariCounts_eq h.length_eq h.gt_nonneg h.lab_nonneg, ?_⟩
  obtain ⟨h1, h2, h3, h4, -⟩ := ari_bounds h
  have hN : numPairs gt.length ≤ 3036971080 := by
    rw [numPairs_eq]
    calc _ ≤ Nat.choose 77936 2 := Nat.choose_le_choose 2 hn
      _ = _ := by rw [Nat.choose_two_right]
  have hmul : equalPairs gt * equalPairs lab ≤ 3036971080 * 3036971080 :=
    Nat.mul_le_mul (by omega) (by omega)
  refine ⟨by omega, by omega, by omega, by omega, by omega, by omega, ?_, ?_⟩
  · have : ((equalPairs gt * equalPairs lab : Nat) : Int) ≤ (3036971080 * 3036971080 : Nat) := by
      exact_mod_cast hmul
    push_cast at this
    omega
  · have : (gt.length : Int) ≤ 77936 := by exact_mod_cast hn
    have h0 : (0 : Int) ≤ gt.length := by omega
    nlinarith

/-- **C38 (overflow).** One more point and the bound is gone: with 77937 points in a single cluster
on both sides the product `c2 * c3` exceeds the 64-bit range, which is undefined behaviour in
C++. -/
theorem C38_overflow_at_77937 :
    ∃ c1 c2 c3 nc : Int,
      ariCounts (List.replicate 77937 0) (List.replicate 77937 0) = .ok (c1, c2, c3, nc) ∧
      2 ^ 63 ≤ c2 * c3 := by
  have h0 : ∀ x ∈ List.replicate 77937 (0 : Int), 0 ≤ x := by
    intro x hx; rw [List.eq_of_mem_replicate hx]
  refine ⟨_, _, _, _, ariCounts_eq rfl h0 h0, ?_⟩
  have e : equalPairs (List.replicate 77937 (0 : Int)) = 3037049016 := by
    rw [(equalPairs_eq_numPairs_iff _).2, List.length_replicate, numPairs_eq,
      Nat.choose_two_right]
    intro x hx y hy
    rw [List.eq_of_mem_replicate hx, List.eq_of_mem_replicate hy]
  rw [e]; norm_num

/-! Concrete, non-trivial instances of the hypotheses. -/

example : Clusterings [0, 0, 1, 1, 2] [1, 1, 0, 2, 2] :=
  ⟨rfl, by decide, by decide⟩

example : ¬ AriUndefined [0, 0, 1, 1, 2] [1, 1, 0, 2, 2] := by
  unfold AriUndefined; decide

example : (adjustedRandIndex [0, 0, 1, 1, 2] [1, 1, 0, 2, 2] : Outcome (XReal ℚ)) =
    .ok (.fin (3 / 8)) := by decide +kernel

example : (adjustedRandIndex [0, 0, 1, 1] [0, 1, 0, 1] : Outcome (XReal ℚ)) =
    .ok (.fin (-1 / 2)) := by decide +kernel

example : ([0, 0, 1, 1, 2].zip [1, 1, 0, 2, 2] : List (Int × Int)).Perm
    ([2, 0, 1, 1, 0].zip [2, 1, 0, 2, 1]) := by decide

end Stag
