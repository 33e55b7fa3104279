import Verif.RoundingMetrics
import Verif.RoundingLemmas
import Verif.Props.Metrics

/-!
# C81: the adjusted Rand index in machine arithmetic
-/

set_option linter.unusedSectionVars false

namespace Stag
open Finset

theorem int64_ok {x : Int} (h0 : 0 ≤ x) (h : x < 2 ^ 63) : int64 x = .ok x :=
  if_pos ⟨by omega, h⟩

theorem nChoose2Int_nat {m : Nat} (h : m < 2 ^ 31) :
    nChoose2Int (m : Int) = .ok ((m.choose 2 : Nat) : Int) := by
  have h1 := nChoose2_nat m
  unfold nChoose2 at h1
  unfold nChoose2Int
  rw [if_neg (by omega)] at h1 ⊢
  by_cases h2 : (m : Int) < 2
  · rw [if_pos h2] at h1 ⊢; exact h1
  · rw [if_neg h2] at h1 ⊢
    have h3 : (m : Int) < 2 ^ 31 := by exact_mod_cast h
    rw [int64_ok (by nlinarith) (by nlinarith)]
    exact h1

theorem accLoop_ok {α : Type} {f : α → Outcome Int} {g : α → Nat} (l : List α)
    (h : ∀ x ∈ l, f x = .ok (g x : Int)) : ∀ c : Nat, c + (l.map g).sum < 2 ^ 63 →
    accLoop f l c = .ok ((c + (l.map g).sum : Nat) : Int) := by
  induction l with
  | nil => intro c _; rfl
  | cons x l ih =>
    intro c hc
    rw [List.map_cons, List.sum_cons] at hc
    have hlt : ((c : Int) + g x) < 2 ^ 63 := by
      have : c + g x < 2 ^ 63 := by omega
      exact_mod_cast this
    rw [accLoop, h x (by simp), Outcome.bind_ok, int64_ok (by omega) hlt, Outcome.bind_ok]
    have := ih (fun y hy => h y (List.mem_cons_of_mem _ hy)) (c + g x) (by omega)
    rw [List.map_cons, List.sum_cons, ← add_assoc]
    exact_mod_cast this

theorem sum_map_range_nat (k : Nat) (F : Nat → Nat) : ((List.range k).map F).sum = ∑ i ∈ range k, F i := by
  induction k with
  | zero => rfl
  | succ k ih => rw [List.range_succ, List.map_append, List.sum_append, ih, Finset.sum_range_succ]; simp

theorem sum_flatMap_pairs (k : Nat) (F : Nat × Nat → Nat) : ∀ l : List Nat,
    ((l.flatMap (fun i => (List.range k).map (fun j => (i, j)))).map F).sum
      = (l.map (fun i => ∑ j ∈ range k, F (i, j))).sum := by
  intro l
  induction l with
  | nil => rfl
  | cons i l ih =>
    rw [List.flatMap_cons, List.map_append, List.sum_append, ih, List.map_cons, List.sum_cons,
      List.map_map]
    congr 1
    try exact sum_map_range_nat k (fun j => F (i, j))

theorem ariCountsInt_eq {gt lab : List Int} (h : Clusterings gt lab) (hn : gt.length < 2 ^ 31) :
    ariCountsInt gt lab = .ok ((equalPairs (gt.zip lab) : Nat), (equalPairs gt : Nat),
      (equalPairs lab : Nat), (numPairs gt.length : Nat)) := by
  obtain ⟨k, t, e, hgk, hlk, ht⟩ := contingencyTable_ok h.length_eq h.gt_nonneg h.lab_nonneg
  have h0 := ariCounts_eq h.length_eq h.gt_nonneg h.lab_nonneg
  unfold ariCounts at h0
  simp only [] at h0
  rw [e, Outcome.bind_ok] at h0
  simp only [Int.toNat_natCast] at h0
  rw [sumLoop_ok (g := fun i => ∑ j ∈ range k,
      (((gt.zip lab).count ((i : Int), (j : Int))).choose 2 : Nat)) (by
    intro i _
    rw [sumLoop_ok (g := fun j => (((gt.zip lab).count ((i : Int), (j : Int))).choose 2 : Nat))]
    intro j _
    rw [ht, nChoose2_nat])] at h0
  rw [Outcome.bind_ok, sumLoop_ok (g := fun i => ((gt.count (i : Int)).choose 2 : Nat)) (by
    intro i _; rw [clusterSizes_eq, nChoose2_nat])] at h0
  rw [Outcome.bind_ok, sumLoop_ok (g := fun i => ((lab.count (i : Int)).choose 2 : Nat)) (by
    intro i _; rw [clusterSizes_eq, nChoose2_nat])] at h0
  rw [Outcome.bind_ok, nChoose2_nat, Outcome.bind_ok] at h0
  simp only [Outcome.ok.injEq, Prod.mk.injEq] at h0
  obtain ⟨a1, a2, a3, a4⟩ := h0
  have b1 : ∑ i ∈ range k, ∑ j ∈ range k, ((gt.zip lab).count ((i : Int), (j : Int))).choose 2
      = equalPairs (gt.zip lab) := by exact_mod_cast a1
  have b2 : ∑ i ∈ range k, (gt.count (i : Int)).choose 2 = equalPairs gt := by exact_mod_cast a2
  have b3 : ∑ i ∈ range k, (lab.count (i : Int)).choose 2 = equalPairs lab := by exact_mod_cast a3
  obtain ⟨h1, h2, h3, h4, -⟩ := ari_bounds h
  have hN : numPairs gt.length < 2 ^ 62 := by
    rw [numPairs_eq, Nat.choose_two_right]
    have : gt.length * (gt.length - 1) ≤ (2 ^ 31) * (2 ^ 31) := Nat.mul_le_mul (by omega) (by omega)
    omega
  have hn' : lab.length < 2 ^ 31 := h.length_eq ▸ hn
  have hz : (gt.zip lab).length < 2 ^ 31 := by rw [List.length_zip]; omega
  unfold ariCountsInt
  simp only []
  rw [e, Outcome.bind_ok, if_neg (by omega)]
  simp only [Int.toNat_natCast]
  have d1 : accLoop (fun p : Nat × Nat => nChoose2Int (t p.1 p.2))
      ((List.range k).flatMap (fun i => (List.range k).map (fun j => (i, j)))) 0
      = .ok ((equalPairs (gt.zip lab) : Nat) : Int) := by
    have := accLoop_ok (f := fun p : Nat × Nat => nChoose2Int (t p.1 p.2))
      (g := fun p : Nat × Nat => ((gt.zip lab).count ((p.1 : Int), (p.2 : Int))).choose 2)
      ((List.range k).flatMap (fun i => (List.range k).map (fun j => (i, j))))
      (by
        intro p _
        rw [ht, nChoose2Int_nat]
        exact lt_of_le_of_lt List.count_le_length hz) 0
      (by rw [sum_flatMap_pairs, sum_map_range_nat, b1]; omega)
    rw [sum_flatMap_pairs, sum_map_range_nat, b1] at this
    simpa using this
  have d2 : ∀ l : List Int, l.length < 2 ^ 31 →
      ∑ i ∈ range k, (l.count (i : Int)).choose 2 < 2 ^ 62 →
      accLoop (fun i : Nat => nChoose2Int (clusterSizes l i)) (List.range k) 0
        = .ok ((∑ i ∈ range k, (l.count (i : Int)).choose 2 : Nat) : Int) := by
    intro l hl hs
    have := accLoop_ok (f := fun i : Nat => nChoose2Int (clusterSizes l i))
      (g := fun i : Nat => (l.count (i : Int)).choose 2) (List.range k)
      (by
        intro p _
        rw [clusterSizes_eq, nChoose2Int_nat]
        exact lt_of_le_of_lt List.count_le_length hl) 0
      (by rw [sum_map_range_nat]; omega)
    rw [sum_map_range_nat] at this
    simpa using this
  rw [d1, Outcome.bind_ok, d2 gt hn (by rw [b2]; omega), Outcome.bind_ok, d2 lab hn' (by rw [b3]; omega),
    Outcome.bind_ok, nChoose2Int_nat hn, Outcome.bind_ok, b2, b3, numPairs_eq]

theorem ariCountsInt_bad {gt lab : List Int}
    (h : gt.length ≠ lab.length ∨ (∃ x ∈ gt, x < 0) ∨ ∃ x ∈ lab, x < 0) :
    ariCountsInt gt lab = .throw .invalidArgument := by
  unfold ariCountsInt
  simp only []
  rw [contingencyTable_bad h]; rfl

section
variable {K : Type} [Field K] [LinearOrder K]

/-- The last line of the function, on the four counts. -/
def ariLine (fl : K → K) (a b c N : Nat) : XReal K :=
  (XReal.div
    ((XReal.fin (fl (a : K)) - (XReal.div (.fin (fl ((b * c : Nat) : K))) (.fin (fl (N : K)))).round fl).round fl)
    (((XReal.div (.fin (fl ((b + c : Nat) : K))) (.fin 2)).round fl
      - (XReal.div (.fin (fl ((b * c : Nat) : K))) (.fin (fl (N : K)))).round fl).round fl)).round fl

theorem ariFl_eq (fl : K → K) {gt lab : List Int} (h : Clusterings gt lab) (hn : gt.length < 2 ^ 31) :
    adjustedRandIndexFl fl gt lab =
      if equalPairs gt * equalPairs lab < 2 ^ 63 then
        .ok (ariLine fl (equalPairs (gt.zip lab)) (equalPairs gt) (equalPairs lab)
          (numPairs gt.length))
      else .ub := by
  obtain ⟨h1, h2, h3, h4, -⟩ := ari_bounds h
  have hN : numPairs gt.length < 2 ^ 62 := by
    rw [numPairs_eq, Nat.choose_two_right]
    have : gt.length * (gt.length - 1) ≤ (2 ^ 31) * (2 ^ 31) := Nat.mul_le_mul (by omega) (by omega)
    omega
  unfold adjustedRandIndexFl
  rw [ariCountsInt_eq h hn, Outcome.bind_ok]
  dsimp only
  have hs : int64 ((equalPairs gt : Int) + (equalPairs lab : Int))
      = .ok ((equalPairs gt + equalPairs lab : Nat) : Int) := by
    rw [int64_ok (by omega) (by omega)]; push_cast; rfl
  split_ifs with hp
  · have hp' : int64 ((equalPairs gt : Int) * (equalPairs lab : Int))
        = .ok ((equalPairs gt * equalPairs lab : Nat) : Int) := by
      rw [int64_ok (by positivity) (by exact_mod_cast hp)]; push_cast; rfl
    rw [hp', Outcome.bind_ok, hs, Outcome.bind_ok]
    simp only [Int.cast_natCast]
    rfl
  · have hp' : int64 ((equalPairs gt : Int) * (equalPairs lab : Int)) = .ub := by
      unfold int64
      rw [if_neg]
      rintro ⟨_, h⟩
      exact hp (by exact_mod_cast h)
    rw [hp']; rfl

end

/-! ### Rounding to doubles -/

section
variable {K : Type} [Field K] [LinearOrder K] [IsStrictOrderedRing K]

theorem ari_error_algebra {u n A D e num den : K} (u0 : 0 ≤ u) (u1 : u ≤ 1 / 1000) (n1 : 1 ≤ n)
    (hnu : n * u ≤ 1 / 1000) (hD : 0 < D) (hA : |A| ≤ D) (he : |e| ≤ (2 * u + u * u) * (n * D))
    (hnum : |num - (A - e)| ≤ u * |A - e|) (hden : |den - (D - e)| ≤ u * |D - e|) :
    0 < den ∧ |num / den - A / D| ≤ (5 * n + 3) * u := by
  have hAe : |A - e| ≤ D + |e| := le_trans (abs_sub _ _) (by linarith)
  have hDe : |D - e| ≤ D + |e| := le_trans (abs_sub _ _) (by rw [abs_of_pos hD])
  have hη : u * (D + |e|) + |e| ≤ ((2 + 4 * u) * (n * u) + u) * D := by
    have h1 : |e| * (1 + u) ≤ (2 * u + u * u) * (n * D) * (1 + u) :=
      mul_le_mul_of_nonneg_right he (by linarith)
    have h2 : (2 * u + u * u) * (n * D) * (1 + u) ≤ (2 + 4 * u) * (n * u) * D := by
      have h3 : (2 + u) * (1 + u) ≤ 2 + 4 * u := by nlinarith
      have h4 : 0 ≤ n * u * D := by positivity
      calc _ = (2 + u) * (1 + u) * (n * u * D) := by ring
        _ ≤ (2 + 4 * u) * (n * u * D) := mul_le_mul_of_nonneg_right h3 h4
        _ = _ := by ring
    linarith
  obtain ⟨η, hηdef⟩ : ∃ η, η = (2 + 4 * u) * (n * u) + u := ⟨_, rfl⟩
  rw [← hηdef] at hη
  have hnu0 : 0 ≤ n * u := by positivity
  have hη1 : η ≤ 1 / 100 := by rw [hηdef]; nlinarith
  have hη0 : 0 ≤ η := by rw [hηdef]; positivity
  have k1 : |num - A| ≤ η * D := by
    have : num - A = (num - (A - e)) - e := by ring
    rw [this]
    refine le_trans (abs_sub _ _) ?_
    have := mul_le_mul_of_nonneg_left hAe u0
    linarith
  have k2 : |den - D| ≤ η * D := by
    have : den - D = (den - (D - e)) - e := by ring
    rw [this]
    refine le_trans (abs_sub _ _) ?_
    have := mul_le_mul_of_nonneg_left hDe u0
    linarith
  have hdenlb : (1 - η) * D ≤ den := by have := (abs_le.1 k2).1; linarith
  have hdpos : 0 < den := lt_of_lt_of_le (mul_pos (by linarith) hD) hdenlb
  refine ⟨hdpos, ?_⟩
  have eq : num / den - A / D = ((num - A) * D - A * (den - D)) / (den * D) := by
    field_simp; ring
  rw [eq, abs_div, abs_of_pos (mul_pos hdpos hD), div_le_iff₀ (mul_pos hdpos hD)]
  have top : |(num - A) * D - A * (den - D)| ≤ 2 * η * D * D := by
    refine le_trans (abs_sub _ _) ?_
    rw [abs_mul, abs_mul, abs_of_pos hD]
    have t1 := mul_le_mul_of_nonneg_right k1 hD.le
    have t2 : |A| * |den - D| ≤ D * (η * D) := mul_le_mul hA k2 (abs_nonneg _) hD.le
    linarith
  refine le_trans top ?_
  have fin : 2 * η ≤ (5 * n + 3) * u * (1 - η) := by
    have f1 : (5 * n + 3) * u * η ≤ (5 * n + 3) * u * (1 / 100) :=
      mul_le_mul_of_nonneg_left hη1 (by positivity)
    have f2 : u * (n * u) ≤ 1 / 1000 * (n * u) := mul_le_mul_of_nonneg_right u1 hnu0
    have f3 : 2 * η = 4 * (n * u) + 8 * (u * (n * u)) + 2 * u := by rw [hηdef]; ring
    have f4 : (5 * n + 3) * u = 5 * (n * u) + 3 * u := by ring
    rw [f4] at f1 ⊢
    have f5 : (5 * (n * u) + 3 * u) * (1 - η) = 5 * (n * u) + 3 * u - (5 * (n * u) + 3 * u) * η := by ring
    rw [f5, f3]
    linarith
  have g1 : 2 * η * D * D ≤ (5 * n + 3) * u * (1 - η) * D * D := by
    have := mul_le_mul_of_nonneg_right fin (mul_pos hD hD).le
    calc _ = 2 * η * (D * D) := by ring
      _ ≤ _ := this
      _ = _ := by ring
  have g2 : (5 * n + 3) * u * ((1 - η) * D) * D ≤ (5 * n + 3) * u * den * D := by
    apply mul_le_mul_of_nonneg_right _ hD.le
    exact mul_le_mul_of_nonneg_left hdenlb (by positivity)
  calc _ ≤ _ := g1
    _ = (5 * n + 3) * u * ((1 - η) * D) * D := by ring
    _ ≤ _ := g2
    _ = _ := by ring

end

/-- A clustering with more than one cluster separates at least `n - 1` pairs. -/
theorem separated_pairs {α : Type} [DecidableEq α] (l : List α) (h : ¬ ∀ x ∈ l, ∀ y ∈ l, x = y) :
    equalPairs l + (l.length - 1) ≤ numPairs l.length := by
  induction l with
  | nil => simp at h
  | cons a l ih =>
    rw [equalPairs, List.length_cons, numPairs]
    have hc := List.count_le_length (a := a) (l := l)
    have hle := equalPairs_le l
    by_cases hl : ∀ x ∈ l, ∀ y ∈ l, x = y
    · have : l.count a = 0 := by
        rw [List.count_eq_zero]
        intro ha
        apply h
        have key : ∀ x ∈ a :: l, x = a := by
          intro x hx
          rcases List.mem_cons.1 hx with rfl | hx
          · rfl
          · exact hl x hx a ha
        intro x hx y hy
        rw [key x hx, key y hy]
      omega
    · have := ih hl
      have hne : l.count a ≠ l.length := by
        intro e
        apply hl
        have := List.count_eq_length.1 e
        intro x hx y hy
        rw [← this x hx, ← this y hy]
      omega

section
variable {K : Type} [Field K] [LinearOrder K]

/-- **C81 (errors).** Label vectors of different lengths, or with a negative label, raise
`invalid_argument`. -/
theorem C81_errors (fl : K → K) {gt lab : List Int}
    (h : gt.length ≠ lab.length ∨ (∃ x ∈ gt, x < 0) ∨ ∃ x ∈ lab, x < 0) :
    adjustedRandIndexFl fl gt lab = .throw .invalidArgument := by
  unfold adjustedRandIndexFl
  rw [ariCountsInt_bad h]; rfl

theorem ariFl_many (fl : K → K) {gt lab : List Int} (h : Clusterings gt lab) (hn : 2 ^ 31 ≤ gt.length) :
    adjustedRandIndexFl fl gt lab = .ub := by
  obtain ⟨k, t, e, -⟩ := contingencyTable_ok h.length_eq h.gt_nonneg h.lab_nonneg
  unfold adjustedRandIndexFl ariCountsInt
  simp only []
  rw [e, Outcome.bind_ok, if_pos hn]
  rfl

/-- **C81 (overflow).** For two clusterings of the same points, the only undefined behaviour is more
than `2^31 - 1` points, or numbers of pairs whose product does not fit into 64 bits; otherwise a
number (possibly NaN) is returned. -/
theorem C81_overflow (fl : K → K) {gt lab : List Int} (h : Clusterings gt lab) :
    (gt.length < 2 ^ 31 ∧ equalPairs gt * equalPairs lab < 2 ^ 63 →
      ∃ x, adjustedRandIndexFl fl gt lab = .ok x) ∧
    (2 ^ 31 ≤ gt.length ∨ 2 ^ 63 ≤ equalPairs gt * equalPairs lab →
      adjustedRandIndexFl fl gt lab = .ub) := by
  constructor
  · rintro ⟨h1, h2⟩
    rw [ariFl_eq fl h h1, if_pos h2]
    exact ⟨_, rfl⟩
  · intro h'
    rcases Nat.lt_or_ge gt.length (2 ^ 31) with h1 | h1
    · rw [ariFl_eq fl h h1, if_neg (by omega)]
    · exact ariFl_many fl h h1

/-- **C81 (no overflow).** Up to 77936 points nothing overflows. -/
theorem C81_safe (fl : K → K) {gt lab : List Int} (h : Clusterings gt lab) (hn : gt.length ≤ 77936) :
    ∃ x, adjustedRandIndexFl fl gt lab = .ok x := by
  apply (C81_overflow fl h).1
  obtain ⟨c1, c2, c3, nc, e, -, -, -, -, -, -, hp, -⟩ := C38_no_overflow h hn
  rw [ariCounts_eq h.length_eq h.gt_nonneg h.lab_nonneg] at e
  simp only [Outcome.ok.injEq, Prod.mk.injEq] at e
  obtain ⟨-, rfl, rfl, -⟩ := e
  exact ⟨by omega, by exact_mod_cast hp⟩

/-- **C81 (symmetry).** Exchanging the two clusterings does not change a single bit of the result,
whatever the rounding; also errors and undefined behaviour are the same. -/
theorem C81_symmetric (fl : K → K) (gt lab : List Int) :
    adjustedRandIndexFl fl lab gt = adjustedRandIndexFl fl gt lab := by
  by_cases hc : gt.length ≠ lab.length ∨ (∃ x ∈ gt, x < 0) ∨ ∃ x ∈ lab, x < 0
  · rw [C81_errors fl hc, C81_errors fl]
    rcases hc with h | h | h
    · exact .inl (fun e => h e.symm)
    · exact .inr (.inr h)
    · exact .inr (.inl h)
  push Not at hc
  have h1 : Clusterings gt lab := ⟨hc.1, hc.2.1, hc.2.2⟩
  have h2 : Clusterings lab gt := ⟨hc.1.symm, hc.2.2, hc.2.1⟩
  rcases Nat.lt_or_ge gt.length (2 ^ 31) with hn | hn
  · rw [ariFl_eq fl h1 hn, ariFl_eq fl h2 (hc.1 ▸ hn), mul_comm (equalPairs lab)]
    unfold ariLine
    rw [equalPairs_zip_swap, mul_comm (equalPairs lab), add_comm (equalPairs lab), hc.1]
  · rw [ariFl_many fl h1 hn, ariFl_many fl h2 (hc.1 ▸ hn)]

theorem XReal.round_id (x : XReal K) : x.round (fun x => x) = x := by cases x <;> rfl

/-- **C81 (without rounding).** When nothing overflows and nothing is rounded, the result is the one
of the exact model (C38). -/
theorem C81_exact [IsStrictOrderedRing K] {gt lab : List Int} (h : Clusterings gt lab) (hn : gt.length < 2 ^ 31)
    (hp : equalPairs gt * equalPairs lab < 2 ^ 63) :
    adjustedRandIndexFl (fun x : K => x) gt lab = adjustedRandIndex gt lab := by
  rw [ariFl_eq _ h hn, if_pos hp, adjustedRandIndex_eq h]
  unfold ariLine
  simp only [XReal.round_id]
  rw [XReal.div_fin (K := K) _ two_ne_zero]
  push_cast
  rfl

end

section
variable {K : Type} [Field K] [LinearOrder K] [IsStrictOrderedRing K] [FloorRing K]

theorem flBin_of_isFloat {p : Nat} (hp : 0 < p) {x : K} (h : IsFloat p x) : flBin p x = x := by
  have := flBin_nearest hp x h
  rw [sub_self, abs_zero] at this
  exact sub_eq_zero.1 (abs_eq_zero.1 (le_antisymm this (abs_nonneg _)))

theorem flBin_nat {m : Nat} (h : m < 2 ^ 53) : flBin 53 (m : K) = m :=
  flBin_of_isFloat (by norm_num) ⟨m, 0, by rw [Nat.abs_cast]; exact_mod_cast h, by simp⟩

theorem flBin_half {m : Nat} (h : m < 2 ^ 53) : flBin 53 ((m : K) / 2) = m / 2 :=
  flBin_of_isFloat (by norm_num) ⟨m, -1, by rw [Nat.abs_cast]; exact_mod_cast h, by
    rw [zpow_neg, zpow_one, Int.cast_natCast, div_eq_mul_inv]⟩

/-- The quotient `c2 * c3 / nC2` as computed. -/
def ariQ (K : Type) [Field K] [LinearOrder K] [FloorRing K] (b c N : Nat) : K :=
  flBin 53 (flBin 53 ((b : K) * c) / N)

theorem ariLine_eq {a b c N : Nat} (hN : 0 < N) (ha : a < 2 ^ 53) (hbc : b + c < 2 ^ 53)
    (hN' : N < 2 ^ 53) :
    ariLine (flBin 53) a b c N = (XReal.div (.fin (flBin 53 ((a : K) - ariQ K b c N)))
      (.fin (flBin 53 (((b : K) + c) / 2 - ariQ K b c N)))).round (flBin 53) := by
  have hN0 : (N : K) ≠ 0 := by exact_mod_cast hN.ne'
  unfold ariLine ariQ
  rw [flBin_nat ha, flBin_nat hN', flBin_nat hbc, XReal.div_fin _ hN0, XReal.div_fin _ two_ne_zero]
  simp only [XReal.round]
  rw [flBin_half hbc, XReal.fin_sub, XReal.fin_sub]
  push_cast
  rfl

theorem ariQ_err {b c N : Nat} {u : K} (hu : u = (2 : K) ^ (-(53 : Int))) :
    |ariQ K b c N - (b : K) * c / N| ≤ (2 * u + u * u) * ((b : K) * c / N) := by
  have u0 : 0 ≤ u := by rw [hu]; positivity
  have h1 := flBin_err (p := 53) ((b : K) * c)
  have h2 := flBin_err (p := 53) (flBin 53 ((b : K) * c) / N)
  have e : ((53 : Nat) : Int) = 53 := rfl
  rw [e, ← hu] at h1 h2
  have hbc : 0 ≤ (b : K) * c := by positivity
  rw [abs_of_nonneg hbc] at h1
  have h3 : |flBin 53 ((b : K) * c) / N - (b : K) * c / N| ≤ u * ((b : K) * c / N) := by
    rw [← sub_div, abs_div, Nat.abs_cast, mul_div_assoc', ]
    exact div_le_div_of_nonneg_right h1 (by positivity)
  have h4 : |flBin 53 ((b : K) * c) / N| ≤ (1 + u) * ((b : K) * c / N) := by
    have h5 : 0 ≤ (b : K) * c / N := by positivity
    have := abs_sub_abs_le_abs_sub (flBin 53 ((b : K) * c) / N) ((b : K) * c / N)
    rw [abs_of_nonneg h5] at this
    linarith
  have h5 := mul_le_mul_of_nonneg_left h4 u0
  have h6 := abs_sub_le (flBin 53 (flBin 53 ((b : K) * c) / N)) (flBin 53 ((b : K) * c) / N) ((b : K) * c / N)
  unfold ariQ
  linarith

/-- Expected agreement compared with the denominator of the index. -/
theorem ari_cond {gt lab : List Int} (h : Clusterings gt lab) (hu : ¬ AriUndefined gt lab) :
    (equalPairs gt : K) * equalPairs lab / numPairs gt.length ≤ gt.length *
      (((equalPairs gt : K) + equalPairs lab) / 2
        - (equalPairs gt : K) * equalPairs lab / numPairs gt.length) := by
  obtain ⟨hN, -⟩ := ari_nondeg (K := K) h hu
  obtain ⟨-, -, h3, h4, -⟩ := ari_bounds h
  have hN0 := hN.ne'
  have hn2 : 2 ≤ gt.length := by
    by_contra hc; exact hu (.inl (by omega))
  have hNn : 2 * numPairs gt.length = gt.length * (gt.length - 1) := by
    rw [numPairs_eq, Nat.choose_two_right]
    exact Nat.mul_div_cancel' (Nat.even_mul_pred_self gt.length).two_dvd
  have key : 2 * (equalPairs gt * equalPairs lab) ≤ gt.length *
      (equalPairs gt * (numPairs gt.length - equalPairs lab)
        + equalPairs lab * (numPairs gt.length - equalPairs gt)) := by
    by_cases hl : ∀ x ∈ lab, ∀ y ∈ lab, x = y
    · have hg : ¬ ∀ x ∈ gt, ∀ y ∈ gt, x = y := fun hg => hu (.inr (.inr ⟨hg, hl⟩))
      have := separated_pairs gt hg
      have e : equalPairs lab = numPairs gt.length := by
        rw [h.length_eq]; exact (equalPairs_eq_numPairs_iff lab).2 hl
      have s1 : gt.length * (equalPairs lab * (gt.length - 1))
          ≤ gt.length * (equalPairs lab * (numPairs gt.length - equalPairs gt)) :=
        Nat.mul_le_mul_left _ (Nat.mul_le_mul_left _ (by omega))
      have s2 : gt.length * (equalPairs lab * (gt.length - 1)) = 2 * (numPairs gt.length * equalPairs lab) := by
        rw [← mul_assoc 2, hNn]; ring
      have s3 := Nat.mul_le_mul_right (equalPairs lab) h3
      rw [Nat.mul_add]
      omega
    · have := separated_pairs lab hl
      rw [← h.length_eq] at this
      have s1 : gt.length * (equalPairs gt * (gt.length - 1))
          ≤ gt.length * (equalPairs gt * (numPairs gt.length - equalPairs lab)) :=
        Nat.mul_le_mul_left _ (Nat.mul_le_mul_left _ (by omega))
      have s2 : gt.length * (equalPairs gt * (gt.length - 1)) = 2 * (equalPairs gt * numPairs gt.length) := by
        rw [mul_left_comm 2, hNn]; ring
      have s3 := Nat.mul_le_mul_left (equalPairs gt) h4
      rw [Nat.mul_add]
      omega
  have key' : 2 * ((equalPairs gt : K) * equalPairs lab) ≤ gt.length *
      (equalPairs gt * ((numPairs gt.length : K) - equalPairs lab)
        + equalPairs lab * ((numPairs gt.length : K) - equalPairs gt)) := by
    have := (Nat.cast_le (α := K)).2 key
    push_cast [Nat.cast_sub h3, Nat.cast_sub h4] at this
    exact this
  generalize (equalPairs gt : K) = b at *
  generalize (equalPairs lab : K) = c at *
  generalize (numPairs gt.length : K) = N at *
  have e1 : (b + c) / 2 - b * c / N = (b * (N - c) + c * (N - b)) / (2 * N) := by
    field_simp; ring
  rw [e1, mul_div_assoc', div_le_div_iff₀ hN (by positivity)]
  have := mul_le_mul_of_nonneg_right key' hN.le
  linarith

theorem ari_small {gt : List Int} (hn : gt.length < 2 ^ 26) : numPairs gt.length < 2 ^ 52 := by
  rw [numPairs_eq, Nat.choose_two_right]
  have : gt.length * (gt.length - 1) ≤ (2 ^ 26) * (2 ^ 26) := Nat.mul_le_mul (by omega) (by omega)
  omega

/-- What the analysis of the rounding errors gives. -/
theorem ari_analysis {gt lab : List Int} (h : Clusterings gt lab) (hu : ¬ AriUndefined gt lab)
    (hn : gt.length < 2 ^ 26) (hp : equalPairs gt * equalPairs lab < 2 ^ 63) :
    ∃ num den : K, 0 < den ∧ num ≤ den ∧
      adjustedRandIndexFl (flBin 53) gt lab = .ok (.fin (flBin 53 (num / den))) ∧
      (equalPairs (gt.zip lab) * 2 = equalPairs gt + equalPairs lab → num = den) ∧
      |num / den - hubertArabie (equalPairs (gt.zip lab) : K) (equalPairs gt) (equalPairs lab)
        (numPairs gt.length)| ≤ (5 * gt.length + 3) * (2 : K) ^ (-(53 : Int)) := by
  obtain ⟨hN, hd⟩ := ari_nondeg (K := K) h hu
  obtain ⟨h1, h2, h3, h4, -⟩ := ari_bounds h
  have hsm := ari_small hn
  have hN' : 0 < numPairs gt.length := by exact_mod_cast hN
  have hn2 : 2 ≤ gt.length := by
    by_contra hc; exact hu (.inl (by omega))
  obtain ⟨u, hu'⟩ : ∃ u : K, u = (2 : K) ^ (-(53 : Int)) := ⟨_, rfl⟩
  have hq := ariQ_err (b := equalPairs gt) (c := equalPairs lab) (N := numPairs gt.length) hu'
  have hcond := ari_cond (K := K) h hu
  have hval := C38_range (C38_value (K := K) h hu)
  have hu2 : u * 2 ^ 53 = 1 := by
    rw [hu', zpow_neg]; norm_num
  have u0 : 0 ≤ u := by rw [hu']; positivity
  have hnK : (gt.length : K) ≤ 2 ^ 26 := by exact_mod_cast hn.le
  have hnu : (gt.length : K) * u ≤ 1 / 1000 := by
    have := mul_le_mul_of_nonneg_right hnK u0
    norm_num at hu2 this
    linarith
  have hu1 : u ≤ 1 / 1000 := by norm_num at hu2; linarith
  have hn1 : (1 : K) ≤ gt.length := by exact_mod_cast (by omega : 1 ≤ gt.length)
  obtain ⟨Q, hQ⟩ : ∃ Q : K, Q = ariQ K (equalPairs gt) (equalPairs lab) (numPairs gt.length) := ⟨_, rfl⟩
  rw [← hQ] at hq
  have e1 := flBin_err (p := 53) ((equalPairs (gt.zip lab) : K) - Q)
  have e2 := flBin_err (p := 53) (((equalPairs gt : K) + equalPairs lab) / 2 - Q)
  have e53 : ((53 : Nat) : Int) = 53 := rfl
  rw [e53, ← hu'] at e1 e2
  obtain ⟨q, hq'⟩ : ∃ q : K, q = (equalPairs gt : K) * equalPairs lab / numPairs gt.length := ⟨_, rfl⟩
  obtain ⟨D, hD⟩ : ∃ D : K, D = ((equalPairs gt : K) + equalPairs lab) / 2 - q := ⟨_, rfl⟩
  obtain ⟨A, hA⟩ : ∃ A : K, A = (equalPairs (gt.zip lab) : K) - q := ⟨_, rfl⟩
  rw [← hq', ← hD] at hd hcond
  rw [← hq'] at hq
  unfold hubertArabie at hval ⊢
  rw [← hq', ← hD, ← hA] at hval ⊢
  have hAD : |A| ≤ D := by
    have := hval
    rw [le_div_iff₀ hd, div_le_iff₀ hd] at this
    rw [abs_le]; constructor <;> linarith
  have r1 : (equalPairs (gt.zip lab) : K) - Q = A - (Q - q) := by rw [hA]; ring
  have r2 : ((equalPairs gt : K) + equalPairs lab) / 2 - Q = D - (Q - q) := by rw [hD]; ring
  rw [r1] at e1
  rw [r2] at e2
  have he : |Q - q| ≤ (2 * u + u * u) * (gt.length * D) :=
    le_trans hq (mul_le_mul_of_nonneg_left hcond (by positivity))
  obtain ⟨den0, main⟩ := ari_error_algebra u0 hu1 hn1 hnu hd hAD he e1 e2
  refine ⟨_, _, den0, ?_, ?_, ?_, by rw [← hu']; exact main⟩
  · apply flBin_mono (by norm_num)
    have h1' : (equalPairs (gt.zip lab) : K) ≤ equalPairs gt := by exact_mod_cast h1
    have h2' : (equalPairs (gt.zip lab) : K) ≤ equalPairs lab := by exact_mod_cast h2
    rw [← r1, ← r2]
    linarith
  · rw [ariFl_eq _ h (by omega), if_pos hp, ariLine_eq hN' (by omega) (by omega) (by omega), ← hQ, r1, r2,
      XReal.div_fin _ den0.ne']
    rfl
  · intro e
    rw [← r1, ← r2]
    have : (equalPairs (gt.zip lab) : K) * 2 = equalPairs gt + equalPairs lab := by exact_mod_cast e
    rw [← this]
    congr 1
    ring

/-- **C81 (accuracy).** For two clusterings of the same `n < 2^26` points for which the index is
defined, and unless the product overflows, the call returns a finite number which is at most 1 and
differs from the adjusted Rand index by at most `(5n + 5) 2^-53`. -/
theorem C81_error {gt lab : List Int} (h : Clusterings gt lab) (hu : ¬ AriUndefined gt lab)
    (hn : gt.length < 2 ^ 26) (hp : equalPairs gt * equalPairs lab < 2 ^ 63) :
    ∃ x : K, adjustedRandIndexFl (flBin 53) gt lab = .ok (.fin x) ∧ x ≤ 1 ∧
      |x - hubertArabie (equalPairs (gt.zip lab) : K) (equalPairs gt) (equalPairs lab)
        (numPairs gt.length)| ≤ (5 * gt.length + 5) * (2 : K) ^ (-(53 : Int)) := by
  obtain ⟨num, den, d0, hle, e, -, herr⟩ := ari_analysis (K := K) h hu hn hp
  have hval := C38_range (C38_value (K := K) h hu)
  refine ⟨_, e, ?_, ?_⟩
  · have h1 : num / den ≤ 1 := by rw [div_le_one d0]; exact hle
    have h2 := flBin_mono (p := 53) (by norm_num) h1
    have h3 : flBin 53 (1 : K) = 1 := by
      have := flBin_nat (K := K) (m := 1) (by norm_num)
      simpa using this
    rwa [h3] at h2
  · obtain ⟨u, hu'⟩ : ∃ u : K, u = (2 : K) ^ (-(53 : Int)) := ⟨_, rfl⟩
    have e53 : ((53 : Nat) : Int) = 53 := rfl
    have e1 := flBin_err (p := 53) (num / den)
    rw [e53, ← hu'] at e1
    rw [← hu'] at herr ⊢
    generalize hubertArabie (equalPairs (gt.zip lab) : K) (equalPairs gt) (equalPairs lab)
        (numPairs gt.length) = r at *
    have hu2 : u * 2 ^ 53 = 1 := by
      rw [hu', zpow_neg]; norm_num
    have u0 : 0 ≤ u := by rw [hu']; positivity
    have hnK : (gt.length : K) ≤ 2 ^ 26 := by exact_mod_cast hn.le
    have hnu := mul_le_mul_of_nonneg_right hnK u0
    have hr : |r| ≤ 1 := abs_le.2 hval
    have hx : |num / den| ≤ 2 := by
      have := abs_sub_abs_le_abs_sub (num / den) r
      norm_num at hu2 hnu
      linarith
    have := mul_le_mul_of_nonneg_left hx u0
    have := abs_sub_le (flBin 53 (num / den)) (num / den) r
    linarith

/-- **C81 (identical clusterings).** A clustering of fewer than `2^26` points compared with itself, up
to names of the clusters, gives exactly 1.0: no rounding error survives.  (For clusterings for which
the index is undefined see `C81_undefined`.) -/
theorem C81_self {gt lab : List Int} (h : Clusterings gt lab) (hu : ¬ AriUndefined gt lab)
    (hn : gt.length < 2 ^ 26) (hp : equalPairs gt * equalPairs lab < 2 ^ 63)
    (hsame : ∀ i j (hi : i < gt.length) (hj : j < gt.length) (hi' : i < lab.length)
      (hj' : j < lab.length), gt[i] = gt[j] ↔ lab[i] = lab[j]) :
    adjustedRandIndexFl (flBin 53) gt lab = .ok (.fin (1 : K)) := by
  obtain ⟨num, den, d0, -, e, heq, -⟩ := ari_analysis (K := K) h hu hn hp
  have same : ∀ (l m : List Int), l.length = m.length →
      (∀ i j (hi : i < l.length) (hj : j < l.length) (hi' : i < m.length)
        (hj' : j < m.length), l[i] = l[j] ↔ m[i] = m[j]) →
      equalPairs (l.zip m) = equalPairs l ∧ equalPairs (l.zip m) = equalPairs m := by
    intro l m hlen hs
    have a1 : ((l.zip m).map Prod.fst) = l := List.map_fst_zip hlen.le
    have a2 : ((l.zip m).map Prod.snd) = m := List.map_snd_zip hlen.ge
    have inj : ∀ x ∈ l.zip m, ∀ y ∈ l.zip m, (x.1 = y.1 ↔ x.2 = y.2) := by
      intro x hx y hy
      obtain ⟨i, hi, rfl⟩ := List.getElem_of_mem hx
      obtain ⟨j, hj, rfl⟩ := List.getElem_of_mem hy
      rw [List.getElem_zip, List.getElem_zip]
      rw [List.length_zip] at hi hj
      exact hs i j (by omega) (by omega) (by omega) (by omega)
    constructor
    · conv_rhs => rw [← a1]
      rw [equalPairs_map]
      intro x hx y hy hxy
      exact Prod.ext hxy ((inj x hx y hy).1 hxy)
    · conv_rhs => rw [← a2]
      rw [equalPairs_map]
      intro x hx y hy hxy
      exact Prod.ext ((inj x hx y hy).2 hxy) hxy
  obtain ⟨s1, s2⟩ := same gt lab h.length_eq hsame
  have := heq (by omega)
  rw [e, this, div_self d0.ne']
  have h3 := flBin_nat (K := K) (m := 1) (by norm_num)
  rw [Nat.cast_one] at h3
  rw [h3]

/-- **C81 (undefined).** When the index is undefined, the call returns NaN if there are fewer than two
points or only singletons.  For two clusterings with a single cluster it returns NaN or 1.0: 1.0
exactly when the quotient `nC2 * nC2 / nC2`, as rounded, is not `nC2`. -/
theorem C81_undefined {gt lab : List Int} (h : Clusterings gt lab) (hu : AriUndefined gt lab)
    (hn : gt.length < 2 ^ 26) (hp : equalPairs gt * equalPairs lab < 2 ^ 63) :
    adjustedRandIndexFl (flBin 53) gt lab = .ok (if gt.length < 2 ∨ (gt.Nodup ∧ lab.Nodup) ∨
      flBin 53 (flBin 53 ((numPairs gt.length : K) * numPairs gt.length) / numPairs gt.length)
        = (numPairs gt.length : K) then .nan else .fin (1 : K)) := by
  obtain ⟨h1, h2, h3, h4, -⟩ := ari_bounds h
  have hsm := ari_small hn
  have z : flBin 53 ((0 : Nat) : K) = 0 := by rw [Nat.cast_zero, flBin_zero]
  rw [ariFl_eq _ h (by omega), if_pos hp]
  congr 1
  rcases Nat.eq_zero_or_pos (numPairs gt.length) with hN | hN
  · have e1 : equalPairs gt = 0 := by omega
    have e2 : equalPairs lab = 0 := by omega
    have e3 : equalPairs (gt.zip lab) = 0 := by omega
    rw [if_pos (.inl ((numPairs_eq_zero_iff _).1 hN)), hN, e1, e2, e3]
    unfold ariLine
    rw [Nat.mul_zero, Nat.add_zero, z, XReal.div_zero_zero rfl rfl, XReal.div_fin _ two_ne_zero]
    rfl
  · rw [ariLine_eq hN (by omega) (by omega) (by omega)]
    have hN0 : (numPairs gt.length : K) ≠ 0 := by exact_mod_cast hN.ne'
    rcases hu with hu | ⟨hu1, hu2⟩ | ⟨hu1, hu2⟩
    · rw [(numPairs_eq_zero_iff _).2 hu] at hN; omega
    · have e2 := (equalPairs_eq_zero_iff gt).2 hu1
      have e3 := (equalPairs_eq_zero_iff lab).2 hu2
      have e4 : equalPairs (gt.zip lab) = 0 := by omega
      rw [if_pos (.inr (.inl ⟨hu1, hu2⟩)), e2, e3, e4]
      have hq : ariQ K 0 0 (numPairs gt.length) = 0 := by
        unfold ariQ; simp [flBin_zero]
      rw [hq, XReal.div_zero_zero (by simp [flBin_zero]) (by simp [flBin_zero])]
      rfl
    · have e2 := (equalPairs_eq_numPairs_iff gt).2 hu1
      have e3 := (equalPairs_eq_numPairs_iff lab).2 hu2
      have e4 := (equalPairs_eq_numPairs_iff (gt.zip lab)).2 (zip_same_of_const hu1 hu2)
      rw [← h.length_eq] at e3
      have e5 : (gt.zip lab).length = gt.length := by simp [h.length_eq]
      rw [e5] at e4
      rw [e2, e3, e4]
      have n1 : ¬ gt.length < 2 := fun hc => by
        rw [(numPairs_eq_zero_iff _).2 hc] at hN; omega
      have n2 : ¬ (gt.Nodup ∧ lab.Nodup) := fun hc => by
        have := (equalPairs_eq_zero_iff gt).2 hc.1; omega
      have e6 : ((numPairs gt.length : K) + numPairs gt.length) / 2 = numPairs gt.length := by ring
      rw [e6]
      unfold ariQ
      by_cases hc : flBin 53 (flBin 53 ((numPairs gt.length : K) * numPairs gt.length) / numPairs gt.length)
        = (numPairs gt.length : K)
      · rw [if_pos (.inr (.inr hc)), hc, sub_self, XReal.div_zero_zero (flBin_zero 53) (flBin_zero 53)]
        rfl
      · rw [if_neg (by rintro (h | h | h); exacts [n1 h, n2 h, hc h])]
        have hne : flBin 53 ((numPairs gt.length : K) -
            flBin 53 (flBin 53 ((numPairs gt.length : K) * numPairs gt.length) / numPairs gt.length)) ≠ 0 := by
          intro h0
          have he := flBin_err (p := 53) ((numPairs gt.length : K) -
            flBin 53 (flBin 53 ((numPairs gt.length : K) * numPairs gt.length) / numPairs gt.length))
          rw [h0, zero_sub, abs_neg] at he
          have hpos := abs_pos.2 (sub_ne_zero.2 (Ne.symm hc))
          have hu1 := (Rounding.binary K 53 (by norm_num)).u1
          have : (2 : K) ^ (-((53 : Nat) : Int)) * |(numPairs gt.length : K) -
            flBin 53 (flBin 53 ((numPairs gt.length : K) * numPairs gt.length) / numPairs gt.length)|
              < 1 * |(numPairs gt.length : K) -
            flBin 53 (flBin 53 ((numPairs gt.length : K) * numPairs gt.length) / numPairs gt.length)| :=
            mul_lt_mul_of_pos_right hu1 hpos
          rw [one_mul] at this
          exact absurd (lt_of_le_of_lt he this) (lt_irrefl _)
        rw [XReal.div_fin _ hne, div_self hne]
        have h3 := flBin_nat (K := K) (m := 1) (by norm_num)
        rw [Nat.cast_one] at h3
        simp only [XReal.round, h3]

/-- **C81 (a single cluster, small).** Up to 13777 points, two clusterings with a single cluster give
NaN. -/
theorem C81_single_small {gt lab : List Int} (h : Clusterings gt lab)
    (h1 : ∀ x ∈ gt, ∀ y ∈ gt, x = y) (h2 : ∀ x ∈ lab, ∀ y ∈ lab, x = y) (hn : gt.length ≤ 13777) :
    adjustedRandIndexFl (flBin 53) gt lab = .ok (.nan : XReal K) := by
  obtain ⟨-, -, h3, h4, -⟩ := ari_bounds h
  have hN : numPairs gt.length ≤ 94895976 := by
    rw [numPairs_eq]
    calc _ ≤ Nat.choose 13777 2 := Nat.choose_le_choose 2 hn
      _ = _ := by rw [Nat.choose_two_right]
  have hm : equalPairs gt * equalPairs lab ≤ 94895976 * 94895976 := Nat.mul_le_mul (by omega) (by omega)
  rw [C81_undefined h (.inr (.inr ⟨h1, h2⟩)) (by omega) (by omega)]
  congr 1
  apply if_pos
  by_cases hl : gt.length < 2
  · exact .inl hl
  refine .inr (.inr ?_)
  have hN0 : (numPairs gt.length : K) ≠ 0 := by
    intro hc
    exact hl ((numPairs_eq_zero_iff _).1 (by exact_mod_cast hc))
  have hm2 : numPairs gt.length * numPairs gt.length ≤ 94895976 * 94895976 := Nat.mul_le_mul hN hN
  rw [← Nat.cast_mul, flBin_nat (by omega), Nat.cast_mul, mul_div_assoc, div_self hN0, mul_one,
    flBin_nat (by omega)]

end

/-- **C81 (a single cluster, large).** With 55136 points in one cluster on both sides the computed index
is not NaN but 1.0: whether trivial clusterings are recognised depends on how a product of two
64-bit integers is rounded. -/
theorem C81_single_large {gt lab : List Int} (h : Clusterings gt lab)
    (h1 : ∀ x ∈ gt, ∀ y ∈ gt, x = y) (h2 : ∀ x ∈ lab, ∀ y ∈ lab, x = y) (hn : gt.length = 55136) :
    adjustedRandIndexFl (flBin 53) gt lab = .ok (.fin (1 : ℚ)) := by
  have hN : numPairs gt.length = 1519961680 := by
    rw [hn, numPairs_eq, Nat.choose_two_right]
  have e1 : equalPairs gt = 1519961680 := by
    rw [(equalPairs_eq_numPairs_iff _).2 h1, hN]
  have e2 : equalPairs lab = 1519961680 := by
    rw [(equalPairs_eq_numPairs_iff _).2 h2, ← h.length_eq, hN]
  rw [C81_undefined h (.inr (.inr ⟨h1, h2⟩)) (by rw [hn]; norm_num) (by rw [e1, e2]; norm_num), hN, if_neg]
  rintro (h | h | h)
  · omega
  · have := (equalPairs_eq_zero_iff _).2 h.1
    omega
  · revert h
    clear * -
    decide +kernel

/-- **C81 (overflow, concretely).** From 77937 points in a single cluster on, the behaviour is
undefined. -/
theorem C81_overflow_at_77937 {K : Type} [Field K] [LinearOrder K] (fl : K → K) :
    adjustedRandIndexFl fl (List.replicate 77937 0) (List.replicate 77937 0) = .ub := by
  have hmem : ∀ x ∈ List.replicate 77937 (0 : Int), x = 0 := fun x hx => List.eq_of_mem_replicate hx
  have h0 : ∀ x ∈ List.replicate 77937 (0 : Int), 0 ≤ x := fun x hx => by rw [hmem x hx]
  apply (C81_overflow fl ⟨rfl, h0, h0⟩).2
  right
  have e : equalPairs (List.replicate 77937 (0 : Int)) = 3037049016 := by
    rw [(equalPairs_eq_numPairs_iff _).2, List.length_replicate, numPairs_eq,
      Nat.choose_two_right]
    intro x hx y hy
    rw [hmem x hx, hmem y hy]
  rw [e]; norm_num

/-! Concrete cases. -/

example : ¬ AriUndefined [0, 0, 1, 1, 2] [1, 1, 0, 0, 2] := by unfold AriUndefined; decide

example : equalPairs [0, 0, 1, 1, 2] * equalPairs [1, 1, 0, 0, 2] < 2 ^ 63 := by decide

/-- The computed number is not the index of this pair of clusterings, 1/6, but near it. -/
example : (match adjustedRandIndexFl (flBin 53) [0, 0, 1, 1, 2, 2] [0, 0, 1, 2, 1, 2] with
    | .ok (.fin x) => decide (x ≠ (1 / 6 : ℚ) ∧ |x - 1 / 6| ≤ 1 / 2 ^ 50)
    | _ => false) = true := by decide +kernel

end Stag
