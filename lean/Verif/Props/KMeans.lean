import Verif.KMeansLemmas
import Verif.Props.Mersenne

/-!
# C55: k-means
-/

namespace Stag
namespace KMeans

variable {K : Type} [Field K] [LinearOrder K] [IsStrictOrderedRing K]

/-! ## Lloyd's iteration -/

omit [IsStrictOrderedRing K] in
/-- The centres after `j` iterations, as long as the loop has not stopped before. -/
theorem runLloyd_centres (X : Nat → Nat → K) (N D k : Nat) (Mu : Nat → Nat → K) (Z : Nat → Nat) (j : Nat)
    (h : ∀ i < j, prevs X N D k Mu i ≠ prevs X N D k Mu (i + 1)) :
    (runLloyd X N D k Mu Z (j : Int)).1 = cen X N D k Mu j := by
  cases j with
  | zero => rfl
  | succ j =>
    obtain ⟨a, a1, a2, -, -, a5⟩ := runLloyd_spec X N D k Mu Z j
    have : a = j := by
      by_contra hne
      exact h a (by omega) (a5 (by omega))
    rw [a2, this]

/-- **C55** (result).  After at least one iteration every point has a label below `k`, the label of the
nearest of the centres used in the last assignment, those returned with a smaller number of iterations (the first one in a
tie), and every returned centre is the mean of the points with its label, or the origin if it has none. -/
theorem C55_result (X : Nat → Nat → K) (N D k : Nat) (hk : 0 < k) (Mu : Nat → Nat → K) (Z : Nat → Nat)
    (Niter : Int) (hN : 1 ≤ Niter) :
    (∀ i < N, (runLloyd X N D k Mu Z Niter).2 i < k) ∧
    (∃ m : Nat, m < Niter ∧ Nearest X N D k (runLloyd X N D k Mu Z m).1 (runLloyd X N D k Mu Z Niter).2) ∧
    Means X N D k (runLloyd X N D k Mu Z Niter).1 (runLloyd X N D k Mu Z Niter).2 := by
  obtain ⟨n, rfl⟩ : ∃ n : Nat, Niter = ((n + 1 : Nat) : Int) := ⟨(Niter - 1).toNat, by omega⟩
  obtain ⟨j, hj, h1, h2, h3, -⟩ := runLloyd_spec X N D k Mu Z n
  have hnear := lab_nearest X N D k hk (cen X N D k Mu j)
  refine ⟨fun i hi => by rw [h2 i hi]; exact (hnear i hi).1, ⟨j, by omega, fun i hi => ?_⟩, ?_⟩
  · rw [runLloyd_centres X N D k Mu Z j h3, h2 i hi]; exact hnear i hi
  · rw [h1, cen, ← calcMu_congr X N h2]
    exact calcMu_means X N D k _

/-- **C55** (monotonicity).  Another iteration never increases the cost of the returned clustering, and
the cost is at most that of any labelling with the initial centres. -/
theorem C55_monotone (X : Nat → Nat → K) (N D k : Nat) (hk : 0 < k) (Mu : Nat → Nat → K) (Z : Nat → Nat)
    (n m : Nat) (hn : 1 ≤ n) (hnm : n ≤ m) :
    cost X N D (runLloyd X N D k Mu Z m).1 (runLloyd X N D k Mu Z m).2 ≤
      cost X N D (runLloyd X N D k Mu Z n).1 (runLloyd X N D k Mu Z n).2 ∧
    ∀ Z', (∀ i < N, Z' i < k) →
      cost X N D (runLloyd X N D k Mu Z m).1 (runLloyd X N D k Mu Z m).2 ≤ cost X N D Mu Z' := by
  have hF : ∀ i, cost X N D (cen X N D k Mu (i + 1 + 1)) (lab X D k (cen X N D k Mu (i + 1))) ≤
      cost X N D (cen X N D k Mu (i + 1)) (lab X D k (cen X N D k Mu i)) := fun i =>
    le_trans (step_means X N D k hk Mu (i + 1)) (step_labels X N D k hk Mu i)
  have hFm : ∀ i i', i ≤ i' → cost X N D (cen X N D k Mu (i' + 1)) (lab X D k (cen X N D k Mu i')) ≤
      cost X N D (cen X N D k Mu (i + 1)) (lab X D k (cen X N D k Mu i)) := by
    intro i i' h
    induction i' with
    | zero => obtain rfl : i = 0 := by omega
              exact le_rfl
    | succ i' ih =>
      rcases Nat.eq_or_lt_of_le h with rfl | h'
      · exact le_rfl
      · exact le_trans (hF i') (ih (by omega))
  obtain ⟨n, rfl⟩ : ∃ n', n = n' + 1 := ⟨n - 1, by omega⟩
  obtain ⟨m, rfl⟩ : ∃ m', m = m' + 1 := ⟨m - 1, by omega⟩
  obtain ⟨a, a1, a2, a3, a4, a5⟩ := runLloyd_spec X N D k Mu Z n
  obtain ⟨b, b1, b2, b3, b4, b5⟩ := runLloyd_spec X N D k Mu Z m
  rw [a2, b2, cost_congr X N D _ a3, cost_congr X N D _ b3]
  refine ⟨hFm a b ?_, fun Z' hZ' => ?_⟩
  · by_contra hlt
    exact a4 b (by omega) (b5 (by omega))
  · refine le_trans (hFm 0 b (Nat.zero_le _)) (le_trans (step_means X N D k hk Mu 0) ?_)
    exact nearest_cost_le (lab_nearest X N D k hk _) Z' hZ'

/-- **C55** (termination).  Lloyd's iteration stops by itself within `k^N + 2` iterations: more
iterations do not change the result. -/
theorem C55_terminates (X : Nat → Nat → K) (N D k : Nat) (hk : 0 < k) (Mu : Nat → Nat → K) (Z : Nat → Nat)
    (m : Nat) (hm : k ^ N + 2 ≤ m) :
    (runLloyd X N D k Mu Z m).1 = (runLloyd X N D k Mu Z ((k ^ N + 2 : Nat) : Int)).1 ∧
    ∀ i < N, (runLloyd X N D k Mu Z m).2 i = (runLloyd X N D k Mu Z ((k ^ N + 2 : Nat) : Int)).2 i := by
  obtain ⟨s, hs, hstop⟩ := tot_collision X N D k hk Mu
  obtain ⟨m, rfl⟩ : ∃ m', m = m' + 1 := ⟨m - 1, by omega⟩
  obtain ⟨a, a1, a2, a3, a4, a5⟩ := runLloyd_spec X N D k Mu Z m
  obtain ⟨b, b1, b2, b3, b4, b5⟩ := runLloyd_spec X N D k Mu Z (k ^ N + 1)
  have has : a ≤ s := by
    by_contra h; exact a4 s (by omega) hstop
  have hbs : b ≤ s := by
    by_contra h; exact b4 s (by omega) hstop
  have hab : a = b := by
    rcases lt_trichotomy a b with h | h | h
    · exact absurd (a5 (by omega)) (b4 a h)
    · exact h
    · exact absurd (b5 (by omega)) (a4 b h)
  subst hab
  exact ⟨by rw [a2, b2], fun i hi => by rw [a3 i hi, b3 i hi]⟩

omit [LinearOrder K] [IsStrictOrderedRing K] in
theorem dist2_congr {D : Nat} {x y x' y' : Nat → K} (hx : SameRow D x x') (hy : SameRow D y y') :
    dist2 D x y = dist2 D x' y' :=
  Finset.sum_congr rfl (fun d hd => by rw [hx d (Finset.mem_range.1 hd), hy d (Finset.mem_range.1 hd)])

omit [Field K] [IsStrictOrderedRing K] in
theorem argmin_congr {f g : Nat → K} {k : Nat} (h : ∀ c < k, f c = g c) : argmin f k = argmin g k := by
  have key : ∀ m ≤ k, argmin f m = argmin g m ∧ argmin f m ≤ m - 1 := by
    intro m
    induction m with
    | zero => intro _; exact ⟨rfl, le_rfl⟩
    | succ m ih =>
      intro hm
      obtain ⟨h1, h2⟩ := ih (by omega)
      have e : ∀ f : Nat → K, argmin f (m + 1) = if f m < f (argmin f m) then m else argmin f m := by
        intro f
        unfold argmin
        rw [List.range_succ, List.foldl_append]
        rfl
      rw [e, e, ← h1, h m (by omega), h (argmin f m) (by omega)]
      refine ⟨rfl, ?_⟩
      split_ifs <;> omega
  exact (key k le_rfl).1

omit [IsStrictOrderedRing K] in
theorem lab_congr {X : Nat → Nat → K} {D k : Nat} {Mu Mu' : Nat → Nat → K}
    (h : ∀ c < k, SameRow D (Mu c) (Mu' c)) (i : Nat) : lab X D k Mu i = lab X D k Mu' i := by
  apply argmin_congr
  intro c hc
  rw [pairDist_eq, pairDist_eq, dist2_congr (fun _ _ => rfl) (h c hc)]

/-- If the relabelling costs nothing and every cluster is in use, the means are the old centres. -/
theorem same_centres {X : Nat → Nat → K} {N D k : Nat} (hk : 0 < k) {Mu : Nat → Nat → K}
    (hused : ∀ c < k, ∃ i < N, lab X D k Mu i = c)
    (h : cost X N D Mu (lab X D k Mu) ≤ cost X N D (calcMu X N (lab X D k Mu)) (lab X D k Mu)) :
    ∀ c < k, SameRow D (calcMu X N (lab X D k Mu) c) (Mu c) := by
  intro c hc
  have h1 := means_optimal (fun i hi => (lab_nearest X N D k hk Mu i hi).1)
    (calcMu_means X N D k (lab X D k Mu)) Mu
  have h0 : ∑ c ∈ Finset.range k, ((cluster N (lab X D k Mu) c).card : K) *
      dist2 D (calcMu X N (lab X D k Mu) c) (Mu c) ≤ 0 := by linarith
  have hz := (Finset.sum_eq_zero_iff_of_nonneg (fun c _ =>
    mul_nonneg (Nat.cast_nonneg (α := K) _) (dist2_nonneg D (calcMu X N (lab X D k Mu) c) (Mu c)))).1
    (le_antisymm h0 (Finset.sum_nonneg (fun c _ =>
      mul_nonneg (Nat.cast_nonneg _) (dist2_nonneg _ _ _)))) c (Finset.mem_range.2 hc)
  obtain ⟨i, hi, hic⟩ := hused c hc
  have hcard : ((cluster N (lab X D k Mu) c).card : K) ≠ 0 := by
    have : 0 < (cluster N (lab X D k Mu) c).card :=
      Finset.card_pos.2 ⟨i, Finset.mem_filter.2 ⟨Finset.mem_range.2 hi, hic⟩⟩
    exact_mod_cast this.ne'
  exact dist2_eq_zero.1 ((mul_eq_zero.1 hz).resolve_left hcard)

/-- **C55** (local optimum).  If no cluster is ever empty, the clustering it stops with is a local
optimum: every point is labelled with the nearest of the *returned* centres and every returned centre
is the mean of its points.  In more than 16 dimensions the squared lengths are left out of the total,
and one more condition is needed: the first total must not be zero by accident. -/
theorem C55_local_optimum (X : Nat → Nat → K) (N D k : Nat) (hk : 0 < k) (Mu : Nat → Nat → K)
    (Z : Nat → Nat) (m : Nat) (hm : k ^ N + 2 ≤ m)
    (hused : ∀ n : Nat, 1 ≤ n → ∀ c < k, ∃ i < N, (runLloyd X N D k Mu Z n).2 i = c)
    (hfirst : D ≤ 16 ∨ ∀ Z', Nearest X N D k Mu Z' →
      cost X N D Mu Z' ≠ ∑ i ∈ Finset.range N, ∑ d ∈ Finset.range D, X i d ^ 2) :
    Nearest X N D k (runLloyd X N D k Mu Z m).1 (runLloyd X N D k Mu Z m).2 ∧
    Means X N D k (runLloyd X N D k Mu Z m).1 (runLloyd X N D k Mu Z m).2 := by
  refine ⟨?_, (C55_result X N D k hk Mu Z m (by omega)).2.2⟩
  obtain ⟨s, hs, hstop⟩ := tot_collision X N D k hk Mu
  obtain ⟨m, rfl⟩ : ∃ m', m = m' + 1 := ⟨m - 1, by omega⟩
  obtain ⟨j, j1, j2, j3, j4, j5⟩ := runLloyd_spec X N D k Mu Z m
  have hjs : j ≤ s := by
    by_contra h; exact j4 s (by omega) hstop
  have hj : prevs X N D k Mu j = prevs X N D k Mu (j + 1) := by
    rcases Nat.lt_or_ge j m with h | h
    · exact j5 h
    · have : j = s := by omega
      rw [this]; exact hstop
  -- every label is in use at every iteration up to the last
  have huse : ∀ i ≤ j, ∀ c < k, ∃ p < N, lab X D k (cen X N D k Mu i) p = c := by
    intro i hi c hc
    obtain ⟨a, a1, a2, a3, a4, a5⟩ := runLloyd_spec X N D k Mu Z i
    have hai : a = i := by
      by_contra hne
      exact j4 a (by omega) (a5 (by omega))
    obtain ⟨p, hp, hpc⟩ := hused (i + 1) (by omega) c hc
    exact ⟨p, hp, by rw [← hai, ← a3 p hp]; exact hpc⟩
  -- the centres did not move
  have hsame : ∀ c < k, SameRow D (cen X N D k Mu (j + 1) c) (cen X N D k Mu j c) := by
    cases j with
    | zero =>
      rw [cen]
      apply same_centres hk (huse 0 le_rfl)
      have h0 : tot X N D k Mu = 0 := hj.symm
      rw [tot_eq] at h0
      by_cases hD : D ≤ 16
      · have hoff : ∑ i ∈ Finset.range N, off X D i = 0 :=
          Finset.sum_eq_zero (fun i _ => by unfold off; rw [if_pos hD])
        rw [hoff, sub_zero] at h0
        rw [cen, h0]
        exact Finset.sum_nonneg (fun _ _ => dist2_nonneg _ _ _)
      · exfalso
        have hoff : ∑ i ∈ Finset.range N, off X D i
            = ∑ i ∈ Finset.range N, ∑ d ∈ Finset.range D, X i d ^ 2 :=
          Finset.sum_congr rfl (fun i _ => by unfold off; rw [if_neg hD])
        exact hfirst.resolve_left hD _ (lab_nearest X N D k hk Mu) (by rw [← hoff]; linarith)
    | succ i =>
      have ht : tot X N D k (cen X N D k Mu i) = tot X N D k (cen X N D k Mu (i + 1)) := hj
      rw [tot_eq, tot_eq] at ht
      have h1 := step_means X N D k hk Mu i
      have h2 := step_labels X N D k hk Mu i
      have h3 := same_centres hk (huse i (by omega)) (by
        have : cen X N D k Mu (i + 1) = calcMu X N (lab X D k (cen X N D k Mu i)) := rfl
        rw [← this]; linarith)
      have h4 : ∀ p, lab X D k (cen X N D k Mu (i + 1)) p = lab X D k (cen X N D k Mu i) p :=
        fun p => lab_congr h3 p
      intro c hc d hd
      have : cen X N D k Mu (i + 1 + 1) = cen X N D k Mu (i + 1) := by
        rw [cen]
        conv_rhs => rw [cen]
        exact calcMu_congr X N (fun p _ => h4 p)
      rw [this]
  have hnear := lab_nearest X N D k hk (cen X N D k Mu j)
  intro i hi
  rw [j2, j3 i hi]
  obtain ⟨n1, n2, n3⟩ := hnear i hi
  have e : ∀ c < k, dist2 D (X i) (cen X N D k Mu (j + 1) c) = dist2 D (X i) (cen X N D k Mu j c) :=
    fun c hc => dist2_congr (fun _ _ => rfl) (hsame c hc)
  refine ⟨n1, fun c hc => ?_, fun c hc => ?_⟩
  · rw [e _ n1, e c hc]; exact n2 c hc
  · rw [e _ n1, e c (by omega)]; exact n3 c hc

/-! ## k-means++ -/

/-- The sum of the first `j` weights. -/
def psum (p : Nat → K) (j : Nat) : K := ∑ i ∈ Finset.range j, p i

omit [IsStrictOrderedRing K] in
theorem discreteLoop_spec (p : Nat → K) (r : K) (left newk : Nat) :
    let j := discreteLoop p r left newk (psum p (newk + 1))
    newk ≤ j ∧ j ≤ newk + left ∧ (j < newk + left → r < psum p (j + 1)) ∧
      ∀ i, newk ≤ i → i < j → psum p (i + 1) ≤ r := by
  induction left generalizing newk with
  | zero => simp only [discreteLoop]; exact ⟨le_rfl, le_rfl, fun h => by omega, fun i h1 h2 => by omega⟩
  | succ left ih =>
    simp only [discreteLoop]
    split_ifs with h
    · have e : psum p (newk + 1) + p (newk + 1) = psum p (newk + 1 + 1) := by
        unfold psum; rw [Finset.sum_range_succ _ (newk + 1)]
      rw [e]
      obtain ⟨h1, h2, h3, h4⟩ := ih (newk + 1)
      refine ⟨by omega, by omega, fun hj => h3 (by omega), fun i hi hj => ?_⟩
      rcases Nat.eq_or_lt_of_le hi with rfl | h'
      · exact h
      · exact h4 i h' hj
    · exact ⟨le_rfl, by omega, fun _ => not_le.1 h, fun i h1 h2 => by omega⟩

omit [IsStrictOrderedRing K] in
theorem discreteRand_lt (p : Nat → K) (n : Nat) (hn : 0 < n) (u : K) : discreteRand p n u < n := by
  have h := discreteLoop_spec p (((List.range n).map p).sum * u) (n - 1) 0
  have e : psum p 1 = p 0 := by simp [psum]
  rw [Nat.zero_add, e] at h
  have := h.2.1
  unfold discreteRand
  simp only
  omega

/-- **C55** (weighted choice).  For non-negative weights with a positive sum and a draw `0 ≤ u < 1`, index
`j` is chosen exactly when `u` times the total lies in the `j`-th interval: the length of the interval of
draws is `p j / total`.  So an index of weight zero is never chosen. -/
theorem C55_weighted_choice (p : Nat → K) (n : Nat) (hp : ∀ i < n, 0 ≤ p i)
    (htot : 0 < ∑ i ∈ Finset.range n, p i) (u : K) (h0 : 0 ≤ u) (h1 : u < 1) (j : Nat) :
    (discreteRand p n u = j ↔ j < n ∧
      (∑ i ∈ Finset.range j, p i) / (∑ i ∈ Finset.range n, p i) ≤ u ∧
      u < (∑ i ∈ Finset.range j, p i) / (∑ i ∈ Finset.range n, p i) + p j / (∑ i ∈ Finset.range n, p i)) ∧
    (discreteRand p n u = j → 0 < p j) := by
  have hn : 0 < n := by
    rcases Nat.eq_zero_or_pos n with rfl | h
    · simp at htot
    · exact h
  set T := ∑ i ∈ Finset.range n, p i with hT
  have hsum : ((List.range n).map p).sum = T := by rw [sum_list_range]
  have hloop := discreteLoop_spec p (T * u) (n - 1) 0
  have e1 : psum p 1 = p 0 := by simp [psum]
  rw [Nat.zero_add, e1] at hloop
  have hd : discreteRand p n u = discreteLoop p (T * u) (n - 1) 0 (p 0) := by
    unfold discreteRand; rw [hsum]
  obtain ⟨-, l2, l3, l4⟩ := hloop
  rw [← hd, Nat.zero_add] at l2 l3
  rw [← hd] at l4
  have hsucc : ∀ j, psum p (j + 1) = psum p j + p j := fun j => by
    unfold psum; rw [Finset.sum_range_succ]
  have hr : T * u < T := by nlinarith
  have hr0 : 0 ≤ T * u := mul_nonneg htot.le h0
  have hchar : ∀ j, discreteRand p n u = j → j < n ∧ psum p j ≤ T * u ∧ T * u < psum p (j + 1) := by
    rintro j rfl
    refine ⟨by omega, ?_, ?_⟩
    · rcases Nat.eq_zero_or_pos (discreteRand p n u) with h | h
      · rw [h]; simpa [psum] using hr0
      · have := l4 (discreteRand p n u - 1) (Nat.zero_le _) (by omega)
        rwa [show discreteRand p n u - 1 + 1 = discreteRand p n u by omega] at this
    · rcases Nat.lt_or_ge (discreteRand p n u) (n - 1) with h | h
      · exact l3 h
      · have : discreteRand p n u + 1 = n := by omega
        rw [this]; exact hr
  have hmono : ∀ a b, a ≤ b → b ≤ n → psum p a ≤ psum p b := by
    intro a b hab hb
    unfold psum
    apply Finset.sum_le_sum_of_subset_of_nonneg
    · intro x hx; rw [Finset.mem_range] at *; omega
    · intro x hx _; rw [Finset.mem_range] at hx; exact hp x (by omega)
  have hiff : discreteRand p n u = j ↔ j < n ∧ psum p j ≤ T * u ∧ T * u < psum p (j + 1) := by
    constructor
    · exact hchar j
    · rintro ⟨hj, a1, a2⟩
      obtain ⟨b0, b1, b2⟩ := hchar _ rfl
      by_contra hne
      rcases Nat.lt_or_gt_of_ne hne with h | h
      · have := hmono (discreteRand p n u + 1) j h (by omega)
        linarith
      · have := hmono (j + 1) (discreteRand p n u) h (by omega)
        linarith
  refine ⟨?_, fun h => ?_⟩
  · rw [hiff, ← add_div, div_le_iff₀ htot, lt_div_iff₀ htot, mul_comm u T, hsucc]
    rfl
  · obtain ⟨-, a1, a2⟩ := hchar j h
    rw [hsucc] at a2
    linarith

/-- The squared distance of point `i` to the nearest of the rows `ch 0, ..., ch c`. -/
def nearDist (X : Nat → Nat → K) (D : Nat) (ch : Nat → Nat) (c i : Nat) : K :=
  (Finset.range (c + 1)).inf' ⟨0, by simp⟩ (fun c' => dist2 D (X i) (X (ch c')))

omit [IsStrictOrderedRing K] in
theorem nearDist_zero (X : Nat → Nat → K) (D : Nat) (ch : Nat → Nat) (i : Nat) :
    nearDist X D ch 0 i = dist2 D (X i) (X (ch 0)) := by
  simp [nearDist]

omit [IsStrictOrderedRing K] in
theorem nearDist_succ (X : Nat → Nat → K) (D : Nat) (ch : Nat → Nat) (c i : Nat) :
    nearDist X D ch (c + 1) i = min (dist2 D (X i) (X (ch (c + 1)))) (nearDist X D ch c i) := by
  unfold nearDist
  apply le_antisymm
  · apply le_min
    · exact Finset.inf'_le _ (Finset.mem_range.2 (by omega))
    · apply Finset.le_inf'
      intro b hb
      exact Finset.inf'_le _ (Finset.mem_range.2 (by rw [Finset.mem_range] at hb; omega))
  · apply Finset.le_inf'
    intro b hb
    rw [Finset.mem_range] at hb
    rcases Nat.lt_succ_iff_lt_or_eq.1 hb with h | rfl
    · exact le_trans (min_le_right _ _) (Finset.inf'_le _ (Finset.mem_range.2 h))
    · exact min_le_left _ _

omit [IsStrictOrderedRing K] in
theorem nearDist_congr {X : Nat → Nat → K} {D : Nat} {ch ch' : Nat → Nat} {c : Nat}
    (h : ∀ a ≤ c, ch a = ch' a) (i : Nat) : nearDist X D ch c i = nearDist X D ch' c i := by
  unfold nearDist
  apply Finset.inf'_congr _ rfl
  intro a ha
  rw [Finset.mem_range] at ha
  rw [h a (by omega)]

theorem nearDist_eq_zero {X : Nat → Nat → K} {D : Nat} {ch : Nat → Nat} {c i : Nat} :
    0 ≤ nearDist X D ch c i ∧
    (nearDist X D ch c i = 0 ↔ ∃ a ≤ c, SameRow D (X i) (X (ch a))) := by
  have hnn : 0 ≤ nearDist X D ch c i := Finset.le_inf' _ _ (fun a _ => dist2_nonneg _ _ _)
  refine ⟨hnn, fun h => ?_, fun ⟨a, ha, hs⟩ => ?_⟩
  · obtain ⟨a, ha, he⟩ := Finset.exists_mem_eq_inf' (s := Finset.range (c + 1)) ⟨0, by simp⟩
      (fun c' => dist2 D (X i) (X (ch c')))
    rw [Finset.mem_range] at ha
    unfold nearDist at h
    rw [he] at h
    exact ⟨a, by omega, dist2_eq_zero.1 h⟩
  · refine le_antisymm ?_ hnn
    have : nearDist X D ch c i ≤ dist2 D (X i) (X (ch a)) :=
      Finset.inf'_le _ (Finset.mem_range.2 (by omega))
    rwa [dist2_eq_zero.2 hs] at this

omit [IsStrictOrderedRing K] in
/-- What the loop chooses. -/
theorem plusPlusLoop_spec (X : Nat → Nat → K) (N D : Nat) (hN : 0 < N) (u : Nat → K) (Mu : Nat → Nat → K)
    (junk : Nat → K) (c₀ : Nat) (hc₀ : c₀ < N) (m : Nat) :
    ∃ ch : Nat → Nat, ch 0 = c₀ ∧ (∀ c ≤ m, ch c < N) ∧
      (∀ c ≤ m, (plusPlusLoop X N D u (setRow Mu 0 (X c₀)) junk m).1 c = X (ch c)) ∧
      (∀ c, m < c → (plusPlusLoop X N D u (setRow Mu 0 (X c₀)) junk m).1 c = Mu c) ∧
      (1 ≤ m → (plusPlusLoop X N D u (setRow Mu 0 (X c₀)) junk m).2 = nearDist X D ch (m - 1)) ∧
      (∀ c < m, ch (c + 1) = discreteRand (nearDist X D ch c) N (u (c + 1))) := by
  induction m with
  | zero =>
    refine ⟨fun _ => c₀, rfl, fun _ _ => hc₀, fun c hc => ?_, fun c hc => ?_, fun h => by omega,
      fun c hc => by omega⟩
    · obtain rfl : c = 0 := by omega
      simp [plusPlusLoop, setRow]
    · simp only [plusPlusLoop, setRow]
      rw [if_neg (by omega)]
  | succ m ih =>
    obtain ⟨ch, i0, i1, i2, i3, i4, i5⟩ := ih
    set st := plusPlusLoop X N D u (setRow Mu 0 (X c₀)) junk m with hst
    -- the distances of this iteration
    have hmin : (if m + 1 = 1 then (fun i => sqDist D (X i) (st.1 (m + 1 - 1))) else
        fun i => min (sqDist D (X i) (st.1 (m + 1 - 1))) (st.2 i)) = nearDist X D ch m := by
      funext i
      rw [Nat.add_sub_cancel]
      split_ifs with h
      · obtain rfl : m = 0 := by omega
        simp only []
        rw [sqDist_eq, i2 0 le_rfl, nearDist_zero]
      · obtain ⟨m', rfl⟩ : ∃ m', m = m' + 1 := ⟨m - 1, by omega⟩
        simp only []
        rw [sqDist_eq, i2 _ le_rfl, i4 (by omega), nearDist_succ]
        rfl
    have hstep : plusPlusLoop X N D u (setRow Mu 0 (X c₀)) junk (m + 1) =
        (setRow st.1 (m + 1) (X (discreteRand (nearDist X D ch m) N (u (m + 1)))), nearDist X D ch m) := by
      rw [plusPlusLoop]
      simp only [← hst]
      rw [hmin]
    set ch' : Nat → Nat := fun c => if c = m + 1 then discreteRand (nearDist X D ch m) N (u (m + 1)) else ch c
      with hch'
    have hagree : ∀ a ≤ m, ch' a = ch a := fun a ha => by rw [hch']; simp only; rw [if_neg (by omega)]
    have hlast : ch' (m + 1) = discreteRand (nearDist X D ch m) N (u (m + 1)) := by simp [hch']
    refine ⟨ch', by rw [hagree 0 (Nat.zero_le _), i0], fun c hc => ?_, fun c hc => ?_, fun c hc => ?_,
      fun _ => ?_, fun c hc => ?_⟩
    · rcases Nat.eq_or_lt_of_le hc with rfl | h
      · rw [hlast]; exact discreteRand_lt _ N hN _
      · rw [hagree c (by omega)]; exact i1 c (by omega)
    · rw [hstep]
      simp only [setRow]
      by_cases h : c = m + 1
      · rw [if_pos h, h, hlast]
      · rw [if_neg h, i2 c (by omega), hagree c (by omega)]
    · rw [hstep]
      simp only [setRow]
      rw [if_neg (by omega), i3 c (by omega)]
    · rw [hstep]
      funext i
      rw [Nat.add_sub_cancel]
      exact (nearDist_congr hagree i).symm
    · have hnd : nearDist X D ch' c = nearDist X D ch c := by
        funext i
        exact nearDist_congr (fun a ha => hagree a (by omega)) i
      rw [hnd]
      rcases Nat.eq_or_lt_of_le (show c ≤ m by omega) with rfl | h
      · exact hlast
      · rw [hagree (c + 1) (by omega)]; exact i5 c h

/-- **C55** (seeding).  For `k ≥ 1` clusters and draws between 0 and 1, the first centre is a row of the
data chosen by the first draw, and each of the others is the row chosen with weights proportional to
the squared distance to the nearest centre so far; rows of the output array beyond the number of points
are not written.  If the first draw is 1, row `N` is read: undefined behaviour. -/
theorem C55_seeding [FloorRing K] (X : Nat → Nat → K) (N D k : Nat) (hN : 0 < N) (hk : 0 < k) (u : Nat → K)
    (h0 : 0 ≤ u 0) (Mu : Nat → Nat → K) (junk : Nat → K) :
    (u 0 < 1 → ∃ (M : Nat → Nat → K) (ch : Nat → Nat),
      sampleRowsPlusPlus X N D k u Mu junk = .ok M ∧
      ((ch 0 : K) ≤ (N : K) * u 0 ∧ (N : K) * u 0 < ch 0 + 1) ∧
      (∀ c < min k N, ch c < N ∧ M c = X (ch c)) ∧ (∀ c, min k N ≤ c → M c = Mu c) ∧
      (∀ c, c + 1 < min k N → ch (c + 1) = discreteRand (nearDist X D ch c) N (u (c + 1)))) ∧
    (u 0 = 1 → sampleRowsPlusPlus X N D k u Mu junk = .ub) := by
  have hNpos : (0 : K) < N := by exact_mod_cast hN
  constructor
  · intro h1
    have hfl0 : 0 ≤ ⌊(N : K) * u 0⌋ := Int.floor_nonneg.2 (mul_nonneg hNpos.le h0)
    have hfl1 : ⌊(N : K) * u 0⌋ < (N : Int) := by
      rw [Int.floor_lt]; push_cast; nlinarith
    obtain ⟨ch, c0, c1, c2, c3, -, c5⟩ := plusPlusLoop_spec X N D hN u Mu junk ⌊(N : K) * u 0⌋.toNat
      (by omega) (min k N - 1)
    refine ⟨_, ch, ?_, ⟨?_, ?_⟩, fun c hc => ⟨c1 c (by omega), c2 c (by omega)⟩,
      fun c hc => c3 c (by omega), fun c hc => c5 c (by omega)⟩
    · unfold sampleRowsPlusPlus randint
      simp only
      rw [if_neg (by omega)]
      have : (if k > N then N else k) - 1 = min k N - 1 := by
        split_ifs <;> omega
      rw [this]
    · rw [c0]
      have : ((⌊(N : K) * u 0⌋.toNat : Int) : K) = (⌊(N : K) * u 0⌋ : K) := by
        rw [Int.toNat_of_nonneg hfl0]
      rw [← Int.cast_natCast (⌊(N : K) * u 0⌋.toNat), this]
      exact Int.floor_le _
    · rw [c0]
      have : ((⌊(N : K) * u 0⌋.toNat : Int) : K) = (⌊(N : K) * u 0⌋ : K) := by
        rw [Int.toNat_of_nonneg hfl0]
      rw [← Int.cast_natCast (⌊(N : K) * u 0⌋.toNat), this]
      exact Int.lt_floor_add_one _
  · intro h1
    unfold sampleRowsPlusPlus randint
    simp only
    rw [if_pos]
    right; left
    rw [h1, mul_one]
    simp

/-- While some point differs from all centres so far, the next centre is new. -/
theorem next_is_new {X : Nat → Nat → K} {N D : Nat} {ch : Nat → Nat} {c : Nat} {v : K} (h0 : 0 ≤ v) (h1 : v < 1)
    (hi : ∃ i < N, ∀ a ≤ c, ¬ SameRow D (X i) (X (ch a))) :
    ∀ a ≤ c, ¬ SameRow D (X (discreteRand (nearDist X D ch c) N v)) (X (ch a)) := by
  obtain ⟨i, hi, hunc⟩ := hi
  have hnn : ∀ i, 0 ≤ nearDist X D ch c i := fun i => nearDist_eq_zero.1
  have hpos : 0 < nearDist X D ch c i := by
    refine lt_of_le_of_ne (hnn i) (fun h => ?_)
    obtain ⟨a, ha, hs⟩ := nearDist_eq_zero.2.1 h.symm
    exact hunc a ha hs
  have htot : 0 < ∑ i ∈ Finset.range N, nearDist X D ch c i :=
    Finset.sum_pos' (fun i _ => hnn i) ⟨i, Finset.mem_range.2 hi, hpos⟩
  have := (C55_weighted_choice (nearDist X D ch c) N (fun i _ => hnn i) htot v h0 h1 _).2 rfl
  intro a ha hs
  exact this.ne' (nearDist_eq_zero.2.2 ⟨a, ha, hs⟩)

/-- With at most `m` different rows, `m` centres cover all of them. -/
theorem covers {X : Nat → Nat → K} {N D m : Nat} {ch : Nat → Nat} {u : Nat → K}
    (hu : ∀ c < m, 0 ≤ u c ∧ u c < 1) (hch : ∀ c < m, ch c < N)
    (hnext : ∀ c, c + 1 < m → ch (c + 1) = discreteRand (nearDist X D ch c) N (u (c + 1)))
    (cls : Nat → Nat) (hcls : ∀ i < N, cls i < m)
    (hsame : ∀ i < N, ∀ j < N, cls i = cls j → SameRow D (X i) (X j)) :
    ∀ i < N, ∃ c < m, SameRow D (X i) (X (ch c)) := by
  intro i hi
  by_contra hcon
  push Not at hcon
  have hne : ∀ c < m, ∀ a < c, ¬ SameRow D (X (ch c)) (X (ch a)) := by
    intro c hc a ha
    obtain ⟨c, rfl⟩ : ∃ c', c = c' + 1 := ⟨c - 1, by omega⟩
    rw [hnext c hc]
    exact next_is_new (hu _ hc).1 (hu _ hc).2 ⟨i, hi, fun a ha => hcon a (by omega)⟩ a (by omega)
  let f : Fin (m + 1) → Fin m := fun a =>
    if h : a.val < m then ⟨cls (ch a), hcls _ (hch a h)⟩ else ⟨cls i, hcls i hi⟩
  obtain ⟨a, b, hab, hf⟩ := Fintype.exists_ne_map_eq_of_card_lt f (by simp)
  have key : ∀ a b : Fin (m + 1), a.val < b.val → f a = f b → False := by
    intro a b hlt hf
    have ha : a.val < m := by have := b.2; omega
    by_cases hb : b.val < m
    · have h1 : cls (ch a) = cls (ch b) := by
        simp only [f, dif_pos ha, dif_pos hb] at hf
        exact congrArg Fin.val hf
      exact hne b hb a hlt (hsame _ (hch b hb) _ (hch a ha) h1.symm)
    · have h1 : cls (ch a) = cls i := by
        simp only [f, dif_pos ha, dif_neg hb] at hf
        exact congrArg Fin.val hf
      exact hcon a ha (hsame _ hi _ (hch a ha) h1.symm)
  rcases lt_or_gt_of_ne (fun h => hab (Fin.ext h)) with h | h
  · exact key a b h hf
  · exact key b a h hf.symm

/-- If every row is among the centres, equal labels mean equal rows, and the means cover all rows
again. -/
theorem covered_step {X : Nat → Nat → K} {N D k : Nat} (hk : 0 < k) {Mu : Nat → Nat → K}
    (h : ∀ i < N, ∃ c < k, SameRow D (X i) (Mu c)) :
    (∀ i < N, ∀ j < N, lab X D k Mu i = lab X D k Mu j ↔ SameRow D (X i) (X j)) ∧
    (∀ i < N, ∃ c < k, SameRow D (X i) (calcMu X N (lab X D k Mu) c)) := by
  have hn := lab_nearest X N D k hk Mu
  have hz : ∀ i < N, SameRow D (X i) (Mu (lab X D k Mu i)) := by
    intro i hi
    obtain ⟨c, hc, hs⟩ := h i hi
    have h1 := (hn i hi).2.1 c hc
    rw [dist2_eq_zero.2 hs] at h1
    exact dist2_eq_zero.1 (le_antisymm h1 (dist2_nonneg _ _ _))
  have hiff : ∀ i < N, ∀ j < N, lab X D k Mu i = lab X D k Mu j ↔ SameRow D (X i) (X j) := by
    intro i hi j hj
    constructor
    · intro he d hd
      rw [hz i hi d hd, he, ← hz j hj d hd]
    · intro hs
      apply argmin_congr
      intro c _
      rw [pairDist_eq, pairDist_eq, dist2_congr hs (fun _ _ => rfl)]
      congr 1
      unfold off
      split_ifs
      · rfl
      · exact Finset.sum_congr rfl (fun d hd => by rw [hs d (Finset.mem_range.1 hd)])
  refine ⟨hiff, fun i hi => ⟨lab X D k Mu i, (hn i hi).1, fun d hd => ?_⟩⟩
  have hm := (calcMu_means X N D k (lab X D k Mu) (lab X D k Mu i) (hn i hi).1 d hd).1
    ⟨i, Finset.mem_filter.2 ⟨Finset.mem_range.2 hi, rfl⟩⟩
  have hcard : ((cluster N (lab X D k Mu) (lab X D k Mu i)).card : K) ≠ 0 := by
    have : 0 < (cluster N (lab X D k Mu) (lab X D k Mu i)).card :=
      Finset.card_pos.2 ⟨i, Finset.mem_filter.2 ⟨Finset.mem_range.2 hi, rfl⟩⟩
    exact_mod_cast this.ne'
  have hs : ∑ j ∈ cluster N (lab X D k Mu) (lab X D k Mu i), X j d
      = ((cluster N (lab X D k Mu) (lab X D k Mu i)).card : K) * X i d := by
    rw [Finset.sum_congr rfl (g := fun _ => X i d) (fun j hj => ?_), Finset.sum_const, nsmul_eq_mul]
    obtain ⟨h1, h2⟩ := Finset.mem_filter.1 hj
    exact (hiff j (Finset.mem_range.1 h1) i hi).1 h2 d hd
  rw [hs, mul_comm] at hm
  exact (mul_left_cancel₀ hcard hm).symm

/-- **C55** (separated data).  If the data have at most `k` different rows (`cls` groups equal rows into at
most `k` classes) and no draw is 1, the clustering is exact: two points have the same label exactly when
they are equal. -/
theorem C55_exact [FloorRing K] (X : Nat → Nat → K) (N D k : Nat) (hN : 0 < N) (hk : 0 < k) (Niter : Int)
    (hI : 1 ≤ Niter) (u : Nat → K) (hu : ∀ c < k, 0 ≤ u c ∧ u c < 1) (Mu : Nat → Nat → K)
    (Z : Nat → Nat) (junk : Nat → K) (cls : Nat → Nat) (hcls : ∀ i < N, cls i < k)
    (hsame : ∀ i < N, ∀ j < N, cls i = cls j → SameRow D (X i) (X j)) :
    ∃ r, runKMeans X N D k Niter u Mu Z junk = .ok r ∧
      (∀ i < N, r.2 i < k) ∧ ∀ i < N, ∀ j < N, r.2 i = r.2 j ↔ SameRow D (X i) (X j) := by
  obtain ⟨M, ch, hM, -, h2, -, h4⟩ :=
    (C55_seeding X N D k hN hk u (hu 0 hk).1 Mu junk).1 (hu 0 hk).2
  have hcov : ∀ i < N, ∃ c < k, SameRow D (X i) (M c) := by
    have hc : ∀ i < N, ∃ c < min k N, SameRow D (X i) (X (ch c)) := by
      by_cases hkN : k ≤ N
      · rw [Nat.min_eq_left hkN] at h2 h4 ⊢
        exact covers hu (fun c hc => (h2 c hc).1) h4 cls hcls hsame
      · rw [Nat.min_eq_right (by omega)] at h2 h4 ⊢
        exact covers (fun c hc => hu c (by omega)) (fun c hc => (h2 c hc).1) h4 id (fun i hi => hi)
          (fun i _ j _ h => by rw [show i = j from h]; exact fun _ _ => rfl)
    intro i hi
    obtain ⟨c, hc, hs⟩ := hc i hi
    refine ⟨c, by omega, ?_⟩
    rw [(h2 c hc).2]; exact hs
  have hall : ∀ s, ∀ i < N, ∃ c < k, SameRow D (X i) (cen X N D k M s c) := by
    intro s
    induction s with
    | zero => exact hcov
    | succ s ih => rw [cen]; exact (covered_step hk ih).2
  refine ⟨runLloyd X N D k M Z Niter, ?_, (C55_result X N D k hk M Z Niter hI).1, ?_⟩
  · unfold runKMeans
    rw [hM]; rfl
  · obtain ⟨n, rfl⟩ : ∃ n : Nat, Niter = ((n + 1 : Nat) : Int) := ⟨(Niter - 1).toNat, by omega⟩
    obtain ⟨j, -, -, h2, -, -⟩ := runLloyd_spec X N D k M Z n
    intro a ha b hb
    rw [h2 a ha, h2 b hb]
    exact (covered_step hk (hall j)).1 a ha b hb

end KMeans
end Stag
