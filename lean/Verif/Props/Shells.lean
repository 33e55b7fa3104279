import Verif.Props.Ckns
import Verif.Props.Lsh
import Mathlib.GroupTheory.Perm.Basic
import Mathlib.Data.Fintype.Perm

/-!
# C48: the CKNS hash units: shells, sampling, and what the estimate is on average
-/

namespace Stag

/-! ## Specification -/

/-- The squared distance `d2` lies in shell `j` of `J`: shells `1, ..., J` are the rings between the
squared radii `(j - 1) L / a` and `j L / a`, shell 0 is everything beyond; `L` is the constant of the
code for `log 2`. -/
def InShell (a : ℝ) (J j : Nat) (d2 : ℝ) : Prop :=
  if j = 0 then (J : ℝ) * 0.69314718056 / a < d2
  else ((j - 1 : Nat) : ℝ) * 0.69314718056 / a < d2 ∧ d2 ≤ (j : ℝ) * 0.69314718056 / a

/-- The part of the kernel sum of the points `xs` that lies in shell `j`. -/
noncomputable def shellSum (a : ℝ) (J j : Nat) (q : List ℝ) (xs : List (List ℝ)) : ℝ :=
  open Classical in
  (xs.map (fun x => if InShell a J j (sqDist q x) then gauss a q x else 0)).sum

/-- **C48** (partition).  Every positive squared distance lies in exactly one of the shells
`0, ..., J`. -/
theorem C48_partition (a : ℝ) (ha : 0 < a) (J : Nat) (d2 : ℝ) (hd : 0 < d2) :
    ∃! j, j ≤ J ∧ InShell a J j d2 := by
  have hL : (0 : ℝ) < 0.69314718056 := by norm_num
  set x := d2 * a / 0.69314718056 with hx
  have hx0 : 0 < x := by positivity
  have hlt : ∀ k : ℝ, k * 0.69314718056 / a < d2 ↔ k < x := by
    intro k
    rw [hx, div_lt_iff₀ ha, lt_div_iff₀ hL]
  have hle : ∀ k : ℝ, d2 ≤ k * 0.69314718056 / a ↔ x ≤ k := by
    intro k
    rw [hx, le_div_iff₀ ha, div_le_iff₀ hL]
  have hshell : ∀ j, InShell a J j d2 ↔ if j = 0 then (J : ℝ) < x else ⌈x⌉₊ = j := by
    intro j
    unfold InShell
    split_ifs with h
    · exact hlt _
    · rw [hlt, hle, Nat.ceil_eq_iff h]
  by_cases hJ : (J : ℝ) < x
  · refine ⟨0, ⟨Nat.zero_le _, (hshell 0).2 (by simpa using hJ)⟩, ?_⟩
    rintro j ⟨h1, h2⟩
    rw [hshell] at h2
    by_contra hj
    rw [if_neg hj] at h2
    have h3 : x ≤ j := by rw [← h2]; exact Nat.le_ceil x
    have h4 : (j : ℝ) ≤ J := by exact_mod_cast h1
    linarith
  · have h0 : 0 < ⌈x⌉₊ := Nat.ceil_pos.2 hx0
    refine ⟨⌈x⌉₊, ⟨Nat.ceil_le.2 (not_lt.1 hJ), (hshell _).2 (by rw [if_neg (by omega)])⟩, ?_⟩
    rintro j ⟨h1, h2⟩
    rw [hshell] at h2
    split_ifs at h2 with hj
    · exact absurd h2 hJ
    · exact h2.symm

/-- **C48** (distance zero).  A point at distance zero from the query is in no shell: it is never
counted. -/
theorem C48_distance_zero (a : ℝ) (ha : 0 < a) (J j : Nat) : ¬ InShell a J j 0 := by
  unfold InShell
  split_ifs
  · rw [not_lt]; positivity
  · rintro ⟨h, -⟩
    have : (0 : ℝ) ≤ ((j - 1 : Nat) : ℝ) * 0.69314718056 / a := by positivity
    linarith

/-- The shells together: all points at positive distance, once each. -/
theorem C48_shells_sum (a : ℝ) (ha : 0 < a) (J : Nat) (q : List ℝ) (xs : List (List ℝ)) :
    ∑ j ∈ Finset.range (J + 1), shellSum a J j q xs
      = (xs.map (fun x => if sqDist q x = 0 then 0 else gauss a q x)).sum := by
  classical
  unfold shellSum
  induction xs with
  | nil => simp
  | cons x xs ih =>
    simp only [List.map_cons, List.sum_cons, Finset.sum_add_distrib]
    rw [ih]
    congr 1
    split_ifs with h
    · rw [h]
      apply Finset.sum_eq_zero
      intro j _
      rw [if_neg (C48_distance_zero a ha J j)]
    · have hpos : 0 < sqDist q x := lt_of_le_of_ne (sqDist_nonneg q x) (Ne.symm h)
      obtain ⟨j, ⟨h1, h2⟩, h3⟩ := C48_partition a ha J _ hpos
      rw [Finset.sum_eq_single j]
      · rw [if_pos h2]
      · intro b hb hne
        rw [if_neg]
        intro hc
        exact hne (h3 b ⟨by have := Finset.mem_range.1 hb; omega, hc⟩)
      · intro hc
        exact absurd (Finset.mem_range.2 (by omega)) hc

/-! ## One hash unit -/

theorem queryNeighbors_eq {h : HashUnit} {j J : Nat} (ha : 0 < h.a) (hj : h.j = j) (hJ : h.J = J)
    (hf : h.finalShell = decide (j = 0)) (q : List ℝ) (xs : List (List ℝ)) :
    h.queryNeighbors q xs
      = shellSum h.a J j q xs / cknsPSampling j h.logNmu h.n h.offset := by
  classical
  have key : ∀ (g : List ℝ → ℝ) (P : List ℝ → Prop) [DecidablePred P], (∀ x, P x ↔ InShell h.a J j (sqDist q x)) →
      (∀ x, P x → g x = gauss h.a q x / cknsPSampling j h.logNmu h.n h.offset) →
      ∀ (r : ℝ), xs.foldl (fun total x => if P x then total + g x else total) r
        = r + shellSum h.a J j q xs / cknsPSampling j h.logNmu h.n h.offset := by
    intro g P _ hP hg
    unfold shellSum
    induction xs with
    | nil => intro r; simp
    | cons x xs ih =>
      intro r
      rw [List.foldl_cons, ih, List.map_cons, List.sum_cons, add_div]
      by_cases hx : P x
      · rw [if_pos hx, if_pos ((hP x).1 hx), hg x hx]; ring
      · rw [if_neg hx, if_neg (fun hc => hx ((hP x).2 hc))]; ring
  unfold HashUnit.queryNeighbors
  simp only [hj, hJ]
  by_cases h0 : j = 0
  · rw [if_pos (by rw [hf]; simpa using h0)]
    subst h0
    have := key (fun x => gaussianKernel h.a (squaredDistance q x)
        / cknsPSampling (0 : Nat) h.logNmu h.n h.offset)
      (fun x => squaredDistance q x > rjSquared J h.a) (fun x => by
        unfold InShell rjSquared
        rw [if_pos rfl, C45_squared_distance]
        push_cast; rfl) (fun x _ => by
        rw [C45_squared_distance]; rfl) 0
    rw [zero_add] at this
    simpa using this
  · rw [if_neg (by rw [hf]; simpa using h0)]
    have hjpos : 0 < j := Nat.pos_of_ne_zero h0
    have hrj : (0 : ℝ) ≤ rjSquared j h.a := by unfold rjSquared; push_cast; positivity
    have hm1 : (if (j : Int) > 1 then rjSquared ((j : Int) - 1) h.a
        else if (j : Int) = 0 then rjSquared J h.a else 0)
        = ((j - 1 : Nat) : ℝ) * 0.69314718056 / h.a := by
      split_ifs with h1 h2
      · unfold rjSquared
        rw [show ((j : Int) - 1) = ((j - 1 : Nat) : Int) by omega]
        push_cast; rfl
      · omega
      · have : j - 1 = 0 := by omega
        rw [this]; simp
    rw [hm1]
    have hm0 : (0 : ℝ) ≤ ((j - 1 : Nat) : ℝ) * 0.69314718056 / h.a := by positivity
    have := key (fun x => gaussianKernel h.a (squaredDistanceAtMost q x (rjSquared j h.a))
        / cknsPSampling j h.logNmu h.n h.offset)
      (fun x => squaredDistanceAtMost q x (rjSquared j h.a)
        > ((j - 1 : Nat) : ℝ) * 0.69314718056 / h.a) (fun x => by
        unfold InShell
        rw [if_neg h0, C45_shell_test _ _ _ _ hm0 hrj]
        unfold rjSquared; push_cast; rfl) (fun x hx => by
        rw [gt_iff_lt, ← gt_iff_lt, C45_shell_test _ _ _ _ hm0 hrj] at hx
        rw [C45_at_most _ _ _ (.inr hrj), if_pos hx.2]
        rfl) 0
    rw [zero_add] at this
    exact this

/-- The number of rows a unit samples. -/
noncomputable def numSampled (j logNmu : Int) (n : Nat) (offset : Int) : Nat :=
  ⌊cknsPSampling j logNmu n offset * n⌋.toNat

/-- **C48** (one unit).  A hash unit of level `j` samples the first `floor(p n)` rows of its copy of
the data.  If it does not build a hash table (level 0, or at most 3000 sampled points) it answers the
sum of the kernel over the sampled points in its shell, divided by `p`. -/
theorem C48_unit (a : ℝ) (ha : 0 < a) (data : List (List ℝ)) (hn : 0 < data.length) (logNmu : Int)
    (j : Nat) (offset : Int) (fs : List (MultiLsh ℝ)) (h : HashUnit)
    (hc : HashUnit.create a data logNmu j offset fs = .ok h)
    (hJ : 0 ≤ cknsJ data.length logNmu)
    (hb : j = 0 ∨ numSampled j logNmu data.length offset ≤ 3000) (q : List ℝ) :
    h.query q = shellSum a (cknsJ data.length logNmu).toNat j q
        (data.take (numSampled j logNmu data.length offset))
      / cknsPSampling j logNmu data.length offset := by
  rw [create_eq a data hn] at hc
  simp only [] at hc
  split_ifs at hc with h1 h2
  · injection hc with hc
    subst hc
    unfold HashUnit.query
    rw [if_pos (by simp)]
    rw [queryNeighbors_eq (j := j) (J := (cknsJ data.length logNmu).toNat) ha rfl
      (by simp only []; omega) (by simp only []; symm; rw [decide_eq_true_iff]; omega)]
    rfl
  · injection hc with hc
    subst hc
    unfold HashUnit.query
    rw [if_pos (by simp)]
    rw [queryNeighbors_eq (j := j) (J := (cknsJ data.length logNmu).toNat) ha rfl
      (by simp only []; omega) (by simp only []; symm; rw [decide_eq_false_iff_not]; omega)]
    rfl
  · exfalso
    apply h2
    rw [List.length_take]
    rcases hb with hb | hb
    · omega
    · exact le_trans (Nat.min_le_left _ _) hb

theorem shellSum_nonneg (a : ℝ) (J j : Nat) (q : List ℝ) (xs : List (List ℝ)) :
    0 ≤ shellSum a J j q xs := by
  unfold shellSum
  apply List.sum_nonneg
  intro x hx
  obtain ⟨y, -, rfl⟩ := List.mem_map.1 hx
  split_ifs
  · exact (Real.exp_pos _).le
  · exact le_refl _

theorem sum_idx_le (f : List ℝ → ℝ) (hf : ∀ x, 0 ≤ f x) (xs : List (List ℝ)) (idx : List Nat)
    (hnd : idx.Nodup) (hlt : ∀ i ∈ idx, i < xs.length) :
    ((idx.map (fun i => xs.getD i [])).map f).sum ≤ (xs.map f).sum := by
  have h1 : xs.map f = (List.range xs.length).map (fun i => f (xs.getD i [])) := by
    apply List.ext_getElem (by simp)
    intro i h2 h3
    have h4 : i < xs.length := by simpa using h2
    simp [List.getElem?_eq_getElem h4]
  rw [h1, List.map_map]
  have h2 : ((List.range xs.length).map (fun i => f (xs.getD i []))).sum
      = ∑ i ∈ Finset.range xs.length, f (xs.getD i []) := by
    rw [Finset.sum_eq_multiset_sum, Finset.range_val, ← Multiset.coe_range, Multiset.map_coe,
      Multiset.sum_coe]
  have h3 : (idx.map (f ∘ fun i => xs.getD i [])).sum = ∑ i ∈ idx.toFinset, f (xs.getD i []) := by
    rw [List.sum_toFinset _ hnd]
    rfl
  rw [h2, h3]
  apply Finset.sum_le_sum_of_subset_of_nonneg
  · intro i hi
    rw [List.mem_toFinset] at hi
    exact Finset.mem_range.2 (hlt i hi)
  · intro i _ _; exact hf _

/-- **C48** (units with a hash table).  If the unit does build a hash table, its answer is the sum of
the kernel over those sampled points in its shell which collide with the query in some table, each
counted once, divided by `p`: it is at most what the unit without a table answers, and not
negative. -/
theorem C48_unit_lsh (a : ℝ) (ha : 0 < a) (data : List (List ℝ)) (hn : 0 < data.length) (logNmu : Int)
    (j : Nat) (offset : Int) (fs : List (MultiLsh ℝ)) (h : HashUnit)
    (hc : HashUnit.create a data logNmu j offset fs = .ok h)
    (hJ : 0 ≤ cknsJ data.length logNmu) (hj : j ≠ 0)
    (hb : 3000 < numSampled j logNmu data.length offset) (q : List ℝ) :
    let p := cknsPSampling j logNmu data.length offset
    let xs := data.take (numSampled j logNmu data.length offset)
    (∃ idx : List Nat, idx.Nodup ∧
      (∀ i, i ∈ idx ↔ ∃ x, xs[i]? = some x ∧ ∃ f ∈ fs, f.apply x = f.apply q) ∧
      h.query q = shellSum a (cknsJ data.length logNmu).toNat j q
        (idx.map (fun i => xs.getD i [])) / p) ∧
    0 ≤ h.query q ∧ h.query q ≤ shellSum a (cknsJ data.length logNmu).toNat j q xs / p := by
  intro p xs
  obtain ⟨hp0, hp1⟩ := cknsPSampling_pos j logNmu hn offset
  have hle : numSampled j logNmu data.length offset ≤ data.length := by
    unfold numSampled
    have : ⌊cknsPSampling j logNmu data.length offset * data.length⌋ ≤ (data.length : Int) := by
      rw [← Int.floor_natCast (R := ℝ) data.length]
      apply Int.floor_le_floor
      have : (0 : ℝ) ≤ data.length := Nat.cast_nonneg _
      nlinarith
    omega
  rw [create_eq a data hn] at hc
  simp only [] at hc
  rw [if_neg (by omega), if_neg (by
    rw [List.length_take]
    unfold numSampled at hb hle
    omega)] at hc
  injection hc with hc
  subst hc
  obtain ⟨idx, h1, h2, h3⟩ := C43_near_neighbors fs xs q
  have hq : HashUnit.query ⟨data.length, a, logNmu, j, cknsJ data.length logNmu, offset, false, false,
      [], E2Lsh.create fs xs⟩ q = shellSum a (cknsJ data.length logNmu).toNat j q
        (idx.map (fun i => xs.getD i [])) / p := by
    unfold HashUnit.query
    rw [if_neg (by simp), h3]
    rw [queryNeighbors_eq (j := j) (J := (cknsJ data.length logNmu).toNat) ha rfl
      (by simp only []; omega) (by simp only []; symm; rw [decide_eq_false_iff_not]; omega)]
  refine ⟨⟨idx, h1, h2, hq⟩, ?_, ?_⟩
  · exact hq.symm ▸ div_nonneg (shellSum_nonneg _ _ _ _ _) hp0.le
  · refine hq.symm ▸ ?_
    apply div_le_div_of_nonneg_right _ hp0.le
    unfold shellSum
    apply sum_idx_le
    · intro x
      split_ifs
      · exact (Real.exp_pos _).le
      · exact le_refl _
    · exact h1
    · intro i hi
      obtain ⟨x, hx, -⟩ := (h2 i).1 hi
      by_contra hge
      rw [List.getElem?_eq_none (by omega)] at hx
      cases hx

/-! ## The average over the permutations -/

/-- Averaging the sum over the first `m` places of a random permutation. -/
theorem perm_average {n : Nat} (hn : 0 < n) (m : Nat) (hm : m ≤ n) (g : Fin n → ℝ) :
    (∑ σ : Equiv.Perm (Fin n), ∑ i : Fin n, if i.val < m then g (σ i) else 0)
      = (n.factorial : ℝ) * (m / n * ∑ x, g x) := by
  have hn' : (n : ℝ) ≠ 0 := by exact_mod_cast hn.ne'
  have hcard : (Finset.univ : Finset (Equiv.Perm (Fin n))).card = n.factorial := by
    rw [Finset.card_univ, Fintype.card_perm, Fintype.card_fin]
  have hindep : ∀ i k : Fin n, ∑ σ : Equiv.Perm (Fin n), g (σ i) = ∑ σ : Equiv.Perm (Fin n), g (σ k) := by
    intro i k
    apply Fintype.sum_equiv (Equiv.mulRight (Equiv.swap i k))
    intro σ
    simp [Equiv.Perm.mul_apply]
  have hone : ∀ i : Fin n, ∑ σ : Equiv.Perm (Fin n), g (σ i) = n.factorial / n * ∑ x, g x := by
    intro i
    have h1 : ∑ k : Fin n, ∑ σ : Equiv.Perm (Fin n), g (σ k) = n * ∑ σ : Equiv.Perm (Fin n), g (σ i) := by
      rw [Finset.sum_congr rfl (fun k _ => hindep k i), Finset.sum_const, Finset.card_univ,
        Fintype.card_fin, nsmul_eq_mul]
    rw [Finset.sum_comm] at h1
    have h2 : ∀ σ : Equiv.Perm (Fin n), ∑ k : Fin n, g (σ k) = ∑ x, g x := fun σ => Equiv.sum_comp σ g
    rw [Finset.sum_congr rfl (fun σ _ => h2 σ), Finset.sum_const, hcard, nsmul_eq_mul] at h1
    field_simp
    linarith
  rw [Finset.sum_comm]
  have h3 : ∀ i : Fin n, (∑ σ : Equiv.Perm (Fin n), if i.val < m then g (σ i) else 0)
      = if i.val < m then (n.factorial : ℝ) / n * ∑ x, g x else 0 := by
    intro i
    split_ifs
    · exact hone i
    · simp
  rw [Finset.sum_congr rfl (fun i _ => h3 i), ← Finset.sum_filter, Finset.sum_const, nsmul_eq_mul]
  have h4 : (Finset.univ.filter (fun i : Fin n => i.val < m)).card = m := by
    rw [Fin.card_filter_val_lt, Nat.min_eq_right hm]
  rw [h4]
  field_simp

theorem take_ofFn_sum {n : Nat} (m : Nat) (x : Fin n → List ℝ) (f : List ℝ → ℝ) :
    (((List.ofFn x).take m).map f).sum = ∑ i : Fin n, if i.val < m then f (x i) else 0 := by
  have h1 : ∀ (l : List ℝ) (m : Nat), (l.take m).sum
      = ∑ i : Fin l.length, if i.val < m then l[i] else 0 := by
    intro l
    induction l with
    | nil => intro m; simp
    | cons y l ih =>
      intro m
      cases m with
      | zero => simp
      | succ m =>
        rw [List.take_succ_cons, List.sum_cons, ih m]
        have := Fin.sum_univ_succ (fun i : Fin (l.length + 1) =>
          if i.val < m + 1 then (y :: l)[i] else 0)
        refine Eq.trans ?_ this.symm
        simp
  rw [List.map_take, h1]
  have hlen : ((List.ofFn x).map f).length = n := by simp
  refine Fintype.sum_equiv (finCongr hlen) _ _ ?_
  intro i
  simp only [List.getElem_map, List.getElem_ofFn, Fin.getElem_fin, finCongr_apply, Fin.val_cast]
  rfl

theorem shellSum_average {n : Nat} (hn : 0 < n) (x : Fin n → List ℝ) (a : ℝ) (J j : Nat) (q : List ℝ)
    (m : Nat) (hm : m ≤ n) :
    (∑ σ : Equiv.Perm (Fin n), shellSum a J j q ((List.ofFn (fun i => x (σ i))).take m))
      / n.factorial = m / n * shellSum a J j q (List.ofFn x) := by
  classical
  have hf : (n.factorial : ℝ) ≠ 0 := by exact_mod_cast n.factorial_ne_zero
  have h1 : ∀ σ : Equiv.Perm (Fin n), shellSum a J j q ((List.ofFn (fun i => x (σ i))).take m)
      = ∑ i : Fin n, if i.val < m then
          (fun k => if InShell a J j (sqDist q (x k)) then gauss a q (x k) else 0) (σ i) else 0 := by
    intro σ
    unfold shellSum
    rw [take_ofFn_sum]
  have h2 : shellSum a J j q (List.ofFn x)
      = ∑ k, (if InShell a J j (sqDist q (x k)) then gauss a q (x k) else 0) := by
    unfold shellSum
    rw [List.map_ofFn, List.sum_ofFn]
    rfl
  rw [Finset.sum_congr rfl (fun σ _ => h1 σ), perm_average hn m hm
    (fun k => if InShell a J j (sqDist q (x k)) then gauss a q (x k) else 0), h2]
  field_simp

/-- **C48** (average of one unit).  Over all permutations of the data a unit of level `j` without a
hash table answers on average the kernel sum over its shell, times `floor(p n) / (p n)`: the
estimate is unbiased exactly as far as `p n` is an integer. -/
theorem C48_unit_average (a : ℝ) (ha : 0 < a) {n : Nat} (hn : 0 < n) (x : Fin n → List ℝ)
    (logNmu : Int) (hJ : 0 ≤ cknsJ n logNmu) (j : Nat) (offset : Int)
    (hb : j = 0 ∨ numSampled j logNmu n offset ≤ 3000)
    (fs : Equiv.Perm (Fin n) → List (MultiLsh ℝ)) (h : Equiv.Perm (Fin n) → HashUnit)
    (hc : ∀ σ, HashUnit.create a (List.ofFn (fun i => x (σ i))) logNmu j offset (fs σ) = .ok (h σ))
    (q : List ℝ) :
    (∑ σ, (h σ).query q) / n.factorial
      = (numSampled j logNmu n offset : ℝ) / (cknsPSampling j logNmu n offset * n)
        * shellSum a (cknsJ n logNmu).toNat j q (List.ofFn x) := by
  obtain ⟨hp0, hp1⟩ := cknsPSampling_pos j logNmu hn offset
  have hn' : (0 : ℝ) < n := by exact_mod_cast hn
  have hle : numSampled j logNmu n offset ≤ n := by
    unfold numSampled
    have : ⌊cknsPSampling j logNmu n offset * n⌋ ≤ (n : Int) := by
      rw [← Int.floor_natCast (R := ℝ) n]
      apply Int.floor_le_floor
      nlinarith
    omega
  have h1 : ∀ σ : Equiv.Perm (Fin n), (h σ).query q
      = shellSum a (cknsJ n logNmu).toNat j q ((List.ofFn (fun i => x (σ i))).take
          (numSampled j logNmu n offset)) / cknsPSampling j logNmu n offset := by
    intro σ
    have := C48_unit a ha (List.ofFn (fun i => x (σ i))) (by simpa using hn) logNmu j offset (fs σ)
      (h σ) (hc σ) (by simpa using hJ) (by simpa using hb) q
    simpa using this
  rw [Finset.sum_congr rfl (fun σ _ => h1 σ), ← Finset.sum_div, div_right_comm,
    shellSum_average hn x a _ j q _ hle]
  field_simp

theorem cknsMaxLog_pow (m : Nat) : cknsMaxLog (2 ^ m) = m := by
  unfold cknsMaxLog
  have : Real.logb 2 ((2 ^ m : Nat) : ℝ) = m := by
    push_cast
    rw [Real.logb_pow]
    simp
  rw [this]
  simp

/-- For a power of two and offset 0 the numbers of sampled points are exact. -/
theorem ratio_pow (m it j : Nat) (hj : j ≤ 2 * it) :
    (numSampled j (Ckns.logNmu (cknsMaxLog (2 ^ m)) it) (2 ^ m) 0 : ℝ)
      / (cknsPSampling j (Ckns.logNmu (cknsMaxLog (2 ^ m)) it) (2 ^ m) 0 * (2 ^ m : Nat)) = 1 := by
  have hn : 0 < 2 ^ m := by positivity
  obtain ⟨hp0, hp1⟩ := cknsPSampling_pos j (Ckns.logNmu (cknsMaxLog (2 ^ m)) it) hn 0
  obtain ⟨k, hk⟩ : ∃ k : Nat, cknsPSampling j (Ckns.logNmu (cknsMaxLog (2 ^ m)) it) (2 ^ m) 0
      * (2 ^ m : Nat) = k := by
    unfold cknsPSampling
    split_ifs with h0
    · refine ⟨1, ?_⟩
      rw [min_eq_right (by
        have : (1 : ℝ) ≤ ((2 ^ m : Nat) : ℝ) := by exact_mod_cast hn
        simp only [neg_zero, zpow_zero]
        rw [div_le_one (by linarith)]; exact this)]
      simp
    · rw [min_mul_of_nonneg _ _ (by positivity), cknsMaxLog_pow]
      have e : (2 : ℝ) ^ (-((j : Int) + 0)) * (2 : ℝ) ^ (-Ckns.logNmu m it) * ((2 ^ m : Nat) : ℝ)
          = ((2 ^ (2 * it - j) : Nat) : ℝ) := by
        push_cast
        rw [← zpow_natCast, ← zpow_natCast, ← zpow_add₀ (by norm_num), ← zpow_add₀ (by norm_num)]
        congr 1
        unfold Ckns.logNmu
        omega
      rw [e, one_mul]
      rcases le_total ((2 ^ m : Nat) : ℝ) ((2 ^ (2 * it - j) : Nat) : ℝ) with h1 | h1
      · exact ⟨_, min_eq_left h1⟩
      · exact ⟨_, min_eq_right h1⟩
  have hnum : numSampled j (Ckns.logNmu (cknsMaxLog (2 ^ m)) it) (2 ^ m) 0 = k := by
    unfold numSampled
    rw [hk]
    simp
  rw [hnum, hk]
  apply div_self
  rw [← hk]
  have : (0 : ℝ) < ((2 ^ m : Nat) : ℝ) := by exact_mod_cast hn
  positivity

/-- **C48** (unbiased).  If the number of points is a power of two, the offset is 0 and no unit needs
a hash table, then in every iteration the sum over the levels of the units' answers is, on average
over all permutations, exactly the kernel sum over all data points at positive distance from the
query. -/
theorem C48_unbiased (a : ℝ) (ha : 0 < a) (m : Nat) (x : Fin (2 ^ m) → List ℝ) (it : Nat)
    (hb : ∀ j : Nat, 0 < j → j ≤ 2 * it →
      numSampled j (Ckns.logNmu (cknsMaxLog (2 ^ m)) it) (2 ^ m) 0 ≤ 3000)
    (fs : Nat → Equiv.Perm (Fin (2 ^ m)) → List (MultiLsh ℝ))
    (h : Nat → Equiv.Perm (Fin (2 ^ m)) → HashUnit)
    (hc : ∀ j ≤ 2 * it, ∀ σ, HashUnit.create a (List.ofFn (fun i => x (σ i)))
      (Ckns.logNmu (cknsMaxLog (2 ^ m)) it) j 0 (fs j σ) = .ok (h j σ))
    (q : List ℝ) :
    (∑ σ, ∑ j ∈ Finset.range (2 * it + 1), (h j σ).query q) / ((2 ^ m).factorial : ℝ)
      = ∑ i, if sqDist q (x i) = 0 then 0 else gauss a q (x i) := by
  have hn : 0 < 2 ^ m := by positivity
  have hJ : cknsJ (2 ^ m) (Ckns.logNmu (cknsMaxLog (2 ^ m)) it) = (2 * it : Nat) := by
    unfold cknsJ Ckns.logNmu cknsMaxLog; push_cast; ring
  have hratio := fun j (hj : j ≤ 2 * it) => ratio_pow m it j hj
  rw [Finset.sum_comm, Finset.sum_div]
  have hlev : ∀ j ∈ Finset.range (2 * it + 1), (∑ σ, (h j σ).query q) / ((2 ^ m).factorial : ℝ)
      = shellSum a (2 * it) j q (List.ofFn x) := by
    intro j hj
    have hj' : j ≤ 2 * it := by have := Finset.mem_range.1 hj; omega
    have := C48_unit_average a ha hn x (Ckns.logNmu (cknsMaxLog (2 ^ m)) it) (by rw [hJ]; omega) j 0
      (by rcases Nat.eq_zero_or_pos j with h0 | h0
          · exact .inl h0
          · exact .inr (hb j h0 hj')) (fs j) (h j) (fun σ => hc j hj' σ) q
    rw [this, hratio j hj', hJ, one_mul]
    rfl
  rw [Finset.sum_congr rfl hlev, C48_shells_sum a ha]
  rw [List.map_ofFn, List.sum_ofFn]
  rfl

/-- If the number of points is not a power of two (offset 0), the outermost ring samples no point. -/
theorem numSampled_outer {N : Nat} (hpow : ∀ m, N ≠ 2 ^ m) (hn : 0 < N) (it : Nat) (hit : 0 < it) :
    numSampled (2 * it : Nat) (Ckns.logNmu (cknsMaxLog N) it) N 0 = 0 := by
  have hn' : (0 : ℝ) < N := by exact_mod_cast hn
  have hlt : (N : ℝ) < (2 : ℝ) ^ (cknsMaxLog N) := by
    have h1 : Real.logb 2 N ≤ (cknsMaxLog N : ℝ) := Int.le_ceil _
    have h2 : (N : ℝ) ≤ (2 : ℝ) ^ (cknsMaxLog N) := by
      rw [Real.logb_le_iff_le_rpow (by norm_num) hn'] at h1
      rw [← Real.rpow_intCast]
      exact h1
    refine lt_of_le_of_ne h2 (fun he => ?_)
    have h0 : 0 ≤ cknsMaxLog N := by
      apply Int.ceil_nonneg
      exact Real.logb_nonneg (by norm_num) (by exact_mod_cast hn)
    obtain ⟨m, hm⟩ := Int.eq_ofNat_of_zero_le h0
    rw [hm] at he
    apply hpow m
    have : (N : ℝ) = ((2 ^ m : Nat) : ℝ) := by rw [he]; simp
    exact_mod_cast this
  unfold numSampled
  obtain ⟨hp0, hp1⟩ := cknsPSampling_pos (2 * it : Nat)
    (Ckns.logNmu (cknsMaxLog N) it) hn 0
  have hp : cknsPSampling (2 * it : Nat) (Ckns.logNmu (cknsMaxLog N) it) N 0
      ≤ (2 : ℝ) ^ (-(cknsMaxLog N)) := by
    unfold cknsPSampling
    rw [if_neg (by omega)]
    refine le_trans (min_le_right _ _) (le_of_eq ?_)
    rw [← zpow_add₀ (by norm_num)]
    congr 1
    unfold Ckns.logNmu
    push_cast
    ring
  have hlt1 : cknsPSampling (2 * it : Nat) (Ckns.logNmu (cknsMaxLog N) it) N 0
      * N < 1 := by
    have hpos : (0 : ℝ) < (2 : ℝ) ^ (cknsMaxLog N) := by positivity
    rw [zpow_neg] at hp
    calc _ ≤ ((2 : ℝ) ^ (cknsMaxLog N))⁻¹ * N :=
          mul_le_mul_of_nonneg_right hp hn'.le
      _ < ((2 : ℝ) ^ (cknsMaxLog N))⁻¹ * (2 : ℝ) ^ (cknsMaxLog N) := by
          apply mul_lt_mul_of_pos_left hlt
          positivity
      _ = 1 := inv_mul_cancel₀ hpos.ne'
  have : ⌊cknsPSampling (2 * it : Nat) (Ckns.logNmu (cknsMaxLog N) it) N 0
      * N⌋ = 0 := by
    rw [Int.floor_eq_iff]
    constructor
    · rw [Int.cast_zero]; positivity
    · rw [Int.cast_zero, zero_add]; exact hlt1
  rw [this]
  rfl

/-- **C48** (the outer ring is lost).  If the number of points is not a power of two (offset 0), the
unit of the outermost ring `J ≥ 1` samples no point at all: it answers 0 whatever the data, so the
points of that ring are never counted in this iteration. -/
theorem C48_outer_ring_empty (a : ℝ) (ha : 0 < a) (data : List (List ℝ))
    (hpow : ∀ m, data.length ≠ 2 ^ m) (hn : 0 < data.length) (it : Nat) (hit : 0 < it)
    (fs : List (MultiLsh ℝ)) (h : HashUnit)
    (hc : HashUnit.create a data (Ckns.logNmu (cknsMaxLog data.length) it) (2 * it : Nat) 0 fs = .ok h)
    (q : List ℝ) :
    numSampled (2 * it : Nat) (Ckns.logNmu (cknsMaxLog data.length) it) data.length 0 = 0 ∧
    h.query q = 0 := by
  have hns := numSampled_outer hpow hn it hit
  refine ⟨hns, ?_⟩
  have hJ : (0 : Int) ≤ cknsJ data.length (Ckns.logNmu (cknsMaxLog data.length) it) := by
    unfold cknsJ Ckns.logNmu cknsMaxLog; push_cast; omega
  have := C48_unit a ha data hn _ _ _ fs h hc hJ (.inr (by rw [hns]; omega)) q
  rw [this, hns]
  simp [shellSum]

/-- **C48** (offset).  With a positive sampling offset the unit of level 0 samples no point: all the
points beyond the rings are ignored. -/
theorem C48_positive_offset (logNmu : Int) (n : Nat) (hn : 0 < n) (offset : Int) (ho : 0 < offset) :
    numSampled 0 logNmu n offset = 0 := by
  have hn' : (0 : ℝ) < n := by exact_mod_cast hn
  unfold numSampled cknsPSampling
  rw [if_pos rfl]
  have h1 : (2 : ℝ) ^ (-offset) < 1 := zpow_lt_one_of_neg₀ (by norm_num) (by omega)
  have h2 : (0 : ℝ) < (2 : ℝ) ^ (-offset) := by positivity
  have : ⌊min 1 ((2 : ℝ) ^ (-offset) / n) * n⌋ = 0 := by
    rw [Int.floor_eq_iff]
    constructor
    · push_cast
      have : 0 ≤ min 1 ((2 : ℝ) ^ (-offset) / n) := le_min zero_le_one (by positivity)
      positivity
    · have : min 1 ((2 : ℝ) ^ (-offset) / n) * n ≤ (2 : ℝ) ^ (-offset) / n * n :=
        mul_le_mul_of_nonneg_right (min_le_right _ _) hn'.le
      rw [div_mul_cancel₀ _ hn'.ne'] at this
      push_cast
      linarith
  rw [this]
  rfl

/-- Four points, second iteration: the hypotheses of `C48_unbiased` hold. -/
example : ∀ j : Nat, 0 < j → j ≤ 2 * 1 →
    numSampled j (Ckns.logNmu (cknsMaxLog (2 ^ 2)) 1) (2 ^ 2) 0 ≤ 3000 := by
  intro j h1 h2
  obtain ⟨hp0, hp1⟩ := cknsPSampling_pos j (Ckns.logNmu (cknsMaxLog (2 ^ 2)) 1)
    (show 0 < 2 ^ 2 by norm_num) 0
  unfold numSampled
  have : ⌊cknsPSampling j (Ckns.logNmu (cknsMaxLog (2 ^ 2)) 1) (2 ^ 2) 0 * ((2 ^ 2 : Nat) : ℝ)⌋
      ≤ 4 := by
    have h4 : ((2 ^ 2 : Nat) : ℝ) = 4 := by norm_num
    rw [Int.floor_le_iff, h4]
    have : cknsPSampling j (Ckns.logNmu (cknsMaxLog (2 ^ 2)) 1) (2 ^ 2) 0 * 4 ≤ 1 * 4 :=
      mul_le_mul_of_nonneg_right hp1 (by norm_num)
    have h5 : ((4 : Int) : ℝ) + 1 = 5 := by norm_num
    rw [h5]
    linarith
  omega

/-- Three points is not a power of two. -/
example : ∀ m, ([[0], [1], [2]] : List (List ℝ)).length ≠ 2 ^ m := by
  intro m
  rcases m with _ | _ | m
  · simp
  · simp
  · have : 4 ≤ 2 ^ (m + 2) := by
      calc 4 = 2 ^ 2 := rfl
        _ ≤ 2 ^ (m + 2) := Nat.pow_le_pow_right (by omega) (by omega)
    simp only [List.length_cons, List.length_nil]
    omega

end Stag
