import Verif.Props.SpectralTheorem

/-!
# C54: power method and Rayleigh quotient
-/

namespace Stag

open Graph

/-- A list as a vector. -/
noncomputable def vec (v : List ℝ) (i : Nat) : ℝ := v.getD i 0

/-- `M x`. -/
noncomputable def mulv (n : Nat) (M : Nat → Nat → ℝ) (x : Nat → ℝ) (i : Nat) : ℝ :=
  ∑ j ∈ Finset.range n, M i j * x j

/-- `M^t x`. -/
noncomputable def powv (n : Nat) (M : Nat → Nat → ℝ) : Nat → (Nat → ℝ) → Nat → ℝ
  | 0, x => x
  | t + 1, x => mulv n M (powv n M t x)

/-- The Euclidean norm. -/
noncomputable def nrm (n : Nat) (x : Nat → ℝ) : ℝ := Real.sqrt (dot n x x)

theorem dot_self_nonneg (n : Nat) (x : Nat → ℝ) : 0 ≤ dot n x x :=
  Finset.sum_nonneg (fun _ _ => mul_self_nonneg _)

theorem vec_of_le {v : List ℝ} {i : Nat} (h : v.length ≤ i) : vec v i = 0 := by
  unfold vec
  rw [List.getD_eq_getElem?_getD, List.getElem?_eq_none h, Option.getD_none]

theorem vec_map (v : List ℝ) (f : ℝ → ℝ) (h0 : f 0 = 0) (i : Nat) : vec (v.map f) i = f (vec v i) := by
  unfold vec
  rw [List.getD_eq_getElem?_getD, List.getD_eq_getElem?_getD, List.getElem?_map]
  cases v[i]? with
  | none => simp [h0]
  | some x => simp

theorem vec_ext {v w : List ℝ} (hl : v.length = w.length) (h : ∀ i < v.length, vec v i = vec w i) :
    v = w := by
  apply List.ext_getElem hl
  intro i h1 h2
  have := h i h1
  unfold vec at this
  rwa [List.getD_eq_getElem?_getD, List.getD_eq_getElem?_getD, List.getElem?_eq_getElem h1,
    List.getElem?_eq_getElem h2] at this

theorem sum_map_eq (v : List ℝ) (f : ℝ → ℝ) :
    (v.map f).sum = ∑ i ∈ Finset.range v.length, f (vec v i) := by
  induction v with
  | nil => simp
  | cons a v ih =>
    rw [List.map_cons, List.sum_cons, List.length_cons, Finset.sum_range_succ', ih, add_comm]
    simp [vec, List.getD_eq_getElem?_getD]

theorem squaredNorm_eq (v : List ℝ) : squaredNorm v = dot v.length (vec v) (vec v) :=
  sum_map_eq v _

theorem mulVec_length (m : SprsMat ℝ) (v : List ℝ) : (m.mulVec v).length = m.rows := by
  simp [SprsMat.mulVec]

theorem mulVec_vec (m : SprsMat ℝ) (v : List ℝ) (i : Nat) (hi : i < m.rows) :
    vec (m.mulVec v) i = mulv m.cols m.coeff (vec v) i := by
  unfold vec SprsMat.mulVec mulv
  rw [List.getD_eq_getElem?_getD, List.getElem?_map, List.getElem?_range hi]
  simp only [Option.map_some, Option.getD_some]
  exact sum_list_range _ _

theorem normalizeVec_length (v : List ℝ) : (normalizeVec v).length = v.length := by
  unfold normalizeVec
  split_ifs <;> simp

/-- What normalising does: a unit vector in the same direction, unless the vector is zero. -/
theorem normalizeVec_spec (v : List ℝ) :
    (∀ i, vec (normalizeVec v) i * nrm v.length (vec v) = vec v i) ∧
    (nrm v.length (vec v) ≠ 0 → nrm v.length (vec (normalizeVec v)) = 1) ∧
    (nrm v.length (vec v) = 0 → normalizeVec v = v) := by
  have hn : nrm v.length (vec v) = Real.sqrt (squaredNorm v) := by rw [squaredNorm_eq]; rfl
  by_cases h : 0 < squaredNorm v
  · have hs : 0 < Real.sqrt (squaredNorm v) := Real.sqrt_pos.2 h
    have hv : ∀ i, vec (normalizeVec v) i = vec v i / Real.sqrt (squaredNorm v) := by
      intro i
      unfold normalizeVec
      rw [if_pos h, vec_map v _ (by simp)]
    refine ⟨fun i => ?_, fun _ => ?_, fun h0 => ?_⟩
    · rw [hv, hn, div_mul_cancel₀ _ hs.ne']
    · unfold nrm dot
      rw [Finset.sum_congr rfl (fun i _ => by rw [hv])]
      have : ∑ i ∈ Finset.range v.length, vec v i / Real.sqrt (squaredNorm v) *
          (vec v i / Real.sqrt (squaredNorm v)) = 1 := by
        have e : ∀ i ∈ Finset.range v.length, vec v i / Real.sqrt (squaredNorm v) *
            (vec v i / Real.sqrt (squaredNorm v)) = vec v i * vec v i / squaredNorm v := by
          intro i _
          rw [div_mul_div_comm, Real.mul_self_sqrt h.le]
        rw [Finset.sum_congr rfl e, ← Finset.sum_div]
        have := squaredNorm_eq v
        unfold dot at this
        rw [← this, div_self h.ne']
      rw [this, Real.sqrt_one]
    · rw [hn] at h0; exact absurd h0 hs.ne'
  · have h0 : squaredNorm v = 0 := by
      refine le_antisymm (not_lt.1 h) ?_
      rw [squaredNorm_eq]; exact dot_self_nonneg _ _
    have hz : nrm v.length (vec v) = 0 := by rw [hn, h0, Real.sqrt_zero]
    have hall : ∀ i, vec v i = 0 := by
      intro i
      by_cases hi : i < v.length
      · rw [squaredNorm_eq] at h0
        unfold dot at h0
        have := (Finset.sum_eq_zero_iff_of_nonneg (fun i _ => mul_self_nonneg (vec v i))).1 h0 i
          (Finset.mem_range.2 hi)
        exact mul_self_eq_zero.1 this
      · exact vec_of_le (by omega)
    refine ⟨fun i => ?_, fun hne => absurd hz hne, fun _ => ?_⟩
    · rw [hz, mul_zero, hall]
    · unfold normalizeVec; rw [if_neg h]

theorem mulv_smul (n : Nat) (M : Nat → Nat → ℝ) (c : ℝ) (x : Nat → ℝ) :
    mulv n M (fun i => c * x i) = fun i => c * mulv n M x i := by
  funext i
  unfold mulv
  rw [Finset.mul_sum]
  exact Finset.sum_congr rfl (fun j _ => by ring)

theorem powv_smul (n : Nat) (M : Nat → Nat → ℝ) (t : Nat) (c : ℝ) (x : Nat → ℝ) :
    powv n M t (fun i => c * x i) = fun i => c * powv n M t x i := by
  induction t with
  | zero => rfl
  | succ t ih => simp only [powv]; rw [ih, mulv_smul]

theorem mulv_congr {n : Nat} {M : Nat → Nat → ℝ} {x y : Nat → ℝ} (h : ∀ i < n, x i = y i) :
    mulv n M x = mulv n M y := by
  funext i
  unfold mulv
  exact Finset.sum_congr rfl (fun j hj => by rw [h j (Finset.mem_range.1 hj)])

theorem powv_succ' (n : Nat) (M : Nat → Nat → ℝ) (t : Nat) (x : Nat → ℝ) :
    powv n M (t + 1) x = powv n M t (mulv n M x) := by
  induction t with
  | zero => rfl
  | succ t ih => rw [powv, ih]; rfl

theorem powv_congr {n : Nat} {M : Nat → Nat → ℝ} (t : Nat) {x y : Nat → ℝ} (h : ∀ i < n, x i = y i) :
    ∀ i < n, powv n M t x i = powv n M t y i := by
  cases t with
  | zero => exact h
  | succ t => intro i _; rw [powv_succ', powv_succ', mulv_congr h]

theorem dot_smul (n : Nat) (c : ℝ) (x : Nat → ℝ) :
    dot n (fun i => c * x i) (fun i => c * x i) = c ^ 2 * dot n x x := by
  unfold dot
  rw [Finset.mul_sum]
  exact Finset.sum_congr rfl (fun i _ => by ring)

theorem dot_congr {n : Nat} {x y a b : Nat → ℝ} (h : ∀ i < n, x i = y i) (h' : ∀ i < n, a i = b i) :
    dot n x a = dot n y b :=
  Finset.sum_congr rfl (fun i hi => by
    rw [h i (Finset.mem_range.1 hi), h' i (Finset.mem_range.1 hi)])

/-- The loop computes the normalisation of `M^t v`. -/
theorem powerLoop_spec (m : SprsMat ℝ) (hsq : m.rows = m.cols) (t : Nat) (v : List ℝ)
    (hv : v.length = m.rows) :
    (powerLoop m (t + 1) v).length = m.rows ∧
    (∀ i < m.rows, vec (powerLoop m (t + 1) v) i * nrm m.rows (powv m.rows m.coeff (t + 1) (vec v))
      = powv m.rows m.coeff (t + 1) (vec v) i) ∧
    (nrm m.rows (powv m.rows m.coeff (t + 1) (vec v)) ≠ 0 →
      nrm m.rows (vec (powerLoop m (t + 1) v)) = 1) ∧
    (nrm m.rows (powv m.rows m.coeff (t + 1) (vec v)) = 0 →
      ∀ i, vec (powerLoop m (t + 1) v) i = 0) := by
  have hzero : ∀ x : Nat → ℝ, nrm m.rows x = 0 → ∀ i < m.rows, x i = 0 := by
    intro x hx i hi
    have h1 : dot m.rows x x = 0 := (Real.sqrt_eq_zero (dot_self_nonneg _ _)).1 hx
    unfold dot at h1
    exact mul_self_eq_zero.1 ((Finset.sum_eq_zero_iff_of_nonneg (fun i _ => mul_self_nonneg (x i))).1
      h1 i (Finset.mem_range.2 hi))
  induction t generalizing v with
  | zero =>
    have hl : (m.mulVec v).length = m.rows := mulVec_length m v
    have he : ∀ i < m.rows, vec (m.mulVec v) i = powv m.rows m.coeff 1 (vec v) i := by
      intro i hi
      rw [mulVec_vec m v i hi]
      show mulv m.cols m.coeff (vec v) i = mulv m.rows m.coeff (vec v) i
      rw [hsq]
    obtain ⟨n1, n2, n3⟩ := normalizeVec_spec (m.mulVec v)
    have hnn : nrm (m.mulVec v).length (vec (m.mulVec v)) = nrm m.rows (powv m.rows m.coeff 1 (vec v)) := by
      rw [hl]; unfold nrm; rw [dot_congr he he]
    rw [hnn] at n1 n2 n3
    rw [hl] at n2
    refine ⟨by simp [powerLoop, normalizeVec_length, hl], fun i hi => ?_, n2, fun h0 i => ?_⟩
    · show vec (normalizeVec (m.mulVec v)) i * _ = _
      rw [zero_add, n1, he i hi]
    · show vec (normalizeVec (m.mulVec v)) i = 0
      rw [n3 h0]
      by_cases hi : i < m.rows
      · rw [he i hi]; exact hzero _ h0 i hi
      · exact vec_of_le (by omega)
  | succ t ih =>
    have hl : (m.mulVec v).length = m.rows := mulVec_length m v
    have he : ∀ i < m.rows, vec (m.mulVec v) i = mulv m.rows m.coeff (vec v) i := by
      intro i hi
      rw [mulVec_vec m v i hi, hsq]
    set u := normalizeVec (m.mulVec v) with hu
    have hul : u.length = m.rows := by rw [hu, normalizeVec_length, hl]
    obtain ⟨n1, n2, n3⟩ := normalizeVec_spec (m.mulVec v)
    rw [hl] at n1 n2 n3
    set r := nrm m.rows (vec (m.mulVec v)) with hr
    have hr0 : 0 ≤ r := Real.sqrt_nonneg _
    obtain ⟨i1, i2, i3, i4⟩ := ih u hul
    have hloop : powerLoop m (t + 1 + 1) v = powerLoop m (t + 1) u := rfl
    rw [hloop]
    -- M^(t+2) v is a non-negative multiple of M^(t+1) u
    have hp : ∀ i < m.rows, powv m.rows m.coeff (t + 1 + 1) (vec v) i
        = (if r = 0 then 1 else r) * powv m.rows m.coeff (t + 1) (vec u) i := by
      intro i hi
      rw [powv_succ']
      have : ∀ j < m.rows, mulv m.rows m.coeff (vec v) j = (if r = 0 then 1 else r) * vec u j := by
        intro j hj
        rw [← he j hj]
        split_ifs with h0
        · rw [one_mul, hu, n3 h0]
        · rw [mul_comm]; exact (n1 j).symm
      rw [powv_congr (t + 1) this i hi, powv_smul]
    set c := if r = 0 then (1 : ℝ) else r with hc
    have hcpos : 0 < c := by
      rw [hc]; split_ifs with h0
      · exact one_pos
      · exact lt_of_le_of_ne hr0 (Ne.symm h0)
    have hnp : nrm m.rows (powv m.rows m.coeff (t + 1 + 1) (vec v))
        = c * nrm m.rows (powv m.rows m.coeff (t + 1) (vec u)) := by
      unfold nrm
      rw [dot_congr hp hp, dot_smul, Real.sqrt_mul (sq_nonneg c), Real.sqrt_sq hcpos.le]
    refine ⟨i1, fun i hi => ?_, fun hne => i3 ?_, fun h0 => i4 ?_⟩
    · rw [hnp, hp i hi, ← i2 i hi]; ring
    · intro h0; rw [hnp, h0, mul_zero] at hne; exact hne rfl
    · rw [hnp] at h0
      exact (mul_eq_zero.1 h0).resolve_left hcpos.ne'

/-- **C54** (arguments).  `power_method` and `rayleigh_quotient` raise invalid_argument exactly for a
negative number of iterations (power method), a matrix that is not square, a vector of another
dimension or (Rayleigh quotient) the zero vector. -/
theorem C54_arguments (m : SprsMat ℝ) (t : Int) (v : List ℝ) :
    (powerMethod m t v = .throw .invalidArgument ↔ t < 0 ∨ m.rows ≠ m.cols ∨ v.length ≠ m.rows) ∧
    ((∃ r, powerMethod m t v = .ok r) ↔ 0 ≤ t ∧ m.rows = m.cols ∧ v.length = m.rows) ∧
    (rayleighQuotient m v = .throw .invalidArgument ↔
      m.rows ≠ m.cols ∨ v.length ≠ m.rows ∨ ∀ x ∈ v, x = 0) ∧
    ((∃ r, rayleighQuotient m v = .ok r) ↔
      m.rows = m.cols ∧ v.length = m.rows ∧ ∃ x ∈ v, x ≠ 0) := by
  have hz : Real.sqrt (squaredNorm v) = 0 ↔ ∀ x ∈ v, x = 0 := by
    have h0 : 0 ≤ squaredNorm v := by rw [squaredNorm_eq]; exact dot_self_nonneg _ _
    rw [Real.sqrt_eq_zero h0]
    unfold squaredNorm
    constructor
    · intro h x hx
      by_contra hne
      have h1 : ∀ y ∈ v.map (fun x => x * x), 0 ≤ y := by
        intro y hy
        obtain ⟨a, -, rfl⟩ := List.mem_map.1 hy
        exact mul_self_nonneg a
      have h2 := List.single_le_sum h1 (x * x) (List.mem_map.2 ⟨x, hx, rfl⟩)
      rw [h] at h2
      have := mul_self_pos.2 hne
      linarith
    · intro h
      apply List.sum_eq_zero
      intro y hy
      obtain ⟨a, ha, rfl⟩ := List.mem_map.1 hy
      rw [h a ha, mul_zero]
  have hz' : ¬ Real.sqrt (squaredNorm v) = 0 ↔ ∃ x ∈ v, x ≠ 0 := by
    rw [hz]; push Not; rfl
  refine ⟨?_, ?_, ?_, ?_⟩
  · unfold powerMethod
    split_ifs <;> simp_all
  · unfold powerMethod
    split_ifs <;> simp_all
  · unfold rayleighQuotient
    split_ifs with h1 h2 h3
    · simp [h1]
    · simp [h1, h2]
    · simp only [true_iff]; exact .inr (.inr (hz.1 h3))
    · simp only [reduceCtorEq, false_iff]
      rw [hz] at h3
      tauto
  · unfold rayleighQuotient
    split_ifs with h1 h2 h3
    · simp [h1]
    · simp [h1, h2]
    · simp only [reduceCtorEq, exists_const, false_iff]
      rw [hz] at h3
      push Not
      intro _ _ x hx
      exact h3 x hx
    · simp only [Outcome.ok.injEq, exists_eq', true_iff]
      exact ⟨not_not.1 h1, not_not.1 h2, hz'.1 h3⟩

/-- **C54** (power method).  With no iterations the vector comes back as it was; after `t ≥ 1`
iterations the result is `M^t v` scaled to length one, or the zero vector if `M^t v = 0`. -/
theorem C54_power_method (m : SprsMat ℝ) (hsq : m.rows = m.cols) (v : List ℝ) (hv : v.length = m.rows)
    (t : Nat) :
    powerMethod m 0 v = .ok v ∧
    ∃ r, powerMethod m ((t : Int) + 1) v = .ok r ∧ r.length = m.rows ∧
      (∀ i < m.rows, vec r i * nrm m.rows (powv m.rows m.coeff (t + 1) (vec v))
        = powv m.rows m.coeff (t + 1) (vec v) i) ∧
      (nrm m.rows (powv m.rows m.coeff (t + 1) (vec v)) ≠ 0 → nrm m.rows (vec r) = 1) ∧
      (nrm m.rows (powv m.rows m.coeff (t + 1) (vec v)) = 0 → ∀ i, vec r i = 0) := by
  have e : ∀ k : Nat, powerMethod m (k : Int) v = .ok (powerLoop m k v) := by
    intro k
    unfold powerMethod
    rw [if_neg (by omega), if_neg (by simpa using hsq), if_neg (by simpa using hv), Int.toNat_natCast]
  refine ⟨by simpa [powerLoop] using e 0, powerLoop m (t + 1) v, by exact_mod_cast e (t + 1), ?_⟩
  exact powerLoop_spec m hsq t v hv

theorem powv_eigen {n : Nat} {M : Nat → Nat → ℝ} {l : ℝ} {x : Nat → ℝ} (h : IsEigen n M l x) (t : Nat) :
    ∀ i < n, powv n M t x i = l ^ t * x i := by
  induction t with
  | zero => intro i _; simp [powv]
  | succ t ih =>
    intro i hi
    show mulv n M (powv n M t x) i = _
    rw [mulv_congr ih, mulv_smul]
    simp only
    have : mulv n M x i = l * x i := h i hi
    rw [this, pow_succ]; ring

/-- **C54** (eigenvectors).  A unit eigenvector of a positive eigenvalue is returned unchanged; for a
negative eigenvalue it changes sign with each iteration; for the eigenvalue 0 the result is zero. -/
theorem C54_fixes_eigenvectors (m : SprsMat ℝ) (hsq : m.rows = m.cols) (v : List ℝ)
    (hv : v.length = m.rows) (l : ℝ) (hl : IsEigen m.rows m.coeff l (vec v))
    (hunit : nrm m.rows (vec v) = 1) (t : Nat) :
    (0 < l → powerMethod m t v = .ok v) ∧
    (l < 0 → powerMethod m t v = .ok (v.map (fun x => (-1) ^ t * x))) ∧
    (l = 0 → powerMethod m ((t : Int) + 1) v = .ok (List.replicate m.rows 0)) := by
  have e : ∀ k : Nat, powerMethod m (k : Int) v = .ok (powerLoop m k v) := by
    intro k
    unfold powerMethod
    rw [if_neg (by omega), if_neg (by simpa using hsq), if_neg (by simpa using hv), Int.toNat_natCast]
  have hdv : dot m.rows (vec v) (vec v) = 1 := by
    have := congrArg (fun x => x ^ 2) hunit
    simpa [nrm, Real.sq_sqrt (dot_self_nonneg _ _)] using this
  have hn : ∀ k : Nat, nrm m.rows (powv m.rows m.coeff k (vec v)) = |l| ^ k := by
    intro k
    unfold nrm
    rw [dot_congr (powv_eigen hl k) (powv_eigen hl k), dot_smul, hdv, mul_one, Real.sqrt_sq_eq_abs, abs_pow]
  have key : ∀ k : Nat, l ≠ 0 → ∀ i < m.rows,
      vec (powerLoop m (k + 1) v) i * |l| ^ (k + 1) = l ^ (k + 1) * vec v i := by
    intro k _ i hi
    have := (powerLoop_spec m hsq k v hv).2.1 i hi
    rwa [hn, powv_eigen hl _ i hi] at this
  refine ⟨fun hpos => ?_, fun hneg => ?_, fun h0 => ?_⟩
  · rw [e]
    cases t with
    | zero => rfl
    | succ t =>
      congr 1
      apply vec_ext (by rw [(powerLoop_spec m hsq t v hv).1, hv])
      intro i hi
      rw [(powerLoop_spec m hsq t v hv).1] at hi
      have := key t hpos.ne' i hi
      rw [abs_of_pos hpos, mul_comm] at this
      exact mul_left_cancel₀ (pow_ne_zero _ hpos.ne') this
  · rw [e]
    cases t with
    | zero => simp [powerLoop]
    | succ t =>
      congr 1
      apply vec_ext (by rw [(powerLoop_spec m hsq t v hv).1, List.length_map, hv])
      intro i hi
      rw [(powerLoop_spec m hsq t v hv).1] at hi
      rw [vec_map v _ (by simp)]
      have := key t hneg.ne i hi
      rw [abs_of_neg hneg] at this
      have h2 : l ^ (t + 1) = (-1) ^ (t + 1) * (-l) ^ (t + 1) := by
        rw [← mul_pow]; congr 1; ring
      rw [h2] at this
      have hne : (-l) ^ (t + 1) ≠ 0 := pow_ne_zero _ (by linarith)
      apply mul_right_cancel₀ hne
      rw [this]; ring
  · have := e (t + 1)
    push_cast at this
    rw [this]
    congr 1
    have hsp := powerLoop_spec m hsq t v hv
    apply vec_ext (by rw [hsp.1, List.length_replicate])
    intro i _
    rw [hsp.2.2.2 (by rw [hn, h0]; simp) i]
    unfold vec
    rw [List.getD_eq_getElem?_getD, List.getElem?_replicate]
    split_ifs <;> rfl

/-- A symmetric matrix has a smallest and a largest eigenvalue, and they bound its quadratic form. -/
theorem extreme_eigenvalues {n : Nat} {M : Nat → Nat → ℝ} (hM : ∀ i < n, ∀ j < n, M i j = M j i)
    (hn : 0 < n) : ∃ lo hi a b, IsEigen n M lo a ∧ (∃ i < n, a i ≠ 0) ∧ IsEigen n M hi b ∧
      (∃ i < n, b i ≠ 0) ∧ (∀ x, lo * dot n x x ≤ quadForm n M x) ∧
      (∀ x, quadForm n M x ≤ hi * dot n x x) := by
  obtain ⟨l, b, hb⟩ := exists_eigenbasis hM
  have hne : (Finset.univ : Finset (Fin n)).Nonempty := ⟨⟨0, hn⟩, Finset.mem_univ _⟩
  obtain ⟨p, -, hp⟩ := Finset.exists_min_image Finset.univ l hne
  obtain ⟨q, -, hq⟩ := Finset.exists_max_image Finset.univ l hne
  have heig : ∀ i, IsEigen n M (l i) (ofE (b i)) := by
    intro i
    rw [isEigen_iff, toE_ofE]
    exact hb i
  have hnz : ∀ i, ∃ k < n, ofE (b i) k ≠ 0 := by
    intro i
    by_contra hc
    push Not at hc
    have := (toE_eq_zero_iff n _).2 hc
    rw [toE_ofE] at this
    exact b.orthonormal.ne_zero i this
  -- every eigenvalue is one of the `l i`
  have hall : ∀ m v, IsEigen n M m v → (∃ i < n, v i ≠ 0) → ∃ i, m = l i := by
    intro m v hv hv0
    by_contra hc
    push Not at hc
    have hz : toE n v = 0 := by
      apply b.repr.injective
      ext i
      rw [b.repr_apply_apply, map_zero]
      show _ = (0 : ℝ)
      have h1 := opE_symm hM (b i) (toE n v)
      rw [hb i, (isEigen_iff n M m v).1 hv, inner_smul_left, inner_smul_right] at h1
      have h2 : (m - l i) * inner ℝ (b i) (toE n v) = 0 := by
        simp only [conj_trivial] at h1
        linarith
      exact (mul_eq_zero.1 h2).resolve_left (sub_ne_zero.2 (hc i))
    obtain ⟨i, hi, h0⟩ := hv0
    exact h0 ((toE_eq_zero_iff n v).1 hz i hi)
  refine ⟨l p, l q, _, _, heig p, hnz p, heig q, hnz q, fun x => ?_, fun x => ?_⟩
  · have := variational hM [] (by simp) (l p) 1 (fun m v hv hv0 _ => by
      obtain ⟨i, rfl⟩ := hall m v hv hv0
      rw [one_mul, one_mul]; exact hp i (Finset.mem_univ _)) x (by simp)
    linarith
  · have := variational hM [] (by simp) (l q) (-1) (fun m v hv hv0 _ => by
      obtain ⟨i, rfl⟩ := hall m v hv hv0
      have := hq i (Finset.mem_univ _)
      linarith) x (by simp)
    linarith

/-- **C54** (Rayleigh quotient).  It is the quadratic form over the squared length, so multiples of
a vector have the same quotient, an eigenvector has its eigenvalue, and for a symmetric matrix it lies
between two eigenvalues. -/
theorem C54_rayleigh (m : SprsMat ℝ) (hsq : m.rows = m.cols) (v : List ℝ) (hv : v.length = m.rows)
    (hne : ∃ x ∈ v, x ≠ 0) :
    rayleighQuotient m v = .ok (quadForm m.rows m.coeff (vec v) / dot m.rows (vec v) (vec v)) ∧
    (∀ c : ℝ, c ≠ 0 → rayleighQuotient m (v.map (fun x => c * x)) = rayleighQuotient m v) ∧
    (∀ l, IsEigen m.rows m.coeff l (vec v) → rayleighQuotient m v = .ok l) ∧
    ((∀ i < m.rows, ∀ j < m.rows, m.coeff i j = m.coeff j i) → ∃ R lo hi a b,
      rayleighQuotient m v = .ok R ∧ lo ≤ R ∧ R ≤ hi ∧
      IsEigen m.rows m.coeff lo a ∧ (∃ i < m.rows, a i ≠ 0) ∧
      IsEigen m.rows m.coeff hi b ∧ (∃ i < m.rows, b i ≠ 0)) := by
  have main : ∀ v : List ℝ, v.length = m.rows → (∃ x ∈ v, x ≠ 0) →
      rayleighQuotient m v = .ok (quadForm m.rows m.coeff (vec v) / dot m.rows (vec v) (vec v)) := by
    intro v hv hne
    obtain ⟨-, -, h3, h4⟩ := C54_arguments m 0 v
    obtain ⟨r, hr⟩ := h4.2 ⟨hsq, hv, hne⟩
    have h1 : ¬ Real.sqrt (squaredNorm v) = 0 := by
      intro h0
      unfold rayleighQuotient at hr
      rw [if_neg (not_not.2 hsq), if_neg (not_not.2 hv), if_pos h0] at hr
      cases hr
    unfold rayleighQuotient
    rw [if_neg (not_not.2 hsq), if_neg (not_not.2 hv), if_neg h1]
    simp only
    congr 1
    congr 1
    · rw [sum_list_range, hv]
      unfold quadForm
      apply Finset.sum_congr rfl
      intro i hi
      have h5 := mulVec_vec m v i (Finset.mem_range.1 hi)
      have h6 : (m.mulVec v).getD i 0 = vec (m.mulVec v) i := rfl
      rw [h6, h5]
      unfold mulv
      rw [Finset.mul_sum, ← hsq]
      exact Finset.sum_congr rfl (fun j _ => by unfold vec; ring)
    · rw [Real.sq_sqrt (by rw [squaredNorm_eq]; exact dot_self_nonneg _ _), squaredNorm_eq, hv]
  have hnz : ∃ i < m.rows, vec v i ≠ 0 := by
    obtain ⟨x, hx, hx0⟩ := hne
    obtain ⟨i, hi, rfl⟩ := List.mem_iff_getElem.1 hx
    refine ⟨i, by omega, ?_⟩
    unfold vec
    rwa [List.getD_eq_getElem?_getD, List.getElem?_eq_getElem hi]
  have hdpos : 0 < dot m.rows (vec v) (vec v) := by
    obtain ⟨i, hi, h0⟩ := hnz
    exact Finset.sum_pos' (fun i _ => mul_self_nonneg _) ⟨i, Finset.mem_range.2 hi, mul_self_pos.2 h0⟩
  refine ⟨main v hv hne, fun c hc => ?_, fun l hl => ?_, fun hsym => ?_⟩
  · rw [main v hv hne, main (v.map (fun x => c * x)) (by simpa using hv) (by
      obtain ⟨x, hx, hx0⟩ := hne
      exact ⟨c * x, List.mem_map.2 ⟨x, hx, rfl⟩, mul_ne_zero hc hx0⟩)]
    congr 1
    have e : vec (v.map (fun x => c * x)) = fun i => c * vec v i := by
      funext i; rw [vec_map v _ (by simp)]
    rw [e, dot_smul]
    have : quadForm m.rows m.coeff (fun i => c * vec v i) = c ^ 2 * quadForm m.rows m.coeff (vec v) := by
      unfold quadForm
      rw [Finset.mul_sum]
      apply Finset.sum_congr rfl
      intro i _
      rw [Finset.mul_sum]
      exact Finset.sum_congr rfl (fun j _ => by ring)
    rw [this, mul_div_mul_left _ _ (pow_ne_zero 2 hc)]
  · rw [main v hv hne, quadForm_eigen hl, mul_div_assoc, div_self hdpos.ne', mul_one]
  · obtain ⟨lo, hi, a, b, ha, ha0, hb, hb0, hlo, hhi⟩ := extreme_eigenvalues hsym (by
      obtain ⟨i, hi, -⟩ := hnz; omega)
    refine ⟨_, lo, hi, a, b, main v hv hne, ?_, ?_, ha, ha0, hb, hb0⟩
    · rw [le_div_iff₀ hdpos]; exact hlo _
    · rw [div_le_iff₀ hdpos]; exact hhi _

theorem mulv_symm {n : Nat} {M : Nat → Nat → ℝ} (hM : ∀ i < n, ∀ j < n, M i j = M j i)
    (x y : Nat → ℝ) : dot n (mulv n M x) y = dot n x (mulv n M y) := by
  unfold dot mulv
  rw [Finset.sum_congr rfl (fun i _ => Finset.sum_mul _ _ _),
    Finset.sum_congr rfl (fun i _ => Finset.mul_sum _ _ _), Finset.sum_comm]
  apply Finset.sum_congr rfl
  intro i hi
  apply Finset.sum_congr rfl
  intro j hj
  rw [hM j (Finset.mem_range.1 hj) i (Finset.mem_range.1 hi)]
  ring

theorem dot_add_right (n : Nat) (x y z : Nat → ℝ) :
    dot n x (fun i => y i + z i) = dot n x y + dot n x z := by
  unfold dot
  rw [← Finset.sum_add_distrib]
  exact Finset.sum_congr rfl (fun i _ => by ring)

theorem dot_smul_right (n : Nat) (c : ℝ) (x y : Nat → ℝ) :
    dot n x (fun i => c * y i) = c * dot n x y := by
  unfold dot
  rw [Finset.mul_sum]
  exact Finset.sum_congr rfl (fun i _ => by ring)

theorem mulv_add (n : Nat) (M : Nat → Nat → ℝ) (x y : Nat → ℝ) :
    mulv n M (fun i => x i + y i) = fun i => mulv n M x i + mulv n M y i := by
  funext i
  unfold mulv
  rw [← Finset.sum_add_distrib]
  exact Finset.sum_congr rfl (fun j _ => by ring)

theorem powv_add (n : Nat) (M : Nat → Nat → ℝ) (t : Nat) (x y : Nat → ℝ) :
    powv n M t (fun i => x i + y i) = fun i => powv n M t x i + powv n M t y i := by
  induction t with
  | zero => rfl
  | succ t ih => simp only [powv]; rw [ih, mulv_add]

theorem opE_mulv (n : Nat) (M : Nat → Nat → ℝ) (x : Nat → ℝ) :
    opE n M (toE n x) = toE n (mulv n M x) := opE_toE n M x

/-- Orthogonally to a simple dominant eigenvector, the matrix contracts. -/
theorem contracts {n : Nat} {M : Nat → Nat → ℝ} (hM : ∀ i < n, ∀ j < n, M i j = M j i)
    {l mu : ℝ} {b : Nat → ℝ} (hb : IsEigen n M l b) (hmu : mu < |l|)
    (hgap : ∀ k x, IsEigen n M k x → (∃ i < n, x i ≠ 0) → dot n b x = 0 → |k| ≤ mu)
    (hbu : dot n b b = 1) (x : Nat → ℝ) (hx : dot n b x = 0) :
    dot n (mulv n M x) (mulv n M x) ≤ mu ^ 2 * dot n x x := by
  obtain ⟨e, B, hB⟩ := exists_eigenbasis hM
  have heig : ∀ i, IsEigen n M (e i) (ofE (B i)) := by
    intro i
    rw [isEigen_iff, toE_ofE]
    exact hB i
  have hnz : ∀ i, ∃ k < n, ofE (B i) k ≠ 0 := by
    intro i
    by_contra hc
    push Not at hc
    have := (toE_eq_zero_iff n _).2 hc
    rw [toE_ofE] at this
    exact B.orthonormal.ne_zero i this
  have hterm : ∀ i, (e i * inner ℝ (B i) (toE n x)) ^ 2 ≤ mu ^ 2 * inner ℝ (B i) (toE n x) ^ 2 := by
    intro i
    by_cases hi : |e i| ≤ mu
    · rw [mul_pow]
      apply mul_le_mul_of_nonneg_right _ (sq_nonneg _)
      exact sq_le_sq' (by linarith [neg_abs_le (e i)]) (le_trans (le_abs_self _) hi)
    · have hz : inner ℝ (B i) (toE n x) = (0 : ℝ) := by
        by_cases hne : e i = l
        · -- the component orthogonal to `b`
          set c := dot n b (ofE (B i)) with hc
          set y : Nat → ℝ := fun k => ofE (B i) k + (-c) * b k with hy
          have hyb : dot n b y = 0 := by
            rw [hy, dot_add_right, dot_smul_right, hbu, ← hc]; ring
          have hye : IsEigen n M l y := by
            intro k hk
            have h1 : mulv n M y k = mulv n M (ofE (B i)) k + (-c) * mulv n M b k := by
              rw [hy, mulv_add, mulv_smul]
            have h2 : mulv n M (ofE (B i)) k = e i * ofE (B i) k := heig i k hk
            have h3 : mulv n M b k = l * b k := hb k hk
            show mulv n M y k = l * y k
            rw [h1, h2, h3, hne, hy]; ring
          have hy0 : ∀ k < n, y k = 0 := by
            intro k hk
            by_contra h0
            have := hgap l y hye ⟨k, hk, h0⟩ hyb
            linarith
          have h4 : inner ℝ (B i) (toE n x) = dot n (ofE (B i)) x := by
            rw [dot_eq_inner, toE_ofE]
          rw [h4, dot_congr (y := fun k => c * b k) (b := x) (fun k hk => ?_) (fun _ _ => rfl),
            dot_comm, dot_smul_right, dot_comm, hx, mul_zero]
          have := hy0 k hk
          rw [hy] at this
          simp only at this
          linarith
        · exfalso
          apply hi
          apply hgap _ _ (heig i) (hnz i)
          have h1 := opE_symm hM (B i) (toE n b)
          rw [hB i, (isEigen_iff n M l b).1 hb, inner_smul_left, inner_smul_right] at h1
          have h2 : (l - e i) * inner ℝ (B i) (toE n b) = 0 := by
            simp only [conj_trivial] at h1
            linarith
          have h3 := (mul_eq_zero.1 h2).resolve_left (sub_ne_zero.2 (Ne.symm hne))
          rw [dot_comm, dot_eq_inner, toE_ofE]
          exact h3
      rw [hz]; simp
  have h1 : dot n (mulv n M x) (mulv n M x) = ∑ i, (e i * inner ℝ (B i) (toE n x)) ^ 2 := by
    rw [dot_eq_inner, ← opE_mulv, ← B.sum_inner_mul_inner]
    apply Finset.sum_congr rfl
    intro i _
    have h2 := opE_symm hM (B i) (toE n x)
    rw [hB i, inner_smul_left] at h2
    rw [real_inner_comm, ← h2]
    simp [sq]
  have h2 : dot n x x = ∑ i, inner ℝ (B i) (toE n x) ^ 2 := by
    rw [dot_eq_inner, ← B.sum_inner_mul_inner]
    apply Finset.sum_congr rfl
    intro i _
    rw [real_inner_comm]; ring
  rw [h1, h2, Finset.mul_sum]
  exact Finset.sum_le_sum (fun i _ => hterm i)

/-- **C54** (convergence).  Let the matrix be symmetric with a unit eigenvector `b` of eigenvalue `l`,
and let every eigenvalue with an eigenvector orthogonal to `b` be at most `mu < |l|` in magnitude.
Started at a vector that is not orthogonal to `b`, after `t ≥ 1` iterations the result is a unit
vector whose squared sine of the angle to `b` is at most `(mu / l)^(2 t)` times the squared tangent of
the angle at the start. -/
theorem C54_convergence (m : SprsMat ℝ) (hsq : m.rows = m.cols)
    (hsym : ∀ i < m.rows, ∀ j < m.rows, m.coeff i j = m.coeff j i) (v : List ℝ)
    (hv : v.length = m.rows) {l mu : ℝ} {b : Nat → ℝ} (hb : IsEigen m.rows m.coeff l b)
    (hbu : dot m.rows b b = 1) (hmu : mu < |l|)
    (hgap : ∀ k x, IsEigen m.rows m.coeff k x → (∃ i < m.rows, x i ≠ 0) → dot m.rows b x = 0 →
      |k| ≤ mu)
    (hstart : dot m.rows b (vec v) ≠ 0) (hmu0 : 0 ≤ mu) (t : Nat) :
    ∃ r, powerMethod m ((t : Int) + 1) v = .ok r ∧ r.length = m.rows ∧ nrm m.rows (vec r) = 1 ∧
      1 - dot m.rows b (vec r) ^ 2 ≤ (mu / l) ^ (2 * (t + 1)) *
        ((dot m.rows (vec v) (vec v) - dot m.rows b (vec v) ^ 2) / dot m.rows b (vec v) ^ 2) := by
  set n := m.rows with hn
  set M := m.coeff with hMd
  set c := dot n b (vec v) with hc
  set w : Nat → ℝ := fun i => vec v i + (-c) * b i with hw
  have hl0 : l ≠ 0 := by
    intro h0; rw [h0, abs_zero] at hmu; linarith
  have hbM : ∀ x, dot n b (mulv n M x) = l * dot n b x := by
    intro x
    have h1 : ∀ i < n, mulv n M b i = l * b i := hb
    rw [← mulv_symm hsym, dot_comm, dot_congr (fun _ _ => rfl) h1, dot_smul_right, dot_comm]
  have hbw : dot n b w = 0 := by
    rw [hw, dot_add_right, dot_smul_right, hbu, ← hc]; ring
  have horth : ∀ k, dot n b (powv n M k w) = 0 := by
    intro k
    induction k with
    | zero => exact hbw
    | succ k ih => show dot n b (mulv n M (powv n M k w)) = 0; rw [hbM, ih, mul_zero]
  have hcontr : ∀ k, dot n (powv n M k w) (powv n M k w) ≤ (mu ^ k) ^ 2 * dot n w w := by
    intro k
    induction k with
    | zero => simp [powv]
    | succ k ih =>
      refine le_trans (contracts hsym hb hmu hgap hbu _ (horth k)) ?_
      rw [pow_succ mu k, mul_pow, mul_comm ((mu ^ k) ^ 2), mul_assoc]
      exact mul_le_mul_of_nonneg_left ih (sq_nonneg _)
  have hww : dot n w w = dot n (vec v) (vec v) - c ^ 2 := by
    have h1 : dot n w w = dot n (vec v) w := by
      have : dot n w w = dot n (vec v) w + (-c) * dot n b w := by
        rw [dot_comm n w w, ← dot_comm n w (vec v), ← dot_comm n w b, ← dot_smul_right, ← dot_add_right]
      rw [this, hbw, mul_zero, add_zero]
    rw [h1, hw, dot_add_right, dot_smul_right, dot_comm n (vec v) b, ← hc]; ring
  -- M^k v splits
  have hsplit : ∀ k, ∀ i < n, powv n M k (vec v) i = powv n M k w i + (l ^ k * c) * b i := by
    intro k i hi
    have e1 : vec v = fun i => w i + c * b i := by
      funext i; rw [hw]; ring
    rw [e1, powv_add, powv_smul]
    simp only
    rw [powv_eigen hb k i hi]; ring
  have hnorm : ∀ k, dot n (powv n M k (vec v)) (powv n M k (vec v))
      = dot n (powv n M k w) (powv n M k w) + (l ^ k * c) ^ 2 := by
    intro k
    rw [dot_congr (hsplit k) (hsplit k), dot_add_right, dot_smul_right]
    rw [dot_comm n _ (powv n M k w), dot_comm n _ b, dot_add_right, dot_add_right, dot_smul_right,
      dot_smul_right, horth, dot_comm n _ b, horth, hbu]
    ring
  have hbp : ∀ k, dot n b (powv n M k (vec v)) = l ^ k * c := by
    intro k
    rw [dot_congr (fun _ _ => rfl) (hsplit k), dot_add_right, dot_smul_right, horth, hbu]; ring
  have hpos : 0 < (l ^ (t + 1) * c) ^ 2 := by
    have : l ^ (t + 1) * c ≠ 0 := mul_ne_zero (pow_ne_zero _ hl0) hstart
    positivity
  have hge := dot_self_nonneg n (powv n M (t + 1) w)
  obtain ⟨-, r, hr, hrl, hr1, hr2, -⟩ := C54_power_method m hsq v hv t
  set N := nrm n (powv n M (t + 1) (vec v)) with hN
  have hN2 : N ^ 2 = dot n (powv n M (t + 1) w) (powv n M (t + 1) w) + (l ^ (t + 1) * c) ^ 2 := by
    rw [hN]; unfold nrm
    rw [Real.sq_sqrt (dot_self_nonneg _ _), hnorm]
  have hNne : N ≠ 0 := by
    intro h0; rw [h0] at hN2; simp at hN2; linarith
  refine ⟨r, hr, hrl, hr2 hNne, ?_⟩
  have hdr : N * dot n b (vec r) = l ^ (t + 1) * c := by
    rw [← hbp, ← dot_smul_right]
    exact dot_congr (fun _ _ => rfl) (fun i hi => by rw [mul_comm]; exact hr1 i hi)
  have hlhs : 1 - dot n b (vec r) ^ 2 = dot n (powv n M (t + 1) w) (powv n M (t + 1) w) / N ^ 2 := by
    rw [eq_div_iff (pow_ne_zero 2 hNne)]
    have : (N * dot n b (vec r)) ^ 2 = (l ^ (t + 1) * c) ^ 2 := by rw [hdr]
    linear_combination hN2 - this
  rw [hlhs, ← hww]
  have h5 : dot n (powv n M (t + 1) w) (powv n M (t + 1) w) / N ^ 2 ≤
      ((mu ^ (t + 1)) ^ 2 * dot n w w) / (l ^ (t + 1) * c) ^ 2 :=
    div_le_div₀ (mul_nonneg (sq_nonneg _) (dot_self_nonneg _ _)) (hcontr _) hpos (by linarith)
  refine le_trans h5 (le_of_eq ?_)
  rw [div_pow, pow_mul' mu 2, pow_mul' l 2]
  field_simp

/-- **C54** (limit).  Under the same conditions the angle to the dominant eigenvector tends to zero. -/
theorem C54_converges (m : SprsMat ℝ) (hsq : m.rows = m.cols)
    (hsym : ∀ i < m.rows, ∀ j < m.rows, m.coeff i j = m.coeff j i) (v : List ℝ)
    (hv : v.length = m.rows) {l mu : ℝ} {b : Nat → ℝ} (hb : IsEigen m.rows m.coeff l b)
    (hbu : dot m.rows b b = 1) (hmu0 : 0 ≤ mu) (hmu : mu < |l|)
    (hgap : ∀ k x, IsEigen m.rows m.coeff k x → (∃ i < m.rows, x i ≠ 0) → dot m.rows b x = 0 →
      |k| ≤ mu)
    (hstart : dot m.rows b (vec v) ≠ 0) (eps : ℝ) (heps : 0 < eps) :
    ∃ T : Nat, ∀ t : Nat, T ≤ t → ∃ r, powerMethod m (t : Int) v = .ok r ∧
      nrm m.rows (vec r) = 1 ∧ 1 - dot m.rows b (vec r) ^ 2 < eps := by
  have hl : 0 < |l| := lt_of_le_of_lt hmu0 hmu
  set q := (mu / |l|) ^ 2 with hq
  have hq0 : 0 ≤ q := sq_nonneg _
  have hq1 : q < 1 := by
    have h1 : mu / |l| < 1 := (div_lt_one hl).2 hmu
    have h2 : 0 ≤ mu / |l| := div_nonneg hmu0 hl.le
    rw [hq, sq]
    nlinarith
  set C := (dot m.rows (vec v) (vec v) - dot m.rows b (vec v) ^ 2) / dot m.rows b (vec v) ^ 2 with hC
  obtain ⟨T, hT⟩ := exists_pow_lt_of_lt_one (y := q) (show 0 < eps / (|C| + 1) by positivity) hq1
  refine ⟨T + 1, fun t ht => ?_⟩
  obtain ⟨s, rfl⟩ : ∃ s, t = s + 1 := ⟨t - 1, by omega⟩
  obtain ⟨r, h1, -, h3, h4⟩ := C54_convergence m hsq hsym v hv hb hbu hmu hgap hstart hmu0 s
  refine ⟨r, by exact_mod_cast h1, h3, lt_of_le_of_lt h4 ?_⟩
  rw [← hC]
  have h5 : (mu / l) ^ (2 * (s + 1)) = q ^ (s + 1) := by
    rw [pow_mul, hq, div_pow mu l, div_pow mu |l|, sq_abs]
  have h6 : q ^ (s + 1) ≤ q ^ T := pow_le_pow_of_le_one hq0 hq1.le (by omega)
  rw [h5]
  calc q ^ (s + 1) * C ≤ q ^ (s + 1) * |C| := mul_le_mul_of_nonneg_left (le_abs_self _) (pow_nonneg hq0 _)
    _ ≤ q ^ T * |C| := mul_le_mul_of_nonneg_right h6 (abs_nonneg _)
    _ ≤ q ^ T * (|C| + 1) := mul_le_mul_of_nonneg_left (by linarith) (pow_nonneg hq0 _)
    _ < eps := by rwa [lt_div_iff₀ (by positivity)] at hT

/-- **C54** (default number of iterations).  Without a number of iterations, `10 ⌈ln n⌉` are made; this
is never negative, so only the dimensions can be refused. -/
theorem C54_default (m : SprsMat ℝ) (v : List ℝ) (hm : m.rows ≠ 0) :
    (powerMethodDefault m v = .throw .invalidArgument ↔ m.rows ≠ m.cols ∨ v.length ≠ m.rows) ∧
    ∃ t : Nat, powerMethodDefault m v = powerMethod m (10 * t) v ∧ Real.log m.rows ≤ t ∧
      (t : ℝ) < Real.log m.rows + 1 := by
  have hlog : 0 ≤ Real.log m.rows := Real.log_nonneg (by exact_mod_cast Nat.pos_of_ne_zero hm)
  have hc : 0 ≤ ⌈Real.log m.rows⌉ := Int.ceil_nonneg hlog
  have hd : powerMethodDefault m v = powerMethod m (10 * ⌈Real.log m.rows⌉) v := by
    unfold powerMethodDefault; rw [if_neg hm]
  refine ⟨?_, ⌈Real.log m.rows⌉.toNat, ?_, ?_, ?_⟩
  · rw [hd, (C54_arguments m _ v).1]
    constructor
    · rintro (h | h | h)
      · omega
      · exact .inl h
      · exact .inr h
    · exact .inr
  · rw [hd, Int.toNat_of_nonneg hc]
  · have : ((⌈Real.log m.rows⌉.toNat : Int) : ℝ) = (⌈Real.log m.rows⌉ : ℝ) := by
      rw [Int.toNat_of_nonneg hc]
    rw [← Int.cast_natCast (⌈Real.log m.rows⌉.toNat), this]
    exact Int.le_ceil _
  · have : ((⌈Real.log m.rows⌉.toNat : Int) : ℝ) = (⌈Real.log m.rows⌉ : ℝ) := by
      rw [Int.toNat_of_nonneg hc]
    rw [← Int.cast_natCast (⌈Real.log m.rows⌉.toNat), this]
    exact Int.ceil_lt_add_one _

/-- **C54** (random start).  The starting vector is a unit vector unless every draw is zero, and the
calls without a starting vector are the calls with this one. -/
theorem C54_random_start (m : SprsMat ℝ) (t : Int) (gs : List ℝ) (hg : ∃ x ∈ gs, x ≠ 0) :
    (randomUnitVector gs).length = gs.length ∧ nrm gs.length (vec (randomUnitVector gs)) = 1 ∧
    powerMethodRandom m t gs = powerMethod m t (randomUnitVector gs) ∧
    powerMethodRandomDefault m gs = powerMethodDefault m (randomUnitVector gs) := by
  refine ⟨normalizeVec_length gs, (normalizeVec_spec gs).2.1 ?_, rfl, rfl⟩
  intro h0
  obtain ⟨x, hx, hx0⟩ := hg
  obtain ⟨i, hi, rfl⟩ := List.mem_iff_getElem.1 hx
  have h1 : dot gs.length (vec gs) (vec gs) = 0 := (Real.sqrt_eq_zero (dot_self_nonneg _ _)).1 h0
  have h2 := (Finset.sum_eq_zero_iff_of_nonneg (fun i _ => mul_self_nonneg (vec gs i))).1 h1 i
    (Finset.mem_range.2 hi)
  apply hx0
  have h3 := mul_self_eq_zero.1 h2
  unfold vec at h3
  rwa [List.getD_eq_getElem?_getD, List.getElem?_eq_getElem hi] at h3

/-- The moments of a vector: `⟨M^i x, M^j x⟩` depends on `i + j` only. -/
theorem moment {n : Nat} {M : Nat → Nat → ℝ} (hM : ∀ i < n, ∀ j < n, M i j = M j i) (x : Nat → ℝ)
    (i j : Nat) : dot n (powv n M i x) (powv n M j x) = dot n x (powv n M (i + j) x) := by
  induction i generalizing j with
  | zero => rw [Nat.zero_add]; rfl
  | succ i ih =>
    show dot n (mulv n M (powv n M i x)) (powv n M j x) = _
    rw [mulv_symm hM]
    have := ih (j + 1)
    rw [show i + 1 + j = i + (j + 1) by omega]
    exact this

/-- Cauchy–Schwarz for a symmetric positive semidefinite form. -/
theorem quadForm_cs {n : Nat} {M : Nat → Nat → ℝ} (hM : ∀ i < n, ∀ j < n, M i j = M j i)
    (hpsd : ∀ x, 0 ≤ quadForm n M x) (x y : Nat → ℝ) :
    dot n x (mulv n M y) ^ 2 ≤ dot n x (mulv n M x) * dot n y (mulv n M y) := by
  have hq : ∀ z, quadForm n M z = dot n z (mulv n M z) := by
    intro z
    unfold quadForm dot mulv
    refine Finset.sum_congr rfl (fun i _ => ?_)
    rw [Finset.mul_sum]
    exact Finset.sum_congr rfl (fun j _ => by ring)
  have hexp : ∀ c : ℝ, 0 ≤ dot n x (mulv n M x) + 2 * c * dot n x (mulv n M y)
      + c ^ 2 * dot n y (mulv n M y) := by
    intro c
    have h1 := hpsd (fun i => x i + c * y i)
    rw [hq, mulv_add, mulv_smul, dot_add_right, dot_smul_right, dot_comm, dot_add_right,
      dot_smul_right, dot_comm n _ (mulv n M y), dot_add_right, dot_smul_right] at h1
    have e1 : dot n (mulv n M x) y = dot n x (mulv n M y) := mulv_symm hM x y
    have e2 : dot n (mulv n M y) x = dot n x (mulv n M y) := dot_comm _ _ _
    rw [e1, e2, dot_comm n (mulv n M x) x, dot_comm n (mulv n M y) y] at h1
    linarith
  have := discrim_le_zero (a := dot n y (mulv n M y)) (b := 2 * dot n x (mulv n M y))
    (c := dot n x (mulv n M x)) (fun c => by have := hexp c; nlinarith [this])
  unfold discrim at this
  nlinarith

/-- The identity form. -/
theorem dot_cs (n : Nat) (x y : Nat → ℝ) : dot n x y ^ 2 ≤ dot n x x * dot n y y := by
  have := Finset.sum_mul_sq_le_sq_mul_sq (Finset.range n) x y
  unfold dot
  simpa [sq] using this

/-- The moments of a positive semidefinite matrix are log-convex. -/
theorem moment_convex {n : Nat} {M : Nat → Nat → ℝ} (hM : ∀ i < n, ∀ j < n, M i j = M j i)
    (hpsd : ∀ x, 0 ≤ quadForm n M x) (x : Nat → ℝ) (k : Nat) :
    dot n x (powv n M (k + 1) x) ^ 2 ≤ dot n x (powv n M k x) * dot n x (powv n M (k + 2) x) := by
  rcases Nat.even_or_odd' k with ⟨j, rfl | rfl⟩
  · have h1 := dot_cs n (powv n M j x) (powv n M (j + 1) x)
    rw [moment hM, moment hM, moment hM] at h1
    convert h1 using 3 <;> ring_nf
  · have h1 := quadForm_cs hM hpsd (powv n M j x) (powv n M (j + 1) x)
    have e : ∀ i, mulv n M (powv n M i x) = powv n M (i + 1) x := fun _ => rfl
    rw [e, e, moment hM, moment hM, moment hM] at h1
    convert h1 using 3 <;> ring_nf

theorem moment_nonneg {n : Nat} {M : Nat → Nat → ℝ} (hM : ∀ i < n, ∀ j < n, M i j = M j i)
    (hpsd : ∀ x, 0 ≤ quadForm n M x) (x : Nat → ℝ) (k : Nat) : 0 ≤ dot n x (powv n M k x) := by
  rcases Nat.even_or_odd' k with ⟨j, rfl | rfl⟩
  · have := dot_self_nonneg n (powv n M j x)
    rw [moment hM] at this
    convert this using 3; ring
  · have h1 := hpsd (powv n M j x)
    have hq : quadForm n M (powv n M j x) = dot n (powv n M j x) (powv n M (j + 1) x) := by
      unfold quadForm dot
      refine Finset.sum_congr rfl (fun i _ => ?_)
      show _ = _ * mulv n M (powv n M j x) i
      unfold mulv
      rw [Finset.mul_sum]
      exact Finset.sum_congr rfl (fun j _ => by ring)
    rw [hq, moment hM] at h1
    convert h1 using 3; ring

theorem dot_eigen_powv {n : Nat} {M : Nat → Nat → ℝ} (hM : ∀ i < n, ∀ j < n, M i j = M j i) {l : ℝ}
    {b : Nat → ℝ} (hb : IsEigen n M l b) (x : Nat → ℝ) (k : Nat) :
    dot n b (powv n M k x) = l ^ k * dot n b x := by
  induction k with
  | zero => simp [powv]
  | succ k ih =>
    show dot n b (mulv n M (powv n M k x)) = _
    have h1 : ∀ i < n, mulv n M b i = l * b i := hb
    rw [← mulv_symm hM, dot_comm, dot_congr (fun _ _ => rfl) h1, dot_smul_right, dot_comm, ih, pow_succ]
    ring

theorem dot_smul_left (n : Nat) (c : ℝ) (x y : Nat → ℝ) :
    dot n (fun i => c * x i) y = c * dot n x y := by
  rw [dot_comm, dot_smul_right, dot_comm]

/-- The Rayleigh quotient of the result in terms of the moments. -/
theorem rayleigh_moments (m : SprsMat ℝ) (hsq : m.rows = m.cols)
    (hsym : ∀ i < m.rows, ∀ j < m.rows, m.coeff i j = m.coeff j i) (v : List ℝ)
    (hv : v.length = m.rows) (t : Nat) {r : List ℝ} {R : ℝ} (hr : powerMethod m (t : Int) v = .ok r)
    (hR : rayleighQuotient m r = .ok R) :
    0 < dot m.rows (vec v) (powv m.rows m.coeff (2 * t) (vec v)) ∧
    dot m.rows (vec v) (powv m.rows m.coeff (2 * t + 1) (vec v))
      = R * dot m.rows (vec v) (powv m.rows m.coeff (2 * t) (vec v)) := by
  obtain ⟨-, -, -, h4⟩ := C54_arguments m 0 r
  obtain ⟨-, hrl, hrne⟩ := h4.1 ⟨R, hR⟩
  have hR' := (C54_rayleigh m hsq r hrl hrne).1
  rw [hR, Outcome.ok.injEq] at hR'
  have hrpos : 0 < dot m.rows (vec r) (vec r) := by
    obtain ⟨x, hx, hx0⟩ := hrne
    obtain ⟨i, hi, rfl⟩ := List.mem_iff_getElem.1 hx
    refine Finset.sum_pos' (fun i _ => mul_self_nonneg _) ⟨i, Finset.mem_range.2 (by omega), ?_⟩
    apply mul_self_pos.2
    unfold vec
    rwa [List.getD_eq_getElem?_getD, List.getElem?_eq_getElem hi]
  -- M^t v is a positive multiple of r
  obtain ⟨N, hN, hNr⟩ : ∃ N : ℝ, 0 < N ∧ ∀ i < m.rows,
      powv m.rows m.coeff t (vec v) i = N * vec r i := by
    cases t with
    | zero =>
      have h0 := (C54_power_method m hsq v hv 0).1
      rw [Nat.cast_zero, h0, Outcome.ok.injEq] at hr
      subst hr
      exact ⟨1, one_pos, fun i _ => by simp [powv]⟩
    | succ t =>
      obtain ⟨-, r', h1, -, h3, -, h5⟩ := C54_power_method m hsq v hv t
      push_cast at hr
      rw [hr, Outcome.ok.injEq] at h1
      subst h1
      refine ⟨_, lt_of_le_of_ne (Real.sqrt_nonneg _) ?_, fun i hi => by rw [mul_comm]; exact (h3 i hi).symm⟩
      intro h0
      have h6 := h5 h0.symm
      have : dot m.rows (vec r) (vec r) = 0 := Finset.sum_eq_zero (fun i _ => by rw [h6 i, mul_zero])
      linarith
  have hq : quadForm m.rows m.coeff (vec r) = dot m.rows (vec r) (mulv m.rows m.coeff (vec r)) := by
    unfold quadForm dot mulv
    refine Finset.sum_congr rfl (fun i _ => ?_)
    rw [Finset.mul_sum]
    exact Finset.sum_congr rfl (fun j _ => by ring)
  have e0 : dot m.rows (vec v) (powv m.rows m.coeff (2 * t) (vec v)) = N ^ 2 * dot m.rows (vec r) (vec r) := by
    rw [two_mul, ← moment hsym, dot_congr hNr hNr, dot_smul]
  have e1 : dot m.rows (vec v) (powv m.rows m.coeff (2 * t + 1) (vec v))
      = N ^ 2 * quadForm m.rows m.coeff (vec r) := by
    rw [two_mul, add_assoc, ← moment hsym]
    show dot m.rows _ (mulv m.rows m.coeff (powv m.rows m.coeff t (vec v))) = _
    rw [mulv_congr hNr, mulv_smul, dot_congr hNr (fun _ _ => rfl), dot_smul_left, dot_smul_right, hq]
    ring
  rw [e0, e1, hR']
  refine ⟨by positivity, ?_⟩
  field_simp

/-- **C54** (progress).  For a symmetric positive semidefinite matrix the Rayleigh quotient of the
result never decreases from one iteration to the next, and after `t` iterations it is at least the
eigenvalue of any eigenvector the start is not orthogonal to, up to a factor that tends to one:
`R^(2t) |v|^2 ≥ l^(2t) ⟨b, v⟩^2`. -/
theorem C54_rayleigh_increases (m : SprsMat ℝ) (hsq : m.rows = m.cols)
    (hsym : ∀ i < m.rows, ∀ j < m.rows, m.coeff i j = m.coeff j i)
    (hpsd : ∀ x, 0 ≤ quadForm m.rows m.coeff x) (v : List ℝ) (hv : v.length = m.rows) (t : Nat)
    {r : List ℝ} {R : ℝ} (hr : powerMethod m (t : Int) v = .ok r) (hR : rayleighQuotient m r = .ok R) :
    0 ≤ R ∧
    (∀ r' R', powerMethod m ((t : Int) + 1) v = .ok r' → rayleighQuotient m r' = .ok R' → R ≤ R') ∧
    (∀ l b, IsEigen m.rows m.coeff l b → dot m.rows b b = 1 →
      l ^ (2 * t) * dot m.rows b (vec v) ^ 2 ≤ R ^ (2 * t) * dot m.rows (vec v) (vec v)) := by
  set a : Nat → ℝ := fun k => dot m.rows (vec v) (powv m.rows m.coeff k (vec v)) with ha
  have hnn : ∀ k, 0 ≤ a k := moment_nonneg hsym hpsd (vec v)
  have hcv : ∀ k, a (k + 1) ^ 2 ≤ a k * a (k + 2) := moment_convex hsym hpsd (vec v)
  obtain ⟨hp, he⟩ := rayleigh_moments m hsq hsym v hv t hr hR
  change 0 < a (2 * t) at hp
  change a (2 * t + 1) = R * a (2 * t) at he
  have hR0 : 0 ≤ R := by
    by_contra hneg
    have := hnn (2 * t + 1)
    rw [he] at this
    nlinarith [mul_pos (neg_pos.2 (not_le.1 hneg)) hp]
  refine ⟨hR0, fun r' R' hr' hRR => ?_, fun l b hb hbu => ?_⟩
  · obtain ⟨hp', he'⟩ := rayleigh_moments m hsq hsym v hv (t + 1) (by exact_mod_cast hr') hRR
    change 0 < a (2 * t + 2) at hp'
    change a (2 * t + 3) = R' * a (2 * t + 2) at he'
    have c1 : a (2 * t + 1) ^ 2 ≤ a (2 * t) * a (2 * t + 2) := hcv (2 * t)
    have c2 : a (2 * t + 2) ^ 2 ≤ a (2 * t + 1) * a (2 * t + 3) := hcv (2 * t + 1)
    have h1 : 0 < a (2 * t + 1) := by
      rcases (hnn (2 * t + 1)).lt_or_eq with h | h
      · exact h
      · rw [← h, zero_mul] at c2
        nlinarith [pow_pos hp' 2]
    have d1 : R * a (2 * t + 1) ≤ a (2 * t + 2) := by
      have : a (2 * t) * (R * a (2 * t + 1)) ≤ a (2 * t) * a (2 * t + 2) := by
        rw [he] at c1 ⊢; nlinarith
      exact le_of_mul_le_mul_left this hp
    have d2 : a (2 * t + 2) ≤ R' * a (2 * t + 1) := by
      have : a (2 * t + 2) * a (2 * t + 2) ≤ a (2 * t + 2) * (R' * a (2 * t + 1)) := by
        rw [he'] at c2; nlinarith
      exact le_of_mul_le_mul_left this hp'
    exact le_of_mul_le_mul_right (d1.trans d2) h1
  · -- ratios increase, so each is at most `R`
    have hratio : ∀ d ≤ 2 * t, a (2 * t - d + 1) ≤ R * a (2 * t - d) := by
      intro d
      induction d with
      | zero => intro _; exact he.le
      | succ d ih =>
        intro hd
        have h1 := ih (by omega)
        have h2 := hcv (2 * t - (d + 1))
        rw [show 2 * t - (d + 1) + 1 = 2 * t - d by omega,
          show 2 * t - (d + 1) + 2 = 2 * t - d + 1 by omega] at h2
        rw [show 2 * t - (d + 1) + 1 = 2 * t - d by omega]
        rcases (hnn (2 * t - d)).lt_or_eq with h | h
        · have h3 : a (2 * t - d) * a (2 * t - d) ≤ a (2 * t - d) * (R * a (2 * t - (d + 1))) := by
            have := mul_le_mul_of_nonneg_left h1 (hnn (2 * t - (d + 1)))
            nlinarith
          exact le_of_mul_le_mul_left h3 h
        · rw [← h]; exact mul_nonneg hR0 (hnn _)
    have hpow : ∀ k ≤ 2 * t, a k ≤ R ^ k * a 0 := by
      intro k
      induction k with
      | zero => intro _; simp
      | succ k ih =>
        intro hk
        have h1 := hratio (2 * t - k) (by omega)
        rw [show 2 * t - (2 * t - k) = k by omega] at h1
        refine le_trans h1 ?_
        rw [pow_succ, mul_comm (R ^ k) R, mul_assoc]
        exact mul_le_mul_of_nonneg_left (ih (by omega)) hR0
    have h1 : l ^ (2 * t) * dot m.rows b (vec v) ^ 2 ≤ a (2 * t) := by
      have h2 := dot_cs m.rows b (powv m.rows m.coeff t (vec v))
      rw [hbu, one_mul, dot_eigen_powv hsym hb, moment hsym, ← two_mul, mul_pow, ← pow_mul, mul_comm t 2] at h2
      exact h2
    exact h1.trans (hpow (2 * t) le_rfl)

/-- **C54** (graph matrices).  For a graph with non-negative weights, Rayleigh quotients of the
adjacency matrix are between `-d` and `d` and of the Laplacian between 0 and `2 d`, `d` being at least
every degree. -/
theorem C54_graph_ranges {g : Graph ℝ} (h : g.Reachable) (hw : ∀ u v, 0 ≤ g.abs.w u v) (d : ℝ)
    (hdeg : ∀ v < g.n, g.abs.deg v ≤ d) (v : List ℝ) (hv : v.length = g.n) (hne : ∃ x ∈ v, x ≠ 0) :
    (∃ R, rayleighQuotient g.adj v = .ok R ∧ -d ≤ R ∧ R ≤ d) ∧
    (∃ R, rayleighQuotient g.laplacian v = .ok R ∧ 0 ≤ R ∧ R ≤ 2 * d) := by
  have hdpos : 0 < dot g.n (vec v) (vec v) := by
    obtain ⟨x, hx, hx0⟩ := hne
    obtain ⟨i, hi, rfl⟩ := List.mem_iff_getElem.1 hx
    refine Finset.sum_pos' (fun i _ => mul_self_nonneg _) ⟨i, Finset.mem_range.2 (by omega), ?_⟩
    apply mul_self_pos.2
    unfold vec
    rwa [List.getD_eq_getElem?_getD, List.getElem?_eq_getElem hi]
  have hA := adjacency_bounds h hw (vec v)
  have hD := degForm_le g (vec v) d hdeg
  have hL := quadForm_laplacian g (vec v)
  constructor
  · have e := (C54_rayleigh g.adj (by rw [h.valid.rows, h.valid.cols]) v (by rw [h.valid.rows, hv]) hne).1
    rw [h.valid.rows] at e
    change _ = Outcome.ok (quadForm g.n g.abs.w (vec v) / _) at e
    refine ⟨_, e, ?_, ?_⟩
    · rw [le_div_iff₀ hdpos]; linarith
    · rw [div_le_iff₀ hdpos]; linarith
  · have hlr : g.laplacian.rows = g.n := h.valid.cols
    have e := (C54_rayleigh g.laplacian rfl v (by rw [hlr, hv]) hne).1
    rw [hlr] at e
    rw [quadForm_congr (N := matrixOf g.abs .laplacian) (fun i hi j _ => laplacian_matrixOf h hi), hL] at e
    refine ⟨_, e, ?_, ?_⟩
    · rw [le_div_iff₀ hdpos]; linarith
    · rw [div_le_iff₀ hdpos]; linarith

/-! ## A concrete case -/

/-- The matrix with diagonal 2, 1. -/
noncomputable def diag21 : SprsMat ℝ := SprsMat.diag 2 (fun i => if i = 0 then 2 else 1)

theorem diag21_coeff (i j : Nat) (hj : j < 2) :
    diag21.coeff i j = if i = j then (if i = 0 then 2 else 1) else 0 := by
  unfold diag21
  rw [SprsMat.coeff_diag]
  by_cases h : i = j
  · subst h; simp [hj]
  · simp [h]

/-- The hypotheses of the convergence theorems hold for the diagonal matrix (2, 1), the eigenvector
`(1, 0)` of 2, the bound 1 and the start `(1, 1)`. -/
example : diag21.rows = diag21.cols ∧
    (∀ i < diag21.rows, ∀ j < diag21.rows, diag21.coeff i j = diag21.coeff j i) ∧
    (∀ x, 0 ≤ quadForm diag21.rows diag21.coeff x) ∧
    IsEigen diag21.rows diag21.coeff 2 (vec [1, 0]) ∧ dot diag21.rows (vec [1, 0]) (vec [1, 0]) = 1 ∧
    (1 : ℝ) < |2| ∧
    (∀ k x, IsEigen diag21.rows diag21.coeff k x → (∃ i < diag21.rows, x i ≠ 0) →
      dot diag21.rows (vec [1, 0]) x = 0 → |k| ≤ 1) ∧
    dot diag21.rows (vec [1, 0]) (vec [1, 1]) ≠ 0 := by
  have h2 : diag21.rows = 2 := rfl
  have e00 := diag21_coeff 0 0 (by norm_num)
  have e01 := diag21_coeff 0 1 (by norm_num)
  have e10 := diag21_coeff 1 0 (by norm_num)
  have e11 := diag21_coeff 1 1 (by norm_num)
  norm_num at e00 e01 e10 e11
  rw [h2]
  refine ⟨rfl, ?_, ?_, ?_, ?_, by norm_num, ?_, ?_⟩
  · intro i hi j hj
    interval_cases i <;> interval_cases j <;> simp [e00, e01, e10, e11]
  · intro x
    simp only [quadForm, Finset.sum_range_succ, Finset.sum_range_zero, e00, e01, e10, e11]
    nlinarith [mul_self_nonneg (x 0), mul_self_nonneg (x 1)]
  · intro i hi
    simp only [Finset.sum_range_succ, Finset.sum_range_zero, vec]
    interval_cases i <;> simp [e00, e01, e10, e11]
  · simp [dot, Finset.sum_range_succ, vec]
  · intro k x hk hx ho
    simp only [dot, Finset.sum_range_succ, Finset.sum_range_zero, vec] at ho
    simp at ho
    have h1 := hk 1 (by norm_num)
    simp only [Finset.sum_range_succ, Finset.sum_range_zero, e10, e11] at h1
    have hx1 : x 1 ≠ 0 := by
      obtain ⟨i, hi, h0⟩ := hx
      interval_cases i
      · exact absurd ho h0
      · exact h0
    have : k = 1 := by
      have : (k - 1) * x 1 = 0 := by linarith
      have := (mul_eq_zero.1 this).resolve_right hx1
      linarith
    rw [this, abs_one]
  · simp [dot, Finset.sum_range_succ, vec]

end Stag
