import Verif.CknsLemmas
import Verif.Props.Batch
import Verif.Props.Kde

/-!
# C47 and C49: the CKNS estimator: batches, schedules, and what a query answers
-/

namespace Stag

open Pool

/-! ## C47: batch queries -/

/-- **C47** (chunks, any arithmetic).  Whatever the number type and its operations — floating point
included — and whatever the traversal orders of the unordered containers, the chunked query computes
for each row of the chunk what the single-point query computes, in order. -/
theorem C47_chunk {R : Type} (A : Arith R) (k1 iters : Nat) (J : Nat → Nat)
    (u : Nat → Nat → Nat → Nat → R) (ord : Nat → Nat → Nat → List Nat → List Nat)
    (ord' : Nat → List Nat → List Nat) (hord : ∀ it iter j l, (ord it iter j l).Perm l)
    (hord' : ∀ it l, (ord' it l).Perm l) (lo hi : Nat) :
    chunkQuery A k1 iters J u ord ord' lo hi
      = (List.range (hi - lo)).map (fun t => queryLoop A k1 J (u (lo + t)) 0 iters A.zero) :=
  chunkQuery_eq A hord hord'

/-- **C47** (CKNS estimator).  With at least one thread and one copy (`k1 ≥ 1`), for every number of
query points, every schedule and every traversal order, the batch query returns, and its results are
in order the single-point answers. -/
theorem C47_ckns (c : Ckns) (hk : 0 < c.k1) (points : List (List ℝ)) (threads : Nat)
    (ht : 0 < threads) :
    (∃ out, c.BatchQuery points threads out) ∧
    ∀ out, c.BatchQuery points threads out →
      ∃ vs, out = .ok vs ∧ List.Forall₂ (fun q v => c.query q = .ok v) points vs := by
  have hkey : ∀ vs : List ℝ, vs = (List.range points.length).map (fun i =>
      queryLoop c.arith c.k1 c.J (c.unitQuery (points.getD i [])) 0 c.iters 0) →
      List.Forall₂ (fun q v => c.query q = .ok v) points vs := by
    intro vs hvs
    rw [hvs, List.forall₂_iff_get]
    refine ⟨by simp, fun i h1 h2 => ?_⟩
    unfold Ckns.query
    rw [if_neg (by omega)]
    congr 1
    simp only [List.get_eq_getElem, List.getElem_map, List.getElem_range]
    rw [List.getD_eq_getElem _ _ h1]
  constructor
  · by_cases hl : points.length < threads
    · exact ⟨_, fun _ _ _ _ l => l, fun _ _ l => l, fun _ _ _ _ _ => .refl _, fun _ _ _ => .refl _, by
        rw [if_neg (by omega), if_pos hl]⟩
    · obtain ⟨out, ho⟩ := parallelBatch_exists (c.answers points (fun _ _ _ _ l => l) (fun _ _ l => l))
        0 points.length threads ht
      exact ⟨out, fun _ _ _ _ l => l, fun _ _ l => l, fun _ _ _ _ _ => .refl _, fun _ _ _ => .refl _, by
        rw [if_neg (by omega), if_neg hl]; exact ho⟩
  · rintro out ⟨ord, ord', hord, hord', h⟩
    rw [if_neg (by omega)] at h
    have hans : ∀ lo hi, c.answers points ord ord' lo hi = (List.range (hi - lo)).map (fun t =>
        queryLoop c.arith c.k1 c.J (c.unitQuery (points.getD (lo + t) [])) 0 c.iters 0) :=
      fun lo hi => chunkQuery_eq c.arith (hord lo) (hord' lo)
    split_ifs at h with hl
    · refine ⟨_, h, hkey _ ?_⟩
      rw [hans]
      simp
    · have := parallelBatch_ok (fun i => queryLoop c.arith c.k1 c.J (c.unitQuery (points.getD i [])) 0
        c.iters 0) ht (fun lo hi _ _ => hans lo hi) h
      exact ⟨_, this, hkey _ rfl⟩

/-- **C47** (no threads).  With `hardware_concurrency() = 0` every answer is 0. -/
theorem C47_ckns_no_threads (c : Ckns) (points : List (List ℝ)) :
    ∀ out, c.BatchQuery points 0 out → out = .ok (List.replicate points.length 0) := by
  rintro out ⟨ord, ord', -, -, h⟩
  rw [if_neg (by omega), if_neg (by omega)] at h
  obtain ⟨m, k, s, _, _, rfl⟩ := h
  rfl

/-- **C47** (no copies).  With `k1 = 0` — which the default constructors choose for a single data
point, see `C49_single_point` — both queries are undefined. -/
theorem C47_no_copies (c : Ckns) (hk : c.k1 = 0) (hi : c.iters ≠ 0) (q : List ℝ)
    (points : List (List ℝ)) (hp : points ≠ []) (threads : Nat) (ht : threads ≠ 0) :
    c.query q = .ub ∧ ∀ out, c.BatchQuery points threads out → out = .ub := by
  refine ⟨by unfold Ckns.query; rw [if_pos ⟨hk, hi⟩], ?_⟩
  rintro out ⟨ord, ord', -, -, h⟩
  rwa [if_pos ⟨hk, hi, hp, ht⟩] at h

/-! ## C49: the constructor -/

/-- Filling the grid. -/
theorem pushUnits_foldl (mk : Nat → Nat → Nat → HashUnit) (it iter : Nat) :
    ∀ (xs : List (Nat × Nat × Nat)) (g : Nat → Nat → List HashUnit),
    xs.foldl (fun g x => pushUnit x.2.1 x.1 (mk x.1 x.2.1 x.2.2) g) g it iter
      = g it iter ++ (xs.filter (fun x => x.1 = iter ∧ x.2.1 = it)).map
          (fun x => mk x.1 x.2.1 x.2.2) := by
  intro xs
  induction xs with
  | nil => intro g; simp
  | cons x xs ih =>
    intro g
    rw [List.foldl_cons, ih]
    unfold pushUnit
    by_cases h : it = x.2.1 ∧ iter = x.1
    · have h' : x.1 = iter ∧ x.2.1 = it := ⟨h.2.symm, h.1.symm⟩
      rw [if_pos h, List.filter_cons, if_pos (by simpa using h')]
      simp [h.1, h.2]
    · have h' : ¬ (x.1 = iter ∧ x.2.1 = it) := fun e => h ⟨e.2.symm, e.1.symm⟩
      rw [if_neg h, List.filter_cons, if_neg (by simpa using h')]

theorem mem_unitSpecs {k1 iters : Nat} {J : Nat → Nat} {x : Nat × Nat × Nat} :
    x ∈ unitSpecs k1 iters J ↔ x.1 < k1 ∧ x.2.1 < iters ∧ x.2.2 ≤ J x.2.1 := by
  unfold unitSpecs
  simp only [List.mem_flatMap, List.mem_range, List.mem_map]
  constructor
  · rintro ⟨i, hi, t, ht, j, hj, rfl⟩
    exact ⟨hi, ht, by simp; omega⟩
  · rintro ⟨h1, h2, h3⟩
    exact ⟨x.1, h1, x.2.1, h2, x.2.2, by omega, rfl⟩

theorem filter_range_flatMap {β : Type} (f : Nat → List β) (p : β → Bool) (a : Nat)
    (h1 : ∀ i, i ≠ a → (f i).filter p = []) : ∀ k, a < k →
    ((List.range k).flatMap f).filter p = (f a).filter p := by
  intro k
  induction k with
  | zero => intro h; omega
  | succ k ih =>
    intro h
    rw [List.range_succ, List.flatMap_append, List.filter_append]
    simp only [List.flatMap_cons, List.flatMap_nil, List.append_nil]
    by_cases e : k = a
    · subst e
      have h0 : ((List.range k).flatMap f).filter p = [] := by
        rw [List.filter_eq_nil_iff]
        intro x hx
        rw [List.mem_flatMap] at hx
        obtain ⟨i, hi, hx⟩ := hx
        have := h1 i (by have := List.mem_range.1 hi; omega)
        rw [List.filter_eq_nil_iff] at this
        exact this x hx
      rw [h0, List.nil_append]
    · rw [ih (by omega), h1 k e, List.append_nil]

/-- The units of one slot of the grid. -/
theorem unitSpecs_slot {k1 iters : Nat} {J : Nat → Nat} {iter it : Nat} (h1 : iter < k1)
    (h2 : it < iters) : (unitSpecs k1 iters J).filter (fun x => x.1 = iter ∧ x.2.1 = it)
      = (List.range (J it + 1)).map (fun j => (iter, it, j)) := by
  unfold unitSpecs
  rw [filter_range_flatMap _ _ iter _ k1 h1, filter_range_flatMap _ _ it _ iters h2]
  · rw [List.filter_eq_self]
    intro x hx
    obtain ⟨j, -, rfl⟩ := List.mem_map.1 hx
    simp
  · intro i hi
    rw [List.filter_eq_nil_iff]
    intro x hx
    obtain ⟨j, -, rfl⟩ := List.mem_map.1 hx
    simp [hi]
  · intro i hi
    rw [List.filter_eq_nil_iff]
    intro x hx
    rw [List.mem_flatMap] at hx
    obtain ⟨t, -, hx⟩ := hx
    obtain ⟨j, -, rfl⟩ := List.mem_map.1 hx
    simp [hi]

/-- The sampling probability is positive and at most one. -/
theorem cknsPSampling_pos (j logNmu : Int) {n : Nat} (hn : 0 < n) (offset : Int) :
    0 < cknsPSampling j logNmu n offset ∧ cknsPSampling j logNmu n offset ≤ 1 := by
  have hn' : (0 : ℝ) < n := by exact_mod_cast hn
  unfold cknsPSampling
  split_ifs
  · exact ⟨lt_min one_pos (by positivity), min_le_left _ _⟩
  · exact ⟨lt_min one_pos (by positivity), min_le_left _ _⟩

theorem startingIdx_zero {p : ℝ} (hp : 0 < p) (n : Nat) : startingIdx p n = 0 := by
  unfold startingIdx
  split_ifs with h
  · have : ⌊1 - 2 * p⌋ = 0 := by rw [Int.floor_eq_iff]; constructor <;> norm_num <;> linarith
    rw [this, zero_mul]
  · rfl

/-- The rows stored by a hash unit: the first `floor(p n)`, whatever the level. -/
theorem create_eq (a : ℝ) (data : List (List ℝ)) (hn : 0 < data.length) (logNmu j offset : Int)
    (fs : List (MultiLsh ℝ)) :
    HashUnit.create a data logNmu j offset fs
      = let lshData := data.take ⌊cknsPSampling j logNmu data.length offset * data.length⌋.toNat
        if j = 0 then .ok ⟨data.length, a, logNmu, j, cknsJ data.length logNmu, offset, true, false,
          lshData, E2Lsh.create [] []⟩
        else if lshData.length ≤ 3000 then .ok ⟨data.length, a, logNmu, j, cknsJ data.length logNmu,
          offset, false, true, lshData, E2Lsh.create [] []⟩
        else .ok ⟨data.length, a, logNmu, j, cknsJ data.length logNmu, offset, false, false, [],
          E2Lsh.create fs lshData⟩ := by
  obtain ⟨h0, h1⟩ := cknsPSampling_pos j logNmu hn offset
  unfold HashUnit.create
  simp only [startingIdx_zero h0, zero_add]
  have hle : ⌊cknsPSampling j logNmu data.length offset * data.length⌋ ≤ (data.length : Int) := by
    rw [← Int.floor_natCast (R := ℝ) data.length]
    apply Int.floor_le_floor
    have : (0 : ℝ) ≤ data.length := Nat.cast_nonneg _
    nlinarith
  rw [if_neg (by push Not; exact ⟨le_refl _, hle⟩)]
  simp

section
variable {a minMu : ℝ} {n k1 : Nat} {offset : Int} {copies : Nat → List (List ℝ)}
    {fs : Nat → Nat → Nat → List (MultiLsh ℝ)}

/-- The unit that the task for copy `iter`, iteration `it` and level `j` makes. -/
def IsUnit (a : ℝ) (n : Nat) (offset : Int) (copies : Nat → List (List ℝ))
    (fs : Nat → Nat → Nat → List (MultiLsh ℝ)) (iter it j : Nat) (h : HashUnit) : Prop :=
  HashUnit.create a (copies iter) (Ckns.logNmu (cknsMaxLog n) it) j offset (fs iter it j) = .ok h

/-- **C49** (the grid).  Whatever the number of threads and the schedule, after the constructor the
vector for iteration `it` and copy `iter` contains each of the units of levels `0, ..., J` once, in
some order. -/
theorem C49_grid {threads : Nat} (ht : 0 < threads) {c : Ckns}
    (h : Ckns.Create a minMu n k1 offset copies fs threads c) (iter it : Nat) (h1 : iter < c.k1)
    (h2 : it < c.iters) :
    ∃ us : Nat → HashUnit, (∀ j ≤ c.J it, IsUnit a n offset copies fs iter it j (us j)) ∧
      (c.units it iter).Perm ((List.range (c.J it + 1)).map us) := by
  obtain ⟨mk, hmk, m, k, s, hex, hc, rfl⟩ := h
  simp only [] at h1 h2 ⊢
  have hspecs : ∀ t ∈ List.range (unitSpecs k1 (numIterations n minMu).toNat
      (fun it => (cknsJ n (Ckns.logNmu (cknsMaxLog n) it)).toNat)).length,
      t < (unitSpecs k1 (numIterations n minMu).toNat
      (fun it => (cknsJ n (Ckns.logNmu (cknsMaxLog n) it)).toNat)).length :=
    fun t ht => List.mem_range.1 ht
  set specs := unitSpecs k1 (numIterations n minMu).toNat
      (fun it => (cknsJ n (Ckns.logNmu (cknsMaxLog n) it)).toNat) with hsp
  obtain ⟨ts, hts, hsh⟩ := C56_atomic_tasks (T := unitTasks specs mk) ht
    (proper_libProg specs.length [false, true]) hex hc
    (fun t hp => libProg_gets _ _ t hp)
    (fun t hp => by
      rw [pushes_libProg] at hp
      simp [unitTasks, List.getElem?_eq_getElem (hspecs t hp)])
  rw [pushes_libProg] at hts
  have hrun : ∀ (ts : List Nat) (g : Nat → Nat → List HashUnit), (∀ t ∈ ts, t < specs.length) →
      runSeq (unitTasks specs mk) g ts = (ts.map (fun t => specs.getD t (0, 0, 0))).foldl
        (fun g x => pushUnit x.2.1 x.1 (mk x.1 x.2.1 x.2.2) g) g := by
    intro ts
    induction ts with
    | nil => intro g _; rfl
    | cons t ts ih =>
      intro g hl
      have htl := hl t List.mem_cons_self
      unfold runSeq at ih ⊢
      rw [List.foldl_cons, List.map_cons, List.foldl_cons, ih _ (fun t ht =>
        hl t (List.mem_cons_of_mem _ ht))]
      congr 1
      simp [unitTasks, List.getElem?_eq_getElem htl]
  have hlt : ∀ t ∈ ts, t < specs.length := fun t ht => List.mem_range.1 (hts.mem_iff.1 ht)
  have hperm : (ts.map (fun t => specs.getD t (0, 0, 0))).Perm specs := by
    have h3 := hts.map (fun t => specs.getD t (0, 0, 0))
    have h4 : (List.range specs.length).map (fun t => specs.getD t (0, 0, 0)) = specs := by
      apply List.ext_getElem (by simp)
      intro i h5 h6
      rw [List.getElem_map, List.getElem_range, List.getD_eq_getElem _ _ h6]
    rwa [h4] at h3
  refine ⟨fun j => mk iter it j, fun j hj => hmk iter it j h1 h2 hj, ?_⟩
  rw [hsh, hrun ts _ hlt, pushUnits_foldl, List.nil_append]
  have h5 := (hperm.filter (fun x => x.1 = iter ∧ x.2.1 = it)).map
    (fun x : Nat × Nat × Nat => mk x.1 x.2.1 x.2.2)
  rw [hsp, unitSpecs_slot h1 h2, List.map_map] at h5
  exact h5

/-- The estimates do not depend on the order of the units in the vectors. -/
theorem copyEstimate_eq {c : Ckns} {us : Nat → HashUnit} {it iter : Nat} (q : List ℝ)
    (h : (c.units it iter).Perm ((List.range (c.J it + 1)).map us)) :
    copyEstimate c.arith (c.unitQuery q it iter) (c.J it)
      = ∑ j ∈ Finset.range (c.J it + 1), (us j).query q := by
  have hlen : (c.units it iter).length = c.J it + 1 := by rw [h.length_eq]; simp
  unfold copyEstimate
  have h1 : (List.range (c.J it + 1)).foldl (fun e j => c.arith.add e (c.unitQuery q it iter j))
      c.arith.zero = ((List.range (c.J it + 1)).map (fun j => c.unitQuery q it iter j)).sum := by
    have := foldl_add_eq (fun j => c.unitQuery q it iter j) (List.range (c.J it + 1)) 0
    rw [zero_add] at this
    exact this
  rw [h1]
  have h2 : (List.range (c.J it + 1)).map (fun j => c.unitQuery q it iter j)
      = (c.units it iter).map (fun u => u.query q) := by
    apply List.ext_getElem (by simp [hlen])
    intro i h3 h4
    have hi : i < (c.units it iter).length := by simpa using h4
    simp [Ckns.unitQuery, List.getElem?_eq_getElem hi]
  rw [h2, (h.map _).sum_eq, List.map_map, Finset.sum_eq_multiset_sum, Finset.range_val,
    ← Multiset.coe_range, Multiset.map_coe, Multiset.sum_coe]
  rfl

/-- The test of an iteration: the estimate is accepted. -/
def Accepted (maxLog : Int) (it : Nat) (mu : ℝ) : Prop :=
  0 < mu ∧ 1.3 * ((maxLog - 2 * it : Int) : ℝ) ≤ Real.log mu

theorem accept_iff (c : Ckns) (it : Nat) (mu : ℝ) :
    c.arith.accept it mu = true ↔ Accepted c.maxLogNmu it mu := by
  unfold Ckns.arith Accepted Ckns.logNmu
  simp only [decide_eq_true_iff]
  rw [show (it * 2 : Nat) = 2 * it from Nat.mul_comm _ _]
  push_cast
  rfl

theorem queryLoop_spec (c : Ckns) (u : Nat → Nat → Nat → ℝ) : ∀ (m it : Nat) (last : ℝ), 0 < m →
    ∃ t, it ≤ t ∧ t < it + m ∧
      queryLoop c.arith c.k1 c.J u it m last = muEstimate c.arith c.k1 (c.J t) (u t) / c.n ∧
      (∀ t', it ≤ t' → t' < t → ¬ Accepted c.maxLogNmu t' (muEstimate c.arith c.k1 (c.J t') (u t'))) ∧
      (Accepted c.maxLogNmu t (muEstimate c.arith c.k1 (c.J t) (u t)) ∨ t + 1 = it + m) := by
  intro m
  induction m with
  | zero => intro it last h; omega
  | succ m ih =>
    intro it last _
    rw [queryLoop]
    by_cases ha : c.arith.accept it (muEstimate c.arith c.k1 (c.J it) (u it)) = true
    · simp only [ha, if_true]
      exact ⟨it, Nat.le_refl _, by omega, rfl, fun t' h1 h2 => by omega, .inl ((accept_iff _ _ _).1 ha)⟩
    · have ha' : ¬ Accepted c.maxLogNmu it (muEstimate c.arith c.k1 (c.J it) (u it)) :=
        fun h => ha ((accept_iff _ _ _).2 h)
      simp only [ha, Bool.false_eq_true, if_false]
      cases m with
      | zero =>
        refine ⟨it, Nat.le_refl _, by omega, rfl, fun t' h1 h2 => by omega, .inr rfl⟩
      | succ m =>
        obtain ⟨t, h1, h2, h3, h4, h5⟩ := ih (it + 1)
          (muEstimate c.arith c.k1 (c.J it) (u it)) (by omega)
        refine ⟨t, by omega, by omega, h3, fun t' h6 h7 => ?_, ?_⟩
        · by_cases e : t' = it
          · rw [e]; exact ha'
          · exact h4 t' (by omega) h7
        · rcases h5 with h5 | h5
          · exact .inl h5
          · exact .inr (by omega)

/-- **C49** (what a query answers).  Let `us iter it j` be the units the tasks make, and let
`est it` be the median over the copies of the sums of the units' answers.  Then, whatever the number
of threads and the schedule during the construction, a query answers `est it / n` for the first
iteration `it` whose estimate is accepted, or for the last iteration if none is. -/
theorem C49_answer {threads : Nat} (ht : 0 < threads) {c : Ckns}
    (h : Ckns.Create a minMu n k1 offset copies fs threads c) (hk : 0 < k1) (hi : 0 < c.iters)
    (us : Nat → Nat → Nat → HashUnit) (hus : ∀ iter < c.k1, ∀ it < c.iters, ∀ j ≤ c.J it,
      IsUnit a n offset copies fs iter it j (us iter it j))
    (q : List ℝ) (est : Nat → ℝ)
    (hest : ∀ it, est it = medianReal ((List.range k1).map (fun iter =>
      ∑ j ∈ Finset.range (c.J it + 1), (us iter it j).query q))) :
    ∃ it < c.iters, c.query q = .ok (est it / n) ∧
      (∀ it' < it, ¬ Accepted (cknsMaxLog n) it' (est it')) ∧
      (Accepted (cknsMaxLog n) it (est it) ∨ it + 1 = c.iters) := by
  have hck : c.k1 = k1 := by obtain ⟨mk, hmk, m, k, s, hex, hc, rfl⟩ := h; rfl
  have hcn : c.n = n := by obtain ⟨mk, hmk, m, k, s, hex, hc, rfl⟩ := h; rfl
  have hcm : c.maxLogNmu = cknsMaxLog n := by obtain ⟨mk, hmk, m, k, s, hex, hc, rfl⟩ := h; rfl
  have hmu : ∀ it < c.iters, muEstimate c.arith c.k1 (c.J it) (c.unitQuery q it) = est it := by
    intro it hit
    unfold muEstimate
    rw [hest it]
    change medianReal _ = _
    congr 1
    rw [hck]
    apply List.map_congr_left
    intro iter hiter
    rw [List.mem_range, ← hck] at hiter
    obtain ⟨vs, hv1, hv2⟩ := C49_grid ht h iter it hiter hit
    rw [copyEstimate_eq q hv2]
    apply Finset.sum_congr rfl
    intro j hj
    have hj' : j ≤ c.J it := by have := Finset.mem_range.1 hj; omega
    have e1 := hv1 j hj'
    have e2 := hus iter hiter it hit j hj'
    unfold IsUnit at e1 e2
    rw [e1] at e2
    injection e2 with e2
    rw [e2]
  obtain ⟨t, h1, h2, h3, h4, h5⟩ := queryLoop_spec c (c.unitQuery q) c.iters 0 0 hi
  rw [Nat.zero_add] at h2 h5
  refine ⟨t, h2, ?_, ?_, ?_⟩
  · unfold Ckns.query
    rw [if_neg (by omega), h3, hmu t h2, hcn]
  · intro t' ht'
    rw [← hcm, ← hmu t' (by omega)]
    exact h4 t' (Nat.zero_le _) ht'
  · rw [← hcm, ← hmu t h2]
    exact h5

/-- **C49** (schedule independence).  Two constructions from the same permuted copies and the same
drawn hash functions, with any numbers of threads and any schedules, answer every query alike. -/
theorem C49_schedule {threads threads' : Nat} (ht : 0 < threads) (ht' : 0 < threads') {c c' : Ckns}
    (h : Ckns.Create a minMu n k1 offset copies fs threads c)
    (h' : Ckns.Create a minMu n k1 offset copies fs threads' c') (q : List ℝ) :
    c.query q = c'.query q := by
  have key : ∀ it < c.iters, ∀ iter < c.k1,
      copyEstimate c.arith (c.unitQuery q it iter) (c.J it)
        = copyEstimate c'.arith (c'.unitQuery q it iter) (c'.J it) := by
    intro it hit iter hiter
    obtain ⟨us, hu1, hu2⟩ := C49_grid ht h iter it hiter hit
    obtain ⟨us', hu1', hu2'⟩ := C49_grid ht' h' iter it
      (by obtain ⟨_, _, _, _, _, _, _, rfl⟩ := h; obtain ⟨_, _, _, _, _, _, _, rfl⟩ := h'; exact hiter)
      (by obtain ⟨_, _, _, _, _, _, _, rfl⟩ := h; obtain ⟨_, _, _, _, _, _, _, rfl⟩ := h'; exact hit)
    rw [copyEstimate_eq q hu2, copyEstimate_eq q hu2']
    have hJ : c.J it = c'.J it := by
      obtain ⟨_, _, _, _, _, _, _, rfl⟩ := h; obtain ⟨_, _, _, _, _, _, _, rfl⟩ := h'; rfl
    rw [← hJ]
    apply Finset.sum_congr rfl
    intro j hj
    have hj' : j ≤ c.J it := by have := Finset.mem_range.1 hj; omega
    have e1 := hu1 j hj'
    have e2 := hu1' j (by rw [← hJ]; exact hj')
    unfold IsUnit at e1 e2
    rw [e1] at e2
    injection e2 with e2
    rw [e2]
  obtain ⟨_, _, _, _, s, _, _, rfl⟩ := h
  obtain ⟨_, _, _, _, s', _, _, rfl⟩ := h'
  unfold Ckns.query
  simp only []
  split_ifs with h0
  · rfl
  · congr 1
    have loop : ∀ (m it : Nat) (last : ℝ), it + m ≤ (numIterations n minMu).toNat →
        queryLoop (Ckns.arith ⟨n, a, cknsMaxLog n, (numIterations n minMu).toNat, k1, s.shared⟩) k1
          (Ckns.J ⟨n, a, cknsMaxLog n, (numIterations n minMu).toNat, k1, s.shared⟩)
          (Ckns.unitQuery ⟨n, a, cknsMaxLog n, (numIterations n minMu).toNat, k1, s.shared⟩ q) it m last
        = queryLoop (Ckns.arith ⟨n, a, cknsMaxLog n, (numIterations n minMu).toNat, k1, s'.shared⟩) k1
          (Ckns.J ⟨n, a, cknsMaxLog n, (numIterations n minMu).toNat, k1, s'.shared⟩)
          (Ckns.unitQuery ⟨n, a, cknsMaxLog n, (numIterations n minMu).toNat, k1, s'.shared⟩ q) it m
          last := by
      intro m
      induction m with
      | zero => intro it last _; rfl
      | succ m ih =>
        intro it last hle
        rw [queryLoop, queryLoop]
        have hm : muEstimate (Ckns.arith ⟨n, a, cknsMaxLog n, (numIterations n minMu).toNat, k1, s.shared⟩)
            k1 (Ckns.J ⟨n, a, cknsMaxLog n, (numIterations n minMu).toNat, k1, s.shared⟩ it)
            (Ckns.unitQuery ⟨n, a, cknsMaxLog n, (numIterations n minMu).toNat, k1, s.shared⟩ q it)
            = muEstimate (Ckns.arith ⟨n, a, cknsMaxLog n, (numIterations n minMu).toNat, k1, s'.shared⟩)
            k1 (Ckns.J ⟨n, a, cknsMaxLog n, (numIterations n minMu).toNat, k1, s'.shared⟩ it)
            (Ckns.unitQuery ⟨n, a, cknsMaxLog n, (numIterations n minMu).toNat, k1, s'.shared⟩ q it) := by
          unfold muEstimate
          change medianReal _ = medianReal _
          congr 1
          apply List.map_congr_left
          intro iter hiter
          exact key it (by simp only []; omega) iter (List.mem_range.1 hiter)
        simp only [hm]
        rw [ih (it + 1) _ (by omega)]
        rfl
    exact loop _ 0 0 (by omega)

/-- **C49** (the constructor returns).  With at least one thread and copies of the `n ≥ 1` rows, the
constructor returns; none of its accesses is out of range. -/
theorem C49_returns (a minMu : ℝ) (n k1 : Nat) (offset : Int) (copies : Nat → List (List ℝ))
    (fs : Nat → Nat → Nat → List (MultiLsh ℝ)) (hn : 0 < n) (hcop : ∀ iter < k1, (copies iter).length = n)
    (threads : Nat) (ht : 0 < threads) : ∃ c, Ckns.Create a minMu n k1 offset copies fs threads c := by
  have hmk : ∀ iter it j : Nat, ∃ h : HashUnit, iter < k1 →
      HashUnit.create a (copies iter) (Ckns.logNmu (cknsMaxLog n) it) j offset (fs iter it j) = .ok h := by
    intro iter it j
    by_cases hi : iter < k1
    · have := create_eq a (copies iter) (by rw [hcop iter hi]; exact hn)
        (Ckns.logNmu (cknsMaxLog n) it) j offset (fs iter it j)
      rw [this]
      simp only []
      split_ifs <;> exact ⟨_, fun _ => rfl⟩
    · exact ⟨⟨0, 0, 0, 0, 0, 0, false, false, [], E2Lsh.create [] []⟩, fun h => absurd h hi⟩
  choose mk hmk using hmk
  obtain ⟨m, s, hex, hc⟩ := C56_completes (T := unitTasks (unitSpecs k1 (numIterations n minMu).toNat
      (fun it => (cknsJ n (Ckns.logNmu (cknsMaxLog n) it)).toNat)) mk) ht
    (proper_libProg _ [false, true]) (S₀ := fun _ _ => []) Exec.nil
  exact ⟨_, mk, fun iter it j h _ _ => hmk iter it j h, m, 0, s, hex, hc, rfl⟩

/-- **C49** (no threads).  If `hardware_concurrency()` is 0 the constructor never returns. -/
theorem C49_no_threads (hk : 0 < k1) (hi : 0 < numIterations n minMu) (c : Ckns) :
    ¬ Ckns.Create a minMu n k1 offset copies fs 0 c := by
  rintro ⟨mk, hmk, m, k, s, hex, hc, -⟩
  have hlen : 0 < (unitSpecs k1 (numIterations n minMu).toNat
      (fun it => (cknsJ n (Ckns.logNmu (cknsMaxLog n) it)).toNat)).length := by
    rw [List.length_pos_iff]
    intro he
    have : ((0, 0, 0) : Nat × Nat × Nat) ∈ unitSpecs k1 (numIterations n minMu).toNat
      (fun it => (cknsJ n (Ckns.logNmu (cknsMaxLog n) it)).toNat) :=
      mem_unitSpecs.2 ⟨hk, by simp only []; omega, Nat.zero_le _⟩
    rw [he] at this
    cases this
  exact (C56_no_workers hex 0 (libProg_gets _ _ 0 (by rw [pushes_libProg]; exact List.mem_range.2 hlen))).2.2
    hc

end

/-- **C49** (iterations).  For `n ≥ 1` rows and `0 < min_mu ≤ 1` there is at least one iteration; the
guesses of `log2(n mu)` start at `ceil(log2 n)`, go down in steps of 2 and the last is at most
`floor(log2(n min_mu))` and at least one less; the number of levels of iteration `it` is `2 it`. -/
theorem C49_iterations (n : Nat) (minMu : ℝ) (hn : 0 < n) (h0 : 0 < minMu) (h1 : minMu ≤ 1) :
    0 < numIterations n minMu ∧
    (∀ it : Nat, cknsJ n (Ckns.logNmu (cknsMaxLog n) it) = 2 * it) ∧
    Ckns.logNmu (cknsMaxLog n) ((numIterations n minMu).toNat - 1) ≤ cknsMinLog n minMu ∧
    cknsMinLog n minMu - 1 ≤ Ckns.logNmu (cknsMaxLog n) ((numIterations n minMu).toNat - 1) := by
  have hn' : (0 : ℝ) < n := by exact_mod_cast hn
  have hle : cknsMinLog n minMu ≤ cknsMaxLog n := by
    unfold cknsMinLog cknsMaxLog
    have h2 : Real.logb 2 (n * minMu) ≤ Real.logb 2 n :=
      Real.logb_le_logb_of_le (by norm_num) (by positivity) (by nlinarith)
    have h3 := Int.floor_le (Real.logb 2 (n * minMu))
    have h4 := Int.le_ceil (Real.logb 2 (n : ℝ))
    exact_mod_cast le_trans h3 (le_trans h2 h4)
  obtain ⟨d, hd⟩ : ∃ d : Int, d = cknsMaxLog n - cknsMinLog n minMu := ⟨_, rfl⟩
  have hd0 : 0 ≤ d := by omega
  have hceil : ⌈((cknsMaxLog n - cknsMinLog n minMu : Int) : ℝ) / 2⌉ = (d + 1) / 2 := by
    rw [← hd, Int.ceil_eq_iff]
    rcases Int.even_or_odd' d with ⟨e, he | he⟩
    · have : (d + 1) / 2 = e := by omega
      rw [this, he]; push_cast; constructor <;> linarith
    · have : (d + 1) / 2 = e + 1 := by omega
      rw [this, he]; push_cast; constructor <;> linarith
  have hnum : numIterations n minMu = (d + 1) / 2 + 1 := by unfold numIterations; rw [hceil]
  refine ⟨by omega, fun it => ?_, ?_, ?_⟩
  · unfold cknsJ Ckns.logNmu cknsMaxLog; push_cast; ring
  · unfold Ckns.logNmu; rw [hnum]; omega
  · unfold Ckns.logNmu; rw [hnum]; omega

/-- **C49** (single point).  For one data point the default constructors take
`k1 = ceil(log(1) / eps²) = 0` copies (`stag_lib/kde.cpp:387`). -/
theorem C49_single_point (eps : ℝ) : ⌈1 * Real.log ((1 : Nat) : ℝ) / (eps * eps)⌉ = 0 := by simp

/-- **C49** (median).  The median of a non-empty vector is one of its entries; at most half of the
entries are below it and at most half are above it. -/
theorem C49_median (v : List ℝ) (hv : v ≠ []) :
    medianReal v ∈ v ∧ 2 * (v.filter (fun x => decide (x < medianReal v))).length ≤ v.length ∧
    2 * (v.filter (fun x => decide (medianReal v < x))).length ≤ v.length := by
  have hlen : 0 < v.length := List.length_pos_iff.2 hv
  set w := v.mergeSort (fun x y => decide (x ≤ y)) with hw
  have hperm : w.Perm v := List.mergeSort_perm _ _
  have hsort : w.Pairwise (fun x y => x ≤ y) := by
    have := List.pairwise_mergeSort (le := fun x y : ℝ => decide (x ≤ y))
      (fun a b c h1 h2 => by simp only [decide_eq_true_iff] at *; linarith)
      (fun a b => by simp only [Bool.or_eq_true, decide_eq_true_iff]; exact le_total a b) v
    exact this.imp (fun h => of_decide_eq_true h)
  have hwl : w.length = v.length := hperm.length_eq
  have hk : v.length / 2 < w.length := by omega
  obtain ⟨A, y, B, hsplit, hA, hmed⟩ : ∃ A y B, w = A ++ y :: B ∧ A.length = v.length / 2 ∧
      medianReal v = y := by
    refine ⟨w.take (v.length / 2), w[v.length / 2], w.drop (v.length / 2 + 1), ?_, ?_, ?_⟩
    · rw [List.getElem_cons_drop, List.take_append_drop]
    · rw [List.length_take]; omega
    · unfold medianReal; rw [List.getD_eq_getElem _ _ hk]
  rw [hsplit, List.pairwise_append, List.pairwise_cons] at hsort
  obtain ⟨hs1, ⟨hs2, hs3⟩, hs4⟩ := hsort
  have hB : A.length + (B.length + 1) = v.length := by rw [← hwl, hsplit]; simp
  rw [hmed]
  refine ⟨hperm.mem_iff.1 (by rw [hsplit]; simp), ?_, ?_⟩
  · rw [← ((hperm.filter _).length_eq), hsplit, List.filter_append, List.length_append]
    have h1 : ((y :: B).filter (fun x => decide (x < y))) = [] := by
      rw [List.filter_eq_nil_iff]
      intro x hx
      rcases List.mem_cons.1 hx with rfl | hx
      · simp
      · have := hs2 x hx; simpa using this
    have h2 := List.length_filter_le (fun x => decide (x < y)) A
    rw [h1, List.length_nil]
    omega
  · rw [← ((hperm.filter _).length_eq), hsplit, List.filter_append, List.length_append]
    have h1 : (A.filter (fun x => decide (y < x))) = [] := by
      rw [List.filter_eq_nil_iff]
      intro x hx
      have := hs4 x hx y List.mem_cons_self
      simpa using this
    have h2 := List.length_filter_le (fun x => decide (y < x)) B
    rw [h1, List.length_nil, List.filter_cons, if_neg (by simp)]
    omega

/-- Four points, four threads, two copies: an estimator is built, and its batch answers for two
queries are the single answers. -/
example (fs : Nat → Nat → Nat → List (MultiLsh ℝ)) (p q : List ℝ) :
    ∃ c, Ckns.Create 1 (1 / 4) 4 2 0 (fun _ => [[0], [1], [2], [3]]) fs 4 c ∧
      ∀ out, c.BatchQuery [p, q] 4 out → ∃ v w, out = .ok [v, w] ∧ c.query p = .ok v ∧
        c.query q = .ok w := by
  obtain ⟨c, hc⟩ := C49_returns 1 (1 / 4) 4 2 0 (fun _ => [[0], [1], [2], [3]]) fs (by omega)
    (fun _ _ => rfl) 4 (by omega)
  refine ⟨c, hc, fun out ho => ?_⟩
  have hk : 0 < c.k1 := by obtain ⟨_, _, _, _, _, _, _, rfl⟩ := hc; simp
  obtain ⟨vs, rfl, hvs⟩ := (C47_ckns c hk [p, q] 4 (by omega)).2 out ho
  rcases hvs with _ | ⟨h1, _ | ⟨h2, h3⟩⟩
  cases h3
  exact ⟨_, _, rfl, h1, h2⟩

end Stag
