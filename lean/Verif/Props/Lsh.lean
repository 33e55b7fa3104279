import Verif.Lsh
import Mathlib.Data.List.GetD
import Mathlib.Data.List.Perm.Basic
import Mathlib.Algebra.BigOperators.Group.Finset.Basic
import Mathlib.Algebra.BigOperators.Intervals
import Mathlib.Algebra.BigOperators.Field
import Mathlib.Algebra.Order.Floor.Semiring
import Mathlib.Data.Rat.Floor
import Mathlib.Tactic.Ring
import Mathlib.Tactic.Linarith

/-!
# C43: locality sensitive hash tables
-/

set_option linter.unusedSectionVars false

namespace Stag
section
variable {K : Type} [Field K] [LinearOrder K] [IsStrictOrderedRing K] [FloorRing K]

/-! ## One hash function -/

theorem dotLoop_eq (point a : List K) (n : Nat) : ∀ (d : Nat) (value : K),
    dotLoop point a d n value = value + ∑ t ∈ Finset.range n, point.getD (d + t) 0 * a.getD (d + t) 0 := by
  induction n with
  | zero => intro d value; simp [dotLoop]
  | succ n ih =>
    intro d value
    unfold dotLoop
    rw [ih, Finset.sum_range_succ']
    simp only [Nat.add_zero, Nat.add_assoc, Nat.add_comm 1]
    ring

/-- **C43** (one function).  With Gaussian draws `g` and a uniform draw `b` in `[0, 1]`, that is an
offset `4 b` in `[0, 4]`, the function hashes `x` to the floor of `(⟨g, x⟩ + 4 b) / 4`, as
documented. -/
theorem C43_function_formula (dim : Nat) (g : Nat → K) (b : K) (x : List K) (hx : x.length = dim) :
    (LshFunction.create dim g b).apply x =
      .ok ⌊((∑ d ∈ Finset.range dim, g d * x.getD d 0) + 4 * b) / 4⌋ := by
  unfold LshFunction.apply LshFunction.create
  simp only
  rw [if_neg (by simpa using hx), dotLoop_eq, add_div, Finset.sum_div, zero_add]
  congr 3
  · apply Finset.sum_congr rfl
    intro d hd
    have hd := Finset.mem_range.1 hd
    rw [Nat.zero_add, List.getD_eq_getElem ((List.range dim).map _) _ (by simpa using hd),
      List.getElem_map, List.getElem_range]
    ring
  · ring

/-- **C43** (one function).  Points hashed to the same value have projections less than one bucket
width (four, before scaling) apart. -/
theorem C43_collision_is_close (dim : Nat) (g : Nat → K) (b : K) (x y : List K) (hx : x.length = dim)
    (hy : y.length = dim)
    (h : (LshFunction.create dim g b).apply x = (LshFunction.create dim g b).apply y) :
    |(∑ d ∈ Finset.range dim, g d * x.getD d 0) - (∑ d ∈ Finset.range dim, g d * y.getD d 0)| < 4 := by
  rw [C43_function_formula dim g b x hx, C43_function_formula dim g b y hy] at h
  have h := Outcome.ok.inj h
  have := Int.abs_sub_lt_one_of_floor_eq_floor h
  rw [abs_lt] at this ⊢
  constructor <;> linarith [this.1, this.2]

/-! ## The tables -/

/-- What the tables contain: bucket `k` holds the indices of the points hashed to `k`, each once. -/
structure TableOk (points : List (List K)) (t : MultiLsh K × HashTable) : Prop where
  mem : ∀ k i, (∃ b, t.2 k = some b ∧ i ∈ b) ↔
    ∃ p, points[i]? = some p ∧ t.1.apply p = k

theorem add_get (t : HashTable) (key : Int) (i : Nat) (k : Int) :
    t.add key i k = if k = key then some ((t key).getD [] ++ [i]) else t k := by
  unfold HashTable.add
  by_cases hk : k = key
  · rw [if_pos hk, if_pos hk]
    by_cases hn : (t key).isNone = true
    · rw [if_pos hn, if_pos rfl]
      rw [Option.isNone_iff_eq_none] at hn
      rw [hn]; rfl
    · rw [if_neg hn]
  · rw [if_neg hk, if_neg hk]
    split_ifs
    · exact if_neg hk
    · rfl

theorem TableOk.add {points : List (List K)} {t : MultiLsh K × HashTable} (h : TableOk points t)
    (p : List K) : TableOk (points ++ [p]) (t.1, t.2.add (t.1.apply p) points.length) := by
  constructor
  intro k i
  simp only [add_get]
  have hm := h.mem k i
  by_cases hk : k = t.1.apply p
  · rw [if_pos hk]
    constructor
    · rintro ⟨b, hb, hi⟩
      simp only [Option.some.injEq] at hb
      subst hb
      rw [List.mem_append, List.mem_singleton] at hi
      rcases hi with hi | hi
      · rw [← hk] at hi
        cases hc : t.2 k with
        | none => rw [hc] at hi; simp at hi
        | some b =>
          rw [hc] at hi
          obtain ⟨q, hq, e⟩ := hm.1 ⟨b, hc, hi⟩
          have := (List.getElem?_eq_some_iff.1 hq).1
          exact ⟨q, by rw [List.getElem?_append_left this]; exact hq, e⟩
      · subst hi
        exact ⟨p, by simp, hk.symm⟩
    · rintro ⟨q, hq, e⟩
      refine ⟨_, rfl, ?_⟩
      rw [List.mem_append, List.mem_singleton]
      by_cases hi : i < points.length
      · left
        rw [List.getElem?_append_left hi] at hq
        obtain ⟨b, hb, hib⟩ := hm.2 ⟨q, hq, e⟩
        rw [← hk, hb]; exact hib
      · right
        have := (List.getElem?_eq_some_iff.1 hq).1
        simp at this
        omega
  · rw [if_neg hk, hm]
    constructor
    · rintro ⟨q, hq, e⟩
      have := (List.getElem?_eq_some_iff.1 hq).1
      exact ⟨q, by rw [List.getElem?_append_left this]; exact hq, e⟩
    · rintro ⟨q, hq, e⟩
      by_cases hi : i < points.length
      · rw [List.getElem?_append_left hi] at hq
        exact ⟨q, hq, e⟩
      · have := (List.getElem?_eq_some_iff.1 hq).1
        simp at this
        have hi : i = points.length := by omega
        subst hi
        simp at hq
        subst hq
        exact absurd e.symm hk

theorem addPoints_ok (ps : List (List K)) : ∀ (done : List (List K)) (ts : List (MultiLsh K × HashTable)),
    (∀ t ∈ ts, TableOk done t) → ∀ t ∈ addPoints ts done.length ps, TableOk (done ++ ps) t := by
  induction ps with
  | nil => intro done ts h; simpa [addPoints] using h
  | cons p ps ih =>
    intro done ts h
    unfold addPoints
    have := ih (done ++ [p]) (addPoint ts done.length p) (by
      intro t ht
      obtain ⟨t', ht', rfl⟩ := List.mem_map.1 ht
      exact (h t' ht').add p)
    rw [List.length_append, List.length_singleton, List.append_assoc, List.singleton_append] at this
    exact this

theorem addPoints_fns (ps : List (List K)) : ∀ (i : Nat) (ts : List (MultiLsh K × HashTable)),
    (addPoints ts i ps).map Prod.fst = ts.map Prod.fst := by
  induction ps with
  | nil => intro i ts; rfl
  | cons p ps ih =>
    intro i ts
    unfold addPoints
    rw [ih]
    unfold addPoint
    rw [List.map_map]; rfl

theorem collect_spec (is : List Nat) : ∀ near : List Nat, near.Nodup →
    (collect near is).Nodup ∧ ∀ i, i ∈ collect near is ↔ i ∈ near ∨ i ∈ is := by
  induction is with
  | nil => intro near h; exact ⟨h, by simp [collect]⟩
  | cons j is ih =>
    intro near h
    unfold collect
    split_ifs with hj
    · obtain ⟨h1, h2⟩ := ih near h
      refine ⟨h1, fun i => ?_⟩
      rw [h2, List.mem_cons]
      constructor
      · tauto
      · rintro (h | rfl | h)
        · exact .inl h
        · exact .inl hj
        · exact .inr h
    · obtain ⟨h1, h2⟩ := ih (near ++ [j]) (by
        rw [List.nodup_append]
        refine ⟨h, by simp, ?_⟩
        intro a ha b hb
        rw [List.mem_singleton] at hb
        subst hb
        rintro rfl
        exact hj ha)
      refine ⟨h1, fun i => ?_⟩
      rw [h2, List.mem_append, List.mem_singleton, List.mem_cons]
      tauto

theorem nearIndices_spec (q : List K) (ts : List (MultiLsh K × HashTable)) : ∀ near : List Nat,
    near.Nodup → (nearIndices q ts near).Nodup ∧
      ∀ i, i ∈ nearIndices q ts near ↔
        i ∈ near ∨ ∃ t ∈ ts, ∃ b, t.2 (t.1.apply q) = some b ∧ i ∈ b := by
  induction ts with
  | nil => intro near h; exact ⟨h, by simp [nearIndices]⟩
  | cons t ts ih =>
    intro near h
    unfold nearIndices
    cases hc : t.2 (t.1.apply q) with
    | none =>
      simp only
      obtain ⟨h1, h2⟩ := ih near h
      refine ⟨h1, fun i => ?_⟩
      rw [h2]
      simp [hc]
    | some bucket =>
      simp only
      obtain ⟨c1, c2⟩ := collect_spec bucket near h
      obtain ⟨h1, h2⟩ := ih _ c1
      refine ⟨h1, fun i => ?_⟩
      rw [h2, c2]
      simp only [List.mem_cons, exists_eq_or_imp, hc, Option.some.injEq, exists_eq_left']
      tauto

/-- **C43** (exactness).  The returned points are those at a list of distinct indices which
contains exactly the indices of the stored points hashed, in at least one of the tables, to the
value of the query. -/
theorem C43_near_neighbors (fs : List (MultiLsh K)) (points : List (List K)) (q : List K) :
    ∃ idx : List Nat, idx.Nodup ∧
      (∀ i, i ∈ idx ↔ ∃ p, points[i]? = some p ∧ ∃ f ∈ fs, f.apply p = f.apply q) ∧
      (E2Lsh.create fs points).getNearNeighbors q = idx.map (fun i => points.getD i []) := by
  have hok := addPoints_ok points [] (fs.map (fun f => (f, fun _ => none))) (by
    intro t ht
    obtain ⟨f, -, rfl⟩ := List.mem_map.1 ht
    constructor
    intro k i
    simp)
  have hfn := addPoints_fns points 0 (fs.map (fun f => (f, fun _ => none)))
  rw [List.map_map] at hfn
  have hfn' : (addPoints (fs.map (fun f => (f, fun _ => none))) 0 points).map Prod.fst = fs := by
    rw [hfn]; exact List.map_id fs
  obtain ⟨h1, h2⟩ := nearIndices_spec q
    (addPoints (fs.map (fun f => (f, fun _ => none))) 0 points) [] List.nodup_nil
  refine ⟨_, h1, fun i => ?_, rfl⟩
  rw [h2]
  simp only [List.not_mem_nil, false_or]
  constructor
  · rintro ⟨t, ht, hb⟩
    have := ((hok t ht).mem _ i).1 hb
    rw [List.nil_append] at this
    obtain ⟨p, hp, e⟩ := this
    refine ⟨p, hp, t.1, ?_, e⟩
    rw [← hfn']
    exact List.mem_map_of_mem ht
  · rintro ⟨p, hp, f, hf, e⟩
    rw [← hfn'] at hf
    obtain ⟨t, ht, rfl⟩ := List.mem_map.1 hf
    refine ⟨t, ht, ?_⟩
    apply ((hok t ht).mem _ i).2
    exact ⟨p, by rw [List.nil_append]; exact hp, e⟩

/-- A hash tuple depends on the point only through its `K` hash values. -/
theorem apply_congr (f : MultiLsh K) (p q : List K)
    (h : ∀ g ∈ f.fns, hashOne g p = hashOne g q) : f.apply p = f.apply q := by
  unfold MultiLsh.apply
  generalize (0 : Int) = z
  revert z h
  induction f.fns with
  | nil => intro _ z; rfl
  | cons g gs ih =>
    intro h z
    rw [List.foldl_cons, List.foldl_cons, h g (by simp)]
    exact ih (fun g hg => h g (by simp [hg])) _

/-- **C43** (completeness).  Every stored point which agrees with the query on all the hash
functions of one table is returned. -/
theorem C43_contains_agreeing (fs : List (MultiLsh K)) (points : List (List K)) (q p : List K)
    (hp : p ∈ points) {f : MultiLsh K} (hf : f ∈ fs)
    (h : ∀ g ∈ f.fns, hashOne g p = hashOne g q) :
    p ∈ (E2Lsh.create fs points).getNearNeighbors q := by
  obtain ⟨idx, -, h2, h3⟩ := C43_near_neighbors fs points q
  obtain ⟨i, hi⟩ := List.mem_iff_getElem?.1 hp
  rw [h3, List.mem_map]
  refine ⟨i, (h2 i).2 ⟨p, hi, f, hf, apply_congr f p q h⟩, ?_⟩
  rw [List.getD_eq_getElem?_getD, hi]; rfl

/-- **C43** (self).  With at least one table, a stored point equal to the query is returned. -/
theorem C43_contains_self (fs : List (MultiLsh K)) (points : List (List K)) (q : List K)
    (hq : q ∈ points) (hfs : fs ≠ []) : q ∈ (E2Lsh.create fs points).getNearNeighbors q := by
  obtain ⟨f, hf⟩ := List.exists_mem_of_ne_nil fs hfs
  exact C43_contains_agreeing fs points q q hq hf (fun _ _ => rfl)

/-- **C43** (soundness).  Every returned point is a stored point. -/
theorem C43_returns_stored (fs : List (MultiLsh K)) (points : List (List K)) (q p : List K)
    (hp : p ∈ (E2Lsh.create fs points).getNearNeighbors q) : p ∈ points := by
  obtain ⟨idx, -, h2, h3⟩ := C43_near_neighbors fs points q
  rw [h3, List.mem_map] at hp
  obtain ⟨i, hi, rfl⟩ := hp
  obtain ⟨p, hp, -⟩ := (h2 i).1 hi
  rw [List.getD_eq_getElem?_getD, hp]
  exact List.mem_of_getElem? hp

/-- **C43** (no table).  Without tables nothing is returned. -/
theorem C43_no_tables (points : List (List K)) (q : List K) :
    (E2Lsh.create [] points).getNearNeighbors q = [] := by
  obtain ⟨idx, -, h2, h3⟩ := C43_near_neighbors [] points q
  have : idx = [] := by
    rw [List.eq_nil_iff_forall_not_mem]
    intro i hi
    obtain ⟨p, -, f, hf, -⟩ := (h2 i).1 hi
    simp at hf
  rw [h3, this]; rfl

end

/-- Two hash functions on the line, with the multipliers 1 and 1. -/
def demoLsh : MultiLsh ℚ := ⟨1, [([1], 0, 1), ([-1], 0, 1)]⟩

/-- **C43** (combined hash values).  Agreement on the combined hash value is weaker than agreement
on all hash functions: here the points 0 and 5 differ on both functions and 5 is returned for the
query 0 all the same. -/
theorem C43_combined_value_collides :
    (∀ g ∈ demoLsh.fns, hashOne g [0] ≠ hashOne g [5]) ∧
      (E2Lsh.create [demoLsh] [[5]]).getNearNeighbors [0] = [[5]] := by
  constructor
  · decide +kernel
  · decide +kernel

/-- The near neighbours of a point in a table of four points. -/
example : (E2Lsh.create [⟨1, [([1 / 4], 0, 3)]⟩] [[1], [5], [2], [9 / 2]]).getNearNeighbors [3] =
    [[(1 : ℚ)], [2]] := by decide +kernel

end Stag
