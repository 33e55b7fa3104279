import Verif.RoundingLsh
import Verif.Props.Lsh
import Verif.Props.RoundingMetrics
import Verif.RoundingSweepLemmas

/-!
# C83: locality sensitive hashing in machine arithmetic
-/

set_option linter.unusedSectionVars false

namespace Stag

section
variable {K : Type} [Field K] [LinearOrder K] [FloorRing K]

theorem int64_iff (x y : Int) : int64 x = .ok y ↔ x = y ∧ -2 ^ 63 ≤ x ∧ x < 2 ^ 63 := by
  unfold int64
  split_ifs with h
  · constructor
    · intro e; injection e with e; exact ⟨e, h⟩
    · rintro ⟨rfl, -⟩; rfl
  · constructor
    · intro e; cases e
    · rintro ⟨-, h'⟩; exact absurd h' h

/-! ## The tables -/

variable (fl : K → K) (dot : List K → List K → K)

theorem addPointFl_eq (i : Nat) (p : List K) (key : MultiLsh K → Int) :
    ∀ ts : List (MultiLsh K × HashTable), (∀ t ∈ ts, t.1.applyFl fl dot p = .ok (key t.1)) →
    addPointFl fl dot i p ts = .ok (ts.map (fun t => (t.1, t.2.add (key t.1) i))) := by
  intro ts
  induction ts with
  | nil => intro _; rfl
  | cons t ts ih =>
    intro h
    unfold addPointFl
    rw [h t (by simp), ih (fun t' ht' => h t' (by simp [ht']))]
    rfl

/-- What a table holds after the points `points` have been added. -/
structure TableOkFl (points : List (List K)) (t : MultiLsh K × HashTable) : Prop where
  mem : ∀ (k : Int) (i : Nat), (∃ b, t.2 k = some b ∧ i ∈ b) ↔
    ∃ p, points[i]? = some p ∧ t.1.applyFl fl dot p = .ok k

theorem TableOkFl.add {points : List (List K)} {t : MultiLsh K × HashTable}
    (h : TableOkFl fl dot points t) (p : List K) (key : Int) (hk : t.1.applyFl fl dot p = .ok key) :
    TableOkFl fl dot (points ++ [p]) (t.1, t.2.add key points.length) := by
  constructor
  intro k i
  simp only [add_get]
  have hm := h.mem k i
  have hget : ∀ p', (points ++ [p])[i]? = some p' ↔
      points[i]? = some p' ∨ (i = points.length ∧ p' = p) := by
    intro p'
    rcases lt_trichotomy i points.length with hi | hi | hi
    · rw [List.getElem?_append_left hi]
      constructor
      · exact .inl
      · rintro (h | ⟨h, -⟩)
        · exact h
        · omega
    · subst hi
      simp [eq_comm]
    · rw [List.getElem?_eq_none (by simp; omega), List.getElem?_eq_none (by omega)]
      simp; omega
  by_cases hkk : k = key
  · subst hkk
    rw [if_pos rfl]
    constructor
    · rintro ⟨b, hb, hi⟩
      rw [← Option.some.inj hb, List.mem_append, List.mem_singleton] at hi
      rcases hi with hi | hi
      · cases hc : t.2 k with
        | none => rw [hc] at hi; simp at hi
        | some b' =>
          rw [hc] at hi
          obtain ⟨p', h1, h2⟩ := hm.1 ⟨b', hc, by simpa using hi⟩
          exact ⟨p', (hget p').2 (.inl h1), h2⟩
      · exact ⟨p, (hget p).2 (.inr ⟨hi, rfl⟩), hk⟩
    · rintro ⟨p', h1, h2⟩
      refine ⟨_, rfl, ?_⟩
      rw [List.mem_append, List.mem_singleton]
      rcases (hget p').1 h1 with h1 | ⟨h1, -⟩
      · left
        obtain ⟨b, hb, hi⟩ := hm.2 ⟨p', h1, h2⟩
        rw [hb]; exact hi
      · exact .inr h1
  · rw [if_neg hkk, hm]
    constructor
    · rintro ⟨p', h1, h2⟩
      exact ⟨p', (hget p').2 (.inl h1), h2⟩
    · rintro ⟨p', h1, h2⟩
      rcases (hget p').1 h1 with h1 | ⟨-, rfl⟩
      · exact ⟨p', h1, h2⟩
      · rw [hk] at h2
        injection h2 with h2
        exact absurd h2.symm hkk

/-- The result of a machine computation: a number, or undefined. -/
theorem keyLoopFl_total (p : List K) (fs : List (List K × K × Int)) : ∀ h : Int,
    (∃ k, keyLoopFl fl dot p fs h = .ok k) ∨ keyLoopFl fl dot p fs h = .ub := by
  induction fs with
  | nil => intro h; exact .inl ⟨h, rfl⟩
  | cons f fs ih =>
    intro h
    have hi : ∀ x : Int, int64 x = .ok x ∨ int64 x = .ub := by
      intro x; unfold int64; split_ifs
      · exact .inl rfl
      · exact .inr rfl
    unfold keyLoopFl
    rcases hi ⌊fl (dot f.1 p + f.2.1)⌋ with h1 | h1
    · rw [h1, Outcome.bind_ok]
      rcases hi (f.2.2 * ⌊fl (dot f.1 p + f.2.1)⌋) with h2 | h2
      · rw [h2, Outcome.bind_ok]
        rcases hi (h + f.2.2 * ⌊fl (dot f.1 p + f.2.1)⌋) with h3 | h3
        · rw [h3, Outcome.bind_ok]; exact ih _
        · rw [h3]; exact .inr rfl
      · rw [h2]; exact .inr rfl
    · rw [h1]; exact .inr rfl

theorem applyFl_total (f : MultiLsh K) (p : List K) :
    (∃ k, f.applyFl fl dot p = .ok k) ∨ f.applyFl fl dot p = .ub := keyLoopFl_total fl dot p f.fns 0

theorem addPointFl_total (i : Nat) (p : List K) : ∀ ts : List (MultiLsh K × HashTable),
    (∀ t ∈ ts, ∃ k, t.1.applyFl fl dot p = .ok k) ∨ addPointFl fl dot i p ts = .ub := by
  intro ts
  induction ts with
  | nil => left; simp
  | cons t ts ih =>
    unfold addPointFl
    rcases applyFl_total fl dot t.1 p with ⟨k, hk⟩ | hk
    · rw [hk, Outcome.bind_ok]
      rcases ih with h | h
      · left
        intro t' ht'
        rcases List.mem_cons.1 ht' with rfl | ht'
        · exact ⟨k, hk⟩
        · exact h t' ht'
      · right; rw [h]; rfl
    · right; rw [hk]; rfl

theorem addPointFl_spec (done : List (List K)) (p : List K) : ∀ ts : List (MultiLsh K × HashTable),
    (∀ t ∈ ts, TableOkFl fl dot done t) → (∀ t ∈ ts, ∃ k, t.1.applyFl fl dot p = .ok k) →
    ∃ ts', addPointFl fl dot done.length p ts = .ok ts' ∧ ts'.map Prod.fst = ts.map Prod.fst ∧
      ∀ t ∈ ts', TableOkFl fl dot (done ++ [p]) t := by
  intro ts
  induction ts with
  | nil => intro _ _; exact ⟨[], rfl, rfl, by simp⟩
  | cons t ts ih =>
    intro h hk
    obtain ⟨k, hk1⟩ := hk t (by simp)
    obtain ⟨ts', h1, h2, h3⟩ := ih (fun t' ht' => h t' (by simp [ht'])) (fun t' ht' => hk t' (by simp [ht']))
    unfold addPointFl
    rw [hk1, Outcome.bind_ok, h1, Outcome.bind_ok]
    refine ⟨_, rfl, by simp [h2], ?_⟩
    intro t' ht'
    rcases List.mem_cons.1 ht' with rfl | ht'
    · exact (h t (by simp)).add fl dot p k hk1
    · exact h3 t' ht'

theorem addPointsFl_spec (ps : List (List K)) : ∀ (done : List (List K))
    (ts : List (MultiLsh K × HashTable)), (∀ t ∈ ts, TableOkFl fl dot done t) →
    ((∀ t ∈ ts, ∀ p ∈ ps, ∃ k, t.1.applyFl fl dot p = .ok k) ∧
      ∃ ts', addPointsFl fl dot ts done.length ps = .ok ts' ∧ ts'.map Prod.fst = ts.map Prod.fst ∧
        ∀ t ∈ ts', TableOkFl fl dot (done ++ ps) t) ∨
    ((∃ t ∈ ts, ∃ p ∈ ps, t.1.applyFl fl dot p = .ub) ∧
      addPointsFl fl dot ts done.length ps = .ub) := by
  induction ps with
  | nil => intro done ts h; exact .inl ⟨by simp, ts, rfl, rfl, by simpa using h⟩
  | cons p ps ih =>
    intro done ts h
    unfold addPointsFl
    by_cases hall : ∀ t ∈ ts, ∃ k, t.1.applyFl fl dot p = .ok k
    · obtain ⟨ts', h1, h2, h3⟩ := addPointFl_spec fl dot done p ts h hall
      rw [h1, Outcome.bind_ok]
      have hmem : ∀ f, (∃ t ∈ ts', t.1 = f) ↔ ∃ t ∈ ts, t.1 = f := by
        intro f
        rw [← List.mem_map, ← List.mem_map, h2]
      have := ih (done ++ [p]) ts' h3
      rw [List.length_append, List.length_singleton, List.append_assoc, List.singleton_append] at this
      rcases this with ⟨g1, ts'', g2, g3, g4⟩ | ⟨⟨t, ht, p', hp', g1⟩, g2⟩
      · refine .inl ⟨?_, ts'', g2, by rw [g3, h2], g4⟩
        intro t ht p' hp'
        rcases List.mem_cons.1 hp' with rfl | hp'
        · exact hall t ht
        · obtain ⟨t', ht', e⟩ := (hmem t.1).2 ⟨t, ht, rfl⟩
          rw [← e]
          exact g1 t' ht' p' hp'
      · refine .inr ⟨?_, g2⟩
        obtain ⟨t', ht', e⟩ := (hmem t.1).1 ⟨t, ht, rfl⟩
        exact ⟨t', ht', p', by simp [hp'], by rw [e]; exact g1⟩
    · rcases addPointFl_total fl dot done.length p ts with h1 | h1
      · exact absurd h1 hall
      · right
        refine ⟨?_, by rw [h1]; rfl⟩
        push Not at hall
        obtain ⟨t, ht, h2⟩ := hall
        refine ⟨t, ht, p, by simp, ?_⟩
        rcases applyFl_total fl dot t.1 p with ⟨k, hk⟩ | hk
        · exact absurd hk (h2 k)
        · exact hk

theorem nearIndicesFl_spec (q : List K) (ts : List (MultiLsh K × HashTable)) : ∀ near : List Nat,
    near.Nodup →
    ((∀ t ∈ ts, ∃ k, t.1.applyFl fl dot q = .ok k) ∧
      ∃ idx, nearIndicesFl fl dot q ts near = .ok idx ∧ idx.Nodup ∧
      ∀ i, i ∈ idx ↔
        i ∈ near ∨ ∃ t ∈ ts, ∃ k, t.1.applyFl fl dot q = .ok k ∧ ∃ b, t.2 k = some b ∧ i ∈ b) ∨
    ((∃ t ∈ ts, t.1.applyFl fl dot q = .ub) ∧ nearIndicesFl fl dot q ts near = .ub) := by
  induction ts with
  | nil => intro near h; exact .inl ⟨by simp, near, rfl, h, by simp⟩
  | cons t ts ih =>
    intro near h
    unfold nearIndicesFl
    rcases applyFl_total fl dot t.1 q with ⟨k, hk⟩ | hk
    · rw [hk, Outcome.bind_ok]
      have fin : ∀ near' : List Nat, near'.Nodup →
          (∀ i, i ∈ near' ↔ i ∈ near ∨ ∃ b, t.2 k = some b ∧ i ∈ b) →
          ((∀ t' ∈ t :: ts, ∃ k, t'.1.applyFl fl dot q = .ok k) ∧
            ∃ idx, nearIndicesFl fl dot q ts near' = .ok idx ∧ idx.Nodup ∧
            ∀ i, i ∈ idx ↔ i ∈ near ∨ ∃ t' ∈ t :: ts, ∃ k, t'.1.applyFl fl dot q = .ok k ∧
              ∃ b, t'.2 k = some b ∧ i ∈ b) ∨
          ((∃ t' ∈ t :: ts, t'.1.applyFl fl dot q = .ub) ∧ nearIndicesFl fl dot q ts near' = .ub) := by
        intro near' hn hmem
        rcases ih near' hn with ⟨h1, idx, h2, h3, h4⟩ | ⟨⟨t', ht', h1⟩, h2⟩
        · refine .inl ⟨?_, idx, h2, h3, ?_⟩
          · intro t' ht'
            rcases List.mem_cons.1 ht' with rfl | ht'
            · exact ⟨k, hk⟩
            · exact h1 t' ht'
          · intro i
            rw [h4, hmem]
            simp only [List.mem_cons, exists_eq_or_imp, hk, Outcome.ok.injEq, exists_eq_left']
            rw [or_assoc]
        · exact .inr ⟨⟨t', by simp [ht'], h1⟩, h2⟩
      cases hc : t.2 k with
      | none => exact fin near h (fun i => by simp [hc])
      | some bucket =>
        obtain ⟨c1, c2⟩ := collect_spec bucket near h
        exact fin _ c1 (fun i => by rw [c2]; simp [hc])
    · right
      exact ⟨⟨t, by simp, hk⟩, by rw [hk]; rfl⟩

theorem createFl_spec (fs : List (MultiLsh K)) (points : List (List K)) :
    ((∀ f ∈ fs, ∀ p ∈ points, ∃ k, f.applyFl fl dot p = .ok k) ∧
      ∃ e, E2Lsh.createFl fl dot fs points = .ok e ∧ e.points = points ∧ e.tables.map Prod.fst = fs ∧
        ∀ t ∈ e.tables, TableOkFl fl dot points t) ∨
    ((∃ f ∈ fs, ∃ p ∈ points, f.applyFl fl dot p = .ub) ∧
      E2Lsh.createFl fl dot fs points = .ub) := by
  have hfst : (fs.map (fun f => ((f, fun _ => none) : MultiLsh K × HashTable))).map Prod.fst = fs := by
    rw [List.map_map]; exact List.map_id fs
  have := addPointsFl_spec fl dot points [] (fs.map (fun f => (f, fun _ => none))) (by
    intro t ht
    obtain ⟨f, -, rfl⟩ := List.mem_map.1 ht
    constructor
    intro k i
    simp)
  unfold E2Lsh.createFl
  rw [List.length_nil, List.nil_append] at this
  rcases this with ⟨h1, ts, h2, h3, h4⟩ | ⟨⟨t, ht, p, hp, h1⟩, h2⟩
  · refine .inl ⟨?_, ⟨points, ts⟩, by rw [h2]; rfl, rfl, by rw [h3, hfst], h4⟩
    intro f hf
    exact h1 (f, fun _ => none) (List.mem_map.2 ⟨f, hf, rfl⟩)
  · right
    obtain ⟨f, hf, rfl⟩ := List.mem_map.1 ht
    exact ⟨⟨f, hf, p, hp, h1⟩, by rw [h2]; rfl⟩

/-- **C83** (when it is defined).  Building the tables is defined exactly if no combined hash value of
a stored point overflows, and a query exactly if no combined hash value of the query does; there are
no exceptions. -/
theorem C83_defined (fs : List (MultiLsh K)) (points : List (List K)) :
    ((∃ e, E2Lsh.createFl fl dot fs points = .ok e) ↔
      ∀ f ∈ fs, ∀ p ∈ points, ∃ k, f.applyFl fl dot p = .ok k) ∧
    (∀ e, E2Lsh.createFl fl dot fs points = .ok e → ∀ q,
      ((∃ xs, e.getNearNeighborsFl fl dot q = .ok xs) ↔ ∀ f ∈ fs, ∃ k, f.applyFl fl dot q = .ok k)) ∧
    ((∃ e, E2Lsh.createFl fl dot fs points = .ok e) ∨ E2Lsh.createFl fl dot fs points = .ub) := by
  rcases createFl_spec fl dot fs points with ⟨h1, e, h2, h3, h4, h5⟩ | ⟨⟨f, hf, p, hp, h1⟩, h2⟩
  · refine ⟨⟨fun _ => h1, fun _ => ⟨e, h2⟩⟩, ?_, .inl ⟨e, h2⟩⟩
    intro e' he' q
    rw [h2] at he'
    injection he' with he'
    subst he'
    unfold E2Lsh.getNearNeighborsFl
    rcases nearIndicesFl_spec fl dot q e.tables [] List.nodup_nil with ⟨g1, idx, g2, -⟩ | ⟨⟨t, ht, g1⟩, g2⟩
    · rw [g2]
      refine ⟨fun _ f hf => ?_, fun _ => ⟨_, rfl⟩⟩
      rw [← h4] at hf
      obtain ⟨t, ht, rfl⟩ := List.mem_map.1 hf
      exact g1 t ht
    · rw [g2]
      constructor
      · rintro ⟨xs, hx⟩; cases hx
      · intro h
        obtain ⟨k, hk⟩ := h t.1 (by rw [← h4]; exact List.mem_map_of_mem ht)
        rw [g1] at hk; cases hk
  · refine ⟨?_, ?_, .inr h2⟩
    · constructor
      · rintro ⟨e, he⟩; rw [h2] at he; cases he
      · intro h
        obtain ⟨k, hk⟩ := h f hf p hp
        rw [h1] at hk; cases hk
    · intro e he; rw [h2] at he; cases he

/-- **C83** (exactness).  Whatever the rounding, the returned points are those at a list of distinct
indices which contains exactly the indices of the stored points whose computed hash value, in at
least one of the tables, is that of the query. -/
theorem C83_near_neighbors (fs : List (MultiLsh K)) (points : List (List K)) (q : List K) (e : E2Lsh K)
    (he : E2Lsh.createFl fl dot fs points = .ok e) (xs : List (List K))
    (hx : e.getNearNeighborsFl fl dot q = .ok xs) :
    ∃ idx : List Nat, idx.Nodup ∧
      (∀ i, i ∈ idx ↔ ∃ p, points[i]? = some p ∧ ∃ f ∈ fs, f.applyFl fl dot p = f.applyFl fl dot q) ∧
      xs = idx.map (fun i => points.getD i []) := by
  rcases createFl_spec fl dot fs points with ⟨h1, e', h2, h3, h4, h5⟩ | ⟨-, h2⟩
  · rw [he] at h2
    injection h2 with h2
    subst h2
    unfold E2Lsh.getNearNeighborsFl at hx
    rcases nearIndicesFl_spec fl dot q e.tables [] List.nodup_nil with ⟨g1, idx, g2, g3, g4⟩ | ⟨-, g2⟩
    · rw [g2, Outcome.bind_ok] at hx
      injection hx with hx
      refine ⟨idx, g3, fun i => ?_, by rw [← hx, h3]⟩
      rw [g4]
      simp only [List.not_mem_nil, false_or]
      constructor
      · rintro ⟨t, ht, k, hk, hb⟩
        obtain ⟨p, hp, hpk⟩ := ((h5 t ht).mem k i).1 hb
        exact ⟨p, hp, t.1, by rw [← h4]; exact List.mem_map_of_mem ht, by rw [hk, hpk]⟩
      · rintro ⟨p, hp, f, hf, hpq⟩
        rw [← h4] at hf
        obtain ⟨t, ht, rfl⟩ := List.mem_map.1 hf
        obtain ⟨k, hk⟩ := g1 t ht
        exact ⟨t, ht, k, hk, ((h5 t ht).mem k i).2 ⟨p, hp, by rw [hpq, hk]⟩⟩
    · rw [g2] at hx; cases hx
  · rw [he] at h2; cases h2

/-- **C83** (copies are found).  Whatever the rounding and the order of the additions, a stored copy of
the query is returned. -/
theorem C83_contains_self (fs : List (MultiLsh K)) (hfs : fs ≠ []) (points : List (List K)) (q : List K)
    (hq : q ∈ points) (e : E2Lsh K) (he : E2Lsh.createFl fl dot fs points = .ok e) :
    ∃ xs, e.getNearNeighborsFl fl dot q = .ok xs ∧ q ∈ xs := by
  have hd := C83_defined fl dot fs points
  have hk := hd.1.1 ⟨e, he⟩
  obtain ⟨xs, hx⟩ := (hd.2.1 e he q).2 (fun f hf => hk f hf q hq)
  refine ⟨xs, hx, ?_⟩
  obtain ⟨idx, -, h2, h3⟩ := C83_near_neighbors fl dot fs points q e he xs hx
  obtain ⟨i, hi⟩ := List.getElem?_of_mem hq
  obtain ⟨f, hf⟩ := List.exists_mem_of_ne_nil fs hfs
  rw [h3, List.mem_map]
  refine ⟨i, (h2 i).2 ⟨q, hi, f, hf, rfl⟩, ?_⟩
  rw [List.getD_eq_getElem?_getD, hi]; rfl

/-! ## Overflow -/

theorem keyLoopFl_safe (p : List K) (M : Int) (hM : 0 ≤ M) (fs : List (List K × K × Int)) :
    ∀ (h : Int) (c : Nat),
    (∀ f ∈ fs, |⌊fl (dot f.1 p + f.2.1)⌋| ≤ M ∧ 1 ≤ f.2.2 ∧ f.2.2 ≤ 2 ^ 29) →
    |h| ≤ c * (2 ^ 29 * M) → (c + fs.length : Nat) * M < 2 ^ 34 →
    keyLoopFl fl dot p fs h
      = .ok (h + (fs.map (fun f => f.2.2 * ⌊fl (dot f.1 p + f.2.1)⌋)).sum) := by
  induction fs with
  | nil => intro h c _ _ _; simp [keyLoopFl]
  | cons f fs ih =>
    intro h c hf hh hc
    obtain ⟨h1, h2, h3⟩ := hf f (by simp)
    unfold keyLoopFl
    generalize hv : ⌊fl (dot f.1 p + f.2.1)⌋ = v at *
    have hm : |f.2.2 * v| ≤ 2 ^ 29 * M := by
      rw [abs_mul, abs_of_nonneg (by omega)]
      exact mul_le_mul h3 h1 (abs_nonneg _) (by norm_num)
    have hc1 : ((c : Int) + 1) * M < 2 ^ 34 := by
      have : ((c + (f :: fs).length : Nat) : Int) * M ≥ ((c : Int) + 1) * M := by
        apply mul_le_mul_of_nonneg_right _ hM
        push_cast [List.length_cons]
        have := Int.natCast_nonneg fs.length
        linarith
      linarith
    have hcM : 0 ≤ (c : Int) * M := mul_nonneg (Int.natCast_nonneg _) hM
    have hMlt : M < 2 ^ 34 := by linarith [add_mul (c : Int) 1 M]
    rw [abs_le] at h1 hm hh
    have e1 : int64 v = .ok v := (int64_iff _ _).2 ⟨rfl, by omega, by omega⟩
    have e2 : int64 (f.2.2 * v) = .ok (f.2.2 * v) :=
      (int64_iff _ _).2 ⟨rfl, by omega, by omega⟩
    have hs1 : h + f.2.2 * v ≤ ((c : Int) + 1) * (2 ^ 29 * M) := by linarith
    have hs2 : -(((c : Int) + 1) * (2 ^ 29 * M)) ≤ h + f.2.2 * v := by linarith
    have hlt : ((c : Int) + 1) * (2 ^ 29 * M) < 2 ^ 63 := by
      have : ((c : Int) + 1) * (2 ^ 29 * M) = 2 ^ 29 * (((c : Int) + 1) * M) := by ring
      omega
    have e3 : int64 (h + f.2.2 * v) = .ok (h + f.2.2 * v) :=
      (int64_iff _ _).2 ⟨rfl, by omega, by omega⟩
    rw [e1, Outcome.bind_ok, e2, Outcome.bind_ok, e3, Outcome.bind_ok]
    rw [ih (h + f.2.2 * v) (c + 1) (fun g hg => hf g (by simp [hg]))
      (by rw [abs_le]; push_cast; exact ⟨hs2, hs1⟩)
      (by rw [List.length_cons] at hc; rwa [show c + 1 + fs.length = c + (fs.length + 1) by omega])]
    rw [List.map_cons, List.sum_cons, hv, add_assoc]

/-- **C83** (no overflow).  With coefficients up to `MAX_HASH_RND = 2^29`, as the constructor draws
them, a combined hash value of `K` functions does not overflow if the computed cells are below
`2^34 / K` in absolute value; it is then the combination of the computed cells. -/
theorem C83_safe (f : MultiLsh K) (p : List K) (M : Int) (hM : 0 ≤ M)
    (hf : ∀ g ∈ f.fns, |⌊fl (dot g.1 p + g.2.1)⌋| ≤ M ∧ 1 ≤ g.2.2 ∧ g.2.2 ≤ 2 ^ 29)
    (hK : f.fns.length * M < 2 ^ 34) :
    f.applyFl fl dot p = .ok (f.fns.map (fun g => g.2.2 * ⌊fl (dot g.1 p + g.2.1)⌋)).sum := by
  unfold MultiLsh.applyFl
  rw [keyLoopFl_safe fl dot p M hM f.fns 0 0 hf (by simp) (by rw [Nat.zero_add]; exact hK), zero_add]

/-- **C83** (overflow).  The bound cannot be improved: a single function with the largest coefficient
overflows exactly when the computed cell is outside `[-2^34, 2^34)`. -/
theorem C83_overflow (row : List K) (b : K) (cols : Nat) (p : List K) :
    MultiLsh.applyFl fl dot ⟨cols, [(row, b, 2 ^ 29)]⟩ p = .ub ↔
      ¬ (-2 ^ 34 ≤ ⌊fl (dot row p + b)⌋ ∧ ⌊fl (dot row p + b)⌋ < 2 ^ 34) := by
  unfold MultiLsh.applyFl keyLoopFl
  dsimp only
  generalize ⌊fl (dot row p + b)⌋ = v
  unfold keyLoopFl
  by_cases h : -2 ^ 34 ≤ v ∧ v < 2 ^ 34
  · rw [(int64_iff v v).2 ⟨rfl, by omega, by omega⟩, Outcome.bind_ok,
      (int64_iff (2 ^ 29 * v) _).2 ⟨rfl, by omega, by omega⟩, Outcome.bind_ok,
      (int64_iff (0 + 2 ^ 29 * v) _).2 ⟨rfl, by omega, by omega⟩, Outcome.bind_ok]
    constructor
    · intro hc; cases hc
    · intro hc; exact absurd h hc
  · refine ⟨fun _ => h, fun _ => ?_⟩
    have h1 : int64 (2 ^ 29 * v) = .ub := by
      unfold int64; rw [if_neg]; omega
    unfold int64 at h1 ⊢
    split_ifs
    · rw [Outcome.bind_ok, h1]; rfl
    · rfl

end

/-! ## Rounding -/

section
variable {K : Type} [Field K] [LinearOrder K] [IsStrictOrderedRing K] [FloorRing K]

theorem dotLoopFl_err {R : Rounding K} (point a : List K) (n : Nat) : ∀ (d k : Nat) (x y V : K), 1 ≤ k →
    |x - y| ≤ (R.g ^ k - 1) * V → |y| ≤ V →
    |dotLoopFl R.fl point a d n x - dotLoop point a d n y|
      ≤ (R.g ^ (k + n) - 1) * (V + ∑ i ∈ Finset.range n, |point.getD (d + i) 0 * a.getD (d + i) 0|) := by
  induction n with
  | zero => intro d k x y V _ h _; simpa [dotLoopFl, dotLoop] using h
  | succ n ih =>
    intro d k x y V hk h hy
    unfold dotLoopFl dotLoop
    generalize ht : point.getD d 0 * a.getD d 0 = t
    have hg1 := Rounding.g_pow_one_le (R := R) k
    have h1 : |R.fl t - t| ≤ (R.g ^ k - 1) * |t| := by
      have h0 := R.err t
      have hu : R.u ≤ R.g ^ k - 1 := by
        have e1 : R.g ^ 1 ≤ R.g ^ k := pow_le_pow_right₀ Rounding.one_le_g hk
        rw [pow_one] at e1
        linarith [Rounding.one_add_le_g (R := R)]
      exact h0.trans (mul_le_mul_of_nonneg_right hu (abs_nonneg _))
    have h2 : |(x + R.fl t) - (y + t)| ≤ (R.g ^ k - 1) * (V + |t|) := by
      have := abs_add_le (x - y) (R.fl t - t)
      rw [show (x + R.fl t) - (y + t) = (x - y) + (R.fl t - t) by ring, mul_add]
      linarith
    have h3 : |y + t| ≤ V + |t| := (abs_add_le _ _).trans (by linarith)
    have h4 := Rounding.abs_fl_err (R := R) h2 h3
    have h5 := ih (d + 1) (k + 1) _ _ _ (by omega) h4 h3
    rw [Finset.sum_range_succ']
    rw [show k + 1 + n = k + (n + 1) by omega] at h5
    convert h5 using 2
    simp only [Nat.add_zero, Nat.add_assoc, Nat.add_comm 1]
    rw [ht]
    ring

/-- A number at a distance of at least `e` from the borders of its cell has the floor of every number
within `e`. -/
theorem floor_stable {x y e : K} (h : |y - x| ≤ e) (h1 : (⌊x⌋ : K) + e ≤ x) (h2 : x + e < ⌊x⌋ + 1) :
    ⌊y⌋ = ⌊x⌋ := by
  rw [abs_le] at h
  rw [Int.floor_eq_iff]
  constructor <;> linarith [h.1, h.2]

/-- **C83** (single function).  The hash value of `LSHFunction::apply` is the exact one unless the exact
projection `x` is within the rounding error `e` of a border of its cell, where
`e = (g ^ (d + 2) - 1) (Σ |p_i a_i| + |b|)`, or outside the 64-bit integers. -/
theorem C83_function (R : Rounding K) (f : LshFunction K) (point : List K) (hp : point.length = f.dim)
    (x e : K) (hx : x = (∑ i ∈ Finset.range f.dim, point.getD i 0 * f.a.getD i 0) + f.b)
    (he : e = (R.g ^ (f.dim + 2) - 1) *
      ((∑ i ∈ Finset.range f.dim, |point.getD i 0 * f.a.getD i 0|) + |f.b|))
    (h1 : (⌊x⌋ : K) + e ≤ x) (h2 : x + e < ⌊x⌋ + 1) (h3 : -2 ^ 63 ≤ ⌊x⌋ ∧ ⌊x⌋ < 2 ^ 63) :
    f.applyFl R.fl point = .ok ⌊x⌋ ∧ f.apply point = .ok ⌊x⌋ := by
  have hdot := dotLoop_eq point f.a f.dim 0 0
  simp only [zero_add] at hdot
  have h4 := dotLoopFl_err (R := R) point f.a f.dim 0 1 0 0 0 (le_refl _) (by simp) (by simp)
  rw [hdot] at h4
  simp only [zero_add] at h4
  have hb : |∑ i ∈ Finset.range f.dim, point.getD i 0 * f.a.getD i 0|
      ≤ ∑ i ∈ Finset.range f.dim, |point.getD i 0 * f.a.getD i 0| := Finset.abs_sum_le_sum_abs _ _
  have hg1 := Rounding.g_pow_one_le (R := R) (1 + f.dim)
  have h5 : |(dotLoopFl R.fl point f.a 0 f.dim 0 + f.b) - x| ≤ (R.g ^ (1 + f.dim) - 1) *
      ((∑ i ∈ Finset.range f.dim, |point.getD i 0 * f.a.getD i 0|) + |f.b|) := by
    rw [hx, add_sub_add_right_eq_sub]
    refine h4.trans (mul_le_mul_of_nonneg_left ?_ (by linarith))
    linarith [abs_nonneg f.b]
  have h6 := Rounding.abs_fl_err (R := R) h5 (by
    rw [hx]; exact (abs_add_le _ _).trans (by linarith))
  rw [show 1 + f.dim + 1 = f.dim + 2 by omega, ← he] at h6
  have h7 := floor_stable h6 h1 h2
  constructor
  · unfold LshFunction.applyFl
    rw [if_neg (by simpa using hp), h7]
    exact (int64_iff _ _).2 ⟨rfl, h3⟩
  · unfold LshFunction.apply
    rw [if_neg (by simpa using hp), hdot, ← hx]

/-- **C83** (combined value).  If Eigen's product has a relative error of at most `g ^ k - 1` (with
respect to the sum of the absolute values of its terms), the combined hash value of a point is the
exact one, unless the exact projection of one of the functions is within
`(g ^ (k + 1) - 1) (Σ |a_i p_i| + |b|)` of a border of its cell or the cells exceed the bound of
`C83_safe`. -/
theorem C83_combined (R : Rounding K) (dot : List K → List K → K) (k : Nat) (f : MultiLsh K)
    (p : List K) (A : List K → K)
    (hA : ∀ g ∈ f.fns, A g.1 = (List.zipWith (fun x y => |x * y|) g.1 p).sum)
    (hdot : ∀ g ∈ f.fns, |dot g.1 p - (List.zipWith (· * ·) g.1 p).sum| ≤ (R.g ^ k - 1) * A g.1)
    (hcell : ∀ g ∈ f.fns,
      (hashOne g p : K) + (R.g ^ (k + 1) - 1) * (A g.1 + |g.2.1|)
        ≤ (List.zipWith (· * ·) g.1 p).sum + g.2.1 ∧
      (List.zipWith (· * ·) g.1 p).sum + g.2.1 + (R.g ^ (k + 1) - 1) * (A g.1 + |g.2.1|)
        < hashOne g p + 1)
    (M : Int) (hM : 0 ≤ M) (hf : ∀ g ∈ f.fns, |hashOne g p| ≤ M ∧ 1 ≤ g.2.2 ∧ g.2.2 ≤ 2 ^ 29)
    (hK : f.fns.length * M < 2 ^ 34) :
    f.applyFl R.fl dot p = .ok (f.apply p) := by
  have hfl : ∀ g ∈ f.fns, ⌊R.fl (dot g.1 p + g.2.1)⌋ = hashOne g p := by
    intro g hg
    obtain ⟨c1, c2⟩ := hcell g hg
    have hA' : |(List.zipWith (· * ·) g.1 p).sum| ≤ A g.1 := by
      rw [hA g hg]
      generalize g.1 = row
      clear hA hdot hcell hf c1 c2 hg hK
      induction row generalizing p with
      | nil => simp
      | cons r row ih =>
        cases p with
        | nil => simp
        | cons y p =>
          simp only [List.zipWith_cons_cons, List.sum_cons]
          exact (abs_add_le _ _).trans (by linarith [ih p])
    have hg1 := Rounding.g_pow_one_le (R := R) k
    have h1 : |(dot g.1 p + g.2.1) - ((List.zipWith (· * ·) g.1 p).sum + g.2.1)|
        ≤ (R.g ^ k - 1) * (A g.1 + |g.2.1|) := by
      rw [add_sub_add_right_eq_sub]
      refine (hdot g hg).trans (mul_le_mul_of_nonneg_left ?_ (by linarith))
      linarith [abs_nonneg g.2.1]
    have h2 := Rounding.abs_fl_err (R := R) h1 ((abs_add_le _ _).trans (by linarith))
    exact floor_stable h2 c1 c2
  rw [C83_safe R.fl dot f p M hM (fun g hg => by rw [hfl g hg]; exact hf g hg) hK]
  congr 1
  unfold MultiLsh.apply
  have hsum : ∀ (l : List (List K × K × Int)) (z : Int),
      l.foldl (fun h g => h + g.2.2 * hashOne g p) z
        = z + (l.map (fun g => g.2.2 * hashOne g p)).sum := by
    intro l
    induction l with
    | nil => intro z; simp
    | cons g l ih => intro z; rw [List.foldl_cons, ih, List.map_cons, List.sum_cons, add_assoc]
  rw [hsum, zero_add]
  congr 1
  exact List.map_congr_left (fun g hg => by rw [hfl g hg])

end

/-! ## Examples -/

/-- A one-dimensional tuple of two functions. -/
def demoLshFl : MultiLsh ℚ := ⟨1, [([1 / 4], 1 / 3, 2 ^ 29), ([1 / 3], 1 / 2, 7)]⟩

/-- In double precision: the point 5 has a combined hash value, that of the point `2^36` overflows. -/
example :
    let fl := flBin (K := ℚ) 53
    MultiLsh.applyFl fl (fun r p => fl (rowDot r p)) demoLshFl [5] = .ok (2 ^ 29 * 1 + 7 * 2) ∧
    MultiLsh.applyFl fl (fun r p => fl (rowDot r p)) demoLshFl [2 ^ 36] = .ub := by
  decide +kernel

/-- In double precision a stored copy of the query and a point in the same cells are found. -/
example :
    let fl := flBin (K := ℚ) 53
    let dot := fun r p => fl (rowDot r p)
    (E2Lsh.createFl fl dot [demoLshFl] [[5], [100], [21 / 4]] >>= fun e =>
      e.getNearNeighborsFl fl dot [5]) = .ok [[5], [21 / 4]] := by
  decide +kernel

/-- Rounding can move a point to another cell: the `double` next to `1/3` is smaller than `1/3`, and
for a rounding towards zero three thirds are less than 1. -/
example :
    let fl := fun x : ℚ => (⌊x * 2 ^ 53⌋ : ℚ) / 2 ^ 53
    let f : LshFunction ℚ := ⟨1, [fl (1 / 3)], 0⟩
    (⟨1, [1 / 3], 0⟩ : LshFunction ℚ).apply [3] = .ok 1 ∧ f.applyFl fl [3] = .ok 0 := by
  decide +kernel

/-- The hypotheses of `C83_function` hold for the point 5 and the function `x / 3 + 1/2`. -/
example : (⟨1, [1 / 3], 1 / 2⟩ : LshFunction ℚ).applyFl (Rounding.binary ℚ 53 (by norm_num)).fl [5]
    = .ok 2 := by
  have hfloor : ⌊(5 : ℚ) * (1 / 3) + 1 / 2⌋ = 2 := by rw [Int.floor_eq_iff]; norm_num
  have hg : (Rounding.binary ℚ 53 (by norm_num)).g = 1 / (1 - (2 : ℚ) ^ (-53 : Int)) := rfl
  have h := (C83_function (Rounding.binary ℚ 53 (by norm_num)) ⟨1, [1 / 3], 1 / 2⟩ [5] rfl
    (5 * (1 / 3) + 1 / 2) _ (by simp) rfl (by rw [hfloor, hg]; simp; norm_num [abs_of_pos])
    (by rw [hfloor, hg]; simp; norm_num [abs_of_pos]) (by rw [hfloor]; norm_num)).1
  rw [hfloor] at h
  exact h

end Stag
