import Verif.Data
import Verif.Props.Edgelist

/-!
# C57, C58: matrices in files, data points
-/

set_option linter.unusedSectionVars false

namespace Stag

/-! ## Specification -/

/-- Row `i` of a matrix. -/
def Mat.row {K : Type} [Zero K] (m : Mat K) (i : Nat) : List K :=
  (List.range m.cols).map (fun j => m.coeff i j)

/-- The matrix with the given rows, each of length `d`: row-major storage is the concatenation. -/
def matOfRows {K : Type} (d : Nat) (rows : List (List K)) : Mat K := ⟨rows.length, d, rows.flatten⟩

section
variable {K : Type} [Zero K]

/-! ## Matrices -/

theorem idx_lt {i j r c : Nat} (hi : i < r) (hj : j < c) : i * c + j < r * c := by
  have : (i + 1) * c ≤ r * c := Nat.mul_le_mul_right c hi
  rw [Nat.succ_mul] at this
  omega

theorem idx_div {i j c : Nat} (hj : j < c) : (i * c + j) / c = i := by
  rw [Nat.add_comm, Nat.add_mul_div_right _ _ (by omega), Nat.div_eq_of_lt hj, Nat.zero_add]

theorem idx_mod {i j c : Nat} (hj : j < c) : (i * c + j) % c = j := by
  rw [Nat.add_comm, Nat.add_mul_mod_self_right, Nat.mod_eq_of_lt hj]

theorem Mat.coeff_get {m : Mat K} (h : m.Ok) {i j : Nat} (hi : i < m.rows) (hj : j < m.cols) :
    m.mem[i * m.cols + j]? = some (m.coeff i j) := by
  have := idx_lt hi hj
  unfold Mat.coeff
  rw [List.getD_eq_getElem?_getD, List.getElem?_eq_getElem (by rw [h]; exact this)]
  rfl

theorem Mat.ext_coeff {m m' : Mat K} (h : m.Ok) (h' : m'.Ok) (hr : m.rows = m'.rows)
    (hc : m.cols = m'.cols) (he : ∀ i < m.rows, ∀ j < m.cols, m.coeff i j = m'.coeff i j) :
    m = m' := by
  cases m with
  | mk r c mem =>
  cases m' with
  | mk r' c' mem' =>
    simp only at hr hc
    subst hr hc
    unfold Mat.Ok at h h'
    simp only at h h' he
    congr 1
    apply List.ext_getElem
    · rw [h, h']
    · intro t h1 h2
      rw [h] at h1
      have hc : 0 < c := by
        rcases Nat.eq_zero_or_pos c with h0 | h0
        · subst h0; simp at h1
        · exact h0
      have hi : t / c < r := Nat.div_lt_of_lt_mul (by rw [Nat.mul_comm]; exact h1)
      have hj := Nat.mod_lt t hc
      have hh := he _ hi _ hj
      unfold Mat.coeff at hh
      simp only at hh
      have ht : t / c * c + t % c = t := by rw [Nat.mul_comm]; exact Nat.div_add_mod t c
      rw [ht, List.getD_eq_getElem _ _ (by rw [h]; exact h1),
        List.getD_eq_getElem _ _ (by rw [h']; exact h1)] at hh
      exact hh

theorem Mat.resize_ok (junk : Nat → Nat → K) (m : Mat K) (r c : Nat) : (m.resize junk r c).Ok := by
  unfold Mat.resize Mat.Ok
  simp

theorem Mat.resize_coeff (junk : Nat → Nat → K) (m : Mat K) {r c i j : Nat} (hi : i < r) (hj : j < c)
    (hi' : i < m.rows) (hj' : j < m.cols) : (m.resize junk r c).coeff i j = m.coeff i j := by
  have h := idx_lt hi hj
  have e : (m.resize junk r c).coeff i j = ((List.range (r * c)).map (fun t =>
    if t / c < m.rows ∧ t % c < m.cols then m.coeff (t / c) (t % c)
      else junk (t / c) (t % c))).getD (i * c + j) 0 := rfl
  rw [e, List.getD_eq_getElem _ _ (by simpa using h), List.getElem_map, List.getElem_range,
    idx_div hj, idx_mod hj, if_pos ⟨hi', hj'⟩]

theorem Mat.set_spec {m : Mat K} (h : m.Ok) {i j : Nat} (hi : i < m.rows) (hj : j < m.cols) (x : K) :
    ∃ m' : Mat K, m.set i j x = .ok m' ∧ m'.Ok ∧ m'.rows = m.rows ∧ m'.cols = m.cols ∧
      ∀ a < m.rows, ∀ b < m.cols, m'.coeff a b = if a = i ∧ b = j then x else m.coeff a b := by
  refine ⟨{ m with mem := m.mem.set (i * m.cols + j) x },
    by unfold Mat.set; rw [if_pos ⟨hi, hj⟩], ?_, rfl, rfl, ?_⟩
  · unfold Mat.Ok
    simp only [List.length_set]
    exact h
  · intro a ha b hb
    have h1 := idx_lt ha hb
    have h2 := idx_lt hi hj
    unfold Mat.coeff
    simp only
    rw [List.getD_eq_getElem _ _ (by rw [List.length_set, h]; exact h1), List.getElem_set]
    by_cases hab : a = i ∧ b = j
    · rw [if_pos hab, if_pos (by rw [hab.1, hab.2])]
    · rw [if_neg hab, if_neg, List.getD_eq_getElem _ _ (by rw [h]; exact h1)]
      intro he
      apply hab
      have e1 := congrArg (· / m.cols) he
      have e2 := congrArg (· % m.cols) he
      simp only [idx_div hj, idx_div hb, idx_mod hj, idx_mod hb] at e1 e2
      exact ⟨e1.symm, e2.symm⟩

theorem matOfRows_ok {d : Nat} {rows : List (List K)} (h : ∀ r ∈ rows, r.length = d) :
    (matOfRows d rows).Ok := by
  unfold Mat.Ok matOfRows
  simp only [List.length_flatten]
  induction rows with
  | nil => simp
  | cons r rows ih =>
    rw [List.map_cons, List.sum_cons, ih (fun r hr => h r (by simp [hr])), h r (by simp),
      List.length_cons, Nat.succ_mul, Nat.add_comm]

theorem matOfRows_coeff {d : Nat} (rows : List (List K)) (h : ∀ r ∈ rows, r.length = d) :
    ∀ i j, i < rows.length → j < d →
      (matOfRows d rows).coeff i j = (rows.getD i []).getD j 0 := by
  induction rows with
  | nil => intro i j hi; simp at hi
  | cons r rows ih =>
    intro i j hi hj
    have hr := h r (by simp)
    unfold Mat.coeff matOfRows
    simp only [List.flatten_cons]
    cases i with
    | zero =>
      rw [List.getD_append _ _ _ _ (by rw [hr]; omega)]
      simp
    | succ i =>
      rw [List.getD_append_right _ _ _ _ (by rw [hr, Nat.succ_mul]; omega), hr,
        show (i + 1) * d + j - d = i * d + j by rw [Nat.succ_mul]; omega, List.getD_cons_succ]
      exact ih (fun r hr => h r (by simp [hr])) i j (by simpa using hi) hj

/-! ## C58 -/

theorem toVector_row {m : Mat K} (h : m.Ok) {i : Nat} (hi : i < m.rows) :
    (⟨m.cols, i * m.cols⟩ : DataPoint).toVector m.mem = .ok (m.row i) := by
  unfold DataPoint.toVector Mat.row
  apply Outcome.mapM'_total
  intro j hj
  simp only
  rw [m.coeff_get h hi (List.mem_range.1 hj)]

/-- **C58** (`DataPoint(mat, i)`).  The data point of row `i` holds exactly the entries of row `i`. -/
theorem C58_row {m : Mat K} (h : m.Ok) {i : Nat} (hi : i < m.rows) :
    ∃ p, DataPoint.ofMatrix m i = .ok p ∧ p.dimension = m.cols ∧
      p.toVector m.mem = .ok (m.row i) := by
  refine ⟨⟨m.cols, i * m.cols⟩, ?_, rfl, toVector_row h hi⟩
  unfold DataPoint.ofMatrix
  rw [if_pos (by omega), Int.toNat_natCast]

/-- **C58** (a view).  The point is a view, not a copy: after an entry of the matrix is overwritten,
a point created before shows row `i` of the changed matrix. -/
theorem C58_view {m m' : Mat K} (h : m.Ok) {i a b : Nat} (hi : i < m.rows) {x : K} {p : DataPoint}
    (hp : DataPoint.ofMatrix m i = .ok p) (hs : m.set a b x = .ok m') :
    p.toVector m'.mem = .ok ((List.range m.cols).map
      (fun j => if i = a ∧ j = b then x else m.coeff i j)) := by
  have hab : a < m.rows ∧ b < m.cols := by
    by_contra hc
    unfold Mat.set at hs
    rw [if_neg hc] at hs
    cases hs
  obtain ⟨m'', e1, e2, e3, e4, e5⟩ := Mat.set_spec h hab.1 hab.2 x
  rw [e1] at hs
  cases hs
  unfold DataPoint.ofMatrix at hp
  rw [if_pos (by omega), Int.toNat_natCast] at hp
  cases hp
  have := toVector_row e2 (i := i) (by omega)
  rw [e4] at this
  rw [this]
  unfold Mat.row
  rw [e4]
  congr 1
  apply List.map_congr_left
  intro j hj
  exact e5 i hi j (List.mem_range.1 hj)

/-- **C58** (`matrix_to_datapoints`).  One point for each row, in order. -/
theorem C58_matrix_to_datapoints {m : Mat K} (h : m.Ok) :
    (matrixToDatapoints m).length = m.rows ∧
      Outcome.mapM' (fun p => p.toVector m.mem) (matrixToDatapoints m) =
        .ok ((List.range m.rows).map m.row) := by
  refine ⟨by simp [matrixToDatapoints], ?_⟩
  unfold matrixToDatapoints
  rw [Outcome.mapM'_map]
  apply Outcome.mapM'_total
  intro i hi
  exact toVector_row h (List.mem_range.1 hi)

/-- **C58** (`DataPoint(vector)`).  The point of a non-empty vector gives back the vector. -/
theorem C58_vector {v : List K} (hv : v ≠ []) :
    ∃ p, DataPoint.ofVector v = .ok p ∧ p.dimension = v.length ∧ p.toVector v = .ok v := by
  refine ⟨⟨v.length, 0⟩, by unfold DataPoint.ofVector; rw [if_neg hv], rfl, ?_⟩
  unfold DataPoint.toVector
  rw [Outcome.mapM'_total (fun t => v.getD t 0)]
  · congr 1
    apply List.ext_getElem
    · simp
    · intro t h1 h2
      rw [List.getElem_map, List.getElem_range, List.getD_eq_getElem _ _ h2]
  · intro t ht
    have ht := List.mem_range.1 ht
    simp only [Nat.zero_add]
    rw [List.getElem?_eq_getElem ht, List.getD_eq_getElem _ _ ht]

/-- **C58** (empty vector).  The point of an empty vector is undefined: it takes the address of the element 0. -/
theorem C58_empty_vector : DataPoint.ofVector ([] : List K) = .ub := by
  unfold DataPoint.ofVector
  rw [if_pos rfl]

/-- **C58** (not checked).  A row index outside the matrix is not detected: the behaviour is
undefined. -/
theorem C58_out_of_range (m : Mat K) {i : Int} (h : i < 0 ∨ m.rows ≤ i) :
    DataPoint.ofMatrix m i = .ub := by
  unfold DataPoint.ofMatrix
  rw [if_neg (by omega)]

/-! ## C57: one line -/

theorem csvTokens_append (F : Fmt K) (a b : List Str) : ∀ acc : List K,
    csvTokens F acc (a ++ b) = (csvTokens F acc a >>= fun acc => csvTokens F acc b) := by
  induction a with
  | nil => intro acc; rfl
  | cons t a ih =>
    intro acc
    simp only [List.cons_append, csvTokens]
    split_ifs
    · exact ih acc
    · cases F.stod t with
      | ok x => simp only [Outcome.bind_ok]; exact ih _
      | throw e => rfl
      | ub => rfl

theorem csvTokens_blank (F : Fmt K) (n : Nat) (acc : List K) :
    csvTokens F acc (List.replicate n []) = .ok acc := by
  induction n with
  | zero => rfl
  | succ n ih => rw [List.replicate_succ]; simp only [csvTokens, if_true]; exact ih

/-- A field followed by its separator, with `p.1` more separators before it. -/
def csvField (d : Char) (p : Nat × Str) : Str := List.replicate p.1 d ++ (p.2 ++ [d])

theorem splitDelim_fields {d : Char} (fs : List (Nat × Str)) (h : ∀ p ∈ fs, d ∉ p.2) (s : Str) :
    splitDelim d (fs.flatMap (csvField d) ++ s) =
      (fs.flatMap (fun p => List.replicate p.1 [] ++ [p.2]) ++ (splitDelim d s).1,
        (splitDelim d s).2) := by
  induction fs with
  | nil => rfl
  | cons p fs ih =>
    rw [List.flatMap_cons, List.flatMap_cons]
    unfold csvField
    rw [List.append_assoc, List.append_assoc, splitDelim_replicate, List.append_assoc,
      List.singleton_append, splitDelim_append (h p (by simp))]
    have := ih (fun q hq => h q (by simp [hq]))
    unfold csvField at this
    rw [this]
    simp

theorem csvTokens_fields (F : Fmt K) (fs : List (Nat × Str)) : ∀ (xs acc : List K),
    List.Forall₂ (fun p x => p.2 ≠ [] ∧ F.stod p.2 = .ok x) fs xs →
    csvTokens F acc (fs.flatMap (fun p => List.replicate p.1 [] ++ [p.2])) = .ok (acc ++ xs) := by
  induction fs with
  | nil => intro xs acc h; cases h; simp [csvTokens]
  | cons p fs ih =>
    intro xs acc h
    cases h with
    | cons hp hr =>
      rw [List.flatMap_cons, List.append_assoc, csvTokens_append, csvTokens_blank, Outcome.bind_ok,
        List.singleton_append]
      unfold csvTokens
      rw [if_neg hp.1, hp.2, Outcome.bind_ok, ih _ _ hr]
      simp

theorem csvDelim_done (F : Fmt K) {s : List K × Str} (h : s.1 ≠ []) (d : Char) :
    csvDelim F s d = .ok s := by
  unfold csvDelim
  rw [if_neg (by simpa using h)]

theorem csvDelim_absent (F : Fmt K) {acc : List K} {line : Str} {d : Char} (h : d ∉ line) :
    csvDelim F (acc, line) d = .ok (acc, line) := by
  unfold csvDelim
  simp only
  split_ifs
  · rw [splitDelim_none h]; rfl
  · rfl

/-- The last step of the parser. -/
def csvLast (F : Fmt K) (s : List K × Str) : Outcome (List K) :=
  match F.stod s.2 with
  | .ok x => .ok (s.1 ++ [x])
  | .throw _ => .ok s.1
  | .ub => .ub

theorem parseCsv_core (F : Fmt K) {d : Char} {line : Str} (hd : UsesDelim d line) {xs : List K}
    (hx : xs ≠ []) (h : csvTokens F [] (splitDelim d line).1 = .ok xs) :
    parseCsvLine F line = csvLast F (xs, (splitDelim d line).2) := by
  have ht : csvDelim F ([], line) d = .ok (xs, (splitDelim d line).2) := by
    unfold csvDelim
    simp only [List.length_nil, if_true]
    rw [h]; rfl
  have hdone : ∀ e, csvDelim F (xs, (splitDelim d line).2) e = .ok (xs, (splitDelim d line).2) :=
    fun e => csvDelim_done F (by exact hx) e
  unfold parseCsvLine
  rcases hd with rfl | ⟨rfl, h1⟩ | ⟨rfl, h1, h2⟩
  · simp only [ht, hdone, Outcome.bind_ok]; rfl
  · simp only [csvDelim_absent F h1, ht, hdone, Outcome.bind_ok]; rfl
  · simp only [csvDelim_absent F h1, csvDelim_absent F h2, ht, Outcome.bind_ok]; rfl

/-- The text of a line with fields `fs`, each followed by a separator and preceded by any number of
additional ones, then `b` separators and a last field (which may be empty). -/
def csvLine (d : Char) (fs : List (Nat × Str)) (b : Nat) (last : Str) : Str :=
  fs.flatMap (csvField d) ++ (List.replicate b d ++ last)

theorem usesDelim_csvLine {d : Char} (hd : IsDelim d) {fs : List (Nat × Str)}
    (hfs : ∀ p ∈ fs, FieldText d p.2) (b : Nat) {last : Str} (hl : last = [] ∨ FieldText d last) :
    UsesDelim d (csvLine d fs b last) := by
  have key : ∀ c, c ≠ d → (∀ p ∈ fs, c ∉ p.2) → c ∉ last → c ∉ csvLine d fs b last := by
    intro c hc h1 h2 hm
    unfold csvLine at hm
    rw [List.mem_append, List.mem_flatMap, List.mem_append, List.mem_replicate] at hm
    rcases hm with ⟨p, hp, hm⟩ | ⟨-, hm⟩ | hm
    · unfold csvField at hm
      rw [List.mem_append, List.mem_replicate, List.mem_append, List.mem_singleton] at hm
      rcases hm with ⟨-, hm⟩ | hm | hm
      · exact hc hm
      · exact h1 p hp hm
      · exact hc hm
    · exact hc hm
    · exact h2 hm
  rcases hd with rfl | rfl | rfl
  · exact Or.inl rfl
  · refine Or.inr (Or.inl ⟨rfl, key _ (by decide) (fun p hp => (hfs p hp).2.2.1 rfl) ?_⟩)
    rcases hl with rfl | hl
    · simp
    · exact hl.2.2.1 rfl
  · refine Or.inr (Or.inr ⟨rfl, key _ (by decide) (fun p hp => ((hfs p hp).2.2.2 rfl).1) ?_,
      key _ (by decide) (fun p hp => ((hfs p hp).2.2.2 rfl).2) ?_⟩)
    · rcases hl with rfl | hl
      · simp
      · exact (hl.2.2.2 rfl).1
    · rcases hl with rfl | hl
      · simp
      · exact (hl.2.2.2 rfl).2

/-- **C57** (one line, trailing separator).  A line of at least one numeric field, each followed by
its separator (comma, space or tab), with any number of additional separators anywhere, gives
exactly the numbers in order. -/
theorem C57_line (F : Fmt K) {d : Char} (hd : IsDelim d) (fs : List (Nat × Str)) (xs : List K)
    (hne : fs ≠ []) (hfs : ∀ p ∈ fs, FieldText d p.2)
    (hx : List.Forall₂ (fun p x => F.stod p.2 = .ok x) fs xs) (b : Nat) :
    parseCsvLine F (csvLine d fs b []) = .ok xs := by
  have hx' : List.Forall₂ (fun p x => p.2 ≠ [] ∧ F.stod p.2 = .ok x) fs xs := by
    rw [List.forall₂_iff_get] at hx ⊢
    exact ⟨hx.1, fun i h1 h2 => ⟨(hfs _ (List.get_mem _ _)).1, hx.2 i h1 h2⟩⟩
  have hxne : xs ≠ [] := by rintro rfl; cases hx; exact hne rfl
  have hs : splitDelim d (csvLine d fs b []) =
      (fs.flatMap (fun p => List.replicate p.1 [] ++ [p.2]) ++ List.replicate b [], []) := by
    unfold csvLine
    rw [splitDelim_fields fs (fun p hp => (hfs p hp).2.1), splitDelim_replicate]
    simp [splitDelim]
  rw [parseCsv_core F (usesDelim_csvLine hd hfs b (.inl rfl)) hxne (by
    rw [hs]
    simp only
    rw [csvTokens_append, csvTokens_fields F fs xs [] hx', Outcome.bind_ok, csvTokens_blank]; rfl)]
  rw [hs]
  unfold csvLast
  simp only
  rw [F.stod_empty]

/-- **C57** (one line, no trailing separator). -/
theorem C57_line_last (F : Fmt K) {d : Char} (hd : IsDelim d) (fs : List (Nat × Str)) (xs : List K)
    (hfs : ∀ p ∈ fs, FieldText d p.2)
    (hx : List.Forall₂ (fun p x => F.stod p.2 = .ok x) fs xs) (b : Nat) (last : Str) (y : K)
    (hl : FieldText d last) (hy : F.stod last = .ok y) (hb : fs ≠ [] ∨ (b = 0 ∧ ',' ∉ last ∧
      ' ' ∉ last ∧ '\t' ∉ last)) :
    parseCsvLine F (csvLine d fs b last) = .ok (xs ++ [y]) := by
  by_cases hne : fs = []
  · subst hne
    cases hx
    obtain ⟨rfl, h1, h2, h3⟩ := hb.resolve_left (by simp)
    have e : csvLine d [] 0 last = last := by simp [csvLine]
    rw [e]
    unfold parseCsvLine
    simp only [csvDelim_absent F h1, csvDelim_absent F h2, csvDelim_absent F h3, Outcome.bind_ok, hy]
  · have hx' : List.Forall₂ (fun p x => p.2 ≠ [] ∧ F.stod p.2 = .ok x) fs xs := by
      rw [List.forall₂_iff_get] at hx ⊢
      exact ⟨hx.1, fun i h1 h2 => ⟨(hfs _ (List.get_mem _ _)).1, hx.2 i h1 h2⟩⟩
    have hxne : xs ≠ [] := by rintro rfl; cases hx; exact hne rfl
    have hs : splitDelim d (csvLine d fs b last) =
        (fs.flatMap (fun p => List.replicate p.1 [] ++ [p.2]) ++ List.replicate b [], last) := by
      unfold csvLine
      rw [splitDelim_fields fs (fun p hp => (hfs p hp).2.1), splitDelim_replicate,
        splitDelim_none hl.2.1]
      simp
    rw [parseCsv_core F (usesDelim_csvLine hd hfs b (.inr hl)) hxne (by
      rw [hs]
      simp only
      rw [csvTokens_append, csvTokens_fields F fs xs [] hx', Outcome.bind_ok, csvTokens_blank]; rfl)]
    rw [hs]
    unfold csvLast
    simp only
    rw [hy]

/-! ## C57: the file -/

/-- What `load_matrix` holds after some rows. -/
structure Loaded (d : Nat) (rows : List (List K)) (s : LoadState K) : Prop where
  ok : s.data.Ok
  cols : s.data.cols = d
  numCols : s.numCols = some d
  numRows : s.numRows = rows.length
  room : rows.length ≤ s.data.rows
  entry : ∀ i < rows.length, ∀ j < d, s.data.coeff i j = (rows.getD i []).getD j 0

theorem setRow_spec (i : Nat) (xs : List K) : ∀ (m : Mat K) (j : Nat), m.Ok → i < m.rows →
    j + xs.length ≤ m.cols →
    ∃ m' : Mat K, setRow m i j xs = .ok m' ∧ m'.Ok ∧ m'.rows = m.rows ∧ m'.cols = m.cols ∧
      ∀ a < m.rows, ∀ b < m.cols, m'.coeff a b =
        if a = i ∧ j ≤ b ∧ b < j + xs.length then xs.getD (b - j) 0 else m.coeff a b := by
  induction xs with
  | nil =>
    intro m j h1 h2 h3
    refine ⟨m, rfl, h1, rfl, rfl, fun a _ b _ => ?_⟩
    rw [if_neg]
    simp
  | cons x xs ih =>
    intro m j h1 h2 h3
    rw [List.length_cons] at h3
    obtain ⟨m1, e1, e2, e3, e4, e5⟩ := Mat.set_spec h1 h2 (show j < m.cols by omega) x
    obtain ⟨m2, f1, f2, f3, f4, f5⟩ := ih m1 (j + 1) e2 (by omega) (by omega)
    refine ⟨m2, ?_, f2, by omega, by omega, ?_⟩
    · unfold setRow
      rw [e1, Outcome.bind_ok, f1]
    · intro a ha b hb
      rw [f5 a (by omega) b (by omega), e5 a ha b hb, List.length_cons]
      by_cases hai : a = i
      · subst hai
        rcases Nat.lt_trichotomy b j with hlt | heq | hgt
        · rw [if_neg (by omega), if_neg (by omega), if_neg (by omega)]
        · subst heq
          rw [if_neg (by omega), if_pos ⟨rfl, rfl⟩, if_pos ⟨rfl, by omega, by omega⟩]
          simp
        · by_cases hb2 : b < j + 1 + xs.length
          · rw [if_pos ⟨rfl, by omega, hb2⟩, if_pos ⟨rfl, by omega, by omega⟩,
              show b - j = (b - (j + 1)) + 1 by omega, List.getD_cons_succ]
          · rw [if_neg (by omega), if_neg (by omega), if_neg (by omega)]
      · rw [if_neg (by omega), if_neg (by omega), if_neg (by omega)]

theorem store_spec {d : Nat} {rows : List (List K)} {m : Mat K} (h : m.Ok) (hc : m.cols = d)
    (hr : rows.length < m.rows)
    (he : ∀ i < rows.length, ∀ j < d, m.coeff i j = (rows.getD i []).getD j 0) {ts : List K}
    (ht : ts.length = d) :
    ∃ m', setRow m rows.length 0 ts = .ok m' ∧
      Loaded d (rows ++ [ts]) ⟨some d, rows.length + 1, m'⟩ := by
  obtain ⟨m', e1, e2, e3, e4, e5⟩ := setRow_spec rows.length ts m 0 h hr (by omega)
  refine ⟨m', e1, e2, by simp only; omega, rfl, by simp, by simp; omega, ?_⟩
  intro i hi j hj
  simp only [List.length_append, List.length_singleton] at hi
  simp only
  rw [e5 i (by omega) j (by omega)]
  by_cases hin : i = rows.length
  · subst hin
    rw [if_pos ⟨rfl, by omega, by omega⟩, List.getD_append_right _ _ _ _ (le_refl _)]
    simp
  · rw [if_neg (by omega), he i (by omega) j hj, List.getD_append _ _ _ _ (by omega)]

theorem loadRow_spec (junk : Nat → Nat → K) {d : Nat} {rows : List (List K)} {s : LoadState K}
    (h : Loaded d rows s) {ts : List K} (ht : ts.length = d) :
    ∃ s', loadRow junk s ts = .ok s' ∧ Loaded d (rows ++ [ts]) s' := by
  unfold loadRow
  simp only [h.numCols, Option.getD_some]
  rw [if_neg (by omega), h.numRows, Nat.add_sub_cancel]
  by_cases hr : rows.length + 1 ≤ s.data.rows
  · rw [if_pos hr]
    obtain ⟨m', e1, e2⟩ := store_spec h.ok h.cols (by omega) h.entry ht
    exact ⟨_, by rw [e1, Outcome.bind_ok], e2⟩
  · rw [if_neg hr]
    have hlt : rows.length < (11 * (rows.length + 1) + 9) / 10 := by omega
    have hroom := h.room
    obtain ⟨m', e1, e2⟩ := store_spec (rows := rows)
      (m := s.data.resize junk ((11 * (rows.length + 1) + 9) / 10) s.data.cols) (d := d) (ts := ts)
      (Mat.resize_ok _ _ _ _) h.cols hlt
      (fun i hi j hj => by
        rw [Mat.resize_coeff junk _ (by omega) (by rw [h.cols]; exact hj) (by omega)
          (by rw [h.cols]; exact hj)]
        exact h.entry i hi j hj) ht
    exact ⟨_, by rw [e1, Outcome.bind_ok], e2⟩

theorem loadRow_first (junk : Nat → Nat → K) (m : Mat K) (hm : m.rows = 1) (ts : List K) :
    ∃ s', loadRow junk ⟨none, 0, m⟩ ts = .ok s' ∧ Loaded ts.length [ts] s' := by
  unfold loadRow
  simp only [Option.getD_none]
  rw [if_neg (by omega), if_pos (by show 0 + 1 ≤ m.rows; omega)]
  obtain ⟨m', e1, e2⟩ := store_spec (rows := []) (m := m.resize junk m.rows ts.length) (ts := ts)
    (Mat.resize_ok _ _ _ _) rfl (by show 0 < m.rows; omega) (fun i hi => absurd hi (by simp)) rfl
  exact ⟨_, by rw [show 0 + 1 - 1 = ([] : List (List K)).length from rfl, e1, Outcome.bind_ok]; rfl, e2⟩

theorem loadRows_content (F : Fmt K) (junk : Nat → Nat → K) (ls : List Str) : ∀ s : LoadState K,
    loadRows F junk s ls = loadRows F junk s (ls.filter isContent) := by
  induction ls with
  | nil => intro s; rfl
  | cons l ls ih =>
    intro s
    rw [List.filter_cons]
    cases hc : isContent l with
    | true =>
      simp only [if_true]
      unfold loadRows
      rw [if_pos hc, if_pos hc]
      cases parseCsvLine F l with
      | ok ts =>
        simp only [Outcome.bind_ok]
        cases loadRow junk s ts with
        | ok s' => simp only [Outcome.bind_ok]; exact ih s'
        | throw e => rfl
        | ub => rfl
      | throw e => rfl
      | ub => rfl
    | false =>
      simp only [Bool.false_eq_true, if_false]
      conv => lhs; unfold loadRows
      rw [if_neg (by simp [hc])]
      exact ih s

theorem loadRows_loaded (F : Fmt K) (junk : Nat → Nat → K) {d : Nat} (ls : List Str) :
    ∀ (rows new : List (List K)) (s : LoadState K), Loaded d rows s →
    (∀ l ∈ ls, isContent l = true) →
    List.Forall₂ (fun l r => parseCsvLine F l = .ok r) ls new → (∀ r ∈ new, r.length = d) →
    ∃ s', loadRows F junk s ls = .ok s' ∧ Loaded d (rows ++ new) s' := by
  induction ls with
  | nil =>
    intro rows new s h _ hp _
    cases hp
    exact ⟨s, rfl, by simpa using h⟩
  | cons l ls ih =>
    intro rows new s h hcont hp hlen
    cases hp with
    | @cons _ r _ new hl hr =>
      obtain ⟨s1, e1, e2⟩ := loadRow_spec junk h (hlen r (by simp))
      obtain ⟨s2, f1, f2⟩ := ih (rows ++ [r]) new s1 e2 (fun x hx => hcont x (by simp [hx])) hr
        (fun x hx => hlen x (by simp [hx]))
      refine ⟨s2, ?_, by simpa using f2⟩
      unfold loadRows
      rw [if_pos (hcont l (by simp)), hl, Outcome.bind_ok, e1, Outcome.bind_ok, f1]

/-- **C57** (meaning).  If the content lines of the file parse to rows of equal length `d`, at least
one, the result is the matrix with these rows - whatever the uninitialised memory contained. -/
theorem C57_load (F : Fmt K) (junk : Nat → Nat → K) (file : Str) (rows : List (List K)) (d : Nat)
    (hp : List.Forall₂ (fun l r => parseCsvLine F l = .ok r) (contentLines file) rows)
    (hd : ∀ r ∈ rows, r.length = d) (hne : rows ≠ []) :
    loadMatrix F junk file = .ok (matOfRows d rows) := by
  unfold loadMatrix
  rw [loadRows_content]
  have hcont : ∀ l ∈ contentLines file, isContent l = true := fun l hl => (List.mem_filter.1 hl).2
  have hfl : (fileLines file).filter isContent = contentLines file := rfl
  rw [hfl]
  revert hp hcont
  cases contentLines file with
  | nil => intro hp; cases hp; exact absurd rfl hne
  | cons l ls =>
    intro hp hcont
    cases hp with
    | @cons _ r _ new hl hr =>
      obtain ⟨s1, e1, e2⟩ := loadRow_first junk ⟨1, 1, [junk 0 0]⟩ rfl r
      have hrd := hd r (by simp)
      rw [hrd] at e2
      obtain ⟨s2, f1, f2⟩ := loadRows_loaded F junk ls [r] new s1 e2
        (fun x hx => hcont x (by simp [hx])) hr (fun x hx => hd x (by simp [hx]))
      unfold loadRows
      rw [if_pos (hcont l (by simp)), hl, Outcome.bind_ok, e1, Outcome.bind_ok, f1, Outcome.bind_ok]
      congr 1
      rw [List.singleton_append] at f2
      apply Mat.ext_coeff (Mat.resize_ok _ _ _ _) (matOfRows_ok hd)
      · show s2.numRows = _
        rw [f2.numRows]; rfl
      · show s2.data.cols = _
        rw [f2.cols]; rfl
      · intro i hi j hj
        have hi : i < s2.numRows := hi
        have hj : j < s2.data.cols := hj
        have h1 := f2.numRows
        have h2 := f2.cols
        have h3 := f2.room
        rw [Mat.resize_coeff junk _ hi hj (by omega) hj, f2.entry i (by omega) j (by omega),
          matOfRows_coeff _ hd i j (by omega) (by omega)]

/-- **C57** (no rows).  A file without content lines gives a matrix with no rows and one column. -/
theorem C57_load_empty (F : Fmt K) (junk : Nat → Nat → K) (file : Str)
    (h : contentLines file = []) : loadMatrix F junk file = .ok ⟨0, 1, []⟩ := by
  unfold loadMatrix
  rw [loadRows_content]
  have hfl : (fileLines file).filter isContent = contentLines file := rfl
  rw [hfl, h]
  simp [loadRows, Mat.resize]

/-- **C57** (rows of different length).  The first row whose length differs from that of the first
row raises `runtime_error`. -/
theorem C57_ragged (F : Fmt K) (junk : Nat → Nat → K) (file : Str) (pre post : List Str) (l : Str)
    (rows : List (List K)) (r : List K) (d : Nat) (hf : contentLines file = pre ++ l :: post)
    (hp : List.Forall₂ (fun l r => parseCsvLine F l = .ok r) pre rows)
    (hd : ∀ r ∈ rows, r.length = d) (hne : rows ≠ []) (hl : parseCsvLine F l = .ok r)
    (hr : r.length ≠ d) : loadMatrix F junk file = .throw .runtimeError := by
  unfold loadMatrix
  rw [loadRows_content]
  have hcont : ∀ l ∈ contentLines file, isContent l = true := fun l hl => (List.mem_filter.1 hl).2
  have hfl : (fileLines file).filter isContent = contentLines file := rfl
  rw [hfl]
  rw [hf] at hcont ⊢
  cases hp with
  | nil => exact absurd rfl hne
  | @cons l0 r0 ls new hl0 hnew =>
    obtain ⟨s1, e1, e2⟩ := loadRow_first junk ⟨1, 1, [junk 0 0]⟩ rfl r0
    rw [hd r0 (by simp)] at e2
    obtain ⟨s2, f1, f2⟩ := loadRows_loaded F junk ls [r0] new s1 e2
      (fun x hx => hcont x (by simp [hx])) hnew (fun x hx => hd x (by simp [hx]))
    have happ : ∀ (a b : List Str) (s s' : LoadState K), (∀ x ∈ a, isContent x = true) →
        loadRows F junk s a = .ok s' → loadRows F junk s (a ++ b) = loadRows F junk s' b := by
      intro a
      induction a with
      | nil => intro b s s' _ h; cases h; rfl
      | cons x a ih =>
        intro b s s' hc h
        rw [List.cons_append]
        conv => lhs; unfold loadRows
        unfold loadRows at h
        rw [if_pos (hc x (by simp))] at h ⊢
        obtain ⟨ts, h1, h⟩ := Outcome.bind_eq_ok.1 h
        obtain ⟨s'', h2, h⟩ := Outcome.bind_eq_ok.1 h
        rw [h1, Outcome.bind_ok, h2, Outcome.bind_ok]
        exact ih b s'' s' (fun y hy => hc y (by simp [hy])) h
    have hall : loadRows F junk ⟨none, 0, ⟨1, 1, [junk 0 0]⟩⟩ (l0 :: ls) = .ok s2 := by
      unfold loadRows
      rw [if_pos (hcont l0 (by simp)), hl0, Outcome.bind_ok, e1, Outcome.bind_ok, f1]
    rw [happ (l0 :: ls) (l :: post) _ s2 (fun x hx => hcont x (by
      rw [List.mem_append]; exact .inl hx)) hall]
    unfold loadRows
    rw [if_pos (hcont l (by simp)), hl, Outcome.bind_ok]
    have : loadRow junk s2 r = .throw .runtimeError := by
      unfold loadRow
      simp only [f2.numCols, Option.getD_some]
      rw [if_pos (Ne.symm hr)]
    rw [this]; rfl

theorem csvField_print (F : Fmt K) {w : K} (hw : F.printable w) : FieldText ' ' (F.print w) :=
  ⟨F.print_ne w hw, fun h => (F.print_chars w hw _ h).2.1 rfl,
    fun _ h => (F.print_chars w hw _ h).1 rfl, fun h => absurd h (by decide)⟩

/-- **C57** (round trip).  A matrix with at least one row and one column whose entries are exactly
printable is given back by saving and loading. -/
theorem C57_round_trip (F : Fmt K) (junk : Nat → Nat → K) (m : Mat K) (h : m.Ok) (hr : 1 ≤ m.rows)
    (hc : 1 ≤ m.cols) (hp : ∀ x ∈ m.mem, F.printable x) :
    loadMatrix F junk (saveMatrix F m) = .ok m := by
  have hmem : ∀ i < m.rows, ∀ j < m.cols, m.coeff i j ∈ m.mem := by
    intro i hi j hj
    exact List.mem_of_getElem? (m.coeff_get h hi hj)
  have hline : ∀ i < m.rows, IsLine ((List.range m.cols).flatMap
        (fun j => F.print (m.coeff i j) ++ [' '])) ∧
      isContent ((List.range m.cols).flatMap (fun j => F.print (m.coeff i j) ++ [' '])) = true := by
    intro i hi
    constructor
    · constructor
      · intro hm
        rw [List.mem_flatMap] at hm
        obtain ⟨j, hj, hm⟩ := hm
        rw [List.mem_append, List.mem_singleton] at hm
        rcases hm with hm | hm
        · exact (F.print_chars _ (hp _ (hmem i hi j (List.mem_range.1 hj))) _ hm).2.2.2.1 rfl
        · exact absurd hm (by decide)
      · intro hm
        rw [List.mem_flatMap] at hm
        obtain ⟨j, hj, hm⟩ := hm
        rw [List.mem_append, List.mem_singleton] at hm
        rcases hm with hm | hm
        · exact (F.print_chars _ (hp _ (hmem i hi j (List.mem_range.1 hj))) _ hm).2.2.2.2.1 rfl
        · exact absurd hm (by decide)
    · obtain ⟨n, hn⟩ : ∃ n, m.cols = n + 1 := ⟨m.cols - 1, by omega⟩
      rw [hn, List.range_succ_eq_map, List.flatMap_cons]
      have hp0 := hp _ (hmem i hi 0 (by omega))
      have hh0 := F.print_chars _ hp0
      have hne := F.print_ne _ hp0
      revert hh0 hne
      cases F.print (m.coeff i 0) with
      | nil => intro _ hne; exact absurd rfl hne
      | cons c t =>
        intro hh0 _
        have := hh0 c (by simp)
        simp [isContent, this]
  have hcl : contentLines (saveMatrix F m) = (List.range m.rows).map (fun i =>
      (List.range m.cols).flatMap (fun j => F.print (m.coeff i j) ++ [' '])) := by
    unfold saveMatrix
    have := contentLines_unlines (hd := []) (ls := (List.range m.rows).map (fun i =>
      (List.range m.cols).flatMap (fun j => F.print (m.coeff i j) ++ [' ']))) (by simp) (by
        intro l hl
        obtain ⟨i, hi, rfl⟩ := List.mem_map.1 hl
        exact hline i (List.mem_range.1 hi))
    rw [List.nil_append] at this
    exact this
  have hparse : ∀ i < m.rows, parseCsvLine F ((List.range m.cols).flatMap
      (fun j => F.print (m.coeff i j) ++ [' '])) = .ok (m.row i) := by
    intro i hi
    have hfm : (List.range m.cols).flatMap (fun j => F.print (m.coeff i j) ++ [' ']) =
        csvLine ' ' ((List.range m.cols).map (fun j => (0, F.print (m.coeff i j)))) 0 [] := by
      unfold csvLine csvField
      rw [List.flatMap_map]
      simp
    rw [hfm]
    apply C57_line F (.inr (.inl rfl))
    · intro hn
      have := congrArg List.length hn
      simp at this
      omega
    · intro p hp'
      obtain ⟨j, hj, rfl⟩ := List.mem_map.1 hp'
      exact csvField_print F (hp _ (hmem i hi j (List.mem_range.1 hj)))
    · unfold Mat.row
      rw [List.forall₂_map_left_iff, List.forall₂_map_right_iff, List.forall₂_same]
      intro j hj
      exact F.stod_print _ (hp _ (hmem i hi j (List.mem_range.1 hj)))
  have hlen : ∀ r ∈ (List.range m.rows).map m.row, r.length = m.cols := by
    intro r hr
    obtain ⟨i, -, rfl⟩ := List.mem_map.1 hr
    simp [Mat.row]
  rw [C57_load F junk _ ((List.range m.rows).map m.row) m.cols]
  · congr 1
    apply Mat.ext_coeff (matOfRows_ok hlen) h
    · simp [matOfRows]
    · rfl
    · intro i hi j hj
      have hi : i < ((List.range m.rows).map m.row).length := hi
      have hj : j < m.cols := hj
      rw [matOfRows_coeff _ hlen i j hi hj]
      have hi' : i < m.rows := by simpa using hi
      rw [List.getD_eq_getElem _ _ hi, List.getElem_map, List.getElem_range]
      unfold Mat.row
      rw [List.getD_eq_getElem _ _ (by simpa using hj), List.getElem_map, List.getElem_range]
  · rw [hcl, List.forall₂_map_left_iff, List.forall₂_map_right_iff, List.forall₂_same]
    intro i hi
    exact hparse i (List.mem_range.1 hi)
  · exact hlen
  · intro hn
    have := congrArg List.length hn
    simp at this
    omega

/-- **C57** (unreadable field).  Where the documentation promises `runtime_error`, a field that is
not a number (and not the last one on its line) makes the exception of `std::stod` escape. -/
theorem C57_bad_field_escapes (F : Fmt K) (junk : Nat → Nat → K) (file : Str) (l : Str)
    (post : List Str) (e : Exn) (hf : contentLines file = l :: post)
    (hl : parseCsvLine F l = .throw e) : loadMatrix F junk file = .throw e := by
  unfold loadMatrix
  rw [loadRows_content]
  have hfl : (fileLines file).filter isContent = contentLines file := rfl
  have hcl : isContent l = true := by
    have : l ∈ contentLines file := by rw [hf]; simp
    exact (List.mem_filter.1 this).2
  rw [hfl, hf]
  unfold loadRows
  rw [if_pos hcl, hl]; rfl

end

/-! ## Examples -/

/-- A 2 by 3 matrix. -/
def demoMat : Mat ℚ := ⟨2, 3, [1, 2, 3, 4, 5, 6]⟩

/-- The hypotheses of the round trip are met. -/
example (junk : Nat → Nat → ℚ) : loadMatrix natFmt junk (saveMatrix natFmt demoMat) = .ok demoMat := by
  apply C57_round_trip _ _ _ (by unfold Mat.Ok demoMat; rfl) (by decide) (by decide)
  · intro x hx
    simp only [demoMat, List.mem_cons, List.not_mem_nil, or_false] at hx
    rcases hx with rfl | rfl | rfl | rfl | rfl | rfl
    · exact_mod_cast natFmt_printable 1 (by norm_num)
    · exact_mod_cast natFmt_printable 2 (by norm_num)
    · exact_mod_cast natFmt_printable 3 (by norm_num)
    · exact_mod_cast natFmt_printable 4 (by norm_num)
    · exact_mod_cast natFmt_printable 5 (by norm_num)
    · exact_mod_cast natFmt_printable 6 (by norm_num)

/-- Growing the matrix beyond its first size. -/
example : (loadMatrix natFmt (fun _ _ => 77) "1 2\n# comment\n3,4\n\n5\t6\n7 8\n".toList) =
    .ok ⟨4, 2, [1, 2, 3, 4, 5, 6, 7, 8]⟩ := by decide +kernel

/-- Rows of different length. -/
example : loadMatrix natFmt (fun _ _ => 77) "1 2\n3\n".toList = .throw .runtimeError := by
  decide +kernel

/-- A word instead of a number: the exception escapes if it is not the last field ... -/
example : loadMatrix natFmt (fun _ _ => 77) "x 2\n".toList = .throw .invalidArgument := by
  decide +kernel

/-- ... and is silently dropped if it is. -/
example : loadMatrix natFmt (fun _ _ => 77) "1 x\n2 y\n".toList = .ok ⟨2, 1, [1, 2]⟩ := by
  decide +kernel

example : (DataPoint.ofMatrix demoMat 1 >>= fun p => p.toVector demoMat.mem) = .ok [4, 5, 6] := by
  decide +kernel

end Stag
