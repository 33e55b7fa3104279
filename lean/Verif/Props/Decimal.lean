import Verif.DecimalLemmas
import Verif.Props.Edgelist
import Verif.Props.Adjacencylist
import Verif.Props.Data
import Verif.SparseLemmas
import Mathlib.Data.Rat.Floor

/-!
# C78: weights and data lose all but six digits in files
-/

set_option linter.unusedSectionVars false
set_option exponentiation.threshold 2000

namespace Stag

section
variable {K : Type} [Field K] [LinearOrder K] [IsStrictOrderedRing K] [FloorRing K]

/-- The largest finite `double`. -/
def dblMax (K : Type) [Field K] : K := (2 ^ 53 - 1) * 2 ^ 971

/-- `EPSILON` is the `double` nearest to `10^-10`. -/
theorem flBin_epsilon : flBin 53 (1 / 10 ^ 10 : K) = epsilon := by
  have hl : Int.log 2 (1 / 10 ^ 10 : K) = -34 := by
    have a1 : -34 ≤ Int.log 2 (1 / 10 ^ 10 : K) := by
      rw [← Int.zpow_le_iff_le_log one_lt_two (by positivity)]
      rw [zpow_neg]
      norm_num
    have a2 : Int.log 2 (1 / 10 ^ 10 : K) < -33 := by
      rw [← Int.lt_zpow_iff_log_lt one_lt_two (by positivity)]
      rw [zpow_neg]
      norm_num
    omega
  have hu : ulp 53 (1 / 10 ^ 10 : K) = 1 / 2 ^ 86 := by
    unfold ulp
    rw [abs_of_pos (by positivity), hl]
    have : (-34 : Int) - (((53 : Nat) : Int) - 1) = -((86 : Nat) : Int) := by norm_num
    rw [this, zpow_neg, zpow_natCast, one_div]
  unfold flBin epsilon
  rw [hu, roundEven_near (m := 7737125245533627)]
  · norm_num
  · rw [abs_lt]
    norm_num

/-! ## Numbers -/

/-- **C78** (what is printed).  The text printed for `x` is a decimal number with six significant
digits, no number with six significant digits is nearer to `x`, and the relative error is at most
`5 10^-6`. -/
theorem C78_printed (x : K) : ∃ d, readDec (printDouble x) = some d ∧ SixDigit d ∧
    (∀ y, SixDigit y → |d - x| ≤ |y - x|) ∧ |d - x| ≤ 5 / 10 ^ 6 * |x| :=
  ⟨round6 x, readDec_print x, round6_six x, fun _ hy => round6_nearest x hy, round6_err x⟩

/-- **C78** (characters).  A printed number is not empty and consists of digits, `.`, `e`, `+`
and `-`. -/
theorem C78_characters (x : K) : printDouble x ≠ [] ∧ ∀ c ∈ printDouble x,
    isDigit c = true ∨ c = '.' ∨ c = 'e' ∨ c = '+' ∨ c = '-' :=
  ⟨printDouble_ne x, printDouble_chars x⟩

theorem flBin_float {p : Nat} (hp : 0 < p) {x : K} (h : IsFloat p x) : flBin p x = x := by
  have := flBin_nearest hp x h
  rw [sub_self, abs_zero] at this
  have := abs_eq_zero.1 (le_antisymm this (abs_nonneg _))
  linarith

/-- What is read is in range. -/
theorem sixD_inRange {x : K} (h : x = 0 ∨ (2 : K) ^ (-1021 : Int) ≤ |x|) (h2 : |x| ≤ dblMax K) :
    InRange (sixD x) := by
  have key : ∀ x : K, (2 : K) ^ (-1021 : Int) ≤ x → x ≤ dblMax K →
      (2 : K) ^ (-1022 : Int) ≤ sixD x ∧ sixD x < (2 : K) ^ (1024 : Int) := by
    intro x h1 h2
    have hx : 0 < x := lt_of_lt_of_le (by positivity) h1
    constructor
    · have e := round6_err x
      rw [abs_of_pos hx, abs_le] at e
      have hle : (2 : K) ^ (-1022 : Int) ≤ round6 x := by
        have e2 : (2 : K) ^ (-1021 : Int) = 2 * (2 : K) ^ (-1022 : Int) := by
          have : (-1021 : Int) = 1 + -1022 := by norm_num
          rw [this, zpow_add₀ two_ne_zero, zpow_one]
        have hp : (0 : K) < (2 : K) ^ (-1022 : Int) := by positivity
        rw [e2] at h1
        generalize (2 : K) ^ (-1022 : Int) = P at h1 hp ⊢
        linarith [e.1]
      have := flBin_mono (p := 53) (by norm_num) hle
      rwa [flBin_zpow (by norm_num)] at this
    · have hmax : IsFloat 53 (dblMax K) := ⟨2 ^ 53 - 1, 971, by norm_num, by
        unfold dblMax; push_cast; norm_cast⟩
      have hd : round6 x ≤ dblMax K := by
        have hu := ulp10_pos x
        obtain ⟨l1, l2⟩ := log10_le hx
        rcases lt_or_ge (Int.log 10 x) 308 with hl | hl
        · have h6 : roundEven (x / ulp10 x) ≤ 10 ^ 6 := by
            have := roundEven_mono (x := x / ulp10 x) (y := (((10 : Int) ^ 6 : Int) : K))
              (by rw [div_le_iff₀ hu]; push_cast; linarith [(ulp10_le hx).2])
            rwa [roundEven_int] at this
          have h6' : (roundEven (x / ulp10 x) : K) ≤ 10 ^ 6 := by exact_mod_cast h6
          have : round6 x ≤ 10 ^ 6 * ulp10 x := mul_le_mul_of_nonneg_right h6' hu.le
          refine le_trans this ?_
          have e6 : (10 : K) ^ 6 * ulp10 x = (10 : K) ^ (Int.log 10 x + 1) := by
            unfold ulp10
            rw [abs_of_pos hx]
            have e : (10 : K) ^ 6 = (10 : K) ^ (6 : Int) := by norm_cast
            rw [e, ← zpow_add₀ ten_ne]
            congr 1; ring
          rw [e6]
          have : (10 : K) ^ (Int.log 10 x + 1) ≤ (10 : K) ^ (308 : Int) :=
            zpow_le_zpow_right₀ one_lt_ten.le (by omega)
          refine le_trans this ?_
          have e : (10 : K) ^ (308 : Int) = 10 ^ 308 := by norm_cast
          rw [e]
          unfold dblMax
          norm_num
        · have hl' : Int.log 10 x < 309 := by
            rw [← Int.lt_zpow_iff_log_lt (by norm_num) hx]
            refine lt_of_le_of_lt h2 ?_
            have e : (((10 : Nat) : K)) ^ (309 : Int) = 10 ^ 309 := by norm_cast
            rw [e]
            unfold dblMax
            norm_num
          have hlog : Int.log 10 x = 308 := by omega
          have hul : ulp10 x = 10 ^ 303 := by
            unfold ulp10
            rw [abs_of_pos hx, hlog]
            have : (308 : Int) - 5 = ((303 : Nat) : Int) := by norm_num
            rw [this, zpow_natCast]
          have hr : roundEven (x / ulp10 x) ≤ 179769 := by
            have e1 := roundEven_err (x / ulp10 x)
            rw [abs_le] at e1
            have e2 : x / ulp10 x < 179769 + 1 / 2 := by
              rw [div_lt_iff₀ hu, hul]
              refine lt_of_le_of_lt h2 ?_
              unfold dblMax
              norm_num
            have : (roundEven (x / ulp10 x) : K) < 179769 + 1 := by linarith [e1.2]
            have : roundEven (x / ulp10 x) < 179769 + 1 := by exact_mod_cast this
            omega
          have hr' : (roundEven (x / ulp10 x) : K) ≤ 179769 := by exact_mod_cast hr
          have : round6 x ≤ 179769 * ulp10 x := mul_le_mul_of_nonneg_right hr' hu.le
          refine le_trans this ?_
          rw [hul]
          unfold dblMax
          norm_num
      have := flBin_mono (p := 53) (by norm_num) hd
      rw [flBin_float (by norm_num) hmax] at this
      refine lt_of_le_of_lt this ?_
      have e : (2 : K) ^ (1024 : Int) = 2 ^ 1024 := by norm_cast
      rw [e]
      unfold dblMax
      norm_num
  unfold InRange
  rcases lt_trichotomy x 0 with hx | hx | hx
  · right
    rw [abs_of_neg hx] at h h2
    have := key (-x) (h.resolve_left hx.ne) h2
    rw [sixD_neg] at this
    have hn : sixD x < 0 := by
      have := sixD_pos (x := -x) (by linarith)
      rw [sixD_neg] at this
      linarith
    rw [abs_of_neg hn]
    exact this
  · left
    rw [hx]
    unfold sixD
    rw [round6_zero, flBin_zero]
  · right
    rw [abs_of_pos hx] at h h2
    have := key x (h.resolve_left hx.ne') h2
    rwa [abs_of_pos (sixD_pos hx)]

/-- **C78** (what is read).  For every `x` between `2^-1021` and the largest `double`, and for zero,
reading the printed text succeeds; the result `y` is the `double` nearest to the printed number; it
differs from `x` by at most `5.01 10^-6 |x|`, and it is printed in the same way as `x`, so that
nothing more is lost by printing and reading again. -/
theorem C78_read_back (x : K) (h : x = 0 ∨ (2 : K) ^ (-1021 : Int) ≤ |x|) (h2 : |x| ≤ dblMax K) :
    ∃ d y, readDec (printDouble x) = some d ∧ stodDouble (printDouble x) = .ok y ∧
      y = flBin 53 d ∧ IsFloat 53 y ∧ (∀ z, IsFloat 53 z → |y - d| ≤ |z - d|) ∧
      |y - x| ≤ 501 / 10 ^ 8 * |x| ∧ printDouble y = printDouble x ∧
      stodDouble (printDouble y) = .ok y := by
  have hr := sixD_inRange h h2
  refine ⟨round6 x, sixD x, readDec_print x, by rw [stod_print, if_pos hr], rfl,
    flBin_isFloat (by norm_num) _, fun z hz => flBin_nearest (by norm_num) _ hz, sixD_err x,
    printDouble_sixD x, ?_⟩
  rw [stod_print, sixD_idem, if_pos hr]

/-- **C78** (exactly which numbers survive).  A number is read back unchanged if and only if it is
zero or in the range of the `double`s, and it is the `double` nearest to some number with six
significant digits. -/
theorem C78_survives_iff (x : K) : stodDouble (printDouble x) = .ok x ↔
    InRange x ∧ ∃ d, SixDigit d ∧ x = flBin 53 d := by
  rw [stod_print, ← sixD_fix_iff]
  constructor
  · intro h
    split_ifs at h with hr
    have := Outcome.ok.inj h
    exact ⟨this ▸ hr, this⟩
  · rintro ⟨h1, h2⟩
    rw [h2, if_pos h1]

/-- **C78** (integers).  Integers of at most six digits survive; so unweighted graphs and small
integer weights are not changed. -/
theorem C78_integers (m : Int) (h : |m| < 10 ^ 6) : stodDouble (printDouble (m : K)) = .ok (m : K) := by
  rw [C78_survives_iff]
  have hf : IsFloat 53 (m : K) := ⟨m, 0, lt_trans h (by norm_num), by simp⟩
  refine ⟨?_, (m : K), ⟨m, 0, h, by simp⟩, (flBin_float (by norm_num) hf).symm⟩
  unfold InRange
  by_cases hm : m = 0
  · left; rw [hm]; simp
  · right
    have h1 : (1 : K) ≤ |(m : K)| := by
      have : 1 ≤ |m| := Int.one_le_abs hm
      exact_mod_cast this
    have h3 : |(m : K)| < 10 ^ 6 := by exact_mod_cast h
    constructor
    · refine le_trans ?_ h1
      exact zpow_le_one_of_nonpos₀ one_le_two (by norm_num)
    · refine lt_trans h3 ?_
      have e : (2 : K) ^ (1024 : Int) = 2 ^ 1024 := by norm_cast
      rw [e]
      norm_num

/-! ## Graphs -/

/-- The graph with another weight function. -/
def Graph.mapW (f : K → K) (g : Graph K) : Graph K := { g with adj := g.adj.mapVal f }

theorem sixD_zero : sixD (0 : K) = 0 := by
  unfold sixD
  rw [round6_zero, flBin_zero]

theorem mapW_valid {g : Graph K} (h : g.Valid) {f : K → K} (h0 : f 0 = 0) : (g.mapW f).Valid :=
  ⟨SprsMat.wf_mapVal h.wf f, h.rows, h.cols, fun i j => by
    show (g.adj.mapVal f).coeff i j = (g.adj.mapVal f).coeff j i
    rw [SprsMat.coeff_mapVal h.wf f h0, SprsMat.coeff_mapVal h.wf f h0, h.symm]⟩

theorem mapW_coeff {g : Graph K} (h : g.Valid) {f : K → K} (h0 : f 0 = 0) (i j : Nat) :
    (g.mapW f).adj.coeff i j = f (g.adj.coeff i j) := SprsMat.coeff_mapVal h.wf f h0 i j

theorem mapW_mem {g : Graph K} (h : g.Valid) {f : K → K} {j : Nat} {e : Nat × K}
    (he : e ∈ (g.mapW f).adj.col j) : ∃ e' ∈ g.adj.col j, e = (e'.1, f e'.2) := by
  have : (g.mapW f).adj.col j = (g.adj.col j).mapVal f := SprsMat.col_mapVal h.wf f j
  rw [this] at he
  obtain ⟨e', h1, h2⟩ := List.mem_map.1 he
  exact ⟨e', h1, h2.symm⟩

theorem mapW_nnz {g : Graph K} (h : g.Valid) (f : K → K) : (g.mapW f).adj.nnz = g.adj.nnz := by
  have e : (g.adj.mapVal f).data.map List.length = g.adj.data.map List.length := by
    apply List.ext_getElem?
    intro j
    have hw := SprsMat.wf_mapVal h.wf f
    have hl : (g.adj.mapVal f).data.length = g.adj.data.length := by rw [hw.1, h.wf.1]; rfl
    have hc := SprsMat.col_mapVal h.wf f j
    unfold SprsMat.col at hc
    rw [List.getElem?_map, List.getElem?_map]
    rcases Nat.lt_or_ge j g.adj.data.length with hj | hj
    · rw [List.getD_eq_getElem?_getD, List.getD_eq_getElem?_getD,
        List.getElem?_eq_getElem (by omega), List.getElem?_eq_getElem hj, Option.getD_some,
        Option.getD_some] at hc
      rw [List.getElem?_eq_getElem (by omega), List.getElem?_eq_getElem hj, Option.map_some,
        Option.map_some, hc]
      simp [Col.mapVal]
    · rw [List.getElem?_eq_none (by omega), List.getElem?_eq_none hj]
  unfold SprsMat.nnz
  show ((g.adj.mapVal f).data.map List.length).sum = _
  rw [e]

theorem sixD_ne {x : K} (h : x ≠ 0) : sixD x ≠ 0 := by
  rcases lt_or_gt_of_ne h with h | h
  · have := sixD_pos (x := -x) (by linarith)
    rw [sixD_neg] at this
    intro hc; rw [hc] at this; simp at this
  · exact (sixD_pos h).ne'

theorem mapW_edges {g : Graph K} (h : g.Valid) : (g.mapW sixD).numberOfEdges = g.numberOfEdges := by
  have e : (List.range g.n).filter (fun i => decide ((g.mapW sixD).adj.coeff i i ≠ 0)) =
      (List.range g.n).filter (fun i => decide (g.adj.coeff i i ≠ 0)) := by
    apply List.filter_congr
    intro i _
    rw [mapW_coeff h sixD_zero]
    by_cases hc : g.adj.coeff i i = 0
    · rw [hc, sixD_zero]
    · simp [hc, sixD_ne hc]
  unfold Graph.numberOfEdges
  rw [mapW_nnz h]
  show (if g.selfLoops then _ else _) = _
  have hn : (g.mapW sixD).n = g.n := rfl
  rw [hn, e]

theorem saveEdgelist_mapW {g : Graph K} (h : g.Valid) :
    saveEdgelist (doubleFmt K) (g.mapW sixD) = saveEdgelist (doubleFmt K) g := by
  have hl : (upperEdges (g.mapW sixD)).map (edgeLine (doubleFmt K)) =
      (upperEdges g).map (edgeLine (doubleFmt K)) := by
    unfold upperEdges
    rw [List.map_flatMap, List.map_flatMap]
    show (List.range g.adj.cols).flatMap _ = _
    congr 1
    funext k
    have hc : (g.mapW sixD).adj.col k = (g.adj.col k).mapVal sixD := SprsMat.col_mapVal h.wf sixD k
    rw [hc]
    unfold Col.mapVal
    rw [List.filter_map, List.map_map, List.map_map, List.map_map]
    apply List.map_congr_left
    intro e _
    simp only [Function.comp_apply, edgeLine]
    show _ ++ ' ' :: (_ ++ ' ' :: printDouble (sixD e.2)) = _ ++ ' ' :: (_ ++ ' ' :: printDouble e.2)
    rw [printDouble_sixD]
  unfold saveEdgelist
  rw [hl, mapW_edges h]
  rfl

theorem mapW_printable {g : Graph K} (hv : g.Valid) (hpr : g.Pruned)
    (hm : ∀ j, ∀ e ∈ g.adj.col j, e.2 ≤ dblMax K) :
    ∀ j, ∀ e ∈ (g.mapW sixD).adj.col j, (doubleFmt K).printable e.2 := by
  intro j e he
  obtain ⟨e', h1, rfl⟩ := mapW_mem hv he
  have hw := hpr j e' h1
  have hp : 0 < e'.2 := lt_trans epsilon_pos hw
  refine ⟨sixD_inRange (Or.inr ?_) (by rw [abs_of_pos hp]; exact hm j e' h1), sixD_idem _⟩
  rw [abs_of_pos hp]
  refine le_trans ?_ hw.le
  unfold epsilon
  have : (2 : K) ^ (-1021 : Int) ≤ (2 : K) ^ (-86 : Int) :=
    zpow_le_zpow_right₀ one_le_two (by norm_num)
  refine le_trans this ?_
  rw [zpow_neg]
  norm_num

/-- **C78** (edgelists).  Saving a graph with finite `double` weights as an edgelist and loading the
file gives the graph whose weights are rounded to six digits; self-loops are not written (C23), and
an edge whose rounded weight does not exceed `EPSILON` is lost. -/
theorem C78_edgelist (g : Graph K) (hv : g.Valid) (hpr : g.Pruned) (hn : g.n ≤ 2 ^ 31)
    (hm : ∀ j, ∀ e ∈ g.adj.col j, e.2 ≤ dblMax K) :
    ∃ g', loadEdgelist (doubleFmt K) (saveEdgelist (doubleFmt K) g) = .ok g' ∧ g'.Valid ∧ g'.Pruned ∧
      ∀ u v, g'.adj.coeff u v = if u = v then 0 else
        if epsilon < sixD (g.adj.coeff u v) then sixD (g.adj.coeff u v) else 0 := by
  have hv' := mapW_valid hv (sixD_zero (K := K))
  obtain ⟨g', w, h1, h2, h3, h4, h5⟩ := C22_load (doubleFmt K) _ _
    (parse_saved (doubleFmt K) (g.mapW sixD) hv' hn (mapW_printable hv hpr hm)) (by
    intro e he
    rw [mem_upperEdges hv'] at he
    obtain ⟨e', h1, h2⟩ := mapW_mem hv he.2
    have : e.w = sixD e'.2 := congrArg Prod.snd h2
    rw [this]
    exact (sixD_pos (lt_trans epsilon_pos (hpr _ _ h1))).le)
  rw [saveEdgelist_mapW hv] at h1
  refine ⟨g', h1, h2, h3, ?_⟩
  intro u v
  rw [h5, h4.weight, listWeight_upper hv', listWeight_upper hv']
  by_cases huv : u = v
  · rw [if_pos huv, if_pos rfl, if_pos huv, mul_zero, Graph.thr_zero]
  · rw [if_neg huv, mapW_coeff hv sixD_zero, if_neg huv, if_neg huv]
    rfl

/-- **C78** (an edge is lost).  An edge whose weight exceeds `EPSILON = 10^-10` by less than a part
in ten million is written as `1e-10` and is missing in the loaded graph. -/
theorem C78_edge_lost (g : Graph K) (hv : g.Valid) (hpr : g.Pruned) (hn : g.n ≤ 2 ^ 31)
    (hm : ∀ j, ∀ e ∈ g.adj.col j, e.2 ≤ dblMax K) (u v : Nat)
    (h1 : epsilon < g.adj.coeff u v) (h2 : g.adj.coeff u v ≤ (1 + 1 / 10 ^ 7) / 10 ^ 10) :
    ∃ g', loadEdgelist (doubleFmt K) (saveEdgelist (doubleFmt K) g) = .ok g' ∧
      g'.adj.coeff u v = 0 := by
  obtain ⟨g', e1, _, _, e2⟩ := C78_edgelist g hv hpr hn hm
  refine ⟨g', e1, ?_⟩
  rw [e2]
  split_ifs with c1 c2
  · rfl
  · exfalso
    have ed : ((10 ^ 5 : Nat) : K) * (10 : K) ^ (-15 : Int) = 1 / 10 ^ 10 := by
      rw [zpow_neg]
      norm_num
    have hr : round6 (g.adj.coeff u v) = 1 / 10 ^ 10 := by
      rw [← ed]
      apply round6_near (by norm_num) (by norm_num)
      rw [ed]
      unfold epsilon at h1
      norm_num at h1 h2 ⊢
      rw [abs_le]
      constructor <;> linarith
    unfold sixD at c2
    rw [hr, flBin_epsilon] at c2
    exact lt_irrefl _ c2
  · rfl

/-- **C78** (edgelists, saving again).  If there are no self-loops, the last vertex has a neighbour
and no rounded weight falls to `EPSILON` or below, then the loaded graph has the same edges, and
saving it again writes the same file. -/
theorem C78_edgelist_again (g : Graph K) (hv : g.Valid) (hpr : g.Pruned) (hn : g.n ≤ 2 ^ 31)
    (hm : ∀ j, ∀ e ∈ g.adj.col j, e.2 ≤ dblMax K)
    (he : ∀ j, ∀ e ∈ g.adj.col j, epsilon < sixD e.2)
    (hloop : ∀ u, g.adj.coeff u u = 0) (hlast : g.n = 0 ∨ ∃ u, g.adj.coeff u (g.n - 1) ≠ 0) :
    ∃ g', loadEdgelist (doubleFmt K) (saveEdgelist (doubleFmt K) g) = .ok g' ∧ g'.n = g.n ∧
      (∀ u v, g'.adj.coeff u v = sixD (g.adj.coeff u v)) ∧
      (∀ u v, g'.adj.coeff u v = 0 ↔ g.adj.coeff u v = 0) ∧
      saveEdgelist (doubleFmt K) g' = saveEdgelist (doubleFmt K) g := by
  have hv' := mapW_valid hv (sixD_zero (K := K))
  obtain ⟨g', h1, h2, h3⟩ := C23_round_trip (doubleFmt K) (g.mapW sixD) hv' (by
    intro j e h
    obtain ⟨e', a, rfl⟩ := mapW_mem hv h
    exact he j e' a) hn (mapW_printable hv hpr hm) (by
    intro u
    rw [mapW_coeff hv sixD_zero, hloop, sixD_zero]) (by
    rcases hlast with h | ⟨u, h⟩
    · exact Or.inl h
    · right
      refine ⟨u, ?_⟩
      rw [mapW_coeff hv sixD_zero]
      exact sixD_ne h)
  rw [saveEdgelist_mapW hv] at h1
  have hco : ∀ u v, g'.adj.coeff u v = sixD (g.adj.coeff u v) := by
    intro u v
    rw [h3, mapW_coeff hv sixD_zero]
  refine ⟨g', h1, h2, hco, ?_, ?_⟩
  · intro u v
    rw [hco]
    constructor
    · intro h
      by_contra hc
      exact sixD_ne hc h
    · intro h
      rw [h, sixD_zero]
  · rw [← saveEdgelist_mapW hv]
    have hup : upperEdges g' = upperEdges (g.mapW sixD) := by
      unfold upperEdges
      rw [h3]
    have hfil : ∀ n, (List.range n).filter (fun i => decide ((g.mapW sixD).adj.coeff i i ≠ 0)) = [] := by
      intro n
      apply List.filter_eq_nil_iff.2
      intro i _
      rw [mapW_coeff hv sixD_zero, hloop, sixD_zero]
      simp
    have hed : g'.numberOfEdges = (g.mapW sixD).numberOfEdges := by
      unfold Graph.numberOfEdges
      rw [h3, hfil, hfil]
      simp
    unfold saveEdgelist
    rw [hup, hed, h2]

theorem saveAdjacencylist_mapW {g : Graph K} (h : g.Valid) (hpr : g.Pruned) :
    saveAdjacencylist (doubleFmt K) (g.mapW sixD) = saveAdjacencylist (doubleFmt K) g := by
  have hnb : ∀ g : Graph K, (∀ j, ∀ e ∈ g.adj.col j, e.2 ≠ 0) → ∀ u < g.n,
      g.neighbors (u : Int) = .ok ((g.adj.col u).map (fun e => ⟨u, e.1, e.2⟩)) := by
    intro g hz u hu
    unfold Graph.neighbors Graph.degreeUnweighted
    rw [checkVertex_ok (by omega)]
    simp only [Outcome.bind_ok, Int.toNat_natCast, Nat.add_sub_cancel, List.take_length]
    rw [List.filter_eq_self.2]
    intro e he
    simpa using hz u e he
  have save : ∀ g : Graph K, (∀ j, ∀ e ∈ g.adj.col j, e.2 ≠ 0) →
      saveAdjacencylist (doubleFmt K) g = .ok (unlines (adjHeader g.n g.numberOfEdges ++
        (List.range g.n).map (fun u => adjLine (doubleFmt K) u (g.adj.col u)))) := by
    intro g hz
    unfold saveAdjacencylist
    rw [Outcome.mapM'_total (fun u => adjLine (doubleFmt K) u (g.adj.col u))]
    · rfl
    · intro u hu
      rw [hnb g hz u (List.mem_range.1 hu)]
      simp [Function.comp_def]
  have hz : ∀ j, ∀ e ∈ g.adj.col j, e.2 ≠ 0 := fun j e he => (lt_trans epsilon_pos (hpr j e he)).ne'
  have hz' : ∀ j, ∀ e ∈ (g.mapW sixD).adj.col j, e.2 ≠ 0 := by
    intro j e he
    obtain ⟨e', a, rfl⟩ := mapW_mem h he
    exact sixD_ne (hz j e' a)
  rw [save g hz, save _ hz', mapW_edges h]
  have hl : ∀ u, adjLine (doubleFmt K) u ((g.mapW sixD).adj.col u) =
      adjLine (doubleFmt K) u (g.adj.col u) := by
    intro u
    have hc : (g.mapW sixD).adj.col u = (g.adj.col u).mapVal sixD := SprsMat.col_mapVal h.wf sixD u
    rw [hc]
    unfold adjLine Col.mapVal
    rw [List.flatMap_map]
    congr 2
    have : ∀ e : Nat × K, nbrText (doubleFmt K) e.1 (sixD e.2) = nbrText (doubleFmt K) e.1 e.2 := by
      intro e
      unfold nbrText
      show ' ' :: (printNat e.1 ++ ':' :: printDouble (sixD e.2)) =
        ' ' :: (printNat e.1 ++ ':' :: printDouble e.2)
      rw [printDouble_sixD]
    simp only [this]
  simp only [hl]
  rfl

/-- **C78** (adjacency lists).  The same for adjacency lists, self-loops included. -/
theorem C78_adjacencylist (g : Graph K) (hv : g.Valid) (hpr : g.Pruned) (hn : g.n ≤ 2 ^ 31)
    (hm : ∀ j, ∀ e ∈ g.adj.col j, e.2 ≤ dblMax K)
    (he : ∀ j, ∀ e ∈ g.adj.col j, epsilon < sixD e.2) :
    ∃ file g', saveAdjacencylist (doubleFmt K) g = .ok file ∧
      loadAdjacencylist (doubleFmt K) file = .ok g' ∧ g'.Valid ∧ g'.Pruned ∧
      (∀ u v, g'.adj.coeff u v = sixD (g.adj.coeff u v)) ∧
      (∀ u v, g'.adj.coeff u v = 0 ↔ g.adj.coeff u v = 0) := by
  have hv' := mapW_valid hv (sixD_zero (K := K))
  obtain ⟨file, g', h1, h2, h3, h4, h5, _, _⟩ := C24_save_load (doubleFmt K) (g.mapW sixD) hv' (by
    intro j e h
    obtain ⟨e', a, rfl⟩ := mapW_mem hv h
    exact he j e' a) hn (mapW_printable hv hpr hm)
  rw [saveAdjacencylist_mapW hv hpr] at h1
  have hco : ∀ u v, g'.adj.coeff u v = sixD (g.adj.coeff u v) := by
    intro u v
    rw [h5, mapW_coeff hv sixD_zero]
  refine ⟨file, g', h1, h2, h3, h4, hco, ?_⟩
  intro u v
  rw [hco]
  constructor
  · intro h
    by_contra hc
    exact sixD_ne hc h
  · intro h
    rw [h, sixD_zero]

/-! ## Matrices -/

/-- **C78** (data files).  Saving a matrix of finite `double`s of size at least `2^-1021` (or zero)
and loading the file gives the matrix with every entry rounded to six digits, and saving that matrix
writes the same file. -/
theorem C78_matrix (junk : Nat → Nat → K) (m : Mat K) (h : m.Ok) (hr : 1 ≤ m.rows) (hc : 1 ≤ m.cols)
    (hp : ∀ x ∈ m.mem, (x = 0 ∨ (2 : K) ^ (-1021 : Int) ≤ |x|) ∧ |x| ≤ dblMax K) :
    ∃ m' : Mat K, loadMatrix (doubleFmt K) junk (saveMatrix (doubleFmt K) m) = .ok m' ∧
      m'.rows = m.rows ∧ m'.cols = m.cols ∧
      (∀ i < m.rows, ∀ j < m.cols, m'.coeff i j = sixD (m.coeff i j)) ∧
      saveMatrix (doubleFmt K) m' = saveMatrix (doubleFmt K) m := by
  have hco : ∀ i j, (⟨m.rows, m.cols, m.mem.map sixD⟩ : Mat K).coeff i j = sixD (m.coeff i j) := by
    intro i j
    unfold Mat.coeff
    simp only [List.getD_eq_getElem?_getD, List.getElem?_map]
    cases m.mem[i * m.cols + j]? with
    | none => simp [sixD_zero]
    | some x => rfl
  have hsave : saveMatrix (doubleFmt K) ⟨m.rows, m.cols, m.mem.map sixD⟩ = saveMatrix (doubleFmt K) m := by
    unfold saveMatrix
    simp only [hco]
    have : ∀ x : K, (doubleFmt K).print (sixD x) = (doubleFmt K).print x := printDouble_sixD
    simp only [this]
  refine ⟨⟨m.rows, m.cols, m.mem.map sixD⟩, ?_, rfl, rfl, fun i _ j _ => hco i j, hsave⟩
  rw [← hsave]
  apply C57_round_trip (doubleFmt K) junk ⟨m.rows, m.cols, m.mem.map sixD⟩ _ hr hc
  · intro x hx
    obtain ⟨y, hy, rfl⟩ := List.mem_map.1 hx
    exact ⟨sixD_inRange (hp y hy).1 (hp y hy).2, sixD_idem y⟩
  · unfold Mat.Ok
    simp only [List.length_map]
    exact h

end

/-! ## Examples -/

example : printDouble (1 / 3 : ℚ) = "0.333333".toList := by decide +kernel
example : printDouble (16777217 : ℚ) = "1.67772e+07".toList := by decide +kernel
example : printDouble (1999999 / 2 : ℚ) = "1e+06".toList := by decide +kernel
example : printDouble (123456 : ℚ) = "123456".toList := by decide +kernel
example : printDouble (100 : ℚ) = "100".toList := by decide +kernel
example : printDouble (-5 / 2 : ℚ) = "-2.5".toList := by decide +kernel
example : printDouble (1 / 10 ^ 4 : ℚ) = "0.0001".toList := by decide +kernel
example : printDouble (12 / 10 ^ 6 : ℚ) = "1.2e-05".toList := by decide +kernel
example : printDouble (10 ^ 100 : ℚ) = "1e+100".toList := by decide +kernel
example : printDouble (0 : ℚ) = "0".toList := by decide +kernel
example : stodDouble " +1.5e1x".toList = .ok (15 : ℚ) := by decide +kernel
example : stodDouble ".5".toList = .ok (1 / 2 : ℚ) := by decide +kernel
example : stodDouble "x".toList = (.throw .invalidArgument : Outcome ℚ) := by decide +kernel
example : stodDouble "1e400".toList = (.throw .outOfRange : Outcome ℚ) := by decide +kernel

/-- Integers of more than six digits and fractions change. -/
theorem C78_changes : stodDouble (printDouble (16777217 : ℚ)) = .ok (16777200 : ℚ) ∧
    stodDouble (printDouble (flBin 53 (1 / 3 : ℚ))) = .ok (flBin 53 (333333 / 10 ^ 6 : ℚ)) ∧
    (flBin 53 (1 / 3 : ℚ)) ≠ flBin 53 (333333 / 10 ^ 6 : ℚ) := by decide +kernel

/-- The smallest normal `double` is printed as `2.22507e-308`, which `std::stod` rejects. -/
theorem C78_smallest : printDouble ((2 : ℚ) ^ (-1022 : Int)) = "2.22507e-308".toList ∧
    stodDouble (printDouble ((2 : ℚ) ^ (-1022 : Int))) = (.throw .outOfRange : Outcome ℚ) := by decide +kernel

/-- Two vertices and an edge. -/
def linkGraph (w : ℚ) : Graph ℚ := ⟨2, ⟨2, 2, [[(1, w)], [(0, w)]]⟩, false⟩

theorem linkGraph_col (w : ℚ) (j : Nat) : ∀ e ∈ (linkGraph w).adj.col j, e = (1, w) ∧ j = 0 ∨ e = (0, w) ∧ j = 1 := by
  intro e he
  rcases Nat.lt_or_ge j 2 with h | h
  · have : j = 0 ∨ j = 1 := by omega
    rcases this with rfl | rfl
    · left; exact ⟨List.mem_singleton.1 he, rfl⟩
    · right; exact ⟨List.mem_singleton.1 he, rfl⟩
  · have hd : (linkGraph w).adj.col j = [] := by
      unfold SprsMat.col
      rw [List.getD_eq_getElem?_getD, List.getElem?_eq_none]
      · rfl
      · exact h
    rw [hd] at he
    cases he

theorem linkGraph_valid (w : ℚ) : (linkGraph w).Valid := by
  have hc2 : ∀ j, 2 ≤ j → (linkGraph w).adj.col j = [] := by
    intro j h
    unfold SprsMat.col
    rw [List.getD_eq_getElem?_getD, List.getElem?_eq_none]
    · rfl
    · exact h
  have hc0 : (linkGraph w).adj.col 0 = [(1, w)] := rfl
  have hc1 : (linkGraph w).adj.col 1 = [(0, w)] := rfl
  refine ⟨⟨rfl, fun j => ⟨?_, ?_⟩⟩, rfl, rfl, ?_⟩
  · rcases Nat.lt_or_ge j 2 with h | h
    · have : j = 0 ∨ j = 1 := by omega
      rcases this with rfl | rfl
      · rw [hc0]; exact List.pairwise_singleton _ _
      · rw [hc1]; exact List.pairwise_singleton _ _
    · rw [hc2 j h]; exact List.Pairwise.nil
  · intro e he
    rcases linkGraph_col w j e he with ⟨rfl, _⟩ | ⟨rfl, _⟩ <;> simp [linkGraph]
  · have hz : ∀ i j, (linkGraph w).adj.coeff i j =
        if (i = 1 ∧ j = 0) ∨ (i = 0 ∧ j = 1) then w else 0 := by
      intro i j
      unfold SprsMat.coeff
      rcases Nat.lt_or_ge j 2 with h | h
      · have : j = 0 ∨ j = 1 := by omega
        rcases this with rfl | rfl
        · rw [hc0]
          by_cases hi : i = 1
          · subst hi; simp [Col.coeff]
          · rw [if_neg (by omega)]; simp [Col.coeff, Ne.symm hi]
        · rw [hc1]
          by_cases hi : i = 0
          · subst hi; simp [Col.coeff]
          · rw [if_neg (by omega)]; simp [Col.coeff, Ne.symm hi]
      · rw [hc2 j h, if_neg (by omega)]; rfl
    intro i j
    rw [hz, hz]
    by_cases h : (i = 1 ∧ j = 0) ∨ (i = 0 ∧ j = 1)
    · rw [if_pos h, if_pos (by omega)]
    · rw [if_neg h, if_neg (by omega)]

theorem linkGraph_pruned {w : ℚ} (h : epsilon < w) : (linkGraph w).Pruned := by
  intro j e he
  rcases linkGraph_col w j e he with ⟨rfl, _⟩ | ⟨rfl, _⟩ <;> exact h

/-- A graph with an edge of weight `1/3`: the weight comes back as `0.333333`. -/
example : ∃ g', loadEdgelist (doubleFmt ℚ) (saveEdgelist (doubleFmt ℚ) (linkGraph (flBin 53 (1 / 3)))) = .ok g' ∧
    g'.n = 2 ∧ g'.adj.coeff 0 1 = flBin 53 (333333 / 10 ^ 6) ∧
    saveEdgelist (doubleFmt ℚ) g' = saveEdgelist (doubleFmt ℚ) (linkGraph (flBin 53 (1 / 3))) := by
  obtain ⟨g', h1, h2, h3, _, h5⟩ := C78_edgelist_again (linkGraph (flBin 53 (1 / 3))) (linkGraph_valid _)
    (linkGraph_pruned (by decide +kernel)) (by decide)
    (by
      intro j e he
      rcases linkGraph_col _ j e he with ⟨rfl, _⟩ | ⟨rfl, _⟩ <;> decide +kernel)
    (by
      intro j e he
      rcases linkGraph_col _ j e he with ⟨rfl, _⟩ | ⟨rfl, _⟩ <;> decide +kernel)
    (by
      intro u
      by_contra hc
      have := linkGraph_col _ u _ (Col.mem_of_coeff_ne_zero hc)
      rcases this with ⟨h, h'⟩ | ⟨h, h'⟩
      · have := congrArg Prod.fst h
        simp only at this
        omega
      · have := congrArg Prod.fst h
        simp only at this
        omega)
    (Or.inr ⟨0, by decide +kernel⟩)
  refine ⟨g', h1, h2, ?_, h5⟩
  rw [h3]
  decide +kernel

/-- The smallest weight above `EPSILON`: the edge is lost. -/
example : ∃ g', loadEdgelist (doubleFmt ℚ) (saveEdgelist (doubleFmt ℚ)
    (linkGraph (7737125245533628 / 2 ^ 86))) = .ok g' ∧ g'.adj.coeff 0 1 = 0 :=
  C78_edge_lost (linkGraph (7737125245533628 / 2 ^ 86)) (linkGraph_valid _)
    (linkGraph_pruned (by decide +kernel)) (by decide)
    (by
      intro j e he
      rcases linkGraph_col _ j e he with ⟨rfl, _⟩ | ⟨rfl, _⟩ <;> decide +kernel)
    0 1 (by decide +kernel) (by decide +kernel)

end Stag
