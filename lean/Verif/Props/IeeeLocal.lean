import Verif.Ieee
import Verif.Props.RoundingDisk

/-!
# C114: neither underflow nor overflow

The theorems on rounded arithmetic let exponents grow without bound.  Weights that STAG stores exceed `1e-10`.  If they are
`double`s up to `2^100` then degrees, conductances and sweep sets computed with the arithmetic of IEEE 754, with gradual
underflow and whatever a result too large may become, are exactly those of the theorems.
-/

set_option linter.unusedSectionVars false

namespace Stag

set_option exponentiation.threshold 2000

section
variable {K : Type} [Field K] [LinearOrder K] [IsStrictOrderedRing K] [FloorRing K]

/-- A weight that is zero, or a `double` from `2^-34` (about `6e-11`) to `2^100` (about `1e30`). -/
def WFits (w : K) : Prop := w = 0 ∨ IsFloat 53 w ∧ (2 : K) ^ (-34 : Int) ≤ w ∧ w ≤ 2 ^ (100 : Int)

theorem WFits.amount {w : K} (h : WFits w) : Amount (-87) 100 1 w := by
  rcases h with h | ⟨h, h1, h2⟩
  · rw [h]
    exact Amount.zero 1
  · refine ⟨grid_of_float h h1, ?_⟩
    rw [abs_of_nonneg (le_trans (by positivity) h1), Nat.cast_one, one_mul]
    exact h2

theorem sumFl_ieee (ovf : K → K) (xs : List K) (hx : ∀ x ∈ xs, Amount (-87) 100 1 x) : ∀ {k : Nat} {a : K},
    Amount (-87) 100 k a → k + xs.length ≤ 2 ^ 53 →
    sumFl (flIEEE ovf) xs a = sumFl (flBin 53) xs a ∧ Amount (-87) 100 (k + xs.length) (sumFl (flBin 53) xs a) := by
  induction xs with
  | nil => intro k a h _; exact ⟨rfl, h⟩
  | cons x xs ih =>
    intro k a h hk
    rw [List.length_cons] at hk
    have h1 := h.add (hx x (by simp))
    have h2 := ih (fun y hy => hx y (by simp [hy])) (h1.flBin (by omega)) (by omega)
    unfold sumFl
    rw [h1.eq (by omega) (by norm_num) (by norm_num), List.length_cons, show k + (xs.length + 1) = k + 1 + xs.length by omega]
    exact h2

theorem degFl_ieee (ovf : K → K) {g : Graph K} {v : Nat} (hw : ∀ c, WFits (g.adj.coeff v c)) (hn : g.adj.cols < 2 ^ 53) :
    g.degFl (flIEEE ovf) v = g.degFl (flBin 53) v ∧ Amount (-87) 100 (g.adj.cols + 1) (g.degFl (flBin 53) v) := by
  have h := sumFl_ieee ovf ((List.range g.adj.cols).map (fun c => g.adj.coeff v c))
    (fun x hx => by
      obtain ⟨c, _, rfl⟩ := List.mem_map.1 hx
      exact (hw c).amount) (k := 0) (Amount.zero 0) (by simpa using hn.le)
  rw [List.length_map, List.length_range, Nat.zero_add] at h
  have h1 := h.2.add (hw v).amount
  unfold Graph.degFl
  rw [h.1]
  exact ⟨h1.eq (by omega) (by norm_num) (by norm_num) ovf, h1.flBin (by omega)⟩

/-- **C114** (degrees).  `degree` in IEEE arithmetic returns what the theorems on rounded arithmetic assume. -/
theorem C114_degree (ovf : K → K) {g : Graph K} {v : Nat} (hw : ∀ c, WFits (g.adj.coeff v c)) (hn : g.adj.cols < 2 ^ 53) :
    g.degFl (flIEEE ovf) v = g.degFl (flBin 53) v := (degFl_ieee ovf hw hn).1

theorem degSumFl_ieee (ovf : K → K) (v : Int) (es : List (IEdge K)) (hw : ∀ e ∈ es, WFits e.w) : ∀ {k : Nat} {a : K},
    Amount (-87) 100 k a → k + 2 * es.length ≤ 2 ^ 53 →
    es.foldl (fun d e => if e.v2 = v then flIEEE ovf (d + flIEEE ovf (2 * e.w)) else flIEEE ovf (d + e.w)) a =
      es.foldl (fun d e => if e.v2 = v then flBin 53 (d + flBin 53 (2 * e.w)) else flBin 53 (d + e.w)) a ∧
    Amount (-87) 100 (k + 2 * es.length)
      (es.foldl (fun d e => if e.v2 = v then flBin 53 (d + flBin 53 (2 * e.w)) else flBin 53 (d + e.w)) a) := by
  induction es with
  | nil => intro k a h _; exact ⟨rfl, h⟩
  | cons e es ih =>
    intro k a h hk
    rw [List.length_cons] at hk
    have he := (hw e (by simp)).amount
    have h2 := he.two_mul
    have h3 := h.add (h2.flBin (by norm_num))
    have h4 := (h.add he).mono (show k + 1 ≤ k + 2 * 1 by omega)
    rw [List.foldl_cons, List.foldl_cons, h2.eq (by norm_num) (by norm_num) (by norm_num),
      h3.eq (by omega) (by norm_num) (by norm_num), h4.eq (by omega) (by norm_num) (by norm_num)]
    rw [List.length_cons, show k + 2 * (es.length + 1) = k + 2 * 1 + 2 * es.length by omega]
    refine ih (fun e he => hw e (by simp [he])) (k := k + 2 * 1) ?_ (by omega)
    split_ifs
    · exact h3.flBin (by omega)
    · exact h4.flBin (by omega)

/-- **C114** (degrees on disk).  The same for the sum that an `AdjacencyListLocalGraph` forms. -/
theorem C114_disk_degree (ovf : K → K) (v : Int) {es : List (IEdge K)} (hw : ∀ e ∈ es, WFits e.w)
    (hl : es.length ≤ 2 ^ 52) : degSumFl (flIEEE ovf) v es = degSumFl (flBin 53) v es :=
  (degSumFl_ieee ovf v es hw (k := 0) (Amount.zero 0) (by omega)).1

/-! ## Conductance -/

theorem condInnerFl_ieee (ovf : K → K) (cluster : List Int) (es : List (Edge K)) (hw : ∀ e ∈ es, WFits e.w) :
    ∀ {k l : Nat} {d c : K}, Amount (-87) 100 k d → Amount (-87) 100 l c → k + es.length ≤ 2 ^ 53 → l + es.length ≤ 2 ^ 53 →
    condInnerFl (flIEEE ovf) cluster es (d, c) = condInnerFl (flBin 53) cluster es (d, c) ∧
    Amount (-87) 100 (k + es.length) (condInnerFl (flBin 53) cluster es (d, c)).1 ∧
    Amount (-87) 100 (l + es.length) (condInnerFl (flBin 53) cluster es (d, c)).2 := by
  induction es with
  | nil => intro k l d c h h' _ _; exact ⟨rfl, h, h'⟩
  | cons e es ih =>
    intro k l d c h h' hk hl
    rw [List.length_cons] at hk hl
    have he := (hw e (by simp)).amount
    have h1 := h.add he
    have h2 := h'.add he
    have h3 : Amount (-87) 100 (l + 1) (if (e.v2 : Int) ∈ cluster then c else flBin 53 (c + e.w)) := by
      split_ifs
      · exact h'.mono (by omega)
      · exact h2.flBin (by omega)
    have := ih (fun e he => hw e (by simp [he])) (h1.flBin (by omega)) h3 (by omega) (by omega)
    unfold condInnerFl
    rw [h1.eq (by omega) (by norm_num) (by norm_num), h2.eq (by omega) (by norm_num) (by norm_num), List.length_cons,
      show k + (es.length + 1) = k + 1 + es.length by omega, show l + (es.length + 1) = l + 1 + es.length by omega]
    exact this

theorem condLoopFl_ieee (ovf : K → K) (lg : LGraph K) (cluster : List Int) {L : Nat}
    (vs : List Int) (hw : ∀ v ∈ vs, ∀ es, lg.neighbors v = .ok es → es.length ≤ L ∧ ∀ e ∈ es, WFits e.w) :
    ∀ {k : Nat} {c vol : K}, Amount (-87) 100 k c → Amount (-87) 100 k vol → k + vs.length * L ≤ 2 ^ 53 →
    condLoopFl (flIEEE ovf) lg cluster vs (c, vol) = condLoopFl (flBin 53) lg cluster vs (c, vol) ∧
    ∀ r, condLoopFl (flBin 53) lg cluster vs (c, vol) = .ok r →
      Amount (-87) 100 (k + vs.length * L) r.1 ∧ Amount (-87) 100 (k + vs.length * L) r.2 := by
  induction vs with
  | nil =>
    intro k c vol h h' _
    refine ⟨rfl, fun r hr => ?_⟩
    cases hr
    simpa using ⟨h, h'⟩
  | cons v vs ih =>
    intro k c vol h h' hk
    rw [List.length_cons, Nat.succ_mul] at hk ⊢
    unfold condLoopFl
    cases hes : lg.neighbors v with
    | ok es =>
      obtain ⟨hl, hwe⟩ := hw v (by simp) es hes
      obtain ⟨e1, h1, h2⟩ := condInnerFl_ieee ovf cluster es hwe (k := 0) (Amount.zero 0) h (by omega) (by omega)
      have h3 := h'.add (h1.mono (show 0 + es.length ≤ L by omega))
      have := ih (fun v hv => hw v (by simp [hv])) (h2.mono (show k + es.length ≤ k + L by omega)) (h3.flBin (by omega)) (by omega)
      rw [show k + L + vs.length * L = k + (vs.length * L + L) by omega] at this
      simp only [bind, Outcome.bind]
      rw [e1, h3.eq (by omega) (by norm_num) (by norm_num)]
      exact this
    | throw e => exact ⟨rfl, fun r hr => by cases hr⟩
    | ub => exact ⟨rfl, fun r hr => by cases hr⟩

/-- **C114** (conductance).  `conductance` of a cluster of `k` vertices with at most `L` neighbours each, `k L ≤ 2^53`, is
computed in IEEE arithmetic as with unbounded exponents. -/
theorem C114_conductance (ovf : K → K) (lg : LGraph K) (cluster : List Int) {L : Nat}
    (hw : ∀ v ∈ cluster, ∀ es, lg.neighbors v = .ok es → es.length ≤ L ∧ ∀ e ∈ es, WFits e.w) (hl : cluster.length * L ≤ 2 ^ 53) :
    conductanceFl (flIEEE ovf) lg cluster = conductanceFl (flBin 53) lg cluster := by
  have h := condLoopFl_ieee ovf lg cluster cluster hw (k := 0) (Amount.zero 0) (Amount.zero 0) (by omega)
  unfold conductanceFl
  rw [h.1]
  cases hr : condLoopFl (flBin 53) lg cluster cluster (0, 0) with
  | ok r =>
    obtain ⟨h1, h2⟩ := h.2 r hr
    have h3 := range_div (h1.range (by omega)).1 (h1.range (by omega)).2 (h2.range (by omega)).1 (h2.range (by omega)).2
    simp only [bind, Outcome.bind]
    rw [(fits_of_range h3.1 h3.2 (by norm_num) (by norm_num)).eq]
  | throw e => rfl
  | ub => rfl

/-! ## Sweep sets -/

theorem degrees_mem {lg : LGraph K} {P : K → Prop} (h : ∀ (v : Nat) d, lg.degree (v : Int) = .ok d → P d) :
    ∀ {vs : List Nat} {ds : List K}, lg.degrees vs = .ok ds → ∀ d ∈ ds, P d := by
  intro vs
  induction vs with
  | nil =>
    intro ds hd d hm
    cases hd
    simp at hm
  | cons v vs ih =>
    intro ds hd d hm
    unfold LGraph.degrees Outcome.mapM' at hd
    cases h1 : lg.degree (v : Int) with
    | ok d1 =>
      cases h2 : Outcome.mapM' (fun v : Nat => lg.degree (v : Int)) vs with
      | ok ds1 =>
        simp only [bind, Outcome.bind, h1, h2] at hd
        cases hd
        rcases List.mem_cons.1 hm with rfl | hm
        · exact h _ _ h1
        · exact ih h2 d hm
      | throw e => simp only [bind, Outcome.bind, h1, h2] at hd; cases hd
      | ub => simp only [bind, Outcome.bind, h1, h2] at hd; cases hd
    | throw e => simp only [bind, Outcome.bind, h1] at hd; cases hd
    | ub => simp only [bind, Outcome.bind, h1] at hd; cases hd

theorem sweepCutFl_ieee (ovf : K → K) (set : List Nat) (es : List (Edge K)) (hw : ∀ e ∈ es, WFits e.w) :
    ∀ {k : Nat} {c : K}, Amount (-87) 153 k c → k + 2 * es.length ≤ 2 ^ 53 →
    sweepCutFl (flIEEE ovf) set es c = sweepCutFl (flBin 53) set es c ∧
    Amount (-87) 153 (k + 2 * es.length) (sweepCutFl (flBin 53) set es c) := by
  induction es with
  | nil => intro k c h _; exact ⟨rfl, h⟩
  | cons e es ih =>
    intro k c h hk
    rw [List.length_cons] at hk
    have he := ((hw e (by simp)).amount.coarse (le_refl (-87)) (show (100 : Int) ≤ 153 by norm_num)).two_mul
    have h1 := h.sub (he.flBin (by norm_num))
    have h2 : Amount (-87) 153 (k + 2 * 1) (if e.v2 ∈ set then flBin 53 (c - flBin 53 (2 * e.w)) else c) := by
      split_ifs
      · exact h1.flBin (by omega)
      · exact h.mono (by omega)
    have := ih (fun e he => hw e (by simp [he])) h2 (by omega)
    unfold sweepCutFl
    rw [he.eq (by norm_num) (by norm_num) (by norm_num), h1.eq (by omega) (by norm_num) (by norm_num), List.length_cons,
      show k + 2 * (es.length + 1) = k + 2 * 1 + 2 * es.length by omega]
    exact this

theorem sweepLoopFl_ieee (ovf : K → K) (lg : LGraph K) {total : K} {M L : Nat} (hM : M ≤ 2 ^ 52)
    (ht : Amount (-87) 153 M total)
    (hw : ∀ (v : Nat) es, lg.neighbors (v : Int) = .ok es → es.length ≤ L ∧ ∀ e ∈ es, WFits e.w) (vs : List Nat) :
    ∀ {ds : List K} {s : SweepState K} {k : Nat}, (∀ d ∈ ds, Amount (-87) 153 1 d) → Amount (-87) 153 k s.cut →
    Amount (-87) 153 k s.vol → k + vs.length * (1 + 2 * L) ≤ 2 ^ 52 →
    sweepLoopFl (flIEEE ovf) lg total vs ds s = sweepLoopFl (flBin 53) lg total vs ds s := by
  induction vs with
  | nil => intros; rfl
  | cons v vs ih =>
    intro ds s k hd hc hv hk
    rw [List.length_cons, Nat.succ_mul] at hk
    cases ds with
    | nil => rfl
    | cons d ds =>
      have hd1 := hd d (by simp)
      have hvol := hv.add hd1
      have hcut := hc.add hd1
      have hvol' := hvol.flBin (by omega)
      have hcut' := hcut.flBin (by omega)
      have htv := ht.sub hvol'
      unfold sweepLoopFl sweepStepFl
      cases hes : lg.neighbors (v : Int) with
      | ok es =>
        obtain ⟨hl, hwe⟩ := hw v es hes
        have hcut2 := sweepCutFl_ieee ovf (v :: s.set) es hwe hcut' (by omega)
        simp only [bind, Outcome.bind]
        rw [hvol.eq (by omega) (by norm_num) (by norm_num), hcut.eq (by omega) (by norm_num) (by norm_num), hcut2.1,
          htv.eq (by omega) (by norm_num) (by norm_num)]
        have hden : Amount (-87) 153 (M + (k + 1)) (if total = 0 then flBin 53 (s.vol + d)
            else min (flBin 53 (s.vol + d)) (flBin 53 (total - flBin 53 (s.vol + d)))) := by
          split_ifs
          · exact hvol'.mono (by omega)
          · rcases min_choice (flBin 53 (s.vol + d)) (flBin 53 (total - flBin 53 (s.vol + d))) with h | h <;> rw [h]
            · exact hvol'.mono (by omega)
            · exact htv.flBin (by omega)
        have hq := ((hcut2.2.within (by omega)).div (hden.within (by omega))).eq (by norm_num) (by norm_num) ovf
        rw [hq]
        have hc2 := hcut2.2.mono (show k + 1 + 2 * es.length ≤ k + (1 + 2 * L) by omega)
        have hv2 := hvol'.mono (show k + 1 ≤ k + (1 + 2 * L) by omega)
        split_ifs <;> exact ih (fun d hd' => hd d (by simp [hd'])) hc2 hv2 (by omega)
      | throw e => rfl
      | ub => rfl

theorem sweepInnerFl_ieee (ovf : K → K) (lg : LGraph K) {total : K} {M L : Nat} (hM : M ≤ 2 ^ 52)
    (ht : Amount (-87) 153 M total)
    (hw : ∀ (v : Nat) es, lg.neighbors (v : Int) = .ok es → es.length ≤ L ∧ ∀ e ∈ es, WFits e.w)
    (hd : ∀ (v : Nat) d, lg.degree (v : Int) = .ok d → Amount (-87) 153 1 d) (vec : SVec K)
    (hl : vec.indices.length * (1 + 2 * L) ≤ 2 ^ 52) :
    sweepInnerFl (flIEEE ovf) lg vec total = sweepInnerFl (flBin 53) lg vec total := by
  unfold sweepInnerFl
  have hlen : (sortDesc vec.get vec.indices).length = vec.indices.length := (sortDesc_perm _ _).length_eq
  cases hds : lg.degrees (sortDesc vec.get vec.indices) with
  | ok ds =>
    simp only [bind, Outcome.bind, hds]
    rw [sweepLoopFl_ieee ovf lg hM ht hw _ (k := 0) (degrees_mem hd hds) (Amount.zero 0) (Amount.zero 0) (by rw [hlen]; omega)]
  | throw e => simp only [bind, Outcome.bind, hds]
  | ub => simp only [bind, Outcome.bind, hds]

/-- **C114** (sweep sets).  The sweep over `k` vertices with at most `L` neighbours each, `k (1 + 2 L) ≤ 2^52`, finds in IEEE
arithmetic the same set as with unbounded exponents. -/
theorem C114_sweep (ovf : K → K) (lg : LGraph K) {L : Nat}
    (hw : ∀ (v : Nat) es, lg.neighbors (v : Int) = .ok es → es.length ≤ L ∧ ∀ e ∈ es, WFits e.w)
    (hd : ∀ (v : Nat) d, lg.degree (v : Int) = .ok d → Amount (-87) 153 1 d) (vec : SVec K)
    (hl : vec.indices.length * (1 + 2 * L) ≤ 2 ^ 52) :
    sweepSetLocalFl (flIEEE ovf) lg vec = sweepSetLocalFl (flBin 53) lg vec :=
  sweepInnerFl_ieee ovf lg (M := 0) (by norm_num) (Amount.zero 0) hw hd vec hl

/-! ## Approximate PageRank -/

/-- The arguments and the local graph: everything is zero or neither very small nor very large. -/
structure IeeeSetting (lg : LGraph K) (α ε : K) : Prop where
  deg : ∀ (v : Nat) d, lg.degree (v : Int) = .ok d → Amount (-87) 153 1 d
  nbrs : ∀ (v : Nat) es, lg.neighbors (v : Int) = .ok es → es.length ≤ 2 ^ 52 ∧ ∀ e ∈ es, WFits e.w
  dα : α = 0 ∨ IsFloat 53 α ∧ (2 : K) ^ (-100 : Int) ≤ α
  α1 : α ≤ 1
  ε0 : (2 : K) ^ (-100 : Int) ≤ ε
  ε1 : ε ≤ 2 ^ (100 : Int)

variable {lg : LGraph K} {α ε : K}

theorem IeeeSetting.amountα (h : IeeeSetting lg α ε) : Amount (-153) 0 1 α := by
  rcases h.dα with h0 | ⟨h1, h2⟩
  · rw [h0]
    exact Amount.zero 1
  · refine ⟨grid_of_float h1 h2, ?_⟩
    rw [abs_of_nonneg (le_trans (by positivity) h2)]
    simpa using h.α1

theorem IeeeSetting.withinα (h : IeeeSetting lg α ε) : Within (-153) 0 α := h.amountα.within_one

theorem IeeeSetting.oneSub (h : IeeeSetting lg α ε) : Amount (-153) 0 2 (1 - α) := by
  refine Amount.sub (k := 1) (l := 1) ⟨⟨2 ^ 153, ?_⟩, by simp⟩ h.amountα
  push_cast
  rw [zpow_neg]
  norm_num

theorem IeeeSetting.withinβ (h : IeeeSetting lg α ε) : Within (-153) 53 (flBin 53 (1 - α)) :=
  (h.oneSub.flBin (by norm_num)).within (by norm_num)

theorem IeeeSetting.withinε (h : IeeeSetting lg α ε) : Within (-100) 100 ε := by
  have h0 : (0 : K) ≤ ε := le_trans (by positivity) h.ε0
  rw [Within, abs_of_nonneg h0]
  exact ⟨.inr h.ε0, h.ε1⟩

/-- The threshold at a vertex is rounded in the same way. -/
theorem IeeeSetting.threshold (h : IeeeSetting lg α ε) (ovf : K → K) {d : K} (hd : Amount (-87) 153 1 d) :
    flIEEE ovf (ε * d) = flBin 53 (ε * d) :=
  (h.withinε.mul hd.within_one).eq (by norm_num) (by norm_num) ovf

theorem pushNbrsFl_ieee (h : IeeeSetting lg α ε) (ovf : K → K) {d x : K} (hd : Amount (-87) 153 1 d)
    (hx : Within (-187) 104 x) (u : Nat) (es : List (Edge K)) (hw : ∀ e ∈ es, WFits e.w ∧ e.v2 ≠ u) :
    ∀ {r : SVec K} {k : Nat}, r.OK → r.get u = x → (∀ v, Amount (-700) 396 k (r.get v)) → k + es.length ≤ 2 ^ 53 →
    pushNbrsFl (flIEEE ovf) α d u es r = pushNbrsFl (flBin 53) α d u es r ∧
    ∀ r', pushNbrsFl (flBin 53) α d u es r = .ok r' → r'.OK ∧ r'.get u = x ∧ ∀ v, Grid (-700) (r'.get v) := by
  induction es with
  | nil =>
    intro r k hr hru hrv _
    refine ⟨rfl, fun r' hr' => ?_⟩
    cases hr'
    exact ⟨hr, hru, fun v => (hrv v).1⟩
  | cons e es ih =>
    intro r k hr hru hrv hk
    rw [List.length_cons] at hk
    obtain ⟨hwe, hne⟩ := hw e (by simp)
    have hg := SVec.grow_ok hr e.v2
    have hd2 : Within (-87) 154 (d * 2) := by
      have := (hd.two_mul)
      rw [mul_comm]
      refine ⟨this.range (by norm_num) |>.1, this.2.trans (le_of_eq ?_)⟩
      rw [show (154 : Int) = 1 + 153 by norm_num, zpow_add₀ (by norm_num)]
      norm_num
    have h1 := (h.withinβ.mul hwe.amount.within_one).flBin
    have h2 := (h1.mul hx).flBin
    have h3 := h2.div hd2.flBin
    have h4 := (h3.amount).coarse (show (-700 : Int) ≤ _ by norm_num) (show _ ≤ (396 : Int) by norm_num)
    have h5 := (hrv e.v2).add h4
    have hrows : e.v2 < (r.grow e.v2).rows := by rw [SVec.grow_rows]; omega
    unfold pushNbrsFl
    simp only [SVec.grow_get hr, hru]
    rw [h.oneSub.eq (by norm_num) (by norm_num) (by norm_num),
      (h.withinβ.mul hwe.amount.within_one).eq (by norm_num) (by norm_num), (h1.mul hx).eq (by norm_num) (by norm_num),
      hd2.eq (by norm_num) (by norm_num), h3.eq (by norm_num) (by norm_num), h5.eq (by omega) (by norm_num) (by norm_num)]
    obtain ⟨y, hy, hyOK, _, hget, _⟩ := SVec.set_spec hg hrows (flBin 53 (r.get e.v2 +
      flBin 53 (flBin 53 (flBin 53 (flBin 53 (1 - α) * e.w) * x) / flBin 53 (d * 2))))
    simp only [bind, Outcome.bind, hy]
    refine ih (fun e he => hw e (by simp [he])) (k := k + 1) hyOK ?_ (fun v => ?_) (by omega)
    · rw [hget, if_neg (Ne.symm hne), SVec.grow_get hr, hru]
    · rw [hget]
      split_ifs
      · exact h5.flBin (by omega)
      · rw [SVec.grow_get hr]
        exact (hrv v).mono (by omega)

theorem pushFl_ieee (h : IeeeSetting lg α ε) (ovf : K → K) {p r : SVec K} (hp : p.OK) (hr : r.OK) {u : Nat}
    (hpv : ∀ v, Amount (-700) 104 1 (p.get v)) (hrv : ∀ v, Amount (-700) 104 1 (r.get v)) (hx : Within (-187) 104 (r.get u))
    (hnb : ∀ es, lg.neighbors (u : Int) = .ok es → ∀ e ∈ es, e.v2 ≠ u) :
    pushFl (flIEEE ovf) lg α p r u = pushFl (flBin 53) lg α p r u ∧
    ∀ pr, pushFl (flBin 53) lg α p r u = .ok pr → (∀ v, Grid (-700) (pr.1.get v)) ∧ ∀ v, Grid (-700) (pr.2.get v) := by
  have h1 := h.withinα.mul hx
  have h2 := (hpv u).add (h1.amount.coarse (show (-700 : Int) ≤ _ by norm_num) (show _ ≤ (104 : Int) by norm_num))
  have h3 := (h.withinβ.mul hx).flBin
  have h4 : Within (-341) 157 (flBin 53 (flBin 53 (1 - α) * r.get u) / 2) := by
    have h2' : Within 1 1 (2 : K) := ⟨.inr (by norm_num), by norm_num⟩
    have := h3.div h2'
    exact ⟨this.1, this.2.trans (zpow_le_zpow_right₀ one_le_two (by norm_num))⟩
  have hrows : u < (p.grow u).rows := by rw [SVec.grow_rows]; omega
  obtain ⟨y, hy, hyOK, _, hget, _⟩ := SVec.set_spec (SVec.grow_ok hp u) hrows (flBin 53 (p.get u + flBin 53 (α * r.get u)))
  have hyv : ∀ v, Grid (-700) (y.get v) := by
    intro v
    rw [hget]
    split_ifs
    · exact (h2.flBin (by norm_num)).1
    · rw [SVec.grow_get hp]
      exact (hpv v).1
  unfold pushFl
  simp only [SVec.grow_get hp]
  rw [h1.eq (by norm_num) (by norm_num), h2.eq (by norm_num) (by norm_num) (by norm_num)]
  simp only [bind, Outcome.bind, hy]
  cases hd : lg.degree (u : Int) with
  | ok d =>
    cases hes : lg.neighbors (u : Int) with
    | ok es =>
      obtain ⟨hl, hw⟩ := h.nbrs u es hes
      have hn := pushNbrsFl_ieee h ovf (h.deg u d hd) hx u es (fun e he => ⟨hw e he, hnb es hes e he⟩) (k := 1) hr rfl
        (fun v => (hrv v).coarse le_rfl (by norm_num)) (by omega)
      simp only
      rw [hn.1]
      cases hr' : pushNbrsFl (flBin 53) α d u es r with
      | ok r' =>
        obtain ⟨hok, hu, hv⟩ := hn.2 r' hr'
        simp only [hu]
        rw [h.oneSub.eq (by norm_num) (by norm_num) (by norm_num), (h.withinβ.mul hx).eq (by norm_num) (by norm_num),
          h4.eq (by norm_num) (by norm_num)]
        refine ⟨rfl, fun pr hpr => ?_⟩
        by_cases hur : u < r'.rows
        · obtain ⟨z, hz, _, _, hzg, _⟩ := SVec.set_spec hok hur (flBin 53 (flBin 53 (flBin 53 (1 - α) * r.get u) / 2))
          rw [hz] at hpr
          cases hpr
          refine ⟨hyv, fun v => ?_⟩
          simp only
          rw [hzg]
          split_ifs
          · exact h4.amount.1.mono (by norm_num)
          · exact hv v
        · unfold SVec.set at hpr
          rw [if_neg hur] at hpr
          cases hpr
      | throw e => exact ⟨rfl, fun pr hpr => by cases hpr⟩
      | ub => exact ⟨rfl, fun pr hpr => by cases hpr⟩
    | throw e => exact ⟨rfl, fun pr hpr => by cases hpr⟩
    | ub => exact ⟨rfl, fun pr hpr => by cases hpr⟩
  | throw e => exact ⟨rfl, fun pr hpr => by cases hpr⟩
  | ub => exact ⟨rfl, fun pr hpr => by cases hpr⟩

theorem aprInitQueueFl_ieee (h : IeeeSetting lg α ε) (ovf : K → K) (r : SVec K) :
    ∀ (us : List Nat) (ds : List K), (∀ d ∈ ds, Amount (-87) 153 1 d) →
    aprInitQueueFl (flIEEE ovf) ε r us ds = aprInitQueueFl (flBin 53) ε r us ds := by
  intro us
  induction us with
  | nil => intro ds _; rfl
  | cons u us ih =>
    intro ds hd
    cases ds with
    | nil => rfl
    | cons d ds =>
      unfold aprInitQueueFl
      rw [ih ds (fun d hd' => hd d (by simp [hd'])), h.threshold ovf (hd d (by simp))]

theorem aprQueueNbrsFl_ieee (h : IeeeSetting lg α ε) (ovf : K → K) (r : SVec K) :
    ∀ (es : List (Edge K)) (ds : List K), (∀ d ∈ ds, Amount (-87) 153 1 d) → ∀ s : List Nat × List Nat,
    aprQueueNbrsFl (flIEEE ovf) ε r es ds s = aprQueueNbrsFl (flBin 53) ε r es ds s := by
  intro es
  induction es with
  | nil => intro ds _ s; rfl
  | cons e es ih =>
    intro ds hd s
    cases ds with
    | nil => rfl
    | cons d ds =>
      unfold aprQueueNbrsFl
      simp only [ih ds (fun d hd' => hd d (by simp [hd'])), h.threshold ovf (hd d (by simp))]

theorem aprStepFl_ieee (h : IeeeSetting lg α ε) (ovf : K → K) {st : AprState K} (hp : st.p.OK) (hr : st.r.OK) {u : Nat}
    (rest : List Nat)
    (hpv : ∀ v, Amount (-700) 104 1 (st.p.get v)) (hrv : ∀ v, Amount (-700) 104 1 (st.r.get v))
    (hx : Within (-187) 104 (st.r.get u)) (hnb : ∀ es, lg.neighbors (u : Int) = .ok es → ∀ e ∈ es, e.v2 ≠ u) :
    aprStepFl (flIEEE ovf) lg α ε st u rest = aprStepFl (flBin 53) lg α ε st u rest ∧
    ∀ st', aprStepFl (flBin 53) lg α ε st u rest = .ok st' →
      (∀ v, Grid (-700) (st'.p.get v)) ∧ ∀ v, Grid (-700) (st'.r.get v) := by
  have h1 := pushFl_ieee h ovf hp hr hpv hrv hx hnb
  unfold aprStepFl
  rw [h1.1]
  cases hpr : pushFl (flBin 53) lg α st.p st.r u with
  | ok pr =>
    have hg := h1.2 pr hpr
    simp only [bind, Outcome.bind]
    cases hd : lg.degree (u : Int) with
    | ok d =>
      simp only [h.threshold ovf (h.deg u d hd)]
      cases hns : lg.neighborsUnweighted (u : Int) with
      | ok ns =>
        simp only
        cases hnd : lg.degrees ns with
        | ok nd =>
          simp only
          cases hes : lg.neighbors (u : Int) with
          | ok es =>
            simp only [aprQueueNbrsFl_ieee h ovf _ es nd (degrees_mem h.deg hnd)]
            refine ⟨trivial, fun st' hst => ?_⟩
            split at hst
            · cases hst
              exact hg
            · cases hst
            · cases hst
          | throw e => exact ⟨rfl, fun pr hpr => by cases hpr⟩
          | ub => exact ⟨rfl, fun pr hpr => by cases hpr⟩
        | throw e => exact ⟨rfl, fun pr hpr => by cases hpr⟩
        | ub => exact ⟨rfl, fun pr hpr => by cases hpr⟩
      | throw e => exact ⟨rfl, fun pr hpr => by cases hpr⟩
      | ub => exact ⟨rfl, fun pr hpr => by cases hpr⟩
    | throw e => exact ⟨rfl, fun pr hpr => by cases hpr⟩
    | ub => exact ⟨rfl, fun pr hpr => by cases hpr⟩
  | throw e => exact ⟨rfl, fun pr hpr => by cases hpr⟩
  | ub => exact ⟨rfl, fun pr hpr => by cases hpr⟩

/-! ### Executions -/

variable {k : Nat} {s : WGraph K} {D : Nat → K} {seed : SVec K}

theorem get_le_mass {s : WGraph K} {x : SVec K} (hx : x.OK) (hr : x.rows ≤ s.n) (h0 : ∀ v, 0 ≤ x.get v) (v : Nat) :
    x.get v ≤ s.mass x.get := by
  by_cases hv : v < s.n
  · exact Finset.single_le_sum (f := x.get) (fun u _ => h0 u) (Finset.mem_range.2 hv)
  · have : x.get v = 0 := by
      by_contra hne
      have := hx.index_lt (SVec.mem_indices_of_get hne)
      omega
    rw [this]
    exact mass_nonneg h0

/-- The entries stay small. -/
theorem entries_le (hs : FlSetting (KMeans.dbl K) k lg s D α ε seed) (hm : s.mass seed.get ≤ 2 ^ (100 : Int))
    {us : List Nat} {st : AprState K} (hi : FlInv (KMeans.dbl K) k s D α ε seed us st)
    (hN : (6 + k) * us.length ≤ 2 ^ 52) (v : Nat) : |st.p.get v| ≤ 2 ^ (104 : Int) ∧ |st.r.get v| ≤ 2 ^ (104 : Int) := by
  have h1 := get_le_mass hi.pOK hi.pRows hi.pNonneg v
  have h2 := get_le_mass hi.rOK hi.rRows hi.rNonneg v
  have h3 : 0 ≤ s.mass st.p.get := mass_nonneg hi.pNonneg
  have h4 : 0 ≤ s.mass st.r.get := mass_nonneg hi.rNonneg
  have hmass := hi.mass
  rw [← pow_mul] at hmass
  have hmu : (((6 + k) * us.length : Nat) : K) * (KMeans.dbl K).u ≤ 1 / 2 := by
    have : (((6 + k) * us.length : Nat) : K) ≤ ((2 ^ 52 : Nat) : K) := by exact_mod_cast hN
    rw [KMeans.dbl_u]
    refine (mul_le_mul_of_nonneg_right this (by positivity)).trans ?_
    norm_num
  have hg : (KMeans.dbl K).g ^ ((6 + k) * us.length) ≤ 2 := by
    have := (KMeans.dbl K).g_pow_le (m := (6 + k) * us.length) (by linarith)
    exact this.trans (by linarith)
  have h5 : s.mass st.p.get + s.mass st.r.get ≤ 2 * 2 ^ (100 : Int) :=
    hmass.trans (mul_le_mul hg hm (mass_nonneg hs.seedNonneg) (by norm_num))
  have h6 : (2 : K) * 2 ^ (100 : Int) ≤ 2 ^ (104 : Int) := by norm_num
  rw [abs_of_nonneg (hi.pNonneg v), abs_of_nonneg (hi.rNonneg v)]
  constructor <;> linarith

theorem queued_within (hs : FlSetting (KMeans.dbl K) k lg s D α ε seed) (h : IeeeSetting lg α ε)
    {us : List Nat} {st : AprState K} (hi : FlInv (KMeans.dbl K) k s D α ε seed us st) {u : Nat} (hu : u ∈ st.queue)
    (hb : |st.r.get u| ≤ 2 ^ (104 : Int)) : Within (-187) 104 (st.r.get u) := by
  refine ⟨.inr ?_, hb⟩
  obtain ⟨hun, hud, hur⟩ := hi.queued u hu
  have hDpos : 0 < D u := (hs.near u hun).pos hud
  have hd := (h.deg u (D u) (hs.ans.deg u hun)).within_one
  have h1 := (h.withinε.mul hd).flBin
  have h2 : flBin 53 (ε * D u) ≠ 0 := by
    intro h0
    have hpos : 0 < ε * D u := mul_pos hs.ε0 hDpos
    rcases (h.withinε.mul hd).1 with h3 | h3
    · exact absurd h3 hpos.ne'
    · rw [abs_of_pos hpos] at h3
      have := flBin_mono (p := 53) (by norm_num) h3
      rw [flBin_zpow (by norm_num), h0] at this
      have hp : (0 : K) < 2 ^ (-100 + -87 : Int) := by positivity
      linarith
  have h3 := h1.1.resolve_left h2
  have h4 : 0 ≤ flBin 53 (ε * D u) := by
    have := flBin_mono (p := 53) (by norm_num) (mul_pos hs.ε0 hDpos).le
    rwa [flBin_zero] at this
  rw [abs_of_nonneg h4] at h3
  rw [abs_of_nonneg (hi.rNonneg u)]
  exact h3.trans hur

/-- In every state all numbers are multiples of `2^-700`, and not too large. -/
theorem trace_amount (hs : FlSetting (KMeans.dbl K) k lg s D α ε seed) (h : IeeeSetting lg α ε)
    (hm : s.mass seed.get ≤ 2 ^ (100 : Int)) (hseed : ∀ v, Grid (-700) (seed.get v))
    {us : List Nat} {st : AprState K} (ht : FlTrace (flBin 53) lg α ε seed us st) (hN : (6 + k) * us.length ≤ 2 ^ 52) :
    (∀ v, Amount (-700) 104 1 (st.p.get v)) ∧ ∀ v, Amount (-700) 104 1 (st.r.get v) := by
  suffices hgrid : (∀ v, Grid (-700) (st.p.get v)) ∧ ∀ v, Grid (-700) (st.r.get v) by
    have hb := entries_le hs hm (FlTrace.inv hs ht) hN
    constructor <;> intro v
    · exact ⟨hgrid.1 v, by rw [Nat.cast_one, one_mul]; exact (hb v).1⟩
    · exact ⟨hgrid.2 v, by rw [Nat.cast_one, one_mul]; exact (hb v).2⟩
  induction ht with
  | init h0 =>
    rename_i st
    unfold aprInitFl at h0
    split_ifs at h0
    cases hds : lg.degrees seed.indices with
    | ok ds =>
      simp only [bind, Outcome.bind, hds] at h0
      cases hq : aprInitQueueFl (flBin 53) ε seed seed.indices ds with
      | ok q =>
        simp only [hq] at h0
        cases h0
        exact ⟨fun v => Grid.zero _, hseed⟩
      | throw e => simp only [hq] at h0; cases h0
      | ub => simp only [hq] at h0; cases h0
    | throw e => simp only [bind, Outcome.bind, hds] at h0; cases h0
    | ub => simp only [bind, Outcome.bind, hds] at h0; cases h0
  | step ht hq hstep ih =>
    rename_i us st st' u rest
    have hN' : (6 + k) * us.length ≤ 2 ^ 52 := by
      rw [List.length_append, List.length_singleton, Nat.mul_add] at hN
      omega
    have hi := FlTrace.inv hs ht
    have hb := entries_le hs hm hi hN'
    have hg := ih hN'
    have hu : u ∈ st.queue := by rw [hq]; simp
    refine (aprStepFl_ieee h id hi.pOK hi.rOK rest (fun v => ⟨hg.1 v, ?_⟩) (fun v => ⟨hg.2 v, ?_⟩)
      (queued_within hs h hi hu (hb u).2) (fun es hes e he => ?_)).2 st' hstep
    · rw [Nat.cast_one, one_mul]
      exact (hb v).1
    · rw [Nat.cast_one, one_mul]
      exact (hb v).2
    · obtain ⟨es', hes', _, hnb⟩ := hs.ans.nbrs u (hi.queued u hu).1
      rw [hes] at hes'
      cases hes'
      have := (hnb.2 e.v2 e.w).1 (List.mem_map.2 ⟨e, he, rfl⟩)
      intro heq
      rw [heq] at this
      exact this.2.2 (this.2.1.symm.trans (hs.noLoops u))

theorem aprLoopFl_ieee (hs : FlSetting (KMeans.dbl K) k lg s D α ε seed) (h : IeeeSetting lg α ε) (ovf : K → K)
    (hm : s.mass seed.get ≤ 2 ^ (100 : Int)) (hseed : ∀ v, Grid (-700) (seed.get v))
    (hB : ∀ us st, FlTrace (flBin 53) lg α ε seed us st → (6 + k) * us.length ≤ 2 ^ 52) (fuel : Nat) :
    ∀ {us : List Nat} {st : AprState K}, FlTrace (flBin 53) lg α ε seed us st →
    aprLoopFl (flIEEE ovf) lg α ε fuel st = aprLoopFl (flBin 53) lg α ε fuel st := by
  induction fuel with
  | zero =>
    intro us st _
    obtain ⟨p, r, q, m⟩ := st
    cases q <;> simp only [aprLoopFl]
  | succ fuel ih =>
    intro us st ht
    obtain ⟨p, r, q, m⟩ := st
    cases q with
    | nil => simp only [aprLoopFl]
    | cons u rest =>
      have hi := FlTrace.inv hs ht
      have hN := hB us _ ht
      have hb := entries_le hs hm hi hN
      have hg := trace_amount hs h hm hseed ht hN
      have hu : u ∈ (⟨p, r, u :: rest, m⟩ : AprState K).queue := by simp
      have hstep := (aprStepFl_ieee h ovf (u := u) hi.pOK hi.rOK rest hg.1 hg.2
        (queued_within hs h hi hu (hb u).2) (fun es hes e he => by
          obtain ⟨es', hes', _, hnb⟩ := hs.ans.nbrs u (hi.queued u hu).1
          rw [hes] at hes'
          cases hes'
          have := (hnb.2 e.v2 e.w).1 (List.mem_map.2 ⟨e, he, rfl⟩)
          intro heq
          rw [heq] at this
          exact this.2.2 (this.2.1.symm.trans (hs.noLoops u)))).1
      simp only [aprLoopFl]
      rw [hstep]
      cases hst : aprStepFl (flBin 53) lg α ε ⟨p, r, u :: rest, m⟩ u rest with
      | ok st' => exact ih (FlTrace.step ht rfl hst)
      | throw e => rfl
      | ub => rfl

/-- **C114** (approximate PageRank).  If every execution makes `N` pushes at most, `(6 + k) N ≤ 2^52`, then
`approximate_pagerank` computes in IEEE arithmetic exactly what it computes with unbounded exponents. -/
theorem C114_approximate_pagerank (hs : FlSetting (KMeans.dbl K) k lg s D α ε seed) (h : IeeeSetting lg α ε) (ovf : K → K)
    (hm : s.mass seed.get ≤ 2 ^ (100 : Int)) (hseed : ∀ v, Grid (-700) (seed.get v))
    (hB : ∀ us st, FlTrace (flBin 53) lg α ε seed us st → (6 + k) * us.length ≤ 2 ^ 52) (fuel : Nat) :
    approximatePagerankFl (flIEEE ovf) lg fuel seed α ε = approximatePagerankFl (flBin 53) lg fuel seed α ε := by
  have hinit : aprInitFl (flIEEE ovf) lg seed α ε = aprInitFl (flBin 53) lg seed α ε := by
    unfold aprInitFl
    cases hds : lg.degrees seed.indices with
    | ok ds =>
      simp only [bind, Outcome.bind, hds]
      rw [aprInitQueueFl_ieee h ovf seed _ ds (degrees_mem h.deg hds)]
    | throw e => simp only [bind, Outcome.bind, hds]
    | ub => simp only [bind, Outcome.bind, hds]
  unfold approximatePagerankFl
  rw [hinit]
  cases h0 : aprInitFl (flBin 53) lg seed α ε with
  | ok st => exact aprLoopFl_ieee hs h ovf hm hseed hB fuel (FlTrace.init h0)
  | throw e => rfl
  | ub => rfl

/-! ## Local clustering -/

theorem normaliseFl_ieee (ovf : K → K) : ∀ (c : Col K) (ds : List K), (∀ e ∈ c, Within (-700) 104 e.2) →
    (∀ d ∈ ds, Amount (-87) 153 1 d) → normaliseFl (flIEEE ovf) c ds = normaliseFl (flBin 53) c ds ∧
    ∀ c', normaliseFl (flBin 53) c ds = .ok c' → c'.length = c.length := by
  intro c
  induction c with
  | nil =>
    intro ds _ _
    refine ⟨rfl, fun c' h => ?_⟩
    unfold normaliseFl at h
    cases h
    rfl
  | cons e c ih =>
    intro ds hc hd
    cases ds with
    | nil => exact ⟨rfl, fun c' h => by unfold normaliseFl at h; cases h⟩
    | cons d ds =>
      have h1 := ih ds (fun e he => hc e (by simp [he])) (fun d hd' => hd d (by simp [hd']))
      have h2 := ((hc e (by simp)).div (hd d (by simp)).within_one).eq (by norm_num) (by norm_num) ovf
      unfold normaliseFl
      rw [h1.1, h2]
      refine ⟨rfl, fun c' h => ?_⟩
      cases hn : normaliseFl (flBin 53) c ds with
      | ok c1 =>
        simp only [bind, Outcome.bind, hn] at h
        cases h
        simp [h1.2 c1 hn]
      | throw e => simp only [bind, Outcome.bind, hn] at h; cases h
      | ub => simp only [bind, Outcome.bind, hn] at h; cases h

theorem sweepNormalisedFl_ieee (h : IeeeSetting lg α ε) (ovf : K → K) {L : Nat}
    (hL : ∀ (v : Nat) es, lg.neighbors (v : Int) = .ok es → es.length ≤ L) {p : SVec K} (hp : p.OK)
    (hpv : ∀ v, Amount (-700) 104 1 (p.get v)) (hl : p.indices.length * (1 + 2 * L) ≤ 2 ^ 52) :
    sweepNormalisedFl (flIEEE ovf) lg p = sweepNormalisedFl (flBin 53) lg p := by
  unfold sweepNormalisedFl
  cases hds : lg.degrees p.indices with
  | ok ds =>
    have hn := normaliseFl_ieee ovf p.col ds (fun e he => by
      have := (hpv e.1).within_one
      unfold SVec.get at this
      rwa [Col.coeff_eq_of_mem hp.sorted (show (e.1, e.2) ∈ p.col from he)] at this) (degrees_mem h.deg hds)
    simp only [bind, Outcome.bind]
    rw [hn.1]
    cases hc : normaliseFl (flBin 53) p.col ds with
    | ok c =>
      refine C114_sweep ovf lg (L := L) (fun v es hes => ⟨hL v es hes, (h.nbrs v es hes).2⟩) h.deg _ ?_
      have := hn.2 c hc
      unfold SVec.indices at hl ⊢
      rw [List.length_map] at hl ⊢
      rw [this]
      exact hl
    | throw e => rfl
    | ub => rfl
  | throw e => rfl
  | ub => rfl

/-- **C114** (`local_cluster_acl`).  Let every execution of `approximate_pagerank` make `N` pushes at most and no vertex have
more than `L` neighbours, `(6 + k + 2 L) N ≤ 2^52`.  Then `local_cluster_acl` returns in IEEE arithmetic exactly the set that
it returns with unbounded exponents. -/
theorem C114_local_cluster_acl {v : Nat} (hs : FlSetting (KMeans.dbl K) k lg s D α ε (seedVec v)) (h : IeeeSetting lg α ε)
    (ovf : K → K) {L : Nat} (hL : ∀ (v : Nat) es, lg.neighbors (v : Int) = .ok es → es.length ≤ L)
    (hB : ∀ us st, FlTrace (flBin 53) lg α ε (seedVec v) us st → (6 + k + 2 * L) * us.length ≤ 2 ^ 52) (fuel : Nat) :
    localClusterAclFl (flIEEE ovf) lg fuel v α ε = localClusterAclFl (flBin 53) lg fuel v α ε := by
  have hvn : v < s.n := hs.rows
  have hm : s.mass (seedVec v : SVec K).get ≤ 2 ^ (100 : Int) := by
    rw [mass_seedVec hvn]
    norm_num
  have hseed : ∀ u, Grid (-700) ((seedVec v : SVec K).get u) := by
    intro u
    rw [seedVec_get]
    split_ifs
    · refine ⟨2 ^ 700, ?_⟩
      rw [Int.cast_pow, Int.cast_ofNat, ← zpow_natCast, ← zpow_add₀ (by norm_num)]
      norm_num
    · exact Grid.zero _
  have hB' : ∀ us st, FlTrace (flBin 53) lg α ε (seedVec v) us st → (6 + k) * us.length ≤ 2 ^ 52 := by
    intro us st ht
    exact (Nat.mul_le_mul_right _ (by omega)).trans (hB us st ht)
  have hapr := C114_approximate_pagerank hs h ovf hm hseed hB' fuel
  have he : (⟨(v : Int).toNat + 1, [((v : Int).toNat, 1)]⟩ : SVec K) = seedVec v := by
    rw [Int.toNat_natCast]
    rfl
  unfold localClusterAclFl
  rw [he, hapr]
  rcases aprFl_trace hs fuel with ⟨us, st, ht, hq, hr⟩ | ⟨us, st, ht, hlen, hq, hr⟩
  · change approximatePagerankFl (flBin 53) lg fuel (seedVec v) α ε = _ at hr
    have ht' : FlTrace (flBin 53) lg α ε (seedVec v) us st := ht
    have hi := FlTrace.inv hs ht
    have hg := trace_amount hs h hm hseed ht' (hB' us st ht')
    have hlen : st.p.indices.length ≤ us.length := by
      have hnd : st.p.indices.Nodup := by
        unfold SVec.indices List.Nodup
        rw [List.pairwise_map]
        exact hi.pOK.sorted.imp (fun h => ne_of_lt h)
      exact (hnd.subperm (fun u hu => (hi.support u).1 hu)).length_le
    have hsw := sweepNormalisedFl_ieee h ovf hL hi.pOK hg.1 (by
      refine le_trans ?_ (hB us st ht')
      rw [Nat.mul_comm]
      exact Nat.mul_le_mul (by omega) hlen)
    rw [hr]
    simp only [hsw]
  · change approximatePagerankFl (flBin 53) lg fuel (seedVec v) α ε = _ at hr
    rw [hr]

theorem normaliseFl_length (fl : K → K) : ∀ (c : Col K) (ds : List K) (c' : Col K), normaliseFl fl c ds = .ok c' →
    c'.length = c.length := by
  intro c
  induction c with
  | nil =>
    intro ds c' h
    unfold normaliseFl at h
    cases h
    rfl
  | cons e c ih =>
    intro ds c' h
    cases ds with
    | nil => unfold normaliseFl at h; cases h
    | cons d ds =>
      unfold normaliseFl at h
      cases hn : normaliseFl fl c ds with
      | ok c1 =>
        simp only [bind, Outcome.bind, hn] at h
        cases h
        simp [ih ds c1 hn]
      | throw e => simp only [bind, Outcome.bind, hn] at h; cases h
      | ub => simp only [bind, Outcome.bind, hn] at h; cases h

theorem sweepNormalisedFl_length {fl : K → K} {p : SVec K} {C : List Nat} (h : sweepNormalisedFl fl lg p = .ok C) :
    C.length ≤ p.indices.length := by
  unfold sweepNormalisedFl at h
  cases hds : lg.degrees p.indices with
  | ok ds =>
    simp only [bind, Outcome.bind, hds] at h
    cases hc : normaliseFl fl p.col ds with
    | ok c =>
      simp only [hc] at h
      unfold sweepSetLocalFl sweepInnerFl at h
      have hl := normaliseFl_length fl _ _ _ hc
      generalize hvec : (⟨p.rows, c⟩ : SVec K) = vec at h
      have hlen : (sortDesc vec.get vec.indices).length = p.indices.length := by
        rw [(sortDesc_perm _ _).length_eq, ← hvec]
        unfold SVec.indices
        rw [List.length_map, List.length_map, hl]
      cases hd2 : lg.degrees (sortDesc vec.get vec.indices) with
      | ok ds2 =>
        simp only [bind, Outcome.bind, hd2] at h
        cases hlp : sweepLoopFl fl lg 0 (sortDesc vec.get vec.indices) ds2 ⟨[], 0, 0, 2, 0, 0⟩ with
        | ok st =>
          simp only [hlp] at h
          cases h
          rw [← hlen]
          exact List.length_take_le' _ _
        | throw e => simp only [hlp] at h; cases h
        | ub => simp only [hlp] at h; cases h
      | throw e => simp only [bind, Outcome.bind, hd2] at h; cases h
      | ub => simp only [bind, Outcome.bind, hd2] at h; cases h
    | throw e => simp only [hc] at h; cases h
    | ub => simp only [hc] at h; cases h
  | throw e => simp only [bind, Outcome.bind, hds] at h; cases h
  | ub => simp only [bind, Outcome.bind, hds] at h; cases h

/-- A cluster is no larger than the number of pushes. -/
theorem acl_length {v : Nat} (hs : FlSetting (KMeans.dbl K) k lg s D α ε (seedVec v)) {fuel : Nat} {C : List Nat}
    (hC : localClusterAclFl (flBin 53) lg fuel v α ε = some (.ok C)) :
    ∃ us st, FlTrace (flBin 53) lg α ε (seedVec v) us st ∧ C.length ≤ us.length := by
  have he : (⟨(v : Int).toNat + 1, [((v : Int).toNat, 1)]⟩ : SVec K) = seedVec v := by
    rw [Int.toNat_natCast]
    rfl
  unfold localClusterAclFl at hC
  rw [he] at hC
  split_ifs at hC with c1 c2 c3
  · cases hC
  · cases hC
  · cases hC
  rcases aprFl_trace hs fuel with ⟨us, st, ht, hq, hr⟩ | ⟨us, st, ht, hlen, hq, hr⟩
  · change approximatePagerankFl (flBin 53) lg fuel (seedVec v) α ε = _ at hr
    rw [hr] at hC
    have hC' : sweepNormalisedFl (flBin 53) lg st.p = .ok C := by simpa using hC
    have hi := FlTrace.inv hs ht
    refine ⟨us, st, ht, (sweepNormalisedFl_length hC').trans ?_⟩
    have hnd : st.p.indices.Nodup := by
      unfold SVec.indices List.Nodup
      rw [List.pairwise_map]
      exact hi.pOK.sorted.imp (fun h => ne_of_lt h)
    exact (hnd.subperm (fun u hu => (hi.support u).1 hu)).length_le
  · change approximatePagerankFl (flBin 53) lg fuel (seedVec v) α ε = _ at hr
    rw [hr] at hC
    cases hC

/-- The number of pushes. -/
theorem pushes_le {R : Rounding K} (h : FlSetting R k lg s D α ε seed) (hα : 0 < α)
    (hp : PrecisionOK R k s α ε (s.mass seed.get)) {δ : K} (hδ : 0 < δ)
    (hmin : ∀ v, v < s.n → 0 < s.deg v → δ ≤ s.deg v) {M : Nat}
    (hM : 2 * (1 / (1 - R.u)) ^ (1 + k) * s.mass seed.get ≤ M * (α * ε * δ))
    {us : List Nat} {st : AprState K} (ht : FlTrace R.fl lg α ε seed us st) : us.length ≤ M := by
  have hc : 0 < α * ε * δ := mul_pos (mul_pos hα h.ε0) hδ
  have h1 := C76_work h hp ht
  have h2 := mul_le_mul_of_nonneg_left (count_le_of_work us (fun u hu =>
    hmin u ((ht.inv h).pushed u hu).1 ((ht.inv h).pushed u hu).2)) (mul_pos hα h.ε0).le
  have e : (us.length : K) * (α * ε * δ) = α * ε * ((us.length : K) * δ) := by ring
  have h3 : (us.length : K) * (α * ε * δ) ≤ M * (α * ε * δ) := by
    rw [e]
    exact h2.trans (h1.trans hM)
  exact_mod_cast le_of_mul_le_mul_right h3 hc

/-! ### Graphs in memory -/

theorem asLocalFl_ieee (ovf : K → K) {g : Graph K} (hw : ∀ u v, WFits (g.adj.coeff u v)) (hn : g.adj.cols < 2 ^ 53) :
    g.asLocalFl (flIEEE ovf) = g.asLocalFl (flBin 53) := by
  have : g.degFl (flIEEE ovf) = g.degFl (flBin 53) := funext fun v => C114_degree ovf (hw v) hn
  unfold Graph.asLocalFl
  rw [this]

theorem asLocalFl_query {fl : K → K} {g : Graph K} {v : Int} {es : List (Edge K)}
    (h : (g.asLocalFl fl).neighbors v = .ok es) : ∃ u : Nat, v = u ∧ u < g.n := by
  by_cases hb : (g.n : Int) ≤ v ∨ v < 0
  · exfalso
    change g.neighbors v = _ at h
    unfold Graph.neighbors Graph.checkVertex at h
    rcases hb with hb | hb
    · rw [if_pos hb] at h
      cases h
    · rw [if_neg (by omega), if_pos hb] at h
      cases h
  · exact ⟨v.toNat, by omega, by omega⟩

theorem asLocalFl_setting {g : Graph K} (hv : g.Valid) (hz : g.adj.NoZeros) (hw : ∀ u v, WFits (g.adj.coeff u v))
    (hn : g.n < 2 ^ 52) {α ε : K} (dα : α = 0 ∨ IsFloat 53 α ∧ (2 : K) ^ (-100 : Int) ≤ α) (α1 : α ≤ 1)
    (ε0 : (2 : K) ^ (-100 : Int) ≤ ε) (ε1 : ε ≤ 2 ^ (100 : Int)) : IeeeSetting (g.asLocalFl (flBin 53)) α ε := by
  have ha : (g.asLocalFl (flBin 53)).AnswersFl g.abs (g.degFl (flBin 53)) := Graph.asLocalFl_answers hv hz
  refine ⟨fun v d hd => ?_, fun v es hes => ?_, dα, α1, ε0, ε1⟩
  · have hb : d = g.degFl (flBin 53) v := by
      change (do
        g.checkVertex (v : Int)
        Outcome.ok (g.degFl (flBin 53) (v : Int).toNat)) = Outcome.ok d at hd
      rw [Int.toNat_natCast] at hd
      cases hc : g.checkVertex (v : Int) with
      | ok _ =>
        simp only [bind, Outcome.bind, hc] at hd
        cases hd
        rfl
      | throw e => simp only [bind, Outcome.bind, hc] at hd; cases hd
      | ub => simp only [bind, Outcome.bind, hc] at hd; cases hd
    rw [hb]
    have := (degFl_ieee id (hw v) (by rw [hv.cols]; omega)).2
    refine ⟨this.1, ?_⟩
    rw [Nat.cast_one, one_mul]
    exact this.le (by rw [hv.cols]; omega)
  · obtain ⟨u, hvu, hu⟩ := asLocalFl_query hes
    obtain rfl : v = u := by omega
    obtain ⟨es', he', _, hnb⟩ := ha.nbrs v hu
    rw [hes] at he'
    cases he'
    refine ⟨?_, fun e he => ?_⟩
    · have h1 : ((es.map (fun e => (e.v2, e.w))).map Prod.fst).toFinset ⊆ Finset.range g.n := by
        intro x hx
        obtain ⟨y, hy, rfl⟩ := List.mem_map.1 (List.mem_toFinset.1 hx)
        exact Finset.mem_range.2 ((hnb.2 y.1 y.2).1 hy).1
      have h2 := Finset.card_le_card h1
      rw [List.toFinset_card_of_nodup hnb.1, Finset.card_range] at h2
      simp only [List.length_map] at h2
      omega
    · have := (hnb.2 e.v2 e.w).1 (List.mem_map.2 ⟨e, he, rfl⟩)
      rw [← this.2.1]
      exact hw v e.v2

end

section

open Finset

/-- The local algorithms round as with unbounded exponents. -/
theorem localCluster_ieee (ovf : ℝ → ℝ) {lg : LGraph ℝ} {s : WGraph ℝ} {D : Nat → ℝ} {L : Nat} {δ : ℝ}
    (ha : lg.AnswersFl s D) (hD : ∀ v, v < s.n → (KMeans.dbl ℝ).Near (L + 1) (D v) (s.deg v))
    (hw0 : ∀ u v, 0 ≤ s.w u v) (hl : ∀ v, s.w v v = 0) (hδ : 0 < δ)
    (hmin : ∀ v, v < s.n → 0 < s.deg v → δ ≤ s.deg v)
    (hset : ∀ α ε : ℝ, α = 0 ∨ IsFloat 53 α ∧ (2 : ℝ) ^ (-100 : Int) ≤ α → α ≤ 1 → (2 : ℝ) ^ (-100 : Int) ≤ ε →
      ε ≤ 2 ^ (100 : Int) → IeeeSetting lg α ε)
    (hLes : ∀ (v : Nat) es, lg.neighbors (v : Int) = .ok es → es.length ≤ L)
    {v : Nat} (hvn : v < s.n) {target : ℝ} {M : Nat} (htp : (2 : ℝ) ^ (-34 : Int) ≤ target) (htar2 : target ≤ 2 ^ 90)
    (hM : 201 * target ≤ M * δ) (hsize : M * (7 + 3 * L) + L + 2 ≤ 4 * 10 ^ 11) :
    (∀ fuel, localClusterFl (flIEEE ovf) lg fuel v target = localClusterFl (flBin 53) lg fuel v target) ∧
    ∀ fuel C, localClusterFl (flBin 53) lg fuel v target = some (.ok C) →
      conductanceFl (flIEEE ovf) lg (C.map (fun u : Nat => (u : Int))) =
        conductanceFl (flBin 53) lg (C.map (fun u : Nat => (u : Int))) := by
  have htp0 : 0 < target := lt_of_lt_of_le (by positivity) htp
  -- the arguments
  have hα1 : flBin 53 (1 / 100 : ℝ) ≤ 1 := by
    have := flBin_mono (K := ℝ) (p := 53) (by norm_num) (show (1 / 100 : ℝ) ≤ 2 ^ (0 : Int) by norm_num)
    rw [flBin_zpow (by norm_num)] at this
    simpa using this
  have hα0 : (2 : ℝ) ^ (-7 : Int) ≤ flBin 53 (1 / 100 : ℝ) := by
    have := flBin_mono (K := ℝ) (p := 53) (by norm_num) (show (2 : ℝ) ^ (-7 : Int) ≤ 1 / 100 by norm_num)
    rwa [flBin_zpow (by norm_num)] at this
  have hin : Within (-90) 34 (1 / target) := by
    rw [Within, abs_of_pos (by positivity), one_div]
    refine ⟨.inr ?_, ?_⟩
    · rw [zpow_neg]
      exact inv_anti₀ htp0 (htar2.trans (le_of_eq (by norm_num)))
    · have := inv_anti₀ (by positivity) htp
      rwa [zpow_neg, inv_inv] at this
  have he := hin.flBin
  have he0 : 0 < flBin 53 (1 / target) := by
    have := flBin_mono (K := ℝ) (p := 53) (by norm_num) (show (2 : ℝ) ^ (-90 : Int) ≤ 1 / target by
      have := hin.1.resolve_left (by positivity)
      rwa [abs_of_pos (by positivity)] at this)
    rw [flBin_zpow (by norm_num)] at this
    exact lt_of_lt_of_le (by positivity) this
  have he1 : (2 : ℝ) ^ (-90 : Int) ≤ flBin 53 (1 / target) ∧ flBin 53 (1 / target) ≤ 2 ^ (34 : Int) := by
    have h1 := he.1.resolve_left he0.ne'
    have h2 := he.2
    rw [abs_of_pos he0] at h1 h2
    exact ⟨h1, h2⟩
  have hset := hset (flBin 53 (1 / 100)) (flBin 53 (1 / target))
    (.inr ⟨flBin_isFloat (by norm_num) _, le_trans (zpow_le_zpow_right₀ one_le_two (by norm_num)) hα0⟩) hα1
    (le_trans (zpow_le_zpow_right₀ one_le_two (by norm_num)) he1.1)
    (he1.2.trans (zpow_le_zpow_right₀ one_le_two (by norm_num)))
  have f1 : flBin 53 (1 : ℝ) = 1 := by
    simpa using flBin_zpow (K := ℝ) (p := 53) (by norm_num) 0
  have hs : FlSetting (KMeans.dbl ℝ) (L + 1) lg s D (flBin 53 (1 / 100))
      (flBin 53 (1 / target)) (seedVec v) := by
    refine ⟨ha, hD, hw0, hl, le_trans (by positivity) hα0, hα1, he0,
      ⟨by simp [seedVec, Col.Sorted], by simp [seedVec]⟩, Nat.succ_pos v, hvn, ?_, ?_⟩
    · intro u
      rw [seedVec_get]
      split_ifs <;> norm_num
    · intro u
      rw [seedVec_get]
      split_ifs
      · exact f1
      · exact Rounding.fl_zero
  -- the number of pushes
  have hB : ∀ us st, FlTrace (flBin 53) lg (flBin 53 (1 / 100)) (flBin 53 (1 / target)) (seedVec v) us st →
      us.length ≤ M := by
    obtain ⟨m, hm⟩ : ∃ m, m = M * (6 + (L + 1) + 2 * L) + (L + 1) + 1 := ⟨_, rfl⟩
    have hmle : m ≤ 4 * 10 ^ 11 := by
      have : m = M * (7 + 3 * L) + L + 2 := by rw [hm]; ring
      omega
    have hu := KMeans.dbl_u (K := ℝ)
    have hmu : (m : ℝ) * (KMeans.dbl ℝ).u ≤ 1 / 20000 := by
      have : (m : ℝ) ≤ ((4 * 10 ^ 11 : Nat) : ℝ) := by exact_mod_cast hmle
      rw [hu]
      refine (mul_le_mul_of_nonneg_right this (by positivity)).trans ?_
      norm_num
    have hη := (KMeans.dbl ℝ).g_pow_le (m := m) (by linarith)
    have hg1 : (1 : ℝ) ≤ 1 / (1 - (KMeans.dbl ℝ).u) := Rounding.one_le_g (R := KMeans.dbl ℝ)
    have hMM : 2 * (1 / (1 - (KMeans.dbl ℝ).u)) ^ (1 + (L + 1)) ≤ M * (flBin 53 (1 / 100) * flBin 53 (1 / target) * δ) := by
      have h1 : (1 / (1 - (KMeans.dbl ℝ).u)) ^ (1 + (L + 1)) ≤ 1 + 1 / 10000 := by
        refine (pow_le_pow_right₀ hg1 (show 1 + (L + 1) ≤ m by rw [hm]; omega)).trans (hη.trans ?_)
        linarith
      have herr := fun z : ℝ => abs_le.1 ((KMeans.dbl ℝ).err z)
      have h2 : (1 - 1 / 10000) * (1 / 100) ≤ flBin 53 (1 / 100 : ℝ) := by
        have := (herr (1 / 100)).1
        change -(_ * _) ≤ flBin 53 (1 / 100 : ℝ) - _ at this
        rw [abs_of_pos (by norm_num), hu] at this
        linarith
      have h3 : (1 - 1 / 10000) * (1 / target) ≤ flBin 53 (1 / target) := by
        have := (herr (1 / target)).1
        change -(_ * _) ≤ flBin 53 (1 / target) - _ at this
        have hti : 0 < 1 / target := by positivity
        rw [abs_of_pos hti, hu] at this
        nlinarith
      have h4 : (201 : ℝ) / 100 * (1 - 1 / 10000) ^ 2 ≤ M * (flBin 53 (1 / 100) * flBin 53 (1 / target) * δ) := by
        have h5 := mul_le_mul h2 h3 (by positivity) (le_trans (by positivity) h2)
        have h6 := mul_le_mul_of_nonneg_right h5 (show (0 : ℝ) ≤ M * δ by positivity)
        have h7 := mul_le_mul_of_nonneg_left hM
          (show (0 : ℝ) ≤ (1 - 1 / 10000) * (1 / 100) * ((1 - 1 / 10000) * (1 / target)) by positivity)
        have e : (1 - 1 / 10000 : ℝ) * (1 / 100) * ((1 - 1 / 10000) * (1 / target)) * (201 * target) =
            201 / 100 * (1 - 1 / 10000) ^ 2 := by
          field_simp
        linarith
      linarith
    have hprec : PrecisionOK (KMeans.dbl ℝ) (L + 1) s (flBin 53 (1 / 100)) (flBin 53 (1 / target)) 1 :=
      precision_of_count hmin (mul_pos (lt_of_lt_of_le (by positivity) hα0) he0) hMM rfl (by
        rw [← hm]
        linarith)
    have hms : s.mass (seedVec v : SVec ℝ).get = 1 := mass_seedVec hvn
    intro us st ht
    exact pushes_le hs (lt_of_lt_of_le (by positivity) hα0) (by rw [hms]; exact hprec) hδ hmin
      (by rw [hms, mul_one]; exact hMM) ht
  have hMs : (6 + (L + 1) + 2 * L) * M ≤ 2 ^ 52 := by
    have : (6 + (L + 1) + 2 * L) * M = M * (7 + 3 * L) := by ring
    omega
  have hacl := C114_local_cluster_acl hs hset ovf (L := L) hLes
    (fun us st ht => (Nat.mul_le_mul_left _ (hB us st ht)).trans hMs)
  have e1 : flIEEE ovf (1 / 100 : ℝ) = flBin 53 (1 / 100) :=
    (show Within (-7) 0 (1 / 100 : ℝ) by
      rw [Within, abs_of_pos (by norm_num)]
      exact ⟨.inr (by norm_num), by norm_num⟩).eq (by norm_num) (by norm_num) ovf
  have e2 : flIEEE ovf (1 / target) = flBin 53 (1 / target) := hin.eq (by norm_num) (by norm_num) ovf
  refine ⟨fun fuel => ?_, fun fuel C hC => ?_⟩
  · unfold localClusterFl
    rw [e1, e2, hacl]
  · have hCl : C.length ≤ M := by
      unfold localClusterFl at hC
      rw [if_neg (not_le.2 htp0)] at hC
      obtain ⟨us, st, ht, hlen⟩ := acl_length hs hC
      exact hlen.trans (hB us st ht)
    refine C114_conductance ovf _ _ (L := L) (fun w hw' es hes => by
      obtain ⟨u, _, rfl⟩ := List.mem_map.1 hw'
      have := (hset.nbrs u es hes).2
      exact ⟨hLes u es hes, this⟩) ?_
    rw [List.length_map]
    have := Nat.mul_le_mul_right L hCl
    have h2 : M * L ≤ (6 + (L + 1) + 2 * L) * M := by
      rw [Nat.mul_comm M L]
      exact Nat.mul_le_mul_right _ (by omega)
    omega

/-- **C114** (`local_cluster` and `conductance`).  Let every weight be a `double` from `2^-34` to `2^100`, in a graph of fewer
than `2^52` vertices, and let the target volume be at most `2^90`.  Then the guarantee of C109 holds for the arithmetic of
IEEE 754, whatever becomes of a result that is too large. -/
theorem C114_local_cluster (ovf : ℝ → ℝ) {g : Graph ℝ} (hv : g.Valid) (hz : g.adj.NoZeros)
    (hw : ∀ u v, WFits (g.abs.w u v)) (hn : g.n < 2 ^ 52)
    (hl : ∀ v, g.abs.w v v = 0) {δ : ℝ} {L : Nat} (hδ : 0 < δ)
    (hmin : ∀ v, v < g.n → 0 < g.abs.deg v → δ ≤ g.abs.deg v)
    (hL : ∀ v, v < g.n → ((range g.n).filter (fun u => g.abs.w v u ≠ 0)).card ≤ L)
    {T : Finset Nat} (hT : T ⊆ range g.n) (hV : 0 < g.abs.vol T) (hcond : g.abs.cond T ≤ 1 / 1000) :
    ∃ T' ⊆ T, g.abs.vol T ≤ 2 * g.abs.vol T' ∧ ∀ v ∈ T', 0 < g.abs.deg v ∧
      ∀ (target : ℝ) (M : Nat), 10 * g.abs.vol T ≤ target → target ≤ 2 ^ 90 → 201 * target ≤ M * δ →
        M * (7 + 3 * L) + L + 2 ≤ 4 * 10 ^ 11 →
        ∃ C x, (∃ N, ∀ fuel, N ≤ fuel →
            localClusterFl (flIEEE ovf) (g.asLocalFl (flIEEE ovf)) fuel v target = some (.ok C)) ∧
          conductanceFl (flIEEE ovf) (g.asLocalFl (flIEEE ovf)) (C.map (fun u : Nat => (u : Int))) = .ok x ∧
          0 ≤ x ∧ |x - g.abs.cond C.toFinset| ≤ 1 / 10000 ∧
          x ≤ 3 / 10000 + √(2 / 25 * Real.log (13 * g.abs.vol T / g.abs.deg v)) := by
  have hw0 : ∀ u v, 0 ≤ g.abs.w u v := by
    intro u v
    rcases hw u v with h | ⟨_, h, _⟩
    · rw [h]
    · exact le_trans (by positivity) h
  have hcols : g.adj.cols < 2 ^ 53 := by rw [hv.cols]; omega
  have ha : (g.asLocalFl (flBin 53)).AnswersFl g.abs (g.degFl (flBin 53)) := Graph.asLocalFl_answers hv hz
  have hD : ∀ v, v < g.abs.n → (KMeans.dbl ℝ).Near (L + 1) (g.degFl (flBin 53) v) (g.abs.deg v) :=
    fun v hvn => (C77_degree (R := KMeans.dbl ℝ) hv hw0 hvn).2.mono (Nat.add_le_add_right (hL v hvn) 1)
  have hLes : ∀ (v : Nat) es, (g.asLocalFl (flBin 53)).neighbors (v : Int) = .ok es → es.length ≤ L := by
    intro v es hes
    obtain ⟨u, hvu, hu⟩ := asLocalFl_query hes
    obtain rfl : v = u := by omega
    obtain ⟨es', he', _, hnb⟩ := ha.nbrs v hu
    rw [hes] at he'
    cases he'
    have := neighborList_card hnb
    rw [List.length_map] at this
    exact this.trans (hL v hu)
  obtain ⟨T', hsub, hvol, hall⟩ := C109_graph hv hz hw0 hl hδ hmin hL hT hV hcond
  refine ⟨T', hsub, hvol, fun v hvT => ⟨(hall v hvT).1, fun target M htar htar2 hM hsize => ?_⟩⟩
  obtain ⟨C, x, ⟨N, hC⟩, hx, hx0, hxc, hxb⟩ := (hall v hvT).2 target M htar hM hsize
  have hvn : v < g.n := mem_range.1 (hT (hsub hvT))
  -- the target volume is not too small
  have hdv : (2 : ℝ) ^ (-34 : Int) ≤ g.abs.deg v := by
    have hpos := (hall v hvT).1
    have hdeg : g.abs.deg v = ∑ u ∈ range g.n, g.abs.w v u := by
      unfold WGraph.deg
      rw [hl v, add_zero]
      rfl
    rw [hdeg] at hpos ⊢
    obtain ⟨u, hu, hne⟩ := exists_ne_zero_of_sum_ne_zero hpos.ne'
    have h1 := (hw v u).resolve_left hne
    exact h1.2.1.trans (single_le_sum (f := fun u => g.abs.w v u) (fun u _ => hw0 v u) hu)
  have hvT1 : g.abs.deg v ≤ g.abs.vol T := by
    unfold WGraph.vol
    exact single_le_sum (f := g.abs.deg) (fun u _ => WGraph.degree_nonneg hw0 u) (hsub hvT)
  have htp : (2 : ℝ) ^ (-34 : Int) ≤ target := by linarith
  have htp0 : 0 < target := lt_of_lt_of_le (by positivity) htp
  obtain ⟨h1, h2⟩ := localCluster_ieee ovf ha hD hw0 hl hδ hmin
    (fun α ε dα α1 ε0 ε1 => asLocalFl_setting hv hz hw hn dα α1 ε0 ε1) hLes hvn htp htar2 hM hsize
  rw [asLocalFl_ieee ovf hw hcols]
  exact ⟨C, x, ⟨N, fun fuel hf => (h1 fuel).trans (hC fuel hf)⟩, (h2 N C (hC N le_rfl)).trans hx, hx0, hxc, hxb⟩

/-- **C114** (instance).  The graph of `C109_nonvacuous` meets the hypotheses. -/
theorem C114_nonvacuous (ovf : ℝ → ℝ) : ∃ g : Graph ℝ, g.Reachable ∧ g.abs = ⟨4, tightPairs⟩ ∧
    ∃ T' ⊆ ({0, 1} : Finset Nat), 2049 ≤ 2 * g.abs.vol T' ∧ ∀ v ∈ T',
      ∃ C x, (∃ N, ∀ fuel, N ≤ fuel →
          localClusterFl (flIEEE ovf) (g.asLocalFl (flIEEE ovf)) fuel v 32768 = some (.ok C)) ∧
        conductanceFl (flIEEE ovf) (g.asLocalFl (flIEEE ovf)) (C.map (fun u : Nat => (u : Int))) = .ok x ∧
        x ≤ 3 / 10000 + √(2 / 25 * Real.log (13 * 2049 / g.abs.deg v)) := by
  obtain ⟨g, hr, hp, hg⟩ := exists_pruned_graph 4 tightPairs
    (by intro i j; unfold tightPairs; split_ifs <;> first | rfl | omega)
    (by
      intro i j
      unfold tightPairs
      split_ifs
      · exact .inr (by unfold epsilon; norm_num)
      · exact .inr (by unfold epsilon; norm_num)
      · exact .inl rfl)
    (by intro i j h; unfold tightPairs; rw [if_neg (by omega), if_neg (by omega)])
  have hn : g.n = 4 := congrArg WGraph.n hg
  have hval := hr.valid
  have hdeg : ∀ v, v < 4 → 1024 ≤ g.abs.deg v := by
    intro v hv
    rw [hg]
    unfold WGraph.deg
    simp only [Finset.sum_range_succ, Finset.sum_range_zero, zero_add]
    have : v = 0 ∨ v = 1 ∨ v = 2 ∨ v = 3 := by omega
    rcases this with rfl | rfl | rfl | rfl <;> norm_num [tightPairs]
  have hvol : g.abs.vol {0, 1} = 2049 := by
    rw [hg]
    unfold WGraph.vol
    rw [Finset.sum_pair (by norm_num)]
    unfold WGraph.deg
    simp only [Finset.sum_range_succ, Finset.sum_range_zero, zero_add]
    norm_num [tightPairs]
  have hcond : g.abs.cond {0, 1} = 1 / 2049 := by
    rw [cond_eq, hvol]
    congr 1
    rw [hg]
    unfold WGraph.cut
    have e : range 4 \ {0, 1} = {2, 3} := by decide
    simp only [e]
    rw [Finset.sum_pair (by norm_num), Finset.sum_pair (by norm_num), Finset.sum_pair (by norm_num)]
    norm_num [tightPairs]
  have hf : ∀ j : Nat, IsFloat 53 ((2 : ℝ) ^ j) := fun j => by
    have := flBin_isFloat (K := ℝ) (p := 53) (by norm_num) (2 ^ (j : Int))
    rwa [flBin_zpow (by norm_num), zpow_natCast] at this
  obtain ⟨T', hsub, hvolT, hall⟩ := C114_local_cluster ovf hval hp.noZeros
    (by
      rw [hg]
      intro u v
      simp only [tightPairs]
      split_ifs
      · exact .inr ⟨by have := hf 10; norm_num at this; exact this, by norm_num, by norm_num⟩
      · exact .inr ⟨by have := hf 0; norm_num at this; exact this, by norm_num, by norm_num⟩
      · exact .inl rfl)
    (by rw [hn]; norm_num)
    (by rw [hg]; intro v; simp only [tightPairs]; rw [if_neg (by omega), if_neg (by omega)])
    (δ := 1024) (L := 4) (by norm_num) (fun v hv _ => hdeg v (by omega))
    (fun v _ => (card_filter_le _ _).trans (by rw [card_range, hn]))
    (T := {0, 1}) (by rw [hn]; decide) (by rw [hvol]; norm_num) (by rw [hcond]; norm_num)
  rw [hvol] at hvolT
  refine ⟨g, hr, hg, T', hsub, hvolT, fun v hv => ?_⟩
  obtain ⟨C, x, hC, hx, _, _, hb⟩ := (hall v hv).2 32768 6500 (by rw [hvol]; norm_num) (by norm_num)
    (by norm_num) (by norm_num)
  rw [hvol] at hb
  exact ⟨C, x, hC, hx, hb⟩


/-- **C114** (the two arithmetics differ).  `2^-1080` becomes zero in IEEE arithmetic, and `2^1024` overflows. -/
theorem C114_differs (ovf : ℝ → ℝ) : flIEEE ovf (2 ^ (-1080 : Int) : ℝ) = 0 ∧ flBin 53 (2 ^ (-1080 : Int) : ℝ) = 2 ^ (-1080 : Int) ∧
    flIEEE ovf (2 ^ (1024 : Int) : ℝ) = ovf (2 ^ (1024 : Int)) := by
  refine ⟨?_, flBin_zpow (by norm_num) _, ?_⟩
  · unfold flIEEE
    rw [abs_of_pos (by positivity), if_pos (zpow_lt_zpow_right₀ one_lt_two (by norm_num)), ← zpow_sub₀ (by norm_num)]
    have : roundEven ((2 : ℝ) ^ (-1080 - -1074 : Int)) = 0 := by
      have hfl : ⌊(2 : ℝ) ^ (-1080 - -1074 : Int)⌋ = 0 := by
        rw [Int.floor_eq_iff]
        norm_num
      unfold roundEven
      rw [hfl]
      norm_num
    rw [this]
    simp
  · unfold flIEEE
    rw [flBin_zpow (by norm_num), abs_of_pos (by positivity),
      if_neg (not_lt.2 (zpow_le_zpow_right₀ one_le_two (by norm_num))), if_pos le_rfl]

end
end Stag
