import Verif.RoundingSweep
import Verif.RoundingLemmas
import Verif.Props.Sweep

/-!
# Lemmas on the rounded sweep
-/

set_option linter.unusedSectionVars false

namespace Stag

section
variable {K : Type} [Field K] [LinearOrder K]

/-- The neighbours of `v` as the local graph lists them. -/
def LGraph.nb (lg : LGraph K) (v : Nat) : List (Edge K) :=
  match lg.neighbors (v : Int) with
  | .ok es => es
  | _ => []

/-- The values of cut and volume which the rounded sweep has computed once it has added the vertices
of the list, the last one first. -/
def sweepTrack (fl : K → K) (lg : LGraph K) (D : Nat → K) : List Nat → K × K
  | [] => (0, 0)
  | v :: l => (sweepCutFl fl (v :: l) (lg.nb v) (fl ((sweepTrack fl lg D l).1 + D v)),
      fl ((sweepTrack fl lg D l).2 + D v))

/-- The computed cut after `i` rounds. -/
def sweepC (fl : K → K) (lg : LGraph K) (D : Nat → K) (order : List Nat) (i : Nat) : K :=
  (sweepTrack fl lg D (order.take i).reverse).1

/-- The computed volume after `i` rounds. -/
def sweepV (fl : K → K) (lg : LGraph K) (D : Nat → K) (order : List Nat) (i : Nat) : K :=
  (sweepTrack fl lg D (order.take i).reverse).2

/-- The computed denominator after `i` rounds. -/
def sweepD (fl : K → K) (lg : LGraph K) (D : Nat → K) (total : K) (order : List Nat) (i : Nat) : K :=
  if total = 0 then sweepV fl lg D order i
  else min (sweepV fl lg D order i) (fl (total - sweepV fl lg D order i))

/-- `k` is the position the rounded sweep settles on among the first `m` prefixes of `order`. -/
def SweepBestFl (fl : K → K) (lg : LGraph K) (D : Nat → K) (total : K) (order : List Nat) (m k : Nat)
    (best : K) : Prop :=
  (k = 0 ∧ best = 2 ∨ 1 ≤ k ∧ k ≤ m ∧ 0 < sweepD fl lg D total order k ∧
    best = fl (sweepC fl lg D order k / sweepD fl lg D total order k)) ∧
  (∀ i, 1 ≤ i → i ≤ m → 0 < sweepD fl lg D total order i →
    best ≤ fl (sweepC fl lg D order i / sweepD fl lg D total order i)) ∧
  ∀ i, 1 ≤ i → i < k → 0 < sweepD fl lg D total order i →
    best < fl (sweepC fl lg D order i / sweepD fl lg D total order i)

theorem sweepLoopFl_spec (fl : K → K) {lg : LGraph K} {D : Nat → K} (total : K) (order : List Nat)
    (hn : ∀ v ∈ order, ∃ es, lg.neighbors (v : Int) = .ok es) :
    ∀ (todo pre : List Nat) (st : SweepState K), order = pre ++ todo →
      st.set = pre.reverse → (st.cut, st.vol) = sweepTrack fl lg D pre.reverse →
      st.idx = pre.length → SweepBestFl fl lg D total order pre.length st.bestIdx st.best →
      ∃ st', sweepLoopFl fl lg total todo (todo.map D) st = .ok st' ∧
        SweepBestFl fl lg D total order order.length st'.bestIdx st'.best := by
  intro todo
  induction todo with
  | nil =>
    intro pre st ho _ _ _ hb
    rw [List.append_nil] at ho
    subst ho
    exact ⟨st, rfl, hb⟩
  | cons v todo ih =>
    intro pre st ho hset htr hidx hb
    obtain ⟨es, hes⟩ := hn v (by rw [ho]; simp)
    have hnb : lg.nb v = es := by unfold LGraph.nb; rw [hes]
    have htake : order.take (pre.length + 1) = pre ++ [v] := by
      rw [ho, List.take_append]
      simp
    have htr' : sweepTrack fl lg D (pre ++ [v]).reverse =
        (sweepCutFl fl (v :: st.set) es (fl (st.cut + D v)), fl (st.vol + D v)) := by
      rw [List.reverse_append, List.reverse_singleton, List.singleton_append]
      unfold sweepTrack
      rw [← htr, hset, hnb]
    have hC : sweepC fl lg D order (pre.length + 1) =
        sweepCutFl fl (v :: st.set) es (fl (st.cut + D v)) := by
      unfold sweepC; rw [htake, htr']
    have hV : sweepV fl lg D order (pre.length + 1) = fl (st.vol + D v) := by
      unfold sweepV; rw [htake, htr']
    have hD : (if total = 0 then fl (st.vol + D v)
        else min (fl (st.vol + D v)) (fl (total - fl (st.vol + D v)))) =
        sweepD fl lg D total order (pre.length + 1) := by
      unfold sweepD; rw [hV]
    rw [List.map_cons]
    unfold sweepLoopFl sweepStepFl
    simp only [hes, Outcome.bind_ok]
    rw [hD, ← hC]
    obtain ⟨hb1, hb2, hb3⟩ := hb
    have hlen : (pre ++ [v]).length = pre.length + 1 := by simp
    by_cases hc : 0 < sweepD fl lg D total order (pre.length + 1) ∧
        fl (sweepC fl lg D order (pre.length + 1) / sweepD fl lg D total order (pre.length + 1)) <
          st.best
    · rw [if_pos hc, Outcome.bind_ok]
      refine ih (pre ++ [v]) _ (by rw [ho]; simp) (by simp [hset]) ?_ (by simp [hidx]) ?_
      · rw [htr', hC]
      · rw [hlen]
        simp only [hidx]
        refine ⟨Or.inr ⟨by omega, le_refl _, hc.1, rfl⟩, ?_, ?_⟩
        · intro i h1 h2 h3
          rcases Nat.lt_or_ge pre.length i with hi | hi
          · obtain rfl : i = pre.length + 1 := by omega
            exact le_refl _
          · exact le_trans hc.2.le (hb2 i h1 hi h3)
        · intro i h1 h2 h3
          exact lt_of_lt_of_le hc.2 (hb2 i h1 (by omega) h3)
    · rw [if_neg hc, Outcome.bind_ok]
      refine ih (pre ++ [v]) _ (by rw [ho]; simp) (by simp [hset]) ?_ (by simp [hidx]) ?_
      · rw [htr', hC]
      · rw [hlen]
        refine ⟨?_, ?_, hb3⟩
        · rcases hb1 with h | h
          · exact Or.inl h
          · exact Or.inr ⟨h.1, le_trans h.2.1 (Nat.le_succ _), h.2.2⟩
        · intro i h1 h2 h3
          rcases Nat.lt_or_ge pre.length i with hi | hi
          · obtain rfl : i = pre.length + 1 := by omega
            exact not_lt.1 (fun hlt => hc ⟨h3, hlt⟩)
          · exact hb2 i h1 hi h3

theorem sweepInnerFl_spec [IsStrictOrderedRing K] (fl : K → K) {lg : LGraph K} {s : WGraph K}
    {D : Nat → K} (h : lg.AnswersFl s D) (vec : SVec K) (hr : ∀ i ∈ vec.indices, i < s.n) (total : K) :
    ∃ k, k ≤ vec.indices.length ∧
      sweepInnerFl fl lg vec total = .ok ((sortDesc vec.get vec.indices).take k) ∧
      ∃ best, SweepBestFl fl lg D total (sortDesc vec.get vec.indices) vec.indices.length k best := by
  set order := sortDesc vec.get vec.indices with ho
  have hp : order.Perm vec.indices := sortDesc_perm _ _
  have hr' : ∀ v ∈ order, v < s.n := fun v hv => hr v (hp.mem_iff.1 hv)
  obtain ⟨st, h1, h2⟩ := sweepLoopFl_spec fl (D := D) total order
    (fun v hv => by obtain ⟨es, he, _⟩ := h.nbrs v (hr' v hv); exact ⟨es, he⟩) order []
    ⟨[], 0, 0, 2, 0, 0⟩ rfl rfl rfl rfl
    ⟨Or.inl ⟨rfl, rfl⟩, fun i h1 h2 _ => by simp at h2; omega, fun i h1 h2 _ => by simp at h2⟩
  refine ⟨st.bestIdx, ?_, ?_, st.best, by rw [← hp.length_eq]; exact h2⟩
  · rw [← hp.length_eq]
    rcases h2.1 with h | h
    · omega
    · exact h.2.1
  · unfold sweepInnerFl
    rw [← ho]
    simp only [h.degrees hr', Outcome.bind_ok, h1]

/-! ## The error of the cut -/

variable [IsStrictOrderedRing K]

/-- The total weight which the loop over the neighbours subtracts. -/
theorem nb_sum {lg : LGraph K} {s : WGraph K} {D : Nat → K} (h : lg.AnswersFl s D) {v : Nat}
    {l : List Nat} (hv : v < s.n) (hl : ∀ x ∈ l, x < s.n) :
    ((lg.nb v).map (fun e => if e.v2 ∈ v :: l then e.w else 0)).sum =
      ∑ u ∈ insert v l.toFinset, s.w v u := by
  obtain ⟨es, hes, _, hnl⟩ := h.nbrs v hv
  have hnb : lg.nb v = es := by unfold LGraph.nb; rw [hes]
  have h1 := hnl.sum_eq (fun u x => if u ∈ v :: l then x else 0) (by simp)
  rw [List.map_map] at h1
  rw [hnb]
  refine Eq.trans h1 ?_
  rw [Finset.sum_ite, Finset.sum_const_zero, add_zero]
  apply Finset.sum_congr _ (fun _ _ => rfl)
  ext x
  simp only [Finset.mem_filter, Finset.mem_range, List.mem_cons, Finset.mem_insert,
    List.mem_toFinset]
  constructor
  · exact fun h => h.2
  · intro h
    refine ⟨?_, h⟩
    rcases h with rfl | h
    · exact hv
    · exact hl x h

theorem nb_nonneg {lg : LGraph K} {s : WGraph K} {D : Nat → K} (h : lg.AnswersFl s D)
    (hw : ∀ u v, 0 ≤ s.w u v) {v : Nat} (hv : v < s.n) : ∀ e ∈ lg.nb v, 0 ≤ e.w := by
  obtain ⟨es, hes, _, hnl⟩ := h.nbrs v hv
  have hnb : lg.nb v = es := by unfold LGraph.nb; rw [hes]
  rw [hnb]
  intro e he
  have := (hnl.2 e.v2 e.w).1 (List.mem_map.2 ⟨e, he, rfl⟩)
  rw [← this.2.1]
  exact hw _ _

namespace Rounding
variable {R : Rounding K}

theorem one_add_le_g : 1 + R.u ≤ R.g := by
  unfold g
  rw [le_div_iff₀ R.one_sub_pos]
  have := mul_self_nonneg R.u
  linarith [(by ring : (1 + R.u) * (1 - R.u) = 1 - R.u * R.u)]

/-- One rounding of a value whose exact counterpart is at most `V` in absolute value. -/
theorem abs_fl_err {a : Nat} {x y V : K} (h : |x - y| ≤ (R.g ^ a - 1) * V) (hy : |y| ≤ V) :
    |R.fl x - y| ≤ (R.g ^ (a + 1) - 1) * V := by
  have h1 := R.err x
  have h2 : |x| ≤ |x - y| + |y| := by
    have := abs_add_le (x - y) y
    rwa [sub_add_cancel] at this
  have h3 : |R.fl x - y| ≤ |R.fl x - x| + |x - y| := abs_sub_le _ _ _
  have hV : 0 ≤ V := le_trans (abs_nonneg _) hy
  have h4 : R.u * |x| ≤ R.u * (R.g ^ a * V) := by
    apply mul_le_mul_of_nonneg_left _ R.u0
    linarith
  have h5 : (1 + R.u) * (R.g ^ a * V) ≤ R.g * (R.g ^ a * V) :=
    mul_le_mul_of_nonneg_right one_add_le_g (mul_nonneg (g_pow_pos a).le hV)
  rw [pow_succ]
  linarith [(by ring : (R.g ^ a * R.g - 1) * V = R.g * (R.g ^ a * V) - V)]

end Rounding

theorem sweepCutFl_err {R : Rounding K} {V : K} (set : List Nat) (es : List (Edge K))
    (hw : ∀ e ∈ es, 0 ≤ e.w) : ∀ {a : Nat} {x y : K}, |x - y| ≤ (R.g ^ a - 1) * V → y ≤ V →
    0 ≤ y - 2 * (es.map (fun e => if e.v2 ∈ set then e.w else 0)).sum →
    |sweepCutFl R.fl set es x -
      (y - 2 * (es.map (fun e => if e.v2 ∈ set then e.w else 0)).sum)| ≤
      (R.g ^ (a + 2 * es.length) - 1) * V := by
  induction es with
  | nil => intro a x y h _ _; simpa [sweepCutFl] using h
  | cons e es ih =>
    intro a x y h hyV h0
    have hw0 : 0 ≤ e.w := hw e (by simp)
    have hes : ∀ e ∈ es, 0 ≤ e.w := fun e he => hw e (by simp [he])
    have hs0 : 0 ≤ (es.map (fun e => if e.v2 ∈ set then e.w else 0)).sum := by
      apply List.sum_nonneg
      intro z hz
      obtain ⟨e', he', rfl⟩ := List.mem_map.1 hz
      split_ifs
      · exact hes e' he'
      · exact le_refl _
    rw [List.map_cons, List.sum_cons] at h0 ⊢
    have hy0 : 0 ≤ y := by
      have : (0 : K) ≤ if e.v2 ∈ set then e.w else 0 := by split_ifs <;> [exact hw0; exact le_refl _]
      linarith
    have hV : 0 ≤ V := le_trans hy0 hyV
    unfold sweepCutFl
    rw [List.length_cons]
    have hexp : a + 2 * (es.length + 1) = a + 1 + 1 + 2 * es.length := by ring
    rw [hexp]
    by_cases hm : e.v2 ∈ set
    · simp only [if_pos hm] at h0 ⊢
      have e1 : y - 2 * (e.w + (es.map (fun e => if e.v2 ∈ set then e.w else 0)).sum) =
          (y - 2 * e.w) - 2 * (es.map (fun e => if e.v2 ∈ set then e.w else 0)).sum := by ring
      rw [e1] at h0 ⊢
      have hyw : 0 ≤ y - 2 * e.w := by linarith
      apply ih hes _ (by linarith) h0
      apply Rounding.abs_fl_err _ (by rw [abs_of_nonneg hyw]; linarith)
      have k1 := R.err (2 * e.w)
      rw [abs_of_nonneg (by linarith : 0 ≤ 2 * e.w)] at k1
      have k2 : R.u * (2 * e.w) ≤ R.u * V := mul_le_mul_of_nonneg_left (by linarith) R.u0
      have k3 : |x - R.fl (2 * e.w) - (y - 2 * e.w)| ≤ |x - y| + |R.fl (2 * e.w) - 2 * e.w| := by
        have := abs_sub (x - y) (R.fl (2 * e.w) - 2 * e.w)
        have e2 : x - R.fl (2 * e.w) - (y - 2 * e.w) = (x - y) - (R.fl (2 * e.w) - 2 * e.w) := by ring
        rwa [e2]
      have k4 : R.u * V ≤ R.u * (R.g ^ a * V) := by
        apply mul_le_mul_of_nonneg_left _ R.u0
        exact le_mul_of_one_le_left hV (Rounding.g_pow_one_le a)
      have k5 : (1 + R.u) * (R.g ^ a * V) ≤ R.g * (R.g ^ a * V) :=
        mul_le_mul_of_nonneg_right Rounding.one_add_le_g (mul_nonneg (Rounding.g_pow_pos a).le hV)
      rw [pow_succ]
      linarith [(by ring : (R.g ^ a * R.g - 1) * V = R.g * (R.g ^ a * V) - V)]
    · simp only [if_neg hm, zero_add] at h0 ⊢
      apply ih hes _ hyV h0
      refine le_trans h (mul_le_mul_of_nonneg_right ?_ hV)
      have : R.g ^ a ≤ R.g ^ (a + 1 + 1) := pow_le_pow_right₀ Rounding.one_le_g (by omega)
      linarith

/-- The errors of the cut and of the volume of a prefix. -/
theorem sweepTrack_err {R : Rounding K} {k L : Nat} {lg : LGraph K} {s : WGraph K} {D : Nat → K}
    (h : lg.AnswersFl s D) (hD : ∀ v, v < s.n → R.Near k (D v) (s.deg v)) (hw : ∀ u v, 0 ≤ s.w u v)
    (l : List Nat) (hl : l.Nodup) (hr : ∀ v ∈ l, v < s.n) (hL : ∀ v ∈ l, (lg.nb v).length ≤ L) :
    |(sweepTrack R.fl lg D l).1 - s.cut l.toFinset| ≤
      (R.g ^ (l.length * (1 + k + 2 * L)) - 1) * s.vol l.toFinset ∧
    R.Near (k + l.length) (sweepTrack R.fl lg D l).2 (s.vol l.toFinset) := by
  induction l with
  | nil =>
    refine ⟨by simp [sweepTrack, WGraph.cut, WGraph.vol], ?_⟩
    have := Rounding.Near.refl (R := R) (k := k) (le_refl (0 : K))
    simpa [sweepTrack, WGraph.vol] using this
  | cons v l ih =>
    rw [List.nodup_cons] at hl
    obtain ⟨ih1, ih2⟩ := ih hl.2 (fun v hv => hr v (by simp [hv])) (fun v hv => hL v (by simp [hv]))
    have hv : v < s.n := hr v (by simp)
    have hvl : v ∉ l.toFinset := by simpa using hl.1
    have hsub : l.toFinset ⊆ Finset.range s.n := by
      intro x hx
      rw [List.mem_toFinset] at hx
      exact Finset.mem_range.2 (hr x (by simp [hx]))
    have hfin : (v :: l).toFinset = insert v l.toFinset := by simp
    have hvol : s.vol (v :: l).toFinset = s.vol l.toFinset + s.deg v := by
      rw [hfin, s.vol_insert hvl]
    have hcut : s.cut (v :: l).toFinset = s.cut l.toFinset + s.deg v -
        2 * ((lg.nb v).map (fun e => if e.v2 ∈ v :: l then e.w else 0)).sum := by
      rw [hfin, WGraph.cut_insert h.symm hsub hv hvl, nb_sum h hv (fun x hx => hr x (by simp [hx]))]
    have hdv := WGraph.degree_nonneg hw v
    have hvl0 := WGraph.vol_nonneg hw l.toFinset
    obtain ⟨hc0, hc1⟩ := WGraph.cut_le_vol hw l.toFinset
    obtain ⟨hc0', _⟩ := WGraph.cut_le_vol hw (v :: l).toFinset
    constructor
    · unfold sweepTrack
      rw [hcut]
      have hstart : |R.fl ((sweepTrack R.fl lg D l).1 + D v) - (s.cut l.toFinset + s.deg v)| ≤
          (R.g ^ (l.length * (1 + k + 2 * L) + k + 1) - 1) * s.vol (v :: l).toFinset := by
        apply Rounding.abs_fl_err
        · have k1 := (hD v hv).abs_sub
          have k2 : |(sweepTrack R.fl lg D l).1 + D v - (s.cut l.toFinset + s.deg v)| ≤
              |(sweepTrack R.fl lg D l).1 - s.cut l.toFinset| + |D v - s.deg v| := by
            have := abs_add_le ((sweepTrack R.fl lg D l).1 - s.cut l.toFinset) (D v - s.deg v)
            have e : (sweepTrack R.fl lg D l).1 + D v - (s.cut l.toFinset + s.deg v) =
              ((sweepTrack R.fl lg D l).1 - s.cut l.toFinset) + (D v - s.deg v) := by ring
            rwa [e]
          have k3 : R.g ^ (l.length * (1 + k + 2 * L)) ≤ R.g ^ (l.length * (1 + k + 2 * L) + k) :=
            pow_le_pow_right₀ Rounding.one_le_g (by omega)
          have k4 : R.g ^ k ≤ R.g ^ (l.length * (1 + k + 2 * L) + k) :=
            pow_le_pow_right₀ Rounding.one_le_g (by omega)
          have k5 := mul_le_mul_of_nonneg_right k3 hvl0
          have k6 := mul_le_mul_of_nonneg_right k4 hdv
          rw [hvol]
          linarith
        · rw [abs_of_nonneg (by linarith), hvol]
          linarith
      have := sweepCutFl_err (v :: l) (lg.nb v) (nb_nonneg h hw hv) hstart
        (by rw [hvol]; linarith) (by rw [← hcut]; exact hc0')
      refine le_trans this (mul_le_mul_of_nonneg_right ?_ (WGraph.vol_nonneg hw _))
      have hexp : l.length * (1 + k + 2 * L) + k + 1 + 2 * (lg.nb v).length ≤
          (v :: l).length * (1 + k + 2 * L) := by
        have := hL v (by simp)
        rw [List.length_cons, Nat.add_mul, Nat.one_mul]
        omega
      have := pow_le_pow_right₀ (Rounding.one_le_g (R := R)) hexp
      linarith
    · unfold sweepTrack
      rw [hvol, List.length_cons]
      have := (ih2.add ((hD v hv).mono (Nat.le_add_right k l.length))).fl
      rwa [Nat.add_assoc] at this

/-- The error of the computed ratio. -/
theorem ratio_err {R : Rounding K} {a b : Nat} {c v cut vol : K} (hc : |c - cut| ≤ (R.g ^ a - 1) * vol)
    (hv : R.Near b v vol) (h0 : 0 ≤ cut) (h1 : cut ≤ vol) (hpos : 0 < vol) :
    |R.fl (c / v) - cut / vol| ≤ R.g ^ (a + b + 1) - 1 := by
  have hvp := hv.pos hpos
  have hr : R.Near b (vol / v) 1 := by
    have e1 : R.Near b (vol / v) (v / v) := by
      have := hv.symm.div (Rounding.Near.refl (R := R) (k := 0) hvp.le)
      simpa using this
    rwa [div_self hvp.ne'] at e1
  have hr1 := hr.abs_sub
  rw [mul_one] at hr1
  have key : |c / v - cut / vol| ≤ (R.g ^ (a + b) - 1) * 1 := by
    have e : c / v - cut / vol = (c - cut) / v + cut / vol * (vol / v - 1) := by
      field_simp
      ring
    rw [e]
    refine le_trans (abs_add_le _ _) ?_
    have k1 : |(c - cut) / v| ≤ (R.g ^ a - 1) * (vol / v) := by
      rw [abs_div, abs_of_pos hvp, mul_div_assoc']
      exact div_le_div_of_nonneg_right hc hvp.le
    have k2 : |cut / vol * (vol / v - 1)| ≤ 1 * (R.g ^ b - 1) := by
      rw [abs_mul, abs_of_nonneg (div_nonneg h0 hpos.le)]
      exact mul_le_mul ((div_le_one hpos).2 h1) hr1 (abs_nonneg _) zero_le_one
    have k3 : (R.g ^ a - 1) * (vol / v) ≤ (R.g ^ a - 1) * R.g ^ b := by
      apply mul_le_mul_of_nonneg_left _ (sub_nonneg.2 (Rounding.g_pow_one_le a))
      have := hr.le
      rwa [mul_one] at this
    rw [pow_add]
    linarith
  have := Rounding.abs_fl_err key (by
    rw [abs_of_nonneg (div_nonneg h0 hpos.le)]
    exact (div_le_one hpos).2 h1)
  rwa [mul_one] at this

end
end Stag
