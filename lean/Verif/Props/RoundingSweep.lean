import Verif.RoundingSweepLemmas
import Verif.Props.Rounding
import Verif.Props.LocalCluster
import Mathlib.Tactic.IntervalCases

/-!
# C77: conductance, sweep sets and local clustering in floating point arithmetic
-/

set_option linter.unusedSectionVars false

namespace Stag

section
variable {K : Type} [Field K] [LinearOrder K] [IsStrictOrderedRing K]

/-! ## Exact arithmetic is a special case -/

theorem condInnerFl_id (cl : List Int) (es : List (Edge K)) :
    ∀ s, condInnerFl (fun x => x) cl es s = condInner cl es s := by
  induction es with
  | nil => intro s; rfl
  | cons e es ih =>
    rintro ⟨d, c⟩
    simp only [condInnerFl, condInner, ih]

theorem condLoopFl_id (lg : LGraph K) (cl : List Int) (vs : List Int) :
    ∀ s, condLoopFl (fun x => x) lg cl vs s = condLoop lg cl vs s := by
  induction vs with
  | nil => intro s; rfl
  | cons v vs ih =>
    rintro ⟨c, vol⟩
    simp only [condLoopFl, condLoop, condInnerFl_id, ih]

theorem sweepCutFl_id (set : List Nat) (es : List (Edge K)) :
    ∀ c, sweepCutFl (fun x => x) set es c = sweepCut set es c := by
  induction es with
  | nil => intro c; rfl
  | cons e es ih => intro c; simp only [sweepCutFl, sweepCut, ih]

theorem sweepLoopFl_id (lg : LGraph K) (total : K) (vs : List Nat) :
    ∀ ds s, sweepLoopFl (fun x => x) lg total vs ds s = sweepLoop lg total vs ds s := by
  induction vs with
  | nil => intro ds s; cases ds <;> rfl
  | cons v vs ih =>
    intro ds s
    cases ds with
    | nil => rfl
    | cons d ds => simp only [sweepLoopFl, sweepLoop, sweepStepFl, sweepStep, sweepCutFl_id, ih]

theorem normaliseFl_id (c : Col K) : ∀ ds, normaliseFl (fun x => x) c ds = normalise c ds := by
  induction c with
  | nil => intro ds; cases ds <;> rfl
  | cons e c ih =>
    intro ds
    cases ds with
    | nil => rfl
    | cons d ds => simp only [normaliseFl, normalise, ih]

/-- **C77** (consistency).  Without rounding the models are those of C33, C34 and C37. -/
theorem C77_exact (lg : LGraph K) (S : List Int) (vec : SVec K) (fuel : Nat) (v : Int) (α ε : K) :
    conductanceFl (Rounding.exact K).fl lg S = conductance lg S ∧
    sweepSetLocalFl (Rounding.exact K).fl lg vec = sweepSetLocal lg vec ∧
    localClusterAclFl (Rounding.exact K).fl lg fuel v α ε = localClusterAcl lg fuel v α ε := by
  have hs : ∀ vec, sweepSetLocalFl (fun x => x) lg vec = sweepSetLocal lg vec := by
    intro vec
    simp only [sweepSetLocalFl, sweepSetLocal, sweepInnerFl, sweepInner, sweepLoopFl_id]
  refine ⟨?_, hs vec, ?_⟩
  · simp only [conductanceFl, conductance, Rounding.exact, condLoopFl_id]
  · have h1 : ∀ p, sweepNormalisedFl (fun x => x) lg p = sweepNormalised lg p := by
      intro p
      simp only [sweepNormalisedFl, sweepNormalised, normaliseFl_id, hs]
    have h2 := C76_exact lg fuel ⟨v.toNat + 1, [(v.toNat, 1)]⟩ α ε
    unfold localClusterAclFl localClusterAcl
    rw [h2]
    simp only [Rounding.exact, h1]
    split_ifs
    · rfl
    · rfl
    · rfl
    · rcases approximatePagerank lg fuel ⟨v.toNat + 1, [(v.toNat, 1)]⟩ α ε with _ | o
      · rfl
      · cases o <;> rfl

/-! ## Conductance -/

variable {R : Rounding K}

theorem condInnerFl_near (cl : List Int) (es : List (Edge K)) (hw : ∀ e ∈ es, 0 ≤ e.w) :
    ∀ {a b : Nat} {d c d' c' : K}, R.Near a d d' → R.Near b c c' →
      R.Near (a + es.length) (condInnerFl R.fl cl es (d, c)).1 (condInner cl es (d', c')).1 ∧
      R.Near (b + es.length) (condInnerFl R.fl cl es (d, c)).2 (condInner cl es (d', c')).2 := by
  induction es with
  | nil => intro a b d c d' c' h1 h2; exact ⟨h1, h2⟩
  | cons e es ih =>
    intro a b d c d' c' h1 h2
    have hw0 : 0 ≤ e.w := hw e (by simp)
    have k1 := (h1.add (Rounding.Near.refl (k := a) hw0)).fl
    have k2 : R.Near (b + 1) (if (e.v2 : Int) ∈ cl then c else R.fl (c + e.w))
        (if (e.v2 : Int) ∈ cl then c' else c' + e.w) := by
      split_ifs
      · exact h2.mono (Nat.le_succ b)
      · exact (h2.add (Rounding.Near.refl (k := b) hw0)).fl
    have k3 := ih (fun e he => hw e (by simp [he])) k1 k2
    simp only [condInnerFl, condInner, List.length_cons]
    rw [Nat.add_comm es.length 1, ← Nat.add_assoc, ← Nat.add_assoc]
    exact k3

theorem condLoopFl_near {lg : LGraph K} (cl : List Int) (vs : List Int) :
    ∀ {m : Nat} {ess : List (List (Edge K))}, List.Forall₂ (fun v es => lg.neighbors v = .ok es) vs ess →
    (∀ es ∈ ess, ∀ e ∈ es, 0 ≤ e.w) → ∀ {c vol c' vol' : K} {i : Nat}, R.Near m c c' →
    R.Near (m + i) vol vol' →
    ∃ x x', condLoopFl R.fl lg cl vs (c, vol) = .ok x ∧ condLoop lg cl vs (c', vol') = .ok x' ∧
      R.Near (m + (ess.map List.length).sum) x.1 x'.1 ∧
      R.Near (m + (ess.map List.length).sum + i + vs.length) x.2 x'.2 := by
  induction vs with
  | nil =>
    intro m ess hess _ c vol c' vol' i h1 h2
    cases hess
    exact ⟨_, _, rfl, rfl, by simpa using h1, by simpa using h2⟩
  | cons v vs ih =>
    intro m ess hess hw c vol c' vol' i h1 h2
    cases hess with
    | @cons _ es _ ess hes hess =>
    obtain ⟨k1, k2⟩ := condInnerFl_near (R := R) cl es (hw es (by simp))
      (Rounding.Near.refl (k := 0) (le_refl (0 : K))) h1
    have k3 := ((h2.mono (l := m + es.length + i) (by omega)).add
      (k1.mono (l := m + es.length + i) (by omega))).fl
    obtain ⟨x, x', e1, e2, e3, e4⟩ := ih hess (fun es he => hw es (by simp [he])) k2
      (i := i + 1) (by rw [← Nat.add_assoc]; exact k3)
    refine ⟨x, x', ?_, ?_, ?_, ?_⟩
    · simp only [condLoopFl, hes, Outcome.bind_ok, e1]
    · simp only [condLoop, hes, Outcome.bind_ok, e2]
    · rw [List.map_cons, List.sum_cons, ← Nat.add_assoc]; exact e3
    · rw [List.map_cons, List.sum_cons, List.length_cons]
      refine e4.mono (le_of_eq ?_)
      omega

/-- **C77** (conductance, any list).  Let `m` be the number of neighbours listed for the vertices of
the list, with repetitions.  If the weights are non-negative, the computed conductance agrees with
the exact one up to `2 m + |S| + 1` rounding errors. -/
theorem C77_conductance_value {lg : LGraph K} {S : List Int} {ess : List (List (Edge K))}
    (hess : List.Forall₂ (fun v es => lg.neighbors v = .ok es) S ess)
    (hw : ∀ es ∈ ess, ∀ e ∈ es, 0 ≤ e.w) :
    ∃ x y, conductanceFl R.fl lg S = .ok x ∧ conductance lg S = .ok y ∧ 0 ≤ x ∧ 0 ≤ y ∧
      x ≤ (1 / (1 - R.u)) ^ (2 * (ess.map List.length).sum + S.length + 1) * y ∧
      y ≤ (1 / (1 - R.u)) ^ (2 * (ess.map List.length).sum + S.length + 1) * x := by
  obtain ⟨x, y, e1, e2, e3, e4⟩ := condLoopFl_near (R := R) S S hess hw
    (Rounding.Near.refl (k := 0) (le_refl (0 : K))) (i := 0)
    (Rounding.Near.refl (le_refl (0 : K)))
  refine ⟨if x.2 = 0 then 0 else R.fl (x.1 / x.2), if y.2 = 0 then 0 else y.1 / y.2, ?_, ?_, ?_⟩
  · unfold conductanceFl; rw [e1, Outcome.bind_ok]
  · unfold conductance; rw [e2, Outcome.bind_ok]
  · have hN : R.Near (2 * (ess.map List.length).sum + S.length + 1)
        (if x.2 = 0 then 0 else R.fl (x.1 / x.2)) (if y.2 = 0 then 0 else y.1 / y.2) := by
      by_cases h : y.2 = 0
      · rw [if_pos (e4.eq_zero h), if_pos h]
        exact Rounding.Near.refl (le_refl _)
      · rw [if_neg (fun hx => h (e4.symm.eq_zero hx)), if_neg h]
        refine (e3.div e4).fl.mono (le_of_eq ?_)
        omega
    exact ⟨hN.x0, hN.y0, hN.le, hN.ge⟩

/-- **C77** (conductance).  For a duplicate-free set of vertices without self-loops, each with at most
`L` neighbours, the computed conductance is the cut over the volume up to `(2 L + 1) |S| + 1`
rounding errors. -/
theorem C77_conductance {lg : LGraph K} {s : WGraph K} (h : lg.Answers s) (hw : ∀ u v, 0 ≤ s.w u v)
    {S : List Nat} (hS : ∀ v ∈ S, v < s.n) (hd : S.Nodup) (hl : ∀ v ∈ S, s.w v v = 0) {L : Nat}
    (hL : ∀ v ∈ S, ∀ es, lg.neighbors (v : Int) = .ok es → es.length ≤ L) :
    ∃ x, conductanceFl R.fl lg (S.map (fun v : Nat => (v : Int))) = .ok x ∧ 0 ≤ x ∧
      x ≤ (1 / (1 - R.u)) ^ ((2 * L + 1) * S.length + 1) * s.cond S.toFinset ∧
      s.cond S.toFinset ≤ (1 / (1 - R.u)) ^ ((2 * L + 1) * S.length + 1) * x := by
  have key : ∀ T : List Nat, (∀ v ∈ T, v ∈ S) → ∃ ess : List (List (Edge K)),
      List.Forall₂ (fun v es => lg.neighbors v = .ok es) (T.map (fun v : Nat => (v : Int))) ess ∧
      (∀ es ∈ ess, ∀ e ∈ es, 0 ≤ e.w) ∧ (ess.map List.length).sum ≤ T.length * L := by
    intro T
    induction T with
    | nil => intro _; exact ⟨[], List.Forall₂.nil, by simp, by simp⟩
    | cons v T ih =>
      intro hT
      obtain ⟨ess, h1, h2, h3⟩ := ih (fun v hv => hT v (by simp [hv]))
      have hvS := hT v (by simp)
      obtain ⟨es, hes, _, hnl⟩ := h.nbrs v (hS v hvS)
      refine ⟨es :: ess, List.Forall₂.cons hes h1, ?_, ?_⟩
      · intro es' he' e he
        rcases List.mem_cons.1 he' with rfl | he'
        · have := (hnl.2 e.v2 e.w).1 (List.mem_map.2 ⟨e, he, rfl⟩)
          rw [← this.2.1]
          exact hw _ _
        · exact h2 es' he' e he
      · rw [List.map_cons, List.sum_cons, List.length_cons, Nat.add_mul]
        have := hL v hvS es hes
        omega
  obtain ⟨ess, h1, h2, h3⟩ := key S (fun _ h => h)
  obtain ⟨x, y, e1, e2, e3, e4, e5, e6⟩ := C77_conductance_value (R := R) h1 h2
  rw [C33_conductance h hS hd hl] at e2
  cases e2
  rw [List.length_map] at e5 e6
  have hN : R.Near (2 * (ess.map List.length).sum + S.length + 1) x (s.cond S.toFinset) :=
    ⟨e3, e4, e5, e6⟩
  have hN' := hN.mono (l := (2 * L + 1) * S.length + 1) (by nlinarith)
  exact ⟨x, e1, e3, hN'.le, hN'.ge⟩

/-! ## Sweep sets -/

/-- **C77** (sweep, local graph).  Suppose degrees are off by at most `k` rounding errors and no
vertex considered has more than `L` neighbours.  With `m` vertices in the order of the sweep and
`η = (1 - u)^(-(m (2 + k + 2 L) + k + 1)) - 1 < 1`, the rounded sweep returns a prefix whose exact
conductance (cut over volume) is within `2 η` of the least one, and the empty set only if no prefix
has positive volume. -/
theorem C77_sweep {k L : Nat} {lg : LGraph K} {s : WGraph K} {D : Nat → K} (h : lg.AnswersFl s D)
    (hD : ∀ v, v < s.n → R.Near k (D v) (s.deg v)) (hw : ∀ u v, 0 ≤ s.w u v) (vec : SVec K)
    (hsrt : vec.col.Sorted) (hr : ∀ i ∈ vec.indices, i < s.n)
    (hL : ∀ v ∈ vec.indices, ∀ es, lg.neighbors (v : Int) = .ok es → es.length ≤ L) {η : K}
    (hη : η = (1 / (1 - R.u)) ^ (vec.indices.length * (2 + k + 2 * L) + k + 1) - 1) (hη1 : η < 1) :
    ∃ order i, order = sortDesc vec.get vec.indices ∧ i ≤ order.length ∧
      sweepSetLocalFl R.fl lg vec = .ok (order.take i) ∧
      (i = 0 → ∀ j, j ≤ order.length → s.vol (order.take j).toFinset = 0) ∧
      (0 < i → 0 < s.vol (order.take i).toFinset) ∧
      (0 < i → ∀ j, j ≤ order.length → 0 < s.vol (order.take j).toFinset →
        s.cond (order.take i).toFinset ≤ s.cond (order.take j).toFinset + 2 * η) := by
  obtain ⟨i, hi, hres, best, hb1, hb2, -⟩ := sweepInnerFl_spec R.fl h vec hr 0
  set order := sortDesc vec.get vec.indices with ho
  have hp : order.Perm vec.indices := sortDesc_perm _ _
  have hlen : order.length = vec.indices.length := hp.length_eq
  have hnd : order.Nodup := by
    rw [hp.nodup_iff]
    unfold SVec.indices List.Nodup
    rw [List.pairwise_map]
    exact hsrt.imp (fun h => ne_of_lt h)
  have hLn : ∀ v ∈ vec.indices, (lg.nb v).length ≤ L := by
    intro v hv
    obtain ⟨es, hes, _⟩ := h.nbrs v (hr v hv)
    have hnb : lg.nb v = es := by unfold LGraph.nb; rw [hes]
    rw [hnb]
    exact hL v hv es hes
  have herr : ∀ j, j ≤ order.length →
      |sweepC R.fl lg D order j - s.cut (order.take j).toFinset| ≤
        (R.g ^ (order.length * (1 + k + 2 * L)) - 1) * s.vol (order.take j).toFinset ∧
      R.Near (k + order.length) (sweepV R.fl lg D order j) (s.vol (order.take j).toFinset) := by
    intro j hj
    have hmem : ∀ v ∈ (order.take j).reverse, v ∈ vec.indices := by
      intro v hv
      exact hp.mem_iff.1 (List.mem_of_mem_take (List.mem_reverse.1 hv))
    have := sweepTrack_err (R := R) h hD hw (order.take j).reverse
      (List.nodup_reverse.2 (hnd.sublist (List.take_sublist j order)))
      (fun v hv => hr v (hmem v hv)) (fun v hv => hLn v (hmem v hv))
    rw [List.toFinset_reverse, List.length_reverse, List.length_take, Nat.min_eq_left hj] at this
    refine ⟨le_trans this.1 (mul_le_mul_of_nonneg_right ?_ (WGraph.vol_nonneg hw _)),
      this.2.mono (by omega)⟩
    have := pow_le_pow_right₀ (Rounding.one_le_g (R := R))
      (Nat.mul_le_mul_right (1 + k + 2 * L) hj)
    linarith
  have hden : ∀ j, sweepD R.fl lg D 0 order j = sweepV R.fl lg D order j := by
    intro j; unfold sweepD; rw [if_pos rfl]
  simp only [hden] at hb1 hb2
  have hcond : ∀ S, 0 < s.vol S → s.cond S = s.cut S / s.vol S := fun S hS => by
    unfold WGraph.cond; rw [if_neg hS.ne']
  have hrat : ∀ j, j ≤ order.length → 0 < s.vol (order.take j).toFinset →
      |R.fl (sweepC R.fl lg D order j / sweepV R.fl lg D order j) -
        s.cond (order.take j).toFinset| ≤ η := by
    intro j hj hpos
    obtain ⟨c0, c1⟩ := WGraph.cut_le_vol hw (order.take j).toFinset
    have := ratio_err (herr j hj).1 (herr j hj).2 c0 c1 hpos
    rw [hcond _ hpos, hη]
    have hexp : order.length * (1 + k + 2 * L) + (k + order.length) + 1 =
        vec.indices.length * (2 + k + 2 * L) + k + 1 := by rw [hlen]; ring
    rw [hexp] at this
    exact this
  have hone : ∀ j, 0 < s.vol (order.take j).toFinset → 1 ≤ j := by
    intro j hpos
    by_contra hc
    obtain rfl : j = 0 := by omega
    simp [WGraph.vol] at hpos
  refine ⟨order, i, rfl, by omega, hres, ?_, ?_, ?_⟩
  · rintro rfl j hj
    by_contra hne
    have hpos := lt_of_le_of_ne (WGraph.vol_nonneg hw (order.take j).toFinset) (Ne.symm hne)
    have k1 := hb2 j (hone j hpos) (by omega) ((herr j hj).2.pos hpos)
    have k2 := abs_le.1 (hrat j hj hpos)
    have k3 : s.cond (order.take j).toFinset ≤ 1 := by
      rw [hcond _ hpos]
      exact (div_le_one hpos).2 (WGraph.cut_le_vol hw _).2
    rcases hb1 with h1 | h1
    · rw [h1.2] at k1
      linarith [k2.2]
    · omega
  · intro h0
    rcases hb1 with h1 | h1
    · omega
    · exact (herr i (by omega)).2.symm.pos h1.2.2.1
  · intro h0 j hj hpos
    rcases hb1 with h1 | h1
    · omega
    · have hposi := (herr i (by omega)).2.symm.pos h1.2.2.1
      have k1 := hb2 j (hone j hpos) (by omega) ((herr j hj).2.pos hpos)
      rw [h1.2.2.2] at k1
      have k2 := abs_le.1 (hrat j hj hpos)
      have k3 := abs_le.1 (hrat i (by omega) hposi)
      linarith [k2.2, k3.1]

/-! ## Weights which are multiples of a common unit -/

/-- The weights are multiples of `q > 0`, no prefix sum of degrees exceeds `B q`, and multiples of `q`
up to `B q` are not rounded.  For instance `q = 1`, `B = 2^53` and an unweighted graph with less than
`2^52` edges. -/
structure UnitWeights (fl : K → K) (s : WGraph K) (q : K) (B : Nat) : Prop where
  pos : 0 < q
  nonneg : ∀ u v, 0 ≤ s.w u v
  mult : ∀ u v, ∃ m : Nat, s.w u v = m * q
  bound : s.vol (Finset.range s.n) ≤ B * q
  fix : ∀ m : Nat, m ≤ B → fl (m * q) = m * q

namespace UnitWeights
variable {fl : K → K} {s : WGraph K} {q : K} {B : Nat}

/-- An integer multiple of `q`. -/
def IsMult (q x : K) : Prop := ∃ m : Int, x = m * q

theorem IsMult.add {x y : K} (hx : IsMult q x) (hy : IsMult q y) : IsMult q (x + y) := by
  obtain ⟨a, rfl⟩ := hx
  obtain ⟨b, rfl⟩ := hy
  exact ⟨a + b, by push_cast; ring⟩

theorem IsMult.sub {x y : K} (hx : IsMult q x) (hy : IsMult q y) : IsMult q (x - y) := by
  obtain ⟨a, rfl⟩ := hx
  obtain ⟨b, rfl⟩ := hy
  exact ⟨a - b, by push_cast; ring⟩

theorem IsMult.zero : IsMult q 0 := ⟨0, by simp⟩

theorem IsMult.two_mul {x : K} (hx : IsMult q x) : IsMult q (2 * x) := by
  rw [_root_.two_mul]; exact hx.add hx

theorem IsMult.sum {ι : Type} (S : Finset ι) (f : ι → K) (h : ∀ i ∈ S, IsMult q (f i)) :
    IsMult q (∑ i ∈ S, f i) :=
  Finset.sum_induction f (IsMult q) (fun _ _ => IsMult.add) IsMult.zero h

theorem w (h : UnitWeights fl s q B) (u v : Nat) : IsMult q (s.w u v) := by
  obtain ⟨m, hm⟩ := h.mult u v
  exact ⟨m, by rw [hm]; push_cast; ring⟩

theorem deg (h : UnitWeights fl s q B) (v : Nat) : IsMult q (s.deg v) := by
  unfold WGraph.deg
  exact (IsMult.sum _ _ (fun u _ => h.w v u)).add (h.w v v)

theorem vol (h : UnitWeights fl s q B) (S : Finset Nat) : IsMult q (s.vol S) :=
  IsMult.sum _ _ (fun v _ => h.deg v)

theorem cut (h : UnitWeights fl s q B) (S : Finset Nat) : IsMult q (s.cut S) :=
  IsMult.sum _ _ (fun u _ => IsMult.sum _ _ (fun v _ => h.w u v))

theorem fixed (h : UnitWeights fl s q B) {x : K} (hx : IsMult q x) (h0 : 0 ≤ x)
    (h1 : x ≤ s.vol (Finset.range s.n)) : fl x = x := by
  obtain ⟨m, rfl⟩ := hx
  have hm0 : 0 ≤ m := by
    have := le_of_mul_le_mul_right (by rw [zero_mul]; exact h0 : (0 : K) * q ≤ m * q) h.pos
    exact_mod_cast this
  have hmB : m ≤ B := by
    have := le_of_mul_le_mul_right (le_trans h1 h.bound) h.pos
    exact_mod_cast this
  have e : ((m.toNat : Nat) : K) = (m : K) := by
    have : ((m.toNat : Nat) : Int) = m := Int.toNat_of_nonneg hm0
    exact_mod_cast congrArg (Int.cast : Int → K) this
  have := h.fix m.toNat (by omega)
  rwa [e] at this

theorem vol_le (h : UnitWeights fl s q B) {S : Finset Nat} (hS : S ⊆ Finset.range s.n) :
    s.vol S ≤ s.vol (Finset.range s.n) :=
  Finset.sum_le_sum_of_subset_of_nonneg hS (fun x _ _ => WGraph.degree_nonneg h.nonneg x)

theorem deg_le (h : UnitWeights fl s q B) {v : Nat} (hv : v < s.n) :
    s.deg v ≤ s.vol (Finset.range s.n) := by
  have := h.vol_le (S := {v}) (by simpa using hv)
  simpa [WGraph.vol] using this

theorem sweepCutFl_eq (h : UnitWeights fl s q B) (set : List Nat) (es : List (Edge K))
    (hw : ∀ e ∈ es, 0 ≤ e.w ∧ IsMult q e.w) : ∀ {y : K}, IsMult q y →
    y ≤ s.vol (Finset.range s.n) →
    0 ≤ y - 2 * (es.map (fun e => if e.v2 ∈ set then e.w else 0)).sum →
    sweepCutFl fl set es y =
      y - 2 * (es.map (fun e => if e.v2 ∈ set then e.w else 0)).sum := by
  induction es with
  | nil => intro y _ _ _; simp [sweepCutFl]
  | cons e es ih =>
    intro y hy hyV h0
    obtain ⟨hw0, hwm⟩ := hw e (by simp)
    have hes : ∀ e ∈ es, 0 ≤ e.w ∧ IsMult q e.w := fun e he => hw e (by simp [he])
    have hs0 : 0 ≤ (es.map (fun e => if e.v2 ∈ set then e.w else 0)).sum := by
      apply List.sum_nonneg
      intro z hz
      obtain ⟨e', he', rfl⟩ := List.mem_map.1 hz
      split_ifs
      · exact (hes e' he').1
      · exact le_refl _
    rw [List.map_cons, List.sum_cons] at h0 ⊢
    unfold sweepCutFl
    by_cases hm : e.v2 ∈ set
    · simp only [if_pos hm] at h0 ⊢
      rw [h.fixed hwm.two_mul (by linarith) (by linarith),
        h.fixed (hy.sub hwm.two_mul) (by linarith) (by linarith),
        ih hes (hy.sub hwm.two_mul) (by linarith) (by linarith)]
      ring
    · simp only [if_neg hm, zero_add] at h0 ⊢
      exact ih hes hy hyV h0

/-- Cut and volume of every prefix are computed exactly. -/
theorem sweepTrack_eq (h : UnitWeights fl s q B) {lg : LGraph K} (ha : lg.AnswersFl s s.deg)
    (l : List Nat) (hl : l.Nodup) (hr : ∀ v ∈ l, v < s.n) :
    sweepTrack fl lg s.deg l = (s.cut l.toFinset, s.vol l.toFinset) := by
  induction l with
  | nil => simp [sweepTrack, WGraph.cut, WGraph.vol]
  | cons v l ih =>
    rw [List.nodup_cons] at hl
    have ih' := ih hl.2 (fun v hv => hr v (by simp [hv]))
    have hv : v < s.n := hr v (by simp)
    have hvl : v ∉ l.toFinset := by simpa using hl.1
    have hsub : l.toFinset ⊆ Finset.range s.n := by
      intro x hx
      rw [List.mem_toFinset] at hx
      exact Finset.mem_range.2 (hr x (by simp [hx]))
    have hsub' : (v :: l).toFinset ⊆ Finset.range s.n := by
      intro x hx
      rw [List.mem_toFinset] at hx
      exact Finset.mem_range.2 (hr x hx)
    have hfin : (v :: l).toFinset = insert v l.toFinset := by simp
    have hvol : s.vol (v :: l).toFinset = s.vol l.toFinset + s.deg v := by
      rw [hfin, s.vol_insert hvl]
    have hcut : s.cut (v :: l).toFinset = s.cut l.toFinset + s.deg v -
        2 * ((lg.nb v).map (fun e => if e.v2 ∈ v :: l then e.w else 0)).sum := by
      rw [hfin, WGraph.cut_insert ha.symm hsub hv hvl,
        nb_sum ha hv (fun x hx => hr x (by simp [hx]))]
    have hdv := WGraph.degree_nonneg h.nonneg v
    have hV := h.vol_le hsub'
    have hvl0 := WGraph.vol_nonneg h.nonneg l.toFinset
    obtain ⟨hc0, hc1⟩ := WGraph.cut_le_vol h.nonneg l.toFinset
    obtain ⟨hc0', _⟩ := WGraph.cut_le_vol h.nonneg (v :: l).toFinset
    unfold sweepTrack
    rw [ih']
    simp only
    rw [h.fixed ((h.cut _).add (h.deg v)) (by linarith) (by linarith),
      h.fixed ((h.vol _).add (h.deg v)) (by linarith) (by linarith), ← hvol,
      h.sweepCutFl_eq (v :: l) (lg.nb v) _ ((h.cut _).add (h.deg v)) (by linarith)
        (by rw [← hcut]; exact hc0'), ← hcut]
    intro e he
    obtain ⟨es, hes, _, hnl⟩ := ha.nbrs v hv
    have hnb : lg.nb v = es := by unfold LGraph.nb; rw [hes]
    rw [hnb] at he
    have := (hnl.2 e.v2 e.w).1 (List.mem_map.2 ⟨e, he, rfl⟩)
    rw [← this.2.1]
    exact ⟨h.nonneg _ _, h.w _ _⟩

/-- A rounded sum of multiples of `q` which stays below the bound is exact. -/
theorem sumFl_eq (h : UnitWeights fl s q B) (xs : List K) (hx : ∀ x ∈ xs, 0 ≤ x ∧ IsMult q x) :
    ∀ {acc : K}, 0 ≤ acc → IsMult q acc → acc + xs.sum ≤ s.vol (Finset.range s.n) →
      sumFl fl xs acc = acc + xs.sum := by
  induction xs with
  | nil => intro acc _ _ _; simp [sumFl]
  | cons x xs ih =>
    intro acc h0 hm hb
    obtain ⟨x0, xm⟩ := hx x (by simp)
    have hs : 0 ≤ xs.sum := List.sum_nonneg (fun y hy => (hx y (by simp [hy])).1)
    rw [List.sum_cons] at hb ⊢
    unfold sumFl
    rw [h.fixed (hm.add xm) (by linarith) (by linarith),
      ih (fun y hy => hx y (by simp [hy])) (by linarith) (hm.add xm) (by linarith)]
    ring

end UnitWeights

/-- What the sweep settles on when cut and volume are exact. -/
theorem UnitWeights.best {s : WGraph K} {q : K} {B : Nat} (h : UnitWeights R.fl s q B) {lg : LGraph K}
    (ha : lg.AnswersFl s s.deg) (vec : SVec K) (hsrt : vec.col.Sorted)
    (hr : ∀ i ∈ vec.indices, i < s.n) {total : K}
    (ht : total = 0 ∨ total = s.vol (Finset.range s.n)) :
    ∃ order i, order = sortDesc vec.get vec.indices ∧ i ≤ order.length ∧
      sweepInnerFl R.fl lg vec total = .ok (order.take i) ∧
      (i = 0 → ∀ j, j ≤ order.length → ¬ 0 < s.sweepDen total (order.take j).toFinset) ∧
      (0 < i → 0 < s.sweepDen total (order.take i).toFinset) ∧
      (0 < i → ∀ j, j ≤ order.length → 0 < s.sweepDen total (order.take j).toFinset →
        R.fl (s.cut (order.take i).toFinset / s.sweepDen total (order.take i).toFinset) ≤
          R.fl (s.cut (order.take j).toFinset / s.sweepDen total (order.take j).toFinset) ∧
        (j < i →
          s.cut (order.take i).toFinset / s.sweepDen total (order.take i).toFinset <
            s.cut (order.take j).toFinset / s.sweepDen total (order.take j).toFinset)) := by
  obtain ⟨i, hi, hres, best, hb1, hb2, hb3⟩ := sweepInnerFl_spec R.fl ha vec hr total
  set order := sortDesc vec.get vec.indices with ho
  have hp : order.Perm vec.indices := sortDesc_perm _ _
  have hlen : order.length = vec.indices.length := hp.length_eq
  have hnd : order.Nodup := by
    rw [hp.nodup_iff]
    unfold SVec.indices List.Nodup
    rw [List.pairwise_map]
    exact hsrt.imp (fun h => ne_of_lt h)
  have hsub : ∀ j, (order.take j).toFinset ⊆ Finset.range s.n := by
    intro j x hx
    rw [List.mem_toFinset] at hx
    exact Finset.mem_range.2 (hr x (hp.mem_iff.1 (List.mem_of_mem_take hx)))
  have htrack : ∀ j, sweepTrack R.fl lg s.deg (order.take j).reverse =
      (s.cut (order.take j).toFinset, s.vol (order.take j).toFinset) := by
    intro j
    rw [h.sweepTrack_eq ha _ (List.nodup_reverse.2 (hnd.sublist (List.take_sublist j order)))
      (fun v hv => hr v (hp.mem_iff.1 (List.mem_of_mem_take (List.mem_reverse.1 hv)))),
      List.toFinset_reverse]
  have hC : ∀ j, sweepC R.fl lg s.deg order j = s.cut (order.take j).toFinset := by
    intro j; unfold sweepC; rw [htrack]
  have hV : ∀ j, sweepV R.fl lg s.deg order j = s.vol (order.take j).toFinset := by
    intro j; unfold sweepV; rw [htrack]
  have hDn : ∀ j, sweepD R.fl lg s.deg total order j = s.sweepDen total (order.take j).toFinset := by
    intro j
    unfold sweepD WGraph.sweepDen
    rw [hV]
    split_ifs with h0
    · rfl
    · rcases ht with ht | ht
      · exact absurd ht h0
      · have k1 := h.vol_le (hsub j)
        have k2 := WGraph.vol_nonneg h.nonneg (order.take j).toFinset
        rw [ht, h.fixed ((h.vol _).sub (h.vol _)) (by linarith) (by linarith)]
  simp only [hC, hDn] at hb1 hb2 hb3
  have hle : ∀ j, 0 < s.sweepDen total (order.take j).toFinset →
      s.cut (order.take j).toFinset / s.sweepDen total (order.take j).toFinset ≤ 1 := by
    intro j hpos
    rw [div_le_one hpos]
    unfold WGraph.sweepDen
    split_ifs with h0
    · exact (WGraph.cut_le_vol h.nonneg _).2
    · rcases ht with ht | ht
      · exact absurd ht h0
      · refine le_min (WGraph.cut_le_vol h.nonneg _).2 ?_
        rw [ht, s.vol_compl (hsub j), ← WGraph.cut_compl ha.symm (hsub j)]
        exact (WGraph.cut_le_vol h.nonneg _).2
  have hone : ∀ j, 0 < s.sweepDen total (order.take j).toFinset → 1 ≤ j := by
    intro j hpos
    by_contra hc
    obtain rfl : j = 0 := by omega
    have h0 : s.sweepDen total (order.take 0).toFinset ≤ 0 := by
      have e : s.vol (order.take 0).toFinset = 0 := by simp [WGraph.vol]
      unfold WGraph.sweepDen
      split_ifs
      · exact e.le
      · exact le_trans (min_le_left _ _) e.le
    exact absurd hpos (not_lt.2 h0)
  refine ⟨order, i, rfl, by omega, hres, ?_, ?_, ?_⟩
  · rintro rfl j hj hpos
    have k1 := hb2 j (hone j hpos) (by omega) hpos
    have k2 := R.mono _ _ (hle j hpos)
    have k3 := R.err 1
    rw [abs_one, mul_one, abs_le] at k3
    rcases hb1 with h1 | h1
    · rw [h1.2] at k1
      linarith [k3.2, R.u1]
    · omega
  · intro h0
    rcases hb1 with h1 | h1
    · omega
    · exact h1.2.2.1
  · intro h0 j hj hpos
    rcases hb1 with h1 | h1
    · omega
    · rw [h1.2.2.2] at hb2 hb3
      refine ⟨hb2 j (hone j hpos) (by omega) hpos, fun hlt => ?_⟩
      have := hb3 j (hone j hpos) hlt hpos
      by_contra hc
      exact absurd (R.mono _ _ (not_lt.1 hc)) (not_le.2 this)

theorem Rounding.le_of_fl_le {x y : K} (hx : 0 ≤ x) (hy : 0 ≤ y) (h : R.fl x ≤ R.fl y) :
    x ≤ (1 / (1 - R.u)) ^ 2 * y := by
  have h1 := (Rounding.near_fl (R := R) hx).ge
  have h2 := (Rounding.near_fl (R := R) hy).le
  have h3 : R.g * R.fl x ≤ R.g * (R.g * y) := by
    apply mul_le_mul_of_nonneg_left _ Rounding.g_pos.le
    rw [pow_one] at h2
    exact le_trans h h2
  rw [pow_one] at h1
  change x ≤ R.g ^ 2 * y
  rw [pow_two, mul_assoc]
  exact le_trans h1 h3

/-- **C77** (sweep, local graph, weights with a common unit).  If the weights are multiples of a
common unit and sums of degrees are representable, the rounded sweep returns the prefix of least
conductance (cut over volume) up to a relative error of two roundings, in the following sense: no
prefix has a conductance which is smaller by more than the factor `(1 - u)^2`, and each shorter
prefix has a strictly larger one. -/
theorem C77_unit_local {lg : LGraph K} {s : WGraph K} {q : K} {B : Nat}
    (h : UnitWeights R.fl s q B) (ha : lg.AnswersFl s s.deg) (vec : SVec K) (hsrt : vec.col.Sorted)
    (hr : ∀ i ∈ vec.indices, i < s.n) :
    ∃ order i, order = sortDesc vec.get vec.indices ∧ i ≤ order.length ∧
      sweepSetLocalFl R.fl lg vec = .ok (order.take i) ∧
      (i = 0 → ∀ j, j ≤ order.length → s.vol (order.take j).toFinset = 0) ∧
      (0 < i → 0 < s.vol (order.take i).toFinset) ∧
      (0 < i → ∀ j, j ≤ order.length → 0 < s.vol (order.take j).toFinset →
        s.cond (order.take i).toFinset ≤ (1 / (1 - R.u)) ^ 2 * s.cond (order.take j).toFinset ∧
        (j < i → s.cond (order.take i).toFinset < s.cond (order.take j).toFinset)) := by
  obtain ⟨order, i, ho, hi, hres, h0, h1, h2⟩ := h.best ha vec hsrt hr (total := 0) (Or.inl rfl)
  have hden : ∀ S, s.sweepDen 0 S = s.vol S := fun S => by unfold WGraph.sweepDen; rw [if_pos rfl]
  have hcond : ∀ S, 0 < s.vol S → s.cond S = s.cut S / s.vol S := fun S hS => by
    unfold WGraph.cond; rw [if_neg hS.ne']
  simp only [hden] at h0 h1 h2
  refine ⟨order, i, ho, hi, hres, ?_, h1, ?_⟩
  · intro hz j hj
    have := h0 hz j hj
    exact le_antisymm (not_lt.1 this) (WGraph.vol_nonneg h.nonneg _)
  · intro hpos j hj hvj
    obtain ⟨k1, k2⟩ := h2 hpos j hj hvj
    rw [hcond _ (h1 hpos), hcond _ hvj]
    refine ⟨Rounding.le_of_fl_le ?_ ?_ k1, k2⟩
    · exact div_nonneg (WGraph.cut_le_vol h.nonneg _).1 (h1 hpos).le
    · exact div_nonneg (WGraph.cut_le_vol h.nonneg _).1 hvj.le

/-! ## Graphs in memory -/

theorem Graph.asLocalFl_answers {fl : K → K} {g : Graph K} (hv : g.Valid) (hz : g.adj.NoZeros) :
    (g.asLocalFl fl).AnswersFl g.abs (g.degFl fl) where
  symm := Graph.abs_symm hv
  range := Graph.abs_range hv
  nbrs := (Graph.asLocal_answers hv).nbrs
  deg v hvn := by
    have hd := (Graph.asLocal_answers hv).deg v hvn
    change (g.checkVertex (v : Int) >>= fun _ => Outcome.ok (g.degFl fl ((v : Int).toNat))) = _
    change (g.checkVertex (v : Int) >>= _) = _ at hd
    cases hc : g.checkVertex (v : Int) with
    | ok x => rfl
    | throw e => rw [hc] at hd; cases hd
    | ub => rw [hc] at hd; cases hd
  exist := (Graph.asLocal_answers hv).exist
  nbrsU := (Graph.asLocal_answersAll hv hz).nbrsU

/-- Adding zeros changes nothing. -/
theorem sumFl_filter (xs : List K) : ∀ {acc : K}, R.fl acc = acc →
    sumFl R.fl xs acc = sumFl R.fl (xs.filter (fun x => decide (x ≠ 0))) acc := by
  induction xs with
  | nil => intro acc _; rfl
  | cons x xs ih =>
    intro acc hacc
    by_cases hx : x = 0
    · rw [List.filter_cons_of_neg (by simpa using hx)]
      conv => lhs; unfold sumFl
      rw [hx, add_zero, hacc]
      exact ih hacc
    · rw [List.filter_cons_of_pos (by simpa using hx)]
      unfold sumFl
      exact ih (R.idem _)

/-- **C77** (degrees of a graph in memory).  The computed degree of a vertex with `d` neighbours is
the exact one up to `d + 1` rounding errors. -/
theorem C77_degree {g : Graph K} (hv : g.Valid) (hw : ∀ u v, 0 ≤ g.abs.w u v) {v : Nat}
    (hvn : v < g.n) :
    (g.asLocalFl R.fl).degree (v : Int) = .ok (g.degFl R.fl v) ∧
    R.Near (((Finset.range g.n).filter (fun u => g.abs.w v u ≠ 0)).card + 1) (g.degFl R.fl v)
      (g.abs.deg v) := by
  constructor
  · have hd := (Graph.asLocal_answers hv).deg v hvn
    change (g.checkVertex (v : Int) >>= fun _ => Outcome.ok (g.degFl R.fl ((v : Int).toNat))) = _
    change (g.checkVertex (v : Int) >>= _) = _ at hd
    cases hc : g.checkVertex (v : Int) with
    | ok x => rfl
    | throw e => rw [hc] at hd; cases hd
    | ub => rw [hc] at hd; cases hd
  · have hws : ∀ x ∈ (List.range g.n).map (fun c => g.abs.w v c), 0 ≤ x := by
      intro x hx
      obtain ⟨c, _, rfl⟩ := List.mem_map.1 hx
      exact hw v c
    have h1 := C76_degree_sum R
      (((List.range g.n).map (fun c => g.abs.w v c)).filter (fun x => decide (x ≠ 0)))
      (fun x hx => hws x (List.mem_of_mem_filter hx))
    have h2 : (((List.range g.n).map (fun c => g.abs.w v c)).filter (fun x => decide (x ≠ 0))).sum =
        ∑ c ∈ Finset.range g.n, g.abs.w v c := by
      rw [← sum_list_range]
      generalize (List.range g.n).map (fun c => g.abs.w v c) = l
      induction l with
      | nil => rfl
      | cons x l ih =>
        by_cases hx : x = 0
        · rw [List.filter_cons_of_neg (by simpa using hx), ih, List.sum_cons, hx, zero_add]
        · rw [List.filter_cons_of_pos (by simpa using hx), List.sum_cons, List.sum_cons, ih]
    have h3 : (((List.range g.n).map (fun c => g.abs.w v c)).filter
        (fun x => decide (x ≠ 0))).length =
        ((Finset.range g.n).filter (fun u => g.abs.w v u ≠ 0)).card := by
      rw [List.filter_map, List.length_map]
      have : (Finset.range g.n).filter (fun u => g.abs.w v u ≠ 0) =
          ((List.range g.n).filter (fun u => decide (g.abs.w v u ≠ 0))).toFinset := by
        ext u; simp
      rw [this, List.toFinset_card_of_nodup (List.nodup_range.filter _)]
      rfl
    rw [h2, h3, ← sumFl_filter _ Rounding.fl_zero] at h1
    unfold Graph.degFl WGraph.deg
    rw [hv.cols]
    exact (h1.add (Rounding.Near.refl (hw v v))).fl

theorem UnitWeights.degFl_eq {g : Graph K} (hv : g.Valid) {q : K} {B : Nat} {fl : K → K}
    (h : UnitWeights fl g.abs q B) {v : Nat} (hvn : v < g.n) : g.degFl fl v = g.abs.deg v := by
  have hle := h.deg_le hvn
  have e : ((List.range g.n).map (fun c => g.abs.w v c)).sum = ∑ c ∈ Finset.range g.abs.n, g.abs.w v c :=
    sum_list_range _ _
  have hw := h.nonneg v v
  have h0 : 0 ≤ ∑ c ∈ Finset.range g.abs.n, g.abs.w v c :=
    Finset.sum_nonneg (fun c _ => h.nonneg v c)
  have hd : g.abs.deg v = ∑ c ∈ Finset.range g.abs.n, g.abs.w v c + g.abs.w v v := rfl
  have h1 := h.sumFl_eq ((List.range g.n).map (fun c => g.abs.w v c)) (by
    intro x hx
    obtain ⟨c, _, rfl⟩ := List.mem_map.1 hx
    exact ⟨h.nonneg v c, h.w v c⟩) (le_refl 0) UnitWeights.IsMult.zero (by
      rw [zero_add, e]; linarith)
  rw [zero_add, e] at h1
  have h2 : sumFl fl ((List.range g.adj.cols).map (fun c => g.adj.coeff v c)) 0 =
      ∑ c ∈ Finset.range g.abs.n, g.abs.w v c := by rw [hv.cols]; exact h1
  unfold Graph.degFl
  rw [h2]
  exact h.fixed (h.deg v) (WGraph.degree_nonneg h.nonneg v) hle

/-- **C77** (sweep, graph in memory, weights with a common unit).  `sweep_set_conductance(Graph*)`
returns the prefix of least conductance (cut over the smaller of the volumes of the set and of its
complement) up to a relative error of two roundings; each shorter prefix has a strictly larger
conductance; and the result is empty only if no prefix has both volumes positive. -/
theorem C77_unit_graph {g : Graph K} (hv : g.Valid) (hz : g.adj.NoZeros) {q : K} {B : Nat}
    (h : UnitWeights R.fl g.abs q B) (vec : SVec K) (hsrt : vec.col.Sorted)
    (hr : ∀ i ∈ vec.indices, i < g.n) :
    ∃ order i, order = sortDesc vec.get vec.indices ∧ i ≤ order.length ∧
      sweepSetGraphFl R.fl g vec = .ok (order.take i) ∧
      (i = 0 → ∀ j, j ≤ order.length → min (g.abs.vol (order.take j).toFinset)
        (g.abs.vol (Finset.range g.n \ (order.take j).toFinset)) = 0) ∧
      (0 < i → 0 < min (g.abs.vol (order.take i).toFinset)
        (g.abs.vol (Finset.range g.n \ (order.take i).toFinset))) ∧
      (0 < i → ∀ j, j ≤ order.length → 0 < min (g.abs.vol (order.take j).toFinset)
          (g.abs.vol (Finset.range g.n \ (order.take j).toFinset)) →
        g.abs.phi (order.take i).toFinset ≤
          (1 / (1 - R.u)) ^ 2 * g.abs.phi (order.take j).toFinset ∧
        (j < i → g.abs.phi (order.take i).toFinset < g.abs.phi (order.take j).toFinset)) := by
  have hD : ∀ v, v < g.n → g.degFl R.fl v = g.abs.deg v := fun v hvn => h.degFl_eq hv hvn
  have ha0 := Graph.asLocalFl_answers (fl := R.fl) hv hz
  have ha : (g.asLocalFl R.fl).AnswersFl g.abs g.abs.deg :=
    ⟨ha0.symm, ha0.range, ha0.nbrs, fun v hvn => by rw [ha0.deg v hvn, hD v hvn], ha0.exist, ha0.nbrsU⟩
  have htot : g.totalVolumeFl R.fl = g.abs.vol (Finset.range g.abs.n) := by
    unfold Graph.totalVolumeFl
    have e1 : (List.range g.n).map (g.degFl R.fl) = (List.range g.n).map g.abs.deg :=
      List.map_congr_left (fun v hvm => hD v (List.mem_range.1 hvm))
    have e2 : ((List.range g.n).map g.abs.deg).sum = g.abs.vol (Finset.range g.abs.n) :=
      sum_list_range _ _
    rw [e1, h.sumFl_eq _ _ (le_refl 0) UnitWeights.IsMult.zero (by rw [zero_add, e2]), zero_add, e2]
    intro x hx
    obtain ⟨c, _, rfl⟩ := List.mem_map.1 hx
    exact ⟨WGraph.degree_nonneg h.nonneg c, h.deg c⟩
  obtain ⟨order, i, ho, hi, hres, h0, h1, h2⟩ := h.best ha vec hsrt hr
    (total := g.totalVolumeFl R.fl) (Or.inr htot)
  have hp : order.Perm vec.indices := by rw [ho]; exact sortDesc_perm _ _
  have hsub : ∀ j, (order.take j).toFinset ⊆ Finset.range g.abs.n := by
    intro j x hx
    rw [List.mem_toFinset] at hx
    exact Finset.mem_range.2 (hr x (hp.mem_iff.1 (List.mem_of_mem_take hx)))
  have hnn : ∀ j, 0 ≤ min (g.abs.vol (order.take j).toFinset)
      (g.abs.vol (Finset.range g.n \ (order.take j).toFinset)) := fun j =>
    le_min (WGraph.vol_nonneg h.nonneg _) (WGraph.vol_nonneg h.nonneg _)
  have hden : ∀ j, g.abs.sweepDen (g.totalVolumeFl R.fl) (order.take j).toFinset =
      min (g.abs.vol (order.take j).toFinset)
        (g.abs.vol (Finset.range g.n \ (order.take j).toFinset)) := by
    intro j
    have hc := g.abs.vol_compl (hsub j)
    have k1 := WGraph.vol_nonneg h.nonneg (order.take j).toFinset
    have k2 := WGraph.vol_nonneg h.nonneg (Finset.range g.n \ (order.take j).toFinset)
    change g.abs.vol (Finset.range g.abs.n) - _ = g.abs.vol (Finset.range g.n \ _) at hc
    unfold WGraph.sweepDen
    rw [htot, hc]
    split_ifs with hz
    · rw [hz] at hc
      rw [min_eq_left (by linarith)]
    · rfl
  simp only [hden] at h0 h1 h2
  refine ⟨order, i, ho, hi, hres, ?_, h1, ?_⟩
  · intro hz j hj
    exact le_antisymm (not_lt.1 (h0 hz j hj)) (hnn j)
  · intro hpos j hj hvj
    obtain ⟨k1, k2⟩ := h2 hpos j hj hvj
    unfold WGraph.phi
    refine ⟨Rounding.le_of_fl_le ?_ ?_ k1, k2⟩
    · exact div_nonneg (WGraph.cut_le_vol h.nonneg _).1 (hnn i)
    · exact div_nonneg (WGraph.cut_le_vol h.nonneg _).1 (hnn j)

/-- **C77** (binary floating point).  Multiples of a power of two are not rounded up to `2^p` times
that power, so the two theorems above apply to graphs whose weights are such multiples - unweighted
graphs in particular - as long as the total volume is at most `2^p` units. -/
theorem C77_binary_units [FloorRing K] {p : Nat} (hp : 0 < p) (e : Int) (m : Nat) (hm : m ≤ 2 ^ p) :
    flBin p ((m : K) * (2 : K) ^ e) = (m : K) * (2 : K) ^ e := by
  have hf : IsFloat p ((m : K) * (2 : K) ^ e) := by
    rcases Nat.lt_or_ge m (2 ^ p) with h | h
    · refine ⟨(m : Int), e, ?_, by simp⟩
      rw [abs_of_nonneg (by positivity)]
      exact_mod_cast h
    · obtain rfl : m = 2 ^ p := by omega
      refine ⟨1, (p : Int) + e, ?_, ?_⟩
      · rw [abs_one]
        exact_mod_cast Nat.one_lt_two_pow hp.ne'
      · push_cast
        rw [one_mul, zpow_add₀ (two_ne_zero), zpow_natCast]
  have h1 := flBin_nearest hp ((m : K) * (2 : K) ^ e) hf
  rw [sub_self, abs_zero] at h1
  exact sub_eq_zero.1 (abs_eq_zero.1 (le_antisymm h1 (abs_nonneg _)))

/-! ## Local clustering -/

theorem normaliseFl_eq (fl : K → K) (f : Nat → K) (c : Col K) :
    normaliseFl fl c ((c.map Prod.fst).map f) = .ok (c.map (fun e => (e.1, fl (e.2 / f e.1)))) := by
  induction c with
  | nil => simp [normaliseFl]
  | cons e c ih => simp only [List.map_cons, normaliseFl, ih, Outcome.bind_ok]

theorem coeff_normalisedFl (g : Nat → K → K) (h0 : ∀ v, g v 0 = 0) (c : Col K) (v : Nat) :
    Col.coeff (c.map (fun e => (e.1, g e.1 e.2))) v = g v (Col.coeff c v) := by
  induction c with
  | nil => simp [Col.coeff, h0]
  | cons e c ih =>
    rw [List.map_cons, Col.coeff_cons, ih]
    obtain ⟨r, x⟩ := e
    rw [Col.coeff_cons]
    split_ifs with h
    · simp only at h; rw [h]
    · rfl

/-- **C77** (`local_cluster_acl`).  Suppose the graph has no self-loops, degrees are off by at most `k`
rounding errors, no vertex has more than `L` neighbours, `δ > 0` is a lower bound for the degrees of
non-isolated vertices and the precision is sufficient for `locality` and `error` (C76).  Let `M`
bound the number of pushes, `2 (1 - u)^(-(1 + k)) ≤ M locality error δ`, and suppose
`η = (1 - u)^(-(M (2 + k + 2 L) + k + 1)) - 1 < 1`.  Then the call returns in rounded arithmetic, and
the result is a duplicate-free set of existing vertices of volume at most
`2 (1 - u)^(-(1 + k)) / (locality error)`, a prefix of the support of the computed PageRank vector in
the order of the computed quotients of mass and degree, and its conductance is within `2 η` of the
least conductance of such a prefix.  None of the bounds depends on the size of the graph. -/
theorem C77_local_cluster [Archimedean K] {k L M : Nat} {lg : LGraph K} {s : WGraph K} {D : Nat → K}
    {α ε δ η : K} {v : Nat} (h : FlSetting R k lg s D α ε (seedVec v)) (hα : 0 < α)
    (hp : PrecisionOK R k s α ε 1) (hδ : 0 < δ)
    (hmin : ∀ v, v < s.n → 0 < s.deg v → δ ≤ s.deg v)
    (hL : ∀ v, v < s.n → ∀ es, lg.neighbors (v : Int) = .ok es → es.length ≤ L)
    (hM : 2 * (1 / (1 - R.u)) ^ (1 + k) ≤ M * (α * ε * δ))
    (hη : η = (1 / (1 - R.u)) ^ (M * (2 + k + 2 * L) + k + 1) - 1) (hη1 : η < 1) :
    ∃ C p r order i,
      (∃ N, ∀ fuel, N ≤ fuel →
        approximatePagerankFl R.fl lg fuel (seedVec v) α ε = some (.ok (p, r)) ∧
        localClusterAclFl R.fl lg fuel v α ε = some (.ok C)) ∧
      C.Nodup ∧ (∀ u ∈ C, u < s.n) ∧
      α * ε * s.vol C.toFinset ≤ 2 * (1 / (1 - R.u)) ^ (1 + k) ∧
      order.Perm p.indices ∧
      order.Pairwise (fun i j => R.fl (p.get j / D j) ≤ R.fl (p.get i / D i)) ∧
      C = order.take i ∧ (C = [] ↔ order = []) ∧
      ∀ j, 0 < j → j ≤ order.length →
        s.cut C.toFinset / s.vol C.toFinset ≤
          s.cut (order.take j).toFinset / s.vol (order.take j).toFinset + 2 * η := by
  have hvn : v < s.n := h.rows
  have hmass : s.mass (seedVec v : SVec K).get = 1 := mass_seedVec hvn
  rw [← hmass] at hp
  obtain ⟨us, st, ht, _, hus, N, hN⟩ := C76_terminates h hα hp hδ hmin
  have hwork := C76_work h hp ht
  rw [hmass, mul_one] at hus hwork
  have hi := ht.inv h
  have hidx : ∀ u ∈ st.p.indices, u < s.n ∧ 0 < s.deg u := by
    intro u hu
    exact hi.pushed u ((hi.support u).1 hu)
  have hdeg := WGraph.degree_nonneg h.nonneg
  set vec : SVec K := ⟨st.p.rows, st.p.col.map (fun e => (e.1, R.fl (e.2 / D e.1)))⟩ with hvec
  have hind : vec.indices = st.p.indices := by
    simp only [hvec, SVec.indices, List.map_map]
    rfl
  have hget : ∀ u, vec.get u = R.fl (st.p.get u / D u) := fun u =>
    coeff_normalisedFl (fun u x => R.fl (x / D u)) (fun u => by
      simp only [zero_div]; exact Rounding.fl_zero) st.p.col u
  have hsn : sweepNormalisedFl R.fl lg st.p = sweepSetLocalFl R.fl lg vec := by
    unfold sweepNormalisedFl
    rw [h.ans.degrees (fun u hu => (hidx u hu).1), Outcome.bind_ok]
    have := normaliseFl_eq R.fl D st.p.col
    unfold SVec.indices
    rw [this, Outcome.bind_ok]
  have hsorted : vec.col.Sorted := by
    unfold Col.Sorted
    simp only [hvec]
    rw [List.pairwise_map]
    exact hi.pOK.sorted
  have hnodup : st.p.indices.Nodup := by
    unfold SVec.indices List.Nodup
    rw [List.pairwise_map]
    exact hi.pOK.sorted.imp (fun h => ne_of_lt h)
  have hcount : vec.indices.length ≤ M := by
    have h1 : st.p.indices.length ≤ us.length :=
      (hnodup.subperm (fun u hu => (hi.support u).1 hu)).length_le
    have h2 : us.length ≤ M := by
      have h3 := le_trans hus hM
      have := le_of_mul_le_mul_right h3 (mul_pos (mul_pos hα h.ε0) hδ)
      exact_mod_cast this
    rw [hind]
    exact le_trans h1 h2
  have hηle : (1 / (1 - R.u)) ^ (vec.indices.length * (2 + k + 2 * L) + k + 1) - 1 ≤ η := by
    rw [hη]
    have := pow_le_pow_right₀ (Rounding.one_le_g (R := R))
      (by have := Nat.mul_le_mul_right (2 + k + 2 * L) hcount; omega :
        vec.indices.length * (2 + k + 2 * L) + k + 1 ≤ M * (2 + k + 2 * L) + k + 1)
    unfold Rounding.g at this
    linarith
  obtain ⟨order, i, ho, hil, hsw, hi0, hip, him⟩ := C77_sweep (R := R) h.ans h.near h.nonneg vec
    hsorted (by rw [hind]; exact fun u hu => (hidx u hu).1)
    (by rw [hind]; exact fun u hu => hL u (hidx u hu).1) rfl (lt_of_le_of_lt hηle hη1)
  have hperm : order.Perm st.p.indices := by rw [ho, ← hind]; exact sortDesc_perm _ _
  have hvolpos : ∀ j, 0 < j → j ≤ order.length → 0 < s.vol (order.take j).toFinset := by
    intro j hj0 hjl
    cases hord : order with
    | nil => rw [hord] at hjl; simp at hjl; omega
    | cons a l =>
      have haX : a ∈ (order.take j).toFinset := by
        rw [List.mem_toFinset, hord]
        cases j with
        | zero => omega
        | succ j => simp
      have hda : 0 < s.deg a := (hidx a (hperm.mem_iff.1 (by rw [hord]; simp))).2
      have := Finset.single_le_sum (f := s.deg) (fun x _ => hdeg x) haX
      rw [← hord]
      exact lt_of_lt_of_le hda this
  have hipos : order ≠ [] → 0 < i := by
    intro hne
    by_contra hc
    have hz := hi0 (by omega) order.length (le_refl _)
    have := hvolpos order.length (List.length_pos_iff.2 hne) (le_refl _)
    rw [hz] at this
    exact lt_irrefl _ this
  have hnd : order.Nodup := hperm.nodup_iff.2 hnodup
  refine ⟨order.take i, st.p, st.r, order, i, ⟨N, fun fuel hf => ⟨hN fuel hf, ?_⟩⟩,
    hnd.sublist (List.take_sublist i order), ?_, ?_, hperm, ?_, rfl, ?_, ?_⟩
  · unfold localClusterAclFl
    have e : (⟨(v : Int).toNat + 1, [((v : Int).toNat, 1)]⟩ : SVec K) = seedVec v := by simp [seedVec]
    rw [h.ans.exist _ (by omega), if_neg (by simpa using hvn),
      if_neg (not_or.2 ⟨not_lt.2 h.α0, not_lt.2 h.α1⟩), if_neg (not_le.2 h.ε0), e, hN fuel hf]
    simp only
    rw [hsn, hsw]
  · intro u hu
    exact (hidx u (hperm.mem_iff.1 (List.mem_of_mem_take hu))).1
  · refine le_trans (mul_le_mul_of_nonneg_left ?_ (mul_pos hα h.ε0).le) hwork
    have hfs : (order.take i).toFinset ⊆ us.toFinset := by
      intro u hu
      rw [List.mem_toFinset] at hu ⊢
      exact (hi.support u).1 (hperm.mem_iff.1 (List.mem_of_mem_take hu))
    refine le_trans (Finset.sum_le_sum_of_subset_of_nonneg hfs (fun x _ _ => hdeg x)) ?_
    have key : ∀ l : List Nat, ∑ x ∈ l.toFinset, s.deg x ≤ (l.map s.deg).sum := by
      intro l
      induction l with
      | nil => simp
      | cons a l ih =>
        rw [List.toFinset_cons, List.map_cons, List.sum_cons]
        by_cases ha : a ∈ l.toFinset
        · rw [Finset.insert_eq_of_mem ha]; linarith [hdeg a]
        · rw [Finset.sum_insert ha]; linarith
    exact key us
  · have := sortDesc_sorted vec.get vec.indices
    rw [← ho] at this
    exact this.imp (fun h => by rwa [hget, hget] at h)
  · constructor
    · intro hnil
      by_contra hne
      have h1 := hipos hne
      have h2 := List.length_pos_iff.2 hne
      have hl := congrArg List.length hnil
      rw [List.length_take, List.length_nil] at hl
      omega
    · intro hnil; rw [hnil]; simp
  · intro j hj0 hjl
    have hne : order ≠ [] := by rintro rfl; simp at hjl; omega
    have hi1 := hipos hne
    have h2 := him hi1 j hjl (hvolpos j hj0 hjl)
    unfold WGraph.cond at h2
    rw [if_neg (hip hi1).ne', if_neg (hvolpos j hj0 hjl).ne'] at h2
    linarith

end

/-! ## Examples and negative results -/

/-- A triangle with the weights `0.4`, `0.3`, `0.3`, as `double`s. -/
def flTriangle : Graph ℚ :=
  ⟨3, ⟨3, 3, [[(1, flBin 53 (2 / 5)), (2, flBin 53 (3 / 10))],
    [(0, flBin 53 (2 / 5)), (2, flBin 53 (3 / 10))],
    [(0, flBin 53 (3 / 10)), (1, flBin 53 (3 / 10))]]⟩, false⟩

/-- **C77** (negative result).  In `double`s `sweep_set_conductance(Graph*)` can return the whole
vertex set, which is not a cut at all (its complement has volume 0): on the triangle with weights
`0.4`, `0.3` and `0.3`, with the order `2, 0, 1`, the total volume and the sum of the degrees in the
order of the sweep differ by one rounding error, which is taken for the volume of the complement.
In exact arithmetic the same weights give a proper subset. -/
theorem C77_whole_set :
    flTriangle.Valid ∧ flTriangle.Pruned ∧
    sweepSetGraphFl (flBin 53) flTriangle ⟨3, [(0, 2), (1, 1), (2, 3)]⟩ = .ok [2, 0, 1] ∧
    flTriangle.abs.vol (Finset.range 3 \ [2, 0, 1].toFinset) = 0 ∧
    sweepSetGraph flTriangle ⟨3, [(0, 2), (1, 1), (2, 3)]⟩ = .ok [2] :=
  ⟨(Graph.check_spec (by decide +kernel)).1, (Graph.check_spec (by decide +kernel)).2,
    by decide +kernel, by decide +kernel, by decide +kernel⟩

/-- The path `condPath` meets the hypotheses of the theorems on weights with a common unit, in
`double`s. -/
theorem condPath_units : UnitWeights (Rounding.binary ℚ 53 (by norm_num)).fl condPath.abs 1 (2 ^ 53)
    where
  pos := one_pos
  nonneg := (Graph.check_spec (g := condPath) (by decide +kernel)).2.nonneg
  mult := by
    have hv := (Graph.check_spec (g := condPath) (by decide +kernel)).1
    intro u v
    by_cases hu : u < 3 ∧ v < 3
    · obtain ⟨hu, hv⟩ := hu
      interval_cases u <;> interval_cases v
      · exact ⟨0, by decide +kernel⟩
      · exact ⟨1, by decide +kernel⟩
      · exact ⟨0, by decide +kernel⟩
      · exact ⟨1, by decide +kernel⟩
      · exact ⟨0, by decide +kernel⟩
      · exact ⟨3, by decide +kernel⟩
      · exact ⟨0, by decide +kernel⟩
      · exact ⟨3, by decide +kernel⟩
      · exact ⟨0, by decide +kernel⟩
    · refine ⟨0, ?_⟩
      rw [Nat.cast_zero, zero_mul]
      rcases Nat.lt_or_ge v 3 with h | h
      · rw [Graph.abs_symm hv]
        exact Graph.abs_range hv v u (by change 3 ≤ u; omega)
      · exact Graph.abs_range hv u v h
  bound := by decide +kernel
  fix m hm := by
    have := C77_binary_units (K := ℚ) (p := 53) (by norm_num) 0 m hm
    rw [zpow_zero, mul_one] at this
    rw [mul_one]
    exact this

/-- The theorem for graphs in memory applies to it, and the result is the one of exact arithmetic. -/
example : (∀ j, j ≤ 3 → 0 < min (condPath.abs.vol ([2, 1, 0].take j).toFinset)
      (condPath.abs.vol (Finset.range 3 \ ([2, 1, 0].take j).toFinset)) →
      condPath.abs.phi [2].toFinset ≤ (1 / (1 - (2 : ℚ) ^ (-53 : Int))) ^ 2 *
        condPath.abs.phi ([2, 1, 0].take j).toFinset) ∧
    sweepSetGraphFl (flBin 53) condPath ⟨3, [(0, 1), (1, 2), (2, 3)]⟩ = .ok [2] := by
  have hc := Graph.check_spec (g := condPath) (by decide +kernel)
  have hres : sweepSetGraphFl (flBin 53) condPath ⟨3, [(0, 1), (1, 2), (2, 3)]⟩ = .ok [2] := by
    decide +kernel
  refine ⟨?_, hres⟩
  obtain ⟨order, i, ho, hi, h1, _, _, h2⟩ := C77_unit_graph hc.1 hc.2.noZeros condPath_units
    ⟨3, [(0, 1), (1, 2), (2, 3)]⟩ (by unfold Col.Sorted; decide) (by decide)
  have ho' : order = [2, 1, 0] := by rw [ho]; decide +kernel
  subst ho'
  have e : ([2, 1, 0] : List Nat).take i = [2] := by
    have := h1.symm.trans hres
    exact Outcome.ok.inj this
  have hi0 : 0 < i := by
    rcases Nat.eq_zero_or_pos i with h | h
    · rw [h] at e; simp at e
    · exact h
  intro j hj hpos
  have := (h2 hi0 j hj hpos).1
  rw [e] at this
  exact this

/-- The hypotheses of the theorem on `local_cluster_acl` are met by `double`s on a single edge with
the parameters of `stag::local_cluster` (`α = 1/100`) and `ε = 1/1000`. -/
example : ∃ C : List Nat, (∃ N, ∀ fuel, N ≤ fuel →
      localClusterAclFl (flBin 53) oneEdge.asLocal fuel 0 (1 / 100) (1 / 1000 : ℚ) = some (.ok C)) ∧
    C.Nodup ∧ ∀ u ∈ C, u < 2 := by
  have f1 : flBin 53 (1 : ℚ) = 1 := by
    simpa using flBin_zpow (K := ℚ) (p := 53) (by norm_num) 0
  have hset := oneEdge_flSetting (Rounding.binary ℚ 53 (by norm_num)) f1 (α := 1 / 100)
    (ε := 1 / 1000) (by norm_num) (by norm_num) (by norm_num)
  have hdeg : ∀ v, v < 2 → oneEdge.abs.deg v = 1 := by
    intro v hv
    rcases (by omega : v = 0 ∨ v = 1) with rfl | rfl <;> decide +kernel
  have hu : (Rounding.binary ℚ 53 (by norm_num)).u = (2 : ℚ) ^ (-53 : Int) := rfl
  obtain ⟨C, p, r, order, i, ⟨N, hN⟩, h1, h2, _⟩ := C77_local_cluster (L := 1) (M := 200001) (δ := 1)
    hset (by norm_num) (by
      intro v hv _
      rw [hdeg v hv, hu]
      norm_num) one_pos (fun v hv _ => (hdeg v hv).ge) (by
      intro v hv es hes
      rcases (by have : v < 2 := hv; omega : v = 0 ∨ v = 1) with rfl | rfl
      · have : es = [⟨0, 1, 1⟩] := Outcome.ok.inj (hes.symm.trans (by decide +kernel))
        rw [this]; simp
      · have : es = [⟨1, 0, 1⟩] := Outcome.ok.inj (hes.symm.trans (by decide +kernel))
        rw [this]; simp) (by rw [hu]; norm_num) rfl (by
      have := (Rounding.binary ℚ 53 (by norm_num)).g_pow_le (m := 200001 * (2 + 0 + 2 * 1) + 0 + 1)
        (by rw [hu]; norm_num)
      rw [hu] at this ⊢
      refine lt_of_le_of_lt (sub_le_sub_right this 1) ?_
      norm_num)
  exact ⟨C, ⟨N, fun fuel hf => (hN fuel hf).2⟩, h1, h2⟩

end Stag
