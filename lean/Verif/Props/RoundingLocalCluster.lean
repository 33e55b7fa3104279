import Verif.Props.AclGuarantee
import Verif.Props.RoundingSweep
import Verif.Props.RoundingKMeans
import Verif.Props.RoundingAsgCuts
import Verif.Props.CheegerExamples

/-!
# C109: the conductance guarantee of local clustering in floating point

C73 for the program as it runs: every operation of `local_cluster`, `approximate_pagerank`, the sweep
and `conductance` is rounded, and degrees are those the program computes.
-/

namespace Stag

open Finset AclMath

/-- `stag::local_cluster` (`stag_lib/cluster.cpp:96-106`) in rounded arithmetic: the literal `0.01`
and the quotient `1./ target_volume` are rounded. -/
def localClusterFl {K : Type} [Field K] [LinearOrder K] (fl : K → K) (lg : LGraph K) (fuel : Nat)
    (seed : Int) (target : K) : Option (Outcome (List Nat)) :=
  if target ≤ 0 then some (.throw .invalidArgument)
  else localClusterAclFl fl lg fuel seed (fl (1 / 100)) (fl (1 / target))

section
variable {R : Rounding ℝ} {k : Nat} {lg : LGraph ℝ} {s : WGraph ℝ} {D : Nat → ℝ}

theorem lazyStep_abs_nonneg {s : WGraph ℝ} (hw : ∀ u v, 0 ≤ s.w u v) (f : Nat → ℝ) (v : Nat) :
    0 ≤ s.lazyStep (fun v => |f v|) v := by
  have h := lazyStep_mono hw (x := fun _ => (0 : ℝ)) (y := fun v => |f v|) (fun u => abs_nonneg _) v
  have e : s.lazyStep (fun _ => (0 : ℝ)) v = 0 := by
    unfold WGraph.lazyStep
    simp
  linarith

theorem mass_abs_lazyStep {s : WGraph ℝ} (hw : ∀ u v, 0 ≤ s.w u v) {f : Nat → ℝ} {E : ℝ}
    (hE : s.mass (fun v => |f v|) ≤ E) : s.mass (s.lazyStep (fun v => |f v|)) ≤ E :=
  (mass_lazyStep_le hw (fun v => abs_nonneg (f v))).trans hE

/-- Let `p̃` be the quotients by which the sweep orders the vertices, as computed,
times the degrees, and `p⋆ = pr(s - r)` where `r` is the computed residual.  If every sweep set has
conductance at least `φ`, then `p⋆` is spread, up to the rounding errors. -/
theorem mixing_rounded (hgood : Good s) {α : ℝ} (h0 : 0 < α) (h1 : α ≤ 1) {v : Nat} (hv : v < s.n)
    (hdv : 0 < s.deg v) {q q' pt r : Nat → ℝ} (hr : ∀ u, 0 ≤ r u)
    (hq : s.IsPagerank α (fun u => if u = v then 1 else 0) q) (hq' : s.IsPagerank α r q')
    {E : ℝ} (hE : s.mass (fun u => |pt u - (q u - q' u)|) ≤ E) {order : List Nat}
    (hsw : Sweep s pt order) {φ : ℝ} (hφ0 : 0 ≤ φ) (hφ1 : φ ≤ 1)
    (hcut : ∀ i, 0 < i → i ≤ order.length →
      φ * s.vol (order.take i).toFinset ≤ s.cut (order.take i).toFinset)
    {T : Finset Nat} (hT : T ⊆ range s.n) (t : Nat) :
    ∑ u ∈ T, q u - ∑ u ∈ T, q' u ≤
      2 * E + (α + 2 * E) * t + √(s.vol T / s.deg v) * (1 - φ ^ 2 / 8) ^ t := by
  have hdeg := WGraph.degree_nonneg hgood.nonneg
  have hE0 : 0 ≤ E := le_trans (Finset.sum_nonneg (fun u _ => abs_nonneg _)) hE
  set f : Nat → ℝ := fun u => pt u - (q u - q' u) with hf
  have hq'0 := IsPagerank.nonneg hgood.nonneg h0 h1 (fun u _ => hr u) hq'
  have hq0 := IsPagerank.nonneg hgood.nonneg h0 h1 (fun u _ => by split_ifs <;> norm_num) hq
  have hsd : ∀ u, u < s.n → (if u = v then (1 : ℝ) else 0) ≤ 1 / s.deg v * s.deg u := by
    intro u _
    split_ifs with huv
    · rw [huv, one_div, inv_mul_cancel₀ hdv.ne']
    · exact mul_nonneg (by positivity) (hdeg u)
  have hqd := hgood.le_deg (c := 1 / s.deg v) h0 h1 hsd hq
  have hqm : s.mass q = 1 := by
    rw [hgood.mass_eq h0 h1 (fun u _ => by split_ifs <;> norm_num) hsd hq]
    unfold WGraph.mass
    rw [Finset.sum_ite_eq', if_pos (mem_range.2 hv)]
  have hle : ∀ u, pt u ≤ (q u - q' u) + |f u| := fun u => by
    have := le_abs_self (f u)
    simp only [hf] at this ⊢
    linarith
  have hge : ∀ u, q u - q' u ≤ pt u + |f u| := fun u => by
    have := neg_abs_le (f u)
    simp only [hf] at this ⊢
    linarith
  have hwf : ∀ {w : Nat → ℝ}, (∀ u, 0 ≤ w u ∧ w u ≤ 1) → ∑ u ∈ range s.n, w u * |f u| ≤ E := by
    intro w hw
    exact (Finset.sum_le_sum (fun u _ => mul_le_of_le_one_left (abs_nonneg _) (hw u).2)).trans hE
  have key := hsw.mixing_error (α := α) (β := α + 2 * E) (b0 := E) (d := s.deg v) (φ := φ)
    (y := fun u => α * (if u = v then 1 else 0) + (|f u| + s.lazyStep (fun u => |f u|) u))
    h0.le h1 hE0 hdv hφ0 hφ1 ?_ ?_ ?_ ?_ hcut t (w := fun u => if u ∈ T then 1 else 0)
    (fun u => by beta_reduce; split_ifs <;> norm_num)
  · have e : ∀ g : Nat → ℝ, ∑ u ∈ range s.n, (if u ∈ T then (1 : ℝ) else 0) * g u = ∑ u ∈ T, g u := by
      intro g
      simp only [ite_mul, one_mul, zero_mul]
      rw [← Finset.sum_filter, Finset.filter_mem_eq_inter, Finset.inter_eq_right.2 hT]
    rw [e, e] at key
    have e2 : ∑ u ∈ T, q u - ∑ u ∈ T, q' u ≤ ∑ u ∈ T, pt u + ∑ u ∈ T, |f u| := by
      rw [← Finset.sum_sub_distrib, ← Finset.sum_add_distrib]
      exact Finset.sum_le_sum (fun u _ => hge u)
    have e3 : ∑ u ∈ T, |f u| ≤ E :=
      (Finset.sum_le_sum_of_subset_of_nonneg hT (fun u _ _ => abs_nonneg _)).trans hE
    have e4 : ∑ u ∈ T, s.deg u = s.vol T := rfl
    rw [e4] at key
    linarith
  · intro u hu
    have a1 : 0 ≤ s.lazyStep (fun u => |f u|) u :=
      lazyStep_abs_nonneg hgood.nonneg f u
    have a2 : 0 ≤ α * (if u = v then 1 else 0) := by
      split_ifs
      · linarith
      · rw [mul_zero]
    have := abs_nonneg (f u)
    linarith
  · have a1 := mass_abs_lazyStep hgood.nonneg hE
    have a2 : s.mass (fun u => if u = v then (1 : ℝ) else 0) = 1 := by
      unfold WGraph.mass
      rw [Finset.sum_ite_eq', if_pos (mem_range.2 hv)]
    unfold WGraph.mass at a1 a2 hE ⊢
    rw [Finset.sum_add_distrib, Finset.sum_add_distrib, ← Finset.mul_sum, a2]
    linarith
  · intro w hw
    have b1 : ∑ u ∈ range s.n, w u * pt u ≤ ∑ u ∈ range s.n, w u * q u + E := by
      have : ∑ u ∈ range s.n, w u * pt u ≤ ∑ u ∈ range s.n, (w u * q u + w u * |f u|) := by
        apply Finset.sum_le_sum
        intro u hu
        have := mul_le_mul_of_nonneg_left (hle u) (hw u).1
        have := mul_nonneg (hw u).1 (hq'0 u (mem_range.1 hu))
        linarith
      rw [Finset.sum_add_distrib] at this
      have := hwf hw
      linarith
    have b2 : ∑ u ∈ range s.n, w u * q u ≤ √((∑ u ∈ range s.n, w u * s.deg u) / s.deg v) := by
      set A := ∑ u ∈ range s.n, w u * q u with hA
      have hA0 : 0 ≤ A := Finset.sum_nonneg (fun u hu => mul_nonneg (hw u).1 (hq0 u (mem_range.1 hu)))
      have hA1 : A ≤ 1 := by
        rw [← hqm]
        exact Finset.sum_le_sum (fun u hu => mul_le_of_le_one_left (hq0 u (mem_range.1 hu)) (hw u).2)
      have hAd : A ≤ (∑ u ∈ range s.n, w u * s.deg u) / s.deg v := by
        rw [hA, Finset.sum_div]
        apply Finset.sum_le_sum
        intro u hu
        have := mul_le_mul_of_nonneg_left (hqd u (mem_range.1 hu)) (hw u).1
        have e : w u * (1 / s.deg v * s.deg u) = w u * s.deg u / s.deg v := by ring
        linarith
      apply Real.le_sqrt_of_sq_le
      nlinarith
    linarith
  · intro u hu
    have c1 : q u - q' u = α * ((if u = v then 1 else 0) - r u) +
        (1 - α) * s.lazyStep (fun u => q u - q' u) u := by
      have e := lazyStep_sub s q q' u
      rw [e]
      have := hq u hu
      have := hq' u hu
      linarith
    have c2 : s.lazyStep (fun u => q u - q' u) u ≤
        s.lazyStep pt u + s.lazyStep (fun u => |f u|) u := by
      rw [← lazyStep_add]
      exact lazyStep_mono hgood.nonneg (fun u => hge u) u
    have c3 := hle u
    have c4 := mul_le_mul_of_nonneg_left c2 (sub_nonneg.2 h1)
    have c5 := mul_nonneg h0.le (hr u)
    have c6 : 0 ≤ s.lazyStep (fun u => |f u|) u :=
      lazyStep_abs_nonneg hgood.nonneg f u
    have c7 := mul_nonneg h0.le c6
    beta_reduce
    linarith

/-- `conductance` reads the neighbours only. -/
theorem conductanceFl_answers (h : lg.AnswersFl s D) (hw : ∀ u v, 0 ≤ s.w u v) {S : List Nat}
    (hS : ∀ v ∈ S, v < s.n) (hd : S.Nodup) (hl : ∀ v, s.w v v = 0) {L : Nat}
    (hL : ∀ v, v < s.n → ∀ es, lg.neighbors (v : Int) = .ok es → es.length ≤ L) :
    ∃ x, conductanceFl R.fl lg (S.map (fun v : Nat => (v : Int))) = .ok x ∧ 0 ≤ x ∧
      x ≤ (1 / (1 - R.u)) ^ ((2 * L + 1) * S.length + 1) * s.cond S.toFinset ∧
      s.cond S.toFinset ≤ (1 / (1 - R.u)) ^ ((2 * L + 1) * S.length + 1) * x := by
  let lg' : LGraph ℝ := { lg with degree := fun v => .ok (s.deg v.toNat) }
  have h' : lg'.Answers s := ⟨h.symm, h.range, h.nbrs, fun v _ => by simp [lg'], h.exist⟩
  have e : ∀ cl vs st, condLoopFl R.fl lg' cl vs st = condLoopFl R.fl lg cl vs st := by
    intro cl vs
    induction vs with
    | nil => intro st; rfl
    | cons v vs ih =>
      intro st
      simp only [condLoopFl, ih]
      rfl
  have key := C77_conductance (R := R) h' hw hS hd (fun v _ => hl v) (L := L)
    (fun v hv => hL v (hS v hv))
  unfold conductanceFl at key ⊢
  simpa only [e] using key

/-- The number of pushes is small enough for the precision. -/
theorem precision_of_count {α ε δ η : ℝ} {L M : Nat}
    (hmin : ∀ v, v < s.n → 0 < s.deg v → δ ≤ s.deg v) (hc : 0 < α * ε)
    (hM : 2 * (1 / (1 - R.u)) ^ (1 + k) ≤ M * (α * ε * δ))
    (hη : η = (1 / (1 - R.u)) ^ (M * (6 + k + 2 * L) + k + 1) - 1) (hη1 : η < 1) :
    PrecisionOK R k s α ε 1 := by
  intro v hv hd
  set g := 1 / (1 - R.u) with hg
  have hg1 : 1 ≤ g := Rounding.one_le_g (R := R)
  have hx : 0 ≤ g ^ (6 + k) - 1 := sub_nonneg.2 (one_le_pow₀ hg1)
  have hb : 1 + (M : ℝ) * (g ^ (6 + k) - 1) ≤ (g ^ (6 + k)) ^ M := by
    have := one_add_mul_le_pow (show (-2 : ℝ) ≤ g ^ (6 + k) - 1 by linarith) M
    rwa [add_sub_cancel] at this
  have hle : (g ^ (6 + k)) ^ M ≤ g ^ (M * (6 + k + 2 * L) + k + 1) := by
    rw [← pow_mul]
    apply pow_le_pow_right₀ hg1
    nlinarith
  have h1 : (M : ℝ) * (g ^ (6 + k) - 1) ≤ 1 := by linarith
  have h2 := mul_le_mul_of_nonneg_right hM hx
  have hαε : 0 ≤ α * ε * s.deg v := mul_nonneg hc.le hd.le
  have h3 : (M : ℝ) * (α * ε * δ) * (g ^ (6 + k) - 1) ≤
      α * ε * s.deg v * (M * (g ^ (6 + k) - 1)) := by
    have a := mul_le_mul_of_nonneg_left (hmin v hv hd) hc.le
    have b : 0 ≤ (M : ℝ) * (g ^ (6 + k) - 1) := mul_nonneg (Nat.cast_nonneg _) hx
    have := mul_le_mul_of_nonneg_right a b
    linarith
  have h4 := mul_le_mul_of_nonneg_left h1 hαε
  linarith

/-- **C109** (guarantee).  The graph has no self-loops and weights `≥ 0`, computed degrees are off by at
most `k` rounding errors, no vertex has more than `L` neighbours, and `δ > 0` is a lower bound for
the degrees of non-isolated vertices.  For every set `T` of vertices of positive volume there is a
set of good seeds `T' ⊆ T` of at least half its volume, depending on `T` and `α` only, such that for
every seed `v` in it and every error `ε`: if `2 (1 - u)^(-(1 + k)) ≤ M α ε δ` and
`η = (1 - u)^(-(M (6 + k + 2 L) + k + 1)) - 1 < 1`, the rounded call `local_cluster_acl(v, α, ε)`
returns a set `C` of existing vertices, and the value `x` which the rounded `conductance` reports
for it satisfies, with `φ = max(0, x - 3 η)` and for every `t`,
`1 - cond(T) / α - (1 - u)^(-(1 + k)) ε vol(T) - 2 η ≤ (α + 2 η) t + √(vol T / deg v) (1 - φ² / 8)^t`.
None of the bounds depends on the size of the graph. -/
theorem C109_guarantee {L : Nat} {α δ : ℝ} (ha : lg.AnswersFl s D)
    (hD : ∀ v, v < s.n → R.Near k (D v) (s.deg v)) (hw : ∀ u v, 0 ≤ s.w u v)
    (hl : ∀ v, s.w v v = 0) (f1 : R.fl 1 = 1) (h0 : 0 < α) (h1 : α ≤ 1) (hδ : 0 < δ)
    (hmin : ∀ v, v < s.n → 0 < s.deg v → δ ≤ s.deg v)
    (hL : ∀ v, v < s.n → ∀ es, lg.neighbors (v : Int) = .ok es → es.length ≤ L)
    {T : Finset Nat} (hT : T ⊆ range s.n) (hV : 0 < s.vol T) :
    ∃ T' ⊆ T, s.vol T ≤ 2 * s.vol T' ∧ ∀ v ∈ T', 0 < s.deg v ∧
      ∀ (ε η : ℝ) (M : Nat), 0 < ε → 2 * (1 / (1 - R.u)) ^ (1 + k) ≤ M * (α * ε * δ) →
        η = (1 / (1 - R.u)) ^ (M * (6 + k + 2 * L) + k + 1) - 1 → η < 1 →
        ∃ C x, (∃ N, ∀ fuel, N ≤ fuel → localClusterAclFl R.fl lg fuel v α ε = some (.ok C)) ∧
          C.Nodup ∧ (∀ u ∈ C, u < s.n) ∧
          conductanceFl R.fl lg (C.map (fun u : Nat => (u : Int))) = .ok x ∧ 0 ≤ x ∧
          |x - s.cond C.toFinset| ≤ η ∧
          ∀ t : Nat, 1 - s.cond T / α - (1 / (1 - R.u)) ^ (1 + k) * ε * s.vol T - 2 * η ≤
            (α + 2 * η) * t +
              √(s.vol T / s.deg v) * (1 - max 0 (x - 3 * η) ^ 2 / 8) ^ t := by
  have hgood : Good s := ⟨hw, ha.symm, hl⟩
  obtain ⟨T', hsub, hvol, hseeds⟩ := C73_good_seeds hw ha.symm hl h0 h1 hT hV
  refine ⟨T', hsub, hvol, fun v hv => ⟨(hseeds v hv).1, ?_⟩⟩
  obtain ⟨hdv, hkeep⟩ := hseeds v hv
  have hvn : v < s.n := mem_range.1 (hT (hsub hv))
  intro ε η M hε hM hη hη1
  have hdeg := WGraph.degree_nonneg hw
  have hprec : PrecisionOK R k s α ε 1 := precision_of_count hmin (mul_pos h0 hε) hM hη hη1
  have hseed : (seedVec v : SVec ℝ).get = fun u => if u = v then 1 else 0 := funext (seedVec_get v)
  have hset : FlSetting R k lg s D α ε (seedVec v) := by
    refine ⟨ha, hD, hw, hl, h0.le, h1, hε,
      ⟨by simp [seedVec, Col.Sorted], by simp [seedVec]⟩, Nat.succ_pos v, hvn, ?_, ?_⟩
    · intro u
      rw [seedVec_get]
      split_ifs <;> norm_num
    · intro u
      rw [seedVec_get]
      split_ifs
      · exact f1
      · exact Rounding.fl_zero
  have hmass : s.mass (seedVec v : SVec ℝ).get = 1 := mass_seedVec hvn
  set g := 1 / (1 - R.u) with hg
  have hg1 : 1 ≤ g := Rounding.one_le_g (R := R)
  -- the run
  obtain ⟨us, st, ht, hqe, hus, N1, hN1⟩ := C76_terminates hset h0 (by rw [hmass]; exact hprec) hδ hmin
  rw [hmass, mul_one] at hus
  have hc : 0 < α * ε * δ := mul_pos (mul_pos h0 hε) hδ
  have husM : us.length ≤ M := by
    have := le_of_mul_le_mul_right (le_trans hus hM) hc
    exact_mod_cast this
  have hη77 : g ^ (M * (2 + k + 2 * L) + k + 1) - 1 ≤ η := by
    rw [hη]
    have : g ^ (M * (2 + k + 2 * L) + k + 1) ≤ g ^ (M * (6 + k + 2 * L) + k + 1) := by
      apply pow_le_pow_right₀ hg1
      nlinarith
    linarith
  obtain ⟨C, p, r, order, i, ⟨N2, hN2⟩, hCnd, hCn, hCvol, hperm, hsort, hCi, hemp, hbest⟩ :=
    C77_local_cluster (R := R) hset h0 hprec hδ hmin hL hM rfl (lt_of_le_of_lt hη77 hη1)
  have hpr : st.p = p ∧ st.r = r := by
    have a := hN1 (max N1 N2) (le_max_left _ _)
    have b := (hN2 (max N1 N2) (le_max_right _ _)).1
    rw [a] at b
    simpa using b
  obtain ⟨rfl, rfl⟩ := hpr
  have hi := ht.inv hset
  have hidx : ∀ u ∈ order, u < s.n ∧ 0 < s.deg u := fun u hu =>
    hi.pushed u ((hi.support u).1 (hperm.mem_iff.1 hu))
  have hnd : order.Nodup := by
    refine hperm.nodup_iff.2 ?_
    unfold SVec.indices List.Nodup
    rw [List.pairwise_map]
    exact hi.pOK.sorted.imp (fun h => ne_of_lt h)
  have hlen : order.length ≤ M := by
    have h1 : order.length ≤ us.length :=
      (hnd.subperm (fun u hu => (hi.support u).1 (hperm.mem_iff.1 hu))).length_le
    omega
  have hClen : C.length ≤ M := by
    rw [hCi]
    exact le_trans (List.length_take_le' _ _) hlen
  -- the reported conductance
  obtain ⟨x, hx, hx0, hx1, hx2⟩ := conductanceFl_answers (R := R) ha hw hCn hCnd hl hL
  have hφ := cond_bounds hgood (S := C.toFinset) (fun u hu => mem_range.2 (hCn u (List.mem_toFinset.1 hu)))
  have hgC : g ^ ((2 * L + 1) * C.length + 1) ≤ 1 + η := by
    have : g ^ ((2 * L + 1) * C.length + 1) ≤ g ^ (M * (6 + k + 2 * L) + k + 1) := by
      apply pow_le_pow_right₀ hg1
      have := Nat.mul_le_mul_left (2 * L + 1) hClen
      nlinarith
    linarith
  have hη0 : 0 ≤ η := by
    rw [hη]
    exact sub_nonneg.2 (one_le_pow₀ hg1)
  have hxc1 : x ≤ s.cond C.toFinset + η := by
    have a := mul_le_mul_of_nonneg_right hgC hφ.1
    have b := mul_le_mul_of_nonneg_left hφ.2 hη0
    linarith
  have hxc2 : s.cond C.toFinset ≤ x + η := by
    rcases le_total x 1 with hle | hge
    · have a := mul_le_mul_of_nonneg_right hgC hx0
      have b := mul_le_mul_of_nonneg_left hle hη0
      linarith
    · linarith [hφ.2]
  refine ⟨C, x, ⟨N2, fun fuel hf => (hN2 fuel hf).2⟩, hCnd, hCn, hx, hx0,
    abs_le.2 ⟨by linarith, by linarith⟩, fun t => ?_⟩
  -- the vector the sweep is sorted by
  obtain ⟨q, hq⟩ := C35_pagerank_exists hw h0 h1 (seedVec v : SVec ℝ).get
  obtain ⟨q', hq'⟩ := C35_pagerank_exists hw h0 h1 st.r.get
  obtain ⟨herr, hpm⟩ := C76_rounding_error hset h0 ht hq hq'
  rw [hmass, mul_one] at herr hpm
  have hr0 : 0 ≤ s.mass st.r.get := Finset.sum_nonneg (fun u _ => hi.rNonneg u)
  set pt : Nat → ℝ := fun u => R.fl (st.p.get u / D u) * s.deg u with hpt
  have hp0 : ∀ u, ¬ (u < s.n ∧ 0 < s.deg u) → st.p.get u = 0 := by
    intro u hu
    by_contra hne
    exact hu (hi.pushed u ((hi.support u).1 (SVec.mem_indices_of_get hne)))
  have hnear : ∀ u, u < s.n → R.Near (1 + k) (pt u) (st.p.get u) := by
    intro u hu
    have hquot : R.Near (1 + k) (R.fl (st.p.get u / D u)) (st.p.get u / s.deg u) := by
      have a := (Rounding.Near.refl (R := R) (k := 0) (hi.pNonneg u)).div (hD u hu)
      have b := a.fl
      have e : 0 + k + 1 = 1 + k := by omega
      rwa [e] at b
    have hmul := hquot.mul (Rounding.Near.refl (R := R) (k := 0) (hdeg u))
    rw [add_zero] at hmul
    by_cases hd : s.deg u = 0
    · have hz := hp0 u (by rw [hd]; simp)
      have e : pt u = 0 := by simp only [hpt, hd, mul_zero]
      rw [e, hz]
      exact Rounding.Near.refl le_rfl
    · rwa [div_mul_cancel₀ _ hd] at hmul
  have hpt0 : ∀ u, 0 ≤ pt u := by
    intro u
    by_cases hu : u < s.n
    · exact (hnear u hu).x0
    · have hz := hp0 u (fun h => hu h.1)
      simp only [hpt, hz, zero_div, Rounding.fl_zero, zero_mul, le_refl]
  have hE : s.mass (fun u => |pt u - (q u - q' u)|) ≤ η := by
    have a : s.mass (fun u => |pt u - st.p.get u|) ≤ (g ^ (1 + k) - 1) * s.mass st.p.get := by
      rw [← mass_mul]
      apply Finset.sum_le_sum
      intro u hu
      exact (hnear u (mem_range.1 hu)).abs_sub
    have b : s.mass (fun u => |pt u - (q u - q' u)|) ≤
        s.mass (fun u => |pt u - st.p.get u|) + s.mass (fun u => |st.p.get u + q' u - q u|) := by
      unfold WGraph.mass
      rw [← Finset.sum_add_distrib]
      apply Finset.sum_le_sum
      intro u _
      have e : pt u - (q u - q' u) = (pt u - st.p.get u) + (st.p.get u + q' u - q u) := by ring
      rw [e]
      exact abs_add_le _ _
    have hk1 : 0 ≤ g ^ (1 + k) - 1 := sub_nonneg.2 (one_le_pow₀ hg1)
    have c : s.mass st.p.get ≤ g ^ ((6 + k) * us.length) := by linarith
    have d := mul_le_mul_of_nonneg_left c hk1
    have e : g ^ ((1 + k) + (6 + k) * us.length) ≤ g ^ (M * (6 + k + 2 * L) + k + 1) := by
      apply pow_le_pow_right₀ hg1
      have := Nat.mul_le_mul_left (6 + k) husM
      nlinarith
    rw [pow_add] at e
    linarith
  have hsw : Sweep s pt order := by
    refine ⟨hw, ha.symm, hl, hpt0, hnd, ?_, hidx, ?_⟩
    · intro u hu hpos
      have := (hnear u hu).symm.pos hpos
      exact hperm.mem_iff.2 (SVec.mem_indices_of_get this.ne')
    · refine hsort.imp_of_mem ?_
      intro a b ha hb hab
      simp only [hpt]
      rwa [mul_div_cancel_right₀ _ (hidx a ha).2.ne', mul_div_cancel_right₀ _ (hidx b hb).2.ne']
  -- the sweep sets
  have hφ'0 : 0 ≤ max 0 (x - 3 * η) := le_max_left _ _
  have hφ'1 : max 0 (x - 3 * η) ≤ 1 := max_le zero_le_one (by linarith [hφ.2])
  have hcut : ∀ j, 0 < j → j ≤ order.length →
      max 0 (x - 3 * η) * s.vol (order.take j).toFinset ≤ s.cut (order.take j).toFinset := by
    intro j hj0 hjl
    have hb := hbest j hj0 hjl
    rw [← cond_eq] at hb
    have hvp : 0 < s.vol (order.take j).toFinset := by
      have hlen0 : 0 < order.length := by omega
      have hm0 : order[0] ∈ (order.take j).toFinset := by
        rw [List.mem_toFinset]
        exact List.mem_take_iff_getElem.2 ⟨0, by omega, rfl⟩
      exact lt_of_lt_of_le (hidx _ (List.getElem_mem hlen0)).2
        (Finset.single_le_sum (f := s.deg) (fun x _ => hdeg x) hm0)
    have hcut0 : 0 ≤ s.cut (order.take j).toFinset :=
      Finset.sum_nonneg (fun u _ => Finset.sum_nonneg (fun v _ => hw u v))
    rw [← le_div_iff₀ hvp]
    exact max_le (div_nonneg hcut0 hvp.le) (by linarith)
  rw [hseed] at hq
  have key := mixing_rounded hgood h0 h1 hvn hdv hi.rNonneg hq hq' hE hsw hφ'0 hφ'1 hcut hT t
  have hk := hkeep q hq
  -- the residual
  obtain ⟨hres1, hres2⟩ := C76_residual hset ht hqe
  have hq'd := hgood.le_deg (c := g ^ (1 + k) * ε) h0 h1 (fun u hu => by
    rcases lt_or_eq_of_le (hdeg u) with hd | hd
    · have := hres1 u hu hd
      rw [mul_assoc]
      exact this.le
    · rw [hres2 u hu hd.symm, seedVec_get, if_neg, ← hd, mul_zero]
      rintro rfl
      exact hdv.ne hd) hq'
  have hsum : ∑ u ∈ T, q' u ≤ g ^ (1 + k) * ε * s.vol T := by
    unfold WGraph.vol
    rw [Finset.mul_sum]
    exact Finset.sum_le_sum (fun u hu => hq'd u (mem_range.1 (hT hu)))
  linarith

/-- From the guarantee at one `t` to the size of the reported value. -/
theorem reported_le {x η X c : ℝ} {t : Nat} (hη : 0 ≤ η) (hx : x - 3 * η ≤ 1) (hX : 0 < X) (hc : 0 < c)
    (ht : 0 < t) (h : c ≤ √X * (1 - max 0 (x - 3 * η) ^ 2 / 8) ^ t) :
    x ≤ 3 * η + √(4 / t * Real.log (X / c ^ 2)) := by
  have h1 := phi_sq_le (le_max_left 0 (x - 3 * η)) (max_le zero_le_one hx) hX hc ht h
  have h2 := Real.le_sqrt_of_sq_le h1
  have := le_max_right 0 (x - 3 * η)
  linarith

/-- **C109** (conductance of the result).  Let `α ≤ 1/4`, and let `T` be a set of vertices of
conductance at most `α / 4`.  From a good seed `v ∈ T`, with an error of at most `1 / (4 vol T)` and
with `η ≤ α / 100`, the conductance which the program reports for the set that the rounded
`local_cluster_acl` returns is at most `3 η + √(32 α ln (25 vol(T) / deg(v)))`. -/
theorem C109_conductance {L : Nat} {α δ : ℝ} (ha : lg.AnswersFl s D)
    (hD : ∀ v, v < s.n → R.Near k (D v) (s.deg v)) (hw : ∀ u v, 0 ≤ s.w u v)
    (hl : ∀ v, s.w v v = 0) (f1 : R.fl 1 = 1) (h0 : 0 < α) (h1 : α ≤ 1 / 4) (hδ : 0 < δ)
    (hmin : ∀ v, v < s.n → 0 < s.deg v → δ ≤ s.deg v)
    (hL : ∀ v, v < s.n → ∀ es, lg.neighbors (v : Int) = .ok es → es.length ≤ L)
    {T : Finset Nat} (hT : T ⊆ range s.n) (hV : 0 < s.vol T) (hcond : s.cond T ≤ α / 4) :
    ∃ T' ⊆ T, s.vol T ≤ 2 * s.vol T' ∧ ∀ v ∈ T', 0 < s.deg v ∧
      ∀ (ε η : ℝ) (M : Nat), 0 < ε → ε ≤ 1 / (4 * s.vol T) →
        2 * (1 / (1 - R.u)) ^ (1 + k) ≤ M * (α * ε * δ) →
        η = (1 / (1 - R.u)) ^ (M * (6 + k + 2 * L) + k + 1) - 1 → η ≤ α / 100 →
        ∃ C x, (∃ N, ∀ fuel, N ≤ fuel → localClusterAclFl R.fl lg fuel v α ε = some (.ok C)) ∧
          conductanceFl R.fl lg (C.map (fun u : Nat => (u : Int))) = .ok x ∧ 0 ≤ x ∧
          |x - s.cond C.toFinset| ≤ η ∧
          x ≤ 3 * η + √(32 * α * Real.log (25 * s.vol T / s.deg v)) := by
  obtain ⟨T', hsub, hvol, hall⟩ := C109_guarantee (R := R) ha hD hw hl f1 h0 (by linarith) hδ hmin hL hT hV
  refine ⟨T', hsub, hvol, fun v hv => ⟨(hall v hv).1, fun ε η M hε hε' hM hη hηα => ?_⟩⟩
  obtain ⟨hdv, hg⟩ := hall v hv
  obtain ⟨C, x, hC, hnd, hCn, hx, hx0, hxc, hb⟩ := hg ε η M hε hM hη (by linarith)
  refine ⟨C, x, hC, hx, hx0, hxc, ?_⟩
  set g := 1 / (1 - R.u) with hgd
  have hg1 : 1 ≤ g := Rounding.one_le_g (R := R)
  have hη0 : 0 ≤ η := by rw [hη]; exact sub_nonneg.2 (one_le_pow₀ hg1)
  have hG : g ^ (1 + k) ≤ 1 + η := by
    have : g ^ (1 + k) ≤ g ^ (M * (6 + k + 2 * L) + k + 1) := pow_le_pow_right₀ hg1 (by omega)
    linarith
  have hφ := (cond_bounds ⟨hw, ha.symm, hl⟩
    (S := C.toFinset) (fun u hu => mem_range.2 (hCn u (List.mem_toFinset.1 hu)))).2
  have hx1 : x - 3 * η ≤ 1 := by linarith [(abs_le.1 hxc).2]
  set t := ⌊1 / (4 * α)⌋₊ with ht
  have hone : 1 ≤ 1 / (4 * α) := by rw [le_div_iff₀ (by linarith)]; linarith
  have ht1 : 1 ≤ t := (Nat.one_le_floor_iff _).2 hone
  have htu : (t : ℝ) ≤ 1 / (4 * α) := Nat.floor_le (by linarith)
  have htl : 1 / (4 * α) < t + 1 := Nat.lt_floor_add_one _
  have ht1r : (1 : ℝ) ≤ t := by exact_mod_cast ht1
  have hαt : α * t ≤ 1 / 4 := by
    have := mul_le_mul_of_nonneg_left htu h0.le
    have e : α * (1 / (4 * α)) = 1 / 4 := by field_simp
    linarith
  have hαt2 : 1 / 8 ≤ α * t := by
    have := mul_le_mul_of_nonneg_left htl.le h0.le
    have e : α * (1 / (4 * α)) = 1 / 4 := by field_simp
    have := mul_le_mul_of_nonneg_left ht1r h0.le
    linarith
  have hηt : η * t ≤ 1 / 400 := by
    have := mul_le_mul_of_nonneg_right hηα (Nat.cast_nonneg (α := ℝ) t)
    linarith
  have hc1 : s.cond T / α ≤ 1 / 4 := by rw [div_le_iff₀ h0]; linarith
  have hc2 : ε * s.vol T ≤ 1 / 4 := by
    rw [le_div_iff₀ (by linarith)] at hε'
    linarith
  have hc3 : g ^ (1 + k) * ε * s.vol T ≤ 1 / 4 + η / 4 := by
    have a := mul_le_mul_of_nonneg_right hG (mul_pos hε hV).le
    have b := mul_le_mul_of_nonneg_left hc2 (by linarith : (0 : ℝ) ≤ 1 + η)
    linarith
  have hb' : 1 / 5 ≤ √(s.vol T / s.deg v) * (1 - max 0 (x - 3 * η) ^ 2 / 8) ^ t := by
    have := hb t
    linarith
  have hX : 0 < s.vol T / s.deg v := div_pos hV hdv
  have hres := reported_le hη0 hx1 hX (by norm_num) ht1 hb'
  have e1 : s.vol T / s.deg v / (1 / 5) ^ 2 = 25 * s.vol T / s.deg v := by ring
  rw [e1] at hres
  have hvge : 1 ≤ 25 * s.vol T / s.deg v := by
    rw [le_div_iff₀ hdv]
    have := Finset.single_le_sum (f := s.deg) (fun x _ => WGraph.degree_nonneg hw x) (hsub hv)
    have : s.deg v ≤ s.vol T := this
    linarith
  refine hres.trans (add_le_add le_rfl (Real.sqrt_le_sqrt
    (mul_le_mul_of_nonneg_right ?_ (Real.log_nonneg hvge))))
  rw [div_le_iff₀ (by linarith)]
  linarith

/-- **C109** (`local_cluster`).  Let `T` be a set of vertices of conductance at most `1/1000` whose
volume is at most a tenth of the target volume.  From a good seed `v ∈ T` (vertices of at least half
of the volume of `T` are good), with `201 target ≤ M δ` and `η ≤ 1/10000`, the conductance which the
program reports for the set that the rounded `local_cluster` returns is at most
`3 η + √(2/25 ln (13 vol(T) / deg(v)))`. -/
theorem C109_local_cluster {L : Nat} {δ : ℝ} (ha : lg.AnswersFl s D)
    (hD : ∀ v, v < s.n → R.Near k (D v) (s.deg v)) (hw : ∀ u v, 0 ≤ s.w u v)
    (hl : ∀ v, s.w v v = 0) (f1 : R.fl 1 = 1) (hδ : 0 < δ)
    (hmin : ∀ v, v < s.n → 0 < s.deg v → δ ≤ s.deg v)
    (hL : ∀ v, v < s.n → ∀ es, lg.neighbors (v : Int) = .ok es → es.length ≤ L)
    {T : Finset Nat} (hT : T ⊆ range s.n) (hV : 0 < s.vol T) (hcond : s.cond T ≤ 1 / 1000)
    (hu : R.u ≤ 1 / 10000) :
    ∃ T' ⊆ T, s.vol T ≤ 2 * s.vol T' ∧ ∀ v ∈ T', 0 < s.deg v ∧
      ∀ (target η : ℝ) (M : Nat), 10 * s.vol T ≤ target → 201 * target ≤ M * δ →
        η = (1 / (1 - R.u)) ^ (M * (6 + k + 2 * L) + k + 1) - 1 → η ≤ 1 / 10000 →
        ∃ C x, (∃ N, ∀ fuel, N ≤ fuel → localClusterFl R.fl lg fuel v target = some (.ok C)) ∧
          conductanceFl R.fl lg (C.map (fun u : Nat => (u : Int))) = .ok x ∧ 0 ≤ x ∧
          |x - s.cond C.toFinset| ≤ η ∧
          x ≤ 3 * η + √(2 / 25 * Real.log (13 * s.vol T / s.deg v)) := by
  have hu0 := R.u0
  have herr := fun z : ℝ => abs_le.1 (R.err z)
  set a := R.fl (1 / 100) with hadef
  have ha1 : a ≤ (1 + R.u) / 100 := by
    have := (herr (1 / 100)).2
    rw [abs_of_pos (by norm_num : (0 : ℝ) < 1 / 100)] at this
    linarith
  have ha2 : (1 - R.u) / 100 ≤ a := by
    have := (herr (1 / 100)).1
    rw [abs_of_pos (by norm_num : (0 : ℝ) < 1 / 100)] at this
    linarith
  have ha0 : 0 < a := by linarith
  obtain ⟨T', hsub, hvol, hall⟩ := C109_guarantee (R := R) (α := a) ha hD hw hl f1 ha0 (by linarith)
    hδ hmin hL hT hV
  refine ⟨T', hsub, hvol, fun v hv => ⟨(hall v hv).1, fun target η M htar hM hη hη1 => ?_⟩⟩
  obtain ⟨hdv, hg⟩ := hall v hv
  have htp : 0 < target := by linarith
  set e := R.fl (1 / target) with hedef
  have htinv : 0 < 1 / target := by positivity
  have he1 : e ≤ (1 + R.u) * (1 / target) := by
    have := (herr (1 / target)).2
    rw [abs_of_pos htinv] at this
    linarith
  have he2 : (1 - R.u) * (1 / target) ≤ e := by
    have := (herr (1 / target)).1
    rw [abs_of_pos htinv] at this
    linarith
  have hu1 : 0 < 1 - R.u := R.one_sub_pos
  have he0 : 0 < e := lt_of_lt_of_le (mul_pos hu1 htinv) he2
  set g := 1 / (1 - R.u) with hgd
  have hg1 : 1 ≤ g := Rounding.one_le_g (R := R)
  have hg0 : 0 < g := by linarith
  have hgu : g * (1 - R.u) = 1 := by rw [hgd, one_div, inv_mul_cancel₀ hu1.ne']
  have hη0 : 0 ≤ η := by rw [hη]; exact sub_nonneg.2 (one_le_pow₀ hg1)
  have hM1 : 1 ≤ M := by
    by_contra hc
    have : M = 0 := by omega
    rw [this, Nat.cast_zero, zero_mul] at hM
    linarith
  have hG3 : g ^ (1 + k) * g ^ 2 ≤ 1 + η := by
    rw [← pow_add]
    have : g ^ (1 + k + 2) ≤ g ^ (M * (6 + k + 2 * L) + k + 1) := by
      apply pow_le_pow_right₀ hg1
      nlinarith
    linarith
  have hgk : 1 ≤ g ^ (1 + k) := one_le_pow₀ hg1
  have hgg : g ≤ 1 + η := by nlinarith
  have hug : 1 + R.u ≤ g := Rounding.one_add_le_g (R := R)
  have hMM : 2 * g ^ (1 + k) ≤ M * (a * e * δ) := by
    have b1 : (1 - R.u) ^ 2 * (1 / (100 * target)) ≤ a * e := by
      have := mul_le_mul ha2 he2 (mul_pos hu1 htinv).le ha0.le
      have e1 : (1 - R.u) ^ 2 * (1 / (100 * target)) =
          (1 - R.u) / 100 * ((1 - R.u) * (1 / target)) := by
        field_simp
      rw [e1]
      exact this
    have b2 := mul_le_mul_of_nonneg_right b1 (mul_nonneg (Nat.cast_nonneg M) hδ.le : (0 : ℝ) ≤ M * δ)
    have b3 : 201 / 100 * (1 - R.u) ^ 2 ≤ (1 - R.u) ^ 2 * (1 / (100 * target)) * (M * δ) := by
      have := mul_le_mul_of_nonneg_left hM
        (by positivity : (0 : ℝ) ≤ (1 - R.u) ^ 2 * (1 / (100 * target)))
      have e1 : (1 - R.u) ^ 2 * (1 / (100 * target)) * (201 * target) = 201 / 100 * (1 - R.u) ^ 2 := by
        field_simp
      linarith
    have b4 : g ^ (1 + k) ≤ (1 + η) * (1 - R.u) ^ 2 := by
      have := mul_le_mul_of_nonneg_right hG3 (sq_nonneg (1 - R.u))
      have e1 : g ^ (1 + k) * g ^ 2 * (1 - R.u) ^ 2 = g ^ (1 + k) * (g * (1 - R.u)) ^ 2 := by ring
      rw [e1, hgu] at this
      linarith
    have b5 : (1 + η) * (1 - R.u) ^ 2 ≤ 201 / 200 * (1 - R.u) ^ 2 :=
      mul_le_mul_of_nonneg_right (by linarith) (sq_nonneg _)
    linarith
  obtain ⟨C, x, ⟨N, hC⟩, hnd, hCn, hx, hx0, hxc, hb⟩ := hg e η M he0 hMM hη (by linarith)
  refine ⟨C, x, ⟨N, fun fuel hf => ?_⟩, hx, hx0, hxc, ?_⟩
  · unfold localClusterFl
    rw [if_neg (not_le.2 htp)]
    exact hC fuel hf
  have hφ := (cond_bounds ⟨hw, ha.symm, hl⟩
    (S := C.toFinset) (fun u hu => mem_range.2 (hCn u (List.mem_toFinset.1 hu)))).2
  have hx1 : x - 3 * η ≤ 1 := by linarith [(abs_le.1 hxc).2]
  have hc1 : s.cond T / a ≤ (1 + η) / 10 := by
    rw [div_le_iff₀ ha0]
    have b1 : 1 ≤ (1 + η) * (1 - R.u) := by
      have := mul_le_mul_of_nonneg_right hgg hu1.le
      linarith
    have b2 := mul_le_mul_of_nonneg_left ha2 (by linarith : (0 : ℝ) ≤ (1 + η) / 10)
    linarith
  have hc2 : g ^ (1 + k) * e * s.vol T ≤ (1 + η) / 10 := by
    have b0 : 1 / target * s.vol T ≤ 1 / 10 := by
      rw [one_div, inv_mul_le_iff₀ htp]
      linarith
    have b1 : g ^ (1 + k) * e ≤ (1 + η) * (1 / target) := by
      have c1 := mul_le_mul_of_nonneg_left he1 (by linarith : 0 ≤ g ^ (1 + k))
      have c2 : g ^ (1 + k) * (1 + R.u) ≤ 1 + η := by
        refine le_trans ?_ hG3
        apply mul_le_mul_of_nonneg_left _ (by linarith)
        nlinarith
      have c3 := mul_le_mul_of_nonneg_right c2 htinv.le
      linarith
    have b2 := mul_le_mul_of_nonneg_right b1 hV.le
    have b3 := mul_le_mul_of_nonneg_left b0 (by linarith : (0 : ℝ) ≤ 1 + η)
    linarith
  have hb' : 7 / 25 ≤ √(s.vol T / s.deg v) * (1 - max 0 (x - 3 * η) ^ 2 / 8) ^ 50 := by
    have := hb 50
    push_cast at this
    linarith
  have hX : 0 < s.vol T / s.deg v := div_pos hV hdv
  have hres := reported_le hη0 hx1 hX (by norm_num) (by norm_num) hb'
  have e1 : s.vol T / s.deg v / (7 / 25) ^ 2 ≤ 13 * s.vol T / s.deg v := by
    have : s.vol T / s.deg v / (7 / 25) ^ 2 = 625 / 49 * (s.vol T / s.deg v) := by ring
    rw [this, mul_div_assoc]
    exact mul_le_mul_of_nonneg_right (by norm_num) hX.le
  have e2 := Real.log_le_log (by positivity) e1
  have e3 : (4 : ℝ) / (50 : Nat) = 2 / 25 := by norm_num
  rw [e3] at hres
  exact hres.trans (add_le_add le_rfl (Real.sqrt_le_sqrt
    (mul_le_mul_of_nonneg_left e2 (by norm_num))))

/-- The number of neighbours in a list. -/
theorem neighborList_card {s : WGraph ℝ} {v : Nat} {es : List (Nat × ℝ)} (h : NeighborList s v es) :
    es.length ≤ ((range s.n).filter (fun u => s.w v u ≠ 0)).card := by
  have h1 : (es.map Prod.fst).toFinset ⊆ (range s.n).filter (fun u => s.w v u ≠ 0) := by
    intro u hu
    obtain ⟨e, he, rfl⟩ := List.mem_map.1 (List.mem_toFinset.1 hu)
    have := (h.2 e.1 e.2).1 he
    rw [mem_filter, mem_range]
    refine ⟨this.1, ?_⟩
    rw [this.2.1]
    exact this.2.2
  have h2 := card_le_card h1
  rwa [List.toFinset_card_of_nodup h.1, List.length_map] at h2

/-- **C109** (`double`s, graphs in memory).  Let `g` be a graph without self-loops and with weights
`≥ 0`, in which every vertex has at most `L` neighbours and every non-isolated vertex at least the
degree `δ`; degrees are computed in `double`s too.  Let `T` be a set of vertices of conductance at
most `1/1000`.  There is a set of good seeds in `T`, of at least half its volume, such that for every
seed `v` in it and every target volume of at least `10 vol(T)`: if `201 target ≤ M δ` and
`M (7 + 3 L) + L + 2 ≤ 4 * 10^11`, then `local_cluster(v, target)` returns a set `C`, the conductance
`x` which `conductance` reports for it is off by at most `1/10000`, and it is at most
`3/10000 + √(2/25 ln (13 vol(T) / deg(v)))`. -/
theorem C109_graph {g : Graph ℝ} (hv : g.Valid) (hz : g.adj.NoZeros) (hw : ∀ u v, 0 ≤ g.abs.w u v)
    (hl : ∀ v, g.abs.w v v = 0) {δ : ℝ} {L : Nat} (hδ : 0 < δ)
    (hmin : ∀ v, v < g.n → 0 < g.abs.deg v → δ ≤ g.abs.deg v)
    (hL : ∀ v, v < g.n → ((range g.n).filter (fun u => g.abs.w v u ≠ 0)).card ≤ L)
    {T : Finset Nat} (hT : T ⊆ range g.n) (hV : 0 < g.abs.vol T) (hcond : g.abs.cond T ≤ 1 / 1000) :
    ∃ T' ⊆ T, g.abs.vol T ≤ 2 * g.abs.vol T' ∧ ∀ v ∈ T', 0 < g.abs.deg v ∧
      ∀ (target : ℝ) (M : Nat), 10 * g.abs.vol T ≤ target → 201 * target ≤ M * δ →
        M * (7 + 3 * L) + L + 2 ≤ 4 * 10 ^ 11 →
        ∃ C x, (∃ N, ∀ fuel, N ≤ fuel →
            localClusterFl (flBin 53) (g.asLocalFl (flBin 53)) fuel v target = some (.ok C)) ∧
          conductanceFl (flBin 53) (g.asLocalFl (flBin 53)) (C.map (fun u : Nat => (u : Int))) = .ok x ∧
          0 ≤ x ∧ |x - g.abs.cond C.toFinset| ≤ 1 / 10000 ∧
          x ≤ 3 / 10000 + √(2 / 25 * Real.log (13 * g.abs.vol T / g.abs.deg v)) := by
  have hu := KMeans.dbl_u (K := ℝ)
  have ha : (g.asLocalFl (KMeans.dbl ℝ).fl).AnswersFl g.abs (g.degFl (KMeans.dbl ℝ).fl) :=
    Graph.asLocalFl_answers hv hz
  have hLes : ∀ v, v < g.abs.n → ∀ es, (g.asLocalFl (KMeans.dbl ℝ).fl).neighbors (v : Int) = .ok es →
      es.length ≤ L := by
    intro v hvn es hes
    obtain ⟨es', he', _, hnb⟩ := ha.nbrs v hvn
    rw [hes] at he'
    cases he'
    have := neighborList_card hnb
    rw [List.length_map] at this
    exact this.trans (hL v hvn)
  have hD : ∀ v, v < g.abs.n → (KMeans.dbl ℝ).Near (L + 1) (g.degFl (KMeans.dbl ℝ).fl v) (g.abs.deg v) :=
    fun v hvn => (C77_degree (R := KMeans.dbl ℝ) hv hw hvn).2.mono (Nat.add_le_add_right (hL v hvn) 1)
  have f1 : (KMeans.dbl ℝ).fl 1 = 1 := by
    change flBin 53 (1 : ℝ) = 1
    simpa using flBin_zpow (K := ℝ) (p := 53) (by norm_num) 0
  obtain ⟨T', hsub, hvol, hall⟩ := C109_local_cluster (R := KMeans.dbl ℝ) ha hD hw hl f1 hδ hmin hLes hT
    hV hcond (by rw [hu]; norm_num)
  refine ⟨T', hsub, hvol, fun v hvT => ⟨(hall v hvT).1, fun target M htar hM hsize => ?_⟩⟩
  set m := M * (6 + (L + 1) + 2 * L) + (L + 1) + 1 with hm
  have hmle : m ≤ 4 * 10 ^ 11 := by
    have : m = M * (7 + 3 * L) + L + 2 := by rw [hm]; ring
    omega
  have hmu : (m : ℝ) * (KMeans.dbl ℝ).u ≤ 1 / 20000 := by
    have : (m : ℝ) ≤ ((4 * 10 ^ 11 : Nat) : ℝ) := by exact_mod_cast hmle
    rw [hu]
    refine (mul_le_mul_of_nonneg_right this (by positivity)).trans ?_
    norm_num
  have hη := (KMeans.dbl ℝ).g_pow_le (m := m) (by linarith)
  obtain ⟨C, x, hC, hx, hx0, hxc, hxb⟩ := (hall v hvT).2 target
    ((1 / (1 - (KMeans.dbl ℝ).u)) ^ m - 1) M htar hM rfl (by linarith)
  refine ⟨C, x, hC, hx, hx0, by linarith, hxb.trans ?_⟩
  linarith

/-! ## Non-vacuity -/

/-- Two pairs of vertices, joined inside by an edge of weight 1024 and to each other by one of weight
1. -/
def tightPairs (u v : Nat) : ℝ :=
  if (u = 0 ∧ v = 1) ∨ (u = 1 ∧ v = 0) ∨ (u = 2 ∧ v = 3) ∨ (u = 3 ∧ v = 2) then 1024
    else if (u = 1 ∧ v = 2) ∨ (u = 2 ∧ v = 1) then 1 else 0

/-- **C109** (instance).  The hypotheses of `C109_graph` are met by a graph the constructor returns,
with two pairs of vertices joined by edges of weight 1024 and by one of weight 1: from a good seed,
`local_cluster` with a target volume of 32768 reports a conductance below the bound. -/
theorem C109_nonvacuous : ∃ g : Graph ℝ, g.Reachable ∧ g.abs = ⟨4, tightPairs⟩ ∧
    ∃ T' ⊆ ({0, 1} : Finset Nat), 2049 ≤ 2 * g.abs.vol T' ∧ ∀ v ∈ T',
      ∃ C x, (∃ N, ∀ fuel, N ≤ fuel →
          localClusterFl (flBin 53) (g.asLocalFl (flBin 53)) fuel v 32768 = some (.ok C)) ∧
        conductanceFl (flBin 53) (g.asLocalFl (flBin 53)) (C.map (fun u : Nat => (u : Int))) = .ok x ∧
        x ≤ 3 / 10000 + √(2 / 25 * Real.log (13 * 2049 / g.abs.deg v)) := by
  obtain ⟨g, hr, hp, hg⟩ := exists_pruned_graph 4 tightPairs
    (by intro i j; unfold tightPairs; split_ifs <;> first | rfl | omega)
    (by
      intro i j
      unfold tightPairs
      split_ifs
      · exact .inr (by unfold epsilon; norm_num)
      · exact .inr (by unfold epsilon; norm_num)
      · exact .inl rfl)
    (by intro i j h; unfold tightPairs; rw [if_neg (by omega), if_neg (by omega)])
  have hn : g.n = 4 := congrArg WGraph.n hg
  have hval := hr.valid
  have hdeg : ∀ v, v < 4 → 1024 ≤ g.abs.deg v := by
    intro v hv
    rw [hg]
    unfold WGraph.deg
    simp only [Finset.sum_range_succ, Finset.sum_range_zero, zero_add]
    have : v = 0 ∨ v = 1 ∨ v = 2 ∨ v = 3 := by omega
    rcases this with rfl | rfl | rfl | rfl <;> norm_num [tightPairs]
  have hvol : g.abs.vol {0, 1} = 2049 := by
    rw [hg]
    unfold WGraph.vol
    rw [Finset.sum_pair (by norm_num)]
    unfold WGraph.deg
    simp only [Finset.sum_range_succ, Finset.sum_range_zero, zero_add]
    norm_num [tightPairs]
  have hcond : g.abs.cond {0, 1} = 1 / 2049 := by
    rw [cond_eq, hvol]
    congr 1
    rw [hg]
    unfold WGraph.cut
    have e : range 4 \ {0, 1} = {2, 3} := by decide
    simp only [e]
    rw [Finset.sum_pair (by norm_num), Finset.sum_pair (by norm_num), Finset.sum_pair (by norm_num)]
    norm_num [tightPairs]
  obtain ⟨T', hsub, hvolT, hall⟩ := C109_graph hval hp.noZeros
    (by rw [hg]; intro u v; simp only [tightPairs]; split_ifs <;> norm_num)
    (by rw [hg]; intro v; simp only [tightPairs]; rw [if_neg (by omega), if_neg (by omega)])
    (δ := 1024) (L := 4) (by norm_num) (fun v hv _ => hdeg v (by omega))
    (fun v _ => (card_filter_le _ _).trans (by rw [card_range, hn]))
    (T := {0, 1}) (by rw [hn]; decide) (by rw [hvol]; norm_num) (by rw [hcond]; norm_num)
  rw [hvol] at hvolT
  refine ⟨g, hr, hg, T', hsub, hvolT, fun v hv => ?_⟩
  obtain ⟨C, x, hC, hx, _, _, hb⟩ := (hall v hv).2 32768 6500 (by rw [hvol]; norm_num) (by norm_num)
    (by norm_num)
  rw [hvol] at hb
  exact ⟨C, x, hC, hx, hb⟩

end
end Stag
