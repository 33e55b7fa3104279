import Verif.AclMath
import Verif.Props.Conductance
import Mathlib.Analysis.SpecialFunctions.Log.Basic
import Mathlib.Algebra.Order.Floor.Semiring
import Mathlib.Tactic.NormNum

/-!
# C73: the conductance guarantee of local clustering

Andersen, Chung and Lang: if a set `T` of small conductance contains the seed, and the seed is one
of the good vertices of `T` (at least half of its volume), then `local_cluster_acl` returns a set of
conductance `O(√(α log (vol T / deg seed)))`.  Conductance is `cut / vol`, as computed by
`stag::conductance`.
-/

namespace Stag

open Finset AclMath

section
variable {lg : LGraph ℝ} {s : WGraph ℝ}

theorem cut_le_vol (hs : Good s) {S : Finset Nat} (hS : S ⊆ range s.n) : s.cut S ≤ s.vol S := by
  have h1 := inner_volume hs.sweep hS
  have h2 : 0 ≤ s.vol S - s.cut S := by
    rw [← h1]
    apply Finset.sum_nonneg
    intro u _
    split_ifs
    · exact mul_nonneg (frac_bounds hs.sweep hS u).1 (hs.sweep.deg_nonneg u)
    · rw [zero_mul]
  linarith

theorem cond_eq (s : WGraph ℝ) (S : Finset Nat) : s.cond S = s.cut S / s.vol S := by
  unfold WGraph.cond
  split_ifs with h
  · rw [h, div_zero]
  · rfl

theorem cond_bounds (hs : Good s) {S : Finset Nat} (hS : S ⊆ range s.n) :
    0 ≤ s.cond S ∧ s.cond S ≤ 1 := by
  rw [cond_eq]
  have h0 : 0 ≤ s.vol S := Finset.sum_nonneg (fun u _ => hs.sweep.deg_nonneg u)
  exact ⟨div_nonneg (Finset.sum_nonneg (fun u _ => Finset.sum_nonneg (fun v _ => hs.nonneg u v))) h0,
    div_le_one_of_le₀ (cut_le_vol hs hS) h0⟩

/-- **C73** (mixing).  Let `C` be what `local_cluster_acl` returns and `p` the approximate PageRank
vector it computes.  If the conductance of `C` is large, the mass of `p` is spread out: every set
`T` of vertices holds at most `α t + √(vol T / deg v) (1 - cond(C)² / 8)^t` of it, for every `t`. -/
theorem C73_mixing (ha : lg.AnswersAll s) (hw : ∀ u v, 0 ≤ s.w u v) (hl : ∀ v, s.w v v = 0)
    {α ε : ℝ} (h0 : 0 < α) (h1 : α ≤ 1) (hε : 0 < ε) {v : Nat} (hv : v < s.n) (hdv : 0 < s.deg v)
    {fuel : Nat} {C : List Nat} {p r : SVec ℝ} (hres : localClusterAcl lg fuel v α ε = some (.ok C))
    (hpr : approximatePagerank lg fuel (seedVec v) α ε = some (.ok (p, r)))
    {T : Finset Nat} (hT : T ⊆ range s.n) (t : Nat) :
    ∑ u ∈ T, p.get u ≤
      α * t + √(s.vol T / s.deg v) * (1 - s.cond C.toFinset ^ 2 / 8) ^ t := by
  have hset := aprSetting_seed ha hw hl h0.le h1 hε hv
  have hgood : Good s := ⟨hw, ha.symm, hl⟩
  obtain ⟨C', p', r', hC', hp', hnd, hin, hvol, hemp, order, k, hCk, hkl, hond, hmem, hsort, hmin⟩ :=
    C37_local_cluster_acl ha hw h0 h1 hε hv hres
  cases hC'
  rw [hpr] at hp'
  cases hp'
  -- the state at the end of the loop
  rcases apr_trace hset.toAprBase fuel with ⟨us, st, htr, hq, he⟩ | ⟨us, st, _, _, _, he⟩
  swap
  · rw [he] at hpr; cases hpr
  rw [he] at hpr
  cases hpr
  have hi := htr.inv hset
  have hinside : ∀ u, 0 < st.p.get u → u < s.n ∧ 0 < s.deg u := by
    intro u hu
    apply hi.pushed
    rw [← hi.support]
    exact SVec.mem_indices_of_get hu.ne'
  have hsw : Sweep s st.p.get order :=
    ⟨hw, ha.symm, hl, hi.pNonneg, hond, fun u _ => (hmem u).2, fun u hu => hinside u ((hmem u).1 hu), hsort⟩
  have hsub : C.toFinset ⊆ range s.n := fun u hu => mem_range.2 (hin u (List.mem_toFinset.1 hu)).1
  have hφ := cond_bounds hgood hsub
  have hseed : (seedVec v : SVec ℝ).get = fun u => if u = v then 1 else 0 := funext (seedVec_get v)
  have hdeg := WGraph.degree_nonneg hw
  obtain ⟨q, hqp⟩ := C35_pagerank_exists hw h0 h1 (seedVec v : SVec ℝ).get
  have hle := C35_error_bound hset h0 (fun u hu hd => by
    rw [seedVec_get, if_neg]; rintro rfl; exact hdv.ne' hd) he hqp
  have hqd := hgood.le_deg (c := 1 / s.deg v) h0 h1 (fun u _ => by
    rw [seedVec_get]
    split_ifs with huv
    · rw [huv, one_div, inv_mul_cancel₀ hdv.ne']
    · exact mul_nonneg (by positivity) (hdeg u)) hqp
  have hm := hi.mass
  rw [mass_seedVec hv] at hm
  have hr0 : 0 ≤ s.mass st.r.get := Finset.sum_nonneg (fun u _ => hi.rNonneg u)
  have key := hsw.mixing (x := (seedVec v : SVec ℝ).get) h0.le h1 hdv hφ.1 hφ.2
    (fun u => by rw [seedVec_get]; split_ifs <;> norm_num) (mass_seedVec hv).le (by linarith)
    (fun u hu => by
      have a := (hle u hu).1
      have b := hqd u hu
      rw [one_div, inv_mul_eq_div] at b
      exact a.trans b)
    (fun u hu => by
      have a := hi.eqn u hu
      have b := mul_nonneg h0.le (hi.rNonneg u)
      linarith)
    (fun i hi0 hil => by
      have a := hmin i hi0 hil
      rw [← cond_eq] at a
      have hvp : 0 < s.vol (order.take i).toFinset := by
        have hlen : 0 < order.length := by omega
        have hm0 : order[0] ∈ (order.take i).toFinset := by
          rw [List.mem_toFinset]
          exact List.mem_take_iff_getElem.2 ⟨0, by omega, rfl⟩
        exact lt_of_lt_of_le (hinside _ ((hmem _).1 (List.getElem_mem hlen))).2
          (Finset.single_le_sum (f := s.deg) (fun x _ => hdeg x) hm0)
      rwa [le_div_iff₀ hvp] at a) t (w := fun u => if u ∈ T then 1 else 0)
    (fun u => by beta_reduce; split_ifs <;> norm_num)
  have e : ∀ f : Nat → ℝ, ∑ u ∈ range s.n, (if u ∈ T then (1 : ℝ) else 0) * f u = ∑ u ∈ T, f u := by
    intro f
    simp only [ite_mul, one_mul, zero_mul]
    rw [← Finset.sum_filter, Finset.filter_mem_eq_inter, Finset.inter_eq_right.2 hT]
  rw [e, e] at key
  exact key

/-- **C73** (good seeds).  In every set `T` of vertices of positive volume, vertices making up at
least half of the volume are good seeds: the exact PageRank vector started there has all but
`cond(T) / α` of its mass inside `T`. -/
theorem C73_good_seeds (hw : ∀ u v, 0 ≤ s.w u v) (hs : ∀ u v, s.w u v = s.w v u)
    (hl : ∀ v, s.w v v = 0) {α : ℝ} (h0 : 0 < α) (h1 : α ≤ 1) {T : Finset Nat}
    (hT : T ⊆ range s.n) (hV : 0 < s.vol T) :
    ∃ T' ⊆ T, s.vol T ≤ 2 * s.vol T' ∧ ∀ v ∈ T', 0 < s.deg v ∧
      ∀ q, s.IsPagerank α (fun u => if u = v then 1 else 0) q →
        1 - s.cond T / α ≤ ∑ u ∈ T, q u := by
  rw [cond_eq]
  exact (⟨hw, hs, hl⟩ : Good s).seeds h0 h1 hT hV

/-- **C73** (guarantee).  For every set `T` of vertices of positive volume there is a set of good
seeds `T' ⊆ T`, of at least half the volume of `T` and depending on `T` and `α` only, such that for
every seed `v` in it, every error `ε` and every `t`: the call `local_cluster_acl(v, α, ε)` returns,
and the conductance `φ` that `stag::conductance` reports for the returned set satisfies
`1 - cond(T) / α - ε vol(T) ≤ α t + √(vol T / deg v) (1 - φ² / 8)^t`. -/
theorem C73_guarantee (ha : lg.AnswersAll s) (hw : ∀ u v, 0 ≤ s.w u v) (hl : ∀ v, s.w v v = 0)
    {α : ℝ} (h0 : 0 < α) (h1 : α ≤ 1) {T : Finset Nat} (hT : T ⊆ range s.n) (hV : 0 < s.vol T) :
    ∃ T' ⊆ T, s.vol T ≤ 2 * s.vol T' ∧ ∀ v ∈ T', 0 < s.deg v ∧ ∀ ε : ℝ, 0 < ε →
      ∃ N, ∀ fuel, N ≤ fuel → ∃ C φ, localClusterAcl lg fuel v α ε = some (.ok C) ∧
        conductance lg (C.map (fun u : Nat => (u : Int))) = .ok φ ∧ 0 ≤ φ ∧ φ ≤ 1 ∧
        ∀ t : Nat, 1 - s.cond T / α - ε * s.vol T ≤
          α * t + √(s.vol T / s.deg v) * (1 - φ ^ 2 / 8) ^ t := by
  obtain ⟨T', hsub, hvol, hgood⟩ := C73_good_seeds hw ha.symm hl h0 h1 hT hV
  refine ⟨T', hsub, hvol, fun v hv => ⟨(hgood v hv).1, fun ε hε => ?_⟩⟩
  obtain ⟨hdv, hkeep⟩ := hgood v hv
  have hvn : v < s.n := mem_range.1 (hT (hsub hv))
  obtain ⟨N, hN⟩ := C37_terminates ha hw h0 h1 hε hvn
  refine ⟨N, fun fuel hf => ?_⟩
  obtain ⟨C, hC⟩ := hN fuel hf
  obtain ⟨C', p, r, hC', hpr, hnd, hin, _⟩ := C37_local_cluster_acl ha hw h0 h1 hε hvn hC
  cases hC'
  have hsubC : C.toFinset ⊆ range s.n := fun u hu => mem_range.2 (hin u (List.mem_toFinset.1 hu)).1
  have hφ := cond_bounds ⟨hw, ha.symm, hl⟩ hsubC
  refine ⟨C, s.cond C.toFinset, hC,
    C33_conductance ha.toAnswers (fun u hu => (hin u hu).1) hnd (fun u _ => hl u), hφ.1, hφ.2,
    fun t => ?_⟩
  refine le_trans ?_ (C73_mixing ha hw hl h0 h1 hε hvn hdv hC hpr hT t)
  have hseed : (seedVec v : SVec ℝ).get = fun u => if u = v then 1 else 0 := funext (seedVec_get v)
  obtain ⟨q, hq⟩ := C35_pagerank_exists hw h0 h1 (seedVec v : SVec ℝ).get
  have hb := C35_error_bound (aprSetting_seed ha hw hl h0.le h1 hε hvn) h0 (fun u hu hd => by
    rw [seedVec_get, if_neg]; rintro rfl; exact hdv.ne' hd) hpr hq
  rw [hseed] at hq
  have hk := hkeep q hq
  have hsum : ∑ u ∈ T, q u ≤ ∑ u ∈ T, p.get u + ε * s.vol T := by
    unfold WGraph.vol
    rw [Finset.mul_sum, ← Finset.sum_add_distrib]
    exact Finset.sum_le_sum (fun u hu => (hb u (mem_range.1 (hT hu))).2)
  linarith

/-- If a power of `1 - φ² / 8` is still large, `φ` is small. -/
theorem phi_sq_le {φ X c : ℝ} {t : Nat} (h0 : 0 ≤ φ) (h1 : φ ≤ 1) (hX : 0 < X) (hc : 0 < c) (ht : 0 < t)
    (h : c ≤ √X * (1 - φ ^ 2 / 8) ^ t) : φ ^ 2 ≤ 4 / t * Real.log (X / c ^ 2) := by
  have hlam : 0 < 1 - φ ^ 2 / 8 := by nlinarith
  have hlog := Real.log_le_log hc h
  rw [Real.log_mul (Real.sqrt_pos.2 hX).ne' (pow_pos hlam t).ne', Real.log_pow, Real.log_sqrt hX.le] at hlog
  have h2 : Real.log (1 - φ ^ 2 / 8) ≤ - (φ ^ 2 / 8) := by
    have := Real.log_le_sub_one_of_pos hlam
    linarith
  have htp : (0 : ℝ) < t := Nat.cast_pos.2 ht
  have h3 := mul_le_mul_of_nonneg_left h2 htp.le
  rw [Real.log_div hX.ne' (by positivity), Real.log_pow]
  have : (t : ℝ) * φ ^ 2 ≤ 4 * (Real.log X - ((2 : Nat) : ℝ) * Real.log c) := by
    push_cast
    linarith
  rw [div_mul_eq_mul_div, le_div_iff₀ htp]
  linarith

/-- **C73** (conductance of the result).  Let `α ≤ 1/4`, and let `T` be a set of vertices of
conductance at most `α / 4`.  From a good seed `v ∈ T` (vertices of at least half of the volume of
`T` are good) and with an error of at most `1 / (4 vol T)`, `local_cluster_acl` returns a set whose
conductance `φ` satisfies `φ² ≤ 32 α ln (16 vol(T) / deg(v))`. -/
theorem C73_conductance (ha : lg.AnswersAll s) (hw : ∀ u v, 0 ≤ s.w u v) (hl : ∀ v, s.w v v = 0)
    {α : ℝ} (h0 : 0 < α) (h1 : α ≤ 1 / 4) {T : Finset Nat} (hT : T ⊆ range s.n) (hV : 0 < s.vol T)
    (hcond : s.cond T ≤ α / 4) :
    ∃ T' ⊆ T, s.vol T ≤ 2 * s.vol T' ∧ ∀ v ∈ T', 0 < s.deg v ∧ ∀ ε : ℝ, 0 < ε → ε ≤ 1 / (4 * s.vol T) →
      ∃ N, ∀ fuel, N ≤ fuel → ∃ C φ, localClusterAcl lg fuel v α ε = some (.ok C) ∧
        conductance lg (C.map (fun u : Nat => (u : Int))) = .ok φ ∧ 0 ≤ φ ∧
        φ ^ 2 ≤ 32 * α * Real.log (16 * s.vol T / s.deg v) := by
  obtain ⟨T', hsub, hvol, hall⟩ := C73_guarantee ha hw hl h0 (by linarith) hT hV
  refine ⟨T', hsub, hvol, fun v hv => ⟨(hall v hv).1, fun ε hε hε' => ?_⟩⟩
  obtain ⟨hdv, hg⟩ := hall v hv
  obtain ⟨N, hN⟩ := hg ε hε
  refine ⟨N, fun fuel hf => ?_⟩
  obtain ⟨C, φ, hC, hcd, hφ0, hφ1, hb⟩ := hN fuel hf
  refine ⟨C, φ, hC, hcd, hφ0, ?_⟩
  set t := ⌊1 / (4 * α)⌋₊ with ht
  have hx : 1 ≤ 1 / (4 * α) := by rw [le_div_iff₀ (by linarith)]; linarith
  have ht1 : 1 ≤ t := (Nat.one_le_floor_iff _).2 hx
  have htu : (t : ℝ) ≤ 1 / (4 * α) := Nat.floor_le (by linarith)
  have htl : 1 / (4 * α) < t + 1 := Nat.lt_floor_add_one _
  have ht1r : (1 : ℝ) ≤ t := by exact_mod_cast ht1
  have hαt : α * t ≤ 1 / 4 := by
    have := mul_le_mul_of_nonneg_left htu h0.le
    have e : α * (1 / (4 * α)) = 1 / 4 := by field_simp
    linarith
  have hαt2 : 1 / 8 ≤ α * t := by
    have := mul_le_mul_of_nonneg_left htl.le h0.le
    have e : α * (1 / (4 * α)) = 1 / 4 := by field_simp
    have := mul_le_mul_of_nonneg_left ht1r h0.le
    linarith
  have hc1 : s.cond T / α ≤ 1 / 4 := by rw [div_le_iff₀ h0]; linarith
  have hc2 : ε * s.vol T ≤ 1 / 4 := by
    rw [le_div_iff₀ (by linarith)] at hε'
    linarith
  have hb' : 1 / 4 ≤ √(s.vol T / s.deg v) * (1 - φ ^ 2 / 8) ^ t := by
    have := hb t
    linarith
  have hX : 0 < s.vol T / s.deg v := div_pos hV hdv
  have hres := phi_sq_le hφ0 hφ1 hX (by norm_num) ht1 hb'
  have e1 : s.vol T / s.deg v / (1 / 4) ^ 2 = 16 * s.vol T / s.deg v := by ring
  rw [e1] at hres
  have hvge : 1 ≤ 16 * s.vol T / s.deg v := by
    rw [le_div_iff₀ hdv]
    have := Finset.single_le_sum (f := s.deg) (fun x _ => WGraph.degree_nonneg hw x) (hsub hv)
    have : s.deg v ≤ s.vol T := this
    linarith
  refine hres.trans (mul_le_mul_of_nonneg_right ?_ (Real.log_nonneg hvge))
  rw [div_le_iff₀ (by linarith)]
  linarith

/-- **C73** (`local_cluster`).  Let `T` be a set of vertices of conductance at most `1/1000` whose
volume is at most a tenth of the target volume.  From a good seed `v ∈ T` (vertices of at least half
of the volume of `T` are good) `local_cluster` returns a set whose conductance `φ` satisfies
`φ² ≤ (2/25) ln (12 vol(T) / deg(v))`. -/
theorem C73_local_cluster (ha : lg.AnswersAll s) (hw : ∀ u v, 0 ≤ s.w u v) (hl : ∀ v, s.w v v = 0)
    {T : Finset Nat} (hT : T ⊆ range s.n) (hV : 0 < s.vol T) (hcond : s.cond T ≤ 1 / 1000) :
    ∃ T' ⊆ T, s.vol T ≤ 2 * s.vol T' ∧ ∀ v ∈ T', 0 < s.deg v ∧ ∀ target : ℝ, 10 * s.vol T ≤ target →
      ∃ N, ∀ fuel, N ≤ fuel → ∃ C φ, localCluster lg fuel v target = some (.ok C) ∧
        conductance lg (C.map (fun u : Nat => (u : Int))) = .ok φ ∧ 0 ≤ φ ∧
        φ ^ 2 ≤ 2 / 25 * Real.log (12 * s.vol T / s.deg v) := by
  obtain ⟨T', hsub, hvol, hall⟩ := C73_guarantee (α := 1 / 100) ha hw hl (by norm_num) (by norm_num) hT hV
  refine ⟨T', hsub, hvol, fun v hv => ⟨(hall v hv).1, fun target htar => ?_⟩⟩
  obtain ⟨hdv, hg⟩ := hall v hv
  have htp : 0 < target := by linarith
  obtain ⟨N, hN⟩ := hg (1 / target) (by positivity)
  refine ⟨N, fun fuel hf => ?_⟩
  obtain ⟨C, φ, hC, hcd, hφ0, hφ1, hb⟩ := hN fuel hf
  refine ⟨C, φ, ?_, hcd, hφ0, ?_⟩
  · unfold localCluster
    rw [if_neg (not_le.2 htp)]
    exact hC
  have hc1 : s.cond T / (1 / 100) ≤ 1 / 10 := by rw [div_le_iff₀ (by norm_num)]; linarith
  have hc2 : 1 / target * s.vol T ≤ 1 / 10 := by
    rw [one_div, inv_mul_le_iff₀ htp]
    linarith
  have hb' : 3 / 10 ≤ √(s.vol T / s.deg v) * (1 - φ ^ 2 / 8) ^ 50 := by
    have := hb 50
    push_cast at this
    linarith
  have hX : 0 < s.vol T / s.deg v := div_pos hV hdv
  have hres := phi_sq_le hφ0 hφ1 hX (by norm_num) (by norm_num) hb'
  have e1 : s.vol T / s.deg v / (3 / 10) ^ 2 ≤ 12 * s.vol T / s.deg v := by
    have : s.vol T / s.deg v / (3 / 10) ^ 2 = 100 / 9 * (s.vol T / s.deg v) := by ring
    rw [this, mul_div_assoc]
    exact mul_le_mul_of_nonneg_right (by norm_num) hX.le
  have e2 := Real.log_le_log (by positivity) e1
  have e3 : (4 : ℝ) / (50 : Nat) = 2 / 25 := by norm_num
  rw [e3] at hres
  linarith

/-- **C73** (no error argument).  Called without an error, `local_cluster_acl` meets the guarantee
for sets of volume at most `250`, and returns a set of volume at most `1000 / α`. -/
theorem C73_default_error (ha : lg.AnswersAll s) (hw : ∀ u v, 0 ≤ s.w u v) (hl : ∀ v, s.w v v = 0)
    {α : ℝ} (h0 : 0 < α) (h1 : α ≤ 1 / 4) {T : Finset Nat} (hT : T ⊆ range s.n) (hV : 0 < s.vol T)
    (hV' : s.vol T ≤ 250) (hcond : s.cond T ≤ α / 4) :
    ∃ T' ⊆ T, s.vol T ≤ 2 * s.vol T' ∧ ∀ v ∈ T', 0 < s.deg v ∧
      ∃ N, ∀ fuel, N ≤ fuel → ∃ C φ, localClusterAclDefault lg fuel v α = some (.ok C) ∧
        conductance lg (C.map (fun u : Nat => (u : Int))) = .ok φ ∧ 0 ≤ φ ∧
        φ ^ 2 ≤ 32 * α * Real.log (16 * s.vol T / s.deg v) ∧
        s.vol C.toFinset ≤ 1000 / α := by
  obtain ⟨T', hsub, hvol, hall⟩ := C73_conductance ha hw hl h0 h1 hT hV hcond
  refine ⟨T', hsub, hvol, fun v hv => ⟨(hall v hv).1, ?_⟩⟩
  obtain ⟨hdv, hg⟩ := hall v hv
  obtain ⟨N, hN⟩ := hg (1 / 1000) (by norm_num) (by
    rw [le_div_iff₀ (by linarith)]; linarith)
  refine ⟨N, fun fuel hf => ?_⟩
  obtain ⟨C, φ, hC, hcd, hφ0, hb⟩ := hN fuel hf
  refine ⟨C, φ, hC, hcd, hφ0, hb, ?_⟩
  obtain ⟨C', p, r, hC', _, _, _, hv2, _⟩ := C37_local_cluster_acl ha hw h0 (by linarith)
    (by norm_num) (mem_range.1 (hT (hsub hv))) hC
  cases hC'
  rw [le_div_iff₀ h0]
  linarith

/-! ## Non-vacuity -/

/-- A local graph which answers from the weighted graph itself. -/
noncomputable def ofSpec (s : WGraph ℝ) : LGraph ℝ where
  neighbors v := .ok (((List.range s.n).filter (fun u => s.w v.toNat u ≠ 0)).map
    (fun u => ⟨v.toNat, u, s.w v.toNat u⟩))
  neighborsUnweighted v := .ok ((List.range s.n).filter (fun u => s.w v.toNat u ≠ 0))
  degree v := .ok (s.deg v.toNat)
  vertexExists v := decide (v < (s.n : Int))

theorem ofSpec_answers {s : WGraph ℝ} (hs : ∀ u v, s.w u v = s.w v u)
    (hr : ∀ u v, s.n ≤ v → s.w u v = 0) : (ofSpec s).AnswersAll s := by
  refine ⟨⟨hs, hr, ?_, ?_, ?_⟩, ?_⟩
  · intro v _
    refine ⟨_, rfl, ?_, ?_, ?_⟩
    · intro e he
      obtain ⟨u, _, rfl⟩ := List.mem_map.1 he
      rfl
    · rw [List.map_map, List.map_map]
      have : ((Prod.fst ∘ fun e : Edge ℝ => (e.v2, e.w)) ∘
          fun u => (⟨(v : Int).toNat, u, s.w (v : Int).toNat u⟩ : Edge ℝ)) = id := rfl
      rw [this, List.map_id]
      exact List.nodup_range.filter _
    · intro u x
      simp only [List.map_map, List.mem_map, List.mem_filter, List.mem_range, Function.comp,
        Prod.mk.injEq, Int.toNat_natCast, decide_eq_true_eq]
      constructor
      · rintro ⟨a, ⟨h1, h2⟩, rfl, rfl⟩
        exact ⟨h1, rfl, h2⟩
      · rintro ⟨h1, rfl, h2⟩
        exact ⟨u, ⟨h1, h2⟩, rfl, rfl⟩
  · intro v _; rfl
  · intro v _; rfl
  · intro v es _ he
    simp only [ofSpec, Outcome.ok.injEq] at he ⊢
    rw [← he, List.map_map]
    exact (List.map_id _).symm

/-- Two pairs of vertices, joined inside by an edge of weight 1 and to each other by one of weight
1/100. -/
noncomputable def twoPairs : WGraph ℝ where
  n := 4
  w u v := if (u = 0 ∧ v = 1) ∨ (u = 1 ∧ v = 0) ∨ (u = 2 ∧ v = 3) ∨ (u = 3 ∧ v = 2) then 1
    else if (u = 1 ∧ v = 2) ∨ (u = 2 ∧ v = 1) then 1 / 100 else 0

theorem twoPairs_vol : twoPairs.vol {0, 1} = 201 / 100 := by
  simp [WGraph.vol, WGraph.deg, twoPairs, Finset.sum_range_succ]
  norm_num

theorem twoPairs_cond : twoPairs.cond {0, 1} = 1 / 201 := by
  rw [cond_eq, twoPairs_vol]
  have e : range twoPairs.n \ {0, 1} = {2, 3} := by decide
  unfold WGraph.cut
  rw [e]
  simp [twoPairs]
  norm_num

/-- The guarantee applies to the pair `{0, 1}` (conductance `1/201`) with `α = 1/40`. -/
example : ∃ T' ⊆ ({0, 1} : Finset Nat), (201 / 100 : ℝ) ≤ 2 * twoPairs.vol T' ∧ ∀ v ∈ T',
    0 < twoPairs.deg v ∧ ∀ ε : ℝ, 0 < ε → ε ≤ 1 / (4 * (201 / 100)) →
      ∃ N, ∀ fuel, N ≤ fuel → ∃ C φ, localClusterAcl (ofSpec twoPairs) fuel v (1 / 40) ε = some (.ok C) ∧
        conductance (ofSpec twoPairs) (C.map (fun u : Nat => (u : Int))) = .ok φ ∧ 0 ≤ φ ∧
        φ ^ 2 ≤ 32 * (1 / 40) * Real.log (16 * (201 / 100) / twoPairs.deg v) := by
  have hs : ∀ u v, twoPairs.w u v = twoPairs.w v u := by
    intro u v
    unfold twoPairs
    simp only
    split_ifs <;> first | rfl | omega
  have hr : ∀ u v, twoPairs.n ≤ v → twoPairs.w u v = 0 := by
    intro u v h
    unfold twoPairs at h ⊢
    simp only at h ⊢
    rw [if_neg (by omega), if_neg (by omega)]
  have hw : ∀ u v, 0 ≤ twoPairs.w u v := by
    intro u v
    unfold twoPairs
    simp only
    split_ifs <;> norm_num
  have hl : ∀ v, twoPairs.w v v = 0 := by
    intro v
    unfold twoPairs
    simp only
    rw [if_neg (by omega), if_neg (by omega)]
  have := C73_conductance (α := 1 / 40) (T := {0, 1}) (ofSpec_answers hs hr) hw hl (by norm_num)
    (by norm_num) (by decide) (by rw [twoPairs_vol]; norm_num) (by rw [twoPairs_cond]; norm_num)
  rwa [twoPairs_vol] at this

end
end Stag
