import Verif.Props.LocalCluster
import Mathlib.Analysis.SpecialFunctions.Sqrt
import Mathlib.Tactic.Linarith
import Mathlib.Tactic.Positivity

/-!
# The argument of Andersen, Chung and Lang for the sweep over an approximate PageRank vector

If every sweep set of `p / deg` keeps at least the fraction `φ` of its volume as cut, then the
mass of `p` is spread: `p(T) ≤ α t + √(vol T / d) (1 - φ² / 8)^t` for every set `T` and every `t`.
The curve of Lovász and Simonovits is represented by the fractional sets `w : V → [0, 1]`.
-/

namespace Stag
namespace AclMath

open Finset

/-- The sweep setting: a graph, a vector, and the order of its support by `p / deg`. -/
structure Sweep (s : WGraph ℝ) (p : Nat → ℝ) (order : List Nat) : Prop where
  nonneg : ∀ u v, 0 ≤ s.w u v
  symm : ∀ u v, s.w u v = s.w v u
  noLoops : ∀ v, s.w v v = 0
  p0 : ∀ v, 0 ≤ p v
  nodup : order.Nodup
  mem : ∀ u, u < s.n → 0 < p u → u ∈ order
  inside : ∀ u ∈ order, u < s.n ∧ 0 < s.deg u
  sorted : order.Pairwise (fun i j => p j / s.deg j ≤ p i / s.deg i)

variable {s : WGraph ℝ} {p : Nat → ℝ} {order : List Nat}

theorem Sweep.deg_nonneg (h : Sweep s p order) (v : Nat) : 0 ≤ s.deg v := WGraph.degree_nonneg h.nonneg v

/-- A linear functional bounded by its value on a prefix. -/
theorem Sweep.threshold (h : Sweep s p order) {i : Nat} (hi : i < order.length) {w : Nat → ℝ}
    (hw : ∀ u, 0 ≤ w u ∧ w u ≤ 1) (θ : ℝ) (hθ : θ = p order[i] / s.deg order[i]) :
    ∑ u ∈ range s.n, w u * (p u - θ * s.deg u) ≤
      ∑ u ∈ (order.take i).toFinset, (p u - θ * s.deg u) := by
  have hθ0 : 0 ≤ θ := by rw [hθ]; exact div_nonneg (h.p0 _) (h.deg_nonneg _)
  have hsub : (order.take i).toFinset ⊆ range s.n := by
    intro u hu
    rw [List.mem_toFinset] at hu
    exact mem_range.2 (h.inside u (List.mem_of_mem_take hu)).1
  rw [← Finset.sum_sdiff hsub]
  have h1 : ∑ u ∈ range s.n \ (order.take i).toFinset, w u * (p u - θ * s.deg u) ≤ 0 := by
    apply Finset.sum_nonpos
    intro u hu
    rw [mem_sdiff, mem_range, List.mem_toFinset] at hu
    refine mul_nonpos_of_nonneg_of_nonpos (hw u).1 ?_
    by_cases hm : u ∈ order
    · obtain ⟨j, hj, rfl⟩ := List.getElem_of_mem hm
      have hij : i ≤ j := by
        by_contra hc
        exact hu.2 (List.mem_take_iff_getElem.2 ⟨j, by omega, rfl⟩)
      have hd := (h.inside _ hm).2
      have : p order[j] / s.deg order[j] ≤ θ := by
        rcases Nat.lt_or_ge i j with hlt | hge
        · rw [hθ]; exact List.pairwise_iff_getElem.1 h.sorted i j hi hj hlt
        · have : i = j := by omega
          subst this
          exact hθ.ge
      rw [div_le_iff₀ hd] at this
      linarith
    · have hp : p u = 0 := le_antisymm (not_lt.1 (fun hc => hm (h.mem u hu.1 hc))) (h.p0 u)
      rw [hp]
      have := mul_nonneg hθ0 (h.deg_nonneg u)
      linarith
  have h2 : ∑ u ∈ (order.take i).toFinset, w u * (p u - θ * s.deg u) ≤
      ∑ u ∈ (order.take i).toFinset, (p u - θ * s.deg u) := by
    apply Finset.sum_le_sum
    intro u hu
    rw [List.mem_toFinset] at hu
    obtain ⟨j, hj, rfl⟩ := List.mem_take_iff_getElem.1 hu
    have hjl : j < order.length := by omega
    have hd := (h.inside _ (List.getElem_mem hjl)).2
    have : θ ≤ p order[j] / s.deg order[j] := by
      rw [hθ]
      exact List.pairwise_iff_getElem.1 h.sorted j i hjl hi (by omega)
    rw [le_div_iff₀ hd] at this
    exact mul_le_of_le_one_left (by linarith) (hw _).2
  linarith

theorem Sweep.sum_take_succ (h : Sweep s p order) {i : Nat} (hi : i < order.length) (f : Nat → ℝ) :
    ∑ u ∈ (order.take (i + 1)).toFinset, f u = ∑ u ∈ (order.take i).toFinset, f u + f order[i] := by
  rw [List.take_add_one, List.getElem?_eq_getElem hi, Option.toList_some, List.toFinset_append,
    List.toFinset_cons, List.toFinset_nil, insert_empty_eq, Finset.union_comm,
    ← Finset.insert_eq, Finset.sum_insert, add_comm]
  rw [List.mem_toFinset]
  intro hc
  obtain ⟨j, hj, he⟩ := List.mem_take_iff_getElem.1 hc
  have := (List.Nodup.getElem_inj_iff h.nodup).1 he
  omega

/-- A concave bound which holds on the sweep sets holds on every fractional set. -/
theorem Sweep.fill (h : Sweep s p order) {f : ℝ → ℝ} (hc : ConcaveOn ℝ (Set.Ici 0) f)
    (hm : MonotoneOn f (Set.Ici 0))
    (hf : ∀ i ≤ order.length, ∑ u ∈ (order.take i).toFinset, p u ≤ f (s.vol (order.take i).toFinset))
    {w : Nat → ℝ} (hw : ∀ u, 0 ≤ w u ∧ w u ≤ 1) :
    ∑ u ∈ range s.n, w u * p u ≤ f (∑ u ∈ range s.n, w u * s.deg u) := by
  set x := ∑ u ∈ range s.n, w u * s.deg u with hx
  have hx0 : 0 ≤ x := Finset.sum_nonneg (fun u _ => mul_nonneg (hw u).1 (h.deg_nonneg u))
  have hv0 : ∀ S : Finset Nat, 0 ≤ s.vol S := fun S => Finset.sum_nonneg (fun u _ => h.deg_nonneg u)
  by_cases hbig : s.vol (order.take order.length).toFinset ≤ x
  · refine le_trans ?_ ((hf _ le_rfl).trans (hm (hv0 _) hx0 hbig))
    rw [List.take_length]
    have hsub : order.toFinset ⊆ range s.n := by
      intro u hu
      exact mem_range.2 (h.inside u (List.mem_toFinset.1 hu)).1
    rw [← Finset.sum_sdiff hsub]
    have h1 : ∑ u ∈ range s.n \ order.toFinset, w u * p u = 0 := by
      apply Finset.sum_eq_zero
      intro u hu
      rw [mem_sdiff, mem_range, List.mem_toFinset] at hu
      have hp : p u = 0 := le_antisymm (not_lt.1 (fun hc => hu.2 (h.mem u hu.1 hc))) (h.p0 u)
      rw [hp, mul_zero]
    rw [h1, zero_add]
    exact Finset.sum_le_sum (fun u _ => mul_le_of_le_one_left (h.p0 u) (hw u).2)
  · have hex : ∃ i, x < s.vol (order.take i).toFinset := ⟨_, not_le.1 hbig⟩
    classical
    set k := Nat.find hex with hk
    have hk1 := Nat.find_spec hex
    have hk0 : k ≠ 0 := by
      intro h0
      rw [← hk, h0] at hk1
      simp [WGraph.vol] at hk1
      linarith
    obtain ⟨i, hi⟩ := Nat.exists_eq_succ_of_ne_zero hk0
    have hlow : s.vol (order.take i).toFinset ≤ x := not_lt.1 (Nat.find_min hex (by omega))
    rw [← hk, hi] at hk1
    have hil : i < order.length := by
      by_contra hcc
      have e1 : order.take (i + 1) = order.take i := by
        rw [List.take_of_length_le (by omega), List.take_of_length_le (by omega)]
      rw [Nat.succ_eq_add_one, e1] at hk1
      linarith
    have e1 := h.sum_take_succ hil s.deg
    have e2 := h.sum_take_succ hil p
    have hd := (h.inside _ (List.getElem_mem hil)).2
    have ht := h.threshold hil hw _ rfl
    set θ := p order[i] / s.deg order[i] with hθ
    have hθd : θ * s.deg order[i] = p order[i] := div_mul_cancel₀ _ hd.ne'
    have e3 : ∑ u ∈ range s.n, w u * (p u - θ * s.deg u) = ∑ u ∈ range s.n, w u * p u - θ * x := by
      rw [hx, Finset.mul_sum, ← Finset.sum_sub_distrib]
      exact Finset.sum_congr rfl (fun u _ => by ring)
    have e4 : ∑ u ∈ (order.take i).toFinset, (p u - θ * s.deg u) =
        ∑ u ∈ (order.take i).toFinset, p u - θ * s.vol (order.take i).toFinset := by
      unfold WGraph.vol
      rw [Finset.mul_sum, ← Finset.sum_sub_distrib]
    rw [e3, e4] at ht
    have e5 : s.vol (order.take (i + 1)).toFinset = s.vol (order.take i).toFinset + s.deg order[i] := e1
    set V := s.vol (order.take i).toFinset with hV
    set b := (x - V) / s.deg order[i] with hb
    have hb0 : 0 ≤ b := div_nonneg (by linarith) hd.le
    have hb1 : b ≤ 1 := by
      rw [hb, div_le_one hd]
      rw [Nat.succ_eq_add_one, e5] at hk1
      linarith
    have hbd : b * s.deg order[i] = x - V := div_mul_cancel₀ _ hd.ne'
    have hcc := hc.2 (x := V) (y := s.vol (order.take (i + 1)).toFinset) (hv0 _) (hv0 _)
      (sub_nonneg.2 hb1) hb0 (by ring)
    have e6 : (1 - b) • V + b • s.vol (order.take (i + 1)).toFinset = x := by
      rw [e5]; simp only [smul_eq_mul]; linear_combination hbd
    rw [e6] at hcc
    simp only [smul_eq_mul] at hcc
    have g1 := mul_le_mul_of_nonneg_left (hf i hil.le) (sub_nonneg.2 hb1)
    have g2 := mul_le_mul_of_nonneg_left (hf (i + 1) hil) hb0
    have e7 : θ * (x - V) = b * p order[i] := by
      rw [← hbd, ← hθd]; ring
    rw [e2] at g2
    rw [← hV] at g1
    nlinarith

/-! ## One step of the walk -/

/-- Weight between a vertex and a set, per unit of degree. -/
noncomputable def frac (s : WGraph ℝ) (S : Finset Nat) (u : Nat) : ℝ := (∑ v ∈ S, s.w u v) / s.deg u

theorem deg_eq (h : Sweep s p order) (v : Nat) : s.deg v = ∑ u ∈ range s.n, s.w v u := by
  unfold WGraph.deg; rw [h.noLoops, add_zero]

theorem frac_mul (h : Sweep s p order) {S : Finset Nat} (hS : S ⊆ range s.n) (u : Nat) :
    frac s S u * s.deg u = ∑ v ∈ S, s.w u v := by
  unfold frac
  by_cases hd : s.deg u = 0
  · have h0 := hd
    rw [deg_eq h] at h0
    have := (Finset.sum_eq_zero_iff_of_nonneg (fun x _ => h.nonneg u x)).1 h0
    rw [hd, mul_zero, Finset.sum_eq_zero (fun v hv => this v (hS hv))]
  · exact div_mul_cancel₀ _ hd

theorem frac_bounds (h : Sweep s p order) {S : Finset Nat} (hS : S ⊆ range s.n) (u : Nat) :
    0 ≤ frac s S u ∧ frac s S u ≤ 1 := by
  refine ⟨div_nonneg (Finset.sum_nonneg (fun v _ => h.nonneg u v)) (h.deg_nonneg u), ?_⟩
  refine div_le_one_of_le₀ ?_ (h.deg_nonneg u)
  rw [deg_eq h]
  exact Finset.sum_le_sum_of_subset_of_nonneg hS (fun v _ _ => h.nonneg u v)

theorem lazyStep_sum (s : WGraph ℝ) (p : Nat → ℝ) {S : Finset Nat} (hS : S ⊆ range s.n) :
    ∑ v ∈ S, s.lazyStep p v =
      (∑ u ∈ range s.n, (if u ∈ S then frac s S u else 0) * p u +
        ∑ u ∈ range s.n, (if u ∈ S then 1 else frac s S u) * p u) / 2 := by
  unfold WGraph.lazyStep
  rw [Finset.sum_add_distrib, Finset.sum_comm, ← Finset.sum_add_distrib]
  have e1 : ∑ v ∈ S, p v / 2 = ∑ u ∈ range s.n, (if u ∈ S then p u / 2 else 0) := by
    rw [← Finset.sum_filter, Finset.filter_mem_eq_inter, Finset.inter_eq_right.2 hS]
  rw [e1, ← Finset.sum_add_distrib, Finset.sum_div]
  apply Finset.sum_congr rfl
  intro u _
  have e2 : ∑ v ∈ S, p u * s.w u v / (2 * s.deg u) = p u * frac s S u / 2 := by
    unfold frac
    rw [Finset.sum_div, Finset.mul_sum, Finset.sum_div]
    apply Finset.sum_congr rfl
    intro v _
    rw [mul_comm 2, ← div_div, mul_div_assoc]
  rw [e2]
  split_ifs <;> ring

theorem inner_volume (h : Sweep s p order) {S : Finset Nat} (hS : S ⊆ range s.n) :
    ∑ u ∈ range s.n, (if u ∈ S then frac s S u else 0) * s.deg u = s.vol S - s.cut S := by
  have e1 : ∀ u ∈ range s.n, (if u ∈ S then frac s S u else 0) * s.deg u =
      if u ∈ S then ∑ v ∈ S, s.w u v else 0 := by
    intro u _
    split_ifs
    · exact frac_mul h hS u
    · exact zero_mul _
  rw [Finset.sum_congr rfl e1, ← Finset.sum_filter, Finset.filter_mem_eq_inter,
    Finset.inter_eq_right.2 hS]
  unfold WGraph.vol WGraph.cut
  rw [← Finset.sum_sub_distrib]
  apply Finset.sum_congr rfl
  intro u _
  rw [deg_eq h, ← Finset.sum_sdiff hS]
  ring

theorem outer_volume (h : Sweep s p order) {S : Finset Nat} (hS : S ⊆ range s.n) :
    ∑ u ∈ range s.n, (if u ∈ S then 1 else frac s S u) * s.deg u = s.vol S + s.cut S := by
  rw [← Finset.sum_sdiff hS, add_comm]
  congr 1
  · unfold WGraph.vol
    exact Finset.sum_congr rfl (fun u hu => by rw [if_pos hu, one_mul])
  · unfold WGraph.cut
    rw [Finset.sum_comm]
    apply Finset.sum_congr rfl
    intro u hu
    rw [if_neg (mem_sdiff.1 hu).2, frac_mul h hS]
    exact Finset.sum_congr rfl (fun v _ => h.symm u v)

/-! ## The square root -/

theorem sqrt_pair {y : ℝ} (h0 : 0 ≤ y) (h1 : y ≤ 1) : √(1 - y) + √(1 + y) ≤ 2 * (1 - y ^ 2 / 8) := by
  have hR : 0 ≤ 2 * (1 - y ^ 2 / 8) := by nlinarith
  refine le_of_sq_le_sq ?_ hR
  have a : √(1 - y) ^ 2 = 1 - y := Real.sq_sqrt (by linarith)
  have b : √(1 + y) ^ 2 = 1 + y := Real.sq_sqrt (by linarith)
  have c : √(1 - y) * √(1 + y) ≤ 1 - y ^ 2 / 2 := by
    rw [← Real.sqrt_mul (by linarith)]
    rw [Real.sqrt_le_left (by nlinarith)]
    nlinarith [sq_nonneg (y ^ 2)]
  nlinarith [sq_nonneg (y ^ 2)]

theorem sqrt_step {V c φ : ℝ} (hc : φ * V ≤ c) (hcV : c ≤ V) (hφ : 0 ≤ φ) (hV : 0 ≤ V) :
    √(V - c) + √(V + c) ≤ 2 * (1 - φ ^ 2 / 8) * √V := by
  rcases hV.eq_or_lt with h | h
  · rw [← h] at hc hcV ⊢
    have : c = 0 := le_antisymm hcV (by simpa using hc)
    rw [this]; simp
  · set y := c / V with hy
    have hyV : c = V * y := by rw [hy, mul_div_cancel₀ _ h.ne']
    have hφy : φ ≤ y := by rw [hy, le_div_iff₀ h]; exact hc
    have hy1 : y ≤ 1 := by rw [hy, div_le_one h]; exact hcV
    have e1 : √(V - c) = √V * √(1 - y) := by
      rw [← Real.sqrt_mul hV]; congr 1; rw [hyV]; ring
    have e2 : √(V + c) = √V * √(1 + y) := by
      rw [← Real.sqrt_mul hV]; congr 1; rw [hyV]; ring
    rw [e1, e2, ← mul_add]
    have := sqrt_pair (hφ.trans hφy) hy1
    have g : 2 * (1 - y ^ 2 / 8) ≤ 2 * (1 - φ ^ 2 / 8) := by nlinarith
    rw [mul_comm _ (√V)]
    exact mul_le_mul_of_nonneg_left (this.trans g) (Real.sqrt_nonneg V)

theorem sqrt_concave {x y a b : ℝ} (hx : 0 ≤ x) (hy : 0 ≤ y) (ha : 0 ≤ a) (hb : 0 ≤ b)
    (hab : a + b = 1) : a * √x + b * √y ≤ √(a * x + b * y) := by
  apply Real.le_sqrt_of_sq_le
  have e1 := Real.sq_sqrt hx
  have e2 := Real.sq_sqrt hy
  have hb' : b = 1 - a := by linarith
  have : a * x + b * y - (a * √x + b * √y) ^ 2 = a * b * (√x - √y) ^ 2 := by
    rw [hb']
    linear_combination (a - a ^ 2 - a * (1 - a)) * e1 * 0 - a * e1 - (1 - a) * e2
  have h2 : 0 ≤ a * b * (√x - √y) ^ 2 := by positivity
  linarith

theorem final_step {P X A B α β b0 lam r1 r2 r0 rd : ℝ} {t : Nat}
    (hsum : P ≤ X + (1 - α) * ((A + B) / 2)) (hX : X ≤ β)
    (i1 : A ≤ b0 + β * t + r1 / rd * lam ^ t) (i2 : B ≤ b0 + β * t + r2 / rd * lam ^ t)
    (hq : r1 + r2 ≤ 2 * lam * r0) (h0 : 0 ≤ α) (h1 : α ≤ 1) (hβ : 0 ≤ β) (hb0 : 0 ≤ b0)
    (hlam : 0 ≤ lam) (hrd : 0 < rd)
    (hr0 : 0 ≤ r0) : P ≤ b0 + β * ((t + 1 : Nat) : ℝ) + r0 / rd * lam ^ (t + 1) := by
  have hpow : 0 ≤ lam ^ t := pow_nonneg hlam t
  have g1 : (r1 / rd + r2 / rd) * lam ^ t ≤ 2 * lam * r0 / rd * lam ^ t := by
    rw [← add_div]
    exact mul_le_mul_of_nonneg_right (div_le_div_of_nonneg_right hq hrd.le) hpow
  have e : r0 / rd * lam ^ (t + 1) = lam * r0 / rd * lam ^ t := by rw [pow_succ]; ring
  have e' : 2 * lam * r0 / rd * lam ^ t = 2 * (lam * r0 / rd * lam ^ t) := by ring
  have hM : 0 ≤ lam * r0 / rd * lam ^ t :=
    mul_nonneg (div_nonneg (mul_nonneg hlam hr0) hrd.le) hpow
  rw [e]
  rw [e'] at g1
  set M := lam * r0 / rd * lam ^ t
  have hZ : (A + B) / 2 ≤ b0 + β * t + M := by rw [add_mul] at g1; linarith
  have hZ0 : 0 ≤ b0 + β * t + M :=
    add_nonneg (add_nonneg hb0 (mul_nonneg hβ (Nat.cast_nonneg t))) hM
  have g2 := mul_le_mul_of_nonneg_left hZ (sub_nonneg.2 h1)
  have g3 : (1 - α) * (b0 + β * t + M) ≤ 1 * (b0 + β * t + M) :=
    mul_le_mul_of_nonneg_right (by linarith) hZ0
  push_cast
  linarith

/-- **The mixing bound, with errors.**  If every sweep set has cut at least `φ` times its volume, the
vector `p` satisfies `p ≤ y + (1 - α) W p` with `y` of total at most `β`, and `p` holds at most
`b₀ + √(V / d)` on fractional sets of volume `V`, then it holds at most
`b₀ + β t + √(V / d) (1 - φ² / 8)^t` on them. -/
theorem Sweep.mixing_error (h : Sweep s p order) {α β b0 d φ : ℝ} {y : Nat → ℝ} (hα0 : 0 ≤ α)
    (hα1 : α ≤ 1) (hb0 : 0 ≤ b0)
    (hd : 0 < d) (hφ : 0 ≤ φ) (hφ1 : φ ≤ 1) (hy0 : ∀ v, v < s.n → 0 ≤ y v) (hy : s.mass y ≤ β)
    (hbase : ∀ {w : Nat → ℝ}, (∀ u, 0 ≤ w u ∧ w u ≤ 1) → ∑ u ∈ range s.n, w u * p u ≤
      b0 + √((∑ u ∈ range s.n, w u * s.deg u) / d))
    (heq : ∀ v, v < s.n → p v ≤ y v + (1 - α) * s.lazyStep p v)
    (hcut : ∀ i, 0 < i → i ≤ order.length →
      φ * s.vol (order.take i).toFinset ≤ s.cut (order.take i).toFinset)
    (t : Nat) : ∀ {w : Nat → ℝ}, (∀ u, 0 ≤ w u ∧ w u ≤ 1) →
      ∑ u ∈ range s.n, w u * p u ≤
        b0 + β * t + √((∑ u ∈ range s.n, w u * s.deg u) / d) * (1 - φ ^ 2 / 8) ^ t := by
  have hβ : 0 ≤ β := le_trans (Finset.sum_nonneg (fun u hu => hy0 u (mem_range.1 hu))) hy
  have hcutvol : ∀ S : Finset Nat, S ⊆ range s.n → s.cut S ≤ s.vol S := by
    intro S hS
    have h1 := inner_volume h hS
    have h2 : 0 ≤ s.vol S - s.cut S := by
      rw [← h1]
      apply Finset.sum_nonneg
      intro u _
      split_ifs
      · exact mul_nonneg (frac_bounds h hS u).1 (h.deg_nonneg u)
      · rw [zero_mul]
    linarith
  induction t with
  | zero =>
    intro w hw
    rw [Nat.cast_zero, mul_zero, add_zero, pow_zero, mul_one]
    exact hbase hw
  | succ t ih =>
    intro w hw
    have hlam : 0 ≤ 1 - φ ^ 2 / 8 := by nlinarith
    set lam := 1 - φ ^ 2 / 8 with hl
    have hpow : 0 ≤ lam ^ (t + 1) := pow_nonneg hlam _
    have key := h.fill (f := fun V => b0 + β * ((t + 1 : Nat) : ℝ) + √(V / d) * lam ^ (t + 1)) ?_ ?_ ?_ hw
    · exact key
    · refine ⟨convex_Ici 0, fun x hx y hy a b ha hb hab => ?_⟩
      have hs := sqrt_concave (x := x / d) (y := y / d) (div_nonneg hx hd.le) (div_nonneg hy hd.le) ha hb hab
      have e : a * (x / d) + b * (y / d) = (a • x + b • y) / d := by
        simp only [smul_eq_mul]; ring
      rw [e] at hs
      have := mul_le_mul_of_nonneg_right hs hpow
      simp only [smul_eq_mul] at this ⊢
      have e2 : a * (b0 + β * ((t + 1 : Nat) : ℝ)) + b * (b0 + β * ((t + 1 : Nat) : ℝ)) =
          b0 + β * ((t + 1 : Nat) : ℝ) := by
        rw [← add_mul, hab, one_mul]
      linarith
    · intro x _ y _ hxy
      have := mul_le_mul_of_nonneg_right
        (Real.sqrt_le_sqrt (div_le_div_of_nonneg_right hxy hd.le)) hpow
      simp only
      linarith
    · intro i hi
      rcases Nat.eq_zero_or_pos i with h0 | hpos
      · subst h0
        simp only [List.take_zero, List.toFinset_nil, Finset.sum_empty]
        positivity
      · set S := (order.take i).toFinset with hSdef
        have hS : S ⊆ range s.n := by
          intro u hu
          rw [hSdef, List.mem_toFinset] at hu
          exact mem_range.2 (h.inside u (List.mem_of_mem_take hu)).1
        have hV0 : 0 ≤ s.vol S := Finset.sum_nonneg (fun u _ => h.deg_nonneg u)
        have i1 := ih (w := fun u => if u ∈ S then frac s S u else 0) (fun u => by
          have := frac_bounds h hS u
          beta_reduce
          split_ifs
          · exact this
          · exact ⟨le_rfl, zero_le_one⟩)
        have i2 := ih (w := fun u => if u ∈ S then 1 else frac s S u) (fun u => by
          have := frac_bounds h hS u
          beta_reduce
          split_ifs
          · exact ⟨zero_le_one, le_rfl⟩
          · exact this)
        rw [inner_volume h hS] at i1
        rw [outer_volume h hS] at i2
        have e1 := lazyStep_sum s p hS
        have hxS : ∑ v ∈ S, y v ≤ β :=
          (Finset.sum_le_sum_of_subset_of_nonneg hS (fun v hv _ => hy0 v (mem_range.1 hv))).trans hy
        have hsum : ∑ v ∈ S, p v ≤ ∑ v ∈ S, y v + (1 - α) * ∑ v ∈ S, s.lazyStep p v := by
          rw [Finset.mul_sum, ← Finset.sum_add_distrib]
          exact Finset.sum_le_sum (fun v hv => heq v (mem_range.1 (hS hv)))
        have hq := sqrt_step (hcut i hpos hi) (hcutvol S hS) hφ hV0
        rw [← hSdef, ← hl] at hq
        simp only [Real.sqrt_div' _ hd.le] at i1 i2 ⊢
        rw [e1] at hsum
        exact final_step hsum hxS i1 i2 hq hα0 hα1 hβ hb0 hlam (Real.sqrt_pos.2 hd) (Real.sqrt_nonneg _)

/-- **The mixing bound.**  If every sweep set has cut at least `φ` times its volume, the vector `p`
satisfies `p ≤ α x + (1 - α) W p`, the total of `x` is at most one, that of `p` is at most one, and
`p ≤ deg / d`, then every fractional set `w` of volume `V` holds at most
`α t + √(V / d) (1 - φ² / 8)^t` of `p`. -/
theorem Sweep.mixing (h : Sweep s p order) {α d φ : ℝ} {x : Nat → ℝ} (hα0 : 0 ≤ α) (hα1 : α ≤ 1)
    (hd : 0 < d) (hφ : 0 ≤ φ) (hφ1 : φ ≤ 1) (hx0 : ∀ v, 0 ≤ x v) (hx : s.mass x ≤ 1) (hp1 : s.mass p ≤ 1)
    (hpd : ∀ v, v < s.n → p v ≤ s.deg v / d)
    (heq : ∀ v, v < s.n → p v ≤ α * x v + (1 - α) * s.lazyStep p v)
    (hcut : ∀ i, 0 < i → i ≤ order.length →
      φ * s.vol (order.take i).toFinset ≤ s.cut (order.take i).toFinset)
    (t : Nat) : ∀ {w : Nat → ℝ}, (∀ u, 0 ≤ w u ∧ w u ≤ 1) →
      ∑ u ∈ range s.n, w u * p u ≤
        α * t + √((∑ u ∈ range s.n, w u * s.deg u) / d) * (1 - φ ^ 2 / 8) ^ t := by
  have hm : s.mass (fun v => α * x v) ≤ α := by
    unfold WGraph.mass at hx ⊢
    rw [← Finset.mul_sum]
    exact mul_le_of_le_one_right hα0 hx
  intro w hw
  have key := h.mixing_error (b0 := 0) hα0 hα1 le_rfl hd hφ hφ1
    (fun v _ => mul_nonneg hα0 (hx0 v)) hm ?_ heq hcut t hw
  · rwa [zero_add] at key
  · intro w hw
    rw [zero_add]
    set A := ∑ u ∈ range s.n, w u * p u with hA
    have hA0 : 0 ≤ A := Finset.sum_nonneg (fun u _ => mul_nonneg (hw u).1 (h.p0 u))
    have hA1 : A ≤ 1 :=
      (Finset.sum_le_sum (fun u _ => mul_le_of_le_one_left (h.p0 u) (hw u).2)).trans hp1
    have hAd : A ≤ (∑ u ∈ range s.n, w u * s.deg u) / d := by
      rw [hA, Finset.sum_div]
      apply Finset.sum_le_sum
      intro u hu
      rw [mul_div_assoc]
      exact mul_le_mul_of_nonneg_left (hpd u (mem_range.1 hu)) (hw u).1
    apply Real.le_sqrt_of_sq_le
    nlinarith

/-! ## Mass kept inside a set -/

/-- Hypotheses on the graph used below. -/
structure Good (s : WGraph ℝ) : Prop where
  nonneg : ∀ u v, 0 ≤ s.w u v
  symm : ∀ u v, s.w u v = s.w v u
  noLoops : ∀ v, s.w v v = 0

theorem Good.sweep {s : WGraph ℝ} (h : Good s) : Sweep s (fun _ => 0) [] :=
  ⟨h.nonneg, h.symm, h.noLoops, fun _ => le_rfl, List.nodup_nil, by simp, by simp, by simp⟩

/-- A PageRank vector lies below every multiple of the degrees that its starting vector lies below. -/
theorem Good.le_deg {s : WGraph ℝ} (h : Good s) {α c : ℝ} (h0 : 0 < α) (h1 : α ≤ 1) {x q : Nat → ℝ}
    (hx : ∀ v, v < s.n → x v ≤ c * s.deg v) (hq : s.IsPagerank α x q) :
    ∀ v, v < s.n → q v ≤ c * s.deg v := by
  have hu : s.IsPagerank α (fun v => c * s.deg v + - x v) (fun v => c * s.deg v + - q v) := by
    intro v hv
    rw [lazyStep_add s (fun v => c * s.deg v) (fun v => - q v), lazyStep_neg,
      lazyStep_deg h.nonneg h.symm h.noLoops c hv]
    linear_combination - hq v hv
  intro v hv
  have := IsPagerank.nonneg h.nonneg h0 h1 (fun v hv => by have := hx v hv; linarith) hu v hv
  linarith

/-- The PageRank vector of a starting vector which avoids isolated vertices has the same total. -/
theorem Good.mass_eq {s : WGraph ℝ} (h : Good s) {α c : ℝ} (h0 : 0 < α) (h1 : α ≤ 1) {x q : Nat → ℝ}
    (hx0 : ∀ v, v < s.n → 0 ≤ x v) (hx : ∀ v, v < s.n → x v ≤ c * s.deg v) (hq : s.IsPagerank α x q) :
    s.mass q = s.mass x := by
  have hle := h.le_deg h0 h1 hx hq
  have hge := IsPagerank.nonneg h.nonneg h0 h1 hx0 hq
  have e := lazyStep_sum s q (Finset.Subset.refl (range s.n))
  have e1 : ∀ u ∈ range s.n, frac s (range s.n) u * q u = q u := by
    intro u hu
    by_cases hd : s.deg u = 0
    · have : q u = 0 := le_antisymm (by have := hle u (mem_range.1 hu); rwa [hd, mul_zero] at this)
        (hge u (mem_range.1 hu))
      rw [this, mul_zero]
    · have : frac s (range s.n) u = 1 := by
        unfold frac
        rw [← deg_eq h.sweep]
        exact div_self hd
      rw [this, one_mul]
  have e2 : ∑ u ∈ range s.n, (if u ∈ range s.n then frac s (range s.n) u else 0) * q u = s.mass q := by
    apply Finset.sum_congr rfl
    intro u hu
    rw [if_pos hu, e1 u hu]
  have e3 : ∑ u ∈ range s.n, (if u ∈ range s.n then 1 else frac s (range s.n) u) * q u = s.mass q := by
    apply Finset.sum_congr rfl
    intro u hu
    rw [if_pos hu, one_mul]
  rw [e2, e3] at e
  have e4 : s.mass q = α * s.mass x + (1 - α) * ∑ v ∈ range s.n, s.lazyStep q v := by
    unfold WGraph.mass
    rw [Finset.mul_sum, Finset.mul_sum, ← Finset.sum_add_distrib]
    exact Finset.sum_congr rfl (fun v hv => hq v (mem_range.1 hv))
  rw [e] at e4
  have : α * s.mass q = α * s.mass x := by linarith
  exact mul_left_cancel₀ h0.ne' this

/-- Started with the degrees of `T` (scaled to total one), at most `cut T / (2 α vol T)` of the
PageRank mass lies outside `T`. -/
theorem Good.leak {s : WGraph ℝ} (h : Good s) {α : ℝ} (h0 : 0 < α) (h1 : α ≤ 1) {T : Finset Nat}
    (hT : T ⊆ range s.n) (hV : 0 < s.vol T) {q : Nat → ℝ}
    (hq : s.IsPagerank α (fun v => if v ∈ T then s.deg v / s.vol T else 0) q) :
    ∑ u ∈ range s.n \ T, q u ≤ s.cut T / s.vol T / (2 * α) := by
  have hdeg := WGraph.degree_nonneg h.nonneg
  have hle : ∀ v, v < s.n → q v ≤ 1 / s.vol T * s.deg v := by
    apply h.le_deg h0 h1 _ hq
    intro v _
    have : 1 / s.vol T * s.deg v = s.deg v / s.vol T := by ring
    rw [this]
    split_ifs
    · exact le_rfl
    · exact div_nonneg (hdeg v) hV.le
  have hge : ∀ v, v < s.n → 0 ≤ q v := by
    apply IsPagerank.nonneg h.nonneg h0 h1 _ hq
    intro v _
    split_ifs
    · exact div_nonneg (hdeg v) hV.le
    · exact le_rfl
  set R := range s.n \ T with hR
  have hRs : R ⊆ range s.n := Finset.sdiff_subset
  have e := lazyStep_sum s q hRs
  have e1 : ∑ u ∈ R, q u = (1 - α) * ∑ u ∈ R, s.lazyStep q u := by
    rw [Finset.mul_sum]
    apply Finset.sum_congr rfl
    intro u hu
    rw [hq u (mem_range.1 (hRs hu))]
    beta_reduce
    rw [if_neg (mem_sdiff.1 hu).2]
    ring
  have b1 : ∑ u ∈ range s.n, (if u ∈ R then frac s R u else 0) * q u ≤ ∑ u ∈ R, q u := by
    have : ∀ u ∈ range s.n, (if u ∈ R then frac s R u else 0) * q u ≤ if u ∈ R then q u else 0 := by
      intro u hu
      split_ifs
      · exact mul_le_of_le_one_left (hge u (mem_range.1 hu)) (frac_bounds h.sweep hRs u).2
      · rw [zero_mul]
    refine (Finset.sum_le_sum this).trans ?_
    rw [← Finset.sum_filter, Finset.filter_mem_eq_inter, Finset.inter_eq_right.2 hRs]
  have b2 : ∑ u ∈ range s.n, (if u ∈ R then 1 else frac s R u) * q u ≤
      ∑ u ∈ R, q u + s.cut T / s.vol T := by
    rw [← Finset.sum_sdiff hRs, add_comm]
    apply add_le_add
    · exact (Finset.sum_congr rfl (fun u hu => by rw [if_pos hu, one_mul])).le
    · have hRT : range s.n \ R = T := by
        rw [hR, Finset.sdiff_sdiff_eq_self hT]
      rw [hRT]
      unfold WGraph.cut
      rw [Finset.sum_div]
      apply Finset.sum_le_sum
      intro u hu
      have hun := mem_range.1 (hT hu)
      have hnr : u ∉ R := fun hc => (mem_sdiff.1 hc).2 hu
      rw [if_neg hnr]
      have g := mul_le_mul_of_nonneg_left (hle u hun) (frac_bounds h.sweep hRs u).1
      have g2 := frac_mul h.sweep hRs u
      calc frac s R u * q u ≤ frac s R u * (1 / s.vol T * s.deg u) := g
        _ = (frac s R u * s.deg u) / s.vol T := by ring
        _ = _ := by rw [g2]
  rw [e] at e1
  set Q := ∑ u ∈ R, q u with hQ
  set c := s.cut T / s.vol T with hc
  have hc0 : 0 ≤ c := div_nonneg (Finset.sum_nonneg (fun u _ => Finset.sum_nonneg (fun v _ => h.nonneg u v))) hV.le
  rw [le_div_iff₀ (by linarith)]
  have g := mul_le_mul_of_nonneg_left (add_le_add b1 b2) (sub_nonneg.2 h1)
  have g1 : (1 - α) * c ≤ 1 * c := mul_le_mul_of_nonneg_right (by linarith) hc0
  linarith

theorem lazyStep_comb (s : WGraph ℝ) (T : Finset Nat) (c : Nat → ℝ) (q : Nat → Nat → ℝ) (v : Nat) :
    s.lazyStep (fun u => ∑ i ∈ T, c i * q i u) v = ∑ i ∈ T, c i * s.lazyStep (q i) v := by
  unfold WGraph.lazyStep
  simp only [mul_add, Finset.sum_add_distrib, Finset.mul_sum, Finset.sum_div, Finset.sum_mul]
  congr 1
  · exact Finset.sum_congr rfl (fun i _ => by ring)
  · rw [Finset.sum_comm]
    exact Finset.sum_congr rfl (fun i _ => Finset.sum_congr rfl (fun u _ => by ring))

/-- At least half of the volume of `T` consists of vertices whose PageRank vector keeps all but
`cut T / (α vol T)` of its mass inside `T`. -/
theorem Good.seeds {s : WGraph ℝ} (h : Good s) {α : ℝ} (h0 : 0 < α) (h1 : α ≤ 1) {T : Finset Nat}
    (hT : T ⊆ range s.n) (hV : 0 < s.vol T) :
    ∃ T' ⊆ T, s.vol T ≤ 2 * s.vol T' ∧ ∀ v ∈ T', 0 < s.deg v ∧
      ∀ q, s.IsPagerank α (fun u => if u = v then 1 else 0) q →
        1 - s.cut T / s.vol T / α ≤ ∑ u ∈ T, q u := by
  classical
  have hdeg := WGraph.degree_nonneg h.nonneg
  have hex : ∀ v, ∃ q, s.IsPagerank α (fun u => if u = v then (1 : ℝ) else 0) q := fun v =>
    C35_pagerank_exists h.nonneg h0 h1 _
  choose q hq using hex
  have hq0 : ∀ v u, u < s.n → 0 ≤ q v u := by
    intro v
    apply IsPagerank.nonneg h.nonneg h0 h1 _ (hq v)
    intro u _
    split_ifs
    · exact zero_le_one
    · exact le_rfl
  set c := s.cut T / s.vol T with hc
  have hc0 : 0 ≤ c := div_nonneg (Finset.sum_nonneg (fun u _ => Finset.sum_nonneg (fun v _ => h.nonneg u v))) hV.le
  let out : Nat → ℝ := fun v => ∑ u ∈ range s.n \ T, q v u
  have hout0 : ∀ v, 0 ≤ out v := fun v =>
    Finset.sum_nonneg (fun u hu => hq0 v u (mem_range.1 (mem_sdiff.1 hu).1))
  have hQ : s.IsPagerank α (fun v => if v ∈ T then s.deg v / s.vol T else 0)
      (fun u => ∑ v ∈ T, s.deg v / s.vol T * q v u) := by
    intro u hu
    rw [lazyStep_comb, Finset.mul_sum]
    have e : α * (if u ∈ T then s.deg u / s.vol T else 0) =
        ∑ v ∈ T, α * (s.deg v / s.vol T * (if u = v then 1 else 0)) := by
      rw [← Finset.mul_sum]
      congr 1
      simp only [mul_ite, mul_one, mul_zero]
      rw [Finset.sum_ite_eq]
    rw [e, ← Finset.sum_add_distrib]
    apply Finset.sum_congr rfl
    intro v _
    rw [hq v u hu]
    ring
  have hleak := h.leak h0 h1 hT hV hQ
  rw [Finset.sum_comm] at hleak
  have hleak' : ∑ v ∈ T, s.deg v * out v ≤ s.vol T * (c / (2 * α)) := by
    have e : ∑ v ∈ T, ∑ u ∈ range s.n \ T, s.deg v / s.vol T * q v u =
        (∑ v ∈ T, s.deg v * out v) / s.vol T := by
      rw [Finset.sum_div]
      apply Finset.sum_congr rfl
      intro v _
      rw [← Finset.mul_sum]
      simp only [out]
      ring
    rw [e, div_le_iff₀ hV] at hleak
    linarith
  refine ⟨T.filter (fun v => 0 < s.deg v ∧ out v ≤ c / α), Finset.filter_subset _ _, ?_, ?_⟩
  · set A := T.filter (fun v => 0 < s.deg v ∧ out v ≤ c / α) with hA
    set B := T.filter (fun v => ¬ (0 < s.deg v ∧ out v ≤ c / α)) with hB
    have hsplit : s.vol A + s.vol B = s.vol T := Finset.sum_filter_add_sum_filter_not T _ _
    have hBv : s.vol B * (c / α) ≤ s.vol T * (c / (2 * α)) := by
      refine le_trans ?_ hleak'
      unfold WGraph.vol
      rw [Finset.sum_mul]
      refine le_trans ?_ (Finset.sum_le_sum_of_subset_of_nonneg (Finset.filter_subset
        (fun v => ¬ (0 < s.deg v ∧ out v ≤ c / α)) T) (fun v _ _ => mul_nonneg (hdeg v) (hout0 v)))
      apply Finset.sum_le_sum
      intro v hv
      have hv2 := (mem_filter.1 hv).2
      rw [not_and_or, not_lt, not_le] at hv2
      rcases hv2 with h3 | h3
      · have : s.deg v = 0 := le_antisymm h3 (hdeg v)
        rw [this, zero_mul, zero_mul]
      · exact mul_le_mul_of_nonneg_left h3.le (hdeg v)
    rcases hc0.eq_or_lt with hcz | hcp
    · -- no mass leaves at all
      have hB0 : s.vol B = 0 := by
        rw [← hcz] at hleak'
        simp only [zero_div, mul_zero] at hleak'
        have hz := (Finset.sum_eq_zero_iff_of_nonneg (fun v _ => mul_nonneg (hdeg v) (hout0 v))).1
          (le_antisymm hleak' (Finset.sum_nonneg (fun v _ => mul_nonneg (hdeg v) (hout0 v))))
        apply Finset.sum_eq_zero
        intro v hv
        have hv2 := (mem_filter.1 hv).2
        rw [not_and_or, not_lt, not_le, ← hcz, zero_div] at hv2
        rcases hv2 with h3 | h3
        · exact le_antisymm h3 (hdeg v)
        · rcases mul_eq_zero.1 (hz v (mem_filter.1 hv).1) with h4 | h4
          · exact h4
          · exact absurd h4 h3.ne'
      have : 0 ≤ s.vol A := Finset.sum_nonneg (fun v _ => hdeg v)
      linarith
    · have e : s.vol T * (c / (2 * α)) = s.vol T / 2 * (c / α) := by
        field_simp
      rw [e] at hBv
      have := le_of_mul_le_mul_right hBv (div_pos hcp h0)
      linarith
  · intro v hv
    have hvT := (mem_filter.1 hv).1
    obtain ⟨hd, ho⟩ := (mem_filter.1 hv).2
    refine ⟨hd, fun q' hq' => ?_⟩
    have hvn := mem_range.1 (hT hvT)
    have heq : ∀ u, u < s.n → q' u = q v u := C35_pagerank_unique h.nonneg h0 h1 hq' (hq v)
    have hm : s.mass (q v) = s.mass (fun u => if u = v then (1 : ℝ) else 0) := by
      apply h.mass_eq (c := 1 / s.deg v) h0 h1 _ _ (hq v)
      · intro u _
        split_ifs
        · exact zero_le_one
        · exact le_rfl
      · intro u _
        split_ifs with huv
        · rw [huv, one_div, inv_mul_cancel₀ hd.ne']
        · exact mul_nonneg (by positivity) (hdeg u)
    have hm1 : s.mass (fun u => if u = v then (1 : ℝ) else 0) = 1 := by
      unfold WGraph.mass
      rw [Finset.sum_ite_eq', if_pos (mem_range.2 hvn)]
    rw [hm1] at hm
    unfold WGraph.mass at hm
    rw [← Finset.sum_sdiff hT] at hm
    have hsame : ∑ u ∈ T, q' u = ∑ u ∈ T, q v u :=
      Finset.sum_congr rfl (fun u hu => heq u (mem_range.1 (hT hu)))
    rw [hsame]
    have : out v ≤ c / α := ho
    simp only [out] at this
    linarith

end AclMath
end Stag
