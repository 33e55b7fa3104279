import Verif.RoundingCheeger
import Verif.Props.RoundingSpectral
import Verif.Props.RoundingSweep
import Verif.Props.Cheeger
import Verif.Props.CheegerExamples

/-!
# C103: `cheeger_cut` in floating point

For graphs whose weights are multiples of one number (unweighted graphs for instance), so that the volumes and cuts of the sweep
are exact.  For other weights C77 shows that the sweep may return all vertices.
-/

namespace Stag

open Finset Graph Recovery

/-! ## A sweep over any vector -/

theorem prefix_pos {g : Graph ℝ} (hd : ∀ v, v < g.n → 0 < g.abs.deg v) {order : List Nat} (c5 : order.Perm (List.range g.n))
    (i : Nat) (hi1 : 1 ≤ i) (hi2 : i < g.n) : 0 < min (g.abs.vol (order.take i).toFinset)
      (g.abs.vol (Finset.range g.n \ (order.take i).toFinset)) := by
  have hlen : order.length = g.n := by rw [c5.length_eq, List.length_range]
  have hnn : ∀ v ∈ Finset.range g.n, 0 < g.abs.deg v := fun v hv => hd v (Finset.mem_range.1 hv)
  apply lt_min
  · apply Finset.sum_pos
    · intro v hv
      exact hd v (List.mem_range.1 (c5.mem_iff.1 (List.mem_of_mem_take (List.mem_toFinset.1 hv))))
    · refine ⟨order.getD 0 0, ?_⟩
      rw [List.mem_toFinset, List.getD_eq_getElem?_getD, List.getElem?_eq_getElem (by omega)]
      exact List.mem_iff_getElem.2 ⟨0, by rw [List.length_take]; omega, by simp⟩
  · apply Finset.sum_pos
    · intro v hv
      exact hnn v (Finset.mem_sdiff.1 hv).1
    · rw [Finset.sdiff_nonempty]
      intro hsub
      have := Finset.card_le_card hsub
      rw [Finset.card_range] at this
      have h2 := List.toFinset_card_le (order.take i)
      rw [List.length_take] at h2
      omega

/-- A lower bound `φ` of the conductances of the prefixes of the vertices in decreasing order of `x i / √(deg i)` meets
`φ² D ≤ 2 x'Lx`, `D` being the squared length of the part of `x` orthogonal to the square roots of the degrees. -/
theorem sweep_quality {g : Graph ℝ} (h : g.Reachable) (hw : ∀ u v, 0 ≤ g.abs.w u v) (hloop : ∀ v, g.abs.w v v = 0)
    (hd : ∀ v, v < g.n → 0 < g.abs.deg v) (hn : 1 < g.n) (v₂ : Nat → ℝ) (D : ℝ) (hD : 0 < D)
    (hDv : D = dot g.n v₂ v₂ - dot g.n v₂ (fun i => Real.sqrt (g.abs.deg i)) ^ 2 /
      g.abs.vol (Finset.range g.n)) {order : List Nat} (c5 : order.Perm (List.range g.n))
    (c6 : order.Pairwise (fun i j => v₂ j / Real.sqrt (g.abs.deg j) ≤ v₂ i / Real.sqrt (g.abs.deg i)))
    (φ : ℝ) (hφ0 : 0 ≤ φ) (c10 : ∀ i, 1 ≤ i → i < g.n → φ ≤ g.abs.phi (order.take i).toFinset) :
    φ ^ 2 * D ≤ 2 * quadForm g.n (matrixOf g.abs .normalisedLaplacian) v₂ := by
  have hperm : order.Perm (List.range g.abs.n) := c5
  have hlen : order.length = g.n := by rw [c5.length_eq, List.length_range]
  have hvolpos := prefix_pos hd c5
  set w' : Nat → Nat → ℝ := fun a b => g.abs.w (order.getD a 0) (order.getD b 0) with hw'
  set F : Nat → ℝ := fun v => v₂ v / Real.sqrt (g.abs.deg v) with hF
  have hsum2 : ∀ (G : Nat → Nat → ℝ), ∑ a ∈ Finset.range g.n, ∑ b ∈ Finset.range g.n,
      G (order.getD a 0) (order.getD b 0) = ∑ a ∈ Finset.range g.n, ∑ b ∈ Finset.range g.n, G a b := by
    intro G
    have h1 := order_sum hperm (fun a => ∑ b ∈ Finset.range g.n, G a b)
    refine Eq.trans ?_ h1.symm
    apply Finset.sum_congr rfl
    intro a _
    exact (order_sum hperm (fun b => G (order.getD a 0) b)).symm
  have henergy : ∑ a ∈ Finset.range g.n, ∑ b ∈ Finset.range g.n, g.abs.w a b * (F a - F b) ^ 2
      = 2 * quadForm g.n (matrixOf g.abs .normalisedLaplacian) v₂ := by
    rw [hF, ← quadForm_norm h hloop hd v₂]
  set Q := quadForm g.n (matrixOf g.abs .normalisedLaplacian) v₂ with hQ
  have hQ0 : 0 ≤ Q := by
    have : 0 ≤ 2 * Q := by
      rw [← henergy]
      exact Finset.sum_nonneg fun a _ => Finset.sum_nonneg fun b _ => mul_nonneg (hw a b) (sq_nonneg _)
    linarith
  have hmass : ∑ a ∈ Finset.range g.n, g.abs.deg a * F a ^ 2 = dot g.n v₂ v₂ := by
    rw [hF, ← dot_scaled hd]
  have hmean : ∑ a ∈ Finset.range g.n, g.abs.deg a * F a
      = dot g.n v₂ (fun i => Real.sqrt (g.abs.deg i)) := by
    rw [hF, ← dot_scaled_root hd]
  have hvolnn : 0 < g.abs.vol (Finset.range g.n) :=
    Finset.sum_pos (fun a ha => hd a (Finset.mem_range.1 ha)) ⟨0, Finset.mem_range.2 (by omega)⟩
  have hcentre : ∀ c, D ≤ ∑ a ∈ Finset.range g.n,
      Cheeger.dg g.n w' a * (F (order.getD a 0) - c) ^ 2 := by
    intro c
    have e : ∑ a ∈ Finset.range g.n, Cheeger.dg g.n w' a * (F (order.getD a 0) - c) ^ 2
        = ∑ a ∈ Finset.range g.n, g.abs.deg a * (F a - c) ^ 2 := by
      have h1 := order_sum hperm (fun a => g.abs.deg a * (F a - c) ^ 2)
      refine Eq.trans ?_ h1.symm
      apply Finset.sum_congr rfl
      intro a _
      have := order_deg hperm hloop a
      change Cheeger.dg g.n w' a = _ at this
      rw [this]
    have e2 : ∑ a ∈ Finset.range g.n, g.abs.deg a * (F a - c) ^ 2
        = ∑ a ∈ Finset.range g.n, g.abs.deg a * F a ^ 2
          - 2 * c * ∑ a ∈ Finset.range g.n, g.abs.deg a * F a
          + c ^ 2 * ∑ a ∈ Finset.range g.n, g.abs.deg a := by
      rw [Finset.mul_sum, Finset.mul_sum, ← Finset.sum_sub_distrib, ← Finset.sum_add_distrib]
      exact Finset.sum_congr rfl (fun a _ => by ring)
    rw [e, e2, hmass, hmean, hDv]
    change _ ≤ _ + c ^ 2 * g.abs.vol (Finset.range g.n)
    set V := g.abs.vol (Finset.range g.n)
    set m := dot g.n v₂ (fun i => Real.sqrt (g.abs.deg i))
    have : 0 ≤ V * (c - m / V) ^ 2 := by positivity
    have e3 : V * (c - m / V) ^ 2 = c ^ 2 * V - 2 * c * m + m ^ 2 / V := by
      field_simp
      ring
    linarith
  have key := Cheeger.sweep_bound (n := g.n) (w := w') (by omega)
    (fun a b => h.valid.symm _ _) (fun a b => hw _ _) (fun a => F (order.getD a 0)) (by
      intro j hj
      have := (List.pairwise_iff_getElem.1 c6) j (j + 1) (by omega) (by omega) (by omega)
      rw [List.getD_eq_getElem?_getD, List.getD_eq_getElem?_getD,
        List.getElem?_eq_getElem (by omega), List.getElem?_eq_getElem (by omega),
        Option.getD_some, Option.getD_some]
      exact this) (Q / D) φ hφ0 (by
      intro j hj1 hj2
      have h1 := c10 j hj1 hj2
      have h2 : g.abs.phi (order.take j).toFinset = g.abs.cut (order.take j).toFinset /
        min (g.abs.vol (order.take j).toFinset)
          (g.abs.vol (Finset.range g.n \ (order.take j).toFinset)) := rfl
      rw [h2, le_div_iff₀ (hvolpos j hj1 hj2)] at h1
      have v1 := order_vol hperm hloop j hj2.le
      have v2 := order_vol_compl hperm hloop j hj2.le
      have v3 := order_cut hperm j hj2.le
      change g.abs.vol (Finset.range g.n \ _) = Cheeger.volp g.n w' g.n - Cheeger.volp g.n w' j at v2
      change _ = Cheeger.volp g.n w' j at v1
      change _ = Cheeger.cutp g.n w' j at v3
      rw [v1, v2, v3] at h1
      exact h1) (by
      intro c
      have := hsum2 (fun a b => g.abs.w a b * (F a - F b) ^ 2)
      rw [henergy] at this
      refine le_trans (le_of_eq this) ?_
      rw [show 2 * Q = 2 * (Q / D) * D by field_simp]
      exact mul_le_mul_of_nonneg_left (hcentre c) (by positivity))
    (fun c => lt_of_lt_of_le hD (hcentre c))
  calc φ ^ 2 * D ≤ 2 * (Q / D) * D := mul_le_mul_of_nonneg_right key hD.le
    _ = 2 * Q := by field_simp

/-! ## What the rounded code computes -/

section
variable {R : Rounding ℝ} {g : Graph ℝ}

theorem cheegerScaleFl_spec {D : Nat → ℝ} (hdeg : ∀ v < g.n, (g.asLocalFl R.fl).degree (v : Int) = .ok (D v)) (vec : SVec ℝ)
    (hv : vec.OK) (hr : vec.rows = g.n) (is : List Nat) (hnd : is.Nodup) (hlt : ∀ i ∈ is, i < g.n) :
    ∃ y, cheegerScaleFl R.fl g is vec = .ok y ∧ y.OK ∧ y.rows = g.n ∧
      (∀ i, y.get i = if i ∈ is then R.fl (R.fl (Real.sqrt (R.fl (1 / D i))) * vec.get i) else vec.get i) ∧
      ∀ i, i ∈ y.indices ↔ i ∈ vec.indices ∨ i ∈ is := by
  induction is generalizing vec with
  | nil => exact ⟨vec, rfl, hv, hr, by simp, by simp⟩
  | cons a is ih =>
    obtain ⟨y, h1, h2, h3, h4, h5⟩ := SVec.set_spec hv (i := a) (by rw [hr]; exact hlt a (by simp))
      (R.fl (R.fl (Real.sqrt (R.fl (1 / D a))) * vec.get a))
    obtain ⟨z, k1, k2, k3, k4, k5⟩ := ih y h2 (by omega) (List.nodup_cons.1 hnd).2
      (fun i hi => hlt i (by simp [hi]))
    refine ⟨z, ?_, k2, k3, fun i => ?_, fun i => ?_⟩
    · simp only [cheegerScaleFl, hdeg a (hlt a (by simp)), Outcome.bind_ok, h1, k1]
    · rw [k4, h4]
      by_cases hia : i = a
      · subst hia
        rw [if_neg (List.nodup_cons.1 hnd).1, if_pos rfl, if_pos (by simp)]
      · rw [if_neg hia]
        by_cases hi : i ∈ is
        · rw [if_pos hi, if_pos (by simp [hi])]
        · rw [if_neg hi, if_neg (by simp [hia, hi])]
    · rw [k5, h5, List.mem_cons]
      tauto

/-- What `cheeger_cut` computes in rounded arithmetic: a prefix of the vertices in decreasing order of the rounded entries
of the vector, whose conductance is that of the best prefix up to two roundings. -/
theorem cheegerCutFl_spec (solve : EigenSolver) (h : g.Reachable) (hz : g.adj.NoZeros) {q₀ : ℝ} {B : Nat}
    (hunit : UnitWeights R.fl g.abs q₀ B) (p q : ℝ × (Nat → ℝ)) (rest : EigenPairs)
    (hres : computeEigensystemFl R.fl solve g .normalisedLaplacian 2 .smallest = .ok (p :: q :: rest)) (v : Nat → ℝ)
    (hvdef : v = if q.1 < p.1 then p.2 else q.2) (z : Nat → ℝ)
    (hz' : z = fun i => R.fl (R.fl (Real.sqrt (R.fl (1 / g.abs.deg i))) * v i)) :
    ∃ (labels order : List Nat) (k : Nat), cheegerCutFl R.fl solve g = .ok labels ∧ labels.length = g.n ∧
      (∀ x ∈ labels, x = 0 ∨ x = 1) ∧ labelSet labels = (order.take k).toFinset ∧
      order.Perm (List.range g.n) ∧
      order.Pairwise (fun i j => z j ≤ z i) ∧ k ≤ g.n ∧
      (k = 0 → ∀ i, i ≤ g.n → min (g.abs.vol (order.take i).toFinset)
        (g.abs.vol (Finset.range g.n \ (order.take i).toFinset)) = 0) ∧
      (0 < k → 0 < min (g.abs.vol (order.take k).toFinset)
        (g.abs.vol (Finset.range g.n \ (order.take k).toFinset))) ∧
      (0 < k → ∀ i, i ≤ g.n → 0 < min (g.abs.vol (order.take i).toFinset)
          (g.abs.vol (Finset.range g.n \ (order.take i).toFinset)) →
        g.abs.phi (order.take k).toFinset ≤ (1 / (1 - R.u)) ^ 2 * g.abs.phi (order.take i).toFinset) := by
  obtain ⟨s1, s2, s3⟩ := sparseView_ok g.n v
  have hdeg : ∀ v < g.n, (g.asLocalFl R.fl).degree (v : Int) = .ok (g.abs.deg v) := by
    intro v hv
    have := (C77_degree (R := R) h.valid hunit.nonneg hv).1
    rw [hunit.degFl_eq h.valid hv] at this
    exact this
  obtain ⟨y, y1, y2, y3, y4, y5⟩ := cheegerScaleFl_spec hdeg (sparseView g.n v) s1 s2 (List.range g.n)
    List.nodup_range (fun i hi => List.mem_range.1 hi)
  have hind : ∀ i, i ∈ y.indices ↔ i < g.n := by
    intro i
    rw [y5, List.mem_range]
    constructor
    · rintro (hi | hi)
      · rw [← s2]; exact s1.index_lt hi
      · exact hi
    · exact .inr
  have hget : ∀ i < g.n, y.get i = z i := by
    intro i hi
    rw [y4, if_pos (List.mem_range.2 hi), s3, if_pos hi, hz']
  obtain ⟨order, k, ho, hk2, hk1, hk3, hk4, hk5⟩ := C77_unit_graph h.valid hz hunit y y2.sorted
    (fun i hi => (hind i).1 hi)
  have hnd : y.indices.Nodup := by
    unfold SVec.indices
    rw [List.nodup_iff_pairwise_ne, List.pairwise_map]
    exact y2.sorted.imp (fun hab => ne_of_lt hab)
  have hperm : order.Perm (List.range g.n) := by
    rw [ho]
    refine (sortDesc_perm _ _).trans ?_
    rw [List.perm_ext_iff_of_nodup hnd List.nodup_range]
    intro i
    rw [hind, List.mem_range]
  have hlen : order.length = g.n := by rw [hperm.length_eq, List.length_range]
  have hlt : ∀ i ∈ order, i < g.n := fun i hi => List.mem_range.1 (hperm.mem_iff.1 hi)
  obtain ⟨labels, l1, l2, l3⟩ := markCut_spec (order.take k) (List.replicate g.n 0) (by
    intro i hi
    rw [List.length_replicate]
    exact hlt i (List.mem_of_mem_take hi))
  rw [List.length_replicate] at l2 l3
  rw [hlen] at hk2 hk3 hk5
  have l4 : ∀ i < g.n, labels[i]? = some (if i ∈ order.take k then 1 else 0) := by
    intro i hi
    rw [l3 i hi]
    congr 1
    split_ifs
    · rfl
    · simp [List.getD_eq_getElem?_getD, hi]
  refine ⟨labels, order, k, ?_, l2, ?_, ?_, hperm, ?_, hk2, hk3, hk4,
    fun hk i hi hpos => (hk5 hk i hi hpos).1⟩
  · simp only [cheegerCutFl, hres, Outcome.bind_ok, ← hvdef, y1, hk1, l1]
  · intro x hx
    obtain ⟨i, hi, rfl⟩ := List.mem_iff_getElem.1 hx
    have := l4 i (by omega)
    rw [List.getElem?_eq_getElem hi] at this
    rw [Option.some.inj this]
    split_ifs
    · exact .inr rfl
    · exact .inl rfl
  · ext i
    unfold labelSet
    rw [Finset.mem_filter, Finset.mem_range, l2, List.mem_toFinset]
    constructor
    · rintro ⟨h1, h2⟩
      rw [l4 i h1] at h2
      by_contra hno
      rw [if_neg hno] at h2
      simp at h2
    · intro hi
      have := hlt i (List.mem_of_mem_take hi)
      exact ⟨this, by rw [l4 i this, if_pos hi]⟩
  · have := (C34_order y y2.sorted).2
    rw [← ho] at this
    refine this.imp_of_mem (fun {a b} ha hb hab => ?_)
    rw [hget a (hlt a ha), hget b (hlt b hb)] at hab
    exact le_of_lt_or_eq (hab.imp_right And.left)

end

/-! ## Perturbed vectors -/

/-- The square root of the form of the normalised Laplacian is subadditive, and at most `√2` times the length. -/
theorem quad_sub {g : Graph ℝ} (h : g.Reachable) (hw : ∀ u v, 0 ≤ g.abs.w u v) (hloop : ∀ v, g.abs.w v v = 0)
    (hd : ∀ v, v < g.n → 0 < g.abs.deg v) (x v : Nat → ℝ) (θ : ℝ) (hθ : 0 ≤ θ)
    (hx : dot g.n (fun i => x i - v i) (fun i => x i - v i) ≤ θ ^ 2) :
    quadForm g.n (matrixOf g.abs .normalisedLaplacian) x ≤
      (√(quadForm g.n (matrixOf g.abs .normalisedLaplacian) v) + √2 * θ) ^ 2 := by
  obtain ⟨e, he⟩ : ∃ e : Nat → ℝ, e = fun i => x i - v i := ⟨_, rfl⟩
  rw [← he] at hx
  have key : ∀ y : Nat → ℝ, quadForm g.n (matrixOf g.abs .normalisedLaplacian) y =
      ∑ ab ∈ range g.n ×ˢ range g.n, (√(g.abs.w ab.1 ab.2 / 2) *
        (y ab.1 / √(g.abs.deg ab.1) - y ab.2 / √(g.abs.deg ab.2))) ^ 2 := by
    intro y
    have := quadForm_norm h hloop hd y
    rw [Finset.sum_product]
    have e2 : ∀ a ∈ range g.n, ∀ b ∈ range g.n, (√(g.abs.w a b / 2) * (y a / √(g.abs.deg a) - y b / √(g.abs.deg b))) ^ 2
        = 1 / 2 * (g.abs.w a b * (y a / √(g.abs.deg a) - y b / √(g.abs.deg b)) ^ 2) := by
      intro a _ b _
      rw [mul_pow, Real.sq_sqrt (div_nonneg (hw a b) (by norm_num))]
      ring
    rw [Finset.sum_congr rfl fun a ha => Finset.sum_congr rfl fun b hb => e2 a ha b hb]
    simp_rw [← Finset.mul_sum]
    rw [← this]
    ring
  have hm := Recovery.minkowski (range g.n ×ˢ range g.n)
    (fun ab => √(g.abs.w ab.1 ab.2 / 2) * (v ab.1 / √(g.abs.deg ab.1) - v ab.2 / √(g.abs.deg ab.2)))
    (fun ab => √(g.abs.w ab.1 ab.2 / 2) * (e ab.1 / √(g.abs.deg ab.1) - e ab.2 / √(g.abs.deg ab.2)))
  rw [← key v, ← key e] at hm
  rw [key x]
  have hxe : ∀ ab ∈ range g.n ×ˢ range g.n, (√(g.abs.w ab.1 ab.2 / 2) *
        (x ab.1 / √(g.abs.deg ab.1) - x ab.2 / √(g.abs.deg ab.2))) ^ 2 =
      (√(g.abs.w ab.1 ab.2 / 2) * (v ab.1 / √(g.abs.deg ab.1) - v ab.2 / √(g.abs.deg ab.2)) +
        √(g.abs.w ab.1 ab.2 / 2) * (e ab.1 / √(g.abs.deg ab.1) - e ab.2 / √(g.abs.deg ab.2))) ^ 2 := by
    intro ab _
    rw [he]
    ring
  rw [Finset.sum_congr rfl hxe]
  refine hm.trans (pow_le_pow_left₀ (by positivity) (add_le_add le_rfl ?_) 2)
  have h2 : quadForm g.n (matrixOf g.abs .normalisedLaplacian) e ≤ 2 * dot g.n e e := (C09_spectrum_bounds h hw hd e).2.2
  refine (Real.sqrt_le_sqrt (h2.trans (mul_le_mul_of_nonneg_left hx (by norm_num)))).trans (le_of_eq ?_)
  rw [Real.sqrt_mul (by norm_num), Real.sqrt_sq hθ]

/-- The distance from the multiples of `s` changes by at most the distance of the vectors. -/
theorem proj_sub (n : Nat) (x v s : Nat → ℝ) (hs : 0 < dot n s s) (θ : ℝ) (hθ : 0 ≤ θ)
    (hx : dot n (fun i => x i - v i) (fun i => x i - v i) ≤ θ ^ 2) :
    √(dot n v v - dot n v s ^ 2 / dot n s s) ≤ √(dot n x x - dot n x s ^ 2 / dot n s s) + θ := by
  have expand : ∀ (y : Nat → ℝ) (c : ℝ), ∑ i ∈ range n, (y i - c * s i) ^ 2
      = dot n y y - 2 * c * dot n y s + c ^ 2 * dot n s s := by
    intro y c
    unfold dot
    rw [Finset.mul_sum, Finset.mul_sum, ← Finset.sum_sub_distrib, ← Finset.sum_add_distrib]
    exact Finset.sum_congr rfl fun _ _ => by ring
  have hle : ∀ (y : Nat → ℝ) (c : ℝ), dot n y y - dot n y s ^ 2 / dot n s s ≤ ∑ i ∈ range n, (y i - c * s i) ^ 2 := by
    intro y c
    rw [expand]
    have : 0 ≤ dot n s s * (c - dot n y s / dot n s s) ^ 2 := by positivity
    have e3 : dot n s s * (c - dot n y s / dot n s s) ^ 2
        = c ^ 2 * dot n s s - 2 * c * dot n y s + dot n y s ^ 2 / dot n s s := by
      field_simp
      ring
    linarith
  have heq : ∑ i ∈ range n, (x i - dot n x s / dot n s s * s i) ^ 2 = dot n x x - dot n x s ^ 2 / dot n s s := by
    rw [expand]
    field_simp
    ring
  have hm := Recovery.minkowski (range n) (fun i => x i - dot n x s / dot n s s * s i) (fun i => v i - x i)
  have e : ∀ i ∈ range n, (x i - dot n x s / dot n s s * s i + (v i - x i)) ^ 2 = (v i - dot n x s / dot n s s * s i) ^ 2 :=
    fun i _ => by ring
  rw [Finset.sum_congr rfl e, heq] at hm
  have h1 := (hle v (dot n x s / dot n s s)).trans hm
  have h2 : ∑ i ∈ range n, (v i - x i) ^ 2 ≤ θ ^ 2 := by
    refine le_trans (le_of_eq ?_) hx
    unfold dot
    exact Finset.sum_congr rfl fun _ _ => by ring
  have h3 : √(∑ i ∈ range n, (v i - x i) ^ 2) ≤ θ := by
    rw [show θ = √(θ ^ 2) from (Real.sqrt_sq hθ).symm]
    exact Real.sqrt_le_sqrt h2
  have h4 := Real.sqrt_le_sqrt h1
  rw [Real.sqrt_sq (by positivity)] at h4
  linarith

/-! ## The guarantee -/

section
variable {R : Rounding ℝ} {g : Graph ℝ}

theorem sizeFl {solve : EigenSolver} {mat : GraphMatrix} {num : Int} {which : EigenSortRule} {res : EigenPairs}
    (hres : computeEigensystemFl R.fl solve g mat num which = .ok res) : 1 ≤ num ∧ num < g.n := by
  by_contra hn
  unfold computeEigensystemFl at hres
  rw [if_pos (by omega)] at hres
  cases hres

/-- **C103** (any vector).  Let the weights be multiples of one number, all volumes being exact in the rounded arithmetic.
Whatever vector `v` the solver returned for the larger of the two values, let `D` be the squared length of the part of `v`
orthogonal to the square roots of the degrees, and `θ = ((1/(1-u))^3 - 1) |v|`.  If `θ < √D`, the cut that `cheeger_cut` returns
in rounded arithmetic is not trivial, and its conductance `φ` has `φ (√D - θ) ≤ √2 (√(v'Lv) + √2 θ) / (1-u)^2`. -/
theorem C103_any_vector (solve : EigenSolver) (h : g.Reachable) (hz : g.adj.NoZeros) {q₀ : ℝ} {B : Nat}
    (hunit : UnitWeights R.fl g.abs q₀ B) (hloop : ∀ v, g.abs.w v v = 0) (hd : ∀ v, v < g.n → 0 < g.abs.deg v)
    (p q : ℝ × (Nat → ℝ)) (rest : EigenPairs)
    (hres : computeEigensystemFl R.fl solve g .normalisedLaplacian 2 .smallest = .ok (p :: q :: rest)) (v : Nat → ℝ)
    (hv : v = if q.1 < p.1 then p.2 else q.2) (D θ : ℝ)
    (hD : D = dot g.n v v - dot g.n v (fun i => √(g.abs.deg i)) ^ 2 / g.abs.vol (range g.n))
    (hθ : θ = ((1 / (1 - R.u)) ^ 3 - 1) * √(dot g.n v v)) (hθD : θ < √D) :
    ∃ labels, cheegerCutFl R.fl solve g = .ok labels ∧ labels.length = g.n ∧ (∀ x ∈ labels, x = 0 ∨ x = 1) ∧
      0 < g.abs.vol (labelSet labels) ∧ 0 < g.abs.vol (range g.n \ labelSet labels) ∧
      g.abs.phi (labelSet labels) * (√D - θ) ≤
        (1 / (1 - R.u)) ^ 2 * (√2 * (√(quadForm g.n (matrixOf g.abs .normalisedLaplacian) v) + √2 * θ)) := by
  have hw := hunit.nonneg
  have hn := (sizeFl hres).2
  obtain ⟨z, hz'⟩ : ∃ z : Nat → ℝ, z = fun i => R.fl (R.fl (√(R.fl (1 / g.abs.deg i))) * v i) := ⟨_, rfl⟩
  obtain ⟨labels, order, k, c1, c2, c3, c4, c5, c6, c7, c8, c9, c10⟩ :=
    cheegerCutFl_spec solve h hz hunit p q rest hres v hv z hz'
  have hpos := prefix_pos hd c5
  have hk : 0 < k := by
    rcases Nat.eq_zero_or_pos k with hk0 | hk
    · exact absurd (c8 hk0 1 (by omega)) (hpos 1 le_rfl (by omega)).ne'
    · exact hk
  have hmin := c9 hk
  obtain ⟨x, hx⟩ : ∃ x : Nat → ℝ, x = fun i => √(g.abs.deg i) * z i := ⟨_, rfl⟩
  have hroot : ∀ i < g.n, 0 < √(g.abs.deg i) := fun i hi => Real.sqrt_pos.2 (hd i hi)
  have hg1 : 0 ≤ (1 / (1 - R.u)) ^ 3 - 1 := sub_nonneg.2 (Rounding.g_pow_one_le (R := R) 3)
  have hclose : ∀ i < g.n, |x i - v i| ≤ ((1 / (1 - R.u)) ^ 3 - 1) * |v i| := by
    intro i hi
    have hdi := hd i hi
    have h1 : R.Near 1 (R.fl (1 / g.abs.deg i)) (1 / g.abs.deg i) := R.near_fl (by positivity)
    have h2 : R.Near 1 (√(R.fl (1 / g.abs.deg i))) (√(1 / g.abs.deg i)) := (h1.mono (show 1 ≤ 2 * 1 by norm_num)).sqrt
    have h3 : R.Near 2 (R.fl (√(R.fl (1 / g.abs.deg i)))) (√(1 / g.abs.deg i)) := h2.fl
    have h4 : Close R 2 (√(1 / g.abs.deg i) * |v i|) (R.fl (√(R.fl (1 / g.abs.deg i))) * v i) (√(1 / g.abs.deg i) * v i) := by
      refine ⟨?_, by rw [abs_mul, abs_of_nonneg (Real.sqrt_nonneg _)]⟩
      rw [← sub_mul, abs_mul, ← mul_assoc]
      exact mul_le_mul_of_nonneg_right h3.abs_sub (abs_nonneg _)
    have h5 := h4.fl.1
    have e1 : √(g.abs.deg i) * √(1 / g.abs.deg i) = 1 := by
      rw [← Real.sqrt_mul hdi.le, mul_one_div_cancel hdi.ne', Real.sqrt_one]
    have h6 := mul_le_mul_of_nonneg_left h5 (hroot i hi).le
    have e2 : x i - v i = √(g.abs.deg i) * (z i - √(1 / g.abs.deg i) * v i) := by
      rw [hx]
      linear_combination (v i) * e1
    rw [e2, abs_mul, abs_of_pos (hroot i hi)]
    rw [hz']
    refine h6.trans (le_of_eq ?_)
    change _ * (((1 / (1 - R.u)) ^ 3 - 1) * _) = _
    linear_combination (((1 / (1 - R.u)) ^ 3 - 1) * |v i|) * e1
  have hvv : 0 ≤ dot g.n v v := Finset.sum_nonneg fun _ _ => mul_self_nonneg _
  have hθ0 : 0 ≤ θ := by rw [hθ]; positivity
  have hxv : dot g.n (fun i => x i - v i) (fun i => x i - v i) ≤ θ ^ 2 := by
    rw [hθ, mul_pow, Real.sq_sqrt hvv]
    unfold dot
    rw [Finset.mul_sum]
    refine Finset.sum_le_sum fun i hi => ?_
    have := mul_self_le_mul_self (abs_nonneg _) (hclose i (mem_range.1 hi))
    rw [abs_mul_abs_self] at this
    refine this.trans (le_of_eq ?_)
    have := abs_mul_abs_self (v i)
    linear_combination ((1 / (1 - R.u)) ^ 3 - 1) ^ 2 * this
  obtain ⟨s, hs⟩ : ∃ s : Nat → ℝ, s = fun i => √(g.abs.deg i) := ⟨_, rfl⟩
  have hvol : 0 < g.abs.vol (range g.n) :=
    Finset.sum_pos (fun a ha => hd a (Finset.mem_range.1 ha)) ⟨0, Finset.mem_range.2 (by omega)⟩
  have hss : dot g.n s s = g.abs.vol (range g.n) := by
    rw [hs]
    unfold dot WGraph.vol
    exact Finset.sum_congr rfl fun i hi => Real.mul_self_sqrt (hd i (mem_range.1 hi)).le
  have hproj := proj_sub g.n x v s (by rw [hss]; exact hvol) θ hθ0 hxv
  obtain ⟨D', hD'⟩ : ∃ D', D' = dot g.n x x - dot g.n x s ^ 2 / dot g.n s s := ⟨_, rfl⟩
  rw [← hD', hss, hs, ← hD] at hproj
  have hD'pos : 0 < √D' := by linarith
  have hquad := quad_sub h hw hloop hd x v θ hθ0 hxv
  have hsort : order.Pairwise (fun i j => x j / √(g.abs.deg j) ≤ x i / √(g.abs.deg i)) := by
    refine c6.imp_of_mem fun {i j} hi hj hij => ?_
    have hi := hroot i (List.mem_range.1 (c5.mem_iff.1 hi))
    have hj := hroot j (List.mem_range.1 (c5.mem_iff.1 hj))
    rw [hx]
    beta_reduce
    rwa [mul_div_cancel_left₀ _ hi.ne', mul_div_cancel_left₀ _ hj.ne']
  obtain ⟨G, hG⟩ : ∃ G, G = (1 / (1 - R.u)) ^ 2 := ⟨_, rfl⟩
  have hG0 : 0 < G := by rw [hG]; exact Rounding.g_pow_pos (R := R) 2
  have hφ0 : 0 ≤ g.abs.phi (order.take k).toFinset := div_nonneg (WGraph.cut_le_vol hw _).1 hmin.le
  have hq := sweep_quality h hw hloop hd (by omega) x D' (Real.sqrt_pos.1 hD'pos) (by rw [hD', hss, hs]) c5 hsort
    (g.abs.phi (order.take k).toFinset / G) (div_nonneg hφ0 hG0.le) (fun i hi1 hi2 => by
      rw [div_le_iff₀ hG0, mul_comm, hG]
      exact c10 hk i hi2.le (hpos i hi1 hi2))
  refine ⟨labels, c1, c2, c3, ?_, ?_, ?_⟩
  · rw [c4]; exact lt_of_lt_of_le hmin (min_le_left _ _)
  · rw [c4]; exact lt_of_lt_of_le hmin (min_le_right _ _)
  rw [c4, ← hG]
  obtain ⟨φ, hφ⟩ : ∃ φ, φ = g.abs.phi (order.take k).toFinset := ⟨_, rfl⟩
  obtain ⟨Q, hQ⟩ : ∃ Q, Q = √(quadForm g.n (matrixOf g.abs .normalisedLaplacian) v) + √2 * θ := ⟨_, rfl⟩
  have hQ0 : 0 ≤ Q := by rw [hQ]; positivity
  rw [← hφ] at hq hφ0 ⊢
  rw [← hQ] at hquad ⊢
  have h1 : (φ / G) ^ 2 * D' ≤ (√2 * Q) ^ 2 := by
    rw [mul_pow, Real.sq_sqrt (by norm_num)]
    linarith
  have h2 : φ / G * √D' ≤ √2 * Q := by
    have e : (φ / G * √D') ^ 2 = (φ / G) ^ 2 * D' := by rw [mul_pow, Real.sq_sqrt (Real.sqrt_pos.1 hD'pos).le]
    rw [← e] at h1
    exact le_of_sq_le_sq h1 (by positivity)
  have h3 : φ / G * (√D - θ) ≤ √2 * Q := le_trans (mul_le_mul_of_nonneg_left (by linarith) (by positivity)) h2
  rw [div_mul_eq_mul_div, div_le_iff₀ hG0] at h3
  linarith

/-- What a residual says about a unit vector. -/
theorem residual_bounds (h : g.Reachable) (hloop : ∀ v, g.abs.w v v = 0) (hd : ∀ v, v < g.n → 0 < g.abs.deg v) (hn : 0 < g.n)
    (l : ℝ) (v : Nat → ℝ) (hunit : dot g.n v v = 1) (r : ℝ) (hr0 : 0 ≤ r) (hrl : r < l)
    (hr : residual2 g.n (matrixOf g.abs .normalisedLaplacian) l v ≤ r ^ 2) :
    quadForm g.n (matrixOf g.abs .normalisedLaplacian) v ≤ l + r ∧
    1 - (r / l) ^ 2 ≤ dot g.n v v - dot g.n v (fun i => √(g.abs.deg i)) ^ 2 / g.abs.vol (range g.n) := by
  have hl : 0 < l := lt_of_le_of_lt hr0 hrl
  obtain ⟨M, hM⟩ : ∃ M, M = matrixOf g.abs .normalisedLaplacian := ⟨_, rfl⟩
  have hMs : ∀ i < g.n, ∀ j < g.n, M i j = M j i := fun i _ j _ => by rw [hM]; exact matrixOf_symm h _ i j
  obtain ⟨s, hs⟩ : ∃ s : Nat → ℝ, s = fun i => Real.sqrt (g.abs.deg i) := ⟨_, rfl⟩
  have hvol : 0 < g.abs.vol (range g.n) :=
    Finset.sum_pos (fun a ha => hd a (Finset.mem_range.1 ha)) ⟨0, Finset.mem_range.2 (by omega)⟩
  have hss : dot g.n s s = g.abs.vol (range g.n) := by
    rw [hs]
    unfold dot WGraph.vol
    exact Finset.sum_congr rfl fun i hi => Real.mul_self_sqrt (hd i (mem_range.1 hi)).le
  have hMs0 : dot g.n s (mulv g.n M v) = 0 := by
    rw [← mulv_symm hMs]
    refine Eq.trans (dot_congr (y := fun i => 0 * s i) (b := v) ?_ (fun _ _ => rfl)) ?_
    · intro i hi
      have := zero_eigen hloop hd i hi
      rw [hM, hs]
      exact this
    · rw [dot_smul_left, zero_mul]
  obtain ⟨ρ, hρ⟩ : ∃ ρ : Nat → ℝ, ρ = fun i => mulv g.n M v i - l * v i := ⟨_, rfl⟩
  have hρρ : dot g.n ρ ρ ≤ r ^ 2 := by
    rw [hρ, ← residual2_eq, hM]; exact hr
  have h1 : dot g.n s ρ = - (l * dot g.n s v) := by
    rw [hρ, dot_sub_right, dot_smul_right, hMs0]; ring
  have h2 : dot g.n v ρ = quadForm g.n M v - l := by
    rw [hρ, dot_sub_right, dot_smul_right, hunit, quadForm_dot]; ring
  have c1 := dot_cs g.n s ρ
  have c2 := dot_cs g.n v ρ
  rw [h1, hss] at c1
  rw [h2, hunit, one_mul] at c2
  have hq : quadForm g.n M v ≤ l + r := by
    linarith [(abs_le.1 (abs_le_of_sq_le_sq (le_trans c2 hρρ) hr0)).2]
  have hmean : dot g.n v s ^ 2 / g.abs.vol (range g.n) ≤ (r / l) ^ 2 := by
    rw [dot_comm, div_le_iff₀ hvol, div_pow, div_mul_eq_mul_div, le_div_iff₀ (pow_pos hl 2)]
    have : (-(l * dot g.n s v)) ^ 2 ≤ g.abs.vol (range g.n) * r ^ 2 :=
      le_trans c1 (mul_le_mul_of_nonneg_left hρρ hvol.le)
    linarith [this, show (-(l * dot g.n s v)) ^ 2 = dot g.n s v ^ 2 * l ^ 2 by ring]
  rw [hM] at hq
  rw [hs] at hmean
  exact ⟨hq, by rw [hunit]; linarith⟩

/-- **C103** (residual).  If the pair `(l, v)` of the larger value has `v` of length 1 and a residual `|L v - l v| ≤ r < l` for
the exact normalised Laplacian, then with `θ = (1/(1-u))^3 - 1 < √(1 - (r/l)²)` the returned cut is not trivial and its
conductance is at most `√2 (√(l + r) + √2 θ) / ((1-u)^2 (√(1 - (r/l)²) - θ))`. -/
theorem C103_residual (solve : EigenSolver) (h : g.Reachable) (hz : g.adj.NoZeros) {q₀ : ℝ} {B : Nat}
    (hunit : UnitWeights R.fl g.abs q₀ B) (hloop : ∀ v, g.abs.w v v = 0) (hd : ∀ v, v < g.n → 0 < g.abs.deg v)
    (p q : ℝ × (Nat → ℝ)) (rest : EigenPairs)
    (hres : computeEigensystemFl R.fl solve g .normalisedLaplacian 2 .smallest = .ok (p :: q :: rest)) (l : ℝ) (v : Nat → ℝ)
    (hlv : (l, v) = if q.1 < p.1 then p else q) (hv1 : dot g.n v v = 1) (r : ℝ) (hr0 : 0 ≤ r) (hrl : r < l)
    (hr : residual2 g.n (matrixOf g.abs .normalisedLaplacian) l v ≤ r ^ 2) (θ : ℝ) (hθ : θ = (1 / (1 - R.u)) ^ 3 - 1)
    (hθr : θ < √(1 - (r / l) ^ 2)) :
    ∃ labels, cheegerCutFl R.fl solve g = .ok labels ∧ labels.length = g.n ∧ (∀ x ∈ labels, x = 0 ∨ x = 1) ∧
      0 < g.abs.vol (labelSet labels) ∧ 0 < g.abs.vol (range g.n \ labelSet labels) ∧
      g.abs.phi (labelSet labels) ≤
        (1 / (1 - R.u)) ^ 2 * (√2 * (√(l + r) + √2 * θ)) / (√(1 - (r / l) ^ 2) - θ) := by
  have hn := (sizeFl hres).2
  have hv : v = if q.1 < p.1 then p.2 else q.2 := by
    by_cases hc : q.1 < p.1
    · rw [if_pos hc] at hlv ⊢; exact congrArg Prod.snd hlv
    · rw [if_neg hc] at hlv ⊢; exact congrArg Prod.snd hlv
  obtain ⟨b1, b2⟩ := residual_bounds h hloop hd (by omega) l v hv1 r hr0 hrl hr
  have b3 := Real.sqrt_le_sqrt b2
  obtain ⟨labels, k1, k2, k3, k4, k5, k6⟩ := C103_any_vector solve h hz hunit hloop hd p q rest hres v hv _ θ rfl
    (by rw [hv1, Real.sqrt_one, mul_one]; exact hθ) (lt_of_lt_of_le hθr b3)
  refine ⟨labels, k1, k2, k3, k4, k5, ?_⟩
  rw [le_div_iff₀ (by linarith)]
  have hφ0 : 0 ≤ g.abs.phi (labelSet labels) := div_nonneg (WGraph.cut_le_vol hunit.nonneg _).1 (le_min k4.le k5.le)
  refine (mul_le_mul_of_nonneg_left (by linarith) hφ0).trans (k6.trans ?_)
  have hg0 := (Rounding.g_pow_pos (R := R) 2).le
  refine mul_le_mul_of_nonneg_left (mul_le_mul_of_nonneg_left (add_le_add (Real.sqrt_le_sqrt b1) le_rfl) (Real.sqrt_nonneg _)) hg0

end

theorem guarantee_arith (l₂ l r θ G : ℝ) (h2 : 1 / 2 ^ 16 ≤ l₂) (hl : |l - l₂| ≤ 1 / 2 ^ 27) (hr0 : 0 ≤ r) (hr : r ≤ 1 / 2 ^ 29)
    (hθ0 : 0 ≤ θ) (hθ : θ ≤ 1 / 2 ^ 40) (hG0 : 0 ≤ G) (hG : G ≤ 1 + 1 / 2 ^ 40) :
    r < l ∧ θ < √(1 - (r / l) ^ 2) ∧
      G * (√2 * (√(l + r) + √2 * θ)) / (√(1 - (r / l) ^ 2) - θ) ≤ (1 + 1 / 2 ^ 10) * √(2 * l₂) := by
  obtain ⟨ha, hb⟩ := abs_le.1 hl
  have hl0 : 1 / 2 ^ 17 ≤ l := by linarith
  have hlpos : 0 < l := lt_of_lt_of_le (by norm_num) hl0
  have hrl : r / l ≤ 1 / 2 ^ 12 := by
    rw [div_le_iff₀ hlpos]
    linarith
  have hrl2 : (r / l) ^ 2 ≤ 1 / 2 ^ 24 :=
    (pow_le_pow_left₀ (div_nonneg hr0 hlpos.le) hrl 2).trans (by norm_num)
  have hden : 1 - 1 / 2 ^ 24 ≤ √(1 - (r / l) ^ 2) := by
    refine Real.le_sqrt_of_sq_le ?_
    refine le_trans ?_ (sub_le_sub_left hrl2 1)
    norm_num
  have hden2 : 1 - 1 / 2 ^ 23 ≤ √(1 - (r / l) ^ 2) - θ := by linarith
  have hdpos : 0 < √(1 - (r / l) ^ 2) - θ := lt_of_lt_of_le (by norm_num) hden2
  refine ⟨by linarith, by linarith, ?_⟩
  have hs2 : 1 / 2 ^ 8 ≤ √l₂ := Real.le_sqrt_of_sq_le (le_trans (by norm_num) h2)
  have hsl : √(l + r) ≤ √l₂ * (1 + 1 / 2 ^ 11) := by
    refine Real.sqrt_le_iff.2 ⟨by positivity, ?_⟩
    rw [mul_pow, Real.sq_sqrt (by linarith)]
    linarith
  have h22 : √2 ≤ 2 := Real.sqrt_le_iff.2 ⟨by norm_num, by norm_num⟩
  have ht : √2 * θ ≤ √l₂ * (1 / 2 ^ 31) := by
    have := mul_le_mul h22 hθ hθ0 (by norm_num)
    linarith
  rw [div_le_iff₀ hdpos, Real.sqrt_mul (by norm_num)]
  have hA : √2 * (√(l + r) + √2 * θ) ≤ √2 * √l₂ * (1 + 1 / 2 ^ 11 + 1 / 2 ^ 31) := by
    rw [mul_assoc]
    refine mul_le_mul_of_nonneg_left ?_ (Real.sqrt_nonneg _)
    linarith
  have hP : 0 ≤ √2 * √l₂ := by positivity
  obtain ⟨P, hPd⟩ : ∃ P, P = √2 * √l₂ := ⟨_, rfl⟩
  rw [← hPd] at hA hP ⊢
  have hB : G * (√2 * (√(l + r) + √2 * θ)) ≤ (1 + 1 / 2 ^ 40) * (P * (1 + 1 / 2 ^ 11 + 1 / 2 ^ 31)) :=
    mul_le_mul hG hA (by positivity) (by norm_num)
  refine hB.trans ?_
  have hC : (1 + 1 / 2 ^ 10) * P * (1 - 1 / 2 ^ 23) ≤ (1 + 1 / 2 ^ 10) * P * (√(1 - (r / l) ^ 2) - θ) :=
    mul_le_mul_of_nonneg_left hden2 (by positivity)
  refine le_trans ?_ hC
  linarith

namespace KMeans

/-- **C103** (the guarantee in doubles).  For a graph with less than `2^20` vertices, no self-loop, positive degrees and weights
that are multiples of one number (so that the volumes are exact `double`s), whose second eigenvalue `l₂` of the normalised
Laplacian is at least `2^-16`: computed in `double`s from start to end, with an inner solver that is exact for the matrix it is
given, `cheeger_cut` returns a cut that is not trivial and has conductance at most `(1 + 2^-10) √(2 l₂)`, which is at most
`2 (1 + 2^-10) √(φ(T))` for every non-trivial set `T`. -/
theorem C103_guarantee {g : Graph ℝ} (solve : EigenSolver) (hsolve : SolverSpec solve) (h : g.Reachable) (hz : g.adj.NoZeros)
    {q₀ : ℝ} {B : Nat} (hunit : UnitWeights (dbl ℝ).fl g.abs q₀ B) (hf : g.FloatWeights (dbl ℝ).fl)
    (hloop : ∀ v, g.abs.w v v = 0) (hd : ∀ v, v < g.n → 0 < g.abs.deg v) (hn : g.n < 2 ^ 20) (res : EigenPairs)
    (hres : computeEigensystemFl (dbl ℝ).fl solve g .normalisedLaplacian 2 .smallest = .ok res)
    (solve₀ : EigenSolver) (hsolve₀ : SolverSpec solve₀) (l₁ l₂ : ℝ)
    (hl : computeEigenvalues solve₀ g .normalisedLaplacian 2 .smallest = .ok [l₁, l₂]) (hl₂ : 1 / 2 ^ 16 ≤ l₂) :
    ∃ labels, cheegerCutFl (dbl ℝ).fl solve g = .ok labels ∧ labels.length = g.n ∧ (∀ x ∈ labels, x = 0 ∨ x = 1) ∧
      0 < g.abs.vol (labelSet labels) ∧ 0 < g.abs.vol (range g.n \ labelSet labels) ∧
      g.abs.phi (labelSet labels) ≤ (1 + 1 / 2 ^ 10) * √(2 * l₂) ∧
      ∀ T ⊆ range g.n, T.Nonempty → T ≠ range g.n →
        g.abs.phi (labelSet labels) ≤ (1 + 1 / 2 ^ 10) * (2 * √(g.abs.phi T)) := by
  have hw := hunit.nonneg
  have hsz := sizeFl hres
  obtain ⟨res₀, hres₀⟩ : ∃ res₀, computeEigensystem solve₀ g .normalisedLaplacian 2 .smallest = .ok res₀ := by
    unfold computeEigenvalues at hl
    cases hres : computeEigensystem solve₀ g .normalisedLaplacian 2 .smallest with
    | ub => rw [hres] at hl; cases hl
    | throw e => rw [hres] at hl; cases hl
    | ok r => exact ⟨r, rfl⟩
  obtain ⟨v₁, m₂, v₂, hr₀, hm0, he1, he2, hu1, hu2, hort, -⟩ := two_smallest solve₀ hsolve₀ h hw hloop hd res₀ hres₀
  have hm : m₂ = l₂ := by
    unfold computeEigenvalues at hl
    rw [hres₀, hr₀] at hl
    simp only [Outcome.bind, List.map_cons, List.map_nil, Outcome.ok.injEq, List.cons.injEq, and_true] at hl
    exact hl.2
  subst hm
  have hex := C53_eigensystem solve₀ hsolve₀ h hw _ 2 .smallest (fun _ => hd) res₀ hres₀
  obtain ⟨D, -, -, hD, -⟩ := maxDegree_spec h
  have hD0 : 0 ≤ D := (WGraph.degree_nonneg hw 0).trans (hD 0 (by omega))
  have hm2 : m₂ ≤ 2 := by
    have hne : ∃ i < g.n, v₂ i ≠ 0 := by
      by_contra hno
      push Not at hno
      unfold dot at hu2
      rw [Finset.sum_eq_zero (fun i hi => by rw [hno i (mem_range.1 hi), zero_mul])] at hu2
      exact zero_ne_one hu2
    exact ((C53_ranges h hw D hD m₂ v₂ hne).2.2 hd he2).2
  obtain ⟨η, hη⟩ : ∃ η, η = ((1 / (1 - (dbl ℝ).u)) ^ (g.n + 10) - 1) * (2 : ℝ) := ⟨_, rfl⟩
  have hη0 : 0 ≤ η := by
    rw [hη]
    exact mul_nonneg (sub_nonneg.2 (Rounding.g_pow_one_le (R := dbl ℝ) _)) (by norm_num)
  have hη1 : η ≤ 1 / 2 ^ 30 := by
    have := C102_double g.n hn .normalisedLaplacian D hD0
    rw [if_pos rfl, ← hη] at this
    have hn' : (g.n : ℝ) ≤ 1048576 := by exact_mod_cast (show g.n ≤ 1048576 by omega)
    refine this.trans ?_
    linarith
  have hu : (dbl ℝ).u = 1 / 2 ^ 53 := dbl_u
  obtain ⟨a1, a2, -⟩ := C102_eigenvalues (R := dbl ℝ) (fun x => flBin_neg 53 x) h hw hf .normalisedLaplacian 2 .smallest
    hsz (fun _ => hd) D hD solve hsolve res hres res₀ hex η (by rw [if_pos rfl]; exact hη)
  change res.length = 2 at a1
  obtain ⟨p, q, rfl⟩ : ∃ p q, res = [p, q] := List.length_eq_two.1 a1
  have hp : |p.1| ≤ 4 * η + (dbl ℝ).u * (4 * η) := by
    have := a2 0 (by decide)
    rw [hr₀] at this
    simpa using this
  have hq : |q.1 - m₂| ≤ 4 * η + (dbl ℝ).u * (m₂ + 4 * η) := by
    have := a2 1 (by decide)
    rw [hr₀] at this
    simp only [List.getD_cons_succ, List.getD_cons_zero] at this
    rwa [abs_of_nonneg hm0] at this
  rw [hu] at hp hq
  obtain ⟨F, hF, hall⟩ := C102_residual (R := dbl ℝ) (fun x => flBin_neg 53 x) h hw hf .normalisedLaplacian 2 .smallest
    hsz (fun _ => hd) D hD
  obtain ⟨raw, hraw, hlen, hpair⟩ := hall solve _ hres
  have hexr := hsolve g.n _ F 2 raw (fun _ _ _ _ => rfl) (fun i _ j _ => hF i j) (by omega) (by omega) hraw
  rw [if_pos rfl, ← hη] at hpair
  obtain ⟨l, v, hlv⟩ : ∃ l v, (l, v) = if q.1 < p.1 then p else q := ⟨_, _, rfl⟩
  -- the pair that is used
  have hj : ∃ j < 2, ([p, q] : EigenPairs).getD j (0, 0) = (l, v) := by
    rw [hlv]
    by_cases hc : q.1 < p.1
    · exact ⟨0, by norm_num, by rw [if_pos hc]; rfl⟩
    · exact ⟨1, by norm_num, by rw [if_neg hc]; rfl⟩
  have hlbound : |l - m₂| ≤ 1 / 2 ^ 27 := by
    have hp' := abs_le.1 hp
    have hq' := abs_le.1 hq
    have : l = if q.1 < p.1 then p.1 else q.1 := by
      by_cases hc : q.1 < p.1
      · rw [if_pos hc] at hlv ⊢; rw [← hlv]
      · rw [if_neg hc] at hlv ⊢; rw [← hlv]
    rw [this, abs_le]
    split_ifs with hc <;> constructor <;> linarith
  obtain ⟨j, hj2, hj⟩ := hj
  have hjr : j < raw.length := by rw [hexr.count]; exact hj2
  obtain ⟨e1, e2⟩ := hpair j hjr
  rw [hj] at e1 e2
  have hunitv : dot g.n v v = 1 := by
    change v = _ at e1
    rw [e1, List.getD_eq_getElem _ _ hjr]
    exact hexr.unit _ (List.getElem_mem hjr)
  have hzero : residual2 g.n F (raw.getD j (0, 0)).1 (raw.getD j (0, 0)).2 = 0 := by
    rw [List.getD_eq_getElem _ _ hjr]
    have he := hexr.eigen _ (List.getElem_mem hjr)
    exact Finset.sum_eq_zero fun i hi => by rw [he i (mem_range.1 hi), sub_self]; norm_num
  have hresid := e2 (by rw [← e1]; exact hunitv)
  rw [hzero, Real.sqrt_zero, zero_add] at hresid
  change √(residual2 g.n (matrixOf g.abs .normalisedLaplacian) l v) ≤ η + (dbl ℝ).u / (1 - (dbl ℝ).u) * |l| at hresid
  have hl3 : |l| ≤ 3 := by
    have := abs_le.1 hlbound
    rw [abs_le]
    constructor <;> linarith
  obtain ⟨r, hr⟩ : ∃ r, r = η + (dbl ℝ).u / (1 - (dbl ℝ).u) * |l| := ⟨_, rfl⟩
  have hcu : (dbl ℝ).u / (1 - (dbl ℝ).u) ≤ 1 / 2 ^ 52 := by
    rw [hu]; norm_num
  have hcu0 : 0 ≤ (dbl ℝ).u / (1 - (dbl ℝ).u) := by
    rw [hu]; norm_num
  have hr0 : 0 ≤ r := by rw [hr]; positivity
  have hr1 : r ≤ 1 / 2 ^ 29 := by
    have := mul_le_mul hcu hl3 (abs_nonneg _) (by norm_num)
    rw [hr]
    linarith
  rw [← hr] at hresid
  have hres2 : residual2 g.n (matrixOf g.abs .normalisedLaplacian) l v ≤ r ^ 2 := by
    have := (Real.sqrt_le_iff.1 hresid).2
    exact this
  obtain ⟨b1, b2, b3⟩ := guarantee_arith m₂ l r ((1 / (1 - (dbl ℝ).u)) ^ 3 - 1) ((1 / (1 - (dbl ℝ).u)) ^ 2) hl₂ hlbound hr0 hr1
    (sub_nonneg.2 (Rounding.g_pow_one_le (R := dbl ℝ) 3)) (by rw [hu]; norm_num) (Rounding.g_pow_pos (R := dbl ℝ) 2).le
    (by rw [hu]; norm_num)
  obtain ⟨labels, k1, k2, k3, k4, k5, k6⟩ := C103_residual (R := dbl ℝ) solve h hz hunit hloop hd p q [] hres l v hlv hunitv r hr0 b1
    hres2 _ rfl b2
  refine ⟨labels, k1, k2, k3, k4, k5, k6.trans b3, fun T hT hT1 hT2 => (k6.trans b3).trans ?_⟩
  have hlow := C61_lower_bound solve₀ hsolve₀ h hw hloop hd l₁ m₂ hl T hT hT1 hT2
  refine mul_le_mul_of_nonneg_left ?_ (by norm_num)
  have : √(2 * m₂) ≤ √(2 ^ 2 * g.abs.phi T) := Real.sqrt_le_sqrt (by linarith)
  rwa [Real.sqrt_mul (show (0 : ℝ) ≤ 2 ^ 2 by norm_num), Real.sqrt_sq (by norm_num)] at this

/-- `exists_graph`, the object storing no zeros. -/
theorem exists_graph_pruned (N : Nat) (w : Nat → Nat → ℝ) (hsym : ∀ i j, w i j = w j i)
    (hthr : ∀ i j, w i j = 0 ∨ epsilon < w i j) (hrange : ∀ i j, ¬ (i < N ∧ j < N) → w i j = 0) :
    ∃ g : Graph ℝ, g.Reachable ∧ g.adj.NoZeros ∧ g.abs = ⟨N, w⟩ := by
  set m : SprsMat ℝ := SprsMat.ofCols N N (fun j => (sparseView N (fun i => w i j)).col) with hm
  have hwf : m.WF := SprsMat.wf_ofCols (fun j _ =>
    ⟨(sparseView_ok N _).1.sorted, fun e he => (sparseView_ok N _).1.lt e he⟩)
  have hco : ∀ i j, m.coeff i j = w i j := by
    intro i j
    unfold SprsMat.coeff
    rw [hm, SprsMat.col_ofCols]
    split_ifs with hj
    · have := (sparseView_ok N (fun i => w i j)).2.2 i
      unfold SVec.get at this
      rw [this]
      split_ifs with hi
      · rfl
      · exact (hrange i j (by omega)).symm
    · exact (hrange i j (by omega)).symm
  have heps : (0 : ℝ) < epsilon := by unfold epsilon; norm_num
  obtain ⟨g, -, -, hr, hn, hc, hp⟩ := ofMatrix_nonneg (m := m) hwf rfl (by
    intro i j
    rw [hco]
    rcases hthr i j with h | h
    · exact h.ge
    · exact (lt_trans heps h).le) (fun i j => by rw [hco, hco, hsym])
  refine ⟨g, hr, Pruned.noZeros hp, ?_⟩
  unfold Graph.abs
  rw [hn]
  congr 1
  funext i j
  rw [hc, hco]
  exact thr_of_zero_or (hthr i j)

/-- **C103** (a case).  On the square with two heavy edges of weight 100 and two light edges of weight 1 the hypotheses of
`C103_guarantee` are met, and `cheeger_cut` computed in `double`s separates the two heavy edges. -/
theorem C103_square : ∃ g : Graph ℝ, g.Reachable ∧ g.abs = ⟨4, squareW⟩ ∧
    (∃ solve res, SolverSpec solve ∧ computeEigensystemFl (dbl ℝ).fl solve g .normalisedLaplacian 2 .smallest = .ok res) ∧
    ∀ (solve : EigenSolver) (res : EigenPairs), SolverSpec solve →
      computeEigensystemFl (dbl ℝ).fl solve g .normalisedLaplacian 2 .smallest = .ok res →
      ∃ labels, cheegerCutFl (dbl ℝ).fl solve g = .ok labels ∧ (labels = [1, 1, 0, 0] ∨ labels = [0, 0, 1, 1]) := by
  obtain ⟨g, hr, hz, ha⟩ := exists_graph_pruned 4 squareW
    (by
      intro i j
      unfold squareW
      by_cases h : i < 4 ∧ j < 4
      · rw [if_pos h, if_pos h.symm]
        obtain ⟨h1, h2⟩ := h
        interval_cases i <;> interval_cases j <;> simp
      · rw [if_neg h, if_neg (fun h' => h h'.symm)])
    (by
      intro i j
      unfold squareW
      split_ifs
      · right; unfold epsilon; norm_num
      · right; unfold epsilon; norm_num
      · left; rfl
      · left; rfl)
    (by
      intro i j h
      unfold squareW
      rw [if_neg (by omega)])
  have hn : g.n = 4 := congrArg WGraph.n ha
  have hwv : ∀ i j, g.abs.w i j = squareW i j := fun i j => by rw [ha]
  have hw : ∀ u v, 0 ≤ g.abs.w u v := by
    intro u v
    rw [hwv]; unfold squareW; split_ifs <;> norm_num
  have hloop : ∀ v, g.abs.w v v = 0 := by
    intro v
    rw [hwv]; unfold squareW
    split_ifs with h1 h2 h3
    · exact absurd rfl h2.1
    · omega
    · rfl
    · rfl
  have hdeg : ∀ v, v < 4 → g.abs.deg v = 101 := by
    intro v hv
    unfold WGraph.deg
    rw [hloop, show g.abs.n = 4 from hn]
    simp only [hwv, Finset.sum_range_succ, Finset.sum_range_zero, squareW]
    interval_cases v <;> norm_num
  have hd : ∀ v, v < g.n → 0 < g.abs.deg v := by
    intro v hv
    rw [hdeg v (by omega)]; norm_num
  have hint : ∀ m : Nat, m ≤ 2 ^ 53 → (dbl ℝ).fl m = m := fun m hm => flBin_nat_le (K := ℝ) (m := m) hm
  have hnat : ∀ u v, ∃ m : Nat, m ≤ 100 ∧ g.abs.w u v = m := by
    intro u v
    rw [hwv]
    unfold squareW
    split_ifs
    · exact ⟨100, le_rfl, by norm_num⟩
    · exact ⟨1, by norm_num, by norm_num⟩
    · exact ⟨0, by norm_num, by norm_num⟩
    · exact ⟨0, by norm_num, by norm_num⟩
  have hvol4 : g.abs.vol (range g.n) = 404 := by
    unfold WGraph.vol
    rw [Finset.sum_congr rfl fun v hv => hdeg v (by rw [← hn]; exact mem_range.1 hv), Finset.sum_const, card_range, hn]
    norm_num
  have hunit : UnitWeights (dbl ℝ).fl g.abs 1 (2 ^ 53) := by
    refine ⟨one_pos, hw, fun u v => ?_, ?_, fun m hm => ?_⟩
    · obtain ⟨m, -, hm⟩ := hnat u v
      exact ⟨m, by rw [mul_one]; exact hm⟩
    · change g.abs.vol (range g.n) ≤ _
      rw [hvol4]; norm_num
    · rw [mul_one]; exact hint m hm
  have hf : g.FloatWeights (dbl ℝ).fl := by
    intro u v
    obtain ⟨m, hm100, hm⟩ := hnat u v
    rw [hm]
    have := hint m (by omega)
    exact ⟨this, by change flBin 53 _ = _; rw [flBin_neg]; exact congrArg _ this⟩
  have hMe : ∀ i < 4, ∀ j < 4, matrixOf g.abs .normalisedLaplacian i j = (if i = j then 1 else 0) - squareW i j / 101 := by
    intro i hi j hj
    simp only [matrixOf]
    rw [hdeg i hi, hdeg j hj, Real.mul_self_sqrt (by norm_num), hwv]
  have hrow : ∀ v : Nat → ℝ, ∀ i < 4, ∑ j ∈ range g.n, matrixOf g.abs .normalisedLaplacian i j * v j
      = signs (v 0 - 100 / 101 * v 1 - 1 / 101 * v 3)
      (v 1 - 100 / 101 * v 0 - 1 / 101 * v 2) (v 2 - 100 / 101 * v 3 - 1 / 101 * v 1)
      (v 3 - 100 / 101 * v 2 - 1 / 101 * v 0) i := by
    intro v i hi
    rw [hn, Finset.sum_congr rfl (fun j hj => by rw [hMe i hi j (mem_range.1 hj)])]
    simp only [Finset.sum_range_succ, Finset.sum_range_zero, squareW, signs]
    interval_cases i <;> norm_num <;> ring
  have hdot : ∀ v w : Nat → ℝ, dot g.n v w = v 0 * w 0 + v 1 * w 1 + v 2 * w 2 + v 3 * w 3 := by
    intro v w
    unfold dot
    rw [hn]
    simp [Finset.sum_range_succ]
  have hrows : ∀ m v, IsEigen g.n (matrixOf g.abs .normalisedLaplacian) m v →
      v 0 - 100 / 101 * v 1 - 1 / 101 * v 3 = m * v 0 ∧ v 1 - 100 / 101 * v 0 - 1 / 101 * v 2 = m * v 1 ∧
      v 2 - 100 / 101 * v 3 - 1 / 101 * v 1 = m * v 2 ∧ v 3 - 100 / 101 * v 2 - 1 / 101 * v 0 = m * v 3 := by
    intro m v hv
    have a0 := hv 0 (by omega)
    have a1 := hv 1 (by omega)
    have a2 := hv 2 (by omega)
    have a3 := hv 3 (by omega)
    rw [hrow v _ (by norm_num)] at a0 a1 a2 a3
    simp only [signs] at a0 a1 a2 a3
    norm_num at a0 a1 a2 a3
    exact ⟨by linarith, by linarith, by linarith, by linarith⟩
  refine ⟨g, hr, ha, ?_, fun solve res hs hres => ?_⟩
  · obtain ⟨⟨solve, hs, hall⟩, -⟩ := C53_contract_satisfiable
    obtain ⟨F, c, val, hF, -, -, heq⟩ := C102_matrix (R := dbl ℝ) (fun x => flBin_neg 53 x) hr hw hf .normalisedLaplacian 2 .smallest
      (by rw [hn]; norm_num) (fun _ => hd) 101 (fun v hv => (hdeg v (by omega)).le)
    have := hall g.n (fun i j => .fin (F i j)) F 2 (fun _ _ _ _ => rfl) (fun i _ j _ => hF i j) (by omega)
    obtain ⟨raw, hraw⟩ := Option.isSome_iff_exists.1 this
    refine ⟨solve, raw.map (fun p => (val p.1, p.2)), hs, ?_⟩
    rw [heq]
    rw [show (2 : Int).toNat = 2 from rfl, hraw]
  obtain ⟨solve₀, hs₀, hall⟩ := C53_always_answers
  obtain ⟨res₀, hres₀⟩ := hall g .normalisedLaplacian 2 .smallest hr (by norm_num) (by rw [hn]; norm_num) (fun _ => hd)
  obtain ⟨v₁, l₂, v₂, hr₀, hm0, he1, he2, hu1, hu2, hort, -⟩ := two_smallest solve₀ hs₀ hr hw hloop hd res₀ hres₀
  have hl : computeEigenvalues solve₀ g .normalisedLaplacian 2 .smallest = .ok [0, l₂] := by
    unfold computeEigenvalues
    rw [hres₀, hr₀]
    rfl
  -- the second eigenvalue
  have hmem : l₂ = 2 / 101 ∨ l₂ = 200 / 101 ∨ l₂ = 2 := by
    obtain ⟨b0, b1, b2, b3⟩ := hrows _ _ he1
    obtain ⟨d0, d1, d2, d3⟩ := hrows _ _ he2
    have c1 : v₁ 1 = v₁ 0 := by linarith
    have c2 : v₁ 2 = v₁ 0 := by linarith
    have c3 : v₁ 3 = v₁ 0 := by linarith
    rw [hdot, c1, c2, c3] at hort hu1
    have hne : v₁ 0 ≠ 0 := by
      intro h0
      rw [h0] at hu1
      norm_num at hu1
    have hsum : v₂ 0 + v₂ 1 + v₂ 2 + v₂ 3 = 0 := by
      refine (mul_eq_zero.1 ?_).resolve_left hne
      linarith
    by_contra hno
    push Not at hno
    obtain ⟨n1, n2, n3⟩ := hno
    have f1 : v₂ 0 + v₂ 1 - v₂ 2 - v₂ 3 = 0 := by
      refine (mul_eq_zero.1 (show (l₂ - 2 / 101) * _ = 0 by linear_combination d2 + d3 - d0 - d1)).resolve_left (sub_ne_zero.2 n1)
    have f2 : v₂ 0 - v₂ 1 - v₂ 2 + v₂ 3 = 0 := by
      refine (mul_eq_zero.1 (show (l₂ - 200 / 101) * _ = 0 by linear_combination d1 + d2 - d0 - d3)).resolve_left (sub_ne_zero.2 n2)
    have f3 : v₂ 0 - v₂ 1 + v₂ 2 - v₂ 3 = 0 := by
      refine (mul_eq_zero.1 (show (l₂ - 2) * _ = 0 by linear_combination d1 + d3 - d0 - d2)).resolve_left (sub_ne_zero.2 n3)
    have z0 : v₂ 0 = 0 := by linarith
    have z1 : v₂ 1 = 0 := by linarith
    have z2 : v₂ 2 = 0 := by linarith
    have z3 : v₂ 3 = 0 := by linarith
    rw [hdot, z0, z1, z2, z3] at hu2
    norm_num at hu2
  have hl₂ : 1 / 2 ^ 16 ≤ l₂ := by
    rcases hmem with e | e | e <;> rw [e] <;> norm_num
  obtain ⟨labels, k1, k2, k3, k4, k5, -, k7⟩ := C103_guarantee solve hs hr hz hunit hf hloop hd (by rw [hn]; norm_num) res hres solve₀ hs₀
    0 l₂ hl hl₂
  refine ⟨labels, k1, ?_⟩
  have hcard : ∀ T ⊆ range g.n, g.abs.vol T = 101 * T.card := by
    intro T hT
    unfold WGraph.vol
    rw [Finset.sum_congr rfl fun v hv => hdeg v (by rw [← hn]; exact mem_range.1 (hT hv)), Finset.sum_const, nsmul_eq_mul]
    ring
  have hphi : g.abs.phi (labelSet labels) ≤ (1 + 1 / 2 ^ 10) * (2 * √(1 / 101)) := by
    refine (k7 {0, 1} ?_ ⟨0, by simp⟩ ?_).trans ?_
    · rw [hn]; decide
    · rw [hn]; decide
    · have hs : range g.n \ {0, 1} = {2, 3} := by rw [hn]; decide
      have e : g.abs.phi {0, 1} = 1 / 101 := by
        unfold WGraph.phi WGraph.cut
        change (∑ u ∈ {0, 1}, ∑ v ∈ range g.n \ {0, 1}, g.abs.w u v) / min (g.abs.vol {0, 1}) (g.abs.vol (range g.n \ {0, 1})) = _
        rw [hcard _ (by rw [hn]; decide), hs, hcard _ (by rw [hn]; decide)]
        simp only [hwv, squareW, Finset.sum_pair (show (0 : Nat) ≠ 1 by norm_num), Finset.sum_pair (show (2 : Nat) ≠ 3 by norm_num),
          Finset.card_pair (show (0 : Nat) ≠ 1 by norm_num), Finset.card_pair (show (2 : Nat) ≠ 3 by norm_num)]
        norm_num
      rw [e]
  have hsq : √(1 / 101 : ℝ) ≤ 1 / 10 := Real.sqrt_le_iff.2 ⟨by norm_num, by norm_num⟩
  have hphi' : g.abs.phi (labelSet labels) < 1 / 4 := by
    refine lt_of_le_of_lt (hphi.trans (mul_le_mul_of_nonneg_left (mul_le_mul_of_nonneg_left hsq (by norm_num)) (by norm_num))) ?_
    norm_num
  -- heavy edges are not cut
  have hsub : labelSet labels ⊆ range g.n := by
    intro i hi
    have := (mem_filter.1 hi).1
    rwa [k2] at this
  have hheavy : ∀ a b, a < 4 → b < 4 → g.abs.w a b = 100 → a ∈ labelSet labels → b ∈ labelSet labels := by
    intro a b ha hb hab hin
    by_contra hout
    have hcut : 100 ≤ g.abs.cut (labelSet labels) := by
      rw [← hab]
      unfold WGraph.cut
      refine le_trans ?_ (Finset.single_le_sum (f := fun u => ∑ v ∈ range g.abs.n \ labelSet labels, g.abs.w u v)
        (fun u _ => Finset.sum_nonneg fun v _ => hw u v) hin)
      exact Finset.single_le_sum (f := fun v => g.abs.w a v) (fun v _ => hw a v)
        (mem_sdiff.2 ⟨mem_range.2 (by rw [show g.abs.n = 4 from hn]; exact hb), hout⟩)
    have hmin : min (g.abs.vol (labelSet labels)) (g.abs.vol (range g.n \ labelSet labels)) ≤ 202 := by
      have := WGraph.vol_compl g.abs (S := labelSet labels) hsub
      change g.abs.vol (range g.n) - _ = g.abs.vol (range g.n \ _) at this
      rw [hvol4] at this
      rcases le_total (g.abs.vol (labelSet labels)) 202 with h | h
      · exact (min_le_left _ _).trans h
      · exact (min_le_right _ _).trans (by linarith)
    have hpos := lt_min k4 k5
    have : 100 / 202 ≤ g.abs.phi (labelSet labels) := by
      change _ ≤ g.abs.cut (labelSet labels) / min (g.abs.vol (labelSet labels)) (g.abs.vol (range g.n \ labelSet labels))
      rw [le_div_iff₀ hpos]
      linarith
    linarith [show (1 / 4 : ℝ) < 100 / 202 by norm_num]
  have hlen4 : labels.length = 4 := k2.trans hn
  obtain ⟨a, b, c, d, rfl⟩ : ∃ a b c d, labels = [a, b, c, d] := by
    match labels, hlen4 with
    | [a, b, c, d], _ => exact ⟨a, b, c, d, rfl⟩
  have w01 := hheavy 0 1 (by norm_num) (by norm_num) (by rw [hwv]; norm_num [squareW])
  have w10 := hheavy 1 0 (by norm_num) (by norm_num) (by rw [hwv]; norm_num [squareW])
  have w23 := hheavy 2 3 (by norm_num) (by norm_num) (by rw [hwv]; norm_num [squareW])
  have w32 := hheavy 3 2 (by norm_num) (by norm_num) (by rw [hwv]; norm_num [squareW])
  have ne1 : (labelSet [a, b, c, d]).Nonempty := by
    by_contra hno
    rw [Finset.not_nonempty_iff_eq_empty] at hno
    rw [hno] at k4
    exact lt_irrefl _ k4
  have ne2 : labelSet [a, b, c, d] ≠ range g.n := by
    intro e
    rw [e, Finset.sdiff_self] at k5
    exact lt_irrefl _ k5
  have ca := k3 a (by simp)
  have cb := k3 b (by simp)
  have cc := k3 c (by simp)
  have cd := k3 d (by simp)
  rw [hn] at ne2
  clear hheavy hphi hphi' k4 k5 k7 k1 hsub k2 k3
  rcases ca with rfl | rfl <;> rcases cb with rfl | rfl <;> rcases cc with rfl | rfl <;> rcases cd with rfl | rfl <;>
    first
    | exact .inl rfl
    | exact .inr rfl
    | exact absurd (w01 (by decide)) (by decide)
    | exact absurd (w10 (by decide)) (by decide)
    | exact absurd (w23 (by decide)) (by decide)
    | exact absurd (w32 (by decide)) (by decide)
    | exact absurd ne1 (by decide)
    | exact absurd (by decide) ne2

end KMeans

end Stag
