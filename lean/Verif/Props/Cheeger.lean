import Verif.Cheeger
import Verif.CheegerMath
import Verif.Props.SpectralTheorem
import Verif.Props.Sweep
import Verif.PagerankLemmas
import Verif.Spec.Reach

/-!
# C61: the Cheeger cut
-/

namespace Stag

open Graph

/-! ## The scaled vector -/

theorem sparseView_ok (n : Nat) (v : Nat → ℝ) : (sparseView n v).OK ∧ (sparseView n v).rows = n ∧
    ∀ i, (sparseView n v).get i = if i < n then v i else 0 := by
  have hs : ((List.range n).filterMap (fun i => if v i = 0 then none else some (i, v i))).Pairwise
      (fun a b => a.1 < b.1) := by
    rw [List.pairwise_filterMap]
    refine List.pairwise_lt_range.imp (fun {a b} hab => ?_)
    intro x hx y hy
    split_ifs at hx hy
    cases hx; cases hy; exact hab
  have hmem : ∀ e, e ∈ (sparseView n v).col ↔ e.1 < n ∧ v e.1 = e.2 ∧ e.2 ≠ 0 := by
    rintro ⟨i, x⟩
    unfold sparseView
    simp only [List.mem_filterMap, List.mem_range]
    constructor
    · rintro ⟨a, ha, h⟩
      split_ifs at h with h0
      simp only [Option.some.injEq, Prod.mk.injEq] at h
      obtain ⟨rfl, rfl⟩ := h
      exact ⟨ha, rfl, h0⟩
    · rintro ⟨h1, h2, h3⟩
      subst h2
      exact ⟨i, h1, by rw [if_neg h3]⟩
  refine ⟨⟨hs, fun e he => ((hmem e).1 he).1⟩, rfl, fun i => ?_⟩
  unfold SVec.get
  by_cases hc : (sparseView n v).col.coeff i = 0
  · rw [hc]
    split_ifs with hi
    · by_contra hv
      have h1 : (i, v i) ∈ (sparseView n v).col := (hmem _).2 ⟨hi, rfl, fun h => hv h.symm⟩
      have := Col.coeff_eq_of_mem hs h1
      exact hv (hc.symm.trans this)
    · rfl
  · have h1 := (hmem _).1 (Col.mem_of_coeff_ne_zero hc)
    rw [if_pos h1.1]
    exact h1.2.1.symm

theorem cheegerScale_spec {g : Graph ℝ} (h : g.Reachable) (vec : SVec ℝ) (hv : vec.OK)
    (hr : vec.rows = g.n) (is : List Nat) (hnd : is.Nodup) (hlt : ∀ i ∈ is, i < g.n) :
    ∃ y, cheegerScale g is vec = .ok y ∧ y.OK ∧ y.rows = g.n ∧
      (∀ i, y.get i = if i ∈ is then Real.sqrt (1 / g.abs.deg i) * vec.get i else vec.get i) ∧
      ∀ i, i ∈ y.indices ↔ i ∈ vec.indices ∨ i ∈ is := by
  induction is generalizing vec with
  | nil => exact ⟨vec, rfl, hv, hr, by simp, by simp⟩
  | cons a is ih =>
    obtain ⟨y, h1, h2, h3, h4, h5⟩ := SVec.set_spec hv (i := a) (by rw [hr]; exact hlt a (by simp))
      (Real.sqrt (1 / g.abs.deg a) * vec.get a)
    obtain ⟨z, k1, k2, k3, k4, k5⟩ := ih y h2 (by omega) (List.nodup_cons.1 hnd).2
      (fun i hi => hlt i (by simp [hi]))
    refine ⟨z, ?_, k2, k3, fun i => ?_, fun i => ?_⟩
    · simp only [cheegerScale, degree_ok h a (hlt a (by simp)), Outcome.bind_ok, h1, k1]
    · rw [k4, h4]
      by_cases hia : i = a
      · subst hia
        rw [if_neg (List.nodup_cons.1 hnd).1, if_pos rfl, if_pos (by simp)]
      · rw [if_neg hia]
        by_cases hi : i ∈ is
        · rw [if_pos hi, if_pos (by simp [hi])]
        · rw [if_neg hi, if_neg (by simp [hia, hi])]
    · rw [k5, h5, List.mem_cons]
      tauto

theorem markCut_spec (cut clusters : List Nat) (h : ∀ i ∈ cut, i < clusters.length) :
    ∃ l, markCut cut clusters = .ok l ∧ l.length = clusters.length ∧
      ∀ i < clusters.length, l[i]? = some (if i ∈ cut then 1 else clusters.getD i 0) := by
  induction cut generalizing clusters with
  | nil => exact ⟨clusters, rfl, rfl, fun i hi => by simp [List.getD_eq_getElem?_getD, hi]⟩
  | cons a cut ih =>
    obtain ⟨l, h1, h2, h3⟩ := ih (clusters.set a 1) (fun i hi => by
      rw [List.length_set]; exact h i (by simp [hi]))
    rw [List.length_set] at h2 h3
    refine ⟨l, ?_, h2, fun i hi => ?_⟩
    · unfold markCut
      rw [if_pos (h a (by simp)), h1]
    · rw [h3 i hi]
      congr 1
      by_cases hic : i ∈ cut
      · rw [if_pos hic, if_pos (by simp [hic])]
      · rw [if_neg hic]
        by_cases hia : i = a
        · subst hia
          rw [if_pos (by simp)]
          simp [List.getD_eq_getElem?_getD, hi]
        · rw [if_neg (by simp [hia, hic])]
          simp [List.getD_eq_getElem?_getD, Ne.symm hia]

/-- The set of vertices labelled 1. -/
def labelSet (labels : List Nat) : Finset Nat :=
  (Finset.range labels.length).filter (fun i => labels[i]? = some 1)

/-- What `cheeger_cut` computes: a prefix of the vertices in decreasing order of the second
eigenvector over the square root of the degree, of least conductance. -/
theorem cheegerCut_spec (solve : EigenSolver) {g : Graph ℝ} (h : g.Reachable)
    (hw : ∀ u v, 0 ≤ g.abs.w u v) (p q : ℝ × (Nat → ℝ)) (rest : EigenPairs)
    (hres : computeEigensystem solve g .normalisedLaplacian 2 .smallest = .ok (p :: q :: rest)) :
    ∃ (labels order : List Nat) (k : Nat), cheegerCut solve g = .ok labels ∧ labels.length = g.n ∧
      (∀ x ∈ labels, x = 0 ∨ x = 1) ∧ labelSet labels = (order.take k).toFinset ∧
      order.Perm (List.range g.n) ∧
      order.Pairwise (fun i j =>
        Real.sqrt (1 / g.abs.deg j) * (if q.1 < p.1 then p.2 else q.2) j <
        Real.sqrt (1 / g.abs.deg i) * (if q.1 < p.1 then p.2 else q.2) i ∨
        Real.sqrt (1 / g.abs.deg j) * (if q.1 < p.1 then p.2 else q.2) j =
        Real.sqrt (1 / g.abs.deg i) * (if q.1 < p.1 then p.2 else q.2) i ∧ i < j) ∧ k ≤ g.n ∧
      (k = 0 → ∀ i, i ≤ g.n → min (g.abs.vol (order.take i).toFinset)
        (g.abs.vol (Finset.range g.n \ (order.take i).toFinset)) = 0) ∧
      (0 < k → 0 < min (g.abs.vol (order.take k).toFinset)
        (g.abs.vol (Finset.range g.n \ (order.take k).toFinset))) ∧
      (0 < k → ∀ i, i ≤ g.n → 0 < min (g.abs.vol (order.take i).toFinset)
          (g.abs.vol (Finset.range g.n \ (order.take i).toFinset)) →
        g.abs.phi (order.take k).toFinset ≤ g.abs.phi (order.take i).toFinset) := by
  set v := if q.1 < p.1 then p.2 else q.2 with hvdef
  obtain ⟨s1, s2, s3⟩ := sparseView_ok g.n v
  obtain ⟨y, y1, y2, y3, y4, y5⟩ := cheegerScale_spec h (sparseView g.n v) s1 s2 (List.range g.n)
    List.nodup_range (fun i hi => List.mem_range.1 hi)
  have hind : ∀ i, i ∈ y.indices ↔ i < g.n := by
    intro i
    rw [y5, List.mem_range]
    constructor
    · rintro (hi | hi)
      · rw [← s2]; exact s1.index_lt hi
      · exact hi
    · exact .inr
  have hget : ∀ i < g.n, y.get i = Real.sqrt (1 / g.abs.deg i) * v i := by
    intro i hi
    rw [y4, if_pos (List.mem_range.2 hi), s3, if_pos hi]
  obtain ⟨order, k, ho, hk1, hk2, hk3, hk4, hk5⟩ := C34_graph h.valid hw y y2.sorted
    (fun i hi => (hind i).1 hi)
  have hnd : y.indices.Nodup := by
    unfold SVec.indices
    rw [List.nodup_iff_pairwise_ne, List.pairwise_map]
    exact y2.sorted.imp (fun hab => ne_of_lt hab)
  have hperm : order.Perm (List.range g.n) := by
    rw [ho]
    refine (sortDesc_perm _ _).trans ?_
    rw [List.perm_ext_iff_of_nodup hnd List.nodup_range]
    intro i
    rw [hind, List.mem_range]
  have hlen : order.length = g.n := by rw [hperm.length_eq, List.length_range]
  have hlt : ∀ i ∈ order, i < g.n := fun i hi => List.mem_range.1 (hperm.mem_iff.1 hi)
  obtain ⟨labels, l1, l2, l3⟩ := markCut_spec (order.take k) (List.replicate g.n 0) (by
    intro i hi
    rw [List.length_replicate]
    exact hlt i (List.mem_of_mem_take hi))
  rw [List.length_replicate] at l2 l3
  rw [hlen] at hk2 hk3 hk5
  have l4 : ∀ i < g.n, labels[i]? = some (if i ∈ order.take k then 1 else 0) := by
    intro i hi
    rw [l3 i hi]
    congr 1
    split_ifs
    · rfl
    · simp [List.getD_eq_getElem?_getD, hi]
  refine ⟨labels, order, k, ?_, l2, ?_, ?_, hperm, ?_, hk2, hk3, hk4,
    fun hk i hi hpos => (hk5 hk i hi hpos).1⟩
  · simp only [cheegerCut, hres, Outcome.bind_ok, ← hvdef, y1, hk1, l1]
  · intro x hx
    obtain ⟨i, hi, rfl⟩ := List.mem_iff_getElem.1 hx
    have := l4 i (by omega)
    rw [List.getElem?_eq_getElem hi] at this
    rw [Option.some.inj this]
    split_ifs
    · exact .inr rfl
    · exact .inl rfl
  · ext i
    unfold labelSet
    rw [Finset.mem_filter, Finset.mem_range, l2, List.mem_toFinset]
    constructor
    · rintro ⟨h1, h2⟩
      rw [l4 i h1] at h2
      by_contra hno
      rw [if_neg hno] at h2
      simp at h2
    · intro hi
      have := hlt i (List.mem_of_mem_take hi)
      exact ⟨this, by rw [l4 i this, if_pos hi]⟩
  · have := (C34_order y y2.sorted).2
    rw [← ho] at this
    refine this.imp_of_mem (fun {a b} ha hb hab => ?_)
    rwa [hget a (hlt a ha), hget b (hlt b hb)] at hab

/-! ## Eigenvectors of the normalised Laplacian -/

section
variable {g : Graph ℝ}

theorem row_eq_deg (hloop : ∀ v, g.abs.w v v = 0) (i : Nat) :
    ∑ j ∈ Finset.range g.n, g.abs.w i j = g.abs.deg i := by
  unfold WGraph.deg
  rw [hloop, add_zero]
  rfl

/-- The form of the normalised Laplacian without self-loops. -/
theorem quadForm_norm (h : g.Reachable) (hloop : ∀ v, g.abs.w v v = 0)
    (hd : ∀ v, v < g.n → 0 < g.abs.deg v) (x : Nat → ℝ) :
    2 * quadForm g.n (matrixOf g.abs .normalisedLaplacian) x =
      ∑ a ∈ Finset.range g.n, ∑ b ∈ Finset.range g.n,
        g.abs.w a b * (x a / Real.sqrt (g.abs.deg a) - x b / Real.sqrt (g.abs.deg b)) ^ 2 := by
  set f : Nat → ℝ := fun a => x a / Real.sqrt (g.abs.deg a) with hf
  have h1 : quadForm g.n (matrixOf g.abs .normalisedLaplacian) x =
      ∑ a ∈ Finset.range g.n, g.abs.deg a * f a ^ 2 -
        ∑ a ∈ Finset.range g.n, ∑ b ∈ Finset.range g.n, g.abs.w a b * (f a * f b) := by
    unfold quadForm
    rw [← Finset.sum_sub_distrib]
    apply Finset.sum_congr rfl
    intro a ha
    have e : ∀ b ∈ Finset.range g.n, x a * matrixOf g.abs .normalisedLaplacian a b * x b
        = (if a = b then x a * x b else 0) - g.abs.w a b * (f a * f b) := by
      intro b _
      simp only [matrixOf, hf]
      split_ifs
      · rw [mul_sub, sub_mul, mul_one, mul_comm (Real.sqrt (g.abs.deg a)), ← div_div]; ring
      · rw [mul_comm (Real.sqrt (g.abs.deg a)), ← div_div]; ring
    rw [Finset.sum_congr rfl e, Finset.sum_sub_distrib, Finset.sum_ite_eq, if_pos ha]
    congr 1
    have := hd a (Finset.mem_range.1 ha)
    simp only [hf]
    rw [div_pow, Real.sq_sqrt this.le]
    field_simp
  have hsym : ∀ a b, g.abs.w a b = g.abs.w b a := h.valid.symm
  have h2 : ∑ a ∈ Finset.range g.n, ∑ b ∈ Finset.range g.n, g.abs.w a b * f a ^ 2
      = ∑ a ∈ Finset.range g.n, g.abs.deg a * f a ^ 2 := by
    apply Finset.sum_congr rfl
    intro a _
    rw [← row_eq_deg hloop, Finset.sum_mul]
  have h3 : ∑ a ∈ Finset.range g.n, ∑ b ∈ Finset.range g.n, g.abs.w a b * f b ^ 2
      = ∑ a ∈ Finset.range g.n, g.abs.deg a * f a ^ 2 := by
    rw [← h2, Finset.sum_comm]
    exact Finset.sum_congr rfl (fun a _ => Finset.sum_congr rfl (fun b _ => by rw [hsym]))
  have h4 : ∑ a ∈ Finset.range g.n, ∑ b ∈ Finset.range g.n, g.abs.w a b * (f a - f b) ^ 2
      = ∑ a ∈ Finset.range g.n, ∑ b ∈ Finset.range g.n, g.abs.w a b * f a ^ 2
        + ∑ a ∈ Finset.range g.n, ∑ b ∈ Finset.range g.n, g.abs.w a b * f b ^ 2
        - 2 * ∑ a ∈ Finset.range g.n, ∑ b ∈ Finset.range g.n, g.abs.w a b * (f a * f b) := by
    rw [Finset.mul_sum, ← Finset.sum_add_distrib, ← Finset.sum_sub_distrib]
    apply Finset.sum_congr rfl
    intro a _
    rw [Finset.mul_sum, ← Finset.sum_add_distrib, ← Finset.sum_sub_distrib]
    exact Finset.sum_congr rfl (fun b _ => by ring)
  rw [h4, h2, h3, h1]
  ring

/-- The square roots of the degrees are an eigenvector for 0. -/
theorem zero_eigen (hloop : ∀ v, g.abs.w v v = 0) (hd : ∀ v, v < g.n → 0 < g.abs.deg v) :
    IsEigen g.n (matrixOf g.abs .normalisedLaplacian) 0 (fun i => Real.sqrt (g.abs.deg i)) := by
  intro i hi
  simp only [matrixOf, zero_mul]
  have : ∀ j ∈ Finset.range g.n, ((if i = j then 1 else 0)
      - g.abs.w i j / (Real.sqrt (g.abs.deg i) * Real.sqrt (g.abs.deg j)))
        * Real.sqrt (g.abs.deg j)
      = (if i = j then Real.sqrt (g.abs.deg j) else 0) - g.abs.w i j / Real.sqrt (g.abs.deg i) := by
    intro j hj
    have := (Real.sqrt_pos.2 (hd j (Finset.mem_range.1 hj))).ne'
    have := (Real.sqrt_pos.2 (hd i hi)).ne'
    split_ifs <;> field_simp
    ring
  rw [Finset.sum_congr rfl this, Finset.sum_sub_distrib, Finset.sum_ite_eq,
    if_pos (Finset.mem_range.2 hi), ← Finset.sum_div, row_eq_deg hloop]
  rw [sub_eq_zero, eq_div_iff (Real.sqrt_pos.2 (hd i hi)).ne', Real.mul_self_sqrt (hd i hi).le]

theorem dot_scaled (hd : ∀ v, v < g.n → 0 < g.abs.deg v) (x : Nat → ℝ) :
    dot g.n x x = ∑ a ∈ Finset.range g.n, g.abs.deg a * (x a / Real.sqrt (g.abs.deg a)) ^ 2 := by
  unfold dot
  apply Finset.sum_congr rfl
  intro a ha
  have := hd a (Finset.mem_range.1 ha)
  rw [div_pow, Real.sq_sqrt this.le]
  field_simp

theorem dot_scaled_root (hd : ∀ v, v < g.n → 0 < g.abs.deg v) (x : Nat → ℝ) :
    dot g.n x (fun i => Real.sqrt (g.abs.deg i))
      = ∑ a ∈ Finset.range g.n, g.abs.deg a * (x a / Real.sqrt (g.abs.deg a)) := by
  unfold dot
  apply Finset.sum_congr rfl
  intro a ha
  have h1 := hd a (Finset.mem_range.1 ha)
  have h2 := Real.sqrt_pos.2 h1
  have h3 := Real.mul_self_sqrt h1.le
  rw [eq_comm, mul_div_assoc', div_eq_iff h2.ne']
  linear_combination (- x a) * h3

end

/-! ## Positions -/

theorem sum_getD (l : List Nat) (F : Nat → ℝ) :
    (l.map F).sum = ∑ j ∈ Finset.range l.length, F (l.getD j 0) := by
  induction l with
  | nil => simp
  | cons a l ih =>
    rw [List.map_cons, List.sum_cons, List.length_cons, Finset.sum_range_succ', ih, add_comm]
    simp [List.getD_eq_getElem?_getD]

theorem sum_take_toFinset {l : List Nat} (hnd : l.Nodup) (k : Nat) (hk : k ≤ l.length) (F : Nat → ℝ) :
    ∑ v ∈ (l.take k).toFinset, F v = ∑ j ∈ Finset.range k, F (l.getD j 0) := by
  rw [List.sum_toFinset _ (hnd.sublist (List.take_sublist _ _)), sum_getD, List.length_take,
    min_eq_left hk]
  apply Finset.sum_congr rfl
  intro j hj
  have := Finset.mem_range.1 hj
  congr 1
  rw [List.getD_eq_getElem?_getD, List.getD_eq_getElem?_getD, List.getElem?_take_of_lt this]

section
variable {s : WGraph ℝ} {order : List Nat} (hperm : order.Perm (List.range s.n))
include hperm

theorem order_sum (F : Nat → ℝ) :
    ∑ v ∈ Finset.range s.n, F v = ∑ j ∈ Finset.range s.n, F (order.getD j 0) := by
  have h1 : (order.map F).sum = ((List.range s.n).map F).sum := (hperm.map F).sum_eq
  have hlen : order.length = s.n := by rw [hperm.length_eq, List.length_range]
  rw [← sum_list_range, ← h1, sum_getD, hlen]

theorem order_compl (k : Nat) (hk : k ≤ s.n) (F : Nat → ℝ) :
    ∑ v ∈ Finset.range s.n \ (order.take k).toFinset, F v
      = ∑ j ∈ Finset.range s.n \ Finset.range k, F (order.getD j 0) := by
  have hlen : order.length = s.n := by rw [hperm.length_eq, List.length_range]
  have hnd : order.Nodup := hperm.nodup_iff.2 List.nodup_range
  have hsub : (order.take k).toFinset ⊆ Finset.range s.n := by
    intro i hi
    exact Finset.mem_range.2 (List.mem_range.1 (hperm.mem_iff.1
      (List.mem_of_mem_take (List.mem_toFinset.1 hi))))
  have h1 := Finset.sum_sdiff (f := F) hsub
  have h2 := Finset.sum_sdiff (f := fun j => F (order.getD j 0)) (Finset.range_subset_range.2 hk)
  rw [sum_take_toFinset hnd k (by omega), order_sum hperm] at h1
  linarith

theorem order_cut (k : Nat) (hk : k ≤ s.n) :
    s.cut (order.take k).toFinset
      = Cheeger.cutp s.n (fun a b => s.w (order.getD a 0) (order.getD b 0)) k := by
  have hlen : order.length = s.n := by rw [hperm.length_eq, List.length_range]
  have hnd : order.Nodup := hperm.nodup_iff.2 List.nodup_range
  unfold WGraph.cut Cheeger.cutp
  rw [sum_take_toFinset hnd k (by omega)]
  apply Finset.sum_congr rfl
  intro a _
  rw [order_compl hperm k hk]

theorem order_deg (hloop : ∀ v, s.w v v = 0) (a : Nat) :
    Cheeger.dg s.n (fun a b => s.w (order.getD a 0) (order.getD b 0)) a = s.deg (order.getD a 0) := by
  unfold Cheeger.dg WGraph.deg
  rw [hloop, add_zero]
  exact (order_sum hperm (fun b => s.w (order.getD a 0) b)).symm

theorem order_vol (hloop : ∀ v, s.w v v = 0) (k : Nat) (hk : k ≤ s.n) :
    s.vol (order.take k).toFinset
      = Cheeger.volp s.n (fun a b => s.w (order.getD a 0) (order.getD b 0)) k := by
  have hlen : order.length = s.n := by rw [hperm.length_eq, List.length_range]
  have hnd : order.Nodup := hperm.nodup_iff.2 List.nodup_range
  unfold WGraph.vol Cheeger.volp
  rw [sum_take_toFinset hnd k (by omega)]
  exact Finset.sum_congr rfl (fun a _ => (order_deg hperm hloop a).symm)

theorem order_vol_compl (hloop : ∀ v, s.w v v = 0) (k : Nat) (hk : k ≤ s.n) :
    s.vol (Finset.range s.n \ (order.take k).toFinset)
      = Cheeger.volp s.n (fun a b => s.w (order.getD a 0) (order.getD b 0)) s.n -
        Cheeger.volp s.n (fun a b => s.w (order.getD a 0) (order.getD b 0)) k := by
  have hlen : order.length = s.n := by rw [hperm.length_eq, List.length_range]
  have hsub : (order.take k).toFinset ⊆ Finset.range s.n := by
    intro i hi
    exact Finset.mem_range.2 (List.mem_range.1 (hperm.mem_iff.1
      (List.mem_of_mem_take (List.mem_toFinset.1 hi))))
  have hall : Finset.range s.n = (order.take s.n).toFinset := by
    rw [List.take_of_length_le (by omega)]
    ext i
    rw [Finset.mem_range, List.mem_toFinset, hperm.mem_iff, List.mem_range]
  rw [← WGraph.vol_compl s hsub, ← order_vol hperm hloop k hk, ← order_vol hperm hloop s.n (le_refl _),
    ← hall]

end

/-- The two smallest eigenpairs, as `cheeger_cut` gets them. -/
theorem two_smallest (solve : EigenSolver) (hsolve : SolverSpec solve) {g : Graph ℝ} (h : g.Reachable)
    (hw : ∀ u v, 0 ≤ g.abs.w u v) (hloop : ∀ v, g.abs.w v v = 0)
    (hd : ∀ v, v < g.n → 0 < g.abs.deg v) (res : EigenPairs)
    (hres : computeEigensystem solve g .normalisedLaplacian 2 .smallest = .ok res) :
    ∃ v₁ l₂ v₂, res = [(0, v₁), (l₂, v₂)] ∧ 0 ≤ l₂ ∧
      IsEigen g.n (matrixOf g.abs .normalisedLaplacian) 0 v₁ ∧
      IsEigen g.n (matrixOf g.abs .normalisedLaplacian) l₂ v₂ ∧
      dot g.n v₁ v₁ = 1 ∧ dot g.n v₂ v₂ = 1 ∧ dot g.n v₁ v₂ = 0 ∧
      ∀ x, dot g.n v₁ x = 0 →
        l₂ * dot g.n x x ≤ quadForm g.n (matrixOf g.abs .normalisedLaplacian) x := by
  have hex := C53_eigensystem solve hsolve h hw _ 2 .smallest (fun _ => hd) res hres
  obtain ⟨v₁, rest, rfl⟩ := C53_smallest_is_zero solve hsolve h hw hloop _ (.inr rfl) 2 (fun _ => hd)
    res hres
  have hc := hex.count
  obtain ⟨q, rfl⟩ : ∃ q, rest = [q] := by
    rw [List.length_cons] at hc
    exact List.length_eq_one_iff.1 (by simpa using hc)
  obtain ⟨l₂, v₂⟩ := q
  have hord : (0 : ℝ) ≤ l₂ := (List.pairwise_cons.1 hex.order).1 (l₂, v₂) (by simp)
  have h12 : dot g.n v₁ v₂ = 0 := (List.pairwise_cons.1 hex.ortho).1 (l₂, v₂) (by simp)
  have e1 := hex.eigen (0, v₁) (by simp)
  have e2 := hex.eigen (l₂, v₂) (by simp)
  refine ⟨v₁, l₂, v₂, rfl, hord, e1, e2, hex.unit (0, v₁) (by simp), hex.unit (l₂, v₂) (by simp), h12, ?_⟩
  intro x hx
  have := variational (fun i _ j _ => matrixOf_symm h .normalisedLaplacian i j) [(0, v₁)]
    (by intro p hp; rw [List.mem_singleton] at hp; subst hp; exact e1) l₂ 1 (by
      intro l v hv hne horth
      rw [one_mul, one_mul]
      by_cases hl : l = l₂
      · exact hl.ge
      · have h2 : dot g.n v₂ v = 0 :=
          eigen_ortho (matrixOf_symm h _) e2 hv (fun e => hl e.symm)
        refine hex.extreme l v hv hne (fun p hp => ?_) (l₂, v₂) (by simp)
        rcases List.mem_cons.1 hp with rfl | hp
        · exact horth _ (by simp)
        · rw [List.mem_singleton] at hp; subst hp; exact h2) x
    (by intro p hp; rw [List.mem_singleton] at hp; subst hp; exact hx)
  linarith

/-- What the cut of `cheeger_cut` is worth whatever vector `v` the solver returned: if `v` is not a
multiple of the square roots of the degrees, the cut is not trivial, and its conductance squared is at
most twice the Rayleigh quotient of the part of `v` orthogonal to them. -/
theorem cheegerCut_quality (solve : EigenSolver) {g : Graph ℝ}
    (h : g.Reachable) (hw : ∀ u v, 0 ≤ g.abs.w u v) (hloop : ∀ v, g.abs.w v v = 0)
    (hd : ∀ v, v < g.n → 0 < g.abs.deg v) (p q : ℝ × (Nat → ℝ)) (rest : EigenPairs)
    (hres : computeEigensystem solve g .normalisedLaplacian 2 .smallest = .ok (p :: q :: rest))
    (v₂ : Nat → ℝ) (hv₂ : v₂ = if q.1 < p.1 then p.2 else q.2) (D : ℝ) (hD : 0 < D)
    (hDv : D = dot g.n v₂ v₂ - dot g.n v₂ (fun i => Real.sqrt (g.abs.deg i)) ^ 2 /
      g.abs.vol (Finset.range g.n)) :
    ∃ labels, cheegerCut solve g = .ok labels ∧
      0 < g.abs.vol (labelSet labels) ∧ 0 < g.abs.vol (Finset.range g.n \ labelSet labels) ∧
      g.abs.phi (labelSet labels) ^ 2 * D ≤
        2 * quadForm g.n (matrixOf g.abs .normalisedLaplacian) v₂ := by
  have hn : 2 < g.n := by
    by_contra hn
    unfold computeEigensystem at hres
    rw [if_pos (by omega)] at hres
    cases hres
  obtain ⟨labels, order, k, c1, c2, c3, c4, c5, c6, c7, c8, c9, c10⟩ :=
    cheegerCut_spec solve h hw _ _ _ hres
  have c6 := c6.imp (fun {i j} hij => le_of_lt_or_eq (hij.imp_right And.left))
  have hperm : order.Perm (List.range g.abs.n) := c5
  simp only [← hv₂] at c6
  have hlen : order.length = g.n := by rw [c5.length_eq, List.length_range]
  have hlt : ∀ j < g.n, order.getD j 0 < g.n := by
    intro j hj
    rw [List.getD_eq_getElem?_getD, List.getElem?_eq_getElem (by omega), Option.getD_some]
    exact List.mem_range.1 (c5.mem_iff.1 (List.getElem_mem _))
  set w' : Nat → Nat → ℝ := fun a b => g.abs.w (order.getD a 0) (order.getD b 0) with hw'
  have hvolpos : ∀ i, 1 ≤ i → i < g.n → 0 < min (g.abs.vol (order.take i).toFinset)
      (g.abs.vol (Finset.range g.n \ (order.take i).toFinset)) := by
    intro i hi1 hi2
    have hnn : ∀ v ∈ Finset.range g.n, 0 < g.abs.deg v := fun v hv => hd v (Finset.mem_range.1 hv)
    apply lt_min
    · apply Finset.sum_pos
      · intro v hv
        exact hd v (List.mem_range.1 (c5.mem_iff.1 (List.mem_of_mem_take (List.mem_toFinset.1 hv))))
      · refine ⟨order.getD 0 0, ?_⟩
        rw [List.mem_toFinset, List.getD_eq_getElem?_getD, List.getElem?_eq_getElem (by omega)]
        exact List.mem_iff_getElem.2 ⟨0, by rw [List.length_take]; omega, by simp⟩
    · apply Finset.sum_pos
      · intro v hv
        exact hnn v (Finset.mem_sdiff.1 hv).1
      · rw [Finset.sdiff_nonempty]
        intro hsub
        have := Finset.card_le_card hsub
        rw [Finset.card_range] at this
        have h2 := List.toFinset_card_le (order.take i)
        rw [List.length_take] at h2
        omega
  have hk : 0 < k := by
    rcases Nat.eq_zero_or_pos k with hk0 | hk
    · have := c8 hk0 1 (by omega)
      exact absurd this (hvolpos 1 (le_refl _) (by omega)).ne'
    · exact hk
  have hmin := c9 hk
  refine ⟨labels, c1, ?_, ?_, ?_⟩
  · rw [c4]; exact lt_of_lt_of_le hmin (min_le_left _ _)
  · rw [c4]; exact lt_of_lt_of_le hmin (min_le_right _ _)
  · rw [c4]
    set φ := g.abs.phi (order.take k).toFinset with hφ
    have hφ0 : 0 ≤ φ := div_nonneg (WGraph.cut_le_vol hw _).1 hmin.le
    set F : Nat → ℝ := fun v => v₂ v / Real.sqrt (g.abs.deg v) with hF
    have hscale : ∀ v < g.n, Real.sqrt (1 / g.abs.deg v) * v₂ v = F v := by
      intro v hv
      rw [Real.sqrt_div (by norm_num), Real.sqrt_one, hF]
      ring
    have hsum2 : ∀ (G : Nat → Nat → ℝ), ∑ a ∈ Finset.range g.n, ∑ b ∈ Finset.range g.n,
        G (order.getD a 0) (order.getD b 0) = ∑ a ∈ Finset.range g.n, ∑ b ∈ Finset.range g.n, G a b := by
      intro G
      have h1 := order_sum hperm (fun a => ∑ b ∈ Finset.range g.n, G a b)
      refine Eq.trans ?_ h1.symm
      apply Finset.sum_congr rfl
      intro a _
      exact (order_sum hperm (fun b => G (order.getD a 0) b)).symm
    have henergy : ∑ a ∈ Finset.range g.n, ∑ b ∈ Finset.range g.n, g.abs.w a b * (F a - F b) ^ 2
        = 2 * quadForm g.n (matrixOf g.abs .normalisedLaplacian) v₂ := by
      rw [hF, ← quadForm_norm h hloop hd v₂]
    set Q := quadForm g.n (matrixOf g.abs .normalisedLaplacian) v₂ with hQ
    have hQ0 : 0 ≤ Q := by
      have : 0 ≤ 2 * Q := by
        rw [← henergy]
        exact Finset.sum_nonneg fun a _ => Finset.sum_nonneg fun b _ => mul_nonneg (hw a b) (sq_nonneg _)
      linarith
    have hmass : ∑ a ∈ Finset.range g.n, g.abs.deg a * F a ^ 2 = dot g.n v₂ v₂ := by
      rw [hF, ← dot_scaled hd]
    have hmean : ∑ a ∈ Finset.range g.n, g.abs.deg a * F a
        = dot g.n v₂ (fun i => Real.sqrt (g.abs.deg i)) := by
      rw [hF, ← dot_scaled_root hd]
    have hvolnn : 0 < g.abs.vol (Finset.range g.n) :=
      Finset.sum_pos (fun a ha => hd a (Finset.mem_range.1 ha)) ⟨0, Finset.mem_range.2 (by omega)⟩
    have hcentre : ∀ c, D ≤ ∑ a ∈ Finset.range g.n,
        Cheeger.dg g.n w' a * (F (order.getD a 0) - c) ^ 2 := by
      intro c
      have e : ∑ a ∈ Finset.range g.n, Cheeger.dg g.n w' a * (F (order.getD a 0) - c) ^ 2
          = ∑ a ∈ Finset.range g.n, g.abs.deg a * (F a - c) ^ 2 := by
        have h1 := order_sum hperm (fun a => g.abs.deg a * (F a - c) ^ 2)
        refine Eq.trans ?_ h1.symm
        apply Finset.sum_congr rfl
        intro a _
        have := order_deg hperm hloop a
        change Cheeger.dg g.n w' a = _ at this
        rw [this]
      have e2 : ∑ a ∈ Finset.range g.n, g.abs.deg a * (F a - c) ^ 2
          = ∑ a ∈ Finset.range g.n, g.abs.deg a * F a ^ 2
            - 2 * c * ∑ a ∈ Finset.range g.n, g.abs.deg a * F a
            + c ^ 2 * ∑ a ∈ Finset.range g.n, g.abs.deg a := by
        rw [Finset.mul_sum, Finset.mul_sum, ← Finset.sum_sub_distrib, ← Finset.sum_add_distrib]
        exact Finset.sum_congr rfl (fun a _ => by ring)
      rw [e, e2, hmass, hmean, hDv]
      change _ ≤ _ + c ^ 2 * g.abs.vol (Finset.range g.n)
      set V := g.abs.vol (Finset.range g.n)
      set m := dot g.n v₂ (fun i => Real.sqrt (g.abs.deg i))
      have : 0 ≤ V * (c - m / V) ^ 2 := by positivity
      have e3 : V * (c - m / V) ^ 2 = c ^ 2 * V - 2 * c * m + m ^ 2 / V := by
        field_simp
        ring
      linarith
    have key := Cheeger.sweep_bound (n := g.n) (w := w') (by omega)
      (fun a b => h.valid.symm _ _) (fun a b => hw _ _) (fun a => F (order.getD a 0)) (by
        intro j hj
        have := (List.pairwise_iff_getElem.1 c6) j (j + 1) (by omega) (by omega) (by omega)
        rw [List.getD_eq_getElem?_getD, List.getD_eq_getElem?_getD,
          List.getElem?_eq_getElem (by omega), List.getElem?_eq_getElem (by omega),
          Option.getD_some, Option.getD_some]
        rw [hscale _ (List.mem_range.1 (c5.mem_iff.1 (List.getElem_mem _))),
          hscale _ (List.mem_range.1 (c5.mem_iff.1 (List.getElem_mem _)))] at this
        exact this) (Q / D) φ hφ0 (by
        intro j hj1 hj2
        have h1 := c10 hk j hj2.le (hvolpos j hj1 hj2)
        have h2 : g.abs.phi (order.take j).toFinset = g.abs.cut (order.take j).toFinset /
          min (g.abs.vol (order.take j).toFinset)
            (g.abs.vol (Finset.range g.n \ (order.take j).toFinset)) := rfl
        rw [h2, le_div_iff₀ (hvolpos j hj1 hj2)] at h1
        have v1 := order_vol hperm hloop j hj2.le
        have v2 := order_vol_compl hperm hloop j hj2.le
        have v3 := order_cut hperm j hj2.le
        change g.abs.vol (Finset.range g.n \ _) = Cheeger.volp g.n w' g.n - Cheeger.volp g.n w' j at v2
        change _ = Cheeger.volp g.n w' j at v1
        change _ = Cheeger.cutp g.n w' j at v3
        rw [v1, v2, v3] at h1
        exact h1) (by
        intro c
        have := hsum2 (fun a b => g.abs.w a b * (F a - F b) ^ 2)
        rw [henergy] at this
        refine le_trans (le_of_eq this) ?_
        rw [show 2 * Q = 2 * (Q / D) * D by field_simp]
        exact mul_le_mul_of_nonneg_left (hcentre c) (by positivity))
      (fun c => lt_of_lt_of_le hD (hcentre c))
    calc φ ^ 2 * D ≤ 2 * (Q / D) * D := mul_le_mul_of_nonneg_right key hD.le
      _ = 2 * Q := by field_simp

/-- **C61** (upper bound).  For every graph with non-negative weights, no self-loops and no isolated
vertices: if the second smallest eigenvalue `l₂` of the normalised Laplacian is positive, the cut
returned by `cheeger_cut` is not trivial and its conductance is at most `√(2 l₂)`. -/
theorem C61_upper_bound (solve : EigenSolver) (hsolve : SolverSpec solve) {g : Graph ℝ}
    (h : g.Reachable) (hw : ∀ u v, 0 ≤ g.abs.w u v) (hloop : ∀ v, g.abs.w v v = 0)
    (hd : ∀ v, v < g.n → 0 < g.abs.deg v) (l₁ l₂ : ℝ)
    (hl : computeEigenvalues solve g .normalisedLaplacian 2 .smallest = .ok [l₁, l₂]) (hpos : 0 < l₂) :
    ∃ labels, cheegerCut solve g = .ok labels ∧
      0 < g.abs.vol (labelSet labels) ∧ 0 < g.abs.vol (Finset.range g.n \ labelSet labels) ∧
      g.abs.phi (labelSet labels) ≤ Real.sqrt (2 * l₂) := by
  unfold computeEigenvalues at hl
  cases hres : computeEigensystem solve g .normalisedLaplacian 2 .smallest with
  | ub => rw [hres] at hl; cases hl
  | throw e => rw [hres] at hl; cases hl
  | ok res =>
    obtain ⟨v₁, l₂', v₂, rfl, h0, e1, e2, u1, u2, o12, -⟩ :=
      two_smallest solve hsolve h hw hloop hd res hres
    rw [hres] at hl
    simp only [Outcome.bind, List.map_cons, List.map_nil, Outcome.ok.injEq, List.cons.injEq,
      and_true] at hl
    obtain ⟨-, rfl⟩ := hl
    have horth : dot g.n v₂ (fun i => Real.sqrt (g.abs.deg i)) = 0 :=
      eigen_ortho (matrixOf_symm h _) e2 (zero_eigen hloop hd) hpos.ne'
    obtain ⟨labels, c1, c2, c3, c4⟩ := cheegerCut_quality solve h hw hloop hd _ _ _ hres v₂
      (by rw [if_neg (not_lt.2 h0)]) 1 one_pos (by rw [u2, horth]; norm_num)
    refine ⟨labels, c1, c2, c3, ?_⟩
    rw [mul_one, quadForm_eigen e2, u2, mul_one] at c4
    exact Real.le_sqrt_of_sq_le c4

/-- **C61** (lower bound).  No cut does better than half the second eigenvalue. -/
theorem C61_lower_bound (solve : EigenSolver) (hsolve : SolverSpec solve) {g : Graph ℝ}
    (h : g.Reachable) (hw : ∀ u v, 0 ≤ g.abs.w u v) (hloop : ∀ v, g.abs.w v v = 0)
    (hd : ∀ v, v < g.n → 0 < g.abs.deg v) (l₁ l₂ : ℝ)
    (hl : computeEigenvalues solve g .normalisedLaplacian 2 .smallest = .ok [l₁, l₂])
    (T : Finset Nat) (hT : T ⊆ Finset.range g.n) (hT1 : T.Nonempty) (hT2 : T ≠ Finset.range g.n) :
    l₂ / 2 ≤ g.abs.phi T := by
  unfold computeEigenvalues at hl
  cases hres : computeEigensystem solve g .normalisedLaplacian 2 .smallest with
  | ub => rw [hres] at hl; cases hl
  | throw e => rw [hres] at hl; cases hl
  | ok res =>
    have hn : 2 < g.n := by
      by_contra hn
      unfold computeEigensystem at hres
      rw [if_pos (by omega)] at hres
      cases hres
    have hex := C53_eigensystem solve hsolve h hw _ 2 .smallest (fun _ => hd) res hres
    obtain ⟨v₁, l₂', v₂, rfl, h0, e1, e2, u1, u2, o12, hvar⟩ :=
      two_smallest solve hsolve h hw hloop hd res hres
    rw [hres] at hl
    simp only [Outcome.bind, List.map_cons, List.map_nil, Outcome.ok.injEq, List.cons.injEq,
      and_true] at hl
    obtain ⟨-, rfl⟩ := hl
    set Tc := Finset.range g.n \ T with hTc
    have ha : 0 < g.abs.vol T := Finset.sum_pos (fun v hv => hd v (Finset.mem_range.1 (hT hv))) hT1
    have hb : 0 < g.abs.vol Tc := by
      apply Finset.sum_pos (fun v hv => hd v (Finset.mem_range.1 (Finset.mem_sdiff.1 hv).1))
      rw [Finset.sdiff_nonempty]
      intro hsub
      exact hT2 (Finset.Subset.antisymm hT hsub)
    have hphi0 : 0 ≤ g.abs.phi T := div_nonneg (WGraph.cut_le_vol hw _).1 (le_min ha.le hb.le)
    rcases eq_or_lt_of_le h0 with h0 | hpos
    · rw [← h0, zero_div]; exact hphi0
    set u : Nat → ℝ := fun i => Real.sqrt (g.abs.deg i) with hu
    have hue := zero_eigen hloop hd
    -- the first eigenvector is proportional to u
    have hpar : ∀ i < g.n, u i = dot g.n v₁ u * v₁ i := by
      by_contra hno
      push Not at hno
      obtain ⟨i, hi, hne⟩ := hno
      set z : Nat → ℝ := fun i => u i - dot g.n v₁ u * v₁ i with hz
      have hze : IsEigen g.n (matrixOf g.abs .normalisedLaplacian) 0 z := by
        intro j hj
        have h1 := hue j hj
        have h2 := e1 j hj
        simp only [hz]
        rw [zero_mul] at h1 h2 ⊢
        have : ∀ t ∈ Finset.range g.n, matrixOf g.abs .normalisedLaplacian j t *
            (u t - dot g.n v₁ u * v₁ t) = matrixOf g.abs .normalisedLaplacian j t * u t
            - dot g.n v₁ u * (matrixOf g.abs .normalisedLaplacian j t * v₁ t) := by
          intro t _; ring
        rw [Finset.sum_congr rfl this, Finset.sum_sub_distrib, ← Finset.mul_sum, h2]
        simp only [hu]
        rw [h1]; ring
      have hz1 : dot g.n v₁ z = 0 := by
        have : dot g.n v₁ z = dot g.n v₁ u - dot g.n v₁ u * dot g.n v₁ v₁ := by
          simp only [hz, dot]
          rw [Finset.mul_sum, ← Finset.sum_sub_distrib]
          exact Finset.sum_congr rfl (fun i _ => by ring)
        rw [this, u1]; ring
      have hz2 : dot g.n v₂ z = 0 := eigen_ortho (matrixOf_symm h _) e2 hze hpos.ne'
      have := hex.extreme 0 z hze ⟨i, hi, sub_ne_zero.2 hne⟩ (fun p hp => by
        rcases List.mem_cons.1 hp with rfl | hp
        · exact hz1
        · rw [List.mem_singleton] at hp; subst hp; exact hz2) (l₂', v₂) (by simp)
      simp only [EigenSortRule.before] at this
      linarith
    have hc0 : dot g.n v₁ u ≠ 0 := by
      intro hc
      have := hpar 0 (by omega)
      rw [hc, zero_mul] at this
      exact (Real.sqrt_pos.2 (hd 0 (by omega))).ne' this
    -- the test vector
    set H : Nat → ℝ := fun i => if i ∈ T then 1 / g.abs.vol T else -(1 / g.abs.vol Tc) with hH
    set x : Nat → ℝ := fun i => H i * u i with hx
    have hdiv : ∀ i < g.n, x i / Real.sqrt (g.abs.deg i) = H i := by
      intro i hi
      simp only [hx, hu]
      rw [mul_div_assoc, div_self (Real.sqrt_pos.2 (hd i hi)).ne', mul_one]
    have hsplit : ∀ G : Nat → ℝ, ∑ i ∈ Finset.range g.n, G i = ∑ i ∈ T, G i + ∑ i ∈ Tc, G i := by
      intro G
      rw [hTc, add_comm, Finset.sum_sdiff hT]
    have hHT : ∀ i ∈ T, H i = 1 / g.abs.vol T := fun i hi => by simp only [hH]; rw [if_pos hi]
    have hHTc : ∀ i ∈ Tc, H i = -(1 / g.abs.vol Tc) := fun i hi => by
      simp only [hH]; rw [if_neg (Finset.mem_sdiff.1 hi).2]
    have hxu : dot g.n x u = 0 := by
      rw [hu, dot_scaled_root hd]
      have : ∀ i ∈ Finset.range g.n, g.abs.deg i * (x i / Real.sqrt (g.abs.deg i)) = g.abs.deg i * H i :=
        fun i hi => by rw [hdiv i (Finset.mem_range.1 hi)]
      rw [Finset.sum_congr rfl this, hsplit, Finset.sum_congr rfl (fun i hi => by rw [hHT i hi]),
        Finset.sum_congr (s₂ := Tc) rfl (fun i hi => by rw [hHTc i hi]), ← Finset.sum_mul, ← Finset.sum_mul]
      change g.abs.vol T * _ + g.abs.vol Tc * _ = 0
      field_simp
      ring
    have hxv : dot g.n v₁ x = 0 := by
      have : dot g.n x u = dot g.n v₁ u * dot g.n x v₁ := by
        unfold dot
        rw [Finset.mul_sum]
        apply Finset.sum_congr rfl
        intro i hi
        have := hpar i (Finset.mem_range.1 hi)
        unfold dot at this
        rw [this]; ring
      rw [hxu] at this
      rw [dot_comm]
      exact (mul_eq_zero.1 this.symm).resolve_left hc0
    have hxx : dot g.n x x = 1 / g.abs.vol T + 1 / g.abs.vol Tc := by
      rw [dot_scaled hd]
      have : ∀ i ∈ Finset.range g.n, g.abs.deg i * (x i / Real.sqrt (g.abs.deg i)) ^ 2
          = g.abs.deg i * H i ^ 2 := fun i hi => by rw [hdiv i (Finset.mem_range.1 hi)]
      rw [Finset.sum_congr rfl this, hsplit, Finset.sum_congr rfl (fun i hi => by rw [hHT i hi]),
        Finset.sum_congr (s₂ := Tc) rfl (fun i hi => by rw [hHTc i hi]), ← Finset.sum_mul, ← Finset.sum_mul]
      change g.abs.vol T * _ + g.abs.vol Tc * _ = _
      field_simp
    have hq : quadForm g.n (matrixOf g.abs .normalisedLaplacian) x
        = g.abs.cut T * (1 / g.abs.vol T + 1 / g.abs.vol Tc) ^ 2 := by
      have h2 := quadForm_norm h hloop hd x
      have e : ∀ a ∈ Finset.range g.n, ∀ b ∈ Finset.range g.n,
          g.abs.w a b * (x a / Real.sqrt (g.abs.deg a) - x b / Real.sqrt (g.abs.deg b)) ^ 2
          = g.abs.w a b * (H a - H b) ^ 2 := by
        intro a ha b hb
        rw [hdiv a (Finset.mem_range.1 ha), hdiv b (Finset.mem_range.1 hb)]
      rw [Finset.sum_congr rfl (fun a ha => Finset.sum_congr rfl (fun b hb => e a ha b hb))] at h2
      have hTT : ∀ a ∈ T, ∑ b ∈ Finset.range g.n, g.abs.w a b * (H a - H b) ^ 2
          = ∑ b ∈ Tc, g.abs.w a b * (1 / g.abs.vol T + 1 / g.abs.vol Tc) ^ 2 := by
        intro a ha
        rw [hsplit, Finset.sum_eq_zero (fun b hb => by rw [hHT a ha, hHT b hb]; ring), zero_add]
        exact Finset.sum_congr rfl (fun b hb => by rw [hHT a ha, hHTc b hb]; ring)
      have hTTc : ∀ a ∈ Tc, ∑ b ∈ Finset.range g.n, g.abs.w a b * (H a - H b) ^ 2
          = ∑ b ∈ T, g.abs.w a b * (1 / g.abs.vol T + 1 / g.abs.vol Tc) ^ 2 := by
        intro a ha
        rw [hsplit, Finset.sum_eq_zero (s := Tc) (fun b hb => by rw [hHTc a ha, hHTc b hb]; ring),
          add_zero]
        exact Finset.sum_congr rfl (fun b hb => by rw [hHTc a ha, hHT b hb]; ring)
      rw [hsplit, Finset.sum_congr rfl hTT, Finset.sum_congr (s₂ := Tc) rfl hTTc,
        Finset.sum_comm (s := Tc)] at h2
      have e3 : ∑ b ∈ T, ∑ a ∈ Tc, g.abs.w a b * (1 / g.abs.vol T + 1 / g.abs.vol Tc) ^ 2
          = ∑ a ∈ T, ∑ b ∈ Tc, g.abs.w a b * (1 / g.abs.vol T + 1 / g.abs.vol Tc) ^ 2 :=
        Finset.sum_congr rfl (fun b _ => Finset.sum_congr rfl (fun a _ => by
          have := h.valid.symm a b
          change g.abs.w a b = g.abs.w b a at this
          rw [this]))
      have e4 : ∑ a ∈ T, ∑ b ∈ Tc, g.abs.w a b * (1 / g.abs.vol T + 1 / g.abs.vol Tc) ^ 2
          = g.abs.cut T * (1 / g.abs.vol T + 1 / g.abs.vol Tc) ^ 2 := by
        have : g.abs.cut T = ∑ a ∈ T, ∑ b ∈ Tc, g.abs.w a b := rfl
        rw [this, Finset.sum_mul]
        exact Finset.sum_congr rfl (fun a _ => by rw [Finset.sum_mul])
      rw [e3, e4] at h2
      linarith
    have hfin := hvar x hxv
    rw [hxx, hq] at hfin
    set r := 1 / g.abs.vol T + 1 / g.abs.vol Tc with hr
    have hrpos : 0 < r := by positivity
    have h5 : l₂' ≤ g.abs.cut T * r := by
      have : l₂' * r ≤ (g.abs.cut T * r) * r := by nlinarith [hfin]
      exact le_of_mul_le_mul_right this hrpos
    have hmin : 0 < min (g.abs.vol T) (g.abs.vol Tc) := lt_min ha hb
    have h6 : r ≤ 2 / min (g.abs.vol T) (g.abs.vol Tc) := by
      have h7 : 1 / g.abs.vol T ≤ 1 / min (g.abs.vol T) (g.abs.vol Tc) :=
        one_div_le_one_div_of_le hmin (min_le_left _ _)
      have h8 : 1 / g.abs.vol Tc ≤ 1 / min (g.abs.vol T) (g.abs.vol Tc) :=
        one_div_le_one_div_of_le hmin (min_le_right _ _)
      have h9 : 2 / min (g.abs.vol T) (g.abs.vol Tc) = 1 / min (g.abs.vol T) (g.abs.vol Tc)
        + 1 / min (g.abs.vol T) (g.abs.vol Tc) := by ring
      rw [h9, hr]
      linarith
    have h10 : g.abs.cut T * r ≤ g.abs.cut T * (2 / min (g.abs.vol T) (g.abs.vol Tc)) :=
      mul_le_mul_of_nonneg_left h6 (WGraph.cut_le_vol hw _).1
    have h11 : g.abs.phi T = g.abs.cut T / min (g.abs.vol T) (g.abs.vol Tc) := rfl
    rw [h11]
    have h12 : g.abs.cut T * (2 / min (g.abs.vol T) (g.abs.vol Tc))
      = 2 * (g.abs.cut T / min (g.abs.vol T) (g.abs.vol Tc)) := by ring
    linarith

/-- **C61** (connected graphs).  In a connected graph the second eigenvalue is positive. -/
theorem C61_connected (solve : EigenSolver) (hsolve : SolverSpec solve) {g : Graph ℝ}
    (h : g.Reachable) (hw : ∀ u v, 0 ≤ g.abs.w u v) (hloop : ∀ v, g.abs.w v v = 0)
    (hd : ∀ v, v < g.n → 0 < g.abs.deg v) (l₁ l₂ : ℝ)
    (hl : computeEigenvalues solve g .normalisedLaplacian 2 .smallest = .ok [l₁, l₂])
    (hconn : ∀ u < g.n, ∀ v < g.n, g.abs.Connected u v) : 0 < l₂ := by
  unfold computeEigenvalues at hl
  cases hres : computeEigensystem solve g .normalisedLaplacian 2 .smallest with
  | ub => rw [hres] at hl; cases hl
  | throw e => rw [hres] at hl; cases hl
  | ok res =>
    have hn : 2 < g.n := by
      by_contra hn
      unfold computeEigensystem at hres
      rw [if_pos (by omega)] at hres
      cases hres
    obtain ⟨v₁, l₂', v₂, rfl, h0, e1, e2, u1, u2, o12, -⟩ :=
      two_smallest solve hsolve h hw hloop hd res hres
    rw [hres] at hl
    simp only [Outcome.bind, List.map_cons, List.map_nil, Outcome.ok.injEq, List.cons.injEq,
      and_true] at hl
    obtain ⟨-, rfl⟩ := hl
    rcases eq_or_lt_of_le h0 with h0 | hpos
    · exfalso
      rw [← h0] at e2
      -- kernel vectors are multiples of the square roots of the degrees
      have hker : ∀ v, IsEigen g.n (matrixOf g.abs .normalisedLaplacian) 0 v →
          ∃ c, ∀ i < g.n, v i = c * Real.sqrt (g.abs.deg i) := by
        intro v hv
        have hq := quadForm_norm h hloop hd v
        rw [quadForm_eigen hv, zero_mul, mul_zero] at hq
        set F : Nat → ℝ := fun a => v a / Real.sqrt (g.abs.deg a) with hF
        have hterm : ∀ a ∈ Finset.range g.n, ∀ b ∈ Finset.range g.n,
            g.abs.w a b * (F a - F b) ^ 2 = 0 := by
          intro a ha b hb
          have h1 := (Finset.sum_eq_zero_iff_of_nonneg (fun a _ => Finset.sum_nonneg (fun b _ =>
            mul_nonneg (hw a b) (sq_nonneg (F a - F b))))).1 hq.symm a ha
          exact (Finset.sum_eq_zero_iff_of_nonneg (fun b _ =>
            mul_nonneg (hw a b) (sq_nonneg (F a - F b)))).1 h1 b hb
        refine ⟨F 0, fun i hi => ?_⟩
        have hFi : F i = F 0 := by
          have := hconn 0 (by omega) i hi
          induction this with
          | refl => rfl
          | step hr hadj ih =>
            obtain ⟨a1, a2, a3⟩ := hadj
            have := (mul_eq_zero.1 (hterm _ (Finset.mem_range.2 a1) _ (Finset.mem_range.2 a2))).resolve_left a3
            have := sub_eq_zero.1 (pow_eq_zero_iff (two_ne_zero)|>.1 this)
            rw [← this]
            exact ih a1
        rw [← hFi, hF]
        simp only
        rw [div_mul_cancel₀ _ (Real.sqrt_pos.2 (hd i hi)).ne']
      obtain ⟨c1, hc1⟩ := hker v₁ e1
      obtain ⟨c2, hc2⟩ := hker v₂ e2
      have hT : ∀ (x y : Nat → ℝ) (a b : ℝ), (∀ i < g.n, x i = a * Real.sqrt (g.abs.deg i)) →
          (∀ i < g.n, y i = b * Real.sqrt (g.abs.deg i)) →
          dot g.n x y = a * b * ∑ i ∈ Finset.range g.n, g.abs.deg i := by
        intro x y a b hx hy
        unfold dot
        rw [Finset.mul_sum]
        apply Finset.sum_congr rfl
        intro i hi
        have hi' := Finset.mem_range.1 hi
        rw [hx i hi', hy i hi']
        have := Real.mul_self_sqrt (hd i hi').le
        linear_combination a * b * this
      rw [hT _ _ _ _ hc1 hc1] at u1
      rw [hT _ _ _ _ hc2 hc2] at u2
      rw [hT _ _ _ _ hc1 hc2] at o12
      have : (c1 * c1 * ∑ i ∈ Finset.range g.n, g.abs.deg i) *
          (c2 * c2 * ∑ i ∈ Finset.range g.n, g.abs.deg i) = 0 := by
        linear_combination (c1 * c2 * ∑ i ∈ Finset.range g.n, g.abs.deg i) * o12
      rw [u1, u2] at this
      norm_num at this
    · exact hpos

/-- **C61** (labels).  Whatever the solver answers: one label 0 or 1 for each vertex; a graph with at
most two vertices is refused. -/
theorem C61_labels (solve : EigenSolver) {g : Graph ℝ} (h : g.Reachable)
    (hw : ∀ u v, 0 ≤ g.abs.w u v) :
    (g.n ≤ 2 → cheegerCut solve g = .throw .invalidArgument) ∧
    ∀ labels, cheegerCut solve g = .ok labels →
      2 < g.n ∧ labels.length = g.n ∧ ∀ x ∈ labels, x = 0 ∨ x = 1 := by
  have hsmall : g.n ≤ 2 → cheegerCut solve g = .throw .invalidArgument := by
    intro hn
    unfold cheegerCut computeEigensystem
    rw [if_pos (by omega)]
    rfl
  refine ⟨hsmall, fun labels hl => ?_⟩
  have hn : 2 < g.n := by
    by_contra hn
    rw [hsmall (by omega)] at hl
    cases hl
  cases hres : computeEigensystem solve g .normalisedLaplacian 2 .smallest with
  | ub => simp [cheegerCut, hres, Bind.bind, Outcome.bind] at hl
  | throw e => simp [cheegerCut, hres, Bind.bind, Outcome.bind] at hl
  | ok res =>
    match res with
    | [] => simp [cheegerCut, hres, Bind.bind, Outcome.bind] at hl
    | [_] => simp [cheegerCut, hres, Bind.bind, Outcome.bind] at hl
    | p :: q :: rest =>
      obtain ⟨labels', order, k, c1, c2, c3, -⟩ := cheegerCut_spec solve h hw p q rest hres
      rw [c1] at hl
      cases hl
      exact ⟨hn, c2, c3⟩

/-- **C61**.  On a connected graph with non-negative weights, no self-loops and no isolated vertices,
`cheeger_cut` returns a non-trivial cut, and no other cut has a conductance below
the square of half of its conductance. -/
theorem C61_cheeger (solve : EigenSolver) (hsolve : SolverSpec solve) {g : Graph ℝ}
    (h : g.Reachable) (hw : ∀ u v, 0 ≤ g.abs.w u v) (hloop : ∀ v, g.abs.w v v = 0)
    (hd : ∀ v, v < g.n → 0 < g.abs.deg v) (hconn : ∀ u < g.n, ∀ v < g.n, g.abs.Connected u v)
    (l₁ l₂ : ℝ)
    (hl : computeEigenvalues solve g .normalisedLaplacian 2 .smallest = .ok [l₁, l₂]) :
    ∃ labels, cheegerCut solve g = .ok labels ∧ labels.length = g.n ∧
      (labelSet labels).Nonempty ∧ labelSet labels ≠ Finset.range g.n ∧
      g.abs.phi (labelSet labels) ≤ Real.sqrt (2 * l₂) ∧
      ∀ T, T ⊆ Finset.range g.n → T.Nonempty → T ≠ Finset.range g.n →
        l₂ / 2 ≤ g.abs.phi T ∧ g.abs.phi (labelSet labels) ≤ 2 * Real.sqrt (g.abs.phi T) := by
  have hpos := C61_connected solve hsolve h hw hloop hd l₁ l₂ hl hconn
  obtain ⟨labels, c1, c2, c3, c4⟩ := C61_upper_bound solve hsolve h hw hloop hd l₁ l₂ hl hpos
  refine ⟨labels, c1, ((C61_labels solve h hw).2 labels c1).2.1, ?_, ?_, c4, ?_⟩
  · by_contra hne
    rw [Finset.not_nonempty_iff_eq_empty] at hne
    rw [hne] at c2
    simp [WGraph.vol] at c2
  · intro heq
    rw [heq, Finset.sdiff_self] at c3
    simp [WGraph.vol] at c3
  · intro T hT hT1 hT2
    have hlow := C61_lower_bound solve hsolve h hw hloop hd l₁ l₂ hl T hT hT1 hT2
    refine ⟨hlow, le_trans c4 ?_⟩
    have h4 : (2 : ℝ) = Real.sqrt 4 := by
      rw [show (4 : ℝ) = 2 ^ 2 by norm_num, Real.sqrt_sq (by norm_num)]
    rw [show (2 : ℝ) * Real.sqrt (g.abs.phi T) = Real.sqrt 4 * Real.sqrt (g.abs.phi T) by rw [← h4],
      ← Real.sqrt_mul (by norm_num)]
    exact Real.sqrt_le_sqrt (by linarith)

end Stag
