import Verif.Props.AsgCuts
import Verif.ComponentsMath
import Verif.Props.Components

/-!
# C98: the connected components of the graph returned by `approximate_similarity_graph`
-/

open MeasureTheory ProbabilityTheory Finset Real
open scoped ENNReal

namespace Stag

variable {Θ : Type} [MeasurableSpace Θ] {μ : Measure Θ}
variable {data : Mat ℝ} {a : ℝ} {est : Nat → Nat → List ℝ → ℝ} {cutoff : Nat} {tree : KdeTree} {L : Nat → Θ → List Int}

/-- In a leaf the probability of a row is at most its kernel value over the estimated degree. -/
theorem leaf_rowProb_le (hn : 2 ≤ data.rows) (hc : data.rows ≤ cutoff)
    (htree : tree = KdeTree.build est cutoff 0 0 (data.rows - 1) 0) (u : Nat) {j : Nat} (hj : j < data.rows) :
    tree.rowProb data a (data.row u) j ≤ kernelRow data a (data.row u) j / tree.weight data a (data.row u) := by
  have hpos := draws_weight_pos (a := a) hn (.inl hc) htree
  have h := (leaf_missing hn hc htree hpos u {j} (by simpa using hj)).1
  rw [sum_singleton] at h
  rw [le_div_iff₀ (hpos u)]
  linarith

/-- The probability that row `u` draws row `j`. -/
theorem draws_mem_le (hn : 2 ≤ data.rows) (hc : data.rows ≤ cutoff)
    (htree : tree = KdeTree.build est cutoff 0 0 (data.rows - 1) 0) (hL : IndependentDraws μ data a tree L)
    {u j : Nat} (hu : u < data.rows) (hj : j < data.rows) :
    μ {θ | (j : Int) ∈ L u θ} ≤ ENNReal.ofReal (4 * kernelRow data a (data.row u) j) := by
  obtain ⟨hnn, -, p, hp, hexp⟩ := draws_expect hn (.inl hc) htree hL hu
  let _ : MeasurableSpace (List Int) := ⊤
  have hm : Measurable (L u) := measurable_list (hL.measurable u hu)
  have h1 : μ {θ | (j : Int) ∈ L u θ} ≤ ∫⁻ θ, ((L u θ : Multiset Int).count (j : Int) : ℝ≥0∞) ∂μ := by
    refine meas_le_lintegral₀ ?_ fun θ hθ => ?_
    · exact ((measurable_from_top (f := fun l : List Int => ((l : Multiset Int).count (j : Int) : ℝ≥0∞))).comp hm).aemeasurable
    · rw [Set.mem_ofPred_eq] at hθ
      have : 1 ≤ (L u θ : Multiset Int).count (j : Int) := Multiset.one_le_count_iff_mem.2 (by simpa using hθ)
      exact_mod_cast this
  rw [hexp fun M => (M.count (j : Int) : ℝ≥0∞), expect_count, hp, if_pos (by omega), Int.toNat_natCast] at h1
  refine le_trans h1 ?_
  rw [← ENNReal.ofReal_natCast, ← ENNReal.ofReal_mul (by norm_num)]
  apply ENNReal.ofReal_le_ofReal
  have h2 := leaf_rowProb_le (a := a) hn hc htree u hj
  have h3 := leaf_weight_big (a := a) hn hc htree hu
  have h4 := kernelRow_pos data a (data.row u) j
  have h5 : kernelRow data a (data.row u) j / tree.weight data a (data.row u) ≤ 2 * kernelRow data a (data.row u) j := by
    rw [div_le_iff₀ (by linarith)]
    nlinarith
  push_cast
  linarith

/-- All elements of a list of samples are rows of `D`. -/
def DrawnFrom (D : Finset Nat) (l : List Int) : Prop := ∀ x ∈ l, 0 ≤ x ∧ x.toNat ∈ D

/-- The probability that all samples of row `u` lie in `D`. -/
theorem draws_inside_le (hn : 2 ≤ data.rows) (hc : AsgOk data est cutoff)
    (htree : tree = KdeTree.build est cutoff 0 0 (data.rows - 1) 0) (hL : IndependentDraws μ data a tree L)
    {u : Nat} (hu : u < data.rows) (D : Finset Nat) :
    μ {θ | DrawnFrom D (L u θ)} ≤ ENNReal.ofReal ((∑ j ∈ D, tree.rowProb data a (data.row u) j) ^ 2) := by
  classical
  obtain ⟨hnn, -, p, hp, hexp⟩ := draws_expect hn hc htree hL hu
  obtain ⟨g, hg⟩ : ∃ g : Int → ℝ≥0∞, g = fun x => if 0 ≤ x ∧ x.toNat ∈ D then 1 else 0 := ⟨_, rfl⟩
  let _ : MeasurableSpace (List Int) := ⊤
  have hm : Measurable (L u) := measurable_list (hL.measurable u hu)
  have h1 : μ {θ | DrawnFrom D (L u θ)} ≤ ∫⁻ θ, ((L u θ : Multiset Int).map g).prod ∂μ := by
    refine meas_le_lintegral₀ ?_ fun θ hθ => ?_
    · exact ((measurable_from_top (f := fun l : List Int => ((l : Multiset Int).map g).prod)).comp hm).aemeasurable
    · have : ∀ x ∈ L u θ, g x = 1 := fun x hx => by rw [hg]; exact if_pos (hθ x hx)
      rw [Multiset.map_coe, Multiset.prod_coe, List.map_congr_left this]
      simp
  rw [hexp fun M => (M.map g).prod, expect_prod] at h1
  refine le_trans h1 (le_of_eq ?_)
  rw [ENNReal.ofReal_pow (sum_nonneg fun j _ => hnn j)]
  congr 1
  have hcast : Set.InjOn (fun j : Nat => (j : Int)) D := fun x _ y _ e => by simpa using e
  unfold PMF.expect
  rw [tsum_eq_sum (s := D.image fun j : Nat => (j : Int)), sum_image hcast, ENNReal.ofReal_sum_of_nonneg fun j _ => hnn j]
  · refine sum_congr rfl fun j hj => ?_
    rw [hp, if_pos (by omega), Int.toNat_natCast, hg]
    simp [hj]
  · intro x hx
    rw [hg]
    beta_reduce
    rw [if_neg, mul_zero]
    rintro ⟨h0, h1⟩
    exact hx (mem_image.2 ⟨x.toNat, h1, by omega⟩)

/-- Several rows at once. -/
theorem draws_inside_all [IsProbabilityMeasure μ] (hn : 2 ≤ data.rows) (hc : AsgOk data est cutoff)
    (htree : tree = KdeTree.build est cutoff 0 0 (data.rows - 1) 0) (hL : IndependentDraws μ data a tree L)
    (U : Finset Nat) (hU : U ⊆ range data.rows) (D : Nat → Finset Nat) :
    μ {θ | ∀ u ∈ U, DrawnFrom (D u) (L u θ)} ≤
      ENNReal.ofReal (∏ u ∈ U, (∑ j ∈ D u, tree.rowProb data a (data.row u) j) ^ 2) := by
  classical
  let _ : MeasurableSpace (List Int) := ⊤
  have h := hL.independent.measure_inter_preimage_eq_mul univ
    (sets := fun v : Fin data.rows => {l : List Int | (v : Nat) ∈ U → DrawnFrom (D v) l}) fun v _ => trivial
  have e : {θ | ∀ u ∈ U, DrawnFrom (D u) (L u θ)}
      = ⋂ v ∈ (univ : Finset (Fin data.rows)), (fun θ => L v θ) ⁻¹' {l : List Int | (v : Nat) ∈ U → DrawnFrom (D v) l} := by
    ext θ
    simp only [Set.mem_ofPred_eq, Set.mem_iInter, Set.mem_preimage, mem_univ, true_implies]
    constructor
    · exact fun h v hv => h v hv
    · exact fun h u hu => h ⟨u, mem_range.1 (hU hu)⟩ hu
  rw [e]
  refine le_trans (le_of_eq h) ?_
  have hnn : ∀ u < data.rows, ∀ j, 0 ≤ tree.rowProb data a (data.row u) j :=
    fun u hu => (draws_expect hn hc htree hL hu).1
  have hone : ∀ v ∈ (univ : Finset (Fin data.rows)),
      μ ((fun θ => L v θ) ⁻¹' {l : List Int | (v : Nat) ∈ U → DrawnFrom (D v) l}) ≤
        (fun v : Nat => if v ∈ U then ENNReal.ofReal ((∑ j ∈ D v, tree.rowProb data a (data.row v) j) ^ 2) else 1) v := by
    intro v _
    beta_reduce
    by_cases hv : (v : Nat) ∈ U
    · rw [if_pos hv]
      refine le_trans (measure_mono fun θ hθ => ?_) (draws_inside_le hn hc htree hL v.2 (D v))
      exact hθ hv
    · rw [if_neg hv]
      exact prob_le_one
  refine le_trans (Finset.prod_le_prod' hone) (le_of_eq ?_)
  rw [← Finset.prod_range (fun v : Nat => if v ∈ U then ENNReal.ofReal ((∑ j ∈ D v, tree.rowProb data a (data.row v) j) ^ 2) else 1),
    ENNReal.ofReal_prod_of_nonneg fun u _ => sq_nonneg _, prod_ite_mem, inter_eq_right.2 hU]

/-- `S` and the rest of the cluster `C` are not joined by samples (for small sets only the samples of `S` count). -/
def Separated (C S : Finset Nat) (s : Nat → List Int) : Prop :=
  (∀ u ∈ S, DrawnFrom S (s u)) ∧ (8 * S.card ≤ C.card ∨ ∀ u ∈ C \ S, DrawnFrom (C \ S) (s u))

theorem separated_le [IsProbabilityMeasure μ] (hn : 2 ≤ data.rows) (hc : data.rows ≤ cutoff)
    (htree : tree = KdeTree.build est cutoff 0 0 (data.rows - 1) 0) (hL : IndependentDraws μ data a tree L) (ha : 0 ≤ a)
    {C S : Finset Nat} (hC : C ⊆ range data.rows) (hS : S ⊆ C) {κ ρ : ℝ} (hκ : 0 < κ)
    (hk : ∀ u ∈ C, ∀ v ∈ C, κ ≤ exp (-(a * sqDist (data.row u) (data.row v))))
    (hρ : ρ = data.rows / ((data.rows - 1) * κ)) (h1 : 1 ≤ S.card) (h2 : 2 * S.card ≤ C.card) :
    μ {θ | Separated C S fun u => L u θ} ≤ ENNReal.ofReal (ComponentsMath.sepBound ρ C.card S.card) := by
  classical
  have hm : (0 : ℝ) < C.card := by exact_mod_cast (by omega : 0 < C.card)
  have hr : (2 : ℝ) ≤ data.rows := by exact_mod_cast hn
  have hρ0 : 0 < ρ := by
    rw [hρ]
    exact div_pos (by linarith) (mul_pos (by linarith) hκ)
  have hk1 : ∀ u v, kernelRow data a (data.row u) v ≤ 1 := by
    intro u v
    unfold kernelRow
    rw [exp_le_one_iff, neg_nonpos]
    exact mul_nonneg ha (sqDist_nonneg _ _)
  have hp : ∀ u ∈ C, ∀ j ∈ C, tree.rowProb data a (data.row u) j ≤ ρ / C.card := by
    intro u hu j hj
    refine le_trans (leaf_rowProb_le hn hc htree u (mem_range.1 (hC hj))) ?_
    have hW : ((data.rows : ℝ) - 1) / data.rows * (C.card * κ) ≤ tree.weight data a (data.row u) := by
      rw [leaf_weight hn hc htree]
      refine mul_le_mul_of_nonneg_left ?_ (div_nonneg (by linarith) (by linarith))
      unfold kernelDegree
      refine le_trans ?_ (sum_le_sum_of_subset_of_nonneg hC fun v _ _ => (kernelRow_pos _ _ _ _).le)
      rw [← nsmul_eq_mul, ← sum_const]
      exact sum_le_sum fun v hv => hk u hu v hv
    have hW0 : 0 < ((data.rows : ℝ) - 1) / data.rows * (C.card * κ) :=
      mul_pos (div_pos (by linarith) (by linarith)) (mul_pos hm hκ)
    refine le_trans (div_le_div₀ zero_le_one (hk1 u j) hW0 hW) (le_of_eq ?_)
    rw [hρ]
    have : (data.rows : ℝ) - 1 ≠ 0 := by linarith
    field_simp
  have hsum : ∀ u ∈ C, ∀ D ⊆ C, (∑ j ∈ D, tree.rowProb data a (data.row u) j) ^ 2 ≤ (ρ * D.card / C.card) ^ 2 := by
    intro u hu D hD
    have hnn := (draws_expect hn (.inl hc) htree hL (mem_range.1 (hC hu))).1
    refine pow_le_pow_left₀ (sum_nonneg fun j _ => hnn j) ?_ 2
    refine le_trans (sum_le_sum fun j hj => hp u hu j (hD hj)) (le_of_eq ?_)
    rw [sum_const, nsmul_eq_mul]
    ring
  have hprod : ∀ U ⊆ C, ∀ D ⊆ C, ∏ u ∈ U, (∑ j ∈ D, tree.rowProb data a (data.row u) j) ^ 2
      ≤ (ρ * D.card / C.card) ^ (2 * U.card) := by
    intro U hU D hD
    refine le_trans (prod_le_prod (fun u _ => sq_nonneg _) fun u hu => hsum u (hU hu) D hD) (le_of_eq ?_)
    rw [prod_const, pow_mul]
  unfold ComponentsMath.sepBound
  rw [if_pos ⟨h1, h2⟩]
  by_cases h8 : 8 * S.card ≤ C.card
  · rw [if_pos h8]
    refine le_trans (measure_mono fun θ hθ => ?_) (le_trans (draws_inside_all hn (.inl hc) htree hL S (hS.trans hC) fun _ => S)
      (ENNReal.ofReal_le_ofReal (hprod S hS S hS)))
    exact hθ.1
  · rw [if_neg h8]
    refine le_trans (measure_mono fun θ hθ => ?_) (le_trans (draws_inside_all hn (.inl hc) htree hL C hC fun u => if u ∈ S then S else C \ S)
      (ENNReal.ofReal_le_ofReal ?_))
    · rw [Set.mem_ofPred_eq] at hθ ⊢
      intro u hu
      by_cases hus : u ∈ S
      · rw [if_pos hus]
        exact hθ.1 u hus
      · rw [if_neg hus]
        exact (hθ.2.resolve_left h8) u (mem_sdiff.2 ⟨hu, hus⟩)
    · rw [← prod_sdiff hS, mul_comm]
      have e1 : ∏ u ∈ S, (∑ j ∈ (if u ∈ S then S else C \ S), tree.rowProb data a (data.row u) j) ^ 2
          = ∏ u ∈ S, (∑ j ∈ S, tree.rowProb data a (data.row u) j) ^ 2 :=
        prod_congr rfl fun u hu => by rw [if_pos hu]
      have e2 : ∏ u ∈ C \ S, (∑ j ∈ (if u ∈ S then S else C \ S), tree.rowProb data a (data.row u) j) ^ 2
          = ∏ u ∈ C \ S, (∑ j ∈ C \ S, tree.rowProb data a (data.row u) j) ^ 2 :=
        prod_congr rfl fun u hu => by rw [if_neg (mem_sdiff.1 hu).2]
      rw [e1, e2]
      have p2 := hprod (C \ S) sdiff_subset (C \ S) sdiff_subset
      rw [card_sdiff_of_subset hS] at p2
      exact mul_le_mul (hprod S hS S hS) p2 (prod_nonneg fun u _ => sq_nonneg _) (by positivity)

/-- Without samples between clusters and without separated sets the components are the clusters. -/
theorem components_eq {s : WGraph ℝ} {n : Nat} (hn : s.n = n) {ss : Nat → List Int} {cl : Nat → Nat}
    (hgood : ∀ v < n, GoodSample n (ss v))
    (hadj : ∀ u < n, ∀ v < n, s.w u v ≠ 0 ↔ (v : Int) ∈ ss u ∨ (u : Int) ∈ ss v)
    (hcross : ∀ u < n, ∀ v < n, cl v ≠ cl u → (v : Int) ∉ ss u)
    (hsep : ∀ c, ∀ S ⊆ (range n).filter fun v => cl v = c, 1 ≤ S.card →
      2 * S.card ≤ ((range n).filter fun v => cl v = c).card → ¬ Separated ((range n).filter fun v => cl v = c) S ss) :
    ∀ u < n, ∀ v < n, (s.Connected u v ↔ cl u = cl v) := by
  classical
  have hstep : ∀ x y, s.Adj x y → cl x = cl y := by
    rintro x y ⟨hx, hy, hw⟩
    rw [hn] at hx hy
    rcases (hadj x hx y hy).1 hw with h | h
    · by_contra hne
      exact hcross x hx y hy (Ne.symm hne) h
    · by_contra hne
      exact hcross y hy x hx hne h
  intro u hu v hv
  constructor
  · intro h
    have : ∀ y, Reach s.Adj u y → cl u = cl y := by
      intro y hy
      induction hy with
      | refl => rfl
      | step _ e ih => exact ih.trans (hstep _ _ e)
    exact this v h
  · intro hcl
    by_contra hno
    obtain ⟨C, hC⟩ : ∃ C, C = (range n).filter fun v => cl v = cl u := ⟨_, rfl⟩
    obtain ⟨R, hR⟩ : ∃ R, R = C.filter fun w => s.Connected u w := ⟨_, rfl⟩
    have hCn : ∀ w ∈ C, w < n ∧ cl w = cl u := fun w hw => by
      rw [hC, mem_filter, mem_range] at hw
      exact hw
    have hRC : R ⊆ C := hR ▸ filter_subset _ _
    have huR : u ∈ R := by
      rw [hR, mem_filter, hC, mem_filter, mem_range]
      exact ⟨⟨hu, rfl⟩, Reach.refl⟩
    have hvC : v ∈ C \ R := by
      rw [mem_sdiff, hC, mem_filter, mem_range, hR, mem_filter]
      exact ⟨⟨hv, hcl.symm⟩, fun h => hno h.2⟩
    have hsample : ∀ w ∈ C, ∀ x ∈ ss w, 0 ≤ x ∧ x.toNat ∈ C ∧ s.Adj w x.toNat ∧ s.Adj x.toNat w := by
      intro w hw x hx
      obtain ⟨hwn, hwc⟩ := hCn w hw
      have hb := (hgood w hwn).2 x hx
      have hxn : x.toNat < n := by omega
      have hx' : ((x.toNat : Nat) : Int) ∈ ss w := by rw [Int.toNat_of_nonneg hb.1]; exact hx
      refine ⟨hb.1, ?_, ⟨by rw [hn]; exact hwn, by rw [hn]; exact hxn, (hadj w hwn _ hxn).2 (.inl hx')⟩,
        ⟨by rw [hn]; exact hxn, by rw [hn]; exact hwn, (hadj _ hxn w hwn).2 (.inr hx')⟩⟩
      rw [hC, mem_filter, mem_range]
      refine ⟨hxn, ?_⟩
      by_contra hne
      exact hcross w hwn _ hxn (by rw [hwc]; exact hne) hx'
    have inR : ∀ w ∈ R, DrawnFrom R (ss w) := by
      intro w hw x hx
      obtain ⟨h0, h1, h2, -⟩ := hsample w (hRC hw) x hx
      refine ⟨h0, ?_⟩
      rw [hR, mem_filter] at hw ⊢
      exact ⟨h1, Reach.step hw.2 h2⟩
    have inS : ∀ w ∈ C \ R, DrawnFrom (C \ R) (ss w) := by
      intro w hw x hx
      obtain ⟨hwC, hwR⟩ := mem_sdiff.1 hw
      obtain ⟨h0, h1, -, h3⟩ := hsample w hwC x hx
      refine ⟨h0, mem_sdiff.2 ⟨h1, fun h => hwR ?_⟩⟩
      rw [hR, mem_filter] at h ⊢
      exact ⟨hwC, Reach.step h.2 h3⟩
    have hcard := card_sdiff_of_subset hRC
    have hle := card_le_card hRC
    have p1 : 1 ≤ R.card := card_pos.2 ⟨u, huR⟩
    have p2 : 1 ≤ (C \ R).card := card_pos.2 ⟨v, hvC⟩
    by_cases hhalf : 2 * R.card ≤ C.card
    · exact hsep (cl u) R (hC ▸ hRC) p1 (hC ▸ hhalf) (hC ▸ ⟨inR, .inr inS⟩)
    · refine hsep (cl u) (C \ R) (hC ▸ sdiff_subset) p2 (hC ▸ by omega) (hC ▸ ⟨inS, .inr ?_⟩)
      rw [Finset.sdiff_sdiff_eq_self hRC]
      exact inR

/-- **C98**.  Let the data fit into one leaf (at most 5000 rows by default), let the rows be
labelled so that rows of the same label have kernel at least `κ`, where `κ` is near one, and let the samples
be independent.  Then, whatever the schedule, `approximate_similarity_graph` returns a graph whose connected components are exactly
the rows of equal labels, except with probability at most four times the total kernel between rows of
different labels plus `8 / m + m (9/10)^m` for each label of `m` rows. -/
theorem C98_components [IsProbabilityMeasure μ] (threads : Nat) (ht : 0 < threads) (hn : 2 ≤ data.rows)
    (hc : data.rows ≤ cutoff) (htree : tree = KdeTree.build est cutoff 0 0 (data.rows - 1) 0)
    (hL : IndependentDraws μ data a tree L) (ha : 0 ≤ a) (cl : Nat → Nat) {κ : ℝ} (hκ : 0 < κ)
    (hk : ∀ u < data.rows, ∀ v < data.rows, cl u = cl v → κ ≤ exp (-(a * sqDist (data.row u) (data.row v))))
    (hκ1 : (data.rows / ((data.rows - 1) * κ)) ^ 2 ≤ (11 / 10 : ℝ)) :
    μ {θ | ¬ ∃ g : Graph ℝ,
        (∃ out, AsgFrom data.rows threads 2 (fun v => tree.weight data a (data.row v)) (fun v => L v θ) out) ∧
        (∀ out, AsgFrom data.rows threads 2 (fun v => tree.weight data a (data.row v)) (fun v => L v θ) out → out = .ok g) ∧
        g.Valid ∧ g.Pruned ∧ g.n = data.rows ∧
        ∀ u < data.rows, ∀ v < data.rows, (g.abs.Connected u v ↔ cl u = cl v)} ≤
      ENNReal.ofReal (
        4 * ∑ u ∈ range data.rows, ∑ v ∈ (range data.rows).filter (fun v => cl v ≠ cl u),
          exp (-(a * sqDist (data.row u) (data.row v)))
        + ∑ c ∈ (range data.rows).image cl, (8 / (((range data.rows).filter fun v => cl v = c).card : ℝ)
          + ((range data.rows).filter fun v => cl v = c).card * (9 / 10) ^ ((range data.rows).filter fun v => cl v = c).card)) := by
  classical
  have hpos := draws_weight_pos (a := a) hn (.inl hc) htree
  have heps : 5 * (epsilon : ℝ) < 1 / 2 := by
    unfold epsilon
    norm_num
  have hW : ∀ v < data.rows, 5 * epsilon < tree.weight data a (data.row v) :=
    fun v hv => lt_of_lt_of_le heps (leaf_weight_big hn hc htree hv)
  have hnull : μ {θ | ¬ ∀ v < data.rows, GoodSample data.rows (L v θ)} = 0 := ae_iff.1 (draws_good hn htree hL)
  obtain ⟨ρ, hρ⟩ : ∃ ρ : ℝ, ρ = data.rows / ((data.rows - 1) * κ) := ⟨_, rfl⟩
  rw [← hρ] at hκ1
  have hr : (2 : ℝ) ≤ data.rows := by exact_mod_cast hn
  have hρ0 : 0 ≤ ρ := by
    rw [hρ]
    exact (div_pos (by linarith) (mul_pos (by linarith) hκ)).le
  obtain ⟨C, hC⟩ : ∃ C : Nat → Finset Nat, C = fun c => (range data.rows).filter fun v => cl v = c := ⟨_, rfl⟩
  have hCeq : ∀ c, (range data.rows).filter (fun v => cl v = c) = C c := fun c => by rw [hC]
  obtain ⟨E, hE⟩ : ∃ E : Nat → Finset Nat → Set Θ, E = fun c S =>
    {θ | 1 ≤ S.card ∧ 2 * S.card ≤ (C c).card ∧ Separated (C c) S fun u => L u θ} := ⟨_, rfl⟩
  have hEle : ∀ c, ∀ S ∈ (C c).powerset, μ (E c S) ≤ ENNReal.ofReal (ComponentsMath.sepBound ρ (C c).card S.card) := by
    intro c S hS
    by_cases h : 1 ≤ S.card ∧ 2 * S.card ≤ (C c).card
    · refine le_trans (measure_mono fun θ hθ => ?_) (separated_le hn hc htree hL ha (C := C c) (S := S) ?_ (mem_powerset.1 hS) hκ ?_ hρ h.1 h.2)
      · rw [hE] at hθ
        exact hθ.2.2
      · rw [hC]
        exact filter_subset _ _
      · intro u hu v hv
        rw [hC] at hu hv
        simp only [mem_filter, mem_range] at hu hv
        exact hk u hu.1 v hv.1 (hu.2.trans hv.2.symm)
    · have : E c S = ∅ := by
        rw [hE]
        ext θ
        simp only [Set.mem_ofPred_eq, Set.mem_empty_iff_false, iff_false]
        rintro ⟨h1, h2, -⟩
        exact h ⟨h1, h2⟩
      rw [this, measure_empty]
      exact zero_le
  simp only [hCeq]
  have hsub : {θ | ¬ ∃ g : Graph ℝ,
        (∃ out, AsgFrom data.rows threads 2 (fun v => tree.weight data a (data.row v)) (fun v => L v θ) out) ∧
        (∀ out, AsgFrom data.rows threads 2 (fun v => tree.weight data a (data.row v)) (fun v => L v θ) out → out = .ok g) ∧
        g.Valid ∧ g.Pruned ∧ g.n = data.rows ∧
        ∀ u < data.rows, ∀ v < data.rows, (g.abs.Connected u v ↔ cl u = cl v)} ⊆
      {θ | ¬ ∀ v < data.rows, GoodSample data.rows (L v θ)} ∪
      ((⋃ u ∈ range data.rows, ⋃ v ∈ (range data.rows).filter (fun v => cl v ≠ cl u), {θ | (v : Int) ∈ L u θ}) ∪
      ⋃ c ∈ (range data.rows).image cl, ⋃ S ∈ (C c).powerset, E c S) := by
    intro θ hθ
    by_contra hnot
    simp only [Set.mem_union, Set.mem_iUnion, not_or, not_exists, Set.mem_ofPred_eq, not_not] at hnot
    obtain ⟨hg, hx, hs⟩ := hnot
    apply hθ
    obtain ⟨hex, g, hout, hv, hpr, habs⟩ := asgFrom_graph (n := data.rows) (ss := fun v => L v θ) ht hpos hg
    have hgn : g.n = data.rows := congrArg WGraph.n habs
    refine ⟨g, hex, hout, hv, hpr, hgn, ?_⟩
    refine components_eq (ss := fun v => L v θ) hgn hg ?_ ?_ ?_
    · intro i hi j hj
      have hw : g.abs.w i j = tree.weight data a (data.row i) / 5 *
          ((L i θ).count (j : Int)) + tree.weight data a (data.row j) / 5 * ((L j θ).count (i : Int)) := by
        rw [habs]
        exact thr_sampled (s := fun v => L v θ) hg hW hi hj
      rw [hw, ← List.count_pos_iff, ← List.count_pos_iff]
      have n1 : 0 ≤ tree.weight data a (data.row i) / 5 * ((L i θ).count (j : Int) : ℝ) :=
        mul_nonneg (by linarith [hpos i]) (Nat.cast_nonneg _)
      have n2 : 0 ≤ tree.weight data a (data.row j) / 5 * ((L j θ).count (i : Int) : ℝ) :=
        mul_nonneg (by linarith [hpos j]) (Nat.cast_nonneg _)
      rw [← not_iff_not, not_not, not_or, add_eq_zero_iff_of_nonneg n1 n2, mul_eq_zero, mul_eq_zero, not_lt, not_lt,
        Nat.le_zero, Nat.le_zero, Nat.cast_eq_zero, Nat.cast_eq_zero]
      have z1 : tree.weight data a (data.row i) / 5 ≠ 0 := by have := hpos i; positivity
      have z2 : tree.weight data a (data.row j) / 5 ≠ 0 := by have := hpos j; positivity
      simp [z1, z2]
    · intro u hu v hv' hne
      exact hx u (mem_range.2 hu) v (mem_filter.2 ⟨mem_range.2 hv', hne⟩)
    · intro c S hS h1 h2 hsepd
      rw [hCeq] at hS h2 hsepd
      obtain ⟨w, hw⟩ : S.Nonempty := card_pos.1 h1
      have hwC := hS hw
      rw [hC] at hwC
      simp only [mem_filter] at hwC
      refine hs c (mem_image.2 ⟨w, hwC⟩) S (mem_powerset.2 hS) ?_
      rw [hE]
      exact ⟨h1, h2, hsepd⟩
  refine le_trans (measure_mono hsub) (le_trans (measure_union_le _ _) ?_)
  rw [hnull, zero_add]
  refine le_trans (measure_union_le _ _) ?_
  have b1 : μ (⋃ u ∈ range data.rows, ⋃ v ∈ (range data.rows).filter (fun v => cl v ≠ cl u), {θ | (v : Int) ∈ L u θ}) ≤
      ENNReal.ofReal (4 * ∑ u ∈ range data.rows, ∑ v ∈ (range data.rows).filter (fun v => cl v ≠ cl u),
          exp (-(a * sqDist (data.row u) (data.row v)))) := by
    refine le_trans (measure_biUnion_finset_le _ _) ?_
    rw [mul_sum, ENNReal.ofReal_sum_of_nonneg fun u _ => by positivity]
    refine sum_le_sum fun u hu => le_trans (measure_biUnion_finset_le _ _) ?_
    rw [mul_sum, ENNReal.ofReal_sum_of_nonneg fun u _ => by positivity]
    exact sum_le_sum fun v hv => draws_mem_le hn hc htree hL (mem_range.1 hu) (mem_range.1 (mem_filter.1 hv).1)
  have hb0 : ∀ m s, 0 ≤ ComponentsMath.sepBound ρ m s := by
    intro m s
    unfold ComponentsMath.sepBound
    split_ifs <;> positivity
  have b2 : μ (⋃ c ∈ (range data.rows).image cl, ⋃ S ∈ (C c).powerset, E c S) ≤
      ENNReal.ofReal (∑ c ∈ (range data.rows).image cl, (8 / ((C c).card : ℝ) + (C c).card * (9 / 10) ^ (C c).card)) := by
    refine le_trans (measure_biUnion_finset_le _ _) ?_
    rw [ENNReal.ofReal_sum_of_nonneg fun u _ => by positivity]
    refine sum_le_sum fun c hcc => le_trans (measure_biUnion_finset_le _ _) ?_
    refine le_trans (sum_le_sum fun S hS => hEle c S hS) ?_
    rw [← ENNReal.ofReal_sum_of_nonneg fun S _ => hb0 _ _]
    apply ENNReal.ofReal_le_ofReal
    obtain ⟨w, hw, hwc⟩ := mem_image.1 hcc
    have hm : 0 < (C c).card := card_pos.2 ⟨w, by rw [hC]; exact mem_filter.2 ⟨hw, hwc⟩⟩
    refine le_trans (le_of_eq ?_) (ComponentsMath.sum_sepBound hm hρ0 hκ1)
    rw [sum_powerset_apply_card (fun s => ComponentsMath.sepBound ρ (C c).card s)]
    exact sum_congr rfl fun s _ => by rw [nsmul_eq_mul]
  refine le_trans (add_le_add b1 b2) (le_of_eq ?_)
  rw [← ENNReal.ofReal_add (mul_nonneg (by norm_num) (sum_nonneg fun u _ => sum_nonneg fun v _ => (exp_pos _).le))
    (sum_nonneg fun c _ => by positivity)]

/-- **C98** (`connected_components`).  With at least the probability of `C98_components`, `connected_components` of the
returned graph answers the clusters: the lists are not empty, no row occurs twice, together they contain exactly
the rows, and the list that contains `u` consists of the rows with the label of `u`. -/
theorem C98_clusters [IsProbabilityMeasure μ] (threads : Nat) (ht : 0 < threads) (hn : 2 ≤ data.rows)
    (hc : data.rows ≤ cutoff) (htree : tree = KdeTree.build est cutoff 0 0 (data.rows - 1) 0)
    (hL : IndependentDraws μ data a tree L) (ha : 0 ≤ a) (cl : Nat → Nat) {κ : ℝ} (hκ : 0 < κ)
    (hk : ∀ u < data.rows, ∀ v < data.rows, cl u = cl v → κ ≤ exp (-(a * sqDist (data.row u) (data.row v))))
    (hκ1 : (data.rows / ((data.rows - 1) * κ)) ^ 2 ≤ (11 / 10 : ℝ)) {fuel : Nat} (hf : data.rows ≤ fuel) :
    μ {θ | ¬ ∃ g : Graph ℝ,
        (∃ out, AsgFrom data.rows threads 2 (fun v => tree.weight data a (data.row v)) (fun v => L v θ) out) ∧
        (∀ out, AsgFrom data.rows threads 2 (fun v => tree.weight data a (data.row v)) (fun v => L v θ) out → out = .ok g) ∧
        ∃ cs : List (List Int), g.connectedComponents fuel = some (.ok cs) ∧ cs.flatten.Nodup ∧
          (∀ v : Int, v ∈ cs.flatten ↔ 0 ≤ v ∧ v < data.rows) ∧
          ∀ c ∈ cs, c ≠ [] ∧ ∀ u ∈ c, ∀ w : Int, w ∈ c ↔ 0 ≤ w ∧ w < data.rows ∧ cl w.toNat = cl u.toNat} ≤
      ENNReal.ofReal (
        4 * ∑ u ∈ range data.rows, ∑ v ∈ (range data.rows).filter (fun v => cl v ≠ cl u),
          exp (-(a * sqDist (data.row u) (data.row v)))
        + ∑ c ∈ (range data.rows).image cl, (8 / (((range data.rows).filter fun v => cl v = c).card : ℝ)
          + ((range data.rows).filter fun v => cl v = c).card * (9 / 10) ^ ((range data.rows).filter fun v => cl v = c).card)) := by
  refine le_trans (measure_mono fun θ hθ => ?_) (C98_components threads ht hn hc htree hL ha cl hκ hk hκ1)
  rw [Set.mem_ofPred_eq] at hθ ⊢
  refine fun hex => hθ ?_
  obtain ⟨g, h1, h2, hv, hpr, hgn, hcon⟩ := hex
  refine ⟨g, h1, h2, ?_⟩
  obtain ⟨cs, e1, e2, e3, e4⟩ := C30_components hv hpr.noZeros (fuel := fuel) (by rw [hgn]; exact hf)
  rw [hgn] at e3
  refine ⟨cs, e1, e2, e3, fun c hc => ⟨(e4 c hc).1, fun u hu w => ?_⟩⟩
  have hu' := (e3 u).1 (List.mem_flatten.2 ⟨c, hc, hu⟩)
  rw [(e4 c hc).2 u hu w]
  constructor
  · rintro ⟨h0, hcw⟩
    have hw' := (e3 w).1 (List.mem_flatten.2 ⟨c, hc, ((e4 c hc).2 u hu w).2 ⟨h0, hcw⟩⟩)
    exact ⟨h0, hw'.2, ((hcon u.toNat (by omega) w.toNat (by omega)).1 hcw).symm⟩
  · rintro ⟨h0, hwn, hcl⟩
    exact ⟨h0, (hcon u.toNat (by omega) w.toNat (by omega)).2 hcl.symm⟩

/-! ## Example -/

/-- One thousand points at 0 and one thousand points at 5. -/
theorem twoGroups_exist : ∃ (data : Mat ℝ) (cl : Nat → Nat), data.rows = 2000 ∧ data.cols = 1 ∧
    (∀ v < 1000, data.row v = [0]) ∧ (∀ v, 1000 ≤ v → v < 2000 → data.row v = [5]) ∧
    (∀ u < 2000, ∀ v < 2000, (cl u = cl v ↔ (u < 1000 ↔ v < 1000))) ∧
    (∀ u < 2000, ∀ v < 2000, cl u = cl v → exp (-(1 * sqDist (data.row u) (data.row v))) = 1) ∧
    4 * ∑ u ∈ range data.rows, ∑ v ∈ (range data.rows).filter (fun v => cl v ≠ cl u),
          exp (-(1 * sqDist (data.row u) (data.row v)))
        + ∑ c ∈ (range data.rows).image cl, (8 / (((range data.rows).filter fun v => cl v = c).card : ℝ)
          + ((range data.rows).filter fun v => cl v = c).card * (9 / 10) ^ ((range data.rows).filter fun v => cl v = c).card)
      ≤ 9 / 500 := by
  obtain ⟨A, hA⟩ : ∃ A : List ℝ, A = List.replicate 1000 0 := ⟨_, rfl⟩
  obtain ⟨B, hB⟩ : ∃ B : List ℝ, B = List.replicate 1000 5 := ⟨_, rfl⟩
  have hAl : A.length = 1000 := by rw [hA, List.length_replicate]
  have hBl : B.length = 1000 := by rw [hB, List.length_replicate]
  obtain ⟨data, hd⟩ : ∃ data : Mat ℝ, data = ⟨2000, 1, A ++ B⟩ := ⟨_, rfl⟩
  have hrows : data.rows = 2000 := by rw [hd]
  have r0 : ∀ v < 1000, data.row v = [0] := by
    intro v hv
    rw [hd]
    simp only [Mat.row, Mat.coeff, List.range_one, List.map_cons, List.map_nil, mul_one, add_zero]
    rw [List.getD_append _ _ _ _ (by omega), hA, List.getD_replicate _ hv]
  have r1 : ∀ v, 1000 ≤ v → v < 2000 → data.row v = [5] := by
    intro v hv hv2
    rw [hd]
    simp only [Mat.row, Mat.coeff, List.range_one, List.map_cons, List.map_nil, mul_one, add_zero]
    rw [List.getD_append_right _ _ _ _ (by omega), hB, List.getD_replicate _ (by omega)]
  obtain ⟨cl, hcl⟩ : ∃ cl : Nat → Nat, cl = fun v => v / 1000 := ⟨_, rfl⟩
  have hcl' : ∀ u < 2000, ∀ v < 2000, (cl u = cl v ↔ (u < 1000 ↔ v < 1000)) := by
    intro u hu v hv
    rw [hcl]
    beta_reduce
    omega
  have hsame : ∀ u < 2000, ∀ v < 2000, cl u = cl v → exp (-(1 * sqDist (data.row u) (data.row v))) = 1 := by
    intro u hu v hv h
    rw [hcl' u hu v hv] at h
    by_cases hu1 : u < 1000
    · rw [r0 u hu1, r0 v (h.1 hu1)]
      simp [sqDist]
    · rw [r1 u (by omega) hu, r1 v (by by_contra hc; exact hu1 (h.2 (by omega))) hv]
      simp [sqDist]
  have hdiff : ∀ u < 2000, ∀ v < 2000, cl v ≠ cl u → exp (-(1 * sqDist (data.row u) (data.row v))) = exp (-25) := by
    intro u hu v hv h
    rw [ne_eq, hcl' v hv u hu] at h
    by_cases hu1 : u < 1000
    · rw [r0 u hu1, r1 v (by by_contra hc; exact h ⟨fun _ => hu1, fun _ => by omega⟩) hv]
      simp [sqDist]
      norm_num
    · have hv1 : v < 1000 := by
        by_contra hc
        exact h ⟨fun h1 => absurd h1 hc, fun h1 => absurd h1 hu1⟩
      rw [r1 u (by omega) hu, r0 v hv1]
      simp [sqDist]
      norm_num
  refine ⟨data, cl, hrows, by rw [hd], r0, r1, hcl', hsame, ?_⟩
  rw [hrows]
  have c0 : ((range 2000).filter fun v => cl v = 0).card = 1000 := by
    have : (range 2000).filter (fun v => cl v = 0) = range 1000 := by
      ext v
      rw [mem_filter, mem_range, mem_range, hcl]
      beta_reduce
      omega
    rw [this, card_range]
  have c1 : ((range 2000).filter fun v => cl v = 1).card = 1000 := by
    have : (range 2000).filter (fun v => cl v = 1) = Ico 1000 2000 := by
      ext v
      rw [mem_filter, mem_range, mem_Ico, hcl]
      beta_reduce
      omega
    rw [this, Nat.card_Ico]
  have him : (range 2000).image cl = {0, 1} := by
    ext c
    rw [mem_image, mem_insert, mem_singleton, hcl]
    constructor
    · rintro ⟨v, hv, rfl⟩
      rw [mem_range] at hv
      beta_reduce
      omega
    · rintro (rfl | rfl)
      · exact ⟨0, mem_range.2 (by norm_num), by norm_num⟩
      · exact ⟨1000, mem_range.2 (by norm_num), by norm_num⟩
  have s1 : ∑ u ∈ range 2000, ∑ v ∈ (range 2000).filter (fun v => cl v ≠ cl u),
      exp (-(1 * sqDist (data.row u) (data.row v))) ≤ 4000000 * exp (-25) := by
    have : ∀ u ∈ range 2000, ∑ v ∈ (range 2000).filter (fun v => cl v ≠ cl u),
        exp (-(1 * sqDist (data.row u) (data.row v))) ≤ 2000 * exp (-25) := by
      intro u hu
      rw [sum_congr rfl fun v hv => hdiff u (mem_range.1 hu) v (mem_range.1 (mem_filter.1 hv).1) (mem_filter.1 hv).2,
        sum_const, nsmul_eq_mul]
      refine mul_le_mul_of_nonneg_right ?_ (exp_pos _).le
      have := card_filter_le (range 2000) (fun v => cl v ≠ cl u)
      rw [card_range] at this
      exact_mod_cast this
    refine le_trans (sum_le_sum this) (le_of_eq ?_)
    rw [sum_const, card_range, nsmul_eq_mul]
    push_cast
    ring
  rw [him, sum_insert (by norm_num), sum_singleton, c0, c1]
  have h25 : exp (-25) ≤ 1 / 2 ^ 34 := by
    have h3 : exp (-((25 : Nat) : ℝ)) = (exp 1)⁻¹ ^ 25 := by
      rw [inv_pow, ← exp_nat_mul, exp_neg, mul_one]
    rw [Nat.cast_ofNat] at h3
    have h4 : (exp 1)⁻¹ ≤ (10 / 27 : ℝ) := by
      rw [inv_le_comm₀ (exp_pos 1) (by norm_num)]
      have := exp_one_gt_d9
      norm_num at this ⊢
      linarith
    rw [h3]
    refine le_trans (pow_le_pow_left₀ (inv_pos.2 (exp_pos 1)).le h4 25) ?_
    norm_num
  have h9 : (9 / 10 : ℝ) ^ 1000 ≤ 1 / 2 ^ 30 := by
    refine le_trans (pow_le_pow_of_le_one (by norm_num) (by norm_num) (by norm_num : 200 ≤ 1000)) ?_
    norm_num
  push_cast
  generalize (9 / 10 : ℝ) ^ 1000 = x at *
  generalize exp (-25) = y at *
  norm_num at h25 h9
  linarith

/-- One thousand points at 0 and one thousand points at 5: except with probability `1 / 50` the connected components
are the two groups. -/
example : ∃ (Θ : Type) (_ : MeasurableSpace Θ) (μ : Measure Θ) (L : Nat → Θ → List Int) (est : Nat → Nat → List ℝ → ℝ)
    (data : Mat ℝ) (tree : KdeTree), IsProbabilityMeasure μ ∧ data.rows = 2000 ∧
    (∀ v < 1000, data.row v = [0]) ∧ (∀ v, 1000 ≤ v → v < 2000 → data.row v = [5]) ∧
    tree = KdeTree.build est 5000 0 0 (data.rows - 1) 0 ∧ IndependentDraws μ data 1 tree L ∧
    μ {θ | ¬ ∃ g : Graph ℝ,
        (∀ out, AsgFrom data.rows 4 2 (fun v => tree.weight data 1 (data.row v)) (fun v => L v θ) out → out = .ok g) ∧
        ∀ u < 2000, ∀ v < 2000, (g.abs.Connected u v ↔ (u < 1000 ↔ v < 1000))} ≤ ENNReal.ofReal (1 / 50) := by
  obtain ⟨data, cl, hrows, -, r0, r1, hcl', hsame, hbound⟩ := twoGroups_exist
  obtain ⟨Θ, hΘ, μ, L, hμ, hL⟩ := draws_independent_exist data 1 (fun _ _ _ => 0) 5000 (by rw [hrows]; norm_num)
    (.inl (by rw [hrows]; norm_num))
  refine ⟨Θ, hΘ, μ, L, fun _ _ _ => 0, data, _, hμ, hrows, r0, r1, rfl, hL, ?_⟩
  refine le_trans (measure_mono fun θ hθ => ?_) (le_trans (C98_components (L := L) 4 (by norm_num) (by rw [hrows]; norm_num)
    (by rw [hrows]; norm_num) rfl hL (by norm_num) cl (κ := 1) one_pos ?_ ?_) (ENNReal.ofReal_le_ofReal ?_))
  · rw [Set.mem_ofPred_eq] at hθ ⊢
    refine fun hex => hθ ?_
    obtain ⟨g, -, h2, -, -, -, h5⟩ := hex
    refine ⟨g, h2, fun u hu v hv => ?_⟩
    rw [h5 u (by omega) v (by omega), hcl' u hu v hv]
  · intro u hu v hv h
    rw [hrows] at hu hv
    exact (hsame u hu v hv h).ge
  · rw [hrows]
    norm_num
  · exact hbound.trans (by norm_num)

end Stag
