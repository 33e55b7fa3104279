import Verif.Props.RoundingAsgLaw
import Verif.Props.RoundingSweep
import Verif.Props.Locality

/-!
# C106: cuts and conductances of `approximate_similarity_graph` in floating point
-/

open MeasureTheory ProbabilityTheory Finset Real
open scoped ENNReal

namespace Stag

section
variable {R : Rounding ℝ} {E : LibExp} {data : Mat ℝ} {a : ℝ} {cutoff : Nat} {est : Nat → Nat → List ℝ → ℝ} {tree : KdeTree}

theorem degree_algebra {N S T d' G g2 c : ℝ} (hN : 1 ≤ N) (hS : 1 ≤ S) (hG : 1 ≤ G) (hg2 : 1 ≤ g2) (hc : 0 ≤ c)
    (hT : |T - S| ≤ (G - 1) * S + G * c) (hd : |d' - (N - 1) / N * T| ≤ (g2 - 1) * ((N - 1) / N * T)) :
    |d' - (N - 1) / N * S| ≤ ((G * g2 - 1) + G * g2 * c) * ((N - 1) / N * S) := by
  obtain ⟨q, hq⟩ : ∃ q, q = (N - 1) / N := ⟨_, rfl⟩
  have hq0 : 0 ≤ q := by rw [hq]; exact div_nonneg (by linarith) (by linarith)
  rw [← hq] at hd ⊢
  have h1 : |d' - q * S| ≤ |d' - q * T| + |q * T - q * S| := abs_sub_le _ _ _
  have h2 : |q * T - q * S| = q * |T - S| := by rw [← mul_sub, abs_mul, abs_of_nonneg hq0]
  have h3 : q * |T - S| ≤ q * ((G - 1) * S + G * c) := mul_le_mul_of_nonneg_left hT hq0
  have h4 : T ≤ G * S + G * c := by linarith [(abs_le.1 hT).2]
  have h5 : (g2 - 1) * (q * T) ≤ (g2 - 1) * (q * (G * S + G * c)) :=
    mul_le_mul_of_nonneg_left (mul_le_mul_of_nonneg_left h4 hq0) (by linarith)
  have h6 : q * c ≤ q * c * S := le_mul_of_one_le_right (mul_nonneg hq0 hc) hS
  have h7 : G * g2 * (q * c) ≤ G * g2 * (q * c * S) := mul_le_mul_of_nonneg_left h6 (by positivity)
  rw [h2] at h1
  calc |d' - q * S| ≤ (g2 - 1) * (q * (G * S + G * c)) + q * ((G - 1) * S + G * c) := by linarith
    _ = (G * g2 - 1) * (q * S) + G * g2 * (q * c) := by ring
    _ ≤ (G * g2 - 1) * (q * S) + G * g2 * (q * c * S) := by linarith
    _ = _ := by ring

/-- The computed degree has relative error at most `totalErr`. -/
theorem leaf_degree_err (hok : AsgFlOk R E data a cutoff est) (hn : 2 ≤ data.rows) (hc : data.rows ≤ cutoff)
    (htree : tree = KdeTree.build est cutoff 0 0 (data.rows - 1) 0) {v : Nat} (hv : v < data.rows) :
    |tree.weightFl R.fl E data a (data.row v) - tree.weight data a (data.row v)|
      ≤ totalErr R E data.rows data.cols * tree.weight data a (data.row v) := by
  subst htree
  have hlen := exactOn_length (data := data) (a := a) 0 (data.rows - 1)
  have hlen' : (exactOn data a 0 (data.rows - 1)).allData.length = data.rows := by rw [hlen]; omega
  obtain ⟨S, T, d, d', eS, eC, hS, eT, ed, ed', hd, hd', hT1⟩ := leaf_facts (est := est) hok hn hc hv
  have hκ := kernelErr_nonneg R E data.cols
  have h1 := C100_totals R E a hok.a0 (data.row v) (exactOn data a 0 (data.rows - 1)).allData data.rows hlen'.ge
  rw [row_length, eT, eC] at h1
  have h2 := degree_algebra (N := data.rows) (by exact_mod_cast (by omega : 1 ≤ data.rows)) hS
    (Rounding.g_pow_one_le (R := R) data.rows) (Rounding.g_pow_one_le (R := R) 2) (mul_nonneg (Nat.cast_nonneg _) hκ) h1 hd'.abs_sub
  rw [ed, ed', hd]
  refine h2.trans (mul_le_mul_of_nonneg_right ?_ (mul_nonneg (div_nonneg ?_ (Nat.cast_nonneg _)) (by linarith)))
  · unfold totalErr
    have h3 : R.g ^ data.rows * R.g ^ 2 ≤ R.g ^ (data.rows + 3) := by
      rw [← pow_add]
      exact pow_le_pow_right₀ (Rounding.one_le_g (R := R)) (by omega)
    have h4 := mul_le_mul_of_nonneg_right h3 (mul_nonneg (Nat.cast_nonneg data.rows) hκ)
    linarith
  · have : (2 : ℝ) ≤ data.rows := by exact_mod_cast hn
    linarith

/-- The relative error of the weight of an edge. -/
noncomputable def edgeErr (R : Rounding ℝ) (E : LibExp) (n d : Nat) : ℝ := R.g ^ 4 * (1 + totalErr R E n d) - 1

theorem edgeErr_nonneg (R : Rounding ℝ) (E : LibExp) (n d : Nat) : 0 ≤ edgeErr R E n d := by
  have h1 := Rounding.g_pow_one_le (R := R) 4
  have h2 := totalErr_nonneg R E n d
  unfold edgeErr
  nlinarith

theorem sampledWeight_err {n : Nat} {nb : Nat → Nat → Nat} {D' D : Nat → ℝ} {τ : ℝ}
    (h : ∀ v < n, |D' v - D v| ≤ τ * D v) (i j : Nat) :
    |sampledWeight n nb D' i j - sampledWeight n nb D i j| ≤ τ * sampledWeight n nb D i j := by
  unfold sampledWeight
  rw [← sum_sub_distrib, mul_sum]
  refine (abs_sum_le_sum_abs _ _).trans (sum_le_sum fun v hv => ?_)
  rw [← sum_sub_distrib, mul_sum]
  refine (abs_sum_le_sum_abs _ _).trans (sum_le_sum fun k _ => ?_)
  have h5 : |D' v / 5 - D v / 5| ≤ τ * (D v / 5) := by
    rw [← sub_div, abs_div, abs_of_pos (by norm_num : (0 : ℝ) < 5), ← mul_div_assoc]
    exact div_le_div_of_nonneg_right (h v (mem_range.1 hv)) (by norm_num)
  rw [add_sub_add_comm, mul_add]
  refine (abs_add_le _ _).trans (add_le_add ?_ ?_)
  · split_ifs
    · exact h5
    · simp
  · split_ifs
    · exact h5
    · simp

/-- The computed graph from given good samples has the edges of the exact one, with weights of relative error at most `edgeErr`. -/
theorem asgFl_close (hok : AsgFlOk R E data a cutoff est) (threads : Nat) (ht : 0 < threads) (hn : 2 ≤ data.rows)
    (hc : data.rows ≤ cutoff) (htree : tree = KdeTree.build est cutoff 0 0 (data.rows - 1) 0) {ss ss' : Nat → List Int}
    (hss : ∀ v < data.rows, GoodSample data.rows (ss v)) (hsame : ∀ v < data.rows, ss' v = ss v) :
    (∃ out, AsgFromFl R.fl data.rows threads 2 (fun v => tree.weightFl R.fl E data a (data.row v)) ss' out) ∧
    ∃ g' g : Graph ℝ, (∀ out, AsgFromFl R.fl data.rows threads 2 (fun v => tree.weightFl R.fl E data a (data.row v)) ss' out → out = .ok g') ∧
      (∀ out, AsgFrom data.rows threads 2 (fun v => tree.weight data a (data.row v)) ss out → out = .ok g) ∧
      g'.Valid ∧ g'.Pruned ∧ g'.n = data.rows ∧ g.n = data.rows ∧
      ∀ x < data.rows, ∀ y < data.rows, 0 ≤ g.abs.w x y ∧
        |g'.abs.w x y - g.abs.w x y| ≤ edgeErr R E data.rows data.cols * g.abs.w x y := by
  have hss' : ∀ v < data.rows, GoodSample data.rows (ss' v) := fun v hv => by
    rw [hsame v hv]
    exact hss v hv
  have hpos := draws_weight_pos (a := a) hn (.inl hc) htree
  have hW : ∀ v < data.rows, 5 * epsilon < tree.weight data a (data.row v) := fun v hv =>
    lt_of_lt_of_le (by unfold epsilon; norm_num) (leaf_weight_big hn hc htree hv)
  obtain ⟨hex', g', hall', -, hv', hp', habs'⟩ := asgFromFl_graph R (n := data.rows)
    (degrees := fun v => tree.weightFl R.fl E data a (data.row v)) ht (fun v hv => by
      rw [htree]
      exact le_trans (by norm_num) (leaf_weightFl_big (est := est) hok hn hc hv)) hss'
  obtain ⟨-, g, hall, -, hp, habs⟩ := asgFrom_graph (n := data.rows) (degrees := fun v => tree.weight data a (data.row v)) ht hpos hss
  refine ⟨hex', g', g, hall', hall, hv', hp', congrArg WGraph.n habs', congrArg WGraph.n habs, fun x hx y hy => ⟨hp.nonneg x y, ?_⟩⟩
  have e1 := asgFl_support (est := est) hok hn hc hss' hx hy
  rw [← htree] at e1
  have hw := thr_sampled hss hW hx hy
  have hnear := sampledEdges_near R (n := data.rows) (degrees := fun v => tree.weightFl R.fl E data a (data.row v)) (fun v hv => by
    rw [htree]
    exact le_trans (by norm_num) (leaf_weightFl_big (est := est) hok hn hc hv)) ss' x y
  have herr := sampledWeight_err (nb := fun v k => ((ss' v).getD k 0).toNat) (n := data.rows)
    (D' := fun v => tree.weightFl R.fl E data a (data.row v)) (D := fun v => tree.weight data a (data.row v))
    (fun v hv => leaf_degree_err hok hn hc htree hv) x y
  have hcount := sampledWeight_count data.rows ss' (fun v => tree.weight data a (data.row v)) x y hx hy
    fun v hv => ⟨(hss' v hv).1, fun x hx => ((hss' v hv).2 x hx).1⟩
  have n1 : 0 < tree.weight data a (data.row x) / 5 := by linarith [hpos x]
  have n2 : 0 < tree.weight data a (data.row y) / 5 := by linarith [hpos y]
  have hτ := totalErr_nonneg R E data.rows data.cols
  have hg := Rounding.g_pow_one_le (R := R) 4
  rw [habs', habs]
  simp only
  rw [hw]
  rw [hcount, hsame x hx, hsame y hy] at herr
  rw [hsame x hx, hsame y hy, ← List.count_pos_iff, ← List.count_pos_iff] at e1
  obtain ⟨Y, hY⟩ : ∃ Y, Y = sampledWeight data.rows (fun v k => ((ss' v).getD k 0).toNat)
    (fun v => tree.weightFl R.fl E data a (data.row v)) x y := ⟨_, rfl⟩
  rw [← hY] at herr hnear
  obtain ⟨W', hW'⟩ : ∃ W, W = entrySum R.fl (valuesAt (sampledEdges 2 ss' (fun v => 5 * R.fl (tree.weightFl R.fl E data a (data.row v) / 5))
    data.rows) x y) := ⟨_, rfl⟩
  rw [← hW'] at e1 hnear ⊢
  obtain ⟨c1, hc1⟩ : ∃ c, c = List.count (y : Int) (ss x) := ⟨_, rfl⟩
  obtain ⟨c2, hc2⟩ : ∃ c, c = List.count (x : Int) (ss y) := ⟨_, rfl⟩
  rw [← hc1, ← hc2] at e1 herr ⊢
  by_cases h0 : thr W' = 0
  · have hz : ¬ (0 < c1 ∨ 0 < c2) := fun h => e1.2 h h0
    push Not at hz
    rw [h0, show c1 = 0 by omega, show c2 = 0 by omega]
    simp
  · have hthr : thr W' = W' := by
      unfold thr at h0 ⊢
      split_ifs at h0 ⊢ with h
      · rfl
      · exact absurd rfl h0
    rw [hthr]
    obtain ⟨X, hX⟩ : ∃ X, X = tree.weight data a (data.row x) / 5 * (c1 : ℝ) + tree.weight data a (data.row y) / 5 * (c2 : ℝ) := ⟨_, rfl⟩
    have hX0 : 0 ≤ X := by rw [hX]; positivity
    rw [← hX] at herr ⊢
    have h1 := hnear.abs_sub
    have h2 := abs_sub_le W' Y X
    have h3 : Y ≤ X + totalErr R E data.rows data.cols * X := by linarith [(abs_le.1 herr).2]
    have h4 := mul_le_mul_of_nonneg_left h3 (by linarith : 0 ≤ R.g ^ 4 - 1)
    unfold edgeErr
    calc |W' - X| ≤ (R.g ^ 4 - 1) * (X + totalErr R E data.rows data.cols * X) + totalErr R E data.rows data.cols * X := by linarith
      _ = _ := by ring

theorem sum_rel_err {ρ : ℝ} (S T : Finset Nat) {w' w : Nat → Nat → ℝ} (h : ∀ u ∈ S, ∀ v ∈ T, |w' u v - w u v| ≤ ρ * w u v) :
    |∑ u ∈ S, ∑ v ∈ T, w' u v - ∑ u ∈ S, ∑ v ∈ T, w u v| ≤ ρ * ∑ u ∈ S, ∑ v ∈ T, w u v := by
  rw [← sum_sub_distrib, mul_sum]
  refine (abs_sum_le_sum_abs _ _).trans (sum_le_sum fun u hu => ?_)
  rw [← sum_sub_distrib, mul_sum]
  exact (abs_sum_le_sum_abs _ _).trans (sum_le_sum fun v hv => h u hu v hv)

theorem rel_then_abs {x' x X δ ρ : ℝ} (hρ : 0 ≤ ρ) (h1 : |x' - x| ≤ ρ * x) (h2 : |x - X| < δ) :
    |x' - X| < δ + ρ * (X + δ) := by
  have h3 := abs_sub_le x' x X
  have h4 : x ≤ X + δ := by linarith [(abs_lt.1 h2).2]
  have := mul_le_mul_of_nonneg_left h4 hρ
  linarith

end

section
variable {Θ : Type} [MeasurableSpace Θ] {μ : Measure Θ}
variable {R : Rounding ℝ} {E : LibExp} {data : Mat ℝ} {a : ℝ} {cutoff : Nat} {est : Nat → Nat → List ℝ → ℝ} {tree : KdeTree}

/-- **C106** (cuts).  The bounds of C97 hold of the rounded code: let the data fit into one leaf and the numbers drawn be independent and
uniform, and let `ρ` be the relative error of the weight of an edge.  Except with the probability of C97 and the probability `16 n² τ`
that rounding changes a draw, for every set `S` of the family the weight leaving `S` in the computed graph is `4/5` of that in the
exact complete similarity graph up to `δ = ε + 2/5` of the average total kernel and a relative error `ρ`; and the weight at `S`
likewise with `ε + 4/5` of the average. -/
theorem C106_cuts [IsProbabilityMeasure μ] (hok : AsgFlOk R E data a cutoff est) (threads : Nat) (ht : 0 < threads)
    (hn : 2 ≤ data.rows) (hc : data.rows ≤ cutoff) (htree : tree = KdeTree.build est cutoff 0 0 (data.rows - 1) 0)
    {U : Nat → Θ → Fin 2 → ℝ} (hU : UniformDraws μ data.rows U) (F : Finset (Finset Nat)) (hF : ∀ S ∈ F, S ⊆ range data.rows) (ε : ℝ)
    (hε : 0 < ε) (ρ : ℝ) (hρ : ρ = edgeErr R E data.rows data.cols) :
    μ {θ | ¬ ∃ g : Graph ℝ,
        (∃ out, AsgFromFl R.fl data.rows threads 2 (fun v => tree.weightFl R.fl E data a (data.row v))
          (fun v => (exactOn data a 0 (data.rows - 1)).sampleNeighborsFl R.fl E (data.row v)
            (tree.weightFl R.fl E data a (data.row v)) (List.ofFn (U v θ))) out) ∧
        (∀ out, AsgFromFl R.fl data.rows threads 2 (fun v => tree.weightFl R.fl E data a (data.row v))
          (fun v => (exactOn data a 0 (data.rows - 1)).sampleNeighborsFl R.fl E (data.row v)
            (tree.weightFl R.fl E data a (data.row v)) (List.ofFn (U v θ))) out → out = .ok g) ∧
        g.Valid ∧ g.Pruned ∧ g.n = data.rows ∧ ∀ S ∈ F, ∀ c v : ℝ,
          c = 4 / 5 * ∑ u ∈ S, ∑ v ∈ range data.rows \ S, exp (-(a * sqDist (data.row u) (data.row v))) →
          v = 4 / 5 * ∑ u ∈ S, ∑ v ∈ range data.rows, exp (-(a * sqDist (data.row u) (data.row v))) →
          |g.abs.cut S - c| < (ε + 2 / 5 * averageKernelDegree data a) + ρ * (c + (ε + 2 / 5 * averageKernelDegree data a)) ∧
          |∑ u ∈ S, ∑ v ∈ range data.rows, g.abs.w u v - v|
            < (ε + 4 / 5 * averageKernelDegree data a) + ρ * (v + (ε + 4 / 5 * averageKernelDegree data a))} ≤
      ENNReal.ofReal (4 * F.card *
        exp (-(25 * ε ^ 2 / ∑ u ∈ range data.rows, kernelDegree data a u ^ 2)))
      + ENNReal.ofReal (16 * data.rows ^ 2 * totalErr R E data.rows data.cols) := by
  have hL := hU.samples (a := a) (est := est) hn hc htree
  have h1 := C97_similarity threads ht hn hc htree hL F hF ε hε
  have h2 := samples_differ_le (tree := tree) hok hn hc htree hU
  have hnull := ae_iff.1 (draws_good hn htree hL)
  refine le_trans (measure_mono ?_) (le_trans (measure_union_le _ _) (add_le_add h1 (le_trans (measure_union_le _ _)
    (le_trans (add_le_add h2 hnull.le) (add_zero _).le))))
  intro θ hθ
  by_contra hno
  simp only [Set.mem_union, not_or, Set.mem_ofPred_eq, not_not] at hno
  obtain ⟨⟨g, hex, hall, hv, hp, hgn, hcut⟩, hsame, hgood⟩ := hno
  push Not at hsame
  apply hθ
  obtain ⟨hex', g', g2, hall', hall2, hv', hp', hn', hn2, hclose⟩ := asgFl_close hok threads ht hn hc htree hgood hsame
  obtain ⟨out, hout⟩ := hex
  have heq : g2 = g := by
    have e1 := hall2 out hout
    have e2 := hall out hout
    rw [e1] at e2
    exact Outcome.ok.inj e2
  subst heq
  have hρ0 : 0 ≤ ρ := by
    rw [hρ]
    exact edgeErr_nonneg _ _ _ _
  rw [← hρ] at hclose
  refine ⟨g', hex', hall', hv', hp', hn', fun S hS c v hc hv => ?_⟩
  obtain ⟨c1, c2⟩ := hcut S hS
  have hSn := hF S hS
  rw [← hc] at c1
  rw [← hv] at c2
  refine ⟨rel_then_abs hρ0 ?_ c1, rel_then_abs hρ0 ?_ c2⟩
  · unfold WGraph.cut
    rw [show g'.abs.n = data.rows from hn', show g2.abs.n = data.rows from hn2]
    exact sum_rel_err _ _ fun u hu v hv => (hclose u (mem_range.1 (hSn hu)) v (mem_range.1 (mem_sdiff.1 hv).1)).2
  · exact sum_rel_err _ _ fun u hu v hv => (hclose u (mem_range.1 (hSn hu)) v (mem_range.1 hv)).2

theorem neighborList_length {s : WGraph ℝ} {v : Nat} {es : List (Nat × ℝ)} (h : NeighborList s v es) : es.length ≤ s.n := by
  have h1 : (es.map Prod.fst).toFinset ⊆ range s.n := by
    intro u hu
    obtain ⟨e, he, rfl⟩ := List.mem_map.1 (List.mem_toFinset.1 hu)
    exact mem_range.2 ((h.2 e.1 e.2).1 he).1
  have h2 := card_le_card h1
  rwa [List.toFinset_card_of_nodup h.1, card_range, List.length_map] at h2

/-- The computed conductance of a set of vertices of a valid graph. -/
theorem conductanceFl_near {R : Rounding ℝ} {g : Graph ℝ} (hv : g.Valid) (hp : g.Pruned) {S : List Nat} (hS : ∀ u ∈ S, u < g.n) :
    ∃ x y, conductanceFl R.fl (g.asLocalFl R.fl) (S.map fun u : Nat => (u : Int)) = .ok x ∧
      conductance g.asLocal (S.map fun u : Nat => (u : Int)) = .ok y ∧ R.Near ((2 * g.n + 1) * S.length + 1) x y := by
  have ha := Graph.asLocal_answers hv
  have key : ∀ S' : List Nat, (∀ u ∈ S', u < g.n) → ∃ ess : List (List (Edge ℝ)),
      List.Forall₂ (fun v es => (g.asLocalFl R.fl).neighbors v = .ok es) (S'.map fun u : Nat => (u : Int)) ess ∧
      (∀ es ∈ ess, ∀ e ∈ es, 0 ≤ e.w) ∧ (ess.map List.length).sum ≤ g.n * S'.length := by
    intro S'
    induction S' with
    | nil => exact fun _ => ⟨[], .nil, by simp, by simp⟩
    | cons v l ih =>
      intro hl
      obtain ⟨ess, h1, h2, h3⟩ := ih fun u hu => hl u (List.mem_cons_of_mem _ hu)
      obtain ⟨es, hes, -, hnl⟩ := ha.nbrs v (hl v (by simp))
      refine ⟨es :: ess, .cons hes h1, ?_, ?_⟩
      · intro es' hes'
        rcases List.mem_cons.1 hes' with rfl | hm
        · intro e he
          have := ((hnl.2 e.v2 e.w).1 (List.mem_map.2 ⟨e, he, rfl⟩)).2.1
          rw [← this]
          exact hp.nonneg _ _
        · exact h2 es' hm
      · have := neighborList_length hnl
        rw [List.length_map] at this
        change es.length ≤ g.n at this
        rw [List.map_cons, List.sum_cons, List.length_cons, Nat.mul_succ]
        omega
  obtain ⟨ess, h1, h2, h3⟩ := key S hS
  obtain ⟨x, y, e1, e2, e3, e4, e5, e6⟩ := C77_conductance_value (R := R) h1 h2
  rw [show conductance (g.asLocalFl R.fl) (S.map fun u : Nat => (u : Int)) = conductance g.asLocal (S.map fun u : Nat => (u : Int)) from
    C93_conductance _ fun v _ => rfl] at e2
  refine ⟨x, y, e1, e2, ?_⟩
  rw [List.length_map] at e5 e6
  have hN : R.Near (2 * (ess.map List.length).sum + S.length + 1) x y := ⟨e3, e4, e5, e6⟩
  refine hN.mono ?_
  have : (2 * g.n + 1) * S.length = 2 * (g.n * S.length) + S.length := by ring
  omega

/-- **C106** (conductance).  Under the conditions of the previous theorem, with `η = ε + 4/5` of the average total kernel: for every
duplicate-free list of rows whose set belongs to the family, `c` and `v` being `4/5` of the cut and of the total weight in the exact complete
similarity graph and `η' = η + ρ (v + η) < v`, the conductance that `conductance` computes in floating point on the computed graph is
between `(c - η') / (v + η')` and `(c + η') / (v - η')`, up to `(2 n + 1) |S| + 1` roundings. -/
theorem C106_conductance [IsProbabilityMeasure μ] (hok : AsgFlOk R E data a cutoff est) (threads : Nat) (ht : 0 < threads)
    (hn : 2 ≤ data.rows) (hc : data.rows ≤ cutoff) (htree : tree = KdeTree.build est cutoff 0 0 (data.rows - 1) 0)
    {U : Nat → Θ → Fin 2 → ℝ} (hU : UniformDraws μ data.rows U) (F : Finset (Finset Nat)) (hF : ∀ S ∈ F, S ⊆ range data.rows) (ε : ℝ)
    (hε : 0 < ε) (ρ : ℝ) (hρ : ρ = edgeErr R E data.rows data.cols) (η : ℝ) (hη : η = ε + 4 / 5 * averageKernelDegree data a) :
    μ {θ | ¬ ∃ g : Graph ℝ,
        (∃ out, AsgFromFl R.fl data.rows threads 2 (fun v => tree.weightFl R.fl E data a (data.row v))
          (fun v => (exactOn data a 0 (data.rows - 1)).sampleNeighborsFl R.fl E (data.row v)
            (tree.weightFl R.fl E data a (data.row v)) (List.ofFn (U v θ))) out) ∧
        (∀ out, AsgFromFl R.fl data.rows threads 2 (fun v => tree.weightFl R.fl E data a (data.row v))
          (fun v => (exactOn data a 0 (data.rows - 1)).sampleNeighborsFl R.fl E (data.row v)
            (tree.weightFl R.fl E data a (data.row v)) (List.ofFn (U v θ))) out → out = .ok g) ∧
        ∀ (S : List Nat) (c v η' : ℝ), S.Nodup → S.toFinset ∈ F →
          c = 4 / 5 * ∑ u ∈ S.toFinset, ∑ v ∈ range data.rows \ S.toFinset, exp (-(a * sqDist (data.row u) (data.row v))) →
          v = 4 / 5 * ∑ u ∈ S.toFinset, ∑ v ∈ range data.rows, exp (-(a * sqDist (data.row u) (data.row v))) →
          η' = η + ρ * (v + η) → η' < v →
          ∃ φ, conductanceFl R.fl (g.asLocalFl R.fl) (S.map fun u : Nat => (u : Int)) = .ok φ ∧
            (c - η') / (v + η') ≤ (1 / (1 - R.u)) ^ ((2 * data.rows + 1) * S.length + 1) * φ ∧
            φ ≤ (1 / (1 - R.u)) ^ ((2 * data.rows + 1) * S.length + 1) * ((c + η') / (v - η'))} ≤
      ENNReal.ofReal (4 * F.card *
        exp (-(25 * ε ^ 2 / ∑ u ∈ range data.rows, kernelDegree data a u ^ 2)))
      + ENNReal.ofReal (16 * data.rows ^ 2 * totalErr R E data.rows data.cols) := by
  refine le_trans (measure_mono fun θ hθ => ?_) (C106_cuts hok threads ht hn hc htree hU F hF ε hε ρ hρ)
  rw [Set.mem_ofPred_eq] at hθ ⊢
  refine fun hex => hθ ?_
  obtain ⟨g, h1, h2, h3, hpr, h4, h5⟩ := hex
  refine ⟨g, h1, h2, fun S c v η' hd hS hcc hvv hη' hbig => ?_⟩
  obtain ⟨c1, c2⟩ := h5 S.toFinset hS c v hcc hvv
  have hSn : ∀ u ∈ S, u < data.rows := fun u hu => mem_range.1 (hF _ hS (List.mem_toFinset.2 hu))
  have hr : (0 : ℝ) < data.rows := by exact_mod_cast (by omega : 0 < data.rows)
  have hA : 0 ≤ averageKernelDegree data a :=
    div_nonneg (sum_nonneg fun u _ => sum_nonneg fun v _ => (kernelRow_pos _ _ _ _).le) hr.le
  have hρ0 : 0 ≤ ρ := by
    rw [hρ]
    exact edgeErr_nonneg _ _ _ _
  have hcv : c ≤ v := by
    rw [hcc, hvv]
    refine mul_le_mul_of_nonneg_left (sum_le_sum fun u _ => sum_le_sum_of_subset_of_nonneg sdiff_subset fun v _ _ => (exp_pos _).le) (by norm_num)
  have hηη : (ε + 2 / 5 * averageKernelDegree data a) + ρ * (c + (ε + 2 / 5 * averageKernelDegree data a)) ≤ η' := by
    rw [hη', hη]
    have := mul_le_mul_of_nonneg_left (show c + (ε + 2 / 5 * averageKernelDegree data a) ≤ v + (ε + 4 / 5 * averageKernelDegree data a) by
      linarith) hρ0
    linarith
  have c1 := c1.trans_le hηη
  rw [← hη, ← hη'] at c2
  rw [abs_lt] at c1 c2
  obtain ⟨x, y, hx, hy, hxy⟩ := conductanceFl_near (R := R) h3 hpr (S := S) fun u hu => by rw [h4]; exact hSn u hu
  have hval := C33_value (Graph.asLocal_answers h3) S (fun u hu => by rw [show g.abs.n = data.rows from h4]; exact hSn u hu)
  rw [list_sum_finset hd, list_sum_finset hd, show g.abs.n = data.rows from h4] at hval
  unfold WGraph.cut at c1
  rw [show g.abs.n = data.rows from h4] at c1
  obtain ⟨X, hX⟩ : ∃ X, X = ∑ u ∈ S.toFinset, ∑ v ∈ range data.rows \ S.toFinset, g.abs.w u v := ⟨_, rfl⟩
  obtain ⟨Y, hY⟩ : ∃ Y, Y = ∑ u ∈ S.toFinset, ∑ v ∈ range data.rows, g.abs.w u v := ⟨_, rfl⟩
  rw [← hX] at c1 hval
  rw [← hY] at c2 hval
  have hY0 : 0 < Y := by linarith [c2.1]
  have hX0 : 0 ≤ X := by
    rw [hX]
    exact sum_nonneg fun u _ => sum_nonneg fun v _ => hpr.nonneg u v
  rw [if_neg hY0.ne', hy] at hval
  cases hval
  rw [h4] at hxy
  have hη0 : 0 ≤ η' := by
    have : 0 ≤ η := by rw [hη]; linarith
    have : 0 ≤ ρ * (v + η) := mul_nonneg hρ0 (by
      have : 0 ≤ v := by rw [hvv]; exact mul_nonneg (by norm_num) (sum_nonneg fun u _ => sum_nonneg fun v _ => (exp_pos _).le)
      linarith)
    linarith
  have hG : 0 ≤ (1 / (1 - R.u)) ^ ((2 * data.rows + 1) * S.length + 1) :=
    pow_nonneg (one_div_nonneg.2 (Rounding.one_sub_pos (R := R)).le) _
  refine ⟨x, hx, le_trans ?_ hxy.ge, hxy.le.trans (mul_le_mul_of_nonneg_left ?_ hG)⟩
  · rw [div_le_div_iff₀ (by linarith) hY0]
    rcases le_total (c - η') 0 with hz | hz
    · exact le_trans (mul_nonpos_of_nonpos_of_nonneg hz hY0.le) (mul_nonneg hX0 (by linarith))
    · exact mul_le_mul (by linarith [c1.1]) (by linarith [c2.2]) hY0.le hX0
  · rw [div_le_div_iff₀ hY0 (by linarith)]
    exact mul_le_mul (by linarith [c1.2]) (by linarith [c2.1]) (by linarith) (by linarith [c1.2])

end

/-- **C106** (doubles).  In double precision, with an exponential function accurate to `2^-52`, for `n` rows with `d` coordinates where
`n (2 d + 15) ≤ 2^50`, the relative error `ρ` of the weight of an edge is at most `n (2 d + 18) 2^-52`. -/
theorem C106_double (E : LibExp) (hη : E.η ≤ (2 : ℝ) ^ (-52 : Int)) (hτ : E.τ ≤ (2 : ℝ) ^ (-52 : Int)) (n d : Nat)
    (hn : 2 ≤ n) (hnd : n * (2 * d + 15) ≤ 2 ^ 50) :
    0 ≤ edgeErr (Rounding.binary ℝ 53 (by norm_num)) E n d ∧
    edgeErr (Rounding.binary ℝ 53 (by norm_num)) E n d ≤ n * (2 * d + 18) * (2 : ℝ) ^ (-52 : Int) := by
  refine ⟨edgeErr_nonneg _ _ _ _, ?_⟩
  have hn1 : n + 3 ≤ 2 ^ 51 := by
    have : n * 15 ≤ n * (2 * d + 15) := Nat.mul_le_mul_left n (by omega)
    have e : 2 ^ 51 = 2 * 2 ^ 50 := by norm_num
    rw [e]
    generalize (2 : Nat) ^ 50 = z at *
    omega
  have hd1 : d + 4 ≤ 2 ^ 51 := by
    have : 2 * (2 * d + 15) ≤ n * (2 * d + 15) := Nat.mul_le_mul_right _ hn
    have e : 2 ^ 51 = 2 * 2 ^ 50 := by norm_num
    rw [e]
    generalize (2 : Nat) ^ 50 = z at *
    omega
  have h1 := C101_double E hη hτ n d hn hn1 hd1
  have hu : (Rounding.binary ℝ 53 (by norm_num)).u = (2 : ℝ) ^ (-53 : Int) := rfl
  have h2 := g_pow_sub_one_le (R := Rounding.binary ℝ 53 (by norm_num)) (k := 4) (by rw [hu]; norm_num)
  rw [hu] at h2
  have hsm : (n : ℝ) * (2 * d + 15) * (2 : ℝ) ^ (-52 : Int) ≤ 1 / 4 := by
    have : ((n * (2 * d + 15) : Nat) : ℝ) ≤ ((2 ^ 50 : Nat) : ℝ) := by exact_mod_cast hnd
    push_cast at this
    refine (mul_le_mul_of_nonneg_right this (by positivity)).trans ?_
    norm_num
  have hnR : (2 : ℝ) ≤ n := by exact_mod_cast hn
  unfold edgeErr
  generalize (Rounding.binary ℝ 53 (by norm_num)).g ^ 4 = G at *
  generalize totalErr (Rounding.binary ℝ 53 (by norm_num)) E n d = τ at *
  have e : (2 : ℝ) ^ (-53 : Int) = (2 : ℝ) ^ (-52 : Int) / 2 := by norm_num
  rw [e] at h2
  have hz : (0 : ℝ) ≤ (2 : ℝ) ^ (-52 : Int) := by positivity
  have hz2 : (2 : ℝ) ^ (-52 : Int) ≤ 1 / 1000 := by norm_num
  generalize (2 : ℝ) ^ (-52 : Int) = z at *
  have h3 : (G - 1) * (1 + τ) ≤ 4 * z * (5 / 4) :=
    mul_le_mul (by push_cast at h2; linarith) (by linarith) (by linarith) (by linarith)
  have h4 : 2 * z ≤ n * z := mul_le_mul_of_nonneg_right hnR hz
  have h5 : (n : ℝ) * (2 * d + 18) * z = n * (2 * d + 15) * z + 3 * (n * z) := by ring
  rw [h5]
  linarith

/-! ## Example -/

/-- One thousand points at 0 and one thousand points at 5, in double precision: except with probability `1 / 500` the conductance that is
computed for the first group on the computed graph is at most `1 / 10`. -/
example (E : LibExp) (hη : E.η ≤ (2 : ℝ) ^ (-52 : Int)) (hτ : E.τ ≤ (2 : ℝ) ^ (-52 : Int)) :
    ∃ (Θ : Type) (_ : MeasurableSpace Θ) (μ : Measure Θ) (U : Nat → Θ → Fin 2 → ℝ)
    (data : Mat ℝ) (tree : KdeTree), IsProbabilityMeasure μ ∧ data.rows = 2000 ∧
    (∀ v < 1000, data.row v = [0]) ∧ (∀ v, 1000 ≤ v → v < 2000 → data.row v = [5]) ∧
    tree = KdeTree.build (fun _ _ _ => 0) 5000 0 0 (data.rows - 1) 0 ∧ UniformDraws μ data.rows U ∧
    μ {θ | ¬ ∃ g : Graph ℝ,
        (∀ out, AsgFromFl (flBin 53) data.rows 4 2 (fun v => tree.weightFl (flBin 53) E data 1 (data.row v))
          (fun v => (exactOn data 1 0 (data.rows - 1)).sampleNeighborsFl (flBin 53) E (data.row v)
            (tree.weightFl (flBin 53) E data 1 (data.row v)) (List.ofFn (U v θ))) out → out = .ok g) ∧
        ∃ φ, conductanceFl (flBin 53) (g.asLocalFl (flBin 53)) ((List.range 1000).map fun u : Nat => (u : Int)) = .ok φ ∧
          φ ≤ 1 / 10} ≤ ENNReal.ofReal (1 / 500) := by
  obtain ⟨data, cl, hrows, hcols, r0, r1, hcl', hsame, hbound⟩ := twoGroups_exist
  obtain ⟨Θ, hΘ, μ, U, hμ, hU⟩ := uniformDraws_exist data.rows
  refine ⟨Θ, hΘ, μ, U, data, _, hμ, hrows, r0, r1, rfl, hU, ?_⟩
  have hok := C100_double E data 1 (by norm_num) 5000 (fun _ _ _ => 0) (by rw [hrows]; norm_num) (by rw [hrows]; norm_num)
  have hd := C101_double E hη hτ data.rows data.cols (by rw [hrows]; norm_num) (by rw [hrows]; norm_num) (by rw [hcols]; norm_num)
  have hρ := C106_double E hη hτ data.rows data.cols (by rw [hrows]; norm_num) (by rw [hrows, hcols]; norm_num)
  -- the kernel between the groups
  have hker : ∀ u v, 0 < exp (-(1 * sqDist (data.row u) (data.row v))) := fun u v => exp_pos _
  obtain ⟨k, hk⟩ : ∃ k : Nat → Nat → ℝ, k = fun u v => exp (-(1 * sqDist (data.row u) (data.row v))) := ⟨_, rfl⟩
  have hk0 : ∀ u v, 0 < k u v := fun u v => by rw [hk]; exact hker u v
  have hcross : ∑ u ∈ range 2000, ∑ v ∈ (range 2000).filter (fun v => cl v ≠ cl u), k u v ≤ 1 / 200 := by
    have h2 : 0 ≤ ∑ c ∈ (range data.rows).image cl, (8 / (((range data.rows).filter fun v => cl v = c).card : ℝ)
          + ((range data.rows).filter fun v => cl v = c).card * (9 / 10) ^ ((range data.rows).filter fun v => cl v = c).card) :=
      sum_nonneg fun c _ => by positivity
    rw [hk]
    rw [hrows] at hbound h2
    linarith
  have hone : ∀ u < 2000, ∑ v ∈ (range 2000).filter (fun v => cl v ≠ cl u), k u v ≤ 1 / 200 := fun u hu =>
    (single_le_sum (f := fun u => ∑ v ∈ (range 2000).filter (fun v => cl v ≠ cl u), k u v)
      (fun u _ => sum_nonneg fun v _ => (hk0 u v).le) (mem_range.2 hu)).trans hcross
  have hcard : ∀ u < 2000, ((range 2000).filter (fun v => cl v = cl u)).card = 1000 := by
    intro u hu
    by_cases h : u < 1000
    · have : (range 2000).filter (fun v => cl v = cl u) = range 1000 := by
        ext v
        simp only [mem_filter, mem_range]
        constructor
        · rintro ⟨h1, h2⟩
          exact ((hcl' v h1 u hu).1 h2).2 h
        · intro h1
          exact ⟨by omega, (hcl' v (by omega) u hu).2 ⟨fun _ => h, fun _ => h1⟩⟩
      rw [this, card_range]
    · have : (range 2000).filter (fun v => cl v = cl u) = Finset.Ico 1000 2000 := by
        ext v
        simp only [mem_filter, mem_range, Finset.mem_Ico]
        constructor
        · rintro ⟨h1, h2⟩
          refine ⟨?_, h1⟩
          by_contra hv
          exact h (((hcl' v h1 u hu).1 h2).1 (by omega))
        · rintro ⟨h1, h2⟩
          exact ⟨h2, (hcl' v h2 u hu).2 ⟨fun h3 => absurd h3 (by omega), fun h3 => absurd h3 h⟩⟩
      rw [this, Nat.card_Ico]
  have hrow : ∀ u < 2000, 1000 ≤ ∑ v ∈ range 2000, k u v ∧ ∑ v ∈ range 2000, k u v ≤ 1001 := by
    intro u hu
    have h1 : ∑ v ∈ range 2000, k u v = ∑ v ∈ (range 2000).filter (fun v => cl v = cl u), k u v +
        ∑ v ∈ (range 2000).filter (fun v => cl v ≠ cl u), k u v := (sum_filter_add_sum_filter_not _ _ _).symm
    have h2 : ∑ v ∈ (range 2000).filter (fun v => cl v = cl u), k u v = 1000 := by
      rw [sum_congr rfl (g := fun _ => (1 : ℝ)) fun v hv => by
        have hv := mem_filter.1 hv
        rw [hk]
        exact hsame u hu v (mem_range.1 hv.1) hv.2.symm]
      rw [sum_const, hcard u hu]
      norm_num
    have h3 := hone u hu
    have h4 : 0 ≤ ∑ v ∈ (range 2000).filter (fun v => cl v ≠ cl u), k u v := sum_nonneg fun v _ => (hk0 u v).le
    rw [h1, h2]
    constructor <;> linarith
  have hdeg : ∀ u < 2000, 1000 ≤ kernelDegree data 1 u ∧ kernelDegree data 1 u ≤ 1001 := by
    intro u hu
    have h := hrow u hu
    rw [hk] at h
    unfold kernelDegree kernelRow
    rw [hrows]
    exact h
  have havg : 0 ≤ averageKernelDegree data 1 ∧ averageKernelDegree data 1 ≤ 1001 := by
    unfold averageKernelDegree
    rw [hrows]
    constructor
    · exact div_nonneg (sum_nonneg fun u hu => by linarith [(hdeg u (mem_range.1 hu)).1]) (by norm_num)
    · rw [div_le_iff₀ (by norm_num)]
      refine (sum_le_sum fun u hu => (hdeg u (mem_range.1 hu)).2).trans (le_of_eq ?_)
      rw [sum_const, card_range]
      norm_num
  have hsq : ∑ u ∈ range data.rows, kernelDegree data 1 u ^ 2 ≤ 2000 * 1001 ^ 2 := by
    rw [hrows]
    refine (sum_le_sum fun u hu => pow_le_pow_left₀ (by linarith [(hdeg u (mem_range.1 hu)).1]) (hdeg u (mem_range.1 hu)).2 2).trans
      (le_of_eq ?_)
    rw [sum_const, card_range]
    norm_num
  have hsq0 : 0 < ∑ u ∈ range data.rows, kernelDegree data 1 u ^ 2 := by
    rw [hrows]
    exact sum_pos (fun u hu => pow_pos (by linarith [(hdeg u (mem_range.1 hu)).1]) 2) ⟨0, by simp⟩
  refine le_trans (measure_mono fun θ hθ => ?_) (le_trans (C106_conductance hok 4 (by norm_num) (by rw [hrows]; norm_num)
    (by rw [hrows]; norm_num) rfl hU {range 1000} (fun S hS => by
      rw [mem_singleton.1 hS, hrows]
      exact range_subset_range.2 (by norm_num)) 40000 (by norm_num) _ rfl _ rfl) ?_)
  · rw [Set.mem_ofPred_eq] at hθ ⊢
    refine fun hex => hθ ?_
    obtain ⟨g, -, h2, h3⟩ := hex
    refine ⟨g, h2, ?_⟩
    have hS : (List.range 1000).toFinset = range 1000 := by
      ext x
      simp
    obtain ⟨c, hcd⟩ : ∃ c, c = 4 / 5 * ∑ u ∈ range 1000, ∑ v ∈ range data.rows \ range 1000, k u v := ⟨_, rfl⟩
    obtain ⟨w, hwd⟩ : ∃ w, w = 4 / 5 * ∑ u ∈ range 1000, ∑ v ∈ range data.rows, k u v := ⟨_, rfl⟩
    have hc1 : c ≤ 1 / 200 := by
      have h1 : ∑ u ∈ range 1000, ∑ v ∈ range data.rows \ range 1000, k u v
          ≤ ∑ u ∈ range 2000, ∑ v ∈ (range 2000).filter (fun v => cl v ≠ cl u), k u v := by
        refine le_trans (sum_le_sum fun u hu => ?_) (sum_le_sum_of_subset_of_nonneg (range_subset_range.2 (by norm_num))
          fun u _ _ => sum_nonneg fun v _ => (hk0 u v).le)
        refine sum_le_sum_of_subset_of_nonneg (fun v hv => ?_) fun v _ _ => (hk0 u v).le
        rw [hrows] at hv
        obtain ⟨h1, h2⟩ := mem_sdiff.1 hv
        rw [mem_range] at h1 h2 hu
        refine mem_filter.2 ⟨mem_range.2 h1, fun e => h2 (((hcl' v h1 u (by omega)).1 e).2 hu)⟩
      have h0 : 0 ≤ ∑ u ∈ range 1000, ∑ v ∈ range data.rows \ range 1000, k u v :=
        sum_nonneg fun u _ => sum_nonneg fun v _ => (hk0 u v).le
      rw [hcd]
      linarith
    have hw1 : 800000 ≤ w ∧ w ≤ 801000 := by
      have h1 : ∀ u ∈ range 1000, 1000 ≤ ∑ v ∈ range data.rows, k u v ∧ ∑ v ∈ range data.rows, k u v ≤ 1001 := fun u hu => by
        rw [hrows]
        exact hrow u (by have := mem_range.1 hu; omega)
      have h2 := sum_le_sum fun u hu => (h1 u hu).1
      have h3 := sum_le_sum fun u hu => (h1 u hu).2
      rw [sum_const, card_range] at h2 h3
      rw [hwd]
      norm_num at h2 h3
      constructor <;> linarith
    obtain ⟨η, hη'⟩ : ∃ η, η = 40000 + 4 / 5 * averageKernelDegree data 1 := ⟨_, rfl⟩
    obtain ⟨ρ, hρd⟩ : ∃ ρ, ρ = edgeErr (Rounding.binary ℝ 53 (by norm_num)) E data.rows data.cols := ⟨_, rfl⟩
    rw [← hη', ← hρd] at h3
    have hρ1 : 0 ≤ ρ ∧ ρ ≤ 1 / 1000000 := by
      rw [hρd]
      refine ⟨hρ.1, hρ.2.trans ?_⟩
      rw [hrows, hcols]
      norm_num
    have hη1 : 0 ≤ η ∧ η ≤ 41000 := by
      rw [hη']
      constructor <;> linarith [havg.1, havg.2]
    obtain ⟨φ, e1, -, e2⟩ := h3 (List.range 1000) c w _ List.nodup_range (by rw [hS]; exact mem_singleton_self _)
      (by rw [hS, hcd, hk]) (by rw [hS, hwd, hk]) rfl (by nlinarith [hw1.1, hw1.2, hη1.1, hη1.2, hρ1.1, hρ1.2])
    refine ⟨φ, e1, e2.trans ?_⟩
    obtain ⟨η', hη2⟩ : ∃ η', η' = η + ρ * (w + η) := ⟨_, rfl⟩
    rw [← hη2]
    have hη3 : 0 ≤ η' ∧ η' ≤ 42000 := by
      have h1 : ρ * (w + η) ≤ 1 / 1000000 * (w + η) := mul_le_mul_of_nonneg_right hρ1.2 (by linarith [hw1.1, hη1.1])
      have h2 : 0 ≤ ρ * (w + η) := mul_nonneg hρ1.1 (by linarith [hw1.1, hη1.1])
      rw [hη2]
      constructor <;> linarith [hw1.1, hw1.2, hη1.1, hη1.2]
    have hu : (Rounding.binary ℝ 53 (by norm_num)).u = (2 : ℝ) ^ (-53 : Int) := rfl
    have hG := g_pow_sub_one_le (R := Rounding.binary ℝ 53 (by norm_num)) (k := (2 * data.rows + 1) * (List.range 1000).length + 1) (by
      rw [hu, hrows, List.length_range]
      norm_num)
    rw [hu, hrows, List.length_range] at hG
    have hG1 := Rounding.g_pow_one_le (R := Rounding.binary ℝ 53 (by norm_num)) ((2 * 2000 + 1) * 1000 + 1)
    rw [hrows, List.length_range]
    change (Rounding.binary ℝ 53 (by norm_num)).g ^ ((2 * 2000 + 1) * 1000 + 1) * _ ≤ _
    obtain ⟨G, hGd⟩ : ∃ G, G = (Rounding.binary ℝ 53 (by norm_num)).g ^ ((2 * 2000 + 1) * 1000 + 1) := ⟨_, rfl⟩
    rw [← hGd] at hG hG1 ⊢
    have hG2 : G ≤ 1001 / 1000 := by
      norm_num at hG ⊢
      linarith
    have hq : (c + η') / (w - η') ≤ 1 / 12 := by
      rw [div_le_iff₀ (by linarith [hw1.1, hη3.2])]
      linarith [hw1.1, hη3.2]
    have hq0 : 0 ≤ (c + η') / (w - η') := by
      refine div_nonneg ?_ (by linarith [hw1.1, hη3.2])
      have : 0 ≤ c := by
        rw [hcd]
        exact mul_nonneg (by norm_num) (sum_nonneg fun u _ => sum_nonneg fun v _ => (hk0 u v).le)
      linarith [hη3.1]
    calc G * ((c + η') / (w - η')) ≤ 1001 / 1000 * (1 / 12) := mul_le_mul hG2 hq hq0 (by norm_num)
      _ ≤ 1 / 10 := by norm_num
  · refine le_trans (add_le_add (ENNReal.ofReal_le_ofReal (q := 1 / 1000) ?_) (ENNReal.ofReal_le_ofReal (q := 1 / 1000) ?_)) ?_
    · rw [card_singleton, Nat.cast_one, mul_one]
      have h1 : (19 : ℝ) ≤ 25 * 40000 ^ 2 / ∑ u ∈ range data.rows, kernelDegree data 1 u ^ 2 := by
        rw [le_div_iff₀ hsq0]
        refine (mul_le_mul_of_nonneg_left hsq (by norm_num)).trans ?_
        norm_num
      have h2 : exp (-(25 * 40000 ^ 2 / ∑ u ∈ range data.rows, kernelDegree data 1 u ^ 2)) ≤ exp (-19) :=
        exp_le_exp.2 (by linarith)
      have h3 : exp (-19 : ℝ) = exp (-1) ^ 19 := by
        rw [← exp_nat_mul]
        norm_num
      have h4 : exp (-1 : ℝ) ≤ 1 / 2 := by
        rw [exp_neg, ← one_div]
        exact one_div_le_one_div_of_le (by norm_num) (by linarith [add_one_le_exp (1 : ℝ)])
      have h5 : exp (-1 : ℝ) ^ 19 ≤ (1 / 2) ^ 19 := pow_le_pow_left₀ (exp_pos _).le h4 19
      rw [h3] at h2
      norm_num at h5
      linarith
    · generalize totalErr (Rounding.binary ℝ 53 (by norm_num)) E data.rows data.cols = τ at *
      have hd2 := hd.2
      rw [hrows, hcols] at hd2
      rw [hrows]
      norm_num at hd2 ⊢
      linarith
    · rw [← ENNReal.ofReal_add (by norm_num) (by norm_num)]
      exact ENNReal.ofReal_le_ofReal (by norm_num)

end Stag
