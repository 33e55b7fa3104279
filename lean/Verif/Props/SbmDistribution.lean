import Verif.Props.RandomCount
import Mathlib.Probability.Independence.Basic
import Mathlib.Combinatorics.SimpleGraph.Basic
import Mathlib.Probability.Independence.InfinitePi
import Mathlib.MeasureTheory.Constructions.BorelSpace.Order
import Mathlib.MeasureTheory.Function.Floor
import Mathlib.MeasureTheory.Measure.Lebesgue.Basic

/-!
# C66: exact sampling follows the stochastic block model

The generator is given by a sequence of independent random numbers, uniform on `[0, 1)`; a coin with
probability `p` compares the next one with `p`.  In exact mode, every graph then comes out with exactly its
probability in the stochastic block model: each pair of vertices is an edge independently of all others, with
the probability of its two clusters.
-/

set_option linter.unusedSectionVars false

open MeasureTheory ProbabilityTheory

namespace Stag

/-- The pairs of vertices of a block that are drawn, with their probability. -/
def blockDraws (P : DenseMat ℝ) (b : SbmBlock) : List ((Nat × Nat) × ℝ) :=
  ((blockPairs b).filter (fun q => decide (¬ (b.ci = b.cj ∧ q.2 ≤ q.1)))).map
    (fun q => (q, P.entry b.ci b.cj))

/-- The edges for given random numbers. -/
noncomputable def select (x : Nat → ℝ) : List ((Nat × Nat) × ℝ) → Nat → List Emit
  | [], _ => []
  | d :: ds, n => (if x n < d.2 then [⟨d.1.1, d.1.2, true⟩] else []) ++ select x ds (n + 1)

theorem select_append (x : Nat → ℝ) (a b : List ((Nat × Nat) × ℝ)) : ∀ n,
    select x (a ++ b) n = select x a n ++ select x b (n + a.length) := by
  induction a with
  | nil => intro n; simp [select]
  | cons d a ih =>
    intro n
    rw [List.cons_append, select, select, ih (n + 1), List.append_assoc, List.length_cons]
    rw [show n + 1 + a.length = n + (a.length + 1) by omega]

/-- A generator whose state counts the numbers drawn, with coins that compare them with `p`. -/
def Draws (R : Rng ℝ Nat) (x : Nat → ℝ) : Prop :=
  ∀ n p, 0 ≤ p → p ≤ 1 → R.coin p n = (decide (x n < p), n + 1)

theorem directLoop_draws {R : Rng ℝ Nat} {x : Nat → ℝ} (hR : Draws R x) (same : Bool) (p : ℝ)
    (h0 : 0 ≤ p) (h1 : p ≤ 1) (ps : List (Nat × Nat)) : ∀ n,
    directLoop R same p ps n =
      (select x ((ps.filter (fun q => decide (¬ (same = true ∧ q.2 ≤ q.1)))).map (fun q => (q, p))) n,
        n + (ps.filter (fun q => decide (¬ (same = true ∧ q.2 ≤ q.1)))).length) := by
  induction ps with
  | nil => intro n; rfl
  | cons q ps ih =>
    intro n
    obtain ⟨i, j⟩ := q
    unfold directLoop
    by_cases h : same = true ∧ j ≤ i
    · rw [if_pos h, ih, List.filter_cons_of_neg (by simpa using h)]
    · have hd : (fun q : Nat × Nat => decide (¬ (same = true ∧ q.2 ≤ q.1))) (i, j) = true := decide_eq_true h
      rw [if_neg h, List.filter_cons_of_pos (p := fun q : Nat × Nat =>
        decide (¬ (same = true ∧ q.2 ≤ q.1))) hd, hR n p h0 h1]
      simp only [ih, List.map_cons, select, List.length_cons]
      by_cases hx : x n < p
      · simp only [hx, decide_true, if_true, List.cons_append, List.nil_append, Prod.mk.injEq, true_and]
        omega
      · simp only [hx, decide_false, Bool.false_eq_true, if_false, List.nil_append, Prod.mk.injEq,
          true_and]
        omega

theorem sampleBlocks_draws {R : Rng ℝ Nat} {x : Nat → ℝ} (hR : Draws R x) (fuel : Nat) (P : DenseMat ℝ)
    (bs : List SbmBlock) : (∀ b ∈ bs, 0 ≤ P.entry b.ci b.cj ∧ P.entry b.ci b.cj ≤ 1) → ∀ n,
    sampleBlocks R fuel P true bs n =
      some (select x (bs.flatMap (blockDraws P)) n, n + (bs.flatMap (blockDraws P)).length) := by
  induction bs with
  | nil => intro _ n; rfl
  | cons b bs ih =>
    intro hb n
    have h1 : sampleBlock R fuel P true b n =
        some (select x (blockDraws P b) n, n + (blockDraws P b).length) := by
      unfold sampleBlock
      rw [if_neg (by rintro ⟨-, -, h⟩; exact absurd h (by decide))]
      unfold sampleDirectly
      rw [directLoop_draws hR _ _ (hb b (by simp)).1 (hb b (by simp)).2]
      simp only [decide_eq_true_eq]
      unfold blockDraws
      rw [List.length_map]
    rw [sampleBlocks, h1]
    simp only
    rw [ih (fun b' hb' => hb b' (by simp [hb']))]
    simp only [List.flatMap_cons, Option.some.injEq, Prod.mk.injEq]
    refine ⟨(select_append x _ _ n).symm, ?_⟩
    rw [List.length_append]; omega

/-! ## The draws are the pairs -/

section
variable {sizes : List Nat}

theorem inCluster_lt {c d u v : Nat} (h : c < d) (hu : InCluster sizes c u) (hv : InCluster sizes d v) :
    u < v := by
  have := take_sum_mono sizes (show c + 1 ≤ d by omega)
  have := hu.2.2
  have := hv.2.1
  omega

theorem mem_blockDraws {P : DenseMat ℝ} {b : SbmBlock} (hb : BlockOk sizes b) {u v : Nat} {p : ℝ} :
    ((u, v), p) ∈ blockDraws P b ↔
      InCluster sizes b.ci u ∧ InCluster sizes b.cj v ∧ u < v ∧ p = P.entry b.ci b.cj := by
  unfold blockDraws
  simp only [List.mem_map, List.mem_filter, decide_eq_true_eq, Prod.mk.injEq]
  have hle := hb.le
  constructor
  · rintro ⟨⟨u', v'⟩, ⟨hm, hf⟩, ⟨rfl, rfl⟩, rfl⟩
    rw [mem_blockPairs, ← hb.in1, ← hb.in2] at hm
    refine ⟨hm.1, hm.2, ?_, rfl⟩
    by_cases hc : b.ci = b.cj
    · by_contra hn
      exact hf ⟨hc, by simpa using hn⟩
    · exact inCluster_lt (by omega) hm.1 hm.2
  · rintro ⟨h1, h2, h3, rfl⟩
    refine ⟨(u, v), ⟨?_, ?_⟩, rfl, rfl⟩
    · rw [mem_blockPairs, ← hb.in1, ← hb.in2]; exact ⟨h1, h2⟩
    · rintro ⟨-, h⟩
      simp only at h
      omega

/-- All draws of a call, in order. -/
def allDraws (P : DenseMat ℝ) (sizes : List Nat) : List ((Nat × Nat) × ℝ) :=
  (outerBlocks 0 0 sizes).flatMap (blockDraws P)

theorem mem_allDraws {P : DenseMat ℝ} {u v : Nat} {p : ℝ} :
    ((u, v), p) ∈ allDraws P sizes ↔
      ∃ c d, InCluster sizes c u ∧ InCluster sizes d v ∧ u < v ∧ p = P.entry c d := by
  unfold allDraws
  rw [List.mem_flatMap]
  constructor
  · rintro ⟨b, hb, h⟩
    rw [mem_allBlocks] at hb
    rw [mem_blockDraws hb] at h
    exact ⟨b.ci, b.cj, h⟩
  · rintro ⟨c, d, h1, h2, h3, h4⟩
    have hcd : c ≤ d := by
      by_contra hn
      have := inCluster_lt (show d < c by omega) h2 h1
      omega
    have hb : BlockOk sizes ⟨c, d, (sizes.take c).sum, (sizes.take d).sum, sizes.getD c 0,
      sizes.getD d 0⟩ := ⟨hcd, h2.1, rfl, rfl, rfl, rfl⟩
    exact ⟨_, mem_allBlocks.2 hb, (mem_blockDraws hb).2 ⟨h1, h2, h3, h4⟩⟩

theorem nodup_allDraws (P : DenseMat ℝ) : ((allDraws P sizes).map Prod.fst).Nodup := by
  unfold allDraws
  rw [List.map_flatMap, List.nodup_flatMap]
  constructor
  · intro b _
    unfold blockDraws
    rw [List.map_map]
    apply List.Nodup.map_on _ ((nodup_blockPairs b).filter _)
    intro x _ y _ h
    exact h
  · have hpw := pairwise_allBlocks sizes
    refine hpw.imp_of_mem ?_
    intro a b ha hb hne
    rw [mem_allBlocks] at ha hb
    rw [Function.onFun, List.disjoint_left]
    rintro ⟨u, v⟩ h1 h2
    obtain ⟨⟨q, p⟩, h1, e1⟩ := List.mem_map.1 h1
    obtain ⟨⟨q', p'⟩, h2, e2⟩ := List.mem_map.1 h2
    simp only at e1 e2
    subst e1 e2
    rw [mem_blockDraws ha] at h1
    rw [mem_blockDraws hb] at h2
    have := h1.1.unique h2.1
    have := h1.2.1.unique h2.2.1
    omega

end

/-! ## Which random numbers give which graph -/

theorem mult_select_absent (x : Nat → ℝ) (ds : List ((Nat × Nat) × ℝ)) (u v : Nat) : ∀ n,
    (u, v) ∉ ds.map Prod.fst → (v, u) ∉ ds.map Prod.fst → mult (select x ds n) u v = 0 := by
  induction ds with
  | nil => intro n _ _; rfl
  | cons d ds ih =>
    intro n h1 h2
    rw [List.map_cons, List.mem_cons, not_or] at h1 h2
    rw [select, mult_append, ih (n + 1) h1.2 h2.2, Nat.add_zero]
    split_ifs
    · rw [mult_singleton, if_neg]
      rintro (⟨e1, e2⟩ | ⟨e1, e2⟩)
      · exact h1.1 (Prod.ext e1.symm e2.symm)
      · exact h2.1 (Prod.ext e1.symm e2.symm)
    · rfl

theorem mult_select (x : Nat → ℝ) (ds : List ((Nat × Nat) × ℝ)) : ∀ n,
    (ds.map Prod.fst).Nodup → (∀ d ∈ ds, d.1.1 < d.1.2) →
    ∀ k (hk : k < ds.length), mult (select x ds n) ds[k].1.1 ds[k].1.2 =
      if x (n + k) < ds[k].2 then 1 else 0 := by
  induction ds with
  | nil => intro n _ _ k hk; simp at hk
  | cons d ds ih =>
    intro n hnd hlt k hk
    rw [List.map_cons, List.nodup_cons] at hnd
    have hlt' : ∀ d ∈ ds, d.1.1 < d.1.2 := fun e he => hlt e (by simp [he])
    rw [select, mult_append]
    cases k with
    | zero =>
      have habs : mult (select x ds (n + 1)) d.1.1 d.1.2 = 0 := by
        apply mult_select_absent
        · exact hnd.1
        · intro hm
          obtain ⟨e, he, h⟩ := List.mem_map.1 hm
          have h1 := hlt' e he
          have h2 := hlt d (by simp)
          rw [h] at h1
          simp only at h1
          omega
      simp only [List.getElem_cons_zero, Nat.add_zero]
      rw [habs]
      split_ifs
      · rw [mult_singleton, if_pos (.inl ⟨rfl, rfl⟩)]
      · rfl
    | succ k =>
      simp only [List.getElem_cons_succ]
      have hk' : k < ds.length := by simpa using hk
      rw [ih (n + 1) hnd.2 hlt' k hk', show n + 1 + k = n + (k + 1) by omega]
      have h0 : mult (if x n < d.2 then [⟨d.1.1, d.1.2, true⟩] else []) ds[k].1.1 ds[k].1.2 = 0 := by
        split_ifs
        · rw [mult_singleton, if_neg]
          rintro (⟨e1, e2⟩ | ⟨e1, e2⟩)
          · simp only at e1 e2
            apply hnd.1
            rw [List.mem_map]
            exact ⟨ds[k], List.getElem_mem hk', Prod.ext e1.symm e2.symm⟩
          · simp only at e1 e2
            have h1 := hlt' ds[k] (List.getElem_mem hk')
            have h2 := hlt d (by simp)
            omega
        · rfl
      rw [h0, Nat.zero_add]

/-- The pairs of different vertices among `0, …, n - 1`. -/
def vertexPairs (n : Nat) : Finset (Nat × Nat) :=
  (Finset.range n ×ˢ Finset.range n).filter (fun q => q.1 < q.2)

/-- The probability, in the stochastic block model with probabilities `p u v`, of the graph with the edges
`E` on `n` vertices. -/
noncomputable def sbmProb (n : Nat) (p : Nat → Nat → ℝ) (E : Nat → Nat → Prop) : ℝ :=
  open Classical in ∏ q ∈ vertexPairs n, if E q.1 q.2 then p q.1 q.2 else 1 - p q.1 q.2

/-- The draws have the prescribed outcome. -/
theorem measure_draws {Θ : Type} [MeasurableSpace Θ] (μ : Measure Θ) [IsProbabilityMeasure μ]
    (X : Nat → Θ → ℝ) (hm : ∀ n, Measurable (X n)) (hind : iIndepFun X μ)
    (hunif : ∀ n p, 0 ≤ p → p ≤ 1 → μ {θ | X n θ < p} = ENNReal.ofReal p)
    (ds : List ((Nat × Nat) × ℝ)) (h01 : ∀ d ∈ ds, 0 ≤ d.2 ∧ d.2 ≤ 1) (E : Nat × Nat → Prop)
    [DecidablePred E] :
    μ {θ | ∀ k (hk : k < ds.length), (X k θ < ds[k].2 ↔ E ds[k].1)} =
      ENNReal.ofReal ((ds.map (fun d => if E d.1 then d.2 else 1 - d.2)).prod) := by
  let d : Nat → (Nat × Nat) × ℝ := fun k => ds.getD k ((0, 0), 0)
  have hd : ∀ k (hk : k < ds.length), d k = ds[k] := fun k hk => List.getD_eq_getElem _ _ hk
  let S : Nat → Set ℝ := fun k => if E (d k).1 then {y | y < (d k).2} else {y | ¬ y < (d k).2}
  have hS : ∀ k, MeasurableSet (S k) := by
    intro k
    simp only [S]
    split_ifs
    · exact measurableSet_Iio
    · exact (measurableSet_Iio (a := (d k).2)).compl
  have hset : {θ | ∀ k (hk : k < ds.length), (X k θ < ds[k].2 ↔ E ds[k].1)} =
      ⋂ k ∈ Finset.range ds.length, X k ⁻¹' S k := by
    ext θ
    simp only [Set.mem_ofPred_eq, Set.mem_iInter, Finset.mem_range, Set.mem_preimage]
    apply forall_congr'
    intro k
    apply forall_congr'
    intro hk
    simp only [S, hd k hk]
    split_ifs with hE
    · simp [hE]
    · simp [hE]
  rw [hset, hind.measure_inter_preimage_eq_mul _ (fun k _ => hS k)]
  have hk : ∀ k ∈ Finset.range ds.length,
      μ (X k ⁻¹' S k) = ENNReal.ofReal (if E (d k).1 then (d k).2 else 1 - (d k).2) := by
    intro k hk
    have hk := Finset.mem_range.1 hk
    have h2 : 0 ≤ (d k).2 ∧ (d k).2 ≤ 1 := by rw [hd k hk]; exact h01 _ (List.getElem_mem hk)
    simp only [S]
    split_ifs
    · exact hunif k _ h2.1 h2.2
    · have : X k ⁻¹' {y | ¬ y < (d k).2} = {θ | X k θ < (d k).2}ᶜ := rfl
      rw [this, prob_compl_eq_one_sub (measurableSet_lt (hm k) measurable_const),
        hunif k _ h2.1 h2.2, ENNReal.ofReal_sub _ h2.1, ENNReal.ofReal_one]
  rw [Finset.prod_congr rfl hk, ← ENNReal.ofReal_prod_of_nonneg]
  · congr 1
    have key : ∀ (l : List ((Nat × Nat) × ℝ)) (f : (Nat × Nat) × ℝ → ℝ),
        ∏ k ∈ Finset.range l.length, f (l.getD k ((0, 0), 0)) = (l.map f).prod := by
      intro l f
      induction l with
      | nil => rfl
      | cons a l ih =>
        rw [List.length_cons, Finset.prod_range_succ', List.map_cons, List.prod_cons, mul_comm]
        congr 1
    exact key ds (fun d => if E d.1 then d.2 else 1 - d.2)
  · intro k hk
    have hk := Finset.mem_range.1 hk
    have h2 : 0 ≤ (d k).2 ∧ (d k).2 ≤ 1 := by rw [hd k hk]; exact h01 _ (List.getElem_mem hk)
    split_ifs
    · exact h2.1
    · linarith [h2.2]

/-- **C66**.  Let the random numbers of the generator be independent and uniform on `[0, 1)`.  For valid
parameters, in exact mode, and for every simple graph `E` on the vertices: the probability that
`general_sbm` returns exactly this graph is the product over all pairs of vertices of the probability for
their clusters (if they are joined in `E`) or one minus it (if not).  `cl u` is the cluster of `u`. -/
theorem C66_sbm_distribution {Θ : Type} [MeasurableSpace Θ] (μ : Measure Θ) [IsProbabilityMeasure μ]
    (X : Nat → Θ → ℝ) (hm : ∀ n, Measurable (X n)) (hind : iIndepFun X μ)
    (hunif : ∀ n p, 0 ≤ p → p ≤ 1 → μ {θ | X n θ < p} = ENNReal.ofReal p)
    (R : Θ → Rng ℝ Nat)
    (hR : ∀ θ n p, 0 ≤ p → p ≤ 1 → (R θ).coin p n = (decide (X n θ < p), n + 1))
    (fuel : Nat) {sizes : List Nat} {P : DenseMat ℝ} (h : SbmArgs sizes P) (cl : Nat → Nat)
    (hcl : ∀ u < sizes.sum, InCluster sizes (cl u) u) (E : SimpleGraph Nat) :
    μ {θ | ∃ g ω', generalSbm (R θ) fuel (sizes.map (fun s : Nat => (s : Int))) P true 0 =
        some (.ok g, ω') ∧ g.n = sizes.sum ∧ ∀ u < sizes.sum, ∀ v < sizes.sum,
          (E.Adj u v → g.adj.coeff u v = 1) ∧ (¬ E.Adj u v → g.adj.coeff u v = 0)} =
      ENNReal.ofReal (sbmProb sizes.sum (fun u v => P.entry (cl u) (cl v)) E.Adj) := by
  classical
  have hP : ∀ b ∈ outerBlocks 0 0 sizes, 0 ≤ P.entry b.ci b.cj ∧ P.entry b.ci b.cj ≤ 1 := by
    intro b hb
    have hb := mem_allBlocks.1 hb
    exact h.prob _ (lt_of_le_of_lt hb.le hb.lt) _ hb.lt
  have hds : ∀ d ∈ allDraws P sizes, d.1.1 < d.1.2 ∧ d.1.2 < sizes.sum ∧
      d.2 = P.entry (cl d.1.1) (cl d.1.2) ∧ 0 ≤ d.2 ∧ d.2 ≤ 1 := by
    rintro ⟨⟨u, v⟩, p⟩ hd
    obtain ⟨c, d, h1, h2, h3, rfl⟩ := mem_allDraws.1 hd
    refine ⟨h3, h2.lt_sum, ?_, h.prob _ h1.1 _ h2.1⟩
    simp only
    rw [(hcl u h1.lt_sum).unique h1, (hcl v h2.lt_sum).unique h2]
  have hev : {θ | ∃ g ω', generalSbm (R θ) fuel (sizes.map (fun s : Nat => (s : Int))) P true 0 =
        some (.ok g, ω') ∧ g.n = sizes.sum ∧ ∀ u < sizes.sum, ∀ v < sizes.sum,
          (E.Adj u v → g.adj.coeff u v = 1) ∧ (¬ E.Adj u v → g.adj.coeff u v = 0)} =
      {θ | ∀ k (hk : k < (allDraws P sizes).length),
        (X k θ < (allDraws P sizes)[k].2 ↔
          (fun q : Nat × Nat => E.Adj q.1 q.2) (allDraws P sizes)[k].1)} := by
    ext θ
    simp only [Set.mem_ofPred_eq]
    have hs := sampleBlocks_draws (hR θ) fuel P (outerBlocks 0 0 sizes) hP 0
    rcases generalSbm_eq (R θ) (fuel := fuel) (exact := true) h 0 with ⟨e, -⟩ | ⟨es, ω1, g, e1, e2, -, e4, e5⟩
    · rw [hs] at e; simp at e
    rw [hs] at e1
    simp only [Option.some.injEq, Prod.mk.injEq] at e1
    have hes : es = select (fun n => X n θ) (allDraws P sizes) 0 := e1.1.symm
    have hmul := mult_select (fun n => X n θ) (allDraws P sizes) 0 (nodup_allDraws P)
      (fun d hd => (hds d hd).1)
    simp only [Nat.zero_add, ← hes] at hmul
    constructor
    · rintro ⟨g', ω', hg', -, hall⟩ k hk
      rw [e2] at hg'
      simp only [Option.some.injEq, Prod.mk.injEq, Outcome.ok.injEq] at hg'
      obtain ⟨rfl, -⟩ := hg'
      have hk' := hds _ (List.getElem_mem hk)
      have h2 := hall _ (lt_trans hk'.1 hk'.2.1) _ hk'.2.1
      rw [e5, hmul k hk] at h2
      by_cases hx : X k θ < (allDraws P sizes)[k].2
      · simp only [hx, true_iff]
        by_contra hn
        have := h2.2 hn
        simp [hx] at this
      · simp only [hx, false_iff]
        intro hE
        have := h2.1 hE
        simp [hx] at this
    · intro hall
      refine ⟨g, ω1, e2, e4, ?_⟩
      have hlt : ∀ u v, u < v → v < sizes.sum →
          (E.Adj u v → g.adj.coeff u v = 1) ∧ (¬ E.Adj u v → g.adj.coeff u v = 0) := by
        intro u v huv hv
        have hmem : ((u, v), P.entry (cl u) (cl v)) ∈ allDraws P sizes :=
          mem_allDraws.2 ⟨cl u, cl v, hcl u (by omega), hcl v hv, huv, rfl⟩
        obtain ⟨k, hk, hke⟩ := List.mem_iff_getElem.1 hmem
        have h1 := hall k hk
        have h2 := hmul k hk
        rw [hke] at h1 h2
        simp only at h1 h2
        rw [e5, h2]
        constructor
        · intro hE
          rw [if_pos (h1.2 hE)]; simp
        · intro hE
          rw [if_neg (fun hx => hE (h1.1 hx))]; simp
      intro u hu v hv
      rcases Nat.lt_trichotomy u v with huv | huv | huv
      · exact hlt u v huv hv
      · subst huv
        refine ⟨fun hE => absurd hE (E.irrefl), fun _ => ?_⟩
        rw [e5, hes, mult_select_absent]
        · simp
        · intro hm
          obtain ⟨d, hd, hq⟩ := List.mem_map.1 hm
          have := (hds d hd).1
          rw [hq] at this
          simp only at this
          omega
        · intro hm
          obtain ⟨d, hd, hq⟩ := List.mem_map.1 hm
          have := (hds d hd).1
          rw [hq] at this
          simp only at this
          omega
      · have := hlt v u huv hu
        rw [e5] at this ⊢
        rw [mult_symm]
        exact ⟨fun hE => this.1 hE.symm, fun hE => this.2 (fun hE' => hE hE'.symm)⟩
  rw [hev, measure_draws μ X hm hind hunif (allDraws P sizes)
    (fun d hd => ⟨(hds d hd).2.2.2.1, (hds d hd).2.2.2.2⟩) (fun q => E.Adj q.1 q.2)]
  congr 1
  unfold sbmProb
  have hfin : vertexPairs sizes.sum = ((allDraws P sizes).map Prod.fst).toFinset := by
    ext ⟨u, v⟩
    unfold vertexPairs
    rw [Finset.mem_filter, Finset.mem_product, Finset.mem_range, Finset.mem_range, List.mem_toFinset,
      List.mem_map]
    constructor
    · rintro ⟨⟨hu, hv⟩, huv⟩
      exact ⟨((u, v), P.entry (cl u) (cl v)),
        mem_allDraws.2 ⟨cl u, cl v, hcl u hu, hcl v hv, huv, rfl⟩, rfl⟩
    · rintro ⟨d, hd, hq⟩
      have := hds d hd
      rw [hq] at this
      simp only at this ⊢
      omega
  rw [hfin, List.prod_toFinset _ (nodup_allDraws P), List.map_map]
  congr 1
  apply List.map_congr_left
  intro d hd
  simp only [Function.comp_apply]
  rw [(hds d hd).2.2.1]

/-- **C66** (`sbm`).  `sbm(n, k, p, q)` in exact mode: two vertices are joined with probability `p` if they
are in the same of the `k` clusters of `n / k` consecutive vertices, and `q` otherwise, independently. -/
theorem C66_sbm {Θ : Type} [MeasurableSpace Θ] (μ : Measure Θ) [IsProbabilityMeasure μ]
    (X : Nat → Θ → ℝ) (hm : ∀ n, Measurable (X n)) (hind : iIndepFun X μ)
    (hunif : ∀ n p, 0 ≤ p → p ≤ 1 → μ {θ | X n θ < p} = ENNReal.ofReal p)
    (R : Θ → Rng ℝ Nat)
    (hR : ∀ θ n p, 0 ≤ p → p ≤ 1 → (R θ).coin p n = (decide (X n θ < p), n + 1))
    (fuel : Nat) {n k : Nat} {p q : ℝ} (hk : 1 ≤ k) (hkn : k ≤ n / 2)
    (hp : 0 ≤ p ∧ p ≤ 1) (hq : 0 ≤ q ∧ q ≤ 1) (E : SimpleGraph Nat) :
    μ {θ | ∃ g ω', sbm (R θ) fuel n k p q true 0 = some (.ok g, ω') ∧ g.n = k * (n / k) ∧
        ∀ u < k * (n / k), ∀ v < k * (n / k),
          (E.Adj u v → g.adj.coeff u v = 1) ∧ (¬ E.Adj u v → g.adj.coeff u v = 0)} =
      ENNReal.ofReal (sbmProb (k * (n / k))
        (fun u v => if u / (n / k) = v / (n / k) then p else q) E.Adj) := by
  have hargs := sbm_args (n := n) hk hkn hp hq
  have hpos : 0 < n / k := Nat.div_pos (by omega) hk
  have hsum : (List.replicate k (n / k)).sum = k * (n / k) := by rw [List.sum_replicate]; rfl
  have hcl : ∀ u < (List.replicate k (n / k)).sum,
      InCluster (List.replicate k (n / k)) (u / (n / k)) u := by
    intro u hu
    rw [hsum] at hu
    have hlt : u / (n / k) < k := by
      rw [Nat.div_lt_iff_lt_mul hpos]; exact hu
    have ht : ∀ c, c ≤ k → ((List.replicate k (n / k)).take c).sum = c * (n / k) := by
      intro c hc
      rw [List.take_replicate, List.sum_replicate, Nat.min_eq_left hc]; rfl
    refine ⟨by simpa using hlt, ?_, ?_⟩
    · rw [ht _ hlt.le]; exact Nat.div_mul_le_self _ _
    · rw [ht _ hlt]
      have := Nat.lt_div_mul_add hpos (a := u)
      rw [Nat.succ_mul]; exact this
  have key := C66_sbm_distribution μ X hm hind hunif R hR fuel hargs (fun u => u / (n / k)) hcl E
  rw [hsum] at key
  have hcall : ∀ θ, sbm (R θ) fuel n k p q true 0 =
      generalSbm (R θ) fuel ((List.replicate k (n / k)).map (fun s : Nat => (s : Int)))
        (sbmProbs (k : Int) p q) true 0 := by
    intro θ
    unfold sbm
    rw [if_neg (by omega), if_neg (by omega), if_neg (not_or.2 ⟨not_lt.2 hp.1, not_lt.2 hp.2⟩),
      if_neg (not_or.2 ⟨not_lt.2 hq.1, not_lt.2 hq.2⟩), sbmSizes_eq]
  simp only [hcall]
  exact key

theorem card_vertexPairs (n : Nat) : (vertexPairs n).card = n.choose 2 := by
  induction n with
  | zero => rfl
  | succ n ih =>
    have h : vertexPairs (n + 1) = vertexPairs n ∪ (Finset.range n).image (fun u => (u, n)) := by
      ext ⟨u, v⟩
      simp only [vertexPairs, Finset.mem_filter, Finset.mem_product, Finset.mem_range,
        Finset.mem_union, Finset.mem_image, Prod.mk.injEq]
      constructor
      · rintro ⟨⟨h1, h2⟩, h3⟩
        by_cases hv : v = n
        · exact .inr ⟨u, by omega, rfl, hv.symm⟩
        · exact .inl ⟨⟨by omega, by omega⟩, h3⟩
      · rintro (⟨⟨h1, h2⟩, h3⟩ | ⟨a, h1, rfl, rfl⟩)
        · exact ⟨⟨by omega, by omega⟩, h3⟩
        · exact ⟨⟨by omega, by omega⟩, h1⟩
    rw [h, Finset.card_union_of_disjoint, ih, Finset.card_image_of_injective, Finset.card_range,
      Nat.choose_succ_succ' n 1, Nat.choose_one_right, Nat.add_comm]
    · intro a b hab
      exact (Prod.mk.injEq _ _ _ _ ▸ hab : a = b ∧ n = n).1
    · rw [Finset.disjoint_left]
      rintro ⟨u, v⟩ h1 h2
      simp only [vertexPairs, Finset.mem_filter, Finset.mem_product, Finset.mem_range] at h1
      simp only [Finset.mem_image, Finset.mem_range, Prod.mk.injEq] at h2
      omega

open Classical in
/-- **C66** (`erdos_renyi`).  `erdos_renyi(n, p)` in exact mode: a graph with `m` edges comes out with
probability `p ^ m * (1 - p) ^ (n.choose 2 - m)`. -/
theorem C66_erdos_renyi {Θ : Type} [MeasurableSpace Θ] (μ : Measure Θ) [IsProbabilityMeasure μ]
    (X : Nat → Θ → ℝ) (hm : ∀ n, Measurable (X n)) (hind : iIndepFun X μ)
    (hunif : ∀ n p, 0 ≤ p → p ≤ 1 → μ {θ | X n θ < p} = ENNReal.ofReal p)
    (R : Θ → Rng ℝ Nat)
    (hR : ∀ θ n p, 0 ≤ p → p ≤ 1 → (R θ).coin p n = (decide (X n θ < p), n + 1))
    (fuel : Nat) {n : Nat} {p : ℝ} (hn : 2 ≤ n) (hp : 0 ≤ p ∧ p ≤ 1) (E : SimpleGraph Nat) (m : Nat)
    (hE : m = ((Finset.range n ×ˢ Finset.range n).filter
      (fun q : Nat × Nat => q.1 < q.2 ∧ E.Adj q.1 q.2)).card) :
    μ {θ | ∃ g ω', erdosRenyi (R θ) fuel n p true 0 = some (.ok g, ω') ∧ g.n = n ∧
        ∀ u < n, ∀ v < n,
          (E.Adj u v → g.adj.coeff u v = 1) ∧ (¬ E.Adj u v → g.adj.coeff u v = 0)} =
      ENNReal.ofReal (p ^ m * (1 - p) ^ (n.choose 2 - m)) := by
  have key := C66_sbm μ X hm hind hunif R hR fuel (n := n) (k := 1) (le_refl _) (by omega) hp
    ⟨le_refl 0, zero_le_one⟩ E
  simp only [Nat.div_one, Nat.one_mul] at key
  unfold erdosRenyi
  refine key.trans ?_
  congr 1
  unfold sbmProb
  have hc : ∀ q ∈ vertexPairs n, (if E.Adj q.1 q.2 then (if q.1 / n = q.2 / n then p else 0)
      else 1 - (if q.1 / n = q.2 / n then p else 0)) = if E.Adj q.1 q.2 then p else 1 - p := by
    intro q hq
    simp only [vertexPairs, Finset.mem_filter, Finset.mem_product, Finset.mem_range] at hq
    rw [Nat.div_eq_of_lt hq.1.1, Nat.div_eq_of_lt hq.1.2, if_pos rfl]
  rw [Finset.prod_congr rfl hc, Finset.prod_ite, Finset.prod_const, Finset.prod_const]
  have h1 : ((vertexPairs n).filter (fun q => E.Adj q.1 q.2)).card = m := by
    rw [hE, vertexPairs, Finset.filter_filter]
  have h2 := Finset.card_filter_add_card_filter_not (s := vertexPairs n) (fun q => E.Adj q.1 q.2)
  rw [card_vertexPairs] at h2
  rw [h1] at h2 ⊢
  congr 2
  omega

/-! ## The hypotheses are met -/

/-- The coins for given random numbers in `[0, 1)`. -/
noncomputable def coinsOf (x : Nat → ℝ) : Rng ℝ Nat where
  coin p n := (decide (Int.fract (x n) < p), n + 1)
  normal _ _ n := (0, n + 1)
  unif _ n := (0, n + 1)
  coin_zero n := by simp
  coin_one n := by simpa using Int.fract_lt_one (x n)
  unif_le _ _ := Nat.zero_le _

instance : IsProbabilityMeasure (volume.restrict (Set.Ico (0 : ℝ) 1)) :=
  ⟨by rw [Measure.restrict_apply_univ]; simp⟩

/-- There are such random numbers: independent, uniform on `[0, 1)`, with a generator that uses them. -/
theorem draws_exist : ∃ (μ : Measure (Nat → ℝ)) (X : Nat → (Nat → ℝ) → ℝ)
    (R : (Nat → ℝ) → Rng ℝ Nat), IsProbabilityMeasure μ ∧ (∀ n, Measurable (X n)) ∧ iIndepFun X μ ∧
    (∀ n p, 0 ≤ p → p ≤ 1 → μ {θ | X n θ < p} = ENNReal.ofReal p) ∧
    ∀ θ n p, 0 ≤ p → p ≤ 1 → (R θ).coin p n = (decide (X n θ < p), n + 1) := by
  refine ⟨Measure.infinitePi (fun _ => volume.restrict (Set.Ico (0 : ℝ) 1)),
    fun n θ => Int.fract (θ n), coinsOf, inferInstance,
    fun n => measurable_fract.comp (measurable_pi_apply n),
    iIndepFun_infinitePi (X := fun _ => Int.fract) (fun _ => measurable_fract), ?_,
    fun _ _ _ _ _ => rfl⟩
  intro n p h0 h1
  have hS : MeasurableSet {y : ℝ | Int.fract y < p} := measurableSet_lt measurable_fract measurable_const
  have h := Measure.infinitePi_map_eval (fun _ : Nat => volume.restrict (Set.Ico (0 : ℝ) 1)) n
  have h2 : Measure.infinitePi (fun _ : Nat => volume.restrict (Set.Ico (0 : ℝ) 1))
      {θ | Int.fract (θ n) < p} = (volume.restrict (Set.Ico (0 : ℝ) 1)) {y | Int.fract y < p} := by
    calc _ = (Measure.infinitePi (fun _ : Nat => volume.restrict (Set.Ico (0 : ℝ) 1))).map
          (fun x => x n) {y | Int.fract y < p} := (Measure.map_apply (measurable_pi_apply n) hS).symm
      _ = _ := by rw [h]
  rw [h2, Measure.restrict_apply hS]
  have h3 : {y : ℝ | Int.fract y < p} ∩ Set.Ico 0 1 = Set.Ico 0 p := by
    ext y
    simp only [Set.mem_inter_iff, Set.mem_ofPred_eq, Set.mem_Ico]
    constructor
    · rintro ⟨a, b, c⟩
      rw [Int.fract_eq_self.2 ⟨b, c⟩] at a
      exact ⟨b, a⟩
    · rintro ⟨a, b⟩
      have c : y < 1 := lt_of_lt_of_le b h1
      rw [Int.fract_eq_self.2 ⟨a, c⟩]
      exact ⟨b, a, c⟩
  rw [h3, Real.volume_Ico, sub_zero]

/-- For instance, three vertices, `p = 1 / 4`: the path `0 - 1 - 2` has probability `3 / 64`. -/
example : ∃ (μ : Measure (Nat → ℝ)) (R : (Nat → ℝ) → Rng ℝ Nat),
    μ {θ | ∃ g ω', erdosRenyi (R θ) 0 3 (1 / 4) true 0 = some (.ok g, ω') ∧ g.n = 3 ∧
      ∀ u < 3, ∀ v < 3, ((u + 1 = v ∨ v + 1 = u) → g.adj.coeff u v = 1) ∧
        (¬ (u + 1 = v ∨ v + 1 = u) → g.adj.coeff u v = 0)} = ENNReal.ofReal (3 / 64) := by
  classical
  obtain ⟨μ, X, R, hμ, hm, hind, hunif, hR⟩ := draws_exist
  refine ⟨μ, R, ?_⟩
  let E : SimpleGraph Nat := ⟨fun u v => u + 1 = v ∨ v + 1 = u, ⟨fun _ _ h => h.symm⟩,
    ⟨fun u h => by omega⟩⟩
  have key := C66_erdos_renyi μ X hm hind hunif R hR 0 (n := 3) (p := 1 / 4) (by norm_num)
    ⟨by norm_num, by norm_num⟩ E 2 (by
      have : ∀ q : Nat × Nat, (q.1 < q.2 ∧ E.Adj q.1 q.2) ↔ q.1 + 1 = q.2 := by
        rintro ⟨u, v⟩
        show (u < v ∧ (u + 1 = v ∨ v + 1 = u)) ↔ u + 1 = v
        omega
      simp only [this]
      decide)
  refine key.trans ?_
  congr 1
  norm_num [Nat.choose]

end Stag
