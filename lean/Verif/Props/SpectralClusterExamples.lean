import Verif.Props.SpectralCluster
import Verif.Props.CheegerExamples

/-!
# C55, C59, C62: cases that meet the hypotheses, and a graph on which spectral clustering splits a
component
-/

namespace Stag

open Graph

/-- Two centres: the label is decided by the nearer one. -/
theorem lab_two {K : Type} [Field K] [LinearOrder K] [IsStrictOrderedRing K] {X : Nat → Nat → K} {D : Nat}
    {Mu : Nat → Nat → K} {i : Nat} :
    (KMeans.dist2 D (X i) (Mu 0) < KMeans.dist2 D (X i) (Mu 1) → KMeans.lab X D 2 Mu i = 0) ∧
    (KMeans.dist2 D (X i) (Mu 1) < KMeans.dist2 D (X i) (Mu 0) → KMeans.lab X D 2 Mu i = 1) := by
  obtain ⟨h1, h2, -⟩ := KMeans.lab_nearest X (i + 1) D 2 (by norm_num) Mu i (by omega)
  constructor
  · intro h
    by_contra hne
    have : KMeans.lab X D 2 Mu i = 1 := by omega
    rw [this] at h2
    exact absurd (h2 0 (by norm_num)) (not_le.2 h)
  · intro h
    by_contra hne
    have : KMeans.lab X D 2 Mu i = 0 := by omega
    rw [this] at h2
    exact absurd (h2 1 (by norm_num)) (not_le.2 h)

/-- The points 0, 1, 10, 11 on the line with the centres 0 and 10 meet the hypotheses of
`C55_local_optimum`. -/
example : ∃ (X : Nat → Nat → ℚ) (Mu : Nat → Nat → ℚ),
    (∀ n : Nat, 1 ≤ n → ∀ c < 2, ∃ i < 4, (KMeans.runLloyd X 4 1 2 Mu (fun _ => 0) n).2 i = c) ∧
    X 0 0 ≠ X 1 0 ∧ X 1 0 ≠ X 2 0 := by
  let X : Nat → Nat → ℚ := fun i _ => if i = 0 then 0 else if i = 1 then 1 else if i = 2 then 10 else 11
  let Mu : Nat → Nat → ℚ := fun c _ => if c = 0 then 0 else 10
  have hlab : ∀ (M : Nat → Nat → ℚ) (e : ℚ), 0 ≤ e → e < 1 → (∀ c < 2, M c 0 = (if c = 0 then 0 else 10) + e) →
      ∀ i < 4, KMeans.lab X 1 2 M i = i / 2 := by
    intro M e he0 he1 hM i hi
    have h0 := hM 0 (by norm_num)
    have h1 := hM 1 (by norm_num)
    rw [if_pos rfl] at h0
    rw [if_neg (by norm_num)] at h1
    interval_cases i
    · refine lab_two.1 ?_
      simp only [KMeans.dist2, Finset.sum_range_one, X, h0, h1]; norm_num; nlinarith
    · refine lab_two.1 ?_
      simp only [KMeans.dist2, Finset.sum_range_one, X, h0, h1]; norm_num; nlinarith
    · refine lab_two.2 ?_
      simp only [KMeans.dist2, Finset.sum_range_one, X, h0, h1]; norm_num; nlinarith
    · refine lab_two.2 ?_
      simp only [KMeans.dist2, Finset.sum_range_one, X, h0, h1]; norm_num; nlinarith
  have hcen : ∀ s, ∃ e : ℚ, 0 ≤ e ∧ e < 1 ∧
      ∀ c < 2, KMeans.cen X 4 1 2 Mu s c 0 = (if c = 0 then 0 else 10) + e := by
    intro s
    induction s with
    | zero => exact ⟨0, le_rfl, by norm_num, fun c hc => by simp [KMeans.cen, Mu]⟩
    | succ s ih =>
      obtain ⟨e, h0, h1, hM⟩ := ih
      refine ⟨1 / 2, by norm_num, by norm_num, fun c hc => ?_⟩
      rw [KMeans.cen, KMeans.calcMu_congr X 4 (hlab _ e h0 h1 hM)]
      interval_cases c <;> norm_num [KMeans.calcMu, X, List.range_succ]
  refine ⟨X, Mu, fun n hn c hc => ?_, by simp [X], by simp [X]⟩
  obtain ⟨n, rfl⟩ : ∃ m, n = m + 1 := ⟨n - 1, by omega⟩
  obtain ⟨j, -, -, h2, -, -⟩ := KMeans.runLloyd_spec X 4 1 2 Mu (fun _ => 0) n
  obtain ⟨e, h0, h1, hM⟩ := hcen j
  refine ⟨2 * c, by omega, ?_⟩
  rw [h2 _ (by omega), hlab _ e h0 h1 hM _ (by omega)]
  omega

/-- Two disjoint edges: the hypotheses of `C59_components` and `C62_zero_multiplicity` are met. -/
example : ∃ (solve : EigenSolver) (g : Graph ℝ) (comp : Nat → Nat) (res : EigenPairs),
    SolverSpec solve ∧ g.Reachable ∧
    (∀ u v, 0 ≤ g.abs.w u v) ∧ (∀ v, g.abs.w v v = 0) ∧ (∀ v, v < g.n → 0 < g.abs.deg v) ∧
    Components g.abs comp 2 ∧ 2 * 2 ≤ g.n ∧
    (∀ u < g.n, ∀ v < g.n, g.abs.Connected u v → g.abs.deg u = g.abs.deg v) ∧
    computeEigensystem solve g .normalisedLaplacian 2 .smallest = .ok res := by
  obtain ⟨solve, hs, hall⟩ := C53_always_answers
  obtain ⟨g, hr, ha⟩ := exists_unit_graph 4 (fun i j => i + 2 = j ∨ j + 2 = i) (by omega)
  have hn : g.n = 4 := congrArg WGraph.n ha
  have hn' : g.abs.n = 4 := hn
  have hw : ∀ u v, 0 ≤ g.abs.w u v := by
    intro u v
    rw [ha]; simp only [unitGraph]; split_ifs <;> norm_num
  have hloop : ∀ v, g.abs.w v v = 0 := by
    intro v
    rw [ha]; simp only [unitGraph]; rw [if_neg (by omega)]
  have hdeg : ∀ v, v < 4 → g.abs.deg v = 1 := by
    intro v hv
    rw [ha]
    simp only [WGraph.deg, unitGraph, Finset.sum_range_succ, Finset.sum_range_zero]
    interval_cases v <;> norm_num
  have hd : ∀ v, v < g.n → 0 < g.abs.deg v := by
    intro v hv
    rw [hdeg v (by omega)]; norm_num
  have hadj : ∀ u v, g.abs.Adj u v ↔ u < 4 ∧ v < 4 ∧ (u + 2 = v ∨ v + 2 = u) := by
    intro u v
    unfold WGraph.Adj
    rw [ha]
    simp only [unitGraph]
    split_ifs with h
    · simp [h]
    · simp; tauto
  obtain ⟨res, hres⟩ := hall g .normalisedLaplacian 2 .smallest hr (by norm_num) (by rw [hn]; norm_num)
    (fun _ => hd)
  refine ⟨solve, g, fun i => i % 2, res, hs, hr, hw, hloop, hd, ⟨fun v _ => by omega, ?_, ?_⟩,
    by omega, fun u hu v hv _ => by rw [hdeg u (by omega), hdeg v (by omega)], hres⟩
  · intro u hu v hv
    rw [hn'] at hu hv
    constructor
    · intro he
      have he : u % 2 = v % 2 := he
      rcases Nat.lt_trichotomy u v with h | h | h
      · exact .step .refl ((hadj u v).2 ⟨hu, hv, by omega⟩)
      · subst h; exact .refl
      · exact .step .refl ((hadj u v).2 ⟨hu, hv, by omega⟩)
    · intro hconn
      induction hconn with
      | refl => rfl
      | step hr' hstep ih =>
        obtain ⟨h1, h2, h3⟩ := (hadj _ _).1 hstep
        have := ih h1
        omega
  · intro c hc
    exact ⟨c, by omega, by omega⟩

theorem draw42_one : (MT.draw 42 1 : ℝ) = 3421126067 / 4294967295 := by
  have h42 : ((42 : Int) % 4294967296).toNat = 42 := by decide
  have h : MT.out 42 1 = 3421126067 := by
    rw [MT.out_eq, h42, ← MT.wordF_eq 42 1 _ (by omega)]
    decide +kernel
  unfold MT.draw
  rw [h]; norm_num

/-- Squared distances between combinations of two orthogonal vectors. -/
theorem dist2_comb {a b x y : Nat → ℝ} (haa : a 0 * a 0 + a 1 * a 1 = 1 / 32)
    (hbb : b 0 * b 0 + b 1 * b 1 = 1 / 2) (hab : a 0 * b 0 + a 1 * b 1 = 0) {p q r s : ℝ}
    (hx : ∀ d < 2, x d = p * a d + q * b d) (hy : ∀ d < 2, y d = r * a d + s * b d) :
    KMeans.dist2 2 x y = (p - r) ^ 2 / 32 + (q - s) ^ 2 / 2 := by
  simp only [KMeans.dist2, Finset.sum_range_succ, Finset.sum_range_zero, zero_add]
  rw [hx 0 (by norm_num), hx 1 (by norm_num), hy 0 (by norm_num), hy 1 (by norm_num)]
  linear_combination (p - r) ^ 2 * haa + (q - s) ^ 2 * hbb + 2 * (p - r) * (q - s) * hab

/-- Equality in the inequality of Cauchy and Schwarz. -/
theorem prop_of_gram {x y : Nat → ℝ} {c p q r : ℝ} (hp : ∑ d ∈ Finset.range 2, x d * x d = p)
    (hq : ∑ d ∈ Finset.range 2, x d * y d = q) (hr : ∑ d ∈ Finset.range 2, y d * y d = r)
    (h : p - 2 * c * q + c * c * r = 0) (d : Nat) (hd : d < 2) : x d = c * y d := by
  simp only [Finset.sum_range_succ, Finset.sum_range_zero, zero_add] at hp hq hr
  have h2 : (x 0 - c * y 0) ^ 2 + (x 1 - c * y 1) ^ 2 = 0 := by
    rw [← h, ← hp, ← hq, ← hr]; ring
  have h3 : x 0 - c * y 0 = 0 := by
    apply pow_eq_zero_iff (two_ne_zero) |>.1
    nlinarith [sq_nonneg (x 0 - c * y 0), sq_nonneg (x 1 - c * y 1)]
  have h4 : x 1 - c * y 1 = 0 := by
    apply pow_eq_zero_iff (two_ne_zero) |>.1
    nlinarith [sq_nonneg (x 0 - c * y 0), sq_nonneg (x 1 - c * y 1)]
  interval_cases d <;> linarith

/-- The edge relation of the counterexample: an edge 0 - 1 and a star with centre 18 and leaves 2, ..., 17. -/
def starEdge (i j : Nat) : Prop :=
  (i = 0 ∧ j = 1) ∨ (i = 1 ∧ j = 0) ∨ (i = 18 ∧ 2 ≤ j ∧ j ≤ 17) ∨ (j = 18 ∧ 2 ≤ i ∧ i ≤ 17)

instance (i j : Nat) : Decidable (starEdge i j) := by unfold starEdge; infer_instance

/-- **C59** (counterexample).  Without equal degrees in each component, spectral clustering need not return
the components, even when their number is `k`: on an edge together with a star with 16 leaves (19
vertices, two components, all weights 1), whatever eigenvectors the solver returns within its contract,
`spectral_cluster(graph, 2)` separates the centre of the star from its leaves and puts the leaves together
with the edge. -/
theorem C59_components_counterexample : ∃ (g : Graph ℝ) (comp : Nat → Nat),
    g.Reachable ∧ (∀ u v, 0 ≤ g.abs.w u v) ∧ (∀ v, g.abs.w v v = 0) ∧ (∀ v, v < g.n → 0 < g.abs.deg v) ∧
    Components g.abs comp 2 ∧ 2 * 2 ≤ g.n ∧ g.abs.Connected 2 18 ∧ ¬ g.abs.Connected 0 2 ∧
    (∃ solve res, SolverSpec solve ∧ computeEigensystem solve g .normalisedLaplacian 2 .smallest = .ok res) ∧
    ∀ (solve : EigenSolver) (res : EigenPairs) (junk : Nat → ℝ), SolverSpec solve →
      computeEigensystem solve g .normalisedLaplacian 2 .smallest = .ok res →
      spectralCluster solve g 2 junk = .ok (List.replicate 18 0 ++ [1]) := by
  obtain ⟨g, hr, ha⟩ := exists_unit_graph 19 starEdge (fun i j => by unfold starEdge; omega)
  have hn : g.n = 19 := congrArg WGraph.n ha
  have hn' : g.abs.n = 19 := hn
  have hw : ∀ u v, 0 ≤ g.abs.w u v := by
    intro u v
    rw [ha]; simp only [unitGraph]; split_ifs <;> norm_num
  have hloop : ∀ v, g.abs.w v v = 0 := by
    intro v
    rw [ha]; simp only [unitGraph]; rw [if_neg (by unfold starEdge; omega)]
  have hdeg : ∀ v, v < 19 → g.abs.deg v = if v = 18 then 16 else 1 := by
    intro v hv
    rw [ha]
    simp only [WGraph.deg, unitGraph, Finset.sum_range_succ, Finset.sum_range_zero]
    interval_cases v <;> norm_num [starEdge]
  have hd : ∀ v, v < g.n → 0 < g.abs.deg v := by
    intro v hv
    rw [hdeg v (by omega)]; split_ifs <;> norm_num
  have hadj : ∀ u v, g.abs.Adj u v ↔ u < 19 ∧ v < 19 ∧ starEdge u v := by
    intro u v
    unfold WGraph.Adj
    rw [ha]
    simp only [unitGraph]
    split_ifs with h
    · simp [h]
    · simp; tauto
  set comp : Nat → Nat := fun i => if i < 2 then 0 else 1 with hcomp
  have hinv : ∀ u v, g.abs.Connected u v → u < 19 → comp u = comp v := by
    intro u v hconn hu
    induction hconn with
    | refl => rfl
    | step hr' hstep ih =>
      obtain ⟨h1, h2, h3⟩ := (hadj _ _).1 hstep
      rw [ih]
      simp only [hcomp]
      unfold starEdge at h3
      split_ifs <;> omega
  have hleaf : ∀ v, 2 ≤ v → v < 19 → g.abs.Connected v 18 ∧ g.abs.Connected 18 v := by
    intro v h1 h2
    rcases Nat.lt_or_ge v 18 with h | h
    · exact ⟨.step .refl ((hadj _ _).2 ⟨h2, by norm_num, by unfold starEdge; omega⟩),
        .step .refl ((hadj _ _).2 ⟨by norm_num, h2, by unfold starEdge; omega⟩)⟩
    · obtain rfl : v = 18 := by omega
      exact ⟨.refl, .refl⟩
  have hcc : Components g.abs comp 2 := by
    refine ⟨fun v _ => by simp only [hcomp]; split_ifs <;> omega, ?_, ?_⟩
    · intro u hu v hv
      rw [hn'] at hu hv
      refine ⟨fun he => ?_, fun hc => hinv u v hc hu⟩
      simp only [hcomp] at he
      by_cases hu2 : u < 2
      · have hv2 : v < 2 := by by_contra hv2; rw [if_pos hu2, if_neg hv2] at he; omega
        rcases Nat.lt_trichotomy u v with h | h | h
        · exact .step .refl ((hadj u v).2 ⟨hu, hv, by unfold starEdge; omega⟩)
        · subst h; exact .refl
        · exact .step .refl ((hadj u v).2 ⟨hu, hv, by unfold starEdge; omega⟩)
      · have hv2 : ¬ v < 2 := by intro hv2; rw [if_neg hu2, if_pos hv2] at he; omega
        have h1 := (hleaf u (by omega) hu).1
        rcases Nat.lt_or_ge v 18 with h | h
        · exact .step h1 ((hadj _ _).2 ⟨by norm_num, hv, by unfold starEdge; omega⟩)
        · obtain rfl : v = 18 := by omega
          exact h1
    · intro c hc
      exact ⟨2 * c, by omega, by simp only [hcomp]; split_ifs <;> omega⟩
  refine ⟨g, comp, hr, hw, hloop, hd, hcc, by omega, (hleaf 2 le_rfl (by norm_num)).1,
    fun hc => ?_, ?_, ?_⟩
  · have := hinv 0 2 hc (by norm_num)
    simp [hcomp] at this
  · obtain ⟨solve, hs, hall⟩ := C53_always_answers
    obtain ⟨res, hres⟩ := hall g .normalisedLaplacian 2 .smallest hr (by norm_num) (by rw [hn]; norm_num)
      (fun _ => hd)
    exact ⟨solve, res, hs, hres⟩
  intro solve res junk hsolve hres
  set X := embedding (res.map Prod.snd) with hX
  have hin := C59_embedding solve hsolve hr hw hloop hd (k := 2) hcc (res.map Prod.snd)
    (by unfold computeEigenvectors; rw [show ((2 : Nat) : Int) = 2 by norm_num, hres]; rfl)
  rw [← hX] at hin
  have hvol0 : g.abs.vol ((Finset.range g.n).filter (fun v => comp v = 0)) = 2 := by
    rw [hn, show (Finset.range 19).filter (fun v => comp v = 0) = {0, 1} by
      simp only [hcomp]; decide]
    simp [WGraph.vol, hdeg]; norm_num
  have hvol1 : g.abs.vol ((Finset.range g.n).filter (fun v => comp v = 1)) = 32 := by
    have hset : (Finset.range 19).filter (fun v => comp v = 1) = Finset.Ico 2 19 := by
      simp only [hcomp]; decide
    rw [hn, hset]
    unfold WGraph.vol
    rw [Finset.sum_congr rfl (fun v hv => hdeg v (Finset.mem_Ico.1 hv).2), Finset.sum_ite]
    simp
    rw [show (Finset.Ico 2 19).filter (fun v => v = 18) = {18} by decide,
      show (Finset.Ico 2 19).filter (fun v => ¬ v = 18) = Finset.Ico 2 18 by decide]
    norm_num
  have hs16 : Real.sqrt 16 = 4 := by
    rw [show (16 : ℝ) = 4 ^ 2 by norm_num, Real.sqrt_sq (by norm_num)]
  have hsq : ∀ v, v < 19 → Real.sqrt (g.abs.deg v) = if v = 18 then 4 else 1 := by
    intro v hv
    rw [hdeg v hv]
    split_ifs
    · exact hs16
    · exact Real.sqrt_one
  -- inner products
  have hgram : ∀ i < 19, ∀ j < 19, ∑ d ∈ Finset.range 2, X i d * X j d =
      if comp i = comp j then (if i = 18 then 4 else 1) * (if j = 18 then 4 else 1) /
        (if i < 2 then 2 else 32) else 0 := by
    intro i hi j hj
    rw [hin i j (by omega) (by omega), hsq i hi, hsq j hj]
    by_cases he : comp i = comp j
    · rw [if_pos he, if_pos he]
      congr 1
      by_cases h2 : i < 2
      · rw [if_pos h2, show comp i = 0 by simp only [hcomp, if_pos h2], hvol0]
      · rw [if_neg h2, show comp i = 1 by simp only [hcomp, if_neg h2], hvol1]
    · rw [if_neg he, if_neg he]
  set a := X 2 with haX
  set b := X 0 with hbX
  have haa : a 0 * a 0 + a 1 * a 1 = 1 / 32 := by
    have := hgram 2 (by norm_num) 2 (by norm_num)
    simpa [Finset.sum_range_succ] using this
  have hbb : b 0 * b 0 + b 1 * b 1 = 1 / 2 := by
    have := hgram 0 (by norm_num) 0 (by norm_num)
    simpa [Finset.sum_range_succ] using this
  have hab : a 0 * b 0 + a 1 * b 1 = 0 := by
    have := hgram 2 (by norm_num) 0 (by norm_num)
    simpa [Finset.sum_range_succ, hcomp] using this
  set α : Nat → ℝ := fun i => if i < 2 then 0 else if i < 18 then 1 else 4 with hα
  set β : Nat → ℝ := fun i => if i < 2 then 1 else 0 with hβ
  have hrep : ∀ i < 19, ∀ d < 2, X i d = α i * a d + β i * b d := by
    intro i hi d hdd
    simp only [hα, hβ]
    by_cases h2 : i < 2
    · rw [if_pos h2, if_pos h2, zero_mul, zero_add]
      have e : comp i = comp 0 := by simp only [hcomp, if_pos h2]; rfl
      refine prop_of_gram (hgram i hi i hi) (hgram i hi 0 (by norm_num)) (hgram 0 (by norm_num) 0 (by norm_num))
        ?_ d hdd
      rw [if_pos rfl, if_pos e, if_pos rfl, if_pos h2, if_neg (by omega)]
      norm_num
    · rw [if_neg h2, if_neg h2, zero_mul, add_zero]
      have e : comp i = comp 2 := by simp only [hcomp, if_neg h2]; rfl
      refine prop_of_gram (hgram i hi i hi) (hgram i hi 2 (by norm_num)) (hgram 2 (by norm_num) 2 (by norm_num))
        ?_ d hdd
      rw [if_pos rfl, if_pos e, if_pos rfl, if_neg h2]
      by_cases h3 : i < 18
      · rw [if_neg (by omega), if_pos h3]; norm_num
      · rw [if_pos (by omega), if_neg h3]; norm_num
  have hdist : ∀ i < 19, ∀ j < 19, KMeans.dist2 2 (X i) (X j) = (α i - α j) ^ 2 / 32 + (β i - β j) ^ 2 / 2 :=
    fun i hi j hj => dist2_comb haa hbb hab (hrep i hi) (hrep j hj)
  -- the seeds are a leaf and the centre of the star
  obtain ⟨M, ch, hM, ⟨c1, c2⟩, h2, -, h4⟩ := (KMeans.C55_seeding X 19 2 2 (by norm_num) (by norm_num)
    (MT.draw 42) draw42.1 (fun _ _ => 0) junk).1 draw42.2
  rw [(MT.C55_seed42 (K := ℝ)).1] at c1 c2
  have hch0 : ch 0 = 7 := by
    have e1 : (ch 0 : ℝ) < 8 := by
      refine lt_of_le_of_lt c1 ?_
      norm_num
    have e2 : (6 : ℝ) < ch 0 := by
      have : (7 : ℝ) < ch 0 + 1 := lt_of_le_of_lt (by norm_num) c2
      linarith
    have e1 : ch 0 < 8 := by exact_mod_cast e1
    have e2 : 6 < ch 0 := by exact_mod_cast e2
    omega
  have hp : ∀ i < 19, KMeans.nearDist X 2 ch 0 i = if i < 2 then 17 / 32 else if i < 18 then 0 else 9 / 32 := by
    intro i hi
    rw [KMeans.nearDist_zero, hch0, hdist i hi 7 (by norm_num)]
    have e7 : α 7 = 1 ∧ β 7 = 0 := by simp [hα, hβ]
    rw [e7.1, e7.2]
    simp only [hα, hβ]
    split_ifs <;> norm_num
  have hsum18 : ∑ i ∈ Finset.range 18, KMeans.nearDist X 2 ch 0 i = 34 / 32 := by
    rw [Finset.sum_congr rfl (fun i hi => hp i (by have := Finset.mem_range.1 hi; omega))]
    norm_num [Finset.sum_range_succ]
  have hsum19 : ∑ i ∈ Finset.range 19, KMeans.nearDist X 2 ch 0 i = 43 / 32 := by
    rw [Finset.sum_range_succ, hsum18, hp 18 (by norm_num)]
    norm_num
  have hch1 : ch 1 = 18 := by
    rw [h4 0 (by norm_num)]
    refine ((KMeans.C55_weighted_choice _ 19 (fun i hi => ?_) (by rw [hsum19]; norm_num) (MT.draw 42 1)
      ?_ ?_ 18).1).2 ⟨by norm_num, ?_, ?_⟩
    · rw [hp i hi]; split_ifs <;> norm_num
    · rw [draw42_one]; norm_num
    · rw [draw42_one]; norm_num
    · rw [draw42_one, hsum18, hsum19]; norm_num
    · rw [draw42_one, hsum18, hsum19, hp 18 (by norm_num)]; norm_num
  have hM0 : M 0 = X 7 := by rw [(h2 0 (by norm_num)).2, hch0]
  have hM1 : M 1 = X 18 := by rw [(h2 1 (by norm_num)).2, hch1]
  -- the labels are the same in every iteration
  have hlab : ∀ (C : Nat → Nat → ℝ) (p q : ℝ), ((p = 1 ∧ q = 0) ∨ (p = 8 / 9 ∧ q = 1 / 9)) →
      (∀ d < 2, C 0 d = p * a d + q * b d) → (∀ d < 2, C 1 d = 4 * a d + 0 * b d) →
      ∀ i < 19, KMeans.lab X 2 2 C i = if i = 18 then 1 else 0 := by
    intro C p q hpq hC0 hC1 i hi
    by_cases h18 : i = 18
    · rw [if_pos h18]
      refine lab_two.2 ?_
      rw [dist2_comb haa hbb hab (hrep i hi) hC0, dist2_comb haa hbb hab (hrep i hi) hC1]
      simp only [hα, hβ]
      subst h18
      rcases hpq with ⟨rfl, rfl⟩ | ⟨rfl, rfl⟩ <;> norm_num
    · rw [if_neg h18]
      refine lab_two.1 ?_
      rw [dist2_comb haa hbb hab (hrep i hi) hC0, dist2_comb haa hbb hab (hrep i hi) hC1]
      simp only [hα, hβ]
      by_cases hi2 : i < 2
      · rw [if_pos hi2, if_pos hi2]
        rcases hpq with ⟨rfl, rfl⟩ | ⟨rfl, rfl⟩ <;> norm_num
      · rw [if_neg hi2, if_neg hi2, if_pos (by omega)]
        rcases hpq with ⟨rfl, rfl⟩ | ⟨rfl, rfl⟩ <;> norm_num
  have hcen : ∀ s, ∃ p q : ℝ, ((p = 1 ∧ q = 0) ∨ (p = 8 / 9 ∧ q = 1 / 9)) ∧
      (∀ d < 2, KMeans.cen X 19 2 2 M s 0 d = p * a d + q * b d) ∧
      (∀ d < 2, KMeans.cen X 19 2 2 M s 1 d = 4 * a d + 0 * b d) := by
    intro s
    induction s with
    | zero =>
      refine ⟨1, 0, .inl ⟨rfl, rfl⟩, fun d hdd => ?_, fun d hdd => ?_⟩
      · rw [KMeans.cen, hM0, hrep 7 (by norm_num) d hdd]; simp [hα, hβ]
      · rw [KMeans.cen, hM1, hrep 18 (by norm_num) d hdd]; simp [hα, hβ]
    | succ s ih =>
      obtain ⟨p, q, hpq, hC0, hC1⟩ := ih
      have hl := hlab _ p q hpq hC0 hC1
      refine ⟨8 / 9, 1 / 9, .inr ⟨rfl, rfl⟩, fun d hdd => ?_, fun d hdd => ?_⟩
      · rw [KMeans.cen, KMeans.calcMu_congr X 19 hl]
        unfold KMeans.calcMu
        simp only []
        rw [sum_list_range, sum_list_range]
        have e1 : ∑ i ∈ Finset.range 19, (if (if i = 18 then 1 else 0) = 0 then X i d else 0)
            = ∑ i ∈ Finset.range 19, (if (if i = 18 then 1 else 0) = 0 then α i * a d + β i * b d else 0) :=
          Finset.sum_congr rfl (fun i hi => by rw [hrep i (Finset.mem_range.1 hi) d hdd])
        rw [e1]
        have e2 : ∑ i ∈ Finset.range 19, (if (if i = 18 then 1 else 0) = 0 then (1 : ℝ) else 0) = 18 := by
          norm_num [Finset.sum_range_succ]
        rw [e2, if_neg (by norm_num)]
        simp only [hα, hβ]
        norm_num [Finset.sum_range_succ]
        ring
      · rw [KMeans.cen, KMeans.calcMu_congr X 19 hl]
        unfold KMeans.calcMu
        simp only []
        rw [sum_list_range, sum_list_range]
        have e1 : ∑ i ∈ Finset.range 19, (if (if i = 18 then 1 else 0) = 1 then X i d else 0)
            = ∑ i ∈ Finset.range 19, (if (if i = 18 then 1 else 0) = 1 then α i * a d + β i * b d else 0) :=
          Finset.sum_congr rfl (fun i hi => by rw [hrep i (Finset.mem_range.1 hi) d hdd])
        rw [e1]
        have e2 : ∑ i ∈ Finset.range 19, (if (if i = 18 then 1 else 0) = 1 then (1 : ℝ) else 0) = 1 := by
          norm_num [Finset.sum_range_succ]
        rw [e2, if_neg (by norm_num)]
        simp only [hα, hβ]
        norm_num [Finset.sum_range_succ]
  rw [spectral_eq solve hsolve hr hw hd 2 (by rw [hn]; norm_num) junk res hres, ← hX, hn]
  unfold KMeans.runKMeans
  rw [show (2 : Int).toNat = 2 from rfl, hM]
  simp only [Outcome.bind]
  obtain ⟨j, -, -, hj, -, -⟩ := KMeans.runLloyd_spec X 19 2 2 M (fun _ => 0) 199
  obtain ⟨p, q, hpq, hC0, hC1⟩ := hcen j
  have hfin := hlab _ p q hpq hC0 hC1
  rw [show (2 : Int) * 100 = ((199 + 1 : Nat) : Int) by norm_num]
  congr 1
  rw [List.map_congr_left (g := fun i => if i = 18 then 1 else 0) (fun i hi => by
    rw [hj i (List.mem_range.1 hi), hfin i (List.mem_range.1 hi)])]
  decide

end Stag
