import Verif.RandomDraws
import Verif.Props.ApproxSimilarity
import Mathlib.MeasureTheory.Constructions.BorelSpace.Order
import Mathlib.MeasureTheory.Constructions.Pi
import Mathlib.MeasureTheory.Measure.Lebesgue.Basic
import Mathlib.Probability.ProbabilityMassFunction.Basic
import Mathlib.Probability.ProbabilityMassFunction.Monad

/-!
# The distribution of the samples drawn by `KDETreeEntry::sample_neighbors`

`KdeTree.Sample` (in `Similarity`) says which results are possible.  Here is the probability of each of them, when
the uniform numbers are independent and uniform in `[0, 1)` and the binomial numbers are binomially distributed.
-/

namespace Stag

open MeasureTheory Set Real
open scoped ENNReal

/-- Uniform numbers in `[0, 1)`. -/
noncomputable def unif : Measure ℝ := volume.restrict (Ico 0 1)

instance : IsProbabilityMeasure unif := ⟨by simp [unif]⟩

/-! ## Leaves: the returned list is a function of the rows the numbers fall on -/

theorem sampleLoop_sorted (a : ℝ) (q : List ℝ) (data : List (List ℝ)) : ∀ (i : Int) (total : ℝ)
    (targets : List ℝ) (samples : List Int), samples.Pairwise (· ≤ ·) → (∀ s ∈ samples, s ≤ i) →
    (sampleLoop a q i data total targets samples).Pairwise (· ≤ ·) := by
  induction data with
  | nil => intro i total targets samples h _; exact h
  | cons x data ih =>
    intro i total targets samples h hi
    unfold sampleLoop
    simp only
    have h1 : ∀ n, (samples ++ List.replicate n i).Pairwise (· ≤ ·) := by
      intro n
      rw [List.pairwise_append]
      refine ⟨h, List.pairwise_replicate.2 (.inr le_rfl), fun a ha b hb => ?_⟩
      rw [List.eq_of_mem_replicate hb]
      exact hi a ha
    split_ifs
    · exact h1 _
    · apply ih _ _ _ _ (h1 _)
      intro s hs
      rcases List.mem_append.1 hs with hs | hs
      · have := hi s hs; omega
      · rw [List.eq_of_mem_replicate hs]; omega

/-- The row a number falls on. -/
noncomputable def rowOf (e : ExactKde) (q : List ℝ) (degree r : ℝ) : Option Int :=
  pick e.a q (degree * r) e.minId e.allData 0

theorem sampleNeighbors_perm (e : ExactKde) (q : List ℝ) (degree : ℝ) (rs : List ℝ) :
    (e.sampleNeighbors q degree rs).Perm (rs.filterMap (rowOf e q degree)) := by
  obtain ⟨f, h1, h2, -⟩ := C50_samples e q degree rs
  have : f = rowOf e q degree := by
    funext r
    apply Option.ext
    intro i
    rw [h2, rowOf, pick_spec]
    simp only [zero_add, FallsOn]
  rw [← this]
  exact h1

theorem sampleNeighbors_eq (e : ExactKde) (q : List ℝ) (degree : ℝ) (rs : List ℝ) :
    e.sampleNeighbors q degree rs
      = ((rs.map (rowOf e q degree)).filterMap id).mergeSort (fun x y => decide (x ≤ y)) := by
  have hp : (e.sampleNeighbors q degree rs).Perm
      (((rs.map (rowOf e q degree)).filterMap id).mergeSort (fun x y => decide (x ≤ y))) := by
    refine ((sampleNeighbors_perm e q degree rs).trans ?_).trans (List.mergeSort_perm _ _).symm
    rw [List.filterMap_map]
    exact List.Perm.of_eq rfl
  have hs := List.pairwise_mergeSort (le := fun x y : Int => decide (x ≤ y))
    (by intro a b c; simp only [decide_eq_true_eq]; exact le_trans)
    (by intro a b; simp only [Bool.or_eq_true, decide_eq_true_eq]; exact le_total a b)
    ((rs.map (rowOf e q degree)).filterMap id)
  simp only [decide_eq_true_eq] at hs
  refine List.Perm.eq_of_pairwise (fun a b _ _ h1 h2 => le_antisymm h1 h2) ?_ hs hp
  exact sampleLoop_sorted _ _ _ _ _ _ _ List.Pairwise.nil (by simp)

theorem measurable_pick (a : ℝ) (q : List ℝ) (degree : ℝ) (data : List (List ℝ)) : ∀ (i : Int) (total : ℝ),
    @Measurable ℝ (Option Int) _ ⊤ (fun r => pick a q (degree * r) i data total) := by
  induction data with
  | nil =>
    intro i total
    let _ : MeasurableSpace (Option Int) := ⊤
    exact measurable_const
  | cons x data ih =>
    intro i total
    let _ : MeasurableSpace (Option Int) := ⊤
    have : (fun r => pick a q (degree * r) i (x :: data) total) = fun r =>
        if degree * r < total + gauss a q x then some i else pick a q (degree * r) (i + 1) data (total + gauss a q x) := by
      funext r
      rw [pick]
    rw [this]
    exact Measurable.ite (measurableSet_lt (by fun_prop) (by fun_prop)) measurable_const (ih _ _)

/-- A function of the rows which `num` numbers fall on is measurable. -/
theorem measurable_rows {β : Type} (e : ExactKde) (q : List ℝ) (degree : ℝ) (num : Nat) (g : List (Option Int) → β) :
    @Measurable (Fin num → ℝ) β _ ⊤ (fun rs => g ((List.ofFn rs).map (rowOf e q degree))) := by
  let _ : MeasurableSpace (Option Int) := ⊤
  let _ : MeasurableSpace β := ⊤
  have h1 : Measurable (fun (rs : Fin num → ℝ) (i : Fin num) => rowOf e q degree (rs i)) := by
    rw [measurable_pi_iff]
    intro i
    exact (measurable_pick e.a q degree e.allData e.minId 0).comp (measurable_pi_apply i)
  have h2 : (fun rs : Fin num → ℝ => g ((List.ofFn rs).map (rowOf e q degree)))
      = (fun v : Fin num → Option Int => g (List.ofFn v)) ∘
        (fun (rs : Fin num → ℝ) (i : Fin num) => rowOf e q degree (rs i)) := by
    funext rs
    simp only [Function.comp_apply, List.map_ofFn]
    rfl
  rw [h2]
  exact (measurable_of_countable _).comp h1

/-- The distribution of a function with values in a countable set of the rows that `num` independent uniform numbers
fall on. -/
noncomputable def drawLaw {β : Type} [Countable β] (e : ExactKde) (q : List ℝ) (degree : ℝ) (num : Nat)
    (g : List (Option Int) → β) : PMF β :=
  letI : MeasurableSpace β := ⊤
  haveI : IsProbabilityMeasure ((Measure.pi fun _ : Fin num => unif).map
      fun rs => g ((List.ofFn rs).map (rowOf e q degree))) :=
    Measure.isProbabilityMeasure_map (measurable_rows e q degree num g).aemeasurable
  ((Measure.pi fun _ : Fin num => unif).map fun rs => g ((List.ofFn rs).map (rowOf e q degree))).toPMF

theorem drawLaw_apply {β : Type} [Countable β] (e : ExactKde) (q : List ℝ) (degree : ℝ) (num : Nat)
    (g : List (Option Int) → β) (b : β) :
    drawLaw e q degree num g b
      = (Measure.pi fun _ : Fin num => unif) {rs | g ((List.ofFn rs).map (rowOf e q degree)) = b} := by
  unfold drawLaw
  let _ : MeasurableSpace β := ⊤
  rw [Measure.toPMF_apply, Measure.map_apply (measurable_rows e q degree num g) (MeasurableSpace.measurableSet_top)]
  rfl

/-- The distribution of the list returned by `ExactGaussianKDE::sample_neighbors` (`stag_lib/kde.cpp:661-696`) for
`num` independent uniform numbers. -/
noncomputable def leafLaw (e : ExactKde) (q : List ℝ) (degree : ℝ) (num : Nat) : PMF (List Int) :=
  letI : MeasurableSpace (List Int) := ⊤
  haveI : IsProbabilityMeasure ((Measure.pi fun _ : Fin num => unif).map
      fun rs => e.sampleNeighbors q degree (List.ofFn rs)) :=
    Measure.isProbabilityMeasure_map (by
      simp only [sampleNeighbors_eq]
      exact (measurable_rows e q degree num
        fun l => (l.filterMap id).mergeSort (fun x y => decide (x ≤ y))).aemeasurable)
  ((Measure.pi fun _ : Fin num => unif).map fun rs => e.sampleNeighbors q degree (List.ofFn rs)).toPMF

/-- The distribution of the result of `KDETreeEntry::sample_neighbors` (`stag_lib/cluster.cpp:747-777`): independent
uniform numbers at the leaves, a binomial number at the inner nodes. -/
noncomputable def KdeTree.law (data : Mat ℝ) (a : ℝ) (q : List ℝ) : KdeTree → Nat → PMF (Outcome (List Int))
  | .leaf lo hi, num =>
    (leafLaw (exactOn data a lo hi) q ((KdeTree.leaf lo hi).weight data a q) num).map Outcome.ok
  | .node _ _ _ left right, num =>
    let leftEst := left.weight data a q
    let rightEst := right.weight data a q
    let myEst := leftEst + rightEst
    haveI := Classical.propDecidable (¬ (myEst ≠ 0 ∧ 0 ≤ leftEst / myEst ∧ leftEst / myEst ≤ 1))
    if ¬ (myEst ≠ 0 ∧ 0 ≤ leftEst / myEst ∧ leftEst / myEst ≤ 1) then PMF.pure .ub
    else (binomLaw (leftEst / myEst) num).bind fun numLeft =>
      (if numLeft > 0 then left.law data a q numLeft else PMF.pure (.ok [])).bind fun l =>
        (if numLeft < num then right.law data a q (num - numLeft) else PMF.pure (.ok [])).bind fun r =>
          PMF.pure (l.bind fun x => r.bind fun y => .ok (x ++ y))

theorem leafLaw_apply (e : ExactKde) (q : List ℝ) (degree : ℝ) (num : Nat) (l : List Int) :
    leafLaw e q degree num l
      = (Measure.pi fun _ : Fin num => unif) {rs | e.sampleNeighbors q degree (List.ofFn rs) = l} := by
  unfold leafLaw
  let _ : MeasurableSpace (List Int) := ⊤
  have hm : Measurable (fun rs : Fin num → ℝ => e.sampleNeighbors q degree (List.ofFn rs)) := by
    simp only [sampleNeighbors_eq]
    exact measurable_rows e q degree num fun l => (l.filterMap id).mergeSort (fun x y => decide (x ≤ y))
  rw [Measure.toPMF_apply, Measure.map_apply hm (MeasurableSpace.measurableSet_top)]
  rfl

/-! ## Independence of the numbers -/

/-- The distribution of the row one uniform number falls on. -/
noncomputable def oneLaw (e : ExactKde) (q : List ℝ) (degree : ℝ) : PMF (Option Int) :=
  drawLaw e q degree 1 fun l => l.headD none

theorem oneLaw_apply (e : ExactKde) (q : List ℝ) (degree : ℝ) (o : Option Int) :
    oneLaw e q degree o = unif {r | rowOf e q degree r = o} := by
  unfold oneLaw
  rw [drawLaw_apply]
  have : {rs : Fin 1 → ℝ | ((List.ofFn rs).map (rowOf e q degree)).headD none = o}
      = Set.pi univ fun _ : Fin 1 => {r | rowOf e q degree r = o} := by
    ext rs
    simp [Set.mem_pi]
  rw [this, Measure.pi_pi]
  simp

theorem drawLaw_zero {β : Type} [Countable β] (e : ExactKde) (q : List ℝ) (degree : ℝ) (g : List (Option Int) → β) :
    drawLaw e q degree 0 g = PMF.pure (g []) := by
  ext b
  rw [drawLaw_apply]
  by_cases h : g [] = b
  · subst h
    simp
  · rw [PMF.pure_apply, if_neg (Ne.symm h)]
    have : {rs : Fin 0 → ℝ | g ((List.ofFn rs).map (rowOf e q degree)) = b} = ∅ := by
      ext rs
      simpa using h
    rw [this, measure_empty]

theorem drawLaw_succ {β : Type} [Countable β] (e : ExactKde) (q : List ℝ) (degree : ℝ) (num : Nat)
    (g : List (Option Int) → β) :
    drawLaw e q degree (num + 1) g
      = (oneLaw e q degree).bind fun o => drawLaw e q degree num fun l => g (o :: l) := by
  ext b
  rw [PMF.bind_apply, drawLaw_apply]
  simp only [oneLaw_apply, drawLaw_apply]
  have hmp := measurePreserving_piFinSuccAbove (fun _ : Fin (num + 1) => unif) 0
  have hrow : ∀ o, MeasurableSet {r | rowOf e q degree r = o} := by
    intro o
    exact measurable_pick e.a q degree e.allData e.minId 0 (MeasurableSpace.measurableSet_top (s := {o}))
  have hg : ∀ o, MeasurableSet {rs : Fin num → ℝ | g (o :: (List.ofFn rs).map (rowOf e q degree)) = b} := by
    intro o
    exact measurable_rows e q degree num (fun l => g (o :: l)) (MeasurableSpace.measurableSet_top (s := {b}))
  have hset : {rs : Fin (num + 1) → ℝ | g ((List.ofFn rs).map (rowOf e q degree)) = b}
      = (MeasurableEquiv.piFinSuccAbove (fun _ : Fin (num + 1) => ℝ) 0) ⁻¹'
        (⋃ o, {r | rowOf e q degree r = o} ×ˢ {rs : Fin num → ℝ | g (o :: (List.ofFn rs).map (rowOf e q degree)) = b}) := by
    ext rs
    simp only [Set.mem_ofPred_eq, mem_preimage, mem_iUnion, mem_prod, exists_eq_left', List.ofFn_succ, List.map_cons]
    rfl
  rw [hset, hmp.measure_preimage (MeasurableSet.iUnion fun o => (hrow o).prod (hg o)).nullMeasurableSet,
    measure_iUnion]
  · apply tsum_congr
    intro o
    rw [Measure.prod_prod]
  · intro o o' hoo
    rw [Function.onFun, Set.disjoint_left]
    rintro ⟨r, rs⟩ h1 h2
    exact hoo (h1.1.symm.trans h2.1)
  · intro o
    exact (hrow o).prod (hg o)

theorem drawLaw_map {β γ : Type} [Countable β] [Countable γ] (e : ExactKde) (q : List ℝ) (degree : ℝ) (num : Nat)
    (g : List (Option Int) → β) (h : β → γ) :
    (drawLaw e q degree num g).map h = drawLaw e q degree num (h ∘ g) := by
  induction num generalizing g with
  | zero => rw [drawLaw_zero, drawLaw_zero, PMF.pure_map]; rfl
  | succ num ih =>
    rw [drawLaw_succ, drawLaw_succ, PMF.map_bind]
    congr 1
    funext o
    exact ih _

theorem leafLaw_eq (e : ExactKde) (q : List ℝ) (degree : ℝ) (num : Nat) :
    leafLaw e q degree num
      = drawLaw e q degree num fun l => (l.filterMap id).mergeSort (fun x y => decide (x ≤ y)) := by
  ext l
  rw [leafLaw_apply, drawLaw_apply]
  simp only [sampleNeighbors_eq]

/-- The rows returned by a leaf are independent draws. -/
theorem leafLaw_iid (e : ExactKde) (q : List ℝ) (degree : ℝ) (p : PMF Int) (hp : oneLaw e q degree = p.map some)
    (num : Nat) : (leafLaw e q degree num).map Multiset.ofList = iidLaw p num := by
  rw [leafLaw_eq, drawLaw_map]
  have h1 : (Multiset.ofList ∘
      fun l : List (Option Int) => (l.filterMap id).mergeSort (fun x y => decide (x ≤ y)))
      = fun l => Multiset.ofList (l.filterMap id) := by
    funext l
    exact Multiset.coe_eq_coe.2 (List.mergeSort_perm _ _)
  rw [h1]
  induction num with
  | zero => rw [drawLaw_zero, iidLaw]; rfl
  | succ num ih =>
    rw [drawLaw_succ, hp, iidLaw, PMF.bind_map]
    congr 1
    funext x
    simp only [Function.comp_apply]
    rw [← ih]
    exact (drawLaw_map e q degree num (fun l => Multiset.ofList (l.filterMap id)) (fun M => x ::ₘ M)).symm

end Stag
