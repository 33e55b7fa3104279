import Verif.Random
import Verif.Spec.RandomGraph
import Verif.SparseLemmas
import Verif.GraphOpsLemmas
import Mathlib.Tactic.Ring
import Mathlib.Tactic.Linarith
import Mathlib.Tactic.SplitIfs

/-!
# Lemmas about the random graph generators
-/

set_option linter.unusedSectionVars false

namespace Stag

/-! ## Blocks -/

/-- A block describes two clusters correctly. -/
structure BlockOk (sizes : List Nat) (b : SbmBlock) : Prop where
  le : b.ci ≤ b.cj
  lt : b.cj < sizes.length
  s1 : b.s1 = (sizes.take b.ci).sum
  s2 : b.s2 = (sizes.take b.cj).sum
  m1 : b.m1 = sizes.getD b.ci 0
  m2 : b.m2 = sizes.getD b.cj 0

theorem mem_innerBlocks {ci s1 m1 : Nat} {b : SbmBlock} (suf : List Nat) :
    ∀ pre : List Nat, b ∈ innerBlocks ci s1 m1 pre.length pre.sum suf ↔
      b.ci = ci ∧ b.s1 = s1 ∧ b.m1 = m1 ∧ pre.length ≤ b.cj ∧ b.cj < (pre ++ suf).length ∧
      b.s2 = ((pre ++ suf).take b.cj).sum ∧ b.m2 = (pre ++ suf).getD b.cj 0 := by
  induction suf with
  | nil =>
    intro pre
    simp only [innerBlocks, List.not_mem_nil, List.append_nil, false_iff]
    omega
  | cons m suf ih =>
    intro pre
    have h := ih (pre ++ [m])
    rw [List.length_append, List.length_singleton, List.sum_append, List.sum_singleton,
      List.append_assoc, List.singleton_append] at h
    rw [innerBlocks, List.mem_cons, h]
    constructor
    · rintro (rfl | ⟨h1, h2, h3, h4, h5, h6, h7⟩)
      · refine ⟨rfl, rfl, rfl, le_refl _, by simp, by simp, by simp⟩
      · exact ⟨h1, h2, h3, by omega, h5, h6, h7⟩
    · rintro ⟨h1, h2, h3, h4, h5, h6, h7⟩
      rcases Nat.eq_or_lt_of_le h4 with h4 | h4
      · left
        obtain ⟨a1, a2, a3, a4, a5, a6⟩ := b
        simp only at h1 h2 h3 h4 h6 h7
        subst h1 h2 h3
        rw [← h4] at h6 h7
        simp at h6 h7
        rw [h6, h7, h4]
      · exact .inr ⟨h1, h2, h3, by omega, h5, h6, h7⟩

theorem pairwise_innerBlocks {ci s1 m1 : Nat} (suf : List Nat) :
    ∀ pre : List Nat, (innerBlocks ci s1 m1 pre.length pre.sum suf).Pairwise
      (fun a b => a.ci = b.ci ∧ a.cj < b.cj) := by
  induction suf with
  | nil => intro pre; exact List.Pairwise.nil
  | cons m suf ih =>
    intro pre
    have h := ih (pre ++ [m])
    have hm := fun b => mem_innerBlocks (ci := ci) (s1 := s1) (m1 := m1) (b := b) suf (pre ++ [m])
    rw [List.length_append, List.length_singleton, List.sum_append, List.sum_singleton] at h
    simp only [List.length_append, List.length_singleton, List.sum_append, List.sum_singleton] at hm
    rw [innerBlocks, List.pairwise_cons]
    refine ⟨fun b hb => ?_, h⟩
    obtain ⟨h1, -, -, h4, -⟩ := (hm b).1 hb
    simp only
    omega

theorem mem_outerBlocks {b : SbmBlock} (suf : List Nat) :
    ∀ pre : List Nat, b ∈ outerBlocks pre.length pre.sum suf ↔
      pre.length ≤ b.ci ∧ BlockOk (pre ++ suf) b := by
  induction suf with
  | nil =>
    intro pre
    simp only [outerBlocks, List.not_mem_nil, List.append_nil, false_iff]
    rintro ⟨h, hb⟩
    have := hb.lt
    have := hb.le
    omega
  | cons m suf ih =>
    intro pre
    have h := ih (pre ++ [m])
    rw [List.length_append, List.length_singleton, List.sum_append, List.sum_singleton,
      List.append_assoc, List.singleton_append] at h
    rw [outerBlocks, List.mem_append, h, mem_innerBlocks (m :: suf) pre]
    constructor
    · rintro (⟨h1, h2, h3, h4, h5, h6, h7⟩ | ⟨h1, h2⟩)
      · refine ⟨by omega, ⟨by omega, h5, ?_, h6, ?_, h7⟩⟩
        · rw [h1, h2]; simp
        · rw [h1, h3]; simp
      · exact ⟨by omega, h2⟩
    · rintro ⟨h1, h2⟩
      rcases Nat.eq_or_lt_of_le h1 with h1 | h1
      · left
        have e1 := h2.s1
        have e2 := h2.m1
        rw [← h1] at e1 e2
        refine ⟨h1.symm, by simpa using e1, by simpa using e2, ?_, h2.lt, h2.s2, h2.m2⟩
        have := h2.le
        omega
      · exact .inr ⟨by omega, h2⟩

theorem pairwise_outerBlocks (suf : List Nat) :
    ∀ pre : List Nat, (outerBlocks pre.length pre.sum suf).Pairwise
      (fun a b => a.ci ≠ b.ci ∨ a.cj ≠ b.cj) := by
  induction suf with
  | nil => intro pre; exact List.Pairwise.nil
  | cons m suf ih =>
    intro pre
    have h := ih (pre ++ [m])
    have hm := fun b => mem_outerBlocks (b := b) suf (pre ++ [m])
    rw [List.length_append, List.length_singleton, List.sum_append, List.sum_singleton] at h
    simp only [List.length_append, List.length_singleton, List.sum_append, List.sum_singleton] at hm
    rw [outerBlocks, List.pairwise_append]
    refine ⟨(pairwise_innerBlocks (m :: suf) pre).imp (fun h => .inr (by omega)), h, ?_⟩
    intro a ha b hb
    have h1 := ((mem_innerBlocks (m :: suf) pre).1 ha).1
    have h2 := ((hm b).1 hb).1
    left; omega

theorem mem_allBlocks {sizes : List Nat} {b : SbmBlock} :
    b ∈ outerBlocks 0 0 sizes ↔ BlockOk sizes b := by
  have := mem_outerBlocks (b := b) sizes []
  simpa using this

theorem pairwise_allBlocks (sizes : List Nat) : (outerBlocks 0 0 sizes).Pairwise
    (fun a b => a.ci ≠ b.ci ∨ a.cj ≠ b.cj) := pairwise_outerBlocks sizes []

/-! ## Clusters -/

theorem take_succ_sum (sizes : List Nat) {c : Nat} (h : c < sizes.length) :
    (sizes.take (c + 1)).sum = (sizes.take c).sum + sizes.getD c 0 := by
  rw [List.take_succ_eq_append_getElem h, List.sum_append, List.sum_singleton,
    List.getD_eq_getElem _ _ h]

theorem take_sum_mono (sizes : List Nat) {a b : Nat} (h : a ≤ b) :
    (sizes.take a).sum ≤ (sizes.take b).sum := by
  have : sizes.take a = (sizes.take b).take a := by rw [List.take_take, min_eq_left h]
  rw [this]
  conv => rhs; rw [← List.take_append_drop a (sizes.take b), List.sum_append]
  omega

theorem InCluster.unique {sizes : List Nat} {c d v : Nat} (h : InCluster sizes c v)
    (h' : InCluster sizes d v) : c = d := by
  obtain ⟨-, h1, h2⟩ := h
  obtain ⟨-, h3, h4⟩ := h'
  rcases Nat.lt_trichotomy c d with hlt | he | hlt
  · have := take_sum_mono sizes (show c + 1 ≤ d by omega); omega
  · exact he
  · have := take_sum_mono sizes (show d + 1 ≤ c by omega); omega

theorem InCluster.lt_sum {sizes : List Nat} {c v : Nat} (h : InCluster sizes c v) :
    v < sizes.sum := by
  have := take_sum_mono sizes (show c + 1 ≤ max (c + 1) sizes.length by omega)
  rw [List.take_of_length_le (show sizes.length ≤ max (c + 1) sizes.length by omega)] at this
  have := h.2.2
  omega

theorem exists_inCluster {sizes : List Nat} {v : Nat} (h : v < sizes.sum) :
    ∃ c, InCluster sizes c v := by
  have key : ∀ k ≤ sizes.length, v < (sizes.take k).sum → ∃ c, InCluster sizes c v := by
    intro k
    induction k with
    | zero => intro _ h; simp at h
    | succ k ih =>
      intro hk hv
      by_cases hlt : v < (sizes.take k).sum
      · exact ih (by omega) hlt
      · exact ⟨k, by omega, by omega, hv⟩
  exact key sizes.length (le_refl _) (by rwa [List.take_length])

theorem BlockOk.in1 {sizes : List Nat} {b : SbmBlock} (h : BlockOk sizes b) {u : Nat} :
    InCluster sizes b.ci u ↔ b.s1 ≤ u ∧ u < b.s1 + b.m1 := by
  have h1 := h.lt
  have h2 := h.le
  unfold InCluster
  rw [take_succ_sum sizes (show b.ci < sizes.length by omega), ← h.s1, ← h.m1]
  constructor
  · rintro ⟨-, a, b⟩; exact ⟨a, b⟩
  · rintro ⟨a, b⟩; exact ⟨by omega, a, b⟩

theorem BlockOk.in2 {sizes : List Nat} {b : SbmBlock} (h : BlockOk sizes b) {u : Nat} :
    InCluster sizes b.cj u ↔ b.s2 ≤ u ∧ u < b.s2 + b.m2 := by
  have h1 := h.lt
  unfold InCluster
  rw [take_succ_sum sizes h1, ← h.s2, ← h.m2]
  constructor
  · rintro ⟨-, a, b⟩; exact ⟨a, b⟩
  · rintro ⟨a, b⟩; exact ⟨h1, a, b⟩

/-! ## Sampling -/

section
variable {K Ω : Type} [Field K] [LinearOrder K] [IsStrictOrderedRing K]

theorem mem_blockPairs {b : SbmBlock} {u v : Nat} :
    (u, v) ∈ blockPairs b ↔
      (b.s1 ≤ u ∧ u < b.s1 + b.m1) ∧ b.s2 ≤ v ∧ v < b.s2 + b.m2 := by
  simp only [blockPairs, List.mem_flatMap, List.mem_map, List.mem_range, Prod.mk.injEq]
  constructor
  · rintro ⟨i, hi, j, hj, rfl, rfl⟩; omega
  · rintro ⟨h1, h2⟩
    exact ⟨u - b.s1, by omega, v - b.s2, by omega, by omega, by omega⟩

theorem nodup_blockPairs (b : SbmBlock) : (blockPairs b).Nodup := by
  unfold blockPairs
  rw [List.nodup_flatMap]
  constructor
  · intro i _
    apply List.Nodup.map _ List.nodup_range
    intro x y h
    simp only [Prod.mk.injEq] at h
    omega
  · apply List.nodup_range.imp
    intro i j hij
    rw [Function.onFun, List.disjoint_left]
    rintro ⟨x, y⟩ h1 h2
    simp only [List.mem_map, Prod.mk.injEq] at h1 h2
    obtain ⟨_, _, e1, _⟩ := h1
    obtain ⟨_, _, e2, _⟩ := h2
    omega

theorem directLoop_sublist (R : Rng K Ω) (same : Bool) (p : K) (ps : List (Nat × Nat)) :
    ∀ ω, ((directLoop R same p ps ω).1.map (fun e => (e.u, e.v))).Sublist ps := by
  induction ps with
  | nil => intro ω; exact List.Sublist.refl _
  | cons q ps ih =>
    intro ω
    obtain ⟨i, j⟩ := q
    unfold directLoop
    by_cases h : same = true ∧ j ≤ i
    · rw [if_pos h]; exact (ih ω).cons _
    · rw [if_neg h]
      simp only
      split_ifs
      · exact (ih _).cons_cons _
      · exact (ih _).cons _

theorem directLoop_mem (R : Rng K Ω) (same : Bool) (p : K) (ps : List (Nat × Nat)) :
    ∀ ω, ∀ e ∈ (directLoop R same p ps ω).1,
      e.direct = true ∧ (same = true → e.u < e.v) ∧ p ≠ 0 := by
  induction ps with
  | nil => intro ω e he; simp [directLoop] at he
  | cons q ps ih =>
    intro ω e he
    obtain ⟨i, j⟩ := q
    unfold directLoop at he
    by_cases h : same = true ∧ j ≤ i
    · rw [if_pos h] at he; exact ih _ e he
    · rw [if_neg h] at he
      simp only at he
      split_ifs at he with hc
      · rcases List.mem_cons.1 he with rfl | he
        · refine ⟨rfl, fun hs => ?_, ?_⟩
          · simp only
            by_contra hn
            exact h ⟨hs, by omega⟩
          · rintro rfl
            rw [R.coin_zero] at hc
            exact absurd hc (by decide)
        · exact ih _ e he
      · exact ih _ e he

theorem directLoop_one (R : Rng K Ω) (same : Bool) (ps : List (Nat × Nat)) :
    ∀ ω, ∀ q ∈ ps, ¬ (same = true ∧ q.2 ≤ q.1) →
      ⟨q.1, q.2, true⟩ ∈ (directLoop R same 1 ps ω).1 := by
  induction ps with
  | nil => intro ω q hq; simp at hq
  | cons x ps ih =>
    intro ω q hq hn
    obtain ⟨i, j⟩ := x
    unfold directLoop
    by_cases h : same = true ∧ j ≤ i
    · rw [if_pos h]
      rcases List.mem_cons.1 hq with rfl | hq
      · exact absurd h hn
      · exact ih _ q hq hn
    · rw [if_neg h]
      simp only [R.coin_one, if_true]
      rcases List.mem_cons.1 hq with rfl | hq
      · exact List.mem_cons_self
      · exact List.mem_cons_of_mem _ (ih _ q hq hn)

theorem pickPair_spec (R : Rng K Ω) (b : SbmBlock) (fuel : Nat) :
    ∀ ω q ω', pickPair R b fuel ω = some (q, ω') → 1 ≤ b.m1 → 1 ≤ b.m2 →
      q ∈ blockPairs b ∧ q.1 ≠ q.2 := by
  induction fuel with
  | zero => intro ω q ω' h; simp [pickPair] at h
  | succ fuel ih =>
    intro ω q ω' h h1 h2
    unfold pickPair at h
    simp only at h
    split_ifs at h with hc
    · exact ih _ _ _ h h1 h2
    · simp only [Option.some.injEq, Prod.mk.injEq] at h
      obtain ⟨rfl, -⟩ := h
      have a := R.unif_le (b.m1 - 1) ω
      have c := R.unif_le (b.m2 - 1) (R.unif (b.m1 - 1) ω).2
      refine ⟨mem_blockPairs.2 ⟨⟨by omega, by omega⟩, by omega, by omega⟩, hc⟩

theorem pickPairs_spec (R : Rng K Ω) (b : SbmBlock) (fuel n : Nat) (h1 : 1 ≤ b.m1) (h2 : 1 ≤ b.m2) :
    ∀ ω es ω', pickPairs R b fuel n ω = some (es, ω') →
      es.length = n ∧ ∀ e ∈ es, e.direct = false ∧ (e.u, e.v) ∈ blockPairs b ∧ e.u ≠ e.v := by
  induction n with
  | zero =>
    intro ω es ω' h
    simp only [pickPairs, Option.some.injEq, Prod.mk.injEq] at h
    obtain ⟨rfl, -⟩ := h
    simp
  | succ n ih =>
    intro ω es ω' h
    unfold pickPairs at h
    cases hp : pickPair R b fuel ω with
    | none => rw [hp] at h; simp at h
    | some x =>
      obtain ⟨q, ω1⟩ := x
      rw [hp] at h
      simp only at h
      cases hq : pickPairs R b fuel n ω1 with
      | none => rw [hq] at h; simp at h
      | some y =>
        obtain ⟨fs, ω2⟩ := y
        rw [hq] at h
        simp only [Option.some.injEq, Prod.mk.injEq] at h
        obtain ⟨rfl, -⟩ := h
        obtain ⟨e1, e2⟩ := ih _ _ _ hq
        obtain ⟨p1, p2⟩ := pickPair_spec R b fuel _ _ _ hp h1 h2
        refine ⟨by simp [e1], fun e he => ?_⟩
        rcases List.mem_cons.1 he with rfl | he
        · exact ⟨rfl, p1, p2⟩
        · exact e2 e he

/-- Two emissions of the same edge. -/
def SamePair (e f : Emit) : Prop := (e.u = f.u ∧ e.v = f.v) ∨ (e.u = f.v ∧ e.v = f.u)

/-- What is known about an edge sampled in block `b`. -/
structure EmitOk (sizes : List Nat) (P : Nat → Nat → K) (exact : Bool) (b : SbmBlock) (e : Emit) :
    Prop where
  inU : InCluster sizes b.ci e.u
  inV : InCluster sizes b.cj e.v
  ne : e.u ≠ e.v
  pos : 0 < P b.ci b.cj
  direct : (exact = true ∨ 1 / 2 ≤ P b.ci b.cj ∨ sizes.getD b.ci 0 * sizes.getD b.cj 0 < 10000) →
    e.direct = true

/-- An edge written with `insert` has not been written before. -/
def Fresh (es : List Emit) : Prop := es.Pairwise (fun e f => f.direct = true → ¬ SamePair e f)

theorem sampleBlock_spec (R : Rng K Ω) {fuel : Nat} {P : DenseMat K} {exact : Bool} {b : SbmBlock}
    {sizes : List Nat} (hb : BlockOk sizes b) (h1 : 1 ≤ b.m1) (h2 : 1 ≤ b.m2)
    (hP : 0 ≤ P.entry b.ci b.cj) {ω ω' : Ω} {es : List Emit}
    (h : sampleBlock R fuel P exact b ω = some (es, ω')) :
    (∀ e ∈ es, EmitOk sizes P.entry exact b e) ∧ Fresh es ∧
    (P.entry b.ci b.cj = 1 → ∀ u v, InCluster sizes b.ci u → InCluster sizes b.cj v →
      (b.ci = b.cj → u < v) → ∃ e ∈ es, e.u = u ∧ e.v = v) := by
  unfold sampleBlock at h
  split_ifs at h with hc
  · -- binomial
    have none : es = [] ∨ (0 < P.entry b.ci b.cj ∧
        ∀ e ∈ es, e.direct = false ∧ (e.u, e.v) ∈ blockPairs b ∧ e.u ≠ e.v) := by
      unfold sampleBinomial at h
      simp only at h
      split_ifs at h with hx
      · simp only [Option.some.injEq, Prod.mk.injEq] at h
        exact .inl h.1.symm
      · right
        refine ⟨lt_of_le_of_ne hP (fun e => hx ?_), (pickPairs_spec R b _ _ h1 h2 _ _ _ h).2⟩
        rw [← e, zero_mul]; exact one_pos
    refine ⟨?_, ?_, ?_⟩
    · intro e he
      rcases none with rfl | ⟨hp, none⟩
      · simp at he
      · obtain ⟨d1, d2, d3⟩ := none e he
        rw [mem_blockPairs] at d2
        refine ⟨hb.in1.2 d2.1, hb.in2.2 d2.2, d3, hp, ?_⟩
        rintro (hx | hx | hx)
        · rw [hx] at hc; exact absurd hc.2.2 (by decide)
        · exact absurd hc.2.1 (not_lt.2 hx)
        · rw [← hb.m1, ← hb.m2] at hx; omega
    · unfold Fresh
      rcases none with rfl | ⟨hp, none⟩
      · exact List.Pairwise.nil
      · apply List.pairwise_of_forall_mem_list
        intro e _ f hf hd
        rw [(none f hf).1] at hd
        exact absurd hd (by decide)
    · intro h1
      rw [h1] at hc
      have : (1 : K) / 2 ≤ 1 := by linarith [one_half_lt_one (α := K)]
      exact absurd hc.2.1 (not_lt.2 this)
  · simp only [Option.some.injEq] at h
    have hes : es = (sampleDirectly R b (P.entry b.ci b.cj) ω).1 := by rw [h]
    subst hes
    unfold sampleDirectly
    have hsub := directLoop_sublist R (decide (b.ci = b.cj)) (P.entry b.ci b.cj) (blockPairs b) ω
    have hmem := directLoop_mem R (decide (b.ci = b.cj)) (P.entry b.ci b.cj) (blockPairs b) ω
    have hin : ∀ e ∈ (directLoop R (decide (b.ci = b.cj)) (P.entry b.ci b.cj) (blockPairs b) ω).1,
        EmitOk sizes P.entry exact b e := by
      intro e he
      have hq := mem_blockPairs.1 (hsub.subset (List.mem_map.2 ⟨e, he, rfl⟩))
      obtain ⟨d1, d2, d3⟩ := hmem e he
      refine ⟨hb.in1.2 hq.1, hb.in2.2 hq.2, ?_, lt_of_le_of_ne hP d3.symm, fun _ => d1⟩
      intro huv
      by_cases hcc : b.ci = b.cj
      · have := d2 (by simpa using hcc); omega
      · exact hcc ((hb.in1.2 hq.1).unique (huv ▸ hb.in2.2 hq.2))
    refine ⟨hin, ?_, ?_⟩
    · have hnd := (nodup_blockPairs b).sublist hsub
      unfold Fresh
      have hpw : List.Pairwise (fun e f : Emit => (e.u, e.v) ≠ (f.u, f.v))
          (directLoop R (decide (b.ci = b.cj)) (P.entry b.ci b.cj) (blockPairs b) ω).1 :=
        List.pairwise_map.1 hnd
      refine hpw.imp_of_mem ?_
      intro e f he hf hne _ hs
      rcases hs with ⟨a, c⟩ | ⟨a, c⟩
      · exact hne (by rw [a, c])
      · have oe := hin e he
        have of := hin f hf
        by_cases hcc : b.ci = b.cj
        · have x1 := (hmem e he).2.1 (by simpa using hcc)
          have x2 := (hmem f hf).2.1 (by simpa using hcc)
          omega
        · exact hcc (oe.inU.unique (a ▸ of.inV))
    · intro hp1 u v hu hv huv
      rw [hp1]
      refine ⟨_, directLoop_one R _ _ ω (u, v) (mem_blockPairs.2 ⟨hb.in1.1 hu, hb.in2.1 hv⟩) ?_,
        rfl, rfl⟩
      rintro ⟨hs, hle⟩
      have := huv (by simpa using hs)
      simp only at hle
      omega

theorem fresh_append {es fs : List Emit} (h1 : Fresh es) (h2 : Fresh fs)
    (h : ∀ e ∈ es, ∀ f ∈ fs, ¬ SamePair e f) : Fresh (es ++ fs) :=
  List.pairwise_append.2 ⟨h1, h2, fun e he f hf _ => h e he f hf⟩

theorem EmitOk.apart {sizes : List Nat} {P : Nat → Nat → K} {exact : Bool} {b b' : SbmBlock}
    {e f : Emit} (hb : b.ci ≤ b.cj) (hb' : b'.ci ≤ b'.cj) (he : EmitOk sizes P exact b e)
    (hf : EmitOk sizes P exact b' f) (hs : SamePair e f) : b.ci = b'.ci ∧ b.cj = b'.cj := by
  rcases hs with ⟨a, c⟩ | ⟨a, c⟩
  · exact ⟨he.inU.unique (a ▸ hf.inU), he.inV.unique (c ▸ hf.inV)⟩
  · have x := he.inU.unique (a ▸ hf.inV)
    have y := he.inV.unique (c ▸ hf.inU)
    omega

theorem sampleBlocks_spec (R : Rng K Ω) {fuel : Nat} {P : DenseMat K} {exact : Bool}
    {sizes : List Nat} (hs : ∀ i < sizes.length, 1 ≤ sizes.getD i 0)
    (hP : ∀ i < sizes.length, ∀ j < sizes.length, 0 ≤ P.entry i j) (bs : List SbmBlock) :
    (∀ b ∈ bs, BlockOk sizes b) → bs.Pairwise (fun a b => a.ci ≠ b.ci ∨ a.cj ≠ b.cj) →
    ∀ (ω ω' : Ω) (es : List Emit), sampleBlocks R fuel P exact bs ω = some (es, ω') →
    (∀ e ∈ es, ∃ b ∈ bs, EmitOk sizes P.entry exact b e) ∧ Fresh es ∧
    (∀ b ∈ bs, P.entry b.ci b.cj = 1 → ∀ u v, InCluster sizes b.ci u → InCluster sizes b.cj v →
      (b.ci = b.cj → u < v) → ∃ e ∈ es, e.u = u ∧ e.v = v) := by
  induction bs with
  | nil =>
    intro _ _ ω ω' es h
    simp only [sampleBlocks, Option.some.injEq, Prod.mk.injEq] at h
    obtain ⟨rfl, -⟩ := h
    exact ⟨by simp, List.Pairwise.nil, by simp⟩
  | cons b bs ih =>
    intro hok hpw ω ω' es h
    unfold sampleBlocks at h
    cases h1 : sampleBlock R fuel P exact b ω with
    | none => rw [h1] at h; simp at h
    | some x =>
      obtain ⟨es1, ω1⟩ := x
      rw [h1] at h
      simp only at h
      cases h2 : sampleBlocks R fuel P exact bs ω1 with
      | none => rw [h2] at h; simp at h
      | some y =>
        obtain ⟨es2, ω2⟩ := y
        rw [h2] at h
        simp only [Option.some.injEq, Prod.mk.injEq] at h
        obtain ⟨rfl, -⟩ := h
        have hbo := hok b (by simp)
        have hci : b.ci < sizes.length := lt_of_le_of_lt hbo.le hbo.lt
        have hcj := hbo.lt
        obtain ⟨a1, a2, a3⟩ := sampleBlock_spec R hbo (by rw [hbo.m1]; exact hs _ hci)
          (by rw [hbo.m2]; exact hs _ hcj) (hP _ hci _ hcj) h1
        obtain ⟨pw1, pw2⟩ := List.pairwise_cons.1 hpw
        obtain ⟨b1, b2, b3⟩ := ih (fun x hx => hok x (List.mem_cons_of_mem _ hx)) pw2 _ _ _ h2
        refine ⟨?_, fresh_append a2 b2 ?_, ?_⟩
        · intro e he
          rcases List.mem_append.1 he with he | he
          · exact ⟨b, by simp, a1 e he⟩
          · obtain ⟨b', hb', ho⟩ := b1 e he
            exact ⟨b', List.mem_cons_of_mem _ hb', ho⟩
        · intro e he f hf hsame
          obtain ⟨b', hb', ho⟩ := b1 f hf
          have := (a1 e he).apart hbo.le (hok b' (List.mem_cons_of_mem _ hb')).le ho hsame
          rcases pw1 b' hb' with x | x
          · exact x this.1
          · exact x this.2
        · intro b' hb' hp u v hu hv huv
          rcases List.mem_cons.1 hb' with rfl | hb'
          · obtain ⟨e, he, q⟩ := a3 hp u v hu hv huv
            exact ⟨e, List.mem_append_left _ he, q⟩
          · obtain ⟨e, he, q⟩ := b3 b' hb' hp u v hu hv huv
            exact ⟨e, List.mem_append_right _ he, q⟩

/-! ## Writing the matrix -/

/-- How often the edge `{i, j}` was sampled. -/
def mult (es : List Emit) (i j : Nat) : Nat :=
  (es.filter (fun e => decide ((e.u = i ∧ e.v = j) ∨ (e.u = j ∧ e.v = i)))).length

theorem mult_append (es fs : List Emit) (i j : Nat) :
    mult (es ++ fs) i j = mult es i j + mult fs i j := by
  simp [mult]

theorem mult_symm (es : List Emit) (i j : Nat) : mult es i j = mult es j i := by
  unfold mult
  congr 1
  apply List.filter_congr
  intro e _
  exact decide_eq_decide.2 or_comm

theorem mult_pos {es : List Emit} {i j : Nat} :
    0 < mult es i j ↔ ∃ e ∈ es, (e.u = i ∧ e.v = j) ∨ (e.u = j ∧ e.v = i) := by
  unfold mult
  rw [List.length_pos_iff_exists_mem]
  simp only [List.mem_filter, decide_eq_true_eq]

theorem mult_eq_zero {es : List Emit} {i j : Nat}
    (h : ∀ e ∈ es, ¬ ((e.u = i ∧ e.v = j) ∨ (e.u = j ∧ e.v = i))) : mult es i j = 0 := by
  by_contra hne
  obtain ⟨e, he, hh⟩ := mult_pos.1 (Nat.pos_of_ne_zero hne)
  exact h e he hh

theorem mult_singleton (e : Emit) (i j : Nat) :
    mult [e] i j = if (e.u = i ∧ e.v = j) ∨ (e.u = j ∧ e.v = i) then 1 else 0 := by
  unfold mult
  by_cases h : (e.u = i ∧ e.v = j) ∨ (e.u = j ∧ e.v = i)
  · rw [if_pos h, List.filter_cons_of_pos (by simpa using h)]; rfl
  · rw [if_neg h, List.filter_cons_of_neg (by simpa using h)]; rfl

/-- The matrix holds exactly the edges `es`. -/
structure Holds (n : Nat) (m : SprsMat K) (es : List Emit) : Prop where
  wf : m.WF
  rows : m.rows = n
  cols : m.cols = n
  coeff : ∀ i j, m.coeff i j = (mult es i j : K)
  stored : ∀ i j v, (i, v) ∈ m.col j → 0 < mult es i j

theorem stored_update {m : SprsMat K} (h : m.WF) {i j : Nat} (hj : j < m.cols) {f : K → K}
    {a b : Nat} {x : K} (hx : (a, x) ∈ (m.update i j f).col b) :
    (a = i ∧ b = j) ∨ ∃ y, (a, y) ∈ m.col b := by
  rw [SprsMat.col_update h hj] at hx
  split_ifs at hx with hb
  · subst hb
    by_cases ha : a = i
    · exact .inl ⟨ha, rfl⟩
    · right
      have := (Col.exists_mem_update (c := m.col b) i f a).1 ⟨x, hx⟩
      rcases this with h | h
      · exact absurd h ha
      · exact h
  · exact .inr ⟨x, hx⟩

theorem holds_step {n : Nat} {m : SprsMat K} {es : List Emit} (h : Holds n m es) (e : Emit)
    (hu : e.u < n) (hv : e.v < n) (hne : e.u ≠ e.v)
    (hf : e.direct = true → ∀ f ∈ es, ¬ SamePair f e) :
    ∃ m', emitToMatrix m e = .ok m' ∧ Holds n m' (es ++ [e]) := by
  have hr := h.rows
  have hc := h.cols
  have finish : ∀ (F G : K → K), F (mult es e.u e.v : K) = (mult es e.u e.v : K) + 1 →
      G (mult es e.u e.v : K) = (mult es e.u e.v : K) + 1 →
      Holds n ((m.update e.u e.v F).update e.v e.u G) (es ++ [e]) := by
    intro F G hF hG
    have w1 : (m.update e.u e.v F).WF := SprsMat.wf_update h.wf (by omega) _
    refine ⟨SprsMat.wf_update w1 (by rw [SprsMat.rows_update]; omega) _, hr, hc, ?_, ?_⟩
    · intro i j
      rw [SprsMat.coeff_update w1 (by rw [SprsMat.cols_update]; omega),
        SprsMat.coeff_update h.wf (by omega), SprsMat.coeff_update h.wf (by omega), h.coeff,
        h.coeff, h.coeff, mult_append, mult_singleton]
      rw [if_neg (show ¬ (e.v = e.u ∧ e.u = e.v) by omega)]
      by_cases a1 : i = e.v ∧ j = e.u
      · obtain ⟨rfl, rfl⟩ := a1
        rw [if_pos ⟨rfl, rfl⟩, if_pos (.inr ⟨rfl, rfl⟩), mult_symm, hG]; push_cast; rfl
      · rw [if_neg a1]
        by_cases a2 : i = e.u ∧ j = e.v
        · obtain ⟨rfl, rfl⟩ := a2
          rw [if_pos ⟨rfl, rfl⟩, if_pos (.inl ⟨rfl, rfl⟩), hF]; push_cast; rfl
        · rw [if_neg a2, if_neg (by omega)]; simp
    · intro i j x hx
      rw [mult_append, mult_singleton]
      rcases stored_update w1 (by rw [SprsMat.cols_update]; omega) hx with ⟨rfl, rfl⟩ | ⟨y, hy⟩
      · rw [if_pos (.inr ⟨rfl, rfl⟩)]; omega
      · rcases stored_update h.wf (by omega) hy with ⟨rfl, rfl⟩ | ⟨z, hz⟩
        · rw [if_pos (.inl ⟨rfl, rfl⟩)]; omega
        · have := h.stored _ _ _ hz; omega
  unfold emitToMatrix
  by_cases hd : e.direct = true
  · rw [if_pos hd]
    have hz : mult es e.u e.v = 0 := mult_eq_zero (fun f hf' hh => hf hd f hf' hh)
    have hz' : mult es e.v e.u = 0 := by rw [mult_symm]; exact hz
    have absent : ∀ (m' : SprsMat K) (i j : Nat), (∀ v, (i, v) ∉ m'.col j) →
        (m'.col j).any (fun x => decide (x.1 = i)) = false := by
      intro m' i j hno
      rw [List.any_eq_false]
      rintro ⟨r, v⟩ hx
      simp only [decide_eq_true_eq]
      rintro rfl
      exact hno v hx
    have i1 : m.insertNew e.u e.v 1 = .ok (m.update e.u e.v (fun _ => 1)) := by
      unfold SprsMat.insertNew
      rw [if_neg (by omega), absent m e.u e.v (fun v hv => by
        have := h.stored _ _ _ hv; omega)]
      rfl
    have i2 : (m.update e.u e.v (fun _ => 1)).insertNew e.v e.u 1
        = .ok ((m.update e.u e.v (fun _ => 1)).update e.v e.u (fun _ => 1)) := by
      unfold SprsMat.insertNew
      rw [if_neg (by rw [SprsMat.rows_update, SprsMat.cols_update]; omega),
        absent _ e.v e.u (fun v hv => by
          rcases stored_update h.wf (by omega) hv with ⟨x, -⟩ | ⟨y, hy⟩
          · exact hne x.symm
          · have := h.stored _ _ _ hy; omega)]
      rfl
    rw [i1, Outcome.bind_ok, i2]
    refine ⟨_, rfl, finish _ _ ?_ ?_⟩ <;> rw [hz] <;> simp
  · rw [if_neg hd, if_neg (by omega)]
    exact ⟨_, rfl, finish _ _ rfl rfl⟩

theorem emitAll_spec {n : Nat} (es : List Emit) : ∀ (done : List Emit) (m : SprsMat K),
    Holds n m done → Fresh (done ++ es) → (∀ e ∈ es, e.u < n ∧ e.v < n ∧ e.u ≠ e.v) →
    ∃ m', emitAll es m = .ok m' ∧ Holds n m' (done ++ es) := by
  induction es with
  | nil => intro done m h _ _; exact ⟨m, rfl, by simpa using h⟩
  | cons e es ih =>
    intro done m h hfr hb
    obtain ⟨b1, b2, b3⟩ := hb e (by simp)
    have hp := List.pairwise_append.1 hfr
    obtain ⟨m1, e1, h1⟩ := holds_step h e b1 b2 b3
      (fun hd f hf hs => hp.2.2 f hf e (by simp) hd hs)
    obtain ⟨m2, e2, h2⟩ := ih (done ++ [e]) m1 h1 (by simpa using hfr)
      (fun x hx => hb x (List.mem_cons_of_mem _ hx))
    refine ⟨m2, ?_, by simpa using h2⟩
    rw [emitAll, e1, Outcome.bind_ok, e2]

theorem holds_empty (n : Nat) : Holds (K := K) n (SprsMat.empty n n) [] := by
  refine ⟨SprsMat.wf_empty n n, rfl, rfl, fun i j => by simp [mult], fun i j v h => ?_⟩
  simp at h

theorem thr_nat (k : Nat) : thr (k : K) = k := by
  apply Graph.thr_of_zero_or
  rcases Nat.eq_zero_or_pos k with h | h
  · left; rw [h]; simp
  · right
    have : (1 : K) ≤ k := by exact_mod_cast h
    exact lt_of_lt_of_le Graph.epsilon_lt_one this

end
end Stag
