import Verif.Props.GraphOps
import Verif.Props.Mutate

/-!
# C13: the named graph constructors

Each theorem gives the vertex count, the weight of every pair of vertices and the edge count.
-/

set_option linter.unusedSectionVars false
set_option linter.unusedSimpArgs false

namespace Stag
open Graph

variable {K : Type} [Field K] [LinearOrder K] [IsStrictOrderedRing K]

/-- The graph on `n` vertices whose edges are the pairs with `p i j`, all of weight one. -/
def unitGraph (K : Type) [Field K] (n : Nat) (p : Nat → Nat → Prop) [∀ i j, Decidable (p i j)] :
    WGraph K := ⟨n, fun i j => if i < n ∧ j < n ∧ p i j then 1 else 0⟩

section
variable {p : Nat → Nat → Prop} [∀ i j, Decidable (p i j)]

theorem unit_of_mat {N : Nat} {m : SprsMat K} (hw : m.WF) (hr : m.rows = N)
    (hc : m.cols = N) (hsymm : ∀ i j, p i j → p j i)
    (hco : ∀ i j, m.coeff i j = (unitGraph K N p).w i j) :
    ∃ g, ofMatrix m = .ok g ∧ g.Valid ∧ g.Pruned ∧ g.abs = unitGraph K N p ∧
      2 * g.numberOfEdges = ∑ j ∈ Finset.range N, ((∑ i ∈ Finset.range N, if p i j then 1 else 0) +
        if p j j then 1 else 0) := by
  have h01 : ∀ i j, m.coeff i j = 0 ∨ m.coeff i j = 1 := by
    intro i j
    rw [hco]
    simp only [unitGraph]
    split_ifs
    · exact Or.inr rfl
    · exact Or.inl rfl
  have hsy : ∀ i j, p i j ↔ p j i := fun i j => ⟨hsymm i j, hsymm j i⟩
  obtain ⟨g, hg, hv, hreach, hn, hgc, hp⟩ := ofMatrix_nonneg hw (by omega)
    (fun i j => by rcases h01 i j with h | h <;> rw [h]; exact zero_le_one)
    (fun i j => by
      rw [hco, hco]
      simp only [unitGraph]
      apply if_congr _ rfl rfl
      rw [hsy i j]
      tauto)
  have hgc' : ∀ i j, g.adj.coeff i j = (unitGraph K N p).w i j := by
    intro i j
    rw [hgc, ← hco]
    rcases h01 i j with h | h
    · rw [h, thr_zero]
    · rw [h, thr_one]
  refine ⟨g, hg, hv, hp, ?_, ?_⟩
  · simp only [Graph.abs, unitGraph, WGraph.mk.injEq]
    refine ⟨by omega, ?_⟩
    funext i j
    rw [hgc']
    rfl
  · have hnN : g.n = N := by omega
    have hz : g.adj.NoZeros := Pruned.noZeros hp
    have hne : ∀ i j, i < N → j < N → (g.adj.coeff i j = 0 ↔ ¬ p i j) := by
      intro i j hi hj
      rw [hgc']
      simp only [unitGraph, hi, hj, true_and]
      split_ifs with h <;> simp [h]
    have hnnz : g.adj.nnz = ∑ j ∈ Finset.range N, ∑ i ∈ Finset.range N, if p i j then 1 else 0 := by
      rw [nnz_eq hv.wf hz, hv.cols, hv.rows, hnN]
      apply Finset.sum_congr rfl
      intro j hj
      apply Finset.sum_congr rfl
      intro i hi
      have := hne i j (Finset.mem_range.1 hi) (Finset.mem_range.1 hj)
      by_cases h : p i j <;> simp [h, this]
    have hdiag : ((List.range g.n).filter (fun i => decide (g.adj.coeff i i ≠ 0))).length =
        ∑ j ∈ Finset.range N, if p j j then 1 else 0 := by
      rw [hnN, ← sum_list_range]
      have : ∀ l : List Nat, (∀ i ∈ l, i < N) →
          (l.filter (fun i => decide (g.adj.coeff i i ≠ 0))).length =
            (l.map (fun j => if p j j then 1 else 0)).sum := by
        intro l
        induction l with
        | nil => intro _; rfl
        | cons a l ih =>
          intro hl
          have ha := hne a a (hl a (by simp)) (hl a (by simp))
          rw [List.map_cons, List.sum_cons, ← ih (fun i hi => hl i (by simp [hi])),
            List.filter_cons]
          by_cases h : p a a
          · simp [ha, h]; omega
          · simp [ha, h]
      exact this _ (fun i hi => List.mem_range.1 hi)
    have hflag := (ofMatrix_ok hw hg).2.2.2.2.1
    have hsl : g.selfLoops = false → (∑ j ∈ Finset.range N, if p j j then 1 else 0) = 0 := by
      intro hf
      rw [hf] at hflag
      apply Finset.sum_eq_zero
      intro j hj
      rw [if_neg]
      intro hpj
      have : anySelfLoop g.n g.adj = true := by
        rw [anySelfLoop_iff]
        refine ⟨j, by rw [hnN]; exact Finset.mem_range.1 hj, ?_⟩
        rw [ne_eq, hne j j (Finset.mem_range.1 hj) (Finset.mem_range.1 hj)]
        simpa using hpj
      rw [this] at hflag
      cases hflag
    rw [Finset.sum_add_distrib, ← hnnz]
    have heven : (g.adj.nnz + ∑ j ∈ Finset.range N, if p j j then 1 else 0) % 2 = 0 := by
      rw [hnnz, Finset.sum_comm, sum_square]
      have : ∑ i ∈ Finset.range N, ∑ j ∈ Finset.range i, ((if p i j then 1 else 0) +
          (if p j i then 1 else 0)) = 2 * ∑ i ∈ Finset.range N, ∑ j ∈ Finset.range i,
          (if p i j then 1 else 0) := by
        rw [Finset.mul_sum]
        apply Finset.sum_congr rfl
        intro i _
        rw [Finset.mul_sum]
        apply Finset.sum_congr rfl
        intro j _
        by_cases h : p i j
        · rw [if_pos h, if_pos (hsymm _ _ h)]; norm_num
        · rw [if_neg h, if_neg (fun h' => h (hsymm _ _ h'))]; norm_num
      rw [this]
      omega
    unfold numberOfEdges
    rw [hdiag]
    by_cases hf : g.selfLoops = true
    · rw [if_pos hf]; omega
    · rw [if_neg hf]
      have := hsl (by simpa using hf)
      rw [this] at heven ⊢
      omega

/-- The same from triplets. -/
theorem unit_of_triplets {N : Nat} {l : List (Triplet K)} (hl : ∀ t ∈ l, t.row < N ∧ t.col < N)
    (hsymm : ∀ i j, p i j → p j i)
    (hco : ∀ i j, i < N → j < N → SprsMat.tripletSum l i j = if p i j then 1 else 0) :
    ∃ g, (SprsMat.setFromTriplets N N l >>= ofMatrix) = .ok g ∧ g.Valid ∧ g.Pruned ∧
      g.abs = unitGraph K N p ∧
      2 * g.numberOfEdges = ∑ j ∈ Finset.range N, ((∑ i ∈ Finset.range N, if p i j then 1 else 0) +
        if p j j then 1 else 0) := by
  obtain ⟨m, hm, hw, hr, hc, hmc, _⟩ := SprsMat.setFromTriplets_spec hl
  obtain ⟨g, hg, rest⟩ := unit_of_mat (p := p) hw hr hc hsymm (by
    intro i j
    simp only [unitGraph]
    by_cases hi : i < N
    · by_cases hj : j < N
      · rw [hmc, hco i j hi hj]; simp [hi, hj]
      · rw [hw.coeff_of_cols_le (by omega), if_neg (by omega)]
    · rw [hw.coeff_of_rows_le (by omega), if_neg (by omega)])
  exact ⟨g, by rw [hm]; exact hg, rest⟩

end

theorem succ_mod {i n : Nat} (h : i < n) : (i + n + 1) % n = if i + 1 = n then 0 else i + 1 := by
  rw [show i + n + 1 = (i + 1) + n by omega, Nat.add_mod_right]
  split_ifs with h1
  · rw [h1, Nat.mod_self]
  · exact Nat.mod_eq_of_lt (by omega)

theorem pred_mod {i n : Nat} (h : i < n) : (i + n - 1) % n = if i = 0 then n - 1 else i - 1 := by
  split_ifs with h1
  · subst h1; rw [Nat.zero_add]; exact Nat.mod_eq_of_lt (by omega)
  · rw [show i + n - 1 = (i - 1) + n by omega, Nat.add_mod_right]
    exact Nat.mod_eq_of_lt (by omega)

/-- `i` and `j` are consecutive on the cycle `0, 1, .., n-1, 0`. -/
def cycleAdj (n i j : Nat) : Prop :=
  j = i + 1 ∨ i = j + 1 ∨ (i = 0 ∧ j + 1 = n) ∨ (j = 0 ∧ i + 1 = n)

instance (n i j : Nat) : Decidable (cycleAdj n i j) := by unfold cycleAdj; infer_instance

/-- C13.  `cycle_graph(n)`, `n ≥ 3`: the unit-weight `n`-cycle, with `n` edges. -/
theorem C13_cycle_graph (n : Nat) (hn : 3 ≤ n) :
    ∃ g : Graph K, cycleGraph n = .ok g ∧ g.Valid ∧ g.Pruned ∧
      g.abs = unitGraph K n (cycleAdj n) ∧ g.numberOfEdges = n := by
  obtain ⟨g, hg, hv, hp, ha, he⟩ := unit_of_triplets (K := K) (p := cycleAdj n) (N := n)
    (l := (List.range n).flatMap (fun i =>
      [⟨i, (i + n + 1) % n, 1⟩, ⟨i, (i + n - 1) % n, 1⟩])) (by
      intro t ht
      simp only [List.mem_flatMap, List.mem_range, List.mem_cons, List.not_mem_nil, or_false] at ht
      obtain ⟨i, hi, rfl | rfl⟩ := ht
      · exact ⟨hi, Nat.mod_lt _ (by omega)⟩
      · exact ⟨hi, Nat.mod_lt _ (by omega)⟩)
    (by intro i j h; unfold cycleAdj at h ⊢; omega)
    (by
      intro i j hi hj
      rw [SprsMat.tripletSum_flatMap, sum_list_range, Finset.sum_eq_single i]
      · simp only [SprsMat.tripletSum_cons, SprsMat.tripletSum_nil, true_and, add_zero]
        rw [succ_mod hi, pred_mod hi]
        by_cases hc : cycleAdj n i j
        · rw [if_pos hc]
          unfold cycleAdj at hc
          split_ifs <;> first | omega | simp
        · rw [if_neg hc]
          unfold cycleAdj at hc
          split_ifs <;> first | omega | simp
      · intro k _ hk
        simp [SprsMat.tripletSum_cons, SprsMat.tripletSum_nil, hk]
      · intro h; exact absurd (Finset.mem_range.2 hi) h)
  refine ⟨g, ?_, hv, hp, ha, ?_⟩
  · unfold cycleGraph
    rw [if_neg (by omega)]
    exact hg
  · have : ∑ j ∈ Finset.range n, ((∑ i ∈ Finset.range n, if cycleAdj n i j then 1 else 0) +
        if cycleAdj n j j then 1 else 0) = ∑ j ∈ Finset.range n, 2 := by
      apply Finset.sum_congr rfl
      intro j hj
      have hj := Finset.mem_range.1 hj
      rw [if_neg (by unfold cycleAdj; omega)]
      have : ∀ i ∈ Finset.range n, (if cycleAdj n i j then 1 else 0) =
          (if i = (if j + 1 = n then 0 else j + 1) then 1 else 0) +
          (if i = (if j = 0 then n - 1 else j - 1) then 1 else 0) := by
        intro i hi
        have hi := Finset.mem_range.1 hi
        by_cases hc : cycleAdj n i j
        · rw [if_pos hc]
          unfold cycleAdj at hc
          split_ifs <;> omega
        · rw [if_neg hc]
          unfold cycleAdj at hc
          split_ifs <;> omega
      rw [Finset.sum_congr rfl this, Finset.sum_add_distrib, Finset.sum_ite_eq',
        Finset.sum_ite_eq', if_pos, if_pos]
      · rw [Finset.mem_range]; split_ifs <;> omega
      · rw [Finset.mem_range]; split_ifs <;> omega
    rw [this] at he
    simp at he
    omega

/-- C13, the case the documentation does not mention: `cycle_graph(2)` is a single edge of weight two. -/
theorem C13_cycle_graph_two :
    (cycleGraph 2 : Outcome (Graph ℚ)) = .ok ⟨2, ⟨2, 2, [[(1, 2)], [(0, 2)]]⟩, false⟩ := by
  decide +kernel

theorem sum_ne_eq (n j : Nat) (hj : j < n) :
    (∑ i ∈ Finset.range n, if i ≠ j then 1 else 0) = n - 1 := by
  have : (∑ i ∈ Finset.range n, if i ≠ j then 1 else 0) +
      (∑ i ∈ Finset.range n, if i = j then 1 else 0) = ∑ i ∈ Finset.range n, 1 := by
    rw [← Finset.sum_add_distrib]
    apply Finset.sum_congr rfl
    intro i _
    split_ifs <;> first | rfl | omega
  rw [Finset.sum_ite_eq', if_pos (Finset.mem_range.2 hj)] at this
  simp at this
  simp
  omega

/-- C13.  `complete_graph(n)`, `n ≥ 2`: all pairs joined, `n (n - 1) / 2` edges. -/
theorem C13_complete_graph (n : Nat) (hn : 2 ≤ n) :
    ∃ g : Graph K, completeGraph n = .ok g ∧ g.Valid ∧ g.Pruned ∧
      g.abs = unitGraph K n (fun i j => i ≠ j) ∧ 2 * g.numberOfEdges = n * (n - 1) := by
  obtain ⟨g, hg, hv, hp, ha, he⟩ := unit_of_triplets (K := K) (p := fun i j => i ≠ j) (N := n)
    (l := (List.range n).flatMap (fun i =>
      (List.range n).flatMap (fun j => if i ≠ j then [⟨i, j, 1⟩] else []))) (by
      intro t ht
      simp only [List.mem_flatMap, List.mem_range] at ht
      obtain ⟨i, hi, j, hj, ht⟩ := ht
      split_ifs at ht
      · simp only [List.mem_singleton] at ht
        subst ht
        exact ⟨hi, hj⟩
      · simp at ht)
    (by intro i j h; exact Ne.symm h)
    (by
      intro i j hi hj
      rw [SprsMat.tripletSum_flatMap, sum_list_range, Finset.sum_eq_single i]
      · rw [SprsMat.tripletSum_flatMap, sum_list_range, Finset.sum_eq_single j]
        · split_ifs <;> simp [SprsMat.tripletSum_cons, SprsMat.tripletSum_nil]
        · intro k _ hk
          split_ifs <;> simp [SprsMat.tripletSum_cons, SprsMat.tripletSum_nil, hk]
        · intro h; exact absurd (Finset.mem_range.2 hj) h
      · intro k _ hk
        rw [SprsMat.tripletSum_flatMap, sum_list_range]
        apply Finset.sum_eq_zero
        intro b _
        split_ifs <;> simp [SprsMat.tripletSum_cons, SprsMat.tripletSum_nil, hk]
      · intro h; exact absurd (Finset.mem_range.2 hi) h)
  refine ⟨g, ?_, hv, hp, ha, ?_⟩
  · unfold completeGraph
    rw [if_neg (by omega)]
    exact hg
  · rw [he]
    have : ∀ j ∈ Finset.range n, ((∑ i ∈ Finset.range n, if i ≠ j then 1 else 0) +
        if j ≠ j then 1 else 0) = n - 1 := by
      intro j hj
      rw [sum_ne_eq n j (Finset.mem_range.1 hj)]
      simp
    rw [Finset.sum_congr rfl this]
    simp

/-- C13.  `star_graph(n)`, `n ≥ 2`: vertex 0 joined to all others, `n - 1` edges. -/
theorem C13_star_graph (n : Nat) (hn : 2 ≤ n) :
    ∃ g : Graph K, starGraph n = .ok g ∧ g.Valid ∧ g.Pruned ∧
      g.abs = unitGraph K n (fun i j => (i = 0) ≠ (j = 0)) ∧ g.numberOfEdges = n - 1 := by
  have hdec : ∀ i j : Nat, ((i = 0) ≠ (j = 0)) ↔ ((i = 0 ∧ j ≠ 0) ∨ (i ≠ 0 ∧ j = 0)) := by
    intro i j
    by_cases hi : i = 0 <;> by_cases hj : j = 0 <;> simp [hi, hj]
  obtain ⟨g, hg, hv, hp, ha, he⟩ := unit_of_triplets (K := K)
    (p := fun i j => (i = 0) ≠ (j = 0)) (N := n)
    (l := (List.range' 1 (n - 1)).flatMap (fun i => [⟨0, i, 1⟩, ⟨i, 0, 1⟩])) (by
      intro t ht
      simp only [List.mem_flatMap, List.mem_range', List.mem_cons, List.not_mem_nil, or_false] at ht
      obtain ⟨i, hi, rfl | rfl⟩ := ht
      · simp only; omega
      · simp only; omega)
    (by intro i j h; exact Ne.symm h)
    (by
      intro i j hi hj
      rw [SprsMat.tripletSum_flatMap]
      have hr : List.range' 1 (n - 1) = (List.range (n - 1)).map (· + 1) := by
        rw [List.range'_eq_map_range]
        apply List.map_congr_left
        intro a _; omega
      rw [hr, List.map_map, sum_list_range]
      simp only [Function.comp_def, SprsMat.tripletSum_cons, SprsMat.tripletSum_nil, add_zero]
      rw [Finset.sum_add_distrib]
      have e1 : (∑ k ∈ Finset.range (n - 1), if 0 = i ∧ k + 1 = j then (1 : K) else 0) =
          if i = 0 ∧ j ≠ 0 then 1 else 0 := by
        split_ifs with h
        · rw [Finset.sum_eq_single (j - 1)]
          · rw [if_pos (by omega)]
          · intro k _ hk; rw [if_neg (by omega)]
          · intro hh; rw [Finset.mem_range] at hh; omega
        · apply Finset.sum_eq_zero
          intro k _; rw [if_neg (by omega)]
      have e2 : (∑ k ∈ Finset.range (n - 1), if k + 1 = i ∧ 0 = j then (1 : K) else 0) =
          if i ≠ 0 ∧ j = 0 then 1 else 0 := by
        split_ifs with h
        · rw [Finset.sum_eq_single (i - 1)]
          · rw [if_pos (by omega)]
          · intro k _ hk; rw [if_neg (by omega)]
          · intro hh; rw [Finset.mem_range] at hh; omega
        · apply Finset.sum_eq_zero
          intro k _; rw [if_neg (by omega)]
      rw [e1, e2]
      by_cases h0 : i = 0 <;> by_cases h1 : j = 0 <;> simp [h0, h1])
  refine ⟨g, ?_, hv, hp, ha, ?_⟩
  · unfold starGraph
    rw [if_neg (by omega)]
    exact hg
  · have : ∀ j ∈ Finset.range n, ((∑ i ∈ Finset.range n, if (i = 0) ≠ (j = 0) then 1 else 0) +
        if (j = 0) ≠ (j = 0) then 1 else 0) = (if j = 0 then n - 2 else 0) + 1 := by
      intro j hj
      rw [if_neg (by simp)]
      by_cases h0 : j = 0
      · subst h0
        have e : ∀ i ∈ Finset.range n, (if (i = 0) ≠ (0 = 0) then 1 else 0) =
            (if i ≠ 0 then 1 else 0) := by
          intro i _; by_cases h : i = 0 <;> simp [h]
        rw [Finset.sum_congr rfl e, sum_ne_eq n 0 (by omega)]
        simp; omega
      · have e : ∀ i ∈ Finset.range n, (if (i = 0) ≠ (j = 0) then 1 else 0) =
            (if i = 0 then 1 else 0) := by
          intro i _; by_cases h : i = 0 <;> simp [h, h0]
        rw [Finset.sum_congr rfl e, Finset.sum_ite_eq', if_pos (Finset.mem_range.2 (by omega)),
          if_neg h0]
    rw [Finset.sum_congr rfl this, Finset.sum_add_distrib, Finset.sum_ite_eq',
      if_pos (Finset.mem_range.2 (by omega))] at he
    simp at he
    omega

/-- Two cliques `0..n-1` and `n..2n-1` joined by the edge `{n-1, n}`. -/
def barbellAdj (n i j : Nat) : Prop :=
  (i ≠ j ∧ ((i < n ∧ j < n) ∨ (n ≤ i ∧ n ≤ j))) ∨ (i + 1 = n ∧ j = n) ∨ (j + 1 = n ∧ i = n)

instance (n i j : Nat) : Decidable (barbellAdj n i j) := by unfold barbellAdj; infer_instance

/-- C13.  `barbell_graph(n)`, `n ≥ 2`: two `n`-cliques joined by one edge,
`n (n - 1) + 1` edges. -/
theorem C13_barbell_graph (n : Nat) (hn : 2 ≤ n) :
    ∃ g : Graph K, barbellGraph n = .ok g ∧ g.Valid ∧ g.Pruned ∧
      g.abs = unitGraph K (2 * n) (barbellAdj n) ∧ g.numberOfEdges = n * (n - 1) + 1 := by
  obtain ⟨g, hg, hv, hp, ha, he⟩ := unit_of_triplets (K := K) (p := barbellAdj n) (N := 2 * n)
    (l := (List.range n).flatMap (fun i =>
      (List.range n).flatMap (fun j =>
        if i ≠ j then [⟨i, j, 1⟩, ⟨n + i, n + j, 1⟩] else [])) ++
      [⟨n - 1, n, 1⟩, ⟨n, n - 1, 1⟩]) (by
      intro t ht
      rw [List.mem_append] at ht
      rcases ht with ht | ht
      · simp only [List.mem_flatMap, List.mem_range] at ht
        obtain ⟨i, hi, j, hj, ht⟩ := ht
        split_ifs at ht
        · simp only [List.mem_cons, List.not_mem_nil, or_false] at ht
          rcases ht with rfl | rfl
          · simp only; omega
          · simp only; omega
        · simp at ht
      · simp only [List.mem_cons, List.not_mem_nil, or_false] at ht
        rcases ht with rfl | rfl
        · simp only; omega
        · simp only; omega)
    (by intro i j h; unfold barbellAdj at h ⊢; omega)
    (by
      intro i j hi hj
      rw [SprsMat.tripletSum_append, SprsMat.tripletSum_flatMap, sum_list_range]
      have hin : ∀ a, SprsMat.tripletSum ((List.range n).flatMap (fun b =>
          if a ≠ b then [⟨a, b, (1 : K)⟩, ⟨n + a, n + b, 1⟩] else [])) i j =
          (if a = i ∧ j < n ∧ i ≠ j then 1 else 0) +
          (if n + a = i ∧ n ≤ j ∧ i ≠ j then 1 else 0) := by
        intro a
        rw [SprsMat.tripletSum_flatMap, sum_list_range]
        have e : ∀ b ∈ Finset.range n, SprsMat.tripletSum
            (if a ≠ b then [⟨a, b, (1 : K)⟩, ⟨n + a, n + b, 1⟩] else []) i j =
            (if b = j then (if a = i ∧ j < n ∧ i ≠ j then 1 else 0) else 0) +
            (if b = j - n then (if n + a = i ∧ n ≤ j ∧ i ≠ j then 1 else 0) else 0) := by
          intro b hb
          have hb := Finset.mem_range.1 hb
          split_ifs with h1 <;>
            simp only [SprsMat.tripletSum_cons, SprsMat.tripletSum_nil, add_zero, zero_add] <;>
            first
            | omega
            | (split_ifs <;> first | omega | simp)
        rw [Finset.sum_congr rfl e, Finset.sum_add_distrib, Finset.sum_ite_eq', Finset.sum_ite_eq']
        congr 1
        · by_cases hjn : j < n
          · rw [if_pos (Finset.mem_range.2 hjn)]
          · rw [if_neg (by simpa using hjn), if_neg (by omega)]
        · by_cases hjn : n ≤ j
          · rw [if_pos (Finset.mem_range.2 (by omega))]
          · have hx : ¬ (n + a = i ∧ n ≤ j ∧ i ≠ j) := by omega
            rw [if_neg hx]
            split_ifs <;> rfl
      simp only [hin]
      rw [Finset.sum_add_distrib]
      have e1 : (∑ a ∈ Finset.range n, if a = i ∧ j < n ∧ i ≠ j then (1 : K) else 0) =
          if i < n ∧ j < n ∧ i ≠ j then 1 else 0 := by
        split_ifs with h
        · rw [Finset.sum_eq_single i]
          · rw [if_pos (by omega)]
          · intro k _ hk; rw [if_neg (by omega)]
          · intro hh; rw [Finset.mem_range] at hh; omega
        · apply Finset.sum_eq_zero
          intro k hk
          have := Finset.mem_range.1 hk
          rw [if_neg (by omega)]
      have e2 : (∑ a ∈ Finset.range n, if n + a = i ∧ n ≤ j ∧ i ≠ j then (1 : K) else 0) =
          if n ≤ i ∧ n ≤ j ∧ i ≠ j then 1 else 0 := by
        split_ifs with h
        · rw [Finset.sum_eq_single (i - n)]
          · rw [if_pos (by omega)]
          · intro k _ hk; rw [if_neg (by omega)]
          · intro hh; rw [Finset.mem_range] at hh; omega
        · apply Finset.sum_eq_zero
          intro k hk
          rw [if_neg (by omega)]
      rw [e1, e2]
      simp only [SprsMat.tripletSum_cons, SprsMat.tripletSum_nil, add_zero]
      by_cases hc : barbellAdj n i j
      · rw [if_pos hc]
        unfold barbellAdj at hc
        split_ifs <;> first | omega | simp
      · rw [if_neg hc]
        unfold barbellAdj at hc
        split_ifs <;> first | omega | simp)
  refine ⟨g, ?_, hv, hp, ha, ?_⟩
  · unfold barbellGraph
    rw [if_neg (by omega)]
    exact hg
  · have hcol : ∀ j ∈ Finset.range (2 * n),
        ((∑ i ∈ Finset.range (2 * n), if barbellAdj n i j then 1 else 0) +
        if barbellAdj n j j then 1 else 0) =
        (n - 1) + ((if j = n - 1 then 1 else 0) + (if j = n then 1 else 0)) := by
      intro j hj
      have hj := Finset.mem_range.1 hj
      rw [if_neg (by unfold barbellAdj; omega), add_zero]
      have hsplit : ∀ f : Nat → Nat, ∑ i ∈ Finset.range (2 * n), f i =
          ∑ i ∈ Finset.range n, f i + ∑ i ∈ Finset.range n, f (n + i) := by
        intro f
        rw [show 2 * n = n + n by omega, Finset.sum_range_add]
      rw [hsplit]
      by_cases hjn : j < n
      · have a1 : ∀ i ∈ Finset.range n, (if barbellAdj n i j then 1 else 0) =
            if i ≠ j then 1 else 0 := by
          intro i hi
          have := Finset.mem_range.1 hi
          apply if_congr _ rfl rfl
          unfold barbellAdj
          omega
        have a2 : ∀ i ∈ Finset.range n, (if barbellAdj n (n + i) j then 1 else 0) =
            if i = 0 then (if j = n - 1 then 1 else 0) else 0 := by
          intro i hi
          by_cases hc : barbellAdj n (n + i) j
          · rw [if_pos hc]
            unfold barbellAdj at hc
            split_ifs <;> omega
          · rw [if_neg hc]
            unfold barbellAdj at hc
            split_ifs <;> omega
        rw [Finset.sum_congr rfl a1, Finset.sum_congr rfl a2, sum_ne_eq n j hjn,
          Finset.sum_ite_eq', if_pos (Finset.mem_range.2 (by omega)),
          if_neg (show ¬ j = n by omega), add_zero]
      · have a1 : ∀ i ∈ Finset.range n, (if barbellAdj n i j then 1 else 0) =
            if i = n - 1 then (if j = n then 1 else 0) else 0 := by
          intro i hi
          have := Finset.mem_range.1 hi
          by_cases hc : barbellAdj n i j
          · rw [if_pos hc]
            unfold barbellAdj at hc
            split_ifs <;> omega
          · rw [if_neg hc]
            unfold barbellAdj at hc
            split_ifs <;> omega
        have a2 : ∀ i ∈ Finset.range n, (if barbellAdj n (n + i) j then 1 else 0) =
            if i ≠ j - n then 1 else 0 := by
          intro i hi
          by_cases hc : barbellAdj n (n + i) j
          · rw [if_pos hc]
            unfold barbellAdj at hc
            split_ifs <;> omega
          · rw [if_neg hc]
            unfold barbellAdj at hc
            split_ifs <;> omega
        rw [Finset.sum_congr rfl a1, Finset.sum_congr rfl a2, sum_ne_eq n (j - n) (by omega),
          Finset.sum_ite_eq', if_pos (Finset.mem_range.2 (by omega)),
          if_neg (show ¬ j = n - 1 by omega), zero_add, add_comm]
    rw [Finset.sum_congr rfl hcol, Finset.sum_add_distrib, Finset.sum_add_distrib,
      Finset.sum_ite_eq', Finset.sum_ite_eq', if_pos (Finset.mem_range.2 (by omega)),
      if_pos (Finset.mem_range.2 (by omega))] at he
    simp only [Finset.sum_const, Finset.card_range, nsmul_eq_mul, Nat.cast_id] at he
    rw [Nat.mul_assoc] at he
    omega

/-- C13.  `identity_graph(n)`, `n ≥ 1`: a unit self-loop at every vertex and no other edge,
`n` edges. -/
theorem C13_identity_graph (n : Nat) (hn : 1 ≤ n) :
    ∃ g : Graph K, identityGraph n = .ok g ∧ g.Valid ∧ g.Pruned ∧
      g.abs = unitGraph K n (fun i j => i = j) ∧ g.numberOfEdges = n := by
  obtain ⟨g, hg, hv, hp, ha, he⟩ := unit_of_mat (K := K) (p := fun i j => i = j) (N := n)
    (m := SprsMat.diag n (fun _ => 1)) (SprsMat.wf_diag _ _) rfl rfl
    (by intro i j h; exact h.symm)
    (by
      intro i j
      rw [SprsMat.coeff_diag]
      simp only [unitGraph]
      apply if_congr _ rfl rfl
      omega)
  refine ⟨g, ?_, hv, hp, ha, ?_⟩
  · unfold identityGraph
    rw [if_neg (by omega)]
    exact hg
  · have : ∀ j ∈ Finset.range n, ((∑ i ∈ Finset.range n, if i = j then 1 else 0) +
        if j = j then 1 else 0) = 2 := by
      intro j hj
      rw [Finset.sum_ite_eq', if_pos hj, if_pos rfl]
    rw [Finset.sum_congr rfl this] at he
    simp at he
    omega

/-- C13.  Sizes below the documented minimum raise `invalid_argument`. -/
theorem C13_invalid_sizes :
    (∀ n : Int, n < 2 → (cycleGraph n : Outcome (Graph K)) = .throw .invalidArgument) ∧
    (∀ n : Int, n < 2 → (completeGraph n : Outcome (Graph K)) = .throw .invalidArgument) ∧
    (∀ n : Int, n < 2 → (barbellGraph n : Outcome (Graph K)) = .throw .invalidArgument) ∧
    (∀ n : Int, n < 2 → (starGraph n : Outcome (Graph K)) = .throw .invalidArgument) ∧
    (∀ n : Int, n < 1 → (identityGraph n : Outcome (Graph K)) = .throw .invalidArgument) := by
  refine ⟨?_, ?_, ?_, ?_, ?_⟩ <;> intro n hn
  · unfold cycleGraph; rw [if_pos hn]
  · unfold completeGraph; rw [if_pos hn]
  · unfold barbellGraph; rw [if_pos hn]
  · unfold starGraph; rw [if_pos hn]
  · unfold identityGraph; rw [if_pos hn]

/-- Concrete instances (sanity check of the general statements). -/
example : (cycleGraph 3 : Outcome (Graph ℚ)) = completeGraph 3 ∧
    (barbellGraph 2 : Outcome (Graph ℚ)) =
      .ok ⟨4, ⟨4, 4, [[(1, 1)], [(0, 1), (2, 1)], [(1, 1), (3, 1)], [(2, 1)]]⟩, false⟩ := by
  decide +kernel

end Stag
