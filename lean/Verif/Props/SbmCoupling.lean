import Verif.Props.SbmDistribution

/-!
# C66: which random number decides which edge
-/

namespace Stag

section
variable {K Ω : Type} [Field K] [LinearOrder K] [IsStrictOrderedRing K]

/-- The graph that `general_sbm` returns is built by the matrix constructor. -/
theorem generalSbm_reachable (R : Rng K Ω) {fuel : Nat} {sizes : List Nat} {P : DenseMat K} {exact : Bool}
    (h : SbmArgs sizes P) {ω ω' : Ω} {g : Graph K}
    (hr : generalSbm R fuel (sizes.map (fun s : Nat => (s : Int))) P exact ω = some (.ok g, ω')) : g.Reachable ∧ g.Pruned := by
  unfold generalSbm sbmInternal at hr
  rw [sum_cast, if_neg (by omega), sbmChecks_ok h, map_toNat] at hr
  cases hs : sampleBlocks R fuel P exact (outerBlocks 0 0 sizes) ω with
  | none => rw [hs] at hr; cases hr
  | some x =>
    obtain ⟨es, ω1⟩ := x
    rw [hs] at hr
    obtain ⟨-, h2, h3⟩ := sampled_spec R h hs
    obtain ⟨m, hm, hh⟩ := emitAll_spec (K := K) es [] _ (holds_empty sizes.sum) (by simpa using h2) h3
    simp only [Outcome.bind_ok, Int.toNat_natCast] at hr
    rw [hm, Outcome.bind_ok] at hr
    simp only [Option.some.injEq, Prod.mk.injEq] at hr
    simp only [List.nil_append] at hh
    obtain ⟨g', e1, -, -, -, -, e6⟩ := Graph.ofMatrix_nonneg hh.wf (by rw [hh.rows, hh.cols])
      (fun i j => by rw [hh.coeff]; positivity) (fun i j => by rw [hh.coeff, hh.coeff, mult_symm])
    have e : g' = g := Outcome.ok.inj (e1.symm.trans hr.1)
    subst e
    exact ⟨⟨m, g', [], hh.wf, hr.1, rfl⟩, e6⟩

end

/-- The place of the pair `{u, v}` in the order of the draws. -/
noncomputable def drawIndex (P : DenseMat ℝ) (sizes : List Nat) (u v : Nat) : Nat :=
  ((allDraws P sizes).map Prod.fst).idxOf (min u v, max u v)

/-- **C66** (edges).  In exact mode and for valid parameters, `general_sbm` returns for every sequence `x` of random numbers.
The graph has an edge (of weight one) between two different vertices exactly if the random number at the place of the pair
is below the probability of their clusters, and different pairs have different places. -/
theorem C66_edges (R : Rng ℝ Nat) (x : Nat → ℝ) (hR : ∀ n p, 0 ≤ p → p ≤ 1 → R.coin p n = (decide (x n < p), n + 1))
    (fuel : Nat) {sizes : List Nat} {P : DenseMat ℝ} (h : SbmArgs sizes P) (cl : Nat → Nat)
    (hcl : ∀ u < sizes.sum, InCluster sizes (cl u) u) :
    (∃ g ω', generalSbm R fuel (sizes.map (fun s : Nat => (s : Int))) P true 0 = some (.ok g, ω') ∧ g.Reachable ∧
      g.n = sizes.sum ∧ ∀ u < sizes.sum, ∀ v < sizes.sum, g.abs.w u v =
        if u ≠ v ∧ x (drawIndex P sizes u v) < P.entry (cl (min u v)) (cl (max u v)) then 1 else 0) ∧
    (∀ u v, drawIndex P sizes u v = drawIndex P sizes v u) ∧
    ∀ u < sizes.sum, ∀ v < sizes.sum, ∀ u' < sizes.sum, ∀ v' < sizes.sum, u ≠ v → u' ≠ v' →
      drawIndex P sizes u v = drawIndex P sizes u' v' → (u = u' ∧ v = v') ∨ (u = v' ∧ v = u') := by
  have hP : ∀ b ∈ outerBlocks 0 0 sizes, 0 ≤ P.entry b.ci b.cj ∧ P.entry b.ci b.cj ≤ 1 := by
    intro b hb
    have hb := mem_allBlocks.1 hb
    exact h.prob _ (lt_of_le_of_lt hb.le hb.lt) _ hb.lt
  have hds : ∀ d ∈ allDraws P sizes, d.1.1 < d.1.2 := by
    rintro ⟨⟨u, v⟩, p⟩ hd
    obtain ⟨c, d, h1, h2, h3, rfl⟩ := mem_allDraws.1 hd
    exact h3
  have hmem : ∀ u v, u < v → v < sizes.sum → ((u, v), P.entry (cl u) (cl v)) ∈ allDraws P sizes := by
    intro u v huv hv
    exact mem_allDraws.2 ⟨cl u, cl v, hcl u (by omega), hcl v hv, huv, rfl⟩
  have hmem' : ∀ u v, u < sizes.sum → v < sizes.sum → u ≠ v →
      (min u v, max u v) ∈ (allDraws P sizes).map Prod.fst := by
    intro u v hu hv huv
    exact List.mem_map.2 ⟨_, hmem (min u v) (max u v) (by omega) (by omega), rfl⟩
  refine ⟨?_, fun u v => by unfold drawIndex; rw [min_comm, max_comm], ?_⟩
  · have hs := sampleBlocks_draws hR fuel P (outerBlocks 0 0 sizes) hP 0
    rcases generalSbm_eq R (fuel := fuel) (exact := true) h 0 with ⟨e, -⟩ | ⟨es, ω1, g, e1, e2, e3, e4, e5⟩
    · rw [hs] at e; simp at e
    rw [hs] at e1
    simp only [Option.some.injEq, Prod.mk.injEq] at e1
    have hes : es = select x (allDraws P sizes) 0 := e1.1.symm
    have hmul := mult_select x (allDraws P sizes) 0 (nodup_allDraws P) hds
    simp only [Nat.zero_add, ← hes] at hmul
    refine ⟨g, ω1, e2, (generalSbm_reachable R h e2).1, e4, ?_⟩
    have hlt : ∀ u v, u < v → v < sizes.sum → g.adj.coeff u v =
        if x (drawIndex P sizes u v) < P.entry (cl u) (cl v) then 1 else 0 := by
      intro u v huv hv
      have hi := hmem' u v (by omega) hv (by omega)
      rw [min_eq_left huv.le, max_eq_right huv.le] at hi
      have hk : drawIndex P sizes u v < (allDraws P sizes).length := by
        unfold drawIndex
        rw [min_eq_left huv.le, max_eq_right huv.le]
        have := List.idxOf_lt_length_iff.2 hi
        rwa [List.length_map] at this
      have hg : (allDraws P sizes)[drawIndex P sizes u v].1 = (u, v) := by
        have h1 : ((allDraws P sizes).map Prod.fst)[drawIndex P sizes u v]'(by rwa [List.length_map]) = (u, v) := by
          unfold drawIndex
          have := List.getElem_idxOf (x := (min u v, max u v)) (xs := (allDraws P sizes).map Prod.fst) (by
            have := List.idxOf_lt_length_iff.2 (hmem' u v (by omega) hv (by omega))
            exact this)
          rw [this, min_eq_left huv.le, max_eq_right huv.le]
        rwa [List.getElem_map] at h1
      have hg2 : (allDraws P sizes)[drawIndex P sizes u v].2 = P.entry (cl u) (cl v) := by
        have hin := List.getElem_mem hk
        obtain ⟨d, hd⟩ : ∃ d, d = (allDraws P sizes)[drawIndex P sizes u v] := ⟨_, rfl⟩
        rw [← hd] at hin hg ⊢
        obtain ⟨⟨a, b⟩, p⟩ := d
        obtain ⟨c, d, h1, h2, h3, rfl⟩ := mem_allDraws.1 hin
        simp only [Prod.mk.injEq] at hg
        obtain ⟨rfl, rfl⟩ := hg
        simp only
        rw [(hcl a h1.lt_sum).unique h1, (hcl b h2.lt_sum).unique h2]
      have := hmul _ hk
      rw [hg, hg2] at this
      rw [e5, this]
      split_ifs <;> simp
    intro u hu v hv
    change g.adj.coeff u v = _
    rcases Nat.lt_trichotomy u v with huv | huv | huv
    · rw [hlt u v huv hv, min_eq_left huv.le, max_eq_right huv.le]
      by_cases hx : x (drawIndex P sizes u v) < P.entry (cl u) (cl v)
      · rw [if_pos hx, if_pos ⟨huv.ne, hx⟩]
      · rw [if_neg hx, if_neg fun hh => hx hh.2]
    · subst huv
      rw [if_neg fun hh => hh.1 rfl, e5, hes, mult_select_absent]
      · simp
      · intro hm
        obtain ⟨d, hd, hq⟩ := List.mem_map.1 hm
        have := hds d hd
        rw [hq] at this
        exact absurd this (lt_irrefl _)
      · intro hm
        obtain ⟨d, hd, hq⟩ := List.mem_map.1 hm
        have := hds d hd
        rw [hq] at this
        exact absurd this (lt_irrefl _)
    · have h1 := hlt v u huv hu
      have h2 : drawIndex P sizes u v = drawIndex P sizes v u := by unfold drawIndex; rw [min_comm, max_comm]
      rw [e5] at h1 ⊢
      rw [mult_symm, h1, min_eq_right huv.le, max_eq_left huv.le, h2]
      by_cases hx : x (drawIndex P sizes v u) < P.entry (cl v) (cl u)
      · rw [if_pos hx, if_pos ⟨huv.ne', hx⟩]
      · rw [if_neg hx, if_neg fun hh => hx hh.2]
  · intro u hu v hv u' hu' v' hv' huv huv' he
    have := (List.idxOf_inj (hmem' u v hu hv huv)).1 he
    rw [Prod.mk.injEq] at this
    omega

end Stag
