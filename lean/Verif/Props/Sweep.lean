import Verif.Props.Conductance

/-!
# C34: sweep sets
-/

set_option linter.unusedSectionVars false

namespace Stag

section
variable {K : Type} [Field K] [LinearOrder K]

/-! ## The order of the sweep -/

theorem insertDesc_perm (f : Nat → K) (a : Nat) (l : List Nat) :
    (insertDesc f a l).Perm (a :: l) := by
  induction l with
  | nil => exact List.Perm.refl _
  | cons b l ih =>
    unfold insertDesc
    split_ifs with h
    · exact (ih.cons b).trans (List.Perm.swap a b l)
    · exact List.Perm.refl _

theorem sortDesc_perm (f : Nat → K) (l : List Nat) : (sortDesc f l).Perm l := by
  induction l with
  | nil => exact List.Perm.refl _
  | cons a l ih => exact (insertDesc_perm f a _).trans (ih.cons a)

theorem insertDesc_sorted (f : Nat → K) (a : Nat) (l : List Nat)
    (h : l.Pairwise (fun i j => f j ≤ f i)) : (insertDesc f a l).Pairwise (fun i j => f j ≤ f i) := by
  induction l with
  | nil => simp [insertDesc]
  | cons b l ih =>
    rw [List.pairwise_cons] at h
    unfold insertDesc
    split_ifs with hb
    · rw [List.pairwise_cons]
      refine ⟨fun x hx => ?_, ih h.2⟩
      rcases List.mem_cons.1 ((insertDesc_perm f a l).mem_iff.1 hx) with rfl | hx
      · exact le_of_lt hb
      · exact h.1 x hx
    · rw [List.pairwise_cons, List.pairwise_cons]
      refine ⟨fun x hx => ?_, h⟩
      rcases List.mem_cons.1 hx with rfl | hx
      · exact not_lt.1 hb
      · exact le_trans (h.1 x hx) (not_lt.1 hb)

theorem sortDesc_sorted (f : Nat → K) (l : List Nat) :
    (sortDesc f l).Pairwise (fun i j => f j ≤ f i) := by
  induction l with
  | nil => exact List.Pairwise.nil
  | cons a l ih => exact insertDesc_sorted f a _ ih

/-- The sort is stable: entries of equal value keep the order of their indices. -/
theorem insertDesc_stable (f : Nat → K) (a : Nat) (l : List Nat)
    (ha : ∀ x ∈ l, a < x) (h : l.Pairwise (fun i j => f i = f j → i < j)) :
    (insertDesc f a l).Pairwise (fun i j => f i = f j → i < j) := by
  induction l with
  | nil => simp [insertDesc]
  | cons b l ih =>
    rw [List.pairwise_cons] at h
    unfold insertDesc
    split_ifs with hb
    · rw [List.pairwise_cons]
      refine ⟨fun x hx he => ?_, ih (fun x hx => ha x (by simp [hx])) h.2⟩
      rcases List.mem_cons.1 ((insertDesc_perm f a l).mem_iff.1 hx) with rfl | hx
      · exact absurd he (ne_of_gt hb)
      · exact h.1 x hx he
    · rw [List.pairwise_cons, List.pairwise_cons]
      exact ⟨fun x hx _ => ha x hx, h⟩

theorem sortDesc_stable (f : Nat → K) (l : List Nat) (hl : l.Pairwise (· < ·)) :
    (sortDesc f l).Pairwise (fun i j => f i = f j → i < j) := by
  induction l with
  | nil => exact List.Pairwise.nil
  | cons a l ih =>
    rw [List.pairwise_cons] at hl
    refine insertDesc_stable f a _ (fun x hx => ?_) (ih hl.2)
    exact hl.1 x ((sortDesc_perm f l).mem_iff.1 hx)

/-! ## Cut and volume of a growing set -/

theorem WGraph.cut_eq (s : WGraph K) {S : Finset Nat} (hS : S ⊆ Finset.range s.n) :
    s.cut S = ∑ u ∈ S, ∑ v ∈ Finset.range s.n, s.w u v - ∑ u ∈ S, ∑ v ∈ S, s.w u v := by
  unfold WGraph.cut
  rw [← Finset.sum_sub_distrib]
  apply Finset.sum_congr rfl
  intro u _
  rw [← Finset.sum_sdiff hS]
  ring

theorem WGraph.cut_insert {s : WGraph K} (hs : ∀ u v, s.w u v = s.w v u) {S : Finset Nat} {v : Nat}
    (hS : S ⊆ Finset.range s.n) (hv : v < s.n) (hvS : v ∉ S) :
    s.cut (insert v S) = s.cut S + s.deg v - 2 * ∑ u ∈ insert v S, s.w v u := by
  rw [s.cut_eq hS, s.cut_eq (Finset.insert_subset (Finset.mem_range.2 hv) hS)]
  rw [Finset.sum_insert hvS, Finset.sum_insert hvS]
  have h1 : ∑ u ∈ S, ∑ x ∈ insert v S, s.w u x = ∑ u ∈ S, s.w v u + ∑ u ∈ S, ∑ x ∈ S, s.w u x := by
    rw [← Finset.sum_add_distrib]
    apply Finset.sum_congr rfl
    intro u _
    rw [Finset.sum_insert hvS, hs u v]
  rw [h1, Finset.sum_insert hvS]
  unfold WGraph.deg
  ring

theorem WGraph.vol_insert (s : WGraph K) {S : Finset Nat} {v : Nat} (hvS : v ∉ S) :
    s.vol (insert v S) = s.vol S + s.deg v := by
  unfold WGraph.vol
  rw [Finset.sum_insert hvS, add_comm]

theorem sweepCut_eq (set : List Nat) (es : List (Edge K)) : ∀ c : K,
    sweepCut set es c = c - 2 * (es.map (fun e => if e.v2 ∈ set then e.w else 0)).sum := by
  induction es with
  | nil => intro c; simp [sweepCut]
  | cons e es ih =>
    intro c
    unfold sweepCut
    rw [ih, List.map_cons, List.sum_cons]
    split_ifs <;> ring

/-! ## The loop -/

/-- The denominator of the conductance in the sweep: the volume of the set if the total volume is
unknown (given as `0`), otherwise the smaller of the volumes of the set and of the rest. -/
def WGraph.sweepDen (s : WGraph K) (total : K) (S : Finset Nat) : K :=
  if total = 0 then s.vol S else min (s.vol S) (total - s.vol S)

/-- `k` is the position the sweep settles on among the first `m` prefixes of `order`. -/
def SweepBest (s : WGraph K) (total : K) (order : List Nat) (m k : Nat) (best : K) : Prop :=
  (k = 0 ∧ best = 2 ∨ 1 ≤ k ∧ k ≤ m ∧ 0 < s.sweepDen total (order.take k).toFinset ∧
    best = s.cut (order.take k).toFinset / s.sweepDen total (order.take k).toFinset ∧ best < 2) ∧
  (∀ i, 1 ≤ i → i ≤ m → 0 < s.sweepDen total (order.take i).toFinset →
    best ≤ s.cut (order.take i).toFinset / s.sweepDen total (order.take i).toFinset) ∧
  ∀ i, 1 ≤ i → i < k → 0 < s.sweepDen total (order.take i).toFinset →
    best < s.cut (order.take i).toFinset / s.sweepDen total (order.take i).toFinset

theorem sweepLoop_spec {lg : LGraph K} {s : WGraph K} (h : lg.Answers s) (total : K)
    (order : List Nat) (hn : order.Nodup) (hr : ∀ v ∈ order, v < s.n) :
    ∀ (todo pre : List Nat) (st : SweepState K), order = pre ++ todo →
      (∀ x, x ∈ st.set ↔ x ∈ pre) → st.cut = s.cut pre.toFinset → st.vol = s.vol pre.toFinset →
      st.idx = pre.length → SweepBest s total order pre.length st.bestIdx st.best →
      ∃ st', sweepLoop lg total todo (todo.map s.deg) st = .ok st' ∧
        SweepBest s total order order.length st'.bestIdx st'.best := by
  intro todo
  induction todo with
  | nil =>
    intro pre st ho _ _ _ _ hb
    rw [List.append_nil] at ho
    subst ho
    exact ⟨st, rfl, hb⟩
  | cons v todo ih =>
    intro pre st ho hset hcut hvol hidx hb
    have hvn : v < s.n := hr v (by rw [ho]; simp)
    have hvp : v ∉ pre := by
      intro hc
      rw [ho] at hn
      exact (List.nodup_append.1 hn).2.2 v hc v (by simp) rfl
    have hsub : pre.toFinset ⊆ Finset.range s.n := by
      intro x hx
      rw [List.mem_toFinset] at hx
      exact Finset.mem_range.2 (hr x (by rw [ho]; simp [hx]))
    obtain ⟨es, hes, _, hnl⟩ := h.nbrs v hvn
    have hfin : (pre ++ [v]).toFinset = insert v pre.toFinset := by
      ext x; simp
    have htake : order.take (pre.length + 1) = pre ++ [v] := by
      rw [ho, List.take_append]
      simp
    have hcut' : sweepCut (v :: st.set) es (st.cut + s.deg v) = s.cut (pre ++ [v]).toFinset := by
      rw [sweepCut_eq, hfin, WGraph.cut_insert h.symm hsub hvn (by simpa using hvp), hcut]
      have h1 := hnl.sum_eq (fun u x => if u ∈ v :: st.set then x else 0) (by simp)
      rw [List.map_map] at h1
      have h2 : (es.map (fun e => if e.v2 ∈ v :: st.set then e.w else 0)).sum =
          ∑ u ∈ Finset.range s.n, if u ∈ v :: st.set then s.w v u else 0 := h1
      rw [h2, Finset.sum_ite, Finset.sum_const_zero, add_zero]
      congr 2
      apply Finset.sum_congr _ (fun _ _ => rfl)
      ext x
      simp only [Finset.mem_filter, Finset.mem_range, List.mem_cons, hset, Finset.mem_insert,
        List.mem_toFinset]
      constructor
      · exact fun h => h.2
      · intro h
        refine ⟨?_, h⟩
        rcases h with rfl | h
        · exact hvn
        · exact hr x (by rw [ho]; simp [h])
    have hvol' : st.vol + s.deg v = s.vol (pre ++ [v]).toFinset := by
      rw [hfin, WGraph.vol_insert _ (by simpa using hvp), hvol]
    have hden : (if total = 0 then s.vol (pre ++ [v]).toFinset
        else min (s.vol (pre ++ [v]).toFinset) (total - s.vol (pre ++ [v]).toFinset)) =
        s.sweepDen total (pre ++ [v]).toFinset := rfl
    rw [List.map_cons]
    unfold sweepLoop sweepStep
    simp only [hes, Outcome.bind_ok, hcut', hvol', hden]
    obtain ⟨hb1, hb2, hb3⟩ := hb
    have hlen : (pre ++ [v]).length = pre.length + 1 := by simp
    by_cases hc : 0 < s.sweepDen total (pre ++ [v]).toFinset ∧
        s.cut (pre ++ [v]).toFinset / s.sweepDen total (pre ++ [v]).toFinset < st.best
    · rw [if_pos hc, Outcome.bind_ok]
      refine ih (pre ++ [v]) _ (by rw [ho]; simp) ?_ rfl rfl (by simp [hidx]) ?_
      · intro x; simp [hset, or_comm]
      · rw [hlen]
        simp only [hidx]
        refine ⟨Or.inr ⟨by omega, le_refl _, ?_, ?_, ?_⟩, ?_, ?_⟩
        · rw [htake]; exact hc.1
        · rw [htake]
        · refine lt_of_lt_of_le hc.2 ?_
          rcases hb1 with h | h
          · exact h.2.le
          · exact h.2.2.2.2.le
        · intro i h1 h2 h3
          rcases Nat.lt_or_ge pre.length i with hi | hi
          · obtain rfl : i = pre.length + 1 := by omega
            rw [htake]
          · exact le_trans hc.2.le (hb2 i h1 hi h3)
        · intro i h1 h2 h3
          exact lt_of_lt_of_le hc.2 (hb2 i h1 (by omega) h3)
    · rw [if_neg hc, Outcome.bind_ok]
      refine ih (pre ++ [v]) _ (by rw [ho]; simp) ?_ rfl rfl (by simp [hidx]) ?_
      · intro x; simp [hset, or_comm]
      · rw [hlen]
        refine ⟨?_, ?_, hb3⟩
        · rcases hb1 with h | h
          · exact Or.inl h
          · exact Or.inr ⟨h.1, le_trans h.2.1 (Nat.le_succ _), h.2.2⟩
        · intro i h1 h2 h3
          rcases Nat.lt_or_ge pre.length i with hi | hi
          · obtain rfl : i = pre.length + 1 := by omega
            rw [htake] at h3 ⊢
            exact not_lt.1 (fun hlt => hc ⟨h3, hlt⟩)
          · exact hb2 i h1 hi h3

theorem sweepInner_spec {lg : LGraph K} {s : WGraph K} (h : lg.Answers s) (vec : SVec K)
    (hsrt : vec.col.Sorted) (hr : ∀ i ∈ vec.indices, i < s.n) (total : K) :
    ∃ k, k ≤ vec.indices.length ∧
      sweepInner lg vec total = .ok ((sortDesc vec.get vec.indices).take k) ∧
      ∃ best, SweepBest s total (sortDesc vec.get vec.indices) vec.indices.length k best := by
  set order := sortDesc vec.get vec.indices with ho
  have hp : order.Perm vec.indices := sortDesc_perm _ _
  have hnd : vec.indices.Nodup := by
    unfold SVec.indices List.Nodup
    rw [List.pairwise_map]
    exact hsrt.imp (fun h => ne_of_lt h)
  have hr' : ∀ v ∈ order, v < s.n := fun v hv => hr v (hp.mem_iff.1 hv)
  obtain ⟨st, h1, h2⟩ := sweepLoop_spec h total order (hp.nodup_iff.2 hnd) hr' order []
    ⟨[], 0, 0, 2, 0, 0⟩ rfl (by simp) (by simp [WGraph.cut]) (by simp [WGraph.vol]) rfl
    ⟨Or.inl ⟨rfl, rfl⟩, fun i h1 h2 _ => by simp at h2; omega, fun i h1 h2 _ => by simp at h2⟩
  refine ⟨st.bestIdx, ?_, ?_, st.best, by rw [← hp.length_eq]; exact h2⟩
  · rw [← hp.length_eq]
    rcases h2.1 with h | h
    · omega
    · exact h.2.1
  · unfold sweepInner
    rw [← ho]
    simp only [h.degrees hr', Outcome.bind_ok, h1]

variable [IsStrictOrderedRing K]

/-- Conductance of a set in the whole graph: cut over the smaller of the two volumes. -/
def WGraph.phi (s : WGraph K) (S : Finset Nat) : K :=
  s.cut S / min (s.vol S) (s.vol (Finset.range s.n \ S))

theorem WGraph.cut_compl {s : WGraph K} (hs : ∀ u v, s.w u v = s.w v u) {S : Finset Nat}
    (hS : S ⊆ Finset.range s.n) : s.cut (Finset.range s.n \ S) = s.cut S := by
  unfold WGraph.cut
  rw [Finset.sdiff_sdiff_eq_self hS, Finset.sum_comm]
  exact Finset.sum_congr rfl (fun u _ => Finset.sum_congr rfl (fun v _ => hs v u))

theorem WGraph.vol_compl (s : WGraph K) {S : Finset Nat} (hS : S ⊆ Finset.range s.n) :
    s.vol (Finset.range s.n) - s.vol S = s.vol (Finset.range s.n \ S) := by
  unfold WGraph.vol
  rw [← Finset.sum_sdiff hS]
  ring

theorem WGraph.vol_nonneg {s : WGraph K} (hw : ∀ u v, 0 ≤ s.w u v) (S : Finset Nat) :
    0 ≤ s.vol S := Finset.sum_nonneg (fun v _ => WGraph.degree_nonneg hw v)

/-- **C34** (order).  The sweep considers the support of the vector in order of decreasing value,
entries of equal value in order of increasing index. -/
theorem C34_order (vec : SVec K) (hsrt : vec.col.Sorted) :
    (sortDesc vec.get vec.indices).Perm vec.indices ∧
    (sortDesc vec.get vec.indices).Pairwise
      (fun i j => vec.get j < vec.get i ∨ vec.get j = vec.get i ∧ i < j) := by
  refine ⟨sortDesc_perm _ _, ?_⟩
  have h1 := sortDesc_sorted vec.get vec.indices
  have h2 := sortDesc_stable vec.get vec.indices (by
    unfold SVec.indices
    rw [List.pairwise_map]
    exact hsrt)
  refine (h1.and h2).imp ?_
  rintro i j ⟨h, h'⟩
  rcases lt_or_eq_of_le h with h | h
  · exact Or.inl h
  · exact Or.inr ⟨h, h' h.symm⟩

/-- **C34** (local graph).  Without knowledge of the whole graph, the sweep returns the prefix with
the least ratio of cut to volume among the prefixes of positive volume, the first one if there are
several; if no prefix has positive volume, the empty set. -/
theorem C34_local {lg : LGraph K} {s : WGraph K} (h : lg.Answers s) (hw : ∀ u v, 0 ≤ s.w u v)
    (vec : SVec K) (hsrt : vec.col.Sorted) (hr : ∀ i ∈ vec.indices, i < s.n) :
    ∃ order k, order = sortDesc vec.get vec.indices ∧ sweepSetLocal lg vec = .ok (order.take k) ∧
      k ≤ order.length ∧
      (k = 0 → ∀ i, i ≤ order.length → s.vol (order.take i).toFinset = 0) ∧
      (0 < k → 0 < s.vol (order.take k).toFinset) ∧
      (0 < k → ∀ i, i ≤ order.length → 0 < s.vol (order.take i).toFinset →
        s.cond (order.take k).toFinset ≤ s.cond (order.take i).toFinset ∧
        (i < k → s.cond (order.take k).toFinset < s.cond (order.take i).toFinset)) := by
  obtain ⟨k, hk, hres, best, hb1, hb2, hb3⟩ := sweepInner_spec h vec hsrt hr 0
  set order := sortDesc vec.get vec.indices with ho
  have hlen : order.length = vec.indices.length := (sortDesc_perm _ _).length_eq
  have hden : ∀ S, s.sweepDen 0 S = s.vol S := fun S => by unfold WGraph.sweepDen; rw [if_pos rfl]
  have hcond : ∀ S, 0 < s.vol S → s.cond S = s.cut S / s.vol S := fun S hS => by
    unfold WGraph.cond; rw [if_neg hS.ne']
  simp only [hden] at hb1 hb2 hb3
  refine ⟨order, k, rfl, hres, by omega, ?_, ?_, ?_⟩
  · rintro rfl i hi
    by_contra hne
    have hpos : 0 < s.vol (order.take i).toFinset :=
      lt_of_le_of_ne (WGraph.vol_nonneg hw _) (Ne.symm hne)
    have hi1 : 1 ≤ i := by
      by_contra hc
      obtain rfl : i = 0 := by omega
      simp [WGraph.vol] at hpos
    have hb := hb2 i hi1 (by omega) hpos
    rcases hb1 with h1 | h1
    · rw [h1.2] at hb
      have := (div_le_one hpos).2 (WGraph.cut_le_vol hw (order.take i).toFinset).2
      linarith
    · omega
  · intro hk0
    rcases hb1 with h1 | h1
    · omega
    · exact h1.2.2.1
  · intro hk0 i hi hpos
    rcases hb1 with h1 | h1
    · omega
    · have hi1 : 1 ≤ i := by
        by_contra hc
        obtain rfl : i = 0 := by omega
        simp [WGraph.vol] at hpos
      rw [hcond _ h1.2.2.1, hcond _ hpos, ← h1.2.2.2.1]
      exact ⟨hb2 i hi1 (by omega) hpos, fun hlt => hb3 i hi1 hlt hpos⟩

theorem totalVolume_eq {g : Graph K} (hv : g.Valid) :
    g.totalVolume = g.abs.vol (Finset.range g.n) := by
  unfold Graph.totalVolume WGraph.vol
  rw [sum_list_range]
  have : g.degreeMatrix.cols = g.n := hv.cols
  rw [this]
  apply Finset.sum_congr rfl
  intro v hvn
  rw [colTotal_eq (Graph.degree_wf g)]
  have hr : g.degreeMatrix.rows = g.n := hv.cols
  rw [hr, Finset.sum_eq_single v]
  · rw [Graph.degree_coeff hv, if_pos rfl]; rfl
  · intro u _ hu
    rw [Graph.degree_coeff hv, if_neg hu]
  · intro hh; exact absurd hvn hh

/-- **C34** (graph in memory).  `sweep_set_conductance` on a whole graph returns the prefix of least
conductance - cut over the smaller of the volumes of the set and of its complement - among the
prefixes for which that volume is positive, the first one if there are several; if there is none,
the empty set. -/
theorem C34_graph {g : Graph K} (hv : g.Valid) (hw : ∀ u v, 0 ≤ g.abs.w u v) (vec : SVec K)
    (hsrt : vec.col.Sorted) (hr : ∀ i ∈ vec.indices, i < g.n) :
    ∃ order k, order = sortDesc vec.get vec.indices ∧ sweepSetGraph g vec = .ok (order.take k) ∧
      k ≤ order.length ∧
      (k = 0 → ∀ i, i ≤ order.length → min (g.abs.vol (order.take i).toFinset)
        (g.abs.vol (Finset.range g.n \ (order.take i).toFinset)) = 0) ∧
      (0 < k → 0 < min (g.abs.vol (order.take k).toFinset)
        (g.abs.vol (Finset.range g.n \ (order.take k).toFinset))) ∧
      (0 < k → ∀ i, i ≤ order.length → 0 < min (g.abs.vol (order.take i).toFinset)
          (g.abs.vol (Finset.range g.n \ (order.take i).toFinset)) →
        g.abs.phi (order.take k).toFinset ≤ g.abs.phi (order.take i).toFinset ∧
        (i < k → g.abs.phi (order.take k).toFinset < g.abs.phi (order.take i).toFinset)) := by
  have h := Graph.asLocal_answers hv
  obtain ⟨k, hk, hres, best, hb1, hb2, hb3⟩ := sweepInner_spec h vec hsrt hr g.totalVolume
  set order := sortDesc vec.get vec.indices with ho
  set s := g.abs with hs
  have hp : order.Perm vec.indices := sortDesc_perm _ _
  have hlen : order.length = vec.indices.length := hp.length_eq
  have hsub : ∀ i, (order.take i).toFinset ⊆ Finset.range s.n := by
    intro i x hx
    rw [List.mem_toFinset] at hx
    exact Finset.mem_range.2 (hr x (hp.mem_iff.1 (List.mem_of_mem_take hx)))
  have hden : ∀ i, s.sweepDen g.totalVolume (order.take i).toFinset =
      min (s.vol (order.take i).toFinset) (s.vol (Finset.range g.n \ (order.take i).toFinset)) := by
    intro i
    have hc := s.vol_compl (hsub i)
    have h1 := WGraph.vol_nonneg hw (order.take i).toFinset
    have h2 := WGraph.vol_nonneg hw (Finset.range g.n \ (order.take i).toFinset)
    change s.vol (Finset.range g.n) - _ = s.vol (Finset.range g.n \ _) at hc
    unfold WGraph.sweepDen
    rw [totalVolume_eq hv, hc]
    split_ifs with h0
    · rw [← hs] at h0
      rw [h0] at hc
      rw [min_eq_left (by linarith)]
    · rfl
  simp only [hden] at hb1 hb2 hb3
  have hle : ∀ i, s.cut (order.take i).toFinset ≤ min (s.vol (order.take i).toFinset)
      (s.vol (Finset.range g.n \ (order.take i).toFinset)) := by
    intro i
    refine le_min (WGraph.cut_le_vol hw _).2 ?_
    rw [← WGraph.cut_compl h.symm (hsub i)]
    exact (WGraph.cut_le_vol hw _).2
  have hi1 : ∀ i, 0 < min (s.vol (order.take i).toFinset)
      (s.vol (Finset.range g.n \ (order.take i).toFinset)) → 1 ≤ i := by
    intro i hpos
    by_contra hc
    obtain rfl : i = 0 := by omega
    have := lt_of_lt_of_le hpos (min_le_left _ _)
    simp [WGraph.vol] at this
  refine ⟨order, k, rfl, hres, by omega, ?_, ?_, ?_⟩
  · rintro rfl i hi
    by_contra hne
    have hpos := lt_of_le_of_ne (le_min (WGraph.vol_nonneg hw (order.take i).toFinset)
      (WGraph.vol_nonneg hw (Finset.range g.n \ (order.take i).toFinset))) (Ne.symm hne)
    have hb := hb2 i (hi1 i hpos) (by omega) hpos
    rcases hb1 with h1 | h1
    · rw [h1.2] at hb
      have := (div_le_one hpos).2 (hle i)
      linarith
    · omega
  · intro hk0
    rcases hb1 with h1 | h1
    · omega
    · exact h1.2.2.1
  · intro hk0 i hi hpos
    rcases hb1 with h1 | h1
    · omega
    · have e : s.phi (order.take k).toFinset = best := h1.2.2.2.1.symm
      rw [e]
      exact ⟨hb2 i (hi1 i hpos) (by omega) hpos, fun hlt => hb3 i (hi1 i hpos) hlt hpos⟩

end

/-! ## Example -/

/-- The hypotheses of C34 are met.  The vector ranks vertex 2 first, then 1, then 0.  On the
graph in memory the sets `{2}` and `{2, 1}` both have conductance 1 and the first is returned; the
local sweep divides by the volume of the set alone and so prefers the whole graph (cut 0). -/
example : (⟨3, [(0, 1), (1, 2), (2, 3)]⟩ : SVec ℚ).col.Sorted ∧
    (∀ i ∈ (⟨3, [(0, 1), (1, 2), (2, 3)]⟩ : SVec ℚ).indices, i < condPath.n) ∧
    sweepSetGraph condPath ⟨3, [(0, 1), (1, 2), (2, 3)]⟩ = .ok [2] ∧
    sweepSetLocal condPath.asLocal ⟨3, [(0, 1), (1, 2), (2, 3)]⟩ = .ok [2, 1, 0] ∧
    sweepSetLocal condPath.asLocal ⟨3, [(1, 2), (2, 3)]⟩ = .ok [2, 1] := by
  refine ⟨?_, ?_, ?_, ?_, ?_⟩
  · unfold Col.Sorted; decide
  all_goals decide +kernel

end Stag
