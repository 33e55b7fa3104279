import Verif.Props.Pagerank

/-!
# C37: local clustering; examples and negative results for C35, C36
-/

set_option linter.unusedSectionVars false

namespace Stag

section
variable {K : Type} [Field K] [LinearOrder K]

theorem normalise_eq (f : Nat → K) (c : Col K) :
    normalise c ((c.map Prod.fst).map f) = .ok (c.map (fun e => (e.1, e.2 / f e.1))) := by
  induction c with
  | nil => simp [normalise]
  | cons e c ih => simp only [List.map_cons, normalise, ih, Outcome.bind_ok]

theorem coeff_normalised (f : Nat → K) (c : Col K) (v : Nat) :
    Col.coeff (c.map (fun e => (e.1, e.2 / f e.1))) v = Col.coeff c v / f v := by
  induction c with
  | nil => simp [Col.coeff]
  | cons e c ih =>
    rw [List.map_cons, Col.coeff_cons, ih]
    obtain ⟨r, x⟩ := e
    rw [Col.coeff_cons]
    split_ifs with h
    · simp only at h; rw [h]
    · rfl

/-- The seed vector of `local_cluster_acl`: all mass on one vertex. -/
def seedVec (v : Nat) : SVec K := ⟨v + 1, [(v, 1)]⟩

theorem seedVec_get (v j : Nat) : (seedVec v : SVec K).get j = if j = v then 1 else 0 := by
  simp only [seedVec, SVec.get, Col.coeff_cons, Col.coeff_nil]
  by_cases h : v = j
  · rw [if_pos h, if_pos h.symm]
  · rw [if_neg h, if_neg (Ne.symm h)]

variable [IsStrictOrderedRing K]

theorem aprBase_seed {lg : LGraph K} {s : WGraph K} (ha : lg.AnswersAll s)
    (hw : ∀ u v, 0 ≤ s.w u v) {α ε : K} (h0 : 0 ≤ α) (h1 : α ≤ 1)
    (hε : 0 < ε) {v : Nat} (hv : v < s.n) : AprBase lg s α ε (seedVec v) := by
  refine ⟨ha, hw, h0, h1, hε, ⟨by simp [seedVec, Col.Sorted], by simp [seedVec]⟩,
    Nat.succ_pos v, hv, ?_⟩
  intro u
  rw [seedVec_get]
  split_ifs
  · exact zero_le_one
  · exact le_refl _

theorem aprSetting_seed {lg : LGraph K} {s : WGraph K} (ha : lg.AnswersAll s)
    (hw : ∀ u v, 0 ≤ s.w u v) (hl : ∀ v, s.w v v = 0) {α ε : K} (h0 : 0 ≤ α) (h1 : α ≤ 1)
    (hε : 0 < ε) {v : Nat} (hv : v < s.n) : AprSetting lg s α ε (seedVec v) :=
  ⟨aprBase_seed ha hw h0 h1 hε hv, hl⟩

theorem mass_seedVec {s : WGraph K} {v : Nat} (hv : v < s.n) :
    s.mass (seedVec v : SVec K).get = 1 := by
  unfold WGraph.mass
  simp only [seedVec_get]
  rw [Finset.sum_ite_eq', if_pos (Finset.mem_range.2 hv)]

theorem localClusterAcl_eq {lg : LGraph K} {s : WGraph K} (ha : lg.AnswersAll s) {α ε : K}
    (h0 : 0 ≤ α) (h1 : α ≤ 1) (hε : 0 < ε) {v : Nat} (hv : v < s.n) (fuel : Nat) :
    localClusterAcl lg fuel v α ε =
      match approximatePagerank lg fuel (seedVec v) α ε with
      | some (.ok pr) => some (sweepNormalised lg pr.1)
      | some (.throw e) => some (.throw e)
      | some .ub => some .ub
      | none => none := by
  unfold localClusterAcl
  rw [ha.exist _ (by omega), if_neg (by simpa using hv),
    if_neg (not_or.2 ⟨not_lt.2 h0, not_lt.2 h1⟩), if_neg (not_le.2 hε)]
  rfl

/-- **C37** (`local_cluster_acl`).  With `0 < locality ≤ 1`: whatever
`local_cluster_acl` returns is a set of existing vertices without repetition, each of which has
positive mass in the approximate PageRank vector `p` of the seed; its volume is at most
`1 / (locality * error)`; and it is the sweep set of `p(v) / deg(v)` of least conductance (cut over
volume). -/
theorem C37_local_cluster_acl {lg : LGraph K} {s : WGraph K} (ha : lg.AnswersAll s)
    (hw : ∀ u v, 0 ≤ s.w u v) {α ε : K} (h0 : 0 < α) (h1 : α ≤ 1)
    (hε : 0 < ε) {v : Nat} (hv : v < s.n) {fuel : Nat} {o : Outcome (List Nat)}
    (hres : localClusterAcl lg fuel v α ε = some o) :
    ∃ C p r, o = .ok C ∧
      approximatePagerank lg fuel (seedVec v) α ε = some (.ok (p, r)) ∧ C.Nodup ∧
      (∀ u ∈ C, u < s.n ∧ 0 < p.get u) ∧ ε * α * s.vol C.toFinset ≤ 1 ∧
      (C = [] ↔ p.indices = []) ∧
      ∃ (order : List Nat) (k : Nat), C = order.take k ∧ k ≤ order.length ∧ order.Nodup ∧
        (∀ u, u ∈ order ↔ 0 < p.get u) ∧
        order.Pairwise (fun i j => p.get j / s.deg j ≤ p.get i / s.deg i) ∧
        ∀ i, 0 < i → i ≤ order.length →
          s.cut C.toFinset / s.vol C.toFinset ≤
            s.cut (order.take i).toFinset / s.vol (order.take i).toFinset := by
  have hset := aprBase_seed ha hw h0.le h1 hε hv
  rw [localClusterAcl_eq ha h0.le h1 hε hv] at hres
  rcases apr_trace hset fuel with ⟨us, st, ht, hq, he⟩ | ⟨us, st, _, _, _, he⟩
  · rw [he] at hres
    simp only [Option.some.injEq] at hres
    have hi := ht.invBase hset
    have hloc := C36_local hset he
    rw [mass_seedVec hv] at hloc
    have hidx : ∀ u ∈ st.p.indices, u < s.n ∧ 0 < s.deg u ∧ 0 < st.p.get u := by
      intro u hu
      have hu' := (hi.support u).1 hu
      exact ⟨(hi.pushed u hu').1, (hi.pushed u hu').2, hi.pushedP h0 u hu'⟩
    set vec : SVec K := ⟨st.p.rows, st.p.col.map (fun e => (e.1, e.2 / s.deg e.1))⟩ with hvec
    have hind : vec.indices = st.p.indices := by
      simp only [hvec, SVec.indices, List.map_map]
      rfl
    have hget : ∀ u, vec.get u = st.p.get u / s.deg u := fun u => coeff_normalised s.deg st.p.col u
    have hsn : sweepNormalised lg st.p = sweepSetLocal lg vec := by
      unfold sweepNormalised
      rw [ha.toAnswers.degrees (fun u hu => (hidx u hu).1), Outcome.bind_ok]
      have := normalise_eq s.deg st.p.col
      unfold SVec.indices
      rw [this, Outcome.bind_ok]
    have hsorted : vec.col.Sorted := by
      unfold Col.Sorted
      simp only [hvec]
      rw [List.pairwise_map]
      exact hi.pOK.sorted
    obtain ⟨order, k, ho, hsw, hk, hk0, hkp, hkm⟩ := C34_local ha.toAnswers hw vec hsorted
      (by rw [hind]; exact fun i hi => (hidx i hi).1)
    have hp := sortDesc_perm vec.get vec.indices
    rw [← ho] at hp
    have hnd : order.Nodup := by
      rw [hp.nodup_iff, hind]
      unfold SVec.indices List.Nodup
      rw [List.pairwise_map]
      exact hi.pOK.sorted.imp (fun h => ne_of_lt h)
    have hmem : ∀ u, u ∈ order ↔ u ∈ st.p.indices := by
      intro u; rw [hp.mem_iff, hind]
    have hC : ∀ u ∈ order.take k, u ∈ st.p.indices := fun u hu =>
      (hmem u).1 (List.mem_of_mem_take hu)
    have hdeg := WGraph.degree_nonneg hw
    have hvolpos : ∀ i, 0 < i → i ≤ order.length → 0 < s.vol (order.take i).toFinset := by
      intro i hi0 hil
      cases hord : order with
      | nil => rw [hord] at hil; simp at hil; omega
      | cons a l =>
        have haX : a ∈ (order.take i).toFinset := by
          rw [List.mem_toFinset, hord]
          cases i with
          | zero => omega
          | succ i => simp
        have hda : 0 < s.deg a := (hidx a ((hmem a).1 (by rw [hord]; simp))).2.1
        have := Finset.single_le_sum (f := s.deg) (fun x _ => hdeg x) haX
        rw [← hord]
        exact lt_of_lt_of_le hda this
    have hkpos : order ≠ [] → 0 < k := by
      intro hne
      by_contra hc
      have hz := hk0 (by omega) order.length (le_refl _)
      have := hvolpos order.length (List.length_pos_iff.2 hne) (le_refl _)
      rw [hz] at this
      exact lt_irrefl _ this
    refine ⟨order.take k, st.p, st.r, ?_, he, ?_, ?_, ?_, ?_, order, k, rfl, hk, hnd, ?_, ?_, ?_⟩
    · rw [← hres, hsn, hsw]
    · exact hnd.sublist (List.take_sublist k order)
    · intro u hu
      exact ⟨(hidx u (hC u hu)).1, (hidx u (hC u hu)).2.2⟩
    · have hsub : (order.take k).toFinset ⊆ st.p.indices.toFinset := by
        intro u hu
        rw [List.mem_toFinset] at hu ⊢
        exact hC u hu
      have hvle : s.vol (order.take k).toFinset ≤ s.vol st.p.indices.toFinset :=
        Finset.sum_le_sum_of_subset_of_nonneg hsub (fun x _ _ => hdeg x)
      exact le_trans (mul_le_mul_of_nonneg_left hvle (mul_pos hε h0).le) hloc
    · constructor
      · intro hnil
        by_contra hne
        have hone : order ≠ [] := by
          intro hc
          rw [hc] at hp
          rw [← hind] at hne
          exact hne (List.nil_perm.1 hp)
        have := hkpos hone
        have hl := congrArg List.length hnil
        rw [List.length_take, List.length_nil] at hl
        omega
      · intro hnil
        rw [← hind] at hnil
        rw [hnil] at hp
        rw [List.perm_nil.1 hp]
        simp
    · intro u
      rw [hmem]
      exact ⟨fun h => (hidx u h).2.2, fun h => SVec.mem_indices_of_get h.ne'⟩
    · have := sortDesc_sorted vec.get vec.indices
      rw [← ho] at this
      exact this.imp (fun h => by rwa [hget, hget] at h)
    · intro i hi0 hil
      have hne : order ≠ [] := by rintro rfl; simp at hil; omega
      have hk1 := hkpos hne
      have h2 := (hkm hk1 i hil (hvolpos i hi0 hil)).1
      unfold WGraph.cond at h2
      rwa [if_neg (hkp hk1).ne', if_neg (hvolpos i hi0 hil).ne'] at h2
  · rw [he] at hres
    cases hres

/-- **C37** (termination).  For `locality > 0` the call returns. -/
theorem C37_terminates [Archimedean K] {lg : LGraph K} {s : WGraph K} (ha : lg.AnswersAll s)
    (hw : ∀ u v, 0 ≤ s.w u v) {α ε : K} (h0 : 0 < α) (h1 : α ≤ 1)
    (hε : 0 < ε) {v : Nat} (hv : v < s.n) :
    ∃ N, ∀ fuel, N ≤ fuel → ∃ C, localClusterAcl lg fuel v α ε = some (.ok C) := by
  have hset := aprBase_seed ha hw h0.le h1 hε hv
  obtain ⟨N, hN⟩ := C36_terminates hset h0
  refine ⟨N, fun fuel hf => ?_⟩
  obtain ⟨p, r, he⟩ := hN fuel hf
  have heq := localClusterAcl_eq ha h0.le h1 hε hv fuel
  rw [he] at heq
  obtain ⟨C, _, _, hC, _⟩ := C37_local_cluster_acl ha hw h0 h1 hε hv heq
  exact ⟨C, by rw [heq]; exact congrArg some hC⟩

/-- **C37** (`local_cluster`).  The result is a set of existing vertices without repetition, inside
the support of the approximate PageRank vector (`α = 0.01`, `ε = 1 / target`), of volume at most
`100 * target`; and the call returns. -/
theorem C37_local_cluster [Archimedean K] {lg : LGraph K} {s : WGraph K} (ha : lg.AnswersAll s)
    (hw : ∀ u v, 0 ≤ s.w u v) {target : K} (ht : 0 < target) {v : Nat}
    (hv : v < s.n) :
    ∃ N, ∀ fuel, N ≤ fuel → ∃ C p r, localCluster lg fuel v target = some (.ok C) ∧
      approximatePagerank lg fuel (seedVec v) (1 / 100) (1 / target) = some (.ok (p, r)) ∧
      C.Nodup ∧ (∀ u ∈ C, u < s.n ∧ 0 < p.get u) ∧ s.vol C.toFinset ≤ 100 * target := by
  have hα : (0 : K) < 1 / 100 := by norm_num
  have hα1 : (1 / 100 : K) ≤ 1 := by norm_num
  have hε : 0 < 1 / target := one_div_pos.2 ht
  obtain ⟨N, hN⟩ := C37_terminates ha hw hα hα1 hε hv
  refine ⟨N, fun fuel hf => ?_⟩
  obtain ⟨C, hC⟩ := hN fuel hf
  obtain ⟨C', p, r, h1, h2, h3, h4, h5, _⟩ := C37_local_cluster_acl ha hw hα hα1 hε hv hC
  cases h1
  refine ⟨C, p, r, ?_, h2, h3, h4, ?_⟩
  · unfold localCluster
    rw [if_neg (not_le.2 ht)]
    exact hC
  · have h6 : (1 / target * (1 / 100)) * s.vol C.toFinset ≤ 1 := h5
    have h7 := mul_le_mul_of_nonneg_left h6 (show (0 : K) ≤ 100 * target by linarith)
    have h8 : 100 * target * (1 / target * (1 / 100) * s.vol C.toFinset) = s.vol C.toFinset := by
      field_simp
    linarith

/-- **C37** (negative result).  If the target volume is smaller than the degree of the seed vertex,
or the seed vertex is isolated, `local_cluster` returns the empty set; in all other cases the
returned set is not empty. -/
theorem C37_empty_iff {lg : LGraph K} {s : WGraph K} (ha : lg.AnswersAll s)
    (hw : ∀ u v, 0 ≤ s.w u v) {target : K} (ht : 0 < target) {v : Nat}
    (hv : v < s.n) {fuel : Nat} {C : List Nat}
    (hres : localCluster lg fuel v target = some (.ok C)) :
    C = [] ↔ target < s.deg v ∨ s.deg v = 0 := by
  have hα : (0 : K) < 1 / 100 := by norm_num
  have hα1 : (1 / 100 : K) ≤ 1 := by norm_num
  have hε : 0 < 1 / target := one_div_pos.2 ht
  have hset := aprBase_seed ha hw hα.le hα1 hε hv
  unfold localCluster at hres
  rw [if_neg (not_le.2 ht)] at hres
  obtain ⟨C', p, r, h1, h2, _, _, _, h3, _⟩ := C37_local_cluster_acl ha hw hα hα1 hε hv hres
  cases h1
  rw [h3]
  have hqc : ∀ st : AprState K, aprInit lg (seedVec v) (1 / 100) (1 / target) = .ok st →
      AprInvBase s (1 / 100) (1 / target) (seedVec v) [] st → ((target < s.deg v ∨ s.deg v = 0) ↔
        v ∉ st.queue) := by
    intro st h0 hi
    have hr : st.r.get v = 1 := by
      unfold aprInit at h0
      split_ifs at h0
      rw [Outcome.bind_eq_ok] at h0
      obtain ⟨ds, _, h0⟩ := h0
      rw [Outcome.bind_eq_ok] at h0
      obtain ⟨q, _, h0⟩ := h0
      cases h0
      simp only
      rw [seedVec_get, if_pos rfl]
    constructor
    · rintro (h | h) hq
      · have := (hi.queued v hq).2.2
        rw [hr, one_div, inv_mul_le_iff₀ ht, mul_one] at this
        exact absurd h (not_lt.2 this)
      · exact (hi.queued v hq).2.1.ne' h
    · intro hq
      by_contra hc
      rw [not_or] at hc
      have hd : 0 < s.deg v := lt_of_le_of_ne (WGraph.degree_nonneg hw v) (Ne.symm hc.2)
      have := hi.unqueued v hv hd hq
      rw [hr, one_div, lt_inv_mul_iff₀ ht, mul_one] at this
      exact hc.1 this
  obtain ⟨st0, h0, hi0, _⟩ := hset.init_spec
  rw [hqc st0 h0 hi0]
  have hr0 : ∀ u, u ≠ v → u ∉ st0.queue := by
    intro u hu hq
    have hrz : st0.r.get u = 0 := by
      unfold aprInit at h0
      split_ifs at h0
      rw [Outcome.bind_eq_ok] at h0
      obtain ⟨ds, _, h0⟩ := h0
      rw [Outcome.bind_eq_ok] at h0
      obtain ⟨q, _, h0⟩ := h0
      cases h0
      simp only
      rw [seedVec_get, if_neg hu]
    have := hi0.queued u hq
    rw [hrz] at this
    exact absurd this.2.2 (not_le.2 (mul_pos hε this.2.1))
  rcases apr_trace hset fuel with ⟨us, st, htr, hq, he⟩ | ⟨us, st, _, _, _, he⟩
  · rw [he] at h2
    cases h2
    have hi := htr.invBase hset
    have e1 : st.p.indices = [] ↔ us = [] := by
      rw [List.eq_nil_iff_forall_not_mem, List.eq_nil_iff_forall_not_mem]
      exact forall_congr' (fun u => not_congr (hi.support u))
    rw [e1]
    constructor
    · rintro rfl hvq
      have hst : st = st0 := by
        generalize hus : ([] : List Nat) = us at htr
        cases htr with
        | init h => rw [h] at h0; cases h0; rfl
        | step => exact absurd hus (by simp)
      rw [hst] at hq
      rw [hq] at hvq
      cases hvq
    · intro hvq
      have hq0 : st0.queue = [] := by
        rw [List.eq_nil_iff_forall_not_mem]
        intro u hu
        by_cases huv : u = v
        · exact hvq (huv ▸ hu)
        · exact hr0 u huv hu
      have key : ∀ us (st : AprState K), AprTrace lg (1 / 100) (1 / target) (seedVec v) us st →
          us = [] ∧ st = st0 := by
        intro us st htr
        induction htr with
        | init h => rw [h] at h0; cases h0; exact ⟨rfl, rfl⟩
        | step _ hq _ ih =>
          rw [ih.2, hq0] at hq
          cases hq
      exact (key us st htr).1
  · rw [he] at h2; cases h2

/-- **C37** (bad arguments).  A seed which does not exist, a locality outside `[0, 1]`, a
non-positive error or a non-positive target volume raise `invalid_argument`. -/
theorem C37_bad_arguments {g : Graph K} (fuel : Nat) (v : Int) (α ε target : K) :
    (g.vertexExists v = false ∨ α < 0 ∨ 1 < α ∨ ε ≤ 0 →
      localClusterAcl g.asLocal fuel v α ε = some (.throw .invalidArgument)) ∧
    (g.vertexExists v = false ∨ target ≤ 0 →
      localCluster g.asLocal fuel v target = some (.throw .invalidArgument)) := by
  have key : ∀ α ε : K, (g.vertexExists v = false ∨ α < 0 ∨ 1 < α ∨ ε ≤ 0 →
      localClusterAcl g.asLocal fuel v α ε = some (.throw .invalidArgument)) := by
    intro α ε hbad
    unfold localClusterAcl
    by_cases h1 : g.asLocal.vertexExists v = false
    · rw [if_pos h1]
    · rw [if_neg h1]
      by_cases h2 : α < 0 ∨ 1 < α
      · rw [if_pos h2]
      · rw [if_neg h2]
        rcases hbad with h | h | h | h
        · exact absurd h h1
        · exact absurd (Or.inl h) h2
        · exact absurd (Or.inr h) h2
        · rw [if_pos h]
  refine ⟨key α ε, ?_⟩
  intro hbad
  unfold localCluster
  by_cases ht : target ≤ 0
  · rw [if_pos ht]
  · rw [if_neg ht]
    rcases hbad with h | h
    · exact key _ _ (Or.inl h)
    · exact absurd h ht

end

/-! ## Examples and negative results -/

theorem condPath_setting : AprSetting condPath.asLocal condPath.abs (1 / 2) (1 / 4)
    (seedVec 0 : SVec ℚ) := by
  have hc := Graph.check_spec (g := condPath) (by decide +kernel)
  refine aprSetting_seed (Graph.asLocal_answersAll hc.1 hc.2.noZeros) hc.2.nonneg ?_ (by norm_num)
    (by norm_num) (by norm_num) (by decide)
  intro v
  rcases Nat.lt_or_ge v 3 with h | h
  · have : v = 0 ∨ v = 1 ∨ v = 2 := by omega
    rcases this with rfl | rfl | rfl <;> decide +kernel
  · exact Graph.abs_range hc.1 v v h

/-- The hypotheses of C35 and C36 are met by the path `0 - 1 - 2` and a run which pushes vertex
`0` twice and returns. -/
example : approximatePagerank condPath.asLocal 2 (seedVec 0) (1 / 2) (1 / 4) =
      some (.ok (⟨1, [(0, 5 / 8)]⟩, ⟨2, [(0, 1 / 16), (1, 5 / 16)]⟩)) := by
  decide +kernel

/-- With too little fuel the model answers `none`. -/
example : approximatePagerank condPath.asLocal 1 (seedVec 0) (1 / 2) (1 / 4) = none := by
  decide +kernel

/-- A result of `local_cluster_acl` which is not empty: vertex 0. -/
example : localClusterAcl condPath.asLocal 2 0 (1 / 2) (1 / 4) = some (.ok [0]) := by
  decide +kernel

/-- **C37** (negative result, example): the target volume 3 is less than the degree 4 of the
seed vertex 1, and the cluster is empty. -/
example : localCluster condPath.asLocal 10 1 3 = some (.ok []) := by decide +kernel

/-- **C35** (negative result).  With a self-loop the mass is not preserved: a unit of mass at vertex
`0` becomes `31 / 36`.  (A debug build aborts on the `assert` instead.) -/
theorem C35_self_loop_loses_mass :
    ∃ p r, approximatePagerank condLoopGraph.asLocal 1 (seedVec 0) (1 / 2) (1 / 4) =
      some (.ok (p, r)) ∧
      condLoopGraph.abs.mass (seedVec 0 : SVec ℚ).get = 1 ∧
      condLoopGraph.abs.mass p.get + condLoopGraph.abs.mass r.get = 31 / 36 :=
  ⟨⟨1, [(0, 1 / 2)]⟩, ⟨2, [(0, 13 / 48), (1, 13 / 144)]⟩, by decide +kernel, by decide +kernel,
    by decide +kernel⟩

/-- The hypotheses of C36, C37 and of the theorems on any graph are met by a graph with a self-loop
at the seed. -/
example : AprBase condLoopGraph.asLocal condLoopGraph.abs (1 / 2) (1 / 4) (seedVec 0 : SVec ℚ) ∧
    condLoopGraph.abs.w 0 0 = 1 ∧
    localClusterAcl condLoopGraph.asLocal 8 0 (1 / 2) (1 / 16) = some (.ok [0, 1]) := by
  have hc := Graph.check_spec (g := condLoopGraph) (by decide +kernel)
  exact ⟨aprBase_seed (Graph.asLocal_answersAll hc.1 hc.2.noZeros) hc.2.nonneg (by norm_num)
    (by norm_num) (by norm_num) (by decide), by decide +kernel, by decide +kernel⟩

/-- Two vertices joined by an edge. -/
def oneEdge : Graph ℚ := ⟨2, ⟨2, 2, [[(1, 1)], [(0, 1)]]⟩, false⟩

/-- The hypotheses of the divergence theorem are met: `α = 0`, `ε = 1/2`, seed on vertex 0. -/
example : ∀ fuel, approximatePagerank oneEdge.asLocal fuel (seedVec 0) 0 (1 / 2) = none := by
  intro fuel
  have hc := Graph.check_spec (g := oneEdge) (by decide +kernel)
  refine C36_alpha_zero_never_returns (s := oneEdge.abs) (aprSetting_seed
    (Graph.asLocal_answersAll hc.1 hc.2.noZeros) hc.2.nonneg ?_ (by norm_num)
    (by norm_num) (by norm_num) (by decide)) ⟨0, by decide, by decide +kernel⟩ (by decide +kernel) fuel
  intro v
  rcases Nat.lt_or_ge v 2 with h | h
  · have : v = 0 ∨ v = 1 := by omega
    rcases this with rfl | rfl <;> decide +kernel
  · exact Graph.abs_range hc.1 v v h

end Stag
