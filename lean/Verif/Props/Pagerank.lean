import Verif.PagerankLemmas
import Verif.Props.Sweep
import Mathlib.Tactic.LinearCombination
import Mathlib.LinearAlgebra.FiniteDimensional.Basic
import Mathlib.Algebra.Order.Archimedean.Basic

/-!
# C35, C36: approximate PageRank
-/

set_option linter.unusedSectionVars false

namespace Stag

section
variable {K : Type} [Field K] [LinearOrder K]

/-- The executions of `approximate_pagerank`: `AprTrace … us st` says that the `while` loop can be
in the state `st` after pushing the vertices `us` one after the other. -/
inductive AprTrace (lg : LGraph K) (α ε : K) (seed : SVec K) : List Nat → AprState K → Prop
  | init {st : AprState K} : aprInit lg seed α ε = .ok st → AprTrace lg α ε seed [] st
  | step {us : List Nat} {st st' : AprState K} {u : Nat} {rest : List Nat} :
      AprTrace lg α ε seed us st → st.queue = u :: rest → aprStep lg α ε st u rest = .ok st' →
      AprTrace lg α ε seed (us ++ [u]) st'

/-- The situation of the theorems: a local graph with non-negative weights, and arguments which pass
the checks. -/
structure AprBase (lg : LGraph K) (s : WGraph K) (α ε : K) (seed : SVec K) : Prop where
  ans : lg.AnswersAll s
  nonneg : ∀ u v, 0 ≤ s.w u v
  α0 : 0 ≤ α
  α1 : α ≤ 1
  ε0 : 0 < ε
  seedOK : seed.OK
  rows0 : 0 < seed.rows
  rows : seed.rows ≤ s.n
  seedNonneg : ∀ v, 0 ≤ seed.get v

/-- The same on a graph without self-loops. -/
structure AprSetting (lg : LGraph K) (s : WGraph K) (α ε : K) (seed : SVec K) : Prop
    extends AprBase lg s α ε seed where
  noLoops : ∀ v, s.w v v = 0

/-- What holds in every state of the loop, on any graph. -/
structure AprInvBase (s : WGraph K) (α ε : K) (seed : SVec K) (us : List Nat) (st : AprState K) :
    Prop where
  pOK : st.p.OK
  rOK : st.r.OK
  pRows : st.p.rows ≤ s.n
  rRows : st.r.rows ≤ s.n
  massLe : s.mass st.p.get + s.mass st.r.get ≤ s.mass seed.get
  pNonneg : ∀ v, 0 ≤ st.p.get v
  rNonneg : ∀ v, 0 ≤ st.r.get v
  nodup : st.queue.Nodup
  members : ∀ x, x ∈ st.members ↔ x ∈ st.queue
  queued : ∀ u ∈ st.queue, u < s.n ∧ 0 < s.deg u ∧ ε * s.deg u ≤ st.r.get u
  unqueued : ∀ v, v < s.n → 0 < s.deg v → v ∉ st.queue → st.r.get v < ε * s.deg v
  isolated : ∀ v, v < s.n → s.deg v = 0 → st.r.get v = seed.get v
  support : ∀ v, v ∈ st.p.indices ↔ v ∈ us
  pushed : ∀ u ∈ us, u < s.n ∧ 0 < s.deg u
  pushedP : 0 < α → ∀ u ∈ us, 0 < st.p.get u
  work : s.mass st.r.get + α * ε * (us.map s.deg).sum ≤ s.mass seed.get

/-- What holds in every state of the loop, on a graph without self-loops. -/
structure AprInv (s : WGraph K) (α ε : K) (seed : SVec K) (us : List Nat) (st : AprState K) :
    Prop extends AprInvBase s α ε seed us st where
  eqn : ∀ v, v < s.n →
    st.p.get v + α * st.r.get v = α * seed.get v + (1 - α) * s.lazyStep st.p.get v
  mass : s.mass st.p.get + s.mass st.r.get = s.mass seed.get

variable [IsStrictOrderedRing K]

theorem get_empty (n j : Nat) : (⟨n, []⟩ : SVec K).get j = 0 := rfl

theorem lazyStep_add (s : WGraph K) (x y : Nat → K) (v : Nat) :
    s.lazyStep (fun j => x j + y j) v = s.lazyStep x v + s.lazyStep y v := by
  unfold WGraph.lazyStep
  have : ∀ u ∈ Finset.range s.n, (x u + y u) * s.w u v / (2 * s.deg u) =
      x u * s.w u v / (2 * s.deg u) + y u * s.w u v / (2 * s.deg u) := by
    intro u _; ring
  rw [Finset.sum_congr rfl this, Finset.sum_add_distrib]
  ring

theorem lazyStep_single (s : WGraph K) {u : Nat} (hu : u < s.n) (c : K) (v : Nat) :
    s.lazyStep (fun j => if j = u then c else 0) v =
      (if v = u then c / 2 else 0) + c * s.w u v / (2 * s.deg u) := by
  unfold WGraph.lazyStep
  rw [Finset.sum_eq_single u]
  · simp only [if_true]
    split_ifs <;> simp
  · intro b _ hb
    simp only [if_neg hb]; simp
  · intro h; exact absurd (Finset.mem_range.2 hu) h

theorem AprBase.init_spec {lg : LGraph K} {s : WGraph K} {α ε : K} {seed : SVec K}
    (h : AprBase lg s α ε seed) :
    ∃ st, aprInit lg seed α ε = .ok st ∧ AprInvBase s α ε seed [] st ∧
      st.p = ⟨seed.rows, []⟩ ∧ st.r = seed := by
  have hidx : ∀ v ∈ seed.indices, v < s.n := by
    intro v hv
    have := h.seedOK.index_lt hv
    have := h.rows
    omega
  have hnd : seed.indices.Nodup := by
    unfold SVec.indices List.Nodup
    rw [List.pairwise_map]
    exact h.seedOK.sorted.imp (fun h => ne_of_lt h)
  obtain ⟨q, h1, h2, h3⟩ := aprInitQueue_spec ε seed s.deg seed.indices hnd
  have hdeg := WGraph.degree_nonneg h.nonneg
  have hex : lg.vertexExists ((seed.rows : Int) - 1) = true := by
    have := h.rows0
    have := h.rows
    rw [h.ans.exist _ (by omega)]
    simp only [decide_eq_true_eq]
    omega
  refine ⟨⟨⟨seed.rows, []⟩, seed, q, q⟩, ?_, ?_⟩
  · unfold aprInit
    rw [hex, if_neg (by simp), if_neg (not_or.2 ⟨not_lt.2 h.α0, not_lt.2 h.α1⟩), if_neg (not_le.2 h.ε0)]
    simp only [h.ans.toAnswers.degrees hidx, Outcome.bind_ok, h1]
  · refine ⟨⟨⟨Col.sorted_nil, by simp⟩, h.seedOK, h.rows, h.rows, ?_, ?_, h.seedNonneg, h2,
      fun _ => Iff.rfl, ?_, ?_, fun _ _ _ => rfl, ?_, by simp, by simp, ?_⟩, rfl, rfl⟩
    · simp [WGraph.mass, get_empty]
    · intro v; simp [get_empty]
    · intro u hu
      have := (h3 u).1 hu
      exact ⟨hidx u this.1, lt_of_le_of_ne (hdeg u) (Ne.symm this.2.2), this.2.1⟩
    · intro v hv hd hq
      by_contra hc
      have hc := not_lt.1 hc
      have hpos : 0 < seed.get v := lt_of_lt_of_le (mul_pos h.ε0 hd) hc
      exact hq ((h3 v).2 ⟨SVec.mem_indices_of_get hpos.ne', hc, hd.ne'⟩)
    · intro v; simp [SVec.indices]
    · simp

theorem AprSetting.init_spec {lg : LGraph K} {s : WGraph K} {α ε : K} {seed : SVec K}
    (h : AprSetting lg s α ε seed) :
    ∃ st, aprInit lg seed α ε = .ok st ∧ AprInv s α ε seed [] st := by
  obtain ⟨st, h1, h2, h3, h4⟩ := h.toAprBase.init_spec
  refine ⟨st, h1, h2, ?_, ?_⟩
  · intro v _
    rw [h3, h4]
    simp only [WGraph.lazyStep, get_empty]
    simp
  · rw [h3, h4]
    simp [WGraph.mass, get_empty]

/-- The mass after a push, on any graph: no more than before. -/
theorem push_mass_le {s : WGraph K} (hw : ∀ u v, 0 ≤ s.w u v) {α : K} (h0 : 0 ≤ α) (h1 : α ≤ 1)
    {r r' : Nat → K} {u : Nat} (hun : u < s.n) (hud : 0 < s.deg u) (hru : 0 ≤ r u)
    (hu : r' u = (1 - α) / 2 * (r u * (1 + (1 - α) / (s.deg u * 2) * s.w u u)))
    (hle : ∀ j, j ≠ u → r' j ≤ r j + (1 - α) / (s.deg u * 2) * s.w u j *
      (r u * (1 + (1 - α) / (s.deg u * 2) * s.w u u))) :
    s.mass r' ≤ s.mass r - α * r u := by
  set κ := (1 - α) / (s.deg u * 2) with hκ
  set ρ := r u * (1 + κ * s.w u u) with hρ
  have hα : 0 ≤ 1 - α := sub_nonneg.2 h1
  have hκ0 : 0 ≤ κ := div_nonneg hα (by linarith)
  have hww := hw u u
  have hκw := mul_nonneg hκ0 hww
  have hρ0 : 0 ≤ ρ := mul_nonneg hru (by linarith)
  have h2 : s.mass r' ≤ ∑ j ∈ Finset.range s.n, ((r j + κ * ρ * s.w u j) +
      (if j = u then (1 - α) / 2 * ρ - r u - κ * ρ * s.w u u else 0)) := by
    apply Finset.sum_le_sum
    intro j _
    by_cases hj : j = u
    · rw [if_pos hj, hj, hu]
      linarith
    · rw [if_neg hj]
      have := hle j hj
      linarith
  rw [Finset.sum_add_distrib, Finset.sum_add_distrib, Finset.sum_ite_eq',
    if_pos (Finset.mem_range.2 hun), ← Finset.mul_sum] at h2
  have hrow : ∑ v ∈ Finset.range s.n, s.w u v = s.deg u - s.w u u := by
    unfold WGraph.deg; ring
  rw [hrow] at h2
  have hκd : κ * s.deg u = (1 - α) / 2 := by
    rw [hκ]; field_simp
  have h3 : κ * ρ * (s.deg u - s.w u u) + ((1 - α) / 2 * ρ - r u - κ * ρ * s.w u u) ≤
      - (α * r u) := by
    have e : κ * ρ * (s.deg u - s.w u u) + ((1 - α) / 2 * ρ - r u - κ * ρ * s.w u u) + α * r u =
        - (κ * s.w u u * r u * (α + 1 + 2 * (κ * s.w u u))) := by
      rw [hρ]
      linear_combination (r u * (1 + κ * s.w u u)) * hκd
    have : 0 ≤ κ * s.w u u * r u * (α + 1 + 2 * (κ * s.w u u)) :=
      mul_nonneg (mul_nonneg hκw hru) (by linarith)
    linarith
  unfold WGraph.mass at h2 ⊢
  linarith

theorem AprInvBase.step {lg : LGraph K} {s : WGraph K} {α ε : K} {seed : SVec K}
    (h : AprBase lg s α ε seed) {us : List Nat} {st : AprState K}
    (hi : AprInvBase s α ε seed us st) {u : Nat} {rest : List Nat} (hq : st.queue = u :: rest) :
    ∃ st', aprStep lg α ε st u rest = .ok st' ∧ AprInvBase s α ε seed (us ++ [u]) st' ∧
      push lg α st.p st.r u = .ok (st'.p, st'.r) := by
  have hdeg := WGraph.degree_nonneg h.nonneg
  obtain ⟨hun, hud, hur⟩ := hi.queued u (by rw [hq]; simp)
  have hrpos : 0 < st.r.get u := lt_of_lt_of_le (mul_pos h.ε0 hud) hur
  have hurows : u < st.r.rows := hi.rOK.index_lt (SVec.mem_indices_of_get hrpos.ne')
  obtain ⟨p', r', hpush, pOK, rOK, pR, rR, hp, hru', hr, hsup⟩ :=
    push_bounds h.ans.toAnswers h.nonneg h.α1 hi.pOK hi.rOK hi.pRows hi.rRows hurows hrpos.le hud
  obtain ⟨es, hes, _, hnl⟩ := h.ans.nbrs u hun
  have hnb : ∀ v, v ∈ es.map Edge.v2 ↔ v < s.n ∧ s.w u v ≠ 0 := by
    intro v
    rw [List.mem_map]
    constructor
    · rintro ⟨e, he, rfl⟩
      have := (hnl.2 e.v2 e.w).1 (List.mem_map.2 ⟨e, he, rfl⟩)
      exact ⟨this.1, this.2.1 ▸ this.2.2⟩
    · rintro ⟨h1, h2⟩
      obtain ⟨e, he, heq⟩ := List.mem_map.1 ((hnl.2 v (s.w u v)).2 ⟨h1, rfl, h2⟩)
      exact ⟨e, he, (Prod.mk.injEq _ _ _ _ ▸ heq).1⟩
  have hdegs : lg.degrees (es.map Edge.v2) = .ok (es.map (fun e => s.deg e.v2)) := by
    rw [h.ans.toAnswers.degrees (fun v hv => ((hnb v).1 hv).1), List.map_map]
    rfl
  -- the queue
  have hnd := hi.nodup
  rw [hq, List.nodup_cons] at hnd
  set m := st.members.filter (fun v => decide (v ≠ u)) with hm
  have hmm : ∀ x, x ∈ m ↔ x ∈ rest := by
    intro x
    rw [hm, List.mem_filter, hi.members, hq, List.mem_cons, decide_eq_true_eq]
    constructor
    · rintro ⟨rfl | h, hne⟩
      · exact absurd rfl hne
      · exact h
    · exact fun h => ⟨Or.inr h, fun hc => hnd.1 (hc ▸ h)⟩
  obtain ⟨q1, m1, hq1, hnd1, hmm1, hmem1⟩ : ∃ q1 m1, (if ε * s.deg u ≤ r'.get u then
      (u :: rest, u :: m) else (rest, m)) = (q1, m1) ∧ q1.Nodup ∧ (∀ x, x ∈ m1 ↔ x ∈ q1) ∧
      ∀ x, x ∈ q1 ↔ x ∈ rest ∨ (x = u ∧ ε * s.deg u ≤ r'.get u) := by
    split_ifs with hc
    · refine ⟨u :: rest, u :: m, rfl, List.nodup_cons.2 hnd, ?_, ?_⟩
      · intro x; simp [hmm]
      · intro x; simp [hc, or_comm]
    · exact ⟨rest, m, rfl, hnd.2, hmm, by simp [hc]⟩
  obtain ⟨q2, m2, hq2, hnd2, hmm2, hmem2⟩ := aprQueueNbrs_spec ε r' s.deg es q1 m1 hnd1 hmm1
  refine ⟨⟨p', r', q2, m2⟩, ?_, ?_, hpush⟩
  · unfold aprStep
    simp only [hpush, h.ans.deg u hun, h.ans.nbrsU u es hun hes, hdegs, hes, Outcome.bind_ok]
    rw [← hm, hq1, hq2, Outcome.bind_ok]
  · have hα : 0 ≤ 1 - α := sub_nonneg.2 h.α1
    have hκ0 : 0 ≤ (1 - α) / (s.deg u * 2) := div_nonneg hα (by linarith)
    have hmono : ∀ v, v ≠ u → st.r.get v ≤ r'.get v := by
      intro v hv
      have h1 := (hr v hv).1
      have h2 := mul_nonneg (mul_nonneg hκ0 (h.nonneg u v)) hrpos.le
      linarith
    have hsame : ∀ v, v ≠ u → s.w u v = 0 → r'.get v = st.r.get v := by
      intro v hv hw
      have h1 := hr v hv
      rw [hw, mul_zero, zero_mul, zero_mul, add_zero] at h1
      exact le_antisymm h1.2 h1.1
    have hpfun : p'.get = fun j => st.p.get j + (if j = u then α * st.r.get u else 0) := funext hp
    have hmassP : s.mass p'.get = s.mass st.p.get + α * st.r.get u := by
      unfold WGraph.mass
      rw [hpfun, Finset.sum_add_distrib, Finset.sum_ite_eq', if_pos (Finset.mem_range.2 hun)]
    have hmassR : s.mass r'.get ≤ s.mass st.r.get - α * st.r.get u :=
      push_mass_le h.nonneg h.α0 h.α1 hun hud hrpos.le hru' (fun j hj => (hr j hj).2)
    refine ⟨pOK, rOK, pR, rR, ?_, ?_, ?_, hnd2, hmm2, ?_, ?_, ?_, ?_, ?_, ?_, ?_⟩
    · simp only
      rw [hmassP]
      linarith [hi.massLe]
    · intro v
      simp only [hp]
      have := hi.pNonneg v
      split_ifs
      · exact add_nonneg this (mul_nonneg h.α0 hrpos.le)
      · linarith
    · intro v
      by_cases hv : v = u
      · simp only [hv, hru']
        have h1 := mul_nonneg hκ0 (h.nonneg u u)
        exact mul_nonneg (by linarith) (mul_nonneg hrpos.le (by linarith))
      · exact le_trans (hi.rNonneg v) (hmono v hv)
    · intro v hv
      rcases (hmem2 v).1 hv with h1 | ⟨h1, h2⟩
      · rcases (hmem1 v).1 h1 with h1 | ⟨rfl, h2⟩
        · obtain ⟨a, b, c⟩ := hi.queued v (by rw [hq]; simp [h1])
          refine ⟨a, b, le_trans c (hmono v ?_)⟩
          rintro rfl; exact hnd.1 h1
        · exact ⟨hun, hud, h2⟩
      · have h3 := (hnb v).1 h1
        refine ⟨h3.1, ?_, h2⟩
        have h4 : 0 < s.w v u := by
          rw [h.ans.symm]
          exact lt_of_le_of_ne (h.nonneg u v) (Ne.symm h3.2)
        have h5 := Finset.single_le_sum (f := fun x => s.w v x) (fun x _ => h.nonneg v x)
          (Finset.mem_range.2 hun)
        unfold WGraph.deg
        have := h.nonneg v v
        linarith
    · intro v hv hd hnq
      by_cases hvu : v = u
      · subst hvu
        by_contra hc
        exact hnq ((hmem2 v).2 (Or.inl ((hmem1 v).2 (Or.inr ⟨rfl, not_lt.1 hc⟩))))
      · by_cases hw : s.w u v = 0
        · simp only [hsame v hvu hw]
          apply hi.unqueued v hv hd
          rw [hq, List.mem_cons]
          rintro (h1 | h1)
          · exact hvu h1
          · exact hnq ((hmem2 v).2 (Or.inl ((hmem1 v).2 (Or.inl h1))))
        · by_contra hc
          exact hnq ((hmem2 v).2 (Or.inr ⟨(hnb v).2 ⟨hv, hw⟩, not_lt.1 hc⟩))
    · intro v hv hd
      have hvu : v ≠ u := by rintro rfl; exact hud.ne' hd
      have hw : s.w u v = 0 := by
        rw [h.ans.symm]
        have h5 := Finset.single_le_sum (f := fun x => s.w v x) (fun x _ => h.nonneg v x)
          (Finset.mem_range.2 hun)
        have := h.nonneg v u
        have := h.nonneg v v
        unfold WGraph.deg at hd
        linarith
      rw [← hi.isolated v hv hd]
      exact hsame v hvu hw
    · intro v
      simp only
      rw [hsup, hi.support, List.mem_append, List.mem_singleton]
    · intro v hv
      rcases List.mem_append.1 hv with hv | hv
      · exact hi.pushed v hv
      · rw [List.mem_singleton.1 hv]; exact ⟨hun, hud⟩
    · intro hα0 v hv
      simp only [hp]
      have hnn := hi.pNonneg v
      by_cases hvu : v = u
      · rw [if_pos hvu]
        exact add_pos_of_nonneg_of_pos hnn (mul_pos hα0 hrpos)
      · rw [if_neg hvu, add_zero]
        rcases List.mem_append.1 hv with hv | hv
        · exact hi.pushedP hα0 v hv
        · exact absurd (List.mem_singleton.1 hv) hvu
    · simp only
      rw [List.map_append, List.sum_append, List.map_cons, List.map_nil, List.sum_cons,
        List.sum_nil, add_zero]
      have h1 := hi.work
      have h2 : α * (ε * s.deg u) ≤ α * st.r.get u := mul_le_mul_of_nonneg_left hur h.α0
      linarith

theorem AprInv.step {lg : LGraph K} {s : WGraph K} {α ε : K} {seed : SVec K}
    (h : AprSetting lg s α ε seed) {us : List Nat} {st : AprState K}
    (hi : AprInv s α ε seed us st) {u : Nat} {rest : List Nat} (hq : st.queue = u :: rest) :
    ∃ st', aprStep lg α ε st u rest = .ok st' ∧ AprInv s α ε seed (us ++ [u]) st' := by
  obtain ⟨st', hst, hb, hpush'⟩ := hi.toAprInvBase.step h.toAprBase hq
  obtain ⟨hun, hud, hur⟩ := hi.queued u (by rw [hq]; simp)
  have hrpos : 0 < st.r.get u := lt_of_lt_of_le (mul_pos h.ε0 hud) hur
  have hurows : u < st.r.rows := hi.rOK.index_lt (SVec.mem_indices_of_get hrpos.ne')
  obtain ⟨p', r', hpush, pOK, rOK, pR, rR, hp, hr, hsup⟩ :=
    push_spec h.ans.toAnswers h.noLoops α hi.pOK hi.rOK hi.pRows hi.rRows hurows
  rw [hpush] at hpush'
  obtain ⟨e1, e2⟩ := Prod.mk.inj (Outcome.ok.inj hpush')
  refine ⟨st', hst, hb, ?_, ?_⟩
  · rw [← e1, ← e2]
    have hpfun : p'.get = fun j => st.p.get j + (if j = u then α * st.r.get u else 0) := funext hp
    intro v hv
    have e0 := hi.eqn v hv
    rw [hpfun, lazyStep_add s st.p.get, lazyStep_single s hun, hr]
    simp only
    by_cases hvu : v = u
    · subst hvu
      simp only [if_true, h.noLoops]
      linear_combination e0
    · simp only [if_neg hvu]
      linear_combination e0
  · rw [← e1, ← e2]
    have hpfun : p'.get = fun j => st.p.get j + (if j = u then α * st.r.get u else 0) := funext hp
    have hmassP : s.mass p'.get = s.mass st.p.get + α * st.r.get u := by
      unfold WGraph.mass
      rw [hpfun, Finset.sum_add_distrib, Finset.sum_ite_eq', if_pos (Finset.mem_range.2 hun)]
    have hrow : ∑ v ∈ Finset.range s.n, s.w u v = s.deg u := by
      unfold WGraph.deg; rw [h.noLoops, add_zero]
    have hmassR : s.mass r'.get = s.mass st.r.get - α * st.r.get u := by
      have e1 : ∀ j ∈ Finset.range s.n, r'.get j = (st.r.get j +
          (if j = u then (1 - α) * st.r.get u / 2 - st.r.get u else 0)) +
          ((1 - α) * st.r.get u / (2 * s.deg u)) * s.w u j := by
        intro j _
        rw [hr]
        by_cases hj : j = u
        · rw [if_pos hj, if_pos hj, hj, h.noLoops]; ring
        · rw [if_neg hj, if_neg hj]; ring
      unfold WGraph.mass
      rw [Finset.sum_congr rfl e1, Finset.sum_add_distrib, Finset.sum_add_distrib,
        Finset.sum_ite_eq', if_pos (Finset.mem_range.2 hun), ← Finset.mul_sum, hrow]
      have hne : s.deg u ≠ 0 := hud.ne'
      field_simp
      ring
    rw [hmassP, hmassR]
    linear_combination hi.mass

theorem AprTrace.invBase {lg : LGraph K} {s : WGraph K} {α ε : K} {seed : SVec K}
    (h : AprBase lg s α ε seed) {us : List Nat} {st : AprState K}
    (ht : AprTrace lg α ε seed us st) : AprInvBase s α ε seed us st := by
  induction ht with
  | init h0 =>
    obtain ⟨st', h1, h2, _⟩ := h.init_spec
    rw [h1] at h0
    cases h0
    exact h2
  | step _ hq hs ih =>
    obtain ⟨st', h1, h2, _⟩ := ih.step h hq
    rw [h1] at hs
    cases hs
    exact h2

theorem AprTrace.inv {lg : LGraph K} {s : WGraph K} {α ε : K} {seed : SVec K}
    (h : AprSetting lg s α ε seed) {us : List Nat} {st : AprState K}
    (ht : AprTrace lg α ε seed us st) : AprInv s α ε seed us st := by
  induction ht with
  | init h0 =>
    obtain ⟨st', h1, h2⟩ := h.init_spec
    rw [h1] at h0
    cases h0
    exact h2
  | step _ hq hs ih =>
    obtain ⟨st', h1, h2⟩ := ih.step h hq
    rw [h1] at hs
    cases hs
    exact h2

theorem aprLoop_trace {lg : LGraph K} {s : WGraph K} {α ε : K} {seed : SVec K}
    (h : AprBase lg s α ε seed) (fuel : Nat) : ∀ {us : List Nat} {st : AprState K},
    AprTrace lg α ε seed us st →
    (∃ us' st', AprTrace lg α ε seed us' st' ∧ st'.queue = [] ∧
      aprLoop lg α ε fuel st = some (.ok (st'.p, st'.r))) ∨
    (∃ us' st', AprTrace lg α ε seed us' st' ∧ us'.length = us.length + fuel ∧ st'.queue ≠ [] ∧
      aprLoop lg α ε fuel st = none) := by
  induction fuel with
  | zero =>
    intro us st ht
    obtain ⟨p, r, q, m⟩ := st
    cases q with
    | nil => exact Or.inl ⟨us, _, ht, rfl, by unfold aprLoop; rfl⟩
    | cons u rest => exact Or.inr ⟨us, _, ht, rfl, by simp, by unfold aprLoop; rfl⟩
  | succ fuel ih =>
    intro us st ht
    obtain ⟨p, r, q, m⟩ := st
    cases q with
    | nil => exact Or.inl ⟨us, _, ht, rfl, by unfold aprLoop; rfl⟩
    | cons u rest =>
      obtain ⟨st', h1, _⟩ := (ht.invBase h).step h (u := u) (rest := rest) rfl
      have ht' := AprTrace.step ht (u := u) (rest := rest) rfl h1
      have hl : aprLoop lg α ε (fuel + 1) ⟨p, r, u :: rest, m⟩ = aprLoop lg α ε fuel st' := by
        conv => lhs; unfold aprLoop
        simp only [h1]
      rw [hl]
      rcases ih ht' with ⟨us', s', a, b, c⟩ | ⟨us', s', a, b, c, d⟩
      · exact Or.inl ⟨us', s', a, b, c⟩
      · refine Or.inr ⟨us', s', a, ?_, c, d⟩
        rw [b, List.length_append, List.length_singleton]
        omega

theorem apr_trace {lg : LGraph K} {s : WGraph K} {α ε : K} {seed : SVec K}
    (h : AprBase lg s α ε seed) (fuel : Nat) :
    (∃ us st, AprTrace lg α ε seed us st ∧ st.queue = [] ∧
      approximatePagerank lg fuel seed α ε = some (.ok (st.p, st.r))) ∨
    (∃ us st, AprTrace lg α ε seed us st ∧ us.length = fuel ∧ st.queue ≠ [] ∧
      approximatePagerank lg fuel seed α ε = none) := by
  obtain ⟨st, h1, _⟩ := h.init_spec
  have hl : approximatePagerank lg fuel seed α ε = aprLoop lg α ε fuel st := by
    unfold approximatePagerank
    rw [h1]
  rw [hl]
  rcases aprLoop_trace h fuel (AprTrace.init h1) with ⟨us', s', a, b, c⟩ | ⟨us', s', a, b, c, d⟩
  · exact Or.inl ⟨us', s', a, b, c⟩
  · exact Or.inr ⟨us', s', a, by simpa using b, c, d⟩


/-! ## PageRank vectors -/

/-- A step of the walk does not create mass. -/
theorem mass_lazyStep_le {s : WGraph K} (hw : ∀ u v, 0 ≤ s.w u v) {x : Nat → K}
    (hx : ∀ v, 0 ≤ x v) : s.mass (s.lazyStep x) ≤ s.mass x := by
  unfold WGraph.mass WGraph.lazyStep
  rw [Finset.sum_add_distrib, Finset.sum_comm]
  have h1 : ∀ u ∈ Finset.range s.n, ∑ v ∈ Finset.range s.n, x u * s.w u v / (2 * s.deg u) ≤ x u / 2 := by
    intro u _
    have e : ∀ v ∈ Finset.range s.n, x u * s.w u v / (2 * s.deg u) =
        (x u / (2 * s.deg u)) * s.w u v := by intro v _; ring
    rw [Finset.sum_congr rfl e, ← Finset.mul_sum]
    have hd := WGraph.degree_nonneg hw u
    have hle : ∑ v ∈ Finset.range s.n, s.w u v ≤ s.deg u := by
      unfold WGraph.deg; linarith [hw u u]
    rcases lt_or_eq_of_le hd with hd | hd
    · calc x u / (2 * s.deg u) * ∑ v ∈ Finset.range s.n, s.w u v
          ≤ x u / (2 * s.deg u) * s.deg u :=
            mul_le_mul_of_nonneg_left hle (div_nonneg (hx u) (by linarith))
        _ = x u / 2 := by field_simp
    · rw [← hd]; simp; linarith [hx u]
  have h2 := Finset.sum_le_sum h1
  have h3 : ∑ u ∈ Finset.range s.n, x u / 2 + ∑ u ∈ Finset.range s.n, x u / 2 =
      ∑ u ∈ Finset.range s.n, x u := by
    rw [← Finset.sum_add_distrib]
    exact Finset.sum_congr rfl (fun u _ => by ring)
  linarith

theorem lazyStep_mono {s : WGraph K} (hw : ∀ u v, 0 ≤ s.w u v) {x y : Nat → K}
    (h : ∀ v, x v ≤ y v) (v : Nat) : s.lazyStep x v ≤ s.lazyStep y v := by
  unfold WGraph.lazyStep
  have h1 : ∑ u ∈ Finset.range s.n, x u * s.w u v / (2 * s.deg u) ≤
      ∑ u ∈ Finset.range s.n, y u * s.w u v / (2 * s.deg u) := by
    apply Finset.sum_le_sum
    intro u _
    have hd := WGraph.degree_nonneg hw u
    exact div_le_div_of_nonneg_right (mul_le_mul_of_nonneg_right (h u) (hw u v)) (by linarith)
  linarith [h v]

theorem lazyStep_congr {s : WGraph K} {x y : Nat → K} (h : ∀ v, v < s.n → x v = y v) {v : Nat}
    (hv : v < s.n) : s.lazyStep x v = s.lazyStep y v := by
  unfold WGraph.lazyStep
  rw [h v hv]
  congr 1
  exact Finset.sum_congr rfl (fun u hu => by rw [h u (Finset.mem_range.1 hu)])

theorem lazyStep_neg (s : WGraph K) (x : Nat → K) (v : Nat) :
    s.lazyStep (fun j => - x j) v = - s.lazyStep x v := by
  unfold WGraph.lazyStep
  have : ∀ u ∈ Finset.range s.n, (- x u) * s.w u v / (2 * s.deg u) =
      -(x u * s.w u v / (2 * s.deg u)) := by intro u _; ring
  rw [Finset.sum_congr rfl this, Finset.sum_neg_distrib]
  ring

/-- The PageRank vector of a non-negative vector is non-negative. -/
theorem IsPagerank.nonneg {s : WGraph K} (hw : ∀ u v, 0 ≤ s.w u v) {α : K} (h0 : 0 < α) (h1 : α ≤ 1)
    {x q : Nat → K} (hx : ∀ v, v < s.n → 0 ≤ x v) (hq : s.IsPagerank α x q) :
    ∀ v, v < s.n → 0 ≤ q v := by
  set m : Nat → K := fun v => if v < s.n then max (- q v) 0 else 0 with hm
  have hmnn : ∀ v, 0 ≤ m v := by
    intro v; simp only [hm]; split_ifs
    · exact le_max_right _ _
    · exact le_refl _
  have hle : ∀ v, v < s.n → m v ≤ (1 - α) * s.lazyStep m v := by
    intro v hv
    have hnn : 0 ≤ s.lazyStep m v := by
      have := lazyStep_mono hw (x := fun _ => 0) hmnn v
      refine le_trans ?_ this
      unfold WGraph.lazyStep; simp
    have e : m v = max (- q v) 0 := by simp only [hm, if_pos hv]
    rw [e]
    apply max_le
    · have h2 : s.lazyStep (fun j => - q j) v ≤ s.lazyStep m v := by
        rw [lazyStep_congr (x := fun j => - q j) (y := fun j => if j < s.n then - q j else 0)
          (fun j hj => by simp only [if_pos hj]) hv]
        apply lazyStep_mono hw
        intro j
        simp only [hm]
        split_ifs
        · exact le_max_left _ _
        · exact le_refl _
      rw [lazyStep_neg] at h2
      rw [hq v hv]
      have h3 := mul_le_mul_of_nonneg_left h2 (sub_nonneg.2 h1)
      have h4 := mul_nonneg h0.le (hx v hv)
      linarith
    · exact mul_nonneg (sub_nonneg.2 h1) hnn
  have hsum : s.mass m ≤ (1 - α) * s.mass m := by
    calc s.mass m ≤ ∑ v ∈ Finset.range s.n, (1 - α) * s.lazyStep m v :=
          Finset.sum_le_sum (fun v hv => hle v (Finset.mem_range.1 hv))
      _ = (1 - α) * s.mass (s.lazyStep m) := by rw [← Finset.mul_sum]; rfl
      _ ≤ (1 - α) * s.mass m :=
          mul_le_mul_of_nonneg_left (mass_lazyStep_le hw hmnn) (sub_nonneg.2 h1)
  have hnn : 0 ≤ s.mass m := Finset.sum_nonneg (fun v _ => hmnn v)
  have h0' : s.mass m = 0 := by nlinarith
  intro v hv
  have := (Finset.sum_eq_zero_iff_of_nonneg (fun v _ => hmnn v)).1 h0' v (Finset.mem_range.2 hv)
  simp only [hm, if_pos hv] at this
  have h5 := le_max_left (- q v) 0
  rw [this] at h5
  linarith

/-- **C35** (uniqueness of PageRank).  For `0 < α ≤ 1` there is at most one PageRank vector. -/
theorem C35_pagerank_unique {s : WGraph K} (hw : ∀ u v, 0 ≤ s.w u v) {α : K} (h0 : 0 < α)
    (h1 : α ≤ 1) {x q q' : Nat → K} (hq : s.IsPagerank α x q) (hq' : s.IsPagerank α x q') :
    ∀ v, v < s.n → q v = q' v := by
  have key : ∀ a b : Nat → K, s.IsPagerank α x a → s.IsPagerank α x b →
      ∀ v, v < s.n → a v ≤ b v := by
    intro a b ha hb v hv
    have hd : s.IsPagerank α (fun _ => 0) (fun j => b j + - a j) := by
      intro v hv
      rw [lazyStep_add s b (fun j => - a j), lazyStep_neg]
      simp only
      have := ha v hv
      have := hb v hv
      linear_combination hb v hv - ha v hv
    have := IsPagerank.nonneg hw h0 h1 (fun _ _ => le_refl _) hd v hv
    linarith
  intro v hv
  exact le_antisymm (key q q' hq hq' v hv) (key q' q hq' hq v hv)

/-! ## The theorems -/

/-- **C35**.  In every state of the computation: the entries of `p` and `r` are non-negative, their
total is that of the seed, the PageRank of the seed is `p` plus the PageRank of `r`, and the queue
holds, without repetition, exactly the non-isolated vertices with `r(v) ≥ ε deg(v)`. -/
theorem C35_invariants {lg : LGraph K} {s : WGraph K} {α ε : K} {seed : SVec K}
    (h : AprSetting lg s α ε seed) {us : List Nat} {st : AprState K}
    (ht : AprTrace lg α ε seed us st) :
    (∀ v, 0 ≤ st.p.get v ∧ 0 ≤ st.r.get v) ∧
    s.mass st.p.get + s.mass st.r.get = s.mass seed.get ∧
    (∀ q, s.IsPagerank α st.r.get q → s.IsPagerank α seed.get (fun v => st.p.get v + q v)) ∧
    st.queue.Nodup ∧
    (∀ v, v ∈ st.queue ↔ v < s.n ∧ 0 < s.deg v ∧ ε * s.deg v ≤ st.r.get v) := by
  have hi := ht.inv h
  refine ⟨fun v => ⟨hi.pNonneg v, hi.rNonneg v⟩, hi.mass, ?_, hi.nodup, ?_⟩
  · intro q hq v hv
    rw [lazyStep_add s st.p.get q]
    linear_combination hi.eqn v hv + hq v hv
  · intro v
    refine ⟨hi.queued v, fun ⟨h1, h2, h3⟩ => ?_⟩
    by_contra hc
    exact absurd (hi.unqueued v h1 h2 hc) (not_lt.2 h3)

/-- **C35** (no failure).  No state of the computation is stuck: as long as the queue is not empty
the next push succeeds, without leaving the vectors' bounds. -/
theorem C35_progress {lg : LGraph K} {s : WGraph K} {α ε : K} {seed : SVec K}
    (h : AprBase lg s α ε seed) {us : List Nat} {st : AprState K}
    (ht : AprTrace lg α ε seed us st) {u : Nat} {rest : List Nat} (hq : st.queue = u :: rest) :
    ∃ st', aprStep lg α ε st u rest = .ok st' ∧ AprTrace lg α ε seed (us ++ [u]) st' := by
  obtain ⟨st', h1, _⟩ := (ht.invBase h).step h hq
  exact ⟨st', h1, AprTrace.step ht hq h1⟩

/-- **C35** (self-loops).  On a graph with self-loops the mass need not be kept (see
`C35_self_loop_loses_mass`), but it never grows: in every state of the computation the entries of `p`
and `r` are non-negative, their total is at most that of the seed, and the queue holds, without
repetition, exactly the non-isolated vertices with `r(v) ≥ ε deg(v)`. -/
theorem C35_any_graph {lg : LGraph K} {s : WGraph K} {α ε : K} {seed : SVec K}
    (h : AprBase lg s α ε seed) {us : List Nat} {st : AprState K}
    (ht : AprTrace lg α ε seed us st) :
    (∀ v, 0 ≤ st.p.get v ∧ 0 ≤ st.r.get v) ∧
    s.mass st.p.get + s.mass st.r.get ≤ s.mass seed.get ∧
    st.queue.Nodup ∧
    (∀ v, v ∈ st.queue ↔ v < s.n ∧ 0 < s.deg v ∧ ε * s.deg v ≤ st.r.get v) := by
  have hi := ht.invBase h
  refine ⟨fun v => ⟨hi.pNonneg v, hi.rNonneg v⟩, hi.massLe, hi.nodup, fun v => ?_⟩
  refine ⟨hi.queued v, fun ⟨h1, h2, h3⟩ => ?_⟩
  by_contra hc
  exact absurd (hi.unqueued v h1 h2 hc) (not_lt.2 h3)

/-- **C35** (self-loops, result).  Whenever `approximate_pagerank` returns, on any graph, it returns
vectors with non-negative entries whose total is at most that of the seed, with
`r(v) < ε deg(v)` at every non-isolated vertex and the seed's value at every isolated one. -/
theorem C35_any_graph_result {lg : LGraph K} {s : WGraph K} {α ε : K} {seed : SVec K}
    (h : AprBase lg s α ε seed) {fuel : Nat} {o : Outcome (SVec K × SVec K)}
    (hr : approximatePagerank lg fuel seed α ε = some o) :
    ∃ p r, o = .ok (p, r) ∧ (∀ v, 0 ≤ p.get v ∧ 0 ≤ r.get v) ∧
      s.mass p.get + s.mass r.get ≤ s.mass seed.get ∧
      (∀ v, v < s.n → 0 < s.deg v → r.get v < ε * s.deg v) ∧
      (∀ v, v < s.n → s.deg v = 0 → r.get v = seed.get v) := by
  rcases apr_trace h fuel with ⟨us, st, ht, hq, he⟩ | ⟨us, st, _, _, _, he⟩
  · rw [he] at hr
    cases hr
    obtain ⟨h1, h2, _⟩ := C35_any_graph h ht
    have hi := ht.invBase h
    refine ⟨st.p, st.r, rfl, h1, h2, ?_, hi.isolated⟩
    intro v hv hd
    exact hi.unqueued v hv hd (by rw [hq]; simp)
  · rw [he] at hr; cases hr

/-- **C35** (result).  Whenever `approximate_pagerank` returns, it returns vectors `(p, r)` with
non-negative entries and the total of the seed, such that the PageRank of the seed is `p` plus the
PageRank of `r`, and `r(v) < ε deg(v)` at every non-isolated vertex; at an isolated vertex `r` is
what the seed was. -/
theorem C35_result {lg : LGraph K} {s : WGraph K} {α ε : K} {seed : SVec K}
    (h : AprSetting lg s α ε seed) {fuel : Nat} {o : Outcome (SVec K × SVec K)}
    (hr : approximatePagerank lg fuel seed α ε = some o) :
    ∃ p r, o = .ok (p, r) ∧ (∀ v, 0 ≤ p.get v ∧ 0 ≤ r.get v) ∧
      s.mass p.get + s.mass r.get = s.mass seed.get ∧
      (∀ q, s.IsPagerank α r.get q → s.IsPagerank α seed.get (fun v => p.get v + q v)) ∧
      (∀ v, v < s.n → 0 < s.deg v → r.get v < ε * s.deg v) ∧
      (∀ v, v < s.n → s.deg v = 0 → r.get v = seed.get v) := by
  rcases apr_trace h.toAprBase fuel with ⟨us, st, ht, hq, he⟩ | ⟨us, st, _, _, _, he⟩
  · rw [he] at hr
    cases hr
    obtain ⟨h1, h2, h3, _, _⟩ := C35_invariants h ht
    have hi := ht.inv h
    refine ⟨st.p, st.r, rfl, h1, h2, h3, ?_, hi.isolated⟩
    intro v hv hd
    exact hi.unqueued v hv hd (by rw [hq]; simp)
  · rw [he] at hr; cases hr

theorem lazyStep_deg {s : WGraph K} (hw : ∀ u v, 0 ≤ s.w u v) (hs : ∀ u v, s.w u v = s.w v u)
    (hl : ∀ v, s.w v v = 0) (ε : K) {v : Nat} (hv : v < s.n) :
    s.lazyStep (fun u => ε * s.deg u) v = ε * s.deg v := by
  unfold WGraph.lazyStep
  have e : ∀ u ∈ Finset.range s.n, ε * s.deg u * s.w u v / (2 * s.deg u) = (ε / 2) * s.w v u := by
    intro u hu
    rw [hs v u]
    by_cases hd : s.deg u = 0
    · have hw0 : ∀ x ∈ Finset.range s.n, s.w u x = 0 := by
        unfold WGraph.deg at hd
        rw [hl, add_zero] at hd
        exact (Finset.sum_eq_zero_iff_of_nonneg (fun x _ => hw u x)).1 hd
      rw [hw0 v (Finset.mem_range.2 hv)]; simp
    · field_simp
  rw [Finset.sum_congr rfl e, ← Finset.mul_sum]
  have : ∑ u ∈ Finset.range s.n, s.w v u = s.deg v := by
    unfold WGraph.deg; rw [hl, add_zero]
  rw [this]
  ring

/-- **C35** (accuracy).  The exact PageRank vector `q` of a seed without mass on isolated vertices
satisfies `p(v) ≤ q(v) ≤ p(v) + ε deg(v)`. -/
theorem C35_error_bound {lg : LGraph K} {s : WGraph K} {α ε : K} {seed : SVec K}
    (h : AprSetting lg s α ε seed) (hα : 0 < α) (hiso : ∀ v, v < s.n → s.deg v = 0 → seed.get v = 0)
    {fuel : Nat} {p r : SVec K} (hr : approximatePagerank lg fuel seed α ε = some (.ok (p, r)))
    {q : Nat → K} (hq : s.IsPagerank α seed.get q) :
    ∀ v, v < s.n → p.get v ≤ q v ∧ q v ≤ p.get v + ε * s.deg v := by
  rcases apr_trace h.toAprBase fuel with ⟨us, st, ht, hqe, he⟩ | ⟨us, st, _, _, _, he⟩
  · rw [he] at hr
    cases hr
    have hi := ht.inv h
    have hdeg := WGraph.degree_nonneg h.nonneg
    have hd : s.IsPagerank α st.r.get (fun v => q v + - st.p.get v) := by
      intro v hv
      rw [lazyStep_add s q (fun j => - st.p.get j), lazyStep_neg]
      simp only
      linear_combination hq v hv - hi.eqn v hv
    have hle : ∀ v, v < s.n → st.r.get v ≤ ε * s.deg v := by
      intro v hv
      rcases lt_or_eq_of_le (hdeg v) with hdv | hdv
      · exact (hi.unqueued v hv hdv (by rw [hqe]; simp)).le
      · rw [hi.isolated v hv hdv.symm, hiso v hv hdv.symm, ← hdv, mul_zero]
    have hu : s.IsPagerank α (fun v => ε * s.deg v + - st.r.get v)
        (fun v => ε * s.deg v + - (q v + - st.p.get v)) := by
      intro v hv
      rw [lazyStep_add s (fun v => ε * s.deg v) (fun v => - (q v + - st.p.get v)), lazyStep_neg,
        lazyStep_deg h.nonneg h.ans.symm h.noLoops ε hv]
      linear_combination - hd v hv
    intro v hv
    have h1 := IsPagerank.nonneg h.nonneg hα h.α1 (fun v _ => hi.rNonneg v) hd v hv
    have h2 := IsPagerank.nonneg h.nonneg hα h.α1 (fun v hv => by
      have := hle v hv
      linarith) hu v hv
    constructor
    · linarith
    · linarith
  · rw [he] at hr; cases hr

/-- A vector on `n` vertices, extended by zero. -/
def extend {n : Nat} (x : Fin n → K) (v : Nat) : K := if h : v < n then x ⟨v, h⟩ else 0

/-- **C35** (existence of PageRank).  For `0 < α ≤ 1` every starting vector has a PageRank vector. -/
theorem C35_pagerank_exists {s : WGraph K} (hw : ∀ u v, 0 ≤ s.w u v) {α : K} (h0 : 0 < α)
    (h1 : α ≤ 1) (x : Nat → K) : ∃ q, s.IsPagerank α x q := by
  let T : (Fin s.n → K) →ₗ[K] (Fin s.n → K) :=
    { toFun := fun y i => y i - (1 - α) * s.lazyStep (extend y) i
      map_add' := by
        intro y z
        ext i
        have e : extend (y + z) = fun j => extend y j + extend z j := by
          funext j
          unfold extend
          split_ifs
          · rfl
          · rw [add_zero]
        simp only [Pi.add_apply]
        rw [e, lazyStep_add s (extend y)]
        ring
      map_smul' := by
        intro c y
        ext i
        have e : s.lazyStep (extend (c • y)) i = c * s.lazyStep (extend y) i := by
          have e1 : extend (c • y) = fun j => c * extend y j := by
            funext j
            unfold extend
            split_ifs
            · rfl
            · rw [mul_zero]
          rw [e1]
          unfold WGraph.lazyStep
          rw [mul_add, Finset.mul_sum]
          congr 1
          · ring
          · exact Finset.sum_congr rfl (fun u _ => by ring)
        simp only [Pi.smul_apply, smul_eq_mul, RingHom.id_apply]
        rw [e]
        ring }
  have hinj : Function.Injective T := by
    rw [← LinearMap.ker_eq_bot, LinearMap.ker_eq_bot']
    intro y hy
    have hz : s.IsPagerank α (fun _ => 0) (extend y) := by
      intro v hv
      have := congrFun hy ⟨v, hv⟩
      change y ⟨v, hv⟩ - (1 - α) * s.lazyStep (extend y) v = 0 at this
      have e : extend y v = y ⟨v, hv⟩ := by unfold extend; rw [dif_pos hv]
      rw [e]
      linear_combination this
    have hz0 : s.IsPagerank α (fun _ => 0) (fun _ => 0) := by
      intro v hv
      unfold WGraph.lazyStep
      simp
    ext i
    have := C35_pagerank_unique hw h0 h1 hz hz0 i i.2
    unfold extend at this
    rw [dif_pos i.2] at this
    exact this
  obtain ⟨y, hy⟩ := (LinearMap.injective_iff_surjective.1 hinj) (fun i => α * x i)
  refine ⟨extend y, ?_⟩
  intro v hv
  have := congrFun hy ⟨v, hv⟩
  change y ⟨v, hv⟩ - (1 - α) * s.lazyStep (extend y) v = α * x v at this
  have e : extend y v = y ⟨v, hv⟩ := by unfold extend; rw [dif_pos hv]
  rw [e]
  linear_combination this

/-- **C36** (work).  At every moment the total degree of the vertices pushed so far is at most the
mass of the seed divided by `ε α`. -/
theorem C36_work {lg : LGraph K} {s : WGraph K} {α ε : K} {seed : SVec K}
    (h : AprBase lg s α ε seed) {us : List Nat} {st : AprState K}
    (ht : AprTrace lg α ε seed us st) :
    ε * α * (us.map s.deg).sum ≤ s.mass seed.get := by
  have hi := ht.invBase h
  have h1 := hi.work
  have h2 : 0 ≤ s.mass st.r.get := Finset.sum_nonneg (fun v _ => hi.rNonneg v)
  linarith [mul_comm ε α]

/-- **C36** (locality).  The volume of the support of the returned `p` is at most the mass of the
seed divided by `ε α`, whatever the size of the graph. -/
theorem C36_local {lg : LGraph K} {s : WGraph K} {α ε : K} {seed : SVec K}
    (h : AprBase lg s α ε seed) {fuel : Nat} {p r : SVec K}
    (hr : approximatePagerank lg fuel seed α ε = some (.ok (p, r))) :
    ε * α * s.vol p.indices.toFinset ≤ s.mass seed.get := by
  rcases apr_trace h fuel with ⟨us, st, ht, hq, he⟩ | ⟨us, st, _, _, _, he⟩
  · rw [he] at hr
    cases hr
    have hi := ht.invBase h
    have hw := C36_work h ht
    have hle : s.vol st.p.indices.toFinset ≤ (us.map s.deg).sum := by
      have e : st.p.indices.toFinset = us.toFinset := by
        ext v; simp [hi.support]
      rw [e]
      have hd := WGraph.degree_nonneg h.nonneg
      clear hi hw e ht he
      induction us with
      | nil => simp [WGraph.vol]
      | cons u us ih =>
        rw [List.map_cons, List.sum_cons, List.toFinset_cons]
        by_cases hu : u ∈ us.toFinset
        · rw [Finset.insert_eq_of_mem hu]
          linarith [hd u]
        · rw [WGraph.vol_insert _ hu]
          linarith
    have hεα : 0 ≤ ε * α := mul_nonneg h.ε0.le h.α0
    exact le_trans (mul_le_mul_of_nonneg_left hle hεα) hw
  · rw [he] at hr; cases hr

/-- **C36** (termination).  For `α > 0` the loop ends: there is a number of rounds after which
`approximate_pagerank` has returned. -/
theorem C36_terminates [Archimedean K] {lg : LGraph K} {s : WGraph K} {α ε : K} {seed : SVec K}
    (h : AprBase lg s α ε seed) (hα : 0 < α) :
    ∃ N, ∀ fuel, N ≤ fuel → ∃ p r, approximatePagerank lg fuel seed α ε = some (.ok (p, r)) := by
  obtain ⟨δ, hδ, hmin⟩ : ∃ δ : K, 0 < δ ∧ ∀ v, v < s.n → 0 < s.deg v → δ ≤ s.deg v := by
    have : ∀ n : Nat, ∃ δ : K, 0 < δ ∧ ∀ v, v < n → 0 < s.deg v → δ ≤ s.deg v := by
      intro n
      induction n with
      | zero => exact ⟨1, one_pos, by intro v hv; omega⟩
      | succ n ih =>
        obtain ⟨δ, h1, h2⟩ := ih
        by_cases hd : 0 < s.deg n
        · refine ⟨min δ (s.deg n), lt_min h1 hd, ?_⟩
          intro v hv hvd
          rcases Nat.lt_or_ge v n with hlt | hge
          · exact le_trans (min_le_left _ _) (h2 v hlt hvd)
          · obtain rfl : v = n := by omega
            exact min_le_right _ _
        · refine ⟨δ, h1, ?_⟩
          intro v hv hvd
          rcases Nat.lt_or_ge v n with hlt | hge
          · exact h2 v hlt hvd
          · obtain rfl : v = n := by omega
            exact absurd hvd hd
    exact this s.n
  have hc : 0 < ε * α * δ := mul_pos (mul_pos h.ε0 hα) hδ
  obtain ⟨N, hN⟩ := exists_nat_gt (s.mass seed.get / (ε * α * δ))
  refine ⟨N, fun fuel hf => ?_⟩
  rcases apr_trace h fuel with ⟨us, st, ht, hq, he⟩ | ⟨us, st, ht, hlen, _, he⟩
  · exact ⟨_, _, he⟩
  · exfalso
    have hw := C36_work h ht
    have hsum : (us.length : K) * δ ≤ (us.map s.deg).sum := by
      have hp := (ht.invBase h).pushed
      clear hw ht hlen he
      induction us with
      | nil => simp
      | cons u us ih =>
        rw [List.map_cons, List.sum_cons, List.length_cons]
        have h1 := ih (fun x hx => hp x (by simp [hx]))
        have h2 := hmin u (hp u (by simp)).1 (hp u (by simp)).2
        push_cast
        linarith
    rw [div_lt_iff₀ hc] at hN
    have h1 : (N : K) ≤ (us.length : K) := by rw [hlen]; exact_mod_cast hf
    have h2 : (N : K) * (ε * α * δ) ≤ (us.length : K) * (ε * α * δ) :=
      mul_le_mul_of_nonneg_right h1 hc.le
    have h3 : ε * α * ((us.length : K) * δ) ≤ ε * α * (us.map s.deg).sum :=
      mul_le_mul_of_nonneg_left hsum (mul_pos h.ε0 hα).le
    have h4 : (us.length : K) * (ε * α * δ) = ε * α * ((us.length : K) * δ) := by ring
    linarith

/-- **C36** (negative result).  `α = 0` passes the argument check, but then the call never returns
if the seed has at least `ε` times the volume of the graph on its non-isolated vertices: no mass
ever leaves `r`. -/
theorem C36_alpha_zero_never_returns {lg : LGraph K} {s : WGraph K} {ε : K} {seed : SVec K}
    (h : AprSetting lg s 0 ε seed) (hne : ∃ v, v < s.n ∧ 0 < s.deg v)
    (hm : ε * s.vol (Finset.range s.n) ≤
      ∑ v ∈ (Finset.range s.n).filter (fun v => s.deg v ≠ 0), seed.get v) (fuel : Nat) :
    approximatePagerank lg fuel seed 0 ε = none := by
  rcases apr_trace h.toAprBase fuel with ⟨us, st, ht, hq, he⟩ | ⟨us, st, _, _, _, he⟩
  · exfalso
    have hi := ht.inv h
    have hp0 : s.mass st.p.get = 0 := by
      apply Finset.sum_eq_zero
      have hpz : ∀ us (st : AprState K), AprTrace lg 0 ε seed us st → ∀ v, st.p.get v = 0 := by
        intro us st ht
        induction ht with
        | init h0 =>
          obtain ⟨st', h1, h2⟩ := h.init_spec
          intro v
          unfold aprInit at h0
          split_ifs at h0
          rw [Outcome.bind_eq_ok] at h0
          obtain ⟨ds, _, h0⟩ := h0
          rw [Outcome.bind_eq_ok] at h0
          obtain ⟨q, _, h0⟩ := h0
          cases h0
          rfl
        | step ht hq hs ih =>
          rename_i us st st' u rest
          have hi := ht.inv h
          obtain ⟨hun, hud, hur⟩ := hi.queued u (by rw [hq]; simp)
          have hrpos : 0 < st.r.get u := lt_of_lt_of_le (mul_pos h.ε0 hud) hur
          have hurows : u < st.r.rows := hi.rOK.index_lt (SVec.mem_indices_of_get hrpos.ne')
          obtain ⟨p', r', hpush, _, _, _, _, hp, _⟩ :=
            push_spec h.ans.toAnswers h.noLoops 0 hi.pOK hi.rOK hi.pRows hi.rRows hurows
          intro v
          unfold aprStep at hs
          simp only [hpush, Outcome.bind_ok, Outcome.bind_eq_ok] at hs
          obtain ⟨_, _, _, _, _, _, _, _, _, _, hs⟩ := hs
          cases hs
          simp only
          rw [hp, ih]
          simp
      intro v _
      exact hpz us st ht v
    have hmass := hi.mass
    rw [hp0, zero_add] at hmass
    unfold WGraph.mass at hmass
    rw [← Finset.sum_filter_add_sum_filter_not (Finset.range s.n) (fun v => s.deg v ≠ 0),
      ← Finset.sum_filter_add_sum_filter_not (Finset.range s.n) (fun v => s.deg v ≠ 0) seed.get]
      at hmass
    have hiso : ∑ v ∈ (Finset.range s.n).filter (fun v => ¬ s.deg v ≠ 0), st.r.get v =
        ∑ v ∈ (Finset.range s.n).filter (fun v => ¬ s.deg v ≠ 0), seed.get v := by
      apply Finset.sum_congr rfl
      intro v hv
      rw [Finset.mem_filter, not_not] at hv
      exact hi.isolated v (Finset.mem_range.1 hv.1) hv.2
    have hvol : ε * s.vol (Finset.range s.n) =
        ∑ v ∈ (Finset.range s.n).filter (fun v => s.deg v ≠ 0), ε * s.deg v := by
      unfold WGraph.vol
      rw [← Finset.mul_sum, Finset.sum_filter_ne_zero]
    have hlt : ∑ v ∈ (Finset.range s.n).filter (fun v => s.deg v ≠ 0), st.r.get v <
        ∑ v ∈ (Finset.range s.n).filter (fun v => s.deg v ≠ 0), ε * s.deg v := by
      apply Finset.sum_lt_sum_of_nonempty
      · obtain ⟨v, hv, hd⟩ := hne
        exact ⟨v, Finset.mem_filter.2 ⟨Finset.mem_range.2 hv, hd.ne'⟩⟩
      · intro v hv
        rw [Finset.mem_filter] at hv
        exact hi.unqueued v (Finset.mem_range.1 hv.1)
          (lt_of_le_of_ne (WGraph.degree_nonneg h.nonneg v) (Ne.symm hv.2)) (by rw [hq]; simp)
    linarith
  · exact he

/-- **C35** (bad arguments).  Values of `alpha` outside `[0, 1]`, a non-positive `epsilon` and a seed
reaching beyond the last vertex raise `invalid_argument`. -/
theorem C35_bad_arguments {g : Graph K} (fuel : Nat) (seed : SVec K) (α ε : K)
    (hbad : g.n < seed.rows ∨ seed.rows = 0 ∨ α < 0 ∨ 1 < α ∨ ε ≤ 0) :
    approximatePagerank g.asLocal fuel seed α ε = some (.throw .invalidArgument) := by
  have : aprInit g.asLocal seed α ε = .throw .invalidArgument := by
    unfold aprInit
    by_cases h1 : g.asLocal.vertexExists ((seed.rows : Int) - 1) = false
    · rw [if_pos h1]
    · rw [if_neg h1]
      have h1' : 0 ≤ (seed.rows : Int) - 1 ∧ (seed.rows : Int) - 1 < g.n := by
        simpa [Graph.asLocal, Graph.vertexExists] using h1
      by_cases h2 : α < 0 ∨ 1 < α
      · rw [if_pos h2]
      · rw [if_neg h2]
        rcases hbad with h | h | h | h | h
        · omega
        · omega
        · exact absurd (Or.inl h) h2
        · exact absurd (Or.inr h) h2
        · rw [if_pos h]
  unfold approximatePagerank
  rw [this]

end
end Stag
