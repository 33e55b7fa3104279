import Verif.RoundingLemmas
import Verif.Props.LocalCluster
import Mathlib.Algebra.Order.BigOperators.Group.Finset
import Mathlib.Algebra.Order.Ring.Pow

/-!
# C76: approximate PageRank in floating point arithmetic
-/

set_option linter.unusedSectionVars false

namespace Stag

section
variable {K : Type} [Field K] [LinearOrder K] [IsStrictOrderedRing K]

/-- The executions of `approximate_pagerank` in rounded arithmetic: the `while` loop can be in the
state `st` after pushing the vertices `us` one after the other. -/
inductive FlTrace (fl : K → K) (lg : LGraph K) (α ε : K) (seed : SVec K) :
    List Nat → AprState K → Prop
  | init {st : AprState K} : aprInitFl fl lg seed α ε = .ok st → FlTrace fl lg α ε seed [] st
  | step {us : List Nat} {st st' : AprState K} {u : Nat} {rest : List Nat} :
      FlTrace fl lg α ε seed us st → st.queue = u :: rest → aprStepFl fl lg α ε st u rest = .ok st' →
      FlTrace fl lg α ε seed (us ++ [u]) st'

/-- The situation of the theorems: a local graph without self-loops and with non-negative weights,
which reports the degree of `v` as `D v`, up to `k` rounding errors; arguments which pass the
checks; and a seed of floating point numbers. -/
structure FlSetting (R : Rounding K) (k : Nat) (lg : LGraph K) (s : WGraph K) (D : Nat → K) (α ε : K)
    (seed : SVec K) : Prop where
  ans : lg.AnswersFl s D
  near : ∀ v, v < s.n → R.Near k (D v) (s.deg v)
  nonneg : ∀ u v, 0 ≤ s.w u v
  noLoops : ∀ v, s.w v v = 0
  α0 : 0 ≤ α
  α1 : α ≤ 1
  ε0 : 0 < ε
  seedOK : seed.OK
  rows0 : 0 < seed.rows
  rows : seed.rows ≤ s.n
  seedNonneg : ∀ v, 0 ≤ seed.get v
  seedFl : ∀ v, R.fl (seed.get v) = seed.get v

/-- What holds in every state of the rounded loop. -/
structure FlInv (R : Rounding K) (k : Nat) (s : WGraph K) (D : Nat → K) (α ε : K) (seed : SVec K)
    (us : List Nat) (st : AprState K) : Prop where
  pOK : st.p.OK
  rOK : st.r.OK
  pRows : st.p.rows ≤ s.n
  rRows : st.r.rows ≤ s.n
  pNonneg : ∀ v, 0 ≤ st.p.get v
  rNonneg : ∀ v, 0 ≤ st.r.get v
  rFl : ∀ v, R.fl (st.r.get v) = st.r.get v
  nodup : st.queue.Nodup
  members : ∀ x, x ∈ st.members ↔ x ∈ st.queue
  queued : ∀ u ∈ st.queue, u < s.n ∧ 0 < s.deg u ∧ R.fl (ε * D u) ≤ st.r.get u
  unqueued : ∀ v, v < s.n → 0 < s.deg v → v ∉ st.queue → st.r.get v < R.fl (ε * D v)
  isolated : ∀ v, v < s.n → s.deg v = 0 → st.r.get v = seed.get v
  support : ∀ v, v ∈ st.p.indices ↔ v ∈ us
  pushed : ∀ u ∈ us, u < s.n ∧ 0 < s.deg u
  mass : s.mass st.p.get + s.mass st.r.get ≤ (R.g ^ (6 + k)) ^ us.length * s.mass seed.get
  back : ∃ a b : Nat → K,
    (∀ v, v < s.n → prForm s α (fun j => st.p.get j - a j) (fun j => st.r.get j - b j) v =
      α * seed.get v) ∧
    s.mass (fun v => |a v|) + s.mass (fun v => |b v|) ≤
      ((R.g ^ (6 + k)) ^ us.length - 1) * s.mass seed.get

theorem mass_mono {s : WGraph K} {x y : Nat → K} (h : ∀ v, x v ≤ y v) : s.mass x ≤ s.mass y :=
  Finset.sum_le_sum (fun v _ => h v)

theorem mass_mul (s : WGraph K) (c : K) (x : Nat → K) :
    s.mass (fun v => c * x v) = c * s.mass x := by
  unfold WGraph.mass
  rw [Finset.mul_sum]

theorem mass_add (s : WGraph K) (x y : Nat → K) :
    s.mass (fun v => x v + y v) = s.mass x + s.mass y := by
  unfold WGraph.mass
  rw [Finset.sum_add_distrib]

theorem mass_nonneg {s : WGraph K} {x : Nat → K} (h : ∀ v, 0 ≤ x v) : 0 ≤ s.mass x :=
  Finset.sum_nonneg (fun v _ => h v)

/-- The rounded push is close to an exact push of the current vectors. -/
theorem FlInv.push_near {R : Rounding K} {k : Nat} {lg : LGraph K} {s : WGraph K} {D : Nat → K}
    {α ε : K} {seed : SVec K} (h : FlSetting R k lg s D α ε seed) {us : List Nat} {st : AprState K}
    (hi : FlInv R k s D α ε seed us st) {u : Nat} (hu : u ∈ st.queue) :
    ∃ p' r', pushFl R.fl lg α st.p st.r u = .ok (p', r') ∧ p'.OK ∧ r'.OK ∧ p'.rows ≤ s.n ∧
      r'.rows ≤ s.n ∧
      (∀ j, R.Near (6 + k) (p'.get j) (pushP α st.p.get st.r.get u j)) ∧
      (∀ j, R.Near (6 + k) (r'.get j) (pushR s α st.r.get u j)) ∧
      (∀ j, j ≠ u → st.r.get j ≤ r'.get j) ∧
      (∀ j, j ≠ u → s.w u j = 0 → r'.get j = st.r.get j) ∧
      (∀ j, R.fl (r'.get j) = r'.get j) ∧
      ∀ j, j ∈ p'.indices ↔ j ∈ st.p.indices ∨ j = u := by
  obtain ⟨hun, hud, hur⟩ := hi.queued u hu
  have hD := h.near u hun
  have hDpos : 0 < D u := hD.pos hud
  have hεD : 0 < ε * D u := mul_pos h.ε0 hDpos
  have hrpos : 0 < st.r.get u :=
    lt_of_lt_of_le ((Rounding.near_fl (R := R) hεD.le).pos hεD) hur
  have hurows : u < st.r.rows := hi.rOK.index_lt (SVec.mem_indices_of_get hrpos.ne')
  obtain ⟨p', r', hpush, pOK, rOK, pR, rR, hp, hr, hsup⟩ :=
    pushFl_spec h.ans h.noLoops R.fl α hi.pOK hi.rOK hi.pRows hi.rRows hurows
  have hα : 0 ≤ 1 - α := sub_nonneg.2 h.α1
  have n1 : R.Near 1 (R.fl (1 - α)) (1 - α) := Rounding.near_fl hα
  have hstep : ∀ j, 0 ≤ s.w u j → R.Near (5 + k)
      (R.fl (R.fl (R.fl (R.fl (1 - α) * s.w u j) * st.r.get u) / R.fl (D u * 2)))
      ((1 - α) * (st.r.get u * s.w u j / (2 * s.deg u))) := by
    intro j hw
    have n2 := (n1.mul (Rounding.Near.refl (R := R) (k := 0) hw)).fl
    have n3 := (n2.mul (Rounding.Near.refl (R := R) (k := 0) hrpos.le)).fl
    have n4 := (hD.mul (Rounding.Near.refl (R := R) (k := 0) (zero_le_two (α := K)))).fl
    have n5 := (n3.div n4).fl
    have e : (1 - α) * s.w u j * st.r.get u / (s.deg u * 2) =
        (1 - α) * (st.r.get u * s.w u j / (2 * s.deg u)) := by
      rw [mul_comm (s.deg u) 2]; ring
    rw [e] at n5
    exact n5.mono (by omega)
  refine ⟨p', r', hpush, pOK, rOK, pR, rR, ?_, ?_, ?_, ?_, ?_, hsup⟩
  · intro j
    rw [hp]
    unfold pushP
    by_cases hj : j = u
    · rw [if_pos hj, if_pos hj, hj]
      have n2 := Rounding.near_fl (R := R) (mul_nonneg h.α0 hrpos.le)
      have n3 := ((Rounding.Near.refl (R := R) (k := 1) (hi.pNonneg u)).add n2).fl
      exact n3.mono (by omega)
    · rw [if_neg hj, if_neg hj, add_zero]
      exact Rounding.Near.refl (hi.pNonneg j)
  · intro j
    rw [hr]
    unfold pushR
    by_cases hj : j = u
    · rw [if_pos hj, if_pos hj]
      have n2 := (n1.mul (Rounding.Near.refl (R := R) (k := 0) hrpos.le)).fl
      have n3 := (n2.div (Rounding.Near.refl (R := R) (k := 0) (zero_le_two (α := K)))).fl
      exact n3.mono (by omega)
    · rw [if_neg hj, if_neg hj]
      by_cases hw : s.w u j = 0
      · rw [if_pos hw, hw]
        have e : st.r.get j + (1 - α) * (st.r.get u * 0 / (2 * s.deg u)) = st.r.get j := by ring
        rw [e]
        exact Rounding.Near.refl (hi.rNonneg j)
      · rw [if_neg hw]
        have n6 := ((Rounding.Near.refl (R := R) (k := 5 + k) (hi.rNonneg j)).add
          (hstep j (h.nonneg u j))).fl
        exact n6.mono (by omega)
  · intro j hj
    rw [hr, if_neg hj]
    by_cases hw : s.w u j = 0
    · rw [if_pos hw]
    · rw [if_neg hw]
      have := R.mono (st.r.get j) (st.r.get j + R.fl (R.fl (R.fl (R.fl (1 - α) * s.w u j) *
        st.r.get u) / R.fl (D u * 2))) (by linarith [(hstep j (h.nonneg u j)).x0])
      rwa [hi.rFl j] at this
  · intro j hj hw
    rw [hr, if_neg hj, if_pos hw]
  · intro j
    rw [hr]
    split_ifs
    · exact R.idem _
    · exact hi.rFl j
    · exact R.idem _

theorem FlSetting.init_spec {R : Rounding K} {k : Nat} {lg : LGraph K} {s : WGraph K} {D : Nat → K}
    {α ε : K} {seed : SVec K} (h : FlSetting R k lg s D α ε seed) :
    ∃ st, aprInitFl R.fl lg seed α ε = .ok st ∧ FlInv R k s D α ε seed [] st ∧ st.r = seed := by
  have hidx : ∀ v ∈ seed.indices, v < s.n := by
    intro v hv
    have := h.seedOK.index_lt hv
    have := h.rows
    omega
  have hnd : seed.indices.Nodup := by
    unfold SVec.indices List.Nodup
    rw [List.pairwise_map]
    exact h.seedOK.sorted.imp (fun h => ne_of_lt h)
  obtain ⟨q, h1, h2, h3⟩ := aprInitQueueFl_spec R.fl ε seed D seed.indices hnd
  have hdeg := WGraph.degree_nonneg h.nonneg
  have hex : lg.vertexExists ((seed.rows : Int) - 1) = true := by
    have := h.rows0
    have := h.rows
    rw [h.ans.exist _ (by omega)]
    simp only [decide_eq_true_eq]
    omega
  refine ⟨⟨⟨seed.rows, []⟩, seed, q, q⟩, ?_, ?_, rfl⟩
  · unfold aprInitFl
    rw [hex, if_neg (by simp), if_neg (not_or.2 ⟨not_lt.2 h.α0, not_lt.2 h.α1⟩), if_neg (not_le.2 h.ε0)]
    simp only [h.ans.degrees hidx, Outcome.bind_ok, h1]
  · refine ⟨⟨Col.sorted_nil, by simp⟩, h.seedOK, h.rows, h.rows, ?_, h.seedNonneg, h.seedFl, h2,
      fun _ => Iff.rfl, ?_, ?_, fun _ _ _ => rfl, ?_, by simp, ?_, ?_⟩
    · intro v; simp [get_empty]
    · intro u hu
      have := (h3 u).1 hu
      have hun := hidx u this.1
      refine ⟨hun, ?_, this.2.1⟩
      have hp : 0 < D u := lt_of_le_of_ne (h.near u hun).x0 (Ne.symm this.2.2)
      exact (h.near u hun).symm.pos hp
    · intro v hv hd hq
      by_contra hc
      have hc := not_lt.1 hc
      have hDp := (h.near v hv).pos hd
      have hpos : 0 < seed.get v := lt_of_lt_of_le
        ((Rounding.near_fl (R := R) (mul_pos h.ε0 hDp).le).pos (mul_pos h.ε0 hDp)) hc
      exact hq ((h3 v).2 ⟨SVec.mem_indices_of_get hpos.ne', hc, hDp.ne'⟩)
    · intro v; simp [SVec.indices]
    · simp [WGraph.mass, get_empty]
    · refine ⟨fun _ => 0, fun _ => 0, ?_, ?_⟩
      · intro v hv
        simp only [get_empty, sub_zero]
        unfold prForm WGraph.lazyStep
        simp
      · simp [WGraph.mass]

theorem FlInv.step {R : Rounding K} {k : Nat} {lg : LGraph K} {s : WGraph K} {D : Nat → K}
    {α ε : K} {seed : SVec K} (h : FlSetting R k lg s D α ε seed) {us : List Nat} {st : AprState K}
    (hi : FlInv R k s D α ε seed us st) {u : Nat} {rest : List Nat} (hq : st.queue = u :: rest) :
    ∃ st', aprStepFl R.fl lg α ε st u rest = .ok st' ∧ FlInv R k s D α ε seed (us ++ [u]) st' ∧
      s.mass st'.r.get ≤ R.g ^ (6 + k) * (s.mass st.r.get - α * st.r.get u) := by
  have huq : u ∈ st.queue := by rw [hq]; simp
  obtain ⟨hun, hud, hur⟩ := hi.queued u huq
  obtain ⟨p', r', hpush, pOK, rOK, pR, rR, hp, hr, hmono, hfix, hfl, hsup⟩ := hi.push_near h huq
  obtain ⟨es, hes, _, hnl⟩ := h.ans.nbrs u hun
  have hnb : ∀ v, v ∈ es.map Edge.v2 ↔ v < s.n ∧ s.w u v ≠ 0 := by
    intro v
    rw [List.mem_map]
    constructor
    · rintro ⟨e, he, rfl⟩
      have := (hnl.2 e.v2 e.w).1 (List.mem_map.2 ⟨e, he, rfl⟩)
      exact ⟨this.1, this.2.1 ▸ this.2.2⟩
    · rintro ⟨h1, h2⟩
      obtain ⟨e, he, heq⟩ := List.mem_map.1 ((hnl.2 v (s.w u v)).2 ⟨h1, rfl, h2⟩)
      exact ⟨e, he, (Prod.mk.injEq _ _ _ _ ▸ heq).1⟩
  have hdegs : lg.degrees (es.map Edge.v2) = .ok (es.map (fun e => D e.v2)) := by
    rw [h.ans.degrees (fun v hv => ((hnb v).1 hv).1), List.map_map]
    rfl
  -- the queue
  have hnd := hi.nodup
  rw [hq, List.nodup_cons] at hnd
  set m := st.members.filter (fun v => decide (v ≠ u)) with hm
  have hmm : ∀ x, x ∈ m ↔ x ∈ rest := by
    intro x
    rw [hm, List.mem_filter, hi.members, hq, List.mem_cons, decide_eq_true_eq]
    constructor
    · rintro ⟨rfl | h, hne⟩
      · exact absurd rfl hne
      · exact h
    · exact fun h => ⟨Or.inr h, fun hc => hnd.1 (hc ▸ h)⟩
  obtain ⟨q1, m1, hq1, hnd1, hmm1, hmem1⟩ : ∃ q1 m1, (if R.fl (ε * D u) ≤ r'.get u then
      (u :: rest, u :: m) else (rest, m)) = (q1, m1) ∧ q1.Nodup ∧ (∀ x, x ∈ m1 ↔ x ∈ q1) ∧
      ∀ x, x ∈ q1 ↔ x ∈ rest ∨ (x = u ∧ R.fl (ε * D u) ≤ r'.get u) := by
    split_ifs with hc
    · refine ⟨u :: rest, u :: m, rfl, List.nodup_cons.2 hnd, ?_, ?_⟩
      · intro x; simp [hmm]
      · intro x; simp [hc, or_comm]
    · exact ⟨rest, m, rfl, hnd.2, hmm, by simp [hc]⟩
  obtain ⟨q2, m2, hq2, hnd2, hmm2, hmem2⟩ := aprQueueNbrsFl_spec R.fl ε r' D es q1 m1 hnd1 hmm1
  have hG1 : 1 ≤ R.g ^ (6 + k) := Rounding.g_pow_one_le _
  have hmR : s.mass r'.get ≤ R.g ^ (6 + k) * (s.mass st.r.get - α * st.r.get u) := by
    rw [← mass_pushR h.noLoops α st.r.get hun hud, ← mass_mul]
    exact mass_mono (fun v => (hr v).le)
  have hmP : s.mass p'.get ≤ R.g ^ (6 + k) * (s.mass st.p.get + α * st.r.get u) := by
    rw [← mass_pushP α st.p.get st.r.get hun, ← mass_mul]
    exact mass_mono (fun v => (hp v).le)
  have hlen : (us ++ [u]).length = us.length + 1 := by simp
  refine ⟨⟨p', r', q2, m2⟩, ?_, ?_, hmR⟩
  · unfold aprStepFl
    simp only [hpush, h.ans.deg u hun, h.ans.nbrsU u es hun hes, hdegs, hes, Outcome.bind_ok]
    rw [← hm, hq1, hq2, Outcome.bind_ok]
  · refine ⟨pOK, rOK, pR, rR, fun v => (hp v).x0, fun v => (hr v).x0, hfl, hnd2, hmm2, ?_, ?_, ?_,
      ?_, ?_, ?_, ?_⟩
    · intro v hv
      rcases (hmem2 v).1 hv with h1 | ⟨h1, h2⟩
      · rcases (hmem1 v).1 h1 with h1 | ⟨rfl, h2⟩
        · obtain ⟨a, b, c⟩ := hi.queued v (by rw [hq]; simp [h1])
          refine ⟨a, b, le_trans c (hmono v ?_)⟩
          rintro rfl; exact hnd.1 h1
        · exact ⟨hun, hud, h2⟩
      · have h3 := (hnb v).1 h1
        refine ⟨h3.1, ?_, h2⟩
        have h4 : 0 < s.w v u := by
          rw [h.ans.symm]
          exact lt_of_le_of_ne (h.nonneg u v) (Ne.symm h3.2)
        have h5 := Finset.single_le_sum (f := fun x => s.w v x) (fun x _ => h.nonneg v x)
          (Finset.mem_range.2 hun)
        unfold WGraph.deg
        have := h.nonneg v v
        linarith
    · intro v hv hd hnq
      by_cases hvu : v = u
      · subst hvu
        by_contra hc
        exact hnq ((hmem2 v).2 (Or.inl ((hmem1 v).2 (Or.inr ⟨rfl, not_lt.1 hc⟩))))
      · by_cases hw : s.w u v = 0
        · simp only [hfix v hvu hw]
          apply hi.unqueued v hv hd
          rw [hq, List.mem_cons]
          rintro (h1 | h1)
          · exact hvu h1
          · exact hnq ((hmem2 v).2 (Or.inl ((hmem1 v).2 (Or.inl h1))))
        · by_contra hc
          exact hnq ((hmem2 v).2 (Or.inr ⟨(hnb v).2 ⟨hv, hw⟩, not_lt.1 hc⟩))
    · intro v hv hd
      have hvu : v ≠ u := by rintro rfl; exact hud.ne' hd
      have hw : s.w u v = 0 := by
        rw [h.ans.symm]
        have h5 := Finset.single_le_sum (f := fun x => s.w v x) (fun x _ => h.nonneg v x)
          (Finset.mem_range.2 hun)
        have := h.nonneg v u
        have := h.nonneg v v
        unfold WGraph.deg at hd
        linarith
      rw [← hi.isolated v hv hd]
      exact hfix v hvu hw
    · intro v
      simp only
      rw [hsup, hi.support, List.mem_append, List.mem_singleton]
    · intro v hv
      rcases List.mem_append.1 hv with hv | hv
      · exact hi.pushed v hv
      · rw [List.mem_singleton.1 hv]; exact ⟨hun, hud⟩
    · rw [hlen, pow_succ]
      have := mul_le_mul_of_nonneg_left hi.mass (Rounding.g_pow_pos (R := R) (6 + k)).le
      calc s.mass p'.get + s.mass r'.get
          ≤ R.g ^ (6 + k) * (s.mass st.p.get + s.mass st.r.get) := by linarith
        _ ≤ _ := this
        _ = _ := by ring
    · obtain ⟨a, b, hab, hmab⟩ := hi.back
      refine ⟨fun v => a v + (p'.get v - pushP α st.p.get st.r.get u v),
        fun v => b v + (r'.get v - pushR s α st.r.get u v), ?_, ?_⟩
      · intro v hv
        have e1 : (fun j => p'.get j - (a j + (p'.get j - pushP α st.p.get st.r.get u j))) =
            fun j => pushP α st.p.get st.r.get u j - a j := by funext j; ring
        have e2 : (fun j => r'.get j - (b j + (r'.get j - pushR s α st.r.get u j))) =
            fun j => pushR s α st.r.get u j - b j := by funext j; ring
        simp only
        rw [e1, e2, prForm_sub, prForm_push h.noLoops α _ _ hun, ← prForm_sub]
        exact hab v hv
      · have t1 : s.mass (fun v => |a v + (p'.get v - pushP α st.p.get st.r.get u v)|) ≤
            s.mass (fun v => |a v|) + (R.g ^ (6 + k) - 1) * (s.mass st.p.get + α * st.r.get u) := by
          rw [← mass_pushP α st.p.get st.r.get hun, ← mass_mul, ← mass_add]
          apply mass_mono
          intro v
          exact le_trans (abs_add_le _ _) (by linarith [(hp v).abs_sub])
        have t2 : s.mass (fun v => |b v + (r'.get v - pushR s α st.r.get u v)|) ≤
            s.mass (fun v => |b v|) + (R.g ^ (6 + k) - 1) * (s.mass st.r.get - α * st.r.get u) := by
          rw [← mass_pushR h.noLoops α st.r.get hun hud, ← mass_mul, ← mass_add]
          apply mass_mono
          intro v
          exact le_trans (abs_add_le _ _) (by linarith [(hr v).abs_sub])
        have t3 := mul_le_mul_of_nonneg_left hi.mass (sub_nonneg.2 hG1)
        rw [hlen, pow_succ]
        have t4 : (R.g ^ (6 + k) - 1) * (s.mass st.p.get + α * st.r.get u) +
            (R.g ^ (6 + k) - 1) * (s.mass st.r.get - α * st.r.get u) =
            (R.g ^ (6 + k) - 1) * (s.mass st.p.get + s.mass st.r.get) := by ring
        have t5 : ((R.g ^ (6 + k)) ^ us.length * R.g ^ (6 + k) - 1) * s.mass seed.get =
            ((R.g ^ (6 + k)) ^ us.length - 1) * s.mass seed.get + (R.g ^ (6 + k) - 1) *
            ((R.g ^ (6 + k)) ^ us.length * s.mass seed.get) := by ring
        rw [t5]
        linarith

theorem FlTrace.inv {R : Rounding K} {k : Nat} {lg : LGraph K} {s : WGraph K} {D : Nat → K}
    {α ε : K} {seed : SVec K} (h : FlSetting R k lg s D α ε seed) {us : List Nat} {st : AprState K}
    (ht : FlTrace R.fl lg α ε seed us st) : FlInv R k s D α ε seed us st := by
  induction ht with
  | init h0 =>
    obtain ⟨st', h1, h2, _⟩ := h.init_spec
    rw [h1] at h0
    cases h0
    exact h2
  | step _ hq hs ih =>
    obtain ⟨st', h1, h2, _⟩ := ih.step h hq
    rw [h1] at hs
    cases hs
    exact h2

theorem aprLoopFl_trace {R : Rounding K} {k : Nat} {lg : LGraph K} {s : WGraph K} {D : Nat → K}
    {α ε : K} {seed : SVec K} (h : FlSetting R k lg s D α ε seed) (fuel : Nat) :
    ∀ {us : List Nat} {st : AprState K}, FlTrace R.fl lg α ε seed us st →
    (∃ us' st', FlTrace R.fl lg α ε seed us' st' ∧ st'.queue = [] ∧
      aprLoopFl R.fl lg α ε fuel st = some (.ok (st'.p, st'.r))) ∨
    (∃ us' st', FlTrace R.fl lg α ε seed us' st' ∧ us'.length = us.length + fuel ∧ st'.queue ≠ [] ∧
      aprLoopFl R.fl lg α ε fuel st = none) := by
  induction fuel with
  | zero =>
    intro us st ht
    obtain ⟨p, r, q, m⟩ := st
    cases q with
    | nil => exact Or.inl ⟨us, _, ht, rfl, by unfold aprLoopFl; rfl⟩
    | cons u rest => exact Or.inr ⟨us, _, ht, rfl, by simp, by unfold aprLoopFl; rfl⟩
  | succ fuel ih =>
    intro us st ht
    obtain ⟨p, r, q, m⟩ := st
    cases q with
    | nil => exact Or.inl ⟨us, _, ht, rfl, by unfold aprLoopFl; rfl⟩
    | cons u rest =>
      obtain ⟨st', h1, _⟩ := (ht.inv h).step h (u := u) (rest := rest) rfl
      have ht' := FlTrace.step ht (u := u) (rest := rest) rfl h1
      have hl : aprLoopFl R.fl lg α ε (fuel + 1) ⟨p, r, u :: rest, m⟩ =
          aprLoopFl R.fl lg α ε fuel st' := by
        conv => lhs; unfold aprLoopFl
        simp only [h1]
      rw [hl]
      rcases ih ht' with ⟨us', s', a, b, c⟩ | ⟨us', s', a, b, c, d⟩
      · exact Or.inl ⟨us', s', a, b, c⟩
      · refine Or.inr ⟨us', s', a, ?_, c, d⟩
        rw [b, List.length_append, List.length_singleton]
        omega

theorem aprFl_trace {R : Rounding K} {k : Nat} {lg : LGraph K} {s : WGraph K} {D : Nat → K}
    {α ε : K} {seed : SVec K} (h : FlSetting R k lg s D α ε seed) (fuel : Nat) :
    (∃ us st, FlTrace R.fl lg α ε seed us st ∧ st.queue = [] ∧
      approximatePagerankFl R.fl lg fuel seed α ε = some (.ok (st.p, st.r))) ∨
    (∃ us st, FlTrace R.fl lg α ε seed us st ∧ us.length = fuel ∧ st.queue ≠ [] ∧
      approximatePagerankFl R.fl lg fuel seed α ε = none) := by
  obtain ⟨st, h1, _⟩ := h.init_spec
  have hl : approximatePagerankFl R.fl lg fuel seed α ε = aprLoopFl R.fl lg α ε fuel st := by
    unfold approximatePagerankFl
    rw [h1]
  rw [hl]
  rcases aprLoopFl_trace h fuel (FlTrace.init h1) with ⟨us', s', a, b, c⟩ | ⟨us', s', a, b, c, d⟩
  · exact Or.inl ⟨us', s', a, b, c⟩
  · exact Or.inr ⟨us', s', a, by simpa using b, c, d⟩


/-! ## Exact arithmetic is a special case -/

theorem pushNbrsFl_id (α deg : K) (u : Nat) (es : List (Edge K)) :
    ∀ r, pushNbrsFl (fun x => x) α deg u es r = pushNbrs α deg u es r := by
  induction es with
  | nil => intro r; rfl
  | cons e es ih =>
    intro r
    simp only [pushNbrsFl, pushNbrs, ih]

theorem aprInitQueueFl_id (ε : K) (r : SVec K) (us : List Nat) :
    ∀ ds, aprInitQueueFl (fun x => x) ε r us ds = aprInitQueue ε r us ds := by
  induction us with
  | nil => intro ds; cases ds <;> rfl
  | cons u us ih =>
    intro ds
    cases ds with
    | nil => rfl
    | cons d ds => simp only [aprInitQueueFl, aprInitQueue, ih]

theorem aprQueueNbrsFl_id (ε : K) (r : SVec K) (es : List (Edge K)) :
    ∀ ds s, aprQueueNbrsFl (fun x => x) ε r es ds s = aprQueueNbrs ε r es ds s := by
  induction es with
  | nil => intro ds s; cases ds <;> rfl
  | cons e es ih =>
    intro ds s
    obtain ⟨q, m⟩ := s
    cases ds with
    | nil => rfl
    | cons d ds => simp only [aprQueueNbrsFl, aprQueueNbrs, ih]

theorem aprStepFl_id (lg : LGraph K) (α ε : K) (s : AprState K) (u : Nat) (rest : List Nat) :
    aprStepFl (fun x => x) lg α ε s u rest = aprStep lg α ε s u rest := by
  simp only [aprStepFl, aprStep, pushFl, push, pushNbrsFl_id, aprQueueNbrsFl_id]

/-- **C76** (consistency).  Without rounding the model is the one of C35 and C36. -/
theorem C76_exact (lg : LGraph K) (fuel : Nat) (seed : SVec K) (α ε : K) :
    approximatePagerankFl (Rounding.exact K).fl lg fuel seed α ε =
      approximatePagerank lg fuel seed α ε := by
  have hloop : ∀ fuel st, aprLoopFl (fun x => x) lg α ε fuel st = aprLoop lg α ε fuel st := by
    intro fuel
    induction fuel with
    | zero => intro st; obtain ⟨p, r, q, m⟩ := st; cases q <;> simp only [aprLoopFl, aprLoop]
    | succ fuel ih =>
      intro st
      obtain ⟨p, r, q, m⟩ := st
      cases q with
      | nil => simp only [aprLoopFl, aprLoop]
      | cons u rest =>
        simp only [aprLoopFl, aprLoop, aprStepFl_id, ih]
        cases aprStep lg α ε ⟨p, r, u :: rest, m⟩ u rest <;> rfl
  have hinit : aprInitFl (fun x => x) lg seed α ε = aprInit lg seed α ε := by
    simp only [aprInitFl, aprInit, aprInitQueueFl_id]
  simp only [approximatePagerankFl, approximatePagerank, Rounding.exact, hinit, hloop]
  cases aprInit lg seed α ε <;> rfl

/-! ## PageRank vectors are stable -/

theorem abs_lazyStep_le {s : WGraph K} (hw : ∀ u v, 0 ≤ s.w u v) (x : Nat → K) (v : Nat) :
    |s.lazyStep x v| ≤ s.lazyStep (fun j => |x j|) v := by
  rw [abs_le]
  constructor
  · rw [← lazyStep_neg]
    exact lazyStep_mono hw (fun j => neg_abs_le (x j)) v
  · exact lazyStep_mono hw (fun j => le_abs_self (x j)) v

/-- PageRank does not increase the sum of the absolute values. -/
theorem IsPagerank.abs_mass_le {s : WGraph K} (hw : ∀ u v, 0 ≤ s.w u v) {α : K} (h0 : 0 < α)
    (h1 : α ≤ 1) {x q : Nat → K} (hq : s.IsPagerank α x q) :
    s.mass (fun v => |q v|) ≤ s.mass (fun v => |x v|) := by
  have hα : 0 ≤ 1 - α := sub_nonneg.2 h1
  have hle : s.mass (fun v => |q v|) ≤
      α * s.mass (fun v => |x v|) + (1 - α) * s.mass (s.lazyStep (fun j => |q j|)) := by
    rw [← mass_mul, ← mass_mul, ← mass_add]
    apply Finset.sum_le_sum
    intro v hv
    have e := hq v (Finset.mem_range.1 hv)
    rw [e]
    refine le_trans (abs_add_le _ _) ?_
    rw [abs_mul, abs_mul, abs_of_pos h0, abs_of_nonneg hα]
    have := mul_le_mul_of_nonneg_left (abs_lazyStep_le hw q v) hα
    linarith
  have h2 := mul_le_mul_of_nonneg_left (mass_lazyStep_le hw (x := fun j => |q j|)
    (fun v => abs_nonneg _)) hα
  have h3 : α * s.mass (fun v => |q v|) ≤ α * s.mass (fun v => |x v|) := by linarith
  exact le_of_mul_le_mul_left h3 h0

/-! ## The theorems -/

variable {R : Rounding K} {k : Nat} {lg : LGraph K} {s : WGraph K} {D : Nat → K} {α ε : K}
  {seed : SVec K}

/-- **C76** (no failure).  Rounding never makes a push fail: as long as the queue is not empty the
next push succeeds. -/
theorem C76_progress (h : FlSetting R k lg s D α ε seed) {us : List Nat} {st : AprState K}
    (ht : FlTrace R.fl lg α ε seed us st) {u : Nat} {rest : List Nat} (hq : st.queue = u :: rest) :
    ∃ st', aprStepFl R.fl lg α ε st u rest = .ok st' ∧ FlTrace R.fl lg α ε seed (us ++ [u]) st' := by
  obtain ⟨st', h1, _⟩ := (ht.inv h).step h hq
  exact ⟨st', h1, FlTrace.step ht hq h1⟩

/-- **C76** (invariants).  In every state of the rounded computation the entries of `p` and `r` are
non-negative, and the queue holds, without repetition, exactly the non-isolated vertices for which
`r(v)` is at least the rounded product of `ε` and the reported degree. -/
theorem C76_invariants (h : FlSetting R k lg s D α ε seed) {us : List Nat} {st : AprState K}
    (ht : FlTrace R.fl lg α ε seed us st) :
    (∀ v, 0 ≤ st.p.get v ∧ 0 ≤ st.r.get v) ∧ st.queue.Nodup ∧
    (∀ v, v ∈ st.queue ↔ v < s.n ∧ 0 < s.deg v ∧ R.fl (ε * D v) ≤ st.r.get v) := by
  have hi := ht.inv h
  refine ⟨fun v => ⟨hi.pNonneg v, hi.rNonneg v⟩, hi.nodup, ?_⟩
  intro v
  refine ⟨hi.queued v, fun ⟨h1, h2, h3⟩ => ?_⟩
  by_contra hc
  exact absurd (hi.unqueued v h1 h2 hc) (not_lt.2 h3)

/-- **C76** (rounding errors).  After `N` pushes the vector `p` plus the PageRank of `r` differs from
the PageRank of the seed by at most `((1 - u)^(-(6 + k) N) - 1) ‖seed‖₁` in the `1`-norm, and the
total mass has grown by at most the factor `(1 - u)^(-(6 + k) N)`. -/
theorem C76_rounding_error (h : FlSetting R k lg s D α ε seed) (hα : 0 < α) {us : List Nat}
    {st : AprState K} (ht : FlTrace R.fl lg α ε seed us st) {q q' : Nat → K}
    (hq : s.IsPagerank α seed.get q) (hq' : s.IsPagerank α st.r.get q') :
    s.mass (fun v => |st.p.get v + q' v - q v|) ≤
      ((1 / (1 - R.u)) ^ ((6 + k) * us.length) - 1) * s.mass seed.get ∧
    s.mass st.p.get + s.mass st.r.get ≤
      (1 / (1 - R.u)) ^ ((6 + k) * us.length) * s.mass seed.get := by
  have hi := ht.inv h
  obtain ⟨a, b, hab, hm⟩ := hi.back
  have hmass := hi.mass
  rw [← pow_mul] at hm hmass
  refine ⟨?_, hmass⟩
  refine le_trans ?_ hm
  have hz : s.IsPagerank α b (fun v => (st.p.get v + q' v - q v) - a v) := by
    intro v hv
    have e1 := hab v hv
    have e2 := hq v hv
    have e3 := hq' v hv
    rw [prForm_sub] at e1
    unfold prForm at e1
    have e4 : s.lazyStep (fun v => (st.p.get v + q' v - q v) - a v) v =
        s.lazyStep st.p.get v + s.lazyStep q' v - s.lazyStep q v - s.lazyStep a v := by
      rw [lazyStep_sub s (fun v => st.p.get v + q' v - q v) a, lazyStep_sub s
        (fun v => st.p.get v + q' v) q, lazyStep_add s st.p.get q']
    rw [e4]
    linear_combination e1 + e3 - e2
  have h1 := IsPagerank.abs_mass_le h.nonneg hα h.α1 hz
  have h2 : s.mass (fun v => |st.p.get v + q' v - q v|) ≤ s.mass (fun v => |a v|) +
      s.mass (fun v => |(st.p.get v + q' v - q v) - a v|) := by
    rw [← mass_add]
    apply mass_mono
    intro v
    have := abs_add_le (a v) ((st.p.get v + q' v - q v) - a v)
    have e : a v + ((st.p.get v + q' v - q v) - a v) = st.p.get v + q' v - q v := by ring
    rwa [e] at this
  linarith

/-- **C76** (residual).  When the queue is empty every non-isolated vertex has
`r(v) < (1 - u)^(-(1 + k)) ε deg(v)`; an isolated vertex has what the seed had. -/
theorem C76_residual (h : FlSetting R k lg s D α ε seed) {us : List Nat} {st : AprState K}
    (ht : FlTrace R.fl lg α ε seed us st) (hq : st.queue = []) :
    (∀ v, v < s.n → 0 < s.deg v →
      st.r.get v < (1 / (1 - R.u)) ^ (1 + k) * (ε * s.deg v)) ∧
    (∀ v, v < s.n → s.deg v = 0 → st.r.get v = seed.get v) := by
  have hi := ht.inv h
  refine ⟨fun v hv hd => ?_, hi.isolated⟩
  have h1 := hi.unqueued v hv hd (by rw [hq]; simp)
  have h2 := ((Rounding.Near.refl (R := R) (k := 0) h.ε0.le).mul (h.near v hv)).fl
  have h3 := (h2.mono (show 0 + k + 1 ≤ 1 + k by omega)).le
  exact lt_of_lt_of_le h1 h3

/-- **C76** (accuracy).  When the queue is empty after `N` pushes, the exact PageRank vector `q` of a
seed without mass on isolated vertices satisfies
`p(v) - E ≤ q(v) ≤ p(v) + (1 - u)^(-(1 + k)) ε deg(v) + E` for
`E = ((1 - u)^(-(6 + k) N) - 1) ‖seed‖₁`. -/
theorem C76_accuracy (h : FlSetting R k lg s D α ε seed) (hα : 0 < α)
    (hiso : ∀ v, v < s.n → s.deg v = 0 → seed.get v = 0) {us : List Nat} {st : AprState K}
    (ht : FlTrace R.fl lg α ε seed us st) (hqe : st.queue = []) {q : Nat → K}
    (hq : s.IsPagerank α seed.get q) {v : Nat} (hv : v < s.n) :
    st.p.get v - ((1 / (1 - R.u)) ^ ((6 + k) * us.length) - 1) * s.mass seed.get ≤ q v ∧
    q v ≤ st.p.get v + (1 / (1 - R.u)) ^ (1 + k) * (ε * s.deg v) +
      ((1 / (1 - R.u)) ^ ((6 + k) * us.length) - 1) * s.mass seed.get := by
  obtain ⟨q', hq'⟩ := C35_pagerank_exists h.nonneg hα h.α1 st.r.get
  have hi := ht.inv h
  obtain ⟨hr1, hr2⟩ := C76_residual h ht hqe
  have h1 := IsPagerank.nonneg h.nonneg hα h.α1 (fun v _ => hi.rNonneg v) hq'
  set c := (1 / (1 - R.u)) ^ (1 + k) * ε with hc
  have hu : s.IsPagerank α (fun v => c * s.deg v + - st.r.get v) (fun v => c * s.deg v + - q' v) := by
    intro v hv
    rw [lazyStep_add s (fun v => c * s.deg v) (fun v => - q' v), lazyStep_neg,
      lazyStep_deg h.nonneg h.ans.symm h.noLoops c hv]
    linear_combination - hq' v hv
  have h2 := IsPagerank.nonneg h.nonneg hα h.α1 (fun v hv => by
    rcases lt_or_eq_of_le (WGraph.degree_nonneg h.nonneg v) with hd | hd
    · have := hr1 v hv hd
      rw [← mul_assoc, ← hc] at this
      linarith
    · rw [hr2 v hv hd.symm, hiso v hv hd.symm, ← hd]
      simp) hu v hv
  have h3 := (C76_rounding_error h hα ht hq hq').1
  have h4 : |st.p.get v + q' v - q v| ≤ s.mass (fun v => |st.p.get v + q' v - q v|) :=
    Finset.single_le_sum (f := fun v => |st.p.get v + q' v - q v|) (fun v _ => abs_nonneg _)
      (Finset.mem_range.2 hv)
  have h5 := abs_le.1 (le_trans h4 h3)
  have h6 := h1 v hv
  rw [← mul_assoc, ← hc]
  constructor <;> linarith [h5.1, h5.2]

/-- The precision is sufficient for the arguments: what one push moves out of `r` exceeds twice what
the rounding errors can add. -/
def PrecisionOK (R : Rounding K) (k : Nat) (s : WGraph K) (α ε M : K) : Prop :=
  ∀ v, v < s.n → 0 < s.deg v →
    2 * (1 / (1 - R.u)) ^ (1 + k) * ((1 / (1 - R.u)) ^ (6 + k) - 1) * M ≤ α * ε * s.deg v

/-- **C76** (work).  If the precision is sufficient, the total degree of the vertices pushed is at
most `2 (1 - u)^(-(1 + k)) / (α ε)` times the mass of the seed. -/
theorem C76_work (h : FlSetting R k lg s D α ε seed)
    (hp : PrecisionOK R k s α ε (s.mass seed.get)) {us : List Nat} {st : AprState K}
    (ht : FlTrace R.fl lg α ε seed us st) :
    α * ε * (us.map s.deg).sum ≤ 2 * (1 / (1 - R.u)) ^ (1 + k) * s.mass seed.get := by
  have key : 2 * R.g ^ (1 + k) * s.mass st.r.get + α * ε * (us.map s.deg).sum ≤
      2 * R.g ^ (1 + k) * s.mass seed.get := by
    induction ht with
    | init h0 =>
      obtain ⟨st', h1, _, h2⟩ := h.init_spec
      rw [h1] at h0
      cases h0
      rw [h2]; simp
    | step ht hq hs ih =>
      rename_i us st st' u rest
      have hi := ht.inv h
      obtain ⟨st'', h1, _, h2⟩ := hi.step h hq
      rw [h1] at hs
      cases hs
      obtain ⟨hun, hud, hur⟩ := hi.queued u (by rw [hq]; simp)
      have hg := Rounding.g_pow_pos (R := R) (1 + k)
      have hG1 : 1 ≤ R.g ^ (6 + k) := Rounding.g_pow_one_le _
      have n1 := (((Rounding.Near.refl (R := R) (k := 0) h.ε0.le).mul (h.near u hun)).fl.mono
        (show 0 + k + 1 ≤ 1 + k by omega)).ge
      have n2 : ε * s.deg u ≤ R.g ^ (1 + k) * st.r.get u :=
        le_trans n1 (mul_le_mul_of_nonneg_left hur hg.le)
      have n3 : α * (ε * s.deg u) ≤ α * (R.g ^ (1 + k) * st.r.get u) :=
        mul_le_mul_of_nonneg_left n2 h.α0
      have hp' : 2 * R.g ^ (1 + k) * (R.g ^ (6 + k) - 1) * s.mass seed.get ≤ α * ε * s.deg u :=
        hp u hun hud
      have hwork : 0 ≤ α * ε * (us.map s.deg).sum := by
        apply mul_nonneg (mul_nonneg h.α0 h.ε0.le)
        apply List.sum_nonneg
        intro x hx
        obtain ⟨v, _, rfl⟩ := List.mem_map.1 hx
        exact WGraph.degree_nonneg h.nonneg v
      have hle : s.mass st.r.get ≤ s.mass seed.get := by
        have : 2 * R.g ^ (1 + k) * s.mass st.r.get ≤ 2 * R.g ^ (1 + k) * s.mass seed.get := by
          linarith
        exact le_of_mul_le_mul_left this (by linarith)
      have m1 : s.mass st'.r.get ≤ s.mass st.r.get - α * st.r.get u +
          (R.g ^ (6 + k) - 1) * s.mass seed.get := by
        have a1 := mul_le_mul_of_nonneg_left hle (sub_nonneg.2 hG1)
        have a2 : 0 ≤ (R.g ^ (6 + k) - 1) * (α * st.r.get u) :=
          mul_nonneg (sub_nonneg.2 hG1) (mul_nonneg h.α0 (hi.rNonneg u))
        linarith
      have m2 := mul_le_mul_of_nonneg_left m1 (show 0 ≤ 2 * R.g ^ (1 + k) by linarith)
      rw [List.map_append, List.sum_append, List.map_cons, List.map_nil, List.sum_cons,
        List.sum_nil, add_zero]
      linarith
  have hi := ht.inv h
  have h2 : 0 ≤ 2 * R.g ^ (1 + k) * s.mass st.r.get :=
    mul_nonneg (by linarith [Rounding.g_pow_pos (R := R) (1 + k)]) (mass_nonneg hi.rNonneg)
  have h3 : (1 / (1 - R.u)) = R.g := rfl
  rw [h3]
  linarith

theorem count_le_of_work {s : WGraph K} {δ : K} (us : List Nat)
    (h : ∀ u ∈ us, δ ≤ s.deg u) : (us.length : K) * δ ≤ (us.map s.deg).sum := by
  induction us with
  | nil => simp
  | cons u us ih =>
    rw [List.map_cons, List.sum_cons, List.length_cons]
    have h1 := ih (fun x hx => h x (by simp [hx]))
    have h2 := h u (by simp)
    push_cast
    linarith

/-- **C76** (termination).  If `α > 0` and the precision is sufficient, the rounded call returns, and
it has made at most `2 (1 - u)^(-(1 + k)) ‖seed‖₁ / (α ε δ)` pushes, where `δ` is the least degree of
a non-isolated vertex. -/
theorem C76_terminates [Archimedean K] (h : FlSetting R k lg s D α ε seed) (hα : 0 < α)
    (hp : PrecisionOK R k s α ε (s.mass seed.get)) {δ : K} (hδ : 0 < δ)
    (hmin : ∀ v, v < s.n → 0 < s.deg v → δ ≤ s.deg v) :
    ∃ us st, FlTrace R.fl lg α ε seed us st ∧ st.queue = [] ∧
      (us.length : K) * (α * ε * δ) ≤ 2 * (1 / (1 - R.u)) ^ (1 + k) * s.mass seed.get ∧
      ∃ N, ∀ fuel, N ≤ fuel →
        approximatePagerankFl R.fl lg fuel seed α ε = some (.ok (st.p, st.r)) := by
  have hc : 0 < α * ε * δ := mul_pos (mul_pos hα h.ε0) hδ
  have bound : ∀ us st, FlTrace R.fl lg α ε seed us st →
      (us.length : K) * (α * ε * δ) ≤ 2 * (1 / (1 - R.u)) ^ (1 + k) * s.mass seed.get := by
    intro us st ht
    have h1 := C76_work h hp ht
    have h2 := mul_le_mul_of_nonneg_left (count_le_of_work us (fun u hu =>
      hmin u ((ht.inv h).pushed u hu).1 ((ht.inv h).pushed u hu).2)) (mul_pos hα h.ε0).le
    have e : (us.length : K) * (α * ε * δ) = α * ε * ((us.length : K) * δ) := by ring
    rw [e]
    exact le_trans h2 h1
  obtain ⟨N, hN⟩ := exists_nat_gt (2 * (1 / (1 - R.u)) ^ (1 + k) * s.mass seed.get / (α * ε * δ))
  rw [div_lt_iff₀ hc] at hN
  have mono : ∀ (fuel : Nat) (st : AprState K) o, aprLoopFl R.fl lg α ε fuel st = some o →
      ∀ fuel', fuel ≤ fuel' → aprLoopFl R.fl lg α ε fuel' st = some o := by
    intro fuel
    induction fuel with
    | zero =>
      intro st o ho fuel' _
      obtain ⟨p, r, q, m⟩ := st
      cases q with
      | nil => cases fuel' <;> simpa only [aprLoopFl] using ho
      | cons u rest => simp [aprLoopFl] at ho
    | succ fuel ih =>
      intro st o ho fuel' hf
      obtain ⟨p, r, q, m⟩ := st
      cases q with
      | nil => cases fuel' <;> simpa only [aprLoopFl] using ho
      | cons u rest =>
        obtain ⟨f, rfl⟩ : ∃ f, fuel' = f + 1 := ⟨fuel' - 1, by omega⟩
        simp only [aprLoopFl] at ho ⊢
        cases hs : aprStepFl R.fl lg α ε ⟨p, r, u :: rest, m⟩ u rest with
        | ok st' =>
          rw [hs] at ho
          exact ih st' o ho f (by omega)
        | throw e => rw [hs] at ho; exact ho
        | ub => rw [hs] at ho; exact ho
  rcases aprFl_trace h N with ⟨us, st, ht, hq, he⟩ | ⟨us, st, ht, hlen, _, he⟩
  · refine ⟨us, st, ht, hq, bound us st ht, N, fun fuel hf => ?_⟩
    unfold approximatePagerankFl at he ⊢
    cases hinit : aprInitFl R.fl lg seed α ε with
    | ok st0 =>
      rw [hinit] at he
      exact mono N st0 _ he fuel hf
    | throw e => rw [hinit] at he; exact he
    | ub => rw [hinit] at he; exact he
  · exfalso
    have := bound us st ht
    rw [hlen] at this
    linarith

/-! ## A readable bound -/

theorem Rounding.g_pow_le (R : Rounding K) {m : Nat} (h : 2 * ((m : K) * R.u) ≤ 1) :
    (1 / (1 - R.u)) ^ m ≤ 1 + 2 * ((m : K) * R.u) := by
  have hb := one_add_mul_le_pow (show (-2 : K) ≤ -R.u by linarith [R.u1]) m
  have e : (1 + -R.u) = 1 - R.u := by ring
  rw [e] at hb
  have hx : 0 ≤ (m : K) * R.u := mul_nonneg (Nat.cast_nonneg _) R.u0
  have hpos : 0 < (1 - R.u) ^ m := pow_pos R.one_sub_pos m
  rw [one_div, inv_pow, inv_le_comm₀ hpos (by linarith)]
  refine le_trans ?_ hb
  rw [inv_le_iff_one_le_mul₀ (by linarith)]
  nlinarith

/-- **C76** (summary).  Let `M` be the mass of a seed without mass on isolated vertices and `δ > 0` a
lower bound for the degrees of the other vertices.  If `8 (6 + k) u M ≤ α ε δ` then the call returns
in rounded arithmetic, and its result `p` satisfies
`p(v) - E ≤ q(v) ≤ p(v) + (1 + 2 (1 + k) u) ε deg(v) + E` with `E = 8 (6 + k) u M² / (α ε δ)`, where `q`
is the exact PageRank vector. -/
theorem C76_summary [Archimedean K] (h : FlSetting R k lg s D α ε seed) (hα : 0 < α)
    (hiso : ∀ v, v < s.n → s.deg v = 0 → seed.get v = 0) {δ : K} (hδ : 0 < δ)
    (hmin : ∀ v, v < s.n → 0 < s.deg v → δ ≤ s.deg v)
    (hk : 2 * ((6 + k : Nat) * R.u) ≤ 1)
    (hp : 8 * ((6 + k : Nat) * R.u) * s.mass seed.get ≤ α * ε * δ) :
    ∃ p r, (∃ N, ∀ fuel, N ≤ fuel →
        approximatePagerankFl R.fl lg fuel seed α ε = some (.ok (p, r))) ∧
      ∀ q, s.IsPagerank α seed.get q → ∀ v, v < s.n →
        p.get v - 8 * ((6 + k : Nat) * R.u) * s.mass seed.get ^ 2 / (α * ε * δ) ≤ q v ∧
        q v ≤ p.get v + (1 + 2 * ((1 + k : Nat) * R.u)) * (ε * s.deg v) +
          8 * ((6 + k : Nat) * R.u) * s.mass seed.get ^ 2 / (α * ε * δ) := by
  set M := s.mass seed.get with hM
  have hM0 : 0 ≤ M := mass_nonneg h.seedNonneg
  have hc : 0 < α * ε * δ := mul_pos (mul_pos hα h.ε0) hδ
  have hu0 := R.u0
  have hk1 : ((1 + k : Nat) : K) * R.u ≤ ((6 + k : Nat) : K) * R.u := by
    apply mul_le_mul_of_nonneg_right _ hu0
    exact_mod_cast (by omega : 1 + k ≤ 6 + k)
  have g1 := R.g_pow_le (m := 1 + k) (by linarith)
  have g6 := R.g_pow_le (m := 6 + k) hk
  have g1' : (1 / (1 - R.u)) ^ (1 + k) ≤ 2 := by linarith
  have g10 : 0 < (1 / (1 - R.u)) ^ (1 + k) := Rounding.g_pow_pos (R := R) (1 + k)
  have g61 : 1 ≤ (1 / (1 - R.u)) ^ (6 + k) := Rounding.g_pow_one_le (R := R) (6 + k)
  have hprec : PrecisionOK R k s α ε M := by
    intro v hv hd
    have h1 : 2 * (1 / (1 - R.u)) ^ (1 + k) * ((1 / (1 - R.u)) ^ (6 + k) - 1) * M ≤
        4 * (2 * ((6 + k : Nat) * R.u)) * M := by
      apply mul_le_mul_of_nonneg_right _ hM0
      apply mul_le_mul <;> linarith
    have h2 : α * ε * δ ≤ α * ε * s.deg v :=
      mul_le_mul_of_nonneg_left (hmin v hv hd) (mul_pos hα h.ε0).le
    have h3 : 4 * (2 * ((6 + k : Nat) * R.u)) * M = 8 * ((6 + k : Nat) * R.u) * M := by ring
    linarith
  obtain ⟨us, st, ht, hq0, hN, hret⟩ := C76_terminates h hα hprec hδ hmin
  refine ⟨st.p, st.r, hret, ?_⟩
  intro q hq v hv
  obtain ⟨b1, b2⟩ := C76_accuracy h hα hiso ht hq0 hq hv
  rw [← hM] at hN b1 b2
  have hx0 : 0 ≤ ((6 + k : Nat) : K) * R.u := mul_nonneg (Nat.cast_nonneg _) hu0
  have hN4 : (us.length : K) * (α * ε * δ) ≤ 4 * M := by
    have := mul_le_mul_of_nonneg_right g1' hM0
    linarith
  have hNx : 2 * ((((6 + k) * us.length : Nat) : K) * R.u) ≤
      8 * ((6 + k : Nat) * R.u) * M / (α * ε * δ) := by
    rw [le_div_iff₀ hc]
    have := mul_le_mul_of_nonneg_left hN4 hx0
    have e : 2 * ((((6 + k) * us.length : Nat) : K) * R.u) * (α * ε * δ) =
        2 * (((6 + k : Nat) : K) * R.u * ((us.length : K) * (α * ε * δ))) := by
      push_cast; ring
    rw [e]
    linarith
  have hone : 8 * ((6 + k : Nat) * R.u) * M / (α * ε * δ) ≤ 1 := by
    rw [div_le_one hc]; exact hp
  have gN := R.g_pow_le (m := (6 + k) * us.length) (le_trans hNx hone)
  have hE : ((1 / (1 - R.u)) ^ ((6 + k) * us.length) - 1) * M ≤
      8 * ((6 + k : Nat) * R.u) * M ^ 2 / (α * ε * δ) := by
    have h1 : ((1 / (1 - R.u)) ^ ((6 + k) * us.length) - 1) * M ≤
        8 * ((6 + k : Nat) * R.u) * M / (α * ε * δ) * M :=
      mul_le_mul_of_nonneg_right (by linarith) hM0
    have e : 8 * ((6 + k : Nat) * R.u) * M / (α * ε * δ) * M =
        8 * ((6 + k : Nat) * R.u) * M ^ 2 / (α * ε * δ) := by ring
    rwa [e] at h1
  have hd : (1 / (1 - R.u)) ^ (1 + k) * (ε * s.deg v) ≤
      (1 + 2 * ((1 + k : Nat) * R.u)) * (ε * s.deg v) :=
    mul_le_mul_of_nonneg_right g1 (mul_nonneg h.ε0.le (WGraph.degree_nonneg h.nonneg v))
  constructor <;> linarith

/-- **C76** (degrees).  A degree which is computed by adding non-negative weights one after the other
is off by at most as many rounding errors as there are weights, so it is a value `D v` to which the
theorems apply with `k` the number of neighbours. -/
theorem C76_degree_sum (R : Rounding K) (ws : List K) (hw : ∀ w ∈ ws, 0 ≤ w) :
    R.Near ws.length (sumFl R.fl ws 0) ws.sum := by
  have := Rounding.sumFl_near (R := R) ws hw (Rounding.Near.refl (k := 0) (le_refl (0 : K)))
  simpa using this

/-- **C76** (binary floating point).  The theorems apply to rounding to a nearest number with a
significand of `p` bits: the result is such a number, none is nearer, and the rounding is one with
`u = 2^(-p)`. -/
theorem C76_binary [FloorRing K] (p : Nat) (hp : 0 < p) :
    ∃ R : Rounding K, R.u = (2 : K) ^ (-(p : Int)) ∧ ∀ x,
      (∃ m e : Int, |m| < 2 ^ p ∧ R.fl x = m * (2 : K) ^ e) ∧
      ∀ m e : Int, |m| < 2 ^ p → |R.fl x - x| ≤ |m * (2 : K) ^ e - x| :=
  ⟨Rounding.binary K p hp, rfl, fun x => ⟨flBin_isFloat hp x, fun m e hm =>
    flBin_nearest hp x ⟨m, e, hm, rfl⟩⟩⟩

/-! ## Too little precision -/

/-- **C76** (negative result).  If `1 - α` is rounded to `1` the call need not return: on a graph
with a single edge of weight `1`, a unit of mass at vertex `0` and `ε = 1/2`, the loop never ends,
although `α > 0` and in exact arithmetic it does (C36). -/
theorem C76_tiny_alpha_never_returns {seed : SVec K} (h : FlSetting R 0 lg s s.deg α (1 / 2) seed)
    (hn : s.n = 2) (hw : s.w 0 1 = 1) (hs0 : seed.get 0 = 1) (hs1 : seed.get 1 = 0)
    (f4 : R.fl (1 / 4) = 1 / 4) (f2 : R.fl (1 / 2) = 1 / 2) (f1 : R.fl 1 = 1) (ft : R.fl 2 = 2)
    (hα : R.fl (1 - α) = 1) (fuel : Nat) :
    approximatePagerankFl R.fl lg fuel seed α (1 / 2) = none := by
  have hw' : s.w 1 0 = 1 := by rw [h.ans.symm, hw]
  have hd0 : s.deg 0 = 1 := by
    unfold WGraph.deg; rw [hn, Finset.sum_range_succ, Finset.sum_range_one, h.noLoops, hw]; ring
  have hd1 : s.deg 1 = 1 := by
    unfold WGraph.deg; rw [hn, Finset.sum_range_succ, Finset.sum_range_one, h.noLoops, hw']; ring
  -- one push
  have hstep : ∀ us st u rest st', FlTrace R.fl lg α (1 / 2) seed us st → st.queue = u :: rest →
      aprStepFl R.fl lg α (1 / 2) st u rest = .ok st' → u < 2 ∧ 1 / 2 ≤ st.r.get u ∧
      st'.r.get u = R.fl (R.fl (st.r.get u) / 2) ∧
      st'.r.get (1 - u) = R.fl (st.r.get (1 - u) + R.fl (R.fl (st.r.get u) / 2)) := by
    intro us st u rest st' ht hq hs
    have hi := ht.inv h
    obtain ⟨hun, hud, hur⟩ := hi.queued u (by rw [hq]; simp)
    rw [hn] at hun
    have hdu : s.deg u = 1 := by
      rcases (by omega : u = 0 ∨ u = 1) with rfl | rfl
      · exact hd0
      · exact hd1
    have hwu : s.w u (1 - u) = 1 := by
      rcases (by omega : u = 0 ∨ u = 1) with rfl | rfl
      · exact hw
      · exact hw'
    rw [hdu, mul_one, f2] at hur
    have hrpos : 0 < st.r.get u := lt_of_lt_of_le (by norm_num) hur
    have hurows : u < st.r.rows := hi.rOK.index_lt (SVec.mem_indices_of_get hrpos.ne')
    obtain ⟨p', r', hpush, _, _, _, _, _, hr, _⟩ :=
      pushFl_spec h.ans h.noLoops R.fl α hi.pOK hi.rOK hi.pRows hi.rRows hurows
    unfold aprStepFl at hs
    simp only [hpush, Outcome.bind_ok, Outcome.bind_eq_ok] at hs
    obtain ⟨_, _, _, _, _, _, _, _, _, _, hs⟩ := hs
    cases hs
    refine ⟨hun, hur, ?_, ?_⟩
    · simp only
      rw [hr, if_pos rfl, hα, one_mul]
    · simp only
      rw [hr, if_neg (by omega), hwu, if_neg one_ne_zero, hdu, hα, one_mul, f1, one_mul, one_mul, ft]
  -- the vector r
  have key : ∀ us st, FlTrace R.fl lg α (1 / 2) seed us st →
      (st.r.get 0 = 1 ∧ st.r.get 1 = 0) ∨
      (1 / 4 ≤ st.r.get 0 ∧ 1 / 4 ≤ st.r.get 1 ∧ (1 / 2 ≤ st.r.get 0 ∨ 1 / 2 ≤ st.r.get 1)) := by
    intro us st ht
    induction ht with
    | init h0 =>
      obtain ⟨st', h1, _, h2⟩ := h.init_spec
      rw [h1] at h0
      cases h0
      rw [h2]
      exact Or.inl ⟨hs0, hs1⟩
    | step ht hq hs ih =>
      rename_i us st st' u rest
      obtain ⟨hu, hur, e1, e2⟩ := hstep us st u rest st' ht hq hs
      rw [(ht.inv h).rFl u] at e1 e2
      have b1 : 1 / 4 ≤ R.fl (st.r.get u / 2) := by
        have := R.mono (1 / 4) (st.r.get u / 2) (by linarith)
        rwa [f4] at this
      have b2 : 1 / 4 ≤ st'.r.get u := by rw [e1]; exact b1
      have b3 : 1 / 2 ≤ st'.r.get (1 - u) := by
        rw [e2]
        have hsum : 1 / 2 ≤ st.r.get (1 - u) + R.fl (st.r.get u / 2) := by
          rcases ih with ⟨i0, i1⟩ | ⟨i0, i1, _⟩
          · rcases (by omega : u = 0 ∨ u = 1) with rfl | rfl
            · rw [i0, f2, i1]; norm_num
            · rw [i1] at hur; norm_num at hur
          · rcases (by omega : u = 0 ∨ u = 1) with rfl | rfl
            · change 1 / 2 ≤ st.r.get 1 + _; linarith
            · change 1 / 2 ≤ st.r.get 0 + _; linarith
        have := R.mono _ _ hsum
        rwa [f2] at this
      right
      rcases (by omega : u = 0 ∨ u = 1) with rfl | rfl
      · change 1 / 2 ≤ st'.r.get 1 at b3
        exact ⟨b2, le_trans (by norm_num) b3, Or.inr b3⟩
      · change 1 / 2 ≤ st'.r.get 0 at b3
        exact ⟨le_trans (by norm_num) b3, b2, Or.inl b3⟩
  rcases aprFl_trace h fuel with ⟨us, st, ht, hq, he⟩ | ⟨us, st, _, _, _, he⟩
  · exfalso
    have hi := ht.inv h
    have a0 := hi.unqueued 0 (by omega) (by rw [hd0]; norm_num) (by rw [hq]; simp)
    have a1 := hi.unqueued 1 (by omega) (by rw [hd1]; norm_num) (by rw [hq]; simp)
    rw [hd0, mul_one, f2] at a0
    rw [hd1, mul_one, f2] at a1
    rcases key us st ht with ⟨i0, _⟩ | ⟨_, _, i | i⟩
    · rw [i0] at a0; norm_num at a0
    · linarith
    · linarith
  · exact he

end

/-! ## Examples -/

theorem oneEdge_flSetting (R : Rounding ℚ) (f1 : R.fl 1 = 1) {α ε : ℚ} (h0 : 0 ≤ α) (h1 : α ≤ 1)
    (hε : 0 < ε) :
    FlSetting R 0 oneEdge.asLocal oneEdge.abs oneEdge.abs.deg α ε (seedVec 0) := by
  have hc := Graph.check_spec (g := oneEdge) (by decide +kernel)
  have ha := Graph.asLocal_answersAll hc.1 hc.2.noZeros
  have hl : ∀ v, oneEdge.abs.w v v = 0 := by
    intro v
    rcases Nat.lt_or_ge v 2 with h | h
    · have : v = 0 ∨ v = 1 := by omega
      rcases this with rfl | rfl <;> decide +kernel
    · exact Graph.abs_range hc.1 v v h
  have hs := aprSetting_seed (K := ℚ) ha hc.2.nonneg hl h0 h1 hε (v := 0) (by decide)
  refine ⟨ha.toFl, fun v _ => Rounding.Near.refl (WGraph.degree_nonneg hc.2.nonneg v), hs.nonneg,
    hs.noLoops, h0, h1, hε, hs.seedOK, hs.rows0, hs.rows, hs.seedNonneg, ?_⟩
  intro v
  by_cases hv : v = 0
  · subst hv
    have : (seedVec 0 : SVec ℚ).get 0 = 1 := by decide +kernel
    rw [this, f1]
  · have : (seedVec 0 : SVec ℚ).get v = 0 := by
      simp [seedVec, SVec.get, Col.coeff, Ne.symm hv]
    rw [this, Rounding.fl_zero]

/-- **C76** (negative result, instance).  With `double`s (53 bits, ties to even), `α = 2^-54 > 0` and
`ε = 1/2`, `approximate_pagerank` on a single edge never returns, while the exact algorithm does. -/
theorem C76_double_never_returns :
    (∀ fuel, approximatePagerankFl (flBin 53) oneEdge.asLocal fuel (seedVec 0) ((2 : ℚ) ^ (-54 : Int))
      (1 / 2) = none) ∧
    ∃ N, ∀ fuel, N ≤ fuel → ∃ p r, approximatePagerank oneEdge.asLocal fuel (seedVec 0)
      ((2 : ℚ) ^ (-54 : Int)) (1 / 2) = some (.ok (p, r)) := by
  have z : ∀ (m : Int), flBin 53 ((2 : ℚ) ^ m) = 2 ^ m := fun m => flBin_zpow (by norm_num) m
  have hα0 : (0 : ℚ) < 2 ^ (-54 : Int) := by positivity
  have hα1 : (2 : ℚ) ^ (-54 : Int) ≤ 1 := by norm_num
  have f1 : flBin 53 (1 : ℚ) = 1 := by simpa using z 0
  have hset := oneEdge_flSetting (Rounding.binary ℚ 53 (by norm_num)) f1 hα0.le hα1
    (ε := 1 / 2) (by norm_num)
  constructor
  · intro fuel
    refine C76_tiny_alpha_never_returns (R := Rounding.binary ℚ 53 (by norm_num)) hset rfl
      (by decide +kernel) (by decide +kernel) (by decide +kernel) ?_ ?_ f1 ?_ ?_ fuel
    · have := z (-2); norm_num at this; exact this
    · have := z (-1); norm_num at this; exact this
    · have := z 1; norm_num at this; exact this
    · exact flBin_one_sub (by norm_num) hα0.le (by norm_num)
  · have hc := Graph.check_spec (g := oneEdge) (by decide +kernel)
    exact C36_terminates (aprBase_seed (Graph.asLocal_answersAll hc.1 hc.2.noZeros) hc.2.nonneg
      hα0.le hα1 (by norm_num) (by decide)) hα0

/-- The hypotheses of the summary are met by `double`s and the parameters of
`stag::local_cluster`: `α = 1/100`, and `ε = 1/1000`. -/
example : ∃ p r, (∃ N, ∀ fuel, N ≤ fuel → approximatePagerankFl (flBin 53) oneEdge.asLocal fuel
    (seedVec 0 : SVec ℚ) (1 / 100) (1 / 1000) = some (.ok (p, r))) ∧
    ∀ q, oneEdge.abs.IsPagerank (1 / 100) (seedVec 0 : SVec ℚ).get q → ∀ v, v < 2 →
      q v ≤ p.get v + 11 / 10000 := by
  have f1 : flBin 53 (1 : ℚ) = 1 := by
    simpa using flBin_zpow (K := ℚ) (p := 53) (by norm_num) 0
  have hset := oneEdge_flSetting (Rounding.binary ℚ 53 (by norm_num)) f1 (α := 1 / 100)
    (ε := 1 / 1000) (by norm_num) (by norm_num) (by norm_num)
  have hdeg : ∀ v, v < 2 → oneEdge.abs.deg v = 1 := by
    intro v hv
    rcases (by omega : v = 0 ∨ v = 1) with rfl | rfl <;> decide +kernel
  have hm : oneEdge.abs.mass (seedVec 0 : SVec ℚ).get = 1 := by decide +kernel
  have hu : (Rounding.binary ℚ 53 (by norm_num)).u = (2 : ℚ) ^ (-53 : Int) := rfl
  obtain ⟨p, r, h1, h2⟩ := C76_summary hset (by norm_num) (δ := 1) (by
    intro v hv hd
    rw [hdeg v hv] at hd
    norm_num at hd) one_pos (fun v hv _ => (hdeg v hv).ge) (by rw [hu]; norm_num)
    (by rw [hu, hm]; norm_num)
  refine ⟨p, r, h1, fun q hq v hv => ?_⟩
  have := (h2 q hq v hv).2
  rw [hdeg v hv, hm, hu] at this
  refine le_trans this ?_
  norm_num
  linarith

end Stag
