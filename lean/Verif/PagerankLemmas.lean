import Verif.ClusterLemmas
import Verif.Spec.Pagerank
import Mathlib.Algebra.BigOperators.Ring.Finset
import Mathlib.Algebra.BigOperators.Field
import Mathlib.Tactic.FieldSimp

/-!
# Lemmas on `push` and `approximate_pagerank`
-/

set_option linter.unusedSectionVars false

namespace Stag

section
variable {K : Type} [Field K] [LinearOrder K]

/-! ## Sparse vectors -/

/-- A well-formed sparse vector. -/
structure SVec.OK (x : SVec K) : Prop where
  sorted : x.col.Sorted
  lt : ∀ e ∈ x.col, e.1 < x.rows

theorem SVec.grow_col {x : SVec K} (h : x.OK) (i : Nat) : (x.grow i).col = x.col := by
  unfold SVec.grow
  split_ifs with hi
  · apply List.filter_eq_self.2
    intro e he
    have := h.lt e he
    simp only [decide_eq_true_eq]
    omega
  · rfl

theorem SVec.grow_rows (x : SVec K) (i : Nat) : (x.grow i).rows = max x.rows (i + 1) := by
  unfold SVec.grow
  split_ifs with hi
  · simp only; omega
  · omega

theorem SVec.grow_ok {x : SVec K} (h : x.OK) (i : Nat) : (x.grow i).OK := by
  refine ⟨by rw [SVec.grow_col h]; exact h.sorted, fun e he => ?_⟩
  rw [SVec.grow_col h] at he
  have := h.lt e he
  rw [SVec.grow_rows]
  omega

theorem SVec.grow_get {x : SVec K} (h : x.OK) (i j : Nat) : (x.grow i).get j = x.get j := by
  unfold SVec.get
  rw [SVec.grow_col h]

theorem SVec.grow_indices {x : SVec K} (h : x.OK) (i : Nat) : (x.grow i).indices = x.indices := by
  unfold SVec.indices
  rw [SVec.grow_col h]

theorem SVec.mem_indices {x : SVec K} {i : Nat} : i ∈ x.indices ↔ ∃ v, (i, v) ∈ x.col := by
  unfold SVec.indices
  rw [List.mem_map]
  constructor
  · rintro ⟨e, he, rfl⟩; exact ⟨e.2, he⟩
  · rintro ⟨v, hv⟩; exact ⟨_, hv, rfl⟩

theorem SVec.mem_indices_of_get {x : SVec K} {i : Nat} (h : x.get i ≠ 0) : i ∈ x.indices :=
  SVec.mem_indices.2 ⟨_, Col.mem_of_coeff_ne_zero h⟩

theorem SVec.OK.index_lt {x : SVec K} (h : x.OK) {i : Nat} (hi : i ∈ x.indices) : i < x.rows := by
  obtain ⟨v, hv⟩ := SVec.mem_indices.1 hi
  exact h.lt _ hv

theorem SVec.set_spec {x : SVec K} (h : x.OK) {i : Nat} (hi : i < x.rows) (v : K) :
    ∃ y, x.set i v = .ok y ∧ y.OK ∧ y.rows = x.rows ∧
      (∀ j, y.get j = if j = i then v else x.get j) ∧
      ∀ j, j ∈ y.indices ↔ j ∈ x.indices ∨ j = i := by
  refine ⟨⟨x.rows, x.col.update i (fun _ => v)⟩, ?_, ⟨Col.sorted_update h.sorted i _, ?_⟩, rfl, ?_, ?_⟩
  · unfold SVec.set; rw [if_pos hi]
  · intro e he
    rcases Col.mem_update_row he with h1 | h1
    · rw [h1]; exact hi
    · exact h.lt e h1
  · intro j
    unfold SVec.get
    rw [Col.coeff_update h.sorted]
  · intro j
    rw [SVec.mem_indices, SVec.mem_indices, Col.exists_mem_update]
    exact or_comm

/-! ## `push` -/

theorem pushNbrs_spec (α deg : K) {u n : Nat} (es : List (Edge K)) (hes : ∀ e ∈ es, e.v2 ≠ u ∧ e.v2 < n) :
    ∀ r : SVec K, r.OK → r.rows ≤ n → ∃ r', pushNbrs α deg u es r = .ok r' ∧ r'.OK ∧
      r.rows ≤ r'.rows ∧ r'.rows ≤ n ∧
      ∀ j, r'.get j = r.get j +
        (es.map (fun e => if e.v2 = j then (1 - α) * e.w * r.get u / (deg * 2) else 0)).sum := by
  induction es with
  | nil => intro r h1 h2; exact ⟨r, rfl, h1, le_refl _, h2, by simp⟩
  | cons e es ih =>
    intro r h1 h2
    obtain ⟨hne, hlt⟩ := hes e (by simp)
    have g1 := SVec.grow_ok h1 e.v2
    have g2 := r.grow_rows e.v2
    obtain ⟨r1, e1, e2, e3, e4, _⟩ := SVec.set_spec g1 (i := e.v2) (by omega)
      ((r.grow e.v2).get e.v2 + (1 - α) * e.w * (r.grow e.v2).get u / (deg * 2))
    obtain ⟨r2, f1, f2, f3, f4, f5⟩ := ih (fun x hx => hes x (by simp [hx])) r1 e2 (by omega)
    refine ⟨r2, ?_, f2, by omega, f4, ?_⟩
    · simp only [pushNbrs, e1, Outcome.bind_ok, f1]
    · intro j
      have hu : r1.get u = r.get u := by
        rw [e4, if_neg (Ne.symm hne), SVec.grow_get h1]
      rw [f5, hu, e4, SVec.grow_get h1, SVec.grow_get h1, SVec.grow_get h1, List.map_cons,
        List.sum_cons]
      by_cases hj : e.v2 = j
      · rw [if_pos hj.symm, if_pos hj, hj]; ring
      · rw [if_neg (Ne.symm hj), if_neg hj]; ring

theorem push_spec {lg : LGraph K} {s : WGraph K} (h : lg.Answers s) (hl : ∀ v, s.w v v = 0) (α : K)
    {p r : SVec K} {u : Nat} (hp : p.OK) (hr : r.OK) (hpn : p.rows ≤ s.n) (hrn : r.rows ≤ s.n)
    (hu : u < r.rows) :
    ∃ p' r', push lg α p r u = .ok (p', r') ∧ p'.OK ∧ r'.OK ∧ p'.rows ≤ s.n ∧ r'.rows ≤ s.n ∧
      (∀ j, p'.get j = p.get j + if j = u then α * r.get u else 0) ∧
      (∀ j, r'.get j = if j = u then (1 - α) * r.get u / 2
        else r.get j + (1 - α) * (r.get u * s.w u j / (2 * s.deg u))) ∧
      ∀ j, j ∈ p'.indices ↔ j ∈ p.indices ∨ j = u := by
  have hun : u < s.n := by omega
  have g1 := SVec.grow_ok hp u
  have g2 := p.grow_rows u
  obtain ⟨p1, e1, e2, e3, e4, e5⟩ := SVec.set_spec g1 (i := u) (by omega)
    ((p.grow u).get u + α * r.get u)
  obtain ⟨es, hes, _, hnl⟩ := h.nbrs u hun
  have hb : ∀ e ∈ es, e.v2 ≠ u ∧ e.v2 < s.n := by
    intro e he
    have := (hnl.2 e.v2 e.w).1 (List.mem_map.2 ⟨e, he, rfl⟩)
    refine ⟨?_, this.1⟩
    intro hc
    rw [hc, hl] at this
    exact this.2.2 this.2.1.symm
  obtain ⟨r1, f1, f2, f3, f4, f5⟩ := pushNbrs_spec α (s.deg u) es hb r hr hrn
  obtain ⟨r2, k1, k2, k3, k4, _⟩ := SVec.set_spec f2 (i := u) (by omega) ((1 - α) * r1.get u / 2)
  refine ⟨p1, r2, ?_, e2, k2, by omega, by omega, ?_, ?_, ?_⟩
  · simp only [push, e1, h.deg u hun, hes, f1, k1, Outcome.bind_ok]
  · intro j
    rw [e4, SVec.grow_get hp, SVec.grow_get hp]
    split_ifs with hj
    · rw [hj]
    · rw [add_zero]
  · have hsum : ∀ j, (es.map (fun e => if e.v2 = j then (1 - α) * e.w * r.get u / (s.deg u * 2)
        else 0)).sum = (1 - α) * (r.get u * s.w u j / (2 * s.deg u)) := by
      intro j
      have h1 := hnl.sum_eq (fun v x => if v = j then (1 - α) * x * r.get u / (s.deg u * 2) else 0)
        (by simp)
      rw [List.map_map] at h1
      refine Eq.trans h1 ?_
      rw [Finset.sum_ite_eq']
      split_ifs with hj
      · rw [mul_comm (s.deg u) 2]; ring
      · rw [h.range u j (by simpa using hj)]; ring
    intro j
    rw [k4, f5, f5, hsum, hsum]
    by_cases hj : j = u
    · rw [if_pos hj, if_pos hj, hl]; ring
    · rw [if_neg hj, if_neg hj]
  · intro j
    rw [e5, SVec.grow_indices hp]

/-! ## The queue -/

theorem aprInitQueue_spec (ε : K) (r : SVec K) (f : Nat → K) (us : List Nat) (hn : us.Nodup) :
    ∃ q, aprInitQueue ε r us (us.map f) = .ok q ∧ q.Nodup ∧
      ∀ v, v ∈ q ↔ v ∈ us ∧ ε * f v ≤ r.get v ∧ f v ≠ 0 := by
  induction us with
  | nil => exact ⟨[], rfl, List.nodup_nil, by simp⟩
  | cons u us ih =>
    rw [List.nodup_cons] at hn
    obtain ⟨q, h1, h2, h3⟩ := ih hn.2
    refine ⟨if ε * f u ≤ r.get u ∧ f u ≠ 0 then u :: q else q, ?_, ?_, ?_⟩
    · simp only [List.map_cons, aprInitQueue, h1, Outcome.bind_ok]
    · split_ifs with hc
      · exact List.nodup_cons.2 ⟨fun hm => hn.1 ((h3 u).1 hm).1, h2⟩
      · exact h2
    · intro v
      rw [List.mem_cons]
      split_ifs with hc
      · rw [List.mem_cons, h3]
        constructor
        · rintro (rfl | h)
          · exact ⟨Or.inl rfl, hc⟩
          · exact ⟨Or.inr h.1, h.2⟩
        · rintro ⟨rfl | h, h'⟩
          · exact Or.inl rfl
          · exact Or.inr ⟨h, h'⟩
      · rw [h3]
        constructor
        · exact fun h => ⟨Or.inr h.1, h.2⟩
        · rintro ⟨rfl | h, h'⟩
          · exact absurd h' hc
          · exact ⟨h, h'⟩

theorem aprQueueNbrs_spec (ε : K) (r : SVec K) (f : Nat → K) (es : List (Edge K)) :
    ∀ q m : List Nat, q.Nodup → (∀ x, x ∈ m ↔ x ∈ q) →
    ∃ q' m', aprQueueNbrs ε r es (es.map (fun e => f e.v2)) (q, m) = .ok (q', m') ∧ q'.Nodup ∧
      (∀ x, x ∈ m' ↔ x ∈ q') ∧
      ∀ x, x ∈ q' ↔ x ∈ q ∨ (x ∈ es.map Edge.v2 ∧ ε * f x ≤ r.get x) := by
  induction es with
  | nil => intro q m h1 h2; exact ⟨q, m, rfl, h1, h2, by simp⟩
  | cons e es ih =>
    intro q m h1 h2
    rw [List.map_cons]
    unfold aprQueueNbrs
    by_cases hc : ε * f e.v2 ≤ r.get e.v2 ∧ e.v2 ∉ m
    · rw [if_pos hc]
      have hq : e.v2 ∉ q := fun hq => hc.2 ((h2 _).2 hq)
      obtain ⟨q', m', k1, k2, k3, k4⟩ := ih (q ++ [e.v2]) (e.v2 :: m)
        (by
          rw [List.nodup_append]
          exact ⟨h1, by simp, fun a ha b hb => by
            rw [List.mem_singleton] at hb; rintro rfl; exact hq (hb ▸ ha)⟩)
        (by intro x; rw [List.mem_cons, List.mem_append, List.mem_singleton, h2, or_comm])
      refine ⟨q', m', k1, k2, k3, fun x => ?_⟩
      rw [k4, List.map_cons, List.mem_cons, List.mem_append, List.mem_singleton]
      constructor
      · rintro ((h | rfl) | h)
        · exact Or.inl h
        · exact Or.inr ⟨Or.inl rfl, hc.1⟩
        · exact Or.inr ⟨Or.inr h.1, h.2⟩
      · rintro (h | ⟨rfl | h, h'⟩)
        · exact Or.inl (Or.inl h)
        · exact Or.inl (Or.inr rfl)
        · exact Or.inr ⟨h, h'⟩
    · rw [if_neg hc]
      obtain ⟨q', m', k1, k2, k3, k4⟩ := ih q m h1 h2
      refine ⟨q', m', k1, k2, k3, fun x => ?_⟩
      rw [k4, List.map_cons, List.mem_cons]
      constructor
      · rintro (h | h)
        · exact Or.inl h
        · exact Or.inr ⟨Or.inr h.1, h.2⟩
      · rintro (h | ⟨rfl | h, h'⟩)
        · exact Or.inl h
        · exact Or.inl ((h2 _).1 (by by_contra hm; exact hc ⟨h', hm⟩))
        · exact Or.inr ⟨h, h'⟩

/-! ## `push`, with self-loops -/

variable [IsStrictOrderedRing K]

/-- The weight the list `es` gives to the neighbour `j`. -/
def weightTo (es : List (Edge K)) (j : Nat) : K := (es.map (fun e => if e.v2 = j then e.w else 0)).sum

theorem weightTo_nonneg {es : List (Edge K)} (h : ∀ e ∈ es, 0 ≤ e.w) (j : Nat) :
    0 ≤ weightTo es j := by
  apply List.sum_nonneg
  intro x hx
  obtain ⟨e, he, rfl⟩ := List.mem_map.1 hx
  split_ifs
  · exact h e he
  · exact le_refl _

theorem weightTo_cons (e : Edge K) (es : List (Edge K)) (j : Nat) :
    weightTo (e :: es) j = (if e.v2 = j then e.w else 0) + weightTo es j := by
  unfold weightTo
  rw [List.map_cons, List.sum_cons]

theorem weightTo_zero {es : List (Edge K)} {j : Nat} (h : j ∉ es.map Edge.v2) :
    weightTo es j = 0 := by
  unfold weightTo
  apply List.sum_eq_zero
  intro x hx
  obtain ⟨e, he, rfl⟩ := List.mem_map.1 hx
  exact if_neg (fun hc : e.v2 = j => h (List.mem_map.2 ⟨e, he, hc⟩))

/-- The loop of `push` for any list of neighbours, possibly with `u` among them: the value of `r` at
`u` is multiplied by `1 + κ w(u, u)`, and those neighbours which come later in the list receive
shares of the increased value. -/
theorem pushNbrs_bounds {α deg κ : K} {u n : Nat} (hκ : κ = (1 - α) / (deg * 2)) (hκ0 : 0 ≤ κ)
    (es : List (Edge K)) (hes : ∀ e ∈ es, e.v2 < n) (hw : ∀ e ∈ es, 0 ≤ e.w)
    (hnd : (es.map Edge.v2).Nodup) :
    ∀ r : SVec K, r.OK → r.rows ≤ n → 0 ≤ r.get u →
      ∃ r', pushNbrs α deg u es r = .ok r' ∧ r'.OK ∧ r.rows ≤ r'.rows ∧ r'.rows ≤ n ∧
        r'.get u = r.get u * (1 + κ * weightTo es u) ∧
        ∀ j, j ≠ u → r.get j + κ * weightTo es j * r.get u ≤ r'.get j ∧
          r'.get j ≤ r.get j + κ * weightTo es j * (r.get u * (1 + κ * weightTo es u)) := by
  induction es with
  | nil =>
    intro r h1 h2 _
    exact ⟨r, rfl, h1, le_refl _, h2, by simp [weightTo], by simp [weightTo]⟩
  | cons e es ih =>
    intro r h1 h2 h0
    have hlt := hes e (by simp)
    have hwe := hw e (by simp)
    rw [List.map_cons, List.nodup_cons] at hnd
    have g1 := SVec.grow_ok h1 e.v2
    have g2 := r.grow_rows e.v2
    obtain ⟨r1, e1, e2, e3, e4, _⟩ := SVec.set_spec g1 (i := e.v2) (by omega)
      ((r.grow e.v2).get e.v2 + (1 - α) * e.w * (r.grow e.v2).get u / (deg * 2))
    have e4' : ∀ j, r1.get j = r.get j + if e.v2 = j then κ * e.w * r.get u else 0 := by
      intro j
      rw [e4, SVec.grow_get h1, SVec.grow_get h1, SVec.grow_get h1]
      by_cases hj : e.v2 = j
      · rw [if_pos hj.symm, if_pos hj, hj, hκ]; ring
      · rw [if_neg (Ne.symm hj), if_neg hj, add_zero]
    have hW : ∀ j, 0 ≤ weightTo es j := weightTo_nonneg (fun x hx => hw x (by simp [hx]))
    have hr1 : 0 ≤ r1.get u := by
      rw [e4']
      split_ifs
      · exact add_nonneg h0 (mul_nonneg (mul_nonneg hκ0 hwe) h0)
      · rwa [add_zero]
    obtain ⟨r2, f1, f2, f3, f4, f5, f6⟩ := ih (fun x hx => hes x (by simp [hx]))
      (fun x hx => hw x (by simp [hx])) hnd.2 r1 e2 (by omega) hr1
    refine ⟨r2, ?_, f2, by omega, f4, ?_, ?_⟩
    · simp only [pushNbrs, e1, Outcome.bind_ok, f1]
    · rw [f5, weightTo_cons, e4']
      by_cases hu : e.v2 = u
      · rw [if_pos hu, if_pos hu, weightTo_zero (hu ▸ hnd.1)]; ring
      · rw [if_neg hu, if_neg hu]; ring
    · intro j hj
      obtain ⟨a, b⟩ := f6 j hj
      rw [e4' j] at a b
      rw [weightTo_cons, weightTo_cons]
      by_cases hu : e.v2 = u
      · rw [e4', if_pos hu] at a b
        have hju : e.v2 ≠ j := fun hc => hj (hc ▸ hu)
        rw [if_neg hju] at a b ⊢
        have hz : weightTo es u = 0 := weightTo_zero (hu ▸ hnd.1)
        rw [hz] at b ⊢
        rw [if_pos hu]
        have k1 : 0 ≤ κ * weightTo es j := mul_nonneg hκ0 (hW j)
        have k2 : 0 ≤ κ * e.w * r.get u := mul_nonneg (mul_nonneg hκ0 hwe) h0
        have k3 := mul_nonneg k1 k2
        constructor
        · linarith
        · refine le_trans b (le_of_eq ?_)
          ring
      · rw [e4', if_neg hu, add_zero] at a b
        rw [if_neg hu, zero_add]
        have k2 : 0 ≤ κ * e.w * r.get u := mul_nonneg (mul_nonneg hκ0 hwe) h0
        have k4 : 0 ≤ κ * weightTo es u := mul_nonneg hκ0 (hW u)
        have k5 := mul_nonneg k2 k4
        by_cases hju : e.v2 = j
        · rw [if_pos hju] at a b ⊢
          constructor
          · linarith
          · refine le_trans b ?_
            linarith
        · rw [if_neg hju] at a b ⊢
          constructor
          · linarith
          · linarith

/-- `push` on any graph, self-loops included. -/
theorem push_bounds {lg : LGraph K} {s : WGraph K} (h : lg.Answers s) (hw : ∀ u v, 0 ≤ s.w u v) {α : K}
    (hα1 : α ≤ 1) {p r : SVec K} {u : Nat} (hp : p.OK) (hr : r.OK) (hpn : p.rows ≤ s.n)
    (hrn : r.rows ≤ s.n) (hu : u < r.rows) (hru : 0 ≤ r.get u) (hd : 0 < s.deg u) :
    ∃ p' r', push lg α p r u = .ok (p', r') ∧ p'.OK ∧ r'.OK ∧ p'.rows ≤ s.n ∧ r'.rows ≤ s.n ∧
      (∀ j, p'.get j = p.get j + if j = u then α * r.get u else 0) ∧
      r'.get u = (1 - α) / 2 * (r.get u * (1 + (1 - α) / (s.deg u * 2) * s.w u u)) ∧
      (∀ j, j ≠ u → r.get j + (1 - α) / (s.deg u * 2) * s.w u j * r.get u ≤ r'.get j ∧
        r'.get j ≤ r.get j + (1 - α) / (s.deg u * 2) * s.w u j *
          (r.get u * (1 + (1 - α) / (s.deg u * 2) * s.w u u))) ∧
      ∀ j, j ∈ p'.indices ↔ j ∈ p.indices ∨ j = u := by
  have hun : u < s.n := by omega
  have g1 := SVec.grow_ok hp u
  have g2 := p.grow_rows u
  obtain ⟨p1, e1, e2, e3, e4, e5⟩ := SVec.set_spec g1 (i := u) (by omega)
    ((p.grow u).get u + α * r.get u)
  obtain ⟨es, hes, _, hnl⟩ := h.nbrs u hun
  have hmem : ∀ e ∈ es, e.v2 < s.n ∧ e.w = s.w u e.v2 := by
    intro e he
    have := (hnl.2 e.v2 e.w).1 (List.mem_map.2 ⟨e, he, rfl⟩)
    exact ⟨this.1, this.2.1.symm⟩
  have hnd : (es.map Edge.v2).Nodup := by
    have := hnl.1
    rwa [List.map_map] at this
  have hκ0 : 0 ≤ (1 - α) / (s.deg u * 2) := div_nonneg (sub_nonneg.2 hα1) (by linarith)
  have hwt : ∀ j, weightTo es j = s.w u j := by
    intro j
    have h1 := hnl.sum_eq (fun v x => if v = j then x else 0) (by simp)
    rw [List.map_map] at h1
    unfold weightTo
    refine Eq.trans h1 ?_
    rw [Finset.sum_ite_eq']
    split_ifs with hj
    · rfl
    · rw [h.range u j (by simpa using hj)]
  obtain ⟨r1, f1, f2, f3, f4, f5, f6⟩ := pushNbrs_bounds (α := α) (deg := s.deg u) (u := u) (n := s.n)
    rfl hκ0 es (fun e he => (hmem e he).1) (fun e he => (hmem e he).2 ▸ hw u e.v2) hnd r hr hrn hru
  obtain ⟨r2, k1, k2, k3, k4, _⟩ := SVec.set_spec f2 (i := u) (by omega) ((1 - α) * r1.get u / 2)
  simp only [hwt] at f5 f6
  refine ⟨p1, r2, ?_, e2, k2, by omega, by omega, ?_, ?_, ?_, ?_⟩
  · simp only [push, e1, h.deg u hun, hes, f1, k1, Outcome.bind_ok]
  · intro j
    rw [e4, SVec.grow_get hp, SVec.grow_get hp]
    split_ifs with hj
    · rw [hj]
    · rw [add_zero]
  · rw [k4, if_pos rfl, f5]; ring
  · intro j hj
    rw [k4, if_neg hj]
    exact f6 j hj
  · intro j
    rw [e5, SVec.grow_indices hp]

end
end Stag
