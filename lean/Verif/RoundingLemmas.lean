import Verif.Rounding
import Verif.Props.Pagerank

/-!
# Lemmas on rounded arithmetic
-/

set_option linter.unusedSectionVars false

namespace Stag

section
variable {K : Type} [Field K] [LinearOrder K] [IsStrictOrderedRing K]

namespace Rounding

/-- The factor by which one rounding can change a non-negative number, in either direction. -/
def g (R : Rounding K) : K := 1 / (1 - R.u)

/-- `x` and `y` are non-negative and differ by at most the factor `g ^ k`, in either direction. -/
structure Near (R : Rounding K) (k : Nat) (x y : K) : Prop where
  x0 : 0 ≤ x
  y0 : 0 ≤ y
  le : x ≤ R.g ^ k * y
  ge : y ≤ R.g ^ k * x

variable {R : Rounding K}

theorem one_sub_pos : 0 < 1 - R.u := sub_pos.2 R.u1

theorem one_le_g : 1 ≤ R.g := by
  unfold g
  rw [le_div_iff₀ R.one_sub_pos]
  linarith [R.u0]

theorem g_pos : 0 < R.g := lt_of_lt_of_le one_pos one_le_g

theorem g_pow_one_le (k : Nat) : 1 ≤ R.g ^ k := one_le_pow₀ one_le_g

theorem g_pow_pos (k : Nat) : 0 < R.g ^ k := pow_pos g_pos k

theorem fl_zero : R.fl 0 = 0 := by
  have := R.err 0
  simpa using this

theorem fl_nonneg {x : K} (h : 0 ≤ x) : 0 ≤ R.fl x := by
  have := R.mono 0 x h
  rwa [fl_zero] at this

theorem Near.refl {k : Nat} {x : K} (h : 0 ≤ x) : R.Near k x x := by
  have : x ≤ R.g ^ k * x := le_mul_of_one_le_left h (g_pow_one_le k)
  exact ⟨h, h, this, this⟩

theorem Near.mono {k l : Nat} {x y : K} (h : R.Near k x y) (hkl : k ≤ l) : R.Near l x y := by
  have hg : R.g ^ k ≤ R.g ^ l := pow_le_pow_right₀ one_le_g hkl
  exact ⟨h.x0, h.y0, le_trans h.le (mul_le_mul_of_nonneg_right hg h.y0),
    le_trans h.ge (mul_le_mul_of_nonneg_right hg h.x0)⟩

theorem Near.symm {k : Nat} {x y : K} (h : R.Near k x y) : R.Near k y x := ⟨h.y0, h.x0, h.ge, h.le⟩

theorem Near.trans {k l : Nat} {x y z : K} (h : R.Near k x y) (h' : R.Near l y z) :
    R.Near (k + l) x z := by
  refine ⟨h.x0, h'.y0, ?_, ?_⟩
  · rw [pow_add, mul_assoc]
    exact le_trans h.le (mul_le_mul_of_nonneg_left h'.le (g_pow_pos k).le)
  · rw [pow_add, mul_comm (R.g ^ k), mul_assoc]
    exact le_trans h'.ge (mul_le_mul_of_nonneg_left h.ge (g_pow_pos l).le)

theorem near_fl {x : K} (h : 0 ≤ x) : R.Near 1 (R.fl x) x := by
  have he := R.err x
  rw [abs_of_nonneg h, abs_le] at he
  have hu := R.one_sub_pos
  refine ⟨fl_nonneg h, h, ?_, ?_⟩
  · rw [pow_one]
    unfold g
    rw [div_mul_eq_mul_div, one_mul, le_div_iff₀ hu]
    have h1 : R.fl x * (1 - R.u) ≤ ((1 + R.u) * x) * (1 - R.u) :=
      mul_le_mul_of_nonneg_right (by linarith [he.2]) hu.le
    have h2 : ((1 + R.u) * x) * (1 - R.u) = x - R.u * R.u * x := by ring
    have h3 : 0 ≤ R.u * R.u * x := mul_nonneg (mul_self_nonneg _) h
    linarith
  · rw [pow_one]
    unfold g
    rw [div_mul_eq_mul_div, one_mul, le_div_iff₀ hu]
    linarith [he.1]

/-- One more rounding. -/
theorem Near.fl {k : Nat} {x y : K} (h : R.Near k x y) : R.Near (k + 1) (R.fl x) y := by
  have := (near_fl (R := R) h.x0).trans h
  rwa [Nat.add_comm] at this

theorem Near.mul {k l : Nat} {x y a b : K} (h : R.Near k x y) (h' : R.Near l a b) :
    R.Near (k + l) (x * a) (y * b) := by
  refine ⟨mul_nonneg h.x0 h'.x0, mul_nonneg h.y0 h'.y0, ?_, ?_⟩
  · calc x * a ≤ (R.g ^ k * y) * (R.g ^ l * b) :=
        mul_le_mul h.le h'.le h'.x0 (mul_nonneg (g_pow_pos k).le h.y0)
      _ = R.g ^ (k + l) * (y * b) := by rw [pow_add]; ring
  · calc y * b ≤ (R.g ^ k * x) * (R.g ^ l * a) :=
        mul_le_mul h.ge h'.ge h'.y0 (mul_nonneg (g_pow_pos k).le h.x0)
      _ = R.g ^ (k + l) * (x * a) := by rw [pow_add]; ring

theorem Near.pos {k : Nat} {x y : K} (h : R.Near k x y) (hy : 0 < y) : 0 < x := by
  by_contra hc
  have hx : x = 0 := le_antisymm (not_lt.1 hc) h.x0
  have := h.ge
  rw [hx, mul_zero] at this
  linarith

theorem Near.eq_zero {k : Nat} {x y : K} (h : R.Near k x y) (hy : y = 0) : x = 0 := by
  have := h.le
  rw [hy, mul_zero] at this
  exact le_antisymm this h.x0

theorem Near.inv {k : Nat} {x y : K} (h : R.Near k x y) : R.Near k x⁻¹ y⁻¹ := by
  rcases lt_or_eq_of_le h.y0 with hy | hy
  · have hx := h.pos hy
    have hg := g_pow_pos (R := R) k
    refine ⟨inv_nonneg.2 hx.le, inv_nonneg.2 hy.le, ?_, ?_⟩
    · rw [← div_eq_mul_inv, le_div_iff₀ hy, mul_comm, ← div_eq_mul_inv, div_le_iff₀ hx]
      exact h.ge
    · rw [← div_eq_mul_inv, le_div_iff₀ hx, mul_comm, ← div_eq_mul_inv, div_le_iff₀ hy]
      exact h.le
  · have hx := h.eq_zero hy.symm
    rw [hx, ← hy]
    simpa using Near.refl (R := R) (k := k) (le_refl (0 : K))

theorem Near.div {k l : Nat} {x y a b : K} (h : R.Near k x y) (h' : R.Near l a b) :
    R.Near (k + l) (x / a) (y / b) := by
  rw [div_eq_mul_inv, div_eq_mul_inv]
  exact h.mul h'.inv

theorem Near.add {k : Nat} {x y a b : K} (h : R.Near k x y) (h' : R.Near k a b) :
    R.Near k (x + a) (y + b) :=
  ⟨add_nonneg h.x0 h'.x0, add_nonneg h.y0 h'.y0, by rw [mul_add]; exact add_le_add h.le h'.le,
    by rw [mul_add]; exact add_le_add h.ge h'.ge⟩

theorem Near.abs_sub {k : Nat} {x y : K} (h : R.Near k x y) : |x - y| ≤ (R.g ^ k - 1) * y := by
  have h1 := g_pow_one_le (R := R) k
  rw [abs_le]
  constructor
  · have h2 := h.ge
    have h3 := mul_le_mul_of_nonneg_left h.ge (sub_nonneg.2 h1)
    have h4 : y - x ≤ (R.g ^ k - 1) * x := by linarith
    rcases le_total x y with hxy | hxy
    · have := mul_le_mul_of_nonneg_left hxy (sub_nonneg.2 h1)
      linarith
    · have := mul_nonneg (sub_nonneg.2 h1) h.y0
      linarith
  · linarith [h.le]

/-- A rounded sum of non-negative numbers. -/
theorem sumFl_near (xs : List K) (hx : ∀ x ∈ xs, 0 ≤ x) : ∀ {k : Nat} {acc ac : K},
    R.Near k acc ac → R.Near (k + xs.length) (sumFl R.fl xs acc) (ac + xs.sum) := by
  induction xs with
  | nil => intro k acc ac h; simpa [sumFl] using h
  | cons x xs ih =>
    intro k acc ac h
    have h1 := (h.add (Near.refl (k := k) (hx x (by simp)))).fl
    have h2 := ih (fun y hy => hx y (by simp [hy])) h1
    rw [List.length_cons, List.sum_cons, ← add_assoc ac]
    unfold sumFl
    have e : k + 1 + xs.length = k + (xs.length + 1) := by omega
    rwa [e] at h2

end Rounding

/-! ## One push in exact arithmetic -/

/-- `p` after an exact push at `u`. -/
def pushP (α : K) (p r : Nat → K) (u j : Nat) : K := p j + if j = u then α * r u else 0

/-- `r` after an exact push at `u`. -/
def pushR (s : WGraph K) (α : K) (r : Nat → K) (u j : Nat) : K :=
  if j = u then (1 - α) * r u / 2 else r j + (1 - α) * (r u * s.w u j / (2 * s.deg u))

/-- The quantity which pushes preserve. -/
def prForm (s : WGraph K) (α : K) (p r : Nat → K) (v : Nat) : K :=
  p v + α * r v - (1 - α) * s.lazyStep p v

theorem prForm_push {s : WGraph K} (hl : ∀ v, s.w v v = 0) (α : K) (p r : Nat → K) {u : Nat}
    (hu : u < s.n) (v : Nat) :
    prForm s α (pushP α p r u) (pushR s α r u) v = prForm s α p r v := by
  have e : pushP α p r u = fun j => p j + (if j = u then α * r u else 0) := rfl
  unfold prForm
  rw [e, lazyStep_add s p, lazyStep_single s hu]
  unfold pushR
  by_cases hvu : v = u
  · subst hvu
    simp only [if_true, hl]
    ring
  · simp only [if_neg hvu]
    ring

theorem lazyStep_sub (s : WGraph K) (x y : Nat → K) (v : Nat) :
    s.lazyStep (fun j => x j - y j) v = s.lazyStep x v - s.lazyStep y v := by
  have e : (fun j => x j - y j) = fun j => x j + - y j := by funext j; ring
  rw [e, lazyStep_add s x (fun j => - y j), lazyStep_neg]
  ring

theorem prForm_sub (s : WGraph K) (α : K) (p r a b : Nat → K) (v : Nat) :
    prForm s α (fun j => p j - a j) (fun j => r j - b j) v =
      prForm s α p r v - prForm s α a b v := by
  unfold prForm
  rw [lazyStep_sub]
  ring

theorem mass_pushP {s : WGraph K} (α : K) (p r : Nat → K) {u : Nat} (hu : u < s.n) :
    s.mass (pushP α p r u) = s.mass p + α * r u := by
  unfold WGraph.mass pushP
  rw [Finset.sum_add_distrib, Finset.sum_ite_eq', if_pos (Finset.mem_range.2 hu)]

theorem mass_pushR {s : WGraph K} (hl : ∀ v, s.w v v = 0) (α : K) (r : Nat → K) {u : Nat}
    (hu : u < s.n) (hd : 0 < s.deg u) : s.mass (pushR s α r u) = s.mass r - α * r u := by
  have hrow : ∑ v ∈ Finset.range s.n, s.w u v = s.deg u := by
    unfold WGraph.deg; rw [hl, add_zero]
  have e1 : ∀ j ∈ Finset.range s.n, pushR s α r u j = (r j +
      (if j = u then (1 - α) * r u / 2 - r u else 0)) +
      ((1 - α) * r u / (2 * s.deg u)) * s.w u j := by
    intro j _
    unfold pushR
    by_cases hj : j = u
    · rw [if_pos hj, if_pos hj, hj, hl]; ring
    · rw [if_neg hj, if_neg hj]; ring
  unfold WGraph.mass
  rw [Finset.sum_congr rfl e1, Finset.sum_add_distrib, Finset.sum_add_distrib,
    Finset.sum_ite_eq', if_pos (Finset.mem_range.2 hu), ← Finset.mul_sum, hrow]
  have hne : s.deg u ≠ 0 := hd.ne'
  field_simp
  ring

/-! ## The rounded functions -/

/-- The object `lg` answers queries as the undirected weighted graph `s` prescribes, except that it
reports the degree `D v` for the vertex `v`. -/
structure LGraph.AnswersFl (lg : LGraph K) (s : WGraph K) (D : Nat → K) : Prop where
  symm : ∀ u v, s.w u v = s.w v u
  range : ∀ u v, s.n ≤ v → s.w u v = 0
  nbrs : ∀ v : Nat, v < s.n → ∃ es, lg.neighbors (v : Int) = .ok es ∧
    (∀ e ∈ es, e.v1 = v) ∧ NeighborList s v (es.map (fun e => (e.v2, e.w)))
  deg : ∀ v : Nat, v < s.n → lg.degree (v : Int) = .ok (D v)
  exist : ∀ v : Int, 0 ≤ v → lg.vertexExists v = decide (v < (s.n : Int))
  nbrsU : ∀ (v : Nat) es, v < s.n → lg.neighbors (v : Int) = .ok es →
    lg.neighborsUnweighted (v : Int) = .ok (es.map Edge.v2)

theorem LGraph.AnswersAll.toFl {lg : LGraph K} {s : WGraph K} (h : lg.AnswersAll s) :
    lg.AnswersFl s s.deg := ⟨h.symm, h.range, h.nbrs, h.deg, h.exist, h.nbrsU⟩

theorem LGraph.AnswersFl.degrees {lg : LGraph K} {s : WGraph K} {D : Nat → K}
    (h : lg.AnswersFl s D) {vs : List Nat}
    (hv : ∀ v ∈ vs, v < s.n) : lg.degrees vs = .ok (vs.map D) :=
  Outcome.mapM'_total _ (fun v hm => h.deg v (hv v hm))

theorem pushNbrsFl_spec (fl : K → K) (α deg : K) {u n : Nat} (es : List (Edge K))
    (hes : ∀ e ∈ es, e.v2 ≠ u ∧ e.v2 < n) (hnd : (es.map Edge.v2).Nodup) :
    ∀ r : SVec K, r.OK → r.rows ≤ n → ∃ r', pushNbrsFl fl α deg u es r = .ok r' ∧ r'.OK ∧
      r.rows ≤ r'.rows ∧ r'.rows ≤ n ∧
      (∀ j, j ∉ es.map Edge.v2 → r'.get j = r.get j) ∧
      (∀ e ∈ es, r'.get e.v2 = fl (r.get e.v2 +
        fl (fl (fl (fl (1 - α) * e.w) * r.get u) / fl (deg * 2)))) := by
  induction es with
  | nil => intro r h1 h2; exact ⟨r, rfl, h1, le_refl _, h2, by simp, by simp⟩
  | cons e es ih =>
    intro r h1 h2
    rw [List.map_cons, List.nodup_cons] at hnd
    obtain ⟨hne, hlt⟩ := hes e (by simp)
    have g1 := SVec.grow_ok h1 e.v2
    have g2 := r.grow_rows e.v2
    obtain ⟨r1, e1, e2, e3, e4, _⟩ := SVec.set_spec g1 (i := e.v2) (by omega)
      (fl ((r.grow e.v2).get e.v2 +
        fl (fl (fl (fl (1 - α) * e.w) * (r.grow e.v2).get u) / fl (deg * 2))))
    obtain ⟨r2, f1, f2, f3, f4, f5, f6⟩ := ih (fun x hx => hes x (by simp [hx])) hnd.2 r1 e2
      (by omega)
    have hu : r1.get u = r.get u := by
      rw [e4, if_neg (Ne.symm hne), SVec.grow_get h1]
    refine ⟨r2, ?_, f2, by omega, f4, ?_, ?_⟩
    · simp only [pushNbrsFl, e1, Outcome.bind_ok, f1]
    · intro j hj
      rw [List.map_cons, List.mem_cons, not_or] at hj
      rw [f5 j hj.2, e4, if_neg hj.1, SVec.grow_get h1]
    · intro e' he'
      rcases List.mem_cons.1 he' with rfl | he'
      · rw [f5 _ hnd.1, e4, if_pos rfl, SVec.grow_get h1, SVec.grow_get h1]
      · have hne' : e'.v2 ≠ e.v2 := by
          intro hc
          exact hnd.1 (hc ▸ List.mem_map.2 ⟨e', he', rfl⟩)
        rw [f6 e' he', hu, e4, if_neg hne', SVec.grow_get h1]

theorem pushFl_spec {lg : LGraph K} {s : WGraph K} {D : Nat → K} (h : lg.AnswersFl s D)
    (hl : ∀ v, s.w v v = 0) (fl : K → K) (α : K)
    {p r : SVec K} {u : Nat} (hp : p.OK) (hr : r.OK) (hpn : p.rows ≤ s.n) (hrn : r.rows ≤ s.n)
    (hu : u < r.rows) :
    ∃ p' r', pushFl fl lg α p r u = .ok (p', r') ∧ p'.OK ∧ r'.OK ∧ p'.rows ≤ s.n ∧ r'.rows ≤ s.n ∧
      (∀ j, p'.get j = if j = u then fl (p.get u + fl (α * r.get u)) else p.get j) ∧
      (∀ j, r'.get j = if j = u then fl (fl (fl (1 - α) * r.get u) / 2)
        else if s.w u j = 0 then r.get j
        else fl (r.get j + fl (fl (fl (fl (1 - α) * s.w u j) * r.get u) / fl (D u * 2)))) ∧
      ∀ j, j ∈ p'.indices ↔ j ∈ p.indices ∨ j = u := by
  have hun : u < s.n := by omega
  have g1 := SVec.grow_ok hp u
  have g2 := p.grow_rows u
  obtain ⟨p1, e1, e2, e3, e4, e5⟩ := SVec.set_spec g1 (i := u) (by omega)
    (fl ((p.grow u).get u + fl (α * r.get u)))
  obtain ⟨es, hes, _, hnl⟩ := h.nbrs u hun
  have hb : ∀ e ∈ es, e.v2 ≠ u ∧ e.v2 < s.n ∧ e.w = s.w u e.v2 ∧ s.w u e.v2 ≠ 0 := by
    intro e he
    have := (hnl.2 e.v2 e.w).1 (List.mem_map.2 ⟨e, he, rfl⟩)
    refine ⟨?_, this.1, this.2.1.symm, this.2.1 ▸ this.2.2⟩
    intro hc
    rw [hc, hl] at this
    exact this.2.2 this.2.1.symm
  have hnd : (es.map Edge.v2).Nodup := by
    have := hnl.1
    rwa [List.map_map] at this
  obtain ⟨r1, f1, f2, f3, f4, f5, f6⟩ := pushNbrsFl_spec fl α (D u) es
    (fun e he => ⟨(hb e he).1, (hb e he).2.1⟩) hnd r hr hrn
  obtain ⟨r2, k1, k2, k3, k4, _⟩ := SVec.set_spec f2 (i := u) (by omega)
    (fl (fl (fl (1 - α) * r1.get u) / 2))
  have huu : r1.get u = r.get u := by
    apply f5
    intro hc
    obtain ⟨e, he, hc⟩ := List.mem_map.1 hc
    exact (hb e he).1 hc
  refine ⟨p1, r2, ?_, e2, k2, by omega, by omega, ?_, ?_, ?_⟩
  · simp only [pushFl, e1, h.deg u hun, hes, f1, k1, Outcome.bind_ok]
  · intro j
    rw [e4, SVec.grow_get hp, SVec.grow_get hp]
  · intro j
    rw [k4, huu]
    by_cases hj : j = u
    · rw [if_pos hj, if_pos hj]
    · rw [if_neg hj, if_neg hj]
      by_cases hw : s.w u j = 0
      · rw [if_pos hw]
        apply f5
        intro hc
        obtain ⟨e, he, hc⟩ := List.mem_map.1 hc
        exact (hb e he).2.2.2 (hc ▸ hw)
      · rw [if_neg hw]
        have hjn : j < s.n := by
          by_contra hc
          exact hw (h.range u j (not_lt.1 hc))
        obtain ⟨e, he, heq⟩ := List.mem_map.1 ((hnl.2 j (s.w u j)).2 ⟨hjn, rfl, hw⟩)
        rw [Prod.mk.injEq] at heq
        have := f6 e he
        rw [heq.1, heq.2] at this
        exact this
  · intro j
    rw [e5, SVec.grow_indices hp]

theorem aprInitQueueFl_spec (fl : K → K) (ε : K) (r : SVec K) (f : Nat → K) (us : List Nat)
    (hn : us.Nodup) :
    ∃ q, aprInitQueueFl fl ε r us (us.map f) = .ok q ∧ q.Nodup ∧
      ∀ v, v ∈ q ↔ v ∈ us ∧ fl (ε * f v) ≤ r.get v ∧ f v ≠ 0 := by
  induction us with
  | nil => exact ⟨[], rfl, List.nodup_nil, by simp⟩
  | cons u us ih =>
    rw [List.nodup_cons] at hn
    obtain ⟨q, h1, h2, h3⟩ := ih hn.2
    refine ⟨if fl (ε * f u) ≤ r.get u ∧ f u ≠ 0 then u :: q else q, ?_, ?_, ?_⟩
    · simp only [List.map_cons, aprInitQueueFl, h1, Outcome.bind_ok]
    · split_ifs with hc
      · exact List.nodup_cons.2 ⟨fun hm => hn.1 ((h3 u).1 hm).1, h2⟩
      · exact h2
    · intro v
      rw [List.mem_cons]
      split_ifs with hc
      · rw [List.mem_cons, h3]
        constructor
        · rintro (rfl | h)
          · exact ⟨Or.inl rfl, hc⟩
          · exact ⟨Or.inr h.1, h.2⟩
        · rintro ⟨rfl | h, h'⟩
          · exact Or.inl rfl
          · exact Or.inr ⟨h, h'⟩
      · rw [h3]
        constructor
        · exact fun h => ⟨Or.inr h.1, h.2⟩
        · rintro ⟨rfl | h, h'⟩
          · exact absurd h' hc
          · exact ⟨h, h'⟩

theorem aprQueueNbrsFl_eq (fl : K → K) (ε : K) (r : SVec K) (es : List (Edge K)) :
    ∀ (ds : List K) (s : List Nat × List Nat), aprQueueNbrsFl fl ε r es ds s =
      aprQueueNbrs 1 r es (ds.map (fun d => fl (ε * d))) s := by
  induction es with
  | nil => intro ds s; rfl
  | cons e es ih =>
    intro ds s
    obtain ⟨q, m⟩ := s
    cases ds with
    | nil => rfl
    | cons d ds =>
      simp only [List.map_cons, aprQueueNbrsFl, aprQueueNbrs, one_mul]
      split_ifs <;> exact ih _ _

theorem aprQueueNbrsFl_spec (fl : K → K) (ε : K) (r : SVec K) (f : Nat → K) (es : List (Edge K))
    (q m : List Nat) (h1 : q.Nodup) (h2 : ∀ x, x ∈ m ↔ x ∈ q) :
    ∃ q' m', aprQueueNbrsFl fl ε r es (es.map (fun e => f e.v2)) (q, m) = .ok (q', m') ∧ q'.Nodup ∧
      (∀ x, x ∈ m' ↔ x ∈ q') ∧
      ∀ x, x ∈ q' ↔ x ∈ q ∨ (x ∈ es.map Edge.v2 ∧ fl (ε * f x) ≤ r.get x) := by
  have := aprQueueNbrs_spec 1 r (fun v => fl (ε * f v)) es q m h1 h2
  rw [aprQueueNbrsFl_eq, List.map_map]
  simp only [one_mul] at this
  exact this

end
end Stag
