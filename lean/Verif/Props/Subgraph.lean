import Verif.Props.GraphOps
import Verif.Props.Mutate

/-! # C15: induced subgraphs -/

set_option linter.unusedSectionVars false
set_option linter.unusedSimpArgs false

namespace Stag
open Graph

theorem Outcome.mapM'_throw {α β : Type} {f : α → Outcome β} {e : Exn} {l : List α}
    (h : ∀ a ∈ l, (∃ b, f a = .ok b) ∨ f a = .throw e) (hex : ∃ a ∈ l, f a = .throw e) :
    Outcome.mapM' f l = .throw e := by
  induction l with
  | nil => simp at hex
  | cons a l ih =>
    simp only [Outcome.mapM']
    rcases h a (by simp) with ⟨b, hb⟩ | hb
    · rw [hb, Outcome.bind_ok, ih (fun c hc => h c (by simp [hc]))]
      · rfl
      · obtain ⟨c, hc, hce⟩ := hex
        rcases List.mem_cons.1 hc with rfl | hc
        · rw [hb] at hce; cases hce
        · exact ⟨c, hc, hce⟩
    · rw [hb]; rfl

theorem mem_firstOccurrences (l : List Int) (v : Int) : v ∈ firstOccurrences l ↔ v ∈ l := by
  induction l with
  | nil => simp [firstOccurrences]
  | cons a l ih =>
    simp only [firstOccurrences, List.mem_cons, List.mem_filter, ih, decide_eq_true_eq]
    by_cases h : v = a <;> simp [h]

theorem pairwise_firstOccurrences (l : List Int) :
    (firstOccurrences l).Pairwise (fun u v => l.idxOf u < l.idxOf v) := by
  induction l with
  | nil => simp [firstOccurrences]
  | cons a l ih =>
    simp only [firstOccurrences, List.pairwise_cons]
    constructor
    · intro u hu
      have hne : u ≠ a := by simpa using (List.mem_filter.1 hu).2
      rw [List.idxOf_cons_self, List.idxOf_cons_ne _ (Ne.symm hne)]
      omega
    · refine (ih.filter _).imp_of_mem ?_
      intro u v hu hv h
      have hu : u ≠ a := by simpa using (List.mem_filter.1 hu).2
      have hv : v ≠ a := by simpa using (List.mem_filter.1 hv).2
      rw [List.idxOf_cons_ne _ (Ne.symm hu), List.idxOf_cons_ne _ (Ne.symm hv)]
      omega

theorem idxOf_map_cast (vs : List Nat) (v : Nat) :
    (vs.map (fun x : Nat => (x : Int))).idxOf (v : Int) = vs.idxOf v := by
  induction vs with
  | nil => rfl
  | cons a l ih =>
    by_cases h : a = v
    · subst h; simp
    · rw [List.map_cons, List.idxOf_cons_ne _ (by simpa using h), List.idxOf_cons_ne _ h, ih]

variable {K : Type} [Field K] [LinearOrder K] [IsStrictOrderedRing K]

/-- C15.  `subgraph(vs)` on existing vertices, whatever the iteration order of the hash set:
the vertices are the distinct elements of `vs` (`ids`) in order of first
occurrence in `vs`, and the result is the subgraph they induce. -/
theorem C15_subgraph {g : Graph K} (hg : g.Valid) (pg : g.Pruned) (vs : List Nat)
    (hin : ∀ v ∈ vs, v < g.n) (order : List Int)
    (hord : order.Perm (firstOccurrences (vs.map (fun v : Nat => (v : Int))))) :
    ∃ (s : Graph K) (ids : List Nat),
      (∀ v, v ∈ ids ↔ v ∈ vs) ∧ ids.Pairwise (fun u v => vs.idxOf u < vs.idxOf v) ∧
      g.subgraph (vs.map (fun v : Nat => (v : Int))) order = .ok s ∧ s.Valid ∧ s.Pruned ∧
      s.abs = g.abs.induced ids := by
  set idsI := firstOccurrences (vs.map (fun v : Nat => (v : Int))) with hidsI
  set ids := idsI.map Int.toNat with hids
  have hmemI : ∀ z, z ∈ idsI ↔ ∃ v ∈ vs, (v : Int) = z := by
    intro z; rw [hidsI, mem_firstOccurrences, List.mem_map]
  have hcast : idsI = ids.map (fun v : Nat => (v : Int)) := by
    rw [hids, List.map_map]
    conv_lhs => rw [← List.map_id idsI]
    apply List.map_congr_left
    intro z hz
    obtain ⟨v, _, rfl⟩ := (hmemI z).1 hz
    simp
  have hmem : ∀ v, v ∈ ids ↔ v ∈ vs := by
    intro v
    rw [hids, List.mem_map]
    constructor
    · rintro ⟨z, hz, rfl⟩
      obtain ⟨u, hu, rfl⟩ := (hmemI z).1 hz
      simpa using hu
    · intro h
      exact ⟨(v : Int), (hmemI _).2 ⟨v, h, rfl⟩, by simp⟩
  have hmemI' : ∀ v : Nat, (v : Int) ∈ idsI ↔ v ∈ ids := by
    intro v
    rw [hmemI, hmem]
    constructor
    · rintro ⟨u, hu, h⟩
      have : u = v := by exact_mod_cast h
      rwa [this] at hu
    · intro h; exact ⟨v, h, rfl⟩
  have hpw : ids.Pairwise (fun u v => vs.idxOf u < vs.idxOf v) := by
    have h := pairwise_firstOccurrences (vs.map (fun v : Nat => (v : Int)))
    rw [← hidsI, hcast, List.pairwise_map] at h
    exact h.imp (by intro u v h; simpa only [idxOf_map_cast] using h)
  have hnd : ids.Nodup := hpw.imp (by intro u v h he; subst he; omega)
  have hidx : ∀ v : Nat, idsI.idxOf (v : Int) = ids.idxOf v := by
    intro v; rw [hcast, idxOf_map_cast]
  have hlen : idsI.length = ids.length := by rw [hids, List.length_map]
  have hrange : ∀ v ∈ ids, v < g.n := fun v hv => hin v ((hmem v).1 hv)
  -- the triplets of one vertex
  set ent : Int → List (Triplet K) := fun z =>
    (((g.adj.col z.toNat).filter (fun e => decide (e.2 ≠ 0))).map
      (fun e => (⟨z.toNat, e.1, e.2⟩ : Edge K))).flatMap (fun e =>
        if z ≤ (e.v2 : Int) ∧ (e.v2 : Int) ∈ idsI then
          ⟨idsI.idxOf z, idsI.idxOf (e.v2 : Int), e.w⟩ ::
            (if z < (e.v2 : Int) then [⟨idsI.idxOf (e.v2 : Int), idsI.idxOf z, e.w⟩] else [])
        else []) with hent
  have hentOk : ∀ z ∈ order, g.subgraphEntries idsI z = .ok (ent z) := by
    intro z hz
    have hz' := hord.subset hz
    obtain ⟨v, hv, rfl⟩ := (hmemI z).1 hz'
    have hvn := hin v hv
    unfold subgraphEntries neighbors degreeUnweighted
    rw [checkVertex_ok hvn]
    simp [hent]
  set l := (order.map ent).flatten with hl
  have hlin : ∀ t ∈ l, t.row < ids.length ∧ t.col < ids.length := by
    intro t ht
    rw [hl, List.mem_flatten] at ht
    obtain ⟨ts, hts, ht⟩ := ht
    obtain ⟨z, hz, rfl⟩ := List.mem_map.1 hts
    have hz' := hord.subset hz
    have hzl : idsI.idxOf z < ids.length := by rw [← hlen]; exact List.idxOf_lt_length_iff.2 hz'
    simp only [hent, List.mem_flatMap] at ht
    obtain ⟨e, _, ht⟩ := ht
    split_ifs at ht with h1 h2
    · have hul : idsI.idxOf (e.v2 : Int) < ids.length := by
        rw [← hlen]; exact List.idxOf_lt_length_iff.2 h1.2
      simp only [List.mem_cons, List.not_mem_nil, or_false] at ht
      rcases ht with rfl | rfl
      · exact ⟨hzl, hul⟩
      · exact ⟨hul, hzl⟩
    · have hul : idsI.idxOf (e.v2 : Int) < ids.length := by
        rw [← hlen]; exact List.idxOf_lt_length_iff.2 h1.2
      simp only [List.mem_cons, List.not_mem_nil, or_false] at ht
      subst ht
      exact ⟨hzl, hul⟩
    · simp at ht
  have hsum : ∀ a b, a < ids.length → b < ids.length →
      SprsMat.tripletSum l a b = g.adj.coeff (ids.getD a 0) (ids.getD b 0) := by
    intro a b ha hb
    set x := ids.getD a 0 with hx
    set y := ids.getD b 0 with hy
    have hxg : x = ids[a] := by rw [hx, List.getD_eq_getElem _ _ ha]
    have hyg : y = ids[b] := by rw [hy, List.getD_eq_getElem _ _ hb]
    have hxm : x ∈ ids := by rw [hxg]; exact List.getElem_mem ha
    have hym : y ∈ ids := by rw [hyg]; exact List.getElem_mem hb
    have hixa : ∀ u ∈ ids, (ids.idxOf u = a ↔ u = x) := by
      intro u hu
      constructor
      · intro h
        have := List.getElem_idxOf (List.idxOf_lt_length_iff.2 hu)
        rw [hxg, ← this]
        congr 1
      · rintro rfl
        rw [hxg]; exact List.Nodup.idxOf_getElem hnd a ha
    have hixb : ∀ u ∈ ids, (ids.idxOf u = b ↔ u = y) := by
      intro u hu
      constructor
      · intro h
        have := List.getElem_idxOf (List.idxOf_lt_length_iff.2 hu)
        rw [hyg, ← this]
        congr 1
      · rintro rfl
        rw [hyg]; exact List.Nodup.idxOf_getElem hnd b hb
    -- contribution of one vertex
    have hone : ∀ v ∈ ids, SprsMat.tripletSum (ent (v : Int)) a b =
        if v = min x y then g.adj.coeff x y else 0 := by
      intro v hv
      set F : Nat → K → K := fun u w =>
        (if v = x ∧ u = y ∧ x ≤ y then w else 0) + (if v = y ∧ u = x ∧ y < x then w else 0) with hF
      have hF0 : ∀ u, F u 0 = 0 := by intro u; simp [hF]
      have h1 : SprsMat.tripletSum (ent (v : Int)) a b =
          (((g.adj.col v).filter (fun e => decide (e.2 ≠ 0))).map (fun e => F e.1 e.2)).sum := by
        simp only [hent]
        rw [SprsMat.tripletSum_flatMap, List.map_map]
        congr 1
        apply List.map_congr_left
        intro e _
        simp only [Function.comp_apply, hmemI', Nat.cast_le, Nat.cast_lt, hidx, hF]
        by_cases hu : e.1 ∈ ids
        · have a1 := hixa v hv
          have a2 := hixb v hv
          have a3 := hixa e.1 hu
          have a4 := hixb e.1 hu
          by_cases hle : v ≤ e.1
          · rw [if_pos ⟨hle, hu⟩]
            by_cases hlt : v < e.1
            · rw [if_pos hlt]
              simp only [SprsMat.tripletSum_cons, SprsMat.tripletSum_nil, add_zero, a1, a2, a3, a4]
              congr 1
              · apply if_congr _ rfl rfl
                constructor
                · rintro ⟨p, q⟩; exact ⟨p, q, by omega⟩
                · rintro ⟨p, q, _⟩; exact ⟨p, q⟩
              · apply if_congr _ rfl rfl
                constructor
                · rintro ⟨p, q⟩; exact ⟨q, p, by omega⟩
                · rintro ⟨p, q, _⟩; exact ⟨q, p⟩
            · rw [if_neg hlt]
              simp only [SprsMat.tripletSum_cons, SprsMat.tripletSum_nil, add_zero, a1, a2, a3, a4]
              rw [if_neg (show ¬ (v = y ∧ e.1 = x ∧ y < x) by omega), add_zero]
              apply if_congr _ rfl rfl
              constructor
              · rintro ⟨p, q⟩; exact ⟨p, q, by omega⟩
              · rintro ⟨p, q, _⟩; exact ⟨p, q⟩
          · rw [if_neg (by omega), SprsMat.tripletSum_nil,
              if_neg (show ¬ (v = x ∧ e.1 = y ∧ x ≤ y) by omega),
              if_neg (show ¬ (v = y ∧ e.1 = x ∧ y < x) by omega), add_zero]
        · have b1 : ¬ (v = x ∧ e.1 = y ∧ x ≤ y) := by
            rintro ⟨_, h, _⟩; rw [h] at hu; exact hu hym
          have b2 : ¬ (v = y ∧ e.1 = x ∧ y < x) := by
            rintro ⟨_, h, _⟩; rw [h] at hu; exact hu hxm
          rw [if_neg (fun h => hu h.2), SprsMat.tripletSum_nil, if_neg b1, if_neg b2, add_zero]
      have h2 : (((g.adj.col v).filter (fun e => decide (e.2 ≠ 0))).map (fun e => F e.1 e.2)).sum =
          ((g.adj.col v).map (fun e => F e.1 e.2)).sum := by
        generalize g.adj.col v = c
        induction c with
        | nil => rfl
        | cons e c ih =>
          rw [List.filter_cons]
          by_cases he : e.2 = 0
          · rw [if_neg (by simp [he]), ih, List.map_cons, List.sum_cons, he, hF0, zero_add]
          · rw [if_pos (by simp [he]), List.map_cons, List.map_cons, List.sum_cons, List.sum_cons,
              ih]
      rw [h1, h2, Col.sum_map_eq (hg.wf.sorted v) (fun e he => hg.wf.row_lt he) F hF0, hg.rows]
      simp only [hF]
      rw [Finset.sum_add_distrib]
      have hxn := hrange x hxm
      have hyn := hrange y hym
      have s1 : (∑ u ∈ Finset.range g.n, if v = x ∧ u = y ∧ x ≤ y then
          Col.coeff (g.adj.col v) u else 0) = if v = x ∧ x ≤ y then g.adj.coeff x y else 0 := by
        split_ifs with h
        · rw [Finset.sum_eq_single y]
          · rw [if_pos (by omega), h.1]
            exact hg.symm y x
          · intro k _ hk; rw [if_neg (by omega)]
          · intro hh; exact absurd (Finset.mem_range.2 hyn) hh
        · apply Finset.sum_eq_zero
          intro k _; rw [if_neg (by omega)]
      have s2 : (∑ u ∈ Finset.range g.n, if v = y ∧ u = x ∧ y < x then
          Col.coeff (g.adj.col v) u else 0) = if v = y ∧ y < x then g.adj.coeff x y else 0 := by
        split_ifs with h
        · rw [Finset.sum_eq_single x]
          · rw [if_pos (by omega), h.1]; rfl
          · intro k _ hk; rw [if_neg (by omega)]
          · intro hh; exact absurd (Finset.mem_range.2 hxn) hh
        · apply Finset.sum_eq_zero
          intro k _; rw [if_neg (by omega)]
      rw [s1, s2]
      rcases Nat.lt_or_ge y x with h | h
      · rw [if_neg (by omega), zero_add, min_eq_right h.le]
        apply if_congr _ rfl rfl
        omega
      · rw [if_neg (show ¬ (v = y ∧ y < x) by omega), add_zero, min_eq_left h]
        apply if_congr _ rfl rfl
        omega
    have hperm : l.Perm ((idsI.map ent).flatten) := (hord.map ent).flatten
    rw [SprsMat.tripletSum_perm hperm, hcast, List.map_map, ← List.flatMap_def,
      SprsMat.tripletSum_flatMap]
    simp only [Function.comp_apply]
    rw [List.map_congr_left (g := fun v => if v = min x y then g.adj.coeff x y else 0)
      (fun v hv => hone v hv)]
    have hmn : min x y ∈ ids := by
      rcases Nat.le_total x y with h | h
      · rw [min_eq_left h]; exact hxm
      · rw [min_eq_right h]; exact hym
    exact sum_ite_nodup hnd hmn _
  obtain ⟨m, hm, hw, hr, hc, hmc, _⟩ := SprsMat.setFromTriplets_spec hlin
  have hco : ∀ i j, m.coeff i j = (g.abs.induced ids).w i j := by
    intro i j
    simp only [WGraph.induced]
    split_ifs with h
    · rw [hmc, hsum i j h.1 h.2]; rfl
    · by_cases hi : i < ids.length
      · exact hw.coeff_of_cols_le (by omega) i
      · exact hw.coeff_of_rows_le (by omega) j
  have hcP : ∀ i j, m.coeff i j = 0 ∨ epsilon < m.coeff i j := by
    intro i j
    rw [hco]
    simp only [WGraph.induced]
    split_ifs
    · exact pg.coeff _ _
    · exact Or.inl rfl
  obtain ⟨s, hs, sv, _, sn, sc, sp⟩ := ofMatrix_nonneg hw (by omega)
    (fun i j => by
      rcases hcP i j with h | h
      · rw [h]
      · exact le_trans epsilon_pos.le h.le)
    (fun i j => by
      rw [hco, hco]
      simp only [WGraph.induced]
      rw [show g.abs.w (ids.getD i 0) (ids.getD j 0) = g.abs.w (ids.getD j 0) (ids.getD i 0) from
        hg.symm _ _]
      simp only [and_comm])
  refine ⟨s, ids, hmem, hpw, ?_, sv, sp, ?_⟩
  · unfold subgraph
    simp only
    rw [← hidsI, Outcome.mapM'_total ent hentOk, Outcome.bind_ok, hlen, hm]
    exact hs
  · ext1
    · exact sn.trans hc
    · funext i j
      change s.adj.coeff i j = _
      rw [sc, thr_of_zero_or (hcP i j), hco]
where
  sum_ite_nodup {ids : List Nat} (hnd : ids.Nodup) {x : Nat} (hx : x ∈ ids) (c : K) :
      (ids.map (fun v => if v = x then c else 0)).sum = c := by
    induction ids with
    | nil => simp at hx
    | cons a l ih =>
      rw [List.nodup_cons] at hnd
      rw [List.map_cons, List.sum_cons]
      by_cases h : a = x
      · subst h
        rw [if_pos rfl, List.map_congr_left (g := fun _ => (0 : K))]
        · simp
        · intro v hv
          rw [if_neg]
          rintro rfl
          exact hnd.1 hv
      · rw [if_neg h, zero_add]
        apply ih hnd.2
        rcases List.mem_cons.1 hx with h' | h'
        · exact absurd h'.symm h
        · exact h'

/-- C15.  If some requested vertex does not exist, `subgraph` raises `invalid_argument`. -/
theorem C15_missing_vertex {g : Graph K} (vs order : List Int)
    (hord : order.Perm (firstOccurrences vs)) {v : Int} (hv : v ∈ vs) (hbad : ¬ (0 ≤ v ∧ v < g.n)) :
    g.subgraph vs order = .throw .invalidArgument := by
  unfold subgraph
  simp only
  rw [Outcome.mapM'_throw (e := .invalidArgument)]
  · rfl
  · intro z _
    by_cases hz : 0 ≤ z ∧ z < g.n
    · left
      obtain ⟨z, rfl⟩ := Int.eq_ofNat_of_zero_le hz.1
      unfold subgraphEntries neighbors degreeUnweighted
      rw [checkVertex_ok (by omega)]
      exact ⟨_, rfl⟩
    · right
      unfold subgraphEntries neighbors
      rw [checkVertex_bad hz]
      rfl
  · refine ⟨v, hord.symm.subset ((mem_firstOccurrences vs v).2 hv), ?_⟩
    unfold subgraphEntries neighbors
    rw [checkVertex_bad hbad]
    rfl

example : exGraph.subgraph [2, 0, 2] [0, 2] =
    .ok ⟨2, ⟨2, 2, [[(1, 3)], [(0, 3), (1, 5)]]⟩, true⟩ ∧
    [(0 : Int), 2].Perm (firstOccurrences [2, 0, 2]) := by
  refine ⟨by decide +kernel, ?_⟩
  decide

end Stag
