import Verif.Props.Random

/-!
# C41, C42: labels of random graphs, random graphs on disk
-/

set_option linter.unusedSectionVars false

namespace Stag

/-! ## C41 -/

theorem labelsFrom_length (sizes : List Nat) : ∀ c : Int,
    (labelsFrom c (sizes.map (fun s : Nat => (s : Int)))).length = sizes.sum := by
  induction sizes with
  | nil => intro c; rfl
  | cons a l ih =>
    intro c
    rw [List.map_cons, labelsFrom, List.length_append, List.length_replicate, ih, List.sum_cons,
      Int.toNat_natCast]

theorem labelsFrom_get (sizes : List Nat) : ∀ (c : Nat) (d v : Nat), InCluster sizes d v →
    (labelsFrom (c : Int) (sizes.map (fun s : Nat => (s : Int))))[v]? = some ((c + d : Nat) : Int) := by
  induction sizes with
  | nil => rintro c d v ⟨h, -⟩; simp at h
  | cons a l ih =>
    rintro c d v ⟨h1, h2, h3⟩
    rw [List.map_cons, labelsFrom, Int.toNat_natCast]
    cases d with
    | zero =>
      simp at h3
      rw [List.getElem?_append_left (by simpa using h3), List.getElem?_replicate, if_pos h3]
      simp
    | succ d =>
      rw [List.take_succ_cons, List.sum_cons] at h2 h3
      rw [List.getElem?_append_right (by simp; omega), List.length_replicate]
      have := ih (c + 1) d (v - a) ⟨by simpa using h1, by omega, by omega⟩
      push_cast at this ⊢
      rw [this]
      congr 1
      omega

/-- **C41** (`general_sbm_gt_labels`).  One label for every generated vertex, and a vertex has
label `c` exactly if it lies in cluster `c`. -/
theorem C41_labels {sizes : List Nat} (h : ∀ s ∈ sizes, 1 ≤ s) :
    ∃ labels, generalSbmGtLabels (sizes.map (fun s : Nat => (s : Int))) = .ok labels ∧
      labels.length = sizes.sum ∧
      ∀ v (c : Nat), labels[v]? = some (c : Int) ↔ InCluster sizes c v := by
  refine ⟨labelsFrom 0 (sizes.map (fun s : Nat => (s : Int))), ?_, labelsFrom_length _ _, ?_⟩
  · unfold generalSbmGtLabels
    rw [if_neg]
    simp only [Bool.not_eq_true, List.any_eq_false, List.mem_map, decide_eq_true_eq, not_lt]
    rintro x ⟨s, hs, rfl⟩
    exact_mod_cast h s hs
  · intro v c
    constructor
    · intro hv
      obtain ⟨hlt, -⟩ := List.getElem?_eq_some_iff.1 hv
      rw [labelsFrom_length] at hlt
      obtain ⟨d, hd⟩ := exists_inCluster hlt
      have := labelsFrom_get sizes 0 d v hd
      simp only [Nat.cast_zero, zero_add] at this
      rw [this] at hv
      simp at hv
      subst hv
      exact hd
    · intro hc
      have := labelsFrom_get sizes 0 c v hc
      simpa using this

/-- **C41** (errors). -/
theorem C41_labels_errors {sizes : List Int} (h : ∃ s ∈ sizes, s < 1) :
    generalSbmGtLabels sizes = .throw .invalidArgument := by
  unfold generalSbmGtLabels
  rw [if_pos]
  obtain ⟨s, hs, h⟩ := h
  exact List.any_eq_true.2 ⟨s, hs, by simpa using h⟩

/-- **C41** (`sbm_gt_labels`).  As many labels as `sbm(n, k, p, q)` generates vertices, namely
`k * (n / k)`, and they name the clusters of that graph (`C40_sbm`). -/
theorem C41_sbm_labels {n k : Nat} (hk : 1 ≤ k) (hkn : k ≤ n / 2) :
    ∃ labels, sbmGtLabels n k = .ok labels ∧ labels.length = k * (n / k) ∧
      ∀ v (c : Nat), labels[v]? = some (c : Int) ↔ InCluster (List.replicate k (n / k)) c v := by
  unfold sbmGtLabels
  rw [if_neg (by omega), if_neg (by omega), sbmSizes_eq]
  obtain ⟨l, h1, h2, h3⟩ := C41_labels (sizes := List.replicate k (n / k)) (by
    intro s hs
    rw [List.eq_of_mem_replicate hs]
    exact Nat.div_pos (by omega) hk)
  refine ⟨l, h1, ?_, h3⟩
  rw [h2, List.sum_replicate]; rfl

/-- **C41** (`sbm_gt_labels`: errors).  The same parameters are refused as by `sbm`. -/
theorem C41_sbm_labels_errors {n k : Int} (h : n < 1 ∨ k < 1 ∨ n / 2 < k) :
    sbmGtLabels n k = .throw .invalidArgument := by
  unfold sbmGtLabels
  split_ifs
  · rfl
  · rfl
  · exfalso; tauto

example : generalSbmGtLabels [2, 3, 1] = .ok [0, 0, 1, 1, 1, 2] := by decide

/-! ## C42 -/

section
variable {K Ω : Type} [Field K] [LinearOrder K] [IsStrictOrderedRing K]

/-- The edge a written line stands for. -/
def Emit.edge (e : Emit) : Edge K := ⟨e.u, e.v, 1⟩

theorem emitLine_eq (F : Fmt K) (h1 : F.print 1 = ['1']) (e : Emit) :
    emitLine e = edgeLine F (e.edge (K := K)) := by
  unfold emitLine edgeLine Emit.edge
  rw [h1]

theorem listWeight_emits (es : List Emit) (u v : Nat) :
    listWeight (es.map (Emit.edge (K := K))) u v = (mult es u v : K) := by
  induction es with
  | nil => simp [listWeight, mult]
  | cons e es ih =>
    rw [List.map_cons, listWeight_cons, ih, show e :: es = [e] ++ es from rfl, mult_append,
      mult_singleton]
    unfold Emit.edge
    push_cast
    rfl

theorem isLine_printInt (z : Int) : IsLine (printInt z) := by
  unfold printInt
  split_ifs
  · have := isLine_printNat z.natAbs
    unfold IsLine at *
    simp [this]
  · exact isLine_printNat _

theorem isLine_flatMap {α : Type} (l : List α) (f : α → Str) (h : ∀ a ∈ l, IsLine (f a)) :
    IsLine (l.flatMap f) := by
  unfold IsLine at *
  simp only [List.mem_flatMap, not_exists, not_and]
  exact ⟨fun a ha => (h a ha).1, fun a ha => (h a ha).2⟩

theorem sbmHeader_spec (F : Fmt K) (sizes : List Int) (P : DenseMat K)
    (hp : ∀ i < sizes.length, ∀ j < sizes.length, IsLine (F.print (P.entry i j))) :
    ∀ l ∈ sbmHeader F sizes P, IsLine l ∧ isContent l = false := by
  have hsp : IsLine [' '] := ⟨by decide, by decide⟩
  intro l hl
  unfold sbmHeader at hl
  rw [List.mem_append] at hl
  rcases hl with hl | hl
  · simp only [List.mem_cons, List.not_mem_nil, or_false] at hl
    rcases hl with rfl | rfl | rfl
    · exact ⟨⟨by decide, by decide⟩, by decide⟩
    · exact ⟨isLine_append ⟨by decide, by decide⟩ (isLine_printInt _), rfl⟩
    · exact ⟨isLine_append ⟨by decide, by decide⟩ (isLine_printNat _), rfl⟩
  · split_ifs at hl
    · rw [List.mem_append] at hl
      rcases hl with hl | hl
      · simp only [List.mem_cons, List.not_mem_nil, or_false] at hl
        rcases hl with rfl | rfl
        · exact ⟨isLine_append ⟨by decide, by decide⟩
            (isLine_flatMap _ _ fun a _ => isLine_append (isLine_printInt _) hsp), rfl⟩
        · exact ⟨⟨by decide, by decide⟩, by decide⟩
      · rw [List.mem_map] at hl
        obtain ⟨i, hi, rfl⟩ := hl
        exact ⟨isLine_append ⟨by decide, by decide⟩ (isLine_flatMap _ _ fun j hj =>
          isLine_append (hp i (List.mem_range.1 hi) j (List.mem_range.1 hj)) hsp), rfl⟩
    · simp only [List.mem_cons, List.not_mem_nil, or_false] at hl
      subst hl
      exact ⟨⟨by decide, by decide⟩, by decide⟩

/-- **C42**.  For the same random draws `general_sbm_edgelist` returns exactly when `general_sbm`
does, leaves the generator in the same state, and the file it writes loads to a graph with the same
weight between every two vertices (isolated vertices at the end are lost, so there may be fewer). -/
theorem C42_same_graph (R : Rng K Ω) (F : Fmt K) (fuel : Nat) {sizes : List Nat} {P : DenseMat K}
    {exact : Bool} (h : SbmArgs sizes P) (ω : Ω) (hn : sizes.sum ≤ 2 ^ 31)
    (hone : F.print 1 = ['1']) (hone' : F.printable 1)
    (hp : ∀ i < sizes.length, ∀ j < sizes.length, IsLine (F.print (P.entry i j))) :
    (generalSbm R fuel (sizes.map (fun s : Nat => (s : Int))) P exact ω = none ∧
      generalSbmEdgelist R F fuel (sizes.map (fun s : Nat => (s : Int))) P exact ω = none) ∨
    ∃ g file g' ω', generalSbm R fuel (sizes.map (fun s : Nat => (s : Int))) P exact ω =
        some (.ok g, ω') ∧
      generalSbmEdgelist R F fuel (sizes.map (fun s : Nat => (s : Int))) P exact ω =
        some (.ok file, ω') ∧
      loadEdgelist F file = .ok g' ∧ g'.Valid ∧ g'.n ≤ g.n ∧
      (∀ u v, g'.adj.coeff u v = g.adj.coeff u v) ∧
      (∀ u, g'.n ≤ u → ∀ v, g.adj.coeff u v = 0) ∧
      (g'.n = 0 ∨ ∃ v, g.adj.coeff (g'.n - 1) v ≠ 0) := by
  have hsplit := generalSbm_eq R (fuel := fuel) (exact := exact) h ω
  have hed : generalSbmEdgelist R F fuel (sizes.map (fun s : Nat => (s : Int))) P exact ω =
      (sampleBlocks R fuel P exact (outerBlocks 0 0 sizes) ω).map (fun r =>
        (.ok (unlines (sbmHeader F (sizes.map (fun s : Nat => (s : Int))) P ++ r.1.map emitLine)),
          r.2)) := by
    unfold generalSbmEdgelist sbmInternal
    rw [if_neg (by rw [List.length_map, h.rows, h.cols]; omega), sbmChecks_ok h, map_toNat]
    cases sampleBlocks R fuel P exact (outerBlocks 0 0 sizes) ω <;> rfl
  rcases hsplit with ⟨e1, e2⟩ | ⟨es, ω', g, e1, e2, e3, e4, e5⟩
  · left
    refine ⟨e2, ?_⟩
    rw [hed, e1]; rfl
  · right
    obtain ⟨-, -, hb⟩ := sampled_spec R h e1
    have hlines : contentLines (unlines (sbmHeader F (sizes.map (fun s : Nat => (s : Int))) P ++
        es.map emitLine)) = es.map emitLine := by
      apply contentLines_unlines
      · apply sbmHeader_spec
        rw [List.length_map]; exact hp
      · intro l hl
        obtain ⟨e, -, rfl⟩ := List.mem_map.1 hl
        rw [emitLine_eq F hone]
        exact ⟨isLine_edgeLine F _ hone', isContent_edgeLine F _⟩
    have hparse : Outcome.mapM' (parseEdgelistLine F) (es.map emitLine) =
        .ok (es.map (Emit.edge (K := K))) := by
      rw [Outcome.mapM'_eq_ok]
      rw [List.forall₂_map_left_iff, List.forall₂_map_right_iff, List.forall₂_same]
      intro e he
      obtain ⟨h1, h2, -⟩ := hb e he
      rw [emitLine_eq F hone]
      exact parse_edgeLine F _ (by unfold Emit.edge; simp only; omega)
        (by unfold Emit.edge; simp only; omega) hone'
    obtain ⟨g', w, l1, l2, -, l4, l5⟩ := C22_load F
      (unlines (sbmHeader F (sizes.map (fun s : Nat => (s : Int))) P ++ es.map emitLine))
      (es.map (Emit.edge (K := K))) (by rw [hlines]; exact hparse) (by
        intro e he
        obtain ⟨x, -, rfl⟩ := List.mem_map.1 he
        exact zero_le_one)
    have hc : ∀ u v, g'.adj.coeff u v = g.adj.coeff u v := by
      intro u v
      rw [l5, l4.weight, e5]
      split_ifs with huv
      · subst huv
        have : mult es u u = 0 := mult_eq_zero fun e he hm => by
          have := (hb e he).2.2
          omega
        rw [listWeight_emits, this, Nat.cast_zero, mul_zero]
        exact_mod_cast thr_nat (K := K) 0
      · rw [listWeight_emits, thr_nat]
    refine ⟨g, _, g', ω', e2, by rw [hed, e1]; rfl, l1, l2, ?_, hc, ?_, ?_⟩
    · rw [e4]
      rcases l4.least with h0 | ⟨x, hx, h0⟩
      · omega
      · obtain ⟨e, he, rfl⟩ := List.mem_map.1 hx
        have := hb e he
        unfold Emit.edge at h0
        simp only at h0
        omega
    · intro u hu v
      rw [e5, mult_eq_zero]
      · simp
      · intro e he hm
        have := l4.bound _ (List.mem_map.2 ⟨e, he, rfl⟩)
        unfold Emit.edge at this
        simp only at this
        omega
    · rcases l4.least with h0 | ⟨x, hx, h0⟩
      · exact .inl h0
      · right
        obtain ⟨e, he, rfl⟩ := List.mem_map.1 hx
        unfold Emit.edge at h0
        simp only at h0
        have hpos : ∀ u v, ((e.u = u ∧ e.v = v) ∨ (e.u = v ∧ e.v = u)) → g.adj.coeff u v ≠ 0 := by
          intro u v hm
          rw [e5]
          have := mult_pos.2 ⟨e, he, hm⟩
          exact_mod_cast Nat.pos_iff_ne_zero.1 this
        rcases h0 with h0 | h0
        · exact ⟨e.v, hpos _ _ (.inl ⟨by omega, rfl⟩)⟩
        · exact ⟨e.u, hpos _ _ (.inr ⟨rfl, by omega⟩)⟩

end

/-- The hypotheses of `C42_same_graph` about the number format are met by the concrete one. -/
example : natFmt.print 1 = ['1'] ∧ natFmt.printable 1 := by
  constructor
  · decide +kernel
  · exact_mod_cast natFmt_printable 1 (by norm_num)

/-- The file written by the concrete generator, and what it loads to. -/
example : (generalSbmEdgelist demoRng natFmt 5 [2, 1] ⟨2, 2, fun _ _ => 1⟩ true 0).map
    (fun r => match r.1 with
      | .ok s => (contentLines s).map String.ofList
      | _ => []) = some ["0 1 1", "0 2 1", "1 2 1"] := by decide +kernel

end Stag
