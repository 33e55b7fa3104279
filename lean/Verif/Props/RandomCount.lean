import Verif.Props.Random
import Mathlib.Algebra.BigOperators.Group.Finset.Basic
import Mathlib.Algebra.BigOperators.Ring.Finset
import Mathlib.Algebra.Order.BigOperators.Group.Finset
import Mathlib.Tactic.NormNum

/-!
# C40: the number of edges

In approximate mode edges may be sampled more than once.  Their number is capped, so that the total weight
between two clusters (and inside one) never exceeds the number of pairs of vertices.
-/

set_option linter.unusedSectionVars false

namespace Stag
section
variable {K Ω : Type} [Field K] [LinearOrder K] [IsStrictOrderedRing K]

/-- The edges sampled in a block of its own. -/
def ofBlock (b : SbmBlock) (es : List Emit) : List Emit :=
  es.filter (fun e => decide ((b.s1 ≤ e.u ∧ e.u < b.s1 + b.m1) ∧ b.s2 ≤ e.v ∧ e.v < b.s2 + b.m2))

theorem ofBlock_self {sizes : List Nat} {P : Nat → Nat → K} {exact : Bool} {b : SbmBlock}
    (hb : BlockOk sizes b) {es : List Emit} (h : ∀ e ∈ es, EmitOk sizes P exact b e) :
    ofBlock b es = es := by
  apply List.filter_eq_self.2
  intro e he
  exact decide_eq_true ⟨hb.in1.1 (h e he).inU, hb.in2.1 (h e he).inV⟩

theorem ofBlock_other {sizes : List Nat} {P : Nat → Nat → K} {exact : Bool} {b b' : SbmBlock}
    (hb : BlockOk sizes b) (hne : b'.ci ≠ b.ci ∨ b'.cj ≠ b.cj) {es : List Emit}
    (h : ∀ e ∈ es, EmitOk sizes P exact b' e) : ofBlock b es = [] := by
  apply List.filter_eq_nil_iff.2
  intro e he hd
  have hd := of_decide_eq_true hd
  have h1 := (h e he).inU.unique (hb.in1.2 hd.1)
  have h2 := (h e he).inV.unique (hb.in2.2 hd.2)
  omega

/-- The edges between two clusters are those sampled for that block. -/
theorem sampleBlocks_ofBlock (R : Rng K Ω) {fuel : Nat} {P : DenseMat K} {exact : Bool}
    {sizes : List Nat} (hs : ∀ i < sizes.length, 1 ≤ sizes.getD i 0)
    (hP : ∀ i < sizes.length, ∀ j < sizes.length, 0 ≤ P.entry i j) (bs : List SbmBlock) :
    (∀ b ∈ bs, BlockOk sizes b) → bs.Pairwise (fun a b => a.ci ≠ b.ci ∨ a.cj ≠ b.cj) →
    ∀ (ω ω' : Ω) (es : List Emit), sampleBlocks R fuel P exact bs ω = some (es, ω') →
    ∀ b ∈ bs, ∃ ω1 ω2 eb, sampleBlock R fuel P exact b ω1 = some (eb, ω2) ∧ ofBlock b es = eb := by
  induction bs with
  | nil => intro _ _ ω ω' es h b hb; simp at hb
  | cons a bs ih =>
    intro hok hpw ω ω' es h b hb
    unfold sampleBlocks at h
    cases h1 : sampleBlock R fuel P exact a ω with
    | none => rw [h1] at h; simp at h
    | some x =>
      obtain ⟨es1, ω1⟩ := x
      rw [h1] at h
      simp only at h
      cases h2 : sampleBlocks R fuel P exact bs ω1 with
      | none => rw [h2] at h; simp at h
      | some y =>
        obtain ⟨es2, ω2⟩ := y
        rw [h2] at h
        simp only [Option.some.injEq, Prod.mk.injEq] at h
        obtain ⟨rfl, -⟩ := h
        have hao := hok a (by simp)
        have hci : a.ci < sizes.length := lt_of_le_of_lt hao.le hao.lt
        obtain ⟨a1, -, -⟩ := sampleBlock_spec R hao (by rw [hao.m1]; exact hs _ hci)
          (by rw [hao.m2]; exact hs _ hao.lt) (hP _ hci _ hao.lt) h1
        obtain ⟨pw1, pw2⟩ := List.pairwise_cons.1 hpw
        have hok2 : ∀ x ∈ bs, BlockOk sizes x := fun x hx => hok x (List.mem_cons_of_mem _ hx)
        obtain ⟨b1, -, -⟩ := sampleBlocks_spec R hs hP bs hok2 pw2 _ _ _ h2
        have happ : ofBlock b (es1 ++ es2) = ofBlock b es1 ++ ofBlock b es2 := by
          simp [ofBlock]
        rw [happ]
        rcases List.mem_cons.1 hb with rfl | hb
        · refine ⟨ω, ω1, es1, h1, ?_⟩
          have : ofBlock b es2 = [] := by
            apply List.filter_eq_nil_iff.2
            intro e he hd
            have hd := of_decide_eq_true hd
            obtain ⟨b', hb', ho⟩ := b1 e he
            have x1 := ho.inU.unique (hao.in1.2 hd.1)
            have x2 := ho.inV.unique (hao.in2.2 hd.2)
            rcases pw1 b' hb' with x | x <;> omega
          rw [this, ofBlock_self hao a1, List.append_nil]
        · obtain ⟨w1, w2, eb, e1, e2⟩ := ih hok2 pw2 _ _ _ h2 b hb
          refine ⟨w1, w2, eb, e1, ?_⟩
          rw [ofBlock_other (hok2 b hb) (pw1 b hb) a1, e2, List.nil_append]

/-- The emissions of a block with binomial sampling are at most the pairs of the block. -/
theorem sampleBinomial_length (R : Rng K Ω) {fuel : Nat} {b : SbmBlock} {p : K} {ω ω' : Ω}
    {es : List Emit} (h1 : 1 ≤ b.m1) (h2 : 1 ≤ b.m2)
    (h : sampleBinomial R fuel b p ω = some (es, ω')) : es.length ≤ maxEdges b := by
  unfold sampleBinomial at h
  simp only at h
  split_ifs at h with hx
  · simp only [Option.some.injEq, Prod.mk.injEq] at h
    rw [← h.1]; simp
  · rw [(pickPairs_spec R b _ _ h1 h2 _ _ _ h).1]
    omega

theorem sum_mult (es : List Emit) (U V : Finset Nat) :
    ∑ u ∈ U, ∑ v ∈ V, mult es u v ≤
      (es.filter (fun e => decide (e.u ∈ U ∧ e.v ∈ V))).length +
      (es.filter (fun e => decide (e.v ∈ U ∧ e.u ∈ V))).length := by
  induction es with
  | nil => simp [mult]
  | cons e es ih =>
    have h1 : ∀ u v, mult (e :: es) u v = mult [e] u v + mult es u v := fun u v =>
      mult_append [e] es u v
    have h2 : ∑ u ∈ U, ∑ v ∈ V, mult [e] u v ≤
        (if e.u ∈ U ∧ e.v ∈ V then 1 else 0) + (if e.v ∈ U ∧ e.u ∈ V then 1 else 0) := by
      have h3 : ∀ u v, mult [e] u v ≤ (if e.u = u then (if e.v = v then 1 else 0) else 0) +
          (if e.v = u then (if e.u = v then 1 else 0) else 0) := by
        intro u v
        rw [mult_singleton]
        split_ifs <;> omega
      refine le_trans (Finset.sum_le_sum (fun u _ => Finset.sum_le_sum (fun v _ => h3 u v))) ?_
      apply le_of_eq
      have h4 : ∀ a b : Nat, ∑ u ∈ U, ∑ v ∈ V, (if a = u then (if b = v then 1 else 0) else 0) =
          if a ∈ U ∧ b ∈ V then 1 else 0 := by
        intro a b
        have : ∀ u, ∑ v ∈ V, (if a = u then (if b = v then 1 else 0) else 0) =
            if a = u then (if b ∈ V then 1 else 0) else 0 := by
          intro u
          split_ifs with q
          · rw [Finset.sum_ite_eq, if_pos ‹_›]
          · rw [Finset.sum_ite_eq, if_neg ‹_›]
          · simp
        simp only [this, Finset.sum_ite_eq]
        split_ifs <;> simp_all
      rw [← h4 e.u e.v, ← h4 e.v e.u]
      simp only [Finset.sum_add_distrib]
    simp only [h1, Finset.sum_add_distrib]
    have h5 : ∀ q : Emit → Prop, [DecidablePred q] →
        ((e :: es).filter (fun x => decide (q x))).length =
        (if q e then 1 else 0) + (es.filter (fun x => decide (q x))).length := by
      intro q _
      by_cases hq : q e
      · rw [List.filter_cons_of_pos (by simpa using hq), if_pos hq, List.length_cons]; omega
      · rw [List.filter_cons_of_neg (by simpa using hq), if_neg hq]; omega
    rw [h5 (fun x => x.u ∈ U ∧ x.v ∈ V), h5 (fun x => x.v ∈ U ∧ x.u ∈ V)]
    omega

/-- The vertices of a cluster. -/
def clusterSet (sizes : List Nat) (c : Nat) : Finset Nat :=
  Finset.Ico (sizes.take c).sum (sizes.take (c + 1)).sum

/-- **C40** (number of edges).  The total weight between two clusters is at most the number of pairs of a
vertex of the one and a vertex of the other, also in approximate mode; the same holds inside a cluster
(each edge then counts twice, as there are two ordered pairs). -/
theorem C40_edge_count (R : Rng K Ω) {fuel : Nat} {sizes : List Nat} {P : DenseMat K}
    {exact : Bool} (h : SbmArgs sizes P) {ω ω' : Ω} {g : Graph K}
    (hr : generalSbm R fuel (sizes.map (fun s : Nat => (s : Int))) P exact ω = some (.ok g, ω'))
    (c d : Nat) (hc : c < sizes.length) (hd : d < sizes.length) :
    ∑ u ∈ clusterSet sizes c, ∑ v ∈ clusterSet sizes d, g.adj.coeff u v ≤
      ((sizes.getD c 0 * sizes.getD d 0 : Nat) : K) := by
  wlog hcd : c ≤ d generalizing c d with H
  · have := H d c hd hc (by omega)
    rw [Finset.sum_comm, mul_comm]
    obtain ⟨g', e, -, s⟩ := C40_general_sbm R h hr
    cases e
    have hsym : ∀ u v, g.adj.coeff u v = g.adj.coeff v u := s.symm
    simpa only [hsym] using this
  rcases generalSbm_eq R (fuel := fuel) (exact := exact) h ω with ⟨-, e⟩ | ⟨es, ω1, g', e1, e2, e3, e4, e5⟩
  · rw [e] at hr; cases hr
  rw [e2] at hr
  simp only [Option.some.injEq, Prod.mk.injEq, Outcome.ok.injEq] at hr
  obtain ⟨rfl, -⟩ := hr
  simp only [e5]
  rw [show (∑ u ∈ clusterSet sizes c, ∑ v ∈ clusterSet sizes d, (mult es u v : K)) =
    ((∑ u ∈ clusterSet sizes c, ∑ v ∈ clusterSet sizes d, mult es u v : Nat) : K) by push_cast; rfl]
  have goal : ∑ u ∈ clusterSet sizes c, ∑ v ∈ clusterSet sizes d, mult es u v ≤
      sizes.getD c 0 * sizes.getD d 0 := by
    obtain ⟨hs, -, -⟩ := sampled_spec R h e1
    have hb : BlockOk sizes ⟨c, d, (sizes.take c).sum, (sizes.take d).sum, sizes.getD c 0,
      sizes.getD d 0⟩ := ⟨hcd, hd, rfl, rfl, rfl, rfl⟩
    have hcard : ∀ x, x < sizes.length → (clusterSet sizes x).card = sizes.getD x 0 := by
      intro x hx
      unfold clusterSet
      rw [Nat.card_Ico, take_succ_sum sizes hx]
      omega
    have hmem : ∀ x u, x < sizes.length → (u ∈ clusterSet sizes x ↔ InCluster sizes x u) := by
      intro x u hx
      unfold clusterSet InCluster
      rw [Finset.mem_Ico]
      exact ⟨fun h => ⟨hx, h⟩, fun h => h.2⟩
    by_cases hbin : 10000 ≤ sizes.getD c 0 * sizes.getD d 0 ∧ P.entry c d < 1 / 2 ∧ exact = false
    · have h0P : ∀ i < sizes.length, ∀ j < sizes.length, 0 ≤ P.entry i j :=
        fun i hi j hj => (h.prob i hi j hj).1
      obtain ⟨w1, w2, eb, q1, q2⟩ := sampleBlocks_ofBlock R (getD_pos h.sizes_pos) h0P _
        (fun b hb => mem_allBlocks.1 hb) (pairwise_allBlocks sizes) ω ω1 es e1 _ (mem_allBlocks.2 hb)
      have hlen : eb.length ≤ maxEdges ⟨c, d, (sizes.take c).sum, (sizes.take d).sum, sizes.getD c 0,
          sizes.getD d 0⟩ := by
        unfold sampleBlock at q1
        rw [if_pos hbin] at q1
        exact sampleBinomial_length R (getD_pos h.sizes_pos _ hc) (getD_pos h.sizes_pos _ hd) q1
      rw [← q2] at hlen
      have f1 : (es.filter (fun e => decide (e.u ∈ clusterSet sizes c ∧ e.v ∈ clusterSet sizes d))) =
          ofBlock ⟨c, d, (sizes.take c).sum, (sizes.take d).sum, sizes.getD c 0, sizes.getD d 0⟩ es := by
        unfold ofBlock
        apply List.filter_congr
        intro e _
        apply decide_eq_decide.2
        rw [hmem c _ hc, hmem d _ hd, hb.in1, hb.in2]
      refine le_trans (sum_mult es _ _) ?_
      rw [f1]
      by_cases hcd' : c = d
      · subst hcd'
        have f2 : (es.filter (fun e => decide (e.v ∈ clusterSet sizes c ∧ e.u ∈ clusterSet sizes c))) =
            ofBlock ⟨c, c, (sizes.take c).sum, (sizes.take c).sum, sizes.getD c 0, sizes.getD c 0⟩ es := by
          rw [← f1]
          apply List.filter_congr
          intro e _
          exact decide_eq_decide.2 and_comm
        rw [f2]
        unfold maxEdges at hlen
        rw [if_pos rfl] at hlen
        simp only at hlen
        omega
      · have f2 : (es.filter (fun e => decide (e.v ∈ clusterSet sizes c ∧ e.u ∈ clusterSet sizes d))) =
            [] := by
          obtain ⟨b1, -, -⟩ := sampleBlocks_spec R (getD_pos h.sizes_pos) h0P _
            (fun b hb => mem_allBlocks.1 hb) (pairwise_allBlocks sizes) ω ω1 es e1
          apply List.filter_eq_nil_iff.2
          intro e he hde
          have hde := of_decide_eq_true hde
          rw [hmem c _ hc, hmem d _ hd] at hde
          obtain ⟨b', hb', ho⟩ := b1 e he
          have x1 := ho.inU.unique hde.2
          have x2 := ho.inV.unique hde.1
          have := (mem_allBlocks.1 hb').le
          omega
        rw [f2]
        have : maxEdges ⟨c, d, (sizes.take c).sum, (sizes.take d).sum, sizes.getD c 0,
            sizes.getD d 0⟩ ≤ sizes.getD c 0 * sizes.getD d 0 := by
          unfold maxEdges
          split_ifs
          · exact Nat.div_le_self _ _
          · exact le_refl _
        simp only [List.length_nil]
        omega
    · have hle : ∀ u ∈ clusterSet sizes c, ∀ v ∈ clusterSet sizes d, mult es u v ≤ 1 := by
        intro u hu v hv
        rw [hmem c _ hc] at hu
        rw [hmem d _ hd] at hv
        have hcase : exact = true ∨ 1 / 2 ≤ P.entry c d ∨ sizes.getD c 0 * sizes.getD d 0 < 10000 := by
          by_contra hn
          push Not at hn
          exact hbin ⟨hn.2.2, hn.2.1, by simpa using hn.1⟩
        rcases hs.simple c d u v ⟨hcd, .inl ⟨hu, hv⟩⟩ hcase with x | x
        · have : mult es u v = 0 := by exact_mod_cast x
          omega
        · have : mult es u v = 1 := by exact_mod_cast x
          omega
      refine le_trans (Finset.sum_le_sum (fun u hu => Finset.sum_le_sum (fun v hv => hle u hu v hv))) ?_
      simp [hcard c hc, hcard d hd]
  exact_mod_cast goal

end

/-- A generator that always says no, draws negative numbers of edges and the number 0. -/
def dullRng : Rng ℚ Unit where
  coin p _ := (decide (p = 1), ())
  normal _ _ _ := (-3, ())
  unif _ _ := (0, ())
  coin_zero _ := by decide +kernel
  coin_one _ := by decide +kernel
  unif_le _ _ := by simp

/-- The theorem applies to a call in approximate mode (100 vertices, probability 1/4). -/
example : ∃ g ω', generalSbm dullRng 1 [100] ⟨1, 1, fun _ _ => 1 / 4⟩ false () = some (.ok g, ω') ∧
    SbmArgs [100] (⟨1, 1, fun _ _ => 1 / 4⟩ : DenseMat ℚ) := by
  have ha : SbmArgs [100] (⟨1, 1, fun _ _ => 1 / 4⟩ : DenseMat ℚ) :=
    ⟨by decide, rfl, rfl, fun i _ j _ => by constructor <;> norm_num⟩
  rcases generalSbm_eq dullRng (fuel := 1) (exact := false) ha () with ⟨e, -⟩ | ⟨es, ω1, g, -, e2, -⟩
  · exact absurd e (by decide +kernel)
  · exact ⟨g, ω1, e2, ha⟩

end Stag
