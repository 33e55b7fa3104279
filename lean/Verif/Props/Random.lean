import Verif.RandomLemmas
import Verif.Props.Edgelist
import Mathlib.Algebra.Order.Field.Rat
import Mathlib.Algebra.Field.Rat

/-!
# C40, C41, C42: random graphs
-/

set_option linter.unusedSectionVars false

namespace Stag
section
variable {K Ω : Type} [Field K] [LinearOrder K] [IsStrictOrderedRing K]

/-- Valid arguments of `general_sbm`: positive sizes and a `k × k` matrix of probabilities. -/
structure SbmArgs (sizes : List Nat) (P : DenseMat K) : Prop where
  sizes_pos : ∀ s ∈ sizes, 1 ≤ s
  rows : P.rows = sizes.length
  cols : P.cols = sizes.length
  prob : ∀ i < sizes.length, ∀ j < sizes.length, 0 ≤ P.entry i j ∧ P.entry i j ≤ 1

theorem sbmChecks_ok {sizes : List Nat} {P : DenseMat K} (h : SbmArgs sizes P) :
    sbmChecks (sizes.map (fun s : Nat => (s : Int))) P = .ok () := by
  unfold sbmChecks
  rw [if_neg, if_neg, if_neg]
  · simp only [List.length_map, Bool.not_eq_true, List.any_eq_false, List.mem_range,
      decide_eq_true_eq, not_or, not_lt]
    exact h.prob
  · rw [List.length_map, h.rows, h.cols]; omega
  · simp only [Bool.not_eq_true, List.any_eq_false, List.mem_map, decide_eq_true_eq, not_lt]
    rintro x ⟨s, hs, rfl⟩
    exact_mod_cast h.sizes_pos s hs

theorem map_toNat (sizes : List Nat) :
    (sizes.map (fun s : Nat => (s : Int))).map Int.toNat = sizes := by
  rw [List.map_map]
  conv => rhs; rw [← List.map_id sizes]
  apply List.map_congr_left
  intro x _; simp

theorem sum_cast (sizes : List Nat) :
    (sizes.map (fun s : Nat => (s : Int))).sum = (sizes.sum : Int) := by
  induction sizes with
  | nil => rfl
  | cons a l ih => rw [List.map_cons, List.sum_cons, ih, List.sum_cons]; push_cast; rfl

theorem getD_pos {sizes : List Nat} (h : ∀ s ∈ sizes, 1 ≤ s) (i : Nat) (hi : i < sizes.length) :
    1 ≤ sizes.getD i 0 := by
  rw [List.getD_eq_getElem _ _ hi]; exact h _ (List.getElem_mem hi)

theorem mult_le_one {es : List Emit} (hf : Fresh es) {u v : Nat}
    (hd : ∀ e ∈ es, ((e.u = u ∧ e.v = v) ∨ (e.u = v ∧ e.v = u)) → e.direct = true) :
    mult es u v ≤ 1 := by
  unfold mult
  have hp : (es.filter (fun e => decide ((e.u = u ∧ e.v = v) ∨ (e.u = v ∧ e.v = u)))).Pairwise
      (fun e f => f.direct = true → ¬ SamePair e f) := hf.filter _
  have hm : ∀ e ∈ es.filter (fun e => decide ((e.u = u ∧ e.v = v) ∨ (e.u = v ∧ e.v = u))),
      e.direct = true ∧ ((e.u = u ∧ e.v = v) ∨ (e.u = v ∧ e.v = u)) := by
    intro e he
    obtain ⟨h1, h2⟩ := List.mem_filter.1 he
    have h2 := of_decide_eq_true h2
    exact ⟨hd e h1 h2, h2⟩
  revert hp hm
  generalize es.filter (fun e => decide ((e.u = u ∧ e.v = v) ∨ (e.u = v ∧ e.v = u))) = l
  intro hp hm
  match l with
  | [] => simp
  | [a] => simp
  | a :: b :: l =>
    exfalso
    have h1 := (List.pairwise_cons.1 hp).1 b (by simp) (hm b (by simp)).1
    apply h1
    have ha := (hm a (by simp)).2
    have hb := (hm b (by simp)).2
    unfold SamePair
    omega

/-- The sampled edges describe a graph of the model. -/
theorem sampled_spec (R : Rng K Ω) {fuel : Nat} {sizes : List Nat} {P : DenseMat K} {exact : Bool}
    (h : SbmArgs sizes P) {ω ω' : Ω} {es : List Emit}
    (hs : sampleBlocks R fuel P exact (outerBlocks 0 0 sizes) ω = some (es, ω')) :
    SbmGraph sizes P.entry exact sizes.sum (fun u v => (mult es u v : K)) ∧ Fresh es ∧
      ∀ e ∈ es, e.u < sizes.sum ∧ e.v < sizes.sum ∧ e.u ≠ e.v := by
  obtain ⟨h1, h2, h3⟩ := sampleBlocks_spec R (getD_pos h.sizes_pos)
    (fun i hi j hj => (h.prob i hi j hj).1) _ (fun b hb => mem_allBlocks.1 hb)
    (pairwise_allBlocks sizes) ω ω' es hs
  have hbnd : ∀ e ∈ es, e.u < sizes.sum ∧ e.v < sizes.sum ∧ e.u ≠ e.v := by
    intro e he
    obtain ⟨b, -, ho⟩ := h1 e he
    exact ⟨ho.inU.lt_sum, ho.inV.lt_sum, ho.ne⟩
  -- an emission of `{u, v}` comes from the block of `u` and `v`
  have hblock : ∀ e ∈ es, ∀ c d u v, Between sizes c d u v →
      ((e.u = u ∧ e.v = v) ∨ (e.u = v ∧ e.v = u)) →
      ∃ b, BlockOk sizes b ∧ EmitOk sizes P.entry exact b e ∧ b.ci = c ∧ b.cj = d := by
    intro e he c d u v hbt hm
    obtain ⟨b, hb, ho⟩ := h1 e he
    have hb := mem_allBlocks.1 hb
    have := hb.le
    refine ⟨b, hb, ho, ?_⟩
    obtain ⟨hcd, hbt⟩ := hbt
    have iU := ho.inU
    have iV := ho.inV
    rcases hbt with ⟨x, y⟩ | ⟨x, y⟩ <;> rcases hm with ⟨m1, m2⟩ | ⟨m1, m2⟩ <;>
      rw [m1] at iU <;> rw [m2] at iV
    · exact ⟨iU.unique x, iV.unique y⟩
    · have p := iU.unique y
      have q := iV.unique x
      omega
    · have p := iU.unique y
      have q := iV.unique x
      omega
    · exact ⟨iU.unique x, iV.unique y⟩
  have hsimple : ∀ c d u v, Between sizes c d u v →
      (exact = true ∨ 1 / 2 ≤ P.entry c d ∨ sizes.getD c 0 * sizes.getD d 0 < 10000) →
      mult es u v ≤ 1 := by
    intro c d u v hbt hcase
    apply mult_le_one h2
    intro e he hm
    obtain ⟨b, -, ho, rfl, rfl⟩ := hblock e he c d u v hbt hm
    exact ho.direct hcase
  refine ⟨⟨rfl, ?_, ?_, fun u v => ⟨_, rfl⟩, ?_, ?_, ?_⟩, h2, hbnd⟩
  · intro u v; rw [mult_symm]
  · intro u
    have : mult es u u = 0 := by
      apply mult_eq_zero
      intro e he hm
      have := (hbnd e he).2.2
      omega
    rw [this]; simp
  · intro u v hne
    have hpos : 0 < mult es u v := by
      rcases Nat.eq_zero_or_pos (mult es u v) with h0 | h0
      · rw [h0] at hne; simp at hne
      · exact h0
    obtain ⟨e, he, hm⟩ := mult_pos.1 hpos
    obtain ⟨b, hb, ho⟩ := h1 e he
    refine ⟨b.ci, b.cj, ⟨(mem_allBlocks.1 hb).le, ?_⟩, ho.pos⟩
    rcases hm with ⟨rfl, rfl⟩ | ⟨rfl, rfl⟩
    · exact .inl ⟨ho.inU, ho.inV⟩
    · exact .inr ⟨ho.inU, ho.inV⟩
  · intro c d u v hbt hp huv
    have hle := hsimple c d u v hbt (.inr (.inl (by rw [hp]; linarith [one_half_lt_one (α := K)])))
    have hge : 0 < mult es u v := by
      rw [mult_pos]
      have hget : ∀ x y, InCluster sizes c x → InCluster sizes d y → (c = d → x < y) →
          ∃ e ∈ es, e.u = x ∧ e.v = y := by
        intro x y hx hy hxy
        exact h3 ⟨c, d, (sizes.take c).sum, (sizes.take d).sum, sizes.getD c 0, sizes.getD d 0⟩
          (mem_allBlocks.2 ⟨hbt.1, hy.1, rfl, rfl, rfl, rfl⟩) hp x y hx hy hxy
      obtain ⟨hcd, hbt⟩ := hbt
      by_cases hc : c = d
      · subst hc
        have hu : InCluster sizes c u := by rcases hbt with h | h; exacts [h.1, h.2]
        have hv : InCluster sizes c v := by rcases hbt with h | h; exacts [h.2, h.1]
        rcases Nat.lt_or_gt_of_ne huv with hlt | hlt
        · obtain ⟨e, he, q⟩ := hget u v hu hv (fun _ => hlt)
          exact ⟨e, he, .inl q⟩
        · obtain ⟨e, he, q⟩ := hget v u hv hu (fun _ => hlt)
          exact ⟨e, he, .inr q⟩
      · rcases hbt with ⟨x, y⟩ | ⟨x, y⟩
        · obtain ⟨e, he, q⟩ := hget u v x y (fun h => absurd h hc)
          exact ⟨e, he, .inl q⟩
        · obtain ⟨e, he, q⟩ := hget v u x y (fun h => absurd h hc)
          exact ⟨e, he, .inr q⟩
    have : mult es u v = 1 := by omega
    simp only [this]; simp
  · intro c d u v hbt hcase
    have := hsimple c d u v hbt hcase
    have h01 : mult es u v = 0 ∨ mult es u v = 1 := by omega
    rcases h01 with h | h <;> simp only [h] <;> simp

/-- The graph built from the sampled edges. -/
theorem built_spec {n : Nat} {es : List Emit} (hf : Fresh es)
    (hb : ∀ e ∈ es, e.u < n ∧ e.v < n ∧ e.u ≠ e.v) :
    ∃ (m : SprsMat K) (g : Graph K), emitAll es (SprsMat.empty n n) = .ok m ∧
      Graph.ofMatrix m = .ok g ∧ g.Valid ∧ g.n = n ∧ ∀ i j, g.adj.coeff i j = (mult es i j : K) := by
  obtain ⟨m, hm, hh⟩ := emitAll_spec (K := K) es [] _ (holds_empty n) (by simpa using hf) hb
  simp only [List.nil_append] at hh
  obtain ⟨g, e1, e2, -, e4, e5, -⟩ := Graph.ofMatrix_nonneg hh.wf (by rw [hh.rows, hh.cols])
    (fun i j => by rw [hh.coeff]; positivity) (fun i j => by rw [hh.coeff, hh.coeff, mult_symm])
  refine ⟨m, g, hm, e1, e2, by rw [e4, hh.cols], fun i j => ?_⟩
  rw [e5, hh.coeff, thr_nat]

/-- The outcome of `general_sbm` in terms of the sampled edges. -/
theorem generalSbm_eq (R : Rng K Ω) {fuel : Nat} {sizes : List Nat} {P : DenseMat K} {exact : Bool}
    (h : SbmArgs sizes P) (ω : Ω) :
    (sampleBlocks R fuel P exact (outerBlocks 0 0 sizes) ω = none ∧
      generalSbm R fuel (sizes.map (fun s : Nat => (s : Int))) P exact ω = none) ∨
    ∃ es ω' g, sampleBlocks R fuel P exact (outerBlocks 0 0 sizes) ω = some (es, ω') ∧
      generalSbm R fuel (sizes.map (fun s : Nat => (s : Int))) P exact ω = some (.ok g, ω') ∧
      g.Valid ∧ g.n = sizes.sum ∧ ∀ i j, g.adj.coeff i j = (mult es i j : K) := by
  unfold generalSbm sbmInternal
  rw [sum_cast, if_neg (by omega), sbmChecks_ok h, map_toNat]
  cases hs : sampleBlocks R fuel P exact (outerBlocks 0 0 sizes) ω with
  | none => exact .inl ⟨rfl, rfl⟩
  | some x =>
    obtain ⟨es, ω'⟩ := x
    right
    obtain ⟨-, h2, h3⟩ := sampled_spec R h hs
    obtain ⟨m, g, e1, e2, e3, e4, e5⟩ := built_spec (K := K) h2 h3
    refine ⟨es, ω', g, rfl, ?_, e3, e4, e5⟩
    simp only [Outcome.bind_ok, Int.toNat_natCast]
    rw [e1, Outcome.bind_ok, e2]

/-- **C40** (`general_sbm`).  For valid parameters, every state of the random number generator and
every outcome of the draws: if the call returns, it returns (no exception, no undefined behaviour) a
symmetric graph on the right number of vertices, without self-loops, with integral weights, with
edges only where the probability is positive, with all edges where it is one, and without multiple
edges in exact mode. -/
theorem C40_general_sbm (R : Rng K Ω) {fuel : Nat} {sizes : List Nat} {P : DenseMat K}
    {exact : Bool} (h : SbmArgs sizes P) {ω ω' : Ω} {r : Outcome (Graph K)}
    (hr : generalSbm R fuel (sizes.map (fun s : Nat => (s : Int))) P exact ω = some (r, ω')) :
    ∃ g, r = .ok g ∧ g.Valid ∧
      SbmGraph sizes P.entry exact g.n (fun u v => g.adj.coeff u v) := by
  rcases generalSbm_eq R (fuel := fuel) (exact := exact) h ω with ⟨-, e⟩ | ⟨es, ω1, g, e1, e2, e3, e4, e5⟩
  · rw [e] at hr; cases hr
  · rw [e2] at hr
    simp only [Option.some.injEq, Prod.mk.injEq] at hr
    obtain ⟨rfl, -⟩ := hr
    refine ⟨g, rfl, e3, ?_⟩
    obtain ⟨s, -, -⟩ := sampled_spec R h e1
    rw [e4]
    simp only [e5]
    exact s

/-- No binomial sampling: every block is sampled pair by pair. -/
theorem sampleBlocks_returns (R : Rng K Ω) {fuel : Nat} {P : DenseMat K} {exact : Bool}
    (bs : List SbmBlock) :
    (∀ b ∈ bs, ¬ (10000 ≤ b.m1 * b.m2 ∧ P.entry b.ci b.cj < 1 / 2 ∧ exact = false)) →
    ∀ ω : Ω, ∃ r, sampleBlocks R fuel P exact bs ω = some r := by
  induction bs with
  | nil => intro _ ω; exact ⟨_, rfl⟩
  | cons b bs ih =>
    intro h ω
    unfold sampleBlocks sampleBlock
    rw [if_neg (h b (by simp))]
    obtain ⟨r, hr⟩ := ih (fun x hx => h x (List.mem_cons_of_mem _ hx))
      (sampleDirectly R b (P.entry b.ci b.cj) ω).2
    simp only [hr]
    exact ⟨_, rfl⟩

/-- **C40** (termination).  In exact mode, or when every probability is at least one half, the call
always returns. -/
theorem C40_general_sbm_returns (R : Rng K Ω) (fuel : Nat) {sizes : List Nat} {P : DenseMat K}
    {exact : Bool} (h : SbmArgs sizes P) (ω : Ω)
    (hx : exact = true ∨ ∀ i < sizes.length, ∀ j < sizes.length, 1 / 2 ≤ P.entry i j) :
    ∃ g ω', generalSbm R fuel (sizes.map (fun s : Nat => (s : Int))) P exact ω = some (.ok g, ω') := by
  obtain ⟨r, hr⟩ := sampleBlocks_returns R (fuel := fuel) (P := P) (exact := exact)
    (outerBlocks 0 0 sizes) (by
      rintro b hb ⟨-, h2, h3⟩
      have hb := mem_allBlocks.1 hb
      rcases hx with hx | hx
      · rw [hx] at h3; exact absurd h3 (by decide)
      · exact absurd h2 (not_lt.2 (hx _ (lt_of_le_of_lt hb.le hb.lt) _ hb.lt))) ω
  rcases generalSbm_eq R (fuel := fuel) (exact := exact) h ω with ⟨e, -⟩ | ⟨es, ω1, g, -, e2, -⟩
  · rw [hr] at e; cases e
  · exact ⟨g, ω1, e2⟩

/-- **C40** (complete graphs).  When every probability is one the result is the complete graph. -/
theorem C40_complete (R : Rng K Ω) (fuel : Nat) {sizes : List Nat} {P : DenseMat K}
    {exact : Bool} (h : SbmArgs sizes P) (ω : Ω)
    (h1 : ∀ i < sizes.length, ∀ j < sizes.length, P.entry i j = 1) :
    ∃ g ω', generalSbm R fuel (sizes.map (fun s : Nat => (s : Int))) P exact ω = some (.ok g, ω') ∧
      g.n = sizes.sum ∧
      ∀ u < g.n, ∀ v < g.n, g.adj.coeff u v = if u = v then 0 else 1 := by
  obtain ⟨g, ω', hg⟩ := C40_general_sbm_returns R fuel h (exact := exact) ω
    (.inr (fun i hi j hj => by rw [h1 i hi j hj]; linarith [one_half_lt_one (α := K)]))
  obtain ⟨g', e, -, s⟩ := C40_general_sbm R h hg
  cases e
  refine ⟨g, ω', hg, s.vertices, fun u hu v hv => ?_⟩
  rw [s.vertices] at hu hv
  by_cases huv : u = v
  · subst huv; rw [if_pos rfl]; exact s.loopless u
  · rw [if_neg huv]
    obtain ⟨c, hc⟩ := exists_inCluster hu
    obtain ⟨d, hd⟩ := exists_inCluster hv
    rcases Nat.le_total c d with hle | hle
    · exact s.certain c d u v ⟨hle, .inl ⟨hc, hd⟩⟩ (h1 c hc.1 d hd.1) huv
    · exact s.certain d c u v ⟨hle, .inr ⟨hd, hc⟩⟩ (h1 d hd.1 c hc.1) huv

/-- **C40** (errors).  Invalid parameters raise `invalid_argument` (given that the sizes do not add
up to a negative number). -/
theorem C40_errors (R : Rng K Ω) (fuel : Nat) {sizes : List Int} {P : DenseMat K} {exact : Bool}
    (ω : Ω) (hsum : 0 ≤ sizes.sum)
    (h : (∃ s ∈ sizes, s < 1) ∨ P.rows ≠ sizes.length ∨ P.cols ≠ sizes.length ∨
      ∃ i < sizes.length, ∃ j < sizes.length, P.entry i j < 0 ∨ 1 < P.entry i j) :
    generalSbm R fuel sizes P exact ω = some (.throw .invalidArgument, ω) := by
  have hc : sbmChecks sizes P = .throw .invalidArgument := by
    unfold sbmChecks
    split_ifs with h1 h2 h3
    · rfl
    · rfl
    · rfl
    · exfalso
      simp only [Bool.not_eq_true, List.any_eq_false, List.mem_range,
        decide_eq_true_eq, not_or, not_lt] at h1 h2 h3
      rcases h with ⟨s, hs, hn⟩ | h | h | ⟨i, hi, j, hj, h⟩
      · have := h1 s hs; omega
      · exact h2.1 h
      · exact h2.2 h
      · have := h3 i hi j hj
        rcases h with h | h
        · exact absurd this.1 (not_le.2 h)
        · exact absurd this.2 (not_le.2 h)
  unfold generalSbm sbmInternal
  rw [if_neg (by omega), hc]
  rfl

/-! ## `sbm` and `erdos_renyi` -/

/-- The number of vertices `sbm` really generates. -/
theorem sbmSizes_eq {n k : Nat} :
    sbmSizes (n : Int) (k : Int) = (List.replicate k (n / k)).map (fun s : Nat => (s : Int)) := by
  unfold sbmSizes
  rw [List.map_replicate, Int.toNat_natCast]
  push_cast
  rfl

theorem sbm_args {n k : Nat} {p q : K} (hk : 1 ≤ k) (hkn : k ≤ n / 2)
    (hp : 0 ≤ p ∧ p ≤ 1) (hq : 0 ≤ q ∧ q ≤ 1) :
    SbmArgs (List.replicate k (n / k)) (sbmProbs (k : Int) p q) := by
  have hk2 : k ≤ n := by omega
  refine ⟨?_, by simp [sbmProbs], by simp [sbmProbs], ?_⟩
  · intro s hs
    rw [List.eq_of_mem_replicate hs]
    exact Nat.div_pos hk2 hk
  · intro i _ j _
    unfold sbmProbs
    simp only
    split_ifs
    · exact hp
    · exact hq

/-- **C40** (`sbm`).  `sbm(n, k, p, q)` has `k * (n / k)` vertices - fewer than `n` when `k` does not
divide `n` - in `k` clusters of equal size, with the within-cluster probability `p` and the
between-cluster probability `q`. -/
theorem C40_sbm (R : Rng K Ω) {fuel : Nat} {n k : Nat} {p q : K} {exact : Bool} (hn : 1 ≤ n)
    (hk : 1 ≤ k) (hkn : k ≤ n / 2) (hp : 0 ≤ p ∧ p ≤ 1) (hq : 0 ≤ q ∧ q ≤ 1) {ω ω' : Ω}
    {r : Outcome (Graph K)} (hr : sbm R fuel n k p q exact ω = some (r, ω')) :
    ∃ g, r = .ok g ∧ g.Valid ∧ g.n = k * (n / k) ∧
      SbmGraph (List.replicate k (n / k)) (fun i j => if i = j then p else q) exact g.n
        (fun u v => g.adj.coeff u v) := by
  unfold sbm at hr
  rw [if_neg (by omega), if_neg (by omega), if_neg (not_or.2 ⟨not_lt.2 hp.1, not_lt.2 hp.2⟩),
    if_neg (not_or.2 ⟨not_lt.2 hq.1, not_lt.2 hq.2⟩), sbmSizes_eq] at hr
  obtain ⟨g, h1, h2, h3⟩ := C40_general_sbm R (sbm_args hk hkn hp hq) hr
  refine ⟨g, h1, h2, ?_, h3⟩
  rw [h3.vertices, List.sum_replicate]; rfl

/-- **C40** (`sbm`: errors). -/
theorem C40_sbm_errors (R : Rng K Ω) (fuel : Nat) {n k : Int} {p q : K} {exact : Bool} (ω : Ω)
    (h : n < 1 ∨ k < 1 ∨ n / 2 < k ∨ p < 0 ∨ 1 < p ∨ q < 0 ∨ 1 < q) :
    sbm R fuel n k p q exact ω = some (.throw .invalidArgument, ω) := by
  unfold sbm
  split_ifs with h1 h2 h3 h4
  · rfl
  · rfl
  · rfl
  · rfl
  · exfalso; tauto

/-- **C40** (`erdos_renyi`).  The result has exactly `n` vertices, no self-loops, edges only if
`p > 0`, all edges if `p = 1`, no multiple edges in exact mode. -/
theorem C40_erdos_renyi (R : Rng K Ω) {fuel : Nat} {n : Nat} {p : K} {exact : Bool} (hn : 2 ≤ n)
    (hp : 0 ≤ p ∧ p ≤ 1) {ω ω' : Ω} {r : Outcome (Graph K)}
    (hr : erdosRenyi R fuel n p exact ω = some (r, ω')) :
    ∃ g, r = .ok g ∧ g.Valid ∧ g.n = n ∧ (∀ u, g.adj.coeff u u = 0) ∧
      (∀ u v, ∃ k : Nat, g.adj.coeff u v = k) ∧
      (exact = true → ∀ u < n, ∀ v < n, g.adj.coeff u v = 0 ∨ g.adj.coeff u v = 1) ∧
      (p = 0 → ∀ u v, g.adj.coeff u v = 0) ∧
      (p = 1 → ∀ u < n, ∀ v < n, u ≠ v → g.adj.coeff u v = 1) := by
  obtain ⟨g, h1, h2, h3, h4⟩ := C40_sbm R (n := n) (k := 1) (by omega) (le_refl _) (by omega) hp
    ⟨le_refl 0, zero_le_one⟩ hr
  have hn1 : g.n = n := by rw [h3]; simp
  have hin : ∀ u < n, InCluster (List.replicate 1 (n / 1)) 0 u := by
    intro u hu
    refine ⟨by simp, by simp, ?_⟩
    simpa using hu
  have hbt : ∀ u < n, ∀ v < n, Between (List.replicate 1 (n / 1)) 0 0 u v :=
    fun u hu v hv => ⟨le_refl _, .inl ⟨hin u hu, hin v hv⟩⟩
  refine ⟨g, h1, h2, hn1, h4.loopless, h4.integral,
    fun hx u hu v hv => h4.simple 0 0 u v (hbt u hu v hv) (.inl hx), ?_, ?_⟩
  · intro hp0 u v
    by_contra hne
    obtain ⟨c, d, hb, hpos⟩ := h4.possible u v hne
    have hc : c = 0 ∧ d = 0 := by
      have e1 : ∀ x y, InCluster (List.replicate 1 (n / 1)) x y → x = 0 := by
        rintro x y ⟨hx, -⟩
        simp at hx; exact hx
      rcases hb.2 with ⟨x, y⟩ | ⟨x, y⟩ <;> exact ⟨e1 _ _ x, e1 _ _ y⟩
    rw [hc.1, hc.2, if_pos rfl, hp0] at hpos
    exact lt_irrefl _ hpos
  · intro hp1 u hu v hv huv
    exact h4.certain 0 0 u v (hbt u hu v hv) (by rw [if_pos rfl, hp1]) huv

/-- **C40** (`erdos_renyi`: errors).  Besides bad probabilities, a single vertex is refused too. -/
theorem C40_erdos_renyi_errors (R : Rng K Ω) (fuel : Nat) {n : Int} {p : K} {exact : Bool} (ω : Ω)
    (h : n < 2 ∨ p < 0 ∨ 1 < p) :
    erdosRenyi R fuel n p exact ω = some (.throw .invalidArgument, ω) := by
  apply C40_sbm_errors
  rcases h with h | h | h
  · by_cases h1 : n < 1
    · exact .inl h1
    · right; right; left; omega
  · tauto
  · tauto

/-- **C40** (termination).  In the approximate mode the call returns as long as the generator does
not draw equal vertices for ever: if within `fuel` rounds two different vertices are always found,
the call returns. -/
theorem C40_general_sbm_returns_fair (R : Rng K Ω) (fuel : Nat) {sizes : List Nat} {P : DenseMat K}
    {exact : Bool} (h : SbmArgs sizes P) (ω : Ω)
    (hf : ∀ b : SbmBlock, 10000 ≤ b.m1 * b.m2 → ∀ ω, ∃ r, pickPair R b fuel ω = some r) :
    ∃ g ω', generalSbm R fuel (sizes.map (fun s : Nat => (s : Int))) P exact ω = some (.ok g, ω') := by
  have hpp : ∀ b : SbmBlock, 10000 ≤ b.m1 * b.m2 → ∀ n ω, ∃ r, pickPairs R b fuel n ω = some r := by
    intro b hb n
    induction n with
    | zero => intro ω; exact ⟨_, rfl⟩
    | succ n ih =>
      intro ω
      obtain ⟨⟨q, ω1⟩, h1⟩ := hf b hb ω
      obtain ⟨⟨es, ω2⟩, h2⟩ := ih ω1
      unfold pickPairs
      simp only [h1, h2]
      exact ⟨_, rfl⟩
  have hb : ∀ b ω, ∃ r, sampleBlock R fuel P exact b ω = some r := by
    intro b ω
    unfold sampleBlock
    split_ifs with hc
    · unfold sampleBinomial
      simp only
      split_ifs
      · exact ⟨_, rfl⟩
      · exact hpp b hc.1 _ _
    · exact ⟨_, rfl⟩
  have hall : ∀ bs ω, ∃ r, sampleBlocks R fuel P exact bs ω = some r := by
    intro bs
    induction bs with
    | nil => intro ω; exact ⟨_, rfl⟩
    | cons b bs ih =>
      intro ω
      obtain ⟨⟨es, ω1⟩, h1⟩ := hb b ω
      obtain ⟨⟨fs, ω2⟩, h2⟩ := ih ω1
      unfold sampleBlocks
      simp only [h1, h2]
      exact ⟨_, rfl⟩
  obtain ⟨r, hr⟩ := hall (outerBlocks 0 0 sizes) ω
  rcases generalSbm_eq R (fuel := fuel) (exact := exact) h ω with ⟨e, -⟩ | ⟨es, ω1, g, -, e2, -⟩
  · rw [hr] at e; cases e
  · exact ⟨g, ω1, e2⟩

/-- **C40** (vertex count).  The documentation promises `n` vertices; when `k` does not divide `n`
there are fewer, for every outcome of the draws. -/
theorem C40_sbm_loses_vertices (R : Rng ℚ Ω) (fuel : Nat) (ω ω' : Ω) {r : Outcome (Graph ℚ)}
    (hr : sbm R fuel 7 3 (1 / 2) (1 / 2) true ω = some (r, ω')) :
    ∃ g, r = .ok g ∧ g.n = 6 := by
  obtain ⟨g, h1, -, h3, -⟩ := C40_sbm R (n := 7) (k := 3) (by omega) (by omega) (by omega)
    (p := (1 / 2 : ℚ)) (q := 1 / 2) ⟨by norm_num, by norm_num⟩ ⟨by norm_num, by norm_num⟩ hr
  exact ⟨g, h1, h3⟩

end

/-! ## Examples -/

/-- A concrete generator: a counter; coins of probability strictly between 0 and 1 come up every
other time. -/
def demoRng : Rng ℚ Nat where
  coin p s := (decide (1 ≤ p ∨ (0 < p ∧ s % 2 = 0)), s + 1)
  normal m _ s := (m.floor, s + 1)
  unif m s := (s % (m + 1), s + 1)
  coin_zero s := by simp
  coin_one s := by simp
  unif_le m s := Nat.lt_succ_iff.1 (Nat.mod_lt s (Nat.succ_pos m))

/-- Two clusters of 2 and 3 vertices, connected inside, half the edges between. -/
def demoProbs : DenseMat ℚ := ⟨2, 2, fun i j => if i = j then 1 else 1 / 2⟩

/-- The hypotheses of `C40_general_sbm` are met. -/
example : SbmArgs [2, 3] demoProbs := by
  refine ⟨by decide, rfl, rfl, ?_⟩
  intro i _ j _
  unfold demoProbs
  simp only
  split_ifs <;> constructor <;> norm_num

/-- The edges drawn by the concrete generator. -/
example : (sampleBlocks demoRng 5 demoProbs false (outerBlocks 0 0 [2, 3]) 0).map
    (fun r => r.1.map (fun e => (e.u, e.v))) =
    some [(0, 1), (0, 3), (1, 2), (1, 4), (2, 3), (2, 4), (3, 4)] := by decide +kernel

/-- The generator always finds two different vertices within two rounds when the clusters have at
least 10000 pairs, as `C40_general_sbm_returns_fair` asks. -/
example (ω : Nat) : ∃ r, pickPair demoRng ⟨0, 0, 0, 0, 100, 100⟩ 2 ω = some r := by
  unfold pickPair pickPair demoRng
  simp only
  split_ifs with h1 h2
  · omega
  · exact ⟨_, rfl⟩
  · exact ⟨_, rfl⟩

end Stag
