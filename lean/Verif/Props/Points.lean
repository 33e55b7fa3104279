import Verif.PointsMath
import Verif.Props.Equitable
import Verif.Props.Similarity
import Verif.Props.Components

/-!
# C92: `similarity_graph` and `spectral_cluster` find well-separated groups of points
-/

namespace Stag

open Finset Recovery MeasureTheory Real

/-- The rows of `data` fall into `k` groups of at least `μ` points; the Gaussian similarity `exp (-a |x - y|²)` of two points
of a group is at least `t`, and of two points of different groups at most `b` (or so small, at most `EPSILON` = 1e-10, that
`similarity_graph` drops the edge). -/
structure GroupedPoints (data : Mat ℝ) (a : ℝ) (k : Nat) (S : Nat → Nat) (t b μ : ℝ) : Prop where
  label : ∀ u < data.rows, S u < k
  size : ∀ i < k, μ ≤ ((KMeans.cluster data.rows S i).card : ℝ)
  near : ∀ u < data.rows, ∀ v < data.rows, S u = S v → t ≤ exp (-(a * sqDist (data.row u) (data.row v)))
  far : ∀ u < data.rows, ∀ v < data.rows, S u ≠ S v →
    exp (-(a * sqDist (data.row u) (data.row v))) ≤ max b epsilon

theorem graphOfTriplets_reachable {N : Nat} {l : List (Triplet ℝ)} (hl : ∀ t ∈ l, t.row < N ∧ t.col < N)
    {g : Graph ℝ} (h : graphOfTriplets N l = .ok g) : g.Reachable := by
  obtain ⟨m, hm, hw, _⟩ := SprsMat.setFromTriplets_spec hl
  unfold graphOfTriplets at h
  rw [hm] at h
  exact ⟨m, g, [], hw, h, rfl⟩

/-- What `similarity_graph` returns can be used as an argument of every other function. -/
theorem similarity_reachable (data : Mat ℝ) (a : ℝ) (threads : Nat) (ht : 0 < threads) (g : Graph ℝ)
    (h : SimilarityGraph data a threads (.ok g)) : g.Reachable := by
  unfold SimilarityGraph at h
  split_ifs at h
  · exact graphOfTriplets_reachable (fun t ht => (simEdges_mem a data t ht).1) h.symm
  · obtain ⟨m, k, s, hex, hc, ho⟩ := h
    have : (List.range threads).flatMap (futureValue s.finished) = simEdges a data 0 data.rows := by
      rw [← simEdges_chunks a data threads ht]
      unfold List.flatMap
      rw [List.map_congr_left (futures_eq ht hex hc)]
    rw [this] at ho
    exact graphOfTriplets_reachable (fun t ht => (simEdges_mem a data t ht).1) ho.symm

/-- **C92** (the graph).  On grouped points every result of `similarity_graph`, for every number of threads and every
schedule, is a graph with self-loops of weight 1, weights between `t` and 1 inside the groups and at most `b` between
them. -/
theorem C92_graph (data : Mat ℝ) (a : ℝ) (ha : 0 ≤ a) (k : Nat) (S : Nat → Nat) (t b μ : ℝ)
    (ht : epsilon < t) (hb : 0 ≤ b) (hp : GroupedPoints data a k S t b μ) (threads : Nat) (hth : 0 < threads) :
    (∃ out, SimilarityGraph data a threads out) ∧
    ∀ out, SimilarityGraph data a threads out → ∃ g, out = .ok g ∧ g.Reachable ∧ g.n = data.rows ∧
      g.abs.TwoLevel k S t b μ ∧ (∀ u v, 0 ≤ g.abs.w u v) ∧ ∀ u, u < g.n → 0 < g.abs.deg u := by
  obtain ⟨h1, h2⟩ := C51_similarity_graph data a threads hth
  refine ⟨h1, fun out ho => ?_⟩
  obtain ⟨g, rfl, hv, _, hab⟩ := h2 out ho
  have hr := similarity_reachable data a threads hth g ho
  have hn : g.n = data.rows := congrArg WGraph.n hab
  have hw : ∀ i j, g.abs.w i j = thr (kernelWeight data a i j) := fun i j => by rw [hab]
  have hk : ∀ u < data.rows, ∀ v < data.rows,
      kernelWeight data a u v = exp (-(a * sqDist (data.row u) (data.row v))) := by
    intro u hu v hv
    unfold kernelWeight
    rw [if_pos ⟨hu, hv⟩]
  have hle1 : ∀ i j, g.abs.w i j ≤ 1 := fun i j => by rw [hw]; exact (C51_weights data a i j).2.2.1 ha
  have hw0 : ∀ i j, 0 ≤ g.abs.w i j := by
    intro i j
    rw [hw]
    rcases (C51_weights data a i j).2.2.2 with h | h
    · rw [h]
    · rw [h]; exact (exp_pos _).le
  have hloop : ∀ u < g.abs.n, g.abs.w u u = 1 := by
    intro u hu
    rw [hw]
    exact (C51_weights data a u u).2.1 (hn ▸ hu)
  have htl : g.abs.TwoLevel k S t b μ := by
    refine ⟨fun u hu => hp.label u (hn ▸ hu), fun i hi => ?_, hloop, fun u hu v hv hs => ⟨?_, hle1 u v⟩,
      fun u hu v hv hs => ⟨hw0 u v, ?_⟩⟩
    · have := hp.size i hi
      rwa [← hn] at this
    · have hn1 := hp.near u (hn ▸ hu) v (hn ▸ hv) hs
      rw [hw, hk u (hn ▸ hu) v (hn ▸ hv)]
      unfold thr
      rw [if_pos (lt_of_lt_of_le ht hn1)]
      exact hn1
    · have hf := hp.far u (hn ▸ hu) v (hn ▸ hv) hs
      rw [hw, hk u (hn ▸ hu) v (hn ▸ hv)]
      unfold thr
      split_ifs with hc
      · rcases le_max_iff.1 hf with h | h
        · exact h
        · exact absurd h (not_le.2 hc)
      · exact hb
  refine ⟨g, rfl, hr, hn, htl, hw0, fun u hu => ?_⟩
  unfold WGraph.deg
  have : 0 ≤ ∑ v ∈ range g.abs.n, g.abs.w u v := Finset.sum_nonneg fun v _ => hw0 u v
  rw [hloop u hu]
  linarith

section
variable {g : Graph ℝ} {k : Nat} {S : Nat → Nat} {t b μ : ℝ}

theorem TwoLevel.nonempty {s : WGraph ℝ} (h : s.TwoLevel k S t b μ) (hμ : 1 ≤ μ) : ∀ i < k, ∃ u < s.n, S u = i := by
  intro i hi
  have h1 := hμ.trans (h.size i hi)
  have : 0 < (KMeans.cluster s.n S i).card := by exact_mod_cast (lt_of_lt_of_le zero_lt_one h1)
  obtain ⟨u, hu⟩ := card_pos.1 this
  exact ⟨u, WGraph.mem_cluster.1 hu⟩

theorem TwoLevel.error_le {s : WGraph ℝ} (h : s.TwoLevel k S t b μ) (ht : 0 < t) (ht1 : t ≤ 1) (hb : 0 ≤ b) (hμ : 1 ≤ μ) :
    s.unevenness k S (WGraph.level s S t b) /
      ((1 - groupSpread s.n t b μ - k * b / t) - (1 - t / (2 + s.n * b / μ))) ^ 2 ≤ groupError s.n k t b μ := by
  have e : (1 - groupSpread s.n t b μ - k * b / t) - (1 - t / (2 + s.n * b / μ)) = groupGap s.n k t b μ := by
    unfold groupGap; ring
  rw [e]
  unfold groupError
  exact div_le_div_of_nonneg_right (h.unevenness_le ht ht1 hb hμ (TwoLevel.nonempty h hμ)) (sq_nonneg _)

theorem TwoLevel.gap (solve : EigenSolver) (hsolve : SolverSpec solve) (h : g.Reachable)
    (hw : ∀ u v, 0 ≤ g.abs.w u v) (hd : ∀ v, v < g.n → 0 < g.abs.deg v) (htl : g.abs.TwoLevel k S t b μ)
    (ht : 0 < t) (ht1 : t ≤ 1) (hb : 0 ≤ b) (hμ : 1 ≤ μ)
    (res : EigenPairs) (hres : computeEigensystem solve g .normalisedLaplacian k .smallest = .ok res) :
    ∀ m v, IsEigen g.n (matrixOf g.abs .normalisedLaplacian) m v → (∃ i < g.n, v i ≠ 0) →
      (∀ p ∈ res, dot g.n p.2 v = 0) → 1 - groupSpread g.n t b μ - k * b / t ≤ m :=
  C85_gap solve hsolve h hw hd k res hres _ (fun i u => if S u = i then 1 else 0)
    fun x hx => htl.test ht ht1 hb hμ (TwoLevel.nonempty htl hμ) x hx

end

section
variable {g : Graph ℝ} {k : Nat} {S : Nat → Nat} {t b μ : ℝ}
  (solve : EigenSolver) (hsolve : SolverSpec solve) (h : g.Reachable)
  (hw : ∀ u v, 0 ≤ g.abs.w u v) (hd : ∀ v, v < g.n → 0 < g.abs.deg v) (htl : g.abs.TwoLevel k S t b μ)
  (ht : 0 < t) (ht1 : t ≤ 1) (hb : 0 ≤ b) (hμ : 1 ≤ μ) (hgap : 0 < groupGap g.n k t b μ)
  (res : EigenPairs) (hres : computeEigensystem solve g .normalisedLaplacian k .smallest = .ok res)

include hsolve h hw hd htl ht ht1 hb hμ hgap hres

/-- The distance of the groups from the span of the embedding. -/
theorem TwoLevel.defect : spanDefect g.n k res S ≤ groupError g.n k t b μ := by
  have hex := C53_eigensystem solve hsolve h hw _ k .smallest (fun _ => hd) res hres
  rw [Int.toNat_natCast] at hex
  refine (span_equitable h hex _ (TwoLevel.gap solve hsolve h hw hd htl ht ht1 hb hμ res hres) S htl.label
    (TwoLevel.nonempty htl hμ) _ _ (htl.strength ht hb hμ) ?_).trans (TwoLevel.error_le htl ht ht1 hb hμ)
  unfold groupGap at hgap
  change 1 - t / (2 + g.n * b / μ) < _
  linarith

/-- The groups have a small cost in the embedding. -/
theorem TwoLevel.embedding :
    ∃ Mu, KMeans.cost (embedding (res.map Prod.snd)) g.n k Mu S ≤ groupError g.n k t b μ := by
  have hS : ∀ i < k, ∃ u < g.n, S u = i := TwoLevel.nonempty htl hμ
  have hdef := TwoLevel.defect solve hsolve h hw hd htl ht ht1 hb hμ hgap res hres
  have hex := C53_eigensystem solve hsolve h hw _ k .smallest (fun _ => hd) res hres
  rw [Int.toNat_natCast] at hex
  obtain ⟨Mu, hMu⟩ := span_cost hex S htl.label hS
  exact ⟨Mu, hMu.le.trans hdef⟩

/-- Labels of a small cost agree with the groups. -/
theorem TwoLevel.matching (hk : 1 ≤ k ∧ 2 * k ≤ g.n) (junk : Nat → ℝ) (labels : List Nat)
    (hlab : spectralCluster solve g k junk = .ok labels) (Mu : Nat → Nat → ℝ) (e : ℝ) (he : e < 1 / 2)
    (hcost : 2 * (groupError g.n k t b μ +
        KMeans.cost (Stag.embedding (res.map Prod.snd)) g.n k Mu (fun u => labels.getD u 0)) ≤ e) :
    (∃ σ : Equiv.Perm (Fin k),
      (((range g.n).filter fun u => ∃ i : Fin k, S u = i ∧ labels.getD u 0 ≠ σ i).card : ℝ) ≤ 2 * e * g.n) ∧
    (2 * e * g.n < 1 → ∀ u < g.n, ∀ v < g.n, labels.getD u 0 = labels.getD v 0 ↔ S u = S v) := by
  have hS : ∀ i < k, ∃ u < g.n, S u = i := TwoLevel.nonempty htl hμ
  have hdef := TwoLevel.defect solve hsolve h hw hd htl ht ht1 hb hμ hgap res hres
  have hex := C53_eigensystem solve hsolve h hw _ k .smallest (fun _ => hd) res hres
  rw [Int.toNat_natCast] at hex
  have hA : ∀ u < g.n, labels.getD u 0 < k := labels_lt solve hsolve h hw hd k hk junk labels hlab
  have h1 := agreement_ge (embedding_on hex) S (fun u => labels.getD u 0) hA hS Mu
  have hag : (k : ℝ) - e ≤ agreement g.n k S (fun u => labels.getD u 0) := by
    refine le_trans ?_ h1
    unfold spanDefect at hdef
    change (k : ℝ) - e ≤ (k : ℝ) -
      2 * (_ + KMeans.cost (fun u j => Stag.embedding (res.map Prod.snd) u j) g.n k Mu (fun u => labels.getD u 0))
    have hcost' : 2 * (groupError g.n k t b μ +
      KMeans.cost (fun u j => Stag.embedding (res.map Prod.snd) u j) g.n k Mu (fun u => labels.getD u 0)) ≤ e := hcost
    linarith
  obtain ⟨σ, hσ⟩ := agreement_matching S (fun u => labels.getD u 0) htl.label hA hS e he hag
  exact ⟨⟨σ, mislabelled_le S (fun u => labels.getD u 0) htl.label σ e fun i => (hσ i).2⟩,
    fun hn => agreement_exact S (fun u => labels.getD u 0) htl.label hA hS e hn he hag⟩

/-- With independent uniform draws the labels are the groups with high probability. -/
theorem TwoLevel.probability (hk : 1 ≤ k ∧ 2 * k ≤ g.n) (Mu : Nat → Nat → ℝ) (Z : Nat → Nat) (junk : Nat → ℝ)
    (c : ℝ) (hc : 0 < c) (hcn : 4 * (groupError g.n k t b μ + c) * g.n < 1) :
    ENNReal.ofReal c * streamLaw unif {u | ¬ ∃ r,
        KMeans.runKMeans (Stag.embedding (res.map Prod.snd)) g.n k k (k * 100 : Nat) u Mu Z junk = .ok r ∧
        ∀ x < g.n, ∀ y < g.n, r.2 x = r.2 y ↔ S x = S y}
      ≤ ENNReal.ofReal (8 * (Real.log k + 2) * groupError g.n k t b μ) := by
  have hS : ∀ i < k, ∃ u < g.n, S u = i := TwoLevel.nonempty htl hμ
  have hdef := TwoLevel.defect solve hsolve h hw hd htl ht ht1 hb hμ hgap res hres
  have hex := C53_eigensystem solve hsolve h hw _ k .smallest (fun _ => hd) res hres
  rw [Int.toNat_natCast] at hex
  have hpr := KMeans.span_probability hex (by omega) hk.1 Mu Z junk S htl.label hS _ hdef c hc
  have hn1 : (2 : ℝ) ≤ g.n := by exact_mod_cast (show 2 ≤ g.n by omega)
  have hE0 : 0 ≤ groupError g.n k t b μ := (span_nonneg hex S).trans hdef
  refine le_trans ?_ hpr
  refine mul_le_mul_right (measure_mono fun u hu => ?_) _
  rw [Set.mem_ofPred_eq] at hu ⊢
  rintro ⟨r, hr, hrk, hag⟩
  refine hu ⟨r, hr, agreement_exact S r.2 htl.label hrk hS (2 * (groupError g.n k t b μ + c)) (by linarith) ?_ hag⟩
  nlinarith

end

/-- If there are no edges between the groups, they are the connected components. -/
theorem TwoLevel.components {g : Graph ℝ} {k : Nat} {S : Nat → Nat} {t μ : ℝ} (hv : g.Valid) (hpr : g.Pruned)
    (htl : g.abs.TwoLevel k S t 0 μ) (ht0 : 0 < t) (fuel : Nat) (hf : g.n ≤ fuel) :
    ∃ cs : List (List Int), g.connectedComponents fuel = some (.ok cs) ∧ cs.flatten.Nodup ∧
      (∀ v : Int, v ∈ cs.flatten ↔ 0 ≤ v ∧ v < g.n) ∧
      ∀ c ∈ cs, c ≠ [] ∧ ∀ u ∈ c, ∀ v : Int, v ∈ c ↔ 0 ≤ v ∧ v < g.n ∧ S u.toNat = S v.toNat := by
  obtain ⟨cs, h1, h2, h3, h4⟩ := C30_components hv hpr.noZeros hf
  refine ⟨cs, h1, h2, h3, fun c hc => ⟨(h4 c hc).1, fun u hu v => ?_⟩⟩
  rw [(h4 c hc).2 u hu v]
  have hu' := (h3 u).1 (List.mem_flatten.2 ⟨c, hc, hu⟩)
  have hun : u.toNat < g.n := by omega
  have hcon : ∀ w, g.abs.Connected u.toNat w → w < g.n ∧ S u.toNat = S w := by
    intro w hw'
    induction hw' with
    | refl => exact ⟨hun, rfl⟩
    | step _ hE ih =>
      rename_i x y _
      have hy : y < g.n := hE.2.1
      refine ⟨hy, ih.2.trans ?_⟩
      by_contra hne
      have := htl.between x hE.1 y hy hne
      exact hE.2.2 (le_antisymm this.2 this.1)
  constructor
  · rintro ⟨h0, hco⟩
    have := hcon _ hco
    exact ⟨h0, by omega, this.2⟩
  · rintro ⟨h0, hvn, hs⟩
    refine ⟨h0, Reach.step Reach.refl ⟨hun, ?_, ?_⟩⟩
    · change v.toNat < g.n
      omega
    · have := htl.within u.toNat hun v.toNat (by change v.toNat < g.n; omega) hs
      intro hz
      linarith [this.1]

section
variable (data : Mat ℝ) (a : ℝ) (ha : 0 ≤ a) (k : Nat) (S : Nat → Nat) (t b μ : ℝ)
  (ht : epsilon < t) (ht1 : t ≤ 1) (hb : 0 ≤ b) (hμ : 1 ≤ μ) (hp : GroupedPoints data a k S t b μ)
  (hgap : 0 < groupGap data.rows k t b μ) (threads : Nat) (hth : 0 < threads)
  (g : Graph ℝ) (hg : SimilarityGraph data a threads (.ok g))
  (solve : EigenSolver) (hsolve : SolverSpec solve) (res : EigenPairs)
  (hres : computeEigensystem solve g .normalisedLaplacian k .smallest = .ok res)

include ha ht ht1 hb hμ hp hgap hth hg hsolve hres

/-- **C92** (the embedding).  In the embedding that `spectral_cluster` clusters, the groups have k-means cost at most
`groupError`. -/
theorem C92_embedding :
    ∃ Mu, KMeans.cost (embedding (res.map Prod.snd)) data.rows k Mu S ≤ groupError data.rows k t b μ := by
  obtain ⟨g', hg', hr, hn, htl, hw, hd⟩ := (C92_graph data a ha k S t b μ ht hb hp threads hth).2 _ hg
  cases hg'
  have ht0 : 0 < t := lt_trans (by unfold epsilon; norm_num) ht
  rw [← hn] at hgap ⊢
  exact TwoLevel.embedding solve hsolve hr hw hd htl ht0 ht1 hb hμ hgap res hres

/-- **C92** (the labels).  If the labels that `spectral_cluster` returns have k-means cost `c` for some centres and
`e = 2 (groupError + c) < 1/2`, groups and labels can be matched so that at most `2 e n` points do not have the label of
their group; if `2 e n < 1`, two points have the same label exactly if they are in the same group. -/
theorem C92_matching (hk : 1 ≤ k ∧ 2 * k ≤ data.rows) (junk : Nat → ℝ) (labels : List Nat)
    (hlab : spectralCluster solve g k junk = .ok labels) (Mu : Nat → Nat → ℝ) (e : ℝ) (he : e < 1 / 2)
    (hcost : 2 * (groupError data.rows k t b μ +
        KMeans.cost (embedding (res.map Prod.snd)) data.rows k Mu (fun u => labels.getD u 0)) ≤ e) :
    (∃ σ : Equiv.Perm (Fin k),
      (((range data.rows).filter fun u => ∃ i : Fin k, S u = i ∧ labels.getD u 0 ≠ σ i).card : ℝ)
        ≤ 2 * e * data.rows) ∧
    (2 * e * data.rows < 1 → ∀ u < data.rows, ∀ v < data.rows, labels.getD u 0 = labels.getD v 0 ↔ S u = S v) := by
  obtain ⟨g', hg', hr, hn, htl, hw, hd⟩ := (C92_graph data a ha k S t b μ ht hb hp threads hth).2 _ hg
  cases hg'
  have ht0 : 0 < t := lt_trans (by unfold epsilon; norm_num) ht
  rw [← hn] at hgap hcost hk ⊢
  exact TwoLevel.matching solve hsolve hr hw hd htl ht0 ht1 hb hμ hgap res hres hk junk labels hlab Mu e he hcost

/-- **C92** (the probability).  If the draws of k-means++ were independent and uniform, the probability that the labels are
not exactly the groups would be at most `8 (ln k + 2) groupError / c`, for every `c` with `4 (groupError + c) n < 1`. -/
theorem C92_probability (hk : 1 ≤ k ∧ 2 * k ≤ data.rows) (Mu : Nat → Nat → ℝ) (Z : Nat → Nat) (junk : Nat → ℝ)
    (c : ℝ) (hc : 0 < c) (hcn : 4 * (groupError data.rows k t b μ + c) * data.rows < 1) :
    ENNReal.ofReal c * streamLaw unif {u | ¬ ∃ r,
        KMeans.runKMeans (embedding (res.map Prod.snd)) data.rows k k (k * 100 : Nat) u Mu Z junk = .ok r ∧
        ∀ x < data.rows, ∀ y < data.rows, r.2 x = r.2 y ↔ S x = S y}
      ≤ ENNReal.ofReal (8 * (Real.log k + 2) * groupError data.rows k t b μ) := by
  obtain ⟨g', hg', hr, hn, htl, hw, hd⟩ := (C92_graph data a ha k S t b μ ht hb hp threads hth).2 _ hg
  cases hg'
  have ht0 : 0 < t := lt_trans (by unfold epsilon; norm_num) ht
  rw [← hn] at hgap hcn hk ⊢
  exact TwoLevel.probability solve hsolve hr hw hd htl ht0 ht1 hb hμ hgap res hres hk Mu Z junk c hc hcn

end

/-- **C92** (connected components).  If the similarity of points of a group is above `1e-10` and of points of different
groups is not, the connected components of the similarity graph are the groups: two points are connected exactly if they
are in the same group. -/
theorem C92_components (data : Mat ℝ) (a : ℝ) (ha : 0 ≤ a) (k : Nat) (S : Nat → Nat) (t μ : ℝ)
    (ht : epsilon < t) (hp : GroupedPoints data a k S t 0 μ) (threads : Nat) (hth : 0 < threads)
    (g : Graph ℝ) (hg : SimilarityGraph data a threads (.ok g)) (fuel : Nat) (hf : g.n ≤ fuel) :
    ∃ cs : List (List Int), g.connectedComponents fuel = some (.ok cs) ∧ cs.flatten.Nodup ∧
      (∀ v : Int, v ∈ cs.flatten ↔ 0 ≤ v ∧ v < data.rows) ∧
      ∀ c ∈ cs, c ≠ [] ∧ ∀ u ∈ c, ∀ v : Int, v ∈ c ↔ 0 ≤ v ∧ v < data.rows ∧ S u.toNat = S v.toNat := by
  obtain ⟨g', hg', hr, hn, htl, hw, hd⟩ := (C92_graph data a ha k S t 0 μ ht le_rfl hp threads hth).2 _ hg
  cases hg'
  obtain ⟨_, hg2, hv, hpr, _⟩ := (C51_similarity_graph data a threads hth).2 _ hg
  cases hg2
  rw [← hn]
  exact TwoLevel.components hv hpr htl (lt_trans (by unfold epsilon; norm_num) ht) fuel hf

/-- Four points on a line in two groups. -/
noncomputable def fourPoints : Mat ℝ := ⟨4, 1, [0, 1 / 100, 10, 1001 / 100]⟩

theorem fourPoints_grouped : GroupedPoints fourPoints 1 2 (fun u => u / 2) (9999 / 10000) 0 2 := by
  have hd : ∀ u < 4, ∀ v < 4, sqDist (fourPoints.row u) (fourPoints.row v) =
      ([0, 1 / 100, 10, 1001 / 100].getD u 0 - [0, 1 / 100, 10, 1001 / 100].getD v 0) ^ 2 := by
    intro u hu v hv
    interval_cases u <;> interval_cases v <;> simp [sqDist, fourPoints, Mat.row, Mat.coeff]
  have hnear : ∀ x : ℝ, x ≤ 1 / 10000 → 9999 / 10000 ≤ exp (-(1 * x)) := by
    intro x hx
    have := Real.add_one_le_exp (-(1 * x))
    linarith
  have hfar : ∀ x : ℝ, 99 ≤ x → exp (-(1 * x)) ≤ max 0 epsilon := by
    intro x hx
    refine le_trans (Real.exp_le_exp.2 (show -(1 * x) ≤ -((99 : ℕ) : ℝ) by push_cast; linarith)) (le_max_of_le_right ?_)
    rw [Real.exp_neg, ← Real.exp_one_pow]
    have h2 : (2 : ℝ) ^ 99 ≤ exp 1 ^ 99 := by
      have := Real.add_one_le_exp (1 : ℝ)
      exact pow_le_pow_left₀ (by norm_num) (by linarith) 99
    refine (inv_anti₀ (by positivity) h2).trans ?_
    unfold epsilon
    norm_num
  refine ⟨?_, ?_, ?_, ?_⟩
  · intro u hu
    change u < 4 at hu
    show u / 2 < 2
    omega
  · intro i hi
    have : (KMeans.cluster fourPoints.rows (fun u => u / 2) i).card = 2 := by
      change (KMeans.cluster 4 (fun u => u / 2) i).card = 2
      interval_cases i <;> decide
    rw [this]
    norm_num
  · intro u hu v hv hs
    change u < 4 at hu
    change v < 4 at hv
    change u / 2 = v / 2 at hs
    rw [hd u hu v hv]
    apply hnear
    interval_cases u <;> interval_cases v <;> first | (exfalso; omega) | (simp; try norm_num)
  · intro u hu v hv hs
    change u < 4 at hu
    change v < 4 at hv
    change u / 2 ≠ v / 2 at hs
    rw [hd u hu v hv]
    apply hfar
    interval_cases u <;> interval_cases v <;> first | (exfalso; omega) | (simp; try norm_num)

/-- **C92** (a case).  The points 0, 0.01, 10 and 10.01 with `a = 1`: the hypotheses are met for every number of threads and
every solver that meets its contract, and with independent uniform draws the labels are the two groups with probability at
least 0.999. -/
theorem C92_four_points (threads : Nat) (hth : 0 < threads) :
    (∃ g solve res, SimilarityGraph fourPoints 1 threads (.ok g) ∧ SolverSpec solve ∧
      computeEigensystem solve g .normalisedLaplacian 2 .smallest = .ok res) ∧
    ∀ (g : Graph ℝ) (solve : EigenSolver) (res : EigenPairs), SimilarityGraph fourPoints 1 threads (.ok g) →
      SolverSpec solve → computeEigensystem solve g .normalisedLaplacian 2 .smallest = .ok res →
      ∀ (Mu : Nat → Nat → ℝ) (Z : Nat → Nat) (junk : Nat → ℝ),
        streamLaw unif {u | ¬ ∃ r,
          KMeans.runKMeans (embedding (res.map Prod.snd)) 4 2 2 200 u Mu Z junk = .ok r ∧
          ∀ x < 4, ∀ y < 4, r.2 x = r.2 y ↔ x / 2 = y / 2} ≤ ENNReal.ofReal (1 / 1000) := by
  have heps : (epsilon : ℝ) < 9999 / 10000 := by unfold epsilon; norm_num
  have hsp : groupSpread 4 (9999 / 10000) 0 2 = 19999 / 99990000 := by unfold groupSpread; norm_num
  have hgap : groupGap 4 2 (9999 / 10000) 0 2 = 9999 / 20000 - 19999 / 99990000 := by
    unfold groupGap
    rw [hsp]
    norm_num
  have herr : groupError 4 2 (9999 / 10000) 0 2 ≤ 1 / 10 ^ 6 := by
    unfold groupError
    rw [hsp, hgap]
    norm_num
  constructor
  · obtain ⟨⟨out, hout⟩, hall⟩ := C92_graph fourPoints 1 (by norm_num) 2 (fun u => u / 2) _ _ _ heps le_rfl
      fourPoints_grouped threads hth
    obtain ⟨g, rfl, hr, hn, htl, hw, hd⟩ := hall out hout
    obtain ⟨solve, hs, hans⟩ := C53_always_answers
    obtain ⟨res, hres⟩ := hans g .normalisedLaplacian 2 .smallest hr (by norm_num)
      (by rw [hn]; change (2 : Int) < (4 : Nat); norm_num) (fun _ => hd)
    exact ⟨g, solve, res, hout, hs, hres⟩
  · intro g solve res hg hs hres Mu Z junk
    have h := C92_probability fourPoints 1 (by norm_num) 2 (fun u => u / 2) _ _ _ heps (by norm_num) le_rfl (by norm_num)
      fourPoints_grouped (by change 0 < groupGap 4 2 _ _ _; rw [hgap]; norm_num) threads hth g hg solve hs res hres
      (by change 1 ≤ 2 ∧ 2 * 2 ≤ 4; norm_num) Mu Z junk (5 / 100) (by norm_num)
      (by change 4 * (groupError 4 2 _ _ _ + 5 / 100) * ((4 : Nat) : ℝ) < 1; push_cast; linarith)
    change ENNReal.ofReal (5 / 100) * streamLaw unif {u | ¬ ∃ r,
          KMeans.runKMeans (embedding (res.map Prod.snd)) 4 2 2 200 u Mu Z junk = .ok r ∧
          ∀ x < 4, ∀ y < 4, r.2 x = r.2 y ↔ x / 2 = y / 2} ≤
      ENNReal.ofReal (8 * (Real.log ((2 : Nat) : ℝ) + 2) * groupError 4 2 (9999 / 10000) 0 2) at h
    have hlog : Real.log ((2 : Nat) : ℝ) ≤ 1 := by
      push_cast
      have := Real.log_le_sub_one_of_pos (show (0 : ℝ) < 2 by norm_num)
      linarith
    have hlog0 : 0 ≤ Real.log ((2 : Nat) : ℝ) := Real.log_natCast_nonneg 2
    have hb : 8 * (Real.log ((2 : Nat) : ℝ) + 2) * groupError 4 2 (9999 / 10000) 0 2 ≤ 5 / 100 * (1 / 1000) := by
      calc 8 * (Real.log ((2 : Nat) : ℝ) + 2) * groupError 4 2 (9999 / 10000) 0 2
          ≤ 8 * (Real.log ((2 : Nat) : ℝ) + 2) * (1 / 10 ^ 6) := mul_le_mul_of_nonneg_left herr (by linarith)
        _ ≤ 5 / 100 * (1 / 1000) := by
          norm_num at hlog ⊢
          linarith
    have h2 := h.trans (ENNReal.ofReal_le_ofReal hb)
    rw [ENNReal.ofReal_mul (by norm_num)] at h2
    exact (ENNReal.mul_le_mul_iff_right (by rw [Ne, ENNReal.ofReal_eq_zero, not_le]; norm_num) ENNReal.ofReal_ne_top).1 h2

end Stag
