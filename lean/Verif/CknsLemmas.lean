import Verif.Ckns
import Mathlib.Data.List.GetD

/-!
# Lemmas about the CKNS queries: the chunked query solves every row like the single query
-/

namespace Stag

section
variable {R : Type} (A : Arith R)

/-- A traversal that updates the entry of each element once. -/
theorem foldl_update {γ : Type} (f : Nat → γ → γ) : ∀ (L : List Nat) (e : Nat → γ), L.Nodup →
    L.foldl (fun e i => fun i' => if i' = i then f i (e i) else e i') e
      = fun i' => if i' ∈ L then f i' (e i') else e i' := by
  intro L
  induction L with
  | nil => intro e _; simp
  | cons x L ih =>
    intro e h
    rw [List.nodup_cons] at h
    rw [List.foldl_cons, ih _ h.2]
    funext i'
    by_cases h1 : i' ∈ L
    · have hne : i' ≠ x := fun hx => h.1 (hx ▸ h1)
      simp [h1, hne]
    · by_cases h2 : i' = x
      · subst h2; simp [h1]
      · simp [h1, h2]

theorem modify_replicate_map {γ : Type} (g : Nat → γ → γ) : ∀ (k : Nat) (l : List γ), k ≤ l.length →
    (List.range k).foldl (fun l iter => l.modify iter (g iter)) l
      = l.mapIdx (fun i x => if i < k then g i x else x) := by
  intro k
  induction k with
  | zero =>
    intro l _
    apply List.ext_getElem (by simp)
    intro i h1 h2
    simp
  | succ k ih =>
    intro l h
    rw [List.range_succ, List.foldl_append, ih l (by omega)]
    simp only [List.foldl_cons, List.foldl_nil]
    apply List.ext_getElem (by simp)
    intro i h1 h2
    rw [List.getElem_modify]
    simp only [List.getElem_mapIdx]
    by_cases e : k = i
    · subst e; simp
    · by_cases e2 : i < k
      · simp [e, e2, Nat.lt_succ_of_lt e2]
      · have e3 : ¬ i < k + 1 := by omega
        simp [e, e2, e3]

theorem foldl_modify {γ : Type} (iter : Nat) (g : Nat → γ → γ) : ∀ (L : List Nat) (l : List γ),
    L.foldl (fun l j => l.modify iter (g j)) l
      = l.modify iter (fun x => L.foldl (fun x j => g j x) x) := by
  intro L
  induction L with
  | nil => intro l; simp only [List.foldl_nil]; exact (List.modify_id iter l).symm
  | cons j L ih =>
    intro l
    rw [List.foldl_cons, ih, List.modify_modify_eq]
    rfl

/-- The estimates of an unsolved row are those of the single query. -/
theorem iterEstimates_eq {k1 J : Nat} {u : Nat → Nat → Nat → R}
    {ord : Nat → Nat → List Nat → List Nat} {unsolved : List Nat} (hnd : unsolved.Nodup)
    (hord : ∀ iter j, (ord iter j unsolved).Perm unsolved) {i : Nat} (hi : i ∈ unsolved) :
    iterEstimates A k1 J u ord unsolved i
      = (List.range k1).map (fun iter => copyEstimate A (u i iter) J) := by
  have h1 : ∀ (iter j : Nat) (e : Nat → List R),
      (ord iter j unsolved).foldl (fun e i => addEstimate A iter i (u i iter j) e) e
        = fun i' => if i' ∈ unsolved then (e i').modify iter (fun x => A.add x (u i' iter j))
            else e i' := by
    intro iter j e
    unfold addEstimate
    rw [foldl_update (fun i l => l.modify iter (fun x => A.add x (u i iter j))) _ e
      ((hord iter j).nodup_iff.2 hnd)]
    funext i'
    simp only [(hord iter j).mem_iff]
  have h2 : ∀ (iter : Nat) (L : List Nat) (e : Nat → List R),
      L.foldl (fun e j => (ord iter j unsolved).foldl
        (fun e i => addEstimate A iter i (u i iter j) e) e) e i
        = L.foldl (fun l j => l.modify iter (fun x => A.add x (u i iter j))) (e i) := by
    intro iter L
    induction L with
    | nil => intro e; rfl
    | cons j L ih =>
      intro e
      rw [List.foldl_cons, ih, h1]
      simp [hi]
  have h3 : ∀ (L : List Nat) (e : Nat → List R),
      L.foldl (fun e iter => (List.range (J + 1)).foldl (fun e j => (ord iter j unsolved).foldl
        (fun e i => addEstimate A iter i (u i iter j) e) e) e) e i
        = L.foldl (fun l iter => l.modify iter (fun x =>
            (List.range (J + 1)).foldl (fun x j => A.add x (u i iter j)) x)) (e i) := by
    intro L
    induction L with
    | nil => intro e; rfl
    | cons iter L ih =>
      intro e
      rw [List.foldl_cons, ih, h2, foldl_modify]
      rfl
  unfold iterEstimates
  rw [h3, modify_replicate_map _ k1 _ (by simp)]
  apply List.ext_getElem (by simp)
  intro t h4 h5
  have h6 : t < k1 := by simpa using h5
  simp [h6, copyEstimate]

/-- The traversal of the unsolved rows. -/
theorem solve_foldl (lo it : Nat) (est : Nat → List R) : ∀ (L : List Nat) (r : List R)
    (last : Nat → R) (newly : List Nat), L.Nodup → (∀ i ∈ L, lo ≤ i) →
    ∃ r', L.foldl (solveOne A lo it est) ((r, last), newly)
      = ((r', fun i => if i ∈ L then A.median (est i) else last i),
          newly ++ L.filter (fun i => A.accept it (A.median (est i)))) ∧ r'.length = r.length ∧
      ∀ i, lo ≤ i → r'[i - lo]? = if i - lo < r.length ∧ i ∈ L ∧ A.accept it (A.median (est i)) = true
        then some (A.divN (A.median (est i))) else r[i - lo]? := by
  intro L
  induction L with
  | nil => intro r last newly _ _; exact ⟨r, by simp⟩
  | cons x L ih =>
    intro r last newly hnd hlo
    rw [List.nodup_cons] at hnd
    rw [List.foldl_cons]
    by_cases ha : A.accept it (A.median (est x)) = true
    · obtain ⟨r', h1, h2, h3⟩ := ih (r.set (x - lo) (A.divN (A.median (est x))))
        (fun i' => if i' = x then A.median (est x) else last i') (newly ++ [x]) hnd.2
        (fun i hi => hlo i (List.mem_cons_of_mem _ hi))
      refine ⟨r', ?_, by simpa using h2, ?_⟩
      · have : solveOne A lo it est ((r, last), newly) x
            = ((r.set (x - lo) (A.divN (A.median (est x))),
                fun i' => if i' = x then A.median (est x) else last i'), newly ++ [x]) := by
          simp [solveOne, ha]
        rw [this, h1]
        refine Prod.ext (Prod.ext rfl ?_) ?_
        · funext i
          by_cases e : i = x
          · subst e; simp
          · simp [e]
        · simp [ha]
      · intro i hi
        rw [h3 i hi, List.length_set, List.getElem?_set]
        have hx := hlo x List.mem_cons_self
        by_cases e : i = x
        · subst e
          by_cases hl : i - lo < r.length
          · simp [hnd.1, ha, hl]
          · simp [hnd.1, hl]
        · have : x - lo ≠ i - lo := by omega
          simp [e, this]
    · obtain ⟨r', h1, h2, h3⟩ := ih r
        (fun i' => if i' = x then A.median (est x) else last i') newly hnd.2
        (fun i hi => hlo i (List.mem_cons_of_mem _ hi))
      refine ⟨r', ?_, h2, ?_⟩
      · have : solveOne A lo it est ((r, last), newly) x
            = ((r, fun i' => if i' = x then A.median (est x) else last i'), newly) := by
          simp [solveOne, ha]
        rw [this, h1]
        refine Prod.ext (Prod.ext rfl ?_) ?_
        · funext i
          by_cases e : i = x
          · subst e; simp
          · simp [e]
        · simp [ha]
      · intro i hi
        rw [h3 i hi]
        by_cases e : i = x
        · subst e
          simp [ha]
        · simp [e]

theorem foldl_erase (L : List Nat) : ∀ (U : List Nat), U.Nodup →
    (L.foldl (fun us i => us.erase i) U).Nodup ∧
    ∀ i, i ∈ L.foldl (fun us i => us.erase i) U ↔ i ∈ U ∧ i ∉ L := by
  induction L with
  | nil => intro U h; simp [h]
  | cons x L ih =>
    intro U h
    rw [List.foldl_cons]
    obtain ⟨h1, h2⟩ := ih (U.erase x) (h.erase x)
    refine ⟨h1, fun i => ?_⟩
    rw [h2, h.mem_erase_iff]
    simp only [List.mem_cons, not_or]
    tauto

/-- The invariant of the loop of `chunk_query` when `m` iterations from `it` on are left. -/
structure ChunkInv (k1 iters : Nat) (J : Nat → Nat) (u : Nat → Nat → Nat → Nat → R) (lo hi it : Nat)
    (s : ChunkState R) : Prop where
  len : s.results.length = hi - lo
  nodup : s.unsolved.Nodup
  range : ∀ i ∈ s.unsolved, lo ≤ i ∧ i < hi
  solved : ∀ i, lo ≤ i → i < hi → i ∉ s.unsolved →
    s.results[i - lo]? = some (queryLoop A k1 J (u i) 0 iters A.zero)
  left : ∀ i ∈ s.unsolved, queryLoop A k1 J (u i) it (iters - it) (s.last i)
    = queryLoop A k1 J (u i) 0 iters A.zero

theorem chunkInv_step {k1 iters : Nat} {J : Nat → Nat} {u : Nat → Nat → Nat → Nat → R}
    {lo hi it : Nat} {s : ChunkState R} {ord : Nat → Nat → List Nat → List Nat}
    {ord' : List Nat → List Nat} (hord : ∀ iter j l, (ord iter j l).Perm l)
    (hord' : ∀ l, (ord' l).Perm l) (hit : it < iters) (h : ChunkInv A k1 iters J u lo hi it s) :
    ChunkInv A k1 iters J u lo hi (it + 1) (chunkIteration A lo k1 J u ord ord' it s) := by
  obtain ⟨r', h1, h2, h3⟩ := solve_foldl A lo it
    (iterEstimates A k1 (J it) (fun i iter j => u i it iter j) ord s.unsolved)
    (ord' s.unsolved) s.results s.last [] ((hord' _).nodup_iff.2 h.nodup)
    (fun i hi => (h.range i ((hord' _).mem_iff.1 hi)).1)
  have hest : ∀ i ∈ s.unsolved, A.median
      (iterEstimates A k1 (J it) (fun i iter j => u i it iter j) ord s.unsolved i)
      = muEstimate A k1 (J it) (u i it) := by
    intro i hi
    rw [iterEstimates_eq A h.nodup (fun iter j => hord iter j _) hi]
    rfl
  have hs : chunkIteration A lo k1 J u ord ord' it s
      = ⟨r', ((ord' s.unsolved).filter (fun i => A.accept it (A.median (iterEstimates A k1 (J it)
          (fun i iter j => u i it iter j) ord s.unsolved i)))).foldl (fun us i => us.erase i)
            s.unsolved,
          fun i => if i ∈ ord' s.unsolved then A.median (iterEstimates A k1 (J it)
            (fun i iter j => u i it iter j) ord s.unsolved i) else s.last i⟩ := by
    unfold chunkIteration
    simp only [h1, List.nil_append]
  obtain ⟨h4, h5⟩ := foldl_erase ((ord' s.unsolved).filter (fun i => A.accept it (A.median
    (iterEstimates A k1 (J it) (fun i iter j => u i it iter j) ord s.unsolved i)))) s.unsolved h.nodup
  have h6 : ∀ i, i ∈ (chunkIteration A lo k1 J u ord ord' it s).unsolved ↔
      i ∈ s.unsolved ∧ A.accept it (muEstimate A k1 (J it) (u i it)) = false := by
    intro i
    rw [hs]
    simp only []
    rw [h5, List.mem_filter, (hord' _).mem_iff]
    constructor
    · intro ⟨ha, hb⟩
      refine ⟨ha, ?_⟩
      rw [← hest i ha]
      by_contra hc
      exact hb ⟨ha, by simpa using hc⟩
    · intro ⟨ha, hb⟩
      refine ⟨ha, ?_⟩
      rw [← hest i ha] at hb
      rw [hb]
      simp
  have hunfold : ∀ (i : Nat) (last : R), queryLoop A k1 J (u i) it (iters - it) last
      = if A.accept it (muEstimate A k1 (J it) (u i it)) then
          A.divN (muEstimate A k1 (J it) (u i it))
        else queryLoop A k1 J (u i) (it + 1) (iters - (it + 1)) (muEstimate A k1 (J it) (u i it)) := by
    intro i last
    rw [show iters - it = (iters - (it + 1)) + 1 by omega, queryLoop]
  refine ⟨?_, ?_, ?_, ?_, ?_⟩
  · rw [hs]; simp only []; rw [h2, h.len]
  · rw [hs]; exact h4
  · intro i hi; exact h.range i ((h6 i).1 hi).1
  · intro i hlo hhi hni
    have hlt : i - lo < s.results.length := by rw [h.len]; omega
    rw [hs]; simp only []
    rw [h3 i hlo]
    simp only [(hord' _).mem_iff]
    by_cases hu : i ∈ s.unsolved
    · have hacc : A.accept it (muEstimate A k1 (J it) (u i it)) = true := by
        by_contra hc
        exact hni ((h6 i).2 ⟨hu, by simpa using hc⟩)
      rw [hest i hu, if_pos ⟨hlt, hu, hacc⟩, ← h.left i hu, hunfold, if_pos hacc]
    · rw [if_neg (fun hc => hu hc.2.1)]
      exact h.solved i hlo hhi hu
  · intro i hi
    obtain ⟨hu, hacc⟩ := (h6 i).1 hi
    rw [hs]; simp only []
    rw [if_pos ((hord' _).mem_iff.2 hu), hest i hu, ← h.left i hu, hunfold, hacc]
    simp

/-- `chunk_query` gives for every row the answer of the single query. -/
theorem chunkQuery_eq {k1 iters : Nat} {J : Nat → Nat} {u : Nat → Nat → Nat → Nat → R}
    {ord : Nat → Nat → Nat → List Nat → List Nat} {ord' : Nat → List Nat → List Nat}
    (hord : ∀ it iter j l, (ord it iter j l).Perm l) (hord' : ∀ it l, (ord' it l).Perm l)
    {lo hi : Nat} :
    chunkQuery A k1 iters J u ord ord' lo hi
      = (List.range (hi - lo)).map (fun t => queryLoop A k1 J (u (lo + t)) 0 iters A.zero) := by
  have hinv : ∀ m ≤ iters, ChunkInv A k1 iters J u lo hi m ((List.range m).foldl
      (fun s it => chunkIteration A lo k1 J u (ord it) (ord' it) it s)
      ⟨List.replicate (hi - lo) A.zero, List.range' lo (hi - lo), fun _ => A.zero⟩) := by
    intro m
    induction m with
    | zero =>
      intro _
      refine ⟨by simp, List.nodup_range', ?_, ?_, ?_⟩
      · intro i hi; simp [List.mem_range'_1] at hi; omega
      · intro i h1 h2 h3
        exact absurd (show i ∈ List.range' lo (hi - lo) by rw [List.mem_range'_1]; omega) h3
      · intro i _; rfl
    | succ m ih =>
      intro hm
      rw [List.range_succ, List.foldl_append]
      exact chunkInv_step A (hord m) (hord' m) (by omega) (ih (by omega))
  have h := hinv iters (Nat.le_refl _)
  unfold chunkQuery
  simp only []
  generalize (List.range iters).foldl
      (fun s it => chunkIteration A lo k1 J u (ord it) (ord' it) it s)
      ⟨List.replicate (hi - lo) A.zero, List.range' lo (hi - lo), fun _ => A.zero⟩ = s at h
  have hset : ∀ (L : List Nat) (r : List R), (∀ i ∈ L, lo ≤ i) →
      (L.foldl (fun r i => r.set (i - lo) (A.divN (s.last i))) r).length = r.length ∧
      ∀ i, lo ≤ i → (L.foldl (fun r i => r.set (i - lo) (A.divN (s.last i))) r)[i - lo]?
        = if i ∈ L ∧ i - lo < r.length then some (A.divN (s.last i)) else r[i - lo]? := by
    intro L
    induction L with
    | nil => intro r _; simp
    | cons x L ih =>
      intro r hL
      rw [List.foldl_cons]
      obtain ⟨h1, h2⟩ := ih (r.set (x - lo) (A.divN (s.last x)))
        (fun i hi => hL i (List.mem_cons_of_mem _ hi))
      refine ⟨by rw [h1]; simp, fun i hi => ?_⟩
      rw [h2 i hi, List.length_set, List.getElem?_set]
      have := hL x List.mem_cons_self
      by_cases e : i = x
      · subst e
        by_cases hl : i - lo < r.length
        · simp [hl]
        · simp [hl]
      · have : x - lo ≠ i - lo := by omega
        simp [e, this]
  obtain ⟨h1, h2⟩ := hset (ord' iters s.unsolved) s.results
    (fun i hi => (h.range i ((hord' _ _).mem_iff.1 hi)).1)
  apply List.ext_getElem?
  intro t
  by_cases ht : t < hi - lo
  · have h3 := h2 (lo + t) (by omega)
    simp only [Nat.add_sub_cancel_left, (hord' _ _).mem_iff, h.len] at h3
    rw [h3, List.getElem?_map, List.getElem?_range ht]
    by_cases hu : lo + t ∈ s.unsolved
    · rw [if_pos ⟨hu, ht⟩]
      have := h.left _ hu
      rw [Nat.sub_self, queryLoop] at this
      rw [this]
      rfl
    · rw [if_neg (fun hc => hu hc.1)]
      have := h.solved (lo + t) (by omega) (by omega) hu
      rw [Nat.add_sub_cancel_left] at this
      rw [this]
      rfl
  · rw [List.getElem?_eq_none (by rw [h1, h.len]; omega), List.getElem?_eq_none (by simp; omega)]

end
end Stag
