import Verif.GraphMutate
import Mathlib.Tactic.Linarith
import Mathlib.Data.List.GetD

/-! Helper lemmas for the graph constructors and operators (C12-C17). -/

set_option linter.unusedSectionVars false
set_option linter.unusedSimpArgs false

namespace Stag

namespace SprsMat
variable {K : Type}

theorem length_prefixSums (l : List Nat) : ∀ s, (prefixSums s l).length = l.length + 1 := by
  induction l with
  | nil => intro s; rfl
  | cons a l ih => intro s; simp [prefixSums, ih]

theorem head_prefixSums (s : Nat) (l : List Nat) : (prefixSums s l).head? = some s := by
  cases l <;> rfl

theorem getLast_prefixSums (l : List Nat) : ∀ s, (prefixSums s l).getLast? = some (s + l.sum) := by
  induction l with
  | nil => intro s; rfl
  | cons a l ih =>
    intro s
    have hne : prefixSums (s + a) l ≠ [] := by cases l <;> simp [prefixSums]
    obtain ⟨b, t, hbt⟩ := List.exists_cons_of_ne_nil hne
    have h := ih (s + a)
    rw [prefixSums]
    rw [hbt] at h ⊢
    rw [List.getLast?_cons_cons, h]
    simp [Nat.add_assoc]

theorem le_prefixSums (l : List Nat) : ∀ s, ∀ x ∈ prefixSums s l, s ≤ x := by
  induction l with
  | nil => intro s x hx; simp [prefixSums] at hx; omega
  | cons a l ih =>
    intro s x hx
    simp only [prefixSums, List.mem_cons] at hx
    rcases hx with rfl | hx
    · exact le_refl _
    · have := ih _ _ hx; omega

theorem pairwise_prefixSums (l : List Nat) : ∀ s, (prefixSums s l).Pairwise (· ≤ ·) := by
  induction l with
  | nil => intro s; simp [prefixSums]
  | cons a l ih =>
    intro s
    simp only [prefixSums, List.pairwise_cons]
    exact ⟨fun x hx => by have := le_prefixSums _ _ _ hx; omega, ih _⟩

theorem slices_prefixSums {α : Type} (d : List (List α)) : ∀ (pre post : List α),
    slices (prefixSums pre.length (d.map List.length)) (pre ++ (d.flatten ++ post)) = d := by
  induction d with
  | nil => intro pre post; simp [prefixSums, slices]
  | cons c d ih =>
    intro pre post
    have h := ih (pre ++ c) post
    simp only [List.length_append, List.append_assoc] at h
    have hne : prefixSums (pre.length + c.length) (d.map List.length) ≠ [] := by
      cases d <;> simp [prefixSums]
    obtain ⟨b, t, hbt⟩ := List.exists_cons_of_ne_nil hne
    have hb : b = pre.length + c.length := by
      have := head_prefixSums (pre.length + c.length) (d.map List.length)
      rw [hbt] at this
      simpa using this
    simp only [List.map_cons, prefixSums, List.flatten_cons, List.append_assoc]
    rw [hbt] at h ⊢
    rw [slices, h, hb]
    simp

theorem zip_flatMap (d : List (Col K)) :
    (d.flatMap (fun c => c.map Prod.fst)).zip (d.flatMap (fun c => c.map Prod.snd)) =
      d.flatten := by
  induction d with
  | nil => rfl
  | cons c d ih =>
    simp only [List.flatMap_cons, List.flatten_cons]
    rw [List.zip_append (by simp), ih]
    congr 1
    rw [List.zip_map']
    simp

theorem length_innerIndices (m : SprsMat K) : m.innerIndices.length = m.nnz := by
  simp [innerIndices, nnz, List.length_flatMap]

theorem length_values (m : SprsMat K) : m.values.length = m.nnz := by
  simp [values, nnz, List.length_flatMap]

/-- Reading the three arrays back rebuilds the matrix. -/
theorem fromVectors_toVectors (m : SprsMat K) (hsq : m.rows = m.cols) (hl : m.data.length = m.cols) :
    fromVectors m.outerStarts m.innerIndices m.values = .ok m := by
  unfold fromVectors
  rw [if_neg (by simp [length_innerIndices, length_values])]
  have h1 : m.outerStarts.getLast? = some m.innerIndices.length := by
    unfold outerStarts
    rw [getLast_prefixSums, length_innerIndices]
    simp [nnz]
  rw [h1]
  simp only
  rw [if_neg (by simp), if_neg (by
    rw [outerStarts, head_prefixSums]
    simp only [ne_eq, not_true_eq_false, false_or, not_not]
    exact pairwise_prefixSums _ _)]
  congr 1
  have h2 : m.outerStarts.length - 1 = m.cols := by
    rw [outerStarts, length_prefixSums]; simp [hl]
  have h3 : slices m.outerStarts (m.innerIndices.zip m.values) = m.data := by
    unfold outerStarts innerIndices values
    rw [zip_flatMap]
    have := slices_prefixSums m.data [] []
    simpa using this
  rw [h2, h3]
  cases m
  simp_all

/-- Consecutive slices of a list between increasing positions. -/
theorem slices_spec {α : Type} (l : List α) : ∀ (starts : List Nat) (a : Nat),
    (a :: starts).Pairwise (· ≤ ·) → (∀ x ∈ (a :: starts).getLast?, x ≤ l.length) →
    (slices (a :: starts) l).length = starts.length ∧
    prefixSums a ((slices (a :: starts) l).map List.length) = a :: starts ∧
    l.take a ++ (slices (a :: starts) l).flatten = l.take ((a :: starts).getLast (by simp)) := by
  intro starts
  induction starts with
  | nil =>
    intro a _ _
    simp [slices, prefixSums]
  | cons b s ih =>
    intro a hp hlast
    have hp' := (List.pairwise_cons.1 hp).2
    have hab : a ≤ b := (List.pairwise_cons.1 hp).1 b (by simp)
    have hl' : ∀ x ∈ (b :: s).getLast?, x ≤ l.length := by
      intro x hx; apply hlast; rw [List.getLast?_cons_cons]; exact hx
    obtain ⟨h1, h2, h3⟩ := ih b hp' hl'
    have hbl : b ≤ l.length := by
      cases hs : (b :: s).getLast? with
      | none => simp at hs
      | some x =>
        have hx := hl' x hs
        have : b ≤ x := by
          have hmem := List.mem_of_getLast? hs
          rcases List.mem_cons.1 hmem with rfl | hm
          · exact le_refl _
          · exact (List.pairwise_cons.1 hp').1 x hm
        omega
    refine ⟨by simp [slices, h1], ?_, ?_⟩
    · simp only [slices, List.map_cons, List.length_take, List.length_drop, prefixSums]
      rw [show a + min (b - a) (l.length - a) = b by omega, h2]
    · simp only [slices, List.flatten_cons]
      rw [List.getLast_cons (by simp), ← h3, ← List.append_assoc]
      congr 1
      have : b = a + (b - a) := by omega
      conv_rhs => rw [this, List.take_add]

theorem slices_getElem {α : Type} (l : List α) : ∀ (starts : List Nat) (a k : Nat),
    k < starts.length →
    (slices (a :: starts) l).getD k [] =
      (l.drop ((a :: starts).getD k 0)).take ((a :: starts).getD (k + 1) 0 -
        (a :: starts).getD k 0) := by
  intro starts
  induction starts with
  | nil => intro a k hk; simp at hk
  | cons b s ih =>
    intro a k hk
    cases k with
    | zero => simp [slices]
    | succ k =>
      have := ih b k (by simpa using hk)
      simpa [slices] using this

end SprsMat

namespace Graph
variable {K : Type} [Field K] [LinearOrder K]

/-- The constructor on a symmetric non-negative matrix. -/
theorem ofMatrix_nonneg {m : SprsMat K} (hw : m.WF) (hsq : m.rows = m.cols)
    (hnn : ∀ i j, 0 ≤ m.coeff i j) (hs : ∀ i j, m.coeff i j = m.coeff j i) :
    ∃ g, ofMatrix m = .ok g ∧ g.Valid ∧ g.Reachable ∧ g.n = m.cols ∧
      (∀ i j, g.adj.coeff i j = thr (m.coeff i j)) ∧
      (∀ j, ∀ e ∈ g.adj.col j, epsilon < e.2) := by
  have hneg : foundNegative m = false := by
    rw [← Bool.not_eq_true, foundNegative_iff hw]
    rintro ⟨j, e, he, hlt⟩
    have h1 := hnn e.1 j
    have : m.coeff e.1 j = e.2 := Col.coeff_eq_of_mem (hw.sorted j) he
    rw [this] at h1
    exact absurd h1 (not_le.2 hlt)
  obtain ⟨p1, p2, p3, p4, p5⟩ := pruned_spec hw
  have hof := ofMatrix_of_adj hw hsq (adjFromAdjOrLap_nonneg hneg)
  have hsymm : (m.prune (fun v => decide (epsilon < v))).isSymmetric = true := by
    rw [SprsMat.isSymmetric_iff p1 (by omega)]
    intro i j
    rw [p4, p4, hs]
  rw [if_pos hsymm] at hof
  have hok := ofMatrix_ok hw hof
  refine ⟨_, hof, hok.1, ⟨m, _, [], hw, hof, rfl⟩, p3, p4, p5⟩

theorem thr_of_zero_or {x : K} (h : x = 0 ∨ epsilon < x) : thr x = x := by
  unfold thr
  rcases h with h | h
  · rw [h]; split_ifs <;> rfl
  · rw [if_pos h]

/-- Every stored weight exceeds the pruning threshold: true of every graph a
constructor returns. -/
def Pruned (g : Graph K) : Prop := ∀ j, ∀ e ∈ g.adj.col j, epsilon < e.2

theorem Pruned.coeff {g : Graph K} (h : g.Pruned) (i j : Nat) :
    g.adj.coeff i j = 0 ∨ epsilon < g.adj.coeff i j := by
  by_cases h0 : g.adj.coeff i j = 0
  · exact Or.inl h0
  · exact Or.inr (h j _ (Col.mem_of_coeff_ne_zero h0))

theorem Pruned.thr {g : Graph K} (h : g.Pruned) (i j : Nat) :
    Stag.thr (g.adj.coeff i j) = g.adj.coeff i j := thr_of_zero_or (h.coeff i j)

variable [IsStrictOrderedRing K]

theorem Pruned.noZeros {g : Graph K} (h : g.Pruned) : g.adj.NoZeros :=
  fun j e he => ne_of_gt (lt_trans epsilon_pos (h j e he))

theorem Pruned.nonneg {g : Graph K} (h : g.Pruned) (i j : Nat) : 0 ≤ g.adj.coeff i j := by
  rcases h.coeff i j with h | h
  · rw [h]
  · exact le_trans (le_of_lt epsilon_pos) (le_of_lt h)

theorem epsilon_lt_one : (epsilon : K) < 1 := by
  unfold epsilon
  norm_num

theorem thr_one : thr (1 : K) = 1 := by unfold thr; rw [if_pos epsilon_lt_one]
theorem thr_zero : thr (0 : K) = 0 := by unfold thr; split_ifs <;> rfl

end Graph
end Stag
