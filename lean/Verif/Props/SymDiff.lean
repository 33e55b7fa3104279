import Verif.Cluster
import Mathlib.Tactic.Linarith

/-!
# C32: symmetric difference of two integer vectors
-/

namespace Stag

theorem insertInt_perm (a : Int) (l : List Int) : (insertInt a l).Perm (a :: l) := by
  induction l with
  | nil => exact List.Perm.refl _
  | cons b l ih =>
    unfold insertInt
    split_ifs with h
    · exact (ih.cons b).trans (List.Perm.swap a b l)
    · exact List.Perm.refl _

theorem sortInts_perm (l : List Int) : (sortInts l).Perm l := by
  induction l with
  | nil => exact List.Perm.refl _
  | cons a l ih => exact (insertInt_perm a _).trans (ih.cons a)

theorem insertInt_sorted (a : Int) (l : List Int) (h : l.Pairwise (· ≤ ·)) :
    (insertInt a l).Pairwise (· ≤ ·) := by
  induction l with
  | nil => simp [insertInt]
  | cons b l ih =>
    rw [List.pairwise_cons] at h
    unfold insertInt
    split_ifs with hb
    · rw [List.pairwise_cons]
      refine ⟨fun x hx => ?_, ih h.2⟩
      rcases List.mem_cons.1 ((insertInt_perm a l).mem_iff.1 hx) with rfl | hx
      · exact le_of_lt hb
      · exact h.1 x hx
    · rw [List.pairwise_cons, List.pairwise_cons]
      refine ⟨fun x hx => ?_, h⟩
      rcases List.mem_cons.1 hx with rfl | hx
      · exact not_lt.1 hb
      · exact le_trans (not_lt.1 hb) (h.1 x hx)

theorem sortInts_sorted (l : List Int) : (sortInts l).Pairwise (· ≤ ·) := by
  induction l with
  | nil => exact List.Pairwise.nil
  | cons a l ih => exact insertInt_sorted a _ ih

theorem mem_uniqueInts (x : Int) (l : List Int) : x ∈ uniqueInts l ↔ x ∈ l := by
  fun_induction uniqueInts l with
  | case1 => simp
  | case2 a => simp
  | case3 a l ih => rw [ih]; simp
  | case4 a b l h ih => rw [List.mem_cons, ih, List.mem_cons (l := b :: l)]

theorem uniqueInts_sorted (l : List Int) (h : l.Pairwise (· ≤ ·)) :
    (uniqueInts l).Pairwise (· < ·) := by
  fun_induction uniqueInts l with
  | case1 => exact List.Pairwise.nil
  | case2 a => simp
  | case3 a l ih =>
    rw [List.pairwise_cons] at h
    exact ih h.2
  | case4 a b l hab ih =>
    rw [List.pairwise_cons] at h
    rw [List.pairwise_cons]
    refine ⟨fun x hx => ?_, ih h.2⟩
    rw [mem_uniqueInts] at hx
    have hb := h.1 b (by simp)
    rcases List.mem_cons.1 hx with rfl | hx
    · omega
    · have := (List.pairwise_cons.1 h.2).1 x hx
      omega

theorem setSymDiff_spec (s t : List Int) (hs : s.Pairwise (· < ·)) (ht : t.Pairwise (· < ·)) :
    (setSymDiff s t).Pairwise (· < ·) ∧
    ∀ x, x ∈ setSymDiff s t ↔ (x ∈ s ∧ x ∉ t) ∨ (x ∈ t ∧ x ∉ s) := by
  fun_induction setSymDiff s t with
  | case1 t => simp [ht]
  | case2 a s => simpa using List.pairwise_cons.1 hs
  | case3 a s b t hab ih =>
    obtain ⟨h1, h2⟩ := ih (List.pairwise_cons.1 hs).2 ht
    have ha := (List.pairwise_cons.1 hs).1
    have hb := (List.pairwise_cons.1 ht).1
    have hat : a ∉ b :: t := by
      intro hc
      rcases List.mem_cons.1 hc with h | h
      · omega
      · have := hb a h; omega
    have has : a ∉ s := fun hc => by have := ha a hc; omega
    constructor
    · rw [List.pairwise_cons]
      refine ⟨fun x hx => ?_, h1⟩
      rcases (h2 x).1 hx with h | h
      · exact ha x h.1
      · rcases List.mem_cons.1 h.1 with rfl | h
        · exact hab
        · have := hb x h; omega
    · intro x
      rw [List.mem_cons, h2, List.mem_cons (l := s)]
      by_cases hx : x = a
      · subst hx; simp [hat]
      · simp [hx]
  | case4 a s b t hab hba ih =>
    obtain ⟨h1, h2⟩ := ih hs (List.pairwise_cons.1 ht).2
    have ha := (List.pairwise_cons.1 hs).1
    have hb := (List.pairwise_cons.1 ht).1
    have hbs : b ∉ a :: s := by
      intro hc
      rcases List.mem_cons.1 hc with h | h
      · omega
      · have := ha b h; omega
    have hbt : b ∉ t := fun hc => by have := hb b hc; omega
    constructor
    · rw [List.pairwise_cons]
      refine ⟨fun x hx => ?_, h1⟩
      rcases (h2 x).1 hx with h | h
      · rcases List.mem_cons.1 h.1 with rfl | h
        · exact hba
        · have := ha x h; omega
      · exact hb x h.1
    · intro x
      rw [List.mem_cons, h2, List.mem_cons (l := t)]
      by_cases hx : x = b
      · subst hx; simp [hbs]
      · simp [hx]
  | case5 a s b t hab hba ih =>
    obtain rfl : a = b := by omega
    obtain ⟨h1, h2⟩ := ih (List.pairwise_cons.1 hs).2 (List.pairwise_cons.1 ht).2
    refine ⟨h1, fun x => ?_⟩
    have ha := (List.pairwise_cons.1 hs).1
    have hb := (List.pairwise_cons.1 ht).1
    rw [h2, List.mem_cons, List.mem_cons]
    by_cases hx : x = a
    · subst hx
      have h3 : x ∉ s := fun hc => by have := ha x hc; omega
      have h4 : x ∉ t := fun hc => by have := hb x hc; omega
      simp [h3, h4]
    · simp [hx]

/-- **C32**.  The result is sorted, has no repetition, and consists of exactly the elements in one
of the vectors but not in both. -/
theorem C32_symmetric_difference (S T : List Int) :
    (symmetricDifference S T).1.Pairwise (· < ·) ∧
    ∀ x, x ∈ (symmetricDifference S T).1 ↔ ((x ∈ S ∧ x ∉ T) ∨ (x ∈ T ∧ x ∉ S)) := by
  have hS := uniqueInts_sorted _ (sortInts_sorted S)
  have hT := uniqueInts_sorted _ (sortInts_sorted T)
  obtain ⟨h1, h2⟩ := setSymDiff_spec _ _ hS hT
  refine ⟨h1, fun x => ?_⟩
  unfold symmetricDifference
  rw [h2, mem_uniqueInts, mem_uniqueInts, (sortInts_perm S).mem_iff, (sortInts_perm T).mem_iff]

/-- **C32** (side effect).  The vectors passed in are changed: they become sorted and lose their
repetitions, but keep their elements. -/
theorem C32_arguments (S T : List Int) :
    (symmetricDifference S T).2.1.Pairwise (· < ·) ∧ (symmetricDifference S T).2.2.Pairwise (· < ·) ∧
    (∀ x, x ∈ (symmetricDifference S T).2.1 ↔ x ∈ S) ∧
    ∀ x, x ∈ (symmetricDifference S T).2.2 ↔ x ∈ T := by
  refine ⟨uniqueInts_sorted _ (sortInts_sorted S), uniqueInts_sorted _ (sortInts_sorted T), ?_, ?_⟩
  all_goals
    intro x
    unfold symmetricDifference
    simp only [mem_uniqueInts]
    exact (sortInts_perm _).mem_iff

/-- **C32** (consequence).  The result depends only on the sets of elements; exchanging the
arguments changes nothing. -/
theorem C32_sets {S S' T T' : List Int} (hS : ∀ x, x ∈ S ↔ x ∈ S') (hT : ∀ x, x ∈ T ↔ x ∈ T') :
    (symmetricDifference S T).1 = (symmetricDifference S' T').1 ∧
    (symmetricDifference S T).1 = (symmetricDifference T S).1 := by
  have key : ∀ l l' : List Int, l.Pairwise (· < ·) → l'.Pairwise (· < ·) → (∀ x, x ∈ l ↔ x ∈ l') →
      l = l' := by
    intro l l' h h' hm
    have hp : l.Perm l' := (List.perm_ext_iff_of_nodup (h.imp (fun h => ne_of_lt h))
      (h'.imp (fun h => ne_of_lt h))).2 hm
    exact hp.eq_of_pairwise (fun a b _ _ h1 h2 => by omega) h h'
  constructor
  · refine key _ _ (C32_symmetric_difference S T).1 (C32_symmetric_difference S' T').1 (fun x => ?_)
    rw [(C32_symmetric_difference S T).2, (C32_symmetric_difference S' T').2, hS, hT]
  · refine key _ _ (C32_symmetric_difference S T).1 (C32_symmetric_difference T S).1 (fun x => ?_)
    rw [(C32_symmetric_difference S T).2, (C32_symmetric_difference T S).2]
    exact or_comm

/-- Repetitions and order do not matter. -/
example : (symmetricDifference [3, 1, 3, 2] [2, 2, 5]).1 = [1, 3, 5] := by
  have h := C32_symmetric_difference [3, 1, 3, 2] [2, 2, 5]
  have hp : ((symmetricDifference [3, 1, 3, 2] [2, 2, 5]).1).Perm [1, 3, 5] := by
    refine (List.perm_ext_iff_of_nodup (h.1.imp (fun h => ne_of_lt h)) (by decide)).2 (fun x => ?_)
    rw [h.2]
    simp only [List.mem_cons, List.not_mem_nil, or_false]
    omega
  exact hp.eq_of_pairwise (fun a b _ _ h1 h2 => by omega) h.1 (by decide)

end Stag
