import Verif.Vectors
import Verif.Props.GraphOps

/-!
# C75: vector helpers, comparison operators
-/

namespace Stag

section
variable {K : Type}

theorem addVectorsFrom_spec [AddMonoid K] (v1 v2 : List K) (count : Nat) : ∀ i,
    (addVectorsFrom v1 v2 i count).length = count ∧
    ∀ j < count, (addVectorsFrom v1 v2 i count)[j]? = some (v1.getD (i + j) 0 + v2.getD (i + j) 0) := by
  induction count with
  | zero => intro i; exact ⟨rfl, by intro j hj; omega⟩
  | succ count ih =>
    intro i
    refine ⟨by simp [addVectorsFrom, (ih (i + 1)).1], ?_⟩
    intro j hj
    cases j with
    | zero =>
      simp only [addVectorsFrom, List.getElem?_cons_zero, Nat.add_zero, Option.some.injEq]
      by_cases h1 : i < v1.length <;> by_cases h2 : i < v2.length <;> simp [h1, h2]
    | succ j =>
      simp only [addVectorsFrom, List.getElem?_cons_succ]
      rw [(ih (i + 1)).2 j (by omega), show i + 1 + j = i + (j + 1) by omega]

/-- **C75** (`addVectors`).  The result is as long as the longer vector, and each of its entries is the sum of
the entries of the two, a missing entry counting as zero. -/
theorem C75_add_vectors [AddMonoid K] (v1 v2 : List K) :
    (addVectors v1 v2).length = max v1.length v2.length ∧
    ∀ i < max v1.length v2.length, (addVectors v1 v2)[i]? =
      some ((if h : i < v1.length then v1[i] else 0) + (if h : i < v2.length then v2[i] else 0)) := by
  refine ⟨(addVectorsFrom_spec v1 v2 _ 0).1, ?_⟩
  intro i hi
  unfold addVectors
  rw [(addVectorsFrom_spec v1 v2 _ 0).2 i hi, Nat.zero_add]
  by_cases h1 : i < v1.length <;> by_cases h2 : i < v2.length <;> simp [h1, h2]

/-- **C75** (`addVectors` is commutative). -/
theorem C75_add_comm [AddCommMonoid K] (v1 v2 : List K) : addVectors v1 v2 = addVectors v2 v1 := by
  obtain ⟨l1, e1⟩ := C75_add_vectors v1 v2
  obtain ⟨l2, e2⟩ := C75_add_vectors v2 v1
  apply List.ext_getElem?
  intro i
  by_cases hi : i < max v1.length v2.length
  · rw [e1 i hi, e2 i (by omega), add_comm]
  · rw [List.getElem?_eq_none (by omega), List.getElem?_eq_none (by omega)]

/-- **C75** (comparison of edges).  `==` holds exactly for edges with the same ends, in the same order, and the
same weight; `!=` exactly otherwise. -/
theorem C75_edge_equality [DecidableEq K] (a b : IEdge K) :
    (a.beq b = true ↔ a = b) ∧ (a.bne b = true ↔ a ≠ b) := by
  have h : a.beq b = true ↔ a = b := by
    cases a; cases b
    simp [IEdge.beq, and_assoc]
  refine ⟨h, ?_⟩
  unfold IEdge.bne
  rw [ne_eq, ← h]
  simp

end

section
variable {K : Type} [Field K] [LinearOrder K]

omit [LinearOrder K] in
/-- **C75** (`sprsMatToVec`).  Asked for `n ≥ 1` entries of a matrix with a column, it returns exactly `n` numbers: the
first column, cut off or filled up with zeros; `n < 1` is an `invalid_argument`.  Without `n` the whole
column is returned. -/
theorem C75_to_vector (m : SprsMat K) :
    (∀ n < 1, m.toVec n = .throw .invalidArgument) ∧
    (∀ n : Nat, 1 ≤ n → 1 ≤ m.cols → ∃ v, m.toVec n = .ok v ∧ v.length = n ∧
      ∀ i < n, v[i]? = some (if i < m.rows then m.coeff i 0 else 0)) ∧
    (1 ≤ m.rows → 1 ≤ m.cols → ∃ v, m.toVecRows = .ok v ∧ v.length = m.rows ∧
      ∀ i < m.rows, v[i]? = some (m.coeff i 0)) := by
  have key : ∀ n : Nat, 1 ≤ n → 1 ≤ m.cols → ∃ v, m.toVec n = .ok v ∧ v.length = n ∧
      ∀ i < n, v[i]? = some (if i < m.rows then m.coeff i 0 else 0) := by
    intro n h1 h2
    refine ⟨(List.range n).map (fun i => if i < m.rows then m.coeff i 0 else 0), ?_, ?_, ?_⟩
    · unfold SprsMat.toVec
      rw [if_neg (by omega), if_neg (by omega), Int.toNat_natCast]
    · simp
    · intro i hi
      simp [hi]
  refine ⟨fun n hn => by unfold SprsMat.toVec; rw [if_pos hn], key, ?_⟩
  intro h1 h2
  obtain ⟨v, e1, e2, e3⟩ := key m.rows h1 h2
  refine ⟨v, e1, e2, fun i hi => ?_⟩
  rw [e3 i hi, if_pos hi]

omit [LinearOrder K] in
/-- **C75** (`sprsMatToVec`).  For `n ≥ 1` the call is undefined exactly if the matrix has rows and no column. -/
theorem C75_to_vector_defined (m : SprsMat K) (n : Int) (hn : 1 ≤ n) :
    m.toVec n = .ub ↔ 1 ≤ m.rows ∧ m.cols = 0 := by
  unfold SprsMat.toVec
  rw [if_neg (by omega)]
  by_cases h : m.cols = 0 ∧ 0 < m.rows
  · rw [if_pos h]
    exact ⟨fun _ => ⟨h.2, h.1⟩, fun _ => rfl⟩
  · rw [if_neg h]
    constructor
    · intro e
      cases e
    · intro e
      exact absurd ⟨e.2, e.1⟩ h

/-- **C75** (`!=` of graphs).  Graphs without stored zeros differ exactly when they are different weighted graphs. -/
theorem C75_graph_inequality {g h : Graph K} (hg : g.Valid) (hh : h.Valid) (zg : g.adj.NoZeros)
    (zh : h.adj.NoZeros) :
    g.bne h = true ↔ g.n ≠ h.n ∨ ∃ u v, g.adj.coeff u v ≠ h.adj.coeff u v := by
  have h1 : g.bne h = true ↔ ¬ g.beq h = true := by unfold Graph.bne; simp
  rw [h1, C12_equality_iff hg hh zg zh]
  constructor
  · intro hne
    by_contra hc
    push Not at hc
    apply hne
    have hw : (fun u v => g.adj.coeff u v) = fun u v => h.adj.coeff u v := by
      funext u v; exact hc.2 u v
    simp only [Graph.abs, WGraph.mk.injEq]
    exact ⟨hc.1, hw⟩
  · rintro (hn | ⟨u, v, hw⟩) he
    · exact hn (congrArg WGraph.n he)
    · exact hw (congrFun (congrFun (congrArg WGraph.w he) u) v)

end

/-- Concrete cases. -/
example : addVectors [1, 2, 3] [10, (20 : ℚ)] = [11, 22, 3] ∧ addVectors ([] : List ℚ) [] = [] ∧
    (⟨2, 1, [[(1, 5)]]⟩ : SprsMat ℚ).toVec 3 = .ok [0, 5, 0] ∧
    (⟨2, 1, [[(1, 5)]]⟩ : SprsMat ℚ).toVecRows = .ok [0, 5] ∧
    (⟨0, 1, 2⟩ : IEdge ℚ).beq ⟨1, 0, 2⟩ = false := by decide +kernel

end Stag
