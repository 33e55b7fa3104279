import Verif.Props.Lsh
import Mathlib.Data.Fintype.BigOperators
import Mathlib.Algebra.BigOperators.Ring.Finset
import Mathlib.Data.Fintype.Pi
import Mathlib.Algebra.BigOperators.Fin

/-!
# C43: the combined hash value

The bucket of a point is a random combination of its hash values.  The formula, and the number of
combinations for which two points with different hash values fall into the same bucket.
-/

namespace Stag
section
variable {K : Type} [Field K] [LinearOrder K] [IsStrictOrderedRing K] [FloorRing K]

omit [LinearOrder K] [IsStrictOrderedRing K] [FloorRing K] in
theorem zipWith_sum (a : Nat → K) (x : List K) :
    (List.zipWith (· * ·) ((List.range x.length).map a) x).sum =
      ∑ d ∈ Finset.range x.length, a d * x.getD d 0 := by
  have : List.zipWith (· * ·) ((List.range x.length).map a) x =
      (List.range x.length).map (fun d => a d * x.getD d 0) := by
    apply List.ext_getElem
    · simp
    · intro i h1 h2
      have hi : i < x.length := by simpa using h2
      simp [List.getElem?_eq_getElem hi]
  rw [this]
  generalize (fun d => a d * x.getD d 0) = f
  induction x.length with
  | zero => rfl
  | succ n ih => rw [List.range_succ, List.map_append, List.sum_append, ih, Finset.sum_range_succ]; simp

omit [IsStrictOrderedRing K] in
/-- **C43** (the key).  The bucket of a point `x` is the sum over the `num` hash functions of the drawn
coefficient times the floor of `(⟨g i, x⟩ + 4 b i) / 4`. -/
theorem C43_key (dim num : Nat) (g : Nat → Nat → K) (b : Nat → K) (u : Nat → Int) (x : List K)
    (hx : x.length = dim) :
    (MultiLsh.create dim num g b u).apply x =
      ∑ i ∈ Finset.range num, u i * ⌊((∑ d ∈ Finset.range dim, g i d * x.getD d 0) + 4 * b i) / 4⌋ := by
  have key : ∀ (n : Nat) (h : Nat → List K × K × Int), ((List.range n).map h).foldl
      (fun z f => z + f.2.2 * hashOne f x) 0 = ∑ i ∈ Finset.range n, (h i).2.2 * hashOne (h i) x := by
    intro n h
    induction n with
    | zero => rfl
    | succ n ih =>
      rw [List.range_succ, List.map_append, List.foldl_append, ih, Finset.sum_range_succ]
      rfl
  unfold MultiLsh.apply MultiLsh.create
  rw [key]
  apply Finset.sum_congr rfl
  intro i _
  unfold hashOne rowDot
  subst hx
  rw [zipWith_sum (fun d => g i d / 4) x]
  congr 2
  rw [add_div, Finset.sum_div]
  congr 1
  · apply Finset.sum_congr rfl
    intro d _
    ring
  · ring

end

/-- If the values differ somewhere, at most one in `m` choices of coefficients makes the combinations
equal. -/
theorem combination_card {k m : Nat} (h h' : Fin k → Int) (hne : h ≠ h') :
    m * (Finset.univ.filter (fun u : Fin k → Fin m =>
      ∑ i, ((u i : Nat) + 1 : Int) * h i = ∑ i, ((u i : Nat) + 1 : Int) * h' i)).card ≤ m ^ k := by
  obtain ⟨i, hi⟩ := Function.ne_iff.1 hne
  let S := Finset.univ.filter (fun u : Fin k → Fin m =>
      ∑ i, ((u i : Nat) + 1 : Int) * h i = ∑ i, ((u i : Nat) + 1 : Int) * h' i)
  have hinj : Set.InjOn (fun q : Fin m × (Fin k → Fin m) => Function.update q.2 i q.1)
      ((Finset.univ ×ˢ S : Finset (Fin m × (Fin k → Fin m))) : Set (Fin m × (Fin k → Fin m))) := by
    rintro ⟨c, u⟩ hu ⟨c', u'⟩ hu' he
    simp only [Finset.coe_product, Set.mem_prod, Finset.mem_coe, S, Finset.mem_filter,
      Finset.mem_univ, true_and, Finset.coe_univ, Set.mem_univ] at hu hu'
    simp only at he
    have hc : c = c' := by
      have := congrFun he i
      simpa using this
    have hoff : ∀ j, j ≠ i → u j = u' j := by
      intro j hj
      have := congrFun he j
      simpa [Function.update_of_ne hj] using this
    have hz : ∀ v : Fin k → Fin m, (∑ j, ((v j : Nat) + 1 : Int) * h j =
        ∑ j, ((v j : Nat) + 1 : Int) * h' j) →
        ((v i : Nat) + 1 : Int) * (h i - h' i) +
          ∑ j ∈ Finset.univ.erase i, ((v j : Nat) + 1 : Int) * (h j - h' j) = 0 := by
      intro v hv
      rw [Finset.add_sum_erase Finset.univ (fun j => ((v j : Nat) + 1 : Int) * (h j - h' j))
        (Finset.mem_univ i)]
      simp only [mul_sub, Finset.sum_sub_distrib, hv, sub_self]
    have h1 := hz u hu
    have h2 := hz u' hu'
    have hrest : ∑ j ∈ Finset.univ.erase i, ((u j : Nat) + 1 : Int) * (h j - h' j) =
        ∑ j ∈ Finset.univ.erase i, ((u' j : Nat) + 1 : Int) * (h j - h' j) := by
      apply Finset.sum_congr rfl
      intro j hj
      rw [hoff j (Finset.ne_of_mem_erase hj)]
    rw [hrest] at h1
    have h3 : (((u i : Nat) : Int) - ((u' i : Nat) : Int)) * (h i - h' i) = 0 := by linarith
    rcases mul_eq_zero.1 h3 with h4 | h4
    · have hui : u i = u' i := by
        apply Fin.ext
        have : ((u i : Nat) : Int) = ((u' i : Nat) : Int) := by linarith
        exact_mod_cast this
      have huu : u = u' := by
        funext j
        by_cases hj : j = i
        · rw [hj, hui]
        · exact hoff j hj
      rw [hc, huu]
    · exact absurd (by linarith) hi
  have hcard := Finset.card_le_card_of_injOn (s := (Finset.univ ×ˢ S))
    (t := (Finset.univ : Finset (Fin k → Fin m)))
    (fun q : Fin m × (Fin k → Fin m) => Function.update q.2 i q.1) (fun _ _ => Finset.mem_univ _) hinj
  rw [Finset.card_product, Finset.card_univ, Finset.card_univ, Fintype.card_fin, Fintype.card_fun,
    Fintype.card_fin, Fintype.card_fin] at hcard
  exact hcard

section
variable {K : Type} [Field K] [LinearOrder K] [IsStrictOrderedRing K] [FloorRing K]

omit [IsStrictOrderedRing K] in
/-- **C43** (false collisions are rare).  Whatever projections and offsets were drawn: if two points differ
on one of the `num` hash functions, then for at most a fraction `1 / m` of the choices of the coefficients
from `1, …, m` (the library has `m = 536870912`) do they get the same key. -/
theorem C43_false_collisions (dim num m : Nat) (g : Nat → Nat → K) (b : Nat → K) (x y : List K)
    (hx : x.length = dim) (hy : y.length = dim)
    (hne : ∃ i < num, ⌊((∑ d ∈ Finset.range dim, g i d * x.getD d 0) + 4 * b i) / 4⌋ ≠
      ⌊((∑ d ∈ Finset.range dim, g i d * y.getD d 0) + 4 * b i) / 4⌋) :
    m * (Finset.univ.filter (fun u : Fin num → Fin m =>
      (MultiLsh.create dim num g b (fun i => if h : i < num then ((u ⟨i, h⟩ : Nat) : Int) + 1 else 0)).apply x =
      (MultiLsh.create dim num g b (fun i => if h : i < num then ((u ⟨i, h⟩ : Nat) : Int) + 1 else 0)).apply
        y)).card ≤ m ^ num := by
  let hh : List K → Fin num → Int := fun z i =>
    ⌊((∑ d ∈ Finset.range dim, g i d * z.getD d 0) + 4 * b i) / 4⌋
  have hd : hh x ≠ hh y := by
    obtain ⟨i, hi, h⟩ := hne
    intro e
    exact h (congrFun e ⟨i, hi⟩)
  have hsum : ∀ (z : List K), z.length = dim → ∀ u : Fin num → Fin m,
      (MultiLsh.create dim num g b (fun i => if h : i < num then ((u ⟨i, h⟩ : Nat) : Int) + 1 else 0)).apply z =
        ∑ i, ((u i : Nat) + 1 : Int) * hh z i := by
    intro z hz u
    rw [C43_key dim num g b _ z hz, Finset.sum_range]
    apply Finset.sum_congr rfl
    intro i _
    rw [dif_pos i.2]
  simp only [hsum x hx, hsum y hy]
  exact combination_card (hh x) (hh y) hd

end

/-- With one hash function the two points 0 and 5 are never confused: the hypotheses of the bound are met,
and here the number of bad choices is zero. -/
example : (⌊((∑ d ∈ Finset.range 1, (1 : ℚ) * [0].getD d 0) + 4 * 0) / 4⌋ : Int) ≠
    ⌊((∑ d ∈ Finset.range 1, (1 : ℚ) * [5].getD d 0) + 4 * 0) / 4⌋ := by
  decide +kernel

end Stag
