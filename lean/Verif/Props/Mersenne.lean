import Verif.Mersenne
import Mathlib.Tactic.Linarith
import Mathlib.Tactic.Ring
import Mathlib.Tactic.Positivity
import Mathlib.Tactic.NormNum

/-!
# C55: the generator behind the k-means initialisation
-/

namespace Stag
namespace MT

/-- The defining sequence of the Mersenne Twister MT19937 with a 32-bit seed: 624 words from the seeding
rule, then a linear recurrence. -/
structure IsSequence (seed : Nat) (w : Nat → Nat) : Prop where
  zero : w 0 = seed
  seeded : ∀ n, n + 1 < 624 →
    w (n + 1) = (1812433253 * (w n ^^^ (w n >>> 30)) + (n + 1)) % 2 ^ 32
  recur : ∀ n, w (n + 624) = w (n + 397) ^^^
    (((w n / 2 ^ 31 % 2) * 2 ^ 31 + w (n + 1) % 2 ^ 31) / 2) ^^^
    (if w (n + 1) % 2 = 0 then 0 else 0x9908b0df)

/-- The seeding rule. -/
def seedWord (s : Nat) : Nat → Nat
  | 0 => s
  | n + 1 => (1812433253 * (seedWord s n ^^^ (seedWord s n >>> 30)) + (n + 1)) &&& 0xffffffff

/-- The sequence, with a bound on the depth of the recursion. -/
def wordF (s : Nat) : Nat → Nat → Nat
  | 0, n => seedWord s n
  | f + 1, n => if n < 624 then seedWord s n else
      twist (wordF s f (n - 624)) (wordF s f (n - 623)) (wordF s f (n - 227))

/-- The sequence. -/
def word (s n : Nat) : Nat := wordF s n n

theorem wordF_eq (s f n : Nat) (h : n < 624 + 227 * f) : wordF s f n = word s n := by
  have key : ∀ f f' n, n < 624 + 227 * f → n < 624 + 227 * f' → wordF s f n = wordF s f' n := by
    intro f
    induction f with
    | zero =>
      intro f' n h1 h2
      cases f' with
      | zero => rfl
      | succ f' => rw [wordF, wordF, if_pos (by omega)]
    | succ f ih =>
      intro f' n h1 h2
      cases f' with
      | zero => rw [wordF, wordF, if_pos (by omega)]
      | succ f' =>
        rw [wordF, wordF]
        split_ifs with hn
        · rfl
        · rw [ih f' (n - 624) (by omega) (by omega), ih f' (n - 623) (by omega) (by omega),
            ih f' (n - 227) (by omega) (by omega)]
  exact key f n n h (by omega)

theorem word_lt (s n : Nat) (h : n < 624) : word s n = seedWord s n := by
  unfold word
  cases n with
  | zero => rfl
  | succ n => rw [wordF, if_pos h]

theorem word_recur (s n : Nat) :
    word s (n + 624) = twist (word s n) (word s (n + 1)) (word s (n + 397)) := by
  unfold word
  rw [show n + 624 = (n + 623) + 1 by omega, wordF, if_neg (by omega)]
  rw [wordF_eq s _ _ (by omega), wordF_eq s _ _ (by omega), wordF_eq s _ _ (by omega)]
  rw [show n + 623 + 1 - 624 = n by omega, show n + 623 + 1 - 623 = n + 1 by omega,
    show n + 623 + 1 - 227 = n + 397 by omega]
  rfl

theorem set_eq (mt : Nat → Nat) (i x j : Nat) : set mt i x j = if j = i then x else mt j := rfl

theorem initLoop_spec (s m : Nat) : ∀ k ≤ m, initLoop s m k = seedWord s k := by
  induction m with
  | zero =>
    intro k hk
    obtain rfl : k = 0 := by omega
    simp [initLoop, set, seedWord]
  | succ m ih =>
    intro k hk
    have e : initLoop s (m + 1) = set (initLoop s m) (m + 1)
        ((1812433253 * (initLoop s m m ^^^ (initLoop s m m >>> 30)) + (m + 1)) &&& 0xffffffff) := by
      unfold initLoop
      rw [List.range_succ, List.foldl_append]
      rfl
    rw [e, set_eq]
    split_ifs with h
    · subst h
      rw [ih m le_rfl]
      rfl
    · exact ih k (by omega)

theorem init_spec (seed : Int) (k : Nat) (hk : k < 624) :
    (init seed).mt k = word (seed % 4294967296).toNat k := by
  rw [word_lt _ _ hk]
  have e : (init seed).mt = initLoop (seed % 4294967296).toNat 623 := by simp only [init]
  rw [e, initLoop_spec _ 623 k (by omega)]

theorem hrec (s r k : Nat) : word s ((r + 1) * 624 + k) =
    twist (word s (r * 624 + k)) (word s (r * 624 + (k + 1))) (word s (r * 624 + (k + 397))) := by
  rw [show (r + 1) * 624 + k = (r * 624 + k) + 624 by ring, word_recur, Nat.add_assoc, Nat.add_assoc]

theorem loopA_spec (s r : Nat) (mt : Nat → Nat) (h : ∀ k < 624, mt k = word s (r * 624 + k)) (m : Nat) :
    m ≤ 227 → ∀ k < 624, loopA m mt k =
      if k < m then word s ((r + 1) * 624 + k) else word s (r * 624 + k) := by
  induction m with
  | zero => intro _ k hk; simpa [loopA] using h k hk
  | succ m ih =>
    intro hm k hk
    have e : loopA (m + 1) mt = set (loopA m mt) m
        (twist (loopA m mt m) (loopA m mt (m + 1)) (loopA m mt (m + 397))) := by
      unfold loopA
      rw [List.range_succ, List.foldl_append]
      rfl
    rw [e, set_eq]
    by_cases h1 : k = m
    · rw [if_pos h1, ih (by omega) m (by omega), ih (by omega) (m + 1) (by omega),
        ih (by omega) (m + 397) (by omega), if_neg (by omega), if_neg (by omega), if_neg (by omega),
        if_pos (by omega), h1, hrec]
    · rw [if_neg h1, ih (by omega) k hk]
      by_cases h2 : k < m
      · rw [if_pos h2, if_pos (by omega)]
      · rw [if_neg h2, if_neg (by omega)]

theorem loopB_spec (s r : Nat) (mt : Nat → Nat)
    (h : ∀ k < 624, mt k = if k < 227 then word s ((r + 1) * 624 + k) else word s (r * 624 + k)) (m : Nat) :
    m ≤ 396 → ∀ k < 624, loopB m mt k =
      if k < 227 + m then word s ((r + 1) * 624 + k) else word s (r * 624 + k) := by
  induction m with
  | zero => intro _ k hk; simpa [loopB] using h k hk
  | succ m ih =>
    intro hm k hk
    have e : loopB (m + 1) mt = set (loopB m mt) (227 + m)
        (twist (loopB m mt (227 + m)) (loopB m mt (227 + m + 1)) (loopB m mt m)) := by
      unfold loopB
      rw [List.range_succ, List.foldl_append]
      rfl
    rw [e, set_eq]
    by_cases h1 : k = 227 + m
    · rw [if_pos h1, ih (by omega) (227 + m) (by omega), ih (by omega) (227 + m + 1) (by omega),
        ih (by omega) m (by omega), if_neg (by omega), if_neg (by omega), if_pos (by omega),
        if_pos (by omega), h1, hrec s r (227 + m),
        show (r + 1) * 624 + m = r * 624 + (227 + m + 397) by ring]
    · rw [if_neg h1, ih (by omega) k hk]
      by_cases h2 : k < 227 + m
      · rw [if_pos h2, if_pos (by omega)]
      · rw [if_neg h2, if_neg (by omega)]

theorem refill_spec (s r : Nat) (mt : Nat → Nat) (h : ∀ k < 624, mt k = word s (r * 624 + k))
    (k : Nat) (hk : k < 624) : refill mt k = word s ((r + 1) * 624 + k) := by
  have h1 := loopA_spec s r mt h 227 le_rfl
  have h2 := loopB_spec s r _ h1 396 le_rfl
  unfold refill
  rw [set_eq]
  by_cases h3 : k = 623
  · rw [if_pos h3, h2 623 (by omega), h2 0 (by omega), h2 396 (by omega), if_neg (by omega),
      if_pos (by omega), if_pos (by omega), h3, hrec s r 623,
      show (r + 1) * 624 + 0 = r * 624 + (623 + 1) by ring,
      show (r + 1) * 624 + 396 = r * 624 + (623 + 397) by ring]
  · rw [if_neg h3, h2 k hk, if_pos (by omega)]

theorem stateAt_spec (seed : Int) (i : Nat) : ∃ r, (stateAt seed i).mti ≤ 624 ∧
    r * 624 + (stateAt seed i).mti = i + 624 ∧
    ∀ k < 624, (stateAt seed i).mt k = word (seed % 4294967296).toNat (r * 624 + k) := by
  induction i with
  | zero =>
    refine ⟨0, le_rfl, rfl, fun k hk => ?_⟩
    show (init seed).mt k = _
    rw [init_spec seed k hk, Nat.zero_mul, Nat.zero_add]
  | succ i ih =>
    obtain ⟨r, h1, h2, h3⟩ := ih
    unfold stateAt next
    simp only
    split_ifs with h
    · have hm : (stateAt seed i).mti = 624 := le_antisymm h1 h
      rw [hm] at h2
      have hi := Nat.add_right_cancel h2
      refine ⟨r + 1, by show 0 + 1 ≤ 624; norm_num, ?_, fun k hk => refill_spec _ r _ h3 k hk⟩
      simp only []
      rw [← hi]; ring
    · refine ⟨r, by omega, by omega, h3⟩

theorem out_eq (seed : Int) (i : Nat) :
    out seed i = temper (word (seed % 4294967296).toNat (i + 624)) := by
  obtain ⟨r, h1, h2, h3⟩ := stateAt_spec seed i
  unfold out next
  simp only
  split_ifs with h
  · simp only []
    have hm : (stateAt seed i).mti = 624 := le_antisymm h1 h
    rw [hm] at h2
    have hi := Nat.add_right_cancel h2
    rw [refill_spec _ r _ h3 0 (by norm_num), ← hi, Nat.add_zero, Nat.add_mul, Nat.one_mul]
  · rw [h3 _ (by omega), h2]

theorem mask32 (a : Nat) : a &&& 0xffffffff = a % 2 ^ 32 := Nat.and_two_pow_sub_one_eq_mod a 32

theorem seedWord_lt (s n : Nat) (hs : s < 2 ^ 32) : seedWord s n < 2 ^ 32 := by
  cases n with
  | zero => exact hs
  | succ n => rw [seedWord, mask32]; exact Nat.mod_lt _ (by norm_num)

theorem twist_lt {a b c : Nat} (hc : c < 2 ^ 32) : twist a b c < 2 ^ 32 := by
  unfold twist
  simp only []
  apply Nat.xor_lt_two_pow
  · apply Nat.xor_lt_two_pow hc
    refine lt_of_le_of_lt (Nat.shiftRight_le _ _) ?_
    exact Nat.or_lt_two_pow (Nat.and_lt_two_pow _ (by norm_num)) (Nat.and_lt_two_pow _ (by norm_num))
  · split_ifs <;> norm_num

theorem word_lt32 (s n : Nat) (hs : s < 2 ^ 32) : word s n < 2 ^ 32 := by
  induction n using Nat.strongRecOn with
  | ind n ih =>
    by_cases h : n < 624
    · rw [word_lt s n h]; exact seedWord_lt s n hs
    · obtain ⟨m, rfl⟩ : ∃ m, n = m + 624 := ⟨n - 624, by omega⟩
      rw [word_recur]
      exact twist_lt (ih (m + 397) (by omega))

theorem temper_lt {y : Nat} (hy : y < 2 ^ 32) : temper y < 2 ^ 32 := by
  unfold temper
  simp only []
  have h1 : ∀ z < 2 ^ 32, ∀ k, z ^^^ (z >>> k) < 2 ^ 32 := fun z hz k =>
    Nat.xor_lt_two_pow hz (lt_of_le_of_lt (Nat.shiftRight_le _ _) hz)
  have h2 : ∀ z < 2 ^ 32, ∀ k m, m < 2 ^ 32 → z ^^^ ((z <<< k) &&& m) < 2 ^ 32 := fun z hz k m hm =>
    Nat.xor_lt_two_pow hz (Nat.and_lt_two_pow _ hm)
  exact h1 _ (h2 _ (h2 _ (h1 _ hy _) _ _ (by norm_num)) _ _ (by norm_num)) _

/-- The bit operations in arithmetic terms. -/
theorem twist_arith (a b c : Nat) : twist a b c =
    c ^^^ (((a / 2 ^ 31 % 2) * 2 ^ 31 + b % 2 ^ 31) / 2) ^^^ (if b % 2 = 0 then 0 else 0x9908b0df) := by
  have hb : b &&& 0x7fffffff = b % 2 ^ 31 := Nat.and_two_pow_sub_one_eq_mod b 31
  have ha : a &&& 0x80000000 = (a / 2 ^ 31 % 2) * 2 ^ 31 := by
    apply Nat.eq_of_testBit_eq
    intro i
    rw [Nat.testBit_and, show (0x80000000 : Nat) = 2 ^ 31 by norm_num, Nat.testBit_two_pow,
      Nat.testBit_mul_two_pow]
    by_cases h : 31 = i
    · subst h
      simp [Nat.testBit_eq_decide_div_mod_eq]
    · rw [decide_eq_false h, Bool.and_false]
      by_cases h' : 31 ≤ i
      · rw [decide_eq_true h', Bool.true_and]
        symm
        apply Nat.testBit_lt_two_pow
        refine lt_of_lt_of_le (Nat.mod_lt _ (by norm_num)) ?_
        calc 2 = 2 ^ 1 := rfl
          _ ≤ 2 ^ (i - 31) := Nat.pow_le_pow_right (by norm_num) (by omega)
      · rw [decide_eq_false h', Bool.false_and]
  have hor : (a / 2 ^ 31 % 2) * 2 ^ 31 ||| (b % 2 ^ 31) = (a / 2 ^ 31 % 2) * 2 ^ 31 + b % 2 ^ 31 := by
    rw [mul_comm]
    exact (Nat.two_pow_add_eq_or_of_lt (Nat.mod_lt _ (by norm_num)) _).symm
  unfold twist
  rw [ha, hb, hor]
  simp only []
  rw [Nat.shiftRight_one, Nat.and_one_is_mod]
  have hodd : ((a / 2 ^ 31 % 2) * 2 ^ 31 + b % 2 ^ 31) % 2 = b % 2 := by omega
  rw [hodd]

theorem word_isSequence (s : Nat) : IsSequence s (word s) where
  zero := rfl
  seeded n hn := by
    rw [word_lt s _ hn, word_lt s n (by omega), seedWord, mask32]
  recur n := by
    rw [word_recur, twist_arith]

variable {K : Type*} [Field K] [LinearOrder K] [IsStrictOrderedRing K]

/-- **C55** (generator).  The draws are the outputs of MT19937 for the seed reduced to 32 bits, divided by
`2^32 - 1`; every draw is between 0 and 1, the end points included. -/
theorem C55_generator (seed : Int) :
    ∃ w, IsSequence (seed % 2 ^ 32).toNat w ∧ (∀ n, w n < 2 ^ 32) ∧
      (∀ i, out seed i = temper (w (i + 624)) ∧ out seed i < 2 ^ 32) ∧
      (∀ i, 0 ≤ (draw seed i : K) ∧ (draw seed i : K) ≤ 1 ∧
        ((draw seed i : K) = 1 ↔ out seed i = 2 ^ 32 - 1)) := by
  have hs : (seed % 4294967296).toNat < 2 ^ 32 := by omega
  have hlt : ∀ i, out seed i < 2 ^ 32 := by
    intro i
    rw [out_eq]
    exact temper_lt (word_lt32 _ _ hs)
  refine ⟨word (seed % 4294967296).toNat, ?_, fun n => word_lt32 _ n hs, fun i => ⟨out_eq seed i, hlt i⟩,
    fun i => ?_⟩
  · have : (seed % 2 ^ 32) = seed % 4294967296 := by norm_num
    rw [this]
    exact word_isSequence _
  · have h1 := hlt i
    have h2 : (0 : K) < 4294967295 := by norm_num
    have h3 : (out seed i : K) ≤ 4294967295 := by
      have : out seed i ≤ 4294967295 := by omega
      exact_mod_cast this
    unfold draw
    refine ⟨by positivity, (div_le_one h2).2 h3, ?_⟩
    rw [div_eq_one_iff_eq h2.ne']
    constructor
    · intro h
      have : out seed i = 4294967295 := by exact_mod_cast h
      omega
    · intro h
      rw [h]; norm_num

/-- The first thousand outputs with the seed 42 are not the largest one. -/
theorem seed42_check : (List.range 1000).all
    (fun i => temper (wordF 42 5 (i + 624)) != 0xffffffff) = true := by
  decide +kernel

/-- **C55** (the seed spectral clustering uses).  With the seed 42 the first draw is
1608637542 / (2^32 - 1), and none of the first thousand draws is 1. -/
theorem C55_seed42 : (draw 42 0 : K) = 1608637542 / 4294967295 ∧ ∀ i < 1000, (draw 42 i : K) < 1 := by
  have h42 : ((42 : Int) % 4294967296).toNat = 42 := by decide
  constructor
  · have h : out 42 0 = 1608637542 := by
      rw [out_eq, h42, ← wordF_eq 42 1 _ (by omega)]
      decide +kernel
    unfold draw
    rw [h]; norm_num
  · intro i hi
    obtain ⟨w, -, -, -, h⟩ := C55_generator (K := K) 42
    obtain ⟨-, h2, h3⟩ := h i
    refine lt_of_le_of_ne h2 (fun h4 => ?_)
    have h5 := h3.1 h4
    rw [out_eq, h42, ← wordF_eq 42 5 _ (by omega)] at h5
    have h6 := List.all_eq_true.1 seed42_check i (List.mem_range.2 hi)
    simp only [bne_iff_ne, ne_eq] at h6
    exact h6 h5

end MT
end Stag
