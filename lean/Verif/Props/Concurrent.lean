import Verif.Props.CrashSafetyExamples

/-!
# C65: two processes at once

The operations of two processes are interleaved in any order.  As long as they touch different files, each
sees, at every moment, what it would see alone.  But `getTempFilename` draws its names from `std::rand`,
which the library never seeds, so two processes use the same temporary names; two of them sorting two
unrelated edgelists can destroy both.
-/

namespace Stag

/-- The paths an operation reads or changes are all in `S`. -/
def FsOp.within (S : Path → Prop) : FsOp → Prop
  | .truncate p => S p
  | .put p _ => S p
  | .remove p => S p
  | .copyPart p q _ => S p ∧ S q
  | .copyAll p q => S p ∧ S q

theorem FsOp.within.target {S : Path → Prop} {o : FsOp} (h : o.within S) : S o.target := by
  cases o <;> simp_all [FsOp.within, FsOp.target]

/-- An operation only depends on the files it may touch. -/
theorem exec_congr {S : Path → Prop} {o : FsOp} (h : o.within S) {f g : FS} (hfg : ∀ p, S p → f p = g p) :
    ∀ p, S p → o.exec f p = o.exec g p := by
  intro p hp
  have hset : ∀ (q : Path) (x : Option Str), f.set q x p = g.set q x p := by
    intro q x; unfold FS.set; rw [hfg p hp]
  cases o with
  | truncate q => exact hset _ _
  | remove q => exact hset _ _
  | put q c =>
    simp only [FsOp.exec]
    rw [← hfg q h]
    cases f q with
    | none => exact hfg p hp
    | some s => exact hset _ _
  | copyPart q r k =>
    simp only [FsOp.exec]
    rw [← hfg q h.1]
    cases f q with
    | none => exact hfg p hp
    | some s => exact hset _ _
  | copyAll q r =>
    simp only [FsOp.exec]
    rw [← hfg q h.1]
    cases f q with
    | none => exact hfg p hp
    | some s => exact hset _ _

theorem execAll_congr {S : Path → Prop} (ops : List FsOp) (h : ∀ o ∈ ops, o.within S) : ∀ {f g : FS},
    (∀ p, S p → f p = g p) → ∀ p, S p → execAll f ops p = execAll g ops p := by
  induction ops with
  | nil => intro f g hfg; exact hfg
  | cons o ops ih =>
    intro f g hfg
    rw [execAll_cons, execAll_cons]
    exact ih (fun o' ho' => h o' (by simp [ho'])) (exec_congr (h o (by simp)) hfg)

theorem Interleave.symm {a b c : List FsOp} (h : Interleave a b c) : Interleave b a c := by
  induction h with
  | nil => exact .nil
  | left _ ih => exact .right ih
  | right _ ih => exact .left ih

theorem Interleave.mem {a b c : List FsOp} (h : Interleave a b c) : ∀ o ∈ c, o ∈ a ∨ o ∈ b := by
  induction h with
  | nil => simp
  | left _ ih =>
    intro o ho
    rcases List.mem_cons.1 ho with rfl | ho
    · simp
    · rcases ih o ho with h | h <;> simp [h]
  | right _ ih =>
    intro o ho
    rcases List.mem_cons.1 ho with rfl | ho
    · simp
    · rcases ih o ho with h | h <;> simp [h]

/-- A beginning of an interleaving interleaves beginnings. -/
theorem Interleave.take {a b c : List FsOp} (h : Interleave a b c) : ∀ k, ∃ i j, i + j = min k c.length ∧
    Interleave (a.take i) (b.take j) (c.take k) := by
  induction h with
  | nil => intro k; exact ⟨0, 0, by simp, by simpa using Interleave.nil⟩
  | left _ ih =>
    intro k
    cases k with
    | zero => exact ⟨0, 0, by simp, by simpa using Interleave.nil⟩
    | succ k =>
      obtain ⟨i, j, h1, h2⟩ := ih k
      exact ⟨i + 1, j, by simp; omega, by simpa using Interleave.left h2⟩
  | right _ ih =>
    intro k
    cases k with
    | zero => exact ⟨0, 0, by simp, by simpa using Interleave.nil⟩
    | succ k =>
      obtain ⟨i, j, h1, h2⟩ := ih k
      exact ⟨i, j + 1, by simp; omega, by simpa using Interleave.right h2⟩

theorem interleave_solo {A B : Path → Prop} (hAB : ∀ p, A p → ¬ B p) {a b c : List FsOp}
    (h : Interleave a b c) (ha : ∀ o ∈ a, o.within A) (hb : ∀ o ∈ b, o.within B) : ∀ (f g : FS),
    (∀ p, A p → f p = g p) → ∀ p, A p → execAll f c p = execAll g a p := by
  induction h with
  | nil => intro f g hfg; exact hfg
  | left _ ih =>
    rename_i o a b c _
    intro f g hfg
    rw [execAll_cons, execAll_cons]
    exact ih (fun o' ho' => ha o' (by simp [ho'])) hb _ _ (exec_congr (ha o (by simp)) hfg)
  | right _ ih =>
    rename_i o a b c _
    intro f g hfg
    rw [execAll_cons]
    refine ih ha (fun o' ho' => hb o' (by simp [ho'])) _ _ ?_
    intro p hp
    rw [exec_other, hfg p hp]
    intro e
    exact hAB p hp (e ▸ (hb o (by simp)).target)

/-- **C65** (different files).  If two processes read and change only files of two disjoint sets, then
however their operations are interleaved, and at every moment, the files of each are exactly as its own
operations so far would have left them without the other process, and no further file has changed. -/
theorem C65_disjoint {A B : Path → Prop} (hAB : ∀ p, A p → ¬ B p) {a b c : List FsOp}
    (h : Interleave a b c) (ha : ∀ o ∈ a, o.within A) (hb : ∀ o ∈ b, o.within B) (fs : FS) (k : Nat) :
    ∃ i j, i + j = min k c.length ∧ (∀ p, A p → crashAfter fs c k p = crashAfter fs a i p) ∧
      (∀ p, B p → crashAfter fs c k p = crashAfter fs b j p) ∧
      ∀ p, ¬ A p → ¬ B p → crashAfter fs c k p = fs p := by
  obtain ⟨i, j, h1, h2⟩ := h.take k
  have ha' : ∀ o ∈ a.take i, o.within A := fun o ho => ha o (List.mem_of_mem_take ho)
  have hb' : ∀ o ∈ b.take j, o.within B := fun o ho => hb o (List.mem_of_mem_take ho)
  refine ⟨i, j, h1, ?_, ?_, ?_⟩
  · exact interleave_solo hAB h2 ha' hb' fs fs (fun _ _ => rfl)
  · exact interleave_solo (fun p hp hq => hAB p hq hp) h2.symm hb' ha' fs fs (fun _ _ => rfl)
  · intro p hpa hpb
    apply execAll_other
    intro o ho e
    rcases h2.mem o ho with h | h
    · exact hpa (e ▸ (ha' o h).target)
    · exact hpb (e ▸ (hb' o h).target)

theorem writeOps_within {S : Path → Prop} {p : Path} (s : Str) (hp : S p) :
    ∀ o ∈ writeOps p s, o.within S := by
  intro o ho
  unfold writeOps at ho
  rcases List.mem_cons.1 ho with rfl | ho
  · exact hp
  · obtain ⟨c, _, rfl⟩ := List.mem_map.1 ho; exact hp

theorem copyOps_within {S : Path → Prop} {p q : Path} (s : Str) (hp : S p) (hq : S q) :
    ∀ o ∈ copyOps p q s, o.within S := by
  intro o ho
  unfold copyOps at ho
  rcases List.mem_append.1 ho with ho | ho
  · obtain ⟨c, _, rfl⟩ := List.mem_map.1 ho; exact ⟨hp, hq⟩
  · rw [List.mem_singleton] at ho; subst ho; exact ⟨hp, hq⟩

theorem passOps_within {S : Path → Prop} {p q : Path} (s : Str) (hp : S p) (hq : S q) :
    ∀ o ∈ passOps p q s, o.within S := by
  intro o ho
  unfold passOps at ho
  rcases List.mem_append.1 ho with ho | ho
  · exact writeOps_within _ hq o ho
  · rcases List.mem_cons.1 ho with rfl | ho
    · exact hp
    · rcases List.mem_append.1 ho with ho | ho
      · exact copyOps_within _ hq hp o ho
      · rw [List.mem_singleton] at ho; subst ho; exact hq

section
variable {K : Type} [Field K] [LinearOrder K]

omit [LinearOrder K] in
theorem sortLoopOps_within (F : Fmt K) (total : Nat) (file : Path) (tmp : Nat → Path) :
    ∀ (fuel i : Nat) (text : Str) (ivs : List SortIv) (ops : List FsOp) (r : Outcome Unit),
      sortLoopOps F total file tmp fuel i text ivs = some (ops, r) →
      ∀ o ∈ ops, o.within (fun p => p = file ∨ ∃ j, p = tmp j) := by
  intro fuel
  induction fuel with
  | zero =>
    intro i text ivs ops r h
    cases ivs with
    | nil => simp only [sortLoopOps, Option.some.injEq, Prod.mk.injEq] at h; simp [← h.1]
    | cons iv ivs => simp [sortLoopOps] at h
  | succ fuel ih =>
    intro i text ivs ops r h
    cases ivs with
    | nil => simp only [sortLoopOps, Option.some.injEq, Prod.mk.injEq] at h; simp [← h.1]
    | cons iv ivs =>
      rw [sortLoopOps] at h
      cases hp : sortPass F total text (iv :: ivs) with
      | ok x =>
        obtain ⟨text', ivs'⟩ := x
        rw [hp] at h
        simp only [Option.map_eq_some_iff] at h
        obtain ⟨⟨ops', r'⟩, h1, h2⟩ := h
        simp only [Prod.mk.injEq] at h2
        obtain ⟨rfl, rfl⟩ := h2
        intro o ho
        rcases List.mem_append.1 ho with ho | ho
        · exact passOps_within text' (Or.inl rfl) (Or.inr ⟨i, rfl⟩) o ho
        · exact ih _ _ _ _ _ h1 o ho
      | throw e =>
        rw [hp] at h
        simp only [Option.some.injEq, Prod.mk.injEq] at h
        rw [← h.1]
        intro o ho
        rw [List.mem_singleton] at ho; subst ho
        exact Or.inr ⟨i, rfl⟩
      | ub =>
        rw [hp] at h
        simp only [Option.some.injEq, Prod.mk.injEq] at h
        rw [← h.1]
        intro o ho
        rw [List.mem_singleton] at ho; subst ho
        exact Or.inr ⟨i, rfl⟩

omit [LinearOrder K] in
theorem sortEdgelistOps_within (F : Fmt K) (fuel : Nat) (file : Path) (tmp : Nat → Path) (i : Nat)
    (text : Str) (ops : List FsOp) (r : Outcome Unit)
    (h : sortEdgelistOps F fuel file tmp i text = some (ops, r)) :
    ∀ o ∈ ops, o.within (fun p => p = file ∨ ∃ j, p = tmp j) := by
  unfold sortEdgelistOps at h
  cases hp : Outcome.mapM' (parseEdgeRT F) (contentLines text) with
  | ok es =>
    rw [hp] at h
    exact sortLoopOps_within F _ file tmp _ _ _ _ _ _ h
  | throw e =>
    rw [hp] at h
    simp only [Option.some.injEq, Prod.mk.injEq] at h
    simp [← h.1]
  | ub =>
    rw [hp] at h
    simp only [Option.some.injEq, Prod.mk.injEq] at h
    simp [← h.1]

end

section
variable {K : Type} [Field K] [LinearOrder K] [IsStrictOrderedRing K]

omit [IsStrictOrderedRing K] in
/-- **C65** (two sorts, different temporary names).  Two processes sorting two different edgelists whose
content lines all parse, with temporary names that differ from each other and from the two files: however
their operations are interleaved, both files end up sorted (as in C25), and every file that is not one
of theirs is unchanged. -/
theorem C65_sorts (F : Fmt K) (f g : Path) (hfg : f ≠ g) (tf tg : Nat → Path)
    (h1 : ∀ j, tf j ≠ f ∧ tf j ≠ g ∧ tg j ≠ f ∧ tg j ≠ g) (h2 : ∀ i j, tf i ≠ tg j)
    (textf textg : Str) (ef eg : List (Edge K))
    (hf : Outcome.mapM' (parseEdgelistLine F) (contentLines textf) = .ok ef)
    (hg : Outcome.mapM' (parseEdgelistLine F) (contentLines textg) = .ok eg) (fuel : Nat)
    (hfuelf : maxVertex ef + 1 ≤ fuel) (hfuelg : maxVertex eg + 1 ≤ fuel)
    (fs : FS) (hfsf : fs f = some textf) (hfsg : fs g = some textg) :
    ∃ a b sortedf sortedg, sortEdgelistOps F fuel f tf 0 textf = some (a, .ok ()) ∧
      sortEdgelistOps F fuel g tg 0 textg = some (b, .ok ()) ∧
      sortEdgelist F fuel textf = some (.ok sortedf) ∧ sortEdgelist F fuel textg = some (.ok sortedg) ∧
      ∀ c, Interleave a b c → execAll fs c f = some sortedf ∧ execAll fs c g = some sortedg ∧
        ∀ q, q ≠ f → q ≠ g → (∀ j, q ≠ tf j) → (∀ j, q ≠ tg j) → execAll fs c q = fs q := by
  obtain ⟨a, sf, a1, a2, a3, _⟩ := C63_sort_done F f tf 0 (fun j _ => (h1 j).1) textf ef hf fuel hfuelf fs
    hfsf
  obtain ⟨b, sg, b1, b2, b3, _⟩ := C63_sort_done F g tg 0 (fun j _ => (h1 j).2.2.2) textg eg hg fuel
    hfuelg fs hfsg
  refine ⟨a, b, sf, sg, a1, b1, a2, b2, ?_⟩
  intro c hc
  have wa := sortEdgelistOps_within F fuel f tf 0 textf a _ a1
  have wb := sortEdgelistOps_within F fuel g tg 0 textg b _ b1
  have hAB : ∀ p, (p = f ∨ ∃ j, p = tf j) → ¬ (p = g ∨ ∃ j, p = tg j) := by
    rintro p (rfl | ⟨j, rfl⟩) (e | ⟨i, e⟩)
    · exact hfg e
    · exact (h1 i).2.2.1 e.symm
    · exact (h1 j).2.1 e
    · exact h2 j i e
  refine ⟨?_, ?_, ?_⟩
  · rw [interleave_solo hAB hc wa wb fs fs (fun _ _ => rfl) f (Or.inl rfl), a3]
  · rw [interleave_solo (fun p hp hq => hAB p hq hp) hc.symm wb wa fs fs (fun _ _ => rfl) g
      (Or.inl rfl), b3]
  · intro q q1 q2 q3 q4
    apply execAll_other
    intro o ho e
    rcases hc.mem o ho with h | h
    · rcases (wa o h).target with h | ⟨j, h⟩
      · exact q1 (e.trans h)
      · exact q3 j (e.trans h)
    · rcases (wb o h).target with h | ⟨j, h⟩
      · exact q2 (e.trans h)
      · exact q4 j (e.trans h)

theorem interleave_right_all (b : List FsOp) : Interleave [] b b := by
  induction b with
  | nil => exact .nil
  | cons o b ih => exact .right ih

theorem interleave_left (x : List FsOp) {a b c : List FsOp} (h : Interleave a b c) :
    Interleave (x ++ a) b (x ++ c) := by
  induction x with
  | nil => exact h
  | cons o x ih => exact .left ih

theorem interleave_right (x : List FsOp) {a b c : List FsOp} (h : Interleave a b c) :
    Interleave a (x ++ b) (x ++ c) := by
  induction x with
  | nil => exact h
  | cons o x ih => exact .right ih

theorem execAll_puts_none (p : Path) (s : Str) : ∀ fs : FS, fs p = none →
    execAll fs (s.map (.put p)) = fs := by
  induction s with
  | nil => intro fs _; rfl
  | cons c s ih =>
    intro fs h
    rw [List.map_cons, execAll_cons]
    have : FsOp.exec fs (.put p c) = fs := by simp only [FsOp.exec, h]
    rw [this, ih fs h]

omit [IsStrictOrderedRing K] in
/-- **C65** (two sorts, same temporary names).  Two processes start sorting two different edgelists whose
content lines all parse.  If their first temporary names coincide - and as `std::rand` is never seeded,
processes that have made equally many names before have the same one (`C65_same_name`) - there is an
interleaving of their operations and a moment at which the first edgelist is empty, the second does not
exist, and neither does the temporary file: all edges of both graphs are lost. -/
theorem C65_collision (F : Fmt K) (f g : Path) (hfg : f ≠ g) (tf tg : Nat → Path) (m n : Nat)
    (hf' : ∀ j, m ≤ j → tf j ≠ f) (hg' : ∀ j, n ≤ j → tg j ≠ g) (hsame : tf m = tg n) (textf textg : Str)
    (ef eg : List (Edge K))
    (hf : Outcome.mapM' (parseEdgelistLine F) (contentLines textf) = .ok ef)
    (hg : Outcome.mapM' (parseEdgelistLine F) (contentLines textg) = .ok eg) (fuel : Nat)
    (hfuelf : maxVertex ef + 1 ≤ fuel) (hfuelg : maxVertex eg + 1 ≤ fuel) (fs : FS) :
    ∃ a b c k, sortEdgelistOps F fuel f tf m textf = some (a, .ok ()) ∧
      sortEdgelistOps F fuel g tg n textg = some (b, .ok ()) ∧ Interleave a b c ∧
      crashAfter fs c k f = some [] ∧ crashAfter fs c k g = none ∧
      crashAfter fs c k (tf m) = none ∧
      ∀ q, q ≠ f → q ≠ g → q ≠ tf m → crashAfter fs c k q = fs q := by
  obtain ⟨a, _, _, a2, _, sa, a', rfl⟩ := sortEdgelistOps_spec F f tf m hf' textf ef hf fuel hfuelf
  obtain ⟨b, _, _, b2, _, sb, b', rfl⟩ := sortEdgelistOps_spec F g tg n hg' textg eg hg fuel hfuelg
  have htf : tf m ≠ f := hf' m (le_refl _)
  have htg : tf m ≠ g := hsame ▸ hg' n (le_refl _)
  rw [← hsame] at b2
  -- the moment: A has written, B truncates, A copies and removes, B writes into nothing and removes
  let x1 := writeOps (tf m) sa ++ [FsOp.remove f]
  let y1 := [FsOp.truncate (tf m)]
  let x2 := copyOps (tf m) f sa ++ [FsOp.remove (tf m)]
  let y2 := sb.map (FsOp.put (tf m)) ++ [FsOp.remove g]
  let y3 := copyOps (tf m) g sb ++ ([FsOp.remove (tf m)] ++ b')
  have ha : passOps f (tf m) sa ++ a' = x1 ++ (x2 ++ a') := by
    simp [x1, x2, passOps]
  have hb : passOps g (tf m) sb ++ b' = y1 ++ (y2 ++ y3) := by
    simp [y1, y2, y3, passOps, writeOps]
  refine ⟨_, _, x1 ++ (y1 ++ (x2 ++ (y2 ++ (a' ++ y3)))), (x1 ++ y1 ++ x2 ++ y2).length, a2, b2, ?_, ?_⟩
  · rw [ha, hb]
    refine interleave_left x1 (interleave_right y1 (interleave_left x2 (interleave_right y2 ?_)))
    have := interleave_left a' (interleave_right_all y3)
    rwa [List.append_nil] at this
  · have hcr : crashAfter fs (x1 ++ (y1 ++ (x2 ++ (y2 ++ (a' ++ y3))))) (x1 ++ y1 ++ x2 ++ y2).length =
        execAll (execAll (execAll (execAll fs x1) y1) x2) y2 := by
      unfold crashAfter
      rw [show x1 ++ (y1 ++ (x2 ++ (y2 ++ (a' ++ y3)))) = (x1 ++ y1 ++ x2 ++ y2) ++ (a' ++ y3) by simp,
        List.take_left]
      simp only [execAll, List.foldl_append]
    rw [hcr]
    have e2 : execAll (execAll fs x1) y1 (tf m) = some [] := by
      simp [y1, execAll, FsOp.exec, FS.set_same]
    have o2 : ∀ q, q ≠ f → q ≠ tf m → execAll (execAll fs x1) y1 q = fs q := by
      intro q q1 q2
      rw [execAll_other y1, execAll_other x1]
      · intro o ho
        rcases List.mem_append.1 ho with ho | ho
        · rw [writeOps_target _ _ o ho]; exact q2
        · rw [List.mem_singleton] at ho; subst ho; exact q1
      · intro o ho
        rw [List.mem_singleton] at ho; subst ho; exact q2
    generalize execAll (execAll fs x1) y1 = fs2 at e2 o2 ⊢
    have e3f : execAll fs2 x2 f = some [] := by
      simp only [x2]
      rw [execAll_append, execAll_cons, execAll_nil]
      simp only [FsOp.exec]
      rw [FS.set_other _ _ htf.symm]
      unfold copyOps
      rw [execAll_append, execAll_cons, execAll_nil]
      have hsrc : execAll fs2 ((List.range sa.length).map (.copyPart (tf m) f)) (tf m) = some [] := by
        rw [execAll_other, e2]
        intro o ho
        obtain ⟨c, _, rfl⟩ := List.mem_map.1 ho
        exact htf
      simp only [FsOp.exec, hsrc, FS.set_same]
    have e3t : execAll fs2 x2 (tf m) = none := by
      simp only [x2]
      rw [execAll_append, execAll_cons, execAll_nil]
      exact FS.set_same _ _ _
    have o3 : ∀ q, q ≠ f → q ≠ tf m → execAll fs2 x2 q = fs q := by
      intro q q1 q2
      rw [execAll_other x2, o2 q q1 q2]
      intro o ho
      rcases List.mem_append.1 ho with ho | ho
      · rw [copyOps_target _ _ _ o ho]; exact q1
      · rw [List.mem_singleton] at ho; subst ho; exact q2
    generalize execAll fs2 x2 = fs3 at e3f e3t o3 ⊢
    have e4 : execAll fs3 y2 = fs3.set g none := by
      simp only [y2]
      rw [execAll_append, execAll_puts_none _ _ _ e3t, execAll_cons, execAll_nil]
      rfl
    rw [e4]
    refine ⟨?_, FS.set_same _ _ _, ?_, ?_⟩
    · rw [FS.set_other _ _ hfg, e3f]
    · rw [FS.set_other _ _ htg, e3t]
    · intro q q1 q2 q3
      rw [FS.set_other _ _ q2, o3 q q1 q3]

end

/-- **C65** (same names).  The temporary names of two processes are equal exactly when the twenty values
of `std::rand` they are made of agree modulo 62.  In particular processes with the same sequence of
`std::rand` - all of them, as the library never seeds it - use the same names in the same order. -/
theorem C65_same_name (rand rand' : Nat → Nat) (i j : Nat) :
    tempName rand i = tempName rand' j ↔ ∀ k < 20, rand (20 * i + k) % 62 = rand' (20 * j + k) % 62 := by
  have hinj : ∀ a < 62, ∀ b < 62, charset.getD a ' ' = charset.getD b ' ' → a = b := by
    decide +kernel
  unfold tempName
  rw [List.append_cancel_left_eq]
  constructor
  · intro h k hk
    have := congrArg (fun l => l[k]?) h
    simp only [List.getElem?_map, List.getElem?_range hk, Option.map_some, Option.some.injEq] at this
    exact hinj _ (Nat.mod_lt _ (by decide)) _ (Nat.mod_lt _ (by decide)) this
  · intro h
    apply List.map_congr_left
    intro k hk
    simp only [h k (List.mem_range.1 hk)]

/-- Two processes sorting two small files: the hypotheses of `C65_collision` are met by the names the
library makes, for any sequence of `std::rand`. -/
example (rand : Nat → Nat) : ∃ a b c k,
    sortEdgelistOps natFmt 8 "/g".toList (tempName rand) 0 "3 1".toList = some (a, .ok ()) ∧
      sortEdgelistOps natFmt 8 "/h".toList (tempName rand) 0 "0 2".toList = some (b, .ok ()) ∧
      Interleave a b c ∧
      crashAfter (fun p => if p = "/g".toList then some "3 1".toList else
        if p = "/h".toList then some "0 2".toList else none) c k "/h".toList = none := by
  have hcl : ∀ s : Str, IsLine s → s ≠ [] → isContent s = true → contentLines s = [s] := by
    intro s h1 h2 h3
    unfold contentLines
    rw [fileLines_last h1 h2]
    simp [h3, isContent_nil]
  have hn : ∀ (s : Str), s.length = 2 → ∀ j, 0 ≤ j → tempName rand j ≠ s := by
    intro s hs j _ h
    have := congrArg List.length h
    rw [tempName_length, hs] at this
    exact absurd this (by decide)
  obtain ⟨a, b, c, k, h1, h2, h3, _, h5, _⟩ := C65_collision natFmt "/g".toList "/h".toList (by decide)
    (tempName rand) (tempName rand) 0 0 (hn _ rfl) (hn _ rfl) rfl "3 1".toList "0 2".toList
    [⟨3, 1, 1⟩] [⟨0, 2, 1⟩]
    (by rw [hcl _ ⟨by decide, by decide⟩ (by decide) (by decide)]; decide +kernel)
    (by rw [hcl _ ⟨by decide, by decide⟩ (by decide) (by decide)]; decide +kernel) 8
    (by decide +kernel) (by decide +kernel)
    (fun p => if p = "/g".toList then some "3 1".toList else
        if p = "/h".toList then some "0 2".toList else none)
  exact ⟨a, b, c, k, h1, h2, h3, h5⟩

end Stag
