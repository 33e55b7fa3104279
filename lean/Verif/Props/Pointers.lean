import Verif.Props.Cache

/-!
# C80: what the pointers returned by the matrix accessors show

`laplacian()` and its siblings return a pointer to a member of the graph object
(`stag_lib/graph.cpp:151-188`).  The theorems say what a caller sees through such a pointer
while the object lives on.
-/

set_option linter.unusedSectionVars false

namespace Stag
variable {K : Type} [Field K] [LinearOrder K]

/-- The seven members that accessors return pointers to (`stag_lib/graph.h:491-540`). -/
inductive Slot where
  | lap | signless | deg | inv | norm | signlessNorm | lazy
  deriving DecidableEq, Repr

/-- The accessor that hands out the pointer (`stag_lib/graph.cpp:151-188`). -/
def Slot.accessor : Slot → GQuery
  | .lap => .laplacian
  | .signless => .signlessLaplacian
  | .deg => .degreeMatrix
  | .inv => .inverseDegreeMatrix
  | .norm => .normalisedLaplacian
  | .signlessNorm => .normalisedSignlessLaplacian
  | .lazy => .lazyRandomWalk

/-- What dereferencing the pointer shows. -/
def GraphObj.look (o : GraphObj K) : Slot → GAnswer K
  | .lap => .mat o.lap.val
  | .signless => .mat o.signless.val
  | .deg => .mat o.deg.val
  | .inv => .xmat o.inv.val
  | .norm => .xmat o.norm.val
  | .signlessNorm => .xmat o.signlessNorm.val
  | .lazy => .xmat o.lazy.val

/-- Specification: the members that a call may write.  Every call may write the degree matrix;
the random walk matrix is built from the inverse degree matrix; nothing else is shared. -/
def GQuery.mayWrite (q : GQuery) (s : Slot) : Prop :=
  s = .deg ∨ q = s.accessor ∨ (q = .lazyRandomWalk ∧ s = .inv)

/-- The object after a history (`stag_lib/graph.cpp:151-282`). -/
def GraphObj.runObj (sq : K → K) (o : GraphObj K) : List (GEvent K) → Outcome (GraphObj K)
  | [] => .ok o
  | .add i j w :: l => do
    let o ← o.addEdge i j w
    runObj sq o l
  | .remove i j :: l => do
    let o ← o.removeEdge i j
    runObj sq o l
  | .ask q :: l => runObj sq (o.ask sq q).1 l

/-- Specification: the graph after the mutations of a history. -/
def Graph.runGraph (g : Graph K) : List (GEvent K) → Outcome (Graph K)
  | [] => .ok g
  | .add i j w :: l => do
    let g ← g.addEdge i j w
    runGraph g l
  | .remove i j :: l => do
    let g ← g.removeEdge i j
    runGraph g l
  | .ask _ :: l => runGraph g l

namespace GraphObj

/-- Set flags imply the flags of the matrices used in the computation. -/
structure Closed (o : GraphObj K) : Prop where
  lap : o.lap.init = true → o.deg.init = true
  signless : o.signless.init = true → o.deg.init = true
  norm : o.norm.init = true → o.deg.init = true
  signlessNorm : o.signlessNorm.init = true → o.deg.init = true
  inv : o.inv.init = true → o.deg.init = true
  lazy : o.lazy.init = true → o.inv.init = true

theorem ask_closed {sq : K → K} {o : GraphObj K} (h : o.Closed) (q : GQuery) :
    (o.ask sq q).1.Closed := by
  obtain ⟨h1, h2, h3, h4, h5, h6⟩ := h
  cases q <;> simp only [ask]
  case degree v =>
    cases o.g.checkVertex v <;> (try simp only [initDeg]) <;> (try split_ifs) <;> constructor <;>
      simp_all
  all_goals
    simp only [initLap, initSignless, initNorm, initSignlessNorm, initInv, initLazy, initDeg]
    split_ifs <;> constructor <;> simp_all

theorem ask_look_other {sq : K → K} (o : GraphObj K) (q : GQuery) (s : Slot)
    (hs : ¬ q.mayWrite s) : (o.ask sq q).1.look s = o.look s := by
  cases q <;> cases s <;> simp [GQuery.mayWrite, Slot.accessor] at hs <;> simp only [ask] <;>
    first
    | (simp only [initLap, initSignless, initNorm, initSignlessNorm, initInv, initLazy, initDeg]
       split_ifs <;> rfl)
    | (cases o.g.checkVertex _ <;> (try simp only [initDeg]) <;> (try split_ifs) <;> rfl)

theorem ask_look {sq : K → K} {o : GraphObj K} (h : o.Coherent sq) (q : GQuery) (s : Slot) :
    (o.ask sq q).1.look s = o.look s ∨ (o.ask sq q).1.look s = o.g.answer sq s.accessor := by
  by_cases hw : q.mayWrite s
  · rcases hw with rfl | rfl | ⟨rfl, rfl⟩
    · have hd : ∀ o' : GraphObj K, o'.deg = o.deg ∨ o'.deg = o.initDeg.deg →
          o'.look .deg = o.look .deg ∨ o'.look .deg = o.g.answer sq Slot.deg.accessor := by
        rintro o' (h' | h')
        · exact .inl (by simp only [look, h'])
        · refine .inr ?_
          simp only [look, h', Graph.answer, Slot.accessor]
          rw [(initDeg_spec h).2.2.1]
      apply hd
      cases q <;> simp only [ask]
      case degree v =>
        cases o.g.checkVertex v <;> simp
      all_goals
        (try simp only [initLap, initSignless, initNorm, initSignlessNorm, initInv, initLazy])
        (try split_ifs) <;> simp
    · refine .inr ?_
      rw [← (ask_spec h s.accessor).2.2]
      cases s <;> rfl
    · simp only [ask, initLazy]
      split_ifs with hi
      · exact .inl rfl
      · refine .inr ?_
        simp only [look, Graph.answer, Slot.accessor]
        rw [(initInv_spec h).2.2]
  · exact .inl (ask_look_other o q s hw)

theorem ask_deg {sq : K → K} {o : GraphObj K} (h : o.Coherent sq) (hc : o.Closed) (q : GQuery)
    (hq : ∀ v, q ≠ .degree v) : (o.ask sq q).1.deg.val = o.g.degreeMatrix := by
  have h1 := (ask_spec h q).1.deg
  rw [(ask_spec h q).2.1] at h1
  apply h1
  obtain ⟨g1, g2, g3, g4, g5, g6⟩ := hc
  cases q <;> simp only [ask]
  case degree v => exact absurd rfl (hq v)
  all_goals
    simp only [initLap, initSignless, initNorm, initSignlessNorm, initInv, initLazy, initDeg]
    split_ifs <;> simp_all

theorem runObj_append (sq : K → K) : ∀ (l l' : List (GEvent K)) (o : GraphObj K),
    o.runObj sq (l ++ l') = (o.runObj sq l).bind fun o' => o'.runObj sq l' := by
  intro l
  induction l with
  | nil => intro l' o; rfl
  | cons ev l ih =>
    intro l' o
    cases ev with
    | add i j w =>
      simp only [List.cons_append, runObj]
      cases o.addEdge i j w with
      | ok o' => exact ih l' o'
      | throw e => rfl
      | ub => rfl
    | remove i j =>
      simp only [List.cons_append, runObj]
      cases o.removeEdge i j with
      | ok o' => exact ih l' o'
      | throw e => rfl
      | ub => rfl
    | ask q => exact ih l' _

end GraphObj

theorem addEdge_obj {sq : K → K} {o o' : GraphObj K} {i j : Int} {w : K}
    (h : o.addEdge i j w = .ok o') :
    o'.Coherent sq ∧ o'.Closed ∧ o.g.addEdge i j w = .ok o'.g ∧ ∀ s, o'.look s = o.look s := by
  unfold GraphObj.addEdge at h
  cases hg : o.g.addEdge i j w with
  | ok g' =>
    rw [hg] at h
    simp only [Outcome.bind_ok, Outcome.ok.injEq] at h
    subst h
    refine ⟨GraphObj.resetAfterAdd_coherent sq _, ?_, rfl, fun s => by cases s <;> rfl⟩
    constructor <;> intro h <;> simp [GraphObj.resetAfterAdd] at h
  | throw e => rw [hg] at h; cases h
  | ub => rw [hg] at h; cases h

theorem removeEdge_obj {sq : K → K} {o o' : GraphObj K} {i j : Int} (hco : o.Coherent sq)
    (hcl : o.Closed) (h : o.removeEdge i j = .ok o') :
    o'.Coherent sq ∧ o'.Closed ∧ o.g.removeEdge i j = .ok o'.g ∧ ∀ s, o'.look s = o.look s := by
  unfold GraphObj.removeEdge at h
  cases hg : o.g.removeEdge i j with
  | ok g' =>
    rw [hg] at h
    simp only [Outcome.bind_ok] at h
    split_ifs at h with hc
    · cases h
      refine ⟨hco, hcl, ?_, fun s => rfl⟩
      unfold Graph.removeEdge at hg
      rw [if_pos hc] at hg
      exact hg.symm
    · simp only [Outcome.ok.injEq] at h
      subst h
      refine ⟨GraphObj.resetAfterRemove_coherent sq _, ?_, rfl, fun s => by cases s <;> rfl⟩
      constructor <;> intro h <;> simp [GraphObj.resetAfterRemove] at h
  | throw e => rw [hg] at h; cases h
  | ub => rw [hg] at h; cases h

theorem runObj_inv {sq : K → K} : ∀ (l : List (GEvent K)) {o o' : GraphObj K}, o.Coherent sq →
    o.Closed → o.runObj sq l = .ok o' →
    o'.Coherent sq ∧ o'.Closed ∧ o.g.runGraph l = .ok o'.g := by
  intro l
  induction l with
  | nil => intro o o' h1 h2 h; cases h; exact ⟨h1, h2, rfl⟩
  | cons ev l ih =>
    intro o o' h1 h2 h
    cases ev with
    | add i j w =>
      simp only [GraphObj.runObj] at h
      cases ha : o.addEdge i j w with
      | ok o1 =>
        rw [ha] at h
        obtain ⟨a, b, c, _⟩ := addEdge_obj (sq := sq) ha
        simp only [Graph.runGraph, c, Outcome.bind_ok]
        exact ih a b h
      | throw e => rw [ha] at h; cases h
      | ub => rw [ha] at h; cases h
    | remove i j =>
      simp only [GraphObj.runObj] at h
      cases ha : o.removeEdge i j with
      | ok o1 =>
        rw [ha] at h
        obtain ⟨a, b, c, _⟩ := removeEdge_obj h1 h2 ha
        simp only [Graph.runGraph, c, Outcome.bind_ok]
        exact ih a b h
      | throw e => rw [ha] at h; cases h
      | ub => rw [ha] at h; cases h
    | ask q =>
      simp only [Graph.runGraph]
      have := ih (GraphObj.ask_spec h1 q).1 (GraphObj.ask_closed h2 q) h
      rw [(GraphObj.ask_spec h1 q).2.1] at this
      exact this

theorem runObj_look {sq : K → K} (s : Slot) : ∀ (l : List (GEvent K)) {o o' : GraphObj K},
    o.Coherent sq → o.Closed → o.runObj sq l = .ok o' →
    (∀ q, GEvent.ask q ∈ l → ¬ q.mayWrite s) → o'.look s = o.look s := by
  intro l
  induction l with
  | nil => intro o o' h1 h2 h _; cases h; rfl
  | cons ev l ih =>
    intro o o' h1 h2 h hq
    have hq' : ∀ q, GEvent.ask q ∈ l → ¬ q.mayWrite s := fun q hm => hq q (List.mem_cons_of_mem _ hm)
    cases ev with
    | add i j w =>
      simp only [GraphObj.runObj] at h
      cases ha : o.addEdge i j w with
      | ok o1 =>
        rw [ha] at h
        obtain ⟨a, b, _, d⟩ := addEdge_obj (sq := sq) ha
        exact (ih a b h hq').trans (d s)
      | throw e => rw [ha] at h; cases h
      | ub => rw [ha] at h; cases h
    | remove i j =>
      simp only [GraphObj.runObj] at h
      cases ha : o.removeEdge i j with
      | ok o1 =>
        rw [ha] at h
        obtain ⟨a, b, _, d⟩ := removeEdge_obj h1 h2 ha
        exact (ih a b h hq').trans (d s)
      | throw e => rw [ha] at h; cases h
      | ub => rw [ha] at h; cases h
    | ask q =>
      refine (ih (GraphObj.ask_spec h1 q).1 (GraphObj.ask_closed h2 q) h hq').trans ?_
      exact GraphObj.ask_look_other o q s (hq q List.mem_cons_self)

theorem runObj_look_ask {sq : K → K} (s : Slot) : ∀ (qs : List GQuery) {o o' : GraphObj K},
    o.Coherent sq → o.look s = o.g.answer sq s.accessor →
    o.runObj sq (qs.map .ask) = .ok o' → o'.look s = o.g.answer sq s.accessor := by
  intro qs
  induction qs with
  | nil => intro o o' _ h1 h; cases h; exact h1
  | cons q qs ih =>
    intro o o' hc h1 h
    obtain ⟨a, b, _⟩ := GraphObj.ask_spec hc q
    have := ih a (by rw [b]; rcases GraphObj.ask_look hc q s with e | e
                     · rw [e, h1]
                     · exact e) h
    rwa [b] at this

theorem construct_closed (g : Graph K) (junk : GraphObj K) : (GraphObj.construct g junk).Closed := by
  constructor <;> intro h <;> simp [GraphObj.construct] at h

theorem look_after {sq : K → K} {g : Graph K} {junk o : GraphObj K} {before after : List (GEvent K)}
    {s : Slot}
    (h : (GraphObj.construct g junk).runObj sq (before ++ .ask s.accessor :: after) = .ok o) :
    ∃ (g₁ : Graph K) (o₁ : GraphObj K), g.runGraph before = .ok g₁ ∧ o₁.Coherent sq ∧ o₁.Closed ∧ o₁.g = g₁ ∧
      o₁.look s = g₁.answer sq s.accessor ∧ o₁.runObj sq after = .ok o := by
  rw [GraphObj.runObj_append] at h
  cases h0 : (GraphObj.construct g junk).runObj sq before with
  | ok o₀ =>
    rw [h0] at h
    obtain ⟨a, b, c⟩ := runObj_inv before (GraphObj.construct_coherent sq g junk)
      (construct_closed g junk) h0
    obtain ⟨d, e, f⟩ := GraphObj.ask_spec a s.accessor
    refine ⟨o₀.g, _, c, d, GraphObj.ask_closed b _, e, ?_, h⟩
    rw [← f]
    cases s <;> rfl
  | throw e => rw [h0] at h; cases h
  | ub => rw [h0] at h; cases h

/-- C80.  A pointer is obtained from an accessor at some moment of a history.  Through it the
caller sees the matrix of the graph at that moment, and goes on seeing it - also after
`add_edge` and `remove_edge` have changed the graph - until a call that may write the member. -/
theorem C80_snapshot (sq : K → K) (g : Graph K) (junk o : GraphObj K)
    (before after : List (GEvent K)) (s : Slot)
    (h : (GraphObj.construct g junk).runObj sq (before ++ .ask s.accessor :: after) = .ok o)
    (hq : ∀ q, GEvent.ask q ∈ after → ¬ q.mayWrite s) :
    ∃ g₁, g.runGraph before = .ok g₁ ∧ o.look s = g₁.answer sq s.accessor := by
  obtain ⟨g₁, o₁, a, b, c, _, e, f⟩ := look_after h
  exact ⟨g₁, a, (runObj_look s after b c f hq).trans e⟩

/-- C80.  As long as the graph is not mutated, no sequence of calls of any accessors changes
what the caller sees through the pointer. -/
theorem C80_stable (sq : K → K) (g : Graph K) (junk o : GraphObj K)
    (before : List (GEvent K)) (qs : List GQuery) (s : Slot)
    (h : (GraphObj.construct g junk).runObj sq (before ++ .ask s.accessor :: qs.map .ask) = .ok o) :
    ∃ g₁, g.runGraph before = .ok g₁ ∧ o.look s = g₁.answer sq s.accessor := by
  obtain ⟨g₁, o₁, a, b, _, d, e, f⟩ := look_after h
  subst d
  exact ⟨_, a, runObj_look_ask s qs b e f⟩

/-- C80.  A pointer to the degree matrix shows the current degrees again after any accessor call
other than `degree(v)`, whatever happened before. -/
theorem C80_degree_refreshed (sq : K → K) (g : Graph K) (junk o : GraphObj K)
    (before : List (GEvent K)) (q : GQuery) (hq : ∀ v, q ≠ .degree v)
    (h : (GraphObj.construct g junk).runObj sq (before ++ [.ask q]) = .ok o) :
    ∃ g₁, g.runGraph before = .ok g₁ ∧ o.look .deg = .mat g₁.degreeMatrix := by
  rw [GraphObj.runObj_append] at h
  cases h0 : (GraphObj.construct g junk).runObj sq before with
  | ok o₀ =>
    rw [h0] at h
    obtain ⟨a, b, c⟩ := runObj_inv before (GraphObj.construct_coherent sq g junk)
      (construct_closed g junk) h0
    refine ⟨o₀.g, c, ?_⟩
    have := GraphObj.ask_deg (sq := sq) a b q hq
    cases h
    rw [GraphObj.look, this]
  | throw e => rw [h0] at h; cases h
  | ub => rw [h0] at h; cases h

/-- C80.  The history itself never fails because of an accessor: it succeeds exactly when its
mutations do. -/
theorem C80_succeeds (sq : K → K) (g g' : Graph K) (junk : GraphObj K) (l : List (GEvent K))
    (h : g.runGraph l = .ok g') :
    ∃ o, (GraphObj.construct g junk).runObj sq l = .ok o ∧ o.g = g' := by
  have key : ∀ (l : List (GEvent K)) (o : GraphObj K), o.Coherent sq → o.g.runGraph l = .ok g' →
      ∃ o', o.runObj sq l = .ok o' ∧ o'.g = g' := by
    intro l
    induction l with
    | nil => intro o _ h; cases h; exact ⟨o, rfl, rfl⟩
    | cons ev l ih =>
      intro o hc h
      cases ev with
      | add i j w =>
        simp only [Graph.runGraph] at h
        cases hg : o.g.addEdge i j w with
        | ok g1 =>
          rw [hg] at h
          simp only [GraphObj.runObj, GraphObj.addEdge, hg, Outcome.bind_ok]
          exact ih _ (GraphObj.resetAfterAdd_coherent sq _) h
        | throw e => rw [hg] at h; cases h
        | ub => rw [hg] at h; cases h
      | remove i j =>
        simp only [Graph.runGraph] at h
        cases hg : o.g.removeEdge i j with
        | ok g1 =>
          rw [hg] at h
          simp only [GraphObj.runObj, GraphObj.removeEdge, hg, Outcome.bind_ok]
          split_ifs with hif
          · have : g1 = o.g := by
              unfold Graph.removeEdge at hg
              rw [if_pos hif] at hg
              cases hg; rfl
            subst this
            exact ih _ hc h
          · exact ih _ (GraphObj.resetAfterRemove_coherent sq _) h
        | throw e => rw [hg] at h; cases h
        | ub => rw [hg] at h; cases h
      | ask q =>
        obtain ⟨a, b, _⟩ := GraphObj.ask_spec hc q
        exact ih _ a (by rw [b]; exact h)
  exact key l _ (GraphObj.construct_coherent sq g junk) h

/-- What one entry of the degree matrix looks like through the pointer. -/
def degEntry (o : Outcome (GraphObj ℚ)) (i : Nat) : Option ℚ :=
  match o with
  | .ok o => some (o.deg.val.coeff i i)
  | _ => none

/-- Uninitialised members (empty matrices). -/
def exJunk : GraphObj ℚ :=
  ⟨exGraph, ⟨true, ⟨0, 0, []⟩⟩, ⟨true, ⟨0, 0, []⟩⟩, ⟨true, ⟨0, 0, []⟩⟩, ⟨true, ⟨0, 0, []⟩⟩,
    ⟨true, ⟨0, 0, []⟩⟩, ⟨true, ⟨0, 0, []⟩⟩, ⟨true, ⟨0, 0, []⟩⟩⟩

/-- The pointer shows the old degree after `add_edge`, and the new one as soon as `laplacian()`
has been called, so "until a call that may write the member" cannot be dropped. -/
example :
    degEntry ((GraphObj.construct exGraph exJunk).runObj id [.ask .degreeMatrix]) 0 = some 15 ∧
    degEntry ((GraphObj.construct exGraph exJunk).runObj id
      [.ask .degreeMatrix, .add 0 1 1]) 0 = some 15 ∧
    degEntry ((GraphObj.construct exGraph exJunk).runObj id
      [.ask .degreeMatrix, .add 0 1 1, .ask .laplacian]) 0 = some 16 := by
  decide +kernel

end Stag
