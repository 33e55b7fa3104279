import Verif.GraphCache
import Verif.Props.Construct

/-!
# C03: derived matrices are never stale
-/

set_option linter.unusedSectionVars false

namespace Stag
variable {K : Type} [Field K] [LinearOrder K]

/-- Every set flag guards the right matrix. -/
structure GraphObj.Coherent (sq : K → K) (o : GraphObj K) : Prop where
  lap : o.lap.init = true → o.lap.val = o.g.laplacian
  signless : o.signless.init = true → o.signless.val = o.g.signlessLaplacian
  deg : o.deg.init = true → o.deg.val = o.g.degreeMatrix
  inv : o.inv.init = true → o.inv.val = o.g.inverseDegreeMatrix
  norm : o.norm.init = true → o.norm.val = o.g.normLaplacian sq
  signlessNorm : o.signlessNorm.init = true →
    o.signlessNorm.val = o.g.normSignlessLaplacian sq
  lazy : o.lazy.init = true → o.lazy.val = o.g.lazyRandomWalk

namespace GraphObj

theorem construct_coherent (sq : K → K) (g : Graph K) (junk : GraphObj K) :
    (construct g junk).Coherent sq := by
  constructor <;> intro h <;> simp [construct] at h

theorem initDeg_spec {sq : K → K} {o : GraphObj K} (h : o.Coherent sq) :
    o.initDeg.Coherent sq ∧ o.initDeg.g = o.g ∧ o.initDeg.deg.val = o.g.degreeMatrix ∧
      o.initDeg.deg.init = true := by
  unfold initDeg
  split_ifs with hi
  · exact ⟨h, rfl, h.deg hi, hi⟩
  · exact ⟨⟨h.lap, h.signless, fun _ => rfl, h.inv, h.norm, h.signlessNorm, h.lazy⟩, rfl, rfl,
      rfl⟩

theorem normAdj_eq {sq : K → K} {o : GraphObj K} (h : o.deg.val = o.g.degreeMatrix) :
    o.normAdj sq = o.g.normAdj sq := by
  unfold normAdj Graph.normAdj
  rw [h]

theorem initLap_spec {sq : K → K} {o : GraphObj K} (h : o.Coherent sq) :
    o.initLap.Coherent sq ∧ o.initLap.g = o.g ∧ o.initLap.lap.val = o.g.laplacian := by
  unfold initLap
  split_ifs with hi
  · exact ⟨h, rfl, h.lap hi⟩
  · obtain ⟨h1, h2, h3, _⟩ := initDeg_spec h
    have : SprsMat.zipWith (· - ·) o.initDeg.deg.val o.initDeg.g.adj = o.g.laplacian := by
      rw [h3, h2]; rfl
    refine ⟨⟨fun _ => ?_, h1.signless, h1.deg, h1.inv, h1.norm, h1.signlessNorm, h1.lazy⟩, h2, this⟩
    exact this.trans (congrArg Graph.laplacian h2.symm)

theorem initSignless_spec {sq : K → K} {o : GraphObj K} (h : o.Coherent sq) :
    o.initSignless.Coherent sq ∧ o.initSignless.g = o.g ∧
      o.initSignless.signless.val = o.g.signlessLaplacian := by
  unfold initSignless
  split_ifs with hi
  · exact ⟨h, rfl, h.signless hi⟩
  · obtain ⟨h1, h2, h3, _⟩ := initDeg_spec h
    have : SprsMat.zipWith (· + ·) o.initDeg.deg.val o.initDeg.g.adj = o.g.signlessLaplacian := by
      rw [h3, h2]; rfl
    refine ⟨⟨h1.lap, fun _ => ?_, h1.deg, h1.inv, h1.norm, h1.signlessNorm, h1.lazy⟩, h2, this⟩
    exact this.trans (congrArg Graph.signlessLaplacian h2.symm)

theorem initNorm_spec {sq : K → K} {o : GraphObj K} (h : o.Coherent sq) :
    (o.initNorm sq).Coherent sq ∧ (o.initNorm sq).g = o.g ∧
      (o.initNorm sq).norm.val = o.g.normLaplacian sq := by
  unfold initNorm
  split_ifs with hi
  · exact ⟨h, rfl, h.norm hi⟩
  · obtain ⟨h1, h2, h3, _⟩ := initDeg_spec h
    have : SprsMat.zipWith (· - ·) (SprsMat.diag o.initDeg.g.n (fun _ => XReal.fin 1))
        (o.initDeg.normAdj sq) = o.g.normLaplacian sq := by
      rw [normAdj_eq (by rw [h3, h2]), h2]; rfl
    refine ⟨⟨h1.lap, h1.signless, h1.deg, h1.inv, fun _ => ?_, h1.signlessNorm, h1.lazy⟩, h2, this⟩
    exact this.trans (congrArg (Graph.normLaplacian sq) h2.symm)

theorem initSignlessNorm_spec {sq : K → K} {o : GraphObj K} (h : o.Coherent sq) :
    (o.initSignlessNorm sq).Coherent sq ∧ (o.initSignlessNorm sq).g = o.g ∧
      (o.initSignlessNorm sq).signlessNorm.val = o.g.normSignlessLaplacian sq := by
  unfold initSignlessNorm
  split_ifs with hi
  · exact ⟨h, rfl, h.signlessNorm hi⟩
  · obtain ⟨h1, h2, h3, _⟩ := initDeg_spec h
    have : SprsMat.zipWith (· + ·) (SprsMat.diag o.initDeg.g.n (fun _ => XReal.fin 1))
        (o.initDeg.normAdj sq) = o.g.normSignlessLaplacian sq := by
      rw [normAdj_eq (by rw [h3, h2]), h2]; rfl
    refine ⟨⟨h1.lap, h1.signless, h1.deg, h1.inv, h1.norm, fun _ => ?_, h1.lazy⟩, h2, this⟩
    exact this.trans (congrArg (Graph.normSignlessLaplacian sq) h2.symm)

theorem initInv_spec {sq : K → K} {o : GraphObj K} (h : o.Coherent sq) :
    o.initInv.Coherent sq ∧ o.initInv.g = o.g ∧
      o.initInv.inv.val = o.g.inverseDegreeMatrix := by
  unfold initInv
  split_ifs with hi
  · exact ⟨h, rfl, h.inv hi⟩
  · obtain ⟨h1, h2, h3, _⟩ := initDeg_spec h
    have : SprsMat.diag o.initDeg.g.adj.cols
        (fun i => XReal.inv (o.initDeg.deg.val.coeff i i)) = o.g.inverseDegreeMatrix := by
      rw [h3, h2]; rfl
    refine ⟨⟨h1.lap, h1.signless, h1.deg, fun _ => ?_, h1.norm, h1.signlessNorm, h1.lazy⟩, h2, this⟩
    exact this.trans (congrArg Graph.inverseDegreeMatrix h2.symm)

theorem initLazy_spec {sq : K → K} {o : GraphObj K} (h : o.Coherent sq) :
    o.initLazy.Coherent sq ∧ o.initLazy.g = o.g ∧
      o.initLazy.lazy.val = o.g.lazyRandomWalk := by
  unfold initLazy
  split_ifs with hi
  · exact ⟨h, rfl, h.lazy hi⟩
  · obtain ⟨h1, h2, h3⟩ := initInv_spec h
    have : SprsMat.zipWith (· + ·)
        ((SprsMat.diag o.initInv.g.n (fun _ => XReal.fin (1 : K))).mapVal
          (fun v => XReal.fin (1 / 2) * v))
        ((o.initInv.g.adj.mapVal (fun v => XReal.fin (1 / 2) * XReal.fin v)).mulDiag
          (fun j => o.initInv.inv.val.coeff j j)) = o.g.lazyRandomWalk := by
      rw [h3, h2]; rfl
    refine ⟨⟨h1.lap, h1.signless, h1.deg, h1.inv, h1.norm, h1.signlessNorm, fun _ => ?_⟩, h2, this⟩
    exact this.trans (congrArg Graph.lazyRandomWalk h2.symm)

theorem ask_spec {sq : K → K} {o : GraphObj K} (h : o.Coherent sq) (q : GQuery) :
    (o.ask sq q).1.Coherent sq ∧ (o.ask sq q).1.g = o.g ∧ (o.ask sq q).2 = o.g.answer sq q := by
  cases q with
  | laplacian =>
    obtain ⟨h1, h2, h3⟩ := initLap_spec h
    exact ⟨h1, h2, congrArg _ h3⟩
  | signlessLaplacian =>
    obtain ⟨h1, h2, h3⟩ := initSignless_spec h
    exact ⟨h1, h2, congrArg _ h3⟩
  | normalisedLaplacian =>
    obtain ⟨h1, h2, h3⟩ := initNorm_spec h
    exact ⟨h1, h2, congrArg _ h3⟩
  | normalisedSignlessLaplacian =>
    obtain ⟨h1, h2, h3⟩ := initSignlessNorm_spec h
    exact ⟨h1, h2, congrArg _ h3⟩
  | degreeMatrix =>
    obtain ⟨h1, h2, h3, _⟩ := initDeg_spec h
    exact ⟨h1, h2, congrArg _ h3⟩
  | inverseDegreeMatrix =>
    obtain ⟨h1, h2, h3⟩ := initInv_spec h
    exact ⟨h1, h2, congrArg _ h3⟩
  | lazyRandomWalk =>
    obtain ⟨h1, h2, h3⟩ := initLazy_spec h
    exact ⟨h1, h2, congrArg _ h3⟩
  | totalVolume =>
    obtain ⟨h1, h2, h3, _⟩ := initDeg_spec h
    refine ⟨h1, h2, ?_⟩
    simp only [ask, h3, Graph.answer, Graph.totalVolume]
  | degree v =>
    obtain ⟨h1, h2, h3, _⟩ := initDeg_spec h
    simp only [ask, Graph.answer, Graph.degree]
    cases hc : o.g.checkVertex v with
    | ok _ => exact ⟨h1, h2, by simp only [h3]; rfl⟩
    | throw e => exact ⟨h, rfl, rfl⟩
    | ub => exact ⟨h, rfl, rfl⟩

theorem resetAfterAdd_coherent (sq : K → K) (o : GraphObj K) : o.resetAfterAdd.Coherent sq := by
  constructor <;> intro h <;> simp [resetAfterAdd] at h

theorem resetAfterRemove_coherent (sq : K → K) (o : GraphObj K) :
    o.resetAfterRemove.Coherent sq := by
  constructor <;> intro h <;> simp [resetAfterRemove] at h

end GraphObj

theorem runEvents_eq_fresh (sq : K → K) (l : List (GEvent K)) :
    ∀ (o : GraphObj K), o.Coherent sq → o.runEvents sq l = o.g.runFresh sq l := by
  induction l with
  | nil => intro o _; rfl
  | cons ev l ih =>
    intro o h
    cases ev with
    | add i j w =>
      simp only [GraphObj.runEvents, Graph.runFresh, GraphObj.addEdge]
      cases hg : o.g.addEdge i j w with
      | ok g' =>
        simp only [Outcome.bind_ok]
        rw [ih _ (GraphObj.resetAfterAdd_coherent sq _)]
        rfl
      | throw e => rfl
      | ub => rfl
    | remove i j =>
      simp only [GraphObj.runEvents, Graph.runFresh, GraphObj.removeEdge]
      cases hg : o.g.removeEdge i j with
      | ok g' =>
        simp only [Outcome.bind_ok]
        split_ifs with hc
        · simp only [Outcome.bind_ok]
          rw [ih _ h]
          have : g' = o.g := by
            unfold Graph.removeEdge at hg
            rw [if_pos hc] at hg
            cases hg; rfl
          rw [this]
        · simp only [Outcome.bind_ok]
          rw [ih _ (GraphObj.resetAfterRemove_coherent sq _)]
          rfl
      | throw e => rfl
      | ub => rfl
    | ask q =>
      obtain ⟨h1, h2, h3⟩ := GraphObj.ask_spec h q
      simp only [GraphObj.runEvents, Graph.runFresh]
      rw [ih _ h1, h2, h3]

/-- C03.  For every graph, every contents `junk` of the uninitialised matrices and
every interleaving of mutators and accessors, the answers are those of an object
that recomputes everything from the current adjacency matrix; the histories also
agree on whether an event is undefined behaviour. -/
theorem C03_caches_never_stale (sq : K → K) (g : Graph K) (junk : GraphObj K)
    (history : List (GEvent K)) :
    (GraphObj.construct g junk).runEvents sq history = g.runFresh sq history :=
  runEvents_eq_fresh sq history _ (GraphObj.construct_coherent sq g junk)

/-- A history that asks, mutates and asks again really sees the change: the fresh
answers before and after differ, so the theorem is not about constant answers. -/
example : exGraph.runFresh (K := ℚ) id [.ask .totalVolume, .add 0 1 1, .ask .totalVolume] =
    .ok [.num (.ok 22), .num (.ok 24)] := by
  show Outcome.ok [GAnswer.num (Outcome.ok exGraph.totalVolume), _] = _
  have h1 : exGraph.totalVolume = 22 := by decide +kernel
  have h2 : (match exGraph.addEdge 0 1 1 with
    | .ok g => g.totalVolume
    | _ => 0) = 24 := by decide +kernel
  rw [h1]
  exact congrArg (fun x => Outcome.ok [GAnswer.num (.ok 22), GAnswer.num (.ok x)]) h2

end Stag
