import Verif.Tools
import Verif.Props.ConvertFiles
import Verif.Props.RandomIO

/-!
# C74: the command-line tools
-/

namespace Stag

/-- The tool changes nothing but the files in `ps`. -/
def ToolRun.OnlyTouches (run : ToolRun) (fs : FS) (ps : Path → Prop) : Prop :=
  ∀ q, ¬ ps q → execAll fs run.ops q = fs q

section
variable {K Ω : Type} [Field K] [LinearOrder K]

/-! ## Usage errors -/

/-- **C74** (usage).  With a wrong number of arguments - `args` includes the name of the program - every
tool prints its usage text, ends with the exit code 22, and performs no operation on the disk; so does
`stag_sbm` if one of the four numbers is not a number (or is too large for a 32-bit integer). -/
theorem C74_usage (R : Rng K Ω) (F : Fmt K) (fuel : Nat) (tmp : Nat → Path) (args : List Str) (fs : FS) (ω : Ω) :
    (args.length ≠ 3 → adj2edgeMain F args fs = ⟨[], true, .code 22⟩ ∧
      edge2adjMain F fuel tmp args fs = some ⟨[], true, .code 22⟩) ∧
    (args.length ≠ 6 → sbmMain R F fuel args ω = some ⟨[], true, .code 22⟩) ∧
    ∀ prog file n k p q, args = [prog, file, n, k, p, q] →
      (∃ e, stoi n = .throw e ∨ stoi k = .throw e ∨ F.stod p = .throw e ∨ F.stod q = .throw e) →
      sbmMain R F fuel args ω = some ⟨[], true, .code 22⟩ := by
  refine ⟨fun h => ⟨?_, ?_⟩, fun h => ?_, ?_⟩
  · unfold adj2edgeMain
    split
    · simp at h
    · rfl
  · unfold edge2adjMain
    split
    · simp at h
    · rfl
  · unfold sbmMain
    split
    · simp at h
    · rfl
  · rintro prog file n k p q rfl ⟨e, h⟩
    have : sbmNumbers F n k p q = none := by
      unfold sbmNumbers
      split
      · rename_i h1 h2 h3 h4
        rw [h1, h2, h3, h4] at h
        simp at h
      · rfl
    simp only [sbmMain, this]
    rfl

/-- **C74** (no input).  If the input file does not exist, both conversions end with an uncaught
`runtime_error`.  `stag_edge2adj` has then done nothing; `stag_adj2edge` has emptied the output file. -/
theorem C74_missing (F : Fmt K) (fuel : Nat) (tmp : Nat → Path) (prog inp out : Str) (fs : FS)
    (hin : fs inp = none) :
    edge2adjMain F fuel tmp [prog, inp, out] fs = some ⟨[], false, .uncaught .runtimeError⟩ ∧
    (adj2edgeMain F [prog, inp, out] fs).exit = .uncaught .runtimeError ∧
    execAll fs (adj2edgeMain F [prog, inp, out] fs).ops out = some [] ∧
    (adj2edgeMain F [prog, inp, out] fs).OnlyTouches fs (· = out) := by
  obtain ⟨ops, h1, h2, h3⟩ := C64_adjacencylist_missing F fs inp out hin
  refine ⟨?_, ?_, ?_, ?_⟩
  · simp only [edge2adjMain, C64_edgelist_missing F fuel fs inp out tmp 0 hin]
    rfl
  · simp only [adj2edgeMain, h1, exitOf]
  · simp only [adj2edgeMain, h1, h2]
  · intro q hq
    simp only [adj2edgeMain, h1]
    exact h3 q hq

end

section
variable {K Ω : Type} [Field K] [LinearOrder K] [IsStrictOrderedRing K]

/-! ## The conversions -/

/-- **C74** (`stag_edge2adj`).  `stag_edge2adj in out` on an edgelist file whose content lines parse, with
non-negative weights that survive printing, returns 0; `out` then loads as an adjacency list to the graph
that `in` loads to as an edgelist, `in` is unchanged unless it is `out`, the temporary files are gone and
no other file has changed. -/
theorem C74_edge2adj (F : Fmt K) (prog inp out : Str) (tmp : Nat → Path)
    (hti : ∀ j, tmp j ≠ inp) (hto : ∀ j, tmp j ≠ out) (hinj : ∀ j, 1 ≤ j → tmp j ≠ tmp 0)
    (text : Str) (es : List (Edge K))
    (h : Outcome.mapM' (parseEdgelistLine F) (contentLines text) = .ok es)
    (hw : ∀ e ∈ es, 0 ≤ e.w ∧ F.printable e.w) (fuel : Nat) (hfuel : maxVertex es + 1 ≤ fuel)
    (fs : FS) (hin : fs inp = some text) :
    ∃ (ops : List FsOp) (result : Str) (g g' : Graph K),
      edge2adjMain F fuel tmp [prog, inp, out] fs = some ⟨ops, false, .code 0⟩ ∧
      execAll fs ops out = some result ∧
      loadEdgelist F text = .ok g ∧ loadAdjacencylist F result = .ok g' ∧ g'.n = g.n ∧ g'.adj = g.adj ∧
      ∀ q, q ≠ out → execAll fs ops q = fs q ∨ (∃ j, q = tmp j) ∧ execAll fs ops q = none := by
  obtain ⟨ops, result, h1, h2, h3, _, h5⟩ := C64_edgelist_done F inp out tmp 0 hti hto
    (fun j hj => hinj j (by omega)) text es h hw fuel hfuel fs hin
  obtain ⟨out', gs, g, g', e1, _, _, _, _, e2, e3, e4, e5⟩ := C26_converts F text es h hw fuel hfuel
  rw [h2] at e1
  cases e1
  refine ⟨ops, result, g, g', ?_, h3, e2, e3, e4, e5, h5⟩
  simp only [edge2adjMain, h1, Option.map_some, exitOf]

/-- **C74** (`stag_adj2edge`).  `stag_adj2edge in out` on an adjacency list file whose content lines parse,
with non-negative ids, positive weights that survive printing, symmetric and without self-loops, returns 0;
`out` then loads as an edgelist to the graph that `in` loads to as an adjacency list, and no other file has
changed. -/
theorem C74_adj2edge (F : Fmt K) (prog inp out : Str) (hne : inp ≠ out)
    (text : Str) (es : List (List (IEdge K)))
    (h : Outcome.mapM' (parseAdjLine F) (contentLines text) = .ok es)
    (hid : ∀ e ∈ es.flatten, 0 ≤ e.v1 ∧ 0 ≤ e.v2 ∧ 0 < e.w ∧ F.printable e.w)
    (hsym : ∀ u v : Nat, entryWeight es.flatten u v = entryWeight es.flatten v u)
    (hloop : ∀ e ∈ es.flatten, e.v1 ≠ e.v2) (fs : FS) (hin : fs inp = some text) :
    ∃ (ops : List FsOp) (result : Str) (g g' : Graph K),
      adj2edgeMain F [prog, inp, out] fs = ⟨ops, false, .code 0⟩ ∧
      execAll fs ops out = some result ∧
      loadAdjacencylist F text = .ok g ∧ loadEdgelist F result = .ok g' ∧ g'.n = g.n ∧ g'.adj = g.adj ∧
      ∀ q, q ≠ out → execAll fs ops q = fs q := by
  obtain ⟨result, g, g', e1, e2, e3, e4, e5⟩ := C27_same_graph F text es h hid hsym hloop
  obtain ⟨ops, h1, h2, h3, _⟩ := C64_adjacencylist_done F fs inp out hne text result hin e1
  refine ⟨ops, result, g, g', ?_, h2, e2, e3, e4, e5, ?_⟩
  · simp only [adj2edgeMain, h1, exitOf]
  · intro q hq
    have := h3 ops.length q hq
    rwa [crashAfter, List.take_length] at this

omit [LinearOrder K] [IsStrictOrderedRing K] in
/-- **C74** (same name twice).  `stag_adj2edge f f` returns 0 whatever `f` held, and leaves one empty line of it. -/
theorem C74_adj2edge_in_place (F : Fmt K) (prog f : Str) (text : Str) (fs : FS) (hin : fs f = some text) :
    (adj2edgeMain F [prog, f, f] fs).exit = .code 0 ∧
    execAll fs (adj2edgeMain F [prog, f, f] fs).ops f = some ['\n'] := by
  obtain ⟨ops, h1, h2⟩ := C64_adjacencylist_inPlace F fs f text hin
  simp only [adj2edgeMain, h1, exitOf, h2, and_self]

/-- **C74** (there and back).  `stag_edge2adj a b` followed by `stag_adj2edge b c` on an edgelist file without
self-loops, with positive weights that survive printing: both return 0, and `c` loads to the graph that
`a` loads to.  `c` may be `a`. -/
theorem C74_round_trip (F : Fmt K) (prog prog' a b c : Str) (tmp : Nat → Path)
    (hta : ∀ j, tmp j ≠ a) (htb : ∀ j, tmp j ≠ b) (hinj : ∀ j, 1 ≤ j → tmp j ≠ tmp 0) (hbc : b ≠ c)
    (text : Str) (es : List (Edge K))
    (h : Outcome.mapM' (parseEdgelistLine F) (contentLines text) = .ok es)
    (hw : ∀ e ∈ es, 0 < e.w ∧ F.printable e.w) (hloop : ∀ e ∈ es, e.v1 ≠ e.v2)
    (fuel : Nat) (hfuel : maxVertex es + 1 ≤ fuel)
    (fs : FS) (hin : fs a = some text) :
    ∃ (ops ops' : List FsOp) (result : Str) (g g' : Graph K),
      edge2adjMain F fuel tmp [prog, a, b] fs = some ⟨ops, false, .code 0⟩ ∧
      adj2edgeMain F [prog', b, c] (execAll fs ops) = ⟨ops', false, .code 0⟩ ∧
      execAll (execAll fs ops) ops' c = some result ∧
      loadEdgelist F text = .ok g ∧ loadEdgelist F result = .ok g' ∧ g'.n = g.n ∧ g'.adj = g.adj := by
  obtain ⟨ops, result, h1, h2, h3, _⟩ := C64_edgelist_done F a b tmp 0 hta htb
    (fun j hj => hinj j (by omega)) text es h (fun e he => ⟨le_of_lt (hw e he).1, (hw e he).2⟩) fuel hfuel fs hin
  obtain ⟨out', gs, g, g', e1, e2, e3, e4, e5, e6, e7, e8, e9⟩ :=
    C26_converts F text es h (fun e he => ⟨le_of_lt (hw e he).1, (hw e he).2⟩) fuel hfuel
  rw [h2] at e1
  cases e1
  have hfit := parseAll_fits h
  have hperm : (ungroup gs).Perm (bothWays es) := e5
  have hboth : ∀ e ∈ bothWays es, e.v1 < 2 ^ 31 ∧ e.v2 < 2 ^ 31 ∧ 0 < e.w ∧ F.printable e.w ∧ e.v1 ≠ e.v2 := by
    intro e he
    rcases mem_bothWays.1 he with hm | hm
    · exact ⟨(hfit e hm).1, (hfit e hm).2, (hw e hm).1, (hw e hm).2, hloop e hm⟩
    · exact ⟨(hfit _ hm).2, (hfit _ hm).1, (hw _ hm).1, (hw _ hm).2, (hloop _ hm).symm⟩
  obtain ⟨ls, l1, l2⟩ := parse_groups F gs (fun e he => by
    have := hboth e (hperm.subset he)
    exact ⟨this.1, this.2.1, this.2.2.2.1⟩) e4
  have l3 : ls.flatten.Perm ((bothWays es).map toI) := l2.trans (hperm.map _)
  have hmem : ∀ e ∈ ls.flatten, ∃ x ∈ bothWays es, e = toI x := by
    intro e he
    obtain ⟨x, hx, rfl⟩ := List.mem_map.1 (l3.subset he)
    exact ⟨x, hx, rfl⟩
  obtain ⟨ops', result', k, k', f1, f2, f3, f4, f5, f6, _⟩ := C74_adj2edge F prog' b c hbc result ls
    (by rw [e2]; exact l1) (by
      intro e he
      obtain ⟨x, hx, rfl⟩ := hmem e he
      have := hboth x hx
      exact ⟨Int.natCast_nonneg _, Int.natCast_nonneg _, this.2.2.1, this.2.2.2.1⟩) (by
      intro u v
      rw [entryWeight_perm l3, entryWeight_perm l3, entryWeight_both, entryWeight_both]
      by_cases huv : u = v
      · subst huv; rfl
      · rw [if_neg huv, if_neg (Ne.symm huv), listWeight_symm]) (by
      intro e he
      obtain ⟨x, hx, rfl⟩ := hmem e he
      have := (hboth x hx).2.2.2.2
      simp only [toI]
      omega) (execAll fs ops) h3
  rw [e7] at f3
  cases f3
  refine ⟨ops, ops', result', g, k', ?_, f1, f2, e6, f4, f5.trans e8, f6.trans e9⟩
  simp only [edge2adjMain, h1, Option.map_some, exitOf]

/-! ## `stag_sbm` -/

omit [IsStrictOrderedRing K] in
theorem tool_args {n k : Nat} {p q : K} (hk : 1 ≤ k) (hkn : k ≤ n)
    (hp : 0 ≤ p ∧ p ≤ 1) (hq : 0 ≤ q ∧ q ≤ 1) :
    SbmArgs (List.replicate k (n / k)) (sbmProbs (k : Int) p q) := by
  refine ⟨?_, by simp [sbmProbs], by simp [sbmProbs], ?_⟩
  · intro s hs
    rw [List.eq_of_mem_replicate hs]
    exact Nat.div_pos hkn hk
  · intro i _ j _
    unfold sbmProbs
    simp only
    split_ifs
    · exact hp
    · exact hq

/-- **C74** (`stag_sbm`).  For `1 ≤ k ≤ n` and probabilities between 0 and 1, and every random source:
`stag_sbm file n k p q` runs exactly as long as the library's generator does, and if that returns, the
tool returns 0, has changed only `file`, and `file` loads as an edgelist to the generated graph, without its
isolated vertices at the end; the generated graph is one of the stochastic block model with `k` clusters of
size `n / k`, the probability `p` within and `q` between them - so it has `k * (n / k)` vertices and not `n`. -/
theorem C74_sbm (R : Rng K Ω) (F : Fmt K) (fuel : Nat) (prog file ns ks ps qs : Str) {n k : Nat} {p q : K}
    (hns : stoi ns = .ok (n : Int)) (hks : stoi ks = .ok (k : Int)) (hps : F.stod ps = .ok p)
    (hqs : F.stod qs = .ok q) (hk : 1 ≤ k) (hkn : k ≤ n) (hp : 0 ≤ p ∧ p ≤ 1) (hq : 0 ≤ q ∧ q ≤ 1)
    (hone : F.print 1 = ['1']) (hone' : F.printable 1) (hpl : IsLine (F.print p)) (hql : IsLine (F.print q))
    (ω : Ω) (fs : FS) :
    (generalSbm R fuel (List.replicate k (((n / k : Nat)) : Int)) (sbmProbs k p q) false ω = none ∧
      sbmMain R F fuel [prog, file, ns, ks, ps, qs] ω = none) ∨
    ∃ (ops : List FsOp) (text : Str) (g g' : Graph K) (ω' : Ω),
      generalSbm R fuel (List.replicate k (((n / k : Nat)) : Int)) (sbmProbs k p q) false ω = some (.ok g, ω') ∧
      sbmMain R F fuel [prog, file, ns, ks, ps, qs] ω = some ⟨ops, false, .code 0⟩ ∧
      execAll fs ops file = some text ∧ (∀ q, q ≠ file → execAll fs ops q = fs q) ∧
      SbmGraph (List.replicate k (n / k)) (fun i j => if i = j then p else q) false (k * (n / k))
        (fun u v => g.adj.coeff u v) ∧
      loadEdgelist F text = .ok g' ∧ g'.n ≤ g.n ∧ (∀ u v, g'.adj.coeff u v = g.adj.coeff u v) ∧
      (g'.n = 0 ∨ ∃ v, g.adj.coeff (g'.n - 1) v ≠ 0) := by
  have hargs := tool_args (K := K) hk hkn hp hq
  have hsz : sbmSizes (n : Int) (k : Int) = List.replicate k (((n / k : Nat)) : Int) := by
    rw [sbmSizes_eq, List.map_replicate]
  have hcast : (List.replicate k (n / k)).map (fun s : Nat => (s : Int)) =
      List.replicate k (((n / k : Nat)) : Int) := by rw [List.map_replicate]
  have hsum : (List.replicate k (n / k)).sum ≤ 2 ^ 31 := by
    have h1 := (stoi_range hns).2
    have h2 : k * (n / k) ≤ n := Nat.mul_div_le n k
    rw [List.sum_replicate_nat]
    omega
  have hlines : ∀ i < (List.replicate k (n / k)).length, ∀ j < (List.replicate k (n / k)).length,
      IsLine (F.print ((sbmProbs (k : Int) p q).entry i j)) := by
    intro i _ j _
    unfold sbmProbs
    simp only
    split_ifs
    · exact hpl
    · exact hql
  have hmain : sbmMain R F fuel [prog, file, ns, ks, ps, qs] ω =
      (sbmEdgelistOps R F fuel file (List.replicate k (((n / k : Nat)) : Int)) (sbmProbs k p q) false ω).map
        fun r => ⟨r.1, false, exitOf r.2⟩ := by
    have : sbmNumbers F ns ks ps qs = some ((n : Int), (k : Int), p, q) := by
      unfold sbmNumbers
      rw [hns, hks, hps, hqs]
    simp only [sbmMain, this]
    rw [if_neg (by omega), if_neg (by omega), hsz]
  have hlen : ¬ ((List.replicate k (((n / k : Nat)) : Int)).length ≤ 20 ∧
      ((sbmProbs (k : Int) p q).rows < (List.replicate k (((n / k : Nat)) : Int)).length ∨
        (sbmProbs (k : Int) p q).cols < (List.replicate k (((n / k : Nat)) : Int)).length)) := by
    simp [sbmProbs]
  have hC := C42_same_graph R F fuel (exact := false) hargs ω hsum hone hone' hlines
  rw [hcast] at hC
  rcases hC with ⟨c1, c2⟩ | ⟨g, text, g', ω', c1, c2, c3, _, c5, c6, _, c8⟩
  · left
    refine ⟨c1, ?_⟩
    rw [hmain]
    unfold generalSbmEdgelist at c2
    rw [if_neg hlen] at c2
    unfold sbmEdgelistOps
    cases hi : sbmInternal R fuel (List.replicate k (((n / k : Nat)) : Int)) (sbmProbs (k : Int) p q) false ω with
    | none => rfl
    | some r => rw [hi] at c2; simp at c2
  · right
    unfold generalSbmEdgelist at c2
    rw [if_neg hlen] at c2
    have hops : sbmEdgelistOps R F fuel file (List.replicate k (((n / k : Nat)) : Int)) (sbmProbs k p q) false ω =
        some (writeOps file text, .ok ()) := by
      unfold sbmEdgelistOps
      cases hi : sbmInternal R fuel (List.replicate k (((n / k : Nat)) : Int)) (sbmProbs (k : Int) p q) false ω with
      | none => rw [hi] at c2; simp at c2
      | some r =>
        obtain ⟨r, ω''⟩ := r
        rw [hi] at c2
        cases r with
        | ok es =>
          simp only [Outcome.bind_ok, Option.some.injEq, Prod.mk.injEq, Outcome.ok.injEq] at c2
          simp only [c2.1]
        | throw e => simp at c2
        | ub => simp at c2
    obtain ⟨g1, r1, -, r3⟩ := C40_general_sbm R hargs (by rw [hcast]; exact c1)
    cases r1
    refine ⟨writeOps file text, text, g, g', ω', c1, ?_, execAll_writeOps _ _ _, ?_, ?_, c3, c5, c6, c8⟩
    · rw [hmain, hops]
      rfl
    · intro q hq
      apply execAll_other
      intro o ho
      rw [writeOps_target file _ o ho]; exact hq
    · have hv := r3.vertices
      rw [List.sum_replicate_nat] at hv
      rw [← hv]
      exact r3

omit [IsStrictOrderedRing K] in
/-- **C74** (`stag_sbm` and `sbm`).  The documentation calls the tool equivalent to `stag::sbm`.  For `k ≤ n / 2` the graph
of `C74_sbm` is indeed the one `sbm` draws from the same source; for `n / 2 < k ≤ n` it is not: `sbm` raises
`invalid_argument`, while the tool goes on (`C74_sbm`). -/
theorem C74_sbm_documented (R : Rng K Ω) (fuel : Nat) {n k : Nat} {p q : K} (hk : 1 ≤ k) (hkn : k ≤ n)
    (hp : 0 ≤ p ∧ p ≤ 1) (hq : 0 ≤ q ∧ q ≤ 1) (ω : Ω) :
    (k ≤ n / 2 → sbm R fuel n k p q false ω =
      generalSbm R fuel (List.replicate k (((n / k : Nat)) : Int)) (sbmProbs k p q) false ω) ∧
    (n / 2 < k → sbm R fuel n k p q false ω = some (.throw .invalidArgument, ω)) := by
  constructor
  · intro h
    unfold sbm
    rw [if_neg (by omega), if_neg (by omega), if_neg (not_or.2 ⟨not_lt.2 hp.1, not_lt.2 hp.2⟩),
      if_neg (not_or.2 ⟨not_lt.2 hq.1, not_lt.2 hq.2⟩), sbmSizes_eq, List.map_replicate]
  · intro h
    unfold sbm
    rw [if_neg (by omega), if_pos (by omega)]

/-- **C74** (`stag_sbm`, bad numbers).  With more clusters than vertices (or a negative number of vertices), or a
probability that is used and not between 0 and 1, the tool ends with an uncaught `invalid_argument` - but
`file` has been overwritten by then, and is an edgelist file without an edge. -/
theorem C74_sbm_bad (R : Rng K Ω) (F : Fmt K) (fuel : Nat) (prog file ns ks ps qs : Str) {n k : Int} {p q : K}
    (hns : stoi ns = .ok n) (hks : stoi ks = .ok k) (hps : F.stod ps = .ok p) (hqs : F.stod qs = .ok q)
    (hk : 1 ≤ k) (hbad : n < k ∨ p < 0 ∨ 1 < p ∨ (2 ≤ k ∧ (q < 0 ∨ 1 < q)))
    (hpl : IsLine (F.print p)) (hql : IsLine (F.print q)) (ω : Ω) (fs : FS) :
    ∃ (ops : List FsOp) (text : Str),
      sbmMain R F fuel [prog, file, ns, ks, ps, qs] ω = some ⟨ops, false, .uncaught .invalidArgument⟩ ∧
      execAll fs ops file = some text ∧ contentLines text = [] ∧ ∀ q, q ≠ file → execAll fs ops q = fs q := by
  obtain ⟨m, rfl⟩ := Int.eq_ofNat_of_zero_le (by omega : 0 ≤ k)
  have hlen : (sbmSizes n (m : Int)).length = m := by simp [sbmSizes]
  have hnum : sbmNumbers F ns ks ps qs = some (n, (m : Int), p, q) := by
    unfold sbmNumbers
    rw [hns, hks, hps, hqs]
  have hchk : sbmChecks (sbmSizes n (m : Int)) (sbmProbs (m : Int) p q) = .throw .invalidArgument := by
    unfold sbmChecks
    split_ifs with h1 h2 h3
    · rfl
    · rfl
    · rfl
    · exfalso
      simp only [Bool.not_eq_true, List.any_eq_false, List.mem_range, decide_eq_true_eq, not_or, not_lt, hlen]
        at h1 h3
      rcases hbad with hb | hb | hb | ⟨hk2, hb⟩
      · have := h1 (n / (m : Int)) (by
          unfold sbmSizes
          rw [List.mem_replicate]
          exact ⟨by simp; omega, rfl⟩)
        have h4 : n / (m : Int) < 1 := by
          rw [Int.ediv_lt_iff_lt_mul (by omega)]
          omega
        omega
      · have := (h3 0 (by omega) 0 (by omega)).1
        simp only [sbmProbs, if_true] at this
        exact absurd this (not_le.2 hb)
      · have := (h3 0 (by omega) 0 (by omega)).2
        simp only [sbmProbs, if_true] at this
        exact absurd this (not_le.2 hb)
      · have := h3 0 (by omega) 1 (by omega)
        simp only [sbmProbs, zero_ne_one, if_false] at this
        rcases hb with hb | hb
        · exact absurd this.1 (not_le.2 hb)
        · exact absurd this.2 (not_le.2 hb)
  have hint : sbmInternal R fuel (sbmSizes n (m : Int)) (sbmProbs (m : Int) p q) false ω =
      some (.throw .invalidArgument, ω) := by
    unfold sbmInternal
    rw [hchk]
  refine ⟨writeOps file (unlines (sbmHeader F (sbmSizes n (m : Int)) (sbmProbs (m : Int) p q))), _, ?_,
    execAll_writeOps _ _ _, ?_, ?_⟩
  · simp only [sbmMain, hnum]
    rw [if_neg (by omega), if_neg (by omega)]
    unfold sbmEdgelistOps
    rw [hint]
    rfl
  · have := contentLines_unlines (hd := sbmHeader F (sbmSizes n (m : Int)) (sbmProbs (m : Int) p q)) (ls := [])
      (sbmHeader_spec F _ _ (by
        intro i _ j _
        unfold sbmProbs
        simp only
        split_ifs
        · exact hpl
        · exact hql)) (by simp)
    rwa [List.append_nil] at this
  · intro q hq
    apply execAll_other
    intro o ho
    rw [writeOps_target file _ o ho]; exact hq

end

/-! ## Examples -/

/-- Temporary names for the examples. -/
def exampleTmp : Nat → Path := tempName (fun n => if n < 20 then 0 else 1)

theorem exampleTmp_ne (j : Nat) (p : Path) (hp : p.length < 40) : exampleTmp j ≠ p := by
  intro h
  have := congrArg List.length h
  unfold exampleTmp at this
  rw [tempName_length] at this
  omega

theorem exampleTmp_inj (j : Nat) (hj : 1 ≤ j) : exampleTmp j ≠ exampleTmp 0 := by
  intro h
  unfold exampleTmp tempName at h
  rw [List.append_cancel_left_eq] at h
  have := congrArg (fun l => l[0]?) h
  simp only [List.getElem?_map, List.getElem?_range (show 0 < 20 by decide), Option.map_some,
    Option.some.injEq] at this
  rw [if_neg (by omega), if_pos (by omega)] at this
  exact absurd this (by decide)

/-- `C74_round_trip` applies to a file with a header and an edge written backwards, converted to another file
and back over the original. -/
example : ∃ (ops ops' : List FsOp) (result : Str) (g g' : Graph ℚ),
    edge2adjMain natFmt 9 exampleTmp ["e".toList, "/g".toList, "/h".toList]
      (fun p => if p = "/g".toList then some "# h\n3 1 2\n0 2".toList else none) = some ⟨ops, false, .code 0⟩ ∧
    adj2edgeMain natFmt ["a".toList, "/h".toList, "/g".toList] (execAll
      (fun p => if p = "/g".toList then some "# h\n3 1 2\n0 2".toList else none) ops) = ⟨ops', false, .code 0⟩ ∧
    execAll (execAll (fun p => if p = "/g".toList then some "# h\n3 1 2\n0 2".toList else none) ops) ops'
      "/g".toList = some result ∧
    loadEdgelist natFmt "# h\n3 1 2\n0 2".toList = .ok g ∧ loadEdgelist natFmt result = .ok g' ∧
    g'.n = g.n ∧ g'.adj = g.adj := by
  have hfl : fileLines "# h\n3 1 2\n0 2".toList = ["# h".toList, "3 1 2".toList, "0 2".toList, []] := by
    rw [show "# h\n3 1 2\n0 2".toList = "# h".toList ++ '\n' :: ("3 1 2".toList ++ '\n' ::
      "0 2".toList) from by decide]
    rw [fileLines_lf ⟨by decide, by decide⟩, fileLines_lf ⟨by decide, by decide⟩,
      fileLines_last ⟨by decide, by decide⟩ (by decide)]
  have hcl : contentLines "# h\n3 1 2\n0 2".toList = ["3 1 2".toList, "0 2".toList] := by
    unfold contentLines; rw [hfl]; decide
  refine C74_round_trip natFmt _ _ _ _ _ exampleTmp (fun j => exampleTmp_ne j _ (by decide))
    (fun j => exampleTmp_ne j _ (by decide)) exampleTmp_inj (by decide) "# h\n3 1 2\n0 2".toList
    [⟨3, 1, 2⟩, ⟨0, 2, 1⟩] (by rw [hcl]; decide +kernel) ?_ (by decide) 9 (by decide +kernel) _ (if_pos rfl)
  intro e he
  simp only [List.mem_cons, List.not_mem_nil, or_false] at he
  rcases he with rfl | rfl
  · exact ⟨by decide +kernel, natFmt_printable 2 (by norm_num)⟩
  · exact ⟨by decide +kernel, by simpa using natFmt_printable 1 (by norm_num)⟩

/-- The hypotheses of `C74_sbm` on the numbers are met by `stag_sbm /g 5 2 1 0`; the file it writes has the
two edges of two clusters of two vertices: the fifth vertex is not there. -/
example : stoi "5".toList = .ok (5 : Int) ∧ stoi "2".toList = .ok (2 : Int) ∧
    natFmt.stod "1".toList = .ok 1 ∧ natFmt.stod "0".toList = .ok 0 ∧
    IsLine (natFmt.print 1) ∧ IsLine (natFmt.print 0) ∧
    (sbmMain demoRng natFmt 5 ["sbm".toList, "/g".toList, "5".toList, "2".toList, "1".toList, "0".toList] 0).map
      (fun r => (r.exit, ((execAll (fun _ => none) r.ops "/g".toList).map
        (fun s => (contentLines s).map String.ofList)))) =
      some (.code 0, some ["0 1 1", "2 3 1"]) := by
  refine ⟨by decide +kernel, by decide +kernel, by decide +kernel, by decide +kernel, ?_, ?_, by decide +kernel⟩
  · exact ⟨by decide +kernel, by decide +kernel⟩
  · exact ⟨by decide +kernel, by decide +kernel⟩

/-- `stag_sbm /g 1 2 1 0` (more clusters than vertices) loses the old contents of the file. -/
example : (sbmMain demoRng natFmt 5 ["sbm".toList, "/g".toList, "1".toList, "2".toList, "1".toList, "0".toList] 0).map
      (fun r => (r.exit, ((execAll (fun _ => some "0 1".toList) r.ops "/g".toList).map contentLines))) =
      some (.uncaught .invalidArgument, some []) := by
  decide +kernel

end Stag
