import Verif.Props.CrashSafetyExamples
import Verif.Props.Convert

/-!
# C64: the conversions, on disk

The contents the conversions produce are C26 and C27; here the disk is followed: which files are touched,
what is left after an error, and what a crash leaves.
-/

namespace Stag

section
variable {K : Type} [Field K]

/-! ## The streams written until an error agree with the functions of `Verif.Convert` -/

theorem duplicateWritten_spec (F : Fmt K) (ls : List Str) :
    duplicateLines F ls = ((duplicateWritten F ls).2 >>= fun _ => .ok (duplicateWritten F ls).1) := by
  induction ls with
  | nil => rfl
  | cons l ls ih =>
    unfold duplicateLines duplicateWritten
    split_ifs
    · cases parseEdgeRT F l with
      | ok e =>
        simp only [Outcome.bind_ok]
        rw [ih]
        cases (duplicateWritten F ls).2 <;> rfl
      | throw e => rfl
      | ub => rfl
    · rw [ih]
      cases (duplicateWritten F ls).2 <;> rfl

theorem adjToEdgeWritten_spec (F : Fmt K) (ls : List Str) : ∀ b,
    adjToEdgeLines F b ls = ((adjToEdgeWritten F b ls).2 >>= fun _ => .ok (adjToEdgeWritten F b ls).1) := by
  induction ls with
  | nil => intro b; rfl
  | cons l ls ih =>
    intro b
    unfold adjToEdgeLines adjToEdgeWritten
    split_ifs
    · cases parseAdjRT F l with
      | ok e =>
        simp only [Outcome.bind_ok]
        rw [ih]
        cases (adjToEdgeWritten F true ls).2 <;> rfl
      | throw e => rfl
      | ub => rfl
    all_goals
      rw [ih]
      cases h : (adjToEdgeWritten F _ ls).2 <;> rfl

theorem edgeToAdjWritten_spec (F : Fmt K) (ls : List Str) : ∀ c b,
    edgeToAdjText F c b ls =
      ((edgeToAdjWritten F c b ls).2 >>= fun _ => .ok (edgeToAdjWritten F c b ls).1) := by
  induction ls with
  | nil => intro c b; rfl
  | cons l ls ih =>
    intro c b
    by_cases hc : isContent l = true
    · cases hp : parseEdgeRT F l with
      | ok e =>
        simp only [edgeToAdjText, edgeToAdjWritten, hc, if_true, hp, Outcome.bind_ok]
        rw [ih]
        generalize edgeToAdjWritten F (if c < (e.v1 : Int) then (e.v1 : Int) else c) true ls = r
        cases r.2 <;> rfl
      | throw e => simp only [edgeToAdjText, edgeToAdjWritten, hc, if_true, hp]; rfl
      | ub => simp only [edgeToAdjText, edgeToAdjWritten, hc, if_true, hp]; rfl
    · simp only [edgeToAdjText, edgeToAdjWritten, if_neg hc]
      rw [ih]
      cases (edgeToAdjWritten F c b ls).2 <;> rfl

theorem written_of_ok {α : Type} {x : Outcome α} {w : α} {r : α × Outcome Unit}
    (h : x = (r.2 >>= fun _ => .ok r.1)) (hx : x = .ok w) : r = (w, .ok ()) := by
  rw [h] at hx
  obtain ⟨a, b⟩ := r
  cases b with
  | ok u => simp only [Outcome.bind_ok, Outcome.ok.injEq] at hx; subst hx; rfl
  | throw e => simp at hx
  | ub => simp at hx

/-! ## `adjacencylist_to_edgelist` -/

/-- **C64** (`adjacencylist_to_edgelist`, different files).  If the conversion of the contents succeeds, so
does the call; the output file then holds the result, and no other file has changed - in particular not
the input, at any moment.  Until then the output holds a beginning of the result. -/
theorem C64_adjacencylist_done (F : Fmt K) (fs : FS) (inp out : Path) (hne : inp ≠ out)
    (text result : Str) (hin : fs inp = some text)
    (h : adjacencylistToEdgelist F text = .ok result) :
    ∃ ops, adjToEdgeOps F inp out fs = (ops, .ok ()) ∧ execAll fs ops out = some result ∧
      (∀ k q, q ≠ out → crashAfter fs ops k q = fs q) ∧
      ∀ k, k ≠ 0 → ∃ s, s <+: result ∧ crashAfter fs ops k out = some s := by
  unfold adjacencylistToEdgelist at h
  rw [Outcome.bind_eq_ok] at h
  obtain ⟨ls, h1, h2⟩ := h
  have hw := written_of_ok (adjToEdgeWritten_spec F _ _) h1
  simp only [Outcome.ok.injEq] at h2
  subst h2
  refine ⟨writeOps out (unlines ls), ?_, execAll_writeOps _ _ _, ?_, ?_⟩
  · unfold adjToEdgeOps
    rw [hin]
    simp only [if_neg hne, hw]
  · intro k q hq
    exact (C63_save fs out (unlines ls)).2.1 k q hq
  · intro k hk
    refine ⟨_, List.take_prefix (k - 1) _, ?_⟩
    rw [(C63_save fs out (unlines ls)).1 k, if_neg hk]

/-- **C64** (`adjacencylist_to_edgelist`, bad line).  If a content line of the input does not parse, the
error is raised with the result for the lines before it in the output file: the old output is lost, and
the new one looks like a complete conversion of a shorter input. -/
theorem C64_adjacencylist_malformed (F : Fmt K) (fs : FS) (inp out : Path) (hne : inp ≠ out)
    (text : Str) (hin : fs inp = some text) (pre post : List Str) (line : Str) (e : Exn)
    (hf : fileLines text = pre ++ line :: post) (w : List Str) (hpre : adjToEdgeLines F false pre = .ok w)
    (hc : isContent line = true) (he : parseAdjLine F line = .throw e) :
    ∃ ops, adjToEdgeOps F inp out fs =
        (ops, .throw (if e = .invalidArgument then .runtimeError else e)) ∧
      execAll fs ops out = some (unlines w) ∧ ∀ q, q ≠ out → execAll fs ops q = fs q := by
  have hrt : parseAdjRT F line = .throw (if e = .invalidArgument then .runtimeError else e) := by
    unfold parseAdjRT
    rw [he]
    simp only [Outcome.rethrow]
    split_ifs <;> rfl
  have key : ∀ (b : Bool) (w : List Str), adjToEdgeLines F b pre = .ok w →
      adjToEdgeWritten F b (pre ++ line :: post) =
        (w, .throw (if e = .invalidArgument then .runtimeError else e)) := by
    clear hf hpre
    induction pre with
    | nil =>
      intro b w h
      simp only [adjToEdgeLines, Outcome.ok.injEq] at h
      subst h
      simp only [List.nil_append, adjToEdgeWritten, hc, if_true, hrt]
    | cons l pre ih =>
      intro b w h
      by_cases hl : isContent l = true
      · simp only [adjToEdgeLines, hl, if_true, Outcome.bind_eq_ok, Outcome.ok.injEq] at h
        obtain ⟨es, h1, rest, h2, rfl⟩ := h
        simp only [List.cons_append, adjToEdgeWritten, hl, if_true, h1, ih _ _ h2]
      · simp only [adjToEdgeLines, if_neg hl, Outcome.bind_eq_ok, Outcome.ok.injEq] at h
        obtain ⟨rest, h2, rfl⟩ := h
        simp only [List.cons_append, adjToEdgeWritten, if_neg hl, ih _ _ h2]
  refine ⟨writeOps out (unlines w), ?_, execAll_writeOps _ _ _, ?_⟩
  · unfold adjToEdgeOps
    rw [hin]
    simp only [if_neg hne, hf, key _ _ hpre]
  · intro q hq
    apply execAll_other
    intro o ho
    rw [writeOps_target out _ o ho]; exact hq

/-- **C64** (`adjacencylist_to_edgelist`, no input).  If the input file does not exist, `runtime_error` is
raised, but the output file has been emptied. -/
theorem C64_adjacencylist_missing (F : Fmt K) (fs : FS) (inp out : Path) (hin : fs inp = none) :
    ∃ ops, adjToEdgeOps F inp out fs = (ops, .throw .runtimeError) ∧
      execAll fs ops out = some [] ∧ ∀ q, q ≠ out → execAll fs ops q = fs q := by
  refine ⟨[.truncate out], ?_, ?_, ?_⟩
  · unfold adjToEdgeOps; rw [hin]
  · simp [execAll, FsOp.exec, FS.set_same]
  · intro q hq
    simp [execAll, FsOp.exec, FS.set_other _ _ hq]

/-- **C64** (`adjacencylist_to_edgelist`, in place).  Called with the same name twice, it returns without
an error and the file, whatever it held, is an empty line: the graph is lost. -/
theorem C64_adjacencylist_inPlace (F : Fmt K) (fs : FS) (p : Path) (text : Str)
    (hin : fs p = some text) :
    ∃ ops, adjToEdgeOps F p p fs = (ops, .ok ()) ∧ execAll fs ops p = some ['\n'] := by
  refine ⟨writeOps p (unlines [[]]), ?_, execAll_writeOps _ _ _⟩
  unfold adjToEdgeOps
  rw [hin]
  simp only [if_true, fileLines_nil, adjToEdgeWritten, isContent_nil]
  rfl

/-! ## `edgelist_to_adjacencylist` -/

/-- **C64** (`edgelist_to_adjacencylist`, no input).  If the input file does not exist, `runtime_error` is
raised and nothing is touched. -/
theorem C64_edgelist_missing [LinearOrder K] (F : Fmt K) (fuel : Nat) (fs : FS) (inp out : Path) (tmp : Nat → Path)
    (i : Nat) (hin : fs inp = none) :
    edgeToAdjOps F fuel inp out tmp i fs = some ([], .throw .runtimeError) := by
  unfold edgeToAdjOps copyDuplicateOps
  rw [hin]

/-- **C64** (`edgelist_to_adjacencylist`, bad line).  If a content line does not parse, the error is
raised and the output is not touched; a temporary file is left behind. -/
theorem C64_edgelist_malformed [LinearOrder K] (F : Fmt K) (fuel : Nat) (fs : FS) (inp out : Path) (tmp : Nat → Path)
    (i : Nat) (hti : tmp i ≠ inp) (hto : tmp i ≠ out) (text : Str) (hin : fs inp = some text)
    (pre post : List Str) (line : Str) (e : Exn)
    (hf : contentLines text = pre ++ line :: post)
    (hpre : ∀ l ∈ pre, ∃ x, parseEdgelistLine F l = .ok x)
    (he : parseEdgelistLine F line = .throw e) :
    ∃ ops s, edgeToAdjOps F fuel inp out tmp i fs =
        some (ops, .throw (if e = .invalidArgument then .runtimeError else e)) ∧
      execAll fs ops (tmp i) = some s ∧ execAll fs ops out = fs out ∧
      ∀ q, q ≠ tmp i → execAll fs ops q = fs q := by
  have hrt : parseEdgeRT F line = .throw (if e = .invalidArgument then .runtimeError else e) := by
    unfold parseEdgeRT
    rw [he]
    simp only [Outcome.rethrow]
    split_ifs <;> rfl
  have key : ∀ (ls pre : List Str), ls.filter isContent = pre ++ line :: post →
      (∀ l ∈ pre, ∃ x, parseEdgelistLine F l = .ok x) →
      (duplicateWritten F ls).2 = .throw (if e = .invalidArgument then .runtimeError else e) := by
    intro ls
    induction ls with
    | nil => intro pre h; simp at h
    | cons l ls ih =>
      intro pre h hpre
      by_cases hl : isContent l = true
      · rw [List.filter_cons_of_pos hl] at h
        cases pre with
        | nil =>
          simp only [List.nil_append, List.cons.injEq] at h
          rw [h.1] at hl ⊢
          simp only [duplicateWritten, hl, if_true, hrt]
        | cons a pre =>
          simp only [List.cons_append, List.cons.injEq] at h
          obtain ⟨rfl, h⟩ := h
          obtain ⟨x, hx⟩ := hpre l (by simp)
          have hx' : parseEdgeRT F l = .ok x := by unfold parseEdgeRT; rw [hx]; rfl
          simp only [duplicateWritten, hl, if_true, hx']
          exact ih pre h (fun l' hl' => hpre l' (by simp [hl']))
      · rw [List.filter_cons_of_neg hl] at h
        simp only [duplicateWritten, if_neg hl]
        exact ih pre h hpre
  have k2 := key (fileLines text) pre hf hpre
  have hother : ∀ q, q ≠ tmp i → execAll fs (writeOps (tmp i)
      (unlines (duplicateWritten F (fileLines text)).1)) q = fs q := by
    intro q hq
    apply execAll_other
    intro o ho
    rw [writeOps_target _ _ o ho]; exact hq
  refine ⟨writeOps (tmp i) (unlines (duplicateWritten F (fileLines text)).1), _, ?_,
    execAll_writeOps _ _ _, hother _ hto.symm, hother⟩
  unfold edgeToAdjOps copyDuplicateOps
  rw [hin]
  simp only [if_neg (Ne.symm hti), k2]

end

section
variable {K : Type} [Field K] [LinearOrder K] [IsStrictOrderedRing K]

/-- The copy with both directions of every edge. -/
theorem copyDuplicate_spec (F : Fmt K) (file : Str) (es : List (Edge K))
    (h : Outcome.mapM' (parseEdgelistLine F) (contentLines file) = .ok es)
    (hw : ∀ e ∈ es, F.printable e.w) :
    ∃ dup, duplicateLines F (fileLines file) = .ok dup ∧
      contentLines (unlines dup) = (bothWays es).map (edgeLine F) ∧
      Outcome.mapM' (parseEdgelistLine F) (contentLines (unlines dup)) = .ok (bothWays es) := by
  have hfit := parseAll_fits h
  have hfit2 : ∀ e ∈ bothWays es, e.v1 < 2 ^ 31 ∧ e.v2 < 2 ^ 31 ∧ F.printable e.w := by
    intro e he
    rcases mem_bothWays.1 he with h | h
    · exact ⟨(hfit e h).1, (hfit e h).2, hw e h⟩
    · exact ⟨(hfit _ h).2, (hfit _ h).1, hw ⟨e.v2, e.v1, e.w⟩ h⟩
  obtain ⟨dup, hd1, hd2, hd3, _⟩ := duplicateLines_spec F (fileLines file) es h
  have hdline : ∀ l ∈ dup, IsLine l := by
    intro l hl
    by_cases hc : isContent l = true
    · have : l ∈ (bothWays es).map (edgeLine F) := by
        rw [← hd2]; exact List.mem_filter.2 ⟨hl, hc⟩
      obtain ⟨e, he, rfl⟩ := List.mem_map.1 this
      exact isLine_edgeLine F e (hfit2 e he).2.2
    · exact fileLines_isLine file l (hd3 l hl (by simpa using hc))
  have hdc : contentLines (unlines dup) = (bothWays es).map (edgeLine F) := by
    unfold contentLines
    rw [fileLines_unlines hdline, List.filter_append, hd2]
    simp [isContent_nil]
  refine ⟨dup, hd1, hdc, ?_⟩
  rw [hdc, Outcome.mapM'_map, Outcome.mapM'_total id (fun e he =>
    parse_edgeLine F e (hfit2 e he).1 (hfit2 e he).2.1 (hfit2 e he).2.2), List.map_id]

/-- **C64** (`copy_edgelist_duplicate_edges`).  If all the content lines parse, the copy holds the two directions of
every edge, next to each other and in the order of the file, and nothing but the output has changed. -/
theorem C64_copy (F : Fmt K) (inp out : Path) (hio : inp ≠ out) (text : Str) (es : List (Edge K))
    (h : Outcome.mapM' (parseEdgelistLine F) (contentLines text) = .ok es)
    (hw : ∀ e ∈ es, F.printable e.w) (fs : FS) (hin : fs inp = some text) :
    ∃ ops copy, copyDuplicateOps F inp out fs = (ops, .ok ()) ∧ execAll fs ops out = some copy ∧
      Outcome.mapM' (parseEdgelistLine F) (contentLines copy)
        = .ok (es.flatMap fun e => [e, ⟨e.v2, e.v1, e.w⟩]) ∧
      ∀ q, q ≠ out → execAll fs ops q = fs q := by
  obtain ⟨dup, hd1, hd2, hd3⟩ := copyDuplicate_spec F text es h hw
  refine ⟨writeOps out (unlines dup), unlines dup, ?_, execAll_writeOps _ _ _, hd3, ?_⟩
  · unfold copyDuplicateOps
    rw [hin]
    have := written_of_ok (duplicateWritten_spec F _) hd1
    simp only [if_neg hio, this]
  · intro q hq
    apply execAll_other
    intro o ho
    rw [writeOps_target _ _ o ho]; exact hq

omit [LinearOrder K] [IsStrictOrderedRing K] in
/-- **C64** (`copy_edgelist_duplicate_edges` in place).  If the input is also the output, the call returns without an
error whatever the file holds, and a single empty line is left of it. -/
theorem C64_copy_in_place (F : Fmt K) (f : Path) (text : Str) (fs : FS) (hin : fs f = some text) :
    ∃ ops, copyDuplicateOps F f f fs = (ops, .ok ()) ∧ execAll fs ops f = some ['\n'] := by
  refine ⟨writeOps f (unlines [[]]), ?_, execAll_writeOps _ _ _⟩
  unfold copyDuplicateOps
  rw [hin]
  have : fileLines ([] : Str) = [[]] := by rw [fileLines]; simp
  simp [this, duplicateWritten, isContent_nil]

/-- The operations of a successful conversion. -/
theorem edgeToAdjOps_spec (F : Fmt K) (inp out : Path) (tmp : Nat → Path) (i : Nat)
    (hti : tmp i ≠ inp) (hto : tmp i ≠ out) (hinj : ∀ j, i + 1 ≤ j → tmp j ≠ tmp i)
    (text : Str) (es : List (Edge K))
    (h : Outcome.mapM' (parseEdgelistLine F) (contentLines text) = .ok es)
    (hw : ∀ e ∈ es, 0 ≤ e.w ∧ F.printable e.w) (fuel : Nat) (hfuel : maxVertex es + 1 ≤ fuel)
    (fs : FS) (hin : fs inp = some text) :
    ∃ result dup sorted sops, edgelistToAdjacencylist F fuel text = some (.ok result) ∧
      contentLines dup = (bothWays es).map (edgeLine F) ∧
      edgeToAdjOps F fuel inp out tmp i fs =
        some (writeOps (tmp i) dup ++ (sops ++ (writeOps out result ++ [.remove (tmp i)])), .ok ()) ∧
      (contentLines sorted).Perm (contentLines dup) ∧
      SortRun (tmp i) tmp (i + 1) (contentLines dup) dup sorted sops := by
  obtain ⟨result, _, _, _, hres, _⟩ := C26_converts F text es h hw fuel hfuel
  obtain ⟨dup, hd1, hd2, hd3⟩ := copyDuplicate_spec F text es h (fun e he => (hw e he).2)
  obtain ⟨sops, sorted, hs1, hs2, hs3, _⟩ := sortEdgelistOps_spec F (tmp i) tmp (i + 1) hinj
    (unlines dup) _ hd3 fuel (by rw [maxVertex_bothWays]; exact hfuel)
  have hperm : (contentLines sorted).Perm (contentLines (unlines dup)) := by
    obtain ⟨hp, _⟩ := hs3.crash (execAll fs (writeOps (tmp i) (unlines dup))) (execAll_writeOps _ _ _) 0
    obtain ⟨sorted', blanks, h1, h2, _, hh⟩ := C25_sorts F (unlines dup) _ hd3 fuel (by
      rw [maxVertex_bothWays]; exact hfuel)
    rw [h1] at hs1
    simp only [Option.some.injEq, Outcome.ok.injEq] at hs1
    rw [← hs1]
    obtain ⟨hline, _⟩ := sort_first F (unlines dup) _ hd3
    refine List.Perm.trans (List.Perm.of_eq ?_) h2
    unfold contentLines at hline ⊢
    rw [fileLines_unlines]
    · rw [List.filter_append, List.filter_append, List.filter_append]
      have e1 : (leadingComments (fileLines (unlines dup)).dropLast).filter isContent = [] := by
        apply List.filter_eq_nil_iff.2
        intro l hl
        have := List.mem_takeWhile_imp hl
        simpa using this
      have e2 : sorted'.filter isContent = sorted' := by
        apply List.filter_eq_self.2
        intro l hl
        exact (List.mem_filter.1 (h2.subset hl)).2
      have e3 : (List.replicate blanks ([] : Str)).filter isContent = [] := by
        apply List.filter_eq_nil_iff.2
        intro l hl
        rw [(List.mem_replicate.1 hl).2]; simp [isContent_nil]
      rw [e1, e2, e3]
      simp [isContent_nil]
    · intro l hl
      rcases List.mem_append.1 hl with hl | hl
      · rcases List.mem_append.1 hl with hl | hl
        · exact hline l (List.mem_append_left _ hl)
        · exact hline l (List.mem_append_right _ (h2.subset hl))
      · rw [(List.mem_replicate.1 hl).2]; exact ⟨by simp, by simp⟩
  refine ⟨result, unlines dup, sorted, sops, hres, hd2, ?_, hperm, hs3⟩
  have hcd : copyDuplicateOps F inp (tmp i) fs = (writeOps (tmp i) (unlines dup), .ok ()) := by
    unfold copyDuplicateOps
    rw [hin]
    have := written_of_ok (duplicateWritten_spec F _) hd1
    simp only [if_neg (Ne.symm hti), this]
  have hresult : edgeToAdjText F (-1) false (fileLines sorted) = .ok result := by
    unfold edgelistToAdjacencylist copyDuplicate at hres
    rw [hd1] at hres
    simp only [Outcome.bind_ok] at hres
    rw [hs1] at hres
    simpa using hres
  have hw := written_of_ok (edgeToAdjWritten_spec F _ _ _) hresult
  unfold edgeToAdjOps
  simp only [hcd]
  rw [execAll_writeOps]
  simp only [Option.getD_some, hs2]
  rw [execAll_append, (hs3.done _ (execAll_writeOps _ _ _)).1]
  simp only [Option.getD_some, if_neg hto, hw]

/-- **C64** (`edgelist_to_adjacencylist` returns).  On an edgelist whose content lines parse, with
non-negative weights that survive printing, the call performs finitely many operations without an error;
then the output holds the converted file (C26), all temporary files are gone, and nothing else has
changed - the input in particular, unless it is the output.  Input and output may be the same file. -/
theorem C64_edgelist_done (F : Fmt K) (inp out : Path) (tmp : Nat → Path) (i : Nat)
    (hti : ∀ j, tmp j ≠ inp) (hto : ∀ j, tmp j ≠ out) (hinj : ∀ j, i + 1 ≤ j → tmp j ≠ tmp i)
    (text : Str) (es : List (Edge K))
    (h : Outcome.mapM' (parseEdgelistLine F) (contentLines text) = .ok es)
    (hw : ∀ e ∈ es, 0 ≤ e.w ∧ F.printable e.w) (fuel : Nat) (hfuel : maxVertex es + 1 ≤ fuel)
    (fs : FS) (hin : fs inp = some text) :
    ∃ ops result, edgeToAdjOps F fuel inp out tmp i fs = some (ops, .ok ()) ∧
      edgelistToAdjacencylist F fuel text = some (.ok result) ∧
      execAll fs ops out = some result ∧ execAll fs ops (tmp i) = none ∧
      ∀ q, q ≠ out → execAll fs ops q = fs q ∨ (∃ j, q = tmp j) ∧ execAll fs ops q = none := by
  obtain ⟨result, dup, sorted, sops, h1, h2, h3, h4, h5⟩ := edgeToAdjOps_spec F inp out tmp i
    (hti i) (hto i) hinj text es h hw fuel hfuel fs hin
  refine ⟨_, result, h3, h1, ?_, ?_, ?_⟩
  · rw [execAll_append, execAll_append, execAll_append, execAll_cons, execAll_nil]
    simp only [FsOp.exec]
    rw [FS.set_other _ _ (hto i).symm, execAll_writeOps]
  · rw [execAll_append, execAll_append, execAll_append, execAll_cons, execAll_nil]
    exact FS.set_same _ _ _
  · intro q hq
    rw [execAll_append, execAll_append, execAll_append, execAll_cons, execAll_nil]
    by_cases hqi : q = tmp i
    · subst hqi
      exact Or.inr ⟨⟨i, rfl⟩, FS.set_same _ _ _⟩
    · simp only [FsOp.exec]
      rw [FS.set_other _ _ hqi, execAll_other (writeOps out result)]
      · rcases (h5.done _ (execAll_writeOps fs (tmp i) dup)).2 q hqi with h6 | ⟨⟨j, _, hj⟩, h6⟩
        · left
          rw [h6]
          apply execAll_other
          intro o ho
          rw [writeOps_target _ _ o ho]; exact hqi
        · exact Or.inr ⟨⟨j, hj⟩, h6⟩
      · intro o ho
        rw [writeOps_target _ _ o ho]; exact hq

/-- **C64** (crash during `edgelist_to_adjacencylist`).  At every moment the output is as it was before, or
a beginning of the converted file; no file except the output and the temporary files has changed, so
the input is intact when it is another file; and even when it is the same file, no edge is lost: the
original input, or the converted file, or a temporary file with both directions of every edge, is
there. -/
theorem C64_edgelist_crash (F : Fmt K) (inp out : Path) (tmp : Nat → Path) (i : Nat)
    (hti : ∀ j, tmp j ≠ inp) (hto : ∀ j, tmp j ≠ out) (hinj : ∀ j, i + 1 ≤ j → tmp j ≠ tmp i)
    (text : Str) (es : List (Edge K))
    (h : Outcome.mapM' (parseEdgelistLine F) (contentLines text) = .ok es)
    (hw : ∀ e ∈ es, 0 ≤ e.w ∧ F.printable e.w) (fuel : Nat) (hfuel : maxVertex es + 1 ≤ fuel)
    (fs : FS) (hin : fs inp = some text) :
    ∃ ops result, edgeToAdjOps F fuel inp out tmp i fs = some (ops, .ok ()) ∧
      edgelistToAdjacencylist F fuel text = some (.ok result) ∧
      ∀ k, (crashAfter fs ops k out = fs out ∨ ∃ s, s <+: result ∧ crashAfter fs ops k out = some s) ∧
        (∀ q, q ≠ out → (∀ j, q ≠ tmp j) → crashAfter fs ops k q = fs q) ∧
        (crashAfter fs ops k inp = some text ∨ crashAfter fs ops k out = some result ∨
          ∃ j s, crashAfter fs ops k (tmp j) = some s ∧
            (contentLines s).Perm ((bothWays es).map (edgeLine F))) := by
  obtain ⟨result, dup, sorted, sops, h1, h2, h3, h4, h5⟩ := edgeToAdjOps_spec F inp out tmp i
    (hti i) (hto i) hinj text es h hw fuel hfuel fs hin
  refine ⟨_, result, h3, h1, ?_⟩
  have hbefore : ∀ q, (∀ j, q ≠ tmp j) → ∀ o ∈ writeOps (tmp i) dup ++ sops, q ≠ o.target := by
    intro q hq o ho
    rcases List.mem_append.1 ho with ho | ho
    · rw [writeOps_target _ _ o ho]; exact hq i
    · rcases h5.targets o ho with h6 | ⟨j, _, h6⟩ <;> rw [h6]
      · exact hq i
      · exact hq j
  have hsplit : writeOps (tmp i) dup ++ (sops ++ (writeOps out result ++ [.remove (tmp i)])) =
      (writeOps (tmp i) dup ++ sops) ++ (writeOps out result ++ [.remove (tmp i)]) := by
    rw [List.append_assoc]
  rw [hsplit]
  intro k
  have hmid : execAll fs (writeOps (tmp i) dup ++ sops) (tmp i) = some sorted := by
    rw [execAll_append]
    exact (h5.done _ (execAll_writeOps fs (tmp i) dup)).1
  rcases crashAfter_append fs (writeOps (tmp i) dup ++ sops)
    (writeOps out result ++ [.remove (tmp i)]) k with ⟨_, e⟩ | ⟨j, _, e⟩
  · rw [e]
    refine ⟨Or.inl ?_, ?_, Or.inl ?_⟩
    · exact crashAfter_other _ fs k (hbefore out (fun j => (hto j).symm))
    · intro q _ hq
      exact crashAfter_other _ fs k (hbefore q hq)
    · rw [crashAfter_other _ fs k (hbefore inp (fun j => (hti j).symm)), hin]
  · rw [e]
    have hb : ∀ q, (∀ j, q ≠ tmp j) → execAll fs (writeOps (tmp i) dup ++ sops) q = fs q :=
      fun q hq => execAll_other _ fs (hbefore q hq)
    have hbo := hb out (fun j => (hto j).symm)
    have hbi := hb inp (fun j => (hti j).symm)
    generalize execAll fs (writeOps (tmp i) dup ++ sops) = fs2 at hmid hb hbo hbi ⊢
    have hoth : ∀ q, q ≠ out → (∀ j, q ≠ tmp j) →
        crashAfter fs2 (writeOps out result ++ [.remove (tmp i)]) j q = fs q := by
      intro q hq hqt
      rw [← hb q hqt]
      apply crashAfter_other
      intro o ho
      rcases List.mem_append.1 ho with ho | ho
      · rw [writeOps_target _ _ o ho]; exact hq
      · rw [List.mem_singleton] at ho; subst ho; exact hqt i
    rcases crashAfter_append fs2 (writeOps out result) [.remove (tmp i)] j with ⟨_, e2⟩ | ⟨m, _, e2⟩
    · refine ⟨?_, hoth, Or.inr (Or.inr ⟨i, sorted, ?_, h2 ▸ h4⟩)⟩
      · rw [e2, (C63_save fs2 out result).1 j]
        split_ifs
        · exact Or.inl hbo
        · exact Or.inr ⟨_, List.take_prefix _ _, rfl⟩
      · rw [e2, (C63_save fs2 out result).2.1 j _ (hto i), hmid]
    · have hout : crashAfter fs2 (writeOps out result ++ [.remove (tmp i)]) j out = some result := by
        rw [e2, crashAfter_other, execAll_writeOps]
        intro o ho
        rw [List.mem_singleton] at ho; subst ho; exact (hto i).symm
      exact ⟨Or.inr ⟨result, List.prefix_refl _, hout⟩, hoth, Or.inr (Or.inl hout)⟩

end

/-- The hypotheses of `C64_edgelist_done` and `C64_edgelist_crash` are met by a small file converted in
place. -/
example : ∃ ops result, edgeToAdjOps natFmt 8 "/g".toList "/g".toList
      (tempName (fun n => if n < 20 then 0 else 1)) 0
      (fun p => if p = "/g".toList then some "3 1".toList else none) = some (ops, .ok ()) ∧
    edgelistToAdjacencylist natFmt 8 "3 1".toList = some (.ok result) ∧
    execAll (fun p => if p = "/g".toList then some "3 1".toList else none) ops "/g".toList =
      some result := by
  have hn : ∀ j, tempName (fun n => if n < 20 then 0 else 1) j ≠ "/g".toList := by
    intro j h
    have := congrArg List.length h
    rw [tempName_length] at this
    exact absurd this (by decide)
  have hinj : ∀ j, 0 + 1 ≤ j → tempName (fun n => if n < 20 then 0 else 1) j ≠
      tempName (fun n => if n < 20 then 0 else 1) 0 := by
    intro j hj h
    unfold tempName at h
    rw [List.append_cancel_left_eq] at h
    have := congrArg (fun l => l[0]?) h
    simp only [List.getElem?_map, List.getElem?_range (show 0 < 20 by decide), Option.map_some,
      Option.some.injEq] at this
    rw [if_neg (by omega), if_pos (by omega)] at this
    exact absurd this (by decide)
  have hcl : contentLines "3 1".toList = ["3 1".toList] := by
    unfold contentLines
    rw [fileLines_last ⟨by decide, by decide⟩ (by decide)]
    decide
  obtain ⟨ops, result, h1, h2, h3, _⟩ := C64_edgelist_done natFmt "/g".toList "/g".toList
    (tempName (fun n => if n < 20 then 0 else 1)) 0 hn hn hinj "3 1".toList [⟨3, 1, 1⟩]
    (by rw [hcl]; decide +kernel) (by
      intro e he
      rw [List.mem_singleton] at he
      subst he
      exact ⟨by decide +kernel, 1, by decide, by decide +kernel⟩) 8 (by decide +kernel)
    (fun p => if p = "/g".toList then some "3 1".toList else none) (if_pos rfl)
  exact ⟨ops, result, h1, h2, h3⟩

end Stag
