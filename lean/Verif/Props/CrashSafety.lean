import Verif.FileSystem
import Verif.Props.SortEdgelist

/-!
# C63: the files on disk when a writer or the on-disk sort is interrupted
-/

namespace Stag

/-! ## The disk -/

theorem FS.set_same (fs : FS) (p : Path) (x : Option Str) : fs.set p x p = x := by simp [FS.set]

theorem FS.set_other (fs : FS) {p q : Path} (x : Option Str) (h : q ≠ p) : fs.set p x q = fs q := by
  simp [FS.set, h]

theorem execAll_append (fs : FS) (a b : List FsOp) : execAll fs (a ++ b) = execAll (execAll fs a) b := by
  simp [execAll]

theorem execAll_cons (fs : FS) (o : FsOp) (b : List FsOp) :
    execAll fs (o :: b) = execAll (o.exec fs) b := rfl

theorem execAll_nil (fs : FS) : execAll fs [] = fs := rfl

/-- A crash inside a sequence of two parts. -/
theorem crashAfter_append (fs : FS) (a b : List FsOp) (k : Nat) :
    (k ≤ a.length ∧ crashAfter fs (a ++ b) k = crashAfter fs a k) ∨
    ∃ j, k = a.length + j ∧ crashAfter fs (a ++ b) k = crashAfter (execAll fs a) b j := by
  by_cases h : k ≤ a.length
  · exact Or.inl ⟨h, by unfold crashAfter; rw [List.take_append_of_le_length h]⟩
  · refine Or.inr ⟨k - a.length, by omega, ?_⟩
    unfold crashAfter
    rw [List.take_append, List.take_of_length_le (by omega), execAll_append]

/-- The files an operation can change. -/
def FsOp.target : FsOp → Path
  | .truncate p => p
  | .put p _ => p
  | .remove p => p
  | .copyPart _ p _ => p
  | .copyAll _ p => p

theorem exec_other (fs : FS) (o : FsOp) {q : Path} (h : q ≠ o.target) : o.exec fs q = fs q := by
  cases o with
  | truncate p => exact FS.set_other _ _ h
  | put p c =>
    simp only [FsOp.exec]
    cases fs p with
    | none => rfl
    | some s => exact FS.set_other _ _ h
  | remove p => exact FS.set_other _ _ h
  | copyPart a p k =>
    simp only [FsOp.exec]
    cases fs a with
    | none => rfl
    | some s => exact FS.set_other _ _ h
  | copyAll a p =>
    simp only [FsOp.exec]
    cases fs a with
    | none => rfl
    | some s => exact FS.set_other _ _ h

theorem execAll_other (ops : List FsOp) {q : Path} : ∀ fs : FS, (∀ o ∈ ops, q ≠ o.target) →
    execAll fs ops q = fs q := by
  induction ops with
  | nil => intro fs _; rfl
  | cons o ops ih =>
    intro fs h
    rw [execAll_cons, ih _ (fun o' ho' => h o' (by simp [ho'])), exec_other _ _ (h o (by simp))]

theorem crashAfter_other (ops : List FsOp) {q : Path} (fs : FS) (k : Nat)
    (h : ∀ o ∈ ops, q ≠ o.target) : crashAfter fs ops k q = fs q :=
  execAll_other _ fs (fun o ho => h o (List.mem_of_mem_take ho))

theorem execAll_puts (p : Path) (s : Str) : ∀ (fs : FS) (t : Str), fs p = some t →
    execAll fs (s.map (.put p)) p = some (t ++ s) := by
  induction s with
  | nil => intro fs t h; simpa [execAll] using h
  | cons c s ih =>
    intro fs t h
    rw [List.map_cons, execAll_cons, ih _ (t ++ [c])]
    · simp
    · simp only [FsOp.exec, h, FS.set_same]

theorem execAll_writeOps (fs : FS) (p : Path) (s : Str) :
    execAll fs (writeOps p s) p = some s := by
  unfold writeOps
  rw [execAll_cons, execAll_puts p s _ []]
  · rfl
  · simp [FsOp.exec, FS.set_same]

theorem writeOps_target (p : Path) (s : Str) : ∀ o ∈ writeOps p s, o.target = p := by
  intro o ho
  unfold writeOps at ho
  rcases List.mem_cons.1 ho with rfl | ho
  · rfl
  · obtain ⟨c, _, rfl⟩ := List.mem_map.1 ho; rfl

theorem crash_writeOps (fs : FS) (p : Path) (s : Str) (k : Nat) :
    crashAfter fs (writeOps p s) (k + 1) p = some (s.take k) := by
  unfold crashAfter writeOps
  rw [List.take_succ_cons, execAll_cons, ← List.map_take, execAll_puts p _ _ []]
  · rfl
  · simp [FsOp.exec, FS.set_same]

/-- **C63** (saving).  `save_edgelist`, `save_adjacencylist`, `save_matrix` and `general_sbm_edgelist`
write their text straight to the file.  After a crash the file is as it was before (nothing done yet) or
holds a beginning of the new text: the old contents are lost from the first moment on.  No other file
changes, and when the call returns the file holds the text. -/
theorem C63_save (fs : FS) (p : Path) (text : Str) :
    (∀ k, crashAfter fs (writeOps p text) k p = (if k = 0 then fs p else some (text.take (k - 1)))) ∧
    (∀ k q, q ≠ p → crashAfter fs (writeOps p text) k q = fs q) ∧
    execAll fs (writeOps p text) p = some text := by
  refine ⟨?_, ?_, execAll_writeOps fs p text⟩
  · intro k
    cases k with
    | zero => rfl
    | succ k => rw [crash_writeOps]; simp
  · intro k q hq
    apply crashAfter_other
    intro o ho
    rw [writeOps_target p text o ho]; exact hq

/-! ## Copying and one pass of the sort -/

theorem crash_copyParts (src dst : Path) (hne : src ≠ dst) (s : Str) (n : Nat) : ∀ fs : FS,
    fs src = some s → fs dst = none ∨ (∃ t, t <+: s ∧ fs dst = some t) → ∀ k,
    (crashAfter fs ((List.range n).map (.copyPart src dst)) k dst = none ∨
      ∃ t, t <+: s ∧ crashAfter fs ((List.range n).map (.copyPart src dst)) k dst = some t) ∧
    crashAfter fs ((List.range n).map (.copyPart src dst)) k src = some s := by
  unfold crashAfter
  intro fs hs hd k
  rw [← List.map_take]
  generalize (List.range n).take k = l
  induction l generalizing fs with
  | nil => exact ⟨hd, hs⟩
  | cons a l ih =>
    rw [List.map_cons, execAll_cons]
    apply ih
    · simp only [FsOp.exec, hs]; rw [FS.set_other _ _ hne, hs]
    · right
      refine ⟨s.take a, List.take_prefix a s, ?_⟩
      simp only [FsOp.exec, hs, FS.set_same]

theorem copyOps_target (src dst : Path) (s : Str) : ∀ o ∈ copyOps src dst s, o.target = dst := by
  intro o ho
  unfold copyOps at ho
  rcases List.mem_append.1 ho with ho | ho
  · obtain ⟨c, _, rfl⟩ := List.mem_map.1 ho; rfl
  · rw [List.mem_singleton] at ho; subst ho; rfl

theorem execAll_copyOps (fs : FS) (src dst : Path) (hne : src ≠ dst) (s : Str)
    (h : fs src = some s) : execAll fs (copyOps src dst s) dst = some s := by
  unfold copyOps
  rw [execAll_append]
  have hsrc : execAll fs ((List.range s.length).map (.copyPart src dst)) src = some s := by
    rw [execAll_other, h]
    intro o ho
    obtain ⟨c, _, rfl⟩ := List.mem_map.1 ho
    exact hne
  rw [execAll_cons, execAll_nil]
  simp only [FsOp.exec, hsrc, FS.set_same]

theorem passOps_target (file tmp : Path) (s : Str) :
    ∀ o ∈ passOps file tmp s, o.target = file ∨ o.target = tmp := by
  intro o ho
  unfold passOps at ho
  rcases List.mem_append.1 ho with ho | ho
  · exact Or.inr (writeOps_target _ _ o ho)
  · rcases List.mem_cons.1 ho with rfl | ho
    · exact Or.inl rfl
    · rcases List.mem_append.1 ho with ho | ho
      · exact Or.inl (copyOps_target _ _ _ o ho)
      · rw [List.mem_singleton] at ho; subst ho; exact Or.inr rfl

/-- The end of a pass. -/
theorem execAll_passOps (fs : FS) (file tmp : Path) (hne : tmp ≠ file) (s : Str) :
    execAll fs (passOps file tmp s) file = some s ∧ execAll fs (passOps file tmp s) tmp = none ∧
    ∀ q, q ≠ file → q ≠ tmp → execAll fs (passOps file tmp s) q = fs q := by
  refine ⟨?_, ?_, ?_⟩
  · unfold passOps
    rw [execAll_append, execAll_cons, execAll_append, execAll_cons, execAll_nil]
    simp only [FsOp.exec]
    rw [FS.set_other _ _ hne.symm]
    apply execAll_copyOps _ _ _ hne
    rw [FS.set_other _ _ hne, execAll_writeOps]
  · unfold passOps
    rw [execAll_append, execAll_cons, execAll_append, execAll_cons, execAll_nil]
    simp only [FsOp.exec]
    rw [FS.set_same]
  · intro q h1 h2
    apply execAll_other
    intro o ho
    rcases passOps_target file tmp s o ho with h | h <;> rw [h] <;> assumption

/-- A crash inside a pass: either the file still has its contents, or the temporary file has the new
contents and the file is missing or holds a beginning of them, or the file has the new contents. -/
theorem crash_passOps (fs : FS) (file tmp : Path) (hne : tmp ≠ file) (old s : Str)
    (hold : fs file = some old) (k : Nat) :
    crashAfter fs (passOps file tmp s) k file = some old ∨
    (crashAfter fs (passOps file tmp s) k tmp = some s ∧
      (crashAfter fs (passOps file tmp s) k file = none ∨
        ∃ t, t <+: s ∧ crashAfter fs (passOps file tmp s) k file = some t)) ∨
    crashAfter fs (passOps file tmp s) k file = some s := by
  unfold passOps
  rcases crashAfter_append fs (writeOps tmp s)
    (.remove file :: (copyOps tmp file s ++ [.remove tmp])) k with ⟨_, h⟩ | ⟨j, _, h⟩
  · left
    rw [h, crashAfter_other, hold]
    intro o ho
    rw [writeOps_target _ _ o ho]; exact hne.symm
  · have htmp := execAll_writeOps fs tmp s
    have hfile : execAll fs (writeOps tmp s) file = some old := by
      rw [execAll_other, hold]
      intro o ho
      rw [writeOps_target _ _ o ho]; exact hne.symm
    rw [h]
    generalize execAll fs (writeOps tmp s) = fs1 at htmp hfile ⊢
    cases j with
    | zero => left; exact hfile
    | succ j =>
      have e : crashAfter fs1 (.remove file :: (copyOps tmp file s ++ [.remove tmp])) (j + 1) =
          crashAfter (fs1.set file none) (copyOps tmp file s ++ [.remove tmp]) j := by
        unfold crashAfter; rw [List.take_succ_cons, execAll_cons]; rfl
      rw [e]
      have htmp2 : fs1.set file none tmp = some s := by rw [FS.set_other _ _ hne, htmp]
      have hfile2 : fs1.set file none file = none := FS.set_same _ _ _
      generalize fs1.set file none = fs2 at htmp2 hfile2 ⊢
      right
      unfold copyOps
      rw [List.append_assoc]
      rcases crashAfter_append fs2 ((List.range s.length).map (.copyPart tmp file))
        ([.copyAll tmp file] ++ [.remove tmp]) j with ⟨_, h⟩ | ⟨i, _, h⟩
      · left
        rw [h]
        have := crash_copyParts tmp file hne s s.length fs2 htmp2 (Or.inl hfile2) j
        exact ⟨this.2, this.1⟩
      · have hx := crash_copyParts tmp file hne s s.length fs2 htmp2 (Or.inl hfile2) s.length
        have e2 : crashAfter fs2 ((List.range s.length).map (.copyPart tmp file)) s.length =
            execAll fs2 ((List.range s.length).map (.copyPart tmp file)) := by
          unfold crashAfter
          rw [List.take_of_length_le (by simp)]
        rw [e2] at hx
        rw [h]
        generalize execAll fs2 ((List.range s.length).map (.copyPart tmp file)) = fs3 at hx ⊢
        rcases i with _ | _ | i
        · left; exact ⟨hx.2, hx.1⟩
        · right
          simp only [crashAfter, execAll, List.singleton_append, List.take_succ_cons, List.take_zero,
            List.foldl_cons, List.foldl_nil, FsOp.exec, hx.2, FS.set_same]
        · right
          simp only [crashAfter, execAll, List.singleton_append, List.take_succ_cons, List.take_nil,
            List.foldl_cons, List.foldl_nil, FsOp.exec, hx.2]
          rw [FS.set_other _ _ hne.symm, FS.set_same]

section
set_option linter.unusedSectionVars false
variable {K : Type} [Field K] [LinearOrder K]

/-! ## The contents between two passes -/

/-- The contents of the file between two passes. -/
def SortInv (F : Fmt K) (hdr orig : List Str) (total : Nat) (text : Str) (ivs : List SortIv) : Prop :=
  ∃ bs pad, Sorting F hdr orig bs ∧ (bs.flatMap Block.body).Perm orig ∧
    (blockLines bs).length + pad ≤ total ∧
    text = unlines (blockLines bs ++ List.replicate pad []) ∧ ivs = ivsOf 0 bs

theorem perm_of_keep (F : Fmt K) {a b : List Str}
    (h : ∀ k, a.filter (fun l => decide (firstId F l = k)) = b.filter (fun l => decide (firstId F l = k))) :
    a.Perm b := by
  rw [List.perm_iff_count]
  intro l
  have e1 : ∀ ls : List Str, ls.count l =
      (ls.filter (fun x => decide (firstId F x = firstId F l))).count l := by
    intro ls
    rw [List.count_filter (by simp)]
  rw [e1, e1 b, h]

theorem SortInv.isLine {F : Fmt K} {hdr orig : List Str} (hline : ∀ l ∈ hdr ++ orig, IsLine l)
    {bs : List Block} {pad : Nat} (hs : Sorting F hdr orig bs)
    (hperm : (bs.flatMap Block.body).Perm orig) :
    ∀ l ∈ blockLines bs ++ List.replicate pad [], IsLine l := by
  intro l hl
  rcases List.mem_append.1 hl with hl | hl
  · rw [blockLines_split hs.hdrOK, hs.header] at hl
    apply hline
    rcases List.mem_append.1 hl with hl | hl
    · exact List.mem_append_left _ hl
    · exact List.mem_append_right _ (hperm.subset hl)
  · rw [(List.mem_replicate.1 hl).2]; exact ⟨by simp, by simp⟩

/-- Between two passes the file holds the same content lines. -/
theorem SortInv.content {F : Fmt K} {hdr orig : List Str} {total : Nat} {text : Str}
    {ivs : List SortIv} (hline : ∀ l ∈ hdr ++ orig, IsLine l)
    (h : SortInv F hdr orig total text ivs) : (contentLines text).Perm orig := by
  obtain ⟨bs, pad, hs, hperm, _, rfl, _⟩ := h
  unfold contentLines
  have h1 : (bs.flatMap Block.hdr).filter isContent = [] := by
    apply List.filter_eq_nil_iff.2
    intro l hl
    obtain ⟨b, hb, hl⟩ := List.mem_flatMap.1 hl
    simp [(hs.ok b hb).hdr l hl]
  have h2 : (bs.flatMap Block.body).filter isContent = bs.flatMap Block.body := by
    apply List.filter_eq_self.2
    intro l hl
    obtain ⟨b, hb, hl⟩ := List.mem_flatMap.1 hl
    exact (hs.ok b hb).body l hl
  have h3 : (List.replicate pad ([] : Str)).filter isContent = [] := by
    apply List.filter_eq_nil_iff.2
    intro l hl; rw [(List.mem_replicate.1 hl).2]; decide
  have h4 : List.filter isContent [[]] = [] := by decide
  rw [fileLines_unlines (SortInv.isLine hline hs hperm), List.filter_append, List.filter_append,
    blockLines_split hs.hdrOK, List.filter_append, h1, h2, h3, h4, List.nil_append, List.append_nil,
    List.append_nil]
  exact hperm

/-- A pass. -/
theorem SortInv.step {F : Fmt K} {hdr orig : List Str} {total : Nat} {text : Str}
    {ivs : List SortIv} (hline : ∀ l ∈ hdr ++ orig, IsLine l)
    (h : SortInv F hdr orig total text ivs) :
    ∃ text' ivs', sortPass F total text ivs = .ok (text', ivs') ∧
      SortInv F hdr orig total text' ivs' := by
  obtain ⟨bs, pad, hs, hperm, htot, rfl, rfl⟩ := h
  have hfl := fileLines_unlines (SortInv.isLine (pad := pad) hline hs hperm)
  have hlen : (blockLines bs ++ List.replicate pad ([] : Str)).length ≤ total := by
    rw [List.length_append, List.length_replicate]; exact htot
  obtain ⟨s', h1, h2, h3⟩ := passIntervals_spec F
    (fileLines (unlines (blockLines bs ++ List.replicate pad [])))
    (blockLines bs ++ List.replicate pad []) (by intro a b; rw [hfl, lineRange_extra])
    (List.replicate pad []) total hlen bs ⟨0, [], false, []⟩ [] [] (by simp) rfl hs.ok hs.hdrOK
  have p : ((bs.flatMap (splitBlock F)).flatMap Block.body).Perm (bs.flatMap Block.body) :=
    perm_of_keep F (fun k => by rw [hs.step.keep, hs.keep])
  have hlen2 : (blockLines (bs.flatMap (splitBlock F))).length = (blockLines bs).length := by
    rw [blockLines_split hs.step.hdrOK, blockLines_split hs.hdrOK, hs.header, hs.step.header,
      List.length_append, List.length_append, p.length_eq]
  simp only [List.length_nil, Nat.add_zero, List.append_nil, List.nil_append] at h1 h2 h3
  refine ⟨_, _, ?_, bs.flatMap (splitBlock F),
    pad + (total - (blockLines bs ++ List.replicate pad ([] : Str)).length), hs.step, p.trans hperm,
    ?_, rfl, rfl⟩
  · unfold sortPass
    rw [h1, Outcome.bind_ok, h2, h3, List.append_assoc, ← List.replicate_add]
  · rw [hlen2]; rw [List.length_append, List.length_replicate] at hlen ⊢; omega

/-- The first pass, on the file as it was given. -/
theorem sort_first (F : Fmt K) (file : Str) (es : List (Edge K))
    (h : Outcome.mapM' (parseEdgelistLine F) (contentLines file) = .ok es) :
    (∀ l ∈ leadingComments (fileLines file).dropLast ++ contentLines file, IsLine l) ∧
    ∃ text' ivs', sortPass F ((fileLines file).length - 1) file
        [⟨0, (fileLines file).length - 1, 0, maxVertex es⟩] = .ok (text', ivs') ∧
      SortInv F (leadingComments (fileLines file).dropLast) (contentLines file)
        ((fileLines file).length - 1) text' ivs' := by
  obtain ⟨ls, hls⟩ := fileLines_getLast file
  have hdl : (fileLines file).dropLast = ls := by rw [hls, List.dropLast_concat]
  have hcl : contentLines file = ls.filter isContent := by
    unfold contentLines; rw [hls, List.filter_append]; simp [isContent_nil]
  have htotal : (fileLines file).length - 1 = ls.length := by rw [hls]; simp
  have hline : ∀ l ∈ ls, IsLine l := fun l hl =>
    fileLines_isLine file l (by rw [hls]; exact List.mem_append_left _ hl)
  have hkey := le_maxVertex_first h
  rw [hdl, htotal]
  have hparse : AllParse F ls := by
    intro l hl hc
    exact (hkey l (by rw [hcl]; exact List.mem_filter.2 ⟨hl, hc⟩)).2
  have hpi := passInterval_spec F (lines := fileLines file) (ls := ls) (pre := []) (pend := [])
    (seg := ls) (post := []) ⟨0, [], false, []⟩ 0 (maxVertex es)
    (by intro a b; rw [hls, lineRange_extra]) (by simp) rfl hparse
  simp only [List.length_nil, Nat.zero_add, Bool.false_eq_true, if_false, List.nil_append,
    Bool.false_or] at hpi
  have hleft : leftOf F (maxVertex es) ls = leftOf F (0 + maxVertex es) (contentLines file) := by
    unfold leftOf; rw [hcl, List.filter_filter]; simp
  have hright : rightOf F (maxVertex es) ls = rightOf F (0 + maxVertex es) (contentLines file) := by
    unfold rightOf; rw [hcl, List.filter_filter]; simp
  have hcont : ∀ l ∈ contentLines file, isContent l = true := by
    intro l hl; rw [hcl] at hl; exact (List.mem_filter.1 hl).2
  have hlead : ∀ l ∈ leadingComments ls, isContent l = false := by
    intro l hl
    have := List.mem_takeWhile_imp hl
    simpa using this
  have hleadline : ∀ l ∈ leadingComments ls ++ contentLines file, IsLine l := by
    intro l hl
    rcases List.mem_append.1 hl with hl | hl
    · exact hline l (List.takeWhile_subset _ hl)
    · rw [hcl] at hl; exact hline l (List.mem_filter.1 hl).1
  refine ⟨hleadline, ?_⟩
  have hlen : (leadingComments ls).length + (contentLines file).length ≤ ls.length := by
    rw [hcl]
    have h1 : (leadingComments ls).length ≤ (ls.filter (fun l => !isContent l)).length := by
      have hsub : (leadingComments ls).Sublist (ls.filter (fun l => !isContent l)) := by
        have := (List.takeWhile_sublist (fun l => !isContent l) (l := ls)).filter
          (fun l => !isContent l)
        rwa [List.filter_eq_self.2 (fun l hl => by simp [hlead l hl])] at this
      exact hsub.length_le
    have h2 : ls.length = (ls.filter isContent).length + (ls.filter (fun l => !isContent l)).length :=
      List.length_eq_length_filter_add (l := ls) isContent
    clear hpi hls htotal
    omega
  have hpass : sortPass F ls.length file [⟨0, ls.length, 0, maxVertex es⟩] =
      .ok (unlines (blockLines (splitBlock F ⟨leadingComments ls, contentLines file,
          some (0, maxVertex es)⟩) ++ List.replicate 0 []),
        ivsOf 0 (splitBlock F ⟨leadingComments ls, contentLines file, some (0, maxVertex es)⟩)) := by
    unfold sortPass
    rw [passIntervals, hpi, Outcome.bind_ok, passIntervals, Outcome.bind_ok, lineRange_self]
    rw [hleft, hright, splitBlock]
    simp only
    rw [← List.append_nil (newIv _ _ _ _ ++ newIv _ _ _ _)]
    congr 2
    · simp [blockLines, Block.lines, mkBlock]
    · rw [← newIv_mkBlock, ← newIv_mkBlock]
      simp [ivsOf]
  refine ⟨_, _, hpass, ?_⟩
  by_cases hz : maxVertex es = 0
  · have hnil : contentLines file = [] := by
      apply List.eq_nil_iff_forall_not_mem.2
      intro l hl
      have := (hkey l hl).1
      omega
    refine ⟨[⟨leadingComments ls, [], none⟩], 0, ⟨?_, ⟨Or.inr rfl, by simp⟩, by simp, by simp, by simp,
      List.pairwise_singleton _ _, by rw [hnil]; simp⟩, by rw [hnil]; simp, ?_, ?_, ?_⟩
    · intro b hb
      rw [List.mem_singleton] at hb
      subst hb
      exact ⟨hlead, by simp, fun l hl => by simp at hl⟩
    · simp only [blockLines, Block.lines, List.flatMap_cons, List.flatMap_nil, List.append_nil]
      omega
    · rw [hnil]
      simp [blockLines, splitBlock, Block.lines, mkBlock, leftOf, rightOf]
    · rw [(ivsOf_nil_iff [⟨leadingComments ls, [], none⟩] 0).2 (by
        intro b hb; rw [List.mem_singleton] at hb; subst hb; rfl), ivsOf_nil_iff, hnil, hz]
      intro b hb
      simp only [splitBlock, leftOf, rightOf, List.filter_nil, List.mem_cons, List.not_mem_nil,
        or_false] at hb
      rcases hb with rfl | rfl <;> simp [mkBlock, minKey, maxKey]
  · have hs0 : Sorting F (leadingComments ls) (contentLines file)
        [⟨leadingComments ls, contentLines file, some (0, maxVertex es)⟩] := by
      refine ⟨?_, ⟨Or.inr rfl, by simp⟩, by simp, ?_, ?_, List.pairwise_singleton _ _, by simp⟩
      · intro b hb
        rw [List.mem_singleton] at hb
        subst hb
        exact ⟨hlead, hcont, fun l hl _ => (hkey l hl).2⟩
      · intro b hb lo hi hact
        rw [List.mem_singleton] at hb
        subst hb
        simp only [Option.some.injEq, Prod.mk.injEq] at hact
        obtain ⟨rfl, rfl⟩ := hact
        exact ⟨by omega, fun l hl => ⟨by omega, le_of_lt (hkey l hl).1⟩⟩
      · intro b hb hact
        rw [List.mem_singleton] at hb
        subst hb; cases hact
    have hs1 := hs0.step
    rw [List.flatMap_cons, List.flatMap_nil, List.append_nil] at hs1
    have hperm := perm_of_keep F hs1.keep
    refine ⟨_, 0, hs1, hperm, ?_, rfl, rfl⟩
    rw [blockLines_split hs1.hdrOK, hs1.header, List.length_append, hperm.length_eq]
    omega

/-! ## The whole sort -/

/-- No edge is lost: some file, the edgelist itself or a temporary one, holds exactly the content lines
`orig` (in some order), and the edgelist itself, if it exists, is a beginning of such a file. -/
def NothingLost (file : Path) (tmp : Nat → Path) (orig : List Str) (fs : FS) : Prop :=
  (∃ p s, (p = file ∨ ∃ j, p = tmp j) ∧ fs p = some s ∧ (contentLines s).Perm orig) ∧
  (fs file = none ∨ ∃ s t, (contentLines s).Perm orig ∧ t <+: s ∧ fs file = some t)

theorem crash_pass_safe {file : Path} {tmp : Nat → Path} (i : Nat) (hne : tmp i ≠ file)
    {orig : List Str} {old new : Str} (ho : (contentLines old).Perm orig)
    (hn : (contentLines new).Perm orig) (fs : FS) (h : fs file = some old) (k : Nat) :
    NothingLost file tmp orig (crashAfter fs (passOps file (tmp i) new) k) := by
  rcases crash_passOps fs file (tmp i) hne old new h k with h | ⟨h1, h2⟩ | h
  · exact ⟨⟨file, old, Or.inl rfl, h, ho⟩, Or.inr ⟨old, old, ho, List.prefix_refl _, h⟩⟩
  · refine ⟨⟨tmp i, new, Or.inr ⟨i, rfl⟩, h1, hn⟩, ?_⟩
    rcases h2 with h2 | ⟨t, ht, h2⟩
    · exact Or.inl h2
    · exact Or.inr ⟨new, t, hn, ht, h2⟩
  · exact ⟨⟨file, new, Or.inl rfl, h, hn⟩, Or.inr ⟨new, new, hn, List.prefix_refl _, h⟩⟩

/-- What a sequence of operations of the sort does. -/
structure SortRun (file : Path) (tmp : Nat → Path) (i : Nat) (orig : List Str) (text final : Str)
    (ops : List FsOp) : Prop where
  targets : ∀ o ∈ ops, o.target = file ∨ ∃ j, i ≤ j ∧ o.target = tmp j
  done : ∀ fs : FS, fs file = some text → execAll fs ops file = some final ∧
    ∀ q, q ≠ file → execAll fs ops q = fs q ∨ (∃ j, i ≤ j ∧ q = tmp j) ∧ execAll fs ops q = none
  crash : ∀ fs : FS, fs file = some text → ∀ k, NothingLost file tmp orig (crashAfter fs ops k)

theorem SortRun.pass {file : Path} {tmp : Nat → Path} {i : Nat} (hne : tmp i ≠ file)
    {orig : List Str} {old new final : Str} {ops : List FsOp} (ho : (contentLines old).Perm orig)
    (hn : (contentLines new).Perm orig) (h : SortRun file tmp (i + 1) orig new final ops) :
    SortRun file tmp i orig old final (passOps file (tmp i) new ++ ops) := by
  refine ⟨?_, ?_, ?_⟩
  · intro o ho
    rcases List.mem_append.1 ho with ho | ho
    · rcases passOps_target _ _ _ o ho with h | h
      · exact Or.inl h
      · exact Or.inr ⟨i, le_refl _, h⟩
    · rcases h.targets o ho with h | ⟨j, hj, h⟩
      · exact Or.inl h
      · exact Or.inr ⟨j, by omega, h⟩
  · intro fs hfs
    rw [execAll_append]
    obtain ⟨h1, h2, h3⟩ := execAll_passOps fs file (tmp i) hne new
    refine ⟨(h.done _ h1).1, ?_⟩
    intro q hq
    rcases (h.done _ h1).2 q hq with h4 | h4
    · rw [h4]
      by_cases hqt : q = tmp i
      · right; subst hqt; exact ⟨⟨i, le_refl _, rfl⟩, h2⟩
      · left; exact h3 q hq hqt
    · obtain ⟨⟨j, hj, e⟩, h4⟩ := h4
      exact Or.inr ⟨⟨j, by omega, e⟩, h4⟩
  · intro fs hfs k
    rcases crashAfter_append fs (passOps file (tmp i) new) ops k with ⟨_, e⟩ | ⟨j, _, e⟩ <;> rw [e]
    · exact crash_pass_safe i hne ho hn fs hfs k
    · exact h.crash _ (execAll_passOps fs file (tmp i) hne new).1 j

theorem SortRun.nil {file : Path} {tmp : Nat → Path} {i : Nat} {orig : List Str} {text : Str}
    (h : (contentLines text).Perm orig) : SortRun file tmp i orig text text [] := by
  refine ⟨by simp, fun fs hfs => ⟨hfs, fun q _ => Or.inl rfl⟩, fun fs hfs k => ?_⟩
  have : crashAfter fs [] k = fs := by simp [crashAfter, execAll]
  rw [this]
  exact ⟨⟨file, text, Or.inl rfl, hfs, h⟩, Or.inr ⟨text, text, h, List.prefix_refl _, hfs⟩⟩

theorem sortLoopOps_spec (F : Fmt K) {hdr orig : List Str} (total : Nat) (file : Path)
    (tmp : Nat → Path) (hline : ∀ l ∈ hdr ++ orig, IsLine l) (final : Str) :
    ∀ (fuel i : Nat) (text : Str) (ivs : List SortIv), (∀ j, i ≤ j → tmp j ≠ file) → SortInv F hdr orig total text ivs →
      sortLoop F total fuel text ivs = some (.ok final) →
      ∃ ops, sortLoopOps F total file tmp fuel i text ivs = some (ops, .ok ()) ∧
        SortRun file tmp i orig text final ops := by
  intro fuel
  induction fuel with
  | zero =>
    intro i text ivs hne hinv hl
    cases ivs with
    | nil =>
      simp only [sortLoop, Option.some.injEq, Outcome.ok.injEq] at hl
      subst hl
      exact ⟨[], rfl, SortRun.nil (hinv.content hline)⟩
    | cons iv ivs => simp [sortLoop] at hl
  | succ fuel ih =>
    intro i text ivs hne hinv hl
    cases ivs with
    | nil =>
      simp only [sortLoop, Option.some.injEq, Outcome.ok.injEq] at hl
      subst hl
      exact ⟨[], rfl, SortRun.nil (hinv.content hline)⟩
    | cons iv ivs =>
      obtain ⟨text', ivs', hp, hinv'⟩ := hinv.step hline
      rw [sortLoop, hp] at hl
      simp only at hl
      obtain ⟨ops, h1, h2⟩ := ih (i + 1) text' ivs' (fun j hj => hne j (by omega)) hinv' hl
      refine ⟨passOps file (tmp i) text' ++ ops, ?_, ?_⟩
      · rw [sortLoopOps, hp]
        simp only [h1, Option.map_some]
      · exact SortRun.pass (hne i (le_refl _)) (hinv.content hline) (hinv'.content hline) h2

/-- The sort of a file whose content lines all parse, as a sequence of operations. -/
theorem sortEdgelistOps_spec (F : Fmt K) (file : Path) (tmp : Nat → Path) (i : Nat)
    (hne : ∀ j, i ≤ j → tmp j ≠ file) (text : Str) (es : List (Edge K))
    (h : Outcome.mapM' (parseEdgelistLine F) (contentLines text) = .ok es) (fuel : Nat)
    (hfuel : maxVertex es + 1 ≤ fuel) :
    ∃ ops final, sortEdgelist F fuel text = some (.ok final) ∧
      sortEdgelistOps F fuel file tmp i text = some (ops, .ok ()) ∧
      SortRun file tmp i (contentLines text) text final ops ∧
      ∃ text' ops', ops = passOps file (tmp i) text' ++ ops' := by
  obtain ⟨sorted, blanks, hs, _⟩ := C25_sorts F text es h fuel hfuel
  obtain ⟨hline, text', ivs', hp, hinv⟩ := sort_first F text es h
  obtain ⟨fuel, rfl⟩ : ∃ f, fuel = f + 1 := ⟨fuel - 1, by omega⟩
  have hs' := hs
  unfold sortEdgelist at hs'
  rw [(mapM_parse_rt F).2 h] at hs'
  simp only at hs'
  rw [sortLoop, hp] at hs'
  simp only at hs'
  obtain ⟨ops, h1, h2⟩ := sortLoopOps_spec F _ file tmp hline _ fuel (i + 1) text' ivs'
    (fun j hj => hne j (by omega)) hinv hs'
  refine ⟨passOps file (tmp i) text' ++ ops, _, hs, ?_, ?_, text', ops, rfl⟩
  · unfold sortEdgelistOps
    rw [(mapM_parse_rt F).2 h]
    simp only
    rw [sortLoopOps, hp]
    simp only [h1, Option.map_some]
  · exact SortRun.pass (hne i (le_refl _)) (List.Perm.refl _) (hinv.content hline) h2

/-- **C63** (the sort returns).  On a file whose content lines all parse, `sort_edgelist` performs a
finite sequence of disk operations without an error, after which the file holds what `sort_edgelist`
is specified to leave (C25), every temporary file it made is gone, and no other file has changed. -/
theorem C63_sort_done (F : Fmt K) (file : Path) (tmp : Nat → Path) (i : Nat)
    (hne : ∀ j, i ≤ j → tmp j ≠ file) (text : Str) (es : List (Edge K))
    (h : Outcome.mapM' (parseEdgelistLine F) (contentLines text) = .ok es) (fuel : Nat)
    (hfuel : maxVertex es + 1 ≤ fuel) (fs : FS) (hfs : fs file = some text) :
    ∃ ops final, sortEdgelistOps F fuel file tmp i text = some (ops, .ok ()) ∧
      sortEdgelist F fuel text = some (.ok final) ∧
      execAll fs ops file = some final ∧
      ∀ q, q ≠ file → execAll fs ops q = fs q ∨ (∃ j, i ≤ j ∧ q = tmp j) ∧ execAll fs ops q = none := by
  obtain ⟨ops, final, h1, h2, h3, _⟩ := sortEdgelistOps_spec F file tmp i hne text es h fuel hfuel
  exact ⟨ops, final, h2, h1, (h3.done fs hfs).1, (h3.done fs hfs).2⟩

/-- **C63** (crash while sorting).  Whenever `sort_edgelist` is interrupted, no edge is lost: the file or
a temporary file holds exactly the content lines of the original (in some order); the file itself, if it
exists, is a beginning of such a file; and no other file has changed. -/
theorem C63_sort_crash (F : Fmt K) (file : Path) (tmp : Nat → Path) (i : Nat)
    (hne : ∀ j, i ≤ j → tmp j ≠ file) (text : Str) (es : List (Edge K))
    (h : Outcome.mapM' (parseEdgelistLine F) (contentLines text) = .ok es) (fuel : Nat)
    (hfuel : maxVertex es + 1 ≤ fuel) (fs : FS) (hfs : fs file = some text) :
    ∃ ops, sortEdgelistOps F fuel file tmp i text = some (ops, .ok ()) ∧
      ∀ k, NothingLost file tmp (contentLines text) (crashAfter fs ops k) ∧
        ∀ q, q ≠ file → (∀ j, q ≠ tmp j) → crashAfter fs ops k q = fs q := by
  obtain ⟨ops, final, _, h2, h3, _⟩ := sortEdgelistOps_spec F file tmp i hne text es h fuel hfuel
  refine ⟨ops, h2, fun k => ⟨h3.crash fs hfs k, ?_⟩⟩
  intro q hq hq2
  apply crashAfter_other
  intro o ho
  rcases h3.targets o ho with h | ⟨j, _, h⟩ <;> rw [h]
  · exact hq
  · exact hq2 j

/-- **C63** (the file itself is not safe).  For every file whose content lines all parse there is a moment
during `sort_edgelist` at which the file does not exist, and one at which it exists but is empty, which loads without an error as the graph without vertices. -/
theorem C63_sort_window (F : Fmt K) (file : Path) (tmp : Nat → Path) (i : Nat)
    (hne : ∀ j, i ≤ j → tmp j ≠ file) (text : Str) (es : List (Edge K))
    (h : Outcome.mapM' (parseEdgelistLine F) (contentLines text) = .ok es) (fuel : Nat)
    (hfuel : maxVertex es + 1 ≤ fuel) (fs : FS) :
    ∃ ops, sortEdgelistOps F fuel file tmp i text = some (ops, .ok ()) ∧
      (∃ k, crashAfter fs ops k file = none) ∧
      ∃ k, crashAfter fs ops k file = some [] ∧
        ∃ g, loadEdgelist F [] = .ok g ∧ g.n = 0 := by
  obtain ⟨ops, final, _, h2, h3, text', ops', rfl⟩ :=
    sortEdgelistOps_spec F file tmp i hne text es h fuel hfuel
  have hlen : (writeOps (tmp i) text').length = text'.length + 1 := by simp [writeOps]
  have hpre : ∀ j, crashAfter fs (passOps file (tmp i) text' ++ ops') (text'.length + 2 + j) =
      crashAfter ((execAll fs (writeOps (tmp i) text')).set file none)
        (copyOps (tmp i) file text' ++ [.remove (tmp i)] ++ ops') j := by
    intro j
    unfold crashAfter passOps
    rw [List.append_assoc, List.take_append, hlen, List.take_of_length_le (by omega), execAll_append,
      show text'.length + 2 + j - (text'.length + 1) = j + 1 by omega, List.cons_append,
      List.take_succ_cons, execAll_cons]
    rfl
  have htmp : (execAll fs (writeOps (tmp i) text')).set file none (tmp i) = some text' := by
    rw [FS.set_other _ _ (hne i (le_refl _)), execAll_writeOps]
  refine ⟨_, h2, ⟨text'.length + 2 + 0, ?_⟩, text'.length + 2 + 1, ?_, ?_⟩
  · rw [hpre]
    exact FS.set_same _ _ _
  · rw [hpre]
    generalize (execAll fs (writeOps (tmp i) text')).set file none = fs2 at htmp
    unfold copyOps crashAfter
    cases hn : text'.length with
    | zero =>
      have : text' = [] := List.length_eq_zero_iff.1 hn
      subst this
      simp only [List.range_zero, List.map_nil, List.nil_append, List.cons_append,
        List.take_succ_cons, List.take_zero, execAll_cons, execAll_nil, FsOp.exec, htmp, FS.set_same]
    | succ n =>
      rw [List.range_succ_eq_map]
      simp only [List.map_cons, List.cons_append, List.take_succ_cons, List.take_zero, execAll_cons,
        execAll_nil, FsOp.exec, htmp, FS.set_same, List.take_zero]
  · exact ⟨_, by unfold loadEdgelist contentLines; rw [fileLines_nil]; rfl, rfl⟩

/-- **C63** (bad files).  If a content line does not parse, `sort_edgelist` raises the error without
touching the disk. -/
theorem C63_sort_malformed (F : Fmt K) (file : Path) (tmp : Nat → Path) (i fuel : Nat) (text : Str)
    (pre post : List Str) (line : Str) (e : Exn) (hf : contentLines text = pre ++ line :: post)
    (hpre : ∀ l ∈ pre, ∃ x, parseEdgelistLine F l = .ok x)
    (he : parseEdgelistLine F line = .throw e) :
    sortEdgelistOps F fuel file tmp i text =
      some ([], .throw (if e = .invalidArgument then .runtimeError else e)) := by
  unfold sortEdgelistOps
  rw [hf, Outcome.mapM'_first_throw (e := if e = .invalidArgument then .runtimeError else e)]
  · intro l hl
    obtain ⟨x, hx⟩ := hpre l hl
    exact ⟨x, by unfold parseEdgeRT; rw [hx]; rfl⟩
  · unfold parseEdgeRT
    rw [he]
    simp only [Outcome.rethrow]
    split_ifs <;> rfl

end
end Stag
