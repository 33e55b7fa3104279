import Verif.SortEdgelist
import Verif.Props.Edgelist
import Mathlib.Data.List.TakeWhile

/-!
# C25: sorting an edgelist file
-/

namespace Stag

section
set_option linter.unusedSectionVars false
variable {K : Type} [Field K] [LinearOrder K]

/-- The first endpoint named by a line. -/
def firstId (F : Fmt K) (l : Str) : Nat :=
  match parseEdgelistLine F l with
  | .ok e => e.v1
  | _ => 0

/-- The leading comment block (comments and blank lines before the first content line). -/
def leadingComments (ls : List Str) : List Str := ls.takeWhile (fun l => !isContent l)

/-! ## One scan -/

/-- Smallest key seen, starting from `a`. -/
def minKey (key : Str → Nat) (a : Nat) (ls : List Str) : Nat :=
  ls.foldl (fun m l => if key l < m then key l else m) a

/-- Largest key seen, starting from `a`. -/
def maxKey (key : Str → Nat) (a : Nat) (ls : List Str) : Nat :=
  ls.foldl (fun m l => if m < key l then key l else m) a

theorem minKey_spec (key : Str → Nat) (ls : List Str) : ∀ a,
    minKey key a ls ≤ a ∧ (∀ l ∈ ls, minKey key a ls ≤ key l) ∧
    (minKey key a ls = a ∨ ∃ l ∈ ls, minKey key a ls = key l) := by
  induction ls with
  | nil => intro a; exact ⟨le_refl a, by simp, Or.inl rfl⟩
  | cons x ls ih =>
    intro a
    obtain ⟨h1, h2, h3⟩ := ih (if key x < a then key x else a)
    have hx : (if key x < a then key x else a) ≤ a ∧ (if key x < a then key x else a) ≤ key x := by
      split_ifs <;> omega
    have e : minKey key a (x :: ls) = minKey key (if key x < a then key x else a) ls := rfl
    rw [e]
    refine ⟨by omega, ?_, ?_⟩
    · intro l hl
      rcases List.mem_cons.1 hl with rfl | hl
      · omega
      · exact h2 l hl
    · rcases h3 with h3 | ⟨l, hl, h3⟩
      · by_cases hc : key x < a
        · rw [if_pos hc] at h3 ⊢; exact Or.inr ⟨x, by simp, h3⟩
        · rw [if_neg hc] at h3 ⊢; exact Or.inl h3
      · exact Or.inr ⟨l, by simp [hl], h3⟩

theorem maxKey_spec (key : Str → Nat) (ls : List Str) : ∀ a,
    a ≤ maxKey key a ls ∧ (∀ l ∈ ls, key l ≤ maxKey key a ls) ∧
    (maxKey key a ls = a ∨ ∃ l ∈ ls, maxKey key a ls = key l) := by
  induction ls with
  | nil => intro a; exact ⟨le_refl a, by simp, Or.inl rfl⟩
  | cons x ls ih =>
    intro a
    obtain ⟨h1, h2, h3⟩ := ih (if a < key x then key x else a)
    have hx : a ≤ (if a < key x then key x else a) ∧ key x ≤ (if a < key x then key x else a) := by
      split_ifs <;> omega
    have e : maxKey key a (x :: ls) = maxKey key (if a < key x then key x else a) ls := rfl
    rw [e]
    refine ⟨by omega, ?_, ?_⟩
    · intro l hl
      rcases List.mem_cons.1 hl with rfl | hl
      · omega
      · exact h2 l hl
    · rcases h3 with h3 | ⟨l, hl, h3⟩
      · by_cases hc : a < key x
        · rw [if_pos hc] at h3 ⊢; exact Or.inr ⟨x, by simp, h3⟩
        · rw [if_neg hc] at h3 ⊢; exact Or.inl h3
      · exact Or.inr ⟨l, by simp [hl], h3⟩

/-- Every content line of the list parses. -/
def AllParse (F : Fmt K) (ls : List Str) : Prop :=
  ∀ l ∈ ls, isContent l = true → ∃ e, parseEdgelistLine F l = .ok e

theorem AllParse.tail {F : Fmt K} {l : Str} {ls : List Str} (h : AllParse F (l :: ls)) :
    AllParse F ls := fun x hx => h x (by simp [hx])

theorem parseRT_key {F : Fmt K} {l : Str} (h : ∃ e, parseEdgelistLine F l = .ok e) :
    ∃ e, parseEdgeRT F l = .ok e ∧ e.v1 = firstId F l := by
  obtain ⟨e, he⟩ := h
  refine ⟨e, ?_, ?_⟩
  · unfold parseEdgeRT; rw [he]; rfl
  · unfold firstId; rw [he]

/-- Lines going left. -/
def leftOf (F : Fmt K) (pivot : Nat) (ls : List Str) : List Str :=
  (ls.filter isContent).filter (fun l => decide (2 * firstId F l < pivot))

/-- Lines going right. -/
def rightOf (F : Fmt K) (pivot : Nat) (ls : List Str) : List Str :=
  (ls.filter isContent).filter (fun l => decide (pivot ≤ 2 * firstId F l))

theorem scanLeft_spec (F : Fmt K) (pivot : Nat) (ls : List Str) : ∀ s : ScanState, AllParse F ls →
    scanLeft F pivot ls s = .ok
      ⟨s.out ++ ((if s.written then [] else leadingComments ls) ++ leftOf F pivot ls),
        minKey (firstId F) s.mn (leftOf F pivot ls), maxKey (firstId F) s.mx (leftOf F pivot ls),
        s.written || ls.any isContent⟩ := by
  induction ls with
  | nil =>
    intro s _
    cases s with | mk o mn mx w => cases w <;> simp [scanLeft, leadingComments, leftOf, minKey, maxKey]
  | cons l ls ih =>
    intro s hp
    have ih := fun s => ih s hp.tail
    unfold scanLeft
    by_cases hc : isContent l = true
    · rw [if_pos hc]
      obtain ⟨e, he, hk⟩ := parseRT_key (hp l (by simp) hc)
      rw [he, Outcome.bind_ok, hk]
      have hlead : leadingComments (l :: ls) = [] := by
        unfold leadingComments; rw [List.takeWhile_cons]; simp [hc]
      rw [hlead]
      by_cases hlt : 2 * firstId F l < pivot
      · rw [if_pos hlt, ih]
        have hleft : leftOf F pivot (l :: ls) = l :: leftOf F pivot ls := by
          simp [leftOf, hc, hlt]
        rw [hleft]
        simp [minKey, maxKey, hc]
      · rw [if_neg hlt, ih]
        have hleft : leftOf F pivot (l :: ls) = leftOf F pivot ls := by
          simp [leftOf, hc, hlt]
        rw [hleft]
        simp [hc]
    · rw [if_neg hc]
      have hleft : leftOf F pivot (l :: ls) = leftOf F pivot ls := by
        simp [leftOf, hc]
      have hlead : leadingComments (l :: ls) = l :: leadingComments ls := by
        unfold leadingComments; rw [List.takeWhile_cons]; simp [hc]
      rw [hleft, hlead]
      by_cases hw : s.written = false
      · rw [if_pos hw, ih]
        simp [hw, hc]
      · rw [if_neg hw, ih]
        simp only [Bool.not_eq_false] at hw
        simp [hw]

theorem scanRight_spec (F : Fmt K) (pivot : Nat) (ls : List Str) : ∀ s : ScanState, AllParse F ls →
    scanRight F pivot ls s = .ok ⟨s.out ++ rightOf F pivot ls,
        minKey (firstId F) s.mn (rightOf F pivot ls), maxKey (firstId F) s.mx (rightOf F pivot ls),
        s.written⟩ := by
  induction ls with
  | nil => intro s _; simp [scanRight, rightOf, minKey, maxKey]
  | cons l ls ih =>
    intro s hp
    have ih := fun s => ih s hp.tail
    unfold scanRight
    by_cases hc : isContent l = true
    · rw [if_pos hc]
      obtain ⟨e, he, hk⟩ := parseRT_key (hp l (by simp) hc)
      rw [he, Outcome.bind_ok, hk]
      by_cases hlt : pivot ≤ 2 * firstId F l
      · rw [if_pos hlt, ih]
        have hr : rightOf F pivot (l :: ls) = l :: rightOf F pivot ls := by
          simp [rightOf, hc, hlt]
        rw [hr]
        simp [minKey, maxKey]
      · rw [if_neg hlt, ih]
        have hr : rightOf F pivot (l :: ls) = rightOf F pivot ls := by
          simp [rightOf, hc, hlt]
        rw [hr]
    · rw [if_neg hc, ih]
      have hr : rightOf F pivot (l :: ls) = rightOf F pivot ls := by
        simp [rightOf, hc]
      rw [hr]

/-! ## Blocks -/

/-- A stretch of the file: header comments (first block only), content lines, and the id range
if the stretch is still being sorted. -/
structure Block where
  hdr : List Str
  body : List Str
  act : Option (Nat × Nat)

/-- The lines of a block. -/
def Block.lines (b : Block) : List Str := b.hdr ++ b.body

/-- The lines of a sequence of blocks. -/
def blockLines (bs : List Block) : List Str := bs.flatMap Block.lines

/-- The intervals of a sequence of blocks starting at line `p`. -/
def ivsOf : Nat → List Block → List SortIv
  | _, [] => []
  | p, b :: bs =>
    (match b.act with
      | some (lo, hi) => [⟨p, p + b.lines.length, lo, hi⟩]
      | none => []) ++ ivsOf (p + b.lines.length) bs

theorem ivsOf_cons (p : Nat) (b : Block) (bs : List Block) :
    ivsOf p (b :: bs) =
      (match b.act with
        | some (lo, hi) => [⟨p, p + b.lines.length, lo, hi⟩]
        | none => []) ++ ivsOf (p + b.lines.length) bs := rfl

/-- A block after a scan. -/
def mkBlock (hdr body : List Str) (mn mx : Nat) : Block :=
  ⟨hdr, body, if 1 < (hdr ++ body).length ∧ mn < mx then some (mn, mx) else none⟩

/-- What a pass does to one block. -/
def splitBlock (F : Fmt K) (b : Block) : List Block :=
  match b.act with
  | none => [b]
  | some (lo, hi) =>
    [mkBlock b.hdr (leftOf F (lo + hi) b.body) (minKey (firstId F) hi (leftOf F (lo + hi) b.body))
        (maxKey (firstId F) lo (leftOf F (lo + hi) b.body)),
     mkBlock [] (rightOf F (lo + hi) b.body) (minKey (firstId F) hi (rightOf F (lo + hi) b.body))
        (maxKey (firstId F) lo (rightOf F (lo + hi) b.body))]

theorem newIv_mkBlock (p : Nat) (hdr body : List Str) (mn mx : Nat) (bs : List Block) :
    newIv p (p + (hdr ++ body).length) mn mx ++ ivsOf (p + (hdr ++ body).length) bs =
      ivsOf p (mkBlock hdr body mn mx :: bs) := by
  rw [ivsOf_cons]
  unfold mkBlock newIv
  simp only [Block.lines, Nat.add_sub_cancel_left]
  split_ifs <;> rfl

/-- Well-formed block: header lines are no content, body lines are. -/
structure Block.OK (F : Fmt K) (b : Block) : Prop where
  hdr : ∀ l ∈ b.hdr, isContent l = false
  body : ∀ l ∈ b.body, isContent l = true
  parse : AllParse F b.body

theorem Block.OK.filter {F : Fmt K} {b : Block} (h : b.OK F) : b.lines.filter isContent = b.body := by
  unfold Block.lines
  rw [List.filter_append, List.filter_eq_nil_iff.2 (by intro l hl; simp [h.hdr l hl]),
    List.filter_eq_self.2 h.body, List.nil_append]

theorem Block.OK.filterBody {F : Fmt K} {b : Block} (h : b.OK F) :
    b.body.filter isContent = b.body := List.filter_eq_self.2 h.body

theorem leading_append {hdr body : List Str} (h1 : ∀ l ∈ hdr, isContent l = false)
    (h2 : ∀ l ∈ body, isContent l = true) : leadingComments (hdr ++ body) = hdr := by
  unfold leadingComments
  apply takeWhile_append_stop
  · intro l hl; simp [h1 l hl]
  · intro l hl
    have := h2 l (List.mem_of_mem_head? hl)
    simp [this]

theorem Block.OK.parseLines {F : Fmt K} {b : Block} (h : b.OK F) : AllParse F b.lines := by
  intro l hl hc
  unfold Block.lines at hl
  rcases List.mem_append.1 hl with hl | hl
  · rw [h.hdr l hl] at hc; cases hc
  · exact h.parse l hl hc

theorem Block.OK.leftOf {F : Fmt K} {b : Block} (h : b.OK F) (p : Nat) :
    leftOf F p b.lines = Stag.leftOf F p b.body := by
  unfold Stag.leftOf; rw [h.filter, h.filterBody]

theorem Block.OK.rightOf {F : Fmt K} {b : Block} (h : b.OK F) (p : Nat) :
    rightOf F p b.lines = Stag.rightOf F p b.body := by
  unfold Stag.rightOf; rw [h.filter, h.filterBody]

/-! ## Reading ranges of lines -/

theorem lineRange_self (ls : List Str) (a : Nat) : lineRange ls a a = [] := by
  simp [lineRange]

/-- Reading a segment of the file. -/
theorem lineRange_segment (pre seg post : List Str) :
    lineRange (pre ++ seg ++ post) pre.length (pre.length + seg.length) = seg := by
  unfold lineRange
  rw [Nat.add_sub_cancel_left]
  apply List.ext_getElem
  · simp
  · intro i h1 h2
    simp only [List.getElem_map, List.getElem_range]
    rw [List.append_assoc, List.getD_append_right _ _ _ _ (by omega), Nat.add_sub_cancel_left,
      List.getD_append _ _ _ _ (by simpa using h2), List.getD_eq_getElem]

/-- Reading to a line number at or past the end. -/
theorem lineRange_tail (pre seg : List Str) (total : Nat) (h : pre.length + seg.length ≤ total) :
    lineRange (pre ++ seg) pre.length total =
      seg ++ List.replicate (total - (pre.length + seg.length)) [] := by
  unfold lineRange
  apply List.ext_getElem
  · simp; omega
  · intro i h1 h2
    simp only [List.getElem_map, List.getElem_range]
    rw [List.getD_append_right _ _ _ _ (by omega), Nat.add_sub_cancel_left]
    rcases Nat.lt_or_ge i seg.length with hi | hi
    · rw [List.getD_eq_getElem _ _ hi, List.getElem_append_left hi]
    · rw [List.getD_eq_default _ _ hi, List.getElem_append_right hi, List.getElem_replicate]

theorem lineRange_extra (ls : List Str) (a b : Nat) : lineRange (ls ++ [[]]) a b = lineRange ls a b := by
  unfold lineRange
  apply List.map_congr_left
  intro k _
  rcases Nat.lt_or_ge (a + k) ls.length with h | h
  · rw [List.getD_append _ _ _ _ h]
  · rw [List.getD_append_right _ _ _ _ h, List.getD_eq_default _ _ h]
    rcases Nat.lt_or_ge (a + k - ls.length) 1 with h' | h'
    · have : a + k - ls.length = 0 := by omega
      rw [this]; rfl
    · rw [List.getD_eq_default _ _ (by simpa using h')]

/-! ## One pass -/

/-- Processing one active segment. -/
theorem passInterval_spec (F : Fmt K) {lines ls pre pend seg post : List Str} (s : PassState)
    (lo hi : Nat)
    (hls : ∀ a b, lineRange lines a b = lineRange ls a b)
    (hpos : ls = pre ++ pend ++ seg ++ post) (hin : s.inLine = pre.length) (hp : AllParse F seg) :
    passInterval F lines s ⟨pre.length + pend.length, pre.length + pend.length + seg.length, lo, hi⟩ =
      .ok ⟨pre.length + pend.length + seg.length,
        s.out ++ pend ++ ((if s.written then [] else leadingComments seg) ++ leftOf F (lo + hi) seg) ++
          rightOf F (lo + hi) seg,
        s.written || seg.any isContent,
        s.news ++ newIv (s.out ++ pend).length
          ((s.out ++ pend).length + ((if s.written then [] else leadingComments seg) ++
            leftOf F (lo + hi) seg).length)
          (minKey (firstId F) hi (leftOf F (lo + hi) seg))
          (maxKey (firstId F) lo (leftOf F (lo + hi) seg)) ++
        newIv ((s.out ++ pend).length + ((if s.written then [] else leadingComments seg) ++
            leftOf F (lo + hi) seg).length)
          ((s.out ++ pend).length + ((if s.written then [] else leadingComments seg) ++
            leftOf F (lo + hi) seg).length + (rightOf F (lo + hi) seg).length)
          (minKey (firstId F) hi (rightOf F (lo + hi) seg))
          (maxKey (firstId F) lo (rightOf F (lo + hi) seg))⟩ := by
  have h1 : lineRange lines s.inLine (pre.length + pend.length) = pend := by
    rw [hls, hpos, hin, List.append_assoc (pre ++ pend)]
    exact lineRange_segment pre pend (seg ++ post)
  have h2 : lineRange lines (pre.length + pend.length) (pre.length + pend.length + seg.length) =
      seg := by
    rw [hls, hpos]
    have := lineRange_segment (pre ++ pend) seg post
    rwa [List.length_append] at this
  unfold passInterval
  simp only
  rw [if_neg (by omega), h1, h2, scanLeft_spec F _ _ _ hp, Outcome.bind_ok,
    scanRight_spec F _ _ _ hp, Outcome.bind_ok]
  simp only [List.nil_append, List.length_append]
  congr 2
  omega

/-- Header lines occur only in the first block and only before content has been seen. -/
def HdrOK (written : Bool) : List Block → Prop
  | [] => True
  | b :: bs => (b.hdr = [] ∨ written = false) ∧ ∀ c ∈ bs, c.hdr = []

theorem HdrOK.of_nil {w : Bool} {bs : List Block} (h : ∀ c ∈ bs, c.hdr = []) : HdrOK w bs := by
  cases bs with
  | nil => trivial
  | cons b bs => exact ⟨Or.inl (h b (by simp)), fun c hc => h c (by simp [hc])⟩

theorem passIntervals_spec (F : Fmt K) (lines ls : List Str)
    (hls : ∀ a b, lineRange lines a b = lineRange ls a b) (post : List Str) (total : Nat)
    (htot : ls.length ≤ total) :
    ∀ (bs : List Block) (s : PassState) (pre pend : List Str),
      ls = pre ++ pend ++ blockLines bs ++ post → s.inLine = pre.length →
      (∀ b ∈ bs, b.OK F) → HdrOK s.written bs →
      ∃ s', passIntervals F lines s (ivsOf (pre.length + pend.length) bs) = .ok s' ∧
        s'.out ++ lineRange lines s'.inLine total =
          s.out ++ pend ++ blockLines (bs.flatMap (splitBlock F)) ++ post ++
            List.replicate (total - ls.length) [] ∧
        s'.news = s.news ++ ivsOf (s.out ++ pend).length (bs.flatMap (splitBlock F)) := by
  intro bs
  induction bs with
  | nil =>
    intro s pre pend hpos hin _ _
    refine ⟨s, rfl, ?_, ?_⟩
    · rw [hls, hin]
      have hpos' : ls = pre ++ (pend ++ post) := by simpa [blockLines] using hpos
      rw [hpos', lineRange_tail _ _ _ (by rw [hpos'] at htot; simpa using htot)]
      simp [blockLines]
    · simp [ivsOf]
  | cons b bs ih =>
    intro s pre pend hpos hin hok hhdr
    have hb := hok b (by simp)
    have hbs : ∀ c ∈ bs, c.OK F := fun c hc => hok c (by simp [hc])
    rw [ivsOf_cons]
    cases hact : b.act with
    | none =>
      simp only [List.nil_append]
      obtain ⟨s', h1, h2, h3⟩ := ih s pre (pend ++ b.lines)
        (by rw [hpos]; simp [blockLines]) hin hbs (HdrOK.of_nil hhdr.2)
      have hlen : pre.length + (pend ++ b.lines).length = pre.length + pend.length + b.lines.length := by
        rw [List.length_append]; omega
      rw [hlen] at h1
      have hsp : (b :: bs).flatMap (splitBlock F) = b :: bs.flatMap (splitBlock F) := by
        rw [List.flatMap_cons, splitBlock, hact]; rfl
      refine ⟨s', h1, ?_, ?_⟩
      · rw [h2, hsp]; simp [blockLines]
      · rw [h3, hsp, ivsOf_cons, hact]
        simp [Nat.add_assoc]
    | some r =>
      obtain ⟨lo, hi⟩ := r
      simp only [List.singleton_append]
      have hpi := passInterval_spec F (lines := lines) (ls := ls) (pre := pre) (pend := pend)
        (seg := b.lines) (post := blockLines bs ++ post) s lo hi hls
        (by rw [hpos]; simp [blockLines]) hin hb.parseLines
      have hhd : (if s.written = true then [] else leadingComments b.lines) = b.hdr := by
        rcases hhdr.1 with h | h
        · have := leading_append hb.hdr hb.body
          unfold Block.lines
          rw [this, h]; split_ifs <;> rfl
        · rw [h]
          exact leading_append hb.hdr hb.body
      rw [hhd, hb.leftOf, hb.rightOf] at hpi
      unfold passIntervals
      rw [hpi, Outcome.bind_ok]
      generalize hst : PassState.mk _ _ _ _ = st
      obtain ⟨s', h1, h2, h3⟩ := ih st (pre ++ pend ++ b.lines) []
        (by rw [hpos]; simp [blockLines]) (by rw [← hst]; simp [Nat.add_assoc]) hbs
        (HdrOK.of_nil hhdr.2)
      have hlen : (pre ++ pend ++ b.lines).length + ([] : List Str).length =
          pre.length + pend.length + b.lines.length := by
        simp; omega
      rw [hlen] at h1
      have hsp : (b :: bs).flatMap (splitBlock F) = splitBlock F b ++ bs.flatMap (splitBlock F) := by
        rw [List.flatMap_cons]
      refine ⟨s', h1, ?_, ?_⟩
      · rw [h2, hsp, splitBlock, hact, ← hst]
        simp [blockLines, Block.lines, mkBlock]
      · rw [h3, hsp, splitBlock, hact, ← hst]
        simp only [List.append_nil, List.cons_append, List.nil_append]
        rw [← newIv_mkBlock, ← newIv_mkBlock]
        simp [Nat.add_assoc]

/-! ## The invariant of the whole sort -/

/-- The state of the file between passes. -/
structure Sorting (F : Fmt K) (hdr : List Str) (orig : List Str) (bs : List Block) : Prop where
  ok : ∀ b ∈ bs, b.OK F
  hdrOK : HdrOK false bs
  header : bs.flatMap Block.hdr = hdr
  range : ∀ b ∈ bs, ∀ lo hi, b.act = some (lo, hi) →
    lo < hi ∧ ∀ l ∈ b.body, lo ≤ firstId F l ∧ firstId F l ≤ hi
  frozen : ∀ b ∈ bs, b.act = none → b.body.Pairwise (fun x y => firstId F x ≤ firstId F y)
  cross : bs.Pairwise (fun b c => ∀ x ∈ b.body, ∀ y ∈ c.body, firstId F x ≤ firstId F y)
  keep : ∀ k, (bs.flatMap Block.body).filter (fun l => decide (firstId F l = k)) =
    orig.filter (fun l => decide (firstId F l = k))

/-- Every active range is narrower than `w`. -/
def Narrow (w : Nat) (bs : List Block) : Prop :=
  ∀ b ∈ bs, ∀ lo hi, b.act = some (lo, hi) → hi - lo < w

theorem mem_leftOf {F : Fmt K} {p : Nat} {ls : List Str} {l : Str} :
    l ∈ leftOf F p ls ↔ l ∈ ls ∧ isContent l = true ∧ 2 * firstId F l < p := by
  unfold leftOf; rw [List.mem_filter, List.mem_filter, decide_eq_true_eq, and_assoc]

theorem mem_rightOf {F : Fmt K} {p : Nat} {ls : List Str} {l : Str} :
    l ∈ rightOf F p ls ↔ l ∈ ls ∧ isContent l = true ∧ p ≤ 2 * firstId F l := by
  unfold rightOf; rw [List.mem_filter, List.mem_filter, decide_eq_true_eq, and_assoc]

/-- Facts about a block built from the keys of its body, which all lie in `[lo, hi]`. -/
theorem mkBlock_spec (F : Fmt K) {hdr body : List Str} {lo hi : Nat} (hlt : lo < hi)
    (hr : ∀ l ∈ body, lo ≤ firstId F l ∧ firstId F l ≤ hi) :
    (∀ a b, (mkBlock hdr body (minKey (firstId F) hi body) (maxKey (firstId F) lo body)).act =
        some (a, b) → a < b ∧ (∀ l ∈ body, a ≤ firstId F l ∧ firstId F l ≤ b) ∧
        (∃ l ∈ body, a = firstId F l) ∧ (∃ l ∈ body, b = firstId F l)) ∧
    ((mkBlock hdr body (minKey (firstId F) hi body) (maxKey (firstId F) lo body)).act = none →
      body.Pairwise (fun x y => firstId F x ≤ firstId F y)) := by
  obtain ⟨n1, n2, n3⟩ := minKey_spec (firstId F) body hi
  obtain ⟨m1, m2, m3⟩ := maxKey_spec (firstId F) body lo
  have hmem : ∀ l ∈ body, (∃ l ∈ body, minKey (firstId F) hi body = firstId F l) ∧
      (∃ l ∈ body, maxKey (firstId F) lo body = firstId F l) := by
    intro l hl
    constructor
    · rcases n3 with h | h
      · exact ⟨l, hl, by have := n2 l hl; have := hr l hl; omega⟩
      · exact h
    · rcases m3 with h | h
      · exact ⟨l, hl, by have := m2 l hl; have := hr l hl; omega⟩
      · exact h
  constructor
  · intro a b h
    unfold mkBlock at h
    simp only at h
    split_ifs at h with hc
    simp only [Option.some.injEq, Prod.mk.injEq] at h
    obtain ⟨rfl, rfl⟩ := h
    have hne : ∃ l, l ∈ body := by
      by_contra hcon
      have : body = [] := List.eq_nil_iff_forall_not_mem.2 (fun l hl => hcon ⟨l, hl⟩)
      subst this
      simp [minKey, maxKey] at hc
      omega
    obtain ⟨l, hl⟩ := hne
    exact ⟨hc.2, fun x hx => ⟨n2 x hx, m2 x hx⟩, (hmem l hl).1, (hmem l hl).2⟩
  · intro h
    unfold mkBlock at h
    simp only at h
    split_ifs at h with hc
    by_cases hlen : body.length ≤ 1
    · match body, hlen with
      | [], _ => exact List.Pairwise.nil
      | [x], _ => exact List.pairwise_singleton _ _
    · have hle : maxKey (firstId F) lo body ≤ minKey (firstId F) hi body := by
        by_contra hcon
        exact hc ⟨by rw [List.length_append]; omega, by omega⟩
      rw [List.pairwise_iff_forall_sublist]
      intro x y hxy
      have hx : x ∈ body := hxy.subset (by simp)
      have hy : y ∈ body := hxy.subset (by simp)
      have := m2 x hx
      have := n2 y hy
      omega

theorem filter_leftRight (F : Fmt K) (p k : Nat) {body : List Str}
    (hb : ∀ l ∈ body, isContent l = true) :
    (leftOf F p body ++ rightOf F p body).filter (fun l => decide (firstId F l = k)) =
      body.filter (fun l => decide (firstId F l = k)) := by
  rw [List.filter_append]
  unfold leftOf rightOf
  rw [List.filter_eq_self.2 hb, List.filter_filter, List.filter_filter]
  by_cases hk : 2 * k < p
  · have h1 : body.filter (fun l => decide (firstId F l = k) && decide (2 * firstId F l < p)) =
        body.filter (fun l => decide (firstId F l = k)) := by
      apply List.filter_congr
      intro l _
      by_cases h : firstId F l = k
      · simp [h, hk]
      · simp [h]
    have h2 : body.filter (fun l => decide (firstId F l = k) && decide (p ≤ 2 * firstId F l)) = [] := by
      rw [List.filter_eq_nil_iff]
      intro l _
      simp only [Bool.and_eq_true, decide_eq_true_eq, not_and]
      intro h; omega
    rw [h1, h2, List.append_nil]
  · have h1 : body.filter (fun l => decide (firstId F l = k) && decide (2 * firstId F l < p)) = [] := by
      rw [List.filter_eq_nil_iff]
      intro l _
      simp only [Bool.and_eq_true, decide_eq_true_eq, not_and]
      intro h; omega
    have h2 : body.filter (fun l => decide (firstId F l = k) && decide (p ≤ 2 * firstId F l)) =
        body.filter (fun l => decide (firstId F l = k)) := by
      apply List.filter_congr
      intro l _
      by_cases h : firstId F l = k
      · simp only [h, decide_true, Bool.true_and, decide_eq_true_eq]; omega
      · simp [h]
    rw [h1, h2, List.nil_append]

theorem splitBlock_body_mem {F : Fmt K} {b c : Block} (hc : c ∈ splitBlock F b) :
    ∀ l ∈ c.body, l ∈ b.body := by
  unfold splitBlock at hc
  cases hact : b.act with
  | none =>
    rw [hact] at hc
    simp only [List.mem_singleton] at hc
    subst hc; exact fun l hl => hl
  | some r =>
    rw [hact] at hc
    simp only [List.mem_cons, List.not_mem_nil, or_false] at hc
    rcases hc with rfl | rfl
    · intro l hl; exact (mem_leftOf.1 hl).1
    · intro l hl; exact (mem_rightOf.1 hl).1

theorem splitBlock_hdr (F : Fmt K) (b : Block) : (splitBlock F b).flatMap Block.hdr = b.hdr := by
  unfold splitBlock
  cases b.act with
  | none => simp
  | some r => simp [mkBlock]

theorem flatMap_flatMap_hdr (F : Fmt K) (bs : List Block) :
    (bs.flatMap (splitBlock F)).flatMap Block.hdr = bs.flatMap Block.hdr := by
  induction bs with
  | nil => rfl
  | cons b bs ih =>
    rw [List.flatMap_cons, List.flatMap_append, splitBlock_hdr, ih, List.flatMap_cons]

theorem splitBlock_hdr_nil {F : Fmt K} {b c : Block} (hb : b.hdr = []) (hc : c ∈ splitBlock F b) :
    c.hdr = [] := by
  have := splitBlock_hdr F b
  rw [hb, List.flatMap_eq_nil_iff] at this
  exact this c hc

/-- One pass preserves the invariant and narrows the active ranges. -/
theorem Sorting.step {F : Fmt K} {hdr orig : List Str} {bs : List Block}
    (h : Sorting F hdr orig bs) : Sorting F hdr orig (bs.flatMap (splitBlock F)) := by
  refine ⟨?_, ?_, ?_, ?_, ?_, ?_, ?_⟩
  · intro c hc
    rw [List.mem_flatMap] at hc
    obtain ⟨b, hb, hc⟩ := hc
    have hok := h.ok b hb
    refine ⟨?_, fun l hl => hok.body l (splitBlock_body_mem hc l hl),
      fun l hl => hok.parse l (splitBlock_body_mem hc l hl)⟩
    intro l hl
    apply hok.hdr
    rw [← splitBlock_hdr F b]
    exact List.mem_flatMap.2 ⟨c, hc, hl⟩
  · cases bs with
    | nil => trivial
    | cons b bs =>
      have htail : ∀ c ∈ bs.flatMap (splitBlock F), c.hdr = [] := by
        intro c hc
        rw [List.mem_flatMap] at hc
        obtain ⟨d, hd, hc⟩ := hc
        exact splitBlock_hdr_nil (h.hdrOK.2 d hd) hc
      rw [List.flatMap_cons]
      unfold splitBlock
      cases b.act with
      | none => exact ⟨Or.inr rfl, htail⟩
      | some r =>
        refine ⟨Or.inr rfl, ?_⟩
        intro c hc
        rcases List.mem_cons.1 hc with rfl | hc
        · rfl
        · exact htail c hc
  · rw [flatMap_flatMap_hdr, h.header]
  · intro c hc lo hi hact
    rw [List.mem_flatMap] at hc
    obtain ⟨b, hb, hc⟩ := hc
    unfold splitBlock at hc
    cases hb2 : b.act with
    | none =>
      rw [hb2] at hc
      simp only [List.mem_singleton] at hc
      subst hc
      rw [hb2] at hact; cases hact
    | some r =>
      rw [hb2] at hc
      obtain ⟨hlt, hr⟩ := h.range b hb _ _ hb2
      simp only [List.mem_cons, List.not_mem_nil, or_false] at hc
      rcases hc with rfl | rfl
      · have := (mkBlock_spec F (hdr := b.hdr) hlt
          (fun l hl => hr l (mem_leftOf.1 hl).1)).1 _ _ hact
        exact ⟨this.1, this.2.1⟩
      · have := (mkBlock_spec F (hdr := []) hlt
          (fun l hl => hr l (mem_rightOf.1 hl).1)).1 _ _ hact
        exact ⟨this.1, this.2.1⟩
  · intro c hc hact
    rw [List.mem_flatMap] at hc
    obtain ⟨b, hb, hc⟩ := hc
    unfold splitBlock at hc
    cases hb2 : b.act with
    | none =>
      rw [hb2] at hc
      simp only [List.mem_singleton] at hc
      subst hc
      exact h.frozen _ hb hb2
    | some r =>
      rw [hb2] at hc
      obtain ⟨hlt, hr⟩ := h.range b hb _ _ hb2
      simp only [List.mem_cons, List.not_mem_nil, or_false] at hc
      rcases hc with rfl | rfl
      · exact (mkBlock_spec F (hdr := b.hdr) hlt
          (fun l hl => hr l (mem_leftOf.1 hl).1)).2 hact
      · exact (mkBlock_spec F (hdr := []) hlt
          (fun l hl => hr l (mem_rightOf.1 hl).1)).2 hact
  · rw [List.pairwise_flatMap]
    constructor
    · intro b _
      unfold splitBlock
      cases b.act with
      | none => exact List.pairwise_singleton _ _
      | some r =>
        rw [List.pairwise_cons]
        refine ⟨?_, List.pairwise_singleton _ _⟩
        intro c hc x hx y hy
        rw [List.mem_singleton] at hc
        subst hc
        have h1 := (mem_leftOf.1 hx).2.2
        have h2 := (mem_rightOf.1 hy).2.2
        omega
    · refine h.cross.imp ?_
      intro b c hbc b' hb' c' hc' x hx y hy
      exact hbc x (splitBlock_body_mem hb' x hx) y (splitBlock_body_mem hc' y hy)
  · intro k
    rw [← h.keep k]
    have hok := h.ok
    clear h
    induction bs with
    | nil => rfl
    | cons b bs ih =>
      rw [List.flatMap_cons, List.flatMap_append, List.filter_append, List.flatMap_cons,
        List.filter_append, ih (fun c hc => hok c (by simp [hc]))]
      congr 1
      unfold splitBlock
      cases b.act with
      | none => simp
      | some r =>
        simp only [List.flatMap_cons, List.flatMap_nil, List.append_nil, mkBlock]
        exact filter_leftRight F _ k (hok b (by simp)).body

theorem Narrow.step {F : Fmt K} {hdr orig : List Str} {bs : List Block}
    (h : Sorting F hdr orig bs) {w : Nat} (hw : Narrow (w + 1) bs) :
    Narrow w (bs.flatMap (splitBlock F)) := by
  intro c hc lo hi hact
  rw [List.mem_flatMap] at hc
  obtain ⟨b, hb, hc⟩ := hc
  unfold splitBlock at hc
  cases hb2 : b.act with
  | none =>
    rw [hb2] at hc
    simp only [List.mem_singleton] at hc
    subst hc
    rw [hb2] at hact; cases hact
  | some r =>
    rw [hb2] at hc
    obtain ⟨hlt, hr⟩ := h.range b hb _ _ hb2
    have hwb := hw b hb _ _ hb2
    simp only [List.mem_cons, List.not_mem_nil, or_false] at hc
    rcases hc with rfl | rfl
    · have := (mkBlock_spec F (hdr := b.hdr) hlt
        (fun l hl => hr l (mem_leftOf.1 hl).1)).1 _ _ hact
      obtain ⟨_, _, ⟨x, hx, rfl⟩, ⟨y, hy, rfl⟩⟩ := this
      have h1 := hr x (mem_leftOf.1 hx).1
      have h2 := (mem_leftOf.1 hy).2.2
      omega
    · have := (mkBlock_spec F (hdr := []) hlt
        (fun l hl => hr l (mem_rightOf.1 hl).1)).1 _ _ hact
      obtain ⟨_, _, ⟨x, hx, rfl⟩, ⟨y, hy, rfl⟩⟩ := this
      have h1 := hr y (mem_rightOf.1 hy).1
      have h2 := (mem_rightOf.1 hx).2.2
      omega

theorem ivsOf_nil_iff (bs : List Block) : ∀ p, ivsOf p bs = [] ↔ ∀ b ∈ bs, b.act = none := by
  induction bs with
  | nil => intro p; simp [ivsOf]
  | cons b bs ih =>
    intro p
    unfold ivsOf
    cases hb : b.act with
    | none => simp [ih, hb]
    | some r => simp [hb]

theorem blockLines_split {bs : List Block} (h : HdrOK false bs) :
    blockLines bs = bs.flatMap Block.hdr ++ bs.flatMap Block.body := by
  cases bs with
  | nil => rfl
  | cons b bs =>
    have hnil : ∀ cs : List Block, (∀ c ∈ cs, c.hdr = []) →
        cs.flatMap Block.hdr = [] ∧ blockLines cs = cs.flatMap Block.body := by
      intro cs
      induction cs with
      | nil => intro _; exact ⟨rfl, rfl⟩
      | cons c cs ih =>
        intro hcs
        obtain ⟨h1, h2⟩ := ih (fun d hd => hcs d (by simp [hd]))
        have hc := hcs c (by simp)
        refine ⟨by rw [List.flatMap_cons, h1, hc]; rfl, ?_⟩
        unfold blockLines at h2 ⊢
        rw [List.flatMap_cons, h2, List.flatMap_cons, Block.lines, hc]; rfl
    obtain ⟨h1, h2⟩ := hnil bs h.2
    unfold blockLines at h2 ⊢
    rw [List.flatMap_cons, h2, List.flatMap_cons, h1, List.flatMap_cons, Block.lines]
    simp

/-- The loop from a state of the invariant. -/
theorem sortLoop_spec (F : Fmt K) {hdr orig : List Str} (total : Nat)
    (hline : ∀ l ∈ hdr ++ orig, IsLine l) :
    ∀ (fuel : Nat) (bs : List Block) (pad : Nat), Sorting F hdr orig bs → Narrow fuel bs →
      (bs.flatMap Block.body).Perm orig → (blockLines bs).length + pad ≤ total →
      ∃ (sorted : List Str) (pad' : Nat),
        sortLoop F total fuel (unlines (blockLines bs ++ List.replicate pad [])) (ivsOf 0 bs) =
          some (.ok (unlines (hdr ++ sorted ++ List.replicate pad' []))) ∧
        sorted.Perm orig ∧ sorted.Pairwise (fun x y => firstId F x ≤ firstId F y) ∧
        ∀ k, sorted.filter (fun l => decide (firstId F l = k)) =
          orig.filter (fun l => decide (firstId F l = k)) := by
  intro fuel
  induction fuel with
  | zero =>
    intro bs pad hs hn hperm _
    have hnone : ∀ b ∈ bs, b.act = none := by
      intro b hb
      cases hact : b.act with
      | none => rfl
      | some r =>
        have := hn b hb _ _ hact
        omega
    have hiv := (ivsOf_nil_iff bs 0).2 hnone
    refine ⟨bs.flatMap Block.body, pad, ?_, hperm, ?_, hs.keep⟩
    · rw [hiv, sortLoop, blockLines_split hs.hdrOK, hs.header]
    · rw [List.pairwise_flatMap]
      exact ⟨fun b hb => hs.frozen b hb (hnone b hb), hs.cross⟩
  | succ fuel ih =>
    intro bs pad hs hn hperm htot
    by_cases hnone : ∀ b ∈ bs, b.act = none
    · have hiv := (ivsOf_nil_iff bs 0).2 hnone
      refine ⟨bs.flatMap Block.body, pad, ?_, hperm, ?_, hs.keep⟩
      · rw [hiv, sortLoop, blockLines_split hs.hdrOK, hs.header]
      · rw [List.pairwise_flatMap]
        exact ⟨fun b hb => hs.frozen b hb (hnone b hb), hs.cross⟩
    · have hiv : ivsOf 0 bs ≠ [] := fun h => hnone ((ivsOf_nil_iff bs 0).1 h)
      have hlb : ∀ l ∈ blockLines bs ++ List.replicate pad [], IsLine l := by
        intro l hl
        rcases List.mem_append.1 hl with hl | hl
        · rw [blockLines_split hs.hdrOK, hs.header] at hl
          apply hline
          rcases List.mem_append.1 hl with hl | hl
          · exact List.mem_append_left _ hl
          · exact List.mem_append_right _ (hperm.subset hl)
        · rw [(List.mem_replicate.1 hl).2]; exact ⟨by simp, by simp⟩
      have hfl := fileLines_unlines hlb
      have hlen : (blockLines bs ++ List.replicate pad ([] : Str)).length ≤ total := by
        rw [List.length_append, List.length_replicate]; exact htot
      obtain ⟨s', h1, h2, h3⟩ := passIntervals_spec F
        (fileLines (unlines (blockLines bs ++ List.replicate pad [])))
        (blockLines bs ++ List.replicate pad []) (by intro a b; rw [hfl, lineRange_extra])
        (List.replicate pad []) total hlen bs ⟨0, [], false, []⟩ [] [] (by simp) rfl hs.ok hs.hdrOK
      have hlen2 : (blockLines (bs.flatMap (splitBlock F))).length = (blockLines bs).length := by
        rw [blockLines_split hs.step.hdrOK, blockLines_split hs.hdrOK, hs.header, hs.step.header]
        rw [List.length_append, List.length_append]
        congr 1
        have p : ((bs.flatMap (splitBlock F)).flatMap Block.body).Perm (bs.flatMap Block.body) := by
          rw [List.perm_iff_count]
          intro l
          have e1 : ∀ ls : List Str, ls.count l =
              (ls.filter (fun x => decide (firstId F x = firstId F l))).count l := by
            intro ls
            rw [List.count_filter (by simp)]
          rw [e1, e1 (bs.flatMap Block.body), hs.step.keep, hs.keep]
        exact p.length_eq
      have hperm2 : ((bs.flatMap (splitBlock F)).flatMap Block.body).Perm orig := by
        rw [List.perm_iff_count]
        intro l
        have e1 : ∀ ls : List Str, ls.count l =
            (ls.filter (fun x => decide (firstId F x = firstId F l))).count l := by
          intro ls
          rw [List.count_filter (by simp)]
        rw [e1, e1 orig, hs.step.keep]
      simp only [List.length_nil, Nat.add_zero, List.append_nil, List.nil_append] at h1 h2 h3
      obtain ⟨sorted, pad', h4, h5⟩ := ih (bs.flatMap (splitBlock F))
        (pad + (total - (blockLines bs ++ List.replicate pad ([] : Str)).length))
        hs.step (Narrow.step hs hn) hperm2 (by
          rw [hlen2]; rw [List.length_append, List.length_replicate] at hlen ⊢; omega)
      refine ⟨sorted, pad', ?_, h5⟩
      cases hcase : ivsOf 0 bs with
      | nil => exact absurd hcase hiv
      | cons iv ivs =>
        rw [sortLoop, ← hcase]
        unfold sortPass
        rw [h1, Outcome.bind_ok, h2, h3]
        simp only
        rw [List.append_assoc, ← List.replicate_add, h4]

theorem le_maxVertex_first {F : Fmt K} {ls : List Str} {es : List (Edge K)}
    (h : Outcome.mapM' (parseEdgelistLine F) ls = .ok es) :
    ∀ l ∈ ls, firstId F l < maxVertex es ∧ ∃ e, parseEdgelistLine F l = .ok e := by
  rw [Outcome.mapM'_eq_ok] at h
  have hb := (maxVertex_spec es).1
  intro l hl
  have : ∀ (ls : List Str) (es' : List (Edge K)),
      List.Forall₂ (fun a b => parseEdgelistLine F a = .ok b) ls es' → l ∈ ls →
      ∃ e ∈ es', parseEdgelistLine F l = .ok e := by
    intro ls es' hf hl
    induction hf with
    | nil => simp at hl
    | cons ha _ ih =>
      rcases List.mem_cons.1 hl with rfl | hl
      · exact ⟨_, by simp, ha⟩
      · obtain ⟨e, he, h⟩ := ih hl
        exact ⟨e, by simp [he], h⟩
  obtain ⟨e, he, hp⟩ := this _ _ h hl
  refine ⟨?_, e, hp⟩
  unfold firstId
  rw [hp]
  exact (hb e he).1

/-- **C25**.  For every edgelist file whose content lines all parse, `sort_edgelist` terminates
and leaves a file consisting of the leading comment block, then the same multiset of content
lines ordered by first endpoint, lines with the same first endpoint in their original order,
then possibly blank lines.  (Comments after the first content line are dropped.)  The number of
passes is at most the largest id plus 2. -/
theorem C25_sorts (F : Fmt K) (file : Str) (es : List (Edge K))
    (h : Outcome.mapM' (parseEdgelistLine F) (contentLines file) = .ok es) (fuel : Nat)
    (hfuel : maxVertex es + 1 ≤ fuel) :
    ∃ (sorted : List Str) (blanks : Nat),
      sortEdgelist F fuel file = some (.ok
        (unlines (leadingComments (fileLines file).dropLast ++ sorted ++ List.replicate blanks []))) ∧
      sorted.Perm (contentLines file) ∧
      sorted.Pairwise (fun x y => firstId F x ≤ firstId F y) ∧
      ∀ k, sorted.filter (fun l => decide (firstId F l = k)) =
        (contentLines file).filter (fun l => decide (firstId F l = k)) := by
  obtain ⟨ls, hls⟩ := fileLines_getLast file
  have hdl : (fileLines file).dropLast = ls := by rw [hls, List.dropLast_concat]
  have hcl : contentLines file = ls.filter isContent := by
    unfold contentLines; rw [hls, List.filter_append]; simp [isContent_nil]
  have htotal : (fileLines file).length - 1 = ls.length := by rw [hls]; simp
  have hline : ∀ l ∈ ls, IsLine l := fun l hl =>
    fileLines_isLine file l (by rw [hls]; exact List.mem_append_left _ hl)
  have hkey := le_maxVertex_first h
  rw [hdl]
  obtain ⟨fuel, rfl⟩ : ∃ f, fuel = f + 1 := ⟨fuel - 1, by omega⟩
  have hparse : AllParse F ls := by
    intro l hl hc
    exact (hkey l (by rw [hcl]; exact List.mem_filter.2 ⟨hl, hc⟩)).2
  -- the first pass
  have hpi := passInterval_spec F (lines := fileLines file) (ls := ls) (pre := []) (pend := [])
    (seg := ls) (post := []) ⟨0, [], false, []⟩ 0 (maxVertex es)
    (by intro a b; rw [hls, lineRange_extra]) (by simp) rfl hparse
  simp only [List.length_nil, Nat.zero_add, Bool.false_eq_true, if_false, List.nil_append,
    Bool.false_or] at hpi
  have hleft : leftOf F (maxVertex es) ls = leftOf F (0 + maxVertex es) (contentLines file) := by
    unfold leftOf; rw [hcl, List.filter_filter]; simp
  have hright : rightOf F (maxVertex es) ls = rightOf F (0 + maxVertex es) (contentLines file) := by
    unfold rightOf; rw [hcl, List.filter_filter]; simp
  have hcont : ∀ l ∈ contentLines file, isContent l = true := by
    intro l hl; rw [hcl] at hl; exact (List.mem_filter.1 hl).2
  have hlead : ∀ l ∈ leadingComments ls, isContent l = false := by
    intro l hl
    have := List.mem_takeWhile_imp hl
    simpa using this
  have hleadline : ∀ l ∈ leadingComments ls ++ contentLines file, IsLine l := by
    intro l hl
    rcases List.mem_append.1 hl with hl | hl
    · exact hline l (List.takeWhile_subset _ hl)
    · rw [hcl] at hl; exact hline l (List.mem_filter.1 hl).1
  -- the state before the first pass, as one active block
  have hlen : (leadingComments ls).length + (contentLines file).length ≤ ls.length := by
    rw [hcl]
    have h1 : (leadingComments ls).length ≤ (ls.filter (fun l => !isContent l)).length := by
      have hsub : (leadingComments ls).Sublist (ls.filter (fun l => !isContent l)) := by
        have := (List.takeWhile_sublist (fun l => !isContent l) (l := ls)).filter
          (fun l => !isContent l)
        rwa [List.filter_eq_self.2 (fun l hl => by simp [hlead l hl])] at this
      exact hsub.length_le
    have h2 : ls.length = (ls.filter isContent).length + (ls.filter (fun l => !isContent l)).length :=
      List.length_eq_length_filter_add (l := ls) isContent
    clear hpi hls htotal
    omega
  have hpass : sortPass F ls.length file [⟨0, ls.length, 0, maxVertex es⟩] =
      .ok (unlines (blockLines (splitBlock F ⟨leadingComments ls, contentLines file,
          some (0, maxVertex es)⟩) ++ List.replicate 0 []),
        ivsOf 0 (splitBlock F ⟨leadingComments ls, contentLines file, some (0, maxVertex es)⟩)) := by
    unfold sortPass
    rw [passIntervals, hpi, Outcome.bind_ok, passIntervals, Outcome.bind_ok, lineRange_self]
    rw [hleft, hright, splitBlock]
    simp only
    rw [← List.append_nil (newIv _ _ _ _ ++ newIv _ _ _ _)]
    congr 2
    · simp [blockLines, Block.lines, mkBlock]
    · rw [← newIv_mkBlock, ← newIv_mkBlock]
      simp [ivsOf]
  have hstep : sortEdgelist F (fuel + 1) file =
      sortLoop F ls.length fuel (unlines (blockLines (splitBlock F ⟨leadingComments ls,
          contentLines file, some (0, maxVertex es)⟩) ++ List.replicate 0 []))
        (ivsOf 0 (splitBlock F ⟨leadingComments ls, contentLines file, some (0, maxVertex es)⟩)) := by
    unfold sortEdgelist
    rw [(mapM_parse_rt F).2 h, htotal]
    simp only
    rw [sortLoop, hpass]
  rw [hstep]
  by_cases hz : maxVertex es = 0
  · -- no content line
    have hnil : contentLines file = [] := by
      apply List.eq_nil_iff_forall_not_mem.2
      intro l hl
      have := (hkey l hl).1
      omega
    refine ⟨[], 0, ?_, by rw [hnil], List.Pairwise.nil, by intro k; rw [hnil]⟩
    have hiv : ivsOf 0 (splitBlock F ⟨leadingComments ls, contentLines file,
        some (0, maxVertex es)⟩) = [] := by
      rw [ivsOf_nil_iff, hnil, hz]
      intro b hb
      simp only [splitBlock, leftOf, rightOf, List.filter_nil, List.mem_cons, List.not_mem_nil,
        or_false] at hb
      rcases hb with rfl | rfl <;> simp [mkBlock, minKey, maxKey]
    rw [hiv, hnil]
    have : ∀ t, sortLoop F ls.length fuel t [] = some (.ok t) := by
      intro t; cases fuel <;> rfl
    rw [this]
    simp [blockLines, splitBlock, Block.lines, mkBlock, leftOf, rightOf]
  · have hs0 : Sorting F (leadingComments ls) (contentLines file)
        [⟨leadingComments ls, contentLines file, some (0, maxVertex es)⟩] := by
      refine ⟨?_, ⟨Or.inr rfl, by simp⟩, by simp, ?_, ?_, List.pairwise_singleton _ _, by simp⟩
      · intro b hb
        rw [List.mem_singleton] at hb
        subst hb
        exact ⟨hlead, hcont, fun l hl _ => (hkey l hl).2⟩
      · intro b hb lo hi hact
        rw [List.mem_singleton] at hb
        subst hb
        simp only [Option.some.injEq, Prod.mk.injEq] at hact
        obtain ⟨rfl, rfl⟩ := hact
        exact ⟨by omega, fun l hl => ⟨by omega, le_of_lt (hkey l hl).1⟩⟩
      · intro b hb hact
        rw [List.mem_singleton] at hb
        subst hb; cases hact
    have hn0 : Narrow (fuel + 1)
        [⟨leadingComments ls, contentLines file, some (0, maxVertex es)⟩] := by
      intro b hb lo hi hact
      rw [List.mem_singleton] at hb
      subst hb
      simp only [Option.some.injEq, Prod.mk.injEq] at hact
      omega
    have hs1 := hs0.step
    have hn1 := Narrow.step hs0 hn0
    rw [List.flatMap_cons, List.flatMap_nil, List.append_nil] at hs1 hn1
    have hperm : ((splitBlock F ⟨leadingComments ls, contentLines file,
        some (0, maxVertex es)⟩).flatMap Block.body).Perm (contentLines file) := by
      rw [List.perm_iff_count]
      intro l
      have e1 : ∀ ls : List Str, ls.count l =
          (ls.filter (fun x => decide (firstId F x = firstId F l))).count l := by
        intro ls
        rw [List.count_filter (by simp)]
      rw [e1, e1 (contentLines file), hs1.keep]
    apply sortLoop_spec F ls.length hleadline fuel _ 0 hs1 hn1 hperm
    rw [blockLines_split hs1.hdrOK, hs1.header, List.length_append, hperm.length_eq]
    omega

/-- **C25** (bad lines).  If some content line does not parse the file is left alone and the
error is raised before anything is written. -/
theorem C25_malformed (F : Fmt K) (file : Str) (fuel : Nat) (pre post : List Str) (line : Str)
    (e : Exn) (hf : contentLines file = pre ++ line :: post)
    (hpre : ∀ l ∈ pre, ∃ x, parseEdgelistLine F l = .ok x)
    (he : parseEdgelistLine F line = .throw e) :
    sortEdgelist F fuel file =
      some (.throw (if e = .invalidArgument then .runtimeError else e)) := by
  unfold sortEdgelist
  rw [hf, Outcome.mapM'_first_throw (e := if e = .invalidArgument then .runtimeError else e)]
  · intro l hl
    obtain ⟨x, hx⟩ := hpre l hl
    exact ⟨x, by unfold parseEdgeRT; rw [hx]; rfl⟩
  · unfold parseEdgeRT
    rw [he]
    simp only [Outcome.rethrow]
    split_ifs <;> rfl

end

/-- **C25** (debug builds).  On the one-line file `3 4` the first scan finds no line to the left
of the pivot, so the assertion `new_interval_max_id >= new_interval_min_id`
(`stag_lib/graphio.cpp:355`) of a debug build fails. -/
theorem C25_debug_assertion_fails :
    ∃ s, scanLeft natFmt (0 + 5) ["3 4".toList] ⟨[], 5, 0, false⟩ = .ok s ∧ s.mx < s.mn := by
  refine ⟨⟨[], 5, 0, true⟩, ?_, by decide⟩
  rw [scanLeft_spec]
  · have : leftOf natFmt (0 + 5) ["3 4".toList] = [] := by decide +kernel
    rw [this]
    simp only [minKey, maxKey, List.foldl_nil, List.append_nil, Bool.false_or]
    have h1 : leadingComments ["3 4".toList] = [] := by decide
    have h2 : ["3 4".toList].any isContent = true := by decide
    rw [h1, h2]; rfl
  · intro l hl _
    rw [List.mem_singleton] at hl
    subst hl
    exact ⟨⟨3, 4, 1⟩, by decide +kernel⟩

/-- Non-vacuity: a small file with a header, an interior comment and repeated first
endpoints is sorted. -/
example : ∃ sorted blanks, sortEdgelist natFmt 8 "# h\n3 1\n0 2\n# c\n3 0\n1 1".toList =
      some (.ok (unlines (["# h".toList] ++ sorted ++ List.replicate blanks []))) ∧
    sorted.Perm ["3 1".toList, "0 2".toList, "3 0".toList, "1 1".toList] := by
  have hfl : fileLines "# h\n3 1\n0 2\n# c\n3 0\n1 1".toList =
      ["# h".toList, "3 1".toList, "0 2".toList, "# c".toList, "3 0".toList, "1 1".toList, []] := by
    rw [show "# h\n3 1\n0 2\n# c\n3 0\n1 1".toList = "# h".toList ++ '\n' :: ("3 1".toList ++ '\n' ::
      ("0 2".toList ++ '\n' :: ("# c".toList ++ '\n' :: ("3 0".toList ++ '\n' :: "1 1".toList))))
      from by decide]
    rw [fileLines_lf ⟨by decide, by decide⟩, fileLines_lf ⟨by decide, by decide⟩,
      fileLines_lf ⟨by decide, by decide⟩, fileLines_lf ⟨by decide, by decide⟩,
      fileLines_lf ⟨by decide, by decide⟩, fileLines_last ⟨by decide, by decide⟩ (by decide)]
  have hcl : contentLines "# h\n3 1\n0 2\n# c\n3 0\n1 1".toList =
      ["3 1".toList, "0 2".toList, "3 0".toList, "1 1".toList] := by
    unfold contentLines; rw [hfl]; decide
  obtain ⟨sorted, blanks, h1, h2, _⟩ := C25_sorts natFmt "# h\n3 1\n0 2\n# c\n3 0\n1 1".toList
    [⟨3, 1, 1⟩, ⟨0, 2, 1⟩, ⟨3, 0, 1⟩, ⟨1, 1, 1⟩] (by rw [hcl]; decide +kernel) 8 (by decide +kernel)
  refine ⟨sorted, blanks, ?_, by rw [← hcl]; exact h2⟩
  rw [h1, hfl]
  rfl

end Stag
