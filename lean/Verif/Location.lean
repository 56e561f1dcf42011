import Verif.Until

/-
Model of input locations and line annotations.

Source: /repo/include/lexy/input_location.hpp, /repo/include/lexy/_detail/iterator.hpp

Positions are offsets into the input `s`.  Line and column numbers are unbounded (`unsigned` in the code).
`none` = violated precondition or assertion.
-/

namespace Verif

/-- The counting policies, input_location.hpp l.39-114; `cp e` for an input of encoding `e`, `byte w` with
    `LineWidth = w`. -/
inductive Counting
  | unit | cp (e : Enc) | byte (w : Nat)

namespace Counting

/-- `try_match_newline`, l.42-47, 60-65, 78-101.  `idx` is `_cur_index` (only used by `byte`).  Result: the units
    consumed and the new `_cur_index` if it matched. -/
def tryNewline (c : Counting) (eof : Option Nat) (idx : Nat) (s : List Nat) : Option (Option (Nat × Nat)) :=
  match c with
  | unit | cp _ => (newlineMatch eof s).map fun r => r.map fun n => (n, 0)
  | byte w =>
    if w ≤ idx then none
    else if idx = w - 1 then some (some (if peekEof eof s then 0 else 1, 0))
    else some none

/-- `match_column`, l.49-54, 68-74, 103-110; `dsl::code_point` matches if `parse_code_point` succeeds. -/
def column (c : Counting) (idx : Nat) (s : List Nat) : Nat × Nat :=
  match c with
  | unit => (1, 0)
  | cp e => (if (parseCp e s).error = .success then (parseCp e s).len else 1, 0)
  | byte _ => (1, idx + 1)

end Counting

/-- `input_location`, l.136-212. -/
structure Loc where
  lineBegin : Nat
  lineNr : Nat
  columnBegin : Nat
  columnNr : Nat
  deriving DecidableEq, Repr

/-- `input_location::operator<`, l.185-189. -/
def Loc.lt (a b : Loc) : Bool :=
  if a.lineNr ≠ b.lineNr then decide (a.lineNr < b.lineNr) else decide (a.columnNr < b.columnNr)

/-- `min_range_end`, _detail/iterator.hpp l.90-108. -/
def minRangeEnd (begin_ a b : Nat) : Option Nat :=
  if begin_ ≤ a ∧ begin_ ≤ b then some (if a ≤ b then a else b) else none

/-- The loop of `get_input_location`, l.229-274; `pos`/`s` is the reader. -/
def Counting.locLoop (c : Counting) (eof : Option Nat) (target : Nat) (pos : Nat) (s : List Nat)
    (lb ln cb cn idx : Nat) : Option Loc :=
  if pos = target then some ⟨lb, ln, cb, cn⟩
  else if peekEof eof s then none
  else match c.tryNewline eof idx s with
    | none => none
    | some (some (n, idx')) =>
      match minRangeEnd cb (pos + n) target with
      | none => none
      | some m =>
        if m ≠ pos + n then some ⟨lb, ln, cb, cn⟩
        else if _h : 0 < n ∧ n ≤ s.length then
          c.locLoop eof target (pos + n) (s.drop n) (pos + n) (ln + 1) (pos + n) 1 idx'
        else none
    | some none =>
      match minRangeEnd cb (pos + (c.column idx s).1) target with
      | none => none
      | some m =>
        if m ≠ pos + (c.column idx s).1 then some ⟨lb, ln, cb, cn⟩
        else if _h : 0 < (c.column idx s).1 ∧ (c.column idx s).1 ≤ s.length then
          c.locLoop eof target (pos + (c.column idx s).1) (s.drop (c.column idx s).1) lb ln
            (pos + (c.column idx s).1) (cn + 1) (c.column idx s).2
        else none
termination_by s.length
decreasing_by all_goals (simp; omega)

/-- `get_input_location(input, position, anchor)`, l.215-277; an anchor is the beginning of a line and its number. -/
def getLocation (c : Counting) (eof : Option Nat) (s : List Nat) (target : Nat) (anchor : Nat × Nat) : Option Loc :=
  c.locLoop eof target anchor.1 (s.drop anchor.1) anchor.1 anchor.2 anchor.1 1 0

/-- `input_location_anchor(input)`, l.21-23. -/
def startAnchor : Nat × Nat := (0, 1)

/-- `input_location::anchor`, l.149-152. -/
def Loc.anchor (l : Loc) : Nat × Nat := (l.lineBegin, l.lineNr)

/-- The loop of `get_input_line`, l.311-317: `line_end` and `newline_end`. -/
def Counting.lineLoop (c : Counting) (eof : Option Nat) (pos : Nat) (s : List Nat) (lineEnd idx : Nat) :
    Option (Nat × Nat) :=
  if peekEof eof s then some (lineEnd, pos)
  else match c.tryNewline eof idx s with
    | none => none
    | some (some (n, _)) => some (lineEnd, pos + n)
    | some none =>
      if _h : 0 < (c.column idx s).1 ∧ (c.column idx s).1 ≤ s.length then
        c.lineLoop eof (pos + (c.column idx s).1) (s.drop (c.column idx s).1) (pos + (c.column idx s).1)
          (c.column idx s).2
      else none
termination_by s.length
decreasing_by all_goals (simp; omega)

/-- `get_input_line`, l.304-326: the end of the line and the end of its newline. -/
def getLine (c : Counting) (eof : Option Nat) (s : List Nat) (lineBegin : Nat) : Option (Nat × Nat) :=
  c.lineLoop eof lineBegin (s.drop lineBegin) lineBegin 0

/-- `is_cp_continuation`, l.332-345; `none` stands for encodings without continuation units. -/
def isCpContinuation (e : Option Enc) (u : Nat) : Bool :=
  match e with
  | some .utf8 => u &&& 0xC0 == 0x80
  | some .utf16 => 0xDC00 ≤ u && u ≤ 0xDFFF
  | _ => false

/-- `find_cp_boundary`, l.328-350. -/
def findCpBoundary (e : Option Enc) (s : List Nat) (cur end_ : Nat) : Option Nat :=
  if cur = end_ then some cur
  else match s[cur]? with
    | none => none
    | some u =>
      if isCpContinuation e u then
        if _h : cur < s.length then findCpBoundary e s (cur + 1) end_ else none
      else some cur
termination_by s.length - cur

/-- `input_line_annotation`, l.355-371; lexemes are pairs of offsets. -/
structure Ann where
  before : Nat × Nat
  annotated : Nat × Nat
  after : Nat × Nat
  truncatedMultiline : Bool
  annotatedNewline : Bool
  roundedEnd : Bool
  deriving DecidableEq, Repr

/-- `_get_input_line_annotation`, l.373-418. -/
def annotateCore (e : Option Enc) (s : List Nat) (trunc : Bool) (lineBegin lineEnd newlineEnd begin_ end_ : Nat) :
    Option Ann :=
  match findCpBoundary e s end_ newlineEnd with
  | none => none
  | some end' =>
    let rounded := end' != end_
    match minRangeEnd lineBegin lineEnd end' with
    | none => none
    | some m =>
      if m = end' then
        some ⟨(lineBegin, begin_), (begin_, end'), (end', lineEnd), trunc, false, rounded⟩
      else
        some ⟨(lineBegin, begin_), (begin_, newlineEnd), (newlineEnd, newlineEnd), trunc, true, rounded⟩

/-- `get_input_line_annotation(input, begin_location, end)`, l.420-456. -/
def annotateEnd (c : Counting) (eof : Option Nat) (e : Option Enc) (s : List Nat) (loc : Loc) (end_ : Nat) :
    Option Ann :=
  match getLine c eof s loc.lineBegin with
  | none => none
  | some (lineEnd, newlineEnd) =>
    let begin_ := loc.columnBegin
    if begin_ = end_ then
      if end_ = lineEnd then annotateCore e s false loc.lineBegin lineEnd newlineEnd begin_ newlineEnd
      else if end_ ≠ newlineEnd then annotateCore e s false loc.lineBegin lineEnd newlineEnd begin_ (end_ + 1)
      else annotateCore e s false loc.lineBegin lineEnd newlineEnd begin_ end_
    else
      match minRangeEnd begin_ end_ newlineEnd with
      | none => none
      | some m =>
        if m ≠ end_ then annotateCore e s true loc.lineBegin lineEnd newlineEnd begin_ newlineEnd
        else annotateCore e s false loc.lineBegin lineEnd newlineEnd begin_ end_

/-- `get_input_line_annotation(input, location, size)`, l.458-479, with `next_clamped`
    (_detail/iterator.hpp l.57-78). -/
def annotateSize (c : Counting) (eof : Option Nat) (e : Option Enc) (s : List Nat) (loc : Loc) (size : Nat) :
    Option Ann :=
  match getLine c eof s loc.lineBegin with
  | none => none
  | some (lineEnd, newlineEnd) =>
    let rangeSize := if size = 0 then 1 else size
    let begin_ := loc.columnBegin
    let end_ := if newlineEnd - begin_ < rangeSize then newlineEnd else begin_ + rangeSize
    let trunc := decide (end_ - begin_ < size)
    annotateCore e s trunc loc.lineBegin lineEnd newlineEnd begin_ end_

end Verif
