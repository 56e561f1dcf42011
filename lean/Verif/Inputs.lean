import Verif.Buffer
import Verif.Location

/-
Model of the inputs that refer to memory of the user: `string_input`, `zstring_input`,
`range_input`, `lexeme_input`, `partial_input`, and the reader they return.

Source: /repo/include/lexy/input/base.hpp, string_input.hpp, range_input.hpp, lexeme_input.hpp;
        `error_context::input`, /repo/include/lexy/error.hpp

The memory of the user is one block of cells, as in `Buffer.lean`; an iterator is an offset into
it.  Pointers, and iterators of other categories, differ only in what `precedes` checks
(iterator.hpp l.81-88).  The value of a position is observed as the offset into the block, so that
the positions of two inputs over the same memory can be compared.

Simplified: characters are unsigned code units, so that converting a secondary character type is the
identity; the value type of a range is the character type of the encoding.
-/

namespace Verif.Inp

/-- What an input stores: `[begin, end)`.  `ra`: the iterators are random access iterators and the
    sentinel is one of them.  string_input.hpp l.76-78; range_input.hpp l.45-47; the lexeme of
    lexeme_input.hpp l.61. -/
structure Range where
  first : Nat
  last : Nat
  ra : Bool := true
  deriving DecidableEq

/-- `string_input(data, size)`, string_input.hpp l.29-31, and its reader, l.71-74. -/
def string (data size : Nat) : Range := ⟨data, data + size, true⟩

/-- `string_input(begin, end)`, string_input.hpp l.32-34: the size is `std::size_t(end - begin)`. -/
def stringOf (first last : Nat) : Range :=
  string first ((((last : Int) - first) % 2 ^ 64).toNat)

/-- `string_input()`, string_input.hpp l.27: the null pointer and no characters. -/
def stringDefault : Range := string 0 0

/-- The loop of `zstring_input`, string_input.hpp l.88-96; it moves at most to the end of the
    block. -/
def zend (mem : List (Option Nat)) (p : Nat) : Nat → Option Nat
  | 0 => none
  | n + 1 => (cell mem p).bind fun c => if c ≠ 0 then zend mem (p + 1) n else some p

/-- `zstring_input(str)`, string_input.hpp l.88-101. -/
def zstring (mem : List (Option Nat)) (str : Nat) : Option Range :=
  (zend mem str (mem.length + 1)).map (stringOf str)

/-- `range_input(begin, end)`, range_input.hpp l.26-43. -/
def range (ra : Bool) (first last : Nat) : Range := ⟨first, last, ra⟩

/-- `_rr`, base.hpp l.14-69: `_cur`, and the markers that were taken. -/
structure Rd where
  cur : Nat
  marks : List Nat := []
  deriving DecidableEq

/-- `_detail::precedes`, iterator.hpp l.81-88. -/
def precedes (ra : Bool) (first after : Nat) : Bool := !ra || decide (first ≤ after)

/-- The constructor of `_rr`, base.hpp l.31-34, called by `_range_reader`, base.hpp l.80-100. -/
def reader (r : Range) : Option Rd := if precedes r.ra r.first r.last then some {cur := r.first} else none

/-- The members of `_rr`, base.hpp l.36-65.  There are no word-wise reads. -/
def step (e : BEnc) (mem : List (Option Nat)) (r : Range) (s : Rd) : ROp → Option (Rd × RObs)
  | .peek =>
    if s.cur = r.last then some (s, .char e.sentinel)
    else (cell mem s.cur).map fun c => (s, .char (some c))
  | .bump =>
    if s.cur = r.last then none
    else if s.cur < mem.length then some ({s with cur := s.cur + 1}, .pos (s.cur + 1)) else none
  | .mark => some ({s with marks := s.marks ++ [s.cur]}, .pos s.cur)
  | .reset i => s.marks[i]?.bind fun p =>
    if precedes r.ra p r.last then some ({s with cur := p}, .pos p) else none
  | .peekSwar | .bumpSwar | .bumpSwarN _ => none

def run (e : BEnc) (mem : List (Option Nat)) (r : Range) (s : Rd) : List ROp → Option (List RObs)
  | [] => some []
  | op :: ops => (step e mem r s op).bind fun (s, o) => (run e mem r s ops).map (o :: ·)

/-- Reading an input from its beginning. -/
def read (e : BEnc) (mem : List (Option Nat)) (r : Range) (ops : List ROp) : Option (List RObs) :=
  (reader r).bind fun s => run e mem r s ops

/-- `partial_input(reader, end)`, base.hpp l.132-144: from the position of the reader to `end`. -/
def partialInput (r : Range) (s : Rd) (last : Nat) : Range := ⟨s.cur, last, r.ra⟩

/-- An input: one of the above, or `lexeme_input(parent, lexeme)`, lexeme_input.hpp l.12-62.  The
    iterators of the lexeme are those of the parent, l.15-22.  The parent may be a `lexeme_input`. -/
inductive Input
  | view (r : Range)
  | lexeme (parent : Input) (first last : Nat)
  deriving DecidableEq

namespace Input

/-- Whether the iterators are random access iterators. -/
def ra : Input → Bool
  | view r => r.ra
  | lexeme p _ _ => p.ra

/-- The range of the reader: lexeme_input.hpp l.54-57. -/
def range : Input → Range
  | view r => r
  | lexeme p b e => ⟨b, e, p.ra⟩

/-- Reading an input from its beginning. -/
def read (e : BEnc) (mem : List (Option Nat)) (i : Input) (ops : List ROp) : Option (List RObs) :=
  Inp.read e mem i.range ops

/-- `error_context::input()`, error.hpp l.242-248: `parent_input()` (lexeme_input.hpp l.40-46) if the
    input has that member. -/
def context : Input → Input
  | view r => view r
  | lexeme p _ _ => p

/-- The characters the reader yields. -/
def text (mem : List Nat) (i : Input) : List Nat := (mem.drop i.range.first).take (i.range.last - i.range.first)

/-- `get_input_location(input, pos)`, input_location.hpp l.215-283: it reads the input from its
    beginning (`Location.lean`; positions are relative there). -/
def location (c : Counting) (eof : Option Nat) (mem : List Nat) (i : Input) (pos : Nat) : Option Loc :=
  getLocation c eof (i.text mem) (pos - i.range.first) startAnchor

end Input

end Verif.Inp
