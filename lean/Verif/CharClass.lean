import Verif.CodePoint

/-
Model of the character class rules: `ascii_set`, its compressed form, the class algebra and the
token parser.

Source: /repo/include/lexy/dsl/char_class.hpp
-/

namespace Verif

/-- `lexy::_detail::ascii_set`, char_class.hpp l.14-71: `bool contains[128]`.
    Only indices below 128 exist in C++ and are looked at. -/
abbrev AsciiSet := Nat → Bool

namespace AsciiSet

/-- Default constructor, l.18. -/
def empty : AsciiSet := fun _ => false

/-- `visit`, l.20-26: the contained characters in increasing order. -/
def visit (s : AsciiSet) : List Nat := (List.range 128).filter s

/-- `insert(int)`, l.54-57. -/
def insert (s : AsciiSet) (c : Nat) : AsciiSet := fun i => if i = c then true else s i
/-- `insert(int lower, int upper)`, l.58-62. -/
def insertRange (s : AsciiSet) (lower upper : Nat) : AsciiSet :=
  (List.range' lower (upper + 1 - lower)).foldl insert s
/-- `insert(const ascii_set&)`, l.63-66. -/
def insertSet (s other : AsciiSet) : AsciiSet := other.visit.foldl insert s
/-- `remove(const ascii_set&)`, l.67-70. -/
def removeSet (s other : AsciiSet) : AsciiSet :=
  other.visit.foldl (fun s c => fun i => if i = c then false else s i) s

/-- State of `visit_range`, l.31-32: `range_begin` (-1 = none) and `last_char`, plus the calls of
    `fn` made so far. -/
structure RangeState where
  cur : Option (Nat × Nat)
  out : List (Nat × Nat)

/-- The lambda of `visit_range`, l.33-49. -/
def visitRangeStep (st : RangeState) (c : Nat) : RangeState :=
  match st.cur with
  | none => ⟨some (c, c), st.out⟩
  | some (b, l) =>
    if l + 1 = c then ⟨some (b, c), st.out⟩
    else ⟨some (c, c), st.out ++ [(b, l)]⟩

/-- `visit_range`, l.28-52: the arguments of the calls of `fn`, in order. -/
def visitRange (s : AsciiSet) : List (Nat × Nat) :=
  let st := s.visit.foldl visitRangeStep ⟨none, []⟩
  match st.cur with
  | none => st.out
  | some r => st.out ++ [r]

end AsciiSet

/-- `compressed_ascii_set`, char_class.hpp l.73-87. -/
structure CompressedSet where
  ranges : List (Nat × Nat)
  singles : List Nat

/-- `compress_ascii_set`, char_class.hpp l.90-131.  (The first pass only counts the elements, to give
    the arrays their sizes.) -/
def compressAsciiSet (s : AsciiSet) : CompressedSet :=
  s.visitRange.foldl
    (fun r p => if p.1 ≠ p.2 then ⟨r.ranges ++ [p], r.singles⟩ else ⟨r.ranges, r.singles ++ [p.1]⟩)
    ⟨[], []⟩

/-- `ascii_set_matcher::match`, char_class.hpp l.150-160. `cur = none` is EOF or any unit ≥ 128
    when the encoding's `int_type` is signed: no comparison holds then. -/
def CompressedSet.matches (t : CompressedSet) (cur : Nat) : Bool :=
  t.ranges.any (fun p => p.1 ≤ cur && cur ≤ p.2) || t.singles.any (fun c => cur == c)

/-- A character class rule.  `leaf` is a class given by its two functions, with `none` for the
    default `char_class_match_cp` returning `std::false_type` (char_class.hpp l.181-184).
    Simplification: the parameter packs of `_calt` and `_cand` are written as binary nodes. -/
inductive CC
  | leaf (ascii : AsciiSet) (cp : Option (Nat → Bool))
  | alt (a b : CC)
  | comp (c : CC)
  | minus (set minus : CC)
  | and (a b : CC)

namespace CC

/-- `char_class_ascii()`: `_calt` l.407-412, `_ccomp` l.464-470, `_cminus` l.513-518,
    `_cand` l.566-573. -/
def ascii : CC → AsciiSet
  | leaf s _ => s
  | alt a b => (AsciiSet.empty.insertSet a.ascii).insertSet b.ascii
  | comp c => (AsciiSet.empty.insertRange 0x00 0x7F).removeSet c.ascii
  | minus s m => s.ascii.removeSet m.ascii
  | and a b => (List.range' 0 0x80).foldl
      (fun s c => if a.ascii c && b.ascii c then s.insert c else s) AsciiSet.empty

/-- `char_class_match_cp`: `_calt` l.414-421, `_ccomp` l.472-482, `_cminus` l.520-532,
    `_cand` l.575-582.  `none` = returns `std::false_type`. -/
def matchCp : CC → Option (Nat → Bool)
  | leaf _ f => f
  | alt a b =>
    match a.matchCp, b.matchCp with
    | none, none => none
    | some f, none => some fun cp => f cp || false
    | none, some g => some fun cp => false || g cp
    | some f, some g => some fun cp => f cp || g cp
  | comp c => some fun cp =>
    if cp ≤ 0x7F then false
    else match c.matchCp with
      | none => true
      | some f => !f cp
  | minus s m =>
    match s.matchCp with
    | none => none
    | some f =>
      match m.matchCp with
      | none => some fun cp => decide (cp > 0x7F) && f cp
      | some g => some fun cp => decide (cp > 0x7F) && f cp && !g cp
  | and a b =>
    match a.matchCp, b.matchCp with
    | none, none => none
    | some f, none => some fun cp => f cp && false
    | none, some g => some fun cp => false && g cp
    | some f, some g => some fun cp => f cp && g cp

/-- `_ccp<Cp>`, char_class.hpp l.305-328. -/
def codePoint (v : Nat) : CC :=
  if v ≤ 0x7F then leaf (AsciiSet.empty.insert v) none
  else leaf AsciiSet.empty (some fun cp => cp == v)

/-- `_cb<Byte>`, char_class.hpp l.330-357. -/
def byte (v : Nat) : CC :=
  if v ≤ 0x7F then leaf (AsciiSet.empty.insert v) none
  else leaf AsciiSet.empty (some fun cp => cp == v)

/-- `matcher::template match<encoding>(reader.peek())`, char_class.hpp l.215-216. -/
def tableMatch (c : CC) (s : List Nat) : Bool :=
  match s with
  | [] => false
  | u :: _ => (compressAsciiSet c.ascii).matches u

/-- `char_class_base::tp::try_parse` for the Unicode encodings, char_class.hpp l.211-243:
    the number of units consumed, or `none`. -/
def tryParse (e : Enc) (c : CC) (s : List Nat) : Option Nat :=
  if c.tableMatch s then some 1
  else match c.matchCp with
    | none => none
    | some f =>
      let r := parseCp e s
      if r.error ≠ .success then none
      else if !f r.cp then none
      else some r.len

/-- `char_class_base::tp::try_parse` for the default and byte encodings, char_class.hpp l.211-227 and l.244-260. -/
def tryParseByte (c : CC) (s : List Nat) : Option Nat :=
  match s with
  | [] => none
  | u :: _ =>
    if (compressAsciiSet c.ascii).matches u then some 1
    else match c.matchCp with
      | none => none
      | some f => if f u then some 1 else none

end CC
end Verif
